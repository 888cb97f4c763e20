import Verif.Model.Expr
import Verif.Spec.Balance
/-
What value expressions mean: formulas, exact arithmetic, selections.
-/
namespace Dinero

/-- Asking a named object about a sequence of patterns, one after the other. -/
def askAll (rx : Str → Str → Bool) : CachedName → List Str → List Bool
  | _, [] => []
  | n, pat :: pats => (n.isMatch rx pat).1 :: askAll rx (n.isMatch rx pat).2 pats

/-- Boolean formulas over expressions. -/
inductive Formula where
  | atom (n : Ast)
  | and (a b : Formula)
  | or (a b : Formula)
  | not (a : Formula)

/-- The expression written for a formula. -/
def Formula.toAst : Formula → Ast
  | atom n => n
  | and a b => .binary .and a.toAst b.toAst
  | or a b => .binary .or a.toAst b.toAst
  | not a => .unary .not a.toAst

/-- The truth value of a formula, given those of its atoms. -/
def Formula.holds (v : Ast → Prop) : Formula → Prop
  | atom n => v n
  | and a b => a.holds v ∧ b.holds v
  | or a b => a.holds v ∨ b.holds v
  | not a => ¬ a.holds v

/-- The atoms of a formula. -/
def Formula.atoms : Formula → List Ast
  | atom n => [n]
  | and a b => a.atoms ++ b.atoms
  | or a b => a.atoms ++ b.atoms
  | not a => a.atoms

/-- What an arithmetic expression denotes: a number, or an amount of every commodity. -/
inductive Meaning where
  | num (r : Rat)
  | amt (f : Cur → Rat)

/-- Exact arithmetic over numbers and multi-commodity amounts; `ρ` says which commodity a written
name denotes. -/
inductive Means (ρ : Str → Cur) (p : Posting) : Ast → Meaning → Prop
  | number (r : Rat) : Means ρ p (.number r) (.num r)
  | amount {m : Money} : p.amount = some m → Means ρ p .amount (.amt m.amountIn)
  | money (c : Str) (a : Rat) : Means ρ p (.money c a) (.amt (fun d => if d = ρ c then a else 0))
  | negNum {n : Ast} {a : Rat} : Means ρ p n (.num a) → Means ρ p (.unary .neg n) (.num (-a))
  | negAmt {n : Ast} {f : Cur → Rat} : Means ρ p n (.amt f) →
      Means ρ p (.unary .neg n) (.amt (fun c => - f c))
  | absNum {n : Ast} {a : Rat} : Means ρ p n (.num a) → Means ρ p (.unary .abs n) (.num |a|)
  | absAmt {n : Ast} {f : Cur → Rat} : Means ρ p n (.amt f) →
      Means ρ p (.unary .abs n) (.amt (fun c => |f c|))
  | addNum {l r : Ast} {a b : Rat} : Means ρ p l (.num a) → Means ρ p r (.num b) →
      Means ρ p (.binary .add l r) (.num (a + b))
  | addAmt {l r : Ast} {f g : Cur → Rat} : Means ρ p l (.amt f) → Means ρ p r (.amt g) →
      Means ρ p (.binary .add l r) (.amt (fun c => f c + g c))
  | subNum {l r : Ast} {a b : Rat} : Means ρ p l (.num a) → Means ρ p r (.num b) →
      Means ρ p (.binary .subtract l r) (.num (a - b))
  | subAmt {l r : Ast} {f g : Cur → Rat} : Means ρ p l (.amt f) → Means ρ p r (.amt g) →
      Means ρ p (.binary .subtract l r) (.amt (fun c => f c - g c))
  | mulNum {l r : Ast} {a b : Rat} : Means ρ p l (.num a) → Means ρ p r (.num b) →
      Means ρ p (.binary .mult l r) (.num (a * b))
  | mulAmtNum {l r : Ast} {f : Cur → Rat} {b : Rat} : Means ρ p l (.amt f) → Means ρ p r (.num b) →
      Means ρ p (.binary .mult l r) (.amt (fun c => f c * b))
  | mulNumAmt {l r : Ast} {a : Rat} {g : Cur → Rat} : Means ρ p l (.num a) → Means ρ p r (.amt g) →
      Means ρ p (.binary .mult l r) (.amt (fun c => a * g c))
  | divNum {l r : Ast} {a b : Rat} : Means ρ p l (.num a) → Means ρ p r (.num b) → b ≠ 0 →
      Means ρ p (.binary .div l r) (.num (a / b))
  | divAmtNum {l r : Ast} {f : Cur → Rat} {b : Rat} : Means ρ p l (.amt f) → Means ρ p r (.num b) →
      b ≠ 0 → Means ρ p (.binary .div l r) (.amt (fun c => f c / b))

/-- The meaning of a computed value, if it is a number or money. -/
def Val.meaning : Val → Option Meaning
  | .number r => some (.num r)
  | .money m => some (.amt m.amountIn)
  | _ => none

/-- The commodity a written name denotes according to a commodity list. -/
def resolves (env : Env) (st : Commodities) (c : Str) : Cur :=
  match st.get env.lower c with
  | .ok d => d.name
  | .error _ => c

end Dinero
