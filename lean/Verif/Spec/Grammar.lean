import Verif.Model.Grammar
import Verif.Spec.Display
/-
How expressions are written unambiguously: every operator with at most two operands, nested
expressions in parentheses.
-/
namespace Dinero

/-- The text of a binary operator. -/
def BinaryOp.text : BinaryOp → Str
  | .add => "+".toList | .subtract => "-".toList | .mult => "*".toList | .div => "/".toList
  | .or => "or".toList | .and => "and".toList | .eq => "=~".toList
  | .ge => ">=".toList | .gt => ">".toList | .le => "<=".toList | .lt => "<".toList

/-- The text of a function. -/
def funText : UnaryOp → Option Str
  | .abs => some "abs".toList | .any => some "any".toList | .hasTag => some "has_tag".toList
  | .tag => some "tag".toList | .toDate => some "to_date".toList
  | .not | .neg => none

/-- A non-empty string of decimal digits. -/
def IsDigits (s : Str) : Prop := s ≠ [] ∧ ∀ c ∈ s, '0' ≤ c ∧ c ≤ '9'

/-- A numeral: digits, optionally followed by a point and digits. -/
def IsNumeral (s : Str) : Prop := IsDigits s ∨ ∃ a b, s = a ++ '.' :: b ∧ IsDigits a ∧ IsDigits b

/-- A commodity name that needs no quotes. -/
def PlainCurrency (env : Env) (s : Str) : Prop :=
  s ≠ [] ∧ (∀ c ∈ s, reserved c = false ∧ env.sep c = false) ∧
  s.head? ≠ some '=' ∧ s.head? ≠ some '-' ∧ s.head? ≠ some '&' ∧ s.head? ≠ some '"' ∧
  s.head? ≠ some '\''

/-- The letters with which a variable or the operator `not` starts: a commodity name in front of a
number must not start with one of them (`NOK 5` reads as the variable `N`). -/
def variableInitials : List Char :=
  ['a', 'p', 'd', 'n', 't', 'c', 'v', 'g', 'r', 'T', 'N', 'O', 'Z', 'R', 'X', 'l', 'b']

/-- A commodity name that can stand in front of a number. -/
def PrefixCurrency (env : Env) (s : Str) : Prop :=
  PlainCurrency env s ∧ ∀ c, s.head? = some c →
    ¬ ('0' ≤ c ∧ c ≤ '9') ∧ c ≠ ' ' ∧ c ≠ '!' ∧ c ∉ variableInitials

/-- Where a piece of text may stand: as an operand of any operator; as an operand of an operator
other than `and` and `or`; or only on its own (in parentheses, or as an argument). -/
inductive Pos where
  | operand
  | numeric
  | alone
  deriving DecidableEq

/-- `Writes env pos e s`: the text `s` is an unambiguous way of writing the expression `e` that may
stand at `pos`. -/
inductive Writes (env : Env) : Pos → Ast → Str → Prop
  | account : Writes env .operand .account "account".toList
  | payee : Writes env .operand .payee "payee".toList
  | date : Writes env .operand .date "date".toList
  | amount : Writes env .operand .amount "amount".toList
  | note : Writes env .operand .note "note".toList
  | regex {pat : Str} : '/' ∉ pat → env.rxOk pat = true →
      Writes env .operand (.regex pat) ('/' :: pat ++ ['/'])
  | string {s : Str} : '"' ∉ s → '\\' ∉ s → Writes env .operand (.string s) ('"' :: s ++ ['"'])
  | money {n c : Str} : IsNumeral n → PlainCurrency env c →
      Writes env .operand (.money c (unsignedVal n)) (n ++ ' ' :: c)
  | prefixMoney {n c : Str} : PrefixCurrency env c → IsNumeral n →
      Writes env .operand (.money c (unsignedVal n)) (c ++ ' ' :: n)
  | prefixMoneyNeg {n c : Str} : PrefixCurrency env c → IsNumeral n →
      Writes env .operand (.money c (-unsignedVal n)) (c ++ ' ' :: '-' :: n)
  | number {n : Str} : IsNumeral n → Writes env .numeric (.number (unsignedVal n)) n
  | call {op : UnaryOp} {f : Str} {e : Ast} {s : Str} : funText op = some f →
      Writes env .alone e s → Writes env .operand (.unary op e) (f ++ '(' :: s ++ [')'])
  | paren {e : Ast} {s : Str} : Writes env .alone e s → Writes env .operand e ('(' :: s ++ [')'])
  | not {e : Ast} {s : Str} : Writes env .alone e s →
      Writes env .alone (.unary .not e) ("not (".toList ++ s ++ [')'])
  | neg {e : Ast} {s : Str} : Writes env .alone e s →
      Writes env .alone (.unary .neg e) ("-(".toList ++ s ++ [')'])
  | binary {op : BinaryOp} {l r : Ast} {sl sr : Str} : Writes env .operand l sl →
      Writes env .operand r sr →
      Writes env .alone (.binary op l r) (sl ++ ' ' :: op.text ++ ' ' :: sr)
  | binaryNumR {op : BinaryOp} {l r : Ast} {sl sr : Str} : Writes env .operand l sl →
      Writes env .numeric r sr →
      Writes env .alone (.binary op l r) (sl ++ ' ' :: op.text ++ ' ' :: sr)
  | binaryNumL {op : BinaryOp} {l r : Ast} {sl sr : Str} : op ≠ .and → op ≠ .or →
      Writes env .numeric l sl → Writes env .operand r sr →
      Writes env .alone (.binary op l r) (sl ++ ' ' :: op.text ++ ' ' :: sr)
  | binaryNums {op : BinaryOp} {l r : Ast} {sl sr : Str} : op ≠ .and → op ≠ .or →
      Writes env .numeric l sl → Writes env .numeric r sr →
      Writes env .alone (.binary op l r) (sl ++ ' ' :: op.text ++ ' ' :: sr)
  | operandAlone {e : Ast} {s : Str} : Writes env .operand e s → Writes env .alone e s
  | numericAlone {e : Ast} {s : Str} : Writes env .numeric e s → Writes env .alone e s

/-- Among the ASCII characters only the blank is a Unicode separator. -/
def Env.AsciiSep (env : Env) : Prop := ∀ c : Char, c.toNat < 128 → (env.sep c = true ↔ c = ' ')

/-- The five levels, from the tightest. -/
def BinaryOp.level : BinaryOp → Nat
  | .mult | .div => 0
  | .add | .subtract => 1
  | .eq | .ge | .gt | .le | .lt => 2
  | .and => 3
  | .or => 4

/-- The rest of a chain: operators with their right operands. -/
def chainText : List (BinaryOp × Str) → Str
  | [] => []
  | (op, s) :: rest => ' ' :: op.text ++ ' ' :: s ++ chainText rest

/-- May `s` stand next to operators of this level? -/
def OperandAt (env : Env) (L : Nat) (e : Ast) (s : Str) : Prop :=
  Writes env .operand e s ∨ (L < 3 ∧ Writes env .numeric e s)

end Dinero
