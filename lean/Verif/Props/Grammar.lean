import Verif.Lemmas.Grammar
import Verif.Props.Expr
/-
Property theorems about reading value expressions (C48, C72, C73).
-/
namespace Dinero

/-! ### C48: operator chains -/

/-- Expressions of any size that are written with at most two operands per operator level, nested
ones in parentheses, are read back exactly.  Missing for the full property: chains of three or more
operands, for which it is false (below). -/
theorem C48_round_trip_partial (env : Env) (ha : env.AsciiSep) (e : Ast) (s rest : Str)
    (h : Writes env .alone e s) : buildRoot env ('(' :: s ++ ')' :: rest) = .ok e :=
  buildRoot_writes ha h rest

theorem exEnv_ascii : exEnv.AsciiSep := by
  intro c _
  simp [exEnv]

example : Writes exEnv .alone
    (.binary .and (.binary .eq .account (.regex "Food".toList))
      (.binary .gt .amount (.number (unsignedVal "10.5".toList))))
    "(account =~ /Food/) and (amount > 10.5)".toList :=
  .binary (op := .and) (.paren (.binary (op := .eq) .account (.regex (by decide) rfl)))
    (.paren (.binaryNumR (op := .gt) .amount (.number (.inr ⟨"10".toList, "5".toList, by decide,
      ⟨by decide, by decide⟩, ⟨by decide, by decide⟩⟩))))

/-- Amounts with the commodity in front, also negative ones, are covered. -/
example : Writes exEnv .alone
    (.binary .lt .amount (.money "EUR".toList (-unsignedVal "5".toList))) "amount < EUR -5".toList :=
  .binary (op := .lt) .amount (.prefixMoneyNeg ⟨by unfold PlainCurrency; decide, by
    intro c h; cases h; decide⟩ (.inl ⟨by decide, by decide⟩))

/-- A chain `a op b op c ..` of any length (at one level other than that of `*` and `/`) is read as
`a op b`: every operand from the third on is dropped. -/
theorem C48_chain_keeps_two (env : Env) (ha : env.AsciiSep) (op : BinaryOp) (l r : Ast) (sl sr : Str)
    (hop : 1 ≤ op.level) (hl : OperandAt env op.level l sl) (hr : OperandAt env op.level r sr)
    (items : List (BinaryOp × Str))
    (hi : ∀ i ∈ items, i.1.level = op.level ∧ ∃ e, OperandAt env op.level e i.2) (rest : Str) :
    buildRoot env ('(' :: (sl ++ chainText ((op, sr) :: items)) ++ ')' :: rest) =
      .ok (.binary op l r) :=
  buildRoot_chain ha hop hl hr items hi rest

example : "(1 + 2 - 3 + 4)".toList = '(' :: ("1".toList ++ chainText [(.add, "2".toList),
    (.subtract, "3".toList), (.add, "4".toList)]) ++ ')' :: [] ∧
    OperandAt exEnv BinaryOp.add.level (.number (unsignedVal "1".toList)) "1".toList :=
  ⟨by decide, .inr ⟨by decide, .number (.inl ⟨by decide, by decide⟩)⟩⟩

/-- A chain of three or more factors or divisors, written with blanks, is not accepted at all. -/
theorem C48_product_chain_panics (env : Env) (ha : env.AsciiSep) (op op' : BinaryOp) (l r : Ast)
    (sl sr rest : Str) (hop : op.level = 0) (hop' : op'.level = 0) (hl : OperandAt env 0 l sl)
    (hr : OperandAt env 0 r sr) :
    buildRoot env ('(' :: (sl ++ chainText [(op, sr), (op', rest)])) =
      .error (.panic "unsuccessful parse") :=
  buildRoot_mult_chain ha hop hop' hl hr rest

example : "(2 * 3 / 4)".toList = '(' :: ("2".toList ++ chainText [(.mult, "3".toList),
    (.div, "4)".toList)]) := by decide

/-- The property fails: `(1 + 2 + 3)` is 3, `(8 - 4 - 2)` is 4, and `(2 * 3 * 4)` is no expression. -/
theorem C48_false :
    exVal (evalExpression exEnv "(1 + 2 + 3)".toList exTxn exPosting {}) = some (.number 3) ∧
    exVal (evalExpression exEnv "(8 - 4 - 2)".toList exTxn exPosting {}) = some (.number 4) ∧
    evalExpression exEnv "(2 * 3 * 4)".toList exTxn exPosting {} =
      .error (.panic "unsuccessful parse") := by
  refine ⟨by decide +kernel, by decide +kernel, ?_⟩
  have := C48_product_chain_panics exEnv exEnv_ascii .mult .mult (.number 2) (.number 3)
    "2".toList "3".toList "4)".toList rfl rfl
    (.inr ⟨by decide, by
      have := Writes.number (env := exEnv) (n := "2".toList) (.inl ⟨by decide, by decide⟩)
      rwa [show unsignedVal "2".toList = 2 by decide +kernel] at this⟩)
    (.inr ⟨by decide, by
      have := Writes.number (env := exEnv) (n := "3".toList) (.inl ⟨by decide, by decide⟩)
      rwa [show unsignedVal "3".toList = 3 by decide +kernel] at this⟩)
  unfold evalExpression
  rw [show "(2 * 3 * 4)".toList = '(' :: ("2".toList ++ chainText [(.mult, "3".toList),
    (.mult, "4)".toList)]) by decide, this]

/-! ### C72: unary operators -/

/-- A leading `-` or `not` applies to the whole rest of the expression, whatever operators that
contains. -/
theorem C72_unary_takes_all (env : Env) (ha : env.AsciiSep) (e : Ast) (s rest : Str)
    (h : Writes env .alone e s) :
    buildRoot env ('(' :: ("-".toList ++ s) ++ ')' :: rest) = .ok (.unary .neg e) ∧
    buildRoot env ('(' :: ("not ".toList ++ s) ++ ')' :: rest) = .ok (.unary .not e) :=
  buildRoot_unary ha h rest

/-- When the operand is a parenthesised expression or a call standing alone, the operator applies to
just that.  Missing for the full property: operands followed by another operator. -/
theorem C72_unary_operand_partial (env : Env) (ha : env.AsciiSep) (e : Ast) (s rest : Str)
    (h : Writes env .operand e s) :
    buildRoot env ('(' :: ("-".toList ++ s) ++ ')' :: rest) = .ok (.unary .neg e) ∧
    buildRoot env ('(' :: ("not ".toList ++ s) ++ ')' :: rest) = .ok (.unary .not e) :=
  buildRoot_unary ha (.operandAlone h) rest

/-- The property fails: `(-1 + 2)` is `-3`, and `not a and b` is `not (a and b)`. -/
theorem C72_false :
    exVal (evalExpression exEnv "(-1 + 2)".toList exTxn exPosting {}) = some (.number (-3)) ∧
    exVal (evalExpression exEnv "(not (account =~ /Cash/) and (account =~ /Cash/))".toList exTxn
      exPosting {}) = some (.bool true) ∧
    exVal (evalExpression exEnv "((not (account =~ /Cash/)) and (account =~ /Cash/))".toList exTxn
      exPosting {}) = some (.bool false) := by decide +kernel

/-! ### C73: numbers in front of `and` and `or` -/

/-- A comparison with a number, in parentheses, can be combined with `and` and `or` freely.  Missing
for the full property: the parentheses, without which it is false (below). -/
theorem C73_number_connective_partial (env : Env) (ha : env.AsciiSep) (op cmp : BinaryOp) (l r : Ast)
    (sl sr n rest : Str) (hl : Writes env .operand l sl)
    (hn : IsNumeral n) (hr : Writes env .operand r sr) :
    buildRoot env ('(' :: ('(' :: (sl ++ ' ' :: cmp.text ++ ' ' :: n) ++ [')']) ++
      ' ' :: op.text ++ ' ' :: sr ++ ')' :: rest) =
      .ok (.binary op (.binary cmp l (.number (unsignedVal n))) r) := by
  have := buildRoot_writes ha (Writes.binary (op := op)
    (.paren (.binaryNumR (op := cmp) hl (.number hn))) hr) rest
  simpa using this

example : '(' :: ('(' :: ("amount".toList ++ ' ' :: BinaryOp.gt.text ++ ' ' :: "10".toList) ++ [')']) ++
      ' ' :: BinaryOp.and.text ++ ' ' :: "(account =~ /Food/)".toList ++ ')' :: [] =
    "((amount > 10) and (account =~ /Food/))".toList := by decide

/-- The property fails: `amount > 1 and ..` is not accepted, because `1 and` is read as an amount of
the commodity `and`; and `amount > 1 or (..)` likewise. -/
theorem C73_false :
    evalExpression exEnv "(amount > 1 and account =~ /Food/)".toList exTxn exPosting {} =
      .error (.panic "unsuccessful parse") ∧
    evalExpression exEnv "(amount > 1 or (account =~ /Food/))".toList exTxn exPosting {} =
      .error (.panic "unsuccessful parse") ∧
    exVal (evalExpression exEnv "((amount > 1) and (account =~ /Food/))".toList exTxn exPosting {}) =
      some (.bool true) := by
  have h1 : buildRoot exEnv "(amount > 1 and account =~ /Food/)".toList =
    .error (.panic "unsuccessful parse") := by decide +kernel
  have h2 : buildRoot exEnv "(amount > 1 or (account =~ /Food/))".toList =
    .error (.panic "unsuccessful parse") := by decide +kernel
  refine ⟨by rw [evalExpression, h1], by rw [evalExpression, h2], by decide +kernel⟩

end Dinero
