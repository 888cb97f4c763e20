import Verif.Model.Base
/-
Parsing expression grammars as pest runs them: ordered choice, greedy repetition without
backtracking, and the tree of matched rules (`pest::iterators::Pair`).
-/
namespace Dinero

/-- The non-silent rules of src/grammar/grammar.pest whose pairs are looked at by the code. -/
inductive Rule where
  | valueExpr | expr | orExpr | andExpr | comparisonExpr | additiveExpr | multiplicativeExpr
  | primary | unary | function | variable | money | number | currency | regex | string | unquoted
  | add | mult | and | or | comparison
  | price | commodity | transaction | date | time | year | month | day | dateSep
  | status | code | description | payee | comment | eol
  deriving DecidableEq, Repr

/-- `pest::iterators::Pair`: the rule, the matched text (`as_str`) and the inner pairs. -/
inductive Pair where
  | mk (rule : Rule) (text : Str) (inner : List Pair)

/-- `Pair::as_rule`. -/
def Pair.rule : Pair → Rule
  | mk r _ _ => r
/-- `Pair::as_str`. -/
def Pair.text : Pair → Str
  | mk _ s _ => s
/-- `Pair::into_inner`. -/
def Pair.inner : Pair → List Pair
  | mk _ _ l => l

/-- A parser: fails (`none`), or succeeds with the pairs it produced and the remaining text. -/
abbrev P := Str → Option (List Pair × Str)

namespace P

/-- The empty expression. -/
def eps : P := fun s => some ([], s)

/-- `"text"`. -/
def lit (l : Str) : P := fun s =>
  if l.isPrefixOf s then some ([], s.drop l.length) else none

/-- One character of a class. -/
def chr (p : Char → Bool) : P
  | c :: s => if p c then some ([], s) else none
  | [] => none

/-- `a ~ b`. -/
def seq (a b : P) : P := fun s =>
  match a s with
  | none => none
  | some (x, s') =>
    match b s' with
    | none => none
    | some (y, s'') => some (x ++ y, s'')

/-- `a | b`. -/
def alt (a b : P) : P := fun s =>
  match a s with
  | some r => some r
  | none => b s

/-- `a?`. -/
def opt (a : P) : P := alt a eps

/-- `!a ~ ..`: succeeds without consuming anything iff `a` fails. -/
def neg (a : P) : P := fun s =>
  match a s with
  | some _ => none
  | none => some ([], s)

/-- `a*` with at most `n` repetitions. -/
def starN (a : P) : Nat → P
  | 0, s => some ([], s)
  | n + 1, s =>
    match a s with
    | none => some ([], s)
    | some (x, s') =>
      match starN a n s' with
      | none => none
      | some (y, s'') => some (x ++ y, s'')

/-- `a*`: every repeated expression of the grammar consumes a character, so the length of the text
bounds the number of repetitions. -/
def star (a : P) : P := fun s => starN a s.length s

/-- `a+`. -/
def plus (a : P) : P := seq a (star a)

/-- `rule = { a }`: one pair whose text is what was consumed and whose inner pairs are those of
`a`. -/
def rule (r : Rule) (a : P) : P := fun s =>
  match a s with
  | none => none
  | some (x, s') => some ([.mk r (s.take (s.length - s'.length)) x], s')

/-- Ordered choice of literals. -/
def lits : List String → P
  | [] => fun _ => none
  | l :: ls => alt (lit l.toList) (lits ls)

/-- `ws*`: `ws = _{" "}`, src/grammar/grammar.pest 98. -/
def wss : P := star (lit [' '])

/-- `ASCII_DIGIT`. -/
def digit : P := chr (fun c => decide ('0' ≤ c) && decide (c ≤ '9'))

/-- `bigint = _{ ASCII_DIGIT+ }`, src/grammar/grammar.pest 97. -/
def bigint : P := plus digit

end P
end Dinero
