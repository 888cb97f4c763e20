import Verif.Spec.Grammar
/-
Value expressions as they are usually written, with few parentheses: how the operators bind.
-/
namespace Dinero

/-- How a piece of text ends: with something complete; with a number, which would take a following word for its
commodity; or with `not e` or `-e`, which take everything that follows. -/
inductive Ends where
  | closed
  | number
  | greedy
  deriving DecidableEq

/-- An operator of level `L` may follow. -/
def Ends.before : Ends → Nat → Prop
  | .closed, _ => True
  | .number, L => L < 3
  | .greedy, _ => False

/-- An operator with its right operand; `stops` is explained below. -/
structure Operand where
  op : BinaryOp
  tree : Ast
  text : Str
  ends : Ends
  stops : Bool

/-- `Phrase env L ends stops e s`: the text `s`, without operators of level `L` and above outside parentheses, is read
as `e`.  The operands of one level are joined by its operators; the first operator and its two operands count, what
follows is read and ignored (C48).  A product leaves a blank that follows it unread, and so does a chain that ends with
one (`stops`); only the next higher level reads it.  So in a chain all operands but the first and the last must not stop:
products have two operands, and only the first and the last term of a sum may be products. -/
inductive Phrase (env : Env) : Nat → Ends → Bool → Ast → Str → Prop
  | operand {e : Ast} {s : Str} : Writes env .operand e s → Phrase env 0 .closed true e s
  | number {e : Ast} {s : Str} : Writes env .numeric e s → Phrase env 0 .number true e s
  | paren {ends : Ends} {stops : Bool} {e : Ast} {s : Str} : Phrase env 5 ends stops e s →
      Phrase env 0 .closed true e ('(' :: s ++ [')'])
  | call {ends : Ends} {stops : Bool} {op : UnaryOp} {f : Str} {e : Ast} {s : Str} : funText op = some f →
      Phrase env 5 ends stops e s → Phrase env 0 .closed true (.unary op e) (f ++ '(' :: s ++ [')'])
  | not {ends : Ends} {stops : Bool} {e : Ast} {s : Str} : Phrase env 5 ends stops e s →
      Phrase env 0 .greedy true (.unary .not e) ("not ".toList ++ s)
  | neg {ends : Ends} {stops : Bool} {e : Ast} {s : Str} : Phrase env 5 ends stops e s →
      Phrase env 0 .greedy true (.unary .neg e) ('-' :: s)
  | up {L : Nat} {ends : Ends} {stops : Bool} {e : Ast} {s : Str} : Phrase env L ends stops e s →
      Phrase env (L + 1) ends false e s
  | chain {L : Nat} {ends : Ends} {stops : Bool} {l : Ast} {sl : Str} {first last : Operand} {mid rest : List Operand} :
      mid ++ [last] = first :: rest → (∀ i ∈ first :: rest, i.op.level = L) →
      Phrase env L ends stops l sl → ends.before L →
      (∀ i ∈ mid, Phrase env L i.ends i.stops i.tree i.text) → (∀ i ∈ mid, i.ends.before L ∧ i.stops = false) →
      Phrase env L last.ends last.stops last.tree last.text →
      Phrase env (L + 1) last.ends last.stops (.binary first.op l first.tree)
        (sl ++ chainText ((first :: rest).map (fun i => (i.op, i.text))))

end Dinero
