import Verif.Spec.Phrase
import Verif.Spec.Query
import Verif.Spec.Meaning
/-
The questions of the command line and of automated transactions: words, joined by `and` and `or`.
-/
namespace Dinero

/-- A word of a question, without what joins it to others, is the expression: the pattern of an account, `@` and that of a
payee, `%` and that of a tag, a pattern of accounts between slashes, in which case counts, or `expr` and an expression. -/
inductive Term (env : Env) : List Str → Ast → Prop
  | account {p : Str} : PlainPattern env p → Term env [p] (.binary .eq .account (.regex ("(?i)".toList ++ p)))
  | payee {p : Str} : trim env ('@' :: p) = '@' :: p → '/' ∉ p → env.rxOk ("(?i)".toList ++ p) = true →
      Term env ['@' :: p] (.binary .eq .payee (.regex ("(?i)".toList ++ p)))
  | tag {p : Str} : trim env ('%' :: p) = '%' :: p → '/' ∉ p → env.rxOk ("(?i)".toList ++ p) = true →
      Term env ['%' :: p] (.unary .hasTag (.regex ("(?i)".toList ++ p)))
  | regex {p : Str} : trim env ('/' :: p ++ ['/']) = '/' :: p ++ ['/'] → '/' ∉ p → env.rxOk p = true →
      Term env ['/' :: p ++ ['/']] (.binary .eq .account (.regex p))
  | expr {s : Str} {ends : Ends} {stops : Bool} {e : Ast} : trim env "expr".toList = "expr".toList → trim env s = s →
      ¬ IsKeyword s → Phrase env 5 ends stops e s → Term env ["expr".toList, s] e

/-- Words with `and` between them. -/
inductive Group (env : Env) : List Str → List Ast → Prop
  | one {w : List Str} {e : Ast} : Term env w e → Group env w [e]
  | and {w ws : List Str} {e : Ast} {es : List Ast} : Term env w e → Group env ws es →
      Group env (w ++ "and".toList :: ws) (e :: es)

/-- Groups with `or`, or nothing, between them. -/
inductive Question (env : Env) : List Str → List (List Ast) → Prop
  | one {ws : List Str} {es : List Ast} : Group env ws es → Question env ws [es]
  | next {ws r : List Str} {es : List Ast} {ess : List (List Ast)} : Group env ws es → Question env r ess →
      Question env (ws ++ r) (es :: ess)
  | or {ws r : List Str} {es : List Ast} {ess : List (List Ast)} : Group env ws es → Question env r ess →
      Question env (ws ++ "or".toList :: r) (es :: ess)

/-- What is made of operands with the same operator between them: the first two count (C48). -/
def joined (op : BinaryOp) : List Ast → Ast
  | [] => .number 0
  | [e] => e
  | a :: b :: _ => .binary op a b

/-- The question is answered with yes for the posting: in one of the first two groups the first two expressions are
true of it. -/
def answered (env : Env) (ess : List (List Ast)) (t : Txn Posting) (p : Posting) : Bool :=
  (ess.take 2).any (fun es => (es.take 2).all (fun e => (e.sense env t p).holds))

end Dinero
