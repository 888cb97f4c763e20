import Verif.Spec.Typing
import Mathlib.Algebra.Order.Field.Rat
import Mathlib.Algebra.Order.Group.Unbundled.Abs
/-
What value expressions say of a posting: quantities, truth, texts, days.  Where there is only one commodity, or amounts
are only held against numbers, money is its quantity.
-/
namespace Dinero

/-- What an expression comes to; accounts and payees are their names, a missing tag is a missing text. -/
inductive Sense where
  | quantity (q : Rat)
  | truth (b : Bool)
  | text (s : Option Str)
  | pattern (pat : Str)
  | day (d : Date)
  | notes (lines : List Str)
  deriving DecidableEq

/-- It is true. -/
def Sense.holds : Sense → Bool
  | .truth b => b
  | _ => false

/-- The order of quantities, of days, and of texts: letter by letter, a missing one first. -/
def Sense.less : Sense → Sense → Bool
  | .quantity a, .quantity b => a < b
  | .day a, .day b => a < b
  | .text none, .text (some _) => true
  | .text (some a), .text (some b) => a < b
  | _, _ => false

/-- The pattern is found: in the text, if there is one, or in one of the notes. -/
def Sense.shows (env : Env) (pat : Str) : Sense → Bool
  | .text (some s) => env.rx pat s
  | .notes ls => ls.any (env.rx pat)
  | _ => false

/-- An operation on what an expression comes to, for the posting `p`. -/
def Sense.unary (env : Env) (p : Posting) : UnaryOp → Sense → Sense
  | .not, .truth b => .truth (!b)
  | .neg, .truth b => .truth (!b)
  | .neg, .quantity q => .quantity (-q)
  | .abs, .quantity q => .quantity |q|
  | .hasTag, .pattern s => .truth (p.tags.any (fun t => env.rx s t.name))
  | .tag, .pattern s => .text ((p.tags.find? (fun t => env.rx s t.name)).bind (fun t => t.value))
  | .tag, .text (some s) => .text ((p.tags.find? (fun t => t.name = s)).bind (fun t => t.value))
  | .toDate, .text (some s) => .day ((env.dateOf s).getD 0)
  | _, v => v

/-- An operation on two quantities. -/
def BinaryOp.onRat : BinaryOp → Rat → Rat → Rat
  | .add, a, b => a + b
  | .subtract, a, b => a - b
  | .mult, a, b => a * b
  | .div, a, b => a / b
  | _, a, _ => a

/-- An operation on what two expressions come to. -/
def Sense.binary (env : Env) (op : BinaryOp) (a b : Sense) : Sense :=
  match op with
  | .or => .truth (a.holds || b.holds)
  | .and => .truth (a.holds && b.holds)
  | .lt => .truth (a.less b)
  | .gt => .truth (b.less a)
  | .le => .truth (!b.less a)
  | .ge => .truth (!a.less b)
  | .eq =>
    match b with
    | .pattern s => .truth (a.shows env s)
    | _ => .truth (a = b)
  | op =>
    match a, b with
    | .quantity x, .quantity y => .quantity (op.onRat x y)
    | _, _ => a

/-- What an expression says of a posting of the transaction `t`; `any` asks all its postings. -/
def Ast.sense (env : Env) (t : Txn Posting) : Ast → Posting → Sense
  | .amount, p => .quantity (p.amount.getD .zero).amount
  | .account, p => .text (some p.account)
  | .payee, p => .text p.payee
  | .note, _ => .notes t.comments
  | .date, _ => .day (t.date.getD 0)
  | .number r, _ => .quantity r
  | .money _ r, _ => .quantity r
  | .regex s, _ => .pattern s
  | .string s, _ => .text (some s)
  | .unary .any c, _ => .truth (t.postings.any (fun q => (c.sense env t q).holds))
  | .unary op c, p => (c.sense env t p).unary env p op
  | .binary op l r, p => (l.sense env t p).binary env op (r.sense env t p)

/-- Amounts of money are not held equal to each other, which would ask for their commodities; where there is only one
they may be. -/
def Ast.apart (env : Env) (mono : Bool) : Ast → Bool
  | .unary _ c => c.apart env mono
  | .binary op l r =>
    l.apart env mono && r.apart env mono &&
      (mono || !(op = .eq ∧ l.type env mono = some .money ∧ r.type env mono = some .money))
  | _ => true

/-- The value, as a quantity, truth, text or day. -/
inductive Val.Shows (t : Txn Posting) : Val → Sense → Prop
  | number (r : Rat) : Val.Shows t (.number r) (.quantity r)
  | money (m : Money) : Val.Shows t (.money m) (.quantity m.amount)
  | bool (b : Bool) : Val.Shows t (.bool b) (.truth b)
  | account (n : Str) : Val.Shows t (.account n) (.text (some n))
  | payee (n : Str) : Val.Shows t (.payee n) (.text (some n))
  | regex (pat : Str) : Val.Shows t (.regex pat) (.pattern pat)
  | string (s : Option Str) : Val.Shows t (.string s) (.text s)
  | date (d : Date) : Val.Shows t (.date d) (.day d)
  | note : Val.Shows t .note (.notes t.comments)

/-! ### Questions -/

/-- The question is read as `node`, which makes sense and does not hold amounts of different commodities equal. -/
def ClearQuery (env : Env) (only : Option Cur) (query : List Str) (node : Option Ast) : Prop :=
  queryNode env query = .ok node ∧ ∀ n, node = some n → n.HasType env only .bool ∧ n.apart env only.isSome = true

/-- The options ask for the posting: it is real, if only these are asked for; it is not before the first day and before
the last one; and what the question says of it is true. -/
def ReportOpts.asks (env : Env) (o : ReportOpts) (node : Option Ast) (t : Txn Posting) (p : Posting) : Bool :=
  (!o.filter.real || p.kind = .real) &&
  o.filter.fromDate.all (fun d => t.date.any (fun x => d ≤ x)) &&
  o.filter.toDate.all (fun d => t.date.any (fun x => x < d)) &&
  node.all (fun n => (n.sense env t p).holds)

/-- The postings that are asked for, each with its transaction. -/
def askedOf (env : Env) (o : ReportOpts) (node : Option Ast) (txns : List (Txn Posting)) : List (Txn Posting × Posting) :=
  txns.flatMap (fun t => (t.postings.filter (o.asks env node t)).map (fun p => (t, p)))

end Dinero
