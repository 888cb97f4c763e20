import Verif.Spec.Sales
import Verif.Model.Complaint
/-
What is wrong with a transaction that cannot be booked, and how the message says so.
-/
namespace Dinero

/-- The amounts are what `f` has, one for each commodity. -/
def Holds (ms : List Money) (f : Cur → Rat) : Prop :=
  (ms.map Money.commodity).Nodup ∧ ∀ m, m ∈ ms ↔ ∃ c, m = .mk (f c) c ∧ f c ≠ 0

/-- The lines about a total that was asserted wrongly: what was written, what the account has, and by how much it has
more. -/
def assertedText (written : Money) (has more : List Money) : Str :=
  "Found:       ".toList ++ written.shown ++ ['\n'] ++ "Expected:    ".toList ++ (has.map Money.shown).flatten ++ ['\n'] ++
    "Difference:  ".toList ++ (more.map Money.shown).flatten ++ ['\n']

/-- What is wrong with a transaction, with the accounts at `start`, the error this makes, and what is written about it: the
first of these that applies.
* The postings in brackets do not balance, with purchases for sales.
* A total is asserted that the account does not have.
* A total is assigned that no single amount reaches.
* More than one amount is left out.
* No amount is left out and the transaction does not balance. -/
inductive Fault (skip : Bool) (start : Str → Cur → Rat) (t : Txn Posting) : Err → Str → Prop
  | brackets : ¬ MayBalance (weightOf .virtBal t.bought.postings) → Fault skip start t .notBalanced []
  | asserted {pre q post qs m x d has more} : MayBalance (weightOf .virtBal t.bought.postings) →
      t.postings = pre ++ q :: post → Posts skip start pre qs → q.kind = .real → q.amount = some m → skip = false →
      q.balance = some (.mk x d) → start q.account d + postedTo qs q.account d + m.amountIn d ≠ x →
      Holds has (fun c => start q.account c + postedTo qs q.account c + m.amountIn c) →
      Holds more (fun c => start q.account c + postedTo qs q.account c + m.amountIn c - if d = c then x else 0) →
      Fault skip start t .notBalanced (assertedText (.mk x d) has more)
  | assigned {pre q post qs b} : MayBalance (weightOf .virtBal t.bought.postings) →
      t.postings = pre ++ q :: post → Posts skip start pre qs → q.kind = .real → q.amount = none → skip = false →
      q.balance = some b →
      (¬ ∃ m : Money, ∀ c, start q.account c + postedTo qs q.account c + m.amountIn c = b.amountIn c) →
      Fault skip start t .notBalanced []
  | empties {qs n} : MayBalance (weightOf .virtBal t.bought.postings) → Posts skip start t.postings qs →
      (t.postings.filter (fun p => p.elided skip)).length = n → 2 ≤ n → Fault skip start t (.tooManyEmpty n) []
  | unbalanced {qs} : MayBalance (weightOf .virtBal t.bought.postings) → Posts skip start t.postings qs →
      (∀ p ∈ t.postings, ¬ p.elided skip) → ¬ MayBalance (weightOf .real qs) → Fault skip start t .notBalanced []

/-- The name of the error. -/
def faultName : Err → Str
  | .notBalanced => "TransactionIsNotBalanced".toList
  | .tooManyEmpty n => "TooManyEmptyPostings(".toList ++ digits n ++ ")".toList
  | _ => []

/-- The line of a posting in the message: a tab, the account in a column of 50, and the amount, if it is written. -/
def postingLine (p : Posting) : Str :=
  '\t' :: padRight 50 p.account ++ (p.amount.map Money.shown).getD []

/-- The message: what was written about the fault, the transaction with a line for each posting, and the error. -/
def faultText (text : Str) (date : Date) (t : Txn Posting) (e : Err) : Str :=
  text ++ isoDate date ++ " ".toList ++ t.description ++ "\n".toList ++
    (t.postings.map (fun p => postingLine p ++ "\n".toList)).flatten ++ faultName e ++ "\n".toList

/-- The transactions up to one can be booked, this one cannot, and the message says what is wrong with it. -/
def Stuck (skip : Bool) (ts : List (Txn Posting)) (e : Err) (message : Str) : Prop :=
  ∃ pre t post mid date text, ts = pre ++ t :: post ∧ BooksAll skip (fun _ _ => 0) (pre.map Txn.bought) mid ∧
    (¬ ∃ after, Books skip mid t.bought after) ∧ t.date = some date ∧ Fault skip mid t e text ∧
    message = faultText text date t e

end Dinero
