import Verif.Spec.Transaction
/-
When the transactions of a journal can be booked.
-/
namespace Dinero

/-- What an account has after the amount is posted to `account`. -/
def afterPosting (start : Str → Cur → Rat) (account : Str) (m : Money) (a : Str) (c : Cur) : Rat :=
  start a c + if account = a then m.amountIn c else 0

/-- The real postings `ps` in turn, from accounts with the amounts `start`, post `qs`.  An asserted total has to
be what the account then has in its commodity.  A total without an amount stands for the amount
after which the account has it and nothing else; it has a commodity only if it is not nothing.  With `skip`, totals are ignored. -/
inductive Posts (skip : Bool) : (Str → Cur → Rat) → List Posting → List Posting → Prop
  | nil {start} : Posts skip start [] []
  | other {start p ps qs} : p.kind ≠ .real → Posts skip start ps qs → Posts skip start (p :: ps) qs
  | elided {start p ps qs} : p.elided skip → Posts skip start ps qs → Posts skip start (p :: ps) qs
  | given {start p m ps qs} : p.kind = .real → p.amount = some m →
      (skip = false → ∀ x d, p.balance = some (.mk x d) → start p.account d + m.amountIn d = x) →
      Posts skip (afterPosting start p.account m) ps qs → Posts skip start (p :: ps) (p :: qs)
  | assigned {start p m b ps qs} : p.kind = .real → p.amount = none → skip = false → p.balance = some b →
      (∀ c, start p.account c + m.amountIn c = b.amountIn c) → (m = .zero ∨ m.amount ≠ 0) →
      Posts skip (afterPosting start p.account m) ps qs →
      Posts skip start (p :: ps) ({ p with amount := some m } :: qs)

/-- The transaction can be booked, and leaves the accounts with the amounts `after`: the bracketed postings may
balance, and either all amounts are known and may balance, or exactly one is elided and takes what the others
leave. -/
def Books (skip : Bool) (start : Str → Cur → Rat) (t : Txn Posting) (after : Str → Cur → Rat) : Prop :=
  ∃ qs, Posts skip start t.postings qs ∧ MayBalance (weightOf .virtBal t.postings) ∧
    (((∀ p ∈ t.postings, ¬ p.elided skip) ∧ MayBalance (weightOf .real qs) ∧
        ∀ a c, after a c = start a c + postedTo qs a c) ∨
      ∃ p, t.postings.filter (fun p => p.elided skip) = [p] ∧
        ∀ a c, after a c = start a c + postedTo qs a c + if p.account = a then - weightOf .real qs c else 0)

/-- The transactions can be booked one after the other, and leave the accounts with the amounts of the last
argument. -/
inductive BooksAll (skip : Bool) : (Str → Cur → Rat) → List (Txn Posting) → (Str → Cur → Rat) → Prop
  | nil {start} : BooksAll skip start [] start
  | cons {start t after ts final} : Books skip start t after → BooksAll skip after ts final →
      BooksAll skip start (t :: ts) final

/-- Sum, in commodity `c`, of the amounts of the virtual postings, in parentheses or brackets, made to `account`. -/
def virtualTo (ps : List Posting) (account : Str) (c : Cur) : Rat :=
  sumIn ((ps.filter (fun p => p.kind ≠ .real ∧ p.account = account)).filterMap Posting.amount) c

/-- `es` are the entries of the transaction in the accounts: the real postings with their amounts, for an elided amount
one entry for each commodity the others leave over, and the virtual postings as they are.  Without an elided amount
they may balance. -/
def Enters (skip : Bool) (start : Str → Cur → Rat) (t : Txn Posting) (es : List Posting) : Prop :=
  ∃ qs gen, Posts skip start t.postings qs ∧ es = qs ++ gen ++ t.postings.filter (fun p => p.kind ≠ .real) ∧
    (((∀ p ∈ t.postings, ¬ p.elided skip) ∧ MayBalance (weightOf .real qs) ∧ gen = []) ∨
      ∃ p, t.postings.filter (fun p => p.elided skip) = [p] ∧
        (∀ q ∈ gen, q.kind = .real ∧ q.account = p.account ∧ q.cost = none ∧ q.balance = none) ∧
        ∃ ms : List Money, gen.map Posting.amount = ms.map some ∧ (ms.map Money.commodity).Nodup ∧
          ∀ m, m ∈ ms ↔ ∃ c, m = .mk (-(weightOf .real qs c)) c ∧ weightOf .real qs c ≠ 0)

/-- The entries of the transactions one after the other. -/
inductive EntersAll (skip : Bool) : (Str → Cur → Rat) → List (Txn Posting) → List Posting → Prop
  | nil {start} : EntersAll skip start [] []
  | cons {start t es ts rest} : Enters skip start t es →
      EntersAll skip (fun a c => start a c + postedTo es a c) ts rest → EntersAll skip start (t :: ts) (es ++ rest)

/-- Postings that differ at most in what is not booked: their payee, tags, comments and origin. -/
def SameEntry (p q : Posting) : Prop :=
  q.account = p.account ∧ q.kind = p.kind ∧ q.amount = p.amount ∧ q.cost = p.cost ∧ q.balance = p.balance

/-- The transactions booked one after the other: each keeps its date, payee and comments and holds its entries. -/
inductive BookedAs (skip : Bool) : (Str → Cur → Rat) → List (Txn Posting) → List (Txn Posting) → Prop
  | nil {start} : BookedAs skip start [] []
  | cons {start t es t' ts ts'} : Enters skip start t es → t' = { t with postings := t'.postings } →
      List.Forall₂ SameEntry es t'.postings →
      BookedAs skip (fun a c => start a c + postedTo es a c) ts ts' → BookedAs skip start (t :: ts) (t' :: ts')

/-- What a posting shows in a report. -/
def Posting.entry (p : Posting) : Str × Kind × Option Money := (p.account, p.kind, p.amount)

end Dinero
