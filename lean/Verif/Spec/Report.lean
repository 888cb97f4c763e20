import Verif.Model.Report
import Verif.Spec.Balance
import Verif.Spec.Transaction
/-
What the reports should show, in terms of the selected postings only.
-/
namespace Dinero

/-- All postings of a ledger in order, each with its transaction. -/
def Ledger.entries (l : Ledger) : List (Txn Posting × Posting) :=
  l.transactions.flatMap (fun t => t.postings.map (fun p => (t, p)))

/-- `sel` are the entries the filter keeps, in order (the filter may add commodities to the list it
looks commodities up in, hence the two states). -/
inductive Selects (env : Env) (o : FilterOpts) (node : Option Ast) :
    List (Txn Posting × Posting) → Commodities → List (Txn Posting × Posting) → Commodities → Prop
  | nil (st : Commodities) : Selects env o node [] st [] st
  | keep {x : Txn Posting × Posting} {rest sel : List (Txn Posting × Posting)}
      {st st' st'' : Commodities} (h : filterPosting env o node x.1 x.2 st = .ok (true, st'))
      (hr : Selects env o node rest st' sel st'') : Selects env o node (x :: rest) st (x :: sel) st''
  | drop {x : Txn Posting × Posting} {rest sel : List (Txn Posting × Posting)}
      {st st' st'' : Commodities} (h : filterPosting env o node x.1 x.2 st = .ok (false, st'))
      (hr : Selects env o node rest st' sel st'') : Selects env o node (x :: rest) st sel st''

/-- `sel` are the postings of the ledger selected by the options of a report. -/
def Selected (env : Env) (opts : ReportOpts) (l : Ledger) (sel : List (Txn Posting × Posting)) : Prop :=
  ∃ node st, queryNode env opts.query = .ok node ∧
    Selects env opts.filter node l.entries l.commodities sel st

/-- The amount of commodity `c` in the selected postings on accounts satisfying `P`. -/
def selSum (sel : List (Txn Posting × Posting)) (P : Str → Bool) (c : Cur) : Rat :=
  sumIn ((sel.filter (fun x => P x.2.account)).filterMap (fun x => x.2.amount)) c

/-- The amounts written next to a label say exactly `f`: one non-zero amount for every commodity with
a non-zero total, nothing else. -/
structure Shows (ms : List Money) (f : Cur → Rat) : Prop where
  sum : ∀ c, sumIn ms c = f c
  nonzero : ∀ m ∈ ms, m.amount ≠ 0
  once : (ms.map Money.commodity).Nodup

/-- `name` is `account` or one of its sub-accounts. -/
def Below (account name : Str) : Prop := name = account ∨ ∃ r, name = account ++ ':' :: r

instance (account name : Str) : Decidable (∃ r, name = account ++ ':' :: r) :=
  decidable_of_iff ((account ++ [':']) <+: name)
    ⟨fun ⟨r, h⟩ => ⟨r, by simpa using h.symm⟩, fun ⟨r, h⟩ => ⟨r, by simpa using h.symm⟩⟩

instance (account name : Str) : Decidable (Below account name) := by
  unfold Below; infer_instance

/-- The number of components of an account name. -/
def components (name : Str) : Nat := (name.filter (fun c => c = ':')).length + 1

/-- `g` is `name` cut down to its first `d` components. -/
def CutTo (d : Nat) (name g : Str) : Prop :=
  (d = 0 ∧ g = []) ∨ (0 < d ∧ components name ≤ d ∧ g = name) ∨
    (0 < d ∧ components g = d ∧ ∃ r, name = g ++ ':' :: r)

instance (d : Nat) (name g : Str) : Decidable (CutTo d name g) := by
  unfold CutTo; infer_instance

/-- The tree of rows is well formed: a row with one more component than the row before it is below
that row, and an account with exactly one child row has no amount of its own. -/
def Orderly (rows : List (Str × Balance)) : Prop :=
  (∀ pre a b post, rows = pre ++ a :: b :: post → components b.1 = components a.1 + 1 →
    Below a.1 b.1) ∧
  (∀ a ∈ rows, ∀ b ∈ rows, Below a.1 b.1 → components b.1 = components a.1 + 1 →
    (∀ x ∈ rows, Below a.1 x.1 → components x.1 = components a.1 + 1 → x = b) →
    ∀ c, a.2.amountOf c = b.2.amountOf c)

/-- A line labelled `label` that starts at account `a` denotes account `b`: replacing the last
component of `a` by the label gives `b`. -/
def Labels (a b label : Str) : Prop :=
  ∃ parent last, a = parent ++ last ∧ ':' ∉ last ∧ (parent = [] ∨ ∃ q, parent = q ++ [':']) ∧
    b = parent ++ label

/-- A transaction as it leaves the balancing pass. -/
def Accepted (t' : Txn Posting) : Prop :=
  ∃ s skip bals bals' t ret, Txn.balance s skip bals t = .ok (bals', t', ret) ∧ bals.Ok ∧
    ∀ p ∈ t.postings, p.CostOk

end Dinero
