import Verif.Spec.Course
/-
Specification of journals with amounts left out (C148).
-/
namespace Dinero

/-- The posting without its amount. -/
def RawPosting.bare (p : RawPosting) : RawPosting := { p with moneyAmount := none, moneyCurrency := none }

/-- The transaction `t'` is `t` with the amount of one real posting left out.  There are other real postings; all of them have
amounts of the same commodity and no costs. -/
def Txn.LeavesOut (t t' : Txn RawPosting) : Prop :=
  t' = { t with postings := t'.postings } ∧ ∃ pre p post c, t.postings = pre ++ p :: post ∧ t'.postings = pre ++ p.bare :: post ∧
    (∀ q ∈ t.postings, q.kind = .real → q.moneyCurrency = some c ∧ q.costCurrency = none ∧ q.costType = none) ∧ p.kind = .real ∧
    ∃ q ∈ pre ++ post, q.kind = .real

/-- The journal `pl'` is `pl` with some amounts left out. -/
structure Terse (pl pl' : ParsedLedger) : Prop where
  lists : pl'.lists = pl.lists
  prices : pl'.prices = pl.prices
  transactions : List.Forall₂ (fun t t' => t' = t ∨ t.LeavesOut t') pl.transactions pl'.transactions

end Dinero
