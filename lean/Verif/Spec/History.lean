import Verif.Spec.Ledger
import Verif.Spec.Periods
/-
What it means that a journal goes on (C126).
-/
namespace Dinero

/-- The journal goes on: transactions and prices are added at the end, declarations are not. -/
structure GoesOn (pl pl' : ParsedLedger) (more : List (Txn RawPosting)) : Prop where
  lists : pl'.lists = pl.lists
  transactions : pl'.transactions = pl.transactions ++ more
  prices : ∃ ps, pl'.prices = pl.prices ++ ps

/-- What is added is not dated before what was there. -/
def Later (ts more : List (Txn RawPosting)) : Prop :=
  ∀ t ∈ ts, ∀ u ∈ more, ∀ d e, t.date = some d → u.date = some e → d ≤ e

/-- The second list starts with the first, the postings of a transaction possibly in another order. -/
def BeginsLike (ts ts' : List (Txn Posting)) : Prop :=
  ∃ first rest, ts' = first ++ rest ∧ List.Forall₂ SamePostings ts first

end Dinero
