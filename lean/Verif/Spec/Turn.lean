import Verif.Spec.Course
/-
Specification of journals with the postings of their transactions in another order (C146).
-/
namespace Dinero

/-- The same transaction with its postings in any order. -/
def Txn.Turned (t t' : Txn RawPosting) : Prop := t' = { t with postings := t'.postings } ∧ t'.postings.Perm t.postings

/-- The same journal with the postings of each transaction in any order. -/
structure Turned (pl pl' : ParsedLedger) : Prop where
  lists : pl'.lists = pl.lists
  prices : pl'.prices = pl.prices
  transactions : List.Forall₂ Txn.Turned pl.transactions pl'.transactions

end Dinero
