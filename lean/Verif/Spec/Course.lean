import Verif.Spec.Commands
/-
Specifications for journals with their transactions in another order, or at other dates (C143).
-/
namespace Dinero

/-- A transaction without its dates. -/
def Txn.undated (t : Txn RawPosting) : Txn RawPosting := { t with date := none, effectiveDate := none }

/-- The same transactions in any order and at any dates.  Declarations are the same, and prices are given for the same commodities. -/
structure Rearranged (pl pl' : ParsedLedger) : Prop where
  lists : pl'.lists = pl.lists
  transactions : (pl'.transactions.map Txn.undated).Perm (pl.transactions.map Txn.undated)
  prices : ∀ c, (∃ p ∈ pl'.prices, p.commodity = c ∨ p.otherCommodity = c) ↔ ∃ p ∈ pl.prices, p.commodity = c ∨ p.otherCommodity = c

/-- The account is not asked for a total: nothing that is written has to hold at a certain moment. -/
def ParsedLedger.Timeless (skip : Bool) (pl : ParsedLedger) : Prop :=
  skip = true ∨ ∀ t ∈ pl.regular, ∀ p ∈ t.postings, p.kind = .real → p.balanceCurrency = none

/-- The transaction at other dates. -/
def Txn.redated (f : Date → Date) (t : Txn RawPosting) : Txn RawPosting :=
  { t with date := t.date.map f, effectiveDate := t.effectiveDate.map f }

/-- The transactions in any order, but for those of a day, and at other dates, but the later ones still later. -/
structure InStep (f : Date → Date) (ts ts' : List (Txn RawPosting)) : Prop where
  later : ∀ d e, d < e → f d < f e
  same : ts'.Perm (ts.map (Txn.redated f))
  days : ∀ d, ts'.filter (fun t => t.date = some (f d)) = (ts.filter (fun t => t.date = some d)).map (Txn.redated f)

end Dinero
