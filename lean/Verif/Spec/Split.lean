import Verif.Spec.Course
/-
Specification of journals with postings written as two (C147).
-/
namespace Dinero

/-- The second and third posting are the first one in two: the same but for their amounts, which add up to its amount.  It has no
total cost, and if it is in brackets, no cost at all. -/
structure RawPosting.Halves (p a b : RawPosting) : Prop where
  amounts : ∃ x y, a = { p with moneyAmount := some x } ∧ b = { p with moneyAmount := some y } ∧ p.moneyAmount = some (x + y)
  commodity : p.moneyCurrency.isSome
  cost : (p.costCurrency = none ∧ p.costType = none) ∨ p.costType = some .perUnit ∧ p.kind ≠ .virtBal

/-- The same postings, some written as two. -/
inductive SplitPostings : List RawPosting → List RawPosting → Prop
  | nil : SplitPostings [] []
  | same {p ps ps'} : SplitPostings ps ps' → SplitPostings (p :: ps) (p :: ps')
  | halves {p a b ps ps'} : p.Halves a b → SplitPostings ps ps' → SplitPostings (p :: ps) (a :: b :: ps')

/-- The same transaction with some postings written as two. -/
def Txn.Split (t t' : Txn RawPosting) : Prop := t' = { t with postings := t'.postings } ∧ SplitPostings t.postings t'.postings

/-- The same journal with some postings written as two. -/
structure Split (pl pl' : ParsedLedger) : Prop where
  lists : pl'.lists = pl.lists
  prices : pl'.prices = pl.prices
  transactions : List.Forall₂ Txn.Split pl.transactions pl'.transactions

end Dinero
