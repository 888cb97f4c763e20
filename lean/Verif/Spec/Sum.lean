import Verif.Spec.Course
/-
Specification of a journal made of two journals (C144).
-/
namespace Dinero

/-- The third journal consists of the transactions and prices of the other two, in any order.  All three have the same declarations. -/
structure Combines (pl₁ pl₂ pl : ParsedLedger) : Prop where
  first : pl₁.lists = pl.lists
  second : pl₂.lists = pl.lists
  transactions : pl.transactions.Perm (pl₁.transactions ++ pl₂.transactions)
  prices : pl.prices.Perm (pl₁.prices ++ pl₂.prices)

end Dinero
