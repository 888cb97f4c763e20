import Verif.Spec.Sum
/-
Specification of the part of a journal that belongs to a period (C145).
-/
namespace Dinero

/-- The date of the transaction is in the period: not before `b`, and before `e`. -/
def Txn.isWithin (b e : Option Date) (t : Txn RawPosting) : Prop :=
  ∃ v, t.date = some v ∧ (∀ x, b = some x → x ≤ v) ∧ ∀ x, e = some x → v < x

/-- The first journal is the part of the third one in a period, the second one the rest of it. -/
structure Extract (b e : Option Date) (part rest pl : ParsedLedger) : Prop where
  both : Combines part rest pl
  inside : ∀ t ∈ part.regular, t.isWithin b e
  outside : ∀ t ∈ rest.regular, ¬ t.isWithin b e

end Dinero
