import Verif.Spec.Report
/-
When the accounts of the selected postings form a tree that the balance report can draw with collapsed
labels.
-/
namespace Dinero

/-- `b` is a direct sub-account of `a`. -/
def ChildOf (a b : Str) : Prop := ∃ last, ':' ∉ last ∧ b = a ++ ':' :: last

/-- Something is left on `a` and the accounts below it. -/
def Left (sel : List (Txn Posting × Posting)) (a : Str) : Prop :=
  ∃ c, selSum sel (fun x => Below a x) c ≠ 0

/-- The accounts of the selected postings form a tree that can be drawn:
* the name of an account with sub-accounts is not continued in another account by a character that
  sorts before the colon (as in `A:B` and `A 1`),
* the parent of an account on which something is left is also one,
* an account that has exactly one sub-account on which something is left has no amount of its own. -/
structure TreeFit (sel : List (Txn Posting × Posting)) : Prop where
  order : ∀ x ∈ sel, ∀ y ∈ sel, ∀ a r c s, x.2.account = a ++ ':' :: r → y.2.account = a ++ c :: s →
    ¬ c < ':'
  parents : ∀ a b, ChildOf a b → Left sel b → Left sel a
  own : ∀ a b, ChildOf a b → Left sel b → (∀ b', ChildOf a b' → Left sel b' → b' = b) →
    ∀ c, selSum sel (fun x => x = a) c = 0

end Dinero
