import Verif.Spec.Check
/-
Sales in brackets.
-/
namespace Dinero

/-- A sale in brackets at a price per unit, as the purchase of as much; other postings as they are. -/
def Posting.bought (p : Posting) : Posting :=
  match p.kind, p.cost, p.amount with
  | .virtBal, some (.perUnit _), some (.mk q c) => { p with amount := some (.mk |q| c) }
  | _, _, _ => p

/-- The transaction with purchases for sales in brackets. -/
def Txn.bought (t : Txn Posting) : Txn Posting := { t with postings := t.postings.map Posting.bought }

end Dinero
