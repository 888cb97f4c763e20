import Verif.Model.Money
import Mathlib.Algebra.BigOperators.Group.List.Basic
/-
What a balance *means*: an exact amount for every commodity.
-/
namespace Dinero

/-- How much of commodity `c` a single money value is. -/
def Money.amountIn (m : Money) (c : Cur) : Rat := if m.commodity = some c then m.amount else 0

/-- How much of commodity `c` a list of money values adds up to. -/
def sumIn (ms : List Money) (c : Cur) : Rat := (ms.map (fun m => m.amountIn c)).sum

/-- How much of commodity `c` a balance holds: the sum over all its entries. -/
def Balance.amountOf (b : Balance) (c : Cur) : Rat := sumIn (b.map Prod.snd) c

/-- The balances a program can obtain from the public operations of `Balance` and `Money`; hash
maps have no fixed iteration order, so any rearrangement of the entries is also obtained. -/
inductive Balance.Reachable : Balance → Prop
  | new : Reachable Balance.new
  | ofMoney (m : Money) : Reachable (Balance.ofMoney m)
  | add {a b : Balance} : Reachable a → Reachable b → Reachable (Balance.add a b)
  | sub {a b : Balance} : Reachable a → Reachable b → Reachable (Balance.sub a b)
  | neg {a : Balance} : Reachable a → Reachable (Balance.neg a)
  | reorder {a b : Balance} : Reachable a → a.Perm b → Reachable b

end Dinero
