import Verif.Model.Price
import Verif.Spec.Balance
/-
What currency conversion means: usable prices, chains of prices, values of commodities.
-/
namespace Dinero

/-- Two prices relate the same two commodities (in either direction). -/
def SamePair (p q : Price) : Prop :=
  (p.commodity = q.commodity ∧ p.cur = q.cur) ∨ (p.commodity = q.cur ∧ p.cur = q.commodity)

/-- A price that may be used at `date`: it is in the list, not dated later, and no price of the
list for the same two commodities is more recent without being later than `date`. -/
structure Usable (prices : List Price) (date : Date) (p : Price) : Prop where
  mem : p ∈ prices
  known : p.date ≤ date
  latest : ∀ q ∈ prices, q.date ≤ date → SamePair p q → q.date ≤ p.date

/-- `Chain ok target c r`: a chain of prices satisfying `ok` leads from `c` to `target`, and the
product of the rates along it (inverted when a price is used backwards) is `r`. -/
inductive Chain (ok : Price → Prop) (target : Cur) : Cur → Rat → Prop
  | here : Chain ok target target 1
  | forward {p : Price} {r : Rat} : ok p → Chain ok target p.cur r →
      Chain ok target p.commodity (p.amount * r)
  | backward {p : Price} {r : Rat} : ok p → p.amount ≠ 0 →
      Chain ok target p.commodity r → Chain ok target p.cur (r / p.amount)

/-- `c` is connected to `target` by usable prices, whatever the rates. -/
inductive Linked (prices : List Price) (date : Date) (target : Cur) : Cur → Prop
  | here : Linked prices date target target
  | forward {p : Price} : Usable prices date p → Linked prices date target p.cur →
      Linked prices date target p.commodity
  | backward {p : Price} : Usable prices date p → Linked prices date target p.commodity →
      Linked prices date target p.cur

/-- The usable prices are mutually consistent: they follow from a value for each commodity. -/
structure Consistent (prices : List Price) (date : Date) (val : Cur → Rat) : Prop where
  ne : ∀ c, val c ≠ 0
  rate : ∀ p, Usable prices date p → val p.commodity = p.amount * val p.cur

/-- The rate at which a conversion table takes one unit of `c` to the target commodity; what it
does not convert contributes nothing. -/
def rateOf (ms : HMap Cur Rat) (target c : Cur) : Rat :=
  match ms.get? c with
  | some r => r
  | none => if c = target then 1 else 0

end Dinero
