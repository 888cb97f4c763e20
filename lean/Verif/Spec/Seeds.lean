import Verif.Model.Report
import Verif.Spec.Balance
/-
Reports of programs that read their hash tables in different orders (C138).
-/
namespace Dinero

/-- Both give something of the same kind, or both fail in the same way. -/
def Res.Alike {α : Type} (R : α → α → Prop) : Res α → Res α → Prop
  | .ok a, .ok b => R a b
  | .error e, .error e' => e = e'
  | _, _ => False

/-- The same line, except that its amounts may be in another order. -/
def BalLine.Like (x y : BalLine) : Prop := x.label = y.label ∧ x.indent = y.indent ∧ x.amounts.Perm y.amounts

/-- The same report, except for the order of the amounts of an account, and of the total. -/
def BalReport.Like (x y : BalReport) : Prop :=
  List.Forall₂ BalLine.Like x.lines y.lines ∧ Option.Rel List.Perm x.total y.total

/-- The same line, except that the amounts of the running total may be in another order. -/
def RegLine.Like (x y : RegLine) : Prop :=
  x.header = y.header ∧ x.account = y.account ∧ x.kind = y.kind ∧ x.amount = y.amount ∧ x.running.Perm y.running

/-- All amounts are of the commodity `c`. -/
def Ledger.OneCommodity (l : Ledger) (c : Cur) : Prop :=
  ∀ t ∈ l.transactions, ∀ p ∈ t.postings, ∀ m, p.amount = some m → ∀ d, d ≠ c → m.amountIn d = 0

end Dinero
