import Verif.Spec.Outer
/-
Specification for reports of different depths (C139).
-/
namespace Dinero

/-- What the lines of a report whose labels satisfy `P` show of a commodity, added up. -/
def BalReport.among (rep : BalReport) (P : Str → Bool) (c : Cur) : Rat := shownSum (rep.lines.filter (fun l => P l.label)) c

/-- A report with this depth shows no more components than one with the other. -/
def NoDeeper (d : Nat) (fine : Option Nat) : Prop := ∀ d', fine = some d' → d ≤ d'

end Dinero
