import Verif.Spec.Tree
/-
Specification for the lines of any tree report (C134).
-/
namespace Dinero

/-- The label of a line starts with the last component of the account the line starts at. -/
def Heads (account label : Str) : Prop :=
  ∃ parent last, account = parent ++ last ∧ ':' ∉ last ∧ (parent = [] ∨ ∃ q, parent = q ++ [':']) ∧ Below last label

/-- The lines that are indented least. -/
def BalReport.outer (rep : BalReport) : List BalLine := rep.lines.filter (fun l => l.indent = 1)

/-- What lines show of a commodity, added up. -/
def shownSum (ls : List BalLine) (c : Cur) : Rat := (ls.map (fun l => sumIn l.amounts c)).sum

end Dinero
