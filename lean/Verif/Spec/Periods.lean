import Verif.Spec.Meaning
import Verif.Spec.Options
/-
What it means that reports of periods add up (C121).
-/
namespace Dinero

/-- The same request with `--begin` and `--end` set like this. -/
def ReportOpts.during (o : ReportOpts) (b e : Option Date) : ReportOpts :=
  { o with filter := { o.filter with fromDate := b, toDate := e } }

/-- The day `d` lies in the period, or at its end. -/
def Splits (b : Option Date) (d : Date) (e : Option Date) : Prop := (∀ x, b = some x → x ≤ d) ∧ ∀ x, e = some x → d ≤ x

/-- What a report says about an account: the sum of the amounts on the lines with this name. -/
def BalReport.says (rep : BalReport) (account : Str) (c : Cur) : Rat :=
  sumIn ((rep.lines.filter (fun l => l.label = account)).flatMap BalLine.amounts) c

/-- What a line of the register says of a posting. -/
def RegLine.entry (l : RegLine) : Str × Kind × Money := (l.account, l.kind, l.amount)

end Dinero
