import Verif.Model.App
import Verif.Spec.Print
import Verif.Spec.Commands
/-
What the whole program should do.
-/
namespace Dinero

/-- The arguments, with those of the configuration file, ask for this. -/
def Invokes (w : World) (args : List Str) (i : Invocation) : Prop :=
  ∃ all, configArgs w.run.env w.run.fs w.exist w.home args = .ok all ∧ w.parse all = .ok i

/-- The program ends without an error and has written this. -/
def Prints (w : World) (args : List Str) (out : Str) : Prop := program w args = some ⟨0, some out⟩

/-- The commands that only list something. -/
def Command.lists : Command → Bool
  | .accounts | .payees | .prices | .commodities => true
  | _ => false

/-- Plain transactions in one commodity: no brackets, costs or totals. -/
def Plain (cur : Str) (bs : List Block) : Prop :=
  ∀ t, .txn t ∈ bs → t.ttype = .real ∧ ∀ p ∈ t.postings, p.kind = .real ∧ p.costCurrency = none ∧
    p.balanceCurrency = none ∧ (p.moneyCurrency = none ∨ p.moneyCurrency = some cur)

end Dinero
