import Verif.Spec.Rules
import Verif.Spec.Tree
import Verif.Spec.Columns
/-
What the balance report should show with the options that group accounts and convert amounts, from the file on.
-/
namespace Dinero

/-- The postings that are asked for, each with its transaction. -/
def wantedOf (env : Env) (o : ReportOpts) (txns : List (Txn Posting)) : List (Txn Posting × Posting) :=
  txns.flatMap (fun t => (t.postings.filter (o.wants env t)).map (fun p => (t, p)))

/-- A price as `prices` prints it. -/
def shownPrice (p : Date × Cur × Money) : Price := ⟨p.1, p.2.1, p.2.2.amount, p.2.2.commodity.getD []⟩

end Dinero
