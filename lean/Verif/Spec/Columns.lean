import Verif.Spec.Report
import Verif.Spec.Price
import Verif.Spec.Ledger
/-
What the converted report and the headers of the register should show.
-/
namespace Dinero

/-- The amounts `g` are the amounts `f` converted with the table `ms`: everything the table knows is
added up in the target commodity, the rest is kept. -/
structure ConvertedTo (ms : HMap Cur Rat) (target : Cur) (f g : Cur → Rat) : Prop where
  total : ∀ cs : List Cur, cs.Nodup → (∀ c, f c ≠ 0 → c ∈ cs) →
    g target = (cs.map (fun c => f c * rateOf ms target c)).sum
  rest : ∀ c, c ≠ target → g c = if (ms.get? c).isSome then 0 else f c

/-- The lines of the register for one transaction: some of its postings, in order; the first line, and only
that one, has the date and the payee, under the name the payee list knows for the description. -/
structure RegBlock (env : Env) (l : Ledger) (t : Txn Posting) (block : List RegLine) : Prop where
  postings : ∃ sub : List Posting, sub.Sublist t.postings ∧ block.map (fun l => (l.account, l.kind, some l.amount)) =
    sub.map (fun p => (p.account, p.kind, p.amount))
  first : ∀ line rest, block = line :: rest → ∃ d name, t.date = some d ∧ line.header = some (d, name) ∧
    ((∃ n, Finds env.lower l.payees t.description n) → Finds env.lower l.payees t.description name) ∧
    ((¬ ∃ n, Finds env.lower l.payees t.description n) → env.lower name = env.lower t.description)
  others : ∀ line rest, block = line :: rest → ∀ x ∈ rest, x.header = none

end Dinero
