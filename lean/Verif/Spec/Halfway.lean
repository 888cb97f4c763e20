import Verif.Model.Halfway
import Verif.Spec.Report
import Verif.Spec.Columns
/-
What is printed by a register that fails half way (C122).
-/
namespace Dinero

/-- The exit status for a failure. -/
def Fail.status : Fail → Nat
  | .error _ => 1
  | .panic _ => 101

/-- The name under which the register shows the payee of a transaction: the one that the payee list knows for the
description. -/
def ShownPayee (env : Env) (l : Ledger) (t : Txn Posting) (name : Str) : Prop :=
  ((∃ n, Finds env.lower l.payees t.description n) → Finds env.lower l.payees t.description name) ∧
    ((¬ ∃ n, Finds env.lower l.payees t.description n) → env.lower name = env.lower t.description)

/-- The register stops at the posting `p`, which comes after `ps` in the transaction `t`, which comes after `ts`: the lines are
those of the postings selected before it, with their sums.  Then either the question cannot be answered for `p`; or `p` is
asked for, but has no amount, and its line is begun. -/
structure StopsAt (env : Env) (o : FilterOpts) (node : Option Ast) (l : Ledger) (ts : List (Txn Posting)) (t : Txn Posting)
    (ps : List Posting) (p : Posting) (e : Fail) (lines : List RegLine) (begun : Str) : Prop where
  txns : ∃ us, l.transactions = ts ++ t :: us
  postings : ∃ qs, t.postings = ps ++ p :: qs
  printed : ∃ before own st st', Selects env o node (ts.flatMap (fun t => t.postings.map (fun p => (t, p)))) l.commodities before st ∧
    Selects env o node (ps.map (fun p => (t, p))) st own st' ∧
    lines.map (fun l => (l.account, l.kind, some l.amount)) =
      (before ++ own).map (fun x => (x.2.account, x.2.kind, x.2.amount)) ∧
    (filterPosting env o node t p st' = .error e ∧ begun = [] ∨
      (∃ c, filterPosting env o node t p st' = .ok (true, c)) ∧ p.amount = none ∧ (∃ m, e = .panic m) ∧
        (own ≠ [] → begun = datePayeeText none) ∧
        (own = [] → ∃ d name, t.date = some d ∧ ShownPayee env l t name ∧ begun = datePayeeText (some (d, name))))
  running : ∀ pre line post, lines = pre ++ line :: post →
    ((∀ c, sumIn ((pre ++ [line]).map RegLine.amount) c = 0) → line.running = [.zero]) ∧
    ((∃ c, sumIn ((pre ++ [line]).map RegLine.amount) c ≠ 0) →
      Shows line.running (sumIn ((pre ++ [line]).map RegLine.amount)))
  blocks : ∃ blocks, lines = blocks.flatten ∧ List.Forall₂ (RegBlock env l) (ts ++ [t]) blocks

end Dinero
