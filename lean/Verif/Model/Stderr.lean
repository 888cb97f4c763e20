import Verif.Model.App
import Verif.Model.Complaint
import Verif.Model.Trouble
/-
What the program writes to stderr when it ends with status 1: the messages of the parser (`Model/Trouble`), those of balancing
(`Model/Complaint`) and those about conditions that are no conditions.
-/
namespace Dinero

/-- What the texts depend on besides the journal: how paths and characters are shown, the orders of the maps that are shown, and
`{:?}` of expressions (derived `Debug` of `Node`, src/parser/value_expr.rs 72-84). -/
structure Speech where
  shown : Shown
  maps : Shuf × Shuf
  node : Ast → Str

/-- The error of `filter_expression`, src/filter.rs 55-60, as `run_app` writes it, src/app.rs 224-227; without the colours. -/
def Speech.notBoolean (sp : Speech) (n : Ast) : Str := sp.node n ++ "should return a boolean".toList ++ ['\n']

/-- The rule on which the rules for a transaction stop, src/models/mod.rs 212-302. -/
def culprit (env : Env) : List (Txn RawPosting × Ast) → Txn Posting → Lists → Option Ast
  | [], _, _ => none
  | r :: rs, t, l =>
    match applyRule env r t l with
    | .error _ => some r.2
    | .ok (t', l') => culprit env rs t' l'

/-- The same for the loop over the transactions, src/models/mod.rs 211-303. -/
def culprits (env : Env) (rules : List (Txn RawPosting × Ast)) : List (Txn Posting) → Lists → Option Ast
  | [], _ => none
  | t :: ts, l =>
    match applyRules env rules t l with
    | .error _ => culprit env rules t l
    | .ok (_, l') => culprits env rules ts l'

/-- The condition of a rule that makes `to_ledger` stop, src/models/mod.rs 57-303. -/
def ledgerCulprit (env : Env) (o : LedgerOrders) (skip : Bool) (pl : ParsedLedger) : Option Ast :=
  match populate env o pl with
  | .error _ => none
  | .ok l =>
    match convertAll env o.unknown l pl.transactions with
    | .error _ => none
    | .ok (txns, autos, _) =>
      match sortByDate txns with
      | .error _ => none
      | .ok sorted =>
        match balancePass skip o.fill o.rate (initialBalances l.accounts) sorted with
        | .error _ => none
        | .ok (ts, _) =>
          match ruleNodes env autos with
          | .error _ => none
          | .ok rules => culprits env rules ts l

/-- What is written when there is no ledger: the parser says why, or the balancing, or the condition of a rule is none. -/
def Run.said (r : Run) (sp : Speech) (skip : Bool) (path : Str) : Str :=
  match r.journal path with
  | .error _ => (r.rejection sp.shown path).getD []
  | .ok pl =>
    ledgerText r.env r.orders sp.maps skip pl ++
      (match ledgerCulprit r.env r.orders skip pl with
        | some n => sp.notBoolean n
        | none => [])

/-- What is written when a report stops: it is only the condition of the query that can be at fault. -/
def reportSaid (r : Run) (sp : Speech) (skip : Bool) (opts : ReportOpts) (path : Str) : Str :=
  match r.ledger skip path with
  | .error _ => r.said sp skip path
  | .ok _ =>
    match queryNode r.env opts.query with
    | .ok (some n) => sp.notBoolean n
    | _ => []

/-- What a command writes to stderr when it ends with status 1, src/app.rs 183-228.  (Not included: the notes that are written in any
case, `Model/Notes`.) -/
def commandSaid (w : World) (sp : Speech) (i : Invocation) : Str :=
  match i.command with
  | .balance _ _ | .register => reportSaid w.run sp i.skip i.opts i.file
  | .check => w.run.said sp false i.file
  | _ => w.run.said sp i.skip i.file

end Dinero
