import Verif.Model.Commands
import Verif.Model.Print
/-
What is on stdout when a report fails: the register and the balance print while they go on.
-/
namespace Dinero

/-- What the loop of the register has done when it ends or fails: the mutable variables, the beginning of a line that is not
finished, and the failure. -/
structure RegStop where
  state : RegState
  begun : Str := []
  failed : Option Fail := none

/-- What is printed for a posting without an amount before `p.amount.as_ref().unwrap()` fails: the date and the payee, or the
blanks below them, src/commands/register.rs 58-76. -/
def lineBegun (env : Env) (t : Txn Posting) (counter : Nat) (p : Posting) (payees : NList PayeeDef) : Str :=
  match p.amount with
  | some _ => []
  | none =>
    if counter = 0 then
      match t.date with
      | none => []
      | some d =>
        match getPayee env t payees with
        | .error _ => []
        | .ok (payee, _) => datePayeeText (some (d, payee))
    else datePayeeText none

/-- The loop over the postings of one transaction, src/commands/register.rs 55-124, like `registerPostings`, keeping what is
already printed when it fails. -/
def registerPostingsPart (env : Env) (s : Nat → Shuf) (o : FilterOpts) (node : Option Ast) (t : Txn Posting) :
    List Posting → Nat → RegState → RegStop
  | [], _, st => { state := st }
  | p :: ps, counter, st =>
    match filterPosting env o node t p st.commodities with
    | .error e => { state := st, failed := some e }
    | .ok (false, c) => registerPostingsPart env s o node t ps counter { st with commodities := c }
    | .ok (true, c) =>
      match registerPosting env (s st.lines.length) t counter p { st with commodities := c } with
      | .error e => { state := st, begun := lineBegun env t counter p st.payees, failed := some e }
      | .ok st' => registerPostingsPart env s o node t ps (counter + 1) st'

/-- The loop over the transactions, src/commands/register.rs 52-125. -/
def registerAllPart (env : Env) (s : Nat → Shuf) (o : FilterOpts) (node : Option Ast) :
    List (Txn Posting) → RegState → RegStop
  | [], st => { state := st }
  | t :: ts, st =>
    match registerPostingsPart env s o node t t.postings 0 st with
    | ⟨st', b, some e⟩ => ⟨st', b, some e⟩
    | ⟨st', _, none⟩ => registerAllPart env s o node ts st'

/-- What is on stdout when the register fails, src/commands/register.rs 12-129. -/
def registerRemains (r : Run) (s : Nat → Shuf) (term : Option Nat) (opts : ReportOpts) (skip : Bool) (path : Str) : Str :=
  match r.ledger skip path with
  | .error _ => []
  | .ok l =>
    match queryNode r.env opts.query with
    | .error _ => []
    | .ok node =>
      let x := registerAllPart r.env s opts.filter node l.transactions { commodities := l.commodities, payees := l.payees }
      registerText term x.state.lines ++ x.begun

/-- What is on stdout when the conversion of the total fails, src/commands/balance.rs 154-246: the lines of the accounts,
and the line above the total. -/
def finishRemains (o : BalOrders) (flat : Bool) (depth : Option Nat) (rows : List (Str × Balance)) : Str :=
  let sorted := sortBy (fun a b => strLe a.1 b.1) rows
  (printLoop flat depth o.shown sorted.length sorted).flatMap (balLineText flat) ++ List.replicate 20 '-'

/-- What is on stdout when `balance::execute` fails, src/commands/balance.rs 17-285: nothing unless the rows are there. -/
def balanceRemains (r : Run) (o : BalOrders) (today : Date) (opts : ReportOpts) (skip flat : Bool) (path : Str) : Str :=
  match r.ledger skip path with
  | .error _ => []
  | .ok l =>
    match queryNode r.env opts.query with
    | .error _ => []
    | .ok node =>
      match collectAll r.env opts.filter node l.transactions [] l.commodities with
      | .error _ => []
      | .ok (bals, st) =>
        match (if flat then flatRows o opts.depth bals else .ok (treeRows o bals) : Res (List (Str × Balance))) with
        | .error _ => []
        | .ok rows =>
          match exchangeTable r.env o today l st opts.exchange with
          | .error _ => []
          | .ok none => finishRemains o flat opts.depth rows
          | .ok (some (target, ms)) =>
            match convertRows o.convRow ms target rows with
            | .error _ => []
            | .ok rows' => finishRemains o flat opts.depth rows'

end Dinero
