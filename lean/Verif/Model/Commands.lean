import Verif.Model.Include
import Verif.Model.Display
/-
The commands of src/commands from the file on: reading the journal, building the ledger and reporting.
-/
namespace Dinero

/-- What a run of the program meets: the external functions, the files, the hash orders and the bounds on loops and on
the nesting of includes. -/
structure Run where
  env : Env
  fs : Files
  orders : LedgerOrders
  fuel : Nat
  depth : Nat

/-- `Tokenizer::from(&path)` and `tokenize()`, the same in every command, e.g. src/commands/check.rs 9-10. -/
def Run.journal (r : Run) (path : Str) : PRes ParsedLedger := tokenizeFile r.env r.fs r.fuel r.depth [] path

/-- `items.to_ledger(no_balance_check)?`, e.g. src/commands/balance.rs 22-24 and src/commands/register.rs 17-19. -/
def Run.ledger (r : Run) (skip : Bool) (path : Str) : PRes Ledger :=
  match r.journal path with
  | .error e => .error e
  | .ok pl => PRes.lift (toLedger r.env r.orders skip pl)

/-- What `check` prints about the file. -/
inductive Verdict where
  | ok
  | ko (e : Err)
  deriving DecidableEq

/-- `check::execute`, src/commands/check.rs 8-28: an error of the tokenizer is returned (10) before anything is
printed, an error of `to_ledger` makes the file `KO`.  Balance assertions are always checked. -/
def checkCommand (r : Run) (path : Str) : PRes Verdict :=
  match r.journal path with
  | .error e => .error e
  | .ok pl =>
    match toLedger r.env r.orders false pl with
    | .ok _ => .ok .ok
    | .error (.error e) => .ok (.ko e)
    | .error (.panic w) => .error (.fail (.panic w))

/-- `balance::execute`, src/commands/balance.rs 17-285. -/
def balanceCommand (r : Run) (o : BalOrders) (today : Date) (opts : ReportOpts) (skip flat showTotal : Bool)
    (path : Str) : PRes BalReport :=
  match r.ledger skip path with
  | .error e => .error e
  | .ok l => PRes.lift (balanceReport r.env o today opts flat showTotal l)

/-- `register::execute`, src/commands/register.rs 12-144. -/
def registerCommand (r : Run) (s : Nat → Shuf) (opts : ReportOpts) (skip : Bool) (path : Str) : PRes (List RegLine) :=
  match r.ledger skip path with
  | .error e => .error e
  | .ok l => PRes.lift (registerReport r.env s opts l)

/-- `accounts::execute`, src/commands/accounts.rs 8-22; `s` is the order of the list. -/
def accountsCommand (r : Run) (s : Shuf) (skip : Bool) (path : Str) : PRes (List Str) :=
  (r.ledger skip path).map (fun l => listCommand s l.accounts)

/-- `payees::execute`, src/commands/payees.rs 7-21. -/
def payeesCommand (r : Run) (s : Shuf) (skip : Bool) (path : Str) : PRes (List Str) :=
  (r.ledger skip path).map (fun l => listCommand s l.payees)

/-- `commodities::execute`, src/commands/commodities.rs 7-21. -/
def commoditiesCommand (r : Run) (s : Shuf) (skip : Bool) (path : Str) : PRes (List Str) :=
  (r.ledger skip path).map (fun l => listCommand s l.commodities)

/-- `prices::execute`, src/commands/prices.rs 7-16: one line for each price, in the order of the ledger, with its date,
its commodity and the amount (`Display for Price`, src/models/price.rs 31-35). -/
def pricesCommand (r : Run) (skip : Bool) (path : Str) : PRes (List (Date × Cur × Money)) :=
  (r.ledger skip path).map (fun l => l.prices.map (fun p => (p.date, p.commodity, .mk p.amount p.cur)))

end Dinero
