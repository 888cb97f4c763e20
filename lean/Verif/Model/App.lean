import Verif.Model.Config
import Verif.Model.Halfway
/-
The program: src/main.rs and `run_app`, src/app.rs 123-231.
-/
namespace Dinero

/-- `enum Command`, src/app.rs 18-47. -/
inductive Command where
  | balance (flat noTotal : Bool)
  | register
  | accounts
  | payees
  | prices
  | commodities
  | check
  deriving DecidableEq

/-- What `Opt::from_iter` makes of the arguments, src/app.rs 55-120, as far as it is used: the options `--period`, `--now`,
`--date-format`, `--force-pager`, `--effective`, `--strict`, `--unrealized-gains` and `--unrealized-losses` are never
read, and `--force-color` only matters for colours (Model/Colour). -/
structure Invocation where
  command : Command
  file : Str
  skip : Bool := false
  opts : ReportOpts := {}

/-- What a run of the program meets: besides the files and the external functions the terminal, the date and the hash
orders of the reports; `parse` is `Opt::from_iter`, which leaves the program with a status of its own when it does not
like the arguments or is asked for help. -/
structure World where
  run : Run
  exist : Str → Bool
  home : Str
  parse : List Str → Except Nat Invocation
  term : Option Nat
  today : Date
  bal : BalOrders
  reg : Nat → Shuf
  list : Shuf

/-- How the program ends: the exit status and what it wrote to stdout; `none` stands for the texts of `structopt`. -/
structure Outcome where
  status : Nat
  out : Option Str
  deriving DecidableEq

/-- The outcome of `main` for a command that prints `a` as `text a`, src/main.rs 3-8 and src/app.rs 183-230: an error makes
`run_app` return `Err(())` and the status is 1; a panic ends with status 101.  No outcome: the program does not end.
`part` is what has been printed when it fails. -/
def outcomeOf {α : Type} (text : α → Str) (part : Str) : PRes α → Option Outcome
  | .ok a => some ⟨0, some (text a)⟩
  | .error (.fail (.error _)) => some ⟨1, some part⟩
  | .error (.fail (.panic _)) => some ⟨101, some part⟩
  | .error .fuel => none

/-- The outcome of `check`: with a file that is `KO` it prints so, and returns the error, src/commands/check.rs 18-25. -/
def checkOutcome (path : Str) : PRes Verdict → Option Outcome
  | .ok .ok => some ⟨0, some (checkText path true)⟩
  | .ok (.ko _) => some ⟨1, some (checkText path false)⟩
  | .error (.fail (.error _)) => some ⟨1, some []⟩
  | .error (.fail (.panic _)) => some ⟨101, some []⟩
  | .error .fuel => none

/-- The commands, src/app.rs 183-222. -/
def runCommand (w : World) (i : Invocation) : Option Outcome :=
  match i.command with
  | .balance flat noTotal => outcomeOf (balanceText flat) (balanceRemains w.run w.bal w.today i.opts i.skip flat i.file)
      (balanceCommand w.run w.bal w.today i.opts i.skip flat (!noTotal) i.file)
  | .register => outcomeOf (registerText w.term) (registerRemains w.run w.reg w.term i.opts i.skip i.file)
      (registerCommand w.run w.reg i.opts i.skip i.file)
  | .accounts => outcomeOf listText [] (accountsCommand w.run w.list i.skip i.file)
  | .payees => outcomeOf listText [] (payeesCommand w.run w.list i.skip i.file)
  | .prices => outcomeOf pricesText [] (pricesCommand w.run i.skip i.file)
  | .commodities => outcomeOf listText [] (commoditiesCommand w.run w.list i.skip i.file)
  | .check => checkOutcome i.file (checkCommand w.run i.file)

/-- `main`, src/main.rs 3-8, and `run_app`, src/app.rs 123-231. -/
def program (w : World) (args : List Str) : Option Outcome :=
  match configArgs w.run.env w.run.fs w.exist w.home args with
  | .error (.panic _) => some ⟨101, some []⟩
  | .error (.error _) => some ⟨1, some []⟩
  | .ok args =>
    match w.parse args with
    | .error status => some ⟨status, none⟩
    | .ok i => runCommand w i

end Dinero
