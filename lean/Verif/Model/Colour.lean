import Verif.Model.App
/-
Colours: the commands print some of their texts as `ColoredString`s of colored 2.0, which writes an escape sequence
before the text and one behind it if colours are wanted.
-/
namespace Dinero

/-- What `colored` asks for: the variables `CLICOLOR`, `CLICOLOR_FORCE` and `NO_COLOR`, and whether stdout is a
terminal. -/
structure Surroundings where
  clicolor : Option Str := none
  force : Option Str := none
  noColor : Option Str := none
  tty : Bool := false
  deriving DecidableEq

/-- `ShouldColorize::normalize_env` of colored. -/
def normalizeEnv (v : Option Str) : Option Bool := v.map (fun s => decide (s ≠ ['0']))

/-- `ShouldColorize::from_env` and `should_colorize` of colored: `CLICOLOR_FORCE` counts before `NO_COLOR`, that before
the rest. -/
def Surroundings.colours (s : Surroundings) : Bool :=
  if normalizeEnv s.force = some true then true
  else if (normalizeEnv s.noColor).isSome then false
  else (normalizeEnv s.clicolor).getD true && s.tty

/-- `--force-color`, src/app.rs 188-221: the commands other than `prices` and `check` set `CLICOLOR_FORCE`.  The variables
are read when the first coloured text is printed, so this comes first. -/
def Surroundings.forced (s : Surroundings) (i : Invocation) : Surroundings :=
  match i.command with
  | .prices => s
  | .check => s
  | _ => if i.opts.forceColor then { s with force := some ['1'] } else s

/-- The character before every escape sequence, `\x1B`. -/
def escChar : Char := Char.ofNat 27

/-- The colours and styles that are used: `blue`, `red`, `bold`, `bright_green().bold()` and `bright_red().bold()`. -/
inductive Paint where
  | blue | red | bold | boldGreen | boldRed
  deriving DecidableEq

/-- `compute_style` of colored: the style, then the colour. -/
def Paint.style : Paint → Str
  | .blue => escChar :: "[34m".toList
  | .red => escChar :: "[31m".toList
  | .bold => escChar :: "[1m".toList
  | .boldGreen => escChar :: "[1;92m".toList
  | .boldRed => escChar :: "[1;91m".toList

/-- What is written behind a coloured text. -/
def resetSeq : Str := escChar :: "[0m".toList

/-- `escape_inner_reset_sequences` of colored: the style once more behind every `resetSeq` inside of the text. -/
def restyle (style : Str) : Str → Str
  | [] => []
  | c :: '[' :: '0' :: 'm' :: s =>
    if c = escChar then resetSeq ++ style ++ restyle style s else c :: restyle style ('[' :: '0' :: 'm' :: s)
  | c :: s => c :: restyle style s

/-- `impl Display for ColoredString` of colored: the padding is inside of the escape sequences. -/
def painted (on : Bool) (p : Paint) (pad : Str → Str) (s : Str) : Str :=
  if on then p.style ++ pad (restyle p.style s) ++ resetSeq else pad s

/-- A text that is red or not. -/
def maybeRed (on red : Bool) (pad : Str → Str) (s : Str) : Str := if red then painted on .red pad s else pad s

/-! ### The register -/

/-- The running totals, src/commands/register.rs 110-123: red unless positive. -/
def runningPaint (on : Bool) (c : RegCols) : Bool → List Money → Str
  | _, [] => []
  | first, m :: ms =>
    (if first then [] else padRight (11 + 42 + c.account + c.amount) []) ++
      maybeRed on (!m.isPositive) (padLeft c.balance) m.shown ++ ['\n'] ++ runningPaint on c false ms

/-- What is printed for a posting, src/commands/register.rs 58-123: the account is blue, the amount red if it is
negative. -/
def regLinePaint (on : Bool) (c : RegCols) (l : RegLine) : Str :=
  datePayeeText l.header ++ painted on .blue (padRight c.account) (accountShown l.kind l.account) ++
    maybeRed on l.amount.isNegative (padLeft c.amount) l.amount.shown ++ runningPaint on c true l.running

/-- The printed register. -/
def registerPaint (on : Bool) (term : Option Nat) (lines : List RegLine) : Str :=
  lines.flatMap (regLinePaint on (regCols term))

/-- What is on stdout when the register fails, like `registerRemains`. -/
def registerRemainsPaint (on : Bool) (r : Run) (s : Nat → Shuf) (term : Option Nat) (opts : ReportOpts) (skip : Bool)
    (path : Str) : Str :=
  match r.ledger skip path with
  | .error _ => []
  | .ok l =>
    match queryNode r.env opts.query with
    | .error _ => []
    | .ok node =>
      let x := registerAllPart r.env s opts.filter node l.transactions { commodities := l.commodities, payees := l.payees }
      registerPaint on term x.state.lines ++ x.begun

/-! ### The balance -/

/-- The amounts of an account, src/commands/balance.rs 174-189: red if negative. -/
def amountsPaint (on : Bool) : List Money → Str
  | [] => padLeft 20 ['0']
  | [m] => maybeRed on m.isNegative (padLeft 20) m.shown
  | m :: ms => maybeRed on m.isNegative (padLeft 20) m.shown ++ '\n' :: amountsPaint on ms

/-- A line of the balance report, src/commands/balance.rs 174-228: the account is blue, the blanks before it are not. -/
def balLinePaint (on flat : Bool) (l : BalLine) : Str :=
  amountsPaint on l.amounts ++ List.replicate (if flat then 2 else 2 * l.indent) ' ' ++ painted on .blue id l.label ++ ['\n']

/-- The total, src/commands/balance.rs 238-264. -/
def totalPaint (on : Bool) : List Money → Str
  | [] => List.replicate 20 '-' ++ '\n' :: padLeft 20 ['0'] ++ ['\n']
  | m :: ms => List.replicate 20 '-' ++
      (m :: ms).flatMap (fun m => '\n' :: maybeRed on m.isNegative (padLeft 20) m.shown) ++ ['\n']

/-- The total if there is one, src/commands/balance.rs 232-264. -/
def endPaint (on : Bool) : Option (List Money) → Str
  | some ms => totalPaint on ms
  | none => []

/-- The printed balance report. -/
def balancePaint (on flat : Bool) (rep : BalReport) : Str :=
  rep.lines.flatMap (balLinePaint on flat) ++ endPaint on rep.total

/-- What is on stdout when the conversion of the total fails, like `finishRemains`. -/
def finishRemainsPaint (on : Bool) (o : BalOrders) (flat : Bool) (depth : Option Nat) (rows : List (Str × Balance)) : Str :=
  let sorted := sortBy (fun a b => strLe a.1 b.1) rows
  (printLoop flat depth o.shown sorted.length sorted).flatMap (balLinePaint on flat) ++ List.replicate 20 '-'

/-- What is on stdout when `balance::execute` fails, like `balanceRemains`. -/
def balanceRemainsPaint (on : Bool) (r : Run) (o : BalOrders) (today : Date) (opts : ReportOpts) (skip flat : Bool)
    (path : Str) : Str :=
  match r.ledger skip path with
  | .error _ => []
  | .ok l =>
    match queryNode r.env opts.query with
    | .error _ => []
    | .ok node =>
      match collectAll r.env opts.filter node l.transactions [] l.commodities with
      | .error _ => []
      | .ok (bals, st) =>
        match (if flat then flatRows o opts.depth bals else .ok (treeRows o bals) : Res (List (Str × Balance))) with
        | .error _ => []
        | .ok rows =>
          match exchangeTable r.env o today l st opts.exchange with
          | .error _ => []
          | .ok none => finishRemainsPaint on o flat opts.depth rows
          | .ok (some (target, ms)) =>
            match convertRows o.convRow ms target rows with
            | .error _ => []
            | .ok rows' => finishRemainsPaint on o flat opts.depth rows'

/-! ### The program -/

/-- What `check` prints, src/commands/check.rs 13-24: the file is bold, the verdict bold and green or red. -/
def checkPaint (on : Bool) (path : Str) (ok : Bool) : Str :=
  "Input file ".toList ++ painted on .bold id path ++ " is ".toList ++
    (if ok then painted on .boldGreen id "OK".toList else painted on .boldRed id "KO".toList) ++ ['\n']

/-- The outcome of `check`, src/commands/check.rs 8-27. -/
def checkOutcomePaint (on : Bool) (path : Str) : PRes Verdict → Option Outcome
  | .ok .ok => some ⟨0, some (checkPaint on path true)⟩
  | .ok (.ko _) => some ⟨1, some (checkPaint on path false)⟩
  | .error (.fail (.error _)) => some ⟨1, some []⟩
  | .error (.fail (.panic _)) => some ⟨101, some []⟩
  | .error .fuel => none

/-- The commands, src/app.rs 183-222: `runCommand` with colours.  Nothing is coloured in the lists. -/
def runPainted (s : Surroundings) (w : World) (i : Invocation) : Option Outcome :=
  let on := (s.forced i).colours
  match i.command with
  | .balance flat noTotal => outcomeOf (balancePaint on flat)
      (balanceRemainsPaint on w.run w.bal w.today i.opts i.skip flat i.file)
      (balanceCommand w.run w.bal w.today i.opts i.skip flat (!noTotal) i.file)
  | .register => outcomeOf (registerPaint on w.term) (registerRemainsPaint on w.run w.reg w.term i.opts i.skip i.file)
      (registerCommand w.run w.reg i.opts i.skip i.file)
  | .accounts => outcomeOf listText [] (accountsCommand w.run w.list i.skip i.file)
  | .payees => outcomeOf listText [] (payeesCommand w.run w.list i.skip i.file)
  | .prices => outcomeOf pricesText [] (pricesCommand w.run i.skip i.file)
  | .commodities => outcomeOf listText [] (commoditiesCommand w.run w.list i.skip i.file)
  | .check => checkOutcomePaint on i.file (checkCommand w.run i.file)

/-- `main`, src/main.rs 3-8, and `run_app`, src/app.rs 123-231: `program` with colours. -/
def paintedProgram (s : Surroundings) (w : World) (args : List Str) : Option Outcome :=
  match configArgs w.run.env w.run.fs w.exist w.home args with
  | .error (.panic _) => some ⟨101, some []⟩
  | .error (.error _) => some ⟨1, some []⟩
  | .ok args =>
    match w.parse args with
    | .error status => some ⟨status, none⟩
    | .ok i => runPainted s w i

end Dinero
