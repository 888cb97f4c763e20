import Verif.Model.Colour
/-
What a terminal makes of a text with escape sequences.
-/
namespace Dinero

/-- How a character looks. -/
structure Look where
  bold : Bool := false
  colour : Option Nat := none
  deriving DecidableEq

/-- One of the numbers of a sequence: 0 resets, 1 is bold, 30 to 37 and 90 to 97 are colours. -/
def Look.number (l : Look) (n : Nat) : Look :=
  if n = 0 then {}
  else if n = 1 then { l with bold := true }
  else if (30 ≤ n ∧ n ≤ 37) ∨ (90 ≤ n ∧ n ≤ 97) then { l with colour := some n }
  else l

/-- The numbers of a sequence, with semicolons between them; `n` is what has been read of the next. -/
def Look.numbers : Look → Nat → Str → Look
  | l, n, [] => l.number n
  | l, n, c :: s => if c = ';' then (l.number n).numbers 0 s else l.numbers (10 * n + (c.toNat - '0'.toNat)) s

/-- A terminal: how the next character will look, and what has been read of an escape sequence. -/
structure Screen where
  look : Look := {}
  reading : Option Str := none
  deriving DecidableEq

/-- What a terminal does with a text: it shows characters, and is in another state afterwards. -/
def Screen.write : Screen → Str → List (Char × Look) × Screen
  | s, [] => ([], s)
  | s, c :: cs =>
    match s.reading with
    | none =>
      if c = '\x1b' then ({ s with reading := some [] } : Screen).write cs
      else ((c, s.look) :: (s.write cs).1, (s.write cs).2)
    | some r =>
      if c = 'm' then
        ({ look := (match r with | '[' :: ns => s.look.numbers 0 ns | _ => s.look), reading := none } : Screen).write cs
      else ({ s with reading := some (r ++ [c]) } : Screen).write cs

/-- What is seen. -/
def seen (s : Str) : List (Char × Look) := (({} : Screen).write s).1

/-- A text that looks the same all over. -/
def ink (l : Look) (s : Str) : List (Char × Look) := s.map (fun c => (c, l))

/-- Blue. -/
def blueLook : Look := { colour := some 34 }

/-- Red. -/
def redLook : Look := { colour := some 31 }

/-- An amount is red if it is negative, or nothing at all. -/
def amountLook (m : Money) : Look := if m.amount < 0 ∨ m = .zero then redLook else {}

/-- A running total is red if it is negative, or a zero with a commodity. -/
def runningLook (m : Money) : Look := if m.amount < 0 ∨ (m.amount = 0 ∧ m ≠ .zero) then redLook else {}

/-- How the running totals look. -/
def runningSeen (c : RegCols) : Bool → List Money → List (Char × Look)
  | _, [] => []
  | first, m :: ms =>
    ink {} (if first then [] else List.replicate (53 + c.account + c.amount) ' ') ++
      ink (runningLook m) (padLeft c.balance m.shown) ++ ink {} ['\n'] ++ runningSeen c false ms

/-- How a line of the register looks. -/
def regLineSeen (c : RegCols) (l : RegLine) : List (Char × Look) :=
  ink {} (datePayeeText l.header) ++ ink blueLook (padRight c.account (accountShown l.kind l.account)) ++
    ink (amountLook l.amount) (padLeft c.amount l.amount.shown) ++ runningSeen c true l.running

/-- How the amounts of a line of the balance look. -/
def amountsSeen : List Money → List (Char × Look)
  | [] => ink {} (padLeft 20 ['0'])
  | [m] => ink (amountLook m) (padLeft 20 m.shown)
  | m :: ms => ink (amountLook m) (padLeft 20 m.shown) ++ ink {} ['\n'] ++ amountsSeen ms

/-- How a line of the balance looks. -/
def balLineSeen (flat : Bool) (l : BalLine) : List (Char × Look) :=
  amountsSeen l.amounts ++ ink {} (List.replicate (if flat then 2 else 2 * l.indent) ' ') ++ ink blueLook l.label ++
    ink {} ['\n']

/-- How the total looks. -/
def totalSeen : Option (List Money) → List (Char × Look)
  | none => []
  | some [] => ink {} (List.replicate 20 '-' ++ '\n' :: padLeft 20 ['0'] ++ ['\n'])
  | some ms => ink {} (List.replicate 20 '-') ++
      ms.flatMap (fun m => ink {} ['\n'] ++ ink (amountLook m) (padLeft 20 m.shown)) ++ ink {} ['\n']

/-- How what `check` prints looks. -/
def checkSeen (path : Str) (ok : Bool) : List (Char × Look) :=
  ink {} "Input file ".toList ++ ink { bold := true } path ++ ink {} " is ".toList ++
    ink { bold := true, colour := some (if ok then 92 else 91) } (if ok then "OK".toList else "KO".toList) ++ ink {} ['\n']

/-- Colours are wanted whatever the surroundings are. -/
def Invocation.wantsColours (i : Invocation) : Prop := i.opts.forceColor = true ∧ i.command ≠ .prices ∧ i.command ≠ .check

/-- The program prints without colours of its own accord: not to a terminal, and not forced to by the environment. -/
def Surroundings.quiet (s : Surroundings) : Prop := s.tty = false ∧ ∀ v, s.force = some v → v = "0".toList

/-- The surroundings ask for colours: they are forced, or this is a terminal and nothing speaks against them. -/
def Surroundings.asks (s : Surroundings) : Prop :=
  (∃ v, s.force = some v ∧ v ≠ "0".toList) ∨ (s.tty = true ∧ s.noColor = none ∧ s.clicolor ≠ some "0".toList)

end Dinero
