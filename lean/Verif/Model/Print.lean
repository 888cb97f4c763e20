import Verif.Model.Date
import Verif.Model.Display
import Verif.Model.Commands
/-
What the commands print: the text of the reports of src/commands.  Colours are left out: the escape sequences around a
coloured text are not printed, its padding is (`impl Display for ColoredString` pads the text inside of them).
-/
namespace Dinero

/-! ### Dates -/

/-- The year of a day number, by the cycles of 400, 100, 4 and 1 years. -/
def yearOf (n : Date) : Int :=
  let r := (n - 1) % 146097
  let c := min 3 (r / 36524)
  let r1 := r - c * 36524
  let r2 := r1 % 1461
  400 * ((n - 1) / 146097) + 100 * c + 4 * (r1 / 1461) + min 3 (r2 / 365) + 1

/-- The month and the day of the month: `k` days after the first of month `m`; the first argument bounds the number of
months to go. -/
def monthLoop (y : Int) : Nat → Nat → Nat → Nat × Nat
  | 0, m, k => (m, k + 1)
  | fuel + 1, m, k => if k < daysInMonth y m then (m, k + 1) else monthLoop y fuel (m + 1) (k - daysInMonth y m)

/-- Year, month and day of a day number.  (`NaiveDate` holds them; the model holds the day number.) -/
def civil (n : Date) : Int × Nat × Nat := (yearOf n, monthLoop (yearOf n) 11 1 (n - dayNumber (yearOf n) 1 1).toNat)

/-- `impl Display for NaiveDate` (chrono 0.4): `{:04}-{:02}-{:02}`, the year with a sign and five characters outside of
0 to 9999. -/
def isoDate (n : Date) : Str :=
  let (y, m, d) := civil n
  (if 0 ≤ y ∧ y ≤ 9999 then padZero 4 y.natAbs
    else (if y < 0 then '-' else '+') :: padZero 4 y.natAbs) ++ '-' :: padZero 2 m ++ '-' :: padZero 2 d

/-! ### Columns -/

/-- `{:width$}` for a text: blanks on the right, counted in characters. -/
def padRight (width : Nat) (s : Str) : Str := s ++ List.replicate (width - s.length) ' '

/-- `{:>width$}` for a text. -/
def padLeft (width : Nat) (s : Str) : Str := List.replicate (width - s.length) ' ' ++ s

/-- `str::len`: the number of bytes. -/
def byteLen (s : Str) : Nat := (s.map Char.utf8Size).sum

/-- `clip`, src/commands/register.rs 131-144: the test counts bytes, the clipping characters. -/
def clip (s : Str) (width : Nat) : Str :=
  if byteLen s < width - 3 then s else s.take (width - 3) ++ ['.', '.']

/-- An amount as it is printed, `impl Display for Money`.  `set_precision` is never called and both places that build a
commodity leave the precision out (src/models/currency.rs 87-96, src/parser/tokenizers/commodity.rs 47-56), so it is
always 2, and nothing fails (`shown_form`). -/
def Money.shown (m : Money) : Str :=
  match m.display (fun _ => 2) with
  | .ok s => s
  | .error _ => []

/-! ### The register -/

/-- The widths of the columns for the account, the amount and the running total. -/
structure RegCols where
  account : Nat
  amount : Nat
  balance : Nat
  deriving DecidableEq

/-- src/commands/register.rs 23-38; `term` is the width of the terminal, if there is one.  The date takes 11 characters
and the payee 42. -/
def regCols (term : Option Nat) : RegCols :=
  let width := term.getD 80
  if 11 + 42 + 21 + 21 ≥ width then ⟨34, 17, 17⟩ else ⟨width - 11 - 42 - 21 - 21, 21, 21⟩

/-- The account in its brackets, src/commands/register.rs 80-96. -/
def accountShown (k : Kind) (account : Str) : Str :=
  match k with
  | .real => account
  | .virt => '(' :: account ++ [')']
  | .virtBal => '[' :: account ++ [']']

/-- The date and the payee, or the blanks below them, src/commands/register.rs 59-73. -/
def datePayeeText : Option (Date × Str) → Str
  | some (d, payee) => padRight 11 (isoDate d) ++ padRight 42 (clip (payee ++ [' ']) 42)
  | none => padRight (42 + 11) []

/-- The running totals, one per row, src/commands/register.rs 110-123; `first` is `!more_than_one_line`. -/
def runningText (c : RegCols) : Bool → List Money → Str
  | _, [] => []
  | first, m :: ms =>
    (if first then [] else padRight (11 + 42 + c.account + c.amount) []) ++ padLeft c.balance m.shown ++ ['\n'] ++
      runningText c false ms

/-- What is printed for a posting, src/commands/register.rs 58-123. -/
def regLineText (c : RegCols) (l : RegLine) : Str :=
  datePayeeText l.header ++ padRight c.account (accountShown l.kind l.account) ++ padLeft c.amount l.amount.shown ++
    runningText c true l.running

/-- The printed register. -/
def registerText (term : Option Nat) (lines : List RegLine) : Str := lines.flatMap (regLineText (regCols term))

/-! ### The balance -/

/-- The amounts of an account below each other, src/commands/balance.rs 174-189. -/
def amountsText : List Money → Str
  | [] => padLeft 20 ['0']
  | [m] => padLeft 20 m.shown
  | m :: ms => padLeft 20 m.shown ++ '\n' :: amountsText ms

/-- A line of the balance report, src/commands/balance.rs 174-228: two blanks before the account of a flat report, two
for each level in the tree. -/
def balLineText (flat : Bool) (l : BalLine) : Str :=
  amountsText l.amounts ++ List.replicate (if flat then 2 else 2 * l.indent) ' ' ++ l.label ++ ['\n']

/-- The total, src/commands/balance.rs 238-264. -/
def totalText : List Money → Str
  | [] => List.replicate 20 '-' ++ '\n' :: padLeft 20 ['0'] ++ ['\n']
  | m :: ms => List.replicate 20 '-' ++ (m :: ms).flatMap (fun m => '\n' :: padLeft 20 m.shown) ++ ['\n']

/-- The total if there is one, src/commands/balance.rs 232-264. -/
def endText : Option (List Money) → Str
  | some ms => totalText ms
  | none => []

/-- The printed balance report. -/
def balanceText (flat : Bool) (rep : BalReport) : Str :=
  rep.lines.flatMap (balLineText flat) ++ endText rep.total

/-! ### The lists -/

/-- `println!("{}", name)` for each, src/commands/accounts.rs 18-20, payees.rs 17-19 and commodities.rs 17-19. -/
def listText (names : List Str) : Str := names.flatMap (fun n => n ++ ['\n'])

/-- `println!("{}", price)` for each, src/commands/prices.rs 12-14, `impl Display for Price`, src/models/price.rs
32-36. -/
def pricesText (prices : List (Date × Cur × Money)) : Str :=
  prices.flatMap (fun p => isoDate p.1 ++ ' ' :: p.2.1 ++ ' ' :: p.2.2.shown ++ ['\n'])

/-- What `check` prints, src/commands/check.rs 13-24. -/
def checkText (path : Str) (ok : Bool) : Str :=
  "Input file ".toList ++ path ++ " is ".toList ++ (if ok then "OK\n".toList else "KO\n".toList)

end Dinero
