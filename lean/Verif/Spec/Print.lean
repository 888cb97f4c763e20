import Verif.Model.Print
import Verif.Spec.Journal
/-
The layout of the printed reports, and how to read them.
-/
namespace Dinero

/-- The characters of a row in the column that starts there and is that wide. -/
def column (row : Str) (start width : Nat) : Str := (row.drop start).take width

/-- The column shows the text on its left side. -/
def AtLeft (col text : Str) : Prop := ∃ k, col = text ++ List.replicate k ' '

/-- The column shows the text on its right side. -/
def AtRight (col text : Str) : Prop := ∃ k, col = List.replicate k ' ' ++ text

/-- The rows of a printed text: what comes before each line break; `acc` is the beginning of the first row. -/
def rowsFrom : Str → Str → List Str
  | _, [] => []
  | acc, c :: s => if c = '\n' then acc :: rowsFrom [] s else rowsFrom (acc ++ [c]) s

/-- What the register writes for a payee: the payee, or its beginning (with the blank after it) and two dots. -/
def PayeeShown (payee text : Str) : Prop :=
  text = payee ∨ text = (payee ++ [' ']).take 39 ++ ['.', '.']

/-- The first row of a posting: the date in columns 0-10 and the payee in columns 11-52 of the first posting of a
transaction, blanks otherwise; then the account, the amount and the first running total. -/
structure FirstRow (c : RegCols) (l : RegLine) (total row : Str) : Prop where
  length : row.length = 53 + c.account + c.amount + c.balance
  date : ∀ d p, l.header = some (d, p) → AtLeft (column row 0 11) (isoDate d)
  payee : ∀ d p, l.header = some (d, p) → ∃ t, PayeeShown p t ∧ AtLeft (column row 11 42) t
  nothing : l.header = none → AtLeft (column row 0 53) []
  account : AtLeft (column row 53 c.account) (accountShown l.kind l.account)
  amount : AtRight (column row (53 + c.account) c.amount) l.amount.shown
  total : AtRight (column row (53 + c.account + c.amount) c.balance) total

/-- A further row: only a running total, in the same column. -/
structure NextRow (c : RegCols) (total row : Str) : Prop where
  length : row.length = 53 + c.account + c.amount + c.balance
  nothing : AtLeft (column row 0 (53 + c.account + c.amount)) []
  total : AtRight (column row (53 + c.account + c.amount) c.balance) total

/-- The rows of a posting: one for each running total. -/
def RowsOf (c : RegCols) (l : RegLine) : List Str → Prop
  | [] => l.running = []
  | row :: rows => ∃ m ms, l.running = m :: ms ∧ FirstRow c l m.shown row ∧
      List.Forall₂ (fun m row => NextRow c (Money.shown m) row) ms rows

/-- What is to be shown fits into the columns, and is on one line. -/
structure Fits (c : RegCols) (l : RegLine) : Prop where
  date : ∀ d p, l.header = some (d, p) → (isoDate d).length ≤ 11 ∧ '\n' ∉ p
  account : (accountShown l.kind l.account).length ≤ c.account ∧ '\n' ∉ l.account
  amount : l.amount.shown.length ≤ c.amount ∧ '\n' ∉ l.amount.shown
  running : ∀ m ∈ l.running, m.shown.length ≤ c.balance ∧ '\n' ∉ m.shown
  some : l.running ≠ []

/-! ### Reading a balance report -/

/-- The text without the blanks it starts with. -/
def unblank (s : Str) : Str := s.dropWhile (· = ' ')

/-- Reading the rows of a balance report: an amount in the first 20 columns; if there is more in the row, the level and
the label of the account, which ends its amounts.  `acc` are the amounts so far.  A row of dashes starts the total. -/
def readRows : List Str → List Str → List (Str × Nat × List Str) × Option (List Str)
  | [], _ => ([], none)
  | row :: rows, acc =>
    if row = List.replicate 20 '-' then ([], some (rows.map unblank))
    else if row.length ≤ 20 then readRows rows (acc ++ [unblank row])
    else
      let r := readRows rows []
      ((unblank (row.drop 20), (row.drop 20).length - (unblank (row.drop 20)).length, acc ++ [unblank (row.take 20)]) :: r.1,
        r.2)

/-- The amounts and the label of a line can be read: the amounts fit into their column, the label does not start with a
blank and all is on one line. -/
structure Legible (l : BalLine) : Prop where
  amounts : l.amounts ≠ [] ∧ ∀ m ∈ l.amounts, m.shown.length ≤ 20 ∧ '\n' ∉ m.shown
  label : l.label.head? ≠ some ' ' ∧ '\n' ∉ l.label

/-- The fields of a printed price: up to the first blank, up to the second one, and the rest. -/
def priceFields (row : Str) : Str × Str × Str :=
  (row.takeWhile (· ≠ ' '), ((row.dropWhile (· ≠ ' ')).drop 1).takeWhile (· ≠ ' '),
    (((row.dropWhile (· ≠ ' ')).drop 1).dropWhile (· ≠ ' ')).drop 1)

end Dinero
