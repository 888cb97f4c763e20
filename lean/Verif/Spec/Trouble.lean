import Verif.Spec.Excerpt
import Verif.Model.Trouble
/-
Specification of the messages about a journal that cannot be read.
-/
namespace Dinero

/-! ### Where -/

/-- The number of characters between the last line break of this text and its end. -/
def columnOf (read : Str) : Nat := (read.reverse.takeWhile (· != '\n')).length

/-- The tokenizer has read a part of its text and counted its lines and the characters of the last one. -/
def Tok.Exact (t : Tok) : Prop := ∃ read, t.content = read ++ t.rest ∧ t.line = read.count '\n' ∧ t.col = columnOf read

/-- The lines with a number of a text, counted from one: the line with this number and the one before it, as far as they exist. -/
def linesAround (number : Nat) (lines : List Str) : List (Str × Nat) := ((lines.zipIdx 1).drop (number - 2)).take 2

/-- The message: what is wrong, the file, the line and the column, the line before it, the line, and a row of marks, as many as the
last of these lines has bytes and one for its line break, with another mark at the column. -/
def noticeText (what file : Str) (number col : Nat) (lines : List Str) : Str :=
  let n := Nat.toDigits 10 number
  let around := linesAround number lines
  "Error: ".toList ++ what ++ '\n' :: List.replicate n.length ' ' ++ "--> ".toList ++ file ++
    ':' :: n ++ ':' :: Nat.toDigits 10 col ++ '\n' ::
    around.flatMap (fun x => marginText n.length (Nat.toDigits 10 x.2) x.1) ++
    List.replicate (n.length + 1) ' ' ++ "|      ".toList ++
    (List.range (((around.getLast?.map (·.1)).getD []).map Char.utf8Size |>.sum |> (· + 1))).map
      (fun i => if i + 1 = col then '^' else '-') ++ ['\n']

/-! ### What -/

/-- The characters of a number, but for the point. -/
def NumberChar (env : Env) (c : Char) : Prop := c = '-' ∨ env.numeric c = true

/-- An integer: digits, maybe with a sign. -/
def IsInteger (s : Str) : Prop := ∃ d, (s = d ∨ s = '-' :: d ∨ s = '+' :: d) ∧ d ≠ [] ∧ ∀ c ∈ d, '0' ≤ c ∧ c ≤ '9'

/-- The names of the properties of an account and of a commodity. -/
def accountWords : List Str :=
  ["note".toList, "isin".toList, "alias".toList, "check".toList, "assert".toList, "payee".toList, "default".toList]

def commodityWords : List Str := ["note".toList, "alias".toList, "format".toList, "default".toList]

def payeeWords : List Str := ["alias".toList]

def tagWords : List Str := ["check".toList, "assert".toList]

/-- The last word of a text, not at the start of its line: without its quotes, and there may be blanks after it. -/
def LastWord (env : Env) (read w : Str) : Prop :=
  ∃ a v b, read = a ++ v ++ b ∧ columnOf a ≠ 0 ∧ '\n' ∉ v ∧ w = v.filter (· != '"') ∧ ∀ c ∈ b, env.blank c = true

/-- An error is true of the place it is reported at: between these two texts; `posting` tells whether it is reported as one of a
posting. -/
inductive Explains (env : Env) (fs : Files) (read rest : Str) : (posting : Bool) → Reason → Prop
  /-- A character that starts no item, at the start of a line. -/
  | unknown {c : Char} {r : Str} : rest = c :: r → columnOf read = 0 → env.ws c = false → env.numeric c = false →
      c ∉ [';', '!', '*', '%', '#', '=', 'i', 'c', 'p', 't', 'a', 'P'] → Explains env fs read rest false .nothing
  /-- Something that belongs to no item, but not at the start of a line. -/
  | indented {c : Char} {r : Str} : rest = c :: r → columnOf read ≠ 0 → env.ws c = false →
      Explains env fs read rest false (.text "Unexpected indentation".toList)
  /-- A line of a transaction that starts with a digit. -/
  | account {c : Char} {r : Str} : rest = c :: r → columnOf read ≠ 0 → env.numeric c = true →
      Explains env fs read rest false (.text "Expecting account name".toList)
  /-- A second point in a number. -/
  | points {a b r : Str} : rest = '.' :: r → read = a ++ '.' :: b → (∀ c ∈ b, NumberChar env c) →
      Explains env fs read rest true (.text "Too many decimal separators".toList)
  /-- Something that is no number. -/
  | number {a s : Str} : read = a ++ s → (∀ c ∈ s, c = '.' ∨ NumberChar env c) → s.count '.' ≤ 1 →
      (∀ c, rest.head? = some c → ¬ (c = '.' ∨ NumberChar env c)) → ¬ IsInteger (s.filter (· != '.')) →
      Explains env fs read rest true (.text "Wrong number format".toList)
  /-- The text ends where an amount is expected. -/
  | missing : rest = [] → Explains env fs read rest true (.text "Expected ammount missing".toList)
  /-- A price where there is no amount before it. -/
  | price {r : Str} : rest = '@' :: r → Explains env fs read rest true (.text "Amount not found".toList)
  /-- The name of an account (with the blanks after it, at most two of them) that starts with a bracket and does not end with one. -/
  | round {a name b : Str} : read = a ++ '(' :: name ++ b → name.getLast? ≠ some ')' → (∀ c ∈ b, env.ws c = true) → b.length ≤ 2 →
      Explains env fs read rest true (.text "Expected ')'".toList)
  | square {a name b : Str} : read = a ++ '[' :: name ++ b → name.getLast? ≠ some ']' → (∀ c ∈ b, env.ws c = true) → b.length ≤ 2 →
      Explains env fs read rest true (.text "Expected ']'".toList)
  /-- The last word, not at the start of its line, is a property that accounts do not have. -/
  | accountWord {w : Str} : LastWord env read w → w ∉ accountWords →
      Explains env fs read rest true (.text ("Found ".toList ++ w ++ ". Expected one of alias, note, isin, check, assert, payee.".toList))
  /-- The last word is a property that commodities do not have. -/
  | commodityWord {w : Str} : LastWord env read w → w ∉ commodityWords →
      Explains env fs read rest true (.text ("Found ".toList ++ w ++ ". Should be one of 'note', 'alias', 'format', 'default'".toList))
  /-- The last word is a property that payees or tags do not have. -/
  | otherWord {w : Str} : LastWord env read w → w ∉ payeeWords ∨ w ∉ tagWords → Explains env fs read rest true .nothing
  /-- A file that is being read already. -/
  | cycle {f : Str} : fs.read f ≠ none → Explains env fs read rest false (.cycle f)

/-- An error about a bracket. -/
def Reason.bracket (why : Reason) : Prop := why = .text "Expected ')'".toList ∨ why = .text "Expected ']'".toList

/-- The column of a place, counted from zero.  At the end of a line a missing bracket is reported in the first column, and if the text
ends after an `include` directive, an include loop is reported at the end of that word. -/
def ColumnAt (read rest : Str) (why : Reason) (col : Nat) : Prop :=
  col = columnOf read ∨ (why.bracket ∧ rest.head? = some '\n' ∧ col = 0) ∨ ((∃ f, why = .cycle f) ∧ rest = [] ∧ col = 8)

/-- A place of a text is where the tokenizer says it is, and the error is true of it. -/
def Placed (env : Env) (fs : Files) (t : Tok) (posting : Bool) (why : Reason) : Prop :=
  ∃ read, t.content = read ++ t.rest ∧ t.line = read.count '\n' ∧ Explains env fs read t.rest posting why ∧
    ColumnAt read t.rest why t.col

/-- A line that starts like an `include` directive and is none. -/
def NoInclude (read rest : Str) : Prop := columnOf read = 0 ∧ rest.head? = some 'i' ∧ ¬ "include ".toList <+: rest

/-- An error is one of a file that can be read, and its place is a place in that file, not on its first line.  If the file ends with a
line break or has no equals sign, the place is counted right and the error is true of it.  An error without a place is about an
`include` directive. -/
def Located (env : Env) (fs : Files) (x : Trouble) : Prop :=
  ∃ f content, x.file = some f ∧ fs.read f = some content ∧
    (∀ t, x.place = some t → t.content = content ∧ t.line ≠ 0 ∧
      ((content.getLast? = some '\n' ∨ '=' ∉ content) → Placed env fs t x.posting x.why)) ∧
    (x.place = none → x.posting = false ∧ x.why = .nothing ∧ ∃ read rest, content = read ++ rest ∧
      ((content.getLast? = some '\n' ∨ '=' ∉ content) → NoInclude read rest))

end Dinero
