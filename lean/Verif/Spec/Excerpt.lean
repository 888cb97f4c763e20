import Verif.Spec.Journal
/-
Specification of the message about a line that cannot be read.
-/
namespace Dinero

/-- The number of a line and the line, in the margin and next to it. -/
def marginText (width : Nat) (number line : Str) : Str :=
  List.replicate (width - number.length) ' ' ++ number ++ " |      ".toList ++ line ++ ['\n']

/-- A line as it is shown: without the carriage return of a line break. -/
def shownLine (l : Str) : Str := if l.getLast? = some '\r' then l.dropLast else l

/-- The message about the line with this number: what is wrong, the file, the line and the column, the line before it, the line, and a
mark below the `col`th character; the marks are as many as the line has bytes, and one for its line break. -/
def troubleText (what file : Str) (number col bytes : Nat) (before line : Str) : Str :=
  let n := Nat.toDigits 10 number
  "Error: ".toList ++ what ++ '\n' :: List.replicate n.length ' ' ++ "--> ".toList ++ file ++
    ':' :: n ++ ':' :: Nat.toDigits 10 col ++ '\n' ::
    marginText n.length (Nat.toDigits 10 (number - 1)) before ++ marginText n.length n line ++
    List.replicate (n.length + 1) ' ' ++ "|      ".toList ++
    List.replicate (col - 1) '-' ++ '^' :: List.replicate (bytes + 1 - col) '-' ++ ['\n']

end Dinero
