import Verif.Model.Transaction
/-
Model of src/models/comment.rs: the tags of a comment.
-/
namespace Dinero

/-- `str::split(":")`: always at least one part. -/
def splitColon : Str → List Str
  | [] => [[]]
  | c :: s =>
    match splitColon s with
    | [] => [[c]]
    | part :: parts => if c = ':' then [] :: part :: parts else (c :: part) :: parts

/-- The text after the last newline: neither regular expression of `get_tags` crosses a newline (`.`
does not match it) and both are anchored at the end of the text. -/
def lastLine (s : Str) : Str := (s.reverse.takeWhile (· ≠ '\n')).reverse

/-- The text without its trailing blanks (` *$`). -/
def dropTrailing (s : Str) : Str := (s.reverse.dropWhile (· = ' ')).reverse

/-- What group 1 of `RE_FLAGS` = `(:.+:) *$` captures, src/models/comment.rs 12-14: the leftmost match
starts at the first colon; only blanks may follow the last colon; something must be in
between. -/
def flagsCapture (comment : Str) : Option Str :=
  let s := (dropTrailing (lastLine comment)).dropWhile (· ≠ ':')
  if s.length ≥ 3 ∧ s.getLast? = some ':' then some s else none

/-- What groups 1 and 2 of `RE_TAG_VALUE` = ` *(.*): *(.*) *$` capture, src/models/comment.rs 15-17: the
first group is greedy, so it ends before the last colon; the second one is greedy, so it keeps trailing
blanks. -/
def tagCapture (comment : Str) : Option (Str × Str) :=
  let r := (lastLine comment).reverse
  if ':' ∈ r then
    some ((((r.dropWhile (· ≠ ':')).drop 1).reverse).dropWhile (· = ' '),
      ((r.takeWhile (· ≠ ':')).reverse).dropWhile (· = ' '))
  else none

/-- `Comment::get_tags`, src/models/comment.rs 10-75. -/
def getTags (comment : Str) : List Tag :=
  match flagsCapture comment with
  | some value => (((splitColon value).map (fun x => (⟨x, none⟩ : Tag))).dropLast).drop 1
  | none =>
    match tagCapture comment with
    | some (name, value) => if ':' ∈ name then [] else [⟨name, some value⟩]
    | none => []

end Dinero
