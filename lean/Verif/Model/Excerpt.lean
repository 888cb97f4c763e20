import Verif.Model.Include
import Verif.Model.Config
import Verif.Model.Print
import Verif.Model.Commands
/-
Model of the message about a journal that cannot be read: `Tokenizer::error`, src/parser/mod.rs 199-254, for the two errors that the
main loop finds itself.  The colours, which are only written to a terminal, are left out.
-/
namespace Dinero

/-- One line of the excerpt, src/parser/mod.rs 229-231: `i` counts from zero. -/
def excerptLine (width i : Nat) (line : Str) : Str :=
  padLeft width (digits (i + 1)) ++ " |".toList ++ List.replicate 6 ' ' ++ line ++ ['\n']

/-- The loop over the lines of the text, src/parser/mod.rs 222-232: those before the line above the place are skipped, and the loop
ends after the line of the place. -/
def excerptLoop (line : Nat) : Nat → List Str → List (Nat × Str)
  | _, [] => []
  | i, l :: ls =>
    if i < line - 1 then excerptLoop line (i + 1) ls
    else if i > line then []
    else (i, l) :: excerptLoop line (i + 1) ls

/-- The marks below the line, src/parser/mod.rs 246-252: one for each byte of the last text that was written (`last`). -/
def excerptMarks (col : Nat) (last : Str) : Str :=
  (List.range (byteLen last)).map (fun i => if i = col then '^' else '-')

/-- The place, src/parser/mod.rs 204-219; `file` is the path as `{:?}` writes it, or nothing. -/
def excerptPlace (width line col : Nat) (file : Option Str) : Str :=
  match file with
  | none => []
  | some f =>
    '\n' :: List.replicate width ' ' ++ "--> ".toList ++ f ++
      ':' :: digits (line + 1) ++ ':' :: digits (col + 1) ++ ['\n']

/-- The text that `message.pop()` takes, src/parser/mod.rs 233: the last line of the excerpt, or what was written before it. -/
def excerptLast (line col : Nat) (file : Option Str) (what : Str) (lines : List (Nat × Str)) : Str :=
  match lines.getLast? with
  | some x => x.2 ++ ['\n']
  | none =>
    match file with
    | none => what
    | some _ => ':' :: digits (line + 1) ++ ':' :: digits (col + 1) ++ ['\n']

/-- The message with these lines, src/parser/mod.rs 201-253. -/
def excerptText (line col : Nat) (file : Option Str) (what : Str) (lines : List (Nat × Str)) : Str :=
  "Error: ".toList ++ what ++ excerptPlace (digits (line + 1)).length line col file ++
    lines.flatMap (fun x => excerptLine (digits (line + 1)).length x.1 x.2) ++
    ' ' :: List.replicate (digits (line + 1)).length ' ' ++ '|' :: List.replicate 6 ' ' ++
    excerptMarks col (excerptLast line col file what lines)

/-- `Tokenizer::error`, src/parser/mod.rs 199-254, from the second line on (on the first line it panics, `Tok.fail`): `what` is
the error as `{:?}` writes it. -/
def Tok.message (t : Tok) (file : Option Str) (what : Str) : Str :=
  excerptText t.line t.col file what (excerptLoop t.line 0 (strLines t.content))

/-- The characters that the main loop knows, src/parser/mod.rs 137-177. -/
def Env.starts (env : Env) (c : Char) : Bool :=
  [';', '!', '*', '%', '#'].contains c || env.numeric c || ['=', 'i', 'c', 'p', 't', 'a', 'P'].contains c

/-- The message of the error with which `tokenize` ends, src/parser/mod.rs 131-192, if it is one that the main loop finds (178-188).
Not covered: the messages of errors inside of an item. -/
def itemsText (env : Env) (fuel : Nat) (inc : Tok → PRes (ParsedLedger × Tok)) (file : Option Str) :
    Nat → ParsedLedger → Tok → Option Str
  | 0, _, _ => none
  | n + 1, pl, t =>
    if t.rest = [] then none
    else
      match wsLines env t with
      | (t, .indented) => some (t.message file "UnexpectedInput(Some(\"Unexpected indentation\"))".toList)
      | (t, .blank) =>
        match t.rest with
        | [] => itemsText env fuel inc file n pl t
        | c :: _ =>
          if env.starts c then
            match item env fuel inc c pl t with
            | .error _ => none
            | .ok (pl', t') => itemsText env fuel inc file n pl' t'
          else some (t.message file "UnexpectedInput(None)".toList)

/-- What the program writes to stderr about a file that it cannot read as a journal, src/app.rs 223-227: the message and a line
break.  `shown` is how `{:?}` writes the path. -/
def Run.excerpt (r : Run) (shown path : Str) : Option Str :=
  match r.depth, r.fs.read path with
  | depth + 1, some content =>
    (itemsText r.env r.fuel
      (includeTok r.fs (some path) [path] (fun f => tokenizeFile r.env r.fs r.fuel depth [path] f))
      (some shown) r.fuel {} (Tok.ofContent content)).map (· ++ ['\n'])
  | _, _ => none

end Dinero
