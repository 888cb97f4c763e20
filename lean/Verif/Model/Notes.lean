import Verif.Model.Stderr
/-
What the program notes on stderr while it reads a journal, whether or not it accepts it: names that are declared twice, and entries of
an include pattern that cannot be read.  (The note about periodic transactions, src/models/mod.rs 460, is never written: the parser
makes none.  Later insertions into the lists come after a `get` that has failed, so they never note anything.)
-/
namespace Dinero

/-- A note: about an element that is already in its list, src/list.rs 43, or about the entry with this number of a pattern,
src/parser/include.rs 36. -/
inductive Note where
  | account (a : AccountDef)
  | commodity (c : CurrencyDef)
  | payee (p : PayeeDef)
  | entry (pattern : Str) (n : Nat)

/-- What `List::insert` notes, src/list.rs 41-43. -/
def insertNote {T : Type} [Named T] (lower : Str → Str) (l : NList T) (e : T) (n : Note) : List Note :=
  if (l.list.get? (lower (Named.name e))).isSome then [n] else []

/-- What is noted at one item, src/parser/mod.rs 137-181; `inc` is about `include::parse`. -/
def itemNotes (env : Env) (fuel : Nat) (inc : Tok → List Note) (c : Char) (pl : ParsedLedger) (t : Tok) : List Note :=
  if c ∈ [';', '!', '*', '%', '#'] then []
  else if env.numeric c then []
  else if c = '=' then []
  else if c = 'i' then inc t
  else if c = 'c' then
    match reported (commodityTok env fuel t) with
    | .ok x => insertNote env.lower pl.lists.commodities x.1 (.commodity x.1)
    | .error _ => []
  else if c = 'p' then
    match reported (payeeTok env fuel t) with
    | .ok x => insertNote env.lower pl.lists.payees x.1 (.payee x.1)
    | .error _ => []
  else if c = 't' then []
  else if c = 'a' then
    match reported (accountTok env fuel t) with
    | .ok x => insertNote env.lower pl.lists.accounts x.1 (.account x.1)
    | .error _ => []
  else []

/-- What `Tokenizer::tokenize` notes, src/parser/mod.rs 131-192. -/
def itemsNotes (env : Env) (fuel : Nat) (inc : Tok → PRes (ParsedLedger × Tok)) (incN : Tok → List Note) :
    Nat → ParsedLedger → Tok → List Note
  | 0, _, _ => []
  | n + 1, pl, t =>
    if t.rest = [] then []
    else
      match wsLines env t with
      | (_, .indented) => []
      | (t, .blank) =>
        match t.rest with
        | [] => itemsNotes env fuel inc incN n pl t
        | c :: _ =>
          itemNotes env fuel incN c pl t ++
            (match item env fuel inc c pl t with
              | .error _ => []
              | .ok (pl', t') => itemsNotes env fuel inc incN n pl' t')

/-- What is noted about the entries of a pattern, src/parser/include.rs 22-37: a file that is being read already ends the loop. -/
def entryNotes (seen : List Str) (pattern : Str) : Nat → List (Option Str) → List Note
  | _, [] => []
  | n, none :: es => .entry pattern n :: entryNotes seen pattern (n + 1) es
  | n, some f :: es => if seen.contains f then [] else entryNotes seen pattern (n + 1) es

/-- What is noted about these files, src/parser/include.rs 38-47. -/
def includeFilesNotes (tok : Str → PRes ParsedLedger) (tokN : Str → List Note) : List Str → List Note
  | [] => []
  | f :: fs =>
    tokN f ++
      (match tok f with
        | .error _ => []
        | .ok _ => includeFilesNotes tok tokN fs)

/-- What `include::parse` notes, src/parser/include.rs 8-49. -/
def includeNotes (fs : Files) (file : Option Str) (seen : List Str) (tok : Str → PRes ParsedLedger) (tokN : Str → List Note)
    (t : Tok) : List Note :=
  match consumeStr "include ".toList t with
  | .error _ => []
  | .ok t =>
    match includePattern fs file (getLine t).1 with
    | .error _ => []
    | .ok pattern =>
      match fs.glob pattern with
      | none => []
      | some entries =>
        entryNotes seen pattern 0 entries ++
          (if (entries.filterMap id).any (fun f => seen.contains f) then []
            else includeFilesNotes tok tokN (entries.filterMap id))

/-- What is noted about a file, src/parser/mod.rs 89-111 and 131-192 and src/parser/include.rs 39-47, as in `tokenizeFile`. -/
def fileNotes (env : Env) (fs : Files) (fuel : Nat) : Nat → List Str → Str → List Note
  | 0, _, _ => []
  | depth + 1, seen, file =>
    match fs.read file with
    | none => []
    | some content =>
      itemsNotes env fuel
        (includeTok fs (some file) (file :: seen) (fun f => tokenizeFile env fs fuel depth (file :: seen) f))
        (includeNotes fs (some file) (file :: seen) (fun f => tokenizeFile env fs fuel depth (file :: seen) f)
          (fun f => fileNotes env fs fuel depth (file :: seen) f))
        fuel {} (Tok.ofContent content)

/-- What is noted about the journal of a command. -/
def Run.notes (r : Run) (path : Str) : List Note := fileNotes r.env r.fs r.fuel r.depth [] path

/-- The texts of the notes, src/list.rs 43 and src/parser/include.rs 36.  The derived `{:?}` of an element also shows what is not
modelled (the `note` of an account, for example), so `debug` gives it for the note with this number. -/
def noteText (debug : Nat → Note → Str) (n : Nat) (x : Note) : Str :=
  match x with
  | .entry _ _ => debug n x ++ ['\n']
  | _ => "Duplicate element: ".toList ++ debug n x ++ ['\n']

/-- All the notes, from this number on. -/
def notesText (debug : Nat → Note → Str) : Nat → List Note → Str
  | _, [] => []
  | n, x :: xs => noteText debug n x ++ notesText debug (n + 1) xs

/-- Everything a command writes to stderr, unless it panics, src/app.rs 183-228: the notes come first, since the journal is read
before anything else is done.  A report has nothing to say unless it ends with an error. -/
def commandErr (w : World) (sp : Speech) (debug : Nat → Note → Str) (i : Invocation) : Str :=
  notesText debug 0 (w.run.notes i.file) ++
    (match i.command with
      | .balance _ _ | .register =>
        (match w.run.ledger i.skip i.file, runCommand w i with
          | .ok _, some ⟨0, _⟩ => []
          | _, _ => reportSaid w.run sp i.skip i.opts i.file)
      | .check => w.run.said sp false i.file
      | _ => w.run.said sp i.skip i.file)

end Dinero
