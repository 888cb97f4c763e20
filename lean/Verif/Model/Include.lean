import Verif.Model.Tokenizer
/-
Model of src/parser/include.rs and of tokenizing files: `Tokenizer::from(&PathBuf)`, src/parser/mod.rs 89-111.
-/
namespace Dinero

/-- What the program sees of the file system.  Paths are texts in the form in which `PathBuf` compares
them (component by component, so without doubled slashes or inner `.` components; `..` and links are
not resolved). -/
structure Files where
  /-- `read_to_string(path).ok()`. -/
  read : Str → Option Str
  /-- `glob(pattern).ok()`: the entries in order, `none` for one that is an `Err`. -/
  glob : Str → Option (List (Option Str))
  /-- `path.parent().and_then(|p| p.to_str())`. -/
  parent : Str → Option Str

/-- The pattern to look for, src/parser/include.rs 10-21: relative to the directory of the including file. -/
def includePattern (fs : Files) (file : Option Str) (line : Str) : Res Str :=
  match file with
  | none => .ok line
  | some f =>
    match fs.parent f with
    | none => .error (.panic "current_path.parent().unwrap()")
    | some d => .ok ((if d = [] then ['.'] else d) ++ ['/'] ++ line)

/-- Tokenizing the files found and joining what they contain, src/parser/include.rs 38-46; `tok` tokenizes one
file. -/
def includeFiles (tok : Str → PRes ParsedLedger) : List Str → ParsedLedger → PRes ParsedLedger
  | [], pl => .ok pl
  | f :: fs, pl =>
    match tok f with
    | .error e => .error e
    | .ok new => includeFiles tok fs (pl.append new)

/-- `include::parse`, src/parser/include.rs 8-49: `seen` are the files that are being read.  An entry that
cannot be read is skipped (36); a path already seen is an error, before any of the files is read. -/
def includeTok (fs : Files) (file : Option Str) (seen : List Str) (tok : Str → PRes ParsedLedger) (t : Tok) :
    PRes (ParsedLedger × Tok) :=
  match consumeStr "include ".toList t with
  | .error e => .error (.fail e)
  | .ok t =>
    let x := getLine t
    match includePattern fs file x.1 with
    | .error e => .error (.fail e)
    | .ok pattern =>
      match fs.glob pattern with
      | none => .error (.fail (.panic "Failed to read glob pattern"))
      | some entries =>
        let files := entries.filterMap id
        if files.any (fun f => seen.contains f) then .error (.fail (x.2.fail .includeLoop))
        else (includeFiles tok files {}).map (fun pl => (pl, x.2))

/-- Tokenizing a file, src/parser/mod.rs 89-111 and 131-192 and src/parser/include.rs 39-47: `seen` are the files that
are being read, `depth` bounds the nesting of includes and `fuel` the iterations of each loop. -/
def tokenizeFile (env : Env) (fs : Files) (fuel : Nat) : Nat → List Str → Str → PRes ParsedLedger
  | 0, _, _ => .error .fuel
  | depth + 1, seen, file =>
    match fs.read file with
    | none => .error (.fail (.panic "CannotReadFile"))
    | some content =>
      items env fuel
        (includeTok fs (some file) (file :: seen) (fun f => tokenizeFile env fs fuel depth (file :: seen) f))
        fuel {} (Tok.ofContent content)

/-- Tokenizing a text that is not in a file (standard input), src/parser/mod.rs 113-126 and 131-192. -/
def tokenizeText (env : Env) (fs : Files) (fuel depth : Nat) (content : Str) : PRes ParsedLedger :=
  items env fuel (includeTok fs none [] (fun f => tokenizeFile env fs fuel depth [] f)) fuel {}
    (Tok.ofContent content)

end Dinero
