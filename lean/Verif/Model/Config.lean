import Verif.Model.Include
/-
The configuration file: the first half of `run_app`, src/app.rs 122-178.  What `structopt` makes of the arguments
(179) is in Model/Args.
-/
namespace Dinero

/-- A text split at its line breaks. -/
def splitNl : Str → List Str
  | [] => [[]]
  | c :: s =>
    if c = '\n' then [] :: splitNl s
    else match splitNl s with
      | l :: ls => (c :: l) :: ls
      | [] => [[c]]

/-- A line without the carriage return at its end. -/
def dropCr (s : Str) : Str := if s.getLast? = some '\r' then s.dropLast else s

/-- `str::lines`: an empty last line does not count, a carriage return before the line break is not part of the
line. -/
def strLines (s : Str) : List Str :=
  ((if (splitNl s).getLast? = some [] then (splitNl s).dropLast else splitNl s)).map dropCr

/-- `str::split_whitespace`. -/
def strWords (ws : Char → Bool) : Str → List Str
  | [] => []
  | c :: s =>
    if ws c then strWords ws s
    else match s with
      | [] => [[c]]
      | d :: _ =>
        if ws d then [c] :: strWords ws s
        else match strWords ws s with
          | w :: r => (c :: w) :: r
          | [] => [[c]]

/-- The argument after the first `--init-file`, src/app.rs 126-131. -/
def initFileArg : List Str → Res (Option Str)
  | [] => .ok none
  | a :: as =>
    if a = "--init-file".toList then
      match as with
      | [] => .error (.panic "index out of bounds")
      | p :: _ => .ok (some p)
    else initFileArg as

/-- The configuration file to use, src/app.rs 132-141; `exist` is `Path::exists` and `home` is `~/.ledgerrc` with the
tilde expanded. -/
def configFile (exist : Str → Bool) (home : Str) (args : List Str) : Res (Option Str) :=
  (initFileArg args).map (fun a => (a.toList ++ [home, ".ledgerrc".toList]).find? exist)

/-- `aliases.get(x).unwrap_or(&String::new())`, src/app.rs 143-144 and 158. -/
def configAlias (x : Str) : Str := if x = "-f".toList then "--file".toList else []

/-- One line of the configuration file, src/app.rs 147-176: the arguments with what the line adds. -/
def configLine (env : Env) (args : List Str) (line : Str) : Res (List Str) :=
  match line.dropWhile env.ws with
  | [] => .ok args
  | c :: _ =>
    if c = '-' then
      if "--".toList.isPrefixOf line then
        match strWords env.ws line with
        | [] => .error (.panic "iter.next().unwrap()")
        | option :: words =>
          if args.any (fun x => x == option || configAlias x == option) then .ok args
          else
            let rest := words.flatMap (fun w => ' ' :: w)
            .ok (args ++ option :: (if rest = [] then [] else [trim env rest]))
      else .error (.panic "Bad config file")
    else if c ∈ [';', '#', '!', '%'] then .ok args
    else .error (.panic "Bad config file")

/-- The lines of the configuration file, src/app.rs 146-177. -/
def configLines (env : Env) : List Str → List Str → Res (List Str)
  | args, [] => .ok args
  | args, l :: ls =>
    match configLine env args l with
    | .error e => .error e
    | .ok args => configLines env args ls

/-- The arguments handed to `structopt`, src/app.rs 123-178. -/
def configArgs (env : Env) (fs : Files) (exist : Str → Bool) (home : Str) (args : List Str) : Res (List Str) :=
  match configFile exist home args with
  | .error e => .error e
  | .ok none => .ok args
  | .ok (some file) =>
    match fs.read file with
    | none => .error (.panic "read_to_string(file).unwrap()")
    | some text => configLines env args (strLines text)

end Dinero
