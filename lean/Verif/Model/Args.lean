import Verif.Model.App
import Verif.Model.Date
/-
The command line: what is declared with `structopt` in src/app.rs 17-120, read as clap 2.33 reads it.  Only what the
declarations say is modelled: the names of the commands and of the options, which of them take a value, which are of
`balance` only, and how the values are read.  `none` stands for arguments outside the model: help and version, `--`, a
single dash, an option without its value or with an empty one or one that starts with a dash, and a flag with a value.
-/
namespace Dinero

/-- The options: the fields of `CommonOpts`, src/app.rs 60-120, but for the query, and those of `Balance`, 22-31. -/
inductive OptId where
  | file | initFile | depth | real | fromDay | toDay | period | now | noBalanceCheck | exchange | dateFormat
  | forceColor | forcePager | effective | strict | gains | losses | flat | noTotal
  deriving DecidableEq

/-- The declaration of an option: `long`, `short`, and whether the field is a `bool`. -/
structure OptDecl where
  id : OptId
  long : Option Str
  short : Option Char
  takes : Bool

/-- `CommonOpts`, src/app.rs 60-120.  The dashes in front of some of the names do not count. -/
def commonDecls : List OptDecl := [
  ⟨.file, some "file".toList, some 'f', true⟩,
  ⟨.initFile, some "init-file".toList, none, true⟩,
  ⟨.depth, some "depth".toList, some 'd', true⟩,
  ⟨.real, some "real".toList, none, false⟩,
  ⟨.fromDay, some "begin".toList, some 'b', true⟩,
  ⟨.toDay, some "end".toList, some 'e', true⟩,
  ⟨.period, some "period".toList, some 'p', true⟩,
  ⟨.now, some "now".toList, none, true⟩,
  ⟨.noBalanceCheck, some "no-balance-check".toList, none, false⟩,
  ⟨.exchange, none, some 'X', true⟩,
  ⟨.dateFormat, some "date-format".toList, none, true⟩,
  ⟨.forceColor, some "force-color".toList, none, false⟩,
  ⟨.forcePager, some "force-pager".toList, none, false⟩,
  ⟨.effective, some "effective".toList, none, false⟩,
  ⟨.strict, some "strict".toList, none, false⟩,
  ⟨.gains, some "unrealized-gains".toList, none, true⟩,
  ⟨.losses, some "unrealized-losses".toList, none, true⟩]

/-- The options of `Balance` itself, src/app.rs 25-30. -/
def balanceDecls : List OptDecl := [
  ⟨.flat, some "flat".toList, none, false⟩,
  ⟨.noTotal, some "no-total".toList, none, false⟩]

/-- The variants of `enum Command`, src/app.rs 18-47. -/
inductive Verb where
  | balance | register | accounts | payees | prices | commodities | check
  deriving DecidableEq

/-- The names and the aliases of the commands, src/app.rs 21-46. -/
def verbNamed (s : Str) : Option Verb :=
  if s = "balance".toList ∨ s = "bal".toList then some .balance
  else if s = "register".toList ∨ s = "reg".toList then some .register
  else if s = "accounts".toList then some .accounts
  else if s = "payees".toList then some .payees
  else if s = "prices".toList then some .prices
  else if s = "commodities".toList ∨ s = "currencies".toList then some .commodities
  else if s = "check".toList then some .check
  else none

/-- The options of a command, src/app.rs 18-47. -/
def Verb.decls : Verb → List OptDecl
  | .balance => commonDecls ++ balanceDecls
  | _ => commonDecls

/-- What the arguments after the command are: options, with their values, and the words of the query. -/
inductive ArgItem where
  | opt (id : OptId) (value : Option Str)
  | word (s : Str)
  deriving DecidableEq

/-- A name and the value after an equals sign. -/
def splitEq : Str → Str × Option Str
  | [] => ([], none)
  | c :: s => if c = '=' then ([], some s) else (c :: (splitEq s).1, (splitEq s).2)

/-- The option with a long name. -/
def findLong (ds : List OptDecl) (s : Str) : Option OptDecl := ds.find? (fun d => decide (d.long = some s))

/-- The option with a short name. -/
def findShort (ds : List OptDecl) (c : Char) : Option OptDecl := ds.find? (fun d => decide (d.short = some c))

/-- A value that is written behind its option. -/
def plainTail (v : Str) : Bool := decide (v ≠ []) && decide (v.head? ≠ some '=')

/-- One item more; an error has stopped the reading. -/
def addItem (x : ArgItem) : Option (Option (List ArgItem)) → Option (Option (List ArgItem))
  | some (some xs) => some (some (x :: xs))
  | r => r

/-- The arguments after the command.  `some none`: an unknown option. -/
def readItems (ds : List OptDecl) : List Str → Option (Option (List ArgItem))
  | [] => some (some [])
  | ('-' :: '-' :: name) :: as =>
    if name = [] ∨ name = "help".toList ∨ name = "version".toList then none
    else
      match findLong ds (splitEq name).1 with
      | none => some none
      | some d =>
        match (splitEq name).2 with
        | some v => if d.takes && plainTail v then addItem (.opt d.id (some v)) (readItems ds as) else none
        | none =>
          if d.takes then
            match as with
            | [] => none
            | v :: as => if v.head? = some '-' ∨ v = [] then none else addItem (.opt d.id (some v)) (readItems ds as)
          else addItem (.opt d.id none) (readItems ds as)
  | ['-'] :: _ => none
  | ('-' :: c :: v) :: as =>
    if c = 'h' ∨ c = 'V' then none
    else
      match findShort ds c with
      | none => some none
      | some d =>
        if d.takes then
          if v = [] then
            match as with
            | [] => none
            | v :: as => if v.head? = some '-' ∨ v = [] then none else addItem (.opt d.id (some v)) (readItems ds as)
          else if plainTail v then addItem (.opt d.id (some v)) (readItems ds as) else none
        else none
  | w :: as => addItem (.word w) (readItems ds as)

/-- The values of an option. -/
def valuesOf (o : OptId) (xs : List ArgItem) : List (Option Str) :=
  xs.filterMap (fun | .opt o' v => if o' = o then some v else none | .word _ => none)

/-- The option is there. -/
def givenOpt (o : OptId) (xs : List ArgItem) : Bool := !(valuesOf o xs).isEmpty

/-- The value of an option. -/
def valueOf (o : OptId) (xs : List ArgItem) : Option Str := (valuesOf o xs).head?.bind id

/-- The words. -/
def wordsOf (xs : List ArgItem) : List Str := xs.filterMap (fun | .word w => some w | .opt _ _ => none)

/-- No option is there twice: none of them is declared `multiple`, src/app.rs 60-120. -/
def noneTwice : List ArgItem → Bool
  | [] => true
  | .word _ :: xs => noneTwice xs
  | .opt o _ :: xs => !givenOpt o xs && noneTwice xs

/-- The plus sign that Rust allows in front of a number. -/
def dropPlus : Str → Str
  | '+' :: s => s
  | s => s

/-- `usize::from_str`: the depth, src/app.rs 70-71. -/
def readUsize (s : Str) : Option Nat :=
  match natOf (dropPlus s) with
  | some n => if n < 2 ^ 64 then some n else none
  | none => none

/-- The options whose values are dates, src/app.rs 78-81 and 84-85. -/
def dateOpts : List OptId := [.fromDay, .toDay, .now]

/-- The dates among the values. -/
def datesOf (date : Str → Res Date) (xs : List ArgItem) : List (Res Date) :=
  dateOpts.flatMap (fun o => (valuesOf o xs).filterMap (fun v => v.map date))

/-- The date parser has panicked. -/
def panicked : Res Date → Bool
  | .error (.panic _) => true
  | _ => false

/-- The date parser has returned an error. -/
def refused : Res Date → Bool
  | .error (.error _) => true
  | _ => false

/-- A date that has been read. -/
def dateOf (date : Str → Res Date) (v : Option Str) : Option Date := v.bind (fun s => (date s).toOption)

/-- The variant of `Command`. -/
def Verb.command (v : Verb) (xs : List ArgItem) : Command :=
  match v with
  | .balance => .balance (givenOpt .flat xs) (givenOpt .noTotal xs)
  | .register => .register
  | .accounts => .accounts
  | .payees => .payees
  | .prices => .prices
  | .commodities => .commodities
  | .check => .check

/-- The values, src/app.rs 60-120: the file has to be there, no option may be there twice, the depth is a number and the
dates are read by `date_parser`, which may panic. -/
def readValues (date : Str → Res Date) (v : Verb) (xs : List ArgItem) : Option (Except Nat Invocation) :=
  if givenOpt .file xs then
    let bad := !noneTwice xs || ((valuesOf .depth xs).any (fun s => (s.bind readUsize).isNone))
      || (datesOf date xs).any refused
    if (datesOf date xs).any panicked then (if bad then none else some (.error 101))
    else if bad then some (.error 1)
    else some (.ok
      { command := v.command xs
        file := (valueOf .file xs).getD []
        skip := givenOpt .noBalanceCheck xs
        opts :=
          { filter :=
              { real := givenOpt .real xs
                fromDate := dateOf date (valueOf .fromDay xs)
                toDate := dateOf date (valueOf .toDay xs) }
            query := wordsOf xs
            depth := (valueOf .depth xs).bind readUsize
            exchange := valueOf .exchange xs
            forceColor := givenOpt .forceColor xs } })
  else some (.error 1)

/-- `Opt::from_iter`, src/app.rs 179: the name of the program, the command, and the rest. -/
def readArgs (date : Str → Res Date) : List Str → Option (Except Nat Invocation)
  | _ :: c :: as =>
    match verbNamed c with
    | none => none
    | some v =>
      match readItems v.decls as with
      | none => none
      | some none => some (.error 1)
      | some (some xs) => readValues date v xs
  | _ => none

end Dinero
