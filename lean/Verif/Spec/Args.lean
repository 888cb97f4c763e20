import Verif.Model.Args
import Verif.Spec.Config
import Verif.Spec.Date
/-
What the command line means, from the declarations alone.
-/
namespace Dinero

/-- The long names of the options. -/
def OptId.longName : OptId → Option Str
  | .file => some ['f', 'i', 'l', 'e']
  | .initFile => some ['i', 'n', 'i', 't', '-', 'f', 'i', 'l', 'e']
  | .depth => some ['d', 'e', 'p', 't', 'h']
  | .real => some ['r', 'e', 'a', 'l']
  | .fromDay => some ['b', 'e', 'g', 'i', 'n']
  | .toDay => some ['e', 'n', 'd']
  | .period => some ['p', 'e', 'r', 'i', 'o', 'd']
  | .now => some ['n', 'o', 'w']
  | .noBalanceCheck => some "no-balance-check".toList
  | .exchange => none
  | .dateFormat => some "date-format".toList
  | .forceColor => some "force-color".toList
  | .forcePager => some "force-pager".toList
  | .effective => some "effective".toList
  | .strict => some "strict".toList
  | .gains => some "unrealized-gains".toList
  | .losses => some "unrealized-losses".toList
  | .flat => some "flat".toList
  | .noTotal => some "no-total".toList

/-- The short names of the options. -/
def OptId.shortName : OptId → Option Char
  | .file => some 'f'
  | .depth => some 'd'
  | .fromDay => some 'b'
  | .toDay => some 'e'
  | .period => some 'p'
  | .exchange => some 'X'
  | _ => none

/-- The options without a value. -/
def OptId.isFlag : OptId → Bool
  | .real | .noBalanceCheck | .forceColor | .forcePager | .effective | .strict | .flat | .noTotal => true
  | _ => false

/-- The options of a command: two are of `balance` only. -/
def Verb.has (v : Verb) (o : OptId) : Prop := (o = .flat ∨ o = .noTotal) → v = .balance

/-- The names of the commands. -/
def Verb.names : Verb → List Str
  | .balance => ["balance".toList, "bal".toList]
  | .register => ["register".toList, "reg".toList]
  | .accounts => ["accounts".toList]
  | .payees => ["payees".toList]
  | .prices => ["prices".toList]
  | .commodities => ["commodities".toList, "currencies".toList]
  | .check => ["check".toList]

/-- A text that is not taken for an option. -/
def Undashed (s : Str) : Prop := s.head? ≠ some '-'

/-- How the things on the command line are written.  `long` leaves out the short forms, but for `-f` and for the option that
has no long name, and the equals signs. -/
inductive WritesItem (v : Verb) (long : Bool) : ArgItem → List Str → Prop
  | flag {o : OptId} {n : Str} : v.has o → o.isFlag = true → o.longName = some n →
      WritesItem v long (.opt o none) ["--".toList ++ n]
  | value {o : OptId} {n s : Str} : v.has o → o.isFlag = false → o.longName = some n → s ≠ [] → Undashed s →
      WritesItem v long (.opt o (some s)) ["--".toList ++ n, s]
  | valueEq {o : OptId} {n s : Str} : v.has o → o.isFlag = false → o.longName = some n → s ≠ [] → s.head? ≠ some '=' →
      long = false → WritesItem v long (.opt o (some s)) ["--".toList ++ n ++ '=' :: s]
  | short {o : OptId} {c : Char} {s : Str} : o.shortName = some c → s ≠ [] → Undashed s →
      (long = true → o = .file ∨ o = .exchange) → WritesItem v long (.opt o (some s)) [['-', c], s]
  | glued {o : OptId} {c : Char} {s : Str} : o.shortName = some c → s ≠ [] → s.head? ≠ some '=' →
      (long = true → o = .exchange) → WritesItem v long (.opt o (some s)) ['-' :: c :: s]
  | word {s : Str} : Undashed s → WritesItem v long (.word s) [s]

/-- A command line: the name of the program, the command, and the rest. -/
def WritesArgs (v : Verb) (long : Bool) (items : List ArgItem) (args : List Str) : Prop :=
  ∃ prog name parts, args = prog :: name :: List.flatten parts ∧ Undashed prog ∧ name ∈ v.names ∧
    List.Forall₂ (WritesItem v long) items parts

/-- No option twice. -/
def Once (items : List ArgItem) : Prop :=
  items.Pairwise (fun a b => ∀ o s s', a = .opt o s → b ≠ .opt o s')

/-- A number as it is written for the depth. -/
def WritesUsize (s : Str) (n : Nat) : Prop :=
  ∃ ds, (s = ds ∨ s = '+' :: ds) ∧ IsDigits ds ∧ digitsVal ds = n ∧ n < 2 ^ 64

/-- The options whose value is a date. -/
def OptId.isDate : OptId → Prop
  | .fromDay | .toDay | .now => True
  | _ => False

/-- What is on the command line is fine: a file, no option twice, a number for the depth and dates for the dates. -/
structure Fine (date : Str → Res Date) (items : List ArgItem) : Prop where
  once : Once items
  file : ∃ s, .opt .file (some s) ∈ items
  depth : ∀ s, .opt .depth (some s) ∈ items → ∃ n, WritesUsize s n
  dates : ∀ o s, OptId.isDate o → .opt o (some s) ∈ items → ∃ d, date s = .ok d

/-- A name that is not of an option of the command. -/
structure Unknown (v : Verb) (n : Str) : Prop where
  plain : n ≠ [] ∧ n ≠ "help".toList ∧ n ≠ "version".toList
  noEq : '=' ∉ n
  none : ∀ o, v.has o → o.longName ≠ some n

/-- No date makes the date parser panic. -/
def NoPanic (date : Str → Res Date) (items : List ArgItem) : Prop :=
  ∀ o s m, OptId.isDate o → .opt o (some s) ∈ items → date s ≠ .error (.panic m)

/-- The command. -/
def CommandSaid (v : Verb) (items : List ArgItem) : Command → Prop
  | .balance flat noTotal => v = .balance ∧ (flat = true ↔ .opt .flat none ∈ items) ∧
      (noTotal = true ↔ .opt .noTotal none ∈ items)
  | .register => v = .register
  | .accounts => v = .accounts
  | .payees => v = .payees
  | .prices => v = .prices
  | .commodities => v = .commodities
  | .check => v = .check

/-- What the command line says. -/
structure Says (date : Str → Res Date) (v : Verb) (items : List ArgItem) (i : Invocation) : Prop where
  command : CommandSaid v items i.command
  file : .opt .file (some i.file) ∈ items
  skip : i.skip = true ↔ .opt .noBalanceCheck none ∈ items
  real : i.opts.filter.real = true ↔ .opt .real none ∈ items
  fromDate : ∀ d, i.opts.filter.fromDate = some d ↔ ∃ s, .opt .fromDay (some s) ∈ items ∧ date s = .ok d
  toDate : ∀ d, i.opts.filter.toDate = some d ↔ ∃ s, .opt .toDay (some s) ∈ items ∧ date s = .ok d
  query : i.opts.query.map ArgItem.word = items.filter (fun x => match x with | .word _ => true | .opt _ _ => false)
  depth : ∀ n, i.opts.depth = some n ↔ ∃ s, .opt .depth (some s) ∈ items ∧ WritesUsize s n
  exchange : ∀ c, i.opts.exchange = some c ↔ .opt .exchange (some c) ∈ items
  color : i.opts.forceColor = true ↔ .opt .forceColor none ∈ items

/-- The arguments are read as they are declared, as far as they are in the model. -/
def World.Understands (w : World) (date : Str → Res Date) : Prop :=
  ∀ args x, readArgs date args = some x → w.parse args = x

/-- A line of the configuration file as a thing on the command line. -/
inductive ConfItem (v : Verb) : ConfLine → ArgItem → Prop
  | flag {o : OptId} {n : Str} : v.has o → o.isFlag = true → o.longName = some n →
      ConfItem v (.option ("--".toList ++ n) []) (.opt o none)
  | value {o : OptId} {n : Str} {vs : List Str} : v.has o → o.isFlag = false → o.longName = some n → vs ≠ [] →
      ConfItem v (.option ("--".toList ++ n) vs) (.opt o (some (joinWords vs)))

/-- The configuration file: options, comments and blank lines. -/
inductive ConfItems (v : Verb) : List ConfLine → List ArgItem → Prop
  | nil : ConfItems v [] []
  | option {c : ConfLine} {x : ArgItem} {cs : List ConfLine} {xs : List ArgItem} : ConfItem v c x → ConfItems v cs xs →
      ConfItems v (c :: cs) (x :: xs)
  | skip {c : ConfLine} {cs : List ConfLine} {xs : List ArgItem} : c.name? = none → ConfItems v cs xs →
      ConfItems v (c :: cs) xs

/-- The option of a thing on the command line is among those given. -/
def ArgItem.given (x : ArgItem) (items : List ArgItem) : Prop :=
  ∃ o s s', x = .opt o s ∧ .opt o s' ∈ items

open Classical in
/-- What the configuration file adds: of every option that is not given the first. -/
noncomputable def fresh (items : List ArgItem) : List ArgItem → List ArgItem
  | [] => []
  | x :: xs => if x.given items then fresh items xs else x :: fresh (items ++ [x]) xs

/-- Where the configuration file is and what is in it. -/
structure Configured (w : World) (args : List Str) (cs : List ConfLine) : Prop where
  ascii : w.run.env.AsciiChars
  lines : ∃ file ls, configFile w.exist w.home args = .ok (some file) ∧ ls ≠ [] ∧
    w.run.fs.read file = some (joinLines ls) ∧ (∀ l ∈ ls, '\n' ∉ l) ∧
    List.Forall₂ (WritesConf w.run.env) ls cs
  values : ∀ n v vs, .option n (v :: vs) ∈ cs → v.head? ≠ some '-'

end Dinero
