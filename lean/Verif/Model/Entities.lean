import Verif.Model.Transaction
import Verif.Model.List
/-
The elements of the name lists (commodities, accounts, payees) and the external functions.
-/
namespace Dinero

/-- External functions the code calls and the model does not look into; every theorem holds for all
of them unless it states an assumption. -/
structure Env where
  /-- `str::to_lowercase`. -/
  lower : Str → Str
  /-- `Regex::new(pattern).is_ok()`. -/
  rxOk : Str → Bool
  /-- `Regex::new(pattern).unwrap().is_match(text)`: pattern first. -/
  rx : Str → Str → Bool
  /-- `app::date_parser`, src/app.rs (a wrapper around `two_timer`). -/
  dateOf : Str → Option Date
  /-- `char::is_whitespace`. -/
  ws : Char → Bool
  /-- `char::is_numeric`. -/
  numeric : Char → Bool
  /-- pest's built-in `SEPARATOR` (Unicode general category `Z`). -/
  sep : Char → Bool

/-- `struct Currency`, src/models/currency.rs 48-57 (`origin`, `note`, `format` are dropped: never read
by the modelled code). -/
structure CurrencyDef where
  name : Str
  aliases : List Str := []
  isDefault : Bool := false
  precision : Option Nat := none
  deriving DecidableEq

/-- `struct Account`, src/models/account.rs 10-22.  `payees` holds the patterns of the `payee` regexes.
Dropped: `origin`, `note`, `isin`, `check`, `assert` (never read), and the memo `matches`, which
is modelled separately (`CachedName`) and proved transparent (C43). -/
structure AccountDef where
  name : Str
  aliases : List Str := []
  payees : List Str := []
  isDefault : Bool := false
  deriving DecidableEq

/-- `struct Payee`, src/models/payee.rs 10-18: `aliases` is the set of alias strings, `aliasRx` the
regexes built from them (same strings; src/parser/tokenizers/payee.rs 73-76). -/
structure PayeeDef where
  name : Str
  aliases : List Str := []
  aliasRx : List Str := []
  deriving DecidableEq

instance : Named CurrencyDef := ⟨CurrencyDef.name, CurrencyDef.aliases⟩
instance : Named AccountDef := ⟨AccountDef.name, AccountDef.aliases⟩
instance : Named PayeeDef := ⟨PayeeDef.name, PayeeDef.aliases⟩

/-- An account or payee together with its memo `matches: RefCell<HashMap<String, bool>>`,
src/models/account.rs 21, src/models/payee.rs 17. -/
structure CachedName where
  name : Str
  matched : HMap Str Bool := []

/-- `Account::is_match`, src/models/account.rs 66-77, and `Payee::is_match`, src/models/payee.rs 37-48:
`rx` is `Regex::is_match`. -/
def CachedName.isMatch (rx : Str → Str → Bool) (n : CachedName) (pat : Str) : Bool × CachedName :=
  match n.matched.get? pat with
  | some x => (x, n)
  | none => (rx pat n.name, { n with matched := n.matched.insert pat (rx pat n.name) })

/-- `Account::depth`, src/models/account.rs 57-64. -/
def accountDepth (name : Str) : Nat := (name.filter (· == ':')).length + 1

end Dinero
