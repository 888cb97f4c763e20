import Verif.Model.Base
/-
Model of src/list.rs: the case-insensitive name lists (commodities, accounts, payees, tags).
-/
namespace Dinero

/-- The traits `HasName` and `HasAliases`, src/models/mod.rs 474-480 (as far as `List` uses them). -/
class Named (T : Type) where
  name : T → Str
  aliases : T → List Str

/-- `struct List<T>`, src/list.rs 21-25. -/
structure NList (T : Type) where
  aliases : HMap Str Str := []
  list : HMap Str T := []
  memo : HMap Str (Option Str) := []

namespace NList
variable {T : Type} [Named T]

/-- `List::new`, src/list.rs 28-37. -/
def new : NList T := {}

/-- `List::insert`, src/list.rs 40-53.  `lower` is `str::to_lowercase`.  All aliases are bound to the
same name, so the iteration order of the alias set is irrelevant. -/
def insert (lower : Str → Str) (l : NList T) (e : T) : NList T :=
  match l.list.get? (lower (Named.name e)) with
  | some _ => l
  | none =>
    { l with
      aliases := (Named.aliases e).foldl
        (fun acc a => HMap.insert acc (lower a) (lower (Named.name e))) l.aliases
      list := HMap.insert l.list (lower (Named.name e)) e }

/-- `List::add_alias`, src/list.rs 55-71. -/
def addAlias (lower : Str → Str) (l : NList T) (alias : Str) (e : T) : Res (NList T) :=
  match l.aliases.get? (lower alias) with
  | some _ => .error (.panic "Repeated alias")
  | none => .ok { l with aliases := HMap.insert l.aliases (lower alias) (lower (Named.name e)) }

/-- `List::get`, src/list.rs 73-85. -/
def get (lower : Str → Str) (l : NList T) (index : Str) : Res T :=
  match l.list.get? (lower index) with
  | some x => .ok x
  | none =>
    match l.aliases.get? (lower index) with
    | none => .error (.error .aliasNotInList)
    | some x => unwrap "self.list.get(x).unwrap()" (l.list.get? x)

/-- `List::get_regex`, src/list.rs 86-116: `pat` is `regex.as_str()`, `isMatch` is `regex.is_match`; `s` and
`s'` are the iteration orders of the element map and of the alias map.  Returns the answer and
the list with its memo updated. -/
def getRegex (lower : Str → Str) (s s' : Shuf) (l : NList T) (pat : Str) (isMatch : Str → Bool) :
    Res (Option T × NList T) :=
  match l.memo.get? pat with
  | some (some alias) =>
    match l.get lower alias with
    | .ok x => .ok (some x, l)
    | .error _ => .error (.panic "self.get(alias).unwrap()")
  | some none => .ok (none, l)
  | none =>
    match (s.run l.list).find? (fun e => isMatch (Named.name e.2)) with
    | some e => .ok (some e.2, { l with memo := HMap.insert l.memo pat (some e.1) })
    | none =>
      match (s'.run l.aliases).find? (fun e => isMatch e.1) with
      | some e => .ok (l.list.get? e.2, { l with memo := HMap.insert l.memo pat (some e.2) })
      | none => .ok (none, { l with memo := HMap.insert l.memo pat none })

/-- `List::append`, src/list.rs 133-136: both maps are extended, the memo is left alone. -/
def append (l other : NList T) : NList T :=
  { l with list := l.list.extend other.list, aliases := l.aliases.extend other.aliases }

/-- `List::len`, src/list.rs 124-126. -/
def len (l : NList T) : Nat := List.length l.list

/-- `List::len_alias`, src/list.rs 127-129. -/
def lenAlias (l : NList T) : Nat := List.length l.aliases + l.len

end NList
end Dinero
