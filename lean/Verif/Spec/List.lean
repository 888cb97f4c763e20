import Verif.Model.List
/-
Histories of name lists and what a lookup should answer after a history.
-/
namespace Dinero
variable {T : Type} [Named T]

/-- What a client does to a list. -/
inductive ListOp (T : Type) where
  | ins (e : T)
  | bind (a : Str) (e : T)

/-- Running a history, newest operation first in the list, from the empty list; `none` as soon as an
operation panics. -/
def runOps (lower : Str → Str) : List (ListOp T) → Option (NList T)
  | [] => some NList.new
  | op :: ops =>
    match runOps lower ops with
    | none => none
    | some l =>
      match op with
      | .ins e => some (l.insert lower e)
      | .bind a e =>
        match l.addAlias lower a e with
        | .ok l' => some l'
        | .error _ => none

/-- The first inserted element with that name, ignoring case (the history is newest first). -/
def firstNamed (lower : Str → Str) (key : Str) : List (ListOp T) → Option T
  | [] => none
  | .ins e :: ops =>
    match firstNamed lower key ops with
    | some x => some x
    | none => if lower (Named.name e) = lower key then some e else none
  | .bind _ _ :: ops => firstNamed lower key ops

/-- The most recent alias binding of the key: the name of the element it points to.  An insertion
binds its aliases only if it is the first one of its name. -/
def lastAlias (lower : Str → Str) (key : Str) : List (ListOp T) → Option Str
  | [] => none
  | .ins e :: ops =>
    if (firstNamed lower (Named.name e) ops).isNone ∧ lower key ∈ (Named.aliases e).map lower then
      some (Named.name e)
    else lastAlias lower key ops
  | .bind a e :: ops => if lower a = lower key then some (Named.name e) else lastAlias lower key ops

/-- Every explicitly added alias was for an element present at that moment. -/
def AliasesForPresent (lower : Str → Str) : List (ListOp T) → Prop
  | [] => True
  | .ins _ :: ops => AliasesForPresent lower ops
  | .bind _ e :: ops => (firstNamed lower (Named.name e) ops).isSome ∧ AliasesForPresent lower ops

/-- Lists obtained by insertions, aliases for present elements, regex lookups and merges. -/
inductive NList.Reachable (lower : Str → Str) : NList T → Prop where
  | new : Reachable lower NList.new
  | insert {l} (e : T) : Reachable lower l → Reachable lower (l.insert lower e)
  | addAlias {l l'} (a : Str) (e x : T) : Reachable lower l → l.get lower (Named.name e) = .ok x →
      lower (Named.name x) = lower (Named.name e) → l.addAlias lower a e = .ok l' →
      Reachable lower l'
  | append {l l'} : Reachable lower l → Reachable lower l' → Reachable lower (l.append l')
  | getRegex {l l'} (s s' : Shuf) (pat : Str) (isMatch : Str → Bool) (r : Option T) :
      Reachable lower l → l.getRegex lower s s' pat isMatch = .ok (r, l') → Reachable lower l'

end Dinero
