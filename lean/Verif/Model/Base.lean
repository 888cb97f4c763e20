/-
Basic vocabulary of the model: strings, failures, hash maps and hash orders.
-/
namespace Dinero

/-- Rust `String`/`&str`, seen as its sequence of characters.  `String` comparison in Rust
(UTF-8 bytes) is the lexicographic comparison of code points, i.e. of this list. -/
abbrev Str := List Char

/-- `Rc<Currency>` used as a value or as a hash key.  `src/models/currency.rs` 109-131 defines
`PartialEq`, `Hash` and `Ord` by the name alone, so a currency inside money, balances and prices
is represented by its name (simplification: notes, format, aliases are dropped here; they are
kept in `CurrencyDef`, the element type of the commodity list). -/
abbrev Cur := Str

/-- The error values of `src/error.rs` 5-18 (`ParserError`, `LedgerError`) and of
`src/filter.rs` 55-60.  The human readable texts are dropped. -/
inductive Err where
  | notBalanced
  | aliasNotInList
  | tooManyEmpty (n : Nat)
  | notBoolean
  | unexpectedInput
  | includeLoop
  | cannotReadFile
  deriving DecidableEq, Repr

/-- What can stop a computation: a Rust panic (with the place it comes from) or an `Err`. -/
inductive Fail where
  | panic (why : String)
  | error (e : Err)
  deriving DecidableEq, Repr

/-- Result of a Rust function that may panic or return `Err`. -/
abbrev Res (α : Type) := Except Fail α

instance {α : Type} [DecidableEq α] : DecidableEq (Res α)
  | .ok a, .ok b => if h : a = b then isTrue (by rw [h]) else isFalse (by intro h'; cases h'; exact h rfl)
  | .error a, .error b =>
    if h : a = b then isTrue (by rw [h]) else isFalse (by intro h'; cases h'; exact h rfl)
  | .ok _, .error _ => isFalse (by intro h; cases h)
  | .error _, .ok _ => isFalse (by intro h; cases h)

/-- `Option::unwrap`. -/
def unwrap {α : Type} (why : String) : Option α → Res α
  | some a => .ok a
  | none => .error (.panic why)

/-- Did the computation end in a panic? -/
def Res.isPanic {α : Type} : Res α → Bool
  | .error (.panic _) => true
  | _ => false

/-- `BigRational` division: panics when the divisor is zero (`num-rational`). -/
def ratDiv (a b : Rat) : Res Rat :=
  if b = 0 then .error (.panic "division by zero") else .ok (a / b)

/-- A `std::collections::HashMap`, as the list of its entries.  The list order is *one* iteration
order; a Rust map has an arbitrary one, which is modelled by permuting (see `Shuf`). -/
abbrev HMap (K V : Type) := List (K × V)

namespace HMap
variable {K V : Type} [DecidableEq K]

/-- `HashMap::get`. -/
def get? : HMap K V → K → Option V
  | [], _ => none
  | (k', v) :: m, k => if k' = k then some v else get? m k

/-- `HashMap::insert` (the old key object is kept by Rust; equal keys are interchangeable). -/
def insert : HMap K V → K → V → HMap K V
  | [], k, v => [(k, v)]
  | (k', v') :: m, k, v => if k' = k then (k', v) :: m else (k', v') :: insert m k v

/-- `HashMap::keys`. -/
def keys (m : HMap K V) : List K := m.map Prod.fst

/-- `HashMap::extend`. -/
def extend (m m' : HMap K V) : HMap K V := m'.foldl (fun acc e => acc.insert e.1 e.2) m

end HMap

/-- `HashSet::insert` on a set kept as a duplicate-free list. -/
def setInsert {K : Type} [DecidableEq K] (s : List K) (k : K) : List K :=
  if k ∈ s then s else s ++ [k]

/-- One hash order: an arbitrary rearrangement of the entries a `HashMap`/`HashSet` iterates
over.  (`RandomState` makes it differ between maps and between runs, hence theorems quantify
over it, and the model takes one `Shuf` per iteration site whose order is observable.) -/
structure Shuf where
  run : {α : Type} → List α → List α
  perm : ∀ {α : Type} (l : List α), (run l).Perm l

/-- The identity hash order. -/
def Shuf.id : Shuf := ⟨fun l => l, fun _ => List.Perm.refl _⟩

/-- The reversing hash order. -/
def Shuf.rev : Shuf := ⟨fun l => l.reverse, fun l => l.reverse_perm⟩

/-- Stable insertion used by `sortBy`: `a` goes in front of the first element `b` with
`le a b`. -/
def insertSorted {α : Type} (le : α → α → Bool) (a : α) : List α → List α
  | [] => [a]
  | b :: l => if le a b then a :: b :: l else b :: insertSorted le a l

/-- Rust `slice::sort_by`: a stable sort.  (The stable sort of a list is unique, so the
algorithm used by the standard library is irrelevant; proved in `Lemmas/Sort.lean`.) -/
def sortBy {α : Type} (le : α → α → Bool) : List α → List α
  | [] => []
  | a :: l => insertSorted le a (sortBy le l)

end Dinero
