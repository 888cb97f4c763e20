import Verif.Model.Comment
/-
What the tags of a comment are.
-/
namespace Dinero

/-- The line reads `… :t1:t2:…:tn:`, up to trailing blanks, the first of these colons being the first
of the line.  (A lone empty flag, `::`, does not count.) -/
def WritesFlags (line : Str) (flags : List Str) : Prop :=
  (∀ t ∈ flags, ':' ∉ t) ∧ flags ≠ [] ∧ flags ≠ [[]] ∧
  ∃ head n, ':' ∉ head ∧
    line = head ++ ':' :: flags.flatMap (fun t => t ++ [':']) ++ List.replicate n ' '

/-- The line reads `name: value`, up to blanks before the name and before the value, and this colon is the
only one. -/
def WritesValue (line name value : Str) : Prop :=
  ':' ∉ name ∧ ':' ∉ value ∧ name.head? ≠ some ' ' ∧ value.head? ≠ some ' ' ∧
  ∃ m n, line = List.replicate m ' ' ++ name ++ ':' :: (List.replicate n ' ' ++ value)

/-- The tags a line has. -/
inductive HasTags (line : Str) : List Tag → Prop
  | flags {flags} : WritesFlags line flags → HasTags line (flags.map (fun f => ⟨f, none⟩))
  | value {name value} : WritesValue line name value → HasTags line [⟨name, some value⟩]
  | none : (∀ flags, ¬ WritesFlags line flags) → (∀ name value, ¬ WritesValue line name value) →
      HasTags line []

end Dinero
