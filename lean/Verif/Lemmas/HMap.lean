import Verif.Model.Base
import Mathlib.Data.List.Basic
import Mathlib.Data.List.Perm.Basic
/- Facts about the association-list hash maps. -/
namespace Dinero
set_option linter.unusedSectionVars false
namespace HMap
variable {K V : Type} [DecidableEq K]

@[simp] theorem get?_nil (k : K) : get? ([] : HMap K V) k = none := rfl

theorem get?_cons (k' : K) (v : V) (m : HMap K V) (k : K) :
    get? ((k', v) :: m) k = if k' = k then some v else get? m k := rfl

theorem get?_insert (m : HMap K V) (k : K) (v : V) (k' : K) :
    (m.insert k v).get? k' = if k = k' then some v else m.get? k' := by
  induction m with
  | nil => simp [insert, get?]
  | cons e m ih =>
    obtain ⟨k₀, v₀⟩ := e
    by_cases h : k₀ = k
    · subst h; simp only [insert, if_true, get?_cons]; split <;> rfl
    · simp only [insert, h, if_false, get?_cons, ih]
      by_cases h1 : k₀ = k'
      · subst h1; simp [Ne.symm h]
      · simp [h1]

@[simp] theorem get?_insert_self (m : HMap K V) (k : K) (v : V) :
    (m.insert k v).get? k = some v := by simp [get?_insert]

theorem get?_insert_ne (m : HMap K V) {k k' : K} (v : V) (h : k ≠ k') :
    (m.insert k v).get? k' = m.get? k' := by simp [get?_insert, h]

@[simp] theorem keys_nil : keys ([] : HMap K V) = [] := rfl
@[simp] theorem keys_cons (e : K × V) (m : HMap K V) : keys (e :: m) = e.1 :: keys m := rfl
theorem keys_append (m m' : HMap K V) : keys (m ++ m') = keys m ++ keys m' := by simp [keys]

theorem keys_insert_of_mem (m : HMap K V) (k : K) (v : V) (h : k ∈ m.keys) :
    (m.insert k v).keys = m.keys := by
  induction m with
  | nil => simp at h
  | cons e m ih =>
    obtain ⟨k₀, v₀⟩ := e
    by_cases h0 : k₀ = k
    · simp [insert, h0]
    · simp only [insert, h0, if_false, keys_cons, List.cons.injEq, true_and]
      apply ih; simpa [Ne.symm h0] using h

theorem insert_of_not_mem (m : HMap K V) (k : K) (v : V) (h : k ∉ m.keys) :
    m.insert k v = m ++ [(k, v)] := by
  induction m with
  | nil => simp [insert]
  | cons e m ih =>
    obtain ⟨k₀, v₀⟩ := e
    simp only [keys_cons, List.mem_cons, not_or] at h
    simp [insert, Ne.symm h.1, ih h.2]

theorem keys_insert_of_not_mem (m : HMap K V) (k : K) (v : V) (h : k ∉ m.keys) :
    (m.insert k v).keys = m.keys ++ [k] := by
  rw [insert_of_not_mem m k v h, keys_append]; rfl

theorem mem_keys_insert (m : HMap K V) (k : K) (v : V) (k' : K) :
    k' ∈ (m.insert k v).keys ↔ k' = k ∨ k' ∈ m.keys := by
  by_cases h : k ∈ m.keys
  · rw [keys_insert_of_mem m k v h]
    constructor
    · exact Or.inr
    · rintro (rfl | h')
      · exact h
      · exact h'
  · rw [keys_insert_of_not_mem m k v h]; simp [or_comm]

theorem nodup_keys_insert (m : HMap K V) (k : K) (v : V) (h : m.keys.Nodup) :
    (m.insert k v).keys.Nodup := by
  by_cases hk : k ∈ m.keys
  · rwa [keys_insert_of_mem m k v hk]
  · rw [keys_insert_of_not_mem m k v hk]
    exact List.nodup_append.mpr ⟨h, by simp, by
      intro a ha b hb; simp only [List.mem_singleton] at hb; subst hb
      intro hab; exact hk (hab ▸ ha)⟩

theorem get?_eq_none_iff (m : HMap K V) (k : K) : m.get? k = none ↔ k ∉ m.keys := by
  induction m with
  | nil => simp
  | cons e m ih =>
    obtain ⟨k₀, v₀⟩ := e
    by_cases h : k₀ = k
    · simp [get?_cons, h]
    · simp [get?_cons, h, ih, Ne.symm h]

theorem get?_isSome_iff (m : HMap K V) (k : K) : (m.get? k).isSome ↔ k ∈ m.keys := by
  have := get?_eq_none_iff m k
  cases h : m.get? k with
  | none => simp [this.mp h]
  | some v => simp only [Option.isSome_some, true_iff]; by_contra hk; simp [this.mpr hk] at h

theorem mem_keys_of_mem {m : HMap K V} {e : K × V} (h : e ∈ m) : e.1 ∈ m.keys :=
  List.mem_map_of_mem h

theorem mem_of_get? {m : HMap K V} {k : K} {v : V} (h : m.get? k = some v) : (k, v) ∈ m := by
  induction m with
  | nil => simp at h
  | cons e m ih =>
    obtain ⟨k₀, v₀⟩ := e
    rw [get?_cons] at h
    split at h
    · next h0 => cases h; subst h0; simp
    · exact List.mem_cons_of_mem _ (ih h)

theorem get?_of_mem {m : HMap K V} {k : K} {v : V} (hn : m.keys.Nodup) (h : (k, v) ∈ m) :
    m.get? k = some v := by
  induction m with
  | nil => simp at h
  | cons e m ih =>
    obtain ⟨k₀, v₀⟩ := e
    simp only [keys_cons, List.nodup_cons] at hn
    rw [get?_cons]
    rcases List.mem_cons.mp h with h | h
    · cases h; simp
    · have : k₀ ≠ k := by
        intro h0; subst h0; exact hn.1 (mem_keys_of_mem (e := (k₀, v)) h)
      simp [this, ih hn.2 h]

theorem get?_eq_some_iff {m : HMap K V} (hn : m.keys.Nodup) (k : K) (v : V) :
    m.get? k = some v ↔ (k, v) ∈ m := ⟨mem_of_get?, get?_of_mem hn⟩

theorem perm_keys {m m' : HMap K V} (h : m.Perm m') : m.keys.Perm m'.keys := h.map _

theorem get?_perm {m m' : HMap K V} (h : m.Perm m') (hn : m.keys.Nodup) (k : K) :
    m.get? k = m'.get? k := by
  have hn' : m'.keys.Nodup := (perm_keys h).nodup_iff.mp hn
  cases h1 : m.get? k with
  | none =>
    symm; rw [get?_eq_none_iff] at h1 ⊢
    exact fun h2 => h1 ((perm_keys h).mem_iff.mpr h2)
  | some v =>
    symm; exact get?_of_mem hn' (h.mem_iff.mp (mem_of_get? h1))

/-- Every entry after an insertion is the new one or an old one with another key. -/
theorem mem_insert {m : HMap K V} {k : K} {v : V} {e : K × V} (hn : m.keys.Nodup) :
    e ∈ m.insert k v ↔ e = (k, v) ∨ (e ∈ m ∧ e.1 ≠ k) := by
  obtain ⟨k', v'⟩ := e
  rw [← get?_eq_some_iff (nodup_keys_insert m k v hn), get?_insert]
  by_cases h : k = k'
  · subst h; simp [eq_comm]
  · rw [if_neg h, get?_eq_some_iff hn]; simp [Ne.symm h]

theorem keys_filter_nodup (m : HMap K V) (p : K × V → Bool) (h : m.keys.Nodup) :
    keys (m.filter p) |>.Nodup := by
  unfold keys at *
  exact h.sublist (List.filter_sublist.map _)

theorem get?_filter {m : HMap K V} (hn : m.keys.Nodup) (p : K × V → Bool) (k : K) :
    get? (m.filter p) k = (m.get? k).filter (fun v => p (k, v)) := by
  induction m with
  | nil => simp
  | cons e m ih =>
    obtain ⟨k₀, v₀⟩ := e
    simp only [keys_cons, List.nodup_cons] at hn
    by_cases h : k₀ = k
    · subst h
      by_cases hp : p (k₀, v₀)
      · simp [hp, get?_cons, Option.filter]
      · have : get? (m.filter p) k₀ = none := by
          rw [ih hn.2, (get?_eq_none_iff m k₀).mpr hn.1]; rfl
        simp [hp, get?_cons, this, Option.filter]
    · by_cases hp : p (k₀, v₀)
      · simp [hp, get?_cons, h, ih hn.2]
      · simp [hp, get?_cons, h, ih hn.2]

theorem get?_foldl_insert_not_mem {α : Type} (f : α → K) (g : α → V) (l : List α) (m : HMap K V)
    (k : K) (h : k ∉ l.map f) :
    (l.foldl (fun acc a => acc.insert (f a) (g a)) m).get? k = m.get? k := by
  induction l generalizing m with
  | nil => rfl
  | cons a l ih =>
    simp only [List.map_cons, List.mem_cons, not_or] at h
    rw [List.foldl_cons, ih _ h.2, get?_insert_ne _ _ (Ne.symm h.1)]

theorem mem_keys_foldl_insert {α : Type} (f : α → K) (g : α → V) (l : List α) (m : HMap K V)
    (k : K) :
    k ∈ keys (l.foldl (fun acc a => acc.insert (f a) (g a)) m) ↔ k ∈ m.keys ∨ k ∈ l.map f := by
  induction l generalizing m with
  | nil => simp
  | cons a l ih =>
    rw [List.foldl_cons, ih, mem_keys_insert]
    simp only [List.map_cons, List.mem_cons]
    tauto

theorem nodup_keys_foldl_insert {α : Type} (f : α → K) (g : α → V) (l : List α) (m : HMap K V)
    (h : m.keys.Nodup) :
    (keys (l.foldl (fun acc a => acc.insert (f a) (g a)) m)).Nodup := by
  induction l generalizing m with
  | nil => exact h
  | cons a l ih => exact ih _ (nodup_keys_insert _ _ _ h)

/-- Inserting entries with distinct fresh keys just appends them. -/
theorem foldl_insert_eq_append {α : Type} (f : α → K) (g : α → V) (l : List α) (m : HMap K V)
    (h : (m.keys ++ l.map f).Nodup) :
    l.foldl (fun acc a => acc.insert (f a) (g a)) m = m ++ l.map (fun a => (f a, g a)) := by
  induction l generalizing m with
  | nil => simp
  | cons a l ih =>
    have hm : f a ∉ m.keys := by
      intro hmem
      exact (List.nodup_append.mp h).2.2 _ hmem _ (by simp) rfl
    rw [List.foldl_cons, insert_of_not_mem _ _ _ hm, ih]
    · simp
    · simpa [keys] using h

end HMap

theorem mem_setInsert {K : Type} [DecidableEq K] (s : List K) (k x : K) :
    x ∈ setInsert s k ↔ x = k ∨ x ∈ s := by
  unfold setInsert; split
  · next h => constructor
              · exact Or.inr
              · rintro (rfl | h') <;> assumption
  · simp [or_comm]

theorem nodup_setInsert {K : Type} [DecidableEq K] (s : List K) (k : K) (h : s.Nodup) :
    (setInsert s k).Nodup := by
  unfold setInsert; split
  · exact h
  · next hk => exact List.nodup_append.mpr ⟨h, by simp, by
      intro a ha b hb; simp only [List.mem_singleton] at hb; subst hb
      intro hab; exact hk (hab ▸ ha)⟩

end Dinero
