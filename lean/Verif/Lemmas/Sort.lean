import Verif.Model.Base
import Mathlib.Data.List.Basic
import Mathlib.Data.List.Perm.Basic
/- `sortBy` is *the* stable sort. -/
namespace Dinero
variable {α : Type}

theorem insertSorted_perm (le : α → α → Bool) (a : α) (l : List α) :
    (insertSorted le a l).Perm (a :: l) := by
  induction l with
  | nil => exact List.Perm.refl _
  | cons b l ih =>
    unfold insertSorted; split
    · exact List.Perm.refl _
    · exact (ih.cons b).trans (List.Perm.swap a b l)

theorem sortBy_perm (le : α → α → Bool) (l : List α) : (sortBy le l).Perm l := by
  induction l with
  | nil => exact List.Perm.refl _
  | cons a l ih => exact (insertSorted_perm le a _).trans (ih.cons a)

theorem mem_sortBy (le : α → α → Bool) (l : List α) (x : α) : x ∈ sortBy le l ↔ x ∈ l :=
  (sortBy_perm le l).mem_iff

/-- What sorting functions assume of their comparison. -/
structure TotalLe (le : α → α → Bool) : Prop where
  total : ∀ a b, le a b = true ∨ le b a = true
  trans : ∀ a b c, le a b = true → le b c = true → le a c = true

theorem TotalLe.refl {le : α → α → Bool} (h : TotalLe le) (a : α) : le a a = true := by
  rcases h.total a a with h | h <;> exact h

theorem insertSorted_sorted {le : α → α → Bool} (h : TotalLe le) (a : α) (l : List α)
    (hl : l.Pairwise (fun x y => le x y = true)) :
    (insertSorted le a l).Pairwise (fun x y => le x y = true) := by
  induction l with
  | nil => simp [insertSorted]
  | cons b l ih =>
    rw [List.pairwise_cons] at hl
    unfold insertSorted; split
    · next hab =>
      rw [List.pairwise_cons, List.pairwise_cons]
      refine ⟨fun x hx => ?_, hl⟩
      rcases List.mem_cons.mp hx with rfl | hx
      · exact hab
      · exact h.trans _ _ _ hab (hl.1 x hx)
    · next hab =>
      rw [List.pairwise_cons]
      refine ⟨fun x hx => ?_, ih hl.2⟩
      rcases List.mem_cons.mp ((insertSorted_perm le a l).mem_iff.mp hx) with rfl | hx
      · rcases h.total x b with h1 | h1
        · exact absurd h1 hab
        · exact h1
      · exact hl.1 x hx

theorem sortBy_sorted {le : α → α → Bool} (h : TotalLe le) (l : List α) :
    (sortBy le l).Pairwise (fun x y => le x y = true) := by
  induction l with
  | nil => exact List.Pairwise.nil
  | cons a l ih => exact insertSorted_sorted h a _ ih

/-- Elements equivalent to `a` keep their order. -/
theorem filter_insertSorted {le : α → α → Bool} (h : TotalLe le) (a x : α) (l : List α) :
    (insertSorted le a l).filter (fun y => le x y && le y x) =
      (a :: l).filter (fun y => le x y && le y x) := by
  induction l with
  | nil => rfl
  | cons b l ih =>
    unfold insertSorted; split
    · rfl
    · next hab =>
      have hab' : le a b = false := by simpa using hab
      by_cases hb : (le x b && le b x) = true
      · have ha : (le x a && le a x) = false := by
          by_contra hc
          simp only [Bool.not_eq_false, Bool.and_eq_true] at hc hb
          have := h.trans a x b hc.2 hb.1
          rw [hab'] at this; cases this
        rw [List.filter_cons_of_pos (by exact hb), ih, List.filter_cons_of_neg (by simp [ha]),
          List.filter_cons_of_neg (by simp [ha]), List.filter_cons_of_pos (by exact hb)]
      · rw [List.filter_cons_of_neg (by exact hb), ih]
        by_cases ha : (le x a && le a x) = true
        · rw [List.filter_cons_of_pos (by exact ha), List.filter_cons_of_pos (by exact ha),
            List.filter_cons_of_neg (by exact hb)]
        · rw [List.filter_cons_of_neg (by exact ha), List.filter_cons_of_neg (by exact ha),
            List.filter_cons_of_neg (by exact hb)]

/-- `sortBy` is stable: equivalent elements keep their order. -/
theorem filter_sortBy {le : α → α → Bool} (h : TotalLe le) (x : α) (l : List α) :
    (sortBy le l).filter (fun y => le x y && le y x) =
      l.filter (fun y => le x y && le y x) := by
  induction l with
  | nil => rfl
  | cons a l ih =>
    show (insertSorted le a (sortBy le l)).filter _ = _
    rw [filter_insertSorted h]
    simp only [List.filter_cons, ih]

/-- The stable sort of a list is unique: any rearrangement that is sorted and keeps equivalent
elements in order is `sortBy`. -/
theorem eq_of_sorted_stable {le : α → α → Bool} (h : TotalLe le) :
    ∀ (l l' : List α), l.Perm l' → l.Pairwise (fun x y => le x y = true) →
      l'.Pairwise (fun x y => le x y = true) →
      (∀ x, l.filter (fun y => le x y && le y x) = l'.filter (fun y => le x y && le y x)) →
      l = l' := by
  intro l
  induction l with
  | nil => intro l' hp _ _ _; exact (List.Perm.nil_eq hp)
  | cons a l ih =>
    intro l' hp hs hs' hf
    cases l' with
    | nil => exact absurd hp (by simp)
    | cons b l' =>
      have hab : le a b = true := by
        have : b ∈ a :: l := hp.mem_iff.mpr (by simp)
        rcases List.mem_cons.mp this with rfl | hb
        · exact h.refl _
        · exact (List.pairwise_cons.mp hs).1 b hb
      have hba : le b a = true := by
        have : a ∈ b :: l' := hp.mem_iff.mp (by simp)
        rcases List.mem_cons.mp this with rfl | ha
        · exact h.refl _
        · exact (List.pairwise_cons.mp hs').1 a ha
      have hab2 : a = b := by
        have := hf a
        rw [List.filter_cons_of_pos (by simp [h.refl]),
          List.filter_cons_of_pos (by simp [hab, hba])] at this
        exact (List.cons.inj this).1
      subst hab2
      rw [ih l' hp.cons_inv (List.pairwise_cons.mp hs).2 (List.pairwise_cons.mp hs').2]
      intro x
      have := hf x
      by_cases hx : (le x a && le a x) = true
      · rw [List.filter_cons_of_pos (by exact hx), List.filter_cons_of_pos (by exact hx)] at this
        exact (List.cons.inj this).2
      · rw [List.filter_cons_of_neg (by exact hx), List.filter_cons_of_neg (by exact hx)] at this
        exact this

/-- Any stable sorting function computes `sortBy`. -/
theorem stable_sort_unique {le : α → α → Bool} (h : TotalLe le) (l l' : List α) (hp : l'.Perm l)
    (hs : l'.Pairwise (fun x y => le x y = true))
    (hf : ∀ x, l'.filter (fun y => le x y && le y x) = l.filter (fun y => le x y && le y x)) :
    l' = sortBy le l :=
  eq_of_sorted_stable h l' _ (hp.trans (sortBy_perm le l).symm) hs (sortBy_sorted h l)
    (fun x => by rw [hf x, filter_sortBy h])

end Dinero
