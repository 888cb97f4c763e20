import Verif.Spec.Depths
import Verif.Lemmas.Tree
import Verif.Lemmas.Comment
/-
Lemmas about reports of different depths (C139).
-/
namespace Dinero

/-- `name` cut down to its first `d` components. -/
def cutName (d : Nat) (name : Str) : Str := joinColon ((splitColon name).take d)

theorem splitColon_join {L : List Str} (hne : L ≠ []) (hn : ∀ x ∈ L, ':' ∉ x) : splitColon (joinColon L) = L := by
  induction L with
  | nil => exact absurd rfl hne
  | cons x L ih =>
    have hx := hn x (by simp)
    by_cases hL : L = []
    · subst hL
      show splitColon x = [x]
      clear ih hn hne
      induction x with
      | nil => rfl
      | cons c x ih =>
        simp only [List.mem_cons, not_or] at hx
        rw [splitColon, ih hx.2]
        simp [Ne.symm hx.1]
    · rw [joinColon_cons hL, splitColon_part hx, ih hL (fun y hy => hn y (List.mem_cons_of_mem _ hy))]

theorem cutName_cutName {d d' : Nat} (h : d ≤ d') (name : Str) : cutName d (cutName d' name) = cutName d name := by
  unfold cutName
  rcases Nat.eq_zero_or_pos d' with rfl | hd
  · obtain rfl : d = 0 := by omega
    simp
  · rw [splitColon_join, List.take_take, Nat.min_eq_left h]
    · have := splitColon_ne_nil name
      cases hs : splitColon name with
      | nil => exact absurd hs this
      | cons x xs =>
        obtain ⟨k, rfl⟩ : ∃ k, d' = k + 1 := ⟨d' - 1, by omega⟩
        simp
    · exact fun x hx => splitColon_noColon name x (List.mem_of_mem_take hx)

theorem sum_one {L : List Str} (hn : L.Nodup) (k : Str) (q : Str → Bool) (v : Rat) (hk : k ∈ L) :
    ((L.filter q).map (fun g => if k = g then v else 0)).sum = if q k then v else 0 := by
  induction L with
  | nil => cases hk
  | cons x xs ih =>
    rw [List.nodup_cons] at hn
    by_cases hx : k = x
    · subst hx
      have hz : ((xs.filter q).map (fun g => if k = g then v else 0)).sum = 0 := by
        apply List.sum_eq_zero
        intro y hy
        obtain ⟨g, hg, rfl⟩ := List.mem_map.mp hy
        rw [if_neg]
        rintro rfl
        exact hn.1 (List.mem_filter.mp hg).1
      rw [List.filter_cons]
      split
      · simp [hz]
      · exact hz
    · have hk' : k ∈ xs := by
        rcases List.mem_cons.mp hk with h | h
        · exact absurd h hx
        · exact h
      rw [List.filter_cons]
      split
      · rw [List.map_cons, List.sum_cons, if_neg hx, zero_add, ih hn.2 hk']
      · exact ih hn.2 hk'

/-- A sum over groups, all of which are listed. -/
theorem selSum_listed (sel : List (Txn Posting × Posting)) (key : Str → Str) {L : List Str} (hn : L.Nodup)
    (hk : ∀ x ∈ sel, key x.2.account ∈ L) (q : Str → Bool) (c : Cur) :
    selSum sel (fun a => q (key a)) c = ((L.filter q).map (fun g => selSum sel (fun a => key a = g) c)).sum := by
  induction sel with
  | nil =>
    have : ∀ g, selSum [] (fun a => decide (key a = g)) c = 0 := fun g => rfl
    simp only [this]
    rw [List.sum_eq_zero]
    · rfl
    · intro y hy
      obtain ⟨g, _, rfl⟩ := List.mem_map.mp hy
      rfl
  | cons x sel ih =>
    rw [selSum_cons, ih (fun y hy => hk y (List.mem_cons_of_mem _ hy))]
    simp only [selSum_cons, decide_eq_true_eq]
    rw [List.sum_map_add, sum_one hn _ _ _ (hk x (by simp))]

/-- A sum over groups, of which those that are not listed are zero. -/
theorem selSum_lines (sel : List (Txn Posting × Posting)) (key : Str → Str) {L : List Str} (hn : L.Nodup) (c : Cur)
    (hz : ∀ g, g ∉ L → selSum sel (fun a => key a = g) c = 0) (q : Str → Bool) :
    selSum sel (fun a => q (key a)) c = ((L.filter q).map (fun g => selSum sel (fun a => key a = g) c)).sum := by
  let M := ((sel.map (fun x => key x.2.account)).dedup).filter (fun g => g ∉ L)
  have hM : (L ++ M).Nodup := by
    rw [List.nodup_append]
    refine ⟨hn, (List.nodup_dedup _).filter _, ?_⟩
    intro a ha b hb e
    subst e
    exact (by simpa using (List.mem_filter.mp hb).2 : a ∉ L) ha
  rw [selSum_listed sel key hM _ q c, List.filter_append, List.map_append, List.sum_append]
  · rw [show ((M.filter q).map (fun g => selSum sel (fun a => decide (key a = g)) c)).sum = 0 from ?_, add_zero]
    apply List.sum_eq_zero
    intro y hy
    obtain ⟨g, hg, rfl⟩ := List.mem_map.mp hy
    exact hz g (by simpa using (List.mem_filter.mp (List.mem_filter.mp hg).1).2)
  · intro x hx
    by_cases h : key x.2.account ∈ L
    · exact List.mem_append_left _ h
    · refine List.mem_append_right _ (List.mem_filter.mpr ⟨?_, by simpa using h⟩)
      rw [List.mem_dedup]
      exact List.mem_map_of_mem hx

end Dinero
