import Verif.Spec.Comment
import Mathlib.Data.List.Basic
/-
Lemmas on the tags of comments.
-/
namespace Dinero

theorem of_mem_takeWhile {α : Type} {p : α → Bool} {l : List α} {x : α} (h : x ∈ l.takeWhile p) :
    p x = true := by
  induction l with
  | nil => simp at h
  | cons a l ih =>
    rw [List.takeWhile_cons] at h
    split at h
    · rcases List.mem_cons.mp h with rfl | h
      · assumption
      · exact ih h
    · simp at h

theorem splitColon_nonempty (s : Str) : splitColon s ≠ [] := by
  cases s with
  | nil => simp [splitColon]
  | cons c s => unfold splitColon; split <;> [simp; (split <;> simp)]

theorem splitColon_colon (s : Str) : splitColon (':' :: s) = [] :: splitColon s := by
  rw [splitColon]
  split
  · next h => exact absurd h (splitColon_nonempty s)
  · next h => simp [h]

theorem splitColon_part {t : Str} (h : ':' ∉ t) (s : Str) :
    splitColon (t ++ ':' :: s) = t :: splitColon s := by
  induction t with
  | nil => exact splitColon_colon s
  | cons c t ih =>
    simp only [List.mem_cons, not_or] at h
    rw [List.cons_append, splitColon, ih h.2]
    simp [Ne.symm h.1]

theorem splitColon_flags {l : List Str} (h : ∀ t ∈ l, ':' ∉ t) :
    splitColon (l.flatMap (fun t => t ++ [':'])) = l ++ [[]] := by
  induction l with
  | nil => simp [splitColon]
  | cons t l ih =>
    simp only [List.mem_cons, forall_eq_or_imp] at h
    rw [List.flatMap_cons, List.append_assoc, List.singleton_append, splitColon_part h.1, ih h.2]
    rfl

/-- Every text ending in a colon is a sequence of parts, each with its colon. -/
theorem exists_flags (s : Str) : ∃ l : List Str, (∀ t ∈ l, ':' ∉ t) ∧
    s ++ [':'] = l.flatMap (fun t => t ++ [':']) := by
  induction s with
  | nil => exact ⟨[[]], by simp, by simp⟩
  | cons c s ih =>
    obtain ⟨l, hl, he⟩ := ih
    by_cases hc : c = ':'
    · subst hc
      exact ⟨[] :: l, by simpa using hl, by simp [← he]⟩
    · cases l with
      | nil => simp at he
      | cons t l =>
        simp only [List.mem_cons, forall_eq_or_imp] at hl
        refine ⟨(c :: t) :: l, ?_, ?_⟩
        · simp only [List.mem_cons, forall_eq_or_imp]
          exact ⟨by simpa [Ne.symm hc] using hl.1, hl.2⟩
        · rw [List.cons_append, he]; simp

theorem lastLine_append {pre line : Str} (hp : pre = [] ∨ pre.getLast? = some '\n')
    (hl : '\n' ∉ line) : lastLine (pre ++ line) = line := by
  unfold lastLine
  have h1 : ∀ r : Str, ('\n' ∉ r) → ∀ x : Str, (x = [] ∨ x.head? = some '\n') →
      (r ++ x).takeWhile (· ≠ '\n') = r := by
    intro r hr x hx
    rw [List.takeWhile_append_of_pos (by intro c hc; simp; rintro rfl; exact hr hc)]
    rcases hx with rfl | hx
    · simp
    · cases x with
      | nil => simp at hx
      | cons a x => simp at hx; subst hx; simp
  rw [List.reverse_append, h1 line.reverse (by simpa using hl) pre.reverse, List.reverse_reverse]
  rcases hp with rfl | hp
  · exact Or.inl rfl
  · exact Or.inr (by simpa using hp)

/-- Blanks at the end are dropped, nothing else. -/
theorem dropTrailing_spec (s : Str) : ∃ n, s = dropTrailing s ++ List.replicate n ' ' := by
  unfold dropTrailing
  refine ⟨(s.reverse.takeWhile (· = ' ')).length, ?_⟩
  have h : s.reverse.takeWhile (· = ' ') = List.replicate (s.reverse.takeWhile (· = ' ')).length ' ' := by
    rw [List.eq_replicate_iff]
    refine ⟨rfl, fun b hb => ?_⟩
    have := of_mem_takeWhile hb
    simpa using this
  conv_lhs => rw [← List.reverse_reverse s, ← List.takeWhile_append_dropWhile (p := (· = ' ')) (l := s.reverse)]
  rw [List.reverse_append]
  congr 1
  rw [h]; simp

theorem dropTrailing_append (x : Str) (n : Nat) (h : x.getLast? ≠ some ' ') :
    dropTrailing (x ++ List.replicate n ' ') = x := by
  unfold dropTrailing
  rw [List.reverse_append, List.reverse_replicate,
    List.dropWhile_append_of_pos (by intro c hc; simp [List.eq_of_mem_replicate hc])]
  have hx : x.reverse.head? ≠ some ' ' := by simpa using h
  have : x.reverse.dropWhile (· = ' ') = x.reverse := by
    cases hr : x.reverse with
    | nil => rfl
    | cons a r => rw [hr] at hx; simp at hx; simp [hx]
  rw [this, List.reverse_reverse]

theorem dropWhile_colon {head x : Str} (h : ':' ∉ head) :
    (head ++ ':' :: x).dropWhile (· ≠ ':') = ':' :: x := by
  rw [List.dropWhile_append_of_pos (by intro c hc; simp; rintro rfl; exact h hc)]
  simp

theorem takeWhile_colon {head x : Str} (h : ':' ∉ head) :
    (head ++ ':' :: x).takeWhile (· ≠ ':') = head := by
  rw [List.takeWhile_append_of_pos (by intro c hc; simp; rintro rfl; exact h hc)]
  simp

/-- What is captured, in terms of what is written. -/
theorem flagsCapture_of {pre line : Str} (hp : pre = [] ∨ pre.getLast? = some '\n')
    (hl : '\n' ∉ line) {flags : List Str} (h : WritesFlags line flags) :
    flagsCapture (pre ++ line) = some (':' :: flags.flatMap (fun t => t ++ [':'])) := by
  obtain ⟨hf, h1, h2, head, n, hh, he⟩ := h
  unfold flagsCapture
  rw [lastLine_append hp hl, he]
  have hlast : (flags.flatMap (fun t => t ++ [':'])).getLast? = some ':' := by
    obtain ⟨x, y, rfl⟩ : ∃ x y, flags = x ++ [y] :=
      ⟨flags.dropLast, flags.getLast h1, (List.dropLast_append_getLast h1).symm⟩
    simp
  have hlen : 2 ≤ (flags.flatMap (fun t => t ++ [':'])).length := by
    cases flags with
    | nil => exact absurd rfl h1
    | cons t l =>
      cases t with
      | cons c t => simp; omega
      | nil =>
        cases l with
        | nil => exact absurd rfl h2
        | cons u l => simp; omega
  have hlast' : (':' :: flags.flatMap (fun t => t ++ [':'])).getLast? = some ':' := by
    rw [List.getLast?_cons, hlast]; rfl
  rw [dropTrailing_append _ _ (by rw [List.getLast?_append, hlast']; simp)]
  simp only
  rw [dropWhile_colon hh, if_pos ⟨Nat.succ_le_succ hlen, hlast'⟩]

theorem of_flagsCapture {pre line v : Str} (hp : pre = [] ∨ pre.getLast? = some '\n')
    (hl : '\n' ∉ line) (h : flagsCapture (pre ++ line) = some v) :
    ∃ flags, WritesFlags line flags := by
  unfold flagsCapture at h
  rw [lastLine_append hp hl] at h
  simp only at h
  split at h
  · next hc =>
    obtain ⟨hc1, hc2⟩ := hc
    obtain ⟨n, hn⟩ := dropTrailing_spec line
    have hd := List.takeWhile_append_dropWhile (p := (· ≠ ':')) (l := dropTrailing line)
    have hhead : ':' ∉ (dropTrailing line).takeWhile (· ≠ ':') := by
      intro hm; have := of_mem_takeWhile hm; simp at this
    have hnot := List.head?_dropWhile_not (p := (· ≠ ':')) (l := dropTrailing line)
    generalize (dropTrailing line).dropWhile (· ≠ ':') = s at hc1 hc2 hd hnot
    have hs0 : ∃ s', s = ':' :: s' := by
      cases s with
      | nil => simp at hc1
      | cons a b => simp at hnot; exact ⟨b, by rw [hnot]⟩
    obtain ⟨s', rfl⟩ := hs0
    have hs' : ∃ m, s' = m ++ [':'] := by
      cases hs : s' with
      | nil => subst hs; simp at hc1
      | cons a b =>
        rw [← hs]
        rw [List.getLast?_cons] at hc2
        have : s' ≠ [] := by simp [hs]
        refine ⟨s'.dropLast, ?_⟩
        rw [List.getLast?_eq_some_getLast this] at hc2
        simp at hc2
        conv_lhs => rw [← List.dropLast_append_getLast this, hc2]
    obtain ⟨m, rfl⟩ := hs'
    obtain ⟨l, hl1, hl2⟩ := exists_flags m
    refine ⟨l, hl1, ?_, ?_, _, n, hhead, ?_⟩
    · rintro rfl; simp at hl2
    · rintro rfl; simp at hl2; subst hl2; simp at hc1
    · rw [← hl2, hd]; exact hn
  · cases h

theorem dropSpaces (n : Nat) {x : Str} (h : x.head? ≠ some ' ') :
    (List.replicate n ' ' ++ x).dropWhile (· = ' ') = x := by
  rw [List.dropWhile_append_of_pos (by intro c hc; simp [List.eq_of_mem_replicate hc])]
  cases x with
  | nil => rfl
  | cons a r => simp at h; simp [h]

theorem exists_spaces (s : Str) : ∃ n, s = List.replicate n ' ' ++ s.dropWhile (· = ' ') ∧
    (s.dropWhile (· = ' ')).head? ≠ some ' ' := by
  refine ⟨(s.takeWhile (· = ' ')).length, ?_, ?_⟩
  · have h : s.takeWhile (· = ' ') = List.replicate (s.takeWhile (· = ' ')).length ' ' := by
      rw [List.eq_replicate_iff]
      exact ⟨rfl, fun b hb => by simpa using of_mem_takeWhile hb⟩
    conv_lhs => rw [← List.takeWhile_append_dropWhile (p := (· = ' ')) (l := s)]
    congr 1
  · intro h
    have := List.head?_dropWhile_not (p := (· = ' ')) (l := s)
    rw [h] at this; simp at this

/-- A line with a colon, cut at its last one. -/
theorem tagCapture_eq {pre a b : Str} (hp : pre = [] ∨ pre.getLast? = some '\n')
    (hl : '\n' ∉ a ++ ':' :: b) (hb : ':' ∉ b) :
    tagCapture (pre ++ (a ++ ':' :: b)) =
      some (a.dropWhile (· = ' '), b.dropWhile (· = ' ')) := by
  unfold tagCapture
  rw [lastLine_append hp hl]
  have hr : (a ++ ':' :: b).reverse = b.reverse ++ ':' :: a.reverse := by simp
  simp only [hr]
  rw [if_pos (by simp), dropWhile_colon (by simpa using hb), takeWhile_colon (by simpa using hb)]
  simp

theorem tagCapture_none {pre line : Str} (hp : pre = [] ∨ pre.getLast? = some '\n')
    (hl : '\n' ∉ line) (h : ':' ∉ line) : tagCapture (pre ++ line) = none := by
  unfold tagCapture
  rw [lastLine_append hp hl]
  simp [h]

theorem cut_last {line : Str} (h : ':' ∈ line) : ∃ a b, line = a ++ ':' :: b ∧ ':' ∉ b := by
  obtain ⟨x, y, hxy, hx⟩ := List.eq_append_cons_of_mem (a := ':') (xs := line.reverse) (by simpa using h)
  refine ⟨y.reverse, x.reverse, ?_, by simpa using hx⟩
  have := congrArg List.reverse hxy
  simpa using this

end Dinero
