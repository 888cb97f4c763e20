import Verif.Model.Peg
import Mathlib.Data.List.Basic
/-
Helper lemmas on the parser combinators.
-/
namespace Dinero
namespace P

theorem seq_some {a b : P} {s s1 s2 : Str} {x y : List Pair} (h1 : a s = some (x, s1))
    (h2 : b s1 = some (y, s2)) : seq a b s = some (x ++ y, s2) := by
  simp only [seq, h1, h2]
theorem seq_none {a b : P} {s : Str} (h : a s = none) : seq a b s = none := by
  simp only [seq, h]
theorem seq_none' {a b : P} {s s1 : Str} {x : List Pair} (h1 : a s = some (x, s1))
    (h2 : b s1 = none) : seq a b s = none := by
  simp only [seq, h1, h2]
theorem alt_left {a b : P} {s : Str} {r : List Pair × Str} (h : a s = some r) :
    alt a b s = some r := by simp only [alt, h]
theorem alt_right {a b : P} {s : Str} (h : a s = none) : alt a b s = b s := by simp only [alt, h]
theorem rule_none {r : Rule} {a : P} {s : Str} (h : a s = none) : rule r a s = none := by
  simp only [rule, h]
theorem rule_some {r : Rule} {a : P} {t k : Str} {x : List Pair} (h : a (t ++ k) = some (x, k)) :
    rule r a (t ++ k) = some ([.mk r t x], k) := by
  simp only [rule, h]
  rw [List.length_append, Nat.add_sub_cancel, List.take_left]
theorem rule_some' {r : Rule} {a : P} {s k : Str} {x : List Pair} (h : a s = some (x, k)) :
    ∃ t, rule r a s = some ([.mk r t x], k) := by
  simp only [rule, h]; exact ⟨_, rfl⟩

theorem star_none {a : P} {s : Str} (h : a s = none) : star a s = some ([], s) := by
  unfold star
  cases hs : s.length with
  | zero => rfl
  | succ n => simp only [starN, h]

theorem star_one {a : P} {s s' : Str} {x : List Pair} (hs : s ≠ []) (h : a s = some (x, s'))
    (h' : a s' = none) : star a s = some (x, s') := by
  unfold star
  cases hl : s.length with
  | zero => exact absurd (List.length_eq_zero_iff.mp hl) hs
  | succ n =>
    simp only [starN, h]
    cases n with
    | zero => simp only [starN, List.append_nil]
    | succ n => simp only [starN, h', List.append_nil]

theorem starN_chr (p : Char → Bool) : ∀ (n : Nat) (s : Str), s.length ≤ n →
    starN (chr p) n s = some ([], s.dropWhile p) := by
  intro n
  induction n with
  | zero => intro s h; rw [List.length_eq_zero_iff.mp (Nat.le_zero.mp h)]; rfl
  | succ n ih =>
    intro s h
    cases s with
    | nil => simp [starN, chr]
    | cons c s =>
      simp only [starN, chr]
      by_cases hc : p c = true
      · simp only [hc, if_true]
        rw [ih s (by simpa using h)]
        simp [hc]
      · simp [hc]

/-- A repeated character class consumes the longest run. -/
theorem star_chr (p : Char → Bool) (s : Str) : star (chr p) s = some ([], s.dropWhile p) :=
  starN_chr p s.length s (Nat.le_refl _)

theorem lit_one (c : Char) : lit [c] = chr (fun d => c == d) := by
  funext s
  cases s with
  | nil => rfl
  | cons d s => simp [lit, chr, List.isPrefixOf]

theorem wss_eq (s : Str) : wss s = some ([], s.dropWhile (fun c => ' ' == c)) := by
  unfold wss; rw [lit_one, star_chr]

theorem lit_append (l k : Str) : lit l (l ++ k) = some ([], k) := by
  simp [lit]

theorem plus_chr {p : Char → Bool} {c : Char} {s : Str} (h : p c = true) :
    plus (chr p) (c :: s) = some ([], s.dropWhile p) := by
  unfold plus
  rw [seq_some (x := []) (s1 := s) (by simp [chr, h]) (star_chr p s)]; rfl

theorem plus_chr_append {p : Char → Bool} {t k : Str} (ht : t ≠ []) (h : ∀ c ∈ t, p c = true)
    (hk : ∀ c, k.head? = some c → p c = false) : plus (chr p) (t ++ k) = some ([], k) := by
  cases t with
  | nil => exact absurd rfl ht
  | cons c t =>
    rw [List.cons_append, plus_chr (h c (by simp))]
    congr 2
    rw [List.dropWhile_append_of_pos (fun d hd => h d (by simp [hd]))]
    cases k with
    | nil => rfl
    | cons d k => simp [hk d rfl]

theorem star_chr_append {p : Char → Bool} {t k : Str} (h : ∀ c ∈ t, p c = true)
    (hk : ∀ c, k.head? = some c → p c = false) : star (chr p) (t ++ k) = some ([], k) := by
  rw [star_chr, List.dropWhile_append_of_pos (fun d hd => h d hd)]
  cases k with
  | nil => rfl
  | cons d k => simp [hk d rfl]

theorem plus_chr_none {p : Char → Bool} {s : Str} (h : ∀ c, s.head? = some c → p c = false) :
    plus (chr p) s = none := by
  unfold plus
  apply seq_none
  cases s with
  | nil => rfl
  | cons c s => simp [chr, h c rfl]

end P
end Dinero
