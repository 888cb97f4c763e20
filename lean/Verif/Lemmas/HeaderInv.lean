import Verif.Spec.Accepted
import Verif.Lemmas.Header
/-
What the grammar makes of the first lines of transactions, and of the lines of prices and commodities, in both directions.
-/
namespace Dinero
open P

/-! ### Parsing expressions that succeed -/

theorem seq_iff {a b : P} {s k : Str} {z : List Pair} :
    seq a b s = some (z, k) ↔ ∃ x s' y, a s = some (x, s') ∧ b s' = some (y, k) ∧ z = x ++ y := by
  unfold seq
  constructor
  · intro h
    split at h
    · cases h
    · next x s' h1 =>
      split at h
      · cases h
      · next y k' h2 =>
        cases h
        exact ⟨x, s', y, h1, h2, rfl⟩
  · rintro ⟨x, s', y, h1, h2, rfl⟩
    rw [h1]
    simp only
    rw [h2]

theorem alt_iff {a b : P} {s : Str} {r : List Pair × Str} : alt a b s = some r ↔ a s = some r ∨ (a s = none ∧ b s = some r) := by
  unfold alt
  cases h : a s with
  | some r' => simp
  | none => simp

theorem opt_iff {a : P} {s k : Str} {x : List Pair} :
    opt a s = some (x, k) ↔ a s = some (x, k) ∨ (a s = none ∧ x = [] ∧ s = k) := by
  unfold opt
  rw [alt_iff]
  simp only [eps, Option.some.injEq, Prod.mk.injEq]
  constructor
  · rintro (h | ⟨h, h1, h2⟩)
    · exact .inl h
    · exact .inr ⟨h, h1.symm, h2⟩
  · rintro (h | ⟨h, h1, h2⟩)
    · exact .inl h
    · exact .inr ⟨h, h1.symm, h2⟩

theorem rule_iff {r : Rule} {a : P} {s k : Str} {ps : List Pair} :
    rule r a s = some (ps, k) ↔ ∃ x, a s = some (x, k) ∧ ps = [.mk r (s.take (s.length - k.length)) x] := by
  unfold rule
  cases h : a s with
  | none => simp
  | some y =>
    obtain ⟨x, s'⟩ := y
    simp only [Option.some.injEq, Prod.mk.injEq]
    constructor
    · rintro ⟨rfl, rfl⟩
      exact ⟨x, ⟨rfl, rfl⟩, rfl⟩
    · rintro ⟨y, ⟨rfl, rfl⟩, rfl⟩
      exact ⟨rfl, rfl⟩

theorem take_text (a k : Str) : (a ++ k).take ((a ++ k).length - k.length) = a := by
  simp

theorem lit_iff {l s k : Str} {x : List Pair} : lit l s = some (x, k) ↔ x = [] ∧ s = l ++ k := by
  unfold lit
  constructor
  · intro h
    split at h
    · next hp =>
      simp only [Option.some.injEq, Prod.mk.injEq] at h
      obtain ⟨rfl, rfl⟩ := h
      obtain ⟨t, rfl⟩ := List.isPrefixOf_iff_prefix.mp hp
      exact ⟨rfl, by simp⟩
    · cases h
  · rintro ⟨rfl, rfl⟩
    rw [if_pos (List.isPrefixOf_iff_prefix.mpr ⟨k, rfl⟩)]
    simp

theorem chr_iff {p : Char → Bool} {s k : Str} {x : List Pair} : chr p s = some (x, k) ↔ x = [] ∧ ∃ c, s = c :: k ∧ p c = true := by
  cases s with
  | nil => simp [chr]
  | cons c s =>
    simp only [chr]
    constructor
    · intro h
      split at h
      · next hc =>
        cases h
        exact ⟨rfl, c, rfl, hc⟩
      · cases h
    · rintro ⟨rfl, c', h, hc⟩
      obtain ⟨rfl, rfl⟩ := List.cons.inj h
      rw [if_pos hc]

theorem lits_iff {ls : List String} {s k : Str} {x : List Pair} (h1 : ∀ l ∈ ls, l.toList.length = 1) :
    lits ls s = some (x, k) ↔ x = [] ∧ ∃ l ∈ ls, s = l.toList ++ k := by
  induction ls with
  | nil => simp [lits]
  | cons l ls ih =>
    have ih := ih (fun l' hl' => h1 l' (by simp [hl']))
    rw [lits, alt_iff, lit_iff, ih]
    constructor
    · rintro (⟨h, h'⟩ | ⟨_, h, l', h2, h3⟩)
      · exact ⟨h, l, by simp, h'⟩
      · exact ⟨h, l', by simp [h2], h3⟩
    · rintro ⟨rfl, l', h2, h3⟩
      cases hl : lit l.toList s with
      | some y =>
        obtain ⟨z, s'⟩ := y
        obtain ⟨hz, hs⟩ := lit_iff.mp hl
        refine .inl ⟨rfl, ?_⟩
        obtain ⟨d, hd⟩ := List.length_eq_one_iff.mp (h1 l (by simp))
        obtain ⟨d', hd'⟩ := List.length_eq_one_iff.mp (h1 l' h2)
        rw [hs, hd, hd'] at h3
        obtain ⟨rfl, rfl⟩ := List.cons.inj h3
        rw [hs]
        rfl
      | none =>
        refine .inr ⟨rfl, rfl, l', ?_, h3⟩
        rcases List.mem_cons.mp h2 with rfl | h2
        · rw [lit_iff.mpr ⟨rfl, h3⟩] at hl
          cases hl
        · exact h2

theorem star_chr_iff {p : Char → Bool} {s k : Str} {x : List Pair} : star (chr p) s = some (x, k) ↔
    x = [] ∧ ∃ a, s = a ++ k ∧ (∀ c ∈ a, p c = true) ∧ ∀ c, k.head? = some c → p c = false := by
  rw [star_chr]
  simp only [Option.some.injEq, Prod.mk.injEq]
  constructor
  · rintro ⟨rfl, rfl⟩
    refine ⟨rfl, s.takeWhile p, List.takeWhile_append_dropWhile.symm, fun c hc => ?_, fun c hc => ?_⟩
    · exact (List.all_eq_true.mp List.all_takeWhile) c hc
    · have := List.head?_dropWhile_not (p := p) (l := s)
      rw [hc] at this
      simpa using this
  · rintro ⟨rfl, a, rfl, h1, h2⟩
    refine ⟨rfl, ?_⟩
    rw [dropWhile_all h1, dropWhile_head h2]

theorem plus_chr_iff {p : Char → Bool} {s k : Str} {x : List Pair} : plus (chr p) s = some (x, k) ↔
    x = [] ∧ ∃ a, s = a ++ k ∧ a ≠ [] ∧ (∀ c ∈ a, p c = true) ∧ ∀ c, k.head? = some c → p c = false := by
  unfold plus
  rw [seq_iff]
  constructor
  · rintro ⟨x, s', y, h1, h2, rfl⟩
    obtain ⟨rfl, c, rfl, hc⟩ := chr_iff.mp h1
    obtain ⟨rfl, a, rfl, ha, hk⟩ := star_chr_iff.mp h2
    refine ⟨rfl, c :: a, rfl, by simp, ?_, hk⟩
    intro d hd
    rcases List.mem_cons.mp hd with rfl | hd
    · exact hc
    · exact ha d hd
  · rintro ⟨rfl, a, rfl, h0, ha, hk⟩
    cases a with
    | nil => exact absurd rfl h0
    | cons c a =>
      exact ⟨[], a ++ k, [], chr_iff.mpr ⟨rfl, c, rfl, ha c (by simp)⟩,
        star_chr_iff.mpr ⟨rfl, a, rfl, fun d hd => ha d (by simp [hd]), hk⟩, rfl⟩

theorem wss_iff {s k : Str} {x : List Pair} : wss s = some (x, k) ↔ x = [] ∧ TakesSpaces s k := by
  unfold wss
  rw [lit_one, star_chr_iff]
  unfold TakesSpaces Spaces
  constructor
  · rintro ⟨rfl, a, rfl, h1, h2⟩
    refine ⟨rfl, a, rfl, fun c hc => (beq_iff_eq.mp (h1 c hc)).symm, fun h => ?_⟩
    have := h2 _ h
    simp at this
  · rintro ⟨rfl, a, rfl, h1, h2⟩
    refine ⟨rfl, a, rfl, fun c hc => by simp [h1 c hc], fun c hc => ?_⟩
    exact beq_eq_false_iff_ne.mpr (fun e => h2 (e ▸ hc))

theorem wsp_iff {s k : Str} {x : List Pair} : wsp s = some (x, k) ↔ x = [] ∧ s.head? = some ' ' ∧ TakesSpaces s k := by
  unfold wsp
  rw [lit_one, plus_chr_iff]
  unfold TakesSpaces Spaces
  constructor
  · rintro ⟨rfl, a, rfl, h0, h1, h2⟩
    refine ⟨rfl, ?_, a, rfl, fun c hc => (beq_iff_eq.mp (h1 c hc)).symm, fun h => ?_⟩
    · cases a with
      | nil => exact absurd rfl h0
      | cons c a => rw [← beq_iff_eq.mp (h1 c (by simp))]; rfl
    · have := h2 _ h
      simp at this
  · rintro ⟨rfl, h0, a, rfl, h1, h2⟩
    refine ⟨rfl, a, rfl, ?_, fun c hc => by simp [h1 c hc], fun c hc => ?_⟩
    · rintro rfl
      exact h2 h0
    · exact beq_eq_false_iff_ne.mpr (fun e => h2 (e ▸ hc))

/-! ### Quoted texts -/

theorem quotedBody_iff {q : Char} (hq : q ≠ '\\') : ∀ {s r : Str}, quotedBody q s = some r ↔ ∃ x, s = x ++ q :: r ∧ Quoted q x := by
  intro s
  induction hn : s.length using Nat.strong_induction_on generalizing s with
  | _ n ih =>
  intro r
  cases s with
  | nil =>
    simp only [quotedBody, reduceCtorEq, false_iff, not_exists, not_and]
    intro x h
    simp at h
  | cons c s =>
    rw [quotedBody.eq_def]
    simp only
    split
    · next hc =>
      obtain ⟨rfl, hc⟩ := hc
      cases s with
      | nil => cases hc
      | cons d s =>
        simp only [List.head?_cons, Option.some.injEq] at hc
        subst hc
        rw [ih s.length (by rw [← hn]; simp; omega) rfl]
        constructor
        · rintro ⟨x, rfl, hx⟩
          exact ⟨'\\' :: d :: x, rfl, .quote hx⟩
        · rintro ⟨x, h, hx⟩
          cases hx with
          | nil => simp only [List.nil_append, List.cons.injEq] at h; exact absurd h.1.symm hq
          | @quote x hx =>
            simp only [List.cons_append, List.cons.injEq, true_and] at h
            exact ⟨x, h, hx⟩
          | @char c' x h1 h2 hx =>
            simp only [List.cons_append, List.cons.injEq] at h
            obtain ⟨rfl, h⟩ := h
            obtain ⟨e, he, hne⟩ := h2 rfl
            cases x with
            | nil => cases he
            | cons e' x =>
              simp only [List.head?_cons, Option.some.injEq] at he
              subst he
              simp only [List.cons_append, List.cons.injEq] at h
              exact absurd h.1.symm hne
    · next hc =>
      split
      · next hcq =>
        subst hcq
        simp only [Option.some.injEq]
        constructor
        · rintro rfl
          exact ⟨[], rfl, .nil⟩
        · rintro ⟨x, h, hx⟩
          cases hx with
          | nil => simpa using h
          | @quote x hx =>
            simp only [List.cons_append, List.cons.injEq] at h
            exact absurd h.1 hq
          | @char c' x h1 h2 hx =>
            simp only [List.cons_append, List.cons.injEq] at h
            exact absurd h.1.symm h1
      · next hcq =>
        rw [ih s.length (by rw [← hn]; simp) rfl]
        constructor
        · rintro ⟨x, rfl, hx⟩
          refine ⟨c :: x, rfl, .char hcq (fun h => ?_) hx⟩
          cases x with
          | nil => exact absurd ⟨h, rfl⟩ hc
          | cons d x => exact ⟨d, rfl, fun hd => hc ⟨h, by simp [hd]⟩⟩
        · rintro ⟨x, h, hx⟩
          cases hx with
          | nil => simp only [List.nil_append, List.cons.injEq] at h; exact absurd h.1 hcq
          | @quote x hx =>
            simp only [List.cons_append, List.cons.injEq] at h
            obtain ⟨rfl, h⟩ := h
            rw [h] at hc
            exact absurd ⟨rfl, rfl⟩ hc
          | @char c' x h1 h2 hx =>
            simp only [List.cons_append, List.cons.injEq] at h
            exact ⟨x, h.2, hx⟩

theorem quoted_iff {q : Char} (hq : q ≠ '\\') {s k : Str} {ps : List Pair} :
    quoted q s = some (ps, k) ↔ ps = [] ∧ ∃ x, s = q :: x ++ q :: k ∧ Quoted q x := by
  cases s with
  | nil => simp [quoted]
  | cons c s =>
    simp only [quoted]
    split
    · next hc =>
      subst hc
      simp only [Option.map_eq_some_iff, Prod.mk.injEq]
      constructor
      · rintro ⟨r, h, rfl, rfl⟩
        obtain ⟨x, rfl, hx⟩ := (quotedBody_iff hq).mp h
        exact ⟨rfl, x, rfl, hx⟩
      · rintro ⟨rfl, x, h, hx⟩
        refine ⟨k, (quotedBody_iff hq).mpr ⟨x, ?_, hx⟩, rfl, rfl⟩
        simpa using h
    · next hc =>
      simp only [reduceCtorEq, false_iff, not_and, not_exists]
      rintro _ x h
      simp only [List.cons_append, List.cons.injEq] at h
      exact absurd h.1 hc

theorem gString_iff {s k : Str} {ps : List Pair} :
    gString s = some (ps, k) ↔ ∃ q x, (q = '"' ∨ q = '\'') ∧ s = q :: x ++ q :: k ∧ Quoted q x ∧
      ps = [.mk .string (q :: x ++ [q]) []] := by
  unfold gString
  rw [rule_iff]
  have key : ∀ {z}, alt (quoted '"') (quoted '\'') s = some (z, k) ↔ z = [] ∧ ∃ q x, (q = '"' ∨ q = '\'') ∧ s = q :: x ++ q :: k ∧ Quoted q x := by
    intro z
    rw [alt_iff, quoted_iff (by decide), quoted_iff (by decide)]
    constructor
    · rintro (⟨h, x, h1, h2⟩ | ⟨_, h, x, h1, h2⟩)
      · exact ⟨h, _, x, .inl rfl, h1, h2⟩
      · exact ⟨h, _, x, .inr rfl, h1, h2⟩
    · rintro ⟨h, q, x, rfl | rfl, h1, h2⟩
      · exact .inl ⟨h, x, h1, h2⟩
      · refine .inr ⟨?_, h, x, h1, h2⟩
        rw [h1]
        rfl
  constructor
  · rintro ⟨z, h, rfl⟩
    obtain ⟨rfl, q, x, hq, rfl, hx⟩ := key.mp h
    refine ⟨q, x, hq, rfl, hx, ?_⟩
    have := take_text (q :: x ++ [q]) k
    rw [show q :: x ++ [q] ++ k = q :: x ++ q :: k by simp] at this
    rw [this]
  · rintro ⟨q, x, hq, rfl, hx, rfl⟩
    refine ⟨[], key.mpr ⟨rfl, q, x, hq, rfl, hx⟩, ?_⟩
    have := take_text (q :: x ++ [q]) k
    rw [show q :: x ++ [q] ++ k = q :: x ++ q :: k by simp] at this
    rw [this]

theorem gString_fails {s : Str} : gString s = none ↔ ∀ x k, ¬ TakesQuoted s x k := by
  constructor
  · rintro h x k ⟨q, hq, h1, h2⟩
    rw [gString_iff.mpr ⟨q, x, hq, h1, h2, rfl⟩] at h
    cases h
  · intro h
    cases hg : gString s with
    | none => rfl
    | some y =>
      obtain ⟨ps, k⟩ := y
      obtain ⟨q, x, hq, h1, h2, _⟩ := gString_iff.mp hg
      exact absurd ⟨q, hq, h1, h2⟩ (h x k)

/-! ### Dates -/

theorem isDig_of {c : Char} (h : (decide ('0' ≤ c) && decide (c ≤ '9')) = true) : '0' ≤ c ∧ c ≤ '9' := by simpa using h

theorem bigint_iff {s k : Str} {x : List Pair} : bigint s = some (x, k) ↔ x = [] ∧ ∃ a, s = a ++ k ∧ IsDigits a ∧ EndsDigits k := by
  unfold bigint digit
  rw [plus_chr_iff]
  unfold EndsDigits IsDigits
  simp only [Bool.and_eq_true, decide_eq_true_eq]
  constructor
  · rintro ⟨rfl, a, rfl, h0, h1, h2⟩
    exact ⟨rfl, a, rfl, ⟨h0, h1⟩, fun c hc h => by have := h2 c hc; simp [h.1, h.2] at this⟩
  · rintro ⟨rfl, a, rfl, ⟨h0, h1⟩, h2⟩
    refine ⟨rfl, a, rfl, h0, h1, fun c hc => ?_⟩
    have := h2 c hc
    rw [← Bool.not_eq_true]
    simpa using this

theorem digit_iff {s k : Str} {x : List Pair} : digit s = some (x, k) ↔ x = [] ∧ ∃ c, s = c :: k ∧ '0' ≤ c ∧ c ≤ '9' := by
  unfold digit
  rw [chr_iff]
  simp

theorem gYear_inv {s k : Str} {ps : List Pair} (h : gYear s = some (ps, k)) : ∃ (neg : Bool) (ys : Str),
    s = (if neg then ['-'] else []) ++ ys ++ k ∧ IsDigits ys ∧ ps = [.mk .year ((if neg then ['-'] else []) ++ ys) []] := by
  obtain ⟨x, h1, rfl⟩ := rule_iff.mp h
  obtain ⟨x1, s1, y, h2, h3, rfl⟩ := seq_iff.mp h1
  obtain ⟨rfl, ys, rfl, h4, _⟩ := bigint_iff.mp h3
  rcases opt_iff.mp h2 with h2 | ⟨_, rfl, rfl⟩
  · obtain ⟨rfl, rfl⟩ := lit_iff.mp h2
    refine ⟨true, ys, by simp, h4, ?_⟩
    rw [show (['-'] ++ (ys ++ k) : Str) = ('-' :: ys) ++ k from rfl, take_text]
    rfl
  · refine ⟨false, ys, by simp, h4, ?_⟩
    simp

theorem gDateSep_inv {s k : Str} {ps : List Pair} (h : gDateSep s = some (ps, k)) :
    ∃ c, c ∈ ['.', '/', '-'] ∧ s = c :: k ∧ ps = [.mk .dateSep [c] []] := by
  obtain ⟨x, h1, rfl⟩ := rule_iff.mp h
  obtain ⟨rfl, l, h2, rfl⟩ := (lits_iff (by decide)).mp h1
  rw [take_text]
  simp only [List.mem_cons, List.not_mem_nil, or_false] at h2
  rcases h2 with rfl | rfl | rfl
  · exact ⟨'.', by simp, rfl, rfl⟩
  · exact ⟨'/', by simp, rfl, rfl⟩
  · exact ⟨'-', by simp, rfl, rfl⟩

theorem twoDigits_one {c : Char} (h : '0' ≤ c ∧ c ≤ '9') : TwoDigits [c] (digitsVal [c]) :=
  ⟨⟨by simp, by simpa using h⟩, by simp, rfl⟩

theorem twoDigits_pair {a b : Char} (ha : '0' ≤ a ∧ a ≤ '9') (hb : '0' ≤ b ∧ b ≤ '9') : TwoDigits [a, b] (digitsVal [a, b]) :=
  ⟨⟨by simp, by simp [ha, hb]⟩, by simp, rfl⟩

theorem nonzero_inv {s k : Str} {x : List Pair} (h : nonzeroDigit s = some (x, k)) :
    x = [] ∧ ∃ c, s = c :: k ∧ '1' ≤ c ∧ c ≤ '9' := by
  unfold nonzeroDigit at h
  obtain ⟨h1, c, h2, h3⟩ := chr_iff.mp h
  exact ⟨h1, c, h2, by simpa using h3⟩

theorem zeroNonzero_inv {s k : Str} {x : List Pair} (h : seq (opt (lit ['0'])) nonzeroDigit s = some (x, k)) :
    x = [] ∧ ∃ t, s = t ++ k ∧ TwoDigits t (digitsVal t) := by
  obtain ⟨x1, s1, y, h2, h3, rfl⟩ := seq_iff.mp h
  obtain ⟨rfl, c, rfl, hc⟩ := nonzero_inv h3
  have hc := nonzero_isDig hc
  rcases opt_iff.mp h2 with h2 | ⟨_, rfl, rfl⟩
  · obtain ⟨rfl, rfl⟩ := lit_iff.mp h2
    exact ⟨rfl, ['0', c], rfl, twoDigits_pair (by decide) hc⟩
  · exact ⟨rfl, [c], rfl, twoDigits_one hc⟩

theorem gMonth_inv {s k : Str} {ps : List Pair} (h : gMonth s = some (ps, k)) :
    ∃ t, s = t ++ k ∧ TwoDigits t (digitsVal t) ∧ ps = [.mk .month t []] := by
  obtain ⟨x, h1, rfl⟩ := rule_iff.mp h
  have key : x = [] ∧ ∃ t, s = t ++ k ∧ TwoDigits t (digitsVal t) := by
    rcases alt_iff.mp h1 with h1 | ⟨_, h1⟩
    · obtain ⟨x1, s1, y, h2, h3, rfl⟩ := seq_iff.mp h1
      obtain ⟨rfl, rfl⟩ := lit_iff.mp h2
      obtain ⟨rfl, l, hl, rfl⟩ := (lits_iff (by decide)).mp h3
      simp only [List.mem_cons, List.not_mem_nil, or_false] at hl
      rcases hl with rfl | rfl | rfl
      · exact ⟨rfl, ['1', '0'], rfl, twoDigits_pair (by decide) (by decide)⟩
      · exact ⟨rfl, ['1', '1'], rfl, twoDigits_pair (by decide) (by decide)⟩
      · exact ⟨rfl, ['1', '2'], rfl, twoDigits_pair (by decide) (by decide)⟩
    · exact zeroNonzero_inv h1
  obtain ⟨rfl, t, rfl, ht⟩ := key
  exact ⟨t, rfl, ht, by rw [take_text]⟩

theorem gDay_inv {s k : Str} {ps : List Pair} (h : gDay s = some (ps, k)) :
    ∃ t, s = t ++ k ∧ TwoDigits t (digitsVal t) ∧ ps = [.mk .day t []] := by
  obtain ⟨x, h1, rfl⟩ := rule_iff.mp h
  have key : x = [] ∧ ∃ t, s = t ++ k ∧ TwoDigits t (digitsVal t) := by
    rcases alt_iff.mp h1 with h1 | ⟨_, h1⟩
    · obtain ⟨x1, s1, y, h2, h3, rfl⟩ := seq_iff.mp h1
      obtain ⟨rfl, rfl⟩ := lit_iff.mp h2
      obtain ⟨rfl, l, hl, rfl⟩ := (lits_iff (by decide)).mp h3
      simp only [List.mem_cons, List.not_mem_nil, or_false] at hl
      rcases hl with rfl | rfl
      · exact ⟨rfl, ['3', '0'], rfl, twoDigits_pair (by decide) (by decide)⟩
      · exact ⟨rfl, ['3', '1'], rfl, twoDigits_pair (by decide) (by decide)⟩
    · rcases alt_iff.mp h1 with h1 | ⟨_, h1⟩
      · obtain ⟨x1, s1, y, h2, h3, rfl⟩ := seq_iff.mp h1
        obtain ⟨rfl, l, hl, rfl⟩ := (lits_iff (by decide)).mp h2
        obtain ⟨rfl, c, rfl, hc⟩ := digit_iff.mp h3
        simp only [List.mem_cons, List.not_mem_nil, or_false] at hl
        rcases hl with rfl | rfl
        · exact ⟨rfl, ['1', c], rfl, twoDigits_pair (by decide) hc⟩
        · exact ⟨rfl, ['2', c], rfl, twoDigits_pair (by decide) hc⟩
      · exact zeroNonzero_inv h1
  obtain ⟨rfl, t, rfl, ht⟩ := key
  exact ⟨t, rfl, ht, by rw [take_text]⟩

theorem gDate_inv {s k : Str} {ps : List Pair} (h : gDate s = some (ps, k)) :
    ∃ p text, ps = [p] ∧ p.rule = .date ∧ s = text ++ k ∧ ∀ date, parseDate p = .ok date →
      ∃ y m d, WritesDate text y m d ∧ ValidDate y m d ∧ -262144 ≤ y ∧ y ≤ 262143 ∧ date = dayNumber y m d := by
  obtain ⟨x, h1, rfl⟩ := rule_iff.mp h
  obtain ⟨a1, s1, b1, h2, h3, rfl⟩ := seq_iff.mp h1
  obtain ⟨a2, s2, b2, h4, h5, rfl⟩ := seq_iff.mp h3
  obtain ⟨a3, s3, b3, h6, h7, rfl⟩ := seq_iff.mp h5
  obtain ⟨a4, s4, b4, h8, h9, rfl⟩ := seq_iff.mp h7
  obtain ⟨neg, ys, rfl, hy, rfl⟩ := gYear_inv h2
  obtain ⟨c1, hc1, rfl, rfl⟩ := gDateSep_inv h4
  obtain ⟨ms, rfl, hm, rfl⟩ := gMonth_inv h6
  obtain ⟨c2, hc2, rfl, rfl⟩ := gDateSep_inv h8
  obtain ⟨ds, rfl, hd, rfl⟩ := gDay_inv h9
  refine ⟨_, (if neg then ['-'] else []) ++ ys ++ [c1] ++ ms ++ [c2] ++ ds, rfl, rfl, by simp, ?_⟩
  intro date hp
  have e1 : intOf ((if neg then ['-'] else []) ++ ys) =
      some (if neg then -(digitsVal ys : Int) else (digitsVal ys : Int)) := by
    cases neg with
    | true =>
      show (natOf ys).map _ = _
      rw [natOf_digits hy]; rfl
    | false => exact intOf_digits hy
  simp only [parseDate, Pair.inner, Pair.text, List.cons_append, List.nil_append, e1, natOf_digits hm.1, natOf_digits hd.1] at hp
  by_cases hcc : c1 = c2
  · subst hcc
    simp only [↓reduceIte] at hp
    obtain ⟨⟨r1, r2⟩, r3, r4⟩ := fromYmd_ok.mp hp
    exact ⟨_, _, _, .mk neg hy hm hd hc1, r3, r1, r2, r4⟩
  · have : ¬ ([c1] = [c2]) := by simpa using hcc
    simp only [this, ↓reduceIte] at hp
    cases hp

theorem date_takes {s k : Str} {date : Date} (h : TakesDate s date k) :
    ∃ p, gDate s = some ([p], k) ∧ p.rule = .date ∧ parseDate p = .ok date := by
  obtain ⟨t, y, m, d, rfl, h1, hv, h3, h4, rfl, h6⟩ := h
  have hnd : NoDigit k := by
    intro c hc
    rcases h6 with h | h <;> rw [h] at hc <;> cases hc <;> rfl
  have hv' := (validDate_iff y m d).mp hv
  obtain ⟨p, a1, a2, a3⟩ := gDate_some h1 hv'.1
    ⟨hv'.2.1, le_trans hv'.2.2 (by unfold daysInMonth; split_ifs <;> omega)⟩ hnd
  exact ⟨p, a1, a2, by rw [a3]; exact fromYmd_ok.mpr ⟨⟨h3, h4⟩, hv, rfl⟩⟩

/-! ### Times -/

theorem sixty_iff {s k : Str} {x : List Pair} :
    seq (lits ["0", "1", "2", "3", "4", "5"]) digit s = some (x, k) ↔
      x = [] ∧ ∃ t n, s = t ++ k ∧ TwoDigits t n ∧ t.length = 2 ∧ n < 60 := by
  rw [seq_iff]
  constructor
  · rintro ⟨x1, s1, y, h2, h3, rfl⟩
    obtain ⟨rfl, l, hl, rfl⟩ := (lits_iff (by decide)).mp h2
    obtain ⟨rfl, c, rfl, hc⟩ := digit_iff.mp h3
    have hb : digitsVal [c] ≤ 9 := by
      rcases isDig_cases hc with rfl | rfl | rfl | rfl | rfl | rfl | rfl | rfl | rfl | rfl <;> decide
    simp only [List.mem_cons, List.not_mem_nil, or_false] at hl
    rcases hl with rfl | rfl | rfl | rfl | rfl | rfl
    · exact ⟨rfl, ['0', c], _, rfl, twoDigits_pair (by decide) hc, rfl, by simp [digitsVal] at hb ⊢; omega⟩
    · exact ⟨rfl, ['1', c], _, rfl, twoDigits_pair (by decide) hc, rfl, by simp [digitsVal] at hb ⊢; omega⟩
    · exact ⟨rfl, ['2', c], _, rfl, twoDigits_pair (by decide) hc, rfl, by simp [digitsVal] at hb ⊢; omega⟩
    · exact ⟨rfl, ['3', c], _, rfl, twoDigits_pair (by decide) hc, rfl, by simp [digitsVal] at hb ⊢; omega⟩
    · exact ⟨rfl, ['4', c], _, rfl, twoDigits_pair (by decide) hc, rfl, by simp [digitsVal] at hb ⊢; omega⟩
    · exact ⟨rfl, ['5', c], _, rfl, twoDigits_pair (by decide) hc, rfl, by simp [digitsVal] at hb ⊢; omega⟩
  · rintro ⟨rfl, t, n, rfl, ht, hl, hn⟩
    obtain ⟨a, b, rfl, ha, hb, rfl⟩ := twoDigits_two ht hl
    refine ⟨[], b :: k, [], ?_, digit_some hb, rfl⟩
    refine lits_first ?_ (by decide)
    rcases isDig_cases (isDig_iff.mp ha) with rfl | rfl | rfl | rfl | rfl | rfl | rfl | rfl | rfl | rfl <;>
      first | decide | (exfalso; revert hn; simp; try omega)

theorem gHour_iff {s k : Str} {x : List Pair} : gHour s = some (x, k) ↔
    x = [] ∧ ∃ h, s = h ++ k ∧ (h = "20123".toList ∨ ∃ nh, TwoDigits h nh ∧ h.length = 2 ∧ nh < 20) := by
  unfold gHour
  rw [alt_iff, seq_iff, lit_iff]
  constructor
  · rintro (⟨x1, s1, y, h2, h3, rfl⟩ | ⟨_, rfl, rfl⟩)
    · obtain ⟨rfl, l, hl, rfl⟩ := (lits_iff (by decide)).mp h2
      obtain ⟨rfl, c, rfl, hc⟩ := digit_iff.mp h3
      have hb : digitsVal [c] ≤ 9 := by
        rcases isDig_cases hc with rfl | rfl | rfl | rfl | rfl | rfl | rfl | rfl | rfl | rfl <;> decide
      simp only [List.mem_cons, List.not_mem_nil, or_false] at hl
      rcases hl with rfl | rfl
      · exact ⟨rfl, ['0', c], rfl, .inr ⟨_, twoDigits_pair (by decide) hc, rfl, by simp [digitsVal] at hb ⊢; omega⟩⟩
      · exact ⟨rfl, ['1', c], rfl, .inr ⟨_, twoDigits_pair (by decide) hc, rfl, by simp [digitsVal] at hb ⊢; omega⟩⟩
    · exact ⟨rfl, _, rfl, .inl rfl⟩
  · rintro ⟨rfl, h, rfl, rfl | ⟨n, ht, hl, hn⟩⟩
    · exact .inr ⟨rfl, rfl, rfl⟩
    · obtain ⟨a, b, rfl, ha, hb, rfl⟩ := twoDigits_two ht hl
      refine .inl ⟨[], b :: k, [], ?_, digit_some hb, rfl⟩
      refine lits_first ?_ (by decide)
      rcases isDig_cases (isDig_iff.mp ha) with rfl | rfl | rfl | rfl | rfl | rfl | rfl | rfl | rfl | rfl <;>
        first | decide | (exfalso; revert hn; simp; try omega)

theorem fraction_iff {s k : Str} {x : List Pair} : opt (seq (lit ['.']) bigint) s = some (x, k) ↔
    x = [] ∧ ∃ f, s = f ++ k ∧ ((f = [] ∧ NoFraction k) ∨ ∃ d, f = '.' :: d ∧ IsDigits d ∧ EndsDigits k) := by
  have none : seq (lit ['.']) bigint s = none ↔ NoFraction s := by
    constructor
    · rintro h c r rfl hc
      have hb : ∃ y, bigint (c :: r) = some y := by
        unfold bigint digit
        rw [plus_chr (by simpa using hc)]
        exact ⟨_, rfl⟩
      obtain ⟨⟨y, k'⟩, hb⟩ := hb
      have hh : seq (lit ['.']) bigint ('.' :: c :: r) = some (y, k') :=
        seq_iff.mpr ⟨[], c :: r, y, lit_iff.mpr ⟨rfl, rfl⟩, hb, rfl⟩
      rw [hh] at h
      cases h
    · intro h
      cases hs : seq (lit ['.']) bigint s with
      | none => rfl
      | some y =>
        obtain ⟨z, k'⟩ := y
        obtain ⟨x1, s1, y, h2, h3, rfl⟩ := seq_iff.mp hs
        obtain ⟨rfl, rfl⟩ := lit_iff.mp h2
        obtain ⟨rfl, a, rfl, ha, _⟩ := bigint_iff.mp h3
        obtain ⟨c, r, rfl, hc⟩ := ha.head
        exact absurd (ha.2 c (by simp)) (h c (r ++ k') rfl)
  rw [opt_iff, none, seq_iff]
  constructor
  · rintro (⟨x1, s1, y, h2, h3, rfl⟩ | ⟨h, rfl, rfl⟩)
    · obtain ⟨rfl, rfl⟩ := lit_iff.mp h2
      obtain ⟨rfl, a, rfl, ha, hk⟩ := bigint_iff.mp h3
      exact ⟨rfl, '.' :: a, rfl, .inr ⟨a, rfl, ha, hk⟩⟩
    · exact ⟨rfl, [], rfl, .inl ⟨rfl, h⟩⟩
  · rintro ⟨rfl, f, rfl, ⟨rfl, h⟩ | ⟨d, rfl, hd, hk⟩⟩
    · exact .inr ⟨h, rfl, rfl⟩
    · exact .inl ⟨[], d ++ k, [], lit_iff.mpr ⟨rfl, rfl⟩, bigint_iff.mpr ⟨rfl, d, rfl, hd, hk⟩, rfl⟩

theorem gSecond_assoc (s : Str) : gSecond s =
    seq (seq (lits ["0", "1", "2", "3", "4", "5"]) digit) (opt (seq (lit ['.']) bigint)) s := by
  have assoc : ∀ (a b c : Str → Option (List Pair × Str)) (s : Str), seq a (seq b c) s = seq (seq a b) c s := by
    intro a b c s
    apply Option.ext
    rintro ⟨x, k⟩
    simp only [seq_iff]
    constructor
    · rintro ⟨x1, s1, y, h1, ⟨x2, s2, z, h2, h3, rfl⟩, rfl⟩
      exact ⟨x1 ++ x2, s2, z, ⟨x1, s1, x2, h1, h2, rfl⟩, h3, by simp⟩
    · rintro ⟨x1, s1, y, ⟨x2, s2, z, h2, h3, rfl⟩, h1, rfl⟩
      exact ⟨x2, s2, z ++ y, h2, ⟨z, s1, y, h3, h1, rfl⟩, by simp⟩
  exact assoc _ _ _ s

theorem gTime_iff {s k : Str} : (∃ p, gTime s = some ([p], k) ∧ p.rule = .time) ↔ TakesTime s k := by
  constructor
  · rintro ⟨p, h, hp⟩
    obtain ⟨x, h1, _⟩ := rule_iff.mp h
    obtain ⟨a1, s1, b1, h2, h3, rfl⟩ := seq_iff.mp h1
    obtain ⟨a2, s2, b2, h4, h5, rfl⟩ := seq_iff.mp h3
    obtain ⟨a3, s3, b3, h6, h7, rfl⟩ := seq_iff.mp h5
    obtain ⟨a4, s4, b4, h8, h9, rfl⟩ := seq_iff.mp h7
    obtain ⟨rfl, hh, rfl, g1⟩ := gHour_iff.mp h2
    obtain ⟨rfl, rfl⟩ := lit_iff.mp h4
    obtain ⟨rfl, m, nm, rfl, g2, g3, g4⟩ := sixty_iff.mp h6
    obtain ⟨rfl, rfl⟩ := lit_iff.mp h8
    rw [gSecond_assoc] at h9
    obtain ⟨a5, s5, b5, h10, h11, rfl⟩ := seq_iff.mp h9
    obtain ⟨rfl, ss, ns, rfl, g5, g6, g7⟩ := sixty_iff.mp h10
    obtain ⟨rfl, f, rfl, g8⟩ := fraction_iff.mp h11
    have : hh ++ ([':'] ++ (m ++ ([':'] ++ (ss ++ (f ++ k))))) = hh ++ ':' :: m ++ ':' :: ss ++ f ++ k := by simp
    rw [this]
    exact .mk g1 g2 g3 g4 g5 g6 g7 g8
  · rintro ⟨g1, g2, g3, g4, g5, g6, g7, g8⟩
    rename_i h m ss f nm ns
    refine ⟨_, rule_iff.mpr ⟨[], seq_iff.mpr ⟨[], ':' :: m ++ ':' :: ss ++ f ++ k, [], gHour_iff.mpr ⟨rfl, h, by simp, g1⟩,
      seq_iff.mpr ⟨[], m ++ ':' :: ss ++ f ++ k, [], lit_iff.mpr ⟨rfl, by simp⟩,
      seq_iff.mpr ⟨[], ':' :: ss ++ f ++ k, [], sixty_iff.mpr ⟨rfl, m, nm, by simp, g2, g3, g4⟩,
      seq_iff.mpr ⟨[], ss ++ (f ++ k), [], lit_iff.mpr ⟨rfl, by simp⟩, ?_, rfl⟩, rfl⟩, rfl⟩, rfl⟩, rfl⟩, rfl⟩
    rw [gSecond_assoc]
    exact seq_iff.mpr ⟨[], f ++ k, [], sixty_iff.mpr ⟨rfl, ss, ns, rfl, g5, g6, g7⟩, fraction_iff.mpr ⟨rfl, f, rfl, g8⟩, rfl⟩

/-! ### White space -/

theorem trim_split (env : Env) (s : Str) : ∃ b b', s = b ++ trim env s ++ b' ∧ (∀ c ∈ b, env.ws c = true) ∧
    (∀ c ∈ b', env.ws c = true) ∧ Trimmed env (trim env s) := by
  have tw : ∀ (l : Str), ∀ c ∈ l.takeWhile env.ws, env.ws c = true := fun l c hc =>
    List.all_eq_true.mp (List.all_takeWhile (p := env.ws) (l := l)) c hc
  have hd : ∀ (l : Str) c, (l.dropWhile env.ws).head? = some c → env.ws c = false := by
    intro l c hc
    have := List.head?_dropWhile_not (p := env.ws) (l := l)
    rw [hc] at this
    simpa using this
  have e2 : s.dropWhile env.ws = trim env s ++ ((s.dropWhile env.ws).reverse.takeWhile env.ws).reverse := by
    have := List.takeWhile_append_dropWhile (p := env.ws) (l := (s.dropWhile env.ws).reverse)
    have := congrArg List.reverse this
    rw [List.reverse_append, List.reverse_reverse] at this
    exact this.symm
  refine ⟨s.takeWhile env.ws, ((s.dropWhile env.ws).reverse.takeWhile env.ws).reverse, ?_, tw s, ?_, ?_, ?_⟩
  · rw [List.append_assoc, ← e2, List.takeWhile_append_dropWhile]
  · intro c hc
    exact tw _ c (List.mem_reverse.mp hc)
  · intro c hc
    refine hd s c ?_
    rw [e2, List.head?_append, hc]
    rfl
  · intro c hc
    unfold trim at hc
    rw [List.getLast?_reverse] at hc
    exact hd _ c hc

theorem wss_total (s : Str) : ∃ k, wss s = some ([], k) := ⟨skip s, wss_eq s⟩

/-! ### The parts of a first line -/

theorem gTime_shape {s k : Str} {x : List Pair} (h : gTime s = some (x, k)) : ∃ p, x = [p] ∧ p.rule = .time := by
  obtain ⟨y, _, rfl⟩ := rule_iff.mp h
  exact ⟨_, rfl, rfl⟩

theorem gTime_takes {s k : Str} {x : List Pair} (h : gTime s = some (x, k)) : TakesTime s k := by
  obtain ⟨p, rfl, hp⟩ := gTime_shape h
  exact gTime_iff.mp ⟨p, h, hp⟩

theorem timeOpt_inv {s k : Str} {x : List Pair} (h : gTimeOpt s = some (x, k)) : TakesTimeOpt s k ∧ OptItem .time x := by
  unfold gTimeOpt at h
  rcases opt_iff.mp h with h | ⟨hf, rfl, rfl⟩
  · obtain ⟨a, s1, b, h1, h2, rfl⟩ := seq_iff.mp h
    obtain ⟨rfl, rfl⟩ := lit_iff.mp h1
    exact ⟨.inl ⟨s1, rfl, gTime_takes h2⟩, .inr (by simpa using gTime_shape h2)⟩
  · refine ⟨.inr ⟨rfl, fun r k hr ht => ?_⟩, .inl rfl⟩
    obtain ⟨p, hp, _⟩ := gTime_iff.mpr ht
    have hh : seq (lit [' ']) gTime s = some ([p], k) := seq_iff.mpr ⟨[], r, [p], lit_iff.mpr ⟨rfl, hr⟩, hp, rfl⟩
    rw [hh] at hf
    cases hf

theorem timeOpt_takes {s k : Str} (h : TakesTimeOpt s k) : ∃ x, gTimeOpt s = some (x, k) ∧ OptItem .time x := by
  have : ∃ x, gTimeOpt s = some (x, k) := by
    unfold gTimeOpt
    rcases h with ⟨r, rfl, h⟩ | ⟨rfl, h⟩
    · obtain ⟨p, hp, _⟩ := gTime_iff.mpr h
      exact ⟨[p], opt_iff.mpr (.inl (seq_iff.mpr ⟨[], r, [p], lit_iff.mpr ⟨rfl, rfl⟩, hp, rfl⟩))⟩
    · refine ⟨[], opt_iff.mpr (.inr ⟨?_, rfl, rfl⟩)⟩
      cases hs : seq (lit [' ']) gTime s with
      | none => rfl
      | some y =>
        obtain ⟨z, k'⟩ := y
        obtain ⟨a, s1, b, h1, h2, rfl⟩ := seq_iff.mp hs
        obtain ⟨rfl, rfl⟩ := lit_iff.mp h1
        exact absurd (gTime_takes h2) (h s1 k' rfl)
  obtain ⟨x, hx⟩ := this
  exact ⟨x, hx, (timeOpt_inv hx).2⟩

theorem status_inv {s k : Str} {x : List Pair} (h : opt gStatus s = some (x, k)) : TakesStatus s k ∧ OptItem .status x := by
  rcases opt_iff.mp h with h | ⟨hf, rfl, rfl⟩
  · obtain ⟨y, h1, rfl⟩ := rule_iff.mp h
    obtain ⟨rfl, l, hl, rfl⟩ := (lits_iff (by decide)).mp h1
    simp only [List.mem_cons, List.not_mem_nil, or_false] at hl
    rcases hl with rfl | rfl
    · exact ⟨.inl rfl, .inr ⟨_, rfl, rfl⟩⟩
    · exact ⟨.inr (.inl rfl), .inr ⟨_, rfl, rfl⟩⟩
  · have key : ∀ c, (c = '*' ∨ c = '!') → s.head? ≠ some c := by
      intro c hc he
      cases s with
      | nil => cases he
      | cons d s =>
        simp only [List.head?_cons, Option.some.injEq] at he
        subst he
        have : gStatus (d :: s) ≠ none := by
          unfold gStatus
          have hl : lits ["*", "!"] (d :: s) = some ([], s) := by
            rcases hc with rfl | rfl
            · exact (lits_iff (by decide)).mpr ⟨rfl, "*", by simp, rfl⟩
            · exact (lits_iff (by decide)).mpr ⟨rfl, "!", by simp, rfl⟩
          rw [rule_iff.mpr ⟨[], hl, rfl⟩]
          simp
        exact this hf
    exact ⟨.inr (.inr ⟨rfl, key _ (.inl rfl), key _ (.inr rfl)⟩), .inl rfl⟩

theorem status_takes {s k : Str} (h : TakesStatus s k) : ∃ x, opt gStatus s = some (x, k) ∧ OptItem .status x := by
  have : ∃ x, opt gStatus s = some (x, k) := by
    rcases h with rfl | rfl | ⟨rfl, h1, h2⟩
    · exact ⟨_, opt_iff.mpr (.inl (rule_iff.mpr ⟨[], (lits_iff (by decide)).mpr ⟨rfl, "*", by simp, rfl⟩, rfl⟩))⟩
    · exact ⟨_, opt_iff.mpr (.inl (rule_iff.mpr ⟨[], (lits_iff (by decide)).mpr ⟨rfl, "!", by simp, rfl⟩, rfl⟩))⟩
    · refine ⟨[], opt_iff.mpr (.inr ⟨?_, rfl, rfl⟩)⟩
      cases hs : gStatus s with
      | none => rfl
      | some y =>
        obtain ⟨z, k'⟩ := y
        obtain ⟨y, h3, _⟩ := rule_iff.mp hs
        obtain ⟨_, l, hl, rfl⟩ := (lits_iff (by decide)).mp h3
        simp only [List.mem_cons, List.not_mem_nil, or_false] at hl
        rcases hl with rfl | rfl
        · exact absurd rfl h1
        · exact absurd rfl h2
  obtain ⟨x, hx⟩ := this
  exact ⟨x, hx, (status_inv hx).2⟩

theorem gCode_iff {s k : Str} : (∃ x, gCode s = some (x, k)) ↔ ∃ r x, s = '(' :: r ∧ TakesQuoted r x (')' :: k) := by
  constructor
  · rintro ⟨x, h⟩
    obtain ⟨y, h1, _⟩ := rule_iff.mp h
    obtain ⟨a, s1, b, h2, h3, rfl⟩ := seq_iff.mp h1
    obtain ⟨a2, s2, b2, h4, h5, rfl⟩ := seq_iff.mp h3
    obtain ⟨rfl, rfl⟩ := lit_iff.mp h2
    obtain ⟨rfl, rfl⟩ := lit_iff.mp h5
    obtain ⟨q, x, hq, h6, h7, _⟩ := gString_iff.mp h4
    exact ⟨s1, x, rfl, q, hq, h6, h7⟩
  · rintro ⟨r, x, rfl, q, hq, h6, h7⟩
    exact ⟨_, rule_iff.mpr ⟨_, seq_iff.mpr ⟨[], r, _, lit_iff.mpr ⟨rfl, rfl⟩, seq_iff.mpr ⟨_, ')' :: k, [],
      gString_iff.mpr ⟨q, x, hq, h6, h7, rfl⟩, lit_iff.mpr ⟨rfl, rfl⟩, rfl⟩, rfl⟩, rfl⟩⟩

theorem code_inv {s k : Str} {x : List Pair} (h : opt gCode s = some (x, k)) : TakesCode s k ∧ OptItem .code x := by
  rcases opt_iff.mp h with h | ⟨hf, rfl, rfl⟩
  · obtain ⟨y, _, rfl⟩ := rule_iff.mp h
    exact ⟨.inl (gCode_iff.mp ⟨_, h⟩), .inr ⟨_, rfl, rfl⟩⟩
  · refine ⟨.inr ⟨rfl, fun r x k hr hq => ?_⟩, .inl rfl⟩
    obtain ⟨z, hz⟩ := gCode_iff.mpr ⟨r, x, hr, hq⟩
    rw [hf] at hz
    cases hz

theorem code_takes {s k : Str} (h : TakesCode s k) : ∃ x, opt gCode s = some (x, k) ∧ OptItem .code x := by
  have : ∃ x, opt gCode s = some (x, k) := by
    rcases h with ⟨r, x, h1, h2⟩ | ⟨rfl, h⟩
    · obtain ⟨z, hz⟩ := gCode_iff.mpr ⟨r, x, h1, h2⟩
      exact ⟨z, opt_iff.mpr (.inl hz)⟩
    · refine ⟨[], opt_iff.mpr (.inr ⟨?_, rfl, rfl⟩)⟩
      cases hs : gCode s with
      | none => rfl
      | some y =>
        obtain ⟨z, k'⟩ := y
        obtain ⟨r, x, h1, h2⟩ := gCode_iff.mp ⟨z, hs⟩
        exact absurd h2 (h r x k' h1)
  obtain ⟨x, hx⟩ := this
  exact ⟨x, hx, (code_inv hx).2⟩

theorem descChar_iff {c : Char} : descChar c = true ↔ c ∉ ['|', ';', '\n', '\r'] := by
  simp [descChar, and_assoc]

theorem descChar_false {c : Char} : descChar c = false ↔ c ∈ ['|', ';', '\n', '\r'] := by
  rw [← Bool.not_eq_true, descChar_iff, Classical.not_not]

theorem headerText_mk {env : Env} {r : Rule} (hr : r ≠ .currency) (hr' : r ≠ .string) (u : Str) (l : List Pair) :
    headerText env (.mk r u l) = .ok (trim env u) := by
  simp [headerText, parseString, parseLeaf, Pair.rule, Pair.text, hr, hr', Except.map]

theorem quotes_trimmed {env : Env} (ha : env.AsciiChars) {q : Char} (hq : q = '"' ∨ q = '\'') (x : Str) :
    trim env (q :: x ++ [q]) = q :: x ++ [q] := by
  have hw : env.ws q = false := by
    rw [← Bool.not_eq_true]
    rcases hq with rfl | rfl
    · rw [ha.ws _ (by decide)]; decide
    · rw [ha.ws _ (by decide)]; decide
  have := trim_wrap (env := env) (b := []) (s := q :: x ++ [q]) (b' := []) (by simp)
    ⟨by simp [hw], by rw [List.getLast?_append]; simp [hw]⟩ (by simp)
  simpa using this

theorem part_inv {env : Env} (ha : env.AsciiChars) {r : Rule} (hr : r ≠ .currency) (hr' : r ≠ .string) {s k : Str} {ps : List Pair}
    (h : rule r (alt gString (star (chr descChar))) s = some (ps, k)) :
    ∃ p x, ps = [p] ∧ p.rule = r ∧ headerText env p = .ok x ∧ TakesPart env s x k := by
  obtain ⟨y, h1, rfl⟩ := rule_iff.mp h
  rcases alt_iff.mp h1 with h1 | ⟨h0, h1⟩
  · obtain ⟨q, x, hq, rfl, h2, rfl⟩ := gString_iff.mp h1
    have e : q :: x ++ q :: k = (q :: x ++ [q]) ++ k := by simp
    rw [e, take_text]
    refine ⟨_, q :: x ++ [q], rfl, rfl, ?_, .quoted (y := x) ⟨q, hq, by simp, h2⟩⟩
    rw [headerText_mk hr hr', quotes_trimmed ha hq]
  · obtain ⟨rfl, a, rfl, h2, h3⟩ := star_chr_iff.mp h1
    rw [take_text]
    obtain ⟨w, w', e, g1, g2, g3⟩ := trim_split env a
    refine ⟨_, trim env a, rfl, rfl, headerText_mk hr hr' _ _, ?_⟩
    have := TakesPart.plain (env := env) (w := w) (x := trim env a) (w' := w') (rest := k)
      (by rw [← e]; exact gString_fails.mp h0) g1 g3 g2 (by rw [← e]; exact fun c hc => descChar_iff.mp (h2 c hc))
      (fun c hc => descChar_false.mp (h3 c hc))
    rwa [← e] at this

theorem part_takes {env : Env} (ha : env.AsciiChars) {r : Rule} (hr : r ≠ .currency) (hr' : r ≠ .string) {s x k : Str}
    (h : TakesPart env s x k) :
    ∃ p, rule r (alt gString (star (chr descChar))) s = some ([p], k) ∧ p.rule = r ∧ headerText env p = .ok x := by
  cases h with
  | @quoted _ y _ h =>
    obtain ⟨q, hq, h1, h2⟩ := h
    have e : x = q :: y ++ [q] := by
      have : q :: y ++ q :: k = (q :: y ++ [q]) ++ k := by simp
      rw [this] at h1
      exact List.append_cancel_right h1
    subst e
    refine ⟨_, rule_iff.mpr ⟨_, alt_iff.mpr (.inl (gString_iff.mpr ⟨q, y, hq, h1, h2, rfl⟩)), rfl⟩, rfl, ?_⟩
    rw [headerText_mk hr hr', take_text, quotes_trimmed ha hq]
  | @plain w _ w' _ h0 h1 h2 h3 h4 h5 =>
    refine ⟨_, rule_iff.mpr ⟨[], alt_iff.mpr (.inr ⟨gString_fails.mpr h0, star_chr_iff.mpr ⟨rfl, w ++ x ++ w', rfl,
      fun c hc => descChar_iff.mpr (h4 c hc), fun c hc => descChar_false.mpr (h5 c hc)⟩⟩), rfl⟩, rfl, ?_⟩
    rw [headerText_mk hr hr', take_text, trim_wrap h1 h2 h3]

theorem part_total (r : Rule) (s : Str) : ∃ y, rule r (alt gString (star (chr descChar))) s = some y := by
  cases h : gString s with
  | some y => exact ⟨_, rule_iff.mpr ⟨y.1, alt_iff.mpr (.inl h), rfl⟩⟩
  | none =>
    have e : s = s.takeWhile descChar ++ s.dropWhile descChar := List.takeWhile_append_dropWhile.symm
    refine ⟨_, rule_iff.mpr ⟨[], alt_iff.mpr (.inr ⟨h, star_chr_iff.mpr ⟨rfl, _, e, ?_, ?_⟩⟩), rfl⟩⟩
    · exact fun c hc => (List.all_eq_true.mp List.all_takeWhile) c hc
    · intro c hc
      have := List.head?_dropWhile_not (p := descChar) (l := s)
      rw [hc] at this
      simpa using this

theorem payee_inv {env : Env} (ha : env.AsciiChars) {s k : Str} {x : List Pair}
    (h : opt (seq (lit ['|']) (seq wss gPayee)) s = some (x, k)) :
    ∃ payee, TakesPayee env s payee k ∧ OptValue .payee (headerText env) x payee := by
  rcases opt_iff.mp h with h | ⟨hf, rfl, rfl⟩
  · obtain ⟨a, s1, b, h1, h2, rfl⟩ := seq_iff.mp h
    obtain ⟨a2, s2, b2, h3, h4, rfl⟩ := seq_iff.mp h2
    obtain ⟨rfl, rfl⟩ := lit_iff.mp h1
    obtain ⟨rfl, h5⟩ := wss_iff.mp h3
    obtain ⟨p, y, rfl, g1, g2, g3⟩ := part_inv (env := env) ha (by decide) (by decide) h4
    exact ⟨some y, .some h5 g3, .inr ⟨p, y, rfl, g1, g2, rfl⟩⟩
  · refine ⟨none, .none ?_, .inl ⟨rfl, rfl⟩⟩
    intro he
    cases s with
    | nil => cases he
    | cons c s =>
      simp only [List.head?_cons, Option.some.injEq] at he
      subst he
      obtain ⟨k1, hk⟩ := wss_total s
      obtain ⟨⟨y, k2⟩, hy⟩ := part_total .payee k1
      have hh : seq (lit ['|']) (seq wss gPayee) ('|' :: s) = some (y, k2) :=
        seq_iff.mpr ⟨[], s, y, lit_iff.mpr ⟨rfl, rfl⟩, seq_iff.mpr ⟨[], k1, y, hk, hy, rfl⟩, rfl⟩
      rw [hh] at hf
      cases hf

theorem payee_takes {env : Env} (ha : env.AsciiChars) {s k : Str} {payee : Option Str} (h : TakesPayee env s payee k) :
    ∃ x, opt (seq (lit ['|']) (seq wss gPayee)) s = some (x, k) ∧ OptValue .payee (headerText env) x payee := by
  cases h with
  | none h =>
    refine ⟨[], opt_iff.mpr (.inr ⟨?_, rfl, rfl⟩), .inl ⟨rfl, rfl⟩⟩
    cases hs : seq (lit ['|']) (seq wss gPayee) s with
    | none => rfl
    | some y =>
      obtain ⟨z, k'⟩ := y
      obtain ⟨a, s1, b, h1, h2, rfl⟩ := seq_iff.mp hs
      obtain ⟨rfl, rfl⟩ := lit_iff.mp h1
      exact absurd rfl h
  | some h1 h2 =>
    obtain ⟨p, g1, g2, g3⟩ := part_takes (r := .payee) ha (by decide) (by decide) h2
    exact ⟨[p], opt_iff.mpr (.inl (seq_iff.mpr ⟨[], _, [p], lit_iff.mpr ⟨rfl, rfl⟩,
      seq_iff.mpr ⟨[], _, [p], wss_iff.mpr ⟨rfl, h1⟩, g1, rfl⟩, rfl⟩)), .inr ⟨p, _, rfl, g2, g3, rfl⟩⟩

/-- The items at the end of a line. -/
def EndItems (x : List Pair) (cs : List Str) : Prop :=
  ∃ cml e, x = cml ++ [.mk .eol e []] ∧ ((cs = [] ∧ cml = []) ∨ ∃ c, cs = [c] ∧ cml = [.mk .comment c []])

theorem gComment_inv {s k : Str} {x : List Pair} (h : gComment s = some (x, k)) :
    k = [] ∧ ∃ c, s = ';' :: c ∧ x = [.mk .comment (';' :: c) []] := by
  obtain ⟨y, h1, _⟩ := rule_iff.mp h
  obtain ⟨a, s1, b, h2, h3, rfl⟩ := seq_iff.mp h1
  obtain ⟨rfl, rfl⟩ := lit_iff.mp h2
  have := gComment_some s1
  rw [show ([';'] ++ s1 : Str) = ';' :: s1 from rfl, this] at h
  simp only [Option.some.injEq, Prod.mk.injEq] at h
  exact ⟨h.2.symm, s1, rfl, h.1.symm⟩

theorem gEnd_inv {s k : Str} {x : List Pair} (h : gEnd s = some (x, k)) :
    ∃ e, x = [.mk .eol e []] ∧ (s = [] ∨ ∃ c r, s = c :: r ∧ (c = '\r' ∨ c = '\n')) := by
  obtain ⟨y, h1, rfl⟩ := rule_iff.mp h
  rcases alt_iff.mp h1 with h1 | ⟨_, h1⟩
  · split at h1
    · next e =>
      cases h1
      exact ⟨_, rfl, .inl e⟩
    · cases h1
  · rcases alt_iff.mp h1 with h1 | ⟨_, h1⟩
    · obtain ⟨rfl, rfl⟩ := lit_iff.mp h1
      exact ⟨_, rfl, .inr ⟨_, _, rfl, .inr rfl⟩⟩
    · rcases alt_iff.mp h1 with h1 | ⟨_, h1⟩
      · obtain ⟨rfl, rfl⟩ := lit_iff.mp h1
        exact ⟨_, rfl, .inr ⟨_, _, rfl, .inl rfl⟩⟩
      · obtain ⟨rfl, rfl⟩ := lit_iff.mp h1
        exact ⟨_, rfl, .inr ⟨_, _, rfl, .inl rfl⟩⟩

theorem gEnd_break {c : Char} {x : Str} (h : c = '\r' ∨ c = '\n') : ∃ e k, gEnd (c :: x) = some ([.mk .eol e []], k) := by
  have : ∃ y k, alt (fun s => if s = [] then some ([], []) else none) (alt (lit ['\n']) (alt (lit ['\r', '\n']) (lit ['\r'])))
      (c :: x) = some (y, k) ∧ y = [] := by
    rcases h with rfl | rfl
    · cases hs : lit ['\r', '\n'] ('\r' :: x) with
      | some y =>
        obtain ⟨y, k⟩ := y
        refine ⟨y, k, alt_iff.mpr (.inr ⟨by simp, alt_iff.mpr (.inr ⟨rfl, alt_iff.mpr (.inl hs)⟩)⟩), (lit_iff.mp hs).1⟩
      | none =>
        exact ⟨[], x, alt_iff.mpr (.inr ⟨by simp, alt_iff.mpr (.inr ⟨rfl, alt_iff.mpr (.inr ⟨hs, lit_iff.mpr ⟨rfl, rfl⟩⟩)⟩)⟩), rfl⟩
    · exact ⟨[], x, alt_iff.mpr (.inr ⟨by simp, alt_iff.mpr (.inl (lit_iff.mpr ⟨rfl, rfl⟩))⟩), rfl⟩
  obtain ⟨y, k, h, rfl⟩ := this
  exact ⟨_, k, rule_iff.mpr ⟨[], h, rfl⟩⟩

theorem end_inv {s k : Str} {x : List Pair} (h : seq (opt gComment) gEnd s = some (x, k)) :
    ∃ cs, TakesEnd s cs ∧ EndItems x cs := by
  obtain ⟨a, s1, b, h1, h2, rfl⟩ := seq_iff.mp h
  obtain ⟨e, rfl, h3⟩ := gEnd_inv h2
  rcases opt_iff.mp h1 with h1 | ⟨_, rfl, rfl⟩
  · obtain ⟨rfl, c, rfl, rfl⟩ := gComment_inv h1
    exact ⟨_, .comment, _, e, rfl, .inr ⟨_, rfl, rfl⟩⟩
  · rcases h3 with rfl | ⟨c, r, rfl, hc⟩
    · exact ⟨[], .nil, [], e, rfl, .inl ⟨rfl, rfl⟩⟩
    · exact ⟨[], .cr hc, [], e, rfl, .inl ⟨rfl, rfl⟩⟩

theorem end_takes {s : Str} {cs : List Str} (h : TakesEnd s cs) :
    ∃ x k, seq (opt gComment) gEnd s = some (x, k) ∧ EndItems x cs := by
  cases h with
  | nil => exact ⟨_, _, seq_iff.mpr ⟨[], [], _, rfl, gEnd_nil, rfl⟩, [], [], rfl, .inl ⟨rfl, rfl⟩⟩
  | @comment c =>
    exact ⟨_, _, seq_iff.mpr ⟨_, [], _, opt_iff.mpr (.inl (gComment_some c)), gEnd_nil, rfl⟩, _, [], rfl, .inr ⟨_, rfl, rfl⟩⟩
  | @cr c x hc =>
    obtain ⟨e, k, he⟩ := gEnd_break (x := x) hc
    refine ⟨_, k, seq_iff.mpr ⟨[], c :: x, _, opt_iff.mpr (.inr ⟨?_, rfl, rfl⟩), he, rfl⟩, [], e, rfl, .inl ⟨rfl, rfl⟩⟩
    apply gComment_none
    rcases hc with rfl | rfl <;> simp

/-! ### The first line of a transaction -/

theorem timeOpt_head {s k : Str} (h : TakesTimeOpt s k) (hk : k.head? = some ' ' ∨ k.head? = some '=') :
    s.head? = some ' ' ∨ s.head? = some '=' := by
  rcases h with ⟨r, rfl, _⟩ | ⟨rfl, _⟩
  · exact .inl rfl
  · exact hk

theorem effective_head {s k : Str} {o : Option Date} (h : TakesEffective s o k) (hk : k.head? = some ' ') :
    s.head? = some ' ' ∨ s.head? = some '=' := by
  cases h with
  | none => exact .inl hk
  | some _ _ => exact .inr rfl

theorem date_of {s k : Str} {p : Pair} {date : Date} (h : gDate s = some ([p], k)) (hp : parseDate p = .ok date)
    (hk : k.head? = some ' ' ∨ k.head? = some '=') : TakesDate s date k := by
  obtain ⟨p', text, h1, _, rfl, h2⟩ := gDate_inv h
  cases h1
  obtain ⟨y, m, d, g1, g2, g3, g4, g5⟩ := h2 date hp
  exact ⟨text, y, m, d, rfl, g1, g2, g3, g4, g5, hk⟩

theorem eff_inv {s k : Str} {x : List Pair} (h : opt (seq (lit ['=']) (seq gDate gTimeOpt)) s = some (x, k))
    (hk : k.head? = some ' ') : (s.head? = some ' ' ∨ s.head? = some '=') ∧ ((x = [] ∧ TakesEffective s none k) ∨
      ∃ p tl, x = p :: tl ∧ p.rule = .date ∧ OptItem .time tl ∧ ∀ date, parseDate p = .ok date → TakesEffective s (some date) k) := by
  rcases opt_iff.mp h with h | ⟨hf, rfl, rfl⟩
  · obtain ⟨a, s1, b, h1, h2, rfl⟩ := seq_iff.mp h
    obtain ⟨a2, s2, b2, h3, h4, rfl⟩ := seq_iff.mp h2
    obtain ⟨rfl, rfl⟩ := lit_iff.mp h1
    obtain ⟨p, _, rfl, hr, _, _⟩ := gDate_inv h3
    obtain ⟨g1, g2⟩ := timeOpt_inv h4
    exact ⟨.inr rfl, .inr ⟨p, b2, rfl, hr, g2, fun date hd => .some (date_of h3 hd (timeOpt_head g1 (.inl hk))) g1⟩⟩
  · exact ⟨.inl hk, .inl ⟨rfl, .none⟩⟩

theorem eff_takes {s k : Str} {o : Option Date} (h : TakesEffective s o k) (hk : k.head? = some ' ') :
    ∃ el tl, opt (seq (lit ['=']) (seq gDate gTimeOpt)) s = some (el ++ tl, k) ∧ OptValue .date parseDate el o ∧ OptItem .time tl ∧
      (el = [] → tl = []) := by
  cases h with
  | none =>
    refine ⟨[], [], opt_iff.mpr (.inr ⟨?_, rfl, rfl⟩), .inl ⟨rfl, rfl⟩, .inl rfl, fun _ => rfl⟩
    cases hs : seq (lit ['=']) (seq gDate gTimeOpt) s with
    | none => rfl
    | some y =>
      obtain ⟨z, k'⟩ := y
      obtain ⟨a, s1, b, h1, h2, rfl⟩ := seq_iff.mp hs
      obtain ⟨rfl, rfl⟩ := lit_iff.mp h1
      simp at hk
  | some h1 h2 =>
    obtain ⟨p, g1, g2, g3⟩ := date_takes h1
    obtain ⟨x, g4, g5⟩ := timeOpt_takes h2
    exact ⟨[p], x, opt_iff.mpr (.inl (seq_iff.mpr ⟨[], _, [p] ++ x, lit_iff.mpr ⟨rfl, rfl⟩, seq_iff.mpr ⟨[p], _, x, g1, g4, rfl⟩, rfl⟩)),
      .inr ⟨p, _, rfl, g2, g3, rfl⟩, g5, fun h => by cases h⟩

theorem headerItems_bad {env : Env} {date : Date} {tl l : List Pair} {p : Pair} {e : Fail} (h1 : OptItem .time tl)
    (hp : p.rule = .date) (he : parseDate p = .error e) : headerItems env date (tl ++ (p :: l)) = .error e := by
  unfold headerItems
  simp only [bind, Except.bind, skip_opt h1 (l := p :: l) (rs := [.date]) ⟨p, l, rfl, by simp [hp]⟩ (by decide)]
  simp [takeItem, hp, he]

theorem parseHeader_items {env : Env} {line k tx : Str} {d : Pair} {l : List Pair} {date : Date}
    (h : gTransaction line = some ([.mk .transaction tx (d :: l)], k)) (hl : l ≠ []) (hd : parseDate d = .ok date) :
    parseHeader env line = headerItems env date l := by
  unfold parseHeader
  rw [h]
  cases l with
  | nil => exact absurd rfl hl
  | cons x l => simp only [Pair.inner, hd]

theorem parseHeader_fails {env : Env} {line k tx : Str} {d : Pair} {l : List Pair} {e : Fail}
    (h : gTransaction line = some ([.mk .transaction tx (d :: l)], k)) (hd : parseDate d = .error e) :
    ∃ e, parseHeader env line = .error e := by
  unfold parseHeader
  rw [h]
  cases l with
  | nil => exact ⟨_, rfl⟩
  | cons x l => exact ⟨e, by simp only [Pair.inner, hd]⟩

theorem parseHeader_iff {env : Env} (ha : env.AsciiChars) {line : Str} {t : Txn RawPosting} :
    parseHeader env line = .ok t ↔ TakesHeader env line t := by
  constructor
  · intro h
    cases hg : gTransaction line with
    | none => rw [parseHeader, hg] at h; cases h
    | some y =>
      obtain ⟨ps, k⟩ := y
      obtain ⟨z, h0, rfl⟩ := rule_iff.mp hg
      obtain ⟨a1, r1, b1, h1, z1, rfl⟩ := seq_iff.mp h0
      obtain ⟨a2, r2, b2, h2, z2, rfl⟩ := seq_iff.mp z1
      obtain ⟨a3, r3, b3, h3, z3, rfl⟩ := seq_iff.mp z2
      obtain ⟨a4, r4, b4, h4, z4, rfl⟩ := seq_iff.mp z3
      obtain ⟨a5, r5, b5, h5, z5, rfl⟩ := seq_iff.mp z4
      obtain ⟨a6, r6, b6, h6, z6, rfl⟩ := seq_iff.mp z5
      obtain ⟨a7, r7, b7, h7, z7, rfl⟩ := seq_iff.mp z6
      obtain ⟨a8, r8, b8, h8, z8, rfl⟩ := seq_iff.mp z7
      obtain ⟨a9, r9, b9, h9, z9, rfl⟩ := seq_iff.mp z8
      obtain ⟨a10, r10, b10, h10, z10, rfl⟩ := seq_iff.mp z9
      obtain ⟨a11, r11, b11, h11, z11, rfl⟩ := seq_iff.mp z10
      obtain ⟨a12, r12, b12, h12, z12, rfl⟩ := seq_iff.mp z11
      obtain ⟨p1, _, rfl, _, _, _⟩ := gDate_inv h1
      obtain ⟨g2, i2⟩ := timeOpt_inv h2
      obtain ⟨rfl, g4', g4⟩ := wsp_iff.mp h4
      obtain ⟨g3', g3⟩ := eff_inv h3 g4'
      obtain ⟨g5, i5⟩ := status_inv h5
      obtain ⟨rfl, g6⟩ := wss_iff.mp h6
      obtain ⟨g7, i7⟩ := code_inv h7
      obtain ⟨rfl, g8⟩ := wss_iff.mp h8
      obtain ⟨p9, desc, rfl, i9, i9', g9⟩ := part_inv (env := env) ha (by decide) (by decide) h9
      obtain ⟨rfl, g10⟩ := wss_iff.mp h10
      obtain ⟨payee, g11, i11⟩ := payee_inv (env := env) ha h11
      obtain ⟨rfl, g12⟩ := wss_iff.mp h12
      obtain ⟨cs, g13, cml, e, rfl, i13⟩ := end_inv z12
      simp only [List.nil_append, List.singleton_append] at hg
      cases hd : parseDate p1 with
      | error e =>
        obtain ⟨e', he'⟩ := parseHeader_fails (env := env) hg hd
        rw [he'] at h
        cases h
      | ok date =>
        have hd1 := date_of h1 hd (timeOpt_head g2 g3')
        rw [parseHeader_items hg (by simp) hd] at h
        rcases g3 with ⟨rfl, g3⟩ | ⟨p, tl, rfl, i3, i3', g3⟩
        · have hi := headerItems_ok (env := env) (date := date) (x := e) i2 (el := []) (eff := none) (.inl ⟨rfl, rfl⟩) (.inl rfl)
            (fun _ => rfl) i5 i7 i9 i9' i11 i13
          simp only [List.nil_append, List.singleton_append] at hi h
          rw [hi] at h
          cases h
          rw [headerPayee_eq]
          exact .mk hd1 g2 g3 g4' g4 g5 g6 g7 g8 g9 g10 g11 g12 g13
        · cases hp : parseDate p with
          | error e' =>
            rw [List.cons_append, headerItems_bad i2 i3 hp] at h
            cases h
          | ok eff =>
            have hi := headerItems_ok (env := env) (date := date) (x := e) i2 (el := [p]) (eff := some eff)
              (.inr ⟨p, eff, rfl, i3, hp, rfl⟩) i3' (fun h => by cases h) i5 i7 i9 i9' i11 i13
            simp only [List.cons_append, List.nil_append] at hi h
            rw [hi] at h
            cases h
            rw [headerPayee_eq]
            exact .mk hd1 g2 (g3 _ hp) g4' g4 g5 g6 g7 g8 g9 g10 g11 g12 g13
  · intro h
    cases h with
    | @mk _ _ _ _ _ _ _ _ _ _ _ _ _ date _ _ _ hd1 g2 g3 g4' g4 g5 g6 g7 g8 g9 g10 g11 g12 g13 =>
    obtain ⟨p1, h1, _, hd⟩ := date_takes hd1
    obtain ⟨a2, h2, i2⟩ := timeOpt_takes g2
    obtain ⟨el, tl, h3, i3, i3', i3''⟩ := eff_takes g3 g4'
    obtain ⟨a5, h5, i5⟩ := status_takes g5
    obtain ⟨a7, h7, i7⟩ := code_takes g7
    obtain ⟨p9, h9, i9, i9'⟩ := part_takes (r := .description) ha (by decide) (by decide) g9
    obtain ⟨a11, h11, i11⟩ := payee_takes ha g11
    obtain ⟨x, k, h13, cml, e, rfl, i13⟩ := end_takes g13
    have h4 := wsp_iff.mpr ⟨rfl, g4', g4⟩
    have h6 := wss_iff.mpr ⟨rfl, g6⟩
    have h8 := wss_iff.mpr ⟨rfl, g8⟩
    have h10 := wss_iff.mpr ⟨rfl, g10⟩
    have h12 := wss_iff.mpr ⟨rfl, g12⟩
    have hall := seq_iff.mpr ⟨_, _, _, h1, seq_iff.mpr ⟨_, _, _, h2, seq_iff.mpr ⟨_, _, _, h3, seq_iff.mpr ⟨_, _, _, h4,
      seq_iff.mpr ⟨_, _, _, h5, seq_iff.mpr ⟨_, _, _, h6, seq_iff.mpr ⟨_, _, _, h7, seq_iff.mpr ⟨_, _, _, h8,
      seq_iff.mpr ⟨_, _, _, h9, seq_iff.mpr ⟨_, _, _, h10, seq_iff.mpr ⟨_, _, _, h11, seq_iff.mpr ⟨_, _, _, h12, h13,
        rfl⟩, rfl⟩, rfl⟩, rfl⟩, rfl⟩, rfl⟩, rfl⟩, rfl⟩, rfl⟩, rfl⟩, rfl⟩, rfl⟩
    have hg := rule_iff (r := .transaction).mpr ⟨_, hall, rfl⟩
    have hi := headerItems_ok (env := env) (x := e) (date := date) i2 i3 i3' i3'' i5 i7 i9 i9' i11 i13
    rw [parseHeader_items (by exact hg) (by simp) hd]
    simp only [List.nil_append, List.singleton_append, List.append_assoc] at hi ⊢
    rw [headerPayee_eq] at hi
    exact hi

/-! ### Prices and commodities -/

theorem reserved_iff {c : Char} : reserved c = true ↔ c ∈ "+*/\\|%<>:?();".toList := by
  unfold reserved
  rw [List.contains_iff_mem]
  rfl

theorem curChar_iff {env : Env} {c : Char} : (!reserved c && !env.sep c) = true ↔ c ∉ "+*/\\|%<>:?();".toList ∧ env.sep c = false := by
  rw [← reserved_iff]
  simp

theorem gUnquoted_iff {env : Env} {s k : Str} {ps : List Pair} : gUnquoted env s = some (ps, k) ↔ ∃ c, s = c ++ k ∧ c ≠ [] ∧
    (∀ y ∈ c, y ∉ "+*/\\|%<>:?();".toList ∧ env.sep y = false) ∧ (∀ y, c.head? = some y → y ∉ ['=', '-', '&']) ∧
    (∀ y, k.head? = some y → y ∈ "+*/\\|%<>:?();".toList ∨ env.sep y = true) ∧ ps = [.mk .unquoted c []] := by
  unfold gUnquoted
  rw [rule_iff]
  constructor
  · rintro ⟨x, h, rfl⟩
    obtain ⟨a, s1, b, h1, h2, rfl⟩ := seq_iff.mp h
    obtain ⟨rfl, c, rfl, h3, h4, h5⟩ := plus_chr_iff.mp h2
    unfold neg at h1
    split at h1
    · cases h1
    · next hn =>
      simp only [Option.some.injEq, Prod.mk.injEq] at h1
      obtain ⟨rfl, rfl⟩ := h1
      refine ⟨c, rfl, h3, fun y hy => curChar_iff.mp (h4 y hy), ?_, ?_, by rw [take_text]; rfl⟩
      · intro y hy hm
        cases c with
        | nil => cases hy
        | cons d c =>
          simp only [List.head?_cons, Option.some.injEq] at hy
          subst hy
          have : chr (fun c => reserved c || c == '=' || c == '-' || c == '&') (d :: c ++ k) = some ([], c ++ k) := by
            refine chr_iff.mpr ⟨rfl, d, rfl, ?_⟩
            simp only [List.mem_cons, List.not_mem_nil, or_false] at hm
            rcases hm with rfl | rfl | rfl <;> simp
          rw [this] at hn
          cases hn
      · intro y hy
        have := h5 y hy
        rw [← Bool.not_eq_true, curChar_iff] at this
        by_contra hc
        push Not at hc
        exact this ⟨hc.1, by simpa using hc.2⟩
  · rintro ⟨c, rfl, h3, h4, h5, h6, rfl⟩
    refine ⟨[], seq_iff.mpr ⟨[], c ++ k, [], ?_, plus_chr_iff.mpr ⟨rfl, c, rfl, h3, fun y hy => curChar_iff.mpr (h4 y hy), ?_⟩, rfl⟩,
      by rw [take_text]⟩
    · unfold neg
      cases c with
      | nil => exact absurd rfl h3
      | cons d c =>
        have hr : reserved d = false := by
          rw [← Bool.not_eq_true, reserved_iff]
          exact (h4 d (by simp)).1
        have h7 := h5 d rfl
        simp only [List.mem_cons, List.not_mem_nil, or_false, not_or] at h7
        have : chr (fun c => reserved c || c == '=' || c == '-' || c == '&') (d :: c ++ k) = none := by
          simp [chr, hr, h7]
        rw [this]
    · intro y hy
      rw [← Bool.not_eq_true, curChar_iff]
      rintro ⟨h7, h8⟩
      rcases h6 y hy with h | h
      · exact h7 h
      · rw [h8] at h; cases h

theorem currency_inv {env : Env} {s k : Str} {x : List Pair} (h : gCurrency env s = some (x, k)) :
    ∃ p c, x = [p] ∧ p.rule = .currency ∧ parseString p = .ok c ∧ TakesCurrency env s c k := by
  obtain ⟨y, h1, rfl⟩ := rule_iff.mp h
  rcases alt_iff.mp h1 with h1 | ⟨h0, h1⟩
  · obtain ⟨q, c, hq, h2, h3, rfl⟩ := gString_iff.mp h1
    refine ⟨_, c, rfl, rfl, ?_, .quoted ⟨q, hq, h2, h3⟩⟩
    simp [parseString, Pair.rule, Pair.inner, parseLeaf, Pair.text, unquote]
  · obtain ⟨c, rfl, h3, h4, h5, h6, rfl⟩ := gUnquoted_iff.mp h1
    exact ⟨_, c, rfl, rfl, rfl, .plain (gString_fails.mp h0) h3 h4 h5 h6⟩

theorem currency_takes {env : Env} {s c k : Str} (h : TakesCurrency env s c k) :
    ∃ p, gCurrency env s = some ([p], k) ∧ p.rule = .currency ∧ parseString p = .ok c := by
  cases h with
  | quoted h =>
    obtain ⟨q, hq, h2, h3⟩ := h
    refine ⟨_, rule_iff.mpr ⟨_, alt_iff.mpr (.inl (gString_iff.mpr ⟨q, c, hq, h2, h3, rfl⟩)), rfl⟩, rfl, ?_⟩
    simp [parseString, Pair.rule, Pair.inner, parseLeaf, Pair.text, unquote]
  | plain h0 h3 h4 h5 h6 =>
    exact ⟨_, rule_iff.mpr ⟨_, alt_iff.mpr (.inr ⟨gString_fails.mpr h0, gUnquoted_iff.mpr ⟨c, rfl, h3, h4, h5, h6, rfl⟩⟩), rfl⟩, rfl, rfl⟩

theorem gNumber_iff {s k : Str} {q : Rat} : (∃ p, gNumber s = some ([p], k) ∧ parseRational p.text = .ok q) ↔ TakesNumber s q k := by
  have core : ∀ {u : Str} {x : List Pair}, seq bigint (opt (seq (lit ['.']) bigint)) u = some (x, k) ↔
      x = [] ∧ ∃ n, u = n ++ k ∧ IsNumeral n ∧ EndsDigits k ∧ ('.' ∉ n → NoFraction k) := by
    intro u x
    have hdot : ∀ {a : Str}, IsDigits a → '.' ∉ a := by
      intro a ha hm
      have := ha.2 _ hm
      revert this
      decide
    rw [seq_iff]
    constructor
    · rintro ⟨a, s1, b, h1, h2, rfl⟩
      obtain ⟨rfl, n, rfl, hn, he⟩ := bigint_iff.mp h1
      obtain ⟨rfl, f, rfl, ⟨rfl, hf⟩ | ⟨d, rfl, hd, hk⟩⟩ := fraction_iff.mp h2
      · exact ⟨rfl, n, rfl, .inl hn, he, fun _ => hf⟩
      · exact ⟨rfl, n ++ '.' :: d, by simp, .inr ⟨n, d, rfl, hn, hd⟩, hk, fun h => absurd (by simp) h⟩
    · rintro ⟨rfl, n, rfl, hn | ⟨a, b, rfl, ha, hb⟩, he, hf⟩
      · exact ⟨[], k, [], bigint_iff.mpr ⟨rfl, n, rfl, hn, he⟩, fraction_iff.mpr ⟨rfl, [], rfl, .inl ⟨rfl, hf (hdot hn)⟩⟩, rfl⟩
      · refine ⟨[], '.' :: b ++ k, [], bigint_iff.mpr ⟨rfl, a, by simp, ha, ?_⟩,
          fraction_iff.mpr ⟨rfl, '.' :: b, rfl, .inr ⟨b, rfl, hb, he⟩⟩, rfl⟩
        intro c hc
        simp only [List.cons_append, List.head?_cons, Option.some.injEq] at hc
        subst hc
        decide
  constructor
  · rintro ⟨p, h, hp⟩
    obtain ⟨x, h1, h2⟩ := rule_iff.mp h
    obtain ⟨a, s1, b, h3, h4, rfl⟩ := seq_iff.mp h1
    obtain ⟨rfl, n, rfl, g1, g2, g3⟩ := core.mp h4
    rcases opt_iff.mp h3 with h3 | ⟨_, rfl, rfl⟩
    · obtain ⟨rfl, rfl⟩ := lit_iff.mp h3
      rw [show (['-'] ++ (n ++ k) : Str) = ('-' :: n) ++ k from rfl, take_text] at h2
      cases h2
      rw [Pair.text, parseRational_neg g1] at hp
      cases hp
      exact ⟨'-' :: n, rfl, .neg g1, g2, fun h => g3 (fun hm => h (by simp [hm]))⟩
    · rw [take_text] at h2
      cases h2
      rw [Pair.text, parseRational_numeral g1] at hp
      cases hp
      exact ⟨n, rfl, .pos g1, g2, g3⟩
  · rintro ⟨n, rfl, h1, h2, h3⟩
    cases h1 with
    | pos g1 =>
      refine ⟨_, rule_iff.mpr ⟨[], seq_iff.mpr ⟨[], n ++ k, [], opt_iff.mpr (.inr ⟨?_, rfl, rfl⟩),
        core.mpr ⟨rfl, n, rfl, g1, h2, h3⟩, rfl⟩, rfl⟩, ?_⟩
      · cases hs : lit ['-'] (n ++ k) with
        | none => rfl
        | some y =>
          obtain ⟨z, k'⟩ := y
          obtain ⟨_, h5⟩ := lit_iff.mp hs
          exfalso
          have : ∃ c r, n = c :: r ∧ ('0' ≤ c ∧ c ≤ '9') := by
            rcases g1 with h | ⟨a, b, rfl, h, _⟩
            · obtain ⟨c, r, rfl, hc⟩ := h.head
              exact ⟨c, r, rfl, h.2 c (by simp)⟩
            · obtain ⟨c, r, rfl, hc⟩ := h.head
              exact ⟨c, _, rfl, h.2 c (by simp)⟩
          obtain ⟨c, r, rfl, hc⟩ := this
          simp only [List.cons_append, List.nil_append, List.cons.injEq] at h5
          rw [h5.1] at hc
          revert hc
          decide
      · rw [take_text]
        exact parseRational_numeral g1
    | @neg n g1 =>
      refine ⟨_, rule_iff.mpr ⟨[], seq_iff.mpr ⟨[], n ++ k, [], opt_iff.mpr (.inl (lit_iff.mpr ⟨rfl, rfl⟩)),
        core.mpr ⟨rfl, n, rfl, g1, h2, fun h => h3 (by simpa using h)⟩, rfl⟩, rfl⟩, ?_⟩
      rw [take_text]
      exact parseRational_neg g1

theorem gNumber_shape {s k : Str} {x : List Pair} (h : gNumber s = some (x, k)) : ∃ p, x = [p] ∧ p.rule = .number := by
  obtain ⟨y, _, rfl⟩ := rule_iff.mp h
  exact ⟨_, rfl, rfl⟩

theorem parsePrice_iff {env : Env} {line : Str} {p : ParsedPrice} : parsePrice env line = .ok p ↔ TakesPrice env line p := by
  constructor
  · intro h
    cases hg : gPrice env line with
    | none => rw [parsePrice, hg] at h; cases h
    | some y =>
      obtain ⟨ps, k⟩ := y
      obtain ⟨z, h0, rfl⟩ := rule_iff.mp hg
      obtain ⟨a0, r0, b0, w0, z0, rfl⟩ := seq_iff.mp h0
      obtain ⟨a1, r1, b1, h1, z1, rfl⟩ := seq_iff.mp z0
      obtain ⟨a2, r2, b2, h2, z2, rfl⟩ := seq_iff.mp z1
      obtain ⟨a3, r3, b3, h3, z3, rfl⟩ := seq_iff.mp z2
      obtain ⟨a4, r4, b4, h4, z4, rfl⟩ := seq_iff.mp z3
      obtain ⟨a5, r5, b5, h5, z5, rfl⟩ := seq_iff.mp z4
      obtain ⟨a6, r6, b6, h6, z6, rfl⟩ := seq_iff.mp z5
      obtain ⟨a7, r7, b7, h7, z7, rfl⟩ := seq_iff.mp z6
      obtain ⟨a8, r8, b8, h8, z8, rfl⟩ := seq_iff.mp z7
      obtain ⟨a9, r9, b9, h9, z9, rfl⟩ := seq_iff.mp z8
      obtain ⟨a10, r10, b10, h10, z10, rfl⟩ := seq_iff.mp z9
      obtain ⟨rfl, rfl⟩ := lit_iff.mp w0
      obtain ⟨rfl, g1⟩ := wss_iff.mp h1
      obtain ⟨p2, _, rfl, _, _, _⟩ := gDate_inv h2
      obtain ⟨g3, i3⟩ := timeOpt_inv h3
      obtain ⟨rfl, g4', g4⟩ := wsp_iff.mp h4
      obtain ⟨p5, c, rfl, i5, i5', g5⟩ := currency_inv h5
      obtain ⟨rfl, g6⟩ := wss_iff.mp h6
      obtain ⟨p7, rfl, i7⟩ := gNumber_shape h7
      obtain ⟨rfl, g8⟩ := wss_iff.mp h8
      obtain ⟨p9, o, rfl, i9, i9', g9⟩ := currency_inv h9
      obtain ⟨rfl, g10⟩ := wss_iff.mp h10
      obtain ⟨cs, g11, cml, e, rfl, _⟩ := end_inv z10
      unfold parsePrice at h
      rw [hg] at h
      simp only [List.nil_append, List.singleton_append] at h
      have key : ∀ (date : Date) (l : List Pair), priceOf date (p5 :: p7 :: p9 :: l) = .ok p →
          ∃ q, parseRational p7.text = .ok q ∧ p = { date := date, commodity := c, otherCommodity := o, otherQuantity := q } := by
        intro date l hh
        simp only [priceOf, i5', i9'] at hh
        cases hq : parseRational p7.text with
        | error e => rw [hq] at hh; cases hh
        | ok q => rw [hq] at hh; exact ⟨q, rfl, by cases hh; rfl⟩
      have done : ∀ (date : Date) (l : List Pair), parseDate p2 = .ok date → priceOf date (p5 :: p7 :: p9 :: l) = .ok p →
          TakesPrice env (['P'] ++ r0) p := by
        intro date l hd hh
        obtain ⟨q, hq, rfl⟩ := key date l hh
        exact .mk g1 (date_of h2 hd (timeOpt_head g3 (.inl g4'))) g3 g4' g4 g5 g6 (gNumber_iff.mp ⟨p7, h7, hq⟩) g8 g9 g10 g11
      have hne : p5.rule ≠ .time := by rw [i5]; decide
      cases hd : parseDate p2 with
      | error e =>
        rcases i3 with rfl | ⟨pt, rfl, ht⟩
        · simp only [List.nil_append, Pair.inner, hd] at h
          cases h
        · simp only [List.singleton_append, Pair.inner, hd] at h
          cases h
      | ok date =>
        rcases i3 with rfl | ⟨pt, rfl, ht⟩
        · simp only [List.nil_append, Pair.inner, hd, if_neg hne] at h
          exact done date _ hd h
        · simp only [List.singleton_append, Pair.inner, hd, ht, if_true] at h
          exact done date _ hd h
  · intro h
    cases h with
    | @mk r0 _ _ _ _ _ _ _ _ _ _ c o date q _ g1 g2 g3 g4' g4 g5 g6 g7 g8 g9 g10 g11 =>
    obtain ⟨p2, h2, _, hd⟩ := date_takes g2
    obtain ⟨a3, h3, i3⟩ := timeOpt_takes g3
    obtain ⟨p5, h5, i5, i5'⟩ := currency_takes g5
    obtain ⟨p7, h7, i7⟩ := gNumber_iff.mpr g7
    obtain ⟨p9, h9, i9, i9'⟩ := currency_takes g9
    obtain ⟨x, k, h11, cml, e, rfl, _⟩ := end_takes g11
    have h1 := wss_iff.mpr ⟨rfl, g1⟩
    have h4 := wsp_iff.mpr ⟨rfl, g4', g4⟩
    have h6 := wss_iff.mpr ⟨rfl, g6⟩
    have h8 := wss_iff.mpr ⟨rfl, g8⟩
    have h10 := wss_iff.mpr ⟨rfl, g10⟩
    have h0 : lit ['P'] ('P' :: r0) = some ([], r0) := lit_iff.mpr ⟨rfl, rfl⟩
    have hg : gPrice env ('P' :: r0) = some (_, k) := rule_iff.mpr ⟨_, seq_iff.mpr ⟨_, _, _, h0, seq_iff.mpr ⟨_, _, _, h1,
      seq_iff.mpr ⟨_, _, _, h2, seq_iff.mpr ⟨_, _, _, h3, seq_iff.mpr ⟨_, _, _, h4, seq_iff.mpr ⟨_, _, _, h5,
      seq_iff.mpr ⟨_, _, _, h6, seq_iff.mpr ⟨_, _, _, h7, seq_iff.mpr ⟨_, _, _, h8, seq_iff.mpr ⟨_, _, _, h9,
      seq_iff.mpr ⟨_, _, _, h10, h11, rfl⟩, rfl⟩, rfl⟩, rfl⟩, rfl⟩, rfl⟩, rfl⟩, rfl⟩, rfl⟩, rfl⟩, rfl⟩, rfl⟩
    have hne : p5.rule ≠ .time := by rw [i5]; decide
    unfold parsePrice
    rw [hg]
    rcases i3 with rfl | ⟨pt, rfl, ht⟩
    · simp only [List.nil_append, List.singleton_append, Pair.inner, hd, if_neg hne, priceOf, i5', i7, i9']
    · simp only [List.nil_append, List.singleton_append, Pair.inner, hd, ht, if_true, priceOf, i5', i7, i9']

theorem parseCommodityName_iff {env : Env} {line n : Str} : parseCommodityName env line = .ok n ↔ TakesCommodity env line n := by
  constructor
  · intro h
    cases hg : gCommodity env line with
    | none => rw [parseCommodityName, hg] at h; cases h
    | some y =>
      obtain ⟨ps, k⟩ := y
      obtain ⟨z, h0, rfl⟩ := rule_iff.mp hg
      obtain ⟨a0, r0, b0, w0, z0, rfl⟩ := seq_iff.mp h0
      obtain ⟨a1, r1, b1, h1, z1, rfl⟩ := seq_iff.mp z0
      obtain ⟨a2, r2, b2, h2, z2, rfl⟩ := seq_iff.mp z1
      obtain ⟨a3, r3, b3, h3, z3, rfl⟩ := seq_iff.mp z2
      obtain ⟨rfl, rfl⟩ := lit_iff.mp w0
      obtain ⟨rfl, g1', g1⟩ := wsp_iff.mp h1
      obtain ⟨p2, c, rfl, i2, i2', g2⟩ := currency_inv h2
      obtain ⟨rfl, g3⟩ := wss_iff.mp h3
      obtain ⟨cs, g4, _⟩ := end_inv z3
      unfold parseCommodityName at h
      rw [hg] at h
      simp only [List.nil_append, List.singleton_append, Pair.inner, i2'] at h
      cases h
      exact .mk g1' g1 g2 g3 g4
  · intro h
    cases h with
    | mk g1' g1 g2 g3 g4 =>
    obtain ⟨p2, h2, _, i2⟩ := currency_takes g2
    obtain ⟨x, k, h4, _⟩ := end_takes g4
    have h1 := wsp_iff.mpr ⟨rfl, g1', g1⟩
    have h3 := wss_iff.mpr ⟨rfl, g3⟩
    have hg : gCommodity env ("commodity".toList ++ _) = some (_, k) := rule_iff.mpr ⟨_, seq_iff.mpr ⟨_, _, _,
      lit_iff.mpr ⟨rfl, rfl⟩, seq_iff.mpr ⟨_, _, _, h1, seq_iff.mpr ⟨_, _, _, h2, seq_iff.mpr ⟨_, _, _, h3, h4, rfl⟩, rfl⟩, rfl⟩, rfl⟩, rfl⟩
    unfold parseCommodityName
    rw [hg]
    simp only [List.nil_append, List.singleton_append, Pair.inner, i2]

end Dinero
