import Verif.Spec.Notes
import Verif.Lemmas.Parsed
import Verif.Lemmas.Trouble
import Verif.Lemmas.HeaderInv
/-
Lemmas about what the characters of an accepted journal stand for (C130).
-/
namespace Dinero

/-! ### Amounts -/

theorem natOf_digits_of {s : Str} {n : Nat} (h : natOf s = some n) : s ≠ [] ∧ ∀ c ∈ s, '0' ≤ c ∧ c ≤ '9' := by
  unfold natOf at h
  split at h
  · cases h
  · next h0 =>
    refine ⟨h0, ?_⟩
    have : ∀ (s : Str) (m : Nat), s.foldl (fun (acc : Option Nat) c => acc.bind (fun n =>
        if '0' ≤ c ∧ c ≤ '9' then some (10 * n + (c.toNat - 48)) else none)) (some m) ≠ none → ∀ c ∈ s, '0' ≤ c ∧ c ≤ '9' := by
      intro s
      induction s with
      | nil => intro m _ c hc; cases hc
      | cons x s ih =>
        intro m hm c hc
        rw [List.foldl_cons, Option.bind_some] at hm
        by_cases hx : '0' ≤ x ∧ x ≤ '9'
        · rw [if_pos hx] at hm
          rcases List.mem_cons.mp hc with rfl | hc
          · exact hx
          · exact ih _ hm c hc
        · rw [if_neg hx, foldl_digits_none] at hm
          exact absurd rfl hm
    exact this s 0 (by rw [h]; simp)

theorem intOf_cases {s : Str} {i : Int} (h : intOf s = some i) :
    ∃ d, (s = d ∨ s = '-' :: d ∨ s = '+' :: d) ∧ d ≠ [] ∧ ∀ c ∈ d, '0' ≤ c ∧ c ≤ '9' := by
  unfold intOf at h
  split at h
  · next s' =>
    obtain ⟨n, hn, _⟩ := Option.map_eq_some_iff.mp h
    exact ⟨s', .inr (.inl rfl), natOf_digits_of hn⟩
  · next s' =>
    obtain ⟨n, hn, _⟩ := Option.map_eq_some_iff.mp h
    exact ⟨s', .inr (.inr rfl), natOf_digits_of hn⟩
  · obtain ⟨n, hn, _⟩ := Option.map_eq_some_iff.mp h
    exact ⟨s, .inl rfl, natOf_digits_of hn⟩

/-- A number that is read. -/
theorem number_reads {env : Env} (ha : env.AsciiChars) {t t' : Tok} {q : Rat} (h : parseAmount env t = (.ok q, t')) :
    ∃ s, t.rest = s ++ t'.rest ∧ ReadsNumber s q ∧ EndsNumber env t'.rest := by
  have h' := h
  unfold parseAmount at h'
  cases hx : amountAux env t.rest false with
  | none => rw [hx] at h'; cases h'
  | some x =>
    obtain ⟨num, k, n, rest⟩ := x
    rw [hx] at h'
    simp only [Prod.mk.injEq] at h'
    obtain ⟨hq, rfl⟩ := h'
    obtain ⟨pre, e1, e2, e3, e4, _, e6, e7⟩ := amountAux_read ha _ _ hx
    have hend : EndsNumber env rest := by
      intro c hc
      have := e7 c hc
      simp only [NumberChar, not_or, Bool.not_eq_true] at this
      exact ⟨this.1, this.2.1, this.2.2⟩
    refine ⟨pre, e1, ?_, hend⟩
    cases hi : intOf num with
    | none => rw [hi] at hq; cases hq
    | some i =>
      have hstop : NumStop env rest := by
        intro c hc
        have := e7 c hc
        simp only [NumberChar, not_or, Bool.not_eq_true] at this
        exact ⟨this.1, this.2.1, this.2.2⟩
      have use : ∀ q', WritesNumber pre q' → ReadsNumber pre q := by
        intro q' hw
        have := (parseAmount_ok ha hw e1 hstop).1
        rw [h] at this
        cases this
        exact .plain hw
      obtain ⟨d, hd, hd0, hdd⟩ := intOf_cases hi
      have hnoplus : num ≠ '+' :: d := by
        intro e
        have hm : '+' ∈ pre := by
          have : '+' ∈ pre.filter (· != '.') := by rw [← e3, e]; simp
          exact (List.mem_filter.mp this).1
        rcases e2 _ hm with h1 | h1 | h1
        · revert h1; decide
        · revert h1; decide
        · rw [ha.numF (by decide) (by decide)] at h1; cases h1
      by_cases hp : '.' ∈ pre
      · obtain ⟨a, b, rfl⟩ := List.append_of_mem hp
        have hab : '.' ∉ a ∧ '.' ∉ b := by
          rw [List.count_append, List.count_cons_self] at e6
          exact ⟨List.count_eq_zero.mp (by omega), List.count_eq_zero.mp (by omega)⟩
        have hf : ∀ {x : Str}, '.' ∉ x → x.filter (· != '.') = x := by
          intro x hx
          rw [List.filter_eq_self]
          intro c hc
          simp only [bne_iff_ne, ne_eq]
          rintro rfl
          exact hx hc
        rw [List.filter_append, List.filter_cons_of_neg (by simp), hf hab.1, hf hab.2] at e3
        rcases hd with rfl | hd | hd
        · exact use _ (.pos ⟨a, b, by rw [← e3]; exact hdd, by rw [← e3]; exact hd0, .inl rfl⟩)
        · cases a with
          | nil =>
            rw [List.nil_append, hd] at e3
            subst e3
            rw [List.nil_append] at e1 ⊢
            have ed : amountAux env ('.' :: '-' :: d ++ rest) false = some ('-' :: d, d.length + 1, d.length + 1 + 1, rest) := by
              show amountAux env ('.' :: '-' :: (d ++ rest)) false = _
              rw [amountAux, if_pos rfl, if_neg (by simp), amountAux, if_neg (by decide), if_pos (.inl rfl), amountAux_digits ha hdd,
                amountAux_stop hstop]
              simp
            rw [e1, ed] at hx
            cases hx
            simp only [intOf, natOf_digits ⟨hd0, hdd⟩] at hq
            have : q = -unsignedVal d / (10 ^ (d.length + 1) : Nat) := by
              cases hq
              rw [unsignedVal_int hdd]
              simp
            rw [this]
            exact .shifted hdd hd0
          | cons x a =>
            rw [hd, List.cons_append] at e3
            obtain ⟨rfl, e5⟩ := List.cons.inj e3
            exact use _ (.neg ⟨a, b, by rw [← e5]; exact hdd, by rw [← e5]; exact hd0, .inl rfl⟩)
        · exact absurd hd hnoplus
      · have hf : pre.filter (· != '.') = pre := by
          rw [List.filter_eq_self]
          intro c hc
          simp only [bne_iff_ne, ne_eq]
          rintro rfl
          exact hp hc
        rw [hf] at e3
        subst e3
        rcases hd with rfl | rfl | hd
        · exact use _ (.pos ⟨num, [], by simpa using hdd, by simpa using hd0, .inr ⟨rfl, rfl⟩⟩)
        · exact use _ (.neg ⟨d, [], by simpa using hdd, by simpa using hd0, .inr ⟨rfl, rfl⟩⟩)
        · exact absurd hd hnoplus

theorem blanks_of {env : Env} {s : Str} (h : ∀ c ∈ s, env.blank c = true) : Blanks env s := by
  intro c hc
  have := h c hc
  simpa [Env.blank] using this

theorem wordEnd_iff {env : Env} {c : Char} : env.wordEnd c = false ↔ WordChar env c := by
  simp only [Env.wordEnd, Bool.or_eq_false_iff, beq_eq_false_iff_ne, WordChar, List.mem_cons, List.not_mem_nil, or_false, not_or]
  tauto

theorem wordEnd_iff' {env : Env} {c : Char} : env.wordEnd c = true ↔ ¬ WordChar env c := by
  rw [← wordEnd_iff]; simp

/-- The rest of a word outside of quotes. -/
theorem wordAux_plain_reads {env : Env} (hq : env.wordEnd '"' = false) (hnl : env.ws '\n' = true) (s : Str) :
    ∃ v, s = v ++ (wordAux env s false false).2.2 ∧ (wordAux env s false false).1 = v.filter (· != '"') ∧
      (∀ c ∈ v, WordChar env c) ∧ ∀ c, (wordAux env s false false).2.2.head? = some c → ¬ WordChar env c := by
  induction s with
  | nil => exact ⟨[], rfl, rfl, by simp, by simp [wordAux]⟩
  | cons x s ih =>
    obtain ⟨v, h1, h2, h3, h4⟩ := ih
    rw [wordAux]
    split
    · next hx =>
      refine ⟨[], rfl, rfl, by simp, ?_⟩
      intro c hc
      cases hc
      rintro ⟨h, _⟩
      rw [hx, hnl] at h; cases h
    · split
      · next hx =>
        simp only [Bool.false_eq_true, if_false]
        refine ⟨x :: v, by rw [List.cons_append, ← h1], by rw [List.filter_cons_of_neg (by simp [hx])]; exact h2, ?_, h4⟩
        intro c hc
        rcases List.mem_cons.mp hc with rfl | hc
        · rw [hx]; exact wordEnd_iff.mp hq
        · exact h3 c hc
      · next hx =>
        split
        · next he =>
          simp only [Bool.not_false, Bool.and_true] at he
          refine ⟨[], rfl, rfl, by simp, ?_⟩
          intro c hc
          cases hc
          exact wordEnd_iff'.mp he
        · next he =>
          simp only [Bool.not_false, Bool.and_true, Bool.not_eq_true] at he
          refine ⟨x :: v, by rw [List.cons_append, ← h1], by rw [List.filter_cons_of_pos (by simpa using hx), ← h2], ?_, h4⟩
          intro c hc
          rcases List.mem_cons.mp hc with rfl | hc
          · exact wordEnd_iff.mp he
          · exact h3 c hc

/-- The rest of a word in quotes. -/
theorem wordAux_quoted_reads (env : Env) (s : Str) : ∃ x e, s = x ++ e ++ (wordAux env s false true).2.2 ∧
    (wordAux env s false true).1 = x ∧ '"' ∉ x ∧ '\n' ∉ x ∧
    (e = ['"'] ∨ (e = [] ∧ ((wordAux env s false true).2.2 = [] ∨ (wordAux env s false true).2.2.head? = some '\n'))) := by
  induction s with
  | nil => exact ⟨[], [], rfl, rfl, by simp, by simp, .inr ⟨rfl, .inl rfl⟩⟩
  | cons y s ih =>
    obtain ⟨x, e, h1, h2, h3, h4, h5⟩ := ih
    rw [wordAux]
    split
    · next hy => exact ⟨[], [], rfl, rfl, by simp, by simp, .inr ⟨rfl, .inr (by rw [hy]; rfl)⟩⟩
    · next hn =>
      split
      · next hy => exact ⟨[], ['"'], by rw [hy]; simp, by simp, by simp, by simp, .inl rfl⟩
      · next hy =>
        rw [if_neg (by simp)]
        refine ⟨y :: x, e, ?_, by rw [← h2], by simp [h3, Ne.symm hy], by simp [h4, Ne.symm hn], h5⟩
        simp only [List.cons_append]
        rw [← h1]

/-- A word that has started with a quote, before its first character. -/
theorem wordAux_opened_reads (env : Env) (s : Str) : ∃ q x e, s = q ++ x ++ e ++ (wordAux env s true true).2.2 ∧
    (wordAux env s true true).1 = x ∧ (∀ c ∈ q, c = '"') ∧ '"' ∉ x ∧ '\n' ∉ x ∧
    ((e = ['"'] ∧ x ≠ []) ∨ (e = [] ∧ ((wordAux env s true true).2.2 = [] ∨ (wordAux env s true true).2.2.head? = some '\n'))) := by
  induction s with
  | nil => exact ⟨[], [], [], rfl, rfl, by simp, by simp, by simp, .inr ⟨rfl, .inl rfl⟩⟩
  | cons y s ih =>
    rw [wordAux]
    split
    · next hy => exact ⟨[], [], [], rfl, rfl, by simp, by simp, by simp, .inr ⟨rfl, .inr (by rw [hy]; rfl)⟩⟩
    · next hn =>
      split
      · next hy =>
        simp only [if_true]
        obtain ⟨q, x, e, h1, h2, h3, h4, h5, h6⟩ := ih
        refine ⟨y :: q, x, e, by simp only [List.cons_append]; rw [← h1], h2, ?_, h4, h5, h6⟩
        intro c hc
        rcases List.mem_cons.mp hc with rfl | hc
        · exact hy
        · exact h3 c hc
      · next hy =>
        rw [if_neg (by simp)]
        obtain ⟨x, e, h1, h2, h3, h4, h5⟩ := wordAux_quoted_reads env s
        refine ⟨[], y :: x, e, ?_, by rw [← h2], by simp, by simp [h3, Ne.symm hy], by simp [h4, Ne.symm hn], ?_⟩
        · simp only [List.nil_append, List.cons_append]
          rw [← h1]
        · rcases h5 with h5 | h5
          · exact .inl ⟨h5, by simp⟩
          · exact .inr h5

/-- A word. -/
theorem wordAux_reads {env : Env} (hq : env.wordEnd '"' = false) (hnl : env.ws '\n' = true) (s : Str) :
    ∃ v, s = v ++ (wordAux env s true false).2.2 ∧ ReadsWord env v (wordAux env s true false).1 (wordAux env s true false).2.2 := by
  cases s with
  | nil => exact ⟨[], rfl, .plain (by simp) (by simp) (by simp [wordAux])⟩
  | cons y s =>
    rw [wordAux]
    split
    · next hy =>
      refine ⟨[], rfl, .plain (by simp) (by simp) ?_⟩
      intro c hc
      cases hc
      rintro ⟨h, _⟩
      rw [hy, hnl] at h; cases h
    · split
      · next hy =>
        simp only [if_true]
        obtain ⟨q, x, e, h1, h2, h3, h4, h5, h6⟩ := wordAux_opened_reads env s
        refine ⟨y :: q ++ x ++ e, by simp only [List.cons_append]; rw [← h1], ?_⟩
        have hq' : ∀ c ∈ y :: q, c = '"' := by
          intro c hc
          rcases List.mem_cons.mp hc with rfl | hc
          · exact hy
          · exact h3 c hc
        rw [h2]
        rcases h6 with ⟨rfl, h6⟩ | ⟨rfl, h6⟩
        · exact .quoted (by simp) hq' h6 h4 h5
        · rw [List.append_nil]
          exact .unclosed (by simp) hq' h4 h5 h6
      · next hy =>
        split
        · next he =>
          simp only [Bool.not_false, Bool.and_true] at he
          refine ⟨[], rfl, .plain (by simp) (by simp) ?_⟩
          intro c hc
          cases hc
          exact wordEnd_iff'.mp he
        · next he =>
          simp only [Bool.not_false, Bool.and_true, Bool.not_eq_true] at he
          obtain ⟨v, h1, h2, h3, h4⟩ := wordAux_plain_reads hq hnl s
          refine ⟨y :: v, by simp only [List.cons_append]; rw [← h1], ?_⟩
          have : y :: (wordAux env s false false).1 = (y :: v).filter (· != '"') := by
            rw [List.filter_cons_of_pos (by simpa using hy), ← h2]
          simp only
          rw [this]
          refine .plain (by simp [hy]) ?_ h4
          intro c hc
          rcases List.mem_cons.mp hc with rfl | hc
          · exact wordEnd_iff.mp he
          · exact h3 c hc

theorem endsBlanks_consumeWs (env : Env) (t : Tok) : EndsBlanks env (consumeWs env t).rest := by
  intro c hc hw
  have := List.head?_dropWhile_not (p := env.blank) (l := t.rest)
  have hc' : (t.rest.dropWhile env.blank).head? = some c := hc
  rw [hc'] at this
  simpa [Env.blank, hw] using this

theorem consumeWs_blanks (env : Env) (t : Tok) : ∃ b, t.rest = b ++ (consumeWs env t).rest ∧ Blanks env b :=
  ⟨t.rest.takeWhile env.blank, List.takeWhile_append_dropWhile.symm, blanks_of takeWhile_blank⟩

theorem consumeWs_ends {env : Env} {t : Tok} (h : EndsBlanks env t.rest) : consumeWs env t = t := by
  unfold consumeWs
  have : t.rest.takeWhile env.blank = [] ∧ t.rest.dropWhile env.blank = t.rest := by
    cases hr : t.rest with
    | nil => exact ⟨rfl, rfl⟩
    | cons c r =>
      have hb : env.blank c = false := by
        cases hw : env.ws c with
        | false => simp [Env.blank, hw]
        | true => rw [h c (by rw [hr]; rfl) hw]; simp [Env.blank]
      simp [hb]
  rw [this.1, this.2]
  simp

/-- A word that is read where there are no blanks. -/
theorem word_reads {env : Env} (ha : env.AsciiChars) {t : Tok} (h : EndsBlanks env t.rest) :
    ∃ w b, t.rest = w ++ b ++ (getString env t).2.rest ∧ Blanks env b ∧ EndsBlanks env (getString env t).2.rest ∧
      ReadsWord env w (getString env t).1 (b ++ (getString env t).2.rest) := by
  have hq : env.wordEnd '"' = false := by
    rw [wordEnd_iff]
    exact ⟨ha.wsF (by decide) (by decide), ha.numF (by decide) (by decide), by decide⟩
  obtain ⟨v, v1, v2⟩ := wordAux_reads hq (ha.wsT (by decide) (by decide)) t.rest
  obtain ⟨b, b1, b2⟩ := consumeWs_blanks env { t with rest := (wordAux env t.rest true false).2.2, col := t.col + (wordAux env t.rest true false).2.1 }
  have e : getString env t = ((wordAux env t.rest true false).1,
      consumeWs env { t with rest := (wordAux env t.rest true false).2.2, col := t.col + (wordAux env t.rest true false).2.1 }) := by
    unfold getString
    rw [consumeWs_ends h]
  rw [e]
  simp only at b1
  refine ⟨v, b, ?_, b2, endsBlanks_consumeWs env _, ?_⟩
  · rw [List.append_assoc, ← b1]; exact v1
  · rw [← b1]; exact v2

theorem blanks_nil (env : Env) : Blanks env [] := by intro c hc; cases hc

/-- An amount with its commodity that is read where there are no blanks. -/
theorem money_reads {env : Env} (ha : env.AsciiChars) {t t' : Tok} {q : Rat} {c : Str} (hb : EndsBlanks env t.rest)
    (h : parseMoney env t = (.ok (q, c), t')) :
    ∃ m b, t.rest = m ++ b ++ t'.rest ∧ Blanks env b ∧ ReadsMoney env m q c (b ++ t'.rest) := by
  unfold parseMoney at h
  split at h
  · cases h
  · next x r hr =>
    split at h
    · cases hp : parseAmount env t with
      | mk y t1 =>
        rw [hp] at h
        cases y with
        | error e => cases h
        | ok a =>
          simp only [Prod.mk.injEq, Except.ok.injEq] at h
          obtain ⟨⟨rfl, rfl⟩, rfl⟩ := h
          obtain ⟨n, e1, e2, e3⟩ := number_reads ha hp
          obtain ⟨b, b1, b2⟩ := consumeWs_blanks env t1
          obtain ⟨w, b', f1, f2, f3, f4⟩ := word_reads ha (endsBlanks_consumeWs env t1)
          have e : getString env (consumeWs env t1) = getString env t1 := by
            unfold getString
            rw [consumeWs_ends (endsBlanks_consumeWs env t1)]
          rw [e] at f1 f3 f4
          have f1' : (consumeWs env t1).rest = w ++ (b' ++ (getString env t1).2.rest) := by rw [f1]; simp
          refine ⟨n ++ b ++ w, b', by rw [e1, b1, f1]; simp, f2, .after e2 ?_ b2 ?_ f4⟩
          · rw [List.append_assoc, ← f1', ← b1]; exact e3
          · rw [← f1']; exact endsBlanks_consumeWs env t1
    · next hx =>
      obtain ⟨w, b, f1, f2, f3, f4⟩ := word_reads ha hb
      cases hp : parseAmount env (getString env t).2 with
      | mk y t1 =>
        simp only [hp] at h
        cases y with
        | error e => cases h
        | ok a =>
          simp only [Prod.mk.injEq, Except.ok.injEq] at h
          obtain ⟨⟨rfl, rfl⟩, rfl⟩ := h
          obtain ⟨n, e1, e2, e3⟩ := number_reads ha hp
          rw [e1] at f1 f4
          have hh : ∀ z, (w ++ b ++ n).head? = some z → t.rest.head? = some z := by
            intro z hz
            rw [f1, ← List.append_assoc, List.head?_append, hz]; rfl
          refine ⟨w ++ b ++ n, [], by rw [f1]; simp, blanks_nil _, .before ?_ ?_ ?_ f2 e2 e3⟩
          · intro z hz
            have := hh z hz
            rw [hr] at this
            cases this
            simp only [not_or, Bool.not_eq_true] at hx
            exact ⟨hx.2.1, hx.2.2, hx.1⟩
          · intro z hz
            exact hb z (hh z hz)
          · rw [List.append_assoc]; exact f4

/-- A number that is not read. -/
theorem number_fails {env : Env} (ha : env.AsciiChars) {t t' : Tok} {e : Err} (h : parseAmount env t = (.error e, t')) :
    ∃ n, t.rest = n ++ t'.rest ∧ NoNumber env n t'.rest := by
  unfold parseAmount at h
  cases hx : amountAux env t.rest false with
  | none =>
    obtain ⟨a, b, r, e', h1, h2, h3, h4⟩ := (amountAux_second _ _ hx).2 rfl
    rw [hx] at h
    simp only at h
    rw [e', takeWhile_point h1] at h
    have e1 : (a ++ '.' :: (b ++ '.' :: r)).drop (a.length + 1) = b ++ '.' :: r := by
      rw [List.drop_append]; simp
    rw [e1, takeWhile_point h3] at h
    have e2 : (a ++ '.' :: (b ++ '.' :: r)).drop (a.length + 1 + b.length) = '.' :: r := by
      rw [← List.drop_drop, e1]; simp
    rw [e2] at h
    cases h
    refine ⟨a ++ '.' :: b, by rw [e']; simp, ?_, .inr ⟨?_, rfl⟩⟩
    · intro c hc
      rcases List.mem_append.mp hc with hc | hc
      · exact .inr (h2 c hc)
      · rcases List.mem_cons.mp hc with hc | hc
        · exact .inl hc
        · exact .inr (h4 c hc)
    · rw [List.count_append, List.count_cons_self, List.count_eq_zero.mpr h1, List.count_eq_zero.mpr h3]
  | some x =>
    obtain ⟨num, k, n, rest⟩ := x
    obtain ⟨pre, h1, h2, h3, h4, _, h6, h7⟩ := amountAux_read ha _ _ hx
    rw [hx] at h
    simp only [Prod.mk.injEq] at h
    obtain ⟨h8, rfl⟩ := h
    refine ⟨pre, h1, h2, .inl ⟨h6, ?_, ?_⟩⟩
    · intro c hc
      have := h7 c hc
      simp only [NumberChar, not_or, Bool.not_eq_true] at this
      exact ⟨this.1, this.2.1, this.2.2⟩
    · rw [← h3]
      intro hi
      have := intOf_integer hi
      split at h8
      · next hn => exact this hn
      · cases h8

/-- An amount that is not read. -/
theorem money_fails {env : Env} (ha : env.AsciiChars) {t t' : Tok} {e : Err} (hb : EndsBlanks env t.rest) (h0 : t.rest ≠ [])
    (h : parseMoney env t = (.error e, t')) : ∃ v, t.rest = v ++ t'.rest ∧ NoMoney env v t'.rest := by
  unfold parseMoney at h
  split at h
  · next hr => exact absurd hr h0
  · next x r hr =>
    split at h
    · next hx =>
      cases hp : parseAmount env t with
      | mk y t1 =>
        rw [hp] at h
        cases y with
        | error e =>
          cases h
          obtain ⟨n, e1, e2⟩ := number_fails ha hp
          refine ⟨n, e1, .number ?_ e2⟩
          rintro rfl
          rw [List.nil_append] at e1
          rcases e2.2 with ⟨_, e3, _⟩ | ⟨e3, _⟩
          · obtain ⟨k1, k2, k3⟩ := e3 x (by rw [← e1, hr]; rfl)
            rcases hx with hx | hx | hx
            · rw [k3] at hx; cases hx
            · exact k1 hx
            · exact k2 hx
          · cases e3
        | ok a => cases h
    · next hx =>
      obtain ⟨w, b, f1, f2, f3, f4⟩ := word_reads ha hb
      cases hp : parseAmount env (getString env t).2 with
      | mk y t1 =>
        simp only [hp] at h
        cases y with
        | ok a => cases h
        | error e =>
          cases h
          obtain ⟨n, e1, e2⟩ := number_fails ha hp
          rw [e1] at f1 f3 f4
          have f1' : w ++ b ++ n ++ t'.rest = t.rest := by rw [f1]; simp
          refine ⟨w ++ b ++ n, f1'.symm, .word ?_ ?_ (by rw [List.append_assoc]; exact f4) f2 f3 e2⟩
          · rw [f1']
            intro z hz
            rw [hr] at hz
            cases hz
            simp only [not_or, Bool.not_eq_true] at hx
            exact ⟨hx.2.1, hx.2.2, hx.1⟩
          · rw [f1']; exact hb

/-! ### Postings -/

/-- An expression extends to a semicolon, to the end of the text or to the end of a line where the parentheses are closed. -/
theorem valueExpr_reads (s : Str) : ∀ (o c line col : Nat),
    s = (valueExprAux s o c line col).1 ++ (valueExprAux s o c line col).2.1 ∧ ';' ∉ (valueExprAux s o c line col).1 ∧
    (∀ x y, (valueExprAux s o c line col).1 = x ++ '\n' :: y → o + x.count '(' ≠ c + x.count ')') ∧
    ((valueExprAux s o c line col).2.1 = [] ∨ (valueExprAux s o c line col).2.1.head? = some ';' ∨
      ((valueExprAux s o c line col).2.1.head? = some '\n' ∧
        o + (valueExprAux s o c line col).1.count '(' = c + (valueExprAux s o c line col).1.count ')')) := by
  induction s with
  | nil => intro o c line col; exact ⟨rfl, by simp [valueExprAux], by simp [valueExprAux], .inl rfl⟩
  | cons x s ih =>
    intro o c line col
    rw [valueExprAux]
    split
    · next hx =>
      subst hx
      obtain ⟨h1, h2, h0, h3⟩ := ih (o + 1) c line col
      refine ⟨by simp only [List.cons_append]; rw [← h1], by simp [h2], ?_, ?_⟩
      · intro a b hab
        cases a with
        | nil => cases hab
        | cons z a =>
          obtain ⟨rfl, hab'⟩ := List.cons.inj hab
          have := h0 a b hab'
          simp only [List.count_cons_self]
          rw [List.count_cons_of_ne (by decide)]
          omega
      simp only [List.count_cons_self]
      rw [List.count_cons_of_ne (by decide)]
      rcases h3 with h | h | ⟨h, h'⟩
      · exact .inl h
      · exact .inr (.inl h)
      · exact .inr (.inr ⟨h, by omega⟩)
    · split
      · next hx =>
        subst hx
        obtain ⟨h1, h2, h0, h3⟩ := ih o (c + 1) line col
        refine ⟨by simp only [List.cons_append]; rw [← h1], by simp [h2], ?_, ?_⟩
        · intro a b hab
          cases a with
          | nil => cases hab
          | cons z a =>
            obtain ⟨rfl, hab'⟩ := List.cons.inj hab
            have := h0 a b hab'
            simp only [List.count_cons_self]
            rw [List.count_cons_of_ne (by decide)]
            omega
        simp only [List.count_cons_self]
        rw [List.count_cons_of_ne (by decide)]
        rcases h3 with h | h | ⟨h, h'⟩
        · exact .inl h
        · exact .inr (.inl h)
        · exact .inr (.inr ⟨h, by omega⟩)
      · next n1 n2 =>
        have plain : ∀ {y : Char}, y = x → y ≠ ';' → (y = '\n' → o ≠ c) → ∀ l k, (y :: s = y :: (valueExprAux s o c l k).1 ++ (valueExprAux s o c l k).2.1 ∧
            ';' ∉ y :: (valueExprAux s o c l k).1 ∧
            (∀ a b, y :: (valueExprAux s o c l k).1 = a ++ '\n' :: b → o + a.count '(' ≠ c + a.count ')') ∧ ((valueExprAux s o c l k).2.1 = [] ∨ (valueExprAux s o c l k).2.1.head? = some ';' ∨
              ((valueExprAux s o c l k).2.1.head? = some '\n' ∧
                o + (y :: (valueExprAux s o c l k).1).count '(' = c + (y :: (valueExprAux s o c l k).1).count ')'))) := by
          intro y hy hs hn l k
          subst hy
          obtain ⟨h1, h2, h0, h3⟩ := ih o c l k
          refine ⟨by rw [List.cons_append, ← h1], by simp [h2, Ne.symm hs], ?_, ?_⟩
          · intro a b hab
            cases a with
            | nil => simpa using hn (List.cons.inj hab).1
            | cons z a =>
              obtain ⟨rfl, hab'⟩ := List.cons.inj hab
              rw [List.count_cons_of_ne n1, List.count_cons_of_ne n2]
              exact h0 a b hab'
          rw [List.count_cons_of_ne n1, List.count_cons_of_ne n2]
          exact h3
        split
        · next hx =>
          subst hx
          split
          · next ho => exact ⟨rfl, by simp, by simp, .inr (.inr ⟨rfl, by simp [ho]⟩)⟩
          · next ho => exact plain rfl (by decide) (fun _ => ho) _ _
        · next hn =>
          split
          · next hx => subst hx; exact ⟨rfl, by simp, by simp, .inr (.inl rfl)⟩
          · next hx => exact plain rfl hx (fun h => absurd h hn) _ _

theorem line_takes {t : Tok} : ∃ l, TakesLine t.rest l (getLine t).2.rest ∧ (getLine t).1 = l ∧
    ((getLine t).2.rest = [] ∨ (getLine t).2.col = 0) := by
  rcases dropWhile_nl t.rest with ⟨h1, h2⟩ | ⟨l, r, h1, h2, h3⟩
  · refine ⟨t.rest, ⟨h2, .inr ⟨rfl, by simp [getLine, h1]⟩⟩, ?_, .inl (by simp [getLine, h1])⟩
    simp only [getLine, h1]
    have := List.takeWhile_append_dropWhile (p := (· != '\n')) (l := t.rest)
    rw [h1, List.append_nil] at this
    exact this
  · refine ⟨l, ⟨h2, .inl (by simp only [getLine, h3]; exact h1)⟩, ?_, .inr (by simp [getLine, h3])⟩
    simp only [getLine, h3]
    have := List.takeWhile_append_dropWhile (p := (· != '\n')) (l := t.rest)
    rw [h3] at this
    exact List.append_cancel_right (this.trans h1)

theorem comment_takes {env : Env} {t : Tok} {m : Char} {r : Str} (h : t.rest = m :: r) (hm : m ≠ '\n') :
    ∃ b c, TakesLine t.rest (m :: b ++ c) (commentTok env t).2.rest ∧ (commentTok env t).1 = c ∧ Blanks env b ∧
      (∀ x, c.head? = some x → env.ws x = false) ∧ ((commentTok env t).2.rest = [] ∨ (commentTok env t).2.col = 0) := by
  obtain ⟨c, h1, h2, h3⟩ := line_takes (t := consumeWs env { t with rest := t.rest.drop 1, col := t.col + 1 })
  have e : r = r.takeWhile env.blank ++ (consumeWs env { t with rest := t.rest.drop 1, col := t.col + 1 }).rest := by
    simp only [consumeWs, h, List.drop_one, List.tail_cons, List.takeWhile_append_dropWhile]
  have hb : Blanks env (r.takeWhile env.blank) := blanks_of takeWhile_blank
  refine ⟨r.takeWhile env.blank, c, ?_, h2, hb, ?_, h3⟩
  · obtain ⟨k1, k2⟩ := h1
    refine ⟨?_, ?_⟩
    · simp only [List.cons_append, List.mem_cons, List.mem_append, not_or]
      exact ⟨Ne.symm hm, fun hx => (hb _ hx).2 rfl, k1⟩
    · rcases k2 with k2 | ⟨k2, k3⟩
      · left
        rw [h]
        conv_lhs => rw [e, k2]
        simp [commentTok]
      · right
        refine ⟨?_, k3⟩
        rw [h]
        conv_lhs => rw [e, k2]
        simp
  · intro x hx
    obtain ⟨k1, k2⟩ := h1
    have hd : (consumeWs env { t with rest := t.rest.drop 1, col := t.col + 1 }).rest.head? = some x := by
      rcases k2 with k2 | ⟨k2, _⟩
      · rw [k2]
        cases c with
        | nil => cases hx
        | cons y c => exact hx
      · rw [k2]; exact hx
    have hn : x ≠ '\n' := by
      rintro rfl
      exact k1 (List.mem_of_head? hx)
    have : env.blank x = false := by
      simp only [consumeWs] at hd
      have := List.head?_dropWhile_not (p := env.blank) (l := t.rest.drop 1)
      rw [hd] at this
      simpa using this
    by_contra hw
    simp [Env.blank, hn] at this
    exact hw this

theorem blanks_append {env : Env} {a b : Str} (ha : Blanks env a) (hb : Blanks env b) : Blanks env (a ++ b) := by
  intro c hc
  rcases List.mem_append.mp hc with h | h
  · exact ha c h
  · exact hb c h

theorem set_comments (p : RawPosting) (x : Piece) : (x.set p).comments = p.comments := by
  cases x with
  | field f q c => cases f <;> rfl
  | expr e => rfl

/-- What the loop over the amounts reads. -/
theorem amounts_takes {env : Env} (ha : env.AsciiChars) (tt : TType) : ∀ (n : Nat) (p : RawPosting) (t : Tok),
    t.rest <:+ t.content → EndsBlanks env t.rest → ∀ q t', amounts env tt n p t = .ok (.ok q, t') →
      (∃ ps cs, TakesPieces env (tt == .automated) p.moneyAmount.isSome t.rest ps cs t'.rest ∧
        q = { ps.foldl Piece.set p with comments := p.comments ++ cs }) ∧
      (t'.rest = [] ∨ t'.rest.head? = some '\n' ∨ t'.col = 0) := by
  intro n
  induction n with
  | zero => intro p t _ _ q t' h; cases h
  | succ n ih =>
    intro p t hs hbl q t' h
    -- going on after one of the amounts
    have go : ∀ (f : Field) (q0 : Rat) (c0 : Str) (t0 t1 : Tok) (b0 : Str), t.rest = f.mark ++ b0 ++ t0.rest →
        Blanks env b0 → EndsBlanks env t0.rest → parseMoney env t0 = (.ok (q0, c0), t1) → t.Along t1 →
        (f = .unitCost ∨ f = .totalCost → p.moneyAmount.isSome = true) →
        (f = .amount → ∀ x ∈ ['(', '=', '@', ';'], t.rest.head? ≠ some x) →
        (f = .unitCost → (b0 ++ t0.rest).head? ≠ some '@') →
        amounts env tt n (f.set p q0 c0) (consumeWs env t1) = .ok (.ok q, t') →
        (∃ ps cs, TakesPieces env (tt == .automated) p.moneyAmount.isSome t.rest ps cs t'.rest ∧
          q = { ps.foldl Piece.set p with comments := p.comments ++ cs }) ∧
        (t'.rest = [] ∨ t'.rest.head? = some '\n' ∨ t'.col = 0) := by
      intro f q0 c0 t0 t1 b0 hr hb hb0 hp hal hcost ham hun h
      obtain ⟨m, b', m1, m3, m4⟩ := money_reads ha hb0 hp
      obtain ⟨b2, w1, w2⟩ := consumeWs_blanks env t1
      have hal2 := hal.trans (consumeWs_along env t1)
      obtain ⟨⟨ps, cs, i1, i2⟩, i3⟩ := ih _ _ (hal2.step.suffix hs) (endsBlanks_consumeWs env t1) q t' h
      refine ⟨⟨.field f q0 c0 :: ps, cs, ?_, ?_⟩, i3⟩
      · have e : t.rest = f.mark ++ b0 ++ m ++ (b' ++ b2) ++ (consumeWs env t1).rest := by
          rw [hr, m1, w1]; simp
        have hhead : ∀ x, (b0 ++ m).head? = some x → (b0 ++ t0.rest).head? = some x := by
          intro x hx
          rw [m1, List.append_assoc m, ← List.append_assoc b0 m, List.head?_append, hx]; rfl
        rw [e]
        refine .field f hb (by rw [List.append_assoc, ← w1]; exact m4) (blanks_append m3 w2) (endsBlanks_consumeWs env t1) hcost ?_ ?_ ?_
        · intro hf x hx hx'
          refine ham hf x hx ?_
          rw [hr, hf]
          exact hhead x hx'
        · intro hf hx'
          exact hun hf (hhead _ hx')
        · have : (f.set p q0 c0).moneyAmount.isSome = (p.moneyAmount.isSome || f == .amount) := by
            cases f <;> simp [Field.set]
          rw [← this]
          exact i1
      · rw [i2]
        simp only [List.foldl_cons]
        rw [show (f.set p q0 c0).comments = p.comments from set_comments p (.field f q0 c0)]
        rfl
    have one : ∀ {y : Char} {r : Str}, t.rest = y :: r → y ≠ '\n' → t.Along { t with rest := r, col := t.col + 1 } := by
      intro y r h hy
      exact ⟨rfl, rfl, [y], by simp [h], by simp [Ne.symm hy], rfl⟩
    rw [amounts.eq_def] at h
    simp only at h
    split at h
    · next hr =>
      cases h
      rw [hr]
      exact ⟨⟨[], [], .stop (.inl rfl), by simp⟩, .inl rfl⟩
    · next r hr =>
      cases h
      rw [hr]
      exact ⟨⟨[], [], .stop (.inr rfl), by simp⟩, .inr (.inl rfl)⟩
    · next r hr =>
      cases h
      obtain ⟨b, c, c1, c2, c3, c4, c5⟩ := comment_takes (env := env) hr (by decide)
      refine ⟨⟨[], [c], .comment c1 c3 c4, by rw [c2]; rfl⟩, ?_⟩
      rcases c5 with h | h
      · exact .inl h
      · exact .inr (.inr h)
    · next r hr =>
      have hst := (getValueExpression_step t).trans (consumeWs_step env _)
      obtain ⟨⟨ps, cs, i1, i2⟩, i3⟩ := ih _ _ (hst.suffix hs) (endsBlanks_consumeWs env _) q t' h
      obtain ⟨v1, v2, v0, v3⟩ := valueExpr_reads t.rest 0 0 t.line t.col
      obtain ⟨b, w1, w2⟩ := consumeWs_blanks env (getValueExpression t).2
      refine ⟨⟨.expr (getValueExpression t).1 :: ps, cs, ?_, ?_⟩, i3⟩
      · have e : t.rest = (getValueExpression t).1 ++ b ++ (consumeWs env (getValueExpression t).2).rest := by
          rw [List.append_assoc, ← w1]; exact v1
        have w1' : (valueExprAux t.rest 0 0 t.line t.col).2.1 = b ++ (consumeWs env (getValueExpression t).2).rest := w1
        rw [e]
        refine .expr ?_ v2 (by simpa [getValueExpression] using v0) ?_ w2 (endsBlanks_consumeWs env _) i1
        · show (valueExprAux t.rest 0 0 t.line t.col).1.head? = _
          rw [hr, valueExprAux]
          rfl
        · rw [← w1']
          simpa [getValueExpression] using v3
      · rw [i2]; rfl
    · next r hr =>
      have h1 := (one hr (by decide)).trans (consumeWs_along env _)
      obtain ⟨b, w1, w2⟩ := consumeWs_blanks env { t with rest := r, col := t.col + 1 }
      cases hm : parseMoney env (consumeWs env { t with rest := r, col := t.col + 1 }) with
      | mk q1 t1 =>
        rw [hm] at h
        cases q1 with
        | error e => cases h
        | ok m =>
          have hal := parseMoney_along ha (consumeWs env { t with rest := r, col := t.col + 1 })
          rw [hm] at hal
          exact go .assertion m.1 m.2 _ t1 b (by rw [hr]; show _ = ['='] ++ b ++ _; rw [List.append_assoc, ← w1]; rfl) w2
            (endsBlanks_consumeWs env _) hm
            (h1.trans hal) (by simp) (by simp) (by simp) h
    · next r hr =>
      cases hp : p.moneyAmount with
      | none => rw [hp] at h; cases h
      | some y =>
        rw [hp] at h go
        simp only at h
        cases r with
        | nil => cases h
        | cons d r' =>
          simp only at h
          by_cases hd : d = '@'
          · subst hd
            simp only [if_true] at h
            have h1 : t.Along { t with rest := r', col := t.col + 2 } := ⟨rfl, rfl, ['@', '@'], by simp [hr], by simp, rfl⟩
            have h1 := h1.trans (consumeWs_along env _)
            obtain ⟨b, w1, w2⟩ := consumeWs_blanks env { t with rest := r', col := t.col + 2 }
            cases hm : parseMoney env (consumeWs env { t with rest := r', col := t.col + 2 }) with
            | mk q1 t1 =>
              rw [hm] at h
              cases q1 with
              | error e => cases h
              | ok m =>
                have hal := parseMoney_along ha (consumeWs env { t with rest := r', col := t.col + 2 })
                rw [hm] at hal
                exact go .totalCost m.1 m.2 _ t1 b (by rw [hr]; show _ = ['@', '@'] ++ b ++ _; rw [List.append_assoc, ← w1]; rfl) w2
                  (endsBlanks_consumeWs env _) hm (h1.trans hal) (by simp) (by simp) (by simp) (by rw [← hp] at h; exact h)
          · simp only [if_neg hd] at h
            have h1 := (one hr (by decide)).trans (consumeWs_along env _)
            obtain ⟨b, w1, w2⟩ := consumeWs_blanks env { t with rest := d :: r', col := t.col + 1 }
            cases hm : parseMoney env (consumeWs env { t with rest := d :: r', col := t.col + 1 }) with
            | mk q1 t1 =>
              rw [hm] at h
              cases q1 with
              | error e => cases h
              | ok m =>
                have hal := parseMoney_along ha (consumeWs env { t with rest := d :: r', col := t.col + 1 })
                rw [hm] at hal
                exact go .unitCost m.1 m.2 _ t1 b (by rw [hr]; show _ = ['@'] ++ b ++ _; rw [List.append_assoc, ← w1]; rfl) w2
                  (endsBlanks_consumeWs env _) hm (h1.trans hal) (by simp) (by simp) (fun _ => by
                    rw [← w1]; simpa using hd) (by rw [← hp] at h; exact h)
    · next c r n1 n2 n3 n4 n5 hr =>
      cases hm : parseMoney env t with
      | mk q1 t1 =>
        have hal := parseMoney_along ha t
        rw [hm] at hal
        rw [hm] at h
        cases q1 with
        | ok m =>
          refine go .amount m.1 m.2 t t1 [] rfl (blanks_nil _) hbl hm hal (by simp) (fun _ => ?_) (by simp) h
          rw [hr]
          simp only [List.head?_cons, ne_eq, Option.some.injEq, List.mem_cons, List.not_mem_nil, or_false]
          rintro x (rfl | rfl | rfl | rfl) he
          · exact n3 he
          · exact n4 he
          · exact n5 he
          · exact n2 he
        | error e =>
          simp only at h
          split at h
          · next htt =>
            split at h
            · cases h
            · next hl =>
              obtain ⟨pre, p1, p2, _⟩ := hal.rest
              obtain ⟨v, v1, v2⟩ := money_fails ha hbl (by rw [hr]; simp) hm
              have hhd : ∀ {l : Str}, (v ++ l).head? = some c → ∀ x ∈ ['(', '=', '@', ';', '\n'], (v ++ l).head? ≠ some x := by
                intro l hl x hx hx'
                rw [hl] at hx'
                simp only [Option.some.injEq] at hx'
                subst hx'
                simp only [List.mem_cons, List.not_mem_nil, or_false] at hx
                rcases hx with hx | hx | hx | hx | hx
                · exact n3 hx
                · exact n4 hx
                · exact n5 hx
                · exact n2 hx
                · exact n1 hx
              rcases getLine_cases t1 with ⟨k1, k2⟩ | ⟨l, r', k1, k2, k3⟩
              · obtain ⟨a0, ha0⟩ := hs
                have e1 : (getLine t1).1 = t1.rest := by
                  obtain ⟨l', ⟨z1, z2⟩, z3, _⟩ := line_takes (t := t1)
                  rw [z3]
                  rcases z2 with z2 | ⟨z2, _⟩
                  · rw [z2] at k1; simp at k1
                  · exact z2.symm
                have hne : v ++ t1.rest ≠ [] := by rw [← v1, hr]; simp
                have ez : ∃ a z, v ++ t1.rest = a ++ [z] := ⟨_, _, (List.dropLast_append_getLast hne).symm⟩
                obtain ⟨a, z, ez⟩ := ez
                have ec : t1.content = (a0 ++ a) ++ [z] := by
                  rw [hal.content, ← ha0, v1, ez]; simp
                have e2 : ({ (getLine t1).2.unread with line := (getLine t1).2.line - 1 } : Tok) =
                    { t1 with rest := [z], line := t1.line - 1 } := by
                  simp only [k2, Tok.unread]
                  rw [ec]
                  simp
                rw [e1, e2] at h
                have hsf := (consumeWs_step env { t1 with rest := [z], line := t1.line - 1 }).suffix ⟨a0 ++ a, ec.symm⟩
                obtain ⟨⟨ps, cs, i1, i2⟩, i3⟩ := ih _ _ hsf (endsBlanks_consumeWs env _) q t' h
                obtain ⟨b, w1, w2⟩ := consumeWs_blanks env { t1 with rest := [z], line := t1.line - 1 }
                have ev : v = pre := List.append_cancel_right (v1.symm.trans p1)
                refine ⟨⟨.expr t1.rest :: ps, cs, ?_, by rw [i2]; rfl⟩, i3⟩
                rw [v1]
                refine .last (by rw [htt]; rfl) v2 (by rw [ev]; simpa using ⟨p2, k1⟩) (hhd (by rw [← v1, hr]; rfl)) ?_ hne w2
                  (endsBlanks_consumeWs env _) i1
                rw [← w1, ez]
                simp
              · obtain ⟨a0, ha0⟩ := hal.step.suffix hs
                have e1 : (getLine t1).1 = l := by
                  obtain ⟨l', ⟨z1, z2⟩, z3, _⟩ := line_takes (t := t1)
                  rw [z3]
                  rw [k3, k1] at z2
                  rcases z2 with z2 | ⟨z2, _⟩
                  · exact (List.append_cancel_right z2).symm
                  · rw [← z2] at z1; simp at z1
                have e2 : ({ (getLine t1).2.unread with line := (getLine t1).2.line - 1 } : Tok) =
                    { t1 with rest := '\n' :: r', line := t1.line, col := 0 } := by
                  simp only [k3, Tok.unread]
                  rw [drop_suffix_one (l := a0 ++ l) (x := '\n') (by rw [← ha0, k1]; simp)]
                  simp
                have e3 : consumeWs env { t1 with rest := '\n' :: r', line := t1.line, col := 0 } =
                    { t1 with rest := '\n' :: r', line := t1.line, col := 0 } := by
                  simp [consumeWs, Env.blank]
                rw [e1, e2, e3] at h
                obtain ⟨h7, rfl⟩ := amounts_nl rfl h
                cases h7
                refine ⟨⟨[.expr l], [], ?_, by simp [Piece.set]⟩, .inr (.inl rfl)⟩
                have ev : v = pre := List.append_cancel_right (v1.symm.trans p1)
                subst ev
                rw [show t1.rest = l ++ '\n' :: r' from k1] at v1 v2
                have hd : (v ++ l ++ '\n' :: r').head? = some c := by
                  rw [List.append_assoc, ← v1, hr]; rfl
                have hne : v ++ l ≠ [] := by
                  intro h0
                  rw [h0] at hd
                  exact n1 (by simpa using hd.symm)
                rw [v1, ← List.append_assoc]
                refine .line (by rw [htt]; rfl) v2 (by simpa using ⟨p2, k2⟩) (hhd ?_) hne
                rw [List.head?_append_of_ne_nil _ hne] at hd
                exact hd
          · cases h

theorem blanks_white {env : Env} {b s : Str} (h : ∀ c ∈ b, env.ws c = true) (hn : '\n' ∉ s) (hs : ∀ c ∈ b, c ∈ s) : Blanks env b :=
  fun c hc => ⟨h c hc, fun e => hn (e ▸ hs c hc)⟩

/-- What the name of an account is made of. -/
theorem accountAux_reads {env : Env} (ha : env.AsciiChars) (s : Str) : ∀ (line col : Nat) {name rest : Str}
    {stop : AccountEnd} {line' col' : Nat}, accountAux env.ws s line col = some (name, stop, rest, line', col') →
    ('\t' ∉ name ∧ '\n' ∉ name ∧ (∀ pre x y post, name = pre ++ x :: y :: post → env.ws x = true → env.ws y = false) ∧
      (∀ c, name.getLast? = some c → env.ws c = false)) ∧
    ((stop = .line ∧ s = name ++ rest ∧ rest.head? = some '\n') ∨
      (stop = .more ∧ ∃ sep, s = name ++ sep ++ rest ∧
        (sep = ['\t'] ∨ ∃ x y, sep = [x, y] ∧ env.ws x = true ∧ x ≠ '\n' ∧ x ≠ '\t' ∧ env.ws y = true))) := by
  have wnl : env.ws '\n' = true := ha.wsT (by decide) (by decide)
  have wtb : env.ws '\t' = true := ha.wsT (by decide) (by decide)
  have step : ∀ (c : Char) (name : Str), env.ws c = false → ('\t' ∉ name ∧ '\n' ∉ name ∧
      (∀ pre x y post, name = pre ++ x :: y :: post → env.ws x = true → env.ws y = false) ∧
      (∀ c, name.getLast? = some c → env.ws c = false)) →
      ('\t' ∉ c :: name ∧ '\n' ∉ c :: name ∧
      (∀ pre x y post, c :: name = pre ++ x :: y :: post → env.ws x = true → env.ws y = false) ∧
      (∀ d, (c :: name).getLast? = some d → env.ws d = false)) := by
    rintro c name hc ⟨h1, h2, h3, h4⟩
    have c1 : '\t' ≠ c := by rintro rfl; rw [wtb] at hc; cases hc
    have c2 : '\n' ≠ c := by rintro rfl; rw [wnl] at hc; cases hc
    refine ⟨by simp [h1, c1], by simp [h2, c2], ?_, ?_⟩
    · intro pre x y post e hx
      cases pre with
      | nil =>
        obtain ⟨rfl, _⟩ := List.cons.inj e
        rw [hc] at hx; cases hx
      | cons z pre => exact h3 pre x y post (List.cons.inj e).2 hx
    · intro d hd
      cases name with
      | nil => simp at hd; rw [← hd]; exact hc
      | cons z name => rw [List.getLast?_cons_cons] at hd; exact h4 d hd
  induction s using List.twoStepInduction with
  | nil => intro line col name rest stop line' col' h; cases h
  | singleton c =>
    intro line col name rest stop line' col' h
    rw [accountAux.eq_def] at h
    simp only at h
    split at h
    · cases h
    · split at h
      · next hc => subst hc; cases h; exact ⟨by simp, .inl ⟨rfl, rfl, rfl⟩⟩
      · split at h
        · next hc => subst hc; cases h; exact ⟨by simp, .inr ⟨rfl, ['\t'], rfl, .inl rfl⟩⟩
        · cases h
  | cons_cons c d r ih0 ih1 =>
    intro line col name rest stop line' col' h
    rw [accountAux.eq_def] at h
    simp only at h
    split at h
    · next hc =>
      obtain ⟨⟨name', stop', rest', l', c'⟩, h1, h2⟩ := Option.map_eq_some_iff.mp h
      cases h2
      obtain ⟨e1, e2⟩ := ih1 _ _ _ h1
      refine ⟨step c _ hc e1, ?_⟩
      rcases e2 with ⟨f1, f2, f3⟩ | ⟨f1, sep, f2, f3⟩
      · exact .inl ⟨f1, by rw [f2]; rfl, f3⟩
      · exact .inr ⟨f1, sep, by rw [f2]; simp, f3⟩
    · next hw =>
      have hw : env.ws c = true := by simpa using hw
      split at h
      · next hc => subst hc; cases h; exact ⟨by simp, .inl ⟨rfl, rfl, rfl⟩⟩
      · next hn =>
        split at h
        · next hc => subst hc; cases h; exact ⟨by simp, .inr ⟨rfl, ['\t'], rfl, .inl rfl⟩⟩
        · next ht =>
          split at h
          · next hd => cases h; exact ⟨by simp, .inr ⟨rfl, [c, d], rfl, .inr ⟨c, d, rfl, hw, hn, ht, hd⟩⟩⟩
          · next hd =>
            have hd : env.ws d = false := by simpa using hd
            obtain ⟨⟨name', stop', rest', l', c'⟩, h1, h2⟩ := Option.map_eq_some_iff.mp h
            cases h2
            obtain ⟨e1, e2⟩ := ih0 _ _ h1
            obtain ⟨g1, g2, g3, g4⟩ := step d _ hd e1
            refine ⟨⟨?_, ?_, ?_, ?_⟩, ?_⟩
            · rw [List.mem_cons, not_or]; exact ⟨Ne.symm ht, g1⟩
            · rw [List.mem_cons, not_or]; exact ⟨Ne.symm hn, g2⟩
            · intro pre x y post e hx
              cases pre with
              | nil =>
                obtain ⟨_, e⟩ := List.cons.inj e
                obtain ⟨rfl, _⟩ := List.cons.inj e
                exact hd
              | cons z pre => exact g3 pre x y post (List.cons.inj e).2 hx
            · intro z hz
              rw [List.getLast?_cons_cons] at hz
              exact g4 z hz
            · rcases e2 with ⟨f1, f2, f3⟩ | ⟨f1, sep, f2, f3⟩
              · exact .inl ⟨f1, by rw [f2]; rfl, f3⟩
              · exact .inr ⟨f1, sep, by rw [f2]; simp, f3⟩

/-- What a name stands for. -/
theorem accountKind_reads {env : Env} {name a : Str} {k : Kind} (h : accountKind env name = .ok (.ok (a, k)))
    (hn : AccountName env name) (hh : ∀ c, name.head? = some c → env.numeric c = false ∧ c ≠ ';') : WritesAccount env name a k := by
  have hnl := hn.2.2.2.1
  have inner : ∀ (x y : Char) (s : Str), x ≠ y → name = x :: s → name.getLast? = some y →
      ∃ b b', name = x :: b ++ trim env (name.dropLast.drop 1) ++ b' ++ [y] ∧ Blanks env b ∧ Blanks env b' ∧
        Trimmed env (trim env (name.dropLast.drop 1)) := by
    intro x y s hxy hs hl
    have hd : name = name.dropLast ++ [y] := by
      have h0 : name ≠ [] := hn.1
      have := List.dropLast_append_getLast h0
      rw [List.getLast?_eq_some_getLast h0] at hl
      simp only [Option.some.injEq] at hl
      rw [hl] at this
      exact this.symm
    have hx : name.dropLast = x :: name.dropLast.drop 1 := by
      cases h : name.dropLast with
      | nil =>
        rw [h, hs] at hd
        simp at hd
        exact absurd hd.1 hxy
      | cons z r =>
        rw [h, hs] at hd
        simp at hd
        simp [hd.1]
    obtain ⟨b, b', e1, e2, e3, e4⟩ := trim_split env (name.dropLast.drop 1)
    have hm : ∀ c ∈ name.dropLast.drop 1, c ∈ name := fun c hc => List.mem_of_mem_dropLast (List.mem_of_mem_drop hc)
    refine ⟨b, b', ?_, blanks_white e2 hnl (fun c hc => hm c (by rw [e1]; simp [hc])),
      blanks_white e3 hnl (fun c hc => hm c (by rw [e1]; simp [hc])), e4⟩
    conv_lhs => rw [hd, hx, e1]
    simp
  unfold accountKind at h
  split at h
  · cases h
  · next c s =>
    split at h
    · cases h
    · next h128 =>
      split at h
      · next hc =>
        subst hc
        split at h
        · next hl =>
          obtain ⟨b, b', e1, e2, e3, e4⟩ := inner '(' ')' s (by decide) rfl hl
          cases h
          have := @WritesAccount.virt env b _ b' (e1 ▸ hn) e2 e3 e4
          rw [← e1] at this
          exact this
        · cases h
      · next hc =>
        split at h
        · next hc' =>
          subst hc'
          split at h
          · next hl =>
            obtain ⟨b, b', e1, e2, e3, e4⟩ := inner '[' ']' s (by decide) rfl hl
            cases h
            have := @WritesAccount.virtBal env b _ b' (e1 ▸ hn) e2 e3 e4
            rw [← e1] at this
            exact this
          · cases h
        · next hc' =>
          cases h
          refine .real hn ?_
          intro x hx
          obtain ⟨k1, k2⟩ := hh x hx
          simp only [List.head?_cons, Option.some.injEq] at hx
          subst hx
          exact ⟨by omega, k1, by simp [hc, hc', k2]⟩

/-- A posting that is read. -/
theorem posting_takes {env : Env} (ha : env.AsciiChars) (fuel : Nat) (tt : TType) (payee : Option Str) {t : Tok} {c : Char} {r : Str}
    (hr : t.rest = c :: r) (hc : env.ws c = false) (hn : env.numeric c = false) (h0 : c ≠ ';') (hs : t.rest <:+ t.content)
    {q : RawPosting} {t' : Tok}
    (h : parsePosting env fuel tt payee t = .ok (.ok q, t')) :
    TakesPosting env (tt == .automated) payee t.rest q t'.rest ∧ (t'.rest = [] ∨ t'.rest.head? = some '\n' ∨ t'.col = 0) := by
  unfold parsePosting at h
  cases hacc : accountAux env.ws t.rest t.line t.col with
  | none => rw [hacc] at h; cases h
  | some y =>
    obtain ⟨name, stop, rest, line, col⟩ := y
    rw [hacc] at h
    simp only at h
    obtain ⟨⟨a1, a2, a3, a4⟩, a5⟩ := accountAux_reads ha _ _ _ hacc
    cases hk : accountKind env name with
    | error e => rw [hk] at h; cases h
    | ok k =>
      rw [hk] at h
      cases k with
      | error e => cases h
      | ok k =>
        obtain ⟨account, kind⟩ := k
        simp only at h
        have hne : name ≠ [] := by rintro rfl; cases hk
        have hhead : ∀ x, name.head? = some x → x = c := by
          intro x hx
          have : t.rest.head? = some x := by
            rcases a5 with ⟨_, e, _⟩ | ⟨_, sep, e, _⟩
            · rw [e, List.head?_append, hx]; rfl
            · rw [e, List.append_assoc, List.head?_append, hx]; rfl
          rw [hr] at this
          simp at this
          exact this.symm
        have hw : WritesAccount env name account kind := accountKind_reads hk
          ⟨hne, ⟨fun x hx => by rw [hhead x hx]; exact hc, a4⟩, a1, a2, a3⟩ (fun x hx => by rw [hhead x hx]; exact ⟨hn, h0⟩)
        rcases a5 with ⟨rfl, e, e'⟩ | ⟨rfl, sep, e, e'⟩
        · simp only [if_true] at h
          cases h
          cases rest with
          | nil => cases e'
          | cons x r' =>
            simp only [List.head?_cons, Option.some.injEq] at e'
            subst e'
            refine ⟨?_, .inr (.inl rfl)⟩
            rw [e]
            exact .account hw
        · rw [if_neg (by simp)] at h
          obtain ⟨b, w1, w2⟩ := consumeWs_blanks env { t with rest := rest, line := line, col := col }
          have hs' : (consumeWs env { t with rest := rest, line := line, col := col }).rest <:+ t.content := by
            refine List.IsSuffix.trans ⟨name ++ sep ++ b, ?_⟩ hs
            rw [e, List.append_assoc, ← w1]
          obtain ⟨⟨ps, cs, i1, i2⟩, i3⟩ := amounts_takes ha tt fuel _ _ hs' (endsBlanks_consumeWs env _) q t' h
          refine ⟨?_, i3⟩
          have w1' : rest = b ++ (consumeWs env { t with rest := rest, line := line, col := col }).rest := w1
          rw [i2, e, w1', ← List.append_assoc]
          exact .amounts hw e' w2 (endsBlanks_consumeWs env _) i1

/-! ### Indented lines -/

/-- The tokenizer is at the end of a line, or knows whether it is at the start of one. -/
def Stands (within : Bool) (t : Tok) : Prop := t.rest = [] ∨ t.rest.head? = some '\n' ∨ (t.col = 0 ↔ within = false)

theorem Stands.of {t : Tok} (h : t.rest = [] ∨ t.rest.head? = some '\n' ∨ t.col = 0) : Stands false t := by
  rcases h with h | h | h
  · exact .inl h
  · exact .inr (.inl h)
  · exact .inr (.inr (by simp [h]))

theorem Stands.line {t : Tok} (h : t.rest = [] ∨ t.col = 0) : Stands false t := by
  rcases h with h | h
  · exact .inl h
  · exact .inr (.inr (by simp [h]))

theorem columnOf_no_nl {s : Str} (h : '\n' ∉ s) : columnOf s = s.length := by
  have := columnOf_append (read := []) h
  simpa [columnOf] using this

theorem columnOf_cons {c : Char} {s : Str} (h : '\n' ∈ s) : columnOf (c :: s) = columnOf s := by
  unfold columnOf
  rw [List.reverse_cons, List.takeWhile_append]
  rw [if_neg]
  intro hl
  have := List.takeWhile_prefix (p := (· != '\n')) (l := s.reverse)
  have := this.eq_of_length hl
  have h2 := List.all_takeWhile (p := (· != '\n')) (l := s.reverse)
  rw [this] at h2
  have := List.all_eq_true.mp h2 '\n' (by simpa using h)
  simp at this

theorem wsLinesAux_reads {env : Env} (ha : env.AsciiChars) (s : Str) : ∀ (line col : Nat),
    ∃ w, s = w ++ (wsLinesAux env.ws s line col).1 ∧ White env w ∧
      (∀ c, (wsLinesAux env.ws s line col).1.head? = some c → env.ws c = false) ∧
      (wsLinesAux env.ws s line col).2.2 = if '\n' ∈ w then columnOf w else col + w.length := by
  have wnl : env.ws '\n' = true := ha.wsT (by decide) (by decide)
  induction s with
  | nil => intro line col; exact ⟨[], rfl, (by intro c hc; cases hc), by simp [wsLinesAux], by simp [wsLinesAux]⟩
  | cons c s ih =>
    intro line col
    rw [wsLinesAux]
    split
    · next hc =>
      subst hc
      obtain ⟨w, h1, h2, h3, h4⟩ := ih (line + 1) 0
      refine ⟨'\n' :: w, by rw [List.cons_append, ← h1], ?_, h3, ?_⟩
      · intro x hx
        rcases List.mem_cons.mp hx with rfl | hx
        · exact wnl
        · exact h2 x hx
      · rw [h4]
        simp only [List.mem_cons, true_or, if_true]
        split
        · next hw => rw [columnOf_cons hw]
        · next hw =>
          have := columnOf_append (read := ['\n']) hw
          rw [show columnOf ['\n'] = 0 from columnOf_nl []] at this
          exact this.symm
    · next hc =>
      split
      · next hw =>
        have hw : env.ws c = true := by
          rcases hw with h | h
          · exact h
          · rw [h]; exact ha.wsT (by decide) (by decide)
        obtain ⟨w, h1, h2, h3, h4⟩ := ih line (col + 1)
        refine ⟨c :: w, by rw [List.cons_append, ← h1], ?_, h3, ?_⟩
        · intro x hx
          rcases List.mem_cons.mp hx with rfl | hx
          · exact hw
          · exact h2 x hx
        · rw [h4]
          simp only [List.mem_cons, Ne.symm hc, false_or]
          split
          · next hw => rw [columnOf_cons hw]
          · rw [List.length_cons]; omega
      · next hw =>
        refine ⟨[], rfl, (by intro c hc; cases hc), ?_, by simp⟩
        intro x hx
        simp only [List.head?_cons, Option.some.injEq] at hx
        subst hx
        simp only [not_or, Bool.not_eq_true] at hw
        exact hw.1

/-- The white space before the next thing. -/
theorem wsLines_reads {env : Env} (ha : env.AsciiChars) {t t' : Tok} {lt : LineType} {within : Bool} (h : wsLines env t = (t', lt))
    (ht : Stands within t) : ∃ w, t.rest = w ++ t'.rest ∧ White env w ∧ (∀ c, t'.rest.head? = some c → env.ws c = false) ∧
      (lt = .indented → Indents within w ∧ t'.rest ≠ [] ∧ t'.col ≠ 0) ∧
      (lt = .blank → (t'.rest = [] ∨ ¬ Indents within w) ∧ Stands false t') := by
  have wnl : env.ws '\n' = true := ha.wsT (by decide) (by decide)
  obtain ⟨w, h1, h2, h3, h4⟩ := wsLinesAux_reads ha t.rest t.line t.col
  simp only [wsLines, Prod.mk.injEq] at h
  obtain ⟨rfl, h5⟩ := h
  have hi : (wsLinesAux env.ws t.rest t.line t.col).1 ≠ [] →
      ((wsLinesAux env.ws t.rest t.line t.col).2.2 ≠ 0 ↔ Indents within w) := by
    intro hne
    rw [h4]
    unfold Indents
    split
    · next hw => simp [hw]
    · next hw =>
      rw [columnOf_no_nl hw]
      simp only [hw, not_false_eq_true, and_true]
      rcases ht with ht | ht | ht
      · exact absurd (List.append_eq_nil_iff.mp (h1.symm.trans ht)).2 hne
      · exfalso
        rw [h1] at ht
        cases w with
        | nil =>
          have := h3 '\n' ht
          rw [wnl] at this; cases this
        | cons x w => simp at ht; exact hw (by simp [ht])
      · cases within with
        | false => simp at ht; rw [ht]; simp
        | true => simp at ht; simp; omega
  refine ⟨w, h1, h2, h3, ?_, ?_⟩
  · intro hl
    rw [hl] at h5
    split at h5
    · next hh => exact ⟨(hi hh.1).mp hh.2, hh.1, hh.2⟩
    · cases h5
  · intro hl
    rw [hl] at h5
    split at h5
    · cases h5
    · next hh =>
      by_cases h0 : (wsLinesAux env.ws t.rest t.line t.col).1 = []
      · exact ⟨.inl h0, .inl h0⟩
      · have : (wsLinesAux env.ws t.rest t.line t.col).2.2 = 0 := by
          by_contra hc
          exact hh ⟨h0, hc⟩
        refine ⟨.inr (fun hx => (hi h0).mpr hx this), .inr (.inr (by simp [this]))⟩

/-- The lines of a transaction. -/
theorem txnLines_takes {env : Env} (ha : env.AsciiChars) (fuel : Nat) : ∀ (n : Nat) (txn : Txn RawPosting) (t : Tok),
    t.rest <:+ t.content → Stands false t →
    ∀ txn' t', txnLines env fuel n txn t = .ok (txn', t') →
      ∃ xs, TakesIndented env (TakesTxnLine env (txn.ttype == .automated) txn.payee) false t.rest xs t'.rest ∧
        txn' = xs.foldl addLine txn ∧ Stands false t' := by
  intro n
  induction n with
  | zero => intro txn t _ _ txn' t' h; cases h
  | succ n ih =>
    intro txn t hs hst txn' t' h
    rw [txnLines] at h
    cases hw : wsLines env t with
    | mk t1 lt =>
      rw [hw] at h
      have hstep := wsLines_step' hw
      obtain ⟨w, w1, w2, w3, w4, w5⟩ := wsLines_reads ha hw hst
      cases lt with
      | blank =>
        cases h
        obtain ⟨k1, k2⟩ := w5 rfl
        exact ⟨[], by rw [w1]; exact .done w2 k1 w3, rfl, k2⟩
      | indented =>
        simp only at h
        obtain ⟨k1, k2, k3⟩ := w4 rfl
        cases hr : t1.rest with
        | nil => exact absurd hr k2
        | cons c r =>
          rw [hr] at h
          simp only at h
          have hc : env.ws c = false := w3 c (by rw [hr]; rfl)
          have hcn : c ≠ '\n' := by
            rintro rfl
            rw [ha.wsT (by decide) (by decide)] at hc; cases hc
          -- going on after a line
          have go : ∀ (x : TxnLine) (t2 : Tok), t.Weak t2 → Stands false t2 →
              TakesTxnLine env (txn.ttype == .automated) txn.payee t1.rest x false t2.rest →
              (addLine txn x).ttype = txn.ttype → (addLine txn x).payee = txn.payee →
              txnLines env fuel n (addLine txn x) t2 = .ok (txn', t') →
              ∃ xs, TakesIndented env (TakesTxnLine env (txn.ttype == .automated) txn.payee) false t.rest xs t'.rest ∧
                txn' = xs.foldl addLine txn ∧ Stands false t' := by
            intro x t2 hwk hst2 hx e1 e2 h2
            obtain ⟨xs, i1, i2, i3⟩ := ih (addLine txn x) t2 (hwk.suffix hs) hst2 txn' t' h2
            rw [e1, e2] at i1
            refine ⟨x :: xs, ?_, i2, i3⟩
            rw [w1]
            exact .cons w2 k1 ⟨c, by rw [hr]; rfl, hc⟩ hx i1
          by_cases h1 : c = ';'
          · subst h1
            rw [if_pos rfl] at h
            obtain ⟨b, y, c1, c2, c3, c4, c5⟩ := comment_takes (env := env) hr hcn
            have hwk := (hstep.trans (commentTok_step (env := env) hr hcn).1).weak
            have hx : TakesTxnLine env (txn.ttype == .automated) txn.payee t1.rest (.comment (commentTok env t1).1) false
                (commentTok env t1).2.rest := by
              rw [c2]; exact .comment c1 c3 c4
            refine go (.comment (commentTok env t1).1) (commentTok env t1).2 hwk (.line c5) hx ?_ ?_ ?_
            · rw [addLine]; split <;> rfl
            · rw [addLine]; split <;> rfl
            · rw [addLine]
              split at h
              · next h0 => rw [if_pos h0]; exact h
              · next h0 => rw [if_neg h0]; exact h
          · rw [if_neg h1] at h
            by_cases h2 : env.numeric c = true
            · rw [if_pos h2] at h; cases h
            · rw [if_neg h2] at h
              have hs1 := hstep.suffix hs
              cases hp : parsePosting env fuel txn.ttype txn.payee t1 with
              | error e => rw [hp] at h; cases h
              | ok y =>
                obtain ⟨x, t2⟩ := y
                rw [hp] at h
                cases x with
                | error e => cases h
                | ok q =>
                  simp only at h
                  obtain ⟨p1, p2⟩ := posting_takes ha fuel txn.ttype txn.payee hr hc (by simpa using h2) h1 hs1 hp
                  exact go (.posting q) t2 (hstep.weak.trans ((parsePosting_step ha fuel txn.ttype txn.payee t1 hs1).2 _ _ hp).1)
                    (.of p2) (.posting p1) rfl rfl h

/-! ### Directives -/

/-- A word at this place. -/
theorem word_here {env : Env} (ha : env.AsciiChars) {t : Tok} (h : ∀ c, t.rest.head? = some c → env.ws c = false) :
    ∃ w b', t.rest = w ++ b' ++ (getString env t).2.rest ∧ Blanks env b' ∧ EndsBlanks env (getString env t).2.rest ∧
      ReadsWord env w (getString env t).1 (b' ++ (getString env t).2.rest) :=
  word_reads ha (fun c hc hw => by rw [h c hc] at hw; cases hw)

theorem value_takes {env : Env} (ha : env.AsciiChars) {t : Tok} (flags words : List Str)
    (h : ∀ c, t.rest.head? = some c → env.ws c = false) (hw : (getString env t).1 ∈ words) :
    TakesProperty env flags words t.rest (.value (getString env t).1 (lineTrim env (getString env t).2).1) false
      (lineTrim env (getString env t).2).2.rest ∧ Stands false (lineTrim env (getString env t).2).2 := by
  obtain ⟨w, b', e1, e2, e0, e3⟩ := word_here ha h
  obtain ⟨l, l1, l2, l3⟩ := line_takes (t := (getString env t).2)
  obtain ⟨b1, b2, t1, t2, t3, t4⟩ := trim_split env l
  refine ⟨?_, .line l3⟩
  have hl : (lineTrim env (getString env t).2).1 = trim env l := by rw [← l2]; rfl
  rw [hl, e1]
  have hm1 : ∀ c ∈ b1, c ∈ l := fun c hc => by rw [t1]; simp [hc]
  have hm2 : ∀ c ∈ b2, c ∈ l := fun c hc => by rw [t1]; simp [hc]
  refine .value e3 hw e2 e0 (b1 := b1) (b2 := b2) ?_ (blanks_white t2 l1.1 hm1) t4 (blanks_white t3 l1.1 hm2)
  rw [← t1]
  exact l1

theorem flag_takes {env : Env} (ha : env.AsciiChars) {t : Tok} (flags words : List Str)
    (h : ∀ c, t.rest.head? = some c → env.ws c = false) (hc : t.col ≠ 0) (hw : (getString env t).1 ∈ flags) :
    TakesProperty env flags words t.rest (.flag (getString env t).1) true (getString env t).2.rest ∧
      Stands true (getString env t).2 := by
  obtain ⟨w, b', e1, e2, e0, e3⟩ := word_here ha h
  obtain ⟨pre, _, _, e⟩ := (getString_along env t).rest
  refine ⟨?_, .inr (.inr (by simp; omega))⟩
  conv => rw [e1]
  exact .flag e3 hw e2 e0

theorem lineComment_takes {env : Env} {t : Tok} (flags words : List Str) (h : t.rest.head? = some ';') :
    TakesProperty env flags words t.rest .comment false (getLine t).2.rest ∧ Stands false (getLine t).2 := by
  obtain ⟨l, l1, l2, l3⟩ := line_takes (t := t)
  refine ⟨?_, .line l3⟩
  cases l with
  | nil =>
    obtain ⟨_, k | ⟨k, _⟩⟩ := l1
    · rw [k] at h; simp at h
    · rw [k] at h; simp at h
  | cons c l =>
    have : c = ';' := by
      obtain ⟨_, k | ⟨k, _⟩⟩ := l1
      · rw [k] at h; simpa using h
      · rw [k] at h; simpa using h
    subst this
    exact .comment l1

theorem tokComment_takes {env : Env} {t : Tok} (flags words : List Str) (h : t.rest.head? = some ';') :
    TakesProperty env flags words t.rest .comment false (commentTok env t).2.rest ∧ Stands false (commentTok env t).2 := by
  cases hr : t.rest with
  | nil => rw [hr] at h; cases h
  | cons c r =>
    rw [hr] at h
    simp only [List.head?_cons, Option.some.injEq] at h
    subst h
    obtain ⟨b, y, c1, c2, c3, c4, c5⟩ := comment_takes (env := env) hr (by decide)
    rw [hr] at c1
    exact ⟨.comment c1, .line c5⟩

/-- What a property adds to the definition of an account. -/
def addAccountProperty (a : AccountDef) : Property → AccountDef
  | .comment => a
  | .flag w => if w = "default".toList then { a with isDefault := true } else a
  | .value w x =>
    if w = "alias".toList then { a with aliases := setInsert a.aliases x }
    else if w = "payee".toList then { a with payees := a.payees ++ [x] } else a

theorem mem_distinct {x : Str} {l : List Str} : x ∈ distinct l ↔ x ∈ l := by
  have key : ∀ (l acc : List Str), x ∈ l.foldl (fun acc x => if x ∈ acc then acc else acc ++ [x]) acc ↔ x ∈ acc ∨ x ∈ l := by
    intro l
    induction l with
    | nil => intro acc; simp
    | cons y l ih =>
      intro acc
      rw [List.foldl_cons, ih]
      split
      · next h =>
        constructor
        · rintro (h' | h')
          · exact .inl h'
          · exact .inr (List.mem_cons_of_mem _ h')
        · rintro (h' | h')
          · exact .inl h'
          · rcases List.mem_cons.mp h' with rfl | h'
            · exact .inl h
            · exact .inr h'
      · simp [or_assoc]
  simp [distinct, key]

theorem propertyTexts_cons {word : String} {x : Property} {ps : List Property} {P : Str → Prop}
    (h : ∀ y, x = .value word.toList y → P y) (h' : ∀ y ∈ propertyTexts word ps, P y) : ∀ y ∈ propertyTexts word (x :: ps), P y := by
  intro y hy
  unfold propertyTexts at hy h'
  rw [List.filterMap_cons] at hy
  split at hy
  · exact h' y hy
  · next z hz =>
    rcases List.mem_cons.mp hy with rfl | hy
    · split at hz
      · next w u =>
        split at hz
        · next hw =>
          cases hz
          exact h y (by rw [hw])
        · cases hz
      · cases hz
    · exact h' y hy

theorem accountLines_takes {env : Env} (ha : env.AsciiChars) : ∀ (n : Nat) (a : AccountDef) (t : Tok) (within : Bool),
    Stands within t → ∀ a' t', accountLines env n a t = .ok (.ok a', t') →
      ∃ ps, TakesIndented env (TakesProperty env ["default".toList]
          ["note".toList, "isin".toList, "alias".toList, "check".toList, "assert".toList, "payee".toList]) within t.rest ps t'.rest ∧
        a' = ps.foldl addAccountProperty a ∧ Stands false t' ∧ ∀ x ∈ propertyTexts "payee" ps, env.rxOk x = true := by
  intro n
  induction n with
  | zero => intro a t _ _ a' t' h; cases h
  | succ n ih =>
    intro a t within hst a' t' h
    rw [accountLines] at h
    cases hw : wsLines env t with
    | mk t1 lt =>
      rw [hw] at h
      obtain ⟨w, w1, w2, w3, w4, w5⟩ := wsLines_reads ha hw hst
      cases lt with
      | blank =>
        cases h
        obtain ⟨k1, k2⟩ := w5 rfl
        exact ⟨[], by rw [w1]; exact .done w2 k1 w3, rfl, k2, by simp [propertyTexts]⟩
      | indented =>
        simp only at h
        obtain ⟨k1, k2, k3⟩ := w4 rfl
        have hd : ∃ c, t1.rest.head? = some c ∧ env.ws c = false := by
          cases hr : t1.rest with
          | nil => exact absurd hr k2
          | cons c r => exact ⟨c, rfl, w3 c (by rw [hr]; rfl)⟩
        have go : ∀ (x : Property) (next : Bool) (t2 : Tok), _ ∧ Stands next t2 →
            (∀ y, x = .value "payee".toList y → env.rxOk y = true) → accountLines env n (addAccountProperty a x) t2 = .ok (.ok a', t') →
            ∃ ps, TakesIndented env (TakesProperty env ["default".toList]
                ["note".toList, "isin".toList, "alias".toList, "check".toList, "assert".toList, "payee".toList]) within t.rest ps t'.rest ∧
              a' = ps.foldl addAccountProperty a ∧ Stands false t' ∧ ∀ x ∈ propertyTexts "payee" ps, env.rxOk x = true :=
          fun x next t2 (hx : TakesProperty env _ _ t1.rest x next t2.rest ∧ Stands next t2) hrx h2 => by
            obtain ⟨ps, i1, i2, i3, i4⟩ := ih (addAccountProperty a x) t2 next hx.2 a' t' h2
            exact ⟨x :: ps, by rw [w1]; exact .cons w2 k1 hd hx.1 i1, i2, i3, propertyTexts_cons hrx i4⟩
        split at h
        · next h1 => exact go .comment _ _ (lineComment_takes _ _ h1) (by simp) h
        · split at h
          · next h2 =>
            refine go (.value (getString env t1).1 (lineTrim env (getString env t1).2).1) _ _ (value_takes ha _ _ w3 ?_) ?_ ?_
            · rcases h2 with h2 | h2 | h2 | h2 <;> rw [h2] <;> simp
            · rcases h2 with h2 | h2 | h2 | h2 <;> rw [h2] <;> simp
            · have : addAccountProperty a (.value (getString env t1).1 (lineTrim env (getString env t1).2).1) = a := by
                unfold addAccountProperty
                rcases h2 with h2 | h2 | h2 | h2 <;> rw [h2] <;> rfl
              rw [this]
              exact h
          · split at h
            · next h3 =>
              refine go (.value (getString env t1).1 (lineTrim env (getString env t1).2).1) _ _ (value_takes ha _ _ w3 ?_) ?_ ?_
              · rw [h3]; simp
              · rw [h3]; simp
              · rw [h3]; exact h
            · split at h
              · next h4 =>
                split at h
                · next hok =>
                  refine go (.value (getString env t1).1 (lineTrim env (getString env t1).2).1) _ _ (value_takes ha _ _ w3 ?_) ?_ ?_
                  · rw [h4]; simp
                  · intro y hy; rw [← (Property.value.inj hy).2]; exact hok
                  · rw [h4]; exact h
                · cases h
              · split at h
                · next h5 =>
                  refine go (.flag (getString env t1).1) _ _ (flag_takes ha _ _ w3 k3 ?_) (by simp) ?_
                  · rw [h5]; simp
                  · rw [h5]; exact h
                · cases h

/-- What a property adds to the definition of a commodity. -/
def addCurrencyProperty (a : CurrencyDef) : Property → CurrencyDef
  | .comment => a
  | .flag w => if w = "default".toList then { a with isDefault := true } else a
  | .value w x => if w = "alias".toList then { a with aliases := setInsert a.aliases x } else a

theorem commodityLines_takes {env : Env} (ha : env.AsciiChars) : ∀ (n : Nat) (a : CurrencyDef) (t : Tok) (within : Bool),
    Stands within t → ∀ a' t', commodityLines env n a t = .ok (.ok a', t') →
      ∃ ps, TakesIndented env (TakesProperty env ["default".toList]
          ["note".toList, "alias".toList, "format".toList]) within t.rest ps t'.rest ∧
        a' = ps.foldl addCurrencyProperty a ∧ Stands false t' := by
  intro n
  induction n with
  | zero => intro a t _ _ a' t' h; cases h
  | succ n ih =>
    intro a t within hst a' t' h
    rw [commodityLines] at h
    cases hw : wsLines env t with
    | mk t1 lt =>
      rw [hw] at h
      obtain ⟨w, w1, w2, w3, w4, w5⟩ := wsLines_reads ha hw hst
      cases lt with
      | blank =>
        cases h
        obtain ⟨k1, k2⟩ := w5 rfl
        exact ⟨[], by rw [w1]; exact .done w2 k1 w3, rfl, k2⟩
      | indented =>
        simp only at h
        obtain ⟨k1, k2, k3⟩ := w4 rfl
        have hd : ∃ c, t1.rest.head? = some c ∧ env.ws c = false := by
          cases hr : t1.rest with
          | nil => exact absurd hr k2
          | cons c r => exact ⟨c, rfl, w3 c (by rw [hr]; rfl)⟩
        have go : ∀ (x : Property) (next : Bool) (t2 : Tok), _ ∧ Stands next t2 → commodityLines env n (addCurrencyProperty a x) t2 = .ok (.ok a', t') →
            ∃ ps, TakesIndented env (TakesProperty env ["default".toList]
                ["note".toList, "alias".toList, "format".toList]) within t.rest ps t'.rest ∧
              a' = ps.foldl addCurrencyProperty a ∧ Stands false t' :=
          fun x next t2 (hx : TakesProperty env _ _ t1.rest x next t2.rest ∧ Stands next t2) h2 => by
            obtain ⟨ps, i1, i2, i3⟩ := ih (addCurrencyProperty a x) t2 next hx.2 a' t' h2
            exact ⟨x :: ps, by rw [w1]; exact .cons w2 k1 hd hx.1 i1, i2, i3⟩
        split at h
        · next h1 => exact go .comment _ _ (tokComment_takes _ _ h1) h
        · split at h
          · next h2 =>
            refine go (.value (getString env t1).1 (lineTrim env (getString env t1).2).1) _ _ (value_takes ha _ _ w3 ?_) ?_
            · rcases h2 with h2 | h2 <;> rw [h2] <;> simp
            · have : addCurrencyProperty a (.value (getString env t1).1 (lineTrim env (getString env t1).2).1) = a := by
                unfold addCurrencyProperty
                rcases h2 with h2 | h2 <;> rw [h2] <;> rfl
              rw [this]
              exact h
          · split at h
            · next h3 =>
              refine go (.value (getString env t1).1 (lineTrim env (getString env t1).2).1) _ _ (value_takes ha _ _ w3 ?_) ?_
              · rw [h3]; simp
              · rw [h3]; exact h
            · split at h
              · next h5 =>
                refine go (.flag (getString env t1).1) _ _ (flag_takes ha _ _ w3 k3 ?_) ?_
                · rw [h5]; simp
                · rw [h5]; exact h
              · cases h

/-- What a property adds to the aliases of a payee. -/
def addPayeeProperty (a : List Str) : Property → List Str
  | .value w x => if w = "alias".toList then setInsert a x else a
  | _ => a

theorem payeeLines_takes {env : Env} (ha : env.AsciiChars) : ∀ (n : Nat) (a : List Str) (t : Tok) (within : Bool),
    Stands within t → ∀ a' t', payeeLines env n a t = .ok (.ok a', t') →
      ∃ ps, TakesIndented env (TakesProperty env []
          ["alias".toList]) within t.rest ps t'.rest ∧
        a' = ps.foldl addPayeeProperty a ∧ Stands false t' := by
  intro n
  induction n with
  | zero => intro a t _ _ a' t' h; cases h
  | succ n ih =>
    intro a t within hst a' t' h
    rw [payeeLines] at h
    cases hw : wsLines env t with
    | mk t1 lt =>
      rw [hw] at h
      obtain ⟨w, w1, w2, w3, w4, w5⟩ := wsLines_reads ha hw hst
      cases lt with
      | blank =>
        cases h
        obtain ⟨k1, k2⟩ := w5 rfl
        exact ⟨[], by rw [w1]; exact .done w2 k1 w3, rfl, k2⟩
      | indented =>
        simp only at h
        obtain ⟨k1, k2, k3⟩ := w4 rfl
        have hd : ∃ c, t1.rest.head? = some c ∧ env.ws c = false := by
          cases hr : t1.rest with
          | nil => exact absurd hr k2
          | cons c r => exact ⟨c, rfl, w3 c (by rw [hr]; rfl)⟩
        have go : ∀ (x : Property) (next : Bool) (t2 : Tok), _ ∧ Stands next t2 → payeeLines env n (addPayeeProperty a x) t2 = .ok (.ok a', t') →
            ∃ ps, TakesIndented env (TakesProperty env []
                ["alias".toList]) within t.rest ps t'.rest ∧
              a' = ps.foldl addPayeeProperty a ∧ Stands false t' :=
          fun x next t2 (hx : TakesProperty env _ _ t1.rest x next t2.rest ∧ Stands next t2) h2 => by
            obtain ⟨ps, i1, i2, i3⟩ := ih (addPayeeProperty a x) t2 next hx.2 a' t' h2
            exact ⟨x :: ps, by rw [w1]; exact .cons w2 k1 hd hx.1 i1, i2, i3⟩
        split at h
        · next h1 => exact go .comment _ _ (tokComment_takes _ _ h1) h
        · split at h
          · next h3 =>
            refine go (.value (getString env t1).1 (lineTrim env (getString env t1).2).1) _ _ (value_takes ha _ _ w3 ?_) ?_
            · rw [h3]; simp
            · rw [h3]; exact h
          · cases h

/-- A comment within a tag directive is met again and again. -/
theorem tagLines_comment {env : Env} : ∀ (n : Nat) {t : Tok}, t.rest.head? = some ';' → env.ws ';' = false → t.col ≠ 0 →
    tagLines env n t = .error .fuel := by
  intro n
  induction n with
  | zero => intro t _ _ _; rfl
  | succ n ih =>
    intro t h hws hc
    cases hr : t.rest with
    | nil => rw [hr] at h; cases h
    | cons c r =>
      rw [hr] at h
      simp only [List.head?_cons, Option.some.injEq] at h
      subst h
      have hw : wsLines env t = (t, .indented) := by
        unfold wsLines
        rw [hr, wsLinesAux, if_neg (by decide), if_neg (by simp [hws])]
        simp only [ne_eq, reduceCtorEq, not_false_eq_true, hc, and_self, if_true, Prod.mk.injEq, and_true]
        rw [← hr]
      rw [tagLines, hw]
      simp only
      rw [if_pos (by rw [hr]; rfl)]
      exact ih (by rw [hr]; rfl) hws hc

theorem tagLines_takes {env : Env} (ha : env.AsciiChars) : ∀ (n : Nat) (t : Tok) (within : Bool),
    Stands within t → ∀ u t', tagLines env n t = .ok (.ok u, t') →
      ∃ ps, TakesIndented env (TakesProperty env [] ["check".toList, "assert".toList]) within t.rest ps t'.rest ∧
        (∀ p ∈ ps, ∃ w x, p = .value w x) ∧ Stands false t' := by
  intro n
  induction n with
  | zero => intro t _ _ u t' h; cases h
  | succ n ih =>
    intro t within hst u t' h
    rw [tagLines] at h
    cases hw : wsLines env t with
    | mk t1 lt =>
      rw [hw] at h
      obtain ⟨w, w1, w2, w3, w4, w5⟩ := wsLines_reads ha hw hst
      cases lt with
      | blank =>
        cases h
        obtain ⟨k1, k2⟩ := w5 rfl
        exact ⟨[], by rw [w1]; exact .done w2 k1 w3, by simp, k2⟩
      | indented =>
        simp only at h
        obtain ⟨k1, k2, k3⟩ := w4 rfl
        have hd : ∃ c, t1.rest.head? = some c ∧ env.ws c = false := by
          cases hr : t1.rest with
          | nil => exact absurd hr k2
          | cons c r => exact ⟨c, rfl, w3 c (by rw [hr]; rfl)⟩
        split at h
        · next h1 =>
          rw [tagLines_comment n h1 (ha.wsF (by decide) (by decide)) k3] at h
          cases h
        · split at h
          · next h2 =>
            obtain ⟨v1, v2⟩ := value_takes ha [] ["check".toList, "assert".toList] w3 (by
              rcases h2 with h2 | h2 <;> rw [h2] <;> simp)
            obtain ⟨ps, i1, i2, i3⟩ := ih _ false v2 u t' h
            refine ⟨_ :: ps, by rw [w1]; exact .cons w2 k1 hd v1 i1, ?_, i3⟩
            intro p hp
            rcases List.mem_cons.mp hp with rfl | hp
            · exact ⟨_, _, rfl⟩
            · exact i2 p hp
          · cases h

theorem hasFlag_cons (w : String) (p : Property) (ps : List Property) :
    hasFlag w (p :: ps) = ((match p with | .flag x => x == w.toList | _ => false) || hasFlag w ps) := rfl

theorem addAccount_fold (ps : List Property) : ∀ (a : AccountDef), ps.foldl addAccountProperty a =
    { a with aliases := (propertyTexts "alias" ps).foldl setInsert a.aliases, payees := a.payees ++ propertyTexts "payee" ps,
             isDefault := a.isDefault || hasFlag "default" ps } := by
  induction ps with
  | nil => intro a; simp [propertyTexts, hasFlag]
  | cons p ps ih =>
    intro a
    rw [List.foldl_cons, ih]
    cases p with
    | comment => rfl
    | flag w =>
      rw [propertyTexts_flag, propertyTexts_flag, hasFlag_cons]
      simp only [addAccountProperty]
      split
      · next h => subst h; simp
      · next h => rw [beq_false_of_ne h, Bool.false_or]
    | value w x =>
      rw [propertyTexts_value, propertyTexts_value, hasFlag_cons]
      simp only [addAccountProperty, Bool.false_or]
      split
      · next h => subst h; simp
      · split
        · next h => subst h; simp
        · rfl

theorem addCurrency_fold (ps : List Property) : ∀ (a : CurrencyDef), ps.foldl addCurrencyProperty a =
    { a with aliases := (propertyTexts "alias" ps).foldl setInsert a.aliases,
             isDefault := a.isDefault || hasFlag "default" ps } := by
  induction ps with
  | nil => intro a; simp [propertyTexts, hasFlag]
  | cons p ps ih =>
    intro a
    rw [List.foldl_cons, ih]
    cases p with
    | comment => rfl
    | flag w =>
      rw [propertyTexts_flag, hasFlag_cons]
      simp only [addCurrencyProperty]
      split
      · next h => subst h; simp
      · next h => rw [beq_false_of_ne h, Bool.false_or]
    | value w x =>
      rw [propertyTexts_value, hasFlag_cons]
      simp only [addCurrencyProperty, Bool.false_or]
      split
      · next h => subst h; simp
      · rfl

theorem addPayee_fold (ps : List Property) : ∀ (a : List Str), ps.foldl addPayeeProperty a =
    (propertyTexts "alias" ps).foldl setInsert a := by
  induction ps with
  | nil => intro a; simp [propertyTexts]
  | cons p ps ih =>
    intro a
    rw [List.foldl_cons, ih]
    cases p with
    | comment => rfl
    | flag w => rfl
    | value w x =>
      rw [propertyTexts_value]
      simp only [addPayeeProperty]
      split <;> rfl

/-- The first line of a directive. -/
theorem directiveName_reads {word : Str} : ∀ (s x : Str), directiveName word s = some x →
    ∃ pre b, s = pre ++ word ++ b ++ x ∧ Spaces b ∧ b ≠ [] ∧ x.head? ≠ some ' ' ∧ ¬ word ++ [' '] <:+: pre ++ word := by
  intro s
  induction s with
  | nil => intro x h; cases h
  | cons c s ih =>
    intro x h
    rw [directiveName] at h
    split at h
    · next hp =>
      obtain ⟨r, hr⟩ := List.isPrefixOf_iff_prefix.mp hp
      cases h
      have e : (c :: s).drop word.length = ' ' :: r := by rw [← hr]; simp
      refine ⟨[], ((c :: s).drop word.length).takeWhile (· == ' '), ?_, ?_, ?_, ?_, ?_⟩
      · rw [List.append_assoc, List.takeWhile_append_dropWhile, e, ← hr]; simp
      · intro y hy
        have := List.all_eq_true.mp (List.all_takeWhile (p := (· == ' ')) (l := (c :: s).drop word.length)) y hy
        simpa using this
      · rw [e]; simp
      · intro hx
        have := List.head?_dropWhile_not (p := (· == ' ')) (l := (c :: s).drop word.length)
        rw [hx] at this
        simp at this
      · intro hi
        have := hi.length_le
        simp at this
    · next hp =>
      obtain ⟨pre, b, e1, e2, e3, e4, e5⟩ := ih x h
      refine ⟨c :: pre, b, by rw [e1]; simp, e2, e3, e4, ?_⟩
      intro hi
      rw [List.cons_append] at hi
      rcases List.infix_cons_iff.mp hi with hi | hi
      · apply hp
        rw [List.isPrefixOf_iff_prefix]
        refine hi.trans ⟨b ++ x, ?_⟩
        rw [e1]; simp
      · exact e5 hi

/-! ### Journals -/

theorem takesLine_head {s l r : Str} {c : Char} (h : TakesLine s l r) (hc : s.head? = some c) (hn : c ≠ '\n') : l.head? = some c := by
  obtain ⟨_, k | ⟨k, _⟩⟩ := h
  · rw [k] at hc
    cases l with
    | nil => simp at hc; exact absurd hc.symm hn
    | cons x l => exact hc
  · rw [k] at hc; exact hc

theorem takes_map {α β : Type} {x : PRes α} {f : α → β} {b : β} (h : x.map f = .ok b) : ∃ a, x = .ok a ∧ f a = b := by
  cases x with
  | error e => cases h
  | ok a => exact ⟨a, rfl, by simpa [Except.map] using h⟩

theorem takes_reported {α : Type} {x : PRes (Except Err α × Tok)} {a : α} {t : Tok} (h : reported x = .ok (a, t)) : x = .ok (.ok a, t) := by
  unfold reported at h
  split at h
  · cases h
  · cases h
  · cases h; rfl

theorem blanks_trim {env : Env} {l x : Str} (hn : '\n' ∉ l) (hs : x <:+ l) : ∃ b b', x = b ++ trim env x ++ b' ∧ Blanks env b ∧
    Blanks env b' ∧ Trimmed env (trim env x) := by
  obtain ⟨b, b', e1, e2, e3, e4⟩ := trim_split env x
  have hx : '\n' ∉ x := fun h => hn (hs.subset h)
  refine ⟨b, b', e1, blanks_white e2 hx (fun c hc => ?_), blanks_white e3 hx (fun c hc => ?_), e4⟩
  · rw [e1]; simp [hc]
  · rw [e1]; simp [hc]

/-- What an include directive reads: `included` is what the files contain, `told` is noted about them, `Q` holds of the directives. -/
def IncTakes (inc : Tok → PRes (ParsedLedger × Tok)) (incN : Tok → List Note) (included : Str → ParsedLedger) (told : Str → List Note)
    (Q : Str → Prop) : Prop :=
  ∀ t pl t', inc t = .ok (pl, t') →
    ∃ x, TakesLine t.rest ("include ".toList ++ x) t'.rest ∧ pl = included x ∧ incN t = told x ∧ Q x ∧ Stands false t'

/-- What is noted at an item, if the names of the ledger are known. -/
def plNotes (env : Env) (told : Str → List Note) (pl : ParsedLedger) : Block → List Note
  | .account a => insertNote env.lower pl.lists.accounts a (.account a)
  | .commodity c => insertNote env.lower pl.lists.commodities c (.commodity c)
  | .payee p => insertNote env.lower pl.lists.payees p (.payee p)
  | .incl x => told x
  | _ => []

/-- The same for all items. -/
def plNotesAll (env : Env) (included : Str → ParsedLedger) (told : Str → List Note) : ParsedLedger → List Block → List Note
  | _, [] => []
  | pl, b :: bs => plNotes env told pl b ++ plNotesAll env included told (addBlock env included pl b) bs

/-- An item that is read. -/
theorem item_takes {env : Env} (ha : env.AsciiChars) (fuel : Nat) {inc : Tok → PRes (ParsedLedger × Tok)} {incN : Tok → List Note}
    {included : Str → ParsedLedger} {told : Str → List Note} {Q : Str → Prop} (hi : IncTakes inc incN included told Q) {c : Char} {r : Str} (pl : ParsedLedger) {t : Tok}
    (hs : t.rest <:+ t.content) (hr : t.rest = c :: r) (hc : c ≠ '\n')
    {pl' : ParsedLedger} {t' : Tok} (h : item env fuel inc c pl t = .ok (pl', t')) :
    ∃ b, TakesItem env t.rest b t'.rest ∧ pl' = addBlock env included pl b ∧ itemNotes env fuel incN c pl t = plNotes env told pl b ∧
      (∀ x, b = .incl x → Q x) ∧ Stands false t' := by
  obtain ⟨l, l1, l2, l3⟩ := line_takes (t := t)
  have hhd : l.head? = some c := takesLine_head l1 (by rw [hr]; rfl) hc
  have hln : Stands false (getLine t).2 := .line l3
  have hlw := (getLine_step t)
  unfold item at h
  split at h
  · next hk =>
    cases h
    obtain ⟨b, y, c1, c2, c3, c4, c5⟩ := comment_takes (env := env) hr hc
    exact ⟨.comment y, .comment hk c1 c3 c4, by rw [c2]; rfl, by simp only [itemNotes, plNotes, hk, if_true], by simp, .line c5⟩
  · split at h
    · next hk =>
      obtain ⟨⟨txn, t2⟩, h1, h2⟩ := takes_map h
      cases h2
      unfold transactionTok at h1
      simp only at h1
      split at h1
      · cases h1
      · next t0 ht0 =>
        obtain ⟨k1, k2, k3, k4⟩ := parseHeader_inv ht0
        obtain ⟨xs, x1, x2, x3⟩ := txnLines_takes ha fuel fuel t0 _ (hlw.suffix hs) hln _ _ h1
        rw [addLines_eq xs t0 k4] at x2
        rw [l2] at ht0
        rw [k3] at x1
        exact ⟨.txn txn, by rw [x2]; exact .txn l1 ⟨c, hhd, hk⟩ ((parseHeader_iff ha).mp ht0) x1, rfl, by simp [itemNotes, plNotes, *], by simp, x3⟩
    · split at h
      · next hk =>
        subst hk
        obtain ⟨⟨txn, t2⟩, h1, h2⟩ := takes_map h
        cases h2
        unfold automatedTok at h1
        simp only at h1
        obtain ⟨d, hd⟩ : ∃ d, l = '=' :: d := by
          cases l with
          | nil => cases hhd
          | cons x d => simp at hhd; exact ⟨d, by rw [hhd]⟩
        rw [l2, hd] at h1
        simp only [List.dropWhile_cons, bne_self_eq_false, Bool.false_eq_true, if_false] at h1
        obtain ⟨xs, x1, x2, x3⟩ := txnLines_takes ha fuel fuel _ _ (hlw.suffix hs) hln _ _ h1
        rw [addLines_eq xs _ rfl] at x2
        refine ⟨.txn txn, ?_, rfl, by simp [itemNotes, plNotes, *], by simp, x3⟩
        rw [x2]
        rw [hd] at l1
        exact .auto l1 x1
      · split at h
        · next hk =>
          subst hk
          obtain ⟨⟨p, t2⟩, h1, h2⟩ := takes_map h
          cases h2
          obtain ⟨x, i1, i2, i5, i3, i4⟩ := hi _ _ _ h1
          exact ⟨.incl x, .incl i1, by rw [i2]; rfl, by simp [itemNotes, plNotes, *], by rintro y e; cases e; exact i3, i4⟩
        · split at h
          · next hk =>
            subst hk
            obtain ⟨⟨p, t2⟩, h1, h2⟩ := takes_map h
            cases h2
            have h1 := takes_reported h1
            unfold commodityTok at h1
            simp only at h1
            split at h1
            · cases h1
            · next n hn =>
              obtain ⟨ps, p1, p2, p3⟩ := commodityLines_takes ha _ _ _ false hln _ _ h1
              rw [addCurrency_fold, ← distinct_eq] at p2
              rw [l2] at hn
              refine ⟨.commodity p, ?_, rfl, by simp [itemNotes, plNotes, *], by simp, p3⟩
              rw [p2]
              obtain ⟨b, b', e, e1, e2, e3⟩ := trim_split env n
              rw [e] at hn
              exact .commodity l1 (parseCommodityName_iff.mp hn) e1 e3 e2 p1
          · split at h
            · next hk =>
              subst hk
              obtain ⟨⟨p, t2⟩, h1, h2⟩ := takes_map h
              cases h2
              have h1 := takes_reported h1
              unfold payeeTok at h1
              simp only at h1
              split at h1
              · cases h1
              · next n hn =>
                split at h1
                · cases h1
                · cases h1
                · next as t3 hp =>
                  split at h1
                  · next hok =>
                    cases h1
                    obtain ⟨ps, p1, p2, p3⟩ := payeeLines_takes ha _ _ _ false hln _ _ hp
                    rw [addPayee_fold, ← distinct_eq] at p2
                    rw [l2] at hn
                    obtain ⟨pre, b, d1, d2, d3, d4, d5⟩ := directiveName_reads _ _ hn
                    refine ⟨.payee _, ?_, rfl, by simp [itemNotes, plNotes, *], by simp, p3⟩
                    rw [p2] at hok ⊢
                    refine .payee l1 ⟨pre, b, d1, d2, d3, d4, hhd, d5⟩ p1 ?_
                    intro x hx
                    exact List.all_eq_true.mp hok x (mem_distinct.mpr hx)
                  · cases h1
            · split at h
              · next hk =>
                subst hk
                obtain ⟨⟨p, t2⟩, h1, h2⟩ := takes_map h
                cases h2
                have h1 := takes_reported h1
                unfold tagTok at h1
                simp only at h1
                split at h1
                · cases h1
                · next n hn =>
                  split at h1
                  · cases h1
                  · cases h1
                  · next u t3 hp =>
                    cases h1
                    obtain ⟨ps, p1, p2, p3⟩ := tagLines_takes ha _ _ false hln _ _ hp
                    rw [l2] at hn
                    obtain ⟨pre, b, d1, d2, d3, d4, d5⟩ := directiveName_reads _ _ hn
                    obtain ⟨b1, b2, e1, e2, e3, e4⟩ := blanks_trim (env := env) l1.1 (x := n) ⟨pre ++ "tag".toList ++ b, d1.symm⟩
                    have hd : ReadsDirective "tag".toList l (b1 ++ trim env n ++ b2) := by
                      rw [← e1]; exact ⟨pre, b, d1, d2, d3, d4, hhd, d5⟩
                    exact ⟨.tag _, .tag l1 hd e2 e4 e3 p1 p2, rfl, by simp [itemNotes, plNotes, *], by simp, p3⟩
              · split at h
                · next hk =>
                  subst hk
                  obtain ⟨⟨p, t2⟩, h1, h2⟩ := takes_map h
                  cases h2
                  have h9 := h1
                  have h1 := takes_reported h1
                  unfold accountTok at h1
                  simp only at h1
                  split at h1
                  · cases h1
                  · next n hn =>
                    obtain ⟨ps, p1, p2, p3, p4⟩ := accountLines_takes ha _ _ _ false hln _ _ h1
                    rw [addAccount_fold, ← distinct_eq] at p2
                    rw [l2] at hn
                    obtain ⟨pre, b, d1, d2, d3, d4, d5⟩ := directiveName_reads _ _ hn
                    obtain ⟨b1, b2, e1, e2, e3, e4⟩ := blanks_trim (env := env) l1.1 (x := n) ⟨pre ++ "account".toList ++ b, d1.symm⟩
                    have hd : ReadsDirective "account".toList l (b1 ++ trim env n ++ b2) := by
                      rw [← e1]; exact ⟨pre, b, d1, d2, d3, d4, hhd, d5⟩
                    refine ⟨.account p, ?_, rfl, by simp [itemNotes, plNotes, h9, ‹¬ env.numeric 'a' = true›], by simp, p3⟩
                    rw [p2]
                    exact .account l1 hd e2 e4 e3 p1 p4
                · split at h
                  · next hk =>
                    subst hk
                    obtain ⟨⟨p, t2⟩, h1, h2⟩ := takes_map h
                    cases h2
                    unfold priceTok at h1
                    simp only at h1
                    split at h1
                    · cases h1
                    · next p hp =>
                      cases h1
                      rw [l2] at hp
                      exact ⟨.price p, .price l1 (parsePrice_iff.mp hp), rfl, by simp [itemNotes, plNotes, *], by simp, hln⟩
                  · cases h

/-- The main loop. -/
theorem items_takes {env : Env} (ha : env.AsciiChars) (fuel : Nat) {inc : Tok → PRes (ParsedLedger × Tok)} {incN : Tok → List Note}
    {included : Str → ParsedLedger} {told : Str → List Note} {Q : Str → Prop} (hi : IncTakes inc incN included told Q) (his : IncStep inc) :
    ∀ (n : Nat) (pl : ParsedLedger) (t : Tok), t.rest <:+ t.content →
      Stands false t → ∀ pl', items env fuel inc n pl t = .ok pl' →
        ∃ bs, TakesJournal env t.rest bs ∧ pl' = bs.foldl (addBlock env included) pl ∧
          itemsNotes env fuel inc incN n pl t = plNotesAll env included told pl bs ∧ ∀ x, .incl x ∈ bs → Q x := by
  intro n
  induction n with
  | zero => intro pl t _ _ pl' h; cases h
  | succ n ih =>
    intro pl t hs hst pl' h
    rw [items] at h
    split at h
    · next h0 =>
      cases h
      rw [h0]
      exact ⟨[], .nil (by intro c hc; cases hc), rfl, by rw [itemsNotes, if_pos h0]; rfl, by simp⟩
    · next h0 =>
      cases hw : wsLines env t with
      | mk t1 lt =>
        rw [hw] at h
        have hstep := wsLines_step' hw
        obtain ⟨w, w1, w2, w3, w4, w5⟩ := wsLines_reads ha hw hst
        have hs1 := hstep.suffix hs
        cases lt with
        | indented => cases h
        | blank =>
          simp only at h
          obtain ⟨k1, k2⟩ := w5 rfl
          cases hr : t1.rest with
          | nil =>
            rw [hr] at h w1
            simp only at h
            rw [List.append_nil] at w1
            rw [w1]
            cases n with
            | zero => cases h
            | succ n =>
              rw [items, if_pos hr] at h
              cases h
              refine ⟨[], .nil w2, rfl, ?_, by simp⟩
              rw [itemsNotes, if_neg h0, hw]
              simp only [hr]
              rw [itemsNotes, if_pos hr]
              rfl
          | cons c r =>
            rw [hr] at h
            have hc : env.ws c = false := w3 c (by rw [hr]; rfl)
            have hcn : c ≠ '\n' := by
              rintro rfl
              rw [ha.wsT (by decide) (by decide)] at hc; cases hc
            simp only at h
            cases hit : item env fuel inc c pl t1 with
            | error e => rw [hit] at h; cases h
            | ok y =>
              obtain ⟨pl2, t2⟩ := y
              rw [hit] at h
              simp only at h
              obtain ⟨b, b1, b2, b5, b3, b4⟩ := item_takes ha fuel hi pl hs1 hr hcn hit
              have hst2 := ((item_step ha fuel his pl t1 hs1 hr hcn).2 _ _ hit).1
              obtain ⟨bs, i1, i2, i4, i3⟩ := ih pl2 t2 (hst2.suffix hs1) b4 pl' h
              refine ⟨b :: bs, ?_, by rw [i2, b2]; rfl, ?_, ?_⟩
              · rw [w1]
                refine .cons w2 ?_ ⟨c, by rw [hr]; rfl, hc⟩ b1 i1
                rcases k1 with k1 | k1
                · rw [hr] at k1; cases k1
                · by_contra hx
                  exact k1 (.inl hx)
              · rw [itemsNotes, if_neg h0, hw]
                simp only [hr, hit]
                rw [b5, i4, b2]
                rfl
              · intro x hx
                rcases List.mem_cons.mp hx with h | h
                · exact b3 x h.symm
                · exact i3 x h

theorem includeFiles_reads {tok : Str → PRes ParsedLedger} {content : Str → ParsedLedger} (hc : ∀ f pl, tok f = .ok pl → content f = pl)
    (l : List Str) : ∀ (pl pl' : ParsedLedger), includeFiles tok l pl = .ok pl' →
      pl' = l.foldl (fun pl f => pl.append (content f)) pl ∧ ∀ f ∈ l, tok f = .ok (content f) := by
  induction l with
  | nil => intro pl pl' h; cases h; exact ⟨rfl, by simp⟩
  | cons f l ih =>
    intro pl pl' h
    rw [includeFiles] at h
    cases hf : tok f with
    | error e => rw [hf] at h; cases h
    | ok x =>
      rw [hf] at h
      obtain ⟨h1, h2⟩ := ih _ _ h
      rw [List.foldl_cons, hc f x hf]
      refine ⟨h1, ?_⟩
      intro g hg
      rcases List.mem_cons.mp hg with rfl | hg
      · rw [hc g x hf]; exact hf
      · exact h2 g hg

theorem entryNotes_all {seen : List Str} (pattern : Str) : ∀ (es : List (Option Str)) (n : Nat), (∀ f, some f ∈ es → f ∉ seen) →
    entryNotes seen pattern n es = unreadable pattern n es := by
  intro es
  induction es with
  | nil => intro n _; rfl
  | cons e es ih =>
    intro n h
    have h' := ih (n + 1) (fun f hf => h f (List.mem_cons_of_mem _ hf))
    cases e with
    | none => rw [entryNotes, unreadable, h']
    | some f =>
      have hf : seen.contains f = false := by simpa using h f List.mem_cons_self
      rw [entryNotes, unreadable, hf, h']
      rfl

theorem includeFilesNotes_all {tok : Str → PRes ParsedLedger} {content : Str → ParsedLedger} (tokN : Str → List Note) : ∀ (l : List Str),
    (∀ f ∈ l, tok f = .ok (content f)) → includeFilesNotes tok tokN l = l.flatMap tokN := by
  intro l
  induction l with
  | nil => intro _; rfl
  | cons f l ih =>
    intro h
    rw [includeFilesNotes, h f List.mem_cons_self, List.flatMap_cons, ← ih (fun g hg => h g (List.mem_cons_of_mem _ hg))]

/-- What an include directive of a file reads. -/
theorem include_takes {fs : Files} {file : Str} {seen : List Str} {tok : Str → PRes ParsedLedger} {content : Str → ParsedLedger}
    (tokN : Str → List Note) {pattern : Str → Str} (hpt : ∀ x dir, fs.parent file = some dir →
      pattern x = (if dir = [] then ['.'] else dir) ++ '/' :: x) {entries : Str → List (Option Str)} (hc : ∀ f pl, tok f = .ok pl → content f = pl)
    (he : ∀ x dir es, fs.parent file = some dir → fs.glob ((if dir = [] then ['.'] else dir) ++ '/' :: x) = some es → entries x = es) :
    IncTakes (includeTok fs (some file) (file :: seen) tok) (includeNotes fs (some file) (file :: seen) tok tokN)
      (fun x => ((entries x).filterMap id).foldl (fun pl f => pl.append (content f)) {})
      (fun x => unreadable (pattern x) 0 (entries x) ++ ((entries x).filterMap id).flatMap tokN)
      (fun x => (∃ dir, fs.parent file = some dir ∧ fs.glob ((if dir = [] then ['.'] else dir) ++ '/' :: x) = some (entries x)) ∧
        (∀ f, some f ∈ entries x → f ≠ file ∧ f ∉ seen) ∧ ∀ f, some f ∈ entries x → tok f = .ok (content f)) := by
  intro t pl t' h
  unfold includeTok at h
  cases hcs : consumeStr "include ".toList t with
  | error e => rw [hcs] at h; cases h
  | ok t1 =>
    rw [hcs] at h
    simp only at h
    have hcs' := hcs
    unfold consumeStr at hcs
    split at hcs
    · next hp =>
      obtain ⟨r, hr⟩ := List.isPrefixOf_iff_prefix.mp hp
      cases hcs
      have e1 : t.rest.drop "include ".toList.length = r := by rw [← hr]; simp
      obtain ⟨x, x1, x2, x3⟩ := line_takes (t := { t with rest := t.rest.drop "include ".toList.length, col := t.col + "include ".toList.length })
      rw [x2] at h
      split at h
      · cases h
      · next pat hpat =>
        have hpat0 := hpat
        unfold includePattern at hpat
        simp only at hpat
        cases hd : fs.parent file with
        | none => rw [hd] at hpat; cases hpat
        | some dir =>
          rw [hd] at hpat
          simp only [Except.ok.injEq] at hpat
          have hpat : (if dir = [] then ['.'] else dir) ++ '/' :: x = pat := by rw [← hpat]; simp
          split at h
          · cases h
          · next es hg =>
            split at h
            · cases h
            · next hany =>
              obtain ⟨a, ha, hb⟩ := takes_map h
              cases hb
              have hes := he x dir es hd (by rw [hpat]; exact hg)
              obtain ⟨i1, i2⟩ := includeFiles_reads hc _ _ _ ha
              have hns : ∀ f, some f ∈ es → f ∉ file :: seen := by
                intro f hf hm
                apply hany
                rw [List.any_eq_true]
                exact ⟨f, List.mem_filterMap.mpr ⟨some f, hf, rfl⟩, by simpa using hm⟩
              refine ⟨x, ?_, ?_, ?_, ⟨⟨dir, rfl, ?_⟩, ?_, ?_⟩, .line x3⟩
              · obtain ⟨z1, z2⟩ := x1
                refine ⟨?_, ?_⟩
                · rw [List.mem_append, not_or]; exact ⟨by decide, z1⟩
                · rcases z2 with z2 | ⟨z2, z3⟩
                  · left
                    rw [← hr, List.append_assoc]
                    congr 1
                    rw [← e1]; exact z2
                  · right
                    refine ⟨?_, z3⟩
                    rw [← hr]
                    congr 1
                    rw [← e1]; exact z2
              · show pl = ((entries x).filterMap id).foldl _ _
                rw [hes]; exact i1
              · unfold includeNotes
                rw [hcs']
                simp only [x2]
                rw [hpat0]
                simp only [hg]
                rw [if_neg hany, entryNotes_all _ _ _ hns, includeFilesNotes_all (content := content) tokN _ i2, hes, hpt x dir hd, hpat]
              · rw [hpat, hes]; exact hg
              · intro f hf
                rw [hes] at hf
                have := hns f hf
                simp only [List.mem_cons, not_or] at this
                exact this
              · intro f hf
                rw [hes] at hf
                exact i2 f (List.mem_filterMap.mpr ⟨some f, hf, rfl⟩)
    · cases hcs

/-- What a file stands for. -/
theorem file_takes {env : Env} (ha : env.AsciiChars) (fs : Files) (fuel : Nat) :
    ∀ (depth : Nat) (seen : List Str) (file : Str) (pl : ParsedLedger), tokenizeFile env fs fuel depth seen file = .ok pl →
      Takes env fs seen file pl := by
  intro depth
  induction depth with
  | zero => intro seen file pl h; cases h
  | succ depth ih =>
    intro seen file pl h
    rw [tokenizeFile] at h
    cases hf : fs.read file with
    | none => rw [hf] at h; cases h
    | some text =>
      rw [hf] at h
      simp only at h
      let content : Str → ParsedLedger := fun f => match tokenizeFile env fs fuel depth (file :: seen) f with
        | .ok x => x
        | .error _ => {}
      let pattern : Str → Str := fun x => (if (fs.parent file).getD [] = [] then ['.'] else (fs.parent file).getD []) ++ '/' :: x
      let entries : Str → List (Option Str) := fun x =>
        ((fs.parent file).bind (fun dir => fs.glob ((if dir = [] then ['.'] else dir) ++ '/' :: x))).getD []
      have hinc := include_takes (fs := fs) (file := file) (seen := seen) (tok := fun f => tokenizeFile env fs fuel depth (file :: seen) f)
        (content := content) (fun _ => []) (pattern := pattern) (by intro x dir hd; simp only [pattern]; rw [hd]; rfl) (entries := entries)
        (by intro f x hx; simp only [content, hx])
        (by intro x dir es hd hg; simp only [entries]; rw [hd, Option.bind_some, hg]; rfl)
      obtain ⟨bs, b1, b2, _, b3⟩ := items_takes ha fuel hinc (fun _ _ _ h => includeTok_step h) fuel {} (Tok.ofContent text)
        List.suffix_rfl (.inr (.inr (by simp [Tok.ofContent]))) pl h
      rw [b2]
      refine .mk entries content hf b1 (fun x hx => (b3 x hx).1) (fun x hx => (b3 x hx).2.1) (fun x hx f hm => ?_)
      exact ih _ _ _ ((b3 x hx).2.2 f hm)

end Dinero
