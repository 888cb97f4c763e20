import Verif.Lemmas.Header
import Verif.Model.Include
/-
Lemmas about the tokenizer: how each piece of a line is read.
-/
namespace Dinero

/-! ### Characters -/

theorem Env.AsciiChars.wsF {env : Env} (ha : env.AsciiChars) {c : Char} (h : c.toNat < 128)
    (h' : ¬ (c = ' ' ∨ (9 ≤ c.toNat ∧ c.toNat ≤ 13))) : env.ws c = false := by
  cases hc : env.ws c with
  | false => rfl
  | true => exact absurd ((ha.ws c h).mp hc) h'

theorem Env.AsciiChars.wsT {env : Env} (ha : env.AsciiChars) {c : Char} (h : c.toNat < 128)
    (h' : c = ' ' ∨ (9 ≤ c.toNat ∧ c.toNat ≤ 13)) : env.ws c = true := (ha.ws c h).mpr h'

theorem Env.AsciiChars.numF {env : Env} (ha : env.AsciiChars) {c : Char} (h : c.toNat < 128)
    (h' : ¬ ('0' ≤ c ∧ c ≤ '9')) : env.numeric c = false := by
  cases hc : env.numeric c with
  | false => rfl
  | true => exact absurd ((ha.numeric c h).mp hc) h'

theorem digit_lt {c : Char} (h : '0' ≤ c ∧ c ≤ '9') : c.toNat < 128 := by
  rcases isDig_cases h with rfl | rfl | rfl | rfl | rfl | rfl | rfl | rfl | rfl | rfl <;> decide

theorem Env.AsciiChars.digit {env : Env} (ha : env.AsciiChars) {c : Char} (h : '0' ≤ c ∧ c ≤ '9') :
    env.numeric c = true ∧ env.ws c = false := by
  refine ⟨(ha.numeric c (digit_lt h)).mpr h, ha.wsF (digit_lt h) ?_⟩
  rcases isDig_cases h with rfl | rfl | rfl | rfl | rfl | rfl | rfl | rfl | rfl | rfl <;> decide

theorem blank_iff {env : Env} {c : Char} : env.blank c = true ↔ env.ws c = true ∧ c ≠ '\n' := by
  simp [Env.blank]

theorem blank_false {env : Env} {c : Char} (h : env.ws c = false) : env.blank c = false := by
  simp [Env.blank, h]

theorem Blanks.blank {env : Env} {b : Str} (h : Blanks env b) : ∀ c ∈ b, env.blank c = true :=
  fun c hc => blank_iff.mpr (h c hc)

theorem Blanks.tail {env : Env} {c : Char} {b : Str} (h : Blanks env (c :: b)) : Blanks env b :=
  fun x hx => h x (by simp [hx])

/-! ### Between lines -/

/-- The end of a line. -/
def Eol (k : Str) : Prop := k = [] ∨ ∃ k', k = '\n' :: k'

/-- Further lines, each after a line break. -/
def tailText (ls : List Str) : Str := ls.flatMap (fun l => '\n' :: l)

theorem tailText_cons (l : Str) (ls : List Str) : tailText (l :: ls) = '\n' :: (l ++ tailText ls) := by
  simp [tailText]

theorem eol_tailText (ls : List Str) : Eol (tailText ls) := by
  cases ls with
  | nil => exact .inl rfl
  | cons l ls => exact .inr ⟨_, tailText_cons l ls⟩

/-- The tokenizer is at the end of a line followed by `k`, or just after its line break. -/
def AtEnd (t : Tok) (k : Str) : Prop := t.rest = k ∨ ∃ k', k = '\n' :: k' ∧ t.rest = k' ∧ t.col = 0

/-- The tokenizer is in front of these lines: skipping white space and lines has the same result as from the
line break in front of them. -/
def At (env : Env) (t : Tok) (ls : List Str) : Prop := ∃ t0, AtEnd t0 (tailText ls) ∧ wsLines env t = wsLines env t0

theorem AtEnd.at {env : Env} {t : Tok} {ls : List Str} (h : AtEnd t (tailText ls)) : At env t ls := ⟨t, h, rfl⟩

theorem wsLinesAux_blanks {env : Env} {b r : Str} (h : Blanks env b) (line col : Nat) :
    wsLinesAux env.ws (b ++ r) line col = wsLinesAux env.ws r line (col + b.length) := by
  induction b generalizing col with
  | nil => rfl
  | cons c b ih =>
    obtain ⟨h1, h2⟩ := h c (by simp)
    rw [List.cons_append, wsLinesAux, if_neg h2, if_pos (.inl h1), ih h.tail, List.length_cons]
    congr 1; omega

theorem wsLines_congr {env : Env} {t t' : Tok} (hc : t.content = t'.content)
    (h : wsLinesAux env.ws t.rest t.line t.col = wsLinesAux env.ws t'.rest t'.line t'.col) :
    wsLines env t = wsLines env t' := by
  simp only [wsLines, h, hc]

theorem At.blank {env : Env} {t : Tok} {b : Str} {ls : List Str} (h : At env t (b :: ls)) (hb : Blanks env b) :
    At env t ls := by
  obtain ⟨t0, h1, h2⟩ := h
  rw [tailText_cons] at h1
  rcases h1 with h1 | ⟨k', h1, h3, h4⟩
  · refine ⟨{ t0 with rest := tailText ls, line := t0.line + 1, col := 0 + b.length }, .inl rfl, h2.trans ?_⟩
    refine wsLines_congr rfl ?_
    rw [h1, wsLinesAux, if_pos rfl, wsLinesAux_blanks hb]
  · obtain rfl : b ++ tailText ls = k' := by simpa using h1
    refine ⟨{ t0 with rest := tailText ls, col := t0.col + b.length }, .inl rfl, h2.trans ?_⟩
    refine wsLines_congr rfl ?_
    rw [h3, wsLinesAux_blanks hb]

theorem At.line {env : Env} {t : Tok} {l : Str} {ls : List Str} (h : At env t (l :: ls)) :
    ∃ t0, t0.rest = l ++ tailText ls ∧ t0.col = 0 ∧ wsLines env t = wsLines env t0 := by
  obtain ⟨t0, h1, h2⟩ := h
  rw [tailText_cons] at h1
  rcases h1 with h1 | ⟨k', h1, h3, h4⟩
  · refine ⟨{ t0 with rest := l ++ tailText ls, line := t0.line + 1, col := 0 }, rfl, rfl, h2.trans ?_⟩
    refine wsLines_congr rfl ?_
    rw [h1, wsLinesAux, if_pos rfl]
  · obtain rfl : l ++ tailText ls = k' := by simpa using h1
    exact ⟨t0, h3, h4, h2⟩

theorem At.indent {env : Env} (ha : env.AsciiChars) {t : Tok} {i r : Str} {c : Char} {ls : List Str}
    (h : At env t ((i ++ c :: r) :: ls)) (hi : Blanks env i) (hi0 : i ≠ []) (hc : env.ws c = false) :
    ∃ t', wsLines env t = (t', .indented) ∧ t'.rest = c :: r ++ tailText ls := by
  obtain ⟨t0, h1, h2, h3⟩ := h.line
  have hn : c ≠ '\n' := by rintro rfl; rw [ha.wsT (by decide) (by decide)] at hc; cases hc
  have hr : c ≠ '\r' := by rintro rfl; rw [ha.wsT (by decide) (by decide)] at hc; cases hc
  rw [h3]
  have e : wsLinesAux env.ws t0.rest t0.line t0.col = (c :: r ++ tailText ls, t0.line, t0.col + i.length) := by
    rw [h1, List.append_assoc, wsLinesAux_blanks hi, List.cons_append, wsLinesAux, if_neg hn,
      if_neg (by simp [hc, hr])]
  refine ⟨{ t0 with rest := c :: r ++ tailText ls, col := t0.col + i.length }, ?_, rfl⟩
  have : i.length ≠ 0 := by simpa using hi0
  simp only [wsLines, e]
  rw [if_pos ⟨by simp, by omega⟩]

theorem At.top {env : Env} (ha : env.AsciiChars) {t : Tok} {r : Str} {c : Char} {ls : List Str}
    (h : At env t ((c :: r) :: ls)) (hc : env.ws c = false) :
    ∃ t', wsLines env t = (t', .blank) ∧ t'.rest = c :: r ++ tailText ls := by
  obtain ⟨t0, h1, h2, h3⟩ := h.line
  have hn : c ≠ '\n' := by rintro rfl; rw [ha.wsT (by decide) (by decide)] at hc; cases hc
  have hr : c ≠ '\r' := by rintro rfl; rw [ha.wsT (by decide) (by decide)] at hc; cases hc
  rw [h3]
  have e : wsLinesAux env.ws t0.rest t0.line t0.col = (c :: r ++ tailText ls, t0.line, t0.col) := by
    rw [h1, List.cons_append, wsLinesAux, if_neg hn, if_neg (by simp [hc, hr])]
  refine ⟨{ t0 with rest := c :: r ++ tailText ls }, ?_, rfl⟩
  simp only [wsLines, e]
  simp [h2]

theorem At.nil {env : Env} {t : Tok} (h : At env t []) :
    ∃ t', wsLines env t = (t', .blank) ∧ t'.rest = [] := by
  obtain ⟨t0, h1, h2⟩ := h
  rcases h1 with h1 | ⟨k', h1, _⟩
  · refine ⟨t0, ?_, h1⟩
    rw [h2]
    obtain ⟨ct, rs, ln, cl⟩ := t0
    obtain rfl : rs = [] := h1
    simp [wsLines, wsLinesAux]
  · cases h1

theorem wsLinesAux_stop (ws : Char → Bool) (s : Str) (line col : Nat) :
    ∀ c r, (wsLinesAux ws s line col).1 = c :: r → c ≠ '\n' ∧ ¬ (ws c = true ∨ c = '\r') := by
  induction s generalizing line col with
  | nil => intro c r h; cases h
  | cons x s ih =>
    intro c r h
    rw [wsLinesAux] at h
    split_ifs at h with h1 h2
    · exact ih _ _ c r h
    · exact ih _ _ c r h
    · cases h; exact ⟨h1, h2⟩

theorem At.again {env : Env} {t t' : Tok} {ls : List Str} {lt : LineType} (h : At env t ls)
    (hw : wsLines env t = (t', lt)) : At env t' ls := by
  obtain ⟨t0, h1, h2⟩ := h
  refine ⟨t0, h1, ?_⟩
  rw [← h2]
  simp only [wsLines, Prod.mk.injEq] at hw
  refine wsLines_congr ?_ ?_
  · rw [← hw.1]
  · rw [← hw.1]
    simp only
    cases hr : (wsLinesAux env.ws t.rest t.line t.col).1 with
    | nil =>
      rw [wsLinesAux]
      exact Prod.ext hr.symm rfl
    | cons c r =>
      obtain ⟨s1, s2⟩ := wsLinesAux_stop _ _ _ _ c r hr
      rw [wsLinesAux, if_neg s1, if_neg s2]
      exact Prod.ext hr.symm rfl

/-! ### Lines and blanks -/

theorem consumeWs_rest {env : Env} {t : Tok} {b k : Str} (h : t.rest = b ++ k) (hb : Blanks env b)
    (hk : ∀ c, k.head? = some c → env.blank c = false) : (consumeWs env t).rest = k := by
  simp only [consumeWs]
  rw [h, dropWhile_all hb.blank, dropWhile_head hk]

theorem eol_blank {env : Env} {k : Str} (h : Eol k) : ∀ c, k.head? = some c → env.blank c = false := by
  rcases h with rfl | ⟨k', rfl⟩
  · intro c hc; cases hc
  · intro c hc; cases hc; simp [Env.blank]

theorem getLine_line {t : Tok} {l k : Str} (h : t.rest = l ++ k) (hl : '\n' ∉ l) (hk : Eol k) :
    (getLine t).1 = l ∧ AtEnd (getLine t).2 k := by
  have hl' : ∀ a ∈ l, (a != '\n') = true := fun a ha => by
    simp; rintro rfl; exact hl ha
  rcases hk with rfl | ⟨k', rfl⟩
  · simp only [getLine, h]
    have e1 : (l ++ []).takeWhile (· != '\n') = l := by
      rw [List.takeWhile_append_of_pos hl']; simp
    have e2 : (l ++ []).dropWhile (· != '\n') = [] := by
      rw [dropWhile_all hl']; simp
    rw [e1, e2]
    exact ⟨rfl, .inl rfl⟩
  · obtain ⟨e1, e2⟩ := takeWhile_append_stop (r := k') hl' (x := '\n') (by simp)
    simp only [getLine, h, e1, e2]
    exact ⟨trivial, .inr ⟨k', rfl, rfl, rfl⟩⟩

/-- A comment is read as it is meant. -/
theorem commentTok_ok {env : Env} {t : Tok} {m : Char} {b c k : Str} (h : t.rest = m :: (b ++ c) ++ k) (hb : Blanks env b)
    (hc : '\n' ∉ c) (hc' : ∀ x, c.head? = some x → env.ws x = false) (hk : Eol k) :
    (commentTok env t).1 = c ∧ AtEnd (commentTok env t).2 k := by
  unfold commentTok
  refine getLine_line ?_ hc hk
  refine consumeWs_rest (b := b) ?_ hb ?_
  · simp [h]
  · intro x hx
    cases c with
    | nil => exact eol_blank hk x hx
    | cons y c => exact blank_false (hc' x hx)

theorem Eol.head {k : Str} (h : Eol k) : ∀ c, k.head? = some c → c = '\n' := by
  rcases h with rfl | ⟨k', rfl⟩
  · intro c hc; cases hc
  · intro c hc; simp at hc; exact hc.symm

/-! ### Numbers -/

/-- What can come after a number. -/
def NumStop (env : Env) (k : Str) : Prop := ∀ c, k.head? = some c → c ≠ '.' ∧ c ≠ '-' ∧ env.numeric c = false

theorem amountAux_stop {env : Env} {k : Str} (h : NumStop env k) (dec : Bool) :
    amountAux env k dec = some ([], 0, 0, k) := by
  cases k with
  | nil => rfl
  | cons c k =>
    obtain ⟨h1, h2, h3⟩ := h c rfl
    simp [amountAux, h1, h2, h3]

theorem amountAux_digits {env : Env} (ha : env.AsciiChars) {a r : Str} (h : ∀ c ∈ a, '0' ≤ c ∧ c ≤ '9') (dec : Bool) :
    amountAux env (a ++ r) dec = (amountAux env r dec).map (fun x =>
      (a ++ x.1, x.2.1 + (if dec then a.length else 0), x.2.2.1 + a.length, x.2.2.2)) := by
  induction a with
  | nil =>
    simp only [List.nil_append, List.length_nil, ite_self, Nat.add_zero]
    cases amountAux env r dec <;> rfl
  | cons c a ih =>
    have hc := h c (by simp)
    have h1 : c ≠ '.' := by rintro rfl; revert hc; decide
    rw [List.cons_append, amountAux, if_neg h1, if_pos (.inr (ha.digit hc).1), ih (fun c hc => h c (by simp [hc])),
      Option.map_map]
    congr 1
    funext x
    simp only [Function.comp, List.length_cons]
    cases dec <;> simp <;> omega

theorem unsignedVal_int {a : Str} (h : ∀ c ∈ a, '0' ≤ c ∧ c ≤ '9') : unsignedVal a = digitsVal a := by
  have hd : ∀ c ∈ a, decide (c ≠ '.') = true := by
    intro c hc
    have := h c hc
    simp
    rintro rfl
    revert this; decide
  have h1 : a.takeWhile (· ≠ '.') = a := by
    simpa using List.takeWhile_append_of_pos (l₂ := []) hd
  have h2 : a.dropWhile (· ≠ '.') = [] := by
    simpa using List.dropWhile_append_of_pos (l₂ := []) hd
  unfold unsignedVal
  rw [h1, h2]
  simp [digitsVal]

theorem unsignedVal_point {a : Str} (b : Str) (h : ∀ c ∈ a, '0' ≤ c ∧ c ≤ '9') :
    unsignedVal (a ++ '.' :: b) = (digitsVal (a ++ b) : Rat) / (10 ^ b.length : Nat) := by
  have hd : ∀ c ∈ a, decide (c ≠ '.') = true := by
    intro c hc
    have := h c hc
    simp
    rintro rfl
    revert this; decide
  obtain ⟨e1, e2⟩ := takeWhile_append_stop (r := b) hd (x := '.') (by simp)
  unfold unsignedVal
  rw [e1, e2, digitsVal_append]
  simp only [List.drop_one, List.tail_cons]
  push_cast
  have : (10 ^ b.length : Rat) ≠ 0 := by positivity
  field_simp

/-- The characters of an unsigned amount. -/
theorem amountAux_amount {env : Env} (ha : env.AsciiChars) {s k : Str} (h : IsAmount s) (hk : NumStop env k) :
    ∃ num dec n, amountAux env (s ++ k) false = some (num, dec, n, k) ∧ IsDigits num ∧
      unsignedVal s = (digitsVal num : Rat) / (10 ^ dec : Nat) := by
  obtain ⟨a, b, hab, h0, rfl | ⟨rfl, rfl⟩⟩ := h
  · have hda : ∀ c ∈ a, '0' ≤ c ∧ c ≤ '9' := fun c hc => hab c (by simp [hc])
    have hdb : ∀ c ∈ b, '0' ≤ c ∧ c ≤ '9' := fun c hc => hab c (by simp [hc])
    refine ⟨a ++ b, b.length, b.length + 1 + a.length, ?_, ⟨h0, hab⟩, unsignedVal_point b hda⟩
    rw [List.append_assoc, amountAux_digits ha hda, List.cons_append, amountAux, if_pos rfl,
      amountAux_digits ha hdb, amountAux_stop hk]
    simp
  · rw [List.append_nil] at hab h0
    refine ⟨s, 0, s.length, ?_, ⟨h0, hab⟩, ?_⟩
    · rw [amountAux_digits ha hab, amountAux_stop hk]
      simp
    · rw [unsignedVal_int hab]; simp

theorem parseAmount_ok {env : Env} (ha : env.AsciiChars) {t : Tok} {s k : Str} {q : Rat} (h : WritesNumber s q)
    (ht : t.rest = s ++ k) (hk : NumStop env k) :
    (parseAmount env t).1 = .ok q ∧ (parseAmount env t).2.rest = k := by
  cases h with
  | pos h =>
    obtain ⟨num, dec, n, h1, h2, h3⟩ := amountAux_amount ha h hk
    simp only [parseAmount, ht, h1, intOf_digits h2, h3]
    exact ⟨by simp, trivial⟩
  | @neg s h =>
    obtain ⟨num, dec, n, h1, h2, h3⟩ := amountAux_amount ha h hk
    have e : amountAux env ('-' :: s ++ k) false = some ('-' :: num, dec, n + 1, k) := by
      rw [List.cons_append, amountAux, if_neg (by decide), if_pos (.inl rfl), h1]
      simp
    simp only [parseAmount, ht, e, intOf, natOf_digits h2, h3]
    refine ⟨?_, trivial⟩
    simp [neg_div]

theorem number_head {s : Str} {q : Rat} (h : WritesNumber s q) :
    ∃ c r, s = c :: r ∧ (c = '-' ∨ c = '.' ∨ ('0' ≤ c ∧ c ≤ '9')) := by
  cases h with
  | pos h =>
    obtain ⟨a, b, hab, h0, rfl | ⟨rfl, rfl⟩⟩ := h
    · cases a with
      | nil => exact ⟨_, _, rfl, .inr (.inl rfl)⟩
      | cons c a => exact ⟨_, _, rfl, .inr (.inr (hab c (by simp)))⟩
    · rw [List.append_nil] at hab h0
      cases s with
      | nil => exact absurd rfl h0
      | cons c a => exact ⟨_, _, rfl, .inr (.inr (hab c (by simp)))⟩
  | neg h => exact ⟨_, _, rfl, .inl rfl⟩

/-! ### Words and amounts of a commodity -/

/-- What can come after an unquoted word. -/
def WordStop (env : Env) (k : Str) : Prop := ∀ c, k.head? = some c → c = '\n' ∨ (env.wordEnd c = true ∧ c ≠ '"')

theorem wordAux_plain {env : Env} {c k : Str} (hc : ∀ x ∈ c, env.wordEnd x = false ∧ x ≠ '"' ∧ x ≠ '\n')
    (hk : WordStop env k) (e : Bool) : ∃ n, wordAux env (c ++ k) e false = (c, n, k) := by
  induction c generalizing e with
  | nil =>
    cases k with
    | nil => exact ⟨0, rfl⟩
    | cons x k =>
      rcases hk x rfl with rfl | ⟨h1, h2⟩
      · exact ⟨0, by simp [wordAux]⟩
      · refine ⟨0, ?_⟩
        rw [List.nil_append, wordAux]
        by_cases hx : x = '\n'
        · simp [hx]
        · simp [hx, h1, h2]
  | cons x c ih =>
    obtain ⟨h1, h2, h3⟩ := hc x (by simp)
    obtain ⟨n, hn⟩ := ih (fun y hy => hc y (by simp [hy])) false
    exact ⟨n + 1, by simp [wordAux, h1, h2, h3, hn]⟩

theorem wordAux_quoted {env : Env} {c k : Str} (hc : c ≠ []) (h1 : '"' ∉ c) (h2 : '\n' ∉ c) :
    ∃ n, wordAux env ('"' :: c ++ '"' :: k) true false = (c, n, k) := by
  have key : ∀ c : Str, '"' ∉ c → '\n' ∉ c → ∃ n, wordAux env (c ++ '"' :: k) false true = (c, n, k) := by
    intro c
    induction c with
    | nil => intro _ _; exact ⟨1, by simp [wordAux]⟩
    | cons x c ih =>
      intro h1 h2
      simp only [List.mem_cons, not_or] at h1 h2
      obtain ⟨n, hn⟩ := ih h1.2 h2.2
      exact ⟨n + 1, by simp [wordAux, Ne.symm h1.1, Ne.symm h2.1, hn]⟩
  cases c with
  | nil => exact absurd rfl hc
  | cons x c =>
    simp only [List.mem_cons, not_or] at h1 h2
    obtain ⟨n, hn⟩ := key c h1.2 h2.2
    exact ⟨n + 1 + 1, by simp [wordAux, Ne.symm h1.1, Ne.symm h2.1, hn]⟩

theorem getString_rest {env : Env} {t : Tok} {b w b' k : Str} {x : Str} (ht : t.rest = b ++ (w ++ (b' ++ k)))
    (hb : Blanks env b) (hw : ∀ c, (w ++ (b' ++ k)).head? = some c → env.blank c = false)
    (hx : ∃ n, wordAux env (w ++ (b' ++ k)) true false = (x, n, b' ++ k))
    (hb' : Blanks env b') (hk : ∀ c, k.head? = some c → env.blank c = false) :
    (getString env t).1 = x ∧ (getString env t).2.rest = k := by
  obtain ⟨n, hn⟩ := hx
  have e := consumeWs_rest ht hb hw
  simp only [getString, e, hn]
  exact ⟨trivial, consumeWs_rest rfl hb' hk⟩

theorem currency_word {env : Env} {cs c k : Str} (h : WritesCurrency env cs c) (hk : WordStop env k) :
    ∃ n, wordAux env (cs ++ k) true false = (c, n, k) := by
  cases h with
  | plain h0 h1 h2 =>
    refine wordAux_plain (fun x hx => ?_) hk true
    obtain ⟨a1, a2, a3⟩ := h1 x hx
    simp only [List.mem_cons, List.not_mem_nil, or_false, not_or] at a3
    simp [Env.wordEnd, a1, a2, a3]
  | quoted h0 h1 h2 => simpa using wordAux_quoted (k := k) h0 h1 h2

theorem writesCurrency_head {env : Env} (ha : env.AsciiChars) {cs c : Str} (h : WritesCurrency env cs c) :
    ∃ x r, cs = x :: r ∧ env.ws x = false ∧ env.numeric x = false ∧ x ∉ ['.', '-', ';', '\n', '(', '=', '@'] := by
  cases h with
  | plain h0 h1 h2 =>
    cases cs with
    | nil => exact absurd rfl h0
    | cons x r =>
      obtain ⟨a1, a2, a3⟩ := h1 x (by simp)
      have a4 := h2 x rfl
      refine ⟨x, r, rfl, a1, a2, ?_⟩
      simp only [List.mem_cons, List.not_mem_nil, or_false, not_or] at a3 a4 ⊢
      tauto
  | quoted =>
    exact ⟨_, _, rfl, ha.wsF (by decide) (by decide), ha.numF (by decide) (by decide), by decide⟩

theorem blank_wordStop {env : Env} (ha : env.AsciiChars) {b k : Str} (hb : Blanks env b) (hk : b = [] → WordStop env k) :
    WordStop env (b ++ k) := by
  cases b with
  | nil => exact hk rfl
  | cons c b =>
    intro x hx
    obtain rfl : c = x := by simpa using hx
    refine .inr ⟨by simp [Env.wordEnd, (hb c (by simp)).1], ?_⟩
    rintro rfl
    have := (hb '"' (by simp)).1
    rw [ha.wsF (by decide) (by decide)] at this; cases this

theorem blank_numStop {env : Env} (ha : env.AsciiChars) {b k : Str} (hb : Blanks env b) (hk : b = [] → NumStop env k) :
    NumStop env (b ++ k) := by
  cases b with
  | nil => exact hk rfl
  | cons c b =>
    intro x hx
    obtain rfl : c = x := by simpa using hx
    have hc := (hb c (by simp)).1
    refine ⟨?_, ?_, ha.disjoint c hc⟩ <;> rintro rfl <;>
      (rw [ha.wsF (by decide) (by decide)] at hc; cases hc)

theorem number_ws {env : Env} (ha : env.AsciiChars) {c : Char} (h : c = '-' ∨ c = '.' ∨ ('0' ≤ c ∧ c ≤ '9')) :
    env.ws c = false ∧ (env.numeric c = true ∨ c = '.' ∨ c = '-') ∧ c ∉ [';', '\n', '(', '=', '@', '"'] := by
  rcases h with rfl | rfl | h
  · exact ⟨ha.wsF (by decide) (by decide), by simp, by decide⟩
  · exact ⟨ha.wsF (by decide) (by decide), by simp, by decide⟩
  · refine ⟨(ha.digit h).2, .inl (ha.digit h).1, ?_⟩
    rcases isDig_cases h with rfl | rfl | rfl | rfl | rfl | rfl | rfl | rfl | rfl | rfl <;> decide

/-- What can come after an amount of a commodity. -/
def MoneyStop (env : Env) (k : Str) : Prop := ∀ c, k.head? = some c → env.blank c = true ∨ c = '\n' ∨ c = ';'

theorem money_head {env : Env} (ha : env.AsciiChars) {m c : Str} {q : Rat} (h : WritesMoney env m q c) :
    ∃ x r, m = x :: r ∧ env.ws x = false ∧ x ∉ [';', '\n', '(', '=', '@'] := by
  cases h with
  | after hn hb hc =>
    obtain ⟨x, r, rfl, hx⟩ := number_head hn
    obtain ⟨h1, h2, h3⟩ := number_ws ha hx
    refine ⟨x, _, rfl, h1, ?_⟩
    simp only [List.mem_cons, List.not_mem_nil, or_false, not_or] at h3 ⊢
    tauto
  | before hc hb hn =>
    obtain ⟨x, r, rfl, h1, h2, h3⟩ := writesCurrency_head ha hc
    refine ⟨x, _, rfl, h1, ?_⟩
    simp only [List.mem_cons, List.not_mem_nil, or_false, not_or] at h3 ⊢
    tauto

theorem MoneyStop.word {env : Env} (ha : env.AsciiChars) {k : Str} (h : MoneyStop env k) : WordStop env k := by
  intro c hc
  rcases h c hc with h | rfl | rfl
  · refine .inr ⟨by simp [Env.wordEnd, (blank_iff.mp h).1], ?_⟩
    rintro rfl
    have := (blank_iff.mp h).1
    rw [ha.wsF (by decide) (by decide)] at this; cases this
  · exact .inl rfl
  · exact .inr ⟨by simp [Env.wordEnd], by decide⟩

theorem MoneyStop.num {env : Env} (ha : env.AsciiChars) {k : Str} (h : MoneyStop env k) : NumStop env k := by
  intro c hc
  rcases h c hc with h | rfl | rfl
  · have hc := (blank_iff.mp h).1
    refine ⟨?_, ?_, ha.disjoint c hc⟩ <;> rintro rfl <;>
      (rw [ha.wsF (by decide) (by decide)] at hc; cases hc)
  · exact ⟨by decide, by decide, ha.numF (by decide) (by decide)⟩
  · exact ⟨by decide, by decide, ha.numF (by decide) (by decide)⟩

/-- An amount of a commodity is read as it is meant; what is left is the rest of the line, up to blanks. -/
theorem parseMoney_ok {env : Env} (ha : env.AsciiChars) {t : Tok} {m c b k : Str} {q : Rat} (h : WritesMoney env m q c)
    (ht : t.rest = m ++ (b ++ k)) (hb : Blanks env b) (hk : ∀ c, k.head? = some c → env.blank c = false)
    (hs : MoneyStop env (b ++ k)) :
    (parseMoney env t).1 = .ok (q, c) ∧ (consumeWs env (parseMoney env t).2).rest = k := by
  cases h with
  | @after n b1 cs _ _ hn hb1 hc =>
    obtain ⟨x, r, rfl, hx⟩ := number_head hn
    obtain ⟨h1, h2, h3⟩ := number_ws ha hx
    obtain ⟨y, r', hy, a1, a2, a3⟩ := writesCurrency_head ha hc
    have hns : NumStop env (b1 ++ (cs ++ (b ++ k))) := blank_numStop ha hb1 (fun _ => by
      intro z hz
      rw [hy] at hz
      obtain rfl : y = z := by simpa using hz
      simp only [List.mem_cons, List.not_mem_nil, or_false, not_or] at a3
      exact ⟨a3.1, a3.2.1, a2⟩)
    have ht' : t.rest = (x :: r) ++ (b1 ++ (cs ++ (b ++ k))) := by rw [ht]; simp
    obtain ⟨e1, e2⟩ := parseAmount_ok ha hn ht' hns
    have ht2 : t.rest = x :: (r ++ (b1 ++ (cs ++ (b ++ k)))) := by rw [ht']; simp
    unfold parseMoney
    rw [ht2]
    simp only [h2, if_true]
    have e3 : parseAmount env t = (.ok q, (parseAmount env t).2) := Prod.ext e1 rfl
    rw [e3]
    simp only
    have hw : ∀ z, (cs ++ (b ++ k)).head? = some z → env.blank z = false := by
      intro z hz
      rw [hy] at hz
      obtain rfl : y = z := by simpa using hz
      exact blank_false a1
    obtain ⟨g1, g2⟩ := getString_rest e2 hb1 hw (currency_word hc (hs.word ha)) hb hk
    refine ⟨by rw [g1], ?_⟩
    exact consumeWs_rest (b := []) (by rw [g2]; rfl) (by intro c hc; cases hc) hk
  | @before n b1 cs _ _ hc hb1 hn =>
    obtain ⟨x, r, hx, a1, a2, a3⟩ := writesCurrency_head ha hc
    obtain ⟨y, r', hy, hy'⟩ := number_head hn
    obtain ⟨h1, h2, h3⟩ := number_ws ha hy'
    have hw : ∀ z, (cs ++ (b1 ++ (n ++ (b ++ k)))).head? = some z → env.blank z = false := by
      intro z hz
      rw [hx] at hz
      obtain rfl : x = z := by simpa using hz
      exact blank_false a1
    have hns : WordStop env (b1 ++ (n ++ (b ++ k))) := blank_wordStop ha hb1 (fun _ => by
      intro z hz
      rw [hy] at hz
      obtain rfl : y = z := by simpa using hz
      refine .inr ⟨?_, ?_⟩
      · rcases h2 with h | h | h <;> simp [Env.wordEnd, h]
      · simp only [List.mem_cons, List.not_mem_nil, or_false, not_or] at h3
        exact h3.2.2.2.2.2)
    have hk2 : ∀ z, (n ++ (b ++ k)).head? = some z → env.blank z = false := by
      intro z hz
      rw [hy] at hz
      obtain rfl : y = z := by simpa using hz
      exact blank_false h1
    have ht' : t.rest = [] ++ (cs ++ (b1 ++ (n ++ (b ++ k)))) := by rw [ht]; simp
    obtain ⟨g1, g2⟩ := getString_rest ht' (by intro c hc; cases hc) hw (currency_word hc hns) hb1 hk2
    obtain ⟨e1, e2⟩ := parseAmount_ok ha hn g2 (hs.num ha)
    have ht2 : t.rest = x :: (r ++ (b1 ++ (n ++ (b ++ k)))) := by rw [ht', hx]; simp
    unfold parseMoney
    rw [ht2]
    simp only [List.mem_cons, List.not_mem_nil, or_false, not_or] at a3
    simp only [a2, a3.1, a3.2.1, or_self, if_false, Bool.false_eq_true]
    have e3 : parseAmount env (getString env t).2 = (.ok q, (parseAmount env (getString env t).2).2) := Prod.ext e1 rfl
    rw [e3]
    simp only [g1]
    exact ⟨trivial, consumeWs_rest e2 hb hk⟩

/-! ### Postings -/

/-- The costs come after an amount. -/
def costOk : Bool → List Field → Prop
  | _, [] => True
  | b, f :: fs => ((f = .unitCost ∨ f = .totalCost) → b = true) ∧ costOk (b || f == .amount) fs

theorem FieldOrder.costOk {fs : List Field} (h : FieldOrder fs) : costOk false fs := by
  simp only [FieldOrder, List.mem_cons, List.not_mem_nil, or_false] at h
  rcases h with rfl | rfl | rfl | rfl | rfl | rfl | rfl | rfl <;> simp [Dinero.costOk]

theorem fields_head {env : Env} (ha : env.AsciiChars) {s : Str} {fs : List (Field × Rat × Str)}
    (h : WritesFields env s fs) : ∀ x, s.head? = some x → env.ws x = false := by
  cases h with
  | nil => intro x hx; cases hx
  | @cons b m b' s q c fs f hb hm hb' hs hf h =>
    intro x hx
    cases f with
    | amount =>
      obtain ⟨y, r, rfl, hy, _⟩ := money_head ha hm
      rw [hf rfl] at hx
      simp [Field.mark] at hx
      exact hx ▸ hy
    | unitCost => simp [Field.mark] at hx; subst hx; exact ha.wsF (by decide) (by decide)
    | totalCost => simp [Field.mark] at hx; subst hx; exact ha.wsF (by decide) (by decide)
    | assertion => simp [Field.mark] at hx; subst hx; exact ha.wsF (by decide) (by decide)

theorem commentOpt_head {env : Env} {c k : Str} {cs : List Str} (h : WritesCommentOpt env c cs) (hk : Eol k) :
    ∀ x, (c ++ k).head? = some x → x = ';' ∨ x = '\n' := by
  cases h with
  | none => intro x hx; exact .inr (hk.head x hx)
  | some h =>
    cases h with
    | mk => intro x hx; simp at hx; exact .inl hx.symm

theorem fields_next {env : Env} (ha : env.AsciiChars) {s c k : Str} {fs : List (Field × Rat × Str)} {cs : List Str}
    (h : WritesFields env s fs) (hc : WritesCommentOpt env c cs) (hk : Eol k) :
    ∀ x, (s ++ (c ++ k)).head? = some x → env.blank x = false := by
  intro x hx
  cases s with
  | cons y s => exact blank_false (fields_head ha h x hx)
  | nil =>
    rcases commentOpt_head hc hk x hx with rfl | rfl
    · exact blank_false (ha.wsF (by decide) (by decide))
    · simp [Env.blank]

theorem amounts_money {env : Env} {tt : TType} {n : Nat} {p : RawPosting} {t t' : Tok} {x : Char} {r : Str}
    {m : Rat × Str} (ht : t.rest = x :: r) (hx : x ∉ [';', '\n', '(', '=', '@']) (hm : parseMoney env t = (.ok m, t')) :
    amounts env tt (n + 1) p t =
      amounts env tt n { p with moneyAmount := some m.1, moneyCurrency := some m.2 } (consumeWs env t') := by
  simp only [List.mem_cons, List.not_mem_nil, or_false, not_or] at hx
  rw [amounts]
  split <;> rename_i heq <;> rw [ht] at heq <;> simp at heq
  · exact absurd heq.1 hx.2.1
  · exact absurd heq.1 hx.1
  · exact absurd heq.1 hx.2.2.1
  · exact absurd heq.1 hx.2.2.2.1
  · exact absurd heq.1 hx.2.2.2.2
  · rw [hm]

theorem amounts_done {env : Env} {tt : TType} {n : Nat} {p : RawPosting} {t : Tok} {c k : Str} {cs : List Str}
    (ht : t.rest = c ++ k) (hc : WritesCommentOpt env c cs) (hk : Eol k) :
    ∃ t', amounts env tt (n + 1) p t = .ok (.ok { p with comments := p.comments ++ cs }, t') ∧ AtEnd t' k := by
  cases hc with
  | none =>
    refine ⟨t, ?_, .inl ht⟩
    rw [List.nil_append] at ht
    rcases hk with rfl | ⟨k', rfl⟩
    · rw [amounts]
      split <;> rename_i heq <;> rw [ht] at heq <;> simp at heq
      simp
    · rw [amounts]
      split <;> rename_i heq <;> rw [ht] at heq <;> simp at heq
      · simp
      · have := heq.1.symm; contradiction
  | some h =>
    cases h with
    | @mk b c hb h1 h2 =>
      obtain ⟨e1, e2⟩ := commentTok_ok (k := k) (by simpa using ht) hb h1 h2 hk
      refine ⟨_, ?_, e2⟩
      rw [amounts]
      split <;> rename_i heq <;> rw [ht] at heq <;> simp at heq
      · simp only [e1]
      · have := heq.1.symm; contradiction

/-- The amounts of a posting are read as they are meant. -/
theorem amounts_ok {env : Env} (ha : env.AsciiChars) {tt : TType} {f c k : Str} {fs : List (Field × Rat × Str)}
    {cs : List Str} (hf : WritesFields env f fs) (hc : WritesCommentOpt env c cs) (hk : Eol k) :
    ∀ (n : Nat) (p : RawPosting) (t : Tok), costOk p.moneyAmount.isSome (fs.map (·.1)) → fs.length < n →
      t.rest = f ++ (c ++ k) →
      ∃ t', amounts env tt n p t =
        .ok (.ok { fs.foldl (fun p x => x.1.set p x.2.1 x.2.2) p with comments := p.comments ++ cs }, t') ∧
        AtEnd t' k := by
  induction hf with
  | nil =>
    intro n p t _ hn ht
    obtain ⟨n, rfl⟩ : ∃ m, n = m + 1 := ⟨n - 1, by simp at hn; omega⟩
    exact amounts_done ht hc hk
  | @cons b m b' s q cu fs f hb hm hb' hs hfa h ih =>
    intro n p t ho hn ht
    obtain ⟨n, rfl⟩ : ∃ m, n = m + 1 := ⟨n - 1, by simp at hn; omega⟩
    have hn' : fs.length < n := by simp at hn; omega
    obtain ⟨ho1, ho2⟩ := ho
    have hnext := fields_next ha h hc hk
    have hstop : MoneyStop env (b' ++ (s ++ (c ++ k))) := by
      intro x hx
      cases b' with
      | cons y b' =>
        obtain rfl : y = x := by simpa using hx
        exact .inl (hb'.blank y (by simp))
      | nil =>
        rw [hs rfl] at hx
        rcases commentOpt_head hc hk x hx with h | h
        · exact .inr (.inr h)
        · exact .inr (.inl h)
    have ht' : t.rest = f.mark ++ (b ++ (m ++ (b' ++ (s ++ (c ++ k))))) := by rw [ht]; simp
    obtain ⟨x, r, hxr, hxw, hx⟩ := money_head ha hm
    have hmh : ∀ y, (m ++ (b' ++ (s ++ (c ++ k)))).head? = some y → env.blank y = false := by
      intro y hy
      rw [hxr] at hy
      obtain rfl : x = y := by simpa using hy
      exact blank_false hxw
    -- reading the amount and going on
    have step : ∀ (t1 : Tok) (p' : RawPosting), t1.rest = m ++ (b' ++ (s ++ (c ++ k))) →
        p' = f.set p q cu → ∃ t2, parseMoney env t1 = (.ok (q, cu), t2) ∧
        ∃ t', amounts env tt n p' (consumeWs env t2) =
          .ok (.ok { fs.foldl (fun p x => x.1.set p x.2.1 x.2.2) (f.set p q cu) with
            comments := p.comments ++ cs }, t') ∧ AtEnd t' k := by
      rintro t1 p' h1 rfl
      obtain ⟨e1, e2⟩ := parseMoney_ok ha hm h1 hb' hnext hstop
      refine ⟨_, Prod.ext e1 rfl, ?_⟩
      have hp : (f.set p q cu).comments = p.comments := by cases f <;> rfl
      have := ih n (f.set p q cu) (consumeWs env (parseMoney env t1).2) ?_ hn' e2
      · rwa [hp] at this
      · have : (f.set p q cu).moneyAmount.isSome = (p.moneyAmount.isSome || f == .amount) := by
          cases f <;> simp [Field.set]
        rw [this]
        exact ho2
    cases f with
    | amount =>
      rw [hfa rfl] at ht'
      simp only [Field.mark, List.nil_append] at ht'
      obtain ⟨t2, e1, t', e2, e3⟩ := step t _ ht' rfl
      refine ⟨t', ?_, e3⟩
      rw [amounts_money (x := x) (by rw [ht', hxr]; rfl) hx e1]
      exact e2
    | assertion =>
      simp only [Field.mark, List.cons_append, List.nil_append] at ht'
      have h1 := consumeWs_rest (t := { t with rest := b ++ (m ++ (b' ++ (s ++ (c ++ k)))), col := t.col + 1 }) rfl hb hmh
      obtain ⟨t2, e1, t', e2, e3⟩ := step _ _ h1 rfl
      refine ⟨t', ?_, e3⟩
      rw [amounts]
      split <;> rename_i heq <;> rw [ht'] at heq <;> simp at heq
      · subst heq; rw [e1]; exact e2
      · have := heq.1.symm; contradiction
    | unitCost =>
      simp only [Field.mark, List.cons_append, List.nil_append] at ht'
      have h1 := consumeWs_rest (t := { t with rest := b ++ (m ++ (b' ++ (s ++ (c ++ k)))), col := t.col + 1 }) rfl hb hmh
      obtain ⟨t2, e1, t', e2, e3⟩ := step _ _ h1 rfl
      refine ⟨t', ?_, e3⟩
      obtain ⟨a, hpa⟩ := Option.isSome_iff_exists.mp (ho1 (.inl rfl))
      obtain ⟨d, r', hd, hd'⟩ : ∃ d r', b ++ (m ++ (b' ++ (s ++ (c ++ k)))) = d :: r' ∧ d ≠ '@' := by
        cases b with
        | nil =>
          refine ⟨x, r ++ (b' ++ (s ++ (c ++ k))), by rw [hxr]; simp, ?_⟩
          simp only [List.mem_cons, List.not_mem_nil, or_false, not_or] at hx
          exact hx.2.2.2.2
        | cons d b =>
          refine ⟨d, _, rfl, ?_⟩
          rintro rfl
          have := (hb '@' (by simp)).1
          rw [ha.wsF (by decide) (by decide)] at this; cases this
      rw [amounts]
      split <;> rename_i heq <;> rw [ht'] at heq <;> simp at heq
      · subst heq
        simp only [hpa]
        split
        · rename_i h; rw [h] at hd; cases hd
        · rename_i d1 r1 h
          rw [h] at hd
          obtain ⟨rfl, rfl⟩ : d1 = d ∧ r1 = r' := by simpa using hd
          simp only [hd', if_false]
          rw [e1]
          refine Eq.trans ?_ e2
          simp only [Field.set, hpa]
      · have := heq.1.symm; contradiction
    | totalCost =>
      simp only [Field.mark, List.cons_append, List.nil_append] at ht'
      have h1 := consumeWs_rest (t := { t with rest := b ++ (m ++ (b' ++ (s ++ (c ++ k)))), col := t.col + 2 }) rfl hb hmh
      obtain ⟨t2, e1, t', e2, e3⟩ := step _ _ h1 rfl
      refine ⟨t', ?_, e3⟩
      obtain ⟨a, hpa⟩ := Option.isSome_iff_exists.mp (ho1 (.inr rfl))
      rw [amounts]
      split <;> rename_i heq <;> rw [ht'] at heq <;> simp at heq
      · subst heq
        simp only [hpa, if_true]
        rw [e1]
        refine Eq.trans ?_ e2
        simp only [Field.set, hpa]
      · have := heq.1.symm; contradiction

theorem accountAux_char {ws : Char → Bool} {c : Char} (h : ws c = false) (h' : c ≠ '\n') (r : Str) (line col : Nat) :
    accountAux ws (c :: r) line col = (accountAux ws r line (col + 1)).map (fun x => (c :: x.1, x.2)) := by
  rw [accountAux.eq_def]; simp [h, h']

theorem accountAux_newline {ws : Char → Bool} (h : ws '\n' = true) (r : Str) (line col : Nat) :
    accountAux ws ('\n' :: r) line col = some ([], .line, '\n' :: r, line, 0) := by
  rw [accountAux.eq_def]; simp [h]

theorem accountAux_tab {ws : Char → Bool} (h : ws '\t' = true) (r : Str) (line col : Nat) :
    accountAux ws ('\t' :: r) line col = some ([], .more, r, line, col + 1) := by
  rw [accountAux.eq_def]; simp [h]

theorem accountAux_blanks {ws : Char → Bool} {c d : Char} (h : ws c = true) (h1 : c ≠ '\n') (h2 : c ≠ '\t')
    (h3 : ws d = true) (h4 : d ≠ '\n') (r : Str) (line col : Nat) :
    accountAux ws (c :: d :: r) line col = some ([], .more, r, line, col + 2) := by
  rw [accountAux.eq_def]; simp [h, h1, h2, h3, h4]

theorem accountAux_blank {ws : Char → Bool} {c d : Char} (h : ws c = true) (h1 : c ≠ '\n') (h2 : c ≠ '\t')
    (h3 : ws d = false) (h4 : d ≠ '\n') (r : Str) (line col : Nat) :
    accountAux ws (c :: d :: r) line col =
      (accountAux ws r line (col + 2)).map (fun x => (c :: d :: x.1, x.2)) := by
  rw [accountAux.eq_def]; simp [h, h1, h2, h3, h4]

theorem accountAux_name {env : Env} (k : Str) : ∀ (n : Nat) (a : Str), a.length ≤ n →
    '\t' ∉ a → '\n' ∉ a → (∀ c, a.getLast? = some c → env.ws c = false) →
    (∀ pre x y post, a = pre ++ x :: y :: post → env.ws x = true → env.ws y = false) → ∀ line col,
    accountAux env.ws (a ++ k) line col =
      (accountAux env.ws k line (col + a.length)).map (fun x => (a ++ x.1, x.2)) := by
  intro n
  induction n with
  | zero =>
    intro a hn _ _ _ _ line col
    obtain rfl : a = [] := by simpa using hn
    simp only [List.nil_append, List.length_nil, Nat.add_zero]
    cases accountAux env.ws k line col <;> rfl
  | succ n ih =>
    intro a hn h1 h2 h3 h4 line col
    cases a with
    | nil =>
      simp only [List.nil_append, List.length_nil, Nat.add_zero]
      cases accountAux env.ws k line col <;> rfl
    | cons c a =>
      simp only [List.mem_cons, not_or] at h1 h2
      have hc1 : c ≠ '\t' := Ne.symm h1.1
      have hc2 : c ≠ '\n' := Ne.symm h2.1
      cases hw : env.ws c with
      | false =>
        rw [List.cons_append, accountAux_char hw hc2,
          ih a (by simpa using hn) h1.2 h2.2 ?_ ?_, Option.map_map, List.length_cons]
        · rw [show col + 1 + a.length = col + (a.length + 1) by omega]
          rfl
        · intro x hx
          refine h3 x ?_
          rw [List.getLast?_cons, hx]; rfl
        · intro pre x y post he hx
          exact h4 (c :: pre) x y post (by rw [he]; rfl) hx
      | true =>
        cases a with
        | nil =>
          have := h3 c rfl
          rw [hw] at this; cases this
        | cons d a =>
          simp only [List.mem_cons, not_or] at h1 h2
          have hd := h4 [] c d a rfl hw
          have hd2 : d ≠ '\n' := Ne.symm h2.2.1
          rw [List.cons_append, List.cons_append, accountAux_blank hw hc2 hc1 hd hd2, ih a (by simp at hn; omega) h1.2.2 h2.2.2 ?_ ?_, Option.map_map]
          · simp only [List.length_cons]
            rw [show col + 2 + a.length = col + (a.length + 1 + 1) by omega]
            rfl
          · intro x hx
            refine h3 x ?_
            rw [List.getLast?_cons, List.getLast?_cons, hx]; rfl
          · intro pre x y post he hx
            exact h4 (c :: d :: pre) x y post (by rw [he]; rfl) hx

theorem account_name {env : Env} {s a : Str} {k : Kind} (h : WritesAccount env s a k) : AccountName env s := by
  cases h with
  | real h _ => exact h
  | virt h _ _ _ => exact h
  | virtBal h _ _ _ => exact h

theorem account_head {env : Env} (ha : env.AsciiChars) {s a : Str} {k : Kind} (h : WritesAccount env s a k) :
    ∃ c r, s = c :: r ∧ env.ws c = false ∧ env.numeric c = false ∧ c ≠ ';' := by
  have hn := account_name h
  cases s with
  | nil => exact absurd rfl hn.1
  | cons c r =>
    refine ⟨c, r, rfl, hn.2.1.1 c rfl, ?_⟩
    cases h with
    | real _ h =>
      obtain ⟨_, h2, h3⟩ := h c rfl
      simp only [List.mem_cons, List.not_mem_nil, or_false, not_or] at h3
      exact ⟨h2, h3.2.2⟩
    | virt => exact ⟨ha.numF (by decide) (by decide), by decide⟩
    | virtBal => exact ⟨ha.numF (by decide) (by decide), by decide⟩

theorem accountKind_ok {env : Env} {s a : Str} {k : Kind} (h : WritesAccount env s a k) :
    accountKind env s = .ok (.ok (a, k)) := by
  have hn := account_name h
  cases h with
  | real _ h =>
    cases s with
    | nil => exact absurd rfl hn.1
    | cons c r =>
      obtain ⟨h1, h2, h3⟩ := h c rfl
      simp only [List.mem_cons, List.not_mem_nil, or_false, not_or] at h3
      simp only [accountKind, h3.1, h3.2.1, if_false]
      rw [if_neg (by omega)]
  | @virt b a b' _ hb hb' ht =>
    have e1 : ('(' :: b ++ a ++ b' ++ [')']).getLast? = some ')' := List.getLast?_concat
    have e2 : (('(' :: b ++ a ++ b' ++ [')']).dropLast).drop 1 = b ++ a ++ b' := by
      rw [List.dropLast_concat]; simp
    have e3 : '(' :: b ++ a ++ b' ++ [')'] = '(' :: (b ++ a ++ b' ++ [')']) := by simp
    rw [e3] at e1 e2 ⊢
    simp only [accountKind]
    rw [if_neg (by decide), if_pos trivial, if_pos e1, e2,
      trim_wrap (fun c hc => (hb c hc).1) ht (fun c hc => (hb' c hc).1)]
  | @virtBal b a b' _ hb hb' ht =>
    have e1 : ('[' :: b ++ a ++ b' ++ [']']).getLast? = some ']' := List.getLast?_concat
    have e2 : (('[' :: b ++ a ++ b' ++ [']']).dropLast).drop 1 = b ++ a ++ b' := by
      rw [List.dropLast_concat]; simp
    have e3 : '[' :: b ++ a ++ b' ++ [']'] = '[' :: (b ++ a ++ b' ++ [']']) := by simp
    rw [e3] at e1 e2 ⊢
    simp only [accountKind]
    rw [if_neg (by decide), if_neg (by decide), if_pos trivial, if_pos e1, e2,
      trim_wrap (fun c hc => (hb c hc).1) ht (fun c hc => (hb' c hc).1)]

/-- After the account: the separator is consumed. -/
theorem accountAux_sep {env : Env} {s a sep k : Str} {kd : Kind} (h : WritesAccount env s a kd)
    (hs : AccountSep env sep) (line col : Nat) :
    ∃ b' line' col', accountAux env.ws (s ++ (sep ++ k)) line col = some (s, .more, b' ++ k, line', col') ∧
      Blanks env b' := by
  obtain ⟨_, h2, h3, h4, h5⟩ := account_name h
  rw [accountAux_name _ _ s le_rfl h3 h4 h2.2 h5]
  obtain ⟨hb, hs⟩ := hs
  cases sep with
  | nil => rcases hs with h | ⟨x, y, r, h⟩ <;> cases h
  | cons x r =>
    obtain ⟨hx1, hx2⟩ := hb x (by simp)
    by_cases hx : x = '\t'
    · subst hx
      refine ⟨r, line, col + s.length + 1, ?_, hb.tail⟩
      rw [List.cons_append, accountAux_tab hx1]
      simp
    · rcases hs with h | ⟨x', y, r', h⟩
      · exact absurd (by simpa using h) hx
      · obtain ⟨rfl, rfl⟩ : x = x' ∧ r = y :: r' := by simpa using h
        obtain ⟨hy1, hy2⟩ := hb y (by simp)
        refine ⟨r', line, col + s.length + 2, ?_, hb.tail.tail⟩
        rw [List.cons_append, List.cons_append, accountAux_blanks hx1 hx2 hx hy1 hy2]
        simp

theorem valueExprAux_inside {e r : Str} (h1 : '\n' ∉ e) (h2 : ';' ∉ e) (o c line col : Nat) :
    valueExprAux (e ++ r) o c line col =
      (e ++ (valueExprAux r (o + e.count '(') (c + e.count ')') line col).1,
        (valueExprAux r (o + e.count '(') (c + e.count ')') line col).2) := by
  induction e generalizing o c with
  | nil => simp
  | cons x e ih =>
    simp only [List.mem_cons, not_or] at h1 h2
    have hx1 : x ≠ '\n' := Ne.symm h1.1
    have hx2 : x ≠ ';' := Ne.symm h2.1
    rw [List.cons_append, valueExprAux]
    by_cases ho : x = '('
    · subst ho
      simp only [if_true, ih h1.2 h2.2]
      rw [List.count_cons_self, List.count_cons_of_ne (by decide), show o + 1 + e.count '(' = o + (e.count '(' + 1) by omega]
      rfl
    · rw [if_neg ho]
      by_cases hc : x = ')'
      · subst hc
        simp only [if_true, ih h1.2 h2.2]
        rw [List.count_cons_self, List.count_cons_of_ne (by decide), show c + 1 + e.count ')' = c + (e.count ')' + 1) by omega]
        rfl
      · rw [if_neg hc, if_neg hx1, if_neg hx2, List.count_cons_of_ne (fun h => ho h), List.count_cons_of_ne (fun h => hc h)]
        simp only [ih h1.2 h2.2]
        rfl

theorem getValueExpression_ok {env : Env} {t : Tok} {e c k : Str} {cs : List Str} (h : e.count '(' = e.count ')')
    (h1 : '\n' ∉ e) (h2 : ';' ∉ e) (hc : WritesCommentOpt env c cs) (hk : Eol k) (ht : t.rest = e ++ (c ++ k)) :
    (getValueExpression t).1 = e ∧ (getValueExpression t).2.rest = c ++ k := by
  have stop : valueExprAux (c ++ k) (0 + e.count '(') (0 + e.count ')') t.line t.col = ([], c ++ k, t.line, t.col) := by
    cases hck : c ++ k with
    | nil => rfl
    | cons x r =>
      rcases commentOpt_head hc hk x (by rw [hck]; rfl) with rfl | rfl
      · simp [valueExprAux]
      · simp [valueExprAux, h]
  simp only [getValueExpression, ht, valueExprAux_inside h1 h2, stop]
  simp

/-- A posting is read as it is meant. -/
theorem parsePosting_ok {env : Env} (ha : env.AsciiChars) {fuel : Nat} {tt : TType} {payee : Option Str} {t : Tok} {s k : Str}
    {p : RawPosting} (h : WritesPosting env payee s p) (ht : t.rest = s ++ k) (hk : Eol k)
    (hl : k = [] → ∀ a kd, ¬ WritesAccount env s a kd) (hf : 4 ≤ fuel) :
    ∃ t', parsePosting env fuel tt payee t = .ok (.ok p, t') ∧ AtEnd t' k := by
  cases h with
  | @account _ a kd h =>
    obtain ⟨_, h2, h3, h4, h5⟩ := account_name h
    rcases hk with rfl | ⟨k', rfl⟩
    · exact absurd h (hl rfl a _)
    · have e : accountAux env.ws (s ++ '\n' :: k') t.line t.col = some (s, .line, '\n' :: k', t.line, 0) := by
        rw [accountAux_name _ _ s le_rfl h3 h4 h2.2 h5,
          accountAux_newline (ha.wsT (by decide) (by decide))]
        simp
      refine ⟨{ t with rest := '\n' :: k', col := 0 }, ?_, .inl rfl⟩
      simp only [parsePosting, ht, e, accountKind_ok h, if_true]
  | @amounts s a sep f c kd fs cs h hs hff ho hc =>
    obtain ⟨b', line', col', e, hb'⟩ := accountAux_sep (k := f ++ (c ++ k)) h hs t.line t.col
    have hr := consumeWs_rest (t := { t with rest := b' ++ (f ++ (c ++ k)), line := line', col := col' }) rfl hb'
      (fields_next ha hff hc hk)
    have hlen : fs.length < fuel := by
      have : (fs.map (·.1)).length ≤ 3 := by
        simp only [FieldOrder, List.mem_cons, List.not_mem_nil, or_false] at ho
        rcases ho with h | h | h | h | h | h | h | h <;> rw [h] <;> simp
      rw [List.length_map] at this
      omega
    obtain ⟨t', e1, e2⟩ := amounts_ok ha (tt := tt) hff hc hk fuel
      { account := a, kind := kd, payee := payee } _ ho.costOk hlen hr
    refine ⟨t', ?_, e2⟩
    have ht' : t.rest = s ++ (sep ++ (f ++ (c ++ k))) := by rw [ht]; simp
    simp only [parsePosting, ht', e, accountKind_ok h]
    rw [if_neg (by decide), e1]
    simp
  | @expr s a sep e c kd cs h hs he1 he2 he3 he4 hc =>
    obtain ⟨b', line', col', ea, hb'⟩ := accountAux_sep (k := e ++ (c ++ k)) h hs t.line t.col
    obtain ⟨r, rfl⟩ : ∃ r, e = '(' :: r := by
      cases e with
      | nil => cases he1
      | cons x r => exact ⟨r, by rw [show x = '(' by simpa using he1]⟩
    have hr := consumeWs_rest (t := { t with rest := b' ++ ('(' :: r ++ (c ++ k)), line := line', col := col' }) rfl hb'
      (by intro x hx; simp at hx; subst hx; exact blank_false (ha.wsF (by decide) (by decide)))
    obtain ⟨g1, g2⟩ := getValueExpression_ok he2 he3 he4 hc hk hr
    have hnb : ∀ x, (c ++ k).head? = some x → env.blank x = false := by
      intro x hx
      rcases commentOpt_head hc hk x hx with rfl | rfl
      · exact blank_false (ha.wsF (by decide) (by decide))
      · simp [Env.blank]
    have hw := consumeWs_rest (b := []) (by rw [g2]; rfl) (by intro x hx; cases hx) hnb
    obtain ⟨fuel, rfl⟩ : ∃ m, fuel = m + 1 + 1 := ⟨fuel - 2, by omega⟩
    obtain ⟨t', e1, e2⟩ := amounts_done (tt := tt) (n := fuel)
      (p := { account := a, kind := kd, payee := payee, amountExpr := some ('(' :: r) }) hw hc hk
    refine ⟨t', ?_, e2⟩
    have ht' : t.rest = s ++ (sep ++ ('(' :: r ++ (c ++ k))) := by rw [ht]; simp
    simp only [parsePosting, ht', ea, accountKind_ok h]
    rw [if_neg (by decide), Dinero.amounts]
    split <;> rename_i heq <;> rw [hr] at heq <;> simp at heq
    · simp only [g1]
      rw [e1]
      simp
    · have := heq.1.symm; contradiction

/-! ### Transactions -/

/-- The effect of a line on a transaction. -/
def addLine (txn : Txn RawPosting) : TxnLine → Txn RawPosting
  | .comment c =>
    if txn.postings = [] then { txn with comments := txn.comments ++ [c] }
    else { txn with postings := addComment c txn.postings }
  | .posting p => { txn with postings := txn.postings ++ [p] }

theorem addComment_last (c : Str) (ps : List RawPosting) (p : RawPosting) :
    addComment c (ps ++ [p]) = ps ++ [{ p with comments := p.comments ++ [c] }] := by
  induction ps with
  | nil => rfl
  | cons q ps ih =>
    cases ps with
    | nil => rfl
    | cons r ps =>
      simp only [List.cons_append] at ih ⊢
      rw [addComment, ih]

theorem addLines_posting (xs : List TxnLine) : ∀ (txn : Txn RawPosting) (ps : List RawPosting) (p : RawPosting),
    txn.postings = ps ++ [p] → xs.foldl addLine txn =
      { txn with postings := ps ++ { p with comments := p.comments ++ (attach xs).1 } :: (attach xs).2 } := by
  induction xs with
  | nil => intro txn ps p h; simp [attach, ← h]
  | cons x xs ih =>
    intro txn ps p h
    rw [List.foldl_cons]
    cases x with
    | comment c =>
      have e : addLine txn (.comment c) =
          { txn with postings := ps ++ [{ p with comments := p.comments ++ [c] }] } := by
        rw [addLine, if_neg (by rw [h]; simp), h, addComment_last]
      rw [ih _ ps _ (by rw [e])]
      rw [e]
      simp [attach]
    | posting q =>
      rw [ih _ (txn.postings) q (by simp [addLine])]
      simp [addLine, attach, h]

/-- The lines of a transaction have the meaning they should have. -/
theorem addLines_eq (xs : List TxnLine) : ∀ (txn : Txn RawPosting), txn.postings = [] →
    xs.foldl addLine txn =
      { txn with comments := txn.comments ++ (attach xs).1, postings := (attach xs).2 } := by
  induction xs with
  | nil => intro txn h; simp [attach, ← h]
  | cons x xs ih =>
    intro txn h
    rw [List.foldl_cons]
    cases x with
    | comment c =>
      have e : addLine txn (.comment c) = { txn with comments := txn.comments ++ [c] } := by
        rw [addLine, if_pos h]
      rw [ih _ (by rw [e]; exact h), e]
      simp [attach]
    | posting q =>
      rw [addLines_posting xs _ [] q (by simp [addLine, h])]
      simp [addLine, attach]

/-- The lines after an item: none, blank ones, or the next item. -/
def Stops (env : Env) (more : List Str) : Prop :=
  ∀ t, At env t more → ∃ t', wsLines env t = (t', .blank) ∧ At env t' more

theorem tailText_nil {ls : List Str} (h : tailText ls = []) : ls = [] := by
  cases ls with
  | nil => rfl
  | cons l ls => rw [tailText_cons] at h; cases h

/-- This line is not just an account. -/
def NotAccount (env : Env) (l : Str) : Prop :=
  ∀ i s a k, l = i ++ s → i ≠ [] → Blanks env i → ¬ WritesAccount env s a k

theorem posting_head {env : Env} (ha : env.AsciiChars) {payee : Option Str} {s : Str} {p : RawPosting}
    (h : WritesPosting env payee s p) : ∃ c r, s = c :: r ∧ env.ws c = false ∧ env.numeric c = false ∧ c ≠ ';' := by
  cases h with
  | account h => exact account_head ha h
  | amounts h =>
    obtain ⟨c, r, rfl, h'⟩ := account_head ha h
    exact ⟨c, _, rfl, h'⟩
  | expr h =>
    obtain ⟨c, r, rfl, h'⟩ := account_head ha h
    exact ⟨c, _, rfl, h'⟩

theorem txnLines_ok {env : Env} (ha : env.AsciiChars) {fuel : Nat} {payee : Option Str} {ls more : List Str}
    {xs : List TxnLine} (hf : 4 ≤ fuel) (h : WritesBody env (WritesTxnLine env payee) ls xs) (hm : Stops env more)
    (hl : more = [] → ∀ l, ls.getLast? = some l → NotAccount env l) :
    ∀ (n : Nat) (txn : Txn RawPosting) (t : Tok), txn.payee = payee → ls.length < n → At env t (ls ++ more) →
      ∃ t', txnLines env fuel n txn t = .ok (xs.foldl addLine txn, t') ∧ At env t' more := by
  induction h with
  | nil =>
    intro n txn t _ hn hat
    obtain ⟨n, rfl⟩ : ∃ m, n = m + 1 := ⟨n - 1, by simp at hn; omega⟩
    obtain ⟨t', h1, h2⟩ := hm t hat
    exact ⟨t', by simp [txnLines, h1], h2⟩
  | @blank b ls xs hb h ih =>
    intro n txn t hp hn hat
    refine ih ?_ n txn t hp (by simp at hn; omega) (hat.blank hb)
    intro h0 l hl'
    refine hl h0 l ?_
    rw [List.getLast?_cons, hl']; rfl
  | @cons l x ls xs hx h ih =>
    intro n txn t hp hn hat
    obtain ⟨n, rfl⟩ : ∃ m, n = m + 1 := ⟨n - 1, by simp at hn; omega⟩
    have hl' : more = [] → ∀ l, ls.getLast? = some l → NotAccount env l := by
      intro h0 l hl'
      refine hl h0 l ?_
      rw [List.getLast?_cons, hl']; rfl
    have hlen : ls.length < n := by simp at hn; omega
    rw [List.cons_append] at hat
    cases hx with
    | @posting i s p hi0 hi hps =>
      obtain ⟨c, r, rfl, hc1, hc2, hc3⟩ := posting_head ha hps
      obtain ⟨t1, e1, e2⟩ := hat.indent ha hi hi0 hc1
      have hacc : tailText (ls ++ more) = [] → ∀ a kd, ¬ WritesAccount env (c :: r) a kd := by
        intro h0 a kd
        have h0 := tailText_nil h0
        rw [List.append_eq_nil_iff] at h0
        obtain ⟨rfl, rfl⟩ := h0
        exact hl rfl (i ++ c :: r) rfl i (c :: r) a kd rfl hi0 hi
      obtain ⟨t2, e3, e4⟩ := parsePosting_ok ha (tt := txn.ttype) hps e2 (eol_tailText _) hacc hf
      obtain ⟨t', e5, e6⟩ := ih hl' n (addLine txn (.posting p)) t2 (by simpa [addLine] using hp) hlen e4.at
      refine ⟨t', ?_, e6⟩
      rw [txnLines, e1]
      simp only [e2, List.cons_append, hc3, hc2, if_false, Bool.false_eq_true]
      have e3' : parsePosting env fuel txn.ttype txn.payee t1 = .ok (.ok p, t2) := by rw [hp]; exact e3
      rw [e3']
      exact e5
    | @comment i s c hi0 hi hc =>
      cases hc with
      | @mk b c hb hc1 hc2 =>
        have hsemi : env.ws ';' = false := ha.wsF (by decide) (by decide)
        obtain ⟨t1, e1, e2⟩ := At.indent (r := b ++ c) ha (by simpa using hat) hi hi0 hsemi
        obtain ⟨e3, e4⟩ := commentTok_ok e2 hb hc1 hc2 (eol_tailText _)
        obtain ⟨t', e5, e6⟩ := ih hl' n (addLine txn (.comment c)) (commentTok env t1).2
          (by rw [← hp, addLine]; split <;> rfl) hlen e4.at
        refine ⟨t', ?_, e6⟩
        rw [txnLines, e1]
        simp only [e2, List.cons_append, if_true, e3]
        rw [List.foldl_cons, ← e5, addLine]
        split <;> rfl

/-! ### The first lines -/

theorem spaces_nl {b : Str} (h : Spaces b) : '\n' ∉ b := fun hm => absurd (h _ hm) (by decide)

theorem digits_nl {s : Str} (h : IsDigits s) : '\n' ∉ s := fun hm => absurd (h.2 _ hm) (by decide)

theorem date_nl {s : Str} {y : Int} {m d : Nat} (h : WritesDate s y m d) : '\n' ∉ s := by
  cases h with
  | mk neg hy hm hd hs =>
    have h1 := digits_nl hy
    have h2 := digits_nl hm.1
    have h3 := digits_nl hd.1
    simp only [List.mem_cons, List.not_mem_nil, or_false] at hs
    rcases hs with rfl | rfl | rfl <;> cases neg <;> simp [h1, h2, h3]

theorem when_nl {s : Str} {d : Date} (h : WritesWhen s d) : '\n' ∉ s := by
  cases h with
  | date h => exact date_nl h
  | time h _ _ _ ht =>
    have h1 := date_nl h
    cases ht with
    | mk hh _ _ hm _ _ hs =>
      have h2 := digits_nl hh.1
      have h3 := digits_nl hm.1
      have h4 := digits_nl hs.1
      simp [h1, h2, h3, h4]

theorem when_head {s : Str} {d : Date} (h : WritesWhen s d) :
    ∃ c r, s = c :: r ∧ (('0' ≤ c ∧ c ≤ '9') ∨ c = '-') := by
  have key : ∀ {s : Str} {y : Int} {m d : Nat}, WritesDate s y m d →
      ∃ c r, s = c :: r ∧ (('0' ≤ c ∧ c ≤ '9') ∨ c = '-') := by
    intro s y m d h
    cases h with
    | @mk ys ms ds _ _ sep neg hy hm hd hs =>
      cases neg with
      | true => exact ⟨'-', ys ++ [sep] ++ ms ++ [sep] ++ ds, by simp, .inr rfl⟩
      | false =>
        cases ys with
        | nil => exact absurd rfl hy.1
        | cons c r => exact ⟨c, r ++ [sep] ++ ms ++ [sep] ++ ds, by simp, .inl (hy.2 c (by simp))⟩
  cases h with
  | date h => exact key h
  | time h =>
    obtain ⟨c, r, rfl, hc⟩ := key h
    exact ⟨c, _, rfl, hc⟩

theorem headerText_nl {env : Env} {s : Str} (h : HeaderText env s) : '\n' ∉ s := fun hm => absurd (h.2.1 _ hm) (by decide)

theorem headerEnd_nl {en : Str} {cs : List Str} (h : WritesHeaderEnd en cs) : '\n' ∉ en := by
  cases h with
  | none => simp
  | cr => decide
  | comment h => simp [h]

theorem header_nl {env : Env} {h : Str} {t : Txn RawPosting} (hh : WritesHeader env h t) :
    '\n' ∉ h ∧ t.postings = [] ∧ t.ttype = .real ∧ ∃ c r, h = c :: r ∧ (('0' ≤ c ∧ c ≤ '9') ∨ c = '-') := by
  cases hh with
  | @mk d e b st b' co b'' desc b3 pa en date eff payee cs hd he hb hb0 hst hb' hco hb'' hdesc hb3 hpa hen q1 q2 q3 =>
  refine ⟨?_, rfl, rfl, ?_⟩
  · have n1 := when_nl hd
    have n2 : '\n' ∉ e := by
      cases he with
      | none => simp
      | some h => simp [when_nl h]
    have n3 := spaces_nl hb
    have n4 : '\n' ∉ st := by rcases hst with rfl | rfl | rfl <;> decide
    have n5 := spaces_nl hb'
    have n6 : '\n' ∉ co := by
      cases hco with
      | none => simp
      | some _ _ h => simp [h]
    have n7 := spaces_nl hb''
    have n8 := headerText_nl hdesc
    have n9 := spaces_nl hb3
    have n10 : '\n' ∉ pa := by
      cases hpa with
      | none => simp
      | some h1 h2 h3 => simp [spaces_nl h1, headerText_nl h2, spaces_nl h3]
    have n11 := headerEnd_nl hen
    simp [n1, n2, n3, n4, n5, n6, n7, n8, n9, n10, n11]
  · obtain ⟨c, r, rfl, hc⟩ := when_head hd
    exact ⟨c, r ++ (e ++ b ++ st ++ b' ++ co ++ b'' ++ desc ++ b3 ++ pa ++ en), by simp, hc⟩

theorem commodityText_nl {env : Env} (ha : env.AsciiChars) {cs c : Str} (h : WritesCommodity env cs c) : '\n' ∉ cs := by
  cases h with
  | plain _ h =>
    intro hm
    have := h _ hm
    rw [ha.wsT (by decide) (by decide)] at this; cases this
  | quoted _ _ h => simp [h]

theorem commodityText_trim {env : Env} {cs c : Str} (h : WritesCommodity env cs c) : trim env c = c := by
  have ht : Trimmed env c := by
    cases h with
    | plain _ h =>
      exact ⟨fun x hx => h x (List.mem_of_head? hx), fun x hx => h x (List.mem_of_getLast? hx)⟩
    | quoted _ _ _ h => exact h
  simpa using trim_wrap (b := []) (b' := []) (by simp) ht (by simp)

theorem price_nl {env : Env} (ha : env.AsciiChars) {l : Str} {p : ParsedPrice} (h : WritesPrice env l p) :
    '\n' ∉ l ∧ ∃ r, l = 'P' :: r := by
  cases h with
  | @mk b1 d b2 cs c b3 n b4 os o b5 en date q cm hb1 hd hb2 hb2' hc hb3 hb3' hn hb4 hb4' ho hb5 hen hr =>
  have hnum : '\n' ∉ n := by
    have key : ∀ {n : Str}, IsNumeral n → '\n' ∉ n := by
      intro n hn
      rcases hn with hn | ⟨a, b, rfl, ha, hb⟩
      · exact digits_nl hn
      · simp [digits_nl ha, digits_nl hb]
    cases hn with
    | pos h => exact key h
    | neg h => simp [key h]
  refine ⟨?_, _, rfl⟩
  simp [spaces_nl hb1, when_nl hd, spaces_nl hb2, commodityText_nl ha hc, spaces_nl hb3, hnum, spaces_nl hb4,
    commodityText_nl ha ho, spaces_nl hb5, headerEnd_nl hen]

/-- A transaction is read as it is meant. -/
theorem transactionTok_ok {env : Env} (ha : env.AsciiChars) {fuel : Nat} {h : Str} {t0 : Txn RawPosting} {ls more : List Str}
    {xs : List TxnLine} {t : Tok} (hh : WritesHeader env h t0) (hf : 4 ≤ fuel)
    (hb : WritesBody env (WritesTxnLine env t0.payee) ls xs) (hm : Stops env more)
    (hl : more = [] → ∀ l, ls.getLast? = some l → NotAccount env l) (hn : ls.length < fuel)
    (ht : t.rest = h ++ tailText (ls ++ more)) :
    ∃ t', transactionTok env fuel t =
      .ok ({ t0 with comments := t0.comments ++ (attach xs).1, postings := (attach xs).2 }, t') ∧ At env t' more := by
  obtain ⟨n1, n2, _⟩ := header_nl hh
  obtain ⟨e1, e2⟩ := getLine_line ht n1 (eol_tailText _)
  obtain ⟨t', e3, e4⟩ := txnLines_ok ha hf hb hm hl fuel t0 (getLine t).2 rfl hn e2.at
  refine ⟨t', ?_, e4⟩
  simp only [transactionTok, e1, parseHeader_ok (ha.wsT (by decide) (by decide)) hh]
  rw [e3, addLines_eq _ _ n2]

theorem automatedTok_ok {env : Env} (ha : env.AsciiChars) {fuel : Nat} {d : Str} {ls more : List Str}
    {xs : List TxnLine} {t : Tok} (hd : '\n' ∉ d) (hf : 4 ≤ fuel)
    (hb : WritesBody env (WritesTxnLine env none) ls xs) (hm : Stops env more)
    (hl : more = [] → ∀ l, ls.getLast? = some l → NotAccount env l) (hn : ls.length < fuel)
    (ht : t.rest = '=' :: d ++ tailText (ls ++ more)) :
    ∃ t', automatedTok env fuel t =
      .ok ({ ttype := .automated, description := d, comments := (attach xs).1, postings := (attach xs).2 }, t') ∧
      At env t' more := by
  obtain ⟨e1, e2⟩ := getLine_line ht (by simp [hd]) (eol_tailText _)
  obtain ⟨t', e3, e4⟩ := txnLines_ok ha hf hb hm hl fuel { ttype := .automated, description := d } (getLine t).2
    rfl hn e2.at
  refine ⟨t', ?_, e4⟩
  simp only [automatedTok, e1]
  have : ('=' :: d).dropWhile (· != '=') = '=' :: d := by simp
  rw [this]
  simp only [e3]
  rw [addLines_eq _ _ rfl]
  simp

/-! ### Directives -/

/-- The letters of the words of the directives. -/
theorem word_plain {env : Env} (ha : env.AsciiChars) {w : Str} (h : w.all (fun c => decide ('a' ≤ c ∧ c ≤ 'z')) = true) :
    ∀ x ∈ w, env.wordEnd x = false ∧ x ≠ '"' ∧ x ≠ '\n' ∧ env.ws x = false ∧ x ≠ ';' := by
  intro x hx
  have h := List.all_eq_true.mp h x hx
  simp only [decide_eq_true_eq] at h
  have h1 : 97 ≤ x.toNat := h.1
  have h2 : x.toNat ≤ 122 := h.2
  have hne : ∀ c : Char, (c.toNat < 97 ∨ 122 < c.toNat) → x ≠ c := by
    rintro c hc rfl; omega
  have hw : env.ws x = false := by
    refine ha.wsF (by omega) ?_
    rintro (h | h)
    · exact hne ' ' (by decide) h
    · omega
  have hd : env.numeric x = false := by
    refine ha.numF (by omega) ?_
    rintro ⟨_, h⟩
    have : x.toNat ≤ 57 := h
    omega
  refine ⟨?_, hne _ (by decide), hne _ (by decide), hw, hne _ (by decide)⟩
  simp [Env.wordEnd, hw, hd, hne '.' (by decide), hne '-' (by decide), hne ';' (by decide)]

theorem getString_word {env : Env} (ha : env.AsciiChars) {t : Tok} {w b k : Str} (hw0 : w ≠ [])
    (hw : w.all (fun c => decide ('a' ≤ c ∧ c ≤ 'z')) = true) (hb : Blanks env b)
    (hk : ∀ c, k.head? = some c → env.blank c = false) (hk' : b = [] → WordStop env k)
    (ht : t.rest = w ++ (b ++ k)) : (getString env t).1 = w ∧ (getString env t).2.rest = k := by
  have hp := word_plain ha hw
  refine getString_rest (b := []) (by simpa using ht) (by intro c hc; cases hc) ?_
    (wordAux_plain (fun x hx => ⟨(hp x hx).1, (hp x hx).2.1, (hp x hx).2.2.1⟩) (blank_wordStop ha hb hk') true) hb hk
  intro c hc
  cases w with
  | nil => exact absurd rfl hw0
  | cons x w =>
    obtain rfl : x = c := by simpa using hc
    exact blank_false (hp x (by simp)).2.2.2.1

/-- What the loop over the lines of a directive sees: a comment, or a word and the rest of the line. -/
theorem property_line {env : Env} (ha : env.AsciiChars) {flags words : List Str} {l : Str} {p : Property} {ls : List Str}
    {t : Tok} (hfl : ∀ w ∈ flags, w ≠ [] ∧ w.all (fun c => decide ('a' ≤ c ∧ c ≤ 'z')) = true)
    (hwo : ∀ w ∈ words, w ≠ [] ∧ w.all (fun c => decide ('a' ≤ c ∧ c ≤ 'z')) = true)
    (h : WritesProperty env flags words l p) (hat : At env t (l :: ls)) :
    ∃ t1, wsLines env t = (t1, .indented) ∧
      ((p = .comment ∧ t1.rest.head? = some ';' ∧ AtEnd (getLine t1).2 (tailText ls) ∧
          AtEnd (commentTok env t1).2 (tailText ls)) ∨
       (t1.rest.head? ≠ some ';' ∧ ∃ w ∈ flags, p = .flag w ∧ (getString env t1).1 = w ∧
          AtEnd (getString env t1).2 (tailText ls)) ∨
       (t1.rest.head? ≠ some ';' ∧ ∃ w ∈ words, ∃ x, p = .value w x ∧ (getString env t1).1 = w ∧
          (lineTrim env (getString env t1).2).1 = x ∧ AtEnd (getLine (getString env t1).2).2 (tailText ls))) := by
  cases h with
  | @comment i s c hi0 hi hc =>
    cases hc with
    | @mk b c hb hc1 hc2 =>
      have hsemi : env.ws ';' = false := ha.wsF (by decide) (by decide)
      obtain ⟨t1, e1, e2⟩ := At.indent (r := b ++ c) ha (by simpa using hat) hi hi0 hsemi
      refine ⟨t1, e1, .inl ⟨rfl, by rw [e2]; rfl, ?_, (commentTok_ok e2 hb hc1 hc2 (eol_tailText _)).2⟩⟩
      refine (getLine_line e2 ?_ (eol_tailText _)).2
      have : '\n' ∉ b := fun hm => absurd rfl (hb _ hm).2
      simp [this, hc1]
  | @flag i w b hi0 hi hw hb =>
    obtain ⟨w0, wa⟩ := hfl w hw
    have hp := word_plain ha wa
    obtain ⟨c, r, rfl⟩ : ∃ c r, w = c :: r := by
      cases w with
      | nil => exact absurd rfl w0
      | cons c r => exact ⟨c, r, rfl⟩
    obtain ⟨t1, e1, e2⟩ := At.indent (r := r ++ b) ha (by simpa using hat) hi hi0 (hp c (by simp)).2.2.2.1
    refine ⟨t1, e1, .inr (.inl ⟨?_, c :: r, hw, rfl, ?_⟩)⟩
    · rw [e2]; simpa using (hp c (by simp)).2.2.2.2
    · obtain ⟨g1, g2⟩ := getString_word ha w0 wa hb (eol_blank (eol_tailText ls))
        (fun _ x hx => .inl ((eol_tailText ls).head x hx)) (t := t1) (by rw [e2]; simp)
      exact ⟨g1, .inl g2⟩
  | @value i w b x b' hi0 hi hw hb hb0 hb' hx ht =>
    obtain ⟨w0, wa⟩ := hwo w hw
    have hp := word_plain ha wa
    obtain ⟨c, r, rfl⟩ : ∃ c r, w = c :: r := by
      cases w with
      | nil => exact absurd rfl w0
      | cons c r => exact ⟨c, r, rfl⟩
    obtain ⟨t1, e1, e2⟩ := At.indent (r := r ++ (b ++ (x ++ b'))) ha (by simpa using hat) hi hi0 (hp c (by simp)).2.2.2.1
    refine ⟨t1, e1, .inr (.inr ⟨?_, c :: r, hw, x, rfl, ?_⟩)⟩
    · rw [e2]; simpa using (hp c (by simp)).2.2.2.2
    · have hnl' : '\n' ∉ b' := fun hm => absurd rfl (hb' _ hm).2
      by_cases hx0 : x = []
      · subst hx0
        obtain ⟨g1, g2⟩ := getString_word ha w0 wa (b := b ++ b') (k := tailText ls)
          (by intro c hc; rcases List.mem_append.mp hc with hc | hc; exacts [hb c hc, hb' c hc])
          (eol_blank (eol_tailText ls))
          (fun _ x hx => .inl ((eol_tailText ls).head x hx)) (t := t1) (by rw [e2]; simp)
        obtain ⟨l1, l2⟩ := getLine_line (l := []) (t := (getString env t1).2) (by rw [g2]; rfl) (by simp) (eol_tailText ls)
        refine ⟨g1, ?_, l2⟩
        simp only [lineTrim, l1]; rfl
      · have hxh : ∀ y, (x ++ b' ++ tailText ls).head? = some y → env.blank y = false := by
          intro y hy
          rw [List.append_assoc, List.head?_append_of_ne_nil _ hx0] at hy
          exact blank_false (ht.1 y hy)
        obtain ⟨g1, g2⟩ := getString_word ha w0 wa (b := b) (k := x ++ b' ++ tailText ls) hb hxh
          (fun h => absurd h hb0) (t := t1) (by rw [e2]; simp)
        obtain ⟨l1, l2⟩ := getLine_line (l := x ++ b') (t := (getString env t1).2) (by rw [g2])
          (by simp [hx, hnl']) (eol_tailText ls)
        refine ⟨g1, ?_, l2⟩
        simp only [lineTrim, l1]
        simpa using trim_wrap (b := []) (by simp) ht (fun c hc => (hb' c hc).1)

theorem propertyTexts_comment (w : String) (ps : List Property) : propertyTexts w (.comment :: ps) = propertyTexts w ps := rfl
theorem propertyTexts_flag (w : String) (x : Str) (ps : List Property) :
    propertyTexts w (.flag x :: ps) = propertyTexts w ps := rfl
theorem propertyTexts_value (w : String) (v x : Str) (ps : List Property) :
    propertyTexts w (.value v x :: ps) = if v = w.toList then x :: propertyTexts w ps else propertyTexts w ps := by
  unfold propertyTexts
  rw [List.filterMap_cons]
  by_cases h : v = w.toList <;> simp [h]

theorem distinct_eq (l : List Str) : distinct l = l.foldl setInsert [] := by
  unfold distinct
  congr 1
  funext acc x
  unfold setInsert
  by_cases h : x ∈ acc <;> simp [h]

theorem accountLines_ok {env : Env} (ha : env.AsciiChars) {ls more : List Str} {ps : List Property}
    (h : WritesBody env (WritesProperty env ["default".toList]
        ["note".toList, "isin".toList, "alias".toList, "check".toList, "assert".toList, "payee".toList]) ls ps)
    (hm : Stops env more) : ∀ (n : Nat) (a : AccountDef) (t : Tok),
      (∀ x ∈ propertyTexts "payee" ps, env.rxOk x = true) → ls.length < n → At env t (ls ++ more) →
      ∃ t', accountLines env n a t = .ok (.ok { a with aliases := (propertyTexts "alias" ps).foldl setInsert a.aliases
                                                       payees := a.payees ++ propertyTexts "payee" ps
                                                       isDefault := a.isDefault || hasFlag "default" ps }, t') ∧
        At env t' more := by
  induction h with
  | nil =>
    intro n a t _ hn hat
    obtain ⟨n, rfl⟩ : ∃ m, n = m + 1 := ⟨n - 1, by simp at hn; omega⟩
    obtain ⟨t', h1, h2⟩ := hm t hat
    exact ⟨t', by simp [accountLines, h1, propertyTexts, hasFlag], h2⟩
  | @blank b ls xs hb h ih =>
    intro n a t hx hn hat
    exact ih n a t hx (by simp at hn; omega) (hat.blank hb)
  | @cons l p ls ps hp h ih =>
    intro n a t hrx hn hat
    obtain ⟨n, rfl⟩ : ∃ m, n = m + 1 := ⟨n - 1, by simp at hn; omega⟩
    have hlen : ls.length < n := by simp at hn; omega
    obtain ⟨t1, e1, h1⟩ := property_line ha (by decide) (by decide) hp hat
    rw [accountLines, e1]
    rcases h1 with ⟨rfl, h2, h3, _⟩ | ⟨h2, w, hw, rfl, g1, g2⟩ | ⟨h2, w, hw, x, rfl, g1, g2, g3⟩
    · obtain ⟨t', e2, e3⟩ := ih n a (getLine t1).2 hrx hlen h3.at
      refine ⟨t', ?_, e3⟩
      simp only [h2, if_true]
      rw [e2]; rfl
    · simp only [List.mem_cons, List.not_mem_nil, or_false] at hw
      subst hw
      obtain ⟨t', e2, e3⟩ := ih n { a with isDefault := true } (getString env t1).2 hrx hlen g2.at
      refine ⟨t', ?_, e3⟩
      simp only [h2, if_false, g1]
      rw [if_neg (by decide), if_neg (by decide), if_neg (by decide), if_pos trivial, e2]
      simp [hasFlag, propertyTexts_flag]
    · rw [propertyTexts_value] at hrx
      have go : ∀ (a' : AccountDef), (∀ x ∈ propertyTexts "payee" ps, env.rxOk x = true) → _ :=
        fun a' hr => ih n a' (getLine (getString env t1).2).2 hr hlen g3.at
      have gl : (lineTrim env (getString env t1).2).2 = (getLine (getString env t1).2).2 := rfl
      simp only [h2, if_false, g1, g2, gl]
      simp only [List.mem_cons, List.not_mem_nil, or_false] at hw
      rcases hw with rfl | rfl | rfl | rfl | rfl | rfl
      · obtain ⟨t', e2, e3⟩ := go a (by rwa [if_neg (by decide)] at hrx)
        refine ⟨t', ?_, e3⟩
        rw [if_pos (by decide), e2, propertyTexts_value, propertyTexts_value, if_neg (by decide), if_neg (by decide)]
        rfl
      · obtain ⟨t', e2, e3⟩ := go a (by rwa [if_neg (by decide)] at hrx)
        refine ⟨t', ?_, e3⟩
        rw [if_pos (by decide), e2, propertyTexts_value, propertyTexts_value, if_neg (by decide), if_neg (by decide)]
        rfl
      · obtain ⟨t', e2, e3⟩ := go { a with aliases := setInsert a.aliases x } (by rwa [if_neg (by decide)] at hrx)
        refine ⟨t', ?_, e3⟩
        rw [if_neg (by decide), if_pos rfl, e2, propertyTexts_value, propertyTexts_value, if_pos rfl, if_neg (by decide)]
        rfl
      · obtain ⟨t', e2, e3⟩ := go a (by rwa [if_neg (by decide)] at hrx)
        refine ⟨t', ?_, e3⟩
        rw [if_pos (by decide), e2, propertyTexts_value, propertyTexts_value, if_neg (by decide), if_neg (by decide)]
        rfl
      · obtain ⟨t', e2, e3⟩ := go a (by rwa [if_neg (by decide)] at hrx)
        refine ⟨t', ?_, e3⟩
        rw [if_pos (by decide), e2, propertyTexts_value, propertyTexts_value, if_neg (by decide), if_neg (by decide)]
        rfl
      · rw [if_pos rfl] at hrx
        obtain ⟨t', e2, e3⟩ := go { a with payees := a.payees ++ [x] } (fun y hy => hrx y (by simp [hy]))
        refine ⟨t', ?_, e3⟩
        rw [if_neg (by decide), if_neg (by decide), if_pos rfl, if_pos (hrx x (by simp)), e2, propertyTexts_value,
          propertyTexts_value, if_neg (by decide), if_pos rfl]
        simp [hasFlag]

theorem commodityLines_ok {env : Env} (ha : env.AsciiChars) {ls more : List Str} {ps : List Property}
    (h : WritesBody env (WritesProperty env ["default".toList] ["note".toList, "alias".toList, "format".toList]) ls ps)
    (hm : Stops env more) : ∀ (n : Nat) (a : CurrencyDef) (t : Tok), ls.length < n → At env t (ls ++ more) →
      ∃ t', commodityLines env n a t =
        .ok (.ok { a with aliases := (propertyTexts "alias" ps).foldl setInsert a.aliases
                          isDefault := a.isDefault || hasFlag "default" ps }, t') ∧ At env t' more := by
  induction h with
  | nil =>
    intro n a t hn hat
    obtain ⟨n, rfl⟩ : ∃ m, n = m + 1 := ⟨n - 1, by simp at hn; omega⟩
    obtain ⟨t', h1, h2⟩ := hm t hat
    exact ⟨t', by simp [commodityLines, h1, propertyTexts, hasFlag], h2⟩
  | @blank b ls xs hb h ih =>
    intro n a t hn hat
    exact ih n a t (by simp at hn; omega) (hat.blank hb)
  | @cons l p ls ps hp h ih =>
    intro n a t hn hat
    obtain ⟨n, rfl⟩ : ∃ m, n = m + 1 := ⟨n - 1, by simp at hn; omega⟩
    have hlen : ls.length < n := by simp at hn; omega
    obtain ⟨t1, e1, h1⟩ := property_line ha (by decide) (by decide) hp hat
    rw [commodityLines, e1]
    rcases h1 with ⟨rfl, h2, _, h3⟩ | ⟨h2, w, hw, rfl, g1, g2⟩ | ⟨h2, w, hw, x, rfl, g1, g2, g3⟩
    · obtain ⟨t', e2, e3⟩ := ih n a (commentTok env t1).2 hlen h3.at
      refine ⟨t', ?_, e3⟩
      simp only [h2, if_true]
      rw [e2]; rfl
    · simp only [List.mem_cons, List.not_mem_nil, or_false] at hw
      subst hw
      obtain ⟨t', e2, e3⟩ := ih n { a with isDefault := true } (getString env t1).2 hlen g2.at
      refine ⟨t', ?_, e3⟩
      simp only [h2, if_false, g1]
      rw [if_neg (by decide), if_neg (by decide), if_pos trivial, e2]
      simp [hasFlag, propertyTexts_flag]
    · have go : ∀ (a' : CurrencyDef), _ :=
        fun a' => ih n a' (getLine (getString env t1).2).2 hlen g3.at
      have gl : (lineTrim env (getString env t1).2).2 = (getLine (getString env t1).2).2 := rfl
      simp only [h2, if_false, g1, g2, gl]
      simp only [List.mem_cons, List.not_mem_nil, or_false] at hw
      rcases hw with rfl | rfl | rfl
      · obtain ⟨t', e2, e3⟩ := go a
        refine ⟨t', ?_, e3⟩
        rw [if_pos (by decide), e2, propertyTexts_value, if_neg (by decide)]
        rfl
      · obtain ⟨t', e2, e3⟩ := go { a with aliases := setInsert a.aliases x }
        refine ⟨t', ?_, e3⟩
        rw [if_neg (by decide), if_pos rfl, e2, propertyTexts_value, if_pos rfl]
        rfl
      · obtain ⟨t', e2, e3⟩ := go a
        refine ⟨t', ?_, e3⟩
        rw [if_pos (by decide), e2, propertyTexts_value, if_neg (by decide)]
        rfl

theorem payeeLines_ok {env : Env} (ha : env.AsciiChars) {ls more : List Str} {ps : List Property}
    (h : WritesBody env (WritesProperty env [] ["alias".toList]) ls ps)
    (hm : Stops env more) : ∀ (n : Nat) (a : List Str) (t : Tok), ls.length < n → At env t (ls ++ more) →
      ∃ t', payeeLines env n a t = .ok (.ok ((propertyTexts "alias" ps).foldl setInsert a), t') ∧ At env t' more := by
  induction h with
  | nil =>
    intro n a t hn hat
    obtain ⟨n, rfl⟩ : ∃ m, n = m + 1 := ⟨n - 1, by simp at hn; omega⟩
    obtain ⟨t', h1, h2⟩ := hm t hat
    exact ⟨t', by simp [payeeLines, h1, propertyTexts], h2⟩
  | @blank b ls xs hb h ih =>
    intro n a t hn hat
    exact ih n a t (by simp at hn; omega) (hat.blank hb)
  | @cons l p ls ps hp h ih =>
    intro n a t hn hat
    obtain ⟨n, rfl⟩ : ∃ m, n = m + 1 := ⟨n - 1, by simp at hn; omega⟩
    have hlen : ls.length < n := by simp at hn; omega
    obtain ⟨t1, e1, h1⟩ := property_line ha (by decide) (by decide) hp hat
    rw [payeeLines, e1]
    rcases h1 with ⟨rfl, h2, _, h3⟩ | ⟨h2, w, hw, rfl, g1, g2⟩ | ⟨h2, w, hw, x, rfl, g1, g2, g3⟩
    · obtain ⟨t', e2, e3⟩ := ih n a (commentTok env t1).2 hlen h3.at
      refine ⟨t', ?_, e3⟩
      simp only [h2, if_true]
      rw [e2]; rfl
    · cases hw
    · have gl : (lineTrim env (getString env t1).2).2 = (getLine (getString env t1).2).2 := rfl
      simp only [h2, if_false, g1, g2, gl]
      simp only [List.mem_cons, List.not_mem_nil, or_false] at hw
      subst hw
      obtain ⟨t', e2, e3⟩ := ih n (setInsert a x) (getLine (getString env t1).2).2 hlen g3.at
      refine ⟨t', ?_, e3⟩
      rw [if_pos rfl, e2, propertyTexts_value, if_pos rfl]
      rfl

theorem tagLines_ok {env : Env} (ha : env.AsciiChars) {ls more : List Str} {ps : List Property}
    (h : WritesBody env (WritesProperty env [] ["check".toList, "assert".toList]) ls ps)
    (hm : Stops env more) : ∀ (n : Nat) (t : Tok), (∀ p ∈ ps, ∃ w x, p = .value w x) → ls.length < n →
      At env t (ls ++ more) → ∃ t', tagLines env n t = .ok (.ok (), t') ∧ At env t' more := by
  induction h with
  | nil =>
    intro n t _ hn hat
    obtain ⟨n, rfl⟩ : ∃ m, n = m + 1 := ⟨n - 1, by simp at hn; omega⟩
    obtain ⟨t', h1, h2⟩ := hm t hat
    exact ⟨t', by simp [tagLines, h1], h2⟩
  | @blank b ls xs hb h ih =>
    intro n t hv hn hat
    exact ih n t hv (by simp at hn; omega) (hat.blank hb)
  | @cons l p ls ps hp h ih =>
    intro n t hv hn hat
    obtain ⟨n, rfl⟩ : ∃ m, n = m + 1 := ⟨n - 1, by simp at hn; omega⟩
    have hlen : ls.length < n := by simp at hn; omega
    obtain ⟨t1, e1, h1⟩ := property_line ha (by decide) (by decide) hp hat
    rw [tagLines, e1]
    rcases h1 with ⟨rfl, h2, _, h3⟩ | ⟨h2, w, hw, rfl, g1, g2⟩ | ⟨h2, w, hw, x, rfl, g1, g2, g3⟩
    · obtain ⟨w, x, h⟩ := hv _ List.mem_cons_self; cases h
    · cases hw
    · obtain ⟨t', e2, e3⟩ := ih n (getLine (getString env t1).2).2 (fun p hp => hv p (by simp [hp])) hlen g3.at
      refine ⟨t', ?_, e3⟩
      simp only [h2, if_false, g1]
      simp only [List.mem_cons, List.not_mem_nil, or_false] at hw
      rw [if_pos hw, e2]

/-- The name of a directive at the start of a line. -/
theorem directiveName_ok {word b n : Str} (hw : word ≠ []) (hb : Spaces b) (hb0 : b ≠ []) (hn : n.head? ≠ some ' ') :
    directiveName word (word ++ b ++ n) = some n := by
  obtain ⟨c, w, rfl⟩ : ∃ c w, word = c :: w := by
    cases word with
    | nil => exact absurd rfl hw
    | cons c w => exact ⟨c, w, rfl⟩
  obtain ⟨b, rfl⟩ : ∃ b', b = ' ' :: b' := by
    cases b with
    | nil => exact absurd rfl hb0
    | cons x b => exact ⟨b, by rw [hb x (by simp)]⟩
  have e : (c :: w) ++ ' ' :: b ++ n = c :: (w ++ ' ' :: b ++ n) := rfl
  rw [e, directiveName, if_pos]
  · have e2 : List.drop (c :: w).length (c :: (w ++ ' ' :: b ++ n)) = ' ' :: b ++ n := by simp
    rw [e2, dropWhile_all (fun x hx => by simpa using hb x hx), dropWhile_head]
    intro x hx
    have : x ≠ ' ' := by rintro rfl; exact hn hx
    simpa using this
  · rw [List.isPrefixOf_iff_prefix]
    exact ⟨b ++ n, by simp⟩

/-! ### Directives -/

theorem directiveName_blanks {env : Env} (ha : env.AsciiChars) {word b n b' : Str} (hw : word ≠ []) (hb : Spaces b)
    (hb0 : b ≠ []) (hn : Trimmed env n) (hb' : Blanks env b') :
    ∃ x, directiveName word (word ++ b ++ n ++ b') = some x ∧ trim env x = n := by
  have hsp : env.ws ' ' = true := ha.wsT (by decide) (by decide)
  cases n with
  | cons c n =>
    have hc : env.ws c = false := hn.1 c rfl
    refine ⟨c :: n ++ b', ?_, ?_⟩
    · have := directiveName_ok (n := c :: n ++ b') hw hb hb0 (by
        intro h
        obtain rfl : c = ' ' := by simpa using h
        rw [hsp] at hc; cases hc)
      simpa using this
    · simpa using trim_wrap (b := []) (by simp) hn (fun c hc => (hb' c hc).1)
  | nil =>
    obtain ⟨b1, b2, rfl, h1, h2⟩ : ∃ b1 b2, b' = b1 ++ b2 ∧ Spaces b1 ∧ b2.head? ≠ some ' ' := by
      clear hb'
      induction b' with
      | nil => exact ⟨[], [], rfl, by simp [Spaces], by simp⟩
      | cons c b' ih =>
        by_cases hc : c = ' '
        · obtain ⟨b1, b2, e, h1, h2⟩ := ih
          refine ⟨c :: b1, b2, by simp [e], ?_, h2⟩
          intro x hx
          rcases List.mem_cons.mp hx with rfl | hx
          · exact hc
          · exact h1 x hx
        · exact ⟨[], c :: b', rfl, by simp [Spaces], by simpa using hc⟩
    refine ⟨b2, ?_, ?_⟩
    · have := directiveName_ok (b := b ++ b1) (n := b2) hw (by
        intro x hx
        rcases List.mem_append.mp hx with hx | hx
        · exact hb x hx
        · exact h1 x hx) (by simp [hb0]) h2
      simpa using this
    · have := trim_wrap (env := env) (b := b2) (s := []) (b' := []) (fun c hc => (hb' c (by simp [hc])).1) hn (by simp)
      simpa using this

theorem blanks_nl {env : Env} {b : Str} (h : Blanks env b) : '\n' ∉ b := fun hm => (h _ hm).2 rfl

theorem accountTok_ok {env : Env} (ha : env.AsciiChars) {fuel : Nat} {b n b' : Str} {ls more : List Str}
    {ps : List Property} {t : Tok} (hb : Spaces b) (hb0 : b ≠ []) (hn : Trimmed env n) (hnl : '\n' ∉ n)
    (hb' : Blanks env b')
    (h : WritesBody env (WritesProperty env ["default".toList]
        ["note".toList, "isin".toList, "alias".toList, "check".toList, "assert".toList, "payee".toList]) ls ps)
    (hr : ∀ x ∈ propertyTexts "payee" ps, env.rxOk x = true) (hm : Stops env more) (hf : ls.length < fuel)
    (ht : t.rest = "account".toList ++ b ++ n ++ b' ++ tailText (ls ++ more)) :
    ∃ t', accountTok env fuel t =
      .ok (.ok { name := n, aliases := distinct (propertyTexts "alias" ps), payees := propertyTexts "payee" ps,
                 isDefault := hasFlag "default" ps }, t') ∧ At env t' more := by
  obtain ⟨e1, e2⟩ := getLine_line ht (by
    simp only [List.mem_append, not_or]
    exact ⟨⟨⟨by decide, spaces_nl hb⟩, hnl⟩, blanks_nl hb'⟩) (eol_tailText _)
  obtain ⟨x, e3, e4⟩ := directiveName_blanks ha (word := "account".toList) (by decide) hb hb0 hn hb'
  obtain ⟨t', e5, e6⟩ := accountLines_ok ha h hm fuel { name := n } (getLine t).2 hr hf e2.at
  refine ⟨t', ?_, e6⟩
  simp only [accountTok, e1, e3, e4]
  rw [e5]
  simp [distinct_eq]

theorem commodityTok_ok {env : Env} (ha : env.AsciiChars) (hs : env.AsciiSep) {fuel : Nat} {b cs c b' en : Str}
    {ls more cm : List Str} {ps : List Property} {t : Tok} (hb : Spaces b) (hb0 : b ≠ [])
    (hc : WritesCommodity env cs c) (hb' : Spaces b') (he : WritesHeaderEnd en cm) (hr : en ≠ ['\r'])
    (h : WritesBody env (WritesProperty env ["default".toList] ["note".toList, "alias".toList, "format".toList]) ls ps)
    (hm : Stops env more) (hf : ls.length < fuel)
    (ht : t.rest = "commodity".toList ++ b ++ cs ++ b' ++ en ++ tailText (ls ++ more)) :
    ∃ t', commodityTok env fuel t =
      .ok (.ok { name := c, aliases := distinct (propertyTexts "alias" ps), isDefault := hasFlag "default" ps }, t') ∧
      At env t' more := by
  obtain ⟨e1, e2⟩ := getLine_line ht (by
    simp only [List.mem_append, not_or]
    exact ⟨⟨⟨⟨by decide, spaces_nl hb⟩, commodityText_nl ha hc⟩, spaces_nl hb'⟩, headerEnd_nl he⟩) (eol_tailText _)
  obtain ⟨t', e5, e6⟩ := commodityLines_ok ha h hm fuel { name := c } (getLine t).2 hf e2.at
  refine ⟨t', ?_, e6⟩
  simp only [commodityTok, e1, parseCommodityName_ok hs hb hb0 hc hb' he hr, commodityText_trim hc]
  rw [e5]
  simp [distinct_eq]

theorem foldl_setInsert_mem {x : Str} (l : List Str) : ∀ acc : List Str, x ∈ l.foldl setInsert acc → x ∈ acc ∨ x ∈ l := by
  induction l with
  | nil => intro acc h; exact .inl h
  | cons y l ih =>
    intro acc h
    rcases ih _ h with h | h
    · unfold setInsert at h
      split at h
      · exact .inl h
      · rcases List.mem_append.mp h with h | h
        · exact .inl h
        · exact .inr (by simp at h; simp [h])
    · exact .inr (by simp [h])

theorem payeeTok_ok {env : Env} (ha : env.AsciiChars) {fuel : Nat} {b n : Str} {ls more : List Str}
    {ps : List Property} {t : Tok} (hb : Spaces b) (hb0 : b ≠ []) (hnl : '\n' ∉ n) (hn : n.head? ≠ some ' ')
    (h : WritesBody env (WritesProperty env [] ["alias".toList]) ls ps)
    (hr : ∀ x ∈ propertyTexts "alias" ps, env.rxOk x = true) (hm : Stops env more) (hf : ls.length < fuel)
    (ht : t.rest = "payee".toList ++ b ++ n ++ tailText (ls ++ more)) :
    ∃ t', payeeTok env fuel t =
      .ok (.ok { name := n, aliases := distinct (propertyTexts "alias" ps),
                 aliasRx := distinct (propertyTexts "alias" ps) }, t') ∧ At env t' more := by
  obtain ⟨e1, e2⟩ := getLine_line ht (by
    simp only [List.mem_append, not_or]
    exact ⟨⟨by decide, spaces_nl hb⟩, hnl⟩) (eol_tailText _)
  obtain ⟨t', e5, e6⟩ := payeeLines_ok ha h hm fuel [] (getLine t).2 hf e2.at
  refine ⟨t', ?_, e6⟩
  simp only [payeeTok, e1, directiveName_ok (word := "payee".toList) (by decide) hb hb0 hn]
  rw [e5]
  simp only [← distinct_eq]
  rw [if_pos]
  rw [List.all_eq_true]
  intro x hx
  rw [distinct_eq] at hx
  rcases foldl_setInsert_mem _ _ hx with h | h
  · cases h
  · exact hr x h

theorem tagTok_ok {env : Env} (ha : env.AsciiChars) {fuel : Nat} {b n b' : Str} {ls more : List Str}
    {ps : List Property} {t : Tok} (hb : Spaces b) (hb0 : b ≠ []) (hn : Trimmed env n) (hnl : '\n' ∉ n)
    (hb' : Blanks env b')
    (h : WritesBody env (WritesProperty env [] ["check".toList, "assert".toList]) ls ps)
    (hr : ∀ p ∈ ps, ∃ w x, p = .value w x) (hm : Stops env more) (hf : ls.length < fuel)
    (ht : t.rest = "tag".toList ++ b ++ n ++ b' ++ tailText (ls ++ more)) :
    ∃ t', tagTok env fuel t = .ok (.ok n, t') ∧ At env t' more := by
  obtain ⟨e1, e2⟩ := getLine_line ht (by
    simp only [List.mem_append, not_or]
    exact ⟨⟨⟨by decide, spaces_nl hb⟩, hnl⟩, blanks_nl hb'⟩) (eol_tailText _)
  obtain ⟨x, e3, e4⟩ := directiveName_blanks ha (word := "tag".toList) (by decide) hb hb0 hn hb'
  obtain ⟨t', e5, e6⟩ := tagLines_ok ha h hm fuel (getLine t).2 hr hf e2.at
  refine ⟨t', ?_, e6⟩
  simp only [tagTok, e1, e3, e4]
  rw [e5]

theorem priceTok_ok {env : Env} (ha : env.AsciiChars) (hs : env.AsciiSep) {l k : Str} {p : ParsedPrice} {t : Tok}
    (h : WritesPrice env l p) (hk : Eol k) (ht : t.rest = l ++ k) :
    ∃ t', priceTok env t = .ok (p, t') ∧ AtEnd t' k := by
  obtain ⟨e1, e2⟩ := getLine_line ht (price_nl ha h).1 hk
  exact ⟨_, by simp only [priceTok, e1, parsePrice_ok hs h], e2⟩

/-! ### Journals -/

/-- `inc` reads an include directive and finds `included` there. -/
def Includes (inc : Tok → PRes (ParsedLedger × Tok)) (included : Str → ParsedLedger) (bs : List Block) : Prop :=
  ∀ x, Block.incl x ∈ bs → ∀ t k, t.rest = "include ".toList ++ x ++ k → Eol k →
    ∃ t', inc t = .ok (included x, t') ∧ AtEnd t' k

theorem block_head {env : Env} (ha : env.AsciiChars) {h : Str} {body : List Str} {b : Block}
    (hb : WritesBlock env h body b) : ∃ c r, h = c :: r ∧ env.ws c = false := by
  cases hb with
  | comment hm => 
    refine ⟨_, _, rfl, ?_⟩
    simp only [List.mem_cons, List.not_mem_nil, or_false] at hm
    rcases hm with rfl | rfl | rfl | rfl | rfl <;> exact ha.wsF (by decide) (by decide)
  | price hp =>
    obtain ⟨r, hr⟩ := (price_nl ha hp).2
    exact ⟨'P', r, hr, ha.wsF (by decide) (by decide)⟩
  | txn hh hd hb =>
    obtain ⟨_, _, _, c, r, e, hc⟩ := header_nl hh
    refine ⟨c, r, e, ?_⟩
    rcases hc with hc | rfl
    · exact (ha.digit hc).2
    · exact ha.wsF (by decide) (by decide)
  | auto => exact ⟨_, _, rfl, ha.wsF (by decide) (by decide)⟩
  | account => exact ⟨'a', _, rfl, ha.wsF (by decide) (by decide)⟩
  | commodity => exact ⟨'c', _, rfl, ha.wsF (by decide) (by decide)⟩
  | payee => exact ⟨'p', _, rfl, ha.wsF (by decide) (by decide)⟩
  | tag => exact ⟨'t', _, rfl, ha.wsF (by decide) (by decide)⟩
  | incl => exact ⟨'i', _, rfl, ha.wsF (by decide) (by decide)⟩

theorem WritesJournal.stops {env : Env} (ha : env.AsciiChars) {ls : List Str} {bs : List Block}
    (h : WritesJournal env ls bs) : Stops env ls := by
  induction h with
  | nil =>
    intro t ht
    obtain ⟨t', h1, h2⟩ := ht.nil
    exact ⟨t', h1, ht.again h1⟩
  | blank hb h ih =>
    intro t ht
    obtain ⟨t', h1, _⟩ := ih t (ht.blank hb)
    exact ⟨t', h1, ht.again h1⟩
  | cons hb h ih =>
    intro t ht
    obtain ⟨c, r, rfl, hc⟩ := block_head ha hb
    obtain ⟨t', h1, _⟩ := At.top ha ht hc
    exact ⟨t', h1, ht.again h1⟩

/-- One item. -/
theorem item_ok {env : Env} (ha : env.AsciiChars) (hs : env.AsciiSep) {fuel : Nat}
    {inc : Tok → PRes (ParsedLedger × Tok)} {included : Str → ParsedLedger} {c : Char} {r : Str} {body more : List Str}
    {b : Block} (hb : WritesBlock env (c :: r) body b) (hi : Includes inc included [b]) (hm : Stops env more)
    (hl : (∃ x, b = .txn x) → more = [] → ∀ l, body.getLast? = some l → NotAccount env l)
    (hf : body.length + 4 ≤ fuel) (pl : ParsedLedger) {t : Tok}
    (ht : t.rest = c :: r ++ tailText (body ++ more)) :
    ∃ t', item env fuel inc c pl t = .ok (addBlock env included pl b, t') ∧ At env t' more := by
  have hf' : body.length < fuel := by omega
  generalize hhd : c :: r = hd at hb ht
  cases hb with
  | @comment m b c' hm' hb' hc hc' =>
    obtain ⟨rfl, rfl⟩ : c = m ∧ r = b ++ c' := by simpa using hhd
    obtain ⟨e1, e2⟩ := commentTok_ok ht hb' hc hc' (eol_tailText _)
    refine ⟨_, ?_, e2.at⟩
    simp only [item, hm', if_true, e1, addBlock]
  | price hp =>
    obtain ⟨r', hr⟩ := (price_nl ha hp).2
    rw [hr] at hhd
    obtain ⟨rfl, rfl⟩ : c = 'P' ∧ r = r' := by simpa using hhd
    obtain ⟨t', e1, e2⟩ := priceTok_ok ha hs hp (eol_tailText _) ht
    refine ⟨t', ?_, e2.at⟩
    unfold item
    rw [if_neg (by decide), if_neg (by rw [ha.numF (by decide) (by decide)]; decide), if_neg (by decide),
      if_neg (by decide), if_neg (by decide), if_neg (by decide), if_neg (by decide), if_neg (by decide),
      if_pos rfl, e1]
    rfl
  | @txn _ t0 _ xs hh hd hb =>
    obtain ⟨_, _, _, c', r', e, hc⟩ := header_nl hh
    rw [e] at hhd
    obtain ⟨rfl, rfl⟩ : c = c' ∧ r = r' := by simpa using hhd
    have hc : '0' ≤ c ∧ c ≤ '9' := by
      rcases hc with hc | rfl
      · exact hc
      · exact absurd rfl (hd '-' (by rw [e]; rfl))
    obtain ⟨t', e1, e2⟩ := transactionTok_ok ha hh (by omega) hb hm (hl ⟨_, rfl⟩) hf' ht
    refine ⟨t', ?_, e2⟩
    unfold item
    rw [if_neg, if_pos (ha.digit hc).1, e1]
    · rfl
    · rcases isDig_cases hc with rfl | rfl | rfl | rfl | rfl | rfl | rfl | rfl | rfl | rfl <;> decide
  | @auto d _ xs hd hb =>
    obtain ⟨rfl, rfl⟩ : c = '=' ∧ r = d := by simpa using hhd
    obtain ⟨t', e1, e2⟩ := automatedTok_ok ha (fuel := fuel) hd (by omega) hb hm (hl ⟨_, rfl⟩) hf' ht
    refine ⟨t', ?_, e2⟩
    unfold item
    rw [if_neg (by decide), if_neg (by rw [ha.numF (by decide) (by decide)]; decide), if_pos rfl, e1]
    rfl
  | @account b n b' _ ps hb hb0 hn hnl hb' hw hr =>
    obtain rfl : c = 'a' := (List.cons.inj hhd).1
    obtain ⟨t', e1, e2⟩ := accountTok_ok ha hb hb0 hn hnl hb' hw hr hm hf' ht
    refine ⟨t', ?_, e2⟩
    unfold item
    rw [if_neg (by decide), if_neg (by rw [ha.numF (by decide) (by decide)]; decide), if_neg (by decide),
      if_neg (by decide), if_neg (by decide), if_neg (by decide), if_neg (by decide), if_pos rfl, e1]
    rfl
  | @commodity b cs n b' en _ ps cm hb hb0 hc hb' he hr hw =>
    obtain rfl : c = 'c' := (List.cons.inj hhd).1
    obtain ⟨t', e1, e2⟩ := commodityTok_ok ha hs hb hb0 hc hb' he hr hw hm hf' ht
    refine ⟨t', ?_, e2⟩
    unfold item
    rw [if_neg (by decide), if_neg (by rw [ha.numF (by decide) (by decide)]; decide), if_neg (by decide),
      if_neg (by decide), if_pos rfl, e1]
    rfl
  | @payee b n _ ps hb hb0 hnl hn hw hr =>
    obtain rfl : c = 'p' := (List.cons.inj hhd).1
    obtain ⟨t', e1, e2⟩ := payeeTok_ok ha hb hb0 hnl hn hw hr hm hf' ht
    refine ⟨t', ?_, e2⟩
    unfold item
    rw [if_neg (by decide), if_neg (by rw [ha.numF (by decide) (by decide)]; decide), if_neg (by decide),
      if_neg (by decide), if_neg (by decide), if_pos rfl, e1]
    rfl
  | @tag b n b' _ ps hb hb0 hn hnl hb' hw hr =>
    obtain rfl : c = 't' := (List.cons.inj hhd).1
    obtain ⟨t', e1, e2⟩ := tagTok_ok ha hb hb0 hn hnl hb' hw hr hm hf' ht
    refine ⟨t', ?_, e2⟩
    unfold item
    rw [if_neg (by decide), if_neg (by rw [ha.numF (by decide) (by decide)]; decide), if_neg (by decide),
      if_neg (by decide), if_neg (by decide), if_neg (by decide), if_pos rfl, e1]
    rfl
  | @incl x hx =>
    obtain rfl : c = 'i' := (List.cons.inj hhd).1
    obtain ⟨t', e1, e2⟩ := hi x (by simp) t _ ht (eol_tailText _)
    refine ⟨t', ?_, e2.at⟩
    unfold item
    rw [if_neg (by decide), if_neg (by rw [ha.numF (by decide) (by decide)]; decide), if_neg (by decide),
      if_pos rfl, e1]
    rfl

theorem wsLines_nil {env : Env} {t : Tok} (h : t.rest = []) : (wsLines env t).1.rest = [] := by
  simp [wsLines, h, wsLinesAux]

/-- A whole journal, from any place in front of its lines. -/
theorem items_ok {env : Env} (ha : env.AsciiChars) (hs : env.AsciiSep) {fuel : Nat}
    {inc : Tok → PRes (ParsedLedger × Tok)} {included : Str → ParsedLedger} {ls : List Str} {bs : List Block}
    (h : WritesJournal env ls bs) : ∀ (n : Nat) (pl : ParsedLedger) (t : Tok), Includes inc included bs →
      LastLineOk env ls bs → ls.length + 4 ≤ fuel → ls.length + 2 ≤ n → At env t ls →
      items env fuel inc n pl t = .ok (bs.foldl (addBlock env included) pl) := by
  induction h with
  | nil =>
    intro n pl t _ _ _ hn ht
    obtain ⟨n, rfl⟩ : ∃ m, n = m + 2 := ⟨n - 2, by simp at hn; omega⟩
    rw [items]
    by_cases h0 : t.rest = []
    · rw [if_pos h0]; rfl
    · rw [if_neg h0]
      obtain ⟨t', h1, h2⟩ := ht.nil
      simp only [h1, h2, items, if_true]
      rfl
  | @blank b ls bs hb h ih =>
    intro n pl t hi hl hf hn ht
    refine ih n pl t hi ?_ (by simp at hf; omega) (by simp at hn; omega) (ht.blank hb)
    intro x hx l hl'
    refine hl x hx l ?_
    rw [List.getLast?_cons, hl']; rfl
  | @cons h body ls b bs hb h ih =>
    intro n pl t hi hl hf hn ht
    have hst := h.stops ha
    obtain ⟨n, rfl⟩ : ∃ m, n = m + 1 := ⟨n - 1, by simp at hn; omega⟩
    obtain ⟨c, r, rfl, hc⟩ := block_head ha hb
    obtain ⟨t1, h1, h2⟩ := At.top ha ht hc
    have h0 : t.rest ≠ [] := by
      intro h0
      have := wsLines_nil (env := env) h0
      rw [h1, h2] at this
      cases this
    obtain ⟨t', e1, e2⟩ := item_ok ha hs (fuel := fuel) (inc := inc) (included := included) (more := ls) hb
      (fun x hx => hi x (by simp at hx; simp [hx])) hst (by
        rintro ⟨x, rfl⟩ rfl l hbl
        have hbs : bs = [] := by cases h; rfl
        subst hbs
        refine hl x rfl l ?_
        rw [List.append_nil, List.getLast?_cons, hbl]; rfl) (by simp at hf; omega) pl h2
    rw [items, if_neg h0]
    simp only [h1]
    rw [h2]
    simp only [List.cons_append, e1]
    refine ih n _ t' (fun x hx => hi x (by simp [hx])) ?_ (by simp at hf; omega) (by simp at hn; omega) e2
    intro x hx l hl'
    refine hl x ?_ l ?_
    · rw [List.getLast?_cons, hx]; rfl
    · rw [List.getLast?_append, hl']; rfl

theorem tailText_join {ls : List Str} (h : ls ≠ []) : tailText ls = '\n' :: joinLines ls := by
  induction ls with
  | nil => exact absurd rfl h
  | cons l ls ih =>
    cases ls with
    | nil => simp [tailText, joinLines]
    | cons l' ls => rw [tailText_cons, ih (by simp), joinLines]

theorem ofContent_at {env : Env} {ls : List Str} (h : ls ≠ []) : At env (Tok.ofContent (joinLines ls)) ls :=
  AtEnd.at (.inr ⟨_, tailText_join h, rfl, rfl⟩)

/-- A whole text. -/
theorem text_ok {env : Env} (ha : env.AsciiChars) (hs : env.AsciiSep) {fuel : Nat}
    {inc : Tok → PRes (ParsedLedger × Tok)} {included : Str → ParsedLedger} {ls : List Str} {bs : List Block}
    (h : WritesJournal env ls bs) (hi : Includes inc included bs) (hl : LastLineOk env ls bs)
    (hf : ls.length + 4 ≤ fuel) :
    items env fuel inc fuel {} (Tok.ofContent (joinLines ls)) = .ok (meaning env included bs) := by
  by_cases h0 : ls = []
  · subst h0
    cases h
    obtain ⟨n, rfl⟩ : ∃ m, fuel = m + 1 := ⟨fuel - 1, by simp at hf; omega⟩
    rfl
  · exact items_ok ha hs h fuel {} _ hi hl hf (by omega) (ofContent_at h0)

/-- An include directive. -/
theorem includeTok_ok {fs : Files} {file : Option Str} {seen : List Str} {tok : Str → PRes ParsedLedger} {x k p : Str}
    {entries : List (Option Str)} {pl : ParsedLedger} {t : Tok} (ht : t.rest = "include ".toList ++ x ++ k)
    (hx : '\n' ∉ x) (hk : Eol k) (hp : includePattern fs file x = .ok p) (hg : fs.glob p = some entries)
    (hs : ∀ f, some f ∈ entries → f ∉ seen) (hf : includeFiles tok (entries.filterMap id) {} = .ok pl) :
    ∃ t', includeTok fs file seen tok t = .ok (pl, t') ∧ AtEnd t' k := by
  have hc : consumeStr "include ".toList t =
      .ok { t with rest := x ++ k, col := t.col + "include ".toList.length } := by
    unfold consumeStr
    rw [if_pos]
    · rw [ht, List.append_assoc, List.drop_left]
    · rw [List.isPrefixOf_iff_prefix, ht, List.append_assoc]
      exact ⟨_, rfl⟩
  obtain ⟨e1, e2⟩ := getLine_line (t := { t with rest := x ++ k, col := t.col + "include ".toList.length }) rfl hx hk
  refine ⟨_, ?_, e2⟩
  simp only [includeTok, hc, e1, hp, hg]
  rw [if_neg, hf]
  · rfl
  · simp only [List.any_eq_true, not_exists, not_and, List.mem_filterMap, id]
    rintro f ⟨_, hf, rfl⟩
    simpa using hs f hf

end Dinero
