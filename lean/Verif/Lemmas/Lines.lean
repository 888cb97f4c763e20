import Verif.Lemmas.Tokenizer
/-
Lemmas about how the tokenizer moves through the text: it reads forward, counts the lines, and every
iteration of its loops reads something.
-/
namespace Dinero

/-- Reading forward and counting the lines. -/
structure Tok.Step (t t' : Tok) : Prop where
  content : t'.content = t.content
  rest : t'.rest <:+ t.rest
  line : t'.line + t'.rest.count '\n' = t.line + t.rest.count '\n'

/-- Reading forward and counting the lines, or too few of them. -/
structure Tok.Weak (t t' : Tok) : Prop where
  content : t'.content = t.content
  rest : t'.rest <:+ t.rest
  line : t'.line + t'.rest.count '\n' ≤ t.line + t.rest.count '\n'

theorem Tok.Step.rfl {t : Tok} : t.Step t := ⟨.refl _, List.suffix_rfl, .refl _⟩
theorem Tok.Step.trans {a b c : Tok} (h : a.Step b) (h' : b.Step c) : a.Step c :=
  ⟨h'.content.trans h.content, h'.rest.trans h.rest, h'.line.trans h.line⟩
theorem Tok.Step.weak {a b : Tok} (h : a.Step b) : a.Weak b := ⟨h.content, h.rest, Nat.le_of_eq h.line⟩
theorem Tok.Weak.trans {a b c : Tok} (h : a.Weak b) (h' : b.Weak c) : a.Weak c :=
  ⟨h'.content.trans h.content, h'.rest.trans h.rest, h'.line.trans h.line⟩

theorem Tok.Weak.length {a b : Tok} (h : a.Weak b) : b.rest.length ≤ a.rest.length := h.rest.length_le
theorem Tok.Step.length {a b : Tok} (h : a.Step b) : b.rest.length ≤ a.rest.length := h.rest.length_le

/-- Reading a text without line breaks. -/
theorem Tok.Step.of_append {t t' : Tok} {pre : Str} (hc : t'.content = t.content) (hr : t.rest = pre ++ t'.rest)
    (hl : t'.line = t.line) (hp : '\n' ∉ pre) : t.Step t' := by
  refine ⟨hc, ⟨pre, hr.symm⟩, ?_⟩
  rw [hr, List.count_append, List.count_eq_zero_of_not_mem hp, hl]; omega

theorem wsLinesAux_step (ws : Char → Bool) (s : Str) (line col : Nat) :
    (wsLinesAux ws s line col).1 <:+ s ∧
    (wsLinesAux ws s line col).2.1 + (wsLinesAux ws s line col).1.count '\n' = line + s.count '\n' := by
  induction s generalizing line col with
  | nil => simp [wsLinesAux]
  | cons c s ih =>
    rw [wsLinesAux]
    split
    · next h =>
      subst h
      obtain ⟨h1, h2⟩ := ih (line + 1) 0
      exact ⟨h1.trans (List.suffix_cons _ _), by rw [h2]; simp; omega⟩
    · next h =>
      split
      · obtain ⟨h1, h2⟩ := ih line (col + 1)
        refine ⟨h1.trans (List.suffix_cons _ _), ?_⟩
        rw [h2, List.count_cons_of_ne h]
      · exact ⟨List.suffix_rfl, rfl⟩

theorem wsLines_step (env : Env) (t : Tok) : t.Step (wsLines env t).1 := by
  obtain ⟨h1, h2⟩ := wsLinesAux_step env.ws t.rest t.line t.col
  exact ⟨rfl, h1, h2⟩

theorem blank_nl (env : Env) : env.blank '\n' = false := by simp [Env.blank]

theorem takeWhile_nl {p : Char → Bool} (h : p '\n' = false) (s : Str) : '\n' ∉ s.takeWhile p := by
  intro hm
  have := List.all_eq_true.mp (List.all_takeWhile (l := s) (p := p)) _ hm
  rw [h] at this; cases this

theorem consumeWs_step (env : Env) (t : Tok) : t.Step (consumeWs env t) :=
  .of_append (pre := t.rest.takeWhile env.blank) rfl (List.takeWhile_append_dropWhile).symm rfl
    (takeWhile_nl (blank_nl env) _)

theorem consumeStr_step {s : Str} {t t' : Tok} (hs : '\n' ∉ s) (h : consumeStr s t = .ok t') : t.Step t' := by
  unfold consumeStr at h
  split at h
  · next hp =>
    cases h
    rw [List.isPrefixOf_iff_prefix] at hp
    obtain ⟨r, hr⟩ := hp
    refine .of_append (pre := s) rfl ?_ rfl hs
    simp [← hr]
  · cases h

theorem valueExprAux_step (s : Str) (o c line col : Nat) :
    (valueExprAux s o c line col).2.1 <:+ s ∧
    (valueExprAux s o c line col).2.2.1 + (valueExprAux s o c line col).2.1.count '\n' = line + s.count '\n' := by
  induction s generalizing o c line col with
  | nil => simp [valueExprAux]
  | cons x s ih =>
    rw [valueExprAux]
    split
    · next h =>
      obtain ⟨h1, h2⟩ := ih (o + 1) c line col
      exact ⟨h1.trans (List.suffix_cons _ _), by simp only [h2]; rw [List.count_cons_of_ne (by rw [h]; decide)]⟩
    · split
      · next h =>
        obtain ⟨h1, h2⟩ := ih o (c + 1) line col
        exact ⟨h1.trans (List.suffix_cons _ _), by simp only [h2]; rw [List.count_cons_of_ne (by rw [h]; decide)]⟩
      · split
        · next h =>
          subst h
          split
          · exact ⟨List.suffix_rfl, rfl⟩
          · obtain ⟨h1, h2⟩ := ih o c (line + 1) 0
            exact ⟨h1.trans (List.suffix_cons _ _), by simp only [h2]; simp; omega⟩
        · next h =>
          split
          · exact ⟨List.suffix_rfl, rfl⟩
          · obtain ⟨h1, h2⟩ := ih o c line col
            exact ⟨h1.trans (List.suffix_cons _ _), by simp only [h2]; rw [List.count_cons_of_ne h]⟩

theorem getValueExpression_step (t : Tok) : t.Step (getValueExpression t).2 := by
  obtain ⟨h1, h2⟩ := valueExprAux_step t.rest 0 0 t.line t.col
  exact ⟨rfl, h1, h2⟩

/-- A value expression that starts with a parenthesis reads it. -/
theorem getValueExpression_lt {t : Tok} {r : Str} (h : t.rest = '(' :: r) :
    (getValueExpression t).2.rest.length < t.rest.length := by
  unfold getValueExpression
  rw [h, valueExprAux, if_pos rfl]
  simp only [List.length_cons]
  have := (valueExprAux_step r 1 0 t.line t.col).1.length_le
  simp only [Nat.zero_add]
  omega

theorem dropWhile_nl (s : Str) : s.dropWhile (· != '\n') = [] ∧ '\n' ∉ s ∨
    ∃ l r, s = l ++ '\n' :: r ∧ '\n' ∉ l ∧ s.dropWhile (· != '\n') = '\n' :: r := by
  induction s with
  | nil => exact .inl ⟨rfl, by simp⟩
  | cons c s ih =>
    by_cases h : c = '\n'
    · subst h
      exact .inr ⟨[], s, rfl, by simp, by simp⟩
    · have e : (c :: s).dropWhile (· != '\n') = s.dropWhile (· != '\n') := by simp [h]
      rw [e]
      rcases ih with ⟨h1, h2⟩ | ⟨l, r, h1, h2, h3⟩
      · exact .inl ⟨h1, by simp [h2, Ne.symm h]⟩
      · exact .inr ⟨c :: l, r, by simp [h1], by simp [h2, Ne.symm h], h3⟩

/-- `getLine` on a text with and without a line break. -/
theorem getLine_cases (t : Tok) : ('\n' ∉ t.rest ∧ (getLine t).2 = { t with rest := [] }) ∨
    ∃ l r, t.rest = l ++ '\n' :: r ∧ '\n' ∉ l ∧ (getLine t).2 = { t with rest := r, line := t.line + 1, col := 0 } := by
  rcases dropWhile_nl t.rest with ⟨h1, h2⟩ | ⟨l, r, h1, h2, h3⟩
  · exact .inl ⟨h2, by simp [getLine, h1]⟩
  · exact .inr ⟨l, r, h1, h2, by simp [getLine, h3]⟩

theorem getLine_step (t : Tok) : t.Step (getLine t).2 := by
  rcases getLine_cases t with ⟨h1, h2⟩ | ⟨l, r, h1, h2, h3⟩
  · rw [h2]
    exact .of_append (pre := t.rest) rfl (by simp) rfl h1
  · rw [h3]
    refine ⟨rfl, ?_, ?_⟩
    · show r <:+ t.rest
      rw [h1]; exact ⟨l ++ ['\n'], by simp⟩
    · show t.line + 1 + r.count '\n' = _
      rw [h1, List.count_append, List.count_eq_zero_of_not_mem h2]; simp; omega

theorem getLine_lt {t : Tok} (h : t.rest ≠ []) : (getLine t).2.rest.length < t.rest.length := by
  rcases getLine_cases t with ⟨h1, h2⟩ | ⟨l, r, h1, h2, h3⟩
  · rw [h2]
    exact List.length_pos_of_ne_nil h
  · rw [h3, h1]
    simp; omega

theorem wordAux_append (env : Env) (s : Str) (e q : Bool) :
    ∃ pre, s = pre ++ (wordAux env s e q).2.2 ∧ '\n' ∉ pre := by
  induction s generalizing e q with
  | nil => exact ⟨[], rfl, by simp⟩
  | cons c s ih =>
    have go : ∀ e' q', c ≠ '\n' → ∃ pre, c :: s = pre ++ (wordAux env s e' q').2.2 ∧ '\n' ∉ pre := by
      intro e' q' hc
      obtain ⟨pre, h1, h2⟩ := ih e' q'
      exact ⟨c :: pre, by rw [List.cons_append, ← h1], by simp [h2, Ne.symm hc]⟩
    rw [wordAux]
    split
    · exact ⟨[], rfl, by simp⟩
    · next hc =>
      split
      · next hq =>
        split
        · exact go _ _ hc
        · split
          · exact ⟨[c], rfl, by simp [Ne.symm hc]⟩
          · exact go _ _ hc
      · split
        · exact ⟨[], rfl, by simp⟩
        · exact go _ _ hc

theorem getString_step (env : Env) (t : Tok) : t.Step (getString env t).2 := by
  obtain ⟨pre, h1, h2⟩ := wordAux_append env (consumeWs env t).rest true false
  refine (consumeWs_step env t).trans (.trans ?_ (consumeWs_step env _))
  exact .of_append (pre := pre) rfl h1 rfl h2

theorem commentTok_step {env : Env} {t : Tok} {c : Char} {r : Str} (h : t.rest = c :: r) (hc : c ≠ '\n') :
    t.Step (commentTok env t).2 ∧ (commentTok env t).2.rest.length < t.rest.length := by
  have h1 : t.Step { t with rest := t.rest.drop 1, col := t.col + 1 } :=
    .of_append (pre := [c]) rfl (by simp [h]) rfl (by simp [Ne.symm hc])
  have h2 := (consumeWs_step env { t with rest := t.rest.drop 1, col := t.col + 1 }).trans (getLine_step _)
  refine ⟨h1.trans h2, ?_⟩
  have := h2.length
  have e : (commentTok env t).2 = (getLine (consumeWs env { t with rest := t.rest.drop 1, col := t.col + 1 })).2 := rfl
  rw [e]
  refine Nat.lt_of_le_of_lt this ?_
  rw [h]; simp

theorem amountAux_append {env : Env} (ha : env.AsciiChars) (s : Str) (d : Bool) {num rest : Str} {k n : Nat}
    (h : amountAux env s d = some (num, k, n, rest)) :
    ∃ pre, s = pre ++ rest ∧ '\n' ∉ pre ∧ (num ≠ [] → pre ≠ []) := by
  induction s generalizing d num rest k n with
  | nil => cases h; exact ⟨[], rfl, by simp, fun h => absurd rfl h⟩
  | cons c s ih =>
    have hnl : env.numeric '\n' = false := ha.numF (by decide) (by decide)
    rw [amountAux] at h
    split at h
    · next hc =>
      split at h
      · cases h
      · obtain ⟨⟨num', k', n', rest'⟩, h1, h2⟩ := Option.map_eq_some_iff.mp h
        cases h2
        obtain ⟨pre, e1, e2, _⟩ := ih _ h1
        exact ⟨c :: pre, by rw [List.cons_append, ← e1], by simp [e2, hc], by simp⟩
    · split at h
      · next hc =>
        obtain ⟨⟨num', k', n', rest'⟩, h1, h2⟩ := Option.map_eq_some_iff.mp h
        cases h2
        obtain ⟨pre, e1, e2, _⟩ := ih _ h1
        refine ⟨c :: pre, by rw [List.cons_append, ← e1], ?_, by simp⟩
        simp only [List.mem_cons, not_or]
        refine ⟨?_, e2⟩
        rintro rfl
        rcases hc with hc | hc
        · revert hc; decide
        · rw [hnl] at hc; cases hc
      · cases h; exact ⟨[], rfl, by simp, fun h => absurd rfl h⟩

theorem amountAux_none {env : Env} (ha : env.AsciiChars) (s : Str) (d : Bool) (h : amountAux env s d = none) :
    (d = true → ∃ b r, s = b ++ '.' :: r ∧ '\n' ∉ b ∧ '.' ∉ b) ∧
    (d = false → ∃ a b r, s = a ++ '.' :: (b ++ '.' :: r) ∧ '\n' ∉ a ∧ '.' ∉ a ∧ '\n' ∉ b ∧ '.' ∉ b) := by
  induction s generalizing d with
  | nil => cases h
  | cons c s ih =>
    have hnl : env.numeric '\n' = false := ha.numF (by decide) (by decide)
    have hpt : env.numeric '.' = false := ha.numF (by decide) (by decide)
    rw [amountAux] at h
    split at h
    · next hc =>
      subst hc
      cases d with
      | true => exact ⟨fun _ => ⟨[], s, rfl, by simp, by simp⟩, by simp⟩
      | false =>
        rw [if_neg (by simp), Option.map_eq_none_iff] at h
        obtain ⟨b, r, e, h1, h2⟩ := (ih _ h).1 rfl
        exact ⟨by simp, fun _ => ⟨[], b, r, by simp [e], by simp, by simp, h1, h2⟩⟩
    · next hc' =>
      split at h
      · next hc =>
        rw [Option.map_eq_none_iff] at h
        have hn : c ≠ '\n' := by
          rintro rfl
          rcases hc with hc | hc
          · revert hc; decide
          · rw [hnl] at hc; cases hc
        refine ⟨fun hd => ?_, fun hd => ?_⟩
        · obtain ⟨b, r, e, h1, h2⟩ := (ih _ h).1 hd
          exact ⟨c :: b, r, by simp [e], by simp [h1, Ne.symm hn], by simp [h2, Ne.symm hc']⟩
        · obtain ⟨a, b, r, e, h1, h2, h3, h4⟩ := (ih _ h).2 hd
          exact ⟨c :: a, b, r, by simp [e], by simp [h1, Ne.symm hn], by simp [h2, Ne.symm hc'], h3, h4⟩
      · cases h

theorem takeWhile_point {a r : Str} (h : '.' ∉ a) : ((a ++ '.' :: r).takeWhile (· != '.')).length = a.length := by
  rw [(takeWhile_append_stop (x := '.') (fun x hx => by simp; rintro rfl; exact h hx) (by simp)).1]

theorem parseAmount_step {env : Env} (ha : env.AsciiChars) (t : Tok) :
    t.Step (parseAmount env t).2 ∧
    (∀ q, (parseAmount env t).1 = .ok q → (parseAmount env t).2.rest.length < t.rest.length) := by
  unfold parseAmount
  cases h : amountAux env t.rest false with
  | none =>
    obtain ⟨a, b, r, e, h1, h2, h3, h4⟩ := (amountAux_none ha _ _ h).2 rfl
    simp only
    rw [e, takeWhile_point h2]
    have e1 : (a ++ '.' :: (b ++ '.' :: r)).drop (a.length + 1) = b ++ '.' :: r := by
      rw [List.drop_append]; simp
    rw [e1, takeWhile_point h4]
    refine ⟨?_, fun q hq => by cases hq⟩
    refine .of_append (pre := a ++ '.' :: b) rfl ?_ rfl (by simp [h1, h3])
    simp only [e]
    have e2 : (a ++ '.' :: (b ++ '.' :: r)).drop (a.length + 1 + b.length) = '.' :: r := by
      rw [← List.drop_drop, e1]; simp
    rw [e2]; simp
  | some x =>
    obtain ⟨num, k, n, rest⟩ := x
    obtain ⟨pre, h1, h2, h3⟩ := amountAux_append ha _ _ h
    simp only
    refine ⟨.of_append (pre := pre) rfl h1 rfl h2, fun q hq => ?_⟩
    cases hi : intOf num with
    | none => rw [hi] at hq; cases hq
    | some i =>
      have hnum : num ≠ [] := by rintro rfl; cases hi
      have := h3 hnum
      rw [h1]
      have := List.length_pos_of_ne_nil this
      simp; omega

theorem parseMoney_step {env : Env} (ha : env.AsciiChars) (t : Tok) :
    t.Step (parseMoney env t).2 ∧
    (∀ q, (parseMoney env t).1 = .ok q → (parseMoney env t).2.rest.length < t.rest.length) := by
  unfold parseMoney
  split
  · exact ⟨.rfl, fun q hq => by cases hq⟩
  · split
    · obtain ⟨h1, h2⟩ := parseAmount_step ha t
      cases hp : parseAmount env t with
      | mk r t' =>
        rw [hp] at h1 h2
        cases r with
        | error e => exact ⟨h1, fun q hq => by cases hq⟩
        | ok a =>
          refine ⟨h1.trans (getString_step env t'), fun q _ => ?_⟩
          exact Nat.lt_of_le_of_lt (getString_step env t').length (h2 a rfl)
    · have h0 := getString_step env t
      obtain ⟨h1, h2⟩ := parseAmount_step ha (getString env t).2
      cases hp : parseAmount env (getString env t).2 with
      | mk r t' =>
        simp only [hp]
        rw [hp] at h1 h2
        cases r with
        | error e => exact ⟨h0.trans h1, fun q hq => by cases hq⟩
        | ok a => exact ⟨h0.trans h1, fun q _ => Nat.lt_of_lt_of_le (h2 a rfl) h0.length⟩

theorem accountAux_step {ws : Char → Bool} (hws : ws '\n' = true) (s : Str) : ∀ (line col : Nat) {name rest : Str}
    {stop : AccountEnd} {line' col' : Nat}, accountAux ws s line col = some (name, stop, rest, line', col') →
    rest <:+ s ∧ line' + rest.count '\n' = line + s.count '\n' ∧ (name ≠ [] → rest.length < s.length) := by
  induction s using List.twoStepInduction with
  | nil => intro line col name rest stop line' col' h; cases h
  | singleton c =>
    intro line col name rest stop line' col' h
    rw [accountAux.eq_def] at h
    simp only at h
    split at h
    · cases h
    · split at h
      · next hc => subst hc; cases h; exact ⟨List.suffix_rfl, rfl, fun h => absurd rfl h⟩
      · next hn =>
        split at h
        · cases h; exact ⟨List.suffix_cons _ _, by simp [hn], fun h => absurd rfl h⟩
        · cases h
  | cons_cons c d r ih0 ih1 =>
    intro line col name rest stop line' col' h
    rw [accountAux.eq_def] at h
    simp only at h
    split at h
    · next hc =>
      have hn : c ≠ '\n' := by rintro rfl; rw [hws] at hc; cases hc
      obtain ⟨⟨name', stop', rest', l', c'⟩, h1, h2⟩ := Option.map_eq_some_iff.mp h
      cases h2
      rw [if_neg hn, if_neg hn] at h1
      obtain ⟨e1, e2, e3⟩ := ih1 _ _ _ h1
      refine ⟨e1.trans (List.suffix_cons _ _), ?_, fun _ => ?_⟩
      · rw [e2, List.count_cons_of_ne hn]
      · have := e1.length_le; simp at this ⊢; omega
    · split at h
      · next hc => subst hc; cases h; exact ⟨List.suffix_rfl, rfl, fun h => absurd rfl h⟩
      · next hn =>
        split at h
        · cases h
          exact ⟨List.suffix_cons _ _, by rw [List.count_cons_of_ne hn], fun h => absurd rfl h⟩
        · split at h
          · cases h
            refine ⟨⟨[c, d], rfl⟩, ?_, fun h => absurd rfl h⟩
            rw [List.count_cons_of_ne hn]
            by_cases hd : d = '\n'
            · subst hd; simp; omega
            · rw [List.count_cons_of_ne hd, if_neg hd]
          · next hd =>
            have hdn : d ≠ '\n' := by rintro rfl; exact hd hws
            obtain ⟨⟨name', stop', rest', l', c'⟩, h1, h2⟩ := Option.map_eq_some_iff.mp h
            cases h2
            rw [if_neg hdn, if_neg hdn] at h1
            obtain ⟨e1, e2, e3⟩ := ih0 _ _ h1
            refine ⟨e1.trans ⟨[c, d], rfl⟩, ?_, fun _ => ?_⟩
            · rw [e2, List.count_cons_of_ne hn, List.count_cons_of_ne hdn]
            · have := e1.length_le; simp at this ⊢; omega

/-! ### Loops -/

/-- What bounds the iterations of the loop over amounts. -/
def Tok.size (t : Tok) : Nat := 3 * t.rest.length + 2 * t.line

theorem suffix_count {a b : Str} (h : a <:+ b) : b.count '\n' + a.length ≤ a.count '\n' + b.length := by
  obtain ⟨p, rfl⟩ := h
  have := List.count_le_length (a := '\n') (l := p)
  simp; omega

theorem Tok.Step.size {t t' : Tok} (h : t.Step t') : t'.size + (t.rest.length - t'.rest.length) ≤ t.size := by
  have h1 := suffix_count h.rest
  have h2 := h.line
  have h3 := h.length
  unfold Tok.size
  omega

theorem suffix_of_length {a b c : Str} (ha : a <:+ c) (hb : b <:+ c) (h : a.length ≤ b.length) : a <:+ b :=
  List.suffix_of_suffix_length_le ha hb h

theorem drop_suffix_one {c r l : Str} {x : Char} (h : c = l ++ x :: r) : c.drop (c.length - r.length - 1) = x :: r := by
  have : c.length - r.length - 1 = l.length := by rw [h]; simp; omega
  rw [this, h, List.drop_left]

/-- Going back to the end of the line. -/
theorem unread_step {t t1 : Tok} {c : Char} {r : Str} (hs : t.rest <:+ t.content) (h : t.Step t1) (ht : t.rest = c :: r)
    (hc : c ≠ '\n') (hl : (getLine t1).2.line ≠ 0) :
    let t2 : Tok := { (getLine t1).2.unread with line := (getLine t1).2.line - 1 }
    t.Weak t2 ∧ t2.size < t.size ∧ ('\n' ∈ t1.rest → t.Step t2) := by
  intro t2
  have hs1 : t1.rest <:+ t1.content := by rw [h.content]; exact h.rest.trans hs
  have hsz := h.size
  rcases getLine_cases t1 with ⟨h1, h2⟩ | ⟨l, r', h1, h2, h3⟩
  · have e : t2 = { t1 with rest := t1.content.drop (t1.content.length - 1), line := t1.line - 1 } := by
      simp [t2, h2, Tok.unread]
    have hcl : t1.content ≠ [] := by
      rw [h.content]; rintro e; rw [e, ht] at hs; exact absurd (List.suffix_nil.mp hs) (by simp)
    have hlen : (t1.content.drop (t1.content.length - 1)).length = 1 := by
      have := List.length_pos_of_ne_nil hcl
      simp; omega
    have hcnt : (t1.content.drop (t1.content.length - 1)).count '\n' ≤ 1 := by
      have := List.count_le_length (a := '\n') (l := t1.content.drop (t1.content.length - 1))
      omega
    rw [h2] at hl
    have hl' : t1.line ≠ 0 := hl
    have hline := h.line
    rw [List.count_eq_zero_of_not_mem h1] at hline
    have hct : t.rest.count '\n' + 1 ≤ t.rest.length := by
      rw [ht, List.count_cons_of_ne hc]
      have := List.count_le_length (a := '\n') (l := r)
      simp; omega
    rw [e]
    refine ⟨⟨h.content, ?_, ?_⟩, ?_, fun hm => absurd hm h1⟩
    · refine suffix_of_length (c := t.content) ?_ hs ?_
      · simp only; rw [← h.content]; exact List.drop_suffix _ _
      · simp only; rw [hlen, ht]; simp
    · simp only; omega
    · simp only [Tok.size, hlen]
      omega
  · obtain ⟨p, hp⟩ := hs1
    have e : t2 = { t1 with rest := '\n' :: r', line := t1.line, col := 0 } := by
      simp only [t2, h3, Tok.unread]
      rw [drop_suffix_one (l := p ++ l) (x := '\n') (by rw [← hp, h1]; simp)]
      simp
    have hstep : t1.Step t2 := by
      rw [e]
      exact .of_append (pre := l) rfl h1 rfl h2
    have hst := h.trans hstep
    refine ⟨hst.weak, ?_, fun _ => hst⟩
    have hsz := hst.size
    have hlt : t2.rest.length < t.rest.length := by
      refine Nat.lt_of_le_of_ne hst.length fun heq => ?_
      have := hst.rest.eq_of_length heq
      rw [e, ht] at this
      exact hc (List.cons.inj this).1.symm
    omega

/-- The loop over the amounts of a posting. -/
theorem amounts_step {env : Env} (ha : env.AsciiChars) (tt : TType) : ∀ (n : Nat) (p : RawPosting) (t : Tok),
    t.rest <:+ t.content →
    (t.size < n → amounts env tt n p t ≠ .error .fuel) ∧
    (∀ r t', amounts env tt n p t = .ok (r, t') → t.Weak t' ∧ (tt ≠ .automated → t.Step t')) := by
  intro n
  induction n with
  | zero =>
    intro p t hs
    exact ⟨fun h => absurd h (by omega), fun r t' h => by cases h⟩
  | succ n ih =>
    intro p t hs
    -- a recursive call after some progress
    have go : ∀ (p' : RawPosting) (t1 : Tok), t.Weak t1 → t1.size < t.size → (tt ≠ .automated → t.Step t1) →
        (t.size < n + 1 → amounts env tt n p' t1 ≠ .error .fuel) ∧
        (∀ r t', amounts env tt n p' t1 = .ok (r, t') → t.Weak t' ∧ (tt ≠ .automated → t.Step t')) := by
      intro p' t1 hw hlt hst
      obtain ⟨h1, h2⟩ := ih p' t1 (by rw [hw.content]; exact hw.rest.trans hs)
      refine ⟨fun h => h1 (by omega), fun r t' h => ?_⟩
      obtain ⟨h3, h4⟩ := h2 r t' h
      exact ⟨hw.trans h3, fun h => (hst h).trans (h4 h)⟩
    have go' : ∀ (p' : RawPosting) (t1 : Tok), t.Step t1 → t1.rest.length < t.rest.length →
        (t.size < n + 1 → amounts env tt n p' t1 ≠ .error .fuel) ∧
        (∀ r t', amounts env tt n p' t1 = .ok (r, t') → t.Weak t' ∧ (tt ≠ .automated → t.Step t')) :=
      fun p' t1 h hlt => go p' t1 h.weak (by have := h.size; omega) (fun _ => h)
    -- a result
    have done : ∀ (x : Except Err RawPosting) (t1 : Tok), t.Step t1 →
        (t.size < n + 1 → (.ok (x, t1) : PRes (Except Err RawPosting × Tok)) ≠ .error .fuel) ∧
        (∀ r t', (.ok (x, t1) : PRes (Except Err RawPosting × Tok)) = .ok (r, t') →
          t.Weak t' ∧ (tt ≠ .automated → t.Step t')) := by
      intro x t1 h
      refine ⟨fun _ h => (by cases h), fun r t' h' => ?_⟩
      cases h'
      exact ⟨h.weak, fun _ => h⟩
    have bad : ∀ (f : Fail),
        (t.size < n + 1 → (.error (.fail f) : PRes (Except Err RawPosting × Tok)) ≠ .error .fuel) ∧
        (∀ r t', (.error (.fail f) : PRes (Except Err RawPosting × Tok)) = .ok (r, t') →
          t.Weak t' ∧ (tt ≠ .automated → t.Step t')) :=
      fun f => ⟨fun _ h => (by cases h), fun r t' h' => by cases h'⟩
    have one : ∀ {x : Char} {r : Str}, t.rest = x :: r → x ≠ '\n' → t.Step { t with rest := r, col := t.col + 1 } := by
      intro x r h hx
      exact .of_append (pre := [x]) rfl (by simp [h]) rfl (by simp [Ne.symm hx])
    rw [amounts.eq_def]
    simp only
    split
    · exact done _ _ .rfl
    · exact done _ _ .rfl
    · next r h => exact done _ _ (commentTok_step h (by decide)).1
    · next r h =>
      exact go' _ _ ((getValueExpression_step t).trans (consumeWs_step env _))
        (Nat.lt_of_le_of_lt (consumeWs_step env _).length (getValueExpression_lt h))
    · next r h =>
      have h1 := (one h (by decide)).trans (consumeWs_step env _)
      obtain ⟨h2, h3⟩ := parseMoney_step ha (consumeWs env { t with rest := r, col := t.col + 1 })
      split
      · next e t' hm => rw [hm] at h2; exact done _ _ (h1.trans h2)
      · next m t' hm =>
        rw [hm] at h2 h3
        refine go' _ _ ((h1.trans h2).trans (consumeWs_step env _)) ?_
        have a1 := h3 m rfl
        have a2 := (consumeWs_step env t').length
        have a3 := h1.length
        simp only at a1
        omega
    · next r h =>
      split
      · exact done _ _ .rfl
      · split
        · exact bad _
        · next d r' =>
          have h1 : t.Step (if d = '@' then { t with rest := r', col := t.col + 2 }
              else { t with rest := d :: r', col := t.col + 1 }) := by
            split
            · next hd => exact .of_append (pre := ['@', d]) rfl (by simp [h]) rfl (by simp [hd])
            · exact one h (by decide)
          have h1 := h1.trans (consumeWs_step env _)
          obtain ⟨h2, h3⟩ := parseMoney_step ha (consumeWs env (if d = '@' then { t with rest := r', col := t.col + 2 }
              else { t with rest := d :: r', col := t.col + 1 }))
          split
          · next e t' hm => rw [hm] at h2; exact done _ _ (h1.trans h2)
          · next m t' hm =>
            rw [hm] at h2 h3
            refine go' _ _ ((h1.trans h2).trans (consumeWs_step env _)) ?_
            have a1 := h3 m rfl
            have a2 := (consumeWs_step env t').length
            have a3 := h1.length
            simp only at a1
            omega
    · next c r h1 h2 h3 h4 h5 hr =>
      have hc : c ≠ '\n' := by rintro rfl; simp_all
      obtain ⟨e2, e3⟩ := parseMoney_step ha t
      split
      · next m t' hm =>
        rw [hm] at e2 e3
        refine go' _ _ (e2.trans (consumeWs_step env _)) ?_
        exact Nat.lt_of_le_of_lt (consumeWs_step env _).length (e3 m rfl)
      · next e t' hm =>
        rw [hm] at e2
        split
        · next htt =>
          split
          · exact bad _
          · next hl =>
            obtain ⟨u1, u2, u3⟩ := unread_step hs e2 hr hc hl
            have hcw := consumeWs_step env { (getLine t').2.unread with line := (getLine t').2.line - 1 }
            refine go _ _ (u1.trans hcw.weak) ?_ (fun h => absurd htt h)
            exact Nat.lt_of_le_of_lt (Nat.le_trans (Nat.le_add_right _ _) hcw.size) u2
        · exact done _ _ e2

theorem parsePosting_step {env : Env} (ha : env.AsciiChars) (fuel : Nat) (tt : TType) (payee : Option Str) (t : Tok)
    (hs : t.rest <:+ t.content) :
    (t.size < fuel → parsePosting env fuel tt payee t ≠ .error .fuel) ∧
    (∀ r t', parsePosting env fuel tt payee t = .ok (r, t') → t.Weak t' ∧ (tt ≠ .automated → t.Step t') ∧
      t'.rest.length < t.rest.length) := by
  unfold parsePosting
  split
  · exact ⟨fun _ h => (by cases h), fun r t' h => by cases h⟩
  · next name stop rest line col hacc =>
    obtain ⟨h1, h2, h3⟩ := accountAux_step (ha.wsT (by decide) (by decide)) _ _ _ hacc
    have hst : t.Step { t with rest := rest, line := line, col := col } := ⟨rfl, h1, h2⟩
    have hsz := hst.size
    simp only
    cases name with
    | nil => exact ⟨fun _ h => (by cases h), fun r t' h => by cases h⟩
    | cons c name =>
      have h3 := h3 (by simp)
      have hk : ∀ e, accountKind env (c :: name) = .error e → ∃ f, e = .fail f := by
        intro e he
        unfold accountKind at he
        simp only at he
        split at he
        · cases he; exact ⟨_, rfl⟩
        · split at he
          · split at he <;> cases he
          · split at he
            · split at he <;> cases he
            · cases he
      split
      · next e he =>
        obtain ⟨f, rfl⟩ := hk e he
        exact ⟨fun _ h => (by cases h), fun r t' h => by cases h⟩
      · refine ⟨fun _ h => (by cases h), fun r t' h => ?_⟩
        cases h
        exact ⟨hst.weak, fun _ => hst, h3⟩
      · split
        · refine ⟨fun _ h => (by cases h), fun r t' h => ?_⟩
          cases h
          exact ⟨hst.weak, fun _ => hst, h3⟩
        · have hcw := hst.trans (consumeWs_step env _)
          obtain ⟨a1, a2⟩ := amounts_step ha tt fuel _ (consumeWs env { t with rest := rest, line := line, col := col })
            (by rw [hcw.content]; exact hcw.rest.trans hs)
          refine ⟨fun h => a1 (by have := hcw.size; omega), fun r t' h => ?_⟩
          obtain ⟨b1, b2⟩ := a2 r t' h
          refine ⟨hcw.weak.trans b1, fun h => hcw.trans (b2 h), ?_⟩
          have c1 := b1.length
          have c2 := (consumeWs_step env { t with rest := rest, line := line, col := col }).length
          simp only at c2
          omega

theorem Tok.Weak.size {t t' : Tok} (h : t.Weak t') : t'.size + (t.rest.length - t'.rest.length) ≤ t.size := by
  have h1 := suffix_count h.rest
  have h2 := h.line
  have h3 := h.length
  unfold Tok.size
  omega

theorem Tok.Weak.suffix {t t' : Tok} (h : t.Weak t') (hs : t.rest <:+ t.content) : t'.rest <:+ t'.content := by
  rw [h.content]; exact h.rest.trans hs

theorem Tok.Step.suffix {t t' : Tok} (h : t.Step t') (hs : t.rest <:+ t.content) : t'.rest <:+ t'.content :=
  h.weak.suffix hs

/-- What `wsLines` stops at. -/
theorem wsLines_stop {env : Env} {t t' : Tok} {lt : LineType} (h : wsLines env t = (t', lt)) :
    (lt = .indented → t'.rest ≠ []) ∧ (∀ c r, t'.rest = c :: r → c ≠ '\n' ∧ env.ws c = false) := by
  simp only [wsLines, Prod.mk.injEq] at h
  obtain ⟨rfl, h⟩ := h
  refine ⟨fun hl => ?_, fun c r hr => ?_⟩
  · rw [hl] at h
    split at h
    · next hc => exact hc.1
    · cases h
  · obtain ⟨h1, h2⟩ := wsLinesAux_stop env.ws t.rest t.line t.col c r hr
    refine ⟨h1, ?_⟩
    cases hw : env.ws c with
    | true => exact absurd (.inl hw) h2
    | false => rfl

theorem wsLines_step' {env : Env} {t t' : Tok} {lt : LineType} (h : wsLines env t = (t', lt)) : t.Step t' := by
  have := wsLines_step env t
  rwa [h] at this

theorem txnLines_step {env : Env} (ha : env.AsciiChars) (fuel : Nat) : ∀ (n : Nat) (txn : Txn RawPosting) (t : Tok),
    t.rest <:+ t.content →
    (t.rest.length < n → t.size < fuel → txnLines env fuel n txn t ≠ .error .fuel) ∧
    (∀ r t', txnLines env fuel n txn t = .ok (r, t') → t.Weak t' ∧ (txn.ttype ≠ .automated → t.Step t')) := by
  intro n
  induction n with
  | zero =>
    intro txn t hs
    exact ⟨fun h => absurd h (by omega), fun r t' h => by cases h⟩
  | succ n ih =>
    intro txn t hs
    rw [txnLines]
    have bad : ∀ (f : Fail),
        (t.rest.length < n + 1 → t.size < fuel → (.error (.fail f) : PRes (Txn RawPosting × Tok)) ≠ .error .fuel) ∧
        (∀ r t', (.error (.fail f) : PRes (Txn RawPosting × Tok)) = .ok (r, t') →
          t.Weak t' ∧ (txn.ttype ≠ .automated → t.Step t')) :=
      fun f => ⟨fun _ _ h => (by cases h), fun r t' h' => by cases h'⟩
    have go : ∀ (txn' : Txn RawPosting) (t1 : Tok), txn'.ttype = txn.ttype → t.Weak t1 → t1.rest.length < t.rest.length →
        (txn.ttype ≠ .automated → t.Step t1) →
        (t.rest.length < n + 1 → t.size < fuel → txnLines env fuel n txn' t1 ≠ .error .fuel) ∧
        (∀ r t', txnLines env fuel n txn' t1 = .ok (r, t') → t.Weak t' ∧ (txn.ttype ≠ .automated → t.Step t')) := by
      intro txn' t1 htt hw hlt hst
      obtain ⟨h1, h2⟩ := ih txn' t1 (hw.suffix hs)
      refine ⟨fun h h' => h1 (by omega) (by have := hw.size; omega), fun r t' h => ?_⟩
      obtain ⟨h3, h4⟩ := h2 r t' h
      exact ⟨hw.trans h3, fun h => (hst h).trans (h4 (by rwa [htt]))⟩
    split
    · next t1 hw =>
      have := wsLines_step' hw
      refine ⟨fun _ _ h => (by cases h), fun r t' h => ?_⟩
      cases h
      exact ⟨this.weak, fun _ => this⟩
    · next t1 hw =>
      have hst := wsLines_step' hw
      have hlen := hst.length
      obtain ⟨hne, hstop⟩ := wsLines_stop hw
      split
      · exact bad _
      · next c r hr =>
        obtain ⟨hc, _⟩ := hstop c r hr
        split
        · obtain ⟨h1, h2⟩ := commentTok_step (env := env) hr hc
          have hs2 := hst.trans h1
          simp only
          split
          · exact go _ _ (by rfl) hs2.weak (by omega) (fun _ => hs2)
          · exact go _ _ (by rfl) hs2.weak (by omega) (fun _ => hs2)
        · split
          · exact bad _
          · obtain ⟨h1, h2⟩ := parsePosting_step ha fuel txn.ttype txn.payee t1 (hst.suffix hs)
            split
            · next e he =>
              cases e with
              | fail f => exact bad f
              | fuel => exact ⟨fun _ h => absurd he (h1 (by have := hst.size; omega)), fun r t' h => by cases h⟩
            · exact bad _
            · next p t2 hp =>
              obtain ⟨h3, h4, h5⟩ := h2 _ _ hp
              exact go _ _ (by rfl) (hst.weak.trans h3) (by omega) (fun h => hst.trans (h4 h))

/-- The header of a transaction. -/
theorem parseHeader_real {env : Env} {l : Str} {t : Txn RawPosting} (h : parseHeader env l = .ok t) : t.ttype = .real := by
  have key : ∀ (date : Date) (items : List Pair), headerItems env date items = .ok t → t.ttype = .real := by
    intro date items h
    simp only [headerItems, bind, Except.bind, pure, Except.pure, throw, throwThe, MonadExceptOf.throw] at h
    repeat' split at h
    all_goals first
      | cases h; rfl
      | cases h
  unfold parseHeader at h
  repeat' split at h
  all_goals first
    | exact key _ _ h
    | cases h

theorem transactionTok_step {env : Env} (ha : env.AsciiChars) (fuel : Nat) (t : Tok) (hs : t.rest <:+ t.content)
    (hne : t.rest ≠ []) :
    (t.size < fuel → transactionTok env fuel t ≠ .error .fuel) ∧
    (∀ r t', transactionTok env fuel t = .ok (r, t') → t.Step t' ∧ t'.rest.length < t.rest.length) := by
  have h1 := getLine_step t
  have h2 := getLine_lt hne
  unfold transactionTok
  simp only
  split
  · exact ⟨fun _ h => (by cases h), fun r t' h => by cases h⟩
  · next txn he =>
    obtain ⟨h3, h4⟩ := txnLines_step ha fuel fuel txn (getLine t).2 (h1.suffix hs)
    refine ⟨fun h => h3 ?_ ?_, fun r t' h => ?_⟩
    · unfold Tok.size at h; omega
    · have := h1.size; omega
    · obtain ⟨h5, h6⟩ := h4 r t' h
      refine ⟨h1.trans (h6 (by rw [parseHeader_real he]; decide)), ?_⟩
      have := h5.length; omega

theorem automatedTok_step {env : Env} (ha : env.AsciiChars) (fuel : Nat) (t : Tok) (hs : t.rest <:+ t.content)
    (hne : t.rest ≠ []) :
    (t.size < fuel → automatedTok env fuel t ≠ .error .fuel) ∧
    (∀ r t', automatedTok env fuel t = .ok (r, t') → t.Weak t' ∧ t'.rest.length < t.rest.length) := by
  have h1 := getLine_step t
  have h2 := getLine_lt hne
  unfold automatedTok
  simp only
  split
  · exact ⟨fun _ h => (by cases h), fun r t' h => by cases h⟩
  · obtain ⟨h3, h4⟩ := txnLines_step ha fuel fuel _ (getLine t).2 (h1.suffix hs)
    refine ⟨fun h => h3 ?_ ?_, fun r t' h => ?_⟩
    · unfold Tok.size at h; omega
    · have := h1.size; omega
    · obtain ⟨h5, h6⟩ := h4 r t' h
      refine ⟨h1.weak.trans h5, ?_⟩
      have := h5.length; omega

theorem wordAux_lt (env : Env) (s : Str) (e q : Bool) (h : (wordAux env s e q).1 ≠ []) :
    (wordAux env s e q).2.2.length < s.length := by
  cases s with
  | nil => exact absurd rfl h
  | cons c s =>
    have go : ∀ e' q', (wordAux env s e' q').2.2.length < (c :: s).length := by
      intro e' q'
      obtain ⟨pre, h1, _⟩ := wordAux_append env s e' q'
      have := congrArg List.length h1
      simp at this ⊢; omega
    rw [wordAux] at h ⊢
    split
    · next hc => rw [if_pos hc] at h; exact absurd rfl h
    · next hc =>
      rw [if_neg hc] at h
      split
      · split
        · exact go _ _
        · split
          · simp
          · exact go _ _
      · next hq =>
        rw [if_neg hq] at h
        split
        · next hw => rw [if_pos hw] at h; exact absurd rfl h
        · exact go _ _

theorem getString_lt {env : Env} {t : Tok} (h : (getString env t).1 ≠ []) :
    (getString env t).2.rest.length < t.rest.length := by
  have h1 := (consumeWs_step env t).length
  have h2 := wordAux_lt env (consumeWs env t).rest true false h
  have h3 := (consumeWs_step env { consumeWs env t with
    rest := (wordAux env (consumeWs env t).rest true false).2.2
    col := (consumeWs env t).col + (wordAux env (consumeWs env t).rest true false).2.1 }).length
  exact Nat.lt_of_le_of_lt h3 (Nat.lt_of_lt_of_le h2 h1)

/-- The rest of a line after a word. -/
theorem wordLine_step (env : Env) {t : Tok} (h : t.rest ≠ []) :
    t.Step (getLine (getString env t).2).2 ∧ (getLine (getString env t).2).2.rest.length < t.rest.length := by
  have h1 := getString_step env t
  refine ⟨h1.trans (getLine_step _), ?_⟩
  by_cases h2 : (getString env t).2.rest = []
  · have := (getLine_step (getString env t).2).length
    rw [h2] at this
    have h3 := List.length_pos_of_ne_nil h
    exact Nat.lt_of_le_of_lt this h3
  · have := getLine_lt h2
    have := h1.length
    omega

theorem accountLines_step (env : Env) : ∀ (n : Nat) (a : AccountDef) (t : Tok),
    (t.rest.length < n → accountLines env n a t ≠ .error .fuel) ∧
    (∀ r t', accountLines env n a t = .ok (r, t') → t.Step t') := by
  intro n
  induction n with
  | zero => intro a t; exact ⟨fun h => absurd h (by omega), fun r t' h => by cases h⟩
  | succ n ih =>
    intro a t
    have go : ∀ (a' : AccountDef) (t1 : Tok), t.Step t1 → t1.rest.length < t.rest.length →
        (t.rest.length < n + 1 → accountLines env n a' t1 ≠ .error .fuel) ∧
        (∀ r t', accountLines env n a' t1 = .ok (r, t') → t.Step t') := by
      intro a' t1 h hlt
      obtain ⟨h1, h2⟩ := ih a' t1
      exact ⟨fun hn => h1 (by omega), fun r t' hr => h.trans (h2 r t' hr)⟩
    have done : ∀ (x : Except Err AccountDef) (t1 : Tok), t.Step t1 →
        (t.rest.length < n + 1 → (.ok (x, t1) : PRes (Except Err AccountDef × Tok)) ≠ .error .fuel) ∧
        (∀ r t', (.ok (x, t1) : PRes (Except Err AccountDef × Tok)) = .ok (r, t') → t.Step t') := by
      intro x t1 h
      exact ⟨fun _ h => (by cases h), fun r t' h' => by cases h'; exact h⟩
    rw [accountLines]
    split
    · next t1 hw => exact done _ _ (wsLines_step' hw)
    · next t1 hw =>
      have hst := wsLines_step' hw
      have hlen := hst.length
      have hne := (wsLines_stop hw).1 rfl
      have hwl := wordLine_step env hne
      have hgl : (lineTrim env (getString env t1).2).2 = (getLine (getString env t1).2).2 := rfl
      simp only
      split
      · exact go _ _ (hst.trans (getLine_step t1)) (by have := getLine_lt hne; omega)
      · rw [hgl]
        split
        · exact go _ _ (hst.trans hwl.1) (by omega)
        · split
          · exact go _ _ (hst.trans hwl.1) (by omega)
          · split
            · split
              · exact go _ _ (hst.trans hwl.1) (by omega)
              · exact ⟨fun _ h => (by cases h), fun r t' h => by cases h⟩
            · split
              · next hd =>
                exact go _ _ (hst.trans (getString_step env t1)) (by
                  have := getString_lt (env := env) (t := t1) (by rw [hd]; decide)
                  omega)
              · exact done _ _ (hst.trans (getString_step env t1))

theorem commodityLines_step (env : Env) : ∀ (n : Nat) (a : CurrencyDef) (t : Tok),
    (t.rest.length < n → commodityLines env n a t ≠ .error .fuel) ∧
    (∀ r t', commodityLines env n a t = .ok (r, t') → t.Step t') := by
  intro n
  induction n with
  | zero => intro a t; exact ⟨fun h => absurd h (by omega), fun r t' h => by cases h⟩
  | succ n ih =>
    intro a t
    have go : ∀ (a' : CurrencyDef) (t1 : Tok), t.Step t1 → t1.rest.length < t.rest.length →
        (t.rest.length < n + 1 → commodityLines env n a' t1 ≠ .error .fuel) ∧
        (∀ r t', commodityLines env n a' t1 = .ok (r, t') → t.Step t') := by
      intro a' t1 h hlt
      obtain ⟨h1, h2⟩ := ih a' t1
      exact ⟨fun hn => h1 (by omega), fun r t' hr => h.trans (h2 r t' hr)⟩
    have done : ∀ (x : Except Err CurrencyDef) (t1 : Tok), t.Step t1 →
        (t.rest.length < n + 1 → (.ok (x, t1) : PRes (Except Err CurrencyDef × Tok)) ≠ .error .fuel) ∧
        (∀ r t', (.ok (x, t1) : PRes (Except Err CurrencyDef × Tok)) = .ok (r, t') → t.Step t') := by
      intro x t1 h
      exact ⟨fun _ h => (by cases h), fun r t' h' => by cases h'; exact h⟩
    rw [commodityLines]
    split
    · next t1 hw => exact done _ _ (wsLines_step' hw)
    · next t1 hw =>
      have hst := wsLines_step' hw
      have hlen := hst.length
      obtain ⟨hne, hstop⟩ := wsLines_stop hw
      have hne := hne rfl
      have hwl := wordLine_step env hne
      have hgl : (lineTrim env (getString env t1).2).2 = (getLine (getString env t1).2).2 := rfl
      simp only
      split
      · next hh =>
        obtain ⟨r, hr⟩ : ∃ r, t1.rest = ';' :: r := by
          cases h : t1.rest with
          | nil => exact absurd h hne
          | cons x r => rw [h] at hh; simp at hh; exact ⟨r, by rw [hh]⟩
        obtain ⟨h1, h2⟩ := commentTok_step (env := env) hr (by decide)
        exact go _ _ (hst.trans h1) (by omega)
      · rw [hgl]
        split
        · exact go _ _ (hst.trans hwl.1) (by omega)
        · split
          · exact go _ _ (hst.trans hwl.1) (by omega)
          · split
            · next hd =>
              exact go _ _ (hst.trans (getString_step env t1)) (by
                have := getString_lt (env := env) (t := t1) (by rw [hd]; decide)
                omega)
            · exact done _ _ (hst.trans (getString_step env t1))

theorem payeeLines_step (env : Env) : ∀ (n : Nat) (a : List Str) (t : Tok),
    (t.rest.length < n → payeeLines env n a t ≠ .error .fuel) ∧
    (∀ r t', payeeLines env n a t = .ok (r, t') → t.Step t') := by
  intro n
  induction n with
  | zero => intro a t; exact ⟨fun h => absurd h (by omega), fun r t' h => by cases h⟩
  | succ n ih =>
    intro a t
    have go : ∀ (a' : List Str) (t1 : Tok), t.Step t1 → t1.rest.length < t.rest.length →
        (t.rest.length < n + 1 → payeeLines env n a' t1 ≠ .error .fuel) ∧
        (∀ r t', payeeLines env n a' t1 = .ok (r, t') → t.Step t') := by
      intro a' t1 h hlt
      obtain ⟨h1, h2⟩ := ih a' t1
      exact ⟨fun hn => h1 (by omega), fun r t' hr => h.trans (h2 r t' hr)⟩
    have done : ∀ (x : Except Err (List Str)) (t1 : Tok), t.Step t1 →
        (t.rest.length < n + 1 → (.ok (x, t1) : PRes (Except Err (List Str) × Tok)) ≠ .error .fuel) ∧
        (∀ r t', (.ok (x, t1) : PRes (Except Err (List Str) × Tok)) = .ok (r, t') → t.Step t') := by
      intro x t1 h
      exact ⟨fun _ h => (by cases h), fun r t' h' => by cases h'; exact h⟩
    rw [payeeLines]
    split
    · next t1 hw => exact done _ _ (wsLines_step' hw)
    · next t1 hw =>
      have hst := wsLines_step' hw
      have hlen := hst.length
      obtain ⟨hne, hstop⟩ := wsLines_stop hw
      have hne := hne rfl
      have hwl := wordLine_step env hne
      have hgl : (lineTrim env (getString env t1).2).2 = (getLine (getString env t1).2).2 := rfl
      simp only
      split
      · next hh =>
        obtain ⟨r, hr⟩ : ∃ r, t1.rest = ';' :: r := by
          cases h : t1.rest with
          | nil => exact absurd h hne
          | cons x r => rw [h] at hh; simp at hh; exact ⟨r, by rw [hh]⟩
        obtain ⟨h1, h2⟩ := commentTok_step (env := env) hr (by decide)
        exact go _ _ (hst.trans h1) (by omega)
      · rw [hgl]
        split
        · exact go _ _ (hst.trans hwl.1) (by omega)
        · exact done _ _ (hst.trans (getString_step env t1))

/-! ### Tag directives -/

theorem wsLinesAux_lines {ws : Char → Bool} (hcr : ws '\r' = true) (s : Str) : ∀ line col, ∃ (ls : List Str) (b : Str),
    s = ls.flatMap (· ++ ['\n']) ++ b ++ (wsLinesAux ws s line col).1 ∧
    (∀ l ∈ ls, ∀ c ∈ l, ws c = true ∧ c ≠ '\n') ∧ (∀ c ∈ b, ws c = true ∧ c ≠ '\n') ∧
    (wsLinesAux ws s line col).2.2 = (if ls = [] then col else 0) + b.length := by
  induction s with
  | nil => intro line col; exact ⟨[], [], rfl, by simp, by simp, by simp [wsLinesAux]⟩
  | cons c s ih =>
    intro line col
    rw [wsLinesAux]
    split
    · next hc =>
      subst hc
      obtain ⟨ls, b, h1, h2, h3, h4⟩ := ih (line + 1) 0
      refine ⟨[] :: ls, b, ?_, ?_, h3, ?_⟩
      · conv => lhs; rw [h1]
        simp
      · intro l hl
        rcases List.mem_cons.mp hl with rfl | hl
        · simp
        · exact h2 l hl
      · rw [h4]; simp
    · next hn =>
      split
      · next hc =>
        have hc : ws c = true := by
          rcases hc with hc | rfl
          · exact hc
          · exact hcr
        obtain ⟨ls, b, h1, h2, h3, h4⟩ := ih line (col + 1)
        cases ls with
        | nil =>
          refine ⟨[], c :: b, ?_, by simp, ?_, ?_⟩
          · conv => lhs; rw [h1]
            simp
          · intro x hx
            rcases List.mem_cons.mp hx with rfl | hx
            · exact ⟨hc, hn⟩
            · exact h3 x hx
          · rw [h4]; simp; omega
        | cons l ls =>
          refine ⟨(c :: l) :: ls, b, ?_, ?_, h3, ?_⟩
          · conv => lhs; rw [h1]
            simp
          · intro l' hl'
            rcases List.mem_cons.mp hl' with rfl | hl'
            · intro x hx
              rcases List.mem_cons.mp hx with rfl | hx
              · exact ⟨hc, hn⟩
              · exact h2 l (by simp) x hx
            · exact h2 l' (by simp [hl'])
          · rw [h4]; simp
      · exact ⟨[], [], rfl, by simp, by simp, by simp⟩

theorem tagLines_step (env : Env) : ∀ (n : Nat) (t : Tok) r t', tagLines env n t = .ok (r, t') → t.Step t' := by
  intro n
  induction n with
  | zero => intro t r t' h; cases h
  | succ n ih =>
    intro t r t' h
    rw [tagLines] at h
    split at h
    · next t1 hw => cases h; exact wsLines_step' hw
    · next t1 hw =>
      have hst := wsLines_step' hw
      split at h
      · exact hst.trans (ih _ _ _ h)
      · simp only at h
        split at h
        · exact hst.trans ((wordLine_step env ((wsLines_stop hw).1 rfl)).1.trans (ih _ _ _ h))
        · cases h; exact hst.trans (getString_step env t1)

/-- Indented lines. -/
def Indented (ws : Char → Bool) (ls : List Str) : Prop := ∀ l ∈ ls, '\n' ∉ l ∧ ∀ c, l.head? = some c → ws c = true

theorem tagLines_done {env : Env} (ha : env.AsciiChars) {pre line : Str} (hl1 : line.head? = some 't') (hl2 : '\n' ∉ line)
    (hl3 : "tag ".toList <:+: line) : ∀ (n : Nat) (t : Tok) (ls : List Str),
    ¬ TagComment env.ws t.content → Indented env.ws ls →
    (t.rest = [] ∨ t.col = 0 ∧ t.content = pre ++ line ++ '\n' :: (ls.flatMap (· ++ ['\n']) ++ t.rest)) →
    t.rest.length < n → tagLines env n t ≠ .error .fuel := by
  intro n
  induction n with
  | zero => intro t ls _ _ _ h; omega
  | succ n ih =>
    intro t ls htc hind hat hn
    rw [tagLines]
    split
    · next t1 hw => intro h; cases h
    · next t1 hw =>
      have hst := wsLines_step' hw
      have hlen := hst.length
      have hne := (wsLines_stop hw).1 rfl
      have hat : t.col = 0 ∧ t.content = pre ++ line ++ '\n' :: (ls.flatMap (· ++ ['\n']) ++ t.rest) := by
        rcases hat with h | h
        · have := hst.rest
          rw [h] at this
          exact absurd (List.suffix_nil.mp this) hne
        · exact h
      obtain ⟨ls', b, h1, h2, h3, h4⟩ := wsLinesAux_lines (ws := env.ws) (ha.wsT (by decide) (by decide)) t.rest t.line t.col
      simp only [wsLines, Prod.mk.injEq] at hw
      obtain ⟨rfl, hw⟩ := hw
      simp only at hne hst ⊢
      have hb : b ≠ [] := by
        rintro rfl
        rw [if_neg] at hw
        · cases hw
        · rw [h4, hat.1]; simp
      have hind' : Indented env.ws (ls ++ ls') := by
        intro l hl
        rcases List.mem_append.mp hl with hl | hl
        · exact hind l hl
        · exact ⟨fun hm => (h2 l hl _ hm).2 rfl, fun c hc => (h2 l hl c (List.mem_of_head? hc)).1⟩
      generalize hx : (wsLinesAux env.ws t.rest t.line t.col).1 = x at *
      generalize (wsLinesAux env.ws t.rest t.line t.col).2.1 = line1 at *
      generalize (wsLinesAux env.ws t.rest t.line t.col).2.2 = col1 at *
      have hcont : t.content = pre ++ line ++ '\n' :: ((ls ++ ls').flatMap (· ++ ['\n']) ++ b ++ x) := by
        rw [hat.2]; conv => lhs; rw [h1]
        simp
      split
      · next hh =>
        obtain ⟨r, rfl⟩ : ∃ r, x = ';' :: r := by
          cases x with
          | nil => exact absurd rfl hne
          | cons y r => simp at hh; exact ⟨r, by rw [hh]⟩
        exact absurd ⟨pre, line, ls ++ ls', b, r, hcont, hl1, hl2, hl3, hind', hb, h3⟩ htc
      · split
        · have hwl := wordLine_step env (t := { t with rest := x, line := line1, col := col1 }) hne
          have hgs := getString_step env { t with rest := x, line := line1, col := col1 }
          rcases getLine_cases (getString env { t with rest := x, line := line1, col := col1 }).2 with
            ⟨e1, e2⟩ | ⟨l, r, e1, e2, e3⟩
          · refine ih _ [] ?_ (by simp [Indented]) (.inl (by rw [e2])) ?_
            · rw [hwl.1.content]; exact htc
            · have := hwl.2; simp only at this hlen; omega
          · -- the line that was read is an indented one
            obtain ⟨w, hw1⟩ := hgs.rest
            have hw1 : w ++ (getString env { t with rest := x, line := line1, col := col1 }).2.rest = x := hw1
            have hwn : '\n' ∉ w := by
              have hc := hgs.line
              -- no line break was read
              have hl0 : (getString env { t with rest := x, line := line1, col := col1 }).2.line = line1 := rfl
              rw [hl0] at hc
              simp only at hc
              have hc2 := congrArg (List.count '\n') hw1
              rw [List.count_append] at hc2
              exact List.count_eq_zero.mp (by omega)
            have hbn : '\n' ∉ b := fun hm => (h3 _ hm).2 rfl
            refine ih _ (ls ++ ls' ++ [b ++ w ++ l]) ?_ ?_ (.inr ⟨by rw [e3], ?_⟩) ?_
            · rw [hwl.1.content]; exact htc
            · intro y hy
              rcases List.mem_append.mp hy with hy | hy
              · exact hind' y hy
              · obtain rfl := List.mem_singleton.mp hy
                refine ⟨by simp [hwn, e2, hbn], fun c hc => ?_⟩
                cases b with
                | nil => exact absurd rfl hb
                | cons z b =>
                  obtain rfl : z = c := by simpa using hc
                  exact (h3 z (by simp)).1
            · rw [hwl.1.content, e3]
              simp only
              rw [hcont]
              conv => lhs; rw [← hw1, e1]
              simp
            · have := hwl.2; simp only at this hlen; omega
        · intro h; cases h

theorem directiveName_infix {word s x : Str} (h : directiveName word s = some x) : word ++ [' '] <:+: s := by
  induction s with
  | nil => cases h
  | cons c s ih =>
    rw [directiveName] at h
    split at h
    · next hp =>
      rw [List.isPrefixOf_iff_prefix] at hp
      exact hp.isInfix
    · exact (ih h).trans (List.suffix_cons c s).isInfix

theorem tagTok_step {env : Env} (ha : env.AsciiChars) (fuel : Nat) (t : Tok) (hs : t.rest <:+ t.content)
    (hc : t.rest.head? = some 't') :
    (¬ TagComment env.ws t.content → t.size < fuel → tagTok env fuel t ≠ .error .fuel) ∧
    (∀ r t', tagTok env fuel t = .ok (r, t') → t.Step t' ∧ t'.rest.length < t.rest.length) := by
  have hne : t.rest ≠ [] := by intro h; rw [h] at hc; cases hc
  have h1 := getLine_step t
  have h2 := getLine_lt hne
  unfold tagTok
  simp only
  split
  · exact ⟨fun _ _ h => (by cases h), fun r t' h => by cases h⟩
  · next name hname =>
    have hst : ∀ r t', tagLines env fuel (getLine t).2 = .ok (r, t') → t.Step t' ∧ t'.rest.length < t.rest.length := by
      intro r t' h
      have := tagLines_step env _ _ _ _ h
      exact ⟨h1.trans this, by have := this.length; omega⟩
    refine ⟨fun htc hf => ?_, fun r t' h => ?_⟩
    · have : tagLines env fuel (getLine t).2 ≠ .error .fuel := by
        have hlen : (getLine t).2.rest.length < fuel := by unfold Tok.size at hf; omega
        have hinf := directiveName_infix hname
        obtain ⟨pre, hpre⟩ := hs
        have hgl : (getLine t).1 = t.rest.takeWhile (· != '\n') := by
          unfold getLine
          simp only
          split <;> rfl
        rw [hgl] at hinf
        rcases getLine_cases t with ⟨e1, e2⟩ | ⟨l, r, e1, e2, e3⟩
        · have e4 : t.rest.takeWhile (· != '\n') = t.rest := by
            have := List.takeWhile_append_of_pos (p := (· != '\n')) (l₁ := t.rest) (l₂ := []) (fun a ha => by
              simp; rintro rfl; exact e1 ha)
            simpa using this
          rw [e4] at hinf
          refine tagLines_done ha (pre := pre) (line := t.rest) hc e1 hinf fuel _ [] ?_ (by simp [Indented])
            (.inl (by rw [e2])) hlen
          rw [h1.content]; exact htc
        · have e4 : t.rest.takeWhile (· != '\n') = l := by
            rw [e1]
            exact (takeWhile_append_stop (x := '\n') (r := r)
              (fun x hx => by simp; rintro rfl; exact e2 hx) (by simp)).1
          rw [e4] at hinf
          have hl : l.head? = some 't' := by
            rw [e1] at hc
            cases l with
            | nil => simp at hc
            | cons a l => simpa using hc
          refine tagLines_done ha (pre := pre) hl e2 hinf fuel _ [] ?_ (by simp [Indented]) (.inr ⟨?_, ?_⟩) hlen
          · rw [h1.content]; exact htc
          · rw [e3]
          · rw [e3]
            simp only [List.flatMap_nil, List.nil_append]
            rw [← hpre, e1]; simp
      split
      · next e he =>
        intro h; cases h; exact this he
      · intro h; cases h
      · intro h; cases h
    · split at h
      · cases h
      · next e t2 he => cases h; exact hst _ _ he
      · next t2 he => cases h; exact hst _ _ he

theorem accountTok_step (env : Env) (fuel : Nat) (t : Tok) (hne : t.rest ≠ []) :
    (t.size < fuel → accountTok env fuel t ≠ .error .fuel) ∧
    (∀ r t', accountTok env fuel t = .ok (r, t') → t.Step t' ∧ t'.rest.length < t.rest.length) := by
  have h1 := getLine_step t
  have h2 := getLine_lt hne
  unfold accountTok
  simp only
  split
  · exact ⟨fun _ h => (by cases h), fun r t' h => by cases h⟩
  · obtain ⟨h3, h4⟩ := accountLines_step env fuel _ (getLine t).2
    refine ⟨fun h => h3 (by unfold Tok.size at h; omega), fun r t' h => ?_⟩
    have := h4 r t' h
    exact ⟨h1.trans this, by have := this.length; omega⟩

theorem commodityTok_step (env : Env) (fuel : Nat) (t : Tok) (hne : t.rest ≠ []) :
    (t.size < fuel → commodityTok env fuel t ≠ .error .fuel) ∧
    (∀ r t', commodityTok env fuel t = .ok (r, t') → t.Step t' ∧ t'.rest.length < t.rest.length) := by
  have h1 := getLine_step t
  have h2 := getLine_lt hne
  unfold commodityTok
  simp only
  split
  · exact ⟨fun _ h => (by cases h), fun r t' h => by cases h⟩
  · obtain ⟨h3, h4⟩ := commodityLines_step env fuel _ (getLine t).2
    refine ⟨fun h => h3 (by unfold Tok.size at h; omega), fun r t' h => ?_⟩
    have := h4 r t' h
    exact ⟨h1.trans this, by have := this.length; omega⟩

theorem payeeTok_step (env : Env) (fuel : Nat) (t : Tok) (hne : t.rest ≠ []) :
    (t.size < fuel → payeeTok env fuel t ≠ .error .fuel) ∧
    (∀ r t', payeeTok env fuel t = .ok (r, t') → t.Step t' ∧ t'.rest.length < t.rest.length) := by
  have h1 := getLine_step t
  have h2 := getLine_lt hne
  unfold payeeTok
  simp only
  split
  · exact ⟨fun _ h => (by cases h), fun r t' h => by cases h⟩
  · obtain ⟨h3, h4⟩ := payeeLines_step env fuel [] (getLine t).2
    have hst : ∀ r t', payeeLines env fuel [] (getLine t).2 = .ok (r, t') → t.Step t' ∧ t'.rest.length < t.rest.length := by
      intro r t' h
      have := h4 r t' h
      exact ⟨h1.trans this, by have := this.length; omega⟩
    refine ⟨fun h => ?_, fun r t' h => ?_⟩
    · have := h3 (by unfold Tok.size at h; omega)
      split
      · next e he => intro h; cases h; exact this he
      · intro h; cases h
      · split <;> (intro h; cases h)
    · split at h
      · cases h
      · next e t2 he => cases h; exact hst _ _ he
      · next a t2 he =>
        split at h
        · cases h; exact hst _ _ he
        · cases h

theorem priceTok_step (env : Env) (t : Tok) (hne : t.rest ≠ []) :
    priceTok env t ≠ .error .fuel ∧
    (∀ r t', priceTok env t = .ok (r, t') → t.Step t' ∧ t'.rest.length < t.rest.length) := by
  have h1 := getLine_step t
  have h2 := getLine_lt hne
  unfold priceTok
  simp only
  split
  · exact ⟨fun h => (by cases h), fun r t' h => by cases h⟩
  · exact ⟨fun h => (by cases h), fun r t' h => by cases h; exact ⟨h1, h2⟩⟩

theorem includeTok_step {fs : Files} {file : Option Str} {seen : List Str} {tok : Str → PRes ParsedLedger} {t t' : Tok}
    {pl : ParsedLedger} (h : includeTok fs file seen tok t = .ok (pl, t')) :
    t.Step t' ∧ t'.rest.length < t.rest.length := by
  unfold includeTok at h
  split at h
  · cases h
  · next t1 hc =>
    have h1 := consumeStr_step (by decide) hc
    have hlt : t1.rest.length < t.rest.length := by
      unfold consumeStr at hc
      split at hc
      · next hp =>
        cases hc
        rw [List.isPrefixOf_iff_prefix] at hp
        obtain ⟨r, hr⟩ := hp
        simp only [← hr, List.drop_left, List.length_append]
        have : 0 < "include ".toList.length := by decide
        omega
      · cases hc
    have h2 := getLine_step t1
    simp only at h
    split at h
    · cases h
    · split at h
      · cases h
      · split at h
        · cases h
        · cases hx : includeFiles tok _ {} with
          | error e => rw [hx] at h; cases h
          | ok x =>
            rw [hx] at h
            cases h
            exact ⟨h1.trans h2, by have := h2.length; omega⟩

/-! ### The main loop -/

/-- What is asked of `include::parse`. -/
def IncStep (inc : Tok → PRes (ParsedLedger × Tok)) : Prop :=
  ∀ t pl t', inc t = .ok (pl, t') → t.Step t' ∧ t'.rest.length < t.rest.length

theorem reported_error {α : Type} {x : PRes (Except Err α × Tok)} (h : x ≠ .error .fuel) : reported x ≠ .error .fuel := by
  unfold reported
  split
  · next e => intro h'; cases h'; exact h rfl
  · intro h; cases h
  · intro h; cases h

theorem reported_ok {α : Type} {x : PRes (Except Err α × Tok)} {a : α} {t : Tok} (h : reported x = .ok (a, t)) :
    x = .ok (.ok a, t) := by
  unfold reported at h
  split at h
  · cases h
  · cases h
  · cases h; rfl

theorem map_error {α β : Type} {x : PRes α} {f : α → β} (h : x ≠ .error .fuel) : x.map f ≠ .error .fuel := by
  cases x with
  | error e => intro h'; cases h'; exact h rfl
  | ok a => intro h; cases h

theorem map_ok {α β : Type} {x : PRes α} {f : α → β} {b : β} (h : x.map f = .ok b) : ∃ a, x = .ok a ∧ f a = b := by
  cases x with
  | error e => cases h
  | ok a => cases h; exact ⟨a, rfl, rfl⟩

theorem item_step {env : Env} (ha : env.AsciiChars) (fuel : Nat) {inc : Tok → PRes (ParsedLedger × Tok)}
    (hi : IncStep inc) {c : Char} {r : Str} (pl : ParsedLedger) (t : Tok) (hs : t.rest <:+ t.content) (hr : t.rest = c :: r)
    (hc : c ≠ '\n') :
    ((inc t ≠ .error .fuel) → ¬ TagComment env.ws t.content → t.size < fuel → item env fuel inc c pl t ≠ .error .fuel) ∧
    (∀ x t', item env fuel inc c pl t = .ok (x, t') → t.Weak t' ∧ t'.rest.length < t.rest.length ∧
      (c ≠ '=' → t.Step t')) := by
  have hne : t.rest ≠ [] := by rw [hr]; simp
  unfold item
  by_cases hk0 : c ∈ [';', '!', '*', '%', '#']
  · rw [if_pos hk0]
    obtain ⟨h1, h2⟩ := commentTok_step (env := env) hr hc
    refine ⟨fun _ _ _ h => (by cases h), fun x t' h => ?_⟩
    cases h
    exact ⟨h1.weak, h2, fun _ => h1⟩
  · rw [if_neg hk0]
    by_cases hk1 : env.numeric c = true
    · rw [if_pos hk1]
      obtain ⟨h1, h2⟩ := transactionTok_step ha fuel t hs hne
      refine ⟨fun _ _ hf => map_error (h1 hf), fun x t' h => ?_⟩
      obtain ⟨a, e1, e2⟩ := map_ok h
      cases e2
      obtain ⟨h3, h4⟩ := h2 a.1 a.2 e1
      exact ⟨h3.weak, h4, fun _ => h3⟩
    · rw [if_neg hk1]
      by_cases hk2 : c = '='
      · rw [if_pos hk2]
        have heq := hk2
        obtain ⟨h1, h2⟩ := automatedTok_step ha fuel t hs hne
        refine ⟨fun _ _ hf => map_error (h1 hf), fun x t' h => ?_⟩
        obtain ⟨a, e1, e2⟩ := map_ok h
        cases e2
        obtain ⟨h3, h4⟩ := h2 a.1 a.2 e1
        exact ⟨h3, h4, fun h => absurd heq h⟩
      · rw [if_neg hk2]
        by_cases hk3 : c = 'i'
        · rw [if_pos hk3]
          refine ⟨fun hi _ _ => map_error hi, fun x t' h => ?_⟩
          obtain ⟨a, e1, e2⟩ := map_ok h
          cases e2
          obtain ⟨h3, h4⟩ := hi t a.1 a.2 e1
          exact ⟨h3.weak, h4, fun _ => h3⟩
        · rw [if_neg hk3]
          by_cases hk4 : c = 'c'
          · rw [if_pos hk4]
            obtain ⟨h1, h2⟩ := commodityTok_step env fuel t hne
            refine ⟨fun _ _ hf => map_error (reported_error (h1 hf)), fun x t' h => ?_⟩
            obtain ⟨a, e1, e2⟩ := map_ok h
            cases e2
            obtain ⟨h3, h4⟩ := h2 (.ok a.1) a.2 (reported_ok e1)
            exact ⟨h3.weak, h4, fun _ => h3⟩
          · rw [if_neg hk4]
            by_cases hk5 : c = 'p'
            · rw [if_pos hk5]
              obtain ⟨h1, h2⟩ := payeeTok_step env fuel t hne
              refine ⟨fun _ _ hf => map_error (reported_error (h1 hf)), fun x t' h => ?_⟩
              obtain ⟨a, e1, e2⟩ := map_ok h
              cases e2
              obtain ⟨h3, h4⟩ := h2 (.ok a.1) a.2 (reported_ok e1)
              exact ⟨h3.weak, h4, fun _ => h3⟩
            · rw [if_neg hk5]
              by_cases hk6 : c = 't'
              · rw [if_pos hk6]
                have hct := hk6
                obtain ⟨h1, h2⟩ := tagTok_step ha fuel t hs (by rw [hr, hct]; rfl)
                refine ⟨fun _ ht hf => map_error (reported_error (h1 ht hf)), fun x t' h => ?_⟩
                obtain ⟨a, e1, e2⟩ := map_ok h
                cases e2
                obtain ⟨h3, h4⟩ := h2 (.ok a.1) a.2 (reported_ok e1)
                exact ⟨h3.weak, h4, fun _ => h3⟩
              · rw [if_neg hk6]
                by_cases hk7 : c = 'a'
                · rw [if_pos hk7]
                  obtain ⟨h1, h2⟩ := accountTok_step env fuel t hne
                  refine ⟨fun _ _ hf => map_error (reported_error (h1 hf)), fun x t' h => ?_⟩
                  obtain ⟨a, e1, e2⟩ := map_ok h
                  cases e2
                  obtain ⟨h3, h4⟩ := h2 (.ok a.1) a.2 (reported_ok e1)
                  exact ⟨h3.weak, h4, fun _ => h3⟩
                · rw [if_neg hk7]
                  by_cases hk8 : c = 'P'
                  · rw [if_pos hk8]
                    obtain ⟨h1, h2⟩ := priceTok_step env t hne
                    refine ⟨fun _ _ hf => map_error h1, fun x t' h => ?_⟩
                    obtain ⟨a, e1, e2⟩ := map_ok h
                    cases e2
                    obtain ⟨h3, h4⟩ := h2 a.1 a.2 e1
                    exact ⟨h3.weak, h4, fun _ => h3⟩
                  · rw [if_neg hk8]
                    exact ⟨fun _ _ _ h => (by cases h), fun x t' h => by cases h⟩

/-- The main loop finishes. -/
theorem items_done {env : Env} (ha : env.AsciiChars) (fuel : Nat) {inc : Tok → PRes (ParsedLedger × Tok)}
    (hi : IncStep inc) (hinc : ∀ t, inc t ≠ .error .fuel) : ∀ (n : Nat) (pl : ParsedLedger) (t : Tok),
    t.rest <:+ t.content → ¬ TagComment env.ws t.content → t.size < fuel → t.rest.length + 1 < n →
    items env fuel inc n pl t ≠ .error .fuel := by
  intro n
  induction n with
  | zero => intro pl t _ _ _ h; omega
  | succ n ih =>
    intro pl t hs ht hf hn
    rw [items]
    split
    · intro h; cases h
    · next hne =>
      split
      · intro h; cases h
      · next t1 hw =>
        have hst := wsLines_step' hw
        have hlen := hst.length
        have hsz := hst.size
        split
        · next hr =>
          -- nothing is left, the next iteration returns
          obtain ⟨n, rfl⟩ : ∃ m, n = m + 1 := ⟨n - 1, by
            have := List.length_pos_of_ne_nil hne; omega⟩
          rw [items, if_pos hr]
          intro h; cases h
        · next c r hr =>
          obtain ⟨h1, h2⟩ := item_step ha fuel hi pl t1 (hst.suffix hs) hr ((wsLines_stop hw).2 c r hr).1
          have h1 := h1 (hinc t1) (by rw [hst.content]; exact ht) (by omega)
          split
          · next e he => intro h; cases h; exact h1 he
          · next pl' t2 he =>
            obtain ⟨h3, h4, _⟩ := h2 _ _ he
            have := h3.size
            exact ih _ _ (h3.suffix (hst.suffix hs)) (by rw [h3.content, hst.content]; exact ht) (by omega) (by omega)

end Dinero
