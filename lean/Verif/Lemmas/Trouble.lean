import Verif.Spec.Trouble
import Verif.Lemmas.Excerpt
/-
Lemmas about the place and the text of the errors of the parser.
-/
namespace Dinero

/-! ### Columns -/

theorem columnOf_append {read pre : Str} (h : '\n' ∉ pre) : columnOf (read ++ pre) = columnOf read + pre.length := by
  unfold columnOf
  rw [List.reverse_append, List.takeWhile_append_of_pos (by
    intro c hc
    simp only [bne_iff_ne, ne_eq]
    rintro rfl
    exact h (List.mem_reverse.mp hc))]
  simp
  omega

theorem columnOf_nl (read : Str) : columnOf (read ++ ['\n']) = 0 := by simp [columnOf]

theorem Tok.Exact.counts {t : Tok} (h : t.Exact) : t.CountsLines := by
  obtain ⟨read, h1, h2, _⟩ := h
  exact ⟨read, h1, h2⟩

/-- Lines are counted right, and the characters of the last line, too, unless it has been read. -/
def Tok.Loose (t : Tok) : Prop :=
  ∃ read, t.content = read ++ t.rest ∧ t.line = read.count '\n' ∧ (t.rest = [] ∨ t.rest.head? = some '\n' ∨ t.col = columnOf read)

theorem Tok.Exact.loose {t : Tok} (h : t.Exact) : t.Loose := by
  obtain ⟨read, h1, h2, h3⟩ := h
  exact ⟨read, h1, h2, .inr (.inr h3)⟩

theorem Tok.Loose.counts {t : Tok} (h : t.Loose) : t.CountsLines := by
  obtain ⟨read, h1, h2, _⟩ := h
  exact ⟨read, h1, h2⟩

theorem counts_suffix {t : Tok} (h : t.CountsLines) : t.rest <:+ t.content := by
  obtain ⟨read, h1, _⟩ := h
  exact ⟨read, h1.symm⟩

theorem counts_step {t t' : Tok} (h : t.CountsLines) (hs : t.Step t') : t'.CountsLines := by
  obtain ⟨read, h1, h2⟩ := h
  obtain ⟨p, hp⟩ := hs.rest
  refine ⟨read ++ p, by rw [hs.content, h1, ← hp]; simp, ?_⟩
  have := hs.line
  rw [← hp, List.count_append] at this
  rw [List.count_append]
  omega

/-- Reading a part of a line. -/
structure Tok.Along (t t' : Tok) : Prop where
  content : t'.content = t.content
  line : t'.line = t.line
  rest : ∃ pre, t.rest = pre ++ t'.rest ∧ '\n' ∉ pre ∧ t'.col = t.col + pre.length

theorem Tok.Along.rfl {t : Tok} : t.Along t := ⟨.refl _, .refl _, [], by simp, by simp, by simp⟩

theorem Tok.Along.trans {a b c : Tok} (h : a.Along b) (h' : b.Along c) : a.Along c := by
  obtain ⟨p, h1, h2, h3⟩ := h.rest
  obtain ⟨q, k1, k2, k3⟩ := h'.rest
  exact ⟨h'.content.trans h.content, h'.line.trans h.line, p ++ q, by rw [h1, k1]; simp, by simp [h2, k2],
    by rw [k3, h3]; simp; omega⟩

theorem Tok.Along.step {t t' : Tok} (h : t.Along t') : t.Step t' := by
  obtain ⟨p, h1, h2, _⟩ := h.rest
  exact .of_append h.content h1 h.line h2

theorem Tok.Along.exact {t t' : Tok} (h : t.Along t') (he : t.Exact) : t'.Exact := by
  obtain ⟨p, h1, h2, h3⟩ := h.rest
  obtain ⟨read, e1, e2, e3⟩ := he
  refine ⟨read ++ p, by rw [h.content, e1, h1]; simp, ?_, ?_⟩
  · rw [h.line, e2, List.count_append, List.count_eq_zero_of_not_mem h2]; omega
  · rw [h3, e3, columnOf_append h2]

theorem Tok.Along.mem {t t' : Tok} (h : t.Along t') {c : Char} (hc : c ∈ t'.rest) : c ∈ t.rest := by
  obtain ⟨p, h1, _⟩ := h.rest
  rw [h1]; simp [hc]

theorem Tok.Along.nl {t t' : Tok} (h : t.Along t') (hc : '\n' ∈ t.rest) : '\n' ∈ t'.rest := by
  obtain ⟨p, h1, h2, _⟩ := h.rest
  rw [h1, List.mem_append] at hc
  exact hc.resolve_left h2

theorem consumeWs_along (env : Env) (t : Tok) : t.Along (consumeWs env t) := by
  refine ⟨rfl, rfl, t.rest.takeWhile env.blank, List.takeWhile_append_dropWhile.symm, ?_, rfl⟩
  intro h
  have := List.all_eq_true.mp (List.all_takeWhile (p := env.blank) (l := t.rest)) _ h
  simp [Env.blank] at this

theorem wordAux_count (env : Env) (s : Str) (e q : Bool) :
    ∃ pre, s = pre ++ (wordAux env s e q).2.2 ∧ '\n' ∉ pre ∧ pre.length = (wordAux env s e q).2.1 := by
  induction s generalizing e q with
  | nil => exact ⟨[], rfl, by simp, rfl⟩
  | cons c s ih =>
    have go : ∀ e' q', c ≠ '\n' → ∃ pre, c :: s = pre ++ (wordAux env s e' q').2.2 ∧ '\n' ∉ pre ∧
        pre.length = (wordAux env s e' q').2.1 + 1 := by
      intro e' q' hc
      obtain ⟨pre, h1, h2, h3⟩ := ih e' q'
      exact ⟨c :: pre, by rw [List.cons_append, ← h1], by simp [h2, Ne.symm hc], by simp [h3]⟩
    rw [wordAux]
    split
    · exact ⟨[], rfl, by simp, rfl⟩
    · next hc =>
      split
      · next hq =>
        split
        · exact go _ _ hc
        · split
          · exact ⟨[c], rfl, by simp [Ne.symm hc], rfl⟩
          · exact go _ _ hc
      · split
        · exact ⟨[], rfl, by simp, rfl⟩
        · exact go _ _ hc

theorem getString_along (env : Env) (t : Tok) : t.Along (getString env t).2 := by
  obtain ⟨pre, h1, h2, h3⟩ := wordAux_count env (consumeWs env t).rest true false
  refine (consumeWs_along env t).trans (.trans ?_ (consumeWs_along env _))
  exact ⟨rfl, rfl, pre, h1, h2, by simp [h3]⟩

/-- The characters of an amount. -/
theorem amountAux_read {env : Env} (ha : env.AsciiChars) (s : Str) (d : Bool) {num rest : Str} {k n : Nat}
    (h : amountAux env s d = some (num, k, n, rest)) :
    ∃ pre, s = pre ++ rest ∧ (∀ c ∈ pre, c = '.' ∨ NumberChar env c) ∧ num = pre.filter (· != '.') ∧ n = pre.length ∧
      (d = true → pre.count '.' = 0) ∧ pre.count '.' ≤ 1 ∧ (∀ c, rest.head? = some c → ¬ (c = '.' ∨ NumberChar env c)) := by
  have hpt : env.numeric '.' = false := ha.numF (by decide) (by decide)
  induction s generalizing d num rest k n with
  | nil => cases h; exact ⟨[], rfl, by simp, rfl, rfl, by simp, by simp, by simp⟩
  | cons c s ih =>
    rw [amountAux] at h
    split at h
    · next hc =>
      split at h
      · cases h
      · next hd =>
        obtain ⟨⟨num', k', n', rest'⟩, h1, h2⟩ := Option.map_eq_some_iff.mp h
        cases h2
        obtain ⟨pre, e1, e2, e3, e4, e5, e6, e7⟩ := ih _ h1
        refine ⟨c :: pre, by rw [List.cons_append, ← e1], ?_, by simp [hc, e3], by simp [e4], fun h => absurd h hd, ?_, e7⟩
        · intro x hx
          rcases List.mem_cons.mp hx with rfl | hx
          · exact .inl hc
          · exact e2 x hx
        · rw [hc, List.count_cons_self, e5 rfl]
    · next hp =>
      split at h
      · next hc =>
        obtain ⟨⟨num', k', n', rest'⟩, h1, h2⟩ := Option.map_eq_some_iff.mp h
        cases h2
        obtain ⟨pre, e1, e2, e3, e4, e5, e6, e7⟩ := ih _ h1
        refine ⟨c :: pre, by rw [List.cons_append, ← e1], ?_, by simp [hp, e3], by simp [e4], fun h => ?_, ?_, e7⟩
        · intro x hx
          rcases List.mem_cons.mp hx with rfl | hx
          · exact .inr hc
          · exact e2 x hx
        · rw [List.count_cons_of_ne hp]; exact e5 h
        · rw [List.count_cons_of_ne hp]; exact e6
      · next hc =>
        cases h
        refine ⟨[], rfl, by simp, rfl, rfl, by simp, by simp, ?_⟩
        intro x hx
        cases hx
        rintro (h | h)
        · exact hp h
        · exact hc h

theorem amountAux_second {env : Env} (s : Str) (d : Bool) (h : amountAux env s d = none) :
    (d = true → ∃ b r, s = b ++ '.' :: r ∧ '.' ∉ b ∧ ∀ c ∈ b, NumberChar env c) ∧
    (d = false → ∃ a b r, s = a ++ '.' :: (b ++ '.' :: r) ∧ '.' ∉ a ∧ (∀ c ∈ a, NumberChar env c) ∧ '.' ∉ b ∧
      ∀ c ∈ b, NumberChar env c) := by
  induction s generalizing d with
  | nil => cases h
  | cons c s ih =>
    rw [amountAux] at h
    split at h
    · next hc =>
      subst hc
      cases d with
      | true => exact ⟨fun _ => ⟨[], s, rfl, by simp, by simp⟩, by simp⟩
      | false =>
        rw [if_neg (by simp), Option.map_eq_none_iff] at h
        obtain ⟨b, r, e, h1, h2⟩ := (ih _ h).1 rfl
        exact ⟨by simp, fun _ => ⟨[], b, r, by simp [e], by simp, by simp, h1, h2⟩⟩
    · next hc' =>
      split at h
      · next hc =>
        rw [Option.map_eq_none_iff] at h
        refine ⟨fun hd => ?_, fun hd => ?_⟩
        · obtain ⟨b, r, e, h1, h2⟩ := (ih _ h).1 hd
          exact ⟨c :: b, r, by simp [e], by simp [h1, Ne.symm hc'], by
            intro x hx
            rcases List.mem_cons.mp hx with rfl | hx
            · exact hc
            · exact h2 x hx⟩
        · obtain ⟨a, b, r, e, h1, h2, h3, h4⟩ := (ih _ h).2 hd
          exact ⟨c :: a, b, r, by simp [e], by simp [h1, Ne.symm hc'], by
            intro x hx
            rcases List.mem_cons.mp hx with rfl | hx
            · exact hc
            · exact h2 x hx, h3, h4⟩
      · cases h

theorem numberChar_nl {env : Env} (ha : env.AsciiChars) {s : Str} (h : ∀ c ∈ s, c = '.' ∨ NumberChar env c) : '\n' ∉ s := by
  intro hm
  have hnl : env.numeric '\n' = false := ha.numF (by decide) (by decide)
  rcases h _ hm with h | h | h
  · revert h; decide
  · revert h; decide
  · rw [hnl] at h; cases h

theorem foldl_digits_none (s : Str) : s.foldl (fun (acc : Option Nat) c => acc.bind (fun n =>
    if '0' ≤ c ∧ c ≤ '9' then some (10 * n + (c.toNat - 48)) else none)) none = none := by
  induction s with
  | nil => rfl
  | cons c s ih => exact ih

theorem natOf_some {s : Str} (h : ∀ c ∈ s, '0' ≤ c ∧ c ≤ '9') (h0 : s ≠ []) : natOf s ≠ none := by
  unfold natOf
  rw [if_neg h0]
  have : ∀ (s : Str) (n : Nat), (∀ c ∈ s, '0' ≤ c ∧ c ≤ '9') → s.foldl (fun (acc : Option Nat) c => acc.bind (fun n =>
    if '0' ≤ c ∧ c ≤ '9' then some (10 * n + (c.toNat - 48)) else none)) (some n) ≠ none := by
    intro s
    induction s with
    | nil => intro n _ h; cases h
    | cons c s ih =>
      intro n h
      rw [List.foldl_cons, Option.bind_some, if_pos (h c (by simp))]
      exact ih _ (fun x hx => h x (by simp [hx]))
  exact this s 0 h

theorem intOf_integer {s : Str} (h : IsInteger s) : intOf s ≠ none := by
  obtain ⟨d, hs, h0, hd⟩ := h
  have hn := natOf_some hd h0
  have : ∀ f : Nat → Int, (natOf d).map f ≠ none := fun f h => hn (Option.map_eq_none_iff.mp h)
  rcases hs with rfl | rfl | rfl
  · cases s with
    | nil => exact absurd rfl h0
    | cons c s =>
      have hc := hd c (by simp)
      have h1 : c ≠ '-' := by rintro rfl; revert hc; decide
      have h2 : c ≠ '+' := by rintro rfl; revert hc; decide
      unfold intOf
      split
      · next e => exact absurd (List.cons.inj e).1 h1
      · next e => exact absurd (List.cons.inj e).1 h2
      · exact this _
  · exact this _
  · exact this _

theorem parseAmount_along {env : Env} (ha : env.AsciiChars) (t : Tok) : t.Along (parseAmount env t).2 := by
  unfold parseAmount
  cases h : amountAux env t.rest false with
  | none =>
    obtain ⟨a, b, r, e, h1, h2, h3, h4⟩ := (amountAux_second _ _ h).2 rfl
    have n1 := numberChar_nl ha (fun c hc => .inr (h2 c hc))
    have n2 := numberChar_nl ha (fun c hc => .inr (h4 c hc))
    simp only
    rw [e, takeWhile_point h1]
    have e1 : (a ++ '.' :: (b ++ '.' :: r)).drop (a.length + 1) = b ++ '.' :: r := by
      rw [List.drop_append]; simp
    rw [e1, takeWhile_point h3]
    have e2 : (a ++ '.' :: (b ++ '.' :: r)).drop (a.length + 1 + b.length) = '.' :: r := by
      rw [← List.drop_drop, e1]; simp
    exact ⟨rfl, rfl, a ++ '.' :: b, by simp only [e, e2]; simp, by simp [n1, n2], by simp; omega⟩
  | some x =>
    obtain ⟨num, k, n, rest⟩ := x
    obtain ⟨pre, h1, h2, _, h4, _⟩ := amountAux_read ha _ _ h
    exact ⟨rfl, rfl, pre, h1, numberChar_nl ha h2, by rw [h4]⟩

/-- What is wrong with an amount. -/
theorem amount_fits {env : Env} (ha : env.AsciiChars) {fs : Files} {t t' : Tok} {e : Err} (h : parseAmount env t = (.error e, t'))
    (hs : t.rest <:+ t.content) {read : Str} (hr : t'.content = read ++ t'.rest) :
    Explains env fs read t'.rest true (amountReason env t) := by
  obtain ⟨a0, ha0⟩ := hs
  unfold parseAmount at h
  unfold amountReason
  cases hx : amountAux env t.rest false with
  | none =>
    obtain ⟨a, b, r, e', h1, h2, h3, h4⟩ := (amountAux_second _ _ hx).2 rfl
    rw [hx] at h
    simp only at h
    rw [e', takeWhile_point h1] at h
    have e1 : (a ++ '.' :: (b ++ '.' :: r)).drop (a.length + 1) = b ++ '.' :: r := by
      rw [List.drop_append]; simp
    rw [e1, takeWhile_point h3] at h
    have e2 : (a ++ '.' :: (b ++ '.' :: r)).drop (a.length + 1 + b.length) = '.' :: r := by
      rw [← List.drop_drop, e1]; simp
    rw [e2] at h
    cases h
    simp only at hr ⊢
    refine .points (a := a0 ++ a) (b := b) rfl ?_ h4
    refine List.append_cancel_right (bs := '.' :: r) ?_
    rw [← hr, ← ha0, e']
    simp
  | some x =>
    obtain ⟨num, k, n, rest⟩ := x
    obtain ⟨pre, h1, h2, h3, h4, _, h6, h7⟩ := amountAux_read ha _ _ hx
    rw [hx] at h
    simp only [Prod.mk.injEq] at h
    obtain ⟨h8, rfl⟩ := h
    simp only at hr ⊢
    refine .number (a := a0) (s := pre) ?_ h2 h6 h7 ?_
    · refine List.append_cancel_right (bs := rest) ?_
      rw [← hr, ← ha0, h1]
      simp
    · rw [← h3]
      intro hi
      have := intOf_integer hi
      split at h8
      · next hn => exact this hn
      · cases h8

theorem parseMoney_along {env : Env} (ha : env.AsciiChars) (t : Tok) : t.Along (parseMoney env t).2 := by
  unfold parseMoney
  split
  · exact .rfl
  · split
    · have h1 := parseAmount_along ha t
      cases hp : parseAmount env t with
      | mk r t' =>
        rw [hp] at h1
        cases r with
        | error e => exact h1
        | ok a => exact h1.trans (getString_along env t')
    · have h0 := getString_along env t
      have h1 := parseAmount_along ha (getString env t).2
      cases hp : parseAmount env (getString env t).2 with
      | mk r t' =>
        simp only [hp]
        rw [hp] at h1
        cases r with
        | error e => exact h0.trans h1
        | ok a => exact h0.trans h1

/-- What is wrong with an amount of money. -/
theorem money_explains {env : Env} (ha : env.AsciiChars) {fs : Files} {t t' : Tok} {e : Err} (h : parseMoney env t = (.error e, t'))
    (hs : t.rest <:+ t.content) {read : Str} (hr : t'.content = read ++ t'.rest) :
    Explains env fs read t'.rest true (moneyReason env t) := by
  unfold parseMoney at h
  unfold moneyReason
  cases hx : t.rest with
  | nil =>
    rw [hx] at h
    cases h
    exact .missing hx
  | cons c r =>
    rw [hx] at h
    simp only at h ⊢
    split
    · next hc =>
      rw [if_pos hc] at h
      cases hp : parseAmount env t with
      | mk q t1 =>
        rw [hp] at h
        cases q with
        | error e =>
          cases h
          exact amount_fits ha hp hs hr
        | ok a => cases h
    · next hc =>
      rw [if_neg hc] at h
      cases hp : parseAmount env (getString env t).2 with
      | mk q t1 =>
        rw [hp] at h
        cases q with
        | error e =>
          cases h
          have hst := getString_along env t
          exact amount_fits ha hp (hst.step.suffix hs) hr
        | ok a => cases h

/-! ### Postings -/

theorem getLast_nl {t : Tok} (h : t.content.getLast? = some '\n') (hs : t.rest <:+ t.content) (h0 : t.rest ≠ []) : '\n' ∈ t.rest := by
  obtain ⟨a, e⟩ := hs
  rw [← e, List.getLast?_append_of_ne_nil _ h0] at h
  exact List.mem_of_getLast? h

theorem amounts_nl {env : Env} {tt : TType} {n : Nat} {p : RawPosting} {t : Tok} {r : Str} (h : t.rest = '\n' :: r)
    {x : Except Err RawPosting} {t' : Tok} (e : amounts env tt n p t = .ok (x, t')) : x = .ok p ∧ t' = t := by
  cases n with
  | zero => cases e
  | succ n =>
    rw [amounts.eq_def] at e
    simp only [h] at e
    cases e
    exact ⟨rfl, rfl⟩

theorem getLine_loose {t : Tok} (h : t.CountsLines) : (getLine t).2.Loose := by
  obtain ⟨read, h1, h2⟩ := h
  rcases getLine_cases t with ⟨h3, h4⟩ | ⟨l, r, h3, h4, h5⟩
  · rw [h4]
    exact ⟨read ++ t.rest, by simp [h1], by simp [h2, List.count_eq_zero_of_not_mem h3], .inl rfl⟩
  · rw [h5]
    refine ⟨read ++ l ++ ['\n'], by simp [h1, h3], ?_, .inr (.inr (columnOf_nl _).symm)⟩
    simp [h2, List.count_eq_zero_of_not_mem h4]

theorem commentTok_loose {env : Env} {t : Tok} {c : Char} {r : Str} (h : t.rest = c :: r) (hc : c ≠ '\n') (ht : t.CountsLines) :
    (commentTok env t).2.Loose := by
  have h1 : t.Step { t with rest := t.rest.drop 1, col := t.col + 1 } :=
    .of_append (pre := [c]) rfl (by simp [h]) rfl (by simp [Ne.symm hc])
  exact getLine_loose (counts_step ht (h1.trans (consumeWs_step env _)))

/-- A value expression extends to the end of the line or a comment. -/
theorem valueExprAux_stop (s : Str) : ∀ (o c line col : Nat), (valueExprAux s o c line col).2.1 = [] ∨
    (valueExprAux s o c line col).2.1.head? = some '\n' ∨ (valueExprAux s o c line col).2.1.head? = some ';' := by
  induction s with
  | nil => intro o c line col; exact .inl rfl
  | cons x s ih =>
    intro o c line col
    rw [valueExprAux]
    split
    · exact ih _ _ _ _
    · split
      · exact ih _ _ _ _
      · split
        · next hn =>
          split
          · exact .inr (.inl (by rw [hn]; rfl))
          · exact ih _ _ _ _
        · split
          · next hn => exact .inr (.inr (by rw [hn]; rfl))
          · exact ih _ _ _ _

/-- There is no error after a value expression. -/
theorem amounts_after_expression {env : Env} {tt : TType} {t t' : Tok} {e : Err} (n : Nat) (p : RawPosting) (hws : env.ws ';' = false) :
    amounts env tt n p (consumeWs env (getValueExpression t).2) ≠ .ok (.error e, t') := by
  intro h
  cases n with
  | zero => cases h
  | succ n =>
    have hstop := valueExprAux_stop t.rest 0 0 t.line t.col
    change (getValueExpression t).2.rest = [] ∨ (getValueExpression t).2.rest.head? = some '\n' ∨
      (getValueExpression t).2.rest.head? = some ';' at hstop
    have key : (consumeWs env (getValueExpression t).2).rest = (getValueExpression t).2.rest := by
      show (getValueExpression t).2.rest.dropWhile env.blank = _
      cases hr : (getValueExpression t).2.rest with
      | nil => rfl
      | cons c r =>
        rw [hr] at hstop
        rcases hstop with h | h | h
        · cases h
        · cases h; simp [Env.blank]
        · cases h; simp [Env.blank, hws]
    rw [amounts.eq_def] at h
    simp only [key] at h
    cases hr : (getValueExpression t).2.rest with
    | nil => rw [hr] at h; cases h
    | cons c r =>
      rw [hr] at hstop
      rcases hstop with hh | hh | hh
      · cases hh
      · cases hh; simp only [hr] at h; cases h
      · cases hh; simp only [hr] at h; cases h

/-- The loop over the amounts of a posting: where it ends, and what is wrong if it ends with an error. -/
theorem amounts_place {env : Env} (ha : env.AsciiChars) (fs : Files) (tt : TType) : ∀ (n : Nat) (p : RawPosting) (t : Tok),
    t.CountsLines → (tt = .automated → t.content.getLast? = some '\n') → ∀ x t', amounts env tt n p t = .ok (x, t') →
      t'.content = t.content ∧
      (∀ q, x = .ok q → t'.Loose) ∧
      (∀ e, x = .error e → t'.CountsLines ∧ (t.Exact → t'.Exact) ∧
        ∃ w, amountsReason env tt n p t = some w ∧ ∀ read, t'.content = read ++ t'.rest → Explains env fs read t'.rest true w) := by
  intro n
  induction n with
  | zero => intro p t _ _ x t' h; cases h
  | succ n ih =>
    intro p t ht hE x t' h
    have hs := counts_suffix ht
    -- going on after a part of the line
    have go : ∀ (p' : RawPosting) (t1 : Tok), t.Along t1 → amounts env tt n p' t1 = .ok (x, t') →
        t'.content = t.content ∧ (∀ q, x = .ok q → t'.Loose) ∧
        (∀ e, x = .error e → t'.CountsLines ∧ (t.Exact → t'.Exact) ∧
          ∃ w, amountsReason env tt n p' t1 = some w ∧ ∀ read, t'.content = read ++ t'.rest → Explains env fs read t'.rest true w) := by
      intro p' t1 hal h1
      obtain ⟨i1, i2, i3⟩ := ih p' t1 (counts_step ht hal.step) (fun h => by rw [hal.content]; exact hE h) x t' h1
      refine ⟨i1.trans hal.content, i2, fun e he => ?_⟩
      obtain ⟨j1, j2, j3⟩ := i3 e he
      exact ⟨j1, fun k1 => j2 (hal.exact k1), j3⟩
    have bad : ∀ (t0 t1 : Tok) (e : Err), t.Along t0 → parseMoney env t0 = (.error e, t1) →
        t1.content = t.content ∧ t1.CountsLines ∧ (t.Exact → t1.Exact) ∧
          ∀ read, t1.content = read ++ t1.rest → Explains env fs read t1.rest true (moneyReason env t0) := by
      intro t0 t1 e hal hp
      have hm := parseMoney_along ha t0
      rw [hp] at hm
      have hal' := hal.trans hm
      exact ⟨hal'.content, counts_step ht hal'.step, hal'.exact, fun read hr =>
        money_explains ha hp (hal.step.suffix hs) hr⟩
    have one : ∀ {y : Char} {r : Str}, t.rest = y :: r → y ≠ '\n' → t.Along { t with rest := r, col := t.col + 1 } := by
      intro y r h hy
      exact ⟨rfl, rfl, [y], by simp [h], by simp [Ne.symm hy], rfl⟩
    rw [amounts.eq_def] at h
    rw [amountsReason.eq_def]
    simp only at h ⊢
    split at h
    · next hr =>
      cases h
      exact ⟨rfl, fun _ _ => by obtain ⟨read, h1, h2⟩ := ht; exact ⟨read, h1, h2, .inl hr⟩, fun e he => by cases he⟩
    · next r hr =>
      cases h
      exact ⟨rfl, fun _ _ => by obtain ⟨read, h1, h2⟩ := ht; exact ⟨read, h1, h2, .inr (.inl (by rw [hr]; rfl))⟩,
        fun e he => by cases he⟩
    · next r hr =>
      cases h
      exact ⟨(commentTok_step hr (by decide)).1.content, fun _ _ => commentTok_loose hr (by decide) ht, fun e he => by cases he⟩
    · next r hr =>
      have hst := (getValueExpression_step t).trans (consumeWs_step env _)
      obtain ⟨i1, i2, i3⟩ := ih _ _ (counts_step ht hst) (fun h => by rw [hst.content]; exact hE h) x t' h
      refine ⟨i1.trans hst.content, i2, fun e he => ?_⟩
      exact absurd (he ▸ h) (amounts_after_expression _ _ (ha.wsF (by decide) (by decide)))
    · next r hr =>
      have h1 := (one hr (by decide)).trans (consumeWs_along env _)
      cases hm : parseMoney env (consumeWs env { t with rest := r, col := t.col + 1 }) with
      | mk q t1 =>
        rw [hm] at h
        cases q with
        | error e =>
          cases h
          obtain ⟨b1, b2, b3, b4⟩ := bad _ _ _ h1 hm
          refine ⟨b1, fun _ hq => (by cases hq), fun e' he => ⟨b2, b3, _, ?_, b4⟩⟩
          rw [hr]
          simp only [hm]
        | ok m =>
          have hal := parseMoney_along ha (consumeWs env { t with rest := r, col := t.col + 1 })
          rw [hm] at hal
          have g := go _ _ ((h1.trans hal).trans (consumeWs_along env _)) h
          rw [hr]
          simp only [hm]
          exact g
    · next r hr =>
      cases hp : p.moneyAmount with
      | none =>
        rw [hp] at h
        cases h
        refine ⟨rfl, fun _ hq => (by cases hq), fun e' he => ⟨ht, fun k1 => k1, _, ?_, fun read _ => .price hr⟩⟩
        rw [hr]
        simp only
      | some y =>
        rw [hp] at h
        simp only at h
        rw [hr]
        simp only
        cases r with
        | nil => cases h
        | cons d r' =>
          simp only at h ⊢
          have h1 : t.Along (if d = '@' then { t with rest := r', col := t.col + 2 }
              else { t with rest := d :: r', col := t.col + 1 }) := by
            split
            · next hd => exact ⟨rfl, rfl, ['@', d], by simp [hr], by simp [hd], rfl⟩
            · exact one hr (by decide)
          have h1 := h1.trans (consumeWs_along env _)
          cases hm : parseMoney env (consumeWs env (if d = '@' then { t with rest := r', col := t.col + 2 }
              else { t with rest := d :: r', col := t.col + 1 })) with
          | mk q t1 =>
            rw [hm] at h
            cases q with
            | error e =>
              cases h
              obtain ⟨b1, b2, b3, b4⟩ := bad _ _ _ h1 hm
              exact ⟨b1, fun _ hq => (by cases hq), fun e' he => ⟨b2, b3, _, rfl, b4⟩⟩
            | ok m =>
              have hal := parseMoney_along ha (consumeWs env (if d = '@' then { t with rest := r', col := t.col + 2 }
                else { t with rest := d :: r', col := t.col + 1 }))
              rw [hm] at hal
              have g := go _ _ ((h1.trans hal).trans (consumeWs_along env _)) h
              exact g
    · next c r n1 n2 n3 n4 n5 hr =>
      have hc : c ≠ '\n' := n1
      split
      · next e => rw [hr] at e; cases e
      · next e => rw [hr] at e; cases e; exact absurd rfl hc
      · next r' e => rw [hr] at e; cases e; exact (n2 rfl).elim
      · next r' e => rw [hr] at e; cases e; exact (n3 rfl).elim
      · next r' e => rw [hr] at e; cases e; exact (n4 rfl).elim
      · next r' e => rw [hr] at e; cases e; exact (n5 rfl).elim
      cases hm : parseMoney env t with
      | mk q t1 =>
        have hal := parseMoney_along ha t
        rw [hm] at hal
        rw [hm] at h
        cases q with
        | ok m => exact go _ _ (hal.trans (consumeWs_along env _)) h
        | error e =>
          simp only at h ⊢
          split at h
          · next htt =>
            rw [if_pos htt]
            split at h
            · cases h
            · next hl =>
              have hnl := hal.nl (getLast_nl (hE htt) hs (by rw [hr]; simp))
              rcases getLine_cases t1 with ⟨k1, _⟩ | ⟨l, r', k1, k2, k3⟩
              · exact absurd hnl k1
              · obtain ⟨a0, ha0⟩ := hal.step.suffix hs
                have e2 : ({ (getLine t1).2.unread with line := (getLine t1).2.line - 1 } : Tok) =
                    { t1 with rest := '\n' :: r', line := t1.line, col := 0 } := by
                  simp only [k3, Tok.unread]
                  rw [drop_suffix_one (l := a0 ++ l) (x := '\n') (by rw [← ha0, k1]; simp)]
                  simp
                have e3 : consumeWs env { t1 with rest := '\n' :: r', line := t1.line, col := 0 } =
                    { t1 with rest := '\n' :: r', line := t1.line, col := 0 } := by
                  simp [consumeWs, Env.blank]
                rw [e2, e3] at h
                obtain ⟨rfl, rfl⟩ := amounts_nl rfl h
                refine ⟨hal.content, fun _ _ => ?_, fun e he => by cases he⟩
                obtain ⟨read, m1, m2⟩ := counts_step ht hal.step
                refine ⟨read ++ l, ?_, ?_, .inr (.inl rfl)⟩
                · show t1.content = read ++ l ++ '\n' :: r'
                  rw [show t1.content = read ++ t1.rest from m1, k1]
                  simp
                show t1.line = _
                rw [m2, List.count_append, List.count_eq_zero_of_not_mem k2]
                rfl
          · next htt =>
            rw [if_neg htt]
            cases h
            obtain ⟨b1, b2, b3, b4⟩ := bad _ _ _ .rfl hm
            exact ⟨b1, fun _ hq => (by cases hq), fun e' he => ⟨b2, b3, _, rfl, b4⟩⟩

/-- Whatever goes wrong in the loop over the amounts has a text. -/
theorem amountsReason_some {env : Env} {tt : TType} : ∀ (n : Nat) (p : RawPosting) (t : Tok) {e : Err} {t' : Tok},
    amounts env tt n p t = .ok (.error e, t') → ∃ w, amountsReason env tt n p t = some w := by
  intro n
  induction n with
  | zero => intro p t e t' h; cases h
  | succ n ih =>
    intro p t e t' h
    rw [amounts.eq_def] at h
    rw [amountsReason.eq_def]
    simp only at h ⊢
    split at h
    · cases h
    · cases h
    · cases h
    · next r hr =>
      rw [hr]
      exact ih _ _ h
    · next r hr =>
      rw [hr]
      simp only
      cases hm : parseMoney env (consumeWs env { t with rest := r, col := t.col + 1 }) with
      | mk q t1 =>
        rw [hm] at h
        cases q with
        | error e => exact ⟨_, rfl⟩
        | ok m => exact ih _ _ h
    · next r hr =>
      rw [hr]
      simp only
      cases hp : p.moneyAmount with
      | none => exact ⟨_, rfl⟩
      | some y =>
        rw [hp] at h
        cases r with
        | nil => cases h
        | cons d r' =>
          simp only at h ⊢
          cases hm : parseMoney env (consumeWs env (if d = '@' then { t with rest := r', col := t.col + 2 }
              else { t with rest := d :: r', col := t.col + 1 })) with
          | mk q t1 =>
            rw [hm] at h
            cases q with
            | error e => exact ⟨_, rfl⟩
            | ok m => exact ih _ _ h
    · next c r n1 n2 n3 n4 n5 hr =>
      split
      · next e => rw [hr] at e; cases e
      · next e => rw [hr] at e; cases e; exact (n1 rfl).elim
      · next r' e => rw [hr] at e; cases e; exact (n2 rfl).elim
      · next r' e => rw [hr] at e; cases e; exact (n3 rfl).elim
      · next r' e => rw [hr] at e; cases e; exact (n4 rfl).elim
      · next r' e => rw [hr] at e; cases e; exact (n5 rfl).elim
      cases hm : parseMoney env t with
      | mk q t1 =>
        rw [hm] at h
        cases q with
        | ok m => exact ih _ _ h
        | error e =>
          simp only at h ⊢
          split at h
          · next htt =>
            rw [if_pos htt]
            split at h
            · cases h
            · next hl =>
              rw [if_neg hl]
              exact ih _ _ h
          · next htt =>
            rw [if_neg htt]
            exact ⟨_, rfl⟩

/-- The name of an account in the text. -/
theorem accountAux_text {ws : Char → Bool} (hws : ws '\n' = true) (s : Str) : ∀ (line col : Nat) {name rest : Str}
    {stop : AccountEnd} {line' col' : Nat}, accountAux ws s line col = some (name, stop, rest, line', col') →
    ∃ sep, s = name ++ sep ++ rest ∧ (∀ c ∈ sep, ws c = true) ∧ sep.length ≤ 2 ∧
      (stop = .line → rest.head? = some '\n' ∧ col' = 0) ∧
      (stop = .more → ∀ read, col = columnOf read → col' = columnOf (read ++ name ++ sep)) := by
  have one : ∀ (read : Str) (c : Char), c ≠ '\n' → columnOf (read ++ [c]) = columnOf read + 1 :=
    fun read c hc => columnOf_append (by simp [Ne.symm hc])
  induction s using List.twoStepInduction with
  | nil => intro line col name rest stop line' col' h; cases h
  | singleton c =>
    intro line col name rest stop line' col' h
    rw [accountAux.eq_def] at h
    simp only at h
    split at h
    · cases h
    · next hw =>
      split at h
      · next hc => subst hc; cases h; exact ⟨[], rfl, by simp, by simp, fun _ => ⟨rfl, rfl⟩, fun h => by cases h⟩
      · next hn =>
        split at h
        · cases h
          refine ⟨[c], rfl, by simpa using hw, by simp, fun h => (by cases h), fun _ read e => ?_⟩
          rw [List.append_nil, one _ _ hn, e]
        · cases h
  | cons_cons c d r ih0 ih1 =>
    intro line col name rest stop line' col' h
    rw [accountAux.eq_def] at h
    simp only at h
    split at h
    · next hc =>
      have hn : c ≠ '\n' := by rintro rfl; rw [hws] at hc; cases hc
      obtain ⟨⟨name', stop', rest', l', c'⟩, h1, h2⟩ := Option.map_eq_some_iff.mp h
      cases h2
      rw [if_neg hn, if_neg hn] at h1
      obtain ⟨sep, e1, e2, e3, e4, e5⟩ := ih1 _ _ _ h1
      refine ⟨sep, by rw [e1]; simp, e2, e3, e4, fun hm read hr => ?_⟩
      rw [e5 hm (read ++ [c]) (by rw [one _ _ hn, hr])]
      simp
    · next hw =>
      have hw : ws c = true := by simpa using hw
      split at h
      · next hc => subst hc; cases h; exact ⟨[], rfl, by simp, by simp, fun _ => ⟨rfl, rfl⟩, fun h => by cases h⟩
      · next hn =>
        split at h
        · cases h
          refine ⟨[c], rfl, by simpa using hw, by simp, fun h => (by cases h), fun _ read e => ?_⟩
          rw [List.append_nil, one _ _ hn, e]
        · split at h
          · next hd =>
            cases h
            refine ⟨[c, d], rfl, by simp [hw, hd], by simp, fun h => (by cases h), fun _ read e => ?_⟩
            by_cases hdn : d = '\n'
            · rw [if_pos hdn, hdn, List.append_nil, show read ++ [c, '\n'] = (read ++ [c]) ++ ['\n'] by simp, columnOf_nl]
            · rw [if_neg hdn, List.append_nil, show read ++ [c, d] = (read ++ [c]) ++ [d] by simp, one _ _ hdn, one _ _ hn, e]
          · next hd =>
            have hdn : d ≠ '\n' := by rintro rfl; exact hd hws
            obtain ⟨⟨name', stop', rest', l', c'⟩, h1, h2⟩ := Option.map_eq_some_iff.mp h
            cases h2
            rw [if_neg hdn, if_neg hdn] at h1
            obtain ⟨sep, e1, e2, e3, e4, e5⟩ := ih0 _ _ h1
            refine ⟨sep, by rw [e1]; simp, e2, e3, e4, fun hm read hr => ?_⟩
            rw [e5 hm (read ++ [c] ++ [d]) (by rw [one _ _ hdn, one _ _ hn, hr])]
            simp

theorem getLast_tail {c x : Char} {s : Str} (h : (c :: s).getLast? ≠ some x) : s.getLast? ≠ some x := by
  intro h'
  cases s with
  | nil => cases h'
  | cons d s => exact h (by rw [List.getLast?_cons_cons]; exact h')

/-- A missing bracket. -/
theorem kind_error {env : Env} {name : Str} {e : Err} (h : accountKind env name = .ok (.error e)) :
    (∃ n, name = '(' :: n ∧ n.getLast? ≠ some ')' ∧ kindReason name = .text "Expected ')'".toList) ∨
    (∃ n, name = '[' :: n ∧ n.getLast? ≠ some ']' ∧ kindReason name = .text "Expected ']'".toList) := by
  unfold accountKind at h
  cases name with
  | nil => cases h
  | cons c n =>
    simp only at h
    split at h
    · cases h
    · split at h
      · next hc =>
        split at h
        · cases h
        · next hl =>
          subst hc
          exact .inl ⟨n, rfl, getLast_tail hl, rfl⟩
      · split at h
        · next hc =>
          split at h
          · cases h
          · next hl =>
            subst hc
            exact .inr ⟨n, rfl, getLast_tail hl, rfl⟩
        · cases h

theorem postingReason_some {env : Env} {fuel : Nat} {tt : TType} {payee : Option Str} {t t' : Tok} {e : Err}
    (h : parsePosting env fuel tt payee t = .ok (.error e, t')) : ∃ w, postingReason env fuel tt payee t = some w := by
  unfold parsePosting at h
  unfold postingReason
  cases ha : accountAux env.ws t.rest t.line t.col with
  | none => rw [ha] at h; cases h
  | some x =>
    obtain ⟨name, stop, rest, line, col⟩ := x
    rw [ha] at h
    simp only at h ⊢
    cases hk : accountKind env name with
    | error e => rw [hk] at h; cases h
    | ok k =>
      rw [hk] at h
      cases k with
      | error e => exact ⟨_, rfl⟩
      | ok k =>
        obtain ⟨account, kind⟩ := k
        simp only at h ⊢
        split at h
        · cases h
        · next hs =>
          rw [if_neg hs]
          exact amountsReason_some _ _ _ h

/-- A posting: where it ends, and what is wrong if it ends with an error. -/
theorem posting_place {env : Env} (ha : env.AsciiChars) (fs : Files) (fuel : Nat) (tt : TType) (payee : Option Str) {t : Tok}
    (ht : t.Exact) (hE : tt = .automated → t.content.getLast? = some '\n') {x : Except Err RawPosting} {t' : Tok}
    (h : parsePosting env fuel tt payee t = .ok (x, t')) :
    (∀ q, x = .ok q → t'.Loose) ∧
    (∀ e w, x = .error e → postingReason env fuel tt payee t = some w → Placed env fs t' true w) := by
  obtain ⟨read, r1, r2, r3⟩ := ht
  have hs : t.rest <:+ t.content := ⟨read, r1.symm⟩
  unfold parsePosting at h
  unfold postingReason
  cases hacc : accountAux env.ws t.rest t.line t.col with
  | none => rw [hacc] at h; cases h
  | some y =>
    obtain ⟨name, stop, rest, line, col⟩ := y
    obtain ⟨h1, h2, h3⟩ := accountAux_step (ha.wsT (by decide) (by decide)) _ _ _ hacc
    have hst : t.Step { t with rest := rest, line := line, col := col } := ⟨rfl, h1, h2⟩
    obtain ⟨sep, s1, s2, s3, s4, s5⟩ := accountAux_text (ha.wsT (by decide) (by decide)) _ _ _ hacc
    obtain ⟨read2, q1, q2⟩ := counts_step ⟨read, r1, r2⟩ hst
    have hread : read2 = read ++ name ++ sep := by
      refine List.append_cancel_right (bs := rest) ?_
      rw [← show t.content = read2 ++ rest from q1, r1, s1]
      simp
    have hcol : ∀ {why : Reason}, why.bracket → ColumnAt read2 rest why col := by
      intro why hw
      cases hst : stop with
      | line => exact .inr (.inl ⟨hw, s4 hst⟩)
      | more => exact .inl (by rw [hread]; exact s5 hst read r3)
    rw [hacc] at h
    simp only at h ⊢
    cases hk : accountKind env name with
    | error e => rw [hk] at h; cases h
    | ok k =>
      rw [hk] at h
      cases k with
      | error e =>
        cases h
        refine ⟨fun _ hq => (by cases hq), fun e' w he hw => ?_⟩
        cases hw
        rcases kind_error hk with ⟨n, rfl, n2, n3⟩ | ⟨n, rfl, n2, n3⟩
        · rw [n3]
          exact ⟨read2, q1, q2, .round hread n2 s2 s3, hcol (.inl rfl)⟩
        · rw [n3]
          exact ⟨read2, q1, q2, .square hread n2 s2 s3, hcol (.inr rfl)⟩
      | ok k =>
        obtain ⟨account, kind⟩ := k
        simp only at h ⊢
        split at h
        · next hl =>
          cases h
          exact ⟨fun _ _ => ⟨read2, q1, q2, .inr (.inl (s4 hl).1)⟩, fun e w he => by cases he⟩
        · next hl =>
          have hm : stop = .more := by cases stop with | line => exact absurd rfl hl | more => rfl
          have hex : Tok.Exact { t with rest := rest, line := line, col := col } :=
            ⟨read2, q1, q2, by rw [hread]; exact s5 hm read r3⟩
          have hcw := consumeWs_along env { t with rest := rest, line := line, col := col }
          obtain ⟨i1, i2, i3⟩ := amounts_place ha fs tt fuel _ _ (counts_step ⟨read2, q1, q2⟩ hcw.step)
            (fun h => hE h) x t' h
          refine ⟨i2, fun e w he hw => ?_⟩
          rw [if_neg hl] at hw
          obtain ⟨j1, j2, w', j3, j4⟩ := i3 e he
          rw [j3] at hw
          cases hw
          obtain ⟨read3, u1, u2⟩ := j1
          refine ⟨read3, u1, u2, j4 _ u1, .inl ?_⟩
          obtain ⟨read4, v1, v2, v3⟩ := j2 (hcw.exact hex)
          have : read4 = read3 := List.append_cancel_right (v1.symm.trans u1)
          rw [← this]
          exact v3

/-- Panics are the only failures inside of a posting that are not reported with a place. -/
theorem amounts_no_error {env : Env} {tt : TType} : ∀ (n : Nat) (p : RawPosting) (t : Tok) {e : Err},
    amounts env tt n p t ≠ .error (.fail (.error e)) := by
  intro n
  induction n with
  | zero => intro p t e h; cases h
  | succ n ih =>
    intro p t e h
    rw [amounts.eq_def] at h
    simp only at h
    repeat' split at h
    all_goals first
      | exact ih _ _ h
      | cases h

theorem parsePosting_no_error {env : Env} {fuel : Nat} {tt : TType} {payee : Option Str} {t : Tok} {e : Err} :
    parsePosting env fuel tt payee t ≠ .error (.fail (.error e)) := by
  intro h
  unfold parsePosting at h
  split at h
  · cases h
  · simp only at h
    split at h
    · next e' hk =>
      unfold accountKind at hk
      repeat' split at hk
      all_goals first
        | (cases hk; cases h)
        | cases hk
    · cases h
    · split at h
      · cases h
      · exact amounts_no_error _ _ _ h

/-! ### Transactions -/

theorem wsLinesAux_exact (ws : Char → Bool) (s : Str) : ∀ (read : Str) (line col : Nat), line = read.count '\n' →
    (s = [] ∨ s.head? = some '\n' ∨ col = columnOf read) →
    ∃ read', read ++ s = read' ++ (wsLinesAux ws s line col).1 ∧ (wsLinesAux ws s line col).2.1 = read'.count '\n' ∧
      ((wsLinesAux ws s line col).1 ≠ [] → (wsLinesAux ws s line col).2.2 = columnOf read') := by
  induction s with
  | nil => intro read line col hl _; exact ⟨read, rfl, hl, fun h => absurd rfl h⟩
  | cons c s ih =>
    intro read line col hl hc
    rw [wsLinesAux]
    split
    · next hn =>
      subst hn
      obtain ⟨read', h1, h2, h3⟩ := ih (read ++ ['\n']) (line + 1) 0 (by simp [hl]) (.inr (.inr (columnOf_nl _).symm))
      exact ⟨read', by rw [← h1]; simp, h2, h3⟩
    · next hn =>
      have hcol : col = columnOf read := by
        rcases hc with h | h | h
        · cases h
        · simp at h; exact absurd h hn
        · exact h
      split
      · obtain ⟨read', h1, h2, h3⟩ := ih (read ++ [c]) line (col + 1) (by simp [hl, hn]) (.inr (.inr (by
          rw [columnOf_append (by simp [Ne.symm hn]), hcol]; rfl)))
        exact ⟨read', by rw [← h1]; simp, h2, h3⟩
      · exact ⟨read, rfl, hl, fun _ => hcol⟩

theorem wsLines_exact {env : Env} {t t' : Tok} {lt : LineType} (h : wsLines env t = (t', lt)) (ht : t.Loose) :
    t'.Loose ∧ (t'.rest ≠ [] → t'.Exact) := by
  obtain ⟨read, h1, h2, h3⟩ := ht
  simp only [wsLines, Prod.mk.injEq] at h
  obtain ⟨rfl, _⟩ := h
  obtain ⟨read', e1, e2, e3⟩ := wsLinesAux_exact env.ws t.rest read t.line t.col h2 h3
  constructor
  · refine ⟨read', h1.trans e1, e2, ?_⟩
    by_cases h0 : (wsLinesAux env.ws t.rest t.line t.col).1 = []
    · exact .inl h0
    · exact .inr (.inr (e3 h0))
  · intro h0
    exact ⟨read', h1.trans e1, e2, e3 h0⟩

theorem wsLines_indented_col {env : Env} {t t' : Tok} (h : wsLines env t = (t', .indented)) : t'.col ≠ 0 := by
  simp only [wsLines, Prod.mk.injEq] at h
  obtain ⟨rfl, h2⟩ := h
  simp only
  intro h0
  rw [if_neg (by rw [h0]; simp)] at h2
  cases h2

theorem fail_error {t : Tok} {e e' : Err} (h : t.fail e = .error e') (h0 : t.content ≠ []) : t.line ≠ 0 := by
  unfold Tok.fail at h
  split at h
  · cases h
  · next hn => exact fun hl => hn ⟨hl, h0⟩

theorem Tok.Weak.content_ne {t t' : Tok} (h : t.Weak t') (hs : t.rest <:+ t.content) (h0 : t.rest ≠ []) : t'.content ≠ [] := by
  rw [h.content]
  intro e
  rw [e] at hs
  exact h0 (List.suffix_nil.mp hs)

/-- The lines of a transaction: where they end, and what is wrong if they end with an error. -/
theorem txn_place {env : Env} (ha : env.AsciiChars) (fs : Files) (fuel : Nat) (file : Option Str) {E : Prop} :
    ∀ (n : Nat) (txn : Txn RawPosting) (t : Tok), t.rest <:+ t.content → (E → t.Loose) →
    (E → txn.ttype = .automated → t.content.getLast? = some '\n') →
    (∀ r t', txnLines env fuel n txn t = .ok (r, t') → E → t'.Loose) ∧
    (∀ e, txnLines env fuel n txn t = .error (.fail (.error e)) → ∃ x t', txnTrouble env fuel file n txn t = some x ∧
      x.file = file ∧ x.place = some t' ∧ t'.content = t.content ∧ t'.line ≠ 0 ∧ (E → Placed env fs t' x.posting x.why)) := by
  intro n
  induction n with
  | zero => intro txn t _ _ _; exact ⟨fun r t' h => (by cases h), fun e h => by cases h⟩
  | succ n ih =>
    intro txn t hs hL hE
    rw [txnLines, txnTrouble]
    have go : ∀ (txn' : Txn RawPosting) (t1 : Tok), txn'.ttype = txn.ttype → t.Weak t1 → (E → t1.Loose) →
        (∀ r t', txnLines env fuel n txn' t1 = .ok (r, t') → E → t'.Loose) ∧
        (∀ e, txnLines env fuel n txn' t1 = .error (.fail (.error e)) → ∃ x t', txnTrouble env fuel file n txn' t1 = some x ∧
          x.file = file ∧ x.place = some t' ∧ t'.content = t.content ∧ t'.line ≠ 0 ∧ (E → Placed env fs t' x.posting x.why)) := by
      intro txn' t1 htt hw hl
      obtain ⟨i1, i2⟩ := ih txn' t1 (hw.suffix hs) hl (fun h h' => by rw [hw.content]; exact hE h (htt ▸ h'))
      refine ⟨i1, fun e he => ?_⟩
      obtain ⟨x, t', h1, h2, h3, h4, h5⟩ := i2 e he
      exact ⟨x, t', h1, h2, h3, h4.trans hw.content, h5⟩
    cases hw : wsLines env t with
    | mk t1 lt =>
      have hst := wsLines_step' hw
      cases lt with
      | blank =>
        refine ⟨fun r t' h hE' => ?_, fun e h => by cases h⟩
        cases h
        exact (wsLines_exact hw (hL hE')).1
      | indented =>
        simp only
        obtain ⟨hne, hstop⟩ := wsLines_stop hw
        cases hr : t1.rest with
        | nil => exact absurd hr (hne rfl)
        | cons c r =>
          have hs1 := hst.suffix hs
          have h01 : t1.rest ≠ [] := by rw [hr]; simp
          obtain ⟨hc, _⟩ := hstop c r hr
          simp only
          by_cases h1 : c = ';'
          · rw [if_pos h1, if_pos h1]
            have hco := hst.trans (commentTok_step (env := env) hr hc).1
            have hlo : E → (commentTok env t1).2.Loose := fun h =>
              commentTok_loose hr hc (counts_step (hL h).counts hst)
            split
            · exact go _ _ rfl hco.weak hlo
            · exact go _ _ rfl hco.weak hlo
          · rw [if_neg h1, if_neg h1]
            by_cases h2 : env.numeric c = true
            · rw [if_pos h2, if_pos h2]
              refine ⟨fun r t' h => (by cases h), fun e h => ?_⟩
              simp only [Except.error.injEq, Stop.fail.injEq] at h
              refine ⟨_, t1, rfl, rfl, rfl, hst.content, fail_error h (hst.weak.content_ne hs (by
                intro h0
                have := hst.rest
                rw [h0] at this
                exact h01 (List.suffix_nil.mp this))), fun h => ?_⟩
              obtain ⟨read, e1, e2, e3⟩ := (wsLines_exact hw (hL h)).2 h01
              exact ⟨read, e1, e2, .account hr (by rw [← e3]; exact wsLines_indented_col hw) h2, .inl e3⟩
            · rw [if_neg h2, if_neg h2]
              have hps := (parsePosting_step ha fuel txn.ttype txn.payee t1 hs1).2
              have hpp : ∀ (x : Except Err RawPosting) (t' : Tok), parsePosting env fuel txn.ttype txn.payee t1 = .ok (x, t') → E →
                  (∀ q, x = .ok q → t'.Loose) ∧
                  (∀ e w, x = .error e → postingReason env fuel txn.ttype txn.payee t1 = some w → Placed env fs t' true w) :=
                fun x t' h hE' => posting_place ha fs fuel txn.ttype txn.payee ((wsLines_exact hw (hL hE')).2 h01)
                  (fun h => by rw [hst.content]; exact hE hE' h) h
              cases hp : parsePosting env fuel txn.ttype txn.payee t1 with
              | error e =>
                refine ⟨fun r t' h => (by cases h), fun e' h => ?_⟩
                exfalso
                have : e = .fail (.error e') := by simpa using h
                rw [this] at hp
                exact parsePosting_no_error hp
              | ok y =>
                obtain ⟨x, t'⟩ := y
                cases x with
                | error e =>
                  refine ⟨fun r t' h => (by cases h), fun e' h => ?_⟩
                  simp only [Except.error.injEq, Stop.fail.injEq] at h
                  obtain ⟨w, hw'⟩ := postingReason_some hp
                  have hwk := hst.weak.trans (hps _ _ hp).1
                  refine ⟨_, t', by rw [hw']; rfl, rfl, rfl, hwk.content, fail_error h (hwk.content_ne hs (by
                    intro h0
                    have := hst.rest
                    rw [h0] at this
                    exact h01 (List.suffix_nil.mp this))), fun h => (hpp _ _ hp h).2 _ _ rfl hw'⟩
                | ok q =>
                  exact go _ _ rfl (hst.weak.trans (hps _ _ hp).1) (fun h => (hpp _ _ hp h).1 _ rfl)

/-! ### First lines -/

/-- A part that does not end with an error of the parser. -/
def Sound {α : Type} (x : Res α) : Prop := ∀ e, x ≠ .error (.error e)

theorem Sound.bind {α β : Type} {x : Res α} {f : α → Res β} (h : Sound x) (hf : ∀ a, Sound (f a)) : Sound (x >>= f) := by
  intro e he
  cases x with
  | error e' => exact h e (by cases he; rfl)
  | ok a => exact hf a e he

theorem sound_fromYmd (y : Int) (m d : Nat) : Sound (fromYmd y m d) := by
  intro e h
  unfold fromYmd at h
  split at h <;> cases h

theorem sound_date (p : Pair) : Sound (parseDate p) := by
  intro e h
  unfold parseDate at h
  split at h
  · split at h
    · split at h
      · exact sound_fromYmd _ _ _ e h
      · cases h
    · cases h
  · cases h

theorem sound_string (p : Pair) : Sound (parseString p) := by
  intro e h
  unfold parseString at h
  repeat' split at h
  all_goals cases h

theorem sound_rational (p : Str) : Sound (parseRational p) := by
  intro e h
  unfold parseRational at h
  split at h <;> cases h

theorem sound_skip (r : Rule) (items : List Pair) : Sound (skipItem r items) := by
  intro e h
  unfold skipItem at h
  split at h
  · split at h
    · unfold nextItem at h
      split at h <;> cases h
    · cases h
  · cases h

theorem sound_take {α : Type} (r : Rule) {f : Pair → Res α} (hf : ∀ p, Sound (f p)) (items : List Pair) :
    Sound (takeItem r f items) := by
  intro e h
  unfold takeItem at h
  split at h
  · split at h
    · next p _ _ =>
      cases hp : f p with
      | error e' =>
        rw [hp] at h
        cases h
        exact hf p e hp
      | ok a =>
        rw [hp] at h
        simp only at h
        split at h
        · next e' he =>
          unfold nextItem at he
          split at he
          · cases he
          · cases he; cases h
        · cases h
    · cases h
  · cases h

theorem sound_headerText (env : Env) (p : Pair) : Sound (headerText env p) := by
  intro e h
  unfold headerText at h
  cases hp : parseString p with
  | error e' =>
    rw [hp] at h
    cases h
    exact sound_string p e hp
  | ok a => rw [hp] at h; cases h

theorem sound_header (env : Env) (line : Str) : Sound (parseHeader env line) := by
  intro e h
  unfold parseHeader at h
  split at h
  · split at h
    · split at h
      · next e' hd => cases h; exact sound_date _ e hd
      · refine Sound.bind (sound_skip _ _) (fun i1 => Sound.bind (sound_take _ sound_date _) (fun i2 =>
          Sound.bind (sound_skip _ _) (fun i3 => Sound.bind (sound_skip _ _) (fun i4 => Sound.bind (sound_skip _ _) (fun i5 =>
          Sound.bind (sound_take _ (sound_headerText env) _) (fun i6 =>
          Sound.bind (sound_take _ (sound_headerText env) _) (fun i7 => ?_))))))) e h
        intro e he
        simp only at he
        split at he
        · split at he
          · exact Sound.bind (sound_string _) (fun a e h => by cases h) e he
          · cases he
        · cases he
    · cases h
  · cases h

theorem sound_price (env : Env) (line : Str) : Sound (parsePrice env line) := by
  intro e h
  unfold parsePrice at h
  split at h
  · split at h
    · split at h
      · next e' hd => cases h; exact sound_date _ e hd
      · next date hd =>
        unfold priceOf at h
        split at h
        · next c n o _ =>
          split at h
          · cases h
          · next e' he => cases h; exact sound_string _ e he
          · next e' he _ => cases h; exact sound_rational _ e he
          · next e' he _ _ => cases h; exact sound_string _ e he
        · cases h
    · cases h
  · cases h

theorem sound_commodity (env : Env) (line : Str) : Sound (parseCommodityName env line) := by
  intro e h
  unfold parseCommodityName at h
  split at h
  · split at h
    · exact sound_string _ e h
    · cases h
  · cases h

/-! ### Directives -/

theorem wordAux_text (env : Env) (s : Str) (e q : Bool) :
    ∃ v, s = v ++ (wordAux env s e q).2.2 ∧ '\n' ∉ v ∧ (wordAux env s e q).1 = v.filter (· != '"') := by
  induction s generalizing e q with
  | nil => exact ⟨[], rfl, by simp, rfl⟩
  | cons c s ih =>
    rw [wordAux]
    split
    · exact ⟨[], rfl, by simp, rfl⟩
    · next hc =>
      split
      · next hq =>
        have go : ∀ e' q', ∃ v, c :: s = v ++ (wordAux env s e' q').2.2 ∧ '\n' ∉ v ∧
            (wordAux env s e' q').1 = v.filter (· != '"') := by
          intro e' q'
          obtain ⟨v, h1, h2, h3⟩ := ih e' q'
          exact ⟨c :: v, by rw [List.cons_append, ← h1], by simp [h2, Ne.symm hc], by simp [hq, h3]⟩
        split
        · exact go _ _
        · split
          · exact ⟨[c], rfl, by simp [Ne.symm hc], by simp [hq]⟩
          · exact go _ _
      · next hq =>
        split
        · exact ⟨[], rfl, by simp, rfl⟩
        · obtain ⟨v, h1, h2, h3⟩ := ih false q
          refine ⟨c :: v, by rw [List.cons_append, ← h1], by simp [h2, Ne.symm hc], ?_⟩
          rw [List.filter_cons_of_pos (by simpa using hq), ← h3]

/-- The state after a word, not at the start of its line. -/
def AfterWord (env : Env) (t : Tok) (w : Str) : Prop :=
  ∃ read, t.content = read ++ t.rest ∧ t.line = read.count '\n' ∧ t.col = columnOf read ∧ LastWord env read w

theorem AfterWord.placed {env : Env} {fs : Files} {t : Tok} {w : Str} {why : Reason} (h : AfterWord env t w)
    (hf : ∀ read, LastWord env read w → Explains env fs read t.rest true why) : Placed env fs t true why := by
  obtain ⟨read, h1, h2, h3, h4⟩ := h
  exact ⟨read, h1, h2, hf read h4, .inl h3⟩

theorem takeWhile_blank {env : Env} {s : Str} : ∀ c ∈ s.takeWhile env.blank, env.blank c = true :=
  fun c hc => List.all_eq_true.mp (List.all_takeWhile (p := env.blank) (l := s)) c hc

theorem getString_afterWord {env : Env} {t : Tok} (ht : t.Exact) (h0 : t.col ≠ 0) :
    AfterWord env (getString env t).2 (getString env t).1 := by
  obtain ⟨read, h1, h2, h3⟩ := (consumeWs_along env t).exact ht
  have hcol : columnOf read ≠ 0 := by
    rw [← h3]
    obtain ⟨pre, _, _, e⟩ := (consumeWs_along env t).rest
    omega
  obtain ⟨v, v1, v2, v3⟩ := wordAux_text env (consumeWs env t).rest true false
  obtain ⟨read', r1, r2, r3⟩ := (getString_along env t).exact ht
  refine ⟨read', r1, r2, r3, read, v, _, ?_, hcol, v2, v3, takeWhile_blank (s := (wordAux env (consumeWs env t).rest true false).2.2)⟩
  refine List.append_cancel_right (bs := (getString env t).2.rest) ?_
  rw [← r1]
  show t.content = _ ++ (wordAux env (consumeWs env t).rest true false).2.2.dropWhile env.blank
  rw [List.append_assoc, List.takeWhile_append_dropWhile, List.append_assoc, ← v1]
  exact h1

theorem or_more {a b c d e : Prop} (h : a ∨ b ∨ c ∨ d) : a ∨ b ∨ c ∨ d ∨ e := by tauto
theorem or_less {a b c d e : Prop} (h : ¬ (a ∨ b ∨ c ∨ d)) (h' : ¬ e) : ¬ (a ∨ b ∨ c ∨ d ∨ e) := by tauto
theorem no_word {a b c d e f g : Prop} (h : ¬ (a ∨ b ∨ c ∨ d)) (h' : ¬ e) (h1 : ¬ f) (h2 : ¬ g) :
    ¬ (a ∨ b ∨ e ∨ c ∨ d ∨ f ∨ g) := by tauto

/-- The lines of an account directive. -/
theorem accountLines_place {env : Env} {E : Prop} : ∀ (n : Nat) (a : AccountDef) (t : Tok), (E → t.Loose) →
    ∀ x t', accountLines env n a t = .ok (x, t') →
      (∀ q, x = .ok q → E → t'.Loose) ∧
      (∀ e, x = .error e → ∃ w, accountWord env n t = some w ∧ w ∉ accountWords ∧ (E → AfterWord env t' w)) := by
  intro n
  induction n with
  | zero => intro a t _ x t' h; cases h
  | succ n ih =>
    intro a t hL x t' h
    rw [accountLines] at h
    rw [accountWord]
    cases hw : wsLines env t with
    | mk t1 lt =>
      rw [hw] at h
      have hst := wsLines_step' hw
      cases lt with
      | blank =>
        cases h
        exact ⟨fun _ _ hE => (wsLines_exact hw (hL hE)).1, fun e he => by cases he⟩
      | indented =>
        simp only at h ⊢
        obtain ⟨hne, hstop⟩ := wsLines_stop hw
        have hne := hne rfl
        have hcol := wsLines_indented_col hw
        have hex : E → t1.Exact := fun hE => (wsLines_exact hw (hL hE)).2 hne
        have hwd : E → (getString env t1).2.Exact := fun hE => (getString_along env t1).exact (hex hE)
        have hln : E → (lineTrim env (getString env t1).2).2.Loose := fun hE => getLine_loose (hwd hE).counts
        split at h
        · next h1 =>
          rw [if_pos h1]
          exact ih _ _ (fun hE => getLine_loose (hex hE).counts) _ _ h
        · next h1 =>
          rw [if_neg h1]
          split at h
          · next h2 =>
            rw [if_pos (or_more h2)]
            exact ih _ _ hln _ _ h
          · next h2 =>
            split at h
            · next h3 =>
              rw [if_pos (.inr (.inr (.inr (.inr h3))))]
              exact ih _ _ hln _ _ h
            · next h3 =>
              rw [if_neg (or_less h2 h3)]
              split at h
              · next h4 =>
                rw [if_pos h4]
                split at h
                · next h5 =>
                  rw [if_pos h5]
                  exact ih _ _ hln _ _ h
                · cases h
              · next h4 =>
                rw [if_neg h4]
                split at h
                · next h5 =>
                  rw [if_pos h5]
                  exact ih _ _ (fun hE => (hwd hE).loose) _ _ h
                · next h5 =>
                  rw [if_neg h5]
                  cases h
                  refine ⟨fun q hq => (by cases hq), fun e _ => ⟨_, rfl, ?_, fun hE => getString_afterWord (hex hE) hcol⟩⟩
                  simp only [accountWords, List.mem_cons, List.not_mem_nil, or_false]
                  exact no_word h2 h3 h4 h5

theorem or_three {a b c : Prop} (h : a ∨ b) : a ∨ b ∨ c := by tauto
theorem not_three {a b c : Prop} (h : ¬ (a ∨ b)) (h' : ¬ c) : ¬ (a ∨ b ∨ c) := by tauto
theorem not_four {a b c d : Prop} (h : ¬ (a ∨ b)) (h' : ¬ c) (h1 : ¬ d) : ¬ (a ∨ c ∨ b ∨ d) := by tauto

/-- The lines of a commodity directive. -/
theorem commodityLines_place {env : Env} {E : Prop} : ∀ (n : Nat) (a : CurrencyDef) (t : Tok), (E → t.Loose) →
    ∀ x t', commodityLines env n a t = .ok (x, t') →
      (∀ q, x = .ok q → E → t'.Loose) ∧
      (∀ e, x = .error e → ∃ w, commodityWord env n t = some w ∧ w ∉ commodityWords ∧ (E → AfterWord env t' w)) := by
  intro n
  induction n with
  | zero => intro a t _ x t' h; cases h
  | succ n ih =>
    intro a t hL x t' h
    rw [commodityLines] at h
    rw [commodityWord]
    cases hw : wsLines env t with
    | mk t1 lt =>
      rw [hw] at h
      have hst := wsLines_step' hw
      cases lt with
      | blank =>
        cases h
        exact ⟨fun _ _ hE => (wsLines_exact hw (hL hE)).1, fun e he => by cases he⟩
      | indented =>
        simp only at h ⊢
        obtain ⟨hne, hstop⟩ := wsLines_stop hw
        have hne := hne rfl
        have hcol := wsLines_indented_col hw
        have hex : E → t1.Exact := fun hE => (wsLines_exact hw (hL hE)).2 hne
        have hwd : E → (getString env t1).2.Exact := fun hE => (getString_along env t1).exact (hex hE)
        have hln : E → (lineTrim env (getString env t1).2).2.Loose := fun hE => getLine_loose (hwd hE).counts
        split at h
        · next h1 =>
          rw [if_pos h1]
          obtain ⟨r, hr⟩ : ∃ r, t1.rest = ';' :: r := by
            cases h : t1.rest with
            | nil => exact absurd h hne
            | cons x r => rw [h] at h1; simp at h1; exact ⟨r, by rw [h1]⟩
          exact ih _ _ (fun hE => commentTok_loose hr (by decide) (hex hE).counts) _ _ h
        · next h1 =>
          rw [if_neg h1]
          split at h
          · next h2 =>
            rw [if_pos (or_three h2)]
            exact ih _ _ hln _ _ h
          · next h2 =>
            split at h
            · next h3 =>
              rw [if_pos (.inr (.inr h3))]
              exact ih _ _ hln _ _ h
            · next h3 =>
              rw [if_neg (not_three h2 h3)]
              split at h
              · next h5 =>
                rw [if_pos h5]
                exact ih _ _ (fun hE => (hwd hE).loose) _ _ h
              · next h5 =>
                rw [if_neg h5]
                cases h
                refine ⟨fun q hq => (by cases hq), fun e _ => ⟨_, rfl, ?_, fun hE => getString_afterWord (hex hE) hcol⟩⟩
                simp only [commodityWords, List.mem_cons, List.not_mem_nil, or_false]
                exact not_four h2 h3 h5

/-- The lines of a payee directive. -/
theorem payeeLines_place {env : Env} {E : Prop} : ∀ (n : Nat) (a : List Str) (t : Tok), (E → t.Loose) →
    ∀ x t', payeeLines env n a t = .ok (x, t') →
      (∀ q, x = .ok q → E → t'.Loose) ∧
      (∀ e, x = .error e → ∃ w, w ∉ payeeWords ∧ (E → AfterWord env t' w)) := by
  intro n
  induction n with
  | zero => intro a t _ x t' h; cases h
  | succ n ih =>
    intro a t hL x t' h
    rw [payeeLines] at h
    cases hw : wsLines env t with
    | mk t1 lt =>
      rw [hw] at h
      cases lt with
      | blank =>
        cases h
        exact ⟨fun _ _ hE => (wsLines_exact hw (hL hE)).1, fun e he => by cases he⟩
      | indented =>
        simp only at h
        obtain ⟨hne, hstop⟩ := wsLines_stop hw
        have hne := hne rfl
        have hcol := wsLines_indented_col hw
        have hex : E → t1.Exact := fun hE => (wsLines_exact hw (hL hE)).2 hne
        have hwd : E → (getString env t1).2.Exact := fun hE => (getString_along env t1).exact (hex hE)
        have hln : E → (lineTrim env (getString env t1).2).2.Loose := fun hE => getLine_loose (hwd hE).counts
        split at h
        · next h1 =>
          obtain ⟨r, hr⟩ : ∃ r, t1.rest = ';' :: r := by
            cases h : t1.rest with
            | nil => exact absurd h hne
            | cons x r => rw [h] at h1; simp at h1; exact ⟨r, by rw [h1]⟩
          exact ih _ _ (fun hE => commentTok_loose hr (by decide) (hex hE).counts) _ _ h
        · split at h
          · exact ih _ _ hln _ _ h
          · next h2 =>
            cases h
            refine ⟨fun q hq => (by cases hq), fun e _ => ⟨_, ?_, fun hE => getString_afterWord (hex hE) hcol⟩⟩
            simpa [payeeWords] using h2

/-- The lines of a tag directive. -/
theorem tagLines_place {env : Env} {E : Prop} : ∀ (n : Nat) (t : Tok), (E → t.Loose) →
    ∀ x t', tagLines env n t = .ok (x, t') →
      (∀ q, x = .ok q → E → t'.Loose) ∧
      (∀ e, x = .error e → ∃ w, w ∉ tagWords ∧ (E → AfterWord env t' w)) := by
  intro n
  induction n with
  | zero => intro t _ x t' h; cases h
  | succ n ih =>
    intro t hL x t' h
    rw [tagLines] at h
    cases hw : wsLines env t with
    | mk t1 lt =>
      rw [hw] at h
      cases lt with
      | blank =>
        cases h
        exact ⟨fun _ _ hE => (wsLines_exact hw (hL hE)).1, fun e he => by cases he⟩
      | indented =>
        simp only at h
        obtain ⟨hne, hstop⟩ := wsLines_stop hw
        have hne := hne rfl
        have hcol := wsLines_indented_col hw
        have hex : E → t1.Exact := fun hE => (wsLines_exact hw (hL hE)).2 hne
        have hwd : E → (getString env t1).2.Exact := fun hE => (getString_along env t1).exact (hex hE)
        split at h
        · exact ih _ (fun hE => (hex hE).loose) _ _ h
        · split at h
          · exact ih _ (fun hE => getLine_loose (hwd hE).counts) _ _ h
          · next h2 =>
            cases h
            refine ⟨fun q hq => (by cases hq), fun e _ => ⟨_, ?_, fun hE => getString_afterWord (hex hE) hcol⟩⟩
            simpa [tagWords] using h2

/-- The lines of a directive do not end with an error that has no place. -/
theorem accountLines_sound {env : Env} : ∀ {n : Nat} {a : AccountDef} {t : Tok} {e : Err},
    ¬ accountLines env n a t = .error (.fail (.error e)) := by
  intro n
  induction n with
  | zero => intro a t e h; cases h
  | succ n ih =>
    intro a t e h
    rw [accountLines] at h
    split at h
    · cases h
    · simp only at h
      repeat' split at h
      all_goals first
        | exact ih h
        | cases h

theorem commodityLines_sound {env : Env} : ∀ {n : Nat} {a : CurrencyDef} {t : Tok} {e : Err},
    ¬ commodityLines env n a t = .error (.fail (.error e)) := by
  intro n
  induction n with
  | zero => intro a t e h; cases h
  | succ n ih =>
    intro a t e h
    rw [commodityLines] at h
    split at h
    · cases h
    · simp only at h
      repeat' split at h
      all_goals first
        | exact ih h
        | cases h

theorem payeeLines_sound {env : Env} : ∀ {n : Nat} {a : List Str} {t : Tok} {e : Err},
    ¬ payeeLines env n a t = .error (.fail (.error e)) := by
  intro n
  induction n with
  | zero => intro a t e h; cases h
  | succ n ih =>
    intro a t e h
    rw [payeeLines] at h
    split at h
    · cases h
    · simp only at h
      repeat' split at h
      all_goals first
        | exact ih h
        | cases h

theorem tagLines_sound {env : Env} : ∀ {n : Nat} {t : Tok} {e : Err}, ¬ tagLines env n t = .error (.fail (.error e)) := by
  intro n
  induction n with
  | zero => intro t e h; cases h
  | succ n ih =>
    intro t e h
    rw [tagLines] at h
    split at h
    · cases h
    · simp only at h
      repeat' split at h
      all_goals first
        | exact ih h
        | cases h

/-! ### The main loop -/

/-- When the places of a text are counted right. -/
def Countable (content : Str) : Prop := content.getLast? = some '\n' ∨ '=' ∉ content

theorem located {env : Env} {fs : Files} {x : Trouble} {f content : Str} {t : Tok} (hf : x.file = some f)
    (hr : fs.read f = some content) (hp : x.place = some t) (hc : t.content = content) (hl : t.line ≠ 0)
    (h : Countable content → Placed env fs t x.posting x.why) : Located env fs x := by
  refine ⟨f, content, hf, hr, fun t' ht => ?_, fun h => ?_⟩
  · rw [hp] at ht
    cases ht
    exact ⟨hc, hl, h⟩
  · rw [hp] at h; cases h

/-- What is asked of `include::parse`. -/
def IncPlace (env : Env) (fs : Files) (f : Str) (inc : Tok → PRes (ParsedLedger × Tok)) (incT : Tok → Option Trouble) : Prop :=
  ∀ t, fs.read f = some t.content → t.rest.head? = some 'i' → t.rest <:+ t.content → t.col = 0 → (Countable t.content → t.Exact) →
    (∀ pl t', inc t = .ok (pl, t') → Countable t.content → t'.Loose) ∧
    (∀ e, inc t = .error (.fail (.error e)) → ∃ x, incT t = some x ∧ Located env fs x)

/-- A directive that is reported by the main loop. -/
theorem directive_place {α : Type} {env : Env} {fs : Files} {f : Str} {t : Tok} {x : PRes (Except Err α × Tok)} {w : Option Reason}
    (hf : fs.read f = some t.content) (hne : t.content ≠ []) (hno : ∀ e, x ≠ .error (.fail (.error e)))
    (hcont : ∀ r t', x = .ok (r, t') → t'.content = t.content)
    (hw : ∀ e t', x = .ok (.error e, t') → ∃ why, w = some why ∧ (Countable t.content → Placed env fs t' true why))
    {e : Err} (h : reported x = .error (.fail (.error e))) : ∃ y, directiveTrouble (some f) x w = some y ∧ Located env fs y := by
  unfold reported at h
  unfold directiveTrouble
  cases x with
  | error e' => cases h; exact absurd rfl (hno e)
  | ok y =>
    obtain ⟨r, t'⟩ := y
    cases r with
    | ok a => cases h
    | error e' =>
      obtain ⟨why, h1, h2⟩ := hw e' t' rfl
      simp only [Except.error.injEq, Stop.fail.injEq] at h
      have hc := hcont _ _ rfl
      exact ⟨_, by rw [h1]; rfl, located rfl hf rfl hc (fail_error h (by rw [hc]; exact hne)) h2⟩

theorem mapError {α β : Type} {x : PRes α} {f : α → β} {e : Stop} (h : x.map f = .error e) : x = .error e := by
  cases x with
  | error e' => cases h; rfl
  | ok a => cases h

/-- One item of the journal: where it ends, and what is wrong if it ends with an error. -/
theorem item_place {env : Env} (ha : env.AsciiChars) {fs : Files} {f : Str} (fuel : Nat) {inc : Tok → PRes (ParsedLedger × Tok)}
    {incT : Tok → Option Trouble} (hi : IncPlace env fs f inc incT) {c : Char} {r : Str} (pl : ParsedLedger) {t : Tok}
    (hf : fs.read f = some t.content) (hs : t.rest <:+ t.content) (hr : t.rest = c :: r) (hc : c ≠ '\n') (hws : env.ws c = false)
    (h0 : t.col = 0) (hE : Countable t.content → t.Exact) :
    (∀ x t', item env fuel inc c pl t = .ok (x, t') → Countable t.content → t'.Loose) ∧
    (∀ e, item env fuel inc c pl t = .error (.fail (.error e)) → ∃ x, itemTrouble env fuel incT (some f) c t = some x ∧
      Located env fs x) := by
  have hne : t.rest ≠ [] := by rw [hr]; simp
  have hcne : t.content ≠ [] := by
    intro e
    rw [e] at hs
    exact hne (List.suffix_nil.mp hs)
  have h1 := getLine_step t
  have hl : Countable t.content → (getLine t).2.Loose := fun h => getLine_loose (hE h).counts
  unfold item itemTrouble
  by_cases hk0 : c ∈ [';', '!', '*', '%', '#']
  · rw [if_pos hk0]
    refine ⟨fun x t' h hC => ?_, fun e h => by cases h⟩
    cases h
    exact commentTok_loose hr hc (hE hC).counts
  rw [if_neg hk0, if_neg hk0]
  by_cases hk1 : env.numeric c = true
  · rw [if_pos hk1, if_pos hk1]
    unfold transactionTok transactionTrouble
    simp only
    cases hh : parseHeader env (getLine t).1 with
    | error e' =>
      refine ⟨fun x t' h => (by cases h), fun e h => ?_⟩
      have := mapError h
      cases this
      exact absurd hh (sound_header env _ e)
    | ok txn =>
      obtain ⟨i1, i2⟩ := txn_place ha fs fuel (some f) fuel txn (getLine t).2 (h1.suffix hs) hl
        (fun _ h => by rw [parseHeader_real hh] at h; cases h)
      refine ⟨fun x t' h hC => ?_, fun e h => ?_⟩
      · obtain ⟨a, e1, e2⟩ := map_ok h
        cases e2
        exact i1 _ _ e1 hC
      · obtain ⟨x, t', j1, j2, j3, j4, j5, j6⟩ := i2 e (mapError h)
        exact ⟨x, j1, located j2 hf j3 (j4.trans h1.content) j5 j6⟩
  rw [if_neg hk1, if_neg hk1]
  by_cases hk2 : c = '='
  · rw [if_pos hk2, if_pos hk2]
    have heq : '=' ∈ t.content := hs.subset (by rw [hr, hk2]; simp)
    unfold automatedTok automatedTrouble
    simp only
    cases hh : (getLine t).1.dropWhile (· != '=') with
    | nil => exact ⟨fun x t' h => (by cases h), fun e h => by cases h⟩
    | cons y d =>
      obtain ⟨i1, i2⟩ := txn_place ha fs fuel (some f) fuel { ttype := .automated, description := d } (getLine t).2 (h1.suffix hs) hl
        (fun hC _ => by
          rw [h1.content]
          exact hC.resolve_right (fun h => h heq))
      refine ⟨fun x t' h hC => ?_, fun e h => ?_⟩
      · obtain ⟨a, e1, e2⟩ := map_ok h
        cases e2
        exact i1 _ _ e1 hC
      · obtain ⟨x, t', j1, j2, j3, j4, j5, j6⟩ := i2 e (mapError h)
        exact ⟨x, j1, located j2 hf j3 (j4.trans h1.content) j5 j6⟩
  rw [if_neg hk2, if_neg hk2]
  by_cases hk3 : c = 'i'
  · rw [if_pos hk3, if_pos hk3]
    obtain ⟨i1, i2⟩ := hi t hf (by rw [hr, hk3]; rfl) hs h0 hE
    refine ⟨fun x t' h hC => ?_, fun e h => i2 e (mapError h)⟩
    obtain ⟨a, e1, e2⟩ := map_ok h
    cases e2
    exact i1 _ _ e1 hC
  rw [if_neg hk3, if_neg hk3]
  by_cases hk4 : c = 'c'
  · rw [if_pos hk4, if_pos hk4]
    have hp : ∀ x t', commodityTok env fuel t = .ok (x, t') → (∀ q, x = .ok q → Countable t.content → t'.Loose) ∧
        (∀ e, x = .error e → ∃ why, commodityReason env fuel t = some why ∧ (Countable t.content → Placed env fs t' true why)) := by
      intro x t' h
      unfold commodityTok at h
      simp only at h
      split at h
      · cases h
      · obtain ⟨i1, i2⟩ := commodityLines_place fuel _ _ hl _ _ h
        refine ⟨i1, fun e he => ?_⟩
        obtain ⟨w, w1, w2, w3⟩ := i2 e he
        exact ⟨_, by rw [commodityReason, w1]; rfl, fun hC => (w3 hC).placed (fun read hl => .commodityWord hl w2)⟩
    refine ⟨fun x t' h hC => ?_, fun e h => ?_⟩
    · obtain ⟨a, e1, e2⟩ := map_ok h
      cases e2
      exact (hp _ _ (reported_ok e1)).1 _ rfl hC
    · refine directive_place hf hcne (fun e h => ?_) (fun r t' h => ((commodityTok_step env fuel t hne).2 _ _ h).1.content)
        (fun e t' h => (hp _ _ h).2 e rfl) (mapError h)
      unfold commodityTok at h
      simp only at h
      split at h
      · next e' he => cases h; exact sound_commodity env _ e he
      · exact commodityLines_sound h
  rw [if_neg hk4, if_neg hk4]
  by_cases hk5 : c = 'p'
  · rw [if_pos hk5, if_pos hk5]
    have hp : ∀ x t', payeeTok env fuel t = .ok (x, t') → (∀ q, x = .ok q → Countable t.content → t'.Loose) ∧
        (∀ e, x = .error e → ∃ why, (some Reason.nothing) = some why ∧ (Countable t.content → Placed env fs t' true why)) := by
      intro x t' h
      unfold payeeTok at h
      simp only at h
      split at h
      · cases h
      · split at h
        · cases h
        · next e' t2 he =>
          cases h
          obtain ⟨w, w2, w3⟩ := (payeeLines_place fuel _ _ hl _ _ he).2 _ rfl
          exact ⟨fun q hq => (by cases hq), fun e _ => ⟨_, rfl, fun hC => (w3 hC).placed (fun read hl => .otherWord hl (.inl w2))⟩⟩
        · next al t2 he =>
          split at h
          · cases h
            exact ⟨fun q _ hC => (payeeLines_place fuel _ _ hl _ _ he).1 _ rfl hC, fun e hq => by cases hq⟩
          · cases h
    refine ⟨fun x t' h hC => ?_, fun e h => ?_⟩
    · obtain ⟨a, e1, e2⟩ := map_ok h
      cases e2
      exact (hp _ _ (reported_ok e1)).1 _ rfl hC
    · refine directive_place hf hcne (fun e h => ?_) (fun r t' h => ((payeeTok_step env fuel t hne).2 _ _ h).1.content)
        (fun e t' h => (hp _ _ h).2 e rfl) (mapError h)
      unfold payeeTok at h
      simp only at h
      split at h
      · cases h
      · split at h
        · next e' he => cases h; exact payeeLines_sound he
        · cases h
        · split at h <;> cases h
  rw [if_neg hk5, if_neg hk5]
  by_cases hk6 : c = 't'
  · rw [if_pos hk6, if_pos hk6]
    have hp : ∀ x t', tagTok env fuel t = .ok (x, t') → (∀ q, x = .ok q → Countable t.content → t'.Loose) ∧
        (∀ e, x = .error e → ∃ why, (some Reason.nothing) = some why ∧ (Countable t.content → Placed env fs t' true why)) := by
      intro x t' h
      unfold tagTok at h
      simp only at h
      split at h
      · cases h
      · split at h
        · cases h
        · next e' t2 he =>
          cases h
          obtain ⟨w, w2, w3⟩ := (tagLines_place fuel _ hl _ _ he).2 _ rfl
          exact ⟨fun q hq => (by cases hq), fun e _ => ⟨_, rfl, fun hC => (w3 hC).placed (fun read hl => .otherWord hl (.inr w2))⟩⟩
        · next t2 he =>
          cases h
          exact ⟨fun q _ hC => (tagLines_place fuel _ hl _ _ he).1 _ rfl hC, fun e hq => by cases hq⟩
    refine ⟨fun x t' h hC => ?_, fun e h => ?_⟩
    · obtain ⟨a, e1, e2⟩ := map_ok h
      cases e2
      exact (hp _ _ (reported_ok e1)).1 _ rfl hC
    · refine directive_place hf hcne (fun e h => ?_)
        (fun r t' h => ((tagTok_step ha fuel t hs (by rw [hr, hk6]; rfl)).2 _ _ h).1.content)
        (fun e t' h => (hp _ _ h).2 e rfl) (mapError h)
      unfold tagTok at h
      simp only at h
      split at h
      · cases h
      · split at h
        · next e' he => cases h; exact tagLines_sound he
        · cases h
        · cases h
  rw [if_neg hk6, if_neg hk6]
  by_cases hk7 : c = 'a'
  · rw [if_pos hk7, if_pos hk7]
    have hp : ∀ x t', accountTok env fuel t = .ok (x, t') → (∀ q, x = .ok q → Countable t.content → t'.Loose) ∧
        (∀ e, x = .error e → ∃ why, accountReason env fuel t = some why ∧ (Countable t.content → Placed env fs t' true why)) := by
      intro x t' h
      unfold accountTok at h
      simp only at h
      split at h
      · cases h
      · obtain ⟨i1, i2⟩ := accountLines_place fuel _ _ hl _ _ h
        refine ⟨i1, fun e he => ?_⟩
        obtain ⟨w, w1, w2, w3⟩ := i2 e he
        exact ⟨_, by rw [accountReason, w1]; rfl, fun hC => (w3 hC).placed (fun read hl => .accountWord hl w2)⟩
    refine ⟨fun x t' h hC => ?_, fun e h => ?_⟩
    · obtain ⟨a, e1, e2⟩ := map_ok h
      cases e2
      exact (hp _ _ (reported_ok e1)).1 _ rfl hC
    · refine directive_place hf hcne (fun e h => ?_) (fun r t' h => ((accountTok_step env fuel t hne).2 _ _ h).1.content)
        (fun e t' h => (hp _ _ h).2 e rfl) (mapError h)
      unfold accountTok at h
      simp only at h
      split at h
      · cases h
      · exact accountLines_sound h
  rw [if_neg hk7, if_neg hk7]
  by_cases hk8 : c = 'P'
  · rw [if_pos hk8, if_pos hk8]
    unfold priceTok
    simp only
    refine ⟨fun x t' h hC => ?_, fun e h => ?_⟩
    · obtain ⟨a, e1, e2⟩ := map_ok h
      cases e2
      split at e1
      · cases e1
      · cases e1; exact hl hC
    · have := mapError h
      split at this
      · next e' he => cases this; exact absurd he (sound_price env _ e)
      · cases this
  rw [if_neg hk8, if_neg hk8]
  refine ⟨fun x t' h => (by cases h), fun e h => ⟨_, rfl, ?_⟩⟩
  simp only [Except.error.injEq, Stop.fail.injEq] at h
  refine located rfl hf rfl rfl (fail_error h hcne) (fun hC => ?_)
  obtain ⟨read, r1, r2, r3⟩ := hE hC
  refine ⟨read, r1, r2, .unknown hr (by rw [← r3]; exact h0) hws (by simpa using hk1) ?_, .inl r3⟩
  simp only [List.mem_cons, List.not_mem_nil, or_false] at hk0 ⊢
  tauto

/-- The main loop: what is wrong if it ends with an error. -/
theorem items_place {env : Env} (ha : env.AsciiChars) {fs : Files} {f : Str} (fuel : Nat) {inc : Tok → PRes (ParsedLedger × Tok)}
    {incT : Tok → Option Trouble} (hi : IncPlace env fs f inc incT) (his : IncStep inc) : ∀ (n : Nat) (pl : ParsedLedger) (t : Tok),
    fs.read f = some t.content → t.rest <:+ t.content → (Countable t.content → t.Loose) →
    ∀ e, items env fuel inc n pl t = .error (.fail (.error e)) →
      ∃ x, itemsTrouble env fuel inc incT (some f) n pl t = some x ∧ Located env fs x := by
  intro n
  induction n with
  | zero => intro pl t _ _ _ e h; cases h
  | succ n ih =>
    intro pl t hf hs hL e h
    rw [items] at h
    rw [itemsTrouble]
    split at h
    · cases h
    · next hne =>
      rw [if_neg hne]
      cases hw : wsLines env t with
      | mk t1 lt =>
        rw [hw] at h
        have hst := wsLines_step' hw
        obtain ⟨hn0, hstop⟩ := wsLines_stop hw
        have hs1 := hst.suffix hs
        have hex : t1.rest ≠ [] → Countable t1.content → t1.Exact := fun h0 hC =>
          (wsLines_exact hw (hL (by rw [← hst.content]; exact hC))).2 h0
        cases lt with
        | indented =>
          simp only [Except.error.injEq, Stop.fail.injEq] at h
          have hn0 := hn0 rfl
          refine ⟨_, rfl, located rfl (hst.content ▸ hf) rfl rfl (fail_error h ?_) (fun hC => ?_)⟩
          · intro e
            rw [e] at hs1
            exact hn0 (List.suffix_nil.mp hs1)
          · obtain ⟨read, r1, r2, r3⟩ := hex hn0 hC
            cases hr : t1.rest with
            | nil => exact absurd hr hn0
            | cons c r =>
              exact ⟨read, r1, r2, .indented hr (by rw [← r3]; exact wsLines_indented_col hw) (hstop c r hr).2, .inl r3⟩
        | blank =>
          simp only at h ⊢
          cases hr : t1.rest with
          | nil =>
            rw [hr] at h
            exact ih _ _ (hst.content ▸ hf) hs1 (fun hC => (wsLines_exact hw (hL (by rw [← hst.content]; exact hC))).1) _ h
          | cons c r =>
            rw [hr] at h
            obtain ⟨hc, hws⟩ := hstop c r hr
            have hne1 : t1.rest ≠ [] := by rw [hr]; simp
            obtain ⟨i1, i2⟩ := item_place ha fuel hi pl (hst.content ▸ hf) hs1 hr hc hws (wsLines_blank_col hw hr) (hex hne1)
            simp only at h ⊢
            cases hit : item env fuel inc c pl t1 with
            | error e' =>
              rw [hit] at h
              cases h
              exact i2 e hit
            | ok y =>
              obtain ⟨pl', t2⟩ := y
              rw [hit] at h
              have hst2 := ((item_step ha fuel his pl t1 hs1 hr hc).2 _ _ hit).1
              exact ih _ _ (by rw [hst2.content, hst.content]; exact hf) (hst2.suffix hs1)
                (fun hC => i1 _ _ hit (by rw [← hst2.content]; exact hC)) _ h

/-! ### Included files -/

theorem includeFiles_place {tok : Str → PRes ParsedLedger} {tokT : Str → Option Trouble} {P : Trouble → Prop}
    (hp : ∀ f e, tok f = .error (.fail (.error e)) → ∃ x, tokT f = some x ∧ P x) : ∀ (files : List Str) (pl : ParsedLedger) (e : Err),
    includeFiles tok files pl = .error (.fail (.error e)) → ∃ x, includeFilesTrouble tok tokT files = some x ∧ P x := by
  intro files
  induction files with
  | nil => intro pl e h; cases h
  | cons f files ih =>
    intro pl e h
    rw [includeFiles] at h
    rw [includeFilesTrouble]
    cases ht : tok f with
    | error e' =>
      rw [ht] at h
      cases h
      exact hp f e ht
    | ok new =>
      rw [ht] at h
      exact ih _ e h

/-- `include::parse`: where it ends, and what is wrong if it ends with an error. -/
theorem include_place {env : Env} {fs : Files} {f : Str} {seen : List Str} {tok : Str → PRes ParsedLedger}
    {tokT : Str → Option Trouble} (hseen : ∀ g ∈ seen, fs.read g ≠ none)
    (hp : ∀ f e, tok f = .error (.fail (.error e)) → ∃ x, tokT f = some x ∧ Located env fs x) :
    IncPlace env fs f (includeTok fs (some f) seen tok) (includeTrouble fs (some f) seen tok tokT) := by
  intro t hf hi hs h0 hE
  have hne : t.content ≠ [] := by
    intro e
    rw [e] at hs
    rw [List.suffix_nil.mp hs] at hi
    cases hi
  unfold includeTok includeTrouble
  cases hcs : consumeStr "include ".toList t with
  | error e' =>
    refine ⟨fun pl t' h => (by cases h), fun e h => ⟨_, rfl, f, _, rfl, hf, fun t ht => (by cases ht), fun _ => ⟨rfl, rfl, ?_⟩⟩⟩
    obtain ⟨read, hread⟩ := hs
    refine ⟨read, t.rest, hread.symm, fun hC => ⟨?_, hi, fun hp => ?_⟩⟩
    · obtain ⟨read', r1, r2, r3⟩ := hE hC
      rw [List.append_cancel_right (hread.trans r1), ← r3, h0]
    · rw [consumeStr, if_pos (List.isPrefixOf_iff_prefix.mpr hp)] at hcs
      cases hcs
  | ok t1 =>
    have hst := consumeStr_step (by decide) hcs
    have hst2 := hst.trans (getLine_step t1)
    simp only
    cases hip : includePattern fs (some f) (getLine t1).1 with
    | error e' =>
      refine ⟨fun pl t' h => (by cases h), fun e h => ?_⟩
      exfalso
      unfold includePattern at hip
      simp only at hip
      split at hip
      · cases hip; cases h
      · cases hip
    | ok pattern =>
      simp only
      cases hg : fs.glob pattern with
      | none => exact ⟨fun pl t' h => (by cases h), fun e h => by cases h⟩
      | some entries =>
        simp only
        cases hfind : (entries.filterMap id).find? (fun f => seen.contains f) with
        | some g =>
          have hmem := List.find?_some hfind
          have hany : (entries.filterMap id).any (fun f => seen.contains f) = true :=
            List.any_eq_true.mpr ⟨g, List.mem_of_find?_eq_some hfind, hmem⟩
          rw [if_pos hany]
          refine ⟨fun pl t' h => (by cases h), fun e h => ⟨_, rfl, ?_⟩⟩
          simp only [Except.error.injEq, Stop.fail.injEq] at h
          refine located rfl hf rfl hst2.content (fail_error h (by rw [hst2.content]; exact hne)) (fun hC => ?_)
          obtain ⟨read, r1, r2⟩ := counts_step (hE hC).counts hst2
          refine ⟨read, r1, r2, .cycle (hseen g (by simpa using hmem)), ?_⟩
          rcases getLine_cases t1 with ⟨g1, g2⟩ | ⟨l, r', g1, g2, g3⟩
          · refine .inr (.inr ⟨⟨g, rfl⟩, by rw [g2], ?_⟩)
            rw [g2]
            show t1.col = 8
            rw [consumeStr] at hcs
            split at hcs
            · cases hcs
              show t.col + _ = 8
              rw [h0]
              decide
            · cases hcs
          · refine .inl ?_
            obtain ⟨read', w1, w2⟩ := counts_step (hE hC).counts hst
            have : read = read' ++ l ++ ['\n'] := by
              refine List.append_cancel_right (bs := r') ?_
              rw [g3] at r1
              rw [← show t1.content = read ++ r' from r1, show t1.content = read' ++ t1.rest from w1, g1]
              simp
            rw [this, columnOf_nl, g3]
        | none =>
          have hany : ¬ (entries.filterMap id).any (fun f => seen.contains f) = true := by
            intro h
            obtain ⟨g, g1, g2⟩ := List.any_eq_true.mp h
            exact absurd g2 (List.find?_eq_none.mp hfind g g1)
          rw [if_neg hany]
          refine ⟨fun pl t' h hC => ?_, fun e h => ?_⟩
          · obtain ⟨a, e1, e2⟩ := map_ok h
            cases e2
            exact getLine_loose (counts_step (hE hC).counts hst)
          · exact includeFiles_place hp _ _ e (mapError h)

/-- Whatever is wrong with a file or one that it includes has a place and a text. -/
theorem file_place {env : Env} (ha : env.AsciiChars) (fs : Files) (fuel : Nat) : ∀ (depth : Nat) (seen : List Str) (file : Str),
    (∀ g ∈ seen, fs.read g ≠ none) → ∀ e, tokenizeFile env fs fuel depth seen file = .error (.fail (.error e)) →
    ∃ x, fileTrouble env fs fuel depth seen file = some x ∧ Located env fs x := by
  intro depth
  induction depth with
  | zero => intro seen file _ e h; cases h
  | succ depth ih =>
    intro seen file hseen e h
    rw [tokenizeFile] at h
    rw [fileTrouble]
    cases hr : fs.read file with
    | none => rw [hr] at h; cases h
    | some content =>
      rw [hr] at h
      have hseen' : ∀ g ∈ file :: seen, fs.read g ≠ none := by
        intro g hg
        rcases List.mem_cons.mp hg with rfl | hg
        · rw [hr]; simp
        · exact hseen g hg
      refine items_place ha fuel (include_place hseen' (fun f e => ih (file :: seen) f hseen' e)) (fun t pl t' h => includeTok_step h)
        fuel {} (Tok.ofContent content) hr List.suffix_rfl (fun _ => ?_) e h
      exact ⟨[], rfl, rfl, .inr (.inr rfl)⟩

/-! ### The message -/

theorem splitNl_length (s : Str) : (splitNl s).length = s.count '\n' + 1 := by
  induction s with
  | nil => rfl
  | cons c s ih =>
    rw [splitNl]
    split
    · next hc => rw [hc, List.length_cons, ih, List.count_cons_self]
    · next hc =>
      rw [List.count_cons_of_ne hc, ← ih]
      cases h : splitNl s with
      | nil => exact absurd h (nlSplit_ne s)
      | cons l ls => rfl

/-- There are at least as many lines as line breaks. -/
theorem strLines_length (s : Str) : s.count '\n' ≤ (strLines s).length := by
  have := splitNl_length s
  unfold strLines
  split
  · rw [List.length_map, List.length_dropLast]; omega
  · rw [List.length_map]; omega

/-- The lines that are shown. -/
theorem excerptLoop_around (k : Nat) (hk : 0 < k) (lines : List Str) (hl : k ≤ lines.length) :
    ∃ a, (lines.zipIdx 1).drop (k - 1) = a ∧ a ≠ [] ∧ excerptLoop k 0 lines = (a.take 2).map (fun x => (x.2 - 1, x.1)) ∧
      ∀ x ∈ a.take 2, x.2 ≠ 0 := by
  obtain ⟨pre, rest, e, hp⟩ : ∃ pre rest, lines = pre ++ rest ∧ pre.length = k - 1 :=
    ⟨lines.take (k - 1), lines.drop (k - 1), (List.take_append_drop _ _).symm, by rw [List.length_take]; omega⟩
  subst e
  refine ⟨_, rfl, ?_⟩
  rw [List.zipIdx_append, List.drop_left' (by simp [hp]), excerptLoop_skip _ _ _ _ (by omega), hp]
  rw [List.length_append] at hl
  cases rest with
  | nil => simp at hl; omega
  | cons a rest =>
    refine ⟨by simp, ?_⟩
    rw [excerptLoop, if_neg (by omega), if_neg (by omega)]
    cases rest with
    | nil => simp [excerptLoop]
    | cons b rest =>
      rw [excerptLoop, if_neg (by omega), if_neg (by omega)]
      have : excerptLoop k (0 + (k - 1) + 1 + 1) rest = [] := by
        cases rest with
        | nil => rfl
        | cons c rest => rw [excerptLoop, if_neg (by omega), if_pos (by omega)]
      rw [this]
      simp
      omega

theorem flatMap_same {α β : Type} {l : List α} {f g : α → List β} (h : ∀ x ∈ l, f x = g x) : l.flatMap f = l.flatMap g := by
  induction l with
  | nil => rfl
  | cons a l ih => rw [List.flatMap_cons, List.flatMap_cons, h a (by simp), ih (fun x hx => h x (by simp [hx]))]

/-- The message, whatever the place. -/
theorem message_notice {t : Tok} {file what : Str} (h0 : t.line ≠ 0) (hl : t.line ≤ t.content.count '\n') :
    t.message (some file) what ++ ['\n'] = noticeText what file (t.line + 1) (t.col + 1) (strLines t.content) := by
  obtain ⟨a, e1, e2, e3, e4⟩ := excerptLoop_around t.line (by omega) (strLines t.content) (Nat.le_trans hl (strLines_length _))
  have e5 : linesAround (t.line + 1) (strLines t.content) = a.take 2 := by
    unfold linesAround
    rw [← e1, show t.line + 1 - 2 = t.line - 1 by omega]
  have e6 : a.take 2 ≠ [] := by
    cases a with
    | nil => exact absurd rfl e2
    | cons x a => simp
  unfold Tok.message noticeText excerptText
  rw [e3, e5]
  simp only
  generalize a.take 2 = b at e4 e6
  have d1 := digits_toDigits (t.line + 1)
  have d3 := digits_toDigits (t.col + 1)
  have hlast : excerptLast t.line t.col (some file) what (b.map (fun x => (x.2 - 1, x.1))) =
      ((b.getLast?.map (·.1)).getD []) ++ ['\n'] := by
    unfold excerptLast
    rw [List.getLast?_map]
    cases hb : b.getLast? with
    | none => exact absurd (List.getLast?_eq_none_iff.mp hb) e6
    | some x => rfl
  have hmarks : excerptMarks t.col (((b.getLast?.map (·.1)).getD []) ++ ['\n']) =
      (List.range (((b.getLast?.map (·.1)).getD []).map Char.utf8Size |>.sum |> (· + 1))).map
        (fun i => if i + 1 = t.col + 1 then '^' else '-') := by
    unfold excerptMarks
    rw [byteLen_append]
    simp only [Nat.add_right_cancel_iff]
    rfl
  have hflat : (b.map (fun x => (x.2 - 1, x.1))).flatMap (fun x => excerptLine (digits (t.line + 1)).length x.1 x.2) =
      b.flatMap (fun x => marginText (digits (t.line + 1)).length (Nat.toDigits 10 x.2) x.1) := by
    rw [List.flatMap_map]
    refine flatMap_same (fun x hx => ?_)
    have := e4 x hx
    unfold excerptLine marginText padLeft
    simp only [show x.2 - 1 + 1 = x.2 by omega, digits_toDigits]
    have e2 : " |      ".toList = " |".toList ++ List.replicate 6 ' ' := by decide
    rw [e2]
    simp only [List.append_assoc]
  rw [hlast, hmarks, hflat]
  unfold excerptPlace
  rw [d1, d3]
  generalize (List.range _).map _ = m
  generalize List.flatMap _ b = bs
  generalize Nat.toDigits 10 (t.line + 1) = n
  generalize "Error: ".toList = x1
  generalize "--> ".toList = x2
  generalize Nat.toDigits 10 (t.col + 1) = k
  have e7 : "|      ".toList = '|' :: List.replicate 6 ' ' := by decide
  rewrite [e7, List.replicate_succ (n := n.length)]
  generalize List.replicate 6 ' ' = x4
  simp only [List.append_assoc, List.cons_append, List.nil_append]

end Dinero
