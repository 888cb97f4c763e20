import Verif.Lemmas.Accepted
/-
Lemmas about journals whose characters stand for something: they are accepted (C132).  (The other direction is in
`Lemmas/Accepted.lean`.)
-/
namespace Dinero

/-! ### Words and amounts -/

/-- In quotes, up to the next one or the end of the line. -/
theorem wordAux_inside {env : Env} {x : Str} (h1 : '"' ∉ x) (h2 : '\n' ∉ x) {k : Str} : ∀ (e : Bool), (x = [] → e = false) →
    (wordAux env (x ++ '"' :: k) e true).1 = x ∧ (wordAux env (x ++ '"' :: k) e true).2.2 = k := by
  induction x with
  | nil => intro e he; rw [he rfl]; simp [wordAux]
  | cons c x ih =>
    intro e _
    simp only [List.mem_cons, not_or] at h1 h2
    have := ih h1.2 h2.2 false (fun _ => rfl)
    simp [wordAux, Ne.symm h1.1, Ne.symm h2.1, this]

theorem wordAux_unclosed {env : Env} {x k : Str} (h1 : '"' ∉ x) (h2 : '\n' ∉ x) (hk : k = [] ∨ k.head? = some '\n') : ∀ (e : Bool),
    (wordAux env (x ++ k) e true).1 = x ∧ (wordAux env (x ++ k) e true).2.2 = k := by
  induction x with
  | nil =>
    intro e
    cases k with
    | nil => simp [wordAux]
    | cons c k => simp at hk; subst hk; simp [wordAux]
  | cons c x ih =>
    intro e
    simp only [List.mem_cons, not_or] at h1 h2
    have := ih h1.2 h2.2 false
    simp [wordAux, Ne.symm h1.1, Ne.symm h2.1, this]

theorem wordAux_quotes {env : Env} {q r : Str} (h : ∀ c ∈ q, c = '"') : ∀ (b : Bool), q ≠ [] ∨ b = true →
    (wordAux env (q ++ r) true b).1 = (wordAux env r true true).1 ∧ (wordAux env (q ++ r) true b).2.2 = (wordAux env r true true).2.2 := by
  induction q with
  | nil => intro b hb; simp at hb; subst hb; exact ⟨rfl, rfl⟩
  | cons c q ih =>
    intro b _
    rw [h c (by simp)]
    have := ih (fun c hc => h c (by simp [hc])) true (.inr rfl)
    simp [wordAux, this]

theorem wordAux_chars {env : Env} (hw : WordChar env '"') (hnl : env.ws '\n' = true) {s k : Str} (h : ∀ c ∈ s, WordChar env c)
    (hk : ∀ c, k.head? = some c → ¬ WordChar env c) :
    (wordAux env (s ++ k) false false).1 = s.filter (· != '"') ∧ (wordAux env (s ++ k) false false).2.2 = k := by
  have nl : ∀ c, WordChar env c → c ≠ '\n' := by
    rintro c hc rfl; exact absurd hc.1 (by simp [hnl])
  induction s with
  | nil =>
    cases k with
    | nil => simp [wordAux]
    | cons c k =>
      have := hk c rfl
      by_cases hc : c = '\n'
      · subst hc; simp [wordAux]
      · have he := wordEnd_iff'.mpr this
        by_cases hq : c = '"'
        · subst hq; exact absurd hw this
        · simp [wordAux, hc, hq, he]
  | cons c s ih =>
    have hc := h c (by simp)
    have := ih (fun c hc => h c (by simp [hc]))
    by_cases hq : c = '"'
    · subst hq; simp [wordAux, this]
    · simp [wordAux, hq, nl c hc, wordEnd_iff.mpr hc, this]

theorem quote_wordChar {env : Env} (ha : env.AsciiChars) : WordChar env '"' :=
  ⟨ha.wsF (by decide) (by decide), ha.numF (by decide) (by decide), by decide⟩

/-- A word that has its form is read. -/
theorem wordAux_exact {env : Env} (ha : env.AsciiChars) {v w k : Str} (h : ReadsWord env v w k) :
    (wordAux env (v ++ k) true false).1 = w ∧ (wordAux env (v ++ k) true false).2.2 = k := by
  have hnl : env.ws '\n' = true := ha.wsT (by decide) (by decide)
  have hw := quote_wordChar ha
  cases h with
  | plain h1 h2 h3 =>
    cases v with
    | nil =>
      cases k with
      | nil => simp [wordAux]
      | cons c k =>
        have := h3 c rfl
        by_cases hc : c = '\n'
        · subst hc; simp [wordAux]
        · have he := wordEnd_iff'.mpr this
          by_cases hq : c = '"'
          · subst hq; exact absurd hw this
          · simp [wordAux, hc, hq, he]
    | cons c v =>
      have hq : c ≠ '"' := by simpa using h1
      have hc := h2 c (by simp)
      have hn : c ≠ '\n' := by rintro rfl; exact absurd hc.1 (by simp [hnl])
      have := wordAux_chars (s := v) hw hnl (fun c hc => h2 c (List.mem_cons_of_mem _ hc)) h3
      simp [wordAux, hq, hn, wordEnd_iff.mpr hc, this]
  | @quoted q _ _ h1 h2 h3 h4 h5 =>
    have e := wordAux_quotes (env := env) (r := w ++ '"' :: k) h2 false (.inl h1)
    have := wordAux_inside (env := env) h4 h5 (k := k) true (fun e => absurd e h3)
    simp only [List.append_assoc, List.cons_append, List.nil_append, e, this, and_self]
  | @unclosed q _ _ h1 h2 h3 h4 h5 =>
    have e := wordAux_quotes (env := env) (r := w ++ k) h2 false (.inl h1)
    have := wordAux_unclosed (env := env) h3 h4 h5 true
    simp only [List.append_assoc, e, this, and_self]

theorem consumeWs_exact {env : Env} {t : Tok} {b k : Str} (h : t.rest = b ++ k) (hb : Blanks env b) (hk : EndsBlanks env k) :
    (consumeWs env t).rest = k :=
  consumeWs_rest h hb (fun c hc => by
    cases hw : env.ws c with
    | false => simp [Env.blank, hw]
    | true => simp [Env.blank, hk c hc hw])

theorem word_exact {env : Env} (ha : env.AsciiChars) {t : Tok} {v w b k : Str} (ht : t.rest = v ++ b ++ k) (h : ReadsWord env v w (b ++ k))
    (h0 : EndsBlanks env t.rest) (hb : Blanks env b) (hk : EndsBlanks env k) :
    (getString env t).1 = w ∧ (getString env t).2.rest = k := by
  have := wordAux_exact ha h
  rw [← List.append_assoc, ← ht] at this
  unfold getString
  rw [consumeWs_ends h0]
  exact ⟨this.1, consumeWs_exact (b := b) this.2 hb hk⟩

/-- A minus sign after the point. -/
theorem number_exact {env : Env} (ha : env.AsciiChars) {t : Tok} {s k : Str} {q : Rat} (h : ReadsNumber s q) (ht : t.rest = s ++ k)
    (hk : EndsNumber env k) : (parseAmount env t).1 = .ok q ∧ (parseAmount env t).2.rest = k := by
  cases h with
  | plain h => exact parseAmount_ok ha h ht hk
  | @shifted d h1 h2 =>
    have e : amountAux env t.rest false = some ('-' :: d, d.length + 1, d.length + 2, k) := by
      rw [ht]
      have h3 := amountAux_digits ha (r := k) h1 true
      rw [amountAux_stop hk] at h3
      simp [amountAux, h3]
    have q : (if false = true then 1 else 0) = 0 := rfl
    unfold parseAmount
    rw [e]
    simp only [intOf, natOf_digits ⟨h2, h1⟩, unsignedVal_int h1]
    simp

theorem amountAux_all {env : Env} {n k : Str} (hk : EndsNumber env k) : ∀ (dec : Bool), (∀ c ∈ n, c = '.' ∨ NumberChar env c) →
    n.count '.' + (if dec then 1 else 0) ≤ 1 →
    ∃ d l, amountAux env (n ++ k) dec = some (n.filter (· != '.'), d, l, k) := by
  induction n with
  | nil => intro dec _ _; exact ⟨_, _, amountAux_stop hk dec⟩
  | cons c n ih =>
    intro dec h1 h2
    by_cases hc : c = '.'
    · subst hc
      rw [List.count_cons_self] at h2
      have hd : dec = false := by cases dec with
        | false => rfl
        | true => simp at h2
      subst hd
      obtain ⟨d, l, e⟩ := ih true (fun c hc => h1 c (List.mem_cons_of_mem _ hc)) (by simpa using h2)
      refine ⟨d, l + 1, ?_⟩
      simp [amountAux, e]
    · rw [List.count_cons_of_ne (by simpa using hc)] at h2
      obtain ⟨d, l, e⟩ := ih dec (fun c hc => h1 c (List.mem_cons_of_mem _ hc)) h2
      have hn : c = '-' ∨ env.numeric c = true := (h1 c (by simp)).resolve_left hc
      refine ⟨d + (if dec then 1 else 0), l + 1, ?_⟩
      simp only [List.cons_append, amountAux, if_neg hc, if_pos hn, e, Option.map_some]
      rw [List.filter_cons_of_pos (by simpa using hc)]

theorem amountAux_twice {env : Env} {n k : Str} (hk : k.head? = some '.') : ∀ (dec : Bool), (∀ c ∈ n, c = '.' ∨ NumberChar env c) →
    n.count '.' + (if dec then 1 else 0) = 1 → amountAux env (n ++ k) dec = none := by
  induction n with
  | nil =>
    intro dec _ h2
    have hd : dec = true := by cases dec with
      | true => rfl
      | false => simp at h2
    subst hd
    cases k with
    | nil => cases hk
    | cons c k => simp at hk; subst hk; simp [amountAux]
  | cons c n ih =>
    intro dec h1 h2
    by_cases hc : c = '.'
    · subst hc
      rw [List.count_cons_self] at h2
      have hd : dec = false := by cases dec with
        | false => rfl
        | true => simp at h2
      subst hd
      have e := ih true (fun c hc => h1 c (List.mem_cons_of_mem _ hc)) (by simpa using h2)
      simp [amountAux, e]
    · rw [List.count_cons_of_ne (by simpa using hc)] at h2
      have e := ih dec (fun c hc => h1 c (List.mem_cons_of_mem _ hc)) h2
      have hn : c = '-' ∨ env.numeric c = true := (h1 c (by simp)).resolve_left hc
      simp only [List.cons_append, amountAux, if_neg hc, if_pos hn, e, Option.map_none]

theorem intOf_none {s : Str} (h : ¬ IsInteger s) : intOf s = none := by
  cases hi : intOf s with
  | none => rfl
  | some i => exact absurd (intOf_cases hi) h

/-- What is no number is not read as one. -/
theorem noNumber_exact {env : Env} {t : Tok} {n k : Str} (h : NoNumber env n k) (ht : t.rest = n ++ k) :
    (parseAmount env t).1 = .error .unexpectedInput ∧ (parseAmount env t).2.rest = k := by
  obtain ⟨h1, ⟨h2, h3, h4⟩ | ⟨h2, h3⟩⟩ := h
  · obtain ⟨d, l, e⟩ := amountAux_all h3 false h1 (by simpa using h2)
    unfold parseAmount
    rw [ht, e]
    simp [intOf_none h4]
  · have e := amountAux_twice h3 false h1 (by simpa using h2)
    obtain ⟨a, b, rfl⟩ := List.append_of_mem (List.count_pos_iff.mp (by omega : 0 < n.count '.'))
    have hab : '.' ∉ a ∧ '.' ∉ b := by
      rw [List.count_append, List.count_cons_self] at h2
      exact ⟨List.count_eq_zero.mp (by omega), List.count_eq_zero.mp (by omega)⟩
    obtain ⟨r, rfl⟩ : ∃ r, k = '.' :: r := by
      cases k with
      | nil => cases h3
      | cons c k => simp at h3; exact ⟨k, by rw [h3]⟩
    have tw : ∀ {x y : Str}, '.' ∉ x → (x ++ '.' :: y).takeWhile (· != '.') = x := by
      intro x y hx
      rw [List.takeWhile_append_of_pos (by intro c hc; simp; rintro rfl; exact hx hc)]
      simp
    unfold parseAmount
    rw [ht, e]
    simp only [List.append_assoc, List.cons_append, tw hab.1, true_and]
    have : (a ++ '.' :: (b ++ '.' :: r)).drop (a.length + 1) = b ++ '.' :: r := by
      rw [← List.drop_drop, List.drop_left]; rfl
    rw [← List.drop_drop, this, tw hab.2, List.drop_left]

theorem readsNumber_head {n : Str} {q : Rat} (h : ReadsNumber n q) :
    ∃ c r, n = c :: r ∧ (c = '-' ∨ c = '.' ∨ ('0' ≤ c ∧ c ≤ '9')) := by
  cases h with
  | plain h => exact number_head h
  | shifted _ _ => exact ⟨_, _, rfl, .inr (.inl rfl)⟩

theorem readsWord_head {env : Env} (ha : env.AsciiChars) {v w k : Str} (h : ReadsWord env v w k) :
    ∀ c, v.head? = some c → env.ws c = false ∧ c ≠ ';' := by
  have hq := quote_wordChar ha
  cases h with
  | plain _ h2 _ =>
    intro c hc
    have := h2 c (List.mem_of_head? hc)
    exact ⟨this.1, by rintro rfl; exact this.2.2 (by simp)⟩
  | @quoted q _ _ h1 h2 _ _ _ =>
    cases q with
    | nil => exact absurd rfl h1
    | cons d q => intro c hc; simp at hc; rw [← hc, h2 d (by simp)]; exact ⟨hq.1, by decide⟩
  | @unclosed q _ _ h1 h2 _ _ _ =>
    cases q with
    | nil => exact absurd rfl h1
    | cons d q => intro c hc; simp at hc; rw [← hc, h2 d (by simp)]; exact ⟨hq.1, by decide⟩

theorem readsWord_nil {env : Env} {v w k : Str} (h : ReadsWord env v w k) (h0 : v = []) : w = [] := by
  cases h with
  | plain _ _ _ => rw [h0]; rfl
  | quoted _ _ _ _ _ => simp at h0
  | unclosed h1 _ _ _ _ => simp at h0; exact absurd h0.1 h1

theorem endsBlanks_of {env : Env} {s : Str} (h : ∀ c, s.head? = some c → env.ws c = false) : EndsBlanks env s :=
  fun c hc hw => by rw [h c hc] at hw; cases hw

theorem EndsBlanks.blanks_nil {env : Env} {b s : Str} (h : EndsBlanks env (b ++ s)) (hb : Blanks env b) : b = [] := by
  cases b with
  | nil => rfl
  | cons c b => exact absurd (h c rfl (hb c (by simp)).1) (hb c (by simp)).2

/-- An amount starts with a character that is no white space. -/
theorem readsMoney_head {env : Env} (ha : env.AsciiChars) {m c k : Str} {q : Rat} (h : ReadsMoney env m q c k) :
    ∃ x r, m = x :: r ∧ env.ws x = false := by
  cases h with
  | after h1 _ _ _ _ =>
    obtain ⟨x, r, rfl, hx⟩ := readsNumber_head h1
    exact ⟨x, _, rfl, (number_ws ha hx).1⟩
  | @before n b w _ _ _ h1 h2 h3 h4 h5 h6 =>
    obtain ⟨x, r, rfl, hx⟩ := readsNumber_head h5
    have hnw := number_ws ha hx
    cases w with
    | cons y w => exact ⟨y, _, rfl, (readsWord_head ha h3 y rfl).1⟩
    | nil =>
      rw [List.nil_append] at h2 ⊢
      have := h2.blanks_nil h4
      subst this
      exact ⟨x, r, rfl, hnw.1⟩

/-- An amount that has its form is read. -/
theorem money_exact {env : Env} (ha : env.AsciiChars) {t : Tok} {m c b s : Str} {q : Rat} (h : ReadsMoney env m q c (b ++ s))
    (ht : t.rest = m ++ b ++ s) (hb : Blanks env b) (hs : EndsBlanks env s) :
    (parseMoney env t).1 = .ok (q, c) ∧ (consumeWs env (parseMoney env t).2).rest = s := by
  cases h with
  | @after n b1 w _ _ _ h1 h2 h3 h4 h5 =>
    obtain ⟨x, r, rfl, hx⟩ := readsNumber_head h1
    have hnum := (number_ws ha hx).2.1
    have hn := number_exact ha (t := t) (k := b1 ++ w ++ (b ++ s)) h1 (by rw [ht]; simp) h2
    have hr : t.rest = x :: (r ++ b1 ++ w ++ b ++ s) := by rw [ht]; simp
    unfold parseMoney
    rw [hr]
    simp only [if_pos hnum]
    cases hp : parseAmount env t with
    | mk y t1 =>
      rw [hp] at hn
      obtain ⟨rfl, hn⟩ := hn
      simp only at hn ⊢
      have hw := wordAux_exact ha h5
      have e1 : (consumeWs env t1).rest = w ++ (b ++ s) := consumeWs_exact (b := b1) (by rw [hn]; simp) h3 h4
      have : (getString env t1).1 = c ∧ (getString env t1).2.rest = s := by
        unfold getString
        simp only [e1, hw, true_and]
        exact consumeWs_exact (b := b) rfl hb hs
      refine ⟨by rw [this.1], consumeWs_exact (b := []) this.2 (blanks_nil env) hs⟩
  | @before n b1 w _ _ _ h1 h2 h3 h4 h5 h6 =>
    obtain ⟨x, r, rfl, hx⟩ := readsNumber_head h5
    have hnum := number_ws ha hx
    have hne : t.rest ≠ [] := by rw [ht]; simp
    have hhd : t.rest.head? = (w ++ b1 ++ x :: r).head? := by
      rw [ht]
      cases w with
      | nil => cases b1 <;> rfl
      | cons y w => rfl
    cases hr : t.rest with
    | nil => exact absurd hr hne
    | cons y r' =>
      have hy := h1 y (by rw [← hhd, hr]; rfl)
      unfold parseMoney
      rw [hr]
      have hneg : ¬ (env.numeric y = true ∨ y = '.' ∨ y = '-') := by
        simp [hy.1, hy.2.1, hy.2.2]
      simp only [if_neg hneg]
      have hg : (getString env t).1 = c ∧ (getString env t).2.rest = x :: r ++ (b ++ s) := by
        refine word_exact ha (b := b1) (v := w) (by rw [ht]; simp) (by simpa using h3) ?_ h4 (endsBlanks_of ?_)
        · intro z hz hz'
          rw [hhd] at hz
          exact h2 z hz hz'
        · intro z hz; simp at hz; rw [← hz]; exact hnum.1
      have hp := number_exact ha (t := (getString env t).2) h5 hg.2 h6
      cases hpa : parseAmount env (getString env t).2 with
      | mk y t1 =>
        rw [hpa] at hp
        obtain ⟨rfl, hp⟩ := hp
        exact ⟨by rw [hg.1], consumeWs_exact (b := b) hp hb hs⟩

/-- What is no amount is not read as one. -/
theorem noMoney_exact {env : Env} (ha : env.AsciiChars) {t : Tok} {v k : Str} (h : NoMoney env v k) (ht : t.rest = v ++ k) (hne : v ++ k ≠ []) :
    (∃ e, (parseMoney env t).1 = .error e) ∧ (parseMoney env t).2.rest = k := by
  cases h with
  | number h1 h2 =>
    cases v with
    | nil => exact absurd rfl h1
    | cons x v =>
      have hx : env.numeric x = true ∨ x = '.' ∨ x = '-' := by
        rcases h2.1 x (by simp) with h | h | h
        · exact .inr (.inl h)
        · exact .inr (.inr h)
        · exact .inl h
      have hp := noNumber_exact h2 ht
      unfold parseMoney
      rw [ht]
      simp only [List.cons_append, if_pos hx]
      cases hpa : parseAmount env t with
      | mk y t1 =>
        rw [hpa] at hp
        obtain ⟨rfl, hp⟩ := hp
        exact ⟨⟨_, rfl⟩, hp⟩
  | @word w c b n _ h1 h2 h3 h4 h5 h6 =>
    cases hr : t.rest with
    | nil => rw [ht] at hr; exact absurd hr hne
    | cons y r' =>
      have hy := h1 y (by rw [← ht, hr]; rfl)
      unfold parseMoney
      rw [hr]
      have hneg : ¬ (env.numeric y = true ∨ y = '.' ∨ y = '-') := by
        simp [hy.1, hy.2.1, hy.2.2]
      simp only [if_neg hneg]
      have hg : (getString env t).1 = c ∧ (getString env t).2.rest = n ++ k :=
        word_exact ha (b := b) (v := w) (by rw [ht]; simp) (by simpa using h3) (by rw [ht]; exact h2) h4 h5
      have hp := noNumber_exact h6 hg.2
      cases hpa : parseAmount env (getString env t).2 with
      | mk y t1 =>
        rw [hpa] at hp
        obtain ⟨rfl, hp⟩ := hp
        exact ⟨⟨_, rfl⟩, hp⟩

/-! ### Lines and postings -/

theorem valueExpr_exact {k : Str} (e : Str) : ∀ (o c line col : Nat), ';' ∉ e →
    (∀ x y, e = x ++ '\n' :: y → o + x.count '(' ≠ c + x.count ')') →
    (k = [] ∨ k.head? = some ';' ∨ (k.head? = some '\n' ∧ o + e.count '(' = c + e.count ')')) →
    (valueExprAux (e ++ k) o c line col).1 = e ∧ (valueExprAux (e ++ k) o c line col).2.1 = k := by
  induction e with
  | nil =>
    intro o c line col _ _ h3
    cases k with
    | nil => exact ⟨rfl, rfl⟩
    | cons x k =>
      rcases h3 with h | h | ⟨h, h'⟩
      · cases h
      · simp at h; subst h; simp [valueExprAux]
      · simp at h; subst h; simp at h'; simp [valueExprAux, h']
  | cons x e ih =>
    intro o c line col h1 h2 h3
    simp only [List.mem_cons, not_or] at h1
    have up : ∀ {o' c' : Nat}, (∀ n m, o' + n = c' + m ↔ o + (x :: []).count '(' + n = c + (x :: []).count ')' + m) →
        ∀ l k', (valueExprAux (e ++ k) o' c' l k').1 = e ∧ (valueExprAux (e ++ k) o' c' l k').2.1 = k := by
      intro o' c' hoc l k'
      have e1 : ∀ (z : Char) (s : Str), (x :: s).count z = (x :: []).count z + s.count z := by
        intro z s
        rw [← List.singleton_append, List.count_append]
      refine ih o' c' l k' h1.2 ?_ ?_
      · intro a b hab heq
        refine h2 (x :: a) b (by rw [hab]; rfl) ?_
        have := (hoc _ _).mp heq
        rw [e1 '(' a, e1 ')' a]
        omega
      · rcases h3 with h | h | ⟨h, h'⟩
        · exact .inl h
        · exact .inr (.inl h)
        · refine .inr (.inr ⟨h, ?_⟩)
          rw [e1 '(' e, e1 ')' e] at h'
          exact (hoc _ _).mpr (by omega)
    rw [List.cons_append, valueExprAux]
    split
    · next hx =>
      subst hx
      have := up (o' := o + 1) (c' := c) (by intro n m; simp) line col
      simp [this]
    · next n1 =>
      split
      · next hx =>
        subst hx
        have := up (o' := o) (c' := c + 1) (by intro n m; simp) line col
        simp [this]
      · next n2 =>
        have hu : ∀ n m, o + n = c + m ↔ o + (x :: []).count '(' + n = c + (x :: []).count ')' + m := by
          intro n m
          rw [List.count_cons_of_ne n1, List.count_cons_of_ne n2]
          simp
        split
        · next hx =>
          rw [if_neg (fun ho => h2 [] e (by rw [hx]; rfl) (by simpa using ho))]
          simp [up hu (line + 1) 0]
        · rw [if_neg (Ne.symm h1.1)]
          simp [up hu line col]

theorem line_exact {t : Tok} {l r : Str} (h : TakesLine t.rest l r) : (getLine t).1 = l ∧ (getLine t).2.rest = r := by
  obtain ⟨h1, h2⟩ := h
  have hl : ∀ a ∈ l, (a != '\n') = true := fun a ha => by simp; rintro rfl; exact h1 ha
  rcases h2 with h2 | ⟨h2, rfl⟩
  · unfold getLine
    rw [h2, List.takeWhile_append_of_pos hl, dropWhile_all hl]
    simp
  · have e1 : t.rest.takeWhile (· != '\n') = l := by rw [h2]; simpa using List.takeWhile_append_of_pos (l₂ := []) hl
    have e2 : t.rest.dropWhile (· != '\n') = [] := by rw [h2]; simpa using dropWhile_all (r := []) hl
    unfold getLine
    rw [e1, e2]
    exact ⟨rfl, rfl⟩

theorem comment_exact {env : Env} {t : Tok} {m : Char} {b c r : Str} (h : TakesLine t.rest (m :: b ++ c) r) (hb : Blanks env b)
    (hc : ∀ x, c.head? = some x → env.ws x = false) : (commentTok env t).1 = c ∧ (commentTok env t).2.rest = r := by
  obtain ⟨h1, h2⟩ := h
  have hn : '\n' ∉ c := fun hm => h1 (by simp [hm])
  have he : ∀ k : Str, k = [] ∨ k.head? = some '\n' → EndsBlanks env (c ++ k) := by
    intro k hk x hx hw
    cases c with
    | cons y c => rw [hc x hx] at hw; cases hw
    | nil =>
      rw [List.nil_append] at hx
      rcases hk with rfl | hk
      · cases hx
      · rw [hk] at hx; exact (Option.some.inj hx).symm
  unfold commentTok
  apply line_exact
  rcases h2 with h2 | ⟨h2, rfl⟩
  · refine ⟨hn, .inl (consumeWs_exact (b := b) ?_ hb (he _ (.inr rfl)))⟩
    simp [h2]
  · refine ⟨hn, .inr ⟨consumeWs_exact (b := b) ?_ hb ?_, rfl⟩⟩
    · simp [h2]
    · simpa using he [] (.inl rfl)

/-- What is no amount is not an amount. -/
theorem noMoney_not {env : Env} (ha : env.AsciiChars) {v k m b s c : Str} {q : Rat} (h : NoMoney env v k)
    (h' : ReadsMoney env m q c (b ++ s)) (hb : Blanks env b) (hs : EndsBlanks env s) (e : v ++ k = m ++ b ++ s) : False := by
  obtain ⟨x, r, rfl, _⟩ := readsMoney_head ha h'
  obtain ⟨⟨e', h1⟩, _⟩ := noMoney_exact ha (t := { content := [], rest := v ++ k }) h rfl (by rw [e]; simp)
  obtain ⟨h2, _⟩ := money_exact ha (t := { content := [], rest := v ++ k }) h' e hb hs
  rw [h1] at h2
  cases h2

/-- The last character is not read twice in vain. -/
theorem takesPieces_last {env : Env} (ha : env.AsciiChars) {auto had : Bool} {text rest : Str} {ps : List Piece} {cs : List Str}
    (h : TakesPieces env auto had text ps cs rest) : ∀ {x : Char} {v e : Str}, text = [x] → NoMoney env v e → v ++ e = [x] →
      x ∉ ['(', '=', '@', ';', '\n'] → env.ws x = false → False := by
  induction h with
  | stop h =>
    intro x v e ht _ _ hx _
    subst ht
    simp at h hx
    exact hx.2.2.2.2 h
  | comment h _ _ =>
    intro x v e ht _ _ hx _
    subst ht
    have : x = ';' := by
      rcases h.2 with h | ⟨h, _⟩
      · simp at h
      · simp at h; exact h.1
    simp [this] at hx
  | @expr had e b s rest ps cs h1 _ _ _ _ _ _ _ =>
    intro x v e' ht _ _ hx _
    cases e with
    | nil => cases h1
    | cons y e => simp at h1 ht; simp [← ht.1, h1] at hx
  | @field had f b m b' s rest c q ps cs h1 h2 h3 h4 h5 h6 h7 h8 ih =>
    intro x v e' ht hn hv hx hw
    cases f with
    | amount =>
      have ht : b ++ (m ++ b' ++ s) = [x] := by simpa [Field.mark] using ht
      have hb : b = [] := by
        refine EndsBlanks.blanks_nil (s := m ++ b' ++ s) ?_ h1
        rw [ht]
        exact endsBlanks_of (by intro c hc; simp at hc; rw [← hc]; exact hw)
      subst hb
      exact noMoney_not ha hn h2 h3 h4 (by rw [hv]; exact ht.symm)
    | unitCost => simp [Field.mark] at ht; simp [← ht.1] at hx
    | totalCost => simp [Field.mark] at ht
    | assertion => simp [Field.mark] at ht; simp [← ht.1] at hx
  | @line had v e r _ _ h1 _ h2 =>
    intro x v' e' ht _ _ hx _
    have : v ++ e = [] := by
      have := congrArg List.length ht
      simp at this
      cases v <;> cases e <;> simp_all
    exact h2 this
  | @last had v e b s rest ps cs h1 h2 h3 h4 h5 h6 h7 h8 h9 ih =>
    intro x v' e' ht hn hv hx hw
    rw [ht] at h5
    have h5 : [x] = b ++ s := h5
    have hb : b = [] := by
      refine EndsBlanks.blanks_nil (s := s) ?_ h7
      rw [← h5]
      exact endsBlanks_of (by intro c hc; simp at hc; rw [← hc]; exact hw)
    subst hb
    exact ih h5.symm hn hv hx hw

/-- Not on the first line, or almost at the end. -/
def Tok.Low (t : Tok) : Prop := 1 ≤ t.line ∨ (t.rest.length ≤ 1 ∧ '\n' ∉ t.rest)

theorem Tok.Step.line_le {t t' : Tok} (h : t.Step t') : t.line ≤ t'.line := by
  have h1 := h.line
  have h2 : t'.rest.count '\n' ≤ t.rest.count '\n' := h.rest.sublist.count_le _
  omega

theorem Tok.Step.low {t t' : Tok} (h : t.Step t') (hl : t.Low) : t'.Low := by
  rcases hl with hl | ⟨h1, h2⟩
  · exact .inl (hl.trans h.line_le)
  · exact .inr ⟨h.length.trans h1, fun hm => h2 (h.rest.subset hm)⟩

theorem amounts_end {env : Env} {tt : TType} {n : Nat} {p : RawPosting} {t : Tok} (h : t.rest = [] ∨ t.rest.head? = some '\n') :
    amounts env tt (n + 1) p t = .ok (.ok p, t) := by
  rw [amounts]
  split <;> rename_i heq <;> rw [heq] at h <;> simp at h <;> first | rfl | (exact absurd h (by assumption))

theorem amounts_noMoney {env : Env} {tt : TType} {n : Nat} {p : RawPosting} {t : Tok} {x : Char} {r : Str}
    (htt : tt = .automated) (ht : t.rest = x :: r) (hx : x ∉ ['(', '=', '@', ';', '\n']) {e : Err} (hm : (parseMoney env t).1 = .error e)
    (hl : (getLine (parseMoney env t).2).2.line ≠ 0) :
    amounts env tt (n + 1) p t = amounts env tt n { p with amountExpr := some (getLine (parseMoney env t).2).1 }
      (consumeWs env { (getLine (parseMoney env t).2).2.unread with line := (getLine (parseMoney env t).2).2.line - 1 }) := by
  simp only [List.mem_cons, List.not_mem_nil, or_false, not_or] at hx
  rw [amounts]
  split <;> rename_i heq <;> rw [ht] at heq <;> simp at heq
  · exact absurd heq.1 hx.2.2.2.2
  · exact absurd heq.1 hx.2.2.2.1
  · exact absurd heq.1 hx.1
  · exact absurd heq.1 hx.2.1
  · exact absurd heq.1 hx.2.2.1
  · cases hp : parseMoney env t with
    | mk y t1 =>
      rw [hp] at hm hl
      simp only at hm hl
      subst hm
      simp only [if_pos htt, if_neg hl]

/-- What follows the account of a posting is read if it has its form. -/
theorem amounts_exact {env : Env} (ha : env.AsciiChars) {tt : TType} {had : Bool} {text rest : Str} {ps : List Piece} {cs : List Str}
    (h : TakesPieces env (tt == .automated) had text ps cs rest) :
    ∃ N, ∀ n, N ≤ n → ∀ (p : RawPosting) (t : Tok), t.rest = text → t.rest <:+ t.content → EndsBlanks env t.rest →
      p.moneyAmount.isSome = had → t.Low →
      ∃ t', amounts env tt n p t = .ok (.ok { ps.foldl Piece.set p with comments := p.comments ++ cs }, t') ∧ t'.rest = rest ∧
        (1 ≤ t'.line ∨ t'.rest = []) := by
  have hnl : env.ws '\n' = true := ha.wsT (by decide) (by decide)
  generalize hauto : (tt == .automated) = auto at h
  induction h with
  | @stop had rest h =>
    refine ⟨1, fun n hn p t ht hs hb hp hl => ⟨t, ?_, ht, ?_⟩⟩
    · obtain ⟨n, rfl⟩ : ∃ m, n = m + 1 := ⟨n - 1, by omega⟩
      have he : ({ ([] : List Piece).foldl Piece.set p with comments := p.comments ++ [] } : RawPosting) = p := by simp
      rw [he]
      subst ht
      exact amounts_end h
    · rcases hl with hl | ⟨h1, h2⟩
      · exact .inl hl
      · right
        rw [ht] at h2 ⊢
        rcases h with h | h
        · exact h
        · exact absurd (List.mem_of_head? h) h2
  | @comment had text b c rest h1 h2 h3 =>
    refine ⟨1, fun n hn p t ht hs hb hp hl => ⟨(commentTok env t).2, ?_, ?_⟩⟩
    · obtain ⟨n, rfl⟩ : ∃ m, n = m + 1 := ⟨n - 1, by omega⟩
      have hc := comment_exact (t := t) (by rw [ht]; exact h1) h2 h3
      obtain ⟨r, hr⟩ : ∃ r, t.rest = ';' :: r := by
        rw [ht]
        rcases h1.2 with h | ⟨h, _⟩
        · exact ⟨_, h⟩
        · exact ⟨_, h⟩
      rw [amounts]
      split <;> rename_i heq <;> rw [hr] at heq <;> simp at heq
      · simp [hc.1]
      · have := heq.1.symm; contradiction
    · have hc := comment_exact (t := t) (by rw [ht]; exact h1) h2 h3
      obtain ⟨r, hr⟩ : ∃ r, t.rest = ';' :: r := by
        rw [ht]
        rcases h1.2 with h | ⟨h, _⟩
        · exact ⟨_, h⟩
        · exact ⟨_, h⟩
      refine ⟨hc.2, ?_⟩
      obtain ⟨k1, k2⟩ := commentTok_step (env := env) hr (by decide)
      rcases hl with hl | ⟨hl1, hl2⟩
      · exact .inl (hl.trans k1.line_le)
      · right
        exact List.eq_nil_of_length_eq_zero (by omega)
  | @expr had e b s rest ps cs h1 h2 h3 h4 h5 h6 h7 ih =>
    obtain ⟨N, ih⟩ := ih
    refine ⟨N + 1, fun n hn p t ht hs hb hp hl => ?_⟩
    obtain ⟨n, rfl⟩ : ∃ m, n = m + 1 := ⟨n - 1, by omega⟩
    have hv := valueExpr_exact (k := b ++ s) e 0 0 t.line t.col h2 (by simpa using h3) (by simpa using h4)
    have ht' : t.rest = e ++ (b ++ s) := by rw [ht]; simp
    rw [← ht'] at hv
    have hst := (getValueExpression_step t).trans (consumeWs_step env _)
    have hrest : (consumeWs env (getValueExpression t).2).rest = s := consumeWs_exact (b := b) hv.2 h5 h6
    obtain ⟨r, hr⟩ : ∃ r, t.rest = '(' :: r := by
      cases e with
      | nil => cases h1
      | cons y e => simp at h1; subst h1; exact ⟨_, ht'⟩
    obtain ⟨t', k1, k2, k3⟩ := ih n (by omega) { p with amountExpr := some e } (consumeWs env (getValueExpression t).2) hrest
      (by rw [hst.content]; exact hst.rest.trans hs) (by rw [hrest]; exact h6) hp (hst.low hl)
    refine ⟨t', ?_, k2, k3⟩
    rw [amounts]
    split <;> rename_i heq <;> rw [hr] at heq <;> simp at heq
    · have : (getValueExpression t).1 = e := hv.1
      simp only [this, k1]
      rfl
    · have := heq.1.symm; contradiction
  | @field had f b m b' s rest c q ps cs h1 h2 h3 h4 h5 h6 h7 h8 ih =>
    obtain ⟨N, ih⟩ := ih
    refine ⟨N + 1, fun n hn p t ht hs hb hp hl => ?_⟩
    obtain ⟨n, rfl⟩ : ∃ m, n = m + 1 := ⟨n - 1, by omega⟩
    obtain ⟨x, r, hxr, hxw⟩ := readsMoney_head ha h2
    have hxn : x ≠ '\n' := by rintro rfl; rw [hnl] at hxw; cases hxw
    have ht' : t.rest = f.mark ++ (b ++ (m ++ b' ++ s)) := by rw [ht]; simp
    have hme : EndsBlanks env (m ++ b' ++ s) := endsBlanks_of (by intro y hy; rw [hxr] at hy; simp at hy; rw [← hy]; exact hxw)
    -- reading the amount and going on
    have step : ∀ (t1 : Tok) (p' : RawPosting), t.Step t1 → t1.rest = m ++ b' ++ s → p' = f.set p q c →
        ∃ t2, parseMoney env t1 = (.ok (q, c), t2) ∧ ∃ t', amounts env tt n p' (consumeWs env t2) =
          .ok (.ok { (Piece.field f q c :: ps).foldl Piece.set p with comments := p.comments ++ cs }, t') ∧ t'.rest = rest ∧
          (1 ≤ t'.line ∨ t'.rest = []) := by
      rintro t1 p' ht1 hr1 rfl
      obtain ⟨e1, e2⟩ := money_exact ha h2 hr1 h3 h4
      refine ⟨_, Prod.ext e1 rfl, ?_⟩
      have hst := (ht1.trans (parseMoney_step ha t1).1).trans (consumeWs_step env _)
      have hpc : (f.set p q c).comments = p.comments := by cases f <;> rfl
      have hpm : (f.set p q c).moneyAmount.isSome = (had || f == .amount) := by
        rw [← hp]
        cases f <;> simp [Field.set]
      have := ih n (by omega) (f.set p q c) (consumeWs env (parseMoney env t1).2) e2 (by rw [hst.content]; exact hst.rest.trans hs)
        (by rw [e2]; exact h4) hpm (hst.low hl)
      rwa [hpc] at this
    cases f with
    | amount =>
      simp only [Field.mark, List.nil_append] at ht'
      have hb0 : b = [] := by rw [ht'] at hb; exact hb.blanks_nil h1
      subst hb0
      obtain ⟨t2, e1, t', e2, e3⟩ := step t _ .rfl ht' rfl
      refine ⟨t', ?_, e3⟩
      have hx6 := h6 rfl
      rw [hxr] at hx6
      rw [amounts_money (x := x) (r := r ++ b' ++ s) (by rw [ht', hxr]; simp) ?_ e1]
      · exact e2
      · simp at hx6 ⊢
        exact ⟨fun h => hx6.2.2.2 h, hxn, fun h => hx6.1 h, fun h => hx6.2.1 h, fun h => hx6.2.2.1 h⟩
    | assertion =>
      simp only [Field.mark, List.cons_append, List.nil_append] at ht'
      have hm1 : t.Step { t with rest := b ++ (m ++ b' ++ s), col := t.col + 1 } := .of_append (pre := ['=']) rfl ht' rfl (by decide)
      have hc1 := consumeWs_exact (t := { t with rest := b ++ (m ++ b' ++ s), col := t.col + 1 }) rfl h1 hme
      obtain ⟨t2, e1, t', e2, e3⟩ := step _ _ (hm1.trans (consumeWs_step env _)) hc1 rfl
      refine ⟨t', ?_, e3⟩
      rw [amounts]
      split <;> rename_i heq <;> rw [ht'] at heq <;> simp only [List.cons.injEq, reduceCtorEq, Char.reduceEq, false_and, true_and] at heq
      · subst heq; rw [e1]; exact e2
      · have := heq.1.symm; contradiction
    | unitCost =>
      simp only [Field.mark, List.cons_append, List.nil_append] at ht'
      have hm1 : t.Step { t with rest := b ++ (m ++ b' ++ s), col := t.col + 1 } := .of_append (pre := ['@']) rfl ht' rfl (by decide)
      have hc1 := consumeWs_exact (t := { t with rest := b ++ (m ++ b' ++ s), col := t.col + 1 }) rfl h1 hme
      obtain ⟨t2, e1, t', e2, e3⟩ := step _ _ (hm1.trans (consumeWs_step env _)) hc1 rfl
      refine ⟨t', ?_, e3⟩
      obtain ⟨a, hpa⟩ := Option.isSome_iff_exists.mp (hp.trans (h5 (.inl rfl)))
      obtain ⟨d, r', hd, hd'⟩ : ∃ d r', b ++ (m ++ b' ++ s) = d :: r' ∧ d ≠ '@' := by
        have h7 := h7 rfl
        cases hbm : b ++ m with
        | nil => rw [hxr] at hbm; simp at hbm
        | cons d r' =>
          refine ⟨d, r' ++ (b' ++ s), ?_, ?_⟩
          · have : b ++ (m ++ b' ++ s) = (b ++ m) ++ (b' ++ s) := by simp
            rw [this, hbm]; rfl
          · rw [hbm] at h7; simpa using h7
      rw [amounts]
      split <;> rename_i heq <;> rw [ht'] at heq <;> simp only [List.cons.injEq, reduceCtorEq, Char.reduceEq, false_and, true_and] at heq
      · subst heq
        simp only [hpa]
        split
        · rename_i h; rw [h] at hd; cases hd
        · rename_i d1 r1 h
          rw [h] at hd
          obtain ⟨rfl, rfl⟩ : d1 = d ∧ r1 = r' := by simpa using hd
          simp only [hd', if_false]
          rw [e1]
          refine Eq.trans ?_ e2
          simp only [Field.set, hpa]
      · have := heq.1.symm; contradiction
    | totalCost =>
      simp only [Field.mark, List.cons_append, List.nil_append] at ht'
      have hm1 : t.Step { t with rest := b ++ (m ++ b' ++ s), col := t.col + 2 } := .of_append (pre := ['@', '@']) rfl ht' rfl (by decide)
      have hc1 := consumeWs_exact (t := { t with rest := b ++ (m ++ b' ++ s), col := t.col + 2 }) rfl h1 hme
      obtain ⟨t2, e1, t', e2, e3⟩ := step _ _ (hm1.trans (consumeWs_step env _)) hc1 rfl
      refine ⟨t', ?_, e3⟩
      obtain ⟨a, hpa⟩ := Option.isSome_iff_exists.mp (hp.trans (h5 (.inr rfl)))
      rw [amounts]
      split <;> rename_i heq <;> rw [ht'] at heq <;> simp only [List.cons.injEq, reduceCtorEq, Char.reduceEq, false_and, true_and] at heq
      · subst heq
        simp only [hpa, if_true]
        rw [e1]
        refine Eq.trans ?_ e2
        simp only [Field.set, hpa]
      · have := heq.1.symm; contradiction
  | @line had v e r h1 h2 h3 h4 h5 =>
    refine ⟨2, fun n hn p t ht hs hb hp hl => ?_⟩
    obtain ⟨n, rfl⟩ : ∃ m, n = m + 2 := ⟨n - 2, by omega⟩
    have htt : tt = .automated := by rw [h1] at hauto; exact beq_iff_eq.mp hauto
    obtain ⟨⟨er, k1⟩, k2⟩ := noMoney_exact ha h2 (t := t) (by rw [ht]; simp) (by simp)
    have hst := (parseMoney_step ha t).1
    have hcut : '\n' ∉ e := fun hm => h3 (by simp [hm])
    have hline := line_exact (t := (parseMoney env t).2) (l := e) (r := r) ⟨hcut, .inl k2⟩
    obtain ⟨x, r0, hx⟩ : ∃ x r0, v ++ e = x :: r0 := List.exists_cons_of_ne_nil h5
    have hr : t.rest = x :: (r0 ++ '\n' :: r) := by rw [ht, hx]; rfl
    have hsp : x ∉ ['(', '=', '@', ';', '\n'] := by
      intro hm
      exact h4 x hm (by rw [hx]; rfl)
    have hg : (getLine (parseMoney env t).2).2 = { (parseMoney env t).2 with rest := r, line := (parseMoney env t).2.line + 1, col := 0 } := by
      rcases getLine_cases (parseMoney env t).2 with ⟨g1, g2⟩ | ⟨l, r', g1, g2, g3⟩
      · rw [k2] at g1; simp at g1
      · have : r' = r := by rw [← hline.2, g3]
        rw [g3, this]
    obtain ⟨pre, hpre⟩ := hs
    have hun : (getLine (parseMoney env t).2).2.unread.rest = '\n' :: r := by
      rw [hg]
      simp only [Tok.unread]
      exact drop_suffix_one (l := pre ++ (v ++ e)) (by rw [hst.content, ← hpre, ht]; simp)
    rw [amounts_noMoney htt hr hsp k1 (by rw [hg]; simp), hline.1]
    have hcr := consumeWs_exact (t := { (getLine (parseMoney env t).2).2.unread with line := (getLine (parseMoney env t).2).2.line - 1 })
      (b := []) (k := '\n' :: r) hun (blanks_nil env) (by intro c hc _; simp at hc; exact hc.symm)
    refine ⟨_, ?_, hcr, .inl ?_⟩
    · rw [amounts_end (.inr (by rw [hcr]; rfl))]
      simp [Piece.set]
    · have hlt : 1 ≤ t.line := by
        rcases hl with hl | ⟨_, hl⟩
        · exact hl
        · rw [ht] at hl; simp at hl
      have : t.line ≤ (parseMoney env t).2.line := hst.line_le
      show 1 ≤ (getLine (parseMoney env t).2).2.line - 1
      rw [hg]
      simp only
      omega
  | @last had v e b s rest ps cs h1 h2 h3 h4 h5 h6 h7 h8 h9 ih =>
    obtain ⟨N, ih⟩ := ih
    refine ⟨N + 1, fun n hn p t ht hs hb hp hl => ?_⟩
    obtain ⟨n, rfl⟩ : ∃ m, n = m + 1 := ⟨n - 1, by omega⟩
    have htt : tt = .automated := by rw [h1] at hauto; exact beq_iff_eq.mp hauto
    obtain ⟨⟨er, k1⟩, k2⟩ := noMoney_exact ha h2 (t := t) ht h6
    have hst := (parseMoney_step ha t).1
    have hcut : '\n' ∉ e := fun hm => h3 (by simp [hm])
    have hline := line_exact (t := (parseMoney env t).2) (l := e) (r := []) ⟨hcut, .inr ⟨k2, rfl⟩⟩
    obtain ⟨x, r0, hx⟩ : ∃ x r0, v ++ e = x :: r0 := List.exists_cons_of_ne_nil h6
    have hr : t.rest = x :: r0 := by rw [ht, hx]
    have hsp : x ∉ ['(', '=', '@', ';', '\n'] := by
      intro hm
      exact h4 x hm (by rw [hx]; rfl)
    have hg : (getLine (parseMoney env t).2).2 = { (parseMoney env t).2 with rest := [] } := by
      rcases getLine_cases (parseMoney env t).2 with ⟨g1, g2⟩ | ⟨l, r', g1, g2, g3⟩
      · exact g2
      · rw [k2] at g1; rw [g1] at hcut; simp at hcut
    have hlt : 1 ≤ t.line := by
      rcases hl with hl | ⟨hl, _⟩
      · exact hl
      · exfalso
        rw [hr] at hl
        have hr0 : r0 = [] := by cases r0 with
          | nil => rfl
          | cons _ _ => simp at hl
        subst hr0
        have hxw : env.ws x = false := by
          rw [← Bool.not_eq_true]
          intro hw
          have := hb x (by rw [hr]; rfl) hw
          rw [this] at hsp
          simp at hsp
        rw [hx] at h5
        have h5 : [x] = b ++ s := h5
        have hb0 : b = [] := by
          refine EndsBlanks.blanks_nil (s := s) ?_ h7
          rw [← h5]
          exact endsBlanks_of (by intro c hc; simp at hc; rw [← hc]; exact hxw)
        subst hb0
        exact takesPieces_last ha h9 h5.symm h2 hx hsp hxw
    obtain ⟨pre, hpre⟩ := hs
    have hun : (getLine (parseMoney env t).2).2.unread.rest = b ++ s := by
      rw [hg, ← h5]
      simp only [Tok.unread]
      obtain ⟨y, z, hz⟩ : ∃ y z, v ++ e = y ++ [z] := by
        rcases List.eq_nil_or_concat (v ++ e) with h | ⟨y, z, h⟩
        · exact absurd h h6
        · exact ⟨y, z, by rw [h]; simp⟩
      rw [hz]
      simp only [List.getLast?_append_cons, List.getLast?_singleton, Option.toList_some]
      exact drop_suffix_one (l := pre ++ y) (r := []) (by rw [hst.content, ← hpre, ht, hz]; simp)
    have hcr := consumeWs_exact (t := { (getLine (parseMoney env t).2).2.unread with line := (getLine (parseMoney env t).2).2.line - 1 })
      (b := b) (k := s) hun h7 h8
    have hsuf : b ++ s <:+ t.content := by
      rw [← hpre, ht, ← h5]
      obtain ⟨y, z, hz⟩ : ∃ y z, v ++ e = y ++ [z] := by
        rcases List.eq_nil_or_concat (v ++ e) with h | ⟨y, z, h⟩
        · exact absurd h h6
        · exact ⟨y, z, by rw [h]; simp⟩
      rw [hz]
      exact ⟨pre ++ y, by simp⟩
    have hmem : ∀ c ∈ s, c ∈ v ++ e := by
      intro c hc
      have : c ∈ (v ++ e).getLast?.toList := by rw [h5]; simp [hc]
      exact List.mem_of_getLast? (by simpa using this)
    have hlen : s.length ≤ 1 := by
      have := congrArg List.length h5
      have h' : (v ++ e).getLast?.toList.length ≤ 1 := by cases (v ++ e).getLast? <;> simp
      rw [List.length_append] at this
      omega
    obtain ⟨t', q1, q2, q3⟩ := ih n (by omega) { p with amountExpr := some e } _ hcr
      (by
        rw [hcr]
        show s <:+ (getLine (parseMoney env t).2).2.content
        rw [hg]
        show s <:+ (parseMoney env t).2.content
        rw [hst.content]
        exact (List.suffix_append b s).trans hsuf)
      (by rw [hcr]; exact h8) hp (.inr ⟨by rw [hcr]; exact hlen, by rw [hcr]; exact fun hm => h3 (hmem _ hm)⟩)
    refine ⟨t', ?_, q2, q3⟩
    rw [amounts_noMoney htt hr hsp k1 ?_, hline.1, q1]
    · rfl
    · rw [hg]
      have : t.line ≤ (parseMoney env t).2.line := hst.line_le
      simp only
      omega

/-- A posting that has its form is read. -/
theorem posting_exact {env : Env} (ha : env.AsciiChars) {tt : TType} {payee : Option Str} {text rest : Str} {p : RawPosting}
    (h : TakesPosting env (tt == .automated) payee text p rest) :
    ∃ N, ∀ n, N ≤ n → ∀ (t : Tok), t.rest = text → t.rest <:+ t.content → 1 ≤ t.line →
      ∃ t', parsePosting env n tt payee t = .ok (.ok p, t') ∧ t'.rest = rest ∧ (1 ≤ t'.line ∨ t'.rest = []) := by
  have hnl : env.ws '\n' = true := ha.wsT (by decide) (by decide)
  cases h with
  | @account s a r k h =>
    refine ⟨0, fun n _ t ht hs hl => ?_⟩
    obtain ⟨_, h2, h3, h4, h5⟩ := account_name h
    have e : accountAux env.ws (s ++ '\n' :: r) t.line t.col = some (s, .line, '\n' :: r, t.line, 0) := by
      rw [accountAux_name _ _ s le_rfl h3 h4 h2.2 h5, accountAux_newline hnl]
      simp
    refine ⟨{ t with rest := '\n' :: r, col := 0 }, ?_, rfl, .inl hl⟩
    simp only [parsePosting, ht, e, accountKind_ok h, if_true]
  | @amounts s a sep b text _ k ps cs h hsep hb he hp =>
    obtain ⟨N, hN⟩ := amounts_exact ha hp
    refine ⟨N, fun n hn t ht hs hl => ?_⟩
    obtain ⟨_, h2, h3, h4, h5⟩ := account_name h
    obtain ⟨line', col', e⟩ : ∃ line' col', accountAux env.ws (s ++ (sep ++ (b ++ text))) t.line t.col =
        some (s, .more, b ++ text, line', col') := by
      rw [accountAux_name _ _ s le_rfl h3 h4 h2.2 h5]
      rcases hsep with rfl | ⟨x, y, rfl, q1, q2, q3, q4⟩
      · rw [List.singleton_append, accountAux_tab (ha.wsT (by decide) (by decide))]
        exact ⟨t.line, t.col + s.length + 1, by simp⟩
      · rw [List.cons_append, List.cons_append, List.nil_append, accountAux.eq_def]
        simp only [q1, q2, q3, q4, if_true, if_false, Option.map_some, List.append_nil, Bool.true_eq_false]
        exact ⟨_, _, rfl⟩
    have ht' : t.rest = s ++ (sep ++ (b ++ text)) := by rw [ht]; simp
    have hst : t.Step { t with rest := b ++ text, line := line', col := col' } := by
      rw [← ht'] at e
      obtain ⟨q1, q2, _⟩ := accountAux_step hnl t.rest _ _ e
      exact ⟨rfl, q1, q2⟩
    have hst2 := hst.trans (consumeWs_step env _)
    have hr := consumeWs_exact (t := { t with rest := b ++ text, line := line', col := col' }) rfl hb he
    obtain ⟨t', k1, k2, k3⟩ := hN n hn { account := a, kind := k, payee := payee } _ hr (hst2.suffix hs) (by rw [hr]; exact he) rfl
      (hst2.low (.inl hl))
    refine ⟨t', ?_, k2, k3⟩
    simp only [parsePosting, ht', e, accountKind_ok h]
    rw [if_neg (by decide), k1]
    simp

/-! ### Indented lines -/

theorem white_split {env : Env} {w w' s s' : Str} (h : w ++ s = w' ++ s') (hw : White env w) (hw' : White env w')
    (hs : ∀ c, s.head? = some c → env.ws c = false) (hs' : ∀ c, s'.head? = some c → env.ws c = false) : w = w' ∧ s = s' := by
  have e1 : (w ++ s).dropWhile env.ws = s := by rw [dropWhile_all hw, dropWhile_head hs]
  have e2 : (w' ++ s').dropWhile env.ws = s' := by rw [dropWhile_all hw', dropWhile_head hs']
  rw [h, e2] at e1
  subst e1
  exact ⟨List.append_cancel_right h, rfl⟩

theorem wsLines_done {env : Env} (ha : env.AsciiChars) {t : Tok} {within : Bool} {w rest : Str} (ht : t.rest = w ++ rest) (hst : Stands within t)
    (hw : White env w) (hi : rest = [] ∨ ¬ Indents within w) (hr : ∀ c, rest.head? = some c → env.ws c = false) :
    ∃ t', wsLines env t = (t', .blank) ∧ t'.rest = rest ∧ Stands false t' := by
  cases he : wsLines env t with
  | mk t' lt =>
    obtain ⟨w', w1, w2, w3, w4, w5⟩ := wsLines_reads ha he hst
    obtain ⟨rfl, rfl⟩ := white_split (ht.symm.trans w1) hw w2 hr w3
    cases lt with
    | blank => exact ⟨t', rfl, rfl, (w5 rfl).2⟩
    | indented =>
      obtain ⟨k1, k2, _⟩ := w4 rfl
      rcases hi with hi | hi
      · exact absurd hi k2
      · exact absurd k1 hi

theorem wsLines_cons {env : Env} (ha : env.AsciiChars) {t : Tok} {within : Bool} {w s : Str} (ht : t.rest = w ++ s) (hst : Stands within t)
    (hw : White env w) (hi : Indents within w) (hs : ∃ c, s.head? = some c ∧ env.ws c = false) :
    ∃ t', wsLines env t = (t', .indented) ∧ t'.rest = s ∧ t'.col ≠ 0 := by
  obtain ⟨c, hc, hcw⟩ := hs
  have hs' : ∀ x, s.head? = some x → env.ws x = false := by
    intro x hx; rw [hc] at hx; rw [← Option.some.inj hx]; exact hcw
  cases he : wsLines env t with
  | mk t' lt =>
    obtain ⟨w', w1, w2, w3, w4, w5⟩ := wsLines_reads ha he hst
    obtain ⟨rfl, rfl⟩ := white_split (ht.symm.trans w1) hw w2 hs' w3
    cases lt with
    | indented => exact ⟨t', rfl, rfl, (w4 rfl).2.2⟩
    | blank =>
      rcases (w5 rfl).1 with h | h
      · rw [h] at hc; cases hc
      · exact absurd hi h

/-- The lines of a transaction are read if they have their form. -/
theorem txnLines_exact {env : Env} (ha : env.AsciiChars) {tt : TType} {payee : Option Str} {within : Bool} {text rest : Str} {xs : List TxnLine}
    (h : TakesIndented env (TakesTxnLine env (tt == .automated) payee) within text xs rest) :
    ∃ N, ∀ fuel, N ≤ fuel → ∀ n, N ≤ n → ∀ (txn : Txn RawPosting) (t : Tok), txn.ttype = tt → txn.payee = payee → t.rest = text →
      t.rest <:+ t.content → Stands within t → (1 ≤ t.line ∨ t.rest = []) →
      ∃ t', txnLines env fuel n txn t = .ok (xs.foldl addLine txn, t') ∧ t'.rest = rest ∧ Stands false t' := by
  induction h with
  | done h1 h2 h3 =>
    refine ⟨1, fun fuel _ n hn txn t _ _ ht hs hst _ => ?_⟩
    obtain ⟨n, rfl⟩ : ∃ m, n = m + 1 := ⟨n - 1, by omega⟩
    obtain ⟨t', k1, k2, k3⟩ := wsLines_done ha ht hst h1 h2 h3
    exact ⟨t', by rw [txnLines, k1]; rfl, k2, k3⟩
  | @cons within next w s r rest x xs h1 h2 h3 h4 h5 ih =>
    obtain ⟨N, ih⟩ := ih
    cases h4 with
    | @posting _ p hp =>
      obtain ⟨M, hM⟩ := posting_exact ha hp
      refine ⟨max (N + 1) M, fun fuel hf n hn txn t htt hpy ht hs hst hl => ?_⟩
      subst htt hpy
      obtain ⟨n, rfl⟩ : ∃ m, n = m + 1 := ⟨n - 1, by omega⟩
      obtain ⟨t1, k1, k2, k3⟩ := wsLines_cons ha ht hst h1 h2 h3
      have hstep := wsLines_step' k1
      obtain ⟨c, r', hc, hcw, hcn, hcs⟩ : ∃ c r', s = c :: r' ∧ env.ws c = false ∧ env.numeric c = false ∧ c ≠ ';' := by
        cases hp with
        | account h => obtain ⟨c, r, rfl, h'⟩ := account_head ha h; exact ⟨c, _, rfl, h'⟩
        | amounts h _ _ _ _ => obtain ⟨c, r, rfl, h'⟩ := account_head ha h; exact ⟨c, _, rfl, h'⟩
      have hl1 : 1 ≤ t.line := by
        rcases hl with hl | hl
        · exact hl
        · rw [ht, hc] at hl; simp at hl
      obtain ⟨t2, p1, p2, p3⟩ := hM fuel (by omega) t1 k2 (hstep.suffix hs) (hl1.trans hstep.line_le)
      have hpt := posting_takes ha fuel txn.ttype txn.payee (by rw [k2, hc]) hcw hcn hcs (hstep.suffix hs) p1
      have hwk := ((parsePosting_step ha fuel txn.ttype txn.payee t1 (hstep.suffix hs)).2 _ _ p1).1
      obtain ⟨t', q1, q2, q3⟩ := ih fuel (by omega) n (by omega) { txn with postings := txn.postings ++ [p] } t2 rfl rfl p2
        ((hstep.weak.trans hwk).suffix hs) (.of hpt.2) p3
      refine ⟨t', ?_, q2, q3⟩
      rw [txnLines, k1]
      simp only [k2, hc, if_neg hcs, hcn, Bool.false_eq_true, if_false, p1]
      exact q1
    | @comment b c _ c1 c2 c3 =>
      refine ⟨N + 1, fun fuel hf n hn txn t htt hpy ht hs hst hl => ?_⟩
      obtain ⟨n, rfl⟩ : ∃ m, n = m + 1 := ⟨n - 1, by omega⟩
      obtain ⟨t1, k1, k2, k3⟩ := wsLines_cons ha ht hst h1 h2 h3
      have hstep := wsLines_step' k1
      obtain ⟨r', hr'⟩ : ∃ r', s = ';' :: r' := by
        rcases c1.2 with h | ⟨h, _⟩
        · exact ⟨_, h⟩
        · exact ⟨_, h⟩
      have hl1 : 1 ≤ t.line := by
        rcases hl with hl | hl
        · exact hl
        · rw [ht, hr'] at hl; simp at hl
      have hce := comment_exact (t := t1) (by rw [k2]; exact c1) c2 c3
      have hcs := (commentTok_step (env := env) (t := t1) (by rw [k2, hr']) (by decide)).1
      obtain ⟨_, _, _, _, _, _, hcol⟩ := comment_takes (env := env) (t := t1) (by rw [k2, hr']) (by decide)
      obtain ⟨t', q1, q2, q3⟩ := ih fuel (by omega) n (by omega) (addLine txn (.comment c)) (commentTok env t1).2
        (by rw [addLine]; split <;> exact htt) (by rw [addLine]; split <;> exact hpy) hce.2 ((hstep.trans hcs).suffix hs)
        (.line hcol) (.inl (hl1.trans (hstep.trans hcs).line_le))
      refine ⟨t', ?_, q2, q3⟩
      rw [txnLines, k1]
      simp only [k2, hr', if_true, hce.1]
      rw [List.foldl_cons, ← q1, addLine]
      split
      · next h0 => simp only [h0]
      · rfl

/-! ### Directives -/

/-- The rest of a line after its first character. -/
theorem propComment_exact {env : Env} {t : Tok} {l r : Str} (h : TakesLine t.rest (';' :: l) r) :
    (getLine t).2.rest = r ∧ (commentTok env t).2.rest = r := by
  refine ⟨(line_exact h).2, ?_⟩
  have hb : Blanks env (l.takeWhile env.blank) := blanks_of takeWhile_blank
  have e : l = l.takeWhile env.blank ++ l.dropWhile env.blank := List.takeWhile_append_dropWhile.symm
  have hn : '\n' ∉ l := fun hm => h.1 (by simp [hm])
  refine (comment_exact (m := ';') (b := l.takeWhile env.blank) (c := l.dropWhile env.blank) ?_ hb ?_).2
  · rw [List.cons_append, ← e]; exact h
  · intro x hx
    have hxl : x ∈ l := (List.dropWhile_suffix _).subset (List.mem_of_head? hx)
    have hxn : x ≠ '\n' := by rintro rfl; exact hn hxl
    have := List.head?_dropWhile_not (p := env.blank) (l := l)
    rw [hx] at this
    simpa [Env.blank, hxn] using this

/-- What the tokenizer does at a property that has its form. -/
theorem property_exact {env : Env} (ha : env.AsciiChars) {flags words : List Str} (hf : [] ∉ flags) (hw : [] ∉ words) {t : Tok} {x : Property}
    {next : Bool} {s r : Str} (h : TakesProperty env flags words s x next r) (ht : t.rest = s) (hh : ∃ c, s.head? = some c ∧ env.ws c = false)
    (hc : t.col ≠ 0) :
    (x = .comment ∧ t.rest.head? = some ';' ∧ ((getLine t).2.rest = r ∧ Stands next (getLine t).2) ∧
      ((commentTok env t).2.rest = r ∧ Stands next (commentTok env t).2)) ∨
    (∃ w ∈ flags, x = .flag w ∧ t.rest.head? ≠ some ';' ∧ (getString env t).1 = w ∧ (getString env t).2.rest = r ∧
      Stands next (getString env t).2) ∨
    (∃ w ∈ words, ∃ y, x = .value w y ∧ t.rest.head? ≠ some ';' ∧ (getString env t).1 = w ∧ (lineTrim env (getString env t).2).1 = y ∧
      (lineTrim env (getString env t).2).2.rest = r ∧ Stands next (lineTrim env (getString env t).2).2) := by
  obtain ⟨c0, hc0, hcw⟩ := hh
  have hws : ∀ c, t.rest.head? = some c → env.ws c = false := by
    intro c h; rw [ht, hc0] at h; rw [← Option.some.inj h]; exact hcw
  have hv : ∀ {v w b k : Str}, ReadsWord env v w b → w ≠ [] → t.rest = v ++ k → t.rest.head? ≠ some ';' := by
    intro v w b k hr hw0 e hs
    cases v with
    | nil => exact hw0 (readsWord_nil hr rfl)
    | cons y v =>
      rw [e] at hs
      exact (readsWord_head ha hr y rfl).2 (Option.some.inj hs)
  have heb : EndsBlanks env t.rest := endsBlanks_of hws
  cases h with
  | @comment _ l _ h =>
    rw [← ht] at h
    have hd : t.rest.head? = some ';' := by
      rcases h.2 with h | ⟨h, _⟩ <;> rw [h] <;> rfl
    have := propComment_exact (env := env) h
    exact .inl ⟨rfl, hd, ⟨this.1, (lineComment_takes (env := env) [] [] hd).2⟩, this.2, (tokComment_takes (env := env) [] [] hd).2⟩
  | @flag v w b _ h h1 h2 h3 =>
    obtain ⟨k1, k2⟩ := word_exact ha ht h heb h2 h3
    exact .inr (.inl ⟨w, h1, rfl, hv h (fun e => hf (e ▸ h1)) (by rw [ht, List.append_assoc]), k1, k2,
      (flag_takes ha flags words hws hc (by rw [k1]; exact h1)).2⟩)
  | @value v w b s b1 y b2 _ h h1 h2 h3 h4 h5 h6 h7 =>
    obtain ⟨k1, k2⟩ := word_exact ha ht h heb h2 h3
    have hl := line_exact (t := (getString env t).2) (by rw [k2]; exact h4)
    refine .inr (.inr ⟨w, h1, y, rfl, hv h (fun e => hw (e ▸ h1)) (by rw [ht, List.append_assoc]), k1, ?_, hl.2,
      (value_takes ha flags words hws (by rw [k1]; exact h1)).2⟩)
    show trim env (getLine (getString env t).2).1 = y
    rw [hl.1]
    exact trim_wrap (fun c hc => (h5 c hc).1) h6 (fun c hc => (h7 c hc).1)

/-- The properties of an account are read if they have their form. -/
theorem accountLines_exact {env : Env} (ha : env.AsciiChars) {within : Bool} {text rest : Str} {ps : List Property}
    (h : TakesIndented env (TakesProperty env ["default".toList]
      ["note".toList, "isin".toList, "alias".toList, "check".toList, "assert".toList, "payee".toList]) within text ps rest) :
    (∀ x ∈ propertyTexts "payee" ps, env.rxOk x = true) →
    ∃ N, ∀ n, N ≤ n → ∀ (a : AccountDef) (t : Tok), t.rest = text → Stands within t →
      ∃ t', accountLines env n a t = .ok (.ok (ps.foldl addAccountProperty a), t') ∧ t'.rest = rest ∧ Stands false t' := by
  induction h with
  | done h1 h2 h3 =>
    refine fun _ => ⟨1, fun n hn a t ht hst => ?_⟩
    obtain ⟨n, rfl⟩ : ∃ m, n = m + 1 := ⟨n - 1, by omega⟩
    obtain ⟨t', k1, k2, k3⟩ := wsLines_done ha ht hst h1 h2 h3
    exact ⟨t', by rw [accountLines, k1]; rfl, k2, k3⟩
  | @cons within next w s r rest x xs h1 h2 h3 h4 h5 ih =>
    intro hrx
    obtain ⟨N, ih⟩ := ih (fun y hy => hrx y (by
      cases x with
      | comment => exact hy
      | flag z => exact hy
      | value z u => rw [propertyTexts_value]; split <;> simp [hy]))
    refine ⟨N + 1, fun n hn a t ht hst => ?_⟩
    obtain ⟨n, rfl⟩ : ∃ m, n = m + 1 := ⟨n - 1, by omega⟩
    obtain ⟨t1, k1, k2, k3⟩ := wsLines_cons ha ht hst h1 h2 h3
    have go : ∀ t2 : Tok, t2.rest = r → Stands next t2 → accountLines env (n + 1) a t = accountLines env n (addAccountProperty a x) t2 →
        ∃ t', accountLines env (n + 1) a t = .ok (.ok ((x :: xs).foldl addAccountProperty a), t') ∧ t'.rest = rest ∧ Stands false t' := by
      intro t2 e1 e2 e3
      obtain ⟨t', q1, q2, q3⟩ := ih n (by omega) (addAccountProperty a x) t2 e1 e2
      exact ⟨t', e3.trans q1, q2, q3⟩
    rcases property_exact ha (by decide) (by decide) h4 k2 h3 k3 with ⟨rfl, g1, ⟨g2, g3⟩, _⟩ | ⟨w, hw, rfl, g1, g2, g3, g4⟩ |
      ⟨w, hw, y, rfl, g1, g2, g3, g4, g5⟩
    · exact go _ g2 g3 (by rw [accountLines, k1]; simp only [g1, if_true]; rfl)
    · simp only [List.mem_cons, List.not_mem_nil, or_false] at hw
      refine go _ g3 g4 ?_
      rw [accountLines, k1]
      simp only [if_neg g1, g2]
      subst hw
      rfl
    · refine go _ g4 g5 ?_
      have hok : w = "payee".toList → env.rxOk y = true := by
        intro e
        refine hrx y ?_
        rw [propertyTexts_value, if_pos e]
        simp
      rw [accountLines, k1]
      simp only [if_neg g1, g2, g3]
      simp only [List.mem_cons, List.not_mem_nil, or_false] at hw
      rcases hw with rfl | rfl | rfl | rfl | rfl | rfl
      · rfl
      · rfl
      · rfl
      · rfl
      · rfl
      · rw [if_neg (by decide), if_neg (by decide), if_pos rfl, if_pos (hok rfl)]
        rfl

/-- The properties of a commodity are read if they have their form. -/
theorem commodityLines_exact {env : Env} (ha : env.AsciiChars) {within : Bool} {text rest : Str} {ps : List Property}
    (h : TakesIndented env (TakesProperty env ["default".toList] ["note".toList, "alias".toList, "format".toList]) within text ps rest) :
    ∃ N, ∀ n, N ≤ n → ∀ (a : CurrencyDef) (t : Tok), t.rest = text → Stands within t →
      ∃ t', commodityLines env n a t = .ok (.ok (ps.foldl addCurrencyProperty a), t') ∧ t'.rest = rest ∧ Stands false t' := by
  induction h with
  | done h1 h2 h3 =>
    refine ⟨1, fun n hn a t ht hst => ?_⟩
    obtain ⟨n, rfl⟩ : ∃ m, n = m + 1 := ⟨n - 1, by omega⟩
    obtain ⟨t', k1, k2, k3⟩ := wsLines_done ha ht hst h1 h2 h3
    exact ⟨t', by rw [commodityLines, k1]; rfl, k2, k3⟩
  | @cons within next w s r rest x xs h1 h2 h3 h4 h5 ih =>
    obtain ⟨N, ih⟩ := ih
    refine ⟨N + 1, fun n hn a t ht hst => ?_⟩
    obtain ⟨n, rfl⟩ : ∃ m, n = m + 1 := ⟨n - 1, by omega⟩
    obtain ⟨t1, k1, k2, k3⟩ := wsLines_cons ha ht hst h1 h2 h3
    have go : ∀ t2 : Tok, t2.rest = r → Stands next t2 → commodityLines env (n + 1) a t = commodityLines env n (addCurrencyProperty a x) t2 →
        ∃ t', commodityLines env (n + 1) a t = .ok (.ok ((x :: xs).foldl addCurrencyProperty a), t') ∧ t'.rest = rest ∧ Stands false t' := by
      intro t2 e1 e2 e3
      obtain ⟨t', q1, q2, q3⟩ := ih n (by omega) (addCurrencyProperty a x) t2 e1 e2
      exact ⟨t', e3.trans q1, q2, q3⟩
    rcases property_exact ha (by decide) (by decide) h4 k2 h3 k3 with ⟨rfl, g1, _, g2, g3⟩ | ⟨w, hw, rfl, g1, g2, g3, g4⟩ |
      ⟨w, hw, y, rfl, g1, g2, g3, g4, g5⟩
    · exact go _ g2 g3 (by rw [commodityLines, k1]; simp only [g1, if_true]; rfl)
    · simp only [List.mem_cons, List.not_mem_nil, or_false] at hw
      refine go _ g3 g4 ?_
      rw [commodityLines, k1]
      simp only [if_neg g1, g2]
      subst hw
      rfl
    · refine go _ g4 g5 ?_
      rw [commodityLines, k1]
      simp only [if_neg g1, g2, g3]
      simp only [List.mem_cons, List.not_mem_nil, or_false] at hw
      rcases hw with rfl | rfl | rfl <;> rfl

/-- The properties of a payee are read if they have their form. -/
theorem payeeLines_exact {env : Env} (ha : env.AsciiChars) {within : Bool} {text rest : Str} {ps : List Property}
    (h : TakesIndented env (TakesProperty env [] ["alias".toList]) within text ps rest) :
    ∃ N, ∀ n, N ≤ n → ∀ (a : List Str) (t : Tok), t.rest = text → Stands within t →
      ∃ t', payeeLines env n a t = .ok (.ok (ps.foldl addPayeeProperty a), t') ∧ t'.rest = rest ∧ Stands false t' := by
  induction h with
  | done h1 h2 h3 =>
    refine ⟨1, fun n hn a t ht hst => ?_⟩
    obtain ⟨n, rfl⟩ : ∃ m, n = m + 1 := ⟨n - 1, by omega⟩
    obtain ⟨t', k1, k2, k3⟩ := wsLines_done ha ht hst h1 h2 h3
    exact ⟨t', by rw [payeeLines, k1]; rfl, k2, k3⟩
  | @cons within next w s r rest x xs h1 h2 h3 h4 h5 ih =>
    obtain ⟨N, ih⟩ := ih
    refine ⟨N + 1, fun n hn a t ht hst => ?_⟩
    obtain ⟨n, rfl⟩ : ∃ m, n = m + 1 := ⟨n - 1, by omega⟩
    obtain ⟨t1, k1, k2, k3⟩ := wsLines_cons ha ht hst h1 h2 h3
    have go : ∀ t2 : Tok, t2.rest = r → Stands next t2 → payeeLines env (n + 1) a t = payeeLines env n (addPayeeProperty a x) t2 →
        ∃ t', payeeLines env (n + 1) a t = .ok (.ok ((x :: xs).foldl addPayeeProperty a), t') ∧ t'.rest = rest ∧ Stands false t' := by
      intro t2 e1 e2 e3
      obtain ⟨t', q1, q2, q3⟩ := ih n (by omega) (addPayeeProperty a x) t2 e1 e2
      exact ⟨t', e3.trans q1, q2, q3⟩
    rcases property_exact ha (by decide) (by decide) h4 k2 h3 k3 with ⟨rfl, g1, _, g2, g3⟩ | ⟨w, hw, _⟩ |
      ⟨w, hw, y, rfl, g1, g2, g3, g4, g5⟩
    · exact go _ g2 g3 (by rw [payeeLines, k1]; simp only [g1, if_true]; rfl)
    · cases hw
    · refine go _ g4 g5 ?_
      rw [payeeLines, k1]
      simp only [if_neg g1, g2, g3]
      simp only [List.mem_cons, List.not_mem_nil, or_false] at hw
      subst hw
      rfl

/-- The properties of a tag are read if they have their form and there is no comment. -/
theorem tagLines_exact {env : Env} (ha : env.AsciiChars) {within : Bool} {text rest : Str} {ps : List Property}
    (h : TakesIndented env (TakesProperty env [] ["check".toList, "assert".toList]) within text ps rest) :
    (∀ p ∈ ps, ∃ w x, p = .value w x) →
    ∃ N, ∀ n, N ≤ n → ∀ (t : Tok), t.rest = text → Stands within t →
      ∃ t', tagLines env n t = .ok (.ok (), t') ∧ t'.rest = rest ∧ Stands false t' := by
  induction h with
  | done h1 h2 h3 =>
    refine fun _ => ⟨1, fun n hn t ht hst => ?_⟩
    obtain ⟨n, rfl⟩ : ∃ m, n = m + 1 := ⟨n - 1, by omega⟩
    obtain ⟨t', k1, k2, k3⟩ := wsLines_done ha ht hst h1 h2 h3
    exact ⟨t', by rw [tagLines, k1], k2, k3⟩
  | @cons within next w s r rest x xs h1 h2 h3 h4 h5 ih =>
    intro hv
    obtain ⟨N, ih⟩ := ih (fun p hp => hv p (List.mem_cons_of_mem _ hp))
    refine ⟨N + 1, fun n hn t ht hst => ?_⟩
    obtain ⟨n, rfl⟩ : ∃ m, n = m + 1 := ⟨n - 1, by omega⟩
    obtain ⟨t1, k1, k2, k3⟩ := wsLines_cons ha ht hst h1 h2 h3
    rcases property_exact ha (by decide) (by decide) h4 k2 h3 k3 with ⟨rfl, _⟩ | ⟨w, hw, _⟩ |
      ⟨w, hw, y, rfl, g1, g2, g3, g4, g5⟩
    · obtain ⟨_, _, e⟩ := hv _ List.mem_cons_self
      cases e
    · cases hw
    · obtain ⟨t', q1, q2, q3⟩ := ih n (by omega) _ g4 g5
      refine ⟨t', ?_, q2, q3⟩
      rw [tagLines, k1]
      simp only [if_neg g1, g2]
      rw [if_pos (by simpa using hw)]
      exact q1

theorem directiveName_exact {word line name : Str} (h : ReadsDirective word line name) : directiveName word line = some name := by
  obtain ⟨pre, b, h1, h2, h3, h4, _, h5⟩ := h
  clear * - h1 h2 h3 h4 h5
  have hdw : (b ++ name).dropWhile (· == ' ') = name := by
    rw [List.dropWhile_append_of_pos (by intro c hc; simpa using h2 c hc)]
    cases name with
    | nil => rfl
    | cons c n =>
      rw [List.dropWhile_cons_of_neg]
      simpa using h4
  obtain ⟨b', rfl⟩ : ∃ b', b = ' ' :: b' := by
    cases b with
    | nil => exact absurd rfl h3
    | cons c b' => exact ⟨b', by rw [h2 c List.mem_cons_self]⟩
  induction pre generalizing line with
  | nil =>
    have hp : (word ++ [' ']).isPrefixOf line = true := by
      rw [List.isPrefixOf_iff_prefix, h1]
      exact ⟨b' ++ name, by simp⟩
    cases line with
    | nil => simp at h1
    | cons c s =>
      rw [directiveName, if_pos hp, h1]
      simp only [List.nil_append, List.append_assoc, List.drop_left]
      rw [hdw]
  | cons c pre ih =>
    rw [h1]
    simp only [List.cons_append]
    rw [directiveName, if_neg]
    · exact ih (fun hi => h5 (by rw [List.cons_append]; exact hi.trans (List.suffix_cons _ _).isInfix)) rfl
    · intro hp
      rw [List.isPrefixOf_iff_prefix] at hp
      apply h5
      have e : c :: (pre ++ word ++ ' ' :: b' ++ name) = (c :: pre ++ word) ++ (' ' :: b' ++ name) := by simp
      rw [e] at hp
      refine (List.prefix_of_prefix_length_le hp (List.prefix_append _ _) ?_).isInfix
      simp

/-! ### Journals -/

theorem getLine_down (t : Tok) : 1 ≤ (getLine t).2.line ∨ (getLine t).2.rest = [] := by
  rcases getLine_cases t with ⟨_, h⟩ | ⟨l, r, _, _, h⟩
  · exact .inr (by rw [h])
  · exact .inl (by rw [h]; simp)

theorem takesLine_starts {s l r : Str} {c : Char} (h : TakesLine s l r) (hl : l.head? = some c) : s.head? = some c := by
  obtain ⟨_, k | ⟨k, _⟩⟩ := h
  · rw [k]
    cases l with
    | nil => cases hl
    | cons x l => exact hl
  · rw [k]; exact hl

/-- An include directive does what `included` says. -/
def IncExact (inc : Tok → PRes (ParsedLedger × Tok)) (x : Str) (pl : ParsedLedger) : Prop :=
  ∀ t r, TakesLine t.rest ("include ".toList ++ x) r → ∃ t', inc t = .ok (pl, t') ∧ t'.rest = r ∧ Stands false t'

/-- An item is read if it has its form. -/
theorem item_exact {env : Env} (ha : env.AsciiChars) (included : Str → ParsedLedger) {s rest : Str} {b : Block} (h : TakesItem env s b rest) :
    ∃ N, ∀ fuel, N ≤ fuel → ∀ (inc : Tok → PRes (ParsedLedger × Tok)), (∀ x, b = .incl x → IncExact inc x (included x)) →
      ∀ (c : Char) (pl : ParsedLedger) (t : Tok), s.head? = some c → t.rest = s → t.rest <:+ t.content →
        ∃ t', item env fuel inc c pl t = .ok (addBlock env included pl b, t') ∧ t'.rest = rest ∧ Stands false t' := by
  have hnum : ∀ c : Char, c.toNat < 128 → ¬ ('0' ≤ c ∧ c ≤ '9') → ¬ env.numeric c = true := fun c h1 h2 h3 => h2 ((ha.numeric c h1).mp h3)
  have hline : ∀ {t : Tok} {l r : Str}, t.rest = s → TakesLine s l r → t.rest <:+ t.content →
      (getLine t).1 = l ∧ (getLine t).2.rest = r ∧ Stands false (getLine t).2 ∧ (getLine t).2.rest <:+ (getLine t).2.content := by
    intro t l r ht hl hs
    rw [← ht] at hl
    obtain ⟨k1, k2⟩ := line_exact hl
    obtain ⟨_, _, _, k3⟩ := line_takes (t := t)
    exact ⟨k1, k2, .line k3, (getLine_step t).suffix hs⟩
  cases h with
  | @comment m _ b c _ h1 h2 h3 h4 =>
    refine ⟨0, fun fuel _ inc _ x pl t hx ht hs => ?_⟩
    have : some m = some x := (takesLine_starts h2 rfl).symm.trans hx
    cases this
    rw [← ht] at h2
    obtain ⟨k1, k2⟩ := comment_exact (env := env) h2 h3 h4
    have hmn : m ≠ '\n' := by rintro rfl; exact absurd h1 (by decide)
    obtain ⟨r0, hr0⟩ : ∃ r0, t.rest = m :: r0 := by
      have := takesLine_starts h2 (c := m) rfl
      cases hr : t.rest with
      | nil => rw [hr] at this; cases this
      | cons y r0 => rw [hr] at this; cases this; exact ⟨r0, rfl⟩
    obtain ⟨_, _, _, _, _, _, c5⟩ := comment_takes (env := env) hr0 hmn
    refine ⟨(commentTok env t).2, ?_, k2, .line c5⟩
    unfold item
    rw [if_pos h1]
    simp only [k1]
    rfl
  | @price _ l _ p h1 h2 =>
    refine ⟨0, fun fuel _ inc _ x pl t hx ht hs => ?_⟩
    obtain ⟨k1, k2, k3, _⟩ := hline ht h1 hs
    have : some 'P' = some x := (takesLine_starts h1 (by cases h2; rfl)).symm.trans hx
    cases this
    refine ⟨_, ?_, k2, k3⟩
    unfold item
    rw [if_neg (by decide), if_neg (hnum _ (by decide) (by decide)), if_neg (by decide), if_neg (by decide), if_neg (by decide),
      if_neg (by decide), if_neg (by decide), if_neg (by decide), if_pos rfl]
    unfold priceTok
    simp only
    rw [k1, parsePrice_iff.mpr h2]
    rfl
  | @txn _ l r _ t0 xs h1 h2 h3 h4 =>
    have ht0 := (parseHeader_iff ha).mpr h3
    obtain ⟨_, _, i3, i4⟩ := parseHeader_inv ht0
    have h4' : TakesIndented env (TakesTxnLine env (t0.ttype == .automated) t0.payee) false r xs rest := by rw [i3]; exact h4
    obtain ⟨N, hN⟩ := txnLines_exact ha h4'
    refine ⟨N, fun fuel hf inc _ x pl t hx ht hs => ?_⟩
    obtain ⟨k1, k2, k3, k4⟩ := hline ht h1 hs
    obtain ⟨y, hy, hyn⟩ := h2
    have : y = x := Option.some.inj ((takesLine_starts h1 hy).symm.trans hx)
    subst this
    obtain ⟨t', q1, q2, q3⟩ := hN fuel hf fuel hf t0 _ rfl rfl k2 k4 k3 (getLine_down t)
    refine ⟨t', ?_, q2, q3⟩
    have hyc : y ∉ [';', '!', '*', '%', '#'] := by
      intro hm
      simp only [List.mem_cons, List.not_mem_nil, or_false] at hm
      rcases hm with rfl | rfl | rfl | rfl | rfl <;> exact hnum _ (by decide) (by decide) hyn
    unfold item
    rw [if_neg hyc, if_pos hyn]
    unfold transactionTok
    simp only
    rw [k1, ht0]
    simp only
    rw [q1, addLines_eq xs t0 i4]
    rfl
  | @auto _ d r _ xs h1 h2 =>
    obtain ⟨N, hN⟩ := txnLines_exact (tt := .automated) ha h2
    refine ⟨N, fun fuel hf inc _ x pl t hx ht hs => ?_⟩
    obtain ⟨k1, k2, k3, k4⟩ := hline ht h1 hs
    have : some '=' = some x := (takesLine_starts h1 rfl).symm.trans hx
    cases this
    obtain ⟨t', q1, q2, q3⟩ := hN fuel hf fuel hf { ttype := .automated, description := d } _ rfl rfl k2 k4 k3 (getLine_down t)
    refine ⟨t', ?_, q2, q3⟩
    unfold item
    rw [if_neg (by decide), if_neg (hnum _ (by decide) (by decide)), if_pos rfl]
    unfold automatedTok
    simp only
    rw [k1]
    simp only [List.dropWhile_cons, bne_self_eq_false, Bool.false_eq_true, if_false]
    rw [q1, addLines_eq xs _ rfl]
    rfl
  | @account _ l b n b' r _ ps h1 h2 h3 h4 h5 h6 h7 =>
    obtain ⟨N, hN⟩ := accountLines_exact ha h6 h7
    refine ⟨N, fun fuel hf inc _ x pl t hx ht hs => ?_⟩
    obtain ⟨k1, k2, k3, k4⟩ := hline ht h1 hs
    have : some 'a' = some x := (takesLine_starts h1 (by obtain ⟨_, _, _, _, _, _, e, _⟩ := h2; rw [e]; rfl)).symm.trans hx
    cases this
    obtain ⟨t', q1, q2, q3⟩ := hN fuel hf { name := n } _ k2 k3
    refine ⟨t', ?_, q2, q3⟩
    unfold item
    rw [if_neg (by decide), if_neg (hnum _ (by decide) (by decide)), if_neg (by decide), if_neg (by decide), if_neg (by decide),
      if_neg (by decide), if_neg (by decide), if_pos rfl]
    unfold accountTok
    simp only
    rw [k1, directiveName_exact h2]
    simp only
    rw [trim_wrap (fun c hc => (h3 c hc).1) h4 (fun c hc => (h5 c hc).1), q1, addAccount_fold, ← distinct_eq]
    simp only [List.nil_append, Bool.false_or]
    rfl
  | @commodity _ l b n b' r _ ps h1 h2 h3 h4 h5 h6 =>
    obtain ⟨N, hN⟩ := commodityLines_exact ha h6
    refine ⟨N, fun fuel hf inc _ x pl t hx ht hs => ?_⟩
    obtain ⟨k1, k2, k3, k4⟩ := hline ht h1 hs
    have : some 'c' = some x := (takesLine_starts h1 (by cases h2; rfl)).symm.trans hx
    cases this
    obtain ⟨t', q1, q2, q3⟩ := hN fuel hf { name := n } _ k2 k3
    refine ⟨t', ?_, q2, q3⟩
    unfold item
    rw [if_neg (by decide), if_neg (hnum _ (by decide) (by decide)), if_neg (by decide), if_neg (by decide), if_pos rfl]
    unfold commodityTok
    simp only
    rw [k1, parseCommodityName_iff.mpr h2]
    simp only
    rw [trim_wrap h3 h4 h5, q1, addCurrency_fold, ← distinct_eq]
    simp only [Bool.false_or]
    rfl
  | @payee _ l n r _ ps h1 h2 h3 h4 =>
    obtain ⟨N, hN⟩ := payeeLines_exact ha h3
    refine ⟨N, fun fuel hf inc _ x pl t hx ht hs => ?_⟩
    obtain ⟨k1, k2, k3, k4⟩ := hline ht h1 hs
    have : some 'p' = some x := (takesLine_starts h1 (by obtain ⟨_, _, _, _, _, _, e, _⟩ := h2; rw [e]; rfl)).symm.trans hx
    cases this
    obtain ⟨t', q1, q2, q3⟩ := hN fuel hf [] _ k2 k3
    refine ⟨t', ?_, q2, q3⟩
    unfold item
    rw [if_neg (by decide), if_neg (hnum _ (by decide) (by decide)), if_neg (by decide), if_neg (by decide), if_neg (by decide),
      if_pos rfl]
    unfold payeeTok
    simp only
    rw [k1, directiveName_exact h2]
    simp only
    rw [q1, addPayee_fold, ← distinct_eq]
    simp only
    rw [if_pos (List.all_eq_true.mpr (fun x hx => h4 x (mem_distinct.mp hx)))]
    rfl
  | @tag _ l b n b' r _ ps h1 h2 h3 h4 h5 h6 h7 =>
    obtain ⟨N, hN⟩ := tagLines_exact ha h6 h7
    refine ⟨N, fun fuel hf inc _ x pl t hx ht hs => ?_⟩
    obtain ⟨k1, k2, k3, k4⟩ := hline ht h1 hs
    have : some 't' = some x := (takesLine_starts h1 (by obtain ⟨_, _, _, _, _, _, e, _⟩ := h2; rw [e]; rfl)).symm.trans hx
    cases this
    obtain ⟨t', q1, q2, q3⟩ := hN fuel hf _ k2 k3
    refine ⟨t', ?_, q2, q3⟩
    unfold item
    rw [if_neg (by decide), if_neg (hnum _ (by decide) (by decide)), if_neg (by decide), if_neg (by decide), if_neg (by decide),
      if_neg (by decide), if_pos rfl]
    unfold tagTok
    simp only
    rw [k1, directiveName_exact h2]
    simp only
    rw [q1]
    simp only
    rw [trim_wrap (fun c hc => (h3 c hc).1) h4 (fun c hc => (h5 c hc).1)]
    rfl
  | @incl _ y _ h1 =>
    refine ⟨0, fun fuel _ inc hi x pl t hx ht hs => ?_⟩
    have : some 'i' = some x := (takesLine_starts h1 rfl).symm.trans hx
    cases this
    obtain ⟨t', q1, q2, q3⟩ := hi y rfl t rest (by rw [ht]; exact h1)
    refine ⟨t', ?_, q2, q3⟩
    unfold item
    rw [if_neg (by decide), if_neg (hnum _ (by decide) (by decide)), if_neg (by decide), if_pos rfl, q1]
    rfl

/-- A journal is read if it has its form. -/
theorem items_exact {env : Env} (ha : env.AsciiChars) (included : Str → ParsedLedger) {text : Str} {bs : List Block}
    (h : TakesJournal env text bs) :
    ∃ N, ∀ fuel, N ≤ fuel → ∀ n, N ≤ n → ∀ (inc : Tok → PRes (ParsedLedger × Tok)), IncStep inc →
      (∀ x, .incl x ∈ bs → IncExact inc x (included x)) →
      ∀ (pl : ParsedLedger) (t : Tok), t.rest = text → t.rest <:+ t.content → Stands false t →
        items env fuel inc n pl t = .ok (bs.foldl (addBlock env included) pl) := by
  induction h with
  | @nil w hw =>
    refine ⟨2, fun fuel _ n hn inc _ _ pl t ht hs hst => ?_⟩
    obtain ⟨n, rfl⟩ : ∃ m, n = m + 2 := ⟨n - 2, by omega⟩
    rw [items]
    by_cases h0 : t.rest = []
    · rw [if_pos h0]; rfl
    · rw [if_neg h0]
      obtain ⟨t', k1, k2, _⟩ := wsLines_done (rest := []) ha (by rw [List.append_nil]; exact ht) hst hw (.inl rfl) (by simp)
      rw [k1]
      simp only [k2]
      rw [items, if_pos k2]
      rfl
  | @cons w s rest b bs h1 h2 h3 h4 h5 ih =>
    obtain ⟨N1, hN1⟩ := item_exact ha included h4
    obtain ⟨N2, ih⟩ := ih
    refine ⟨N1 + N2 + 1, fun fuel hf n hn inc hstep hinc pl t ht hs hst => ?_⟩
    obtain ⟨n, rfl⟩ : ∃ m, n = m + 1 := ⟨n - 1, by omega⟩
    obtain ⟨c, hc, hcw⟩ := h3
    have hcn : c ≠ '\n' := by
      rintro rfl
      rw [ha.wsT (by decide) (by decide)] at hcw; cases hcw
    have h0 : t.rest ≠ [] := by
      rw [ht]
      intro e
      rw [(List.append_eq_nil_iff.mp e).2] at hc
      cases hc
    obtain ⟨t1, k1, k2, k3⟩ := wsLines_done ha ht hst h1 (.inr (by simp [Indents, h2])) (by
      intro x hx; rw [hc] at hx; cases hx; exact hcw)
    have hs1 := (wsLines_step' k1).suffix hs
    obtain ⟨t2, q1, q2, q3⟩ := hN1 fuel (by omega) inc (fun x hx => hinc x (by rw [hx]; exact List.mem_cons_self)) c pl t1 hc k2 hs1
    obtain ⟨r, hr⟩ : ∃ r, t1.rest = c :: r := by
      rw [k2]
      cases s with
      | nil => cases hc
      | cons y r => cases hc; exact ⟨r, rfl⟩
    have hs2 := ((item_step ha fuel hstep pl t1 hs1 hr hcn).2 _ _ q1).1.suffix hs1
    rw [items, if_neg h0, k1]
    simp only [hr, q1]
    rw [ih fuel (by omega) n (by omega) inc hstep (fun x hx => hinc x (List.mem_cons_of_mem _ hx)) _ t2 q2 hs2 q3]
    rfl

theorem includeFiles_exact {tok : Str → PRes ParsedLedger} {content : Str → ParsedLedger} : ∀ (l : List Str) (pl : ParsedLedger),
    (∀ f ∈ l, tok f = .ok (content f)) → includeFiles tok l pl = .ok (l.foldl (fun pl f => pl.append (content f)) pl) := by
  intro l
  induction l with
  | nil => intro pl _; rfl
  | cons f l ih =>
    intro pl h
    rw [includeFiles, h f List.mem_cons_self]
    exact ih _ (fun g hg => h g (List.mem_cons_of_mem _ hg))

/-- An include directive is read if the files it names are. -/
theorem include_exact {fs : Files} {file dir x : Str} {seen : List Str} {tok : Str → PRes ParsedLedger} {content : Str → ParsedLedger}
    {es : List (Option Str)} (hd : fs.parent file = some dir) (hg : fs.glob ((if dir = [] then ['.'] else dir) ++ '/' :: x) = some es)
    (hse : ∀ f, some f ∈ es → f ≠ file ∧ f ∉ seen) (ht : ∀ f, some f ∈ es → tok f = .ok (content f)) :
    IncExact (includeTok fs (some file) (file :: seen) tok) x ((es.filterMap id).foldl (fun pl f => pl.append (content f)) {}) := by
  intro t r hl
  have hl' : ∃ k, t.rest = "include ".toList ++ k ∧ TakesLine k x r := by
    obtain ⟨h1, h2⟩ := hl
    have hx : '\n' ∉ x := fun h => h1 (by simp [h])
    rcases h2 with h2 | ⟨h2, h3⟩
    · exact ⟨_, by rw [h2, List.append_assoc], hx, .inl rfl⟩
    · exact ⟨x, h2, hx, .inr ⟨rfl, h3⟩⟩
  obtain ⟨k, e, hk⟩ := hl'
  let t1 : Tok := { t with rest := t.rest.drop "include ".toList.length, col := t.col + "include ".toList.length }
  have hc : consumeStr "include ".toList t = .ok t1 := by
    unfold consumeStr
    rw [if_pos]
    rw [List.isPrefixOf_iff_prefix, e]
    exact ⟨k, rfl⟩
  have hr : t1.rest = k := by simp only [t1, e, List.drop_left]
  rw [← hr] at hk
  obtain ⟨k1, k2⟩ := line_exact hk
  obtain ⟨_, _, _, k3⟩ := line_takes (t := t1)
  refine ⟨(getLine t1).2, ?_, k2, .line k3⟩
  unfold includeTok
  rw [hc]
  simp only
  rw [k1]
  have hp : includePattern fs (some file) x = .ok ((if dir = [] then ['.'] else dir) ++ '/' :: x) := by
    unfold includePattern
    simp only [hd, List.append_assoc, List.cons_append, List.nil_append]
  rw [hp]
  simp only [hg]
  have hm : ∀ f, f ∈ es.filterMap id ↔ some f ∈ es := by intro f; simp
  rw [if_neg, includeFiles_exact _ _ (fun f hf => ht f ((hm f).mp hf))]
  · rfl
  · simp only [List.any_eq_true, not_exists, not_and]
    intro f hf
    obtain ⟨a1, a2⟩ := hse f ((hm f).mp hf)
    simp [a1, a2]

/-- A bound for all the members of a list. -/
theorem bound_list {α : Type} (P : α → Nat → Prop) : ∀ (l : List α), (∀ x ∈ l, ∃ N, ∀ n, N ≤ n → P x n) →
    ∃ N, ∀ x ∈ l, ∀ n, N ≤ n → P x n := by
  intro l
  induction l with
  | nil => intro _; exact ⟨0, by simp⟩
  | cons y l ih =>
    intro h
    obtain ⟨N1, h1⟩ := h y List.mem_cons_self
    obtain ⟨N2, h2⟩ := ih (fun x hx => h x (List.mem_cons_of_mem _ hx))
    refine ⟨N1 + N2, fun x hx n hn => ?_⟩
    rcases List.mem_cons.mp hx with rfl | hx
    · exact h1 n (by omega)
    · exact h2 x hx n (by omega)

/-- A file is read if it has its form, and so have the files it includes. -/
theorem file_exact {env : Env} (ha : env.AsciiChars) {fs : Files} {seen : List Str} {file : Str} {pl : ParsedLedger}
    (h : Takes env fs seen file pl) :
    ∃ N, ∀ fuel, N ≤ fuel → ∀ depth, N ≤ depth → tokenizeFile env fs fuel depth seen file = .ok pl := by
  induction h with
  | @mk seen file text bs entries content h1 h2 h3 h4 h5 ih =>
    obtain ⟨N0, hN0⟩ := items_exact ha (fun x => ((entries x).filterMap id).foldl (fun pl f => pl.append (content f)) {}) h2
    have hb : ∃ N, ∀ b ∈ bs, ∀ n, N ≤ n → ∀ x, b = .incl x → ∀ f, some f ∈ entries x → ∀ depth, N ≤ depth →
        tokenizeFile env fs n depth (file :: seen) f = .ok (content f) := by
      have : ∃ N, ∀ b ∈ bs, ∀ n, N ≤ n → ∀ x, b = .incl x → ∀ f, some f ∈ entries x → ∀ fuel, n ≤ fuel → ∀ depth, n ≤ depth →
          tokenizeFile env fs fuel depth (file :: seen) f = .ok (content f) := by
        refine bound_list _ bs (fun b hb => ?_)
        cases b with
        | incl x =>
          obtain ⟨N, hN⟩ := bound_list (fun e n => ∀ f, e = some f → ∀ fuel, n ≤ fuel → ∀ depth, n ≤ depth →
            tokenizeFile env fs fuel depth (file :: seen) f = .ok (content f)) (entries x) (by
              intro e he
              cases e with
              | none => exact ⟨0, by simp⟩
              | some f =>
                obtain ⟨N, hN⟩ := ih x hb f he
                exact ⟨N, fun n hn g hg fuel hf depth hd => by cases hg; exact hN fuel (by omega) depth (by omega)⟩)
          exact ⟨N, fun n hn y hy f hf fuel h1 depth h2 => by cases hy; exact hN _ hf n hn f rfl fuel h1 depth h2⟩
        | _ => exact ⟨0, by simp⟩
      obtain ⟨N, hN⟩ := this
      exact ⟨N, fun b hb n hn x hx f hf depth hd => hN b hb N (Nat.le_refl _) x hx f hf n hn depth hd⟩
    obtain ⟨N1, hN1⟩ := hb
    refine ⟨N0 + N1 + 1, fun fuel hf depth hd => ?_⟩
    obtain ⟨depth, rfl⟩ : ∃ m, depth = m + 1 := ⟨depth - 1, by omega⟩
    rw [tokenizeFile, h1]
    simp only
    refine hN0 fuel (by omega) fuel (by omega) _ (fun _ _ _ h => includeTok_step h) (fun x hx => ?_) {} (Tok.ofContent text) rfl
      List.suffix_rfl (.inr (.inr (by simp [Tok.ofContent])))
    obtain ⟨dir, d1, d2⟩ := h3 x hx
    exact include_exact d1 d2 (h4 x hx) (fun f hf' => hN1 _ hx fuel (by omega) x rfl f hf' depth (by omega))

end Dinero
