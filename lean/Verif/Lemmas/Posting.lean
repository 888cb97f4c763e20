import Verif.Lemmas.Include
/-
Lemmas about single postings and their amounts.
-/
namespace Dinero

/-! ### Amounts -/

theorem amountAux_sound {env : Env} (s : Str) : ∀ (dec : Bool) {num : Str} {d n : Nat} {rest : Str},
    amountAux env s dec = some (num, d, n, rest) →
    NumStop env rest ∧ (∀ c ∈ num, c = '-' ∨ env.numeric c = true) ∧
    ((dec = true ∧ s = num ++ rest ∧ d = num.length) ∨
      (dec = false ∧ s = num ++ rest ∧ d = 0) ∨
      (dec = false ∧ ∃ a b, s = a ++ '.' :: b ++ rest ∧ num = a ++ b ∧ d = b.length)) := by
  induction s with
  | nil =>
    intro dec num d n rest h
    cases h
    refine ⟨fun c h => (by cases h), by simp, ?_⟩
    cases dec <;> simp
  | cons c r ih =>
    intro dec num d n rest h
    rw [amountAux] at h
    split at h
    · next hc =>
      subst hc
      split at h
      · cases h
      · next hd =>
        simp only [Bool.not_eq_true] at hd
        subst hd
        obtain ⟨⟨num', d', n', rest'⟩, h1, h2⟩ := Option.map_eq_some_iff.mp h
        simp only [Prod.mk.injEq] at h2
        obtain ⟨rfl, rfl, _, rfl⟩ := h2
        obtain ⟨i1, i2, i3⟩ := ih true h1
        refine ⟨i1, i2, .inr (.inr ⟨rfl, [], num', ?_, rfl, ?_⟩)⟩
        · rcases i3 with ⟨_, rfl, _⟩ | ⟨h, _⟩ | ⟨h, _⟩
          · simp
          · cases h
          · cases h
        · rcases i3 with ⟨_, _, h⟩ | ⟨h, _⟩ | ⟨h, _⟩
          · exact h
          · cases h
          · cases h
    · split at h
      · next hc0 hc =>
        obtain ⟨⟨num', d', n', rest'⟩, h1, h2⟩ := Option.map_eq_some_iff.mp h
        simp only [Prod.mk.injEq] at h2
        obtain ⟨rfl, rfl, _, rfl⟩ := h2
        obtain ⟨i1, i2, i3⟩ := ih dec h1
        refine ⟨i1, ?_, ?_⟩
        · intro x hx
          rcases List.mem_cons.mp hx with rfl | hx
          · exact hc
          · exact i2 x hx
        · rcases i3 with ⟨rfl, rfl, rfl⟩ | ⟨rfl, rfl, rfl⟩ | ⟨rfl, a, b, rfl, rfl, rfl⟩
          · exact .inl ⟨rfl, rfl, by simp⟩
          · exact .inr (.inl ⟨rfl, rfl, by simp⟩)
          · exact .inr (.inr ⟨rfl, c :: a, b, by simp, by simp, by simp⟩)
      · next hc0 hc =>
        cases h
        simp only [not_or, Bool.not_eq_true] at hc
        refine ⟨fun x hx => ?_, by simp, ?_⟩
        · cases hx
          exact ⟨hc0, hc.1, hc.2⟩
        · cases dec <;> simp

theorem natOf_sound {s : Str} {n : Nat} (h : natOf s = some n) : IsDigits s ∧ n = digitsVal s := by
  have hd : IsDigits s := by
    unfold natOf at h
    split at h
    · cases h
    · next h0 =>
      refine ⟨h0, ?_⟩
      clear h0
      have hn : ∀ (s : Str), s.foldl (fun acc c => acc.bind (fun n : Nat =>
          if '0' ≤ c ∧ c ≤ '9' then some (10 * n + (c.toNat - 48)) else none)) none = none := by
        intro s
        induction s with
        | nil => rfl
        | cons c s ih => exact ih
      generalize 0 = m at h
      induction s generalizing m with
      | nil => simp
      | cons c s ih =>
        simp only [List.foldl_cons, Option.bind_some] at h
        split at h
        · next hc =>
          intro x hx
          rcases List.mem_cons.mp hx with rfl | hx
          · exact hc
          · exact ih _ h x hx
        · rw [hn] at h; cases h
  refine ⟨hd, ?_⟩
  have := natOf_digits hd
  rw [this] at h
  exact (Option.some.inj h).symm

/-- What is read as a number. -/
theorem parseAmount_sound {env : Env} (ha : env.AsciiChars) {t : Tok} {q : Rat} (h : (parseAmount env t).1 = .ok q) :
    ∃ s, t.rest = s ++ (parseAmount env t).2.rest ∧ NumStop env (parseAmount env t).2.rest ∧
      (WritesNumber s q ∨ ∃ d, IsDigits d ∧ s = '.' :: '-' :: d ∧
        q = -((digitsVal d : Rat) / (10 ^ (d.length + 1) : Nat))) := by
  unfold parseAmount at h ⊢
  cases he : amountAux env t.rest false with
  | none => rw [he] at h; cases h
  | some x =>
    obtain ⟨num, d, n, rest⟩ := x
    rw [he] at h
    simp only at h ⊢
    obtain ⟨h1, h2, h3⟩ := amountAux_sound _ _ he
    have hplus : ∀ r, num ≠ '+' :: r := by
      rintro r rfl
      rcases h2 '+' (by simp) with h | h
      · exact absurd h (by decide)
      · exact absurd h (by rw [ha.numF (by decide) (by decide)]; decide)
    cases hi : intOf num with
    | none => rw [hi] at h; cases h
    | some i =>
      rw [hi] at h
      simp only [Except.ok.injEq] at h
      subst h
      have hi' : (∃ m, num = '-' :: m ∧ IsDigits m ∧ i = -(digitsVal m : Int)) ∨ (IsDigits num ∧ i = (digitsVal num : Int)) := by
        unfold intOf at hi
        split at hi
        · next m =>
          obtain ⟨n, h4, h5⟩ := Option.map_eq_some_iff.mp hi
          obtain ⟨h6, rfl⟩ := natOf_sound h4
          exact .inl ⟨m, rfl, h6, h5.symm⟩
        · exact absurd rfl (hplus _)
        · obtain ⟨n, h4, h5⟩ := Option.map_eq_some_iff.mp hi
          obtain ⟨h6, rfl⟩ := natOf_sound h4
          exact .inr ⟨h6, h5.symm⟩
      rcases h3 with ⟨h, _⟩ | ⟨_, h3, rfl⟩ | ⟨_, a, b, h3, rfl, rfl⟩
      · cases h
      · refine ⟨num, h3, h1, .inl ?_⟩
        rcases hi' with ⟨m, rfl, hm, rfl⟩ | ⟨hm, rfl⟩
        · have := WritesNumber.neg (s := m) ⟨m, [], by simpa using hm.2, by simpa using hm.1, .inr ⟨rfl, rfl⟩⟩
          rw [unsignedVal_int hm.2] at this
          simpa using this
        · have := WritesNumber.pos (s := num) ⟨num, [], by simpa using hm.2, by simpa using hm.1, .inr ⟨rfl, rfl⟩⟩
          rw [unsignedVal_int hm.2] at this
          simpa using this
      · refine ⟨a ++ '.' :: b, h3, h1, ?_⟩
        rcases hi' with ⟨m, hm0, hm, rfl⟩ | ⟨hm, rfl⟩
        · cases a with
          | nil =>
            refine .inr ⟨m, hm, by simp only [List.nil_append] at hm0 ⊢; rw [hm0], ?_⟩
            simp only [List.nil_append] at hm0
            subst hm0
            simp only [List.length_cons]
            push_cast
            ring
          | cons x a =>
            simp only [List.cons_append, List.cons.injEq] at hm0
            obtain ⟨rfl, rfl⟩ := hm0
            have hda : ∀ c ∈ a, '0' ≤ c ∧ c ≤ '9' := fun c hc => hm.2 c (by simp [hc])
            have := WritesNumber.neg (s := a ++ '.' :: b) ⟨a, b, hm.2, hm.1, .inl rfl⟩
            rw [unsignedVal_point b hda] at this
            refine .inl ?_
            rw [← neg_div] at this
            simpa using this
        · have hda : ∀ c ∈ a, '0' ≤ c ∧ c ≤ '9' := fun c hc => hm.2 c (by simp [hc])
          have := WritesNumber.pos (s := a ++ '.' :: b) ⟨a, b, hm.2, hm.1, .inl rfl⟩
          rw [unsignedVal_point b hda] at this
          exact .inl (by simpa using this)

/-- The characters of a number up to a point. -/
theorem amountAux_chars {env : Env} {a r : Str} (h : ∀ c ∈ a, c ≠ '.' ∧ (c = '-' ∨ env.numeric c = true)) (dec : Bool) :
    amountAux env (a ++ r) dec = (amountAux env r dec).map (fun x =>
      (a ++ x.1, x.2.1 + (if dec then a.length else 0), x.2.2.1 + a.length, x.2.2.2)) := by
  induction a with
  | nil =>
    simp only [List.nil_append, List.length_nil, ite_self, Nat.add_zero]
    cases amountAux env r dec <;> rfl
  | cons c a ih =>
    have hc := h c (by simp)
    rw [List.cons_append, amountAux, if_neg hc.1, if_pos hc.2, ih (fun c hc => h c (by simp [hc])), Option.map_map]
    congr 1
    funext x
    simp only [Function.comp, List.length_cons]
    cases dec <;> simp <;> omega

theorem parseAmount_points {env : Env} {t : Tok} {a b k : Str} (ht : t.rest = a ++ '.' :: b ++ '.' :: k)
    (h : ∀ c ∈ a ++ b, c ≠ '.' ∧ (c = '-' ∨ env.numeric c = true)) : (parseAmount env t).1 = .error .unexpectedInput := by
  have e : amountAux env t.rest false = none := by
    rw [ht, List.append_assoc, amountAux_chars (fun c hc => h c (by simp [hc])), List.cons_append, amountAux, if_pos rfl,
      if_neg (by decide), amountAux_chars (fun c hc => h c (by simp [hc])), amountAux, if_pos rfl, if_pos rfl]
    rfl
  simp only [parseAmount, e]

/-! ### Accounts -/

/-- The amounts of a posting do not change its account, kind or payee. -/
theorem amounts_account {env : Env} {tt : TType} : ∀ (n : Nat) (p : RawPosting) (t : Tok) {p' : RawPosting} {t' : Tok},
    amounts env tt n p t = .ok (.ok p', t') → p'.account = p.account ∧ p'.kind = p.kind ∧ p'.payee = p.payee := by
  intro n
  induction n with
  | zero => intro p t p' t' h; cases h
  | succ n ih =>
    intro p t p' t' h
    rw [amounts.eq_def] at h
    simp only at h
    split at h
    · cases h; exact ⟨rfl, rfl, rfl⟩
    · cases h; exact ⟨rfl, rfl, rfl⟩
    · cases h; exact ⟨rfl, rfl, rfl⟩
    · exact (ih _ _ h :)
    · split at h
      · cases h
      · exact (ih _ _ h :)
    · split at h
      · cases h
      · split at h
        · cases h
        · split at h
          · cases h
          · exact (ih _ _ h :)
    · split at h
      · exact (ih _ _ h :)
      · split at h
        · split at h
          · cases h
          · exact (ih _ _ h :)
        · cases h

/-- The name collected starts with the first character. -/
theorem accountAux_first {ws : Char → Bool} {c : Char} {r : Str} {line col : Nat} {x : Str × AccountEnd × Str × Nat × Nat}
    (hc : ws c = false) (h : accountAux ws (c :: r) line col = some x) : x.1.head? = some c := by
  rw [accountAux.eq_def] at h
  simp only [hc] at h
  obtain ⟨y, _, rfl⟩ := Option.map_eq_some_iff.mp h
  rfl

/-- A blank and a line break end an account name like two blanks. -/
theorem accountAux_break {env : Env} {s a : Str} {kd : Kind} (h : WritesAccount env s a kd) {b : Char} (hb : env.ws b = true)
    (h1 : b ≠ '\n') (h2 : b ≠ '\t') (hn : env.ws '\n' = true) (l : Str) (line col : Nat) :
    accountAux env.ws (s ++ b :: '\n' :: l) line col = some (s, .more, l, line + 1, 0) := by
  obtain ⟨_, h2', h3, h4, h5⟩ := account_name h
  rw [accountAux_name _ _ s le_rfl h3 h4 h2'.2 h5]
  rw [accountAux.eq_def]
  simp [hb, h1, h2, hn]

theorem accountAux_end {env : Env} {s a : Str} {kd : Kind} (h : WritesAccount env s a kd) (line col : Nat) :
    accountAux env.ws s line col = none := by
  obtain ⟨_, h2', h3, h4, h5⟩ := account_name h
  have := accountAux_name (env := env) [] _ s le_rfl h3 h4 h2'.2 h5 line col
  rw [List.append_nil] at this
  rw [this]
  rfl

/-- Amounts on the next line are read as those of an account followed by a single blank. -/
theorem parsePosting_break {env : Env} (ha : env.AsciiChars) {fuel : Nat} {tt : TType} {payee : Option Str} {t : Tok}
    {s a i f c k : Str} {kd : Kind} {fs : List (Field × Rat × Str)} {cs : List Str} {b : Char} (h : WritesAccount env s a kd)
    (hb : env.ws b = true) (hb1 : b ≠ '\n') (hb2 : b ≠ '\t') (hi : Blanks env i) (hff : WritesFields env f fs)
    (ho : FieldOrder (fs.map (·.1))) (hc : WritesCommentOpt env c cs) (hk : Eol k)
    (ht : t.rest = s ++ b :: '\n' :: (i ++ f ++ c ++ k)) (hf : 4 ≤ fuel) :
    ∃ t', parsePosting env fuel tt payee t =
      .ok (.ok { fs.foldl (fun p x => x.1.set p x.2.1 x.2.2)
        { account := a, kind := kd, payee := payee } with comments := cs }, t') ∧ AtEnd t' k := by
  have e := accountAux_break h hb hb1 hb2 (ha.wsT (by decide) (by decide)) (i ++ f ++ c ++ k) t.line t.col
  have hr := consumeWs_rest (t := { t with rest := i ++ (f ++ (c ++ k)), line := t.line + 1, col := 0 }) rfl hi
    (fields_next ha hff hc hk)
  have hlen : fs.length < fuel := by
    have : (fs.map (·.1)).length ≤ 3 := by
      simp only [FieldOrder, List.mem_cons, List.not_mem_nil, or_false] at ho
      rcases ho with h | h | h | h | h | h | h | h <;> rw [h] <;> simp
    rw [List.length_map] at this
    omega
  obtain ⟨t', e1, e2⟩ := amounts_ok ha (tt := tt) hff hc hk fuel
    { account := a, kind := kd, payee := payee } _ ho.costOk hlen hr
  refine ⟨t', ?_, e2⟩
  simp only [parsePosting, ht, e, accountKind_ok h]
  rw [if_neg (by decide)]
  rw [show i ++ f ++ c ++ k = i ++ (f ++ (c ++ k)) by simp, e1]
  simp

/-- A word on the next line is an error. -/
theorem parsePosting_word {env : Env} (ha : env.AsciiChars) {fuel : Nat} {payee : Option Str} {t : Tok}
    {s a i w k : Str} {kd : Kind} {b : Char} (h : WritesAccount env s a kd)
    (hb : env.ws b = true) (hb1 : b ≠ '\n') (hb2 : b ≠ '\t') (hi : Blanks env i) (hw0 : w ≠ [])
    (hw : ∀ x ∈ w, env.ws x = false ∧ env.numeric x = false ∧ x ∉ ['.', '-', ';', '"', '\n'])
    (hw1 : ∀ x, w.head? = some x → x ∉ ['(', '=', '@']) (hk : Eol k)
    (ht : t.rest = s ++ b :: '\n' :: (i ++ w ++ k)) (hf : 1 ≤ fuel) :
    ∃ t', parsePosting env fuel .real payee t = .ok (.error .unexpectedInput, t') := by
  obtain ⟨x, w, rfl⟩ : ∃ x w', w = x :: w' := by
    cases w with
    | nil => exact absurd rfl hw0
    | cons x w => exact ⟨x, w, rfl⟩
  have e := accountAux_break h hb hb1 hb2 (ha.wsT (by decide) (by decide)) (i ++ (x :: w) ++ k) t.line t.col
  obtain ⟨hx1, hx2, hx3⟩ := hw x (by simp)
  have hx4 := hw1 x rfl
  simp only [List.mem_cons, List.not_mem_nil, or_false, not_or] at hx3 hx4
  have hr := consumeWs_rest (t := { t with rest := i ++ ((x :: w) ++ k), line := t.line + 1, col := 0 }) rfl hi
    (by intro y hy; simp at hy; subst hy; exact blank_false hx1)
  have hpl : ∀ y ∈ x :: w, env.wordEnd y = false ∧ y ≠ '"' ∧ y ≠ '\n' := by
    intro y hy
    obtain ⟨y1, y2, y3⟩ := hw y hy
    simp only [List.mem_cons, List.not_mem_nil, or_false, not_or] at y3
    exact ⟨by simp [Env.wordEnd, y1, y2, y3], y3.2.2.2.1, y3.2.2.2.2⟩
  have hstop : WordStop env k := fun c hc => .inl (hk.head c hc)
  obtain ⟨g1, g2⟩ := getString_rest (b := []) (b' := []) (k := k)
    (t := consumeWs env { t with rest := i ++ ((x :: w) ++ k), line := t.line + 1, col := 0 }) (w := x :: w) (x := x :: w)
    (by rw [hr]; rfl) (fun c hc => absurd hc (by simp))
    (by intro y hy; simp at hy; subst hy; exact blank_false hx1)
    (wordAux_plain hpl (by simpa using hstop) true) (fun c hc => absurd hc (by simp))
    (fun c hc => by rw [hk.head c hc]; simp [Env.blank])
  obtain ⟨fuel, rfl⟩ : ∃ m, fuel = m + 1 := ⟨fuel - 1, by omega⟩
  have hns : NumStop env k := by
    intro c hc
    rw [hk.head c hc]
    exact ⟨by decide, by decide, ha.numF (by decide) (by decide)⟩
  have hpa : (parseAmount env (getString env
      (consumeWs env { t with rest := i ++ ((x :: w) ++ k), line := t.line + 1, col := 0 })).2).1 = .error .unexpectedInput := by
    simp only [parseAmount, g2, amountAux_stop hns]
    rfl
  have hm : (parseMoney env (consumeWs env { t with rest := i ++ ((x :: w) ++ k), line := t.line + 1, col := 0 })).1 =
      .error .unexpectedInput := by
    unfold parseMoney
    rw [hr]
    simp only [List.cons_append] at hpa ⊢
    rw [if_neg (by simp [hx2, hx3])]
    revert hpa
    generalize parseAmount env _ = z
    obtain ⟨z1, z2⟩ := z
    rintro rfl
    rfl
  refine ⟨(parseMoney env (consumeWs env { t with rest := i ++ ((x :: w) ++ k), line := t.line + 1, col := 0 })).2, ?_⟩
  simp only [parsePosting, ht, e, accountKind_ok h]
  rw [if_neg (by decide), show i ++ (x :: w) ++ k = i ++ ((x :: w) ++ k) by simp, amounts]
  split <;> rename_i heq <;> rw [hr] at heq <;> simp at heq
  · exact absurd heq.1 hx3.2.2.2.2
  · exact absurd heq.1 hx3.2.2.1
  · exact absurd heq.1 hx4.1
  · exact absurd heq.1 hx4.2.1
  · exact absurd heq.1 hx4.2.2
  · revert hm
    generalize parseMoney env _ = z
    obtain ⟨z1, z2⟩ := z
    rintro rfl
    simp only
    rw [if_neg (by decide)]

/-! ### Whole journals -/

/-- Reading the first lines of a transaction. -/
theorem txnLines_prefix {env : Env} (ha : env.AsciiChars) {fuel : Nat} {payee : Option Str} {ls more : List Str}
    {xs : List TxnLine} (hf : 4 ≤ fuel) (h : WritesBody env (WritesTxnLine env payee) ls xs) (hm : more ≠ []) :
    ∀ (n : Nat) (txn : Txn RawPosting) (t : Tok), txn.payee = payee → ls.length ≤ n → At env t (ls ++ more) →
      ∃ n' t', n ≤ n' + ls.length ∧ At env t' more ∧
        txnLines env fuel n txn t = txnLines env fuel n' (xs.foldl addLine txn) t' := by
  induction h with
  | nil => intro n txn t _ _ hat; exact ⟨n, t, by simp, hat, rfl⟩
  | @blank b ls xs hb h ih =>
    intro n txn t hp hn hat
    obtain ⟨n', t', h1, h2, h3⟩ := ih n txn t hp (by simp at hn; omega) (hat.blank hb)
    exact ⟨n', t', by simp; omega, h2, h3⟩
  | @cons l x ls xs hx h ih =>
    intro n txn t hp hn hat
    obtain ⟨n, rfl⟩ : ∃ m, n = m + 1 := ⟨n - 1, by simp at hn; omega⟩
    have hlen : ls.length ≤ n := by simp at hn; omega
    rw [List.cons_append] at hat
    cases hx with
    | @posting i s p hi0 hi hps =>
      obtain ⟨c, r, rfl, hc1, hc2, hc3⟩ := posting_head ha hps
      obtain ⟨t1, e1, e2⟩ := hat.indent ha hi hi0 hc1
      obtain ⟨t2, e3, e4⟩ := parsePosting_ok ha (tt := txn.ttype) hps e2 (eol_tailText _)
        (fun h0 => absurd (List.append_eq_nil_iff.mp (tailText_nil h0)).2 hm) hf
      obtain ⟨n', t', e5, e6, e7⟩ := ih n (addLine txn (.posting p)) t2 (by simpa [addLine] using hp) hlen e4.at
      refine ⟨n', t', by simp; omega, e6, ?_⟩
      rw [txnLines, e1]
      simp only [e2, List.cons_append, hc3, hc2, if_false, Bool.false_eq_true]
      have e3' : parsePosting env fuel txn.ttype txn.payee t1 = .ok (.ok p, t2) := by rw [hp]; exact e3
      rw [e3']
      exact e7
    | @comment i s c hi0 hi hc =>
      cases hc with
      | @mk b c hb hc1 hc2 =>
        have hsemi : env.ws ';' = false := ha.wsF (by decide) (by decide)
        obtain ⟨t1, e1, e2⟩ := At.indent (r := b ++ c) ha (by simpa using hat) hi hi0 hsemi
        obtain ⟨e3, e4⟩ := commentTok_ok e2 hb hc1 hc2 (eol_tailText _)
        obtain ⟨n', t', e5, e6, e7⟩ := ih n (addLine txn (.comment c)) (commentTok env t1).2
          (by rw [← hp, addLine]; split <;> rfl) hlen e4.at
        refine ⟨n', t', by simp; omega, e6, ?_⟩
        rw [txnLines, e1]
        simp only [e2, List.cons_append, if_true, e3]
        rw [List.foldl_cons, ← e7, addLine]
        split <;> rfl

theorem stops_top {env : Env} (ha : env.AsciiChars) {c : Char} (hc : env.ws c = false) (r : Str) (post : List Str) :
    Stops env ((c :: r) :: post) := by
  intro t ht
  obtain ⟨t', h1, _⟩ := At.top ha ht hc
  exact ⟨t', h1, ht.again h1⟩

theorem addLine_payee (xs : List TxnLine) : ∀ txn : Txn RawPosting,
    (xs.foldl addLine txn).payee = txn.payee ∧ (xs.foldl addLine txn).ttype = txn.ttype := by
  induction xs with
  | nil => intro txn; exact ⟨rfl, rfl⟩
  | cons x xs ih =>
    intro txn
    rw [List.foldl_cons]
    obtain ⟨h1, h2⟩ := ih (addLine txn x)
    rw [h1, h2]
    cases x with
    | posting p => exact ⟨rfl, rfl⟩
    | comment c => rw [addLine]; split <;> exact ⟨rfl, rfl⟩

/-- A journal in which a posting cannot be read, after items and lines that can. -/
theorem bad_posting {env : Env} (ha : env.AsciiChars) (hs : env.AsciiSep) {fuel : Nat}
    {inc : Tok → PRes (ParsedLedger × Tok)} {ls body post : List Str} {bs : List Block} {xs : List TxnLine} {h i s : Str}
    {t0 : Txn RawPosting} {c : Char} {Q : Stop → Prop}
    (hj : WritesJournal env ls bs) (hn : ∀ y, .incl y ∉ bs) (hh : WritesHeader env h t0) (hd : h.head? ≠ some '-')
    (hb : WritesBody env (WritesTxnLine env t0.payee) body xs) (hi : Blanks env i) (hi0 : i ≠ [])
    (hc : s.head? = some c) (hc1 : env.ws c = false) (hc2 : env.numeric c = false) (hc3 : c ≠ ';')
    (hf : ls.length + body.length + 5 ≤ fuel)
    (hp : ∀ t, t.rest = s ++ tailText post → (∃ st, Q st ∧ parsePosting env fuel .real t0.payee t = .error st) ∨
      ∃ e t', parsePosting env fuel .real t0.payee t = .ok (.error e, t') ∧ Q (.fail (t'.fail e))) :
    ∃ st, Q st ∧
      items env fuel inc fuel {} (Tok.ofContent (joinLines (ls ++ h :: (body ++ (i ++ s) :: post)))) = .error st := by
  obtain ⟨n1, n2, n3, d, r, rfl, n4⟩ := header_nl hh
  have hdig : '0' ≤ d ∧ d ≤ '9' := by
    rcases n4 with h | rfl
    · exact h
    · exact absurd rfl hd
  obtain ⟨s, rfl⟩ : ∃ s', s = c :: s' := by
    cases s with
    | nil => cases hc
    | cons x s => exact ⟨s, by rw [show x = c by simpa using hc]⟩
  obtain ⟨n', t1, h1, h2, h3⟩ := items_prefix ha hs (fuel := fuel) (inc := inc) hj
    (stops_top ha (ha.digit hdig).2 r (body ++ (i ++ c :: s) :: post)) (by simp) fuel {}
    (Tok.ofContent (joinLines (ls ++ (d :: r) :: (body ++ (i ++ c :: s) :: post)))) (noIncludes hn) (by omega) (by omega)
    (ofContent_at (by simp))
  rw [h3]
  obtain ⟨n', rfl⟩ : ∃ m, n' = m + 1 := ⟨n' - 1, by omega⟩
  obtain ⟨t2, h4, h5⟩ := At.top ha h2 (ha.digit hdig).2
  have h0 : t1.rest ≠ [] := by
    intro h0
    have := wsLines_nil (env := env) h0
    rw [h4, h5] at this
    cases this
  obtain ⟨e1, e2⟩ := getLine_line h5 n1 (eol_tailText _)
  obtain ⟨m', t3, h6, h7, h8⟩ := txnLines_prefix ha (fuel := fuel) (more := (i ++ c :: s) :: post) (by omega) hb (by simp)
    fuel t0 (getLine t2).2 rfl (by omega) e2.at
  obtain ⟨m', rfl⟩ : ∃ m, m' = m + 1 := ⟨m' - 1, by omega⟩
  obtain ⟨t4, e3, e4⟩ := At.indent ha h7 hi hi0 hc1
  obtain ⟨p1, p2⟩ := addLine_payee xs t0
  have hfail : ∃ st, Q st ∧ transactionTok env fuel t2 = .error st := by
    simp only [transactionTok, e1, parseHeader_ok (ha.wsT (by decide) (by decide)) hh, h8]
    rw [txnLines, e3]
    simp only [e4, List.cons_append, hc3, hc2, if_false, Bool.false_eq_true]
    rw [p1, p2, n3]
    rcases hp t4 e4 with ⟨st, q1, q2⟩ | ⟨e, t', q1, q2⟩
    · rw [q2]; exact ⟨st, q1, rfl⟩
    · rw [q1]; exact ⟨_, q2, rfl⟩
  obtain ⟨st, q1, q2⟩ := hfail
  refine ⟨st, q1, ?_⟩
  rw [items, if_neg h0]
  simp only [h4]
  rw [h5]
  simp only [List.cons_append]
  have hnum := (ha.digit hdig).1
  have : item env fuel inc d ((bs.foldl (addBlock env (fun _ => {})) {})) t2 = .error st := by
    unfold item
    rw [if_neg, if_pos hnum, q2]
    · rfl
    · intro hm
      revert hdig
      simp only [List.mem_cons, List.not_mem_nil, or_false] at hm
      rcases hm with rfl | rfl | rfl | rfl | rfl <;> decide
  rw [this]

end Dinero
