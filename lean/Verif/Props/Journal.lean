import Verif.Lemmas.Posting
import Verif.Props.Expr
/-
Property theorems about reading journals (C60-C63, C66, C79-C82).
-/
namespace Dinero

/-! ### The environment of the examples -/

/-- An environment for examples, with the white space and the digits of ASCII. -/
def exEnvJ : Env :=
  { exEnv with ws := fun c => c == ' ' || (decide (9 ≤ c.toNat) && decide (c.toNat ≤ 13)) }

theorem exEnvJ_ascii : exEnvJ.AsciiChars := by
  refine ⟨fun c _ => ?_, fun c _ => ?_, fun c hc => ?_⟩
  · simp [exEnvJ]
  · simp only [exEnvJ, exEnv, Char.isDigit, Bool.and_eq_true, decide_eq_true_eq]
    exact Iff.rfl
  · simp only [exEnvJ, Bool.or_eq_true, beq_iff_eq, Bool.and_eq_true, decide_eq_true_eq] at hc
    have : c.toNat < 48 := by
      rcases hc with rfl | h
      · decide
      · omega
    simp only [exEnvJ, exEnv, Char.isDigit, Bool.and_eq_false_iff, decide_eq_false_iff_not]
    left
    intro h
    have h' : (48 : Nat) ≤ c.toNat := h
    omega

theorem exEnvJ_sep : exEnvJ.AsciiSep := by
  intro c _
  simp [exEnvJ, exEnv]

theorem accountName_plain {env : Env} {a : Str} (h0 : a ≠ [])
    (h : ∀ c ∈ a, env.ws c = false ∧ c ≠ '\t' ∧ c ≠ '\n') : AccountName env a := by
  refine ⟨h0, ⟨fun c hc => (h c (List.mem_of_mem_head? hc)).1, fun c hc => (h c (List.mem_of_mem_getLast? hc)).1⟩,
    fun hm => (h _ hm).2.1 rfl, fun hm => (h _ hm).2.2 rfl, fun pre x y post e _ => (h y (by rw [e]; simp)).1⟩

theorem exAccount : WritesAccount exEnvJ "Assets:Cash".toList "Assets:Cash".toList .real :=
  .real (accountName_plain (by decide) (by decide)) (by intro c hc; cases hc; decide)

theorem exVirtual : WritesAccount exEnvJ "(Budget)".toList "Budget".toList .virt :=
  .virt (b := []) (a := "Budget".toList) (b' := []) (accountName_plain (by decide) (by decide)) (by intro c hc; cases hc)
    (by intro c hc; cases hc) ⟨by intro c hc; cases hc; decide, by intro c hc; cases hc; decide⟩

/-! ### C60: amounts -/

/-- A written number is read as the number it denotes, and exactly its characters are consumed. -/
theorem C60_amount {env : Env} (ha : env.AsciiChars) {t : Tok} {s k : Str} {q : Rat} (h : WritesNumber s q)
    (ht : t.rest = s ++ k) (hk : ∀ c, k.head? = some c → c ≠ '.' ∧ c ≠ '-' ∧ env.numeric c = false) :
    (parseAmount env t).1 = .ok q ∧ (parseAmount env t).2.rest = k :=
  parseAmount_ok ha h ht hk

/-- Whatever is read as a number is a written number, or a point, a minus sign and digits; reading stops at the first
character that is not part of it. -/
theorem C60_only {env : Env} (ha : env.AsciiChars) {t : Tok} {q : Rat} (h : (parseAmount env t).1 = .ok q) :
    ∃ s, t.rest = s ++ (parseAmount env t).2.rest ∧
      (∀ c, (parseAmount env t).2.rest.head? = some c → c ≠ '.' ∧ c ≠ '-' ∧ env.numeric c = false) ∧
      (WritesNumber s q ∨ ∃ d, IsDigits d ∧ s = '.' :: '-' :: d ∧
        q = -((digitsVal d : Rat) / (10 ^ (d.length + 1) : Nat))) :=
  parseAmount_sound ha h

/-- A second point is an error. -/
theorem C60_points {env : Env} {t : Tok} {a b k : Str} (ht : t.rest = a ++ '.' :: b ++ '.' :: k)
    (h : ∀ c ∈ a ++ b, c ≠ '.' ∧ (c = '-' ∨ env.numeric c = true)) :
    (parseAmount env t).1 = .error .unexpectedInput :=
  parseAmount_points ht h

example : WritesNumber "-12.50".toList (-unsignedVal "12.50".toList) :=
  .neg ⟨"12".toList, "50".toList, by decide, by decide, .inl rfl⟩
example : unsignedVal "12.50".toList = 25 / 2 := by decide +kernel
example : (parseAmount exEnvJ (Tok.ofContent "-12.50 EUR".toList)).1.toOption = some (-25 / 2) := by decide +kernel
example : (parseAmount exEnvJ (Tok.ofContent "1.2.3".toList)).1.toOption = none := by decide +kernel
/-- A minus sign after the point is accepted and moves the point. -/
example : (parseAmount exEnvJ (Tok.ofContent ".-5".toList)).1.toOption = some (-5 / 100) := by decide +kernel

/-! ### C61: accounts -/

/-- The account of a posting is what is written before a tab, two blanks or the end of the line; its brackets decide the
kind. -/
theorem C61_account_partial {env : Env} (ha : env.AsciiChars) {fuel : Nat} {tt : TType} {payee : Option Str} {t t' : Tok}
    {s a k : Str} {kd : Kind} {p : RawPosting} (h : WritesAccount env s a kd)
    (hk : (∃ k', k = '\n' :: k') ∨ ∃ sep k', k = sep ++ k' ∧ AccountSep env sep) (ht : t.rest = s ++ k)
    (hp : parsePosting env fuel tt payee t = .ok (.ok p, t')) : p.account = a ∧ p.kind = kd ∧ p.payee = payee := by
  rcases hk with ⟨k', rfl⟩ | ⟨sep, k', rfl, hs⟩
  · obtain ⟨_, h2, h3, h4, h5⟩ := account_name h
    have e : accountAux env.ws (s ++ '\n' :: k') t.line t.col = some (s, .line, '\n' :: k', t.line, 0) := by
      rw [accountAux_name _ _ s le_rfl h3 h4 h2.2 h5, accountAux_newline (ha.wsT (by decide) (by decide))]
      simp
    simp only [parsePosting, ht, e, accountKind_ok h, if_true] at hp
    cases hp
    exact ⟨rfl, rfl, rfl⟩
  · obtain ⟨b', line', col', e, _⟩ := accountAux_sep (k := k') h hs t.line t.col
    simp only [parsePosting, ht, e, accountKind_ok h] at hp
    rw [if_neg (by decide)] at hp
    exact amounts_account _ _ _ hp

/-- A posting that is just an account is always read. -/
theorem C61_just_account {env : Env} (ha : env.AsciiChars) {fuel : Nat} {tt : TType} {payee : Option Str} {t : Tok}
    {s a k : Str} {kd : Kind} (h : WritesAccount env s a kd) (ht : t.rest = s ++ '\n' :: k) :
    parsePosting env fuel tt payee t =
      .ok (.ok { account := a, kind := kd, payee := payee }, { t with rest := '\n' :: k, col := 0 }) := by
  obtain ⟨_, h2, h3, h4, h5⟩ := account_name h
  have e : accountAux env.ws (s ++ '\n' :: k) t.line t.col = some (s, .line, '\n' :: k, t.line, 0) := by
    rw [accountAux_name _ _ s le_rfl h3 h4 h2.2 h5, accountAux_newline (ha.wsT (by decide) (by decide))]
    simp
  simp only [parsePosting, ht, e, accountKind_ok h, if_true]

/-- An account that does not start with an ASCII character always panics. -/
theorem C61_unicode_panics {env : Env} {fuel : Nat} {tt : TType} {payee : Option Str} {t : Tok} {c : Char} {r : Str}
    (ht : t.rest = c :: r) (hc : 128 ≤ c.toNat) (hw : env.ws c = false) :
    ∃ why, parsePosting env fuel tt payee t = .error (.fail (.panic why)) := by
  unfold parsePosting
  cases h : accountAux env.ws t.rest t.line t.col with
  | none => exact ⟨_, rfl⟩
  | some x =>
    rw [ht] at h
    have := accountAux_first hw h
    obtain ⟨name, stop, rest, line, col⟩ := x
    cases name with
    | nil => cases this
    | cons d name =>
      obtain rfl : d = c := by simpa using this
      simp only [accountKind, if_pos hc]
      exact ⟨_, rfl⟩

/-- The account and the kind of the posting read from a text. -/
def exAccountOf (s : Str) : Option (Str × Kind) :=
  match parsePosting exEnvJ 10 .real none (Tok.ofContent s) with
  | .ok (.ok p, _) => some (p.account, p.kind)
  | _ => none

example : WritesAccount exEnvJ "(Budget)".toList "Budget".toList .virt := exVirtual
example : AccountSep exEnvJ "  ".toList := ⟨by unfold Blanks; decide, .inr ⟨' ', ' ', [], rfl⟩⟩
example : exAccountOf "(Budget)  5 EUR".toList = some ("Budget".toList, .virt) := by decide +kernel
example : exAccountOf "[Savings:New car]\t5 EUR".toList = some ("Savings:New car".toList, .virtBal) := by decide +kernel
example : exAccountOf "Assets:Cash in hand\n".toList = some ("Assets:Cash in hand".toList, .real) := by decide +kernel
example : exAccountOf "Équipement\n".toList = none := by decide +kernel

/-! ### C62: blanks after an account -/

/-- A tab, or two or more blanks, at the end of a line that is just an account do not matter. -/
theorem C62_blanks_partial {env : Env} (ha : env.AsciiChars) {fuel : Nat} {tt : TType} {payee : Option Str} {t t0 : Tok}
    {s a sep k : Str} {kd : Kind} (h : WritesAccount env s a kd) (hs : AccountSep env sep)
    (ht : t.rest = s ++ sep ++ '\n' :: k) (ht0 : t0.rest = s ++ '\n' :: k) (hf : 4 ≤ fuel) :
    ∃ t' t0' p, parsePosting env fuel tt payee t = .ok (.ok p, t') ∧ parsePosting env fuel tt payee t0 = .ok (.ok p, t0') ∧
      (t'.rest = '\n' :: k ∨ t'.rest = k) ∧ t0'.rest = '\n' :: k := by
  obtain ⟨t', h1, h2⟩ := parsePosting_ok ha (fuel := fuel) (tt := tt) (payee := payee) (t := t) (k := '\n' :: k)
    (.amounts (f := []) (c := []) h hs .nil (by simp [FieldOrder]) .none) (by rw [ht]; simp) (.inr ⟨k, rfl⟩)
    (fun h => by cases h) hf
  refine ⟨t', _, _, h1, C61_just_account ha h ht0, ?_, rfl⟩
  rcases h2 with h2 | ⟨k', hk', h2, _⟩
  · exact .inl h2
  · cases hk'
    exact .inr h2

/-- After a single blank (or a carriage return) the line break is taken for the second one: amounts on the next line
become those of the account. -/
theorem C62_single_blank {env : Env} (ha : env.AsciiChars) {fuel : Nat} {tt : TType} {payee : Option Str} {t : Tok}
    {s a i f c k : Str} {kd : Kind} {fs : List (Field × Rat × Str)} {cs : List Str} {b : Char} (h : WritesAccount env s a kd)
    (hb : env.ws b = true) (hb1 : b ≠ '\n') (hb2 : b ≠ '\t') (hi : Blanks env i) (hff : WritesFields env f fs)
    (ho : FieldOrder (fs.map (·.1))) (hc : WritesCommentOpt env c cs) (hk : k = [] ∨ ∃ k', k = '\n' :: k')
    (ht : t.rest = s ++ b :: '\n' :: (i ++ f ++ c ++ k)) (hf : 4 ≤ fuel) :
    ∃ t', parsePosting env fuel tt payee t =
      .ok (.ok { fs.foldl (fun p x => x.1.set p x.2.1 x.2.2)
        { account := a, kind := kd, payee := payee } with comments := cs }, t') := by
  obtain ⟨t', h1, _⟩ := parsePosting_break ha (tt := tt) (payee := payee) h hb hb1 hb2 hi hff ho hc hk ht hf
  exact ⟨t', h1⟩

/-- After a single blank (or a carriage return), an account of one word on the next line is an error. -/
theorem C62_single_blank_rejected {env : Env} (ha : env.AsciiChars) {fuel : Nat} {payee : Option Str} {t : Tok}
    {s a i w k : Str} {kd : Kind} {b : Char} (h : WritesAccount env s a kd)
    (hb : env.ws b = true) (hb1 : b ≠ '\n') (hb2 : b ≠ '\t') (hi : Blanks env i) (hw0 : w ≠ [])
    (hw : ∀ x ∈ w, env.ws x = false ∧ env.numeric x = false ∧ x ∉ ['.', '-', ';', '"', '\n'])
    (hw1 : ∀ x, w.head? = some x → x ∉ ['(', '=', '@']) (hk : k = [] ∨ ∃ k', k = '\n' :: k')
    (ht : t.rest = s ++ b :: '\n' :: (i ++ w ++ k)) (hf : 1 ≤ fuel) :
    ∃ t', parsePosting env fuel .real payee t = .ok (.error .unexpectedInput, t') :=
  parsePosting_word ha h hb hb1 hb2 hi hw0 hw hw1 hk ht hf

/-- The account, amount and commodity of the posting read from a text. -/
def exMoneyOf (s : Str) : Option (Str × Option Rat × Option Str) :=
  match parsePosting exEnvJ 10 .real none (Tok.ofContent s) with
  | .ok (.ok p, _) => some (p.account, p.moneyAmount, p.moneyCurrency)
  | _ => none

example : exMoneyOf "Cash  \n  Food\n".toList = some ("Cash".toList, none, none) := by decide +kernel
example : exMoneyOf "Cash \n  Food\n".toList = none := by decide +kernel
example : exMoneyOf "Cash\r\n  Food\r\n".toList = none := by decide +kernel
example : exMoneyOf "Cash \n  Bank5\n".toList = some ("Cash".toList, some 5, some "Bank".toList) := by decide +kernel
example : exEnvJ.ws '\r' = true := by decide

/-- After a single blank (or a carriage return), a one-word account on the next line makes the whole journal
unreadable, whatever comes before and after. -/
theorem C62_journal_rejected {env : Env} (ha : env.AsciiChars) (hsep : env.AsciiSep) (fs : Files) {fuel : Nat} (depth : Nat)
    {ls body post : List Str} {bs : List Block} {xs : List TxnLine} {h i s a i' w : Str} {kd : Kind} {b : Char}
    {t0 : Txn RawPosting} (hj : WritesJournal env ls bs) (hn : ∀ y, .incl y ∉ bs) (hh : WritesHeader env h t0)
    (hd : h.head? ≠ some '-') (hb : WritesBody env (WritesTxnLine env t0.payee) body xs) (hi : Blanks env i) (hi0 : i ≠ [])
    (hs : WritesAccount env s a kd) (hb0 : env.ws b = true) (hb1 : b ≠ '\n') (hb2 : b ≠ '\t') (hi' : Blanks env i')
    (hw0 : w ≠ []) (hw : ∀ x ∈ w, env.ws x = false ∧ env.numeric x = false ∧ x ∉ ['.', '-', ';', '"', '\n'])
    (hw1 : ∀ x, w.head? = some x → x ∉ ['(', '=', '@']) (hf : ls.length + body.length + 5 ≤ fuel) :
    ∃ f, tokenizeText env fs fuel depth
      (joinLines (ls ++ h :: (body ++ (i ++ (s ++ [b])) :: (i' ++ w) :: post))) = .error (.fail f) := by
  obtain ⟨c, r, rfl, hc1, hc2, hc3⟩ := account_head ha hs
  obtain ⟨st, ⟨f, rfl⟩, q⟩ := bad_posting ha hsep (fuel := fuel) (s := (c :: r) ++ [b]) (post := (i' ++ w) :: post)
    (inc := includeTok fs none [] (fun f => tokenizeFile env fs fuel depth [] f)) (Q := fun st => ∃ f, st = .fail f)
    hj hn hh hd hb hi hi0 rfl hc1 hc2 hc3 hf (fun t ht => by
      obtain ⟨t', e⟩ := C62_single_blank_rejected ha (fuel := fuel) (payee := t0.payee) (t := t) (k := tailText post)
        hs hb0 hb1 hb2 hi' hw0 hw hw1 (eol_tailText post) (by rw [ht, tailText_cons]; simp) (by omega)
      exact .inr ⟨_, t', e, _, rfl⟩)
  exact ⟨f, q⟩

/-! ### C63: the end of the text -/

theorem joinLines_snoc {ls : List Str} (h : ls ≠ []) : joinLines (ls ++ [[]]) = joinLines ls ++ ['\n'] := by
  induction ls with
  | nil => exact absurd rfl h
  | cons l ls ih =>
    cases ls with
    | nil => rfl
    | cons l' ls =>
      simp only [List.cons_append, joinLines] at ih ⊢
      rw [ih (by simp)]
      simp

theorem lastLine_blank {env : Env} (ls : List Str) (bs : List Block) : LastLineOk env (ls ++ [[]]) bs := by
  intro t _ l hl i s a k he hi0 _
  rw [List.getLast?_append] at hl
  simp at hl
  subst hl
  have := congrArg List.length he
  simp at this
  exact absurd (List.eq_nil_of_length_eq_zero (by omega)) hi0

/-- A line break at the end of a file does not matter, provided that the file can be read without it: a transaction at
the end must not end with a line that is just an account. -/
theorem C63_final_newline_partial {env : Env} (ha : env.AsciiChars) (hs : env.AsciiSep) {fs : Files} {seen : List Str}
    {file text : Str} {pl : ParsedLedger} (h : Loads env fs seen file pl) (hr : fs.read file = some text) :
    ∃ N, ∀ fuel depth, N ≤ fuel → N ≤ depth →
      tokenizeFile env fs fuel depth seen file = .ok pl ∧
      tokenizeFile env (fs.withText file (text ++ ['\n'])) fuel depth seen file = .ok pl := by
  have h2 : Loads env (fs.withText file (text ++ ['\n'])) seen file pl := by
    cases h with
    | @mk _ _ dir ls bs entries content hr' hj hl hd hg hn hc =>
      obtain rfl : text = joinLines ls := by rw [hr] at hr'; exact Option.some.inj hr'
      refine .mk (dir := dir) (ls := (if ls = [] then [[]] else ls) ++ [[]]) entries content ?_ ?_ (lastLine_blank _ _) hd hg hn
        (fun x hx f hf => (hc x hx f hf).change (by simp) (hn x hx f hf).1)
      · simp only [Files.withText, if_true, Option.some.injEq]
        split
        · next h0 => subst h0; rfl
        · next h0 => rw [joinLines_snoc h0]
      · have hb : Blanks env [] := fun c hc => by cases hc
        have hj' := hj.append (.blank hb .nil)
        rw [List.append_nil] at hj'
        split
        · next h0 => subst h0; exact .blank hb hj'
        · exact hj'
  obtain ⟨N1, h1⟩ := loads_ok ha hs h
  obtain ⟨N2, h2⟩ := loads_ok ha hs h2
  exact ⟨max N1 N2, fun fuel depth hf hd => ⟨h1 (max N1 N2) (by omega) fuel depth hf hd,
    h2 (max N1 N2) (by omega) fuel depth hf hd⟩⟩

/-- A journal that ends with a line that is just the account of a posting panics. -/
theorem C63_last_account_panics {env : Env} (ha : env.AsciiChars) (hsep : env.AsciiSep) (fs : Files) {fuel : Nat} (depth : Nat)
    {ls body : List Str} {bs : List Block} {xs : List TxnLine} {h i s a : Str} {kd : Kind}
    {t0 : Txn RawPosting} (hj : WritesJournal env ls bs) (hn : ∀ y, .incl y ∉ bs) (hh : WritesHeader env h t0)
    (hd : h.head? ≠ some '-') (hb : WritesBody env (WritesTxnLine env t0.payee) body xs) (hi : Blanks env i) (hi0 : i ≠ [])
    (hs : WritesAccount env s a kd) (hf : ls.length + body.length + 5 ≤ fuel) :
    ∃ why, tokenizeText env fs fuel depth (joinLines (ls ++ h :: (body ++ [i ++ s]))) = .error (.fail (.panic why)) := by
  obtain ⟨c, r, rfl, hc1, hc2, hc3⟩ := account_head ha hs
  obtain ⟨st, ⟨f, rfl⟩, q⟩ := bad_posting ha hsep (fuel := fuel) (s := c :: r) (post := [])
    (inc := includeTok fs none [] (fun f => tokenizeFile env fs fuel depth [] f)) (Q := fun st => ∃ f, st = .fail (.panic f))
    hj hn hh hd hb hi hi0 rfl hc1 hc2 hc3 hf (fun t ht => by
      refine .inl ⟨.fail (.panic "Tokenizer::next at the end of the text"), ⟨_, rfl⟩, ?_⟩
      have : t.rest = c :: r := by rw [ht]; simp [tailText]
      simp only [parsePosting, this, accountAux_end hs])
  exact ⟨f, q⟩

/-! ### C79: journals -/

/-- A journal without include directives is read as it is meant. -/
theorem C79_journal {env : Env} (ha : env.AsciiChars) (hs : env.AsciiSep) (fs : Files) {fuel : Nat} (depth : Nat)
    {ls : List Str} {bs : List Block} (h : WritesJournal env ls bs) (hi : ∀ x, .incl x ∉ bs) (hl : LastLineOk env ls bs)
    (hf : ls.length + 4 ≤ fuel) :
    tokenizeText env fs fuel depth (joinLines ls) = .ok (meaning env (fun _ => {}) bs) :=
  text_ok ha hs h (noIncludes hi) hl hf

/-! ### C80: the first line of a transaction -/

/-- The first line of a transaction is read as it is meant. -/
theorem C80_header {env : Env} (ha : env.AsciiChars) {h : Str} {t : Txn RawPosting} (hh : WritesHeader env h t) :
    parseHeader env h = .ok t :=
  parseHeader_ok (ha.wsT (by decide) (by decide)) hh

/-! ### C81: price directives -/

/-- A price directive is read as it is meant. -/
theorem C81_price {env : Env} (hs : env.AsciiSep) {l : Str} {p : ParsedPrice} (h : WritesPrice env l p) :
    parsePrice env l = .ok p :=
  parsePrice_ok hs h

/-! ### C66: includes -/

/-- A file with includes contains what it says and, where there is an include directive, what the files named there
contain. -/
theorem C66_loads_partial {env : Env} (ha : env.AsciiChars) (hs : env.AsciiSep) {fs : Files} {seen : List Str} {file : Str}
    {pl : ParsedLedger} (h : Loads env fs seen file pl) :
    ∃ N, ∀ fuel depth, N ≤ fuel → N ≤ depth → tokenizeFile env fs fuel depth seen file = .ok pl := by
  obtain ⟨N, h⟩ := loads_ok ha hs h
  exact ⟨N, fun fuel depth hf hd => h N le_rfl fuel depth hf hd⟩

/-- Including a file and pasting its text have the same result, if the file has no tag or include directives and does not
declare an account, commodity or payee that has been declared before. -/
theorem C66_paste_partial {env : Env} (ha : env.AsciiChars) (hs : env.AsciiSep) {fs : Files} {seen : List Str}
    {main dir x f : Str} {pre lf post : List Str}
    {bpre bf bpost : List Block} (entries : Str → List (Option Str)) (content : Str → ParsedLedger)
    (hr : fs.read main = some (joinLines (pre ++ ("include ".toList ++ x) :: post)))
    (hrf : fs.read f = some (joinLines lf))
    (h1 : WritesJournal env pre bpre) (h2 : WritesJournal env lf bf) (h3 : WritesJournal env post bpost) (hx : '\n' ∉ x)
    (hl : LastLineOk env (pre ++ ("include ".toList ++ x) :: post) (bpre ++ .incl x :: bpost))
    (hlf : LastLineOk env lf bf) (hlp : LastLineOk env (pre ++ lf ++ post) (bpre ++ bf ++ bpost))
    (hd : fs.parent main = some dir)
    (hg : ∀ y, .incl y ∈ bpre ++ .incl x :: bpost →
      fs.glob ((if dir = [] then ['.'] else dir) ++ '/' :: y) = some (entries y))
    (hn : ∀ y, .incl y ∈ bpre ++ .incl x :: bpost → ∀ g, some g ∈ entries y → g ≠ main ∧ g ∉ seen)
    (hc : ∀ y, .incl y ∈ bpre ++ bpost → ∀ g, some g ∈ entries y → Loads env fs (main :: seen) g (content g))
    (he : entries x = [some f]) (hcf : content f = meaning env (fun _ => {}) bf)
    (hi : ∀ y, .incl y ∉ bf) (ht : ∀ n, .tag n ∉ bf)
    (hna : ∀ a, .account a ∈ bf → (meaning env
      (fun y => ((entries y).filterMap id).foldl (fun pl g => pl.append (content g)) {}) bpre).lists.accounts.list.get?
        (env.lower a.name) = none)
    (hnc : ∀ a, .commodity a ∈ bf → (meaning env
      (fun y => ((entries y).filterMap id).foldl (fun pl g => pl.append (content g)) {}) bpre).lists.commodities.list.get?
        (env.lower a.name) = none)
    (hnp : ∀ a, .payee a ∈ bf → (meaning env
      (fun y => ((entries y).filterMap id).foldl (fun pl g => pl.append (content g)) {}) bpre).lists.payees.list.get?
        (env.lower a.name) = none) :
    ∃ pl N, ∀ fuel depth, N ≤ fuel → N ≤ depth → tokenizeFile env fs fuel depth seen main = .ok pl ∧
      tokenizeFile env (fs.withText main (joinLines (pre ++ lf ++ post))) fuel depth seen main = .ok pl := by
  obtain ⟨pl, p1, p2⟩ := paste_loads entries content hr hrf h1 h2 h3 hx hl hlf hlp hd hg hn hc he hcf hi ht hna hnc hnp
  obtain ⟨N1, q1⟩ := C66_loads_partial ha hs p1
  obtain ⟨N2, q2⟩ := C66_loads_partial ha hs p2
  exact ⟨pl, max N1 N2, fun fuel depth hf hd => ⟨q1 fuel depth (by omega) (by omega), q2 fuel depth (by omega) (by omega)⟩⟩

/-! ### Examples -/

/-- A transaction for the examples, without its postings. -/
def exHead : Txn RawPosting :=
  { date := some (dayNumber 2021 1 15), description := "Shop".toList, payee := some "Shop".toList }

theorem noBlanks (env : Env) : Blanks env [] := fun c hc => by cases hc

theorem exDate : WritesWhen "2021-01-15".toList (dayNumber 2021 1 15) :=
  .date (m := 1) (d := 15) (.mk (ys := "2021".toList) (ms := "01".toList) (ds := "15".toList) (sep := '-') false
    ⟨by decide, by decide⟩ ⟨⟨by decide, by decide⟩, by decide, by decide⟩ ⟨⟨by decide, by decide⟩, by decide, by decide⟩
    (by decide)) (by decide) (by decide) (by decide)

theorem exHeader : WritesHeader exEnvJ "2021-01-15 * Shop".toList exHead :=
  .mk (d := "2021-01-15".toList) (e := []) (b := " ".toList) (st := "*".toList) (b' := " ".toList) (co := []) (b'' := [])
    (desc := "Shop".toList) (b3 := []) (pa := []) (en := []) exDate .none (by unfold Spaces; decide) (by decide) (.inr (.inl rfl))
    (by unfold Spaces; decide) .none (by unfold Spaces; decide)
    ⟨⟨by intro c hc; cases hc; decide, by intro c hc; cases hc; decide⟩, by decide, by decide, by decide⟩
    (by unfold Spaces; decide) .none .none (fun h => by cases h) (fun h => by cases h)
    (fun ⟨c, hc, h⟩ => by cases hc; revert h; decide)

/-- The first posting of the example. -/
def exFood : RawPosting :=
  { account := "Expenses:Food".toList, moneyAmount := some (unsignedVal "12.50".toList), moneyCurrency := some "EUR".toList,
    payee := some "Shop".toList, comments := ["lunch".toList] }

theorem exFoodLine : WritesTxnLine exEnvJ (some "Shop".toList) "  Expenses:Food  12.50 EUR ; lunch".toList (.posting exFood) := by
  refine .posting (i := "  ".toList) (s := "Expenses:Food  12.50 EUR ; lunch".toList) (by decide) (by unfold Blanks; decide) ?_
  refine .amounts (s := "Expenses:Food".toList) (a := "Expenses:Food".toList) (sep := "  ".toList) (f := "12.50 EUR ".toList)
    (c := "; lunch".toList) (k := .real) (fs := [(.amount, unsignedVal "12.50".toList, "EUR".toList)])
    (cs := ["lunch".toList]) ?_ ?_ ?_ (by simp [FieldOrder]) ?_
  · exact .real (accountName_plain (by decide) (by decide)) (by intro c hc; cases hc; decide)
  · exact ⟨by unfold Blanks; decide, .inr ⟨' ', ' ', [], rfl⟩⟩
  · refine .cons (b := []) (m := "12.50 EUR".toList) (b' := " ".toList) (s := []) .amount (noBlanks _) ?_
      (by unfold Blanks; decide) (fun h => by cases h) (fun _ => rfl) .nil
    refine .after (n := "12.50".toList) (b := " ".toList) (cs := "EUR".toList) ?_ (by unfold Blanks; decide) ?_
    · exact .pos ⟨"12".toList, "50".toList, by decide, by decide, .inl rfl⟩
    · exact .plain (by decide) (by decide) (by intro x hx; cases hx; decide)
  · exact .some (.mk (b := " ".toList) (c := "lunch".toList) (by unfold Blanks; decide) (by decide)
      (by intro x hx; cases hx; decide))

theorem exCashLine : WritesTxnLine exEnvJ (some "Shop".toList) "  Assets:Cash".toList
    (.posting { account := "Assets:Cash".toList, payee := some "Shop".toList }) :=
  .posting (i := "  ".toList) (s := "Assets:Cash".toList) (by decide) (by unfold Blanks; decide) (.account exAccount)

/-- The items of the example. -/
def exBlocks : List Block :=
  [.comment "mine".toList,
   .txn { exHead with postings := [exFood, { account := "Assets:Cash".toList, payee := some "Shop".toList }] },
   .price { date := dayNumber 2021 1 15, commodity := "USD".toList, otherCommodity := "EUR".toList,
            otherQuantity := unsignedVal "0.8".toList }]

/-- The lines of the example. -/
def exLines : List Str :=
  ["; mine".toList, [], "2021-01-15 * Shop".toList, "  Expenses:Food  12.50 EUR ; lunch".toList, "  Assets:Cash".toList,
   "P 2021-01-15 USD 0.8 EUR".toList]

theorem exPrice : WritesPrice exEnvJ "P 2021-01-15 USD 0.8 EUR".toList
    { date := dayNumber 2021 1 15, commodity := "USD".toList, otherCommodity := "EUR".toList,
      otherQuantity := unsignedVal "0.8".toList } :=
  .mk (b1 := " ".toList) (d := "2021-01-15".toList) (b2 := " ".toList) (cs := "USD".toList) (b3 := " ".toList) (n := "0.8".toList)
    (b4 := " ".toList) (os := "EUR".toList) (b5 := []) (en := []) (by unfold Spaces; decide) exDate
    (by unfold Spaces; decide) (by decide)
    (.plain (by unfold PlainCurrency; decide) (by decide)) (by unfold Spaces; decide) (by decide)
    (.pos (.inr ⟨"0".toList, "8".toList, rfl, ⟨by decide, by decide⟩, ⟨by decide, by decide⟩⟩)) (by unfold Spaces; decide) (by decide)
    (.plain (by unfold PlainCurrency; decide) (by decide)) (by unfold Spaces; decide) .none (by decide)

theorem exBook : WritesJournal exEnvJ exLines exBlocks := by
  refine .cons (body := []) (.comment (m := ';') (b := " ".toList) (c := "mine".toList) (by decide) (by unfold Blanks; decide)
    (by decide) (by intro x hx; cases hx; decide)) (.blank (noBlanks _) ?_)
  refine .cons (body := ["  Expenses:Food  12.50 EUR ; lunch".toList, "  Assets:Cash".toList])
    (.txn exHeader (by intro c hc; cases hc; decide) (.cons exFoodLine (.cons exCashLine .nil))) ?_
  exact .cons (body := []) (.price exPrice) .nil

/-- The hypotheses of C79 are met by the example. -/
example : WritesJournal exEnvJ exLines exBlocks ∧ (∀ x, .incl x ∉ exBlocks) ∧ LastLineOk exEnvJ exLines exBlocks := by
  refine ⟨exBook, ?_, ?_⟩
  · intro x hx
    simp [exBlocks] at hx
  · intro t ht
    simp [exBlocks] at ht

/-- No files. -/
def exNoFiles : Files := { read := fun _ => none, glob := fun _ => some [], parent := fun _ => none }

/-- The same without the last line ends with just an account, and panics. -/
example : ∃ why, tokenizeText exEnvJ exNoFiles 20 0 (joinLines (exLines.take 5)) = .error (.fail (.panic why)) :=
  C63_last_account_panics exEnvJ_ascii exEnvJ_sep exNoFiles 0 (ls := ["; mine".toList, []])
    (body := ["  Expenses:Food  12.50 EUR ; lunch".toList]) (i := "  ".toList) (s := "Assets:Cash".toList)
    (.cons (body := []) (.comment (m := ';') (b := " ".toList) (c := "mine".toList) (by decide) (by unfold Blanks; decide)
      (by decide) (by intro x hx; cases hx; decide)) (.blank (noBlanks _) .nil)) (by simp) exHeader (by decide)
    (.cons exFoodLine .nil) (by unfold Blanks; decide) (by decide) exAccount (by decide)

/-- With a line break at the end it is read. -/
example : (tokenizeText exEnvJ exNoFiles 20 0 (joinLines (exLines.take 5) ++ ['\n'])).toBool = true := by decide +kernel

/-- A directory with files of these names and texts; a pattern is the path of one of them. -/
def exDir (files : List (Str × Str)) : Files where
  read := fun p => (files.find? (fun f => f.1 == p)).map (·.2)
  glob := fun p => some ((files.filter (fun f => "./".toList ++ f.1 == p)).map (fun f => some f.1))
  parent := fun _ => some []

/-- A file that includes a comment. -/
def exIncl : Files := exDir [("main".toList, "include b\n".toList), ("b".toList, "; mine".toList)]

theorem exNote : WritesJournal exEnvJ ["; mine".toList] [.comment "mine".toList] :=
  .cons (body := []) (.comment (m := ';') (b := " ".toList) (c := "mine".toList) (by decide) (by unfold Blanks; decide)
      (by decide) (by intro x hx; cases hx; decide)) .nil

/-- The hypotheses of C66 are met by the example. -/
example : ∃ pl N, ∀ fuel depth, N ≤ fuel → N ≤ depth →
    tokenizeFile exEnvJ exIncl fuel depth [] "main".toList = .ok pl ∧
    tokenizeFile exEnvJ (exIncl.withText "main".toList "; mine\n".toList) fuel depth [] "main".toList = .ok pl :=
  C66_paste_partial exEnvJ_ascii exEnvJ_sep (fs := exIncl) (seen := []) (main := "main".toList) (dir := []) (x := "b".toList)
    (f := "b".toList) (pre := []) (lf := ["; mine".toList]) (post := [[]]) (bpre := []) (bf := [.comment "mine".toList])
    (bpost := []) (fun _ => [some "b".toList]) (fun _ => meaning exEnvJ (fun _ => {}) [.comment "mine".toList])
    (by decide) (by decide) .nil exNote (.blank (noBlanks _) .nil) (by decide) (by intro t ht; simp at ht) (by intro t ht; simp at ht)
    (by intro t ht; simp at ht) rfl (by intro y hy; simp at hy; subst hy; decide)
    (by intro y hy g hg; simp at hg; subst hg; decide) (by intro y hy; simp at hy) rfl rfl (by simp) (by simp) (by simp)
    (by simp) (by simp)

/-- Two files that both include a third one are fine. -/
example : (tokenizeFile exEnvJ (exDir [("main".toList, "include a\ninclude b\n".toList), ("a".toList, "include c\n".toList),
    ("b".toList, "include c\n".toList), ("c".toList, "; mine".toList)]) 20 5 [] "main".toList).toOption.map (·.comments) =
    some ["mine".toList, "mine".toList] := by decide +kernel

/-- The tags of an included file are lost; pasted, they are kept. -/
theorem C66_tags_lost :
    (tokenizeFile exEnvJ (exDir [("main".toList, "include b\n".toList), ("b".toList, "tag x\n".toList)]) 20 5 []
      "main".toList).toOption.map (·.tags) = some [] ∧
    (tokenizeFile exEnvJ (exDir [("main".toList, "tag x\n".toList)]) 20 5 [] "main".toList).toOption.map (·.tags) =
      some ["x".toList] := by decide +kernel

/-- The aliases of an account. -/
def exAliases (r : PRes ParsedLedger) : Option (List Str) :=
  r.toOption.bind (fun pl => (pl.lists.accounts.list.get? "A".toList).map (·.aliases))

/-- An account that is declared again in an included file is replaced; pasted, the first declaration is kept. -/
theorem C66_redeclared :
    exAliases (tokenizeFile exEnvJ (exDir [("main".toList, "account A\n alias x\ninclude b\n".toList),
      ("b".toList, "account A\n alias y\n".toList)]) 20 5 [] "main".toList) = some ["y".toList] ∧
    exAliases (tokenizeFile exEnvJ (exDir [("main".toList, "account A\n alias x\naccount A\n alias y\n".toList)]) 20 5 []
      "main".toList) = some ["x".toList] := by decide +kernel

end Dinero
