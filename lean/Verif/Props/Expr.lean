import Verif.Lemmas.Expr
import Mathlib.Tactic.Linarith
/-
Property theorems about value expressions and filters (C42-C47).
-/
namespace Dinero

/-- A simple environment for examples: lower-casing is the identity, a pattern matches the texts
containing it. -/
def exEnv : Env where
  lower := id
  rxOk := fun _ => true
  rx := fun pat s => s.tails.any (fun u => pat.isPrefixOf u)
  dateOf := fun _ => some 0
  ws := fun c => c == ' ' || c == '\n' || c == '\t'
  numeric := fun c => c.isDigit
  sep := fun c => c == ' '

/-- A posting used in examples. -/
def exPosting : Posting :=
  { account := "Expenses:Food".toList, amount := some (.mk 12 "EUR".toList),
    tags := [⟨"trip".toList, some "Rome".toList⟩, ⟨"meal".toList, none⟩], payee := some "Bar".toList }
/-- Another one. -/
def exPosting2 : Posting :=
  { account := "Assets:Cash".toList, amount := some (.mk (-12) "EUR".toList),
    payee := some "Bar".toList }
/-- A transaction used in examples. -/
def exTxn : Txn Posting :=
  { date := some 100, postings := [exPosting, exPosting2] }
/-- The value of an evaluation, without the commodity list. -/
def exVal (r : Res (Val × Commodities)) : Option Val := r.toOption.map Prod.fst

/-! ### C43: the match memos are transparent -/

/-- Whatever sequence of patterns an account or payee is asked about, every answer is that of the
pattern on its name. -/
theorem C43_cache_transparent (rx : Str → Str → Bool) (name : Str) (pats : List Str) :
    askAll rx ⟨name, []⟩ pats = pats.map (fun pat => rx pat name) :=
  askAll_spec rx pats ⟨name, []⟩ (by intro pat b h; cases h)

example : askAll (fun p s => p.isPrefixOf s) ⟨"Assets:Cash".toList, []⟩
    ["Assets".toList, "Cash".toList, "Assets".toList] = [true, false, true] := by decide

/-! ### C44: boolean operators -/

/-- Conjunction and disjunction of two operands that evaluate to booleans (the right one in the
state left by the left one), and negation of one. -/
theorem C44_connectives (env : Env) (t : Txn Posting) (p : Posting) (l r : Ast)
    (st s1 s2 : Commodities) (a b : Bool)
    (hl : eval env t l p st = .ok (.bool a, s1)) (hr : eval env t r p s1 = .ok (.bool b, s2)) :
    eval env t (.binary .and l r) p st = .ok (.bool (a && b), s2) ∧
    eval env t (.binary .or l r) p st = .ok (.bool (a || b), s2) ∧
    eval env t (.unary .not l) p st = .ok (.bool (!a), s1) := by
  simp only [eval, hl, hr, evalBinary, evalBool, evalUnary]
  cases a <;> cases b <;> simp

/-- Formulas of any size: if every atom evaluates to a boolean in every state, the whole expression
evaluates to the truth value of the formula. -/
theorem C44_formula (env : Env) (t : Txn Posting) (p : Posting) (v : Ast → Bool) (f : Formula)
    (h : ∀ n ∈ f.atoms, ∀ st, ∃ st', eval env t n p st = .ok (.bool (v n), st')) (st : Commodities) :
    ∃ b st', eval env t f.toAst p st = .ok (.bool b, st') ∧ (b = true ↔ f.holds (fun n => v n)) := by
  induction f generalizing st with
  | atom n =>
    obtain ⟨st', hs⟩ := h n (by simp [Formula.atoms]) st
    exact ⟨v n, st', hs, Iff.rfl⟩
  | and a b iha ihb =>
    obtain ⟨x, s1, h1, e1⟩ := iha (fun n hn => h n (by simp [Formula.atoms, hn])) st
    obtain ⟨y, s2, h2, e2⟩ := ihb (fun n hn => h n (by simp [Formula.atoms, hn])) s1
    refine ⟨x && y, s2, (C44_connectives env t p _ _ st s1 s2 x y h1 h2).1, ?_⟩
    simp [Formula.holds, ← e1, ← e2]
  | or a b iha ihb =>
    obtain ⟨x, s1, h1, e1⟩ := iha (fun n hn => h n (by simp [Formula.atoms, hn])) st
    obtain ⟨y, s2, h2, e2⟩ := ihb (fun n hn => h n (by simp [Formula.atoms, hn])) s1
    refine ⟨x || y, s2, (C44_connectives env t p _ _ st s1 s2 x y h1 h2).2.1, ?_⟩
    simp [Formula.holds, ← e1, ← e2]
  | not a iha =>
    obtain ⟨x, s1, h1, e1⟩ := iha (fun n hn => h n (by simpa [Formula.atoms] using hn)) st
    refine ⟨!x, s1, ?_, by simp [Formula.holds, ← e1]⟩
    simp only [Formula.toAst, eval, h1, evalUnary]

/-- The operands of `and`/`or` must be boolean where the value depends on them: a non-boolean left
operand, or a non-boolean right operand that is needed, panics. -/
theorem C44_non_boolean_panics (env : Env) (t : Txn Posting) (p : Posting) (l r : Ast)
    (st s1 s2 : Commodities) (x y : Val)
    (hl : eval env t l p st = .ok (x, s1)) (hr : eval env t r p s1 = .ok (y, s2))
    (hx : ∀ b, x ≠ .bool b) :
    (eval env t (.binary .and l r) p st).isPanic = true ∧
    (eval env t (.binary .or l r) p st).isPanic = true := by
  simp only [eval, hl, hr, evalBinary]
  cases x <;> simp [evalBool, Res.isPanic] at hx ⊢

example : exVal (eval exEnv exTxn
    (.binary .and (.binary .eq .account (.regex "Food".toList))
      (.unary .not (.binary .eq .payee (.regex "Shop".toList)))) exPosting {}) =
    some (.bool true) := by decide +kernel

/-! ### C45: arithmetic -/

/-- Whatever number or amount of money any expression evaluates to, it is the exact value of the
expression: amounts of different commodities are added, subtracted, scaled and negated separately
in every commodity.  Written commodity names mean what the commodity list says they mean after
the evaluation. -/
theorem C45_exact (env : Env) (t : Txn Posting) (n : Ast) (p : Posting) (st st' : Commodities)
    (v : Val) (h : eval env t n p st = .ok (v, st')) :
    (∀ r, v = .number r → Means (resolves env st') p n (.num r)) ∧
    (∀ m, v = .money m → Means (resolves env st') p n (.amt m.amountIn)) := by
  have hρ : ∀ c x, st'.get env.lower c = .ok x → resolves env st' c = x.name := by
    intro c x hx; unfold resolves; rw [hx]
  refine ⟨?_, ?_⟩
  · rintro r rfl; exact means_eval env t _ n p st _ st' h hρ _ rfl
  · rintro m rfl; exact means_eval env t _ n p st _ st' h hρ _ rfl

/-- Evaluation never changes what a known commodity name means. -/
theorem C45_names_stable (env : Env) (t : Txn Posting) (n : Ast) (p : Posting)
    (st st' : Commodities) (v : Val) (h : eval env t n p st = .ok (v, st')) (c : Str)
    (x : CurrencyDef) (hx : st.get env.lower c = .ok x) : st'.get env.lower c = .ok x :=
  eval_kept env t n p st v st' h c x hx

/-- When two different commodities meet in a sum, a difference or an order comparison, both with a
non-zero amount, the evaluation panics; with the same commodity it succeeds. -/
theorem C45_mixing_panics (env : Env) (t : Txn Posting) (p : Posting) (l r : Ast)
    (st s1 s2 : Commodities) (a b : Rat) (c d : Cur)
    (hl : eval env t l p st = .ok (.money (.mk a c), s1))
    (hr : eval env t r p s1 = .ok (.money (.mk b d), s2)) :
    (c ≠ d → a ≠ 0 → b ≠ 0 →
      (eval env t (.binary .add l r) p st).isPanic = true ∧
      (eval env t (.binary .subtract l r) p st).isPanic = true) ∧
    (c ≠ d → ∀ op, op ∈ [BinaryOp.lt, .gt, .le, .ge] →
      (eval env t (.binary op l r) p st).isPanic = true) ∧
    (c = d →
      (∃ m, eval env t (.binary .add l r) p st = .ok (.money m, s2)) ∧
      (∃ m, eval env t (.binary .subtract l r) p st = .ok (.money m, s2)) ∧
      eval env t (.binary .lt l r) p st = .ok (.bool (decide (a < b)), s2) ∧
      eval env t (.binary .gt l r) p st = .ok (.bool (decide (b < a)), s2) ∧
      eval env t (.binary .le l r) p st = .ok (.bool (decide (a ≤ b)), s2) ∧
      eval env t (.binary .ge l r) p st = .ok (.bool (decide (b ≤ a)), s2)) := by
  have key : ∀ x : Balance, x.Reachable → (∃ c d, c ≠ d ∧ x.amountOf c ≠ 0 ∧ x.amountOf d ≠ 0) →
      unwrapMoney x = .error (.panic "to_money().unwrap()") := by
    intro x hx h
    unfold unwrapMoney
    rw [(C04_toMoney hx).2.2.mpr h]
  have key2 : ∀ x : Balance, x.Reachable → (∀ c d, x.amountOf c ≠ 0 → x.amountOf d ≠ 0 → c = d) →
      ∃ m, unwrapMoney x = .ok (.money m) := by
    intro x hx h
    obtain ⟨m, hm⟩ := (C04_toMoney hx).2.1.mpr h
    exact ⟨m, by unfold unwrapMoney; rw [hm]⟩
  have ra : (Money.add (.mk a c) (.mk b d)).Reachable := .add (.ofMoney _) (.ofMoney _)
  have rs : (Money.sub (.mk a c) (.mk b d)).Reachable := .sub (.ofMoney _) (.ofMoney _)
  have aa := C01_money_add (.mk a c) (.mk b d)
  have as := fun k => (C03_money (.mk a c) (.mk b d) k).2.2
  simp only [Money.amountIn_mk] at aa as
  refine ⟨?_, ?_, ?_⟩
  · intro hcd ha hb
    have hdc : d ≠ c := fun h => hcd h.symm
    simp only [eval, hl, hr, evalBinary, evalAddSub, if_true]
    rw [key _ ra ⟨c, d, hcd, by rw [aa]; simp [hdc, ha], by rw [aa]; simp [hcd, hb]⟩]
    simp only [Bool.false_eq_true, if_false]
    rw [key _ rs ⟨c, d, hcd, by rw [as]; simp [hdc, ha], by rw [as]; simp [hcd, hb]⟩]
    exact ⟨rfl, rfl⟩
  · intro hcd op hop
    have hc : Money.cmp (.mk a c) (.mk b d) = .error (.panic "Can't compare different currencies") := by
      simp [Money.cmp, Money.commodity, hcd]
    simp only [eval, hl, hr]
    simp only [List.mem_cons, List.not_mem_nil, or_false] at hop
    rcases hop with rfl | rfl | rfl | rfl <;> simp [evalBinary, evalCmp, Val.partialCmp, hc, Res.isPanic]
  · rintro rfl
    have hone : ∀ x : Balance, (∀ k, k ≠ c → x.amountOf k = 0) →
        ∀ k k', x.amountOf k ≠ 0 → x.amountOf k' ≠ 0 → k = k' := by
      intro x h k k' hk hk'
      have e1 : k = c := by by_contra hne; exact hk (h k hne)
      have e2 : k' = c := by by_contra hne; exact hk' (h k' hne)
      rw [e1, e2]
    obtain ⟨m1, hm1⟩ := key2 _ ra (hone _ (by intro k hk; rw [aa]; simp [hk.symm]))
    obtain ⟨m2, hm2⟩ := key2 _ rs (hone _ (by intro k hk; rw [as]; simp [hk.symm]))
    have hcmp := (C07_coherent_partial .zero .zero .zero).2.2.2.1 a b c
    simp only [eval, hl, hr, evalBinary, evalAddSub, evalCmp, Val.partialCmp, if_true,
      Bool.false_eq_true, if_false, hm1, hm2, hcmp]
    refine ⟨⟨m1, rfl⟩, ⟨m2, rfl⟩, ?_⟩
    rcases lt_trichotomy a b with h | h | h
    · have h2 := not_lt.mpr h.le
      have h3 := not_le.mpr h
      simp [h, h2, h3, h.le]
    · subst h; simp
    · have h2 := not_lt.mpr h.le
      have h3 := not_le.mpr h
      simp [h, h2, h3, h.le]

/-- Dividing by zero, dividing by money, adding a number and money, multiplying two amounts of
money: all panic. -/
theorem C45_ill_typed_panics (env : Env) (t : Txn Posting) (p : Posting) (l r : Ast)
    (st s1 s2 : Commodities) (x y : Val)
    (hl : eval env t l p st = .ok (x, s1)) (hr : eval env t r p s1 = .ok (y, s2)) :
    (y = .number 0 → (eval env t (.binary .div l r) p st).isPanic = true) ∧
    (∀ m, y = .money m → (eval env t (.binary .div l r) p st).isPanic = true) ∧
    (∀ a m, x = .number a → y = .money m →
      (eval env t (.binary .add l r) p st).isPanic = true ∧
      (eval env t (.binary .subtract l r) p st).isPanic = true) ∧
    (∀ m m', x = .money m → y = .money m' →
      (eval env t (.binary .mult l r) p st).isPanic = true) := by
  refine ⟨?_, ?_, ?_, ?_⟩
  · rintro rfl
    simp only [eval, hl, hr, evalBinary]
    cases x <;> simp [evalDiv, ratDiv, Money.div, Res.isPanic]
  · rintro m rfl
    simp only [eval, hl, hr, evalBinary]
    cases x <;> simp [evalDiv, Res.isPanic]
  · rintro a m rfl rfl
    simp [eval, hl, hr, evalBinary, evalAddSub, Res.isPanic]
  · rintro m m' rfl rfl
    simp [eval, hl, hr, evalBinary, evalMult, Res.isPanic]

/-- `(amount * 2 + 3 EUR) / 4` on a posting of 12 EUR is 27/4 EUR. -/
example : exVal (eval exEnv exTxn (.binary .div (.binary .add (.binary .mult .amount (.number 2))
    (.money "EUR".toList 3)) (.number 4)) exPosting {}) =
    some (.money (.mk (27/4) "EUR".toList)) := by decide +kernel

/-! ### C46: any -/

/-- If the body evaluates to a boolean on every posting of the transaction, `any(body)` evaluated
on one of its postings is true exactly when the body is true of some posting. -/
theorem C46_any (env : Env) (t : Txn Posting) (n : Ast) (v : Posting → Bool)
    (h : ∀ q ∈ t.postings, ∀ st, ∃ st', eval env t n q st = .ok (.bool (v q), st'))
    (p : Posting) (hp : p ∈ t.postings) (st : Commodities) :
    ∃ b st', eval env t (.unary .any n) p st = .ok (.bool b, st') ∧
      (b = true ↔ ∃ q ∈ t.postings, v q = true) := by
  obtain ⟨s1, h1⟩ := h p hp st
  simp only [eval, h1]
  have loop : ∀ (ps : List Posting) (s : Commodities), (∀ q ∈ ps, q ∈ t.postings) →
      ∃ b s', anyLoop (fun q s => eval env t n q s) ps s = .ok (.bool b, s') ∧
        (b = true ↔ ∃ q ∈ ps, v q = true) := by
    intro ps
    induction ps with
    | nil => intro s _; exact ⟨false, s, rfl, by simp⟩
    | cons q ps ih =>
      intro s hs
      obtain ⟨s2, h2⟩ := h q (hs q (by simp)) s
      cases hv : v q with
      | true =>
        refine ⟨true, s2, ?_, by simp [hv]⟩
        rw [hv] at h2; simp only [anyLoop, h2]
      | false =>
        obtain ⟨b, s', h3, h4⟩ := ih s2 (fun q' hq' => hs q' (by simp [hq']))
        refine ⟨b, s', ?_, by simp [h4, hv]⟩
        rw [hv] at h2; simp only [anyLoop, h2, h3]
  exact loop t.postings s1 (fun _ hq => hq)

/-- Without any assumption on the body: an answer `true` has a posting on which the body is true, an
answer `false` means that the body was false of every posting. -/
theorem C46_any_sound (env : Env) (t : Txn Posting) (n : Ast) (p : Posting) (st st' : Commodities)
    (b : Bool) (h : eval env t (.unary .any n) p st = .ok (.bool b, st')) :
    (b = true → ∃ q ∈ t.postings, ∃ s s', eval env t n q s = .ok (.bool true, s')) ∧
    (b = false → ∀ q ∈ t.postings, ∃ s s', eval env t n q s = .ok (.bool false, s')) := by
  simp only [eval] at h
  split at h
  · cases h
  · next w s hw =>
    clear hw w
    have loop : ∀ (ps : List Posting) (s : Commodities),
        anyLoop (fun q s => eval env t n q s) ps s = .ok (.bool b, st') →
        (b = true → ∃ q ∈ ps, ∃ s s', eval env t n q s = .ok (.bool true, s')) ∧
        (b = false → ∀ q ∈ ps, ∃ s s', eval env t n q s = .ok (.bool false, s')) := by
      intro ps
      induction ps with
      | nil => intro s h; cases h; simp
      | cons q ps ih =>
        intro s h
        simp only [anyLoop] at h
        split at h
        · cases h
        · next s2 h2 => cases h; exact ⟨fun _ => ⟨q, by simp, s, _, h2⟩, by simp⟩
        · next s2 h2 =>
          obtain ⟨i1, i2⟩ := ih s2 h
          refine ⟨?_, ?_⟩
          · intro hb
            obtain ⟨q', hq', h'⟩ := i1 hb
            exact ⟨q', by simp [hq'], h'⟩
          · intro hb q' hq'
            rcases List.mem_cons.mp hq' with rfl | hq'
            · exact ⟨s, s2, h2⟩
            · exact i2 hb q' hq'
        · cases h
    exact loop _ _ h

example : exVal (eval exEnv exTxn (.unary .any (.binary .eq .account (.regex "Cash".toList)))
    exPosting {}) =
    some (.bool true) := by decide +kernel

/-! ### C47: tags -/

/-- `has_tag(/re/)` is true iff the name of some tag of the posting matches; `tag(/re/)` is the value
of the first tag that matches, `tag("name")` that of the first tag with exactly that name. -/
theorem C47_tags (env : Env) (t : Txn Posting) (p : Posting) (pat name : Str) (st : Commodities) :
    (∃ b, eval env t (.unary .hasTag (.regex pat)) p st = .ok (.bool b, st) ∧
      (b = true ↔ ∃ g ∈ p.tags, env.rx pat g.name = true)) ∧
    (∀ pre g post, p.tags = pre ++ g :: post → env.rx pat g.name = true →
      (∀ g' ∈ pre, env.rx pat g'.name = false) →
      eval env t (.unary .tag (.regex pat)) p st = .ok (.string g.value, st)) ∧
    ((∀ g ∈ p.tags, env.rx pat g.name = false) →
      eval env t (.unary .tag (.regex pat)) p st = .ok (.string none, st)) ∧
    (∀ pre g post, p.tags = pre ++ g :: post → g.name = name → (∀ g' ∈ pre, g'.name ≠ name) →
      eval env t (.unary .tag (.string name)) p st = .ok (.string g.value, st)) ∧
    ((∀ g ∈ p.tags, g.name ≠ name) →
      eval env t (.unary .tag (.string name)) p st = .ok (.string none, st)) := by
  refine ⟨⟨p.hasTag env.rx pat, rfl, by simp [Posting.hasTag]⟩, ?_, ?_, ?_, ?_⟩
  · intro pre g post ht hg hpre
    simp only [eval, evalUnary, Posting.getTag]
    rw [ht, List.find?_append, List.find?_eq_none.mpr (by simpa using hpre)]
    simp [hg]
  · intro h
    simp only [eval, evalUnary, Posting.getTag]
    rw [List.find?_eq_none.mpr (by simpa using h)]
  · intro pre g post ht hg hpre
    simp only [eval, evalUnary, Posting.getExactTag]
    rw [ht, List.find?_append, List.find?_eq_none.mpr (by
      intro x hx; simpa using fun h => hpre x hx h.symm)]
    simp [hg]
  · intro h
    simp only [eval, evalUnary, Posting.getExactTag]
    rw [List.find?_eq_none.mpr (by intro x hx; simpa using fun e => h x hx e.symm)]

example : exVal (eval exEnv exTxn (.unary .tag (.regex "trip".toList)) exPosting {}) =
    some (.string (some "Rome".toList)) := by decide +kernel

/-! ### C74: matching against a regex -/

/-- `x =~ /re/`: an account or payee matches by its name, a text by itself, a missing text never, the
note iff some comment of the transaction matches; anything else cannot be matched and panics. -/
theorem C74_match (env : Env) (t : Txn Posting) (p : Posting) (l : Ast) (pat : Str)
    (st s1 : Commodities) (x : Val) (hl : eval env t l p st = .ok (x, s1)) :
    (∀ n, x = .account n ∨ x = .payee n ∨ x = .string (some n) →
      eval env t (.binary .eq l (.regex pat)) p st = .ok (.bool (env.rx pat n), s1)) ∧
    (x = .string none → eval env t (.binary .eq l (.regex pat)) p st = .ok (.bool false, s1)) ∧
    (x = .note → ∃ b, eval env t (.binary .eq l (.regex pat)) p st = .ok (.bool b, s1) ∧
      (b = true ↔ ∃ c ∈ t.comments, env.rx pat c = true)) ∧
    ((∃ r, x = .number r) ∨ (∃ m, x = .money m) ∨ (∃ b, x = .bool b) ∨ (∃ d, x = .date d) →
      (eval env t (.binary .eq l (.regex pat)) p st).isPanic = true) := by
  simp only [eval, hl, evalBinary]
  refine ⟨?_, ?_, ?_, ?_⟩
  · rintro n (rfl | rfl | rfl) <;> rfl
  · rintro rfl; rfl
  · rintro rfl; exact ⟨_, rfl, by simp⟩
  · rintro (⟨r, rfl⟩ | ⟨r, rfl⟩ | ⟨r, rfl⟩ | ⟨r, rfl⟩) <;> rfl

/-- What `account`, `payee`, `note` and a tag evaluate to, so that `C74_match` applies. -/
theorem C74_operands (env : Env) (t : Txn Posting) (p : Posting) (st : Commodities) (pat : Str) :
    eval env t .account p st = .ok (.account p.account, st) ∧
    (∀ n, p.payee = some n → eval env t .payee p st = .ok (.payee n, st)) ∧
    (p.payee = none → (eval env t .payee p st).isPanic = true) ∧
    eval env t .note p st = .ok (.note, st) ∧
    (∀ d, t.date = some d → eval env t .date p st = .ok (.date d, st)) ∧
    ∃ v, eval env t (.unary .tag (.regex pat)) p st = .ok (.string v, st) := by
  refine ⟨rfl, ?_, ?_, rfl, ?_, _, rfl⟩
  · intro n h; simp only [eval, h]
  · intro h; simp only [eval, h]; rfl
  · intro d h; simp only [eval, h]

example : exVal (eval exEnv { exTxn with comments := ["a trip".toList, "x".toList] }
      (.binary .eq .note (.regex "trip".toList)) exPosting {}) = some (.bool true) ∧
    exVal (eval exEnv exTxn (.binary .eq (.unary .tag (.regex "meal".toList)) (.regex "".toList))
      exPosting {}) = some (.bool false) := by decide +kernel

/-! ### C75: comparing -/

/-- The quantity two values are compared by. -/
def Val.quantity : Val → Option Rat
  | .number r => some r
  | .money m => some m.amount
  | .date d => some (d : Rat)
  | _ => none

theorem ratCmp_tests (a b : Rat) : (Money.ratCmp a b == .lt) = decide (a < b) ∧
    (Money.ratCmp a b == .gt) = decide (b < a) ∧ (Money.ratCmp a b != .gt) = decide (a ≤ b) ∧
    (Money.ratCmp a b != .lt) = decide (b ≤ a) := by
  unfold Money.ratCmp
  rcases lt_trichotomy a b with h | h | h
  · have h2 := not_lt.mpr h.le
    have h3 := not_le.mpr h
    simp [h, h2, h3, h.le]
  · subst h; simp
  · have h2 := not_lt.mpr h.le
    have h3 := not_le.mpr h
    simp [h, h2, h3, h.le]

theorem dateCmp_eq (a b : Date) : dateCmp a b = Money.ratCmp (a : Rat) (b : Rat) := by
  unfold dateCmp Money.ratCmp
  simp

/-- A number against a number or money (either way), and a date against a date: compared by quantity,
by calendar day; all five comparisons agree with the order of the rationals. -/
theorem C75_compare (env : Env) (t : Txn Posting) (p : Posting) (l r : Ast)
    (st s1 s2 : Commodities) (x y : Val) (a b : Rat)
    (hl : eval env t l p st = .ok (x, s1)) (hr : eval env t r p s1 = .ok (y, s2))
    (ha : x.quantity = some a) (hb : y.quantity = some b)
    (hk : (∃ n, x = .number n) ∧ (∀ d, y ≠ .date d) ∨ (∃ n, y = .number n) ∧ (∀ d, x ≠ .date d) ∨
      (∃ d e, x = .date d ∧ y = .date e)) :
    eval env t (.binary .lt l r) p st = .ok (.bool (decide (a < b)), s2) ∧
    eval env t (.binary .gt l r) p st = .ok (.bool (decide (b < a)), s2) ∧
    eval env t (.binary .le l r) p st = .ok (.bool (decide (a ≤ b)), s2) ∧
    eval env t (.binary .ge l r) p st = .ok (.bool (decide (b ≤ a)), s2) ∧
    eval env t (.binary .eq l r) p st = .ok (.bool (decide (a = b)), s2) := by
  have hcmp : Val.partialCmp x y = .ok (some (Money.ratCmp a b)) ∧
      evalEq env t x y = .ok (.bool (decide (a = b))) := by
    rcases hk with ⟨⟨n, rfl⟩, h⟩ | ⟨⟨n, rfl⟩, h⟩ | ⟨d, e, rfl, rfl⟩
    · cases y <;> simp only [Val.quantity, Option.some.injEq, reduceCtorEq] at ha hb
      · subst ha hb; exact ⟨rfl, by simp [evalEq, Val.eq, beq_eq_decide]⟩
      · subst ha hb; exact ⟨rfl, by simp [evalEq, Val.eq, beq_eq_decide]⟩
      · exact absurd rfl (h _)
    · cases x <;> simp only [Val.quantity, Option.some.injEq, reduceCtorEq] at ha hb
      · subst ha hb; exact ⟨rfl, by simp [evalEq, Val.eq, beq_eq_decide]⟩
      · subst ha hb; exact ⟨rfl, by simp [evalEq, Val.eq, beq_eq_decide]⟩
      · exact absurd rfl (h _)
    · simp only [Val.quantity, Option.some.injEq] at ha hb
      subst ha hb
      refine ⟨?_, ?_⟩
      · simp only [Val.partialCmp, dateCmp_eq]
      · simp [evalEq, Val.eq, beq_eq_decide]
  obtain ⟨h1, h2, h3, h4⟩ := ratCmp_tests a b
  simp only [eval, hl, hr, evalBinary, evalCmp, hcmp.1, hcmp.2, h1, h2, h3, h4]
  trivial

/-- The order of optional texts: a missing text first, then lexicographically. -/
def TextLt : Option Str → Option Str → Prop
  | none, some _ => True
  | some a, some b => a < b
  | _, none => False

/-- Two texts: equal iff they are the same text (a missing tag only equals a missing tag), and ordered
lexicographically, a missing one first.  Two amounts of money found equal have the same amount of
every commodity. -/
theorem C75_texts (env : Env) (t : Txn Posting) (p : Posting) (l r : Ast)
    (st s1 s2 : Commodities) :
    (∀ x y : Option Str, eval env t l p st = .ok (.string x, s1) →
      eval env t r p s1 = .ok (.string y, s2) →
      eval env t (.binary .eq l r) p st = .ok (.bool (decide (x = y)), s2) ∧
      (∃ b, eval env t (.binary .lt l r) p st = .ok (.bool b, s2) ∧ (b = true ↔ TextLt x y)) ∧
      (∃ b, eval env t (.binary .gt l r) p st = .ok (.bool b, s2) ∧ (b = true ↔ TextLt y x))) ∧
    (∀ x y : Money, eval env t l p st = .ok (.money x, s1) →
      eval env t r p s1 = .ok (.money y, s2) →
      ∃ b, eval env t (.binary .eq l r) p st = .ok (.bool b, s2) ∧
        (b = true → ∀ c, x.amountIn c = y.amountIn c)) := by
  refine ⟨?_, ?_⟩
  · intro x y hl hr
    have key : ((optStrCmp x y == .lt) = true ↔ TextLt x y) ∧
        ((optStrCmp x y == .gt) = true ↔ TextLt y x) := by
      cases x with
      | none => cases y <;> simp [optStrCmp, TextLt]
      | some a =>
        cases y with
        | none => simp [optStrCmp, TextLt]
        | some b =>
          simp only [optStrCmp, Money.strCmp, TextLt]
          by_cases h : a < b
          · have : ¬ b < a := fun h' => List.lt_irrefl _ (List.lt_trans h h')
            simp [h, this]
          · by_cases h' : b < a <;> simp [h, h']
    refine ⟨?_, ⟨optStrCmp x y == .lt, ?_, key.1⟩, ⟨optStrCmp x y == .gt, ?_, key.2⟩⟩ <;>
      simp only [eval, hl, hr, evalBinary, evalCmp, Val.partialCmp, evalEq, Val.eq, beq_eq_decide]
  · intro x y hl hr
    refine ⟨Money.eq x y, by simp only [eval, hl, hr, evalBinary, evalEq, Val.eq], ?_⟩
    intro h c
    cases x <;> cases y <;> simp_all [Money.eq, Money.amountIn, Money.commodity, Money.amount]

/-- Values of kinds that have no order: every order comparison is false; comparing them for equality
panics unless they are of the same kind. -/
theorem C75_unordered (env : Env) (t : Txn Posting) (p : Posting) (l r : Ast)
    (st s1 s2 : Commodities) (x y : Val) (op : BinaryOp)
    (hl : eval env t l p st = .ok (x, s1)) (hr : eval env t r p s1 = .ok (y, s2))
    (hop : op = .lt ∨ op = .gt ∨ op = .le ∨ op = .ge)
    (hx : (∃ b, x = .bool b) ∨ (∃ n, x = .account n) ∨ (∃ n, x = .payee n) ∨ (∃ n, x = .regex n) ∨
      x = .note) :
    eval env t (.binary op l r) p st = .ok (.bool false, s2) := by
  have : Val.partialCmp x y = .ok none := by
    rcases hx with ⟨_, rfl⟩ | ⟨_, rfl⟩ | ⟨_, rfl⟩ | ⟨_, rfl⟩ | rfl <;> cases y <;> rfl
  rcases hop with rfl | rfl | rfl | rfl <;> simp only [eval, hl, hr, evalBinary, evalCmp, this]

example : exVal (eval exEnv exTxn (.binary .gt (.number 13) .amount) exPosting {}) = some (.bool true) ∧
    exVal (eval exEnv exTxn (.binary .lt .date (.unary .toDate (.string []))) exPosting {}) =
      some (.bool false) ∧
    exVal (eval exEnv exTxn (.binary .le .account .account) exPosting {}) = some (.bool false) := by
  decide +kernel

/-! ### C42: filters -/

/-- A dated transaction: a posting is selected iff it is real or reality was not asked for, its
transaction is dated in the requested half-open period, and the query (if any) is true of it.  A
query that is not a boolean is an error exactly for the postings passing the other filters. -/
theorem C42_filter (env : Env) (o : FilterOpts) (node : Option Ast) (t : Txn Posting) (p : Posting)
    (st : Commodities) (d : Date) (hd : t.date = some d) :
    let inScope := (o.real = true → p.kind = .real) ∧ (∀ b, o.fromDate = some b → b ≤ d) ∧
      (∀ e, o.toDate = some e → d < e)
    (¬ inScope → filterPosting env o node t p st = .ok (false, st)) ∧
    (inScope → node = none → filterPosting env o node t p st = .ok (true, st)) ∧
    (inScope → ∀ n, node = some n →
      (∀ b st', filterPosting env o node t p st = .ok (b, st') ↔
        eval env t n p st = .ok (.bool b, st')) ∧
      (filterPosting env o node t p st = .error (.error .notBoolean) ↔
        ∃ v st', eval env t n p st = .ok (v, st') ∧ ∀ b, v ≠ .bool b)) := by
  intro inScope
  have hdec : inScope ∨ ¬ inScope := Classical.em _
  have hin : inScope → filterPosting env o node t p st =
      (match node with | none => .ok (true, st) | some n => filterExpression env t n p st) := by
    rintro ⟨h1, h2, h3⟩
    unfold filterPosting
    rw [if_neg (by
      simp only [Bool.and_eq_true, decide_eq_true_eq, not_and, not_not]; exact h1)]
    cases he : o.toDate with
    | none =>
      cases hb : o.fromDate with
      | none => rfl
      | some b => simp [hd, not_lt.mpr (h2 b hb)]; rfl
    | some e =>
      have := h3 e he
      cases hb : o.fromDate with
      | none => simp [hd, not_le.mpr this]; rfl
      | some b => simp [hd, not_le.mpr this, not_lt.mpr (h2 b hb)]; rfl
  refine ⟨?_, ?_, ?_⟩
  · intro hn
    unfold filterPosting
    by_cases h1 : (o.real && decide (p.kind ≠ .real)) = true
    · rw [if_pos h1]
    · rw [if_neg h1]
      have h1' : o.real = true → p.kind = .real := by
        simpa using h1
      rw [hd]
      cases he : o.toDate with
      | none =>
        cases hb : o.fromDate with
        | none => exact absurd ⟨h1', by simp [hb], by simp [he]⟩ hn
        | some b =>
          by_cases hlt : d < b
          · simp [hlt]
          · exact absurd ⟨h1', by simp [hb]; omega, by simp [he]⟩ hn
      | some e =>
        by_cases hge : e ≤ d
        · simp [hge]
        · cases hb : o.fromDate with
          | none => exact absurd ⟨h1', by simp [hb], by simp [he]; omega⟩ hn
          | some b =>
            by_cases hlt : d < b
            · simp [hlt, hge]
            · exact absurd ⟨h1', by simp [hb]; omega, by simp [he]; omega⟩ hn
  · rintro hs rfl; rw [hin hs]
  · rintro hs n rfl
    rw [hin hs]
    simp only [filterExpression]
    cases h : eval env t n p st with
    | error e =>
      have := eval_fail env t n .notBoolean p st
      rw [h] at this
      simpa using this
    | ok r =>
      obtain ⟨v, s⟩ := r
      cases v <;> simp

/-- The postings of a dated transaction are real, dated 100 and in the selected period. -/
example : (filterPosting exEnv { real := true, fromDate := some 90, toDate := some 101 }
    (some (.binary .gt .amount (.number 10))) exTxn exPosting {}).toOption.map Prod.fst = some true ∧
    (filterPosting exEnv { toDate := some 100 } none exTxn exPosting {}).toOption.map Prod.fst =
      some false := by decide +kernel

end Dinero
