import Verif.Spec.Grammar
import Verif.Lemmas.Peg
import Verif.Lemmas.Display
/-
Helper lemmas on the expression grammar: unambiguously written expressions are read back.
-/
namespace Dinero
open P

/-- Skipping blanks. -/
abbrev skip (s : Str) : Str := s.dropWhile (fun c => ' ' == c)

theorem skip_cons_ne {c : Char} {s : Str} (h : c ≠ ' ') : skip (c :: s) = c :: s := by
  have : (' ' == c) = false := by simpa using fun e => h e.symm
  simp [skip, this]
theorem skip_space {s : Str} : skip (' ' :: s) = skip s := by simp [skip]

theorem lit_none {l s : Str} (hl : l ≠ []) (h : s.head? ≠ l.head?) : lit l s = none := by
  cases l with
  | nil => exact absurd rfl hl
  | cons a l =>
    cases s with
    | nil => rfl
    | cons b s =>
      have : (a == b) = false := by
        simp only [List.head?_cons, ne_eq, Option.some.injEq] at h
        simpa using fun e => h e.symm
      simp [lit, List.isPrefixOf, this]

theorem lits_none {ls : List String} {s : Str}
    (h : ∀ l ∈ ls, l.toList ≠ [] ∧ s.head? ≠ l.toList.head?) : lits ls s = none := by
  induction ls with
  | nil => rfl
  | cons l ls ih =>
    have hl := h l (by simp)
    rw [lits, alt_right (lit_none hl.1 hl.2)]
    exact ih (fun l' hl' => h l' (by simp [hl']))

/-! ### Levels -/

theorem level_single {r : Rule} {op p : P} {s k : Str} {pr : Pair} (hp : p s = some ([pr], k))
    (hop : op (skip k) = none) : ∃ tx, gLevel r op p s = some ([.mk r tx [pr]], skip k) := by
  unfold gLevel
  refine rule_some' (k := skip k) ?_
  have h1 := seq_some (wss_eq k) (star_none (a := seq op (seq wss p)) (seq_none hop))
  have h2 := seq_some hp h1
  simpa using h2

theorem level_double {r : Rule} {op p : P} {s k k1 k3 : Str} {pl po pr : Pair}
    (hl : p s = some ([pl], k)) (hne : skip k ≠ []) (ho : op (skip k) = some ([po], k1))
    (hr : p (skip k1) = some ([pr], k3)) (hop : op k3 = none) :
    ∃ tx, gLevel r op p s = some ([.mk r tx [pl, po, pr]], k3) := by
  unfold gLevel
  refine rule_some' (k := k3) ?_
  have h0 : seq op (seq wss p) (skip k) = some ([po, pr], k3) := by
    have := seq_some ho (seq_some (wss_eq k1) hr)
    simpa using this
  have h1 := seq_some (wss_eq k) (star_one hne h0 (seq_none hop))
  have h2 := seq_some hl h1
  simpa using h2

/-- Does this rule belong to one of the five operator levels? -/
abbrev isLevel (r : Rule) : Prop :=
  r ∈ [Rule.comparisonExpr, .orExpr, .andExpr, .additiveExpr, .multiplicativeExpr]

theorem build_single (env : Env) {r : Rule} (hr : isLevel r) (tx : Str) (p : Pair) :
    buildAst env (.mk r tx [p]) = buildAst env p := by
  simp only [isLevel, List.mem_cons, List.not_mem_nil, or_false] at hr
  rcases hr with rfl | rfl | rfl | rfl | rfl <;> simp [buildAst]

theorem build_double (env : Env) {r : Rule} (hr : isLevel r) (tx : Str) (pl po pr : Pair) {l rr : Ast}
    {o : BinaryOp} (hl : buildAst env pl = .ok l) (ho : binaryOf r po.text = .ok o)
    (hrr : buildAst env pr = .ok rr) :
    buildAst env (.mk r tx [pl, po, pr]) = .ok (.binary o l rr) := by
  simp only [isLevel, List.mem_cons, List.not_mem_nil, or_false] at hr
  rcases hr with rfl | rfl | rfl | rfl | rfl <;> simp [buildAst, hl, ho, hrr]

theorem build_expr (env : Env) (tx : Str) (p : Pair) :
    buildAst env (.mk .expr tx [p]) = buildAst env p := by simp [buildAst]

/-- The parsers of the operator levels above primaries. -/
abbrev gMul (env : Env) (n : Nat) : P := gLevel .multiplicativeExpr gMult (gPrimary env (gExprN env n))
abbrev gAddL (env : Env) (n : Nat) : P := gLevel .additiveExpr gAdd (gMul env n)
abbrev gCmp (env : Env) (n : Nat) : P := gLevel .comparisonExpr gComparison (gAddL env n)
abbrev gAndL (env : Env) (n : Nat) : P := gLevel .andExpr gAnd (gCmp env n)
abbrev gOrL (env : Env) (n : Nat) : P := gLevel .orExpr gOr (gAndL env n)

theorem gExprN_succ (env : Env) (n : Nat) : gExprN env (n + 1) = rule .expr (gOrL env n) := rfl

/-- `p` reads an expression meaning `e` at the start of `s`, leaving `k`. -/
def Reads (env : Env) (p : P) (s k : Str) (e : Ast) : Prop :=
  ∃ pr, p s = some ([pr], k) ∧ buildAst env pr = .ok e

theorem Reads.single {env : Env} {r : Rule} (hr : isLevel r) {op p : P} {s k : Str} {e : Ast}
    (h : Reads env p s k e) (hop : op (skip k) = none) : Reads env (gLevel r op p) s (skip k) e := by
  obtain ⟨pr, h1, h2⟩ := h
  obtain ⟨tx, h3⟩ := level_single (r := r) h1 hop
  exact ⟨_, h3, by rw [build_single env hr, h2]⟩

theorem Reads.double {env : Env} {r : Rule} (hr : isLevel r) {op p : P} {s k k1 k3 : Str} {po : Pair}
    {l rr : Ast} {o : BinaryOp}
    (hl : Reads env p s k l) (hne : skip k ≠ []) (ho : op (skip k) = some ([po], k1))
    (hb : binaryOf r po.text = .ok o)
    (hrr : Reads env p (skip k1) k3 rr) (hop : op k3 = none) :
    Reads env (gLevel r op p) s k3 (.binary o l rr) := by
  obtain ⟨pl, h1, h2⟩ := hl
  obtain ⟨pr, h3, h4⟩ := hrr
  obtain ⟨tx, h5⟩ := level_double (r := r) h1 hne ho h3 hop
  exact ⟨_, h5, build_double env hr tx pl po pr h2 hb h4⟩

theorem Reads.expr {env : Env} {n : Nat} {s k : Str} {e : Ast} (h : Reads env (gOrL env n) s k e) :
    ∃ pr, gExprN env (n + 1) s = some ([pr], k) ∧ buildAst env pr = .ok e ∧ pr.rule = .expr := by
  obtain ⟨pr, h1, h2⟩ := h
  rw [gExprN_succ]
  obtain ⟨tx, h3⟩ := rule_some' (r := .expr) h1
  exact ⟨_, h3, by rw [build_expr, h2], rfl⟩

/-- Every operator parser fails in front of a closing parenthesis. -/
theorem ops_close (k : Str) : gMult (')' :: k) = none ∧ gAdd (')' :: k) = none ∧
    gComparison (')' :: k) = none ∧ gAnd (')' :: k) = none ∧ gOr (')' :: k) = none := by
  refine ⟨rule_none ?_, rule_none ?_, rule_none ?_, rule_none ?_, rule_none ?_⟩ <;>
    (apply lits_none; simp)

theorem skip_close (k : Str) : skip (')' :: k) = ')' :: k := skip_cons_ne (by decide)

/-- A single primary followed by a closing parenthesis is a whole expression. -/
theorem Reads.alone {env : Env} {n : Nat} {s k : Str} {e : Ast}
    (h : Reads env (gPrimary env (gExprN env n)) s (')' :: k) e) :
    Reads env (gOrL env n) s (')' :: k) e := by
  obtain ⟨h1, h2, h3, h4, h5⟩ := ops_close k
  have e1 := Reads.single (r := .multiplicativeExpr) (by decide) h (by rw [skip_close]; exact h1)
  rw [skip_close] at e1
  have e2 := Reads.single (r := .additiveExpr) (by decide) e1 (by rw [skip_close]; exact h2)
  rw [skip_close] at e2
  have e3 := Reads.single (r := .comparisonExpr) (by decide) e2 (by rw [skip_close]; exact h3)
  rw [skip_close] at e3
  have e4 := Reads.single (r := .andExpr) (by decide) e3 (by rw [skip_close]; exact h4)
  rw [skip_close] at e4
  have e5 := Reads.single (r := .orExpr) (by decide) e4 (by rw [skip_close]; exact h5)
  rw [skip_close] at e5
  exact e5

theorem op_mult {op : BinaryOp} (h : op = .mult ∨ op = .div) (k : Str) :
    gMult (op.text ++ ' ' :: k) = some ([.mk .mult op.text []], ' ' :: k) ∧
    binaryOf .multiplicativeExpr op.text = .ok op := by
  rcases h with rfl | rfl <;> exact ⟨rule_some (by rfl), by decide⟩

theorem op_add {op : BinaryOp} (h : op = .add ∨ op = .subtract) (k : Str) :
    gMult (op.text ++ k) = none ∧
    gAdd (op.text ++ ' ' :: k) = some ([.mk .add op.text []], ' ' :: k) ∧
    binaryOf .additiveExpr op.text = .ok op := by
  rcases h with rfl | rfl <;> exact ⟨rule_none (by rfl), rule_some (by rfl), by decide⟩

theorem op_cmp {op : BinaryOp} (h : op = .eq ∨ op = .ge ∨ op = .gt ∨ op = .le ∨ op = .lt) (k : Str) :
    gMult (op.text ++ k) = none ∧ gAdd (op.text ++ k) = none ∧
    gComparison (op.text ++ ' ' :: k) = some ([.mk .comparison op.text []], ' ' :: k) ∧
    binaryOf .comparisonExpr op.text = .ok op := by
  rcases h with rfl | rfl | rfl | rfl | rfl <;>
    exact ⟨rule_none (by rfl), rule_none (by rfl), rule_some (by rfl), by decide⟩

theorem op_and (k : Str) :
    gMult (BinaryOp.and.text ++ k) = none ∧ gAdd (BinaryOp.and.text ++ k) = none ∧
    gComparison (BinaryOp.and.text ++ k) = none ∧
    gAnd (BinaryOp.and.text ++ ' ' :: k) = some ([.mk .and BinaryOp.and.text []], ' ' :: k) ∧
    binaryOf .andExpr BinaryOp.and.text = .ok .and :=
  ⟨rule_none (by rfl), rule_none (by rfl), rule_none (by rfl), rule_some (by rfl), by decide⟩

theorem op_or (k : Str) :
    gMult (BinaryOp.or.text ++ k) = none ∧ gAdd (BinaryOp.or.text ++ k) = none ∧
    gComparison (BinaryOp.or.text ++ k) = none ∧ gAnd (BinaryOp.or.text ++ k) = none ∧
    gOr (BinaryOp.or.text ++ ' ' :: k) = some ([.mk .or BinaryOp.or.text []], ' ' :: k) ∧
    binaryOf .orExpr BinaryOp.or.text = .ok .or :=
  ⟨rule_none (by rfl), rule_none (by rfl), rule_none (by rfl), rule_none (by rfl),
    rule_some (by rfl), by decide⟩

theorem skip_op (op : BinaryOp) (k : Str) : skip (' ' :: op.text ++ k) = op.text ++ k ∧
    skip (op.text ++ k) = op.text ++ k ∧ op.text ++ k ≠ [] := by
  cases op <;> exact ⟨rfl, rfl, by simp [BinaryOp.text]⟩

/-- Two primaries joined by one operator, in front of a closing parenthesis. -/
theorem Reads.binary {env : Env} {n : Nat} {s sr k : Str} {op : BinaryOp} {l r : Ast}
    (hl : Reads env (gPrimary env (gExprN env n)) s (' ' :: op.text ++ ' ' :: (sr ++ ')' :: k)) l)
    (hsr : skip (sr ++ ')' :: k) = sr ++ ')' :: k)
    (hr : Reads env (gPrimary env (gExprN env n)) (sr ++ ')' :: k) (')' :: k) r) :
    Reads env (gOrL env n) s (')' :: k) (.binary op l r) := by
  obtain ⟨c1, c2, c3, c4, c5⟩ := ops_close k
  obtain ⟨s1, s2, s3⟩ := skip_op op (' ' :: (sr ++ ')' :: k))
  have hsr' : skip (' ' :: (sr ++ ')' :: k)) = sr ++ ')' :: k := by rw [skip_space, hsr]
  -- reading one operand at each level, on the left and on the right
  have up : ∀ {rl : Rule} (_ : isLevel rl) {o p : P}, o (op.text ++ ' ' :: (sr ++ ')' :: k)) = none →
      ∀ {x : Str}, skip x = op.text ++ ' ' :: (sr ++ ')' :: k) → Reads env p s x l →
      Reads env (gLevel rl o p) s (op.text ++ ' ' :: (sr ++ ')' :: k)) l := by
    intro rl hrl o p ho x hx h
    have := Reads.single hrl h (op := o) (by rw [hx]; exact ho)
    rwa [hx] at this
  have close : ∀ {rl : Rule} (_ : isLevel rl) {o p : P}, o (')' :: k) = none →
      ∀ {y : Str} {e : Ast}, Reads env p y (')' :: k) e → Reads env (gLevel rl o p) y (')' :: k) e := by
    intro rl hrl o p ho y e h
    have := Reads.single hrl h (op := o) (by rw [skip_close]; exact ho)
    rwa [skip_close] at this
  have join : ∀ {rl : Rule} (_ : isLevel rl) {o p : P} {po : Pair},
      o (op.text ++ ' ' :: (sr ++ ')' :: k)) = some ([po], ' ' :: (sr ++ ')' :: k)) →
      binaryOf rl po.text = .ok op → o (')' :: k) = none →
      ∀ {x : Str}, skip x = op.text ++ ' ' :: (sr ++ ')' :: k) → Reads env p s x l →
      Reads env p (sr ++ ')' :: k) (')' :: k) r →
      Reads env (gLevel rl o p) s (')' :: k) (.binary op l r) := by
    intro rl hrl o p po ho hb hc x hx h h'
    refine Reads.double hrl h (by rw [hx]; exact s3) (by rw [hx]; exact ho) hb ?_ hc
    rw [hsr']; exact h'
  have level : (op = .mult ∨ op = .div) ∨ (op = .add ∨ op = .subtract) ∨
      (op = .eq ∨ op = .ge ∨ op = .gt ∨ op = .le ∨ op = .lt) ∨ op = .and ∨ op = .or := by
    cases op <;> simp
  rcases level with h | h | h | h | h
  · obtain ⟨o1, o2⟩ := op_mult h (sr ++ ')' :: k)
    have e1 := join (rl := .multiplicativeExpr) (by decide) o1 o2 c1 s1 hl hr
    exact close (rl := .orExpr) (by decide) c5 (close (rl := .andExpr) (by decide) c4
      (close (rl := .comparisonExpr) (by decide) c3 (close (rl := .additiveExpr) (by decide) c2 e1)))
  · obtain ⟨o0, _⟩ := op_add h (' ' :: (sr ++ ')' :: k))
    obtain ⟨_, o1, o2⟩ := op_add h (sr ++ ')' :: k)
    have l1 := up (rl := .multiplicativeExpr) (by decide) o0 s1 hl
    have r1 := close (rl := .multiplicativeExpr) (by decide) c1 hr
    have e1 := join (rl := .additiveExpr) (by decide) o1 o2 c2 s2 l1 r1
    exact close (rl := .orExpr) (by decide) c5 (close (rl := .andExpr) (by decide) c4
      (close (rl := .comparisonExpr) (by decide) c3 e1))
  · obtain ⟨o0, o0', _⟩ := op_cmp h (' ' :: (sr ++ ')' :: k))
    obtain ⟨_, _, o1, o2⟩ := op_cmp h (sr ++ ')' :: k)
    have l1 := up (rl := .additiveExpr) (by decide) o0' s2
      (up (rl := .multiplicativeExpr) (by decide) o0 s1 hl)
    have r1 := close (rl := .additiveExpr) (by decide) c2
      (close (rl := .multiplicativeExpr) (by decide) c1 hr)
    have e1 := join (rl := .comparisonExpr) (by decide) o1 o2 c3 s2 l1 r1
    exact close (rl := .orExpr) (by decide) c5 (close (rl := .andExpr) (by decide) c4 e1)
  · subst h
    obtain ⟨o0, o0', o0'', _⟩ := op_and (' ' :: (sr ++ ')' :: k))
    obtain ⟨_, _, _, o1, o2⟩ := op_and (sr ++ ')' :: k)
    have l1 := up (rl := .comparisonExpr) (by decide) o0'' s2 (up (rl := .additiveExpr) (by decide) o0' s2
      (up (rl := .multiplicativeExpr) (by decide) o0 s1 hl))
    have r1 := close (rl := .comparisonExpr) (by decide) c3 (close (rl := .additiveExpr) (by decide) c2
      (close (rl := .multiplicativeExpr) (by decide) c1 hr))
    have e1 := join (rl := .andExpr) (by decide) o1 o2 c4 s2 l1 r1
    exact close (rl := .orExpr) (by decide) c5 e1
  · subst h
    obtain ⟨o0, o0', o0'', o0''', _⟩ := op_or (' ' :: (sr ++ ')' :: k))
    obtain ⟨_, _, _, _, o1, o2⟩ := op_or (sr ++ ')' :: k)
    have l1 := up (rl := .andExpr) (by decide) o0''' s2
      (up (rl := .comparisonExpr) (by decide) o0'' s2 (up (rl := .additiveExpr) (by decide) o0' s2
      (up (rl := .multiplicativeExpr) (by decide) o0 s1 hl)))
    have r1 := close (rl := .andExpr) (by decide) c4 (close (rl := .comparisonExpr) (by decide) c3
      (close (rl := .additiveExpr) (by decide) c2 (close (rl := .multiplicativeExpr) (by decide) c1 hr)))
    exact join (rl := .orExpr) (by decide) o1 o2 c5 s2 l1 r1

/-! ### Primaries -/

/-- What may follow an operand: a closing parenthesis, or an operator between blanks. -/
def Follow (k : Str) : Prop :=
  (∃ k', k = ')' :: k') ∨ ∃ (op : BinaryOp) (k' : Str), k = ' ' :: op.text ++ ' ' :: k'

/-- What may follow a plain number: a closing parenthesis, or an operator other than `and`, `or`. -/
def FollowNum (k : Str) : Prop :=
  (∃ k', k = ')' :: k') ∨
  ∃ (op : BinaryOp) (k' : Str), op ≠ .and ∧ op ≠ .or ∧ k = ' ' :: op.text ++ ' ' :: k'

theorem FollowNum.follow {k : Str} (h : FollowNum k) : Follow k := by
  rcases h with h | ⟨op, k', _, _, h⟩
  · exact .inl h
  · exact .inr ⟨op, k', h⟩

theorem Follow.head {k : Str} (h : Follow k) : k.head? = some ')' ∨ k.head? = some ' ' := by
  rcases h with ⟨k', rfl⟩ | ⟨op, k', rfl⟩ <;> simp

abbrev isDig (c : Char) : Bool := decide ('0' ≤ c) && decide (c ≤ '9')

theorem bigint_none {s : Str} (h : ∀ c, s.head? = some c → isDig c = false) : bigint s = none :=
  plus_chr_none h

theorem bigint_some {t k : Str} (ht : IsDigits t) (hk : ∀ c, k.head? = some c → isDig c = false) :
    bigint (t ++ k) = some ([], k) :=
  plus_chr_append ht.1 (fun c hc => by simpa [isDig] using ht.2 c hc) hk

/-- No number starts here. -/
theorem gNumber_none {s : Str} (h : ∀ c, s.head? = some c → isDig c = false)
    (h' : ∀ c r, s = '-' :: c :: r → isDig c = false) : gNumber s = none := by
  apply rule_none
  by_cases hm : s.head? = some '-'
  · obtain ⟨r, rfl⟩ : ∃ r, s = '-' :: r := by cases s <;> simp_all
    have : opt (lit ['-']) ('-' :: r) = some ([], r) := alt_left (lit_append ['-'] r)
    refine seq_none' this (seq_none (bigint_none ?_))
    intro c hc
    cases r with
    | nil => cases hc
    | cons d r => obtain rfl : d = c := by simpa using hc
                  exact h' _ r rfl
  · have : opt (lit ['-']) s = some ([], s) := by
      unfold opt; rw [alt_right (lit_none (by simp) (by simpa using hm))]; rfl
    exact seq_none' this (seq_none (bigint_none h))

theorem IsDigits.head {t : Str} (h : IsDigits t) : ∃ c r, t = c :: r ∧ isDig c = true := by
  cases t with
  | nil => exact absurd rfl h.1
  | cons c r => exact ⟨c, r, rfl, by simpa [isDig] using h.2 c (by simp)⟩

theorem IsNumeral.head {t : Str} (h : IsNumeral t) : ∃ c r, t = c :: r ∧ isDig c = true := by
  rcases h with h | ⟨a, b, rfl, ha, _⟩
  · exact h.head
  · obtain ⟨c, r, rfl, hc⟩ := ha.head; exact ⟨c, r ++ '.' :: b, rfl, hc⟩

theorem gNumber_some {t k : Str} (ht : IsNumeral t) (hk : ∀ c, k.head? = some c → isDig c = false)
    (hk' : k.head? ≠ some '.') : gNumber (t ++ k) = some ([.mk .number t []], k) := by
  apply rule_some
  obtain ⟨c, r, hcr, hc⟩ := ht.head
  have h0 : opt (lit ['-']) (t ++ k) = some ([], t ++ k) := by
    unfold opt; rw [alt_right (lit_none (by simp) ?_)]; rfl
    subst hcr
    intro h
    simp only [List.cons_append, List.head?_cons, Option.some.injEq] at h
    subst h; revert hc; decide
  rcases ht with ht | ⟨a, b, rfl, ha, hb⟩
  · have h1 := bigint_some ht hk
    have h2 : opt (seq (lit ['.']) bigint) k = some ([], k) := by
      unfold opt; rw [alt_right (seq_none (lit_none (by simp) (by simpa using hk')))]; rfl
    exact seq_some h0 (seq_some h1 h2)
  · have e : a ++ '.' :: b ++ k = a ++ ('.' :: (b ++ k)) := by simp
    rw [e] at h0 ⊢
    have h1 := bigint_some (k := '.' :: (b ++ k)) ha (by intro d hd; cases hd; decide)
    have h2 : opt (seq (lit ['.']) bigint) ('.' :: (b ++ k)) = some ([], k) :=
      alt_left (seq_some (lit_append ['.'] _) (bigint_some hb hk))
    exact seq_some h0 (seq_some h1 h2)

theorem gNumber_neg {t k : Str} (ht : IsNumeral t) (hk : ∀ c, k.head? = some c → isDig c = false)
    (hk' : k.head? ≠ some '.') : gNumber ('-' :: t ++ k) = some ([.mk .number ('-' :: t) []], k) := by
  apply rule_some
  have h0 : opt (lit ['-']) ('-' :: t ++ k) = some ([], t ++ k) := alt_left (lit_append ['-'] _)
  rcases ht with ht | ⟨a, b, rfl, ha, hb⟩
  · have h1 := bigint_some ht hk
    have h2 : opt (seq (lit ['.']) bigint) k = some ([], k) := by
      unfold opt; rw [alt_right (seq_none (lit_none (by simp) (by simpa using hk')))]; rfl
    exact seq_some h0 (seq_some h1 h2)
  · have e : a ++ '.' :: b ++ k = a ++ ('.' :: (b ++ k)) := by simp
    rw [e] at h0
    have h1 := bigint_some (k := '.' :: (b ++ k)) ha (by intro d hd; cases hd; decide)
    have h2 : opt (seq (lit ['.']) bigint) ('.' :: (b ++ k)) = some ([], k) :=
      alt_left (seq_some (lit_append ['.'] _) (bigint_some hb hk))
    exact seq_some h0 (seq_some h1 h2)

/-! ### Numerals -/

theorem natOf_foldl (s : Str) (h : ∀ c ∈ s, '0' ≤ c ∧ c ≤ '9') (m : Nat) :
    s.foldl (fun acc c => acc.bind (fun n =>
      if '0' ≤ c ∧ c ≤ '9' then some (10 * n + (c.toNat - 48)) else none)) (some m) =
    some (s.foldl (fun n c => 10 * n + (c.toNat - 48)) m) := by
  induction s generalizing m with
  | nil => rfl
  | cons c s ih =>
    simp only [List.foldl_cons, Option.bind_some]
    rw [if_pos (h c (by simp))]
    exact ih (fun c' hc' => h c' (by simp [hc'])) _

theorem natOf_digits {s : Str} (h : IsDigits s) : natOf s = some (digitsVal s) := by
  unfold natOf
  rw [if_neg h.1, natOf_foldl s h.2 0]; rfl

theorem intOf_digits {s : Str} (h : IsDigits s) : intOf s = some (digitsVal s : Int) := by
  obtain ⟨c, r, rfl, hc⟩ := h.head
  have h1 : c ≠ '-' := by rintro rfl; revert hc; decide
  have h2 : c ≠ '+' := by rintro rfl; revert hc; decide
  unfold intOf
  split
  · rename_i heq; cases heq; exact absurd rfl h1
  · rename_i heq; cases heq; exact absurd rfl h2
  · rw [natOf_digits h]; rfl

theorem digitsVal_append (a b : Str) : digitsVal (a ++ b) = digitsVal a * 10 ^ b.length + digitsVal b := by
  induction b using List.reverseRecOn with
  | nil => simp [digitsVal]
  | append_singleton b c ih =>
    rw [← List.append_assoc, digitsVal_snoc, digitsVal_snoc, ih, List.length_append, List.length_singleton,
      pow_succ]
    ring

theorem IsDigits.no_dot {s : Str} (h : IsDigits s) : ∀ c ∈ s, c ≠ '.' := by
  rintro c hc rfl
  exact absurd (h.2 _ hc).1 (by decide)

theorem IsDigits.filter {s : Str} (h : IsDigits s) : s.filter (· ≠ '.') = s :=
  List.filter_eq_self.mpr (fun c hc => by simpa using h.no_dot c hc)

theorem IsDigits.dropWhile {s : Str} (h : IsDigits s) : s.dropWhile (· ≠ '.') = [] := by
  have := List.dropWhile_append_of_pos (p := (· ≠ '.')) (l₂ := [])
    (fun c hc => by simpa using h.no_dot c hc : ∀ c ∈ s, decide (c ≠ '.') = true)
  rwa [List.append_nil] at this

theorem parseRational_numeral {t : Str} (h : IsNumeral t) : parseRational t = .ok (unsignedVal t) := by
  rcases h with h | ⟨a, b, rfl, ha, hb⟩
  · unfold parseRational
    rw [h.filter, intOf_digits h, h.dropWhile]
    unfold unsignedVal
    have h2 : t.takeWhile (· ≠ '.') = t := by
      have := List.takeWhile_append_of_pos (p := (· ≠ '.')) (l₂ := [])
        (fun c hc => by simpa using h.no_dot c hc : ∀ c ∈ t, decide (c ≠ '.') = true)
      rw [List.append_nil] at this
      rw [this]; simp
    rw [h2, h.dropWhile]
    simp [digitsVal]
  · unfold parseRational
    have h1 : (a ++ '.' :: b).filter (· ≠ '.') = a ++ b := by
      rw [List.filter_append, ha.filter, List.filter_cons, hb.filter]; simp
    have h2 : IsDigits (a ++ b) := ⟨by simp [ha.1], by
      intro c hc; rcases List.mem_append.mp hc with hc | hc; exacts [ha.2 c hc, hb.2 c hc]⟩
    have h3 : (a ++ '.' :: b).dropWhile (· ≠ '.') = '.' :: b := by
      rw [List.dropWhile_append_of_pos (fun c hc => by simpa using ha.no_dot c hc)]
      simp
    have h4 : ('.' :: b).filter (· ≠ '.') = b := by
      rw [List.filter_cons, hb.filter]; simp
    have h5 : (a ++ '.' :: b).takeWhile (· ≠ '.') = a := by
      rw [List.takeWhile_append_of_pos (fun c hc => by simpa using ha.no_dot c hc)]
      simp
    rw [h1, intOf_digits h2, h3, h4]
    unfold unsignedVal
    rw [h5, h3, digitsVal_append]
    simp only [List.drop_one, List.tail_cons]
    congr 1
    push_cast
    have : (10 ^ b.length : Rat) ≠ 0 := by positivity
    field_simp

/-! ### Words -/

theorem Follow.number {k : Str} (h : Follow k) : gNumber (skip k) = none := by
  rcases h with ⟨k', rfl⟩ | ⟨op, k', rfl⟩
  · rw [skip_close]
    exact gNumber_none (by intro c hc; cases hc; decide) (by intro c r hc; cases hc)
  · rw [(skip_op op _).1]
    cases op <;> refine gNumber_none (by intro c hc; cases hc; decide) ?_ <;>
      (intro c r hc; first | cases hc; done | (cases hc; decide))

/-- The text of a plain word. -/
def IsWord (env : Env) (t : Str) : Prop :=
  t ≠ [] ∧ (∀ c ∈ t, (!reserved c && !env.sep c) = true) ∧
  ∀ c, t.head? = some c → c ≠ '=' ∧ c ≠ '-' ∧ c ≠ '&' ∧ c ≠ '"' ∧ c ≠ '\''

theorem IsWord.unquoted {env : Env} {t k : Str} (h : IsWord env t)
    (hk : ∀ c, k.head? = some c → (!reserved c && !env.sep c) = false) :
    gUnquoted env (t ++ k) = some ([.mk .unquoted t []], k) := by
  refine rule_some (x := []) ?_
  obtain ⟨h1, h2, h3⟩ := h
  refine seq_some (x := []) (s1 := t ++ k) ?_ (plus_chr_append h1 h2 hk)
  cases t with
  | nil => exact absurd rfl h1
  | cons c t =>
    obtain ⟨a1, a2, a3, _⟩ := h3 c rfl
    have := h2 c (by simp)
    simp only [Bool.and_eq_true, Bool.not_eq_true'] at this
    simp [neg, chr, this.1, a1, a2, a3]

theorem quoted_none {q : Char} {s : Str} (h : s.head? ≠ some q) : quoted q s = none := by
  cases s with
  | nil => rfl
  | cons c s =>
    have : c ≠ q := by rintro rfl; exact h rfl
    simp [quoted, this]

theorem gString_none {s : Str} (h : s.head? ≠ some '"') (h' : s.head? ≠ some '\'') :
    gString s = none := by
  apply rule_none
  rw [alt_right (quoted_none h)]
  exact quoted_none h'

theorem IsWord.currency {env : Env} {t k : Str} (h : IsWord env t)
    (hk : ∀ c, k.head? = some c → (!reserved c && !env.sep c) = false) :
    gCurrency env (t ++ k) = some ([.mk .currency t [.mk .unquoted t []]], k) := by
  apply rule_some
  rw [alt_right, h.unquoted hk]
  obtain ⟨h1, h2, h3⟩ := h
  cases t with
  | nil => exact absurd rfl h1
  | cons c t =>
    obtain ⟨_, _, _, a4, a5⟩ := h3 c rfl
    exact gString_none (by simpa using a4) (by simpa using a5)

theorem Follow.stop {env : Env} (ha : env.AsciiSep) {k : Str} (h : Follow k) :
    ∀ c, k.head? = some c → (!reserved c && !env.sep c) = false := by
  intro c hc
  rcases h.head with h | h <;> rw [h] at hc <;> cases hc
  · simp [show reserved ')' = true by decide]
  · simp [(ha ' ' (by decide)).mpr rfl]

theorem unquoted_none {env : Env} {c : Char} {s : Str}
    (h : (reserved c || c == '=' || c == '-' || c == '&') = true) : gUnquoted env (c :: s) = none := by
  apply rule_none
  apply seq_none
  simp only [neg, chr, h]
  rfl

theorem currency_none {env : Env} {c : Char} {s : Str}
    (h : (reserved c || c == '=' || c == '-' || c == '&') = true) : gCurrency env (c :: s) = none := by
  apply rule_none
  rw [alt_right, unquoted_none h]
  apply gString_none
  · rintro h'; cases h'; revert h; decide
  · rintro h'; cases h'; revert h; decide

/-- A word is not an amount of money when no number follows. -/
theorem IsWord.money {env : Env} {t k : Str} (h : IsWord env t)
    (hd : ∀ c, t.head? = some c → isDig c = false)
    (hk : ∀ c, k.head? = some c → (!reserved c && !env.sep c) = false)
    (hn : gNumber (skip k) = none) : gMoney env (t ++ k) = none ∧ gNumber (t ++ k) = none := by
  have hnum : gNumber (t ++ k) = none := by
    obtain ⟨h1, h2, h3⟩ := h
    cases t with
    | nil => exact absurd rfl h1
    | cons c t =>
      refine gNumber_none (by simpa using hd) ?_
      rintro d r he
      simp only [List.cons_append, List.cons.injEq] at he
      exact absurd he.1 (h3 c rfl).2.1
  refine ⟨rule_none ?_, hnum⟩
  rw [alt_right (seq_none hnum)]
  exact seq_none' (h.currency hk) (seq_none' (wss_eq k) hn)

/-! ### Primaries -/

theorem regex_none {s : Str} (h : s.head? ≠ some '/') : gRegex s = none :=
  rule_none (seq_none (lit_none (by simp) (by simpa using h)))

theorem build_variable (env : Env) (tx v : Str) :
    buildAst env (.mk .primary tx [.mk .variable v []]) = variableOf v := rfl
theorem build_regex (env : Env) (tx v : Str) :
    buildAst env (.mk .primary tx [.mk .regex v []]) = regexOf env v := rfl
theorem build_string (env : Env) (tx v : Str) :
    buildAst env (.mk .primary tx [.mk .string v []]) = .ok (.string (unquote v)) := rfl
theorem build_money (env : Env) (tx v : Str) (i : List Pair) :
    buildAst env (.mk .primary tx [.mk .money v i]) = moneyOf i := rfl
theorem build_number (env : Env) (tx v : Str) {q : Rat} (h : parseRational v = .ok q) :
    buildAst env (.mk .primary tx [.mk .number v []]) = .ok (.number q) := by
  have : buildAst env (.mk .primary tx [.mk .number v []]) = (match parseRational v with
    | .ok q => .ok (.number q)
    | .error e => .error e) := rfl
  rw [this, h]
theorem build_paren (env : Env) (tx : Str) (p : Pair) (hp : p.rule = .expr) :
    buildAst env (.mk .primary tx [p]) = buildAst env p := by
  obtain ⟨r, t, i⟩ := p
  cases hp
  rfl
theorem build_unary (env : Env) (tx v : Str) (r : Rule) (hr : r = .function ∨ r = .unary) (p : Pair)
    {op : UnaryOp} (ho : unaryOf v = .ok op) {a : Ast} (ha : buildAst env p = .ok a) :
    buildAst env (.mk .primary tx [.mk r v [], p]) = .ok (.unary op a) := by
  have : buildAst env (.mk .primary tx [.mk r v [], p]) = (match unaryOf v with
      | .error e => .error e
      | .ok op =>
        match buildAst env p with
        | .error e => .error e
        | .ok a => .ok (.unary op a)) := by rcases hr with rfl | rfl <;> rfl
  rw [this, ho, ha]

theorem primary_term {env : Env} {e : P} {s k : Str} {pr : Pair} (hp : s.head? ≠ some '(')
    (hu : seq gUnary (seq wss e) s = none) (ht : gTerm env s = some ([pr], k)) :
    ∃ tx, gPrimary env e s = some ([.mk .primary tx [pr]], k) := by
  apply rule_some'
  rw [alt_right (seq_none (lit_none (by simp) (by simpa using hp))), alt_right hu]
  exact alt_left ht

theorem unary_none {s : Str} (h : ∀ c, s.head? = some c → c ≠ '-' ∧ c ≠ '!' ∧ c ≠ 'n') {e : P} :
    seq gUnary e s = none := by
  apply seq_none
  apply rule_none
  apply lits_none
  intro l hl
  simp only [List.mem_cons, List.not_mem_nil, or_false] at hl
  rcases hl with rfl | rfl | rfl <;> refine ⟨by decide, ?_⟩ <;> intro h' <;>
    have := h _ h' <;> revert this <;> decide

theorem variable_none {s : Str} (h : ∀ c, s.head? = some c →
    c ∉ ['a', 'p', 'd', 'n', 't', 'c', 'v', 'g', 'r', 'T', 'N', 'O', 'Z', 'R', 'X', 'l', 'b']) :
    gVariable s = none := by
  apply rule_none
  apply lits_none
  intro l hl
  simp only [List.mem_cons, List.not_mem_nil, or_false] at hl
  rcases hl with rfl | rfl | rfl | rfl | rfl | rfl | rfl | rfl | rfl | rfl | rfl | rfl | rfl | rfl |
      rfl | rfl | rfl | rfl | rfl | rfl | rfl | rfl | rfl | rfl | rfl | rfl | rfl | rfl <;>
    refine ⟨by decide, ?_⟩ <;> intro h' <;> have := h _ h' <;> revert this <;> decide

/-- `e` starts no expression when a parenthesis or an operator follows. -/
theorem gExprN_e {env : Env} (ha : env.AsciiSep) {k : Str} (hk : Follow k) (n : Nat) :
    gExprN env n ('e' :: k) = none := by
  cases n with
  | zero => rfl
  | succ n =>
    rw [gExprN_succ]
    refine rule_none (rule_none (seq_none (rule_none (seq_none (rule_none (seq_none (rule_none
      (seq_none (rule_none (seq_none (rule_none ?_)))))))))))
    rw [alt_right (seq_none (lit_none (by simp) (by simp))), alt_right, alt_right]
    · exact seq_none (rule_none (by rfl))
    · unfold gTerm
      have hw : IsWord env ['e'] := by
        refine ⟨by simp, ?_, ?_⟩
        · intro c hc
          obtain rfl : c = 'e' := by simpa using hc
          have : env.sep 'e' = false := by
            rw [Bool.eq_false_iff]; intro h; exact absurd ((ha 'e' (by decide)).mp h) (by decide)
          rw [this]; decide
        · intro c hc; cases hc; decide
      have hm := hw.money (k := k) (by intro c hc; cases hc; decide) (hk.stop ha) hk.number
      rw [show ['e'] ++ k = 'e' :: k from rfl] at hm
      rw [alt_right (variable_none (by intro c hc; cases hc; decide)), alt_right hm.1, alt_right hm.2,
        alt_right (regex_none (by simp))]
      exact gString_none (by simp) (by simp)
    · exact unary_none (by intro c hc; cases hc; decide)

/-- One of the five variables. -/
theorem reads_variable {env : Env} (ha : env.AsciiSep) {v : Str} {a : Ast}
    (h : (v = "account".toList ∧ a = .account) ∨ (v = "payee".toList ∧ a = .payee) ∨
      (v = "date".toList ∧ a = .date) ∨ (v = "amount".toList ∧ a = .amount) ∨
      (v = "note".toList ∧ a = .note)) {k : Str} (hk : Follow k) (n : Nat) :
    Reads env (gPrimary env (gExprN env n)) (v ++ k) k a := by
  have hv : gVariable (v ++ k) = some ([.mk .variable v []], k) := by
    rcases h with ⟨rfl, _⟩ | ⟨rfl, _⟩ | ⟨rfl, _⟩ | ⟨rfl, _⟩ | ⟨rfl, _⟩ <;> exact rule_some (by rfl)
  have hu : seq gUnary (seq wss (gExprN env n)) (v ++ k) = none := by
    rcases h with ⟨rfl, _⟩ | ⟨rfl, _⟩ | ⟨rfl, _⟩ | ⟨rfl, _⟩ | ⟨rfl, _⟩
    · exact seq_none (rule_none (by rfl))
    · exact seq_none (rule_none (by rfl))
    · exact seq_none (rule_none (by rfl))
    · exact seq_none (rule_none (by rfl))
    · have h1 : gUnary ("not".toList ++ ('e' :: k)) = some ([.mk .unary "not".toList []], 'e' :: k) :=
        rule_some (by rfl)
      refine seq_none' h1 (seq_none' (wss_eq _) ?_)
      exact gExprN_e ha hk n
  have hp : (v ++ k).head? ≠ some '(' := by
    rcases h with ⟨rfl, _⟩ | ⟨rfl, _⟩ | ⟨rfl, _⟩ | ⟨rfl, _⟩ | ⟨rfl, _⟩ <;> simp
  obtain ⟨tx, h1⟩ := primary_term (env := env) hp hu (alt_left hv)
  refine ⟨_, h1, ?_⟩
  rcases h with ⟨rfl, rfl⟩ | ⟨rfl, rfl⟩ | ⟨rfl, rfl⟩ | ⟨rfl, rfl⟩ | ⟨rfl, rfl⟩ <;>
    rw [build_variable] <;> decide +kernel

theorem unquote_wrap (q q' : Char) (s : Str) : unquote (q :: s ++ [q']) = s := by
  simp [unquote]

theorem number_none_of {c : Char} {s : Str} (h : isDig c = false) (h' : c ≠ '-') :
    gNumber (c :: s) = none :=
  gNumber_none (by intro d hd; cases hd; exact h) (by intro d r hd; cases hd; exact absurd rfl h')

theorem reads_regex {env : Env} {pat : Str} (h : '/' ∉ pat) (hx : env.rxOk pat = true) (k : Str)
    (e : P) : Reads env (gPrimary env e) (('/' :: pat ++ ['/']) ++ k) k (.regex pat) := by
  have hr : gRegex (('/' :: pat ++ ['/']) ++ k) = some ([.mk .regex ('/' :: pat ++ ['/']) []], k) := by
    refine rule_some (x := []) ?_
    have e1 : ('/' :: pat ++ ['/']) ++ k = ['/'] ++ (pat ++ ('/' :: k)) := by simp
    rw [e1]
    refine seq_some (x := []) (lit_append ['/'] _) (seq_some (x := []) (s1 := '/' :: k)
      (star_chr_append ?_ ?_) (lit_append ['/'] k))
    · intro c hc; simp only [bne_iff_ne, ne_eq]; rintro rfl; exact h hc
    · intro c hc; cases hc; rfl
  have ht : gTerm env (('/' :: pat ++ ['/']) ++ k) = some ([.mk .regex ('/' :: pat ++ ['/']) []], k) := by
    unfold gTerm
    simp only [List.cons_append] at hr ⊢
    have hn : ∀ s, gNumber ('/' :: s) = none := fun s => number_none_of (by decide) (by decide)
    rw [alt_right (variable_none (by intro c hc; cases hc; decide)), alt_right, alt_right (hn _)]
    · exact alt_left hr
    · apply rule_none
      rw [alt_right (seq_none (hn _))]
      exact seq_none (currency_none (by decide))
  obtain ⟨tx, h1⟩ := primary_term (env := env) (e := e) (by simp)
    (unary_none (by intro c hc; cases hc; decide)) ht
  refine ⟨_, h1, ?_⟩
  rw [build_regex, regexOf, unquote_wrap, if_pos hx]

theorem quotedBody_plain {s : Str} (h : '"' ∉ s) (h' : '\\' ∉ s) (k : Str) :
    quotedBody '"' (s ++ '"' :: k) = some k := by
  induction s with
  | nil =>
    unfold quotedBody
    exact (if_neg (by simp)).trans (if_pos rfl)
  | cons c s ih =>
    have h1 : c ≠ '"' := by rintro rfl; simp at h
    have h2 : c ≠ '\\' := by rintro rfl; simp at h'
    rw [List.cons_append]
    unfold quotedBody
    refine ((if_neg (fun h => h2 h.1)).trans (if_neg h1)).trans ?_
    exact ih (fun hm => h (by simp [hm])) (fun hm => h' (by simp [hm]))

theorem reads_string {env : Env} {s : Str} (h : '"' ∉ s) (h' : '\\' ∉ s) {k : Str}
    (hk : Follow k) (e : P) :
    Reads env (gPrimary env e) (('"' :: s ++ ['"']) ++ k) k (.string s) := by
  have hr : gString (('"' :: s ++ ['"']) ++ k) = some ([.mk .string ('"' :: s ++ ['"']) []], k) := by
    refine rule_some (x := []) (alt_left ?_)
    have e1 : ('"' :: s ++ ['"']) ++ k = '"' :: (s ++ '"' :: k) := by simp
    rw [e1]
    simp [quoted, quotedBody_plain h h']
  have ht : gTerm env (('"' :: s ++ ['"']) ++ k) = some ([.mk .string ('"' :: s ++ ['"']) []], k) := by
    have hn : gNumber (('"' :: s ++ ['"']) ++ k) = none := number_none_of (by decide) (by decide)
    have hm : gMoney env (('"' :: s ++ ['"']) ++ k) = none := by
      apply rule_none
      rw [alt_right (seq_none hn)]
      obtain ⟨t, hc⟩ : ∃ t, gCurrency env (('"' :: s ++ ['"']) ++ k) = some ([t], k) := by
        obtain ⟨t, ht⟩ := rule_some' (r := .currency) (alt_left (b := gUnquoted env) hr)
        exact ⟨_, ht⟩
      exact seq_none' hc (seq_none' (wss_eq k) hk.number)
    unfold gTerm
    rw [alt_right (variable_none (by intro c hc; cases hc; decide)), alt_right hm,
      alt_right hn,
      alt_right (regex_none (by simp))]
    exact hr
  obtain ⟨tx, h1⟩ := primary_term (env := env) (e := e) (by simp)
    (unary_none (by intro c hc; cases hc; decide)) ht
  refine ⟨_, h1, ?_⟩
  rw [build_string, unquote_wrap]

theorem isDig_ne {c : Char} (h : isDig c = true) {d : Char} (hd : isDig d = false) : c ≠ d := by
  rintro rfl; rw [h] at hd; cases hd

theorem IsNumeral.primary {env : Env} {t k : Str} (ht : IsNumeral t) {e : P} {pr : Pair} {k' : Str}
    (h : alt (gMoney env) (alt gNumber (alt gRegex gString)) (t ++ k) = some ([pr], k')) :
    ∃ tx, gPrimary env e (t ++ k) = some ([.mk .primary tx [pr]], k') := by
  obtain ⟨c, r, rfl, hc⟩ := ht.head
  refine primary_term ?_ (unary_none ?_) ?_
  · simpa using isDig_ne hc (by decide)
  · intro d hd; cases hd
    exact ⟨isDig_ne hc (by decide), isDig_ne hc (by decide), isDig_ne hc (by decide)⟩
  · unfold gTerm
    rw [alt_right (variable_none ?_)]
    · exact h
    · intro d hd; cases hd
      simp only [List.mem_cons, List.not_mem_nil, or_false, not_or]
      refine ⟨?_, ?_, ?_, ?_, ?_, ?_, ?_, ?_, ?_, ?_, ?_, ?_, ?_, ?_, ?_, ?_, ?_⟩ <;>
        exact isDig_ne hc (by decide)

theorem IsNumeral.filter {t : Str} (h : IsNumeral t) : IsDigits (t.filter (· ≠ '.')) := by
  rcases h with h | ⟨a, b, rfl, ha, hb⟩
  · rw [h.filter]; exact h
  · have h1 : (a ++ '.' :: b).filter (· ≠ '.') = a ++ b := by
      rw [List.filter_append, ha.filter, List.filter_cons, hb.filter]; simp
    rw [h1]
    exact ⟨by simp [ha.1], by
      intro c hc; rcases List.mem_append.mp hc with hc | hc; exacts [ha.2 c hc, hb.2 c hc]⟩

theorem parseRational_neg {t : Str} (h : IsNumeral t) :
    parseRational ('-' :: t) = .ok (-unsignedVal t) := by
  have h1 := parseRational_numeral h
  unfold parseRational at h1 ⊢
  have hf : ('-' :: t).filter (· ≠ '.') = '-' :: t.filter (· ≠ '.') := by simp
  have hd : ('-' :: t).dropWhile (· ≠ '.') = t.dropWhile (· ≠ '.') := by simp
  rw [intOf_digits h.filter] at h1
  rw [hf, hd]
  have : intOf ('-' :: t.filter (· ≠ '.')) = some (-(digitsVal (t.filter (· ≠ '.')) : Int)) := by
    show (natOf (t.filter (· ≠ '.'))).map (fun n : Nat => -(n : Int)) = _
    rw [natOf_digits h.filter]; rfl
  rw [this]
  simp only [Except.ok.injEq] at h1 ⊢
  rw [← h1]; push_cast; ring

/-- A commodity name followed by a number, with or without sign. -/
theorem reads_prefixMoney {env : Env} (ha : env.AsciiSep) {t c : Str} {q : Rat}
    (hnum : ∀ k : Str, (∀ d, k.head? = some d → isDig d = false) → k.head? ≠ some '.' →
      gNumber (t ++ k) = some ([.mk .number t []], k))
    (hsk0 : ∀ k : Str, skip (t ++ k) = t ++ k)
    (hq : parseRational t = .ok q)
    (hp : PrefixCurrency env c) {k : Str} (hk : Follow k) (e : P) :
    Reads env (gPrimary env e) ((c ++ ' ' :: t) ++ k) k (.money c q) := by
  obtain ⟨hc, hv⟩ := hp
  have hw : IsWord env c := by
    obtain ⟨h1, h2, h3, h4, h5, h6, h7⟩ := hc
    refine ⟨h1, fun d hd => ?_, fun d hd => ?_⟩
    · simp [(h2 d hd).1, (h2 d hd).2]
    · refine ⟨?_, ?_, ?_, ?_, ?_⟩ <;> rintro rfl <;> simp_all
  have hsep : env.sep ' ' = true := (ha ' ' (by decide)).mpr rfl
  have hsk : skip (' ' :: (t ++ k)) = t ++ k := by rw [skip_space, hsk0]
  have hh := hk.head
  have hn : gNumber (t ++ k) = some ([.mk .number t []], k) :=
    hnum k (by intro d hd; rcases hh with h | h <;> rw [h] at hd <;> cases hd <;> decide)
      (by rcases hh with h | h <;> rw [h] <;> decide)
  have e1 : (c ++ ' ' :: t) ++ k = c ++ (' ' :: (t ++ k)) := by simp
  have hcur := hw.currency (k := ' ' :: (t ++ k)) (by intro d hd; cases hd; rw [hsep]; simp)
  obtain ⟨d, r, rfl⟩ : ∃ d r, c = d :: r := by
    cases c with
    | nil => exact absurd rfl hc.1
    | cons d r => exact ⟨d, r, rfl⟩
  obtain ⟨v1, _, v2, v3⟩ := hv d rfl
  have hdash : d ≠ '-' := by rintro rfl; exact hc.2.2.2.1 rfl
  have hnone : gNumber ((d :: r) ++ (' ' :: (t ++ k))) = none :=
    number_none_of (by simpa [isDig] using v1) hdash
  have hm : ∃ tx, gMoney env ((d :: r) ++ (' ' :: (t ++ k))) = some ([.mk .money tx
      [.mk .currency (d :: r) [.mk .unquoted (d :: r) []], .mk .number t []]], k) := by
    apply rule_some'
    rw [alt_right (seq_none hnone)]
    have h1 : seq wss gNumber (' ' :: (t ++ k)) = some ([] ++ [.mk .number t []], k) :=
      seq_some (wss_eq _) (by rw [show List.dropWhile _ _ = skip (' ' :: (t ++ k)) from rfl, hsk]; exact hn)
    exact seq_some hcur h1
  obtain ⟨tx, hm⟩ := hm
  have hpar : d ≠ '(' := by rintro rfl; exact absurd (hc.2.1 '(' (by simp)).1 (by decide)
  have ht : gTerm env ((d :: r) ++ (' ' :: (t ++ k))) = some ([.mk .money tx
      [.mk .currency (d :: r) [.mk .unquoted (d :: r) []], .mk .number t []]], k) := by
    unfold gTerm
    rw [alt_right (variable_none ?_)]
    · exact alt_left hm
    · intro d' hd'; cases hd'; exact v3
  obtain ⟨tx', h1⟩ := primary_term (env := env) (e := e) (by simpa using hpar) (unary_none (by
    intro d' hd'; cases hd'
    exact ⟨hdash, v2, by rintro rfl; exact v3 (by decide)⟩)) ht
  rw [e1]
  refine ⟨_, h1, ?_⟩
  rw [build_money]
  simp [moneyOf, Pair.rule, Pair.text, hq]

theorem reads_money {env : Env} (ha : env.AsciiSep) {t c : Str} (ht : IsNumeral t)
    (hc : PlainCurrency env c) {k : Str} (hk : Follow k) (e : P) :
    Reads env (gPrimary env e) ((t ++ ' ' :: c) ++ k) k (.money c (unsignedVal t)) := by
  have hw : IsWord env c := by
    obtain ⟨h1, h2, h3, h4, h5, h6, h7⟩ := hc
    refine ⟨h1, fun d hd => ?_, fun d hd => ?_⟩
    · simp [(h2 d hd).1, (h2 d hd).2]
    · refine ⟨?_, ?_, ?_, ?_, ?_⟩ <;> rintro rfl <;> simp_all
  have hsep : env.sep ' ' = true := (ha ' ' (by decide)).mpr rfl
  have hsk : skip (' ' :: (c ++ k)) = c ++ k := by
    obtain ⟨h1, h2, _⟩ := hc
    rw [skip_space]
    cases c with
    | nil => exact absurd rfl h1
    | cons d c =>
      refine skip_cons_ne ?_
      rintro rfl
      have := (h2 ' ' (by simp)).2
      rw [hsep] at this; cases this
  have hn : gNumber (t ++ (' ' :: (c ++ k))) = some ([.mk .number t []], ' ' :: (c ++ k)) :=
    gNumber_some ht (by intro d hd; cases hd; decide) (by simp)
  have e1 : (t ++ ' ' :: c) ++ k = t ++ (' ' :: (c ++ k)) := by simp
  have hcur := hw.currency (hk.stop ha)
  have hm : ∃ tx, gMoney env (t ++ (' ' :: (c ++ k))) = some ([.mk .money tx [.mk .number t [],
      .mk .currency c [.mk .unquoted c []]]], k) := by
    apply rule_some'
    refine alt_left ?_
    have h1 : seq wss (gCurrency env) (' ' :: (c ++ k)) =
        some ([] ++ [.mk .currency c [.mk .unquoted c []]], k) :=
      seq_some (wss_eq _) (by rw [show List.dropWhile _ _ = skip (' ' :: (c ++ k)) from rfl, hsk]; exact hcur)
    exact seq_some hn h1
  obtain ⟨tx, hm⟩ := hm
  obtain ⟨tx', h1⟩ := ht.primary (env := env) (e := e) (alt_left hm)
  rw [e1]
  refine ⟨_, h1, ?_⟩
  rw [build_money]
  simp [moneyOf, Pair.rule, Pair.text, parseRational_numeral ht]

theorem reads_number {env : Env} (ha : env.AsciiSep) {t : Str} (ht : IsNumeral t)
    {k : Str} (hk : FollowNum k) (e : P) :
    Reads env (gPrimary env e) (t ++ k) k (.number (unsignedVal t)) := by
  have hh := hk.follow.head
  have hn : gNumber (t ++ k) = some ([.mk .number t []], k) :=
    gNumber_some ht
      (by intro d hd; rcases hh with h | h <;> rw [h] at hd <;> cases hd <;> decide)
      (by rcases hh with h | h <;> rw [h] <;> decide)
  have hcn : gCurrency env (skip k) = none := by
    rcases hk with ⟨k', rfl⟩ | ⟨op, k', h1, h2, rfl⟩
    · rw [skip_close]; exact currency_none (by decide)
    · rw [(skip_op op _).1]
      cases op <;> first | exact currency_none (by decide) | exact absurd rfl h1 | exact absurd rfl h2
  have hw : IsWord env t := by
    have hdig : ∀ d : Char, (isDig d = true ∨ d = '.') → (!reserved d && !env.sep d) = true := by
      intro d hd
      have hlt : d.toNat < 128 ∧ d ≠ ' ' ∧ reserved d = false := by
        rcases hd with hd | rfl
        · simp only [isDig, Bool.and_eq_true, decide_eq_true_eq] at hd
          have h9 : d.toNat ≤ 57 := hd.2
          refine ⟨by omega, ?_, ?_⟩
          · rintro rfl; revert hd; decide
          · simp only [reserved]
            rw [Bool.eq_false_iff]
            intro hcon
            have := List.elem_iff.mp hcon
            simp only [List.mem_cons, List.not_mem_nil, or_false] at this
            rcases this with rfl | rfl | rfl | rfl | rfl | rfl | rfl | rfl | rfl | rfl | rfl | rfl | rfl <;>
              revert hd <;> decide
        · decide
      have : env.sep d = false := by
        rw [Bool.eq_false_iff]; intro h; exact hlt.2.1 ((ha d hlt.1).mp h)
      simp [this, hlt.2.2]
    obtain ⟨c, r, hcr, hc⟩ := ht.head
    refine ⟨by rw [hcr]; simp, ?_, ?_⟩
    · intro d hd
      apply hdig
      rcases ht with ht | ⟨a, b, rfl, h1, h2⟩
      · left; simpa [isDig] using ht.2 d hd
      · rcases List.mem_append.mp hd with hd | hd
        · left; simpa [isDig] using h1.2 d hd
        · rcases List.mem_cons.mp hd with hd | hd
          · right; exact hd
          · left; simpa [isDig] using h2.2 d hd
    · intro d hd
      rw [hcr] at hd; cases hd
      refine ⟨?_, ?_, ?_, ?_, ?_⟩ <;> exact isDig_ne hc (by decide)
  have hm : gMoney env (t ++ k) = none := by
    apply rule_none
    rw [alt_right (seq_none' hn (seq_none' (wss_eq k) hcn))]
    exact seq_none' (hw.currency (hk.follow.stop ha)) (seq_none' (wss_eq k) hk.follow.number)
  obtain ⟨tx', h1⟩ := ht.primary (env := env) (e := e) (k := k)
    (by rw [alt_right hm]; exact alt_left hn)
  refine ⟨_, h1, ?_⟩
  exact build_number env _ _ (parseRational_numeral ht)

/-! ### Nested expressions -/

/-- `p` reads a whole expression. -/
def ReadsExpr (env : Env) (n : Nat) (s k : Str) (e : Ast) : Prop :=
  ∃ pr, gExprN env n s = some ([pr], k) ∧ buildAst env pr = .ok e ∧ pr.rule = .expr

theorem ReadsExpr.inside {env : Env} {n : Nat} {s k : Str} {e : Ast}
    (hs : skip (s ++ ')' :: k) = s ++ ')' :: k) (h : ReadsExpr env n (s ++ ')' :: k) (')' :: k) e) :
    ∃ pr, seq (lit ['(']) (seq wss (seq (gExprN env n) (seq wss (lit [')']))))
        (('(' :: s ++ [')']) ++ k) = some ([pr], k) ∧ buildAst env pr = .ok e ∧ pr.rule = .expr := by
  obtain ⟨pr, h1, h2, h3⟩ := h
  refine ⟨pr, ?_, h2, h3⟩
  have e1 : ('(' :: s ++ [')']) ++ k = ['('] ++ (s ++ ')' :: k) := by simp
  rw [e1]
  have hc : seq wss (lit [')']) (')' :: k) = some ([] ++ [], k) :=
    seq_some (wss_eq _) (by rw [show List.dropWhile _ _ = skip (')' :: k) from rfl, skip_close]
                            exact lit_append [')'] k)
  have hb := seq_some h1 hc
  have hw := seq_some (b := seq (gExprN env n) (seq wss (lit [')']))) (wss_eq (s ++ ')' :: k))
    (by rw [show List.dropWhile _ _ = skip (s ++ ')' :: k) from rfl, hs]; exact hb)
  exact seq_some (lit_append ['('] _) hw

theorem reads_paren {env : Env} {n : Nat} {s k : Str} {e : Ast}
    (hs : skip (s ++ ')' :: k) = s ++ ')' :: k) (h : ReadsExpr env n (s ++ ')' :: k) (')' :: k) e) :
    Reads env (gPrimary env (gExprN env n)) (('(' :: s ++ [')']) ++ k) k e := by
  obtain ⟨pr, h1, h2, h3⟩ := ReadsExpr.inside hs h
  obtain ⟨tx, h4⟩ := rule_some' (r := .primary) (alt_left (b := alt
    (seq gUnary (seq wss (gExprN env n))) (alt (gTerm env)
    (seq gFunction (seq wss (seq (lit ['(']) (seq wss (seq (gExprN env n) (seq wss
      (seq (star (seq (lit [',']) (seq wss (seq (gExprN env n) wss)))) (lit [')']))))))))))  h1)
  exact ⟨_, h4, by rw [build_paren env tx pr h3, h2]⟩

theorem reads_call {env : Env} (ha : env.AsciiSep) {n : Nat} {op : UnaryOp} {f s k : Str} {e : Ast}
    (hf : funText op = some f)
    (hs : skip (s ++ ')' :: k) = s ++ ')' :: k) (h : ReadsExpr env n (s ++ ')' :: k) (')' :: k) e) :
    Reads env (gPrimary env (gExprN env n)) ((f ++ '(' :: s ++ [')']) ++ k) k (.unary op e) := by
  have e1 : (f ++ '(' :: s ++ [')']) ++ k = f ++ ('(' :: (s ++ ')' :: k)) := by simp
  rw [e1]
  have hcase : (op = .abs ∧ f = "abs".toList) ∨ (op = .any ∧ f = "any".toList) ∨
      (op = .hasTag ∧ f = "has_tag".toList) ∨ (op = .tag ∧ f = "tag".toList) ∨
      (op = .toDate ∧ f = "to_date".toList) := by
    cases op <;> simp [funText] at hf ⊢ <;> exact hf.symm
  have hword : IsWord env f := by
    have hall : (f ≠ [] ∧ (∀ c ∈ f, c.toNat < 128 ∧ c ≠ ' ' ∧ reserved c = false) ∧
        ∀ c, f.head? = some c → c ≠ '=' ∧ c ≠ '-' ∧ c ≠ '&' ∧ c ≠ '"' ∧ c ≠ '\'') := by
      rcases hcase with ⟨_, rfl⟩ | ⟨_, rfl⟩ | ⟨_, rfl⟩ | ⟨_, rfl⟩ | ⟨_, rfl⟩ <;>
        exact ⟨by decide, by decide, by rintro c ⟨⟩; decide⟩
    refine ⟨hall.1, fun c hc => ?_, hall.2.2⟩
    obtain ⟨h1, h2, h3⟩ := hall.2.1 c hc
    have : env.sep c = false := by
      rw [Bool.eq_false_iff]; intro h; exact h2 ((ha c h1).mp h)
    simp [this, h3]
  have hnodig : ∀ c, f.head? = some c → isDig c = false := by
    rcases hcase with ⟨_, rfl⟩ | ⟨_, rfl⟩ | ⟨_, rfl⟩ | ⟨_, rfl⟩ | ⟨_, rfl⟩ <;>
      (rintro c ⟨⟩; decide)
  obtain ⟨hm, hn⟩ := hword.money (k := '(' :: (s ++ ')' :: k)) hnodig
    (by rintro c ⟨⟩; simp [show reserved '(' = true by decide])
    (by rw [skip_cons_ne (by decide)]; exact number_none_of (by decide) (by decide))
  have hv : gVariable (f ++ ('(' :: (s ++ ')' :: k))) = none ∧
      gUnary (f ++ ('(' :: (s ++ ')' :: k))) = none ∧
      (f ++ ('(' :: (s ++ ')' :: k))).head? ≠ some '(' ∧
      gRegex (f ++ ('(' :: (s ++ ')' :: k))) = none ∧
      gString (f ++ ('(' :: (s ++ ')' :: k))) = none ∧
      gFunction (f ++ ('(' :: (s ++ ')' :: k))) = some ([.mk .function f []], '(' :: (s ++ ')' :: k)) ∧
      unaryOf f = .ok op := by
    rcases hcase with ⟨rfl, rfl⟩ | ⟨rfl, rfl⟩ | ⟨rfl, rfl⟩ | ⟨rfl, rfl⟩ | ⟨rfl, rfl⟩ <;>
      exact ⟨rule_none (by rfl), rule_none (by rfl), by simp, rule_none (by rfl),
        gString_none (by simp) (by simp), rule_some (by rfl), by decide⟩
  obtain ⟨hv, hu, hp, hr, hst, hfn, hop⟩ := hv
  obtain ⟨pr, h1, h2, h3⟩ := h
  have hterm : gTerm env (f ++ ('(' :: (s ++ ')' :: k))) = none := by
    unfold gTerm
    rw [alt_right hv, alt_right hm, alt_right hn, alt_right hr, hst]
  have hclose : seq (star (seq (lit [',']) (seq wss (seq (gExprN env n) wss)))) (lit [')']) (')' :: k) =
      some ([] ++ [], k) :=
    seq_some (star_none (seq_none (lit_none (by simp) (by simp)))) (lit_append [')'] k)
  have h5 := seq_some (wss_eq (')' :: k))
    (by rw [show List.dropWhile _ _ = skip (')' :: k) from rfl, skip_close]; exact hclose)
  have h6 := seq_some h1 h5
  have h7 := seq_some (wss_eq (s ++ ')' :: k))
    (by rw [show List.dropWhile _ _ = skip (s ++ ')' :: k) from rfl, hs]; exact h6)
  have h8 := seq_some (lit_append ['('] (s ++ ')' :: k)) h7
  have h9 := seq_some (wss_eq ('(' :: (s ++ ')' :: k)))
    (by rw [show List.dropWhile _ _ = skip ('(' :: (s ++ ')' :: k)) from rfl, skip_cons_ne (by decide)]
        exact h8)
  have h10 := seq_some hfn h9
  have hall : ∃ tx, gPrimary env (gExprN env n) (f ++ ('(' :: (s ++ ')' :: k))) =
      some ([.mk .primary tx [.mk .function f [], pr]], k) := by
    apply rule_some'
    rw [alt_right (seq_none (lit_none (by simp) (by simpa using hp))), alt_right (seq_none hu),
      alt_right hterm]
    exact h10
  obtain ⟨tx, h11⟩ := hall
  exact ⟨_, h11, build_unary env tx f _ (.inl rfl) pr hop h2⟩

/-- A unary operator takes everything up to the closing parenthesis. -/
theorem reads_unary {env : Env} {n : Nat} {op : UnaryOp} {f s k : Str} {e : Ast}
    (hf : (op = .not ∧ f = "not".toList) ∨ (op = .neg ∧ f = "-".toList))
    (h : ReadsExpr env n (skip s) k e) :
    Reads env (gPrimary env (gExprN env n)) (f ++ s) k (.unary op e) := by
  have hv : gUnary (f ++ s) = some ([.mk .unary f []], s) ∧ (f ++ s).head? ≠ some '(' ∧
      unaryOf f = .ok op := by
    rcases hf with ⟨rfl, rfl⟩ | ⟨rfl, rfl⟩ <;> exact ⟨rule_some (by rfl), by simp, by decide⟩
  obtain ⟨hu, hp, hop⟩ := hv
  obtain ⟨pr, h1, h2, h3⟩ := h
  have h4 := seq_some hu (seq_some (wss_eq s) h1)
  have hall : ∃ tx, gPrimary env (gExprN env n) (f ++ s) =
      some ([.mk .primary tx [.mk .unary f [], pr]], k) := by
    apply rule_some'
    rw [alt_right (seq_none (lit_none (by simp) (by simpa using hp)))]
    exact alt_left h4
  obtain ⟨tx, h5⟩ := hall
  exact ⟨_, h5, build_unary env tx f _ (.inr rfl) pr hop h2⟩

/-! ### The round trip -/

theorem Writes.start {env : Env} {pos : Pos} {e : Ast} {s : Str} (h : Writes env pos e s) :
    ∃ c r, s = c :: r ∧ c ≠ ' ' := by
  induction h with
  | account | payee | date | amount | note => exact ⟨_, _, rfl, by decide⟩
  | regex | string | paren | not | neg => exact ⟨_, _, rfl, by decide⟩
  | money hn _ =>
    obtain ⟨c, r, rfl, hc⟩ := hn.head; exact ⟨_, _, rfl, isDig_ne hc (by decide)⟩
  | number hn =>
    obtain ⟨c, r, rfl, hc⟩ := hn.head; exact ⟨_, _, rfl, isDig_ne hc (by decide)⟩
  | @prefixMoney _ c hp _ | @prefixMoneyNeg _ c hp _ =>
    cases c with
    | nil => exact absurd rfl hp.1.1
    | cons d r => exact ⟨_, _, rfl, (hp.2 d rfl).2.1⟩
  | @call op f _ _ hf _ =>
    cases op <;> simp only [funText, Option.some.injEq, reduceCtorEq] at hf <;> subst hf <;>
      exact ⟨_, _, rfl, by decide⟩
  | binary _ _ ih _ | binaryNumR _ _ ih _ | binaryNumL _ _ _ _ ih _ | binaryNums _ _ _ _ ih _ =>
    obtain ⟨c, r, rfl, hc⟩ := ih; exact ⟨_, _, rfl, hc⟩
  | operandAlone _ ih | numericAlone _ ih => exact ih

theorem Writes.skip {env : Env} {pos : Pos} {e : Ast} {s : Str} (h : Writes env pos e s) (k : Str) :
    skip (s ++ k) = s ++ k := by
  obtain ⟨c, r, rfl, hc⟩ := h.start
  exact skip_cons_ne hc

/-- What reading back means at each position. -/
def ReadBack (env : Env) : Pos → Ast → Str → Prop
  | .operand, e, s => ∀ n k, s.length ≤ n → Follow k →
      Reads env (gPrimary env (gExprN env n)) (s ++ k) k e
  | .numeric, e, s => ∀ n k, s.length ≤ n → FollowNum k →
      Reads env (gPrimary env (gExprN env n)) (s ++ k) k e
  | .alone, e, s => ∀ n k, s.length < n → ReadsExpr env n (s ++ ')' :: k) (')' :: k) e

theorem readBack_binary {env : Env} {op : BinaryOp} {l r : Ast} {sl sr : Str}
    (hr : ∃ pos, Writes env pos r sr)
    (hl' : ∀ n k, sl.length ≤ n → Reads env (gPrimary env (gExprN env n))
      (sl ++ (' ' :: op.text ++ ' ' :: k)) (' ' :: op.text ++ ' ' :: k) l)
    (hr' : ∀ n k, sr.length ≤ n → Reads env (gPrimary env (gExprN env n))
      (sr ++ ')' :: k) (')' :: k) r) :
    ReadBack env .alone (.binary op l r) (sl ++ ' ' :: op.text ++ ' ' :: sr) := by
  intro n k hn
  cases n with
  | zero => simp at hn
  | succ n =>
    simp only [List.length_append, List.length_cons] at hn
    obtain ⟨pos, hr⟩ := hr
    have := Reads.binary (s := sl ++ (' ' :: op.text ++ ' ' :: (sr ++ ')' :: k)))
      (hl' n (sr ++ ')' :: k) (by omega)) (hr.skip _) (hr' n k (by omega))
    have e1 : (sl ++ ' ' :: op.text ++ ' ' :: sr) ++ ')' :: k =
        sl ++ (' ' :: op.text ++ ' ' :: (sr ++ ')' :: k)) := by simp
    rw [e1]
    exact this.expr

theorem Writes.readBack {env : Env} (ha : env.AsciiSep) {pos : Pos} {e : Ast} {s : Str}
    (h : Writes env pos e s) : ReadBack env pos e s := by
  induction h with
  | account => exact fun n k _ hk => reads_variable ha (by simp) hk n
  | payee => exact fun n k _ hk => reads_variable ha (by simp) hk n
  | date => exact fun n k _ hk => reads_variable ha (by simp) hk n
  | amount => exact fun n k _ hk => reads_variable ha (by simp) hk n
  | note => exact fun n k _ hk => reads_variable ha (by simp) hk n
  | regex h1 h2 => exact fun n k _ _ => reads_regex h1 h2 k _
  | string h1 h2 => exact fun n k _ hk => reads_string h1 h2 hk _
  | money h1 h2 => exact fun n k _ hk => reads_money ha h1 h2 hk _
  | prefixMoney h1 h2 =>
    refine fun n k _ hk => reads_prefixMoney ha (fun k => gNumber_some h2) ?_ (parseRational_numeral h2) h1 hk _
    intro k
    obtain ⟨c, r, rfl, hc⟩ := h2.head
    exact skip_cons_ne (isDig_ne hc (by decide))
  | prefixMoneyNeg h1 h2 =>
    exact fun n k _ hk => reads_prefixMoney ha (fun k => gNumber_neg h2)
      (fun k => skip_cons_ne (by decide)) (parseRational_neg h2) h1 hk _
  | number h1 => exact fun n k _ hk => reads_number ha h1 hk _
  | @call op f e s hf hw ih =>
    intro n k hn _
    simp only [List.length_append, List.length_cons, List.length_nil] at hn
    have hfl : f ≠ [] := by rintro rfl; cases op <;> simp [funText] at hf
    have := List.length_pos_iff.mpr hfl
    exact reads_call ha hf (hw.skip _) (ih n k (by omega))
  | @paren e s hw ih =>
    intro n k hn _
    simp only [List.length_append, List.length_cons, List.length_nil] at hn
    exact reads_paren (hw.skip _) (ih n k (by omega))
  | @not e s hw ih =>
    intro n k hn
    cases n with
    | zero => simp at hn
    | succ n =>
      have hlen : s.length + 6 < n + 1 := by
        simp only [List.length_append, List.length_cons, List.length_nil, String.toList] at hn
        have : ("not (".toList).length = 5 := by decide
        simp only [String.toList] at this
        omega
      obtain ⟨m, rfl⟩ : ∃ m, n = m + 1 := ⟨n - 1, by omega⟩
      have h1 := (reads_paren (hw.skip _) (ih m (')' :: k) (by omega))).alone.expr
      have e1 : ("not (".toList ++ s ++ [')']) ++ ')' :: k =
          "not".toList ++ (' ' :: (('(' :: s ++ [')']) ++ ')' :: k)) := by simp
      rw [e1]
      have h2 : Dinero.skip (' ' :: (('(' :: s ++ [')']) ++ ')' :: k)) = ('(' :: s ++ [')']) ++ ')' :: k := rfl
      exact (reads_unary (.inl ⟨rfl, rfl⟩) (h2 ▸ h1)).alone.expr
  | @neg e s hw ih =>
    intro n k hn
    cases n with
    | zero => simp at hn
    | succ n =>
      have hlen : s.length + 3 < n + 1 := by
        simp only [List.length_append, List.length_cons, List.length_nil] at hn
        have : ("-(".toList).length = 2 := by decide
        omega
      obtain ⟨m, rfl⟩ : ∃ m, n = m + 1 := ⟨n - 1, by omega⟩
      have h1 := (reads_paren (hw.skip _) (ih m (')' :: k) (by omega))).alone.expr
      have e1 : ("-(".toList ++ s ++ [')']) ++ ')' :: k =
          "-".toList ++ (('(' :: s ++ [')']) ++ ')' :: k) := by simp
      rw [e1]
      have h2 : Dinero.skip (('(' :: s ++ [')']) ++ ')' :: k) = ('(' :: s ++ [')']) ++ ')' :: k := rfl
      exact (reads_unary (.inr ⟨rfl, rfl⟩) (h2 ▸ h1)).alone.expr
  | @binary op l r sl sr hl hr ihl ihr =>
    exact readBack_binary ⟨_, hr⟩ (fun n k hn => ihl n _ hn (.inr ⟨op, k, rfl⟩))
      (fun n k hn => ihr n _ hn (.inl ⟨k, rfl⟩))
  | @binaryNumR op l r sl sr hl hr ihl ihr =>
    exact readBack_binary ⟨_, hr⟩ (fun n k hn => ihl n _ hn (.inr ⟨op, k, rfl⟩))
      (fun n k hn => ihr n _ hn (.inl ⟨k, rfl⟩))
  | @binaryNumL op l r sl sr h1 h2 hl hr ihl ihr =>
    exact readBack_binary ⟨_, hr⟩ (fun n k hn => ihl n _ hn (.inr ⟨op, k, h1, h2, rfl⟩))
      (fun n k hn => ihr n _ hn (.inl ⟨k, rfl⟩))
  | @binaryNums op l r sl sr h1 h2 hl hr ihl ihr =>
    exact readBack_binary ⟨_, hr⟩ (fun n k hn => ihl n _ hn (.inr ⟨op, k, h1, h2, rfl⟩))
      (fun n k hn => ihr n _ hn (.inl ⟨k, rfl⟩))
  | operandAlone _ ih =>
    intro n k hn
    cases n with
    | zero => simp at hn
    | succ n => exact (ih n _ (by omega) (.inl ⟨k, rfl⟩)).alone.expr
  | numericAlone _ ih =>
    intro n k hn
    cases n with
    | zero => simp at hn
    | succ n => exact (ih n _ (by omega) (.inl ⟨k, rfl⟩)).alone.expr

/-! ### Chains of operators -/

/-- The operator parser of a level. -/
def lvlOp : Nat → P
  | 0 => gMult | 1 => gAdd | 2 => gComparison | 3 => gAnd | _ => gOr
/-- The rule of a level. -/
def lvlRule : Nat → Rule
  | 0 => .multiplicativeExpr | 1 => .additiveExpr | 2 => .comparisonExpr | 3 => .andExpr | _ => .orExpr
/-- The parser of the operands of a level. -/
def lvlP (env : Env) (n : Nat) : Nat → P
  | 0 => gPrimary env (gExprN env n)
  | i + 1 => gLevel (lvlRule i) (lvlOp i) (lvlP env n i)

theorem lvlP_or (env : Env) (n : Nat) : lvlP env n 5 = gOrL env n := rfl

theorem lvlRule_level (i : Nat) : isLevel (lvlRule i) := by
  unfold lvlRule; split <;> decide

theorem lvlOp_close (i : Nat) (k : Str) : lvlOp i (')' :: k) = none := by
  obtain ⟨h1, h2, h3, h4, h5⟩ := ops_close k
  unfold lvlOp; split <;> assumption

theorem lvlOp_lower (op : BinaryOp) (i : Nat) (h : i < op.level) (k : Str) :
    lvlOp i (op.text ++ k) = none := by
  have h4 : op.level ≤ 4 := by cases op <;> decide
  obtain rfl | rfl | rfl | rfl : i = 0 ∨ i = 1 ∨ i = 2 ∨ i = 3 := by omega
  · show gMult _ = none
    cases op <;> first | exact absurd h (by decide) | exact rule_none (by rfl)
  · show gAdd _ = none
    cases op <;> first | exact absurd h (by decide) | exact rule_none (by rfl)
  · show gComparison _ = none
    cases op <;> first | exact absurd h (by decide) | exact rule_none (by rfl)
  · show gAnd _ = none
    cases op <;> first | exact absurd h (by decide) | exact rule_none (by rfl)

theorem lvlOp_self (op : BinaryOp) (k : Str) : ∃ po,
    lvlOp op.level (op.text ++ ' ' :: k) = some ([po], ' ' :: k) ∧
    binaryOf (lvlRule op.level) po.text = .ok op := by
  have level : (op = .mult ∨ op = .div) ∨ (op = .add ∨ op = .subtract) ∨
      (op = .eq ∨ op = .ge ∨ op = .gt ∨ op = .le ∨ op = .lt) ∨ op = .and ∨ op = .or := by
    cases op <;> simp
  rcases level with h | h | h | h | h
  · have hL : op.level = 0 := by rcases h with rfl | rfl <;> rfl
    rw [hL]; exact ⟨_, op_mult h k⟩
  · have hL : op.level = 1 := by rcases h with rfl | rfl <;> rfl
    rw [hL]; exact ⟨_, (op_add h k).2⟩
  · have hL : op.level = 2 := by rcases h with rfl | rfl | rfl | rfl | rfl <;> rfl
    rw [hL]; exact ⟨_, (op_cmp h k).2.2⟩
  · subst h; exact ⟨_, (op_and k).2.2.2⟩
  · subst h; exact ⟨_, (op_or k).2.2.2.2⟩

/-- Reading one operand at a level, when no operator of the levels below follows. -/
theorem Reads.lift {env : Env} {n : Nat} {s x y : Str} {e : Ast}
    (h : Reads env (gPrimary env (gExprN env n)) s x e) (hx : skip x = y) (hy : skip y = y) (L : Nat)
    (hL : ∀ i ≤ L, lvlOp i y = none) : Reads env (lvlP env n (L + 1)) s y e := by
  induction L with
  | zero =>
    have := Reads.single (lvlRule_level 0) h (op := lvlOp 0) (by rw [hx]; exact hL 0 (by omega))
    rwa [hx] at this
  | succ L ih =>
    have h1 := ih (fun i hi => hL i (by omega))
    have := Reads.single (lvlRule_level (L + 1)) h1 (op := lvlOp (L + 1))
      (by rw [hy]; exact hL _ (by omega))
    rwa [hy] at this

/-- Reading on from a level to the top. -/
theorem Reads.rise {env : Env} {n : Nat} {s y : Str} {e : Ast} {L : Nat} (m : Nat)
    (h : Reads env (lvlP env n L) s y e) (hy : skip y = y)
    (hL : ∀ i, L ≤ i → i < L + m → lvlOp i y = none) : Reads env (lvlP env n (L + m)) s y e := by
  induction m with
  | zero => exact h
  | succ m ih =>
    have h1 := ih (fun i h1 h2 => hL i h1 (by omega))
    have := Reads.single (lvlRule_level (L + m)) h1 (op := lvlOp (L + m))
      (by rw [hy]; exact hL _ (by omega) (by omega))
    rwa [hy] at this

theorem chainText_count (items : List (BinaryOp × Str)) : items.length ≤ (chainText items).length := by
  induction items with
  | nil => simp
  | cons a items ih => obtain ⟨o, t⟩ := a; simp [chainText]; omega

theorem OperandAt.skip {env : Env} {L : Nat} {e : Ast} {s : Str} (h : OperandAt env L e s) (k : Str) :
    skip (s ++ k) = s ++ k := by
  rcases h with h | h
  · exact h.skip k
  · exact h.2.skip k

theorem OperandAt.reads {env : Env} (ha : env.AsciiSep) {L : Nat} {e : Ast} {s k : Str}
    (h : OperandAt env L e s) {n : Nat} (hn : s.length ≤ n)
    (hk : (∃ k', k = ')' :: k') ∨ ∃ (op : BinaryOp) (k' : Str), op.level = L ∧ k = ' ' :: op.text ++ ' ' :: k') :
    Reads env (gPrimary env (gExprN env n)) (s ++ k) k e := by
  rcases h with h | ⟨hL, h⟩
  · refine h.readBack ha n k hn ?_
    rcases hk with hk | ⟨op, k', _, hk⟩
    · exact .inl hk
    · exact .inr ⟨op, k', hk⟩
  · refine h.readBack ha n k hn ?_
    rcases hk with hk | ⟨op, k', ho, hk⟩
    · exact .inl hk
    · refine .inr ⟨op, k', ?_, ?_, hk⟩ <;> rintro rfl <;> simp [BinaryOp.level] at ho <;> omega

/-- What is left in front of the operator parser of the level. -/
theorem chain_next {L : Nat} (items : List (BinaryOp × Str)) (hops : ∀ i ∈ items, i.1.level = L) (k : Str) :
    ∃ y, skip (chainText items ++ ')' :: k) = y ∧ skip y = y ∧ (∀ i < L, lvlOp i y = none) ∧
      ((∃ k', chainText items ++ ')' :: k = ')' :: k') ∨
        ∃ (op : BinaryOp) (k' : Str), op.level = L ∧
          chainText items ++ ')' :: k = ' ' :: op.text ++ ' ' :: k') := by
  cases items with
  | nil => exact ⟨')' :: k, skip_close k, skip_close k, fun i _ => lvlOp_close i k, .inl ⟨k, rfl⟩⟩
  | cons a items =>
    obtain ⟨op, s⟩ := a
    have ho : op.level = L := hops (op, s) (by simp)
    have e1 : chainText ((op, s) :: items) ++ ')' :: k =
        ' ' :: op.text ++ (' ' :: (s ++ (chainText items ++ ')' :: k))) := by simp [chainText]
    obtain ⟨h1, h2, _⟩ := skip_op op (' ' :: (s ++ (chainText items ++ ')' :: k)))
    refine ⟨_, by rw [e1, h1], h2, ?_, .inr ⟨op, _, ho, e1⟩⟩
    intro i hi
    exact lvlOp_lower op i (by omega) _

/-- Once two operands are read, the rest of a chain is read too (and later ignored). -/
theorem chain_star {env : Env} (ha : env.AsciiSep) {L n : Nat} (items : List (BinaryOp × Str)) (k : Str)
    (hL : 1 ≤ L)
    (hi : ∀ i ∈ items, i.1.level = L ∧ i.2.length ≤ n ∧ ∃ e, OperandAt env L e i.2) :
    ∀ fuel, items.length ≤ fuel → ∃ ps, starN (seq (lvlOp L) (seq wss (lvlP env n L))) fuel
      (skip (chainText items ++ ')' :: k)) = some (ps, ')' :: k) := by
  induction items with
  | nil =>
    intro fuel _
    have h0 : seq (lvlOp L) (seq wss (lvlP env n L)) (')' :: k) = none := seq_none (lvlOp_close L k)
    refine ⟨[], ?_⟩
    show starN _ fuel (skip (')' :: k)) = _
    rw [skip_close]
    cases fuel with
    | zero => rfl
    | succ fuel => simp only [starN, h0]
  | cons a items ih =>
    intro fuel hf
    cases fuel with
    | zero => simp at hf
    | succ fuel =>
      obtain ⟨op, s⟩ := a
      obtain ⟨ho, hlen, e, he⟩ := hi (op, s) (by simp)
      obtain ⟨ps, hps⟩ := ih (fun i hm => hi i (by simp [hm])) fuel (by simpa using hf)
      obtain ⟨y, hy1, hy2, hy3, hy4⟩ := chain_next items (fun i hm => (hi i (by simp [hm])).1) k
      have e1 : chainText ((op, s) :: items) ++ ')' :: k =
          ' ' :: op.text ++ (' ' :: (s ++ (chainText items ++ ')' :: k))) := by simp [chainText]
      obtain ⟨po, hpo, _⟩ := lvlOp_self op (s ++ (chainText items ++ ')' :: k))
      rw [ho] at hpo
      obtain ⟨L', rfl⟩ : ∃ L', L = L' + 1 := ⟨L - 1, by omega⟩
      obtain ⟨pr, hpr, _⟩ := (he.reads ha hlen hy4).lift hy1 hy2 L' (fun i hi => hy3 i (by omega))
      have hsk : skip (' ' :: (s ++ (chainText items ++ ')' :: k))) =
          s ++ (chainText items ++ ')' :: k) := by rw [skip_space, he.skip]
      have hstep : seq (lvlOp (L' + 1)) (seq wss (lvlP env n (L' + 1)))
          (op.text ++ ' ' :: (s ++ (chainText items ++ ')' :: k))) = some ([po] ++ ([] ++ [pr]), y) :=
        seq_some hpo (seq_some (wss_eq _) (by
          rw [show List.dropWhile _ _ = skip (' ' :: (s ++ (chainText items ++ ')' :: k))) from rfl, hsk]
          exact hpr))
      rw [e1, (skip_op op _).1]
      simp only [starN, hstep]
      rw [hy1] at hps
      rw [hps]
      exact ⟨_, rfl⟩

/-- A chain of at least two operands at one level above multiplication is read to its end, but only
the first operator and its two operands count. -/
theorem Reads.chain {env : Env} (ha : env.AsciiSep) {n : Nat} {op : BinaryOp} {sl sr : Str} {l r : Ast}
    (hop : 1 ≤ op.level) (hl : OperandAt env op.level l sl) (hr : OperandAt env op.level r sr)
    (hln : sl.length ≤ n) (hrn : sr.length ≤ n) (items : List (BinaryOp × Str))
    (hi : ∀ i ∈ items, i.1.level = op.level ∧ i.2.length ≤ n ∧ ∃ e, OperandAt env op.level e i.2) (k : Str) :
    Reads env (gOrL env n) (sl ++ chainText ((op, sr) :: items) ++ ')' :: k) (')' :: k)
      (.binary op l r) := by
  have hops : ∀ i ∈ items, i.1.level = op.level := fun i hm => (hi i hm).1
  obtain ⟨y, hy1, hy2, hy3, hy4⟩ := chain_next (L := op.level) ((op, sr) :: items)
    (by intro i hm; rcases List.mem_cons.mp hm with rfl | hm
        · rfl
        · exact hops i hm) k
  obtain ⟨z, hz1, hz2, hz3, hz4⟩ := chain_next items hops k
  obtain ⟨L', hL'⟩ : ∃ L', op.level = L' + 1 := ⟨op.level - 1, by omega⟩
  have e1 : chainText ((op, sr) :: items) ++ ')' :: k =
      ' ' :: op.text ++ (' ' :: (sr ++ (chainText items ++ ')' :: k))) := by simp [chainText]
  have hy : y = op.text ++ ' ' :: (sr ++ (chainText items ++ ')' :: k)) := by
    rw [← hy1, e1, (skip_op op _).1]
  have h1 := (hl.reads ha hln hy4).lift hy1 hy2 L' (fun i hi => hy3 i (by omega))
  have h2 := (hr.reads ha hrn hz4).lift hz1 hz2 L' (fun i hi => hz3 i (by omega))
  obtain ⟨po, hpo, hb⟩ := lvlOp_self op (sr ++ (chainText items ++ ')' :: k))
  rw [← hL'] at h1 h2
  obtain ⟨pl, hpl, hbl⟩ := h1
  obtain ⟨pr, hpr, hbr⟩ := h2
  -- the loop
  have hsk : skip (' ' :: (sr ++ (chainText items ++ ')' :: k))) =
      sr ++ (chainText items ++ ')' :: k) := by rw [skip_space, hr.skip]
  have hstep : seq (lvlOp op.level) (seq wss (lvlP env n op.level)) y = some ([po] ++ ([] ++ [pr]), z) := by
    rw [hy]
    exact seq_some hpo (seq_some (wss_eq _) (by
      rw [show List.dropWhile _ _ = skip (' ' :: (sr ++ (chainText items ++ ')' :: k))) from rfl, hsk]
      exact hpr))
  have hstar : ∃ ps, star (seq (lvlOp op.level) (seq wss (lvlP env n op.level))) y =
      some ([po, pr] ++ ps, ')' :: k) := by
    unfold P.star
    have hlen : items.length + 1 ≤ y.length := by
      have := chainText_count items
      rw [hy]; simp; omega
    obtain ⟨m, hm⟩ : ∃ m, y.length = m + 1 := ⟨y.length - 1, by omega⟩
    rw [hm]
    simp only [starN, hstep]
    obtain ⟨ps, hps⟩ := chain_star ha (L := op.level) (n := n) items k hop hi m (by omega)
    rw [hz1] at hps
    rw [hps]
    exact ⟨ps, rfl⟩
  obtain ⟨ps, hstar⟩ := hstar
  have hlevel : Reads env (lvlP env n (op.level + 1)) (sl ++ (chainText ((op, sr) :: items) ++ ')' :: k))
      (')' :: k) (.binary op l r) := by
    have h3 := seq_some (wss_eq y) (by rw [show List.dropWhile _ _ = skip y from rfl, hy2]; exact hstar)
    obtain ⟨tx, h4⟩ := rule_some' (r := lvlRule op.level) (seq_some hpl h3)
    refine ⟨_, h4, ?_⟩
    have hrl := lvlRule_level op.level
    generalize lvlRule op.level = rl at hrl hb
    simp only [isLevel, List.mem_cons, List.not_mem_nil, or_false] at hrl
    rcases hrl with rfl | rfl | rfl | rfl | rfl <;> simp [buildAst, hbl, hb, hbr]
  rw [List.append_assoc]
  have hle : op.level ≤ 4 := by cases op <;> decide
  have := hlevel.rise (4 - op.level) (skip_close k) (fun i _ _ => lvlOp_close i k)
  rw [show op.level + 1 + (4 - op.level) = 5 by omega, lvlP_or] at this
  exact this

/-- From a read expression to the whole `( … )`. -/
theorem buildRoot_of_reads {env : Env} {e : Ast} {s : Str} (hs : ∀ k, skip (s ++ k) = s ++ k) (rest : Str)
    (h1 : ReadsExpr env ((s ++ ')' :: rest).length + 1) (s ++ ')' :: rest) (')' :: rest) e) :
    buildRoot env ('(' :: s ++ ')' :: rest) = .ok e := by
  obtain ⟨pr, h2, h3, h4⟩ := h1
  have h2' : gExpr env (s ++ ')' :: rest) = some ([pr], ')' :: rest) := h2
  have hc : seq wss (lit [')']) (')' :: rest) = some ([] ++ [], rest) :=
    seq_some (wss_eq _) (by rw [show List.dropWhile _ _ = skip (')' :: rest) from rfl, skip_close]
                            exact lit_append [')'] rest)
  have hb := seq_some h2' hc
  have hw := seq_some (b := seq (gExpr env) (seq wss (lit [')']))) (wss_eq (s ++ ')' :: rest))
    (by rw [show List.dropWhile _ _ = skip (s ++ ')' :: rest) from rfl, hs]; exact hb)
  have hall := seq_some (lit_append ['('] (s ++ ')' :: rest)) hw
  obtain ⟨tx, h5⟩ := rule_some' (r := .valueExpr) hall
  have e1 : '(' :: s ++ ')' :: rest = ['('] ++ (s ++ ')' :: rest) := by simp
  unfold buildRoot
  rw [e1, show gValueExpr env (['('] ++ (s ++ ')' :: rest)) = _ from h5]
  exact h3

theorem buildRoot_writes {env : Env} (ha : env.AsciiSep) {e : Ast} {s : Str}
    (h : Writes env .alone e s) (rest : Str) :
    buildRoot env ('(' :: s ++ ')' :: rest) = .ok e :=
  buildRoot_of_reads h.skip rest (h.readBack ha _ rest (by simp; omega))

theorem chainText_length {items : List (BinaryOp × Str)} {i : BinaryOp × Str} (h : i ∈ items) :
    i.2.length ≤ (chainText items).length := by
  induction items with
  | nil => cases h
  | cons a items ih =>
    obtain ⟨o, t⟩ := a
    rcases List.mem_cons.mp h with rfl | h
    · simp [chainText]; omega
    · have := ih h; simp [chainText]; omega

theorem buildRoot_chain {env : Env} (ha : env.AsciiSep) {op : BinaryOp} {sl sr : Str} {l r : Ast}
    (hop : 1 ≤ op.level) (hl : OperandAt env op.level l sl) (hr : OperandAt env op.level r sr)
    (items : List (BinaryOp × Str))
    (hi : ∀ i ∈ items, i.1.level = op.level ∧ ∃ e, OperandAt env op.level e i.2) (rest : Str) :
    buildRoot env ('(' :: (sl ++ chainText ((op, sr) :: items)) ++ ')' :: rest) = .ok (.binary op l r) := by
  refine buildRoot_of_reads (fun k => by rw [List.append_assoc]; exact hl.skip _) rest ?_
  refine (Reads.chain ha hop hl hr ?_ ?_ items ?_ rest).expr
  · simp
  · have := chainText_length (items := (op, sr) :: items) (i := (op, sr)) (by simp)
    simp at this ⊢; omega
  · intro i hm
    refine ⟨(hi i hm).1, ?_, (hi i hm).2⟩
    have := chainText_length (items := (op, sr) :: items) (i := i) (by simp [hm])
    simp at this ⊢; omega

/-! ### Chains of multiplications, operators applied to the rest -/

theorem lvlOp_above_mult {op : BinaryOp} (h : op.level = 0) (i : Nat) (hi : 1 ≤ i) (k : Str) :
    lvlOp i (op.text ++ k) = none := by
  have hop : op = .mult ∨ op = .div := by cases op <;> simp [BinaryOp.level] at h ⊢
  unfold lvlOp
  split
  · omega
  all_goals (rcases hop with rfl | rfl <;> exact rule_none (by rfl))

/-- After `a * b`, a further ` * c` stops the parse. -/
theorem buildRoot_mult_chain {env : Env} (ha : env.AsciiSep) {op op' : BinaryOp} {sl sr : Str} {l r : Ast}
    (hop : op.level = 0) (hop' : op'.level = 0) (hl : OperandAt env 0 l sl) (hr : OperandAt env 0 r sr)
    (rest : Str) :
    buildRoot env ('(' :: (sl ++ chainText [(op, sr), (op', rest)])) =
      .error (.panic "unsuccessful parse") := by
  have e0 : sl ++ chainText [(op, sr), (op', rest)] =
      sl ++ (' ' :: op.text ++ ' ' :: (sr ++ (' ' :: op'.text ++ ' ' :: rest))) := by
    simp [chainText]
  rw [e0]
  generalize hS : sl ++ (' ' :: op.text ++ ' ' :: (sr ++ (' ' :: op'.text ++ ' ' :: rest))) = S
  have hlenl : sl.length ≤ S.length := by rw [← hS]; simp
  have hlenr : sr.length ≤ S.length := by rw [← hS]; simp; omega
  have h1 := hl.reads ha hlenl
    (k := ' ' :: op.text ++ ' ' :: (sr ++ (' ' :: op'.text ++ ' ' :: rest))) (.inr ⟨op, _, hop, rfl⟩)
  have h2 := hr.reads ha hlenr (k := ' ' :: op'.text ++ ' ' :: rest) (.inr ⟨op', rest, hop', rfl⟩)
  obtain ⟨po, hpo, hb⟩ := lvlOp_self op (sr ++ (' ' :: op'.text ++ ' ' :: rest))
  rw [hop] at hpo hb
  obtain ⟨s1, _, s3⟩ := skip_op op (' ' :: (sr ++ (' ' :: op'.text ++ ' ' :: rest)))
  have hblank : gMult (' ' :: op'.text ++ ' ' :: rest) = none := rule_none (by rfl)
  have h3 : Reads env (lvlP env S.length 1) S (' ' :: op'.text ++ ' ' :: rest) (.binary op l r) := by
    rw [hS] at h1
    refine Reads.double (lvlRule_level 0) h1 (by rw [s1]; exact s3) (by rw [s1]; exact hpo) hb ?_ hblank
    rw [skip_space, hr.skip]
    exact h2
  obtain ⟨t1, t2, _⟩ := skip_op op' (' ' :: rest)
  have h4 : Reads env (lvlP env S.length 2) S (op'.text ++ ' ' :: rest) (.binary op l r) := by
    have := Reads.single (lvlRule_level 1) h3 (op := lvlOp 1)
      (by rw [t1]; exact lvlOp_above_mult hop' 1 (by omega) _)
    rwa [t1] at this
  have h5 := h4.rise 3 t2 (fun i hi _ => lvlOp_above_mult hop' i (by omega) _)
  obtain ⟨pr, h6, _⟩ := Reads.expr (show Reads env (gOrL env S.length) S _ _ from h5)
  have h6' : gExpr env S = some ([pr], op'.text ++ ' ' :: rest) := h6
  have hclose : seq wss (lit [')']) (op'.text ++ ' ' :: rest) = none := by
    refine seq_none' (wss_eq _) ?_
    rw [show List.dropWhile _ _ = skip (op'.text ++ ' ' :: rest) from rfl, t2]
    have hop : op' = .mult ∨ op' = .div := by cases op' <;> simp [BinaryOp.level] at hop' ⊢
    rcases hop with rfl | rfl <;> rfl
  have hskip : skip S = S := by rw [← hS]; exact hl.skip _
  have hw : seq wss (seq (gExpr env) (seq wss (lit [')']))) S = none := by
    refine seq_none' (wss_eq S) ?_
    rw [show List.dropWhile _ _ = skip S from rfl, hskip]
    exact seq_none' h6' hclose
  have hall : gValueExpr env ('(' :: S) = none :=
    rule_none (seq_none' (lit_append ['('] S) hw)
  unfold buildRoot
  rw [hall]

/-- `- e` and `not e` apply to everything up to the closing parenthesis. -/
theorem buildRoot_unary {env : Env} (ha : env.AsciiSep) {e : Ast} {s : Str} (h : Writes env .alone e s)
    (rest : Str) :
    buildRoot env ('(' :: ("-".toList ++ s) ++ ')' :: rest) = .ok (.unary .neg e) ∧
    buildRoot env ('(' :: ("not ".toList ++ s) ++ ')' :: rest) = .ok (.unary .not e) := by
  constructor
  · refine buildRoot_of_reads (fun k => rfl) rest ?_
    have h1 := h.readBack ha ((("-".toList ++ s) ++ ')' :: rest).length) rest (by simp; omega)
    have h2 : Dinero.skip (s ++ ')' :: rest) = s ++ ')' :: rest := h.skip _
    exact (reads_unary (s := s ++ ')' :: rest) (.inr ⟨rfl, rfl⟩) (h2.symm ▸ h1)).alone.expr
  · refine buildRoot_of_reads (fun k => rfl) rest ?_
    have h1 := h.readBack ha ((("not ".toList ++ s) ++ ')' :: rest).length) rest (by simp; omega)
    have h2 : Dinero.skip (' ' :: (s ++ ')' :: rest)) = s ++ ')' :: rest := by
      rw [skip_space, h.skip]
    exact (reads_unary (s := ' ' :: (s ++ ')' :: rest)) (.inl ⟨rfl, rfl⟩) (h2.symm ▸ h1)).alone.expr

end Dinero
