import Verif.Lemmas.Balance
import Mathlib.Tactic.FieldSimp
/-
C01-C08: money and balances.
-/
namespace Dinero
open Balance

/-- 100 EUR, used by the examples. -/
def exEur : Cur := "EUR".toList
/-- The second commodity used by the examples. -/
def exUsd : Cur := "USD".toList
/-- A reachable two-commodity balance: 3 EUR and -5 USD. -/
def exBal : Balance := add (ofMoney (.mk 3 exEur)) (ofMoney (.mk (-5) exUsd))

theorem exBal_reachable : Reachable exBal := .add (.ofMoney _) (.ofMoney _)

/-! ### C01 -/

/-- Addition is exact in every commodity, leaves no zero entry, never panics, whatever the
iteration orders of the operands. -/
theorem C01_add_exact {a b : Balance} (ha : Reachable a) (hb : Reachable b) :
    (∀ c, (add a b).amountOf c = a.amountOf c + b.amountOf c) ∧
    (∀ e ∈ add a b, e.2.amount ≠ 0) ∧
    (∀ c, (∃ e ∈ add a b, e.2.commodity = some c) ↔ a.amountOf c + b.amountOf c ≠ 0) ∧
    addPanics a b = false := by
  have hcan := add_canon ha.wf hb.wf
  refine ⟨amountOf_add ha.wf hb.wf, ?_, ?_, (addLoop_spec ha.wf hb.wf).2.2⟩
  · intro e he hz
    have := hcan.noZero e he
    rw [(Money.isZero_iff e.2).mpr hz] at this
    cases this
  · intro c
    rw [← amountOf_add ha.wf hb.wf]
    constructor
    · rintro ⟨⟨k, m⟩, he, hc⟩
      obtain ⟨d, rfl, rfl, hne⟩ := (hcan.mem_iff k m).mp he
      simp only [Money.commodity, Option.some.injEq] at hc
      subst hc; exact hne
    · intro hne
      exact ⟨(some c, .mk (amountOf (add a b) c) c), (hcan.mem_iff _ _).mpr ⟨c, rfl, rfl, hne⟩, rfl⟩

/-- Money plus money is the exact two-term sum. -/
theorem C01_money_add (a b : Money) (c : Cur) :
    (Money.add a b).amountOf c = a.amountIn c + b.amountIn c := by
  rw [Money.add, amountOf_add (ofMoney_wf a) (ofMoney_wf b), amountOf_ofMoney, amountOf_ofMoney]

example : Reachable exBal ∧ exBal.amountOf exEur = 3 ∧ exBal.amountOf exUsd = -5 ∧
    add exBal (neg exBal) = [] := ⟨exBal_reachable, by decide +kernel⟩

/-! ### C02 -/

/-- `Sums ms b`: the balance `b` was obtained by adding up the money values `ms`, with some
grouping, starting empty balances anywhere, under arbitrary hash orders. -/
inductive Sums : List Money → Balance → Prop
  | empty : Sums [] new
  | one (m : Money) : Sums [m] (ofMoney m)
  | add {l l' : List Money} {a b : Balance} : Sums l a → Sums l' b → Sums (l ++ l') (add a b)
  | reorder {l : List Money} {a b : Balance} : Sums l a → a.Perm b → Sums l b

theorem Sums.reachable {l : List Money} {b : Balance} (h : Sums l b) : Reachable b := by
  induction h with
  | empty => exact .new
  | one m => exact .ofMoney m
  | add _ _ ha hb => exact .add ha hb
  | reorder _ hp ih => exact .reorder ih hp

/-- However a multiset of amounts is summed, the result holds their exact sum. -/
theorem C02_sum_exact {l : List Money} {b : Balance} (h : Sums l b) (c : Cur) :
    b.amountOf c = sumIn l c := by
  induction h with
  | empty => rfl
  | one m => simp [amountOf_ofMoney]
  | add ha hb iha ihb =>
    rw [amountOf_add ha.reachable.wf hb.reachable.wf, iha, ihb, sumIn_append]
  | reorder _ hp ih => rw [← amountOf_perm hp, ih]

/-- Any order and any grouping of the same amounts gives the same per-commodity amounts. -/
theorem C02_order_independent {l l' : List Money} {a b : Balance} (ha : Sums l a) (hb : Sums l' b)
    (hp : l.Perm l') (c : Cur) : a.amountOf c = b.amountOf c := by
  rw [C02_sum_exact ha, C02_sum_exact hb, sumIn_perm hp]

/-- The sums are even the same map (up to hash order) once at least one addition happened, and
the empty balance is neutral on both sides. -/
theorem C02_same_map {a b a' b' : Balance} (ha : Reachable a) (hb : Reachable b)
    (ha' : Reachable a') (hb' : Reachable b')
    (h : ∀ c, a.amountOf c + b.amountOf c = a'.amountOf c + b'.amountOf c) :
    (add a b).Perm (add a' b') :=
  (add_canon ha.wf hb.wf).perm_of_amountOf (add_canon ha'.wf hb'.wf) (by
    intro c; rw [amountOf_add ha.wf hb.wf, amountOf_add ha'.wf hb'.wf, h])

theorem C02_new_neutral {a : Balance} (ha : Reachable a) (c : Cur) :
    (add a new).amountOf c = a.amountOf c ∧ (add new a).amountOf c = a.amountOf c := by
  constructor
  · rw [amountOf_add ha.wf Reachable.new.wf]; simp
  · rw [amountOf_add Reachable.new.wf ha.wf]; simp

example : Sums [.mk 3 exEur, .mk (-5) exUsd, .mk 2 exEur]
    (add exBal (ofMoney (.mk 2 exEur))) :=
  .add (.add (.one _) (.one _)) (.one _)

/-! ### C03 -/

/-- Negation and subtraction are exact; `b - b` is zero; negating twice gives the amounts back. -/
theorem C03_neg_sub_exact {a b : Balance} (ha : Reachable a) (hb : Reachable b) :
    (∀ c, (neg b).amountOf c = - b.amountOf c) ∧
    (∀ c, (sub a b).amountOf c = a.amountOf c - b.amountOf c) ∧
    isZero (sub b b) = true ∧ sub b b = [] ∧ addPanics a (neg b) = false := by
  refine ⟨amountOf_neg hb.wf, amountOf_sub ha.wf hb.wf, ?_, ?_, (addLoop_spec ha.wf (neg_wf hb.wf)).2.2⟩
  · rw [isZero_iff (sub_canon hb.wf hb.wf).toWF]
    intro c; rw [amountOf_sub hb.wf hb.wf]; ring
  · rw [← (sub_canon hb.wf hb.wf).isZero_iff_nil, isZero_iff (sub_canon hb.wf hb.wf).toWF]
    intro c; rw [amountOf_sub hb.wf hb.wf]; ring

theorem C03_money (a b : Money) (c : Cur) :
    a.neg.amountIn c = - a.amountIn c ∧ a.neg.neg = a ∧
    (Money.sub a b).amountOf c = a.amountIn c - b.amountIn c := by
  refine ⟨Money.amountIn_neg a c, by cases a <;> simp [Money.neg], ?_⟩
  rw [Money.sub, amountOf_sub (ofMoney_wf a) (ofMoney_wf b), amountOf_ofMoney, amountOf_ofMoney]

example : Reachable exBal ∧ (neg exBal).amountOf exUsd = 5 := ⟨exBal_reachable, by decide +kernel⟩

/-! ### C04 -/

/-- `is_zero` is true exactly when every commodity amounts to zero. -/
theorem C04_isZero_iff {b : Balance} (hb : Reachable b) :
    isZero b = true ↔ ∀ c, b.amountOf c = 0 := isZero_iff hb.wf

/-- `to_money` returns the only non-zero commodity, or zero when there is none; it fails exactly
when two commodities are non-zero. -/
theorem C04_toMoney {b : Balance} (hb : Reachable b) :
    (∀ m, toMoney b = .ok m → ∀ c, b.amountOf c = m.amountIn c) ∧
    ((∃ m, toMoney b = .ok m) ↔ ∀ c d, b.amountOf c ≠ 0 → b.amountOf d ≠ 0 → c = d) ∧
    (toMoney b = .error (.error .notBalanced) ↔
      ∃ c d, c ≠ d ∧ b.amountOf c ≠ 0 ∧ b.amountOf d ≠ 0) := by
  have hwf := hb.wf
  -- the non-zero entries
  have hcan : Canon (b.filter (fun e => !e.2.isZero)) :=
    ⟨hwf.filter _, fun e he => by simpa using (List.mem_filter.mp he).2⟩
  have ham : ∀ c, amountOf (b.filter (fun e => !e.2.isZero)) c = amountOf b c :=
    fun c => amountOf_filter c
  have hlist : (b.map Prod.snd).filter (fun m => !m.isZero)
      = (b.filter (fun e => !e.2.isZero)).map Prod.snd := by
    rw [List.filter_map]; rfl
  unfold toMoney
  rw [hlist]
  generalize b.filter (fun e => !e.2.isZero) = l at hcan ham
  simp only [← ham]
  match l, hcan with
  | [], hcan => simp [Money.amountIn, Money.commodity]
  | [e], hcan =>
    obtain ⟨k, m⟩ := e
    obtain ⟨d, hd, hm, hne⟩ := (hcan.mem_iff k m).mp (by simp)
    have hall : ∀ c, amountOf [(k, m)] c ≠ 0 → c = d := by
      intro c hc
      rw [amountOf_cons, hm] at hc
      by_contra h
      simp [Ne.symm h] at hc
    refine ⟨?_, ?_, ?_⟩
    · intro m' h c
      simp only [List.map_cons, List.map_nil, Except.ok.injEq] at h
      subst h; simp [amountOf_cons]
    · constructor
      · intro _ c c' hc hc'; rw [hall c hc, hall c' hc']
      · intro _; exact ⟨m, rfl⟩
    · constructor
      · intro h; simp at h
      · rintro ⟨c, c', hcc, hc, hc'⟩
        exact absurd ((hall c hc).trans (hall c' hc').symm) hcc
  | e :: e' :: l', hcan =>
    obtain ⟨k, m⟩ := e
    obtain ⟨k', m'⟩ := e'
    obtain ⟨d, hd, hm, hne⟩ := (hcan.mem_iff k m).mp (by simp)
    obtain ⟨d', hd', hm', hne'⟩ := (hcan.mem_iff k' m').mp (by simp)
    have hdd : d ≠ d' := by
      intro h; subst h
      have := hcan.nodup
      simp [hd, hd'] at this
    refine ⟨?_, ?_, ?_⟩
    · intro m'' h; simp at h
    · constructor
      · rintro ⟨m'', h⟩; simp at h
      · intro h; exact absurd (h d d' hne hne') hdd
    · constructor
      · intro _; exact ⟨d, d', hdd, hne, hne'⟩
      · intro _; rfl

example : toMoney exBal = .error (.error .notBalanced) ∧
    toMoney (add exBal (ofMoney (.mk 5 exUsd))) = .ok (.mk 3 exEur) ∧
    toMoney (add exBal (neg exBal)) = .ok .zero := by decide +kernel

/-! ### C05 -/

theorem canBeZeroLoop_iff (l : Balance) (p n : Bool) (hpn : (p && n) = false) :
    canBeZeroLoop l p n = true ↔
      (p = true ∨ ∃ e ∈ l, e.2.isPositive = true) ∧ (n = true ∨ ∃ e ∈ l, e.2.isNegative = true) := by
  induction l generalizing p n with
  | nil => cases p <;> cases n <;> simp_all [canBeZeroLoop]
  | cons e l ih =>
    obtain ⟨k, m⟩ := e
    rw [canBeZeroLoop]
    by_cases h : ((m.isPositive || p) && (m.isNegative || n)) = true
    · rw [if_pos h]
      simp only [Bool.and_eq_true, Bool.or_eq_true] at h
      simp only [List.mem_cons, true_iff]
      constructor
      · rcases h.1 with h | h
        · exact Or.inr ⟨_, Or.inl rfl, h⟩
        · exact Or.inl h
      · rcases h.2 with h | h
        · exact Or.inr ⟨_, Or.inl rfl, h⟩
        · exact Or.inl h
    · rw [if_neg h, ih _ _ (by simpa using h)]
      simp only [Bool.or_eq_true, List.mem_cons, exists_eq_or_imp]
      tauto

/-- `can_be_zero` is true iff everything is zero, or one commodity is strictly positive and
another strictly negative; whatever the hash order. -/
theorem C05_canBeZero_iff {b : Balance} (hb : Reachable b) :
    canBeZero b = true ↔
      (∀ c, b.amountOf c = 0) ∨ (∃ c d, 0 < b.amountOf c ∧ b.amountOf d < 0) := by
  have hg := hb.good
  unfold canBeZero
  by_cases hz : isZero b = true
  · rw [if_pos hz]; simp [(isZero_iff hg.toWF).mp hz]
  · rw [if_neg hz]
    have hz' : ¬ ∀ c, b.amountOf c = 0 := fun h => hz ((isZero_iff hg.toWF).mpr h)
    -- no entry is the `Zero` variant, because a single zero entry would make the balance zero
    have hnz : ∀ e ∈ b, ∃ a d, e = (some d, Money.mk a d) := by
      rintro ⟨k, m⟩ he
      have hk := hg.key _ he
      cases m with
      | mk a d => simp only [Money.commodity] at hk; subst hk; exact ⟨a, d, rfl⟩
      | zero =>
        exfalso
        rcases hg.shape with h | h
        · have := h _ he; simp [Money.isZero] at this
        · match b, h, he with
          | [x], _, he =>
            simp only [List.mem_singleton] at he
            subst he; exact hz rfl
    have hamt : ∀ e ∈ b, ∀ a d, e = (some d, Money.mk a d) → b.amountOf d = a := by
      rintro _ he a d rfl
      rw [amountOf_eq hg.toWF, HMap.get?_of_mem hg.nodup he]; rfl
    have hent : ∀ c, b.amountOf c ≠ 0 → (some c, Money.mk (b.amountOf c) c) ∈ b := by
      intro c hc
      have h1 := amountOf_eq hg.toWF c
      cases hgt : HMap.get? b (some c) with
      | none => rw [hgt] at h1; exact absurd h1 hc
      | some m =>
        have hmem := HMap.mem_of_get? hgt
        obtain ⟨a, d, hed⟩ := hnz _ hmem
        have := hamt _ hmem a d hed
        simp only [Prod.mk.injEq, Option.some.injEq] at hed
        obtain ⟨rfl, rfl⟩ := hed
        rw [this]; exact hmem
    rw [canBeZeroLoop_iff b false false rfl]
    simp only [Bool.false_eq_true, false_or, hz']
    constructor
    · rintro ⟨⟨e, he, hpos⟩, ⟨e', he', hneg⟩⟩
      obtain ⟨a, d, rfl⟩ := hnz e he
      obtain ⟨a', d', rfl⟩ := hnz e' he'
      refine ⟨d, d', ?_, ?_⟩
      · rw [hamt _ he a d rfl]; simpa [Money.isPositive] using hpos
      · rw [hamt _ he' a' d' rfl]; simpa [Money.isNegative] using hneg
    · rintro ⟨c, d, hc, hd⟩
      exact ⟨⟨_, hent c (ne_of_gt hc), by simpa [Money.isPositive] using hc⟩,
        ⟨_, hent d (ne_of_lt hd), by simpa [Money.isNegative] using hd⟩⟩

example : canBeZero exBal = true ∧
    canBeZero (add exBal (ofMoney (.mk 6 exUsd))) = false := by decide +kernel

/-! ### C06 -/

/-- `a == b` compares exactly the commodities that have an entry in `a`. -/
theorem C06_eq_iff {a b : Balance} (ha : Reachable a) (hb : Reachable b) :
    Balance.eq a b = true ↔
      ∀ c, (∃ e ∈ a, e.2.commodity = some c) → a.amountOf c = b.amountOf c := by
  have hwa := ha.wf
  have hwb := hb.wf
  unfold Balance.eq
  rw [List.all_eq_true]
  constructor
  · rintro h c ⟨⟨k, m⟩, he, hc⟩
    have hk := hwa.key _ he
    simp only at hk hc
    subst hk
    cases m with
    | zero => simp [Money.commodity] at hc
    | mk x d =>
      simp only [Money.commodity, Option.some.injEq] at hc
      subst hc
      simp only [Money.commodity] at he
      have := h _ he
      rw [amountOf_eq hwa, HMap.get?_of_mem hwa.nodup he, amountOf_eq hwb]
      simp only at this ⊢
      cases hg : HMap.get? b (some d) with
      | none => rw [hg] at this; simpa [Money.isZero, Money.amount] using this
      | some m' =>
        rw [hg] at this
        have hm' := hwb.get?_commodity hg
        cases m' with
        | zero => simp [Money.commodity] at hm'
        | mk y d' =>
          simp only [Money.eq, Bool.and_eq_true, beq_iff_eq] at this
          simp [Money.amount, this.1]
  · rintro h ⟨k, m⟩ he
    have hk := hwa.key _ he
    simp only at hk
    subst hk
    cases m with
    | zero =>
      simp only [Money.commodity]
      cases hg : HMap.get? b none with
      | none => simp [Money.isZero]
      | some m' =>
        have hm' := hwb.get?_commodity hg
        cases m' with
        | zero => rfl
        | mk y d' => simp [Money.commodity] at hm'
    | mk x d =>
      simp only [Money.commodity] at he
      have := h d ⟨_, he, rfl⟩
      rw [amountOf_eq hwa, HMap.get?_of_mem hwa.nodup he, amountOf_eq hwb] at this
      simp only [Money.commodity] at this ⊢
      cases hg : HMap.get? b (some d) with
      | none => rw [hg] at this; simpa [Money.isZero, Money.amount] using this
      | some m' =>
        rw [hg] at this
        have hm' := hwb.get?_commodity hg
        cases m' with
        | zero => simp [Money.commodity] at hm'
        | mk y d' =>
          simp only [Money.commodity, Option.some.injEq] at hm'
          simp only [Money.amount] at this
          simp [Money.eq, this, hm']

/-- When both comparisons succeed the balances agree in every commodity. -/
theorem C06_both_sides {a b : Balance} (ha : Reachable a) (hb : Reachable b)
    (h : Balance.eq a b = true) (h' : Balance.eq b a = true) (c : Cur) :
    a.amountOf c = b.amountOf c := by
  have e1 := (C06_eq_iff ha hb).mp h c
  have e2 := (C06_eq_iff hb ha).mp h' c
  by_cases hA : ∃ e ∈ a, e.2.commodity = some c
  · exact e1 hA
  · by_cases hB : ∃ e ∈ b, e.2.commodity = some c
    · exact (e2 hB).symm
    · have key : ∀ {x : Balance}, Reachable x → (¬ ∃ e ∈ x, e.2.commodity = some c) →
          x.amountOf c = 0 := by
        intro x hx hno
        refine amountOf_of_not_mem hx.wf ?_
        intro hmem
        obtain ⟨e, he, hek⟩ := List.mem_map.mp hmem
        exact hno ⟨e, he, by rw [hx.wf.key e he, hek]⟩
      rw [key ha hA, key hb hB]

/-- The comparison is not symmetric: the empty balance "equals" everything. -/
theorem C06_not_symmetric : ∃ a b, Reachable a ∧ Reachable b ∧
    Balance.eq a b = true ∧ Balance.eq b a = false :=
  ⟨new, exBal, .new, exBal_reachable, by decide +kernel⟩

example : Balance.eq exBal (add exBal (ofMoney (.mk 1 "X".toList))) = true := by decide +kernel

/-! ### C07 -/

/-- The parts of C07 that hold: `==` is reflexive and symmetric, and transitive except through
zero amounts; `cmp` on one commodity is the order of the amounts, so it is a total order agreeing
with `==`; `<` (the derived `PartialOrd`) agrees with `cmp` on two amounts written in the same
commodity.  Missing from the full statement: transitivity of `==` through zero amounts
(`C07_eq_not_transitive`), agreement of `<` with `cmp` for `Money::Zero`
(`C07_lt_disagrees_with_cmp`). -/
theorem C07_coherent_partial (a b c : Money) :
    Money.eq a a = true ∧ (Money.eq a b = Money.eq b a) ∧
    (b.amount ≠ 0 → Money.eq a b = true → Money.eq b c = true → Money.eq a c = true) ∧
    (∀ x y k, Money.cmp (.mk x k) (.mk y k) =
      .ok (if x < y then .lt else if y < x then .gt else .eq)) ∧
    (∀ x y k, Money.eq (.mk x k) (.mk y k) = true ↔ Money.cmp (.mk x k) (.mk y k) = .ok .eq) ∧
    (∀ x y k, Money.cmp (.mk x k) (.mk y k) = .ok (Money.partialCmp (.mk x k) (.mk y k))) ∧
    (∀ m, Money.cmp .zero m = .ok (if 0 < m.amount then .lt else if m.amount < 0 then .gt else .eq)) := by
  refine ⟨?_, ?_, ?_, ?_, ?_, ?_, ?_⟩
  · cases a <;> simp [Money.eq]
  · cases a <;> cases b <;> simp only [Money.eq]
    next x k y k' =>
    rw [Bool.eq_iff_iff]; simp only [Bool.and_eq_true, beq_iff_eq]
    constructor <;> rintro ⟨rfl, rfl⟩ <;> exact ⟨rfl, rfl⟩
  · intro hb hab hbc
    cases b with
    | zero => exact absurd rfl hb
    | mk y k =>
      cases a with
      | zero => simp only [Money.eq, beq_iff_eq] at hab; exact absurd hab hb
      | mk x k1 =>
        cases c with
        | zero => simp only [Money.eq, beq_iff_eq] at hbc; exact absurd hbc hb
        | mk z k2 =>
          simp only [Money.eq, Bool.and_eq_true, beq_iff_eq] at *
          exact ⟨hab.1.trans hbc.1, hab.2.trans hbc.2⟩
  · intro x y k
    simp only [Money.cmp, Money.commodity, if_true, Money.ratCmp]; rfl
  · intro x y k
    simp only [Money.cmp, Money.commodity, Money.amount, Money.eq, if_true,
      Bool.and_eq_true, beq_iff_eq, Except.ok.injEq, Money.ratCmp_eq_iff, and_true]
  · intro x y k
    simp only [Money.cmp, Money.commodity, Money.amount, Money.partialCmp, if_true, Except.ok.injEq]
    have : Money.strCmp k k = .eq := by
      unfold Money.strCmp; rw [if_neg (List.lt_irrefl k), if_neg (List.lt_irrefl k)]
    rw [this]; cases Money.ratCmp x y <;> rfl
  · intro m; cases m <;> rfl

/-- `==` is not transitive: `0 EUR == Zero == 0 USD` but `0 EUR != 0 USD`. -/
theorem C07_eq_not_transitive : ¬ ∀ a b c : Money,
    Money.eq a b = true → Money.eq b c = true → Money.eq a c = true := by
  intro h
  have := h (.mk 0 exEur) .zero (.mk 0 exUsd) (by decide +kernel) (by decide +kernel)
  revert this; decide +kernel

/-- The `<` operator disagrees with `cmp`: `Zero < -1 EUR` although `cmp` says greater, and
`Zero < 0 EUR` although they are equal. -/
theorem C07_lt_disagrees_with_cmp :
    (∃ a b, Money.partialCmp a b = .lt ∧ Money.cmp a b = .ok .gt) ∧
    (∃ a b, Money.partialCmp a b = .lt ∧ Money.cmp a b = .ok .eq ∧ Money.eq a b = true) :=
  ⟨⟨.zero, .mk (-1) exEur, by decide +kernel⟩, ⟨.zero, .mk 0 exEur, by decide +kernel⟩⟩

/-- Comparing two different commodities panics, whatever the amounts (even both zero, and even
though `==` and `<` return an answer). -/
theorem C07_cmp_panics (x y : Rat) (c d : Cur) (h : c ≠ d) :
    (Money.cmp (.mk x c) (.mk y d)).isPanic = true := by
  simp [Money.cmp, Money.commodity, h, Res.isPanic]

/-! ### C08 -/

/-- Scaling is exact; dividing undoes multiplying; dividing by zero panics; `abs` keeps the
magnitude and is never negative. -/
theorem C08_scaling (m : Money) (r : Rat) :
    (∀ c, (m.mul r).amountIn c = m.amountIn c * r) ∧
    (m.mul r).commodity = m.commodity ∧
    (r = 0 → (m.div r).isPanic = true) ∧
    (r ≠ 0 → ∃ q, m.div r = .ok q ∧ (∀ c, q.amountIn c = m.amountIn c / r) ∧
      q.commodity = m.commodity ∧ q.mul r = m ∧ (m.mul r).div r = .ok m) ∧
    m.abs.amount = |m.amount| ∧ m.abs.commodity = m.commodity := by
  refine ⟨?_, by cases m <;> rfl, ?_, ?_, ?_, ?_⟩
  · intro c
    cases m with
    | zero => simp [Money.mul]
    | mk a d => simp only [Money.mul, Money.amountIn_mk]; split <;> simp
  · rintro rfl; simp [Money.div, Res.isPanic]
  · intro hr
    refine ⟨m.mul r⁻¹, by simp [Money.div, hr], ?_, by cases m <;> rfl, ?_, ?_⟩
    · intro c
      cases m with
      | zero => simp [Money.mul]
      | mk a d => simp only [Money.mul, Money.amountIn_mk]; split <;> simp [div_eq_mul_inv]
    · cases m with
      | zero => rfl
      | mk a d => simp [Money.mul, mul_assoc, inv_mul_cancel₀ hr]
    · cases m with
      | zero => simp [Money.div, Money.mul, hr]
      | mk a d => simp [Money.div, Money.mul, hr]
  · cases m with
    | zero => simp [Money.abs, Money.isNegative, Money.neg, Money.amount]
    | mk a d =>
      simp only [Money.abs, Money.isNegative]
      by_cases h : a < 0
      · simp [h, Money.neg, Money.amount, abs_of_neg h]
      · simp [h, Money.amount, abs_of_nonneg (not_lt.mp h)]
  · cases m with
    | zero => simp [Money.abs, Money.isNegative, Money.neg]
    | mk a d =>
      simp only [Money.abs, Money.isNegative]
      by_cases h : a < 0 <;> simp [h, Money.neg, Money.commodity]

example : (Money.mk (-3) exEur).div 4 = .ok (.mk (-3/4) exEur) ∧
    (Money.mk (-3) exEur).abs = .mk 3 exEur := by decide +kernel

end Dinero
