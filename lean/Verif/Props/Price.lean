import Verif.Lemmas.Price
import Mathlib.Tactic.NormNum
/-
Properties C35-C41: currency conversion.
-/
namespace Dinero

/-! Example data: commodities A, B, C, T and prices between them. -/

private def cA : Cur := ['A']
private def cB : Cur := ['B']
private def cC : Cur := ['C']
private def cT : Cur := ['T']
private def idOrders : ConvOrders := ⟨.id, .id, .id⟩
private def revOrders : ConvOrders := ⟨.rev, .rev, .rev⟩

/-- 1 A = 2 T (day 3, superseding day 1), 1 B = 5 A (day 7), 1 T = 4 C (day 4); the price of day 30
is in the future. -/
private def exPrices : List Price :=
  [⟨1, cA, 10, cT⟩, ⟨3, cA, 2, cT⟩, ⟨30, cA, 99, cT⟩, ⟨7, cB, 5, cA⟩, ⟨4, cT, 4, cC⟩]

example : (conversion idOrders cT 10 exPrices).toOption.map
    (fun ms => (ms.get? cA, ms.get? cB, ms.get? cC, ms.get? cT)) =
    some (some 2, some 10, some (1 / 4), none) := by decide +kernel

/-! ### C35 -/

/-- C35, first half: prices dated after the report date have no influence at all. -/
theorem C35_later_prices_ignored (o : ConvOrders) (target : Cur) (date : Date)
    (prices : List Price) :
    conversion o target date prices =
      conversion o target date (prices.filter (fun p => p.date ≤ date)) := by
  have h : pricesNodup prices date = pricesNodup (prices.filter (fun p => p.date ≤ date)) date := by
    unfold pricesNodup
    have gen : ∀ m, prices.foldl (nodupStep date) m =
        (prices.filter (fun p => p.date ≤ date)).foldl (nodupStep date) m := by
      induction prices with
      | nil => intro m; rfl
      | cons p l ih =>
        intro m
        by_cases hp : p.date ≤ date
        · rw [List.filter_cons_of_pos (by simpa using hp)]; exact ih _
        · rw [List.filter_cons_of_neg (by simpa using hp), List.foldl_cons, ih]
          congr 1
          unfold nodupStep; rw [if_pos (by omega)]
    exact gen []
  unfold conversion Graph.fromPrices
  simp only [h]

/-- C35, second half: every multiplier is the product along a chain of prices each of which is
known at the report date and not superseded, at that date, by a more recent one for the same two
commodities. -/
theorem C35_only_usable_prices (o : ConvOrders) (target : Cur) (date : Date) (prices : List Price)
    (ms : HMap Cur Rat) (h : conversion o target date prices = .ok ms) (c : Cur) (r : Rat)
    (hr : ms.get? c = some r) :
    Chain (fun p => p.date ≤ date ∧
      ∀ q ∈ prices, q.date ≤ date → SamePair p q → q.date ≤ p.date) target c r :=
  ((conversion_spec h).1 c r hr).2.mono (fun _ hp => ⟨hp.known, hp.latest⟩)

/-! ### C36 -/

/-- C36: a multiplier is the product of the rates along a chain of prices of the journal leading
from the commodity to the target. -/
theorem C36_multiplier_is_chain_product (o : ConvOrders) (target : Cur) (date : Date)
    (prices : List Price) (ms : HMap Cur Rat) (h : conversion o target date prices = .ok ms)
    (c : Cur) (r : Rat) (hr : ms.get? c = some r) :
    Chain (fun p => p ∈ prices) target c r :=
  ((conversion_spec h).1 c r hr).2.mono (fun _ hp => hp.mem)

/- The hypotheses of C35, C36 (and of C39 below) hold in the example: B is converted through A. -/
example : ∃ ms, conversion idOrders cT 10 exPrices = .ok ms ∧ ms.get? cB = some 10 := by
  have h : (match conversion idOrders cT 10 exPrices with
    | .ok ms => decide (ms.get? cB = some 10) | .error _ => false) = true := by decide +kernel
  split at h
  · next ms hms => exact ⟨ms, hms, by simpa using h⟩
  · cases h

/-! ### C37 -/

/-- C37: when the usable prices follow from values of the commodities, conversion succeeds and
every multiplier is the exact ratio of values. -/
theorem C37_consistent_prices_exact (o : ConvOrders) (target : Cur) (date : Date)
    (prices : List Price) (val : Cur → Rat) (hv : Consistent prices date val) :
    ∃ ms, conversion o target date prices = .ok ms ∧
      ∀ c r, ms.get? c = some r → r = val c / val target := by
  obtain ⟨ms, h⟩ := conversion_total o target date prices hv.amount_ne
  exact ⟨ms, h, fun c r hr => ((conversion_spec h).1 c r hr).2.value hv⟩

/-- C37, reproducibility: with consistent prices two runs (two sets of hash orders) give the same
table. -/
theorem C37_consistent_prices_reproducible (o o' : ConvOrders) (target : Cur) (date : Date)
    (prices : List Price) (val : Cur → Rat) (hv : Consistent prices date val) :
    ∃ ms ms', conversion o target date prices = .ok ms ∧
      conversion o' target date prices = .ok ms' ∧ ∀ c, ms.get? c = ms'.get? c := by
  obtain ⟨ms, h, hr⟩ := C37_consistent_prices_exact o target date prices val hv
  obtain ⟨ms', h', hr'⟩ := C37_consistent_prices_exact o' target date prices val hv
  refine ⟨ms, ms', h, h', fun c => ?_⟩
  have half : ∀ (m1 m2 : HMap Cur Rat) (o1 o2 : ConvOrders),
      conversion o1 target date prices = .ok m1 → conversion o2 target date prices = .ok m2 →
      ∀ r, m1.get? c = some r → ∃ r', m2.get? c = some r' := by
    intro m1 m2 o1 o2 h1 h2 r hr
    obtain ⟨hc, hch⟩ := (conversion_spec h1).1 c r hr
    exact Option.isSome_iff_exists.mp ((conversion_spec h2).2 c hc hch.linked)
  cases e : ms.get? c with
  | some r =>
    obtain ⟨r', e'⟩ := half ms ms' o o' h h' r e
    rw [e', hr c r e, hr' c r' e']
  | none =>
    cases e' : ms'.get? c with
    | none => rfl
    | some r' =>
      obtain ⟨r, e2⟩ := half ms' ms o' o h' h r' e'
      rw [e] at e2; cases e2

/-- Usability is decided by looking at the list only. -/
private theorem usable_mem {prices : List Price} {date : Date} {p : Price} {P : Price → Prop}
    (h : ∀ p ∈ prices, (p.date ≤ date ∧ ∀ q ∈ prices, q.date ≤ date →
      (p.commodity = q.commodity ∧ p.cur = q.cur) ∨ (p.commodity = q.cur ∧ p.cur = q.commodity) →
      q.date ≤ p.date) → P p) (hp : Usable prices date p) : P p :=
  h p hp.mem ⟨hp.known, hp.latest⟩

/- Values T = 1, A = 2, B = 10, C = 1/4 make the example consistent although superseded and future
prices disagree. -/
example : Consistent exPrices 10
    (fun c => if c = cA then 2 else if c = cB then 10 else if c = cC then 1 / 4 else 1) := by
  refine ⟨fun c => by split_ifs <;> norm_num, fun p hp => ?_⟩
  refine usable_mem (P := fun p =>
    (if p.commodity = cA then (2 : Rat) else if p.commodity = cB then 10
      else if p.commodity = cC then 1 / 4 else 1) =
    p.amount * (if p.cur = cA then 2 else if p.cur = cB then 10
      else if p.cur = cC then 1 / 4 else 1)) ?_ hp
  clear hp p
  decide +kernel

/-! ### C38 -/

/-- C38 at full strength: a commodity other than the target gets a multiplier exactly when usable
prices connect it to the target. -/
def C38_statement : Prop :=
  ∀ (o : ConvOrders) (target : Cur) (date : Date) (prices : List Price) (c : Cur), c ≠ target →
    ((∃ ms r, conversion o target date prices = .ok ms ∧ ms.get? c = some r) ↔
      Linked prices date target c)

/-- C38 fails when a price is zero: converting through it backwards divides by zero. -/
theorem C38_zero_price_panics :
    conversion idOrders cT 10 [⟨1, cT, 0, cA⟩] = .error (.panic "division by zero") := by
  decide +kernel

theorem C38_negation : ¬ C38_statement := by
  intro h
  have hu : Usable [⟨1, cT, 0, cA⟩] 10 ⟨1, cT, 0, cA⟩ :=
    ⟨by simp, by decide, by simp⟩
  obtain ⟨ms, r, h1, _⟩ := (h idOrders cT 10 [⟨1, cT, 0, cA⟩] cA (by decide)).mpr
    (Linked.backward hu Linked.here)
  rw [C38_zero_price_panics] at h1; cases h1

/-- C38, for every call that returns (the missing case is a zero price, where the call may panic;
see `C38_returns_partial`). -/
theorem C38_convertible_iff_linked_partial (o : ConvOrders) (target : Cur) (date : Date)
    (prices : List Price) (ms : HMap Cur Rat) (h : conversion o target date prices = .ok ms)
    (c : Cur) (hc : c ≠ target) :
    (∃ r, ms.get? c = some r) ↔ Linked prices date target c := by
  constructor
  · rintro ⟨r, hr⟩; exact ((conversion_spec h).1 c r hr).2.linked
  · intro hl; exact Option.isSome_iff_exists.mp ((conversion_spec h).2 c hc hl)

/-- C38: conversion returns whenever no usable price is zero. -/
theorem C38_returns_partial (o : ConvOrders) (target : Cur) (date : Date) (prices : List Price)
    (hz : ∀ p, Usable prices date p → p.amount ≠ 0) :
    ∃ ms, conversion o target date prices = .ok ms :=
  conversion_total o target date prices hz

/- The hypothesis holds in the example. -/
example : ∀ p, Usable exPrices 10 p → p.amount ≠ 0 := by
  intro p hp
  exact usable_mem (P := fun p => p.amount ≠ 0) (by decide +kernel) hp

/-! ### C39 -/

/-- C39: the target commodity itself never gets a multiplier. -/
theorem C39_target_never_rescaled (o : ConvOrders) (target : Cur) (date : Date)
    (prices : List Price) (ms : HMap Cur Rat) (h : conversion o target date prices = .ok ms) :
    ms.get? target = none := by
  cases e : ms.get? target with
  | none => rfl
  | some r => exact absurd rfl ((conversion_spec h).1 target r e).1

/- Also with a degenerate price of the target in terms of itself. -/
example : (conversion revOrders cT 10 [⟨1, cT, 7, cT⟩, ⟨2, cT, 3, cT⟩, ⟨3, cA, 2, cT⟩]).toOption.map
    (fun ms => (ms.get? cT, ms.get? cA)) = some (none, some 2) := by decide +kernel

/-! ### C40 -/

/-- C40 at full strength. -/
def C40_statement : Prop :=
  ∀ (o o' : ConvOrders) (target : Cur) (date : Date) (prices : List Price) (ms ms' : HMap Cur Rat),
    conversion o target date prices = .ok ms → conversion o' target date prices = .ok ms' →
    ∀ c, ms.get? c = ms'.get? c

/-- Two chains of the same length in days: C -> A -> T at rate 1 and C -> B -> T at rate 2. -/
private def tiePrices : List Price :=
  [⟨5, cA, 1, cT⟩, ⟨5, cB, 1, cT⟩, ⟨5, cC, 1, cA⟩, ⟨5, cC, 2, cB⟩]

private theorem conversion_get {o : ConvOrders} {prices : List Price} {c : Cur} {r : Rat}
    (h : (match conversion o cT 10 prices with
      | .ok ms => decide (ms.get? c = some r) | .error _ => false) = true) :
    ∃ ms, conversion o cT 10 prices = .ok ms ∧ ms.get? c = some r := by
  split at h
  · next ms hms => exact ⟨ms, hms, by simpa using h⟩
  · cases h

/-- C40 is false: with inconsistent prices the rate depends on the hash order. -/
theorem C40_negation : ¬ C40_statement := by
  intro h
  obtain ⟨ms, h1, h2⟩ := conversion_get (o := ⟨.id, .rev, .id⟩) (prices := tiePrices) (c := cC)
    (r := 1)
    (by decide +kernel)
  obtain ⟨ms', h3, h4⟩ := conversion_get (o := idOrders) (prices := tiePrices) (c := cC) (r := 2)
    (by decide +kernel)
  have := h ⟨.id, .rev, .id⟩ idOrders cT 10 tiePrices ms ms' h1 h3 cC
  rw [h2, h4] at this
  exact absurd this (by decide +kernel)

/-- C40, what does hold for every price list: the *set* of convertible commodities is the same in
every run (the rates agree too when the prices are consistent: `C37_consistent_prices_reproducible`;
missing: equal rates for inconsistent prices, which is false). -/
theorem C40_same_commodities_partial (o o' : ConvOrders) (target : Cur) (date : Date)
    (prices : List Price) (ms ms' : HMap Cur Rat) (h : conversion o target date prices = .ok ms)
    (h' : conversion o' target date prices = .ok ms') (c : Cur) :
    (ms.get? c).isSome = (ms'.get? c).isSome := by
  by_cases hc : c = target
  · subst hc
    rw [C39_target_never_rescaled o c date prices ms h,
      C39_target_never_rescaled o' c date prices ms' h']
  · have := (C38_convertible_iff_linked_partial o target date prices ms h c hc).trans
      (C38_convertible_iff_linked_partial o' target date prices ms' h' c hc).symm
    rw [Bool.eq_iff_iff, Option.isSome_iff_exists, Option.isSome_iff_exists]
    exact this

/-! ### C41 -/

/-- C41: converting a balance with a table made by `conversion`.  The target commodity receives
amount times rate of everything convertible plus what was already there; the other convertible
commodities disappear; the rest is unchanged.  (`none ∉ b.keys` excludes the balance made of a bare
zero, which no report converts: report balances are sums, see `C41_report_balances`.) -/
theorem C41_convert_balance (s : Shuf) (o : ConvOrders) (target : Cur) (date : Date)
    (prices : List Price) (ms : HMap Cur Rat) (h : conversion o target date prices = .ok ms)
    (b : Balance) (hb : b.Reachable) (hn : none ∉ b.keys) :
    ∃ out, convertBalance s b ms target = .ok out ∧
      out.amountOf target =
        ((b.keys.filterMap id).map (fun c => b.amountOf c * rateOf ms target c)).sum ∧
      ∀ c, c ≠ target → out.amountOf c = if (ms.get? c).isSome then 0 else b.amountOf c := by
  have hw := hb.wf
  have ht := C39_target_never_rescaled o target date prices ms h
  have hp := s.perm b
  obtain ⟨out, h1, _, h3⟩ := convertLoop_spec ms target (s.run b)
    (fun e he h0 => hn (h0 ▸ HMap.mem_keys_of_mem (hp.mem_iff.mp he)))
    (fun e he => hw.key e (hp.mem_iff.mp he)) Balance.new Balance.WF.nil
  have h3' : ∀ d, out.amountOf d = (b.map (contrib ms target d)).sum := by
    intro d; rw [h3 d, (hp.map _).sum_eq, Balance.amountOf_new, zero_add]
  have hent : ∀ c m, (some c, m) ∈ b → b.amountOf c = m.amount := by
    intro c m hm
    rw [Balance.amountOf_eq hw, HMap.get?_of_mem hw.nodup hm]
  refine ⟨out, h1, ?_, fun c hc => ?_⟩
  · rw [h3']
    have : ∀ l : Balance, (∀ e ∈ l, e ∈ b) → (l.map (contrib ms target target)).sum =
        ((l.keys.filterMap id).map (fun c => b.amountOf c * rateOf ms target c)).sum := by
      intro l hl
      induction l with
      | nil => rfl
      | cons e l ih =>
        obtain ⟨k, m⟩ := e
        have ih := ih (fun e he => hl e (by simp [he]))
        cases k with
        | none => exact absurd (HMap.mem_keys_of_mem (hl (none, m) (by simp))) hn
        | some c =>
          have hc := hent c m (hl _ (by simp))
          rw [List.map_cons, List.sum_cons, ih]
          simp only [HMap.keys_cons, List.filterMap_cons, id, List.map_cons, List.sum_cons]
          congr 1
          simp only [contrib, rateOf, hc]
          cases hg : ms.get? c with
          | some r => simp
          | none => by_cases hct : c = target <;> simp [hct]
    exact this b (fun _ h => h)
  · rw [h3']
    have hct : target ≠ c := Ne.symm hc
    have : ∀ l : Balance, (∀ e ∈ l, e.1 ≠ none) → (∀ e ∈ l, e.2.commodity = e.1) →
        (l.map (contrib ms target c)).sum =
        if (ms.get? c).isSome then 0 else Balance.amountOf l c := by
      intro l h1 h2
      induction l with
      | nil => simp [Balance.amountOf, sumIn]
      | cons e l ih =>
        obtain ⟨k, m⟩ := e
        have ih := ih (fun e he => h1 e (by simp [he])) (fun e he => h2 e (by simp [he]))
        cases k with
        | none => exact absurd rfl (h1 (none, m) (by simp))
        | some c' =>
          have hm : m.commodity = some c' := h2 (some c', m) (by simp)
          rw [List.map_cons, List.sum_cons, ih, Balance.amountOf_cons]
          simp only [contrib, Money.amountIn, hm, Option.some.injEq]
          cases hg : ms.get? c' with
          | some r =>
            by_cases hcc : c' = c
            · subst hcc; simp [hg, hct]
            · simp [hct, hcc]
          | none =>
            by_cases hcc : c' = c
            · subst hcc; simp [hg]
            · simp [hcc]
    exact this b (fun e he h0 => hn (h0 ▸ HMap.mem_keys_of_mem he)) hw.key

/-- The balances of a report are sums of balances; these have no entry without commodity. -/
theorem C41_report_balances (a b : Balance) (ha : a.Reachable) (hb : b.Reachable) :
    none ∉ (Balance.add a b).keys := by
  intro h
  obtain ⟨⟨k, m⟩, he, hk⟩ := List.mem_map.mp h
  simp only at hk; subst hk
  obtain ⟨c, hc, _⟩ := ((Balance.add_canon ha.wf hb.wf).mem_iff none m).mp he
  cases hc

/- 3 A + 1 B + 8 C + 4 D + 5 T is worth 6 + 10 + 2 + 5 T, and 4 D stay. -/
example : ∃ b : Balance, b.Reachable ∧ none ∉ b.keys ∧ b.amountOf ['D'] = 4 ∧
    (match conversion idOrders cT 10 exPrices with
      | .error _ => none
      | .ok ms => match convertBalance .rev b ms cT with
        | .error _ => none
        | .ok out => some (out.amountOf cT, out.amountOf ['D'], out.amountOf cA)) =
      some (23, 4, 0) := by
  refine ⟨Balance.add (Balance.add (Money.add (.mk 3 cA) (.mk 1 cB)) (Money.add (.mk 8 cC)
    (.mk 4 ['D']))) (Balance.ofMoney (.mk 5 cT)), ?_, ?_⟩
  · exact .add (.add (.add (.ofMoney _) (.ofMoney _)) (.add (.ofMoney _) (.ofMoney _))) (.ofMoney _)
  · decide +kernel

end Dinero
