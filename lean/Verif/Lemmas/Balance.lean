import Verif.Spec.Balance
import Verif.Lemmas.HMap
import Mathlib.Tactic.Ring
import Mathlib.Tactic.Linarith
import Mathlib.Algebra.Order.Ring.Rat
import Mathlib.Algebra.BigOperators.Group.List.Lemmas
/- Facts about balances. -/
namespace Dinero

@[simp] theorem Money.amountIn_zero (c : Cur) : Money.zero.amountIn c = 0 := by
  simp [amountIn, commodity]
@[simp] theorem Money.amountIn_mk (a : Rat) (d c : Cur) :
    (Money.mk a d).amountIn c = if d = c then a else 0 := by
  simp [amountIn, commodity, amount]

theorem Money.amountIn_neg (m : Money) (c : Cur) : m.neg.amountIn c = - m.amountIn c := by
  cases m with
  | zero => simp [neg]
  | mk a d => simp only [neg, amountIn_mk]; split <;> simp

@[simp] theorem Money.commodity_neg (m : Money) : m.neg.commodity = m.commodity := by
  cases m <;> rfl

@[simp] theorem Money.isZero_neg (m : Money) : m.neg.isZero = m.isZero := by
  cases m <;> simp [neg, isZero]

theorem Money.isZero_iff (m : Money) : m.isZero = true ↔ m.amount = 0 := by
  cases m <;> simp [isZero, amount]

theorem Money.amountIn_of_isZero {m : Money} (h : m.isZero = true) (c : Cur) :
    m.amountIn c = 0 := by
  unfold amountIn; split
  · exact (isZero_iff m).mp h
  · rfl

theorem Money.ratCmp_eq_iff (a b : Rat) : ratCmp a b = .eq ↔ a = b := by
  unfold ratCmp
  rcases lt_trichotomy a b with h | h | h
  · simp [h, ne_of_lt h]
  · simp [h]
  · simp [h, not_lt.mpr (le_of_lt h), ne_of_gt h]

@[simp] theorem sumIn_nil (c : Cur) : sumIn [] c = 0 := rfl
@[simp] theorem sumIn_cons (m : Money) (ms : List Money) (c : Cur) :
    sumIn (m :: ms) c = m.amountIn c + sumIn ms c := by simp [sumIn]
theorem sumIn_append (l l' : List Money) (c : Cur) :
    sumIn (l ++ l') c = sumIn l c + sumIn l' c := by simp [sumIn]
theorem sumIn_perm {l l' : List Money} (h : l.Perm l') (c : Cur) : sumIn l c = sumIn l' c :=
  (h.map _).sum_eq

namespace Balance

/-- Well-formed: distinct keys, every value filed under its own commodity. -/
structure WF (b : Balance) : Prop where
  nodup : b.keys.Nodup
  key : ∀ e ∈ b, e.2.commodity = e.1

/-- No entry of zero amount. -/
def NoZero (b : Balance) : Prop := ∀ e ∈ b, e.2.isZero = false

/-- Well-formed without zero entries: the shape of every result of an addition. -/
structure Canon (b : Balance) : Prop extends WF b where
  noZero : NoZero b

/-- What reachable balances look like. -/
structure Good (b : Balance) : Prop extends WF b where
  shape : NoZero b ∨ b.length ≤ 1

@[simp] theorem amountOf_nil (c : Cur) : amountOf [] c = 0 := rfl
theorem amountOf_cons (e : Option Cur × Money) (b : Balance) (c : Cur) :
    amountOf (e :: b) c = e.2.amountIn c + amountOf b c := by simp [amountOf]
theorem amountOf_append (a b : Balance) (c : Cur) :
    amountOf (a ++ b) c = amountOf a c + amountOf b c := by simp [amountOf, sumIn_append]
theorem amountOf_perm {a b : Balance} (h : a.Perm b) (c : Cur) : amountOf a c = amountOf b c :=
  sumIn_perm (h.map _) c
@[simp] theorem amountOf_new (c : Cur) : amountOf new c = 0 := rfl
theorem amountOf_ofMoney (m : Money) (c : Cur) : amountOf (ofMoney m) c = m.amountIn c := by
  cases m <;> simp [ofMoney, HMap.insert, amountOf]

theorem WF.nil : WF [] := ⟨by simp, by simp⟩
theorem WF.tail {e : Option Cur × Money} {b : Balance} (h : WF (e :: b)) : WF b :=
  ⟨(List.nodup_cons.mp h.nodup).2, fun x hx => h.key x (List.mem_cons_of_mem _ hx)⟩
theorem WF.perm {a b : Balance} (h : WF a) (hp : a.Perm b) : WF b :=
  ⟨(HMap.perm_keys hp).nodup_iff.mp h.nodup, fun e he => h.key e (hp.mem_iff.mpr he)⟩
theorem WF.filter {a : Balance} (h : WF a) (p : Option Cur × Money → Bool) : WF (a.filter p) :=
  ⟨HMap.keys_filter_nodup a p h.nodup, fun e he => h.key e (List.mem_filter.mp he).1⟩

theorem amountOf_of_not_mem {b : Balance} (h : WF b) {c : Cur} (hc : some c ∉ b.keys) :
    amountOf b c = 0 := by
  induction b with
  | nil => rfl
  | cons e b ih =>
    simp only [HMap.keys_cons, List.mem_cons, not_or] at hc
    rw [amountOf_cons, ih h.tail hc.2, Money.amountIn, if_neg]
    · simp
    · rw [h.key e (by simp)]; exact Ne.symm hc.1

theorem amountOf_eq {b : Balance} (h : WF b) (c : Cur) :
    amountOf b c = match b.get? (some c) with | none => 0 | some m => m.amount := by
  induction b with
  | nil => rfl
  | cons e b ih =>
    obtain ⟨k, m⟩ := e
    have hk : m.commodity = k := h.key (k, m) (by simp)
    rw [amountOf_cons, HMap.get?_cons]
    by_cases hc : k = some c
    · subst hc
      rw [amountOf_of_not_mem h.tail (List.nodup_cons.mp h.nodup).1]
      simp [Money.amountIn, hk]
    · rw [if_neg hc, ih h.tail]
      simp [Money.amountIn, hk, hc]

theorem WF.get?_commodity {b : Balance} (h : WF b) {k : Option Cur} {m : Money}
    (hg : b.get? k = some m) : m.commodity = k := h.key _ (HMap.mem_of_get? hg)

theorem WF.insert {b : Balance} (h : WF b) {k : Option Cur} {m : Money} (hm : m.commodity = k) :
    WF (HMap.insert b k m) := by
  refine ⟨HMap.nodup_keys_insert _ _ _ h.nodup, fun e he => ?_⟩
  rcases (HMap.mem_insert h.nodup).mp he with rfl | ⟨h1, _⟩
  · exact hm
  · exact h.key e h1

theorem amountOf_insert {b : Balance} (h : WF b) {k : Option Cur} {m : Money}
    (hm : m.commodity = k) (c : Cur) :
    amountOf (HMap.insert b k m) c = if k = some c then m.amount else amountOf b c := by
  rw [amountOf_eq (h.insert hm), HMap.get?_insert, amountOf_eq h]
  by_cases hk : k = some c <;> simp [hk]

theorem addStep_spec {t : Balance} (h : WF t) {k : Option Cur} {m : Money}
    (hm : m.commodity = k) :
    WF (addStep t k m) ∧ (∀ c, amountOf (addStep t k m) c = amountOf t c + m.amountIn c) ∧
      addStepPanics t k m = false := by
  unfold addStep addStepPanics
  cases hg : HMap.get? t k with
  | none =>
    refine ⟨h.insert hm, fun c => ?_, rfl⟩
    rw [amountOf_insert h hm]
    simp only [Money.amountIn, hm]
    split
    · next hk =>
      subst hk
      rw [amountOf_of_not_mem h ((HMap.get?_eq_none_iff _ _).mp hg)]; simp
    · simp
  | some old =>
    have hold := h.get?_commodity hg
    cases old with
    | zero =>
      simp only [Money.commodity] at hold
      subst hold
      cases m with
      | mk a d => simp [Money.commodity] at hm
      | zero =>
        refine ⟨h.insert hm, fun c => ?_, rfl⟩
        rw [amountOf_insert h hm]; simp
    | mk already d =>
      simp only [Money.commodity] at hold
      subst hold
      cases m with
      | zero => simp [Money.commodity] at hm
      | mk a d' =>
        simp only [Money.commodity, Option.some.injEq] at hm
        subst hm
        refine ⟨h.insert (by rfl), fun c => ?_, rfl⟩
        simp only [Money.amountIn_mk]
        rw [amountOf_insert h (by rfl)]
        by_cases hc : d' = c
        · subst hc; simp only [Money.amount, if_true]; rw [amountOf_eq h, hg]
          simp only [Money.amount]; ring
        · simp [hc]

theorem addFold_spec (l : List (Option Cur × Money)) (t : Balance) (h : WF t)
    (hl : ∀ e ∈ l, e.2.commodity = e.1) :
    WF (l.foldl (fun t e => addStep t e.1 e.2) t) ∧
      (∀ c, amountOf (l.foldl (fun t e => addStep t e.1 e.2) t) c = amountOf t c + amountOf l c) ∧
      addPanicsFrom t l = false := by
  induction l generalizing t with
  | nil => exact ⟨h, by simp, rfl⟩
  | cons e l ih =>
    obtain ⟨h1, h2, h3⟩ := addStep_spec h (hl e (by simp))
    obtain ⟨i1, i2, i3⟩ := ih (addStep t e.1 e.2) h1 (fun x hx => hl x (by simp [hx]))
    refine ⟨i1, fun c => ?_, ?_⟩
    · rw [List.foldl_cons, i2, h2, amountOf_cons]; ring
    · simp [addPanicsFrom, h3, i3]

theorem amountOf_filter {b : Balance} (c : Cur) :
    amountOf (b.filter (fun e => !e.2.isZero)) c = amountOf b c := by
  induction b with
  | nil => rfl
  | cons e b ih =>
    rw [List.filter_cons, amountOf_cons]
    cases hz : e.2.isZero
    · simp only [Bool.not_false, if_true]; rw [amountOf_cons, ih]
    · simp [ih, Money.amountIn_of_isZero hz]

theorem addLoop_spec {a b : Balance} (ha : WF a) (hb : WF b) :
    WF (addLoop a b) ∧ (∀ c, amountOf (addLoop a b) c = amountOf a c + amountOf b c) ∧
      addPanics a b = false := by
  obtain ⟨h1, h2, h3⟩ := addFold_spec (a ++ b) [] WF.nil (by
    intro e he
    rcases List.mem_append.mp he with h | h
    · exact ha.key e h
    · exact hb.key e h)
  refine ⟨h1, fun c => ?_, h3⟩
  have := h2 c
  rw [amountOf_append] at this
  simpa [addLoop] using this

theorem add_canon {a b : Balance} (ha : WF a) (hb : WF b) : Canon (add a b) :=
  ⟨(addLoop_spec ha hb).1.filter _, fun e he => by
    have := (List.mem_filter.mp he).2
    simpa using this⟩

theorem amountOf_add {a b : Balance} (ha : WF a) (hb : WF b) (c : Cur) :
    amountOf (add a b) c = amountOf a c + amountOf b c := by
  rw [add, amountOf_filter, (addLoop_spec ha hb).2.1]

theorem neg_eq_map {b : Balance} (h : WF b) : neg b = b.map (fun e => (e.1, e.2.neg)) := by
  unfold neg
  rw [HMap.foldl_insert_eq_append (f := fun e : Option Cur × Money => e.1)
    (g := fun e => e.2.neg)]
  · simp
  · simpa [HMap.keys] using h.nodup

theorem keys_neg {b : Balance} (h : WF b) : HMap.keys (neg b) = b.keys := by
  rw [neg_eq_map h]; simp [HMap.keys, Function.comp_def]

theorem neg_wf {b : Balance} (h : WF b) : WF (neg b) := by
  refine ⟨by rw [keys_neg h]; exact h.nodup, ?_⟩
  rw [neg_eq_map h]
  intro e he
  obtain ⟨x, hx, rfl⟩ := List.mem_map.mp he
  simpa using h.key x hx

theorem amountOf_neg {b : Balance} (h : WF b) (c : Cur) : amountOf (neg b) c = - amountOf b c := by
  rw [neg_eq_map h]
  clear h
  induction b with
  | nil => simp
  | cons e b ih =>
    simp only [List.map_cons, amountOf_cons, Money.amountIn_neg] at *
    rw [ih]; ring

theorem neg_noZero {b : Balance} (h : WF b) (hz : NoZero b) : NoZero (neg b) := by
  rw [neg_eq_map h]
  intro e he
  obtain ⟨x, hx, rfl⟩ := List.mem_map.mp he
  simpa using hz x hx

theorem neg_canon {b : Balance} (h : Canon b) : Canon (neg b) :=
  ⟨neg_wf h.toWF, neg_noZero h.toWF h.noZero⟩

theorem ofMoney_wf (m : Money) : WF (ofMoney m) := by
  cases m <;> refine ⟨by simp [ofMoney, HMap.insert], ?_⟩ <;>
    simp [ofMoney, HMap.insert, Money.commodity]

theorem Canon.nil : Canon [] := ⟨WF.nil, by intro e he; cases he⟩
theorem Canon.perm {a b : Balance} (h : Canon a) (hp : a.Perm b) : Canon b :=
  ⟨h.toWF.perm hp, fun e he => h.noZero e (hp.mem_iff.mpr he)⟩
theorem Canon.good {a : Balance} (h : Canon a) : Good a := ⟨h.toWF, Or.inl h.noZero⟩
theorem sub_canon {a b : Balance} (ha : WF a) (hb : WF b) : Canon (sub a b) :=
  add_canon ha (neg_wf hb)

theorem amountOf_sub {a b : Balance} (ha : WF a) (hb : WF b) (c : Cur) :
    amountOf (sub a b) c = amountOf a c - amountOf b c := by
  rw [sub, amountOf_add ha (neg_wf hb), amountOf_neg hb]; ring

theorem Reachable.good {b : Balance} (h : Reachable b) : Good b := by
  induction h with
  | new => exact Canon.nil.good
  | ofMoney m => exact ⟨ofMoney_wf m, Or.inr (by cases m <;> simp [Balance.ofMoney, HMap.insert])⟩
  | add _ _ iha ihb => exact (add_canon iha.toWF ihb.toWF).good
  | sub _ _ iha ihb => exact (sub_canon iha.toWF ihb.toWF).good
  | neg _ ih =>
    refine ⟨neg_wf ih.toWF, ?_⟩
    rcases ih.shape with h | h
    · exact Or.inl (neg_noZero ih.toWF h)
    · right; rw [neg_eq_map ih.toWF]; simpa using h
  | reorder _ hp ih =>
    refine ⟨ih.toWF.perm hp, ?_⟩
    rcases ih.shape with h | h
    · exact Or.inl fun e he => h e (hp.mem_iff.mpr he)
    · right; rw [← hp.length_eq]; exact h

theorem Reachable.wf {b : Balance} (h : Reachable b) : WF b := h.good.toWF

/-- In a canonical balance a commodity has an entry iff its amount is not zero. -/
theorem Canon.mem_iff {b : Balance} (h : Canon b) (k : Option Cur) (m : Money) :
    (k, m) ∈ b ↔ ∃ c, k = some c ∧ m = .mk (amountOf b c) c ∧ amountOf b c ≠ 0 := by
  constructor
  · intro hm
    have hk := h.key _ hm
    have hz := h.noZero _ hm
    cases m with
    | zero => simp [Money.isZero] at hz
    | mk a d =>
      simp only [Money.commodity] at hk
      subst hk
      have := amountOf_eq h.toWF d
      rw [HMap.get?_of_mem h.nodup hm] at this
      simp only [Money.amount] at this
      refine ⟨d, rfl, by rw [this], ?_⟩
      rw [this]; simpa [Money.isZero] using hz
  · rintro ⟨c, rfl, rfl, hne⟩
    have h1 := amountOf_eq h.toWF c
    cases hg : HMap.get? b (some c) with
    | none => rw [hg] at h1; exact absurd h1 hne
    | some m =>
      rw [hg] at h1
      have := h.toWF.get?_commodity hg
      cases m with
      | zero => simp [Money.commodity] at this
      | mk a d =>
        simp only [Money.commodity, Option.some.injEq] at this
        subst this
        simp only [Money.amount] at h1
        rw [h1]; exact HMap.mem_of_get? hg

/-- Canonical balances holding the same amounts are the same map. -/
theorem Canon.perm_of_amountOf {a b : Balance} (ha : Canon a) (hb : Canon b)
    (h : ∀ c, amountOf a c = amountOf b c) : a.Perm b := by
  have na : a.Nodup := List.Nodup.of_map _ ha.nodup
  have nb : b.Nodup := List.Nodup.of_map _ hb.nodup
  refine (List.perm_ext_iff_of_nodup na nb).mpr ?_
  rintro ⟨k, m⟩
  rw [ha.mem_iff, hb.mem_iff]
  simp only [h]

theorem isZero_iff {b : Balance} (h : WF b) : isZero b = true ↔ ∀ c, amountOf b c = 0 := by
  unfold isZero
  rw [List.all_eq_true]
  constructor
  · intro hz c
    rw [amountOf_eq h]
    split
    · rfl
    · next m hm => exact (Money.isZero_iff m).mp (hz _ (HMap.mem_of_get? hm))
  · rintro hz ⟨k, m⟩ he
    have hk := h.key _ he
    cases m with
    | zero => rfl
    | mk a d =>
      simp only [Money.commodity] at hk
      subst hk
      have := amountOf_eq h d
      rw [HMap.get?_of_mem h.nodup he, hz d] at this
      simpa [Money.isZero, Money.amount] using this.symm

theorem Canon.isZero_iff_nil {b : Balance} (h : Canon b) : isZero b = true ↔ b = [] := by
  constructor
  · intro hz
    cases b with
    | nil => rfl
    | cons e b =>
      have := h.noZero e (by simp)
      simp [isZero, this] at hz
  · rintro rfl; rfl

end Balance
end Dinero
