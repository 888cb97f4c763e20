import Verif.Lemmas.Ledger
import Verif.Props.List
/-
Lemmas on adding the missing names.
-/
namespace Dinero
variable {T : Type} [Named T]

/-- Found names stay found. -/
def Extends (lower : Str → Str) (l l' : NList T) : Prop :=
  ∀ k x, l.get lower k = .ok x → l'.get lower k = .ok x

omit [Named T] in
theorem Extends.refl (lower : Str → Str) (l : NList T) : Extends lower l l := fun _ _ h => h

omit [Named T] in
theorem Extends.trans {lower : Str → Str} {a b c : NList T} (h1 : Extends lower a b)
    (h2 : Extends lower b c) : Extends lower a c := fun k x h => h2 k x (h1 k x h)

omit [Named T] in
theorem get_missing {lower : Str → Str} {l : NList T} {k : Str} {e : Err}
    (h : l.get lower k = .error (.error e)) :
    l.list.get? (lower k) = none ∧ l.aliases.get? (lower k) = none := by
  unfold NList.get at h
  split at h
  · cases h
  · next h1 =>
    split at h
    · next h2 => exact ⟨h1, h2⟩
    · next x h2 => unfold unwrap at h; split at h <;> cases h

theorem insert_fresh {lower : Str → Str} {l : NList T} {k : Str} {e : Err} {x : T}
    (h : l.get lower k = .error (.error e)) (hn : Named.name x = k) (ha : Named.aliases x = []) :
    (l.insert lower x).get lower k = .ok x ∧ Extends lower l (l.insert lower x) ∧
    l.insert lower x = { l with list := HMap.insert l.list (lower k) x } := by
  obtain ⟨h1, h2⟩ := get_missing h
  have hi : l.insert lower x = { l with list := HMap.insert l.list (lower k) x } := by
    unfold NList.insert
    rw [hn, h1, ha]
    rfl
  have hg : ∀ j, (HMap.insert l.list (lower k) x).get? j =
      if lower k = j then some x else l.list.get? j := fun j => HMap.get?_insert _ _ _ _
  refine ⟨?_, ?_, hi⟩
  · rw [hi]; unfold NList.get; rw [hg]; simp
  · intro j y hy
    rw [hi]
    unfold NList.get at hy ⊢
    simp only [hg]
    by_cases hj : lower k = lower j
    · rw [← hj, h1, h2] at hy; cases hy
    · rw [if_neg hj]
      split at hy
      · exact hy
      · split at hy
        · cases hy
        · next w hw =>
          by_cases hkw : lower k = w
          · subst hkw; rw [h1] at hy; cases hy
          · rw [if_neg hkw]; exact hy

theorem ensure_spec {lower : Str → Str} {make : Str → T} (hm : ∀ n, Named.name (make n) = n)
    (ha : ∀ n, Named.aliases (make n) = []) {l : NList T} (hr : l.Reachable lower) (name : Str) :
    ∃ l', l.ensure lower make name = .ok l' ∧ l'.Reachable lower ∧ Extends lower l l' ∧
      ∃ x, l'.get lower name = .ok x := by
  unfold NList.ensure
  rcases C32_get_total hr name with ⟨x, hx⟩ | hx
  · rw [hx]; exact ⟨l, rfl, hr, .refl _ _, x, hx⟩
  · rw [hx]
    obtain ⟨h1, h2, _⟩ := insert_fresh hx (hm name) (ha name)
    exact ⟨_, rfl, .insert _ hr, h2, _, h1⟩

theorem ensureAll_spec {lower : Str → Str} {make : Str → T} (hm : ∀ n, Named.name (make n) = n)
    (ha : ∀ n, Named.aliases (make n) = []) (names : List Str) {l : NList T}
    (hr : l.Reachable lower) :
    ∃ l', NList.ensureAll lower make names l = .ok l' ∧ l'.Reachable lower ∧ Extends lower l l' ∧
      ∀ n ∈ names, ∃ x, l'.get lower n = .ok x := by
  induction names generalizing l with
  | nil => exact ⟨l, rfl, hr, .refl _ _, by simp⟩
  | cons n ns ih =>
    obtain ⟨l1, h1, hr1, he1, x, hx⟩ := ensure_spec hm ha hr n
    obtain ⟨l2, h2, hr2, he2, hall⟩ := ih hr1
    refine ⟨l2, ?_, hr2, he1.trans he2, ?_⟩
    · unfold NList.ensureAll; rw [h1]; exact h2
    · intro m hm
      rcases List.mem_cons.mp hm with rfl | hm
      · exact ⟨x, he2 _ _ hx⟩
      · exact hall m hm

theorem popPayees_spec {env : Env} {s : Shuf} {copy : NList PayeeDef} (hc : copy.Reachable env.lower)
    (names : List Str) {l : NList PayeeDef} (hr : l.Reachable env.lower)
    (hcl : Extends env.lower copy l) :
    ∃ l', popPayees env s copy names l = .ok l' ∧ l'.Reachable env.lower ∧ Extends env.lower l l' ∧
      ∀ n ∈ names, ∃ x, l'.get env.lower n = .ok x := by
  induction names generalizing l with
  | nil => exact ⟨l, rfl, hr, .refl _ _, by simp⟩
  | cons n ns ih =>
    unfold popPayees
    rcases C32_get_total hr n with ⟨x, hx⟩ | hx
    · rw [hx]
      obtain ⟨l2, h2, hr2, he2, hall⟩ := ih hr hcl
      refine ⟨l2, h2, hr2, he2, ?_⟩
      intro m hm
      rcases List.mem_cons.mp hm with rfl | hm
      · exact ⟨x, he2 _ _ hx⟩
      · exact hall m hm
    · rw [hx]
      simp only
      cases hf : findPattern env s copy n with
      | none =>
        obtain ⟨h1, h2, _⟩ := insert_fresh (x := payeeOf n) hx rfl rfl
        obtain ⟨l2, h3, hr2, he2, hall⟩ := ih (.insert (payeeOf n) hr) (hcl.trans h2)
        refine ⟨l2, h3, hr2, h2.trans he2, ?_⟩
        intro m hm
        rcases List.mem_cons.mp hm with rfl | hm
        · exact ⟨_, he2 _ _ h1⟩
        · exact hall m hm
      | some p =>
        simp only
        obtain ⟨m1, m2⟩ := get_missing hx
        have hadd : l.addAlias env.lower n p = .ok
            { l with aliases := HMap.insert l.aliases (env.lower n) (env.lower p.name) } := by
          unfold NList.addAlias; rw [m2]; rfl
        rw [hadd]
        simp only
        have hmem : ∃ k, (k, p) ∈ copy.list := by
          unfold findPattern at hf
          have := List.mem_of_find?_eq_some hf
          obtain ⟨e, he, rfl⟩ := List.mem_map.mp this
          exact ⟨e.1, (s.perm _).mem_iff.mp he⟩
        obtain ⟨k, hk⟩ := hmem
        have hic := NList.Inv.reach hc
        have hil := NList.Inv.reach hr
        have hkg := HMap.get?_of_mem hic.nodupL hk
        have hkk := hic.named _ _ hkg
        have hcp : copy.get env.lower p.name = .ok p := by
          unfold NList.get
          rw [show env.lower p.name = k from hkk.symm, hkg]
        have hlp := hcl _ _ hcp
        set l1 : NList PayeeDef :=
          { l with aliases := HMap.insert l.aliases (env.lower n) (env.lower p.name) } with hl1
        have hr1 : l1.Reachable env.lower := .addAlias n p p hr hlp rfl hadd
        have hext : Extends env.lower l l1 := by
          intro j y hy
          unfold NList.get at hy ⊢
          split at hy
          · next z hz => simp only [hl1, hz]; exact hy
          · next hz =>
            simp only [hl1, hz]
            rw [HMap.get?_insert]
            by_cases hj : env.lower n = env.lower j
            · rw [← hj, m2] at hy; cases hy
            · rw [if_neg hj]; exact hy
        have hgn : ∃ x, l1.get env.lower n = .ok x := by
          rcases C32_get_total hr1 n with h | h
          · exact h
          · have := (get_missing h).2
            simp [hl1] at this
        obtain ⟨x1, hx1⟩ := hgn
        obtain ⟨l2, h3, hr2, he2, hall⟩ := ih hr1 (hcl.trans hext)
        refine ⟨l2, h3, hr2, hext.trans he2, ?_⟩
        intro m hm
        rcases List.mem_cons.mp hm with rfl | hm
        · exact ⟨_, he2 _ _ hx1⟩
        · exact hall m hm

theorem mem_setInsertAll (names : List (Option Str)) (s : List Str) (n : Str) :
    n ∈ setInsertAll s names ↔ n ∈ s ∨ some n ∈ names := by
  unfold setInsertAll
  induction names generalizing s with
  | nil => simp
  | cons a names ih =>
    rw [List.foldl_cons, ih]
    cases a with
    | none => simp
    | some b =>
      simp only [mem_setInsert, List.mem_cons, Option.some.injEq]
      tauto

/-- Everything is found after step 2. -/
structure Populated (lower : Str → Str) (pl : ParsedLedger) (l : Lists) : Prop where
  ok : l.Ok lower
  postings : ∀ t ∈ pl.transactions, ∀ p ∈ t.postings, Resolves lower l p
  prices : ∀ p ∈ pl.prices, (∃ n, Finds lower l.commodities p.commodity n) ∧
    ∃ n, Finds lower l.commodities p.otherCommodity n

theorem populate_spec {env : Env} {o : LedgerOrders} {pl : ParsedLedger} (h : pl.lists.Ok env.lower) :
    ∃ l, populate env o pl = .ok l ∧ Populated env.lower pl l ∧
      Extends env.lower pl.lists.accounts l.accounts ∧ Extends env.lower pl.lists.payees l.payees ∧
      Extends env.lower pl.lists.commodities l.commodities := by
  obtain ⟨cs, hc, hcr, hce, hca⟩ := ensureAll_spec (make := currencyOf) (fun _ => rfl) (fun _ => rfl)
    (o.commodities.run pl.commodityStrs) h.commodities
  obtain ⟨acs, ha, har, hae, haa⟩ := ensureAll_spec (make := accountOf) (fun _ => rfl) (fun _ => rfl)
    (o.accounts.run pl.accountStrs) h.accounts
  obtain ⟨ps, hp, hpr, hpe, hpa⟩ := popPayees_spec (s := o.patterns) h.payees
    (o.payees.run pl.payeeStrs) h.payees (.refl _ _)
  have hca : ∀ c, c ∈ pl.commodityStrs → ∃ n, Finds env.lower cs c n := fun c hc => by
    obtain ⟨x, hx⟩ := hca c ((o.commodities.perm _).mem_iff.mpr hc); exact ⟨_, x, hx, rfl⟩
  have hcm : ∀ c, some c ∈ pl.postings.flatMap
      (fun p => [p.moneyCurrency, p.costCurrency, p.balanceCurrency]) → ∃ n, Finds env.lower cs c n := by
    intro c hc
    apply hca
    unfold ParsedLedger.commodityStrs
    rw [mem_setInsertAll, mem_setInsertAll]
    exact Or.inl (Or.inr hc)
  refine ⟨⟨acs, ps, cs⟩, ?_, ⟨⟨har, hpr, hcr⟩, ?_, ?_⟩, hae, hpe, hce⟩
  · unfold populate
    rw [hc, ha, hp]
  · intro t ht p hpm
    have hmem : p ∈ pl.postings := List.mem_flatMap.mpr ⟨t, ht, hpm⟩
    refine ⟨?_, ?_, ?_, ?_, ?_⟩
    · obtain ⟨x, hx⟩ := haa p.account ((o.accounts.perm _).mem_iff.mpr (by
        unfold ParsedLedger.accountStrs
        rw [mem_setInsertAll]
        exact Or.inr (List.mem_map.mpr ⟨p, hmem, rfl⟩)))
      exact ⟨_, x, hx, rfl⟩
    · intro y hy
      obtain ⟨x, hx⟩ := hpa y ((o.payees.perm _).mem_iff.mpr (by
        unfold ParsedLedger.payeeStrs
        rw [mem_setInsertAll]
        exact Or.inr (List.mem_map.mpr ⟨p, hmem, hy⟩)))
      exact ⟨_, x, hx, rfl⟩
    all_goals
      intro c hc
      exact hcm c (List.mem_flatMap.mpr ⟨p, hmem, by simp [hc]⟩)
  · intro p hpm
    constructor
    all_goals
      apply hca
      unfold ParsedLedger.commodityStrs
      rw [mem_setInsertAll]
      exact Or.inr (List.mem_flatMap.mpr ⟨p, hpm, by simp⟩)

end Dinero
