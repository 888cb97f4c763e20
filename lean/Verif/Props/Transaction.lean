import Verif.Lemmas.BalancingPass
/-
C10-C21: balancing transactions.
-/
namespace Dinero
open Balance

/-! ### Example data (used to show that hypotheses are met) -/

/-- Account names of the examples. -/
def exA : Str := "Assets:Cash".toList
def exB : Str := "Expenses:Food".toList
/-- Empty running balances for the two example accounts. -/
def exBals : Balances := [(exA, []), (exB, [])]

theorem exBals_ok : exBals.Ok := by
  intro a b h
  unfold exBals at h
  simp only [HMap.get?] at h
  split at h
  · cases h; exact .new
  · split at h
    · cases h; exact .new
    · cases h

/-- 10 EUR to B, elided posting on A. -/
def exElided : Txn Posting :=
  { date := some 0, postings := [{ account := exB, amount := some (.mk 10 exEur) }, { account := exA }] }
/-- B 2 USD @ 5 EUR and A -10 EUR, with an assertion on A. -/
def exFull : Txn Posting :=
  { date := some 0, postings :=
    [{ account := exB, amount := some (.mk 2 exUsd), cost := some (.perUnit (.mk 5 exEur)) },
     { account := exA, amount := some (.mk (-10) exEur), balance := some (.mk (-10) exEur) }] }
/-- B 10 EUR, A assigned to -10 EUR. -/
def exAssign : Txn Posting :=
  { date := some 0, postings :=
    [{ account := exB, amount := some (.mk 10 exEur) },
     { account := exA, balance := some (.mk (-10) exEur) }] }

/-- Witness helper: a computation that evaluates to `ok`. -/
theorem exists_ok {α : Type} {r : Res α} (h : r.toBool = true) : ∃ a, r = .ok a := by
  cases r with
  | ok a => exact ⟨a, rfl⟩
  | error e => cases h

/-! ### C10 -/

/-- With exactly one elided amount, an accepted transaction sums to exactly zero in every
commodity; the generated postings are on the elided posting's account, exactly one per commodity
that the other postings leave non-zero. -/
theorem C10_elided_amount {s : Shuf} {skip : Bool} {bals bals' : Balances} {t t' : Txn Posting}
    {ret : Balance} {p : Posting}
    (h : Txn.balance s skip bals t = .ok (bals', t', ret)) (hb : bals.Ok)
    (hp : ∀ p ∈ t.postings, p.CostOk)
    (hone : t.postings.filter (fun p => p.elided skip) = [p]) :
    (∀ c, weightOf .real t'.postings c = 0) ∧
    ∃ kept gen, t'.postings.filter (fun q => q.kind = .real) = kept ++ gen ∧
      kept.length + 1 = (t.postings.filter (fun q => q.kind = .real)).length ∧
      (∀ q ∈ gen, q.account = p.account ∧ q.cost = none ∧ q.balance = none) ∧
      (gen.map (fun q => q.amount.bind Money.commodity)).Nodup ∧
      (∀ m, (∃ q ∈ gen, q.amount = some m) ↔
        ∃ c, weightOf .real kept c ≠ 0 ∧ m = .mk (-(weightOf .real kept c)) c) := by
  obtain ⟨res, gen, hB⟩ := balance_spec h hb hp
  rcases hB.cases with ⟨hno, _⟩ | ⟨p', hp', hret, ms, hgen, hnd, hms⟩
  · exfalso
    have : p ∈ t.postings.filter (fun p => p.elided skip) := by rw [hone]; simp
    have := List.mem_filter.mp this
    exact hno p this.1 (by simpa using this.2)
  · rw [hone] at hp'
    simp only [List.cons.injEq, and_true] at hp'
    subst hp'
    have hsum := sumIn_of_cover (f := fun c => -(weightOf .real res c)) hnd (by
      intro m; rw [hms]; simp)
    refine ⟨?_, res, gen, hB.reals, ?_, ?_, ?_, ?_⟩
    · intro c
      rw [← weightOf_filter_real, hB.reals, weightOf_append, hgen, weightOf_fill, hsum]; ring
    · have := length_real skip t.postings
      rw [hone, hB.resolved.length_eq] at this
      simp only [List.length_singleton] at this
      omega
    · intro q hq
      rw [hgen] at hq
      obtain ⟨m, _, rfl⟩ := List.mem_map.mp hq
      exact ⟨rfl, rfl, rfl⟩
    · rw [hgen, List.map_map]
      exact hnd
    · intro m
      rw [hgen]
      constructor
      · rintro ⟨q, hq, hqm⟩
        obtain ⟨m', hm', rfl⟩ := List.mem_map.mp hq
        simp only [fillPosting, Option.some.injEq] at hqm
        subst hqm
        obtain ⟨c, h1, h2⟩ := (hms m').mp hm'
        exact ⟨c, h2, h1⟩
      · rintro ⟨c, h1, h2⟩
        exact ⟨fillPosting t p.account p.payee m,
          List.mem_map.mpr ⟨m, (hms m).mpr ⟨c, h2, h1⟩, rfl⟩, rfl⟩

example : (∃ r, Txn.balance .id false exBals exElided = .ok r) ∧
    (∀ p ∈ exElided.postings, p.CostOk) ∧
    exElided.postings.filter (fun p => p.elided false) = [{ account := exA }] := by
  refine ⟨exists_ok (by decide +kernel), ?_, by decide +kernel⟩
  intro p hp
  simp only [exElided, List.mem_cons, List.not_mem_nil, or_false] at hp
  rcases hp with rfl | rfl <;> simp [Posting.CostOk]

/-! ### C11 -/

/-- A fully specified transaction with all accounts known is accepted exactly when (checks are
off or the assertions hold and) its real weights may balance and its bracketed weights may
balance.  Missing from the full statement: bracketed postings with a per-unit cost on a negative
amount, which the code weighs with the wrong sign (`C11_false_for_bracketed_sale`). -/
theorem C11_accept_iff_partial {s : Shuf} {skip : Bool} {bals : Balances} {t : Txn Posting}
    (hb : bals.Ok) (hp : ∀ p ∈ t.postings, p.CostOk)
    (hfull : ∀ p ∈ t.postings, p.kind = .real → p.amount.isSome)
    (hknown : ∀ p ∈ t.postings, p.kind = .real → (bals.get? p.account).isSome)
    (hn : ∀ p ∈ t.postings, p.kind = .virtBal → ∀ u m, p.cost = some (.perUnit u) →
      p.amount = some m → 0 ≤ m.amount) :
    (∃ r, Txn.balance s skip bals t = .ok r) ↔
      (skip = true ∨ AssertionsHold (balAmt bals) t.postings) ∧
      MayBalance (weightOf .real t.postings) ∧ MayBalance (weightOf .virtBal t.postings) := by
  have hvirt := totalBalance_virt_iff .virtBal t.postings hp hn
  have hloop := balanceLoop_full (skip := skip) t.postings (initSt bals) hb .new
    (initSt_canon bals) hp hfull hknown
  constructor
  · rintro ⟨⟨bals', t', ret⟩, h⟩
    obtain ⟨res, gen, hB⟩ := balance_spec h hb hp
    have hA : skip = true ∨ AssertionsHold (balAmt bals) t.postings := by
      by_contra hno
      have he := hloop.2 hno
      unfold Txn.balance at h
      obtain ⟨vb, hv, hz⟩ := hB.virt
      rw [hv] at h
      simp only [hz] at h
      rw [show (⟨bals, Balance.new, "this will never be used".toList, none, []⟩ : LoopSt)
          = initSt bals from rfl, he] at h
      simp at h
    refine ⟨hA, ?_, hvirt.mp hB.virt⟩
    rcases hB.cases with ⟨_, _, hmay, hrest⟩ | ⟨p, hpe, _⟩
    · have hw : ∀ c, weightOf .real res c = weightOf .real t.postings c := by
        intro c
        have hf : t.postings.filter (Posting.kept skip)
            = t.postings.filter (fun p => p.kind = .real) := by
          apply List.filter_congr
          intro p hpm
          by_cases hk : p.kind = .real
          · obtain ⟨m, hm⟩ := Option.isSome_iff_exists.mp (hfull p hpm hk)
            simp [Posting.kept, Posting.elided, hk, hm]
          · simp [Posting.kept, hk]
        have hres := hB.resolved
        rw [hf] at hres
        rw [← weightOf_filter_real t.postings]
        have hmem : ∀ q ∈ t.postings.filter (fun p => p.kind = .real), q ∈ t.postings :=
          fun q hq => (List.mem_filter.mp hq).1
        revert hres hmem
        generalize t.postings.filter (fun p => p.kind = .real) = l
        clear hmay hf hB hrest
        intro hres hmem
        induction hres with
        | nil => rfl
        | @cons a b l l' hr _ ih =>
          rw [weightOf_cons, weightOf_cons, ih (fun q hq => hmem q (by simp [hq])),
            hr.kindReal, weightIn_resolved hr]
          obtain ⟨m, hm⟩ := Option.isSome_iff_exists.mp (hfull a (hmem a (by simp)) hr.kindReal)
          have : b.weight = a.weight := by
            rw [hr.same]; simp only [Posting.weight, hm, hr.keeps m hm]
          rw [this]
      exact (mayBalance_congr hw).mp hmay
    · exfalso
      have : p ∈ t.postings.filter (fun p => p.elided skip) := by rw [hpe]; simp
      obtain ⟨h1, h2⟩ := List.mem_filter.mp this
      simp only [decide_eq_true_eq] at h2
      have := hfull p h1 h2.1
      rw [h2.2.1] at this; cases this
  · rintro ⟨hA, hmay, hmayv⟩
    obtain ⟨vb, hv, hz⟩ := hvirt.mpr hmayv
    obtain ⟨st, hst, _, hout⟩ := hloop.1 hA
    obtain ⟨l1, l2, l3, l4, res, l5, l6, l7, l8, l9, l10⟩ :=
      balanceLoop_spec t.postings hst hb .new (initSt_canon bals) hp
    have htb : ∀ c, amountOf st.tbal c = weightOf .real t.postings c := by
      intro c
      rw [l7]
      have hres : res = (t.postings.filter (fun p => p.kind = .real)).map
          (fun p => { p with origin := .fromTransaction }) := by
        rw [hout] at l5; simpa [initSt] using l5.symm
      rw [hres, ← weightOf_filter_real t.postings]
      simp only [initSt, amountOf_new, zero_add]
      induction t.postings.filter (fun p => p.kind = .real) with
      | nil => rfl
      | cons a l ih => rw [List.map_cons, weightOf_cons, weightOf_cons, ih]; rfl
    have hcz : canBeZero st.tbal = true :=
      (C05_canBeZero_iff l2).mpr ((mayBalance_congr htb).mpr hmay)
    unfold Txn.balance
    rw [hv]
    simp only [hz]
    rw [show (⟨bals, Balance.new, "this will never be used".toList, none, []⟩ : LoopSt)
          = initSt bals from rfl, hst]
    have h0 : (t.postings.filter (fun p => p.kind = .real)).length - st.out.length = 0 := by
      rw [hout]; simp [initSt]
    simp only [h0, hcz]
    exact ⟨_, rfl⟩

/-- In particular: all real postings in one commodity, no bracketed postings, no assertions: the
transaction is accepted iff it sums to exactly zero. -/
theorem C11_single_commodity {s : Shuf} {skip : Bool} {bals : Balances} {t : Txn Posting} {d : Cur}
    (hb : bals.Ok)
    (hreal : ∀ p ∈ t.postings, p.kind = .real ∧ p.cost = none ∧ p.balance = none ∧
      ∃ x, p.amount = some (.mk x d))
    (hknown : ∀ p ∈ t.postings, (bals.get? p.account).isSome) :
    (∃ r, Txn.balance s skip bals t = .ok r) ↔ sumIn (t.postings.filterMap Posting.amount) d = 0 := by
  rw [C11_accept_iff_partial hb]
  · have hv : ∀ c, weightOf .virtBal t.postings c = 0 := by
      intro c
      have : t.postings.filter (fun p => p.kind = .virtBal) = [] := by
        rw [List.filter_eq_nil_iff]; intro p hp; simp [(hreal p hp).1]
      unfold weightOf; rw [this]; rfl
    have hw : ∀ c, weightOf .real t.postings c =
        if d = c then sumIn (t.postings.filterMap Posting.amount) d else 0 := by
      intro c
      clear hv hknown
      revert hreal
      generalize t.postings = l
      intro hreal
      induction l with
      | nil => simp [sumIn]
      | cons p ps ih =>
        obtain ⟨h1, h2, _, x, h4⟩ := hreal p (by simp)
        have hwt : p.weight = .mk x d := by simp [Posting.weight, h4, h2]
        rw [weightOf_cons, ih (fun q hq => hreal q (by simp [hq])), if_pos h1, hwt,
          List.filterMap_cons, h4]
        simp only [sumIn_cons, Money.amountIn_mk, if_true]
        by_cases hdc : d = c <;> simp [hdc]
    have ha : AssertionsHold (balAmt bals) t.postings := by
      intro pre q post hq _ x d' hbal
      have := (hreal q (by rw [hq]; simp)).2.2.1
      rw [this] at hbal; cases hbal
    constructor
    · rintro ⟨_, hmay, _⟩
      rcases hmay with h | ⟨c, c', h1, h2⟩
      · have := h d; rw [hw] at this; simpa using this
      · rw [hw] at h1 h2
        by_cases hc : d = c
        · by_cases hc' : d = c'
          · subst hc'
            subst hc
            exact absurd h1 (not_lt.mpr (le_of_lt h2))
          · simp [hc'] at h2
        · simp [hc] at h1
    · intro h
      refine ⟨Or.inr ha, Or.inl ?_, Or.inl hv⟩
      intro c; rw [hw, h]; simp
  · intro p hp
    obtain ⟨_, h2, _⟩ := hreal p hp
    simp [Posting.CostOk, h2]
  · intro p hp _
    obtain ⟨_, _, _, x, h4⟩ := hreal p hp
    simp [h4]
  · intro p hp _; exact hknown p hp
  · intro p hp hk
    have := (hreal p hp).1
    rw [this] at hk; cases hk

/-- The full statement of C11 is false: a bracketed sale `[A] -5 USD @ 2 EUR`, `[B] 10 EUR` weighs
exactly zero, yet it is rejected. -/
theorem C11_false_for_bracketed_sale : ∃ t : Txn Posting,
    (∀ p ∈ t.postings, p.kind ≠ .real) ∧ (∀ c, weightOf .virtBal t.postings c = 0) ∧
    ∀ s skip bals, Txn.balance s skip bals t = .error (.error .notBalanced) := by
  refine ⟨{ postings := [
      { account := exA, kind := .virtBal, amount := some (.mk (-5) exUsd),
        cost := some (.perUnit (.mk 2 exEur)) },
      { account := exB, kind := .virtBal, amount := some (.mk 10 exEur) }] }, ?_, ?_, ?_⟩
  · intro p hp
    simp only [List.mem_cons, List.not_mem_nil, or_false] at hp
    rcases hp with rfl | rfl <;> simp
  · intro c
    simp only [weightOf_cons, weightOf_nil, Posting.weight, if_true, Money.mul, Money.amount,
      Money.amountIn_mk]
    split <;> norm_num
  · intro s skip bals
    unfold Txn.balance
    have h : totalBalance [
      { account := exA, kind := .virtBal, amount := some (.mk (-5) exUsd),
        cost := some (.perUnit (.mk 2 exEur)) },
      { account := exB, kind := .virtBal, amount := some (.mk 10 exEur) }] .virtBal
        = .ok [(some exEur, .mk 20 exEur)] := by decide +kernel
    simp only [h]
    have h2 : canBeZero [(some exEur, .mk 20 exEur)] = false := by decide +kernel
    simp [h2]

example : (∃ r, Txn.balance .id false exBals exFull = .ok r) ∧
    (∀ p ∈ exFull.postings, p.CostOk) ∧
    (∀ p ∈ exFull.postings, p.kind = .real → p.amount.isSome) ∧
    (∀ p ∈ exFull.postings, p.kind = .real → (exBals.get? p.account).isSome) := by
  refine ⟨exists_ok (by decide +kernel), ?_, by decide +kernel, by decide +kernel⟩
  intro p hp
  simp only [exFull, List.mem_cons, List.not_mem_nil, or_false] at hp
  rcases hp with rfl | rfl <;> simp [Posting.CostOk]

/-! ### C12 -/

/-- Two or more real postings without a usable amount: never accepted. -/
theorem C12_two_elided_rejected (s : Shuf) (skip : Bool) (bals : Balances) (t : Txn Posting)
    (h : 2 ≤ (t.postings.filter (fun p => p.elided skip)).length) :
    ∀ r, Txn.balance s skip bals t ≠ .ok r := by
  intro r hr
  unfold Txn.balance at hr
  split at hr
  · simp at hr
  · split at hr
    · simp at hr
    · split at hr
      · simp at hr
      · next st hst =>
        have h1 := balanceLoop_out_length t.postings hst
        have h2 := length_real skip t.postings
        simp only [List.length_nil, Nat.zero_add] at h1
        simp only [h1, h2] at hr
        rw [if_pos (by omega)] at hr
        simp at hr

example : 2 ≤ (([{ account := exA }, { account := exB, balance := some (.mk 1 exEur) },
    { account := exB, amount := some (.mk 1 exEur) }] : List Posting).filter
      (fun p => p.elided true)).length := by decide +kernel

/-! ### C13 -/

/-- Balancing keeps every written posting with its account, amount, cost, assertion and kind, the
real ones in order, the virtual ones untouched; new postings are only on the account of the single
elided posting; afterwards every real posting has an amount; everything else about the
transaction is unchanged. -/
theorem C13_postings_preserved {s : Shuf} {skip : Bool} {bals bals' : Balances}
    {t t' : Txn Posting} {ret : Balance}
    (h : Txn.balance s skip bals t = .ok (bals', t', ret)) (hb : bals.Ok)
    (hp : ∀ p ∈ t.postings, p.CostOk) :
    (∃ res gen, t'.postings = res ++ gen ++ t.postings.filter (fun p => p.kind ≠ .real) ∧
      List.Forall₂ (fun p q => q.account = p.account ∧ q.cost = p.cost ∧ q.balance = p.balance ∧
          q.kind = p.kind ∧ q.tags = p.tags ∧ q.payee = p.payee ∧ q.comments = p.comments ∧
          (∀ m, p.amount = some m → q.amount = some m))
        (t.postings.filter (fun p => p.kind = .real ∧ ¬ p.elided skip)) res ∧
      (∀ q ∈ gen, ∃ p, t.postings.filter (fun p => p.elided skip) = [p] ∧ q.account = p.account)) ∧
    (∀ q ∈ t'.postings, q.kind = .real → q.amount.isSome) ∧
    { t' with postings := t.postings } = t := by
  obtain ⟨res, gen, hB⟩ := balance_spec h hb hp
  have hgen : ∀ q ∈ gen, q.amount.isSome ∧
      ∃ p, t.postings.filter (fun p => p.elided skip) = [p] ∧ q.account = p.account := by
    intro q hq
    rcases hB.cases with ⟨_, hg, _⟩ | ⟨p, hpe, _, ms, hg, _⟩
    · rw [hg] at hq; cases hq
    · rw [hg] at hq
      obtain ⟨m, _, rfl⟩ := List.mem_map.mp hq
      exact ⟨rfl, p, hpe, rfl⟩
  refine ⟨⟨res, gen, by rw [hB.postings], ?_, fun q hq => (hgen q hq).2⟩, ?_, ?_⟩
  · have hf : t.postings.filter (fun p => p.kind = .real ∧ ¬ p.elided skip)
        = t.postings.filter (Posting.kept skip) := rfl
    rw [hf]
    refine hB.resolved.imp ?_
    intro p q hr
    have hk := hr.kindReal
    refine ⟨?_, ?_, ?_, ?_, ?_, ?_, ?_, fun m hm => hr.keeps m hm⟩ <;> rw [hr.same]
    exact hk.symm
  · intro q hq hk
    have : q ∈ t'.postings.filter (fun p => p.kind = .real) :=
      List.mem_filter.mpr ⟨hq, by simpa using hk⟩
    rw [hB.reals] at this
    rcases List.mem_append.mp this with hq | hq
    · obtain ⟨p, _, hr⟩ := Forall₂.mem_right hB.resolved hq
      exact hr.hasAmount
    · exact (hgen q hq).1
  · rw [hB.postings]

example : (∃ r, Txn.balance .id false exBals exAssign = .ok r) ∧ exBals.Ok :=
  ⟨exists_ok (by decide +kernel), exBals_ok⟩

/-! ### C14 -/

/-- Checks on: in an accepted transaction every asserted total holds exactly: what the account
had before, plus all real postings to it up to and including the asserting one. -/
theorem C14_assertion_enforced {s : Shuf} {bals bals' : Balances} {t t' : Txn Posting}
    {ret : Balance} (h : Txn.balance s false bals t = .ok (bals', t', ret)) (hb : bals.Ok)
    (hp : ∀ p ∈ t.postings, p.CostOk) : AssertionsHold (balAmt bals) t'.postings  :=
  assertion_enforced h hb hp

/-- An assertion that holds is never the cause of a rejection: if the transaction without the
assertion is accepted, and the asserted total is what the account then has (in the asserted
commodity, at that posting), the transaction with the assertion is accepted with the same
result. -/
theorem C14_true_assertion_harmless {s : Shuf} {bals bals' : Balances} {t u u' : Txn Posting}
    {ret : Balance} {pre post pre' post' : List Posting} {p p' : Posting} {x : Rat} {d : Cur}
    (hb : bals.Ok) (hp : ∀ p ∈ t.postings, p.CostOk)
    (hk : p.kind = .real) (ham : p.amount.isSome)
    (ht : t.postings = pre ++ { p with balance := some (.mk x d) } :: post)
    (hu : u = { t with postings := pre ++ { p with balance := none } :: post })
    (hacc : Txn.balance s false bals u = .ok (bals', u', ret))
    (hu' : u'.postings = pre' ++ p' :: post')
    (hlen : pre'.length = (pre.filter (fun q => q.kind = .real ∧ ¬ q.elided false)).length)
    (htrue : balAmt bals p.account d + postedTo (pre' ++ [p']) p.account d = x) :
    ∃ t', Txn.balance s false bals t = .ok (bals', t', ret) ∧
      List.Forall₂ EqUpToBalance t'.postings u'.postings := by
  -- run the prefix
  have hpu : ∀ q ∈ u.postings, q.CostOk := by
    intro q hq
    rw [hu] at hq
    simp only [List.mem_append, List.mem_cons] at hq
    rcases hq with hq | hq | hq
    · exact hp q (by rw [ht]; simp [hq])
    · subst hq
      have := hp { p with balance := some (.mk x d) } (by rw [ht]; simp)
      simpa [Posting.CostOk] using this
    · exact hp q (by rw [ht]; simp [hq])
  obtain ⟨res, gen, hB⟩ := balance_spec hacc hb hpu
  have hloopu : ∃ st', balanceLoop false u.postings (initSt bals) = .ok st' := by
    unfold Txn.balance at hacc
    obtain ⟨vb, hv, hz⟩ := hB.virt
    rw [hv] at hacc
    simp only [hz] at hacc
    rw [show (⟨bals, Balance.new, "this will never be used".toList, none, []⟩ : LoopSt)
          = initSt bals from rfl] at hacc
    cases hl : balanceLoop false u.postings (initSt bals) with
    | error e => rw [hl] at hacc; simp at hacc
    | ok st' => exact ⟨st', rfl⟩
  obtain ⟨stu, hstu⟩ := hloopu
  have hupost : u.postings = pre ++ { p with balance := none } :: post := by rw [hu]
  rw [hupost, balanceLoop_append] at hstu
  cases hpre : balanceLoop false pre (initSt bals) with
  | error e => rw [hpre] at hstu; simp at hstu
  | ok st0 =>
    rw [hpre] at hstu
    simp only at hstu
    have hcpre : ∀ q ∈ pre, q.CostOk := fun q hq => hp q (by rw [ht]; simp [hq])
    obtain ⟨l1, l2, l3, l4, res0, l5, l6, l7, l8, l9, l10⟩ :=
      balanceLoop_spec pre hpre hb .new (initSt_canon bals) hcpre
    -- identify the resolved prefix with the first postings of the result
    obtain ⟨m, hm⟩ := Option.isSome_iff_exists.mp ham
    have hsplit : pre' = res0 ∧ p' = ({ p with balance := none } : Posting).resolve m := by
      -- the loop on u yields out = res0 ++ [resolve] ++ ..
      rw [balanceLoop] at hstu
      cases hstep : balanceStep false st0 { p with balance := none } with
      | error e => rw [hstep] at hstu; simp at hstu
      | ok st1 =>
        rw [hstep] at hstu
        simp only at hstu
        have hout1 : st1.out = st0.out ++ [({ p with balance := none } : Posting).resolve m] := by
          unfold balanceStep at hstep
          rw [if_neg (by simp [hk])] at hstep
          simp only [hm] at hstep
          split at hstep
          · simp at hstep
          · split at hstep
            · simp at hstep
            · split at hstep
              · simp at hstep
              · simp only [Except.ok.injEq] at hstep; rw [← hstep]; simp [hm]
        have hcp : ({ p with balance := none } : Posting).CostOk := hpu _ (by rw [hupost]; simp)
        obtain ⟨s1, s2, s3, _, _⟩ := balanceStep_spec hstep l1 l2 l3 hcp
        obtain ⟨_, _, _, _, res1, m5, _⟩ := balanceLoop_spec post hstu s1 s2 s3
          (fun q hq => hp q (by rw [ht]; simp [hq]))
        have hres : res = res0 ++ [({ p with balance := none } : Posting).resolve m] ++ res1 := by
          -- from the definition of balance on u
          have hfull : balanceLoop false u.postings (initSt bals) = .ok stu := by
            rw [hupost, balanceLoop_append, hpre]
            simp only
            rw [balanceLoop, hstep]
            exact hstu
          have hout : stu.out = res0 ++ [({ p with balance := none } : Posting).resolve m] ++ res1 := by
            rw [m5, hout1, l5]; simp [initSt]
          obtain ⟨_, _, _, _, resu, n5, n6, _⟩ :=
            balanceLoop_spec u.postings hfull hb .new (initSt_canon bals) hpu
          have e1 : resu = stu.out := by simpa [initSt] using n5.symm
          -- both `res` and `resu` are the beginning of the result's real postings
          have hlenr : res.length = resu.length := by
            rw [← hB.resolved.length_eq, ← n6.length_eq]
          have hpref : resu <+: u'.postings := by
            -- unfold balance once more
            unfold Txn.balance at hacc
            obtain ⟨vb, hv, hz⟩ := hB.virt
            rw [hv] at hacc
            simp only [hz] at hacc
            rw [show (⟨bals, Balance.new, "this will never be used".toList, none, []⟩ : LoopSt)
              = initSt bals from rfl, hfull] at hacc
            simp only [Bool.not_true, Bool.false_eq_true, if_false] at hacc
            split at hacc
            · simp at hacc
            · split at hacc
              · split at hacc
                · simp only [Except.ok.injEq, Prod.mk.injEq] at hacc
                  obtain ⟨_, rfl, _⟩ := hacc
                  rw [e1]; exact List.prefix_append _ _
                · simp at hacc
              · split at hacc
                · simp at hacc
                · next bb oo hf =>
                  simp only [Except.ok.injEq, Prod.mk.injEq] at hacc
                  obtain ⟨_, rfl, _⟩ := hacc
                  obtain ⟨_, _, f3, _⟩ := fillLoop_spec _ hf (by
                    exact (balanceLoop_spec u.postings hfull hb .new (initSt_canon bals) hpu).1)
                  rw [e1, f3, List.append_assoc]
                  exact List.prefix_append _ _
          have hpref' : res <+: u'.postings := by
            rw [hB.postings]; simp only [List.append_assoc]; exact List.prefix_append _ _
          have := List.prefix_of_prefix_length_le hpref' hpref (le_of_eq hlenr)
          rw [← hout, ← e1]
          exact this.eq_of_length hlenr
        have hall : pre' ++ p' :: post' =
            res0 ++ ((({ p with balance := none } : Posting).resolve m) ::
              (res1 ++ (gen ++ u.postings.filter (fun q => q.kind ≠ .real)))) := by
          rw [← hu', hB.postings, hres]; simp
        have hl0 : pre'.length = res0.length := by
          rw [hlen, ← l6.length_eq]; rfl
        obtain ⟨h1, h2⟩ := List.append_inj hall hl0
        simp only [List.cons.injEq] at h2
        exact ⟨h1, h2.1⟩
    -- the assertion succeeds in the same state
    have hasr : ∀ had, st0.balances.get? p.account = some had →
        assertOk false (some (.mk x d)) (Balance.add had (ofMoney m)) = true := by
      intro had hg
      have hhad := l1 _ _ hg
      rw [assertOk_iff (.add hhad (.ofMoney _))]
      right
      intro x' d' hxd
      simp only [Option.some.injEq, Money.mk.injEq] at hxd
      obtain ⟨rfl, rfl⟩ := hxd
      rw [amountOf_add hhad.wf (ofMoney_wf _), amountOf_ofMoney, ← htrue, hsplit.1, hsplit.2,
        postedTo_append, postedTo_cons]
      have h8 := l8 p.account d
      simp only [balAmt, hg, initSt] at h8
      simp only [Posting.resolve, true_and, if_true, postedTo_nil]
      rw [h8]; unfold balAmt; ring
    have hpost : List.Forall₂ (fun a b : Posting => EqUpToBalance a b ∧
        (false = true ∨ a.balance = b.balance)) post post :=
      forall₂_refl (fun a => ⟨rfl, Or.inr rfl⟩) post
    have hEq : EqUpToBalance { p with balance := some (.mk x d) } { p with balance := none } := rfl
    have hloop : SimRes (balanceLoop false t.postings (initSt bals))
        (balanceLoop false u.postings (initSt bals)) := by
      rw [ht, hupost, balanceLoop_append, balanceLoop_append, hpre]
      simp only
      rw [balanceLoop, balanceLoop]
      have hst : SimSt st0 st0 := ⟨rfl, rfl, rfl, rfl, forall₂_refl EqUpToBalance.refl _⟩
      have := balanceStep_sim (skip := false) hst hEq (Or.inr (Or.inr ⟨ham, by
        intro had m' hg hm'
        simp only at hg hm'
        rw [hm] at hm'; cases hm'
        rw [hasr had hg]; rfl⟩))
      revert this
      cases balanceStep false st0 { p with balance := some (.mk x d) } with
      | error e =>
        cases balanceStep false st0 { p with balance := none } with
        | error e' => exact fun h => h
        | ok b' => exact fun h => h.elim
      | ok a' =>
        cases balanceStep false st0 { p with balance := none } with
        | error e' => exact fun h => h.elim
        | ok b' => exact fun h => balanceLoop_sim h hpost
    have hps : List.Forall₂ EqUpToBalance t.postings u.postings := by
      rw [ht, hupost]
      exact forall₂_append (forall₂_refl EqUpToBalance.refl _)
        (.cons hEq (forall₂_refl EqUpToBalance.refl _))
    have := balance_sim (s := s) (t := t) (u := u) (by rw [hu]) hps hloop
    cases hres : Txn.balance s false bals t with
    | error e =>
      have := (this.1 e).mp hres
      rw [hacc] at this; cases this
    | ok r =>
      obtain ⟨b1, t1, r1⟩ := r
      obtain ⟨u1, h1, h2, h3⟩ := this.2 b1 t1 r1 hres
      rw [hacc] at h1
      simp only [Except.ok.injEq, Prod.mk.injEq] at h1
      obtain ⟨rfl, rfl, rfl⟩ := h1
      exact ⟨t1, rfl, h3⟩

example : ∃ (t u u' : Txn Posting) (pre post pre' post' : List Posting) (p p' : Posting),
    p.kind = .real ∧ p.amount.isSome ∧
    t.postings = pre ++ { p with balance := some (.mk (-10) exEur) } :: post ∧
    u = { t with postings := pre ++ { p with balance := none } :: post } ∧
    (Txn.balance .id false exBals u).map (fun r => r.2.1) = .ok u' ∧
    u'.postings = pre' ++ p' :: post' ∧
    pre'.length = (pre.filter (fun q => q.kind = .real ∧ ¬ q.elided false)).length ∧
    balAmt exBals p.account exEur + postedTo (pre' ++ [p']) p.account exEur = -10 := by
  refine ⟨exFull, { exFull with postings :=
    [{ account := exB, amount := some (.mk 2 exUsd), cost := some (.perUnit (.mk 5 exEur)) },
     { account := exA, amount := some (.mk (-10) exEur) }] }, { exFull with postings :=
    [{ account := exB, amount := some (.mk 2 exUsd), cost := some (.perUnit (.mk 5 exEur)) },
     { account := exA, amount := some (.mk (-10) exEur) }] },
    [{ account := exB, amount := some (.mk 2 exUsd), cost := some (.perUnit (.mk 5 exEur)) }], [],
    [{ account := exB, amount := some (.mk 2 exUsd), cost := some (.perUnit (.mk 5 exEur)) }], [],
    { account := exA, amount := some (.mk (-10) exEur) },
    { account := exA, amount := some (.mk (-10) exEur) }, rfl, rfl, rfl, rfl, ?_, rfl, ?_, ?_⟩ <;>
    decide +kernel

/-! ### C15 -/

/-- Checks on: a real posting written only as `= total` receives the amount that makes the
running balance of the account, in every commodity, the asserted total. -/
theorem C15_assignment {s : Shuf} {bals bals' : Balances} {t t' : Txn Posting} {ret : Balance}
    {pre post : List Posting} {p : Posting} {b : Money}
    (h : Txn.balance s false bals t = .ok (bals', t', ret)) (hb : bals.Ok)
    (hp : ∀ p ∈ t.postings, p.CostOk)
    (ht : t.postings = pre ++ p :: post) (hk : p.kind = .real) (hna : p.amount = none)
    (hbal : p.balance = some b) :
    ∃ pre' q post', t'.postings = pre' ++ q :: post' ∧
      pre'.length = (pre.filter (fun q => q.kind = .real ∧ ¬ q.elided false)).length ∧
      q.account = p.account ∧ q.balance = some b ∧
      ∀ c, balAmt bals p.account c + postedTo (pre' ++ [q]) p.account c = b.amountIn c := by
  obtain ⟨res, gen, hB⟩ := balance_spec h hb hp
  have hkept : p.kept false = true := by simp [Posting.kept, Posting.elided, hk, hbal]
  have hfil : t.postings.filter (Posting.kept false)
      = pre.filter (Posting.kept false) ++ p :: post.filter (Posting.kept false) := by
    rw [ht, List.filter_append, List.filter_cons, if_pos hkept]
  have hres := hB.resolved
  rw [hfil] at hres
  -- split `res` accordingly
  have hsplit : ∀ (l1 : List Posting) (l2 : List Posting) (r : List Posting),
      List.Forall₂ Resolved (l1 ++ p :: l2) r →
      ∃ r1 q r2, r = r1 ++ q :: r2 ∧ r1.length = l1.length ∧ Resolved p q := by
    intro l1
    induction l1 with
    | nil =>
      intro l2 r hr
      cases hr with
      | cons h1 _ => exact ⟨[], _, _, rfl, rfl, h1⟩
    | cons a l1 ih =>
      intro l2 r hr
      cases hr with
      | cons h1 h2 =>
        obtain ⟨r1, q, r2, e1, e2, e3⟩ := ih l2 _ h2
        exact ⟨_ :: r1, q, r2, by rw [e1]; rfl, by simp [e2], e3⟩
  obtain ⟨r1, q, r2, e1, e2, e3⟩ := hsplit _ _ _ hres
  have hqacc : q.account = p.account := by rw [e3.same]
  have hqbal : q.balance = some b := by rw [e3.same]; exact hbal
  refine ⟨r1, q, r2 ++ gen ++ t.postings.filter (fun p => p.kind ≠ .real), ?_, e2, hqacc, hqbal, ?_⟩
  · rw [hB.postings, e1]; simp
  · intro c
    have := (hB.asserts rfl).splitAssign hB.resolved.length_eq r1 q r2
      (pre.filter (Posting.kept false)) p (post.filter (Posting.kept false)) e1 hfil
      (by rw [e2]) hna b hqbal c
    rw [hqacc] at this
    exact this

/-- Processing an assignment fails exactly when the needed amount spans several commodities. -/
theorem C15_rejected_iff {st : LoopSt} {p : Posting} {b : Money}
    (hb : st.balances.Ok) (hknown : (st.balances.get? p.account).isSome)
    (hk : p.kind = .real) (hna : p.amount = none) (hbal : p.balance = some b) :
    balanceStep false st p = .error (.error .notBalanced) ↔
      ∃ c d, c ≠ d ∧ b.amountIn c ≠ balAmt st.balances p.account c ∧
        b.amountIn d ≠ balAmt st.balances p.account d := by
  obtain ⟨had, hg⟩ := Option.isSome_iff_exists.mp hknown
  have hhad := hb _ _ hg
  have hsub : Reachable (Balance.sub (ofMoney b) had) := .sub (.ofMoney _) hhad
  have hamt : ∀ c, amountOf (Balance.sub (ofMoney b) had) c ≠ 0 ↔
      b.amountIn c ≠ balAmt st.balances p.account c := by
    intro c
    rw [amountOf_sub (ofMoney_wf _) hhad.wf, amountOf_ofMoney]
    simp only [balAmt, hg, ne_eq, sub_eq_zero]
  have := (C04_toMoney hsub).2.2
  simp only [hamt] at this
  rw [← this]
  unfold balanceStep
  rw [if_neg (by simp [hk]), hna, hbal]
  simp only [hg]
  cases toMoney (Balance.sub (ofMoney b) had) with
  | error e => simp
  | ok m => simp

example : ∃ r, Txn.balance .id false exBals exAssign = .ok r := exists_ok (by decide +kernel)

/-! ### C16 -/

/-- With `--no-balance-check` two transactions differing only in asserted totals are both
rejected with the same error, or both accepted with the same postings (up to those totals), the
same running balances and the same result. -/
theorem C16_no_check {s : Shuf} {bals : Balances} {t u : Txn Posting}
    (hmeta : t = { u with postings := t.postings })
    (hps : List.Forall₂ EqUpToBalance t.postings u.postings) :
    (∀ e, Txn.balance s true bals t = .error e ↔ Txn.balance s true bals u = .error e) ∧
    (∀ bals' t' ret, Txn.balance s true bals t = .ok (bals', t', ret) →
      ∃ u', Txn.balance s true bals u = .ok (bals', u', ret) ∧
        t' = { u' with postings := t'.postings } ∧
        List.Forall₂ EqUpToBalance t'.postings u'.postings) := by
  refine balance_sim hmeta hps (balanceLoop_sim ⟨rfl, rfl, rfl, rfl, .nil⟩ ?_)
  exact hps.imp (fun _ _ h => ⟨h, Or.inl rfl⟩)

example : List.Forall₂ EqUpToBalance exFull.postings
    [{ account := exB, amount := some (.mk 2 exUsd), cost := some (.perUnit (.mk 5 exEur)) },
     { account := exA, amount := some (.mk (-10) exEur), balance := some (.mk 77 exUsd) }] :=
  .cons rfl (.cons rfl .nil)

/-! ### C17 -/

/-- After any sequence of accepted transactions (starting from empty balances) the running
balance of every account is, in every commodity, the exact sum of all real postings made to it. -/
theorem C17_running_balances {skip : Bool} {σ : Nat → Shuf} {bals bals' : Balances}
    {ts : List (Txn Posting)} {rs : List (Txn Posting × Balance)}
    (h : balanceAll skip σ bals ts = .ok (bals', rs))
    (hempty : ∀ a b, bals.get? a = some b → b = Balance.new)
    (hp : ∀ t ∈ ts, ∀ p ∈ t.postings, p.CostOk) (a : Str) (c : Cur) :
    balAmt bals' a c = postedTo (rs.flatMap (fun r => r.1.postings)) a c := by
  have hb : bals.Ok := fun a b hg => by rw [hempty a b hg]; exact .new
  have h0 : balAmt bals a c = 0 := by
    unfold balAmt
    cases hg : HMap.get? bals a with
    | none => rfl
    | some b => simp [hempty a b hg]
  rw [(balanceAll_wf ts h hb hp).2.2.1, h0]; ring

example : (∀ a b, HMap.get? exBals a = some b → b = Balance.new) ∧
    ∃ r, balanceAll false (fun _ => .id) exBals [exFull, exElided] = .ok r := by
  refine ⟨?_, ?_⟩
  · intro a b h
    unfold exBals at h
    simp only [HMap.get?] at h
    split at h
    · cases h; rfl
    · split at h
      · cases h; rfl
      · cases h
  · exact exists_ok (by decide +kernel)

/-! ### C18 -/

/-- If the balancing pass accepts all transactions with checks on, every asserted total of every
real posting equals the sum of the real postings to that account up to and including it, in the
final order. -/
theorem C18_assertions_in_order {σ : Nat → Shuf} {bals bals' : Balances}
    {ts : List (Txn Posting)} {rs : List (Txn Posting × Balance)}
    (h : balanceAll false σ bals ts = .ok (bals', rs))
    (hempty : ∀ a b, bals.get? a = some b → b = Balance.new)
    (hp : ∀ t ∈ ts, ∀ p ∈ t.postings, p.CostOk) :
    ∀ pre q post, rs.flatMap (fun r => r.1.postings) = pre ++ q :: post → q.kind = .real →
      ∀ x d, q.balance = some (.mk x d) → postedTo (pre ++ [q]) q.account d = x := by
  have hb : bals.Ok := fun a b hg => by rw [hempty a b hg]; exact .new
  have h0 : ∀ a c, balAmt bals a c = 0 := by
    intro a c
    unfold balAmt
    cases hg : HMap.get? bals a with
    | none => rfl
    | some b => simp [hempty a b hg]
  intro pre q post hq hk x d hbal
  have := (balanceAll_wf ts h hb hp).2.2.2 rfl pre q post hq hk x d hbal
  rw [h0] at this
  linarith

/-! ### C19 -/

/-- A transaction whose bracketed postings do not pass the balance test is rejected whatever the
rest is.  Missing from the full statement: bracketed postings with a per-unit cost on a negative
amount (`C19_false_for_bracketed_sale`). -/
theorem C19_bracketed_partial {s : Shuf} {skip : Bool} {bals : Balances} {t : Txn Posting}
    (hp : ∀ p ∈ t.postings, p.CostOk)
    (hn : ∀ p ∈ t.postings, p.kind = .virtBal → ∀ u m, p.cost = some (.perUnit u) →
      p.amount = some m → 0 ≤ m.amount)
    (hbad : ¬ MayBalance (weightOf .virtBal t.postings)) :
    Txn.balance s skip bals t = .error (.error .notBalanced) := by
  obtain ⟨b, h1, h2, h3⟩ := totalBalance_spec .virtBal t.postings hp hn
  have hz : canBeZero b = false := by
    cases hcz : canBeZero b with
    | false => rfl
    | true =>
      exact absurd ((mayBalance_congr h3).mp ((C05_canBeZero_iff h2).mp hcz)) hbad
  unfold Txn.balance
  rw [h1]
  simp [hz]

/-- Parenthesised virtual postings never influence the outcome: dropping them all gives the same
error or acceptance, the same running balances, the same result and the same other postings. -/
theorem C19_parenthesised_irrelevant {s : Shuf} {skip : Bool} {bals : Balances} {t u : Txn Posting}
    (hu : u = { t with postings := t.postings.filter (fun p => p.kind ≠ .virt) }) :
    (∀ e, Txn.balance s skip bals t = .error e ↔ Txn.balance s skip bals u = .error e) ∧
    (∀ bals' t' ret, Txn.balance s skip bals t = .ok (bals', t', ret) →
      ∃ u', Txn.balance s skip bals u = .ok (bals', u', ret) ∧
        u'.postings = t'.postings.filter (fun p => p.kind ≠ .virt)) := by
  have hup : u.postings = t.postings.filter (fun p => p.kind ≠ .virt) := by rw [hu]
  have hv : totalBalance u.postings .virtBal = totalBalance t.postings .virtBal := by
    rw [hup]; unfold totalBalance
    generalize Balance.new = acc
    induction t.postings generalizing acc with
    | nil => rfl
    | cons p ps ih =>
      rw [List.filter_cons]
      by_cases hk : p.kind = .virt
      · rw [if_neg (by simp [hk]), ih, totalBalanceLoop]
        cases p.amount with
        | none => rfl
        | some m => simp [hk]
      · rw [if_pos (by simpa using hk), totalBalanceLoop, totalBalanceLoop]
        cases p.amount with
        | none => exact ih acc
        | some m =>
          simp only
          split
          · cases totalBalanceEntry m p.cost with
            | error e => rfl
            | ok c => exact ih _
          · exact ih acc
  have hl : ∀ st, balanceLoop skip u.postings st = balanceLoop skip t.postings st := by
    intro st
    rw [hup]
    induction t.postings generalizing st with
    | nil => rfl
    | cons p ps ih =>
      rw [List.filter_cons]
      by_cases hk : p.kind = .virt
      · rw [if_neg (by simp [hk]), ih, balanceLoop]
        have : balanceStep skip st p = .ok st := by
          unfold balanceStep; rw [if_pos (by simp [hk])]
        rw [this]
      · rw [if_pos (by simpa using hk), balanceLoop, balanceLoop]
        cases balanceStep skip st p with
        | error e => rfl
        | ok st' => exact ih st'
  have hr : u.postings.filter (fun p => p.kind = .real)
      = t.postings.filter (fun p => p.kind = .real) := by
    rw [hup, List.filter_filter]
    apply List.filter_congr
    intro p _; cases h : p.kind <;> simp
  have ho : u.postings.filter (fun p => p.kind ≠ .real)
      = (t.postings.filter (fun p => p.kind ≠ .real)).filter (fun p => p.kind ≠ .virt) := by
    rw [hup, List.filter_filter, List.filter_filter]
    apply List.filter_congr
    intro p _; cases h : p.kind <;> simp
  have hreal : ∀ (ps : List Posting) (st st' : LoopSt), (∀ q ∈ st.out, q.kind = .real) →
      balanceLoop skip ps st = .ok st' → ∀ q ∈ st'.out, q.kind = .real := by
    intro ps
    induction ps with
    | nil => intro st st' h0 h; simp only [balanceLoop, Except.ok.injEq] at h; rwa [← h]
    | cons p ps ih =>
      intro st st' h0 h
      rw [balanceLoop] at h
      cases hs : balanceStep skip st p with
      | error e => rw [hs] at h; simp at h
      | ok st1 =>
        rw [hs] at h; simp only at h
        refine ih st1 st' ?_ h
        unfold balanceStep at hs
        split at hs
        · simp only [Except.ok.injEq] at hs; rwa [← hs]
        · split at hs
          · split at hs
            · simp at hs
            · simp only at hs
              split at hs
              · simp at hs
              · split at hs
                · simp at hs
                · simp only [Except.ok.injEq] at hs
                  rw [← hs]
                  intro q hq
                  rcases List.mem_append.mp hq with hq | hq
                  · exact h0 q hq
                  · simp only [List.mem_singleton] at hq; subst hq; rfl
          · split at hs
            · simp at hs
            · split at hs
              · simp at hs
              · simp only [Except.ok.injEq] at hs
                rw [← hs]
                intro q hq
                rcases List.mem_append.mp hq with hq | hq
                · exact h0 q hq
                · simp only [List.mem_singleton] at hq; subst hq; rfl
          · simp only [Except.ok.injEq] at hs; rw [← hs]; exact h0
  have hfill : ∀ (acc : Str) (pay : Option Str) (ms : List Money) (bb : Balances)
      (out : List Posting), fillLoop u acc pay ms bb out = fillLoop t acc pay ms bb out := by
    intro acc pay ms
    induction ms with
    | nil => intro bb out; rfl
    | cons m ms ih =>
      intro bb out
      rw [fillLoop, fillLoop]
      cases HMap.get? bb acc with
      | none => rfl
      | some had => simp only; rw [ih]; rw [hu]
  have hfreal : ∀ (acc : Str) (pay : Option Str) (ms : List Money) (bb bb' : Balances)
      (out out' : List Posting), (∀ q ∈ out, q.kind = .real) →
      fillLoop t acc pay ms bb out = .ok (bb', out') → ∀ q ∈ out', q.kind = .real := by
    intro acc pay ms
    induction ms with
    | nil =>
      intro bb bb' out out' h0 h
      simp only [fillLoop, Except.ok.injEq, Prod.mk.injEq] at h
      rw [← h.2]; exact h0
    | cons m ms ih =>
      intro bb bb' out out' h0 h
      rw [fillLoop] at h
      cases hg : HMap.get? bb acc with
      | none => rw [hg] at h; simp at h
      | some had =>
        rw [hg] at h
        refine ih _ _ _ _ ?_ h
        intro q hq
        rcases List.mem_append.mp hq with hq | hq
        · exact h0 q hq
        · simp only [List.mem_singleton] at hq; subst hq; rfl
  have hfv : ∀ l : List Posting, (∀ q ∈ l, q.kind = .real) →
      l.filter (fun p => p.kind ≠ .virt) = l := by
    intro l h
    rw [List.filter_eq_self]
    intro q hq; simp [h q hq]
  unfold Txn.balance
  rw [hv]
  cases totalBalance t.postings .virtBal with
  | error e => simp
  | ok vb =>
    simp only
    split
    · simp
    · rw [hl]
      cases hst : balanceLoop skip t.postings
          ⟨bals, Balance.new, "this will never be used".toList, none, []⟩ with
      | error e => simp
      | ok st =>
        have hrs := hreal _ _ _ (by simp) hst
        simp only [hr, ho, hfill]
        split
        · simp
        · split
          · split
            · refine ⟨by simp, ?_⟩
              intro bals' t' ret h
              simp only [Except.ok.injEq, Prod.mk.injEq] at h
              obtain ⟨rfl, rfl, rfl⟩ := h
              refine ⟨_, rfl, ?_⟩
              simp only [List.filter_append]
              rw [hfv _ hrs]
            · simp
          · cases hf : fillLoop t st.fillAccount st.fillPayee
                ((s.run (Balance.neg st.tbal)).map Prod.snd) st.balances st.out with
            | error e => simp
            | ok r =>
              obtain ⟨bb, oo⟩ := r
              refine ⟨by simp, ?_⟩
              intro bals' t' ret h
              simp only [Except.ok.injEq, Prod.mk.injEq] at h
              obtain ⟨rfl, rfl, rfl⟩ := h
              refine ⟨_, rfl, ?_⟩
              simp only [List.filter_append]
              rw [hfv _ (hfreal _ _ _ _ _ _ _ hrs hf)]

/-- The full statement of C19 is false: `[A] -5 USD @ 2 EUR`, `[B] -10 EUR` weighs -20 EUR, yet the
transaction is accepted. -/
theorem C19_false_for_bracketed_sale : ∃ t : Txn Posting,
    ¬ MayBalance (weightOf .virtBal t.postings) ∧
    ∃ r, Txn.balance .id false exBals t = .ok r := by
  refine ⟨{ postings := [
      { account := exA, kind := .virtBal, amount := some (.mk (-5) exUsd),
        cost := some (.perUnit (.mk 2 exEur)) },
      { account := exB, kind := .virtBal, amount := some (.mk (-10) exEur) }] }, ?_, exists_ok (by decide +kernel)⟩
  have hw : ∀ c, weightOf .virtBal [
      { account := exA, kind := .virtBal, amount := some (.mk (-5) exUsd),
        cost := some (.perUnit (.mk 2 exEur)) },
      { account := exB, kind := .virtBal, amount := some (.mk (-10) exEur) }] c
        = if exEur = c then -20 else 0 := by
    intro c
    simp only [weightOf_cons, weightOf_nil, Posting.weight, if_true, Money.mul, Money.amount,
      Money.amountIn_mk]
    split <;> norm_num
  rintro (h | ⟨c, d, h1, h2⟩)
  · have := h exEur; rw [hw] at this; norm_num at this
  · rw [hw] at h1
    split at h1 <;> norm_num at h1

example : ¬ MayBalance (weightOf .virtBal
    [{ account := exA, kind := .virtBal, amount := some (.mk 1 exEur) }]) := by
  rintro (h | ⟨c, d, h1, h2⟩)
  · have := h exEur; revert this; decide +kernel
  · simp only [weightOf_cons, weightOf_nil, Posting.weight, if_true, Money.amountIn_mk] at h2
    split at h2 <;> norm_num at h2

/-! ### C20 -/

/-- What one posting adds to the transaction is exactly its weight (`q A @ p B` adds `q*p B`;
`q A @@ t B` adds `t B` with the sign of `q`), for real postings always, for bracketed ones unless
they are per-unit sales.  Missing from the full statement: bracketed (and `is_balanced`) postings
with a per-unit cost and a negative quantity (`C20_false_for_per_unit_sale`). -/
theorem C20_weights_partial {p : Posting} {m : Money} (hm : p.amount = some m) (hc : p.CostOk) :
    (∃ b, balanceEntry m p.cost = .ok b ∧ ∀ c, b.amountOf c = p.weight.amountIn c) ∧
    ((∀ u, p.cost = some (.perUnit u) → 0 ≤ m.amount) →
      ∃ b, totalBalanceEntry m p.cost = .ok b ∧ ∀ c, b.amountOf c = p.weight.amountIn c) := by
  refine ⟨?_, fun hn => ⟨_, totalBalanceEntry_spec hm hc hn, fun c => amountOf_ofMoney _ c⟩⟩
  obtain ⟨w, h1, rfl⟩ := balanceEntry_spec hm hc
  exact ⟨_, h1, fun c => amountOf_ofMoney _ c⟩

example : ∃ p : Posting, p.amount = some (.mk (-5) exUsd) ∧ p.CostOk ∧
    p.weight = .mk (-10) exEur :=
  ⟨{ account := exA, amount := some (.mk (-5) exUsd), cost := some (.perUnit (.mk 2 exEur)) }, rfl,
    ⟨⟨_, _, rfl⟩, _, _, rfl⟩, by decide +kernel⟩

/-- The returned balance of an accepted transaction is the exact sum of the weights
of its real postings. -/
theorem C20_real_total {s : Shuf} {skip : Bool} {bals bals' : Balances} {t t' : Txn Posting}
    {ret : Balance} (h : Txn.balance s skip bals t = .ok (bals', t', ret)) (hb : bals.Ok)
    (hp : ∀ p ∈ t.postings, p.CostOk) (c : Cur) :
    ret.amountOf c = weightOf .real t'.postings c  :=
  real_total h hb hp c

/-- The full statement of C20 is false: for bracketed postings a per-unit sale `-5 USD @ 2 EUR` is
weighed `+10 EUR` although its weight is `-10 EUR`. -/
theorem C20_false_for_per_unit_sale :
    ∃ p : Posting, p.kind = .virtBal ∧ p.weight = .mk (-10) exEur ∧
      totalBalance [p] .virtBal = .ok [(some exEur, .mk 10 exEur)] :=
  ⟨{ account := exA, kind := .virtBal, amount := some (.mk (-5) exUsd),
     cost := some (.perUnit (.mk 2 exEur)) }, rfl, by decide +kernel, by decide +kernel⟩

/-! ### C21 -/

/-- Running the balancing pass again over its own result (from fresh running balances) succeeds
and leaves every transaction unchanged; the recorded balances hold the same amounts. -/
theorem C21_idempotent {skip : Bool} {σ : Nat → Shuf} {bals bals' : Balances}
    {ts : List (Txn Posting)} {rs : List (Txn Posting × Balance)}
    (h : balanceAll skip σ bals ts = .ok (bals', rs)) (hb : bals.Ok)
    (hp : ∀ t ∈ ts, ∀ p ∈ t.postings, p.CostOk) (σ' : Nat → Shuf) :
    ∃ bals'' rs', balanceAll skip σ' bals (rs.map Prod.fst) = .ok (bals'', rs') ∧
      rs'.map Prod.fst = rs.map Prod.fst ∧
      List.Forall₂ (fun r r' => List.Perm r'.2 r.2) rs rs' ∧
      ∀ a c, balAmt bals'' a c = balAmt bals' a c := by
  have key : ∀ (ts : List (Txn Posting)) (σ σ' : Nat → Shuf) (bals bals' bals2 : Balances)
      (rs : List (Txn Posting × Balance)), balanceAll skip σ bals ts = .ok (bals', rs) → bals.Ok →
      bals2.Ok → BalsEq bals bals2 → (∀ t ∈ ts, ∀ p ∈ t.postings, p.CostOk) →
      ∃ bals'' rs', balanceAll skip σ' bals2 (rs.map Prod.fst) = .ok (bals'', rs') ∧
        rs'.map Prod.fst = rs.map Prod.fst ∧
        List.Forall₂ (fun r r' => List.Perm r'.2 r.2) rs rs' ∧
        ∀ a c, balAmt bals'' a c = balAmt bals' a c := by
    intro ts
    induction ts with
    | nil =>
      intro σ σ' bals bals' bals2 rs h _ _ heq _
      simp only [balanceAll, Except.ok.injEq, Prod.mk.injEq] at h
      obtain ⟨rfl, rfl⟩ := h
      exact ⟨bals2, [], rfl, rfl, .nil, fun a c => (heq.amt a c).symm⟩
    | cons t ts ih =>
      intro σ σ' bals bals' bals2 rs h hb hb2 heq hp
      rw [balanceAll] at h
      cases h1 : Txn.balance (σ 0) skip bals t with
      | error e => rw [h1] at h; simp at h
      | ok r =>
        obtain ⟨b1, t1, r1⟩ := r
        rw [h1] at h
        simp only at h
        cases h2 : balanceAll skip (fun i => σ (i + 1)) b1 ts with
        | error e => rw [h2] at h; simp at h
        | ok r2 =>
          obtain ⟨b2, rest⟩ := r2
          rw [h2] at h
          simp only [Except.ok.injEq, Prod.mk.injEq] at h
          obtain ⟨rfl, rfl⟩ := h
          obtain ⟨bb, ret', e1, e2, e3, e4⟩ := balance_idempotent (s' := σ' 0) h1 hb hb2
            (hp t (by simp)) heq
          obtain ⟨_, _, hB⟩ := balance_spec h1 hb (hp t (by simp))
          obtain ⟨b'', rs', f1, f2, f3, f4⟩ := ih (fun i => σ (i + 1)) (fun i => σ' (i + 1)) b1 b2 bb
            rest h2 hB.balsOk e2 e3 (fun u hu => hp u (by simp [hu]))
          refine ⟨b'', (t1, ret') :: rs', ?_, ?_, .cons e4 f3, f4⟩
          · rw [List.map_cons, balanceAll, e1]
            simp only
            rw [f1]
          · simp [f2]
  exact key ts σ σ' bals bals' bals rs h hb hb ⟨fun _ => rfl, fun _ _ => rfl⟩ hp

end Dinero
