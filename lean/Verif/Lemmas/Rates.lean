import Verif.Lemmas.Naming
/-
Lemmas on the prices of journals with automated transactions.
-/
namespace Dinero

/-- All the stages of building the ledger of a journal with automated transactions. -/
theorem buildLedger_stages {env : Env} {o : LedgerOrders} {skip : Bool} {pl : ParsedLedger} {l : Lists}
    {L : Ledger} (h : buildLedger env o skip pl l = .ok L) (hne : pl.automated ≠ []) :
    ∃ listed converted booked rules applied given costs ip ap, DateOrder pl.regular listed ∧
      List.Forall₂ (fun raw t => t.header = raw.header ∧ t.ttype = .real ∧
        List.Forall₂ (WrittenAs env l raw) raw.postings t.postings) listed converted ∧
      (∀ t ∈ converted, ∀ p ∈ t.postings, p.CostOk) ∧
      balancePass skip o.fill o.rate (initialBalances l.accounts) converted = .ok (booked, ip) ∧
      RuleNodes env pl.automated rules ∧
      automate env rules booked l = .ok (applied, ⟨L.accounts, L.payees, L.commodities⟩) ∧
      balancePass skip o.fill2 o.rate2 (initialBalances L.accounts) applied = .ok (L.transactions, ap) ∧
      List.Forall₂ (DirectivePrice env.lower l.commodities) pl.prices given ∧
      List.Forall₂ (fun c pr => CostPrice env.lower l.commodities c.1 c.2 pr) pl.costs costs ∧
      L.prices = given ++ costs ++ ip ++ ap := by
  obtain ⟨dp, txns, autos, cp, sorted, ts, ip, ts', ap, l', hd, hc, hs, hbp, hap, rfl⟩ := buildLedger_inv h
  obtain ⟨_, rs, hrs, _, hcosts⟩ := convertAll_spec _ hc
  obtain ⟨hconv, heq⟩ := convertAll_eq hc
  simp only [Prod.mk.injEq] at heq
  obtain ⟨rfl, rfl, hcp⟩ := heq
  obtain ⟨hdate, rfl⟩ := sortByDate_inv hs
  have hreg : ∀ t ∈ pl.regular, Converts env o.unknown l t (convOf env o.unknown l t) := by
    intro t ht
    have hm := List.mem_filter.mp ht
    obtain ⟨r, hr⟩ := hconv t hm.1 (by simpa using hm.2)
    rw [← converts_convOf hr]; exact hr
  have hdates : ∀ t ∈ pl.regular, t.date.isSome := by
    intro t ht
    have := hdate _ (List.mem_map.mpr ⟨t, ht, rfl⟩)
    rwa [convOf_date (hreg t ht)] at this
  have hsm : sortBy dateLe ((pl.transactions.filter (fun t => t.ttype = .real)).map
      (fun t => (convOf env o.unknown l t).1)) =
      (sortBy dateLe pl.regular).map (fun t => (convOf env o.unknown l t).1) := by
    apply sortBy_map
    intro a ha b hb
    unfold dateLe
    rw [convOf_date (hreg a ha), convOf_date (hreg b hb)]
  rw [hsm] at hbp
  have hcost : ∀ t ∈ (sortBy dateLe pl.regular).map (fun t => (convOf env o.unknown l t).1),
      ∀ p ∈ t.postings, p.CostOk := by
    intro t ht
    obtain ⟨raw, hraw, rfl⟩ := List.mem_map.mp ht
    exact fun p hp => (convertTxn_costOk (hreg raw ((mem_sortBy _ _ _).mp hraw)) p hp).1
  unfold automatedPass at hap
  rw [if_pos (by exact List.length_pos_iff.mpr hne)] at hap
  split at hap
  · cases hap
  · next rules hru =>
    split at hap
    · cases hap
    · next ts1 l1 hau =>
      split at hap
      · cases hap
      · next hbp2 =>
        cases hap
        refine ⟨sortBy dateLe pl.regular, _, ts, rules, ts1, dp, cp, ip, ap, dateOrder_sortBy hdates, ?_, hcost, hbp,
          ruleNodes_spec _ hru, hau, hbp2, directivePrices_inv _ hd, ?_, rfl⟩
        · rw [List.forall₂_map_right_iff, List.forall₂_same]
          intro raw hraw
          have hcv := hreg raw ((mem_sortBy _ _ _).mp hraw)
          obtain ⟨ps, _, i2, _, i4, _⟩ :=
            convertTxn_inv (t := (convOf env o.unknown l raw).1) (prs := (convOf env o.unknown l raw).2) hcv
          obtain ⟨qs, j1, j2, _⟩ := convertTxn_postings (t := (convOf env o.unknown l raw).1)
            (prs := (convOf env o.unknown l raw).2) hcv
          refine ⟨i2, i4, ?_⟩
          rw [j2, List.forall₂_map_right_iff]
          exact j1.imp (fun _ _ hh => hh.written)
        · rw [hcosts]; exact costs_forall₂ hrs

/-- The ledger of a journal with automated transactions and its prices. -/
theorem ledger_rates {r : Run} {skip : Bool} {path : Str} {pl : ParsedLedger} {L : Ledger}
    (h : r.journal path = .ok pl) (hne : pl.automated ≠ []) (hl : r.ledger skip path = .ok L) :
    ∃ l ts booked rules applied given costs rates rates', pl.StandsWith r.env l ts ∧
      BookedAs skip (fun _ _ => 0) ts booked ∧ (∀ t ∈ booked, AllAmounts t.postings) ∧
      RuleNodes r.env pl.automated rules ∧
      List.Forall₂ (RulesOn r.env ⟨L.accounts, L.payees, L.commodities⟩ rules) booked applied ∧
      BookedAs skip (fun _ _ => 0) applied L.transactions ∧
      L.prices = given ++ costs ++ rates.filterMap id ++ rates'.filterMap id ∧
      List.Forall₂ (DirectivePrice r.env.lower l.commodities) pl.prices given ∧
      List.Forall₂ (fun c pr => CostPrice r.env.lower l.commodities c.1 c.2 pr) pl.costs costs ∧
      List.Forall₂ ImpliesRate booked rates ∧ List.Forall₂ ImpliesRate L.transactions rates' := by
  unfold Run.ledger at hl
  rw [h] at hl
  simp only at hl
  cases ht : toLedger r.env r.orders skip pl with
  | error e => rw [ht] at hl; cases hl
  | ok L' =>
    rw [ht] at hl; cases hl
    obtain ⟨l, hp, hb⟩ := toLedger_inv ht
    obtain ⟨listed, ts, booked, rules, applied, given, costs, ip, ap, h1, h2, h3, h4, h5, h6, h7, h8, h9, h10⟩ :=
      buildLedger_stages hb hne
    obtain ⟨rates, q1, rfl, bals, rs, q3, rfl⟩ := balancePass_spec _ (initialBalances_ok _) h3 h4
    have hcost1 := balanceAll_costOk _ (initialBalances_ok _) h3 q3
    have hR := (automate_spec _ h6).1
    have hcost2 : ∀ t ∈ applied, ∀ p ∈ t.postings, p.CostOk := by
      intro t ht
      obtain ⟨t0, ht0, hR⟩ := Forall₂.mem_right hR ht
      exact hR.costOk (hcost1 t0 ht0)
    obtain ⟨rates', k1, rfl, bals', rs', k3, k4⟩ := balancePass_spec _ (initialBalances_ok _) hcost2 h7
    have hB1 := bookedAs_of_balanceAll ts (initialBalances_ok _) h3 q3
    have hB2 := bookedAs_of_balanceAll applied (initialBalances_ok _) hcost2 k3
    have ham := balanceAll_amounts ts (initialBalances_ok _) h3 q3
    rw [initialBalances_amt] at hB1 hB2
    exact ⟨l, ts, _, rules, applied, given, costs, rates, rates', ⟨populate_names (C83_wellformed h).1.lists hp, listed, h1, h2⟩,
      hB1, ham, h5, hR, by rw [k4]; exact hB2, h10, h8, h9, q1, k1⟩

theorem weight_same {p q : Posting} (h : SameEntry p q) : q.weight = p.weight := by
  unfold Posting.weight
  rw [h.2.2.1, h.2.2.2.1]

theorem weightOf_same {ps qs : List Posting} (h : List.Forall₂ SameEntry (ps.filter (fun p => p.kind = .real))
    (qs.filter (fun p => p.kind = .real))) : weightOf .real qs = weightOf .real ps := by
  funext c
  unfold weightOf
  congr 1
  generalize ps.filter (fun p => p.kind = .real) = xs at h ⊢
  generalize qs.filter (fun p => p.kind = .real) = ys at h ⊢
  induction h with
  | nil => rfl
  | cons h _ ih => rw [List.map_cons, List.map_cons, weight_same h, ih]

/-- Two transactions with the same weights on the same day imply the same rate, if any. -/
theorem implies_same {t t' : Txn Posting} {o o' : Option Price} (h : ImpliesRate t o) (h' : ImpliesRate t' o')
    (hd : t'.date = t.date) (hw : weightOf .real t'.postings = weightOf .real t.postings) :
    (o = none ∧ o' = none) ∨ ∃ p q, o = some p ∧ o' = some q ∧ SameRate p q := by
  unfold ImpliesRate at h h'
  rw [hd, hw] at h'
  generalize weightOf .real t.postings = f at h h'
  cases o with
  | none =>
    cases o' with
    | none => exact .inl ⟨rfl, rfl⟩
    | some q =>
      obtain ⟨_, q1, q2, q3, q4, _⟩ := h'
      exact absurd ⟨_, _, q1, q2, q3, q4⟩ h
  | some p =>
    cases o' with
    | none =>
      obtain ⟨_, p1, p2, p3, p4, _⟩ := h
      exact absurd ⟨_, _, p1, p2, p3, p4⟩ h'
    | some q =>
      obtain ⟨p0, p1, p2, p3, p4, p5⟩ := h
      obtain ⟨q0, q1, q2, q3, q4, q5⟩ := h'
      refine .inr ⟨p, q, rfl, rfl, ?_, ?_⟩
      · rw [p0] at q0; exact Option.some.inj q0
      · rcases p4 _ q2 with e1 | e1
        · rcases p4 _ q3 with e2 | e2
          · exact absurd (e1.trans e2.symm) q1
          · refine .inl ⟨e1.symm, e2.symm, ?_⟩
            rw [e1, e2] at q5
            exact mul_right_cancel₀ (abs_ne_zero.mpr p2) (p5.trans q5.symm)
        · rcases p4 _ q3 with e2 | e2
          · refine .inr ⟨e2.symm, e1.symm, ?_⟩
            rw [e1, e2] at q5
            have hp := abs_ne_zero.mpr p2
            apply mul_right_cancel₀ hp
            rw [one_mul, mul_assoc, mul_comm q.amount, ← mul_assoc, p5, mul_comm, q5]
          · exact absurd (e1.trans e2.symm) q1

/-- Rates that are the same one by one are the same when those that are missing are left out. -/
theorem sameRates {os os' : List (Option Price)}
    (h : List.Forall₂ (fun o o' => (o = none ∧ o' = none) ∨ ∃ p q, o = some p ∧ o' = some q ∧ SameRate p q) os os') :
    List.Forall₂ SameRate (os.filterMap id) (os'.filterMap id) := by
  induction h with
  | nil => exact .nil
  | cons h _ ih =>
    rcases h with ⟨rfl, rfl⟩ | ⟨p, q, rfl, rfl, hs⟩
    · simpa using ih
    · simpa using ⟨hs, ih⟩

/-- Rules without real postings leave the date and the real postings of a transaction. -/
theorem rules_weights {env : Env} {l : Lists} {rules : List (Txn RawPosting × Ast)} {booked applied txns : List (Txn Posting)}
    {skip : Bool} {start : Str → Cur → Rat} (ham : ∀ t ∈ booked, AllAmounts t.postings)
    (hr : ∀ r ∈ rules, ∀ rp ∈ r.1.postings, rp.kind ≠ .real) (h : List.Forall₂ (RulesOn env l rules) booked applied)
    (hb : BookedAs skip start applied txns) :
    List.Forall₂ (fun t t' => t'.date = t.date ∧ weightOf .real t'.postings = weightOf .real t.postings) booked txns := by
  have hall : ∀ t ∈ applied, AllAmounts t.postings := by
    intro t ht
    obtain ⟨t0, ht0, hR⟩ := Forall₂.mem_right h ht
    exact hR.amounts (ham t0 ht0)
  have hf := hb.full hall
  clear hb hall ham
  induction h generalizing txns with
  | nil => cases hf; exact .nil
  | @cons t t1 ts ts1 h1 _ ih =>
    cases hf with
    | cons h2 h3 =>
      refine .cons ?_ (ih h3)
      obtain ⟨e1, e2⟩ := h2
      refine ⟨?_, ?_⟩
      · obtain ⟨own, extra, h4, _⟩ := h1.parts
        rw [e1, h4]
      · rw [← weightOf_same (h1.reals hr)]
        refine weightOf_same ?_
        have := SameEntry.filter e2
        rw [List.filter_append, List.filter_filter, List.filter_filter] at this
        rw [show t1.postings.filter (fun x => decide (x.kind = .real) && decide (x.kind ≠ .real)) = [] from by
          rw [List.filter_eq_nil_iff]; intro q _; simp] at this
        simpa using this

end Dinero
