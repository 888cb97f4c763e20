import Verif.Spec.App
import Verif.Lemmas.Print
import Verif.Props.Print
import Verif.Props.Text
import Verif.Props.Report
/-
Lemmas for the properties of the whole program.
-/
namespace Dinero

/-- The ledger of a journal without automated transactions, and with amounts on its virtual postings, can be
reported on. -/
theorem ledger_reportable {r : Run} {skip : Bool} {path : Str} {pl : ParsedLedger} {L : Ledger}
    (h : r.journal path = .ok pl) (ha : pl.automated = []) (hl : r.ledger skip path = .ok L)
    (hv : ∀ t ∈ pl.regular, ∀ p ∈ t.postings, p.kind ≠ .real → p.moneyAmount.isSome) :
    (∀ t ∈ L.transactions, ∀ p ∈ t.postings, p.amount.isSome) ∧ (∀ t ∈ L.transactions, t.date.isSome) ∧
      L.payees.Reachable r.env.lower := by
  unfold Run.ledger at hl
  rw [h] at hl
  simp only at hl
  cases ht : toLedger r.env r.orders skip pl with
  | error e => rw [ht] at hl; cases hl
  | ok L' =>
    rw [ht] at hl; cases hl
    have hok := (C83_wellformed h).1
    obtain ⟨l, listed, ts, bals, rs, h1, h2, h3, h4, h5, h6, h7, h8, h9⟩ := toLedger_booked hok ha ht
    have hall := balanceAll_each ts (initialBalances_ok _) (fun t ht p hp => (h4 t ht p hp).1) h5
    rw [← h6] at hall
    have hraw : ∀ t ∈ ts, t.date.isSome ∧ ∀ q ∈ t.postings, q.kind ≠ .real → q.amount.isSome := by
      intro t ht
      obtain ⟨raw, hraw, hh, _, hw⟩ := Forall₂.mem_right h3 ht
      have hraw := h2.perm.mem_iff.mp hraw
      constructor
      · have := congrArg Prod.fst hh
        simp only [Txn.header] at this
        rw [this]; exact hok.dated raw hraw
      · intro q hq hk
        obtain ⟨p, hp, w⟩ := Forall₂.mem_right hw hq
        have hs := hv raw hraw p hp (by rw [← w.kind]; exact hk)
        rcases w.amount with ⟨h1, _⟩ | ⟨_, _, _, _, _, _, h2⟩
        · rw [← (hok.postings raw hraw p hp).money, h1] at hs; cases hs
        · rw [h2]; rfl
    refine ⟨fun t' ht' => ?_, fun t' ht' => ?_, by rw [h8]; exact h1.payees.reachable⟩
    · obtain ⟨t, ht, s, b, b', ret, hb, hbok⟩ := Forall₂.mem_right hall ht'
      exact C58_amounts hb hbok (fun p hp => (h4 t ht p hp).1) (hraw t ht).2
    · obtain ⟨t, ht, s, b, b', ret, hb, hbok⟩ := Forall₂.mem_right hall ht'
      have := congrArg Txn.date (balance_header hb)
      simp only at this
      rw [this]; exact (hraw t ht).1

/-- What is printed for an account is never nothing, and in the tree it is indented. -/
theorem printLoop_shape {flat : Bool} {depth : Option Nat} {s : Str → Shuf} : ∀ (k : Nat) (rows : List (Str × Balance)),
    ∀ l ∈ printLoop flat depth s k rows, l.amounts ≠ [] ∧ (flat ∨ 1 ≤ l.indent) := by
  intro k
  induction k with
  | zero => intro rows l hl; cases hl
  | succ k ih =>
    intro rows l hl
    cases rows with
    | nil => cases hl
    | cons row rest =>
      obtain ⟨account, bal⟩ := row
      unfold printLoop at hl
      simp only at hl
      split at hl
      · exact ih _ _ hl
      · split at hl
        · exact ih _ _ hl
        · next hz =>
          have hne : ((s account).run bal).map Prod.snd ≠ [] := by
            intro e
            have : bal = [] := by
              have := List.map_eq_nil_iff.mp e
              have hp := (s account).perm bal
              rw [this] at hp
              exact hp.symm.eq_nil
            subst this
            exact hz (by decide)
          split at hl
          · next hf =>
            rcases List.mem_cons.mp hl with rfl | hl
            · exact ⟨hne, .inl hf⟩
            · exact ih _ _ hl
          · rcases List.mem_cons.mp hl with rfl | hl
            · refine ⟨hne, .inr ?_⟩
              exact List.length_pos_iff.mpr (splitColon_ne_nil _)
            · exact ih _ _ hl

/-- The lines of a report. -/
theorem balanceReport_shape {env : Env} {o : BalOrders} {today : Date} {opts : ReportOpts} {flat showTotal : Bool}
    {l : Ledger} {rep : BalReport} (h : balanceReport env o today opts flat showTotal l = .ok rep) :
    ∀ line ∈ rep.lines, line.amounts ≠ [] ∧ (flat ∨ 1 ≤ line.indent) := by
  have hfin : ∀ {bals table rows}, finishBalance o flat showTotal opts.depth bals table rows = .ok rep →
      ∀ line ∈ rep.lines, line.amounts ≠ [] ∧ (flat ∨ 1 ≤ line.indent) := by
    intro bals table rows hf
    unfold finishBalance at hf
    simp only at hf
    split at hf
    · split at hf
      · cases hf
      · cases hf; exact printLoop_shape _ _
    · cases hf; exact printLoop_shape _ _
  unfold balanceReport at h
  repeat' split at h
  all_goals first
    | cases h
    | exact hfin h

/-- A journal of plain transactions that sum to zero has a ledger, and it can be reported on. -/
theorem plain_ledger {r : Run} (ha : r.env.AsciiChars) (hs : r.env.AsciiSep) {path cur : Str} {ls : List Str}
    {bs : List Block} (hj : HoldsJournal r path ls bs) (hone : Plain cur bs) (hsum : ∀ t, .txn t ∈ bs → SumsUp t) :
    ∃ L, r.ledger false path = .ok L ∧ (∀ t ∈ L.transactions, ∀ p ∈ t.postings, p.amount.isSome) ∧
      (∀ t ∈ L.transactions, t.date.isSome) ∧ L.payees.Reachable r.env.lower := by
  have hc := (C90_check ha hs hj hone).mpr hsum
  have hj' := hj.journal ha hs
  obtain ⟨hreg, hauto⟩ := hj.regular (fun t ht => (hone t ht).1)
  obtain ⟨L, hL⟩ : ∃ L, r.ledger false path = .ok L := by
    unfold checkCommand at hc
    unfold Run.ledger
    rw [hj'] at hc ⊢
    simp only at hc ⊢
    cases hy : toLedger r.env r.orders false _ with
    | ok L => exact ⟨L, rfl⟩
    | error f => rw [hy] at hc; cases f <;> cases hc
  exact ⟨L, hL, ledger_reportable hj' hauto hL (by
    intro t ht p hp hk
    rw [hreg] at ht
    exact absurd ((hone t (mem_txns.mp ht)).2 p hp).1 hk)⟩

theorem Shows.mem {ms : List Money} {f : Cur → Rat} (h : Shows ms f) {m : Money} (hm : m ∈ ms) :
    ∃ q c, m = .mk q c ∧ q = f c := by
  have hz := h.nonzero m hm
  cases m with
  | zero => exact absurd rfl hz
  | mk q c =>
    refine ⟨q, c, rfl, ?_⟩
    rw [← h.sum c]
    have := h.once
    clear h hz
    induction ms with
    | nil => cases hm
    | cons x ms ih =>
      rw [List.map_cons, List.nodup_cons] at this
      rw [sumIn_cons]
      rcases List.mem_cons.mp hm with rfl | hm
      · have h0 : sumIn ms c = 0 := by
          refine sumIn_eq_zero fun m hm => ?_
          unfold Money.amountIn
          rw [if_neg]
          intro e
          exact this.1 (List.mem_map.mpr ⟨m, hm, e⟩)
        rw [h0]
        simp [Money.amountIn, Money.commodity, Money.amount]
      · have h0 : x.amountIn c = 0 := by
          unfold Money.amountIn
          rw [if_neg]
          intro e
          exact this.1 (List.mem_map.mpr ⟨_, hm, e.symm⟩)
        rw [h0, ← ih hm this.2, zero_add]

theorem written_account {bs : List Block} {a : Str} {c : Cur}
    (h : sumIn (writtenFor bs (fun x => decide (x = a))) c ≠ 0) :
    ∃ t, .txn t ∈ bs ∧ ∃ p ∈ t.postings, p.account = a := by
  by_contra hn
  push Not at hn
  refine h ?_
  have : writtenFor bs (fun x => decide (x = a)) = [] := by
    unfold writtenFor
    rw [List.filter_eq_nil_iff.mpr]
    · rfl
    · intro p hp
      obtain ⟨t, ht, hp⟩ := List.mem_flatMap.mp hp
      simpa using hn t (mem_txns.mp ht) p hp
  rw [this]; rfl

theorem written_other {bs : List Block} {cur : Str} (hone : Plain cur bs) {c : Cur} (h : c ≠ cur) {P : Str → Bool} :
    sumIn (writtenFor bs P) c = 0 := by
  have : ∀ m ∈ writtenFor bs P, m.amountIn c = 0 := by
    intro m hm
    unfold writtenFor at hm
    obtain ⟨p, hp, e⟩ := List.mem_filterMap.mp hm
    obtain ⟨t, ht, hp⟩ := List.mem_flatMap.mp (List.mem_filter.mp hp).1
    have hc := ((hone t (mem_txns.mp ht)).2 p hp).2.2.2
    unfold RawPosting.entry at e
    simp only at e
    split at e
    · next q c' _ hx =>
      cases e
      rw [hx] at hc
      rcases hc with hc | hc
      · cases hc
      · cases hc; simp [Money.amountIn, Money.commodity, Ne.symm h]
    · cases e
  exact sumIn_eq_zero this

theorem balanceReport_total {env : Env} {o : BalOrders} {today : Date} {opts : ReportOpts} {flat showTotal : Bool}
    {l : Ledger} {rep : BalReport} (h : balanceReport env o today opts flat showTotal l = .ok rep) :
    rep.total.isSome ↔ showTotal = true ∧ 1 < rep.lines.length := by
  have hfin : ∀ {bals table rows}, finishBalance o flat showTotal opts.depth bals table rows = .ok rep →
      (rep.total.isSome ↔ showTotal = true ∧ 1 < rep.lines.length) := by
    intro bals table rows hf
    unfold finishBalance at hf
    simp only at hf
    split at hf
    · next hx =>
      split at hf
      · cases hf
      · cases hf; simpa using hx
    · next hx => cases hf; simpa using hx
  unfold balanceReport at h
  repeat' split at h
  all_goals first
    | cases h
    | exact hfin h

theorem checkText_eq (path : Str) : checkText path true = "Input file ".toList ++ path ++ " is OK\n".toList ∧
    checkText path false = "Input file ".toList ++ path ++ " is KO\n".toList := by
  have h1 : " is OK\n".toList = " is ".toList ++ "OK\n".toList := by decide
  have h2 : " is KO\n".toList = " is ".toList ++ "KO\n".toList := by decide
  unfold checkText
  rw [h1, h2]
  generalize "Input file ".toList = a
  generalize " is ".toList = b
  generalize "OK\n".toList = c
  generalize "KO\n".toList = d
  simp

end Dinero
