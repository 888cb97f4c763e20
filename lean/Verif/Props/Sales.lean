import Verif.Lemmas.Sales
import Verif.Props.Ruled
/-
Property theorems about sales in brackets (C117), which complete those on `check`.
-/
namespace Dinero

/-! ### C117: what check says, with sales in brackets -/

/-- A transaction with all amounts written and all accounts known is accepted exactly when (checks are off or the asserted
totals hold and) its real postings may balance, and those in brackets with purchases for sales. -/
theorem C117_accept {s : Shuf} {skip : Bool} {bals : Balances} {t : Txn Posting}
    (hb : bals.Ok) (hp : ∀ p ∈ t.postings, p.CostOk)
    (hfull : ∀ p ∈ t.postings, p.kind = .real → p.amount.isSome)
    (hknown : ∀ p ∈ t.postings, p.kind = .real → (bals.get? p.account).isSome) :
    (∃ r, Txn.balance s skip bals t = .ok r) ↔
      (skip = true ∨ AssertionsHold (balAmt bals) t.postings) ∧
      MayBalance (weightOf .real t.postings) ∧ MayBalance (weightOf .virtBal t.bought.postings) := by
  have h := C11_accept_iff_partial (s := s) (skip := skip) (bals := bals) (t := t.bought) hb
    (by
      intro p h
      obtain ⟨q, hq, rfl⟩ := List.mem_map.mp h
      exact bought_costOk (hp q hq))
    (amounts_bought hfull)
    (by
      intro p h hk
      obtain ⟨q, hq, rfl⟩ := List.mem_map.mp h
      rw [bought_kind] at hk
      rw [bought_account]
      exact hknown q hq hk)
    (bought_noSales _)
  rw [← assertions_bought, ← mayBalance_congr (fun c => weightOf_real_bought t.postings c)]
  refine Iff.trans ?_ h
  have e := balance_bought (s := s) (skip := skip) (bals := bals) (t := t)
  cases h1 : Txn.balance s skip bals t.bought with
  | error e1 =>
    cases h2 : Txn.balance s skip bals t with
    | error e2 => simp
    | ok y => rw [h1, h2] at e; cases e
  | ok x =>
    cases h2 : Txn.balance s skip bals t with
    | error e2 => rw [h1, h2] at e; cases e
    | ok y => simp

/-- `check` finds a journal without automated transactions in order exactly when its transactions, with purchases for
sales in brackets, can be booked by date; the other commands get their ledger exactly then, with `--no-balance-check`
when they can be booked ignoring totals. -/
theorem C117_check {r : Run} {path : Str} {pl : ParsedLedger} (h : r.journal path = .ok pl)
    (ha : pl.automated = []) (hz : pl.NoFreeTotals) :
    ∃ ts, pl.StandsFor r.env ts ∧
      (checkCommand r path = .ok .ok ↔ ∃ final, BooksAll false (fun _ _ => 0) (ts.map Txn.bought) final) ∧
      ∀ skip, (∃ L, r.ledger skip path = .ok L) ↔ ∃ final, BooksAll skip (fun _ _ => 0) (ts.map Txn.bought) final := by
  have hok := (C83_wellformed h).1
  obtain ⟨l, listed, ts, h1, h2, h3, h4, h5⟩ := toLedger_plain (o := r.orders) hok ha hz
  have key : ∀ skip, (∃ L, toLedger r.env r.orders skip pl = .ok L) ↔
      ∃ final, BooksAll skip (fun _ _ => 0) (ts.map Txn.bought) final := by
    intro skip
    rw [(h5 skip).2, balancePass_iff ts (initialBalances_ok _) (fun t ht => (h4 t ht).1)
      (fun t ht p hpm => ((h4 t ht).2 p hpm).1)]
    exact balanceAll_iff_books (fun t ht => (h4 t ht).2)
  refine ⟨ts, ⟨l, listed, populate_names hok.lists h1, h2, h3⟩, ?_, ?_⟩
  · rw [← key false]
    unfold checkCommand
    rw [h]
    simp only
    cases hl : toLedger r.env r.orders false pl with
    | ok L => simp
    | error e => cases e <;> simp
  · intro skip
    rw [← key skip]
    unfold Run.ledger
    rw [h]
    simp only
    cases hl : toLedger r.env r.orders skip pl with
    | ok L => simp [PRes.lift]
    | error e => simp [PRes.lift]

/-- When all amounts of real postings are written. -/
theorem C117_full {r : Run} {path : Str} {pl : ParsedLedger} (h : r.journal path = .ok pl)
    (ha : pl.automated = []) (hz : pl.NoFreeTotals)
    (hf : ∀ t ∈ pl.regular, ∀ p ∈ t.postings, p.kind = .real → p.moneyAmount.isSome) :
    ∃ ts, pl.StandsFor r.env ts ∧ (checkCommand r path = .ok .ok ↔
      (∀ t ∈ ts, MayBalance (weightOf .real t.postings) ∧ MayBalance (weightOf .virtBal t.bought.postings)) ∧
        AssertionsHold (fun _ _ => 0) (ts.flatMap (fun t => t.postings))) := by
  obtain ⟨ts, hs, hc, _⟩ := C117_check h ha hz
  exact ⟨ts, hs, hc.trans (booksAll_bought (standsFor_full (C83_wellformed h).1 hs hf))⟩

/-- The last step of `check`, for a journal with automated transactions. -/
theorem check_sales {r : Run} {path : Str} {pl : ParsedLedger} {names : Lists} {applied : List (Txn Posting)}
    (h : r.journal path = .ok pl)
    (g3 : ∀ t ∈ applied, AllAmounts t.postings ∧ (pl.NoBracketedSales → NoNegPerUnit .virtBal t.postings) ∧
      ∀ q ∈ t.postings, q.CostOk ∧ ((initialBalances names.accounts).get? q.account).isSome)
    (g4 : (¬ (∃ x, balanceAll false r.orders.fill2 (initialBalances names.accounts) applied = .ok x) ∧
        ∃ e, toLedger r.env r.orders false pl = .error (.error e)) ∨
      ∃ L bals rs, balanceAll false r.orders.fill2 (initialBalances names.accounts) applied = .ok (bals, rs) ∧
        toLedger r.env r.orders false pl = .ok L ∧ L.transactions = rs.map Prod.fst) :
    checkCommand r path = .ok .ok ↔
      (∀ t ∈ applied, MayBalance (weightOf .real t.postings) ∧ MayBalance (weightOf .virtBal t.bought.postings)) ∧
        AssertionsHold (fun _ _ => 0) (applied.flatMap (fun t => t.postings)) := by
  rw [← booksAll_bought (fun t ht => (g3 t ht).1), ← balanceAll_iff_books (σ := r.orders.fill2) (fun t ht => (g3 t ht).2.2)]
  unfold checkCommand
  rw [h]
  rcases g4 with ⟨hno, e, he⟩ | ⟨L, bals, rs, hb, hL, _⟩
  · simp only [he]
    exact ⟨fun hc => (by cases hc), fun hc => absurd hc hno⟩
  · simp only [hL]
    exact ⟨fun _ => ⟨_, hb⟩, fun _ => trivial⟩

/-- `check` of a journal with rules on accounts (C104). -/
theorem C117_accounts {r : Run} {path : Str} {pl : ParsedLedger} {rules : List AccountRule} (ha : r.env.AsciiSep)
    (hws : r.env.ws ' ' = true) (h : r.journal path = .ok pl) (hne : pl.automated ≠ []) (hz : pl.NoFreeTotals)
    (hr : pl.AccountRules r.env rules) (hf : pl.RulesFit) :
    ∃ l ts, pl.StandsWith r.env l ts ∧
      (((¬ ∃ final, BooksAll false (fun _ _ => 0) (ts.map Txn.bought) final) ∧ ∃ e, checkCommand r path = .ok (.ko e)) ∨
        ∃ booked applied, (∃ final, BooksAll false (fun _ _ => 0) (ts.map Txn.bought) final) ∧
          BookedAs false (fun _ _ => 0) ts booked ∧ List.Forall₂ (AppliedTo r.env l rules) booked applied ∧
          (checkCommand r path = .ok .ok ↔
            (∀ t ∈ applied, MayBalance (weightOf .real t.postings) ∧ MayBalance (weightOf .virtBal t.bought.postings)) ∧
              AssertionsHold (fun _ _ => 0) (applied.flatMap (fun t => t.postings)))) := by
  obtain ⟨l, listed, ts, h1, h2, h3, h4, h5⟩ := toLedger_account ha hws h hne hz hr hf
  refine ⟨l, ts, ⟨h1, listed, h2, h3⟩, ?_⟩
  have hbk := balanceAll_iff_books (skip := false) (σ := r.orders.fill) h4
  rcases h5 false with ⟨hno, e, he⟩ | ⟨booked, names, applied, hx, g1, _, g2, _, g3, g4⟩
  · refine .inl ⟨fun hb => hno (hbk.mpr hb), e, ?_⟩
    unfold checkCommand
    rw [h]
    simp only [he]
  · exact .inr ⟨booked, applied, hbk.mp hx, g1, g2, check_sales h g3 g4⟩

/-- `check` of a journal whose rules make sense (C109), and what the rules add if they are clear (C116). -/
theorem C117_rules {r : Run} {path : Str} {pl : ParsedLedger} {rules : List (Txn RawPosting × Ast)} {only : Option Cur}
    (h : r.journal path = .ok pl) (hne : pl.automated ≠ []) (hz : pl.NoFreeTotals)
    (hn : RuleNodes r.env pl.automated rules) (ht : ∀ x ∈ rules, TypedRule r.env only x)
    (ho : ∀ d, only = some d → pl.OnlyIn r.env d) (hf : pl.Serves rules) :
    ∃ l ts, pl.StandsWith r.env l ts ∧
      (((¬ ∃ final, BooksAll false (fun _ _ => 0) (ts.map Txn.bought) final) ∧ ∃ e, checkCommand r path = .ok (.ko e)) ∨
        ∃ booked names applied, (∃ final, BooksAll false (fun _ _ => 0) (ts.map Txn.bought) final) ∧
          BookedAs false (fun _ _ => 0) ts booked ∧ l.Grow r.env.lower names ∧
          List.Forall₂ (RulesOn r.env names rules) booked applied ∧
          ((∀ x ∈ rules, ClearRule r.env only x) → List.Forall₂ (Ruled r.env only names rules) booked applied) ∧
          (checkCommand r path = .ok .ok ↔
            (∀ t ∈ applied, MayBalance (weightOf .real t.postings) ∧ MayBalance (weightOf .virtBal t.bought.postings)) ∧
              AssertionsHold (fun _ _ => 0) (applied.flatMap (fun t => t.postings)))) := by
  obtain ⟨l, listed, ts, h1, h2, h3, h4, _, h5⟩ := toLedger_rules h hne hz (ruleNodes_of hn)
    (fun _ _ _ _ hb => (booked_typed h hn ht ho hf id hf.amounts hb).imp (fun _ hx => hx.1))
  refine ⟨l, ts, ⟨h1, listed, h2, h3⟩, ?_⟩
  have hbk := balanceAll_iff_books (skip := false) (σ := r.orders.fill) h4
  rcases h5 false with ⟨hno, e, he⟩ | ⟨booked, names, applied, hx, g1, g7, g2, g5, g3, g4⟩
  · refine .inl ⟨fun hb => hno (hbk.mpr hb), e, ?_⟩
    unfold checkCommand
    rw [h]
    simp only [he]
  · exact .inr ⟨booked, names, applied, hbk.mp hx, g1.entered, g5, g2,
      fun hc => booked_ruled h hn ht hc ho hf g1 g7, check_sales h g3 g4⟩

/-- Without sales in brackets a transaction is as it is. -/
theorem C117_no_sales {t : Txn Posting} (hn : ∀ p ∈ t.postings, p.kind = .virtBal → ∀ u m, p.cost = some (.perUnit u) →
    p.amount = some m → 0 ≤ m.amount) : t.bought = t := by
  have : t.postings.map Posting.bought = t.postings := by
    conv_rhs => rw [← List.map_id t.postings]
    refine List.map_congr_left fun p hp => ?_
    rcases bought_cases p with e | ⟨hk, u, q, c, h1, h2, e⟩
    · exact e
    · have : 0 ≤ q := hn p hp hk u _ h1 h2
      rw [e, abs_of_nonneg this, ← h2]
      rfl
  unfold Txn.bought
  rw [this]

/-- A journal with a sale in brackets meets the conditions of `C117_check` and `C117_full`. -/
example : ((exRuleRun "2020-01-05 Bar\n Food  10 EUR\n Cash  -10 EUR\n [Stock]  -5 ACME @ 2 EUR\n [Cash]  -10 EUR\n").journal
      "main".toList).toOption.map (fun pl => decide (pl.automated.length = 0 ∧ pl.regular.length = 1 ∧
        (∀ t ∈ pl.regular, ∀ p ∈ t.postings, p.costType = some .total → p.moneyAmount ≠ some 0) ∧
        (∃ t ∈ pl.regular, ∃ p ∈ t.postings, p.kind = .virtBal ∧ p.costType = some .perUnit ∧ p.moneyAmount = some (-5)) ∧
        ∀ t ∈ pl.regular, ∀ p ∈ t.postings, p.kind = .real → p.moneyAmount.isSome)) = some true := by decide +kernel

/-- A sale in brackets that balances as a purchase, and one that is rejected though it balances. -/
example : checkCommand (exRuleRun "2020-01-05 Bar\n Food  10 EUR\n Cash\n [Stock]  -5 ACME @ 2 EUR\n [Cash]  -10 EUR\n")
      "main".toList = .ok .ok ∧
    checkCommand (exRuleRun "2020-01-05 Bar\n Food  10 EUR\n Cash\n [Stock]  -5 ACME @ 2 EUR\n [Cash]  10 EUR\n")
      "main".toList = .ok (.ko .notBalanced) ∧
    checkCommand (exRuleRun ("2020-01-05 Bar\n Food  10 EUR\n Cash\n [Stock]  -5 ACME @ 2 EUR\n [Cash]  -10 EUR\n" ++
      "= Food\n [Stock]  1\n")) "main".toList = .ok (.ko .notBalanced) := by decide +kernel

end Dinero
