import Verif.Lemmas.Rulework
import Verif.Props.Rules
/-
Property theorems about journals whose automated transactions are rules on accounts (C102-C105).
-/
namespace Dinero

/-! ### C102: rules on accounts never stop the program -/

/-- A journal whose automated transactions select postings by account and state an amount or, when the amounts of the
journal allow it, a factor, never makes the program panic.  Missing: conditions and amounts that are expressions. -/
theorem C102_no_panic_partial {r : Run} {path : Str} {pl : ParsedLedger} {rules : List AccountRule} (ha : r.env.AsciiSep)
    (hws : r.env.ws ' ' = true) (h : r.journal path = .ok pl) (hz : pl.NoFreeTotals) (hr : pl.AccountRules r.env rules)
    (hf : pl.RulesFit) :
    (∀ skip, (∃ L, r.ledger skip path = .ok L) ∨ ∃ e, r.ledger skip path = .error (.fail (.error e))) ∧
      ∃ v, checkCommand r path = .ok v := by
  by_cases hne : pl.automated = []
  · exact C83_no_panic h hne hz
  have key : ∀ skip, (∃ L, toLedger r.env r.orders skip pl = .ok L) ∨ ∃ e, toLedger r.env r.orders skip pl = .error (.error e) := by
    intro skip
    obtain ⟨l, listed, ts, _, _, _, _, h5⟩ := toLedger_account ha hws h hne hz hr hf
    rcases h5 skip with ⟨_, he⟩ | ⟨_, _, _, _, _, _, _, _, _, ⟨_, he⟩ | ⟨L, _, _, _, hL, _⟩⟩
    · exact .inr he
    · exact .inr he
    · exact .inl ⟨L, hL⟩
  constructor
  · intro skip
    unfold Run.ledger
    rw [h]
    rcases key skip with ⟨L, hL⟩ | ⟨e, he⟩
    · exact .inl ⟨L, by simp only [hL]; rfl⟩
    · exact .inr ⟨e, by simp only [he]; rfl⟩
  · unfold checkCommand
    rw [h]
    rcases key false with ⟨L, hL⟩ | ⟨e, he⟩
    · exact ⟨.ok, by simp only [hL]⟩
    · exact ⟨.ko e, by simp only [he]⟩

/-- The rule of `exRuleText` is one on accounts, and fits the journal. -/
theorem exRule_fits : ∃ pl rules, (exRuleRun exRuleText).journal "main".toList = .ok pl ∧ pl.automated ≠ [] ∧
    pl.NoFreeTotals ∧ pl.NoBracketedSales ∧ pl.AccountRules (exRuleRun exRuleText).env rules ∧ pl.RulesFit := by
  have key : ((exRuleRun exRuleText).journal "main".toList).toOption.map (fun pl =>
      (pl.automated.map (fun t => t.description),
        decide (∀ t ∈ pl.automated, ∀ p ∈ t.postings, p.moneyCurrency.isSome),
        decide (∀ t ∈ pl.regular, ∀ p ∈ t.postings, p.costType = none ∧
          (p.moneyCurrency.isSome ∨ (p.kind = .real ∧ p.balanceCurrency = none))))) =
      some ([" Food".toList], true, true) := by decide +kernel
  cases hj : (exRuleRun exRuleText).journal "main".toList with
  | error e => rw [hj] at key; cases key
  | ok pl =>
    rw [hj] at key
    simp only [Except.toOption, Option.map_some, Option.some.injEq, Prod.mk.injEq, decide_eq_true_eq] at key
    obtain ⟨k1, k2, k3⟩ := key
    obtain ⟨a, ha, hd⟩ : ∃ a, pl.automated = [a] ∧ a.description = " Food".toList := by
      cases hp : pl.automated with
      | nil => rw [hp] at k1; cases k1
      | cons a as =>
        rw [hp] at k1
        simp only [List.map_cons, List.cons.injEq, List.map_eq_nil_iff] at k1
        exact ⟨a, by rw [k1.2], k1.1⟩
    refine ⟨pl, [(a, ["Food".toList])], rfl, by rw [ha]; simp, ?_, ?_, ?_, k2, fun _ t ht p hp => (k3 t ht p hp).2⟩
    · intro t ht p hp h; rw [(k3 t ht p hp).1] at h; cases h
    · intro t ht p hp _ h; rw [(k3 t ht p hp).1] at h; cases h
    · unfold ParsedLedger.AccountRules
      rw [ha]
      refine .cons ⟨rfl, ⟨[[], "Food".toList], ?_, by show ["Food".toList] = _; decide⟩, by simp, ?_⟩ .nil
      · rw [hd]
        refine ⟨by simp, by decide, ?_, by decide⟩
        intro w hw x y hxy
        have hm : ' ' ∈ w := by rw [hxy]; simp
        simp only [List.mem_cons, List.not_mem_nil, or_false] at hw
        rcases hw with rfl | rfl
        · cases hm
        · exact absurd hm (by decide)
      · intro p hp
        obtain rfl := List.mem_singleton.mp hp
        exact ⟨by decide, by decide +kernel, by decide, by decide, by decide, rfl⟩

/-- Without these restrictions the program does panic: on a virtual posting without amount, and on an assigned total
that needs nothing, that a factor is for; on a rule without amount; and on conditions that are not true or false. -/
theorem C102_false :
    (checkCommand (exRuleRun "2020-01-05 Bar\n Food  10 EUR\n Cash\n (X)\n= X\n (Budget)  -1\n") "main".toList).toOption = none ∧
    (checkCommand (exRuleRun "2020-01-01 x\n A  5 EUR\n A  = 5 EUR\n B  -5 EUR\n= A\n (X)  2\n") "main".toList).toOption = none ∧
    (checkCommand (exRuleRun "2020-01-05 Bar\n Food  10 EUR\n Cash\n= Food\n (Budget)\n") "main".toList).toOption = none ∧
    (checkCommand (exRuleRun "2020-01-05 Bar\n Food  10 EUR\n Cash\n= expr abs(account)\n (Budget)  2\n") "main".toList).toOption =
      none := by decide +kernel

/-! ### C103: what the rules add to the reports -/

/-- The register of a journal whose automated transactions are rules on accounts lists the wanted entries of its
transactions, as booked, with what the rules add. -/
theorem C103_register {r : Run} {s : Nat → Shuf} {opts : ReportOpts} {skip : Bool} {path : Str} {pl : ParsedLedger}
    {rules : List AccountRule} {lines : List RegLine} (ha : r.env.AsciiSep) (hws : r.env.ws ' ' = true)
    (hq : PlainQuery r.env opts.query) (h : r.journal path = .ok pl) (hne : pl.automated ≠ [])
    (hrules : pl.AccountRules r.env rules)
    (hst : ∀ a ∈ pl.automated, ∀ rp ∈ a.postings, rp.moneyCurrency.isSome)
    (hr : registerCommand r s opts skip path = .ok lines) :
    ∃ l ts booked applied, pl.StandsWith r.env l ts ∧ BookedAs skip (fun _ _ => 0) ts booked ∧
      List.Forall₂ (AppliedTo r.env l rules) booked applied ∧
      lines.map (fun l => (l.account, l.kind, some l.amount)) =
        (wanted r.env opts (applied.map Txn.realFirst)).map Posting.entry := by
  unfold registerCommand at hr
  cases hl : r.ledger skip path with
  | error e => rw [hl] at hr; cases hr
  | ok L =>
    rw [hl] at hr
    simp only at hr
    cases hrep : registerReport r.env s opts L with
    | error e => rw [hrep] at hr; cases hr
    | ok ls =>
      rw [hrep] at hr; cases hr
      obtain ⟨sel, g1, g2, _⟩ := C55_register hrep
      obtain ⟨l, ts, booked, applied, h1, h2, h3, h4, h5⟩ := ledger_ruled ha hws h hne hrules hst hl
      refine ⟨l, ts, booked, applied, h1, h2, h3, ?_⟩
      have hall : ∀ t ∈ applied, AllAmounts t.postings := by
        intro t ht
        obtain ⟨t0, ht0, hA⟩ := Forall₂.mem_right h3 ht
        exact hA.amounts (h5 t0 ht0)
      rw [← sameEntry_entries (wanted_realFirst (h4.full hall)), ← selected_wanted ha hq g1, List.map_map]
      exact g2

/-- Only the postings the rule is for bring something; virtual ones come last. -/
example : (registerCommand (exRuleRun
      "2020-01-05 Bar\n Food  10 EUR\n Cash\n= Food\n (Budget)  -1\n Tax  1 EUR\n Food  -1 EUR\n") (fun _ => .id) {} false "main".toList).toOption.map
        (fun ls => ls.map (fun l : RegLine => (l.account, l.amount))) = some
      [("Food".toList, .mk 10 "EUR".toList), ("Cash".toList, .mk (-10) "EUR".toList), ("Tax".toList, .mk 1 "EUR".toList),
       ("Food".toList, .mk (-1) "EUR".toList), ("Budget".toList, .mk (-10) "EUR".toList)] := by decide +kernel

/-! ### C104: what check says of rules on accounts -/

/-- `check` of a journal whose automated transactions are rules on accounts: when its regular transactions cannot be
booked it is not in order; otherwise it is exactly when each of them, with what the rules add, balances, the bracketed
postings as well, and every asserted total is what the account then has. -/
theorem C104_check_partial {r : Run} {path : Str} {pl : ParsedLedger} {rules : List AccountRule} (ha : r.env.AsciiSep)
    (hws : r.env.ws ' ' = true) (h : r.journal path = .ok pl) (hne : pl.automated ≠ []) (hz : pl.NoFreeTotals)
    (hn : pl.NoBracketedSales) (hr : pl.AccountRules r.env rules) (hf : pl.RulesFit) :
    ∃ l ts, pl.StandsWith r.env l ts ∧
      (((¬ ∃ final, BooksAll false (fun _ _ => 0) ts final) ∧ ∃ e, checkCommand r path = .ok (.ko e)) ∨
        ∃ booked applied, (∃ final, BooksAll false (fun _ _ => 0) ts final) ∧
          BookedAs false (fun _ _ => 0) ts booked ∧ List.Forall₂ (AppliedTo r.env l rules) booked applied ∧
          (checkCommand r path = .ok .ok ↔
            (∀ t ∈ applied, MayBalance (weightOf .real t.postings) ∧ MayBalance (weightOf .virtBal t.postings)) ∧
              AssertionsHold (fun _ _ => 0) (applied.flatMap (fun t => t.postings)))) := by
  obtain ⟨l, listed, ts, h1, h2, h3, h4, h5⟩ := toLedger_account ha hws h hne hz hr hf
  refine ⟨l, ts, ⟨h1, listed, h2, h3⟩, ?_⟩
  have hns := noSales h2 h3 hn
  have hbk : (∃ x, balanceAll false r.orders.fill (initialBalances l.accounts) ts = .ok x) ↔
      ∃ final, BooksAll false (fun _ _ => 0) ts final := by
    constructor
    · rintro ⟨⟨b, rs⟩, hx⟩
      have := books_of_balanceAll ts (initialBalances_ok _) h4 hns hx
      rw [initialBalances_amt] at this
      exact ⟨_, this⟩
    · rintro ⟨final, hx⟩
      exact balanceAll_of_books hx (initialBalances_amt _) (initialBalances_ok _) h4 hns
  rcases h5 false with ⟨hno, e, he⟩ | ⟨booked, names, applied, hx, g1, _, g2, _, g3, g4⟩
  · refine .inl ⟨fun hb => hno (hbk.mpr hb), e, ?_⟩
    unfold checkCommand
    rw [h]
    simp only [he]
  · refine .inr ⟨booked, applied, hbk.mp hx, g1, g2, ?_⟩
    have hfull := fun final => booksAll_full (skip := false) (start := fun _ _ => 0) (final := final) applied
      (fun t ht => (g3 t ht).1)
    have hok : (∃ x, balanceAll false r.orders.fill2 (initialBalances names.accounts) applied = .ok x) ↔
        (∀ t ∈ applied, MayBalance (weightOf .real t.postings) ∧ MayBalance (weightOf .virtBal t.postings)) ∧
          AssertionsHold (fun _ _ => 0) (applied.flatMap (fun t => t.postings)) := by
      constructor
      · rintro ⟨⟨b, rs⟩, hx⟩
        have := books_of_balanceAll applied (initialBalances_ok _) (fun t ht => (g3 t ht).2.2) (fun t ht => (g3 t ht).2.1 hn) hx
        rw [initialBalances_amt] at this
        obtain ⟨f1, f2, _⟩ := (hfull _).mp this
        exact ⟨f1, f2.resolve_left (by simp)⟩
      · rintro ⟨f1, f2⟩
        exact balanceAll_of_books ((hfull _).mpr ⟨f1, .inr f2, fun _ _ => rfl⟩) (initialBalances_amt _) (initialBalances_ok _)
          (fun t ht => (g3 t ht).2.2) (fun t ht => (g3 t ht).2.1 hn)
    rw [← hok]
    unfold checkCommand
    rw [h]
    rcases g4 with ⟨hno, e, he⟩ | ⟨L, bals, rs, hb, hL, _⟩
    · simp only [he]
      exact ⟨fun hc => (by cases hc), fun hc => absurd hc hno⟩
    · simp only [hL]
      exact ⟨fun _ => ⟨_, hb⟩, fun _ => trivial⟩

/-- A rule that spoils the balance, one that restores it, and one that changes an asserted total. -/
example : checkCommand (exRuleRun "2020-01-05 Bar\n Food  10 EUR\n Cash\n= Food\n Tax  0.1\n") "main".toList =
      .ok (.ko .notBalanced) ∧
    checkCommand (exRuleRun "2020-01-05 Bar\n Food  10 EUR\n Cash\n= Food\n Tax  0.1\n Food  -0.1\n") "main".toList =
      .ok .ok ∧
    checkCommand (exRuleRun ("2020-01-05 Bar\n Food  10 EUR = 10 EUR\n Cash\n= Cash\n Tax  -0.1\n Food  0.1\n" ++
      "2020-01-06 Bar\n Food  1 EUR = 11 EUR\n Cash\n")) "main".toList = .ok (.ko .notBalanced) := by decide +kernel

/-! ### C105: what the rules bring to an account -/

theorem realFirst_perm (t : Txn Posting) : t.realFirst.postings.Perm t.postings := by
  have := List.filter_append_perm (fun p : Posting => decide (p.kind = .real)) t.postings
  simpa [Txn.realFirst] using this

theorem realFirst_postings (ts : List (Txn Posting)) :
    ((ts.map Txn.realFirst).flatMap (fun t => t.postings)).Perm (ts.flatMap (fun t => t.postings)) := by
  induction ts with
  | nil => exact .refl _
  | cons t ts ih => exact (realFirst_perm t).append ih

theorem wanted_all {env : Env} (txns : List (Txn Posting)) : wanted env {} txns = txns.flatMap (fun t => t.postings) := by
  unfold wanted
  congr 1
  funext t
  apply List.filter_eq_self.mpr
  intro p _
  simp [ReportOpts.wants]

/-- The flat balance of a journal whose automated transactions are rules on accounts: each account has the sum of its
entries and what the rules bring to it, for a factor the product with what the accounts of the rule have together. -/
theorem C105_balance {r : Run} {o : BalOrders} {today : Date} {skip showTotal : Bool} {path : Str} {pl : ParsedLedger}
    {rules : List AccountRule} {rep : BalReport} (ha : r.env.AsciiSep) (hws : r.env.ws ' ' = true)
    (h : r.journal path = .ok pl) (hne : pl.automated ≠ []) (hrules : pl.AccountRules r.env rules)
    (hst : ∀ a ∈ pl.automated, ∀ rp ∈ a.postings, rp.moneyCurrency.isSome)
    (hr : balanceCommand r o today {} skip true showTotal path = .ok rep) :
    ∃ l ts booked, pl.StandsWith r.env l ts ∧ BookedAs skip (fun _ _ => 0) ts booked ∧
      ∀ has : Str → Cur → Rat, (∀ a c, has a c =
          sumIn (((booked.flatMap (fun t => t.postings)).filter (fun p => p.account = a)).filterMap Posting.amount) c +
            broughtTo r.env l rules (booked.flatMap (fun t => t.postings)) a c) →
        (∀ line ∈ rep.lines, Shows line.amounts (has line.label)) ∧
        ∀ a, (∃ line ∈ rep.lines, line.label = a) ↔ ∃ c, has a c ≠ 0 := by
  unfold balanceCommand at hr
  cases hl : r.ledger skip path with
  | error e => rw [hl] at hr; cases hr
  | ok L =>
    rw [hl] at hr
    simp only at hr
    cases hrep : balanceReport r.env o today {} true showTotal L with
    | error e => rw [hrep] at hr; cases hr
    | ok rep' =>
      rw [hrep] at hr; cases hr
      obtain ⟨sel, g1, g2, g3, g4⟩ := C51_flat rfl rfl hrep
      obtain ⟨l, ts, booked, applied, h1, h2, h3, h4, h5⟩ := ledger_ruled ha hws h hne hrules hst hl
      refine ⟨l, ts, booked, h1, h2, fun has hhas => ?_⟩
      have hall : ∀ t ∈ applied, AllAmounts t.postings := by
        intro t ht
        obtain ⟨t0, ht0, hA⟩ := Forall₂.mem_right h3 ht
        exact hA.amounts (h5 t0 ht0)
      have key : ∀ a c, selSum sel (fun x => decide (x = a)) c = has a c := by
        intro a c
        rw [selSum_wanted ha (by simp [PlainQuery]) g1 (fun x => decide (x = a)) c,
          sameEntry_sum (wanted_realFirst (h4.full hall)) (fun x => decide (x = a)) c, wanted_all, hhas, ← applied_brings h3]
        exact sumIn_perm (((realFirst_postings applied).filter _).filterMap _) c
      have key' : ∀ a, selSum sel (fun x => decide (x = a)) = has a := fun a => funext (key a)
      refine ⟨fun line hline => ?_, fun a => ?_⟩
      · rw [← key']; exact (g3 line hline).2
      · rw [g4]; simp only [key]

/-- A factor mirrors the sum, an amount counts the postings. -/
example : (balanceCommand (exRuleRun ("2020-01-05 Bar\n Food  10 EUR\n Cash\n= Food\n (Budget)  -1\n (Visits)  1 X\n" ++
      "2020-01-06 Baz\n Food  4 EUR\n Cash\n")) exOrders 0 {} false true true "main".toList).toOption.map
        (fun r => r.lines.map (fun l : BalLine => (l.label, l.amounts))) = some
      [("Budget".toList, [.mk (-14) "EUR".toList]), ("Cash".toList, [.mk (-14) "EUR".toList]),
       ("Food".toList, [.mk 14 "EUR".toList]), ("Visits".toList, [.mk 2 "X".toList])] := by decide +kernel

end Dinero
