import Verif.Lemmas.Rules
import Verif.Props.Query
/-
Property theorems about the commands on journals with automated transactions and with options (C96-C99).
-/
namespace Dinero

/-- A run in which patterns are matched without regard of their flags. -/
def exRuleRun (text : String) : Run := { exRun text with env := { exEnvJ with rx := exEnvI.rx } }

/-- A rule that mirrors what is spent on food. -/
def exRuleText : String :=
  "2020-01-05 Bar\n Food  10 EUR\n Cash\n= Food\n (Budget)  -1\n2020-01-06 Baz\n Food  4 EUR\n Cash  -4 EUR = -14 EUR\n"

/-! ### C96: options and automated transactions, from the file on -/

/-- The register of any journal, with any of `--real`, `--begin`, `--end` and any patterns of accounts, lists exactly the
wanted postings of the transactions the journal stands for, and next to each the sum so far. -/
theorem C96_register {r : Run} {s : Nat → Shuf} {opts : ReportOpts} {skip : Bool} {path : Str} {pl : ParsedLedger}
    {lines : List RegLine} (ha : r.env.AsciiSep) (hq : PlainQuery r.env opts.query) (h : r.journal path = .ok pl)
    (hr : registerCommand r s opts skip path = .ok lines) :
    ∃ txns, pl.Yields r.env skip txns ∧
      lines.map (fun l => (l.account, l.kind, some l.amount)) = (wanted r.env opts txns).map Posting.entry ∧
      ∀ pre line post, lines = pre ++ line :: post →
        ((∀ c, sumIn ((pre ++ [line]).map RegLine.amount) c = 0) → line.running = [.zero]) ∧
        ((∃ c, sumIn ((pre ++ [line]).map RegLine.amount) c ≠ 0) →
          Shows line.running (sumIn ((pre ++ [line]).map RegLine.amount))) := by
  unfold registerCommand at hr
  cases hl : r.ledger skip path with
  | error e => rw [hl] at hr; cases hr
  | ok L =>
    rw [hl] at hr
    simp only at hr
    cases hrep : registerReport r.env s opts L with
    | error e => rw [hrep] at hr; cases hr
    | ok ls =>
      rw [hrep] at hr; cases hr
      obtain ⟨sel, g1, g2, g3⟩ := C55_register hrep
      refine ⟨L.transactions, ledger_yields h hl, ?_, g3⟩
      rw [g2, ← selected_wanted ha hq g1, List.map_map]
      rfl

theorem selSum_wanted {env : Env} (ha : env.AsciiSep) {o : ReportOpts} (hq : PlainQuery env o.query) {L : Ledger}
    {sel : List (Txn Posting × Posting)} (h : Selected env o L sel) (P : Str → Bool) (c : Cur) :
    selSum sel P c = sumIn (((wanted env o L.transactions).filter (fun p => P p.account)).filterMap Posting.amount) c := by
  rw [← selected_wanted ha hq h]
  unfold selSum
  congr 1
  rw [List.filter_map, List.filterMap_map]
  rfl

/-- The flat balance of any journal shows, with the same options, for every account what its wanted postings sum to,
leaves out the accounts where that is nothing, and totals to the sum of all of them. -/
theorem C96_balance {r : Run} {o : BalOrders} {today : Date} {opts : ReportOpts} {skip showTotal : Bool} {path : Str}
    {pl : ParsedLedger} {rep : BalReport} (ha : r.env.AsciiSep) (hq : PlainQuery r.env opts.query)
    (hd : opts.depth = none) (hx : opts.exchange = none) (h : r.journal path = .ok pl)
    (hr : balanceCommand r o today opts skip true showTotal path = .ok rep) :
    ∃ txns, pl.Yields r.env skip txns ∧
      (rep.lines.map BalLine.label).Pairwise (· < ·) ∧
      (∀ line ∈ rep.lines, line.indent = 0 ∧ Shows line.amounts (sumIn
        (((wanted r.env opts txns).filter (fun p => p.account = line.label)).filterMap Posting.amount))) ∧
      (∀ a, (∃ line ∈ rep.lines, line.label = a) ↔ ∃ c, sumIn
        (((wanted r.env opts txns).filter (fun p => p.account = a)).filterMap Posting.amount) c ≠ 0) ∧
      ∀ ms, rep.total = some ms → Shows ms (sumIn ((wanted r.env opts txns).filterMap Posting.amount)) := by
  unfold balanceCommand at hr
  cases hl : r.ledger skip path with
  | error e => rw [hl] at hr; cases hr
  | ok L =>
    rw [hl] at hr
    simp only at hr
    cases hrep : balanceReport r.env o today opts true showTotal L with
    | error e => rw [hrep] at hr; cases hr
    | ok rep' =>
      rw [hrep] at hr; cases hr
      obtain ⟨sel, g1, g2, g3, g4⟩ := C51_flat hd hx hrep
      obtain ⟨sel', g5, g6⟩ := C53_total hx hrep
      obtain rfl := g1.unique g5
      refine ⟨L.transactions, ledger_yields h hl, g2, fun line hline => ⟨(g3 line hline).1, ?_⟩, fun a => ?_,
        fun ms hm => ?_⟩
      · have := funext (selSum_wanted ha hq g1 (fun a => a = line.label))
        rw [← this]; exact (g3 line hline).2
      · rw [g4]
        simp only [selSum_wanted ha hq g1 (fun x => decide (x = a))]
      · have := funext (selSum_wanted ha hq g1 (fun _ => true))
        rw [List.filter_true] at this
        rw [← this]; exact g6 ms hm

/-- The rule generates a posting for each purchase; dates and patterns select. -/
example : (registerCommand (exRuleRun exRuleText) (fun _ => .id) {} false "main".toList).toOption.map
    (fun ls => ls.map (fun l : RegLine => (l.account, l.kind, l.amount))) = some
      [("Food".toList, .real, .mk 10 "EUR".toList), ("Cash".toList, .real, .mk (-10) "EUR".toList),
       ("Budget".toList, .virt, .mk (-10) "EUR".toList),
       ("Food".toList, .real, .mk 4 "EUR".toList), ("Cash".toList, .real, .mk (-4) "EUR".toList),
       ("Budget".toList, .virt, .mk (-4) "EUR".toList)] ∧
    (registerCommand (exRuleRun exRuleText) (fun _ => .id)
      { filter := { fromDate := some (dayNumber 2020 1 6) }, query := ["Food".toList, "Budget".toList] } false
      "main".toList).toOption.map (fun ls => ls.map (fun l : RegLine => (l.account, l.amount))) = some
      [("Food".toList, .mk 4 "EUR".toList), ("Budget".toList, .mk (-4) "EUR".toList)] := by decide +kernel

/-! ### C97: what check accepts of a journal with automated transactions -/

/-- A journal with automated transactions that `check` accepts: its regular transactions can be booked; with what the
rules add, each of them balances, the bracketed postings as well, and every asserted total is what the
account then has. -/
theorem C97_accepted {r : Run} {path : Str} {pl : ParsedLedger} (h : r.journal path = .ok pl)
    (hne : pl.automated ≠ []) (hc : checkCommand r path = .ok .ok) :
    ∃ ts booked rules names applied, pl.StandsFor r.env ts ∧ BookedAs false (fun _ _ => 0) ts booked ∧
      RuleNodes r.env pl.automated rules ∧ List.Forall₂ (RulesOn r.env names rules) booked applied ∧
      (∀ t ∈ applied, MayBalance (weightOf .real t.postings) ∧
        (pl.NoBracketedSales → MayBalance (weightOf .virtBal t.postings))) ∧
      AssertionsHold (fun _ _ => 0) (applied.flatMap (fun t => t.postings)) := by
  have hl : ∃ L, r.ledger false path = .ok L := by
    unfold checkCommand at hc
    rw [h] at hc
    unfold Run.ledger
    rw [h]
    simp only at hc ⊢
    cases ht : toLedger r.env r.orders false pl with
    | ok L => exact ⟨L, rfl⟩
    | error e => rw [ht] at hc; cases e <;> cases hc
  obtain ⟨L, hl⟩ := hl
  obtain ⟨l, listed, ts, booked, rules, applied, h1, h2, h3, _, h4, _, h6, h7, _, h9, h10⟩ := ledger_applied h hne hl
  exact ⟨ts, booked, rules, _, applied, ⟨l, listed, h1, h2, h3⟩, h4, h6, h7, h9, h10.resolve_left (by simp)⟩

/-- An asserted total that is right without the rule, and wrong with it; a rule that does not balance. -/
example : checkCommand (exRuleRun exRuleText) "main".toList = .ok .ok ∧
    checkCommand (exRuleRun ("2020-01-05 Bar\n Food  10 EUR\n Cash\n= Food\n Cash  -1\n Tax  1\n" ++
      "2020-01-06 Baz\n Food  4 EUR\n Cash  -4 EUR = -14 EUR\n")) "main".toList = .ok (.ko .notBalanced) ∧
    checkCommand (exRuleRun "2020-01-05 Bar\n Food  10 EUR\n Cash\n= Food\n Tax  1\n") "main".toList =
      .ok (.ko .notBalanced) := by decide +kernel

/-! ### C98: rules without real postings -/

theorem wanted_real {env : Env} (txns : List (Txn Posting)) :
    wanted env { filter := { real := true } } txns =
      txns.flatMap (fun t => t.postings.filter (fun p => p.kind = .real)) := by
  unfold wanted
  congr 1
  funext t
  apply List.filter_congr
  intro p _
  simp [ReportOpts.wants]

/-- When the postings of the automated transactions are all in parentheses or brackets, `register --real` lists exactly
the real entries of the journal without them. -/
theorem C98_register {r : Run} {s : Nat → Shuf} {skip : Bool} {path : Str} {pl : ParsedLedger} {lines : List RegLine}
    (ha : r.env.AsciiSep) (h : r.journal path = .ok pl)
    (hv : ∀ t ∈ pl.automated, ∀ p ∈ t.postings, p.kind ≠ .real)
    (hr : registerCommand r s { filter := { real := true } } skip path = .ok lines) :
    ∃ ts es, pl.StandsFor r.env ts ∧ EntersAll skip (fun _ _ => 0) ts es ∧
      lines.map (fun l => (l.account, l.kind, some l.amount)) =
        (es.filter (fun p => p.kind = .real)).map Posting.entry := by
  unfold registerCommand at hr
  cases hl : r.ledger skip path with
  | error e => rw [hl] at hr; cases hr
  | ok L =>
    rw [hl] at hr
    simp only at hr
    cases hrep : registerReport r.env s { filter := { real := true } } L with
    | error e => rw [hrep] at hr; cases hr
    | ok ls =>
      rw [hrep] at hr; cases hr
      obtain ⟨sel, g1, g2, g3⟩ := C55_register hrep
      obtain ⟨ts, es, h1, h2, h3⟩ := ledger_reals h hl hv
      refine ⟨ts, es, h1, h2, ?_⟩
      rw [← SameEntry.entry h3, ← wanted_real (env := r.env),
        ← selected_wanted ha (o := { filter := { real := true } }) (by simp [PlainQuery]) g1, g2, List.map_map]
      rfl

/-- Nor does the flat balance of the real postings see them. -/
theorem C98_balance {r : Run} {o : BalOrders} {today : Date} {skip showTotal : Bool} {path : Str}
    {pl : ParsedLedger} {rep : BalReport} (ha : r.env.AsciiSep) (h : r.journal path = .ok pl)
    (hv : ∀ t ∈ pl.automated, ∀ p ∈ t.postings, p.kind ≠ .real)
    (hr : balanceCommand r o today { filter := { real := true } } skip true showTotal path = .ok rep) :
    ∃ ts es, pl.StandsFor r.env ts ∧ EntersAll skip (fun _ _ => 0) ts es ∧
      (∀ line ∈ rep.lines, Shows line.amounts (postedTo es line.label)) ∧
      (∀ a, (∃ line ∈ rep.lines, line.label = a) ↔ ∃ c, postedTo es a c ≠ 0) := by
  unfold balanceCommand at hr
  cases hl : r.ledger skip path with
  | error e => rw [hl] at hr; cases hr
  | ok L =>
    rw [hl] at hr
    simp only at hr
    cases hrep : balanceReport r.env o today { filter := { real := true } } true showTotal L with
    | error e => rw [hrep] at hr; cases hr
    | ok rep' =>
      rw [hrep] at hr; cases hr
      obtain ⟨sel, g1, g2, g3, g4⟩ := C51_flat rfl rfl hrep
      obtain ⟨ts, es, h1, h2, h3⟩ := ledger_reals h hl hv
      have hsum : ∀ a c, selSum sel (fun x => x = a) c = postedTo es a c := by
        intro a c
        rw [selSum_wanted ha (o := { filter := { real := true } }) (by simp [PlainQuery]) g1, wanted_real]
        rw [sumIn_entries (SameEntry.entry h3) (fun x => decide (x = a)) c]
        unfold postedTo
        rw [List.filter_filter]
        congr 2
        apply List.filter_congr
        intro p _
        by_cases hk : p.kind = .real <;> simp [hk]
      refine ⟨ts, es, h1, h2, fun line hline => ?_, fun a => ?_⟩
      · rw [← funext (hsum line.label)]; exact (g3 line hline).2
      · rw [g4]; simp only [hsum]

/-- With and without the rule. -/
example : (registerCommand (exRuleRun exRuleText) (fun _ => .id) { filter := { real := true } } false
      "main".toList).toOption.map (fun ls => ls.map (fun l : RegLine => (l.account, l.amount))) =
    (registerCommand (exRuleRun ("2020-01-05 Bar\n Food  10 EUR\n Cash\n" ++
      "2020-01-06 Baz\n Food  4 EUR\n Cash  -4 EUR = -14 EUR\n")) (fun _ => .id) {} false
      "main".toList).toOption.map (fun ls => ls.map (fun l : RegLine => (l.account, l.amount))) ∧
    ((exRuleRun exRuleText).journal "main".toList).toOption.map (fun pl =>
      pl.automated.map (fun t => t.postings.map RawPosting.kind)) = some [[.virt]] := by decide +kernel

/-! ### C99: rules in one commodity -/

/-- In a journal in one commodity, with real postings only and without costs, the total of the balance report is nothing,
whatever automated transactions with such postings do. -/
theorem C99_total {r : Run} {o : BalOrders} {today : Date} {skip flat showTotal : Bool} {path : Str} {pl : ParsedLedger}
    {rep : BalReport} {cur : Str} {ms : List Money} (h : r.journal path = .ok pl)
    (hone : ∀ t ∈ pl.regular, ∀ p ∈ t.postings, p.kind = .real ∧ p.costCurrency = none ∧
      (p.balanceCurrency = none ∨ p.balanceCurrency = some cur) ∧
      (p.moneyCurrency = none ∨ p.moneyCurrency = some cur))
    (hrules : ∀ t ∈ pl.automated, ∀ p ∈ t.postings, p.kind = .real ∧
      (p.moneyCurrency = some [] ∨ p.moneyCurrency = some cur))
    (hr : balanceCommand r o today {} skip flat showTotal path = .ok rep) (hm : rep.total = some ms) : ms = [] := by
  by_cases ha : pl.automated = []
  · exact C87_total h ha hone hr hm
  unfold balanceCommand at hr
  cases hl : r.ledger skip path with
  | error e => rw [hl] at hr; cases hr
  | ok L =>
    rw [hl] at hr
    simp only at hr
    cases hrep : balanceReport r.env o today {} flat showTotal L with
    | error e => rw [hrep] at hr; cases hr
    | ok rep' =>
      rw [hrep] at hr; cases hr
      obtain ⟨sel, g5, g6⟩ := C53_total rfl hrep
      obtain rfl := selected_all g5
      obtain ⟨l, listed, ts, booked, rules, applied, h1, hd, hw, hgrow, h4, h5, h6, h7, h8, _⟩ := ledger_applied h ha hl
      obtain ⟨n, hn⟩ : ∃ n, ∀ m, Finds r.env.lower L.commodities cur m → m = n := by
        by_cases hx : ∃ n, Finds r.env.lower L.commodities cur n
        · obtain ⟨n, hx⟩ := hx
          exact ⟨n, fun m hm => hm.unique hx⟩
        · exact ⟨[], fun m hm => absurd ⟨m, hm⟩ hx⟩
      have hmoney : ∀ {c : Option Str} {x : Option Rat} {m : Option Money}, (c = none ∨ c = some cur) →
          MoneyAs r.env.lower l.commodities c x m → ∀ v, m = some v → ∀ d, d ≠ n → v.amountIn d = 0 := by
        intro c x m hc hm v hv d hd
        rcases hm with ⟨_, h2⟩ | ⟨a, m', q, h1, h2, h3, h4⟩
        · rw [h2] at hv; cases hv
        · rcases hc with hc | hc
          · rw [hc] at h1; cases h1
          · rw [hc] at h1; cases h1
            rw [h4] at hv; cases hv
            rw [hn _ (h3.grow hgrow.commodities)]
            simp [Money.amountIn, Money.commodity, Ne.symm hd]
      have honly : ∀ t ∈ ts, ∀ p ∈ t.postings, p.Only n := by
        intro t ht q hq
        obtain ⟨raw, hraw, _, _, hw⟩ := Forall₂.mem_right hw ht
        obtain ⟨p, hp, w⟩ := Forall₂.mem_right hw hq
        obtain ⟨o1, o2, o3, o4⟩ := hone raw (hd.perm.mem_iff.mp hraw) p hp
        refine ⟨by rw [w.kind]; exact o1, ?_, hmoney o4 w.amount, hmoney o3 w.balance⟩
        rcases w.cost with ⟨_, h⟩ | ⟨_, _, _, h, _⟩
        · exact h
        · rw [o2] at h; cases h
      have happl : ∀ t ∈ applied, ∀ p ∈ t.postings, p.Only n := by
        intro t ht
        obtain ⟨t0, ht0, hR⟩ := Forall₂.mem_right h7 ht
        exact hR.only (h4.only (fun _ _ _ => rfl) honly t0 ht0) hn (fun x hx => hrules _ (h6.mem hx))
      obtain ⟨es, e1, e2⟩ := h8.entries
      have hz : ∀ c, selSum L.entries (fun _ => true) c = 0 := by
        intro c
        have he : (L.entries.map Prod.snd).map Posting.entry = es.map Posting.entry := by
          rw [← SameEntry.entry e2]
          congr 1
          unfold Ledger.entries
          rw [List.map_flatMap]
          congr 1
          funext t
          rw [List.map_map]
          simp [Function.comp_def]
        rw [selSum_entries he, List.filter_true]
        exact entersAll_only e1 (fun _ _ _ => rfl) happl c
      exact (g6 ms hm).empty hz

example : (balanceCommand (exRuleRun "2020-01-05 Bar\n Food  10 EUR\n Cash\n= Food\n Cash  -0.2\n Tax  2 EUR\n")
    exOrders 0 {} false true true "main".toList).toOption.map
      (fun rep : BalReport => (rep.lines.map (fun l => (l.label, l.amounts)), rep.total)) =
      some ([("Cash".toList, [.mk (-12) "EUR".toList]), ("Food".toList, [.mk 10 "EUR".toList]),
        ("Tax".toList, [.mk 2 "EUR".toList])], some []) := by decide +kernel

end Dinero
