import Verif.Spec.Options
import Verif.Props.Rules
import Verif.Props.Tree
import Verif.Lemmas.Rulework
/-
Property theorems about the balance command with the options that group accounts and convert amounts (C100, C101).
-/
namespace Dinero

theorem selects_plain {env : Env} (ha : env.AsciiSep) {o : ReportOpts} (hq : PlainQuery env o.query) {L : Ledger}
    {node : Option Ast} {sel : List (Txn Posting × Posting)} {st : Commodities}
    (hn : queryNode env o.query = .ok node)
    (hs : Selects env o.filter node L.entries L.commodities sel st) :
    sel = wantedOf env o L.transactions ∧ st = L.commodities := by
  obtain ⟨n, hn', hf⟩ := plain_node ha hq
  rw [hn] at hn'; cases hn'
  constructor
  · rw [selects_wanted hf hs]
    unfold Ledger.entries wantedOf
    generalize L.transactions = ts
    induction ts with
    | nil => rfl
    | cons t ts ih =>
      rw [List.flatMap_cons, List.flatMap_cons, List.filter_append, ih]
      congr 1
      rw [List.filter_map]
      rfl
  · generalize L.entries = es at hs
    generalize L.commodities = st0 at hs
    induction hs with
    | nil => rfl
    | keep h _ ih => rw [ih]; exact (filterPosting_wants (hf _ _ _) h).2
    | drop h _ ih => rw [ih]; exact (filterPosting_wants (hf _ _ _) h).2

theorem selected_plain {env : Env} (ha : env.AsciiSep) {o : ReportOpts} (hq : PlainQuery env o.query) {L : Ledger}
    {sel : List (Txn Posting × Posting)} (h : Selected env o L sel) : sel = wantedOf env o L.transactions := by
  obtain ⟨node, st, hn, hs⟩ := h
  exact (selects_plain ha hq hn hs).1

/-- The report behind the command. -/
theorem balanceCommand_report {r : Run} {o : BalOrders} {today : Date} {opts : ReportOpts} {skip flat showTotal : Bool}
    {path : Str} {rep : BalReport} (hr : balanceCommand r o today opts skip flat showTotal path = .ok rep) :
    ∃ L, r.ledger skip path = .ok L ∧ balanceReport r.env o today opts flat showTotal L = .ok rep := by
  unfold balanceCommand at hr
  cases hl : r.ledger skip path with
  | error e => rw [hl] at hr; cases hr
  | ok L =>
    rw [hl] at hr
    simp only at hr
    cases hrep : balanceReport r.env o today opts flat showTotal L with
    | error e => rw [hrep] at hr; cases hr
    | ok rep' => rw [hrep] at hr; cases hr; exact ⟨L, rfl, hrep⟩

theorem balanceReport_selected {env : Env} {o : BalOrders} {today : Date} {opts : ReportOpts} {flat showTotal : Bool}
    {L : Ledger} {rep : BalReport} (h : balanceReport env o today opts flat showTotal L = .ok rep) :
    ∃ node sel st bals, queryNode env opts.query = .ok node ∧
      Selects env opts.filter node L.entries L.commodities sel st ∧
      collectAll env opts.filter node L.transactions [] L.commodities = .ok (bals, st) := by
  unfold balanceReport at h
  split at h
  · cases h
  next node hn =>
  split at h
  · cases h
  next bals st hc =>
  obtain ⟨sel, hs, _⟩ := collected hc
  exact ⟨node, sel, st, bals, hn, hs, hc⟩

/-- A journal with accounts below others, and a rule. -/
def exTreeText : String :=
  "2020-01-05 Bar\n Expenses:Food  10 EUR\n Expenses:Rent  5 EUR\n Assets:Cash\n= Food\n (Budget)  -1\n" ++
  "2020-01-06 Baz\n Expenses:Food  4 EUR\n Assets:Bank:Giro  -4 EUR\n"

/-- A journal with a price. -/
def exPriceText : String :=
  "P 2020-01-01 EUR 2 USD\n2020-01-05 Bar\n Expenses:Food  10 EUR\n Expenses:Rent  5 USD\n" ++
  " Assets:Cash  -10 EUR\n Assets:Cash  -5 USD\n= Expenses:Food\n (Budget)  -1\n"

/-! ### C100: tree and depth, from the file on -/

/-- **C100**, the tree report of any journal, with `--real`, `--begin`, `--end`, any patterns of accounts and any `--depth`: when
the accounts of the wanted postings form a tree that can be drawn, every line denotes an account, is indented by its
depth and shows the sum of the wanted postings on it and below; and every account on which something is left, within
the depth, is visible in such a line. -/
theorem C100_tree_partial {r : Run} {o : BalOrders} {today : Date} {opts : ReportOpts} {skip showTotal : Bool} {path : Str}
    {pl : ParsedLedger} {rep : BalReport} (ha : r.env.AsciiSep) (hq : PlainQuery r.env opts.query)
    (hx : opts.exchange = none) (h : r.journal path = .ok pl)
    (hr : balanceCommand r o today opts skip false showTotal path = .ok rep) :
    ∃ txns, pl.Yields r.env skip txns ∧
      ((∀ x ∈ wantedOf r.env opts txns, x.2.account.head? ≠ some ':') → TreeFit (wantedOf r.env opts txns) →
        (∀ line ∈ rep.lines, ∃ a b, line.indent = components a ∧ Labels a b line.label ∧ Below a b ∧
          Left (wantedOf r.env opts txns) b ∧
          Shows line.amounts (selSum (wantedOf r.env opts txns) (fun x => Below b x))) ∧
        (∀ x, Left (wantedOf r.env opts txns) x → (∀ d, opts.depth = some d → components x ≤ d) →
          ∃ line ∈ rep.lines, ∃ a b, line.indent = components a ∧ Labels a b line.label ∧
            Below a x ∧ Below x b ∧
            Shows line.amounts (selSum (wantedOf r.env opts txns) (fun y => Below x y)))) := by
  obtain ⟨L, hl, hrep⟩ := balanceCommand_report hr
  refine ⟨L.transactions, ledger_yields h hl, fun hh hf => ?_⟩
  obtain ⟨node, sel, st, _, hn, hs, _⟩ := balanceReport_selected hrep
  obtain ⟨rfl, _⟩ := selects_plain ha hq hn hs
  exact C57_labels_partial hx ⟨node, st, hn, hs⟩ hrep hh hf

/-- **C100**, `bal --flat --depth d` of any journal: one line for every group of accounts with the same first `d`
components that has a non-zero sum, in increasing order, showing the sum of the wanted postings of the group. -/
theorem C100_depth {r : Run} {o : BalOrders} {today : Date} {opts : ReportOpts} {skip showTotal : Bool} {path : Str}
    {pl : ParsedLedger} {rep : BalReport} {d : Nat} (ha : r.env.AsciiSep) (hq : PlainQuery r.env opts.query)
    (hd : opts.depth = some d) (hx : opts.exchange = none) (h : r.journal path = .ok pl)
    (hr : balanceCommand r o today opts skip true showTotal path = .ok rep) :
    ∃ txns, pl.Yields r.env skip txns ∧
      (rep.lines.map BalLine.label).Pairwise (· < ·) ∧
      (∀ line ∈ rep.lines, line.indent = 0 ∧
        Shows line.amounts (selSum (wantedOf r.env opts txns) (fun a => CutTo d a line.label))) ∧
      (∀ g, (∃ line ∈ rep.lines, line.label = g) ↔
        ∃ c, selSum (wantedOf r.env opts txns) (fun a => CutTo d a g) c ≠ 0) := by
  obtain ⟨L, hl, hrep⟩ := balanceCommand_report hr
  refine ⟨L.transactions, ledger_yields h hl, ?_⟩
  obtain ⟨node, sel0, st, bals, hn, hs, hc⟩ := balanceReport_selected hrep
  obtain ⟨sel, hsel, h1 | ⟨_, rep', h2, h3⟩⟩ := C54_flat_depth_partial (o := o) (today := today) (showTotal := showTotal)
    hd hx hn hc
  · rw [hrep] at h1; cases h1.2
  · rw [hrep] at h2; cases h2
    rw [selected_plain ha hq hsel] at h3
    exact h3

example : ((exRuleRun exTreeText).ledger false "main".toList).toOption.any (fun L =>
      fitB (wantedOf (exRuleRun exTreeText).env {} L.transactions) ["EUR".toList] &&
      (wantedOf (exRuleRun exTreeText).env {} L.transactions).all (fun x => x.2.account.head? ≠ some ':')) = true ∧
    (balanceCommand (exRuleRun exTreeText) exOrders 0 {} false false true "main".toList).toOption.map (fun r =>
      r.lines.map (fun l : BalLine => (l.indent, l.label, l.amounts.map (fun m : Money => m.amountIn "EUR".toList)))) =
      some [(1, "Assets".toList, [-19]), (2, "Bank:Giro".toList, [-4]), (2, "Cash".toList, [-15]),
        (1, "Budget".toList, [-14]), (1, "Expenses".toList, [19]), (2, "Food".toList, [14]), (2, "Rent".toList, [5])] ∧
    (balanceCommand (exRuleRun exTreeText) exOrders 0 { depth := some 1 } false true true "main".toList).toOption.map
      (fun r => r.lines.map (fun l : BalLine => (l.label, l.amounts.map (fun m : Money => m.amountIn "EUR".toList)))) =
      some [("Assets".toList, [-19]), ("Budget".toList, [-14]), ("Expenses".toList, [19])] := by decide +kernel

/-! ### C101: conversion, from the file on -/

theorem prices_shown {r : Run} {skip : Bool} {path : Str} {L : Ledger} (hl : r.ledger skip path = .ok L) :
    ∃ ps, pricesCommand r skip path = .ok ps ∧ ps.map shownPrice = L.prices := by
  unfold pricesCommand
  rw [hl]
  refine ⟨_, rfl, ?_⟩
  rw [List.map_map]
  conv => rhs; rw [← List.map_id L.prices]
  apply List.map_congr_left
  intro p _
  rfl

/-- **C101**: with `--exchange`, for a commodity the journal knows, the flat report of any journal shows one line for every
account for which something remains after conversion, and in it the sum of the wanted postings, converted with the
table that `conversion` makes from the prices the command `prices` prints; the total is the sum of all wanted postings,
converted likewise. -/
theorem C101_flat {r : Run} {o : BalOrders} {today : Date} {opts : ReportOpts} {skip showTotal : Bool} {path : Str}
    {pl : ParsedLedger} {rep : BalReport} {x target : Str} {L : Ledger} (ha : r.env.AsciiSep)
    (hq : PlainQuery r.env opts.query) (hd : opts.depth = none) (hx : opts.exchange = some x)
    (h : r.journal path = .ok pl) (hl : r.ledger skip path = .ok L) (hf : Finds r.env.lower L.commodities x target)
    (hr : balanceCommand r o today opts skip true showTotal path = .ok rep) :
    ∃ txns ps ms, pl.Yields r.env skip txns ∧ pricesCommand r skip path = .ok ps ∧
      conversion o.conv target today (ps.map shownPrice) = .ok ms ∧
      (rep.lines.map BalLine.label).Pairwise (· < ·) ∧
      (∀ line ∈ rep.lines, line.indent = 0 ∧ ∃ g,
        ConvertedTo ms target (selSum (wantedOf r.env opts txns) (fun a => a = line.label)) g ∧
        Shows line.amounts g) ∧
      (∀ a, (∃ line ∈ rep.lines, line.label = a) ↔
        ∃ g c, ConvertedTo ms target (selSum (wantedOf r.env opts txns) (fun y => y = a)) g ∧ g c ≠ 0) ∧
      ∀ tm, rep.total = some tm → ∃ g,
        ConvertedTo ms target (selSum (wantedOf r.env opts txns) (fun _ => true)) g ∧ Shows tm g := by
  obtain ⟨L', hl', hrep⟩ := balanceCommand_report hr
  rw [hl] at hl'; cases hl'
  obtain ⟨ps, hps, hpe⟩ := prices_shown hl
  obtain ⟨node, sel, st, _, hn, hs, _⟩ := balanceReport_selected hrep
  obtain ⟨rfl, rfl⟩ := selects_plain ha hq hn hs
  obtain ⟨ms, k1, k2, k3, k4⟩ := C77_flat hd hx hn hs hf hrep
  obtain ⟨ms', m1, _, m3⟩ := C77_total hx hn hs hf hrep
  rw [k1] at m1; cases m1
  exact ⟨L.transactions, ps, ms, ledger_yields h hl, hps, by rw [hpe]; exact k1, k2, k3, k4, m3⟩

/-- **C101**: a commodity the journal does not know changes nothing. -/
theorem C101_unknown {r : Run} {o : BalOrders} {today : Date} {opts : ReportOpts} {skip flat showTotal : Bool} {path : Str}
    {pl : ParsedLedger} {x : Str} {L : Ledger} (ha : r.env.AsciiSep) (hq : PlainQuery r.env opts.query)
    (hx : opts.exchange = some x) (h : r.journal path = .ok pl) (hl : r.ledger skip path = .ok L)
    (hu : ¬ ∃ n, Finds r.env.lower L.commodities x n) :
    balanceCommand r o today opts skip flat showTotal path =
      balanceCommand r o today { opts with exchange := none } skip flat showTotal path := by
  have hrep : balanceReport r.env o today opts flat showTotal L =
      balanceReport r.env o today { opts with exchange := none } flat showTotal L := by
    obtain ⟨node, hn, hf⟩ := plain_node ha hq
    unfold balanceReport
    simp only [hn, hx]
    cases hc : collectAll r.env opts.filter node L.transactions [] L.commodities with
    | error e => rfl
    | ok res =>
      obtain ⟨bals, st⟩ := res
      obtain ⟨sel, hs, _⟩ := collected hc
      obtain ⟨rfl, rfl⟩ := selects_plain ha hq hn hs
      have := C77_unknown (o := o) (today := today) (flat := flat) (showTotal := showTotal) hx hn hs
        (ledger_reachable h hl).commodities hu
      unfold balanceReport at this
      simpa only [hn, hx, hc] using this
  unfold balanceCommand
  rw [hl]
  simp only [hrep]

example : (balanceCommand (exRuleRun exPriceText) exOrders (dayNumber 2020 1 9) { exchange := some "USD".toList } false true
      true "main".toList).toOption.map (fun r => (r.total, r.lines.map (fun l : BalLine => (l.label, l.amounts)))) =
    some (some [.mk (-20) "USD".toList],
      [("Assets:Cash".toList, [.mk (-25) "USD".toList]), ("Budget".toList, [.mk (-20) "USD".toList]),
       ("Expenses:Food".toList, [.mk 20 "USD".toList]), ("Expenses:Rent".toList, [.mk 5 "USD".toList])]) ∧
    (balanceCommand (exRuleRun exPriceText) exOrders (dayNumber 2020 1 9) { exchange := some "CHF".toList } false true
      true "main".toList).toOption.map (fun r => (r.total, r.lines.map (fun l : BalLine => (l.label, l.amounts)))) =
    some (some [.mk (-10) "EUR".toList],
      [("Assets:Cash".toList, [.mk (-10) "EUR".toList, .mk (-5) "USD".toList]), ("Budget".toList, [.mk (-10) "EUR".toList]),
       ("Expenses:Food".toList, [.mk 10 "EUR".toList]), ("Expenses:Rent".toList, [.mk 5 "USD".toList])]) := by decide +kernel

end Dinero
