import Verif.Lemmas.Report
import Verif.Props.Transaction
import Verif.Props.Expr
import Verif.Props.List
/-
Properties of the reports (C51-C59).
-/
namespace Dinero

/-- Orders used in examples. -/
def exOrders : BalOrders where
  own := .id
  group := .id
  total := .id
  accounts := .rev
  roll := fun _ => .rev
  rows := .rev
  conv := ⟨.id, .id, .id⟩
  convRow := fun _ => .id
  shown := fun _ => .id
  convTotal := .id
  shownTotal := .id

/-- A ledger used in examples: a salary, a purchase in two accounts and a share purchase. -/
def exLedger : Ledger :=
  { transactions := [
      { date := some 1, description := "Job".toList, postings := [
          { account := "Assets:Cash".toList, amount := some (.mk 100 "EUR".toList) },
          { account := "Income".toList, amount := some (.mk (-100) "EUR".toList) }] },
      { date := some 2, description := "Shop".toList, postings := [
          { account := "Expenses:Food".toList, amount := some (.mk 30 "EUR".toList) },
          { account := "Expenses:Fun".toList, amount := some (.mk 10 "EUR".toList) },
          { account := "Assets:Cash".toList, amount := some (.mk (-40) "EUR".toList) }] },
      { date := some 3, description := "Broker".toList, postings := [
          { account := "Assets:Shares".toList, amount := some (.mk 2 "ACME".toList) },
          { account := "Assets:Cash".toList, amount := some (.mk (-60) "EUR".toList) }] }] }

/-! ### C51: the flat report -/

/-- Every line of `bal --flat` shows one account with exactly the sum of the selected postings on
it; the lines are in strictly increasing order of names; an account has a line exactly when some
commodity has a non-zero sum on it. -/
theorem C51_flat {env : Env} {o : BalOrders} {today : Date} {opts : ReportOpts} {showTotal : Bool}
    {l : Ledger} {rep : BalReport} (hd : opts.depth = none) (hx : opts.exchange = none)
    (h : balanceReport env o today opts true showTotal l = .ok rep) :
    ∃ sel, Selected env opts l sel ∧ (rep.lines.map BalLine.label).Pairwise (· < ·) ∧
      (∀ line ∈ rep.lines, line.indent = 0 ∧
        Shows line.amounts (selSum sel (fun a => a = line.label))) ∧
      (∀ a, (∃ line ∈ rep.lines, line.label = a) ↔ ∃ c, selSum sel (fun x => x = a) c ≠ 0) := by
  obtain ⟨sel, bals, rows, hsel, _, hcol, hrows, hfin⟩ := balanceReport_plain h hx
  simp only [if_true, hd, flatRows, Except.ok.injEq] at hrows
  have hp : (o.own.run bals).Perm bals := o.own.perm bals
  have hmem : ∀ e, e ∈ rows ↔ e ∈ bals ∧ e.2.isZero = false := by
    intro e; rw [← hrows, List.mem_filter, hp.mem_iff]; simp
  have hn : (rows.map Prod.fst).Nodup := by
    rw [← hrows]
    exact ((hp.map _).nodup_iff.mpr hcol.nodup).sublist (List.filter_sublist.map _)
  have hsum : ∀ e ∈ bals, ∀ c, e.2.amountOf c = selSum sel (fun x => x = e.1) c := by
    intro e he c
    rw [← hcol.sum, ← balSum_eq_single hcol.nodup (a := e.1) (b := e.2) he]
    apply balSum_congr; intro x _; rw [Bool.eq_iff_iff, beq_iff_eq, decide_eq_true_iff]
  obtain ⟨h1, h2, h3⟩ := flat_lines hfin hn (fun e he => hcol.canon e ((hmem e).mp he).1)
  refine ⟨sel, hsel, h1, ?_, ?_⟩
  · intro line hl
    obtain ⟨h4, b, hb, h5, _⟩ := h2 line hl
    exact ⟨h4, h5.congr (hsum _ ((hmem _).mp hb).1)⟩
  · intro a
    constructor
    · rintro ⟨line, hl, rfl⟩
      obtain ⟨_, b, hb, _, _⟩ := h2 line hl
      obtain ⟨hb, hz⟩ := (hmem _).mp hb
      obtain ⟨c, hc⟩ := (Canon.isZero_false (hcol.canon _ hb)).mp hz
      exact ⟨c, by rw [← hsum _ hb]; exact hc⟩
    · rintro ⟨c, hc⟩
      have hbs : balSum bals (fun x => x = a) c ≠ 0 := by rw [hcol.sum]; exact hc
      obtain ⟨e, he, rfl⟩ : ∃ e ∈ bals, e.1 = a := by
        by_contra hno
        push Not at hno
        apply hbs
        apply balSum_of_zero
        intro e he hea
        exact absurd (by simpa using hea) (hno e he)
      have hz : e.2.isZero = false :=
        (Canon.isZero_false (hcol.canon e he)).mpr ⟨c, by rw [hsum e he]; exact hc⟩
      exact h3 e ((hmem e).mpr ⟨he, hz⟩) (by simp [printable, tooDeep, hd, hz])

/-- The report on the example ledger, and that it meets the hypotheses. -/
example : (balanceReport exEnv exOrders 0 {} true true exLedger).toOption = some
    ⟨[⟨[.mk 2 "ACME".toList], 0, "Assets:Shares".toList⟩,
      ⟨[.mk 30 "EUR".toList], 0, "Expenses:Food".toList⟩,
      ⟨[.mk 10 "EUR".toList], 0, "Expenses:Fun".toList⟩,
      ⟨[.mk (-100) "EUR".toList], 0, "Income".toList⟩],
     some [.mk (-60) "EUR".toList, .mk 2 "ACME".toList]⟩ := by decide +kernel

/-! ### C52: the tree report -/

/-- The rows of the tree report: every account with a non-zero total, once, with exactly the sum of
the selected postings on it and on all accounts below it — provided no selected account name starts
with a colon (`C52_false`). -/
theorem C52_rollup_partial {env : Env} {o : BalOrders} {opts : ReportOpts} {l : Ledger}
    {node : Option Ast} {bals : Balances} {st : Commodities} (hq : queryNode env opts.query = .ok node)
    (hc : collectAll env opts.filter node l.transactions [] l.commodities = .ok (bals, st))
    (hh : ∀ t ∈ l.transactions, ∀ p ∈ t.postings, p.account.head? ≠ some ':') :
    ∃ sel, Selected env opts l sel ∧ ((treeRows o bals).map Prod.fst).Nodup ∧
      (∀ e ∈ treeRows o bals, ∀ c, e.2.amountOf c = selSum sel (fun a => Below e.1 a) c) ∧
      (∀ a, a ∈ (treeRows o bals).map Prod.fst ↔ ∃ c, selSum sel (fun x => Below a x) c ≠ 0) := by
  obtain ⟨sel, hs, _, hcol⟩ := collected hc
  have hfun : ∀ a, (fun x => decide (Below a x)) = inSubtree a := by
    intro a; funext x
    rw [Bool.eq_iff_iff, inSubtree_iff]; simp
  have hhead : ∀ x ∈ sel, Headed x.2.account := by
    intro x hx
    have hm := hs.mem x hx
    unfold Ledger.entries at hm
    obtain ⟨t, ht, hm⟩ := List.mem_flatMap.mp hm
    obtain ⟨p, hp, rfl⟩ := List.mem_map.mp hm
    exact hh t ht p hp
  obtain ⟨h1, h2, h3⟩ := treeRows_spec (o := o) hcol hhead
  refine ⟨sel, ⟨node, st, hq, hs⟩, h1, ?_, ?_⟩
  · intro e he c; rw [hfun]; exact (h2 e he).2.2 c
  · intro a
    rw [hfun]
    constructor
    · intro ha
      obtain ⟨e, he, rfl⟩ := List.mem_map.mp ha
      obtain ⟨h4, h5, h6⟩ := h2 e he
      obtain ⟨c, hc⟩ := (Canon.isZero_false h4).mp h5
      exact ⟨c, by rw [← h6]; exact hc⟩
    · intro hc
      obtain ⟨b, hb⟩ := h3 a hc
      exact List.mem_map.mpr ⟨(a, b), hb, rfl⟩

example : (∀ t ∈ exLedger.transactions, ∀ p ∈ t.postings, p.account.head? ≠ some ':') ∧
    (collectAll exEnv {} none exLedger.transactions [] exLedger.commodities).toOption.map
      (fun r => (treeRows exOrders r.1).map Prod.fst) =
        some ["Assets".toList, "Expenses".toList, "Assets:Shares".toList, "Expenses:Fun".toList,
          "Expenses:Food".toList, "Income".toList] := by
  refine ⟨by decide +kernel, by decide +kernel⟩

/-- In general it is false: with postings on `:A` and `:A:B`, the row of `:A` leaves out what is on
`:A:B`, although that account is below it. -/
theorem C52_false : ∃ bals : Balances, ∃ sel : List (Txn Posting × Posting),
    bals = sel.foldl addSel [] ∧
    ((treeRows exOrders bals).find? (fun e => e.1 = ":A".toList)).map (fun e => e.2.amountOf "X".toList)
      = some 1 ∧
    selSum sel (fun a => Below ":A".toList a) "X".toList = 3 := by
  refine ⟨_, [({}, { account := ":A".toList, amount := some (.mk 1 "X".toList) }),
    ({}, { account := ":A:B".toList, amount := some (.mk 2 "X".toList) })], rfl, ?_, ?_⟩ <;>
  decide +kernel

/-! ### C53: the total -/

/-- The total printed by a balance report is exactly the sum of all selected postings. -/
theorem C53_total {env : Env} {o : BalOrders} {today : Date} {opts : ReportOpts} {flat showTotal : Bool}
    {l : Ledger} {rep : BalReport} (hx : opts.exchange = none)
    (h : balanceReport env o today opts flat showTotal l = .ok rep) :
    ∃ sel, Selected env opts l sel ∧
      ∀ ms, rep.total = some ms → Shows ms (selSum sel (fun _ => true)) := by
  obtain ⟨sel, bals, rows, hsel, _, hcol, _, hfin⟩ := balanceReport_plain h hx
  exact ⟨sel, hsel, fun ms hm => total_spec hcol hfin hm⟩

/-- What an accepted transaction leaves over may balance. -/
theorem Accepted.may {t : Txn Posting} (h : Accepted t) : MayBalance (weightOf .real t.postings) := by
  obtain ⟨s, skip, bals, bals', t0, ret, h, hb, hp⟩ := h
  have hr := fun c => real_total h hb hp c
  refine (mayBalance_congr hr).mp ?_
  obtain ⟨res, gen, hB⟩ := balance_spec h hb hp
  rcases hB.cases with ⟨_, _, hm, _, _, hres⟩ | ⟨_, _, hret, _⟩
  · exact (mayBalance_congr hres).mpr hm
  · exact Or.inl (fun c => by rw [hret]; rfl)

/-- If all postings are real, without cost and in one commodity, the printed total of the unfiltered
report is empty (it is printed as `0`). -/
theorem C53_single_commodity {env : Env} {o : BalOrders} {today : Date} {flat showTotal : Bool}
    {l : Ledger} {rep : BalReport} {d : Cur} {ms : List Money}
    (h : balanceReport env o today {} flat showTotal l = .ok rep) (hm : rep.total = some ms)
    (hacc : ∀ t ∈ l.transactions, Accepted t)
    (hone : ∀ t ∈ l.transactions, ∀ p ∈ t.postings, p.kind = .real ∧ p.cost = none ∧
      ∀ m, p.amount = some m → ∀ c, c ≠ d → m.amountIn c = 0) : ms = [] := by
  obtain ⟨sel, bals, rows, hsel, _, hcol, _, hfin⟩ := balanceReport_plain h rfl
  have hs := total_spec hcol hfin hm
  have hall : sel = l.entries := by
    obtain ⟨node, st, hn, hs⟩ := hsel
    have : node = none := by
      simp [queryNode, preprocessQuery] at hn; exact hn.symm
    subst this
    exact hs.all (fun t p st => by simp [filterPosting])
  have hzero : ∀ t ∈ l.transactions, ∀ c, sumIn (t.postings.filterMap Posting.amount) c = 0 := by
    intro t ht c
    have hw : ∀ c, weightOf .real t.postings c = sumIn (t.postings.filterMap Posting.amount) c := by
      have : ∀ ps : List Posting, (∀ p ∈ ps, p.kind = .real ∧ p.cost = none) → ∀ c,
          weightOf .real ps c = sumIn (ps.filterMap Posting.amount) c := by
        intro ps
        induction ps with
        | nil => intro _ c; rfl
        | cons p ps ih =>
          intro hps c
          have ih := ih (fun q hq => hps q (List.mem_cons_of_mem _ hq)) c
          obtain ⟨h1, h2⟩ := hps p (by simp)
          unfold weightOf at ih ⊢
          rw [List.filter_cons_of_pos (by simp [h1]), List.map_cons, sumIn_cons, ih]
          cases ha : p.amount with
          | none => simp [Posting.weight, ha, Money.amountIn, Money.commodity]
          | some m => simp [Posting.weight, ha, h2, sumIn_cons]
      exact this t.postings (fun p hp => ⟨(hone t ht p hp).1, (hone t ht p hp).2.1⟩)
    have hoff : ∀ c, c ≠ d → weightOf .real t.postings c = 0 := by
      intro c hc
      rw [hw]
      apply sumIn_eq_zero
      intro m hm
      obtain ⟨p, hp, hpm⟩ := List.mem_filterMap.mp hm
      exact (hone t ht p hp).2.2 m hpm c hc
    rw [← hw]
    rcases (hacc t ht).may with h0 | ⟨c1, d1, h1, h2⟩
    · exact h0 c
    · exfalso
      have e1 : c1 = d := by by_contra hne; rw [hoff c1 hne] at h1; exact lt_irrefl _ h1
      have e2 : d1 = d := by by_contra hne; rw [hoff d1 hne] at h2; exact lt_irrefl _ h2
      subst e1; subst e2; exact lt_asymm h1 h2
  have htot : ∀ c, selSum sel (fun _ => true) c = 0 := by
    intro c
    rw [hall]
    unfold Ledger.entries
    generalize l.transactions = ts at hzero
    induction ts with
    | nil => rfl
    | cons t ts ih =>
      rw [List.flatMap_cons, selSum_append, ih (fun t ht => hzero t (List.mem_cons_of_mem _ ht))]
      have := hzero t (by simp) c
      unfold selSum
      rw [List.filter_true, List.filterMap_map]
      simpa [Function.comp_def] using this
  cases ms with
  | nil => rfl
  | cons m ms =>
    exfalso
    have hne := hs.nonzero m (by simp)
    have hsum := hs.sum
    have honce := hs.once
    cases m with
    | zero => exact hne rfl
    | mk x c =>
      have h1 : sumIn (Money.mk x c :: ms) c = x := by
        rw [sumIn_cons]
        have : sumIn ms c = 0 := by
          apply sumIn_eq_zero
          intro m' hm'
          rw [List.map_cons, List.nodup_cons] at honce
          cases m' with
          | zero => rfl
          | mk y c' =>
            by_cases hc : c' = c
            · subst hc; exact absurd (List.mem_map.mpr ⟨_, hm', rfl⟩) honce.1
            · simp [Money.amountIn, Money.commodity, hc]
        rw [this]; simp [Money.amountIn, Money.commodity, Money.amount]
      rw [hsum, htot] at h1
      exact hne (by simp [Money.amount, ← h1])

/-- Two transactions as they leave the balancing pass, in one commodity. -/
def exOne : Ledger :=
  { transactions := exLedger.transactions.take 2 }

theorem accepted_of {bals : Balances} {t t' : Txn Posting} (hb : bals.Ok)
    (hp : ∀ p ∈ t.postings, p.cost = none)
    (h : (Txn.balance .id false bals t).toOption.map (fun r => r.2.1) = some t') : Accepted t' := by
  cases hr : Txn.balance .id false bals t with
  | error e => rw [hr] at h; cases h
  | ok r =>
    obtain ⟨bals', u, ret⟩ := r
    rw [hr] at h
    simp only [Except.toOption, Option.map_some, Option.some.injEq] at h
    subst h
    exact ⟨_, _, _, _, _, _, hr, hb, fun p hm => by simp [Posting.CostOk, hp p hm]⟩

/-- Fresh balances for the accounts of the example. -/
def exFresh : Balances := [("Assets:Cash".toList, []), ("Income".toList, []),
  ("Expenses:Food".toList, []), ("Expenses:Fun".toList, [])]

theorem exFresh_ok : exFresh.Ok := by
  have h : ∀ e ∈ exFresh, e.2 = [] := by decide +kernel
  intro a b hg
  have hb : b = [] := h _ (HMap.mem_of_get? hg)
  rw [hb]; exact .new

theorem exOne_accepted : ∀ t ∈ exOne.transactions, Accepted t := by
  have h : ∀ t ∈ exOne.transactions, (∀ p ∈ t.postings, p.cost = none) ∧
      (Txn.balance .id false exFresh t).toOption.map (fun r => r.2.1) = some t := by
    decide +kernel
  intro t ht
  exact accepted_of exFresh_ok (h t ht).1 (h t ht).2

/-- The hypotheses of `C53_single_commodity` are met. -/
example : (∀ t ∈ exOne.transactions, Accepted t) ∧
    (∀ t ∈ exOne.transactions, ∀ p ∈ t.postings, p.kind = .real ∧ p.cost = none ∧
      ∀ m, p.amount = some m → ∀ c, c ≠ "EUR".toList → m.amountIn c = 0) ∧
    (balanceReport exEnv exOrders 0 {} false true exOne).toOption.map (fun r => r.total) =
      some (some []) := by
  refine ⟨exOne_accepted, ?_, by decide +kernel⟩
  have : ∀ t ∈ exOne.transactions, ∀ p ∈ t.postings, p.kind = .real ∧ p.cost = none ∧
      p.amount = some (.mk ((p.amount.getD .zero).amount) "EUR".toList) := by decide +kernel
  intro t ht p hp
  obtain ⟨h1, h2, h3⟩ := this t ht p hp
  refine ⟨h1, h2, fun m hm c hc => ?_⟩
  rw [h3] at hm; cases hm
  generalize "EUR".toList = e at *
  simp [Money.amountIn, Money.commodity, hc.symm]

/-! ### C54: the flat report with a depth -/

/-- `bal --flat --depth d`: when it succeeds, every line shows one group of accounts (those with the
same first `d` components) with exactly the sum of the selected postings on them, in strictly
increasing order of names, and a group has a line exactly when some commodity has a non-zero sum.
It fails exactly when some account with a non-zero sum is cut to the empty name. -/
theorem C54_flat_depth_partial {env : Env} {o : BalOrders} {today : Date} {opts : ReportOpts}
    {showTotal : Bool} {l : Ledger} {d : Nat} {node : Option Ast} {bals : Balances}
    {st : Commodities} (hd : opts.depth = some d)
    (hx : opts.exchange = none) (hq : queryNode env opts.query = .ok node)
    (hc : collectAll env opts.filter node l.transactions [] l.commodities = .ok (bals, st)) :
    ∃ sel, Selected env opts l sel ∧
      (((∃ a, CutTo d a [] ∧ ∃ c, selSum sel (fun x => x = a) c ≠ 0) ∧
        (balanceReport env o today opts true showTotal l).isPanic = true) ∨
       ((∀ a, CutTo d a [] → ∀ c, selSum sel (fun x => x = a) c = 0) ∧
        ∃ rep, balanceReport env o today opts true showTotal l = .ok rep ∧
          (rep.lines.map BalLine.label).Pairwise (· < ·) ∧
          (∀ line ∈ rep.lines, line.indent = 0 ∧
            Shows line.amounts (selSum sel (fun a => CutTo d a line.label))) ∧
          (∀ g, (∃ line ∈ rep.lines, line.label = g) ↔
            ∃ c, selSum sel (fun a => CutTo d a g) c ≠ 0))) := by
  obtain ⟨sel, hs, _, hcol⟩ := collected hc
  refine ⟨sel, ⟨node, st, hq, hs⟩, ?_⟩
  have hp : (o.group.run bals).Perm bals := o.group.perm bals
  have hsum : ∀ e ∈ bals, ∀ c, e.2.amountOf c = selSum sel (fun x => x = e.1) c := by
    intro e he c
    rw [← hcol.sum, ← balSum_eq_single hcol.nodup (a := e.1) (b := e.2) he]
    apply balSum_congr; intro x _; rw [Bool.eq_iff_iff, beq_iff_eq, decide_eq_true_iff]
  have hzero : ∀ a, (∀ e ∈ bals, e.1 ≠ a) → ∀ c, selSum sel (fun x => x = a) c = 0 := by
    intro a ha c
    rw [← hcol.sum]
    apply balSum_of_zero
    intro e he hea
    exact absurd (by simpa using hea) (ha e he)
  let cut : Str → Str := fun n => joinColon ((splitColon n).take d)
  let nz := (o.group.run bals).filter (fun e => !e.2.isZero)
  let l0 := sortBy (fun a b : Str × Balance => strLe a.1 b.1) (nz.map (fun e => (cut e.1, e.2)))
  have hnzc : ∀ e ∈ nz, e.2.Canon ∧ e ∈ bals ∧ e.2.isZero = false := by
    intro e he
    obtain ⟨h1, h2⟩ := List.mem_filter.mp he
    have h1 := hp.mem_iff.mp h1
    exact ⟨hcol.canon e h1, h1, by simpa using h2⟩
  have hl0 : l0.Perm (nz.map (fun e => (cut e.1, e.2))) := sortBy_perm _ _
  have hl0c : ∀ e ∈ l0, e.2.Canon := by
    intro e he
    obtain ⟨x, hx, rfl⟩ := List.mem_map.mp (hl0.mem_iff.mp he)
    exact (hnzc x hx).1
  have hrep : balanceReport env o today opts true showTotal l =
      match mergeLoop l0 [] [] with
      | .error e => .error e
      | .ok rows => finishBalance o true showTotal opts.depth bals none rows := by
    unfold balanceReport
    rw [hq]; simp only
    rw [hc]; simp only [if_true, hd, hx, flatRows, exchangeTable]
    rfl
  rcases mergeLoop_start l0 (sortBy_sorted nameLe_total _) hl0c with ⟨⟨e, he, h0⟩, hpan⟩ | ⟨hne, r, h1, h2, h3, h4⟩
  · left
    obtain ⟨x, hx, rfl⟩ := List.mem_map.mp (hl0.mem_iff.mp he)
    obtain ⟨hcan, hxm, hxz⟩ := hnzc x hx
    refine ⟨⟨x.1, (cut_iff d x.1 []).mp h0, ?_⟩, ?_⟩
    · obtain ⟨c, hc⟩ := (Canon.isZero_false hcan).mp hxz
      exact ⟨c, by rw [← hsum x hxm]; exact hc⟩
    · rw [hrep]
      cases hm : mergeLoop l0 [] [] with
      | error e => rw [hm] at hpan; cases e <;> first | rfl | cases hpan
      | ok r => rw [hm] at hpan; cases hpan
  · right
    constructor
    · intro a ha c
      by_cases hex : ∃ e ∈ bals, e.1 = a
      · obtain ⟨e, he, rfl⟩ := hex
        rw [← hsum e he]
        by_contra hnz
        have hz : e.2.isZero = false := (Canon.isZero_false (hcol.canon e he)).mpr ⟨c, hnz⟩
        have : e ∈ nz := List.mem_filter.mpr ⟨hp.mem_iff.mpr he, by simp [hz]⟩
        exact hne (cut e.1, e.2) (hl0.mem_iff.mpr (List.mem_map.mpr ⟨e, this, rfl⟩))
          ((cut_iff d e.1 []).mpr ha)
      · push Not at hex; exact hzero a hex c
    · rw [hrep, h1]
      simp only
      obtain ⟨rep, hfin⟩ : ∃ rep, finishBalance o true showTotal opts.depth bals none r = .ok rep := by
        unfold finishBalance; simp only; split <;> exact ⟨_, rfl⟩
      rw [hfin]
      have hrn : (r.map Prod.fst).Nodup := h2.imp (fun h => by
        intro he; rw [he] at h; exact List.lt_irrefl _ h)
      obtain ⟨f1, f2, f3⟩ := flat_lines hfin hrn h3
      have hgs : ∀ g c, balSum r (fun n => n == g) c = selSum sel (fun a => CutTo d a g) c := by
        intro g c
        rw [h4, balSum_perm hl0, balSum_map cut, balSum_nonzero]
        · rw [balSum_perm hp, hcol.sum]
          congr 1
          funext a
          rw [Bool.eq_iff_iff, beq_iff_eq, decide_eq_true_iff]
          exact cut_iff d a g
        · intro e he; exact (hcol.canon e (hp.mem_iff.mp he)).toWF
      have hrow : ∀ e ∈ r, ∀ c, e.2.amountOf c = selSum sel (fun a => CutTo d a e.1) c := by
        intro e he c
        rw [← hgs, balSum_eq_single hrn (a := e.1) (b := e.2) he]
      refine ⟨rep, rfl, f1, ?_, ?_⟩
      · intro line hl
        obtain ⟨i1, b, hb, i2, _⟩ := f2 line hl
        exact ⟨i1, i2.congr (hrow _ hb)⟩
      · intro g
        constructor
        · rintro ⟨line, hl, rfl⟩
          obtain ⟨_, b, hb, _, hpb⟩ := f2 line hl
          simp only [printable, Bool.and_eq_true, Bool.not_eq_true'] at hpb
          obtain ⟨c, hc⟩ := (Canon.isZero_false (h3 _ hb)).mp hpb.2
          exact ⟨c, by rw [← hrow _ hb]; exact hc⟩
        · rintro ⟨c, hc⟩
          have hbs : balSum r (fun n => n == g) c ≠ 0 := by rw [hgs]; exact hc
          obtain ⟨e, he, rfl⟩ : ∃ e ∈ r, e.1 = g := by
            by_contra hno
            push Not at hno
            apply hbs
            apply balSum_of_zero
            intro e he hea
            exact absurd (by simpa using hea) (hno e he)
          have hz : e.2.isZero = false :=
            (Canon.isZero_false (h3 e he)).mpr ⟨c, by rw [hrow e he]; exact hc⟩
          refine f3 e he ?_
          obtain ⟨a, ha⟩ : ∃ a, CutTo d a e.1 := by
            by_contra hno
            push Not at hno
            apply hc
            unfold selSum
            rw [List.filter_eq_nil_iff.mpr (fun x _ => by simpa using hno x.2.account)]
            rfl
          have hcomp : components e.1 ≤ d ∨ e.1 = [] := by
            rcases ha with ⟨_, h⟩ | ⟨_, h, rfl⟩ | ⟨_, h, _⟩
            · exact Or.inr h
            · exact Or.inl h
            · exact Or.inl (le_of_eq h)
          rcases hcomp with hcomp | hnil
          · simp [printable, tooDeep, hd, hz, parts_eq_components, hcomp]
          · exfalso
            rw [hnil] at hc
            -- no group is called the empty name
            have hbs0 : balSum l0 (fun n => n == []) c ≠ 0 := by
              rw [← h4, hgs]; exact hc
            apply hbs0
            apply balSum_of_zero
            intro x hx hxe
            exact absurd (by simpa using hxe) (hne x hx)

example : (balanceReport exEnv exOrders 0 { depth := some 1 } true true exLedger).toOption = some
    ⟨[⟨[.mk 2 "ACME".toList], 0, "Assets".toList⟩,
      ⟨[.mk 40 "EUR".toList], 0, "Expenses".toList⟩,
      ⟨[.mk (-100) "EUR".toList], 0, "Income".toList⟩],
     some [.mk (-60) "EUR".toList, .mk 2 "ACME".toList]⟩ := by decide +kernel

/-- `bal --flat --depth 0` crashes on a harmless ledger. -/
theorem C54_false : (balanceReport exEnv exOrders 0 { depth := some 0 } true true exLedger).isPanic =
    true := by decide +kernel

/-! ### C55, C56: the register -/

/-- Every line of the register shows one selected posting, in order, and next to it the exact sum of
the amounts of all lines so far (a zero sum is shown as a lone `0`). -/
theorem C55_register {env : Env} {s : Nat → Shuf} {opts : ReportOpts} {l : Ledger}
    {lines : List RegLine} (h : registerReport env s opts l = .ok lines) :
    ∃ sel, Selected env opts l sel ∧
      lines.map (fun l => (l.account, l.kind, some l.amount)) =
        sel.map (fun x => (x.2.account, x.2.kind, x.2.amount)) ∧
      ∀ pre line post, lines = pre ++ line :: post →
        ((∀ c, sumIn ((pre ++ [line]).map RegLine.amount) c = 0) → line.running = [.zero]) ∧
        ((∃ c, sumIn ((pre ++ [line]).map RegLine.amount) c ≠ 0) →
          Shows line.running (sumIn ((pre ++ [line]).map RegLine.amount))) := by
  obtain ⟨sel, h1, h2, h3⟩ := registerReport_spec h
  refine ⟨sel, h1, h2, fun pre line post he => ?_⟩
  rw [h3 pre line post he]
  obtain ⟨_, g2, g3⟩ := registerFold_spec ((pre ++ [line]).map RegLine.amount) Balance.WF.nil
  rw [show (Balance.new : Balance) = [] from rfl]
  have hb : ∀ c, Balance.amountOf [] c = 0 := fun c => rfl
  simp only [hb, zero_add] at g2 g3
  generalize List.foldl registerAdd [] ((pre ++ [line]).map RegLine.amount) = b at *
  refine ⟨fun hz => ?_, fun ⟨c, hz⟩ => ?_⟩
  · rcases g3 (by simp) with ⟨_, g4⟩ | ⟨g4, g5⟩
    · rw [g4]
      have hp := (s pre.length).perm [((none : Option Cur), Money.zero)]
      rw [List.perm_singleton.mp hp]; rfl
    · obtain ⟨c, hc⟩ := (Canon.isZero_false g4).mp g5
      rw [g2, hz] at hc; exact absurd rfl hc
  · rcases g3 (by simp) with ⟨g4, _⟩ | ⟨g4, _⟩
    · exact absurd (g4 c) hz
    · exact (Canon.shows g4 _).congr g2

example : (registerReport exEnv (fun _ => .id) {} exLedger).toOption.map
      (fun ls => ls.map (fun l => (l.account, l.running))) = some
    [("Assets:Cash".toList, [.mk 100 "EUR".toList]), ("Income".toList, [.zero]),
     ("Expenses:Food".toList, [.mk 30 "EUR".toList]), ("Expenses:Fun".toList, [.mk 40 "EUR".toList]),
     ("Assets:Cash".toList, [.zero]), ("Assets:Shares".toList, [.mk 2 "ACME".toList]),
     ("Assets:Cash".toList, [.mk 2 "ACME".toList, .mk (-60) "EUR".toList])] := by decide +kernel

theorem shows_sumIn {ms : List Money} {f : Cur → Rat} (h : Shows ms f) (c : Cur) :
    sumIn ms c = f c := h.sum c

/-- Under the same options, the last running total of the register and the total of the balance
report (flat or not, to any depth) are the same amounts in every commodity. -/
theorem C56_agree {env : Env} {s : Nat → Shuf} {o : BalOrders} {today : Date} {opts : ReportOpts}
    {flat showTotal : Bool} {l : Ledger} {pre : List RegLine} {line : RegLine} {rep : BalReport}
    {ms : List Money} (hx : opts.exchange = none)
    (hr : registerReport env s opts l = .ok (pre ++ [line]))
    (hb : balanceReport env o today opts flat showTotal l = .ok rep) (hm : rep.total = some ms)
    (c : Cur) : sumIn line.running c = sumIn ms c := by
  obtain ⟨sel, h1, h2, h3⟩ := C55_register hr
  obtain ⟨sel', h1', h4⟩ := C53_total hx hb
  obtain rfl := h1.unique h1'
  rw [(h4 ms hm).sum]
  have hsum : sumIn ((pre ++ [line]).map RegLine.amount) c = selSum sel (fun _ => true) c := by
    unfold selSum
    rw [List.filter_true]
    congr 1
    have : (pre ++ [line]).map (fun l => some l.amount) = sel.map (fun x => x.2.amount) := by
      have := congrArg (List.map (fun x : Str × Kind × Option Money => x.2.2)) h2
      simpa only [List.map_map, Function.comp_def] using this
    have := congrArg (List.filterMap id) this
    simpa [List.filterMap_map, Function.comp_def] using this
  rw [← hsum]
  obtain ⟨g1, g2⟩ := h3 pre line [] rfl
  by_cases hz : ∀ c, sumIn ((pre ++ [line]).map RegLine.amount) c = 0
  · rw [g1 hz, hz c]; simp [Money.amountIn, Money.commodity]
  · push Not at hz
    exact (g2 hz).sum c

example : (registerReport exEnv (fun _ => .id) {} exLedger).toOption.map
      (fun ls => ls.getLast?.map RegLine.running) = some (some [.mk 2 "ACME".toList, .mk (-60) "EUR".toList]) ∧
    (balanceReport exEnv exOrders 0 {} false true exLedger).toOption.map BalReport.total = some
      (some [.mk (-60) "EUR".toList, .mk 2 "ACME".toList]) := by
  constructor <;> decide +kernel

/-! ### C57: labels of the tree report (the positive part is in `Props/Tree.lean`) -/

/-- The ledger `A:B:C 7`, `A:D 3`, `Z -10`. -/
def exChain : Ledger :=
  { transactions := [{ date := some 1, postings := [
      { account := "A:B:C".toList, amount := some (.mk 7 "X".toList) },
      { account := "A:D".toList, amount := some (.mk 3 "X".toList) },
      { account := "Z".toList, amount := some (.mk (-10) "X".toList) }] }] }

example : (balanceReport exEnv exOrders 0 {} false false exChain).toOption.map BalReport.lines = some
    [⟨[.mk 10 "X".toList], 1, "A".toList⟩, ⟨[.mk 7 "X".toList], 2, "B:C".toList⟩,
     ⟨[.mk 3 "X".toList], 2, "D".toList⟩, ⟨[.mk (-10) "X".toList], 1, "Z".toList⟩] := by
  decide +kernel

/-- In general the labels are wrong.  With 5 on `A` itself and 10 on its only child `A:B`, the line
labelled `A:B` shows 15. -/
theorem C57_false_own : ∃ l : Ledger,
    (balanceReport exEnv exOrders 0 {} false false l).toOption.map BalReport.lines = some
      [⟨[.mk 15 "X".toList], 1, "A:B".toList⟩, ⟨[.mk (-15) "X".toList], 1, "Z".toList⟩] ∧
    selSum l.entries (fun x => Below "A:B".toList x) "X".toList = 10 :=
  ⟨{ transactions := [{ date := some 1, postings := [
      { account := "A".toList, amount := some (.mk 5 "X".toList) },
      { account := "A:B".toList, amount := some (.mk 10 "X".toList) },
      { account := "Z".toList, amount := some (.mk (-15) "X".toList) }] }] },
    by decide +kernel, by decide +kernel⟩

/-- Names with characters that sort before the colon get mixed up: with 1 on `A1` and 2 on `A:B`
the report claims an account `A1:B` with 1, and `A:B` is lost. -/
theorem C57_false_order : ∃ l : Ledger,
    (balanceReport exEnv exOrders 0 {} false false l).toOption.map BalReport.lines = some
      [⟨[.mk 2 "X".toList], 1, "A".toList⟩, ⟨[.mk 1 "X".toList], 1, "A1:B".toList⟩,
       ⟨[.mk (-3) "X".toList], 1, "Z".toList⟩] ∧
    (∀ x ∈ l.entries, ¬ Below "A1:B".toList x.2.account) :=
  ⟨{ transactions := [{ date := some 1, postings := [
      { account := "A1".toList, amount := some (.mk 1 "X".toList) },
      { account := "A:B".toList, amount := some (.mk 2 "X".toList) },
      { account := "Z".toList, amount := some (.mk (-3) "X".toList) }] }] },
    by decide +kernel, by decide +kernel⟩

/-- An account whose total is zero is left out, and its sub-account is glued to whatever comes before:
with 5 on `AA`, 5 on `B:X` and -5 on `B:Y` the report claims an account `AA:X`, and `B:X` is lost. -/
theorem C57_false_parent : ∃ l : Ledger,
    (balanceReport exEnv exOrders 0 {} false false l).toOption.map BalReport.lines = some
      [⟨[.mk 5 "X".toList], 1, "AA:X".toList⟩, ⟨[.mk (-5) "X".toList], 2, "Y".toList⟩,
       ⟨[.mk (-5) "X".toList], 1, "Z".toList⟩] ∧
    (∀ x ∈ l.entries, ¬ Below "AA:X".toList x.2.account) :=
  ⟨{ transactions := [{ date := some 1, postings := [
      { account := "AA".toList, amount := some (.mk 5 "X".toList) },
      { account := "B:X".toList, amount := some (.mk 5 "X".toList) },
      { account := "B:Y".toList, amount := some (.mk (-5) "X".toList) },
      { account := "Z".toList, amount := some (.mk (-5) "X".toList) }] }] },
    by decide +kernel, by decide +kernel⟩

/-- A depth limit does not stop collapsing: under `--depth 1` the only line below `A` is labelled with
an account of depth 3. -/
theorem C57_depth_exceeded : ∃ l : Ledger,
    (balanceReport exEnv exOrders 0 { depth := some 1 } false false l).toOption.map BalReport.lines = some
      [⟨[.mk 1 "X".toList], 1, "A:B:C".toList⟩, ⟨[.mk (-1) "X".toList], 1, "Z".toList⟩] :=
  ⟨{ transactions := [{ date := some 1, postings := [
      { account := "A:B:C".toList, amount := some (.mk 1 "X".toList) },
      { account := "Z".toList, amount := some (.mk (-1) "X".toList) }] }] },
    by decide +kernel⟩

/-! ### C58: no crash -/

/-- If every posting has an amount and every transaction a date, reports without query and exchange
rate do not fail (flat reports when no depth is given). -/
theorem C58_balance_partial {env : Env} {o : BalOrders} {today : Date} {f : FilterOpts}
    {depth : Option Nat} {flat showTotal : Bool} {l : Ledger}
    (ha : ∀ t ∈ l.transactions, ∀ p ∈ t.postings, p.amount.isSome)
    (hd : ∀ t ∈ l.transactions, t.date.isSome) (hf : flat = true → depth = none) :
    ∃ rep, balanceReport env o today { filter := f, depth := depth } flat showTotal l = .ok rep := by
  have hcol : ∃ r, collectAll env f none l.transactions [] l.commodities = .ok r := by
    generalize l.transactions = ts at ha hd
    generalize ([] : Balances) = bals
    generalize l.commodities = st
    induction ts generalizing bals st with
    | nil => exact ⟨_, rfl⟩
    | cons t ts ih =>
      obtain ⟨r, hr⟩ := collectPostings_ok (env := env) (o := f) (hd t (by simp)) t.postings
        (ha t (by simp)) bals st
      unfold collectAll
      rw [hr]
      exact ih (fun t ht => ha t (List.mem_cons_of_mem _ ht))
        (fun t ht => hd t (List.mem_cons_of_mem _ ht)) _ _
  obtain ⟨⟨bals, st⟩, hr⟩ := hcol
  have hq : queryNode env [] = .ok none := by simp [queryNode, preprocessQuery]
  unfold balanceReport
  simp only [hq, hr, exchangeTable]
  cases flat with
  | false =>
    simp only [Bool.false_eq_true, if_false]
    unfold finishBalance; simp only; split <;> exact ⟨_, rfl⟩
  | true =>
    rw [hf rfl]
    simp only [if_true, flatRows]
    unfold finishBalance; simp only; split <;> exact ⟨_, rfl⟩

theorem C58_register_partial {env : Env} {s : Nat → Shuf} {f : FilterOpts} {l : Ledger}
    (ha : ∀ t ∈ l.transactions, ∀ p ∈ t.postings, p.amount.isSome)
    (hd : ∀ t ∈ l.transactions, t.date.isSome) (hp : l.payees.Reachable env.lower) :
    ∃ lines, registerReport env s { filter := f } l = .ok lines := by
  have hq : queryNode env [] = .ok none := by simp [queryNode, preprocessQuery]
  have hall : ∀ (ts : List (Txn Posting)) (st : RegState), st.payees.Reachable env.lower →
      (∀ t ∈ ts, ∀ p ∈ t.postings, p.amount.isSome) → (∀ t ∈ ts, t.date.isSome) →
      ∃ r, registerAll env s f none ts st = .ok r := by
    intro ts
    induction ts with
    | nil => intro st _ _ _; exact ⟨_, rfl⟩
    | cons t ts ih =>
      intro st hp ha hd
      obtain ⟨r, hr, hpr⟩ := registerPostings_ok (env := env) (o := f) (s := s) (hd t (by simp))
        t.postings (ha t (by simp)) 0 st hp
      unfold registerAll
      rw [hr]
      exact ih r hpr (fun t ht => ha t (List.mem_cons_of_mem _ ht))
        (fun t ht => hd t (List.mem_cons_of_mem _ ht))
  obtain ⟨r, hr⟩ := hall l.transactions { commodities := l.commodities, payees := l.payees } hp ha hd
  unfold registerReport
  simp only [hq, hr]
  exact ⟨_, rfl⟩

/-- A transaction that passed the balancing pass has amounts on all its postings, if its virtual
postings were written with amounts. -/
theorem C58_amounts {s : Shuf} {skip : Bool} {bals bals' : Balances} {t t' : Txn Posting}
    {ret : Balance} (h : Txn.balance s skip bals t = .ok (bals', t', ret)) (hb : bals.Ok)
    (hp : ∀ p ∈ t.postings, p.CostOk)
    (hv : ∀ p ∈ t.postings, p.kind ≠ .real → p.amount.isSome) :
    ∀ q ∈ t'.postings, q.amount.isSome := by
  obtain ⟨⟨res, gen, h1, h2, _⟩, h3, _⟩ := C13_postings_preserved h hb hp
  intro q hq
  by_cases hk : q.kind = .real
  · exact h3 q hq hk
  · obtain ⟨res', gen', hB⟩ := balance_spec h hb hp
    rw [hB.postings] at hq
    simp only [List.mem_append, List.mem_filter] at hq
    rcases hq with (hq | hq) | ⟨hq, _⟩
    · exfalso
      obtain ⟨p, _, hr⟩ := forall₂_right hB.resolved q hq
      exact hk (by rw [hr.same])
    · exfalso
      rcases hB.cases with ⟨_, hg, _⟩ | ⟨p, _, _, ms, hg, _⟩
      · rw [hg] at hq; cases hq
      · rw [hg] at hq
        obtain ⟨m, _, rfl⟩ := List.mem_map.mp hq
        exact hk rfl
    · exact hv q hq hk

example : (∀ t ∈ exLedger.transactions, ∀ p ∈ t.postings, p.amount.isSome) ∧
    (∀ t ∈ exLedger.transactions, t.date.isSome) ∧ exLedger.payees.Reachable exEnv.lower :=
  ⟨by decide +kernel, by decide +kernel, .new⟩

/-- In general it is false: a transaction with a virtual posting without an amount is accepted, and
both reports crash on it. -/
theorem C58_false : ∃ t t' : Txn Posting,
    (Txn.balance .id false exFresh t).toOption.map (fun r => r.2.1) = some t' ∧
    (balanceReport exEnv exOrders 0 {} false true { transactions := [t'] }).isPanic = true ∧
    (registerReport exEnv (fun _ => .id) {} { transactions := [t'] }).isPanic = true :=
  ⟨{ date := some 1, postings := [
      { account := "Income".toList, amount := some (.mk 5 "X".toList) },
      { account := "Assets:Cash".toList, amount := some (.mk (-5) "X".toList) },
      { account := "Expenses:Fun".toList, kind := .virt }] },
    { date := some 1, postings := [
      { account := "Income".toList, amount := some (.mk 5 "X".toList) },
      { account := "Assets:Cash".toList, amount := some (.mk (-5) "X".toList) },
      { account := "Expenses:Fun".toList, kind := .virt }] },
    by decide +kernel, by decide +kernel, by decide +kernel⟩

/-! ### C59: the list commands -/

/-- `accounts`, `payees` and `commodities` print the name of every element of the list exactly once,
sorted, whatever the hash order. -/
theorem C59_list {T : Type} [Named T] {lower : Str → Str} {l : NList T} (h : l.Reachable lower)
    (s s' : Shuf) :
    (listCommand s l).Pairwise (· < ·) ∧
    (∀ n, n ∈ listCommand s l ↔ ∃ k e, l.list.get? k = some e ∧ Named.name e = n) ∧
    (listCommand s l).length = l.list.length ∧
    listCommand s l = listCommand s' l := by
  have hi := NList.Inv.reach h
  have hperm : ∀ s : Shuf, (listCommand s l).Perm (l.list.map (fun e => Named.name e.2)) := by
    intro s
    unfold listCommand
    have h1 := (sortBy_perm (fun a b : T => strLe (Named.name a) (Named.name b))
      ((s.run l.list).map Prod.snd)).map Named.name
    refine h1.trans ?_
    rw [List.map_map]
    exact (s.perm l.list).map _
  have hnd : (l.list.map (fun e => Named.name e.2)).Nodup := by
    have hk : l.list.keys = (l.list.map (fun e => Named.name e.2)).map lower := by
      unfold HMap.keys
      rw [List.map_map]
      exact List.map_congr_left (fun e he => hi.named e.1 e.2
        ((HMap.get?_eq_some_iff hi.nodupL _ _).mpr he))
    have := hi.nodupL
    rw [hk] at this
    exact List.Nodup.of_map _ this
  have hle : ∀ s, (listCommand s l).Pairwise (fun a b => strLe a b = true) := by
    intro s
    have ht : TotalLe (fun a b : T => strLe (Named.name a) (Named.name b)) :=
      ⟨fun a b => strLe_total.total _ _, fun a b c => strLe_total.trans _ _ _⟩
    unfold listCommand
    exact List.pairwise_map.mpr (sortBy_sorted ht _)
  have hlt : ∀ s, (listCommand s l).Pairwise (· < ·) := by
    intro s
    have hn : (listCommand s l).Nodup := (hperm s).nodup_iff.mpr hnd
    refine ((hle s).and hn).imp ?_
    rintro a b ⟨h1, h2⟩
    exact str_lt_of ((strLe_iff _ _).mp h1) h2
  refine ⟨hlt s, ?_, ?_, ?_⟩
  · intro n
    rw [(hperm s).mem_iff, List.mem_map]
    constructor
    · rintro ⟨e, he, rfl⟩
      exact ⟨e.1, e.2, (HMap.get?_eq_some_iff hi.nodupL _ _).mpr he, rfl⟩
    · rintro ⟨k, e, he, rfl⟩
      exact ⟨(k, e), HMap.mem_of_get? he, rfl⟩
  · rw [(hperm s).length_eq, List.length_map]
  · refine List.Perm.eq_of_pairwise ?_ (hlt s) (hlt s') ((hperm s).trans (hperm s').symm)
    intro a b _ _ h1 h2
    exact absurd (List.lt_trans h1 h2) (List.lt_irrefl _)

example : listCommand .rev ((NList.new.insert exLower ({ name := "beta".toList } : PayeeDef)).insert
      exLower { name := "Alpha".toList }) = ["Alpha".toList, "beta".toList] := by decide +kernel

end Dinero
