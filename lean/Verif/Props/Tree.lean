import Verif.Lemmas.Tree
import Verif.Props.Columns
/-
The labels of the tree report (C57), with and without `--exchange` (C77).
-/
namespace Dinero

theorem headed_below {sel : List (Txn Posting × Posting)} (a : Str) (c : Cur) :
    selSum sel (inSubtree a) c = selSum sel (fun x => Below a x) c := by
  apply selSum_congr
  intro x _
  rw [Bool.eq_iff_iff, inSubtree_iff]; simp

theorem treeRows_left {o : BalOrders} {bals : Balances} {sel : List (Txn Posting × Posting)}
    (h : Collected bals sel) (hh : ∀ x ∈ sel, x.2.account.head? ≠ some ':') (a : Str) :
    a ∈ (treeRows o bals).map Prod.fst ↔ Left sel a := by
  obtain ⟨_, h2, h3⟩ := treeRows_spec (o := o) h hh
  constructor
  · intro ha
    obtain ⟨e, he, rfl⟩ := List.mem_map.mp ha
    obtain ⟨h4, h5, h6⟩ := h2 e he
    obtain ⟨c, hc⟩ := (Canon.isZero_false h4).mp h5
    exact ⟨c, by rw [← headed_below, ← h6]; exact hc⟩
  · rintro ⟨c, hc⟩
    obtain ⟨b, hb⟩ := h3 a ⟨c, by rw [headed_below]; exact hc⟩
    exact List.mem_map.mpr ⟨_, hb, rfl⟩

/-- **C57**: if the accounts of the selected postings form a tree that can be drawn (`TreeFit`) and no name
starts with a colon, every line of the printed tree denotes an account on which something is left, is
indented by the depth of the account it starts at, and shows that account's total; and every account
on which something is left within the depth is visible: it is the account a line starts at, the one
it denotes, or one in between, and the line shows its total. -/
theorem C57_labels_partial {env : Env} {o : BalOrders} {today : Date} {opts : ReportOpts}
    {showTotal : Bool} {l : Ledger} {rep : BalReport} {sel : List (Txn Posting × Posting)}
    (hx : opts.exchange = none) (hs : Selected env opts l sel)
    (h : balanceReport env o today opts false showTotal l = .ok rep)
    (hh : ∀ x ∈ sel, x.2.account.head? ≠ some ':') (hf : TreeFit sel) :
    (∀ line ∈ rep.lines, ∃ a b, line.indent = components a ∧ Labels a b line.label ∧ Below a b ∧
      Left sel b ∧ Shows line.amounts (selSum sel (fun x => Below b x))) ∧
    (∀ x, Left sel x → (∀ d, opts.depth = some d → components x ≤ d) →
      ∃ line ∈ rep.lines, ∃ a b, line.indent = components a ∧ Labels a b line.label ∧
        Below a x ∧ Below x b ∧ Shows line.amounts (selSum sel (fun y => Below x y))) := by
  obtain ⟨node, st, hq, hsel⟩ := hs
  have h0 := h
  unfold balanceReport at h
  rw [hq] at h; simp only at h
  split at h
  · cases h
  next bals st' hc =>
  obtain ⟨sel0, hsel0, _, hcol⟩ := collected hc
  obtain ⟨rfl, rfl⟩ := hsel.unique hsel0
  have hfin : finishBalance o false showTotal opts.depth bals none (treeRows o bals) = .ok rep := by
    simpa [hx, exchangeTable] using h
  obtain ⟨hl, _⟩ := finishBalance_plain hfin
  obtain ⟨t1, t2, _⟩ := treeRows_spec (o := o) hcol hh
  have hleft := treeRows_left (o := o) hcol hh
  have hperm := sortBy_perm (fun a b : Str × Balance => strLe a.1 b.1) (treeRows o bals)
  have ham : ∀ e ∈ treeRows o bals, ∀ c, e.2.amountOf c = selSum sel (fun x => Below e.1 x) c := by
    intro e he c; rw [(t2 e he).2.2 c, headed_below]
  have hord : Orderly (sortBy (fun a b => strLe a.1 b.1) (treeRows o bals)) := by
    refine orderly_of_fit hf (List.pairwise_map.mp (sorted_strict t1)) ?_ ?_
    · intro a; rw [(hperm.map Prod.fst).mem_iff]; exact hleft a
    · intro a ha b hb hab c
      rw [ham a (hperm.mem_iff.mp ha), ham b (hperm.mem_iff.mp hb), hab]
  obtain ⟨p1, p2⟩ := tree_lines t1 (fun e he => (t2 e he).1) (fun e he => (t2 e he).2.1) hord
    opts.depth o.shown
  rw [hl]
  constructor
  · intro line hline
    obtain ⟨a, _, b, hb, q1, q2, q3, q4⟩ := p1 line hline
    exact ⟨a.1, b.1, q1, q2, q3, (hleft b.1).mp (List.mem_map_of_mem hb), q4.congr (ham b hb)⟩
  · intro x hxl hxd
    obtain ⟨e, he, rfl⟩ := List.mem_map.mp ((hleft x).mpr hxl)
    obtain ⟨line, hline, a, _, b, _, q1, q2, q3, q4, q5⟩ := p2 e he hxd
    exact ⟨line, hline, a.1, b.1, q1, q2, q3, q4, q5.congr (ham e he)⟩

/-- All postings are selected when there are no options, and they form a tree that can be drawn. -/
example : Selected exEnv {} exChain exChain.entries :=
  ⟨none, _, rfl, .keep rfl (.keep rfl (.keep rfl (.nil _)))⟩
example : (∀ x ∈ exChain.entries, x.2.account.head? ≠ some ':') ∧ TreeFit exChain.entries :=
  ⟨by decide +kernel, treeFit_of ["X".toList] (by decide +kernel) (by decide +kernel)⟩

/-! ### C77: the tree with `--exchange` -/

/-- The amounts of a canonical balance determine its conversion. -/
theorem convertedTo_canon {ms : HMap Cur Rat} {target : Cur} {b : Balance} {f g g' : Cur → Rat} (hb : b.Canon)
    (hf : ∀ c, b.amountOf c = f c) (h : ConvertedTo ms target f g) (h' : ConvertedTo ms target f g') (d : Cur) :
    g d = g' d := by
  refine h.unique h' (cs := b.keys.filterMap id) ?_ ?_ d
  · refine List.Nodup.filterMap ?_ hb.toWF.nodup
    intro a a' x hx hx'
    simp only [id, Option.mem_def] at hx hx'
    rw [hx, hx']
  · intro c hc
    rw [← hf, Balance.amountOf_eq hb.toWF] at hc
    cases hgt : HMap.get? b (some c) with
    | none => rw [hgt] at hc; exact absurd rfl hc
    | some m =>
      exact List.mem_filterMap.mpr ⟨some c, HMap.mem_keys_of_mem
        ((HMap.get?_eq_some_iff hb.toWF.nodup _ _).mp hgt), rfl⟩

theorem names_eq {rows rows' : List (Str × Balance)} (h : List.Forall₂ (fun e e' => e'.1 = e.1) rows rows') :
    rows'.map Prod.fst = rows.map Prod.fst := by
  induction h with
  | nil => rfl
  | cons hab _ ih => rw [List.map_cons, List.map_cons, ih, hab]

/-- **C77**, the lines of the tree report, under the conditions of C57 and if no account on which something is
left is worth nothing after conversion: every line denotes an account on which something is left
and shows its total after conversion, and every such account within the depth is visible. -/
theorem C77_tree_partial {env : Env} {o : BalOrders} {today : Date} {opts : ReportOpts} {showTotal : Bool}
    {l : Ledger} {rep : BalReport} {x target : Str} {node : Option Ast}
    {sel : List (Txn Posting × Posting)} {st : Commodities}
    (hx : opts.exchange = some x) (hn : queryNode env opts.query = .ok node)
    (hs : Selects env opts.filter node l.entries l.commodities sel st)
    (hf : Finds env.lower st x target)
    (h : balanceReport env o today opts false showTotal l = .ok rep)
    (hh : ∀ y ∈ sel, y.2.account.head? ≠ some ':') (ht : TreeFit sel)
    (hv : ∀ ms, conversion o.conv target today l.prices = .ok ms → ∀ a, Left sel a → ∀ g,
      ConvertedTo ms target (selSum sel (fun y => Below a y)) g → ∃ c, g c ≠ 0) :
    ∃ ms, conversion o.conv target today l.prices = .ok ms ∧
      (∀ line ∈ rep.lines, ∃ a b, line.indent = components a ∧ Labels a b line.label ∧ Below a b ∧
        Left sel b ∧ ∃ g, ConvertedTo ms target (selSum sel (fun y => Below b y)) g ∧ Shows line.amounts g) ∧
      (∀ y, Left sel y → (∀ d, opts.depth = some d → components y ≤ d) →
        ∃ line ∈ rep.lines, ∃ a b, line.indent = components a ∧ Labels a b line.label ∧
          Below a y ∧ Below y b ∧
          ∃ g, ConvertedTo ms target (selSum sel (fun z => Below y z)) g ∧ Shows line.amounts g) := by
  obtain ⟨node', sel', st', bals, rows, h1, h2, hcol, hrows, h5⟩ := balanceReport_exchange h hx
  rw [hn] at h1; cases h1
  obtain ⟨rfl, rfl⟩ := hs.unique h2
  rcases h5 with ⟨⟨e, he⟩, _, _⟩ | ⟨target', ms, rows', ⟨cu, hc, rfl⟩, h7, h8, h9⟩
  · obtain ⟨c, hc, _⟩ := hf
    rw [he] at hc; cases hc
  obtain ⟨c', hc', rfl⟩ := hf
  rw [hc] at hc'; cases hc'
  obtain ⟨hfin, _, _⟩ := finishBalance_exchange hcol h9
  simp only [Bool.false_eq_true, if_false, Except.ok.injEq] at hrows
  subst hrows
  obtain ⟨hl, _⟩ := finishBalance_plain hfin
  simp only at hl
  obtain ⟨t1, t2, _⟩ := treeRows_spec (o := o) hcol hh
  have hleft := treeRows_left (o := o) hcol hh
  have ham : ∀ e ∈ treeRows o bals, ∀ c, e.2.amountOf c = selSum sel (fun x => Below e.1 x) c := by
    intro e he c; rw [(t2 e he).2.2 c, headed_below]
  have hconv := convertRows_spec (treeRows o bals) (fun e he => (t2 e he).1) h8
  have hnames : rows'.map Prod.fst = (treeRows o bals).map Prod.fst :=
    names_eq (hconv.imp (fun _ _ h => h.1))
  have hcv : ∀ e ∈ rows', e.2.Canon ∧
      ConvertedTo ms (Named.name cu) (selSum sel (fun x => Below e.1 x)) e.2.amountOf := by
    intro e he
    obtain ⟨e0, he0, heq, hcan, hcv⟩ := Forall₂.mem_right hconv he
    refine ⟨hcan, ?_⟩
    rw [heq]
    exact hcv.congr (ham e0 he0)
  have huniq : ∀ e ∈ rows', ∀ g, ConvertedTo ms (Named.name cu) (selSum sel (fun x => Below e.1 x)) g →
      ∀ c, e.2.amountOf c = g c := by
    intro e he g hg c
    obtain ⟨e0, he0, heq, hcan, hcv0⟩ := Forall₂.mem_right hconv he
    exact convertedTo_canon (t2 e0 he0).1 (by rw [heq]; exact ham e0 he0) (hcv e he).2 hg c
  have hleft' : ∀ a, a ∈ rows'.map Prod.fst ↔ Left sel a := fun a => by rw [hnames]; exact hleft a
  have hnz : ∀ e ∈ rows', e.2.isZero = false := by
    intro e he
    exact (Canon.isZero_false (hcv e he).1).mpr
      (hv ms h7 e.1 ((hleft' e.1).mp (List.mem_map_of_mem he)) _ (hcv e he).2)
  have hnd : (rows'.map Prod.fst).Nodup := by rw [hnames]; exact t1
  have hperm := sortBy_perm (fun a b : Str × Balance => strLe a.1 b.1) rows'
  have hord : Orderly (sortBy (fun a b => strLe a.1 b.1) rows') := by
    refine orderly_of_fit ht (List.pairwise_map.mp (sorted_strict hnd)) ?_ ?_
    · intro a; rw [(hperm.map Prod.fst).mem_iff]; exact hleft' a
    · intro a ha b hb hab c
      have hb := hperm.mem_iff.mp hb
      exact huniq a (hperm.mem_iff.mp ha) _ ((hcv b hb).2.congr (fun c => (hab c).symm)) c
  obtain ⟨p1, p2⟩ := tree_lines hnd (fun e he => (hcv e he).1) hnz hord opts.depth o.shown
  rw [hl]
  refine ⟨ms, h7, ?_, ?_⟩
  · intro line hline
    obtain ⟨a, _, b, hb, q1, q2, q3, q4⟩ := p1 line hline
    exact ⟨a.1, b.1, q1, q2, q3, (hleft' b.1).mp (List.mem_map_of_mem hb), _, (hcv b hb).2, q4⟩
  · intro y hyl hyd
    obtain ⟨e, he, rfl⟩ := List.mem_map.mp ((hleft' y).mpr hyl)
    obtain ⟨line, hline, a, _, b, _, q1, q2, q3, q4, q5⟩ := p2 e he hyd
    exact ⟨line, hline, a.1, b.1, q1, q2, q3, q4, _, (hcv e he).2, q5⟩

/-- The ledger of C57, in a journal where one `X` costs 2 `EUR`. -/
def exWorth : Ledger :=
  { exChain with
    commodities := NList.insert exEnv.lower {} { name := "EUR".toList }
    prices := [⟨0, "X".toList, 2, "EUR".toList⟩] }

example : (balanceReport exEnv exOrders 0 { exchange := some "EUR".toList } false false exWorth).toOption.map
    BalReport.lines = some
    [⟨[.mk 20 "EUR".toList], 1, "A".toList⟩, ⟨[.mk 14 "EUR".toList], 2, "B:C".toList⟩,
     ⟨[.mk 6 "EUR".toList], 2, "D".toList⟩, ⟨[.mk (-20) "EUR".toList], 1, "Z".toList⟩] := by
  decide +kernel

example : Selects exEnv {} none exWorth.entries exWorth.commodities exWorth.entries exWorth.commodities ∧
    (exWorth.commodities.get exEnv.lower "EUR".toList).toOption.map Named.name = some "EUR".toList ∧
    TreeFit exWorth.entries :=
  ⟨.keep rfl (.keep rfl (.keep rfl (.nil _))), by decide +kernel,
    treeFit_of ["X".toList] (by decide +kernel) (by decide +kernel)⟩

/-- No account of that ledger is worth nothing. -/
example : ∀ ms, conversion exOrders.conv "EUR".toList 0 exWorth.prices = .ok ms →
    ∀ a, Left exWorth.entries a → ∀ g,
      ConvertedTo ms "EUR".toList (selSum exWorth.entries (fun y => Below a y)) g → ∃ c, g c ≠ 0 := by
  intro ms hms a ha g hg
  have hr : (conversion exOrders.conv "EUR".toList 0 exWorth.prices).toOption.map
      (fun ms => rateOf ms "EUR".toList "X".toList) = some 2 := by decide +kernel
  rw [hms] at hr
  simp only [Except.toOption, Option.map_some, Option.some.injEq] at hr
  have hcs : ∀ c, selSum exWorth.entries (fun y => Below a y) c ≠ 0 → c ∈ ["X".toList] := by
    intro c
    apply selSum_other
    intro x hx m hm c h0
    have hall : exWorth.entries.all (fun x => x.2.amount.all (fun m => m.commodity.all
        (["X".toList].contains ·))) = true := by decide +kernel
    have := List.all_eq_true.mp hall x hx
    rw [Option.mem_def.mp hm] at this
    unfold Money.amountIn at h0
    split at h0
    · next hmc => simpa [hmc] using this
    · exact absurd rfl h0
  obtain ⟨c, hc⟩ := ha
  have hcx : c = "X".toList := by simpa using hcs c hc
  rw [hcx] at hc
  refine ⟨"EUR".toList, ?_⟩
  rw [hg.total ["X".toList] (by simp) hcs]
  simp only [List.map_cons, List.map_nil, List.sum_cons, List.sum_nil, add_zero, hr]
  exact mul_ne_zero hc (by decide +kernel)

/-- Without that condition the tree misleads: `B` is worth nothing and left out, and its sub-accounts
are printed below `AA`. -/
theorem C77_false_tree : ∃ l : Ledger, TreeFit l.entries ∧
    (balanceReport exEnv exOrders 0 { exchange := some "EUR".toList } false false l).toOption.map
      BalReport.lines = some
      [⟨[.mk 5 "EUR".toList], 1, "AA".toList⟩, ⟨[.mk 4 "EUR".toList], 2, "X".toList⟩,
       ⟨[.mk (-4) "EUR".toList], 2, "Y".toList⟩, ⟨[.mk (-5) "EUR".toList], 1, "Z".toList⟩] :=
  ⟨{ transactions := [{ date := some 1, postings := [
        { account := "AA".toList, amount := some (.mk 5 "EUR".toList) },
        { account := "B:X".toList, amount := some (.mk 2 "X".toList) },
        { account := "B:Y".toList, amount := some (.mk (-4) "EUR".toList) },
        { account := "Z".toList, amount := some (.mk (-5) "EUR".toList) }] }]
     commodities := NList.insert exEnv.lower {} { name := "EUR".toList }
     prices := [⟨0, "X".toList, 2, "EUR".toList⟩] },
    treeFit_of ["X".toList, "EUR".toList] (by decide +kernel) (by decide +kernel), by decide +kernel⟩

end Dinero
