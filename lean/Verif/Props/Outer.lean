import Verif.Lemmas.Outer
import Verif.Props.Options
/-
Property theorems about the lines of any tree report (C134, C135).
-/
namespace Dinero

/-! ### C134: the tree adds up -/

/-- The outermost lines of any tree add up to everything that is selected. -/
theorem C134_outer {env : Env} {o : BalOrders} {today : Date} {opts : ReportOpts} {showTotal : Bool} {l : Ledger}
    {rep : BalReport} {sel : List (Txn Posting × Posting)} (hx : opts.exchange = none) (hs : Selected env opts l sel)
    (h : balanceReport env o today opts false showTotal l = .ok rep) (hd : opts.depth ≠ some 0) (c : Cur) :
    shownSum rep.outer c = selSum sel (fun _ => true) c := by
  obtain ⟨sel', bals, rows, hsel, _, hcol, hrows, hfin⟩ := balanceReport_plain h hx
  obtain rfl := hs.unique hsel
  simp only [Bool.false_eq_true, if_false, Except.ok.injEq] at hrows
  subst hrows
  obtain ⟨hl, _⟩ := finishBalance_plain hfin
  obtain ⟨t1, t2, t3, t4⟩ := treeRows_tops (o := o) hcol
  have hperm := sortBy_perm (fun a b : Str × Balance => strLe a.1 b.1) (treeRows o bals)
  unfold BalReport.outer
  rw [hl, printLoop_outer hd o.shown c _ _ (Nat.le_refl _) (fun e he => t2 e (hperm.mem_iff.mp he)),
    ((hperm.filter _).map _).sum_eq, ← sum_tops (t1.sublist (List.filter_sublist.map _)) (mem_tops t4) c, List.map_map]
  congr 1
  apply List.map_congr_left
  intro e he
  exact t3 e (List.mem_filter.mp he).1 (noColon_of (List.mem_filter.mp he).2) c

/-- And with `--exchange` to everything that is selected, converted. -/
theorem C134_exchange {env : Env} {o : BalOrders} {today : Date} {opts : ReportOpts} {showTotal : Bool} {l : Ledger}
    {rep : BalReport} {sel : List (Txn Posting × Posting)} {x target : Str} {node : Option Ast} {st : Commodities}
    (hx : opts.exchange = some x) (hn : queryNode env opts.query = .ok node)
    (hs : Selects env opts.filter node l.entries l.commodities sel st) (hf : Finds env.lower st x target)
    (h : balanceReport env o today opts false showTotal l = .ok rep) (hd : opts.depth ≠ some 0) :
    ∃ ms, conversion o.conv target today l.prices = .ok ms ∧
      ∀ g, ConvertedTo ms target (selSum sel (fun _ => true)) g → ∀ c, shownSum rep.outer c = g c := by
  obtain ⟨node', sel', st', bals, rows, h1, h2, hcol, hrows, h5⟩ := balanceReport_exchange h hx
  rw [hn] at h1; cases h1
  obtain ⟨rfl, rfl⟩ := hs.unique h2
  rcases h5 with ⟨⟨e, he⟩, _, _⟩ | ⟨target', ms, rows', ⟨cu, hc, rfl⟩, h7, h8, h9⟩
  · obtain ⟨c, hc, _⟩ := hf
    rw [he] at hc; cases hc
  obtain ⟨c', hc', rfl⟩ := hf
  rw [hc] at hc'; cases hc'
  refine ⟨ms, h7, fun g hg c => ?_⟩
  obtain ⟨hfin, _, _⟩ := finishBalance_exchange hcol h9
  simp only [Bool.false_eq_true, if_false, Except.ok.injEq] at hrows
  subst hrows
  obtain ⟨hl, _⟩ := finishBalance_plain hfin
  simp only at hl
  obtain ⟨t1, t2, t3, t4⟩ := treeRows_tops (o := o) hcol
  have hconv := convertRows_spec (treeRows o bals) t2 h8
  have hnames : rows'.map Prod.fst = (treeRows o bals).map Prod.fst := names_eq (hconv.imp (fun _ _ h => h.1))
  have hcan : ∀ e ∈ rows', e.2.Canon := by
    intro e he
    obtain ⟨e0, he0, heq, hcan, hcv⟩ := Forall₂.mem_right hconv he
    exact hcan
  have hcv : ∀ e ∈ rows', ':' ∉ e.1 → ConvertedTo ms (Named.name cu) (selSum sel (fun x => Below e.1 x)) e.2.amountOf := by
    intro e he hcol
    obtain ⟨e0, he0, heq, hcan, hcv⟩ := Forall₂.mem_right hconv he
    rw [heq] at hcol ⊢
    exact hcv.congr (t3 e0 he0 hcol)
  have hperm := sortBy_perm (fun a b : Str × Balance => strLe a.1 b.1) rows'
  unfold BalReport.outer
  rw [hl, printLoop_outer hd o.shown c _ _ (Nat.le_refl _) (fun e he => hcan e (hperm.mem_iff.mp he)),
    ((hperm.filter _).map _).sum_eq]
  exact sum_converted (by rw [hnames]; exact t1) (fun a => by rw [hnames]; exact t4 a) hcv hg c

/-- So whatever the options are, the outermost lines add up to the total below them. -/
theorem C134_total {env : Env} {o : BalOrders} {today : Date} {opts : ReportOpts} {showTotal : Bool} {l : Ledger}
    {rep : BalReport} {tm : List Money} (h : balanceReport env o today opts false showTotal l = .ok rep)
    (ht : rep.total = some tm) (c : Cur) : shownSum rep.outer c = sumIn tm c := by
  have nothing : ∀ rows (s : Str → Shuf) k, printLoop false (some 0) s k rows = [] := by
    intro rows s k
    induction k generalizing rows with
    | zero => rfl
    | succ k ih =>
      cases rows with
      | nil => rfl
      | cons e rows =>
        unfold printLoop
        rw [if_pos, ih]
        unfold tooDeep
        have := components_pos e.1
        rw [← parts_eq_components] at this
        simpa using this
  have plain : ∀ opts' : ReportOpts, opts'.exchange = none → opts'.depth = opts.depth →
      balanceReport env o today opts' false showTotal l = .ok rep → shownSum rep.outer c = sumIn tm c := by
    intro opts' hx hdd h'
    by_cases hd : opts.depth = some 0
    · obtain ⟨_, _, _, _, _, _, _, hfin⟩ := balanceReport_plain h' hx
      obtain ⟨h1, h2⟩ := finishBalance_plain hfin
      rw [hdd, hd, nothing] at h1
      rw [h1] at h2
      simp [ht] at h2
    · obtain ⟨sel, h1, h2⟩ := C53_total hx h'
      rw [(h2 tm ht).sum c]
      exact C134_outer hx h1 h' (by rw [hdd]; exact hd) c
  cases hx : opts.exchange with
  | none => exact plain opts hx rfl h
  | some x =>
    obtain ⟨node, sel, st, bals, rows, h1, h2, hcol, hrows, h5⟩ := balanceReport_exchange h hx
    rcases h5 with ⟨_, _, h6⟩ | ⟨target, ms, rows', hf, h7, h8, h9⟩
    · exact plain { opts with exchange := none } rfl rfl h6
    · obtain ⟨hfin, k0, k3⟩ := finishBalance_exchange hcol h9
      by_cases hd : opts.depth = some 0
      · have hl := (finishBalance_plain hfin).1
        simp only at hl
        rw [hd, nothing] at hl
        have := (k0.mp (by rw [ht]; rfl)).2
        rw [hl] at this
        simp at this
      · obtain ⟨ms', k1, k2⟩ := C134_exchange hx h1 h2 hf h hd
        rw [h7] at k1; cases k1
        obtain ⟨g, g1, g2⟩ := k3 tm ht
        rw [g2.sum c]
        exact k2 g g1 c

/-- The same for the command. -/
theorem C134_command {r : Run} {o : BalOrders} {today : Date} {opts : ReportOpts} {skip showTotal : Bool} {path : Str}
    {rep : BalReport} {tm : List Money} (hr : balanceCommand r o today opts skip false showTotal path = .ok rep)
    (ht : rep.total = some tm) (c : Cur) : shownSum rep.outer c = sumIn tm c := by
  obtain ⟨L, hl, hrep⟩ := balanceCommand_report hr
  exact C134_total hrep ht c

/-! ### C135: where the lines of the tree start -/

/-- Every line of any tree starts at an account on which something is left, is indented by its depth, and shows what is on it and
below it; the lines are in the order of these accounts, and none starts two lines.  Every outermost account on which something is
left starts a line. -/
theorem C135_lines_partial {env : Env} {o : BalOrders} {today : Date} {opts : ReportOpts} {showTotal : Bool} {l : Ledger}
    {rep : BalReport} {sel : List (Txn Posting × Posting)} (hx : opts.exchange = none) (hs : Selected env opts l sel)
    (h : balanceReport env o today opts false showTotal l = .ok rep) (hh : ∀ x ∈ sel, x.2.account.head? ≠ some ':') :
    ∃ starts : List Str, starts.Pairwise (· < ·) ∧
      List.Forall₂ (fun line a => line.indent = components a ∧ Heads a line.label ∧ Left sel a ∧
        (∀ d, opts.depth = some d → components a ≤ d) ∧ Shows line.amounts (selSum sel (fun x => Below a x))) rep.lines starts ∧
      (opts.depth ≠ some 0 → ∀ a, ':' ∉ a → Left sel a → a ∈ starts) := by
  obtain ⟨sel', bals, rows, hsel, _, hcol, hrows, hfin⟩ := balanceReport_plain h hx
  obtain rfl := hs.unique hsel
  simp only [Bool.false_eq_true, if_false, Except.ok.injEq] at hrows
  subst hrows
  obtain ⟨hl, _⟩ := finishBalance_plain hfin
  obtain ⟨t1, t2, _⟩ := treeRows_spec (o := o) hcol hh
  have hleft := treeRows_left (o := o) hcol hh
  have hperm := sortBy_perm (fun a b : Str × Balance => strLe a.1 b.1) (treeRows o bals)
  have ham : ∀ e ∈ treeRows o bals, ∀ c, e.2.amountOf c = selSum sel (fun x => Below e.1 x) c := by
    intro e he c; rw [(t2 e he).2.2 c, headed_below]
  obtain ⟨es, e1, e2, e3, e4⟩ := printLoop_starts opts.depth o.shown _ (sortBy (fun a b => strLe a.1 b.1) (treeRows o bals)) (Nat.le_refl _)
  rw [← hl] at e2
  refine ⟨es.map Prod.fst, (sorted_strict t1).sublist (e1.map _), ?_, ?_⟩
  · rw [List.forall₂_map_right_iff]
    have hm : ∀ e ∈ es, e ∈ treeRows o bals := fun e he => hperm.mem_iff.mp (e1.subset he)
    have key : ∀ {ls : List BalLine} {es : List (Str × Balance)}, List.Forall₂ (LineOf o.shown) ls es →
        (∀ e ∈ es, e ∈ treeRows o bals ∧ tooDeep opts.depth e.1 = false) →
        List.Forall₂ (fun line (e : Str × Balance) => line.indent = components e.1 ∧ Heads e.1 line.label ∧ Left sel e.1 ∧
          (∀ d, opts.depth = some d → components e.1 ≤ d) ∧ Shows line.amounts (selSum sel (fun x => Below e.1 x))) ls es := by
      intro ls es hf
      induction hf with
      | nil => intro _; exact .nil
      | @cons line e ls es hle _ ih =>
        intro hall
        obtain ⟨h1, h2⟩ := hall e (by simp)
        refine .cons ⟨by rw [hle.2.1, parts_eq_components], heads_of hle.2.2, (hleft e.1).mp (List.mem_map_of_mem h1),
          tooDeep_false.mp h2, ?_⟩ (ih (fun e he => hall e (List.mem_cons_of_mem _ he)))
        rw [hle.1]
        exact (Canon.shows (t2 e h1).1 _).congr (ham e h1)
    exact key e2 (fun e he => ⟨hm e he, (e3 e he).1⟩)
  · intro hd a ha hla
    obtain ⟨e, he, rfl⟩ := List.mem_map.mp ((hleft a).mpr hla)
    refine List.mem_map_of_mem (e4 e (hperm.mem_iff.mpr he) ?_ (t2 e he).2.1 ?_)
    · rw [tooDeep_false]
      intro d hdd
      rw [components_one.mpr ha]
      rcases d with _ | d
      · exact absurd hdd hd
      · omega
    · rw [parts_eq_components]; exact components_one.mpr ha

/-- It is false if names start with a colon: with postings on `:A`, `:A:B`, `:C` and `Z` the line that starts at `:A` leaves out what
is on `:A:B`, which starts no line and is part of the label. -/
theorem C135_false : ∃ l : Ledger,
    (balanceReport exEnv exOrders 0 {} false false l).toOption.map BalReport.lines = some
      [⟨[.mk 7 "X".toList], 1, []⟩, ⟨[.mk 1 "X".toList], 2, "A:B".toList⟩, ⟨[.mk 4 "X".toList], 2, "C".toList⟩,
       ⟨[.mk (-7) "X".toList], 1, "Z".toList⟩] ∧
    selSum l.entries (fun x => Below ":A".toList x) "X".toList = 3 :=
  ⟨{ transactions := [{ date := some 1, postings := [
      { account := ":A".toList, amount := some (.mk 1 "X".toList) },
      { account := ":A:B".toList, amount := some (.mk 2 "X".toList) },
      { account := ":C".toList, amount := some (.mk 4 "X".toList) },
      { account := "Z".toList, amount := some (.mk (-7) "X".toList) }] }] },
    by decide +kernel, by decide +kernel⟩

/-! ### Examples -/

/-- A tree that cannot be drawn as it should be (C57): the lines still add up. -/
def exMuddle : Ledger :=
  { transactions := [{ date := some 1, postings := [
      { account := "A1".toList, amount := some (.mk 1 "X".toList) },
      { account := "A:B".toList, amount := some (.mk 2 "X".toList) },
      { account := ":C".toList, amount := some (.mk 4 "X".toList) },
      { account := "Z".toList, amount := some (.mk (-3) "X".toList) }] }] }

example : (balanceReport exEnv exOrders 0 {} false true exMuddle).toOption.map (fun rep =>
    (rep.outer.map (fun l => (l.amounts, l.label)), rep.total)) =
    some ([([.mk 4 "X".toList], []), ([.mk 2 "X".toList], "A".toList), ([.mk 1 "X".toList], "A1:B".toList),
      ([.mk (-3) "X".toList], "Z".toList)], some [.mk 4 "X".toList]) := by decide +kernel

/-- Lines further in do not add up to the line above them, not even for a tree that can be drawn, as an account can have something
of its own; and at depth 0 there are no lines at all. -/
example : (balanceReport exEnv exOrders 0 { depth := some 0 } false true exMuddle).toOption.map (fun rep => (rep.lines, rep.total)) =
    some ([], none) := by decide +kernel

example : ∀ x ∈ exChain.entries, x.2.account.head? ≠ some ':' := by decide +kernel

end Dinero
