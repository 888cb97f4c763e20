import Verif.Lemmas.Depths
import Verif.Props.Outer
import Verif.Props.Periods
/-
Property theorems about reports of different depths (C139).
-/
namespace Dinero

/-! ### C139: reports of different depths agree -/

/-- What a flat report shows, over any accounts: `key` is what it does to the names of accounts. -/
theorem flat_among {env : Env} {o : BalOrders} {today : Date} {opts : ReportOpts} {showTotal : Bool} {l : Ledger}
    {rep : BalReport} {sel : List (Txn Posting × Posting)} (hx : opts.exchange = none) (hs : Selected env opts l sel)
    (h : balanceReport env o today opts true showTotal l = .ok rep) {key : Str → Str}
    (hk : ∀ a g, (match opts.depth with | none => a = g | some d => CutTo d a g) ↔ key a = g) :
    (∀ q c, rep.among q c = selSum sel (fun a => q (key a)) c) ∧
    (∀ g, (∃ line ∈ rep.lines, line.label = g) ↔ ∃ c, selSum sel (fun a => key a = g) c ≠ 0) := by
  have hmain : (rep.lines.map BalLine.label).Pairwise (· < ·) ∧
      (∀ line ∈ rep.lines, ∀ c, sumIn line.amounts c = selSum sel (fun a => key a = line.label) c) ∧
      (∀ g, (∃ line ∈ rep.lines, line.label = g) ↔ ∃ c, selSum sel (fun a => key a = g) c ≠ 0) := by
    cases hd : opts.depth with
    | none =>
      obtain ⟨sel', g1, g2, g3, g4⟩ := C51_flat hd hx h
      obtain rfl := hs.unique g1
      simp only [hd] at hk
      have e : ∀ g, (fun a => decide (key a = g)) = fun a => decide (a = g) := fun g => by
        funext a; rw [decide_eq_decide]; exact (hk a g).symm
      simp only [e]
      exact ⟨g2, fun line hm c => (g3 line hm).2.sum c, g4⟩
    | some d =>
      obtain ⟨node, sel0, st, bals, hn, _, hc⟩ := balanceReport_selected h
      obtain ⟨sel', g1, k1 | ⟨_, rep', k2, g2, g3, g4⟩⟩ := C54_flat_depth_partial (o := o) (today := today)
        (showTotal := showTotal) hd hx hn hc
      · rw [h] at k1; cases k1.2
      rw [h] at k2; cases k2
      obtain rfl := hs.unique g1
      simp only [hd] at hk
      have e : ∀ g, (fun a => decide (key a = g)) = fun a => decide (CutTo d a g) := fun g => by
        funext a; rw [decide_eq_decide]; exact (hk a g).symm
      simp only [e]
      exact ⟨g2, fun line hm c => (g3 line hm).2.sum c, g4⟩
  obtain ⟨m1, m2, m3⟩ := hmain
  refine ⟨fun q c => ?_, m3⟩
  have hnd : (rep.lines.map BalLine.label).Nodup := m1.imp (fun h e => by rw [e] at h; exact absurd h (List.lt_irrefl _))
  rw [selSum_lines sel key hnd c _ q]
  · unfold BalReport.among shownSum
    rw [List.filter_map, List.map_map]
    congr 1
    apply List.map_congr_left
    intro line hline
    exact m2 line (List.mem_filter.mp hline).1 c
  · intro g hg
    by_contra hne
    obtain ⟨line, hm, rfl⟩ := (m3 g).mpr ⟨c, hne⟩
    exact hg (List.mem_map_of_mem hm)

/-- What a depth does to the names of accounts. -/
def depthKey (d : Option Nat) (a : Str) : Str := match d with | none => a | some d => cutName d a

theorem depthKey_iff (d : Option Nat) (a g : Str) : (match d with | none => a = g | some d => CutTo d a g) ↔ depthKey d a = g := by
  cases d with
  | none => exact Iff.rfl
  | some d => exact (cut_iff d a g).symm

/-- Every line of a flat report with a depth is the sum of the lines of the flat report with a greater depth, or without one, that
it stands for, and it is there exactly if that is not nothing. -/
theorem C139_flat {env : Env} {o o' : BalOrders} {today : Date} {opts : ReportOpts} {t t' : Bool} {l : Ledger} {coarse fine : BalReport}
    {d : Nat} {d' : Option Nat} (hx : opts.exchange = none) (hd : NoDeeper d d')
    (h : balanceReport env o today { opts with depth := some d } true t l = .ok coarse)
    (h' : balanceReport env o' today { opts with depth := d' } true t' l = .ok fine) (g : Str) :
    (∀ c, coarse.says g c = fine.among (fun a => CutTo d a g) c) ∧
    ((∃ line ∈ coarse.lines, line.label = g) ↔ ∃ c, fine.among (fun a => CutTo d a g) c ≠ 0) := by
  obtain ⟨sel, hs, hsays⟩ := flat_says (opts := { opts with depth := some d }) hx h
  have hs' : Selected env { opts with depth := d' } l sel := hs
  obtain ⟨_, k2⟩ := flat_among (opts := { opts with depth := some d }) hx hs h (fun a g => depthKey_iff (some d) a g)
  obtain ⟨k3, _⟩ := flat_among (opts := { opts with depth := d' }) hx hs' h' (fun a g => depthKey_iff d' a g)
  have e : ∀ c, fine.among (fun a => CutTo d a g) c = selSum sel (fun a => CutTo d a g) c := by
    intro c
    rw [k3]
    congr 1
    funext a
    rw [decide_eq_decide, ← cut_iff, ← cut_iff]
    cases d' with
    | none => exact Iff.rfl
    | some d' =>
      have := cutName_cutName (hd d' rfl) a
      unfold depthKey
      unfold cutName at this ⊢
      rw [this]
  have e2 : (fun a => decide (depthKey (some d) a = g)) = fun a => decide (CutTo d a g) := by
    funext a; rw [decide_eq_decide]; exact (depthKey_iff (some d) a g).symm
  refine ⟨fun c => by rw [hsays, e], ?_⟩
  rw [k2 g, e2]
  simp only [e]

/-- Every line of a tree, of any depth, is the sum of the lines of the flat report for the account it starts at and those below. -/
theorem C139_tree_partial {env : Env} {o o' : BalOrders} {today : Date} {opts : ReportOpts} {t t' : Bool} {l : Ledger} {tree flat : BalReport}
    {sel : List (Txn Posting × Posting)} {d : Option Nat} (hx : opts.exchange = none) (hs : Selected env opts l sel)
    (h : balanceReport env o today { opts with depth := d } false t l = .ok tree)
    (h' : balanceReport env o' today { opts with depth := none } true t' l = .ok flat)
    (hh : ∀ x ∈ sel, x.2.account.head? ≠ some ':') :
    ∃ starts : List Str, starts.Pairwise (· < ·) ∧
      List.Forall₂ (fun line a => line.indent = components a ∧ Heads a line.label ∧
        Shows line.amounts (flat.among (fun x => Below a x))) tree.lines starts := by
  obtain ⟨starts, s1, s2, _⟩ := C135_lines_partial (opts := { opts with depth := d }) hx hs h hh
  obtain ⟨k3, _⟩ := flat_among (opts := { opts with depth := none }) hx hs h' (fun a g => depthKey_iff none a g)
  refine ⟨starts, s1, s2.imp (fun line a hl => ⟨hl.1, hl.2.1, ?_⟩)⟩
  refine hl.2.2.2.2.congr (fun c => ?_)
  rw [k3]
  rfl

/-- The outermost lines of a tree add up to the lines of any flat report. -/
theorem C139_outer {env : Env} {o o' : BalOrders} {today : Date} {opts : ReportOpts} {t t' : Bool} {l : Ledger} {tree flat : BalReport}
    {d d' : Option Nat} (hx : opts.exchange = none) (hd : d ≠ some 0)
    (h : balanceReport env o today { opts with depth := d } false t l = .ok tree)
    (h' : balanceReport env o' today { opts with depth := d' } true t' l = .ok flat) (c : Cur) :
    shownSum tree.outer c = shownSum flat.lines c := by
  obtain ⟨sel, hs, _⟩ := flat_says (opts := { opts with depth := d' }) hx h'
  rw [C134_outer (opts := { opts with depth := d }) hx hs h hd c]
  obtain ⟨k3, _⟩ := flat_among (opts := { opts with depth := d' }) hx hs h' (fun a g => depthKey_iff d' a g)
  have := k3 (fun _ => true) c
  unfold BalReport.among at this
  rw [List.filter_true] at this
  exact this.symm

/-- The same for the commands. -/
theorem C139_commands {r : Run} {o o' : BalOrders} {today : Date} {opts : ReportOpts} {skip t t' : Bool} {path : Str}
    {coarse fine : BalReport} {d : Nat} {d' : Option Nat} (hx : opts.exchange = none) (hd : NoDeeper d d')
    (h : balanceCommand r o today { opts with depth := some d } skip true t path = .ok coarse)
    (h' : balanceCommand r o' today { opts with depth := d' } skip true t' path = .ok fine) (g : Str) :
    (∀ c, coarse.says g c = fine.among (fun a => CutTo d a g) c) ∧
    ((∃ line ∈ coarse.lines, line.label = g) ↔ ∃ c, fine.among (fun a => CutTo d a g) c ≠ 0) := by
  obtain ⟨L, hl, k⟩ := balanceCommand_report h
  obtain ⟨L', hl', k'⟩ := balanceCommand_report h'
  rw [hl] at hl'
  cases hl'
  exact C139_flat hx hd k k' g

/-- What two reports of a ledger say: on the lines of the first, and added up over those of the second that it stands for. -/
def exBoth (d : Nat) (d' : Option Nat) (c : Cur) : Option (List (Str × Rat × Rat)) :=
  match balanceReport exEnv exOrders 0 { depth := some d } true true exLedger, balanceReport exEnv exOrders 0 { depth := d' } true true exLedger with
  | .ok coarse, .ok fine =>
    some (coarse.lines.map (fun l => (l.label, coarse.says l.label c, fine.among (fun a => decide (CutTo d a l.label)) c)))
  | _, _ => none

example : exBoth 1 none "EUR".toList =
      some [("Assets".toList, 0, 0), ("Expenses".toList, 40, 40), ("Income".toList, -100, -100)] ∧
    exBoth 1 (some 2) "ACME".toList = some [("Assets".toList, 2, 2), ("Expenses".toList, 0, 0), ("Income".toList, 0, 0)] ∧
    NoDeeper 1 (some 2) ∧ NoDeeper 1 none := by
  refine ⟨by decide +kernel, by decide +kernel, ?_, ?_⟩
  · rintro d' ⟨⟩; decide
  · rintro d' ⟨⟩

/-- The other way round it is false: a coarse report does not say what a finer one does. -/
example : (match balanceReport exEnv exOrders 0 { depth := some 2 } true true exLedger,
      balanceReport exEnv exOrders 0 { depth := some 1 } true true exLedger with
    | .ok fine, .ok coarse =>
      some (fine.says "Expenses:Food".toList "EUR".toList, coarse.among (fun a => decide (CutTo 2 a "Expenses:Food".toList)) "EUR".toList)
    | _, _ => none) = some (30, 0) := by decide +kernel

/-- The lines of a tree and the sums over the lines of the flat report for the accounts they start at. -/
example : (∀ x ∈ exLedger.entries, x.2.account.head? ≠ some ':') ∧
    (balanceReport exEnv exOrders 0 { depth := some 1 } false true exLedger).toOption.map
        (fun rep => rep.lines.map (fun l => (l.label, l.amounts))) =
      some [("Assets:Shares".toList, [.mk 2 "ACME".toList]), ("Expenses".toList, [.mk 40 "EUR".toList]), ("Income".toList, [.mk (-100) "EUR".toList])] ∧
    (balanceReport exEnv exOrders 0 {} true true exLedger).toOption.map (fun rep =>
      ["Assets".toList, "Expenses".toList, "Income".toList].map (fun a =>
        (rep.among (fun x => decide (Below a x)) "EUR".toList, rep.among (fun x => decide (Below a x)) "ACME".toList))) =
      some [(0, 2), (40, 0), (-100, 0)] := by
  refine ⟨?_, ?_, ?_⟩ <;> decide +kernel

/-- If names start with a colon, a line of the tree can leave something out (C135). -/
theorem C139_false : ∃ l : Ledger,
    (balanceReport exEnv exOrders 0 {} false false l).toOption.map BalReport.lines = some
      [⟨[.mk 7 "X".toList], 1, []⟩, ⟨[.mk 1 "X".toList], 2, "A:B".toList⟩, ⟨[.mk 4 "X".toList], 2, "C".toList⟩,
       ⟨[.mk (-7) "X".toList], 1, "Z".toList⟩] ∧
    (balanceReport exEnv exOrders 0 {} true false l).toOption.map (fun rep => rep.among (fun x => Below ":A".toList x) "X".toList) =
      some 3 :=
  ⟨{ transactions := [{ date := some 1, postings := [
      { account := ":A".toList, amount := some (.mk 1 "X".toList) },
      { account := ":A:B".toList, amount := some (.mk 2 "X".toList) },
      { account := ":C".toList, amount := some (.mk 4 "X".toList) },
      { account := "Z".toList, amount := some (.mk (-7) "X".toList) }] }] },
    by decide +kernel, by decide +kernel⟩

end Dinero
