import Verif.Lemmas.Whole
import Verif.Props.Merge
import Verif.Props.Periods
/-
Property theorems about journals with their transactions in another order, or at other dates (C143).
-/
namespace Dinero

/-! ### C143: the course of events -/

/-- What becomes of the two journals. -/
theorem course_conv {env : Env} {o o' : LedgerOrders} {pl pl' : ParsedLedger} (g : Rearranged pl pl') (hf : OrderFree env pl)
    (h : pl.Ok env.lower) (h' : pl'.Ok env.lower) (hz : pl.NoFreeTotals) (skip : Bool)
    (hd : pl.Timeless skip ∨ ∃ f, InStep f pl.regular pl'.regular) :
    ((∃ L, toLedger env o skip pl = .ok L) ↔ ∃ L, toLedger env o' skip pl' = .ok L) ∧
    ∀ L L', toLedger env o skip pl = .ok L → toLedger env o' skip pl' = .ok L' →
      ∃ es es', (∀ P c, postedWhere P es' c = postedWhere P es c) ∧
        (L.entries.map Prod.snd).map Posting.entry = es.map Posting.entry ∧
        (L'.entries.map Prod.snd).map Posting.entry = es'.map Posting.entry ∧
        (es'.map Posting.entry).Perm (es.map Posting.entry) := by
  obtain ⟨l, p1, c1, a1, m1⟩ := toLedger_conv (o := o) h hz hf.noRules
  obtain ⟨l', p2, c2, a2, m2⟩ := toLedger_conv (o := o') h' (g.totals hz) (g.automated hf.noRules)
  have hc : ∀ t tags p, convertPosting env o.unknown l t tags p = convertPosting env o'.unknown l' t tags p := by
    obtain ⟨o2, _, e2⟩ := g.populate (env := env) o'
    rw [e2] at p2
    exact convertPosting_orders h.lists hf p1 p2 (populate_ok h.lists p1) (populate_ok h.lists p2)
  have hu : ∀ t ∈ pl.regular, ∀ t' ∈ pl'.regular, t'.undated = t.undated →
      (convOf env o'.unknown l' t').1.postings = (convOf env o.unknown l t).1.postings :=
    fun t ht t' ht' e => convOf_undated e hc (c1 t ht) (c2 t' ht')
  have hts : ∀ t ∈ (sortBy dateLe pl.regular).map (fun t => (convOf env o.unknown l t).1), pl.Timeless skip →
      TimelessPostings skip t.postings := by
    intro t ht hT
    obtain ⟨u, hu, rfl⟩ := List.mem_map.mp ht
    have hu := (mem_sortBy _ _ _).mp hu
    exact convOf_timeless (hT.imp id (fun hT => hT u hu)) (c1 u hu)
  have key : (pl.Timeless skip ∧ (((sortBy dateLe pl'.regular).map (fun t => (convOf env o'.unknown l' t).1)).map Txn.postings).Perm
        (((sortBy dateLe pl.regular).map (fun t => (convOf env o.unknown l t).1)).map Txn.postings)) ∨
      ((sortBy dateLe pl'.regular).map (fun t => (convOf env o'.unknown l' t).1)).map Txn.postings =
        ((sortBy dateLe pl.regular).map (fun t => (convOf env o.unknown l t).1)).map Txn.postings := by
    rcases hd with hT | ⟨f, hI⟩
    · refine .inl ⟨hT, ?_⟩
      refine ((((sortBy_perm _ _).map _).map _).trans ?_).trans (((sortBy_perm _ _).map _).map _).symm
      -- the postings depend on the transaction without its dates only
      let conv : Txn RawPosting → List Posting := fun u =>
        open Classical in if h : ∃ t ∈ pl.regular, t.undated = u then (convOf env o.unknown l h.choose).1.postings else []
      have e1 : (pl.regular.map (fun t => (convOf env o.unknown l t).1)).map Txn.postings = (pl.regular.map Txn.undated).map conv := by
        rw [List.map_map, List.map_map]
        apply List.map_congr_left
        intro t ht
        have hex : ∃ t' ∈ pl.regular, t'.undated = t.undated := ⟨t, ht, rfl⟩
        simp only [Function.comp, conv]
        rw [dif_pos hex]
        exact convOf_undated hex.choose_spec.2.symm (fun _ _ _ => rfl) (c1 _ hex.choose_spec.1) (c1 t ht)
      have e2 : (pl'.regular.map (fun t => (convOf env o'.unknown l' t).1)).map Txn.postings = (pl'.regular.map Txn.undated).map conv := by
        rw [List.map_map, List.map_map]
        apply List.map_congr_left
        intro t ht
        have hex : ∃ t' ∈ pl.regular, t'.undated = t.undated := g.mem_regular ht
        simp only [Function.comp, conv]
        rw [dif_pos hex]
        exact hu _ hex.choose_spec.1 t ht hex.choose_spec.2.symm
      rw [e1, e2]
      exact g.regular.map conv
    · right
      rw [hI.sorted h.dated, List.map_map, List.map_map, List.map_map]
      apply List.map_congr_left
      intro t ht
      have ht := (mem_sortBy _ _ _).mp ht
      exact hu t ht (t.redated f) (hI.same.mem_iff.mpr (List.mem_map_of_mem ht)) rfl
  generalize (sortBy dateLe pl.regular).map (fun t => (convOf env o.unknown l t).1) = ts at *
  generalize (sortBy dateLe pl'.regular).map (fun t => (convOf env o'.unknown l' t).1) = ts' at *
  obtain ⟨k1, k2⟩ := toLedger_books a1 (m1 skip)
  obtain ⟨k3, k4⟩ := toLedger_books a2 (m2 skip)
  have hts' : pl.Timeless skip → (ts'.map Txn.postings).Perm (ts.map Txn.postings) → ∀ t ∈ ts', TimelessPostings skip t.postings := by
    intro hT hp t ht
    obtain ⟨u, hu, e⟩ := List.mem_map.mp (hp.mem_iff.mp (List.mem_map_of_mem ht))
    rw [← e]
    exact hts u hu hT
  refine ⟨?_, fun L L' h1 h2 => ?_⟩
  · rw [k1, k3]
    have bt : ∀ us : List (Txn Posting), (∀ t ∈ us, TimelessPostings skip t.postings) →
        ∀ t ∈ us.map Txn.bought, TimelessPostings skip t.postings := by
      intro us hus t ht
      obtain ⟨u, hu, rfl⟩ := List.mem_map.mp ht
      exact timeless_bought (hus u hu)
    rcases key with ⟨hT, hp⟩ | he
    · rw [booksAll_timeless _ _ (bt ts (fun t ht => hts t ht hT)), booksAll_timeless _ _ (bt ts' (hts' hT hp)),
        bought_postings, bought_postings]
      have hp := hp.map (List.map Posting.bought)
      exact ⟨fun h ps hps => h ps (hp.mem_iff.mp hps), fun h ps hps => h ps (hp.mem_iff.mpr hps)⟩
    · have he : (ts'.map Txn.bought).map Txn.postings = (ts.map Txn.bought).map Txn.postings := by
        rw [bought_postings, bought_postings, he]
      exact ⟨fun ⟨_, h⟩ => ⟨_, booksAll_postings he h⟩, fun ⟨_, h⟩ => ⟨_, booksAll_postings he.symm h⟩⟩
  · obtain ⟨es, e1, e2⟩ := k2 L h1
    obtain ⟨es', e3, e4⟩ := k4 L' h2
    refine ⟨es, es', fun P c => ?_, e2, e4, ?_⟩
    · rcases key with ⟨hT, hp⟩ | he
      · rw [entersAll_timeless (fun t ht => hts t ht hT) e1, entersAll_timeless (hts' hT hp) e3]
        exact (hp.map _).sum_eq
      · exact entersAll_postings he e1 e3 P c
    · rcases key with ⟨hT, hp⟩ | he
      · exact (entersAll_perm_timeless (hts' hT hp) e3).trans ((hp.flatMap_right _).trans
          (entersAll_perm_timeless (fun t ht => hts t ht hT) e1).symm)
      · exact entersAll_perm_postings he e1 e3

/-- A journal that leaves hash orders nothing to decide and asks for no totals is accepted, rejected with a message, or ends the
program, exactly if it was with its transactions in another order or at other dates.  If it asks for totals, it is so
with the transactions of a day in the same order and later ones still later. -/
theorem C143_outcome {r r' : Run} {path path' : Str} {pl pl' : ParsedLedger} (he : r'.env = r.env)
    (h : r.journal path = .ok pl) (h' : r'.journal path' = .ok pl') (g : Rearranged pl pl') (hf : OrderFree r.env pl) {skip : Bool}
    (hd : pl.Timeless skip ∨ ∃ f, InStep f pl.regular pl'.regular) :
    ((∃ L, r'.ledger skip path' = .ok L) ↔ ∃ L, r.ledger skip path = .ok L) ∧
    ((∃ e, r'.ledger skip path' = .error (.fail (.error e))) ↔ ∃ e, r.ledger skip path = .error (.fail (.error e))) ∧
    ((∃ w, r'.ledger skip path' = .error (.fail (.panic w))) ↔ ∃ w, r.ledger skip path = .error (.fail (.panic w))) := by
  rcases C120_outcome h hf.noRules skip with ⟨hz, hw⟩ | ⟨hz, hc⟩
  · have := C120_free_total h' (fun k => hz (g.symm.totals k)) skip
    rw [hw, this]
    simp
  · have hz' : pl'.NoFreeTotals := g.totals hz
    have hiff : (∃ L, r.ledger skip path = .ok L) ↔ ∃ L, r'.ledger skip path' = .ok L := by
      have := (course_conv (o := r.orders) (o' := r'.orders) g hf (C83_wellformed h).1
        (by have := (C83_wellformed h').1; rwa [he] at this) hz skip hd).1
      unfold Run.ledger
      rw [h, h', he]
      simp only
      have e : ∀ o pl, (∃ L, PRes.lift (toLedger r.env o skip pl) = .ok L) ↔ ∃ L, toLedger r.env o skip pl = .ok L := by
        intro o pl
        cases toLedger r.env o skip pl <;> simp [PRes.lift]
      rw [e, e]
      exact this
    rcases C120_outcome h' (g.automated hf.noRules) skip with ⟨hz2, _⟩ | ⟨_, hc'⟩
    · exact absurd hz' hz2
    obtain ⟨_, _, ⟨_, _, L, hl⟩ | ⟨_, e, hl, _⟩⟩ := hc <;> obtain ⟨_, _, ⟨_, _, L', hl'⟩ | ⟨_, e', hl', _⟩⟩ := hc'
    · rw [hl, hl']; simp
    · rw [hl, hl'] at hiff; simp at hiff
    · rw [hl, hl'] at hiff; simp at hiff
    · rw [hl, hl']; simp

/-- Then the flat balance says the same of every account and commodity. -/
theorem C143_balance {r r' : Run} {path path' : Str} {pl pl' : ParsedLedger} {o o' : BalOrders} {today today' : Date}
    {skip t t' : Bool} {d : Option Nat} {rep rep' : BalReport} (he : r'.env = r.env)
    (h : r.journal path = .ok pl) (h' : r'.journal path' = .ok pl') (g : Rearranged pl pl') (hf : OrderFree r.env pl)
    (hd : pl.Timeless skip ∨ ∃ f, InStep f pl.regular pl'.regular)
    (hr : balanceCommand r o today { depth := d } skip true t path = .ok rep)
    (hr' : balanceCommand r' o' today' { depth := d } skip true t' path' = .ok rep') (a : Str) (c : Cur) :
    rep'.says a c = rep.says a c := by
  obtain ⟨L, hl, q⟩ := balanceCommand_report hr
  obtain ⟨L', hl', q'⟩ := balanceCommand_report hr'
  obtain ⟨sel, hs, hsays⟩ := flat_says (opts := { depth := d }) rfl q
  obtain ⟨sel', hs', hsays'⟩ := flat_says (opts := { depth := d }) rfl q'
  obtain rfl := selected_all hs
  obtain rfl := selected_all hs'
  have hz : pl.NoFreeTotals := by
    by_contra hz
    rw [C120_free_total h hz skip] at hl
    cases hl
  have hl1 : toLedger r.env r.orders skip pl = .ok L := by
    unfold Run.ledger at hl
    rw [h] at hl
    simp only at hl
    cases ht : toLedger r.env r.orders skip pl with
    | error e => rw [ht] at hl; cases hl
    | ok x => rw [ht] at hl; cases hl; rfl
  have hl1' : toLedger r.env r'.orders skip pl' = .ok L' := by
    unfold Run.ledger at hl'
    rw [h', he] at hl'
    simp only at hl'
    cases ht : toLedger r.env r'.orders skip pl' with
    | error e => rw [ht] at hl'; cases hl'
    | ok x => rw [ht] at hl'; cases hl'; rfl
  obtain ⟨es, es', g1, g2, g3, _⟩ := (course_conv (o := r.orders) (o' := r'.orders) g hf (C83_wellformed h).1
    (by have := (C83_wellformed h').1; rwa [he] at this) hz skip hd).2 L L' hl1 hl1'
  rw [hsays, hsays', selSum_entries g2, selSum_entries g3]
  exact g1 (fun x _ => match (generalizing := false) d with | none => x = a | some d => CutTo d x a) c

/-- The entries a report asks for by their account and kind. -/
theorem inPeriod_entries (want : Str → Kind → Bool) (ts : List (Txn Posting)) :
    ((inPeriod (fun _ p => want p.account p.kind) none none ts).map Prod.snd).map Posting.entry =
      ((ts.flatMap (fun t => t.postings)).map Posting.entry).filter (fun x => want x.1 x.2.1) := by
  induction ts with
  | nil => rfl
  | cons t ts ih =>
    rw [inPeriod_cons, List.map_append, List.map_append, ih, List.flatMap_cons, List.map_append, List.filter_append]
    congr 1
    simp only [inPeriod, List.flatMap_cons, List.flatMap_nil, List.append_nil, List.map_map, List.filter_map]
    rfl

/-- Then the whole report is the same but for the order of the amounts of a line: flat or as a tree, with any depth, with the total,
of all postings or the real ones, and with any account patterns. -/
theorem C143_report {r r' : Run} {path path' : Str} {pl pl' : ParsedLedger} {o o' : BalOrders} {today today' : Date}
    {skip flat total : Bool} {opts : ReportOpts} {rep rep' : BalReport} (ha : r.env.AsciiSep) (hq : PlainQuery r.env opts.query)
    (hx : opts.exchange = none) (he : r'.env = r.env) (h : r.journal path = .ok pl) (h' : r'.journal path' = .ok pl')
    (g : Rearranged pl pl') (hf : OrderFree r.env pl) (hd : pl.Timeless skip ∨ ∃ f, InStep f pl.regular pl'.regular)
    (hr : balanceCommand r o today (opts.during none none) skip flat total path = .ok rep)
    (hr' : balanceCommand r' o' today' (opts.during none none) skip flat total path' = .ok rep') : rep'.Like rep := by
  obtain ⟨L, hl, q⟩ := balanceCommand_report hr
  obtain ⟨L', hl', q'⟩ := balanceCommand_report hr'
  rw [he] at q'
  have hz : pl.NoFreeTotals := by
    by_contra hz
    rw [C120_free_total h hz skip] at hl
    cases hl
  have lift : ∀ (x : Res Ledger) L, PRes.lift x = .ok L → x = .ok L := by
    intro x L h
    cases x with
    | error e => cases h
    | ok x => cases h; rfl
  unfold Run.ledger at hl hl'
  rw [h] at hl
  rw [h', he] at hl'
  obtain ⟨es, es', _, g2, g3, g4⟩ := (course_conv (o := r.orders) (o' := r'.orders) g hf (C83_wellformed h).1
    (by have := (C83_wellformed h').1; rwa [he] at this) hz skip hd).2 L L' (lift _ _ hl) (lift _ _ hl')
  refine report_like (opts := opts.during none none) (opts' := opts.during none none) hx hx rfl q' q (fun sel' sel k' k => ?_)
  have e : ∀ M : Ledger, M.transactions.flatMap (fun t => t.postings) = M.entries.map Prod.snd := by
    intro M
    unfold Ledger.entries
    rw [List.map_flatMap]
    congr 1
    funext t
    rw [List.map_map]
    exact (List.map_id _).symm
  rw [selected_plain ha (o := opts.during none none) hq k', selected_plain ha (o := opts.during none none) hq k, wantedOf_period,
    wantedOf_period]
  have w := inPeriod_entries (fun a k => (!opts.filter.real || k = .real) && (opts.query.isEmpty || byPatterns r.env opts.query a))
  refine (List.Perm.of_eq (w _)).trans (List.Perm.trans ?_ (List.Perm.of_eq (w _).symm))
  rw [e, e, g2, g3]
  exact g4.filter _

/-! #### Cases, and why the order matters to totals -/

/-- An elided amount, a purchase and a total cost. -/
def exStroll : String :=
  "2020-01-01 a\n Food  10.5 EUR\n Cash\n2020-01-02 b\n Stock  2 ACME @ 25 EUR\n Cash  -50 EUR\n2020-01-03 c\n Fuel  4 OIL @@ 6 EUR\n Cash\n"

/-- The same in another order, at other dates. -/
def exSaunter : String :=
  "2021-05-06 c\n Fuel  4 OIL @@ 6 EUR\n Cash\n2020-01-01 a\n Food  10.5 EUR\n Cash\n2019-03-04 b\n Stock  2 ACME @ 25 EUR\n Cash  -50 EUR\n"

/-- `exUnits` a week later, its transactions in another order in the file. -/
def exWeek : String :=
  "2020-01-10 c\n Fuel  4 OIL @@ 6 EUR\n Cash  -6 EUR\n2020-01-08 a\n Food  10.5 EUR\n Cash\n2020-01-09 b\n Stock  2 ACME @ 25 EUR\n Cash  -50 EUR = -60.5 EUR\n"

/-- `exUnits` with the total asked for too early. -/
def exHasty : String :=
  "2020-01-03 c\n Fuel  4 OIL @@ 6 EUR\n Cash  -6 EUR\n2020-01-01 a\n Food  10.5 EUR\n Cash\n2019-12-31 b\n Stock  2 ACME @ 25 EUR\n Cash  -50 EUR = -60.5 EUR\n"

theorem rearranged_of {pl pl' : ParsedLedger} (h : pl'.lists = pl.lists ∧
    (pl'.transactions.map Txn.undated).Perm (pl.transactions.map Txn.undated) ∧ pl'.prices = pl.prices) : Rearranged pl pl' :=
  ⟨h.1, h.2.1, fun c => by rw [h.2.2]⟩

theorem exStroll_read : (exHistRun exStroll).journal "main".toList = .ok (exHistory exStroll) := exHistory_read (by decide +kernel)

theorem exSaunter_read : (exHistRun exSaunter).journal "main".toList = .ok (exHistory exSaunter) := exHistory_read (by decide +kernel)

theorem exSaunter_same : Rearranged (exHistory exStroll) (exHistory exSaunter) := rearranged_of (by decide +kernel)

theorem exStroll_free : OrderFree (exHistRun exStroll).env (exHistory exStroll) := orderFree_of (by decide +kernel)

theorem exStroll_timeless : (exHistory exStroll).Timeless false := .inr (by decide +kernel)

example : exSays exStroll exPlaces = some [21 / 2, -133 / 2, 2] := by decide +kernel

example : exSays exSaunter exPlaces = some [21 / 2, -133 / 2, 2] := by decide +kernel

theorem exWeek_read : (exHistRun exWeek).journal "main".toList = .ok (exHistory exWeek) := exHistory_read (by decide +kernel)

theorem exWeek_same : Rearranged (exHistory exUnits) (exHistory exWeek) := rearranged_of (by decide +kernel)

theorem exUnits_free : OrderFree (exHistRun exUnits).env (exHistory exUnits) := orderFree_of (by decide +kernel)

/-- If no two transactions are of the same day, the order in the file is free. -/
theorem inStep_of {f : Date → Date} {ts ts' : List (Txn RawPosting)} (hf : ∀ d e, d < e → f d < f e)
    (h : ts'.Perm (ts.map (Txn.redated f))) (hn : (ts.map Txn.date).Nodup) : InStep f ts ts' := by
  refine ⟨hf, h, fun d => ?_⟩
  have e : (ts.map (Txn.redated f)).filter (fun t => t.date = some (f d)) = (ts.filter (fun t => t.date = some d)).map (Txn.redated f) := by
    rw [List.filter_map]
    congr 1
    apply List.filter_congr
    intro t _
    cases ht : t.date with
    | none => simp [Txn.redated, ht]
    | some x =>
      simp only [Function.comp, Txn.redated, ht, Option.map_some, Option.some.injEq, decide_eq_decide]
      have h1 := hf d x
      have h2 := hf x d
      constructor
      · intro g
        by_contra hc
        rcases lt_or_gt_of_ne hc with g' | g'
        · have := h2 g'; omega
        · have := h1 g'; omega
      · intro g; rw [g]
  have hp := h.filter (fun t => t.date = some (f d))
  rw [e] at hp
  have hl : (ts.filter (fun t => t.date = some d)).length ≤ 1 := by
    have : (ts.map Txn.date).count (some d) ≤ 1 := List.nodup_iff_count_le_one.mp hn _
    rw [List.count, List.countP_map, List.countP_eq_length_filter] at this
    refine le_of_eq_of_le (congrArg List.length (List.filter_congr ?_)) this
    intro t _
    simp only [Function.comp]
    cases t.date <;> simp [Bool.beq_eq_decide_eq]
  generalize ts.filter (fun t => t.date = some d) = us at hp hl
  match us, hl with
  | [], _ => exact hp.eq_nil
  | [u], _ => exact hp.eq_singleton

theorem exWeek_rotated : (exHistory exWeek).regular =
    (((exHistory exUnits).regular.map (Txn.redated (· + 7))).rotate 2) := by decide +kernel

theorem exUnits_days : ((exHistory exUnits).regular.map Txn.date).Nodup := by decide +kernel

theorem inStep_rotate {f : Date → Date} {ts ts' : List (Txn RawPosting)} {n : Nat} (hf : ∀ d e, d < e → f d < f e)
    (h : ts' = (ts.map (Txn.redated f)).rotate n) (hn : (ts.map Txn.date).Nodup) : InStep f ts ts' :=
  inStep_of hf (h ▸ List.rotate_perm _ _) hn

theorem exWeek_step : InStep (· + 7) (exHistory exUnits).regular (exHistory exWeek).regular :=
  inStep_rotate (fun _ _ h => Int.add_lt_add_right h 7) exWeek_rotated exUnits_days

example : ¬ (exHistory exUnits).Timeless false := fun h => by
  rcases h with h | h
  · cases h
  · exact absurd h (by decide +kernel)

example : exSays exWeek exPlaces = some [21 / 2, -133 / 2, 2] := by decide +kernel

theorem exHasty_read : (exHistRun exHasty).journal "main".toList = .ok (exHistory exHasty) := exHistory_read (by decide +kernel)

theorem exHasty_same : Rearranged (exHistory exUnits) (exHistory exHasty) := rearranged_of (by decide +kernel)

theorem exUnits_accepted : ((exHistRun exUnits).ledger false "main".toList).toOption.isSome = true := by decide +kernel

theorem exHasty_rejected : ((exHistRun exHasty).ledger false "main".toList).toOption.isSome = false := by decide +kernel

/-- A total that is asked for at another moment need not hold. -/
theorem C143_false : ∃ (text text' : String) (pl pl' : ParsedLedger),
    (exHistRun text).journal "main".toList = .ok pl ∧ (exHistRun text').journal "main".toList = .ok pl' ∧ Rearranged pl pl' ∧
    OrderFree (exHistRun text).env pl ∧ ((exHistRun text).ledger false "main".toList).toOption.isSome = true ∧
    ((exHistRun text').ledger false "main".toList).toOption.isSome = false :=
  ⟨exUnits, exHasty, exHistory exUnits, exHistory exHasty, exUnits_read, exHasty_read, exHasty_same, exUnits_free, exUnits_accepted,
    exHasty_rejected⟩

end Dinero
