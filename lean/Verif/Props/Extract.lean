import Verif.Spec.Extract
import Verif.Props.Sum
import Verif.Props.History
/-
Property theorems about the part of a journal in a period (C145).
-/
namespace Dinero

/-! ### C145: the report of a period is the report of the part of the journal in this period -/

/-- The dates a report of a period looks at. -/
def dateIn (b e : Option Date) (d : Option Date) : Bool :=
  b.all (fun x => d.any (fun v => x ≤ v)) && e.all (fun x => d.any (fun v => v < x))

theorem dateIn_iff {b e : Option Date} {t : Txn RawPosting} (h : t.date.isSome) : dateIn b e t.date = true ↔ t.isWithin b e := by
  obtain ⟨v, hv⟩ := Option.isSome_iff_exists.mp h
  unfold dateIn Txn.isWithin
  rw [hv]
  cases b <;> cases e <;> simp

/-- The postings of a booked journal, with the conditions of a report. -/
theorem extract_booked {env : Env} {o : LedgerOrders} {skip : Bool} {pl : ParsedLedger} {l : Lists} {ts : List (Txn Posting)}
    (a1 : ∀ t ∈ ts, t.date.isSome ∧ ∀ q ∈ t.postings, q.CostOk ∧ ((initialBalances l.accounts).get? q.account).isSome)
    (m1 : match balancePass skip o.fill o.rate (initialBalances l.accounts) ts with
      | .error e => toLedger env o skip pl = .error e
      | .ok x => ∃ L, toLedger env o skip pl = .ok L ∧ L.transactions = x.1) {L : Ledger} (h : toLedger env o skip pl = .ok L) :
    BookedAs skip (fun _ _ => 0) ts L.transactions := by
  cases hp : balancePass skip o.fill o.rate (initialBalances l.accounts) ts with
  | error e =>
    rw [hp] at m1
    simp only at m1
    rw [m1] at h
    cases h
  | ok x =>
    rw [hp] at m1
    simp only at m1
    obtain ⟨L', hL, hx⟩ := m1
    rw [hL] at h
    cases h
    obtain ⟨_, _, _, bals', rs, hr, hrs⟩ := balancePass_spec (ts' := x.1) (prs := x.2) ts (initialBalances_ok l.accounts)
      (fun t ht p hpm => ((a1 t ht).2 p hpm).1) hp
    have := bookedAs_of_balanceAll ts (initialBalances_ok _) (fun t ht p hp => ((a1 t ht).2 p hp).1) hr
    rw [initialBalances_amt, ← hrs, ← hx] at this
    exact this

theorem sameEntry_entry {es ps : List Posting} (h : List.Forall₂ SameEntry es ps) : ps.map Posting.entry = es.map Posting.entry := by
  induction h with
  | nil => rfl
  | @cons p q _ _ h _ ih =>
    rw [List.map_cons, List.map_cons, ih]
    unfold Posting.entry
    rw [h.1, h.2.1, h.2.2.1]

/-- The entries a report of a period finds. -/
theorem period_entries {skip : Bool} {start : Str → Cur → Rat} {ts ts' : List (Txn Posting)}
    (hf : ∀ t ∈ ts, TimelessPostings skip t.postings) (h : BookedAs skip start ts ts') (b e : Option Date)
    (want : Str → Kind → Bool) :
    (((inPeriod (fun _ p => want p.account p.kind) b e ts').map Prod.snd).map Posting.entry).Perm
      (((ts.filter (fun t => dateIn b e t.date)).map Txn.postings).flatMap
        (fun ps => (enteredAs skip ps).filter (fun x => want x.1 x.2.1))) := by
  induction h with
  | nil => exact .refl _
  | @cons start t es t' ts ts' h1 h2 h3 _ ih =>
    have ih := ih (fun t ht => hf t (by simp [ht]))
    rw [inPeriod_cons, List.map_append, List.map_append]
    have hd : t'.date = t.date := by rw [h2]
    by_cases hin : dateIn b e t.date = true
    · rw [List.filter_cons_of_pos (by exact hin), List.map_cons, List.flatMap_cons]
      refine List.Perm.append ?_ ih
      refine List.Perm.trans (.of_eq ?_) ((enteredAs_of (hf t (by simp)) h1).filter _)
      rw [← sameEntry_entry h3, List.filter_map]
      simp only [inPeriod, List.flatMap_cons, List.flatMap_nil, List.append_nil, List.map_map, hd]
      unfold dateIn at hin
      simp only [hin, Bool.true_and]
      rfl
    · rw [List.filter_cons_of_neg (by exact hin)]
      have : inPeriod (fun _ p => want p.account p.kind) b e [t'] = [] := by
        unfold inPeriod
        simp only [List.flatMap_cons, List.flatMap_nil, List.append_nil, hd]
        unfold dateIn at hin
        simp only [Bool.not_eq_true] at hin
        simp [hin]
      rw [this]
      exact ih

/-- What becomes of the journal and of its part. -/
theorem extract_conv {env : Env} {o o₁ : LedgerOrders} {b e : Option Date} {pl pl₁ pl₂ : ParsedLedger} (g : Extract b e pl₁ pl₂ pl)
    (hf : OrderFree env pl) (h : pl.Ok env.lower) (h₁ : pl₁.Ok env.lower) (hz : pl.NoFreeTotals) {skip : Bool} (hT : pl.Timeless skip)
    {L L₁ : Ledger} (hl : toLedger env o skip pl = .ok L) (hl₁ : toLedger env o₁ skip pl₁ = .ok L₁) (want : Str → Kind → Bool) :
    (((inPeriod (fun _ p => want p.account p.kind) b e L.transactions).map Prod.snd).map Posting.entry).Perm
      (((inPeriod (fun _ p => want p.account p.kind) none none L₁.transactions).map Prod.snd).map Posting.entry) := by
  obtain ⟨l, p, k, a, m⟩ := toLedger_conv (o := o) h hz hf.noRules
  obtain ⟨l₁, p₁, k₁, a₁, m₁⟩ := toLedger_conv (o := o₁) h₁ (g.both.totals.mp hz).1 (g.both.automated hf.noRules)
  have hts : ∀ t ∈ (sortBy dateLe pl.regular).map (fun t => (convOf env o.unknown l t).1), TimelessPostings skip t.postings := by
    intro t ht
    obtain ⟨u, hu, rfl⟩ := List.mem_map.mp ht
    have hu := (mem_sortBy _ _ _).mp hu
    exact convOf_timeless (hT.imp id (fun hT => hT u hu)) (k u hu)
  have hm₁ : ∀ t ∈ pl₁.regular, t ∈ pl.regular := fun t ht => g.both.regular.mem_iff.mpr (by simp [ht])
  have hm₂ : ∀ t ∈ pl₂.regular, t ∈ pl.regular := fun t ht => g.both.regular.mem_iff.mpr (by simp [ht])
  have hkeep : (((sortBy dateLe pl.regular).map (fun t => (convOf env o.unknown l t).1)).filter (fun t => dateIn b e t.date)).Perm
      ((sortBy dateLe pl₁.regular).map (fun t => (convOf env o₁.unknown l₁ t).1)) := by
    refine (((sortBy_perm _ _).map _).filter _).trans (List.Perm.trans ?_ ((sortBy_perm _ _).map _).symm)
    rw [show pl₁.regular.map (fun t => (convOf env o₁.unknown l₁ t).1) = pl₁.regular.map (fun t => (convOf env o.unknown l t).1) from
      List.map_congr_left (fun t ht => by rw [g.both.conv h₁ hf p p₁ ht])]
    refine ((g.both.regular.map _).filter _).trans (.of_eq ?_)
    rw [List.map_append, List.filter_append, List.filter_eq_self.mpr, List.filter_eq_nil_iff.mpr, List.append_nil]
    · intro t ht
      obtain ⟨u, hu, rfl⟩ := List.mem_map.mp ht
      rw [convOf_date (k u (hm₂ u hu)), dateIn_iff (h.dated u (hm₂ u hu))]
      exact g.outside u hu
    · intro t ht
      obtain ⟨u, hu, rfl⟩ := List.mem_map.mp ht
      rw [convOf_date (k u (hm₁ u hu)), dateIn_iff (h.dated u (hm₁ u hu))]
      exact g.inside u hu
  generalize (sortBy dateLe pl.regular).map (fun t => (convOf env o.unknown l t).1) = ts at *
  generalize (sortBy dateLe pl₁.regular).map (fun t => (convOf env o₁.unknown l₁ t).1) = ts₁ at *
  have hts₁ : ∀ t ∈ ts₁, TimelessPostings skip t.postings :=
    fun t ht => hts t (List.mem_filter.mp (hkeep.mem_iff.mpr ht)).1
  refine (period_entries hts (extract_booked a (m skip) hl) b e want).trans
    (List.Perm.trans ?_ (period_entries hts₁ (extract_booked a₁ (m₁ skip) hl₁) none none want).symm)
  rw [show ts₁.filter (fun t => dateIn none none t.date) = ts₁ from List.filter_eq_self.mpr (fun _ _ => rfl)]
  exact (hkeep.map _).flatMap_right _

/-- A part of an accepted journal is accepted. -/
theorem part_accepted {env : Env} {o o₁ : LedgerOrders} {pl pl₁ pl₂ : ParsedLedger} (g : Combines pl₁ pl₂ pl)
    (hf : OrderFree env pl) (h : pl.Ok env.lower) (h₁ : pl₁.Ok env.lower) (hz : pl.NoFreeTotals) {skip : Bool} (hT : pl.Timeless skip)
    (hl : ∃ L, toLedger env o skip pl = .ok L) : ∃ L, toLedger env o₁ skip pl₁ = .ok L := by
  obtain ⟨l, p, k, a, m⟩ := toLedger_conv (o := o) h hz hf.noRules
  obtain ⟨l₁, p₁, k₁, a₁, m₁⟩ := toLedger_conv (o := o₁) h₁ (g.totals.mp hz).1 (g.automated hf.noRules)
  have hts : ∀ t ∈ (sortBy dateLe pl.regular).map (fun t => (convOf env o.unknown l t).1), TimelessPostings skip t.postings := by
    intro t ht
    obtain ⟨u, hu, rfl⟩ := List.mem_map.mp ht
    have hu := (mem_sortBy _ _ _).mp hu
    exact convOf_timeless (hT.imp id (fun hT => hT u hu)) (k u hu)
  have hin : ∀ t ∈ (sortBy dateLe pl₁.regular).map (fun t => (convOf env o₁.unknown l₁ t).1),
      t ∈ (sortBy dateLe pl.regular).map (fun t => (convOf env o.unknown l t).1) := by
    intro t ht
    obtain ⟨u, hu, rfl⟩ := List.mem_map.mp ht
    have hu := (mem_sortBy _ _ _).mp hu
    rw [g.conv h₁ hf p p₁ hu]
    exact List.mem_map_of_mem ((mem_sortBy _ _ _).mpr (g.regular.mem_iff.mpr (by simp [hu])))
  generalize (sortBy dateLe pl.regular).map (fun t => (convOf env o.unknown l t).1) = ts at *
  generalize (sortBy dateLe pl₁.regular).map (fun t => (convOf env o₁.unknown l₁ t).1) = ts₁ at *
  have bt : ∀ us : List (Txn Posting), (∀ t ∈ us, TimelessPostings skip t.postings) →
      ∀ t ∈ us.map Txn.bought, TimelessPostings skip t.postings := by
    intro us hus t ht
    obtain ⟨u, hu, rfl⟩ := List.mem_map.mp ht
    exact timeless_bought (hus u hu)
  rw [(toLedger_books a (m skip)).1, booksAll_timeless _ _ (bt ts hts)] at hl
  rw [(toLedger_books a₁ (m₁ skip)).1, booksAll_timeless _ _ (bt ts₁ (fun t ht => hts t (hin t ht)))]
  intro ps hps
  refine hl ps ?_
  obtain ⟨u, hu, rfl⟩ := List.mem_map.mp hps
  obtain ⟨v, hv, rfl⟩ := List.mem_map.mp hu
  exact List.mem_map_of_mem (List.mem_map_of_mem (hin v hv))

/-- Without totals in force, any part of an accepted journal is accepted. -/
theorem C145_accepted {r r₁ : Run} {path path₁ : Str} {pl pl₁ pl₂ : ParsedLedger} {skip : Bool} {L : Ledger} (he₁ : r₁.env = r.env)
    (h : r.journal path = .ok pl) (h₁ : r₁.journal path₁ = .ok pl₁) (g : Combines pl₁ pl₂ pl) (hf : OrderFree r.env pl)
    (hT : pl.Timeless skip) (hl : r.ledger skip path = .ok L) : ∃ L₁, r₁.ledger skip path₁ = .ok L₁ := by
  have hz : pl.NoFreeTotals := by
    by_contra hz
    rw [C120_free_total h hz skip] at hl
    cases hl
  rw [ledger_iff h] at hl
  simp only [ledger_iff h₁, he₁]
  exact part_accepted g hf (C83_wellformed h).1 (by have := (C83_wellformed h₁).1; rwa [he₁] at this) hz hT ⟨L, hl⟩

/-- Without totals in force, the balance of a period is the balance of the part of the journal in this period, but for the order of
the amounts of a line: flat or as a tree, with any depth, with the total, of all postings or the real ones, and with any account
patterns. -/
theorem C145_report {r r₁ : Run} {path path₁ : Str} {pl pl₁ pl₂ : ParsedLedger} {o o₁ : BalOrders} {today today₁ : Date}
    {skip flat total : Bool} {opts : ReportOpts} {b e : Option Date} {rep rep₁ : BalReport} (ha : r.env.AsciiSep)
    (hq : PlainQuery r.env opts.query) (hx : opts.exchange = none) (he₁ : r₁.env = r.env) (h : r.journal path = .ok pl)
    (h₁ : r₁.journal path₁ = .ok pl₁) (g : Extract b e pl₁ pl₂ pl) (hf : OrderFree r.env pl) (hT : pl.Timeless skip)
    (hr : balanceCommand r o today (opts.during b e) skip flat total path = .ok rep)
    (hr₁ : balanceCommand r₁ o₁ today₁ (opts.during none none) skip flat total path₁ = .ok rep₁) : rep.Like rep₁ := by
  obtain ⟨L, hl, q⟩ := balanceCommand_report hr
  obtain ⟨L₁, hl₁, q₁⟩ := balanceCommand_report hr₁
  rw [he₁] at q₁
  have hz : pl.NoFreeTotals := by
    by_contra hz
    rw [C120_free_total h hz skip] at hl
    cases hl
  rw [ledger_iff h] at hl
  rw [ledger_iff h₁, he₁] at hl₁
  refine report_like (opts := opts.during b e) (opts' := opts.during none none) hx hx rfl q q₁ (fun sel sel₁ k k₁ => ?_)
  rw [selected_plain ha (o := opts.during b e) hq k, selected_plain ha (o := opts.during none none) hq k₁, wantedOf_period,
    wantedOf_period]
  exact extract_conv g hf (C83_wellformed h).1 (by have := (C83_wellformed h₁).1; rwa [he₁] at this) hz hT hl hl₁
    (fun a k => (!opts.filter.real || k = .real) && (opts.query.isEmpty || byPatterns r.env opts.query a))

/-! #### A case, and why there are no totals -/

/-- Checking that a journal is the part of a period. -/
theorem extract_of {b e : Option Date} {part rest pl : ParsedLedger} (g : Combines part rest pl)
    (h : (∀ t ∈ part.regular, t.date.isSome ∧ dateIn b e t.date = true) ∧ ∀ t ∈ rest.regular, t.date.isSome ∧ dateIn b e t.date = false) :
    Extract b e part rest pl := by
  refine ⟨g, fun t ht => (dateIn_iff (h.1 t ht).1).mp (h.1 t ht).2, fun t ht hc => ?_⟩
  rw [← dateIn_iff (h.2 t ht).1, (h.2 t ht).2] at hc
  cases hc

/-- What the balance of a period says about some accounts. -/
def exSaysWithin (text : String) (b e : Option Date) (places : List (Str × Cur)) : Option (List Rat) :=
  match balanceCommand (exHistRun text) exOrders 0 (({} : ReportOpts).during b e) false true true "main".toList with
  | .error _ => none
  | .ok rep => some (places.map (fun p => rep.says p.1 p.2))

/-- The second of January 2020. -/
def exSecond : Date := 737426

theorem exEvening_part : Extract (some exSecond) none (exHistory exEvening) (exHistory exMorning) (exHistory exStroll) :=
  extract_of exStroll_made.symm (by decide +kernel)

example : exSaysWithin exStroll (some exSecond) none exPlaces = some [0, -56, 2] := by decide +kernel

example : exSays exEvening exPlaces = some [0, -56, 2] := by decide +kernel

example : ({} : ReportOpts).exchange = none ∧ PlainQuery (exHistRun exStroll).env ({} : ReportOpts).query := ⟨rfl, fun _ h => by cases h⟩

/-- A total that counts on what was before. -/
def exCounting : String := "2020-01-01 a\n Food  1 EUR\n Cash\n2020-01-02 b\n Food  1 EUR = 2 EUR\n Cash\n"

/-- What was before. -/
def exCounted : String := "2020-01-01 a\n Food  1 EUR\n Cash\n"

/-- The total without it. -/
def exMiscounted : String := "2020-01-02 b\n Food  1 EUR = 2 EUR\n Cash\n"

theorem exCounting_read : (exHistRun exCounting).journal "main".toList = .ok (exHistory exCounting) := exHistory_read (by decide +kernel)

theorem exMiscounted_read : (exHistRun exMiscounted).journal "main".toList = .ok (exHistory exMiscounted) :=
  exHistory_read (by decide +kernel)

theorem exCounting_made : Combines (exHistory exCounted) (exHistory exMiscounted) (exHistory exCounting) := madeOf_of (by decide +kernel)

theorem exCounting_part : Extract (some exSecond) none (exHistory exMiscounted) (exHistory exCounted) (exHistory exCounting) :=
  extract_of exCounting_made.symm (by decide +kernel)

theorem exCounting_free : OrderFree (exHistRun exCounting).env (exHistory exCounting) := orderFree_of (by decide +kernel)

theorem exCounting_accepted : ((exHistRun exCounting).ledger false "main".toList).toOption.isSome = true := by decide +kernel

theorem exMiscounted_rejected : ((exHistRun exMiscounted).ledger false "main".toList).toOption.isSome = false := by decide +kernel

/-- With a total, the part of an accepted journal in a period can be rejected. -/
theorem C145_false : ∃ (text part : String) (b : Date) (pl pl₁ pl₂ : ParsedLedger),
    (exHistRun text).journal "main".toList = .ok pl ∧ (exHistRun part).journal "main".toList = .ok pl₁ ∧
    Extract (some b) none pl₁ pl₂ pl ∧ OrderFree (exHistRun text).env pl ∧
    ((exHistRun text).ledger false "main".toList).toOption.isSome = true ∧
    ((exHistRun part).ledger false "main".toList).toOption.isSome = false :=
  ⟨exCounting, exMiscounted, exSecond, exHistory exCounting, exHistory exMiscounted, exHistory exCounted, exCounting_read,
    exMiscounted_read, exCounting_part, exCounting_free, exCounting_accepted, exMiscounted_rejected⟩

example : (exHistRun exStroll).env.AsciiSep := exEnvJ_sep

/-- The labels and amounts of a report as a tree of a period. -/
def exTreeWithin (text : String) (b e : Option Date) : Option (List (Str × List Money)) :=
  match balanceCommand (exHistRun text) exOrders 0 (({} : ReportOpts).during b e) false false true "main".toList with
  | .error _ => none
  | .ok rep => some (rep.lines.map (fun l => (l.label, l.amounts)))

/-- The reports of the case. -/
example : exTreeWithin exStroll (some exSecond) none = some [("Cash".toList, [.mk (-56) "EUR".toList]),
    ("Fuel".toList, [.mk 4 "OIL".toList]), ("Stock".toList, [.mk 2 "ACME".toList])] := by decide +kernel

example : exTreeWithin exEvening none none = some [("Cash".toList, [.mk (-56) "EUR".toList]),
    ("Fuel".toList, [.mk 4 "OIL".toList]), ("Stock".toList, [.mk 2 "ACME".toList])] := by decide +kernel

end Dinero
