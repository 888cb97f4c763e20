import Verif.Lemmas.Turn
import Verif.Props.Extract
/-
Property theorems about journals with the postings of their transactions in another order (C146).
-/
namespace Dinero

/-! ### C146: the order of postings -/

/-- What becomes of the two journals. -/
theorem turn_conv {env : Env} {o o' : LedgerOrders} {pl pl' : ParsedLedger} (g : Turned pl pl') (hf : OrderFree env pl)
    (h : pl.Ok env.lower) (h' : pl'.Ok env.lower) (hz : pl.NoFreeTotals) (skip : Bool) (hT : pl.Timeless skip) :
    ((∃ L, toLedger env o skip pl = .ok L) ↔ ∃ L, toLedger env o' skip pl' = .ok L) ∧
    ∀ L L', toLedger env o skip pl = .ok L → toLedger env o' skip pl' = .ok L' → ∀ (b e : Option Date) (want : Str → Kind → Bool),
      (((inPeriod (fun _ p => want p.account p.kind) b e L'.transactions).map Prod.snd).map Posting.entry).Perm
        (((inPeriod (fun _ p => want p.account p.kind) b e L.transactions).map Prod.snd).map Posting.entry) := by
  obtain ⟨l, p1, c1, a1, m1⟩ := toLedger_conv (o := o) h hz hf.noRules
  obtain ⟨l', p2, c2, a2, m2⟩ := toLedger_conv (o := o') h' (g.totals hz) (g.automated hf.noRules)
  have hc : ∀ t tags p, convertPosting env o.unknown l t tags p = convertPosting env o'.unknown l' t tags p := by
    obtain ⟨o2, e2⟩ := g.populate (env := env) o'
    rw [e2] at p2
    exact convertPosting_orders h.lists hf p1 p2 (populate_ok h.lists p1) (populate_ok h.lists p2)
  have hts : ∀ t ∈ (sortBy dateLe pl.regular).map (fun t => (convOf env o.unknown l t).1), TimelessPostings skip t.postings := by
    intro t ht
    obtain ⟨u, hu, rfl⟩ := List.mem_map.mp ht
    have hu := (mem_sortBy _ _ _).mp hu
    exact convOf_timeless (hT.imp id (fun hT => hT u hu)) (c1 u hu)
  have hts' : ∀ t ∈ (sortBy dateLe pl'.regular).map (fun t => (convOf env o'.unknown l' t).1), TimelessPostings skip t.postings := by
    intro t ht
    obtain ⟨u, hu, rfl⟩ := List.mem_map.mp ht
    have hu := (mem_sortBy _ _ _).mp hu
    refine convOf_timeless (hT.imp id (fun hT p hp => ?_)) (c2 u hu)
    obtain ⟨v, hv, e⟩ := Forall₂.mem_right g.regular hu
    exact hT v hv p (e.2.mem_iff.mp hp)
  have q1 : ((sortBy dateLe pl.regular).map (fun t => (convOf env o.unknown l t).1)).Perm
      (pl.regular.map (fun t => (convOf env o.unknown l t).1)) := (sortBy_perm _ _).map _
  have q2 : ((sortBy dateLe pl'.regular).map (fun t => (convOf env o'.unknown l' t).1)).Perm
      (pl'.regular.map (fun t => (convOf env o'.unknown l' t).1)) := (sortBy_perm _ _).map _
  have key : List.Forall₂ (fun a b : Txn Posting => b.date = a.date ∧ b.postings.Perm a.postings)
      (pl.regular.map (fun t => (convOf env o.unknown l t).1)) (pl'.regular.map (fun t => (convOf env o'.unknown l' t).1)) := by
    have k := g.regular
    generalize pl.regular = us at k c1
    generalize pl'.regular = us' at k c2
    induction k with
    | nil => exact .nil
    | cons e _ ih =>
      refine .cons ⟨?_, convOf_turned e hc (c1 _ (by simp)) (c2 _ (by simp))⟩
        (ih (fun t ht => c1 t (by simp [ht])) (fun t ht => c2 t (by simp [ht])))
      rw [convOf_date (c1 _ (by simp)), convOf_date (c2 _ (by simp)), e.1]
  generalize (sortBy dateLe pl.regular).map (fun t => (convOf env o.unknown l t).1) = ts at *
  generalize (sortBy dateLe pl'.regular).map (fun t => (convOf env o'.unknown l' t).1) = ts' at *
  generalize pl.regular.map (fun t => (convOf env o.unknown l t).1) = A at *
  generalize pl'.regular.map (fun t => (convOf env o'.unknown l' t).1) = A' at *
  have tA : ∀ t ∈ A, TimelessPostings skip t.postings := fun t ht => hts t (q1.mem_iff.mpr ht)
  refine ⟨?_, fun L L' h1 h2 b e want => ?_⟩
  · rw [(toLedger_books a1 (m1 skip)).1, (toLedger_books a2 (m2 skip)).1]
    have bt : ∀ us : List (Txn Posting), (∀ t ∈ us, TimelessPostings skip t.postings) →
        ∀ t ∈ us.map Txn.bought, TimelessPostings skip t.postings := by
      intro us hus t ht
      obtain ⟨u, hu, rfl⟩ := List.mem_map.mp ht
      exact timeless_bought (hus u hu)
    rw [booksAll_timeless _ _ (bt ts hts), booksAll_timeless _ _ (bt ts' hts'), bought_postings, bought_postings]
    have mem : ∀ (us B : List (Txn Posting)), us.Perm B → ∀ ps, ps ∈ (us.map Txn.postings).map (List.map Posting.bought) ↔
        ∃ u ∈ B, u.postings.map Posting.bought = ps := by
      intro us B q ps
      rw [((q.map Txn.postings).map (List.map Posting.bought)).mem_iff, List.map_map, List.mem_map]
      rfl
    have carry : ∀ ps ps' : List Posting, ps'.Perm ps → TimelessPostings skip (ps.map Posting.bought) →
        (∃ t : Txn Posting, t.postings = ps.map Posting.bought ∧ ∃ after, Books skip (fun _ _ => 0) t after) →
        ∃ t : Txn Posting, t.postings = ps'.map Posting.bought ∧ ∃ after, Books skip (fun _ _ => 0) t after := by
      rintro ps ps' hp ht ⟨t, e, after, hb⟩
      refine ⟨{ postings := ps'.map Posting.bought }, rfl, books_turned (hp.map _) ht (after := after) ?_⟩
      unfold Books at hb ⊢
      rw [e] at hb
      exact hb
    constructor
    · intro hall ps' hps'
      obtain ⟨v, hv, rfl⟩ := (mem _ _ q2 _).mp hps'
      obtain ⟨u, hu, e⟩ := Forall₂.mem_right key hv
      exact carry _ _ e.2 (timeless_bought (tA u hu)) (hall _ ((mem _ _ q1 _).mpr ⟨u, hu, rfl⟩))
    · intro hall ps hps
      obtain ⟨u, hu, rfl⟩ := (mem _ _ q1 _).mp hps
      obtain ⟨v, hv, e⟩ := Forall₂.mem_right key.flip hu
      exact carry _ _ e.2.symm (timeless_perm (e.2.map _) (timeless_bought (tA u hu))) (hall _ ((mem _ _ q2 _).mpr ⟨v, hv, rfl⟩))
  · refine (period_entries hts' (extract_booked a2 (m2 skip) h2) b e want).trans
      (List.Perm.trans ?_ (period_entries hts (extract_booked a1 (m1 skip) h1) b e want).symm)
    refine ((((q2.filter _).map _).flatMap_right _).trans ?_).trans (((q1.filter _).map _).flatMap_right _).symm
    clear q1 q2
    induction key with
    | nil => exact .refl _
    | @cons u v _ _ k _ ih =>
      have ih := ih (fun t ht => tA t (by simp [ht]))
      by_cases hin : dateIn b e u.date = true
      · rw [List.filter_cons_of_pos (by rw [k.1]; exact hin), List.filter_cons_of_pos (by exact hin), List.map_cons, List.map_cons,
          List.flatMap_cons, List.flatMap_cons]
        exact ((enteredAs_turned k.2 (tA u (by simp))).filter _).append ih
      · rw [List.filter_cons_of_neg (by rw [k.1]; exact hin), List.filter_cons_of_neg (by exact hin)]
        exact ih

/-- A journal that leaves hash orders nothing to decide and asks for no totals is accepted, rejected with a message, or ends the
program, exactly if it is with the postings of its transactions in another order. -/
theorem C146_outcome {r r' : Run} {path path' : Str} {pl pl' : ParsedLedger} (he : r'.env = r.env)
    (h : r.journal path = .ok pl) (h' : r'.journal path' = .ok pl') (g : Turned pl pl') (hf : OrderFree r.env pl) {skip : Bool}
    (hT : pl.Timeless skip) :
    ((∃ L, r'.ledger skip path' = .ok L) ↔ ∃ L, r.ledger skip path = .ok L) ∧
    ((∃ e, r'.ledger skip path' = .error (.fail (.error e))) ↔ ∃ e, r.ledger skip path = .error (.fail (.error e))) ∧
    ((∃ w, r'.ledger skip path' = .error (.fail (.panic w))) ↔ ∃ w, r.ledger skip path = .error (.fail (.panic w))) := by
  rcases C120_outcome h hf.noRules skip with ⟨hz, hw⟩ | ⟨hz, hc⟩
  · have := C120_free_total h' (fun k => hz (g.symm.totals k)) skip
    rw [hw, this]
    simp
  · have hz' : pl'.NoFreeTotals := g.totals hz
    have hiff : (∃ L, r.ledger skip path = .ok L) ↔ ∃ L, r'.ledger skip path' = .ok L := by
      have := (turn_conv (o := r.orders) (o' := r'.orders) g hf (C83_wellformed h).1
        (by have := (C83_wellformed h').1; rwa [he] at this) hz skip hT).1
      unfold Run.ledger
      rw [h, h', he]
      simp only
      have e : ∀ o pl, (∃ L, PRes.lift (toLedger r.env o skip pl) = .ok L) ↔ ∃ L, toLedger r.env o skip pl = .ok L := by
        intro o pl
        cases toLedger r.env o skip pl <;> simp [PRes.lift]
      rw [e, e]
      exact this
    rcases C120_outcome h' (g.automated hf.noRules) skip with ⟨hz2, _⟩ | ⟨_, hc'⟩
    · exact absurd hz' hz2
    obtain ⟨_, _, ⟨_, _, L, hl⟩ | ⟨_, e, hl, _⟩⟩ := hc <;> obtain ⟨_, _, ⟨_, _, L', hl'⟩ | ⟨_, e', hl', _⟩⟩ := hc'
    · rw [hl, hl']; simp
    · rw [hl, hl'] at hiff; simp at hiff
    · rw [hl, hl'] at hiff; simp at hiff
    · rw [hl, hl']; simp

/-- Then the balance, as a tree or flat, for any patterns, period and depth, has the same rows. -/
theorem C146_report {r r' : Run} {path path' : Str} {pl pl' : ParsedLedger} {o o' : BalOrders} {today today' : Date}
    {skip flat total : Bool} {opts : ReportOpts} {b e : Option Date} {rep rep' : BalReport} (ha : r.env.AsciiSep) (hq : PlainQuery r.env opts.query)
    (hx : opts.exchange = none) (he : r'.env = r.env) (h : r.journal path = .ok pl) (h' : r'.journal path' = .ok pl')
    (g : Turned pl pl') (hf : OrderFree r.env pl) (hT : pl.Timeless skip)
    (hr : balanceCommand r o today (opts.during b e) skip flat total path = .ok rep)
    (hr' : balanceCommand r' o' today' (opts.during b e) skip flat total path' = .ok rep') : rep'.Like rep := by
  obtain ⟨L, hl, q⟩ := balanceCommand_report hr
  obtain ⟨L', hl', q'⟩ := balanceCommand_report hr'
  rw [he] at q'
  have hz : pl.NoFreeTotals := by
    by_contra hz
    rw [C120_free_total h hz skip] at hl
    cases hl
  have lift : ∀ (x : Res Ledger) L, PRes.lift x = .ok L → x = .ok L := by
    intro x L h
    cases x with
    | error e => cases h
    | ok x => cases h; rfl
  unfold Run.ledger at hl hl'
  rw [h] at hl
  rw [h', he] at hl'
  refine report_like (opts := opts.during b e) (opts' := opts.during b e) hx hx rfl q' q (fun sel' sel k' k => ?_)
  rw [selected_plain ha (o := opts.during b e) hq k', selected_plain ha (o := opts.during b e) hq k, wantedOf_period, wantedOf_period]
  exact (turn_conv (o := r.orders) (o' := r'.orders) g hf (C83_wellformed h).1
    (by have := (C83_wellformed h').1; rwa [he] at this) hz skip hT).2 L L' (lift _ _ hl) (lift _ _ hl') b e
    (fun a k => (!opts.filter.real || k = .real) && (opts.query.isEmpty || byPatterns r.env opts.query a))

/-! #### Cases, and why the order matters to totals -/

/-- `exStroll` with the postings of its transactions the other way round. -/
def exTurn : String :=
  "2020-01-01 a\n Cash\n Food  10.5 EUR\n2020-01-02 b\n Cash  -50 EUR\n Stock  2 ACME @ 25 EUR\n2020-01-03 c\n Cash\n Fuel  4 OIL @@ 6 EUR\n"

/-- Totals within a transaction. -/
def exSteps : String := "2020-01-01 a\n Food  1 EUR = 1 EUR\n Food  1 EUR = 2 EUR\n Cash\n"

/-- The same totals, the other way round. -/
def exMissteps : String := "2020-01-01 a\n Food  1 EUR = 2 EUR\n Food  1 EUR = 1 EUR\n Cash\n"

instance (t t' : Txn RawPosting) : Decidable (t.Turned t') := inferInstanceAs (Decidable (_ ∧ _))

theorem turned_of {pl pl' : ParsedLedger} (h : pl'.lists = pl.lists ∧ pl'.prices = pl.prices ∧
    pl.transactions.length = pl'.transactions.length ∧ ∀ x ∈ pl.transactions.zip pl'.transactions, Txn.Turned x.1 x.2) : Turned pl pl' :=
  ⟨h.1, h.2.1, List.forall₂_iff_zip.mpr ⟨h.2.2.1, fun {a b} hm => h.2.2.2 (a, b) hm⟩⟩

theorem exTurn_read : (exHistRun exTurn).journal "main".toList = .ok (exHistory exTurn) := exHistory_read (by decide +kernel)

theorem exTurn_same : Turned (exHistory exStroll) (exHistory exTurn) := turned_of (by decide +kernel)

example : ((exHistory exTurn).transactions.map Txn.postings == (exHistory exStroll).transactions.map Txn.postings) = false := by decide +kernel

/-- The hypotheses of `C146_outcome` hold of the two. -/
example : (∃ L, (exHistRun exTurn).ledger false "main".toList = .ok L) ↔ ∃ L, (exHistRun exStroll).ledger false "main".toList = .ok L :=
  (C146_outcome (r := exHistRun exStroll) (r' := exHistRun exTurn) rfl exStroll_read exTurn_read exTurn_same exStroll_free exStroll_timeless).1

/-- And those of `C146_report`, asked for from a day on. -/
example {o o' : BalOrders} {rep rep' : BalReport}
    (hr : balanceCommand (exHistRun exStroll) o 0 (({} : ReportOpts).during (some exSecond) none) false false true "main".toList = .ok rep)
    (hr' : balanceCommand (exHistRun exTurn) o' 1 (({} : ReportOpts).during (some exSecond) none) false false true "main".toList = .ok rep') :
    rep'.Like rep :=
  C146_report (r := exHistRun exStroll) (r' := exHistRun exTurn) (opts := {}) exEnvJ_sep (fun _ h => by cases h) rfl rfl exStroll_read exTurn_read exTurn_same exStroll_free exStroll_timeless
    hr hr'

example : exSaysWithin exTurn (some exSecond) none exPlaces = some [0, -56, 2] := by decide +kernel

example : exSays exTurn exPlaces = some [21 / 2, -133 / 2, 2] := by decide +kernel

theorem exSteps_read : (exHistRun exSteps).journal "main".toList = .ok (exHistory exSteps) := exHistory_read (by decide +kernel)

theorem exMissteps_read : (exHistRun exMissteps).journal "main".toList = .ok (exHistory exMissteps) := exHistory_read (by decide +kernel)

theorem exMissteps_same : Turned (exHistory exSteps) (exHistory exMissteps) := turned_of (by decide +kernel)

theorem exSteps_free : OrderFree (exHistRun exSteps).env (exHistory exSteps) := orderFree_of (by decide +kernel)

theorem exSteps_accepted : ((exHistRun exSteps).ledger false "main".toList).toOption.isSome = true := by decide +kernel

theorem exMissteps_rejected : ((exHistRun exMissteps).ledger false "main".toList).toOption.isSome = false := by decide +kernel

/-- Totals are compared posting by posting. -/
theorem C146_false : ∃ (text text' : String) (pl pl' : ParsedLedger),
    (exHistRun text).journal "main".toList = .ok pl ∧ (exHistRun text').journal "main".toList = .ok pl' ∧ Turned pl pl' ∧
    OrderFree (exHistRun text).env pl ∧ ((exHistRun text).ledger false "main".toList).toOption.isSome = true ∧
    ((exHistRun text').ledger false "main".toList).toOption.isSome = false :=
  ⟨exSteps, exMissteps, exHistory exSteps, exHistory exMissteps, exSteps_read, exMissteps_read, exMissteps_same, exSteps_free,
    exSteps_accepted, exMissteps_rejected⟩

/-! ### C138: two runs, asked for accounts and a period -/

theorem wantedOf_same {env : Env} {opts : ReportOpts} {ts ts' : List (Txn Posting)} (h : List.Forall₂ SamePostings ts ts') :
    ((wantedOf env opts ts).map Prod.snd).Perm ((wantedOf env opts ts').map Prod.snd) := by
  unfold wantedOf
  induction h with
  | nil => exact .refl _
  | @cons t t' _ _ hx _ ih =>
    rw [List.flatMap_cons, List.flatMap_cons, List.map_append, List.map_append]
    refine List.Perm.append ?_ ih
    have e : ∀ u : Txn Posting, ∀ ps : List Posting, (ps.map (fun p => (u, p))).map Prod.snd = ps := fun u ps => by
      rw [List.map_map]; exact List.map_id _
    rw [e, e]
    have hw : opts.wants env t' = opts.wants env t := by
      have hd : t'.date = t.date := by rw [hx.1]
      funext p
      unfold ReportOpts.wants
      rw [hd]
    rw [hw]
    exact hx.2.symm.filter _

/-- Two runs of the program on a journal that leaves hash orders nothing to decide (C29) show the same balance, as a tree or flat,
except for the order of the amounts of a line, for any patterns, period and depth. -/
theorem C138_patterns {r r' : Run} {path path' : Str} {pl : ParsedLedger} {o o' : BalOrders} {today today' : Date}
    {skip flat total : Bool} {opts : ReportOpts} {rep rep' : BalReport} (ha : r.env.AsciiSep) (hq : PlainQuery r.env opts.query)
    (hx : opts.exchange = none) (he : r'.env = r.env) (h : r.journal path = .ok pl) (h' : r'.journal path' = .ok pl)
    (hf : OrderFree r.env pl) (hr : balanceCommand r o today opts skip flat total path = .ok rep)
    (hr' : balanceCommand r' o' today' opts skip flat total path' = .ok rep') : rep.Like rep' := by
  obtain ⟨L, hl, q⟩ := balanceCommand_report hr
  obtain ⟨L', hl', q'⟩ := balanceCommand_report hr'
  rw [he] at q'
  have lift : ∀ (x : Res Ledger) L, PRes.lift x = .ok L → x = .ok L := by
    intro x L h
    cases x with
    | error e => cases h
    | ok x => cases h; rfl
  unfold Run.ledger at hl hl'
  rw [h] at hl
  rw [h', he] at hl'
  have hs := (C29_orders_partial r.orders r'.orders (C83_wellformed h).1.lists hf).2 L L' (lift _ _ hl) (lift _ _ hl')
  refine report_like hx hx rfl q q' (fun sel sel' k k' => ?_)
  rw [selected_plain ha hq k, selected_plain ha hq k']
  exact (wantedOf_same hs.transactions).map _

/-- The hypotheses hold of a journal with elided amounts and costs, asked for from a day on. -/
example {o o' : BalOrders} {rep rep' : BalReport}
    (hr : balanceCommand (exHistRun exStroll) o 0 (({} : ReportOpts).during (some exSecond) none) false false true "main".toList = .ok rep)
    (hr' : balanceCommand (exHistRun exStroll) o' 1 (({} : ReportOpts).during (some exSecond) none) false false true "main".toList = .ok rep') :
    rep.Like rep' :=
  C138_patterns (r := exHistRun exStroll) (r' := exHistRun exStroll) exEnvJ_sep (fun _ h => by cases h) rfl rfl exStroll_read exStroll_read exStroll_free hr hr'

end Dinero
