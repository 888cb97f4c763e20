import Verif.Lemmas.Split
import Verif.Props.Course
import Verif.Props.Turn
/-
Property theorems about journals with postings written as two (C147).
-/
namespace Dinero

/-! ### C147: one posting or two -/

theorem postedWhere_entry {ps qs : List Posting} (h : ps.map Posting.entry = qs.map Posting.entry) (P : Str → Kind → Bool) (c : Cur) :
    postedWhere P ps c = postedWhere P qs c := by
  have e : ∀ ps : List Posting, postedWhere P ps c =
      sumIn (((ps.map Posting.entry).filter (fun x => P x.1 x.2.1)).filterMap (fun x => x.2.2)) c := by
    intro ps
    unfold postedWhere
    rw [List.filter_map, List.filterMap_map]
    rfl
  rw [e, e, h]

/-- What a report of a period sums up, from the transactions as written. -/
theorem period_sum {skip : Bool} {start : Str → Cur → Rat} {ts ts' : List (Txn Posting)}
    (hf : ∀ t ∈ ts, TimelessPostings skip t.postings) (h : BookedAs skip start ts ts') (b e : Option Date)
    (want : Str → Kind → Bool) (P : Str → Bool) (c : Cur) :
    selSum (inPeriod (fun _ p => want p.account p.kind) b e ts') P c =
      ((ts.filter (fun t => dateIn b e t.date)).map (fun t => enteredSum skip (fun a k => want a k && P a) c t.postings)).sum := by
  induction h with
  | nil => rfl
  | @cons start t es t' ts ts' h1 h2 h3 _ ih =>
    have ih := ih (fun t ht => hf t (by simp [ht]))
    have happ : ∀ xs ys, selSum (xs ++ ys) P c = selSum xs P c + selSum ys P c := by
      intro xs ys
      unfold selSum
      rw [List.filter_append, List.filterMap_append, sumIn_append]
    rw [inPeriod_cons, happ, ih]
    have hd : t'.date = t.date := by rw [h2]
    by_cases hin : dateIn b e t.date = true
    · rw [List.filter_cons_of_pos (by exact hin), List.map_cons, List.sum_cons]
      congr 1
      obtain ⟨qs, k1, k2⟩ := enters_where h1
      have h0 := posts_unique k1 (posts_givens start t.postings (hf t (by simp)))
      subst h0
      refine Eq.trans ?_ (k2 (fun a k => want a k && P a) c)
      rw [← postedWhere_entry (sameEntry_entry h3)]
      unfold selSum postedWhere
      simp only [inPeriod, List.flatMap_cons, List.flatMap_nil, List.append_nil, hd]
      unfold dateIn at hin
      simp only [hin, Bool.true_and]
      rw [List.filter_map, List.filterMap_map, List.filter_filter]
      congr 2
      apply List.filter_congr
      intro p _
      simp [Bool.and_comm]
    · rw [List.filter_cons_of_neg (by exact hin)]
      have : inPeriod (fun _ p => want p.account p.kind) b e [t'] = [] := by
        unfold inPeriod
        simp only [List.flatMap_cons, List.flatMap_nil, List.append_nil, hd]
        unfold dateIn at hin
        simp only [Bool.not_eq_true] at hin
        simp [hin]
      rw [this, show selSum [] P c = 0 from rfl, zero_add]

/-- What becomes of the two journals. -/
theorem split_conv {env : Env} {o o' : LedgerOrders} {pl pl' : ParsedLedger} (g : Split pl pl') (hf : OrderFree env pl)
    (h : pl.Ok env.lower) (h' : pl'.Ok env.lower) (hz : pl.NoFreeTotals) (skip : Bool) (hT : pl.Timeless skip) :
    ((∃ L, toLedger env o skip pl = .ok L) ↔ ∃ L, toLedger env o' skip pl' = .ok L) ∧
    ∀ L L', toLedger env o skip pl = .ok L → toLedger env o' skip pl' = .ok L' →
      (∃ es es', (∀ P c, postedWhere P es' c = postedWhere P es c) ∧
        (L.entries.map Prod.snd).map Posting.entry = es.map Posting.entry ∧
        (L'.entries.map Prod.snd).map Posting.entry = es'.map Posting.entry) ∧
      ∀ (b e : Option Date) (want : Str → Kind → Bool) (P : Str → Bool) (c : Cur),
        selSum (inPeriod (fun _ p => want p.account p.kind) b e L'.transactions) P c =
          selSum (inPeriod (fun _ p => want p.account p.kind) b e L.transactions) P c := by
  obtain ⟨l, p1, c1, a1, m1⟩ := toLedger_conv (o := o) h hz hf.noRules
  obtain ⟨l', p2, c2, a2, m2⟩ := toLedger_conv (o := o') h' (g.totals.mp hz) (g.automated hf.noRules)
  have hc : ∀ t tags p, convertPosting env o.unknown l t tags p = convertPosting env o'.unknown l' t tags p := by
    obtain ⟨o2, e2⟩ := g.populate (env := env) o'
    rw [e2] at p2
    exact convertPosting_orders h.lists hf p1 p2 (populate_ok h.lists p1) (populate_ok h.lists p2)
  have hts : ∀ t ∈ (sortBy dateLe pl.regular).map (fun t => (convOf env o.unknown l t).1), TimelessPostings skip t.postings := by
    intro t ht
    obtain ⟨u, hu, rfl⟩ := List.mem_map.mp ht
    have hu := (mem_sortBy _ _ _).mp hu
    exact convOf_timeless (hT.imp id (fun hT => hT u hu)) (c1 u hu)
  have q1 : ((sortBy dateLe pl.regular).map (fun t => (convOf env o.unknown l t).1)).Perm
      (pl.regular.map (fun t => (convOf env o.unknown l t).1)) := (sortBy_perm _ _).map _
  have q2 : ((sortBy dateLe pl'.regular).map (fun t => (convOf env o'.unknown l' t).1)).Perm
      (pl'.regular.map (fun t => (convOf env o'.unknown l' t).1)) := (sortBy_perm _ _).map _
  have key : List.Forall₂ (fun a b : Txn Posting => b.date = a.date ∧ (PostSplit a.postings b.postings))
      (pl.regular.map (fun t => (convOf env o.unknown l t).1)) (pl'.regular.map (fun t => (convOf env o'.unknown l' t).1)) := by
    have k := g.regular
    generalize pl.regular = us at k c1
    generalize pl'.regular = us' at k c2
    induction k with
    | nil => exact .nil
    | cons e _ ih =>
      refine .cons ⟨?_, convOf_split e hc (c1 _ (by simp)) (c2 _ (by simp))⟩
        (ih (fun t ht => c1 t (by simp [ht])) (fun t ht => c2 t (by simp [ht])))
      rw [convOf_date (c1 _ (by simp)), convOf_date (c2 _ (by simp)), e.1]
  generalize (sortBy dateLe pl.regular).map (fun t => (convOf env o.unknown l t).1) = ts at *
  generalize (sortBy dateLe pl'.regular).map (fun t => (convOf env o'.unknown l' t).1) = ts' at *
  generalize pl.regular.map (fun t => (convOf env o.unknown l t).1) = A at *
  generalize pl'.regular.map (fun t => (convOf env o'.unknown l' t).1) = A' at *
  have tA : ∀ t ∈ A, TimelessPostings skip t.postings := fun t ht => hts t (q1.mem_iff.mpr ht)
  have hts' : ∀ t ∈ ts', TimelessPostings skip t.postings := by
    intro t ht
    obtain ⟨u, hu, _, e⟩ := Forall₂.mem_right key (q2.mem_iff.mp ht)
    exact e.timeless.mp (tA u hu)
  obtain ⟨k1, k2⟩ := toLedger_books a1 (m1 skip)
  obtain ⟨k3, k4⟩ := toLedger_books a2 (m2 skip)
  refine ⟨?_, fun L L' h1 h2 => ?_⟩
  · rw [k1, k3]
    have bt : ∀ us : List (Txn Posting), (∀ t ∈ us, TimelessPostings skip t.postings) →
        ∀ t ∈ us.map Txn.bought, TimelessPostings skip t.postings := by
      intro us hus t ht
      obtain ⟨u, hu, rfl⟩ := List.mem_map.mp ht
      exact timeless_bought (hus u hu)
    rw [booksAll_timeless _ _ (bt ts hts), booksAll_timeless _ _ (bt ts' hts'), bought_postings, bought_postings]
    have mem : ∀ (us B : List (Txn Posting)), us.Perm B → ∀ ps, ps ∈ (us.map Txn.postings).map (List.map Posting.bought) ↔
        ∃ u ∈ B, u.postings.map Posting.bought = ps := by
      intro us B q ps
      rw [((q.map Txn.postings).map (List.map Posting.bought)).mem_iff, List.map_map, List.mem_map]
      rfl
    have some_txn : ∀ ps : List Posting, (∃ t : Txn Posting, t.postings = ps ∧ ∃ after, Books skip (fun _ _ => 0) t after) ↔
        ∃ after, Books skip (fun _ _ => 0) ({ postings := ps } : Txn Posting) after := by
      intro ps
      constructor
      · rintro ⟨t, e, after, hb⟩
        refine ⟨after, ?_⟩
        unfold Books at hb ⊢
        rw [e] at hb
        exact hb
      · rintro ⟨after, hb⟩
        exact ⟨_, rfl, after, hb⟩
    simp only [some_txn]
    constructor
    · intro hall ps' hps'
      obtain ⟨v, hv, rfl⟩ := (mem _ _ q2 _).mp hps'
      obtain ⟨u, hu, _, e⟩ := Forall₂.mem_right key hv
      exact (books_split e.bought (timeless_bought (tA u hu))).mp (hall _ ((mem _ _ q1 _).mpr ⟨u, hu, rfl⟩))
    · intro hall ps hps
      obtain ⟨u, hu, rfl⟩ := (mem _ _ q1 _).mp hps
      obtain ⟨v, hv, _, e⟩ := Forall₂.mem_right key.flip hu
      exact (books_split e.bought (timeless_bought (tA u hu))).mpr (hall _ ((mem _ _ q2 _).mpr ⟨v, hv, rfl⟩))
  · obtain ⟨es, e1, e2⟩ := k2 L h1
    obtain ⟨es', e3, e4⟩ := k4 L' h2
    refine ⟨⟨es, es', fun P c => ?_, e2, e4⟩, fun b e want P c => ?_⟩
    · rw [entersAll_sum hts e1, entersAll_sum hts' e3, (q1.map _).sum_eq, (q2.map _).sum_eq]
      clear q1 q2 tA
      induction key with
      | nil => rfl
      | @cons u v _ _ k _ ih =>
        rw [List.map_cons, List.map_cons, List.sum_cons, List.sum_cons, ih, enteredSum_split k.2]
    · rw [period_sum hts (extract_booked a1 (m1 skip) h1), period_sum hts' (extract_booked a2 (m2 skip) h2),
        ((q1.filter _).map _).sum_eq, ((q2.filter _).map _).sum_eq]
      clear q1 q2 tA
      induction key with
      | nil => rfl
      | @cons u v _ _ k _ ih =>
        by_cases hin : dateIn b e u.date = true
        · rw [List.filter_cons_of_pos (by rw [k.1]; exact hin), List.filter_cons_of_pos (by exact hin), List.map_cons, List.map_cons,
            List.sum_cons, List.sum_cons, ih, enteredSum_split k.2]
        · rw [List.filter_cons_of_neg (by rw [k.1]; exact hin), List.filter_cons_of_neg (by exact hin)]
          exact ih

/-- A journal that leaves hash orders nothing to decide and asks for no totals is accepted, rejected with a message, or ends the
program, exactly if it is with some of its postings written as two. -/
theorem C147_outcome {r r' : Run} {path path' : Str} {pl pl' : ParsedLedger} (he : r'.env = r.env)
    (h : r.journal path = .ok pl) (h' : r'.journal path' = .ok pl') (g : Split pl pl') (hf : OrderFree r.env pl) {skip : Bool}
    (hT : pl.Timeless skip) :
    ((∃ L, r'.ledger skip path' = .ok L) ↔ ∃ L, r.ledger skip path = .ok L) ∧
    ((∃ e, r'.ledger skip path' = .error (.fail (.error e))) ↔ ∃ e, r.ledger skip path = .error (.fail (.error e))) ∧
    ((∃ w, r'.ledger skip path' = .error (.fail (.panic w))) ↔ ∃ w, r.ledger skip path = .error (.fail (.panic w))) := by
  rcases C120_outcome h hf.noRules skip with ⟨hz, hw⟩ | ⟨hz, hc⟩
  · have := C120_free_total h' (fun k => hz (g.totals.mpr k)) skip
    rw [hw, this]
    simp
  · have hz' : pl'.NoFreeTotals := g.totals.mp hz
    have hiff : (∃ L, r.ledger skip path = .ok L) ↔ ∃ L, r'.ledger skip path' = .ok L := by
      have := (split_conv (o := r.orders) (o' := r'.orders) g hf (C83_wellformed h).1
        (by have := (C83_wellformed h').1; rwa [he] at this) hz skip hT).1
      unfold Run.ledger
      rw [h, h', he]
      simp only
      have e : ∀ o pl, (∃ L, PRes.lift (toLedger r.env o skip pl) = .ok L) ↔ ∃ L, toLedger r.env o skip pl = .ok L := by
        intro o pl
        cases toLedger r.env o skip pl <;> simp [PRes.lift]
      rw [e, e]
      exact this
    rcases C120_outcome h' (g.automated hf.noRules) skip with ⟨hz2, _⟩ | ⟨_, hc'⟩
    · exact absurd hz' hz2
    obtain ⟨_, _, ⟨_, _, L, hl⟩ | ⟨_, e, hl, _⟩⟩ := hc <;> obtain ⟨_, _, ⟨_, _, L', hl'⟩ | ⟨_, e', hl', _⟩⟩ := hc'
    · rw [hl, hl']; simp
    · rw [hl, hl'] at hiff; simp at hiff
    · rw [hl, hl'] at hiff; simp at hiff
    · rw [hl, hl']; simp

/-- Then the flat balance, with any depth, says the same of every account and commodity. -/
theorem C147_balance {r r' : Run} {path path' : Str} {pl pl' : ParsedLedger} {o o' : BalOrders} {today today' : Date}
    {skip t t' : Bool} {d : Option Nat} {rep rep' : BalReport} (he : r'.env = r.env)
    (h : r.journal path = .ok pl) (h' : r'.journal path' = .ok pl') (g : Split pl pl') (hf : OrderFree r.env pl)
    (hT : pl.Timeless skip)
    (hr : balanceCommand r o today { depth := d } skip true t path = .ok rep)
    (hr' : balanceCommand r' o' today' { depth := d } skip true t' path' = .ok rep') (a : Str) (c : Cur) :
    rep'.says a c = rep.says a c := by
  obtain ⟨L, hl, q⟩ := balanceCommand_report hr
  obtain ⟨L', hl', q'⟩ := balanceCommand_report hr'
  obtain ⟨sel, hs, hsays⟩ := flat_says (opts := { depth := d }) rfl q
  obtain ⟨sel', hs', hsays'⟩ := flat_says (opts := { depth := d }) rfl q'
  obtain rfl := selected_all hs
  obtain rfl := selected_all hs'
  have hz : pl.NoFreeTotals := by
    by_contra hz
    rw [C120_free_total h hz skip] at hl
    cases hl
  have lift : ∀ (x : Res Ledger) L, PRes.lift x = .ok L → x = .ok L := by
    intro x L h
    cases x with
    | error e => cases h
    | ok x => cases h; rfl
  unfold Run.ledger at hl hl'
  rw [h] at hl
  rw [h', he] at hl'
  obtain ⟨es, es', g1, g2, g3⟩ := ((split_conv (o := r.orders) (o' := r'.orders) g hf (C83_wellformed h).1
    (by have := (C83_wellformed h').1; rwa [he] at this) hz skip hT).2 L L' (lift _ _ hl) (lift _ _ hl')).1
  rw [hsays, hsays', selSum_entries g2, selSum_entries g3]
  exact g1 (fun x _ => match (generalizing := false) d with | none => x = a | some d => CutTo d x a) c

/-- The flat balance for any patterns, period and depth says the same. -/
theorem C147_report {r r' : Run} {path path' : Str} {pl pl' : ParsedLedger} {o o' : BalOrders} {today today' : Date}
    {skip t t' : Bool} {opts : ReportOpts} {b e : Option Date} {rep rep' : BalReport} (ha : r.env.AsciiSep)
    (hq : PlainQuery r.env opts.query) (hx : opts.exchange = none) (he : r'.env = r.env) (h : r.journal path = .ok pl)
    (h' : r'.journal path' = .ok pl') (g : Split pl pl') (hf : OrderFree r.env pl) (hT : pl.Timeless skip)
    (hr : balanceCommand r o today (opts.during b e) skip true t path = .ok rep)
    (hr' : balanceCommand r' o' today' (opts.during b e) skip true t' path' = .ok rep') (a : Str) (c : Cur) :
    rep'.says a c = rep.says a c := by
  obtain ⟨L, hl, q⟩ := balanceCommand_report hr
  obtain ⟨L', hl', q'⟩ := balanceCommand_report hr'
  rw [he] at q'
  obtain ⟨sel, hs, hsays⟩ := flat_says (opts := opts.during b e) hx q
  obtain ⟨sel', hs', hsays'⟩ := flat_says (opts := opts.during b e) hx q'
  rw [selected_plain ha (o := opts.during b e) hq hs, wantedOf_period] at hsays
  rw [selected_plain ha (o := opts.during b e) hq hs', wantedOf_period] at hsays'
  have hz : pl.NoFreeTotals := by
    by_contra hz
    rw [C120_free_total h hz skip] at hl
    cases hl
  have lift : ∀ (x : Res Ledger) L, PRes.lift x = .ok L → x = .ok L := by
    intro x L h
    cases x with
    | error e => cases h
    | ok x => cases h; rfl
  unfold Run.ledger at hl hl'
  rw [h] at hl
  rw [h', he] at hl'
  rw [hsays, hsays']
  exact ((split_conv (o := r.orders) (o' := r'.orders) g hf (C83_wellformed h).1
    (by have := (C83_wellformed h').1; rwa [he] at this) hz skip hT).2 L L' (lift _ _ hl) (lift _ _ hl')).2 b e
    (fun a k => (!opts.filter.real || k = .real) && (opts.query.isEmpty || byPatterns r.env opts.query a)) _ c

/-! #### Cases, and why there are no totals -/

/-- `exStroll` with a purchase and a price in two, and a payment in two. -/
def exParcels : String :=
  "2020-01-01 a\n Food  4 EUR\n Food  6.5 EUR\n Cash\n2020-01-02 b\n Stock  5 ACME @ 25 EUR\n Stock  -3 ACME @ 25 EUR\n Cash  -50 EUR\n2020-01-03 c\n Fuel  4 OIL @@ 6 EUR\n Cash\n"

/-- A total. -/
def exWhole : String := "2020-01-01 a\n Food  2 EUR = 2 EUR\n Cash\n"

/-- The posting in two, with the total at both. -/
def exPieces : String := "2020-01-01 a\n Food  1 EUR = 2 EUR\n Food  1 EUR = 2 EUR\n Cash\n"

theorem exParcels_read : (exHistRun exParcels).journal "main".toList = .ok (exHistory exParcels) := exHistory_read (by decide +kernel)

/-- Looking for the postings written as two. -/
def splitCheck : List RawPosting → List RawPosting → Bool
  | [], [] => true
  | p :: ps, q :: qs =>
    if p = q then splitCheck ps qs
    else match qs with
      | [] => false
      | r :: qs =>
        match q.moneyAmount, r.moneyAmount with
        | some x, some y => decide (q = { p with moneyAmount := some x } ∧ r = { p with moneyAmount := some y } ∧
            p.moneyAmount = some (x + y)) && p.moneyCurrency.isSome &&
            decide ((p.costCurrency = none ∧ p.costType = none) ∨ p.costType = some .perUnit ∧ p.kind ≠ .virtBal) && splitCheck ps qs
        | _, _ => false
  | _, _ => false

theorem splitCheck_of : ∀ {ps qs : List RawPosting}, splitCheck ps qs = true → SplitPostings ps qs
  | [], [], _ => .nil
  | [], _ :: _, h => by simp [splitCheck] at h
  | _ :: _, [], h => by simp [splitCheck] at h
  | p :: ps, q :: qs, h => by
    unfold splitCheck at h
    by_cases e : p = q
    · rw [if_pos e] at h
      subst e
      exact .same (splitCheck_of h)
    · rw [if_neg e] at h
      match qs, h with
      | r :: qs, h =>
        simp only at h
        cases hx : q.moneyAmount with
        | none => rw [hx] at h; simp at h
        | some x =>
          cases hy : r.moneyAmount with
          | none => rw [hx, hy] at h; simp at h
          | some y =>
            rw [hx, hy] at h
            simp only [Bool.and_eq_true, decide_eq_true_eq] at h
            obtain ⟨⟨⟨h1, h2⟩, h3⟩, h4⟩ := h
            exact .halves ⟨⟨x, y, h1⟩, h2, h3⟩ (splitCheck_of h4)

theorem split_of {pl pl' : ParsedLedger} (h : pl'.lists = pl.lists ∧ pl'.prices = pl.prices ∧
    pl.transactions.length = pl'.transactions.length ∧ ∀ x ∈ pl.transactions.zip pl'.transactions,
      x.2 = { x.1 with postings := x.2.postings } ∧ splitCheck x.1.postings x.2.postings = true) : Split pl pl' :=
  ⟨h.1, h.2.1, List.forall₂_iff_zip.mpr ⟨h.2.2.1, fun {a b} hm => ⟨(h.2.2.2 (a, b) hm).1, splitCheck_of (h.2.2.2 (a, b) hm).2⟩⟩⟩

theorem exParcels_same : Split (exHistory exStroll) (exHistory exParcels) := split_of (by decide +kernel)

/-- The hypotheses of `C147_outcome` hold of the two. -/
example : (∃ L, (exHistRun exParcels).ledger false "main".toList = .ok L) ↔ ∃ L, (exHistRun exStroll).ledger false "main".toList = .ok L :=
  (C147_outcome (r := exHistRun exStroll) (r' := exHistRun exParcels) rfl exStroll_read exParcels_read exParcels_same exStroll_free
    exStroll_timeless).1

example : exSays exParcels exPlaces = some [21 / 2, -133 / 2, 2] := by decide +kernel

example : exSaysWithin exParcels (some exSecond) none exPlaces = some [0, -56, 2] := by decide +kernel

theorem exWhole_read : (exHistRun exWhole).journal "main".toList = .ok (exHistory exWhole) := exHistory_read (by decide +kernel)

theorem exPieces_read : (exHistRun exPieces).journal "main".toList = .ok (exHistory exPieces) := exHistory_read (by decide +kernel)

theorem exPieces_same : Split (exHistory exWhole) (exHistory exPieces) := split_of (by decide +kernel)

theorem exWhole_free : OrderFree (exHistRun exWhole).env (exHistory exWhole) := orderFree_of (by decide +kernel)

theorem exWhole_accepted : ((exHistRun exWhole).ledger false "main".toList).toOption.isSome = true := by decide +kernel

theorem exPieces_rejected : ((exHistRun exPieces).ledger false "main".toList).toOption.isSome = false := by decide +kernel

/-- A total does not hold before the second half is posted. -/
theorem C147_false : ∃ (text text' : String) (pl pl' : ParsedLedger),
    (exHistRun text).journal "main".toList = .ok pl ∧ (exHistRun text').journal "main".toList = .ok pl' ∧ Split pl pl' ∧
    OrderFree (exHistRun text).env pl ∧ ((exHistRun text).ledger false "main".toList).toOption.isSome = true ∧
    ((exHistRun text').ledger false "main".toList).toOption.isSome = false :=
  ⟨exWhole, exPieces, exHistory exWhole, exHistory exPieces, exWhole_read, exPieces_read, exPieces_same, exWhole_free,
    exWhole_accepted, exPieces_rejected⟩

/-- A purchase in brackets. -/
def exBracket : String := "2020-01-01 a\n [Stock]  2 ACME @ 25 EUR\n [Cash]  -50 EUR\n"

/-- The purchase written as another one and a sale. -/
def exBrackets : String := "2020-01-01 a\n [Stock]  5 ACME @ 25 EUR\n [Stock]  -3 ACME @ 25 EUR\n [Cash]  -50 EUR\n"

theorem exBracket_accepted : ((exHistRun exBracket).ledger false "main".toList).toOption.isSome = true := by decide +kernel

theorem exBrackets_rejected : ((exHistRun exBrackets).ledger false "main".toList).toOption.isSome = false := by decide +kernel

/-- In brackets, a price makes a difference: sales are weighed with the wrong sign (C11). -/
theorem C147_bracketed : ∃ text text' : String, ((exHistRun text).ledger false "main".toList).toOption.isSome = true ∧
    ((exHistRun text').ledger false "main".toList).toOption.isSome = false ∧
    (exHistory text).transactions.map (fun t => t.postings.map (fun p => (p.account, p.kind, p.moneyAmount, p.costAmount))) =
      [[("Stock".toList, .virtBal, some 2, some 25), ("Cash".toList, .virtBal, some (-50), none)]] ∧
    (exHistory text').transactions.map (fun t => t.postings.map (fun p => (p.account, p.kind, p.moneyAmount, p.costAmount))) =
      [[("Stock".toList, .virtBal, some 5, some 25), ("Stock".toList, .virtBal, some (-3), some 25),
        ("Cash".toList, .virtBal, some (-50), none)]] :=
  ⟨exBracket, exBrackets, exBracket_accepted, exBrackets_rejected, by decide +kernel, by decide +kernel⟩

end Dinero
