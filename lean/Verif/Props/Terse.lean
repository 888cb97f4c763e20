import Verif.Lemmas.Terse
import Verif.Props.Sum
import Verif.Props.Split
/-
Property theorems about journals with amounts left out (C148).
-/
namespace Dinero

/-! ### C148: an amount may be left out -/

/-- What becomes of the two journals. -/
theorem terse_conv {env : Env} {o o' : LedgerOrders} {pl pl' : ParsedLedger} (g : Terse pl pl') (hf : OrderFree env pl)
    (h : pl.Ok env.lower) (h' : pl'.Ok env.lower) (hz : pl.NoFreeTotals) (skip : Bool) (hT : pl.Timeless skip) :
    ((∃ L, toLedger env o skip pl = .ok L) → ∃ L, toLedger env o' skip pl' = .ok L) ∧
    ∀ L L', toLedger env o skip pl = .ok L → toLedger env o' skip pl' = .ok L' →
      (∃ es es', (∀ P c, postedWhere P es' c = postedWhere P es c) ∧
        (L.entries.map Prod.snd).map Posting.entry = es.map Posting.entry ∧
        (L'.entries.map Prod.snd).map Posting.entry = es'.map Posting.entry) ∧
      ∀ (b e : Option Date) (want : Str → Kind → Bool) (P : Str → Bool) (c : Cur),
        selSum (inPeriod (fun _ p => want p.account p.kind) b e L'.transactions) P c =
          selSum (inPeriod (fun _ p => want p.account p.kind) b e L.transactions) P c := by
  obtain ⟨l, p1, c1, a1, m1⟩ := toLedger_conv (o := o) h hz hf.noRules
  obtain ⟨l', p2, c2, a2, m2⟩ := toLedger_conv (o := o') h' (g.totals hz) (g.automated hf.noRules)
  have hc : ∀ t tags p, convertPosting env o.unknown l t tags p = convertPosting env o'.unknown l' t tags p := by
    obtain ⟨o2, e2⟩ := g.populate (env := env) o'
    rw [e2] at p2
    exact convertPosting_orders h.lists hf p1 p2 (populate_ok h.lists p1) (populate_ok h.lists p2)
  have hts : ∀ t ∈ (sortBy dateLe pl.regular).map (fun t => (convOf env o.unknown l t).1), TimelessPostings skip t.postings := by
    intro t ht
    obtain ⟨u, hu, rfl⟩ := List.mem_map.mp ht
    have hu := (mem_sortBy _ _ _).mp hu
    exact convOf_timeless (hT.imp id (fun hT => hT u hu)) (c1 u hu)
  have q1 : ((sortBy dateLe pl.regular).map (fun t => (convOf env o.unknown l t).1)).Perm
      (pl.regular.map (fun t => (convOf env o.unknown l t).1)) := (sortBy_perm _ _).map _
  have q2 : ((sortBy dateLe pl'.regular).map (fun t => (convOf env o'.unknown l' t).1)).Perm
      (pl'.regular.map (fun t => (convOf env o'.unknown l' t).1)) := (sortBy_perm _ _).map _
  have key : List.Forall₂ (fun a b : Txn Posting => b.date = a.date ∧ (b.postings = a.postings ∨ PostTerse a.postings b.postings))
      (pl.regular.map (fun t => (convOf env o.unknown l t).1)) (pl'.regular.map (fun t => (convOf env o'.unknown l' t).1)) := by
    have k := g.regular
    generalize pl.regular = us at k c1
    generalize pl'.regular = us' at k c2
    induction k with
    | nil => exact .nil
    | cons e _ ih =>
      refine .cons ?_ (ih (fun t ht => c1 t (by simp [ht])) (fun t ht => c2 t (by simp [ht])))
      refine ⟨?_, ?_⟩
      · rw [convOf_date (c1 _ (by simp)), convOf_date (c2 _ (by simp))]
        rcases e with rfl | e
        · rfl
        · rw [e.1]
      rcases e with rfl | e
      · exact .inl (convOf_equal hc (c1 _ (by simp)) (c2 _ (by simp)))
      · exact .inr (convOf_terse e hc (c1 _ (by simp)) (c2 _ (by simp)))
  generalize (sortBy dateLe pl.regular).map (fun t => (convOf env o.unknown l t).1) = ts at *
  generalize (sortBy dateLe pl'.regular).map (fun t => (convOf env o'.unknown l' t).1) = ts' at *
  generalize pl.regular.map (fun t => (convOf env o.unknown l t).1) = A at *
  generalize pl'.regular.map (fun t => (convOf env o'.unknown l' t).1) = A' at *
  have tA : ∀ t ∈ A, TimelessPostings skip t.postings := fun t ht => hts t (q1.mem_iff.mpr ht)
  have hts' : ∀ t ∈ ts', TimelessPostings skip t.postings := by
    intro t ht
    obtain ⟨u, hu, _, e⟩ := Forall₂.mem_right key (q2.mem_iff.mp ht)
    rcases e with e | e
    · rw [e]; exact tA u hu
    · exact e.timeless (tA u hu)
  obtain ⟨k1, k2⟩ := toLedger_books a1 (m1 skip)
  obtain ⟨k3, k4⟩ := toLedger_books a2 (m2 skip)
  refine ⟨?_, fun L L' h1 h2 => ?_⟩
  · rw [k1, k3]
    have bt : ∀ us : List (Txn Posting), (∀ t ∈ us, TimelessPostings skip t.postings) →
        ∀ t ∈ us.map Txn.bought, TimelessPostings skip t.postings := by
      intro us hus t ht
      obtain ⟨u, hu, rfl⟩ := List.mem_map.mp ht
      exact timeless_bought (hus u hu)
    rw [booksAll_timeless _ _ (bt ts hts), booksAll_timeless _ _ (bt ts' hts'), bought_postings, bought_postings]
    have mem : ∀ (us B : List (Txn Posting)), us.Perm B → ∀ ps, ps ∈ (us.map Txn.postings).map (List.map Posting.bought) ↔
        ∃ u ∈ B, u.postings.map Posting.bought = ps := by
      intro us B q ps
      rw [((q.map Txn.postings).map (List.map Posting.bought)).mem_iff, List.map_map, List.mem_map]
      rfl
    have some_txn : ∀ ps : List Posting, (∃ t : Txn Posting, t.postings = ps ∧ ∃ after, Books skip (fun _ _ => 0) t after) ↔
        ∃ after, Books skip (fun _ _ => 0) ({ postings := ps } : Txn Posting) after := by
      intro ps
      constructor
      · rintro ⟨t, e, after, hb⟩
        refine ⟨after, ?_⟩
        unfold Books at hb ⊢
        rw [e] at hb
        exact hb
      · rintro ⟨after, hb⟩
        exact ⟨_, rfl, after, hb⟩
    simp only [some_txn]
    intro hall ps' hps'
    obtain ⟨v, hv, rfl⟩ := (mem _ _ q2 _).mp hps'
    obtain ⟨u, hu, _, e⟩ := Forall₂.mem_right key hv
    have hb := hall _ ((mem _ _ q1 _).mpr ⟨u, hu, rfl⟩)
    rcases e with e | e
    · rw [e]; exact hb
    · obtain ⟨_, hb⟩ := hb
      exact books_terse e.bought (timeless_bought (tA u hu)) hb
  · obtain ⟨es, e1, e2⟩ := k2 L h1
    obtain ⟨es', e3, e4⟩ := k4 L' h2
    have hen : ∀ t ∈ A, ∃ start es, Enters skip start { postings := t.postings } es :=
      fun t ht => entersAll_each e1 t (q1.mem_iff.mpr ht)
    have one : ∀ u v : Txn Posting, u ∈ A → (v.postings = u.postings ∨ PostTerse u.postings v.postings) → ∀ P c,
        enteredSum skip P c v.postings = enteredSum skip P c u.postings := by
      intro u v hu k P c
      rcases k with k | k
      · rw [k]
      · obtain ⟨_, _, he⟩ := hen u hu
        exact enteredSum_terse k (tA u hu) he P c
    refine ⟨⟨es, es', fun P c => ?_, e2, e4⟩, fun b e want P c => ?_⟩
    · rw [entersAll_sum hts e1, entersAll_sum hts' e3, (q1.map _).sum_eq, (q2.map _).sum_eq]
      clear q1 q2 hen
      induction key with
      | nil => rfl
      | @cons u v _ _ k _ ih =>
        rw [List.map_cons, List.map_cons, List.sum_cons, List.sum_cons, ih (fun t ht => tA t (by simp [ht]))
          (fun u v hu => one u v (by simp [hu])), one u v (by simp) k.2]
    · rw [period_sum hts (extract_booked a1 (m1 skip) h1), period_sum hts' (extract_booked a2 (m2 skip) h2),
        ((q1.filter _).map _).sum_eq, ((q2.filter _).map _).sum_eq]
      clear q1 q2 hen
      induction key with
      | nil => rfl
      | @cons u v _ _ k _ ih =>
        have ih := ih (fun t ht => tA t (by simp [ht])) (fun u v hu => one u v (by simp [hu]))
        by_cases hin : dateIn b e u.date = true
        · rw [List.filter_cons_of_pos (by rw [k.1]; exact hin), List.filter_cons_of_pos (by exact hin), List.map_cons, List.map_cons,
            List.sum_cons, List.sum_cons, ih, one u v (by simp) k.2]
        · rw [List.filter_cons_of_neg (by rw [k.1]; exact hin), List.filter_cons_of_neg (by exact hin)]
          exact ih

/-- If a journal that leaves hash orders nothing to decide and asks for no totals is accepted, it is with one amount left out in each
of some transactions in a single commodity. -/
theorem C148_accepted {r r' : Run} {path path' : Str} {pl pl' : ParsedLedger} {skip : Bool} {L : Ledger} (he : r'.env = r.env)
    (h : r.journal path = .ok pl) (h' : r'.journal path' = .ok pl') (g : Terse pl pl') (hf : OrderFree r.env pl)
    (hT : pl.Timeless skip) (hl : r.ledger skip path = .ok L) : ∃ L', r'.ledger skip path' = .ok L' := by
  have hz : pl.NoFreeTotals := by
    by_contra hz
    rw [C120_free_total h hz skip] at hl
    cases hl
  rw [ledger_iff h] at hl
  simp only [ledger_iff h', he]
  exact (terse_conv g hf (C83_wellformed h).1 (by have := (C83_wellformed h').1; rwa [he] at this) hz skip hT).1 ⟨L, hl⟩

/-- Then the flat balance, with any depth, says the same of every account and commodity. -/
theorem C148_balance {r r' : Run} {path path' : Str} {pl pl' : ParsedLedger} {o o' : BalOrders} {today today' : Date}
    {skip t t' : Bool} {d : Option Nat} {rep rep' : BalReport} (he : r'.env = r.env)
    (h : r.journal path = .ok pl) (h' : r'.journal path' = .ok pl') (g : Terse pl pl') (hf : OrderFree r.env pl)
    (hT : pl.Timeless skip)
    (hr : balanceCommand r o today { depth := d } skip true t path = .ok rep)
    (hr' : balanceCommand r' o' today' { depth := d } skip true t' path' = .ok rep') (a : Str) (c : Cur) :
    rep'.says a c = rep.says a c := by
  obtain ⟨L, hl, q⟩ := balanceCommand_report hr
  obtain ⟨L', hl', q'⟩ := balanceCommand_report hr'
  obtain ⟨sel, hs, hsays⟩ := flat_says (opts := { depth := d }) rfl q
  obtain ⟨sel', hs', hsays'⟩ := flat_says (opts := { depth := d }) rfl q'
  obtain rfl := selected_all hs
  obtain rfl := selected_all hs'
  have hz : pl.NoFreeTotals := by
    by_contra hz
    rw [C120_free_total h hz skip] at hl
    cases hl
  have lift : ∀ (x : Res Ledger) L, PRes.lift x = .ok L → x = .ok L := by
    intro x L h
    cases x with
    | error e => cases h
    | ok x => cases h; rfl
  unfold Run.ledger at hl hl'
  rw [h] at hl
  rw [h', he] at hl'
  obtain ⟨es, es', g1, g2, g3⟩ := ((terse_conv (o := r.orders) (o' := r'.orders) g hf (C83_wellformed h).1
    (by have := (C83_wellformed h').1; rwa [he] at this) hz skip hT).2 L L' (lift _ _ hl) (lift _ _ hl')).1
  rw [hsays, hsays', selSum_entries g2, selSum_entries g3]
  exact g1 (fun x _ => match (generalizing := false) d with | none => x = a | some d => CutTo d x a) c

/-- The flat balance for any patterns, period and depth says the same. -/
theorem C148_report {r r' : Run} {path path' : Str} {pl pl' : ParsedLedger} {o o' : BalOrders} {today today' : Date}
    {skip t t' : Bool} {opts : ReportOpts} {b e : Option Date} {rep rep' : BalReport} (ha : r.env.AsciiSep)
    (hq : PlainQuery r.env opts.query) (hx : opts.exchange = none) (he : r'.env = r.env) (h : r.journal path = .ok pl)
    (h' : r'.journal path' = .ok pl') (g : Terse pl pl') (hf : OrderFree r.env pl) (hT : pl.Timeless skip)
    (hr : balanceCommand r o today (opts.during b e) skip true t path = .ok rep)
    (hr' : balanceCommand r' o' today' (opts.during b e) skip true t' path' = .ok rep') (a : Str) (c : Cur) :
    rep'.says a c = rep.says a c := by
  obtain ⟨L, hl, q⟩ := balanceCommand_report hr
  obtain ⟨L', hl', q'⟩ := balanceCommand_report hr'
  rw [he] at q'
  obtain ⟨sel, hs, hsays⟩ := flat_says (opts := opts.during b e) hx q
  obtain ⟨sel', hs', hsays'⟩ := flat_says (opts := opts.during b e) hx q'
  rw [selected_plain ha (o := opts.during b e) hq hs, wantedOf_period] at hsays
  rw [selected_plain ha (o := opts.during b e) hq hs', wantedOf_period] at hsays'
  have hz : pl.NoFreeTotals := by
    by_contra hz
    rw [C120_free_total h hz skip] at hl
    cases hl
  have lift : ∀ (x : Res Ledger) L, PRes.lift x = .ok L → x = .ok L := by
    intro x L h
    cases x with
    | error e => cases h
    | ok x => cases h; rfl
  unfold Run.ledger at hl hl'
  rw [h] at hl
  rw [h', he] at hl'
  rw [hsays, hsays']
  exact ((terse_conv (o := r.orders) (o' := r'.orders) g hf (C83_wellformed h).1
    (by have := (C83_wellformed h').1; rwa [he] at this) hz skip hT).2 L L' (lift _ _ hl) (lift _ _ hl')).2 b e
    (fun a k => (!opts.filter.real || k = .real) && (opts.query.isEmpty || byPatterns r.env opts.query a)) _ c

/-! #### Cases, and why there is a single commodity -/

/-- All amounts written. -/
def exWordy : String :=
  "2020-01-01 a\n Food  10.5 EUR\n (Budget)  -10.5 EUR\n Cash  -4 EUR\n Card  -6.5 EUR\n2020-01-02 b\n Stock  2 ACME @ 25 EUR\n Cash  -50 EUR\n2020-01-03 c\n Cash  1 EUR\n Gift  -1 EUR\n"

/-- Some of them left out. -/
def exTaciturn : String :=
  "2020-01-01 a\n Food  10.5 EUR\n (Budget)  -10.5 EUR\n Cash\n Card  -6.5 EUR\n2020-01-02 b\n Stock  2 ACME @ 25 EUR\n Cash  -50 EUR\n2020-01-03 c\n Cash  1 EUR\n Gift\n"

/-- An exchange. -/
def exForeign : String := "2020-01-01 a\n Food  10 EUR\n Drinks  5 EUR\n Cash  -20 USD\n"

/-- The exchange without what was given. -/
def exHome : String := "2020-01-01 a\n Food  10 EUR\n Drinks  5 EUR\n Cash\n"

/-- Looking for the amount left out. -/
def terseCheck (t t' : Txn RawPosting) (i : Nat) : Bool :=
  match t.postings[i]? with
  | none => false
  | some p =>
    decide (t' = { t with postings := t.postings.take i ++ p.bare :: t.postings.drop (i + 1) }) && decide (p.kind = .real) &&
      t.postings.all (fun q => q.kind ≠ .real || (q.moneyCurrency = p.moneyCurrency && p.moneyCurrency.isSome &&
        q.costCurrency = none && q.costType = none)) &&
      (t.postings.take i ++ t.postings.drop (i + 1)).any (fun q => q.kind = .real)

theorem terseCheck_of {t t' : Txn RawPosting} {i : Nat} (h : terseCheck t t' i = true) : t.LeavesOut t' := by
  unfold terseCheck at h
  cases hp : t.postings[i]? with
  | none => rw [hp] at h; cases h
  | some p =>
    rw [hp] at h
    simp only [Bool.and_eq_true, decide_eq_true_eq, List.all_eq_true, List.any_eq_true, Bool.or_eq_true] at h
    obtain ⟨⟨⟨h1, h2⟩, h3⟩, q, h4, h5⟩ := h
    obtain ⟨hi, hp⟩ := List.getElem?_eq_some_iff.mp hp
    have e : t.postings = t.postings.take i ++ p :: t.postings.drop (i + 1) := by
      rw [← hp, List.getElem_cons_drop, List.take_append_drop]
    have hpm : p ∈ t.postings := by rw [e]; simp
    obtain ⟨c, hc⟩ : ∃ c, p.moneyCurrency = some c := by
      rcases h3 p hpm with k | k
      · exact absurd h2 k
      · exact Option.isSome_iff_exists.mp k.1.1.2
    refine ⟨by rw [h1], t.postings.take i, p, t.postings.drop (i + 1), c, e, by rw [h1], ?_, h2, q, h4, h5⟩
    intro x hx hr
    rcases h3 x hx with k | k
    · exact absurd hr k
    · exact ⟨k.1.1.1.trans hc, k.1.2, k.2⟩

theorem terse_of {pl pl' : ParsedLedger} (at_ : Nat → Nat) (h : pl'.lists = pl.lists ∧ pl'.prices = pl.prices ∧
    pl.transactions.length = pl'.transactions.length ∧ ∀ x ∈ (pl.transactions.zip pl'.transactions).zipIdx,
      x.1.2 = x.1.1 ∨ terseCheck x.1.1 x.1.2 (at_ x.2) = true) : Terse pl pl' := by
  refine ⟨h.1, h.2.1, List.forall₂_iff_zip.mpr ⟨h.2.2.1, fun {a b} hm => ?_⟩⟩
  obtain ⟨i, hi, e⟩ := List.getElem_of_mem hm
  have hx := h.2.2.2 ((a, b), i) (by
    rw [List.mem_zipIdx_iff_getElem?]
    exact List.getElem?_eq_some_iff.mpr ⟨hi, e⟩)
  exact hx.imp id terseCheck_of

theorem exWordy_read : (exHistRun exWordy).journal "main".toList = .ok (exHistory exWordy) := exHistory_read (by decide +kernel)

theorem exTaciturn_read : (exHistRun exTaciturn).journal "main".toList = .ok (exHistory exTaciturn) := exHistory_read (by decide +kernel)

theorem exTaciturn_same : Terse (exHistory exWordy) (exHistory exTaciturn) := terse_of (fun i => if i = 0 then 2 else 1) (by decide +kernel)

theorem exWordy_free : OrderFree (exHistRun exWordy).env (exHistory exWordy) := orderFree_of (by decide +kernel)

theorem exWordy_timeless : (exHistory exWordy).Timeless false := .inr (by decide +kernel)

/-- The hypotheses of `C148_accepted` hold of the two. -/
example {L : Ledger} (hl : (exHistRun exWordy).ledger false "main".toList = .ok L) :
    ∃ L', (exHistRun exTaciturn).ledger false "main".toList = .ok L' :=
  C148_accepted (r := exHistRun exWordy) (r' := exHistRun exTaciturn) rfl exWordy_read exTaciturn_read exTaciturn_same exWordy_free
    exWordy_timeless hl

example : exSays exWordy exPlaces = some [21 / 2, -53, 2] := by decide +kernel

example : exSays exTaciturn exPlaces = some [21 / 2, -53, 2] := by decide +kernel

example : exSaysWithin exWordy (some exSecond) none exPlaces = some [0, -49, 2] := by decide +kernel

example : exSaysWithin exTaciturn (some exSecond) none exPlaces = some [0, -49, 2] := by decide +kernel

theorem exForeign_says : exSays exForeign [("Cash".toList, "USD".toList), ("Cash".toList, "EUR".toList)] = some [-20, 0] := by decide +kernel

theorem exHome_says : exSays exHome [("Cash".toList, "USD".toList), ("Cash".toList, "EUR".toList)] = some [0, -15] := by decide +kernel

/-- What was given in exchange cannot be left out. -/
theorem C148_false : ∃ (text text' : String) (places : List (Str × Cur)) (xs ys : List Rat),
    (exHistory text').transactions.map (fun t => t.postings) =
      (exHistory text).transactions.map (fun t => t.postings.take 2 ++ (t.postings.drop 2).map RawPosting.bare) ∧
    exSays text places = some xs ∧ exSays text' places = some ys ∧ xs ≠ ys :=
  ⟨exForeign, exHome, _, _, _, by decide +kernel, exForeign_says, exHome_says, by decide +kernel⟩

end Dinero
