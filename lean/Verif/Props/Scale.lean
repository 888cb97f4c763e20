import Verif.Lemmas.Scale
import Verif.Props.Crash
import Verif.Props.Periods
import Verif.Props.Options
import Verif.Props.History
/-
Property theorems about journals in another unit (C140).
-/
namespace Dinero

/-! ### C140: the unit does not matter -/

/-- What becomes of the two journals. -/
theorem scale_conv {env : Env} {o : LedgerOrders} {pl : ParsedLedger} {k : Rat} (hk : 0 < k) (h : pl.Ok env.lower)
    (h' : (pl.times k).Ok env.lower) (ha : pl.automated = []) (hz : pl.NoFreeTotals) (skip : Bool) :
    ((∃ L, toLedger env o skip pl = .ok L) ↔ ∃ L, toLedger env o skip (pl.times k) = .ok L) ∧
    ∀ L L', toLedger env o skip pl = .ok L → toLedger env o skip (pl.times k) = .ok L' →
      ∃ ts ts' es es', LargerBy k ts ts' ∧ EntersAll skip (fun _ _ => 0) ts es ∧ EntersAll skip (fun _ _ => 0) ts' es' ∧
        (L.entries.map Prod.snd).map Posting.entry = es.map Posting.entry ∧
        (L'.entries.map Prod.snd).map Posting.entry = es'.map Posting.entry := by
  obtain ⟨l, p1, c1, a1, m1⟩ := toLedger_conv (o := o) h hz ha
  obtain ⟨l', p2, c2, a2, m2⟩ := toLedger_conv (o := o) h' ((times_totals hk.ne').mpr hz) (times_automated ha)
  rw [times_populate, p1] at p2
  cases p2
  have hsort : sortBy dateLe (pl.times k).regular = (sortBy dateLe pl.regular).map (Txn.times k) := by
    rw [times_regular]
    exact sortBy_map _ (fun a _ b _ => rfl)
  have hL : LargerBy k ((sortBy dateLe pl.regular).map (fun t => (convOf env o.unknown l t).1))
      ((sortBy dateLe (pl.times k).regular).map (fun t => (convOf env o.unknown l t).1)) := by
    rw [hsort, List.map_map]
    unfold LargerBy
    rw [List.forall₂_map_left_iff, List.forall₂_map_right_iff, List.forall₂_same]
    intro t ht
    have ht := (mem_sortBy _ _ _).mp ht
    exact (times_conv hk.ne' (c1 t ht) (c2 (t.times k) (by rw [times_regular]; exact List.mem_map_of_mem ht))).1
  generalize (sortBy dateLe pl.regular).map (fun t => (convOf env o.unknown l t).1) = ts at *
  generalize (sortBy dateLe (pl.times k).regular).map (fun t => (convOf env o.unknown l t).1) = ts' at *
  have key : ∀ (pl : ParsedLedger) (ts : List (Txn Posting)), (∀ t ∈ ts, t.date.isSome ∧ ∀ q ∈ t.postings,
        q.CostOk ∧ ((initialBalances l.accounts).get? q.account).isSome) →
      (match balancePass skip o.fill o.rate (initialBalances l.accounts) ts with
        | .error e => toLedger env o skip pl = .error e
        | .ok x => ∃ L, toLedger env o skip pl = .ok L ∧ L.transactions = x.1) →
      ((∃ L, toLedger env o skip pl = .ok L) ↔ ∃ final, BooksAll skip (fun _ _ => 0) (ts.map Txn.bought) final) ∧
      ∀ L, toLedger env o skip pl = .ok L → ∃ es, EntersAll skip (fun _ _ => 0) ts es ∧
        (L.entries.map Prod.snd).map Posting.entry = es.map Posting.entry := by
    intro pl ts a1 m1
    have hb := balanceAll_iff_books (skip := skip) (σ := o.fill) (accounts := l.accounts) (fun t ht => (a1 t ht).2)
    rw [← balancePass_iff (skip := skip) (σ := o.fill) (ρ := o.rate) ts (initialBalances_ok l.accounts)
      (fun t ht => (a1 t ht).1) (fun t ht p hpm => ((a1 t ht).2 p hpm).1)] at hb
    rw [← hb]
    cases hp : balancePass skip o.fill o.rate (initialBalances l.accounts) ts with
    | error e =>
      rw [hp] at m1
      simp only at m1
      rw [m1]
      exact ⟨⟨fun ⟨_, h⟩ => by (cases h), fun ⟨_, h⟩ => by (cases h)⟩, fun L h => by cases h⟩
    | ok x =>
      rw [hp] at m1
      simp only at m1
      obtain ⟨L, hL, hx⟩ := m1
      refine ⟨⟨fun _ => ⟨x, rfl⟩, fun _ => ⟨L, hL⟩⟩, fun L1 h1 => ?_⟩
      rw [hL] at h1
      cases h1
      obtain ⟨_, _, _, bals', rs, hr, hrs⟩ := balancePass_spec (ts' := x.1) (prs := x.2) ts (initialBalances_ok l.accounts)
        (fun t ht p hpm => ((a1 t ht).2 p hpm).1) hp
      obtain ⟨es, e1, e2⟩ := entersAll_of_balanceAll ts (initialBalances_ok _) (fun t ht p hp => ((a1 t ht).2 p hp).1) hr
      rw [initialBalances_amt] at e1
      refine ⟨es, e1, ?_⟩
      rw [← e2, ← hrs, ← hx]
      congr 1
      unfold Ledger.entries
      rw [List.map_flatMap]
      congr 1
      funext t
      rw [List.map_map]
      simp [Function.comp_def]
  obtain ⟨k1, k2⟩ := key pl ts a1 (m1 skip)
  obtain ⟨k3, k4⟩ := key (pl.times k) ts' a2 (m2 skip)
  refine ⟨by rw [k1, k3]; exact booksAll_times_iff hk (hL.bought hk), fun L L' h1 h2 => ?_⟩
  obtain ⟨es, e1, e2⟩ := k2 L h1
  obtain ⟨es', e3, e4⟩ := k4 L' h2
  exact ⟨ts, ts', es, es', hL, e1, e3, e2, e4⟩

/-- A journal without automated transactions whose amounts, asserted totals and total costs are all multiplied by the same positive
number is accepted, rejected with a message, or ends the program, exactly if it was before. -/
theorem C140_outcome {r r' : Run} {path path' : Str} {pl : ParsedLedger} {k : Rat} (hk : 0 < k) (he : r'.env = r.env)
    (ho : r'.orders = r.orders) (h : r.journal path = .ok pl) (h' : r'.journal path' = .ok (pl.times k)) (ha : pl.automated = [])
    (skip : Bool) :
    ((∃ L, r'.ledger skip path' = .ok L) ↔ ∃ L, r.ledger skip path = .ok L) ∧
    ((∃ e, r'.ledger skip path' = .error (.fail (.error e))) ↔ ∃ e, r.ledger skip path = .error (.fail (.error e))) ∧
    ((∃ w, r'.ledger skip path' = .error (.fail (.panic w))) ↔ ∃ w, r.ledger skip path = .error (.fail (.panic w))) := by
  rcases C120_outcome h ha skip with ⟨hz, hp⟩ | ⟨hz, hc⟩
  · have := C120_free_total h' (fun g => hz ((times_totals hk.ne').mp g)) skip
    rw [hp, this]
    simp
  · have hz' := (times_totals hk.ne').mpr hz
    have hiff : (∃ L, r.ledger skip path = .ok L) ↔ ∃ L, r'.ledger skip path' = .ok L := by
      have := (scale_conv (o := r.orders) hk (C83_wellformed h).1 (by have := (C83_wellformed h').1; rwa [he] at this) ha hz skip).1
      unfold Run.ledger
      rw [h, h', he, ho]
      simp only
      have e : ∀ pl, (∃ L, PRes.lift (toLedger r.env r.orders skip pl) = .ok L) ↔ ∃ L, toLedger r.env r.orders skip pl = .ok L := by
        intro pl
        cases toLedger r.env r.orders skip pl <;> simp [PRes.lift]
      rw [e, e]
      exact this
    rcases C120_outcome h' (times_automated ha) skip with ⟨hz2, _⟩ | ⟨_, hc'⟩
    · exact absurd hz' hz2
    obtain ⟨_, _, ⟨_, _, L, hl⟩ | ⟨_, e, hl, _⟩⟩ := hc <;> obtain ⟨_, _, ⟨_, _, L', hl'⟩ | ⟨_, e', hl', _⟩⟩ := hc'
    · rw [hl, hl']; simp
    · rw [hl, hl'] at hiff; simp at hiff
    · rw [hl, hl'] at hiff; simp at hiff
    · rw [hl, hl']; simp

/-- Then every line of the balance is multiplied by that number. -/
theorem C140_balance {r r' : Run} {path path' : Str} {pl : ParsedLedger} {k : Rat} {o o' : BalOrders} {today : Date} {skip t t' : Bool}
    {d : Option Nat} {rep rep' : BalReport} (hk : 0 < k) (he : r'.env = r.env) (ho : r'.orders = r.orders)
    (h : r.journal path = .ok pl) (h' : r'.journal path' = .ok (pl.times k)) (ha : pl.automated = [])
    (hr : balanceCommand r o today { depth := d } skip true t path = .ok rep)
    (hr' : balanceCommand r' o' today { depth := d } skip true t' path' = .ok rep') (a : Str) (c : Cur) :
    rep'.says a c = k * rep.says a c := by
  obtain ⟨L, hl, q⟩ := balanceCommand_report hr
  obtain ⟨L', hl', q'⟩ := balanceCommand_report hr'
  obtain ⟨sel, hs, hsays⟩ := flat_says (opts := { depth := d }) rfl q
  obtain ⟨sel', hs', hsays'⟩ := flat_says (opts := { depth := d }) rfl q'
  obtain rfl := selected_all hs
  obtain rfl := selected_all hs'
  have hz : pl.NoFreeTotals := by
    by_contra hz
    rw [C120_free_total h hz skip] at hl
    cases hl
  have hl1 : toLedger r.env r.orders skip pl = .ok L := by
    unfold Run.ledger at hl
    rw [h] at hl
    simp only at hl
    cases ht : toLedger r.env r.orders skip pl with
    | error e => rw [ht] at hl; cases hl
    | ok x => rw [ht] at hl; cases hl; rfl
  have hl1' : toLedger r.env r.orders skip (pl.times k) = .ok L' := by
    unfold Run.ledger at hl'
    rw [h', he, ho] at hl'
    simp only at hl'
    cases ht : toLedger r.env r.orders skip (pl.times k) with
    | error e => rw [ht] at hl'; cases hl'
    | ok x => rw [ht] at hl'; cases hl'; rfl
  obtain ⟨ts, ts', es, es', g1, g2, g3, g4, g5⟩ := (scale_conv (o := r.orders) hk (C83_wellformed h).1
    (by have := (C83_wellformed h').1; rwa [he] at this) ha hz skip).2 L L' hl1 hl1'
  rw [hsays, hsays', selSum_entries g4, selSum_entries g5]
  rw [← larger_zero k] at g3
  exact times_entersAll hk g1 g2 g3 (fun x _ => match (generalizing := false) d with | none => x = a | some d => CutTo d x a) c

/-! #### A case, and why the number is positive -/

/-- An elided amount, a purchase, an asserted total and a total cost. -/
def exUnits : String :=
  "2020-01-01 a\n Food  10.5 EUR\n Cash\n2020-01-02 b\n Stock  2 ACME @ 25 EUR\n Cash  -50 EUR = -60.5 EUR\n2020-01-03 c\n Fuel  4 OIL @@ 6 EUR\n Cash  -6 EUR\n"

/-- The same in another unit, a tenth as large: the price per unit stays. -/
def exTenths : String :=
  "2020-01-01 a\n Food  105 EUR\n Cash\n2020-01-02 b\n Stock  20 ACME @ 25 EUR\n Cash  -500 EUR = -605 EUR\n2020-01-03 c\n Fuel  40 OIL @@ 60 EUR\n Cash  -60 EUR\n"

/-- What the two journals say, account by account, in the first commodity and in another one. -/
def exSays (text : String) (ca : List (Str × Cur)) : Option (List Rat) :=
  match balanceCommand (exHistRun text) exOrders 0 {} false true true "main".toList with
  | .ok rep => some (ca.map (fun x => rep.says x.1 x.2))
  | .error _ => none

/-- Where the sums are looked up. -/
def exPlaces : List (Str × Cur) := [("Food".toList, "EUR".toList), ("Cash".toList, "EUR".toList), ("Stock".toList, "ACME".toList)]

theorem exUnits_read : (exHistRun exUnits).journal "main".toList = .ok (exHistory exUnits) := exHistory_read (by decide +kernel)

theorem exTenths_read : (exHistRun exTenths).journal "main".toList = .ok (exHistory exTenths) := exHistory_read (by decide +kernel)

theorem exTenths_times : exHistory exTenths = (exHistory exUnits).times 10 := by decide +kernel

example : (exHistRun exTenths).journal "main".toList = .ok ((exHistory exUnits).times 10) := by
  rw [← exTenths_times]; exact exTenths_read

example : (exHistory exUnits).automated = [] ∧ (exHistory exUnits).regular.length = 3 := by decide +kernel

example : exSays exUnits exPlaces = some [21 / 2, -133 / 2, 2] := by decide +kernel

example : exSays exTenths exPlaces = some [105, -665, 20] := by decide +kernel

/-- With a negative number it fails: a total cost takes the sign of the amount, so with both negated it stays as it was, while the
other postings change sides. -/
theorem C140_false : ∃ text text' : String, ∃ pl, (exHistRun text).journal "main".toList = .ok pl ∧
    (exHistRun text').journal "main".toList = .ok (pl.times (-1)) ∧ pl.automated = [] ∧
    ((exHistRun text).ledger false "main".toList).toOption.isSome = true ∧
    ((exHistRun text').ledger false "main".toList).toOption.isSome = false := by
  refine ⟨"2020-01-03 c\n Fuel  4 OIL @@ 6 EUR\n Cash  -6 EUR\n", "2020-01-03 c\n Fuel  -4 OIL @@ -6 EUR\n Cash  6 EUR\n",
    exHistory "2020-01-03 c\n Fuel  4 OIL @@ 6 EUR\n Cash  -6 EUR\n", exHistory_read (by decide +kernel), ?_, by decide +kernel,
    by decide +kernel, by decide +kernel⟩
  rw [show (exHistory "2020-01-03 c\n Fuel  4 OIL @@ 6 EUR\n Cash  -6 EUR\n").times (-1) =
    exHistory "2020-01-03 c\n Fuel  -4 OIL @@ -6 EUR\n Cash  6 EUR\n" from by decide +kernel]
  exact exHistory_read (by decide +kernel)

end Dinero
