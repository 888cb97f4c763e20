import Verif.Lemmas.Merge
import Verif.Props.Scale
import Verif.Props.Depths
/-
Property theorems about journals with other names for the accounts (C141).
-/
namespace Dinero

/-! ### C141: other names move the lines, and a name for two accounts adds them up -/

/-- A journal without automated transactions is accepted exactly if its transactions can be booked, and its ledger has their entries. -/
theorem toLedger_books {env : Env} {o : LedgerOrders} {skip : Bool} {pl : ParsedLedger} {l : Lists} {ts : List (Txn Posting)}
    (a1 : ∀ t ∈ ts, t.date.isSome ∧ ∀ q ∈ t.postings, q.CostOk ∧ ((initialBalances l.accounts).get? q.account).isSome)
    (m1 : match balancePass skip o.fill o.rate (initialBalances l.accounts) ts with
      | .error e => toLedger env o skip pl = .error e
      | .ok x => ∃ L, toLedger env o skip pl = .ok L ∧ L.transactions = x.1) :
    ((∃ L, toLedger env o skip pl = .ok L) ↔ ∃ final, BooksAll skip (fun _ _ => 0) (ts.map Txn.bought) final) ∧
    ∀ L, toLedger env o skip pl = .ok L → ∃ es, EntersAll skip (fun _ _ => 0) ts es ∧
      (L.entries.map Prod.snd).map Posting.entry = es.map Posting.entry := by
  have hb := balanceAll_iff_books (skip := skip) (σ := o.fill) (accounts := l.accounts) (fun t ht => (a1 t ht).2)
  rw [← balancePass_iff (skip := skip) (σ := o.fill) (ρ := o.rate) ts (initialBalances_ok l.accounts)
    (fun t ht => (a1 t ht).1) (fun t ht p hpm => ((a1 t ht).2 p hpm).1)] at hb
  rw [← hb]
  cases hp : balancePass skip o.fill o.rate (initialBalances l.accounts) ts with
  | error e =>
    rw [hp] at m1
    simp only at m1
    rw [m1]
    exact ⟨⟨fun ⟨_, h⟩ => by (cases h), fun ⟨_, h⟩ => by (cases h)⟩, fun L h => by cases h⟩
  | ok x =>
    rw [hp] at m1
    simp only at m1
    obtain ⟨L, hL, hx⟩ := m1
    refine ⟨⟨fun _ => ⟨x, rfl⟩, fun _ => ⟨L, hL⟩⟩, fun L1 h1 => ?_⟩
    rw [hL] at h1
    cases h1
    obtain ⟨_, _, _, bals', rs, hr, hrs⟩ := balancePass_spec (ts' := x.1) (prs := x.2) ts (initialBalances_ok l.accounts)
      (fun t ht p hpm => ((a1 t ht).2 p hpm).1) hp
    obtain ⟨es, e1, e2⟩ := entersAll_of_balanceAll ts (initialBalances_ok _) (fun t ht p hp => ((a1 t ht).2 p hp).1) hr
    rw [initialBalances_amt] at e1
    refine ⟨es, e1, ?_⟩
    rw [← e2, ← hrs, ← hx]
    congr 1
    unfold Ledger.entries
    rw [List.map_flatMap]
    congr 1
    funext t
    rw [List.map_map]
    simp [Function.comp_def]

/-- What becomes of the two journals. -/
theorem merge_conv {env : Env} {o : LedgerOrders} {pl : ParsedLedger} {f : Str → Str} (h : pl.Ok env.lower)
    (h' : (pl.moved f).Ok env.lower) (ha : pl.automated = []) (hz : pl.NoFreeTotals) (hp : pl.PlainAccounts env)
    (hp' : (pl.moved f).PlainAccounts env) {skip : Bool} (hf : Harmless f skip pl) :
    ((∃ L, toLedger env o skip pl = .ok L) ↔ ∃ L, toLedger env o skip (pl.moved f) = .ok L) ∧
    ∀ L L', toLedger env o skip pl = .ok L → toLedger env o skip (pl.moved f) = .ok L' →
      ∃ ts ts' es es', MovedBy (fun a a' => pl.usesAccount a ∧ a' = f a) ts ts' ∧
        (OneToOne (fun a a' => pl.usesAccount a ∧ a' = f a) ∨ ∀ t ∈ ts, ∀ p ∈ t.postings, skip = true ∨ p.balance = none) ∧
        EntersAll skip (fun _ _ => 0) ts es ∧ EntersAll skip (fun _ _ => 0) ts' es' ∧
        (L.entries.map Prod.snd).map Posting.entry = es.map Posting.entry ∧
        (L'.entries.map Prod.snd).map Posting.entry = es'.map Posting.entry := by
  obtain ⟨l, p1, c1, a1, m1⟩ := toLedger_conv (o := o) h hz ha
  obtain ⟨l', p2, c2, a2, m2⟩ := toLedger_conv (o := o) h' (moved_totals.mpr hz) (moved_automated ha)
  obtain ⟨k1, k2⟩ := moved_populate p1 p2
  have hsort : sortBy dateLe (pl.moved f).regular = (sortBy dateLe pl.regular).map (Txn.moved f) := by
    rw [moved_regular]
    exact sortBy_map _ (fun a _ b _ => rfl)
  have hL : MovedBy (fun a a' => pl.usesAccount a ∧ a' = f a) ((sortBy dateLe pl.regular).map (fun t => (convOf env o.unknown l t).1))
      ((sortBy dateLe (pl.moved f).regular).map (fun t => (convOf env o.unknown l' t).1)) := by
    rw [hsort, List.map_map]
    unfold MovedBy
    rw [List.forall₂_map_left_iff, List.forall₂_map_right_iff, List.forall₂_same]
    intro t ht
    have ht := (mem_sortBy _ _ _).mp ht
    refine moved_conv k1 k2 ?_ (c1 t ht) (c2 (t.moved f) (by rw [moved_regular]; exact List.mem_map_of_mem ht))
    intro p hpm n a a' e1 e2
    have hu : pl.usesAccount p.account := ⟨t, (List.mem_filter.mp ht).1, p, hpm, rfl⟩
    obtain rfl := plain_account h.lists hp p1 (populate_ok h.lists p1) hu e1
    obtain rfl := plain_account h'.lists hp' p2 (populate_ok h'.lists p2) (moved_uses.mpr ⟨_, hu, rfl⟩) e2
    exact ⟨hu, rfl⟩
  have hH : OneToOne (fun a a' => pl.usesAccount a ∧ a' = f a) ∨
      ∀ t ∈ (sortBy dateLe pl.regular).map (fun t => (convOf env o.unknown l t).1), ∀ p ∈ t.postings, skip = true ∨ p.balance = none := by
    rcases hf with hf | hf | hf
    · refine .inl ?_
      rintro a a' b b' ⟨u1, rfl⟩ ⟨u2, rfl⟩
      exact ⟨fun e => by rw [e], hf a b u1 u2⟩
    · exact .inr (fun _ _ _ _ => .inl hf)
    · refine .inr (fun t ht q hq => .inr ?_)
      obtain ⟨raw, hraw, rfl⟩ := List.mem_map.mp ht
      have hraw := (mem_sortBy _ _ _).mp hraw
      exact converts_balance (c1 raw hraw) (hf raw hraw) q hq
  generalize (sortBy dateLe pl.regular).map (fun t => (convOf env o.unknown l t).1) = ts at *
  generalize (sortBy dateLe (pl.moved f).regular).map (fun t => (convOf env o.unknown l' t).1) = ts' at *
  obtain ⟨k1, k2⟩ := toLedger_books a1 (m1 skip)
  obtain ⟨k3, k4⟩ := toLedger_books a2 (m2 skip)
  refine ⟨?_, fun L L' h1 h2 => ?_⟩
  · rw [k1, k3]
    refine booksAll_moved_iff hL.bought (hH.imp id (fun hb t ht p hp => ?_))
    obtain ⟨t0, ht0, rfl⟩ := List.mem_map.mp ht
    obtain ⟨p0, hp0, rfl⟩ := List.mem_map.mp hp
    rw [bought_balance]
    exact hb t0 ht0 p0 hp0
  · obtain ⟨es, e1, e2⟩ := k2 L h1
    obtain ⟨es', e3, e4⟩ := k4 L' h2
    exact ⟨ts, ts', es, es', hL, hH, e1, e3, e2, e4⟩

/-- A journal without automated transactions and account declarations is accepted, rejected with a message, or ends the program,
exactly if it was before its accounts got other names, if no name for two accounts meets an asserted total. -/
theorem C141_outcome {r r' : Run} {path path' : Str} {pl : ParsedLedger} {f : Str → Str} {skip : Bool} (he : r'.env = r.env)
    (ho : r'.orders = r.orders) (h : r.journal path = .ok pl) (h' : r'.journal path' = .ok (pl.moved f)) (ha : pl.automated = [])
    (hp : pl.PlainAccounts r.env) (hp' : (pl.moved f).PlainAccounts r.env) (hf : Harmless f skip pl) :
    ((∃ L, r'.ledger skip path' = .ok L) ↔ ∃ L, r.ledger skip path = .ok L) ∧
    ((∃ e, r'.ledger skip path' = .error (.fail (.error e))) ↔ ∃ e, r.ledger skip path = .error (.fail (.error e))) ∧
    ((∃ w, r'.ledger skip path' = .error (.fail (.panic w))) ↔ ∃ w, r.ledger skip path = .error (.fail (.panic w))) := by
  rcases C120_outcome h ha skip with ⟨hz, hw⟩ | ⟨hz, hc⟩
  · have := C120_free_total h' (fun g => hz (moved_totals.mp g)) skip
    rw [hw, this]
    simp
  · have hz' : (pl.moved f).NoFreeTotals := moved_totals.mpr hz
    have hiff : (∃ L, r.ledger skip path = .ok L) ↔ ∃ L, r'.ledger skip path' = .ok L := by
      have := (merge_conv (o := r.orders) (C83_wellformed h).1 (by have := (C83_wellformed h').1; rwa [he] at this) ha hz hp hp' hf).1
      unfold Run.ledger
      rw [h, h', he, ho]
      simp only
      have e : ∀ pl, (∃ L, PRes.lift (toLedger r.env r.orders skip pl) = .ok L) ↔ ∃ L, toLedger r.env r.orders skip pl = .ok L := by
        intro pl
        cases toLedger r.env r.orders skip pl <;> simp [PRes.lift]
      rw [e, e]
      exact this
    rcases C120_outcome h' (moved_automated ha) skip with ⟨hz2, _⟩ | ⟨_, hc'⟩
    · exact absurd hz' hz2
    obtain ⟨_, _, ⟨_, _, L, hl⟩ | ⟨_, e, hl, _⟩⟩ := hc <;> obtain ⟨_, _, ⟨_, _, L', hl'⟩ | ⟨_, e', hl', _⟩⟩ := hc'
    · rw [hl, hl']; simp
    · rw [hl, hl'] at hiff; simp at hiff
    · rw [hl, hl'] at hiff; simp at hiff
    · rw [hl, hl']; simp

/-- Then the flat balance has, for every name, the sum of the lines of the accounts that now have this name, or one that is cut
to it. -/
theorem C141_balance {r r' : Run} {path path' : Str} {pl : ParsedLedger} {f : Str → Str} {o o' : BalOrders} {today : Date}
    {skip t t' : Bool} {d : Option Nat} {rep rep' : BalReport} (he : r'.env = r.env) (ho : r'.orders = r.orders)
    (h : r.journal path = .ok pl) (h' : r'.journal path' = .ok (pl.moved f)) (ha : pl.automated = [])
    (hp : pl.PlainAccounts r.env) (hp' : (pl.moved f).PlainAccounts r.env) (hf : Harmless f skip pl)
    (hr : balanceCommand r o today {} skip true t path = .ok rep)
    (hr' : balanceCommand r' o' today { depth := d } skip true t' path' = .ok rep') (g : Str) (c : Cur) :
    rep'.says g c = rep.among (fun a => LabelledAt d (f a) g) c := by
  obtain ⟨L, hl, q⟩ := balanceCommand_report hr
  obtain ⟨L', hl', q'⟩ := balanceCommand_report hr'
  obtain ⟨sel, hs, _⟩ := flat_says (opts := {}) rfl q
  obtain ⟨sel', hs', hsays'⟩ := flat_says (opts := { depth := d }) rfl q'
  have hamong := (flat_among (opts := {}) rfl hs q (key := id) (fun a g => Iff.rfl)).1
  obtain rfl := selected_all hs
  obtain rfl := selected_all hs'
  have hz : pl.NoFreeTotals := by
    by_contra hz
    rw [C120_free_total h hz skip] at hl
    cases hl
  have hl1 : toLedger r.env r.orders skip pl = .ok L := by
    unfold Run.ledger at hl
    rw [h] at hl
    simp only at hl
    cases ht : toLedger r.env r.orders skip pl with
    | error e => rw [ht] at hl; cases hl
    | ok x => rw [ht] at hl; cases hl; rfl
  have hl1' : toLedger r.env r.orders skip (pl.moved f) = .ok L' := by
    unfold Run.ledger at hl'
    rw [h', he, ho] at hl'
    simp only at hl'
    cases ht : toLedger r.env r.orders skip (pl.moved f) with
    | error e => rw [ht] at hl'; cases hl'
    | ok x => rw [ht] at hl'; cases hl'; rfl
  obtain ⟨ts, ts', es, es', g1, g2, g3, g4, g5, g6⟩ := (merge_conv (o := r.orders) (C83_wellformed h).1
    (by have := (C83_wellformed h').1; rwa [he] at this) ha hz hp hp' hf).2 L L' hl1 hl1'
  rw [hsays', hamong, selSum_entries g5, selSum_entries g6]
  exact (entersAll_moved g3 g4 g1 g2 (fun _ _ _ _ _ => rfl)
    (P := fun x _ => LabelledAt d (f x) g) (P' := fun x _ => LabelledAt d x g)
    (by rintro a a' k ⟨_, rfl⟩; rfl) c).symm

/-- Names that differ from each other move lines as they are. -/
theorem C141_renamed {r r' : Run} {path path' : Str} {pl : ParsedLedger} {f : Str → Str} {o o' : BalOrders} {today : Date}
    {skip t t' : Bool} {rep rep' : BalReport} (he : r'.env = r.env) (ho : r'.orders = r.orders)
    (h : r.journal path = .ok pl) (h' : r'.journal path' = .ok (pl.moved f)) (ha : pl.automated = [])
    (hp : pl.PlainAccounts r.env) (hp' : (pl.moved f).PlainAccounts r.env) (hf : Function.Injective f)
    (hr : balanceCommand r o today {} skip true t path = .ok rep)
    (hr' : balanceCommand r' o' today {} skip true t' path' = .ok rep') (a : Str) (c : Cur) :
    rep'.says (f a) c = rep.says a c := by
  rw [C141_balance (d := none) he ho h h' ha hp hp' (.inl (fun a b _ _ e => hf e)) hr hr']
  unfold BalReport.among BalReport.says shownSum LabelledAt
  simp only [hf.eq_iff]
  induction rep.lines.filter (fun l => decide (l.label = a)) with
  | nil => rfl
  | cons x xs ih => rw [List.map_cons, List.sum_cons, ih, List.flatMap_cons, sumIn_append]

/-! #### A case, and what the conditions are for -/

/-- Two accounts for food, with elided amounts and a purchase. -/
def exPlates : String :=
  "2020-01-01 a\n Food:Out  10.5 EUR\n Cash\n2020-01-02 b\n Food:In  4 EUR\n Cash  -1 EUR\n Bank\n2020-01-03 c\n Stock  2 ACME @ 25 EUR\n Bank  -50 EUR\n"

/-- The same with one account for food, and another name for the bank. -/
def exPlate : String :=
  "2020-01-01 a\n Food  10.5 EUR\n Cash\n2020-01-02 b\n Food  4 EUR\n Cash  -1 EUR\n Loan\n2020-01-03 c\n Stock  2 ACME @ 25 EUR\n Loan  -50 EUR\n"

/-- The new names. -/
def exServe (a : Str) : Str :=
  if a = "Food:Out".toList ∨ a = "Food:In".toList then "Food".toList else if a = "Bank".toList then "Loan".toList else a

theorem exPlates_read : (exHistRun exPlates).journal "main".toList = .ok (exHistory exPlates) := exHistory_read (by decide +kernel)

theorem exPlate_moved : (exHistory exPlates).moved exServe = exHistory exPlate := by decide +kernel

theorem exPlate_read : (exHistRun exPlate).journal "main".toList = .ok (exHistory exPlate) := exHistory_read (by decide +kernel)

example : (exHistRun exPlate).journal "main".toList = .ok ((exHistory exPlates).moved exServe) := exPlate_moved.symm ▸ exPlate_read

example : (exHistory exPlates).automated = [] ∧ (exHistory exPlates).regular.length = 3 := by decide +kernel

/-- Checking the condition on names. -/
theorem plainAccounts_of {env : Env} {pl : ParsedLedger} (h : pl.lists.accounts = {})
    (hc : ∀ a ∈ pl.postings.map RawPosting.account, ∀ b ∈ pl.postings.map RawPosting.account, env.lower a = env.lower b → a = b) :
    pl.PlainAccounts env := by
  have e : ∀ a, pl.usesAccount a → a ∈ pl.postings.map RawPosting.account := by
    rintro a ⟨t, ht, p, hp, rfl⟩
    exact List.mem_map_of_mem (List.mem_flatMap.mpr ⟨t, ht, hp⟩)
  exact ⟨h, fun a b ha hb => hc a (e a ha) b (e b hb)⟩

example : (exHistory exPlates).PlainAccounts (exHistRun exPlates).env := plainAccounts_of (by decide +kernel) (by decide +kernel)

example : ((exHistory exPlates).moved exServe).PlainAccounts (exHistRun exPlates).env :=
  plainAccounts_of (by decide +kernel) (by decide +kernel)

example : Harmless exServe false (exHistory exPlates) := .inr (.inr (by decide +kernel))

example : exSays exPlates [("Food:Out".toList, "EUR".toList), ("Food:In".toList, "EUR".toList), ("Bank".toList, "EUR".toList)] =
    some [21 / 2, 4, -53] := by decide +kernel

example : exSays exPlate [("Food".toList, "EUR".toList), ("Food:In".toList, "EUR".toList), ("Loan".toList, "EUR".toList)] =
    some [29 / 2, 0, -53] := by decide +kernel

/-- Two accounts, the total of one of them asserted. -/
def exJars : String := "2020-01-01 a\n A  5 EUR\n C\n2020-01-02 b\n B  3 EUR\n C\n2020-01-03 c\n A  1 EUR = 6 EUR\n C\n"

/-- The same with one account. -/
def exJar : String := "2020-01-01 a\n A  5 EUR\n C\n2020-01-02 b\n A  3 EUR\n C\n2020-01-03 c\n A  1 EUR = 6 EUR\n C\n"

/-- The name of the two accounts. -/
def exPour (a : Str) : Str := if a = "B".toList then "A".toList else a

theorem exJars_read : (exHistRun exJars).journal "main".toList = .ok (exHistory exJars) := exHistory_read (by decide +kernel)

theorem exJar_moved : (exHistory exJars).moved exPour = exHistory exJar := by decide +kernel

theorem exJar_read : (exHistRun exJar).journal "main".toList = .ok (exHistory exJar) := exHistory_read (by decide +kernel)

theorem exJars_plain : (exHistory exJars).PlainAccounts (exHistRun exJars).env := plainAccounts_of (by decide +kernel) (by decide +kernel)

theorem exJar_plain : ((exHistory exJars).moved exPour).PlainAccounts (exHistRun exJars).env :=
  plainAccounts_of (by decide +kernel) (by decide +kernel)

theorem exJars_automated : (exHistory exJars).automated = [] := by decide +kernel

theorem exJars_accepted : ((exHistRun exJars).ledger false "main".toList).toOption.isSome = true := by decide +kernel

theorem exJar_rejected : ((exHistRun exJar).ledger false "main".toList).toOption.isSome = false := by decide +kernel

/-- One name for two accounts, and an asserted total of one of them: the journal is no longer accepted. -/
theorem C141_false_asserted : ∃ (text text' : String) (f : Str → Str) (pl : ParsedLedger),
    (exHistRun text).journal "main".toList = .ok pl ∧ (exHistRun text').journal "main".toList = .ok (pl.moved f) ∧ pl.automated = [] ∧
    pl.PlainAccounts (exHistRun text).env ∧ (pl.moved f).PlainAccounts (exHistRun text).env ∧
    ((exHistRun text).ledger false "main".toList).toOption.isSome = true ∧
    ((exHistRun text').ledger false "main".toList).toOption.isSome = false := by
  exact ⟨exJars, exJar, exPour, exHistory exJars, exJars_read, exJar_moved.symm ▸ exJar_read, exJars_automated, exJars_plain, exJar_plain, exJars_accepted, exJar_rejected⟩

/-- Two accounts. -/
def exApart : String := "2020-01-01 a\n A  5 EUR\n C\n2020-01-02 b\n B  3 EUR\n C\n"

/-- The same, with names that differ in case only. -/
def exCased : String := "2020-01-01 a\n Jar  5 EUR\n C\n2020-01-02 b\n jar  3 EUR\n C\n"

/-- The names. -/
def exJarName (a : Str) : Str := if a = "A".toList then "Jar".toList else if a = "B".toList then "jar".toList else a

theorem exCased_moved : (exHistory exApart).moved exJarName = exHistory exCased := by decide +kernel

theorem exCased_read : (exHistRun exCased).journal "main".toList = .ok (exHistory exCased) := exHistory_read (by decide +kernel)

theorem exJarName_ne : exJarName "A".toList ≠ exJarName "B".toList := by decide

theorem exApart_read : (exHistRun exApart).journal "main".toList = .ok (exHistory exApart) := exHistory_read (by decide +kernel)

theorem exApart_plain : (exHistory exApart).PlainAccounts (exHistRun exApart).env := plainAccounts_of (by decide +kernel) (by decide +kernel)

theorem exApart_free : (exHistory exApart).automated = [] ∧ ∀ t ∈ (exHistory exApart).regular, ∀ p ∈ t.postings, p.balanceCurrency = none := by
  decide +kernel

theorem exApart_says : exSays exApart [("A".toList, "EUR".toList), ("B".toList, "EUR".toList)] = some [5, 3] := by decide +kernel

theorem exCased_says : exSays exCased [(exJarName "A".toList, "EUR".toList), (exJarName "B".toList, "EUR".toList)] = some [8, 0] := by
  decide +kernel

/-- New names that differ in case only are one account: its line is the sum, though no two accounts have got the same name. -/
theorem C141_false_case : ∃ (text text' : String) (f : Str → Str) (pl : ParsedLedger),
    (exHistRun text).journal "main".toList = .ok pl ∧ (exHistRun text').journal "main".toList = .ok (pl.moved f) ∧ pl.automated = [] ∧
    pl.PlainAccounts (exHistRun text).env ∧ (∀ t ∈ pl.regular, ∀ p ∈ t.postings, p.balanceCurrency = none) ∧
    f "A".toList ≠ f "B".toList ∧
    exSays text [("A".toList, "EUR".toList), ("B".toList, "EUR".toList)] = some [5, 3] ∧
    exSays text' [(f "A".toList, "EUR".toList), (f "B".toList, "EUR".toList)] = some [8, 0] := by
  exact ⟨exApart, exCased, exJarName, exHistory exApart, exApart_read, exCased_moved.symm ▸ exCased_read, exApart_free.1, exApart_plain, exApart_free.2,
    exJarName_ne, exApart_says, exCased_says⟩

end Dinero
