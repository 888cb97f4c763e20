import Verif.Lemmas.Coins
import Verif.Props.Merge
import Mathlib.Logic.Equiv.Basic
/-
Property theorems about journals with other names for the commodities (C142).
-/
namespace Dinero

/-! ### C142: the names of commodities do not matter -/

/-- What becomes of the two journals. -/
theorem coins_conv {env : Env} {o : LedgerOrders} {pl : ParsedLedger} (f : Str ≃ Str) (h : pl.Ok env.lower)
    (h' : (pl.called f).Ok env.lower) (ha : pl.automated = []) (hz : pl.NoFreeTotals) (hp : pl.PlainCommodities env)
    (hp' : (pl.called f).PlainCommodities env) (skip : Bool) :
    ((∃ L, toLedger env o skip pl = .ok L) ↔ ∃ L, toLedger env o skip (pl.called f) = .ok L) ∧
    ∀ L L', toLedger env o skip pl = .ok L → toLedger env o skip (pl.called f) = .ok L' →
      ∃ ts ts' es es', CalledBy f ts ts' ∧ EntersAll skip (fun _ _ => 0) ts es ∧ EntersAll skip (fun _ _ => 0) ts' es' ∧
        (L.entries.map Prod.snd).map Posting.entry = es.map Posting.entry ∧
        (L'.entries.map Prod.snd).map Posting.entry = es'.map Posting.entry := by
  obtain ⟨l, p1, c1, a1, m1⟩ := toLedger_conv (o := o) h hz ha
  obtain ⟨l', p2, c2, a2, m2⟩ := toLedger_conv (o := o) h' (called_totals.mpr hz) (called_automated ha)
  obtain ⟨k1, k2⟩ := called_populate p1 p2
  have hsort : sortBy dateLe (pl.called f).regular = (sortBy dateLe pl.regular).map (Txn.called f) := by
    rw [called_regular]
    exact sortBy_map _ (fun a _ b _ => rfl)
  have hL : CalledBy f ((sortBy dateLe pl.regular).map (fun t => (convOf env o.unknown l t).1))
      ((sortBy dateLe (pl.called f).regular).map (fun t => (convOf env o.unknown l' t).1)) := by
    rw [hsort, List.map_map]
    unfold CalledBy
    rw [List.forall₂_map_left_iff, List.forall₂_map_right_iff, List.forall₂_same]
    intro t ht
    have ht := (mem_sortBy _ _ _).mp ht
    refine called_conv k1 k2 ?_ (c1 t ht) (c2 (t.called f) (by rw [called_regular]; exact List.mem_map_of_mem ht))
    intro p hpm c hc n n' e1 e2
    have hu : pl.usesCommodity c := .inl ⟨t, (List.mem_filter.mp ht).1, p, hpm, hc⟩
    rw [plain_commodity h.lists hp p1 hu e1, plain_commodity h'.lists hp' p2 (called_uses hu) e2]
  generalize (sortBy dateLe pl.regular).map (fun t => (convOf env o.unknown l t).1) = ts at *
  generalize (sortBy dateLe (pl.called f).regular).map (fun t => (convOf env o.unknown l' t).1) = ts' at *
  obtain ⟨k1, k2⟩ := toLedger_books a1 (m1 skip)
  obtain ⟨k3, k4⟩ := toLedger_books a2 (m2 skip)
  refine ⟨by rw [k1, k3]; exact booksAll_called_iff f hL.bought, fun L L' h1 h2 => ?_⟩
  obtain ⟨es, e1, e2⟩ := k2 L h1
  obtain ⟨es', e3, e4⟩ := k4 L' h2
  exact ⟨ts, ts', es, es', hL, e1, e3, e2, e4⟩

/-- A journal without automated transactions and commodity declarations is accepted, rejected with a message, or ends the program,
exactly if it was before its commodities got other names, different ones for different commodities. -/
theorem C142_outcome {r r' : Run} {path path' : Str} {pl : ParsedLedger} {f : Str ≃ Str} (he : r'.env = r.env)
    (ho : r'.orders = r.orders) (h : r.journal path = .ok pl) (h' : r'.journal path' = .ok (pl.called f)) (ha : pl.automated = [])
    (hp : pl.PlainCommodities r.env) (hp' : (pl.called f).PlainCommodities r.env) (skip : Bool) :
    ((∃ L, r'.ledger skip path' = .ok L) ↔ ∃ L, r.ledger skip path = .ok L) ∧
    ((∃ e, r'.ledger skip path' = .error (.fail (.error e))) ↔ ∃ e, r.ledger skip path = .error (.fail (.error e))) ∧
    ((∃ w, r'.ledger skip path' = .error (.fail (.panic w))) ↔ ∃ w, r.ledger skip path = .error (.fail (.panic w))) := by
  rcases C120_outcome h ha skip with ⟨hz, hw⟩ | ⟨hz, hc⟩
  · have := C120_free_total h' (fun g => hz (called_totals.mp g)) skip
    rw [hw, this]
    simp
  · have hz' : (pl.called f).NoFreeTotals := called_totals.mpr hz
    have hiff : (∃ L, r.ledger skip path = .ok L) ↔ ∃ L, r'.ledger skip path' = .ok L := by
      have := (coins_conv (o := r.orders) f (C83_wellformed h).1 (by have := (C83_wellformed h').1; rwa [he] at this) ha hz hp hp' skip).1
      unfold Run.ledger
      rw [h, h', he, ho]
      simp only
      have e : ∀ pl, (∃ L, PRes.lift (toLedger r.env r.orders skip pl) = .ok L) ↔ ∃ L, toLedger r.env r.orders skip pl = .ok L := by
        intro pl
        cases toLedger r.env r.orders skip pl <;> simp [PRes.lift]
      rw [e, e]
      exact this
    rcases C120_outcome h' (called_automated ha) skip with ⟨hz2, _⟩ | ⟨_, hc'⟩
    · exact absurd hz' hz2
    obtain ⟨_, _, ⟨_, _, L, hl⟩ | ⟨_, e, hl, _⟩⟩ := hc <;> obtain ⟨_, _, ⟨_, _, L', hl'⟩ | ⟨_, e', hl', _⟩⟩ := hc'
    · rw [hl, hl']; simp
    · rw [hl, hl'] at hiff; simp at hiff
    · rw [hl, hl'] at hiff; simp at hiff
    · rw [hl, hl']; simp

/-- Then every line of the flat balance says of the new name what it said of the old one. -/
theorem C142_balance {r r' : Run} {path path' : Str} {pl : ParsedLedger} {f : Str ≃ Str} {o o' : BalOrders} {today : Date}
    {skip t t' : Bool} {d : Option Nat} {rep rep' : BalReport} (he : r'.env = r.env) (ho : r'.orders = r.orders)
    (h : r.journal path = .ok pl) (h' : r'.journal path' = .ok (pl.called f)) (ha : pl.automated = [])
    (hp : pl.PlainCommodities r.env) (hp' : (pl.called f).PlainCommodities r.env)
    (hr : balanceCommand r o today { depth := d } skip true t path = .ok rep)
    (hr' : balanceCommand r' o' today { depth := d } skip true t' path' = .ok rep') (a : Str) (c : Cur) :
    rep'.says a (f c) = rep.says a c := by
  obtain ⟨L, hl, q⟩ := balanceCommand_report hr
  obtain ⟨L', hl', q'⟩ := balanceCommand_report hr'
  obtain ⟨sel, hs, hsays⟩ := flat_says (opts := { depth := d }) rfl q
  obtain ⟨sel', hs', hsays'⟩ := flat_says (opts := { depth := d }) rfl q'
  obtain rfl := selected_all hs
  obtain rfl := selected_all hs'
  have hz : pl.NoFreeTotals := by
    by_contra hz
    rw [C120_free_total h hz skip] at hl
    cases hl
  have hl1 : toLedger r.env r.orders skip pl = .ok L := by
    unfold Run.ledger at hl
    rw [h] at hl
    simp only at hl
    cases ht : toLedger r.env r.orders skip pl with
    | error e => rw [ht] at hl; cases hl
    | ok x => rw [ht] at hl; cases hl; rfl
  have hl1' : toLedger r.env r.orders skip (pl.called f) = .ok L' := by
    unfold Run.ledger at hl'
    rw [h', he, ho] at hl'
    simp only at hl'
    cases ht : toLedger r.env r.orders skip (pl.called f) with
    | error e => rw [ht] at hl'; cases hl'
    | ok x => rw [ht] at hl'; cases hl'; rfl
  obtain ⟨ts, ts', es, es', g1, g2, g3, g4, g5⟩ := (coins_conv (o := r.orders) f (C83_wellformed h).1
    (by have := (C83_wellformed h').1; rwa [he] at this) ha hz hp hp' skip).2 L L' hl1 hl1'
  rw [hsays, hsays', selSum_entries g4, selSum_entries g5]
  have := called_entersAll f g1 g2 g3 (fun x _ => match (generalizing := false) d with | none => x = a | some d => CutTo d x a) (f c)
  rw [Equiv.symm_apply_apply] at this
  exact this

/-! #### A case, and why different names are needed -/

/-- `exUnits` with dollars for euros and euros for dollars, of which there are none. -/
def exDollars : String :=
  "2020-01-01 a\n Food  10.5 USD\n Cash\n2020-01-02 b\n Stock  2 ACME @ 25 USD\n Cash  -50 USD = -60.5 USD\n2020-01-03 c\n Fuel  4 OIL @@ 6 USD\n Cash  -6 USD\n"

/-- The new names. -/
def exMint : Str ≃ Str := Equiv.swap "EUR".toList "USD".toList

theorem exDollars_called : (exHistory exUnits).called exMint = exHistory exDollars := by decide +kernel

theorem exDollars_read : (exHistRun exDollars).journal "main".toList = .ok (exHistory exDollars) := exHistory_read (by decide +kernel)

example : (exHistRun exDollars).journal "main".toList = .ok ((exHistory exUnits).called exMint) := exDollars_called.symm ▸ exDollars_read

/-- Checking the condition on names. -/
theorem plainCommodities_of {env : Env} {pl : ParsedLedger} (h : pl.lists.commodities = {})
    (hc : ∀ a ∈ pl.commodityStrs, ∀ b ∈ pl.commodityStrs, env.lower a = env.lower b → a = b) : pl.PlainCommodities env :=
  ⟨h, fun a b ha hb => hc a (mem_commodityStrs.mpr ha) b (mem_commodityStrs.mpr hb)⟩

example : (exHistory exUnits).PlainCommodities (exHistRun exUnits).env := plainCommodities_of (by decide +kernel) (by decide +kernel)

example : ((exHistory exUnits).called exMint).PlainCommodities (exHistRun exUnits).env :=
  plainCommodities_of (by decide +kernel) (by decide +kernel)

example : exSays exDollars [("Food".toList, "USD".toList), ("Cash".toList, "USD".toList), ("Cash".toList, "EUR".toList),
    ("Stock".toList, "ACME".toList)] = some [21 / 2, -133 / 2, 0, 2] := by decide +kernel

/-- An exchange. -/
def exBureau : String := "2020-01-01 a\n A  2 EUR\n B  -1 USD\n"

/-- The same with one name for both. -/
def exBlend : String := "2020-01-01 a\n A  2 EUR\n B  -1 EUR\n"

/-- The name. -/
def exMelt (c : Str) : Str := if c = "USD".toList then "EUR".toList else c

theorem exBureau_read : (exHistRun exBureau).journal "main".toList = .ok (exHistory exBureau) := exHistory_read (by decide +kernel)

theorem exBlend_called : (exHistory exBureau).called exMelt = exHistory exBlend := by decide +kernel

theorem exBlend_read : (exHistRun exBlend).journal "main".toList = .ok (exHistory exBlend) := exHistory_read (by decide +kernel)

theorem exBureau_plain : (exHistory exBureau).PlainCommodities (exHistRun exBureau).env :=
  plainCommodities_of (by decide +kernel) (by decide +kernel)

theorem exBlend_plain : ((exHistory exBureau).called exMelt).PlainCommodities (exHistRun exBureau).env :=
  plainCommodities_of (by decide +kernel) (by decide +kernel)

theorem exBureau_automated : (exHistory exBureau).automated = [] := by decide +kernel

theorem exBureau_accepted : ((exHistRun exBureau).ledger false "main".toList).toOption.isSome = true := by decide +kernel

theorem exBlend_rejected : ((exHistRun exBlend).ledger false "main".toList).toOption.isSome = false := by decide +kernel

/-- With one name for two commodities an exchange is no longer accepted. -/
theorem C142_false : ∃ (text text' : String) (f : Str → Str) (pl : ParsedLedger),
    (exHistRun text).journal "main".toList = .ok pl ∧ (exHistRun text').journal "main".toList = .ok (pl.called f) ∧ pl.automated = [] ∧
    pl.PlainCommodities (exHistRun text).env ∧ (pl.called f).PlainCommodities (exHistRun text).env ∧
    ((exHistRun text).ledger false "main".toList).toOption.isSome = true ∧
    ((exHistRun text').ledger false "main".toList).toOption.isSome = false :=
  ⟨exBureau, exBlend, exMelt, exHistory exBureau, exBureau_read, exBlend_called.symm ▸ exBlend_read, exBureau_automated, exBureau_plain,
    exBlend_plain, exBureau_accepted, exBlend_rejected⟩

end Dinero
