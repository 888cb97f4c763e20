import Verif.Lemmas.Orders
import Verif.Props.Query
import Verif.Props.Transaction
/-
Theorems on the ledger built from a journal: C22-C30.
-/
namespace Dinero

/-! ### Journals used in examples -/

def exLow (s : Str) : Str := s.map Char.toLower
def exEnvL : Env := { exEnvI with lower := exLow }
def exHash : LedgerOrders :=
  ⟨.id, .id, .id, .id, .id, fun _ => .id, fun _ => .id, fun _ => .id, fun _ => .id⟩
def exHashRev : LedgerOrders :=
  ⟨.rev, .rev, .rev, .rev, .rev, fun _ => .rev, fun _ => .rev, fun _ => .rev, fun _ => .rev⟩

def exRaw (account payee : String) (q : Rat) (c : String) : RawPosting :=
  { account := account.toList, moneyAmount := some q, moneyCurrency := some c.toList,
    payee := some payee.toList }

def exMeal : Txn RawPosting :=
  { date := some 3, description := "Bar".toList,
    postings := [exRaw "Food" "Bar" 10 "EUR", { account := "Cash".toList, payee := some "Bar".toList }] }

def exBuy : Txn RawPosting :=
  { date := some 1, description := "Broker".toList,
    postings := [{ exRaw "Stock" "Broker" 2 "ACME" with
                   costAmount := some 50, costCurrency := some "EUR".toList, costType := some .total },
                 exRaw "Cash" "Broker" (-50) "EUR"] }

def exChange : Txn RawPosting :=
  { date := some 2, description := "Bank".toList,
    postings := [exRaw "Purse" "Bank" 12 "USD", exRaw "Cash" "Bank" (-10) "EUR"] }

def exRule : Txn RawPosting :=
  { ttype := .automated, description := "Food".toList, comments := [":meal:".toList],
    postings := [{ account := "Budget".toList, moneyAmount := some (-1), moneyCurrency := some [],
                   kind := .virt },
                 { account := "Tips".toList, moneyAmount := some 1, moneyCurrency := some "EUR".toList,
                   kind := .virt },
                 { account := "Half".toList, amountExpr := some "(0.5)".toList, kind := .virt }] }

def exJournal : ParsedLedger :=
  { transactions := [exMeal, exBuy, exChange], prices := [⟨0, "ACME".toList, "EUR".toList, 20⟩] }
def exJournal' : ParsedLedger := { exJournal with transactions := [exChange, exMeal, exBuy] }
def exJournalA : ParsedLedger := { exJournal with transactions := exRule :: exJournal.transactions }

/-- The accounts and amounts of the transactions of a ledger. -/
def shown (r : Res Ledger) : Res (List (List (Str × Option Money))) :=
  r.map (fun L => L.transactions.map (fun t => t.postings.map (fun p => (p.account, p.amount))))

theorem exJournal_ok : exJournal.Ok exEnvL.lower where
  lists := ⟨.new, .new, .new⟩
  dated := by decide +kernel
  postings := by
    intro t ht p hp
    simp only [exJournal, ParsedLedger.regular, exMeal, exBuy, exChange, exRaw, List.filter_cons,
      List.filter_nil, decide_true, if_true, List.mem_cons, List.not_mem_nil, or_false] at ht
    rcases ht with rfl | rfl | rfl <;>
      (simp only [List.mem_cons, List.not_mem_nil, or_false] at hp
       rcases hp with rfl | rfl <;> constructor <;> simp)

/-! ### C22, C23 -/

/-- **C22**: the transactions of the ledger are the regular transactions of the journal, each once, by
date, those of the same date in journal order; all of them are dated. -/
theorem C22_transactions {env : Env} {o : LedgerOrders} {skip : Bool} {pl : ParsedLedger} {L : Ledger}
    (h : toLedger env o skip pl = .ok L) :
    ∃ listed, DateOrder pl.regular listed ∧ (∀ t ∈ listed, t.date.isSome) ∧
      L.transactions.map Txn.header = listed.map Txn.header := by
  obtain ⟨l, _, hb⟩ := toLedger_inv h
  obtain ⟨dp, txns, autos, cp, sorted, ts, ip, ts', ap, l', _, hc, hs, hbp, hap, rfl⟩ :=
    buildLedger_inv hb
  obtain ⟨_, rs, hrs, rfl, _⟩ := convertAll_spec _ hc
  obtain ⟨hd, rfl⟩ := sortByDate_inv hs
  have hR : List.Forall₂ (fun (raw : Txn RawPosting) (t : Txn Posting) => t.header = raw.header)
      pl.regular (rs.map Prod.fst) := by
    rw [List.forall₂_map_right_iff]
    exact hrs.imp (fun a r hr => (convertTxn_inv hr).choose_spec.2.1)
  have hraw : ∀ t ∈ pl.regular, t.date.isSome := by
    intro t ht
    obtain ⟨t', ht', he⟩ := Forall₂.mem_left hR ht
    have := hd t' ht'
    have hdd : t'.date = t.date := congrArg (fun x => x.1) he
    rwa [hdd] at this
  refine ⟨sortBy dateLe pl.regular, dateOrder_sortBy hraw,
    fun t ht => hraw t ((mem_sortBy _ _ _).mp ht), ?_⟩
  have h1 := forall₂_sortBy (R := fun (raw : Txn RawPosting) (t : Txn Posting) => t.header = raw.header)
    (le := dateLe) (le' := dateLe) (by
      intro a b c d hab hcd
      have e1 : b.date = a.date := congrArg (fun x => x.1) hab
      have e2 : d.date = c.date := congrArg (fun x => x.1) hcd
      unfold dateLe; rw [e1, e2]) hR
  have h2 := balancePass_inv _ hbp
  have h3 := automatedPass_header hap
  have keep : ∀ {x y : List (Txn Posting)},
      List.Forall₂ (fun t t' => t' = { t with postings := t'.postings }) x y →
      y.map Txn.header = x.map Txn.header := by
    intro x y hxy
    induction hxy with
    | nil => rfl
    | cons hab _ ih => rw [List.map_cons, List.map_cons, ih, hab]; rfl
  have keep' : ∀ {x : List (Txn RawPosting)} {y : List (Txn Posting)},
      List.Forall₂ (fun raw t => t.header = raw.header) x y → y.map Txn.header = x.map Txn.header := by
    intro x y hxy
    induction hxy with
    | nil => rfl
    | cons hab _ ih => rw [List.map_cons, List.map_cons, ih, hab]
  show ts'.map Txn.header = _
  rw [keep h3, keep h2, keep' h1]

example : ∃ L, toLedger exEnvL exHash false exJournal = .ok L := exists_ok (by decide +kernel)
example : (toLedger exEnvL exHash false exJournal).map
      (fun L => decide (L.transactions.map Txn.header = [exBuy.header, exChange.header, exMeal.header])) =
    .ok true := by decide +kernel

/-- **C23**: two journals with the same regular transactions, in the same relative order for each date, list
the same transactions in the same order, whatever the hash orders. -/
theorem C23_file_order {env : Env} {o o' : LedgerOrders} {skip skip' : Bool} {pl pl' : ParsedLedger}
    {L L' : Ledger} (h : toLedger env o skip pl = .ok L) (h' : toLedger env o' skip' pl' = .ok L')
    (hp : pl.regular.Perm pl'.regular)
    (hs : ∀ d : Option Date, pl.regular.filter (fun t => t.date = d) =
      pl'.regular.filter (fun t => t.date = d)) :
    L.transactions.map Txn.header = L'.transactions.map Txn.header := by
  obtain ⟨x, hx, _, hxe⟩ := C22_transactions h
  obtain ⟨y, hy, _, hye⟩ := C22_transactions h'
  rw [hxe, hye, hx.unique hy hp hs]

example : (∃ L, toLedger exEnvL exHash false exJournal = .ok L) ∧
    (∃ L', toLedger exEnvL exHashRev false exJournal' = .ok L') ∧
    exJournal.regular.Perm exJournal'.regular ∧
    ∀ d : Option Date, exJournal.regular.filter (fun t => t.date = d) =
      exJournal'.regular.filter (fun t => t.date = d) := by
  refine ⟨exists_ok (by decide +kernel), exists_ok (by decide +kernel), by decide +kernel, ?_⟩
  intro d
  simp only [exJournal, exJournal', ParsedLedger.regular, exMeal, exBuy, exChange]
  by_cases h1 : some 1 = d
  · subst h1; decide +kernel
  · by_cases h2 : some 2 = d
    · subst h2; decide +kernel
    · by_cases h3 : some 3 = d
      · subst h3; decide +kernel
      · simp [h1, h2, h3]

/-- **C23**, more precisely: with the same lists of names, rules and price directives, such journals build
the same transactions with the same postings, the same lists, and the same prices up to
order. -/
theorem C23_build {env : Env} {o : LedgerOrders} {skip : Bool} {pl pl' : ParsedLedger} {l : Lists}
    {L : Ledger} (h : buildLedger env o skip pl l = .ok L) (hp : pl.regular.Perm pl'.regular)
    (hs : ∀ d : Option Date, pl.regular.filter (fun t => t.date = d) =
      pl'.regular.filter (fun t => t.date = d))
    (ha : pl.automated = pl'.automated) (hd : pl.prices = pl'.prices) :
    ∃ L', buildLedger env o skip pl' l = .ok L' ∧ L'.transactions = L.transactions ∧
      L'.accounts = L.accounts ∧ L'.payees = L.payees ∧ L'.commodities = L.commodities ∧
      L'.prices.Perm L.prices :=
  buildLedger_reorder h hp hs ha hd

example : (∃ l L, populate exEnvL exHash exJournal = .ok l ∧
      buildLedger exEnvL exHash false exJournal l = .ok L) ∧
    exJournal.automated = exJournal'.automated ∧ exJournal.prices = exJournal'.prices := by
  obtain ⟨L, hL⟩ : ∃ L, toLedger exEnvL exHash false exJournal = .ok L := exists_ok (by decide +kernel)
  obtain ⟨l, h1, h2⟩ := toLedger_inv hL
  exact ⟨⟨l, L, h1, h2⟩, by decide +kernel, rfl⟩

/-! ### C24 -/

/-- **C24**: once the names are collected, every account, commodity and payee used in the journal is found,
and what was declared is found as declared. -/
theorem C24_resolves {env : Env} {o : LedgerOrders} {pl : ParsedLedger} (h : pl.lists.Ok env.lower) :
    ∃ l, populate env o pl = .ok l ∧
      (∀ t ∈ pl.transactions, ∀ p ∈ t.postings, Resolves env.lower l p) ∧
      (∀ p ∈ pl.prices, (∃ n, Finds env.lower l.commodities p.commodity n) ∧
        ∃ n, Finds env.lower l.commodities p.otherCommodity n) ∧
      (∀ k x, pl.lists.accounts.get env.lower k = .ok x → l.accounts.get env.lower k = .ok x) ∧
      (∀ k x, pl.lists.payees.get env.lower k = .ok x → l.payees.get env.lower k = .ok x) ∧
      (∀ k x, pl.lists.commodities.get env.lower k = .ok x → l.commodities.get env.lower k = .ok x) := by
  obtain ⟨l, h1, h2, h3, h4, h5⟩ := populate_spec (o := o) h
  exact ⟨l, h1, h2.postings, h2.prices, h3, h4, h5⟩

/-- **C24**: building the ledger of a journal without automated transactions never panics, unless a total cost
is written for a zero quantity. -/
theorem C24_no_panic {env : Env} {o : LedgerOrders} {skip : Bool} {pl : ParsedLedger}
    (h : pl.Ok env.lower) (ha : pl.automated = [])
    (hz : ∀ t ∈ pl.regular, ∀ p ∈ t.postings, p.costType = some .total → p.moneyAmount ≠ some 0) :
    (toLedger env o skip pl).isPanic = false := by
  obtain ⟨l, h1, h2, _⟩ := populate_spec (o := o) h.lists
  apply Calm.isPanic
  unfold toLedger
  rw [h1]
  simp only
  unfold buildLedger
  obtain ⟨dp, hdp⟩ := directivePrices_ok pl.prices h2.prices
  rw [hdp]
  simp only
  have hconv : ∀ t ∈ pl.transactions, t.ttype = .real → ∃ r, Converts env o.unknown l t r := by
    intro t ht hk
    have htr : t ∈ pl.regular := List.mem_filter.mpr ⟨ht, by simpa using hk⟩
    exact convertTxn_ok (fun p hp => convertPosting_ok (h.dated t htr) (h.postings t htr p hp)
      (h2.postings t ht p hp) (hz t htr p hp))
  rw [convertAll_of _ hconv]
  simp only
  have hall : ∀ t ∈ (pl.transactions.filter (fun t => t.ttype = .real)).map
      (fun t => (convOf env o.unknown l t).1), t.date.isSome ∧ ∀ q ∈ t.postings,
        q.CostOk ∧ ((initialBalances l.accounts).get? q.account).isSome := by
    intro t ht
    obtain ⟨raw, hraw, rfl⟩ := List.mem_map.mp ht
    have hm := List.mem_filter.mp hraw
    obtain ⟨r, hr⟩ := hconv raw hm.1 (by simpa using hm.2)
    refine ⟨by rw [convOf_date hr]; exact h.dated raw hraw, ?_⟩
    intro q hq
    rw [← converts_convOf hr] at hq
    obtain ⟨c1, k, x, c2, c3⟩ := convertTxn_costOk (t := r.1) (prs := r.2) hr q hq
    exact ⟨c1, by rw [← c3]; exact (initialBalances_get l.accounts).1 k x c2⟩
  have hsort : sortByDate ((pl.transactions.filter (fun t => t.ttype = .real)).map
      (fun t => (convOf env o.unknown l t).1)) = .ok (sortBy dateLe
        ((pl.transactions.filter (fun t => t.ttype = .real)).map
          (fun t => (convOf env o.unknown l t).1))) := by
    unfold sortByDate
    rw [if_neg]
    · rfl
    · intro hany
      obtain ⟨t, ht, hn⟩ := List.any_eq_true.mp hany
      have := (hall t ht).1
      rw [Option.isNone_iff_eq_none.mp hn] at this
      cases this
  rw [hsort]
  simp only
  have hcalm := balancePass_calm (skip := skip) (σ := o.fill) (ρ := o.rate)
    (sortBy dateLe ((pl.transactions.filter (fun t => t.ttype = .real)).map
          (fun t => (convOf env o.unknown l t).1))) (initialBalances_ok l.accounts)
    (fun t ht => (hall t ((mem_sortBy _ _ _).mp ht)).1) (fun t ht => (hall t ((mem_sortBy _ _ _).mp ht)).2)
  have hauto : pl.transactions.filter (fun t => t.ttype = .automated) = [] := ha
  split
  · next e he => intro w hw; cases hw; exact hcalm _ he
  · next ts prs hb =>
    rw [hauto]
    exact Calm.ok _

example : exJournal.Ok exEnvL.lower ∧ exJournal.automated = [] ∧
    ∀ t ∈ exJournal.regular, ∀ p ∈ t.postings, p.costType = some .total → p.moneyAmount ≠ some 0 :=
  ⟨exJournal_ok, by decide +kernel, by decide +kernel⟩

/-! ### C25 -/

/-- **C25**: the prices of a ledger start with those of the price directives, as written, and those of the
costs, in journal order: at the date of the transaction, per unit, exactly. -/
theorem C25_prices {env : Env} {o : LedgerOrders} {skip : Bool} {pl : ParsedLedger} {L : Ledger}
    (h : toLedger env o skip pl = .ok L) :
    ∃ l given costs rest, populate env o pl = .ok l ∧ L.prices = given ++ costs ++ rest ∧
      List.Forall₂ (DirectivePrice env.lower l.commodities) pl.prices given ∧
      List.Forall₂ (fun c pr => CostPrice env.lower l.commodities c.1 c.2 pr) pl.costs costs := by
  obtain ⟨l, hl, hb⟩ := toLedger_inv h
  obtain ⟨dp, txns, autos, cp, sorted, ts, ip, ts', ap, l', hd, hc, hs, hbp, hap, rfl⟩ :=
    buildLedger_inv hb
  obtain ⟨_, rs, hrs, _, rfl⟩ := convertAll_spec _ hc
  refine ⟨l, dp, rs.flatMap Prod.snd, ip ++ ap, hl, by simp, directivePrices_inv _ hd, ?_⟩
  exact costs_forall₂ hrs

example : (toLedger exEnvL exHash false exJournal).map (fun L => L.prices.take 2) =
    .ok [⟨0, "ACME".toList, 20, "EUR".toList⟩, ⟨1, "ACME".toList, 25, "EUR".toList⟩] := by
  decide +kernel

/-- **C25**: a total cost for a zero quantity is never accepted. -/
theorem C25_zero_quantity {env : Env} {o : LedgerOrders} {skip : Bool} {pl : ParsedLedger}
    {c : Option Date × RawPosting} (hc : c ∈ pl.costs) (ht : c.2.costType = some .total)
    (hz : c.2.moneyAmount = some 0) (L : Ledger) : toLedger env o skip pl ≠ .ok L := by
  intro h
  obtain ⟨l, given, costs, rest, _, _, _, hf⟩ := C25_prices h
  obtain ⟨pr, _, hp⟩ := Forall₂.mem_left hf hc
  rcases hp.unit with ⟨h1, _⟩ | ⟨_, q, h2, h3, _⟩
  · rw [ht] at h1; cases h1
  · rw [hz] at h2; cases h2; exact h3 rfl

/-- The property says such a journal is rejected; it panics. -/
def exZeroCost : ParsedLedger :=
  { transactions := [{ exBuy with postings :=
      [{ exRaw "Stock" "Broker" 0 "ACME" with
         costAmount := some 50, costCurrency := some "EUR".toList, costType := some .total },
       exRaw "Cash" "Broker" (-50) "EUR"] }] }

example : ∃ c ∈ exZeroCost.costs, c.2.costType = some .total ∧ c.2.moneyAmount = some 0 := by
  decide +kernel

theorem C25_zero_quantity_panics : (toLedger exEnvL exHash false exZeroCost).isPanic = true := by
  decide +kernel

/-! ### C26 -/

/-- **C26**: the prices of a ledger end with the rates implied by its transactions: one for each
transaction whose real postings add up to exactly two commodities.  Without automated
transactions nothing else follows the prices of directives and costs. -/
theorem C26_implied_rates {env : Env} {o : LedgerOrders} {skip : Bool} {pl : ParsedLedger} {L : Ledger}
    (h : toLedger env o skip pl = .ok L) :
    ∃ before rates, L.prices = before ++ rates.filterMap id ∧
      List.Forall₂ ImpliesRate L.transactions rates ∧
      (pl.automated = [] → before.length = pl.prices.length + pl.costs.length) := by
  obtain ⟨l, hl, hb⟩ := toLedger_inv h
  obtain ⟨dp, txns, autos, cp, sorted, ts, ip, ts', ap, l', hd, hc, hs, hbp, hap, rfl⟩ :=
    buildLedger_inv hb
  obtain ⟨hautos, rs, hrs, rfl, rfl⟩ := convertAll_spec _ hc
  obtain ⟨_, rfl⟩ := sortByDate_inv hs
  have hcost : ∀ t ∈ sortBy dateLe (rs.map Prod.fst), ∀ p ∈ t.postings, p.CostOk := by
    intro t ht
    obtain ⟨r, hr, rfl⟩ := List.mem_map.mp ((mem_sortBy _ _ _).mp ht)
    obtain ⟨raw, _, hcv⟩ := Forall₂.mem_right hrs hr
    exact fun p hp => (convertTxn_costOk (t := r.1) (prs := r.2) hcv p hp).1
  obtain ⟨rates, hr1, hr2, bals', rs1, hr3, hr4⟩ :=
    balancePass_spec _ (initialBalances_ok l.accounts) hcost hbp
  have hlen : dp.length + (rs.flatMap Prod.snd).length = pl.prices.length + pl.costs.length := by
    have := (costs_forall₂ hrs).length_eq
    rw [(directivePrices_inv _ hd).length_eq, ← this]; rfl
  unfold automatedPass at hap
  split at hap
  · next hne =>
    split at hap
    · cases hap
    · next rules hru =>
      split at hap
      · cases hap
      · next ts1 l1 hau =>
        split at hap
        · cases hap
        · next ts2 prs2 hbp2 =>
          cases hap
          have hcost1 : ∀ t ∈ ts, ∀ p ∈ t.postings, p.CostOk := by
            rw [hr4]; exact balanceAll_costOk _ (initialBalances_ok l.accounts) hcost hr3
          have hcost2 : ∀ t ∈ ts1, ∀ p ∈ t.postings, p.CostOk := by
            intro t ht
            obtain ⟨t0, ht0, hR⟩ := Forall₂.mem_right (automate_spec _ hau).1 ht
            exact hR.costOk (hcost1 t0 ht0)
          obtain ⟨rates2, q1, q2, _⟩ := balancePass_spec _ (initialBalances_ok _) hcost2 hbp2
          refine ⟨_, rates2, by rw [q2], q1, ?_⟩
          intro hnil
          rw [hautos] at hne
          rw [show pl.transactions.filter (fun t => t.ttype = .automated) = [] from hnil] at hne
          simp at hne
  · cases hap
    refine ⟨_, rates, by rw [hr2, List.append_nil], hr1, fun _ => by rw [List.length_append]; exact hlen⟩

example : (toLedger exEnvL exHash false exJournal).map (fun L => L.prices.drop 2) =
    .ok [⟨2, "USD".toList, 5/6, "EUR".toList⟩] ∧
    (toLedger exEnvL exHashRev false exJournal).map (fun L => L.prices.drop 2) =
    .ok [⟨2, "EUR".toList, 6/5, "USD".toList⟩] := by decide +kernel

/-- **C26**: the two directions a rate may be recorded in are inverse to each other. -/
theorem C26_directions {t : Txn Posting} {p q : Price} (hp : ImpliesRate t (some p))
    (hq : ImpliesRate t (some q)) :
    p.date = q.date ∧ ((p.commodity = q.commodity ∧ p.cur = q.cur ∧ p.amount = q.amount) ∨
      (p.commodity = q.cur ∧ p.cur = q.commodity ∧ p.amount * q.amount = 1)) := by
  obtain ⟨a1, a2, a3, a4, a5, a6⟩ := hp
  obtain ⟨b1, b2, b3, b4, b5, b6⟩ := hq
  refine ⟨Option.some.inj (a1.symm.trans b1), ?_⟩
  have n3 := abs_ne_zero.mpr a3
  have n4 := abs_ne_zero.mpr a4
  rcases a5 _ b3 with e | e
  · rcases a5 _ b4 with e' | e'
    · exact absurd (e.trans e'.symm) b2
    · rw [e, e'] at b6
      exact Or.inl ⟨e.symm, e'.symm, mul_right_cancel₀ n3 (a6.trans b6.symm)⟩
  · rcases a5 _ b4 with e' | e'
    · rw [e, e'] at b6
      refine Or.inr ⟨e'.symm, e.symm, ?_⟩
      apply mul_right_cancel₀ n3
      rw [one_mul, mul_right_comm, a6, mul_comm, b6]
    · exact absurd (e.trans e'.symm) b2

/-- With automated transactions the rates are recorded twice. -/
theorem C26_rates_twice : (toLedger exEnvL exHash false exJournalA).map (fun L => L.prices.drop 2) =
    .ok [⟨2, "USD".toList, 5/6, "EUR".toList⟩, ⟨2, "USD".toList, 5/6, "EUR".toList⟩] := by
  decide +kernel

example : ∃ t p q, ImpliesRate t (some p) ∧ ImpliesRate t (some q) ∧ p ≠ q := by
  let t : Txn Posting := { date := some 2, postings := [{ account := [], amount := some (.mk 12 "USD".toList) },
    { account := [], amount := some (.mk (-10) "EUR".toList) }] }
  have hw : ∀ c, weightOf .real t.postings c = (if c = "USD".toList then 12 else 0) +
      (if c = "EUR".toList then -10 else 0) := by
    intro c
    simp [t, weightOf, sumIn, Posting.weight, Money.amountIn, Money.commodity, Money.amount, eq_comm]
  refine ⟨t, ⟨2, "USD".toList, 5/6, "EUR".toList⟩, ⟨2, "EUR".toList, 6/5, "USD".toList⟩,
    ⟨rfl, by decide, ?_⟩, ⟨rfl, by decide, ?_⟩, by decide +kernel⟩ <;>
  · simp only [hw]
    refine ⟨by decide +kernel, by decide +kernel, ?_, by decide +kernel⟩
    intro e he
    by_cases h1 : e = "USD".toList
    · simp [h1]
    · by_cases h2 : e = "EUR".toList
      · simp [h2]
      · exact absurd (by rw [if_neg h1, if_neg h2]; exact add_zero 0) he

/-! ### C27, C28 -/

/-- **C27**: the transactions of a ledger with automated transactions are those booked without them, after each
rule in turn did to each posting of the journal what it says, and nothing to the postings of
rules, balanced once more. -/
theorem C27_rules {env : Env} {o : LedgerOrders} {skip : Bool} {pl : ParsedLedger} {L : Ledger}
    (h : toLedger env o skip pl = .ok L) (hne : pl.automated ≠ []) :
    ∃ l L0 rules applied, populate env o pl = .ok l ∧
      buildLedger env o skip { pl with transactions := pl.regular } l = .ok L0 ∧
      (∀ t ∈ L0.transactions, ∀ p ∈ t.postings, p.origin = .fromTransaction) ∧
      RuleNodes env pl.automated rules ∧
      List.Forall₂ (RulesOn env ⟨L.accounts, L.payees, L.commodities⟩ rules) L0.transactions applied ∧
      ∃ bals rs, balanceAll skip o.fill2 (initialBalances L.accounts) applied = .ok (bals, rs) ∧
        L.transactions = rs.map Prod.fst := by
  obtain ⟨l, hl, hb⟩ := toLedger_inv h
  obtain ⟨listed, converted, booked, bals, rs, _, h2, h3, h4, rfl, _, ⟨L0, h7, h8⟩, h9⟩ :=
    buildLedger_booked hb
  obtain ⟨rules, applied, _, r1, r2, _, r3⟩ := h9 hne
  refine ⟨l, L0, rules, applied, hl, h7, ?_, r1, by rw [h8]; exact r2, r3⟩
  rw [h8]
  refine balanceAll_origin _ (initialBalances_ok _) h3 ?_ h4
  intro t ht p hp
  obtain ⟨raw, _, _, _, hw⟩ := Forall₂.mem_right h2 ht
  obtain ⟨_, _, hpw⟩ := Forall₂.mem_right hw hp
  exact hpw.origin

example : (∃ L, toLedger exEnvL exHash false exJournalA = .ok L) ∧ exJournalA.automated ≠ [] :=
  ⟨exists_ok (by decide +kernel), by decide +kernel⟩

/-- **C27**: the rules leave the postings of the journal where they are, adding at most tags, and append, rule by
rule and posting by posting, nothing or the postings of the rule. -/
theorem C27_append {env : Env} {l : Lists} {rules : List (Txn RawPosting × Ast)} {t t' : Txn Posting}
    (h : RulesOn env l rules t t') :
    ∃ own blocks, t' = { t with postings := own ++ blocks.flatMap List.flatten } ∧
      List.Forall₂ SameUpToTags t.postings own ∧
      List.Forall₂ (fun r (row : List (List Posting)) => List.Forall₂ (BlockFor env l r) t.postings row)
        rules blocks := by
  obtain ⟨own, blocks, h1, h2, h3⟩ := h.append t.postings [] (by simp) (by intro q hq; cases hq)
  exact ⟨own, blocks, by simpa using h1, h2, h3⟩

/-- The rules of a journal do apply to its transactions. -/
example : ∃ l rules t t', rules ≠ [] ∧ RulesOn exEnvL l rules t t' ∧ t.postings ≠ [] := by
  obtain ⟨L, hL⟩ : ∃ L, toLedger exEnvL exHash false exJournalA = .ok L := exists_ok (by decide +kernel)
  obtain ⟨l, L0, rules, applied, _, h2, _, h4, h5, _⟩ := C27_rules hL (by decide +kernel)
  have hr : rules ≠ [] := by
    intro h; subst h
    have := h4.length_eq
    revert this; decide +kernel
  obtain ⟨listed, converted, booked, bals, rs, h1, _, _, g4, g5, _, ⟨L0', g7, g8⟩, _⟩ := buildLedger_booked h2
  have hne : ∃ t ∈ L0.transactions, t.postings ≠ [] := by
    have hx : (populate exEnvL exHash exJournalA).map (fun l =>
        (buildLedger exEnvL exHash false { exJournalA with transactions := exJournalA.regular } l).map
          (fun L => L.transactions.any (fun t => t.postings.length > 0))) = .ok (.ok true) := by decide +kernel
    rename_i hp _ _
    simp only [*, Except.map, Except.ok.injEq] at hx
    obtain ⟨t, ht, hn⟩ := List.any_eq_true.mp hx
    exact ⟨t, ht, by intro h; rw [h] at hn; simp at hn⟩
  obtain ⟨t, ht, hn⟩ := hne
  obtain ⟨t', _, ht'⟩ := Forall₂.mem_left h5 ht
  exact ⟨_, rules, t, t', hr, ht', hn⟩

/-- **C27**: a rule whose condition holds for a posting of the journal generates its postings, and one whose
condition does not hold none; postings generated by rules are not looked at. -/
theorem C27_single_rule {env : Env} {l : Lists} {r : Txn RawPosting × Ast} {t t' : Txn Posting}
    (h : RulesOn env l [r] t t') :
    ∃ rows, List.Forall₂ (RuleOn env l r t) t.postings rows ∧
      t' = { t with postings := rows.map Prod.fst ++ rows.flatMap Prod.snd } := by
  cases h with
  | cons h1 h2 => cases h2; exact ⟨_, h1, rfl⟩

/-- **C28**: what the postings appended by rules amount to: with a commodity, what is written. -/
theorem C28_amounts {env : Env} {l : Lists} {rules : List (Txn RawPosting × Ast)} {t t' : Txn Posting}
    (h : RulesOn env l rules t t') :
    ∃ own extra, t'.postings = own ++ extra ∧ List.Forall₂ SameUpToTags t.postings own ∧
      ∀ q ∈ extra, ∃ r ∈ rules, ∃ rp ∈ r.1.postings, ∃ p ∈ t.postings, ∃ u p',
        SameUpToTags p p' ∧ Generated env l u p' rp q ∧
        (∀ c a, rp.moneyCurrency = some c → c ≠ [] → rp.moneyAmount = some a →
          ∃ n, Finds env.lower l.commodities c n ∧ q.amount = some (.mk a n)) ∧
        (∀ f, rp.moneyCurrency = some [] → rp.moneyAmount = some f →
          ∃ x c, p.amount = some (.mk x c) ∧ q.amount = some (.mk (x * f) c)) := by
  obtain ⟨own, blocks, h1, h2, h3⟩ := C27_append h
  refine ⟨own, blocks.flatMap List.flatten, by rw [h1], h2, ?_⟩
  intro q hq
  obtain ⟨row, hrow, hq⟩ := List.mem_flatMap.mp hq
  obtain ⟨block, hblock, hq⟩ := List.mem_flatten.mp hq
  obtain ⟨r, hr, hrr⟩ := Forall₂.mem_right h3 hrow
  obtain ⟨p, hp, hpb⟩ := Forall₂.mem_right hrr hblock
  rcases hpb with rfl | ⟨_, u, p', hs, hall⟩
  · cases hq
  · obtain ⟨rp, hrp, hg⟩ := Forall₂.mem_right hall hq
    refine ⟨r, hr, rp, hrp, p, hp, u, p', hs, hg, ?_, ?_⟩
    · intro c a hc hne ha
      obtain ⟨m, m1, m2⟩ := hg.amount
      rcases m2 with ⟨c', n, a', e1, _, e3, e4, e5⟩ | ⟨x, c', f, e1, _⟩ | ⟨e, _, _, _, _, e1, _⟩
      · rw [hc] at e1; cases e1
        rw [ha] at e3; cases e3
        exact ⟨n, e4, by rw [m1, e5]⟩
      · rw [hc] at e1; cases e1; exact absurd rfl hne
      · rw [hc] at e1; cases e1
    · intro f hc hf
      obtain ⟨m, m1, m2⟩ := hg.amount
      have hpa : p'.amount = p.amount := by rw [hs.1]
      rcases m2 with ⟨c', n, a', e1, e2, _⟩ | ⟨x, c', f', _, e2, e3, e4⟩ | ⟨e, _, _, _, _, e1, _⟩
      · rw [hc] at e1; cases e1; exact absurd rfl e2
      · rw [hf] at e2; cases e2
        exact ⟨x, c', by rw [← hpa, e3], by rw [m1, e4]⟩
      · rw [hc] at e1; cases e1

/-- **C28**: with neither commodity nor number, the value of the expression, where a number scales the amount of
the posting. -/
theorem C28_expression {env : Env} {l : Lists} {u : Txn Posting} {p q : Posting} {rp : RawPosting}
    (h : Generated env l u p rp q) (hc : rp.moneyCurrency = none) :
    ∃ e node v cs1 cs2, rp.amountExpr = some e ∧ buildRoot env e = .ok node ∧
      eval env u node p cs1 = .ok (v, cs2) ∧
      ((∃ m, v = .money m ∧ q.amount = some m) ∨
       (∃ r x c, v = .number r ∧ p.amount = some (.mk x c) ∧ q.amount = some (.mk (x * r) c)) ∨
       (∃ r, v = .number r ∧ p.amount = some .zero ∧ q.amount = some .zero)) := by
  obtain ⟨m, m1, m2⟩ := h.amount
  rcases m2 with ⟨c', n, a', e1, e2, _⟩ | ⟨x, c', f', e1, _⟩ | ⟨e, node, v, cs1, cs2, _, e2, e3, e4, e5⟩
  · rw [hc] at e1; cases e1
  · rw [hc] at e1; cases e1
  · refine ⟨e, node, v, cs1, cs2, e2, e3, e4, ?_⟩
    rcases e5 with e5 | ⟨r, e6, ⟨x, c, e7, e8⟩ | ⟨e7, e8⟩⟩
    · exact Or.inl ⟨m, e5, m1⟩
    · exact Or.inr (Or.inl ⟨r, x, c, e6, e7, by rw [m1, e8]⟩)
    · exact Or.inr (Or.inr ⟨r, e6, e7, by rw [m1, e8]⟩)

/-- A factor, an amount and an expression. -/
example : shown (toLedger exEnvL exHash false exJournalA) =
    .ok [[("Stock".toList, some (.mk 2 "ACME".toList)), ("Cash".toList, some (.mk (-50) "EUR".toList))],
         [("Purse".toList, some (.mk 12 "USD".toList)), ("Cash".toList, some (.mk (-10) "EUR".toList))],
         [("Food".toList, some (.mk 10 "EUR".toList)), ("Cash".toList, some (.mk (-10) "EUR".toList)),
          ("Budget".toList, some (.mk (-10) "EUR".toList)), ("Tips".toList, some (.mk 1 "EUR".toList)),
          ("Half".toList, some (.mk 5 "EUR".toList))]] := by
  decide +kernel

/-! ### C30, C76 -/

/-- **C76**: before automated transactions, the ledger balances, in date order, exactly the postings that are
written. -/
theorem C76_postings {env : Env} {o : LedgerOrders} {skip : Bool} {pl : ParsedLedger} {L : Ledger}
    (h : toLedger env o skip pl = .ok L) :
    ∃ l listed converted bals rs, populate env o pl = .ok l ∧ DateOrder pl.regular listed ∧
      List.Forall₂ (fun raw t => t.header = raw.header ∧ t.ttype = .real ∧
        List.Forall₂ (WrittenAs env l raw) raw.postings t.postings) listed converted ∧
      balanceAll skip o.fill (initialBalances l.accounts) converted = .ok (bals, rs) ∧
      (pl.automated = [] → L.transactions = rs.map Prod.fst ∧ L.accounts = l.accounts ∧
        L.payees = l.payees ∧ L.commodities = l.commodities) := by
  obtain ⟨l, hl, hb⟩ := toLedger_inv h
  obtain ⟨listed, converted, booked, bals, rs, h1, h2, _, h4, rfl, h6, _, _⟩ := buildLedger_booked hb
  exact ⟨l, listed, converted, bals, rs, hl, h1, h2, h4, h6⟩

/-- **C30** as far as it holds: a posting to an account ending in `unknown` goes to an account with a matching
payee pattern, if there is one, and stays where it is otherwise; if there is only one such account
the hash order does not matter.  Missing: with several accounts any one may be chosen. -/
theorem C30_unknown_partial {env : Env} {s : Shuf} {accounts : NList AccountDef} {account payee a : Str}
    (h : postingAccount env s accounts account payee = .ok a) :
    AccountFor env accounts account payee a ∧
    ((∀ k x k' x', (k, x) ∈ accounts.list → (k', x') ∈ accounts.list → x.takes env payee →
        x'.takes env payee → x.name = x'.name) →
      ∀ s', postingAccount env s' accounts account payee = .ok a) := by
  refine ⟨postingAccount_spec h, fun hu s' => ?_⟩
  have hs := postingAccount_spec h
  unfold postingAccount at h ⊢
  by_cases hk : isUnknown env account = true
  · rw [if_pos hk] at h ⊢
    rcases redirect_spec (env := env) (s := s) (accounts := accounts) (payee := payee) with
      ⟨h1, h2⟩ | ⟨k, x, h1, h2, h3⟩ <;>
    rcases redirect_spec (env := env) (s := s') (accounts := accounts) (payee := payee) with
      ⟨g1, g2⟩ | ⟨k', x', g1, g2, g3⟩
    · rw [g1]; rw [h1] at h; exact h
    · exact absurd g2 (h2 _ g1)
    · exact absurd h2 (g2 _ h1)
    · rw [g3]; rw [h3] at h; cases h
      rw [hu _ _ _ _ h1 g1 h2 g2]
  · rw [if_neg hk] at h ⊢; exact h

/-- Two accounts that take the same payee. -/
def exTakers : NList AccountDef :=
  (NList.insert exLow (NList.insert exLow {} { name := "Bars".toList, payees := ["Bar".toList] })
    { name := "Fun".toList, payees := ["Bar".toList] })

def exEnvT : Env := { exEnvL with rx := fun pat s => pat == s }

example : postingAccount exEnvT .id exTakers "Expenses:Unknown".toList "Bar".toList = .ok "Fun".toList := by
  decide +kernel

/-- **C30** is false: with two accounts the hash order decides. -/
theorem C30_false : ∃ (accounts : NList AccountDef) (account payee a a' : Str), a ≠ a' ∧
    postingAccount exEnvT .id accounts account payee = .ok a ∧
    postingAccount exEnvT .rev accounts account payee = .ok a' :=
  ⟨exTakers, "Expenses:Unknown".toList, "Bar".toList, "Fun".toList, "Bars".toList, by decide,
    by decide +kernel, by decide +kernel⟩

/-! ### C29 -/

/-- Two names that differ in case. -/
def exCase : ParsedLedger :=
  { transactions := [
      { date := some 1, description := "Bar".toList,
        postings := [exRaw "Food" "Bar" 10 "EUR", exRaw "Cash" "Bar" (-10) "eur"] }] }

/-- Two commodities that make up the missing amount. -/
def exTwo : ParsedLedger :=
  { transactions := [
      { date := some 1, description := "Bar".toList,
        postings := [exRaw "Food" "Bar" 10 "EUR", exRaw "Food" "Bar" 5 "USD",
                     { account := "Cash".toList, payee := some "Bar".toList }] }] }

/-- **C29** is false: of two names that differ in case the hash order picks the one that is used. -/
theorem C29_false_case : ∃ pl : ParsedLedger,
    shown (toLedger exEnvL exHash false pl) ≠ shown (toLedger exEnvL exHashRev false pl) :=
  ⟨exCase, by decide +kernel⟩

/-- **C29** is false: the amounts filled in are listed in hash order. -/
theorem C29_false_fill : ∃ pl : ParsedLedger,
    shown (toLedger exEnvL exHash false pl) ≠ shown (toLedger exEnvL exHashRev false pl) :=
  ⟨exTwo, by decide +kernel⟩

/-- **C29** is false: the direction of an implied rate depends on the hash order. -/
theorem C29_false_rate : ∃ pl : ParsedLedger,
    (toLedger exEnvL exHash false pl).map Ledger.prices ≠
      (toLedger exEnvL exHashRev false pl).map Ledger.prices :=
  ⟨exJournal, by decide +kernel⟩

/-- **C29** for journals that leave hash orders little to decide: whatever the two orders, both runs are
accepted or both are rejected, and the ledgers have the same names, the same transactions up to
the order of their postings, the same prices from directives and costs, and the same implied rates
up to direction. -/
theorem C29_orders_partial {env : Env} {skip : Bool} {pl : ParsedLedger} (o o' : LedgerOrders)
    (hok : pl.lists.Ok env.lower) (hf : OrderFree env pl) :
    ((∃ L, toLedger env o skip pl = .ok L) ↔ ∃ L', toLedger env o' skip pl = .ok L') ∧
    ∀ L L', toLedger env o skip pl = .ok L → toLedger env o' skip pl = .ok L' → SameLedger L L' := by
  refine ⟨⟨?_, ?_⟩, ?_⟩
  · rintro ⟨L, h⟩; obtain ⟨L', h', _⟩ := toLedger_orders (o' := o') hok hf h; exact ⟨L', h'⟩
  · rintro ⟨L, h⟩; obtain ⟨L', h', _⟩ := toLedger_orders (o' := o) hok hf h; exact ⟨L', h'⟩
  · intro L L' h h'
    obtain ⟨M, hM, hs⟩ := toLedger_orders (o' := o') hok hf h
    rw [h'] at hM
    cases hM
    exact hs

/-- A journal with a payee pattern, an account that takes a payee, and two commodities that make up the
missing amount. -/
def exFree : ParsedLedger :=
  { lists :=
      { accounts := NList.insert exLow {} { name := "Bars".toList, payees := ["Bar".toList] }
        payees := NList.insert exLow {} { name := "Bar".toList, aliasRx := ["Pub".toList] } }
    transactions := [
      { date := some 1, description := "Pub".toList,
        postings := [exRaw "Unknown" "Pub" 10 "EUR", exRaw "Food" "Pub" 5 "USD",
                     { account := "Cash".toList, payee := some "Pub".toList }] }] }

example : exFree.lists.Ok exEnvT.lower ∧ OrderFree exEnvT exFree ∧
    shown (toLedger exEnvT exHash false exFree) = .ok [[("Bars".toList, some (.mk 10 "EUR".toList)),
      ("Food".toList, some (.mk 5 "USD".toList)), ("Cash".toList, some (.mk (-10) "EUR".toList)),
      ("Cash".toList, some (.mk (-5) "USD".toList))]] := by
  refine ⟨⟨.insert (lower := exLow) ({ name := "Bars".toList, payees := ["Bar".toList] } : AccountDef) .new,
      .insert (lower := exLow) ({ name := "Bar".toList, aliasRx := ["Pub".toList] } : PayeeDef) .new, .new⟩, ⟨by decide +kernel, ?_, ?_, ?_, ?_, ?_⟩,
    by decide +kernel⟩
  · have h : ∀ a ∈ exFree.commodityStrs, ∀ b ∈ exFree.commodityStrs,
        exEnvT.lower a = exEnvT.lower b → a = b := by decide +kernel
    exact fun a b ha hb => h a (mem_commodityStrs.mpr ha) b (mem_commodityStrs.mpr hb)
  · have h : ∀ a ∈ exFree.accountStrs, ∀ b ∈ exFree.accountStrs,
        exEnvT.lower a = exEnvT.lower b → a = b := by decide +kernel
    exact fun a b ha hb => h a (mem_accountStrs.mpr ha) b (mem_accountStrs.mpr hb)
  · have h : ∀ a ∈ exFree.payeeStrs, ∀ b ∈ exFree.payeeStrs,
        exEnvT.lower a = exEnvT.lower b → a = b := by decide +kernel
    exact fun a b ha hb => h a (mem_payeeStrs.mpr ha) b (mem_payeeStrs.mpr hb)
  · intro n _ x hx y hy _ _
    have e : exFree.lists.payees.list =
      [("bar".toList, { name := "Bar".toList, aliasRx := ["Pub".toList] })] := by rfl
    rw [e] at hx hy
    rw [List.mem_singleton.mp hx, List.mem_singleton.mp hy]
  · intro n _ x hx y hy _ _
    have e : exFree.lists.accounts.list =
      [("bars".toList, { name := "Bars".toList, payees := ["Bar".toList] })] := by rfl
    rw [e] at hx hy
    rw [List.mem_singleton.mp hx, List.mem_singleton.mp hy]

end Dinero
