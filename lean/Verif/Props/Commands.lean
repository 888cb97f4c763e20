import Verif.Lemmas.Commands
import Verif.Props.Report
import Verif.Props.Journal
/-
Property theorems about the commands, from the file on (C83-C89).
-/
namespace Dinero

/-! ### The environment of the examples -/

/-- A run on one file. -/
def exRun (text : String) : Run :=
  { env := exEnvJ, fs := exDir [("main".toList, text.toList)], orders := exHash, fuel := 300, depth := 2 }

/-- An elided amount, a purchase at a price and an asserted total, out of order. -/
def exText : String :=
  "2020-01-05 Bar\n Food  10 EUR\n Cash\n2020-01-01 Broker\n Stock  2 ACME @ 25 EUR\n Cash  -50 EUR = -50 EUR\n"

/-! ### C83: what reading hands over -/

/-- A journal that is read is well formed: regular transactions are dated and their postings have a payee; automated
ones have none; amounts, costs and totals come with a commodity. -/
theorem C83_wellformed {r : Run} {path : Str} {pl : ParsedLedger} (h : r.journal path = .ok pl) :
    pl.Ok r.env.lower ∧ (∀ t ∈ pl.transactions, t.ttype = .real ∨ t.ttype = .automated) ∧
      ∀ t ∈ pl.automated, t.payee = none ∧ ∀ p ∈ t.postings, p.Paired ∧ p.payee = none := by
  have hj : JournalOk r.env.lower pl := tokenizeFile_journalOk _ _ _ h
  refine ⟨hj.ok, fun t ht => ?_, fun t ht => ?_⟩
  · exact (hj.txns t ht).kind.imp And.left And.left
  · have hm := List.mem_filter.mp ht
    have ho := hj.txns t hm.1
    rcases ho.kind with ⟨hk, _⟩ | ⟨_, hp⟩
    · have := hm.2
      rw [hk] at this; simp at this
    · exact ⟨hp, fun p hp' => ⟨(ho.paired p hp').1, by rw [(ho.paired p hp').2, hp]⟩⟩

/-- Once the file is read, building the ledger does not panic, and `check` has an answer: without automated
transactions and without a total cost for a zero quantity. -/
theorem C83_no_panic {r : Run} {path : Str} {pl : ParsedLedger} (h : r.journal path = .ok pl)
    (ha : pl.automated = []) (hz : pl.NoFreeTotals) :
    (∀ skip, (∃ L, r.ledger skip path = .ok L) ∨ ∃ e, r.ledger skip path = .error (.fail (.error e))) ∧
      ∃ v, checkCommand r path = .ok v := by
  have key : ∀ skip, (toLedger r.env r.orders skip pl).isPanic = false := fun skip =>
    C24_no_panic (C83_wellformed h).1 ha hz
  constructor
  · intro skip
    unfold Run.ledger
    rw [h]
    have := key skip
    simp only
    cases hl : toLedger r.env r.orders skip pl with
    | ok L => exact .inl ⟨L, rfl⟩
    | error e =>
      cases e with
      | error e => exact .inr ⟨e, rfl⟩
      | panic w => rw [hl] at this; cases this
  · unfold checkCommand
    rw [h]
    have := key false
    simp only
    cases hl : toLedger r.env r.orders false pl with
    | ok L => exact ⟨_, rfl⟩
    | error e =>
      cases e with
      | error e => exact ⟨_, rfl⟩
      | panic w => rw [hl] at this; cases this

example : ((exRun exText).journal "main".toList).toOption.map
    (fun pl => (pl.automated.length, pl.regular.map (fun t => t.postings.map RawPosting.moneyAmount))) =
      some (0, [[some 10, none], [some 2, some (-50)]]) := by decide +kernel

/-! ### C84: what `check` says -/

/-- `check` finds a journal without automated transactions in order exactly when its transactions, by date, can be
booked; the other commands get their ledger exactly then, with `--no-balance-check` when they can be booked ignoring
totals.  Missing: bracketed sales, which are weighed with the wrong sign (`C11_false_for_bracketed_sale`). -/
theorem C84_check_partial {r : Run} {path : Str} {pl : ParsedLedger} (h : r.journal path = .ok pl)
    (ha : pl.automated = []) (hz : pl.NoFreeTotals) (hn : pl.NoBracketedSales) :
    ∃ ts, pl.StandsFor r.env ts ∧
      (checkCommand r path = .ok .ok ↔ ∃ final, BooksAll false (fun _ _ => 0) ts final) ∧
      ∀ skip, (∃ L, r.ledger skip path = .ok L) ↔ ∃ final, BooksAll skip (fun _ _ => 0) ts final := by
  have hok := (C83_wellformed h).1
  obtain ⟨l, listed, ts, h1, h2, h3, h4, h5⟩ := toLedger_plain (o := r.orders) hok ha hz
  have hp : ∀ t ∈ ts, ∀ p ∈ t.postings, p.CostOk ∧ ((initialBalances l.accounts).get? p.account).isSome :=
    fun t ht => (h4 t ht).2
  have hns := noSales h2 h3 hn
  have key : ∀ skip, (∃ L, toLedger r.env r.orders skip pl = .ok L) ↔
      ∃ final, BooksAll skip (fun _ _ => 0) ts final := by
    intro skip
    rw [(h5 skip).2, balancePass_iff ts (initialBalances_ok _) (fun t ht => (h4 t ht).1)
      (fun t ht p hpm => (hp t ht p hpm).1), ← initialBalances_amt l.accounts]
    constructor
    · rintro ⟨⟨bals', rs⟩, hb⟩
      exact ⟨_, books_of_balanceAll ts (initialBalances_ok _) hp hns hb⟩
    · rintro ⟨final, hb⟩
      exact balanceAll_of_books hb rfl (initialBalances_ok _) hp hns
  refine ⟨ts, ⟨l, listed, populate_names hok.lists h1, h2, h3⟩, ?_, ?_⟩
  · rw [← key false]
    unfold checkCommand
    rw [h]
    simp only
    cases hl : toLedger r.env r.orders false pl with
    | ok L => simp
    | error e => cases e <;> simp
  · intro skip
    rw [← key skip]
    unfold Run.ledger
    rw [h]
    simp only
    cases hl : toLedger r.env r.orders skip pl with
    | ok L => simp [PRes.lift]
    | error e => simp [PRes.lift]

/-- When all amounts of real postings are written: `check` finds the journal in order exactly when every
transaction may balance, its bracketed postings too, and the asserted totals hold in the order of the dates. -/
theorem C84_full_partial {r : Run} {path : Str} {pl : ParsedLedger} (h : r.journal path = .ok pl)
    (ha : pl.automated = []) (hz : pl.NoFreeTotals) (hn : pl.NoBracketedSales)
    (hf : ∀ t ∈ pl.regular, ∀ p ∈ t.postings, p.kind = .real → p.moneyAmount.isSome) :
    ∃ ts, pl.StandsFor r.env ts ∧ (checkCommand r path = .ok .ok ↔
      (∀ t ∈ ts, MayBalance (weightOf .real t.postings) ∧ MayBalance (weightOf .virtBal t.postings)) ∧
        AssertionsHold (fun _ _ => 0) (ts.flatMap (fun t => t.postings))) := by
  obtain ⟨ts, hs, hc, _⟩ := C84_check_partial h ha hz hn
  refine ⟨ts, hs, ?_⟩
  have hok := (C83_wellformed h).1
  have hall : ∀ t ∈ ts, AllAmounts t.postings := standsFor_full hok hs hf
  rw [hc]
  constructor
  · rintro ⟨final, hb⟩
    obtain ⟨h1, h2, _⟩ := (booksAll_full ts hall).mp hb
    exact ⟨h1, h2.resolve_left (by simp)⟩
  · rintro ⟨h1, h2⟩
    exact ⟨fun a c => 0 + postedTo (ts.flatMap (fun t => t.postings)) a c,
      (booksAll_full ts hall).mpr ⟨h1, .inr h2, fun _ _ => rfl⟩⟩

/-- For a journal in one commodity, with real postings only and without costs and totals: `check` finds it in order
exactly when each transaction sums to zero or leaves out exactly one amount. -/
theorem C84_one_commodity {r : Run} {path : Str} {pl : ParsedLedger} {cur : Str} (h : r.journal path = .ok pl)
    (ha : pl.automated = [])
    (hone : ∀ t ∈ pl.regular, ∀ p ∈ t.postings, p.kind = .real ∧ p.costCurrency = none ∧ p.balanceCurrency = none ∧
      (p.moneyCurrency = none ∨ p.moneyCurrency = some cur)) :
    checkCommand r path = .ok .ok ↔ ∀ t ∈ pl.regular, SumsUp t := by
  have hok := (C83_wellformed h).1
  have hct : ∀ t ∈ pl.regular, ∀ p ∈ t.postings, p.costType = none := by
    intro t ht p hp
    have := (hok.postings t ht p hp).costType
    rw [(hone t ht p hp).2.1] at this
    cases hx : p.costType with
    | none => rfl
    | some x => rw [hx] at this; cases this
  obtain ⟨ts, hs, hc, _⟩ := C84_check_partial h ha
    (by intro t ht p hp hx; rw [hct t ht p hp] at hx; cases hx)
    (by intro t ht p hp _ hx; rw [hct t ht p hp] at hx; cases hx)
  rw [hc]
  obtain ⟨l, listed, hN, hd, hw⟩ := hs
  obtain ⟨n, hn⟩ : ∃ n, ∀ m, Finds r.env.lower l.commodities cur m → m = n := by
    by_cases hx : ∃ n, Finds r.env.lower l.commodities cur n
    · obtain ⟨n, hx⟩ := hx
      exact ⟨n, fun m hm => hm.unique hx⟩
    · exact ⟨[], fun m hm => absurd ⟨m, hm⟩ hx⟩
  have one : ∀ raw ∈ pl.regular, ∀ t : Txn Posting,
      List.Forall₂ (WrittenAs r.env l raw) raw.postings t.postings → _ :=
    fun raw hraw t hw => oneCommodity hn (fun p hp => by
      obtain ⟨h1, h2, h3, h4⟩ := hone raw hraw p hp
      exact ⟨h1, h2, h3, h4, (hok.postings raw hraw p hp).money⟩) hw
  have hb : ∀ t ∈ ts, ∀ q ∈ t.postings, q.balance = none := by
    intro t ht
    obtain ⟨raw, hraw, _, _, hw⟩ := Forall₂.mem_right hw ht
    exact (one raw (hd.perm.mem_iff.mp hraw) t hw).2.2.1
  rw [booksAll_noTotals ts hb]
  have iff : ∀ raw ∈ pl.regular, ∀ t : Txn Posting, List.Forall₂ (WrittenAs r.env l raw) raw.postings t.postings →
      ((MayBalance (weightOf .virtBal t.postings) ∧
        (((∀ p ∈ t.postings, ¬ p.elided false) ∧ MayBalance (weightOf .real t.postings)) ∨
          ∃ p, t.postings.filter (fun p => p.elided false) = [p])) ↔ SumsUp raw) := by
    intro raw hraw t hw
    obtain ⟨h1, h2, _, h4⟩ := one raw hraw t hw
    have hv : MayBalance (weightOf .virtBal t.postings) := .inl h2
    have he : (∀ p ∈ t.postings, ¬ p.elided false) ↔ ∀ p ∈ raw.postings, p.moneyAmount ≠ none := by
      have e1 : (∀ p ∈ t.postings, ¬ p.elided false) ↔ (t.postings.filter (fun p => p.elided false)).length = 0 := by
        rw [List.length_eq_zero_iff, List.filter_eq_nil_iff]; simp
      have e2 : (∀ p ∈ raw.postings, p.moneyAmount ≠ none) ↔
          (raw.postings.filter (fun p => p.moneyAmount = none)).length = 0 := by
        rw [List.length_eq_zero_iff, List.filter_eq_nil_iff]; simp
      rw [e1, e2, h4]
    unfold SumsUp
    rw [← List.length_eq_one_iff, h4, he, mayBalance_single h1]
    exact ⟨And.right, fun h => ⟨hv, h⟩⟩
  constructor
  · intro hx raw hraw
    obtain ⟨t, ht, _, _, hw'⟩ := Forall₂.mem_left hw (hd.perm.mem_iff.mpr hraw)
    exact (iff raw hraw t hw').mp (hx t ht)
  · intro hx t ht
    obtain ⟨raw, hraw, _, _, hw'⟩ := Forall₂.mem_right hw ht
    have hraw := hd.perm.mem_iff.mp hraw
    exact (iff raw hraw t hw').mpr (hx raw hraw)

example : checkCommand (exRun exText) "main".toList = .ok .ok ∧
    checkCommand (exRun "2020-01-05 Bar\n Food  10 EUR\n Cash  -9 EUR\n") "main".toList =
      .ok (.ko .notBalanced) ∧
    checkCommand (exRun "2020-01-05 Bar\n Food  10 EUR\n Cash  -10 EUR\n") "main".toList = .ok .ok := by
  decide +kernel

/-! ### The ledger the reports start from -/

/-- The entries of the ledger of a journal without automated transactions. -/
theorem ledger_enters {r : Run} {skip : Bool} {path : Str} {pl : ParsedLedger} {L : Ledger}
    (h : r.journal path = .ok pl) (ha : pl.automated = []) (hl : r.ledger skip path = .ok L) :
    ∃ l listed ts es, NamesOf r.env pl l ∧ DateOrder pl.regular listed ∧
      List.Forall₂ (fun raw t => t.header = raw.header ∧ t.ttype = .real ∧
        List.Forall₂ (WrittenAs r.env l raw) raw.postings t.postings) listed ts ∧
      EntersAll skip (fun _ _ => 0) ts es ∧
      (L.entries.map Prod.snd).map Posting.entry = es.map Posting.entry ∧
      L.accounts = l.accounts ∧ L.payees = l.payees ∧ L.commodities = l.commodities := by
  unfold Run.ledger at hl
  rw [h] at hl
  simp only at hl
  cases ht : toLedger r.env r.orders skip pl with
  | error e => rw [ht] at hl; cases hl
  | ok L' =>
    rw [ht] at hl; cases hl
    obtain ⟨l, listed, ts, bals, rs, h1, h2, h3, h4, h5, h6, h7, h8, h9⟩ :=
      toLedger_booked (C83_wellformed h).1 ha ht
    obtain ⟨es, e1, e2⟩ := entersAll_of_balanceAll ts (initialBalances_ok _) (fun t ht p hp => (h4 t ht p hp).1) h5
    rw [initialBalances_amt] at e1
    refine ⟨l, listed, ts, es, h1, h2, h3, e1, ?_, h7, h8, h9⟩
    rw [← e2, ← h6]
    congr 1
    unfold Ledger.entries
    rw [List.map_flatMap]
    congr 1
    funext t
    rw [List.map_map]
    simp [Function.comp_def]

/-- Without options everything is selected. -/
theorem selected_all {env : Env} {l : Ledger} {sel : List (Txn Posting × Posting)}
    (h : Selected env {} l sel) : sel = l.entries := by
  obtain ⟨node, st, hn, hs⟩ := h
  have : node = none := by
    simp [queryNode, preprocessQuery] at hn; exact hn.symm
  subst this
  exact hs.all (fun t p st => by simp [filterPosting])

/-- Sums over entries. -/
theorem sumIn_entries {ps qs : List Posting} (h : ps.map Posting.entry = qs.map Posting.entry) (P : Str → Bool)
    (c : Cur) : sumIn ((ps.filter (fun p => P p.account)).filterMap Posting.amount) c =
      sumIn ((qs.filter (fun p => P p.account)).filterMap Posting.amount) c := by
  induction ps generalizing qs with
  | nil => cases qs with
    | nil => rfl
    | cons _ _ => cases h
  | cons p ps ih =>
    cases qs with
    | nil => cases h
    | cons q qs =>
      simp only [List.map_cons, List.cons.injEq, Posting.entry, Prod.mk.injEq] at h
      obtain ⟨⟨h1, _, h3⟩, h4⟩ := h
      have := ih h4
      rw [List.filter_cons, List.filter_cons, h1]
      split
      · rw [List.filterMap_cons, List.filterMap_cons, h3]
        cases q.amount with
        | none => exact this
        | some m => simp only [sumIn_cons, this]
      · exact this

theorem selSum_entries {l : Ledger} {es : List Posting}
    (h : (l.entries.map Prod.snd).map Posting.entry = es.map Posting.entry) (P : Str → Bool) (c : Cur) :
    selSum l.entries P c = sumIn ((es.filter (fun p => P p.account)).filterMap Posting.amount) c := by
  rw [← sumIn_entries h]
  unfold selSum
  congr 1
  rw [List.filter_map, List.filterMap_map]
  rfl

/-! ### C85: the register, from the file on -/

/-- The register of a journal without automated transactions lists exactly the entries of its transactions, by date,
under the accounts their names stand for; next to each the sum of all entries so far. -/
theorem C85_register {r : Run} {s : Nat → Shuf} {skip : Bool} {path : Str} {pl : ParsedLedger} {lines : List RegLine}
    (h : r.journal path = .ok pl) (ha : pl.automated = []) (hr : registerCommand r s {} skip path = .ok lines) :
    ∃ ts es, pl.StandsFor r.env ts ∧ EntersAll skip (fun _ _ => 0) ts es ∧
      lines.map (fun l => (l.account, l.kind, some l.amount)) = es.map Posting.entry ∧
      ∀ pre line post, lines = pre ++ line :: post →
        ((∀ c, sumIn ((pre ++ [line]).map RegLine.amount) c = 0) → line.running = [.zero]) ∧
        ((∃ c, sumIn ((pre ++ [line]).map RegLine.amount) c ≠ 0) →
          Shows line.running (sumIn ((pre ++ [line]).map RegLine.amount))) := by
  unfold registerCommand at hr
  cases hl : r.ledger skip path with
  | error e => rw [hl] at hr; cases hr
  | ok L =>
    rw [hl] at hr
    simp only at hr
    cases hrep : registerReport r.env s {} L with
    | error e => rw [hrep] at hr; cases hr
    | ok ls =>
      rw [hrep] at hr; cases hr
      obtain ⟨l, listed, ts, es, h1, h2, h3, h4, h5, _⟩ := ledger_enters h ha hl
      obtain ⟨sel, g1, g2, g3⟩ := C55_register hrep
      obtain rfl := selected_all g1
      refine ⟨ts, es, ⟨l, listed, h1, h2, h3⟩, h4, ?_, g3⟩
      rw [g2, ← h5, List.map_map]
      rfl

/-- When all amounts are written the lines are the written postings, of each transaction the real ones first. -/
theorem C85_full {r : Run} {s : Nat → Shuf} {skip : Bool} {path : Str} {pl : ParsedLedger} {lines : List RegLine}
    (h : r.journal path = .ok pl) (ha : pl.automated = [])
    (hf : ∀ t ∈ pl.regular, ∀ p ∈ t.postings, p.kind = .real → p.moneyAmount.isSome)
    (hr : registerCommand r s {} skip path = .ok lines) :
    ∃ ts, pl.StandsFor r.env ts ∧ lines.map (fun l => (l.account, l.kind, some l.amount)) =
      (ts.flatMap (fun t => t.postings.filter (fun p => p.kind = .real) ++
        t.postings.filter (fun p => p.kind ≠ .real))).map Posting.entry := by
  obtain ⟨ts, es, hs, he, hlines, _⟩ := C85_register h ha hr
  refine ⟨ts, hs, ?_⟩
  have hall : ∀ t ∈ ts, AllAmounts t.postings := standsFor_full (C83_wellformed h).1 hs hf
  rw [hlines]
  congr 1
  clear hlines hs hr
  generalize (fun _ _ => 0 : Str → Cur → Rat) = start at he
  induction he with
  | nil => rfl
  | @cons start t es ts rest h1 _ ih =>
    rw [List.flatMap_cons, ← ih (fun t ht => hall t (by simp [ht]))]
    congr 1
    obtain ⟨qs, gen, g1, rfl, g3⟩ := h1
    rw [((posts_full t.postings (hall t (by simp))).mp g1).1]
    rcases g3 with ⟨_, _, rfl⟩ | ⟨p, hp, _⟩
    · simp
    · have hm : p ∈ t.postings.filter (fun p => p.elided skip) := by rw [hp]; simp
      obtain ⟨hm1, hm2⟩ := List.mem_filter.mp hm
      obtain ⟨k1, k2, _⟩ := of_decide_eq_true hm2
      have := hall t (by simp) p hm1 k1
      rw [k2] at this; cases this

example : (registerCommand (exRun exText) (fun _ => .id) {} false "main".toList).toOption.map
    (fun ls => ls.map (fun l : RegLine => (l.account, l.amount, l.running))) = some
      [("Stock".toList, .mk 2 "ACME".toList, [.mk 2 "ACME".toList]),
       ("Cash".toList, .mk (-50) "EUR".toList, [.mk 2 "ACME".toList, .mk (-50) "EUR".toList]),
       ("Food".toList, .mk 10 "EUR".toList, [.mk 2 "ACME".toList, .mk (-40) "EUR".toList]),
       ("Cash".toList, .mk (-10) "EUR".toList, [.mk 2 "ACME".toList, .mk (-50) "EUR".toList])] := by decide +kernel

/-! ### C86: the balance, from the file on -/

/-- The flat balance of a journal without automated transactions shows for every account what its entries sum to, and
leaves out the accounts where that is nothing. -/
theorem C86_balance {r : Run} {o : BalOrders} {today : Date} {skip showTotal : Bool} {path : Str} {pl : ParsedLedger}
    {rep : BalReport} (h : r.journal path = .ok pl) (ha : pl.automated = [])
    (hr : balanceCommand r o today {} skip true showTotal path = .ok rep) :
    ∃ ts es, pl.StandsFor r.env ts ∧ EntersAll skip (fun _ _ => 0) ts es ∧
      (rep.lines.map BalLine.label).Pairwise (· < ·) ∧
      (∀ line ∈ rep.lines, line.indent = 0 ∧
        Shows line.amounts (sumIn ((es.filter (fun p => p.account = line.label)).filterMap Posting.amount))) ∧
      (∀ a, (∃ line ∈ rep.lines, line.label = a) ↔
        ∃ c, sumIn ((es.filter (fun p => p.account = a)).filterMap Posting.amount) c ≠ 0) ∧
      ∀ ms, rep.total = some ms → Shows ms (sumIn (es.filterMap Posting.amount)) := by
  unfold balanceCommand at hr
  cases hl : r.ledger skip path with
  | error e => rw [hl] at hr; cases hr
  | ok L =>
    rw [hl] at hr
    simp only at hr
    cases hrep : balanceReport r.env o today {} true showTotal L with
    | error e => rw [hrep] at hr; cases hr
    | ok rep' =>
      rw [hrep] at hr; cases hr
      obtain ⟨l, listed, ts, es, h1, h2, h3, h4, h5, _⟩ := ledger_enters h ha hl
      obtain ⟨sel, g1, g2, g3, g4⟩ := C51_flat rfl rfl hrep
      obtain ⟨sel', g5, g6⟩ := C53_total rfl hrep
      obtain rfl := selected_all g1
      obtain rfl := selected_all g5
      refine ⟨ts, es, ⟨l, listed, h1, h2, h3⟩, h4, g2, fun line hline => ⟨(g3 line hline).1, ?_⟩, fun a => ?_,
        fun ms hm => ?_⟩
      · have : selSum L.entries (fun a => a = line.label) =
            sumIn ((es.filter (fun p => p.account = line.label)).filterMap Posting.amount) := by
          funext c; exact selSum_entries h5 _ c
        rw [← this]; exact (g3 line hline).2
      · rw [g4]
        simp only [selSum_entries h5 (fun x => decide (x = a))]
      · have : selSum L.entries (fun _ => true) = sumIn (es.filterMap Posting.amount) := by
          funext c; rw [selSum_entries h5 (fun _ => true) c, List.filter_true]
        rw [← this]; exact g6 ms hm

/-- The total is the sum of all entries, in flat and in tree reports. -/
theorem C86_total {r : Run} {o : BalOrders} {today : Date} {skip flat showTotal : Bool} {path : Str}
    {pl : ParsedLedger} {rep : BalReport} (h : r.journal path = .ok pl) (ha : pl.automated = [])
    (hr : balanceCommand r o today {} skip flat showTotal path = .ok rep) :
    ∃ ts es, pl.StandsFor r.env ts ∧ EntersAll skip (fun _ _ => 0) ts es ∧
      ∀ ms, rep.total = some ms → Shows ms (sumIn (es.filterMap Posting.amount)) := by
  unfold balanceCommand at hr
  cases hl : r.ledger skip path with
  | error e => rw [hl] at hr; cases hr
  | ok L =>
    rw [hl] at hr
    simp only at hr
    cases hrep : balanceReport r.env o today {} flat showTotal L with
    | error e => rw [hrep] at hr; cases hr
    | ok rep' =>
      rw [hrep] at hr; cases hr
      obtain ⟨l, listed, ts, es, h1, h2, h3, h4, h5, _⟩ := ledger_enters h ha hl
      obtain ⟨sel', g5, g6⟩ := C53_total rfl hrep
      obtain rfl := selected_all g5
      refine ⟨ts, es, ⟨l, listed, h1, h2, h3⟩, h4, fun ms hm => ?_⟩
      have : selSum L.entries (fun _ => true) = sumIn (es.filterMap Posting.amount) := by
        funext c; rw [selSum_entries h5 (fun _ => true) c, List.filter_true]
      rw [← this]; exact g6 ms hm

example : (balanceCommand (exRun exText) exOrders 0 {} false true true "main".toList).toOption.map
    (fun rep : BalReport => (rep.lines.map (fun l => (l.label, l.amounts)), rep.total)) = some
      ([("Cash".toList, [.mk (-60) "EUR".toList]), ("Food".toList, [.mk 10 "EUR".toList]),
        ("Stock".toList, [.mk 2 "ACME".toList])], some [.mk 2 "ACME".toList, .mk (-50) "EUR".toList]) := by
  decide +kernel

/-! ### C87: the books balance -/

/-- In a journal in one commodity, with real postings only and without costs, the total of the balance report is
nothing; asserted totals may stand for amounts. -/
theorem C87_total {r : Run} {o : BalOrders} {today : Date} {skip flat showTotal : Bool} {path : Str} {pl : ParsedLedger}
    {rep : BalReport} {cur : Str} {ms : List Money} (h : r.journal path = .ok pl) (ha : pl.automated = [])
    (hone : ∀ t ∈ pl.regular, ∀ p ∈ t.postings, p.kind = .real ∧ p.costCurrency = none ∧
      (p.balanceCurrency = none ∨ p.balanceCurrency = some cur) ∧
      (p.moneyCurrency = none ∨ p.moneyCurrency = some cur))
    (hr : balanceCommand r o today {} skip flat showTotal path = .ok rep) (hm : rep.total = some ms) : ms = [] := by
  obtain ⟨ts, es, ⟨l, listed, hN, hd, hw⟩, h2, h6⟩ := C86_total h ha hr
  obtain ⟨n, hn⟩ : ∃ n, ∀ m, Finds r.env.lower l.commodities cur m → m = n := by
    by_cases hx : ∃ n, Finds r.env.lower l.commodities cur n
    · obtain ⟨n, hx⟩ := hx
      exact ⟨n, fun m hm => hm.unique hx⟩
    · exact ⟨[], fun m hm => absurd ⟨m, hm⟩ hx⟩
  have hmoney : ∀ {c : Option Str} {x : Option Rat} {m : Option Money}, (c = none ∨ c = some cur) →
      MoneyAs r.env.lower l.commodities c x m → ∀ v, m = some v → ∀ d, d ≠ n → v.amountIn d = 0 := by
    intro c x m hc hm v hv d hd
    rcases hm with ⟨_, h2⟩ | ⟨a, m', q, h1, h2, h3, h4⟩
    · rw [h2] at hv; cases hv
    · rcases hc with hc | hc
      · rw [hc] at h1; cases h1
      · rw [hc] at h1; cases h1
        rw [h4] at hv; cases hv
        rw [hn _ h3]
        simp [Money.amountIn, Money.commodity, Ne.symm hd]
  have honly : ∀ t ∈ ts, ∀ p ∈ t.postings, p.Only n := by
    intro t ht q hq
    obtain ⟨raw, hraw, _, _, hw⟩ := Forall₂.mem_right hw ht
    obtain ⟨p, hp, w⟩ := Forall₂.mem_right hw hq
    obtain ⟨o1, o2, o3, o4⟩ := hone raw (hd.perm.mem_iff.mp hraw) p hp
    refine ⟨by rw [w.kind]; exact o1, ?_, hmoney o4 w.amount, hmoney o3 w.balance⟩
    rcases w.cost with ⟨_, h⟩ | ⟨_, _, _, h, _⟩
    · exact h
    · rw [o2] at h; cases h
  have hs := h6 ms hm
  have hz := fun c => entersAll_only (d := n) h2 (fun _ _ _ => rfl) honly c
  cases ms with
  | nil => rfl
  | cons m ms =>
    exfalso
    have hnz := hs.nonzero m (by simp)
    cases hc : m.commodity with
    | none =>
      cases m with
      | zero => exact hnz rfl
      | mk _ _ => cases hc
    | some c =>
      have h1 := hs.sum c
      rw [hz, sumIn_cons] at h1
      have h0 : sumIn ms c = 0 := by
        have hno := hs.once
        rw [List.map_cons, List.nodup_cons, hc] at hno
        have := hno.1
        clear h1 hs hno hm
        induction ms with
        | nil => rfl
        | cons x xs ih =>
          simp only [List.map_cons, List.mem_cons, not_or] at this
          rw [sumIn_cons, ih this.2, add_zero]
          unfold Money.amountIn
          rw [if_neg (Ne.symm this.1)]
      rw [h0, add_zero] at h1
      unfold Money.amountIn at h1
      rw [if_pos hc] at h1
      exact hnz h1

example : (balanceCommand (exRun "2020-01-05 Bar\n Food  10 EUR\n Cash  = -7 EUR\n Bank\n") exOrders 0 {} false true true
    "main".toList).toOption.map (fun rep : BalReport => (rep.lines.map (fun l => (l.label, l.amounts)), rep.total)) =
      some ([("Bank".toList, [.mk (-3) "EUR".toList]), ("Cash".toList, [.mk (-7) "EUR".toList]),
        ("Food".toList, [.mk 10 "EUR".toList])], some []) := by decide +kernel

/-! ### C88: the lists -/

/-- `accounts`, `commodities` and `payees` print, sorted and each once, what is declared and what is used without being
declared; a used payee matching a pattern of a declared one is not printed. -/
theorem C88_lists {r : Run} {s : Shuf} {skip : Bool} {path : Str} {pl : ParsedLedger} {as ps cs : List Str}
    (h : r.journal path = .ok pl) (ha : pl.automated = []) (h1 : accountsCommand r s skip path = .ok as)
    (h2 : payeesCommand r s skip path = .ok ps) (h3 : commoditiesCommand r s skip path = .ok cs) :
    as.Pairwise (· < ·) ∧ ps.Pairwise (· < ·) ∧ cs.Pairwise (· < ·) ∧
      (∀ n, Lists? pl.lists.accounts n → n ∈ as) ∧ (∀ n, Lists? pl.lists.payees n → n ∈ ps) ∧
      (∀ n, Lists? pl.lists.commodities n → n ∈ cs) ∧
      (∀ n ∈ as, Lists? pl.lists.accounts n ∨
        pl.usesAccount n ∧ ¬ Declared r.env.lower pl.lists.accounts n) ∧
      (∀ n ∈ ps, Lists? pl.lists.payees n ∨ pl.usesPayee n ∧ ¬ Declared r.env.lower pl.lists.payees n ∧
        ∀ p, ¬ Matches r.env pl.lists.payees p n) ∧
      (∀ n ∈ cs, Lists? pl.lists.commodities n ∨
        pl.usesCommodity n ∧ ¬ Declared r.env.lower pl.lists.commodities n) ∧
      (∀ n, pl.usesAccount n → ¬ Declared r.env.lower pl.lists.accounts n →
        ∃ m ∈ as, pl.usesAccount m ∧ r.env.lower m = r.env.lower n) ∧
      (∀ n, pl.usesCommodity n → ¬ Declared r.env.lower pl.lists.commodities n →
        ∃ m ∈ cs, pl.usesCommodity m ∧ r.env.lower m = r.env.lower n) ∧
      (∀ n, pl.usesPayee n → ¬ Declared r.env.lower pl.lists.payees n →
        ∃ m, pl.usesPayee m ∧ r.env.lower m = r.env.lower n ∧
          (m ∈ ps ∨ ∃ p, Matches r.env pl.lists.payees p m)) := by
  unfold accountsCommand at h1
  unfold payeesCommand at h2
  unfold commoditiesCommand at h3
  cases hl : r.ledger skip path with
  | error e => rw [hl] at h1; cases h1
  | ok L =>
    rw [hl] at h1 h2 h3
    cases h1; cases h2; cases h3
    obtain ⟨l, listed, ts, es, hN, _, _, _, _, e1, e2, e3⟩ := ledger_enters h ha hl
    simp only [e1, e2, e3]
    obtain ⟨a1, a2, _⟩ := C59_list hN.accounts.reachable s s
    obtain ⟨p1, p2, _⟩ := C59_list hN.payees.reachable s s
    obtain ⟨c1, c2, _⟩ := C59_list hN.commodities.reachable s s
    refine ⟨a1, p1, c1, fun n hn => (a2 n).mpr (hN.accounts.kept n hn), fun n hn => (p2 n).mpr (hN.payees.kept n hn),
      fun n hn => (c2 n).mpr (hN.commodities.kept n hn), fun n hn => hN.accounts.only n ((a2 n).mp hn),
      fun n hn => hN.payees.only n ((p2 n).mp hn), fun n hn => hN.commodities.only n ((c2 n).mp hn), ?_, ?_, ?_⟩
    · intro n hu hd
      obtain ⟨m, m1, m2, m3⟩ := hN.accounts.added n hu hd
      obtain ⟨k, e, m4, m5⟩ := finds_mem m3
      exact ⟨m, (a2 m).mpr ⟨k, e, m4, m5⟩, m1, m2⟩
    · intro n hu hd
      obtain ⟨m, m1, m2, m3⟩ := hN.commodities.added n hu hd
      obtain ⟨k, e, m4, m5⟩ := finds_mem m3
      exact ⟨m, (c2 m).mpr ⟨k, e, m4, m5⟩, m1, m2⟩
    · intro n hu hd
      obtain ⟨m, m1, m2, m3⟩ := hN.payees.added n hu hd
      refine ⟨m, m1, m2, ?_⟩
      rcases m3 with ⟨_, m3⟩ | ⟨p, m3, _⟩
      · obtain ⟨k, e, m4, m5⟩ := finds_mem m3
        exact .inl ((p2 m).mpr ⟨k, e, m4, m5⟩)
      · exact .inr ⟨p, m3⟩

example : (accountsCommand (exRun exText) .id false "main".toList).toOption =
      some ["Cash".toList, "Food".toList, "Stock".toList] ∧
    (payeesCommand (exRun exText) .id false "main".toList).toOption = some ["Bar".toList, "Broker".toList] ∧
    (commoditiesCommand (exRun exText) .id false "main".toList).toOption = some ["ACME".toList, "EUR".toList] := by
  decide +kernel

/-! ### C89: the prices -/

/-- `prices` prints the prices of the directives, then the prices paid in postings, then the rates implied by the
transactions that exchange two commodities, each in the order of the journal or of the dates. -/
theorem C89_prices {r : Run} {skip : Bool} {path : Str} {pl : ParsedLedger} {out : List (Date × Cur × Money)}
    (h : r.journal path = .ok pl) (ha : pl.automated = []) (hr : pricesCommand r skip path = .ok out) :
    ∃ l given costs rates txns, NamesOf r.env pl l ∧
      out = (given ++ costs ++ rates.filterMap id).map (fun p => (p.date, p.commodity, .mk p.amount p.cur)) ∧
      List.Forall₂ (DirectivePrice r.env.lower l.commodities) pl.prices given ∧
      List.Forall₂ (fun c pr => CostPrice r.env.lower l.commodities c.1 c.2 pr) pl.costs costs ∧
      List.Forall₂ ImpliesRate txns rates ∧ ∃ L, r.ledger skip path = .ok L ∧ L.transactions = txns := by
  unfold pricesCommand at hr
  cases hl : r.ledger skip path with
  | error e => rw [hl] at hr; cases hr
  | ok L =>
    rw [hl] at hr
    cases hr
    have hl' := hl
    unfold Run.ledger at hl'
    rw [h] at hl'
    simp only at hl'
    cases ht : toLedger r.env r.orders skip pl with
    | error e => rw [ht] at hl'; cases hl'
    | ok L' =>
      rw [ht] at hl'; cases hl'
      obtain ⟨l, given, costs, rest, g1, g2, g3, g4⟩ := C25_prices ht
      obtain ⟨before, rates, k1, k2, k3⟩ := C26_implied_rates ht
      have hlen : (given ++ costs).length = before.length := by
        rw [List.length_append, ← g3.length_eq, ← g4.length_eq, k3 ha]
      have he : given ++ costs = before ∧ rest = rates.filterMap id :=
        List.append_inj (g2.symm.trans k1) hlen
      refine ⟨l, given, costs, rates, _, populate_names (C83_wellformed h).1.lists g1, ?_, g3, g4, k2, L, rfl, rfl⟩
      beta_reduce
      rw [k1, he.1]


example : (pricesCommand (exRun exText) false "main".toList).toOption.map (fun ps => ps.map Prod.snd) =
    some [("ACME".toList, .mk 25 "EUR".toList)] := by decide +kernel

end Dinero
