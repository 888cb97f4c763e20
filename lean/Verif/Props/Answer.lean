import Verif.Lemmas.Answer
import Verif.Props.Typing
/-
Property theorems about reports that always answer (C110).
-/
namespace Dinero

/-! ### C110: reports answer questions that make sense -/

theorem ledger_lift {r : Run} {skip : Bool} {path : Str} {pl : ParsedLedger} {only : Option Cur}
    {rules : List (Txn RawPosting × Ast)} (h : r.journal path = .ok pl) (hs : pl.Sound r.env only rules) :
    (∃ L, r.ledger skip path = .ok L) ∨ ∃ e, r.ledger skip path = .error (.fail (.error e)) :=
  (C108_no_panic h hs.totals hs.nodes hs.typed hs.single hs.serves).1 skip

/-- The register of a journal that makes sense answers every question that does, with any of `--real`, `--begin` and
`--end`, whenever the transactions can be booked; it never panics. -/
theorem C110_register {r : Run} {s : Nat → Shuf} {opts : ReportOpts} {skip : Bool} {path : Str} {pl : ParsedLedger}
    {only : Option Cur} {rules : List (Txn RawPosting × Ast)} (h : r.journal path = .ok pl)
    (hs : pl.Sound r.env only rules) (hq : SoundQuery r.env only opts.query) :
    (∃ lines, registerCommand r s opts skip path = .ok lines) ∨
      ∃ e, r.ledger skip path = .error (.fail (.error e)) ∧
        registerCommand r s opts skip path = .error (.fail (.error e)) := by
  rcases ledger_lift (skip := skip) h hs with ⟨L, hL⟩ | ⟨e, he⟩
  · obtain ⟨node, hn, ht⟩ := hq
    obtain ⟨k1, k2⟩ := ledger_rich h hs.totals hs.nodes hs.typed hs.single hs.serves hs.stated hL
    have hok := ledger_reachable h hL
    obtain ⟨st, hst⟩ := registerAll_typed (s := s) (o := opts.filter)
      (st := { commodities := L.commodities, payees := L.payees }) ht L.transactions k2 hok.payees hok.commodities k1
    refine .inl ⟨st.lines, ?_⟩
    unfold registerCommand registerReport
    simp only [hL, hn, hst]
    rfl
  · refine .inr ⟨e, he, ?_⟩
    unfold registerCommand
    rw [he]

/-- So does the balance report, in either form, with any date and any depth limit but nothing, and with amounts
converted at rates of which none is nothing. -/
theorem C110_balance {r : Run} {o : BalOrders} {today : Date} {opts : ReportOpts} {skip flat showTotal : Bool} {path : Str}
    {pl : ParsedLedger} {only : Option Cur} {rules : List (Txn RawPosting × Ast)} (h : r.journal path = .ok pl)
    (hs : pl.Sound r.env only rules) (hq : SoundQuery r.env only opts.query)
    (hd : flat = true → opts.depth ≠ none → opts.depth ≠ some 0 ∧ ∀ L, r.ledger skip path = .ok L → L.Named)
    (hx : opts.exchange ≠ none → ∀ L, r.ledger skip path = .ok L → ∀ p, Usable L.prices today p → p.amount ≠ 0) :
    (∃ rep, balanceCommand r o today opts skip flat showTotal path = .ok rep) ∨
      ∃ e, r.ledger skip path = .error (.fail (.error e)) ∧
        balanceCommand r o today opts skip flat showTotal path = .error (.fail (.error e)) := by
  rcases ledger_lift (skip := skip) h hs with ⟨L, hL⟩ | ⟨e, he⟩
  · obtain ⟨node, hn, ht⟩ := hq
    obtain ⟨k1, k2⟩ := ledger_rich h hs.totals hs.nodes hs.typed hs.single hs.serves hs.stated hL
    have hok := ledger_reachable h hL
    obtain ⟨bals, st, hc, hst⟩ := collectAll_typed (o := opts.filter) (bals := []) ht L.transactions k2 hok.commodities k1
    obtain ⟨sel, hsel, _, hcol⟩ := collected hc
    have hrows : ∃ rows, (if flat then flatRows o opts.depth bals else .ok (treeRows o bals) :
        Res (List (Str × Balance))) = .ok rows ∧ ∀ e ∈ rows, e.2.Canon := by
      cases flat with
      | false => exact ⟨_, rfl, treeRows_canon hcol.canon⟩
      | true =>
        refine flatRows_ok hcol.canon (fun d hdd e he hcut => ?_)
        obtain ⟨hd0, hnm⟩ := hd rfl (by rw [hdd]; simp)
        obtain ⟨x, hx, hxe⟩ := (hcol.mem e.1).mp (HMap.mem_keys_of_mem he)
        obtain ⟨t, ht, hxt⟩ := List.mem_flatMap.mp (hsel.mem x hx)
        obtain ⟨p, hp, rfl⟩ := List.mem_map.mp hxt
        obtain ⟨hne, hhead⟩ := hnm L hL t ht p hp
        rw [← hxe] at hcut
        rcases hcut with ⟨h0, _⟩ | ⟨_, _, h0⟩ | ⟨_, _, r, h0⟩
        · exact hd0 (by rw [hdd, h0])
        · exact hne h0.symm
        · exact hhead (by rw [h0]; rfl)
    obtain ⟨rows, hr1, hr2⟩ := hrows
    have htab : ∃ tab, exchangeTable r.env o today L st opts.exchange = .ok tab := by
      unfold exchangeTable
      cases hxe : opts.exchange with
      | none => exact ⟨_, rfl⟩
      | some x =>
        simp only
        rcases C32_get_total hst x with ⟨c, hg⟩ | hg
        · obtain ⟨ms, hm⟩ := conversion_total o.conv c.name today L.prices
            (fun p hp => hx (by rw [hxe]; simp) L hL p hp)
          simp only [hg, hm]
          exact ⟨_, rfl⟩
        · simp only [hg]
          exact ⟨_, rfl⟩
    obtain ⟨tab, htab⟩ := htab
    have hfin : ∃ rep, balanceReport r.env o today opts flat showTotal L = .ok rep := by
      unfold balanceReport
      simp only [hn, hc, hr1, htab]
      cases tab with
      | none => exact finishBalance_ok _ _ hcol.canon
      | some x =>
        obtain ⟨target, ms⟩ := x
        obtain ⟨rows', h1⟩ := convertRows_ok (s := o.convRow) (ms := ms) (target := target) rows hr2
        simp only [h1]
        exact finishBalance_ok _ _ hcol.canon
    obtain ⟨rep, hrep⟩ := hfin
    refine .inl ⟨rep, ?_⟩
    unfold balanceCommand
    simp only [hL, hrep]
    rfl
  · refine .inr ⟨e, he, ?_⟩
    unfold balanceCommand
    rw [he]

/-- Any words that are patterns of accounts make sense. -/
theorem C110_words {env : Env} {query : List Str} {only : Option Cur} (ha : env.AsciiSep) (hq : PlainQuery env query) :
    SoundQuery env only query := by
  match query, hq with
  | [], _ => exact ⟨none, by simp [queryNode, preprocessQuery], fun n hn => by cases hn⟩
  | [a], hq =>
    refine ⟨_, queryNode_one ha (hq a (by simp)), fun n hn => ?_⟩
    cases hn
    exact ⟨rfl, fun d _ c hc => by cases hc⟩
  | a :: c :: ps, hq =>
    refine ⟨_, queryNode_many ha (hq a (by simp)) (hq c (by simp)) (ps := ps) (fun p hp => hq p (by simp [hp])), fun n hn => ?_⟩
    cases hn
    exact ⟨rfl, fun d _ c hc => by cases hc⟩

theorem exTyped_sound : ∃ pl rules, (exRuleRun exTypedText).journal "main".toList = .ok pl ∧
    pl.Sound (exRuleRun exTypedText).env (some "EUR".toList) rules := by
  obtain ⟨pl, rules, h1, _, h2, _, h4, h5, h6, h7⟩ := exTyped_fits
  refine ⟨pl, rules, h1, h2, h4, h5, fun d hd => by cases hd; exact h6, h7, ?_⟩
  have key : ((exRuleRun exTypedText).journal "main".toList).toOption.map (fun pl =>
      decide (∀ t ∈ pl.regular, ∀ p ∈ t.postings, p.kind = .real)) = some true := by decide +kernel
  rw [h1] at key
  intro t ht p hp
  exact .inl (of_decide_eq_true (Option.some.inj key) t ht p hp)

/-- The journal of `exTypedText` makes sense, and so do an expression about amounts, and words about accounts, payees
and tags. -/
example : (∃ pl rules, (exRuleRun exTypedText).journal "main".toList = .ok pl ∧
      pl.Sound (exRuleRun exTypedText).env (some "EUR".toList) rules) ∧
    SoundQuery (exRuleRun exTypedText).env (some "EUR".toList) ["expr".toList, "abs(amount) > 10 EUR".toList] ∧
    SoundQuery (exRuleRun exTypedText).env (some "EUR".toList) ["@Bar".toList, "and".toList, "%tag".toList] ∧
    SoundQuery (exRuleRun exTypedText).env (some "EUR".toList) ["Food".toList, "Cash".toList] := by
  have hseen : ∀ q n, (match queryNode (exRuleRun exTypedText).env q with
        | .ok (some x) => decide (x = n)
        | _ => false) = true → n.HasType (exRuleRun exTypedText).env (some "EUR".toList) .bool →
      SoundQuery (exRuleRun exTypedText).env (some "EUR".toList) q := by
    intro q n hq ht
    split at hq
    · next x hx =>
      refine ⟨_, hx, fun m hm => ?_⟩
      cases hm
      rw [of_decide_eq_true hq]
      exact ht
    · cases hq
  refine ⟨?_, ?_, ?_, ?_⟩
  · exact exTyped_sound
  · refine hseen _ (.binary .gt (.unary .abs .amount) (.money "EUR".toList 10)) (by decide +kernel)
      ⟨by decide +kernel, fun d hd c hc => ?_⟩
    cases hd
    exact List.mem_singleton.mp hc
  · exact hseen _ (.binary .and (.binary .eq .payee (.regex "(?i)Bar".toList)) (.unary .hasTag (.regex "(?i)tag".toList)))
      (by decide +kernel) ⟨by decide +kernel, fun d hd c hc => by cases hc⟩
  · exact hseen _ (.binary .or (accountAst "Food".toList) (accountAst "Cash".toList))
      (by decide +kernel) ⟨by decide +kernel, fun d hd c hc => by cases hc⟩

/-- What the reports say of them. -/
example : (registerCommand (exRuleRun exTypedText) (fun _ => .id)
      { query := ["expr".toList, "abs(amount) > 10 EUR".toList] } false "main".toList).toOption.map
      (fun ls => ls.map (fun l : RegLine => (l.account, l.amount))) = some
      [("Food".toList, .mk 30 "EUR".toList), ("Cash".toList, .mk (-30) "EUR".toList),
       ("Budget".toList, .mk (-60) "EUR".toList), ("Envelope".toList, .mk (-30) "EUR".toList),
       ("Rest".toList, .mk 30 "EUR".toList)] ∧
    (balanceCommand (exRuleRun ("P 2020-01-01 EUR 2 USD\n" ++ exTypedText)) exOrders (dayNumber 2020 3 1)
      { query := ["Food".toList, "Cash".toList], depth := some 1, exchange := some "USD".toList } false true true
      "main".toList).toOption.map (fun rep => rep.lines) = some
      [⟨[.mk (-68) "USD".toList], 0, "Cash".toList⟩, ⟨[.mk 68 "USD".toList], 0, "Food".toList⟩] := by decide +kernel

/-- The restrictions are needed.  `check` accepts these journals, but the reports panic: a virtual posting without
amount; a question that compares different commodities, or that is not one; a depth of nothing; an account name that
starts with a colon; a rate that is nothing. -/
theorem C110_false :
    (∀ t ∈ ["2020-01-05 Bar\n Food  30 EUR\n Cash\n (X)\n", "2020-01-05 Bar\n :Food  30 EUR\n Cash\n",
        "P 2020-01-01 EUR 0 USD\n2020-01-05 Bar\n Food  30 EUR\n Cash\n"],
      checkCommand (exRuleRun t) "main".toList = .ok .ok) ∧
    (registerCommand (exRuleRun "2020-01-05 Bar\n Food  30 EUR\n Cash\n (X)\n") (fun _ => .id) {} false
      "main".toList).toOption.isNone = true ∧
    (∀ q ∈ ["amount > 3 USD", "amount"],
      (registerCommand (exRuleRun "2020-01-05 Bar\n Food  30 EUR\n Cash\n") (fun _ => .id)
        { query := ["expr".toList, q.toList] } false "main".toList).toOption.isNone = true) ∧
    (balanceCommand (exRuleRun "2020-01-05 Bar\n Food  30 EUR\n Cash\n") exOrders 0 { depth := some 0 } false true true
      "main".toList).toOption.isNone = true ∧
    (balanceCommand (exRuleRun "2020-01-05 Bar\n :Food  30 EUR\n Cash\n") exOrders 0 { depth := some 1 } false true true
      "main".toList).toOption.isNone = true ∧
    (balanceCommand (exRuleRun "P 2020-01-01 EUR 0 USD\n2020-01-05 Bar\n Food  30 EUR\n Cash\n") exOrders
      (dayNumber 2020 3 1) { exchange := some "EUR".toList } false false true "main".toList).toOption.isNone = true := by
  decide +kernel

end Dinero
