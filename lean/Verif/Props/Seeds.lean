import Verif.Lemmas.Seeds
import Verif.Props.Ledger
import Verif.Props.Commands
/-
Property theorems about reports and the orders of hash tables (C138).
-/
namespace Dinero

/-! ### C138: reports do not depend on the orders of hash tables, except for the order of amounts -/

theorem exchange_like {env : Env} {o o' : BalOrders} {today : Date} {l : Ledger} {st : Commodities} {exchange : Option Str}
    (hx : exchange = none ∨ ∃ val, Consistent l.prices today val) :
    Res.Alike TableLike (exchangeTable env o today l st exchange) (exchangeTable env o' today l st exchange) := by
  unfold exchangeTable
  cases exchange with
  | none => exact trivial
  | some x =>
    rcases hx with hx | ⟨val, hv⟩
    · cases hx
    · simp only
      cases st.get env.lower x with
      | error e =>
        cases e with
        | panic w => exact rfl
        | error w => exact trivial
      | ok c =>
        obtain ⟨ms, ms', h1, h2, h3⟩ := C37_consistent_prices_reproducible o.conv o'.conv c.name today l.prices val hv
        simp only [h1, h2]
        exact ⟨rfl, h3⟩

/-- Two reports of the same accounts. -/
theorem balance_like {env : Env} {o o' : BalOrders} {today : Date} {opts : ReportOpts} {flat total : Bool} {l : Ledger}
    {a b : Balances} {st : Commodities} (h : Twin a b)
    (hx : opts.exchange = none ∨ ∃ val, Consistent l.prices today val) :
    Res.Alike BalReport.Like
      (match (if flat then flatRows o opts.depth a else .ok (treeRows o a) : Res (List (Str × Balance))) with
      | .error e => .error e
      | .ok rows =>
        match exchangeTable env o today l st opts.exchange with
        | .error e => .error e
        | .ok none => finishBalance o flat total opts.depth a none rows
        | .ok (some (target, ms)) =>
          match convertRows o.convRow ms target rows with
          | .error e => .error e
          | .ok rows' => finishBalance o flat total opts.depth a (some (target, ms)) rows')
      (match (if flat then flatRows o' opts.depth b else .ok (treeRows o' b) : Res (List (Str × Balance))) with
      | .error e => .error e
      | .ok rows =>
        match exchangeTable env o' today l st opts.exchange with
        | .error e => .error e
        | .ok none => finishBalance o' flat total opts.depth b none rows
        | .ok (some (target, ms)) =>
          match convertRows o'.convRow ms target rows with
          | .error e => .error e
          | .ok rows' => finishBalance o' flat total opts.depth b (some (target, ms)) rows') := by
  have hr : Res.Alike RowsLike (if flat then flatRows o opts.depth a else .ok (treeRows o a))
      (if flat then flatRows o' opts.depth b else .ok (treeRows o' b)) := by
    cases flat with
    | true => exact flatRows_like h
    | false => exact treeRows_like h
  generalize (if flat then flatRows o opts.depth a else .ok (treeRows o a) : Res (List (Str × Balance))) = R at *
  generalize (if flat then flatRows o' opts.depth b else .ok (treeRows o' b) : Res (List (Str × Balance))) = R' at *
  have ht := exchange_like (env := env) (o := o) (o' := o') (st := st) hx
  generalize exchangeTable env o today l st opts.exchange = T at *
  generalize exchangeTable env o' today l st opts.exchange = T' at *
  match R, R', hr with
  | .error e, .error e', h => exact h
  | .ok r, .ok r', hr =>
    match T, T', ht with
    | .error e, .error e', h => exact h
    | .ok none, .ok none, k => exact finish_like h hr k
    | .ok (some (t, ms)), .ok (some (t', ms')), ⟨e, hm⟩ =>
      subst e
      obtain ⟨q, q', h1, h2, h3⟩ := convertRows_like hr hm t o.convRow o'.convRow
      simp only [h1, h2]
      exact finish_like h h3 ⟨rfl, hm⟩

/-- Two runs of the balance on the same ledger fail in the same way, or show the same, except for the order of the amounts
of an account and of the total; with `--exchange` if the prices do not contradict each other (otherwise see C40). -/
theorem C138_balance {env : Env} {o o' : BalOrders} {today : Date} {opts : ReportOpts} {flat total : Bool} {l : Ledger}
    (hx : opts.exchange = none ∨ ∃ val, Consistent l.prices today val) :
    Res.Alike BalReport.Like (balanceReport env o today opts flat total l) (balanceReport env o' today opts flat total l) := by
  unfold balanceReport
  cases queryNode env opts.query with
  | error e => exact rfl
  | ok node =>
    simp only
    cases hc : collectAll env opts.filter node l.transactions [] l.commodities with
    | error e => exact rfl
    | ok x =>
      obtain ⟨bals, st⟩ := x
      obtain ⟨sel, _, _, hcol⟩ := collected hc
      exact balance_like (hcol.twin hcol (List.Perm.refl _)) hx

/-- Two runs of the register fail in the same way, or show the same, except for the order of the amounts of running totals. -/
theorem C138_register {env : Env} {s s' : Nat → Shuf} {opts : ReportOpts} {l : Ledger} :
    Res.Alike (List.Forall₂ RegLine.Like) (registerReport env s opts l) (registerReport env s' opts l) := by
  unfold registerReport
  cases queryNode env opts.query with
  | error e => exact rfl
  | ok node =>
    simp only
    have k := registerAll_like (env := env) (s := s) (s' := s') (o := opts.filter) (node := node) l.transactions
      (st := { commodities := l.commodities, payees := l.payees }) ⟨rfl, rfl, rfl, .nil⟩
    generalize registerAll env s opts.filter node l.transactions { commodities := l.commodities, payees := l.payees } = X at *
    generalize registerAll env s' opts.filter node l.transactions { commodities := l.commodities, payees := l.payees } = Y at *
    match X, Y, k with
    | .error e, .error e', h => exact h
    | .ok x, .ok y, h => exact h.lines

/-- Every report of a ledger whose amounts are all of one commodity is short. -/
theorem balance_short {env : Env} {o : BalOrders} {today : Date} {opts : ReportOpts} {flat total : Bool} {l : Ledger}
    {c : Cur} {rep : BalReport} (hl : l.OneCommodity c) (hx : opts.exchange = none)
    (h : balanceReport env o today opts flat total l = .ok rep) : rep.Short := by
  obtain ⟨sel, bals, rows, ⟨node, st, _, hsel⟩, _, hcol, hrows, hfin⟩ := balanceReport_plain h hx
  have hb : Rowed c bals := rowed_collected hcol (fun x hxs m hm d hd => by
    obtain ⟨t, ht, hx'⟩ := List.mem_flatMap.mp (hsel.mem x hxs)
    obtain ⟨p, hp, rfl⟩ := List.mem_map.mp hx'
    exact hl t ht p hp m hm d hd)
  refine finish_short hb ?_ hfin
  cases flat with
  | true => exact rowed_flat hb hrows
  | false =>
    simp only [Bool.false_eq_true, if_false, Except.ok.injEq] at hrows
    rw [← hrows]; exact rowed_tree hb

/-- If all amounts are of one commodity, nothing depends on the orders of hash tables: the balance is the same … -/
theorem C138_one {env : Env} {o o' : BalOrders} {today : Date} {opts : ReportOpts} {flat total : Bool} {l : Ledger} {c : Cur}
    (hl : l.OneCommodity c) (hx : opts.exchange = none) :
    balanceReport env o today opts flat total l = balanceReport env o' today opts flat total l := by
  have k := C138_balance (env := env) (o := o) (o' := o') (today := today) (opts := opts) (flat := flat) (total := total)
    (l := l) (.inl hx)
  cases h : balanceReport env o today opts flat total l with
  | error e =>
    cases h' : balanceReport env o' today opts flat total l with
    | error e' => rw [h, h'] at k; exact congrArg _ k
    | ok r' => rw [h, h'] at k; exact k.elim
  | ok r =>
    cases h' : balanceReport env o' today opts flat total l with
    | error e' => rw [h, h'] at k; exact k.elim
    | ok r' => rw [h, h'] at k; exact congrArg _ (BalReport.Like.eq k (balance_short hl hx h))

/-- … and so is the register. -/
theorem C138_one_register {env : Env} {s s' : Nat → Shuf} {opts : ReportOpts} {l : Ledger} {c : Cur} (hl : l.OneCommodity c) :
    registerReport env s opts l = registerReport env s' opts l := by
  have k := C138_register (env := env) (s := s) (s' := s') (opts := opts) (l := l)
  cases h : registerReport env s opts l with
  | error e =>
    cases h' : registerReport env s' opts l with
    | error e' => rw [h, h'] at k; exact congrArg _ k
    | ok r' => rw [h, h'] at k; exact k.elim
  | ok r =>
    cases h' : registerReport env s' opts l with
    | error e' => rw [h, h'] at k; exact k.elim
    | ok r' =>
      rw [h, h'] at k
      refine congrArg _ (registerLike_eq k (fun line hline => ?_))
      obtain ⟨sel, ⟨node, st, _, hsel⟩, h1, h2⟩ := registerReport_spec h
      have ham : ∀ x ∈ r, ∀ d, d ≠ c → x.amount.amountIn d = 0 := by
        intro x hx d hd
        have : (x.account, x.kind, some x.amount) ∈ sel.map (fun x => (x.2.account, x.2.kind, x.2.amount)) := by
          rw [← h1]; exact List.mem_map_of_mem (f := fun l : RegLine => (l.account, l.kind, some l.amount)) hx
        obtain ⟨y, hy, he⟩ := List.mem_map.mp this
        obtain ⟨t, ht, hx'⟩ := List.mem_flatMap.mp (hsel.mem y hy)
        obtain ⟨p, hp, rfl⟩ := List.mem_map.mp hx'
        exact hl t ht p hp x.amount (by simp only [Prod.mk.injEq] at he; exact he.2.2) d hd
      obtain ⟨pre, post, hpp⟩ := List.append_of_mem hline
      rw [h2 pre line post hpp, List.length_map, ((s pre.length).perm _).length_eq]
      obtain ⟨_, g2, g3⟩ := registerFold_spec ((pre ++ [line]).map RegLine.amount) Balance.WF.nil
      rcases g3 (by simp) with ⟨_, g4⟩ | ⟨g4, _⟩
      · exact (congrArg List.length g4).le
      · refine Balance.Only.length (c := c) ⟨g4, fun d hd => ?_⟩
        refine (g2 d).trans ?_
        rw [Balance.amountOf_nil, zero_add]
        have : ∀ m ∈ (pre ++ [line]).map RegLine.amount, m.amountIn d = 0 := by
          intro m hm
          obtain ⟨x, hx, rfl⟩ := List.mem_map.mp hm
          refine ham x ?_ d hd
          rw [hpp]; simp only [List.mem_append, List.mem_cons, List.not_mem_nil, or_false] at hx ⊢
          rcases hx with hx | hx
          · exact .inl hx
          · exact .inr (.inl hx)
        generalize (pre ++ [line]).map RegLine.amount = ms at this
        induction ms with
        | nil => rfl
        | cons m ms ih =>
          have e : sumIn (m :: ms) d = m.amountIn d + sumIn ms d := by simp [sumIn]
          rw [e, this m (by simp), ih (fun x hx => this x (by simp [hx])), add_zero]

/-- Two runs of the program on a journal that leaves hash orders nothing to decide (C29) show the same balance, except for the
order of the amounts of an account and of the total, if all postings of a period are asked for. -/
theorem C138_runs {env : Env} {lo lo' : LedgerOrders} {o o' : BalOrders} {today : Date} {opts : ReportOpts} {flat total skip : Bool}
    {pl : ParsedLedger} {L L' : Ledger} {rep rep' : BalReport} (hok : pl.lists.Ok env.lower) (hf : OrderFree env pl)
    (hq : opts.query = []) (hx : opts.exchange = none) (h1 : toLedger env lo skip pl = .ok L)
    (h2 : toLedger env lo' skip pl = .ok L') (h3 : balanceReport env o today opts flat total L = .ok rep)
    (h4 : balanceReport env o' today opts flat total L' = .ok rep') : rep.Like rep' := by
  have hs := (C29_orders_partial lo lo' hok hf).2 L L' h1 h2
  have hn : queryNode env opts.query = .ok none := by rw [hq]; rfl
  obtain ⟨sel, bals, rows, ⟨n1, st, q1, s1⟩, _, k1, r1, f1⟩ := balanceReport_plain h3 hx
  obtain ⟨sel', bals', rows', ⟨n2, st', q2, s2⟩, _, k2, r2, f2⟩ := balanceReport_plain h4 hx
  rw [hn] at q1 q2
  cases q1
  cases q2
  have hp : (sel.map Prod.snd).Perm (sel'.map Prod.snd) := by
    rw [selects_kept s1, selects_kept s2]
    exact entries_same hs.transactions
  have ht := k1.twins k2 hp
  have hr : Res.Alike RowsLike (if flat then flatRows o opts.depth bals else .ok (treeRows o bals))
      (if flat then flatRows o' opts.depth bals' else .ok (treeRows o' bals')) := by
    cases flat with
    | true => exact flatRows_like ht
    | false => exact treeRows_like ht
  rw [r1, r2] at hr
  have k := finish_like (o := o) (o' := o') (flat := flat) (total := total) (depth := opts.depth) (table := none) (table' := none)
    ht hr trivial
  rw [f1, f2] at k
  exact k

/-- Two runs on such a journal (beside C29 it is shown that it is one): the missing amounts are filled in in different orders,
the balances are alike. -/
example :
    (toLedger exEnvT exHash false exFree).toOption.map (fun L => (balanceReport exEnvT exOrders 0 {} true true L).toOption.map
      (fun r => r.lines.map (fun x => (x.label, x.amounts)))) =
      some (some [("Bars".toList, [.mk 10 "EUR".toList]), ("Cash".toList, [.mk (-10) "EUR".toList, .mk (-5) "USD".toList]),
        ("Food".toList, [.mk 5 "USD".toList])]) ∧
    (toLedger exEnvT exHashRev false exFree).toOption.map (fun L => (balanceReport exEnvT exOrders 0 {} true true L).toOption.map
      (fun r => r.lines.map (fun x => (x.label, x.amounts)))) =
      some (some [("Bars".toList, [.mk 10 "EUR".toList]), ("Cash".toList, [.mk (-5) "USD".toList, .mk (-10) "EUR".toList]),
        ("Food".toList, [.mk 5 "USD".toList])]) := by
  decide +kernel

/-- Other orders than those of `exOrders`. -/
def exOtherOrders : BalOrders where
  own := .rev
  group := .rev
  total := .id
  accounts := .id
  roll := fun _ => .id
  rows := .id
  conv := ⟨.rev, .rev, .rev⟩
  convRow := fun _ => .rev
  shown := fun _ => .rev
  convTotal := .rev
  shownTotal := .rev

/-- The order of the amounts does depend on the hash order: the total of the ledger used in the examples is 2 ACME and −60 EUR,
or −60 EUR and 2 ACME, and so is the last running total of the register. -/
theorem C138_false :
    (balanceReport exEnv exOrders 0 {} false true exLedger).toOption.map BalReport.total =
      some (some [.mk (-60) "EUR".toList, .mk 2 "ACME".toList]) ∧
    (balanceReport exEnv exOtherOrders 0 {} false true exLedger).toOption.map BalReport.total =
      some (some [.mk 2 "ACME".toList, .mk (-60) "EUR".toList]) ∧
    (registerReport exEnv (fun _ => .id) {} exLedger).toOption.map (fun r => (r.map RegLine.running).getLast?) =
      some (some [.mk 2 "ACME".toList, .mk (-60) "EUR".toList]) ∧
    (registerReport exEnv (fun _ => .rev) {} exLedger).toOption.map (fun r => (r.map RegLine.running).getLast?) =
      some (some [.mk (-60) "EUR".toList, .mk 2 "ACME".toList]) := by
  decide +kernel

/-- The ledger used in the examples without its shares: all amounts are in euros, and the report is not empty. -/
example : exOne.OneCommodity "EUR".toList ∧
    (balanceReport exEnv exOtherOrders 0 {} false true exOne).toOption.map (fun r => r.lines.map (fun x => (x.label, x.amounts))) =
      some [("Assets:Cash".toList, [.mk 60 "EUR".toList]), ("Expenses".toList, [.mk 40 "EUR".toList]),
        ("Food".toList, [.mk 30 "EUR".toList]), ("Fun".toList, [.mk 10 "EUR".toList]), ("Income".toList, [.mk (-100) "EUR".toList])] := by
  refine ⟨?_, by decide +kernel⟩
  intro t ht p hp m hm d hd
  have : ∀ t ∈ exOne.transactions, ∀ p ∈ t.postings, p.amount.map Money.commodity = some (some "EUR".toList) := by decide +kernel
  have k := this t ht p hp
  rw [hm] at k
  cases m with
  | zero => rfl
  | mk a e =>
    have he : e = "EUR".toList := Option.some.inj (Option.some.inj k)
    subst he
    simp only [Money.amountIn, Money.commodity, Option.some.injEq]
    exact if_neg (fun h => hd h.symm)

end Dinero
