import Verif.Lemmas.Typing
import Verif.Lemmas.Columns
/-
Lemmas about reports that always answer.
-/
namespace Dinero

/-! ### What every posting of a ledger has -/

theorem balanced_rich {skip : Bool} {σ ρ : Nat → Shuf} {bals : Balances} {ts ts' : List (Txn Posting)} {prs : List Price}
    {only : Option Cur} {factor : Prop} (hb : bals.Ok) (hc : ∀ t ∈ ts, ∀ p ∈ t.postings, p.CostOk)
    (hr : ∀ t ∈ ts, t.date.isSome ∧ ∀ q ∈ t.postings, Rich True factor only q)
    (h : balancePass skip σ ρ bals ts = .ok (ts', prs)) :
    ∀ t ∈ ts', t.date.isSome ∧ ∀ q ∈ t.postings, Rich True False only q := by
  obtain ⟨_, _, _, bals', rs, h1, rfl⟩ := balancePass_spec ts hb hc h
  have hpay := balanceAll_payee ts hb hc (fun t ht p hp => ((hr t ht).2 p hp).payee) h1
  have hbk := bookedAs_of_balanceAll ts hb hc h1
  have hfull := hbk.full (fun t ht p hp _ => by
    obtain ⟨m, hm, _⟩ := ((hr t ht).2 p hp).amount trivial
    rw [hm]; rfl)
  intro t ht
  obtain ⟨t0, ht0, e1, e2⟩ := Forall₂.mem_right hfull ht
  refine ⟨by rw [e1]; exact (hr t0 ht0).1, fun q hq => ?_⟩
  obtain ⟨p, hp, _, _, s3, _, _⟩ := Forall₂.mem_right e2 hq
  have hp0 : p ∈ t0.postings := by
    rcases List.mem_append.mp hp with hp | hp <;> exact (List.mem_filter.mp hp).1
  have hR := (hr t0 ht0).2 p hp0
  exact ⟨hpay t ht q hq, by rw [s3]; exact hR.amount, fun h => h.elim, by rw [s3]; exact hR.money⟩

/-- Every posting of the ledger has a payee and an amount, in the only commodity if there is one. -/
theorem ledger_rich {r : Run} {path : Str} {pl : ParsedLedger} {rules : List (Txn RawPosting × Ast)} {only : Option Cur}
    {skip : Bool} {L : Ledger} (h : r.journal path = .ok pl) (hz : pl.NoFreeTotals)
    (hn : RuleNodes r.env pl.automated rules) (ht : ∀ x ∈ rules, TypedRule r.env only x)
    (ho : ∀ d, only = some d → pl.OnlyIn r.env d) (hf : pl.Serves rules)
    (hv : ∀ t ∈ pl.regular, ∀ p ∈ t.postings, p.kind = .real ∨ p.moneyCurrency.isSome)
    (hl : r.ledger skip path = .ok L) :
    Known r.env only L.commodities ∧ ∀ t ∈ L.transactions, t.date.isSome ∧ ∀ q ∈ t.postings, Rich True False only q := by
  have hwf := C83_wellformed h
  obtain ⟨l, listed, ts, h1, hlok, _, h2, h3, h4, h5⟩ := toLedger_steps (o := r.orders) hwf.1 hz
  obtain ⟨s1, s2⟩ := h5 skip
  have hL : toLedger r.env r.orders skip pl = .ok L := by
    unfold Run.ledger at hl
    rw [h] at hl
    simp only at hl
    cases ht : toLedger r.env r.orders skip pl with
    | error e => rw [ht] at hl; cases hl
    | ok L' => rw [ht] at hl; cases hl; rfl
  cases hb : balancePass skip r.orders.fill r.orders.rate (initialBalances l.accounts) ts with
  | error e => rw [s1 e hb] at hL; cases hL
  | ok x =>
    obtain ⟨booked, prs⟩ := x
    obtain ⟨hbk, hcost⟩ := Booked.of_pass h h1 hlok h2 h3 h4 hb
    obtain ⟨s3, s4⟩ := s2 booked prs hb
    cases ha : automatedPass r.env r.orders skip pl.automated booked l with
    | error e => rw [s3 e ha] at hL; cases hL
    | ok y =>
      obtain ⟨L', hL', e1, e2⟩ := s4 y ha
      rw [hL] at hL'; cases hL'
      have e3 : L.commodities = y.2.2.commodities := by rw [← e2]
      rw [e1, e3]
      unfold automatedPass at ha
      split at ha
      · rw [ruleNodes_of hn] at ha
        simp only at ha
        obtain ⟨⟨applied, names⟩, g1, g2, g3⟩ := booked_typed (asks := True) h hn ht ho hf (fun _ => trivial) (fun _ => hv) hbk
        rw [g1] at ha
        simp only at ha
        obtain ⟨hR, _⟩ := automate_spec booked g1
        split at ha
        · cases ha
        · next ts2 prs2 hb2 =>
          cases ha
          refine ⟨g2, balanced_rich (initialBalances_ok _) (fun t ht p hp => ?_) g3 hb2⟩
          obtain ⟨t0, ht0, hR1⟩ := Forall₂.mem_right hR ht
          exact hR1.costOk (hcost t0 ht0) p hp
      · cases ha
        obtain ⟨g1, g2⟩ := booked_rich (asks := True) (factor := False) ho (fun h => h.elim) (fun _ => hv) hbk
        exact ⟨g1, fun t ht => ⟨hbk.dated t ht, g2 t ht⟩⟩

/-! ### Queries that make sense -/

theorem filterPosting_typed {env : Env} {o : FilterOpts} {node : Option Ast} {asks factor : Prop} {only : Option Cur}
    {t : Txn Posting} {p : Posting} {st : Commodities} (hn : ∀ n, node = some n → n.HasType env only .bool) (ha : asks)
    (hd : t.date.isSome) (ht : ∀ q ∈ t.postings, Rich asks factor only q) (hp : Rich asks factor only p)
    (hr : st.Reachable env.lower) (hk : Known env only st) :
    ∃ b st', filterPosting env o node t p st = .ok (b, st') ∧ st'.Reachable env.lower ∧ Known env only st' := by
  cases node with
  | none =>
    obtain ⟨b, hb⟩ := filterPosting_ok (env := env) (o := o) hd p st
    exact ⟨b, st, hb, hr, hk⟩
  | some n =>
    obtain ⟨b, st', hb, h1, h2⟩ := filter_typed (hn n rfl) (fun _ => ha) hd ht hp hr hk
    obtain ⟨d, hd⟩ := Option.isSome_iff_exists.mp hd
    unfold filterPosting
    rw [hd]
    split
    · exact ⟨_, _, rfl, hr, hk⟩
    · cases o.toDate with
      | none =>
        cases o.fromDate with
        | none => exact ⟨b, st', hb, h1, h2⟩
        | some x =>
          simp only
          cases hx : decide (d < x) with
          | true => exact ⟨_, _, rfl, hr, hk⟩
          | false => exact ⟨b, st', hb, h1, h2⟩
      | some y =>
        simp only
        cases hy : decide (d ≥ y) with
        | true => exact ⟨_, _, rfl, hr, hk⟩
        | false =>
          cases o.fromDate with
          | none => exact ⟨b, st', hb, h1, h2⟩
          | some x =>
            simp only
            cases hx : decide (d < x) with
            | true => exact ⟨_, _, rfl, hr, hk⟩
            | false => exact ⟨b, st', hb, h1, h2⟩

theorem collectPostings_typed {env : Env} {o : FilterOpts} {node : Option Ast} {factor : Prop} {only : Option Cur}
    {t : Txn Posting} (hn : ∀ n, node = some n → n.HasType env only .bool)
    (hd : t.date.isSome) (ht : ∀ q ∈ t.postings, Rich True factor only q) (ps : List Posting)
    (hp : ∀ p ∈ ps, Rich True factor only p) {bals : Balances} {st : Commodities}
    (hr : st.Reachable env.lower) (hk : Known env only st) :
    ∃ r st', collectPostings env o node t ps bals st = .ok (r, st') ∧ st'.Reachable env.lower ∧ Known env only st' := by
  induction ps generalizing bals st with
  | nil => exact ⟨_, _, rfl, hr, hk⟩
  | cons p ps ih =>
    obtain ⟨b, st1, h1, h2, h3⟩ := filterPosting_typed (o := o) hn trivial hd ht (hp p (by simp)) hr hk
    obtain ⟨m, hm, _⟩ := (hp p (by simp)).amount trivial
    have ih := fun bals => ih (bals := bals) (fun q hq => hp q (by simp [hq])) h2 h3
    unfold collectPostings
    rw [h1]
    cases b with
    | false => exact ih _
    | true => simp only [collectPosting, hm]; exact ih _

theorem collectAll_typed {env : Env} {o : FilterOpts} {node : Option Ast} {factor : Prop} {only : Option Cur}
    (hn : ∀ n, node = some n → n.HasType env only .bool) (ts : List (Txn Posting))
    (ht : ∀ t ∈ ts, t.date.isSome ∧ ∀ q ∈ t.postings, Rich True factor only q) {bals : Balances} {st : Commodities}
    (hr : st.Reachable env.lower) (hk : Known env only st) :
    ∃ r st', collectAll env o node ts bals st = .ok (r, st') ∧ st'.Reachable env.lower := by
  induction ts generalizing bals st with
  | nil => exact ⟨_, _, rfl, hr⟩
  | cons t ts ih =>
    obtain ⟨b, st1, h1, h2, h3⟩ := collectPostings_typed (o := o) hn (ht t (by simp)).1 (ht t (by simp)).2 t.postings
      (ht t (by simp)).2 hr hk
    unfold collectAll
    rw [h1]
    exact ih (fun u hu => ht u (by simp [hu])) h2 h3

theorem registerPostings_typed {env : Env} {s : Nat → Shuf} {o : FilterOpts} {node : Option Ast} {factor : Prop}
    {only : Option Cur} {t : Txn Posting} (hn : ∀ n, node = some n → n.HasType env only .bool)
    (hd : t.date.isSome) (ht : ∀ q ∈ t.postings, Rich True factor only q) (ps : List Posting)
    (hp : ∀ p ∈ ps, Rich True factor only p) {counter : Nat} {st : RegState} (hpay : st.payees.Reachable env.lower)
    (hr : st.commodities.Reachable env.lower) (hk : Known env only st.commodities) :
    ∃ r, registerPostings env s o node t ps counter st = .ok r ∧ r.payees.Reachable env.lower ∧
      r.commodities.Reachable env.lower ∧ Known env only r.commodities := by
  induction ps generalizing counter st with
  | nil => exact ⟨_, rfl, hpay, hr, hk⟩
  | cons p ps ih =>
    obtain ⟨b, c, h1, h2, h3⟩ := filterPosting_typed (o := o) hn trivial hd ht (hp p (by simp)) hr hk
    obtain ⟨m, hm, _⟩ := (hp p (by simp)).amount trivial
    have ih := fun k (st : RegState) => ih (counter := k) (st := st) (fun q hq => hp q (by simp [hq]))
    unfold registerPostings
    rw [h1]
    cases b with
    | false => exact ih counter _ hpay h2 h3
    | true =>
      obtain ⟨d, hd⟩ := Option.isSome_iff_exists.mp hd
      obtain ⟨⟨payee, payees⟩, g1, g2⟩ := getPayee_ok (env := env) t hpay
      by_cases hc : counter = 0
      · simp only [registerPosting, hc, hd, g1, hm, if_true]
        exact ih _ _ g2 h2 h3
      · simp only [registerPosting, hc, hm, if_false]
        exact ih _ _ hpay h2 h3

theorem registerAll_typed {env : Env} {s : Nat → Shuf} {o : FilterOpts} {node : Option Ast} {factor : Prop}
    {only : Option Cur} (hn : ∀ n, node = some n → n.HasType env only .bool) (ts : List (Txn Posting))
    (ht : ∀ t ∈ ts, t.date.isSome ∧ ∀ q ∈ t.postings, Rich True factor only q) {st : RegState}
    (hpay : st.payees.Reachable env.lower) (hr : st.commodities.Reachable env.lower) (hk : Known env only st.commodities) :
    ∃ r, registerAll env s o node ts st = .ok r := by
  induction ts generalizing st with
  | nil => exact ⟨_, rfl⟩
  | cons t ts ih =>
    obtain ⟨r, h1, h2, h3, h4⟩ := registerPostings_typed (s := s) (o := o) (counter := 0) hn (ht t (by simp)).1
      (ht t (by simp)).2 t.postings (ht t (by simp)).2 hpay hr hk
    unfold registerAll
    rw [h1]
    exact ih (fun u hu => ht u (by simp [hu])) h2 h3 h4

/-! ### Balances that can be shown -/

theorem insert_canon {nb : Balances} {a : Str} {b : Balance} (h : ∀ e ∈ nb, e.2.Canon) (hb : b.Canon) :
    ∀ e ∈ HMap.insert nb a b, e.2.Canon := by
  intro e he
  induction nb with
  | nil =>
    obtain rfl := List.mem_singleton.mp he
    exact hb
  | cons x nb ih =>
    obtain ⟨k, v⟩ := x
    unfold HMap.insert at he
    split at he
    · rcases List.mem_cons.mp he with rfl | he
      · exact hb
      · exact h e (by simp [he])
    · rcases List.mem_cons.mp he with rfl | he
      · exact h _ (by simp)
      · exact ih (fun e he => h e (by simp [he])) he

theorem treeRows_canon {o : BalOrders} {bals : Balances} (h : ∀ e ∈ bals, e.2.Canon) : ∀ e ∈ treeRows o bals, e.2.Canon := by
  have hown : ∀ (l : List (Str × Balance)) (acc : Balances), (∀ e ∈ l, e.2.Canon) → (∀ e ∈ acc, e.2.Canon) →
      ∀ e ∈ l.foldl (fun acc e => HMap.insert acc e.1 e.2) acc, e.2.Canon := by
    intro l
    induction l with
    | nil => intro acc _ ha; exact ha
    | cons x l ih =>
      intro acc hl ha
      exact ih _ (fun e he => hl e (by simp [he])) (insert_canon ha (hl x (by simp)))
  have hroll : ∀ (l : List Str) (acc : Balances), (∀ e ∈ acc, e.2.Canon) →
      ∀ e ∈ l.foldl (rollStep o.roll) acc, e.2.Canon := by
    intro l
    induction l with
    | nil => intro acc ha; exact ha
    | cons x l ih =>
      intro acc ha
      refine ih _ (insert_canon ha (canon_foldl _ _ Balance.Canon.nil (fun e he => ?_)))
      exact (ha e (((o.roll x).perm acc).mem_iff.mp (List.mem_filter.mp he).1)).toWF
  intro e he
  have he := (List.mem_filter.mp he).1
  refine hroll _ _ ?_ e ((o.rows.perm _).mem_iff.mp he)
  unfold ownBalances
  refine hown _ _ (fun e he => h e ?_) (fun e he => absurd he (by simp))
  exact (o.own.perm bals).mem_iff.mp he

theorem convertBalance_ok {s : Shuf} {ms : HMap Cur Rat} {target : Cur} {b : Balance} (hb : b.Canon) :
    ∃ out, convertBalance s b ms target = .ok out := by
  have hp := s.perm b
  have hn := Canon.reports hb
  obtain ⟨out, h1, _⟩ := convertLoop_spec ms target (s.run b)
    (fun e he h0 => hn (h0 ▸ HMap.mem_keys_of_mem (hp.mem_iff.mp he)))
    (fun e he => hb.toWF.key e (hp.mem_iff.mp he)) Balance.new Balance.WF.nil
  exact ⟨out, h1⟩

theorem convertRows_ok {s : Str → Shuf} {ms : HMap Cur Rat} {target : Cur} (rows : List (Str × Balance))
    (h : ∀ e ∈ rows, e.2.Canon) : ∃ rows', convertRows s ms target rows = .ok rows' := by
  induction rows with
  | nil => exact ⟨_, rfl⟩
  | cons x rows ih =>
    obtain ⟨name, b⟩ := x
    obtain ⟨out, h1⟩ := convertBalance_ok (s := s name) (ms := ms) (target := target) (h (name, b) (by simp))
    obtain ⟨rest, h2⟩ := ih (fun e he => h e (by simp [he]))
    unfold convertRows
    simp only [h1, h2]
    exact ⟨_, rfl⟩

theorem flatRows_ok {o : BalOrders} {depth : Option Nat} {bals : Balances} (h : ∀ e ∈ bals, e.2.Canon)
    (hd : ∀ d, depth = some d → ∀ e ∈ bals, ¬ CutTo d e.1 []) :
    ∃ rows, flatRows o depth bals = .ok rows ∧ ∀ e ∈ rows, e.2.Canon := by
  unfold flatRows
  cases depth with
  | none => exact ⟨_, rfl, fun e he => h e ((o.own.perm bals).mem_iff.mp (List.mem_filter.mp he).1)⟩
  | some d =>
    simp only
    have hmem : ∀ e ∈ sortBy (fun a b : Str × Balance => strLe a.1 b.1)
        (((o.group.run bals).filter (fun e => !e.2.isZero)).map (fun e => (joinColon ((splitColon e.1).take d), e.2))),
        ∃ x ∈ bals, e = (joinColon ((splitColon x.1).take d), x.2) := by
      intro e he
      obtain ⟨x, hx, rfl⟩ := List.mem_map.mp ((mem_sortBy _ _ _).mp he)
      exact ⟨x, (o.group.perm bals).mem_iff.mp (List.mem_filter.mp hx).1, rfl⟩
    rcases mergeLoop_start _ (sortBy_sorted nameLe_total _) (fun e he => by
        obtain ⟨x, hx, rfl⟩ := hmem e he
        exact h x hx) with ⟨⟨e, he, hz⟩, _⟩ | ⟨_, r, h1, _, h3, _⟩
    · obtain ⟨x, hx, rfl⟩ := hmem e he
      exact absurd ((cut_iff d x.1 []).mp hz) (hd d rfl x hx)
    · exact ⟨r, h1, h3⟩

theorem finishBalance_ok {o : BalOrders} {flat showTotal : Bool} {depth : Option Nat} {bals : Balances}
    (table : Option (Cur × HMap Cur Rat)) (rows : List (Str × Balance)) (h : ∀ e ∈ bals, e.2.Canon) :
    ∃ rep, finishBalance o flat showTotal depth bals table rows = .ok rep := by
  have hg : (grandTotal o.total bals).Canon :=
    canon_foldl _ _ Balance.Canon.nil (fun e he => (h e ((o.total.perm bals).mem_iff.mp he)).toWF)
  unfold finishBalance
  simp only
  split
  · cases table with
    | none => exact ⟨_, rfl⟩
    | some x =>
      obtain ⟨target, ms⟩ := x
      simp only
      split
      · next e he =>
        split at he
        · obtain ⟨out, h1⟩ := convertBalance_ok (s := o.convTotal) (ms := ms) (target := target) hg
          rw [h1] at he; cases he
        · cases he
      · exact ⟨_, rfl⟩
  · exact ⟨_, rfl⟩

end Dinero
