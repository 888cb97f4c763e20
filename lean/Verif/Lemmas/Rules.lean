import Verif.Lemmas.Text
import Verif.Spec.Rules
import Verif.Props.Commands
/-
Helper lemmas for journals with automated transactions.
-/
namespace Dinero

theorem bookedAs_of_balanceAll {skip : Bool} (ts : List (Txn Posting)) {σ : Nat → Shuf} {bals bals' : Balances}
    {rs : List (Txn Posting × Balance)} (hb : bals.Ok) (hp : ∀ t ∈ ts, ∀ p ∈ t.postings, p.CostOk)
    (h : balanceAll skip σ bals ts = .ok (bals', rs)) : BookedAs skip (balAmt bals) ts (rs.map Prod.fst) := by
  induction ts generalizing σ bals rs with
  | nil => cases h; exact .nil
  | cons t ts ih =>
    unfold balanceAll at h
    split at h
    · cases h
    · next b1 t1 r1 h1 =>
      split at h
      · cases h
      · next b2 rest h2 =>
        cases h
        obtain ⟨es, e1, e2, e3, e4⟩ := enters_of_balance h1 hb (hp t (by simp))
        obtain ⟨res, gen, hB⟩ := balance_spec h1 hb (hp t (by simp))
        refine .cons e1 (balance_header h1) e2 ?_
        have : (fun a c => balAmt bals a c + postedTo es a c) = balAmt b1 := by
          funext a c; exact (e4 a c).symm
        rw [this]
        exact ih hB.balsOk (fun u hu => hp u (by simp [hu])) h2

theorem balanceAll_amounts {skip : Bool} (ts : List (Txn Posting)) {σ : Nat → Shuf} {bals bals' : Balances}
    {rs : List (Txn Posting × Balance)} (hb : bals.Ok) (hp : ∀ t ∈ ts, ∀ p ∈ t.postings, p.CostOk)
    (h : balanceAll skip σ bals ts = .ok (bals', rs)) : ∀ t ∈ rs.map Prod.fst, AllAmounts t.postings := by
  intro t' ht'
  obtain ⟨t, ht, s, b, b', ret, h1, h2⟩ := Forall₂.mem_right (balanceAll_each ts hb hp h) ht'
  obtain ⟨res, gen, hB⟩ := balance_spec h1 h2 (hp t ht)
  intro p hpm hk
  exact (hB.allAmounts p hpm hk).2.1

/-- The entries of all transactions, one after the other. -/
theorem BookedAs.entries {skip : Bool} {start : Str → Cur → Rat} {ts ts' : List (Txn Posting)}
    (h : BookedAs skip start ts ts') : ∃ es, EntersAll skip start ts es ∧
      List.Forall₂ SameEntry es (ts'.flatMap (fun t => t.postings)) := by
  induction h with
  | nil => exact ⟨[], .nil, .nil⟩
  | cons h1 _ h3 _ ih =>
    obtain ⟨es, e1, e2⟩ := ih
    exact ⟨_, .cons h1 e1, by rw [List.flatMap_cons]; exact forall₂_append h3 e2⟩

/-- What rules leave of a transaction, and what they add. -/
theorem RulesOn.parts {env : Env} {l : Lists} {rules : List (Txn RawPosting × Ast)} {t t' : Txn Posting}
    (h : RulesOn env l rules t t') :
    ∃ own extra, t' = { t with postings := own ++ extra } ∧ List.Forall₂ SameUpToTags t.postings own ∧
      ∀ q ∈ extra, ∃ r ∈ rules, ∃ rp ∈ r.1.postings, ∃ p ∈ t.postings, ∃ u p',
        SameUpToTags p p' ∧ Generated env l u p' rp q := by
  obtain ⟨own, blocks, h1, h2, h3⟩ := C27_append h
  refine ⟨own, blocks.flatMap List.flatten, h1, h2, ?_⟩
  intro q hq
  obtain ⟨row, hrow, hq⟩ := List.mem_flatMap.mp hq
  obtain ⟨block, hblock, hq⟩ := List.mem_flatten.mp hq
  obtain ⟨r, hr, hrr⟩ := Forall₂.mem_right h3 hrow
  obtain ⟨p, hp, hpb⟩ := Forall₂.mem_right hrr hblock
  rcases hpb with rfl | ⟨_, u, p', hs, hall⟩
  · cases hq
  · obtain ⟨rp, hrp, hg⟩ := Forall₂.mem_right hall hq
    exact ⟨r, hr, rp, hrp, p, hp, u, p', hs, hg⟩

theorem RulesOn.amounts {env : Env} {l : Lists} {rules : List (Txn RawPosting × Ast)} {t t' : Txn Posting}
    (h : RulesOn env l rules t t') (hp : AllAmounts t.postings) : AllAmounts t'.postings := by
  obtain ⟨own, extra, h1, h2, h3⟩ := h.parts
  rw [h1]
  intro q hq hk
  rcases List.mem_append.mp hq with hq | hq
  · obtain ⟨p, hpm, hs⟩ := Forall₂.mem_right h2 hq
    have h0 := hp p hpm (by rw [hs.1] at hk; exact hk)
    rw [hs.1]; exact h0
  · obtain ⟨r, _, rp, _, p, _, u, p', _, hg⟩ := h3 q hq
    obtain ⟨m, hm, _⟩ := hg.amount
    rw [hm]; rfl

theorem RulesOn.noSales {env : Env} {l : Lists} {rules : List (Txn RawPosting × Ast)} {t t' : Txn Posting}
    (h : RulesOn env l rules t t') {k : Kind} (hp : NoNegPerUnit k t.postings) : NoNegPerUnit k t'.postings := by
  obtain ⟨own, extra, h1, h2, h3⟩ := h.parts
  rw [h1]
  intro q hq hk u m hc hm
  rcases List.mem_append.mp hq with hq | hq
  · obtain ⟨p, hpm, hs⟩ := Forall₂.mem_right h2 hq
    rw [hs.1] at hk hc hm
    exact hp p hpm hk u m hc hm
  · obtain ⟨r, _, rp, _, p, _, u', p', _, hg⟩ := h3 q hq
    rw [hg.rest.2.2.1] at hc; cases hc

theorem Posts.real {skip : Bool} {start : Str → Cur → Rat} {ps qs : List Posting} (h : Posts skip start ps qs) :
    ∀ q ∈ qs, q.kind = .real := by
  induction h with
  | nil => intro q hq; cases hq
  | other _ _ ih => exact ih
  | elided _ _ ih => exact ih
  | given hk _ _ _ ih =>
    intro q hq
    rcases List.mem_cons.mp hq with rfl | hq
    · exact hk
    · exact ih q hq
  | assigned hk _ _ _ _ _ _ ih =>
    intro q hq
    rcases List.mem_cons.mp hq with rfl | hq
    · exact hk
    · exact ih q hq

theorem BookedAs.noSales {skip : Bool} {start : Str → Cur → Rat} {ts ts' : List (Txn Posting)}
    (h : BookedAs skip start ts ts') (hn : ∀ t ∈ ts, NoNegPerUnit .virtBal t.postings) :
    ∀ t ∈ ts', NoNegPerUnit .virtBal t.postings := by
  induction h with
  | nil => intro t ht; cases ht
  | @cons start t es t' ts ts' h1 _ h3 _ ih =>
    intro u hu
    rcases List.mem_cons.mp hu with rfl | hu
    · intro q hq hk c m hc hm
      obtain ⟨p, hpm, s1, s2, s3, s4, s5⟩ := Forall₂.mem_right h3 hq
      obtain ⟨qs, gen, g1, rfl, g3⟩ := h1
      rw [s2] at hk; rw [s3] at hm; rw [s4] at hc
      rcases List.mem_append.mp hpm with hpm | hpm
      · exfalso
        rcases List.mem_append.mp hpm with hpm | hpm
        · have hr := g1.real
          rw [hr p hpm] at hk; cases hk
        · rcases g3 with ⟨_, _, rfl⟩ | ⟨_, _, g4, _⟩
          · cases hpm
          · rw [(g4 p hpm).1] at hk; cases hk
      · exact hn t (by simp) p (List.mem_filter.mp hpm).1 hk c m hc hm
    · exact ih (fun t ht => hn t (by simp [ht])) u hu

/-- When all amounts are there, what balancing accepts. -/
theorem accepted_of_balanceAll {skip : Bool} (ts : List (Txn Posting)) {σ : Nat → Shuf} {bals bals' : Balances}
    {rs : List (Txn Posting × Balance)} (hb : bals.Ok) (hp : ∀ t ∈ ts, ∀ p ∈ t.postings, p.CostOk)
    (hall : ∀ t ∈ ts, AllAmounts t.postings) (h : balanceAll skip σ bals ts = .ok (bals', rs)) :
    (∀ t ∈ ts, MayBalance (weightOf .real t.postings) ∧
      (NoNegPerUnit .virtBal t.postings → MayBalance (weightOf .virtBal t.postings))) ∧
      (skip = true ∨ AssertionsHold (balAmt bals) (ts.flatMap (fun t => t.postings))) := by
  induction ts generalizing σ bals rs with
  | nil => exact ⟨by simp, .inr (by intro pre q post hq; simp at hq)⟩
  | cons t ts ih =>
    unfold balanceAll at h
    split at h
    · cases h
    · next b1 t1 r1 h1 =>
      split at h
      · cases h
      · next b2 rest h2 =>
        cases h
        obtain ⟨es, e1, e2, e3, e4⟩ := enters_of_balance h1 hb (hp t (by simp))
        obtain ⟨res, gen, hB⟩ := balance_spec h1 hb (hp t (by simp))
        obtain ⟨i1, i2⟩ := ih hB.balsOk (fun u hu => hp u (by simp [hu])) (fun u hu => hall u (by simp [hu])) h2
        have hfull := hall t (by simp)
        have hne : ∀ p ∈ t.postings, ¬ p.elided skip := by
          intro p hpm he
          have := hfull p hpm he.1
          rw [he.2.1] at this; cases this
        obtain ⟨qs, gen', g1, g2, g3⟩ := e1
        obtain ⟨rfl, g5⟩ := (posts_full t.postings hfull).mp g1
        have hgen : gen' = [] ∧ MayBalance (weightOf .real t.postings) := by
          rcases g3 with ⟨_, g6, g7⟩ | ⟨p, hp', _⟩
          · refine ⟨g7, ?_⟩
            have : weightOf .real (t.postings.filter (fun p => p.kind = .real)) = weightOf .real t.postings := by
              funext c
              unfold weightOf
              rw [List.filter_filter]
              simp
            rwa [this] at g6
          · have hm : p ∈ t.postings.filter (fun p => p.elided skip) := by rw [hp']; simp
            obtain ⟨hm1, hm2⟩ := List.mem_filter.mp hm
            exact absurd (of_decide_eq_true hm2) (hne p hm1)
        refine ⟨?_, ?_⟩
        · intro u hu
          rcases List.mem_cons.mp hu with rfl | hu
          · exact ⟨hgen.2, fun hn => (totalBalance_virt_iff .virtBal u.postings (hp u (by simp)) hn).mp hB.virt⟩
          · exact i1 u hu
        · rcases g5 with g5 | g5
          · exact .inl g5
          · rcases i2 with i2 | i2
            · exact .inl i2
            · right
              rw [List.flatMap_cons, AssertionsHold.append_iff]
              refine ⟨g5, ?_⟩
              have : (fun a c => balAmt bals a c + postedTo t.postings a c) = balAmt b1 := by
                funext a c
                rw [e4, g2, hgen.1, List.append_nil]
                congr 1
                unfold postedTo
                rw [List.filter_append, List.filter_filter, List.filter_filter]
                rw [show List.filter (fun x : Posting => decide (x.kind = .real ∧ x.account = a) && decide (x.kind ≠ .real))
                  t.postings = [] from by rw [List.filter_eq_nil_iff]; intro q _; simp; tauto]
                rw [List.append_nil]
                congr 2
                apply List.filter_congr
                intro q _
                by_cases hk : q.kind = .real <;> simp [hk]
              rw [this]; exact i2

/-- The ledger of a journal with automated transactions. -/
theorem ledger_applied {r : Run} {skip : Bool} {path : Str} {pl : ParsedLedger} {L : Ledger}
    (h : r.journal path = .ok pl) (hne : pl.automated ≠ []) (hl : r.ledger skip path = .ok L) :
    ∃ l listed ts booked rules applied, NamesOf r.env pl l ∧ DateOrder pl.regular listed ∧
      List.Forall₂ (fun raw t => t.header = raw.header ∧ t.ttype = .real ∧
        List.Forall₂ (WrittenAs r.env l raw) raw.postings t.postings) listed ts ∧
      l.Grow r.env.lower ⟨L.accounts, L.payees, L.commodities⟩ ∧
      BookedAs skip (fun _ _ => 0) ts booked ∧
      (∀ t ∈ booked, AllAmounts t.postings ∧ ∀ p ∈ t.postings, p.origin = .fromTransaction) ∧
      RuleNodes r.env pl.automated rules ∧
      List.Forall₂ (RulesOn r.env ⟨L.accounts, L.payees, L.commodities⟩ rules) booked applied ∧
      BookedAs skip (fun _ _ => 0) applied L.transactions ∧
      (∀ t ∈ applied, MayBalance (weightOf .real t.postings) ∧
        (pl.NoBracketedSales → MayBalance (weightOf .virtBal t.postings))) ∧
      (skip = true ∨ AssertionsHold (fun _ _ => 0) (applied.flatMap (fun t => t.postings))) := by
  unfold Run.ledger at hl
  rw [h] at hl
  simp only at hl
  cases ht : toLedger r.env r.orders skip pl with
  | error e => rw [ht] at hl; cases hl
  | ok L' =>
    rw [ht] at hl; cases hl
    obtain ⟨l, hp, hb⟩ := toLedger_inv ht
    obtain ⟨listed, ts, booked, bals, rs, h1, h2, h3, h4, rfl, _, _, h9⟩ := buildLedger_booked hb
    obtain ⟨rules, applied, r0, r1, r2, r3, bals', rs', r4, r5⟩ := h9 hne
    have hB1 := bookedAs_of_balanceAll ts (initialBalances_ok _) h3 h4
    have hB2 := bookedAs_of_balanceAll applied (initialBalances_ok _) r3 r4
    have ham := balanceAll_amounts ts (initialBalances_ok _) h3 h4
    have hall : ∀ t ∈ applied, AllAmounts t.postings := by
      intro t ht
      obtain ⟨t0, ht0, hR⟩ := Forall₂.mem_right r2 ht
      exact hR.amounts (ham t0 ht0)
    obtain ⟨a1, a2⟩ := accepted_of_balanceAll applied (initialBalances_ok _) r3 hall r4
    rw [initialBalances_amt] at hB1 hB2 a2
    refine ⟨l, listed, ts, _, rules, applied, populate_names (C83_wellformed h).1.lists hp, h1, h2, r0, hB1, ?_, r1, r2,
      by rw [r5]; exact hB2, ?_, a2⟩
    · intro t ht
      refine ⟨ham t ht, balanceAll_origin ts (initialBalances_ok _) h3 ?_ h4 t ht⟩
      intro t ht p hp
      obtain ⟨raw, _, _, _, hw⟩ := Forall₂.mem_right h2 ht
      obtain ⟨_, _, hpw⟩ := Forall₂.mem_right hw hp
      exact hpw.origin
    · intro t ht
      refine ⟨(a1 t ht).1, fun hn => (a1 t ht).2 ?_⟩
      obtain ⟨t0, ht0, hR⟩ := Forall₂.mem_right r2 ht
      exact hR.noSales (hB1.noSales (noSales h1 h2 hn) t0 ht0)

/-- The postings of transactions with all amounts are booked as they are, the real ones first. -/
theorem BookedAs.full {skip : Bool} {start : Str → Cur → Rat} {ts ts' : List (Txn Posting)}
    (h : BookedAs skip start ts ts') (hall : ∀ t ∈ ts, AllAmounts t.postings) :
    List.Forall₂ (fun t t' => t' = { t with postings := t'.postings } ∧
      List.Forall₂ SameEntry (t.postings.filter (fun p => p.kind = .real) ++
        t.postings.filter (fun p => p.kind ≠ .real)) t'.postings) ts ts' := by
  induction h with
  | nil => exact .nil
  | @cons start t es t' ts ts' h1 h2 h3 h4 ih =>
    refine .cons ⟨h2, ?_⟩ (ih (fun t ht => hall t (by simp [ht])))
    have : es = t.postings.filter (fun p => p.kind = .real) ++ t.postings.filter (fun p => p.kind ≠ .real) := by
      have := entersAll_full (EntersAll.cons h1 .nil) (ts := [t]) (fun u hu => by
        rw [List.mem_singleton.mp hu]; exact hall t (by simp))
      simpa using this
    rw [← this]; exact h3

/-! ### Options -/

/-- Account patterns, as the question of a report. -/
theorem patterns_node {env : Env} (ha : env.AsciiSep) {query : List Str} (hq : PlainQuery env query) (hne : query ≠ []) :
    ∃ n, queryNode env query = .ok (some n) ∧ ∀ (t : Txn Posting) (p : Posting) st,
      filterExpression env t n p st = .ok (byPatterns env query p.account, st) := by
  match query, hne, hq with
  | [a], _, hq =>
    exact ⟨_, queryNode_one ha (hq a (by simp)), fun t p st => by
      simp only [filterExpression, eval_account, byPatterns, List.take, List.any, Bool.or_false]⟩
  | a :: c :: ps, _, hq =>
    refine ⟨_, queryNode_many ha (hq a (by simp)) (hq c (by simp)) (ps := ps) (fun p hp => hq p (by simp [hp])), fun t p st => ?_⟩
    have := (C44_connectives env t p (accountAst a) (accountAst c) st st st _ _
        (eval_account env t _ p st) (eval_account env t _ p st)).2.1
    simp only [filterExpression, this, byPatterns, List.take, List.any, Bool.or_false]

theorem plain_node {env : Env} (ha : env.AsciiSep) {o : ReportOpts} (hq : PlainQuery env o.query) :
    ∃ n, queryNode env o.query = .ok n ∧ ∀ (t : Txn Posting) (p : Posting) st,
      filterPosting env {} n t p st = .ok ((o.query.isEmpty || byPatterns env o.query p.account), st) := by
  by_cases he : o.query = []
  · rw [he]
    refine ⟨none, by simp [queryNode, preprocessQuery], fun t p st => by simp [filterPosting]⟩
  · obtain ⟨n, hn, hf⟩ := patterns_node ha hq he
    refine ⟨some n, hn, fun t p st => ?_⟩
    have : o.query.isEmpty = false := by simp [he]
    rw [this, Bool.false_or, ← hf t p st]
    simp [filterPosting]

theorem filterPosting_wants {env : Env} {o : ReportOpts} {n : Option Ast} {t : Txn Posting} {p : Posting}
    {st st' : Commodities} {b : Bool} (hn : filterPosting env {} n t p st = .ok ((o.query.isEmpty ||
        byPatterns env o.query p.account), st))
    (h : filterPosting env o.filter n t p st = .ok (b, st')) : b = o.wants env t p ∧ st' = st := by
  unfold ReportOpts.wants
  generalize (o.query.isEmpty || byPatterns env o.query p.account) = q at hn ⊢
  have hn' : (match n with
        | none => (.ok (true, st) : Res (Bool × Commodities))
        | some n => filterExpression env t n p st) = .ok (q, st) := hn
  unfold filterPosting at h
  by_cases hr : (o.filter.real && decide (p.kind ≠ .real)) = true
  · rw [if_pos hr] at h
    cases h
    simp only [Bool.and_eq_true, decide_eq_true_eq] at hr
    simp [hr.1, hr.2]
  · rw [if_neg hr] at h
    have hr' : (!o.filter.real || decide (p.kind = .real)) = true := by
      cases hh : o.filter.real <;> simp [hh] at hr ⊢
      exact hr
    rw [hr', Bool.true_and]
    cases hto : o.filter.toDate with
    | none =>
      rw [hto] at h
      simp only at h
      cases hfr : o.filter.fromDate with
      | none =>
        rw [hfr] at h
        simp only at h
        replace h := hn'.symm.trans h
        cases h; simp
      | some d =>
        rw [hfr] at h
        simp only at h
        cases hd : t.date with
        | none => rw [hd] at h; cases h
        | some x =>
          rw [hd] at h
          simp only at h
          by_cases hx : x < d
          · simp only [hx, decide_true] at h; cases h; simp [hx]
          · simp only [hx, decide_false] at h
            replace h := hn'.symm.trans h; cases h
            simp [not_lt.mp hx]
    | some e =>
      rw [hto] at h
      simp only at h
      cases hd : t.date with
      | none => rw [hd] at h; cases h
      | some x =>
        rw [hd] at h
        simp only at h
        by_cases hxe : x ≥ e
        · simp only [hxe, decide_true] at h; cases h
          simp [hxe]
        · simp only [hxe, decide_false] at h
          cases hfr : o.filter.fromDate with
          | none =>
            rw [hfr] at h
            simp only at h
            replace h := hn'.symm.trans h
            cases h; simp [not_le.mp hxe]
          | some d =>
            rw [hfr] at h
            simp only at h
            by_cases hx : x < d
            · simp only [hx, decide_true] at h; cases h; simp [hx]
            · simp only [hx, decide_false] at h
              replace h := hn'.symm.trans h; cases h
              simp [not_lt.mp hx, not_le.mp hxe]

theorem selects_wanted {env : Env} {o : ReportOpts} {n : Option Ast} {l sel : List (Txn Posting × Posting)}
    {st st' : Commodities} (hn : ∀ (t : Txn Posting) (p : Posting) st,
      filterPosting env {} n t p st = .ok ((o.query.isEmpty ||
        byPatterns env o.query p.account), st))
    (h : Selects env o.filter n l st sel st') : sel = l.filter (fun x => o.wants env x.1 x.2) := by
  induction h with
  | nil => rfl
  | @keep x rest sel st st' st'' h _ ih =>
    obtain ⟨h1, h2⟩ := filterPosting_wants (hn _ _ _) h
    rw [List.filter_cons_of_pos (by rw [← h1]), ← ih]
  | @drop x rest sel st st' st'' h _ ih =>
    obtain ⟨h1, h2⟩ := filterPosting_wants (hn _ _ _) h
    rw [List.filter_cons_of_neg (by rw [← h1]; simp), ← ih]

theorem selected_wanted {env : Env} (ha : env.AsciiSep) {o : ReportOpts} (hq : PlainQuery env o.query) {L : Ledger}
    {sel : List (Txn Posting × Posting)} (h : Selected env o L sel) : sel.map Prod.snd = wanted env o L.transactions := by
  obtain ⟨node, st, hn, hs⟩ := h
  obtain ⟨n, hn', hf⟩ := plain_node ha hq
  rw [hn] at hn'; cases hn'
  rw [selects_wanted hf hs]
  unfold Ledger.entries wanted
  generalize L.transactions = ts
  induction ts with
  | nil => rfl
  | cons t ts ih =>
    rw [List.flatMap_cons, List.flatMap_cons, List.filter_append, List.map_append, ih]
    congr 1
    rw [List.filter_map, List.map_map]
    simp [Function.comp_def]

/-- The ledger of any journal. -/
theorem ledger_yields {r : Run} {skip : Bool} {path : Str} {pl : ParsedLedger} {L : Ledger}
    (h : r.journal path = .ok pl) (hl : r.ledger skip path = .ok L) : pl.Yields r.env skip L.transactions := by
  by_cases ha : pl.automated = []
  · unfold Run.ledger at hl
    rw [h] at hl
    simp only at hl
    cases ht : toLedger r.env r.orders skip pl with
    | error e => rw [ht] at hl; cases hl
    | ok L' =>
      rw [ht] at hl; cases hl
      obtain ⟨l, listed, ts, bals, rs, h1, h2, h3, h4, h5, h6, _⟩ := toLedger_booked (C83_wellformed h).1 ha ht
      have := bookedAs_of_balanceAll ts (initialBalances_ok _) (fun t ht p hp => (h4 t ht p hp).1) h5
      rw [initialBalances_amt, ← h6] at this
      exact ⟨ts, ⟨l, listed, h1, h2, h3⟩, .inl ⟨ha, this⟩⟩
  · obtain ⟨l, listed, ts, booked, rules, applied, h1, h2, h3, _, h4, _, h5, h6, h7, _⟩ := ledger_applied h ha hl
    exact ⟨ts, ⟨l, listed, h1, h2, h3⟩, .inr ⟨ha, booked, rules, _, applied, h4, h5, h6, h7⟩⟩

/-! ### One commodity -/

theorem enters_only_each {skip : Bool} {d : Cur} {start : Str → Cur → Rat} {t : Txn Posting} {es : List Posting}
    (h : Enters skip start t es) (hs : ∀ a c, c ≠ d → start a c = 0) (hp : ∀ p ∈ t.postings, p.Only d) :
    ∀ q ∈ es, q.Only d := by
  obtain ⟨qs, gen, h1, rfl, h3⟩ := h
  obtain ⟨p1, p2⟩ := posts_only h1 hs hp
  have hq0 : ∀ c, c ≠ d → weightOf .real qs c = 0 := by
    intro c hc
    rw [p2]
    clear p2 h1 h3
    induction qs with
    | nil => rfl
    | cons q qs ih =>
      obtain ⟨o, hm⟩ := p1 q (by simp)
      obtain ⟨m, hm⟩ := Option.isSome_iff_exists.mp hm
      rw [List.filterMap_cons_some hm, sumIn_cons, o.2.2.1 m hm c hc, ih (fun q hq => p1 q (by simp [hq])), add_zero]
  intro q hq
  simp only [List.mem_append] at hq
  rcases hq with (hq | hq) | hq
  · exact (p1 q hq).1
  · rcases h3 with ⟨_, _, rfl⟩ | ⟨p, _, hg, ms, hm1, hm2, hm3⟩
    · cases hq
    · obtain ⟨g1, _, g3, g4⟩ := hg q hq
      refine ⟨g1, g3, ?_, by rw [g4]; intro b hb; cases hb⟩
      intro m hm c hc
      have hmem : some m ∈ ms.map some := by rw [← hm1]; exact List.mem_map.mpr ⟨q, hq, hm⟩
      obtain ⟨m', hm', e⟩ := List.mem_map.mp hmem
      cases e
      obtain ⟨c', rfl, h'⟩ := (hm3 m).mp hm'
      have : c' = d := by by_contra hne; exact h' (hq0 c' hne)
      subst this
      simp [Money.amountIn, Money.commodity, Ne.symm hc]
  · exact hp q (List.mem_filter.mp hq).1

theorem SameEntry.only {p q : Posting} {d : Cur} (h : SameEntry p q) (hp : p.Only d) : q.Only d := by
  obtain ⟨_, h2, h3, h4, h5⟩ := h
  obtain ⟨o1, o2, o3, o4⟩ := hp
  exact ⟨by rw [h2, o1], by rw [h4, o2], by rw [h3]; exact o3, by rw [h5]; exact o4⟩

theorem BookedAs.only {skip : Bool} {d : Cur} {start : Str → Cur → Rat} {ts ts' : List (Txn Posting)}
    (h : BookedAs skip start ts ts') (hs : ∀ a c, c ≠ d → start a c = 0)
    (hp : ∀ t ∈ ts, ∀ p ∈ t.postings, p.Only d) : ∀ t ∈ ts', ∀ p ∈ t.postings, p.Only d := by
  induction h with
  | nil => intro t ht; cases ht
  | @cons start t es t' ts ts' h1 _ h3 _ ih =>
    intro u hu
    rcases List.mem_cons.mp hu with rfl | hu
    · intro q hq
      obtain ⟨p, hpm, hse⟩ := Forall₂.mem_right h3 hq
      exact hse.only (enters_only_each h1 hs (hp t (by simp)) p hpm)
    · exact ih (fun a c hc => by
        show start a c + postedTo es a c = 0
        rw [hs a c hc, (enters_only h1 hs (hp t (by simp))).2 a c hc, add_zero])
        (fun t ht => hp t (by simp [ht])) u hu

theorem RulesOn.only {env : Env} {l : Lists} {rules : List (Txn RawPosting × Ast)} {t t' : Txn Posting} {d : Cur}
    {cur : Str} (h : RulesOn env l rules t t') (hp : ∀ p ∈ t.postings, p.Only d)
    (hn : ∀ m, Finds env.lower l.commodities cur m → m = d)
    (hr : ∀ r ∈ rules, ∀ rp ∈ r.1.postings, rp.kind = .real ∧
      (rp.moneyCurrency = some [] ∨ rp.moneyCurrency = some cur)) : ∀ p ∈ t'.postings, p.Only d := by
  obtain ⟨own, extra, h1, h2, h3⟩ := h.parts
  rw [h1]
  intro q hq
  rcases List.mem_append.mp hq with hq | hq
  · obtain ⟨p, hpm, hs⟩ := Forall₂.mem_right h2 hq
    exact SameEntry.only (p := p) (by rw [hs.1]; exact ⟨rfl, rfl, rfl, rfl, rfl⟩) (hp p hpm)
  · obtain ⟨r, hrm, rp, hrp, p, hpm, u, p', hs, hg⟩ := h3 q hq
    obtain ⟨k1, k2⟩ := hr r hrm rp hrp
    refine ⟨by rw [hg.rest.1, k1], hg.rest.2.2.1, ?_, by rw [hg.rest.2.2.2.1]; intro b hb; cases hb⟩
    obtain ⟨m, hm, hra⟩ := hg.amount
    intro m' hm' c hc
    rw [hm] at hm'; cases hm'
    rcases hra with ⟨x, n, a, e1, e2, _, e4, e5⟩ | ⟨x, c', f, _, _, e3, e4⟩ | ⟨_, _, _, _, _, e1, _⟩
    · rcases k2 with k2 | k2
      · rw [k2] at e1; cases e1; exact absurd rfl e2
      · rw [k2] at e1; cases e1
        rw [e5, hn n e4]
        simp [Money.amountIn, Money.commodity, Ne.symm hc]
    · have hpa : p.amount = some (.mk x c') := by rw [hs.1] at e3; exact e3
      have h0 := (hp p hpm).2.2.1 _ hpa c hc
      rw [e4]
      by_cases hcc : c' = c
      · subst hcc
        simp only [Money.amountIn, Money.commodity, Money.amount, if_true] at h0 ⊢
        rw [h0, zero_mul]
      · simp [Money.amountIn, Money.commodity, hcc]
    · rcases k2 with k2 | k2 <;> rw [k2] at e1 <;> cases e1

theorem RuleNodes.mem {env : Env} {autos : List (Txn RawPosting)} {rules : List (Txn RawPosting × Ast)}
    (h : RuleNodes env autos rules) {r : Txn RawPosting × Ast} (hr : r ∈ rules) : r.1 ∈ autos := by
  obtain ⟨a, ha, e, _⟩ := Forall₂.mem_right h hr
  rw [e]; exact ha

/-- Rules without real postings leave the real postings. -/
theorem RulesOn.reals {env : Env} {l : Lists} {rules : List (Txn RawPosting × Ast)} {t t' : Txn Posting}
    (h : RulesOn env l rules t t') (hr : ∀ r ∈ rules, ∀ rp ∈ r.1.postings, rp.kind ≠ .real) :
    List.Forall₂ SameEntry (t.postings.filter (fun p => p.kind = .real))
      (t'.postings.filter (fun p => p.kind = .real)) := by
  obtain ⟨own, extra, h1, h2, h3⟩ := h.parts
  rw [h1]
  have he : extra.filter (fun p => p.kind = .real) = [] := by
    rw [List.filter_eq_nil_iff]
    intro q hq
    obtain ⟨r, hrm, rp, hrp, _, _, _, _, _, hg⟩ := h3 q hq
    rw [hg.rest.1]
    simpa using hr r hrm rp hrp
  simp only [List.filter_append, he, List.append_nil]
  clear h1 h3 he
  generalize t.postings = ps at h2
  induction h2 with
  | nil => exact .nil
  | @cons p q ps qs hpq _ ih =>
    have hk : q.kind = p.kind := by rw [hpq.1]
    rw [List.filter_cons, List.filter_cons, hk]
    split
    · exact .cons (by rw [hpq.1]; exact ⟨rfl, rfl, rfl, rfl, rfl⟩) ih
    · exact ih

theorem SameEntry.filter {ps qs : List Posting} (h : List.Forall₂ SameEntry ps qs) :
    List.Forall₂ SameEntry (ps.filter (fun p => p.kind = .real)) (qs.filter (fun p => p.kind = .real)) := by
  induction h with
  | nil => exact .nil
  | @cons p q ps qs hpq _ ih =>
    rw [List.filter_cons, List.filter_cons, hpq.2.1]
    split
    · exact .cons hpq ih
    · exact ih

theorem SameEntry.trans {p q r : Posting} (h : SameEntry p q) (h' : SameEntry q r) : SameEntry p r := by
  obtain ⟨a1, a2, a3, a4, a5⟩ := h
  obtain ⟨b1, b2, b3, b4, b5⟩ := h'
  exact ⟨b1.trans a1, b2.trans a2, b3.trans a3, b4.trans a4, b5.trans a5⟩

theorem sameEntries_trans {ps qs rs : List Posting} (h : List.Forall₂ SameEntry ps qs)
    (h' : List.Forall₂ SameEntry qs rs) : List.Forall₂ SameEntry ps rs := by
  induction h generalizing rs with
  | nil => cases h'; exact .nil
  | cons h _ ih => cases h' with
    | cons h1 h2 => exact .cons (h.trans h1) (ih h2)

/-- The real entries of what a journal stands for are those of its own transactions. -/
theorem ledger_reals {r : Run} {skip : Bool} {path : Str} {pl : ParsedLedger} {L : Ledger}
    (h : r.journal path = .ok pl) (hl : r.ledger skip path = .ok L)
    (hr : ∀ t ∈ pl.automated, ∀ p ∈ t.postings, p.kind ≠ .real) :
    ∃ ts es, pl.StandsFor r.env ts ∧ EntersAll skip (fun _ _ => 0) ts es ∧
      List.Forall₂ SameEntry (es.filter (fun p => p.kind = .real))
        (L.transactions.flatMap (fun t => t.postings.filter (fun p => p.kind = .real))) := by
  have hflat : ∀ ts : List (Txn Posting), (ts.flatMap (fun t => t.postings)).filter (fun p => p.kind = .real) =
      ts.flatMap (fun t => t.postings.filter (fun p => p.kind = .real)) := by
    intro ts
    induction ts with
    | nil => rfl
    | cons t ts ih => rw [List.flatMap_cons, List.flatMap_cons, List.filter_append, ih]
  by_cases ha : pl.automated = []
  · obtain ⟨ts, hs, ⟨_, hb⟩ | ⟨hne, _⟩⟩ := ledger_yields h hl
    · obtain ⟨es, e1, e2⟩ := hb.entries
      exact ⟨ts, es, hs, e1, by rw [← hflat]; exact SameEntry.filter e2⟩
    · exact absurd ha hne
  · obtain ⟨l, listed, ts, booked, rules, applied, h1, h2, h3, _, h4, h5, h6, h7, h8, _⟩ := ledger_applied h ha hl
    obtain ⟨es, e1, e2⟩ := h4.entries
    refine ⟨ts, es, ⟨l, listed, h1, h2, h3⟩, e1, ?_⟩
    have hall : ∀ t ∈ applied, AllAmounts t.postings := by
      intro t ht
      obtain ⟨t0, ht0, hR⟩ := Forall₂.mem_right h7 ht
      exact hR.amounts (h5 t0 ht0).1
    have s1 := SameEntry.filter e2
    rw [hflat] at s1
    refine sameEntries_trans s1 (sameEntries_trans
      (forall₂_flatMap h7 (fun t t' hR => hR.reals (fun x hx => hr _ (h6.mem hx)))) ?_)
    refine forall₂_flatMap (h8.full hall) ?_
    rintro t t' ⟨_, hse⟩
    have := SameEntry.filter hse
    rw [List.filter_append, List.filter_filter, List.filter_filter] at this
    rw [show t.postings.filter (fun x => decide (x.kind = .real) && decide (x.kind ≠ .real)) = [] from by
      rw [List.filter_eq_nil_iff]; intro q _; simp] at this
    simpa using this

/-- Amounts that show nothing. -/
theorem Shows.empty {ms : List Money} {f : Cur → Rat} (hs : Shows ms f) (hz : ∀ c, f c = 0) : ms = [] := by
  cases ms with
  | nil => rfl
  | cons m ms =>
    exfalso
    have hnz := hs.nonzero m (by simp)
    cases hc : m.commodity with
    | none =>
      cases m with
      | zero => exact hnz rfl
      | mk _ _ => cases hc
    | some c =>
      have h1 := hs.sum c
      rw [hz, sumIn_cons] at h1
      have h0 : sumIn ms c = 0 := by
        have hno := hs.once
        rw [List.map_cons, List.nodup_cons, hc] at hno
        have := hno.1
        clear h1 hs hno
        induction ms with
        | nil => rfl
        | cons x xs ih =>
          simp only [List.map_cons, List.mem_cons, not_or] at this
          rw [sumIn_cons, ih this.2, add_zero]
          unfold Money.amountIn
          rw [if_neg (Ne.symm this.1)]
      rw [h0, add_zero] at h1
      unfold Money.amountIn at h1
      rw [if_pos hc] at h1
      exact hnz h1

end Dinero
