import Verif.Spec.Terse
import Verif.Lemmas.Split
/-
Helper lemmas about journals with amounts left out.
-/
namespace Dinero

/-! ### Booking -/

/-- The postings `ps'` of a ledger are `ps` with an amount left out. -/
def PostTerse (ps ps' : List Posting) : Prop :=
  ∃ pre p post n, ps = pre ++ p :: post ∧ ps' = pre ++ { p with amount := none } :: post ∧ p.kind = .real ∧
    ∀ q ∈ ps, q.kind = .real → q.cost = none ∧ ∃ z, q.amount = some (.mk z n)

theorem PostTerse.timeless {skip : Bool} {ps ps' : List Posting} (h : PostTerse ps ps') (hf : TimelessPostings skip ps) :
    TimelessPostings skip ps' := by
  obtain ⟨pre, p, post, n, rfl, rfl, hk, _⟩ := h
  intro q hq hr
  rcases List.mem_append.mp hq with hq | hq
  · exact hf q (by simp [hq]) hr
  · rcases List.mem_cons.mp hq with rfl | hq
    · exact hf p (by simp) hk
    · exact hf q (by simp [hq]) hr

theorem PostTerse.elided {skip : Bool} {ps ps' : List Posting} (h : PostTerse ps ps') (hf : TimelessPostings skip ps) :
    ps.filter (fun p => p.elided skip) = [] ∧ ∃ p, ps'.filter (fun p => p.elided skip) = [p] := by
  obtain ⟨pre, p, post, n, rfl, rfl, hk, ha⟩ := h
  have none : ∀ qs : List Posting, (∀ q ∈ qs, q ∈ pre ++ p :: post) → qs.filter (fun p => p.elided skip) = [] := by
    intro qs hqs
    rw [List.filter_eq_nil_iff]
    intro q hq hc
    have hc : q.elided skip := by simpa using hc
    obtain ⟨_, z, hz⟩ := ha q (hqs q hq) hc.1
    rw [hc.2.1] at hz
    cases hz
  refine ⟨none _ (fun _ h => h), { p with amount := .none }, ?_⟩
  rw [List.filter_append, none pre (fun q hq => by simp [hq]), List.filter_cons_of_pos, none post (fun q hq => by simp [hq])]
  · rfl
  · have := hf p (by simp) hk
    simp [Posting.elided, hk, this.symm]

theorem PostTerse.weight {ps ps' : List Posting} (h : PostTerse ps ps') {k : Kind} (hk : k ≠ .real) : weightOf k ps' = weightOf k ps := by
  obtain ⟨pre, p, post, n, rfl, rfl, hp, _⟩ := h
  funext c
  rw [weightOf_append, weightOf_append, weightOf_cons, weightOf_cons, if_neg (by simpa [hp] using hk.symm),
    if_neg (by simpa [hp] using hk.symm)]

theorem PostTerse.bought {ps ps' : List Posting} (h : PostTerse ps ps') : PostTerse (ps.map Posting.bought) (ps'.map Posting.bought) := by
  obtain ⟨pre, p, post, n, rfl, rfl, hk, ha⟩ := h
  have e : ∀ q : Posting, q.kind = .real → q.bought = q := by
    intro q hq
    unfold Posting.bought
    rw [hq]
  have kind : ∀ q : Posting, q.bought.kind = q.kind := by
    intro q
    unfold Posting.bought
    split <;> rfl
  refine ⟨pre.map Posting.bought, p, post.map Posting.bought, n, ?_, ?_, hk, ?_⟩
  · rw [List.map_append, List.map_cons, e p hk]
  · rw [List.map_append, List.map_cons, e { p with amount := none } hk]
  · intro q hq hr
    obtain ⟨q0, h0, rfl⟩ := List.mem_map.mp hq
    rw [kind] at hr
    rw [e q0 hr]
    exact ha q0 h0 hr

theorem books_terse {skip : Bool} {start after : Str → Cur → Rat} {ps ps' : List Posting} (h : PostTerse ps ps')
    (hf : TimelessPostings skip ps) (hb : Books skip start { postings := ps } after) :
    ∃ after', Books skip start { postings := ps' } after' := by
  obtain ⟨qs, h1, h2, _⟩ := hb
  obtain ⟨p, hp⟩ := (h.elided hf).2
  exact ⟨_, _, posts_givens start ps' (h.timeless hf), by rw [h.weight (by simp)]; exact h2, .inr ⟨p, hp, fun _ _ => rfl⟩⟩

theorem balanced_zero {n : Cur} {ps : List Posting} (ha : ∀ q ∈ ps, q.kind = .real → q.cost = none ∧ ∃ z, q.amount = some (.mk z n))
    (h : MayBalance (weightOf .real ps)) (c : Cur) : weightOf .real ps c = 0 := by
  have other : ∀ c, c ≠ n → weightOf .real ps c = 0 := by
    intro c hc
    clear h
    induction ps with
    | nil => rfl
    | cons p ps ih =>
      rw [weightOf_cons, ih (fun q hq => ha q (by simp [hq]))]
      by_cases hk : p.kind = .real
      · obtain ⟨h1, z, h2⟩ := ha p (by simp) hk
        rw [if_pos hk]
        unfold Posting.weight
        simp only [h1, h2, Money.amountIn, Money.commodity]
        rw [if_neg (by simpa using hc.symm), add_zero]
      · rw [if_neg hk, add_zero]
  rcases h with h | ⟨a, b, h1, h2⟩
  · exact h c
  · by_cases e1 : a = n
    · by_cases e2 : b = n
      · subst e1; subst e2; exact absurd h1 (not_lt.mpr h2.le)
      · rw [other b e2] at h2; exact absurd h2 (lt_irrefl _)
    · rw [other a e1] at h1; exact absurd h1 (lt_irrefl _)

theorem enteredSum_terse {skip : Bool} {start : Str → Cur → Rat} {ps ps' es : List Posting} (h : PostTerse ps ps')
    (hf : TimelessPostings skip ps) (he : Enters skip start { postings := ps } es) (P : Str → Kind → Bool) (c : Cur) :
    enteredSum skip P c ps' = enteredSum skip P c ps := by
  have hzero : weightOf .real (givens ps) c = 0 := by
    obtain ⟨qs, gen, h1, _, h3⟩ := he
    have h0 := posts_unique h1 (posts_givens start ps hf)
    subst h0
    obtain ⟨pre, p, post, n, _, _, _, ha⟩ := id h
    rcases h3 with ⟨_, k, _⟩ | ⟨p, k, _⟩
    · exact balanced_zero (fun q hq hr => ha q (List.mem_filter.mp hq).1 hr) k c
    · rw [(h.elided hf).1] at k; cases k
  obtain ⟨h1, _⟩ := h.elided hf
  obtain ⟨pre, p, post, n, rfl, rfl, hk, ha⟩ := id h
  obtain ⟨hcost, z, hz⟩ := ha p (by simp) hk
  have none : ∀ qs : List Posting, (∀ q ∈ qs, q ∈ pre ++ p :: post) → qs.filter (fun p => p.elided skip) = [] := by
    intro qs hqs
    rw [List.filter_eq_nil_iff]
    intro q hq
    exact (List.filter_eq_nil_iff.mp h1) q (hqs q hq)
  have h2 : (pre ++ { p with amount := .none } :: post).filter (fun p => p.elided skip) = [{ p with amount := .none }] := by
    rw [List.filter_append, none pre (fun q hq => by simp [hq]), List.filter_cons_of_pos, none post (fun q hq => by simp [hq])]
    · rfl
    · have := hf p (by simp) hk
      simp [Posting.elided, hk, this.symm]
  have g1 : givens (pre ++ p :: post) = givens pre ++ p :: givens post := by
    unfold givens
    rw [List.filter_append, List.filter_cons_of_pos (by simp [hk, hz])]
  have g2 : givens (pre ++ { p with amount := .none } :: post) = givens pre ++ givens post := by
    unfold givens
    rw [List.filter_append, List.filter_cons_of_neg (by simp)]
  have g3 : (pre ++ { p with amount := .none } :: post).filter (fun p => p.kind ≠ .real) =
      (pre ++ p :: post).filter (fun p => p.kind ≠ .real) := by
    rw [List.filter_append, List.filter_append, List.filter_cons_of_neg (by simp [hk]), List.filter_cons_of_neg (by simp [hk])]
  unfold enteredSum
  rw [h1, h2, g3, g2]
  rw [g1] at hzero ⊢
  simp only
  rw [weightOf_append, weightOf_cons, if_pos hk] at hzero
  have hw : p.weight = .mk z n := by unfold Posting.weight; rw [hcost, hz]
  rw [hw] at hzero
  have hp : postedWhere P (givens pre ++ p :: givens post) c = postedWhere P (givens pre) c +
      ((if P p.account .real then (Money.mk z n).amountIn c else 0) + postedWhere P (givens post) c) := by
    rw [postedWhere_append, show p :: givens post = [p] ++ givens post from rfl, postedWhere_append]
    congr 2
    unfold postedWhere
    by_cases hP : P p.account .real = true
    · rw [List.filter_cons_of_pos (by rw [hk]; exact hP), if_pos hP]
      simp [hz, sumIn]
    · rw [List.filter_cons_of_neg (by rw [hk]; exact hP), if_neg hP]
      rfl
  rw [hp, postedWhere_append, weightOf_append]
  by_cases hP : P p.account .real = true
  · rw [if_pos hP, if_pos hP]
    linarith
  · rw [if_neg hP, if_neg hP]
    ring

theorem entersAll_each {skip : Bool} {start : Str → Cur → Rat} {ts : List (Txn Posting)} {es : List Posting}
    (h : EntersAll skip start ts es) : ∀ t ∈ ts, ∃ start es, Enters skip start { postings := t.postings } es := by
  induction h with
  | nil => intro t ht; cases ht
  | cons h1 _ ih =>
    intro t ht
    rcases List.mem_cons.mp ht with rfl | ht
    · exact ⟨_, _, h1⟩
    · exact ih t ht

/-! ### Names -/

variable {env : Env} {pl pl' : ParsedLedger}

/-- What is said of postings by their names. -/
theorem Terse.post (g : Terse pl pl') {Q : RawPosting → Prop} (hQ : ∀ p : RawPosting, Q p.bare → Q p)
    (hR : ∀ p q : RawPosting, p.kind = .real → q.kind = .real → q.moneyCurrency = p.moneyCurrency → p.costCurrency = none → Q p → Q p.bare ∨ Q q) :
    (∃ t ∈ pl'.transactions, ∃ p ∈ t.postings, Q p) ↔ ∃ t ∈ pl.transactions, ∃ p ∈ t.postings, Q p := by
  constructor
  · rintro ⟨t', ht, p, hp, hq⟩
    obtain ⟨t, h1, h2⟩ := Forall₂.mem_right g.transactions ht
    rcases h2 with rfl | ⟨_, pre, r, post, c, e1, e2, _⟩
    · exact ⟨_, h1, p, hp, hq⟩
    · rw [e2] at hp
      rcases List.mem_append.mp hp with hp | hp
      · exact ⟨t, h1, p, by rw [e1]; simp [hp], hq⟩
      · rcases List.mem_cons.mp hp with rfl | hp
        · exact ⟨t, h1, r, by rw [e1]; simp, hQ _ hq⟩
        · exact ⟨t, h1, p, by rw [e1]; simp [hp], hq⟩
  · rintro ⟨t, ht, p, hp, hq⟩
    obtain ⟨t', h1, h2⟩ := Forall₂.mem_right g.transactions.flip ht
    rcases h2 with rfl | ⟨_, pre, r, post, c, e1, e2, ha, hk, q, hqm, hqk⟩
    · exact ⟨_, h1, p, hp, hq⟩
    · have hr : p = r ∨ p ∈ pre ++ post := by
        rw [e1] at hp
        rcases List.mem_append.mp hp with hp | hp
        · exact .inr (by simp [hp])
        · rcases List.mem_cons.mp hp with rfl | hp
          · exact .inl rfl
          · exact .inr (by simp [hp])
      have hin : ∀ x ∈ pre ++ post, x ∈ t'.postings := by
        intro x hx
        rw [e2]
        rcases List.mem_append.mp hx with hx | hx <;> simp [hx]
      have hin' : ∀ x ∈ pre ++ post, x ∈ t.postings := by
        intro x hx
        rw [e1]
        rcases List.mem_append.mp hx with hx | hx <;> simp [hx]
      rcases hr with rfl | hr
      · have k1 := ha p (by rw [e1]; simp) hk
        have k2 := ha q (hin' q hqm) hqk
        rcases hR p q hk hqk (by rw [k1.1, k2.1]) k1.2.1 hq with h | h
        · exact ⟨t', h1, p.bare, by rw [e2]; simp, h⟩
        · exact ⟨t', h1, q, hin q hqm, h⟩
      · exact ⟨t', h1, p, hin p hr, hq⟩

theorem Terse.names (g : Terse pl pl') :
    pl'.accountStrs.Perm pl.accountStrs ∧ pl'.payeeStrs.Perm pl.payeeStrs ∧ pl'.commodityStrs.Perm pl.commodityStrs := by
  refine ⟨?_, ?_, ?_⟩
  · refine (List.perm_ext_iff_of_nodup (nodup_setInsertAll _ _ List.nodup_nil) (nodup_setInsertAll _ _ List.nodup_nil)).mpr ?_
    intro a
    change a ∈ pl'.accountStrs ↔ a ∈ pl.accountStrs
    rw [mem_accountStrs, mem_accountStrs]
    exact g.post (fun _ h => h) (fun _ _ _ _ _ _ h => .inl h)
  · refine (List.perm_ext_iff_of_nodup (nodup_setInsertAll _ _ List.nodup_nil) (nodup_setInsertAll _ _ List.nodup_nil)).mpr ?_
    intro a
    change a ∈ pl'.payeeStrs ↔ a ∈ pl.payeeStrs
    rw [mem_payeeStrs, mem_payeeStrs]
    exact g.post (fun _ h => h) (fun _ _ _ _ _ _ h => .inl h)
  · refine (List.perm_ext_iff_of_nodup (nodup_setInsertAll _ _ (nodup_setInsertAll _ _ List.nodup_nil))
      (nodup_setInsertAll _ _ (nodup_setInsertAll _ _ List.nodup_nil))).mpr ?_
    intro a
    change a ∈ pl'.commodityStrs ↔ a ∈ pl.commodityStrs
    rw [mem_commodityStrs, mem_commodityStrs]
    unfold ParsedLedger.usesCommodity
    rw [g.prices]
    refine or_congr (g.post ?_ ?_) Iff.rfl
    · rintro p (h | h)
      · cases h
      · exact .inr h
    · rintro p q _ _ e _ (h | h)
      · exact .inr (.inl (e.trans h))
      · exact .inl (.inr h)

/-- The names are entered as for the first journal, met in another hash order. -/
theorem Terse.populate (g : Terse pl pl') (o : LedgerOrders) : ∃ o', populate env o pl' = Dinero.populate env o' pl := by
  obtain ⟨g1, g2, g3⟩ := g.names
  obtain ⟨s1, h1⟩ := exists_shuf ((o.accounts.perm _).trans g1)
  obtain ⟨s2, h2⟩ := exists_shuf ((o.payees.perm _).trans g2)
  obtain ⟨s3, h3⟩ := exists_shuf ((o.commodities.perm _).trans g3)
  refine ⟨{ o with accounts := s1, payees := s2, commodities := s3 }, ?_⟩
  unfold Dinero.populate
  rw [g.lists]
  simp only [h1, h2, h3]

theorem terse_filter {ts ts' : List (Txn RawPosting)} (h : List.Forall₂ (fun t t' => t' = t ∨ t.LeavesOut t') ts ts') (k : TType) :
    List.Forall₂ (fun t t' => t' = t ∨ t.LeavesOut t') (ts.filter (fun t => t.ttype = k)) (ts'.filter (fun t => t.ttype = k)) := by
  induction h with
  | nil => exact .nil
  | @cons t t' ts ts' h _ ih =>
    have e : t'.ttype = t.ttype := by
      rcases h with h | h
      · rw [h]
      · rw [h.1]
    by_cases hk : t.ttype = k
    · rw [List.filter_cons_of_pos (by simpa using hk), List.filter_cons_of_pos (by rw [e]; simpa using hk)]
      exact .cons h ih
    · rw [List.filter_cons_of_neg (by simpa using hk), List.filter_cons_of_neg (by rw [e]; simpa using hk)]
      exact ih

theorem Terse.regular (g : Terse pl pl') : List.Forall₂ (fun t t' => t' = t ∨ t.LeavesOut t') pl.regular pl'.regular :=
  terse_filter g.transactions .real

theorem Terse.automated (g : Terse pl pl') (h : pl.automated = []) : pl'.automated = [] := by
  have := terse_filter g.transactions .automated
  rw [show pl.transactions.filter (fun t => t.ttype = .automated) = [] from h] at this
  cases hx : pl'.transactions.filter (fun t => t.ttype = .automated) with
  | nil => exact hx
  | cons a as => rw [hx] at this; cases this

theorem Terse.totals (g : Terse pl pl') (h : pl.NoFreeTotals) : pl'.NoFreeTotals := by
  intro t' ht' p hp
  obtain ⟨t, h1, h2⟩ := Forall₂.mem_right g.regular ht'
  rcases h2 with rfl | ⟨_, pre, r, post, c, e1, e2, _⟩
  · exact h _ h1 p hp
  · rw [e2] at hp
    rcases List.mem_append.mp hp with hp | hp
    · exact h t h1 p (by rw [e1]; simp [hp])
    · rcases List.mem_cons.mp hp with rfl | hp
      · intro _ hc; cases hc
      · exact h t h1 p (by rw [e1]; simp [hp])

/-! ### Converting -/

theorem convertPosting_parts {s : Shuf} {l : Lists} {t : Txn RawPosting} {tags : List Tag} {p : RawPosting} {q : Posting}
    {pr : Option Price} (h : convertPosting env s l t tags p = .ok (q, pr)) :
    q.kind = p.kind ∧ (p.costCurrency = none → q.cost = none ∧
      convertPosting env s l t tags p.bare = .ok ({ q with amount := none }, pr)) ∧
    ∀ c, p.moneyCurrency = some c → ∃ n z, commodityNamed env l.commodities c = .ok n ∧ q.amount = some (.mk z n) := by
  unfold convertPosting at h
  cases h1 : postingPayee env l.payees t.description p with
  | error e => rw [h1] at h; cases h
  | ok payee =>
  rw [h1] at h; simp only at h
  cases h2 : postingAccount env s l.accounts p.account payee with
  | error e => rw [h2] at h; cases h
  | ok account =>
  rw [h2] at h; simp only at h
  cases h3 : rawMoney env l.commodities p.moneyCurrency p.moneyAmount with
  | error e => rw [h3] at h; cases h
  | ok amount =>
  rw [h3] at h; simp only at h
  cases h4 : rawCost env l.commodities t.date p amount with
  | error e => rw [h4] at h; cases h
  | ok cost =>
  rw [h4] at h; simp only at h
  cases h5 : rawMoney env l.commodities p.balanceCurrency p.balanceAmount with
  | error e => rw [h5] at h; cases h
  | ok balance =>
  rw [h5] at h; simp only at h
  cases h
  refine ⟨rfl, fun hc => ?_, fun c hc => ?_⟩
  · have e4 : cost = none := by
      unfold rawCost at h4
      rw [hc] at h4
      cases h4
      rfl
    subst e4
    refine ⟨rfl, ?_⟩
    have hpay : postingPayee env l.payees t.description p.bare = .ok payee := h1
    have hcost : rawCost env l.commodities t.date p.bare none = .ok none := by
      unfold rawCost
      rw [show p.bare.costCurrency = none from hc]
    have hm : rawMoney env l.commodities p.bare.moneyCurrency p.bare.moneyAmount = .ok none := rfl
    have hacc : postingAccount env s l.accounts p.bare.account payee = .ok account := h2
    have hbal : rawMoney env l.commodities p.bare.balanceCurrency p.bare.balanceAmount = .ok balance := h5
    unfold convertPosting
    simp only [hpay, hacc, hm, hcost, hbal]
    rfl
  · unfold rawMoney at h3
    rw [hc] at h3
    simp only at h3
    cases hx : commodityNamed env l.commodities c with
    | error e => rw [hx] at h3; cases h3
    | ok n =>
      rw [hx] at h3
      simp only at h3
      cases hm : p.moneyAmount with
      | none => rw [hm] at h3; cases h3
      | some z => rw [hm] at h3; cases h3; exact ⟨n, z, rfl, rfl⟩

theorem convertPostings_all {s : Shuf} {l : Lists} {t : Txn RawPosting} {tags : List Tag} {ps : List RawPosting}
    {x : List Posting × List Price} (h : convertPostings env s l t tags ps = .ok x) :
    ∀ p ∈ ps, ∃ q pr, convertPosting env s l t tags p = .ok (q, pr) := by
  induction ps generalizing x with
  | nil => intro p hp; cases hp
  | cons p ps ih =>
    unfold convertPostings at h
    cases h1 : convertPosting env s l t tags p with
    | error e => rw [h1] at h; cases h
    | ok x1 =>
      rw [h1] at h
      simp only at h
      cases h2 : convertPostings env s l t tags ps with
      | error e => rw [h2] at h; cases h
      | ok x2 =>
        intro q hq
        rcases List.mem_cons.mp hq with rfl | hq
        · exact ⟨x1.1, x1.2, h1⟩
        · exact ih h2 q hq

theorem convOf_terse {s s' : Shuf} {l l' : Lists} {t t' : Txn RawPosting} (e : t.LeavesOut t')
    (hc : ∀ t tags p, convertPosting env s l t tags p = convertPosting env s' l' t tags p)
    (h : Converts env s l t (convOf env s l t)) (h' : Converts env s' l' t' (convOf env s' l' t')) :
    PostTerse (convOf env s l t).1.postings (convOf env s' l' t').1.postings := by
  obtain ⟨ps, h1, _, h2, _⟩ := convertTxn_inv (t := (convOf env s l t).1) (prs := (convOf env s l t).2) h
  obtain ⟨ps', h1', _, h2', _⟩ := convertTxn_inv (t := (convOf env s' l' t').1) (prs := (convOf env s' l' t').2) h'
  obtain ⟨e0, pre, p, post, c, e1, e2, ha, hk, _⟩ := e
  have e3 : t'.comments = t.comments := by rw [e0]
  have e4 : ∀ tags p, convertPosting env s' l' t' tags p = convertPosting env s l t tags p := by
    intro tags p
    rw [hc, e0]
    rfl
  rw [e3, convertPostings_congr (e4 _)] at h1'
  rw [h2, h2']
  have k1 := convertPostings_each _ h1
  have k2 := convertPostings_each _ h1'
  simp only at k1 k2
  have all := convertPostings_all h1
  obtain ⟨q, pr, hq⟩ := all p (by rw [e1]; simp)
  obtain ⟨a1, a2, a3⟩ := convertPosting_parts hq
  obtain ⟨b1, b2, b3⟩ := ha p (by rw [e1]; simp) hk
  obtain ⟨n, z, hn, hz⟩ := a3 c b1
  rw [e1, List.filterMap_append, List.filterMap_cons, hq] at k1
  rw [e2, List.filterMap_append, List.filterMap_cons, (a2 b2).2] at k2
  refine ⟨_, q, _, n, k1, k2, a1.trans hk, ?_⟩
  intro x hx hr
  have hx : x ∈ t.postings.filterMap (fun p => (convertPosting env s l t (t.comments.flatMap getTags) p).toOption.map Prod.fst) := by
    rw [k1] at hx
    rw [e1, List.filterMap_append, List.filterMap_cons, hq]
    exact hx
  obtain ⟨p0, hp0, hx⟩ := List.mem_filterMap.mp hx
  obtain ⟨q0, pr0, hq0⟩ := all p0 hp0
  rw [hq0] at hx
  cases hx
  obtain ⟨c1, c2, c3⟩ := convertPosting_parts hq0
  rw [c1] at hr
  obtain ⟨d1, d2, d3⟩ := ha p0 hp0 hr
  obtain ⟨n', z', hn', hz'⟩ := c3 c d1
  rw [hn] at hn'
  cases hn'
  exact ⟨(c2 d2).1, z', hz'⟩

theorem convOf_equal {s s' : Shuf} {l l' : Lists} {t : Txn RawPosting}
    (hc : ∀ t tags p, convertPosting env s l t tags p = convertPosting env s' l' t tags p)
    (h : Converts env s l t (convOf env s l t)) (h' : Converts env s' l' t (convOf env s' l' t)) :
    (convOf env s' l' t).1.postings = (convOf env s l t).1.postings := convOf_undated rfl hc h h'

end Dinero
