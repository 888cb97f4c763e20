import Verif.Spec.Split
import Verif.Lemmas.Turn
/-
Helper lemmas about journals with postings written as two.
-/
namespace Dinero

/-! ### Booking -/

/-- The same postings of a ledger, some in two. -/
inductive PostSplit : List Posting → List Posting → Prop
  | nil : PostSplit [] []
  | same {p ps ps'} : PostSplit ps ps' → PostSplit (p :: ps) (p :: ps')
  | halves {p ps ps'} {x y : Rat} {n : Cur} : p.amount = some (.mk (x + y) n) →
      (p.cost = none ∨ (∃ u, p.cost = some (.perUnit u)) ∧ p.kind ≠ .virtBal) → PostSplit ps ps' →
      PostSplit (p :: ps) ({ p with amount := some (.mk x n) } :: { p with amount := some (.mk y n) } :: ps')

theorem PostSplit.filter {f : Posting → Bool} (hf : ∀ (p : Posting) m m', p.amount = some m → f { p with amount := some m' } = f p)
    {ps ps' : List Posting} (h : PostSplit ps ps') : PostSplit (ps.filter f) (ps'.filter f) := by
  induction h with
  | nil => exact .nil
  | @same p ps ps' _ ih =>
    by_cases hp : f p = true
    · rw [List.filter_cons_of_pos hp, List.filter_cons_of_pos hp]; exact .same ih
    · rw [List.filter_cons_of_neg hp, List.filter_cons_of_neg hp]; exact ih
  | @halves p ps ps' x y n ha hc _ ih =>
    by_cases hp : f p = true
    · rw [List.filter_cons_of_pos hp, List.filter_cons_of_pos (by rw [hf p _ _ ha]; exact hp),
        List.filter_cons_of_pos (by rw [hf p _ _ ha]; exact hp)]
      exact .halves ha hc ih
    · rw [List.filter_cons_of_neg hp, List.filter_cons_of_neg (by rw [hf p _ _ ha]; exact hp),
        List.filter_cons_of_neg (by rw [hf p _ _ ha]; exact hp)]
      exact ih

theorem PostSplit.elided {skip : Bool} {ps ps' : List Posting} (h : PostSplit ps ps') :
    ps'.filter (fun p => p.elided skip) = ps.filter (fun p => p.elided skip) := by
  induction h with
  | nil => rfl
  | @same p ps ps' _ ih => rw [List.filter_cons, List.filter_cons, ih]
  | @halves p ps ps' x y n ha hc _ ih =>
    rw [List.filter_cons_of_neg (by simp [Posting.elided]), List.filter_cons_of_neg (by simp [Posting.elided]),
      List.filter_cons_of_neg (by simp [Posting.elided, ha]), ih]

theorem PostSplit.bought {ps ps' : List Posting} (h : PostSplit ps ps') : PostSplit (ps.map Posting.bought) (ps'.map Posting.bought) := by
  induction h with
  | nil => exact .nil
  | same _ ih => exact .same ih
  | @halves p ps ps' x y n ha hc _ ih =>
    have e : ∀ m, Posting.bought { p with amount := m } = { p with amount := m } := by
      intro m
      unfold Posting.bought
      rcases hc with hc | ⟨_, hc⟩
      · simp only [hc]
        cases p.kind <;> rfl
      · cases hk : p.kind with
        | virtBal => exact absurd hk hc
        | _ => simp only
    have e0 : p.bought = p := e p.amount
    rw [List.map_cons, List.map_cons, List.map_cons, e0, e, e]
    exact .halves ha hc ih

theorem amountIn_add (x y : Rat) (n c : Cur) : (Money.mk (x + y) n).amountIn c = (Money.mk x n).amountIn c + (Money.mk y n).amountIn c := by
  simp only [Money.amountIn, Money.commodity, Money.amount]
  by_cases h : some n = some c <;> simp [h]

theorem weight_halves {p : Posting} {x y : Rat} {n : Cur} (ha : p.amount = some (.mk (x + y) n))
    (hc : p.cost = none ∨ (∃ u, p.cost = some (.perUnit u)) ∧ p.kind ≠ .virtBal) (c : Cur) :
    p.weight.amountIn c = (Posting.weight { p with amount := some (.mk x n) }).amountIn c +
      (Posting.weight { p with amount := some (.mk y n) }).amountIn c := by
  unfold Posting.weight
  rcases hc with hc | ⟨⟨u, hc⟩, _⟩
  · simp only [ha, hc]
    exact amountIn_add x y n c
  · simp only [ha, hc]
    cases u with
    | zero => simp [Money.mul, Money.amountIn, Money.commodity]
    | mk q d =>
      simp only [Money.mul, Money.amount, mul_add]
      exact amountIn_add _ _ _ _

theorem PostSplit.weight {ps ps' : List Posting} (h : PostSplit ps ps') (k : Kind) : weightOf k ps' = weightOf k ps := by
  have h := h.filter (f := fun p => p.kind = k) (fun _ _ _ _ => rfl)
  funext c
  unfold weightOf sumIn
  generalize ps.filter (fun p => p.kind = k) = qs at h
  generalize ps'.filter (fun p => p.kind = k) = qs' at h
  induction h with
  | nil => rfl
  | same _ ih => simp only [List.map_cons, List.sum_cons] at ih ⊢; rw [ih]
  | halves ha hc _ ih =>
    simp only [List.map_cons, List.sum_cons] at ih ⊢
    rw [ih, weight_halves ha hc]
    ring

theorem PostSplit.posted {ps ps' : List Posting} (h : PostSplit ps ps') (P : Str → Kind → Bool) (c : Cur) :
    postedWhere P ps' c = postedWhere P ps c := by
  have h := h.filter (f := fun p => P p.account p.kind) (fun _ _ _ _ => rfl)
  unfold postedWhere sumIn
  generalize ps.filter (fun p => P p.account p.kind) = qs at h
  generalize ps'.filter (fun p => P p.account p.kind) = qs' at h
  induction h with
  | nil => rfl
  | @same p _ _ _ ih => cases hp : p.amount <;> simp only [List.filterMap_cons, hp, List.map_cons, List.sum_cons] at ih ⊢ <;> rw [ih]
  | @halves p _ _ x y n ha hc _ ih =>
    simp only [List.filterMap_cons, ha, List.map_cons, List.sum_cons] at ih ⊢
    rw [ih, amountIn_add]
    ring

theorem PostSplit.givens {ps ps' : List Posting} (h : PostSplit ps ps') : PostSplit (givens ps) (Dinero.givens ps') :=
  h.filter (fun p m m' hm => by simp [hm])

theorem PostSplit.timeless {skip : Bool} {ps ps' : List Posting} (h : PostSplit ps ps') :
    TimelessPostings skip ps ↔ TimelessPostings skip ps' := by
  unfold TimelessPostings
  induction h with
  | nil => rfl
  | same _ ih => simp only [List.forall_mem_cons]; rw [ih]
  | halves ha hc _ ih => simp only [List.forall_mem_cons]; rw [ih]; tauto

theorem books_split {skip : Bool} {start : Str → Cur → Rat} {ps ps' : List Posting} (h : PostSplit ps ps')
    (hf : TimelessPostings skip ps) : (∃ after, Books skip start { postings := ps } after) ↔ ∃ after, Books skip start { postings := ps' } after := by
  have p1 := posts_givens start ps hf
  have p2 := posts_givens start ps' (h.timeless.mp hf)
  have e : ∀ {qs : List Posting}, (∀ p ∈ qs, ¬ p.elided skip) ↔ qs.filter (fun p => p.elided skip) = [] := by
    intro qs; rw [List.filter_eq_nil_iff]; simp
  constructor
  · rintro ⟨after, qs, h1, h2, h3⟩
    have h0 := posts_unique h1 p1
    subst h0
    rcases h3 with ⟨k1, k2, _⟩ | ⟨p, k1, _⟩
    · exact ⟨_, _, p2, by rw [h.weight]; exact h2, .inl ⟨by rw [e] at k1 ⊢; rw [h.elided]; exact k1,
        by rw [h.givens.weight]; exact k2, fun _ _ => rfl⟩⟩
    · exact ⟨_, _, p2, by rw [h.weight]; exact h2, .inr ⟨p, by rw [h.elided]; exact k1, fun _ _ => rfl⟩⟩
  · rintro ⟨after, qs, h1, h2, h3⟩
    have h0 := posts_unique h1 p2
    subst h0
    rw [h.weight] at h2
    rcases h3 with ⟨k1, k2, _⟩ | ⟨p, k1, _⟩
    · exact ⟨_, _, p1, h2, .inl ⟨by rw [e] at k1 ⊢; rw [h.elided] at k1; exact k1,
        by rw [h.givens.weight] at k2; exact k2, fun _ _ => rfl⟩⟩
    · exact ⟨_, _, p1, h2, .inr ⟨p, by rw [h.elided] at k1; exact k1, fun _ _ => rfl⟩⟩

/-- What the entries of a transaction without totals amount to. -/
def enteredSum (skip : Bool) (P : Str → Kind → Bool) (c : Cur) (ps : List Posting) : Rat :=
  postedWhere P (givens ps) c + (match ps.filter (fun p => p.elided skip) with
    | [p] => if P p.account .real then -(weightOf .real (givens ps) c) else 0
    | _ => 0) + postedWhere P (ps.filter (fun p => p.kind ≠ .real)) c

theorem entersAll_sum {skip : Bool} {start : Str → Cur → Rat} {ts : List (Txn Posting)} {es : List Posting}
    (hf : ∀ t ∈ ts, TimelessPostings skip t.postings) (h : EntersAll skip start ts es) (P : Str → Kind → Bool) (c : Cur) :
    postedWhere P es c = (ts.map (fun t => enteredSum skip P c t.postings)).sum := by
  induction h with
  | nil => rfl
  | @cons start t es ts rest h1 _ ih =>
    rw [postedWhere_append, ih (fun t ht => hf t (by simp [ht])), List.map_cons, List.sum_cons]
    congr 1
    obtain ⟨qs, k1, k2⟩ := enters_where h1
    have h0 := posts_unique k1 (posts_givens start t.postings (hf t (by simp)))
    subst h0
    rw [k2]
    rfl

theorem enteredSum_split {skip : Bool} {ps ps' : List Posting} (h : PostSplit ps ps') (P : Str → Kind → Bool) (c : Cur) :
    enteredSum skip P c ps' = enteredSum skip P c ps := by
  unfold enteredSum
  rw [h.givens.posted, h.elided, h.givens.weight, (h.filter (f := fun p => p.kind ≠ .real) (fun _ _ _ _ => rfl)).posted]

/-! ### Names -/

variable {env : Env} {pl pl' : ParsedLedger}

theorem SplitPostings.right {ps ps' : List RawPosting} (h : SplitPostings ps ps') {p' : RawPosting} (hp : p' ∈ ps') :
    ∃ p ∈ ps, ∃ m, p' = { p with moneyAmount := m } := by
  induction h with
  | nil => cases hp
  | @same q _ _ _ ih =>
    rcases List.mem_cons.mp hp with rfl | hp
    · exact ⟨p', by simp, p'.moneyAmount, rfl⟩
    · obtain ⟨p, h1, h2⟩ := ih hp
      exact ⟨p, by simp [h1], h2⟩
  | @halves q a b _ _ hh _ ih =>
    obtain ⟨x, y, rfl, rfl, _⟩ := hh.amounts
    rcases List.mem_cons.mp hp with rfl | hp
    · exact ⟨q, by simp, _, rfl⟩
    rcases List.mem_cons.mp hp with rfl | hp
    · exact ⟨q, by simp, _, rfl⟩
    · obtain ⟨p, h1, h2⟩ := ih hp
      exact ⟨p, by simp [h1], h2⟩

theorem SplitPostings.left {ps ps' : List RawPosting} (h : SplitPostings ps ps') {p : RawPosting} (hp : p ∈ ps) :
    ∃ p' ∈ ps', ∃ m, p' = { p with moneyAmount := m } := by
  induction h with
  | nil => cases hp
  | @same q _ _ _ ih =>
    rcases List.mem_cons.mp hp with rfl | hp
    · exact ⟨p, by simp, p.moneyAmount, rfl⟩
    · obtain ⟨p, h1, h2⟩ := ih hp
      exact ⟨p, by simp [h1], h2⟩
  | @halves q a b _ _ hh _ ih =>
    obtain ⟨x, y, rfl, rfl, _⟩ := hh.amounts
    rcases List.mem_cons.mp hp with rfl | hp
    · exact ⟨_, List.mem_cons_self, _, rfl⟩
    · obtain ⟨p, h1, h2⟩ := ih hp
      exact ⟨p, by simp [h1], h2⟩

theorem Split.post (g : Split pl pl') {Q : RawPosting → Prop} (hQ : ∀ p m, Q { p with moneyAmount := m } ↔ Q p) :
    (∃ t ∈ pl'.transactions, ∃ p ∈ t.postings, Q p) ↔ ∃ t ∈ pl.transactions, ∃ p ∈ t.postings, Q p := by
  constructor
  · rintro ⟨t, ht, p, hp, hq⟩
    obtain ⟨t', h1, h2⟩ := Forall₂.mem_right g.transactions ht
    obtain ⟨p', h3, m, rfl⟩ := h2.2.right hp
    exact ⟨t', h1, p', h3, (hQ _ _).mp hq⟩
  · rintro ⟨t, ht, p, hp, hq⟩
    obtain ⟨t', h1, h2⟩ := Forall₂.mem_right g.transactions.flip ht
    obtain ⟨p', h3, m, rfl⟩ := h2.2.left hp
    exact ⟨t', h1, _, h3, (hQ _ _).mpr hq⟩

theorem Split.names (g : Split pl pl') :
    pl'.accountStrs.Perm pl.accountStrs ∧ pl'.payeeStrs.Perm pl.payeeStrs ∧ pl'.commodityStrs.Perm pl.commodityStrs := by
  refine ⟨?_, ?_, ?_⟩
  · refine (List.perm_ext_iff_of_nodup (nodup_setInsertAll _ _ List.nodup_nil) (nodup_setInsertAll _ _ List.nodup_nil)).mpr ?_
    intro a
    change a ∈ pl'.accountStrs ↔ a ∈ pl.accountStrs
    rw [mem_accountStrs, mem_accountStrs]
    exact g.post (fun _ _ => Iff.rfl)
  · refine (List.perm_ext_iff_of_nodup (nodup_setInsertAll _ _ List.nodup_nil) (nodup_setInsertAll _ _ List.nodup_nil)).mpr ?_
    intro a
    change a ∈ pl'.payeeStrs ↔ a ∈ pl.payeeStrs
    rw [mem_payeeStrs, mem_payeeStrs]
    exact g.post (fun _ _ => Iff.rfl)
  · refine (List.perm_ext_iff_of_nodup (nodup_setInsertAll _ _ (nodup_setInsertAll _ _ List.nodup_nil))
      (nodup_setInsertAll _ _ (nodup_setInsertAll _ _ List.nodup_nil))).mpr ?_
    intro a
    change a ∈ pl'.commodityStrs ↔ a ∈ pl.commodityStrs
    rw [mem_commodityStrs, mem_commodityStrs]
    unfold ParsedLedger.usesCommodity
    rw [g.prices]
    exact or_congr (g.post (fun _ _ => Iff.rfl)) Iff.rfl

/-- The names are entered as for the first journal, met in another hash order. -/
theorem Split.populate (g : Split pl pl') (o : LedgerOrders) : ∃ o', populate env o pl' = Dinero.populate env o' pl := by
  obtain ⟨g1, g2, g3⟩ := g.names
  obtain ⟨s1, h1⟩ := exists_shuf ((o.accounts.perm _).trans g1)
  obtain ⟨s2, h2⟩ := exists_shuf ((o.payees.perm _).trans g2)
  obtain ⟨s3, h3⟩ := exists_shuf ((o.commodities.perm _).trans g3)
  refine ⟨{ o with accounts := s1, payees := s2, commodities := s3 }, ?_⟩
  unfold Dinero.populate
  rw [g.lists]
  simp only [h1, h2, h3]

theorem split_filter {ts ts' : List (Txn RawPosting)} (h : List.Forall₂ Txn.Split ts ts') (k : TType) :
    List.Forall₂ Txn.Split (ts.filter (fun t => t.ttype = k)) (ts'.filter (fun t => t.ttype = k)) := by
  induction h with
  | nil => exact .nil
  | @cons t t' ts ts' h _ ih =>
    have e : t'.ttype = t.ttype := by rw [h.1]
    by_cases hk : t.ttype = k
    · rw [List.filter_cons_of_pos (by simpa using hk), List.filter_cons_of_pos (by rw [e]; simpa using hk)]
      exact .cons h ih
    · rw [List.filter_cons_of_neg (by simpa using hk), List.filter_cons_of_neg (by rw [e]; simpa using hk)]
      exact ih

theorem Split.regular (g : Split pl pl') : List.Forall₂ Txn.Split pl.regular pl'.regular := split_filter g.transactions .real

theorem Split.automated (g : Split pl pl') (h : pl.automated = []) : pl'.automated = [] := by
  have := split_filter g.transactions .automated
  rw [show pl.transactions.filter (fun t => t.ttype = .automated) = [] from h] at this
  cases hx : pl'.transactions.filter (fun t => t.ttype = .automated) with
  | nil => exact hx
  | cons a as => rw [hx] at this; cases this

theorem SplitPostings.totals {ps ps' : List RawPosting} (h : SplitPostings ps ps') :
    (∀ p ∈ ps, p.costType = some .total → p.moneyAmount ≠ some 0) ↔ ∀ p ∈ ps', p.costType = some .total → p.moneyAmount ≠ some 0 := by
  induction h with
  | nil => rfl
  | same _ ih => simp only [List.forall_mem_cons]; rw [ih]
  | @halves p a b _ _ hh _ ih =>
    obtain ⟨x, y, rfl, rfl, _⟩ := hh.amounts
    have hn : p.costType ≠ some .total := by
      rcases hh.cost with ⟨_, k⟩ | ⟨k, _⟩ <;> rw [k] <;> simp
    simp only [List.forall_mem_cons]
    rw [ih]
    simp [hn]

theorem Split.totals (g : Split pl pl') : pl.NoFreeTotals ↔ pl'.NoFreeTotals := by
  unfold ParsedLedger.NoFreeTotals
  have := g.regular
  generalize pl.regular = ts at this
  generalize pl'.regular = ts' at this
  induction this with
  | nil => simp
  | cons e _ ih => simp only [List.forall_mem_cons]; exact and_congr e.2.totals ih

/-! ### Converting -/

theorem rawCost_half {cs : Commodities} {d : Option Date} {p : RawPosting} (h : p.costCurrency = none ∨ p.costType = some .perUnit)
    (m : Option Rat) (am am' : Option Money) : rawCost env cs d { p with moneyAmount := m } am' = rawCost env cs d p am := by
  unfold rawCost
  rcases h with h | h
  · simp only [h]
  · simp only [h, unitPrice]
    cases p.costAmount <;> cases d <;> rfl

theorem rawCost_kind {cs : Commodities} {d : Option Date} {p : RawPosting} {am : Option Money} {x : Option (Cost × Price)}
    (h : rawCost env cs d p am = .ok x) (hc : (p.costCurrency = none ∧ p.costType = none) ∨ p.costType = some .perUnit ∧ p.kind ≠ .virtBal) :
    x.map Prod.fst = none ∨ (∃ u, x.map Prod.fst = some (.perUnit u)) ∧ p.kind ≠ .virtBal := by
  unfold rawCost at h
  rcases hc with ⟨hc, _⟩ | ⟨hc, hk⟩
  · rw [hc] at h; cases h; exact .inl rfl
  · rw [hc] at h
    split at h
    · cases h; exact .inl rfl
    split at h
    · cases h
    split at h
    · cases h
    split at h
    · cases h
    split at h
    · next hty =>
      cases hty
      split at h
      · cases h
      · cases h; exact .inr ⟨⟨_, rfl⟩, hk⟩
    · cases h

theorem convertPosting_halves {s : Shuf} {l : Lists} {t : Txn RawPosting} {tags : List Tag} {p a b : RawPosting} (hh : p.Halves a b)
    {q : Posting} {pr : Option Price} (h : convertPosting env s l t tags p = .ok (q, pr)) :
    ∃ x y n, q.amount = some (.mk (x + y) n) ∧ (q.cost = none ∨ (∃ u, q.cost = some (.perUnit u)) ∧ q.kind ≠ .virtBal) ∧
      convertPosting env s l t tags a = .ok ({ q with amount := some (.mk x n) }, pr) ∧
      convertPosting env s l t tags b = .ok ({ q with amount := some (.mk y n) }, pr) := by
  obtain ⟨x, y, rfl, rfl, hm⟩ := hh.amounts
  obtain ⟨c, hcur⟩ := Option.isSome_iff_exists.mp hh.commodity
  unfold convertPosting at h
  cases h1 : postingPayee env l.payees t.description p with
  | error e => rw [h1] at h; cases h
  | ok payee =>
  rw [h1] at h; simp only at h
  cases h2 : postingAccount env s l.accounts p.account payee with
  | error e => rw [h2] at h; cases h
  | ok account =>
  rw [h2] at h; simp only at h
  cases h3 : rawMoney env l.commodities p.moneyCurrency p.moneyAmount with
  | error e => rw [h3] at h; cases h
  | ok amount =>
  rw [h3] at h; simp only at h
  cases h4 : rawCost env l.commodities t.date p amount with
  | error e => rw [h4] at h; cases h
  | ok cost =>
  rw [h4] at h; simp only at h
  cases h5 : rawMoney env l.commodities p.balanceCurrency p.balanceAmount with
  | error e => rw [h5] at h; cases h
  | ok balance =>
  rw [h5] at h; simp only at h
  cases h
  obtain ⟨n, hn⟩ : ∃ n, commodityNamed env l.commodities c = .ok n := by
    unfold rawMoney at h3
    rw [hcur] at h3
    simp only at h3
    cases hx : commodityNamed env l.commodities c with
    | error e => rw [hx] at h3; cases h3
    | ok n => exact ⟨n, rfl⟩
  have hmon : ∀ z, rawMoney env l.commodities p.moneyCurrency (some z) = .ok (some (.mk z n)) := by
    intro z
    unfold rawMoney
    rw [hcur]
    simp only [hn]
  rw [hm, hmon] at h3
  cases h3
  have hpay : ∀ m, postingPayee env l.payees t.description { p with moneyAmount := m } = .ok payee := fun m => h1
  have hcost : ∀ m am, rawCost env l.commodities t.date { p with moneyAmount := m } am = .ok cost := fun m am => by
    rw [rawCost_half (hh.cost.imp And.left And.left) m (some (.mk (x + y) n)), h4]
  refine ⟨x, y, n, rfl, rawCost_kind h4 hh.cost, ?_, ?_⟩
  · unfold convertPosting
    simp only [hpay, h2, hmon, hcost, h5]
  · unfold convertPosting
    simp only [hpay, h2, hmon, hcost, h5]

theorem convertPostings_split {s : Shuf} {l : Lists} {t : Txn RawPosting} {tags : List Tag} {ps ps' : List RawPosting}
    (h : SplitPostings ps ps') {x x' : List Posting × List Price} (hx : convertPostings env s l t tags ps = .ok x)
    (hx' : convertPostings env s l t tags ps' = .ok x') : PostSplit x.1 x'.1 := by
  have cons : ∀ {p : RawPosting} {ps : List RawPosting} {z : List Posting × List Price},
      convertPostings env s l t tags (p :: ps) = .ok z → ∃ q pr z', convertPosting env s l t tags p = .ok (q, pr) ∧
        convertPostings env s l t tags ps = .ok z' ∧ z.1 = q :: z'.1 := by
    intro p ps z hz
    unfold convertPostings at hz
    cases h1 : convertPosting env s l t tags p with
    | error e => rw [h1] at hz; cases hz
    | ok x1 =>
      rw [h1] at hz
      simp only at hz
      cases h2 : convertPostings env s l t tags ps with
      | error e => rw [h2] at hz; cases hz
      | ok x2 => rw [h2] at hz; cases hz; exact ⟨_, _, _, rfl, rfl, rfl⟩
  induction h generalizing x x' with
  | nil => cases hx; cases hx'; exact .nil
  | same _ ih =>
    obtain ⟨q, pr, z, a1, a2, a3⟩ := cons hx
    obtain ⟨q', pr', z', b1, b2, b3⟩ := cons hx'
    rw [a1] at b1
    cases b1
    rw [a3, b3]
    exact .same (ih a2 b2)
  | halves hh _ ih =>
    obtain ⟨q, pr, z, a1, a2, a3⟩ := cons hx
    obtain ⟨q', pr', z', b1, b2, b3⟩ := cons hx'
    obtain ⟨q2, pr2, z2, c1, c2, c3⟩ := cons b2
    obtain ⟨x0, y0, n, k1, k2, k3, k4⟩ := convertPosting_halves hh a1
    rw [k3] at b1
    cases b1
    rw [k4] at c1
    cases c1
    rw [a3, b3, c3]
    exact .halves k1 k2 (ih a2 c2)

theorem convertPostings_congr {s s' : Shuf} {l l' : Lists} {t t' : Txn RawPosting} {tags : List Tag}
    (hc : ∀ p, convertPosting env s' l' t' tags p = convertPosting env s l t tags p) (ps : List RawPosting) :
    convertPostings env s' l' t' tags ps = convertPostings env s l t tags ps := by
  induction ps with
  | nil => rfl
  | cons p ps ih => unfold convertPostings; rw [hc, ih]

theorem convOf_split {s s' : Shuf} {l l' : Lists} {t t' : Txn RawPosting} (e : t.Split t')
    (hc : ∀ t tags p, convertPosting env s l t tags p = convertPosting env s' l' t tags p)
    (h : Converts env s l t (convOf env s l t)) (h' : Converts env s' l' t' (convOf env s' l' t')) :
    PostSplit (convOf env s l t).1.postings (convOf env s' l' t').1.postings := by
  obtain ⟨ps, h1, _, h2, _⟩ := convertTxn_inv (t := (convOf env s l t).1) (prs := (convOf env s l t).2) h
  obtain ⟨ps', h1', _, h2', _⟩ := convertTxn_inv (t := (convOf env s' l' t').1) (prs := (convOf env s' l' t').2) h'
  have e1 : t'.comments = t.comments := by rw [e.1]
  have e2 : ∀ tags p, convertPosting env s' l' t' tags p = convertPosting env s l t tags p := by
    intro tags p
    rw [hc, e.1]
    rfl
  rw [e1, convertPostings_congr (e2 _)] at h1'
  rw [h2, h2']
  exact convertPostings_split e.2 h1 h1'

end Dinero
