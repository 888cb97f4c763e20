import Verif.Lemmas.Balancing
import Verif.Props.Money
/- Helper lemmas for C12-C21: number of resolved postings, assertions, irrelevance of asserted
totals when checks are off, the balancing pass over a journal, balancing twice. -/
namespace Dinero
open Balance

theorem balanceStep_out_length {skip : Bool} {st st' : LoopSt} {p : Posting}
    (h : balanceStep skip st p = .ok st') :
    st'.out.length = st.out.length + (if p.kept skip then 1 else 0) := by
  unfold balanceStep at h
  by_cases hk : p.kind = .real
  · rw [if_neg (by simp [hk])] at h
    cases ham : p.amount with
    | some m =>
      have hkept : p.kept skip = true := by simp [Posting.kept, Posting.elided, hk, ham]
      rw [ham] at h; simp only at h
      cases hg : HMap.get? st.balances p.account with
      | none => rw [hg] at h; simp at h
      | some had =>
        rw [hg] at h; simp only at h
        split at h
        · simp at h
        · cases hw : balanceEntry m p.cost with
          | error e => rw [hw] at h; simp at h
          | ok w =>
            rw [hw] at h
            simp only [Except.ok.injEq] at h
            rw [← h]; simp [hkept]
    | none =>
      rw [ham] at h
      cases hbl : p.balance with
      | none =>
        have hkept : p.kept skip = false := by simp [Posting.kept, Posting.elided, hk, ham, hbl]
        rw [hbl] at h
        have : st' = { st with fillAccount := p.account, fillPayee := p.payee } := by
          cases skip <;> simpa using h.symm
        rw [this]; simp [hkept]
      | some b =>
        rw [hbl] at h
        cases skip with
        | true =>
          have hkept : p.kept true = false := by simp [Posting.kept, Posting.elided, hk, ham]
          simp only [Except.ok.injEq] at h
          rw [← h]; simp [hkept]
        | false =>
          have hkept : p.kept false = true := by simp [Posting.kept, Posting.elided, hk, hbl]
          simp only at h
          cases hg : HMap.get? st.balances p.account with
          | none => rw [hg] at h; simp at h
          | some had =>
            rw [hg] at h; simp only at h
            cases htm : toMoney (Balance.sub (ofMoney b) had) with
            | error e => rw [htm] at h; simp at h
            | ok m =>
              rw [htm] at h
              simp only [Except.ok.injEq] at h
              rw [← h]; simp [hkept]
  · rw [if_pos (by simpa using hk)] at h
    have hkept : p.kept skip = false := by simp [Posting.kept, hk]
    simp only [Except.ok.injEq] at h
    rw [← h]; simp [hkept]

theorem balanceLoop_out_length {skip : Bool} (ps : List Posting) {st st' : LoopSt}
    (h : balanceLoop skip ps st = .ok st') :
    st'.out.length = st.out.length + (ps.filter (Posting.kept skip)).length := by
  induction ps generalizing st with
  | nil => simp only [balanceLoop, Except.ok.injEq] at h; rw [h]; simp
  | cons p ps ih =>
    rw [balanceLoop] at h
    cases hs : balanceStep skip st p with
    | error e => rw [hs] at h; simp at h
    | ok st1 =>
      rw [hs] at h; simp only at h
      rw [ih h, balanceStep_out_length hs, List.filter_cons]
      by_cases hk : p.kept skip = true <;> simp [hk]; omega

/-- See `C14_assertion_enforced`. -/
theorem assertion_enforced {s : Shuf} {bals bals' : Balances} {t t' : Txn Posting}
    {ret : Balance} (h : Txn.balance s false bals t = .ok (bals', t', ret)) (hb : bals.Ok)
    (hp : ∀ p ∈ t.postings, p.CostOk) : AssertionsHold (balAmt bals) t'.postings := by
  obtain ⟨res, gen, hB⟩ := balance_spec h hb hp
  have hA := (hB.asserts rfl).split hB.resolved.length_eq
  have hgen : ∀ q ∈ gen, q.balance = none := by
    intro q hq
    rcases hB.cases with ⟨_, hg, _⟩ | ⟨p, _, _, ms, hg, _⟩
    · rw [hg] at hq; cases hq
    · rw [hg] at hq
      obtain ⟨m, _, rfl⟩ := List.mem_map.mp hq
      rfl
  intro pre q post hq hk x d hbal
  rw [hB.postings] at hq
  simp only at hq
  -- the asserting posting lies in `res`
  rcases List.append_eq_append_iff.mp hq with ⟨l, hl1, hl2⟩ | ⟨l, hl1, hl2⟩
  · -- it would be among the virtual postings
    exfalso
    have : q ∈ t.postings.filter (fun p => p.kind ≠ .real) := by rw [hl2]; simp
    have := (List.mem_filter.mp this).2
    simp [hk] at this
  · cases l with
    | nil =>
      exfalso
      have : q ∈ t.postings.filter (fun p => p.kind ≠ .real) := by
        simp only [List.nil_append] at hl2
        rw [← hl2]; simp
      have := (List.mem_filter.mp this).2
      simp [hk] at this
    | cons q' l =>
      simp only [List.cons_append, List.cons.injEq] at hl2
      obtain ⟨rfl, hl2⟩ := hl2
      rcases List.append_eq_append_iff.mp hl1 with ⟨l', h1, h2⟩ | ⟨l', h1, h2⟩
      · exfalso
        have : q ∈ gen := by rw [h2]; simp
        rw [hgen q this] at hbal; cases hbal
      · cases l' with
        | nil =>
          exfalso
          simp only [List.nil_append] at h2
          have : q ∈ gen := by rw [← h2]; simp
          rw [hgen q this] at hbal; cases hbal
        | cons q' l' =>
          simp only [List.cons_append, List.cons.injEq] at h2
          obtain ⟨rfl, h2⟩ := h2
          exact hA pre q l' h1 x d hbal

theorem EqUpToBalance.refl (p : Posting) : EqUpToBalance p p := rfl

theorem EqUpToBalance.fields {p q : Posting} (h : EqUpToBalance p q) :
    p.account = q.account ∧ p.amount = q.amount ∧ p.cost = q.cost ∧ p.kind = q.kind ∧
    p.comments = q.comments ∧ p.tags = q.tags ∧ p.payee = q.payee ∧ p.origin = q.origin := by
  unfold EqUpToBalance at h
  injection h with h1 h2 h3 h4 h5 h6 h7 h8 h9
  exact ⟨h1, h2, h4, h5, h6, h7, h8, h9⟩

/-- Loop states that differ at most in asserted totals of the postings already produced. -/
structure SimSt (a b : LoopSt) : Prop where
  bals : a.balances = b.balances
  tbal : a.tbal = b.tbal
  acc : a.fillAccount = b.fillAccount
  pay : a.fillPayee = b.fillPayee
  out : List.Forall₂ EqUpToBalance a.out b.out

/-- Same outcome up to asserted totals. -/
def SimRes : Res LoopSt → Res LoopSt → Prop
  | .ok a, .ok b => SimSt a b
  | .error e, .error f => e = f
  | _, _ => False

theorem Forall₂.snoc {α β : Type} {R : α → β → Prop} {l : List α} {l' : List β}
    (h : List.Forall₂ R l l') {a : α} {b : β} (hr : R a b) :
    List.Forall₂ R (l ++ [a]) (l' ++ [b]) := by
  induction h with
  | nil => exact .cons hr .nil
  | cons h0 _ ih => exact .cons h0 ih

theorem resolve_sim {p q : Posting} (h : EqUpToBalance p q) (m : Money) :
    EqUpToBalance (p.resolve m) (q.resolve m) := by
  obtain ⟨h1, h2, h4, h5, h6, h7, h8, h9⟩ := h.fields
  unfold EqUpToBalance Posting.resolve
  simp [h1, h4, h6, h7, h8]

/-- A step is the same for postings differing in an assertion that does not decide anything. -/
theorem balanceStep_sim {skip : Bool} {a b : LoopSt} {p q : Posting} (hs : SimSt a b)
    (hpq : EqUpToBalance p q)
    (hbal : skip = true ∨ p.balance = q.balance ∨
      (p.amount.isSome ∧ ∀ had m, a.balances.get? p.account = some had → p.amount = some m →
        assertOk skip p.balance (Balance.add had (ofMoney m)) =
        assertOk skip q.balance (Balance.add had (ofMoney m)))) :
    SimRes (balanceStep skip a p) (balanceStep skip b q) := by
  obtain ⟨h1, h2, h4, h5, h6, h7, h8, h9⟩ := hpq.fields
  unfold balanceStep
  by_cases hk : p.kind = .real
  · rw [if_neg (by simp [hk]), if_neg (by simp [← h5, hk])]
    cases ham : p.amount with
    | some m =>
      rw [ham] at h2; rw [← h2]
      simp only
      rw [← h1, ← hs.bals]
      cases hg : HMap.get? a.balances p.account with
      | none => exact rfl
      | some had =>
        simp only
        have hok : assertOk skip p.balance (Balance.add had (ofMoney m)) =
            assertOk skip q.balance (Balance.add had (ofMoney m)) := by
          rcases hbal with h | h | h
          · subst h; rfl
          · rw [h]
          · exact h.2 had m hg ham
        rw [hok, ← h4]
        split
        · exact rfl
        · cases balanceEntry m p.cost with
          | error e => exact rfl
          | ok w =>
            exact ⟨rfl, by rw [hs.tbal], hs.acc, hs.pay, Forall₂.snoc hs.out (resolve_sim hpq m)⟩
    | none =>
      rw [ham] at h2; rw [← h2]
      have hbal' : skip = true ∨ p.balance = q.balance := by
        rcases hbal with h | h | h
        · exact Or.inl h
        · exact Or.inr h
        · rw [ham] at h; simp at h
      cases skip with
      | true =>
        cases p.balance <;> cases q.balance <;>
          exact ⟨hs.bals, hs.tbal, h1, h8, hs.out⟩
      | false =>
        have hbq : p.balance = q.balance := by
          rcases hbal' with h | h
          · cases h
          · exact h
        rw [← hbq]
        cases hbl : p.balance with
        | none => exact ⟨hs.bals, hs.tbal, h1, h8, hs.out⟩
        | some bb =>
          simp only
          rw [← h1, ← hs.bals]
          cases hg : HMap.get? a.balances p.account with
          | none => exact rfl
          | some had =>
            simp only
            cases toMoney (Balance.sub (ofMoney bb) had) with
            | error e => exact rfl
            | ok m =>
              exact ⟨rfl, by rw [hs.tbal], hs.acc, hs.pay, Forall₂.snoc hs.out (resolve_sim hpq m)⟩
  · rw [if_pos (by simpa using hk), if_pos (by rw [← h5]; simpa using hk)]
    exact hs

theorem balanceLoop_sim {skip : Bool} {ps qs : List Posting} {a b : LoopSt} (hs : SimSt a b)
    (h : List.Forall₂ (fun p q => EqUpToBalance p q ∧ (skip = true ∨ p.balance = q.balance)) ps qs) :
    SimRes (balanceLoop skip ps a) (balanceLoop skip qs b) := by
  induction h generalizing a b with
  | nil => exact hs
  | @cons p q ps qs hpq _ ih =>
    rw [balanceLoop, balanceLoop]
    have := balanceStep_sim (skip := skip) hs hpq.1 (hpq.2.imp id Or.inl)
    revert this
    cases balanceStep skip a p with
    | error e =>
      cases balanceStep skip b q with
      | error e' => exact fun h => h
      | ok b' => exact fun h => h.elim
    | ok a' =>
      cases balanceStep skip b q with
      | error e' => exact fun h => h.elim
      | ok b' => exact fun h => ih h

theorem totalBalanceLoop_sim (k : Kind) {ps qs : List Posting}
    (h : List.Forall₂ EqUpToBalance ps qs) (acc : Balance) :
    totalBalanceLoop k ps acc = totalBalanceLoop k qs acc := by
  induction h generalizing acc with
  | nil => rfl
  | @cons p q ps qs hpq _ ih =>
    obtain ⟨h1, h2, h4, h5, _⟩ := hpq.fields
    rw [totalBalanceLoop, totalBalanceLoop, h2, h4, h5]
    cases q.amount with
    | none => exact ih acc
    | some m =>
      simp only
      split
      · cases totalBalanceEntry m q.cost with
        | error e => rfl
        | ok c => exact ih _
      · exact ih acc

theorem forall₂_filter_kind {ps qs : List Posting} (h : List.Forall₂ EqUpToBalance ps qs)
    (f : Kind → Bool) :
    List.Forall₂ EqUpToBalance (ps.filter (fun p => f p.kind)) (qs.filter (fun p => f p.kind)) := by
  induction h with
  | nil => exact .nil
  | @cons p q ps qs hpq _ ih =>
    rw [List.filter_cons, List.filter_cons, hpq.fields.2.2.2.1]
    split
    · exact .cons hpq ih
    · exact ih

theorem forall₂_refl {α : Type} {R : α → α → Prop} (hr : ∀ a, R a a) (l : List α) :
    List.Forall₂ R l l := by
  induction l with
  | nil => exact .nil
  | cons a l ih => exact .cons (hr a) ih

theorem forall₂_append {α β : Type} {R : α → β → Prop} {a c : List α} {b d : List β}
    (h1 : List.Forall₂ R a b) (h2 : List.Forall₂ R c d) : List.Forall₂ R (a ++ c) (b ++ d) := by
  induction h1 with
  | nil => exact h2
  | cons h _ ih => exact .cons h ih

/-- If the loops agree up to assertions, so do the transactions. -/
theorem balance_sim {s : Shuf} {skip : Bool} {bals : Balances} {t u : Txn Posting}
    (hmeta : t = { u with postings := t.postings })
    (hps : List.Forall₂ EqUpToBalance t.postings u.postings)
    (hloop : SimRes (balanceLoop skip t.postings (initSt bals))
      (balanceLoop skip u.postings (initSt bals))) :
    (∀ e, Txn.balance s skip bals t = .error e ↔ Txn.balance s skip bals u = .error e) ∧
    (∀ bals' t' ret, Txn.balance s skip bals t = .ok (bals', t', ret) →
      ∃ u', Txn.balance s skip bals u = .ok (bals', u', ret) ∧
        t' = { u' with postings := t'.postings } ∧
        List.Forall₂ EqUpToBalance t'.postings u'.postings) := by
  have hv : totalBalance t.postings .virtBal = totalBalance u.postings .virtBal :=
    totalBalanceLoop_sim .virtBal hps _
  have hr : (t.postings.filter (fun p => p.kind = .real)).length
      = (u.postings.filter (fun p => p.kind = .real)).length :=
    (forall₂_filter_kind hps (fun k => k = .real)).length_eq
  have ho := forall₂_filter_kind hps (fun k => k ≠ .real)
  unfold Txn.balance
  rw [hv]
  cases totalBalance u.postings .virtBal with
  | error e => simp
  | ok vb =>
    simp only
    split
    · simp
    · rw [show (⟨bals, Balance.new, "this will never be used".toList, none, []⟩ : LoopSt)
          = initSt bals from rfl]
      revert hloop
      cases balanceLoop skip t.postings (initSt bals) with
      | error e =>
        cases balanceLoop skip u.postings (initSt bals) with
        | error e' => intro h; cases h; simp
        | ok b => exact fun h => h.elim
      | ok a =>
        cases balanceLoop skip u.postings (initSt bals) with
        | error e' => exact fun h => h.elim
        | ok b =>
          intro hs
          have hs' : SimSt a b := hs
          simp only [hr, hs'.out.length_eq, hs'.tbal, hs'.acc, hs'.pay, hs'.bals]
          split
          · simp
          · split
            · split
              · refine ⟨by simp, ?_⟩
                intro bals' t' ret h
                simp only [Except.ok.injEq, Prod.mk.injEq] at h
                obtain ⟨rfl, rfl, rfl⟩ := h
                exact ⟨_, rfl, by rw [hmeta], forall₂_append hs'.out ho⟩
              · simp
            · -- filling
              have key : ∀ (ms : List Money) (bb : Balances) (o1 o2 : List Posting),
                  List.Forall₂ EqUpToBalance o1 o2 →
                  (∃ e, fillLoop t b.fillAccount b.fillPayee ms bb o1 = .error e ∧
                    fillLoop u b.fillAccount b.fillPayee ms bb o2 = .error e) ∨
                  (∃ bb' r1 r2, fillLoop t b.fillAccount b.fillPayee ms bb o1 = .ok (bb', r1) ∧
                    fillLoop u b.fillAccount b.fillPayee ms bb o2 = .ok (bb', r2) ∧
                    List.Forall₂ EqUpToBalance r1 r2) := by
                intro ms
                induction ms with
                | nil => intro bb o1 o2 h; exact Or.inr ⟨bb, o1, o2, rfl, rfl, h⟩
                | cons m ms ih =>
                  intro bb o1 o2 h
                  simp only [fillLoop]
                  cases HMap.get? bb b.fillAccount with
                  | none => exact Or.inl ⟨_, rfl, rfl⟩
                  | some had =>
                    apply ih
                    refine Forall₂.snoc h ?_
                    rw [hmeta]; rfl
              rcases key ((s.run (Balance.neg b.tbal)).map Prod.snd) b.balances a.out b.out hs'.out with
                ⟨e, e1, e2⟩ | ⟨bb', r1, r2, e1, e2, e3⟩
              · rw [e1, e2]; simp
              · rw [e1, e2]
                refine ⟨by simp, ?_⟩
                intro bals' t' ret h
                simp only [Except.ok.injEq, Prod.mk.injEq] at h
                obtain ⟨rfl, rfl, rfl⟩ := h
                exact ⟨_, rfl, by rw [hmeta], forall₂_append e3 ho⟩

theorem balanceAll_wf {skip : Bool} (ts : List (Txn Posting)) {σ : Nat → Shuf}
    {bals bals' : Balances} {rs : List (Txn Posting × Balance)}
    (h : balanceAll skip σ bals ts = .ok (bals', rs)) (hb : bals.Ok)
    (hp : ∀ t ∈ ts, ∀ p ∈ t.postings, p.CostOk) :
    bals'.Ok ∧ (∀ a, (bals'.get? a).isSome = (bals.get? a).isSome) ∧
    (∀ a c, balAmt bals' a c = balAmt bals a c + postedTo (rs.flatMap (fun r => r.1.postings)) a c) ∧
    (skip = false → AssertionsHold (balAmt bals) (rs.flatMap (fun r => r.1.postings))) := by
  induction ts generalizing σ bals rs with
  | nil =>
    simp only [balanceAll, Except.ok.injEq, Prod.mk.injEq] at h
    obtain ⟨rfl, rfl⟩ := h
    refine ⟨hb, fun _ => rfl, by simp, fun _ => ?_⟩
    intro pre q post hq; simp at hq
  | cons t ts ih =>
    rw [balanceAll] at h
    cases h1 : Txn.balance (σ 0) skip bals t with
    | error e => rw [h1] at h; simp at h
    | ok r =>
      obtain ⟨b1, t1, r1⟩ := r
      rw [h1] at h
      simp only at h
      cases h2 : balanceAll skip (fun i => σ (i + 1)) b1 ts with
      | error e => rw [h2] at h; simp at h
      | ok r2 =>
        obtain ⟨b2, rest⟩ := r2
        rw [h2] at h
        simp only [Except.ok.injEq, Prod.mk.injEq] at h
        obtain ⟨rfl, rfl⟩ := h
        have hpt := hp t (by simp)
        obtain ⟨res, gen, hB⟩ := balance_spec h1 hb hpt
        obtain ⟨i1, i2, i3, i4⟩ := ih h2 hB.balsOk (fun u hu => hp u (by simp [hu]))
        have hposted : ∀ a c, balAmt b1 a c = balAmt bals a c + postedTo t1.postings a c := by
          intro a c
          rw [hB.amounts, ← postedTo_filter_real t1.postings, hB.reals]
        refine ⟨i1, fun a => (i2 a).trans (hB.dom a), ?_, ?_⟩
        · intro a c
          rw [i3, hposted, List.flatMap_cons, postedTo_append]; ring
        · intro hsk
          subst hsk
          have hA := assertion_enforced h1 hb hpt
          have hrest := i4 rfl
          intro pre q post hq hk x d hbal
          rw [List.flatMap_cons] at hq
          rcases List.append_eq_append_iff.mp hq with ⟨l, hl1, hl2⟩ | ⟨l, hl1, hl2⟩
          · have := hrest l q post hl2 hk x d hbal
            rw [hposted] at this
            rw [hl1, List.append_assoc, postedTo_append]
            simp only at this ⊢
            linarith
          · cases l with
            | nil =>
              simp only [List.nil_append] at hl2
              have := hrest [] q post hl2.symm hk x d hbal
              rw [hposted] at this
              simp only [List.append_nil] at hl1
              rw [← hl1, postedTo_append]
              simp only [List.nil_append] at this
              linarith
            | cons q' l =>
              simp only [List.cons_append, List.cons.injEq] at hl2
              obtain ⟨rfl, _⟩ := hl2
              exact hA pre q l hl1 hk x d hbal

/-- See `C20_real_total`. -/
theorem real_total {s : Shuf} {skip : Bool} {bals bals' : Balances} {t t' : Txn Posting}
    {ret : Balance} (h : Txn.balance s skip bals t = .ok (bals', t', ret)) (hb : bals.Ok)
    (hp : ∀ p ∈ t.postings, p.CostOk) (c : Cur) :
    ret.amountOf c = weightOf .real t'.postings c := by
  obtain ⟨res, gen, hB⟩ := balance_spec h hb hp
  rw [← weightOf_filter_real, hB.reals]
  rcases hB.cases with ⟨_, hg, _, _, _, hret⟩ | ⟨p, hpe, hret, ms, hg, hnd, hms⟩
  · rw [hret, hg]; simp
  · have hsum := sumIn_of_cover (f := fun c => -(weightOf .real res c)) hnd (by
      intro m; rw [hms]; simp)
    rw [hret, weightOf_append, hg, weightOf_fill, hsum]; simp

theorem totalBalanceLoop_filter (k : Kind) (ps : List Posting) (acc : Balance) :
    totalBalanceLoop k ps acc = totalBalanceLoop k (ps.filter (fun p => p.kind = k)) acc := by
  induction ps generalizing acc with
  | nil => rfl
  | cons p ps ih =>
    rw [List.filter_cons]
    by_cases hk : p.kind = k
    · rw [if_pos (by simpa using hk), totalBalanceLoop, totalBalanceLoop]
      cases p.amount with
      | none => exact ih acc
      | some m =>
        simp only [hk, if_true]
        cases totalBalanceEntry m p.cost with
        | error e => rfl
        | ok c => exact ih _
    · rw [if_neg (by simpa using hk), totalBalanceLoop, ← ih]
      cases p.amount with
      | none => rfl
      | some m => simp [hk]

theorem Balanced.costOk {skip : Bool} {bals bals' : Balances} {t t' : Txn Posting} {ret : Balance}
    {res gen : List Posting} (h : Balanced skip bals t bals' t' ret res gen)
    (hp : ∀ p ∈ t.postings, p.CostOk) : ∀ q ∈ t'.postings, q.CostOk := by
  intro q hq
  rw [h.postings] at hq
  simp only [List.append_assoc, List.mem_append] at hq
  rcases hq with hq | hq | hq
  · obtain ⟨p, hpm, hr⟩ := Forall₂.mem_right h.resolved hq
    have hc := hp p (List.mem_filter.mp hpm).1
    have hcost : q.cost = p.cost := by rw [hr.same]
    unfold Posting.CostOk at hc ⊢
    rw [hcost]
    cases hpc : p.cost with
    | none => trivial
    | some cst =>
      rw [hpc] at hc
      cases cst with
      | total t =>
        obtain ⟨⟨x, y, h1⟩, h2⟩ := hc
        exact ⟨⟨x, y, hr.keeps _ h1⟩, h2⟩
      | perUnit t =>
        obtain ⟨⟨x, y, h1⟩, h2⟩ := hc
        exact ⟨⟨x, y, hr.keeps _ h1⟩, h2⟩
  · rcases h.cases with ⟨_, hg, _⟩ | ⟨p, _, _, ms, hg, _⟩
    · rw [hg] at hq; cases hq
    · rw [hg] at hq
      obtain ⟨m, _, rfl⟩ := List.mem_map.mp hq
      trivial
  · exact hp q (List.mem_filter.mp hq).1

theorem Balanced.allAmounts {skip : Bool} {bals bals' : Balances} {t t' : Txn Posting}
    {ret : Balance} {res gen : List Posting} (h : Balanced skip bals t bals' t' ret res gen) :
    ∀ q ∈ t'.postings, q.kind = .real → q ∈ res ++ gen ∧ q.amount.isSome ∧
      q.origin = .fromTransaction := by
  intro q hq hk
  have : q ∈ t'.postings.filter (fun p => p.kind = .real) :=
    List.mem_filter.mpr ⟨hq, by simpa using hk⟩
  rw [h.reals] at this
  refine ⟨this, ?_⟩
  rcases List.mem_append.mp this with hq | hq
  · obtain ⟨p, _, hr⟩ := Forall₂.mem_right h.resolved hq
    exact ⟨hr.hasAmount, by rw [hr.same]⟩
  · rcases h.cases with ⟨_, hg, _⟩ | ⟨p, _, _, ms, hg, _⟩
    · rw [hg] at hq; cases hq
    · rw [hg] at hq
      obtain ⟨m, _, rfl⟩ := List.mem_map.mp hq
      exact ⟨rfl, rfl⟩

/-- Balancing the result of balancing, from running balances holding the same amounts, succeeds
and changes nothing. -/
theorem balance_idempotent {s s' : Shuf} {skip : Bool} {bals bals' bals2 : Balances}
    {t t' : Txn Posting} {ret : Balance}
    (h : Txn.balance s skip bals t = .ok (bals', t', ret)) (hb : bals.Ok) (hb2 : bals2.Ok)
    (hp : ∀ p ∈ t.postings, p.CostOk) (heq : BalsEq bals bals2) :
    ∃ bals2' ret', Txn.balance s' skip bals2 t' = .ok (bals2', t', ret') ∧ bals2'.Ok ∧
      BalsEq bals' bals2' ∧ ret'.Perm ret := by
  obtain ⟨res, gen, hB⟩ := balance_spec h hb hp
  have hcost := hB.costOk hp
  have hall := hB.allAmounts
  have hA : skip = true ∨ AssertionsHold (balAmt bals2) t'.postings := by
    cases skip with
    | true => exact Or.inl rfl
    | false =>
      right
      have := assertion_enforced h hb hp
      exact (AssertionsHold.congr heq.amt).mp this
  have hloop := (balanceLoop_full (skip := skip) t'.postings (initSt bals2) hb2 .new
    (initSt_canon bals2) hcost (fun p hpm hk => (hall p hpm hk).2.1) (by
      intro p hpm hk
      have := hB.known p (hall p hpm hk).1
      simpa [initSt, ← heq.dom] using this)).1 hA
  obtain ⟨st, hst, _, hout⟩ := hloop
  have hout' : st.out = res ++ gen := by
    rw [hout, hB.reals]
    simp only [initSt, List.nil_append]
    rw [List.map_congr_left (g := id), List.map_id]
    intro p hpm
    have hpm' : p ∈ t'.postings.filter (fun p => p.kind = .real) := by rw [hB.reals]; exact hpm
    have hk := (List.mem_filter.mp hpm')
    have := (hall p hk.1 (by simpa using hk.2)).2.2
    cases p
    simp only at this
    simp [this]
  obtain ⟨l1, l2, l3, l4, res', l5, l6, l7, l8, l9, l10⟩ :=
    balanceLoop_spec t'.postings hst hb2 .new (initSt_canon bals2) hcost
  have hres' : res' = res ++ gen := by
    rw [hout'] at l5; simpa [initSt] using l5.symm
  have hwt : ∀ c, amountOf st.tbal c = ret.amountOf c := by
    intro c
    rw [l7, hres', real_total h hb hp, ← weightOf_filter_real t'.postings, hB.reals]
    simp [initSt]
  have hretcan : Canon ret := by
    rcases hB.cases with ⟨_, _, _, _, hc, _⟩ | ⟨_, _, hr, _⟩
    · exact hc
    · rw [hr]; exact Canon.nil
  have hmay : MayBalance ret.amountOf := by
    rcases hB.cases with ⟨_, _, hm, _, _, hr⟩ | ⟨_, _, hr, _⟩
    · exact (mayBalance_congr hr).mpr hm
    · rw [hr]; exact Or.inl (fun c => rfl)
  have hcz : canBeZero st.tbal = true :=
    (C05_canBeZero_iff l2).mpr ((mayBalance_congr hwt).mpr hmay)
  have hothers : t'.postings.filter (fun p => p.kind ≠ .real)
      = t.postings.filter (fun p => p.kind ≠ .real) := by
    rw [hB.postings]
    have hrealp : ∀ q ∈ res ++ gen, q.kind = .real := by
      intro q hq
      have : q ∈ t'.postings.filter (fun p => p.kind = .real) := by rw [hB.reals]; exact hq
      simpa using (List.mem_filter.mp this).2
    simp only
    rw [List.filter_append, List.filter_eq_nil_iff.mpr (by
      intro q hq; simp [hrealp q hq]), List.filter_filter]
    simp
  have hv : ∃ vb, totalBalance t'.postings .virtBal = .ok vb ∧ canBeZero vb = true := by
    obtain ⟨vb, hv, hz⟩ := hB.virt
    refine ⟨vb, ?_, hz⟩
    rw [← hv]
    unfold totalBalance
    rw [totalBalanceLoop_filter .virtBal t'.postings, totalBalanceLoop_filter .virtBal t.postings]
    congr 1
    have e : ∀ l : List Posting, l.filter (fun p => p.kind = .virtBal)
        = (l.filter (fun p => p.kind ≠ .real)).filter (fun p => p.kind = .virtBal) := by
      intro l
      rw [List.filter_filter]
      apply List.filter_congr
      intro p _; cases p.kind <;> simp
    rw [e t'.postings, e t.postings, hothers]
  obtain ⟨vb, hv1, hv2⟩ := hv
  refine ⟨st.balances, st.tbal, ?_, l1, ⟨?_, ?_⟩, l3.perm_of_amountOf hretcan hwt⟩
  · unfold Txn.balance
    rw [hv1]
    simp only [hv2]
    rw [show (⟨bals2, Balance.new, "this will never be used".toList, none, []⟩ : LoopSt)
          = initSt bals2 from rfl, hst]
    have h0 : (t'.postings.filter (fun p => p.kind = .real)).length - st.out.length = 0 := by
      rw [hB.reals, hout']; simp
    simp only [h0, hcz]
    rw [hothers, hout']
    have : ({ t' with postings := res ++ gen ++ t.postings.filter (fun p => p.kind ≠ .real) }
        : Txn Posting) = t' := by
      rw [hB.postings]
    rw [this]
    rfl
  · intro a
    rw [hB.dom, l4, heq.dom]; rfl
  · intro a c
    rw [hB.amounts, l8, hres']
    simp only [initSt]; rw [heq.amt]

end Dinero
