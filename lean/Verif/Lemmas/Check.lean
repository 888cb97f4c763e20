import Verif.Spec.Check
import Verif.Lemmas.Convert
import Verif.Lemmas.Orders
/-
Lemmas on when transactions are booked.
-/
namespace Dinero
open Balance

theorem afterPosting_posted {start : Str → Cur → Rat} {q : Posting} {m : Money} (hk : q.kind = .real)
    (hm : q.amount = some m) (a : Str) (c : Cur) :
    afterPosting start q.account m a c = start a c + postedTo [q] a c := by
  rw [postedTo_cons]; simp [afterPosting, hk, hm]

theorem CostOk.none {p : Posting} (hp : p.CostOk) (h : p.amount = Option.none) : p.cost = Option.none := by
  unfold Posting.CostOk at hp
  cases hcst : p.cost with
  | none => rfl
  | some cst => rw [hcst, h] at hp; cases cst <;> simp at hp

theorem balanceStep_other {skip : Bool} {st : LoopSt} {p : Posting} (h : p.kind ≠ .real) :
    balanceStep skip st p = .ok st := by
  unfold balanceStep; rw [if_pos h]

theorem balanceStep_elided {skip : Bool} {st : LoopSt} {p : Posting} (h : p.elided skip) :
    balanceStep skip st p = .ok { st with fillAccount := p.account, fillPayee := p.payee } := by
  obtain ⟨h1, h2, h3⟩ := h
  unfold balanceStep
  rw [if_neg (by simp [h1]), h2]
  cases hb : p.balance with
  | none => cases skip <;> rfl
  | some b =>
    rcases h3 with h3 | h3
    · rw [hb] at h3; cases h3
    · subst h3; rfl

theorem balanceStep_given {skip : Bool} {st : LoopSt} {p : Posting} {m : Money} (hb : st.balances.Ok)
    (hk : p.kind = .real) (hm : p.amount = some m) (hp : p.CostOk) (hg : (st.balances.get? p.account).isSome)
    (ha : skip = false → ∀ x d, p.balance = some (.mk x d) → balAmt st.balances p.account d + m.amountIn d = x) :
    ∃ st', balanceStep skip st p = .ok st' := by
  obtain ⟨had, hg⟩ := Option.isSome_iff_exists.mp hg
  obtain ⟨w, hw1, hw2⟩ := balanceEntry_spec hm hp
  have hexp : Reachable (Balance.add had (ofMoney m)) := .add (hb _ _ hg) (.ofMoney _)
  have hok : assertOk skip p.balance (Balance.add had (ofMoney m)) = true := by
    rw [assertOk_iff hexp]
    cases skip with
    | true => exact .inl rfl
    | false =>
      right
      intro x d hx
      rw [amountOf_add (hb _ _ hg).wf (ofMoney_wf _), amountOf_ofMoney, ← ha rfl x d hx]
      simp [balAmt, hg]
  unfold balanceStep
  rw [if_neg (by simp [hk]), hm]
  simp only [hg, hw1, hok]
  exact ⟨_, rfl⟩

theorem balanceStep_assigned {st : LoopSt} {p : Posting} {m b : Money} (hb : st.balances.Ok)
    (hk : p.kind = .real) (hm : p.amount = none) (hbal : p.balance = some b)
    (hg : (st.balances.get? p.account).isSome)
    (ha : ∀ c, balAmt st.balances p.account c + m.amountIn c = b.amountIn c) :
    ∃ st', balanceStep false st p = .ok st' := by
  obtain ⟨had, hg⟩ := Option.isSome_iff_exists.mp hg
  have hr : Reachable (Balance.sub (ofMoney b) had) := .sub (.ofMoney _) (hb _ _ hg)
  have hd : ∀ c, amountOf (Balance.sub (ofMoney b) had) c = m.amountIn c := by
    intro c
    rw [amountOf_sub (ofMoney_wf _) (hb _ _ hg).wf, amountOf_ofMoney, ← ha c]
    simp [balAmt, hg]
  obtain ⟨x, hx⟩ := (C04_toMoney hr).2.1.mpr (by
    intro c d hc hd'
    rw [hd] at hc hd'
    cases m with
    | zero => simp at hc
    | mk q e =>
      simp only [Money.amountIn_mk] at hc hd'
      have h1 : e = c := by by_contra h; simp [h] at hc
      have h2 : e = d := by by_contra h; simp [h] at hd'
      rw [← h1, h2])
  unfold balanceStep
  rw [if_neg (by simp [hk]), hm, hbal]
  simp only [hg, hx]
  exact ⟨_, rfl⟩

theorem weight_resolved {p q : Posting} {m : Money} (h : Resolved p q) (hm : p.amount = some m) :
    q.weight = p.weight := by
  have hq := h.keeps m hm
  have hc : q.cost = p.cost := by rw [h.same]
  unfold Posting.weight
  rw [hq, hm, hc]

theorem account_resolved {p q : Posting} (h : Resolved p q) : q.account = p.account := by rw [h.same]

/-- Postings that can be posted are. -/
theorem posts_loop {skip : Bool} {start : Str → Cur → Rat} {ps qs : List Posting} (h : Posts skip start ps qs) :
    ∀ {st : LoopSt}, (∀ a c, balAmt st.balances a c = start a c) → st.balances.Ok → st.tbal.Reachable →
    Canon st.tbal → (∀ p ∈ ps, p.CostOk) → (∀ p ∈ ps, (st.balances.get? p.account).isSome) →
    ∃ st', balanceLoop skip ps st = .ok st' ∧
      (∀ c, amountOf st'.tbal c = amountOf st.tbal c + weightOf .real qs c) ∧
      (∀ a c, balAmt st'.balances a c = start a c + postedTo qs a c) := by
  induction h with
  | nil => intro st hs _ _ _ _ _; exact ⟨st, rfl, by simp, by simp [hs]⟩
  | other hk _ ih =>
    intro st hs hb ht hc hp hd
    rw [balanceLoop, balanceStep_other hk]
    exact ih hs hb ht hc (fun q hq => hp q (by simp [hq])) (fun q hq => hd q (by simp [hq]))
  | elided he _ ih =>
    intro st hs hb ht hc hp hd
    rw [balanceLoop, balanceStep_elided he]
    exact ih hs hb ht hc (fun q hq => hp q (by simp [hq])) (fun q hq => hd q (by simp [hq]))
  | @given start p m ps qs hk hm ha _ ih =>
    intro st hs hb ht hc hp hd
    obtain ⟨st1, h1⟩ := balanceStep_given (skip := skip) hb hk hm (hp p (by simp)) (hd p (by simp))
      (by intro h x d hx; rw [hs]; exact ha h x d hx)
    obtain ⟨s1, s2, s3, s4, s5⟩ := balanceStep_spec h1 hb ht hc (hp p (by simp))
    have hkept : p.kept skip = true := by simp [Posting.kept, Posting.elided, hk, hm]
    rw [if_pos hkept] at s5
    obtain ⟨q, _, o2, o3, o4, _⟩ := s5
    have hq := o2.keeps m hm
    have hqk := weightIn_resolved o2
    have hb1 : ∀ a c, balAmt st1.balances a c = afterPosting start p.account m a c := by
      intro a c
      rw [o4, hs, ← account_resolved o2, afterPosting_posted hqk hq]
    obtain ⟨st', e1, e2, e3⟩ := ih hb1 s1 s2 s3 (fun q hq => hp q (by simp [hq]))
      (fun q hq => by rw [s4]; exact hd q (by simp [hq]))
    rw [balanceLoop, h1]
    refine ⟨st', e1, ?_, ?_⟩
    · intro c
      rw [e2, o3, weightOf_cons, if_pos hk, weight_resolved o2 hm]; ring
    · intro a c
      rw [e3, show p :: qs = [p] ++ qs from rfl, postedTo_append, afterPosting_posted hk hm]; ring
  | @assigned start p m b ps qs hk hm hskip hbal ha _ _ ih =>
    intro st hs hb ht hc hp hd
    subst hskip
    obtain ⟨st1, h1⟩ := balanceStep_assigned hb hk hm hbal (hd p (by simp))
      (by intro c; rw [hs]; exact ha c)
    obtain ⟨s1, s2, s3, s4, s5⟩ := balanceStep_spec h1 hb ht hc (hp p (by simp))
    have hkept : p.kept false = true := by simp [Posting.kept, Posting.elided, hk, hbal]
    rw [if_pos hkept] at s5
    obtain ⟨q, _, o2, o3, o4, o5, _⟩ := s5
    have hqk := weightIn_resolved o2
    have hqb : q.balance = some b := by rw [o2.same]; exact hbal
    have hqc : q.cost = none := by rw [o2.same]; exact CostOk.none (p := p) (hp p (by simp)) hm
    obtain ⟨m', hm'⟩ := Option.isSome_iff_exists.mp o2.hasAmount
    have hpost : ∀ a c, postedTo [q] a c = if p.account = a then m'.amountIn c else 0 := by
      intro a c
      rw [postedTo_cons, account_resolved o2]; simp [hqk, hm']
    have hmm : ∀ c, m'.amountIn c = m.amountIn c := by
      intro c
      have := (o5 rfl).2.1 hm b hqb c
      rw [account_resolved o2, hpost, if_pos rfl, hs, ← ha c] at this
      linarith
    have hb1 : ∀ a c, balAmt st1.balances a c = afterPosting start p.account m a c := by
      intro a c
      rw [o4, hs, hpost, hmm]; rfl
    obtain ⟨st', e1, e2, e3⟩ := ih hb1 s1 s2 s3 (fun q hq => hp q (by simp [hq]))
      (fun q hq => by rw [s4]; exact hd q (by simp [hq]))
    rw [balanceLoop, h1]
    have hw : q.weight = m' := by unfold Posting.weight; rw [hm', hqc]
    have hw' : Posting.weight { p with amount := some m } = m := by
      unfold Posting.weight; simp only [CostOk.none (hp p (by simp)) hm]
    refine ⟨st', e1, ?_, ?_⟩
    · intro c
      rw [e2, o3, weightOf_cons, if_pos (show ({ p with amount := some m } : Posting).kind = .real from hk), hw, hw',
        hmm]; ring
    · intro a c
      have hx := afterPosting_posted (start := start) (q := { p with amount := some m }) (m := m) hk rfl a c
      rw [e3, show ({ p with amount := some m } : Posting) :: qs = [{ p with amount := some m }] ++ qs from rfl,
        postedTo_append]
      change afterPosting start p.account m a c = _ at hx
      rw [hx]; ring

theorem Posts.congr {skip : Bool} {f g : Str → Cur → Rat} (hfg : ∀ a c, f a c = g a c) {ps qs : List Posting}
    (h : Posts skip f ps qs) : Posts skip g ps qs := by
  have : f = g := by funext a c; exact hfg a c
  rwa [← this]

/-- Postings that are posted can be. -/
theorem loop_posts {skip : Bool} (ps : List Posting) {st st' : LoopSt} (h : balanceLoop skip ps st = .ok st')
    (hb : st.balances.Ok) (ht : st.tbal.Reachable) (ht' : Canon st.tbal) (hp : ∀ p ∈ ps, p.CostOk) :
    ∃ qs, Posts skip (balAmt st.balances) ps qs := by
  induction ps generalizing st with
  | nil => exact ⟨[], .nil⟩
  | cons p ps ih =>
    rw [balanceLoop] at h
    cases hs : balanceStep skip st p with
    | error e => rw [hs] at h; simp at h
    | ok st1 =>
      rw [hs] at h; simp only at h
      obtain ⟨s1, s2, s3, s4, s5⟩ := balanceStep_spec hs hb ht ht' (hp p (by simp))
      obtain ⟨qs, hq⟩ := ih h s1 s2 s3 (fun q hq => hp q (by simp [hq]))
      by_cases hk : p.kept skip = true
      · rw [if_pos hk] at s5
        obtain ⟨q, _, o2, _, o4, o5, _⟩ := s5
        have hqk := weightIn_resolved o2
        obtain ⟨m, hm⟩ := Option.isSome_iff_exists.mp o2.hasAmount
        have ha := account_resolved o2
        have hq' : Posts skip (afterPosting (balAmt st.balances) p.account m) ps qs := by
          refine hq.congr ?_
          intro a c
          rw [o4, ← ha, afterPosting_posted hqk hm]
        have hpost : ∀ c, postedTo [q] p.account c = m.amountIn c := by
          intro c; rw [postedTo_cons]; simp [hqk, hm, ha]
        cases hpm : p.amount with
        | some m0 =>
          have := o2.keeps m0 hpm
          rw [hm] at this; cases this
          refine ⟨_, .given o2.kindReal hpm ?_ hq'⟩
          intro hsk x d hx
          have := (o5 hsk).1 x d (by rw [o2.same]; exact hx)
          rwa [ha, hpost] at this
        | none =>
          have hnel : ¬ p.elided skip := by
            intro he; simp [Posting.kept, he] at hk
          have hsk : skip = false := by
            cases skip with
            | false => rfl
            | true => exact absurd ⟨o2.kindReal, hpm, .inr rfl⟩ hnel
          cases hpb : p.balance with
          | none => exact absurd ⟨o2.kindReal, hpm, .inl hpb⟩ hnel
          | some b =>
            refine ⟨_, .assigned o2.kindReal hpm hsk hpb ?_ (o2.bare hpm m hm) hq'⟩
            intro c
            have := (o5 hsk).2.1 hpm b (by rw [o2.same]; exact hpb) c
            rwa [ha, hpost] at this
      · rw [if_neg hk] at s5
        obtain ⟨_, _, o3, _, _⟩ := s5
        rw [o3] at hq
        by_cases hr : p.kind = .real
        · have he : p.elided skip := by
            by_contra he; exact hk (by simp [Posting.kept, hr, he])
          exact ⟨qs, .elided he hq⟩
        · exact ⟨qs, .other hr hq⟩

/-- A transaction is accepted when it can be booked, with the balances this leaves. -/
theorem balance_of_books {s : Shuf} {skip : Bool} {bals : Balances} {t : Txn Posting} {after : Str → Cur → Rat}
    (hb : bals.Ok) (hp : ∀ p ∈ t.postings, p.CostOk)
    (hd : ∀ p ∈ t.postings, (bals.get? p.account).isSome) (hn : NoNegPerUnit .virtBal t.postings)
    (h : Books skip (balAmt bals) t after) :
    ∃ bals' t' ret, Txn.balance s skip bals t = .ok (bals', t', ret) ∧ ∀ a c, balAmt bals' a c = after a c := by
  obtain ⟨qs, h1, h2, h3⟩ := h
  obtain ⟨vb, hv, hz⟩ := (totalBalance_virt_iff .virtBal t.postings hp hn).mpr h2
  obtain ⟨st, e1, e2, e3⟩ := posts_loop h1 (st := initSt bals) (fun _ _ => rfl) hb .new (initSt_canon bals) hp hd
  obtain ⟨l1, l2, l3, l4, res, l5, l6, l7, l8, _, _⟩ :=
    balanceLoop_spec t.postings e1 hb .new (initSt_canon bals) hp
  have hfill := balanceLoop_fill t.postings e1 hb .new (initSt_canon bals) hp
  have hout : st.out = res := by simpa [initSt] using l5
  have hlen := length_real skip t.postings
  have hlen' := l6.length_eq
  have hemp : (t.postings.filter (fun p => p.kind = .real)).length - st.out.length
      = (t.postings.filter (fun p => p.elided skip)).length := by
    rw [hout, ← hlen']; omega
  have htb : ∀ c, amountOf st.tbal c = weightOf .real qs c := by intro c; rw [e2]; simp [initSt]
  unfold Txn.balance
  rw [hv]
  simp only [hz]
  rw [show (⟨bals, Balance.new, "this will never be used".toList, none, []⟩ : LoopSt) = initSt bals from rfl, e1]
  simp only [hemp]
  rcases h3 with ⟨hno, hmay, haft⟩ | ⟨p, hpe, haft⟩
  · have h0 : t.postings.filter (fun p => p.elided skip) = [] := by
      rw [List.filter_eq_nil_iff]; intro p hpm; simpa using hno p hpm
    have hz' : canBeZero st.tbal = true := (C05_canBeZero_iff l2).mpr ((mayBalance_congr htb).mpr hmay)
    simp only [h0, hz']
    refine ⟨_, _, _, rfl, ?_⟩
    intro a c; rw [e3, haft]
  · rw [hpe]
    have hpm : p ∈ t.postings ∧ p.elided skip := by
      have : p ∈ t.postings.filter (fun p => p.elided skip) := by rw [hpe]; simp
      simpa using List.mem_filter.mp this
    have hfa : st.fillAccount = p.account ∧ st.fillPayee = p.payee := by
      rcases hfill with ⟨q, hq, hqe, ha, hpay⟩ | ⟨hno, _⟩
      · have : q ∈ t.postings.filter (fun p => p.elided skip) :=
          List.mem_filter.mpr ⟨hq, by simpa using hqe⟩
        rw [hpe] at this
        simp only [List.mem_singleton] at this
        subst this; exact ⟨ha, hpay⟩
      · exact absurd hpm.2 (hno p hpm.1)
    obtain ⟨⟨bb, oo⟩, hf⟩ := fillLoop_ok (t := t) (acc := st.fillAccount) (pay := st.fillPayee)
      ((s.run (Balance.neg st.tbal)).map Prod.snd) (bals := st.balances) (out := st.out)
      (fun _ => by rw [l4, hfa.1]; exact hd p hpm.1)
    obtain ⟨f1, f2, f3, f4, f5⟩ := fillLoop_spec _ hf l1
    simp only [List.length_singleton, gt_iff_lt, Nat.lt_irrefl, if_false, one_ne_zero, hf]
    refine ⟨_, _, _, rfl, ?_⟩
    intro a c
    have hperm : ((s.run (Balance.neg st.tbal))).Perm (Balance.neg st.tbal) := s.perm _
    have hsum : sumIn ((s.run (Balance.neg st.tbal)).map Prod.snd) c = - weightOf .real qs c := by
      change amountOf (s.run (Balance.neg st.tbal)) c = _
      rw [amountOf_perm hperm, amountOf_neg l3.toWF, htb]
    rw [f4, e3, haft, postedTo_fill, hfa.1, hsum]

/-- An accepted transaction can be booked. -/
theorem books_of_balance {s : Shuf} {skip : Bool} {bals bals' : Balances} {t t' : Txn Posting} {ret : Balance}
    (hb : bals.Ok) (hp : ∀ p ∈ t.postings, p.CostOk) (hd : ∀ p ∈ t.postings, (bals.get? p.account).isSome)
    (hn : NoNegPerUnit .virtBal t.postings) (h : Txn.balance s skip bals t = .ok (bals', t', ret)) :
    Books skip (balAmt bals) t (balAmt bals') := by
  obtain ⟨res, gen, hB⟩ := balance_spec h hb hp
  have hvirt := (totalBalance_virt_iff .virtBal t.postings hp hn).mp hB.virt
  have hl : ∃ st, balanceLoop skip t.postings (initSt bals) = .ok st := by
    obtain ⟨vb, hv, hz⟩ := hB.virt
    unfold Txn.balance at h
    rw [hv] at h
    simp only [hz] at h
    rw [show (⟨bals, Balance.new, "this will never be used".toList, none, []⟩ : LoopSt) = initSt bals from rfl] at h
    cases hl : balanceLoop skip t.postings (initSt bals) with
    | error e => rw [hl] at h; simp at h
    | ok st => exact ⟨st, rfl⟩
  obtain ⟨st, hl⟩ := hl
  obtain ⟨qs, hq⟩ := loop_posts t.postings hl hb .new (initSt_canon bals) hp
  obtain ⟨st1, e1, e2, e3⟩ := posts_loop hq (st := initSt bals) (fun _ _ => rfl) hb .new (initSt_canon bals) hp hd
  obtain ⟨l1, l2, l3, l4, res', l5, l6, l7, l8, _, _⟩ :=
    balanceLoop_spec t.postings e1 hb .new (initSt_canon bals) hp
  have hbk : ∃ after, Books skip (balAmt bals) t after := by
    rcases hB.cases with ⟨hno, _, hmay, _, _, hret⟩ | ⟨p, hpe, _⟩
    · refine ⟨fun a c => balAmt bals a c + postedTo qs a c, qs, hq, hvirt, .inl ⟨hno, ?_, fun _ _ => rfl⟩⟩
      have hret' : ∀ c, weightOf .real res c = weightOf .real qs c := by
        intro c
        rw [← hret c]
        have : ret = st1.tbal := by
          unfold Txn.balance at h
          obtain ⟨vb, hv, hz⟩ := hB.virt
          rw [hv] at h
          simp only [hz] at h
          rw [show (⟨bals, Balance.new, "this will never be used".toList, none, []⟩ : LoopSt) = initSt bals from rfl,
            e1] at h
          have hemp : (t.postings.filter (fun p => p.kind = .real)).length - st1.out.length = 0 := by
            have hlen := length_real skip t.postings
            have hlen' := l6.length_eq
            have h0 : t.postings.filter (fun p => p.elided skip) = [] := by
              rw [List.filter_eq_nil_iff]; intro p hpm; simpa using hno p hpm
            have hout : st1.out = res' := by simpa [initSt] using l5
            rw [h0] at hlen
            rw [hout, ← hlen']; simp at hlen; omega
          simp only [hemp] at h
          rw [if_neg (by simp), if_neg (by simp), if_pos trivial] at h
          split at h
          · cases h; rfl
          · cases h
        rw [this, e2]; simp [initSt]
      exact (mayBalance_congr hret').mp hmay
    · exact ⟨fun a c => balAmt bals a c + postedTo qs a c + if p.account = a then - weightOf .real qs c else 0,
        qs, hq, hvirt, .inr ⟨p, hpe, fun _ _ => rfl⟩⟩
  obtain ⟨after, hbk⟩ := hbk
  obtain ⟨b1, t1, r1, h1, h2⟩ := balance_of_books (s := s) hb hp hd hn hbk
  rw [h] at h1; cases h1
  have : balAmt bals' = after := by funext a c; exact h2 a c
  rw [this]; exact hbk

/-- The balancing pass succeeds exactly when all transactions can be booked. -/
theorem balanceAll_of_books {skip : Bool} {start final : Str → Cur → Rat} {ts : List (Txn Posting)}
    (h : BooksAll skip start ts final) : ∀ {σ : Nat → Shuf} {bals : Balances}, balAmt bals = start → bals.Ok →
    (∀ t ∈ ts, ∀ p ∈ t.postings, p.CostOk ∧ (bals.get? p.account).isSome) →
    (∀ t ∈ ts, NoNegPerUnit .virtBal t.postings) → ∃ r, balanceAll skip σ bals ts = .ok r := by
  induction h with
  | nil => intro σ bals _ _ _ _; exact ⟨_, rfl⟩
  | @cons start t after ts final h1 _ ih =>
    intro σ bals hs hb hp hn
    subst hs
    have hp1 : ∀ p ∈ t.postings, p.CostOk := fun p h => (hp t (by simp) p h).1
    obtain ⟨bals', t', ret, hbal, haft⟩ := balance_of_books (s := σ 0) hb hp1 (fun p h => (hp t (by simp) p h).2)
      (hn t (by simp)) h1
    obtain ⟨res, gen, hB⟩ := balance_spec hbal hb hp1
    obtain ⟨r, hr⟩ := ih (σ := fun i => σ (i + 1)) (bals := bals') (by funext a c; exact haft a c) hB.balsOk
      (fun u hu q hq => ⟨(hp u (by simp [hu]) q hq).1, by
        rw [hB.dom]; exact (hp u (by simp [hu]) q hq).2⟩) (fun u hu => hn u (by simp [hu]))
    rw [balanceAll, hbal]
    simp only [hr]
    exact ⟨_, rfl⟩

theorem books_of_balanceAll {skip : Bool} (ts : List (Txn Posting)) {σ : Nat → Shuf} {bals bals' : Balances}
    {rs : List (Txn Posting × Balance)} (hb : bals.Ok)
    (hp : ∀ t ∈ ts, ∀ p ∈ t.postings, p.CostOk ∧ (bals.get? p.account).isSome)
    (hn : ∀ t ∈ ts, NoNegPerUnit .virtBal t.postings) (h : balanceAll skip σ bals ts = .ok (bals', rs)) :
    BooksAll skip (balAmt bals) ts (balAmt bals') := by
  induction ts generalizing σ bals rs with
  | nil => cases h; exact .nil
  | cons t ts ih =>
    unfold balanceAll at h
    split at h
    · cases h
    · next b1 t1 r1 h1 =>
      split at h
      · cases h
      · next b2 rest h2 =>
        cases h
        have hp1 : ∀ p ∈ t.postings, p.CostOk := fun p h => (hp t (by simp) p h).1
        obtain ⟨res, gen, hB⟩ := balance_spec h1 hb hp1
        refine .cons (books_of_balance hb hp1 (fun p h => (hp t (by simp) p h).2) (hn t (by simp)) h1)
          (ih hB.balsOk (fun u hu q hq => ⟨(hp u (by simp [hu]) q hq).1, ?_⟩) (fun u hu => hn u (by simp [hu])) h2)
        rw [hB.dom]; exact (hp u (by simp [hu]) q hq).2

/-- The implied prices never make the pass fail. -/
theorem balancePass_iff {skip : Bool} (ts : List (Txn Posting)) {σ ρ : Nat → Shuf} {bals : Balances}
    (hb : bals.Ok) (hdt : ∀ t ∈ ts, t.date.isSome) (hp : ∀ t ∈ ts, ∀ p ∈ t.postings, p.CostOk) :
    (∃ r, balancePass skip σ ρ bals ts = .ok r) ↔ ∃ r, balanceAll skip σ bals ts = .ok r := by
  constructor
  · rintro ⟨⟨ts', prs⟩, h⟩
    obtain ⟨_, _, _, bals', rs, hr, _⟩ := balancePass_spec ts hb hp h
    exact ⟨_, hr⟩
  · rintro ⟨⟨bals', rs⟩, h⟩
    induction ts generalizing σ ρ bals rs with
    | nil => exact ⟨_, rfl⟩
    | cons t ts ih =>
      obtain ⟨d, hd'⟩ := Option.isSome_iff_exists.mp (hdt t (by simp))
      unfold balanceAll at h
      split at h
      · cases h
      · next b1 t1 r1 h1 =>
        split at h
        · cases h
        · next b2 rest h2 =>
          cases h
          obtain ⟨res, gen, hB⟩ := balance_spec h1 hb (hp t (by simp))
          have hcanon : Balance.Canon r1 := by
            rcases hB.cases with ⟨_, _, _, _, hc, _⟩ | ⟨_, _, hret, _⟩
            · exact hc
            · rw [hret]; exact Balance.Canon.nil
          obtain ⟨o, ho, _⟩ := impliedPrice_spec (s := ρ 0) (date := d) hcanon
          obtain ⟨⟨x, y⟩, hr⟩ := ih (σ := fun i => σ (i + 1)) (ρ := fun i => ρ (i + 1)) hB.balsOk
            (fun u hu => hdt u (by simp [hu])) (fun u hu => hp u (by simp [hu])) rest h2
          rw [balancePass, hd']
          simp only [h1, ho, hr]
          exact ⟨_, rfl⟩

/-! ### Special cases -/

theorem AssertionsHold.append_iff {start : Str → Cur → Rat} {ps qs : List Posting} :
    AssertionsHold start (ps ++ qs) ↔
      AssertionsHold start ps ∧ AssertionsHold (fun a c => start a c + postedTo ps a c) qs := by
  induction ps generalizing start with
  | nil =>
    have : AssertionsHold start [] := by intro pre q post hq; simp at hq
    simp [this]
  | cons p ps ih =>
    rw [List.cons_append, AssertionsHold.cons_iff, AssertionsHold.cons_iff, ih, and_assoc]
    have : ∀ a c, (start a c + postedTo [p] a c) + postedTo ps a c = start a c + postedTo (p :: ps) a c := by
      intro a c
      rw [show p :: ps = [p] ++ ps from rfl, postedTo_append]; ring
    rw [AssertionsHold.congr this]

theorem posts_full {skip : Bool} {start : Str → Cur → Rat} (ps : List Posting) (hf : AllAmounts ps)
    {qs : List Posting} :
    Posts skip start ps qs ↔
      qs = ps.filter (fun p => p.kind = .real) ∧ (skip = true ∨ AssertionsHold start ps) := by
  induction ps generalizing start qs with
  | nil =>
    have h0 : AssertionsHold start [] := by intro pre q post hq; simp at hq
    constructor
    · intro h; cases h; exact ⟨rfl, .inr h0⟩
    · rintro ⟨rfl, _⟩; exact .nil
  | cons p ps ih =>
    have hf' : AllAmounts ps := fun q hq => hf q (by simp [hq])
    by_cases hk : p.kind = .real
    · obtain ⟨m, hm⟩ := Option.isSome_iff_exists.mp (hf p (by simp) hk)
      have hcg : ∀ a c, afterPosting start p.account m a c = start a c + postedTo [p] a c :=
        afterPosting_posted hk hm
      have hpost : ∀ c, postedTo [p] p.account c = m.amountIn c := by
        intro c; rw [postedTo_cons]; simp [hk, hm]
      rw [AssertionsHold.cons_iff, List.filter_cons, if_pos (by simpa using hk)]
      constructor
      · intro h
        cases h with
        | other h _ => exact absurd hk h
        | elided h _ => rw [h.2.1] at hm; cases hm
        | assigned _ h _ _ _ _ _ => rw [h] at hm; cases hm
        | given _ hm' ha h =>
          rw [hm] at hm'; cases hm'
          obtain ⟨rfl, h2⟩ := (ih hf').mp h
          refine ⟨rfl, ?_⟩
          cases skip with
          | true => exact .inl rfl
          | false =>
            rcases h2 with h2 | h2
            · cases h2
            · refine .inr ⟨fun _ x d hx => ?_, (AssertionsHold.congr hcg).mp h2⟩
              rw [hpost]; exact ha rfl x d hx
      · rintro ⟨rfl, h⟩
        refine .given hk hm ?_ ((ih hf').mpr ⟨rfl, ?_⟩)
        · intro hs x d hx
          rcases h with h | h
          · rw [hs] at h; cases h
          · rw [← hpost]; exact h.1 hk x d hx
        · rcases h with h | h
          · exact .inl h
          · exact .inr ((AssertionsHold.congr hcg).mpr h.2)
    · have hz : ∀ a c, start a c + postedTo [p] a c = start a c := by
        intro a c; rw [postedTo_cons]; simp [hk]
      rw [AssertionsHold.cons_iff, List.filter_cons, if_neg (by simpa using hk), AssertionsHold.congr hz]
      constructor
      · intro h
        cases h with
        | other _ h =>
          obtain ⟨h1, h2⟩ := (ih hf').mp h
          exact ⟨h1, h2.imp id (fun h => ⟨fun hr => absurd hr hk, h⟩)⟩
        | elided h _ => exact absurd h.1 hk
        | given h _ _ _ => exact absurd h hk
        | assigned h _ _ _ _ _ _ => exact absurd h hk
      · rintro ⟨rfl, h⟩
        exact .other hk ((ih hf').mpr ⟨rfl, h.imp id And.right⟩)

/-- Transactions with all amounts given can be booked when they balance and the asserted totals hold. -/
theorem booksAll_full {skip : Bool} {start final : Str → Cur → Rat} (ts : List (Txn Posting))
    (hf : ∀ t ∈ ts, AllAmounts t.postings) :
    BooksAll skip start ts final ↔
      (∀ t ∈ ts, MayBalance (weightOf .real t.postings) ∧ MayBalance (weightOf .virtBal t.postings)) ∧
      (skip = true ∨ AssertionsHold start (ts.flatMap (fun t => t.postings))) ∧
      ∀ a c, final a c = start a c + postedTo (ts.flatMap (fun t => t.postings)) a c := by
  induction ts generalizing start with
  | nil =>
    have h0 : AssertionsHold start [] := by intro pre q post hq; simp at hq
    simp only [List.not_mem_nil, false_implies, implies_true, true_and, List.flatMap_nil]
    constructor
    · intro h; cases h; exact ⟨.inr h0, by simp⟩
    · rintro ⟨_, h⟩
      have : final = start := by funext a c; simpa using h a c
      subst this
      exact .nil
  | cons t ts ih =>
    have hft := hf t (by simp)
    have hno : ∀ p ∈ t.postings, ¬ p.elided skip := by
      intro p hp he
      have := hft p hp he.1
      rw [he.2.1] at this; cases this
    have hw : ∀ c, weightOf .real (t.postings.filter (fun p => p.kind = .real)) c = weightOf .real t.postings c :=
      weightOf_filter_real t.postings
    have hpt : ∀ a c, start a c + postedTo (t.postings.filter (fun p => p.kind = .real)) a c =
        start a c + postedTo t.postings a c := fun a c => by rw [postedTo_filter_real]
    rw [List.flatMap_cons, AssertionsHold.append_iff]
    constructor
    · intro h
      cases h with
      | @cons _ _ after _ _ h1 h2 =>
        obtain ⟨qs, hq, hv, h3⟩ := h1
        obtain ⟨rfl, ha⟩ := (posts_full t.postings hft).mp hq
        rcases h3 with ⟨_, hm, haft⟩ | ⟨p, hp, _⟩
        · have e : after = fun a c => start a c + postedTo t.postings a c := by
            funext a c; rw [haft, hpt]
          rw [e, ih (fun u hu => hf u (by simp [hu]))] at h2
          refine ⟨?_, ?_, ?_⟩
          · intro u hu
            rcases List.mem_cons.mp hu with rfl | hu
            · exact ⟨(mayBalance_congr hw).mp hm, hv⟩
            · exact h2.1 u hu
          · rcases ha with ha | ha
            · exact .inl ha
            · exact h2.2.1.imp id (fun h => ⟨ha, h⟩)
          · intro a c; rw [h2.2.2, postedTo_append]; ring
        · have : p ∈ t.postings.filter (fun p => p.elided skip) := by rw [hp]; simp
          have := List.mem_filter.mp this
          exact absurd (by simpa using this.2) (hno p this.1)
    · rintro ⟨h1, h2, h3⟩
      refine .cons (after := fun a c => start a c + postedTo t.postings a c)
        ⟨_, (posts_full t.postings hft).mpr ⟨rfl, h2.imp id And.left⟩, (h1 t (by simp)).2,
          .inl ⟨hno, (mayBalance_congr hw).mpr (h1 t (by simp)).1, fun a c => (hpt a c).symm⟩⟩
        ((ih (fun u hu => hf u (by simp [hu]))).mpr ⟨fun u hu => h1 u (by simp [hu]), h2.imp id And.right, ?_⟩)
      intro a c; rw [h3, postedTo_append]; ring

theorem posts_noTotals {skip : Bool} {start : Str → Cur → Rat} (ps : List Posting)
    (hb : ∀ p ∈ ps, p.balance = none) :
    ∃ qs, Posts skip start ps qs := by
  induction ps generalizing start with
  | nil => exact ⟨[], .nil⟩
  | cons p ps ih =>
    have hb' : ∀ q ∈ ps, q.balance = none := fun q hq => hb q (by simp [hq])
    have hpb := hb p (by simp)
    by_cases hk : p.kind = .real
    · cases hm : p.amount with
      | none =>
        obtain ⟨qs, h⟩ := ih (start := start) hb'
        exact ⟨qs, .elided ⟨hk, hm, .inl hpb⟩ h⟩
      | some m =>
        obtain ⟨qs, h⟩ := ih (start := afterPosting start p.account m) hb'
        exact ⟨_, .given hk hm (by intro _ x d hx; rw [hpb] at hx; cases hx) h⟩
    · obtain ⟨qs, h⟩ := ih (start := start) hb'
      exact ⟨qs, .other hk h⟩

theorem posts_weight {skip : Bool} {start : Str → Cur → Rat} {ps qs : List Posting} (h : Posts skip start ps qs)
    (hb : ∀ p ∈ ps, p.balance = none) (c : Cur) : weightOf .real qs c = weightOf .real ps c := by
  induction h with
  | nil => rfl
  | other hk _ ih => rw [weightOf_cons, if_neg hk, ih (fun q hq => hb q (by simp [hq]))]; ring
  | @elided start p ps qs he _ ih =>
    rw [weightOf_cons, if_pos he.1, ih (fun q hq => hb q (by simp [hq]))]
    simp [Posting.weight, he.2.1]
  | given hk _ _ _ ih =>
    rw [weightOf_cons, weightOf_cons, ih (fun q hq => hb q (by simp [hq]))]
  | assigned _ _ _ hbal _ _ _ _ => rw [hb _ (by simp)] at hbal; cases hbal

/-- Without totals, transactions can be booked when each one balances or has exactly one elided amount. -/
theorem booksAll_noTotals {skip : Bool} {start : Str → Cur → Rat} (ts : List (Txn Posting))
    (hb : ∀ t ∈ ts, ∀ p ∈ t.postings, p.balance = none) :
    (∃ final, BooksAll skip start ts final) ↔ ∀ t ∈ ts, MayBalance (weightOf .virtBal t.postings) ∧
      (((∀ p ∈ t.postings, ¬ p.elided skip) ∧ MayBalance (weightOf .real t.postings)) ∨
        ∃ p, t.postings.filter (fun p => p.elided skip) = [p]) := by
  induction ts generalizing start with
  | nil => exact ⟨fun _ t ht => (by cases ht), fun _ => ⟨_, .nil⟩⟩
  | cons t ts ih =>
    constructor
    · rintro ⟨final, h⟩
      cases h with
      | @cons _ _ after _ _ h1 h2 =>
        have h2 := (ih (fun u hu => hb u (by simp [hu]))).mp ⟨_, h2⟩
        intro u hu
        rcases List.mem_cons.mp hu with rfl | hu
        · obtain ⟨qs, hq, hv, h3⟩ := h1
          refine ⟨hv, ?_⟩
          rcases h3 with ⟨h3, h4, _⟩ | ⟨p, h3, _⟩
          · exact .inl ⟨h3, (mayBalance_congr (posts_weight hq (hb u (by simp)))).mp h4⟩
          · exact .inr ⟨p, h3⟩
        · exact h2 u hu
    · intro h
      obtain ⟨hv, h3⟩ := h t (by simp)
      have hrest : ∀ start, ∃ final, BooksAll skip start ts final := fun start =>
        (ih (fun u hu => hb u (by simp [hu]))).mpr (fun u hu => h u (by simp [hu]))
      obtain ⟨qs, hq⟩ := posts_noTotals (skip := skip) (start := start) t.postings (hb t (by simp))
      rcases h3 with ⟨h3, h4⟩ | ⟨p, h3⟩
      · obtain ⟨final, hr⟩ := hrest (fun a c => start a c + postedTo qs a c)
        exact ⟨final, .cons ⟨qs, hq, hv, .inl ⟨h3, (mayBalance_congr (posts_weight hq (hb t (by simp)))).mpr h4,
          fun _ _ => rfl⟩⟩ hr⟩
      · obtain ⟨final, hr⟩ := hrest (fun a c => start a c + postedTo qs a c +
          if p.account = a then - weightOf .real qs c else 0)
        exact ⟨final, .cons ⟨qs, hq, hv, .inr ⟨p, h3, fun _ _ => rfl⟩⟩ hr⟩

end Dinero
