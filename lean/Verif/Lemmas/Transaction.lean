import Verif.Spec.Transaction
import Verif.Lemmas.Balance
import Verif.Props.Money
/- Facts about `Transaction::balance`. -/
namespace Dinero
open Balance

@[simp] theorem postedTo_nil (a : Str) (c : Cur) : postedTo [] a c = 0 := rfl

theorem postedTo_cons (p : Posting) (ps : List Posting) (a : Str) (c : Cur) :
    postedTo (p :: ps) a c = (if p.kind = .real ∧ p.account = a then
      (match p.amount with | none => 0 | some m => m.amountIn c) else 0) + postedTo ps a c := by
  unfold postedTo
  rw [List.filter_cons]
  by_cases h : p.kind = .real ∧ p.account = a
  · rw [if_pos (by simpa using h), if_pos h, List.filterMap_cons]
    cases hm : p.amount <;> simp
  · rw [if_neg (by simpa using h), if_neg h]; simp

theorem postedTo_append (l l' : List Posting) (a : Str) (c : Cur) :
    postedTo (l ++ l') a c = postedTo l a c + postedTo l' a c := by
  unfold postedTo; rw [List.filter_append, List.filterMap_append, sumIn_append]

@[simp] theorem weightOf_nil (k : Kind) (c : Cur) : weightOf k [] c = 0 := rfl

theorem weightOf_cons (k : Kind) (p : Posting) (ps : List Posting) (c : Cur) :
    weightOf k (p :: ps) c = (if p.kind = k then p.weight.amountIn c else 0) + weightOf k ps c := by
  unfold weightOf
  rw [List.filter_cons]
  by_cases h : p.kind = k <;> simp [h]

theorem weightOf_append (k : Kind) (l l' : List Posting) (c : Cur) :
    weightOf k (l ++ l') c = weightOf k l c + weightOf k l' c := by
  unfold weightOf; rw [List.filter_append, List.map_append, sumIn_append]

theorem balAmt_insert (bals : Balances) (a : Str) (b : Balance) (a' : Str) (c : Cur) :
    balAmt (bals.insert a b) a' c = if a = a' then b.amountOf c else balAmt bals a' c := by
  unfold balAmt
  rw [HMap.get?_insert]
  by_cases h : a = a' <;> simp [h]

theorem Balances.Ok.insert {bals : Balances} (h : bals.Ok) {a : Str} {b : Balance}
    (hb : b.Reachable) : Balances.Ok (bals.insert a b) := by
  intro a' b' hg
  rw [HMap.get?_insert] at hg
  split at hg
  · cases hg; exact hb
  · exact h a' b' hg

/-- What `balanceEntry` adds is the weight of the posting. -/
theorem balanceEntry_spec {p : Posting} {m : Money} (hm : p.amount = some m) (hc : p.CostOk) :
    ∃ w, balanceEntry m p.cost = .ok w ∧ w = ofMoney p.weight := by
  unfold Posting.CostOk at hc
  unfold balanceEntry Posting.weight
  rw [hm]
  cases hcost : p.cost with
  | none => exact ⟨_, rfl, rfl⟩
  | some cst =>
    rw [hcost] at hc
    cases cst with
    | total t =>
      obtain ⟨⟨q, a, hq⟩, x, b, rfl⟩ := hc
      rw [hm] at hq; cases hq
      by_cases h : q < 0
      · simp [Money.isNegative, Money.amount, h]
      · simp [Money.isNegative, Money.amount, h]
    | perUnit u =>
      obtain ⟨⟨q, a, hq⟩, x, b, rfl⟩ := hc
      rw [hm] at hq; cases hq
      exact ⟨_, rfl, rfl⟩

/-- How a real posting that is kept turns into its resolved form. -/
structure Resolved (p q : Posting) : Prop where
  same : q = { p with amount := q.amount, kind := .real, origin := .fromTransaction }
  hasAmount : q.amount.isSome
  keeps : ∀ m, p.amount = some m → q.amount = some m
  kindReal : p.kind = .real
  bare : p.amount = none → ∀ m, q.amount = some m → m = .zero ∨ m.amount ≠ 0

/-- Money made of a balance has a commodity only if it is not nothing. -/
theorem toMoney_bare {b : Balance} {m : Money} (h : b.toMoney = .ok m) : m = .zero ∨ m.amount ≠ 0 := by
  unfold Balance.toMoney at h
  split at h
  · cases h; exact .inl rfl
  · next x hx =>
    cases h
    have : m ∈ (b.map Prod.snd).filter (fun m => !m.isZero) := by rw [hx]; simp
    have hz : m.isZero = false := by simpa using (List.mem_filter.mp this).2
    cases m with
    | zero => exact .inl rfl
    | mk x c => exact .inr (by simpa [Money.isZero, Money.amount] using hz)
  · cases h

/-- Real and bringing an amount of its own. -/
def Posting.kept (skip : Bool) (p : Posting) : Bool := p.kind = .real ∧ ¬ p.elided skip

/-- Recursive form of `AssertionsHold`, also recording that an assignment fixes the whole
account.  -/
def AssertRec : (Str → Cur → Rat) → List Posting → List Posting → Prop
  | start, p :: ps, q :: qs =>
    (∀ x d, q.balance = some (.mk x d) → start q.account d + postedTo [q] q.account d = x) ∧
    (p.amount = none → ∀ b, q.balance = some b → ∀ c,
      start q.account c + postedTo [q] q.account c = b.amountIn c) ∧
    AssertRec (fun a c => start a c + postedTo [q] a c) ps qs
  | _, _, _ => True

/-- One loop iteration. -/
theorem balanceStep_spec {skip : Bool} {st st' : LoopSt} {p : Posting}
    (h : balanceStep skip st p = .ok st') (hb : st.balances.Ok) (ht : st.tbal.Reachable)
    (ht' : Canon st.tbal) (hp : p.CostOk) :
    st'.balances.Ok ∧ st'.tbal.Reachable ∧ Canon st'.tbal ∧
    (∀ a, (st'.balances.get? a).isSome = (st.balances.get? a).isSome) ∧
    (if p.kept skip then
      ∃ q, st'.out = st.out ++ [q] ∧ Resolved p q ∧
        (∀ c, amountOf st'.tbal c = amountOf st.tbal c + q.weight.amountIn c) ∧
        (∀ a c, balAmt st'.balances a c = balAmt st.balances a c + postedTo [q] a c) ∧
        (skip = false → AssertRec (balAmt st.balances) [p] [q]) ∧
        st'.fillAccount = st.fillAccount ∧ st'.fillPayee = st.fillPayee ∧
        (st.balances.get? q.account).isSome
     else st'.out = st.out ∧ st'.tbal = st.tbal ∧ st'.balances = st.balances ∧
       (p.elided skip → st'.fillAccount = p.account ∧ st'.fillPayee = p.payee) ∧
       (¬ p.elided skip → st' = st)) := by
  unfold balanceStep at h
  by_cases hk : p.kind = .real
  · rw [if_neg (by simp [hk])] at h
    cases ham : p.amount with
    | some money =>
      rw [ham] at h
      simp only at h
      have hkept : p.kept skip = true := by simp [Posting.kept, Posting.elided, hk, ham]
      cases hg : HMap.get? st.balances p.account with
      | none => rw [hg] at h; simp at h
      | some had =>
        rw [hg] at h; simp only at h
        obtain ⟨w, hw1, hw2⟩ := balanceEntry_spec ham hp
        rw [hw1] at h; simp only at h
        split at h
        · simp at h
        · next hok =>
          simp only [Except.ok.injEq] at h
          have hhad := hb _ _ hg
          have hexp : Reachable (Balance.add had (ofMoney money)) := .add hhad (.ofMoney _)
          subst h
          refine ⟨hb.insert hexp, .add ht (hw2 ▸ .ofMoney _),
            add_canon ht.wf (hw2 ▸ ofMoney_wf _), ?_, ?_⟩
          · intro a
            simp only [HMap.get?_insert]
            split
            · next h => subst h; simp [hg]
            · rfl
          · rw [if_pos hkept]
            have hposted : ∀ a c, postedTo
                [p.resolve money] a c
                = if p.account = a then money.amountIn c else 0 := by
              intro a c; rw [postedTo_cons]; simp [Posting.resolve]
            have hbal : ∀ c, amountOf (Balance.add had (ofMoney money)) c
                = balAmt st.balances p.account c + money.amountIn c := by
              intro c; rw [amountOf_add hhad.wf (ofMoney_wf _), amountOf_ofMoney]
              simp [balAmt, hg]
            refine ⟨_, rfl, ⟨rfl, rfl, ?_, hk, fun hn => by rw [ham] at hn; cases hn⟩, ?_, ?_, ?_, rfl, rfl, by simp [Posting.resolve, hg]⟩
            · intro m hm; rw [ham] at hm; exact hm
            · intro c
              rw [amountOf_add ht.wf (hw2 ▸ ofMoney_wf _), hw2, amountOf_ofMoney]
              simp [Posting.weight, Posting.resolve, ham]
            · intro a c
              rw [balAmt_insert, hposted]
              by_cases haa : p.account = a
              · subst haa; simp [hbal]
              · simp [haa]
            · intro hs
              refine ⟨?_, ?_, trivial⟩
              · intro x d hbd
                simp only [Posting.resolve] at hbd
                rw [hs, hbd] at hok
                simp only [assertOk] at hok
                have heq := (C06_eq_iff (.ofMoney _) hexp).mp (by simpa using hok) d
                  ⟨(some d, .mk x d), by simp [ofMoney, HMap.insert], rfl⟩
                rw [amountOf_ofMoney, hbal] at heq
                simp only [Money.amountIn_mk, if_true] at heq
                rw [show (p.resolve money).account = p.account from rfl, hposted, if_pos rfl]
                exact heq.symm
              · intro hn; simp [ham] at hn
    | none =>
      rw [ham] at h
      cases hbl : p.balance with
      | none =>
        rw [hbl] at h
        have hel : p.elided skip := ⟨hk, ham, Or.inl hbl⟩
        have hkept : ¬ p.kept skip = true := by simp [Posting.kept, hel]
        have : st' = { st with fillAccount := p.account, fillPayee := p.payee } := by
          cases skip <;> simpa using h.symm
        subst this
        exact ⟨hb, ht, ht', fun _ => rfl, by
          rw [if_neg hkept]; exact ⟨rfl, rfl, rfl, fun _ => ⟨rfl, rfl⟩, fun h => absurd hel h⟩⟩
      | some b =>
        rw [hbl] at h
        cases skip with
        | true =>
          have hel : p.elided true := ⟨hk, ham, Or.inr rfl⟩
          have hkept : ¬ p.kept true = true := by simp [Posting.kept, hel]
          have : st' = { st with fillAccount := p.account, fillPayee := p.payee } := by
            simpa using h.symm
          subst this
          exact ⟨hb, ht, ht', fun _ => rfl, by
            rw [if_neg hkept]; exact ⟨rfl, rfl, rfl, fun _ => ⟨rfl, rfl⟩, fun h => absurd hel h⟩⟩
        | false =>
          simp only at h
          have hkept : p.kept false = true := by simp [Posting.kept, Posting.elided, hk, hbl]
          have hcost : p.cost = none := by
            unfold Posting.CostOk at hp
            cases hcst : p.cost with
            | none => rfl
            | some cst =>
              rw [hcst, ham] at hp
              cases cst <;> simp at hp
          cases hg : HMap.get? st.balances p.account with
          | none => rw [hg] at h; simp at h
          | some had =>
            rw [hg] at h; simp only at h
            have hhad := hb _ _ hg
            have hsub : Reachable (Balance.sub (ofMoney b) had) := .sub (.ofMoney _) hhad
            cases htm : toMoney (Balance.sub (ofMoney b) had) with
            | error e => rw [htm] at h; simp at h
            | ok money =>
              rw [htm] at h
              simp only [Except.ok.injEq] at h
              subst h
              have hmoney := (C04_toMoney hsub).1 money htm
              have hm' : ∀ c, money.amountIn c = b.amountIn c - balAmt st.balances p.account c := by
                intro c
                rw [← hmoney, amountOf_sub (ofMoney_wf _) hhad.wf, amountOf_ofMoney]
                simp [balAmt, hg]
              refine ⟨hb.insert (.ofMoney _), .add ht (.ofMoney _),
                add_canon ht.wf (ofMoney_wf _), ?_, ?_⟩
              · intro a
                simp only [HMap.get?_insert]
                split
                · next h => subst h; simp [hg]
                · rfl
              · rw [if_pos hkept]
                have hposted : ∀ a c, postedTo
                    [p.resolve money] a c
                    = if p.account = a then money.amountIn c else 0 := by
                  intro a c; rw [postedTo_cons]; simp [Posting.resolve]
                refine ⟨_, rfl, ⟨rfl, rfl, by simp [ham], hk, fun _ m hm => by
                  cases hm; exact toMoney_bare htm⟩, ?_, ?_, ?_, rfl, rfl, by simp [Posting.resolve, hg]⟩
                · intro c
                  rw [amountOf_add ht.wf (ofMoney_wf _), amountOf_ofMoney]
                  simp [Posting.weight, Posting.resolve, hcost]
                · intro a c
                  rw [balAmt_insert, hposted]
                  by_cases haa : p.account = a
                  · subst haa; simp only [if_true]; rw [amountOf_ofMoney, hm']; ring
                  · simp [haa]
                · intro _
                  have hall : ∀ c, balAmt st.balances p.account c + money.amountIn c
                      = b.amountIn c := by intro c; rw [hm']; ring
                  refine ⟨?_, ?_, trivial⟩
                  · intro x d hbd
                    simp only [Posting.resolve, hbl, Option.some.injEq] at hbd
                    subst hbd
                    have := hall d
                    rw [show (p.resolve money).account = p.account from rfl, hposted, if_pos rfl]
                    simpa using this
                  · intro _ b' hb' c
                    simp only [Posting.resolve, hbl, Option.some.injEq] at hb'
                    subst hb'
                    rw [show (p.resolve money).account = p.account from rfl, hposted, if_pos rfl]; exact hall c
  · rw [if_pos (by simpa using hk)] at h
    simp only [Except.ok.injEq] at h
    subst h
    have hkept : ¬ p.kept skip = true := by simp [Posting.kept, hk]
    refine ⟨hb, ht, ht', fun _ => rfl, ?_⟩
    rw [if_neg hkept]
    exact ⟨rfl, rfl, rfl, fun he => absurd he.1 hk, fun _ => rfl⟩

theorem AssertRec_congr {f g : Str → Cur → Rat} (hfg : ∀ a c, f a c = g a c)
    (ps qs : List Posting) (h : AssertRec f ps qs) : AssertRec g ps qs := by
  have : f = g := by funext a c; exact hfg a c
  rwa [← this]

theorem weightIn_resolved {p q : Posting} (h : Resolved p q) : q.kind = .real := by
  rw [h.same]

/-- The whole loop. -/
theorem balanceLoop_spec {skip : Bool} (ps : List Posting) {st st' : LoopSt}
    (h : balanceLoop skip ps st = .ok st') (hb : st.balances.Ok) (ht : st.tbal.Reachable)
    (ht' : Canon st.tbal) (hp : ∀ p ∈ ps, p.CostOk) :
    st'.balances.Ok ∧ st'.tbal.Reachable ∧ Canon st'.tbal ∧
    (∀ a, (st'.balances.get? a).isSome = (st.balances.get? a).isSome) ∧
    ∃ res, st'.out = st.out ++ res ∧ List.Forall₂ Resolved (ps.filter (Posting.kept skip)) res ∧
      (∀ c, amountOf st'.tbal c = amountOf st.tbal c + weightOf .real res c) ∧
      (∀ a c, balAmt st'.balances a c = balAmt st.balances a c + postedTo res a c) ∧
      (skip = false → AssertRec (balAmt st.balances) (ps.filter (Posting.kept skip)) res) ∧
      (∀ q ∈ res, (st.balances.get? q.account).isSome) := by
  induction ps generalizing st with
  | nil =>
    simp only [balanceLoop, Except.ok.injEq] at h
    subst h
    exact ⟨hb, ht, ht', fun _ => rfl, [], by simp, .nil, by simp, by simp, fun _ => trivial, by simp⟩
  | cons p ps ih =>
    rw [balanceLoop] at h
    cases hs : balanceStep skip st p with
    | error e => rw [hs] at h; simp at h
    | ok st1 =>
      rw [hs] at h; simp only at h
      obtain ⟨s1, s2, s3, s4, s5⟩ := balanceStep_spec hs hb ht ht' (hp p (by simp))
      obtain ⟨i1, i2, i3, i4, res, i5, i6, i7, i8, i9, i10⟩ := ih h s1 s2 s3
        (fun q hq => hp q (by simp [hq]))
      refine ⟨i1, i2, i3, fun a => (i4 a).trans (s4 a), ?_⟩
      by_cases hk : p.kept skip = true
      · rw [if_pos hk] at s5
        obtain ⟨q, o1, o2, o3, o4, o5, _, _, o8⟩ := s5
        refine ⟨q :: res, by rw [i5, o1]; simp, ?_, ?_, ?_, ?_, ?_⟩
        · rw [List.filter_cons, if_pos hk]; exact .cons o2 i6
        · intro c
          rw [i7, o3, weightOf_cons, if_pos (weightIn_resolved o2)]; ring
        · intro a c
          rw [i8, o4, show q :: res = [q] ++ res from rfl, postedTo_append]; ring
        · intro hsk
          rw [List.filter_cons, if_pos hk]
          have := o5 hsk
          exact ⟨this.1, this.2.1, AssertRec_congr (fun a c => o4 a c) _ _ (i9 hsk)⟩
        · intro x hx
          rcases List.mem_cons.mp hx with rfl | hx
          · exact o8
          · rw [← s4]; exact i10 x hx
      · rw [if_neg hk] at s5
        obtain ⟨o1, o2, o3, _, _⟩ := s5
        refine ⟨res, by rw [i5, o1], ?_, ?_, ?_, ?_, ?_⟩
        · rw [List.filter_cons, if_neg hk]; exact i6
        · intro c; rw [i7, o2]
        · intro a c; rw [i8, o3]
        · intro hsk
          rw [List.filter_cons, if_neg hk, ← o3]; exact i9 hsk
        · intro x hx; rw [← s4]; exact i10 x hx

/-- Where the filling account comes from. -/
theorem balanceLoop_fill {skip : Bool} (ps : List Posting) {st st' : LoopSt}
    (h : balanceLoop skip ps st = .ok st') (hb : st.balances.Ok) (ht : st.tbal.Reachable)
    (ht' : Canon st.tbal) (hp : ∀ p ∈ ps, p.CostOk) :
    (∃ p ∈ ps, p.elided skip ∧ st'.fillAccount = p.account ∧ st'.fillPayee = p.payee) ∨
    ((∀ p ∈ ps, ¬ p.elided skip) ∧ st'.fillAccount = st.fillAccount ∧
      st'.fillPayee = st.fillPayee) := by
  induction ps generalizing st with
  | nil =>
    simp only [balanceLoop, Except.ok.injEq] at h
    subst h; right; exact ⟨by simp, rfl, rfl⟩
  | cons p ps ih =>
    rw [balanceLoop] at h
    cases hs : balanceStep skip st p with
    | error e => rw [hs] at h; simp at h
    | ok st1 =>
      rw [hs] at h; simp only at h
      obtain ⟨s1, s2, s3, s4, s5⟩ := balanceStep_spec hs hb ht ht' (hp p (by simp))
      rcases ih h s1 s2 s3 (fun q hq => hp q (by simp [hq])) with ⟨q, hq, h1⟩ | ⟨h1, h2, h3⟩
      · exact Or.inl ⟨q, by simp [hq], h1⟩
      · by_cases hk : p.kept skip = true
        · rw [if_pos hk] at s5
          obtain ⟨q, _, _, _, _, _, o6, o7, _⟩ := s5
          right
          refine ⟨?_, by rw [h2, o6], by rw [h3, o7]⟩
          intro x hx
          rcases List.mem_cons.mp hx with rfl | hx
          · intro he; simp [Posting.kept, he] at hk
          · exact h1 x hx
        · rw [if_neg hk] at s5
          obtain ⟨_, _, _, o4, o5⟩ := s5
          by_cases he : p.elided skip
          · left
            exact ⟨p, by simp, he, by rw [h2, (o4 he).1], by rw [h3, (o4 he).2]⟩
          · right
            refine ⟨?_, by rw [h2, o5 he], by rw [h3, o5 he]⟩
            intro x hx
            rcases List.mem_cons.mp hx with rfl | hx
            · exact he
            · exact h1 x hx

/-- The postings generated for the elided account. -/
def fillPosting (t : Txn Posting) (account : Str) (payee : Option Str) (m : Money) : Posting :=
  { account := account, amount := some m, balance := none, cost := none, kind := .real,
    comments := t.comments, tags := t.tags, payee := payee, origin := .fromTransaction }

theorem postedTo_fill (t : Txn Posting) (acc : Str) (pay : Option Str) (ms : List Money)
    (a : Str) (c : Cur) :
    postedTo (ms.map (fillPosting t acc pay)) a c = if acc = a then sumIn ms c else 0 := by
  induction ms with
  | nil => simp
  | cons m ms ih =>
    rw [List.map_cons, postedTo_cons, ih]
    by_cases h : acc = a <;> simp [fillPosting, h]

theorem fillLoop_spec {t : Txn Posting} {acc : Str} {pay : Option Str} (ms : List Money)
    {bals bals' : Balances} {out out' : List Posting}
    (h : fillLoop t acc pay ms bals out = .ok (bals', out')) (hb : bals.Ok) :
    bals'.Ok ∧ (∀ a, (bals'.get? a).isSome = (bals.get? a).isSome) ∧
    out' = out ++ ms.map (fillPosting t acc pay) ∧
    (∀ a c, balAmt bals' a c = balAmt bals a c + postedTo (ms.map (fillPosting t acc pay)) a c) ∧
    (ms ≠ [] → (bals.get? acc).isSome) := by
  induction ms generalizing bals out with
  | nil =>
    simp only [fillLoop, Except.ok.injEq, Prod.mk.injEq] at h
    obtain ⟨rfl, rfl⟩ := h
    exact ⟨hb, fun _ => rfl, by simp, by simp, by simp⟩
  | cons m ms ih =>
    rw [fillLoop] at h
    cases hg : HMap.get? bals acc with
    | none => rw [hg] at h; simp at h
    | some had =>
      rw [hg] at h; simp only at h
      have hhad := hb _ _ hg
      obtain ⟨i1, i2, i3, i4, _⟩ := ih h (hb.insert (.add hhad (.ofMoney _)))
      refine ⟨i1, ?_, ?_, ?_, fun _ => by simp⟩
      · intro a
        rw [i2, HMap.get?_insert]
        split
        · next h => subst h; simp [hg]
        · rfl
      · rw [i3]; simp [fillPosting]
      · intro a c
        rw [i4, balAmt_insert, List.map_cons, postedTo_cons]
        by_cases haa : acc = a
        · subst haa
          simp only [if_true]
          rw [amountOf_add hhad.wf (ofMoney_wf _), amountOf_ofMoney]
          simp only [fillPosting, true_and, if_true, balAmt, hg]; ring
        · simp [haa, fillPosting]

end Dinero
