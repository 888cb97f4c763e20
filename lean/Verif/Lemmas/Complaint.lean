import Verif.Spec.Complaint
import Verif.Lemmas.Sales
import Verif.Lemmas.Print
/-
Lemmas on the messages about transactions that cannot be booked.
-/
namespace Dinero
open Balance

theorem canon_commodities {b : Balance} (h : Canon b) (s : Shuf) :
    Holds ((s.run b).map Prod.snd) (amountOf b) := by
  have hc := h.perm (s.perm b).symm
  constructor
  · have : ((s.run b).map Prod.snd).map Money.commodity = HMap.keys (s.run b) := by
      rw [List.map_map]
      exact List.map_congr_left fun e he => hc.key e he
    rw [this]; exact hc.nodup
  · intro m
    rw [List.mem_map]
    constructor
    · rintro ⟨⟨k, m'⟩, he, rfl⟩
      obtain ⟨c, _, h2, h3⟩ := (h.mem_iff k m').mp ((s.perm b).mem_iff.mp he)
      exact ⟨c, h2, h3⟩
    · rintro ⟨c, h2, h3⟩
      exact ⟨(some c, m), (s.perm b).mem_iff.mpr ((h.mem_iff _ _).mpr ⟨c, rfl, h2, h3⟩), rfl⟩

/-- Where the posting loop fails. -/
theorem balanceLoop_error {skip : Bool} {o : Shuf × Shuf} {e : Fail} (ps : List Posting) {st : LoopSt}
    (h : balanceLoop skip ps st = .error e) :
    ∃ pre q post st', ps = pre ++ q :: post ∧ balanceLoop skip pre st = .ok st' ∧ balanceStep skip st' q = .error e ∧
      loopText o skip ps st = stepText o skip st' q := by
  induction ps generalizing st with
  | nil => cases h
  | cons p ps ih =>
    rw [balanceLoop] at h
    cases hs : balanceStep skip st p with
    | error e1 =>
      rw [hs] at h; cases h
      exact ⟨[], p, ps, st, rfl, rfl, hs, by rw [loopText, hs]⟩
    | ok st1 =>
      rw [hs] at h
      obtain ⟨pre, q, post, st', h1, h2, h3, h4⟩ := ih h
      exact ⟨p :: pre, q, post, st', by rw [h1]; rfl, by rw [balanceLoop, hs]; exact h2, h3, by
        rw [loopText, hs]; exact h4⟩

theorem balanceLoop_stops {skip : Bool} {q : Posting} {post : List Posting} (pre : List Posting) {st st' : LoopSt} {e : Fail}
    (h : balanceLoop skip pre st = .ok st') (hq : balanceStep skip st' q = .error e) :
    balanceLoop skip (pre ++ q :: post) st = .error e := by
  induction pre generalizing st with
  | nil => cases h; rw [List.nil_append, balanceLoop, hq]
  | cons p pre ih =>
    rw [balanceLoop] at h
    cases hs : balanceStep skip st p with
    | error e1 => rw [hs] at h; cases h
    | ok st1 =>
      rw [hs] at h
      rw [List.cons_append, balanceLoop, hs]
      exact ih h

theorem toMoney_error {b : Balance} {e : Fail} (h : toMoney b = .error e) : e = .error .notBalanced := by
  unfold toMoney at h
  split at h
  · cases h
  · cases h
  · cases h; rfl

/-- A round of the posting loop that fails. -/
theorem balanceStep_error {o : Shuf × Shuf} {skip : Bool} {st : LoopSt} {q : Posting} {e : Fail} (hb : st.balances.Ok)
    (hp : q.CostOk) (hg : (st.balances.get? q.account).isSome) (h : balanceStep skip st q = .error e) :
    e = .error .notBalanced ∧ q.kind = .real ∧ skip = false ∧
      ((∃ m x d has more, q.amount = some m ∧ q.balance = some (.mk x d) ∧
          balAmt st.balances q.account d + m.amountIn d ≠ x ∧
          Holds has (fun c => balAmt st.balances q.account c + m.amountIn c) ∧
          Holds more (fun c => balAmt st.balances q.account c + m.amountIn c - if d = c then x else 0) ∧
          stepText o skip st q = assertedText (.mk x d) has more) ∨
        ∃ b, q.amount = none ∧ q.balance = some b ∧
          (¬ ∃ m : Money, ∀ c, balAmt st.balances q.account c + m.amountIn c = b.amountIn c) ∧ stepText o skip st q = []) := by
  obtain ⟨had, hg⟩ := Option.isSome_iff_exists.mp hg
  have hbal : ∀ c, balAmt st.balances q.account c = amountOf had c := by intro c; simp [balAmt, hg]
  have hwf := (hb _ _ hg).wf
  by_cases hk : q.kind ≠ .real
  · rw [balanceStep_other hk] at h; cases h
  push Not at hk
  unfold balanceStep at h
  rw [if_neg (by simp [hk])] at h
  cases hm : q.amount with
  | some m =>
    rw [hm] at h
    simp only [hg] at h
    obtain ⟨w, hw1, _⟩ := balanceEntry_spec hm hp
    have hexp : Reachable (Balance.add had (ofMoney m)) := .add (hb _ _ hg) (.ofMoney _)
    have ham : ∀ c, amountOf (Balance.add had (ofMoney m)) c = balAmt st.balances q.account c + m.amountIn c := by
      intro c; rw [amountOf_add hwf (ofMoney_wf _), amountOf_ofMoney, hbal]
    split at h
    · next hno =>
      cases h
      have hno : assertOk skip q.balance (Balance.add had (ofMoney m)) = false := by simpa using hno
      have hn := mt (assertOk_iff (skip := skip) (asserted := q.balance) hexp).mpr (by rw [hno]; decide)
      push Not at hn
      obtain ⟨hsk, x, d, hx, hne⟩ := hn
      refine ⟨rfl, hk, by simpa using hsk, .inl ⟨m, x, d, (o.1.run (Balance.add had (ofMoney m))).map Prod.snd,
        (o.2.run (Balance.sub (Balance.add had (ofMoney m)) (ofMoney (.mk x d)))).map Prod.snd, rfl, hx,
        by rw [← ham]; exact hne, ?_, ?_, ?_⟩⟩
      · have := canon_commodities (add_canon hwf (ofMoney_wf m)) o.1
        rwa [show amountOf (Balance.add had (ofMoney m)) = fun c => balAmt st.balances q.account c + m.amountIn c from
          funext ham] at this
      · have := canon_commodities (sub_canon hexp.wf (ofMoney_wf (.mk x d))) o.2
        rwa [show amountOf (Balance.sub (Balance.add had (ofMoney m)) (ofMoney (.mk x d))) =
          fun c => balAmt st.balances q.account c + m.amountIn c - if d = c then x else 0 from by
            funext c; rw [amountOf_sub hexp.wf (ofMoney_wf _), ham, amountOf_ofMoney, Money.amountIn_mk]] at this
      · unfold stepText
        rw [hx] at hno
        simp only [hm, hx, hg, hno]
        unfold assertionText assertedText Balance.display
        simp [List.flatMap]
    · simp only [hw1] at h; cases h
  | none =>
    rw [hm] at h
    cases hx : q.balance with
    | none => rw [hx] at h; simp at h
    | some b =>
      cases hsk : skip with
      | true => rw [hx, hsk] at h; simp at h
      | false =>
        rw [hx, hsk] at h
        simp only [hg] at h
        cases ht : toMoney (Balance.sub (ofMoney b) had) with
        | ok m => rw [ht] at h; cases h
        | error e1 =>
          rw [ht] at h; cases h
          cases toMoney_error ht
          refine ⟨rfl, hk, rfl, .inr ⟨b, rfl, rfl, ?_, by unfold stepText; simp only [hm]⟩⟩
          rintro ⟨m, hm'⟩
          obtain ⟨st', hs⟩ := balanceStep_assigned hb hk hm hx (by rw [hg]; rfl) hm'
          unfold balanceStep at hs
          rw [if_neg (by simp [hk]), hm, hx] at hs
          simp only [hg, ht] at hs
          cases hs

theorem totalBalance_bought {ps : List Posting} (hp : ∀ p ∈ ps, p.CostOk) :
    ∃ vb, totalBalance ps .virtBal = .ok vb ∧
      (canBeZero vb = true ↔ MayBalance (weightOf .virtBal (ps.map Posting.bought))) := by
  obtain ⟨b, h1, h2, h3⟩ := totalBalance_spec .virtBal (ps.map Posting.bought)
    (by
      intro p h
      obtain ⟨q, hq, rfl⟩ := List.mem_map.mp h
      exact bought_costOk (hp q hq)) (bought_noSales _)
  refine ⟨b, (totalBalanceLoop_bought _ _).symm.trans h1, ?_⟩
  rw [← mayBalance_congr h3]
  exact C05_canBeZero_iff h2

/-- A transaction is rejected exactly when something is wrong with it, and this is what is written. -/
theorem balance_fault {o : Shuf × Shuf} {s : Shuf} {skip : Bool} {bals : Balances} {t : Txn Posting} {e : Err}
    (hb : bals.Ok) (hp : ∀ p ∈ t.postings, p.CostOk) (hd : ∀ p ∈ t.postings, (bals.get? p.account).isSome)
    (h : Txn.balance s skip bals t = .error (.error e)) :
    Fault skip (balAmt bals) t e (balanceStderr o skip bals t) := by
  obtain ⟨vb, hv, hz⟩ := totalBalance_bought hp
  unfold Txn.balance at h
  unfold balanceStderr
  rw [hv] at h ⊢
  simp only at h ⊢
  cases hcz : canBeZero vb with
  | false =>
    rw [hcz] at h hz
    simp only [Bool.not_false, if_true] at h ⊢
    cases h
    exact .brackets (fun hm => by simpa using hz.mpr hm)
  | true =>
    rw [hcz] at h
    have hmay := hz.mp hcz
    simp only [Bool.not_true, Bool.false_eq_true, if_false] at h ⊢
    rw [show (⟨bals, Balance.new, "this will never be used".toList, none, []⟩ : LoopSt) = initSt bals from rfl] at h ⊢
    cases hl : balanceLoop skip t.postings (initSt bals) with
    | error e1 =>
      rw [hl] at h; cases h
      obtain ⟨pre, q, post, st', e1, e2, e3, e4⟩ := balanceLoop_error (o := o) t.postings hl
      have hpp : ∀ p ∈ pre, p.CostOk := fun p h => hp p (by rw [e1]; simp [h])
      have hdp : ∀ p ∈ pre, (bals.get? p.account).isSome := fun p h => hd p (by rw [e1]; simp [h])
      have hqm : q ∈ t.postings := by rw [e1]; simp
      obtain ⟨qs, hqs⟩ := loop_posts pre e2 hb .new (initSt_canon bals) hpp
      obtain ⟨st1, f1, f2, f3⟩ := posts_loop hqs (st := initSt bals) (fun _ _ => rfl) hb .new (initSt_canon bals) hpp hdp
      rw [e2] at f1; cases f1
      obtain ⟨l1, _, _, l4, _⟩ := balanceLoop_spec pre e2 hb .new (initSt_canon bals) hpp
      obtain ⟨g1, g2, g3, g4⟩ := balanceStep_error (o := o) l1 (hp q hqm) (by rw [l4]; exact hd q hqm) e3
      cases g1
      rw [e4]
      rcases g4 with ⟨m, x, d, has, more, k1, k2, k3, k4, k5, k6⟩ | ⟨b, k1, k2, k3, k4⟩
      · simp only [f3] at k3 k4 k5
        rw [k6]
        exact .asserted hmay e1 hqs g2 k1 g3 k2 k3 k4 k5
      · simp only [f3] at k3
        rw [k4]
        exact .assigned hmay e1 hqs g2 k1 g3 k2 k3
    | ok st =>
      have htext : ∀ (ps : List Posting) (st st' : LoopSt), balanceLoop skip ps st = .ok st' → loopText o skip ps st = [] := by
        intro ps
        induction ps with
        | nil => intros; rfl
        | cons p ps ih =>
          intro st st' h
          rw [balanceLoop] at h
          rw [loopText]
          cases hs : balanceStep skip st p with
          | error e => rw [hs] at h; cases h
          | ok st1 => rw [hs] at h; exact ih _ _ h
      rw [htext _ _ _ hl]
      rw [hl] at h
      simp only at h
      obtain ⟨qs, hqs⟩ := loop_posts t.postings hl hb .new (initSt_canon bals) hp
      obtain ⟨st1, f1, f2, f3⟩ := posts_loop hqs (st := initSt bals) (fun _ _ => rfl) hb .new (initSt_canon bals) hp hd
      rw [hl] at f1; cases f1
      obtain ⟨l1, l2, l3, l4, res, l5, l6, _⟩ := balanceLoop_spec t.postings hl hb .new (initSt_canon bals) hp
      have hout : st.out = res := by simpa [initSt] using l5
      have hlen := length_real skip t.postings
      have hlen' := l6.length_eq
      have hemp : (t.postings.filter (fun p => p.kind = .real)).length - st.out.length
          = (t.postings.filter (fun p => p.elided skip)).length := by
        rw [hout, ← hlen']; omega
      rw [hemp] at h
      split at h
      · next hgt => cases h; exact .empties hmay hqs rfl hgt
      · split at h
        · next h0 =>
          split at h
          · cases h
          · next hcz' =>
            cases h
            refine .unbalanced hmay hqs ?_ ?_
            · intro p hpm he
              have := List.filter_eq_nil_iff.mp (List.length_eq_zero_iff.mp h0) p hpm
              simp [he] at this
            · intro hm
              refine hcz' ((C05_canBeZero_iff l2).mpr ((mayBalance_congr (fun c => ?_)).mpr hm))
              rw [f2]; simp [initSt]
        · split at h
          · next e1 hf =>
            cases h
            exfalso
            have : ∀ (ms : List Money) (a : Str) (y : Option Str) (bals : Balances) (out : List Posting) (e : Err),
                fillLoop t a y ms bals out ≠ .error (.error e) := by
              intro ms
              induction ms with
              | nil => intro a y bals out e h; cases h
              | cons m ms ih =>
                intro a y bals out e h
                rw [fillLoop] at h
                split at h
                · cases h
                · exact ih _ _ _ _ _ h
            exact this _ _ _ _ _ _ hf
          · cases h

theorem fault_balance {s : Shuf} {skip : Bool} {bals : Balances} {t : Txn Posting} {e : Err} {text : Str}
    (hb : bals.Ok) (hp : ∀ p ∈ t.postings, p.CostOk) (hd : ∀ p ∈ t.postings, (bals.get? p.account).isSome)
    (h : Fault skip (balAmt bals) t e text) : Txn.balance s skip bals t = .error (.error e) := by
  obtain ⟨vb, hv, hz⟩ := totalBalance_bought hp
  have key : ∀ pre q post qs, t.postings = pre ++ q :: post → Posts skip (balAmt bals) pre qs →
      ∃ st, balanceLoop skip pre (initSt bals) = .ok st ∧ st.balances.Ok ∧ (st.balances.get? q.account).isSome ∧
        ∀ a c, balAmt st.balances a c = balAmt bals a c + postedTo qs a c := by
    intro pre q post qs e1 hqs
    have hpp : ∀ p ∈ pre, p.CostOk := fun p h => hp p (by rw [e1]; simp [h])
    have hdp : ∀ p ∈ pre, (bals.get? p.account).isSome := fun p h => hd p (by rw [e1]; simp [h])
    obtain ⟨st, f1, f2, f3⟩ := posts_loop hqs (st := initSt bals) (fun _ _ => rfl) hb .new (initSt_canon bals) hpp hdp
    obtain ⟨l1, _, _, l4, _⟩ := balanceLoop_spec pre f1 hb .new (initSt_canon bals) hpp
    exact ⟨st, f1, l1, by rw [l4]; exact hd q (by rw [e1]; simp), f3⟩
  have whole : ∀ qs, Posts skip (balAmt bals) t.postings qs →
      ∃ st, balanceLoop skip t.postings (initSt bals) = .ok st ∧ st.tbal.Reachable ∧
        (∀ c, amountOf st.tbal c = weightOf .real qs c) ∧
        (t.postings.filter (fun p => p.kind = .real)).length - st.out.length
          = (t.postings.filter (fun p => p.elided skip)).length := by
    intro qs hqs
    obtain ⟨st, f1, f2, f3⟩ := posts_loop hqs (st := initSt bals) (fun _ _ => rfl) hb .new (initSt_canon bals) hp hd
    obtain ⟨l1, l2, l3, l4, res, l5, l6, _⟩ := balanceLoop_spec t.postings f1 hb .new (initSt_canon bals) hp
    have hout : st.out = res := by simpa [initSt] using l5
    have hlen := length_real skip t.postings
    have hlen' := l6.length_eq
    exact ⟨st, f1, l2, fun c => by rw [f2]; simp [initSt], by rw [hout, ← hlen']; omega⟩
  unfold Txn.balance
  rw [hv]
  simp only
  rw [show (⟨bals, Balance.new, "this will never be used".toList, none, []⟩ : LoopSt) = initSt bals from rfl]
  cases h with
  | brackets hn =>
    rw [if_pos]
    cases hc : canBeZero vb with
    | false => rfl
    | true => exact absurd (hz.mp hc) hn
  | @asserted pre q post qs m x d has more hmay e1 hqs hk hm hsk hx hne _ _ =>
    rw [hz.mpr hmay]
    obtain ⟨st, f1, f2, f3, f4⟩ := key _ _ _ _ e1 hqs
    obtain ⟨had, hg⟩ := Option.isSome_iff_exists.mp f3
    have hst : balanceStep skip st q = .error (.error .notBalanced) := by
      unfold balanceStep
      rw [if_neg (by simp [hk]), hm]
      simp only [hg]
      have hexp : Reachable (Balance.add had (ofMoney m)) := .add (f2 _ _ hg) (.ofMoney _)
      rw [if_pos]
      cases ha : assertOk skip q.balance (Balance.add had (ofMoney m)) with
      | false => rfl
      | true =>
        rcases (assertOk_iff hexp).mp ha with h | h
        · rw [hsk] at h; cases h
        · refine absurd ?_ hne
          have := h x d hx
          rw [amountOf_add (f2 _ _ hg).wf (ofMoney_wf _), amountOf_ofMoney] at this
          rw [← this, ← f4]
          simp [balAmt, hg]
    rw [e1, balanceLoop_stops pre f1 hst]
    rfl
  | @assigned pre q post qs b hmay e1 hqs hk hm hsk hx hne =>
    rw [hz.mpr hmay]
    obtain ⟨st, f1, f2, f3, f4⟩ := key _ _ _ _ e1 hqs
    obtain ⟨had, hg⟩ := Option.isSome_iff_exists.mp f3
    have hr : Reachable (Balance.sub (ofMoney b) had) := .sub (.ofMoney _) (f2 _ _ hg)
    have hst : balanceStep skip st q = .error (.error .notBalanced) := by
      unfold balanceStep
      rw [if_neg (by simp [hk]), hm, hx, hsk]
      simp only [hg]
      cases ht : toMoney (Balance.sub (ofMoney b) had) with
      | error e1 => cases toMoney_error ht; rfl
      | ok m =>
        exfalso
        refine hne ⟨m, fun c => ?_⟩
        rw [← (C04_toMoney hr).1 m ht c, amountOf_sub (ofMoney_wf _) (f2 _ _ hg).wf, amountOf_ofMoney, ← f4]
        simp [balAmt, hg]
    rw [e1, balanceLoop_stops pre f1 hst]
    rfl
  | @empties qs n hmay hqs hn h2 =>
    obtain ⟨st, f1, _, _, f4⟩ := whole qs hqs
    rw [hz.mpr hmay, f1]
    simp only [f4, hn]
    rw [if_neg (by decide), if_pos (by omega)]
  | @unbalanced qs hmay hqs hno hnm =>
    obtain ⟨st, f1, f2, f3, f4⟩ := whole qs hqs
    rw [hz.mpr hmay, f1]
    have h0 : t.postings.filter (fun p => p.elided skip) = [] := by
      rw [List.filter_eq_nil_iff]; intro p hpm; simpa using hno p hpm
    simp only [f4, h0]
    rw [if_neg (by decide), if_neg (by simp), if_pos (by simp), if_neg]
    intro hc
    exact hnm ((mayBalance_congr f3).mp ((C05_canBeZero_iff f2).mp hc))

theorem balance_books_bought {s : Shuf} {skip : Bool} {bals bals' : Balances} {t t' : Txn Posting} {ret : Balance}
    (hb : bals.Ok) (hp : ∀ p ∈ t.postings, p.CostOk) (hd : ∀ p ∈ t.postings, (bals.get? p.account).isSome)
    (h : Txn.balance s skip bals t = .ok (bals', t', ret)) : Books skip (balAmt bals) t.bought (balAmt bals') := by
  have e := balance_bought (s := s) (skip := skip) (bals := bals) (t := t)
  rw [h] at e
  cases h1 : Txn.balance s skip bals t.bought with
  | error e1 => rw [h1] at e; cases e
  | ok x =>
    obtain ⟨b1, t1, r1⟩ := x
    rw [h1] at e
    cases e
    refine books_of_balance hb ?_ ?_ (bought_noSales _) h1
    · intro p h
      obtain ⟨q, hq, rfl⟩ := List.mem_map.mp h
      exact bought_costOk (hp q hq)
    · intro p h
      obtain ⟨q, hq, rfl⟩ := List.mem_map.mp h
      rw [bought_account]; exact hd q hq

theorem books_bought_balance {s : Shuf} {skip : Bool} {bals : Balances} {t : Txn Posting} {after : Str → Cur → Rat}
    (hb : bals.Ok) (hp : ∀ p ∈ t.postings, p.CostOk) (hd : ∀ p ∈ t.postings, (bals.get? p.account).isSome)
    (h : Books skip (balAmt bals) t.bought after) : ∃ x, Txn.balance s skip bals t = .ok x := by
  obtain ⟨b1, t1, r1, h1, _⟩ := balance_of_books (s := s) hb
    (by
      intro p h
      obtain ⟨q, hq, rfl⟩ := List.mem_map.mp h
      exact bought_costOk (hp q hq))
    (by
      intro p h
      obtain ⟨q, hq, rfl⟩ := List.mem_map.mp h
      rw [bought_account]; exact hd q hq) (bought_noSales _) h
  have e := balance_bought (s := s) (skip := skip) (bals := bals) (t := t)
  rw [h1] at e
  cases h2 : Txn.balance s skip bals t with
  | error e1 => rw [h2] at e; cases e
  | ok x => exact ⟨x, rfl⟩

theorem display_lines {text : Str} {date : Date} {t : Txn Posting} {e : Err} (hd : t.date = some date) :
    text ++ t.display ++ '\n' :: e.debug ++ ['\n'] = faultText text date t e := by
  have h : ∀ ps : List Posting, ps.flatMap postingText ++ ['\n'] =
      '\n' :: (ps.map (fun p => postingLine p ++ "\n".toList)).flatten := by
    intro ps
    induction ps with
    | nil => rfl
    | cons p ps ih =>
      rw [List.flatMap_cons, List.append_assoc, ih, List.map_cons, List.flatten_cons]
      unfold postingText postingLine
      cases p.amount <;> simp
  have he : e.debug = faultName e := by cases e <;> rfl
  unfold faultText Txn.display
  rw [hd, he]
  have := h t.postings
  have e1 : ∀ a b c d : Str, a ++ (b ++ ' ' :: c ++ t.postings.flatMap postingText) ++ '\n' :: d =
      a ++ (b ++ ' ' :: c ++ (t.postings.flatMap postingText ++ ['\n'])) ++ d := by intros; simp
  rw [e1, this]
  simp

/-- Where the balancing pass stops. -/
theorem pass_stuck {o : Shuf × Shuf} {skip : Bool} {e : Err} (ts : List (Txn Posting)) {σ ρ : Nat → Shuf} {bals : Balances}
    (hb : bals.Ok) (hdt : ∀ t ∈ ts, t.date.isSome)
    (hp : ∀ t ∈ ts, ∀ p ∈ t.postings, p.CostOk ∧ (bals.get? p.account).isSome)
    (h : balancePass skip σ ρ bals ts = .error (.error e)) :
    ∃ pre t post mid date text, ts = pre ++ t :: post ∧ BooksAll skip (balAmt bals) (pre.map Txn.bought) mid ∧
      (¬ ∃ after, Books skip mid t.bought after) ∧ t.date = some date ∧ Fault skip mid t e text ∧
      passText o skip σ bals ts = faultText text date t e := by
  induction ts generalizing σ ρ bals with
  | nil => cases h
  | cons t ts ih =>
    obtain ⟨d, hd'⟩ := Option.isSome_iff_exists.mp (hdt t (by simp))
    have hp1 : ∀ p ∈ t.postings, p.CostOk := fun p h => (hp t (by simp) p h).1
    have hp2 : ∀ p ∈ t.postings, (bals.get? p.account).isSome := fun p h => (hp t (by simp) p h).2
    rw [balancePass, hd'] at h
    rw [passText]
    cases h1 : Txn.balance (σ 0) skip bals t with
    | error e1 =>
      simp only [h1] at h
      cases h
      refine ⟨[], t, ts, balAmt bals, d, _, rfl, .nil, ?_, hd', balance_fault (o := o) hb hp1 hp2 h1, ?_⟩
      · rintro ⟨after, ha⟩
        obtain ⟨x, hx⟩ := books_bought_balance (s := σ 0) hb hp1 hp2 ha
        rw [h1] at hx; cases hx
      · exact display_lines hd'
    | ok x =>
      obtain ⟨b1, t1, r1⟩ := x
      simp only [h1] at h ⊢
      obtain ⟨res, gen, hB⟩ := balance_spec h1 hb hp1
      have hcanon : Balance.Canon r1 := by
        rcases hB.cases with ⟨_, _, _, _, hc, _⟩ | ⟨_, _, hret, _⟩
        · exact hc
        · rw [hret]; exact Balance.Canon.nil
      obtain ⟨pr, ho, _⟩ := impliedPrice_spec (s := ρ 0) (date := d) hcanon
      simp only [ho] at h
      split at h
      · next e2 h2 =>
        cases h
        obtain ⟨pre, u, post, mid, date, text, i1, i2, i3⟩ := ih hB.balsOk (fun u hu => hdt u (by simp [hu]))
          (fun u hu q hq => ⟨(hp u (by simp [hu]) q hq).1, by
            rw [hB.dom]; exact (hp u (by simp [hu]) q hq).2⟩) h2
        exact ⟨t :: pre, u, post, mid, date, text, by rw [i1]; rfl, .cons (balance_books_bought hb hp1 hp2 h1) i2, i3⟩
      · cases h

/-- A pass over transactions that get stuck stops there. -/
theorem stuck_pass {skip : Bool} {e : Err} {text : Str} {t : Txn Posting} {post : List (Txn Posting)}
    {mid : Str → Cur → Rat} (pre : List (Txn Posting)) {σ ρ : Nat → Shuf} {bals : Balances} (hb : bals.Ok)
    (hdt : ∀ u ∈ pre ++ t :: post, u.date.isSome)
    (hp : ∀ u ∈ pre ++ t :: post, ∀ p ∈ u.postings, p.CostOk ∧ (bals.get? p.account).isSome)
    (hbk : BooksAll skip (balAmt bals) (pre.map Txn.bought) mid) (hf : Fault skip mid t e text) :
    balancePass skip σ ρ bals (pre ++ t :: post) = .error (.error e) := by
  induction pre generalizing σ ρ bals with
  | nil =>
    cases hbk
    obtain ⟨d, hd⟩ := Option.isSome_iff_exists.mp (hdt t (by simp))
    rw [List.nil_append, balancePass, hd, fault_balance hb (fun p h => (hp t (by simp) p h).1)
      (fun p h => (hp t (by simp) p h).2) hf]
  | cons u pre ih =>
    rw [List.map_cons] at hbk
    cases hbk with
    | cons h1 h2 =>
      obtain ⟨d, hd⟩ := Option.isSome_iff_exists.mp (hdt u (by simp))
      have hp1 : ∀ p ∈ u.postings, p.CostOk := fun p h => (hp u (by simp) p h).1
      have hp2 : ∀ p ∈ u.postings, (bals.get? p.account).isSome := fun p h => (hp u (by simp) p h).2
      have hx := balance_of_books (s := σ 0) hb
        (by
          intro p h
          obtain ⟨q, hq, rfl⟩ := List.mem_map.mp h
          exact bought_costOk (hp1 q hq))
        (by
          intro p h
          obtain ⟨q, hq, rfl⟩ := List.mem_map.mp h
          rw [bought_account]; exact hp2 q hq) (bought_noSales _) h1
      obtain ⟨b1, t1, r1, g1, g2⟩ := hx
      have e1 := balance_bought (s := σ 0) (skip := skip) (bals := bals) (t := u)
      rw [g1] at e1
      rw [List.cons_append, balancePass, hd]
      cases h3 : Txn.balance (σ 0) skip bals u with
      | error e2 => rw [h3] at e1; cases e1
      | ok x =>
        obtain ⟨b2, t2, r2⟩ := x
        rw [h3] at e1
        cases e1
        obtain ⟨res, gen, hB⟩ := balance_spec h3 hb hp1
        have hcanon : Balance.Canon r1 := by
          rcases hB.cases with ⟨_, _, _, _, hc, _⟩ | ⟨_, _, hret, _⟩
          · exact hc
          · rw [hret]; exact Balance.Canon.nil
        obtain ⟨pr, ho, _⟩ := impliedPrice_spec (s := ρ 0) (date := d) hcanon
        simp only [ho]
        rw [ih hB.balsOk (fun u hu => hdt u (by simp only [List.cons_append, List.mem_cons]; exact .inr hu))
          (fun u hu q hq => ⟨(hp u (by simp only [List.cons_append, List.mem_cons]; exact .inr hu) q hq).1, by
            rw [hB.dom]; exact (hp u (by simp only [List.cons_append, List.mem_cons]; exact .inr hu) q hq).2⟩)
          (by rwa [show balAmt b1 = _ from funext fun a => funext fun c => g2 a c])]

theorem pass_iff_stuck {o : Shuf × Shuf} {skip : Bool} {e : Err} {ts : List (Txn Posting)} {σ ρ : Nat → Shuf}
    {accounts : NList AccountDef} (hdt : ∀ t ∈ ts, t.date.isSome)
    (hp : ∀ t ∈ ts, ∀ p ∈ t.postings, p.CostOk ∧ ((initialBalances accounts).get? p.account).isSome) :
    (balancePass skip σ ρ (initialBalances accounts) ts = .error (.error e) ↔ ∃ message, Stuck skip ts e message) ∧
      (balancePass skip σ ρ (initialBalances accounts) ts = .error (.error e) →
        Stuck skip ts e (passText o skip σ (initialBalances accounts) ts)) := by
  have h1 : balancePass skip σ ρ (initialBalances accounts) ts = .error (.error e) →
      Stuck skip ts e (passText o skip σ (initialBalances accounts) ts) := by
    intro h
    obtain ⟨pre, t, post, mid, date, text, i1, i2, i3⟩ := pass_stuck (o := o) ts (initialBalances_ok _) hdt hp h
    rw [initialBalances_amt] at i2
    exact ⟨pre, t, post, mid, date, text, i1, i2, i3⟩
  refine ⟨⟨fun h => ⟨_, h1 h⟩, ?_⟩, h1⟩
  rintro ⟨message, pre, t, post, mid, date, text, rfl, i2, _, _, i5, _⟩
  exact stuck_pass pre (initialBalances_ok _) hdt hp (by rw [initialBalances_amt]; exact i2) i5

theorem digits_no_nl (n : Nat) : '\n' ∉ digits n := by
  intro hm
  have h : '\n' ∈ padZero 0 n := List.mem_append_right _ hm
  exact absurd ((isDigits_padZero 0 n).2 _ h) (by decide)

theorem faultName_nl (e : Err) : '\n' ∉ faultName e := by
  intro h
  unfold faultName at h
  split at h
  · exact absurd h (by decide +kernel)
  · rcases List.mem_append.mp h with h | h
    · rcases List.mem_append.mp h with h | h
      · exact absurd h (by decide +kernel)
      · exact digits_no_nl _ h
    · exact absurd h (by decide +kernel)
  · cases h

end Dinero
