import Verif.Lemmas.Automated
/-
Lemmas on what hash orders can change.
-/
namespace Dinero
open Balance

/-! ### Balancing -/

/-- Two states of the loop of `balance` that differ only in how balances are stored. -/
structure SameSt (a b : LoopSt) : Prop where
  okA : a.balances.Ok
  okB : b.balances.Ok
  bals : BalsEq a.balances b.balances
  tbal : a.tbal = b.tbal
  account : a.fillAccount = b.fillAccount
  payee : a.fillPayee = b.fillPayee
  out : a.out = b.out

/-- Both succeed with related results, or both fail alike. -/
def BothRes {α β : Type} (R : α → β → Prop) : Res α → Res β → Prop
  | .ok a, .ok b => R a b
  | .error e, .error e' => e = e'
  | _, _ => False

theorem BothRes.ok_left {α β : Type} {R : α → β → Prop} {x : Res α} {y : Res β} (h : BothRes R x y) {a : α}
    (hx : x = .ok a) : ∃ b, y = .ok b ∧ R a b := by
  subst hx
  cases y with
  | ok b => exact ⟨b, rfl, h⟩
  | error e => exact h.elim

theorem BalsEq.insert {x y : Balances} (h : BalsEq x y) {a : Str} {b b' : Balance}
    (hb : ∀ c, b.amountOf c = b'.amountOf c) : BalsEq (HMap.insert x a b) (HMap.insert y a b') := by
  constructor
  · intro k
    rw [HMap.get?_insert, HMap.get?_insert]
    split
    · rfl
    · exact h.dom k
  · intro k c
    unfold balAmt
    rw [HMap.get?_insert, HMap.get?_insert]
    by_cases hk : a = k
    · simp only [if_pos hk]; exact hb c
    · simp only [if_neg hk]; exact h.amt k c

theorem BalsEq.get {x y : Balances} (h : BalsEq x y) (a : Str) :
    (x.get? a = none ∧ y.get? a = none) ∨ ∃ b b', x.get? a = some b ∧ y.get? a = some b' ∧
      ∀ c, b.amountOf c = b'.amountOf c := by
  have hd := h.dom a
  have ha := h.amt a
  unfold balAmt at ha
  cases hx : x.get? a with
  | none => cases hy : y.get? a with
    | none => exact Or.inl ⟨rfl, rfl⟩
    | some b' => rw [hx, hy] at hd; cases hd
  | some b => cases hy : y.get? a with
    | none => rw [hx, hy] at hd; cases hd
    | some b' => rw [hx, hy] at ha; exact Or.inr ⟨b, b', rfl, rfl, ha⟩

theorem assertOk_congr {skip : Bool} {asserted : Option Money} {x y : Balance} (hx : x.Reachable)
    (hy : y.Reachable) (h : ∀ c, x.amountOf c = y.amountOf c) :
    assertOk skip asserted x = assertOk skip asserted y := by
  rw [Bool.eq_iff_iff, assertOk_iff hx, assertOk_iff hy]
  constructor <;> rintro (h1 | h1)
  · exact Or.inl h1
  · exact Or.inr (fun q d hq => by rw [← h]; exact h1 q d hq)
  · exact Or.inl h1
  · exact Or.inr (fun q d hq => by rw [h]; exact h1 q d hq)

theorem toMoney_perm {a b : Balance} (h : a.Perm b) : toMoney a = toMoney b := by
  unfold toMoney
  have hp : ((a.map Prod.snd).filter (fun m => !m.isZero)).Perm
      ((b.map Prod.snd).filter (fun m => !m.isZero)) := (h.map _).filter _
  generalize (a.map Prod.snd).filter (fun m => !m.isZero) = x at hp
  generalize (b.map Prod.snd).filter (fun m => !m.isZero) = y at hp
  match x, y, hp with
  | [], y, hp => rw [List.nil_perm.mp hp]
  | [m], y, hp => rw [List.singleton_perm.mp hp]
  | m :: n :: x, [], hp => exact absurd hp.symm.nil_eq (by simp)
  | m :: n :: x, [k], hp => exact absurd hp.length_eq (by simp)
  | m :: n :: x, k :: k' :: y, hp => rfl

theorem balanceStep_same {skip : Bool} {a b : LoopSt} (h : SameSt a b) (p : Posting) :
    BothRes SameSt (balanceStep skip a p) (balanceStep skip b p) := by
  unfold balanceStep
  by_cases hk : p.kind ≠ .real
  · rw [if_pos hk, if_pos hk]; exact h
  rw [if_neg hk, if_neg hk]
  cases hm : p.amount with
  | some money =>
    simp only
    rcases h.bals.get p.account with ⟨h1, h2⟩ | ⟨x, y, h1, h2, h3⟩
    · rw [h1, h2]; exact rfl
    · rw [h1, h2]
      simp only
      have rx := h.okA _ _ h1
      have ry := h.okB _ _ h2
      have hxy : ∀ c, (add x (ofMoney money)).amountOf c = (add y (ofMoney money)).amountOf c := by
        intro c
        rw [amountOf_add rx.wf (ofMoney_wf _), amountOf_add ry.wf (ofMoney_wf _), h3]
      have hax : (add x (ofMoney money)).Reachable := .add rx (.ofMoney _)
      have hay : (add y (ofMoney money)).Reachable := .add ry (.ofMoney _)
      rw [assertOk_congr hax hay hxy]
      split
      · exact rfl
      · cases hw : balanceEntry money p.cost with
        | error e => exact rfl
        | ok w =>
          exact ⟨h.okA.insert hax, h.okB.insert hay, h.bals.insert hxy, by rw [h.tbal], h.account, h.payee,
            by rw [h.out]⟩
  | none =>
    have hfill : BothRes SameSt (Except.ok { a with fillAccount := p.account, fillPayee := p.payee } : Res LoopSt)
        (Except.ok { b with fillAccount := p.account, fillPayee := p.payee }) :=
      ⟨h.okA, h.okB, h.bals, h.tbal, rfl, rfl, h.out⟩
    cases hb : p.balance with
    | none => cases skip <;> exact hfill
    | some m =>
      cases skip with
      | true => exact hfill
      | false =>
        simp only
        rcases h.bals.get p.account with ⟨h1, h2⟩ | ⟨x, y, h1, h2, h3⟩
        · rw [h1, h2]; exact rfl
        · rw [h1, h2]
          simp only
          have rx := h.okA _ _ h1
          have ry := h.okB _ _ h2
          have hperm : (Balance.sub (ofMoney m) x).Perm (Balance.sub (ofMoney m) y) :=
            (sub_canon (ofMoney_wf m) rx.wf).perm_of_amountOf (sub_canon (ofMoney_wf m) ry.wf) (by
              intro c; rw [amountOf_sub (ofMoney_wf m) rx.wf, amountOf_sub (ofMoney_wf m) ry.wf, h3])
          rw [toMoney_perm hperm]
          cases toMoney (Balance.sub (ofMoney m) y) with
          | error e => exact rfl
          | ok money =>
            exact ⟨h.okA.insert (.ofMoney m), h.okB.insert (.ofMoney m), h.bals.insert (fun _ => rfl),
              by rw [h.tbal], h.account, h.payee, by rw [h.out]⟩

theorem balanceLoop_same {skip : Bool} (ps : List Posting) {a b : LoopSt} (h : SameSt a b) :
    BothRes SameSt (balanceLoop skip ps a) (balanceLoop skip ps b) := by
  induction ps generalizing a b with
  | nil => exact h
  | cons p ps ih =>
    unfold balanceLoop
    have := balanceStep_same (skip := skip) h p
    cases hx : balanceStep skip a p with
    | error e =>
      cases hy : balanceStep skip b p with
      | error e' => rw [hx, hy] at this; exact this
      | ok b' => rw [hx, hy] at this; exact this.elim
    | ok a' =>
      cases hy : balanceStep skip b p with
      | error e' => rw [hx, hy] at this; exact this.elim
      | ok b' => rw [hx, hy] at this; exact ih this

theorem fillLoop_ok {t : Txn Posting} {acc : Str} {pay : Option Str} (ms : List Money) {bals : Balances}
    {out : List Posting} (h : ms ≠ [] → (bals.get? acc).isSome) :
    ∃ r, fillLoop t acc pay ms bals out = .ok r := by
  induction ms generalizing bals out with
  | nil => exact ⟨_, rfl⟩
  | cons m ms ih =>
    unfold fillLoop
    obtain ⟨b, hb⟩ := Option.isSome_iff_exists.mp (h (by simp))
    rw [hb]
    simp only
    apply ih
    intro _
    rw [HMap.get?_insert_self]; rfl

theorem postedTo_perm {a b : List Posting} (h : a.Perm b) (acc : Str) (c : Cur) :
    postedTo a acc c = postedTo b acc c := by
  unfold postedTo sumIn
  exact (((h.filter _).filterMap _).map _).sum_eq

theorem weightOf_perm {k : Kind} {a b : List Posting} (h : a.Perm b) (c : Cur) :
    weightOf k a c = weightOf k b c := by
  unfold weightOf sumIn
  exact (((h.filter _).map _).map _).sum_eq

/-- Only the order of the filled in postings depends on the hash order. -/
theorem balance_orders {s s' : Shuf} {skip : Bool} {bals bals' bals2 : Balances} {t t' : Txn Posting}
    {ret : Balance} (h : Txn.balance s skip bals t = .ok (bals', t', ret)) (hb : bals.Ok)
    (hb2 : bals2.Ok) (heq : BalsEq bals bals2) :
    ∃ bals2' t2, Txn.balance s' skip bals2 t = .ok (bals2', t2, ret) ∧ bals'.Ok ∧ bals2'.Ok ∧
      BalsEq bals' bals2' ∧ t2 = { t' with postings := t2.postings } ∧
      t2.postings.Perm t'.postings := by
  unfold Txn.balance at h ⊢
  cases hv : totalBalance t.postings .virtBal with
  | error e => rw [hv] at h; cases h
  | ok vb =>
    rw [hv] at h
    simp only at h ⊢
    split at h
    · cases h
    next hz =>
    rw [if_neg hz]
    have hst : SameSt ⟨bals, Balance.new, "this will never be used".toList, none, []⟩
        ⟨bals2, Balance.new, "this will never be used".toList, none, []⟩ :=
      ⟨hb, hb2, heq, rfl, rfl, rfl, rfl⟩
    have hloop := balanceLoop_same (skip := skip) t.postings hst
    split at h
    · cases h
    next st hl =>
    obtain ⟨st2, hl2, hsame⟩ := hloop.ok_left hl
    rw [hl2]
    simp only at h ⊢
    rw [← hsame.out, ← hsame.tbal, ← hsame.account, ← hsame.payee]
    split at h
    · cases h
    next he =>
    rw [if_neg he]
    split at h
    · next h0 =>
      rw [if_pos h0]
      split at h
      · next hcz =>
        rw [if_pos hcz]
        cases h
        exact ⟨_, _, rfl, hsame.okA, hsame.okB, hsame.bals, rfl, .refl _⟩
      · cases h
    · next h0 =>
      rw [if_neg h0]
      split at h
      · cases h
      · next b1 o1 hf =>
        cases h
        obtain ⟨f1, f2, f3, f4, f5⟩ := fillLoop_spec _ hf hsame.okA
        have hperm : ((s'.run (Balance.neg st.tbal)).map Prod.snd).Perm
            ((s.run (Balance.neg st.tbal)).map Prod.snd) :=
          ((s'.perm _).trans (s.perm _).symm).map _
        obtain ⟨⟨b2, o2⟩, hf2⟩ := fillLoop_ok (t := t) (acc := st.fillAccount) (pay := st.fillPayee)
          ((s'.run (Balance.neg st.tbal)).map Prod.snd) (bals := st2.balances) (out := st.out) (by
            intro hne
            rw [← hsame.bals.dom]
            apply f5
            intro hnil
            rw [hnil] at hperm
            exact hne (List.perm_nil.mp hperm))
        obtain ⟨g1, g2, g3, g4, _⟩ := fillLoop_spec _ hf2 hsame.okB
        rw [hf2]
        refine ⟨_, _, rfl, f1, g1, ⟨?_, ?_⟩, rfl, ?_⟩
        · intro a; rw [f2, g2, hsame.bals.dom]
        · intro a c
          rw [f4, g4, hsame.bals.amt, postedTo_perm (hperm.map _)]
        · show (o2 ++ _).Perm (o1 ++ _)
          rw [f3, g3]
          exact ((List.Perm.refl _).append (hperm.map _)).append (.refl _)

theorem impliedPrice_orders {s s' : Shuf} {d : Date} {b : Balance} (hb : Balance.Canon b)
    {o : Option Price} (h : impliedPrice s d b = .ok o) :
    ∃ o', impliedPrice s' d b = .ok o' ∧ Option.Rel SameRate o o' := by
  obtain ⟨x, hx, hxs⟩ := impliedPrice_spec (s := s) (date := d) hb
  obtain ⟨y, hy, hys⟩ := impliedPrice_spec (s := s') (date := d) hb
  rw [hx] at h; cases h
  refine ⟨y, hy, ?_⟩
  cases o with
  | none => cases y with
    | none => exact .none
    | some q => exact absurd ⟨q.commodity, q.cur, hys.2.1, hys.2.2.1, hys.2.2.2.1, hys.2.2.2.2.1⟩ hxs
  | some p => cases y with
    | none => exact absurd ⟨p.commodity, p.cur, hxs.2.1, hxs.2.2.1, hxs.2.2.2.1, hxs.2.2.2.2.1⟩ hys
    | some q =>
      obtain ⟨a1, a2, a3, a4, a5, a6⟩ := hxs
      obtain ⟨b1, b2, b3, b4, b5, b6⟩ := hys
      refine .some ⟨a1.trans b1.symm, ?_⟩
      have n3 := abs_ne_zero.mpr a3
      rcases a5 _ b3 with e | e
      · rcases a5 _ b4 with e' | e'
        · exact absurd (e.trans e'.symm) b2
        · rw [e, e'] at b6
          exact Or.inl ⟨e.symm, e'.symm, mul_right_cancel₀ n3 (a6.trans b6.symm)⟩
      · rcases a5 _ b4 with e' | e'
        · rw [e, e'] at b6
          refine Or.inr ⟨e'.symm, e.symm, ?_⟩
          apply mul_right_cancel₀ n3
          rw [one_mul, mul_right_comm, a6, mul_comm, b6]
        · exact absurd (e.trans e'.symm) b2

theorem balancePass_orders {skip : Bool} (ts : List (Txn Posting)) {σ ρ σ' ρ' : Nat → Shuf}
    {bals bals2 : Balances} {ts' : List (Txn Posting)} {prs : List Price} (hb : bals.Ok)
    (hb2 : bals2.Ok) (heq : BalsEq bals bals2) (hp : ∀ t ∈ ts, ∀ p ∈ t.postings, p.CostOk)
    (h : balancePass skip σ ρ bals ts = .ok (ts', prs)) :
    ∃ ts2 prs2, balancePass skip σ' ρ' bals2 ts = .ok (ts2, prs2) ∧
      List.Forall₂ SamePostings ts' ts2 ∧ List.Forall₂ SameRate prs prs2 := by
  induction ts generalizing σ ρ σ' ρ' bals bals2 ts' prs with
  | nil => cases h; exact ⟨[], [], rfl, .nil, .nil⟩
  | cons t ts ih =>
    unfold balancePass at h ⊢
    split at h
    · cases h
    next d hd =>
    split at h
    · cases h
    next b1 t1 ret h1 =>
    obtain ⟨b2, t2, g1, g2, g3, g4, g5, g6⟩ := balance_orders (s' := σ' 0) h1 hb hb2 heq
    rw [g1]
    simp only
    have hcan : Balance.Canon ret := by
      obtain ⟨res, gen, hB⟩ := balance_spec h1 hb (hp t (by simp))
      rcases hB.cases with ⟨_, _, _, _, hc, _⟩ | ⟨_, _, hr, _⟩
      · exact hc
      · rw [hr]; exact Canon.nil
    split at h
    · cases h
    next o ho =>
    obtain ⟨o', ho', hrel⟩ := impliedPrice_orders (s' := ρ' 0) hcan ho
    rw [ho']
    simp only
    split at h
    · cases h
    next ts1 prs1 hr =>
    cases h
    obtain ⟨ts2, prs2, k1, k2, k3⟩ := ih (σ' := fun i => σ' (i + 1)) (ρ' := fun i => ρ' (i + 1)) g2 g3 g4
      (fun u hu => hp u (by simp [hu])) hr
    rw [k1]
    refine ⟨_, _, rfl, .cons ⟨g5, g6⟩ k2, ?_⟩
    cases hrel with
    | none => exact k3
    | some hs => exact .cons hs k3

/-! ### Names -/

section
variable {T : Type} [Named T]

omit [Named T] in
theorem SameNames.get {l l' : NList T} (h : SameNames l l') (lower : Str → Str) (k : Str) :
    l.get lower k = l'.get lower k := by
  unfold NList.get
  rw [h.1, h.2]
  cases l'.list.get? (lower k) with
  | some x => rfl
  | none =>
    cases l'.aliases.get? (lower k) with
    | none => rfl
    | some x => simp only [h.1]

theorem SameNames.perm {lower : Str → Str} {l l' : NList T} (h : SameNames l l') (hr : l.Reachable lower)
    (hr' : l'.Reachable lower) : List.Perm l.list l'.list := by
  have i := NList.Inv.reach hr
  have i' := NList.Inv.reach hr'
  refine (List.perm_ext_iff_of_nodup ?_ ?_).mpr ?_
  · exact List.Nodup.of_map _ i.nodupL
  · exact List.Nodup.of_map _ i'.nodupL
  · rintro ⟨k, x⟩
    constructor
    · intro hm
      exact (HMap.get?_eq_some_iff i'.nodupL _ _).mp (by rw [← h.1]; exact HMap.get?_of_mem i.nodupL hm)
    · intro hm
      exact (HMap.get?_eq_some_iff i.nodupL _ _).mp (by rw [h.1]; exact HMap.get?_of_mem i'.nodupL hm)

/-- What is new after the names have been gone through. -/
theorem ensureAll_closed {lower : Str → Str} {make : Str → T} (hm : ∀ n, Named.name (make n) = n)
    (ha : ∀ n, Named.aliases (make n) = []) (names : List Str) {l l' : NList T}
    (hr : l.Reachable lower) (h : NList.ensureAll lower make names l = .ok l') :
    l'.aliases = l.aliases ∧ ∀ k, l'.list.get? k = (l.list.get? k).or
      (if (l.aliases.get? k).isSome then none else (names.find? (fun n => lower n = k)).map make) := by
  induction names generalizing l with
  | nil => cases h; exact ⟨rfl, fun k => by simp⟩
  | cons n ns ih =>
    unfold NList.ensureAll NList.ensure at h
    rcases C32_get_total hr n with ⟨x, hx⟩ | hx
    · rw [hx] at h
      obtain ⟨h1, h2⟩ := ih hr h
      refine ⟨h1, fun k => ?_⟩
      rw [h2]
      by_cases hk : lower n = k
      · subst hk
        unfold NList.get at hx
        cases hg : l.list.get? (lower n) with
        | some y => simp
        | none =>
          rw [hg] at hx
          cases hg2 : l.aliases.get? (lower n) with
          | some y => simp
          | none => rw [hg2] at hx; cases hx
      · simp [hk]
    · rw [hx] at h
      simp only at h
      obtain ⟨g1, g2, g3⟩ := insert_fresh hx (hm n) (ha n)
      obtain ⟨m1, m2⟩ := get_missing hx
      obtain ⟨h1, h2⟩ := ih (.insert _ hr) h
      rw [g3] at h1 h2
      refine ⟨h1, fun k => ?_⟩
      rw [h2]
      simp only
      rw [HMap.get?_insert]
      by_cases hk : lower n = k
      · subst hk
        simp [m1, m2]
      · simp [hk]

theorem find?_perm {names names' : List Str} {lower : Str → Str} (h : names.Perm names')
    (hu : ∀ a ∈ names, ∀ b ∈ names, lower a = lower b → a = b) (k : Str) :
    names.find? (fun n => lower n = k) = names'.find? (fun n => lower n = k) := by
  cases h1 : names.find? (fun n => lower n = k) with
  | none =>
    cases h2 : names'.find? (fun n => lower n = k) with
    | none => rfl
    | some b =>
      have := List.find?_eq_none.mp h1 b (h.mem_iff.mpr (List.mem_of_find?_eq_some h2))
      exact absurd (List.find?_some h2) this
  | some a =>
    have ha := List.find?_some h1
    have ham := List.mem_of_find?_eq_some h1
    cases h2 : names'.find? (fun n => lower n = k) with
    | none => exact absurd ha (List.find?_eq_none.mp h2 a (h.mem_iff.mp ham))
    | some b =>
      have hb := List.find?_some h2
      have hbm := h.mem_iff.mpr (List.mem_of_find?_eq_some h2)
      simp only [decide_eq_true_eq] at ha hb
      rw [hu a ham b hbm (ha.trans hb.symm)]

theorem ensureAll_orders {lower : Str → Str} {make : Str → T} (hm : ∀ n, Named.name (make n) = n)
    (ha : ∀ n, Named.aliases (make n) = []) {names names' : List Str} (hp : names.Perm names')
    (hu : ∀ a ∈ names, ∀ b ∈ names, lower a = lower b → a = b) {l l1 l2 : NList T}
    (hr : l.Reachable lower) (h1 : NList.ensureAll lower make names l = .ok l1)
    (h2 : NList.ensureAll lower make names' l = .ok l2) : SameNames l1 l2 := by
  obtain ⟨a1, b1⟩ := ensureAll_closed hm ha names hr h1
  obtain ⟨a2, b2⟩ := ensureAll_closed hm ha names' hr h2
  refine ⟨fun k => ?_, fun k => by rw [a1, a2]⟩
  rw [b1, b2, find?_perm hp hu]

end

/-- What is new after the payees have been gone through. -/
theorem popPayees_closed {env : Env} {s : Shuf} {copy : NList PayeeDef} (hc : copy.Reachable env.lower)
    (names : List Str) {l l' : NList PayeeDef} (hr : l.Reachable env.lower)
    (hcl : Extends env.lower copy l) (h : popPayees env s copy names l = .ok l') :
    (∀ k, l'.list.get? k = (l.list.get? k).or
      (if (l.aliases.get? k).isSome then none else (names.find? (fun n => env.lower n = k)).bind
        (fun n => if (findPattern env s copy n).isSome then none else some (payeeOf n)))) ∧
    ∀ k, l'.aliases.get? k = (l.aliases.get? k).or
      (if (l.list.get? k).isSome then none else (names.find? (fun n => env.lower n = k)).bind
        (fun n => (findPattern env s copy n).map (fun p => env.lower p.name))) := by
  induction names generalizing l with
  | nil => cases h; exact ⟨fun k => by simp, fun k => by simp⟩
  | cons n ns ih =>
    obtain ⟨l1, e1, r1, x1, f1⟩ := popPayees_spec (s := s) hc [n] hr hcl
    unfold popPayees at h e1
    rcases C32_get_total hr n with ⟨x, hx⟩ | hx
    · rw [hx] at h
      simp only at h
      obtain ⟨h1, h2⟩ := ih hr hcl h
      have hsome : (l.list.get? (env.lower n)).isSome ∨ (l.aliases.get? (env.lower n)).isSome := by
        unfold NList.get at hx
        cases hg : l.list.get? (env.lower n) with
        | some y => exact Or.inl rfl
        | none =>
          rw [hg] at hx
          cases hg2 : l.aliases.get? (env.lower n) with
          | some y => exact Or.inr rfl
          | none => rw [hg2] at hx; cases hx
      constructor
      · intro k
        rw [h1]
        by_cases hk : env.lower n = k
        · subst hk
          rcases hsome with h | h <;> obtain ⟨y, hy⟩ := Option.isSome_iff_exists.mp h <;> simp [hy]
        · simp [hk]
      · intro k
        rw [h2]
        by_cases hk : env.lower n = k
        · subst hk
          rcases hsome with h | h <;> obtain ⟨y, hy⟩ := Option.isSome_iff_exists.mp h <;> simp [hy]
        · simp [hk]
    · rw [hx] at h e1
      obtain ⟨m1, m2⟩ := get_missing hx
      simp only at h e1
      cases hf : findPattern env s copy n with
      | none =>
        rw [hf] at h e1
        simp only at h e1
        obtain ⟨_, g2, g3⟩ := insert_fresh (x := payeeOf n) hx rfl rfl
        obtain ⟨h1, h2⟩ := ih (.insert _ hr) (hcl.trans g2) h
        rw [g3] at h1 h2
        simp only [HMap.get?_insert] at h1 h2
        constructor
        · intro k
          rw [h1]
          by_cases hk : env.lower n = k
          · subst hk
            simp [m1, m2, hf]
          · simp [hk]
        · intro k
          rw [h2]
          by_cases hk : env.lower n = k
          · subst hk
            simp [m1, m2, hf]
          · simp [hk]
      | some p =>
        rw [hf] at h e1
        simp only at h e1
        have hadd : l.addAlias env.lower n p = .ok
            { l with aliases := HMap.insert l.aliases (env.lower n) (env.lower p.name) } := by
          unfold NList.addAlias; rw [m2]; rfl
        rw [hadd] at h e1
        simp only [popPayees] at h e1
        cases e1
        obtain ⟨h1, h2⟩ := ih r1 (hcl.trans x1) h
        simp only [HMap.get?_insert] at h1 h2
        constructor
        · intro k
          rw [h1]
          by_cases hk : env.lower n = k
          · subst hk
            simp [m1, m2, hf]
          · simp [hk]
        · intro k
          rw [h2]
          by_cases hk : env.lower n = k
          · subst hk
            simp [m1, m2, hf]
          · simp [hk]

theorem findPattern_orders {env : Env} {s s' : Shuf} {copy : NList PayeeDef} {n : Str}
    (hu : ∀ x ∈ copy.list, ∀ y ∈ copy.list, (∃ pat ∈ x.2.aliasRx, env.rx pat n = true) →
      (∃ pat ∈ y.2.aliasRx, env.rx pat n = true) → x = y) :
    findPattern env s copy n = findPattern env s' copy n := by
  have key : ∀ (s : Shuf) p, findPattern env s copy n = some p →
      ∃ x ∈ copy.list, x.2 = p ∧ ∃ pat ∈ x.2.aliasRx, env.rx pat n = true := by
    intro s p h
    unfold findPattern at h
    obtain ⟨x, hx, rfl⟩ := List.mem_map.mp (List.mem_of_find?_eq_some h)
    exact ⟨x, (s.perm _).mem_iff.mp hx, rfl, by simpa using List.find?_some h⟩
  have key2 : ∀ (s : Shuf), findPattern env s copy n = none →
      ∀ x ∈ copy.list, ¬ ∃ pat ∈ x.2.aliasRx, env.rx pat n = true := by
    intro s h x hx hp
    unfold findPattern at h
    have := List.find?_eq_none.mp h x.2 (List.mem_map.mpr ⟨x, (s.perm _).mem_iff.mpr hx, rfl⟩)
    exact this (by simpa using hp)
  cases h1 : findPattern env s copy n with
  | none =>
    cases h2 : findPattern env s' copy n with
    | none => rfl
    | some q => obtain ⟨x, hx, _, hp⟩ := key s' q h2; exact absurd hp (key2 s h1 x hx)
  | some p =>
    obtain ⟨x, hx, rfl, hp⟩ := key s p h1
    cases h2 : findPattern env s' copy n with
    | none => exact absurd hp (key2 s' h2 x hx)
    | some q =>
      obtain ⟨y, hy, rfl, hq⟩ := key s' q h2
      rw [hu x hx y hy hp hq]

theorem popPayees_orders {env : Env} {s s' : Shuf} {copy l1 l2 : NList PayeeDef}
    (hc : copy.Reachable env.lower) {names names' : List Str} (hp : names.Perm names')
    (hu : ∀ a ∈ names, ∀ b ∈ names, env.lower a = env.lower b → a = b)
    (hpat : ∀ n ∈ names, findPattern env s copy n = findPattern env s' copy n)
    (h1 : popPayees env s copy names copy = .ok l1) (h2 : popPayees env s' copy names' copy = .ok l2) :
    SameNames l1 l2 := by
  obtain ⟨a1, b1⟩ := popPayees_closed hc names hc (.refl _ _) h1
  obtain ⟨a2, b2⟩ := popPayees_closed hc names' hc (.refl _ _) h2
  have hf := fun k => find?_perm hp hu k
  constructor
  · intro k
    rw [a1, a2, ← hf]
    cases hx : names.find? (fun n => env.lower n = k) with
    | none => rfl
    | some n => simp only [Option.bind_some, hpat n (List.mem_of_find?_eq_some hx)]
  · intro k
    rw [b1, b2, ← hf]
    cases hx : names.find? (fun n => env.lower n = k) with
    | none => rfl
    | some n => simp only [Option.bind_some, hpat n (List.mem_of_find?_eq_some hx)]

theorem mem_commodityStrs {pl : ParsedLedger} {c : Str} : c ∈ pl.commodityStrs ↔ pl.usesCommodity c := by
  unfold ParsedLedger.commodityStrs ParsedLedger.usesCommodity ParsedLedger.postings
  rw [mem_setInsertAll, mem_setInsertAll]
  simp only [List.not_mem_nil, false_or, List.mem_flatMap, List.mem_cons, or_false]
  constructor
  · rintro (⟨p, ⟨t, ht, hp⟩, h⟩ | ⟨p, hp, h⟩)
    · exact Or.inl ⟨t, ht, p, hp, by simpa [eq_comm] using h⟩
    · exact Or.inr ⟨p, hp, by simpa [eq_comm] using h⟩
  · rintro (⟨t, ht, p, hp, h⟩ | ⟨p, hp, h⟩)
    · exact Or.inl ⟨p, ⟨t, ht, hp⟩, by simpa [eq_comm] using h⟩
    · exact Or.inr ⟨p, hp, by simpa [eq_comm] using h⟩

theorem mem_accountStrs {pl : ParsedLedger} {c : Str} : c ∈ pl.accountStrs ↔ pl.usesAccount c := by
  unfold ParsedLedger.accountStrs ParsedLedger.usesAccount ParsedLedger.postings
  rw [mem_setInsertAll]
  simp only [List.not_mem_nil, false_or, List.mem_map, List.mem_flatMap, Option.some.injEq]
  constructor
  · rintro ⟨p, ⟨t, ht, hp⟩, h⟩; exact ⟨t, ht, p, hp, h⟩
  · rintro ⟨t, ht, p, hp, h⟩; exact ⟨p, ⟨t, ht, hp⟩, h⟩

theorem mem_payeeStrs {pl : ParsedLedger} {c : Str} : c ∈ pl.payeeStrs ↔ pl.usesPayee c := by
  unfold ParsedLedger.payeeStrs ParsedLedger.usesPayee ParsedLedger.postings
  rw [mem_setInsertAll]
  simp only [List.not_mem_nil, false_or, List.mem_map, List.mem_flatMap]
  constructor
  · rintro ⟨p, ⟨t, ht, hp⟩, h⟩; exact ⟨t, ht, p, hp, h⟩
  · rintro ⟨t, ht, p, hp, h⟩; exact ⟨p, ⟨t, ht, hp⟩, h⟩

theorem populate_inv {env : Env} {o : LedgerOrders} {pl : ParsedLedger} {l : Lists}
    (h : populate env o pl = .ok l) :
    pl.lists.commodities.ensureAll env.lower currencyOf (o.commodities.run pl.commodityStrs) =
      .ok l.commodities ∧
    pl.lists.accounts.ensureAll env.lower accountOf (o.accounts.run pl.accountStrs) = .ok l.accounts ∧
    popPayees env o.patterns pl.lists.payees (o.payees.run pl.payeeStrs) pl.lists.payees =
      .ok l.payees := by
  unfold populate at h
  split at h
  · cases h
  next cs hc =>
  split at h
  · cases h
  next acs ha =>
  split at h
  · cases h
  next ps hp =>
  cases h
  exact ⟨hc, ha, hp⟩

/-- The same names in all lists. -/
structure SameLists (l l' : Lists) : Prop where
  accounts : SameNames l.accounts l'.accounts
  payees : SameNames l.payees l'.payees
  commodities : SameNames l.commodities l'.commodities

theorem populate_orders {env : Env} {o o' : LedgerOrders} {pl : ParsedLedger} {l l' : Lists}
    (hok : pl.lists.Ok env.lower) (hf : OrderFree env pl) (h : populate env o pl = .ok l)
    (h' : populate env o' pl = .ok l') : SameLists l l' := by
  obtain ⟨c1, a1, p1⟩ := populate_inv h
  obtain ⟨c2, a2, p2⟩ := populate_inv h'
  refine ⟨?_, ?_, ?_⟩
  · refine ensureAll_orders (fun _ => rfl) (fun _ => rfl) ((o.accounts.perm _).trans (o'.accounts.perm _).symm)
      ?_ hok.accounts a1 a2
    intro a ha b hb
    exact hf.accounts a b (mem_accountStrs.mp ((o.accounts.perm _).mem_iff.mp ha))
      (mem_accountStrs.mp ((o.accounts.perm _).mem_iff.mp hb))
  · refine popPayees_orders hok.payees ((o.payees.perm _).trans (o'.payees.perm _).symm) ?_ ?_ p1 p2
    · intro a ha b hb
      exact hf.payees a b (mem_payeeStrs.mp ((o.payees.perm _).mem_iff.mp ha))
        (mem_payeeStrs.mp ((o.payees.perm _).mem_iff.mp hb))
    · intro n hn
      exact findPattern_orders (hf.patterns n (mem_payeeStrs.mp ((o.payees.perm _).mem_iff.mp hn)))
  · refine ensureAll_orders (fun _ => rfl) (fun _ => rfl)
      ((o.commodities.perm _).trans (o'.commodities.perm _).symm) ?_ hok.commodities c1 c2
    intro a ha b hb
    exact hf.commodities a b (mem_commodityStrs.mp ((o.commodities.perm _).mem_iff.mp ha))
      (mem_commodityStrs.mp ((o.commodities.perm _).mem_iff.mp hb))

/-! ### The ledger -/

theorem initialBalances_dom (accounts : NList AccountDef) (a : Str) :
    ((initialBalances accounts).get? a).isSome = true ↔ ∃ e ∈ accounts.list, e.2.name = a := by
  unfold initialBalances
  have key : ∀ (l : List (Str × AccountDef)) (acc : Balances),
      ((l.foldl (fun acc e => HMap.insert acc e.2.name Balance.new) acc).get? a).isSome = true ↔
        (∃ e ∈ l, e.2.name = a) ∨ (acc.get? a).isSome = true := by
    intro l
    induction l with
    | nil => intro acc; simp
    | cons e l ih =>
      intro acc
      rw [List.foldl_cons, ih, HMap.get?_insert]
      by_cases he : e.2.name = a
      · simp [he]
      · simp [he]
  rw [key]
  simp

theorem initialBalances_orders {lower : Str → Str} {l l' : NList AccountDef} (h : SameNames l l')
    (hr : l.Reachable lower) (hr' : l'.Reachable lower) :
    BalsEq (initialBalances l) (initialBalances l') := by
  have hp := h.perm hr hr'
  have hd : ∀ a, ((initialBalances l).get? a).isSome = ((initialBalances l').get? a).isSome := by
    intro a
    rw [Bool.eq_iff_iff, initialBalances_dom, initialBalances_dom]
    constructor
    · rintro ⟨e, he, h⟩; exact ⟨e, hp.mem_iff.mp he, h⟩
    · rintro ⟨e, he, h⟩; exact ⟨e, hp.mem_iff.mpr he, h⟩
  refine ⟨hd, fun a c => ?_⟩
  have hd := hd a
  unfold balAmt
  cases h1 : (initialBalances l).get? a with
  | none =>
    cases h2 : (initialBalances l').get? a with
    | none => rfl
    | some y => rw [h1, h2] at hd; cases hd
  | some x =>
    cases h2 : (initialBalances l').get? a with
    | none => rw [h1, h2] at hd; cases hd
    | some y => rw [(initialBalances_get l).2 a x h1, (initialBalances_get l').2 a y h2]

theorem commodityNamed_orders {env : Env} {cs cs' : Commodities} (h : SameNames cs cs') (n : Str) :
    commodityNamed env cs n = commodityNamed env cs' n := by
  unfold commodityNamed; rw [h.get]

theorem directivePrices_orders {env : Env} {cs cs' : Commodities} (h : SameNames cs cs')
    (ps : List ParsedPrice) : directivePrices env cs ps = directivePrices env cs' ps := by
  induction ps with
  | nil => rfl
  | cons p ps ih =>
    unfold directivePrices
    rw [commodityNamed_orders h, commodityNamed_orders h, ih]

theorem rawMoney_orders {env : Env} {cs cs' : Commodities} (h : SameNames cs cs') (c : Option Str)
    (a : Option Rat) : rawMoney env cs c a = rawMoney env cs' c a := by
  unfold rawMoney
  cases c with
  | none => rfl
  | some c => simp only [commodityNamed_orders h]

theorem rawCost_orders {env : Env} {cs cs' : Commodities} (h : SameNames cs cs') (d : Option Date)
    (p : RawPosting) (a : Option Money) : rawCost env cs d p a = rawCost env cs' d p a := by
  unfold rawCost
  simp only [commodityNamed_orders h]

theorem redirect_orders {env : Env} {s s' : Shuf} {l l' : NList AccountDef} {payee : Str}
    (hp : List.Perm l.list l'.list)
    (hu : ∀ x ∈ l.list, ∀ y ∈ l.list, x.2.takes env payee → y.2.takes env payee → x = y) :
    redirect env s l payee = redirect env s' l' payee := by
  rcases redirect_spec (env := env) (s := s) (accounts := l) (payee := payee) with
    ⟨h1, h2⟩ | ⟨k, x, h1, h2, h3⟩ <;>
  rcases redirect_spec (env := env) (s := s') (accounts := l') (payee := payee) with
    ⟨g1, g2⟩ | ⟨j, y, g1, g2, g3⟩
  · rw [h1, g1]
  · exact absurd g2 (h2 (j, y) (hp.mem_iff.mpr g1))
  · exact absurd h2 (g2 (k, x) (hp.mem_iff.mp h1))
  · rw [h3, g3]
    cases hu (k, x) h1 (j, y) (hp.mem_iff.mpr g1) h2 g2
    rfl

/-- The lists after step 2: which accounts and payees there are. -/
theorem populate_elements {env : Env} {o : LedgerOrders} {pl : ParsedLedger} {l : Lists}
    (hok : pl.lists.Ok env.lower) (h : populate env o pl = .ok l) (hl : l.Ok env.lower) :
    (∀ e ∈ l.accounts.list, e ∈ pl.lists.accounts.list ∨ e.2.payees = []) ∧
    ∀ e ∈ l.payees.list, e ∈ pl.lists.payees.list ∨ pl.usesPayee e.2.name := by
  obtain ⟨_, a1, p1⟩ := populate_inv h
  constructor
  · rintro ⟨k, x⟩ hx
    have hg := HMap.get?_of_mem (NList.Inv.reach hl.accounts).nodupL hx
    rw [(ensureAll_closed (fun _ => rfl) (fun _ => rfl) _ hok.accounts a1).2] at hg
    cases hd : pl.lists.accounts.list.get? k with
    | some y =>
      rw [hd] at hg
      cases hg
      exact Or.inl ((HMap.get?_eq_some_iff (NList.Inv.reach hok.accounts).nodupL _ _).mp hd)
    | none =>
      rw [hd] at hg
      right
      simp only [Option.none_or] at hg
      split at hg
      · cases hg
      · obtain ⟨n, _, rfl⟩ := Option.map_eq_some_iff.mp hg
        rfl
  · rintro ⟨k, x⟩ hx
    have hg := HMap.get?_of_mem (NList.Inv.reach hl.payees).nodupL hx
    rw [(popPayees_closed hok.payees _ hok.payees (.refl _ _) p1).1] at hg
    cases hd : pl.lists.payees.list.get? k with
    | some y =>
      rw [hd] at hg
      cases hg
      exact Or.inl ((HMap.get?_eq_some_iff (NList.Inv.reach hok.payees).nodupL _ _).mp hd)
    | none =>
      rw [hd] at hg
      right
      simp only [Option.none_or] at hg
      split at hg
      · cases hg
      · obtain ⟨n, hn, hb⟩ := Option.bind_eq_some_iff.mp hg
        split at hb
        · cases hb
        · cases hb
          exact mem_payeeStrs.mp ((o.payees.perm _).mem_iff.mp (List.mem_of_find?_eq_some hn))

theorem get_mem {T : Type} [Named T] {lower : Str → Str} {l : NList T} (hr : l.Reachable lower) {n : Str} {x : T}
    (h : l.get lower n = .ok x) : ∃ k, (k, x) ∈ l.list := by
  have i := (NList.Inv.reach hr).nodupL
  unfold NList.get at h
  split at h
  · next y hy => cases h; exact ⟨_, (HMap.get?_eq_some_iff i _ _).mp hy⟩
  · split at h
    · cases h
    · next z hz =>
      unfold unwrap at h
      split at h
      · next y hy => cases h; exact ⟨_, (HMap.get?_eq_some_iff i _ _).mp hy⟩
      · cases h

theorem convertPosting_orders {env : Env} {o o' : LedgerOrders} {pl : ParsedLedger} {l l' : Lists} {s s' : Shuf}
    (hok : pl.lists.Ok env.lower) (hf : OrderFree env pl) (h : populate env o pl = .ok l)
    (h' : populate env o' pl = .ok l') (hl : l.Ok env.lower) (hl' : l'.Ok env.lower)
    (t : Txn RawPosting) (tags : List Tag) (p : RawPosting) :
    convertPosting env s l t tags p = convertPosting env s' l' t tags p := by
  have hs := populate_orders hok hf h h'
  obtain ⟨e1, e2⟩ := populate_elements hok h hl
  have hpay : postingPayee env l.payees t.description p = postingPayee env l'.payees t.description p := by
    unfold postingPayee
    simp only [hs.payees.get]
  unfold convertPosting
  rw [← hpay]
  cases hp : postingPayee env l.payees t.description p with
  | error e => rfl
  | ok payee =>
    have hmem : ∃ x ∈ l.payees.list, x.2.name = payee := by
      unfold postingPayee at hp
      split at hp
      · split at hp
        · next x hx =>
          cases hp
          obtain ⟨k, hk⟩ := get_mem hl.payees hx
          exact ⟨_, hk, rfl⟩
        · cases hp
      · split at hp
        · next x hx =>
          cases hp
          obtain ⟨k, hk⟩ := get_mem hl.payees hx
          exact ⟨_, hk, rfl⟩
        · cases hp
    have hknown : pl.usesPayee payee ∨ ∃ e ∈ pl.lists.payees.list, e.2.name = payee := by
      obtain ⟨x, hx, rfl⟩ := hmem
      rcases e2 x hx with h | h
      · exact Or.inr ⟨x, h, rfl⟩
      · exact Or.inl h
    have hred : redirect env s l.accounts payee = redirect env s' l'.accounts payee := by
      refine redirect_orders (hs.accounts.perm hl.accounts hl'.accounts) ?_
      intro x hx y hy tx ty
      have dec : ∀ z ∈ l.accounts.list, z.2.takes env payee → z ∈ pl.lists.accounts.list := by
        intro z hz tz
        rcases e1 z hz with h | h
        · exact h
        · obtain ⟨pat, hpat, _⟩ := tz
          rw [h] at hpat; cases hpat
      exact hf.takers payee hknown x (dec x hx tx) y (dec y hy ty) tx ty
    have hacc : postingAccount env s l.accounts p.account payee =
        postingAccount env s' l'.accounts p.account payee := by
      unfold postingAccount
      rw [hred, hs.accounts.get]
    simp only [hacc, rawMoney_orders hs.commodities, rawCost_orders hs.commodities]

theorem convertAll_orders {env : Env} {s s' : Shuf} {l l' : Lists}
    (h : ∀ t tags p, convertPosting env s l t tags p = convertPosting env s' l' t tags p)
    (ts : List (Txn RawPosting)) : convertAll env s l ts = convertAll env s' l' ts := by
  have h1 : ∀ t tags ps, convertPostings env s l t tags ps = convertPostings env s' l' t tags ps := by
    intro t tags ps
    induction ps with
    | nil => rfl
    | cons p ps ih => unfold convertPostings; rw [h, ih]
  have h2 : ∀ t, convertTxn env s l t = convertTxn env s' l' t := by
    intro t; unfold convertTxn; rw [h1]
  induction ts with
  | nil => rfl
  | cons t ts ih => unfold convertAll; simp only [h2, ih]

theorem toLedger_orders {env : Env} {o o' : LedgerOrders} {skip : Bool} {pl : ParsedLedger} {L : Ledger}
    (hok : pl.lists.Ok env.lower) (hf : OrderFree env pl) (h : toLedger env o skip pl = .ok L) :
    ∃ L', toLedger env o' skip pl = .ok L' ∧ SameLedger L L' := by
  obtain ⟨l, hl, hb⟩ := toLedger_inv h
  obtain ⟨l0, e0, hp0, _⟩ := populate_spec (o := o) hok
  rw [hl] at e0; cases e0
  obtain ⟨l', hl', hp', _⟩ := populate_spec (o := o') hok
  have hs := populate_orders hok hf hl hl'
  obtain ⟨dp, txns, autos, cp, sorted, ts, ip, ts', ap, l2, h1, h2, h3, h4, h5, h6⟩ := buildLedger_inv hb
  have hc := convertAll_orders (s := o.unknown) (s' := o'.unknown)
    (convertPosting_orders hok hf hl hl' hp0.ok hp'.ok) pl.transactions
  have hautos : autos = [] := by
    rw [(convertAll_spec _ h2).1]
    exact hf.noRules
  subst hautos
  have hcost : ∀ t ∈ sorted, ∀ p ∈ t.postings, p.CostOk := by
    obtain ⟨_, hsort⟩ := sortByDate_inv h3
    obtain ⟨_, rs, hrs, rfl, _⟩ := convertAll_spec _ h2
    intro t ht
    rw [hsort, mem_sortBy] at ht
    obtain ⟨r, hr, rfl⟩ := List.mem_map.mp ht
    obtain ⟨raw, _, hcv⟩ := Forall₂.mem_right hrs hr
    exact fun p hp => (convertTxn_costOk (t := r.1) (prs := r.2) hcv p hp).1
  obtain ⟨ts2, ip2, g1, g2, g3⟩ := balancePass_orders (σ' := o'.fill) (ρ' := o'.rate) sorted
    (initialBalances_ok _) (initialBalances_ok _)
    (initialBalances_orders hs.accounts hp0.ok.accounts hp'.ok.accounts) hcost h4
  cases h5
  refine ⟨{ accounts := l'.accounts, commodities := l'.commodities, transactions := ts2,
            prices := dp ++ cp ++ ip2 ++ [], payees := l'.payees }, ?_, ?_⟩
  · unfold toLedger
    rw [hl']
    simp only
    unfold buildLedger
    rw [← directivePrices_orders hs.commodities, h1, ← hc, h2]
    simp only
    rw [h3]
    simp only
    rw [g1]
    rfl
  · subst h6
    exact ⟨hs.accounts, hs.payees, hs.commodities, g2, dp ++ cp, ip, ip2, by simp, by simp, g3⟩

end Dinero
