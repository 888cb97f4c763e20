import Verif.Spec.Ruled
import Verif.Lemmas.Meaning
/-
Lemmas on what automated transactions with expressions make of a transaction.
-/
namespace Dinero

/-! ### Tags of other postings -/

theorem tagless_sense {env : Env} (n : Ast) (hn : n.tagless = true) :
    ∀ {t u : Txn Posting} {p q : Posting}, SeenAs t u → SameUpToTags p q → n.sense env u q = n.sense env t p := by
  induction n with
  | amount => intro t u p q _ h; simp only [Ast.sense]; rw [h.1]
  | account => intro t u p q _ h; simp only [Ast.sense]; rw [h.1]
  | payee => intro t u p q _ h; simp only [Ast.sense]; rw [h.1]
  | note => intro t u p q h _; simp only [Ast.sense]; rw [h.1]
  | date => intro t u p q h _; simp only [Ast.sense]; rw [h.1]
  | unary op c ih =>
    intro t u p q h hp
    by_cases hany : op = .any
    · subst hany
      have hc : c.tagless = true := hn
      simp only [Ast.sense]
      congr 1
      have : ∀ {ps qs : List Posting}, List.Forall₂ SameUpToTags ps qs →
          qs.any (fun q => (c.sense env u q).holds) = ps.any (fun q => (c.sense env t q).holds) := by
        intro ps qs hh
        induction hh with
        | nil => rfl
        | cons h1 _ ih2 => simp only [List.any_cons, ih2, ih hc h h1]
      exact this h.2
    · have hs : ∀ (t : Txn Posting) p, (Ast.unary op c).sense env t p = (c.sense env t p).unary env p op := by
        intro t p
        cases op <;> first | exact absurd rfl hany | rfl
      have hc : c.tagless = true ∧ op ≠ .hasTag ∧ op ≠ .tag := by
        cases op <;> first | exact ⟨hn, by decide, by decide⟩ | (simp [Ast.tagless] at hn)
      rw [hs, hs, ih hc.1 h hp]
      generalize c.sense env t p = v
      cases op <;> first
        | exact absurd rfl hc.2.1
        | exact absurd rfl hc.2.2
        | (cases v <;> first | rfl | (next s => cases s <;> rfl))
  | binary op l r ihl ihr =>
    intro t u p q h hp
    simp only [Ast.tagless, Bool.and_eq_true] at hn
    simp only [Ast.sense, ihl hn.1 h hp, ihr hn.2 h hp]
  | _ => intro t u p q _ _; rfl

theorem steady_sense {env : Env} (n : Ast) (hn : n.steady = true) :
    ∀ {t u : Txn Posting} {p : Posting}, SeenAs t u → n.sense env u p = n.sense env t p := by
  induction n with
  | note => intro t u p h; simp only [Ast.sense]; rw [h.1]
  | date => intro t u p h; simp only [Ast.sense]; rw [h.1]
  | unary op c ih =>
    intro t u p h
    by_cases hany : op = .any
    · subst hany
      have hc : (Ast.unary .any c).tagless = true := hn
      exact tagless_sense _ hc h (.refl p)
    · have hs : ∀ (t : Txn Posting) p, (Ast.unary op c).sense env t p = (c.sense env t p).unary env p op := by
        intro t p
        cases op <;> first | exact absurd rfl hany | rfl
      have hc : c.steady = true := by cases op <;> first | exact absurd rfl hany | exact hn
      rw [hs, hs, ih hc h]
  | binary op l r ihl ihr =>
    intro t u p h
    simp only [Ast.steady, Bool.and_eq_true] at hn
    simp only [Ast.sense, ihl hn.1 h, ihr hn.2 h]
  | _ => intro t u p _; rfl

/-! ### Commodities of expressions -/

theorem Ast.InCoin.grow {env : Env} {a b : Lists} (h : Extends env.lower a.commodities b.commodities) {p : Posting} {c : Cur} :
    ∀ {n : Ast}, n.InCoin env a p c → n.InCoin env b p c := by
  intro n
  induction n with
  | amount => exact id
  | money d x => exact Finds.grow h
  | unary op n ih => exact ih
  | binary op l r ihl ihr => exact Or.imp ihl ihr
  | _ => exact id

theorem toMoney_commodity {b : Balance} (hb : b.Reachable) {m : Money} (h : b.toMoney = .ok m) {c : Cur}
    (hc : m.commodity = some c) : b.amountOf c ≠ 0 := by
  rw [(C04_toMoney hb).1 m h c]
  rcases toMoney_bare h with rfl | h0
  · cases hc
  · simp only [Money.amountIn, hc, if_true]; exact h0

theorem addSub_commodity {l r m : Money} {isAdd : Bool} {c : Cur}
    (h : (if isAdd then Money.add l r else Money.sub l r).toMoney = .ok m) (hc : m.commodity = some c) :
    l.commodity = some c ∨ r.commodity = some c := by
  by_contra hn
  obtain ⟨h1, h2⟩ := not_or.mp hn
  have hl : l.amountIn c = 0 := by simp [Money.amountIn, h1]
  have hr : r.amountIn c = 0 := by simp [Money.amountIn, h2]
  cases isAdd with
  | true =>
    simp only [if_true] at h
    have := toMoney_commodity (.add (.ofMoney _) (.ofMoney _)) h hc
    refine this ((C01_money_add l r c).trans ?_)
    rw [hl, hr, add_zero]
  | false =>
    simp only [Bool.false_eq_true, if_false] at h
    have := toMoney_commodity (.sub (.ofMoney _) (.ofMoney _)) h hc
    refine this ((C03_money l r c).2.2.trans ?_)
    rw [hl, hr, sub_zero]

theorem evalBinary_commodity {env : Env} {t : Txn Posting} {op : BinaryOp} {v w : Val} {m : Money} {c : Cur}
    (h : evalBinary env t op v w = .ok (.money m)) (hc : m.commodity = some c) :
    (∃ a, v = .money a ∧ a.commodity = some c) ∨ ∃ a, w = .money a ∧ a.commodity = some c := by
  have hadd : ∀ isAdd, evalAddSub isAdd v w = .ok (.money m) →
      (∃ a, v = .money a ∧ a.commodity = some c) ∨ ∃ a, w = .money a ∧ a.commodity = some c := by
    intro isAdd h
    unfold evalAddSub at h
    split at h
    · cases h
    · cases h
    · next l r =>
      unfold unwrapMoney at h
      split at h
      · next x hx =>
        cases h
        rcases addSub_commodity hx hc with h | h
        · exact .inl ⟨_, rfl, h⟩
        · exact .inr ⟨_, rfl, h⟩
      · cases h
    · cases h
    · cases h
  have hcmp : ∀ test, evalCmp test v w ≠ .ok (.money m) := by
    intro test h
    unfold evalCmp at h
    split at h <;> cases h
  have hbool : ∀ b, evalBool b v w ≠ .ok (.money m) := by
    intro b h
    unfold evalBool at h
    split at h
    · split at h
      · cases h
      · split at h <;> cases h
    · cases h
  cases op with
  | add => exact hadd true h
  | subtract => exact hadd false h
  | lt => exact absurd h (hcmp _)
  | gt => exact absurd h (hcmp _)
  | le => exact absurd h (hcmp _)
  | ge => exact absurd h (hcmp _)
  | or => exact absurd h (hbool _)
  | and => exact absurd h (hbool _)
  | eq =>
    simp only [evalBinary] at h
    unfold evalEq at h
    split at h
    · split at h <;> cases h
    · split at h <;> cases h
  | mult =>
    simp only [evalBinary] at h
    unfold evalMult at h
    split at h <;> cases h
    · next l r => exact .inr ⟨r, rfl, by cases r <;> exact hc⟩
    · next l r => exact .inl ⟨l, rfl, by cases l <;> exact hc⟩
  | div =>
    simp only [evalBinary] at h
    unfold evalDiv at h
    split at h
    · split at h <;> cases h
    · cases h
    · cases h
    · next l r =>
      split at h
      · next q hq =>
        cases h
        refine .inl ⟨l, rfl, ?_⟩
        unfold Money.div at hq
        split at hq
        · cases hq
        · cases hq
          cases l <;> exact hc
      · cases h
    · cases h
    · cases h

theorem evalUnary_commodity {env : Env} {p : Posting} {op : UnaryOp} {v : Val} {m : Money} {c : Cur} (hne : op ≠ .any)
    (hw : evalUnary env p op v = .ok (.money m)) (hc : m.commodity = some c) : ∃ a, v = .money a ∧ a.commodity = some c := by
  cases op with
  | any => exact absurd rfl hne
  | toDate =>
    cases v <;> try (cases hw)
    next s =>
      cases s with
      | none => cases hw
      | some s =>
        simp only [evalUnary] at hw
        split at hw <;> cases hw
  | neg =>
    cases v <;> cases hw
    next a => exact ⟨a, rfl, by cases a <;> exact hc⟩
  | abs =>
    cases v <;> try (cases hw)
    next a =>
      cases a with
      | zero => cases hw; cases hc
      | mk x d => cases hw; exact ⟨_, rfl, hc⟩
  | tag =>
    cases v <;> try (cases hw)
    next s => cases s <;> cases hw
  | hasTag => cases v <;> cases hw
  | not => cases v <;> cases hw

theorem anyLoop_money {f : Posting → Commodities → Res (Val × Commodities)} (ps : List Posting) {st st' : Commodities}
    {m : Money} : anyLoop f ps st ≠ .ok (.money m, st') := by
  induction ps generalizing st with
  | nil => intro h; cases h
  | cons p ps ih =>
    intro h
    unfold anyLoop at h
    split at h
    · cases h
    · cases h
    · exact ih h
    · cases h

theorem eval_commodity {env : Env} {t : Txn Posting} {names : Lists} (n : Ast) :
    ∀ {p : Posting} {st st' : Commodities} {m : Money} {c : Cur}, eval env t n p st = .ok (.money m, st') →
      Extends env.lower st' names.commodities → m.commodity = some c → n.InCoin env names p c := by
  induction n with
  | amount =>
    intro p st st' m c h _ hc
    simp only [eval] at h
    split at h
    · next a ha =>
      cases h
      cases m with
      | zero => cases hc
      | mk x d => cases hc; exact ⟨x, ha⟩
    · cases h
  | account => intro p st st' m c h _ hc; simp only [eval] at h; cases h
  | payee => intro p st st' m c h _ hc; simp only [eval] at h; split at h <;> cases h
  | note => intro p st st' m c h _ hc; simp only [eval] at h; cases h
  | date => intro p st st' m c h _ hc; simp only [eval] at h; split at h <;> cases h
  | number r => intro p st st' m c h _ hc; simp only [eval] at h; cases h
  | regex r => intro p st st' m c h _ hc; simp only [eval] at h; cases h
  | string r => intro p st st' m c h _ hc; simp only [eval] at h; cases h
  | money d a =>
    intro p st st' m c h hx hc
    simp only [eval] at h
    obtain ⟨_, x, h1, h2⟩ := evalMoney_spec h
    cases h2; cases hc
    exact ⟨x, hx _ _ h1, rfl⟩
  | unary op n ih =>
    intro p st st' m c h hx hc
    simp only [eval] at h
    split at h
    · cases h
    · next v s1 h1 =>
      split at h
      · exact absurd h (anyLoop_money _)
      · split at h
        · next w hw =>
          cases h
          have : ∃ a, v = .money a ∧ a.commodity = some c := by
            exact evalUnary_commodity (by assumption) hw hc
          obtain ⟨a, rfl, ha⟩ := this
          exact ih h1 hx ha
        · cases h
  | binary op l r ihl ihr =>
    intro p st st' m c h hx hc
    simp only [eval] at h
    split at h
    · cases h
    · next lv s1 h1 =>
      split at h
      · cases h
      · next rv s2 h2 =>
        split at h
        · next w hw =>
          cases h
          rcases evalBinary_commodity hw hc with ⟨a, rfl, ha⟩ | ⟨a, rfl, ha⟩
          · exact .inl (ihl h1 (fun k x hk => hx k x (eval_kept env t r p s1 _ _ h2 k x hk)) ha)
          · exact .inr (ihr h2 hx ha)
        · cases h

/-! ### One posting of a rule -/

/-- The posting of a rule makes sense, and its amount is clear. -/
def RawPosting.Clear (env : Env) (only : Option Cur) (rp : RawPosting) : Prop :=
  rp.moneyCurrency = none → ∀ e n, rp.amountExpr = some e → buildRoot env e = .ok n → n.clear env only.isSome = true

theorem Makes.grow {env : Env} {only : Option Cur} {a b : Lists} (h : a.Grow env.lower b) {t : Txn Posting} {p : Posting}
    {rp : RawPosting} {q : Posting} (hm : Makes env only a t p rp q) : Makes env only b t p rp q := by
  refine ⟨hm.account.grow h.accounts, ?_, hm.rest⟩
  rcases hm.amount with ⟨c, n, x, h1, h2, h3, h4, h5⟩ | hf | ⟨e, n, x, m, h1, h2, h3, h4, h5, h6⟩
  · exact .inl ⟨c, n, x, h1, h2, h3, h4.grow h.commodities, h5⟩
  · exact .inr (.inl hf)
  · exact .inr (.inr ⟨e, n, x, m, h1, h2, h3, h4, h5, h6.imp_right (fun ⟨k1, k2, k3⟩ =>
      ⟨k1, k2, fun c hc => (k3 c hc).grow h.commodities⟩)⟩)

theorem rulePosting_makes {env : Env} {asks factor : Prop} {only : Option Cur} {t u : Txn Posting} {p : Posting}
    {rp : RawPosting} {l l' : Lists} {q : Posting} (hs : rp.Sound env asks factor only) (hcl : rp.Clear env only)
    (hu : SeenAs t u) (hd : t.date.isSome) (ht : ∀ q ∈ u.postings, Rich asks factor only q) (hp : Rich asks factor only p)
    (hr : l.Ok env.lower) (hk : Known env only l.commodities) (h : rulePosting env u p rp l = .ok (q, l')) :
    Makes env only l' t p rp q := by
  obtain ⟨hg, _⟩ := rulePosting_spec h
  have hpay := hg.payee
  rw [hs.1] at hpay
  simp only at hpay
  obtain ⟨k1, k2, k3, k4, k5, k6⟩ := hg.rest
  refine ⟨hg.account, ?_, by cases q; simp_all⟩
  obtain ⟨m, hm1, hm2⟩ := hg.amount
  rcases hm2 with ⟨c, n, a, g1, g2, g3, g4, rfl⟩ | ⟨x, c, f, g1, g2, g3, rfl⟩ | ⟨e0, node0, v0, cs1, cs2, g1, _⟩
  · exact .inl ⟨c, n, a, g1, g2, g3, g4, hm1⟩
  · exact .inr (.inl ⟨x, c, f, g1, g2, g3, hm1⟩)
  · clear hm1
    obtain ⟨_, ⟨c, a, h1, _⟩ | ⟨h1, hasks, e, n, h2, h3, h4⟩⟩ := hs
    · rw [g1] at h1; cases h1
    have hclear := hcl g1 e n h2 h3
    simp only [Ast.clear, Bool.and_eq_true] at hclear
    have hdu : u.date.isSome := by rw [hu.1]; exact hd
    have hft : n.FitsTxn only u := ⟨fun _ => hdu, fun q hq => (ht q hq).fits (fun _ => hasks)⟩
    have hfp : n.FitsPosting only p := hp.fits (fun _ => hasks)
    -- what was computed
    unfold rulePosting at h
    split at h
    · cases h
    · split at h
      · cases h
      · split at h
        · cases h
        · split at h
          · cases h
          · next m' cs' hmon =>
            cases h
            unfold ruleMoney evalValueExpression at hmon
            rw [h1, h2] at hmon
            simp only [h3] at hmon
            unfold evalAmountNode at hmon
            rcases h4 with h4 | h4
            · obtain ⟨w, st', he, hv⟩ := type_sound (env := env) n hft hfp (h4.written hk) hr.commodities h4.1
              have hsh := eval_shows n hft hfp (h4.written hk) hr.commodities h4.1 hclear.1 he
              rw [steady_sense n hclear.2 hu] at hsh
              generalize hgs : n.sense env t p = g at hsh
              cases hv with
              | number x =>
                cases hsh
                obtain ⟨b, hb, _⟩ := hp.amount hasks
                rw [he] at hmon
                simp only [hb] at hmon
                cases hmon
                exact .inr (.inr ⟨e, n, x, _, h1, h2, h3, hgs, rfl, .inl ⟨h4.1, b, hb, mul_amount b x, by cases b <;> rfl⟩⟩)
            · obtain ⟨w, st', he, hv⟩ := type_sound (env := env) n hft hfp (h4.written hk) hr.commodities h4.1
              have hsh := eval_shows n hft hfp (h4.written hk) hr.commodities h4.1 hclear.1 he
              rw [steady_sense n hclear.2 hu] at hsh
              generalize hgs : n.sense env t p = g at hsh
              cases hv with
              | money x hx =>
                cases hsh
                rw [he] at hmon
                simp only at hmon
                cases hmon
                exact .inr (.inr ⟨e, n, _, _, h1, h2, h3, hgs, rfl, .inr ⟨h4.1, rfl, fun c hc =>
                  eval_commodity n he (.refl _ _) hc⟩⟩)

theorem rulePostings_makes {env : Env} {asks factor : Prop} {only : Option Cur} {t u : Txn Posting} {p : Posting}
    (rps : List RawPosting) {l l' : Lists} {qs : List Posting} (hs : ∀ rp ∈ rps, rp.Sound env asks factor only)
    (hcl : ∀ rp ∈ rps, rp.Clear env only) (hu : SeenAs t u) (hd : t.date.isSome)
    (ht : ∀ q ∈ u.postings, Rich asks factor only q) (hp : Rich asks factor only p)
    (hr : l.Ok env.lower) (hk : Known env only l.commodities) (h : rulePostings env u p rps l = .ok (qs, l')) :
    List.Forall₂ (Makes env only l' t p) rps qs := by
  induction rps generalizing l qs with
  | nil => cases h; exact .nil
  | cons rp rps ih =>
    unfold rulePostings at h
    split at h
    · cases h
    · next q l1 h1 =>
      split at h
      · cases h
      · next qs1 l2 h2 =>
        cases h
        exact .cons ((rulePosting_makes (hs rp (by simp)) (hcl rp (by simp)) hu hd ht hp hr hk h1).grow
            (rulePostings_spec _ h2).2)
          (ih (fun r h' => hs r (by simp [h'])) (fun r h' => hcl r (by simp [h'])) (rulePosting_reachable hr h1)
            (hk.kept (rulePosting_spec h1).2.commodities) h2)

/-! ### One rule -/

theorem filter_holds {env : Env} {asks factor : Prop} {only : Option Cur} {n : Ast} {t u : Txn Posting} {p : Posting}
    {st st' : Commodities} {b : Bool} (h : n.HasType env only .bool) (hc : n.clear env only.isSome = true)
    (hn : n.has .amount = true → asks) (hu : SeenAs t u) (hd : t.date.isSome)
    (ht : ∀ q ∈ u.postings, Rich asks factor only q) (hp : Rich asks factor only p) (hr : st.Reachable env.lower)
    (hk : Known env only st) (hf : filterExpression env u n p st = .ok (b, st')) : (n.sense env t p).holds = b := by
  simp only [Ast.clear, Bool.and_eq_true] at hc
  have hdu : u.date.isSome := by rw [hu.1]; exact hd
  unfold filterExpression at hf
  split at hf
  · cases hf
  · next b' s' he =>
    cases hf
    have hsh := eval_shows n ⟨fun _ => hdu, fun q hq => (ht q hq).fits hn⟩ (hp.fits hn) (h.written hk) hr h.1 hc.1 he
    rw [steady_sense n hc.2 hu] at hsh
    generalize n.sense env t p = g at hsh
    cases hsh
    rfl
  · cases hf

theorem ruleLoop_makes {env : Env} {asks factor : Prop} {only : Option Cur} {node : Ast} {rule : Txn RawPosting}
    {t : Txn Posting} (hn : node.HasType env only .bool) (hc : node.clear env only.isSome = true)
    (ha : node.has .amount = true → asks) (h : ∀ rp ∈ rule.postings, rp.Sound env asks factor only)
    (hcl : ∀ rp ∈ rule.postings, rp.Clear env only) (hd : t.date.isSome) (todo : List Posting)
    {before done extra ps ex : List Posting} {l l' : Lists} (h1 : ∀ q ∈ done, Rich asks factor only q)
    (h2 : ∀ q ∈ todo, Rich asks factor only q) (hr : l.Ok env.lower) (hk : Known env only l.commodities)
    (ht : t.postings = before ++ todo) (hb : List.Forall₂ SameUpToTags before done)
    (hl : ruleLoop env node rule t done todo extra l = .ok (ps, ex, l')) :
    ps = done ++ todo.map (tagged env (rule, node) t) ∧ ∃ new, ex = extra ++ new ∧
      List.Forall₂ (fun x q => Makes env only l' t x.1 x.2 q)
        ((todo.filter (isFor env (rule, node) t)).flatMap
          (fun p => rule.postings.map (fun rp => (tagged env (rule, node) t p, rp)))) new := by
  induction todo generalizing before done extra l with
  | nil => cases hl; exact ⟨by simp, [], by simp, .nil⟩
  | cons p todo ih =>
    have hp := h2 p (by simp)
    have h2' : ∀ q ∈ todo, Rich asks factor only q := fun q hq => h2 q (by simp [hq])
    have h1' : ∀ p', Rich asks factor only p' → ∀ q ∈ done ++ [p'], Rich asks factor only q := by
      intro p' hp' q hq
      rcases List.mem_append.mp hq with hq | hq
      · exact h1 q hq
      · obtain rfl := List.mem_singleton.mp hq
        exact hp'
    have hall : ∀ p', Rich asks factor only p' → ∀ q ∈ done ++ p' :: todo, Rich asks factor only q := by
      intro p' hp' q hq
      rcases List.mem_append.mp hq with hq | hq
      · exact h1 q hq
      · rcases List.mem_cons.mp hq with rfl | hq
        · exact hp'
        · exact h2' q hq
    have ht' : t.postings = (before ++ [p]) ++ todo := by rw [ht]; simp
    have hseen := seenAs_split ht hb rfl (SameUpToTags.refl p)
    have skip : ∀ {l1 : Lists}, l1.Ok env.lower → Known env only l1.commodities → isFor env (rule, node) t p = false →
        ruleLoop env node rule t (done ++ [p]) todo extra l1 = .ok (ps, ex, l') →
        ps = done ++ (p :: todo).map (tagged env (rule, node) t) ∧ ∃ new, ex = extra ++ new ∧
          List.Forall₂ (fun x q => Makes env only l' t x.1 x.2 q)
            (((p :: todo).filter (isFor env (rule, node) t)).flatMap
              (fun p => rule.postings.map (fun rp => (tagged env (rule, node) t p, rp)))) new := by
      intro l1 hr1 hk1 hno hl1
      obtain ⟨i1, new, i2, i3⟩ := ih (h1' p hp) h2' hr1 hk1 ht' (forall₂_append hb (.cons (SameUpToTags.refl p) .nil)) hl1
      have htag : tagged env (rule, node) t p = p := by unfold tagged; rw [hno]; simp
      refine ⟨by rw [i1]; simp [htag], new, i2, ?_⟩
      rw [List.filter_cons_of_neg (by rw [hno]; simp)]
      exact i3
    unfold ruleLoop at hl
    split at hl
    · next ho =>
      exact skip hr hk (by simp [isFor, ho]) hl
    · next ho =>
      have ho : p.origin = .fromTransaction := not_not.mp ho
      split at hl
      · cases hl
      · next cs hf =>
        have hh := filter_holds hn hc ha hseen hd (hall p hp) hp hr.commodities hk hf
        exact skip (l1 := { l with commodities := cs }) ⟨hr.accounts, hr.payees, filterExpression_reachable hr.commodities hf⟩
          (hk.kept (filterExpression_grows hf)) (by simp [isFor, hh]) hl
      · next cs hf =>
        have hh := filter_holds hn hc ha hseen hd (hall p hp) hp hr.commodities hk hf
        have hfor : isFor env (rule, node) t p = true := by simp [isFor, hh, ho]
        have htag : tagged env (rule, node) t p = { p with tags := p.tags ++ rule.comments.flatMap getTags } := by
          unfold tagged; rw [hfor]; simp
        have hr' : Lists.Ok env.lower { l with commodities := cs } :=
          ⟨hr.accounts, hr.payees, filterExpression_reachable hr.commodities hf⟩
        have hkc : Known env only cs := hk.kept (filterExpression_grows hf)
        simp only at hl
        split at hl
        · cases hl
        · next qs l1 hqs =>
          have hp' := hp.tag (p.tags ++ rule.comments.flatMap getTags)
          have hseen' := seenAs_split (p' := { p with tags := p.tags ++ rule.comments.flatMap getTags })
            ht hb rfl (SameUpToTags.tag p _)
          have hmk := rulePostings_makes rule.postings h hcl hseen' hd (hall _ hp') hp' hr' hkc hqs
          have hr1 := rulePostings_reachable _ hr' hqs
          have hg1 := (rulePostings_spec _ hqs).2
          obtain ⟨i1, new, i2, i3⟩ := ih (h1' _ hp') h2' hr1 (hkc.kept hg1.commodities) ht'
            (forall₂_append hb (.cons (SameUpToTags.tag p _) .nil)) hl
          have hg2 := (ruleLoop_spec todo ht' (forall₂_append hb (.cons (SameUpToTags.tag p _) .nil)) hl).1
          refine ⟨by rw [i1]; simp [htag], qs ++ new, by rw [i2]; simp, ?_⟩
          rw [List.filter_cons_of_pos hfor, List.flatMap_cons]
          refine forall₂_append ?_ i3
          rw [List.forall₂_map_left_iff, htag]
          exact hmk.imp (fun _ _ hm => hm.grow hg2)

/-! ### All rules, all transactions -/

theorem Ruled.grow {env : Env} {only : Option Cur} {a b : Lists} (h : a.Grow env.lower b)
    {rules : List (Txn RawPosting × Ast)} {t t' : Txn Posting} (hr : Ruled env only a rules t t') :
    Ruled env only b rules t t' := by
  induction hr with
  | nil => exact .nil
  | cons h1 _ ih => exact .cons (h1.imp (fun _ _ hm => hm.grow h)) ih

/-- The rules make sense, and are clear. -/
def RulesClear (env : Env) (asks factor : Prop) (only : Option Cur) (rules : List (Txn RawPosting × Ast)) : Prop :=
  ∀ r ∈ rules, r.2.HasType env only .bool ∧ (r.2.has .amount = true → asks) ∧ r.2.clear env only.isSome = true ∧
    ∀ rp ∈ r.1.postings, rp.Sound env asks factor only ∧ rp.Clear env only

theorem applyRules_ruled {env : Env} {asks factor : Prop} {only : Option Cur} (rules : List (Txn RawPosting × Ast))
    (h : RulesClear env asks factor only rules) {t t' : Txn Posting} {l l' : Lists} (hd : t.date.isSome)
    (ht : ∀ q ∈ t.postings, Rich asks factor only q) (hr : l.Ok env.lower) (hk : Known env only l.commodities)
    (ha : applyRules env rules t l = .ok (t', l')) : Ruled env only l' rules t t' := by
  induction rules generalizing t l with
  | nil => cases ha; exact .nil
  | cons r rs ih =>
    obtain ⟨g1, g2, g3, g4⟩ := h r (by simp)
    obtain ⟨ps, ex, l1, e1, e2, e3, e4⟩ := ruleLoop_typed (t := t) (done := []) (extra := []) g1 g2
      (fun rp hrp => (g4 rp hrp).1) hd t.postings (fun q hq => (by cases hq)) ht (fun q hq => (by cases hq)) hr hk
    obtain ⟨f1, new, f2, f3⟩ := ruleLoop_makes (before := []) g1 g3 g2 (fun rp hrp => (g4 rp hrp).1)
      (fun rp hrp => (g4 rp hrp).2) hd t.postings (fun q hq => (by cases hq)) ht hr hk rfl .nil e1
    unfold applyRules applyRule at ha
    simp only [e1] at ha
    have hg := (applyRules_spec rs ha).2
    have hrest := ih (t := { t with postings := ps ++ ex }) (fun r h' => h r (by simp [h'])) hd e2 e3 e4 ha
    rw [f1, f2] at hrest
    exact .cons (f3.imp (fun _ _ hm => hm.grow hg)) (by simpa using hrest)

theorem automate_ruled {env : Env} {asks factor : Prop} {only : Option Cur} {rules : List (Txn RawPosting × Ast)}
    (h : RulesClear env asks factor only rules) (ts : List (Txn Posting)) {ts' : List (Txn Posting)} {l l' : Lists}
    (hd : ∀ t ∈ ts, t.date.isSome) (ht : ∀ t ∈ ts, ∀ q ∈ t.postings, Rich asks factor only q) (hr : l.Ok env.lower)
    (hk : Known env only l.commodities) (ha : automate env rules ts l = .ok (ts', l')) :
    List.Forall₂ (Ruled env only l' rules) ts ts' := by
  induction ts generalizing ts' l with
  | nil => cases ha; exact .nil
  | cons t ts ih =>
    obtain ⟨t1, l1, h1, h2, h3, _⟩ := applyRules_typed rules
      (fun r hr => ⟨(h r hr).1, (h r hr).2.1, fun rp hrp => ((h r hr).2.2.2 rp hrp).1⟩) (hd t (by simp)) (ht t (by simp)) hr hk
    have hR := applyRules_ruled rules h (hd t (by simp)) (ht t (by simp)) hr hk h1
    unfold automate at ha
    simp only [h1] at ha
    split at ha
    · cases ha
    · next ts1 l2 hts =>
      cases ha
      exact .cons (hR.grow (automate_spec ts hts).2)
        (ih (fun u hu => hd u (by simp [hu])) (fun u hu => ht u (by simp [hu])) h2 h3 hts)

theorem rules_clear {r : Run} {path : Str} {pl : ParsedLedger} {rules : List (Txn RawPosting × Ast)} {only : Option Cur}
    {asks : Prop} (h : r.journal path = .ok pl) (hn : RuleNodes r.env pl.automated rules)
    (ht : ∀ x ∈ rules, TypedRule r.env only x) (hc : ∀ x ∈ rules, ClearRule r.env only x)
    (ho : ∀ d, only = some d → pl.OnlyIn r.env d) (ha : (∃ x ∈ rules, RuleAsks x) → asks) :
    RulesClear r.env asks (∃ a ∈ pl.automated, ∃ rp ∈ a.postings, rp.moneyCurrency = some []) only rules := by
  have hwf := C83_wellformed h
  intro x hx
  have hx' : x.1 ∈ pl.automated := by
    obtain ⟨a, ha, h1, _⟩ := Forall₂.mem_right hn hx
    rw [h1]; exact ha
  refine ⟨(ht x hx).condition, fun e => ha ⟨x, hx, .inl e⟩, (hc x hx).condition, fun rp hrp => ⟨?_, (hc x hx).amounts rp hrp⟩⟩
  obtain ⟨hpair, hpay⟩ := (hwf.2.2 x.1 hx').2 rp hrp
  refine ⟨hpay, ?_⟩
  cases hc : rp.moneyCurrency with
  | none =>
    obtain ⟨e, n, e1, e2, e3⟩ := (ht x hx).amounts rp hrp hc
    exact .inr ⟨rfl, ha ⟨x, hx, .inr ⟨rp, hrp, hc⟩⟩, e, n, e1, e2, e3⟩
  | some c =>
    have := hpair.money
    rw [hc] at this
    obtain ⟨a, ha⟩ := Option.isSome_iff_exists.mp this.symm
    refine .inl ⟨c, a, rfl, ha, fun h0 => ⟨x.1, hx', rp, hrp, by rw [hc, h0]⟩, fun d hd => ?_⟩
    rcases (ho d hd).only x.1 (List.mem_filter.mp hx').1 rp hrp c (.inl hc) with h | h
    · exact .inr h
    · exact .inl h.1

/-- Clear rules, applied to the booked transactions. -/
theorem booked_ruled {r : Run} {path : Str} {pl : ParsedLedger} {rules : List (Txn RawPosting × Ast)} {only : Option Cur}
    (h : r.journal path = .ok pl) (hn : RuleNodes r.env pl.automated rules)
    (ht : ∀ x ∈ rules, TypedRule r.env only x) (hc : ∀ x ∈ rules, ClearRule r.env only x)
    (ho : ∀ d, only = some d → pl.OnlyIn r.env d) (hf : pl.Serves rules) {skip : Bool} {l names : Lists}
    {ts booked applied : List (Txn Posting)} (hb : Booked r.env skip pl l ts booked)
    (ha : automate r.env rules booked l = .ok (applied, names)) :
    List.Forall₂ (Ruled r.env only names rules) booked applied := by
  obtain ⟨hknown, hrich⟩ := booked_rich ho hf.factors hf.amounts hb
  exact automate_ruled (rules_clear h hn ht hc ho id) booked hb.dated hrich hb.ok hknown ha

/-- The ledger of a journal whose rules are clear. -/
theorem ledger_clear {r : Run} {path : Str} {pl : ParsedLedger} {rules : List (Txn RawPosting × Ast)} {only : Option Cur}
    {skip : Bool} {L : Ledger} (h : r.journal path = .ok pl) (hne : pl.automated ≠ []) (hz : pl.NoFreeTotals)
    (hn : RuleNodes r.env pl.automated rules) (ht : ∀ x ∈ rules, TypedRule r.env only x)
    (hc : ∀ x ∈ rules, ClearRule r.env only x) (ho : ∀ d, only = some d → pl.OnlyIn r.env d) (hf : pl.Serves rules)
    (hl : r.ledger skip path = .ok L) :
    ∃ l ts booked names applied, pl.StandsWith r.env l ts ∧ BookedAs skip (fun _ _ => 0) ts booked ∧
      l.Grow r.env.lower names ∧ List.Forall₂ (Ruled r.env only names rules) booked applied ∧
      BookedAs skip (fun _ _ => 0) applied L.transactions ∧ ∀ t ∈ applied, AllAmounts t.postings := by
  obtain ⟨l, listed, ts, h1, h2, h3, h4, _, h5⟩ := toLedger_rules h hne hz (ruleNodes_of hn)
    (fun _ _ _ _ hb => (booked_typed h hn ht ho hf id hf.amounts hb).imp (fun _ hx => hx.1))
  have hL : toLedger r.env r.orders skip pl = .ok L := by
    unfold Run.ledger at hl
    rw [h] at hl
    simp only at hl
    cases ht : toLedger r.env r.orders skip pl with
    | error e => rw [ht] at hl; cases hl
    | ok L' => rw [ht] at hl; cases hl; rfl
  rcases h5 skip with ⟨_, e, he⟩ | ⟨booked, names, applied, hx, g1, g0, g2, g5, g3, g4⟩
  · rw [hL] at he; cases he
  · rcases g4 with ⟨_, e, he⟩ | ⟨L', bals, rs, hb, hL', hrs⟩
    · rw [hL] at he; cases he
    · rw [hL] at hL'; cases hL'
      have hB := bookedAs_of_balanceAll applied (initialBalances_ok _) (fun t ht p hp => ((g3 t ht).2.2 p hp).1) hb
      rw [initialBalances_amt, ← hrs] at hB
      exact ⟨l, ts, booked, names, applied, ⟨h1, listed, h2, h3⟩, g1.entered, g5, booked_ruled h hn ht hc ho hf g1 g0, hB,
        fun t ht => (g3 t ht).1⟩

end Dinero
