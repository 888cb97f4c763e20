import Verif.Spec.Expr
import Verif.Lemmas.HMap
import Verif.Lemmas.Balance
import Verif.Props.Money
/-
Helper lemmas on expression evaluation.
-/
namespace Dinero

/-- The memo of a named object only holds true answers. -/
theorem CachedName.isMatch_spec (rx : Str → Str → Bool) (n : CachedName)
    (h : ∀ pat b, n.matched.get? pat = some b → b = rx pat n.name) (pat : Str) :
    (n.isMatch rx pat).1 = rx pat n.name ∧ (n.isMatch rx pat).2.name = n.name ∧
    (∀ q b, (n.isMatch rx pat).2.matched.get? q = some b → b = rx q n.name) := by
  unfold CachedName.isMatch
  cases hg : n.matched.get? pat with
  | some x => exact ⟨h pat x hg, rfl, h⟩
  | none =>
    refine ⟨rfl, rfl, ?_⟩
    intro q b hq
    rw [HMap.get?_insert] at hq
    split at hq
    · next he => subst he; cases hq; rfl
    · exact h q b hq

theorem askAll_spec (rx : Str → Str → Bool) (pats : List Str) (n : CachedName)
    (h : ∀ pat b, n.matched.get? pat = some b → b = rx pat n.name) :
    askAll rx n pats = pats.map (fun pat => rx pat n.name) := by
  induction pats generalizing n with
  | nil => rfl
  | cons pat pats ih =>
    obtain ⟨h1, h2, h3⟩ := n.isMatch_spec rx h pat
    rw [askAll, h1, ih _ (by rw [h2]; exact h3), h2]; rfl

/-! ### Evaluation only adds commodities, and never changes a lookup that succeeds -/

/-- Every lookup that succeeds in `a` gives the same answer in `b`. -/
def LookupsKept (env : Env) (a b : Commodities) : Prop :=
  ∀ c x, a.get env.lower c = .ok x → b.get env.lower c = .ok x

theorem LookupsKept.refl (env : Env) (a : Commodities) : LookupsKept env a a := fun _ _ h => h
theorem LookupsKept.trans {env : Env} {a b c : Commodities} (h : LookupsKept env a b)
    (h' : LookupsKept env b c) : LookupsKept env a c := fun n x hx => h' n x (h n x hx)

theorem insert_fresh_get {env : Env} {st : Commodities} {c : Str} {d : CurrencyDef}
    (hd : Named.name d = c) (ha : Named.aliases d = [])
    {er : Err} (h : st.get env.lower c = .error (.error er)) :
    LookupsKept env st (st.insert env.lower d) ∧ (st.insert env.lower d).get env.lower c = .ok d := by
  have hl : st.list.get? (env.lower c) = none := by
    unfold NList.get at h
    cases hc : st.list.get? (env.lower c) with
    | none => rfl
    | some x => rw [hc] at h; cases h
  have hins : st.insert env.lower d =
      { st with list := HMap.insert st.list (env.lower c) d } := by
    unfold NList.insert
    rw [hd, hl, ha]; rfl
  rw [hins]
  constructor
  · intro n x hx
    unfold NList.get at hx ⊢
    simp only [HMap.get?_insert]
    cases hn : st.list.get? (env.lower n) with
    | some y =>
      rw [hn] at hx
      have : env.lower c ≠ env.lower n := by intro he; rw [he, hn] at hl; cases hl
      rw [if_neg this]; exact hx
    | none =>
      rw [hn] at hx
      by_cases he : env.lower c = env.lower n
      · -- then the lookup of `c` would have failed in the same way
        exfalso
        unfold NList.get at h
        rw [he, hn] at h
        dsimp only at h hx
        cases hal : st.aliases.get? (env.lower n) with
        | none => rw [hal] at hx; cases hx
        | some k => rw [hal] at h hx; dsimp only at h hx; rw [hx] at h; cases h
      · rw [if_neg he]
        dsimp only at hx ⊢
        cases hal : st.aliases.get? (env.lower n) with
        | none => rw [hal] at hx; cases hx
        | some k =>
          rw [hal] at hx
          dsimp only at hx ⊢
          by_cases hk : env.lower c = k
          · subst hk
            rw [hl] at hx; cases hx
          · rw [if_neg hk]; exact hx
  · unfold NList.get; simp only [HMap.get?_insert_self]

theorem evalMoney_spec {env : Env} {c : Str} {a : Rat} {st st' : Commodities} {v : Val}
    (h : evalMoney env c a st = .ok (v, st')) :
    LookupsKept env st st' ∧ ∃ x, st'.get env.lower c = .ok x ∧ v = .money (.mk a x.name) := by
  unfold evalMoney at h
  split at h
  · next x hx => cases h; exact ⟨.refl _ _, x, hx, rfl⟩
  · cases h
  · next e he =>
    cases h
    obtain ⟨h1, h2⟩ := insert_fresh_get (d := { name := c }) rfl rfl he
    exact ⟨h1, _, h2, rfl⟩

theorem anyLoop_kept {env : Env} {f : Posting → Commodities → Res (Val × Commodities)}
    (hf : ∀ q st v st', f q st = .ok (v, st') → LookupsKept env st st') :
    ∀ ps st v st', anyLoop f ps st = .ok (v, st') → LookupsKept env st st' := by
  intro ps
  induction ps with
  | nil => intro st v st' h; cases h; exact .refl _ _
  | cons q ps ih =>
    intro st v st' h
    simp only [anyLoop] at h
    split at h
    · cases h
    · next h1 => cases h; exact hf _ _ _ _ h1
    · next s h1 => exact (hf _ _ _ _ h1).trans (ih _ _ _ h)
    · cases h

/-- Evaluation keeps every successful lookup. -/
theorem eval_kept (env : Env) (t : Txn Posting) (n : Ast) : ∀ p st v st',
    eval env t n p st = .ok (v, st') → LookupsKept env st st' := by
  induction n with
  | money c a => intro p st v st' h; exact (evalMoney_spec h).1
  | unary op child ih =>
    intro p st v st' h
    simp only [eval] at h
    split at h
    · cases h
    · next w s hw =>
      have k1 := ih _ _ _ _ hw
      split at h
      · exact k1.trans (anyLoop_kept (fun q st v st' hq => ih q st v st' hq) _ _ _ _ h)
      · split at h
        · cases h; exact k1
        · cases h
  | binary op l r ihl ihr =>
    intro p st v st' h
    simp only [eval] at h
    split at h
    · cases h
    · next lv s1 h1 =>
      split at h
      · cases h
      · next rv s2 h2 =>
        split at h
        · cases h; exact (ihl _ _ _ _ h1).trans (ihr _ _ _ _ h2)
        · cases h
  | amount => intro p st v st' h; simp only [eval] at h; split at h <;> cases h; exact .refl _ _
  | payee => intro p st v st' h; simp only [eval] at h; split at h <;> cases h; exact .refl _ _
  | date => intro p st v st' h; simp only [eval] at h; split at h <;> cases h; exact .refl _ _
  | account => intro p st v st' h; cases h; exact .refl _ _
  | note => intro p st v st' h; cases h; exact .refl _ _
  | number => intro p st v st' h; cases h; exact .refl _ _
  | regex => intro p st v st' h; cases h; exact .refl _ _
  | string => intro p st v st' h; cases h; exact .refl _ _

/-- `to_money().unwrap()` on a sum or difference. -/
theorem unwrapMoney_spec {b : Balance} (hb : b.Reachable) {v : Val} (h : unwrapMoney b = .ok v) :
    ∃ m, v = .money m ∧ ∀ c, m.amountIn c = b.amountOf c := by
  unfold unwrapMoney at h
  split at h
  · next m hm => cases h; exact ⟨m, rfl, fun c => ((C04_toMoney hb).1 m hm c).symm⟩
  · cases h

theorem anyLoop_bool {f : Posting → Commodities → Res (Val × Commodities)} :
    ∀ ps st v st', anyLoop f ps st = .ok (v, st') → ∃ b, v = .bool b := by
  intro ps
  induction ps with
  | nil => intro st v st' h; cases h; exact ⟨_, rfl⟩
  | cons q ps ih =>
    intro st v st' h
    simp only [anyLoop] at h
    split at h
    · cases h
    · cases h; exact ⟨_, rfl⟩
    · exact ih _ _ _ h
    · cases h

theorem ite_neg_eq_abs (a : Rat) : (if a < 0 then -a else a) = |a| := by
  split
  · next h => rw [abs_of_neg h]
  · next h => rw [abs_of_nonneg (not_lt.mp h)]

theorem Means.congr {ρ : Str → Cur} {p : Posting} {n : Ast} {f g : Cur → Rat}
    (h : Means ρ p n (.amt f)) (e : ∀ c, f c = g c) : Means ρ p n (.amt g) := by
  have : f = g := funext e
  exact this ▸ h

/-- Whatever number or money an expression evaluates to is its exact meaning. -/
theorem means_eval (env : Env) (t : Txn Posting) (ρ : Str → Cur) (n : Ast) :
    ∀ p st v st', eval env t n p st = .ok (v, st') →
    (∀ c x, st'.get env.lower c = .ok x → ρ c = x.name) →
    ∀ μ, v.meaning = some μ → Means ρ p n μ := by
  induction n with
  | money c a =>
    intro p st v st' h hρ μ hμ
    obtain ⟨_, x, hx, rfl⟩ := evalMoney_spec h
    cases hμ
    refine (Means.money c a).congr ?_
    intro d
    rw [hρ c x hx, Money.amountIn_mk]
    by_cases hd : d = x.name
    · subst hd; simp
    · rw [if_neg hd, if_neg (fun h => hd h.symm)]
  | amount =>
    intro p st v st' h hρ μ hμ
    simp only [eval] at h; split at h
    · next m hm => cases h; cases hμ; exact .amount hm
    · cases h
  | number r => intro p st v st' h hρ μ hμ; cases h; cases hμ; exact .number r
  | payee =>
    intro p st v st' h hρ μ hμ
    simp only [eval] at h; split at h <;> cases h; cases hμ
  | date =>
    intro p st v st' h hρ μ hμ
    simp only [eval] at h; split at h <;> cases h; cases hμ
  | account => intro p st v st' h hρ μ hμ; cases h; cases hμ
  | note => intro p st v st' h hρ μ hμ; cases h; cases hμ
  | regex => intro p st v st' h hρ μ hμ; cases h; cases hμ
  | string => intro p st v st' h hρ μ hμ; cases h; cases hμ
  | unary op child ih =>
    intro p st v st' h hρ μ hμ
    simp only [eval] at h
    split at h
    · cases h
    · next w s hw =>
      split at h
      · obtain ⟨b, rfl⟩ := anyLoop_bool _ _ _ _ h; cases hμ
      · next hop =>
        split at h
        · next w' hu =>
          cases h
          have hm := ih p st w st' hw hρ
          revert hu
          cases op <;> cases w <;> intro hu <;> simp only [evalUnary] at hu <;>
            first
            | (cases hu; cases hμ; done)
            | (cases hu; done)
            | skip
          · cases hu; cases hμ; exact .negNum (hm _ rfl)
          · cases hu; cases hμ
            exact (Means.negAmt (hm _ rfl)).congr (fun c => (Money.amountIn_neg _ c).symm)
          · cases hu; cases hμ; rw [ite_neg_eq_abs]; exact .absNum (hm _ rfl)
          · next m =>
            cases m with
            | zero =>
              cases hu; cases hμ
              exact (Means.absAmt (hm _ rfl)).congr (fun c => by simp)
            | mk a d =>
              cases hu; cases hμ
              refine (Means.absAmt (hm _ rfl)).congr (fun c => ?_)
              rw [ite_neg_eq_abs]; simp only [Money.amountIn_mk]; split <;> simp
          all_goals
            next s =>
            cases s <;> first
              | (cases hu; cases hμ; done)
              | (cases hu; done)
              | (simp only at hu; split at hu <;> cases hu; cases hμ)
              | (exact (hop rfl).elim)
        · cases h
  | binary op l r ihl ihr =>
    intro p st v st' h hρ μ hμ
    simp only [eval] at h
    split at h
    · cases h
    · next lv s1 h1 =>
      split at h
      · cases h
      · next rv s2 h2 =>
        split at h
        · next w hb =>
          cases h
          have hl := ihl p st lv s1 h1 (fun c x hx => hρ c x (eval_kept env t r p s1 rv st' h2 c x hx))
          have hr := ihr p s1 rv st' h2 hρ
          revert hb
          have hcmp : ∀ test, evalCmp test lv rv = .ok v → False := by
            intro test h'
            unfold evalCmp at h'
            split at h' <;> cases h' <;> cases hμ
          have hbool : ∀ o, evalBool o lv rv = .ok v → False := by
            intro o h'
            cases lv <;> simp only [evalBool] at h' <;> try cases h'
            split at h'
            · cases h'; cases hμ
            · split at h' <;> cases h'; cases hμ
          cases op <;> intro hb <;> simp only [evalBinary] at hb
          · -- add
            cases lv <;> cases rv <;> simp only [evalAddSub] at hb <;> try cases hb
            · cases hμ; exact .addNum (hl _ rfl) (hr _ rfl)
            · next a b =>
              obtain ⟨m, rfl, hm⟩ := unwrapMoney_spec (.add (.ofMoney a) (.ofMoney b)) hb
              cases hμ
              refine (Means.addAmt (hl _ rfl) (hr _ rfl)).congr (fun c => ?_)
              rw [hm, ← C01_money_add]; rfl
          · cases lv <;> cases rv <;> simp only [evalAddSub] at hb <;> try cases hb
            · cases hμ; exact .subNum (hl _ rfl) (hr _ rfl)
            · next a b =>
              obtain ⟨m, rfl, hm⟩ := unwrapMoney_spec (.sub (.ofMoney a) (.ofMoney b)) hb
              cases hμ
              refine (Means.subAmt (hl _ rfl) (hr _ rfl)).congr (fun c => ?_)
              rw [hm, ← (C03_money a b c).2.2]; rfl
          · cases lv <;> cases rv <;> simp only [evalMult] at hb <;> try cases hb
            · cases hμ; exact .mulNum (hl _ rfl) (hr _ rfl)
            · next a b =>
              cases hμ
              refine (Means.mulNumAmt (hl _ rfl) (hr _ rfl)).congr (fun c => ?_)
              rw [(C08_scaling b a).1]; ring
            · next a b =>
              cases hμ
              refine (Means.mulAmtNum (hl _ rfl) (hr _ rfl)).congr (fun c => ?_)
              rw [(C08_scaling a b).1]
          · cases lv <;> cases rv <;> simp only [evalDiv] at hb <;> try cases hb
            · next a b =>
              unfold ratDiv at hb
              by_cases hz : b = 0
              · rw [if_pos hz] at hb; cases hb
              · rw [if_neg hz] at hb; cases hb; cases hμ; exact .divNum (hl _ rfl) (hr _ rfl) hz
            · next a b =>
              by_cases hz : b = 0
              · rw [Money.div, if_pos hz] at hb; cases hb
              · obtain ⟨q, hq, hq', _⟩ := (C08_scaling a b).2.2.2.1 hz
                rw [hq] at hb; cases hb; cases hμ
                refine (Means.divAmtNum (hl _ rfl) (hr _ rfl) hz).congr (fun c => ?_)
                rw [hq']
          · exact (hbool _ hb).elim
          · exact (hbool _ hb).elim
          · exfalso
            unfold evalEq at hb
            split at hb
            · split at hb <;> cases hb <;> cases hμ
            · split at hb <;> cases hb; cases hμ
          all_goals exact (hcmp _ hb).elim
        · cases h

/-! ### Evaluation fails only by panicking -/

theorem evalUnary_fail {env : Env} {p : Posting} {op : UnaryOp} {v : Val} {e : Err} :
    evalUnary env p op v ≠ .error (.error e) := by
  intro h
  cases op <;> cases v <;> simp only [evalUnary] at h <;> try cases h
  all_goals
    next s =>
    cases s <;> first
      | (simp only [] at h; cases h)
      | (simp only [] at h; split at h <;> cases h)

theorem evalBinary_fail {env : Env} {t : Txn Posting} {op : BinaryOp} {l r : Val} {e : Err} :
    evalBinary env t op l r ≠ .error (.error e) := by
  intro h
  have hcmp : ∀ test, evalCmp test l r ≠ .error (.error e) := by
    intro test h
    unfold evalCmp at h
    split at h
    · cases h
    · cases h
    · next f hf =>
      cases h
      unfold Val.partialCmp at hf
      split at hf <;> try cases hf
      split at hf
      · cases hf
      · next hm =>
        cases hf
        unfold Money.cmp at hm
        split at hm
        · split at hm <;> cases hm
        · cases hm
  have hb : ∀ o, evalBool o l r ≠ .error (.error e) := by
    intro o h
    cases l <;> simp only [evalBool] at h <;> try cases h
    split at h
    · cases h
    · split at h <;> cases h
  have ha : ∀ o, evalAddSub o l r ≠ .error (.error e) := by
    intro o h
    cases l <;> cases r <;> simp only [evalAddSub] at h <;> try cases h
    unfold unwrapMoney at h
    split at h <;> cases h
  cases op <;> simp only [evalBinary] at h
  · exact ha _ h
  · exact ha _ h
  · cases l <;> cases r <;> simp only [evalMult] at h <;> cases h
  · cases l <;> cases r <;> simp only [evalDiv] at h <;> try cases h
    · split at h
      · cases h
      · next hd => cases h; unfold ratDiv at hd; split at hd <;> cases hd
    · split at h
      · cases h
      · next hd => cases h; unfold Money.div at hd; split at hd <;> cases hd
  · exact hb _ h
  · exact hb _ h
  · unfold evalEq at h
    split at h
    · split at h <;> cases h
    · split at h
      · cases h
      · next he =>
        cases h
        unfold Val.eq at he
        split at he <;> cases he
  all_goals exact hcmp _ h

theorem eval_fail (env : Env) (t : Txn Posting) (n : Ast) (e : Err) : ∀ p st,
    eval env t n p st ≠ .error (.error e) := by
  induction n with
  | money c a =>
    intro p st h
    simp only [eval, evalMoney] at h
    split at h <;> cases h
  | unary op child ih =>
    intro p st h
    simp only [eval] at h
    split at h
    · next hc => cases h; exact ih _ _ hc
    · next w s hw =>
      split at h
      · clear hw
        revert s h
        generalize t.postings = ps
        induction ps with
        | nil => intro s h; cases h
        | cons q ps ihp =>
          intro s h
          simp only [anyLoop] at h
          split at h
          · next hq => cases h; exact ih _ _ hq
          · cases h
          · exact ihp _ h
          · cases h
      · split at h
        · cases h
        · next hu => cases h; exact evalUnary_fail hu
  | binary op l r ihl ihr =>
    intro p st h
    simp only [eval] at h
    split at h
    · next h1 => cases h; exact ihl _ _ h1
    · split at h
      · next h2 => cases h; exact ihr _ _ h2
      · split at h
        · cases h
        · next hb => cases h; exact evalBinary_fail hb
  | amount => intro p st h; simp only [eval] at h; split at h <;> cases h
  | payee => intro p st h; simp only [eval] at h; split at h <;> cases h
  | date => intro p st h; simp only [eval] at h; split at h <;> cases h
  | account => intro p st h; cases h
  | note => intro p st h; cases h
  | number => intro p st h; cases h
  | regex => intro p st h; cases h
  | string => intro p st h; cases h

end Dinero
