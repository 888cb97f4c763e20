import Verif.Spec.Naming
import Verif.Lemmas.Rulework
/-
Lemmas on the names that automated transactions add.
-/
namespace Dinero

/-! ### Expressions -/

theorem evalMoney_adding {env : Env} {decl st st' : Commodities} {seen : List Str} {c : Str} {a : Rat} {v : Val}
    (hA : Adding env.lower currencyOf decl st seen) (h : evalMoney env c a st = .ok (v, st')) :
    Adding env.lower currencyOf decl st' (seen ++ [c]) := by
  refine hA.step (fun _ => rfl) (fun _ => rfl) (n := c) ?_
  unfold evalMoney at h
  unfold NList.ensure
  split at h
  · next x hx => cases h; rw [hx]
  · cases h
  · next e he => cases h; rw [he]; rfl

theorem anyLoop_adding {env : Env} {decl : Commodities} {names : List Str}
    {f : Posting → Commodities → Res (Val × Commodities)}
    (hf : ∀ p st v st' seen, Adding env.lower currencyOf decl st seen → f p st = .ok (v, st') →
      ∃ more, Adding env.lower currencyOf decl st' (seen ++ more) ∧ ∀ n, n ∈ more ↔ n ∈ names)
    (ps : List Posting) {st st' : Commodities} {seen : List Str} {v : Val} (hA : Adding env.lower currencyOf decl st seen)
    (h : anyLoop f ps st = .ok (v, st')) :
    ∃ more, Adding env.lower currencyOf decl st' (seen ++ more) ∧ ∀ n ∈ more, n ∈ names := by
  induction ps generalizing st seen with
  | nil => cases h; exact ⟨[], by simpa using hA, by simp⟩
  | cons p ps ih =>
    unfold anyLoop at h
    split at h
    · cases h
    · next s1 h1 =>
      cases h
      obtain ⟨m, m1, m2⟩ := hf _ _ _ _ _ hA h1
      exact ⟨m, m1, fun n hn => (m2 n).mp hn⟩
    · next s1 h1 =>
      obtain ⟨m, m1, m2⟩ := hf _ _ _ _ _ hA h1
      obtain ⟨m', g1, g2⟩ := ih m1 h
      refine ⟨m ++ m', by rw [← List.append_assoc]; exact g1, ?_⟩
      intro n hn
      rcases List.mem_append.mp hn with hn | hn
      · exact (m2 n).mp hn
      · exact g2 n hn
    · cases h

/-- Evaluating an expression adds the commodities it writes. -/
theorem eval_adding {env : Env} {t : Txn Posting} {decl : Commodities} (n : Ast) {p : Posting} {st st' : Commodities}
    {v : Val} {seen : List Str} (hA : Adding env.lower currencyOf decl st seen) (h : eval env t n p st = .ok (v, st')) :
    ∃ more, Adding env.lower currencyOf decl st' (seen ++ more) ∧ ∀ c, c ∈ more ↔ c ∈ n.commodities := by
  have base : ∀ {st' : Commodities}, st = st' →
      ∃ more, Adding env.lower currencyOf decl st' (seen ++ more) ∧ ∀ c, c ∈ more ↔ c ∈ ([] : List Str) := by
    rintro _ rfl
    exact ⟨[], by simpa using hA, by simp⟩
  induction n generalizing p st st' v seen with
  | amount => unfold eval at h; split at h <;> cases h; exact base rfl
  | account => unfold eval at h; cases h; exact base rfl
  | payee => unfold eval at h; split at h <;> cases h; exact base rfl
  | note => unfold eval at h; cases h; exact base rfl
  | date => unfold eval at h; split at h <;> cases h; exact base rfl
  | regex => unfold eval at h; cases h; exact base rfl
  | string => unfold eval at h; cases h; exact base rfl
  | number => unfold eval at h; cases h; exact base rfl
  | money c a => unfold eval at h; exact ⟨[c], evalMoney_adding hA h, by simp [Ast.commodities]⟩
  | unary op child ih =>
    have ih' : ∀ p st v st' seen, Adding env.lower currencyOf decl st seen → eval env t child p st = .ok (v, st') →
        ∃ more, Adding env.lower currencyOf decl st' (seen ++ more) ∧ ∀ c, c ∈ more ↔ c ∈ child.commodities :=
      fun p st v st' seen hA hh => ih hA hh (by rintro _ rfl; exact ⟨[], by simpa using hA, by simp⟩)
    unfold eval at h
    split at h
    · cases h
    · next v1 s1 h1 =>
      obtain ⟨m, m1, m2⟩ := ih' _ _ _ _ _ hA h1
      split at h
      · obtain ⟨m', g1, g2⟩ := anyLoop_adding ih' _ m1 h
        refine ⟨m ++ m', by rw [← List.append_assoc]; exact g1, fun c => ?_⟩
        rw [List.mem_append]
        exact ⟨fun hc => hc.elim (m2 c).mp (g2 c), fun hc => .inl ((m2 c).mpr hc)⟩
      · split at h
        · cases h; exact ⟨m, m1, m2⟩
        · cases h
  | binary op l r ihl ihr =>
    unfold eval at h
    split at h
    · cases h
    · next v1 s1 h1 =>
      split at h
      · cases h
      · next v2 s2 h2 =>
        split at h
        · cases h
          obtain ⟨m, m1, m2⟩ := ihl hA h1 base
          obtain ⟨m', g1, g2⟩ := ihr m1 h2 (by rintro _ rfl; exact ⟨[], by simpa using m1, by simp⟩)
          refine ⟨m ++ m', by rw [← List.append_assoc]; exact g1, fun c => ?_⟩
          rw [List.mem_append, m2, g2]
          simp [Ast.commodities]
        · cases h

theorem filterExpression_adding {env : Env} {t : Txn Posting} {decl : Commodities} {n : Ast} {p : Posting}
    {st st' : Commodities} {b : Bool} {seen : List Str} (hA : Adding env.lower currencyOf decl st seen)
    (h : filterExpression env t n p st = .ok (b, st')) :
    ∃ more, Adding env.lower currencyOf decl st' (seen ++ more) ∧ ∀ c, c ∈ more ↔ c ∈ n.commodities := by
  unfold filterExpression at h
  split at h
  · cases h
  · next b s he => cases h; exact eval_adding n hA he
  · cases h

theorem evalValueExpression_adding {env : Env} {t : Txn Posting} {decl : Commodities} {e : Str} {p : Posting}
    {st st' : Commodities} {m : Money} {seen : List Str} (hA : Adding env.lower currencyOf decl st seen)
    (h : evalValueExpression env e t p st = .ok (m, st')) :
    ∃ node more, buildRoot env e = .ok node ∧ Adding env.lower currencyOf decl st' (seen ++ more) ∧
      ∀ c, c ∈ more ↔ c ∈ node.commodities := by
  unfold evalValueExpression at h
  split at h
  · cases h
  · next n hn =>
    unfold evalAmountNode at h
    split at h
    · cases h
    · next r st' he =>
      split at h
      · cases h
        obtain ⟨more, h1, h2⟩ := eval_adding n hA he
        exact ⟨n, more, hn, h1, h2⟩
      · cases h
    · next m' st' he =>
      cases h
      obtain ⟨more, h1, h2⟩ := eval_adding n hA he
      exact ⟨n, more, hn, h1, h2⟩
    · cases h

/-! ### Rules -/

/-- The invariant of applying rules: accounts and payees stay as they are, and the commodities added are allowed. -/
structure Keeping (env : Env) (decl : Commodities) (ok : Str → Prop) (l0 l : Lists) (seen : List Str) : Prop where
  accounts : l.accounts = l0.accounts
  payees : l.payees = l0.payees
  commodities : Adding env.lower currencyOf decl l.commodities seen
  allowed : ∀ c ∈ seen, ok c

theorem Keeping.more {env : Env} {decl : Commodities} {ok : Str → Prop} {l0 l : Lists} {seen more : List Str}
    {cs : Commodities} (h : Keeping env decl ok l0 l seen) (hA : Adding env.lower currencyOf decl cs (seen ++ more))
    (hm : ∀ c ∈ more, ok c) : Keeping env decl ok l0 { l with commodities := cs } (seen ++ more) :=
  ⟨h.accounts, h.payees, hA, fun c hc => (List.mem_append.mp hc).elim (h.allowed c) (hm c)⟩

/-- The names of a rule's posting are known, and the commodities it can add are allowed. -/
structure Keeps (env : Env) (ok : Str → Prop) (l0 : Lists) (rp : RawPosting) : Prop where
  account : ∃ x, l0.accounts.get env.lower rp.account = .ok x
  payee : ∀ n, rp.payee = some n → ∃ x, l0.payees.get env.lower n = .ok x
  money : ∀ c, rp.moneyCurrency = some c → ok c
  formula : ∀ e node, rp.moneyCurrency = none → rp.amountExpr = some e → buildRoot env e = .ok node →
    ∀ c ∈ node.commodities, ok c

theorem ruleMoney_keeping {env : Env} {decl : Commodities} {ok : Str → Prop} {l0 l : Lists} {seen : List Str}
    {t : Txn Posting} {p : Posting} {rp : RawPosting} {m : Money} {cs : Commodities} (hk : Keeps env ok l0 rp)
    (hK : Keeping env decl ok l0 l seen) (h : ruleMoney env t p rp l.commodities = .ok (m, cs)) :
    ∃ more, Keeping env decl ok l0 { l with commodities := cs } (seen ++ more) := by
  unfold ruleMoney at h
  split at h
  · next hc =>
    split at h
    · cases h
    · next e he =>
      obtain ⟨node, more, h1, h2, h3⟩ := evalValueExpression_adding hK.commodities h
      exact ⟨more, hK.more h2 (fun c hcm => hk.formula e node hc he h1 c ((h3 c).mp hcm))⟩
  · split at h
    · cases h
    · cases h
    · split at h
      · cases h
      · cases h
        exact ⟨[], by rw [List.append_nil]; exact hK⟩
  · next name hc hn =>
    split at h
    · cases h
    · next cs' hens =>
      split at h
      · cases h
      · split at h
        · cases h
        · cases h
          refine ⟨[name], hK.more (hK.commodities.step (fun _ => rfl) (fun _ => rfl) hens) ?_⟩
          intro c hcm
          rw [List.mem_singleton] at hcm
          subst hcm
          exact hk.money _ (by assumption)

theorem rulePosting_keeping {env : Env} {decl : Commodities} {ok : Str → Prop} {l0 l l' : Lists} {seen : List Str}
    {t : Txn Posting} {p q : Posting} {rp : RawPosting} (hk : Keeps env ok l0 rp)
    (hK : Keeping env decl ok l0 l seen) (h : rulePosting env t p rp l = .ok (q, l')) :
    ∃ more, Keeping env decl ok l0 l' (seen ++ more) := by
  unfold rulePosting at h
  split at h
  · cases h
  · next accounts hacc =>
    split at h
    · cases h
    · next payee payees hpay =>
      split at h
      · cases h
      · split at h
        · cases h
        · next m cs hm =>
          cases h
          have e1 : accounts = l.accounts := by
            obtain ⟨x, hx⟩ := hk.account
            unfold NList.ensure at hacc
            rw [hK.accounts, hx] at hacc
            cases hacc
            exact hK.accounts.symm
          have e2 : payees = l.payees := by
            unfold rulePayee at hpay
            split at hpay
            · cases hpay; rfl
            · next n hn =>
              obtain ⟨x, hx⟩ := hk.payee n hn
              unfold NList.ensure at hpay
              rw [hK.payees, hx] at hpay
              simp only at hpay
              rw [hx] at hpay
              cases hpay
              exact hK.payees.symm
          subst e1 e2
          exact ruleMoney_keeping hk hK hm

theorem rulePostings_keeping {env : Env} {decl : Commodities} {ok : Str → Prop} {l0 : Lists} {t : Txn Posting}
    {p : Posting} (rps : List RawPosting) {l l' : Lists} {seen : List Str} {qs : List Posting}
    (hk : ∀ rp ∈ rps, Keeps env ok l0 rp) (hK : Keeping env decl ok l0 l seen)
    (h : rulePostings env t p rps l = .ok (qs, l')) : ∃ more, Keeping env decl ok l0 l' (seen ++ more) := by
  induction rps generalizing l seen qs with
  | nil => cases h; exact ⟨[], by rw [List.append_nil]; exact hK⟩
  | cons rp rps ih =>
    unfold rulePostings at h
    split at h
    · cases h
    · next q l1 h1 =>
      split at h
      · cases h
      · next qs' l2 h2 =>
        cases h
        obtain ⟨m, hm⟩ := rulePosting_keeping (hk rp (by simp)) hK h1
        obtain ⟨m', hm'⟩ := ih (fun rp hrp => hk rp (by simp [hrp])) hm h2
        exact ⟨m ++ m', by rw [← List.append_assoc]; exact hm'⟩

theorem ruleLoop_keeping {env : Env} {decl : Commodities} {ok : Str → Prop} {l0 : Lists} {node : Ast}
    {rule : Txn RawPosting} {t : Txn Posting} (hk : ∀ rp ∈ rule.postings, Keeps env ok l0 rp)
    (hn : ∀ c ∈ node.commodities, ok c) (todo : List Posting) {done extra ps ex : List Posting} {l l' : Lists}
    {seen : List Str} (hK : Keeping env decl ok l0 l seen)
    (h : ruleLoop env node rule t done todo extra l = .ok (ps, ex, l')) :
    ∃ more, Keeping env decl ok l0 l' (seen ++ more) ∧
      ((∃ p ∈ todo, p.origin = .fromTransaction) → ∀ c ∈ node.commodities, c ∈ seen ++ more) := by
  induction todo generalizing done extra l seen with
  | nil => cases h; exact ⟨[], by rw [List.append_nil]; exact hK, by rintro ⟨p, hp, _⟩; cases hp⟩
  | cons p todo ih =>
    unfold ruleLoop at h
    split at h
    · next ho =>
      obtain ⟨m, m1, m2⟩ := ih hK h
      refine ⟨m, m1, ?_⟩
      rintro ⟨q, hq, hqo⟩
      rcases List.mem_cons.mp hq with rfl | hq
      · exact absurd hqo ho
      · exact m2 ⟨q, hq, hqo⟩
    · split at h
      · cases h
      · next cs hf =>
        obtain ⟨m, m1, m2⟩ := filterExpression_adding hK.commodities hf
        obtain ⟨m', g1, _⟩ := ih (l := { l with commodities := cs }) (hK.more m1 (fun c hc => hn c ((m2 c).mp hc))) h
        refine ⟨m ++ m', by rw [← List.append_assoc]; exact g1, fun _ c hc => ?_⟩
        simp [(m2 c).mpr hc]
      · next cs hf =>
        obtain ⟨m, m1, m2⟩ := filterExpression_adding hK.commodities hf
        simp only at h
        split at h
        · cases h
        · next qs l1 hqs =>
          obtain ⟨m', g1⟩ := rulePostings_keeping _ (l := { l with commodities := cs }) hk
            (hK.more m1 (fun c hc => hn c ((m2 c).mp hc))) hqs
          obtain ⟨m'', k1, _⟩ := ih g1 h
          refine ⟨m ++ m' ++ m'', by rw [← List.append_assoc, ← List.append_assoc]; exact k1, fun _ c hc => ?_⟩
          simp [(m2 c).mpr hc]

theorem ruleLoop_origins {env : Env} {node : Ast} {rule : Txn RawPosting} {t : Txn Posting} (todo : List Posting)
    {done extra ps ex : List Posting} {l l' : Lists}
    (h : ruleLoop env node rule t done todo extra l = .ok (ps, ex, l')) :
    ps.map Posting.origin = (done ++ todo).map Posting.origin := by
  induction todo generalizing done extra l with
  | nil => cases h; simp
  | cons p todo ih =>
    unfold ruleLoop at h
    split at h
    · rw [ih h]; simp
    · split at h
      · cases h
      · rw [ih h]; simp
      · simp only at h
        split at h
        · cases h
        · rw [ih h]; simp

theorem applyRules_keeping {env : Env} {decl : Commodities} {ok : Str → Prop} {l0 : Lists}
    (rules : List (Txn RawPosting × Ast)) (hk : ∀ r ∈ rules, ∀ rp ∈ r.1.postings, Keeps env ok l0 rp)
    (hn : ∀ r ∈ rules, ∀ c ∈ r.2.commodities, ok c) {t t' : Txn Posting} {l l' : Lists} {seen : List Str}
    (hK : Keeping env decl ok l0 l seen) (h : applyRules env rules t l = .ok (t', l')) :
    ∃ more, Keeping env decl ok l0 l' (seen ++ more) ∧
      ((∃ p ∈ t.postings, p.origin = .fromTransaction) → ∀ r ∈ rules, ∀ c ∈ r.2.commodities, c ∈ seen ++ more) := by
  induction rules generalizing t l seen with
  | nil => cases h; exact ⟨[], by rw [List.append_nil]; exact hK, by simp⟩
  | cons r rs ih =>
    unfold applyRules at h
    split at h
    · cases h
    · next t1 l1 h1 =>
      unfold applyRule at h1
      split at h1
      · cases h1
      · next ps ex l2 hl =>
        cases h1
        have ho := ruleLoop_origins _ hl
        obtain ⟨m, m1, m2⟩ := ruleLoop_keeping (hk r (by simp)) (hn r (by simp)) _ hK hl
        obtain ⟨m', g1, g2⟩ := ih (fun r hr => hk r (by simp [hr])) (fun r hr => hn r (by simp [hr])) m1 h
        refine ⟨m ++ m', by rw [← List.append_assoc]; exact g1, ?_⟩
        intro hex r' hr' c hc
        rw [← List.append_assoc]
        rcases List.mem_cons.mp hr' with rfl | hr'
        · exact List.mem_append_left _ (m2 hex c hc)
        · refine g2 ?_ r' hr' c hc
          obtain ⟨p, hp, hpo⟩ := hex
          have : POrigin.fromTransaction ∈ ps.map Posting.origin := by
            rw [ho]; exact List.mem_map.mpr ⟨p, by simpa using hp, hpo⟩
          obtain ⟨q, hq, hqo⟩ := List.mem_map.mp this
          exact ⟨q, by simp [hq], hqo⟩

theorem automate_keeping {env : Env} {decl : Commodities} {ok : Str → Prop} {l0 : Lists}
    {rules : List (Txn RawPosting × Ast)} (hk : ∀ r ∈ rules, ∀ rp ∈ r.1.postings, Keeps env ok l0 rp)
    (hn : ∀ r ∈ rules, ∀ c ∈ r.2.commodities, ok c) (ts : List (Txn Posting)) {ts' : List (Txn Posting)}
    {l l' : Lists} {seen : List Str} (hK : Keeping env decl ok l0 l seen) (h : automate env rules ts l = .ok (ts', l')) :
    ∃ more, Keeping env decl ok l0 l' (seen ++ more) ∧
      ((∃ t ∈ ts, ∃ p ∈ t.postings, p.origin = .fromTransaction) →
        ∀ r ∈ rules, ∀ c ∈ r.2.commodities, c ∈ seen ++ more) := by
  induction ts generalizing l seen ts' with
  | nil => cases h; exact ⟨[], by rw [List.append_nil]; exact hK, by rintro ⟨t, ht, _⟩; cases ht⟩
  | cons t ts ih =>
    unfold automate at h
    split at h
    · cases h
    · next t1 l1 h1 =>
      split at h
      · cases h
      · next ts1 l2 h2 =>
        cases h
        obtain ⟨m, m1, m2⟩ := applyRules_keeping _ hk hn hK h1
        obtain ⟨m', g1, g2⟩ := ih m1 h2
        refine ⟨m ++ m', by rw [← List.append_assoc]; exact g1, ?_⟩
        rintro ⟨u, hu, hp⟩ r hr c hc
        rw [← List.append_assoc]
        rcases List.mem_cons.mp hu with rfl | hu
        · exact List.mem_append_left _ (m2 hp r hr c hc)
        · exact g2 ⟨u, hu, hp⟩ r hr c hc

/-! ### The ledger -/

theorem populate_adding {env : Env} {o : LedgerOrders} {pl : ParsedLedger} {l : Lists} (h : pl.lists.Ok env.lower)
    (hp : populate env o pl = .ok l) : ∃ seen, Adding env.lower currencyOf pl.lists.commodities l.commodities seen ∧
      ∀ n, n ∈ seen ↔ pl.usesCommodity n := by
  unfold populate at hp
  split at hp
  · cases hp
  rename_i cs hc
  split at hp
  · cases hp
  split at hp
  · cases hp
  simp only [Except.ok.injEq] at hp
  subst hp
  refine ⟨_, ensureAll_adding (fun _ => rfl) (fun _ => rfl) _ _ _ (.start h.commodities) hc, ?_⟩
  intro n
  rw [List.nil_append, (o.commodities.perm _).mem_iff]
  unfold ParsedLedger.commodityStrs ParsedLedger.postings ParsedLedger.usesCommodity
  rw [mem_setInsertAll, mem_setInsertAll]
  simp only [List.not_mem_nil, false_or, List.mem_flatMap, List.mem_cons, or_false]
  constructor
  · rintro (⟨p, ⟨t, ht, hp⟩, h | h | h⟩ | ⟨p, hp, h | h⟩)
    · exact .inl ⟨t, ht, p, hp, .inl h.symm⟩
    · exact .inl ⟨t, ht, p, hp, .inr (.inl h.symm)⟩
    · exact .inl ⟨t, ht, p, hp, .inr (.inr h.symm)⟩
    · cases h; exact .inr ⟨p, hp, .inl rfl⟩
    · cases h; exact .inr ⟨p, hp, .inr rfl⟩
  · rintro (⟨t, ht, p, hp, h | h | h⟩ | ⟨p, hp, h | h⟩)
    · exact .inl ⟨p, ⟨t, ht, hp⟩, .inl h.symm⟩
    · exact .inl ⟨p, ⟨t, ht, hp⟩, .inr (.inl h.symm)⟩
    · exact .inl ⟨p, ⟨t, ht, hp⟩, .inr (.inr h.symm)⟩
    · exact .inr ⟨p, hp, .inl (by rw [h])⟩
    · exact .inr ⟨p, hp, .inr (by rw [h])⟩

theorem CompletedPayees.finds {env : Env} {decl l : NList PayeeDef} {used : Str → Prop}
    (h : CompletedPayees env decl l used) {n : Str} (hn : used n) : ∃ x, l.get env.lower n = .ok x := by
  by_cases hd : Declared env.lower decl n
  · obtain ⟨x, hx⟩ := hd
    exact ⟨x, h.declared n x hx⟩
  · obtain ⟨m, _, _, ⟨_, x, hx, _⟩ | ⟨_, _, x, hx, _⟩⟩ := h.added n hn hd <;> exact ⟨x, hx⟩

/-- Booking keeps a posting with an amount. -/
theorem Posts.some_mem {skip : Bool} {start : Str → Cur → Rat} {ps qs : List Posting} (h : Posts skip start ps qs)
    {p : Posting} (hp : p ∈ ps) (hk : p.kind = .real) (ha : p.amount.isSome) : qs ≠ [] := by
  induction h with
  | nil => cases hp
  | other hn _ ih =>
    rcases List.mem_cons.mp hp with rfl | hp
    · exact absurd hk hn
    · exact ih hp
  | elided he _ ih =>
    rcases List.mem_cons.mp hp with rfl | hp
    · rw [he.2.1] at ha; cases ha
    · exact ih hp
  | given _ _ _ _ _ => simp
  | assigned _ _ _ _ _ _ _ _ => simp

theorem Enters.nonempty {skip : Bool} {start : Str → Cur → Rat} {t : Txn Posting} {es : List Posting}
    (h : Enters skip start t es) {p : Posting} (hp : p ∈ t.postings) (ha : p.amount.isSome) : es ≠ [] := by
  obtain ⟨qs, gen, h1, rfl, _⟩ := h
  by_cases hk : p.kind = .real
  · have := h1.some_mem hp hk ha
    simp [this]
  · intro he
    have : p ∈ t.postings.filter (fun p => p.kind ≠ .real) := List.mem_filter.mpr ⟨hp, by simpa using hk⟩
    simp only [List.append_eq_nil_iff] at he
    rw [he.2] at this
    cases this

theorem BookedAs.nonempty {skip : Bool} {start : Str → Cur → Rat} {ts ts' : List (Txn Posting)}
    (h : BookedAs skip start ts ts') {t : Txn Posting} (ht : t ∈ ts) {p : Posting} (hp : p ∈ t.postings)
    (ha : p.amount.isSome) : ∃ t' ∈ ts', t'.postings ≠ [] := by
  induction h with
  | nil => cases ht
  | @cons start t0 es t0' ts ts' h1 _ h3 _ ih =>
    rcases List.mem_cons.mp ht with rfl | ht
    · refine ⟨t0', by simp, ?_⟩
      intro he
      rw [he] at h3
      cases h3
      exact h1.nonempty hp ha rfl
    · obtain ⟨t', h4, h5⟩ := ih ht
      exact ⟨t', by simp [h4], h5⟩

theorem buildLedger_automate {env : Env} {o : LedgerOrders} {skip : Bool} {pl : ParsedLedger} {l : Lists}
    {L : Ledger} (h : buildLedger env o skip pl l = .ok L) (hne : pl.automated ≠ []) :
    ∃ booked rules applied, RuleNodes env pl.automated rules ∧
      automate env rules booked l = .ok (applied, ⟨L.accounts, L.payees, L.commodities⟩) ∧
      ((∃ t ∈ pl.regular, ∃ p ∈ t.postings, p.moneyCurrency.isSome) →
        ∃ t ∈ booked, ∃ p ∈ t.postings, p.origin = .fromTransaction) := by
  obtain ⟨listed, converted, booked, bals, rs, b1, b2, b3, b4, b5, _, ⟨L0, b6, b7⟩, _⟩ := buildLedger_booked h
  obtain ⟨dp, txns, autos, cp, sorted, ts, ip, ts', ap, l', hd, hc, hs, hbp, hap, rfl⟩ := buildLedger_inv h
  have hts : ts = booked := by
    obtain ⟨dp', txns', autos', cp', sorted', ts0, ip', ts0', ap', l0', hd', hc', hs', hbp', hap', rfl⟩ := buildLedger_inv b6
    obtain ⟨_, heq⟩ := convertAll_eq hc
    obtain ⟨_, heq'⟩ := convertAll_eq hc'
    simp only [Prod.mk.injEq] at heq heq'
    obtain ⟨rfl, rfl, rfl⟩ := heq
    obtain ⟨rfl, rfl, rfl⟩ := heq'
    have hra : (pl.regular).filter (fun t => t.ttype = .automated) = [] := by
      rw [List.filter_eq_nil_iff]
      intro t ht hh
      have := (List.mem_filter.mp ht).2
      simp only [decide_eq_true_eq] at this hh
      rw [this] at hh; cases hh
    have hrr : (pl.regular).filter (fun t => t.ttype = .real) = pl.regular := by
      unfold ParsedLedger.regular; rw [List.filter_filter]; simp
    simp only [hra, hrr] at hs' hap'
    have hs0 : sortByDate (pl.regular.map (fun t => (convOf env o.unknown l t).1)) = .ok sorted := hs
    rw [hs0] at hs'
    cases hs'
    rw [hbp] at hbp'
    cases hbp'
    unfold automatedPass at hap'
    rw [if_neg (by simp)] at hap'
    cases hap'
    exact b7
  subst hts
  obtain ⟨_, heq⟩ := convertAll_eq hc
  simp only [Prod.mk.injEq] at heq
  obtain ⟨rfl, rfl, rfl⟩ := heq
  unfold automatedPass at hap
  rw [if_pos (by exact List.length_pos_iff.mpr hne)] at hap
  split at hap
  · cases hap
  · next rules hru =>
    split at hap
    · cases hap
    · next ts1 l1 hau =>
      split at hap
      · cases hap
      · cases hap
        refine ⟨ts, rules, ts1, ruleNodes_spec _ hru, hau, ?_⟩
        rintro ⟨raw, hraw, p, hp, hm⟩
        have horig := balanceAll_origin converted (initialBalances_ok _) b3 (by
          intro t ht p hp
          obtain ⟨raw, _, _, _, hw⟩ := Forall₂.mem_right b2 ht
          obtain ⟨_, _, hpw⟩ := Forall₂.mem_right hw hp
          exact hpw.origin) b4
        have hbk := bookedAs_of_balanceAll converted (initialBalances_ok _) b3 b4
        obtain ⟨t, ht, _, _, hw⟩ := Forall₂.mem_left b2 (b1.perm.mem_iff.mpr hraw)
        obtain ⟨q, hq, hqw⟩ := Forall₂.mem_left hw hp
        have hqa : q.amount.isSome := by
          rcases hqw.amount with ⟨e, _⟩ | ⟨_, _, _, _, _, _, e⟩
          · rw [e] at hm; cases hm
          · rw [e]; rfl
        obtain ⟨t', ht', hne'⟩ := hbk.nonempty ht hq hqa
        obtain ⟨x, hx⟩ := List.exists_mem_of_ne_nil _ hne'
        rw [← b5] at ht' horig
        exact ⟨t', ht', x, hx, horig t' ht' x hx⟩

/-- The names of the ledger of a journal, with or without automated transactions. -/
theorem ledger_names {r : Run} {skip : Bool} {path : Str} {pl : ParsedLedger} {L : Ledger}
    (h : r.journal path = .ok pl) (hl : r.ledger skip path = .ok L) :
    ∃ used, Completed r.env.lower pl.lists.accounts L.accounts pl.usesAccount ∧
      CompletedPayees r.env pl.lists.payees L.payees pl.usesPayee ∧
      Completed r.env.lower pl.lists.commodities L.commodities used ∧
      (∀ c, pl.usesCommodity c → used c) ∧
      (∀ c, used c → pl.usesCommodity c ∨ pl.conditionNames r.env c ∨ pl.formulaNames r.env c) ∧
      ((∃ t ∈ pl.regular, ∃ p ∈ t.postings, p.moneyCurrency.isSome) → ∀ c, pl.conditionNames r.env c → used c) := by
  have hok := (C83_wellformed h).1
  unfold Run.ledger at hl
  rw [h] at hl
  simp only at hl
  cases ht : toLedger r.env r.orders skip pl with
  | error e => rw [ht] at hl; cases hl
  | ok L' =>
    rw [ht] at hl; cases hl
    obtain ⟨l, hp, hb⟩ := toLedger_inv ht
    have hN := populate_names hok.lists hp
    by_cases hne : pl.automated = []
    · obtain ⟨_, _, _, _, _, _, _, _, _, _, h6, _⟩ := buildLedger_booked hb
      obtain ⟨_, e1, e2, e3⟩ := h6 hne
      refine ⟨pl.usesCommodity, by rw [e1]; exact hN.accounts, by rw [e2]; exact hN.payees, by rw [e3]; exact hN.commodities,
        fun _ h => h, fun _ h => .inl h, ?_⟩
      rintro _ c ⟨a, ha, _⟩
      rw [hne] at ha; cases ha
    · obtain ⟨booked, rules, applied, a1, a2, a3⟩ := buildLedger_automate hb hne
      obtain ⟨seen, s1, s2⟩ := populate_adding hok.lists hp
      have hmem : ∀ q ∈ rules, q.1 ∈ pl.automated ∧ buildRoot r.env (getFilterQuery r.env q.1.description none).1 = .ok q.2 := by
        intro q hq
        obtain ⟨a, ha, rfl, hn⟩ := Forall₂.mem_right a1 hq
        exact ⟨ha, hn⟩
      have hK : Keeping r.env pl.lists.commodities
          (fun c => pl.usesCommodity c ∨ pl.conditionNames r.env c ∨ pl.formulaNames r.env c) l l seen :=
        ⟨rfl, rfl, s1, fun c hc => .inl ((s2 c).mp hc)⟩
      obtain ⟨more, m1, m2⟩ := automate_keeping (rules := rules) (by
        intro q hq rp hrp
        obtain ⟨q1, q2⟩ := hmem q hq
        have hq1 := (List.mem_filter.mp q1).1
        refine ⟨?_, fun n hn => hN.payees.finds ⟨q.1, hq1, rp, hrp, hn⟩,
          fun c hc => .inl (.inl ⟨q.1, hq1, rp, hrp, .inl hc⟩),
          fun e node e1 e2 e3 c hc => .inr (.inr ⟨q.1, q1, rp, hrp, e, node, e1, e2, e3, hc⟩)⟩
        obtain ⟨_, x, hx, _⟩ := hN.accounts.finds ⟨q.1, hq1, rp, hrp, rfl⟩
        exact ⟨x, hx⟩) (by
        intro q hq c hc
        obtain ⟨q1, q2⟩ := hmem q hq
        exact .inr (.inl ⟨q.1, q1, q.2, q2, hc⟩)) booked hK a2
      have e1 : L.accounts = l.accounts := m1.accounts
      have e2 : L.payees = l.payees := m1.payees
      refine ⟨fun c => c ∈ seen ++ more, by rw [e1]; exact hN.accounts, by rw [e2]; exact hN.payees,
        m1.commodities.completed (fun _ => rfl) (fun _ => Iff.rfl), fun c hc => ?_, m1.allowed, ?_⟩
      · exact List.mem_append_left _ ((s2 c).mpr hc)
      · rintro hex c ⟨a, ha, node, hn, hc⟩
        obtain ⟨q, hq, rfl, hq2⟩ := Forall₂.mem_left a1 ha
        rw [hn] at hq2
        cases hq2
        exact m2 (a3 hex) q hq c hc

end Dinero
