import Verif.Spec.Typing
import Verif.Lemmas.Rulework
import Verif.Props.Expr
/-
Lemmas on expressions that make sense: they have a value.
-/
namespace Dinero

theorem unaryType_sound {env : Env} {p : Posting} {op : UnaryOp} {v : Val} {a ty : Ty} {only : Option Cur}
    (hop : op ≠ .any) (hv : v.Of only a) (h : unaryType op a = some ty) :
    ∃ w, evalUnary env p op v = .ok w ∧ w.Of only ty := by
  cases hv with
  | money m hm =>
    cases op <;> cases h
    · exact ⟨_, rfl, .money _ (by intro d hd; have := hm d hd; cases m <;> exact this)⟩
    · cases m with
      | zero => exact ⟨_, rfl, .money _ (by intro d hd; exact .inl rfl)⟩
      | mk x c => exact ⟨_, rfl, .money _ (by intro d hd; exact hm d hd)⟩
  | text s => cases op <;> cases h; exact ⟨_, rfl, .maybe _⟩
  | regex s =>
    cases op <;> cases h
    · exact ⟨_, rfl, .bool _⟩
    · exact ⟨_, rfl, .maybe _⟩
  | bool b =>
    cases op <;> cases h
    · exact ⟨_, rfl, .bool _⟩
    · exact ⟨_, rfl, .bool _⟩
    · exact absurd rfl hop
  | number r =>
    cases op <;> cases h
    · exact ⟨_, rfl, .number _⟩
    · exact ⟨_, rfl, .number _⟩
  | _ => cases op <;> cases h

theorem unwrapMoney_mono {b : Balance} (hb : b.Reachable) {d : Cur} (h : ∀ c, c ≠ d → b.amountOf c = 0) :
    ∃ m, b.toMoney = .ok m ∧ (m.commodity = none ∨ m.commodity = some d) := by
  obtain ⟨m, hm⟩ := (C04_toMoney hb).2.1.mpr (by
    intro k k' hk hk'
    have e1 : k = d := by by_contra hne; exact hk (h k hne)
    have e2 : k' = d := by by_contra hne; exact hk' (h k' hne)
    rw [e1, e2])
  refine ⟨m, hm, ?_⟩
  cases m with
  | zero => exact .inl rfl
  | mk x c =>
    by_cases hc : c = d
    · exact .inr (by rw [hc]; rfl)
    · have := (C04_toMoney hb).1 _ hm c
      rw [h c hc] at this
      simp at this
      rcases toMoney_bare hm with h0 | h0
      · cases h0
      · simp [Money.amount, ← this] at h0

theorem amountIn_other {m : Money} {d : Cur} (h : m.commodity = none ∨ m.commodity = some d) {c : Cur} (hc : c ≠ d) :
    m.amountIn c = 0 := by
  cases m with
  | zero => rfl
  | mk x k =>
    rcases h with h | h
    · cases h
    · cases h; simp [hc.symm]

theorem addSub_mono {l r : Money} {d : Cur} (hl : l.commodity = none ∨ l.commodity = some d)
    (hr : r.commodity = none ∨ r.commodity = some d) (isAdd : Bool) :
    ∃ m, (if isAdd then Money.add l r else Money.sub l r).toMoney = .ok m ∧ (m.commodity = none ∨ m.commodity = some d) := by
  cases isAdd with
  | true =>
    refine unwrapMoney_mono (.add (.ofMoney _) (.ofMoney _)) fun c hc => ?_
    have := C01_money_add l r c
    rw [amountIn_other hl hc, amountIn_other hr hc, add_zero] at this
    exact this
  | false =>
    refine unwrapMoney_mono (.sub (.ofMoney _) (.ofMoney _)) fun c hc => ?_
    have := (C03_money l r c).2.2
    rw [amountIn_other hl hc, amountIn_other hr hc, sub_zero] at this
    exact this

theorem cmp_mono {l r : Money} {d : Cur} (hl : l.commodity = none ∨ l.commodity = some d)
    (hr : r.commodity = none ∨ r.commodity = some d) : ∃ o, Money.cmp l r = .ok o := by
  unfold Money.cmp
  rcases hl with hl | hl <;> rcases hr with hr | hr <;> simp [hl, hr]

theorem evalCmp_sound {test : Ordering → Bool} {v w : Val} {a b : Ty} {only : Option Cur} (hv : v.Of only a)
    (hw : w.Of only b) (h : a ≠ .money ∨ b ≠ .money ∨ only.isSome) : ∃ x, evalCmp test v w = .ok (.bool x) := by
  unfold evalCmp
  cases hv with
  | money l hl =>
    cases hw with
    | money r hr =>
      obtain ⟨d, hd⟩ := Option.isSome_iff_exists.mp (by simpa using h)
      obtain ⟨o, ho⟩ := cmp_mono (hl d hd) (hr d hd)
      simp only [Val.partialCmp, ho]
      exact ⟨_, rfl⟩
    | _ => exact ⟨_, rfl⟩
  | _ => cases hw <;> exact ⟨_, rfl⟩

theorem binaryType_sound {env : Env} {t : Txn Posting} {op : BinaryOp} {v w : Val} {a b ty : Ty} {only : Option Cur}
    (hdiv : op = .div → ∃ r, w = .number r ∧ r ≠ 0) (hv : v.Of only a) (hw : w.Of only b)
    (h : binaryType only.isSome op a b = some ty) :
    ∃ x, evalBinary env t op v w = .ok x ∧ x.Of only ty := by
  have hcmp : ∀ test, (if (a.numeric ∧ b.numeric ∧ (only.isSome ∨ a = .number ∨ b = .number)) ∨ (a.textual ∧ b.textual) ∨
        (a = .date ∧ b = .date) then some Ty.bool else none) = some ty →
      ∃ x, evalCmp test v w = .ok x ∧ x.Of only ty := by
    clear h
    intro test h
    split at h
    · next hc =>
      cases h
      obtain ⟨x, hx⟩ := evalCmp_sound (test := test) hv hw (by
        rcases hc with ⟨_, _, h1 | h1 | h1⟩ | h1 | h1
        · exact .inr (.inr h1)
        · exact .inl (by rw [h1]; decide)
        · exact .inr (.inl (by rw [h1]; decide))
        · exact .inl (by rintro rfl; cases h1.1)
        · exact .inl (by rw [h1.1]; decide))
      exact ⟨_, hx, .bool _⟩
    · cases h
  have has : ∀ isAdd, (if a = .number ∧ b = .number then some Ty.number
        else if a = .money ∧ b = .money ∧ only.isSome then some .money else none) = some ty →
      ∃ x, evalAddSub isAdd v w = .ok x ∧ x.Of only ty := by
    clear h hcmp
    intro isAdd h
    split at h
    · next hc =>
      obtain ⟨rfl, rfl⟩ := hc
      cases h; cases hv; cases hw
      exact ⟨_, rfl, .number _⟩
    · split at h
      · next hc =>
        obtain ⟨rfl, rfl, ho⟩ := hc
        cases h
        cases hv with
        | money l hl =>
        cases hw with
        | money r hr =>
        obtain ⟨d, hd⟩ := Option.isSome_iff_exists.mp ho
        obtain ⟨m, hm, hmd⟩ := addSub_mono (hl d hd) (hr d hd) isAdd
        refine ⟨.money m, ?_, .money _ ?_⟩
        · simp only [evalAddSub, unwrapMoney, hm]
        · intro d' hd'; rw [hd] at hd'; cases hd'; exact hmd
      · cases h
  cases op with
  | add => exact has true h
  | subtract => exact has false h
  | lt => exact hcmp _ h
  | gt => exact hcmp _ h
  | le => exact hcmp _ h
  | ge => exact hcmp _ h
  | or =>
    simp only [binaryType] at h
    split at h
    · next hc =>
      obtain ⟨rfl, rfl⟩ := hc
      cases h
      cases hv with
      | bool x =>
      cases hw with
      | bool y => cases x <;> exact ⟨_, rfl, .bool _⟩
    · cases h
  | and =>
    simp only [binaryType] at h
    split at h
    · next hc =>
      obtain ⟨rfl, rfl⟩ := hc
      cases h
      cases hv with
      | bool x =>
      cases hw with
      | bool y => cases x <;> exact ⟨_, rfl, .bool _⟩
    · cases h
  | eq =>
    simp only [binaryType] at h
    split at h
    · next hc =>
      cases h
      cases hv <;> cases hw <;> first
        | exact ⟨_, rfl, .bool _⟩
        | (simp [Ty.matchable, Ty.numeric, Ty.textual] at hc; done)
        | (next s _ => cases s <;> exact ⟨_, rfl, .bool _⟩)
    · cases h
  | mult =>
    simp only [binaryType] at h
    split at h
    · next hc =>
      obtain ⟨rfl, rfl⟩ := hc
      cases h; cases hv; cases hw
      exact ⟨_, rfl, .number _⟩
    · split at h
      · next hc =>
        cases h
        rcases hc with ⟨rfl, rfl⟩ | ⟨rfl, rfl⟩
        · cases hv
          cases hw with
          | money r hr => exact ⟨_, rfl, .money _ (by intro d hd; have := hr d hd; cases r <;> exact this)⟩
        · cases hw
          cases hv with
          | money r hr => exact ⟨_, rfl, .money _ (by intro d hd; have := hr d hd; cases r <;> exact this)⟩
      · cases h
  | div =>
    obtain ⟨q, rfl, hq⟩ := hdiv rfl
    simp only [binaryType] at h
    split at h
    · next hc =>
      cases h
      cases hv with
      | number x => exact ⟨.number (x / q), by simp [evalBinary, evalDiv, ratDiv, hq], .number _⟩
      | money m hm =>
        cases m with
        | zero => exact ⟨_, by simp only [evalBinary, evalDiv, Money.div, hq]; rfl, .money _ (by intro d hd; exact .inl rfl)⟩
        | mk x c =>
          exact ⟨.money (.mk (x / q) c), by simp [evalBinary, evalDiv, Money.div, Money.mul, hq, div_eq_mul_inv],
            .money _ (by intro d hd; exact hm d hd)⟩
      | _ => cases hc.1
    · cases h

/-! ### An expression that makes sense has a value -/

theorem Ast.FitsPosting.left {l r : Ast} {op : BinaryOp} {only : Option Cur} {p : Posting}
    (h : (Ast.binary op l r).FitsPosting only p) : l.FitsPosting only p :=
  ⟨fun e => h.amount (by simp [Ast.has, e]), fun e => h.payee (by simp [Ast.has, e])⟩

theorem Ast.FitsPosting.right {l r : Ast} {op : BinaryOp} {only : Option Cur} {p : Posting}
    (h : (Ast.binary op l r).FitsPosting only p) : r.FitsPosting only p :=
  ⟨fun e => h.amount (by simp [Ast.has, e]), fun e => h.payee (by simp [Ast.has, e])⟩

theorem Ast.FitsPosting.child {c : Ast} {op : UnaryOp} {only : Option Cur} {p : Posting}
    (h : (Ast.unary op c).FitsPosting only p) : c.FitsPosting only p := ⟨h.amount, h.payee⟩

theorem Ast.Written.kept {n : Ast} {env : Env} {only : Option Cur} {a b : Commodities} (h : n.Written env only a)
    (hk : LookupsKept env a b) : n.Written env only b := by
  intro d hd c hc
  obtain ⟨x, hx, hn⟩ := h d hd c hc
  exact ⟨x, hk c x hx, hn⟩

theorem get_not_panic {env : Env} {st : Commodities} (hr : st.Reachable env.lower) (c : Str) (w : String) :
    st.get env.lower c ≠ .error (.panic w) := by
  rcases C32_get_total hr c with ⟨x, hx⟩ | hx <;> rw [hx] <;> simp

theorem type_sound {env : Env} {t : Txn Posting} {only : Option Cur} (n : Ast) :
    ∀ {p : Posting} {st : Commodities} {ty : Ty}, n.FitsTxn only t → n.FitsPosting only p → n.Written env only st →
      st.Reachable env.lower → n.type env only.isSome = some ty →
      ∃ v st', eval env t n p st = .ok (v, st') ∧ v.Of only ty := by
  induction n with
  | amount =>
    intro p st ty _ hp _ _ h
    cases h
    obtain ⟨m, hm, hd⟩ := hp.amount rfl
    exact ⟨_, st, by simp only [eval, hm], .money m hd⟩
  | account => intro p st ty _ _ _ _ h; cases h; exact ⟨_, st, rfl, .account _⟩
  | payee =>
    intro p st ty _ hp _ _ h
    cases h
    obtain ⟨n, hn⟩ := Option.isSome_iff_exists.mp (hp.payee rfl)
    exact ⟨_, st, by simp only [eval, hn], .payee n⟩
  | note => intro p st ty _ _ _ _ h; cases h; exact ⟨_, st, rfl, .note⟩
  | date =>
    intro p st ty ht _ _ _ h
    cases h
    obtain ⟨n, hn⟩ := Option.isSome_iff_exists.mp (ht.date rfl)
    exact ⟨_, st, by simp only [eval, hn], .date n⟩
  | number r => intro p st ty _ _ _ _ h; cases h; exact ⟨_, st, rfl, .number _⟩
  | regex r => intro p st ty _ _ _ _ h; cases h; exact ⟨_, st, rfl, .regex _⟩
  | string r => intro p st ty _ _ _ _ h; cases h; exact ⟨_, st, rfl, .text _⟩
  | money c a =>
    intro p st ty _ _ hw hr h
    cases h
    cases hg : st.get env.lower c with
    | ok x =>
      refine ⟨.money (.mk a x.name), st, by simp only [eval, evalMoney, hg], .money _ ?_⟩
      intro d hd
      obtain ⟨x', hx', hn⟩ := hw d hd c (by simp [Ast.commodities])
      rw [hg] at hx'; cases hx'
      exact .inr (by rw [← hn]; rfl)
    | error e =>
      cases e with
      | panic w => exact absurd hg (get_not_panic hr c w)
      | error e =>
        refine ⟨.money (.mk a c), st.insert env.lower { name := c }, by simp only [eval, evalMoney, hg], .money _ ?_⟩
        intro d hd
        obtain ⟨x', hx', hn⟩ := hw d hd c (by simp [Ast.commodities])
        rw [hg] at hx'; cases hx'
  | unary op c ih =>
    intro p st ty ht hp hw hr h
    have ht' : c.FitsTxn only t := ⟨ht.date, fun q hq => (ht.postings q hq).child⟩
    by_cases hs : op = .toDate ∧ ∃ s, c = .string s
    · obtain ⟨rfl, s, rfl⟩ := hs
      simp only [Ast.type] at h
      split at h
      · next hd =>
        cases h
        obtain ⟨d, hd⟩ := Option.isSome_iff_exists.mp hd
        exact ⟨_, st, by simp only [eval, evalUnary, hd], .date d⟩
      · cases h
    · have h' : (c.type env only.isSome).bind (unaryType op) = some ty := by
        rw [Ast.type.eq_def] at h
        split at h <;> first
          | (next heq => cases heq; exact absurd ⟨rfl, _, rfl⟩ hs)
          | (next heq => cases heq; exact h)
          | (next heq => cases heq)
      obtain ⟨a, ha, hu⟩ := Option.bind_eq_some_iff.mp h'
      obtain ⟨v, s1, h1, hv⟩ := ih ht' hp.child hw hr ha
      by_cases hany : op = .any
      · subst hany
        have hty : a = .bool ∧ ty = .bool := by cases a <;> cases hu; exact ⟨rfl, rfl⟩
        obtain ⟨rfl, rfl⟩ := hty
        simp only [eval, h1]
        have loop : ∀ (ps : List Posting) (s : Commodities), (∀ q ∈ ps, q ∈ t.postings) → LookupsKept env st s →
            s.Reachable env.lower →
            ∃ v s', anyLoop (fun q s => eval env t c q s) ps s = .ok (v, s') ∧ v.Of only .bool := by
          intro ps
          induction ps with
          | nil => intro s _ _ _; exact ⟨_, s, rfl, .bool _⟩
          | cons q ps ihp =>
            intro s hq hk hrs
            obtain ⟨v, s2, h2, hv2⟩ := ih (p := q) (st := s) ht' (ht'.postings q (hq q (by simp)))
              (Ast.Written.kept (n := c) hw hk) hrs ha
            have next := ihp s2 (fun x hx => hq x (by simp [hx])) (hk.trans (eval_kept env t c q s _ _ h2))
              (eval_reachable c hrs h2)
            simp only [anyLoop, h2]
            cases hv2 with
            | bool b => cases b with
              | true => exact ⟨_, s2, rfl, .bool _⟩
              | false => exact next
        exact loop t.postings s1 (fun _ h => h) (eval_kept env t c p st _ _ h1) (eval_reachable c hr h1)
      · obtain ⟨w, hw', hwt⟩ := unaryType_sound (env := env) (p := p) hany hv hu
        refine ⟨w, s1, ?_, hwt⟩
        simp only [eval, h1]
        cases op <;> first | exact absurd rfl hany | simp only [hw']
  | binary op l r ihl ihr =>
    intro p st ty ht hp hw hr h
    simp only [Ast.type] at h
    split at h
    · cases h
    · next hdiv =>
      obtain ⟨a, ha, h0⟩ := Option.bind_eq_some_iff.mp h
      obtain ⟨b, hb, hty⟩ := Option.bind_eq_some_iff.mp h0
      obtain ⟨v, s1, h1, hv⟩ := ihl (p := p) (st := st) ⟨fun e => ht.date (by simp [Ast.has, e]), fun q hq => (ht.postings q hq).left⟩
        hp.left (fun d hd c hc => hw d hd c (by simp [Ast.commodities, hc])) hr ha
      obtain ⟨w, s2, h2, hw2⟩ := ihr (p := p) (st := s1) ⟨fun e => ht.date (by simp [Ast.has, e]), fun q hq => (ht.postings q hq).right⟩
        hp.right (Ast.Written.kept (fun d hd c hc => hw d hd c (by simp [Ast.commodities, hc])) (eval_kept env t l p st _ _ h1))
        (eval_reachable l hr h1) hb
      obtain ⟨x, hx, hxt⟩ := binaryType_sound (env := env) (t := t) (by
        rintro rfl
        cases r <;> simp [Ast.divisor] at hdiv
        next q => cases h2; exact ⟨q, rfl, hdiv⟩) hv hw2 hty
      exact ⟨x, s2, by simp only [eval, h1, h2, hx], hxt⟩

/-! ### Rules that make sense apply -/

/-- The money is in the commodity `only`, if there is one, or is nothing at all. -/
def Money.In (only : Option Cur) (m : Money) : Prop := ∀ d, only = some d → m.commodity = none ∨ m.commodity = some d

/-- The only commodity, if there is one, is known under its name. -/
def Known (env : Env) (only : Option Cur) (st : Commodities) : Prop :=
  ∀ d, only = some d → ∃ x, st.get env.lower d = .ok x ∧ x.name = d

/-- What the rules need to find in a posting. -/
structure Rich (asks factor : Prop) (only : Option Cur) (q : Posting) : Prop where
  payee : q.payee.isSome
  amount : asks → ∃ m, q.amount = some m ∧ m.In only
  own : factor → q.origin = .fromTransaction → ∃ x c, q.amount = some (.mk x c)
  money : ∀ m, q.amount = some m → m.In only

theorem Known.kept {env : Env} {only : Option Cur} {a b : Commodities} (h : Known env only a)
    (hk : ∀ c x, a.get env.lower c = .ok x → b.get env.lower c = .ok x) : Known env only b := by
  intro d hd
  obtain ⟨x, hx, hn⟩ := h d hd
  exact ⟨x, hk _ _ hx, hn⟩

theorem Ast.HasType.written {env : Env} {only : Option Cur} {n : Ast} {ty : Ty} {st : Commodities}
    (h : n.HasType env only ty) (hk : Known env only st) : n.Written env only st := by
  intro d hd c hc
  rw [h.2 d hd c hc]
  exact hk d hd

theorem Rich.fits {asks factor : Prop} {only : Option Cur} {q : Posting} (h : Rich asks factor only q) {n : Ast}
    (hn : n.has .amount = true → asks) : n.FitsPosting only q :=
  ⟨fun e => h.amount (hn e), fun _ => h.payee⟩

theorem filter_typed {env : Env} {asks factor : Prop} {only : Option Cur} {n : Ast} {t : Txn Posting} {p : Posting}
    {st : Commodities} (h : n.HasType env only .bool) (hn : n.has .amount = true → asks) (hd : t.date.isSome)
    (ht : ∀ q ∈ t.postings, Rich asks factor only q) (hp : Rich asks factor only p) (hr : st.Reachable env.lower)
    (hk : Known env only st) :
    ∃ b st', filterExpression env t n p st = .ok (b, st') ∧ st'.Reachable env.lower ∧ Known env only st' := by
  obtain ⟨v, st', he, hv⟩ := type_sound (env := env) (t := t) (only := only) n (p := p) (st := st)
    ⟨fun _ => hd, fun q hq => (ht q hq).fits hn⟩ (hp.fits hn) (h.written hk) hr h.1
  cases hv with
  | bool b =>
    refine ⟨b, st', ?_, eval_reachable n hr he, hk.kept (eval_kept env t n p st _ _ he)⟩
    unfold filterExpression
    rw [he]

/-- The posting of a rule, as far as it makes sense. -/
def RawPosting.Sound (env : Env) (asks factor : Prop) (only : Option Cur) (rp : RawPosting) : Prop :=
  rp.payee = none ∧
    ((∃ c a, rp.moneyCurrency = some c ∧ rp.moneyAmount = some a ∧ (c = [] → factor) ∧
      (∀ d, only = some d → c = [] ∨ c = d)) ∨
     (rp.moneyCurrency = none ∧ asks ∧ ∃ e n, rp.amountExpr = some e ∧ buildRoot env e = .ok n ∧
      (n.HasType env only .number ∨ n.HasType env only .money)))

theorem ruleMoney_typed {env : Env} {asks factor : Prop} {only : Option Cur} {t : Txn Posting} {p : Posting}
    {rp : RawPosting} {st : Commodities} (h : rp.Sound env asks factor only) (hd : t.date.isSome)
    (ht : ∀ q ∈ t.postings, Rich asks factor only q) (hp : Rich asks factor only p) (ho : p.origin = .fromTransaction)
    (hr : st.Reachable env.lower) (hk : Known env only st) :
    ∃ m st', ruleMoney env t p rp st = .ok (m, st') ∧ m.In only := by
  obtain ⟨_, ⟨c, a, h1, h2, h3, h4⟩ | ⟨h1, hasks, e, n, h2, h3, h4⟩⟩ := h
  · unfold ruleMoney
    rw [h1, h2]
    cases c with
    | nil =>
      obtain ⟨x, d, hx⟩ := hp.own (h3 rfl) ho
      rw [hx]
      refine ⟨.mk (x * a) d, st, rfl, ?_⟩
      intro k hk
      exact hp.money _ hx k hk
    | cons k c =>
      obtain ⟨cs', e1, _, e2, y, hy⟩ := ensure_spec (make := currencyOf) (fun _ => rfl) (fun _ => rfl) hr (k :: c)
      simp only [e1, commodityNamed, hy]
      refine ⟨_, _, rfl, ?_⟩
      intro d hd
      rcases h4 d hd with h | rfl
      · cases h
      · obtain ⟨x, hx, hxn⟩ := hk _ hd
        rw [e2 _ _ hx] at hy
        cases hy
        exact .inr (by rw [← hxn]; rfl)
  · unfold ruleMoney evalValueExpression
    rw [h1, h2]
    simp only [h3]
    unfold evalAmountNode
    rcases h4 with h4 | h4
    · obtain ⟨v, st', he, hv⟩ := type_sound (env := env) (t := t) (only := only) n (p := p) (st := st)
        ⟨fun _ => hd, fun q hq => (ht q hq).fits (fun _ => hasks)⟩ (hp.fits (fun _ => hasks)) (h4.written hk) hr h4.1
      cases hv with
      | number x =>
        obtain ⟨m, hm, hin⟩ := hp.amount hasks
        rw [he]
        simp only [hm]
        refine ⟨_, _, rfl, ?_⟩
        intro d hd
        have := hin d hd
        cases m <;> exact this
    · obtain ⟨v, st', he, hv⟩ := type_sound (env := env) (t := t) (only := only) n (p := p) (st := st)
        ⟨fun _ => hd, fun q hq => (ht q hq).fits (fun _ => hasks)⟩ (hp.fits (fun _ => hasks)) (h4.written hk) hr h4.1
      cases hv with
      | money m hm =>
        rw [he]
        exact ⟨_, _, rfl, hm⟩

theorem rulePosting_typed {env : Env} {asks factor : Prop} {only : Option Cur} {t : Txn Posting} {p : Posting}
    {rp : RawPosting} {l : Lists} (h : rp.Sound env asks factor only) (hd : t.date.isSome)
    (ht : ∀ q ∈ t.postings, Rich asks factor only q) (hp : Rich asks factor only p) (ho : p.origin = .fromTransaction)
    (hr : l.Ok env.lower) (hk : Known env only l.commodities) :
    ∃ q l', rulePosting env t p rp l = .ok (q, l') ∧ Rich asks factor only q := by
  obtain ⟨as, e1, _, _, y, hy⟩ := ensure_spec (make := accountOf) (fun _ => rfl) (fun _ => rfl) hr.accounts rp.account
  obtain ⟨m, cs, hm, hin⟩ := ruleMoney_typed h hd ht hp ho hr.commodities hk
  unfold rulePosting
  simp only [e1, rulePayee, h.1, hy, hm]
  exact ⟨_, _, rfl, hp.payee, fun _ => ⟨m, rfl, hin⟩, fun _ h => (by cases h), fun m' hm' => by cases hm'; exact hin⟩

theorem rulePostings_typed {env : Env} {asks factor : Prop} {only : Option Cur} {t : Txn Posting} {p : Posting}
    (rps : List RawPosting) {l : Lists} (h : ∀ rp ∈ rps, rp.Sound env asks factor only) (hd : t.date.isSome)
    (ht : ∀ q ∈ t.postings, Rich asks factor only q) (hp : Rich asks factor only p) (ho : p.origin = .fromTransaction)
    (hr : l.Ok env.lower) (hk : Known env only l.commodities) :
    ∃ qs l', rulePostings env t p rps l = .ok (qs, l') ∧ ∀ q ∈ qs, Rich asks factor only q := by
  induction rps generalizing l with
  | nil => exact ⟨[], l, rfl, fun q hq => (by cases hq)⟩
  | cons rp rps ih =>
    obtain ⟨q, l1, h1, hq⟩ := rulePosting_typed (h rp (by simp)) hd ht hp ho hr hk
    obtain ⟨qs, l2, h2, hqs⟩ := ih (fun r h' => h r (by simp [h'])) (rulePosting_reachable hr h1)
      (hk.kept (rulePosting_spec h1).2.commodities)
    unfold rulePostings
    simp only [h1, h2]
    refine ⟨_, _, rfl, ?_⟩
    intro x hx
    rcases List.mem_cons.mp hx with rfl | hx
    · exact hq
    · exact hqs x hx

theorem Rich.tag {asks factor : Prop} {only : Option Cur} {q : Posting} (h : Rich asks factor only q) (tags : List Tag) :
    Rich asks factor only { q with tags := tags } := ⟨h.payee, h.amount, h.own, h.money⟩

theorem ruleLoop_typed {env : Env} {asks factor : Prop} {only : Option Cur} {node : Ast} {rule : Txn RawPosting}
    {t : Txn Posting} (hn : node.HasType env only .bool) (ha : node.has .amount = true → asks)
    (h : ∀ rp ∈ rule.postings, rp.Sound env asks factor only) (hd : t.date.isSome) (todo : List Posting)
    {done extra : List Posting} {l : Lists} (h1 : ∀ q ∈ done, Rich asks factor only q)
    (h2 : ∀ q ∈ todo, Rich asks factor only q) (h3 : ∀ q ∈ extra, Rich asks factor only q) (hr : l.Ok env.lower)
    (hk : Known env only l.commodities) :
    ∃ ps ex l', ruleLoop env node rule t done todo extra l = .ok (ps, ex, l') ∧
      (∀ q ∈ ps ++ ex, Rich asks factor only q) ∧ l'.Ok env.lower ∧ Known env only l'.commodities := by
  induction todo generalizing done extra l with
  | nil =>
    refine ⟨done, extra, l, rfl, ?_, hr, hk⟩
    intro q hq
    rcases List.mem_append.mp hq with hq | hq
    · exact h1 q hq
    · exact h3 q hq
  | cons p todo ih =>
    have hp := h2 p (by simp)
    have h2' : ∀ q ∈ todo, Rich asks factor only q := fun q hq => h2 q (by simp [hq])
    have h1' : ∀ p', Rich asks factor only p' → ∀ q ∈ done ++ [p'], Rich asks factor only q := by
      intro p' hp' q hq
      rcases List.mem_append.mp hq with hq | hq
      · exact h1 q hq
      · obtain rfl := List.mem_singleton.mp hq
        exact hp'
    have hall : ∀ p', Rich asks factor only p' → ∀ q ∈ done ++ p' :: todo, Rich asks factor only q := by
      intro p' hp' q hq
      rcases List.mem_append.mp hq with hq | hq
      · exact h1 q hq
      · rcases List.mem_cons.mp hq with rfl | hq
        · exact hp'
        · exact h2' q hq
    unfold ruleLoop
    split
    · exact ih (h1' p hp) h2' h3 hr hk
    · next ho =>
      have ho : p.origin = .fromTransaction := not_not.mp ho
      obtain ⟨b, cs, hf, hrc, hkc⟩ := filter_typed (t := { t with postings := done ++ p :: todo }) hn ha hd (hall p hp)
        hp hr.commodities hk
      rw [hf]
      have hr' : Lists.Ok env.lower { l with commodities := cs } := ⟨hr.accounts, hr.payees, hrc⟩
      cases b with
      | false => exact ih (l := { l with commodities := cs }) (h1' p hp) h2' h3 hr' hkc
      | true =>
        simp only
        have hp' := hp.tag (p.tags ++ rule.comments.flatMap getTags)
        obtain ⟨qs, l1, hq1, hq2⟩ := rulePostings_typed
          (t := { t with postings := done ++ { p with tags := p.tags ++ rule.comments.flatMap getTags } :: todo })
          rule.postings h hd (hall _ hp') hp' ho hr' hkc
        simp only [hq1]
        refine ih (h1' _ hp') h2' ?_ (rulePostings_reachable _ hr' hq1) (hkc.kept (rulePostings_spec _ hq1).2.commodities)
        intro q hq
        rcases List.mem_append.mp hq with hq | hq
        · exact h3 q hq
        · exact hq2 q hq

theorem applyRules_typed {env : Env} {asks factor : Prop} {only : Option Cur} (rules : List (Txn RawPosting × Ast))
    (h : ∀ r ∈ rules, r.2.HasType env only .bool ∧ (r.2.has .amount = true → asks) ∧
      ∀ rp ∈ r.1.postings, rp.Sound env asks factor only)
    {t : Txn Posting} {l : Lists} (hd : t.date.isSome) (ht : ∀ q ∈ t.postings, Rich asks factor only q)
    (hr : l.Ok env.lower) (hk : Known env only l.commodities) :
    ∃ t' l', applyRules env rules t l = .ok (t', l') ∧ l'.Ok env.lower ∧ Known env only l'.commodities ∧ t'.date = t.date ∧
      ∀ q ∈ t'.postings, Rich asks factor only q := by
  induction rules generalizing t l with
  | nil => exact ⟨t, l, rfl, hr, hk, rfl, ht⟩
  | cons r rs ih =>
    obtain ⟨g1, g2, g3⟩ := h r (by simp)
    obtain ⟨ps, ex, l1, e1, e2, e3, e4⟩ := ruleLoop_typed (t := t) (done := []) (extra := []) g1 g2 g3 hd t.postings
      (fun q hq => (by cases hq)) ht (fun q hq => (by cases hq)) hr hk
    unfold applyRules applyRule
    simp only [e1]
    exact ih (t := { t with postings := ps ++ ex }) (fun r h' => h r (by simp [h'])) hd e2 e3 e4

theorem automate_typed {env : Env} {asks factor : Prop} {only : Option Cur} {rules : List (Txn RawPosting × Ast)}
    (h : ∀ r ∈ rules, r.2.HasType env only .bool ∧ (r.2.has .amount = true → asks) ∧
      ∀ rp ∈ r.1.postings, rp.Sound env asks factor only)
    (ts : List (Txn Posting)) {l : Lists} (hd : ∀ t ∈ ts, t.date.isSome)
    (ht : ∀ t ∈ ts, ∀ q ∈ t.postings, Rich asks factor only q) (hr : l.Ok env.lower) (hk : Known env only l.commodities) :
    ∃ x, automate env rules ts l = .ok x ∧ Known env only x.2.commodities ∧
      ∀ t ∈ x.1, t.date.isSome ∧ ∀ q ∈ t.postings, Rich asks factor only q := by
  induction ts generalizing l with
  | nil => exact ⟨_, rfl, hk, fun t ht => (by cases ht)⟩
  | cons t ts ih =>
    obtain ⟨t1, l1, h1, h2, h3, h4, h5⟩ := applyRules_typed rules h (hd t (by simp)) (ht t (by simp)) hr hk
    obtain ⟨x, hx, hx1, hx2⟩ := ih (fun u hu => hd u (by simp [hu])) (fun u hu => ht u (by simp [hu])) h2 h3
    unfold automate
    simp only [h1, hx]
    refine ⟨_, rfl, hx1, fun u hu => ?_⟩
    rcases List.mem_cons.mp hu with rfl | hu
    · exact ⟨by rw [h4]; exact hd t (by simp), h5⟩
    · exact hx2 u hu

/-! ### Journals in one commodity -/

/-- Amount, cost and asserted total of the posting are in the commodity. -/
structure Posting.In (d : Cur) (p : Posting) : Prop where
  amount : ∀ m, p.amount = some m → m.In (some d)
  balance : ∀ m, p.balance = some m → m.In (some d)
  cost : ∀ m, p.cost = some (.total m) ∨ p.cost = some (.perUnit m) → m.In (some d)

theorem Money.In.other {m : Money} {d : Cur} (h : m.In (some d)) {c : Cur} (hc : c ≠ d) : m.amountIn c = 0 :=
  amountIn_other (h d rfl) hc

theorem sumIn_other {d : Cur} {ms : List Money} (h : ∀ m ∈ ms, m.In (some d)) {c : Cur} (hc : c ≠ d) : sumIn ms c = 0 := by
  induction ms with
  | nil => rfl
  | cons m ms ih =>
    rw [sumIn_cons, (h m (by simp)).other hc, ih (fun x hx => h x (by simp [hx]))]; simp

theorem Posting.In.weight {d : Cur} {p : Posting} (h : p.In d) : p.weight.In (some d) := by
  unfold Posting.weight
  split
  · intro k _; exact .inl rfl
  · next m hm _ => exact h.amount m hm
  · next m u hm hc =>
    intro k hk
    have := h.cost u (.inr hc) k hk
    cases u <;> exact this
  · next m t hm hc =>
    have := h.cost t (.inl hc)
    split
    · intro k hk
      have := this k hk
      cases t <;> exact this
    · exact this

theorem posts_in {skip : Bool} {d : Cur} {start : Str → Cur → Rat} {ps qs : List Posting} (h : Posts skip start ps qs)
    (hs : ∀ a c, c ≠ d → start a c = 0) (hp : ∀ p ∈ ps, p.In d) : ∀ q ∈ qs, q.In d := by
  induction h with
  | nil => intro q hq; cases hq
  | other _ _ ih => exact ih hs (fun p hq => hp p (by simp [hq]))
  | elided _ _ ih => exact ih hs (fun p hq => hp p (by simp [hq]))
  | @given start p m ps qs _ ha _ _ ih =>
    intro q hq
    rcases List.mem_cons.mp hq with rfl | hq
    · exact hp q (by simp)
    · refine ih (fun a c hc => ?_) (fun p hq => hp p (by simp [hq])) q hq
      unfold afterPosting
      rw [hs a c hc, ((hp p (by simp)).amount m ha).other hc]; simp
  | @assigned start p m b ps qs _ ha _ hb he hbare _ ih =>
    have hpp := hp p (by simp)
    have hz : ∀ c, c ≠ d → m.amountIn c = 0 := by
      intro c hc
      have := he c
      rw [hs _ c hc, (hpp.balance b hb).other hc] at this
      simpa using this
    have hm : m.In (some d) := by
      intro k hk
      cases hk
      cases m with
      | zero => exact .inl rfl
      | mk x c =>
        rcases hbare with hbare | hbare
        · cases hbare
        · by_cases hc : c = d
          · exact .inr (by rw [hc]; rfl)
          · have := hz c hc
            simp at this
            exact absurd this hbare
    intro q hq
    rcases List.mem_cons.mp hq with rfl | hq
    · exact ⟨fun m' hm' => by cases hm'; exact hm, hpp.balance, hpp.cost⟩
    · refine ih (fun a c hc => ?_) (fun p hq => hp p (by simp [hq])) q hq
      unfold afterPosting
      rw [hs a c hc, hz c hc]; simp

theorem BookedAs.inOne {skip : Bool} {d : Cur} {start : Str → Cur → Rat} {ts ts' : List (Txn Posting)}
    (h : BookedAs skip start ts ts') (hs : ∀ a c, c ≠ d → start a c = 0) (hp : ∀ t ∈ ts, ∀ p ∈ t.postings, p.In d) :
    ∀ t ∈ ts', ∀ p ∈ t.postings, p.In d := by
  induction h with
  | nil => intro t ht; cases ht
  | @cons start t es t' ts ts' h1 _ h3 _ ih =>
    have hes : ∀ q ∈ es, q.In d := by
      obtain ⟨qs, gen, g1, rfl, g3⟩ := h1
      have hqs := posts_in g1 hs (hp t (by simp))
      intro q hq
      rcases List.mem_append.mp hq with hq | hq
      · rcases List.mem_append.mp hq with hq | hq
        · exact hqs q hq
        · rcases g3 with ⟨_, _, rfl⟩ | ⟨p, _, g4, ms, g5, _, g6⟩
          · cases hq
          · obtain ⟨_, _, k3, k4⟩ := g4 q hq
            have : q.amount ∈ gen.map Posting.amount := List.mem_map.mpr ⟨q, hq, rfl⟩
            rw [g5] at this
            obtain ⟨m, hm, he⟩ := List.mem_map.mp this
            obtain ⟨c, rfl, hc⟩ := (g6 m).mp hm
            refine ⟨fun m' hm' => ?_, fun m' hm' => (by rw [k4] at hm'; cases hm'),
              fun m' hm' => (by rw [k3] at hm'; rcases hm' with hm' | hm' <;> cases hm')⟩
            rw [← he] at hm'; cases hm'
            have hcd : c = d := by
              by_contra hne
              apply hc
              unfold weightOf
              refine sumIn_other (fun m hm => ?_) hne
              obtain ⟨x, hx, rfl⟩ := List.mem_map.mp hm
              exact (hqs x (List.mem_filter.mp hx).1).weight
            intro k hk
            cases hk
            exact .inr (by rw [hcd]; rfl)
      · exact hp t (by simp) q (List.mem_filter.mp hq).1
    intro u hu
    rcases List.mem_cons.mp hu with rfl | hu
    · intro q hq
      obtain ⟨p, hpm, _, _, s3, s4, s5⟩ := Forall₂.mem_right h3 hq
      obtain ⟨a1, a2, a3⟩ := hes p hpm
      exact ⟨by rw [s3]; exact a1, by rw [s5]; exact a2, by rw [s4]; exact a3⟩
    · refine ih (fun a c hc => ?_) (fun t ht => hp t (by simp [ht])) u hu
      show start a c + postedTo es a c = 0
      rw [hs a c hc]
      unfold postedTo
      rw [sumIn_other (d := d) ?_ hc]; · simp
      intro m hm
      obtain ⟨q, hq, hm⟩ := List.mem_filterMap.mp hm
      exact (hes q (List.mem_filter.mp hq).1).amount m hm

theorem Completed.one {env : Env} {pl : ParsedLedger} {l : Lists} {d : Cur} (hn : NamesOf env pl l) (h : pl.OnlyIn env d) :
    Known env (some d) l.commodities := by
  intro k hk
  cases hk
  by_cases hd : Declared env.lower pl.lists.commodities d
  · obtain ⟨x, hx⟩ := hd
    exact ⟨x, hn.commodities.declared d x hx, h.declared x hx⟩
  · obtain ⟨m, hm, hl, x, hx, hxm⟩ := hn.commodities.added d h.used hd
    exact ⟨x, hx, by rw [← h.distinct m hm hl]; exact hxm⟩

theorem WrittenAs.inOne {env : Env} {pl : ParsedLedger} {l : Lists} {d : Cur} (h : pl.OnlyIn env d)
    (hk : Known env (some d) l.commodities) {raw : Txn RawPosting} (hraw : raw ∈ pl.regular) {p : RawPosting}
    (hp : p ∈ raw.postings) {q : Posting} (hw : WrittenAs env l raw p q) : q.In d := by
  have hm := List.mem_filter.mp hraw
  have key : ∀ c n, (p.moneyCurrency = some c ∨ p.costCurrency = some c ∨ p.balanceCurrency = some c) →
      Finds env.lower l.commodities c n → n = d := by
    intro c n hc hf
    rcases h.only raw hm.1 p hp c hc with rfl | ⟨_, ha⟩
    · obtain ⟨x, hx, hxd⟩ := hk c rfl
      obtain ⟨y, hy, rfl⟩ := hf
      rw [hx] at hy; cases hy
      exact hxd
    · have := hm.2
      rw [ha] at this; simp at this
  refine ⟨fun m hm => ?_, fun m hm => ?_, fun m hm => ?_⟩
  · rcases hw.amount with ⟨_, e⟩ | ⟨c, n, x, e1, _, e3, e4⟩
    · rw [e] at hm; cases hm
    · rw [e4] at hm; cases hm
      intro k hk'; cases hk'
      exact .inr (by rw [← key c n (.inl e1) e3]; rfl)
  · rcases hw.balance with ⟨_, e⟩ | ⟨c, n, x, e1, _, e3, e4⟩
    · rw [e] at hm; cases hm
    · rw [e4] at hm; cases hm
      intro k hk'; cases hk'
      exact .inr (by rw [← key c n (.inr (.inr e1)) e3]; rfl)
  · rcases hw.cost with ⟨_, e⟩ | ⟨c, n, x, e1, _, e3, e4⟩
    · rw [e] at hm; rcases hm with hm | hm <;> cases hm
    · have hn := key c n (.inr (.inl e1)) e3
      intro k hk'; cases hk'
      rcases e4 with ⟨_, e4⟩ | ⟨_, e4⟩ <;> rw [e4] at hm <;> rcases hm with hm | hm <;> cases hm <;>
        exact .inr (by rw [← hn]; rfl)

/-! ### Booked postings have what the rules need -/

theorem AllAmounts.virtual {skip : Bool} {start : Str → Cur → Rat} {ts ts' : List (Txn Posting)}
    (h : BookedAs skip start ts ts')
    (hv : ∀ t ∈ ts, ∀ p ∈ t.postings, p.kind = .real ∨ p.amount.isSome) (ha : ∀ t ∈ ts', AllAmounts t.postings) :
    ∀ t ∈ ts', ∀ p ∈ t.postings, p.amount.isSome := by
  induction h with
  | nil => intro t ht; cases ht
  | @cons start t es t' ts ts' h1 _ h3 _ ih =>
    intro u hu
    rcases List.mem_cons.mp hu with rfl | hu
    · intro q hq
      by_cases hk : q.kind = .real
      · exact ha u (by simp) q hq hk
      · obtain ⟨p, hpm, _, s2, s3, _, _⟩ := Forall₂.mem_right h3 hq
        obtain ⟨qs, gen, g1, rfl, g3⟩ := h1
        rw [s2] at hk
        rw [s3]
        rcases List.mem_append.mp hpm with hpm | hpm
        · exfalso
          rcases List.mem_append.mp hpm with hpm | hpm
          · exact hk (g1.real p hpm)
          · rcases g3 with ⟨_, _, rfl⟩ | ⟨_, _, g4, _⟩
            · cases hpm
            · exact hk (g4 p hpm).1
        · exact (hv t (by simp) p (List.mem_filter.mp hpm).1).resolve_left hk
    · exact ih (fun t ht => hv t (by simp [ht])) (fun t ht => ha t (by simp [ht])) u hu

theorem ruleNodes_of {env : Env} {autos : List (Txn RawPosting)} {rules : List (Txn RawPosting × Ast)}
    (h : RuleNodes env autos rules) : ruleNodes env autos = .ok rules := by
  unfold RuleNodes at h
  induction h with
  | nil => rfl
  | @cons a r autos rules h1 _ ih =>
    unfold ruleNodes
    rw [h1.2]
    simp only [ih]
    rw [← h1.1]

/-- The booked postings have what rules and queries ask for. -/
theorem booked_rich {env : Env} {pl : ParsedLedger} {only : Option Cur} {asks factor : Prop}
    (ho : ∀ d, only = some d → pl.OnlyIn env d)
    (hf : factor → ∀ t ∈ pl.regular, ∀ p ∈ t.postings, p.moneyCurrency.isSome ∨ (p.kind = .real ∧ p.balanceCurrency = none))
    (hv : asks → ∀ t ∈ pl.regular, ∀ p ∈ t.postings, p.kind = .real ∨ p.moneyCurrency.isSome) {skip : Bool} {l : Lists}
    {ts booked : List (Txn Posting)} (hb : Booked env skip pl l ts booked) :
    Known env only l.commodities ∧ ∀ t ∈ booked, ∀ q ∈ t.postings, Rich asks factor only q := by
  obtain ⟨listed, h2, h3⟩ := hb.stands
  have hknown : Known env only l.commodities := by
    intro d hd
    exact Completed.one hb.names (ho d hd) d rfl
  refine ⟨hknown, fun t htb q hq => ?_⟩
  have hraw : ∀ t ∈ ts, ∀ p ∈ t.postings, ∃ raw ∈ pl.regular, ∃ p0 ∈ raw.postings, WrittenAs env l raw p0 p := by
    intro t ht p hp
    obtain ⟨raw, hraw, _, _, hw⟩ := Forall₂.mem_right h3 ht
    obtain ⟨p0, hp0, hpw⟩ := Forall₂.mem_right hw hp
    exact ⟨raw, h2.perm.mem_iff.mp hraw, p0, hp0, hpw⟩
  have hin : ∀ m, q.amount = some m → m.In only := by
    intro m hm d hd
    have hin := hb.entered.inOne (d := d) (fun _ _ _ => rfl) (fun t ht p hp => by
      obtain ⟨raw, k1, p0, k2, k3⟩ := hraw t ht p hp
      exact k3.inOne (ho d hd) (by rw [← hd]; exact hknown) k1 k2) t htb q hq
    exact hin.amount m hm d rfl
  refine ⟨hb.payee t htb q hq, fun hasks => ?_, fun hfac _ => ?_, hin⟩
  · obtain ⟨m, hm⟩ := Option.isSome_iff_exists.mp (AllAmounts.virtual hb.entered (fun t ht p hp => by
      obtain ⟨raw, k1, p0, k2, k3⟩ := hraw t ht p hp
      rcases hv hasks raw k1 p0 k2 with k | k
      · exact .inl (by rw [k3.kind]; exact k)
      · rcases k3.amount with ⟨e1, _⟩ | ⟨_, _, _, _, _, _, e4⟩
        · rw [e1] at k; cases k
        · exact .inr (by rw [e4]; rfl)) hb.amounts t htb q hq)
    exact ⟨m, hm, hin m hm⟩
  · refine hb.entered.money (fun t ht p hp => ?_) t htb q hq
    obtain ⟨raw, k1, p0, k2, k3⟩ := hraw t ht p hp
    rcases k3.amount with ⟨e1, e2⟩ | ⟨_, _, _, _, _, _, e4⟩
    · rcases hf hfac raw k1 p0 k2 with k | ⟨k, kb⟩
      · rw [e1] at k; cases k
      · refine .inr ⟨by rw [k3.kind]; exact k, e2, ?_⟩
        rcases k3.balance with ⟨_, e3⟩ | ⟨_, _, _, e3, _⟩
        · exact e3
        · rw [kb] at e3; cases e3
    · exact .inl ⟨_, _, e4⟩

/-- Rules that make sense apply to the booked transactions. -/
theorem booked_typed {r : Run} {path : Str} {pl : ParsedLedger} {rules : List (Txn RawPosting × Ast)} {only : Option Cur}
    {asks : Prop} (h : r.journal path = .ok pl) (hn : RuleNodes r.env pl.automated rules)
    (ht : ∀ x ∈ rules, TypedRule r.env only x) (ho : ∀ d, only = some d → pl.OnlyIn r.env d) (hf : pl.Serves rules)
    (ha : (∃ x ∈ rules, RuleAsks x) → asks)
    (hv : asks → ∀ t ∈ pl.regular, ∀ p ∈ t.postings, p.kind = .real ∨ p.moneyCurrency.isSome) {skip : Bool} {l : Lists}
    {ts booked : List (Txn Posting)} (hb : Booked r.env skip pl l ts booked) :
    ∃ x, automate r.env rules booked l = .ok x ∧ Known r.env only x.2.commodities ∧
      ∀ t ∈ x.1, t.date.isSome ∧ ∀ q ∈ t.postings,
        Rich asks (∃ a ∈ pl.automated, ∃ rp ∈ a.postings, rp.moneyCurrency = some []) only q := by
  have hwf := C83_wellformed h
  obtain ⟨hknown, hrich⟩ := booked_rich ho hf.factors hv hb
  have hauto : ∀ x ∈ rules, x.1 ∈ pl.automated := by
    intro x hx
    obtain ⟨a, ha, h1, _⟩ := Forall₂.mem_right hn hx
    rw [h1]; exact ha
  refine automate_typed (only := only) (fun x hx => ?_) booked hb.dated hrich hb.ok hknown
  refine ⟨(ht x hx).condition, fun e => ha ⟨x, hx, .inl e⟩, fun rp hrp => ?_⟩
  have hx' := hauto x hx
  obtain ⟨hpair, hpay⟩ := (hwf.2.2 x.1 hx').2 rp hrp
  refine ⟨hpay, ?_⟩
  cases hc : rp.moneyCurrency with
  | none =>
    obtain ⟨e, n, e1, e2, e3⟩ := (ht x hx).amounts rp hrp hc
    exact .inr ⟨rfl, ha ⟨x, hx, .inr ⟨rp, hrp, hc⟩⟩, e, n, e1, e2, e3⟩
  | some c =>
    have := hpair.money
    rw [hc] at this
    obtain ⟨a, ha⟩ := Option.isSome_iff_exists.mp this.symm
    refine .inl ⟨c, a, rfl, ha, fun h0 => ⟨x.1, hx', rp, hrp, by rw [hc, h0]⟩, fun d hd => ?_⟩
    rcases (ho d hd).only x.1 (List.mem_filter.mp hx').1 rp hrp c (.inl hc) with h | h
    · exact .inr h
    · exact .inl h.1

/-- What `check` says, with the steps of the code. -/
theorem check_applied {r : Run} {path : Str} {pl : ParsedLedger} {rules : List (Txn RawPosting × Ast)} {only : Option Cur}
    (h : r.journal path = .ok pl) (hne : pl.automated ≠ []) (hz : pl.NoFreeTotals) (hb : pl.NoBracketedSales)
    (hn : RuleNodes r.env pl.automated rules) (ht : ∀ x ∈ rules, TypedRule r.env only x)
    (ho : ∀ d, only = some d → pl.OnlyIn r.env d) (hf : pl.Serves rules) :
    ∃ l ts, pl.StandsWith r.env l ts ∧
      (((¬ ∃ final, BooksAll false (fun _ _ => 0) ts final) ∧ ∃ e, checkCommand r path = .ok (.ko e)) ∨
        ∃ booked names applied, (∃ final, BooksAll false (fun _ _ => 0) ts final) ∧
          Booked r.env false pl l ts booked ∧ automate r.env rules booked l = .ok (applied, names) ∧
          l.Grow r.env.lower names ∧ List.Forall₂ (RulesOn r.env names rules) booked applied ∧
          (checkCommand r path = .ok .ok ↔
            (∀ t ∈ applied, MayBalance (weightOf .real t.postings) ∧ MayBalance (weightOf .virtBal t.postings)) ∧
              AssertionsHold (fun _ _ => 0) (applied.flatMap (fun t => t.postings)))) := by
  obtain ⟨l, listed, ts, h1, h2, h3, h4, _, h5⟩ := toLedger_rules h hne hz (ruleNodes_of hn)
    (fun _ _ _ _ hb => (booked_typed h hn ht ho hf id hf.amounts hb).imp (fun _ hx => hx.1))
  refine ⟨l, ts, ⟨h1, listed, h2, h3⟩, ?_⟩
  have hns := noSales h2 h3 hb
  have hbk : (∃ x, balanceAll false r.orders.fill (initialBalances l.accounts) ts = .ok x) ↔
      ∃ final, BooksAll false (fun _ _ => 0) ts final := by
    constructor
    · rintro ⟨⟨b, rs⟩, hx⟩
      have := books_of_balanceAll ts (initialBalances_ok _) h4 hns hx
      rw [initialBalances_amt] at this
      exact ⟨_, this⟩
    · rintro ⟨final, hx⟩
      exact balanceAll_of_books hx (initialBalances_amt _) (initialBalances_ok _) h4 hns
  rcases h5 false with ⟨hno, e, he⟩ | ⟨booked, names, applied, hx, g1, g7, g2, g5, g3, g4⟩
  · refine .inl ⟨fun hb => hno (hbk.mpr hb), e, ?_⟩
    unfold checkCommand
    rw [h]
    simp only [he]
  · refine .inr ⟨booked, names, applied, hbk.mp hx, g1, g7, g5, g2, ?_⟩
    have hfull := fun final => booksAll_full (skip := false) (start := fun _ _ => 0) (final := final) applied
      (fun t ht => (g3 t ht).1)
    have hok : (∃ x, balanceAll false r.orders.fill2 (initialBalances names.accounts) applied = .ok x) ↔
        (∀ t ∈ applied, MayBalance (weightOf .real t.postings) ∧ MayBalance (weightOf .virtBal t.postings)) ∧
          AssertionsHold (fun _ _ => 0) (applied.flatMap (fun t => t.postings)) := by
      constructor
      · rintro ⟨⟨b, rs⟩, hx⟩
        have := books_of_balanceAll applied (initialBalances_ok _) (fun t ht => (g3 t ht).2.2) (fun t ht => (g3 t ht).2.1 hb) hx
        rw [initialBalances_amt] at this
        obtain ⟨f1, f2, _⟩ := (hfull _).mp this
        exact ⟨f1, f2.resolve_left (by simp)⟩
      · rintro ⟨f1, f2⟩
        exact balanceAll_of_books ((hfull _).mpr ⟨f1, .inr f2, fun _ _ => rfl⟩) (initialBalances_amt _) (initialBalances_ok _)
          (fun t ht => (g3 t ht).2.2) (fun t ht => (g3 t ht).2.1 hb)
    rw [← hok]
    unfold checkCommand
    rw [h]
    rcases g4 with ⟨hno, e, he⟩ | ⟨L, bals, rs, hb, hL, _⟩
    · simp only [he]
      exact ⟨fun hc => (by cases hc), fun hc => absurd hc hno⟩
    · simp only [hL]
      exact ⟨fun _ => ⟨_, hb⟩, fun _ => trivial⟩

end Dinero
