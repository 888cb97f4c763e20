import Verif.Spec.Meaning
import Verif.Lemmas.Answer
/-
Lemmas about what expressions say.
-/
namespace Dinero

theorem unary_shows {env : Env} {t : Txn Posting} {p : Posting} {op : UnaryOp} {v w : Val} {a ty : Ty} {only : Option Cur}
    {s : Sense} (hop : op ≠ .any) (hv : v.Of only a) (h : unaryType op a = some ty) (hs : v.Shows t s)
    (he : evalUnary env p op v = .ok w) : w.Shows t (s.unary env p op) := by
  cases hv with
  | money m hm =>
    cases hs
    cases op <;> cases h
    · cases he
      have : m.neg.amount = - m.amount := by cases m <;> simp [Money.neg, Money.amount]
      simp only [Sense.unary, ← this]
      exact .money _
    · cases m with
      | zero => cases he; simpa [Sense.unary, Money.amount] using Val.Shows.money (t := t) .zero
      | mk x c =>
        cases he
        have : (Money.mk (if x < 0 then -x else x) c).amount = |x| := by
          simp only [Money.amount]
          split
          · next h => exact (abs_of_neg h).symm
          · next h => exact (abs_of_nonneg (not_lt.mp h)).symm
        simp only [Sense.unary, Money.amount] at this ⊢
        rw [← this]
        exact .money (.mk _ c)
  | text s =>
    cases hs
    cases op <;> cases h
    cases he
    rw [show p.getExactTag s = (p.tags.find? (fun t => t.name = s)).bind (fun t => t.value) from ?_]
    · exact .string _
    · unfold Posting.getExactTag
      have : (fun t : Tag => s == t.name) = fun t => decide (t.name = s) := by
        funext t
        by_cases h : t.name = s
        · simp [h]
        · simp [h, Ne.symm h]
      rw [this]
      cases p.tags.find? (fun t => decide (t.name = s)) <;> rfl
  | regex s =>
    cases hs
    cases op <;> cases h
    · cases he; exact .bool _
    · cases he
      rw [show p.getTag env.rx s = (p.tags.find? (fun t => env.rx s t.name)).bind (fun t => t.value) from ?_]
      · exact .string _
      · unfold Posting.getTag
        cases p.tags.find? (fun t => env.rx s t.name) <;> rfl
  | bool b =>
    cases hs
    cases op <;> cases h
    · cases he; exact .bool _
    · cases he; exact .bool _
    · exact absurd rfl hop
  | number r =>
    cases hs
    cases op <;> cases h
    · cases he; exact .number _
    · cases he
      have : (if r < 0 then -r else r) = |r| := by
        split
        · next h => exact (abs_of_neg h).symm
        · next h => exact (abs_of_nonneg (not_lt.mp h)).symm
      rw [this]
      exact .number _
  | _ => cases op <;> cases h

theorem cmp_amounts {l r : Money} {o : Ordering} (h : Money.cmp l r = .ok o) : o = Money.ratCmp l.amount r.amount := by
  unfold Money.cmp at h
  split at h
  · split at h <;> cases h
    rfl
  · cases h; rfl

theorem optStr_less (x y : Option Str) : (optStrCmp x y == .lt) = (Sense.text x).less (.text y) ∧
    (optStrCmp x y == .gt) = (Sense.text y).less (.text x) := by
  cases x with
  | none => cases y <;> simp [optStrCmp, Sense.less]
  | some a =>
    cases y with
    | none => simp [optStrCmp, Sense.less]
    | some b =>
      simp only [optStrCmp, Money.strCmp, Sense.less]
      by_cases h : a < b
      · have : ¬ b < a := fun h' => List.lt_irrefl _ (List.lt_trans h h')
        simp [h, this]
      · by_cases h' : b < a <;> simp [h, h']

/-- How two values compare. -/
theorem partialCmp_less {t : Txn Posting} {v w : Val} {a b : Ty} {only : Option Cur} {s1 s2 : Sense} {x : Option Ordering}
    (hv : v.Of only a) (hw : w.Of only b) (h1 : v.Shows t s1) (h2 : w.Shows t s2)
    (h : (a.numeric ∧ b.numeric) ∨ (a.textual ∧ b.textual) ∨ (a = .date ∧ b = .date))
    (he : Val.partialCmp v w = .ok x) :
    ∃ o, x = some o ∧ (o == .lt) = s1.less s2 ∧ (o == .gt) = s2.less s1 := by
  have hr : ∀ q q' : Rat, (Money.ratCmp q q' == .lt) = (Sense.quantity q).less (.quantity q') ∧
      (Money.ratCmp q q' == .gt) = (Sense.quantity q').less (.quantity q) := fun q q' =>
    ⟨(ratCmp_tests q q').1, (ratCmp_tests q q').2.1⟩
  cases hv <;> cases hw <;> cases h1 <;> cases h2 <;> simp [Ty.numeric, Ty.textual] at h <;>
    simp only [Val.partialCmp] at he
  case number.number => cases he; exact ⟨_, rfl, hr _ _⟩
  case number.money => cases he; exact ⟨_, rfl, hr _ _⟩
  case money.number => cases he; exact ⟨_, rfl, hr _ _⟩
  case money.money l hl r hr' =>
    cases hc : Money.cmp l r with
    | error e => rw [hc] at he; cases he
    | ok o =>
      rw [hc] at he
      cases he
      rw [cmp_amounts hc]
      exact ⟨_, rfl, hr _ _⟩
  case date.date d e =>
    cases he
    refine ⟨_, rfl, ?_⟩
    unfold dateCmp Sense.less
    rcases lt_trichotomy d e with h | h | h
    · simp [h, not_lt.mpr h.le]
    · subst h; simp
    · simp [h, not_lt.mpr h.le]
  all_goals (cases he; exact ⟨_, rfl, optStr_less _ _⟩)

theorem addSub_amount {l r m : Money} {d : Cur} (hl : l.commodity = none ∨ l.commodity = some d)
    (hr : r.commodity = none ∨ r.commodity = some d) {isAdd : Bool}
    (h : (if isAdd then Money.add l r else Money.sub l r).toMoney = .ok m) :
    m.amount = if isAdd then l.amount + r.amount else l.amount - r.amount := by
  have hin : ∀ {x : Money}, (x.commodity = none ∨ x.commodity = some d) → x.amount = x.amountIn d := by
    intro x hx
    cases x with
    | zero => rfl
    | mk q c => rcases hx with hx | hx <;> cases hx; simp [Money.amount]
  obtain ⟨m', h1, h2⟩ := addSub_mono hl hr isAdd
  rw [h] at h1
  cases h1
  rw [hin h2, hin hl, hin hr]
  cases isAdd with
  | true =>
    simp only [if_true] at h ⊢
    rw [← (C04_toMoney (.add (.ofMoney _) (.ofMoney _))).1 _ h d]
    exact C01_money_add l r d
  | false =>
    simp only [Bool.false_eq_true, if_false] at h ⊢
    rw [← (C04_toMoney (.sub (.ofMoney _) (.ofMoney _))).1 _ h d]
    exact (C03_money l r d).2.2

theorem addSub_shows {t : Txn Posting} {isAdd : Bool} {v w x : Val} {a b ty : Ty} {only : Option Cur}
    {s1 s2 : Sense} (hv : v.Of only a) (hw : w.Of only b) (h1 : v.Shows t s1) (h2 : w.Shows t s2)
    (h : (if a = .number ∧ b = .number then some Ty.number
      else if a = .money ∧ b = .money ∧ only.isSome then some .money else none) = some ty)
    (he : evalAddSub isAdd v w = .ok x) :
    ∃ q q', s1 = .quantity q ∧ s2 = .quantity q' ∧ x.Shows t (.quantity (if isAdd then q + q' else q - q')) := by
  split at h
  · next hc =>
    obtain ⟨rfl, rfl⟩ := hc
    cases hv; cases hw; cases h1; cases h2
    cases he
    exact ⟨_, _, rfl, rfl, .number _⟩
  · split at h
    · next hc =>
      obtain ⟨rfl, rfl, ho⟩ := hc
      obtain ⟨d, hd⟩ := Option.isSome_iff_exists.mp ho
      cases hv with
      | money l hl =>
      cases hw with
      | money r hr =>
      cases h1; cases h2
      simp only [evalAddSub, unwrapMoney] at he
      split at he
      · next m hm =>
        cases he
        refine ⟨_, _, rfl, rfl, ?_⟩
        rw [← addSub_amount (hl d hd) (hr d hd) hm]
        exact .money _
      · cases he
    · cases h

theorem mul_amount (m : Money) (r : Rat) : (m.mul r).amount = m.amount * r := by
  cases m <;> simp [Money.mul, Money.amount]

theorem binary_shows {env : Env} {t : Txn Posting} {op : BinaryOp} {v w x : Val} {a b ty : Ty} {only : Option Cur}
    {s1 s2 : Sense} (hv : v.Of only a) (hw : w.Of only b) (h1 : v.Shows t s1) (h2 : w.Shows t s2)
    (h : binaryType only.isSome op a b = some ty)
    (hm : only.isSome = true ∨ ¬ (op = .eq ∧ a = .money ∧ b = .money))
    (he : evalBinary env t op v w = .ok x) : x.Shows t (s1.binary env op s2) := by
  have hcmp : ∀ (test : Ordering → Bool) (f : Bool) , evalCmp test v w = .ok x →
      ((a.numeric ∧ b.numeric) ∨ (a.textual ∧ b.textual) ∨ (a = .date ∧ b = .date)) →
      (∀ o, (o == .lt) = s1.less s2 → (o == .gt) = s2.less s1 → test o = f) → x.Shows t (.truth f) := by
    intro test f he hc hf
    unfold evalCmp at he
    cases hp : Val.partialCmp v w with
    | error e => rw [hp] at he; cases he
    | ok y =>
      obtain ⟨o, rfl, g1, g2⟩ := partialCmp_less hv hw h1 h2 hc hp
      rw [hp] at he
      cases he
      rw [← hf o g1 g2]
      exact .bool _
  have hord : ∀ {c : Prop} [Decidable c], (if (a.numeric ∧ b.numeric ∧ c) ∨ (a.textual ∧ b.textual) ∨
      (a = .date ∧ b = .date) then some Ty.bool else none) = some ty →
      ((a.numeric ∧ b.numeric) ∨ (a.textual ∧ b.textual) ∨ (a = .date ∧ b = .date)) := by
    intro c _ hif
    split at hif
    · next hc =>
      rcases hc with hc | hc
      · exact .inl ⟨hc.1, hc.2.1⟩
      · exact .inr hc
    · cases hif
  cases op with
  | lt => exact hcmp _ _ he (hord h) (fun o g1 _ => g1)
  | gt => exact hcmp _ _ he (hord h) (fun o _ g2 => g2)
  | le => exact hcmp _ _ he (hord h) (fun o _ g2 => by rw [← g2]; rfl)
  | ge => exact hcmp _ _ he (hord h) (fun o g1 _ => by rw [← g1]; rfl)
  | or =>
    simp only [binaryType] at h
    split at h
    · next hc =>
      obtain ⟨rfl, rfl⟩ := hc
      cases hv; cases hw; cases h1; cases h2
      next p q =>
      cases p <;> cases q <;> cases he <;> exact .bool _
    · cases h
  | and =>
    simp only [binaryType] at h
    split at h
    · next hc =>
      obtain ⟨rfl, rfl⟩ := hc
      cases hv; cases hw; cases h1; cases h2
      next p q =>
      cases p <;> cases q <;> cases he <;> exact .bool _
    · cases h
  | eq =>
    simp only [binaryType] at h
    split at h
    · next hc =>
      simp only [evalBinary] at he
      cases hv <;> cases hw <;> cases h1 <;> cases h2 <;>
        simp [Ty.numeric, Ty.textual, Ty.matchable] at hc <;> simp only [evalEq, Val.eq] at he
      case maybe.regex s pat =>
        cases s <;> cases he <;> exact .bool _
      case money.money l hl r hr =>
        have ho : only.isSome = true := hm.resolve_right (by simp)
        obtain ⟨d, hd⟩ := Option.isSome_iff_exists.mp ho
        cases he
        have : Money.eq l r = decide (Sense.quantity l.amount = Sense.quantity r.amount) := by
          have e1 := hl d hd
          have e2 := hr d hd
          cases l <;> cases r <;> simp [Money.eq, Money.amount, Money.commodity, beq_eq_decide, eq_comm] at e1 e2 ⊢
          subst e1 e2
          simp
        simp only [Sense.binary, ← this]
        exact .bool _
      all_goals
        clear hcmp hord
        have key : ∀ b c : Bool, b = c → Val.Shows t (.bool b) (.truth c) := by rintro _ _ rfl; exact .bool _
        cases he
        exact key _ _ (by simp [Sense.shows, beq_eq_decide])
    · cases h
  | add =>
    obtain ⟨q, q', rfl, rfl, hx⟩ := addSub_shows hv hw h1 h2 h he
    exact hx
  | subtract =>
    obtain ⟨q, q', rfl, rfl, hx⟩ := addSub_shows hv hw h1 h2 h he
    exact hx
  | mult =>
    simp only [binaryType] at h
    split at h
    · next hc =>
      obtain ⟨rfl, rfl⟩ := hc
      cases hv; cases hw; cases h1; cases h2; cases he
      exact .number _
    · split at h
      · next hc =>
        rcases hc with ⟨rfl, rfl⟩ | ⟨rfl, rfl⟩
        · cases hv; cases hw; cases h1; cases h2; cases he
          next r m _ =>
          have := mul_amount m r
          rw [mul_comm] at this
          simp only [Sense.binary, BinaryOp.onRat, ← this]
          exact .money _
        · cases hv; cases hw; cases h1; cases h2; cases he
          next m _ r =>
          simp only [Sense.binary, BinaryOp.onRat, ← mul_amount m r]
          exact .money _
      · cases h
  | div =>
    simp only [binaryType] at h
    split at h
    · next hc =>
      obtain ⟨hn, rfl⟩ := hc
      cases hw with
      | number r =>
      cases hv <;> simp [Ty.numeric] at hn
      · cases h1; cases h2
        simp only [evalBinary, evalDiv] at he
        split at he
        · next q hq =>
          cases he
          unfold ratDiv at hq
          split at hq <;> cases hq
          exact .number _
        · cases he
      · cases h1; cases h2
        next m _ =>
        simp only [evalBinary, evalDiv] at he
        split at he
        · next q hq =>
          cases he
          unfold Money.div at hq
          split at hq <;> cases hq
          have := mul_amount m r⁻¹
          rw [← div_eq_mul_inv] at this
          simp only [Sense.binary, BinaryOp.onRat, ← this]
          exact .money _
        · cases he
    · cases h

/-- The value of an expression that makes sense is what the expression says. -/
theorem eval_shows {env : Env} {t : Txn Posting} {only : Option Cur} (n : Ast) :
    ∀ {p : Posting} {st st' : Commodities} {ty : Ty} {v : Val}, n.FitsTxn only t → n.FitsPosting only p →
      n.Written env only st → st.Reachable env.lower → n.type env only.isSome = some ty →
      n.apart env only.isSome = true → eval env t n p st = .ok (v, st') → v.Shows t (n.sense env t p) := by
  induction n with
  | amount =>
    intro p st st' ty v _ hp _ _ _ _ h
    obtain ⟨m, hm, _⟩ := hp.amount rfl
    simp only [eval, hm] at h
    cases h
    simp only [Ast.sense, hm]
    exact .money m
  | account => intro p st st' ty v _ _ _ _ _ _ h; cases h; exact .account _
  | payee =>
    intro p st st' ty v _ hp _ _ _ _ h
    obtain ⟨n, hn⟩ := Option.isSome_iff_exists.mp (hp.payee rfl)
    simp only [eval, hn] at h
    cases h
    simp only [Ast.sense, hn]
    exact .payee n
  | note => intro p st st' ty v _ _ _ _ _ _ h; cases h; exact .note
  | date =>
    intro p st st' ty v ht _ _ _ _ _ h
    obtain ⟨n, hn⟩ := Option.isSome_iff_exists.mp (ht.date rfl)
    simp only [eval, hn] at h
    cases h
    simp only [Ast.sense, hn]
    exact .date n
  | number r => intro p st st' ty v _ _ _ _ _ _ h; cases h; exact .number _
  | regex r => intro p st st' ty v _ _ _ _ _ _ h; cases h; exact .regex _
  | string r => intro p st st' ty v _ _ _ _ _ _ h; cases h; exact .string _
  | money c a =>
    intro p st st' ty v _ _ _ _ _ _ h
    simp only [eval, evalMoney] at h
    split at h <;> cases h <;> exact .money (.mk a _)
  | unary op c ih =>
    intro p st st' ty v ht hp hw hr h hx he
    have ht' : c.FitsTxn only t := ⟨ht.date, fun q hq => (ht.postings q hq).child⟩
    by_cases hs : op = .toDate ∧ ∃ s, c = .string s
    · obtain ⟨rfl, s, rfl⟩ := hs
      simp only [eval, evalUnary] at he
      split at he
      · next w hw =>
        cases he
        split at hw
        · next d hd =>
          cases hw
          simp only [Ast.sense, Sense.unary, hd]
          exact .date d
        · cases hw
      · cases he
    · have h' : (c.type env only.isSome).bind (unaryType op) = some ty := by
        rw [Ast.type.eq_def] at h
        split at h <;> first
          | (next heq => cases heq; exact absurd ⟨rfl, _, rfl⟩ hs)
          | (next heq => cases heq; exact h)
          | (next heq => cases heq)
      obtain ⟨a, ha, hu⟩ := Option.bind_eq_some_iff.mp h'
      obtain ⟨w, s1, h1, hv⟩ := type_sound c ht' hp.child hw hr ha
      have hsh := ih ht' hp.child hw hr ha hx h1
      by_cases hany : op = .any
      · subst hany
        have hty : a = .bool := by cases a <;> cases hu; rfl
        subst hty
        simp only [eval, h1] at he
        have loop : ∀ (ps : List Posting) (s : Commodities), (∀ q ∈ ps, q ∈ t.postings) → LookupsKept env st s →
            s.Reachable env.lower → anyLoop (fun q s => eval env t c q s) ps s = .ok (v, st') →
            v.Shows t (.truth (ps.any (fun q => (c.sense env t q).holds))) := by
          intro ps
          induction ps with
          | nil => intro s _ _ _ he; cases he; exact .bool _
          | cons q ps ihp =>
            intro s hq hk hrs he
            have hfq := ht'.postings q (hq q (by simp))
            obtain ⟨x, s2, h2, hv2⟩ := type_sound c (p := q) (st := s) ht' hfq (Ast.Written.kept (n := c) hw hk) hrs ha
            have hsq := ih ht' hfq (Ast.Written.kept (n := c) hw hk) hrs ha hx h2
            have next := ihp s2 (fun x hx => hq x (by simp [hx])) (hk.trans (eval_kept env t c q s _ _ h2))
              (eval_reachable c hrs h2)
            simp only [anyLoop, h2] at he
            cases hv2 with
            | bool b =>
              generalize hg : c.sense env t q = g at hsq
              cases hsq
              cases b with
              | true => cases he; simp only [List.any_cons, hg, Sense.holds, Bool.true_or]; exact .bool _
              | false => simp only [List.any_cons, hg, Sense.holds, Bool.false_or]; exact next he
        exact loop t.postings s1 (fun _ h => h) (eval_kept env t c p st _ _ h1) (eval_reachable c hr h1) he
      · simp only [eval, h1] at he
        have hsen : (Ast.unary op c).sense env t p = (c.sense env t p).unary env p op := by
          cases op <;> first | exact absurd rfl hany | rfl
        rw [hsen]
        cases hu' : evalUnary env p op w with
        | error e => cases op <;> first | exact absurd rfl hany | (simp only [hu'] at he; cases he)
        | ok x =>
          have : x = v := by cases op <;> first | exact absurd rfl hany | (simp only [hu'] at he; cases he; rfl)
          subst this
          exact unary_shows hany hv hu hsh hu'
  | binary op l r ihl ihr =>
    intro p st st' ty v ht hp hw hr h hx he
    simp only [Ast.type] at h
    split at h
    · cases h
    · obtain ⟨a, ha, h0⟩ := Option.bind_eq_some_iff.mp h
      obtain ⟨b, hb, hty⟩ := Option.bind_eq_some_iff.mp h0
      have hl : l.FitsTxn only t := ⟨fun e => ht.date (by simp [Ast.has, e]), fun q hq => (ht.postings q hq).left⟩
      have hrt : r.FitsTxn only t := ⟨fun e => ht.date (by simp [Ast.has, e]), fun q hq => (ht.postings q hq).right⟩
      have hwl : l.Written env only st := fun d hd c hc => hw d hd c (by simp [Ast.commodities, hc])
      have hwr : r.Written env only st := fun d hd c hc => hw d hd c (by simp [Ast.commodities, hc])
      simp only [Ast.apart, Bool.and_eq_true, Bool.or_eq_true, Bool.not_eq_true', decide_eq_false_iff_not] at hx
      obtain ⟨⟨x1, x2⟩, x3⟩ := hx
      obtain ⟨u, s1, h1, hv⟩ := type_sound l hl hp.left hwl hr ha
      have hr1 := eval_reachable l hr h1
      have hk1 := Ast.Written.kept hwr (eval_kept env t l p st _ _ h1)
      obtain ⟨w, s2, h2, hw2⟩ := type_sound r hrt hp.right hk1 hr1 hb
      simp only [eval, h1, h2] at he
      cases hbin : evalBinary env t op u w with
      | error e => rw [hbin] at he; cases he
      | ok x =>
        rw [hbin] at he
        cases he
        exact binary_shows hv hw2 (ihl hl hp.left hwl hr ha x1 h1) (ihr hrt hp.right hk1 hr1 hb x2 h2) hty
          (x3.imp_right (fun hn ⟨e1, e2, e3⟩ => hn ⟨e1, by rw [ha, e2], by rw [hb, e3]⟩)) hbin

/-! ### What the reports select -/

theorem filterPosting_asks {env : Env} {o : ReportOpts} {node : Option Ast} {factor : Prop} {only : Option Cur}
    {t : Txn Posting} {p : Posting} {st st' : Commodities} {b : Bool}
    (hn : ∀ n, node = some n → n.HasType env only .bool ∧ n.apart env only.isSome = true)
    (hd : t.date.isSome) (ht : ∀ q ∈ t.postings, Rich True factor only q) (hp : Rich True factor only p)
    (hr : st.Reachable env.lower) (hk : Known env only st) (h : filterPosting env o.filter node t p st = .ok (b, st')) :
    b = o.asks env node t p := by
  obtain ⟨d, hd'⟩ := Option.isSome_iff_exists.mp hd
  have key := C42_filter env o.filter node t p st d hd'
  have hscope : ∀ x : Bool, ((!o.filter.real || decide (p.kind = .real)) &&
      o.filter.fromDate.all (fun d => t.date.any (fun x => decide (d ≤ x))) &&
      o.filter.toDate.all (fun d => t.date.any (fun x => decide (x < d))) && x) =
      (decide ((o.filter.real = true → p.kind = .real) ∧ (∀ b, o.filter.fromDate = some b → b ≤ d) ∧
        (∀ e, o.filter.toDate = some e → d < e)) && x) := by
    intro x
    rw [hd']
    cases o.filter.real <;> cases o.filter.fromDate <;> cases o.filter.toDate <;>
      simp [Bool.and_assoc]
  unfold ReportOpts.asks
  rw [hscope]
  by_cases hin : (o.filter.real = true → p.kind = .real) ∧ (∀ b, o.filter.fromDate = some b → b ≤ d) ∧
      (∀ e, o.filter.toDate = some e → d < e)
  · cases node with
    | none =>
      rw [key.2.1 hin rfl] at h
      cases h
      simp only [decide_eq_true hin]
      rfl
    | some n =>
      obtain ⟨h1, h2⟩ := hn n rfl
      have he := ((key.2.2 hin n rfl).1 b st').mp h
      have hs := eval_shows n ⟨fun _ => hd, fun q hq => (ht q hq).fits (fun _ => trivial)⟩ (hp.fits (fun _ => trivial))
        (h1.written hk) hr h1.1 h2 he
      generalize hg : n.sense env t p = g at hs
      cases hs
      simp only [decide_eq_true hin, Option.all_some, hg, Sense.holds, Bool.true_and]
  · rw [key.1 hin] at h
    cases h
    simp only [decide_eq_false hin, Bool.false_and]

theorem selects_asked {env : Env} {o : ReportOpts} {node : Option Ast} {factor : Prop} {only : Option Cur}
    {l sel : List (Txn Posting × Posting)} {st st' : Commodities}
    (hn : ∀ n, node = some n → n.HasType env only .bool ∧ n.apart env only.isSome = true)
    (h : Selects env o.filter node l st sel st')
    (hl : ∀ x ∈ l, x.1.date.isSome ∧ (∀ q ∈ x.1.postings, Rich True factor only q) ∧ Rich True factor only x.2)
    (hr : st.Reachable env.lower) (hk : Known env only st) : sel = l.filter (fun x => o.asks env node x.1 x.2) := by
  have step : ∀ (x : Txn Posting × Posting) {st st' : Commodities} {b : Bool},
      (x.1.date.isSome ∧ (∀ q ∈ x.1.postings, Rich True factor only q) ∧ Rich True factor only x.2) →
      st.Reachable env.lower → Known env only st → filterPosting env o.filter node x.1 x.2 st = .ok (b, st') →
      b = o.asks env node x.1 x.2 ∧ st'.Reachable env.lower ∧ Known env only st' := by
    intro x st st' b hx hr hk h
    refine ⟨filterPosting_asks hn hx.1 hx.2.1 hx.2.2 hr hk h, ?_⟩
    obtain ⟨b', s', h', h1, h2⟩ := filterPosting_typed (o := o.filter) (fun n hh => (hn n hh).1) trivial hx.1 hx.2.1 hx.2.2 hr hk
    rw [h] at h'
    cases h'
    exact ⟨h1, h2⟩
  induction h with
  | nil => rfl
  | @keep x rest sel st st' st'' h _ ih =>
    obtain ⟨h1, h2, h3⟩ := step x (hl x (by simp)) hr hk h
    rw [List.filter_cons_of_pos (by rw [← h1]), ← ih (fun y hy => hl y (by simp [hy])) h2 h3]
  | @drop x rest sel st st' st'' h _ ih =>
    obtain ⟨h1, h2, h3⟩ := step x (hl x (by simp)) hr hk h
    rw [List.filter_cons_of_neg (by rw [← h1]; simp), ← ih (fun y hy => hl y (by simp [hy])) h2 h3]

/-- What a report selects of a journal that makes sense. -/
theorem selected_asked {r : Run} {path : Str} {pl : ParsedLedger} {rules : List (Txn RawPosting × Ast)}
    {only : Option Cur} {skip : Bool} {L : Ledger} {o : ReportOpts} {node : Option Ast} {sel : List (Txn Posting × Posting)}
    (h : r.journal path = .ok pl) (hs : pl.Sound r.env only rules) (hl : r.ledger skip path = .ok L)
    (hq : ClearQuery r.env only o.query node) (hsel : Selected r.env o L sel) :
    sel = askedOf r.env o node L.transactions := by
  obtain ⟨node', st, hn, hsel⟩ := hsel
  rw [hq.1] at hn
  cases hn
  obtain ⟨k1, k2⟩ := ledger_rich h hs.totals hs.nodes hs.typed hs.single hs.serves hs.stated hl
  have hok := ledger_reachable h hl
  rw [selects_asked hq.2 hsel (fun x hx => by
    obtain ⟨t, ht, hx⟩ := List.mem_flatMap.mp hx
    obtain ⟨p, hp, rfl⟩ := List.mem_map.mp hx
    exact ⟨(k2 t ht).1, (k2 t ht).2, (k2 t ht).2 p hp⟩) hok.commodities k1]
  unfold Ledger.entries askedOf
  generalize L.transactions = ts
  induction ts with
  | nil => rfl
  | cons t ts ih =>
    rw [List.flatMap_cons, List.flatMap_cons, List.filter_append, ih]
    congr 1
    rw [List.filter_map]
    rfl

end Dinero
