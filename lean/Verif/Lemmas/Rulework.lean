import Verif.Lemmas.Rules
import Verif.Model.Complaint
/-
Lemmas on what automated transactions do to the lists of names, and when they do not panic.
-/
namespace Dinero

/-! ### The lists stay as the operations make them -/

theorem ensure_reachable {T : Type} [Named T] {lower : Str → Str} {make : Str → T} {l l' : NList T}
    (hr : l.Reachable lower) {name : Str} (h : l.ensure lower make name = .ok l') : l'.Reachable lower := by
  unfold NList.ensure at h
  split at h
  · cases h; exact hr
  · cases h
  · cases h; exact .insert _ hr

theorem evalMoney_reachable {env : Env} {c : Str} {a : Rat} {st st' : Commodities} {v : Val}
    (hr : st.Reachable env.lower) (h : evalMoney env c a st = .ok (v, st')) : st'.Reachable env.lower := by
  unfold evalMoney at h
  split at h
  · cases h; exact hr
  · cases h
  · cases h; exact .insert _ hr

theorem anyLoop_reachable {lower : Str → Str} {f : Posting → Commodities → Res (Val × Commodities)}
    (hf : ∀ p (st : Commodities) v st', st.Reachable lower → f p st = .ok (v, st') → st'.Reachable lower) (ps : List Posting)
    {st st' : Commodities} {v : Val} (hr : st.Reachable lower) (h : anyLoop f ps st = .ok (v, st')) :
    st'.Reachable lower := by
  induction ps generalizing st with
  | nil => cases h; exact hr
  | cons p ps ih =>
    unfold anyLoop at h
    split at h
    · cases h
    · next s1 h1 => cases h; exact hf _ _ _ _ hr h1
    · next s1 h1 => exact ih (hf _ _ _ _ hr h1) h
    · cases h

theorem eval_reachable {env : Env} {t : Txn Posting} (n : Ast) {p : Posting} {st st' : Commodities} {v : Val}
    (hr : st.Reachable env.lower) (h : eval env t n p st = .ok (v, st')) : st'.Reachable env.lower := by
  induction n generalizing p st st' v with
  | amount =>
    unfold eval at h; split at h <;> cases h; exact hr
  | account => unfold eval at h; cases h; exact hr
  | payee => unfold eval at h; split at h <;> cases h; exact hr
  | note => unfold eval at h; cases h; exact hr
  | date => unfold eval at h; split at h <;> cases h; exact hr
  | regex => unfold eval at h; cases h; exact hr
  | string => unfold eval at h; cases h; exact hr
  | number => unfold eval at h; cases h; exact hr
  | money c a => unfold eval at h; exact evalMoney_reachable hr h
  | unary op child ih =>
    unfold eval at h
    split at h
    · cases h
    · next v1 s1 h1 =>
      have e1 := ih hr h1
      split at h
      · exact anyLoop_reachable (fun p st v st' hr hh => ih hr hh) _ e1 h
      · split at h
        · cases h; exact e1
        · cases h
  | binary op l r ihl ihr =>
    unfold eval at h
    split at h
    · cases h
    · next v1 s1 h1 =>
      split at h
      · cases h
      · next v2 s2 h2 =>
        split at h
        · cases h; exact ihr (ihl hr h1) h2
        · cases h

theorem filterExpression_reachable {env : Env} {t : Txn Posting} {n : Ast} {p : Posting}
    {st st' : Commodities} {b : Bool} (hr : st.Reachable env.lower)
    (h : filterExpression env t n p st = .ok (b, st')) : st'.Reachable env.lower := by
  unfold filterExpression at h
  split at h
  · cases h
  · next b s he => cases h; exact eval_reachable n hr he
  · cases h

theorem ruleMoney_reachable {env : Env} {t : Txn Posting} {p : Posting} {rp : RawPosting}
    {cs cs' : Commodities} {m : Money} (hr : cs.Reachable env.lower) (h : ruleMoney env t p rp cs = .ok (m, cs')) :
    cs'.Reachable env.lower := by
  unfold ruleMoney at h
  split at h
  · split at h
    · cases h
    · next e he =>
      unfold evalValueExpression at h
      split at h
      · cases h
      · next node hn =>
        unfold evalAmountNode at h
        split at h
        · cases h
        · next r st' hev =>
          split at h
          · cases h; exact eval_reachable node hr hev
          · cases h
        · next m' st' hev => cases h; exact eval_reachable node hr hev
        · cases h
  · split at h
    · cases h
    · cases h
    · split at h
      · cases h
      · cases h; exact hr
  · split at h
    · cases h
    · next cs1 hcs =>
      split at h
      · cases h
      · split at h
        · cases h
        · cases h; exact ensure_reachable hr hcs

theorem rulePayee_reachable {env : Env} {p : Posting} {rp : RawPosting} {ps ps' : NList PayeeDef} {n : Option Str}
    (hr : ps.Reachable env.lower) (h : rulePayee env p rp ps = .ok (n, ps')) : ps'.Reachable env.lower := by
  unfold rulePayee at h
  split at h
  · cases h; exact hr
  · split at h
    · cases h
    · next ps1 hps =>
      split at h
      · cases h; exact ensure_reachable hr hps
      · cases h

theorem rulePosting_reachable {env : Env} {t : Txn Posting} {p : Posting} {rp : RawPosting} {l l' : Lists}
    {q : Posting} (hr : l.Ok env.lower) (h : rulePosting env t p rp l = .ok (q, l')) : l'.Ok env.lower := by
  unfold rulePosting at h
  split at h
  · cases h
  · next accounts hacc =>
    split at h
    · cases h
    · next payee payees hpay =>
      split at h
      · cases h
      · split at h
        · cases h
        · next m cs hm =>
          cases h
          exact ⟨ensure_reachable hr.accounts hacc, rulePayee_reachable hr.payees hpay, ruleMoney_reachable hr.commodities hm⟩

theorem rulePostings_reachable {env : Env} {t : Txn Posting} {p : Posting} (rps : List RawPosting)
    {l l' : Lists} {qs : List Posting} (hr : l.Ok env.lower) (h : rulePostings env t p rps l = .ok (qs, l')) :
    l'.Ok env.lower := by
  induction rps generalizing l qs with
  | nil => cases h; exact hr
  | cons rp rps ih =>
    unfold rulePostings at h
    split at h
    · cases h
    · next q l1 h1 =>
      split at h
      · cases h
      · next qs' l2 h2 => cases h; exact ih (rulePosting_reachable hr h1) h2

theorem ruleLoop_reachable {env : Env} {node : Ast} {rule : Txn RawPosting} {t : Txn Posting}
    (todo : List Posting) {done extra ps ex : List Posting} {l l' : Lists} (hr : l.Ok env.lower)
    (h : ruleLoop env node rule t done todo extra l = .ok (ps, ex, l')) : l'.Ok env.lower := by
  induction todo generalizing done extra l with
  | nil => cases h; exact hr
  | cons p todo ih =>
    unfold ruleLoop at h
    split at h
    · exact ih hr h
    · split at h
      · cases h
      · next cs hf => exact ih (l := { l with commodities := cs }) ⟨hr.accounts, hr.payees, filterExpression_reachable hr.commodities hf⟩ h
      · next cs hf =>
        simp only at h
        split at h
        · cases h
        · next qs l1 hqs =>
          exact ih (rulePostings_reachable _ (l := { l with commodities := cs })
            ⟨hr.accounts, hr.payees, filterExpression_reachable hr.commodities hf⟩ hqs) h

theorem applyRules_reachable {env : Env} (rules : List (Txn RawPosting × Ast)) {t t' : Txn Posting}
    {l l' : Lists} (hr : l.Ok env.lower) (h : applyRules env rules t l = .ok (t', l')) : l'.Ok env.lower := by
  induction rules generalizing t l with
  | nil => cases h; exact hr
  | cons r rs ih =>
    unfold applyRules at h
    split at h
    · cases h
    · next t1 l1 h1 =>
      unfold applyRule at h1
      split at h1
      · cases h1
      · next ps ex l2 hl => cases h1; exact ih (ruleLoop_reachable _ hr hl) h

theorem automate_reachable {env : Env} {rules : List (Txn RawPosting × Ast)} (ts : List (Txn Posting))
    {ts' : List (Txn Posting)} {l l' : Lists} (hr : l.Ok env.lower)
    (h : automate env rules ts l = .ok (ts', l')) : l'.Ok env.lower := by
  induction ts generalizing l ts' with
  | nil => cases h; exact hr
  | cons t ts ih =>
    unfold automate at h
    split at h
    · cases h
    · next t1 l1 h1 =>
      split at h
      · cases h
      · next ts1 l2 h2 => cases h; exact ih (applyRules_reachable _ hr h1) h2

/-- The lists of a ledger. -/
theorem toLedger_reachable {env : Env} {o : LedgerOrders} {skip : Bool} {pl : ParsedLedger} {L : Ledger}
    (h : pl.lists.Ok env.lower) (hl : toLedger env o skip pl = .ok L) :
    Lists.Ok env.lower ⟨L.accounts, L.payees, L.commodities⟩ := by
  obtain ⟨l, hp, hb⟩ := toLedger_inv hl
  obtain ⟨l', hp', h2, _⟩ := populate_spec (o := o) h
  rw [hp] at hp'; cases hp'
  obtain ⟨dp, txns, autos, cp, sorted, ts, ip, ts', ap, l', hd, hc, hs, hbp, hap, rfl⟩ := buildLedger_inv hb
  unfold automatedPass at hap
  split at hap
  · split at hap
    · cases hap
    · split at hap
      · cases hap
      · next ts1 l1 ha =>
        split at hap
        · cases hap
        · cases hap; exact automate_reachable _ h2.ok ha
  · cases hap; exact h2.ok

theorem ledger_reachable {r : Run} {skip : Bool} {path : Str} {pl : ParsedLedger} {L : Ledger}
    (h : r.journal path = .ok pl) (hl : r.ledger skip path = .ok L) :
    Lists.Ok r.env.lower ⟨L.accounts, L.payees, L.commodities⟩ := by
  unfold Run.ledger at hl
  rw [h] at hl
  simp only at hl
  cases ht : toLedger r.env r.orders skip pl with
  | error e => rw [ht] at hl; cases hl
  | ok L' => rw [ht] at hl; cases hl; exact toLedger_reachable (C83_wellformed h).1.lists ht

/-! ### The steps of building a ledger -/

theorem toLedger_stages {env : Env} {o : LedgerOrders} {pl : ParsedLedger} (h : pl.Ok env.lower) (hz : pl.NoFreeTotals) :
    ∃ l listed converted, populate env o pl = .ok l ∧ l.Ok env.lower ∧
      (∀ t ∈ pl.transactions, ∀ p ∈ t.postings, Resolves env.lower l p) ∧ DateOrder pl.regular listed ∧
      List.Forall₂ (fun raw t => t.header = raw.header ∧ t.ttype = .real ∧
        List.Forall₂ (WrittenAs env l raw) raw.postings t.postings) listed converted ∧
      (∀ t ∈ converted, t.date.isSome ∧ ∀ q ∈ t.postings,
        q.CostOk ∧ ((initialBalances l.accounts).get? q.account).isSome) ∧
      (∀ skip q, ledgerText env o q skip pl =
        match balancePass skip o.fill o.rate (initialBalances l.accounts) converted with
        | .error _ => passText q skip o.fill (initialBalances l.accounts) converted
        | .ok (ts, _) => automatedText env o q skip pl.automated ts l) ∧
      ∀ skip, (∀ e, balancePass skip o.fill o.rate (initialBalances l.accounts) converted = .error e →
          toLedger env o skip pl = .error e) ∧
        ∀ ts prs, balancePass skip o.fill o.rate (initialBalances l.accounts) converted = .ok (ts, prs) →
          (∀ e, automatedPass env o skip pl.automated ts l = .error e → toLedger env o skip pl = .error e) ∧
          ∀ x, automatedPass env o skip pl.automated ts l = .ok x → ∃ L, toLedger env o skip pl = .ok L ∧
            L.transactions = x.1 ∧ (⟨L.accounts, L.payees, L.commodities⟩ : Lists) = x.2.2 := by
  obtain ⟨l, h1, h2, _⟩ := populate_spec (o := o) h.lists
  have hreg : ∀ t ∈ pl.regular, Converts env o.unknown l t (convOf env o.unknown l t) := by
    intro t htr
    have hm := List.mem_filter.mp htr
    obtain ⟨r, hr⟩ := convertTxn_ok (fun p hp => convertPosting_ok (h.dated t htr) (h.postings t htr p hp)
      (h2.postings t hm.1 p hp) (hz t htr p hp))
    have hr' : Converts env o.unknown l t r := hr
    rw [← converts_convOf hr']; exact hr'
  have hconv : ∀ t ∈ pl.transactions, t.ttype = .real → ∃ r, Converts env o.unknown l t r := by
    intro t ht hk
    exact ⟨_, hreg t (List.mem_filter.mpr ⟨ht, by simpa using hk⟩)⟩
  have hsm : sortBy dateLe (pl.regular.map (fun t => (convOf env o.unknown l t).1)) =
      (sortBy dateLe pl.regular).map (fun t => (convOf env o.unknown l t).1) := by
    apply sortBy_map
    intro a ha b hb
    unfold dateLe
    rw [convOf_date (hreg a ha), convOf_date (hreg b hb)]
  have hall : ∀ t ∈ (sortBy dateLe pl.regular).map (fun t => (convOf env o.unknown l t).1),
      t.date.isSome ∧ ∀ q ∈ t.postings,
        q.CostOk ∧ ((initialBalances l.accounts).get? q.account).isSome := by
    intro t ht
    obtain ⟨raw, hraw, rfl⟩ := List.mem_map.mp ht
    have hraw := (mem_sortBy _ _ _).mp hraw
    refine ⟨by rw [convOf_date (hreg raw hraw)]; exact h.dated raw hraw, ?_⟩
    intro q hq
    obtain ⟨c1, k, x, c2, c3⟩ := convertTxn_costOk (t := (convOf env o.unknown l raw).1)
      (prs := (convOf env o.unknown l raw).2) (hreg raw hraw) q hq
    exact ⟨c1, by rw [← c3]; exact (initialBalances_get l.accounts).1 k x c2⟩
  obtain ⟨dp, hdp⟩ := directivePrices_ok pl.prices h2.prices
  have hsort : sortByDate (pl.regular.map (fun t => (convOf env o.unknown l t).1)) =
      .ok ((sortBy dateLe pl.regular).map (fun t => (convOf env o.unknown l t).1)) := by
    rw [← hsm]
    unfold sortByDate
    rw [if_neg]
    · rfl
    · intro hany
      obtain ⟨t, ht, hn⟩ := List.any_eq_true.mp hany
      have := (hall t (by rw [← hsm]; exact (mem_sortBy _ _ _).mpr ht)).1
      rw [Option.isNone_iff_eq_none.mp hn] at this
      cases this
  refine ⟨l, sortBy dateLe pl.regular, _, h1, h2.ok, h2.postings, dateOrder_sortBy h.dated, ?_, hall, ?_, ?_⟩
  · rw [List.forall₂_map_right_iff]
    rw [List.forall₂_same]
    intro raw hraw
    have hcv := hreg raw ((mem_sortBy _ _ _).mp hraw)
    obtain ⟨ps, _, i2, _, i4, _⟩ :=
      convertTxn_inv (t := (convOf env o.unknown l raw).1) (prs := (convOf env o.unknown l raw).2) hcv
    obtain ⟨qs, j1, j2, _⟩ := convertTxn_postings (t := (convOf env o.unknown l raw).1)
      (prs := (convOf env o.unknown l raw).2) hcv
    refine ⟨i2, i4, ?_⟩
    rw [j2, List.forall₂_map_right_iff]
    exact j1.imp (fun _ _ hh => hh.written)
  · intro skip q
    unfold ledgerText
    rw [h1]
    simp only
    rw [hdp]
    simp only
    rw [convertAll_of _ hconv]
    simp only
    rw [show (pl.transactions.filter (fun t => t.ttype = .real)) = pl.regular from rfl, hsort]
    simp only
    rw [show (pl.transactions.filter (fun t => t.ttype = .automated)) = pl.automated from rfl]
    cases balancePass skip o.fill o.rate (initialBalances l.accounts)
      ((sortBy dateLe pl.regular).map (fun t => (convOf env o.unknown l t).1)) <;> rfl
  · intro skip
    unfold toLedger
    rw [h1]
    simp only
    unfold buildLedger
    rw [hdp]
    simp only
    rw [convertAll_of _ hconv]
    simp only
    rw [show (pl.transactions.filter (fun t => t.ttype = .real)) = pl.regular from rfl, hsort]
    simp only
    rw [show (pl.transactions.filter (fun t => t.ttype = .automated)) = pl.automated from rfl]
    refine ⟨fun e he => by rw [he], fun ts prs hb => ⟨fun e he => by rw [hb]; simp only [he], fun x hx => ?_⟩⟩
    rw [hb]
    simp only [hx]
    exact ⟨_, rfl, rfl, rfl⟩

theorem toLedger_steps {env : Env} {o : LedgerOrders} {pl : ParsedLedger} (h : pl.Ok env.lower) (hz : pl.NoFreeTotals) :
    ∃ l listed converted, populate env o pl = .ok l ∧ l.Ok env.lower ∧
      (∀ t ∈ pl.transactions, ∀ p ∈ t.postings, Resolves env.lower l p) ∧ DateOrder pl.regular listed ∧
      List.Forall₂ (fun raw t => t.header = raw.header ∧ t.ttype = .real ∧
        List.Forall₂ (WrittenAs env l raw) raw.postings t.postings) listed converted ∧
      (∀ t ∈ converted, t.date.isSome ∧ ∀ q ∈ t.postings,
        q.CostOk ∧ ((initialBalances l.accounts).get? q.account).isSome) ∧
      ∀ skip, (∀ e, balancePass skip o.fill o.rate (initialBalances l.accounts) converted = .error e →
          toLedger env o skip pl = .error e) ∧
        ∀ ts prs, balancePass skip o.fill o.rate (initialBalances l.accounts) converted = .ok (ts, prs) →
          (∀ e, automatedPass env o skip pl.automated ts l = .error e → toLedger env o skip pl = .error e) ∧
          ∀ x, automatedPass env o skip pl.automated ts l = .ok x → ∃ L, toLedger env o skip pl = .ok L ∧
            L.transactions = x.1 ∧ (⟨L.accounts, L.payees, L.commodities⟩ : Lists) = x.2.2 := by
  obtain ⟨l, listed, converted, h1, h2, h3, h4, h5, h6, _, h7⟩ := toLedger_stages (o := o) h hz
  exact ⟨l, listed, converted, h1, h2, h3, h4, h5, h6, h7⟩

/-! ### Rules that always apply -/

/-- The condition of the rule always has an answer. -/
def Answers (env : Env) (n : Ast) (b : Posting → Bool) : Prop :=
  ∀ (t : Txn Posting) (p : Posting) st, filterExpression env t n p st = .ok (b p, st)

/-- The posting of a rule applies to the posting `p`. -/
def RawPosting.Applies (rp : RawPosting) (p : Posting) : Prop :=
  rp.payee = none ∧ ∃ c a, rp.moneyCurrency = some c ∧ rp.moneyAmount = some a ∧
    (c = [] → ∃ x d, p.amount = some (.mk x d))

theorem ruleMoney_ok {env : Env} {t : Txn Posting} {p : Posting} {rp : RawPosting} {cs : Commodities}
    (hr : cs.Reachable env.lower) (ha : rp.Applies p) : ∃ x, ruleMoney env t p rp cs = .ok x := by
  obtain ⟨_, c, a, h1, h2, h3⟩ := ha
  unfold ruleMoney
  rw [h1, h2]
  cases c with
  | nil =>
    obtain ⟨x, d, hx⟩ := h3 rfl
    rw [hx]
    exact ⟨_, rfl⟩
  | cons k c =>
    obtain ⟨cs', e1, _, _, y, hy⟩ := ensure_spec (make := currencyOf) (fun _ => rfl) (fun _ => rfl) hr (k :: c)
    simp only [e1, commodityNamed, hy]
    exact ⟨_, rfl⟩

theorem rulePosting_ok {env : Env} {t : Txn Posting} {p : Posting} {rp : RawPosting} {l : Lists}
    (hr : l.Ok env.lower) (ha : rp.Applies p) : ∃ x, rulePosting env t p rp l = .ok x := by
  obtain ⟨as, e1, _, _, y, hy⟩ := ensure_spec (make := accountOf) (fun _ => rfl) (fun _ => rfl) hr.accounts rp.account
  obtain ⟨⟨m, cs⟩, hm⟩ := ruleMoney_ok (t := t) hr.commodities ha
  unfold rulePosting
  simp only [e1, rulePayee, ha.1, hy, hm]
  exact ⟨_, rfl⟩

theorem rulePostings_ok {env : Env} {t : Txn Posting} {p : Posting} (rps : List RawPosting) {l : Lists}
    (hr : l.Ok env.lower) (ha : ∀ rp ∈ rps, rp.Applies p) : ∃ x, rulePostings env t p rps l = .ok x := by
  induction rps generalizing l with
  | nil => exact ⟨_, rfl⟩
  | cons rp rps ih =>
    obtain ⟨⟨q, l1⟩, h1⟩ := rulePosting_ok (t := t) hr (ha rp (by simp))
    obtain ⟨⟨qs, l2⟩, h2⟩ := ih (rulePosting_reachable hr h1) (fun r h => ha r (by simp [h]))
    unfold rulePostings
    simp only [h1, h2]
    exact ⟨_, rfl⟩

/-- All postings of a rule apply to the own postings among these. -/
def FitFor (rps : List RawPosting) (ps : List Posting) : Prop :=
  ∀ p ∈ ps, p.origin = .fromTransaction → ∀ rp ∈ rps, rp.Applies p

theorem ruleLoop_ok {env : Env} {node : Ast} {rule : Txn RawPosting} {t : Txn Posting} {b : Posting → Bool}
    (hn : Answers env node b) (todo : List Posting) {done extra : List Posting} {l : Lists} (hr : l.Ok env.lower)
    (ha : FitFor rule.postings todo) : ∃ x, ruleLoop env node rule t done todo extra l = .ok x := by
  induction todo generalizing done extra l with
  | nil => exact ⟨_, rfl⟩
  | cons p todo ih =>
    have ha' : FitFor rule.postings todo := fun q hq => ha q (by simp [hq])
    unfold ruleLoop
    split
    · exact ih hr ha'
    · next ho =>
      have ho : p.origin = .fromTransaction := not_not.mp ho
      rw [hn]
      cases hb : b p with
      | false => exact ih (l := { l with commodities := l.commodities }) hr ha'
      | true =>
        simp only
        have hap : ∀ rp ∈ rule.postings,
            rp.Applies { p with tags := p.tags ++ rule.comments.flatMap getTags } := ha p (by simp) ho
        obtain ⟨⟨qs, l1⟩, h1⟩ := rulePostings_ok (t := { t with postings :=
          done ++ { p with tags := p.tags ++ rule.comments.flatMap getTags } :: todo })
          rule.postings (l := { l with commodities := l.commodities }) hr hap
        simp only [h1]
        exact ih (rulePostings_reachable _ (l := { l with commodities := l.commodities }) hr h1) ha'

theorem SameUpToTags.applies {p q : Posting} (h : SameUpToTags p q) {rp : RawPosting} (ha : rp.Applies p) :
    rp.Applies q := by
  unfold RawPosting.Applies at ha ⊢
  rw [h.1]; exact ha

theorem applyRules_ok {env : Env} (rules : List (Txn RawPosting × Ast)) {t : Txn Posting} {l : Lists}
    (hr : l.Ok env.lower) (hn : ∀ r ∈ rules, ∃ b, Answers env r.2 b)
    (ha : ∀ r ∈ rules, FitFor r.1.postings t.postings) : ∃ x, applyRules env rules t l = .ok x := by
  induction rules generalizing t l with
  | nil => exact ⟨_, rfl⟩
  | cons r rs ih =>
    obtain ⟨b, hb⟩ := hn r (by simp)
    obtain ⟨⟨ps, ex, l1⟩, h1⟩ := ruleLoop_ok (t := t) (done := []) (extra := []) hb t.postings hr (ha r (by simp))
    unfold applyRules applyRule
    simp only [h1]
    obtain ⟨_, rows, a1, a2, a3⟩ := ruleLoop_spec t.postings (before := []) rfl .nil h1
    apply ih (ruleLoop_reachable _ hr h1) (fun r h => hn r (by simp [h]))
    intro r' hr' q hq ho rp hrp
    simp only at hq
    rw [a2, a3] at hq
    simp only [List.nil_append] at hq
    rcases List.mem_append.mp hq with hq | hq
    · obtain ⟨x, hx, rfl⟩ := List.mem_map.mp hq
      obtain ⟨p, hp, hR⟩ := Forall₂.mem_right a1 hx
      exact hR.same.applies (ha r' (by simp [hr']) p hp (by rw [hR.same.1] at ho; exact ho) rp hrp)
    · exfalso
      obtain ⟨x, hx, hqx⟩ := List.mem_flatMap.mp hq
      obtain ⟨p, hp, hR⟩ := Forall₂.mem_right a1 hx
      cases hR with
      | notOwn _ => cases hqx
      | unmatched _ _ _ => cases hqx
      | matched _ _ _ _ _ hall =>
        obtain ⟨rp', _, hg⟩ := Forall₂.mem_right hall hqx
        rw [hg.rest.2.1] at ho; cases ho

theorem automate_ok {env : Env} {rules : List (Txn RawPosting × Ast)} (ts : List (Txn Posting)) {l : Lists}
    (hr : l.Ok env.lower) (hn : ∀ r ∈ rules, ∃ b, Answers env r.2 b)
    (ha : ∀ t ∈ ts, ∀ r ∈ rules, FitFor r.1.postings t.postings) : ∃ x, automate env rules ts l = .ok x := by
  induction ts generalizing l with
  | nil => exact ⟨_, rfl⟩
  | cons t ts ih =>
    obtain ⟨⟨t1, l1⟩, h1⟩ := applyRules_ok rules hr hn (ha t (by simp))
    obtain ⟨⟨ts2, l2⟩, h2⟩ := ih (applyRules_reachable _ hr h1) (fun u hu => ha u (by simp [hu]))
    unfold automate
    simp only [h1, h2]
    exact ⟨_, rfl⟩

/-! ### Rules on accounts -/

theorem query_nonempty (env : Env) (words : List Str) :
    preprocessQuery env words = preprocessQuery env (words.filter (· ≠ [])) := by
  have key : ∀ (ws : List Str) (st : QueryState),
      ws.foldl (queryStep env) st = (ws.filter (· ≠ [])).foldl (queryStep env) st := by
    intro ws
    induction ws with
    | nil => intro st; rfl
    | cons w ws ih =>
      intro st
      by_cases hw : w = []
      · rw [List.filter_cons_of_neg (by simp [hw]), List.foldl_cons, ← ih, hw]
        rfl
      · rw [List.filter_cons_of_pos (by simp [hw]), List.foldl_cons, List.foldl_cons, ih]
  unfold preprocessQuery
  rw [key]

theorem pattern_node {env : Env} (ha : env.AsciiSep) (hws : env.ws ' ' = true) {a : Txn RawPosting} {pats : List Str}
    (h : PatternRule env a pats) : ∃ n, buildRoot env (getFilterQuery env a.description none).1 = .ok n ∧
      Answers env n (fun p => byPatterns env pats p.account) := by
  obtain ⟨⟨words, hw, rfl⟩, hne, hp⟩ := h
  obtain ⟨n, hn, hf⟩ := patterns_node ha hp hne
  have hq : (getFilterQuery env a.description none).1 =
      preprocessQuery env ((words.map (·.filter (· ≠ '"'))).filter (· ≠ [])) := by
    obtain ⟨words', hw', he, _⟩ := C68_words env hws a.description
    rw [he, C68_split_unique _ _ _ hw' hw, query_nonempty]
  refine ⟨n, ?_, hf⟩
  rw [hq]
  unfold queryNode at hn
  simp only at hn
  split at hn
  · split at hn
    · next hb => cases hn; exact hb
    · cases hn
  · cases hn

/-- The rules with their conditions. -/
def Nodes (env : Env) (rules : List AccountRule) (rs : List (Txn RawPosting × Ast)) : Prop :=
  List.Forall₂ (fun r n => n.1 = r.1 ∧ Answers env n.2 (r.catches env)) rules rs

theorem accountRules_nodes {env : Env} (ha : env.AsciiSep) (hws : env.ws ' ' = true) {autos : List (Txn RawPosting)}
    {rules : List AccountRule} (h : List.Forall₂ (fun a r => r.1 = a ∧ PatternRule env a r.2) autos rules) :
    ∃ rs, ruleNodes env autos = .ok rs ∧ Nodes env rules rs := by
  induction h with
  | nil => exact ⟨[], rfl, .nil⟩
  | @cons a r autos rules h1 _ ih =>
    obtain ⟨rs, i1, i2⟩ := ih
    obtain ⟨n, hn, hf⟩ := pattern_node ha hws h1.2
    refine ⟨(a, n) :: rs, ?_, .cons ⟨h1.1.symm, hf⟩ i2⟩
    unfold ruleNodes
    rw [hn]
    simp only [i1]

theorem nodes_unique {env : Env} (ha : env.AsciiSep) (hws : env.ws ' ' = true) {autos : List (Txn RawPosting)}
    {rules : List AccountRule} (h : List.Forall₂ (fun a r => r.1 = a ∧ PatternRule env a r.2) autos rules)
    {rs : List (Txn RawPosting × Ast)} (hr : RuleNodes env autos rs) : Nodes env rules rs := by
  induction h generalizing rs with
  | nil => cases hr; exact .nil
  | @cons a r autos rules h1 _ ih =>
    cases hr with
    | cons g1 g2 =>
      obtain ⟨n, hn, hf⟩ := pattern_node ha hws h1.2
      refine .cons ⟨by rw [g1.1, h1.1], ?_⟩ (ih g2)
      have := g1.2
      rw [hn] at this; cases this
      exact hf

theorem Generated.adds {env : Env} {l : Lists} {u : Txn Posting} {p p' : Posting} {rp : RawPosting} {q : Posting}
    (hg : Generated env l u p' rp q) (hs : SameUpToTags p p') (hp : rp.payee = none) (hm : rp.moneyCurrency.isSome) :
    Adds env l p rp q := by
  obtain ⟨m, hm1, hm2⟩ := hg.amount
  have hpay := hg.payee
  rw [hp] at hpay
  simp only at hpay
  obtain ⟨k1, k2, k3, k4, k5, k6⟩ := hg.rest
  refine ⟨hg.account, ?_, ?_⟩
  · rcases hm2 with ⟨c, n, a, g1, g2, g3, g4, rfl⟩ | ⟨x, c, f, g1, g2, g3, rfl⟩ | ⟨e, node, v, cs1, cs2, g1, _⟩
    · exact .inl ⟨c, n, a, g1, g2, g3, g4, hm1⟩
    · exact .inr ⟨x, c, f, g1, g2, by rw [hs.1] at g3; exact g3, hm1⟩
    · rw [g1] at hm; cases hm
  · have : p'.payee = p.payee := by rw [hs.1]
    rw [this] at hpay
    cases q
    simp_all

/-- What one rule on accounts does. -/
theorem ruleOn_account {env : Env} {l : Lists} {r : AccountRule} {n : Txn RawPosting × Ast} {t : Txn Posting}
    (h1 : n.1 = r.1) (h2 : Answers env n.2 (r.catches env)) (hst : ∀ rp ∈ r.1.postings, rp.payee = none ∧ rp.moneyCurrency.isSome)
    {own : List Posting} {rows : List (Posting × List Posting)} (h : List.Forall₂ (RuleOn env l n t) own rows)
    (ho : ∀ p ∈ own, p.origin = .fromTransaction) :
    rows.map Prod.fst = own.map (fun p => if r.catches env p = true then
      { p with tags := p.tags ++ r.1.comments.flatMap getTags } else p) ∧
    List.Forall₂ (fun x q => Adds env l x.1 x.2 q)
      ((own.filter (r.catches env)).flatMap (fun p => r.1.postings.map (fun rp => (p, rp)))) (rows.flatMap Prod.snd) := by
  induction h with
  | nil => exact ⟨rfl, .nil⟩
  | @cons p row own rows hR _ ih =>
    obtain ⟨i1, i2⟩ := ih (fun q hq => ho q (by simp [hq]))
    have hop := ho p (by simp)
    cases hR with
    | notOwn hno => exact absurd hop hno
    | unmatched _ _ hf =>
      rw [h2] at hf
      have hb : r.catches env p = false := by injection hf with hf; injection hf
      simp only [List.map_cons, List.flatMap_cons, List.filter_cons, hb, List.nil_append, i1]
      exact ⟨by simp, by simpa using i2⟩
    | @matched u u' cs cs' p' block _ _ _ hf hp' hall =>
      rw [h2] at hf
      have hb : r.catches env p = true := by injection hf with hf; injection hf
      rw [h1] at hp' hall
      simp only [List.map_cons, List.flatMap_cons, List.filter_cons, hb, if_true, i1]
      refine ⟨by rw [hp'], forall₂_append ?_ i2⟩
      rw [List.forall₂_map_left_iff]
      have hs : SameUpToTags p p' := by rw [hp']; exact .tag p _
      have key : ∀ {rps : List RawPosting} {block : List Posting}, (∀ rp ∈ rps, rp.payee = none ∧ rp.moneyCurrency.isSome) →
          List.Forall₂ (Generated env l u' p') rps block → List.Forall₂ (fun rp q => Adds env l p rp q) rps block := by
        intro rps block hh hg
        induction hg with
        | nil => exact .nil
        | cons hg _ ih => exact .cons (hg.adds hs (hh _ (by simp)).1 (hh _ (by simp)).2) (ih (fun rp hrp => hh rp (by simp [hrp])))
      exact key hst hall

/-- The posting with the tags of the rule, if it is for it. -/
def AccountRule.tag (env : Env) (r : AccountRule) (p : Posting) : Posting :=
  if r.catches env p = true then { p with tags := p.tags ++ r.1.comments.flatMap getTags } else p

theorem AccountRule.tag_same (env : Env) (r : AccountRule) (p : Posting) : SameUpToTags p (r.tag env p) := by
  unfold AccountRule.tag
  split
  · exact .tag p _
  · exact .refl p

theorem SameUpToTags.adds {env : Env} {l : Lists} {p p' : Posting} (h : SameUpToTags p p') {rp : RawPosting} {q : Posting}
    (ha : Adds env l p' rp q) : Adds env l p rp q := by
  have h1 : p'.amount = p.amount := by rw [h.1]
  have h2 : p'.payee = p.payee := by rw [h.1]
  obtain ⟨a1, a2, a3⟩ := ha
  rw [h1] at a2
  rw [h2] at a3
  exact ⟨a1, a2, a3⟩

theorem SameUpToTags.catches {env : Env} {p p' : Posting} (h : SameUpToTags p p') (r : AccountRule) :
    r.catches env p' = r.catches env p := by
  unfold AccountRule.catches
  rw [h.1]

theorem adds_untag {env : Env} {l : Lists} {r r' : AccountRule} {own : List Posting} {extra : List Posting}
    (h : List.Forall₂ (fun x q => Adds env l x.1 x.2 q)
      (((own.map (r'.tag env)).filter (r.catches env)).flatMap (fun p => r.1.postings.map (fun rp => (p, rp)))) extra) :
    List.Forall₂ (fun x q => Adds env l x.1 x.2 q)
      ((own.filter (r.catches env)).flatMap (fun p => r.1.postings.map (fun rp => (p, rp)))) extra := by
  have : ((own.map (r'.tag env)).filter (r.catches env)).flatMap (fun p => r.1.postings.map (fun rp => (p, rp))) =
      ((own.filter (r.catches env)).flatMap (fun p => r.1.postings.map (fun rp => (p, rp)))).map
        (fun x => (r'.tag env x.1, x.2)) := by
    rw [List.filter_map]
    have hc : (r.catches env ∘ r'.tag env) = r.catches env := by
      funext p; exact (r'.tag_same env p).catches r
    rw [hc, List.flatMap_map, List.map_flatMap]
    simp [List.map_map, Function.comp_def]
  rw [this, List.forall₂_map_left_iff] at h
  exact h.imp (fun x q hx => (r'.tag_same env x.1).adds hx)

theorem forall₂_split {α β : Type} {R : α → β → Prop} {a b : List α} {rows : List β} (h : List.Forall₂ R (a ++ b) rows) :
    ∃ u v, rows = u ++ v ∧ List.Forall₂ R a u ∧ List.Forall₂ R b v := by
  induction a generalizing rows with
  | nil => exact ⟨[], rows, rfl, .nil, h⟩
  | cons x a ih =>
    cases h with
    | cons h1 h2 =>
      obtain ⟨u, v, rfl, i1, i2⟩ := ih h2
      exact ⟨_ :: u, v, rfl, .cons h1 i1, i2⟩

/-- The rules one after the other. -/
theorem rulesOn_account {env : Env} {l : Lists} {rules : List AccountRule} {rs : List (Txn RawPosting × Ast)}
    (hN : Nodes env rules rs)
    (hst : ∀ r ∈ rules, ∀ rp ∈ r.1.postings, rp.payee = none ∧ rp.moneyCurrency.isSome)
    {t t' : Txn Posting} (h : RulesOn env l rs t t') {own before : List Posting} (ht : t.postings = own ++ before)
    (ho : ∀ p ∈ own, p.origin = .fromTransaction) (hb : ∀ p ∈ before, p.origin = .automated) :
    ∃ extra, t' = { t with postings := own.map (fun p => { p with
        tags := p.tags ++ (rules.filter (·.catches env p)).flatMap (fun r => r.1.comments.flatMap getTags) }) ++
          (before ++ extra) } ∧
      List.Forall₂ (fun x q => Adds env l x.1 x.2 q)
        (rules.flatMap (fun r => (own.filter (r.catches env)).flatMap (fun p => r.1.postings.map (fun rp => (p, rp)))))
        extra := by
  induction hN generalizing t t' own before with
  | nil =>
    cases h
    refine ⟨[], ?_, .nil⟩
    simp only [List.filter_nil, List.flatMap_nil, List.append_nil, List.map_id']
    rw [← ht]
  | @cons r n rules rs h1 hN ih =>
    cases h with
    | @cons _ _ _ _ rows g1 g2 =>
      rw [ht] at g1
      obtain ⟨u, v, rfl, f1, f2⟩ := forall₂_split g1
      obtain ⟨a1, a2⟩ := ruleOn_account h1.1 h1.2 (hst r (by simp)) f1 ho
      have hv : v.map Prod.fst = before ∧ v.flatMap Prod.snd = [] := by
        clear g1 g2 ht
        induction f2 with
        | nil => exact ⟨rfl, rfl⟩
        | @cons p row before rows hR _ ih =>
          obtain ⟨i1, i2⟩ := ih (fun q hq => hb q (by simp [hq]))
          have hp := hb p (by simp)
          cases hR with
          | notOwn _ => exact ⟨by simp [i1], by simp [i2]⟩
          | unmatched hno _ _ => rw [hp] at hno; cases hno
          | matched hno _ _ _ _ _ => rw [hp] at hno; cases hno
      have hu : u.map Prod.fst = own.map (r.tag env) := a1
      have hx : ∀ q ∈ u.flatMap Prod.snd, q.origin = .automated := by
        intro q hq
        obtain ⟨x, _, hx⟩ := Forall₂.mem_right a2 hq
        rw [hx.rest]
      obtain ⟨extra, e1, e2⟩ := ih (fun r hr => hst r (by simp [hr])) g2
        (own := own.map (r.tag env)) (before := before ++ u.flatMap Prod.snd)
        (by simp [hu, hv.1, hv.2])
        (by
          intro p hp
          obtain ⟨p0, hp0, rfl⟩ := List.mem_map.mp hp
          rw [(r.tag_same env p0).1]; exact ho p0 hp0)
        (by
          intro p hp
          rcases List.mem_append.mp hp with hp | hp
          · exact hb p hp
          · exact hx p hp)
      refine ⟨u.flatMap Prod.snd ++ extra, ?_, ?_⟩
      · rw [e1]
        have : (own.map (r.tag env)).map (fun p : Posting => { p with
            tags := p.tags ++ (rules.filter (fun r : AccountRule => r.catches env p)).flatMap
              (fun r : AccountRule => r.1.comments.flatMap getTags) }) =
            own.map (fun p : Posting => { p with
              tags := p.tags ++ ((r :: rules).filter (fun r : AccountRule => r.catches env p)).flatMap
                (fun r : AccountRule => r.1.comments.flatMap getTags) }) := by
          rw [List.map_map]
          apply List.map_congr_left
          intro p _
          simp only [Function.comp]
          have hc : ∀ r' : AccountRule, r'.catches env (r.tag env p) = r'.catches env p :=
            fun r' => (r.tag_same env p).catches r'
          simp only [hc]
          unfold AccountRule.tag
          by_cases hcr : r.catches env p = true
          · simp [hcr]
          · simp [hcr]
        simp only [this, List.append_assoc]
      · rw [List.flatMap_cons]
        refine forall₂_append a2 ?_
        clear ih e1 hN hst
        clear h1
        have : ∀ {rules : List AccountRule} {extra : List Posting}, List.Forall₂ (fun x q => Adds env l x.1 x.2 q)
            (rules.flatMap (fun r' => ((own.map (r.tag env)).filter (r'.catches env)).flatMap
              (fun p => r'.1.postings.map (fun rp => (p, rp))))) extra →
            List.Forall₂ (fun x q => Adds env l x.1 x.2 q)
              (rules.flatMap (fun r' => (own.filter (r'.catches env)).flatMap
                (fun p => r'.1.postings.map (fun rp => (p, rp))))) extra := by
          intro rules
          induction rules with
          | nil => intro extra h; exact h
          | cons r' rules ih =>
            intro extra h
            rw [List.flatMap_cons] at h ⊢
            obtain ⟨x, y, rfl, k1, k2⟩ := forall₂_split h
            exact forall₂_append (adds_untag k1) (ih k2)
        exact this e2

theorem rulesOn_applied {env : Env} {l : Lists} {rules : List AccountRule} {rs : List (Txn RawPosting × Ast)}
    (hN : Nodes env rules rs)
    (hst : ∀ r ∈ rules, ∀ rp ∈ r.1.postings, rp.payee = none ∧ rp.moneyCurrency.isSome)
    {t t' : Txn Posting} (h : RulesOn env l rs t t') (ho : ∀ p ∈ t.postings, p.origin = .fromTransaction) :
    AppliedTo env l rules t t' := by
  obtain ⟨extra, h1, h2⟩ := rulesOn_account hN hst h (own := t.postings) (before := []) (by simp) ho (by simp)
  exact ⟨extra, by simpa using h1, h2⟩

theorem rulesOn_applied_all {env : Env} {l : Lists} {rules : List AccountRule} {rs : List (Txn RawPosting × Ast)}
    (hN : Nodes env rules rs)
    (hst : ∀ r ∈ rules, ∀ rp ∈ r.1.postings, rp.payee = none ∧ rp.moneyCurrency.isSome)
    {ts ts' : List (Txn Posting)} (h : List.Forall₂ (RulesOn env l rs) ts ts')
    (ho : ∀ t ∈ ts, ∀ p ∈ t.postings, p.origin = .fromTransaction) : List.Forall₂ (AppliedTo env l rules) ts ts' := by
  induction h with
  | nil => exact .nil
  | cons h1 _ ih => exact .cons (rulesOn_applied hN hst h1 (ho _ (by simp))) (ih (fun t ht => ho t (by simp [ht])))

theorem Finds.back {T : Type} [Named T] {lower : Str → Str} {l l' : NList T} (h : Extends lower l l') {a n : Str}
    (hf : Finds lower l' a n) (hk : ∃ m, Finds lower l a m) : Finds lower l a n := by
  obtain ⟨m, x, hx, rfl⟩ := hk
  obtain ⟨y, hy, rfl⟩ := hf
  rw [h _ _ hx] at hy; cases hy
  exact ⟨x, hx, rfl⟩

/-- The names the rules use are known before. -/
theorem AppliedTo.back {env : Env} {l l' : Lists} {rules : List AccountRule} {t t' : Txn Posting}
    (h : AppliedTo env l' rules t t') (hg : l.Grow env.lower l')
    (hr : ∀ r ∈ rules, ∀ rp ∈ r.1.postings, (∃ n, Finds env.lower l.accounts rp.account n) ∧
      ∀ c, rp.moneyCurrency = some c → ∃ n, Finds env.lower l.commodities c n) : AppliedTo env l rules t t' := by
  obtain ⟨extra, h1, h2⟩ := h
  refine ⟨extra, h1, ?_⟩
  have hm : ∀ x ∈ rules.flatMap (fun r => (t.postings.filter (r.catches env)).flatMap
      (fun p => r.1.postings.map (fun rp => (p, rp)))), (∃ n, Finds env.lower l.accounts x.2.account n) ∧
      ∀ c, x.2.moneyCurrency = some c → ∃ n, Finds env.lower l.commodities c n := by
    intro x hx
    obtain ⟨r, hr1, hx⟩ := List.mem_flatMap.mp hx
    obtain ⟨p, _, hx⟩ := List.mem_flatMap.mp hx
    obtain ⟨rp, hrp, rfl⟩ := List.mem_map.mp hx
    exact hr r hr1 rp hrp
  clear h1
  generalize rules.flatMap (fun r => (t.postings.filter (r.catches env)).flatMap
      (fun p => r.1.postings.map (fun rp => (p, rp)))) = xs at h2 hm
  induction h2 with
  | nil => exact .nil
  | @cons x q xs qs ha _ ih =>
    refine .cons ⟨ha.account.back hg.accounts (hm x (by simp)).1, ?_, ha.rest⟩ (ih (fun y hy => hm y (by simp [hy])))
    rcases ha.amount with ⟨c, n, a, e1, e2, e3, e4, e5⟩ | e
    · exact .inl ⟨c, n, a, e1, e2, e3, e4.back hg.commodities ((hm x (by simp)).2 c e1), e5⟩
    · exact .inr e

/-! ### Booked amounts -/

theorem posts_money {skip : Bool} {start : Str → Cur → Rat} {ps qs : List Posting} (h : Posts skip start ps qs)
    (hm : ∀ p ∈ ps, (∃ x c, p.amount = some (.mk x c)) ∨ (p.kind = .real ∧ p.amount = none ∧ p.balance = none)) :
    ∀ q ∈ qs, ∃ x c, q.amount = some (.mk x c) := by
  induction h with
  | nil => intro q hq; cases hq
  | other _ _ ih => exact ih (fun p hp => hm p (by simp [hp]))
  | elided _ _ ih => exact ih (fun p hp => hm p (by simp [hp]))
  | @given start p m ps qs _ ha _ _ ih =>
    intro q hq
    rcases List.mem_cons.mp hq with rfl | hq
    · rcases hm q (by simp) with h | h
      · exact h
      · rw [ha] at h; cases h.2.1
    · exact ih (fun p hp => hm p (by simp [hp])) q hq
  | @assigned start p m b ps qs _ ha _ hb _ _ _ ih =>
    intro q hq
    rcases hm p (by simp) with ⟨x, c, h⟩ | h
    · rw [ha] at h; cases h
    · rw [hb] at h; cases h.2.2

theorem BookedAs.money {skip : Bool} {start : Str → Cur → Rat} {ts ts' : List (Txn Posting)}
    (h : BookedAs skip start ts ts')
    (hm : ∀ t ∈ ts, ∀ p ∈ t.postings, (∃ x c, p.amount = some (.mk x c)) ∨
      (p.kind = .real ∧ p.amount = none ∧ p.balance = none)) :
    ∀ t ∈ ts', ∀ p ∈ t.postings, ∃ x c, p.amount = some (.mk x c) := by
  induction h with
  | nil => intro t ht; cases ht
  | @cons start t es t' ts ts' h1 _ h3 _ ih =>
    intro u hu
    rcases List.mem_cons.mp hu with rfl | hu
    · intro q hq
      obtain ⟨p, hpm, _, _, s3, _, _⟩ := Forall₂.mem_right h3 hq
      rw [s3]
      obtain ⟨qs, gen, g1, rfl, g3⟩ := h1
      rcases List.mem_append.mp hpm with hpm | hpm
      · rcases List.mem_append.mp hpm with hpm | hpm
        · exact posts_money g1 (hm t (by simp)) p hpm
        · rcases g3 with ⟨_, _, rfl⟩ | ⟨_, _, _, ms, g4, _, g5⟩
          · cases hpm
          · have : p.amount ∈ gen.map Posting.amount := List.mem_map.mpr ⟨p, hpm, rfl⟩
            rw [g4] at this
            obtain ⟨m, hm, he⟩ := List.mem_map.mp this
            obtain ⟨c, rfl, _⟩ := (g5 m).mp hm
            exact ⟨_, _, he.symm⟩
      · have hk := List.mem_filter.mp hpm
        rcases hm t (by simp) p hk.1 with h | h
        · exact h
        · have := hk.2
          simp [h.1] at this
    · exact ih (fun t ht => hm t (by simp [ht])) u hu

/-! ### The ledger of a journal with rules on accounts -/

theorem accountFor_known {env : Env} {l l' : Lists} (hr : l.Ok env.lower) (hg : Extends env.lower l.accounts l'.accounts)
    {raw : Txn RawPosting} {p : RawPosting} {q : Posting} (h : WrittenAs env l raw p q) :
    ((initialBalances l'.accounts).get? q.account).isSome := by
  have key : ∀ {n : Str}, Finds env.lower l.accounts n q.account → ((initialBalances l'.accounts).get? q.account).isSome := by
    intro n hf
    obtain ⟨k, x, hk, hx⟩ := finds_mem (hf.grow hg)
    rw [← hx]; exact (initialBalances_get l'.accounts).1 k x (HMap.mem_of_get? hk)
  obtain ⟨n, _, _, ha⟩ := h.payee
  rcases ha with ⟨_, k, x, hk, _, hx⟩ | ⟨_, hf⟩
  · have hinv := NList.Inv.reach hr.accounts
    have hget := HMap.get?_of_mem hinv.nodupL hk
    have hkey := hinv.named k x hget
    refine key (n := x.name) ⟨x, ?_, hx⟩
    unfold NList.get
    rw [show env.lower x.name = k from hkey.symm, hget]
  · exact key hf

theorem BookedAs.accounts {skip : Bool} {start : Str → Cur → Rat} {ts ts' : List (Txn Posting)}
    (h : BookedAs skip start ts ts') : ∀ t ∈ ts', ∀ q ∈ t.postings, ∃ u ∈ ts, ∃ p ∈ u.postings, q.account = p.account := by
  induction h with
  | nil => intro t ht; cases ht
  | @cons start t es t' ts ts' h1 _ h3 _ ih =>
    intro u hu
    rcases List.mem_cons.mp hu with rfl | hu
    · intro q hq
      obtain ⟨p, hpm, s1, _⟩ := Forall₂.mem_right h3 hq
      obtain ⟨qs, gen, g1, rfl, g3⟩ := h1
      refine ⟨t, by simp, ?_⟩
      rw [s1]
      have hqs : ∀ {start : Str → Cur → Rat} {ps qs : List Posting}, Posts skip start ps qs → ∀ q ∈ qs,
          ∃ p ∈ ps, q.account = p.account := by
        intro start ps qs h
        induction h with
        | nil => intro q hq; cases hq
        | other _ _ ih => intro q hq; obtain ⟨p, hp, he⟩ := ih q hq; exact ⟨p, by simp [hp], he⟩
        | elided _ _ ih => intro q hq; obtain ⟨p, hp, he⟩ := ih q hq; exact ⟨p, by simp [hp], he⟩
        | @given start p m ps qs _ _ _ _ ih =>
          intro q hq
          rcases List.mem_cons.mp hq with rfl | hq
          · exact ⟨q, by simp, rfl⟩
          · obtain ⟨p, hp, he⟩ := ih q hq; exact ⟨p, by simp [hp], he⟩
        | @assigned start p m b ps qs _ _ _ _ _ _ _ ih =>
          intro q hq
          rcases List.mem_cons.mp hq with rfl | hq
          · exact ⟨p, by simp, rfl⟩
          · obtain ⟨p, hp, he⟩ := ih q hq; exact ⟨p, by simp [hp], he⟩
      rcases List.mem_append.mp hpm with hpm | hpm
      · rcases List.mem_append.mp hpm with hpm | hpm
        · exact hqs g1 p hpm
        · rcases g3 with ⟨_, _, rfl⟩ | ⟨e, he, g4, _⟩
          · cases hpm
          · have : e ∈ t.postings.filter (fun p => p.elided skip) := by rw [he]; simp
            exact ⟨e, (List.mem_filter.mp this).1, (g4 p hpm).2.1⟩
      · exact ⟨p, (List.mem_filter.mp hpm).1, rfl⟩
    · intro q hq
      obtain ⟨v, hv, p, hp, he⟩ := ih u hu q hq
      exact ⟨v, by simp [hv], p, hp, he⟩

theorem BookedAs.dated {skip : Bool} {start : Str → Cur → Rat} {ts ts' : List (Txn Posting)}
    (h : BookedAs skip start ts ts') (hd : ∀ t ∈ ts, t.date.isSome) : ∀ t ∈ ts', t.date.isSome := by
  induction h with
  | nil => intro t ht; cases ht
  | @cons start t es t' ts ts' _ h2 _ _ ih =>
    intro u hu
    rcases List.mem_cons.mp hu with rfl | hu
    · rw [h2]; exact hd t (by simp)
    · exact ih (fun u hu => hd u (by simp [hu])) u hu

theorem accountRules_mem {env : Env} {autos : List (Txn RawPosting)} {rules : List AccountRule}
    (h : List.Forall₂ (fun a r => r.1 = a ∧ PatternRule env a r.2) autos rules) {r : AccountRule} (hr : r ∈ rules) :
    r.1 ∈ autos := by
  obtain ⟨a, ha, h1, _⟩ := Forall₂.mem_right h hr
  rw [h1]; exact ha

theorem balanceAll_payee {skip : Bool} (ts : List (Txn Posting)) {σ : Nat → Shuf} {bals bals' : Balances}
    {rs : List (Txn Posting × Balance)} (hb : bals.Ok) (hp : ∀ t ∈ ts, ∀ p ∈ t.postings, p.CostOk)
    (ho : ∀ t ∈ ts, ∀ p ∈ t.postings, p.payee.isSome)
    (h : balanceAll skip σ bals ts = .ok (bals', rs)) :
    ∀ t ∈ rs.map Prod.fst, ∀ p ∈ t.postings, p.payee.isSome := by
  induction ts generalizing σ bals rs with
  | nil => cases h; intro t ht; cases ht
  | cons t ts ih =>
    unfold balanceAll at h
    split at h
    · cases h
    · next b1 t1 r1 h1 =>
      split at h
      · cases h
      · next b2 rest h2 =>
        cases h
        obtain ⟨res, gen, hB⟩ := balance_spec h1 hb (hp t (by simp))
        intro u hu
        rcases List.mem_cons.mp hu with rfl | hu
        · intro p hpm
          rw [hB.postings] at hpm
          simp only [List.mem_append] at hpm
          rcases hpm with (hpm | hpm) | hpm
          · obtain ⟨q, hq, hR⟩ := Forall₂.mem_right hB.resolved hpm
            have := ho t (by simp) q (List.mem_filter.mp hq).1
            rw [hR.same]; exact this
          · rcases hB.cases with ⟨_, rfl, _⟩ | ⟨q, hq, _, ms, rfl, _⟩
            · cases hpm
            · obtain ⟨m, _, rfl⟩ := List.mem_map.mp hpm
              have : q ∈ t.postings.filter (fun p => p.elided skip) := by rw [hq]; simp
              exact ho t (by simp) q (List.mem_filter.mp this).1
          · exact ho t (by simp) p (List.mem_filter.mp hpm).1
        · exact ih hB.balsOk (fun x hx => hp x (by simp [hx])) (fun x hx => ho x (by simp [hx])) h2 u hu

/-- What is known of the regular transactions once they are booked: `l` are the names, `ts` the transactions by date. -/
structure Booked (env : Env) (skip : Bool) (pl : ParsedLedger) (l : Lists) (ts booked : List (Txn Posting)) : Prop where
  ok : l.Ok env.lower
  names : NamesOf env pl l
  stands : ∃ listed, DateOrder pl.regular listed ∧
    List.Forall₂ (fun raw t => t.header = raw.header ∧ t.ttype = .real ∧
      List.Forall₂ (WrittenAs env l raw) raw.postings t.postings) listed ts
  entered : BookedAs skip (fun _ _ => 0) ts booked
  amounts : ∀ t ∈ booked, AllAmounts t.postings
  dated : ∀ t ∈ booked, t.date.isSome
  origin : ∀ t ∈ booked, ∀ p ∈ t.postings, p.origin = .fromTransaction
  payee : ∀ t ∈ booked, ∀ p ∈ t.postings, p.payee.isSome

/-- What the balancing pass hands over. -/
theorem Booked.of_pass {r : Run} {path : Str} {pl : ParsedLedger} {l : Lists} {listed : List (Txn RawPosting)}
    {ts booked : List (Txn Posting)} {skip : Bool} {prs : List Price} (h : r.journal path = .ok pl)
    (h1 : populate r.env r.orders pl = .ok l) (hlok : l.Ok r.env.lower) (h2 : DateOrder pl.regular listed)
    (h3 : List.Forall₂ (fun raw t => t.header = raw.header ∧ t.ttype = .real ∧
      List.Forall₂ (WrittenAs r.env l raw) raw.postings t.postings) listed ts)
    (h4 : ∀ t ∈ ts, t.date.isSome ∧ ∀ q ∈ t.postings, q.CostOk ∧ ((initialBalances l.accounts).get? q.account).isSome)
    (hb : balancePass skip r.orders.fill r.orders.rate (initialBalances l.accounts) ts = .ok (booked, prs)) :
    Booked r.env skip pl l ts booked ∧ ∀ t ∈ booked, ∀ p ∈ t.postings, p.CostOk := by
  have hwf := C83_wellformed h
  have hcost : ∀ t ∈ ts, ∀ p ∈ t.postings, p.CostOk := fun t ht p hp => ((h4 t ht).2 p hp).1
  obtain ⟨_, _, _, bals', rs1, hB1, hB2⟩ := balancePass_spec ts (initialBalances_ok l.accounts) hcost hb
  have hbook := bookedAs_of_balanceAll ts (initialBalances_ok _) hcost hB1
  rw [initialBalances_amt, ← hB2] at hbook
  have ham := balanceAll_amounts ts (initialBalances_ok _) hcost hB1
  rw [← hB2] at ham
  have hcost1 := balanceAll_costOk ts (initialBalances_ok _) hcost hB1
  rw [← hB2] at hcost1
  have hor := balanceAll_origin ts (initialBalances_ok _) hcost (by
    intro t ht p hp
    obtain ⟨raw, _, _, _, hw⟩ := Forall₂.mem_right h3 ht
    obtain ⟨_, _, hpw⟩ := Forall₂.mem_right hw hp
    exact hpw.origin) hB1
  rw [← hB2] at hor
  have hpay := balanceAll_payee ts (initialBalances_ok _) hcost (by
    intro t ht p hp
    obtain ⟨raw, _, _, _, hw⟩ := Forall₂.mem_right h3 ht
    obtain ⟨_, _, hpw⟩ := Forall₂.mem_right hw hp
    obtain ⟨n, hn, _⟩ := hpw.payee
    rw [hn]; rfl) hB1
  rw [← hB2] at hpay
  exact ⟨⟨hlok, populate_names hwf.1.lists h1, ⟨listed, h2, h3⟩, hbook, ham,
    hbook.dated (fun t ht => (h4 t ht).1), hor, hpay⟩, hcost1⟩

/-- The ledger of a journal whose automated transactions apply, step by step. -/
theorem toLedger_rules_text {r : Run} {path : Str} {pl : ParsedLedger} {rn : List (Txn RawPosting × Ast)}
    (h : r.journal path = .ok pl) (hne : pl.automated ≠ []) (hz : pl.NoFreeTotals)
    (n1 : ruleNodes r.env pl.automated = .ok rn)
    (happly : ∀ skip l ts booked, Booked r.env skip pl l ts booked → ∃ x, automate r.env rn booked l = .ok x) :
    ∃ l listed ts, NamesOf r.env pl l ∧ DateOrder pl.regular listed ∧
      List.Forall₂ (fun raw t => t.header = raw.header ∧ t.ttype = .real ∧
        List.Forall₂ (WrittenAs r.env l raw) raw.postings t.postings) listed ts ∧
      (∀ t ∈ ts, t.date.isSome ∧ ∀ q ∈ t.postings, q.CostOk ∧ ((initialBalances l.accounts).get? q.account).isSome) ∧
      (∀ t ∈ pl.transactions, ∀ p ∈ t.postings, Resolves r.env.lower l p) ∧
      ∀ skip, ((¬ ∃ x, balanceAll skip r.orders.fill (initialBalances l.accounts) ts = .ok x) ∧
          ∃ e, toLedger r.env r.orders skip pl = .error (.error e) ∧
            balancePass skip r.orders.fill r.orders.rate (initialBalances l.accounts) ts = .error (.error e) ∧
            ∀ q, ledgerText r.env r.orders q skip pl = passText q skip r.orders.fill (initialBalances l.accounts) ts) ∨
        ∃ booked names applied, (∃ x, balanceAll skip r.orders.fill (initialBalances l.accounts) ts = .ok x) ∧
          Booked r.env skip pl l ts booked ∧
          automate r.env rn booked l = .ok (applied, names) ∧
          List.Forall₂ (RulesOn r.env names rn) booked applied ∧ l.Grow r.env.lower names ∧
          (∀ t ∈ applied, t.date.isSome) ∧
          (∀ t ∈ applied, AllAmounts t.postings ∧ (pl.NoBracketedSales → NoNegPerUnit .virtBal t.postings) ∧
            ∀ q ∈ t.postings, q.CostOk ∧ ((initialBalances names.accounts).get? q.account).isSome) ∧
          ((¬ (∃ x, balanceAll skip r.orders.fill2 (initialBalances names.accounts) applied = .ok x) ∧
            ∃ e, toLedger r.env r.orders skip pl = .error (.error e) ∧
              balancePass skip r.orders.fill2 r.orders.rate2 (initialBalances names.accounts) applied = .error (.error e) ∧
              ∀ q, ledgerText r.env r.orders q skip pl = passText q skip r.orders.fill2 (initialBalances names.accounts) applied) ∨
           ∃ L bals rs, balanceAll skip r.orders.fill2 (initialBalances names.accounts) applied = .ok (bals, rs) ∧
            toLedger r.env r.orders skip pl = .ok L ∧ L.transactions = rs.map Prod.fst) := by
  have hwf := C83_wellformed h
  obtain ⟨l, listed, ts, h1, hlok, hres, h2, h3, h4, htx, h5⟩ := toLedger_stages (o := r.orders) hwf.1 hz
  refine ⟨l, listed, ts, populate_names hwf.1.lists h1, h2, h3, h4, hres, fun skip => ?_⟩
  obtain ⟨s1, s2⟩ := h5 skip
  have hcost : ∀ t ∈ ts, ∀ p ∈ t.postings, p.CostOk := fun t ht p hp => ((h4 t ht).2 p hp).1
  have hcalm := balancePass_calm (skip := skip) (σ := r.orders.fill) (ρ := r.orders.rate) ts (initialBalances_ok l.accounts)
    (fun t ht => (h4 t ht).1) (fun t ht => (h4 t ht).2)
  have hiff := balancePass_iff (skip := skip) (σ := r.orders.fill) (ρ := r.orders.rate) ts (initialBalances_ok l.accounts)
    (fun t ht => (h4 t ht).1) hcost
  cases hb : balancePass skip r.orders.fill r.orders.rate (initialBalances l.accounts) ts with
  | error e =>
    cases e with
    | panic w => exact absurd hb (hcalm w)
    | error e =>
      refine .inl ⟨fun hx => ?_, e, s1 _ hb, rfl, fun q => by rw [htx, hb]⟩
      obtain ⟨x, hx⟩ := hiff.mpr hx
      rw [hb] at hx; cases hx
  | ok x =>
    obtain ⟨booked, prs⟩ := x
    obtain ⟨s3, s4⟩ := s2 booked prs hb
    obtain ⟨hbk, hcost1⟩ := Booked.of_pass h h1 hlok h2 h3 h4 hb
    have hbook := hbk.entered
    have ham := hbk.amounts
    obtain ⟨⟨applied, names⟩, hauto⟩ := happly skip l ts booked hbk
    obtain ⟨hR, hgrow⟩ := automate_spec booked hauto
    have happ : ∀ t ∈ applied, AllAmounts t.postings ∧ (pl.NoBracketedSales → NoNegPerUnit .virtBal t.postings) ∧
        ∀ q ∈ t.postings, q.CostOk ∧ ((initialBalances names.accounts).get? q.account).isSome := by
      intro t ht
      obtain ⟨t0, ht0, hR1⟩ := Forall₂.mem_right hR ht
      refine ⟨hR1.amounts (ham t0 ht0), fun hns => hR1.noSales (hbook.noSales (noSales h2 h3 hns) t0 ht0), fun q hq =>
        ⟨hR1.costOk (hcost1 t0 ht0) q hq, ?_⟩⟩
      obtain ⟨own, extra, e1, e2, e3⟩ := hR1.parts
      rw [e1] at hq
      rcases List.mem_append.mp hq with hq | hq
      · obtain ⟨p, hp, hs⟩ := Forall₂.mem_right e2 hq
        obtain ⟨u, hu, p0, hp0, hpa⟩ := hbook.accounts t0 ht0 p hp
        obtain ⟨raw, _, _, _, hw⟩ := Forall₂.mem_right h3 hu
        obtain ⟨_, _, hpw⟩ := Forall₂.mem_right hw hp0
        rw [hs.1]
        show ((initialBalances names.accounts).get? p.account).isSome
        rw [hpa]
        exact accountFor_known hlok hgrow.accounts hpw
      · obtain ⟨_, _, rp, _, _, _, _, _, _, hg⟩ := e3 q hq
        obtain ⟨k, x, hk, hx⟩ := finds_mem hg.account
        rw [← hx]; exact (initialBalances_get names.accounts).1 k x (HMap.mem_of_get? hk)
    have hdate : ∀ t ∈ applied, t.date.isSome := by
      intro t ht
      obtain ⟨t0, ht0, hR1⟩ := Forall₂.mem_right hR ht
      obtain ⟨own, extra, e1, _⟩ := hR1.parts
      rw [e1]
      show t0.date.isSome
      exact hbook.dated (fun t ht => (h4 t ht).1) t0 ht0
    refine .inr ⟨booked, names, applied, hiff.mp ⟨_, hb⟩, hbk, hauto, hR, hgrow, hdate, happ, ?_⟩
    have hpos : pl.automated.length > 0 := List.length_pos_iff.mpr hne
    have hcalm2 := balancePass_calm (skip := skip) (σ := r.orders.fill2) (ρ := r.orders.rate2) applied
      (initialBalances_ok names.accounts) hdate (fun t ht => (happ t ht).2.2)
    have hiff2 := balancePass_iff (skip := skip) (σ := r.orders.fill2) (ρ := r.orders.rate2) applied
      (initialBalances_ok names.accounts) hdate (fun t ht p hp => ((happ t ht).2.2 p hp).1)
    cases hb2 : balancePass skip r.orders.fill2 r.orders.rate2 (initialBalances names.accounts) applied with
    | error e =>
      cases e with
      | panic w => exact absurd hb2 (hcalm2 w)
      | error e =>
        refine .inl ⟨fun hx => ?_, e, s3 _ ?_, rfl, fun q => ?_⟩
        · obtain ⟨x, hx⟩ := hiff2.mpr hx
          rw [hb2] at hx; cases hx
        · unfold automatedPass
          rw [if_pos hpos, n1]
          simp only [hauto, hb2]
        · rw [htx, hb]
          simp only
          unfold automatedText
          rw [if_pos hpos, n1]
          simp only [hauto]
    | ok y =>
      obtain ⟨txns, prs2⟩ := y
      obtain ⟨_, _, _, bals2, rs2, k1, k2⟩ := balancePass_spec applied (initialBalances_ok names.accounts)
        (fun t ht p hp => ((happ t ht).2.2 p hp).1) hb2
      obtain ⟨L, hL, hLt, _⟩ := s4 (txns, prs2, names) (by
        unfold automatedPass
        rw [if_pos hpos, n1]
        simp only [hauto, hb2])
      exact .inr ⟨L, bals2, rs2, k1, hL, by rw [hLt]; exact k2⟩

/-- The ledger of a journal whose automated transactions apply, step by step. -/
theorem toLedger_rules {r : Run} {path : Str} {pl : ParsedLedger} {rn : List (Txn RawPosting × Ast)}
    (h : r.journal path = .ok pl) (hne : pl.automated ≠ []) (hz : pl.NoFreeTotals)
    (n1 : ruleNodes r.env pl.automated = .ok rn)
    (happly : ∀ skip l ts booked, Booked r.env skip pl l ts booked → ∃ x, automate r.env rn booked l = .ok x) :
    ∃ l listed ts, NamesOf r.env pl l ∧ DateOrder pl.regular listed ∧
      List.Forall₂ (fun raw t => t.header = raw.header ∧ t.ttype = .real ∧
        List.Forall₂ (WrittenAs r.env l raw) raw.postings t.postings) listed ts ∧
      (∀ t ∈ ts, ∀ q ∈ t.postings, q.CostOk ∧ ((initialBalances l.accounts).get? q.account).isSome) ∧
      (∀ t ∈ pl.transactions, ∀ p ∈ t.postings, Resolves r.env.lower l p) ∧
      ∀ skip, ((¬ ∃ x, balanceAll skip r.orders.fill (initialBalances l.accounts) ts = .ok x) ∧
          ∃ e, toLedger r.env r.orders skip pl = .error (.error e)) ∨
        ∃ booked names applied, (∃ x, balanceAll skip r.orders.fill (initialBalances l.accounts) ts = .ok x) ∧
          Booked r.env skip pl l ts booked ∧
          automate r.env rn booked l = .ok (applied, names) ∧
          List.Forall₂ (RulesOn r.env names rn) booked applied ∧ l.Grow r.env.lower names ∧
          (∀ t ∈ applied, AllAmounts t.postings ∧ (pl.NoBracketedSales → NoNegPerUnit .virtBal t.postings) ∧
            ∀ q ∈ t.postings, q.CostOk ∧ ((initialBalances names.accounts).get? q.account).isSome) ∧
          ((¬ (∃ x, balanceAll skip r.orders.fill2 (initialBalances names.accounts) applied = .ok x) ∧
            ∃ e, toLedger r.env r.orders skip pl = .error (.error e)) ∨
           ∃ L bals rs, balanceAll skip r.orders.fill2 (initialBalances names.accounts) applied = .ok (bals, rs) ∧
            toLedger r.env r.orders skip pl = .ok L ∧ L.transactions = rs.map Prod.fst) := by
  obtain ⟨l, listed, ts, h1, h2, h3, h4, h5, h6⟩ := toLedger_rules_text h hne hz n1 happly
  refine ⟨l, listed, ts, h1, h2, h3, fun t ht => (h4 t ht).2, h5, fun skip => ?_⟩
  rcases h6 skip with ⟨g1, e, g2, _⟩ | ⟨booked, names, applied, g1, g2, g3, g4, g5, _, g6, g7⟩
  · exact .inl ⟨g1, e, g2⟩
  · refine .inr ⟨booked, names, applied, g1, g2, g3, g4, g5, g6, ?_⟩
    rcases g7 with ⟨k1, e, k2, _⟩ | k
    · exact .inl ⟨k1, e, k2⟩
    · exact .inr k

/-- The ledger of a journal whose automated transactions are rules on accounts, step by step. -/
theorem toLedger_account {r : Run} {path : Str} {pl : ParsedLedger} {rules : List AccountRule} (ha : r.env.AsciiSep)
    (hws : r.env.ws ' ' = true) (h : r.journal path = .ok pl) (hne : pl.automated ≠ []) (hz : pl.NoFreeTotals)
    (hr : pl.AccountRules r.env rules) (hf : pl.RulesFit) :
    ∃ l listed ts, NamesOf r.env pl l ∧ DateOrder pl.regular listed ∧
      List.Forall₂ (fun raw t => t.header = raw.header ∧ t.ttype = .real ∧
        List.Forall₂ (WrittenAs r.env l raw) raw.postings t.postings) listed ts ∧
      (∀ t ∈ ts, ∀ q ∈ t.postings, q.CostOk ∧ ((initialBalances l.accounts).get? q.account).isSome) ∧
      ∀ skip, ((¬ ∃ x, balanceAll skip r.orders.fill (initialBalances l.accounts) ts = .ok x) ∧
          ∃ e, toLedger r.env r.orders skip pl = .error (.error e)) ∨
        ∃ booked names applied, (∃ x, balanceAll skip r.orders.fill (initialBalances l.accounts) ts = .ok x) ∧
          BookedAs skip (fun _ _ => 0) ts booked ∧ (∀ t ∈ booked, AllAmounts t.postings) ∧
          List.Forall₂ (AppliedTo r.env l rules) booked applied ∧ l.Grow r.env.lower names ∧
          (∀ t ∈ applied, AllAmounts t.postings ∧ (pl.NoBracketedSales → NoNegPerUnit .virtBal t.postings) ∧
            ∀ q ∈ t.postings, q.CostOk ∧ ((initialBalances names.accounts).get? q.account).isSome) ∧
          ((¬ (∃ x, balanceAll skip r.orders.fill2 (initialBalances names.accounts) applied = .ok x) ∧
            ∃ e, toLedger r.env r.orders skip pl = .error (.error e)) ∨
           ∃ L bals rs, balanceAll skip r.orders.fill2 (initialBalances names.accounts) applied = .ok (bals, rs) ∧
            toLedger r.env r.orders skip pl = .ok L ∧ L.transactions = rs.map Prod.fst) := by
  have hwf := C83_wellformed h
  obtain ⟨rn, n1, n2⟩ := accountRules_nodes ha hws hr
  have hst : ∀ q ∈ rules, ∀ rp ∈ q.1.postings, rp.payee = none ∧ rp.moneyCurrency.isSome := fun q hq rp hrp =>
    have hm := accountRules_mem hr hq
    ⟨((hwf.2.2 q.1 hm).2 rp hrp).2, hf.1 q.1 hm rp hrp⟩
  have hn : ∀ n ∈ rn, ∃ b, Answers r.env n.2 b := by
    intro n hn
    obtain ⟨q, _, _, hq⟩ := Forall₂.mem_right n2 hn
    exact ⟨_, hq⟩
  obtain ⟨l, listed, ts, g1, g2, g3, g4, hres, g5⟩ := toLedger_rules h hne hz n1 (fun skip l ts booked hbk => by
    obtain ⟨listed, h2, h3⟩ := hbk.stands
    have hfit : ∀ t ∈ booked, ∀ n ∈ rn, FitFor n.1.postings t.postings := by
      intro t ht n hn p hp _ rp hrp
      obtain ⟨q, hq, hq1, _⟩ := Forall₂.mem_right n2 hn
      rw [hq1] at hrp
      have hm := accountRules_mem hr hq
      obtain ⟨c, hc⟩ := Option.isSome_iff_exists.mp (hst q hq rp hrp).2
      have hpair := ((hwf.2.2 q.1 hm).2 rp hrp).1.money
      rw [hc] at hpair
      obtain ⟨a, hamt⟩ := Option.isSome_iff_exists.mp hpair.symm
      refine ⟨(hst q hq rp hrp).1, c, a, hc, hamt, ?_⟩
      rintro rfl
      have hall := hf.2 ⟨q.1, hm, rp, hrp, hc⟩
      refine hbk.entered.money ?_ t ht p hp
      intro u hu q0 hq0
      obtain ⟨raw, hraw, _, _, hw⟩ := Forall₂.mem_right h3 hu
      obtain ⟨p0, hp0, hpw⟩ := Forall₂.mem_right hw hq0
      have hraw' : raw ∈ pl.regular := h2.perm.mem_iff.mp hraw
      rcases hpw.amount with ⟨e1, e2⟩ | ⟨x, nn, qq, _, _, _, e4⟩
      · rcases hall raw hraw' p0 hp0 with hs | ⟨hk, hbal⟩
        · rw [e1] at hs; cases hs
        · refine .inr ⟨by rw [hpw.kind]; exact hk, e2, ?_⟩
          rcases hpw.balance with ⟨_, e3⟩ | ⟨_, _, _, e3, _⟩
          · exact e3
          · rw [hbal] at e3; cases e3
      · exact .inl ⟨_, _, e4⟩
    exact automate_ok booked hbk.ok hn hfit)
  refine ⟨l, listed, ts, g1, g2, g3, g4, fun skip => ?_⟩
  rcases g5 skip with g5 | ⟨booked, names, applied, k1, k2, _, k3, k4, k5, k6⟩
  · exact .inl g5
  · exact .inr ⟨booked, names, applied, k1, k2.entered, k2.amounts, (rulesOn_applied_all n2 hst k3 k2.origin).imp
      (fun _ _ hA => hA.back k4 (fun q hq rp hrp =>
        have hres := hres q.1 (List.mem_filter.mp (accountRules_mem hr hq)).1 rp hrp
        ⟨hres.account, hres.money⟩)), k4, k5, k6⟩

/-! ### The ledger after the rules -/

theorem Completed.finds {T : Type} [Named T] {lower : Str → Str} {decl l : NList T} {used : Str → Prop}
    (h : Completed lower decl l used) {n : Str} (hn : used n) : ∃ m, Finds lower l n m := by
  by_cases hd : Declared lower decl n
  · obtain ⟨x, hx⟩ := hd
    exact ⟨_, x, h.declared n x hx, rfl⟩
  · obtain ⟨m, _, _, hm⟩ := h.added n hn hd
    exact ⟨m, hm⟩

theorem AppliedTo.amounts {env : Env} {l : Lists} {rules : List AccountRule} {t t' : Txn Posting}
    (h : AppliedTo env l rules t t') (ha : AllAmounts t.postings) : AllAmounts t'.postings := by
  obtain ⟨extra, rfl, h2⟩ := h
  intro p hp
  rcases List.mem_append.mp hp with hp | hp
  · obtain ⟨q, hq, rfl⟩ := List.mem_map.mp hp
    exact ha q hq
  · obtain ⟨x, _, hx⟩ := Forall₂.mem_right h2 hp
    rcases hx.amount with ⟨_, _, _, _, _, _, _, e⟩ | ⟨_, _, _, _, _, _, e⟩ <;> rw [e] <;> simp

/-- The ledger of a journal whose automated transactions are rules on accounts. -/
theorem ledger_ruled {r : Run} {skip : Bool} {path : Str} {pl : ParsedLedger} {rules : List AccountRule} {L : Ledger}
    (ha : r.env.AsciiSep) (hws : r.env.ws ' ' = true) (h : r.journal path = .ok pl) (hne : pl.automated ≠ [])
    (hr : pl.AccountRules r.env rules) (hst : ∀ a ∈ pl.automated, ∀ rp ∈ a.postings, rp.moneyCurrency.isSome)
    (hl : r.ledger skip path = .ok L) :
    ∃ l ts booked applied, pl.StandsWith r.env l ts ∧ BookedAs skip (fun _ _ => 0) ts booked ∧
      List.Forall₂ (AppliedTo r.env l rules) booked applied ∧ BookedAs skip (fun _ _ => 0) applied L.transactions ∧
      ∀ t ∈ booked, AllAmounts t.postings := by
  obtain ⟨l, listed, ts, booked, rn, applied, h1, h2, h3, hgrow, h4, h5, h6, h7, h8, _⟩ := ledger_applied h hne hl
  have hwf := C83_wellformed h
  refine ⟨l, ts, booked, applied, ⟨h1, listed, h2, h3⟩, h4, ?_, h8, fun t ht => (h5 t ht).1⟩
  refine (rulesOn_applied_all (nodes_unique ha hws hr h6) ?_ h7 (fun t ht => (h5 t ht).2)).imp (fun _ _ hA => hA.back hgrow ?_)
  · intro q hq rp hrp
    have hm := accountRules_mem hr hq
    exact ⟨((hwf.2.2 q.1 hm).2 rp hrp).2, hst q.1 hm rp hrp⟩
  · intro q hq rp hrp
    have hm := (List.mem_filter.mp (accountRules_mem hr hq)).1
    exact ⟨h1.accounts.finds ⟨q.1, hm, rp, hrp, rfl⟩, fun c hc =>
      h1.commodities.finds (.inl ⟨q.1, hm, rp, hrp, .inl hc⟩)⟩

theorem wanted_realFirst {env : Env} {o : ReportOpts} {ts ts' : List (Txn Posting)}
    (h : List.Forall₂ (fun t t' => t' = { t with postings := t'.postings } ∧
      List.Forall₂ SameEntry (t.postings.filter (fun p => p.kind = .real) ++
        t.postings.filter (fun p => p.kind ≠ .real)) t'.postings) ts ts') :
    List.Forall₂ SameEntry (wanted env o (ts.map Txn.realFirst)) (wanted env o ts') := by
  induction h with
  | nil => exact .nil
  | @cons t t' ts ts' h1 _ ih =>
    show List.Forall₂ SameEntry (_ ++ wanted env o (ts.map Txn.realFirst)) (_ ++ wanted env o ts')
    refine List.rel_append ?_ ih
    obtain ⟨e1, e2⟩ := h1
    have hd : t'.date = t.date := by rw [e1]
    have hw : ∀ p q, SameEntry p q → o.wants env t.realFirst p = o.wants env t' q := by
      intro p q hs
      unfold ReportOpts.wants
      rw [hd, hs.1, hs.2.1]
      rfl
    have : ∀ {ps qs : List Posting}, List.Forall₂ SameEntry ps qs →
        List.Forall₂ SameEntry (ps.filter (o.wants env t.realFirst)) (qs.filter (o.wants env t')) := by
      intro ps qs hpq
      clear e2
      induction hpq with
      | nil => exact .nil
      | @cons p q ps qs hs _ ih =>
        simp only [List.filter_cons, hw p q hs]
        split
        · exact .cons hs ih
        · exact ih
    exact this e2

theorem sameEntry_entries {ps qs : List Posting} (h : List.Forall₂ SameEntry ps qs) :
    qs.map Posting.entry = ps.map Posting.entry := by
  induction h with
  | nil => rfl
  | cons h _ ih => simp only [List.map_cons, ih, Posting.entry, h.1, h.2.1, h.2.2.1]

theorem sameEntry_sum {ps qs : List Posting} (h : List.Forall₂ SameEntry ps qs) (P : Str → Bool) (c : Cur) :
    sumIn ((qs.filter (fun p => P p.account)).filterMap Posting.amount) c =
      sumIn ((ps.filter (fun p => P p.account)).filterMap Posting.amount) c := by
  induction h with
  | nil => rfl
  | @cons p q ps qs h _ ih =>
    simp only [List.filter_cons, h.1]
    split
    · simp only [List.filterMap_cons, h.2.2.1]
      split
      · exact ih
      · simp only [sumIn_cons, ih]
    · exact ih

/-! ### What the rules bring -/

theorem finds_nameOf {T : Type} [Named T] {lower : Str → Str} {l : NList T} {n m : Str} (h : Finds lower l n m) :
    l.nameOf lower n = some m := by
  obtain ⟨x, hx, rfl⟩ := h
  unfold NList.nameOf
  rw [hx]
  rfl

theorem share_cons (env : Env) (l : Lists) (rp : RawPosting) (p : Posting) (ps : List Posting) (c : Cur) :
    rp.share env l (p :: ps) c = rp.share env l [p] c + rp.share env l ps c := by
  unfold RawPosting.share
  split
  · cases hp : p.amount with
    | none => simp [sumIn, hp]
    | some m => simp [sumIn, hp]; ring
  · split
    · simp; ring
    · simp
  · simp

theorem share_nil (env : Env) (l : Lists) (rp : RawPosting) (c : Cur) : rp.share env l [] c = 0 := by
  unfold RawPosting.share
  split
  · simp [sumIn]
  · simp
  · rfl

theorem Adds.brings {env : Env} {l : Lists} {p : Posting} {rp : RawPosting} {q : Posting} (h : Adds env l p rp q)
    (a : Str) (c : Cur) :
    sumIn (([q].filter (fun p => p.account = a)).filterMap Posting.amount) c =
      if l.accounts.nameOf env.lower rp.account = some a then rp.share env l [p] c else 0 := by
  rw [finds_nameOf h.account]
  by_cases hq : q.account = a
  · rw [if_pos (by rw [hq])]
    simp only [List.filter_cons, hq, decide_true, if_true, List.filter_nil]
    rcases h.amount with ⟨d, n, x, e1, e2, e3, e4, e5⟩ | ⟨x, d, f, e1, e2, e3, e4⟩
    · unfold RawPosting.share
      rw [e1, e3]
      split
      · next h1 _ => cases h1; exact absurd rfl e2
      · next d' x' _ h1 h2 =>
        cases h1; cases h2
        rw [finds_nameOf e4]
        simp [e5, sumIn, Money.amountIn, Money.commodity, Money.amount]
      · next h1 => exact absurd rfl (h1 _ _ rfl)
    · unfold RawPosting.share
      rw [e1, e2]
      simp only [List.filterMap_cons, e4, e3, List.filterMap_nil, sumIn_cons]
      simp [sumIn, Money.amountIn, Money.commodity, Money.amount]
      split <;> ring
  · rw [if_neg (by simpa using hq)]
    simp [hq, sumIn]

theorem share_append (env : Env) (l : Lists) (rp : RawPosting) (ps qs : List Posting) (c : Cur) :
    rp.share env l (ps ++ qs) c = rp.share env l ps c + rp.share env l qs c := by
  induction ps with
  | nil => rw [share_nil]; simp
  | cons p ps ih => rw [List.cons_append, share_cons, ih, share_cons env l rp p ps]; ring

theorem sum_map_add {α : Type} (f g : α → Rat) (xs : List α) :
    (xs.map (fun x => f x + g x)).sum = (xs.map f).sum + (xs.map g).sum := by
  induction xs with
  | nil => simp
  | cons x xs ih => simp only [List.map_cons, List.sum_cons, ih]; ring

theorem sum_flatMap_map {α β : Type} (f : α → List β) (g : β → Rat) (xs : List α) :
    ((xs.flatMap f).map g).sum = (xs.map (fun x => ((f x).map g).sum)).sum := by
  induction xs with
  | nil => simp
  | cons x xs ih => simp [List.flatMap_cons, ih]

theorem broughtTo_append (env : Env) (l : Lists) (rules : List AccountRule) (ps qs : List Posting) (a : Str) (c : Cur) :
    broughtTo env l rules (ps ++ qs) a c = broughtTo env l rules ps a c + broughtTo env l rules qs a c := by
  unfold broughtTo
  rw [← sum_map_add]
  congr 2
  funext r
  rw [← sum_map_add]
  congr 2
  funext rp
  split
  · rw [List.filter_append, share_append]
  · simp

theorem brings_sum {env : Env} {l : Lists} {xs : List (Posting × RawPosting)} {qs : List Posting}
    (h : List.Forall₂ (fun x q => Adds env l x.1 x.2 q) xs qs) (a : Str) (c : Cur) :
    sumIn ((qs.filter (fun p => p.account = a)).filterMap Posting.amount) c =
      (xs.map (fun x => if l.accounts.nameOf env.lower x.2.account = some a then x.2.share env l [x.1] c else 0)).sum := by
  induction h with
  | nil => simp [sumIn]
  | @cons x q xs qs h1 _ ih =>
    rw [← List.singleton_append (l := qs), List.filter_append, List.filterMap_append, sumIn_append, h1.brings, ih]
    simp

theorem share_singletons (env : Env) (l : Lists) (rps : List RawPosting) (ps : List Posting) (a : Str) (c : Cur) :
    ((ps.flatMap (fun p => rps.map (fun rp => (p, rp)))).map (fun x : Posting × RawPosting =>
      if l.accounts.nameOf env.lower x.2.account = some a then x.2.share env l [x.1] c else 0)).sum =
    (rps.map (fun rp => if l.accounts.nameOf env.lower rp.account = some a then rp.share env l ps c else 0)).sum := by
  induction ps with
  | nil => simp [share_nil]
  | cons p ps ih =>
    rw [List.flatMap_cons, List.map_append, List.sum_append, ih, List.map_map, ← sum_map_add]
    congr 2
    funext rp
    simp only [Function.comp]
    split
    · rw [share_cons env l rp p ps]
    · simp

/-- The rules change what an account has by what they bring. -/
theorem AppliedTo.brings {env : Env} {l : Lists} {rules : List AccountRule} {t t' : Txn Posting}
    (h : AppliedTo env l rules t t') (a : Str) (c : Cur) :
    sumIn ((t'.postings.filter (fun p => p.account = a)).filterMap Posting.amount) c =
      sumIn ((t.postings.filter (fun p => p.account = a)).filterMap Posting.amount) c +
        broughtTo env l rules t.postings a c := by
  obtain ⟨extra, rfl, h2⟩ := h
  simp only [List.filter_append, List.filterMap_append, sumIn_append]
  rw [brings_sum h2]
  congr 1
  · rw [List.filter_map, List.filterMap_map]
    rfl
  · rw [sum_flatMap_map]
    unfold broughtTo
    congr 2
    funext r
    exact share_singletons env l r.1.postings _ a c

theorem applied_brings {env : Env} {l : Lists} {rules : List AccountRule} {ts ts' : List (Txn Posting)}
    (h : List.Forall₂ (AppliedTo env l rules) ts ts') (a : Str) (c : Cur) :
    sumIn (((ts'.flatMap (fun t => t.postings)).filter (fun p => p.account = a)).filterMap Posting.amount) c =
      sumIn (((ts.flatMap (fun t => t.postings)).filter (fun p => p.account = a)).filterMap Posting.amount) c +
        broughtTo env l rules (ts.flatMap (fun t => t.postings)) a c := by
  induction h with
  | nil => simp [sumIn, broughtTo, share_nil]
  | @cons t t' ts ts' h1 _ ih =>
    simp only [List.flatMap_cons, List.filter_append, List.filterMap_append, sumIn_append, broughtTo_append, ih, h1.brings]
    ring

end Dinero
