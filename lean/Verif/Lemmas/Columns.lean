import Verif.Spec.Columns
import Verif.Lemmas.Report
import Verif.Lemmas.Populate
import Verif.Props.Price
/-
Lemmas on the converted report and the headers of the register.
-/
namespace Dinero

/-! ### Conversion -/

theorem convertLoop_canon {ms : HMap Cur Rat} {target : Cur} (l : List (Option Cur × Money)) {acc out : Balance}
    (ha : acc.Canon) (h : convertLoop ms target l acc = .ok out) : out.Canon := by
  induction l generalizing acc with
  | nil => cases h; exact ha
  | cons e l ih =>
    obtain ⟨k, m⟩ := e
    cases k with
    | none => cases h
    | some c =>
      unfold convertLoop at h
      split at h
      · exact ih (Balance.add_canon ha.toWF (Balance.ofMoney_wf _)) h
      · exact ih (Balance.add_canon ha.toWF (Balance.ofMoney_wf _)) h

theorem sum_perm_support {f : Cur → Rat} {cs cs' : List Cur} (h : cs.Nodup) (h' : cs'.Nodup)
    (hs : ∀ c, f c ≠ 0 → c ∈ cs) (hs' : ∀ c, f c ≠ 0 → c ∈ cs') : (cs.map f).sum = (cs'.map f).sum := by
  have key : ∀ l : List Cur, (l.map f).sum = ((l.filter (fun c => f c ≠ 0)).map f).sum := by
    intro l
    induction l with
    | nil => rfl
    | cons c l ih =>
      rw [List.filter_cons]
      by_cases hc : f c = 0
      · simp [hc, ih]
      · simp [hc, ih]
  rw [key cs, key cs']
  have hp : (cs.filter (fun c => f c ≠ 0)).Perm (cs'.filter (fun c => f c ≠ 0)) := by
    refine (List.perm_ext_iff_of_nodup (h.filter _) (h'.filter _)).mpr fun c => ?_
    simp only [List.mem_filter, decide_eq_true_eq]
    exact ⟨fun ⟨_, x⟩ => ⟨hs' c x, x⟩, fun ⟨_, x⟩ => ⟨hs c x, x⟩⟩
  exact (hp.map f).sum_eq

theorem Canon.reports {b : Balance} (h : b.Canon) : none ∉ b.keys := by
  intro hk
  obtain ⟨⟨k, m⟩, he, rfl⟩ := List.mem_map.mp hk
  obtain ⟨c, hc, _⟩ := (h.mem_iff none m).mp he
  cases hc

/-- Converting a canonical balance. -/
theorem convertBalance_canon {s : Shuf} {ms : HMap Cur Rat} {target : Cur} {b out : Balance}
    (hb : b.Canon) (h : convertBalance s b ms target = .ok out) :
    out.Canon ∧ ConvertedTo ms target b.amountOf out.amountOf := by
  unfold convertBalance at h
  refine ⟨convertLoop_canon _ Balance.Canon.nil h, ?_⟩
  have hp := s.perm b
  have hn := Canon.reports hb
  obtain ⟨out', h1, _, h3⟩ := convertLoop_spec ms target (s.run b)
    (fun e he h0 => hn (h0 ▸ HMap.mem_keys_of_mem (hp.mem_iff.mp he)))
    (fun e he => hb.toWF.key e (hp.mem_iff.mp he)) Balance.new Balance.WF.nil
  rw [h] at h1; cases h1
  have h3' : ∀ d, out.amountOf d = (b.map (contrib ms target d)).sum := by
    intro d; rw [h3 d, (hp.map _).sum_eq, Balance.amountOf_new, zero_add]
  have hent : ∀ c m, (some c, m) ∈ b → b.amountOf c = m.amount := by
    intro c m hm
    rw [Balance.amountOf_eq hb.toWF, HMap.get?_of_mem hb.toWF.nodup hm]
  constructor
  · intro cs hcs hsup
    have hnd : (b.keys.filterMap id).Nodup := by
      refine List.Nodup.filterMap ?_ hb.toWF.nodup
      intro a a' x hx hx'
      simp only [id, Option.mem_def] at hx hx'
      rw [hx, hx']
    have hsup' : ∀ c, b.amountOf c ≠ 0 → c ∈ b.keys.filterMap id := by
      intro c hc
      rw [Balance.amountOf_eq hb.toWF] at hc
      cases hg : HMap.get? b (some c) with
      | none => rw [hg] at hc; exact absurd rfl hc
      | some m =>
        exact List.mem_filterMap.mpr ⟨some c, HMap.mem_keys_of_mem
          ((HMap.get?_eq_some_iff hb.toWF.nodup _ _).mp hg), rfl⟩
    rw [sum_perm_support (f := fun c => b.amountOf c * rateOf ms target c) hcs hnd
      (fun c hc => hsup c (left_ne_zero_of_mul hc)) (fun c hc => hsup' c (left_ne_zero_of_mul hc)), h3']
    have : ∀ l : Balance, (∀ e ∈ l, e ∈ b) → (l.map (contrib ms target target)).sum =
        ((l.keys.filterMap id).map (fun c => b.amountOf c * rateOf ms target c)).sum := by
      intro l hl
      induction l with
      | nil => rfl
      | cons e l ih =>
        obtain ⟨k, m⟩ := e
        have ih := ih (fun e he => hl e (by simp [he]))
        cases k with
        | none => exact absurd (HMap.mem_keys_of_mem (hl (none, m) (by simp))) hn
        | some c =>
          have hc := hent c m (hl _ (by simp))
          rw [List.map_cons, List.sum_cons, ih]
          simp only [HMap.keys_cons, List.filterMap_cons, id, List.map_cons, List.sum_cons]
          congr 1
          simp only [contrib, rateOf, hc]
          cases hg : ms.get? c with
          | some r => simp
          | none => by_cases hct : c = target <;> simp [hct]
    exact this b (fun _ h => h)
  · intro c hc
    rw [h3']
    have hct : target ≠ c := Ne.symm hc
    have : ∀ l : Balance, (∀ e ∈ l, e.1 ≠ none) → (∀ e ∈ l, e.2.commodity = e.1) →
        (l.map (contrib ms target c)).sum =
        if (ms.get? c).isSome then 0 else Balance.amountOf l c := by
      intro l h1 h2
      induction l with
      | nil => simp [Balance.amountOf, sumIn]
      | cons e l ih =>
        obtain ⟨k, m⟩ := e
        have ih := ih (fun e he => h1 e (by simp [he])) (fun e he => h2 e (by simp [he]))
        cases k with
        | none => exact absurd rfl (h1 (none, m) (by simp))
        | some c' =>
          have hm : m.commodity = some c' := h2 (some c', m) (by simp)
          rw [List.map_cons, List.sum_cons, ih, Balance.amountOf_cons]
          simp only [contrib, Money.amountIn, hm, Option.some.injEq]
          cases hg : ms.get? c' with
          | some r =>
            by_cases hcc : c' = c
            · subst hcc; simp [hg, hct]
            · simp [hct, hcc]
          | none =>
            by_cases hcc : c' = c
            · subst hcc; simp [hg]
            · simp [hcc]
    exact this b (fun e he h0 => hn (h0 ▸ HMap.mem_keys_of_mem he)) hb.toWF.key

theorem ConvertedTo.congr {ms : HMap Cur Rat} {target : Cur} {f f' g : Cur → Rat} (h : ConvertedTo ms target f g)
    (hf : ∀ c, f c = f' c) : ConvertedTo ms target f' g := by
  obtain rfl : f = f' := funext hf
  exact h

theorem ConvertedTo.unique {ms : HMap Cur Rat} {target : Cur} {f g g' : Cur → Rat} (h : ConvertedTo ms target f g)
    (h' : ConvertedTo ms target f g') {cs : List Cur} (hn : cs.Nodup) (hs : ∀ c, f c ≠ 0 → c ∈ cs) (c : Cur) :
    g c = g' c := by
  by_cases hc : c = target
  · subst hc; rw [h.total cs hn hs, h'.total cs hn hs]
  · rw [h.rest c hc, h'.rest c hc]

/-- An empty table changes nothing. -/
theorem ConvertedTo.nil (target : Cur) (f : Cur → Rat) : ConvertedTo [] target f f := by
  constructor
  · intro cs hn hs
    have key : ∀ l : List Cur, l.Nodup → (l.map (fun c => f c * rateOf [] target c)).sum =
        if target ∈ l then f target else 0 := by
      intro l hl
      induction l with
      | nil => rfl
      | cons c l ih =>
        rw [List.nodup_cons] at hl
        rw [List.map_cons, List.sum_cons, ih hl.2]
        by_cases hc : c = target
        · subst hc
          simp [rateOf, hl.1]
        · simp [rateOf, hc, Ne.symm hc]
    rw [key cs hn]
    split
    · rfl
    · next h => by_contra hne; exact h (hs target hne)
  · intro c _; simp

theorem convertRows_spec {s : Str → Shuf} {ms : HMap Cur Rat} {target : Cur}
    (rows : List (Str × Balance)) {rows' : List (Str × Balance)} (hc : ∀ e ∈ rows, e.2.Canon)
    (h : convertRows s ms target rows = .ok rows') :
    List.Forall₂ (fun e e' => e'.1 = e.1 ∧ e'.2.Canon ∧ ConvertedTo ms target e.2.amountOf e'.2.amountOf)
      rows rows' := by
  induction rows generalizing rows' with
  | nil => cases h; exact .nil
  | cons e rows ih =>
    obtain ⟨n, b⟩ := e
    unfold convertRows at h
    split at h
    · cases h
    next b' hb =>
    split at h
    · cases h
    next rest hr =>
    cases h
    obtain ⟨h1, h2⟩ := convertBalance_canon (hc (n, b) (by simp)) hb
    exact .cons ⟨rfl, h1, h2⟩ (ih (fun e he => hc e (by simp [he])) hr)

/-- The parts of a report with a conversion. -/
theorem balanceReport_exchange {env : Env} {o : BalOrders} {today : Date} {opts : ReportOpts}
    {flat showTotal : Bool} {l : Ledger} {rep : BalReport} {x : Str}
    (h : balanceReport env o today opts flat showTotal l = .ok rep) (hx : opts.exchange = some x) :
    ∃ node sel st bals rows, queryNode env opts.query = .ok node ∧
      Selects env opts.filter node l.entries l.commodities sel st ∧ Collected bals sel ∧
      (if flat then flatRows o opts.depth bals else .ok (treeRows o bals)) = .ok rows ∧
      (((∃ e, st.get env.lower x = .error (.error e)) ∧
          finishBalance o flat showTotal opts.depth bals none rows = .ok rep ∧
          balanceReport env o today { opts with exchange := none } flat showTotal l = .ok rep) ∨
        ∃ target ms rows', Finds env.lower st x target ∧ conversion o.conv target today l.prices = .ok ms ∧
          convertRows o.convRow ms target rows = .ok rows' ∧
          finishBalance o flat showTotal opts.depth bals (some (target, ms)) rows' = .ok rep) := by
  have h0 := h
  unfold balanceReport at h
  split at h
  · cases h
  next node hn =>
  split at h
  · cases h
  next bals st hc =>
  obtain ⟨sel, hs, ha, hcol⟩ := collected hc
  split at h
  · cases h
  next rows hrows =>
  refine ⟨node, sel, st, bals, rows, hn, hs, hcol, hrows, ?_⟩
  split at h
  · cases h
  · next ht =>
    left
    refine ⟨?_, h, ?_⟩
    · unfold exchangeTable at ht
      rw [hx] at ht
      simp only at ht
      split at ht
      · cases ht
      · next e he => exact ⟨e, he⟩
      · split at ht <;> cases ht
    · unfold balanceReport
      simp only [hn, hc, hrows, exchangeTable]
      exact h
  · next target ms ht =>
    right
    split at h
    · cases h
    next rows' hr =>
    unfold exchangeTable at ht
    rw [hx] at ht
    simp only at ht
    split at ht
    · cases ht
    · cases ht
    · next c hcx =>
      split at ht
      · cases ht
      · next ms' hms =>
        cases ht
        exact ⟨c.name, ms, rows', ⟨c, hcx, rfl⟩, hms, hr, h⟩

theorem finishBalance_exchange {o : BalOrders} {flat showTotal : Bool} {depth : Option Nat}
    {bals : Balances} {sel : List (Txn Posting × Posting)} {rows : List (Str × Balance)} {rep : BalReport}
    {target : Cur} {ms : HMap Cur Rat} (hcol : Collected bals sel)
    (h : finishBalance o flat showTotal depth bals (some (target, ms)) rows = .ok rep) :
    finishBalance o flat false depth bals none rows = .ok ⟨rep.lines, none⟩ ∧
    (rep.total.isSome = true ↔ showTotal = true ∧ rep.lines.length > 1) ∧
    ∀ tm, rep.total = some tm → ∃ g, ConvertedTo ms target (selSum sel (fun _ => true)) g ∧ Shows tm g := by
  unfold finishBalance at h ⊢
  simp only [Bool.false_and, Bool.false_eq_true, if_false] at h ⊢
  split at h
  · next hc =>
    obtain ⟨hcan, hsum⟩ := grandTotal_spec hcol o.total
    have key : ∃ total : Balance, total.Canon ∧ ConvertedTo ms target (selSum sel (fun _ => true)) total.amountOf ∧
        rep = ⟨printLoop flat depth o.shown (sortBy (fun a b => strLe a.1 b.1) rows).length
          (sortBy (fun a b => strLe a.1 b.1) rows), some (if total.isZero then []
            else (o.shownTotal.run total).map Prod.snd)⟩ := by
      by_cases hl : ms.length > 0
      · rw [if_pos hl] at h
        split at h
        · cases h
        next total hto =>
        cases h
        obtain ⟨h1, h2⟩ := convertBalance_canon hcan hto
        exact ⟨total, h1, h2.congr hsum, rfl⟩
      · rw [if_neg hl] at h
        simp only at h
        cases h
        have : ms = [] := List.length_eq_zero_iff.mp (by omega)
        subst this
        exact ⟨_, hcan, (ConvertedTo.nil target _).congr hsum, rfl⟩
    obtain ⟨total, h1, h2, rfl⟩ := key
    refine ⟨rfl, by simpa using hc, ?_⟩
    intro tm htm
    cases htm
    refine ⟨total.amountOf, h2, ?_⟩
    split
    · next hz => exact shows_nil (fun c => (Balance.isZero_iff h1.toWF).mp hz c)
    · exact Canon.shows h1 _
  · next hc =>
    cases h
    refine ⟨rfl, ?_, by intro tm htm; cases htm⟩
    simpa using hc

/-! ### Headers of the register -/

/-- The payee list during a register report. -/
structure PayeesSeen (lower : Str → Str) (l0 l : NList PayeeDef) : Prop where
  reach : l.Reachable lower
  extends_ : Extends lower l0 l
  added : ∀ k x e, l0.get lower k = .error e → l.get lower k = .ok x → lower x.name = lower k

theorem getPayee_spec {env : Env} {t : Txn Posting} {l0 l l' : NList PayeeDef} {n : Str}
    (hs : PayeesSeen env.lower l0 l) (h : getPayee env t l = .ok (n, l')) :
    PayeesSeen env.lower l0 l' ∧
    ((∃ m, Finds env.lower l0 t.description m) → Finds env.lower l0 t.description n) ∧
    ((¬ ∃ m, Finds env.lower l0 t.description m) → env.lower n = env.lower t.description) := by
  unfold getPayee at h
  split at h
  · next x hx =>
    cases h
    refine ⟨hs, ?_, ?_⟩
    · rintro ⟨m, y, hy, _⟩
      have := hs.extends_ _ _ hy
      rw [hx] at this
      cases this
      exact ⟨x, hy, rfl⟩
    · intro hno
      cases hy : l0.get env.lower t.description with
      | ok y => exact absurd ⟨_, y, hy, rfl⟩ hno
      | error e => exact hs.added _ _ _ hy hx
  · cases h
  · next e he =>
    cases h
    obtain ⟨h1, h2, h3⟩ := insert_fresh (x := ({ name := t.description } : PayeeDef)) he rfl rfl
    refine ⟨⟨.insert _ hs.reach, hs.extends_.trans h2, ?_⟩, ?_, fun _ => rfl⟩
    · intro k y e' hk hy
      rw [h3] at hy
      unfold NList.get at hy
      simp only [HMap.get?_insert] at hy
      by_cases hkk : env.lower t.description = env.lower k
      · rw [if_pos hkk] at hy
        cases hy
        exact hkk
      · rw [if_neg hkk] at hy
        refine hs.added k y e' hk ?_
        unfold NList.get
        obtain ⟨m1, m2⟩ := get_missing he
        split at hy
        · exact hy
        · split at hy
          · cases hy
          · next w hw =>
            by_cases hkw : env.lower t.description = w
            · subst hkw
              have := (NList.Inv.reach hs.reach).aliasOk _ _ hw
              rw [m1] at this
              cases this
            · rw [if_neg hkw] at hy
              exact hy
    · rintro ⟨m, y, hy, _⟩
      have := hs.extends_ _ _ hy
      rw [he] at this
      cases this

/-- What one transaction adds to the register. -/
structure RegPart (env : Env) (l0 : NList PayeeDef) (t : Txn Posting) (ps : List Posting) (counter : Nat)
    (st st' : RegState) (new : List RegLine) : Prop where
  lines : st'.lines = st.lines ++ new
  payees : PayeesSeen env.lower l0 st'.payees
  postings : ∃ sub : List Posting, sub.Sublist ps ∧ new.map (fun l => (l.account, l.kind, some l.amount)) =
    sub.map (fun p => (p.account, p.kind, p.amount))
  first : counter = 0 → ∀ line rest, new = line :: rest → ∃ d name, t.date = some d ∧
    line.header = some (d, name) ∧
    ((∃ n, Finds env.lower l0 t.description n) → Finds env.lower l0 t.description name) ∧
    ((¬ ∃ n, Finds env.lower l0 t.description n) → env.lower name = env.lower t.description)
  others : counter = 0 → ∀ line rest, new = line :: rest → ∀ x ∈ rest, x.header = none
  later : counter ≠ 0 → ∀ x ∈ new, x.header = none

theorem registerPosting_part {env : Env} {s : Shuf} {t : Txn Posting} {counter : Nat} {p : Posting}
    {st st' : RegState} {l0 : NList PayeeDef} (hs : PayeesSeen env.lower l0 st.payees)
    (h : registerPosting env s t counter p st = .ok st') :
    ∃ line, RegPart env l0 t [p] counter st st' [line] := by
  unfold registerPosting at h
  split at h
  · cases h
  next header payees hh =>
  split at h
  · cases h
  next m hm =>
  cases h
  by_cases hc : counter = 0
  · rw [if_pos hc] at hh
    split at hh
    · cases hh
    next d hd =>
    split at hh
    · cases hh
    next n payees' hg =>
    cases hh
    obtain ⟨g1, g2, g3⟩ := getPayee_spec hs hg
    refine ⟨_, rfl, g1, ⟨[p], .refl _, ?_⟩, ?_, ?_, fun h => absurd hc h⟩
    · simp [hm]
    · intro _ line rest he
      cases he
      exact ⟨d, n, hd, rfl, g2, g3⟩
    · intro _ line rest he x hx
      cases he
      cases hx
  · rw [if_neg hc] at hh
    cases hh
    refine ⟨_, rfl, hs, ⟨[p], .refl _, ?_⟩, fun h => absurd h hc, fun h => absurd h hc, ?_⟩
    · simp [hm]
    · intro _ x hx
      rw [List.mem_singleton] at hx
      rw [hx]

theorem registerPostings_part {env : Env} {s : Nat → Shuf} {o : FilterOpts} {node : Option Ast}
    {t : Txn Posting} (ps : List Posting) {counter : Nat} {st st' : RegState} {l0 : NList PayeeDef}
    (hs : PayeesSeen env.lower l0 st.payees)
    (h : registerPostings env s o node t ps counter st = .ok st') :
    ∃ new, RegPart env l0 t ps counter st st' new := by
  induction ps generalizing counter st with
  | nil =>
    cases h
    exact ⟨[], by simp, hs, ⟨[], .slnil, rfl⟩, by intro _ _ _ h; (cases h), by intro _ _ _ h; (cases h),
      by simp⟩
  | cons p ps ih =>
    unfold registerPostings at h
    split at h
    · cases h
    · next c hf =>
      obtain ⟨new, g⟩ := ih (st := { st with commodities := c }) hs h
      obtain ⟨sub, g1, g2⟩ := g.postings
      exact ⟨new, g.lines, g.payees, ⟨sub, .cons p g1, g2⟩, g.first, g.others, g.later⟩
    · next c hf =>
      split at h
      · cases h
      next st1 h1 =>
      obtain ⟨line, g⟩ := registerPosting_part (st := { st with commodities := c }) hs h1
      obtain ⟨new, k⟩ := ih g.payees h
      obtain ⟨sub, g1, g2⟩ := g.postings
      obtain ⟨sub', k1, k2⟩ := k.postings
      refine ⟨line :: new, ?_, k.payees, ⟨sub ++ sub', g1.append k1, ?_⟩, ?_, ?_, ?_⟩
      · rw [k.lines, g.lines, List.append_assoc]; rfl
      · rw [← List.singleton_append, List.map_append, List.map_append, g2, k2]
      · intro hc l r he
        cases he
        exact g.first hc line [] rfl
      · intro hc l r he
        cases he
        exact k.later (by omega)
      · intro hc x hx
        rcases List.mem_cons.mp hx with rfl | hx
        · exact g.later hc _ (by simp)
        · exact k.later (by omega) x hx

theorem registerAll_blocks {env : Env} {s : Nat → Shuf} {o : FilterOpts} {node : Option Ast}
    (ts : List (Txn Posting)) {st st' : RegState} {l : Ledger}
    (hs : PayeesSeen env.lower l.payees st.payees) (h : registerAll env s o node ts st = .ok st') :
    ∃ blocks, st'.lines = st.lines ++ blocks.flatten ∧ List.Forall₂ (RegBlock env l) ts blocks := by
  induction ts generalizing st with
  | nil => cases h; exact ⟨[], by simp, .nil⟩
  | cons t ts ih =>
    unfold registerAll at h
    split at h
    · cases h
    next st1 h1 =>
    obtain ⟨new, g⟩ := registerPostings_part _ hs h1
    obtain ⟨blocks, k1, k2⟩ := ih g.payees h
    refine ⟨new :: blocks, by rw [k1, g.lines]; simp, .cons ⟨g.postings, g.first rfl, g.others rfl⟩ k2⟩

end Dinero
