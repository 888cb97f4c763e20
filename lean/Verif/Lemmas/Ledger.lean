import Verif.Spec.Ledger
import Verif.Lemmas.List
import Verif.Lemmas.Sort
import Verif.Lemmas.BalancingPass
import Mathlib.Data.List.Forall2
/-
Lemmas on building the ledger.
-/
namespace Dinero

/-! ### Inversion -/

theorem toLedger_inv {env : Env} {o : LedgerOrders} {skip : Bool} {pl : ParsedLedger} {L : Ledger}
    (h : toLedger env o skip pl = .ok L) :
    ∃ l, populate env o pl = .ok l ∧ buildLedger env o skip pl l = .ok L := by
  unfold toLedger at h
  split at h
  · cases h
  · next l hl => exact ⟨l, hl, h⟩

theorem buildLedger_inv {env : Env} {o : LedgerOrders} {skip : Bool} {pl : ParsedLedger} {l : Lists}
    {L : Ledger} (h : buildLedger env o skip pl l = .ok L) :
    ∃ dp txns autos cp sorted ts ip ts' ap l', directivePrices env l.commodities pl.prices = .ok dp ∧
      convertAll env o.unknown l pl.transactions = .ok (txns, autos, cp) ∧
      sortByDate txns = .ok sorted ∧
      balancePass skip o.fill o.rate (initialBalances l.accounts) sorted = .ok (ts, ip) ∧
      automatedPass env o skip autos ts l = .ok (ts', ap, l') ∧
      L = { accounts := l'.accounts, commodities := l'.commodities, transactions := ts',
            prices := dp ++ cp ++ ip ++ ap, payees := l'.payees } := by
  unfold buildLedger at h
  split at h
  · cases h
  · next dp hdp =>
    split at h
    · cases h
    · next txns autos cp hc =>
      split at h
      · cases h
      · next sorted hs =>
        split at h
        · cases h
        · next ts ip hb =>
          split at h
          · cases h
          · next ts' ap l' ha =>
            cases h
            exact ⟨dp, txns, autos, cp, sorted, ts, ip, ts', ap, l', hdp, hc, hs, hb, ha, rfl⟩

/-- A transaction converts to another one, with these prices. -/
def Converts (env : Env) (s : Shuf) (l : Lists) (raw : Txn RawPosting) (r : Txn Posting × List Price) :
    Prop := convertTxn env s l raw = .ok r

theorem convertAll_spec {env : Env} {s : Shuf} {l : Lists} (ts : List (Txn RawPosting))
    {txns : List (Txn Posting)} {autos : List (Txn RawPosting)} {prices : List Price}
    (h : convertAll env s l ts = .ok (txns, autos, prices)) :
    autos = ts.filter (fun t => t.ttype = .automated) ∧
    ∃ rs, List.Forall₂ (Converts env s l) (ts.filter (fun t => t.ttype = .real)) rs ∧
      txns = rs.map Prod.fst ∧ prices = rs.flatMap Prod.snd := by
  induction ts generalizing txns autos prices with
  | nil => cases h; exact ⟨rfl, [], .nil, rfl, rfl⟩
  | cons t ts ih =>
    unfold convertAll at h
    cases htt : t.ttype with
    | real =>
      rw [htt] at h
      simp only at h
      split at h
      · cases h
      · next t' prs hc =>
        split at h
        · cases h
        · next txns' autos' prices' hr =>
          cases h
          obtain ⟨h1, rs, h2, h3, h4⟩ := ih hr
          refine ⟨by simpa [htt] using h1, (t', prs) :: rs, ?_, by simp [h3], by simp [h4]⟩
          rw [List.filter_cons_of_pos (by simp [htt])]
          exact .cons hc h2
    | automated =>
      rw [htt] at h
      simp only at h
      split at h
      · cases h
      · next txns' autos' prices' hr =>
        cases h
        obtain ⟨h1, rs, h2, h3, h4⟩ := ih hr
        refine ⟨by simp [htt, h1], rs, ?_, h3, h4⟩
        rw [List.filter_cons_of_neg (by simp [htt])]
        exact h2
    | periodic =>
      rw [htt] at h
      simp only at h
      obtain ⟨h1, rs, h2, h3, h4⟩ := ih h
      refine ⟨by simpa [htt] using h1, rs, ?_, h3, h4⟩
      rw [List.filter_cons_of_neg (by simp [htt])]
      exact h2

theorem convertTxn_inv {env : Env} {s : Shuf} {l : Lists} {raw : Txn RawPosting} {t : Txn Posting}
    {prs : List Price} (h : convertTxn env s l raw = .ok (t, prs)) :
    ∃ ps, convertPostings env s l raw (raw.comments.flatMap getTags) raw.postings = .ok (ps, prs) ∧
      t.header = raw.header ∧ t.postings = ps ∧ t.ttype = .real ∧
      t.tags = raw.comments.flatMap getTags := by
  unfold convertTxn at h
  split at h
  · cases h
  · next ps prs' hp =>
    simp only at h
    split at h
    · cases h
    · cases h; exact ⟨ps, hp, rfl, rfl, rfl, rfl⟩
    · cases h; exact ⟨ps, hp, rfl, rfl, rfl, rfl⟩

/-! ### Sorting by date -/

theorem forall₂_insertSorted {α β : Type} {R : α → β → Prop} {le : α → α → Bool} {le' : β → β → Bool}
    (hle : ∀ a b c d, R a b → R c d → le a c = le' b d) {a : α} {b : β} (hab : R a b) {l : List α}
    {l' : List β} (h : List.Forall₂ R l l') :
    List.Forall₂ R (insertSorted le a l) (insertSorted le' b l') := by
  induction h with
  | nil => exact .cons hab .nil
  | cons hxy _ ih =>
    unfold insertSorted
    rw [hle _ _ _ _ hab hxy]
    split
    · exact .cons hab (.cons hxy (by assumption))
    · exact .cons hxy ih

theorem forall₂_sortBy {α β : Type} {R : α → β → Prop} {le : α → α → Bool} {le' : β → β → Bool}
    (hle : ∀ a b c d, R a b → R c d → le a c = le' b d) {l : List α} {l' : List β}
    (h : List.Forall₂ R l l') : List.Forall₂ R (sortBy le l) (sortBy le' l') := by
  induction h with
  | nil => exact .nil
  | cons hxy _ ih => exact forall₂_insertSorted hle hxy ih

/-- The comparison of `sort_by`. -/
def dateLe {P : Type} (a b : Txn P) : Bool := decide (a.date.getD 0 ≤ b.date.getD 0)

theorem dateLe_total {P : Type} : TotalLe (dateLe (P := P)) where
  total a b := by
    unfold dateLe
    rcases le_total (a.date.getD 0) (b.date.getD 0) with h | h
    · exact Or.inl (by simpa using h)
    · exact Or.inr (by simpa using h)
  trans a b c h1 h2 := by
    unfold dateLe at *
    simp only [decide_eq_true_eq] at *
    exact le_trans h1 h2

theorem dateOrder_sortBy {P : Type} {l : List (Txn P)} (h : ∀ t ∈ l, t.date.isSome) :
    DateOrder l (sortBy dateLe l) := by
  refine ⟨sortBy_perm _ l, ?_, ?_⟩
  · refine List.Pairwise.imp_of_mem ?_ (sortBy_sorted dateLe_total l)
    intro a b ha hb hab
    obtain ⟨d, hd⟩ := Option.isSome_iff_exists.mp (h a ((mem_sortBy _ _ _).mp ha))
    obtain ⟨e, he⟩ := Option.isSome_iff_exists.mp (h b ((mem_sortBy _ _ _).mp hb))
    refine ⟨d, e, hd, he, ?_⟩
    simpa [dateLe, hd, he] using hab
  · intro d
    by_cases hx : ∃ x ∈ l, x.date = d
    · obtain ⟨x, hxl, hxd⟩ := hx
      have key : ∀ y, y ∈ l → ((dateLe x y && dateLe y x) = true ↔ y.date = d) := by
        intro y hy
        obtain ⟨e, he⟩ := Option.isSome_iff_exists.mp (h y hy)
        obtain ⟨f, hf⟩ := Option.isSome_iff_exists.mp (h x hxl)
        simp only [dateLe, he, hf, Option.getD_some, Bool.and_eq_true, decide_eq_true_eq]
        rw [← hxd, hf]
        constructor
        · rintro ⟨a, b⟩; rw [le_antisymm a b]
        · intro e; cases e; exact ⟨le_refl _, le_refl _⟩
      have hb : ∀ y ∈ l, (dateLe x y && dateLe y x) = decide (y.date = d) := by
        intro y hy
        rw [Bool.eq_iff_iff]
        simpa using key y hy
      have h1 : (sortBy dateLe l).filter (fun t => t.date = d) =
          (sortBy dateLe l).filter (fun y => dateLe x y && dateLe y x) :=
        List.filter_congr (fun y hy => (hb y ((mem_sortBy _ _ _).mp hy)).symm)
      have h2 : l.filter (fun t => t.date = d) = l.filter (fun y => dateLe x y && dateLe y x) :=
        List.filter_congr (fun y hy => (hb y hy).symm)
      rw [h1, h2]
      exact filter_sortBy dateLe_total x l
    · rw [List.filter_eq_nil_iff.mpr, List.filter_eq_nil_iff.mpr]
      · intro y hy hc; exact hx ⟨y, hy, by simpa using hc⟩
      · intro y hy hc; exact hx ⟨y, (mem_sortBy _ _ _).mp hy, by simpa using hc⟩

/-- Two listings by date of lists with the same transactions per date are the same. -/
theorem DateOrder.unique {P : Type} {l m l' m' : List (Txn P)} (hl : DateOrder l l')
    (hm : DateOrder m m') (hp : l.Perm m)
    (hs : ∀ d : Option Date, l.filter (fun t => t.date = d) = m.filter (fun t => t.date = d)) :
    l' = m' := by
  by_cases hone : ∀ t ∈ l', t.date.isSome
  · refine eq_of_sorted_stable dateLe_total l' m' (hl.perm.trans (hp.trans hm.perm.symm)) ?_ ?_ ?_
    · exact hl.sorted.imp (fun ⟨d, e, h1, h2, h3⟩ => by simpa [dateLe, h1, h2] using h3)
    · exact hm.sorted.imp (fun ⟨d, e, h1, h2, h3⟩ => by simpa [dateLe, h1, h2] using h3)
    · intro x
      have hone' : ∀ t ∈ m', t.date.isSome := fun t ht =>
        hone t ((hl.perm.trans (hp.trans hm.perm.symm)).mem_iff.mpr ht)
      have conv : ∀ z : List (Txn P), (∀ t ∈ z, t.date.isSome) →
          z.filter (fun y => dateLe x y && dateLe y x) =
            z.filter (fun t => t.date = some (x.date.getD 0)) := by
        intro z hz
        apply List.filter_congr
        intro y hy
        obtain ⟨e, he⟩ := Option.isSome_iff_exists.mp (hz y hy)
        simp only [dateLe, he, Option.getD_some]
        by_cases hc : e = x.date.getD 0
        · simp [hc]
        · simp only [Option.some.injEq, hc, decide_false, Bool.and_eq_false_iff, decide_eq_false_iff_not]
          by_contra hcon
          push Not at hcon
          exact hc (le_antisymm hcon.2 hcon.1)
      rw [conv _ hone, conv _ hone', hl.stable, hm.stable, hs]
  · -- a listing with an undated transaction has no other
    push Not at hone
    obtain ⟨t, ht, htd⟩ := hone
    have hlen : l'.length ≤ 1 := by
      by_contra hc
      have hall : ∀ u ∈ l', u.date.isSome := by
        intro u hu
        obtain ⟨x, y, rfl⟩ := List.append_of_mem hu
        have hsort := hl.sorted
        cases x with
        | cons a x =>
          rw [List.cons_append, List.pairwise_cons] at hsort
          obtain ⟨d, e, _, h2, _⟩ := hsort.1 u (by simp)
          simp [h2]
        | nil =>
          cases y with
          | nil => simp at hc
          | cons b y =>
            rw [List.nil_append, List.pairwise_cons] at hsort
            obtain ⟨d, e, h1, _, _⟩ := hsort.1 b (by simp)
            simp [h1]
      exact htd (hall t ht)
    have hpm : l'.Perm m' := hl.perm.trans (hp.trans hm.perm.symm)
    match l', hlen, hpm with
    | [], _, hpm => exact (List.nil_perm.mp hpm).symm
    | [a], _, hpm => exact List.singleton_perm.mp hpm

theorem sortByDate_inv {ts sorted : List (Txn Posting)} (h : sortByDate ts = .ok sorted) :
    (∀ t ∈ ts, t.date.isSome) ∧ sorted = sortBy dateLe ts := by
  unfold sortByDate at h
  split at h
  · cases h
  · next hn =>
    cases h
    refine ⟨?_, rfl⟩
    intro t ht
    cases hd : t.date with
    | some d => rfl
    | none => exact absurd (List.any_eq_true.mpr ⟨t, ht, by simp [hd]⟩) hn

/-! ### Passes keep headers -/

theorem balance_header {s : Shuf} {skip : Bool} {bals bals' : Balances} {t t' : Txn Posting}
    {ret : Balance} (h : Txn.balance s skip bals t = .ok (bals', t', ret)) :
    t' = { t with postings := t'.postings } := by
  unfold Txn.balance at h
  split at h
  · cases h
  · split at h
    · cases h
    · split at h
      · cases h
      · simp only at h
        split at h
        · cases h
        · split at h
          · split at h
            · cases h; rfl
            · cases h
          · split at h
            · cases h
            · cases h; rfl

theorem balancePass_inv {skip : Bool} (ts : List (Txn Posting)) {σ ρ : Nat → Shuf} {bals : Balances}
    {ts' : List (Txn Posting)} {prs : List Price}
    (h : balancePass skip σ ρ bals ts = .ok (ts', prs)) :
    List.Forall₂ (fun t t' => t' = { t with postings := t'.postings }) ts ts' := by
  induction ts generalizing σ ρ bals ts' prs with
  | nil => cases h; exact .nil
  | cons t ts ih =>
    unfold balancePass at h
    split at h
    · cases h
    · split at h
      · cases h
      · next bals' t' ret hb =>
        split at h
        · cases h
        · split at h
          · cases h
          · next ts'' prs' hr =>
            cases h
            exact .cons (balance_header hb) (ih hr)

theorem applyRule_header {env : Env} {rule : Txn RawPosting × Ast} {t t' : Txn Posting} {l l' : Lists}
    (h : applyRule env rule t l = .ok (t', l')) : t' = { t with postings := t'.postings } := by
  unfold applyRule at h
  split at h
  · cases h
  · cases h; rfl

theorem applyRules_header {env : Env} (rules : List (Txn RawPosting × Ast)) {t t' : Txn Posting}
    {l l' : Lists} (h : applyRules env rules t l = .ok (t', l')) :
    t' = { t with postings := t'.postings } := by
  induction rules generalizing t l with
  | nil => cases h; rfl
  | cons r rs ih =>
    unfold applyRules at h
    split at h
    · cases h
    · next t1 l1 h1 =>
      rw [ih h, applyRule_header h1]

theorem automate_header {env : Env} {rules : List (Txn RawPosting × Ast)} (ts : List (Txn Posting))
    {ts' : List (Txn Posting)} {l l' : Lists} (h : automate env rules ts l = .ok (ts', l')) :
    List.Forall₂ (fun t t' => t' = { t with postings := t'.postings }) ts ts' := by
  induction ts generalizing ts' l with
  | nil => cases h; exact .nil
  | cons t ts ih =>
    unfold automate at h
    split at h
    · cases h
    · next t' l1 h1 =>
      split at h
      · cases h
      · next ts'' l'' h2 => cases h; exact .cons (applyRules_header rules h1) (ih h2)

theorem forall₂_trans {α : Type} {R : α → α → Prop} (ht : ∀ a b c, R a b → R b c → R a c)
    {x y z : List α} (h1 : List.Forall₂ R x y) (h2 : List.Forall₂ R y z) : List.Forall₂ R x z := by
  induction h1 generalizing z with
  | nil => cases h2; exact .nil
  | cons hab _ ih => cases h2 with | cons hbc h2 => exact .cons (ht _ _ _ hab hbc) (ih h2)

theorem automatedPass_header {env : Env} {o : LedgerOrders} {skip : Bool}
    {autos : List (Txn RawPosting)} {ts ts' : List (Txn Posting)} {l l' : Lists} {prs : List Price}
    (h : automatedPass env o skip autos ts l = .ok (ts', prs, l')) :
    List.Forall₂ (fun t t' => t' = { t with postings := t'.postings }) ts ts' := by
  unfold automatedPass at h
  split at h
  · split at h
    · cases h
    · split at h
      · cases h
      · next ts1 l1 h1 =>
        split at h
        · cases h
        · next ts2 prs2 h2 =>
          cases h
          refine forall₂_trans ?_ (automate_header ts h1) (balancePass_inv ts1 h2)
          intro a b c hab hbc
          rw [hbc, hab]
  · cases h
    exact forall₂_refl (R := fun (t t' : Txn Posting) => t' = { t with postings := t'.postings })
      (fun _ => rfl) _

/-! ### Reordering the journal -/

/-- The conversion as a function. -/
def convOf (env : Env) (s : Shuf) (l : Lists) (t : Txn RawPosting) : Txn Posting × List Price :=
  match convertTxn env s l t with
  | .ok r => r
  | .error _ => ({}, [])

theorem converts_convOf {env : Env} {s : Shuf} {l : Lists} {t : Txn RawPosting}
    {r : Txn Posting × List Price} (h : Converts env s l t r) : r = convOf env s l t := by
  unfold convOf; rw [h]

theorem convertAll_of {env : Env} {s : Shuf} {l : Lists} (ts : List (Txn RawPosting))
    (h : ∀ t ∈ ts, t.ttype = .real → ∃ r, Converts env s l t r) :
    convertAll env s l ts = .ok
      ((ts.filter (fun t => t.ttype = .real)).map (fun t => (convOf env s l t).1),
       ts.filter (fun t => t.ttype = .automated),
       (ts.filter (fun t => t.ttype = .real)).flatMap (fun t => (convOf env s l t).2)) := by
  induction ts with
  | nil => rfl
  | cons t ts ih =>
    have ih := ih (fun u hu => h u (List.mem_cons_of_mem _ hu))
    unfold convertAll
    cases htt : t.ttype with
    | real =>
      obtain ⟨r, hr⟩ := h t (by simp) htt
      have hr' : convertTxn env s l t = .ok r := hr
      have := converts_convOf hr
      simp only [hr', ih]
      simp [htt, ← this]
    | automated => simp only [ih]; simp [htt]
    | periodic => simp only [ih]; simp [htt]

theorem convertAll_eq {env : Env} {s : Shuf} {l : Lists} {ts : List (Txn RawPosting)}
    {r : List (Txn Posting) × List (Txn RawPosting) × List Price}
    (h : convertAll env s l ts = .ok r) :
    (∀ t ∈ ts, t.ttype = .real → ∃ r, Converts env s l t r) ∧
    r = ((ts.filter (fun t => t.ttype = .real)).map (fun t => (convOf env s l t).1),
       ts.filter (fun t => t.ttype = .automated),
       (ts.filter (fun t => t.ttype = .real)).flatMap (fun t => (convOf env s l t).2)) := by
  obtain ⟨txns, autos, prices⟩ := r
  obtain ⟨_, rs, hrs, _, _⟩ := convertAll_spec ts h
  have hall : ∀ t ∈ ts, t.ttype = .real → ∃ r, Converts env s l t r := by
    intro t ht htt
    obtain ⟨r, _, hr⟩ := Forall₂.mem_left hrs (List.mem_filter.mpr ⟨ht, by simp [htt]⟩)
    exact ⟨r, hr⟩
  refine ⟨hall, ?_⟩
  rw [convertAll_of ts hall] at h
  exact (Except.ok.inj h).symm

theorem sortBy_map {α β : Type} {f : α → β} {le : α → α → Bool} {le' : β → β → Bool} (l : List α)
    (h : ∀ a ∈ l, ∀ b ∈ l, le' (f a) (f b) = le a b) : sortBy le' (l.map f) = (sortBy le l).map f := by
  induction l with
  | nil => rfl
  | cons a l ih =>
    have ih := ih (fun x hx y hy => h x (by simp [hx]) y (by simp [hy]))
    rw [List.map_cons]
    show insertSorted le' (f a) (sortBy le' (l.map f)) = (insertSorted le a (sortBy le l)).map f
    rw [ih]
    have hm : ∀ b ∈ sortBy le l, le' (f a) (f b) = le a b := fun b hb =>
      h a (by simp) b (List.mem_cons_of_mem _ ((mem_sortBy _ _ _).mp hb))
    generalize sortBy le l = z at hm
    induction z with
    | nil => rfl
    | cons b z ihz =>
      rw [List.map_cons]
      unfold insertSorted
      rw [hm b (by simp)]
      split
      · rfl
      · rw [List.map_cons, ihz (fun c hc => hm c (List.mem_cons_of_mem _ hc))]

theorem convOf_date {env : Env} {s : Shuf} {l : Lists} {t : Txn RawPosting}
    {r : Txn Posting × List Price} (h : Converts env s l t r) : (convOf env s l t).1.date = t.date := by
  rw [← converts_convOf h]
  have := (convertTxn_inv (t := r.1) (prs := r.2) h).choose_spec.2.1
  exact congrArg (fun x => x.1) this

/-- With the same lists of names, journals with the same transactions per date, the same rules and the
same price directives build the same transactions. -/
theorem buildLedger_reorder {env : Env} {o : LedgerOrders} {skip : Bool} {pl pl' : ParsedLedger}
    {l : Lists} {L : Ledger} (h : buildLedger env o skip pl l = .ok L)
    (hp : pl.regular.Perm pl'.regular)
    (hs : ∀ d : Option Date, pl.regular.filter (fun t => t.date = d) =
      pl'.regular.filter (fun t => t.date = d))
    (ha : pl.automated = pl'.automated) (hd : pl.prices = pl'.prices) :
    ∃ L', buildLedger env o skip pl' l = .ok L' ∧ L'.transactions = L.transactions ∧
      L'.accounts = L.accounts ∧ L'.payees = L.payees ∧ L'.commodities = L.commodities ∧
      L'.prices.Perm L.prices := by
  obtain ⟨dp, txns, autos, cp, sorted, ts, ip, ts', ap, l', hdp, hc, hso, hbp, hap, rfl⟩ :=
    buildLedger_inv h
  obtain ⟨hall, hr⟩ := convertAll_eq hc
  simp only [Prod.mk.injEq] at hr
  obtain ⟨rfl, rfl, rfl⟩ := hr
  have hall' : ∀ t ∈ pl'.transactions, t.ttype = .real → ∃ r, Converts env o.unknown l t r := by
    intro t ht htt
    have hm : t ∈ pl'.regular := List.mem_filter.mpr ⟨ht, by simp [htt]⟩
    have := hp.mem_iff.mpr hm
    exact hall t (List.mem_filter.mp this).1 htt
  have hconv : ∀ t ∈ pl.regular, ∃ r, Converts env o.unknown l t r := fun t ht =>
    hall t (List.mem_filter.mp ht).1 (by simpa using (List.mem_filter.mp ht).2)
  have hconv' : ∀ t ∈ pl'.regular, ∃ r, Converts env o.unknown l t r := fun t ht =>
    hconv t (hp.mem_iff.mpr ht)
  obtain ⟨hdated, rfl⟩ := sortByDate_inv hso
  have hdate : ∀ t ∈ pl.regular, t.date.isSome := by
    intro t ht
    obtain ⟨r, hr⟩ := hconv t ht
    rw [← convOf_date hr]
    exact hdated _ (List.mem_map_of_mem ht)
  have hdate' : ∀ t ∈ pl'.regular, t.date.isSome := fun t ht => hdate t (hp.mem_iff.mpr ht)
  have hmap : ∀ x : List (Txn RawPosting), (∀ t ∈ x, ∃ r, Converts env o.unknown l t r) →
      sortBy dateLe (x.map (fun t => (convOf env o.unknown l t).1)) =
        (sortBy dateLe x).map (fun t => (convOf env o.unknown l t).1) := by
    intro x hx
    apply sortBy_map
    intro a ha b hb
    obtain ⟨_, ha⟩ := hx a ha
    obtain ⟨_, hb⟩ := hx b hb
    unfold dateLe
    rw [convOf_date ha, convOf_date hb]
  have hsort : sortBy dateLe pl'.regular = sortBy dateLe pl.regular :=
    ((dateOrder_sortBy hdate).unique (dateOrder_sortBy hdate') hp hs).symm
  have hsd : sortByDate (pl'.regular.map (fun t => (convOf env o.unknown l t).1)) =
      .ok (sortBy dateLe (pl.regular.map (fun t => (convOf env o.unknown l t).1))) := by
    unfold sortByDate
    rw [if_neg]
    · congr 1
      show sortBy dateLe _ = _
      rw [hmap _ hconv', hmap _ hconv, hsort]
    · rw [List.any_eq_true]
      rintro ⟨u, hu, hn⟩
      obtain ⟨t, ht, rfl⟩ := List.mem_map.mp hu
      obtain ⟨r, hr⟩ := hconv' t ht
      rw [convOf_date hr] at hn
      have := hdate' t ht
      cases hx : t.date <;> simp_all
  refine ⟨{ accounts := l'.accounts, commodities := l'.commodities, transactions := ts',
            prices := dp ++ pl'.regular.flatMap (fun t => (convOf env o.unknown l t).2) ++ ip ++ ap,
            payees := l'.payees }, ?_, rfl, rfl, rfl, rfl, ?_⟩
  · unfold buildLedger
    rw [← hd, hdp]
    simp only
    rw [convertAll_of _ hall']
    simp only
    rw [show pl'.transactions.filter (fun t => t.ttype = .real) = pl'.regular from rfl, hsd]
    simp only
    rw [show (pl.regular.map (fun t => (convOf env o.unknown l t).1)) =
      (pl.transactions.filter (fun t => t.ttype = .real)).map
        (fun t => (convOf env o.unknown l t).1) from rfl, hbp]
    simp only
    rw [show pl'.transactions.filter (fun t => t.ttype = .automated) =
      pl.transactions.filter (fun t => t.ttype = .automated) from ha.symm, hap]
  · show List.Perm (dp ++ _ ++ ip ++ ap) (dp ++ _ ++ ip ++ ap)
    refine List.Perm.append_right _ (List.Perm.append_right _ (List.Perm.append_left _ ?_))
    exact (hp.flatMap_right _).symm

end Dinero
