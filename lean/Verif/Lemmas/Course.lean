import Verif.Spec.Course
import Verif.Lemmas.Merge
import Verif.Lemmas.Orders
import Mathlib.Algebra.BigOperators.Group.List.Basic
/-
Helper lemmas about journals with their transactions in another order, or at other dates.
-/
namespace Dinero

/-! ### Booking -/

/-- Nothing in force has to hold at a certain moment. -/
def TimelessPostings (skip : Bool) (ps : List Posting) : Prop :=
  ∀ p ∈ ps, p.kind = .real → skip = true ∨ p.balance = none

theorem posts_timeless {skip : Bool} {start start' : Str → Cur → Rat} {ps qs : List Posting} (hf : TimelessPostings skip ps)
    (h : Posts skip start ps qs) : Posts skip start' ps qs := by
  induction h generalizing start' with
  | nil => exact .nil
  | other h1 _ ih => exact .other h1 (ih (fun p hp => hf p (by simp [hp])))
  | elided h1 _ ih => exact .elided h1 (ih (fun p hp => hf p (by simp [hp])))
  | @given start p m ps qs h1 h2 h3 _ ih =>
    refine .given h1 h2 ?_ (ih (fun p hp => hf p (by simp [hp])))
    intro hs x d hb
    rcases hf p (by simp) h1 with h | h
    · rw [hs] at h; cases h
    · rw [hb] at h; cases h
  | @assigned start p m b ps qs h1 h2 h3 h4 h5 h6 _ ih =>
    rcases hf p (by simp) h1 with h | h
    · rw [h3] at h; cases h
    · rw [h4] at h; cases h

theorem books_timeless {skip : Bool} {start start' after : Str → Cur → Rat} {t t' : Txn Posting} (ht : t'.postings = t.postings)
    (hf : TimelessPostings skip t.postings) (h : Books skip start t after) : ∃ after', Books skip start' t' after' := by
  obtain ⟨qs, h1, h2, h3⟩ := h
  have h1 := posts_timeless (start' := start') hf h1
  unfold Books
  rw [ht]
  rcases h3 with ⟨g1, g2, g3⟩ | ⟨p, g1, g2⟩
  · exact ⟨_, qs, h1, h2, .inl ⟨g1, g2, fun _ _ => rfl⟩⟩
  · exact ⟨_, qs, h1, h2, .inr ⟨p, g1, fun _ _ => rfl⟩⟩

/-- Then every transaction can be booked for itself. -/
theorem booksAll_timeless {skip : Bool} (ts : List (Txn Posting)) (start : Str → Cur → Rat)
    (hf : ∀ t ∈ ts, TimelessPostings skip t.postings) :
    (∃ final, BooksAll skip start ts final) ↔ ∀ ps ∈ ts.map Txn.postings, ∃ t : Txn Posting, t.postings = ps ∧ ∃ after,
      Books skip (fun _ _ => 0) t after := by
  induction ts generalizing start with
  | nil => exact ⟨fun _ _ h => by simp at h, fun _ => ⟨_, .nil⟩⟩
  | cons t ts ih =>
    constructor
    · rintro ⟨final, h⟩ ps hps
      cases h with
      | @cons _ _ after _ _ h1 h2 =>
        rcases List.mem_cons.mp hps with rfl | hps
        · exact ⟨t, rfl, books_timeless rfl (hf t (by simp)) h1⟩
        · exact (ih after (fun t ht => hf t (by simp [ht]))).mp ⟨_, h2⟩ ps hps
    · intro h
      obtain ⟨t0, e, after, h0⟩ := h t.postings (by simp)
      obtain ⟨after', h1⟩ := books_timeless (start' := start) (t' := t) e.symm (by rw [e]; exact hf t (by simp)) h0
      obtain ⟨final, h2⟩ := (ih after' (fun t ht => hf t (by simp [ht]))).mpr (fun ps hps => h ps (by
        rw [List.map_cons]; exact List.mem_cons_of_mem _ hps))
      exact ⟨final, .cons h1 h2⟩

theorem booksAll_postings {skip : Bool} {start final : Str → Cur → Rat} {ts ts' : List (Txn Posting)}
    (e : ts'.map Txn.postings = ts.map Txn.postings) (h : BooksAll skip start ts final) : BooksAll skip start ts' final := by
  induction h generalizing ts' with
  | nil => rw [List.map_nil, List.map_eq_nil_iff] at e; rw [e]; exact .nil
  | @cons start t after ts final h1 _ ih =>
    cases ts' with
    | nil => simp at e
    | cons t' ts' =>
      simp only [List.map_cons, List.cons.injEq] at e
      refine .cons ?_ (ih e.2)
      unfold Books at *
      rw [e.1]
      exact h1

/-! ### Entries -/

theorem enters_same {skip : Bool} {start start' : Str → Cur → Rat} {t t' : Txn Posting} {es es' : List Posting}
    (ht : t'.postings = t.postings) (hs : start' = start ∨ TimelessPostings skip t.postings) (h : Enters skip start t es)
    (h' : Enters skip start' t' es') (P : Str → Kind → Bool) (c : Cur) : postedWhere P es' c = postedWhere P es c := by
  obtain ⟨qs, h1, h2⟩ := enters_where h
  obtain ⟨qs', h1', h2'⟩ := enters_where h'
  rw [ht] at h1'
  have : qs = qs' := by
    rcases hs with rfl | hs
    · exact posts_unique h1 h1'
    · exact posts_unique (posts_timeless hs h1) h1'
  subst this
  rw [h2, h2', ht]

/-- The amounts of the entries of a transaction. -/
noncomputable def entered (skip : Bool) (P : Str → Kind → Bool) (c : Cur) (ps : List Posting) : Rat :=
  open Classical in
  if h : ∃ es start, Enters skip start { postings := ps } es then postedWhere P h.choose c else 0

theorem entersAll_timeless {skip : Bool} {start : Str → Cur → Rat} {ts : List (Txn Posting)} {es : List Posting}
    (hf : ∀ t ∈ ts, TimelessPostings skip t.postings) (h : EntersAll skip start ts es) (P : Str → Kind → Bool) (c : Cur) :
    postedWhere P es c = ((ts.map Txn.postings).map (entered skip P c)).sum := by
  induction h with
  | nil => rfl
  | @cons start t es ts rest h1 _ ih =>
    rw [postedWhere_append, ih (fun t ht => hf t (by simp [ht])), List.map_cons, List.map_cons, List.sum_cons]
    congr 1
    have hex : ∃ es start, Enters skip start { postings := t.postings } es := ⟨es, start, h1⟩
    unfold entered
    rw [dif_pos hex]
    obtain ⟨start', hs⟩ := hex.choose_spec
    exact (enters_same rfl (.inr (hf t (by simp))) h1 hs P c).symm

theorem entersAll_postings {skip : Bool} {start : Str → Cur → Rat} {ts ts' : List (Txn Posting)} {es es' : List Posting}
    (e : ts'.map Txn.postings = ts.map Txn.postings) (h : EntersAll skip start ts es) (h' : EntersAll skip start ts' es')
    (P : Str → Kind → Bool) (c : Cur) : postedWhere P es' c = postedWhere P es c := by
  induction h generalizing ts' es' with
  | nil => rw [List.map_nil, List.map_eq_nil_iff] at e; subst e; cases h'; rfl
  | @cons start t es ts rest h1 _ ih =>
    cases h' with
    | nil => simp at e
    | @cons _ t' es1 ts' rest' g1 g2 =>
      simp only [List.map_cons, List.cons.injEq] at e
      have key := enters_same e.1 (.inl rfl) h1 g1
      have : (fun a c => start a c + postedTo es1 a c) = fun a c => start a c + postedTo es a c := by
        funext a c
        rw [postedTo_where, key, ← postedTo_where]
      rw [this] at g2
      rw [postedWhere_append, postedWhere_append, key, ih e.2 g2]

theorem timeless_bought {skip : Bool} {ps : List Posting} (h : TimelessPostings skip ps) :
    TimelessPostings skip (ps.map Posting.bought) := by
  intro p hp
  obtain ⟨q, hq, rfl⟩ := List.mem_map.mp hp
  have : q.bought.kind = q.kind ∧ q.bought.balance = q.balance := by
    unfold Posting.bought
    split <;> exact ⟨rfl, rfl⟩
  rw [this.1, this.2]
  exact h q hq

theorem bought_postings (ts : List (Txn Posting)) :
    (ts.map Txn.bought).map Txn.postings = (ts.map Txn.postings).map (List.map Posting.bought) := by
  simp only [List.map_map]
  rfl

/-! ### Names -/

/-- Any order of a list is one that may be met. -/
theorem exists_shuf {x y : List Str} (h : x.Perm y) : ∃ s : Shuf, s.run y = x := by
  classical
  refine ⟨⟨fun {α} l => if g : ∃ e : Str = α, x.Perm (e ▸ l) then (g.choose ▸ x : List α) else l, ?_⟩, ?_⟩
  · intro α l
    by_cases g : ∃ e : Str = α, x.Perm (e ▸ l)
    · rw [dif_pos g]
      obtain ⟨e, he⟩ := g
      subst e
      exact he
    · rw [dif_neg g]
  · change (if g : ∃ e : Str = Str, x.Perm (e ▸ y) then _ else _) = x
    rw [dif_pos ⟨rfl, h⟩]

theorem nodup_setInsertAll (names : List (Option Str)) (s : List Str) (hs : s.Nodup) : (setInsertAll s names).Nodup := by
  unfold setInsertAll
  induction names generalizing s with
  | nil => exact hs
  | cons n names ih =>
    rw [List.foldl_cons]
    apply ih
    cases n with
    | none => exact hs
    | some n =>
      simp only [setInsert]
      split
      · exact hs
      · next hn =>
        rw [List.nodup_append]
        refine ⟨hs, by simp, ?_⟩
        intro a ha b hb
        simp only [List.mem_singleton] at hb
        rintro rfl
        subst hb
        exact hn ha

variable {env : Env} {pl pl' : ParsedLedger}

theorem Rearranged.mem (g : Rearranged pl pl') {t : Txn RawPosting} (ht : t ∈ pl'.transactions) :
    ∃ t' ∈ pl.transactions, t'.undated = t.undated := by
  obtain ⟨t', h1, h2⟩ := List.mem_map.mp (g.transactions.mem_iff.mp (List.mem_map_of_mem ht))
  exact ⟨t', h1, h2⟩

theorem Rearranged.symm (g : Rearranged pl pl') : Rearranged pl' pl :=
  ⟨g.lists.symm, g.transactions.symm, fun c => (g.prices c).symm⟩

theorem undated_postings {t t' : Txn RawPosting} (h : t'.undated = t.undated) :
    t'.postings = t.postings ∧ t'.ttype = t.ttype ∧ t'.description = t.description ∧ t'.comments = t.comments :=
  ⟨show t'.undated.postings = t.undated.postings by rw [h], show t'.undated.ttype = t.undated.ttype by rw [h],
    show t'.undated.description = t.undated.description by rw [h], show t'.undated.comments = t.undated.comments by rw [h]⟩

theorem Rearranged.post (g : Rearranged pl pl') {Q : RawPosting → Prop} (h : ∃ t ∈ pl'.transactions, ∃ p ∈ t.postings, Q p) :
    ∃ t ∈ pl.transactions, ∃ p ∈ t.postings, Q p := by
  obtain ⟨t, ht, p, hp, hq⟩ := h
  obtain ⟨t', h1, h2⟩ := g.mem ht
  exact ⟨t', h1, p, by rw [(undated_postings h2).1]; exact hp, hq⟩

theorem Rearranged.names (g : Rearranged pl pl') :
    pl'.accountStrs.Perm pl.accountStrs ∧ pl'.payeeStrs.Perm pl.payeeStrs ∧ pl'.commodityStrs.Perm pl.commodityStrs := by
  refine ⟨?_, ?_, ?_⟩
  · refine (List.perm_ext_iff_of_nodup (nodup_setInsertAll _ _ List.nodup_nil) (nodup_setInsertAll _ _ List.nodup_nil)).mpr ?_
    intro a
    change a ∈ pl'.accountStrs ↔ a ∈ pl.accountStrs
    rw [mem_accountStrs, mem_accountStrs]
    exact ⟨g.post, g.symm.post⟩
  · refine (List.perm_ext_iff_of_nodup (nodup_setInsertAll _ _ List.nodup_nil) (nodup_setInsertAll _ _ List.nodup_nil)).mpr ?_
    intro a
    change a ∈ pl'.payeeStrs ↔ a ∈ pl.payeeStrs
    rw [mem_payeeStrs, mem_payeeStrs]
    exact ⟨g.post, g.symm.post⟩
  · refine (List.perm_ext_iff_of_nodup (nodup_setInsertAll _ _ (nodup_setInsertAll _ _ List.nodup_nil))
      (nodup_setInsertAll _ _ (nodup_setInsertAll _ _ List.nodup_nil))).mpr ?_
    intro a
    change a ∈ pl'.commodityStrs ↔ a ∈ pl.commodityStrs
    rw [mem_commodityStrs, mem_commodityStrs]
    exact ⟨fun h => h.imp g.post (g.prices a).mp, fun h => h.imp g.symm.post (g.prices a).mpr⟩

/-- The names are entered as for the journal in its first order, met in another hash order. -/
theorem Rearranged.populate (g : Rearranged pl pl') (o : LedgerOrders) :
    ∃ o', o'.unknown = o.unknown ∧ populate env o pl' = Dinero.populate env o' pl := by
  obtain ⟨g1, g2, g3⟩ := g.names
  obtain ⟨s1, h1⟩ := exists_shuf ((o.accounts.perm _).trans g1)
  obtain ⟨s2, h2⟩ := exists_shuf ((o.payees.perm _).trans g2)
  obtain ⟨s3, h3⟩ := exists_shuf ((o.commodities.perm _).trans g3)
  refine ⟨{ o with accounts := s1, payees := s2, commodities := s3 }, rfl, ?_⟩
  unfold Dinero.populate
  rw [g.lists]
  simp only [h1, h2, h3]

theorem filter_undated (k : TType) (ts : List (Txn RawPosting)) :
    (ts.filter (fun t => t.ttype = k)).map Txn.undated = (ts.map Txn.undated).filter (fun t => t.ttype = k) := by
  rw [List.filter_map]
  rfl

theorem Rearranged.regular (g : Rearranged pl pl') : (pl'.regular.map Txn.undated).Perm (pl.regular.map Txn.undated) := by
  unfold ParsedLedger.regular
  rw [filter_undated, filter_undated]
  exact g.transactions.filter _

theorem Rearranged.automated (g : Rearranged pl pl') (h : pl.automated = []) : pl'.automated = [] := by
  have := g.transactions.filter (fun t => t.ttype = .automated)
  rw [← filter_undated, ← filter_undated, show pl.transactions.filter (fun t => t.ttype = .automated) = [] from h] at this
  simpa [ParsedLedger.automated] using this

theorem Rearranged.mem_regular (g : Rearranged pl pl') {t : Txn RawPosting} (ht : t ∈ pl'.regular) :
    ∃ t' ∈ pl.regular, t'.undated = t.undated := by
  obtain ⟨t', h1, h2⟩ := List.mem_map.mp (g.regular.mem_iff.mp (List.mem_map_of_mem ht))
  exact ⟨t', h1, h2⟩

theorem Rearranged.totals (g : Rearranged pl pl') (h : pl.NoFreeTotals) : pl'.NoFreeTotals := by
  intro t ht p hp
  obtain ⟨t', h1, h2⟩ := g.mem_regular ht
  exact h t' h1 p (by rw [(undated_postings h2).1]; exact hp)

/-! ### Converting -/

theorem rawCost_date {cs : Commodities} {d d' : Option Date} {p : RawPosting} {a : Option Money} {x y : Option (Cost × Price)}
    (h : rawCost env cs d p a = .ok x) (h' : rawCost env cs d' p a = .ok y) : x.map Prod.fst = y.map Prod.fst := by
  unfold rawCost at h h'
  cases h1 : p.costCurrency with
  | none => rw [h1] at h h'; cases h; cases h'; rfl
  | some c =>
    cases h2 : p.moneyCurrency with
    | none => rw [h1, h2] at h; cases h
    | some m =>
      rw [h1, h2] at h h'
      simp only at h h'
      cases h3 : commodityNamed env cs m with
      | error e => rw [h3] at h; cases h
      | ok pc =>
        cases h4 : commodityNamed env cs c with
        | error e => rw [h3, h4] at h; cases h
        | ok cn =>
          rw [h3, h4] at h h'
          simp only at h h'
          cases h5 : p.costAmount with
          | none => rw [h5] at h; cases h
          | some q =>
            cases h6 : p.costType with
            | none => rw [h5, h6] at h; cases h
            | some ty =>
              cases d with
              | none => rw [h5, h6] at h; cases h
              | some d =>
                cases d' with
                | none => rw [h5, h6] at h'; cases h'
                | some d' =>
                  rw [h5, h6] at h h'
                  simp only at h h'
                  cases h7 : unitPrice ty q a with
                  | error e => rw [h7] at h; cases h
                  | ok u =>
                    rw [h7] at h h'
                    cases h
                    cases h'
                    rfl

theorem convertPosting_date {s : Shuf} {l : Lists} {t t' : Txn RawPosting} (e : t'.undated = t.undated) {tags : List Tag}
    {p : RawPosting} {x y : Posting × Option Price} (h : convertPosting env s l t tags p = .ok x)
    (h' : convertPosting env s l t' tags p = .ok y) : y.1 = x.1 := by
  unfold convertPosting at h h'
  rw [(undated_postings e).2.2.1] at h'
  cases h1 : postingPayee env l.payees t.description p with
  | error e => rw [h1] at h; cases h
  | ok payee =>
    rw [h1] at h h'
    simp only at h h'
    cases h2 : postingAccount env s l.accounts p.account payee with
    | error e => rw [h2] at h; cases h
    | ok account =>
      rw [h2] at h h'
      simp only at h h'
      cases h3 : rawMoney env l.commodities p.moneyCurrency p.moneyAmount with
      | error e => rw [h3] at h; cases h
      | ok amount =>
        rw [h3] at h h'
        simp only at h h'
        cases h4 : rawCost env l.commodities t.date p amount with
        | error e => rw [h4] at h; cases h
        | ok cost =>
          cases h4' : rawCost env l.commodities t'.date p amount with
          | error e => rw [h4'] at h'; cases h'
          | ok cost' =>
            rw [h4] at h
            rw [h4'] at h'
            simp only at h h'
            cases h5 : rawMoney env l.commodities p.balanceCurrency p.balanceAmount with
            | error e => rw [h5] at h; cases h
            | ok balance =>
              rw [h5] at h h'
              cases h
              cases h'
              simp only [rawCost_date h4 h4']

theorem convertPosting_balance {s : Shuf} {l : Lists} {t : Txn RawPosting} {tags : List Tag}
    {p : RawPosting} {x : Posting × Option Price} (h : convertPosting env s l t tags p = .ok x) :
    x.1.kind = p.kind ∧ (p.balanceCurrency = none → x.1.balance = none) := by
  unfold convertPosting at h
  split at h
  · cases h
  split at h
  · cases h
  split at h
  · cases h
  split at h
  · cases h
  split at h
  · cases h
  · next balance hb =>
    cases h
    refine ⟨rfl, fun hc => ?_⟩
    rw [hc] at hb
    cases hb
    rfl

theorem convertPostings_date {s s' : Shuf} {l l' : Lists} {t t' : Txn RawPosting} (e : t'.undated = t.undated) {tags : List Tag}
    (hc : ∀ t tags p, convertPosting env s l t tags p = convertPosting env s' l' t tags p)
    (ps : List RawPosting) {x y : List Posting × List Price} (h : convertPostings env s l t tags ps = .ok x)
    (h' : convertPostings env s' l' t' tags ps = .ok y) : y.1 = x.1 := by
  induction ps generalizing x y with
  | nil => cases h; cases h'; rfl
  | cons p ps ih =>
    unfold convertPostings at h h'
    rw [← hc] at h'
    cases h1 : convertPosting env s l t tags p with
    | error e => rw [h1] at h; cases h
    | ok x1 =>
      cases h1' : convertPosting env s l t' tags p with
      | error e => rw [h1'] at h'; cases h'
      | ok y1 =>
        rw [h1] at h
        rw [h1'] at h'
        simp only at h h'
        cases h2 : convertPostings env s l t tags ps with
        | error e => rw [h2] at h; cases h
        | ok x2 =>
          cases h2' : convertPostings env s' l' t' tags ps with
          | error e => rw [h2'] at h'; cases h'
          | ok y2 =>
            rw [h2] at h
            rw [h2'] at h'
            cases h
            cases h'
            rw [convertPosting_date e h1 h1', ih h2 h2']

theorem convertPostings_timeless {s : Shuf} {l : Lists} {t : Txn RawPosting} {tags : List Tag} {skip : Bool} (ps : List RawPosting)
    (hf : skip = true ∨ ∀ p ∈ ps, p.kind = .real → p.balanceCurrency = none) {x : List Posting × List Price}
    (h : convertPostings env s l t tags ps = .ok x) : TimelessPostings skip x.1 := by
  induction ps generalizing x with
  | nil => cases h; intro p hp; cases hp
  | cons p ps ih =>
    unfold convertPostings at h
    cases h1 : convertPosting env s l t tags p with
    | error e => rw [h1] at h; cases h
    | ok x1 =>
      rw [h1] at h
      simp only at h
      cases h2 : convertPostings env s l t tags ps with
      | error e => rw [h2] at h; cases h
      | ok x2 =>
        rw [h2] at h
        cases h
        intro q hq hk
        rcases List.mem_cons.mp hq with rfl | hq
        · obtain ⟨e1, e2⟩ := convertPosting_balance h1
          exact hf.imp id (fun hf => e2 (hf p (by simp) (by rw [← e1]; exact hk)))
        · exact ih (hf.imp id (fun hf p hp => hf p (by simp [hp]))) h2 q hq hk

theorem convOf_undated {s s' : Shuf} {l l' : Lists} {t t' : Txn RawPosting} (e : t'.undated = t.undated)
    (hc : ∀ t tags p, convertPosting env s l t tags p = convertPosting env s' l' t tags p)
    (h : Converts env s l t (convOf env s l t)) (h' : Converts env s' l' t' (convOf env s' l' t')) :
    (convOf env s' l' t').1.postings = (convOf env s l t).1.postings := by
  obtain ⟨ps, h1, _, h2, _⟩ := convertTxn_inv (t := (convOf env s l t).1) (prs := (convOf env s l t).2) h
  obtain ⟨ps', h1', _, h2', _⟩ := convertTxn_inv (t := (convOf env s' l' t').1) (prs := (convOf env s' l' t').2) h'
  obtain ⟨e1, _, _, e4⟩ := undated_postings e
  rw [e1, e4] at h1'
  rw [h2, h2']
  exact convertPostings_date e hc _ h1 h1'

theorem convOf_timeless {s : Shuf} {l : Lists} {t : Txn RawPosting} {skip : Bool}
    (hf : skip = true ∨ ∀ p ∈ t.postings, p.kind = .real → p.balanceCurrency = none)
    (h : Converts env s l t (convOf env s l t)) : TimelessPostings skip (convOf env s l t).1.postings := by
  obtain ⟨ps, h1, _, h2, _⟩ := convertTxn_inv (t := (convOf env s l t).1) (prs := (convOf env s l t).2) h
  rw [h2]
  exact convertPostings_timeless _ hf h1

/-! ### Order -/

theorem InStep.le {f : Date → Date} {ts ts' : List (Txn RawPosting)} (h : InStep f ts ts') (d e : Date) : f d ≤ f e ↔ d ≤ e := by
  have h1 := h.later d e
  have h2 := h.later e d
  constructor
  · intro g; by_contra hc; have := h2 (by omega); omega
  · intro g
    by_cases hd : d = e
    · rw [hd]
    · have := h1 (by omega); omega

/-- By date, the transactions are in the same order. -/
theorem InStep.sorted {f : Date → Date} {ts ts' : List (Txn RawPosting)} (h : InStep f ts ts') (hd : ∀ t ∈ ts, t.date.isSome) :
    sortBy dateLe ts' = (sortBy dateLe ts).map (Txn.redated f) := by
  have hle : ∀ a b : Txn RawPosting, a.date.isSome → b.date.isSome → dateLe (a.redated f) (b.redated f) = dateLe a b := by
    intro a b ha hb
    obtain ⟨d, hd⟩ := Option.isSome_iff_exists.mp ha
    obtain ⟨e, he⟩ := Option.isSome_iff_exists.mp hb
    unfold dateLe Txn.redated
    simp only [hd, he, Option.map_some, Option.getD_some, h.le]
  have hmap : sortBy dateLe (ts.map (Txn.redated f)) = (sortBy dateLe ts).map (Txn.redated f) :=
    sortBy_map _ (fun a ha b hb => hle a b (hd a ha) (hd b hb))
  rw [← hmap]
  refine (stable_sort_unique dateLe_total _ _ ((sortBy_perm _ _).trans h.same) (sortBy_sorted dateLe_total _) ?_)
  intro x
  rw [filter_sortBy dateLe_total]
  have hd' : ∀ t ∈ ts.map (Txn.redated f), ∃ d, t.date = some (f d) := by
    intro t ht
    obtain ⟨u, hu, rfl⟩ := List.mem_map.mp ht
    obtain ⟨d, hd⟩ := Option.isSome_iff_exists.mp (hd u hu)
    exact ⟨d, by simp [Txn.redated, hd]⟩
  have hx : ∀ us : List (Txn RawPosting), (∀ t ∈ us, ∃ d, t.date = some (f d)) →
      us.filter (fun y => dateLe x y && dateLe y x) = us.filter (fun y => y.date = some (x.date.getD 0)) := by
    intro us hus
    apply List.filter_congr
    intro t ht
    obtain ⟨d, hd⟩ := hus t ht
    unfold dateLe
    simp only [hd, Option.getD_some, Option.some.injEq, ← Bool.decide_and, decide_eq_decide]
    omega
  have hts : ∀ t ∈ ts', ∃ d, t.date = some (f d) := fun t ht => hd' t (h.same.mem_iff.mp ht)
  rw [hx _ hd', hx _ hts]
  by_cases hf : ∃ d, f d = x.date.getD 0
  · obtain ⟨d, hf⟩ := hf
    rw [← hf, h.days d, List.filter_map]
    congr 1
    apply List.filter_congr
    intro t ht
    obtain ⟨e, he⟩ := Option.isSome_iff_exists.mp (hd t ht)
    have h1 := h.le d e
    have h2 := h.le e d
    simp only [Function.comp, Txn.redated, he, Option.map_some, Option.some.injEq, decide_eq_decide]
    constructor
    · intro g; rw [g]
    · intro g
      have g1 := h1.mp (le_of_eq g.symm)
      have g2 := h2.mp (le_of_eq g)
      omega
  · have hnil : ∀ us : List (Txn RawPosting), (∀ t ∈ us, ∃ d, t.date = some (f d)) →
        us.filter (fun y => y.date = some (x.date.getD 0)) = [] := by
      intro us hus
      rw [List.filter_eq_nil_iff]
      intro t ht
      obtain ⟨d, hd⟩ := hus t ht
      simp only [hd, Option.some.injEq, decide_eq_true_eq]
      exact fun g => hf ⟨d, g⟩
    rw [hnil _ hd', hnil _ hts]

end Dinero
