import Verif.Spec.Turn
import Verif.Lemmas.Whole
/-
Helper lemmas about journals with the postings of their transactions in another order.
-/
namespace Dinero

/-! ### Booking -/

/-- The real postings with an amount. -/
def givens (ps : List Posting) : List Posting := ps.filter (fun p => p.kind = .real ∧ p.amount.isSome)

/-- Without totals, postings are booked as they are. -/
theorem posts_givens {skip : Bool} (start : Str → Cur → Rat) (ps : List Posting) (hf : TimelessPostings skip ps) :
    Posts skip start ps (givens ps) := by
  induction ps generalizing start with
  | nil => exact .nil
  | cons p ps ih =>
    have ih := fun start => ih start (fun q hq => hf q (by simp [hq]))
    unfold givens at ih ⊢
    by_cases hk : p.kind = .real
    · cases ha : p.amount with
      | none =>
        rw [List.filter_cons_of_neg (by simp [ha])]
        exact .elided ⟨hk, ha, (hf p (by simp) hk).symm⟩ (ih start)
      | some m =>
        rw [List.filter_cons_of_pos (by simp [ha, hk])]
        refine .given hk ha ?_ (ih _)
        intro hs x d hb
        rcases hf p (by simp) hk with h | h
        · rw [hs] at h; cases h
        · rw [hb] at h; cases h
    · rw [List.filter_cons_of_neg (by simp [hk])]
      exact .other hk (ih start)

theorem weightOf_turned {k : Kind} {ps qs : List Posting} (h : ps.Perm qs) : weightOf k ps = weightOf k qs := funext (weightOf_perm h)

theorem timeless_perm {skip : Bool} {ps ps' : List Posting} (h : ps'.Perm ps) (hf : TimelessPostings skip ps) : TimelessPostings skip ps' :=
  fun p hp => hf p (h.mem_iff.mp hp)

theorem enters_turned {skip : Bool} {start : Str → Cur → Rat} {ps ps' : List Posting} {es : List Posting} (hp : ps'.Perm ps)
    (hf : TimelessPostings skip ps) (h : Enters skip start { postings := ps } es) :
    ∃ es', Enters skip start { postings := ps' } es' ∧ es'.Perm es := by
  obtain ⟨qs, gen, h1, rfl, h3⟩ := h
  have h0 := posts_unique h1 (posts_givens start ps hf)
  subst h0
  have g : (givens ps').Perm (givens ps) := hp.filter _
  refine ⟨givens ps' ++ gen ++ ps'.filter (fun p => p.kind ≠ .real),
    ⟨givens ps', gen, posts_givens start ps' (timeless_perm hp hf), rfl, ?_⟩, (g.append (.refl _)).append (hp.filter _)⟩
  rw [weightOf_turned g]
  rcases h3 with ⟨k1, k2, k3⟩ | ⟨p, k1, k2⟩
  · exact .inl ⟨fun p hpm => k1 p (hp.mem_iff.mp hpm), k2, k3⟩
  · refine .inr ⟨p, ?_, k2⟩
    exact List.perm_singleton.mp ((hp.filter _).trans (.of_eq k1))

theorem enteredAs_turned {skip : Bool} {ps ps' : List Posting} (hp : ps'.Perm ps) (hf : TimelessPostings skip ps) :
    (enteredAs skip ps').Perm (enteredAs skip ps) := by
  by_cases h : ∃ es start, Enters skip start { postings := ps } es
  · obtain ⟨es, start, h⟩ := h
    obtain ⟨es', h', he⟩ := enters_turned hp hf h
    exact (enteredAs_of (t := { postings := ps' }) (timeless_perm hp hf) h').symm.trans
      ((he.map _).trans (enteredAs_of (t := { postings := ps }) hf h))
  · have h' : ¬ ∃ es start, Enters skip start { postings := ps' } es := by
      rintro ⟨es, start, k⟩
      obtain ⟨es', k', _⟩ := enters_turned hp.symm (timeless_perm hp hf) k
      exact h ⟨es', start, k'⟩
    unfold enteredAs
    rw [dif_neg h, dif_neg h']

theorem books_turned {skip : Bool} {start after : Str → Cur → Rat} {ps ps' : List Posting} (hp : ps'.Perm ps)
    (hf : TimelessPostings skip ps) (h : Books skip start { postings := ps } after) :
    ∃ after', Books skip start { postings := ps' } after' := by
  obtain ⟨qs, h1, h2, h3⟩ := h
  have h0 := posts_unique h1 (posts_givens start ps hf)
  subst h0
  have g : (givens ps').Perm (givens ps) := hp.filter _
  have k := posts_givens start ps' (timeless_perm hp hf)
  have h2 : MayBalance (weightOf .virtBal ps') := by rw [weightOf_turned hp]; exact h2
  rcases h3 with ⟨k1, k2, _⟩ | ⟨p, k1, _⟩
  · exact ⟨_, givens ps', k, h2, .inl ⟨fun p hpm => k1 p (hp.mem_iff.mp hpm), by rw [weightOf_turned g]; exact k2, fun _ _ => rfl⟩⟩
  · exact ⟨_, givens ps', k, h2, .inr ⟨p, List.perm_singleton.mp ((hp.filter _).trans (.of_eq k1)), fun _ _ => rfl⟩⟩

/-! ### Names -/

variable {env : Env} {pl pl' : ParsedLedger}

theorem Turned.symm (g : Turned pl pl') : Turned pl' pl := by
  refine ⟨g.lists.symm, g.prices.symm, ?_⟩
  have : List.Forall₂ (fun a b => Txn.Turned b a) pl'.transactions pl.transactions := g.transactions.flip
  refine this.imp (fun a b h => ⟨?_, h.2.symm⟩)
  obtain ⟨h1, _⟩ := h
  rw [h1]

theorem Turned.post (g : Turned pl pl') {Q : RawPosting → Prop} (h : ∃ t ∈ pl'.transactions, ∃ p ∈ t.postings, Q p) :
    ∃ t ∈ pl.transactions, ∃ p ∈ t.postings, Q p := by
  obtain ⟨t, ht, p, hp, hq⟩ := h
  obtain ⟨t', h1, h2⟩ := Forall₂.mem_right g.transactions ht
  exact ⟨t', h1, p, h2.2.mem_iff.mp hp, hq⟩

theorem Turned.names (g : Turned pl pl') :
    pl'.accountStrs.Perm pl.accountStrs ∧ pl'.payeeStrs.Perm pl.payeeStrs ∧ pl'.commodityStrs.Perm pl.commodityStrs := by
  refine ⟨?_, ?_, ?_⟩
  · refine (List.perm_ext_iff_of_nodup (nodup_setInsertAll _ _ List.nodup_nil) (nodup_setInsertAll _ _ List.nodup_nil)).mpr ?_
    intro a
    change a ∈ pl'.accountStrs ↔ a ∈ pl.accountStrs
    rw [mem_accountStrs, mem_accountStrs]
    exact ⟨g.post, g.symm.post⟩
  · refine (List.perm_ext_iff_of_nodup (nodup_setInsertAll _ _ List.nodup_nil) (nodup_setInsertAll _ _ List.nodup_nil)).mpr ?_
    intro a
    change a ∈ pl'.payeeStrs ↔ a ∈ pl.payeeStrs
    rw [mem_payeeStrs, mem_payeeStrs]
    exact ⟨g.post, g.symm.post⟩
  · refine (List.perm_ext_iff_of_nodup (nodup_setInsertAll _ _ (nodup_setInsertAll _ _ List.nodup_nil))
      (nodup_setInsertAll _ _ (nodup_setInsertAll _ _ List.nodup_nil))).mpr ?_
    intro a
    change a ∈ pl'.commodityStrs ↔ a ∈ pl.commodityStrs
    rw [mem_commodityStrs, mem_commodityStrs]
    unfold ParsedLedger.usesCommodity
    rw [g.prices]
    exact ⟨fun h => h.imp g.post id, fun h => h.imp g.symm.post id⟩

/-- The names are entered as for the journal in its first order, met in another hash order. -/
theorem Turned.populate (g : Turned pl pl') (o : LedgerOrders) : ∃ o', populate env o pl' = Dinero.populate env o' pl := by
  obtain ⟨g1, g2, g3⟩ := g.names
  obtain ⟨s1, h1⟩ := exists_shuf ((o.accounts.perm _).trans g1)
  obtain ⟨s2, h2⟩ := exists_shuf ((o.payees.perm _).trans g2)
  obtain ⟨s3, h3⟩ := exists_shuf ((o.commodities.perm _).trans g3)
  refine ⟨{ o with accounts := s1, payees := s2, commodities := s3 }, ?_⟩
  unfold Dinero.populate
  rw [g.lists]
  simp only [h1, h2, h3]

theorem turned_filter {ts ts' : List (Txn RawPosting)} (h : List.Forall₂ Txn.Turned ts ts') (k : TType) :
    List.Forall₂ Txn.Turned (ts.filter (fun t => t.ttype = k)) (ts'.filter (fun t => t.ttype = k)) := by
  induction h with
  | nil => exact .nil
  | @cons t t' ts ts' h _ ih =>
    have e : t'.ttype = t.ttype := by rw [h.1]
    by_cases hk : t.ttype = k
    · rw [List.filter_cons_of_pos (by simpa using hk), List.filter_cons_of_pos (by rw [e]; simpa using hk)]
      exact .cons h ih
    · rw [List.filter_cons_of_neg (by simpa using hk), List.filter_cons_of_neg (by rw [e]; simpa using hk)]
      exact ih

theorem Turned.regular (g : Turned pl pl') : List.Forall₂ Txn.Turned pl.regular pl'.regular := turned_filter g.transactions .real

theorem Turned.automated (g : Turned pl pl') (h : pl.automated = []) : pl'.automated = [] := by
  have := turned_filter g.transactions .automated
  rw [show pl.transactions.filter (fun t => t.ttype = .automated) = [] from h] at this
  cases hx : pl'.transactions.filter (fun t => t.ttype = .automated) with
  | nil => exact hx
  | cons a as => rw [hx] at this; cases this

theorem Turned.totals (g : Turned pl pl') (h : pl.NoFreeTotals) : pl'.NoFreeTotals := by
  intro t ht p hp
  obtain ⟨t', h1, h2⟩ := Forall₂.mem_right g.regular ht
  exact h t' h1 p (h2.2.mem_iff.mp hp)

/-! ### Converting -/

theorem convertPostings_each {s : Shuf} {l : Lists} {t : Txn RawPosting} {tags : List Tag} (ps : List RawPosting)
    {x : List Posting × List Price} (h : convertPostings env s l t tags ps = .ok x) :
    x.1 = ps.filterMap (fun p => (convertPosting env s l t tags p).toOption.map Prod.fst) := by
  induction ps generalizing x with
  | nil => cases h; rfl
  | cons p ps ih =>
    unfold convertPostings at h
    cases h1 : convertPosting env s l t tags p with
    | error e => rw [h1] at h; cases h
    | ok x1 =>
      rw [h1] at h
      simp only at h
      cases h2 : convertPostings env s l t tags ps with
      | error e => rw [h2] at h; cases h
      | ok x2 =>
        rw [h2] at h
        cases h
        rw [List.filterMap_cons, h1, ← ih h2]
        rfl

theorem convOf_turned {s s' : Shuf} {l l' : Lists} {t t' : Txn RawPosting} (e : t.Turned t')
    (hc : ∀ t tags p, convertPosting env s l t tags p = convertPosting env s' l' t tags p)
    (h : Converts env s l t (convOf env s l t)) (h' : Converts env s' l' t' (convOf env s' l' t')) :
    (convOf env s' l' t').1.postings.Perm (convOf env s l t).1.postings := by
  obtain ⟨ps, h1, _, h2, _⟩ := convertTxn_inv (t := (convOf env s l t).1) (prs := (convOf env s l t).2) h
  obtain ⟨ps', h1', _, h2', _⟩ := convertTxn_inv (t := (convOf env s' l' t').1) (prs := (convOf env s' l' t').2) h'
  have k1 := convertPostings_each _ h1
  have k2 := convertPostings_each _ h1'
  simp only at k1 k2
  rw [h2, h2', k1, k2]
  have e1 : t'.comments = t.comments := by rw [e.1]
  have e2 : ∀ tags p, convertPosting env s' l' t' tags p = convertPosting env s l t tags p := by
    intro tags p
    rw [hc, e.1]
    rfl
  rw [e1]
  simp only [e2]
  exact e.2.filterMap _

end Dinero
