import Verif.Spec.Sum
import Verif.Lemmas.Course
import Verif.Lemmas.History
/-
Helper lemmas about a journal made of two journals.
-/
namespace Dinero

variable {env : Env} {pl pl' pl₁ pl₂ : ParsedLedger}

theorem Rearranged.orderFree (g : Rearranged pl pl') (hf : OrderFree env pl) : OrderFree env pl' := by
  have uc : ∀ a, pl'.usesCommodity a → pl.usesCommodity a := fun a h => h.imp g.post (g.prices a).mp
  have ua : ∀ a, pl'.usesAccount a → pl.usesAccount a := fun a h => g.post h
  have up : ∀ a, pl'.usesPayee a → pl.usesPayee a := fun a h => g.post h
  refine ⟨g.automated hf.noRules, ?_, ?_, ?_, ?_, ?_⟩
  · exact fun a b ha hb => hf.commodities a b (uc a ha) (uc b hb)
  · exact fun a b ha hb => hf.accounts a b (ua a ha) (ua b hb)
  · exact fun a b ha hb => hf.payees a b (up a ha) (up b hb)
  · intro n hn
    rw [g.lists]
    exact hf.patterns n (up n hn)
  · intro n hn
    rw [g.lists] at hn ⊢
    exact hf.takers n (hn.imp (up n) id)

theorem Combines.symm (g : Combines pl₁ pl₂ pl) : Combines pl₂ pl₁ pl :=
  ⟨g.second, g.first, g.transactions.trans List.perm_append_comm, g.prices.trans List.perm_append_comm⟩

/-- The first journal, going on with the second one. -/
def ParsedLedger.then_ (pl₁ pl₂ : ParsedLedger) : ParsedLedger :=
  { pl₁ with transactions := pl₁.transactions ++ pl₂.transactions, prices := pl₁.prices ++ pl₂.prices }

theorem goesOn_then (pl₁ pl₂ : ParsedLedger) : GoesOn pl₁ (pl₁.then_ pl₂) pl₂.transactions :=
  ⟨rfl, rfl, _, rfl⟩

theorem Combines.rearranged (g : Combines pl₁ pl₂ pl) : Rearranged (pl₁.then_ pl₂) pl := by
  refine ⟨g.first.symm, g.transactions.map _, fun c => ?_⟩
  unfold ParsedLedger.then_
  constructor
  · rintro ⟨p, hp, h⟩; exact ⟨p, g.prices.mem_iff.mp hp, h⟩
  · rintro ⟨p, hp, h⟩; exact ⟨p, g.prices.mem_iff.mpr hp, h⟩

theorem convOf_same {s s' : Shuf} {l l' : Lists} {t : Txn RawPosting}
    (h : ∀ tags, ∀ p ∈ t.postings, convertPosting env s l t tags p = convertPosting env s' l' t tags p) :
    convOf env s l t = convOf env s' l' t := by
  have h1 : ∀ tags ps, (∀ p ∈ ps, convertPosting env s l t tags p = convertPosting env s' l' t tags p) →
      convertPostings env s l t tags ps = convertPostings env s' l' t tags ps := by
    intro tags ps
    induction ps with
    | nil => intro _; rfl
    | cons p ps ih =>
      intro hp
      unfold convertPostings
      rw [hp p (by simp), ih (fun q hq => hp q (by simp [hq]))]
  unfold convOf convertTxn
  rw [h1 _ _ (h _)]

/-- A transaction means the same in the first journal and in both together. -/
theorem Combines.conv (g : Combines pl₁ pl₂ pl) {o o₁ : LedgerOrders} {l l₁ : Lists} (h₁ : pl₁.Ok env.lower)
    (hf : OrderFree env pl) (p : populate env o pl = .ok l) (p₁ : populate env o₁ pl₁ = .ok l₁) {t : Txn RawPosting}
    (ht : t ∈ pl₁.regular) : convOf env o₁.unknown l₁ t = convOf env o.unknown l t := by
  have hP : (pl₁.then_ pl₂).lists.Ok env.lower := by
    have := h₁.lists
    exact this
  have hfP : OrderFree env (pl₁.then_ pl₂) := g.rearranged.symm.orderFree hf
  obtain ⟨lP, pP, _⟩ := populate_spec (env := env) (o := o₁) hP
  obtain ⟨o2, e1, e2⟩ := g.rearranged.populate (env := env) o
  rw [e2] at p
  have hm := (List.mem_filter.mp ht).1
  refine convOf_same (fun tags q hq => ?_)
  rw [convertPosting_agree h₁.lists hfP (goesOn_then pl₁ pl₂) p₁ pP (populate_ok h₁.lists p₁) (populate_ok hP pP) hm tags hq
    (h₁.postings t ht q hq).payee]
  exact convertPosting_orders hP hfP pP p (populate_ok hP pP) (populate_ok hP p) t tags q

theorem Combines.regular (g : Combines pl₁ pl₂ pl) : pl.regular.Perm (pl₁.regular ++ pl₂.regular) := by
  unfold ParsedLedger.regular
  rw [← List.filter_append]
  exact g.transactions.filter _

theorem Combines.automated (g : Combines pl₁ pl₂ pl) (h : pl.automated = []) : pl₁.automated = [] := by
  have : pl.automated.Perm (pl₁.automated ++ pl₂.automated) := by
    unfold ParsedLedger.automated
    rw [← List.filter_append]
    exact g.transactions.filter _
  rw [h] at this
  exact (List.append_eq_nil_iff.mp this.symm.eq_nil).1

theorem Combines.totals (g : Combines pl₁ pl₂ pl) : pl.NoFreeTotals ↔ pl₁.NoFreeTotals ∧ pl₂.NoFreeTotals := by
  have hm : ∀ t, t ∈ pl.regular ↔ t ∈ pl₁.regular ∨ t ∈ pl₂.regular := fun t => by rw [g.regular.mem_iff, List.mem_append]
  unfold ParsedLedger.NoFreeTotals
  constructor
  · exact fun h => ⟨fun t ht => h t ((hm t).mpr (.inl ht)), fun t ht => h t ((hm t).mpr (.inr ht))⟩
  · exact fun h t ht => ((hm t).mp ht).elim (h.1 t) (h.2 t)

end Dinero
