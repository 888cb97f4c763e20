import Verif.Lemmas.Course
import Verif.Lemmas.Seeds
/-
Helper lemmas about the entries of journals as a whole: up to their order, the entries of a transaction depend on little.
-/
namespace Dinero

theorem nodup_of_map {α β : Type} {f : α → β} {l : List α} (h : (l.map f).Nodup) : l.Nodup :=
  List.Pairwise.of_map f (fun _ _ k e => k (congrArg f e)) h

theorem enters_perm {skip : Bool} {start start' : Str → Cur → Rat} {t t' : Txn Posting} {es es' : List Posting}
    (ht : t'.postings = t.postings) (hs : start' = start ∨ TimelessPostings skip t.postings) (h : Enters skip start t es)
    (h' : Enters skip start' t' es') : (es'.map Posting.entry).Perm (es.map Posting.entry) := by
  obtain ⟨qs, gen, h1, rfl, h3⟩ := h
  obtain ⟨qs', gen', h1', rfl, h3'⟩ := h'
  rw [ht] at h1' h3' ⊢
  have : qs = qs' := by
    rcases hs with rfl | hs
    · exact posts_unique h1 h1'
    · exact posts_unique (posts_timeless hs h1) h1'
  subst this
  simp only [List.map_append]
  refine List.Perm.append (List.Perm.append (.refl _) ?_) (.refl _)
  have key : ∀ (p : Posting) (gen : List Posting) (ms : List Money),
      (∀ q ∈ gen, q.kind = .real ∧ q.account = p.account ∧ q.cost = none ∧ q.balance = none) →
      gen.map Posting.amount = ms.map some → gen.map Posting.entry = ms.map (fun m => (p.account, Kind.real, some m)) := by
    intro p gen
    induction gen with
    | nil => intro ms _ h; cases ms with
      | nil => rfl
      | cons _ _ => cases h
    | cons q gen ih =>
      intro ms hq h
      cases ms with
      | nil => cases h
      | cons m ms =>
        simp only [List.map_cons, List.cons.injEq] at h
        obtain ⟨k1, k2, _⟩ := hq q (by simp)
        rw [List.map_cons, List.map_cons, ih ms (fun q hq' => hq q (by simp [hq'])) h.2]
        unfold Posting.entry
        rw [k1, k2, h.1]
  rcases h3 with ⟨g1, _, rfl⟩ | ⟨p, g1, g2, ms, g3, g4, g5⟩ <;> rcases h3' with ⟨k1, _, rfl⟩ | ⟨p', k1, k2, ms', k3, k4, k5⟩
  · exact .refl _
  · have : p' ∈ t.postings.filter (fun p => p.elided skip) := by rw [k1]; simp
    obtain ⟨m1, m2⟩ := List.mem_filter.mp this
    exact absurd (by simpa using m2) (g1 p' m1)
  · have : p ∈ t.postings.filter (fun p => p.elided skip) := by rw [g1]; simp
    obtain ⟨m1, m2⟩ := List.mem_filter.mp this
    exact absurd (by simpa using m2) (k1 p m1)
  · rw [g1] at k1
    cases k1
    rw [key p gen ms g2 g3, key p gen' ms' k2 k3]
    refine List.Perm.map _ ((List.perm_ext_iff_of_nodup (nodup_of_map k4) (nodup_of_map g4)).mpr (fun m => ?_))
    rw [g5, k5]

/-- The entries of a transaction without totals. -/
noncomputable def enteredAs (skip : Bool) (ps : List Posting) : List (Str × Kind × Option Money) :=
  open Classical in
  if h : ∃ es start, Enters skip start { postings := ps } es then h.choose.map Posting.entry else []

theorem enteredAs_of {skip : Bool} {start : Str → Cur → Rat} {t : Txn Posting} {es : List Posting}
    (hf : TimelessPostings skip t.postings) (h : Enters skip start t es) : (es.map Posting.entry).Perm (enteredAs skip t.postings) := by
  have hex : ∃ es start, Enters skip start { postings := t.postings } es := ⟨es, start, h⟩
  unfold enteredAs
  rw [dif_pos hex]
  obtain ⟨start', hs⟩ := hex.choose_spec
  exact (enters_perm rfl (.inr hf) h hs).symm

theorem entersAll_perm_timeless {skip : Bool} {start : Str → Cur → Rat} {ts : List (Txn Posting)} {es : List Posting}
    (hf : ∀ t ∈ ts, TimelessPostings skip t.postings) (h : EntersAll skip start ts es) :
    (es.map Posting.entry).Perm ((ts.map Txn.postings).flatMap (enteredAs skip)) := by
  induction h with
  | nil => exact .refl _
  | @cons start t es ts rest h1 _ ih =>
    rw [List.map_append, List.map_cons, List.flatMap_cons]
    exact (enteredAs_of (hf t (by simp)) h1).append (ih (fun t ht => hf t (by simp [ht])))

theorem entersAll_perm_postings {skip : Bool} {start : Str → Cur → Rat} {ts ts' : List (Txn Posting)} {es es' : List Posting}
    (e : ts'.map Txn.postings = ts.map Txn.postings) (h : EntersAll skip start ts es) (h' : EntersAll skip start ts' es') :
    (es'.map Posting.entry).Perm (es.map Posting.entry) := by
  induction h generalizing ts' es' with
  | nil => rw [List.map_nil, List.map_eq_nil_iff] at e; subst e; cases h'; exact .refl _
  | @cons start t es ts rest h1 _ ih =>
    cases h' with
    | nil => simp at e
    | @cons _ t' es1 ts' rest' g1 g2 =>
      simp only [List.map_cons, List.cons.injEq] at e
      have : (fun a c => start a c + postedTo es1 a c) = fun a c => start a c + postedTo es a c := by
        funext a c
        rw [postedTo_where, enters_same e.1 (.inl rfl) h1 g1, ← postedTo_where]
      rw [this] at g2
      rw [List.map_append, List.map_append]
      exact (enters_perm e.1 (.inl rfl) h1 g1).append (ih e.2 g2)

/-- Balances collected from the same entries. -/
theorem Collected.alike {bals bals' : Balances} {sel sel' : List (Txn Posting × Posting)} (h : Collected bals sel)
    (h' : Collected bals' sel') (hp : ((sel.map Prod.snd).map Posting.entry).Perm ((sel'.map Prod.snd).map Posting.entry)) :
    Twin bals bals' := by
  have key : ∀ (l : List (Txn Posting × Posting)) (P : Str → Bool) (c : Cur), selSum l P c =
      ((((l.map Prod.snd).map Posting.entry).filter (fun p => P p.1)).map (fun p => (p.2.2.getD .zero).amountIn c)).sum := by
    intro l P c
    rw [selSum_eq_map, List.map_map, List.filter_map, List.map_map]; rfl
  have mem : ∀ (l : List (Txn Posting × Posting)) (a : Str), (∃ x ∈ l, x.2.account = a) ↔
      ∃ p ∈ (l.map Prod.snd).map Posting.entry, p.1 = a := by
    intro l a
    constructor
    · rintro ⟨x, k, e⟩; exact ⟨_, List.mem_map_of_mem (List.mem_map_of_mem k), e⟩
    · rintro ⟨p, k, e⟩
      obtain ⟨q, hq, rfl⟩ := List.mem_map.mp k
      obtain ⟨x, hx, rfl⟩ := List.mem_map.mp hq
      exact ⟨x, hx, e⟩
  refine ⟨h.nodup, h'.nodup, h.canon, h'.canon, fun a => ?_, fun P c => ?_⟩
  · rw [h.mem, h'.mem, mem, mem]
    exact ⟨fun ⟨x, k, e⟩ => ⟨x, hp.mem_iff.mp k, e⟩, fun ⟨x, k, e⟩ => ⟨x, hp.mem_iff.mpr k, e⟩⟩
  · rw [h.sum, h'.sum, key, key]
    exact ((hp.filter _).map _).sum_eq

/-- Reports of the same entries are alike. -/
theorem report_like {env : Env} {o o' : BalOrders} {today today' : Date} {opts opts' : ReportOpts} {flat total : Bool} {L L' : Ledger}
    {rep rep' : BalReport} (hx : opts.exchange = none) (hx' : opts'.exchange = none) (hd : opts'.depth = opts.depth)
    (h : balanceReport env o today opts flat total L = .ok rep) (h' : balanceReport env o' today' opts' flat total L' = .ok rep')
    (hp : ∀ sel sel', Selected env opts L sel → Selected env opts' L' sel' →
      ((sel.map Prod.snd).map Posting.entry).Perm ((sel'.map Prod.snd).map Posting.entry)) : rep.Like rep' := by
  obtain ⟨sel, bals, rows, s1, _, k1, r1, f1⟩ := balanceReport_plain h hx
  obtain ⟨sel', bals', rows', s2, _, k2, r2, f2⟩ := balanceReport_plain h' hx'
  have ht := k1.alike k2 (hp sel sel' s1 s2)
  rw [hd] at r2 f2
  have hr : Res.Alike RowsLike (if flat then flatRows o opts.depth bals else .ok (treeRows o bals))
      (if flat then flatRows o' opts.depth bals' else .ok (treeRows o' bals')) := by
    cases flat with
    | true => exact flatRows_like ht
    | false => exact treeRows_like ht
  rw [r1, r2] at hr
  have k := finish_like (o := o) (o' := o') (flat := flat) (total := total) (depth := opts.depth) (table := none) (table' := none)
    ht hr trivial
  rw [f1, f2] at k
  exact k

end Dinero
