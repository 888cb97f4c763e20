import Verif.Spec.Commands
import Verif.Lemmas.Parsed
import Verif.Lemmas.Populate
import Verif.Lemmas.Check
import Verif.Props.Ledger
/-
Lemmas on the commands.
-/
namespace Dinero
variable {T : Type} [Named T]

/-! ### Adding the used names -/

/-- The invariant of adding names: `seen` are those added. -/
structure Adding (lower : Str → Str) (make : Str → T) (decl l : NList T) (seen : List Str) : Prop where
  reachable : l.Reachable lower
  extends_ : Extends lower decl l
  listed : ∀ k e, decl.list.get? k = some e → l.list.get? k = some e
  only : ∀ k e, l.list.get? k = some e → decl.list.get? k = some e ∨
    ∃ n ∈ seen, e = make n ∧ ¬ Declared lower decl n
  used : ∀ n ∈ seen, ¬ Declared lower decl n → ∃ m ∈ seen, lower m = lower n ∧ l.get lower n = .ok (make m)
  found : ∀ n x, l.get lower n = .ok x → decl.get lower n = .ok x ∨
    (¬ Declared lower decl n ∧ ∃ m ∈ seen, lower m = lower n ∧ x = make m)

theorem Adding.step {lower : Str → Str} {make : Str → T} (hm : ∀ n, Named.name (make n) = n)
    (ha : ∀ n, Named.aliases (make n) = []) {decl l l' : NList T} {seen : List Str}
    (h : Adding lower make decl l seen) {n : Str} (he : l.ensure lower make n = .ok l') :
    Adding lower make decl l' (seen ++ [n]) := by
  unfold NList.ensure at he
  rcases C32_get_total h.reachable n with ⟨x, hx⟩ | hx
  · rw [hx] at he
    simp only [Except.ok.injEq] at he
    subst he
    refine ⟨h.reachable, h.extends_, h.listed, ?_, ?_, ?_⟩
    · intro k e hk
      rcases h.only k e hk with h1 | ⟨m, h1, h2⟩
      · exact .inl h1
      · exact .inr ⟨m, by simp [h1], h2⟩
    · intro m hmem hd
      simp only [List.mem_append, List.mem_singleton] at hmem
      rcases hmem with hmem | rfl
      · obtain ⟨m', h1, h2⟩ := h.used m hmem hd
        exact ⟨m', by simp [h1], h2⟩
      · rcases h.found m x hx with h1 | ⟨_, m', h2, h3, rfl⟩
        · exact absurd ⟨x, h1⟩ hd
        · exact ⟨m', by simp [h2], h3, hx⟩
    · intro m x hx
      rcases h.found m x hx with h1 | ⟨h0, m', h2, h3⟩
      · exact .inl h1
      · exact .inr ⟨h0, m', by simp [h2], h3⟩
  · rw [hx] at he
    simp only [Except.ok.injEq] at he
    subst he
    obtain ⟨h1, h2, h3⟩ := insert_fresh hx (hm n) (ha n)
    have hnd : ¬ Declared lower decl n := by
      rintro ⟨x, hd⟩
      rw [h.extends_ _ _ hd] at hx
      cases hx
    obtain ⟨m1, m2⟩ := get_missing hx
    have hg : ∀ j, (HMap.insert l.list (lower n) (make n)).get? j =
        if lower n = j then some (make n) else l.list.get? j := fun j => HMap.get?_insert _ _ _ _
    refine ⟨.insert _ h.reachable, h.extends_.trans h2, ?_, ?_, ?_, ?_⟩
    · intro k e hk
      have := h.listed k e hk
      rw [h3]
      simp only
      rw [hg]
      by_cases hj : lower n = k
      · subst hj; rw [m1] at this; cases this
      · rw [if_neg hj]; exact this
    · intro k e hk
      rw [h3] at hk
      simp only at hk
      rw [hg] at hk
      by_cases hj : lower n = k
      · rw [if_pos hj] at hk
        cases hk
        exact .inr ⟨n, by simp, rfl, hnd⟩
      · rw [if_neg hj] at hk
        rcases h.only k e hk with h1 | ⟨m, h1, h2⟩
        · exact .inl h1
        · exact .inr ⟨m, by simp [h1], h2⟩
    · intro m hmem hd
      simp only [List.mem_append, List.mem_singleton] at hmem
      rcases hmem with hmem | rfl
      · obtain ⟨m', g1, g2, g3⟩ := h.used m hmem hd
        exact ⟨m', by simp [g1], g2, h2 _ _ g3⟩
      · exact ⟨m, by simp, rfl, h1⟩
    · intro m x hgx
      by_cases hj : lower n = lower m
      · have : (l.insert lower (make n)).get lower m = .ok (make n) := by
          rw [h3]
          unfold NList.get
          simp only [hg, if_pos hj]
        rw [this] at hgx
        cases hgx
        refine .inr ⟨?_, n, by simp, hj, rfl⟩
        rintro ⟨y, hy⟩
        apply hnd
        refine ⟨y, ?_⟩
        unfold NList.get at hy ⊢
        rw [hj]
        exact hy
      · rcases C32_get_total h.reachable m with ⟨y, hy⟩ | hy
        · have := h2 _ _ hy
          rw [this] at hgx
          cases hgx
          rcases h.found m _ hy with h1 | ⟨h0, m', g2, g3⟩
          · exact .inl h1
          · exact .inr ⟨h0, m', by simp [g2], g3⟩
        · exfalso
          obtain ⟨e1, e2⟩ := get_missing hy
          rw [h3] at hgx
          unfold NList.get at hgx
          simp only [hg, if_neg hj, e1, e2] at hgx
          cases hgx

theorem ensureAll_adding {lower : Str → Str} {make : Str → T} (hm : ∀ n, Named.name (make n) = n)
    (ha : ∀ n, Named.aliases (make n) = []) {decl : NList T} : ∀ (names seen : List Str) (l : NList T) {l' : NList T},
    Adding lower make decl l seen → NList.ensureAll lower make names l = .ok l' →
      Adding lower make decl l' (seen ++ names)
  | [], seen, l, l', h, he => by
    simp only [NList.ensureAll, Except.ok.injEq] at he
    subst he
    simpa using h
  | n :: ns, seen, l, l', h, he => by
    unfold NList.ensureAll at he
    split at he
    · cases he
    · rename_i l1 h1
      have := ensureAll_adding hm ha ns _ _ (h.step hm ha h1) he
      simpa using this

theorem Adding.completed {lower : Str → Str} {make : Str → T} (hm : ∀ n, Named.name (make n) = n)
    {decl l : NList T} {seen : List Str} (h : Adding lower make decl l seen) {used : Str → Prop}
    (hu : ∀ n, n ∈ seen ↔ used n) : Completed lower decl l used := by
  refine ⟨h.reachable, h.extends_, ?_, ?_, ?_⟩
  · intro n hn hd
    obtain ⟨m, h1, h2, h3⟩ := h.used n ((hu n).mpr hn) hd
    exact ⟨m, (hu m).mp h1, h2, _, h3, hm m⟩
  · rintro n ⟨k, e, hk, he⟩
    exact ⟨k, e, h.listed k e hk, he⟩
  · rintro n ⟨k, e, hk, rfl⟩
    rcases h.only k e hk with h1 | ⟨m, h1, rfl, h2⟩
    · exact .inl ⟨k, e, h1, rfl⟩
    · rw [hm]
      exact .inr ⟨(hu m).mp h1, h2⟩

theorem Adding.start {lower : Str → Str} {make : Str → T} {decl : NList T} (h : decl.Reachable lower) :
    Adding lower make decl decl [] :=
  ⟨h, .refl _ _, fun _ _ h => h, fun _ _ h => .inl h, by simp, fun _ _ h => .inl h⟩

/-- The invariant of adding payees: `seen` are the names looked at. -/
structure AddingP (env : Env) (decl l : NList PayeeDef) (seen : List Str) : Prop where
  reachable : l.Reachable env.lower
  extends_ : Extends env.lower decl l
  listed : ∀ k e, decl.list.get? k = some e → l.list.get? k = some e
  only : ∀ k e, l.list.get? k = some e → decl.list.get? k = some e ∨
    ∃ n ∈ seen, e = payeeOf n ∧ ¬ Declared env.lower decl n ∧ ∀ p, ¬ Matches env decl p n
  used : ∀ n ∈ seen, ∃ x, l.get env.lower n = .ok x
  found : ∀ n x, l.get env.lower n = .ok x → decl.get env.lower n = .ok x ∨
    (¬ Declared env.lower decl n ∧ ∃ m ∈ seen, env.lower m = env.lower n ∧
      (((∀ p, ¬ Matches env decl p m) ∧ x = payeeOf m) ∨ Matches env decl x m))

omit [Named T] in
theorem declared_congr {lower : Str → Str} {decl : NList T} {m n : Str} (h : lower m = lower n)
    (hm : ¬ Declared lower decl m) : ¬ Declared lower decl n := by
  rintro ⟨x, hx⟩
  refine hm ⟨x, ?_⟩
  unfold NList.get at hx ⊢
  rw [h]
  exact hx

theorem findPattern_none {env : Env} {s : Shuf} {copy : NList PayeeDef} {n : Str}
    (h : findPattern env s copy n = none) : ∀ p, ¬ Matches env copy p n := by
  rintro p ⟨⟨k, hk⟩, pat, hp, hr⟩
  unfold findPattern at h
  rw [List.find?_eq_none] at h
  have := h p (List.mem_map.mpr ⟨(k, p), (s.perm _).mem_iff.mpr hk, rfl⟩)
  simp only [List.any_eq_true, not_exists, not_and] at this
  exact this pat hp hr

theorem findPattern_some {env : Env} {s : Shuf} {copy : NList PayeeDef} {n : Str} {p : PayeeDef}
    (h : findPattern env s copy n = some p) : Matches env copy p n := by
  unfold findPattern at h
  have h1 := List.mem_of_find?_eq_some h
  have h2 := List.find?_some h
  obtain ⟨e, he, rfl⟩ := List.mem_map.mp h1
  refine ⟨⟨e.1, (s.perm _).mem_iff.mp he⟩, ?_⟩
  simpa using h2

theorem AddingP.seen {env : Env} {decl l : NList PayeeDef} {seen : List Str} (h : AddingP env decl l seen) {n : Str}
    {x : PayeeDef} (hx : l.get env.lower n = .ok x) : AddingP env decl l (seen ++ [n]) := by
  refine ⟨h.reachable, h.extends_, h.listed, ?_, ?_, ?_⟩
  · intro k e hk
    rcases h.only k e hk with h1 | ⟨m, h1, h2⟩
    · exact .inl h1
    · exact .inr ⟨m, by simp [h1], h2⟩
  · intro m hmem
    simp only [List.mem_append, List.mem_singleton] at hmem
    rcases hmem with hmem | rfl
    · exact h.used m hmem
    · exact ⟨x, hx⟩
  · intro m y hy
    rcases h.found m y hy with h1 | ⟨h0, m', h2, h3⟩
    · exact .inl h1
    · exact .inr ⟨h0, m', by simp [h2], h3⟩

theorem AddingP.fresh {env : Env} {decl l : NList PayeeDef} {seen : List Str} (h : AddingP env decl l seen) {n : Str} {e : Err}
    (hx : l.get env.lower n = .error (.error e)) (hp : ∀ p, ¬ Matches env decl p n) :
    AddingP env decl (l.insert env.lower (payeeOf n)) (seen ++ [n]) := by
  obtain ⟨h1, h2, h3⟩ := insert_fresh (x := payeeOf n) hx rfl rfl
  have hnd : ¬ Declared env.lower decl n := by
    rintro ⟨x, hd⟩
    rw [h.extends_ _ _ hd] at hx
    cases hx
  obtain ⟨m1, m2⟩ := get_missing hx
  have hg : ∀ j, (HMap.insert l.list (env.lower n) (payeeOf n)).get? j =
      if env.lower n = j then some (payeeOf n) else l.list.get? j := fun j => HMap.get?_insert _ _ _ _
  refine ⟨.insert _ h.reachable, h.extends_.trans h2, ?_, ?_, ?_, ?_⟩
  · intro k e hk
    have := h.listed k e hk
    rw [h3]
    simp only
    rw [hg]
    by_cases hj : env.lower n = k
    · subst hj; rw [m1] at this; cases this
    · rw [if_neg hj]; exact this
  · intro k e hk
    rw [h3] at hk
    simp only at hk
    rw [hg] at hk
    by_cases hj : env.lower n = k
    · rw [if_pos hj] at hk
      cases hk
      exact .inr ⟨n, by simp, rfl, hnd, hp⟩
    · rw [if_neg hj] at hk
      rcases h.only k e hk with h1 | ⟨m, h1, h2⟩
      · exact .inl h1
      · exact .inr ⟨m, by simp [h1], h2⟩
  · intro m hmem
    simp only [List.mem_append, List.mem_singleton] at hmem
    rcases hmem with hmem | rfl
    · obtain ⟨y, hy⟩ := h.used m hmem
      exact ⟨y, h2 _ _ hy⟩
    · exact ⟨_, h1⟩
  · intro m x hgx
    by_cases hj : env.lower n = env.lower m
    · have : (l.insert env.lower (payeeOf n)).get env.lower m = .ok (payeeOf n) := by
        rw [h3]
        unfold NList.get
        simp only [hg, if_pos hj]
      rw [this] at hgx
      cases hgx
      exact .inr ⟨declared_congr hj hnd, n, by simp, hj, .inl ⟨hp, rfl⟩⟩
    · rcases C32_get_total h.reachable m with ⟨y, hy⟩ | hy
      · have := h2 _ _ hy
        rw [this] at hgx
        cases hgx
        rcases h.found m _ hy with h1 | ⟨h0, m', g2, g3⟩
        · exact .inl h1
        · exact .inr ⟨h0, m', by simp [g2], g3⟩
      · exfalso
        obtain ⟨e1, e2⟩ := get_missing hy
        rw [h3] at hgx
        unfold NList.get at hgx
        simp only [hg, if_neg hj, e1, e2] at hgx
        cases hgx

theorem AddingP.alias {env : Env} {decl l : NList PayeeDef} (hdr : decl.Reachable env.lower) {seen : List Str}
    (h : AddingP env decl l seen) {n : Str} {e : Err}
    (hx : l.get env.lower n = .error (.error e)) {p : PayeeDef} (hp : Matches env decl p n) {l1 : NList PayeeDef}
    (ha : l.addAlias env.lower n p = .ok l1) : AddingP env decl l1 (seen ++ [n]) := by
  obtain ⟨m1, m2⟩ := get_missing hx
  have hnd : ¬ Declared env.lower decl n := by
    rintro ⟨x, hd⟩
    rw [h.extends_ _ _ hd] at hx
    cases hx
  have hl1 : l1 = { l with aliases := HMap.insert l.aliases (env.lower n) (env.lower p.name) } := by
    unfold NList.addAlias at ha
    rw [m2] at ha
    simp only [Except.ok.injEq] at ha
    exact ha.symm
  obtain ⟨k, hk⟩ := hp.1
  have hic := NList.Inv.reach hdr
  have hkg := HMap.get?_of_mem hic.nodupL hk
  have hkk := hic.named _ _ hkg
  have hcp : decl.get env.lower p.name = .ok p := by
    unfold NList.get
    rw [show env.lower p.name = k from hkk.symm, hkg]
  have hlp := h.extends_ _ _ hcp
  have hlist : l1.list = l.list := by rw [hl1]
  have halias : ∀ j, l1.aliases.get? j = if env.lower n = j then some (env.lower p.name) else l.aliases.get? j := by
    intro j
    rw [hl1]
    exact HMap.get?_insert _ _ _ _
  have hlk : l.list.get? (env.lower p.name) = some p := by
    rw [show env.lower p.name = k from hkk.symm]
    exact h.listed _ _ hkg
  have hget : ∀ j, env.lower n ≠ env.lower j → l1.get env.lower j = l.get env.lower j := by
    intro j hj
    unfold NList.get
    rw [hlist, halias, if_neg hj]
  have hgetn : ∀ j, env.lower n = env.lower j → l1.get env.lower j = .ok p := by
    intro j hj
    unfold NList.get
    rw [hlist, ← hj, m1, halias, if_pos rfl]
    simp only [hlk, unwrap]
  have hne : ∀ j y, l.get env.lower j = .ok y → env.lower n ≠ env.lower j := by
    intro j y hy hj
    unfold NList.get at hy
    rw [← hj, m1, m2] at hy
    cases hy
  have hext : Extends env.lower l l1 := by
    intro j y hy
    rw [hget j (hne j y hy)]
    exact hy
  refine ⟨.addAlias n p p h.reachable hlp rfl ha, h.extends_.trans hext, ?_, ?_, ?_, ?_⟩
  · rw [hlist]; exact h.listed
  · intro k e hk
    rw [hlist] at hk
    rcases h.only k e hk with h1 | ⟨m, h1, h2⟩
    · exact .inl h1
    · exact .inr ⟨m, by simp [h1], h2⟩
  · intro m hmem
    simp only [List.mem_append, List.mem_singleton] at hmem
    rcases hmem with hmem | rfl
    · obtain ⟨y, hy⟩ := h.used m hmem
      exact ⟨y, hext _ _ hy⟩
    · exact ⟨p, hgetn m rfl⟩
  · intro m x hgx
    by_cases hj : env.lower n = env.lower m
    · rw [hgetn m hj] at hgx
      cases hgx
      exact .inr ⟨declared_congr hj hnd, n, by simp, hj, .inr hp⟩
    · rw [hget m hj] at hgx
      rcases h.found m x hgx with h1 | ⟨h0, m', g2, g3⟩
      · exact .inl h1
      · exact .inr ⟨h0, m', by simp [g2], g3⟩

theorem popPayees_adding {env : Env} {s : Shuf} {decl : NList PayeeDef} (hd : decl.Reachable env.lower) :
    ∀ (names seen : List Str) (l : NList PayeeDef) {l' : NList PayeeDef}, AddingP env decl l seen →
      popPayees env s decl names l = .ok l' → AddingP env decl l' (seen ++ names)
  | [], seen, l, l', h, he => by
    simp only [popPayees, Except.ok.injEq] at he
    subst he
    simpa using h
  | n :: ns, seen, l, l', h, he => by
    unfold popPayees at he
    rw [show seen ++ n :: ns = (seen ++ [n]) ++ ns by simp]
    split at he
    · rename_i x hx
      exact popPayees_adding hd ns _ _ (h.seen hx) he
    · cases he
    · rename_i e hx
      split at he
      · rename_i hf
        exact popPayees_adding hd ns _ _ (h.fresh hx (findPattern_none hf)) he
      · rename_i p hf
        split at he
        · cases he
        · rename_i l1 ha
          exact popPayees_adding hd ns _ _ (h.alias hd hx (findPattern_some hf) ha) he

theorem AddingP.completed {env : Env} {decl l : NList PayeeDef} {seen : List Str} (h : AddingP env decl l seen)
    {used : Str → Prop} (hu : ∀ n, n ∈ seen ↔ used n) : CompletedPayees env decl l used := by
  refine ⟨h.reachable, h.extends_, ?_, ?_, ?_⟩
  · intro n hn hd
    obtain ⟨x, hx⟩ := h.used n ((hu n).mpr hn)
    rcases h.found n x hx with h1 | ⟨_, m, h2, h3, h4⟩
    · exact absurd ⟨x, h1⟩ hd
    · refine ⟨m, (hu m).mp h2, h3, ?_⟩
      rcases h4 with ⟨h4, rfl⟩ | h4
      · exact .inl ⟨h4, _, hx, rfl⟩
      · exact .inr ⟨x, h4, _, hx, rfl⟩
  · rintro n ⟨k, e, hk, he⟩
    exact ⟨k, e, h.listed k e hk, he⟩
  · rintro n ⟨k, e, hk, rfl⟩
    rcases h.only k e hk with h1 | ⟨m, h1, rfl, h2⟩
    · exact .inl ⟨k, e, h1, rfl⟩
    · exact .inr ⟨(hu m).mp h1, h2⟩

theorem AddingP.start {env : Env} {decl : NList PayeeDef} (h : decl.Reachable env.lower) : AddingP env decl decl [] :=
  ⟨h, .refl _ _, fun _ _ h => h, fun _ _ h => .inl h, by simp, fun _ _ h => .inl h⟩

theorem populate_names {env : Env} {o : LedgerOrders} {pl : ParsedLedger} {l : Lists} (h : pl.lists.Ok env.lower)
    (hp : populate env o pl = .ok l) : NamesOf env pl l := by
  unfold populate at hp
  split at hp
  · cases hp
  rename_i cs hc
  split at hp
  · cases hp
  rename_i acs ha
  split at hp
  · cases hp
  rename_i ps hps
  simp only [Except.ok.injEq] at hp
  subst hp
  refine ⟨?_, ?_, ?_⟩
  · refine (ensureAll_adding (fun _ => rfl) (fun _ => rfl) _ _ _ (.start h.accounts) ha).completed (fun _ => rfl) ?_
    intro n
    rw [List.nil_append, (o.accounts.perm _).mem_iff]
    unfold ParsedLedger.accountStrs ParsedLedger.postings ParsedLedger.usesAccount
    rw [mem_setInsertAll]
    simp only [List.not_mem_nil, false_or, List.mem_map, List.mem_flatMap, Option.some.injEq]
    exact ⟨fun ⟨p, ⟨t, ht, hp⟩, h⟩ => ⟨t, ht, p, hp, h⟩, fun ⟨t, ht, p, hp, h⟩ => ⟨p, ⟨t, ht, hp⟩, h⟩⟩
  · refine (popPayees_adding h.payees _ _ _ (.start h.payees) hps).completed ?_
    intro n
    rw [List.nil_append, (o.payees.perm _).mem_iff]
    unfold ParsedLedger.payeeStrs ParsedLedger.postings ParsedLedger.usesPayee
    rw [mem_setInsertAll]
    simp only [List.not_mem_nil, false_or, List.mem_map, List.mem_flatMap]
    exact ⟨fun ⟨p, ⟨t, ht, hp⟩, h⟩ => ⟨t, ht, p, hp, h⟩, fun ⟨t, ht, p, hp, h⟩ => ⟨p, ⟨t, ht, hp⟩, h⟩⟩
  · refine (ensureAll_adding (fun _ => rfl) (fun _ => rfl) _ _ _ (.start h.commodities) hc).completed (fun _ => rfl) ?_
    intro n
    rw [List.nil_append, (o.commodities.perm _).mem_iff]
    unfold ParsedLedger.commodityStrs ParsedLedger.postings ParsedLedger.usesCommodity
    rw [mem_setInsertAll, mem_setInsertAll]
    simp only [List.not_mem_nil, false_or, List.mem_flatMap, List.mem_cons, or_false]
    constructor
    · rintro (⟨p, ⟨t, ht, hp⟩, h | h | h⟩ | ⟨p, hp, h | h⟩)
      · exact .inl ⟨t, ht, p, hp, .inl h.symm⟩
      · exact .inl ⟨t, ht, p, hp, .inr (.inl h.symm)⟩
      · exact .inl ⟨t, ht, p, hp, .inr (.inr h.symm)⟩
      · cases h; exact .inr ⟨p, hp, .inl rfl⟩
      · cases h; exact .inr ⟨p, hp, .inr rfl⟩
    · rintro (⟨t, ht, p, hp, h | h | h⟩ | ⟨p, hp, h | h⟩)
      · exact .inl ⟨p, ⟨t, ht, hp⟩, .inl h.symm⟩
      · exact .inl ⟨p, ⟨t, ht, hp⟩, .inr (.inl h.symm)⟩
      · exact .inl ⟨p, ⟨t, ht, hp⟩, .inr (.inr h.symm)⟩
      · exact .inr ⟨p, hp, .inl (by rw [h])⟩
      · exact .inr ⟨p, hp, .inr (by rw [h])⟩

/-! ### Building the ledger -/

/-- Building the ledger of a journal without automated transactions comes down to balancing its transactions. -/
theorem toLedger_plain {env : Env} {o : LedgerOrders} {pl : ParsedLedger} (h : pl.Ok env.lower)
    (ha : pl.automated = [])
    (hz : ∀ t ∈ pl.regular, ∀ p ∈ t.postings, p.costType = some .total → p.moneyAmount ≠ some 0) :
    ∃ l listed converted, populate env o pl = .ok l ∧ DateOrder pl.regular listed ∧
      List.Forall₂ (fun raw t => t.header = raw.header ∧ t.ttype = .real ∧
        List.Forall₂ (WrittenAs env l raw) raw.postings t.postings) listed converted ∧
      (∀ t ∈ converted, t.date.isSome ∧ ∀ q ∈ t.postings,
        q.CostOk ∧ ((initialBalances l.accounts).get? q.account).isSome) ∧
      ∀ skip, (toLedger env o skip pl).isPanic = false ∧
        ((∃ L, toLedger env o skip pl = .ok L) ↔
          ∃ x, balancePass skip o.fill o.rate (initialBalances l.accounts) converted = .ok x) := by
  obtain ⟨l, h1, h2, _⟩ := populate_spec (o := o) h.lists
  have hreg : ∀ t ∈ pl.regular, Converts env o.unknown l t (convOf env o.unknown l t) := by
    intro t htr
    have hm := List.mem_filter.mp htr
    obtain ⟨r, hr⟩ := convertTxn_ok (fun p hp => convertPosting_ok (h.dated t htr) (h.postings t htr p hp)
      (h2.postings t hm.1 p hp) (hz t htr p hp))
    have hr' : Converts env o.unknown l t r := hr
    rw [← converts_convOf hr']; exact hr'
  have hconv : ∀ t ∈ pl.transactions, t.ttype = .real → ∃ r, Converts env o.unknown l t r := by
    intro t ht hk
    exact ⟨_, hreg t (List.mem_filter.mpr ⟨ht, by simpa using hk⟩)⟩
  have hsm : sortBy dateLe (pl.regular.map (fun t => (convOf env o.unknown l t).1)) =
      (sortBy dateLe pl.regular).map (fun t => (convOf env o.unknown l t).1) := by
    apply sortBy_map
    intro a ha b hb
    unfold dateLe
    rw [convOf_date (hreg a ha), convOf_date (hreg b hb)]
  have hall : ∀ t ∈ (sortBy dateLe pl.regular).map (fun t => (convOf env o.unknown l t).1),
      t.date.isSome ∧ ∀ q ∈ t.postings,
        q.CostOk ∧ ((initialBalances l.accounts).get? q.account).isSome := by
    intro t ht
    obtain ⟨raw, hraw, rfl⟩ := List.mem_map.mp ht
    have hraw := (mem_sortBy _ _ _).mp hraw
    refine ⟨by rw [convOf_date (hreg raw hraw)]; exact h.dated raw hraw, ?_⟩
    intro q hq
    obtain ⟨c1, k, x, c2, c3⟩ := convertTxn_costOk (t := (convOf env o.unknown l raw).1)
      (prs := (convOf env o.unknown l raw).2) (hreg raw hraw) q hq
    exact ⟨c1, by rw [← c3]; exact (initialBalances_get l.accounts).1 k x c2⟩
  refine ⟨l, sortBy dateLe pl.regular, _, h1, dateOrder_sortBy h.dated, ?_, hall, ?_⟩
  · rw [List.forall₂_map_right_iff]
    rw [List.forall₂_same]
    intro raw hraw
    have hcv := hreg raw ((mem_sortBy _ _ _).mp hraw)
    obtain ⟨ps, _, i2, _, i4, _⟩ :=
      convertTxn_inv (t := (convOf env o.unknown l raw).1) (prs := (convOf env o.unknown l raw).2) hcv
    obtain ⟨qs, j1, j2, _⟩ := convertTxn_postings (t := (convOf env o.unknown l raw).1)
      (prs := (convOf env o.unknown l raw).2) hcv
    refine ⟨i2, i4, ?_⟩
    rw [j2, List.forall₂_map_right_iff]
    exact j1.imp (fun _ _ hh => hh.written)
  · intro skip
    refine ⟨C24_no_panic h ha hz, ?_⟩
    obtain ⟨dp, hdp⟩ := directivePrices_ok pl.prices h2.prices
    have hsort : sortByDate (pl.regular.map (fun t => (convOf env o.unknown l t).1)) =
        .ok ((sortBy dateLe pl.regular).map (fun t => (convOf env o.unknown l t).1)) := by
      rw [← hsm]
      unfold sortByDate
      rw [if_neg]
      · rfl
      · intro hany
        obtain ⟨t, ht, hn⟩ := List.any_eq_true.mp hany
        have := (hall t (by rw [← hsm]; exact (mem_sortBy _ _ _).mpr ht)).1
        rw [Option.isNone_iff_eq_none.mp hn] at this
        cases this
    have hauto : pl.transactions.filter (fun t => t.ttype = .automated) = [] := ha
    unfold toLedger
    rw [h1]
    simp only
    unfold buildLedger
    rw [hdp]
    simp only
    rw [convertAll_of _ hconv]
    simp only
    rw [show (pl.transactions.filter (fun t => t.ttype = .real)) = pl.regular from rfl, hsort]
    simp only
    constructor
    · rintro ⟨L, hL⟩
      split at hL
      · cases hL
      · next ts prs hb => exact ⟨_, hb⟩
    · rintro ⟨⟨ts, prs⟩, hb⟩
      rw [hb]
      simp only
      rw [hauto]
      exact ⟨_, rfl⟩

theorem finds_mem {T : Type} [Named T] {lower : Str → Str} {l : NList T} {n m : Str} (h : Finds lower l n m) :
    ∃ k x, l.list.get? k = some x ∧ Named.name x = m := by
  obtain ⟨x, hx, hn⟩ := h
  refine (fun ⟨k, hk⟩ => ⟨k, x, hk, hn⟩ : (∃ k, l.list.get? k = some x) → _) ?_
  unfold NList.get at hx
  split at hx
  · next y hy => cases hx; exact ⟨_, hy⟩
  · split at hx
    · cases hx
    · next z _ =>
      unfold unwrap at hx
      split at hx
      · next y hy => cases hx; exact ⟨_, hy⟩
      · cases hx

theorem WrittenAs.known {env : Env} {l : Lists} {raw : Txn RawPosting} {p : RawPosting} {q : Posting}
    (h : WrittenAs env l raw p q) : ((initialBalances l.accounts).get? q.account).isSome := by
  obtain ⟨n, _, _, ha⟩ := h.payee
  rcases ha with ⟨_, k, x, hk, _, hx⟩ | ⟨_, hf⟩
  · rw [← hx]; exact (initialBalances_get l.accounts).1 k x hk
  · obtain ⟨k, x, hk, hx⟩ := finds_mem hf
    rw [← hx]; exact (initialBalances_get l.accounts).1 k x (HMap.mem_of_get? hk)

theorem initialBalances_amt (accounts : NList AccountDef) :
    balAmt (initialBalances accounts) = fun _ _ => 0 := by
  funext a c
  unfold balAmt
  split
  · rfl
  · next b hb => rw [(initialBalances_get accounts).2 a b hb]; rfl

/-- The condition on bracketed postings, for what is written and for what it stands for. -/
theorem noSales {env : Env} {l : Lists} {pl : ParsedLedger} {listed : List (Txn RawPosting)} {ts : List (Txn Posting)}
    (hd : DateOrder pl.regular listed)
    (h : List.Forall₂ (fun raw t => t.header = raw.header ∧ t.ttype = .real ∧
      List.Forall₂ (WrittenAs env l raw) raw.postings t.postings) listed ts)
    (hn : pl.NoBracketedSales) : ∀ t ∈ ts, NoNegPerUnit .virtBal t.postings := by
  intro t ht q hq hk u m hc hm
  obtain ⟨raw, hraw, _, _, hw⟩ := Forall₂.mem_right h ht
  obtain ⟨p, hp, w⟩ := Forall₂.mem_right hw hq
  rcases w.cost with ⟨_, h2⟩ | ⟨c, n, x, _, _, _, h4⟩
  · rw [h2] at hc; cases hc
  · rcases h4 with ⟨_, h5⟩ | ⟨h5, _⟩
    · rw [h5] at hc; cases hc
    · rcases w.amount with ⟨_, h6⟩ | ⟨y, n', a, _, h7, _, h8⟩
      · rw [h6] at hm; cases hm
      · rw [h8] at hm; cases hm
        exact hn raw (hd.perm.mem_iff.mp hraw) p hp (by rw [← w.kind]; exact hk) h5 a h7

/-! ### One commodity -/

theorem Finds.unique {T : Type} [Named T] {lower : Str → Str} {l : NList T} {n m m' : Str} (h : Finds lower l n m)
    (h' : Finds lower l n m') : m = m' := by
  obtain ⟨x, hx, rfl⟩ := h
  obtain ⟨y, hy, rfl⟩ := h'
  rw [hx] at hy; cases hy; rfl

/-- What plain postings in one commodity stand for. -/
theorem oneCommodity {env : Env} {l : Lists} {raw : Txn RawPosting} {cur n : Str} {ps : List RawPosting}
    {qs : List Posting} (hn : ∀ m, Finds env.lower l.commodities cur m → m = n)
    (hone : ∀ p ∈ ps, p.kind = .real ∧ p.costCurrency = none ∧ p.balanceCurrency = none ∧
      (p.moneyCurrency = none ∨ p.moneyCurrency = some cur) ∧ p.moneyCurrency.isSome = p.moneyAmount.isSome)
    (h : List.Forall₂ (WrittenAs env l raw) ps qs) :
    (∀ c, weightOf .real qs c = if n = c then (ps.filterMap RawPosting.moneyAmount).sum else 0) ∧
      (∀ c, weightOf .virtBal qs c = 0) ∧ (∀ q ∈ qs, q.balance = none) ∧
      (qs.filter (fun q => q.elided false)).length = (ps.filter (fun p => p.moneyAmount = none)).length := by
  induction h with
  | nil => exact ⟨by simp, by simp, by simp, rfl⟩
  | @cons p q ps qs w _ ih =>
    obtain ⟨i1, i2, i3, i4⟩ := ih (fun p hp => hone p (by simp [hp]))
    obtain ⟨h1, h2, h3, h4, h5⟩ := hone p (by simp)
    have hk : q.kind = .real := by rw [w.kind, h1]
    have hb : q.balance = none := by
      rcases w.balance with ⟨_, h⟩ | ⟨x, _, _, h, _⟩
      · exact h
      · rw [h3] at h; cases h
    have hc : q.cost = none := by
      rcases w.cost with ⟨_, h⟩ | ⟨x, _, _, h, _⟩
      · exact h
      · rw [h2] at h; cases h
    refine ⟨?_, ?_, ?_, ?_⟩
    · intro c
      rw [weightOf_cons, if_pos hk, i1]
      rcases w.amount with ⟨g1, g2⟩ | ⟨x, m, a, g1, g2, g3, g4⟩
      · rw [g1] at h5
        have : p.moneyAmount = none := by
          cases hx : p.moneyAmount with
          | none => rfl
          | some x => rw [hx] at h5; cases h5
        rw [List.filterMap_cons_none this]
        simp [Posting.weight, g2]
      · rw [g1] at h4
        have hx : x = cur := by simpa using h4
        subst hx
        have hm := hn m g3
        subst hm
        rw [List.filterMap_cons_some g2]
        simp only [Posting.weight, g4, hc, Money.amountIn_mk, List.sum_cons]
        split
        · rfl
        · ring
    · intro c; rw [weightOf_cons, if_neg (by rw [hk]; simp), i2]; simp
    · intro x hx
      rcases List.mem_cons.mp hx with rfl | hx
      · exact hb
      · exact i3 x hx
    · have he : q.elided false ↔ p.moneyAmount = none := by
        rcases w.amount with ⟨g1, g2⟩ | ⟨x, m, a, g1, g2, g3, g4⟩
        · rw [g1] at h5
          have : p.moneyAmount = none := by
            cases hx : p.moneyAmount with
            | none => rfl
            | some x => rw [hx] at h5; cases h5
          simp [Posting.elided, hk, g2, hb, this]
        · simp [Posting.elided, g4, g2]
      rw [List.filter_cons, List.filter_cons]
      by_cases hx : p.moneyAmount = none
      · simp [hx, he.mpr hx, i4]
      · have : ¬ q.elided false := fun h => hx (he.mp h)
        simp [hx, this, i4]

theorem mayBalance_single {f : Cur → Rat} {n : Cur} {x : Rat} (h : ∀ c, f c = if n = c then x else 0) :
    MayBalance f ↔ x = 0 := by
  constructor
  · rintro (h0 | ⟨c, d, hc, hd⟩)
    · have := h0 n; rw [h] at this; simpa using this
    · rw [h] at hc hd
      split at hc
      · split at hd
        · linarith
        · exact absurd hd (lt_irrefl _)
      · exact absurd hc (lt_irrefl _)
  · intro hx; left; intro c; rw [h, hx]; split <;> rfl

/-! ### The ledger of a journal without automated transactions -/

/-- What the commands report on. -/
theorem toLedger_booked {env : Env} {o : LedgerOrders} {skip : Bool} {pl : ParsedLedger} {L : Ledger}
    (hok : pl.Ok env.lower) (ha : pl.automated = []) (h : toLedger env o skip pl = .ok L) :
    ∃ l listed ts bals rs, NamesOf env pl l ∧ DateOrder pl.regular listed ∧
      List.Forall₂ (fun raw t => t.header = raw.header ∧ t.ttype = .real ∧
        List.Forall₂ (WrittenAs env l raw) raw.postings t.postings) listed ts ∧
      (∀ t ∈ ts, ∀ p ∈ t.postings, p.CostOk ∧ ((initialBalances l.accounts).get? p.account).isSome) ∧
      balanceAll skip o.fill (initialBalances l.accounts) ts = .ok (bals, rs) ∧
      L.transactions = rs.map Prod.fst ∧ L.accounts = l.accounts ∧ L.payees = l.payees ∧
      L.commodities = l.commodities := by
  obtain ⟨l, hl, hb⟩ := toLedger_inv h
  obtain ⟨listed, ts, booked, bals, rs, h1, h2, h3, h4, rfl, h6, _, _⟩ := buildLedger_booked hb
  obtain ⟨g1, g2, g3, g4⟩ := h6 ha
  refine ⟨l, listed, ts, bals, rs, populate_names hok.lists hl, h1, h2, ?_, h4, g1, g2, g3, g4⟩
  intro t ht p hp
  refine ⟨h3 t ht p hp, ?_⟩
  obtain ⟨raw, _, _, _, hw⟩ := Forall₂.mem_right h2 ht
  obtain ⟨_, _, w⟩ := Forall₂.mem_right hw hp
  exact w.known

/-- Each booked transaction is one of the journal, balanced. -/
theorem balanceAll_each {skip : Bool} (ts : List (Txn Posting)) {σ : Nat → Shuf} {bals bals' : Balances}
    {rs : List (Txn Posting × Balance)} (hb : bals.Ok) (hp : ∀ t ∈ ts, ∀ p ∈ t.postings, p.CostOk)
    (h : balanceAll skip σ bals ts = .ok (bals', rs)) :
    List.Forall₂ (fun t t' => ∃ s b b' ret, Txn.balance s skip b t = .ok (b', t', ret) ∧ b.Ok) ts
      (rs.map Prod.fst) := by
  induction ts generalizing σ bals rs with
  | nil => cases h; exact .nil
  | cons t ts ih =>
    unfold balanceAll at h
    split at h
    · cases h
    · next b1 t1 r1 h1 =>
      split at h
      · cases h
      · next b2 rest h2 =>
        cases h
        obtain ⟨res, gen, hB⟩ := balance_spec h1 hb (hp t (by simp))
        exact .cons ⟨_, _, _, _, h1, hb⟩ (ih hB.balsOk (fun u hu => hp u (by simp [hu])) h2)

theorem virtualTo_append (ps qs : List Posting) (a : Str) (c : Cur) :
    virtualTo (ps ++ qs) a c = virtualTo ps a c + virtualTo qs a c := by
  unfold virtualTo
  rw [List.filter_append, List.filterMap_append, sumIn_append]

/-- Balancing does not touch virtual postings. -/
theorem virtualTo_booked {s : Shuf} {skip : Bool} {bals bals' : Balances} {t t' : Txn Posting} {ret : Balance}
    (h : Txn.balance s skip bals t = .ok (bals', t', ret)) (hb : bals.Ok) (hp : ∀ p ∈ t.postings, p.CostOk)
    (a : Str) (c : Cur) : virtualTo t'.postings a c = virtualTo t.postings a c := by
  obtain ⟨res, gen, hB⟩ := balance_spec h hb hp
  have hr : ∀ q ∈ res ++ gen, q.kind = .real := by
    have h0 := hB.reals
    rw [hB.postings] at h0
    simp only [List.filter_append] at h0
    intro q hq
    have hq' : q ∈ (res ++ gen) := hq
    rw [← h0] at hq'
    rw [← List.filter_append, ← List.filter_append] at hq'
    simpa using (List.mem_filter.mp hq').2
  rw [hB.postings]
  simp only
  rw [virtualTo_append]
  have h0 : virtualTo (res ++ gen) a c = 0 := by
    unfold virtualTo
    rw [show (res ++ gen).filter (fun p => p.kind ≠ .real ∧ p.account = a) = [] from by
      rw [List.filter_eq_nil_iff]; intro q hq; simp [hr q hq]]
    rfl
  rw [h0, zero_add]
  unfold virtualTo
  rw [List.filter_filter]
  congr 2
  apply List.filter_congr
  intro q _
  by_cases hk : q.kind = .real <;> simp [hk]

theorem virtualTo_all {skip : Bool} {ts ts' : List (Txn Posting)}
    (hp : ∀ t ∈ ts, ∀ p ∈ t.postings, p.CostOk)
    (h : List.Forall₂ (fun t t' => ∃ s b b' ret, Txn.balance s skip b t = .ok (b', t', ret) ∧ b.Ok) ts ts')
    (a : Str) (c : Cur) :
    virtualTo (ts'.flatMap (fun t => t.postings)) a c = virtualTo (ts.flatMap (fun t => t.postings)) a c := by
  induction h with
  | nil => rfl
  | cons h _ ih =>
    obtain ⟨s, b, b', ret, h1, h2⟩ := h
    rw [List.flatMap_cons, List.flatMap_cons, virtualTo_append, virtualTo_append,
      virtualTo_booked h1 h2 (hp _ (by simp)), ih (fun t ht => hp t (by simp [ht]))]

/-- The amounts posted to an account are those of its real and of its virtual postings. -/
theorem sumIn_kinds (ps : List Posting) (a : Str) (c : Cur) :
    sumIn ((ps.filter (fun p => p.account = a)).filterMap Posting.amount) c = postedTo ps a c + virtualTo ps a c := by
  induction ps with
  | nil => simp [postedTo, virtualTo, sumIn]
  | cons p ps ih =>
    have e : ∀ (P : Posting → Bool), sumIn (((p :: ps).filter P).filterMap Posting.amount) c =
        (if P p then (match p.amount with | some m => m.amountIn c | none => 0) else 0) +
          sumIn ((ps.filter P).filterMap Posting.amount) c := by
      intro P
      rw [List.filter_cons]
      split
      · cases hm : p.amount with
        | none => rw [List.filterMap_cons_none hm]; simp
        | some m => rw [List.filterMap_cons_some hm]; simp [sumIn]
      · simp
    rw [e, ih]
    unfold postedTo virtualTo
    rw [e, e]
    by_cases hk : p.kind = .real <;> by_cases ha : p.account = a <;> simp [hk, ha] <;> ring

/-! ### The entries of a transaction -/

theorem SameEntry.weightOf {ps qs : List Posting} (h : List.Forall₂ SameEntry ps qs) (k : Kind) (c : Cur) :
    weightOf k qs c = weightOf k ps c := by
  unfold Dinero.weightOf
  induction h with
  | nil => rfl
  | @cons p q ps qs h _ ih =>
    obtain ⟨_, h2, h3, h4, _⟩ := h
    have hw : q.weight = p.weight := by unfold Posting.weight; rw [h3, h4]
    rw [List.filter_cons, List.filter_cons, h2]
    split
    · simp only [List.map_cons, sumIn, List.sum_cons] at ih ⊢
      rw [hw, ih]
    · exact ih

theorem SameEntry.postedTo {ps qs : List Posting} (h : List.Forall₂ SameEntry ps qs) (a : Str) (c : Cur) :
    postedTo qs a c = postedTo ps a c := by
  unfold Dinero.postedTo
  congr 1
  induction h with
  | nil => rfl
  | @cons p q ps qs h _ ih =>
    obtain ⟨h1, h2, h3, _, _⟩ := h
    rw [List.filter_cons, List.filter_cons, h2, h1]
    split
    · rw [List.filterMap_cons, List.filterMap_cons, h3, ih]
    · exact ih

theorem postedTo_one {q : Posting} {m : Money} (hk : q.kind = .real) (hm : q.amount = some m) (a : Str) (c : Cur) :
    postedTo [q] a c = if q.account = a then m.amountIn c else 0 := by
  unfold postedTo
  by_cases h : q.account = a
  · rw [List.filter_cons_of_pos (by simp [hk, h]), List.filter_nil, List.filterMap_cons_some hm, if_pos h]
    simp [sumIn]
  · rw [List.filter_cons_of_neg (by simp [h]), if_neg h]; rfl

/-- The resolved postings are what the written ones post. -/
theorem posts_of_resolved {skip : Bool} (ps : List Posting) {start : Str → Cur → Rat} {res : List Posting}
    (hr : List.Forall₂ Resolved (ps.filter (Posting.kept skip)) res)
    (ha : skip = false → AssertRec start (ps.filter (Posting.kept skip)) res) :
    ∃ qs, Posts skip start ps qs ∧ List.Forall₂ SameEntry qs res := by
  induction ps generalizing start res with
  | nil => cases hr; exact ⟨[], .nil, .nil⟩
  | cons p ps ih =>
    by_cases hk : p.kept skip = true
    · rw [List.filter_cons_of_pos hk] at hr ha
      cases hr with
      | @cons _ q _ res h1 h2 =>
      have hq : q.account = p.account ∧ q.balance = p.balance ∧ q.cost = p.cost ∧ q.kind = p.kind := by
        have := h1.same
        rw [this]; exact ⟨rfl, rfl, rfl, h1.kindReal.symm⟩
      obtain ⟨q1, q2, q3, q4⟩ := hq
      obtain ⟨m, hm⟩ := Option.isSome_iff_exists.mp h1.hasAmount
      have hpost : ∀ a c, postedTo [q] a c = if p.account = a then m.amountIn c else 0 := by
        intro a c; rw [postedTo_one (q4.trans h1.kindReal) hm, q1]
      have hst : (fun a c => start a c + postedTo [q] a c) = afterPosting start p.account m := by
        funext a c; rw [hpost]; rfl
      obtain ⟨qs, g1, g2⟩ := ih (start := afterPosting start p.account m) h2 (fun hs => by
        rw [← hst]; exact (ha hs).2.2)
      cases hpa : p.amount with
      | some m' =>
        have : m' = m := by have := h1.keeps _ hpa; rw [hm] at this; cases this; rfl
        subst this
        refine ⟨p :: qs, .given h1.kindReal hpa (fun hs x d hb => ?_) g1, .cons ⟨q1, q4, by rw [hm, hpa], q3, q2⟩ g2⟩
        have := (ha hs).1 x d (by rw [q2]; exact hb)
        rw [q1, hpost, if_pos rfl] at this; exact this
      | none =>
        have hnel : ¬ p.elided skip := by
          have := hk; simp only [Posting.kept, decide_eq_true_eq] at this; exact this.2
        have hs : skip = false := by
          cases skip
          · rfl
          · exact absurd ⟨h1.kindReal, hpa, .inr rfl⟩ hnel
        cases hpb : p.balance with
        | none => exact absurd ⟨h1.kindReal, hpa, .inl hpb⟩ hnel
        | some b =>
          refine ⟨{ p with amount := some m } :: qs, .assigned h1.kindReal hpa hs hpb (fun c => ?_) (h1.bare hpa m hm) g1,
            .cons ⟨q1, q4, hm, q3, q2⟩ g2⟩
          have := (ha hs).2.1 hpa b (by rw [q2]; exact hpb) c
          rw [q1, hpost, if_pos rfl] at this; exact this
    · rw [List.filter_cons_of_neg hk] at hr ha
      obtain ⟨qs, g1, g2⟩ := ih hr ha
      refine ⟨qs, ?_, g2⟩
      by_cases hkr : p.kind = .real
      · refine .elided ?_ g1
        by_contra he
        exact hk (by simp [Posting.kept, hkr, he])
      · exact .other hkr g1

theorem SameEntry.entry {ps qs : List Posting} (h : List.Forall₂ SameEntry ps qs) :
    qs.map Posting.entry = ps.map Posting.entry := by
  induction h with
  | nil => rfl
  | cons h _ ih => rw [List.map_cons, List.map_cons, ih]; simp [Posting.entry, h.1, h.2.1, h.2.2.1]

/-- A balanced transaction holds the entries of the written one. -/
theorem enters_of_balance {s : Shuf} {skip : Bool} {bals bals' : Balances} {t t' : Txn Posting} {ret : Balance}
    (h : Txn.balance s skip bals t = .ok (bals', t', ret)) (hb : bals.Ok) (hp : ∀ p ∈ t.postings, p.CostOk) :
    ∃ es, Enters skip (balAmt bals) t es ∧ List.Forall₂ SameEntry es t'.postings ∧
      (∀ a c, postedTo es a c = postedTo t'.postings a c) ∧
      ∀ a c, balAmt bals' a c = balAmt bals a c + postedTo es a c := by
  obtain ⟨res, gen, hB⟩ := balance_spec h hb hp
  obtain ⟨qs, h1, h2⟩ := posts_of_resolved t.postings hB.resolved hB.asserts
  have hnil : ∀ a c, postedTo (t.postings.filter (fun p => p.kind ≠ .real)) a c = 0 := by
    intro a c
    unfold postedTo
    rw [show (t.postings.filter (fun p => p.kind ≠ .real)).filter (fun p => p.kind = .real ∧ p.account = a) = [] from by
      rw [List.filter_eq_nil_iff]; intro q hq; simp [(by simpa using (List.mem_filter.mp hq).2 : q.kind ≠ .real)]]
    rfl
  have happ : ∀ (x y : List Posting) a c, postedTo (x ++ y) a c = postedTo x a c + postedTo y a c := by
    intro x y a c
    unfold postedTo
    rw [List.filter_append, List.filterMap_append, sumIn_append]
  refine ⟨qs ++ gen ++ t.postings.filter (fun p => p.kind ≠ .real), ⟨qs, gen, h1, rfl, ?_⟩, ?_, ?_, ?_⟩
  · rcases hB.cases with ⟨g1, g2, _, _⟩ | ⟨p, g1, _, ms, g2, g3, g4⟩
    · exact .inl ⟨g1, (mayBalance_congr (SameEntry.weightOf h2 .real)).mp ‹_›, g2⟩
    · refine .inr ⟨p, g1, ?_, ms, ?_, g3, ?_⟩
      · intro q hq
        rw [g2] at hq
        obtain ⟨m, _, rfl⟩ := List.mem_map.mp hq
        exact ⟨rfl, rfl, rfl, rfl⟩
      · rw [g2, List.map_map]; rfl
      · intro m; rw [g4]; simp only [SameEntry.weightOf h2]
  · rw [hB.postings]
    exact forall₂_append (forall₂_append h2 (List.forall₂_same.mpr (fun _ _ => ⟨rfl, rfl, rfl, rfl, rfl⟩)))
      (List.forall₂_same.mpr (fun _ _ => ⟨rfl, rfl, rfl, rfl, rfl⟩))
  · intro a c
    rw [hB.postings]
    simp only [happ, SameEntry.postedTo h2]
  · intro a c
    rw [hB.amounts, happ, happ, happ, hnil, SameEntry.postedTo h2]; ring

theorem entersAll_of_balanceAll {skip : Bool} (ts : List (Txn Posting)) {σ : Nat → Shuf} {bals bals' : Balances}
    {rs : List (Txn Posting × Balance)} (hb : bals.Ok) (hp : ∀ t ∈ ts, ∀ p ∈ t.postings, p.CostOk)
    (h : balanceAll skip σ bals ts = .ok (bals', rs)) :
    ∃ es, EntersAll skip (balAmt bals) ts es ∧
      ((rs.map Prod.fst).flatMap (fun t => t.postings)).map Posting.entry = es.map Posting.entry := by
  induction ts generalizing σ bals rs with
  | nil => cases h; exact ⟨[], .nil, rfl⟩
  | cons t ts ih =>
    unfold balanceAll at h
    split at h
    · cases h
    · next b1 t1 r1 h1 =>
      split at h
      · cases h
      · next b2 rest h2 =>
        cases h
        obtain ⟨es, e1, e2, e3, e4⟩ := enters_of_balance h1 hb (hp t (by simp))
        obtain ⟨res, gen, hB⟩ := balance_spec h1 hb (hp t (by simp))
        obtain ⟨es', f1, f2⟩ := ih hB.balsOk (fun u hu => hp u (by simp [hu])) h2
        refine ⟨es ++ es', .cons e1 ?_, ?_⟩
        · have : (fun a c => balAmt bals a c + postedTo es a c) = balAmt b1 := by
            funext a c; exact (e4 a c).symm
          rw [this]; exact f1
        · rw [List.map_cons, List.flatMap_cons, List.map_append, List.map_append, SameEntry.entry e2, f2]

/-! ### Journals in one commodity -/

/-- Nothing but the commodity `d`. -/
def Posting.Only (d : Cur) (p : Posting) : Prop :=
  p.kind = .real ∧ p.cost = none ∧ (∀ m, p.amount = some m → ∀ c, c ≠ d → m.amountIn c = 0) ∧
    ∀ b, p.balance = some b → ∀ c, c ≠ d → b.amountIn c = 0

theorem weight_plain {p : Posting} (h : p.cost = none) (c : Cur) : p.weight.amountIn c = sumIn (p.amount.toList) c := by
  unfold Posting.weight
  rw [h]
  cases p.amount with
  | none => simp [sumIn, Money.amountIn, Money.commodity]
  | some m => simp [sumIn]

theorem posts_only {skip : Bool} {d : Cur} {start : Str → Cur → Rat} {ps qs : List Posting}
    (h : Posts skip start ps qs) (hs : ∀ a c, c ≠ d → start a c = 0) (hp : ∀ p ∈ ps, p.Only d) :
    (∀ q ∈ qs, q.Only d ∧ q.amount.isSome) ∧ ∀ c, weightOf .real qs c = sumIn (qs.filterMap Posting.amount) c := by
  induction h with
  | nil => exact ⟨by simp, by simp [weightOf, sumIn]⟩
  | other _ _ ih => exact ih hs (fun p hq => hp p (by simp [hq]))
  | elided _ _ ih => exact ih hs (fun p hq => hp p (by simp [hq]))
  | @given start p m ps qs hk hm _ _ ih =>
    obtain ⟨_, o2, o3, o4⟩ := hp p (by simp)
    obtain ⟨i1, i2⟩ := ih (fun a c hc => by unfold afterPosting; rw [hs a c hc, o3 m hm c hc]; simp)
      (fun p hq => hp p (by simp [hq]))
    refine ⟨?_, fun c => ?_⟩
    · intro q hq
      rcases List.mem_cons.mp hq with rfl | hq
      · exact ⟨hp q (by simp), by rw [hm]; rfl⟩
      · exact i1 q hq
    · rw [List.filterMap_cons_some hm, sumIn_cons, ← i2]
      unfold weightOf
      rw [List.filter_cons_of_pos (by simp [hk]), List.map_cons, sumIn_cons, weight_plain o2, hm]
      simp [sumIn]
  | @assigned start p m b ps qs hk hm _ hb he _ _ ih =>
    obtain ⟨_, o2, o3, o4⟩ := hp p (by simp)
    have hmz : ∀ c, c ≠ d → m.amountIn c = 0 := by
      intro c hc
      have := he c
      rw [hs _ c hc, o4 b hb c hc] at this
      simpa using this
    obtain ⟨i1, i2⟩ := ih (fun a c hc => by unfold afterPosting; rw [hs a c hc, hmz c hc]; simp)
      (fun p hq => hp p (by simp [hq]))
    refine ⟨?_, fun c => ?_⟩
    · intro q hq
      rcases List.mem_cons.mp hq with rfl | hq
      · exact ⟨⟨hk, o2, fun m' hm' => by cases hm'; exact hmz, o4⟩, rfl⟩
      · exact i1 q hq
    · rw [List.filterMap_cons_some (b := m) (by rfl), sumIn_cons, ← i2]
      unfold weightOf
      rw [List.filter_cons_of_pos (by simp [hk]), List.map_cons, sumIn_cons,
        weight_plain (p := { p with amount := some m }) o2]
      simp [sumIn]

/-- The amounts of a list with one amount for each commodity. -/
theorem sumIn_fill {f : Cur → Rat} {ms : List Money} (hn : (ms.map Money.commodity).Nodup)
    (hm : ∀ m, m ∈ ms ↔ ∃ c, m = .mk (f c) c ∧ f c ≠ 0) (c : Cur) : sumIn ms c = f c := by
  have hz : ∀ ms : List Money, (∀ m ∈ ms, ∃ c', m = .mk (f c') c' ∧ c' ≠ c) → sumIn ms c = 0 := by
    intro ms
    induction ms with
    | nil => intro _; rfl
    | cons m ms ih =>
      intro h
      obtain ⟨c', rfl, hc⟩ := h m (by simp)
      rw [sumIn_cons, ih (fun m hm => h m (by simp [hm]))]
      simp [Money.amountIn, Money.commodity, hc]
  by_cases hc : f c = 0
  · rw [hc]
    exact hz ms (fun m h => by
      obtain ⟨c', rfl, h'⟩ := (hm m).mp h
      exact ⟨c', rfl, fun e => h' (e ▸ hc)⟩)
  · have hin : Money.mk (f c) c ∈ ms := (hm _).mpr ⟨c, rfl, hc⟩
    obtain ⟨pre, post, rfl⟩ := List.append_of_mem hin
    rw [sumIn_append, sumIn_cons]
    rw [List.map_append, List.map_cons, List.nodup_append] at hn
    obtain ⟨_, hn2, hn3⟩ := hn
    rw [List.nodup_cons] at hn2
    rw [hz pre (fun m h => ?_), hz post (fun m h => ?_)]
    · simp [Money.amountIn, Money.commodity, Money.amount]
    · obtain ⟨c', rfl, h'⟩ := (hm m).mp (by simp [h])
      refine ⟨c', rfl, fun e => ?_⟩
      subst e
      exact hn2.1 (List.mem_map.mpr ⟨_, h, rfl⟩)
    · obtain ⟨c', rfl, h'⟩ := (hm m).mp (by simp [h])
      refine ⟨c', rfl, fun e => ?_⟩
      subst e
      exact hn3 _ (List.mem_map.mpr ⟨_, h, rfl⟩) _ (by simp) rfl

theorem enters_only {skip : Bool} {d : Cur} {start : Str → Cur → Rat} {t : Txn Posting} {es : List Posting}
    (h : Enters skip start t es) (hs : ∀ a c, c ≠ d → start a c = 0) (hp : ∀ p ∈ t.postings, p.Only d) :
    (∀ c, sumIn (es.filterMap Posting.amount) c = 0) ∧ ∀ a c, c ≠ d → postedTo es a c = 0 := by
  obtain ⟨qs, gen, h1, rfl, h3⟩ := h
  obtain ⟨p1, p2⟩ := posts_only h1 hs hp
  have hnone : t.postings.filter (fun p => p.kind ≠ .real) = [] := by
    rw [List.filter_eq_nil_iff]; intro q hq; simp [(hp q hq).1]
  have hq0 : ∀ c, c ≠ d → weightOf .real qs c = 0 := by
    intro c hc
    rw [p2]
    clear p2 h1 h3
    induction qs with
    | nil => rfl
    | cons q qs ih =>
      obtain ⟨o, hm⟩ := p1 q (by simp)
      obtain ⟨m, hm⟩ := Option.isSome_iff_exists.mp hm
      rw [List.filterMap_cons_some hm, sumIn_cons, o.2.2.1 m hm c hc, ih (fun q hq => p1 q (by simp [hq])), add_zero]
  have zero : ∀ (es : List Posting), (∀ q ∈ es, ∀ m, q.amount = some m → ∀ c, c ≠ d → m.amountIn c = 0) →
      ∀ a c, c ≠ d → postedTo es a c = 0 := by
    intro es
    induction es with
    | nil => intro _ a c _; rfl
    | cons q es ih =>
      intro he a c hc
      have := ih (fun q hq => he q (by simp [hq])) a c hc
      unfold postedTo at this ⊢
      rw [List.filter_cons]
      split
      · cases hm : q.amount with
        | none => rw [List.filterMap_cons_none hm]; exact this
        | some m => rw [List.filterMap_cons_some hm, sumIn_cons, this, he q (by simp) m hm c hc, add_zero]
      · exact this
  rw [hnone, List.append_nil]
  rcases h3 with ⟨_, hmay, rfl⟩ | ⟨p, _, hg, ms, hm1, hm2, hm3⟩
  · rw [List.append_nil]
    refine ⟨fun c => ?_, zero _ (fun q hq => (p1 q hq).1.2.2.1)⟩
    rw [← p2]
    by_cases hc : c = d
    · subst hc
      have : ∀ c', weightOf .real qs c' = if c = c' then weightOf .real qs c else 0 := by
        intro c'
        split
        · next e => rw [e]
        · next e => exact hq0 c' (fun x => e x.symm)
      exact (mayBalance_single this).mp hmay
    · exact hq0 c hc
  · have hgm : gen.filterMap Posting.amount = ms := by
      have : (gen.map Posting.amount).filterMap id = gen.filterMap Posting.amount := by rw [List.filterMap_map]; rfl
      rw [← this, hm1, List.filterMap_map]
      simp
    refine ⟨fun c => ?_, zero _ ?_⟩
    · rw [List.filterMap_append, sumIn_append, ← p2, hgm,
        sumIn_fill (f := fun c => -(weightOf .real qs c)) hm2 (fun m => by rw [hm3]; simp), add_neg_cancel]
    · intro q hq m hm c hc
      rcases List.mem_append.mp hq with hq | hq
      · exact (p1 q hq).1.2.2.1 m hm c hc
      · have : m ∈ ms := by rw [← hgm]; exact List.mem_filterMap.mpr ⟨q, hq, hm⟩
        obtain ⟨c', rfl, h'⟩ := (hm3 m).mp this
        have : c' = d := by by_contra hne; exact h' (hq0 c' hne)
        subst this
        simp [Money.amountIn, Money.commodity, Ne.symm hc]

theorem entersAll_only {skip : Bool} {d : Cur} {start : Str → Cur → Rat} {ts : List (Txn Posting)} {es : List Posting}
    (h : EntersAll skip start ts es) (hs : ∀ a c, c ≠ d → start a c = 0)
    (hp : ∀ t ∈ ts, ∀ p ∈ t.postings, p.Only d) (c : Cur) : sumIn (es.filterMap Posting.amount) c = 0 := by
  induction h with
  | nil => rfl
  | cons h _ ih =>
    obtain ⟨e1, e2⟩ := enters_only h hs (hp _ (by simp))
    rw [List.filterMap_append, sumIn_append, e1, ih (fun a c hc => by beta_reduce; rw [hs a c hc, e2 a c hc, add_zero])
      (fun t ht => hp t (by simp [ht])), add_zero]

/-- Written amounts are known. -/
theorem standsFor_full {env : Env} {pl : ParsedLedger} {ts : List (Txn Posting)} (hok : pl.Ok env.lower)
    (hs : pl.StandsFor env ts)
    (hf : ∀ t ∈ pl.regular, ∀ p ∈ t.postings, p.kind = .real → p.moneyAmount.isSome) :
    ∀ t ∈ ts, AllAmounts t.postings := by
  obtain ⟨l, listed, _, hd, hw⟩ := hs
  intro t ht q hq hk
  obtain ⟨raw, hraw, _, _, hw⟩ := Forall₂.mem_right hw ht
  obtain ⟨p, hp, w⟩ := Forall₂.mem_right hw hq
  have hraw := hd.perm.mem_iff.mp hraw
  have hs := hf raw hraw p hp (by rw [← w.kind]; exact hk)
  rcases w.amount with ⟨h1, _⟩ | ⟨_, _, _, _, _, _, h2⟩
  · rw [← (hok.postings raw hraw p hp).money, h1] at hs; cases hs
  · rw [h2]; rfl

end Dinero
