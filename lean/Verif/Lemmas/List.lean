import Verif.Spec.List
import Verif.Lemmas.HMap
/- Helper lemmas for C31-C34. -/
namespace Dinero
variable {T : Type} [Named T]

theorem get?_foldl_const {α : Type} (f : α → Str) (v : Str) (l : List α) (m : HMap Str Str) (k : Str) :
    (l.foldl (fun acc a => HMap.insert acc (f a) v) m).get? k
      = if k ∈ l.map f then some v else m.get? k := by
  induction l generalizing m with
  | nil => simp
  | cons a l ih =>
    rw [List.foldl_cons, ih, HMap.get?_insert]
    by_cases h : k ∈ l.map f
    · simp [h]
    · by_cases h' : f a = k
      · simp [h']
      · simp [h, h', Ne.symm h']

theorem HMap.get?_extend {K V : Type} [DecidableEq K] (m m' : HMap K V) (hn : m'.keys.Nodup) (k : K) :
    (m.extend m').get? k = match m'.get? k with
      | some v => some v
      | none => m.get? k := by
  unfold HMap.extend
  induction m' generalizing m with
  | nil => rfl
  | cons e m' ih =>
    obtain ⟨k0, v0⟩ := e
    simp only [HMap.keys_cons, List.nodup_cons] at hn
    rw [List.foldl_cons, ih _ hn.2, HMap.get?_cons, HMap.get?_insert]
    by_cases h : k0 = k
    · subst h
      rw [(HMap.get?_eq_none_iff m' k0).mpr hn.1]; simp
    · simp only [h, if_false]

theorem HMap.nodup_keys_extend {K V : Type} [DecidableEq K] (m m' : HMap K V) (h : m.keys.Nodup) :
    (m.extend m').keys.Nodup := HMap.nodup_keys_foldl_insert Prod.fst Prod.snd m' m h

/-- The invariant of reachable lists. -/
structure NList.Inv (lower : Str → Str) (l : NList T) : Prop where
  nodupL : l.list.keys.Nodup
  nodupA : l.aliases.keys.Nodup
  named : ∀ k e, l.list.get? k = some e → k = lower (Named.name e)
  aliasOk : ∀ a x, l.aliases.get? a = some x → (l.list.get? x).isSome
  memoOk : ∀ p x, l.memo.get? p = some (some x) → (l.list.get? x).isSome

theorem NList.Inv.reach {lower : Str → Str} {l : NList T} (h : l.Reachable lower) : l.Inv lower := by
  induction h with
  | new =>
    exact ⟨by simp [NList.new], by simp [NList.new], by simp [NList.new], by simp [NList.new],
      by simp [NList.new]⟩
  | @insert l e _ ih =>
    unfold NList.insert
    cases hg : l.list.get? (lower (Named.name e)) with
    | some x => exact ih
    | none =>
      have hmono : ∀ k, (l.list.get? k).isSome →
          ((HMap.insert l.list (lower (Named.name e)) e).get? k).isSome := by
        intro k hk; rw [HMap.get?_insert]; split <;> simp_all
      refine ⟨HMap.nodup_keys_insert _ _ _ ih.nodupL,
        HMap.nodup_keys_foldl_insert _ _ _ _ ih.nodupA, ?_, ?_, ?_⟩
      · intro k e' h
        simp only [HMap.get?_insert] at h
        split at h
        · next hk => cases h; exact hk.symm
        · exact ih.named k e' h
      · intro a x h
        simp only [get?_foldl_const] at h
        split at h
        · cases h; simp
        · exact hmono _ (ih.aliasOk a x h)
      · intro p x h
        exact hmono _ (ih.memoOk p x h)
  | @addAlias l l' a e x _ hget hname hadd ih =>
    unfold NList.addAlias at hadd
    cases hg : l.aliases.get? (lower a) with
    | some y => rw [hg] at hadd; simp at hadd
    | none =>
      rw [hg] at hadd
      simp only [Except.ok.injEq] at hadd
      subst hadd
      have hpres : (l.list.get? (lower (Named.name e))).isSome := by
        unfold NList.get at hget
        cases h1 : l.list.get? (lower (Named.name e)) with
        | some y => rfl
        | none =>
          rw [h1] at hget
          cases h2 : l.aliases.get? (lower (Named.name e)) with
          | none => rw [h2] at hget; simp at hget
          | some z =>
            rw [h2] at hget
            cases h3 : l.list.get? z with
            | none => simp [h3, unwrap] at hget
            | some w =>
              simp only [h3, unwrap, Except.ok.injEq] at hget
              subst hget
              have := ih.named z w h3
              rw [hname] at this
              rw [this, h1] at h3
              cases h3
      refine ⟨ih.nodupL, HMap.nodup_keys_insert _ _ _ ih.nodupA, ih.named, ?_, ih.memoOk⟩
      intro b y h
      simp only [HMap.get?_insert] at h
      split at h
      · cases h; exact hpres
      · exact ih.aliasOk b y h
  | @append l l' _ _ ih ih' =>
    have hmono : ∀ k, (l.list.get? k).isSome → ((l.list.extend l'.list).get? k).isSome := by
      intro k hk; rw [HMap.get?_extend _ _ ih'.nodupL]; split <;> simp_all
    refine ⟨HMap.nodup_keys_extend _ _ ih.nodupL, HMap.nodup_keys_extend _ _ ih.nodupA, ?_, ?_, ?_⟩
    · intro k e h
      simp only [NList.append, HMap.get?_extend _ _ ih'.nodupL] at h
      split at h
      · next v hv => cases h; exact ih'.named k _ hv
      · exact ih.named k e h
    · intro a x h
      simp only [NList.append, HMap.get?_extend _ _ ih'.nodupA] at h
      split at h
      · next v hv =>
        cases h
        simp only [NList.append, HMap.get?_extend _ _ ih'.nodupL]
        have := ih'.aliasOk a _ hv
        split
        · rfl
        · next hn => rw [hn] at this; simp at this
      · exact hmono _ (ih.aliasOk a x h)
    · intro p x h
      exact hmono _ (ih.memoOk p x h)
  | @getRegex l l' s s' pat f r _ hr ih =>
    unfold NList.getRegex at hr
    cases hm : l.memo.get? pat with
    | some o =>
      cases o with
      | none => rw [hm] at hr; simp only [Except.ok.injEq, Prod.mk.injEq] at hr; rw [← hr.2]; exact ih
      | some a =>
        rw [hm] at hr
        simp only at hr
        cases hg : l.get lower a with
        | error e => rw [hg] at hr; simp at hr
        | ok x =>
          rw [hg] at hr; simp only [Except.ok.injEq, Prod.mk.injEq] at hr; rw [← hr.2]; exact ih
    | none =>
      rw [hm] at hr
      simp only at hr
      have key : ∀ v : Option Str, (∀ x, v = some x → (l.list.get? x).isSome) →
          (NList.Inv lower { l with memo := HMap.insert l.memo pat v } : Prop) := by
        intro v hv
        refine ⟨ih.nodupL, ih.nodupA, ih.named, ih.aliasOk, ?_⟩
        intro p x h
        simp only [HMap.get?_insert] at h
        split at h
        · exact hv x (by simpa using h)
        · exact ih.memoOk p x h
      cases hf : (s.run l.list).find? (fun e => f (Named.name e.2)) with
      | some e =>
        rw [hf] at hr
        simp only [Except.ok.injEq, Prod.mk.injEq] at hr
        rw [← hr.2]
        apply key
        rintro x ⟨⟩
        have hmem := (s.perm l.list).mem_iff.mp (List.mem_of_find?_eq_some hf)
        rw [HMap.get?_isSome_iff]; exact HMap.mem_keys_of_mem hmem
      | none =>
        rw [hf] at hr
        simp only at hr
        cases hf' : (s'.run l.aliases).find? (fun e => f e.1) with
        | some e =>
          rw [hf'] at hr
          simp only [Except.ok.injEq, Prod.mk.injEq] at hr
          rw [← hr.2]
          apply key
          rintro x ⟨⟩
          have hmem := (s'.perm l.aliases).mem_iff.mp (List.mem_of_find?_eq_some hf')
          exact ih.aliasOk e.1 e.2 (HMap.get?_of_mem ih.nodupA hmem)
        | none =>
          rw [hf'] at hr
          simp only [Except.ok.injEq, Prod.mk.injEq] at hr
          rw [← hr.2]
          apply key
          rintro x ⟨⟩

theorem firstNamed_name {lower : Str → Str} {key : Str} {ops : List (ListOp T)} {e : T}
    (h : firstNamed lower key ops = some e) : lower (Named.name e) = lower key := by
  induction ops with
  | nil => cases h
  | cons op ops ih =>
    cases op with
    | ins x =>
      simp only [firstNamed] at h
      cases h1 : firstNamed lower key ops with
      | some y => rw [h1] at h ih; simp only [Option.some.injEq] at h; exact ih (by rw [h])
      | none =>
        rw [h1] at h; simp only at h
        split at h
        · cases h; assumption
        · cases h
    | bind a x => exact ih h

theorem firstNamed_congr {lower : Str → Str} {key key' : Str} (ops : List (ListOp T))
    (h : lower key = lower key') : firstNamed lower key ops = firstNamed lower key' ops := by
  induction ops with
  | nil => rfl
  | cons op ops ih =>
    cases op with
    | ins x => simp only [firstNamed, ih, h]
    | bind a x => exact ih

/-- The two maps after a history. -/
theorem runOps_spec {lower : Str → Str} (ops : List (ListOp T)) {l : NList T}
    (h : runOps lower ops = some l) (key : Str) :
    l.list.get? (lower key) = firstNamed lower key ops ∧
    l.aliases.get? (lower key) = (lastAlias lower key ops).map lower := by
  induction ops generalizing l key with
  | nil =>
    simp only [runOps, Option.some.injEq] at h; subst h
    exact ⟨rfl, rfl⟩
  | cons op ops ih =>
    simp only [runOps] at h
    cases h0 : runOps lower ops with
    | none => rw [h0] at h; cases h
    | some l0 =>
      rw [h0] at h
      cases op with
      | ins e =>
        simp only [Option.some.injEq] at h
        subst h
        have hk := ih h0 key
        have he := (ih h0 (Named.name e)).1
        unfold NList.insert
        cases hg : l0.list.get? (lower (Named.name e)) with
        | some x =>
          rw [hg] at he
          simp only [firstNamed, lastAlias, ← he, Option.isNone_some, Bool.false_eq_true, false_and,
            if_false]
          refine ⟨?_, hk.2⟩
          rw [hk.1]
          cases hf : firstNamed lower key ops with
          | some y => rfl
          | none =>
            simp only
            rw [if_neg]
            intro heq
            rw [firstNamed_congr ops heq, hf] at he
            cases he
        | none =>
          rw [hg] at he
          simp only [firstNamed, lastAlias, ← he, Option.isNone_none, true_and]
          rw [HMap.get?_insert, get?_foldl_const]
          refine ⟨?_, ?_⟩
          · by_cases heq : lower (Named.name e) = lower key
            · rw [if_pos heq]
              rw [firstNamed_congr ops heq] at he
              rw [← he]
              simp [heq]
            · rw [if_neg heq, hk.1]
              cases firstNamed lower key ops with
              | some y => rfl
              | none => simp [heq]
          · split
            · rfl
            · exact hk.2
      | bind a e =>
        simp only at h
        unfold NList.addAlias at h
        cases hg : l0.aliases.get? (lower a) with
        | some x => rw [hg] at h; cases h
        | none =>
          rw [hg] at h
          simp only [Option.some.injEq] at h
          subst h
          have hk := ih h0 key
          refine ⟨hk.1, ?_⟩
          simp only [lastAlias, HMap.get?_insert]
          split
          · rfl
          · exact hk.2

theorem lastAlias_present {lower : Str → Str} (ops : List (ListOp T))
    (h : AliasesForPresent lower ops) (key n : Str) (hl : lastAlias lower key ops = some n) :
    (firstNamed lower n ops).isSome := by
  induction ops with
  | nil => cases hl
  | cons op ops ih =>
    have mono : ∀ n, (firstNamed lower n ops).isSome → (firstNamed lower n (op :: ops)).isSome := by
      intro n hn
      cases op with
      | ins e =>
        simp only [firstNamed]
        cases hf : firstNamed lower n ops with
        | some x => rfl
        | none => rw [hf] at hn; cases hn
      | bind a e => exact hn
    cases op with
    | ins e =>
      simp only [lastAlias] at hl
      split at hl
      · next hc =>
        cases hl
        simp only [firstNamed]
        cases hf : firstNamed lower (Named.name e) ops with
        | some x => rfl
        | none => simp
      · exact mono n (ih h hl)
    | bind a e =>
      simp only [lastAlias] at hl
      split at hl
      · cases hl; exact mono _ h.1
      · exact mono n (ih h.2 hl)

/-- Histories whose aliases are for present elements give reachable lists. -/
theorem runOps_reachable {lower : Str → Str} (ops : List (ListOp T)) {l : NList T}
    (h : runOps lower ops = some l) (ha : AliasesForPresent lower ops) : l.Reachable lower := by
  induction ops generalizing l with
  | nil => simp only [runOps, Option.some.injEq] at h; subst h; exact .new
  | cons op ops ih =>
    simp only [runOps] at h
    cases h0 : runOps lower ops with
    | none => rw [h0] at h; cases h
    | some l0 =>
      rw [h0] at h
      cases op with
      | ins e =>
        simp only [Option.some.injEq] at h
        subst h
        exact .insert e (ih h0 ha)
      | bind a e =>
        simp only at h
        cases hadd : l0.addAlias lower a e with
        | error x => rw [hadd] at h; cases h
        | ok l1 =>
          rw [hadd] at h
          simp only [Option.some.injEq] at h
          subst h
          obtain ⟨x, hx⟩ := Option.isSome_iff_exists.mp ha.1
          refine .addAlias a e x (ih h0 ha.2) ?_ (firstNamed_name hx) hadd
          unfold NList.get
          rw [(runOps_spec ops h0 (Named.name e)).1, hx]

end Dinero
