import Verif.Spec.Seeds
import Verif.Props.Report
import Verif.Lemmas.Tree
import Verif.Lemmas.Answer
import Verif.Lemmas.Columns
import Verif.Lemmas.Colour
import Verif.Spec.Ledger
/-
Lemmas about the orders of hash tables in reports (C138).
-/
namespace Dinero

/-! ### Rows -/

/-- The same row, except for the order of its amounts. -/
def RowLike (x y : Str × Balance) : Prop := x.1 = y.1 ∧ x.2.Perm y.2

theorem isZero_perm {a b : Balance} (h : a.Perm b) : a.isZero = b.isZero := by
  unfold Balance.isZero
  rw [Bool.eq_iff_iff, List.all_eq_true, List.all_eq_true]
  exact ⟨fun k e he => k e (h.mem_iff.mpr he), fun k e he => k e (h.mem_iff.mp he)⟩

/-- Two account maps with the same accounts and the same sums. -/
structure Twin (bals bals' : Balances) : Prop where
  nodup : bals.keys.Nodup
  nodup' : bals'.keys.Nodup
  canon : ∀ e ∈ bals, e.2.Canon
  canon' : ∀ e ∈ bals', e.2.Canon
  keys : ∀ a, a ∈ bals.keys ↔ a ∈ bals'.keys
  sum : ∀ P c, balSum bals P c = balSum bals' P c

theorem Twin.symm {a b : Balances} (h : Twin a b) : Twin b a :=
  ⟨h.nodup', h.nodup, h.canon', h.canon, fun x => (h.keys x).symm, fun P c => (h.sum P c).symm⟩

theorem Collected.twin {bals bals' : Balances} {sel sel' : List (Txn Posting × Posting)} (h : Collected bals sel)
    (h' : Collected bals' sel') (hp : sel.Perm sel') : Twin bals bals' := by
  refine ⟨h.nodup, h'.nodup, h.canon, h'.canon, fun a => ?_, fun P c => ?_⟩
  · rw [h.mem, h'.mem]
    exact ⟨fun ⟨x, k, e⟩ => ⟨x, hp.mem_iff.mp k, e⟩, fun ⟨x, k, e⟩ => ⟨x, hp.mem_iff.mpr k, e⟩⟩
  · rw [h.sum, h'.sum, selSum_eq_map, selSum_eq_map]
    exact ((hp.filter _).map _).sum_eq

theorem Twin.run {a b : Balances} (h : Twin a b) (s s' : Shuf) : Twin (s.run a) (s'.run b) := by
  have p := s.perm a
  have p' := s'.perm b
  refine ⟨(p.map Prod.fst).nodup_iff.mpr h.nodup, (p'.map Prod.fst).nodup_iff.mpr h.nodup',
    fun e he => h.canon e (p.mem_iff.mp he), fun e he => h.canon' e (p'.mem_iff.mp he), fun x => ?_, fun P c => ?_⟩
  · have e1 : x ∈ HMap.keys (s.run a) ↔ x ∈ a.keys := (p.map Prod.fst).mem_iff
    have e2 : x ∈ HMap.keys (s'.run b) ↔ x ∈ b.keys := (p'.map Prod.fst).mem_iff
    rw [e1, e2, h.keys]
  · rw [balSum_perm p, balSum_perm p', h.sum]

/-- The balances of an account are the same. -/
theorem Twin.row {a b : Balances} (h : Twin a b) {x : Str} {u : Balance} (hu : (x, u) ∈ a) : ∃ v, (x, v) ∈ b ∧ u.Perm v := by
  have hk : x ∈ b.keys := (h.keys x).mp (HMap.mem_keys_of_mem hu)
  obtain ⟨⟨x', v⟩, hv, rfl⟩ := List.mem_map.mp hk
  refine ⟨v, hv, Balance.Canon.perm_of_amountOf (h.canon _ hu) (h.canon' _ hv) (fun c => ?_)⟩
  rw [← balSum_eq_single h.nodup hu, h.sum, balSum_eq_single h.nodup' hv]

/-- Rows with distinct names, the same ones in both lists. -/
structure RowsLike (rows rows' : List (Str × Balance)) : Prop where
  nodup : (rows.map Prod.fst).Nodup
  nodup' : (rows'.map Prod.fst).Nodup
  canon : ∀ e ∈ rows, e.2.Canon
  onto : ∀ x u, (x, u) ∈ rows → ∃ v, (x, v) ∈ rows' ∧ u.Perm v
  back : ∀ x v, (x, v) ∈ rows' → ∃ u, (x, u) ∈ rows ∧ v.Perm u

theorem RowsLike.filter {r r' : List (Str × Balance)} (h : RowsLike r r') :
    RowsLike (r.filter (fun e => !e.2.isZero)) (r'.filter (fun e => !e.2.isZero)) := by
  refine ⟨h.nodup.sublist (List.filter_sublist.map _), h.nodup'.sublist (List.filter_sublist.map _),
    fun e he => h.canon e (List.mem_of_mem_filter he), ?_, ?_⟩
  · intro x u hu
    obtain ⟨h1, h2⟩ := List.mem_filter.mp hu
    obtain ⟨v, h3, h4⟩ := h.onto x u h1
    exact ⟨v, List.mem_filter.mpr ⟨h3, by rw [← isZero_perm h4]; exact h2⟩, h4⟩
  · intro x u hu
    obtain ⟨h1, h2⟩ := List.mem_filter.mp hu
    obtain ⟨v, h3, h4⟩ := h.back x u h1
    exact ⟨v, List.mem_filter.mpr ⟨h3, by rw [← isZero_perm h4]; exact h2⟩, h4⟩

theorem Twin.rows {a b : Balances} (h : Twin a b) : RowsLike a b :=
  ⟨h.nodup, h.nodup', h.canon, fun _ _ k => h.row k, fun _ _ k => h.symm.row k⟩

theorem forall2_of_names {f : Str → Str → Prop} : ∀ {l l' : List (Str × Balance)}, l.map Prod.fst = l'.map Prod.fst →
    (∀ x u v, (x, u) ∈ l → (x, v) ∈ l' → u.Perm v) → List.Forall₂ RowLike l l'
  | [], [], _, _ => .nil
  | [], _ :: _, h, _ => by cases h
  | _ :: _, [], h, _ => by cases h
  | (x, u) :: l, (y, v) :: l', h, k => by
    obtain ⟨h1, h2⟩ := List.cons.inj h
    have h1 : x = y := h1
    subst h1
    exact .cons ⟨rfl, k x u v (by simp) (by simp)⟩
      (forall2_of_names (f := f) h2 (fun z s t hs ht => k z s t (List.mem_cons_of_mem _ hs) (List.mem_cons_of_mem _ ht)))

theorem strict_nodup {l : List Str} (h : l.Pairwise (· < ·)) : l.Nodup :=
  h.imp (fun {a b} k (e : a = b) => List.lt_irrefl b (by rw [e] at k; exact k))

theorem strict_eq {l l' : List Str} (h : l.Pairwise (· < ·)) (h' : l'.Pairwise (· < ·)) (hm : ∀ x, x ∈ l ↔ x ∈ l') : l = l' := by
  have n := strict_nodup h
  have n' := strict_nodup h'
  refine List.Perm.eq_of_pairwise (le := (· < ·)) ?_ h h' ((List.perm_ext_iff_of_nodup n n').mpr hm)
  intro a b _ _ h1 h2
  exact absurd (List.lt_trans h1 h2) (List.lt_irrefl _)

theorem RowsLike.sorted {r r' : List (Str × Balance)} (h : RowsLike r r') :
    List.Forall₂ RowLike (sortBy (fun a b => strLe a.1 b.1) r) (sortBy (fun a b => strLe a.1 b.1) r') := by
  have p := sortBy_perm (fun a b : Str × Balance => strLe a.1 b.1) r
  have p' := sortBy_perm (fun a b : Str × Balance => strLe a.1 b.1) r'
  refine forall2_of_names (f := fun _ _ => True) (strict_eq (sorted_strict h.nodup) (sorted_strict h.nodup') (fun x => ?_)) ?_
  · rw [(p.map Prod.fst).mem_iff, (p'.map Prod.fst).mem_iff]
    constructor
    · intro hx
      obtain ⟨⟨y, u⟩, hu, rfl⟩ := List.mem_map.mp hx
      obtain ⟨v, hv, _⟩ := h.onto y u hu
      exact List.mem_map.mpr ⟨(y, v), hv, rfl⟩
    · intro hx
      obtain ⟨⟨y, u⟩, hu, rfl⟩ := List.mem_map.mp hx
      obtain ⟨v, hv, _⟩ := h.back y u hu
      exact List.mem_map.mpr ⟨(y, v), hv, rfl⟩
  · intro x u v hu hv
    have hu := p.mem_iff.mp hu
    have hv := p'.mem_iff.mp hv
    obtain ⟨v', hv', k⟩ := h.onto x u hu
    have g1 := HMap.get?_of_mem (m := r') h.nodup' hv
    have g2 := HMap.get?_of_mem (m := r') h.nodup' hv'
    rw [g1] at g2
    cases g2
    exact k

/-! ### Printing -/

theorem noSibling_like {a : Str} {n : Nat} : ∀ {r r' : List (Str × Balance)}, List.Forall₂ RowLike r r' →
    noSibling a n r = noSibling a n r'
  | _, _, .nil => rfl
  | (x, u) :: r, (y, v) :: r', .cons h hs => by
    have e : x = y := h.1
    subst e
    unfold noSibling
    rw [noSibling_like hs]

theorem collapseLoop_like {a : Str} : ∀ {r r' : List (Str × Balance)} (n : Nat) (text : Str), List.Forall₂ RowLike r r' →
    (collapseLoop a r n text).1 = (collapseLoop a r' n text).1 ∧
      List.Forall₂ RowLike (collapseLoop a r n text).2 (collapseLoop a r' n text).2
  | _, _, _, _, .nil => ⟨rfl, .nil⟩
  | (x, u) :: r, (y, v) :: r', n, text, .cons h hs => by
    have e : x = y := h.1
    subst e
    unfold collapseLoop
    rw [noSibling_like hs]
    split
    · exact ⟨rfl, .cons h hs⟩
    · split
      · exact collapseLoop_like _ _ hs
      · exact ⟨rfl, .cons h hs⟩

theorem printLoop_like {flat : Bool} {depth : Option Nat} (s s' : Str → Shuf) : ∀ (k : Nat) {r r' : List (Str × Balance)},
    List.Forall₂ RowLike r r' → List.Forall₂ BalLine.Like (printLoop flat depth s k r) (printLoop flat depth s' k r') := by
  intro k
  induction k with
  | zero => intro r r' h; cases h <;> exact .nil
  | succ k ih =>
    intro r r' h
    cases h with
    | nil => exact .nil
    | @cons e e' r r' h hs =>
      obtain ⟨x, u⟩ := e
      obtain ⟨y, v⟩ := e'
      have e : x = y := h.1
      subst e
      have hp : u.Perm v := h.2
      have hm : (((s x).run u).map Prod.snd).Perm (((s' x).run v).map Prod.snd) :=
        (((s x).perm u).trans (hp.trans ((s' x).perm v).symm)).map _
      unfold printLoop
      rw [isZero_perm hp]
      split
      · exact ih hs
      · split
        · exact ih hs
        · split
          · exact .cons ⟨rfl, rfl, hm⟩ (ih hs)
          · obtain ⟨c1, c2⟩ := collapseLoop_like (a := x) (parts x) (lastPart x) hs
            exact .cons ⟨c1, rfl, hm⟩ (ih c2)

/-! ### Totals -/

theorem grandTotal_like {a b : Balances} (h : Twin a b) (s s' : Shuf) :
    (grandTotal s a).Canon ∧ (grandTotal s a).Perm (grandTotal s' b) := by
  have t := h.run s s'
  have w : ∀ e ∈ s.run a, e.2.WF := fun e he => (t.canon e he).toWF
  have w' : ∀ e ∈ s'.run b, e.2.WF := fun e he => (t.canon' e he).toWF
  refine ⟨canon_foldl _ _ Balance.Canon.nil w, Balance.Canon.perm_of_amountOf (canon_foldl _ _ Balance.Canon.nil w) (canon_foldl _ _ Balance.Canon.nil w') (fun c => ?_)⟩
  unfold grandTotal
  rw [(balSum_foldl _ Balance.new Balance.WF.nil w).2, (balSum_foldl _ Balance.new Balance.WF.nil w').2, t.sum]

theorem contrib_congr {ms ms' : HMap Cur Rat} (h : ∀ c, ms.get? c = ms'.get? c) (target d : Cur) :
    contrib ms target d = contrib ms' target d := by
  funext e
  unfold contrib
  cases e.1 with
  | none => rfl
  | some c => simp only [h]

theorem convert_like {b b' : Balance} (hb : b.Canon) (hp : b.Perm b') {ms ms' : HMap Cur Rat} (hm : ∀ c, ms.get? c = ms'.get? c)
    (target : Cur) (s s' : Shuf) :
    ∃ u v, convertBalance s b ms target = .ok u ∧ convertBalance s' b' ms' target = .ok v ∧ u.Canon ∧ u.Perm v := by
  have key : ∀ (s : Shuf) (x : Balance), x.Canon → ∀ ms : HMap Cur Rat, ∃ u, convertBalance s x ms target = .ok u ∧ u.Canon ∧
      ∀ d, u.amountOf d = (x.map (contrib ms target d)).sum := by
    intro s x hx ms
    have p := s.perm x
    have hx' := hx.perm p.symm
    have hn : ∀ e ∈ s.run x, e.1 ≠ none := by
      rintro ⟨k, m⟩ he h0
      simp only at h0
      subst h0
      obtain ⟨c, hc, _⟩ := (hx'.mem_iff none m).mp he
      cases hc
    obtain ⟨u, h1, _, h3⟩ := convertLoop_spec ms target (s.run x) hn (fun e he => hx'.toWF.key e he) Balance.new Balance.WF.nil
    refine ⟨u, h1, convertLoop_canon _ Balance.Canon.nil h1, fun d => ?_⟩
    rw [h3, (p.map _).sum_eq, Balance.amountOf_new, zero_add]
  obtain ⟨u, u1, u2, u3⟩ := key s b hb ms
  obtain ⟨v, v1, v2, v3⟩ := key s' b' (hb.perm hp) ms'
  refine ⟨u, v, u1, v1, u2, Balance.Canon.perm_of_amountOf u2 v2 (fun d => ?_)⟩
  rw [u3, v3, contrib_congr hm, (hp.map _).sum_eq]

theorem mem_convertRows {s : Str → Shuf} {ms : HMap Cur Rat} {target : Cur} : ∀ {r r' : List (Str × Balance)},
    convertRows s ms target r = .ok r' → r'.map Prod.fst = r.map Prod.fst ∧
      ∀ x v, (x, v) ∈ r' ↔ ∃ u, (x, u) ∈ r ∧ convertBalance (s x) u ms target = .ok v
  | [], r', h => by cases h; simp
  | (y, w) :: r, r', h => by
    unfold convertRows at h
    cases hc : convertBalance (s y) w ms target with
    | error e => rw [hc] at h; cases h
    | ok w' =>
      rw [hc] at h
      cases hr : convertRows s ms target r with
      | error e => rw [hr] at h; cases h
      | ok q =>
        rw [hr] at h
        cases h
        obtain ⟨i1, i2⟩ := mem_convertRows hr
        refine ⟨by simp [i1], fun x v => ?_⟩
        rw [List.mem_cons, i2]
        constructor
        · rintro (e | ⟨u, hu, k⟩)
          · cases e; exact ⟨w, by simp, hc⟩
          · exact ⟨u, List.mem_cons_of_mem _ hu, k⟩
        · rintro ⟨u, hu, k⟩
          rcases List.mem_cons.mp hu with e | hu
          · cases e
            rw [hc] at k
            cases k
            exact .inl rfl
          · exact .inr ⟨u, hu, k⟩

theorem convertRows_like {r r' : List (Str × Balance)} (h : RowsLike r r') {ms ms' : HMap Cur Rat}
    (hm : ∀ c, ms.get? c = ms'.get? c) (target : Cur) (s s' : Str → Shuf) :
    ∃ q q', convertRows s ms target r = .ok q ∧ convertRows s' ms' target r' = .ok q' ∧ RowsLike q q' := by
  have hc' : ∀ e ∈ r', e.2.Canon := by
    rintro ⟨x, v⟩ he
    obtain ⟨u, hu, k⟩ := h.back x v he
    exact (h.canon _ hu).perm k.symm
  obtain ⟨q, hq⟩ := convertRows_ok (s := s) (ms := ms) (target := target) r h.canon
  obtain ⟨q', hq'⟩ := convertRows_ok (s := s') (ms := ms') (target := target) r' hc'
  obtain ⟨n, m⟩ := mem_convertRows hq
  obtain ⟨n', m'⟩ := mem_convertRows hq'
  refine ⟨q, q', hq, hq', n ▸ h.nodup, n' ▸ h.nodup', ?_, ?_, ?_⟩
  · rintro ⟨x, v⟩ he
    obtain ⟨u, hu, k⟩ := (m x v).mp he
    obtain ⟨u', _, k1, _, k3, _⟩ := convert_like (h.canon _ hu) (List.Perm.refl u) (fun _ => rfl) (ms := ms) target (s x) (s x)
    rw [k] at k1; cases k1
    exact k3
  · intro x v hv
    obtain ⟨u, hu, k⟩ := (m x v).mp hv
    obtain ⟨w, hw, hp⟩ := h.onto x u hu
    obtain ⟨u', v', k1, k2, _, k4⟩ := convert_like (h.canon _ hu) hp hm target (s x) (s' x)
    rw [k] at k1; cases k1
    exact ⟨v', (m' x v').mpr ⟨w, hw, k2⟩, k4⟩
  · intro x v hv
    obtain ⟨u, hu, k⟩ := (m' x v).mp hv
    obtain ⟨w, hw, hp⟩ := h.back x u hu
    obtain ⟨u', v', k1, k2, _, k4⟩ := convert_like (hc' _ hu) hp (fun c => (hm c).symm) target (s' x) (s x)
    rw [k] at k1; cases k1
    exact ⟨v', (m x v').mpr ⟨w, hw, k2⟩, k4⟩

theorem table_length {ms ms' : HMap Cur Rat} (hm : ∀ c, ms.get? c = ms'.get? c) : ms.length > 0 ↔ ms'.length > 0 := by
  have key : ∀ {ms ms' : HMap Cur Rat}, (∀ c, ms.get? c = ms'.get? c) → ms.length > 0 → ms'.length > 0 := by
    intro ms ms' hm h
    cases ms with
    | nil => simp at h
    | cons e ms =>
      cases ms' with
      | nil =>
        have := hm e.1
        simp [HMap.get?] at this
      | cons e' ms' => simp
  exact ⟨key hm, key (fun c => (hm c).symm)⟩

/-- The same commodity and the same rates, or none. -/
def TableLike : Option (Cur × HMap Cur Rat) → Option (Cur × HMap Cur Rat) → Prop
  | none, none => True
  | some (t, ms), some (t', ms') => t = t' ∧ ∀ c, ms.get? c = ms'.get? c
  | _, _ => False

theorem finish_like {o o' : BalOrders} {flat total : Bool} {depth : Option Nat} {a b : Balances} (h : Twin a b)
    {r r' : List (Str × Balance)} (hr : RowsLike r r') {table table' : Option (Cur × HMap Cur Rat)} (ht : TableLike table table') :
    Res.Alike BalReport.Like (finishBalance o flat total depth a table r) (finishBalance o' flat total depth b table' r') := by
  have hs := hr.sorted
  have hl := printLoop_like (flat := flat) (depth := depth) o.shown o'.shown
    (sortBy (fun a b : Str × Balance => strLe a.1 b.1) r).length hs
  have hlen := hs.length_eq
  obtain ⟨g0, g⟩ := grandTotal_like h o.total o'.total
  have fin : ∀ {u v : Balance}, u.Perm v → BalReport.Like
      ⟨printLoop flat depth o.shown (sortBy (fun a b : Str × Balance => strLe a.1 b.1) r).length
        (sortBy (fun a b : Str × Balance => strLe a.1 b.1) r),
        some (if u.isZero then [] else (o.shownTotal.run u).map Prod.snd)⟩
      ⟨printLoop flat depth o'.shown (sortBy (fun a b : Str × Balance => strLe a.1 b.1) r).length
        (sortBy (fun a b : Str × Balance => strLe a.1 b.1) r'),
        some (if v.isZero then [] else (o'.shownTotal.run v).map Prod.snd)⟩ := by
    intro u v g
    refine ⟨hl, ?_⟩
    simp only [isZero_perm g]
    refine Option.Rel.some ?_
    split
    · exact .nil
    · exact ((o.shownTotal.perm _).trans (g.trans (o'.shownTotal.perm _).symm)).map _
  unfold finishBalance
  simp only
  rw [← hlen, ← hl.length_eq]
  split
  · match table, table', ht with
    | none, none, _ => exact fin g
    | some (t, ms), some (t', ms'), ⟨e, hm⟩ =>
      subst e
      simp only
      by_cases hz : ms.length > 0
      · rw [if_pos hz, if_pos ((table_length hm).mp hz)]
        obtain ⟨u, v, u1, v1, _, uv⟩ := convert_like g0 g hm t o.convTotal o'.convTotal
        rw [u1, v1]
        exact fin uv
      · rw [if_neg hz, if_neg (fun k => hz ((table_length hm).mpr k))]
        exact fin g
  · exact ⟨hl, .none⟩

/-! ### Flat rows -/

theorem mergeLoop_error : ∀ {l : List (Str × Balance)} {a : Str} {acc : List (Str × Balance)} {e : Fail},
    mergeLoop l a acc = .error e → e = .panic "vec_balances[n - 1]"
  | [], _, _, _, h => by cases h
  | (x, u) :: l, a, acc, e, h => by
    unfold mergeLoop at h
    split at h
    · exact mergeLoop_error h
    · split at h
      · cases h; rfl
      · exact mergeLoop_error h

theorem mergeLoop_names : ∀ {l : List (Str × Balance)} {a : Str} {acc r : List (Str × Balance)},
    (∀ x, x ∈ acc.head?.map Prod.fst → x = a) → mergeLoop l a acc = .ok r →
    ∀ x, x ∈ r.map Prod.fst ↔ x ∈ acc.map Prod.fst ∨ x ∈ l.map Prod.fst
  | [], a, acc, r, _, h, x => by
    cases h
    simp
  | (y, u) :: l, a, acc, r, ha, h, x => by
    unfold mergeLoop at h
    split at h
    · rw [mergeLoop_names (by simp) h x]
      simp only [List.map_cons, List.mem_cons]
      tauto
    · split at h
      · cases h
      · rename_i hne _ z b acc'
        have e : y = a := by simpa using hne
        have e' : z = a := ha z (by simp)
        subst e
        subst e'
        rw [mergeLoop_names (by simp) h x]
        simp only [List.map_cons, List.mem_cons]
        tauto

theorem rowsLike_of_sums {r r' : List (Str × Balance)} (h : (r.map Prod.fst).Pairwise (· < ·))
    (h' : (r'.map Prod.fst).Pairwise (· < ·)) (hc : ∀ e ∈ r, e.2.Canon) (hc' : ∀ e ∈ r', e.2.Canon)
    (hk : ∀ x, x ∈ r.map Prod.fst ↔ x ∈ r'.map Prod.fst) (hs : ∀ P c, balSum r P c = balSum r' P c) : RowsLike r r' :=
  Twin.rows ⟨strict_nodup h, strict_nodup h', hc, hc', hk, hs⟩

theorem mergeLoop_like {l l' : List (Str × Balance)} (h : l.Pairwise (fun x y => strLe x.1 y.1 = true))
    (h' : l'.Pairwise (fun x y => strLe x.1 y.1 = true)) (hc : ∀ e ∈ l, e.2.Canon) (hc' : ∀ e ∈ l', e.2.Canon)
    (hk : ∀ x, x ∈ l.map Prod.fst ↔ x ∈ l'.map Prod.fst) (hs : ∀ P c, balSum l P c = balSum l' P c) :
    Res.Alike RowsLike (mergeLoop l [] []) (mergeLoop l' [] []) := by
  have hm : (∃ e ∈ l, e.1 = []) ↔ ∃ e ∈ l', e.1 = [] := by
    have := hk []
    simp only [List.mem_map] at this
    exact this
  rcases mergeLoop_start l h hc with ⟨k1, k2⟩ | ⟨k1, r, k2, k3, k4, k5⟩
  · rcases mergeLoop_start l' h' hc' with ⟨m1, m2⟩ | ⟨m1, _⟩
    · cases hx : mergeLoop l [] [] with
      | ok r => rw [hx] at k2; cases k2
      | error e =>
        cases hy : mergeLoop l' [] [] with
        | ok r => rw [hy] at m2; cases m2
        | error e' => exact (mergeLoop_error hx).trans (mergeLoop_error hy).symm
    · obtain ⟨e, he, hz⟩ := hm.mp k1
      exact absurd hz (m1 e he)
  · rcases mergeLoop_start l' h' hc' with ⟨m1, _⟩ | ⟨m1, r', m2, m3, m4, m5⟩
    · obtain ⟨e, he, hz⟩ := hm.mpr m1
      exact absurd hz (k1 e he)
    · rw [k2, m2]
      refine rowsLike_of_sums k3 m3 k4 m4 (fun x => ?_) (fun P c => by rw [k5, m5, hs])
      rw [mergeLoop_names (by simp) k2, mergeLoop_names (by simp) m2]
      simp [hk x]

theorem flatRows_like {o o' : BalOrders} {depth : Option Nat} {a b : Balances} (h : Twin a b) :
    Res.Alike RowsLike (flatRows o depth a) (flatRows o' depth b) := by
  unfold flatRows
  cases depth with
  | none => exact (h.run o.own o'.own).rows.filter
  | some d =>
    have t := h.run o.group o'.group
    have rl := t.rows.filter
    simp only
    generalize hA : (o.group.run a).filter (fun e => !e.2.isZero) = A at *
    generalize hB : (o'.group.run b).filter (fun e => !e.2.isZero) = B at *
    have cA : ∀ e ∈ A, e.2.Canon := fun e he => t.canon e (List.mem_of_mem_filter (hA ▸ he))
    have cB : ∀ e ∈ B, e.2.Canon := fun e he => t.canon' e (List.mem_of_mem_filter (hB ▸ he))
    have pA := sortBy_perm (fun a b : Str × Balance => strLe a.1 b.1) (A.map (fun e => (joinColon ((splitColon e.1).take d), e.2)))
    have pB := sortBy_perm (fun a b : Str × Balance => strLe a.1 b.1) (B.map (fun e => (joinColon ((splitColon e.1).take d), e.2)))
    refine mergeLoop_like (sortBy_sorted nameLe_total _) (sortBy_sorted nameLe_total _) ?_ ?_ ?_ ?_
    · intro e he
      obtain ⟨e', he', rfl⟩ := List.mem_map.mp (pA.mem_iff.mp he)
      exact cA e' he'
    · intro e he
      obtain ⟨e', he', rfl⟩ := List.mem_map.mp (pB.mem_iff.mp he)
      exact cB e' he'
    · intro x
      rw [(pA.map Prod.fst).mem_iff, (pB.map Prod.fst).mem_iff]
      simp only [List.map_map, List.mem_map, Function.comp]
      constructor
      · rintro ⟨⟨y, u⟩, hy, e⟩
        obtain ⟨v, hv, _⟩ := rl.onto y u hy
        exact ⟨(y, v), hv, e⟩
      · rintro ⟨⟨y, u⟩, hy, e⟩
        obtain ⟨v, hv, _⟩ := rl.back y u hy
        exact ⟨(y, v), hv, e⟩
    · intro P c
      rw [balSum_perm pA, balSum_perm pB, balSum_map (fun x => joinColon ((splitColon x).take d)),
        balSum_map (fun x => joinColon ((splitColon x).take d)), ← hA, ← hB,
        balSum_nonzero _ (fun e he => (t.canon e he).toWF), balSum_nonzero _ (fun e he => (t.canon' e he).toWF), t.sum]

/-! ### The rows of the tree -/

theorem prefixLoop_acc : ∀ (L : List Str) (p : Str) (acc : List Str) (x : Str),
    x ∈ prefixLoop L p acc ↔ x ∈ acc ∨ x ∈ prefixLoop L p []
  | [], p, acc, x => by simp [prefixLoop]
  | q :: L, p, acc, x => by
    unfold prefixLoop
    simp only
    rw [prefixLoop_acc L, prefixLoop_acc L _ (setInsert [] _), mem_setInsert, mem_setInsert]
    simp only [List.not_mem_nil, or_false]
    tauto

theorem mem_treeAccounts_any (l : List (Str × Balance)) (x : Str) :
    x ∈ treeAccounts l ↔ ∃ a ∈ l.map Prod.fst, x ∈ prefixLoop (splitColon a) [] [] := by
  have key : ∀ (l : List (Str × Balance)) (acc : List Str),
      x ∈ l.foldl (fun acc e => prefixLoop (splitColon e.1) [] acc) acc ↔
        x ∈ acc ∨ ∃ a ∈ l.map Prod.fst, x ∈ prefixLoop (splitColon a) [] [] := by
    intro l
    induction l with
    | nil => intro acc; simp
    | cons e l ih =>
      intro acc
      rw [List.foldl_cons, ih, prefixLoop_acc]
      simp only [List.map_cons, List.mem_cons, exists_eq_or_imp]
      tauto
  unfold treeAccounts
  rw [key]
  simp

theorem treeRows_like {o o' : BalOrders} {a b : Balances} (h : Twin a b) : RowsLike (treeRows o a) (treeRows o' b) := by
  have t := h.run o.own o'.own
  unfold treeRows
  simp only
  generalize o.own.run a = A at *
  generalize o'.own.run b = B at *
  rw [ownBalances_eq t.nodup, ownBalances_eq t.nodup']
  have pa := (sortBy_perm (fun a b => decide (colons a ≤ colons b)) (o.accounts.run (treeAccounts A))).trans (o.accounts.perm _)
  have pb := (sortBy_perm (fun a b => decide (colons a ≤ colons b)) (o'.accounts.run (treeAccounts B))).trans (o'.accounts.perm _)
  have ra := Rolled.foldl (m0 := A) t.nodup o.roll (sortBy (fun a b => decide (colons a ≤ colons b)) (o.accounts.run (treeAccounts A)))
    (m := A) (done := []) ⟨t.nodup, t.canon, fun _ _ => rfl, by intro a ha; cases ha⟩
    (by simpa using pa.nodup_iff.mpr (treeAccounts_nodup _))
    (by simpa using sortBy_sorted colonsLe_total (o.accounts.run (treeAccounts A)))
  have rb := Rolled.foldl (m0 := B) t.nodup' o'.roll (sortBy (fun a b => decide (colons a ≤ colons b)) (o'.accounts.run (treeAccounts B)))
    (m := B) (done := []) ⟨t.nodup', t.canon', fun _ _ => rfl, by intro a ha; cases ha⟩
    (by simpa using pb.nodup_iff.mpr (treeAccounts_nodup _))
    (by simpa using sortBy_sorted colonsLe_total (o'.accounts.run (treeAccounts B)))
  rw [List.nil_append] at ra rb
  have hmem : ∀ x, x ∈ sortBy (fun a b => decide (colons a ≤ colons b)) (o.accounts.run (treeAccounts A)) ↔
      x ∈ sortBy (fun a b => decide (colons a ≤ colons b)) (o'.accounts.run (treeAccounts B)) := by
    intro x
    rw [pa.mem_iff, pb.mem_iff, mem_treeAccounts_any, mem_treeAccounts_any]
    exact ⟨fun ⟨y, hy, k⟩ => ⟨y, (t.keys y).mp hy, k⟩, fun ⟨y, hy, k⟩ => ⟨y, (t.keys y).mpr hy, k⟩⟩
  generalize sortBy (fun a b => decide (colons a ≤ colons b)) (o.accounts.run (treeAccounts A)) = sa at *
  generalize sortBy (fun a b => decide (colons a ≤ colons b)) (o'.accounts.run (treeAccounts B)) = sb at *
  generalize sa.foldl (rollStep o.roll) A = na at *
  generalize sb.foldl (rollStep o'.roll) B = nb at *
  have step : ∀ {A B na nb : Balances} {sa sb : List Str}, Twin A B → Rolled A na sa → Rolled B nb sb →
      (∀ x, x ∈ sa ↔ x ∈ sb) → ∀ x u, (x, u) ∈ na → ∃ v, (x, v) ∈ nb ∧ u.Perm v := by
    intro A B na nb sa sb t ra rb hmem x u hu
    have g := HMap.get?_of_mem ra.nodup hu
    by_cases hx : x ∈ sa
    · obtain ⟨u', e1, e2⟩ := ra.sums x hx
      rw [g] at e1; cases e1
      obtain ⟨v, e3, e4⟩ := rb.sums x ((hmem x).mp hx)
      have hv := HMap.mem_of_get? e3
      exact ⟨v, hv, Balance.Canon.perm_of_amountOf (ra.canon _ hu) (rb.canon _ hv) (fun c => by rw [e2, e4, t.sum])⟩
    · have g' := ra.rest x hx
      rw [g] at g'
      obtain ⟨v, hv, hp⟩ := t.row (HMap.mem_of_get? g'.symm)
      refine ⟨v, HMap.mem_of_get? ?_, hp⟩
      rw [rb.rest x (fun k => hx ((hmem x).mpr k)), HMap.get?_of_mem t.nodup' hv]
  have base : RowsLike (o.rows.run na) (o'.rows.run nb) := by
    have q := o.rows.perm na
    have q' := o'.rows.perm nb
    refine ⟨(q.map Prod.fst).nodup_iff.mpr ra.nodup, (q'.map Prod.fst).nodup_iff.mpr rb.nodup,
      fun e he => ra.canon e (q.mem_iff.mp he), ?_, ?_⟩
    · intro x u hu
      obtain ⟨v, k1, k2⟩ := step t ra rb hmem x u (q.mem_iff.mp hu)
      exact ⟨v, q'.mem_iff.mpr k1, k2⟩
    · intro x u hu
      obtain ⟨v, k1, k2⟩ := step t.symm rb ra (fun x => (hmem x).symm) x u (q'.mem_iff.mp hu)
      exact ⟨v, q.mem_iff.mpr k1, k2⟩
  exact base.filter

/-! ### The register -/

/-- The same state, except for the order of amounts in the lines. -/
structure StateLike (st st' : RegState) : Prop where
  balance : st.balance = st'.balance
  commodities : st.commodities = st'.commodities
  payees : st.payees = st'.payees
  lines : List.Forall₂ RegLine.Like st.lines st'.lines

theorem registerPosting_like {env : Env} {s s' : Shuf} {t : Txn Posting} {n : Nat} {p : Posting} {st st' : RegState}
    (h : StateLike st st') : Res.Alike StateLike (registerPosting env s t n p st) (registerPosting env s' t n p st') := by
  unfold registerPosting
  rw [h.payees]
  cases (if n = 0 then
      match t.date with
      | none => .error (.panic "t.date.unwrap()")
      | some d =>
        match getPayee env t st'.payees with
        | .error e => .error e
        | .ok (payee, payees) => .ok (some (d, payee), payees)
    else .ok (none, st'.payees) : Res (Option (Date × Str) × NList PayeeDef)) with
  | error e => exact rfl
  | ok x =>
    obtain ⟨header, payees⟩ := x
    cases p.amount with
    | none => exact rfl
    | some m =>
      refine ⟨by simp only [h.balance], h.commodities, rfl, ?_⟩
      simp only [h.balance]
      exact List.rel_append h.lines (.cons ⟨rfl, rfl, rfl, rfl, ((s.perm _).trans (s'.perm _).symm).map _⟩ .nil)

theorem registerPostings_like {env : Env} {s s' : Nat → Shuf} {o : FilterOpts} {node : Option Ast} {t : Txn Posting} :
    ∀ (ps : List Posting) (n : Nat) {st st' : RegState}, StateLike st st' →
      Res.Alike StateLike (registerPostings env s o node t ps n st) (registerPostings env s' o node t ps n st')
  | [], n, st, st', h => h
  | p :: ps, n, st, st', h => by
    unfold registerPostings
    rw [h.commodities]
    cases filterPosting env o node t p st'.commodities with
    | error e => exact rfl
    | ok x =>
      obtain ⟨b, c⟩ := x
      cases b with
      | false => exact registerPostings_like ps n ⟨h.balance, rfl, h.payees, h.lines⟩
      | true =>
        have k := registerPosting_like (env := env) (s := s st.lines.length) (s' := s' st'.lines.length) (t := t) (n := n) (p := p)
          (st := { st with commodities := c }) (st' := { st' with commodities := c }) ⟨h.balance, rfl, h.payees, h.lines⟩
        simp only
        cases hx : registerPosting env (s st.lines.length) t n p { st with commodities := c } with
        | error e =>
          rw [hx] at k
          cases hy : registerPosting env (s' st'.lines.length) t n p { st' with commodities := c } with
          | error e' => rw [hy] at k; exact k
          | ok y => rw [hy] at k; exact k.elim
        | ok x =>
          rw [hx] at k
          cases hy : registerPosting env (s' st'.lines.length) t n p { st' with commodities := c } with
          | error e' => rw [hy] at k; exact k.elim
          | ok y => rw [hy] at k; exact registerPostings_like ps (n + 1) k

theorem registerAll_like {env : Env} {s s' : Nat → Shuf} {o : FilterOpts} {node : Option Ast} :
    ∀ (ts : List (Txn Posting)) {st st' : RegState}, StateLike st st' →
      Res.Alike StateLike (registerAll env s o node ts st) (registerAll env s' o node ts st')
  | [], st, st', h => h
  | t :: ts, st, st', h => by
    unfold registerAll
    have k := registerPostings_like (env := env) (s := s) (s' := s') (o := o) (node := node) (t := t) t.postings 0 h
    cases hx : registerPostings env s o node t t.postings 0 st with
    | error e =>
      rw [hx] at k
      cases hy : registerPostings env s' o node t t.postings 0 st' with
      | error e' => rw [hy] at k; exact k
      | ok y => rw [hy] at k; exact k.elim
    | ok x =>
      rw [hx] at k
      cases hy : registerPostings env s' o node t t.postings 0 st' with
      | error e' => rw [hy] at k; exact k.elim
      | ok y => rw [hy] at k; exact registerAll_like ts k

/-! ### A single commodity -/

/-- A balance that holds nothing but `c`. -/
def Balance.Only (c : Cur) (b : Balance) : Prop := b.Canon ∧ ∀ d, d ≠ c → b.amountOf d = 0

theorem Balance.Only.nil (c : Cur) : Balance.Only c Balance.new := ⟨Balance.Canon.nil, fun _ _ => rfl⟩

theorem Balance.Only.add {c : Cur} {a b : Balance} (ha : a.Only c) (hb : b.Only c) : (Balance.add a b).Only c :=
  ⟨Balance.add_canon ha.1.toWF hb.1.toWF, fun d hd => by
    rw [Balance.amountOf_add ha.1.toWF hb.1.toWF, ha.2 d hd, hb.2 d hd, add_zero]⟩

theorem Balance.Only.length {c : Cur} {b : Balance} (h : b.Only c) : b.length ≤ 1 := by
  have hk : ∀ e ∈ b, e.1 = some c := by
    intro e he
    obtain ⟨d, h1, _, h3⟩ := (Balance.Canon.mem_iff h.1 e.1 e.2).mp he
    by_cases hd : d = c
    · rw [h1, hd]
    · exact absurd (h.2 d hd) h3
  have hn := h.1.nodup
  match b, hk, hn with
  | [], _, _ => simp
  | [_], _, _ => simp
  | x :: y :: r, hk, hn =>
    simp only [HMap.keys, List.map_cons, List.nodup_cons, List.mem_cons, not_or] at hn
    exact absurd ((hk x (by simp)).trans (hk y (by simp)).symm) hn.1.1

theorem Balance.Only.foldl {c : Cur} (l : List (Str × Balance)) {acc : Balance} (ha : acc.Only c)
    (h : ∀ e ∈ l, e.2.Only c) : (l.foldl (fun acc e => Balance.add acc e.2) acc).Only c := by
  induction l generalizing acc with
  | nil => exact ha
  | cons e l ih => exact ih (ha.add (h e (by simp))) (fun x hx => h x (by simp [hx]))

/-- All balances hold nothing but `c`. -/
def Rowed (c : Cur) (l : List (Str × Balance)) : Prop := ∀ e ∈ l, e.2.Only c

theorem Rowed.insert {c : Cur} {l : Balances} (h : Rowed c l) {a : Str} {b : Balance} (hb : b.Only c) :
    Rowed c (HMap.insert l a b) := by
  intro e he
  rcases mem_insert_value he with he | he
  · rw [he]; exact hb
  · exact h e he

theorem rowed_own {c : Cur} (l : List (Str × Balance)) (h : Rowed c l) {acc : Balances} (ha : Rowed c acc) :
    Rowed c (l.foldl (fun acc e => HMap.insert acc e.1 e.2) acc) := by
  induction l generalizing acc with
  | nil => exact ha
  | cons e l ih => exact ih (fun x hx => h x (by simp [hx])) (ha.insert (h e (by simp)))

theorem rowed_roll {c : Cur} (s : Str → Shuf) (as : List Str) {nb : Balances} (h : Rowed c nb) :
    Rowed c (as.foldl (rollStep s) nb) := by
  induction as generalizing nb with
  | nil => exact h
  | cons a as ih =>
    refine ih (h.insert (Balance.Only.foldl _ (.nil c) (fun e he => ?_)))
    exact h e (((s a).perm nb).mem_iff.mp (List.mem_filter.mp he).1)

theorem rowed_tree {c : Cur} {o : BalOrders} {bals : Balances} (h : Rowed c bals) : Rowed c (treeRows o bals) := by
  intro e he
  have hr : Rowed c (o.own.run bals) := fun x hx => h x ((o.own.perm bals).mem_iff.mp hx)
  exact rowed_roll o.roll _ (rowed_own _ hr (fun x hx => by cases hx)) e
    ((o.rows.perm _).mem_iff.mp (List.mem_filter.mp he).1)

theorem rowed_merge {c : Cur} : ∀ (l : List (Str × Balance)) (account : Str) (acc r : List (Str × Balance)),
    Rowed c l → Rowed c acc → mergeLoop l account acc = .ok r → Rowed c r := by
  intro l
  induction l with
  | nil =>
    intro account acc r _ ha h
    simp only [mergeLoop, Except.ok.injEq] at h
    subst h
    exact fun e he => ha e (List.mem_reverse.mp he)
  | cons x l ih =>
    obtain ⟨name, value⟩ := x
    intro account acc r hl ha h
    have hl' : Rowed c l := fun e he => hl e (by simp [he])
    have hx : value.Only c := hl (name, value) (by simp)
    unfold mergeLoop at h
    split at h
    · refine ih _ _ r hl' (fun e he => ?_) h
      rcases List.mem_cons.mp he with rfl | he
      · exact hx
      · exact ha e he
    · match acc, ha, h with
      | [], _, h => cases h
      | (n, b) :: acc', ha, h =>
        refine ih _ _ r hl' (fun e he => ?_) h
        rcases List.mem_cons.mp he with rfl | he
        · exact (ha (n, b) (by simp)).add hx
        · exact ha e (by simp [he])

theorem rowed_flat {c : Cur} {o : BalOrders} {depth : Option Nat} {bals : Balances} (h : Rowed c bals)
    {r : List (Str × Balance)} (hr : flatRows o depth bals = .ok r) : Rowed c r := by
  unfold flatRows at hr
  cases depth with
  | none =>
    simp only [Except.ok.injEq] at hr
    subst hr
    exact fun e he => h e ((o.own.perm bals).mem_iff.mp (List.mem_filter.mp he).1)
  | some d =>
    refine rowed_merge _ _ _ r (fun e he => ?_) (fun e he => by cases he) hr
    obtain ⟨x, hx, rfl⟩ := List.mem_map.mp ((sortBy_perm _ _).mem_iff.mp he)
    exact h x ((o.group.perm bals).mem_iff.mp (List.mem_filter.mp hx).1)

theorem collapseLoop_rest (account : Str) : ∀ (l : List (Str × Balance)) (n : Nat) (text : Str),
    ∀ e ∈ (collapseLoop account l n text).2, e ∈ l := by
  intro l
  induction l with
  | nil => intro n text e he; simp [collapseLoop] at he
  | cons x l ih =>
    intro n text e he
    unfold collapseLoop at he
    split at he
    · exact he
    · split at he
      · exact List.mem_cons_of_mem _ (ih _ _ e he)
      · exact he

theorem printLoop_short {c : Cur} {flat : Bool} {depth : Option Nat} {s : Str → Shuf} : ∀ (k : Nat) (l : List (Str × Balance)),
    Rowed c l → ∀ x ∈ printLoop flat depth s k l, x.amounts.length ≤ 1 := by
  intro k
  induction k with
  | zero => intro l _ x hx; simp [printLoop] at hx
  | succ k ih =>
    intro l hl x hx
    cases l with
    | nil => simp [printLoop] at hx
    | cons e rest =>
      obtain ⟨account, bal⟩ := e
      have hb : (((s account).run bal).map Prod.snd).length ≤ 1 := by
        rw [List.length_map, ((s account).perm bal).length_eq]
        exact (hl (account, bal) (by simp)).length
      have hr : Rowed c rest := fun e he => hl e (by simp [he])
      unfold printLoop at hx
      split at hx
      · exact ih rest hr x hx
      · split at hx
        · exact ih rest hr x hx
        · simp only at hx
          split at hx
          · rcases List.mem_cons.mp hx with rfl | hx
            · exact hb
            · exact ih rest hr x hx
          · rcases List.mem_cons.mp hx with rfl | hx
            · exact hb
            · exact ih _ (fun e he => hr e (collapseLoop_rest account rest _ _ e he)) x hx

/-- All amounts of the report are single. -/
structure BalReport.Short (r : BalReport) : Prop where
  lines : ∀ x ∈ r.lines, x.amounts.length ≤ 1
  total : ∀ ms, r.total = some ms → ms.length ≤ 1

theorem finish_short {c : Cur} {o : BalOrders} {flat total : Bool} {depth : Option Nat} {bals : Balances}
    {rows : List (Str × Balance)} {rep : BalReport} (hb : Rowed c bals) (hr : Rowed c rows)
    (h : finishBalance o flat total depth bals none rows = .ok rep) : rep.Short := by
  have hl := printLoop_short (flat := flat) (depth := depth) (s := o.shown)
    (sortBy (fun a b => strLe a.1 b.1) rows).length (sortBy (fun a b => strLe a.1 b.1) rows)
    (fun e he => hr e ((sortBy_perm _ rows).mem_iff.mp he))
  have hg : (grandTotal o.total bals).Only c :=
    Balance.Only.foldl _ (.nil c) (fun e he => hb e ((o.total.perm bals).mem_iff.mp he))
  unfold finishBalance at h
  simp only at h
  split at h
  · simp only [Except.ok.injEq] at h
    subst h
    refine ⟨hl, fun ms hms => ?_⟩
    simp only [Option.some.injEq] at hms
    subst hms
    split
    · simp
    · rw [List.length_map, (o.shownTotal.perm _).length_eq]
      exact hg.length
  · simp only [Except.ok.injEq] at h
    subst h
    exact ⟨hl, fun ms hms => by cases hms⟩

theorem rowed_collected {c : Cur} {bals : Balances} {sel : List (Txn Posting × Posting)} (h : Collected bals sel)
    (hs : ∀ x ∈ sel, ∀ m, x.2.amount = some m → ∀ d, d ≠ c → m.amountIn d = 0) : Rowed c bals := by
  intro e he
  refine ⟨h.canon e he, fun d hd => ?_⟩
  have k := h.sum (fun a => a == e.1) d
  rw [balSum_eq_single h.nodup (show (e.1, e.2) ∈ bals from he)] at k
  rw [k, selSum_eq_map]
  refine List.sum_eq_zero (fun y hy => ?_)
  obtain ⟨x, hx, rfl⟩ := List.mem_map.mp hy
  cases ha : x.2.amount with
  | none => rfl
  | some m => exact hs x (List.mem_filter.mp hx).1 m ha d hd

theorem perm_short {α : Type} {a b : List α} (h : a.Perm b) (hl : a.length ≤ 1) : a = b := by
  match a, hl, h with
  | [], _, h => exact (List.nil_perm.mp h).symm
  | [x], _, h => exact List.singleton_perm.mp h

theorem BalReport.Like.eq {r r' : BalReport} (h : r.Like r') (hs : r.Short) : r = r' := by
  obtain ⟨lines, total⟩ := r
  obtain ⟨lines', total'⟩ := r'
  obtain ⟨h1, h2⟩ := h
  have hl : lines = lines' := by
    have hs1 := hs.lines
    simp only at h1 hs1
    clear h2 hs
    induction h1 with
    | nil => rfl
    | cons hx hr ih =>
      rename_i x y xs ys
      obtain ⟨a, i, n⟩ := x
      obtain ⟨a', i', n'⟩ := y
      obtain ⟨k1, k2, k3⟩ := hx
      simp only at k1 k2 k3
      have := perm_short k3 (hs1 ⟨a, i, n⟩ (by simp))
      subst k1; subst k2; subst this
      rw [ih (fun x hx => hs1 x (by simp [hx]))]
  have ht : total = total' := by
    cases h2 with
    | none => rfl
    | some hp => exact congrArg some (perm_short hp (hs.total _ rfl))
  rw [hl, ht]

/-! ### Ledgers that differ in the order of the postings of a transaction -/

theorem Collected.twins {bals bals' : Balances} {sel sel' : List (Txn Posting × Posting)} (h : Collected bals sel)
    (h' : Collected bals' sel') (hp : (sel.map Prod.snd).Perm (sel'.map Prod.snd)) : Twin bals bals' := by
  have key : ∀ (l : List (Txn Posting × Posting)) (P : Str → Bool) (c : Cur), selSum l P c =
      (((l.map Prod.snd).filter (fun p => P p.account)).map (fun p => (p.amount.getD .zero).amountIn c)).sum := by
    intro l P c
    rw [selSum_eq_map, List.filter_map, List.map_map]; rfl
  have mem : ∀ (l : List (Txn Posting × Posting)) (a : Str), (∃ x ∈ l, x.2.account = a) ↔
      ∃ p ∈ l.map Prod.snd, p.account = a := by
    intro l a
    constructor
    · rintro ⟨x, k, e⟩; exact ⟨x.2, List.mem_map_of_mem k, e⟩
    · rintro ⟨p, k, e⟩
      obtain ⟨x, hx, rfl⟩ := List.mem_map.mp k
      exact ⟨x, hx, e⟩
  refine ⟨h.nodup, h'.nodup, h.canon, h'.canon, fun a => ?_, fun P c => ?_⟩
  · rw [h.mem, h'.mem, mem, mem]
    exact ⟨fun ⟨x, k, e⟩ => ⟨x, hp.mem_iff.mp k, e⟩, fun ⟨x, k, e⟩ => ⟨x, hp.mem_iff.mpr k, e⟩⟩
  · rw [h.sum, h'.sum, key, key]
    exact ((hp.filter _).map _).sum_eq

/-- Is the posting kept when nothing is asked for? -/
def kept (env : Env) (o : FilterOpts) (x : Txn Posting × Posting) : Bool :=
  match filterPosting env o none x.1 x.2 {} with
  | .ok (b, _) => b
  | .error _ => false

theorem filter_plain {env : Env} {o : FilterOpts} {t : Txn Posting} {p : Posting} {st st' : Commodities} {b : Bool}
    (h : filterPosting env o none t p st = .ok (b, st')) : st' = st ∧ kept env o (t, p) = b := by
  unfold kept
  unfold filterPosting at *
  dsimp only at *
  split at h
  · next h1 => cases h; rw [if_pos h1]; exact ⟨rfl, rfl⟩
  · next h1 =>
    rw [if_neg h1]
    split at h
    · cases h
    · cases h; exact ⟨rfl, rfl⟩
    · split at h
      · cases h
      · cases h; exact ⟨rfl, rfl⟩
      · cases h; exact ⟨rfl, rfl⟩

theorem selects_kept {env : Env} {o : FilterOpts} {l sel : List (Txn Posting × Posting)} {st st' : Commodities}
    (h : Selects env o none l st sel st') : sel = l.filter (kept env o) := by
  induction h with
  | nil => rfl
  | keep h _ ih => rw [List.filter_cons_of_pos (filter_plain h).2, ih]
  | drop h _ ih => rw [List.filter_cons_of_neg (by simpa using (filter_plain h).2), ih]

theorem kept_same {env : Env} {o : FilterOpts} {t t' : Txn Posting} (h : SamePostings t t') (p : Posting) :
    kept env o (t, p) = kept env o (t', p) := by
  have hd : t'.date = t.date := by rw [h.1]
  unfold kept filterPosting
  simp only [hd]

theorem entries_same {env : Env} {o : FilterOpts} {ts ts' : List (Txn Posting)} (h : List.Forall₂ SamePostings ts ts') :
    (((ts.flatMap (fun t => t.postings.map (fun p => (t, p)))).filter (kept env o)).map Prod.snd).Perm
      (((ts'.flatMap (fun t => t.postings.map (fun p => (t, p)))).filter (kept env o)).map Prod.snd) := by
  induction h with
  | nil => exact List.Perm.refl _
  | cons hx hr ih =>
    rename_i t t' _ _
    simp only [List.flatMap_cons, List.filter_append, List.map_append]
    refine List.Perm.append ?_ ih
    simp only [List.filter_map, List.map_map]
    have he : (kept env o ∘ fun p => (t, p)) = (kept env o ∘ fun p => (t', p)) := funext fun p => kept_same hx p
    rw [he]
    exact ((hx.2.symm.filter _).map _)

theorem registerLike_eq {r r' : List RegLine} (h : List.Forall₂ RegLine.Like r r') (hs : ∀ x ∈ r, x.running.length ≤ 1) :
    r = r' := by
  induction h with
  | nil => rfl
  | cons hx hr ih =>
    rename_i x y xs ys
    obtain ⟨a1, a2, a3, a4, a5⟩ := x
    obtain ⟨b1, b2, b3, b4, b5⟩ := y
    obtain ⟨k1, k2, k3, k4, k5⟩ := hx
    simp only at k1 k2 k3 k4 k5
    have := perm_short k5 (hs ⟨a1, a2, a3, a4, a5⟩ (by simp))
    subst k1; subst k2; subst k3; subst k4; subst this
    rw [ih (fun x hx => hs x (by simp [hx]))]

end Dinero
