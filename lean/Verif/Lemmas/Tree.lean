import Verif.Spec.Tree
import Verif.Lemmas.Columns
/-
Lemmas on the labels of the tree report.
-/
namespace Dinero

/-! ### Sums over groups -/

theorem sum_map_filter_split {α : Type} (L : List α) (f : α → Rat) (p : α → Bool) :
    (L.map f).sum = ((L.filter p).map f).sum + ((L.filter (fun x => !p x)).map f).sum := by
  induction L with
  | nil => simp
  | cons x L ih =>
    cases h : p x <;> simp [h, ih] <;> ring

theorem sum_of_groups {α κ : Type} [DecidableEq κ] (key : α → κ) (f : α → Rat) (n : Nat) :
    ∀ L : List α, L.length ≤ n → (∀ k, ((L.filter (fun x => key x = k)).map f).sum = 0) →
      (L.map f).sum = 0 := by
  induction n with
  | zero =>
    intro L hn _
    have : L = [] := List.length_eq_zero_iff.mp (Nat.le_zero.mp hn)
    subst this; rfl
  | succ n ih =>
    intro L hn h
    cases L with
    | nil => rfl
    | cons x L =>
      rw [sum_map_filter_split (x :: L) f (fun y => key y = key x), h (key x), zero_add]
      apply ih
      · have hx : (x :: L).filter (fun y => !decide (key y = key x)) = L.filter (fun y => !decide (key y = key x)) := by
          simp
        rw [hx]
        have := List.length_filter_le (fun y => !decide (key y = key x)) L
        simp only [List.length_cons] at hn
        omega
      · intro k
        rw [List.filter_filter]
        by_cases hk : k = key x
        · have : (x :: L).filter (fun a => decide (key a = k) && !decide (key a = key x)) = [] := by
            rw [List.filter_eq_nil_iff]
            intro a _; simp [hk]
          rw [this]; rfl
        · rw [← h k]
          congr 2
          apply List.filter_congr
          intro a _
          by_cases ha : key a = k
          · simp [ha, hk]
          · simp [ha]

theorem selSum_eq_map (sel : List (Txn Posting × Posting)) (P : Str → Bool) (c : Cur) :
    selSum sel P c = ((sel.filter (fun x => P x.2.account)).map
      (fun x => (x.2.amount.getD .zero).amountIn c)).sum := by
  induction sel with
  | nil => rfl
  | cons x sel ih =>
    rw [selSum_cons, ih]
    cases h : P x.2.account <;> simp [h]

theorem selSum_congr {sel : List (Txn Posting × Posting)} {P Q : Str → Bool}
    (h : ∀ x ∈ sel, P x.2.account = Q x.2.account) (c : Cur) : selSum sel P c = selSum sel Q c := by
  unfold selSum
  rw [List.filter_congr h]

theorem selSum_none {sel : List (Txn Posting × Posting)} {P : Str → Bool}
    (h : ∀ x ∈ sel, P x.2.account = false) (c : Cur) : selSum sel P c = 0 := by
  rw [selSum_congr (Q := fun _ => false) h]
  unfold selSum; simp [sumIn]

theorem selSum_split (sel : List (Txn Posting × Posting)) (P Q : Str → Bool) (c : Cur) :
    selSum sel P c = selSum sel (fun a => P a && Q a) c + selSum sel (fun a => P a && !Q a) c := by
  induction sel with
  | nil => simp [selSum, sumIn]
  | cons x sel ih =>
    rw [selSum_cons, selSum_cons, selSum_cons, ih]
    cases P x.2.account <;> cases Q x.2.account <;> simp <;> ring

theorem selSum_of_groups {sel : List (Txn Posting × Posting)} {P : Str → Bool} (key : Str → Str) (c : Cur)
    (h : ∀ k, selSum sel (fun a => P a && decide (key a = k)) c = 0) : selSum sel P c = 0 := by
  rw [selSum_eq_map]
  apply sum_of_groups (fun x : Txn Posting × Posting => key x.2.account) _ _ _ le_rfl
  intro k
  rw [← h k, selSum_eq_map, List.filter_filter]
  congr 2
  apply List.filter_congr
  intro x _
  rw [Bool.and_comm]

theorem Left.exists {sel : List (Txn Posting × Posting)} {a : Str} (h : Left sel a) :
    ∃ x ∈ sel, Below a x.2.account := by
  by_contra hn
  push Not at hn
  obtain ⟨c, hc⟩ := h
  exact hc (selSum_none (fun x hx => by simpa using hn x hx) c)

/-! ### The child on the way to an account -/

/-- The sub-account of `a` on the way to `x`. -/
def childOn (a x : Str) : Str := a ++ ':' :: (x.drop (a.length + 1)).takeWhile (fun c => c ≠ ':')

theorem childOn_cons (a r : Str) : childOn a (a ++ ':' :: r) = a ++ ':' :: r.takeWhile (fun c => c ≠ ':') := by
  unfold childOn
  have : (a ++ ':' :: r).drop (a.length + 1) = r := by
    rw [show a ++ ':' :: r = (a ++ [':']) ++ r by simp, List.drop_left' (by simp)]
  rw [this]

theorem takeWhile_component (last s : Str) (h : ':' ∉ last) :
    (last ++ ':' :: s).takeWhile (fun c => c ≠ ':') = last ∧ last.takeWhile (fun c => c ≠ ':') = last := by
  induction last with
  | nil => simp
  | cons x last ih =>
    have hx : x ≠ ':' := fun he => h (by simp [he])
    obtain ⟨h1, h2⟩ := ih (fun hm => h (by simp [hm]))
    constructor
    · rw [List.cons_append, List.takeWhile_cons, if_pos (by simpa using hx), h1]
    · rw [List.takeWhile_cons, if_pos (by simpa using hx), h2]

theorem below_childOn (a r : Str) : Below (childOn a (a ++ ':' :: r)) (a ++ ':' :: r) := by
  rw [childOn_cons]
  have hr := List.takeWhile_append_dropWhile (p := fun c => decide (c ≠ ':')) (l := r)
  cases hd : r.dropWhile (fun c => decide (c ≠ ':')) with
  | nil =>
    rw [hd, List.append_nil] at hr
    left; rw [hr]
  | cons c s =>
    right
    have hc : c = ':' := by
      have := List.head?_dropWhile_not (fun c => decide (c ≠ ':')) r
      rw [hd] at this
      simpa using this
    subst hc
    rw [hd] at hr
    refine ⟨s, ?_⟩
    rw [List.append_assoc, List.cons_append, hr]

theorem below_childOf {a k x : Str} (h : ChildOf a k) :
    Below k x ↔ (∃ r, x = a ++ ':' :: r) ∧ childOn a x = k := by
  obtain ⟨last, hl, rfl⟩ := h
  constructor
  · rintro (rfl | ⟨r, rfl⟩)
    · exact ⟨⟨_, rfl⟩, by rw [childOn_cons, (takeWhile_component last [] hl).2]⟩
    · refine ⟨⟨last ++ ':' :: r, by simp⟩, ?_⟩
      rw [List.append_assoc, List.cons_append, childOn_cons, (takeWhile_component last r hl).1]
  · rintro ⟨⟨r, rfl⟩, hk⟩
    rw [← hk]
    exact below_childOn a r

theorem childOf_childOn (a x : Str) : ChildOf a (childOn a x) := by
  refine ⟨_, ?_, rfl⟩
  intro hm
  have := List.all_eq_true.mp List.all_takeWhile _ hm
  simp at this

/-- If exactly one sub-account has something left and the account has no amount of its own, their totals
agree. -/
theorem total_of_only_child {sel : List (Txn Posting × Posting)} {a b : Str} (hab : ChildOf a b)
    (hu : ∀ b', ChildOf a b' → Left sel b' → b' = b) (c : Cur)
    (ho : selSum sel (fun x => x = a) c = 0) :
    selSum sel (fun x => Below a x) c = selSum sel (fun x => Below b x) c := by
  have hne : ∀ r : Str, a ++ ':' :: r ≠ a := by
    intro r h
    have := congrArg List.length h
    simp at this
  have hba : ∀ x, Below b x → Below a x ∧ x ≠ a := by
    intro x hx
    obtain ⟨⟨r, rfl⟩, _⟩ := (below_childOf hab).mp hx
    exact ⟨Or.inr ⟨r, rfl⟩, hne r⟩
  rw [selSum_split sel _ (fun x => decide (Below b x)) c,
    selSum_split sel (fun x => decide (Below a x) && !decide (Below b x)) (fun x => decide (x = a)) c]
  have h1 : selSum sel (fun x => decide (Below a x) && decide (Below b x)) c =
      selSum sel (fun x => decide (Below b x)) c := by
    apply selSum_congr
    intro x _
    by_cases h : Below b x.2.account
    · simp [h, (hba _ h).1]
    · simp [h]
  have h2 : selSum sel (fun x => (decide (Below a x) && !decide (Below b x)) && decide (x = a)) c = 0 := by
    rw [← ho]
    apply selSum_congr
    intro x _
    by_cases h : x.2.account = a
    · have : ¬ Below b x.2.account := fun hb => (hba _ hb).2 h
      rw [h] at this ⊢
      simp [this, below_refl]
    · simp [h]
  rw [h1, h2]
  have h3 : selSum sel (fun x => (decide (Below a x) && !decide (Below b x)) && !decide (x = a)) c = 0 := by
    apply selSum_of_groups (childOn a)
    intro k
    by_cases hk : ChildOf a k ∧ k ≠ b
    · have hz : selSum sel (fun x => decide (Below k x)) c = 0 := by
        by_contra hn
        exact hk.2 (hu k hk.1 ⟨c, hn⟩)
      rw [← hz]
      apply selSum_congr
      intro x _
      rw [Bool.eq_iff_iff]
      simp only [Bool.and_eq_true, decide_eq_true_eq, Bool.not_eq_true', decide_eq_false_iff_not]
      rw [below_childOf hk.1]
      constructor
      · rintro ⟨⟨⟨hb, _⟩, hx⟩, hkk⟩
        rcases hb with hb | hb
        · exact absurd hb hx
        · exact ⟨hb, hkk⟩
      · rintro ⟨⟨r, hr⟩, hkk⟩
        refine ⟨⟨⟨Or.inr ⟨r, hr⟩, ?_⟩, by rw [hr]; exact hne r⟩, hkk⟩
        intro hb
        exact hk.2 (hkk.symm.trans ((below_childOf hab).mp hb).2)
    · apply selSum_none
      intro x _
      rw [Bool.eq_false_iff]
      simp only [ne_eq, Bool.and_eq_true, decide_eq_true_eq, Bool.not_eq_true', decide_eq_false_iff_not]
      rintro ⟨⟨⟨hb, hnb⟩, hx⟩, hkk⟩
      apply hk
      refine ⟨hkk ▸ childOf_childOn a _, ?_⟩
      rintro rfl
      rcases hb with hb | hb
      · exact hx hb
      · exact hnb ((below_childOf hab).mpr ⟨hb, hkk⟩)
  rw [h3]; ring

/-! ### The rows are orderly -/

theorem append_lt_append_left_iff (p x y : Str) : p ++ x < p ++ y ↔ x < y := by
  induction p with
  | nil => rfl
  | cons c p ih =>
    rw [List.cons_append, List.cons_append, List.cons_lt_cons_iff, ih]
    constructor
    · rintro (h | h)
      · exact absurd h (Char.lt_irrefl _)
      · exact h.2
    · exact fun h => Or.inr ⟨rfl, h⟩

theorem components_pos (a : Str) : 0 < components a := by unfold components; omega

theorem orderly_of_fit {sel : List (Txn Posting × Posting)} (hf : TreeFit sel)
    {rows : List (Str × Balance)} (hs : rows.Pairwise (fun a b => a.1 < b.1))
    (hm : ∀ a, a ∈ rows.map Prod.fst ↔ Left sel a)
    (he : ∀ a ∈ rows, ∀ b ∈ rows,
      (∀ c, selSum sel (fun x => Below a.1 x) c = selSum sel (fun x => Below b.1 x) c) →
      ∀ c, a.2.amountOf c = b.2.amountOf c) : Orderly rows := by
  constructor
  · intro pre a b post hr hcomp
    have hb : b ∈ rows := by rw [hr]; simp
    have ha : a ∈ rows := by rw [hr]; simp
    have hlb : Left sel b.1 := (hm b.1).mp (List.mem_map_of_mem hb)
    have hla : Left sel a.1 := (hm a.1).mp (List.mem_map_of_mem ha)
    obtain ⟨hnl, hq | ⟨p, hq⟩⟩ := lastPart_spec b.1
    · exfalso
      rw [hq, components_noColon hnl] at hcomp
      have := components_pos a.1
      omega
    · generalize lastPart b.1 = last at *
      obtain ⟨e, hem, hep⟩ := List.mem_map.mp ((hm p).mpr (hf.parents p b.1 ⟨last, hnl, hq⟩ hlb))
      have hpb : p < b.1 := by rw [hq]; exact lt_append_cons _ _ _
      rw [hr] at hem hs
      have hsp := List.pairwise_append.mp hs
      have hs2 := List.pairwise_cons.mp hsp.2.1
      have hs3 := List.pairwise_cons.mp hs2.2
      have hab : a.1 < b.1 := hs2.1 b (by simp)
      rcases List.mem_append.mp hem with h | h
      · have hpa : p < a.1 := by rw [← hep]; exact hsp.2.2 e h a (by simp)
        obtain ⟨t, ht⟩ := prefix_between hpa hab (by rw [hq]; exact List.prefix_append _ _)
        cases t with
        | nil =>
          rw [List.append_nil] at ht
          rw [ht] at hpa
          exact absurd hpa (List.lt_irrefl _)
        | cons c s =>
          exfalso
          rw [← ht, hq, append_lt_append_left_iff, List.cons_lt_cons_iff] at hab
          rcases hab with hc | ⟨hc, _⟩
          · obtain ⟨x, hx, hbx⟩ := hlb.exists
            obtain ⟨y, hy, hby⟩ := hla.exists
            obtain ⟨tx, htx⟩ := hbx.prefix
            obtain ⟨ty, hty⟩ := hby.prefix
            refine hf.order x hx y hy p (last ++ tx) c (s ++ ty) ?_ ?_ hc
            · rw [← htx, hq]; simp
            · rw [← hty, ← ht]; simp
          · subst hc
            rw [← ht, hq, components_append, components_append, components_noColon hnl] at hcomp
            have := components_pos s
            omega
      · rcases List.mem_cons.mp h with rfl | h
        · exact Or.inr ⟨last, by rw [hep]; exact hq⟩
        · exfalso
          rcases List.mem_cons.mp h with rfl | h
          · rw [hep] at hpb; exact absurd hpb (List.lt_irrefl _)
          · have h4 := hs3.1 e h
            rw [hep] at h4
            exact absurd (List.lt_trans hpb h4) (List.lt_irrefl _)
  · intro a ha b hb hab hc hu
    apply he a ha b hb
    have hch : ChildOf a.1 b.1 := ⟨lastPart b.1, (lastPart_spec b.1).1, below_child hab hc⟩
    have huniq : ∀ b', ChildOf a.1 b' → Left sel b' → b' = b.1 := by
      rintro b' ⟨last, hl, rfl⟩ hlf
      obtain ⟨x, hx, hxe⟩ := List.mem_map.mp ((hm _).mpr hlf)
      rw [← hxe]
      refine congrArg Prod.fst (hu x hx (Or.inr ⟨last, hxe⟩) ?_)
      rw [hxe, components_append, components_noColon hl]
    intro c
    exact total_of_only_child hch huniq c
      (hf.own a.1 b.1 hch ((hm b.1).mp (List.mem_map_of_mem hb)) huniq c)

/-- The lines printed for orderly rows. -/
theorem tree_lines {rows : List (Str × Balance)} (hn : (rows.map Prod.fst).Nodup)
    (hc : ∀ e ∈ rows, e.2.Canon) (hz : ∀ e ∈ rows, e.2.isZero = false)
    (ho : Orderly (sortBy (fun a b => strLe a.1 b.1) rows)) (depth : Option Nat) (s : Str → Shuf) :
    let sorted := sortBy (fun a b => strLe a.1 b.1) rows
    let lines := printLoop false depth s sorted.length sorted
    (∀ line ∈ lines, ∃ a ∈ rows, ∃ b ∈ rows, line.indent = components a.1 ∧ Labels a.1 b.1 line.label ∧
      Below a.1 b.1 ∧ Shows line.amounts b.2.amountOf) ∧
    (∀ x ∈ rows, (∀ d, depth = some d → components x.1 ≤ d) → ∃ line ∈ lines, ∃ a ∈ rows, ∃ b ∈ rows,
      line.indent = components a.1 ∧ Labels a.1 b.1 line.label ∧ Below a.1 x.1 ∧ Below x.1 b.1 ∧
      Shows line.amounts x.2.amountOf) := by
  intro sorted lines
  have hperm : sorted.Perm rows := sortBy_perm (fun a b : Str × Balance => strLe a.1 b.1) rows
  have hstrict := sorted_strict hn
  have hmem : ∀ e, e ∈ sorted ↔ e ∈ rows := fun e => hperm.mem_iff
  obtain ⟨p1, p2⟩ := printLoop_tree ho (List.pairwise_map.mp hstrict)
    (fun e he => hz e ((hmem e).mp he)) depth s sorted.length [] sorted rfl le_rfl
  have hshow : ∀ a ∈ rows, ∀ x ∈ rows, (∀ c, a.2.amountOf c = x.2.amountOf c) →
      Shows (((s a.1).run a.2).map Prod.snd) x.2.amountOf := by
    intro a ha x _ hax
    exact (Canon.shows (hc a ha) (s a.1)).congr hax
  constructor
  · intro line hline
    obtain ⟨a, ha, b, hb, q1, q2, q3, q4, q5⟩ := p1 line hline
    have ha := (hmem a).mp ha
    have hb := (hmem b).mp hb
    exact ⟨a, ha, b, hb, q1, q2, q3, by rw [q5]; exact hshow a ha b hb q4⟩
  · intro e he hed
    have hdeep : tooDeep depth e.1 = false := by
      cases hd : depth with
      | none => rfl
      | some d => simp [tooDeep, parts_eq_components, hed d hd]
    obtain ⟨line, hline, a, ha, b, hb, q1, q2, q3, q4, q5, q6⟩ := p2 e ((hmem e).mpr he) hdeep
    have ha := (hmem a).mp ha
    exact ⟨line, hline, a, ha, b, (hmem b).mp hb, q1, q2, q3, q4, by rw [q6]; exact hshow a ha e he q5⟩

/-! ### A test for `TreeFit` -/

/-- The prefixes of the selected account names. -/
def prefsOf (sel : List (Txn Posting × Posting)) : List Str := sel.flatMap (fun x => x.2.account.inits)

/-- `Left`, when `cs` are all commodities. -/
def leftB (sel : List (Txn Posting × Posting)) (cs : List Cur) (a : Str) : Bool :=
  cs.any (fun c => decide (selSum sel (fun x => Below a x) c ≠ 0))

/-- `ChildOf`. -/
def childB (a b : Str) : Bool :=
  (a ++ [':']).isPrefixOf b && !(b.drop (a.length + 1)).contains ':'

/-- `TreeFit`, when `cs` are all commodities. -/
def fitB (sel : List (Txn Posting × Posting)) (cs : List Cur) : Bool :=
  sel.all (fun x => sel.all (fun y => x.2.account.inits.all (fun a =>
    !((a ++ [':']).isPrefixOf x.2.account && a.isPrefixOf y.2.account) ||
      (y.2.account.drop a.length).head?.all (fun c => !decide (c < ':'))))) &&
  (prefsOf sel).all (fun b => (prefsOf sel).all (fun a => !(childB a b && leftB sel cs b) ||
    (leftB sel cs a &&
      ((prefsOf sel).any (fun b' => childB a b' && leftB sel cs b' && decide (b' ≠ b)) ||
        cs.all (fun c => decide (selSum sel (fun x => x = a) c = 0))))))

theorem childB_iff (a b : Str) : childB a b = true ↔ ChildOf a b := by
  unfold childB
  rw [Bool.and_eq_true, List.isPrefixOf_iff_prefix]
  constructor
  · rintro ⟨⟨r, rfl⟩, h⟩
    rw [List.drop_left' (by simp)] at h
    exact ⟨r, by simpa using h, by simp⟩
  · rintro ⟨r, h, rfl⟩
    refine ⟨⟨r, by simp⟩, ?_⟩
    rw [show a ++ ':' :: r = (a ++ [':']) ++ r by simp, List.drop_left' (by simp)]
    simpa using h

theorem selSum_other {sel : List (Txn Posting × Posting)} {cs : List Cur}
    (hc : ∀ x ∈ sel, ∀ m ∈ x.2.amount, ∀ c, m.amountIn c ≠ 0 → c ∈ cs) {P : Str → Bool} {c : Cur}
    (h : selSum sel P c ≠ 0) : c ∈ cs := by
  by_contra hn
  apply h
  unfold selSum
  apply sumIn_eq_zero
  intro m hm
  obtain ⟨x, hx, hxm⟩ := List.mem_filterMap.mp hm
  by_contra h0
  exact hn (hc x (List.mem_filter.mp hx).1 m hxm c h0)

theorem leftB_iff {sel : List (Txn Posting × Posting)} {cs : List Cur}
    (hc : ∀ x ∈ sel, ∀ m ∈ x.2.amount, ∀ c, m.amountIn c ≠ 0 → c ∈ cs) (a : Str) :
    leftB sel cs a = true ↔ Left sel a := by
  unfold leftB
  rw [List.any_eq_true]
  constructor
  · rintro ⟨c, _, h⟩; exact ⟨c, by simpa using h⟩
  · rintro ⟨c, h⟩; exact ⟨c, selSum_other hc h, by simpa using h⟩

theorem Left.mem_prefs {sel : List (Txn Posting × Posting)} {a p : Str} (h : Left sel a) (hp : p <+: a) :
    p ∈ prefsOf sel := by
  obtain ⟨x, hx, hb⟩ := h.exists
  exact List.mem_flatMap.mpr ⟨x, hx, (List.mem_inits _ _).mpr (hp.trans hb.prefix)⟩

/-- `TreeFit` can be computed. -/
theorem treeFit_of {sel : List (Txn Posting × Posting)} (cs : List Cur)
    (hc : sel.all (fun x => x.2.amount.all (fun m => m.commodity.all (cs.contains ·))) = true)
    (h : fitB sel cs = true) : TreeFit sel := by
  have hc : ∀ x ∈ sel, ∀ m ∈ x.2.amount, ∀ c, m.amountIn c ≠ 0 → c ∈ cs := by
    intro x hx m hm c h0
    have := List.all_eq_true.mp hc x hx
    rw [Option.mem_def.mp hm] at this
    unfold Money.amountIn at h0
    split at h0
    · next hmc => simpa [hmc] using this
    · exact absurd rfl h0
  unfold fitB at h
  rw [Bool.and_eq_true] at h
  obtain ⟨h1, h2⟩ := h
  have key : ∀ a b, ChildOf a b → Left sel b → Left sel a ∧
      ((∃ b', ChildOf a b' ∧ Left sel b' ∧ b' ≠ b) ∨ ∀ c ∈ cs, selSum sel (fun x => x = a) c = 0) := by
    intro a b hab hb
    have hpa : a <+: b := by obtain ⟨_, _, rfl⟩ := hab; exact List.prefix_append _ _
    have := List.all_eq_true.mp (List.all_eq_true.mp h2 b (hb.mem_prefs List.prefix_rfl)) a (hb.mem_prefs hpa)
    rw [(childB_iff a b).mpr hab, (leftB_iff hc b).mpr hb] at this
    simp only [Bool.and_self, Bool.not_true, Bool.false_or, Bool.and_eq_true, Bool.or_eq_true,
      List.any_eq_true, List.all_eq_true, decide_eq_true_eq] at this
    refine ⟨(leftB_iff hc a).mp this.1, ?_⟩
    rcases this.2 with ⟨b', _, h3, h4⟩ | h3
    · exact Or.inl ⟨b', (childB_iff a b').mp h3.1, (leftB_iff hc b').mp h3.2, h4⟩
    · exact Or.inr h3
  refine ⟨?_, fun a b hab hb => (key a b hab hb).1, ?_⟩
  · intro x hx y hy a r c s hxa hya
    have := List.all_eq_true.mp (List.all_eq_true.mp (List.all_eq_true.mp h1 x hx) y hy) a
      ((List.mem_inits _ _).mpr (by rw [hxa]; exact List.prefix_append _ _))
    have p1 : (a ++ [':']).isPrefixOf x.2.account = true := by
      rw [List.isPrefixOf_iff_prefix, hxa]; exact ⟨r, by simp⟩
    have p2 : a.isPrefixOf y.2.account = true := by
      rw [List.isPrefixOf_iff_prefix, hya]; exact List.prefix_append _ _
    rw [p1, p2, hya, List.drop_left] at this
    simpa using this
  · intro a b hab hb hu c
    rcases (key a b hab hb).2 with ⟨b', h3, h4, h5⟩ | h3
    · exact absurd (hu b' h3 h4) h5
    · by_contra hn
      exact hn (h3 c (selSum_other hc hn))

end Dinero
