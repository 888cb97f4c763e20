import Verif.Spec.Outer
import Verif.Props.Tree
import Mathlib.Algebra.BigOperators.Group.Finset.Basic
import Mathlib.Algebra.BigOperators.Group.List.Basic
/-
Lemmas about the lines of any tree report (C134).
-/
namespace Dinero

/-! ### What collapsing does -/

theorem collapseLoop_drops (account : Str) : ∀ (rows : List (Str × Balance)) (n : Nat) (text : Str), 1 ≤ n →
    ∃ drop, rows = drop ++ (collapseLoop account rows n text).2 ∧ (∀ e ∈ drop, parts e.1 ≠ 1) ∧
      ((collapseLoop account rows n text).1 = text ∨ ∃ r, (collapseLoop account rows n text).1 = text ++ ':' :: r) := by
  intro rows
  induction rows with
  | nil => intro n text _; exact ⟨[], rfl, by simp, Or.inl rfl⟩
  | cons next rest ih =>
    intro n text hn
    unfold collapseLoop
    split
    · exact ⟨[], rfl, by simp, Or.inl rfl⟩
    · next h1 =>
      split
      · obtain ⟨d, hd1, hd2, hd3⟩ := ih (n + 1) (text ++ ':' :: lastPart next.1) (by omega)
        refine ⟨next :: d, ?_, ?_, ?_⟩
        · rw [List.cons_append, ← hd1]
        · intro e he
          rcases List.mem_cons.mp he with rfl | he
          · omega
          · exact hd2 e he
        · right
          rcases hd3 with h | ⟨r, h⟩
          · exact ⟨_, h⟩
          · exact ⟨lastPart next.1 ++ ':' :: r, by rw [h]; simp⟩
      · exact ⟨[], rfl, by simp, Or.inl rfl⟩

/-- What a line says of the row it starts at. -/
def LineOf (s : Str → Shuf) (line : BalLine) (e : Str × Balance) : Prop :=
  line.amounts = ((s e.1).run e.2).map Prod.snd ∧ line.indent = parts e.1 ∧ Below (lastPart e.1) line.label

/-- Every line of the tree starts at a row, and every outermost row starts a line. -/
theorem printLoop_starts (depth : Option Nat) (s : Str → Shuf) : ∀ (k : Nat) (rows : List (Str × Balance)), rows.length ≤ k →
    ∃ es : List (Str × Balance), es.Sublist rows ∧ List.Forall₂ (LineOf s) (printLoop false depth s k rows) es ∧
      (∀ e ∈ es, tooDeep depth e.1 = false ∧ e.2.isZero = false) ∧
      ∀ e ∈ rows, tooDeep depth e.1 = false → e.2.isZero = false → parts e.1 = 1 → e ∈ es := by
  intro k
  induction k with
  | zero =>
    intro rows hk
    have : rows = [] := List.length_eq_zero_iff.mp (by omega)
    subst this
    exact ⟨[], List.Sublist.slnil, .nil, by simp, by simp⟩
  | succ k ih =>
    intro rows hk
    cases rows with
    | nil => exact ⟨[], List.Sublist.slnil, .nil, by simp, by simp⟩
    | cons e rest =>
      obtain ⟨a, b⟩ := e
      simp only [List.length_cons] at hk
      unfold printLoop
      by_cases h1 : tooDeep depth a = true
      · rw [if_pos h1]
        obtain ⟨es, e1, e2, e3, e4⟩ := ih rest (by omega)
        refine ⟨es, e1.cons _, e2, e3, ?_⟩
        intro x hx hd hz hp
        rcases List.mem_cons.mp hx with rfl | hx
        · rw [h1] at hd; cases hd
        · exact e4 x hx hd hz hp
      · rw [if_neg h1]
        by_cases h2 : b.isZero = true
        · rw [if_pos h2]
          obtain ⟨es, e1, e2, e3, e4⟩ := ih rest (by omega)
          refine ⟨es, e1.cons _, e2, e3, ?_⟩
          intro x hx hd hz hp
          rcases List.mem_cons.mp hx with rfl | hx
          · rw [h2] at hz; cases hz
          · exact e4 x hx hd hz hp
        · rw [if_neg h2]
          simp only [Bool.false_eq_true, if_false]
          obtain ⟨d, d1, d2, d3⟩ := collapseLoop_drops a rest (parts a) (lastPart a)
            (by rw [parts_eq_components]; exact components_pos a)
          obtain ⟨es, e1, e2, e3, e4⟩ := ih (collapseLoop a rest (parts a) (lastPart a)).2 (by
            have := congrArg List.length d1
            simp only [List.length_append] at this
            omega)
          have hsub : (collapseLoop a rest (parts a) (lastPart a)).2.Sublist rest := by
            conv => rhs; rw [d1]
            exact List.sublist_append_right _ _
          refine ⟨(a, b) :: es, (e1.trans hsub).cons_cons _, .cons ⟨rfl, rfl, d3⟩ e2, ?_, ?_⟩
          · intro x hx
            rcases List.mem_cons.mp hx with rfl | hx
            · exact ⟨by simpa using h1, by simpa using h2⟩
            · exact e3 x hx
          · intro x hx hd hz hp
            rcases List.mem_cons.mp hx with rfl | hx
            · exact List.mem_cons_self
            · rw [d1] at hx
              rcases List.mem_append.mp hx with hx | hx
              · exact absurd hp (d2 x hx)
              · exact List.mem_cons_of_mem _ (e4 x hx hd hz hp)

theorem heads_of {a label : Str} (h : Below (lastPart a) label) : Heads a label := by
  obtain ⟨h1, h2 | ⟨q, h2⟩⟩ := lastPart_spec a
  · exact ⟨[], lastPart a, by simpa using h2, h1, Or.inl rfl, h⟩
  · exact ⟨q ++ [':'], lastPart a, by simpa using h2, h1, Or.inr ⟨q, rfl⟩, h⟩

theorem tooDeep_false {depth : Option Nat} {a : Str} : tooDeep depth a = false ↔ ∀ d, depth = some d → components a ≤ d := by
  unfold tooDeep
  cases depth with
  | none => simp
  | some d => simp [parts_eq_components]

theorem components_one {a : Str} : components a = 1 ↔ ':' ∉ a := by
  unfold components
  constructor
  · intro h hm
    have : 0 < (a.filter (fun c => c = ':')).length := List.length_pos_of_mem (List.mem_filter.mpr ⟨hm, by simp⟩)
    omega
  · intro h
    have : a.filter (fun c => c = ':') = [] := List.filter_eq_nil_iff.mpr (fun c hc => by
      simp only [decide_eq_true_eq]
      rintro rfl
      exact h hc)
    rw [this]; rfl

/-! ### Adding up -/

/-- The outermost lines add up to the outermost rows. -/
theorem printLoop_outer {depth : Option Nat} (hd : depth ≠ some 0) (s : Str → Shuf) (c : Cur) : ∀ (k : Nat) (rows : List (Str × Balance)),
    rows.length ≤ k → (∀ e ∈ rows, e.2.Canon) →
    shownSum ((printLoop false depth s k rows).filter (fun l => l.indent = 1)) c =
      ((rows.filter (fun e => parts e.1 = 1)).map (fun e => e.2.amountOf c)).sum := by
  have hdeep : ∀ a, parts a = 1 → tooDeep depth a = false := by
    intro a ha
    rw [tooDeep_false]
    intro d hdd
    rw [parts_eq_components] at ha
    rw [ha]
    rcases d with _ | d
    · exact absurd hdd hd
    · omega
  intro k
  induction k with
  | zero =>
    intro rows hk _
    have : rows = [] := List.length_eq_zero_iff.mp (by omega)
    subst this
    rfl
  | succ k ih =>
    intro rows hk hc
    cases rows with
    | nil => rfl
    | cons e rest =>
      obtain ⟨a, b⟩ := e
      simp only [List.length_cons] at hk
      have hrest : ∀ e ∈ rest, e.2.Canon := fun e he => hc e (List.mem_cons_of_mem _ he)
      unfold printLoop
      by_cases h1 : tooDeep depth a = true
      · rw [if_pos h1, ih rest (by omega) hrest]
        have : parts a ≠ 1 := fun h => by rw [hdeep a h] at h1; cases h1
        rw [List.filter_cons_of_neg (by simpa using this)]
      · rw [if_neg h1]
        by_cases h2 : b.isZero = true
        · rw [if_pos h2, ih rest (by omega) hrest]
          by_cases hp : parts a = 1
          · rw [List.filter_cons_of_pos (by simpa using hp), List.map_cons, List.sum_cons,
              (Balance.isZero_iff (hc (a, b) (by simp)).toWF).mp h2 c]
            simp
          · rw [List.filter_cons_of_neg (by simpa using hp)]
        · rw [if_neg h2]
          simp only [Bool.false_eq_true, if_false]
          obtain ⟨d, d1, d2, _⟩ := collapseLoop_drops a rest (parts a) (lastPart a)
            (by rw [parts_eq_components]; exact components_pos a)
          have hk' := ih (collapseLoop a rest (parts a) (lastPart a)).2 (by
            have := congrArg List.length d1
            simp only [List.length_append] at this
            omega) (fun e he => hrest e (by rw [d1]; exact List.mem_append_right _ he))
          have hfil : rest.filter (fun e => decide (parts e.1 = 1)) =
              (collapseLoop a rest (parts a) (lastPart a)).2.filter (fun e => decide (parts e.1 = 1)) := by
            conv => lhs; rw [d1]
            rw [List.filter_append, List.filter_eq_nil_iff.mpr (fun e he => by simpa using d2 e he), List.nil_append]
          by_cases hp : parts a = 1
          · rw [List.filter_cons_of_pos (by simpa using hp), List.filter_cons_of_pos (by simpa using hp)]
            unfold shownSum at hk' ⊢
            rw [List.map_cons, List.sum_cons, hk', List.map_cons, List.sum_cons, hfil,
              (Canon.shows (hc (a, b) (by simp)) (s a)).sum]
          · rw [List.filter_cons_of_neg (by simpa using hp), List.filter_cons_of_neg (by simpa using hp), hk', hfil]

/-- The first component of a name. -/
def headOf (s : Str) : Str := s.takeWhile (fun c => c ≠ ':')

theorem headOf_spec (s : Str) : ':' ∉ headOf s ∧ Below (headOf s) s := by
  induction s with
  | nil => exact ⟨by simp [headOf], Or.inl rfl⟩
  | cons x s ih =>
    unfold headOf at ih ⊢
    by_cases hx : x = ':'
    · subst hx
      exact ⟨by simp, Or.inr ⟨s, by simp⟩⟩
    · rw [List.takeWhile_cons_of_pos (by simpa using hx)]
      refine ⟨by simpa [eq_comm] using ⟨hx, by simpa using ih.1⟩, ?_⟩
      rcases ih.2 with h | ⟨r, h⟩
      · left; rw [← h]
      · right; exact ⟨r, by rw [List.cons_append, ← h]⟩

theorem headOf_noColon (s : Str) : ':' ∉ headOf s := (headOf_spec s).1

theorem below_head {a s : Str} (ha : ':' ∉ a) : Below a s ↔ headOf s = a := by
  constructor
  · rintro (rfl | ⟨r, rfl⟩)
    · exact (takeWhile_component s [] ha).2
    · exact (takeWhile_component a r ha).1
  · rintro rfl
    exact (headOf_spec s).2

theorem sum_ite_one {H : List Str} (hn : H.Nodup) {h : Str} (hm : h ∈ H) (v : Rat) : (H.map (fun a => if h = a then v else 0)).sum = v := by
  induction H with
  | nil => cases hm
  | cons x H ih =>
    rw [List.map_cons, List.sum_cons]
    rw [List.nodup_cons] at hn
    by_cases hx : h = x
    · subst hx
      rw [if_pos rfl]
      have : (H.map (fun a => if h = a then v else 0)).sum = 0 := by
        apply List.sum_eq_zero
        intro y hy
        obtain ⟨a, ha, rfl⟩ := List.mem_map.mp hy
        rw [if_neg]
        rintro rfl
        exact hn.1 ha
      rw [this]; simp
    · rw [if_neg hx, ih hn.2 (by rcases List.mem_cons.mp hm with h' | h'; exacts [absurd h' hx, h'])]
      simp

theorem sum_heads {H : List Str} (hn : H.Nodup) (hc : ∀ a ∈ H, ':' ∉ a) (c : Cur) : ∀ (sel : List (Txn Posting × Posting)),
    (∀ x ∈ sel, headOf x.2.account ∈ H) →
    (H.map (fun a => selSum sel (fun x => Below a x) c)).sum = selSum sel (fun _ => true) c := by
  intro sel
  induction sel with
  | nil => intro _; simp [selSum, sumIn]
  | cons x sel ih =>
    intro h
    rw [selSum_cons, ← ih (fun y hy => h y (List.mem_cons_of_mem _ hy))]
    have h1 : H.map (fun a => selSum (x :: sel) (fun x => decide (Below a x)) c) =
        H.map (fun a => (if headOf x.2.account = a then (x.2.amount.getD .zero).amountIn c else 0) + selSum sel (fun x => decide (Below a x)) c) := by
      apply List.map_congr_left
      intro a ha
      rw [selSum_cons]
      simp only [decide_eq_true_eq, below_head (hc a ha)]
    rw [h1, List.sum_map_add, sum_ite_one hn (h x (by simp)), if_pos rfl]

/-! ### The outermost rows -/

theorem mem_prefixLoop {a : Str} : ∀ (L : List Str) (p : Str) (acc : List Str), a ∈ acc → a ∈ prefixLoop L p acc := by
  intro L
  induction L with
  | nil => intro p acc h; exact h
  | cons x L ih => intro p acc h; exact ih _ _ ((mem_setInsert _ _ _).mpr (Or.inr h))

theorem splitColon_head (s : Str) : ∃ L, splitColon s = headOf s :: L := by
  have hj := joinColon_splitColon s
  have hne := splitColon_ne_nil s
  have hnc := splitColon_noColon s
  cases hs : splitColon s with
  | nil => exact absurd hs hne
  | cons x L =>
    rw [hs] at hj hnc
    have hx : Below x s := by
      by_cases hL : L = []
      · subst hL; left; rw [← hj]; rfl
      · right; exact ⟨_, by rw [← hj, joinColon_cons hL]⟩
    exact ⟨L, by rw [(below_head (hnc x (by simp))).mp hx]⟩

theorem head_mem_treeAccounts (l : List (Str × Balance)) : ∀ e ∈ l, headOf e.1 ∈ treeAccounts l := by
  unfold treeAccounts
  suffices ∀ acc : List Str, (∀ a ∈ acc, a ∈ l.foldl (fun acc e => prefixLoop (splitColon e.1) [] acc) acc) ∧
      ∀ e ∈ l, headOf e.1 ∈ l.foldl (fun acc e => prefixLoop (splitColon e.1) [] acc) acc from (this []).2
  induction l with
  | nil => intro acc; exact ⟨fun a h => h, by simp⟩
  | cons x l ih =>
    intro acc
    rw [List.foldl_cons]
    refine ⟨fun a h => (ih _).1 a (mem_prefixLoop _ _ _ h), ?_⟩
    intro e he
    rcases List.mem_cons.mp he with rfl | he
    · refine (ih _).1 _ ?_
      obtain ⟨L, hL⟩ := splitColon_head e.1
      rw [hL, prefixLoop]
      exact mem_prefixLoop _ _ _ ((mem_setInsert _ _ _).mpr (Or.inl (by simp)))
    · exact (ih _).2 e he

/-- The outermost rows of the tree report, whatever the names are. -/
theorem treeRows_tops {o : BalOrders} {bals : Balances} {sel : List (Txn Posting × Posting)} (h : Collected bals sel) :
    ((treeRows o bals).map Prod.fst).Nodup ∧ (∀ e ∈ treeRows o bals, e.2.Canon) ∧
    (∀ e ∈ treeRows o bals, ':' ∉ e.1 → ∀ c, e.2.amountOf c = selSum sel (fun x => Below e.1 x) c) ∧
    ∀ a, ':' ∉ a → (a ∈ (treeRows o bals).map Prod.fst ↔ Left sel a) := by
  have hp : (o.own.run bals).Perm bals := o.own.perm bals
  have hn : ((o.own.run bals).map Prod.fst).Nodup := (hp.map _).nodup_iff.mpr h.nodup
  have hacc := head_mem_treeAccounts (o.own.run bals)
  have hown := ownBalances_eq hn
  have hps : (sortBy (fun a b => decide (colons a ≤ colons b))
      (o.accounts.run (treeAccounts (o.own.run bals)))).Perm (treeAccounts (o.own.run bals)) :=
    (sortBy_perm _ _).trans (o.accounts.perm _)
  have hsorted := sortBy_sorted colonsLe_total (o.accounts.run (treeAccounts (o.own.run bals)))
  have h0 : Rolled (o.own.run bals) (o.own.run bals) [] :=
    ⟨hn, fun e he => h.canon e (hp.mem_iff.mp he), fun _ _ => rfl, by intro a ha; cases ha⟩
  have hr := Rolled.foldl (m0 := o.own.run bals) hn o.roll _ h0
    (by simpa using hps.nodup_iff.mpr (treeAccounts_nodup _))
    (by simpa using hsorted)
  rw [List.nil_append] at hr
  have hsum : ∀ P c, balSum (o.own.run bals) P c = selSum sel P c := fun P c => by
    rw [balSum_perm hp, h.sum]
  unfold treeRows
  simp only [hown]
  generalize hacs : sortBy (fun a b => decide (colons a ≤ colons b))
      (o.accounts.run (treeAccounts (o.own.run bals))) = acs at *
  generalize hnb : acs.foldl (rollStep o.roll) (o.own.run bals) = nb at *
  have hpr : (o.rows.run nb).Perm nb := o.rows.perm nb
  have hget : ∀ a b, (a, b) ∈ nb → ':' ∉ a → a ∈ acs := by
    intro a b hab hcol
    by_contra ha
    have h1 := hr.rest a ha
    rw [HMap.get?_of_mem hr.nodup hab] at h1
    have h2 := hacc (a, b) (HMap.mem_of_get? h1.symm)
    rw [(below_head (s := a) hcol).mp (Or.inl rfl)] at h2
    exact ha (hps.mem_iff.mpr h2)
  have ham : ∀ a b, (a, b) ∈ nb → ':' ∉ a → ∀ c, b.amountOf c = selSum sel (fun x => Below a x) c := by
    intro a b hab hcol c
    obtain ⟨b', hb', hs⟩ := hr.sums a (hget a b hab hcol)
    rw [HMap.get?_of_mem hr.nodup hab] at hb'
    cases hb'
    rw [hs c, hsum, headed_below]
  refine ⟨?_, ?_, ?_, ?_⟩
  · exact ((hpr.map Prod.fst).nodup_iff.mpr hr.nodup).sublist (List.filter_sublist.map _)
  · intro e he
    exact hr.canon _ (hpr.mem_iff.mp (List.mem_filter.mp he).1)
  · rintro ⟨a, b⟩ he hcol c
    exact ham a b (hpr.mem_iff.mp (List.mem_filter.mp he).1) hcol c
  · intro a hcol
    constructor
    · intro ha
      obtain ⟨⟨a, b⟩, he, rfl⟩ := List.mem_map.mp ha
      obtain ⟨he1, he2⟩ := List.mem_filter.mp he
      have he1 := hpr.mem_iff.mp he1
      obtain ⟨c, hc⟩ := (Canon.isZero_false (hr.canon _ he1)).mp (by simpa using he2)
      exact ⟨c, by rw [← ham a b he1 hcol c]; exact hc⟩
    · rintro ⟨c, hc⟩
      have hex : ∃ e ∈ o.own.run bals, Below a e.1 := by
        by_contra hno
        apply hc
        rw [← hsum]
        exact balSum_of_zero (fun e he hP => absurd ⟨e, he, by simpa using hP⟩ hno)
      obtain ⟨e, he, hP⟩ := hex
      have ha : a ∈ acs := by
        have := hacc e he
        rw [(below_head hcol).mp hP] at this
        exact hps.mem_iff.mpr this
      obtain ⟨b, hb, hs⟩ := hr.sums a ha
      have hmem := HMap.mem_of_get? hb
      refine List.mem_map.mpr ⟨(a, b), List.mem_filter.mpr ⟨hpr.mem_iff.mpr hmem, ?_⟩, rfl⟩
      have hbz : b.isZero ≠ true := by
        intro hz
        exact hc (by rw [← ham a b hmem hcol c]; exact (Balance.isZero_iff (hr.canon _ hmem).toWF).mp hz c)
      simpa using hbz

/-- Sums over lists that differ in zeros only. -/
theorem sum_zeros {α : Type} [DecidableEq α] {T H : List α} (hT : T.Nodup) (hH : H.Nodup) (hs : ∀ a ∈ T, a ∈ H) {f : α → Rat}
    (hz : ∀ a ∈ H, a ∉ T → f a = 0) : (T.map f).sum = (H.map f).sum := by
  rw [← List.sum_toFinset f hT, ← List.sum_toFinset f hH]
  exact Finset.sum_subset (fun a ha => by simpa using hs a (by simpa using ha)) (fun a ha hb => hz a (by simpa using ha) (by simpa using hb))

/-- What is left on the outermost accounts is everything that was selected. -/
theorem sum_tops {T : List Str} {sel : List (Txn Posting × Posting)} (hT : T.Nodup) (h : ∀ a, a ∈ T ↔ ':' ∉ a ∧ Left sel a) (c : Cur) :
    (T.map (fun a => selSum sel (fun x => Below a x) c)).sum = selSum sel (fun _ => true) c := by
  rw [← sum_heads (H := (sel.map (fun x => headOf x.2.account)).dedup) (List.nodup_dedup _) ?_ c sel ?_]
  · refine sum_zeros hT (List.nodup_dedup _) ?_ ?_
    · intro a ha
      obtain ⟨h1, h2⟩ := (h a).mp ha
      obtain ⟨x, hx, hb⟩ := h2.exists
      rw [List.mem_dedup]
      exact List.mem_map.mpr ⟨x, hx, (below_head h1).mp hb⟩
    · intro a ha hn
      by_contra h0
      rw [List.mem_dedup] at ha
      obtain ⟨x, _, rfl⟩ := List.mem_map.mp ha
      exact hn ((h _).mpr ⟨headOf_noColon _, c, h0⟩)
  · intro a ha
    rw [List.mem_dedup] at ha
    obtain ⟨x, _, rfl⟩ := List.mem_map.mp ha
    exact headOf_noColon _
  · intro x hx
    rw [List.mem_dedup]
    exact List.mem_map.mpr ⟨x, hx, rfl⟩

theorem noColon_of {a : Str} (h : decide (parts a = 1) = true) : ':' ∉ a :=
  components_one.mp (by rw [← parts_eq_components]; simpa using h)

theorem mem_tops {sel : List (Txn Posting × Posting)} {rows : List (Str × Balance)}
    (h : ∀ a, ':' ∉ a → (a ∈ rows.map Prod.fst ↔ Left sel a)) (a : Str) :
    a ∈ (rows.filter (fun e => parts e.1 = 1)).map Prod.fst ↔ ':' ∉ a ∧ Left sel a := by
  constructor
  · intro ha
    obtain ⟨e, he, rfl⟩ := List.mem_map.mp ha
    obtain ⟨h1, h2⟩ := List.mem_filter.mp he
    exact ⟨noColon_of h2, (h _ (noColon_of h2)).mp (List.mem_map_of_mem h1)⟩
  · rintro ⟨h1, h2⟩
    obtain ⟨e, he, rfl⟩ := List.mem_map.mp ((h a h1).mpr h2)
    refine List.mem_map_of_mem (List.mem_filter.mpr ⟨he, ?_⟩)
    rw [decide_eq_true_eq, parts_eq_components]
    exact components_one.mpr h1

/-- The amounts of the outermost rows, converted or not, add up to the total, converted or not. -/
theorem sum_converted {sel : List (Txn Posting × Posting)} {ms : HMap Cur Rat} {target : Cur} {rows : List (Str × Balance)}
    (hn : (rows.map Prod.fst).Nodup) (h : ∀ a, ':' ∉ a → (a ∈ rows.map Prod.fst ↔ Left sel a))
    (hc : ∀ e ∈ rows, ':' ∉ e.1 → ConvertedTo ms target (selSum sel (fun x => Below e.1 x)) e.2.amountOf)
    {g : Cur → Rat} (hg : ConvertedTo ms target (selSum sel (fun _ => true)) g) (c : Cur) :
    ((rows.filter (fun e => parts e.1 = 1)).map (fun e => e.2.amountOf c)).sum = g c := by
  have hT : ((rows.filter (fun e => parts e.1 = 1)).map Prod.fst).Nodup := hn.sublist (List.filter_sublist.map _)
  have hTm := mem_tops h
  have hsum : ∀ d, ((rows.filter (fun e => parts e.1 = 1)).map (fun e => selSum sel (fun x => Below e.1 x) d)).sum =
      selSum sel (fun _ => true) d := by
    intro d
    have := sum_tops hT hTm d
    rw [List.map_map] at this
    exact this
  by_cases hct : c = target
  · subst hct
    let D := (sel.filterMap (fun x => x.2.amount.bind Money.commodity)).dedup
    have hcov : ∀ (P : Str → Bool) d, selSum sel P d ≠ 0 → d ∈ D := by
      intro P d hd
      refine selSum_other (cs := D) ?_ hd
      intro x hx m hm d hmd
      rw [List.mem_dedup]
      refine List.mem_filterMap.mpr ⟨x, hx, ?_⟩
      rw [Option.mem_def.mp hm]
      unfold Money.amountIn at hmd
      by_contra hne
      exact hmd (if_neg hne)
    rw [hg.total D (List.nodup_dedup _) (hcov _)]
    have h1 : (rows.filter (fun e => decide (parts e.1 = 1))).map (fun e => e.2.amountOf c) =
        (rows.filter (fun e => decide (parts e.1 = 1))).map (fun e => (D.map (fun d => selSum sel (fun x => Below e.1 x) d * rateOf ms c d)).sum) := by
      apply List.map_congr_left
      intro e he
      exact (hc e (List.mem_filter.mp he).1 (noColon_of (List.mem_filter.mp he).2)).total D (List.nodup_dedup _) (hcov _)
    rw [h1]
    have h2 : ∀ L : List (Str × Balance), (L.map (fun e => (D.map (fun d => selSum sel (fun x => Below e.1 x) d * rateOf ms c d)).sum)).sum =
        (D.map (fun d => (L.map (fun e => selSum sel (fun x => Below e.1 x) d)).sum * rateOf ms c d)).sum := by
      intro L
      induction L with
      | nil => simp
      | cons e L ih =>
        rw [List.map_cons, List.sum_cons, ih, ← List.sum_map_add]
        congr 1
        apply List.map_congr_left
        intro d _
        rw [List.map_cons, List.sum_cons]
        ring
    rw [h2]
    congr 1
    apply List.map_congr_left
    intro d _
    rw [hsum]
  · rw [hg.rest c hct, ← hsum]
    have h1 : (rows.filter (fun e => decide (parts e.1 = 1))).map (fun e => e.2.amountOf c) =
        (rows.filter (fun e => decide (parts e.1 = 1))).map (fun e => if (ms.get? c).isSome then 0 else selSum sel (fun x => Below e.1 x) c) := by
      apply List.map_congr_left
      intro e he
      exact (hc e (List.mem_filter.mp he).1 (noColon_of (List.mem_filter.mp he).2)).rest c hct
    rw [h1]
    split
    · apply List.sum_eq_zero
      intro y hy
      obtain ⟨_, _, rfl⟩ := List.mem_map.mp hy
      rfl
    · rfl

end Dinero
