import Verif.Spec.Report
import Verif.Lemmas.Balance
import Verif.Lemmas.Sort
import Verif.Lemmas.List
import Mathlib.Algebra.BigOperators.Group.List.Basic
import Mathlib.Tactic.Ring
import Mathlib.Tactic.Linarith
/-
Lemmas about the reports.
-/
namespace Dinero

/-! ### Selection -/

theorem Selects.append {env : Env} {o : FilterOpts} {node : Option Ast}
    {l l' sel sel' : List (Txn Posting × Posting)} {st st' st'' : Commodities}
    (h : Selects env o node l st sel st') (h' : Selects env o node l' st' sel' st'') :
    Selects env o node (l ++ l') st (sel ++ sel') st'' := by
  induction h with
  | nil st => exact h'
  | keep h _ ih => exact .keep h (ih h')
  | drop h _ ih => exact .drop h (ih h')

/-- The filter determines the selection. -/
theorem Selects.unique {env : Env} {o : FilterOpts} {node : Option Ast}
    {l sel sel' : List (Txn Posting × Posting)} {st st' st'' : Commodities}
    (h : Selects env o node l st sel st') (h' : Selects env o node l st sel' st'') :
    sel = sel' ∧ st' = st'' := by
  induction h generalizing sel' st'' with
  | nil st => cases h'; exact ⟨rfl, rfl⟩
  | keep h _ ih =>
    cases h' with
    | keep g gr => rw [h] at g; cases g; obtain ⟨rfl, rfl⟩ := ih gr; exact ⟨rfl, rfl⟩
    | drop g gr => rw [h] at g; cases g
  | drop h _ ih =>
    cases h' with
    | keep g gr => rw [h] at g; cases g
    | drop g gr => rw [h] at g; cases g; exact ih gr

theorem Selected.unique {env : Env} {opts : ReportOpts} {l : Ledger}
    {sel sel' : List (Txn Posting × Posting)} (h : Selected env opts l sel)
    (h' : Selected env opts l sel') : sel = sel' := by
  obtain ⟨node, st, hn, hs⟩ := h
  obtain ⟨node', st', hn', hs'⟩ := h'
  rw [hn] at hn'; cases hn'
  exact (hs.unique hs').1

/-- Adding one selected posting to the account balances. -/
def addSel (bals : Balances) (x : Txn Posting × Posting) : Balances :=
  bals.insert x.2.account (Balance.add ((bals.get? x.2.account).getD Balance.new)
    (Balance.ofMoney (x.2.amount.getD .zero)))

theorem collectPostings_spec {env : Env} {o : FilterOpts} {node : Option Ast} {t : Txn Posting}
    (ps : List Posting) {bals bals' : Balances} {st st' : Commodities}
    (h : collectPostings env o node t ps bals st = .ok (bals', st')) :
    ∃ sel, Selects env o node (ps.map (fun p => (t, p))) st sel st' ∧
      (∀ x ∈ sel, x.2.amount.isSome) ∧ bals' = sel.foldl addSel bals := by
  induction ps generalizing bals st with
  | nil => simp only [collectPostings] at h; cases h; exact ⟨[], .nil _, by simp, rfl⟩
  | cons p ps ih =>
    unfold collectPostings at h
    split at h
    · cases h
    · next st1 hf =>
      obtain ⟨sel, hs, ha, hb⟩ := ih h
      exact ⟨sel, .drop hf hs, ha, hb⟩
    · next st1 hf =>
      split at h
      · cases h
      · next b1 hb1 =>
        obtain ⟨sel, hs, ha, hb⟩ := ih h
        unfold collectPosting at hb1
        split at hb1
        · cases hb1
        · next m hm =>
          cases hb1
          refine ⟨(t, p) :: sel, .keep hf hs, ?_, ?_⟩
          · intro x hx
            rcases List.mem_cons.mp hx with rfl | hx
            · simp [hm]
            · exact ha x hx
          · rw [hb]; simp [addSel, hm]

theorem collectAll_spec {env : Env} {o : FilterOpts} {node : Option Ast} (ts : List (Txn Posting))
    {bals bals' : Balances} {st st' : Commodities}
    (h : collectAll env o node ts bals st = .ok (bals', st')) :
    ∃ sel, Selects env o node (ts.flatMap (fun t => t.postings.map (fun p => (t, p)))) st sel st' ∧
      (∀ x ∈ sel, x.2.amount.isSome) ∧ bals' = sel.foldl addSel bals := by
  induction ts generalizing bals st with
  | nil => simp only [collectAll] at h; cases h; exact ⟨[], .nil _, by simp, rfl⟩
  | cons t ts ih =>
    unfold collectAll at h
    split at h
    · cases h
    · next b1 st1 h1 =>
      obtain ⟨sel1, hs1, ha1, hb1⟩ := collectPostings_spec _ h1
      obtain ⟨sel, hs, ha, hb⟩ := ih h
      refine ⟨sel1 ++ sel, hs1.append hs, ?_, ?_⟩
      · intro x hx; rcases List.mem_append.mp hx with hx | hx
        · exact ha1 x hx
        · exact ha x hx
      · rw [hb, hb1, List.foldl_append]

/-! ### Sums over account maps -/

/-- The amount of `c` over the entries whose name satisfies `P`. -/
def balSum (bals : List (Str × Balance)) (P : Str → Bool) (c : Cur) : Rat :=
  ((bals.filter (fun e => P e.1)).map (fun e => e.2.amountOf c)).sum

@[simp] theorem balSum_nil (P : Str → Bool) (c : Cur) : balSum [] P c = 0 := rfl

theorem balSum_cons (e : Str × Balance) (l : List (Str × Balance)) (P : Str → Bool) (c : Cur) :
    balSum (e :: l) P c = (if P e.1 then e.2.amountOf c else 0) + balSum l P c := by
  unfold balSum; by_cases h : P e.1 <;> simp [h]

theorem balSum_perm {l l' : List (Str × Balance)} (h : l.Perm l') (P : Str → Bool) (c : Cur) :
    balSum l P c = balSum l' P c := ((h.filter _).map _).sum_eq

theorem balSum_insert (m : Balances) (a : Str) (b : Balance) (P : Str → Bool) (c : Cur) :
    balSum (m.insert a b) P c = balSum m P c +
      (if P a then b.amountOf c - ((m.get? a).getD []).amountOf c else 0) := by
  induction m with
  | nil => simp [HMap.insert, balSum_cons, HMap.get?, Balance.amountOf, sumIn]
  | cons e m ih =>
    obtain ⟨k, v⟩ := e
    unfold HMap.insert; rw [HMap.get?_cons]
    by_cases hk : k = a
    · subst hk; simp only [if_true, balSum_cons]; by_cases hP : P k <;> simp [hP] ; ring
    · simp only [if_neg hk, balSum_cons, ih]; ring

theorem balSum_of_zero {l : List (Str × Balance)} {P : Str → Bool} {c : Cur}
    (h : ∀ e ∈ l, P e.1 → e.2.amountOf c = 0) : balSum l P c = 0 := by
  induction l with
  | nil => rfl
  | cons e l ih =>
    rw [balSum_cons, ih (fun x hx => h x (List.mem_cons_of_mem _ hx))]
    by_cases hP : P e.1
    · simp [hP, h e (by simp) hP]
    · simp [hP]

theorem balSum_eq_single {l : List (Str × Balance)} (hn : (l.map Prod.fst).Nodup) {a : Str}
    {b : Balance} (h : (a, b) ∈ l) (c : Cur) : balSum l (fun n => n == a) c = b.amountOf c := by
  induction l with
  | nil => cases h
  | cons e l ih =>
    rw [List.map_cons, List.nodup_cons] at hn
    rw [balSum_cons]
    rcases List.mem_cons.mp h with rfl | h
    · rw [balSum_of_zero]; · simp
      intro x hx hxa
      exact absurd (List.mem_map_of_mem (f := Prod.fst) hx) (by rw [eq_of_beq hxa]; exact hn.1)
    · rw [ih hn.2 h]
      have : e.1 ≠ a := fun he => hn.1 (he ▸ List.mem_map_of_mem (f := Prod.fst) h)
      simp [this]

theorem balSum_congr {l : List (Str × Balance)} {P Q : Str → Bool} {c : Cur}
    (h : ∀ e ∈ l, P e.1 = Q e.1) : balSum l P c = balSum l Q c := by
  unfold balSum; rw [List.filter_congr h]

theorem balSum_nonzero (l : List (Str × Balance)) (hw : ∀ e ∈ l, e.2.WF) (P : Str → Bool) (c : Cur) :
    balSum (l.filter (fun e => !e.2.isZero)) P c = balSum l P c := by
  induction l with
  | nil => rfl
  | cons e l ih =>
    have ih := ih (fun x hx => hw x (List.mem_cons_of_mem _ hx))
    by_cases hz : e.2.isZero = true
    · rw [List.filter_cons_of_neg (by simp [hz]), ih, balSum_cons,
        (Balance.isZero_iff (hw e (by simp))).mp hz c]; simp
    · rw [List.filter_cons_of_pos (by simp [hz]), balSum_cons, balSum_cons, ih]

theorem balSum_foldl (l : List (Str × Balance)) (acc : Balance) (ha : acc.WF) (hw : ∀ e ∈ l, e.2.WF) :
    (l.foldl (fun acc e => Balance.add acc e.2) acc).WF ∧
    ∀ c, (l.foldl (fun acc e => Balance.add acc e.2) acc).amountOf c =
      acc.amountOf c + balSum l (fun _ => true) c := by
  induction l generalizing acc with
  | nil => exact ⟨ha, fun c => by simp⟩
  | cons e l ih =>
    have hwe := hw e (by simp)
    obtain ⟨h1, h2⟩ := ih (Balance.add acc e.2) (Balance.add_canon ha hwe).toWF
      (fun x hx => hw x (List.mem_cons_of_mem _ hx))
    refine ⟨h1, fun c => ?_⟩
    rw [List.foldl_cons, h2, Balance.amountOf_add ha hwe, balSum_cons]; simp; ring

theorem canon_foldl (l : List (Str × Balance)) (acc : Balance) (ha : acc.Canon)
    (hw : ∀ e ∈ l, e.2.WF) : (l.foldl (fun acc e => Balance.add acc e.2) acc).Canon := by
  induction l generalizing acc with
  | nil => exact ha
  | cons e l ih =>
    exact ih _ (Balance.add_canon ha.toWF (hw e (by simp)))
      (fun x hx => hw x (List.mem_cons_of_mem _ hx))

/-- Account balances as the reports build them. -/
structure Collected (bals : Balances) (sel : List (Txn Posting × Posting)) : Prop where
  nodup : bals.keys.Nodup
  canon : ∀ e ∈ bals, e.2.Canon
  sum : ∀ P c, balSum bals P c = selSum sel P c
  mem : ∀ a, a ∈ bals.keys ↔ ∃ x ∈ sel, x.2.account = a

theorem selSum_cons (x : Txn Posting × Posting) (sel : List (Txn Posting × Posting))
    (P : Str → Bool) (c : Cur) :
    selSum (x :: sel) P c =
      (if P x.2.account then (x.2.amount.getD .zero).amountIn c else 0) + selSum sel P c := by
  unfold selSum
  by_cases h : P x.2.account
  · cases hm : x.2.amount <;> simp [h, hm, sumIn, Money.amountIn, Money.commodity]
  · simp [h]

theorem selSum_append (s s' : List (Txn Posting × Posting)) (P : Str → Bool) (c : Cur) :
    selSum (s ++ s') P c = selSum s P c + selSum s' P c := by
  induction s with
  | nil => simp [selSum, sumIn]
  | cons x s ih => rw [List.cons_append, selSum_cons, selSum_cons, ih]; ring

theorem Collected.step {bals : Balances} {sel : List (Txn Posting × Posting)}
    (h : Collected bals sel) (x : Txn Posting × Posting) :
    Collected (addSel bals x) (sel ++ [x]) := by
  have hw : ((bals.get? x.2.account).getD Balance.new).WF := by
    cases hg : bals.get? x.2.account with
    | none => exact Balance.WF.nil
    | some b => exact (h.canon _ (HMap.mem_of_get? hg)).toWF
  have hm := Balance.ofMoney_wf (x.2.amount.getD .zero)
  refine ⟨HMap.nodup_keys_insert _ _ _ h.nodup, ?_, ?_, ?_⟩
  · intro e he
    rcases (HMap.mem_insert h.nodup).mp he with he | he
    · rw [he]; exact Balance.add_canon hw hm
    · exact h.canon e he.1
  · intro P c
    unfold addSel
    rw [balSum_insert, h.sum, selSum_append, selSum_cons, Balance.amountOf_add hw hm,
      Balance.amountOf_ofMoney]
    by_cases hP : P x.2.account
    · simp [hP, selSum, sumIn, Balance.new]
    · simp [hP, selSum, sumIn]
  · intro a
    unfold addSel
    rw [HMap.mem_keys_insert, h.mem]
    constructor
    · rintro (rfl | ⟨y, hy, rfl⟩)
      · exact ⟨x, by simp, rfl⟩
      · exact ⟨y, by simp [hy], rfl⟩
    · rintro ⟨y, hy, rfl⟩
      rcases List.mem_append.mp hy with hy | hy
      · exact Or.inr ⟨y, hy, rfl⟩
      · rw [List.mem_singleton.mp hy]; exact Or.inl rfl

theorem Collected.foldl {bals : Balances} {sel sel' : List (Txn Posting × Posting)}
    (h : Collected bals sel) : Collected (sel'.foldl addSel bals) (sel ++ sel') := by
  induction sel' generalizing bals sel with
  | nil => simpa using h
  | cons x s ih => have := ih (h.step x); simpa using this

/-- What the collecting loops compute. -/
theorem collected {env : Env} {o : FilterOpts} {node : Option Ast} {l : Ledger}
    {bals : Balances} {st : Commodities}
    (h : collectAll env o node l.transactions [] l.commodities = .ok (bals, st)) :
    ∃ sel, Selects env o node l.entries l.commodities sel st ∧ (∀ x ∈ sel, x.2.amount.isSome) ∧
      Collected bals sel := by
  obtain ⟨sel, hs, ha, hb⟩ := collectAll_spec _ h
  refine ⟨sel, hs, ha, ?_⟩
  have h0 : Collected [] [] := ⟨by simp [HMap.keys], (by intro e he; cases he),
    fun P c => by simp [selSum, sumIn], by simp [HMap.keys]⟩
  have := h0.foldl (sel' := sel)
  rw [hb]; simpa using this

/-! ### Order and shown amounts -/

theorem strLe_iff (a b : Str) : strLe a b = true ↔ ¬ b < a := by simp [strLe]

theorem str_lt_of {a b : Str} (h : ¬ b < a) (hne : a ≠ b) : a < b := by
  by_contra h'
  exact hne (List.le_antisymm (List.not_lt.mp h) (List.not_lt.mp h'))

theorem strLe_total : TotalLe (fun a b : Str => strLe a b) := by
  constructor
  · intro a b
    simp only [strLe_iff, List.not_lt]
    exact List.le_total a b
  · intro a b c h1 h2
    simp only [strLe_iff, List.not_lt] at *
    exact List.le_trans h1 h2

theorem nameLe_total {β : Type} : TotalLe (fun a b : Str × β => strLe a.1 b.1) :=
  ⟨fun a b => strLe_total.total a.1 b.1, fun a b c => strLe_total.trans a.1 b.1 c.1⟩

theorem sorted_strict {β : Type} {l : List (Str × β)} (hn : (l.map Prod.fst).Nodup) :
    ((sortBy (fun a b => strLe a.1 b.1) l).map Prod.fst).Pairwise (· < ·) := by
  have hs := sortBy_sorted (nameLe_total (β := β)) l
  have hn' : ((sortBy (fun a b => strLe a.1 b.1) l).map Prod.fst).Nodup :=
    ((sortBy_perm _ l).map _).nodup_iff.mpr hn
  generalize sortBy (fun a b : Str × β => strLe a.1 b.1) l = l' at *
  induction l' with
  | nil => exact List.Pairwise.nil
  | cons e l' ih =>
    rw [List.map_cons, List.nodup_cons] at hn'
    rw [List.pairwise_cons] at hs
    rw [List.map_cons, List.pairwise_cons]
    refine ⟨?_, ih hs.2 hn'.2⟩
    intro x hx
    obtain ⟨y, hy, rfl⟩ := List.mem_map.mp hx
    exact str_lt_of ((strLe_iff _ _).mp (hs.1 y hy)) (fun he => hn'.1 (he ▸ hx))

theorem Canon.shows {b : Balance} (h : b.Canon) (s : Shuf) :
    Shows ((s.run b).map Prod.snd) b.amountOf := by
  have h' := h.perm (s.perm b).symm
  refine ⟨fun c => ?_, ?_, ?_⟩
  · exact Balance.amountOf_perm (s.perm b) c
  · intro m hm
    obtain ⟨e, he, rfl⟩ := List.mem_map.mp hm
    have := h'.noZero e he
    intro h0
    rw [(Money.isZero_iff _).mpr h0] at this; cases this
  · have hk : ((s.run b).map Prod.snd).map Money.commodity = (s.run b).map Prod.fst := by
      rw [List.map_map]
      exact List.map_congr_left (fun e he => h'.toWF.key e he)
    rw [hk]; exact h'.toWF.nodup

/-! ### The flat printing loop -/

/-- A row is printed. -/
def printable (depth : Option Nat) (e : Str × Balance) : Bool :=
  !tooDeep depth e.1 && !e.2.isZero

theorem printLoop_flat (depth : Option Nat) (s : Str → Shuf) (k : Nat) (rows : List (Str × Balance))
    (h : rows.length ≤ k) : printLoop true depth s k rows =
      (rows.filter (printable depth)).map (fun e => ⟨((s e.1).run e.2).map Prod.snd, 0, e.1⟩) := by
  induction k generalizing rows with
  | zero =>
    have : rows = [] := List.length_eq_zero_iff.mp (Nat.le_zero.mp h)
    subst this; rfl
  | succ k ih =>
    cases rows with
    | nil => rfl
    | cons e rest =>
      obtain ⟨a, b⟩ := e
      have ih := ih rest (by simpa using h)
      unfold printLoop
      rw [List.filter_cons]
      by_cases hd : tooDeep depth a = true
      · simp [hd, printable, ih]
      · by_cases hz : b.isZero = true
        · simp [hd, hz, printable, ih]
        · simp [hd, hz, printable, ih]

/-! ### Account names -/

theorem splitColon_ne_nil (s : Str) : splitColon s ≠ [] := by
  cases s with
  | nil => simp [splitColon]
  | cons c s => unfold splitColon; split <;> [simp; (split <;> simp)]

theorem joinColon_cons {x : Str} {l : List Str} (h : l ≠ []) :
    joinColon (x :: l) = x ++ ':' :: joinColon l := by
  cases l with
  | nil => exact absurd rfl h
  | cons y l => rfl

theorem joinColon_cons_char (c : Char) (x : Str) (l : List Str) :
    joinColon ((c :: x) :: l) = c :: joinColon (x :: l) := by
  cases l <;> simp [joinColon]

theorem joinColon_splitColon (s : Str) : joinColon (splitColon s) = s := by
  induction s with
  | nil => rfl
  | cons c s ih =>
    unfold splitColon
    split
    · next h => exact absurd h (splitColon_ne_nil s)
    · next p ps h =>
      rw [h] at ih
      by_cases hc : c = ':'
      · subst hc; simp only [if_true]; rw [joinColon_cons (by simp), ih]; rfl
      · simp only [if_neg hc]; rw [joinColon_cons_char, ih]

theorem splitColon_noColon (s : Str) : ∀ x ∈ splitColon s, ':' ∉ x := by
  induction s with
  | nil => simp [splitColon]
  | cons c s ih =>
    unfold splitColon
    split
    · next h => exact absurd h (splitColon_ne_nil s)
    · next p ps h =>
      rw [h] at ih
      by_cases hc : c = ':'
      · subst hc; simp only [if_true]
        intro x hx
        rcases List.mem_cons.mp hx with rfl | hx
        · simp
        · exact ih x hx
      · simp only [if_neg hc]
        intro x hx
        rcases List.mem_cons.mp hx with rfl | hx
        · have := ih p (by simp)
          simp [Ne.symm hc, this]
        · exact ih x (List.mem_cons_of_mem _ hx)

theorem parts_eq_components (s : Str) : parts s = components s := by
  unfold parts components
  induction s with
  | nil => rfl
  | cons c s ih =>
    unfold splitColon
    split
    · next h => exact absurd h (splitColon_ne_nil s)
    · next p ps h =>
      rw [h] at ih
      by_cases hc : c = ':'
      · subst hc; simp only [if_true, List.length_cons] at *; simp at *; omega
      · simp only [if_neg hc, List.length_cons] at *
        rw [List.filter_cons_of_neg (by simpa using hc)]; exact ih

theorem components_eq_colons (s : Str) : components s = colons s + 1 := by
  unfold components colons
  rw [List.count_eq_length_filter]
  congr 3

theorem below_cons {q x J : Str} (hx : ':' ∉ x) :
    Below q (x ++ ':' :: J) ↔ q = x ∨ ∃ q', q = x ++ ':' :: q' ∧ Below q' J := by
  constructor
  · rintro (h | ⟨r, h⟩)
    · exact Or.inr ⟨J, h.symm, Or.inl rfl⟩
    · rcases List.append_eq_append_iff.mp h with ⟨t, h1, h2⟩ | ⟨t, h1, h2⟩
      · cases t with
        | nil => exact Or.inl (by simpa using h1)
        | cons y t =>
          simp only [List.cons_append, List.cons.injEq] at h2
          obtain ⟨rfl, h2⟩ := h2
          exact Or.inr ⟨t, h1, Or.inr ⟨r, h2⟩⟩
      · cases t with
        | nil => exact Or.inl (by simpa using h1.symm)
        | cons y t =>
          simp only [List.cons_append, List.cons.injEq] at h2
          exact absurd (by rw [h1, ← h2.1]; simp) hx
  · rintro (rfl | ⟨q', rfl, rfl | ⟨r, rfl⟩⟩)
    · exact Or.inr ⟨J, rfl⟩
    · exact Or.inl rfl
    · exact Or.inr ⟨r, by simp⟩

theorem below_noColon {q x : Str} (hx : ':' ∉ x) : Below q x ↔ q = x := by
  constructor
  · rintro (h | ⟨r, h⟩)
    · exact h.symm
    · exact absurd (by rw [h]; simp) hx
  · rintro rfl; exact Or.inl rfl

theorem below_join (L : List Str) (hne : L ≠ []) (hn : ∀ x ∈ L, ':' ∉ x) (q : Str) :
    Below q (joinColon L) ↔ ∃ L1 L2, L1 ≠ [] ∧ L = L1 ++ L2 ∧ q = joinColon L1 := by
  induction L generalizing q with
  | nil => exact absurd rfl hne
  | cons x L ih =>
    have hx := hn x (by simp)
    by_cases hL : L = []
    · subst hL
      rw [show joinColon [x] = x from rfl, below_noColon hx]
      constructor
      · rintro rfl; exact ⟨[q], [], by simp, by simp, rfl⟩
      · rintro ⟨L1, L2, h1, h2, rfl⟩
        cases L1 with
        | nil => exact absurd rfl h1
        | cons y L1 =>
          simp at h2; obtain ⟨rfl, rfl, _⟩ := h2; rfl
    · rw [joinColon_cons hL, below_cons hx]
      have ih := ih hL (fun y hy => hn y (List.mem_cons_of_mem _ hy))
      constructor
      · rintro (rfl | ⟨q', rfl, hq⟩)
        · exact ⟨[q], L, by simp, by simp, rfl⟩
        · obtain ⟨L1, L2, h1, rfl, rfl⟩ := (ih q').mp hq
          exact ⟨x :: L1, L2, by simp, by simp, (joinColon_cons h1).symm⟩
      · rintro ⟨L1, L2, h1, h2, rfl⟩
        cases L1 with
        | nil => exact absurd rfl h1
        | cons y L1 =>
          simp only [List.cons_append, List.cons.injEq] at h2
          obtain ⟨rfl, rfl⟩ := h2
          by_cases hL1 : L1 = []
          · subst hL1; exact Or.inl rfl
          · exact Or.inr ⟨joinColon L1, joinColon_cons hL1, (ih _).mpr ⟨L1, L2, hL1, rfl, rfl⟩⟩

theorem inSubtree_iff (a n : Str) : inSubtree a n = true ↔ Below a n := by
  unfold inSubtree Below
  rw [Bool.or_eq_true, beq_iff_eq, List.isPrefixOf_iff_prefix]
  constructor
  · rintro (h | ⟨r, h⟩)
    · exact Or.inl h
    · exact Or.inr ⟨r, by simpa using h.symm⟩
  · rintro (h | ⟨r, h⟩)
    · exact Or.inl h
    · exact Or.inr ⟨r, by simpa using h.symm⟩

theorem Below.colons {a n : Str} (h : Below a n) (hne : n ≠ a) : colons a < colons n := by
  rcases h with h | ⟨r, rfl⟩
  · exact absurd h hne
  · simp [Dinero.colons, List.count_append]

theorem prefixLoop_mem (L : List Str) (p : Str) (hp : p ≠ []) (acc : List Str) (a : Str) :
    a ∈ prefixLoop L p acc ↔
      a ∈ acc ∨ ∃ L1 L2, L1 ≠ [] ∧ L = L1 ++ L2 ∧ a = p ++ ':' :: joinColon L1 := by
  induction L generalizing p acc with
  | nil =>
    simp only [prefixLoop]
    constructor
    · exact Or.inl
    · rintro (h | ⟨L1, L2, h1, h2, _⟩)
      · exact h
      · simp at h2; exact absurd h2.1 h1
  | cons x L ih =>
    simp only [prefixLoop, if_neg hp]
    rw [ih _ (by simp), mem_setInsert]
    constructor
    · rintro ((h | h) | ⟨L1, L2, h1, rfl, rfl⟩)
      · exact Or.inr ⟨[x], L, by simp, by simp, by simpa [joinColon] using h⟩
      · exact Or.inl h
      · exact Or.inr ⟨x :: L1, L2, by simp, by simp, by rw [joinColon_cons h1]; simp⟩
    · rintro (h | ⟨L1, L2, h1, h2, rfl⟩)
      · exact Or.inl (Or.inr h)
      · cases L1 with
        | nil => exact absurd rfl h1
        | cons y L1 =>
          simp only [List.cons_append, List.cons.injEq] at h2
          obtain ⟨rfl, rfl⟩ := h2
          by_cases hL1 : L1 = []
          · subst hL1; exact Or.inl (Or.inl (by simp [joinColon]))
          · exact Or.inr ⟨L1, L2, hL1, rfl, by rw [joinColon_cons hL1]; simp⟩

/-- The name does not start with a colon. -/
def Headed (name : Str) : Prop := name.head? ≠ some ':'

theorem prefixLoop_name {name : Str} (h : Headed name) (acc : List Str) (a : Str) :
    a ∈ prefixLoop (splitColon name) [] acc ↔ a ∈ acc ∨ Below a name := by
  have hj := joinColon_splitColon name
  have hne := splitColon_ne_nil name
  have hnc := splitColon_noColon name
  generalize splitColon name = L at *
  subst hj
  rw [below_join L hne hnc]
  cases L with
  | nil => exact absurd rfl hne
  | cons x L =>
    by_cases hx : x = []
    · subst hx
      have hL : L = [] := by
        by_contra hL
        rw [Headed, joinColon_cons hL] at h; simp at h
      subst hL
      simp only [prefixLoop, mem_setInsert]
      constructor
      · rintro (h | h)
        · exact Or.inr ⟨[[]], [], by simp, by simp, by simpa [joinColon] using h⟩
        · exact Or.inl h
      · rintro (h | ⟨L1, L2, h1, h2, rfl⟩)
        · exact Or.inr h
        · cases L1 with
          | nil => exact absurd rfl h1
          | cons y L1 => simp at h2; obtain ⟨rfl, rfl, _⟩ := h2; exact Or.inl rfl
    · simp only [prefixLoop, List.nil_append, if_true]
      rw [prefixLoop_mem L x hx, mem_setInsert]
      constructor
      · rintro ((rfl | h) | ⟨L1, L2, h1, rfl, rfl⟩)
        · exact Or.inr ⟨[a], L, by simp, by simp, rfl⟩
        · exact Or.inl h
        · exact Or.inr ⟨x :: L1, L2, by simp, by simp, (joinColon_cons h1).symm⟩
      · rintro (h | ⟨L1, L2, h1, h2, rfl⟩)
        · exact Or.inl (Or.inr h)
        · cases L1 with
          | nil => exact absurd rfl h1
          | cons y L1 =>
            simp only [List.cons_append, List.cons.injEq] at h2
            obtain ⟨rfl, rfl⟩ := h2
            by_cases hL1 : L1 = []
            · subst hL1; exact Or.inl (Or.inl rfl)
            · exact Or.inr ⟨L1, L2, hL1, rfl, joinColon_cons hL1⟩

theorem prefixLoop_nodup (L : List Str) (p : Str) (acc : List Str) (h : acc.Nodup) :
    (prefixLoop L p acc).Nodup := by
  induction L generalizing p acc with
  | nil => exact h
  | cons x L ih => exact ih _ _ (nodup_setInsert _ _ h)

theorem treeAccounts_nodup (l : List (Str × Balance)) : (treeAccounts l).Nodup := by
  unfold treeAccounts
  suffices ∀ acc : List Str, acc.Nodup →
      (l.foldl (fun acc e => prefixLoop (splitColon e.1) [] acc) acc).Nodup from this [] (by simp)
  induction l with
  | nil => exact fun acc h => h
  | cons e l ih => exact fun acc h => ih _ (prefixLoop_nodup _ _ _ h)

theorem mem_treeAccounts (l : List (Str × Balance)) (h : ∀ e ∈ l, Headed e.1) (a : Str) :
    a ∈ treeAccounts l ↔ ∃ e ∈ l, Below a e.1 := by
  unfold treeAccounts
  suffices ∀ acc : List Str, (a ∈ l.foldl (fun acc e => prefixLoop (splitColon e.1) [] acc) acc ↔
      a ∈ acc ∨ ∃ e ∈ l, Below a e.1) by simpa using this []
  induction l with
  | nil => simp
  | cons e l ih =>
    intro acc
    rw [List.foldl_cons, ih (fun x hx => h x (List.mem_cons_of_mem _ hx)),
      prefixLoop_name (h e (by simp))]
    simp only [List.mem_cons, exists_eq_or_imp]
    tauto

/-! ### Rolling up -/

theorem balSum_of_get? {m m' : Balances} (hn : m.keys.Nodup) (hn' : m'.keys.Nodup) (P : Str → Bool)
    (h : ∀ k, P k → m.get? k = m'.get? k) (c : Cur) : balSum m P c = balSum m' P c := by
  unfold balSum
  refine List.Perm.sum_eq (List.Perm.map _ ?_)
  have hd : ∀ {x : Balances}, x.keys.Nodup → List.Nodup x := fun hx => List.Nodup.of_map _ hx
  refine (List.perm_ext_iff_of_nodup ((hd hn).filter _) ((hd hn').filter _)).mpr ?_
  rintro ⟨k, v⟩
  simp only [List.mem_filter]
  rw [← HMap.get?_eq_some_iff hn, ← HMap.get?_eq_some_iff hn']
  constructor
  · rintro ⟨h1, h2⟩; exact ⟨by rw [← h k h2]; exact h1, h2⟩
  · rintro ⟨h1, h2⟩; exact ⟨by rw [h k h2]; exact h1, h2⟩

/-- The state of the roll-up after the accounts `done`. -/
structure Rolled (m0 m : Balances) (done : List Str) : Prop where
  nodup : m.keys.Nodup
  canon : ∀ e ∈ m, e.2.Canon
  rest : ∀ a, a ∉ done → m.get? a = m0.get? a
  sums : ∀ a ∈ done, ∃ b, m.get? a = some b ∧ ∀ c, b.amountOf c = balSum m0 (inSubtree a) c

theorem Rolled.step {m0 m : Balances} {done : List Str} (h0 : m0.keys.Nodup) (h : Rolled m0 m done)
    (s : Str → Shuf) {a : Str} (ha : a ∉ done) (hd : ∀ d ∈ done, colons d ≤ colons a) :
    Rolled m0 (rollStep s m a) (done ++ [a]) := by
  have hperm : ((s a).run m).Perm m := (s a).perm m
  have hcan : ∀ e ∈ ((s a).run m).filter (fun e => inSubtree a e.1), e.2.Canon :=
    fun e he => h.canon e (hperm.mem_iff.mp (List.mem_filter.mp he).1)
  have hwf := fun e he => (hcan e he).toWF
  have hsum : ∀ c, balSum m (inSubtree a) c = balSum m0 (inSubtree a) c := by
    refine balSum_of_get? h.nodup h0 _ ?_
    intro k hk
    refine h.rest k (fun hkd => ?_)
    by_cases hka : k = a
    · exact ha (hka ▸ hkd)
    · have := ((inSubtree_iff a k).mp hk).colons hka
      have := hd k hkd
      omega
  refine ⟨HMap.nodup_keys_insert _ _ _ h.nodup, ?_, ?_, ?_⟩
  · intro e he
    rcases (HMap.mem_insert h.nodup).mp he with he | he
    · rw [he]; exact canon_foldl _ _ Balance.Canon.nil hwf
    · exact h.canon e he.1
  · intro x hx
    simp only [List.mem_append, List.mem_singleton, not_or] at hx
    rw [rollStep, HMap.get?_insert_ne _ _ (Ne.symm hx.2)]
    exact h.rest x hx.1
  · intro x hx
    by_cases hxa : x = a
    · subst hxa
      refine ⟨_, by rw [rollStep, HMap.get?_insert, if_pos rfl], fun c => ?_⟩
      rw [(balSum_foldl _ Balance.new Balance.WF.nil hwf).2, ← hsum, ← balSum_perm hperm]
      simp [balSum, Balance.new]
    · have hx' : x ∈ done := by
        rcases List.mem_append.mp hx with hx | hx
        · exact hx
        · exact absurd (List.mem_singleton.mp hx) hxa
      obtain ⟨b, hb, hs⟩ := h.sums x hx'
      exact ⟨b, by rw [rollStep, HMap.get?_insert_ne _ _ (Ne.symm hxa)]; exact hb, hs⟩

theorem Rolled.foldl {m0 : Balances} (h0 : m0.keys.Nodup) (s : Str → Shuf) (todo : List Str) :
    ∀ {m : Balances} {done : List Str}, Rolled m0 m done → (done ++ todo).Nodup →
      (done ++ todo).Pairwise (fun x y => colons x ≤ colons y) →
      Rolled m0 (todo.foldl (rollStep s) m) (done ++ todo) := by
  induction todo with
  | nil => intro m done h _ _; simpa using h
  | cons a todo ih =>
    intro m done h hn hp
    have ha : a ∉ done := by
      intro hd
      exact (List.nodup_append.mp hn).2.2 a hd a (by simp) rfl
    have hd : ∀ d ∈ done, colons d ≤ colons a := fun d hd =>
      (List.pairwise_append.mp hp).2.2 d hd a (by simp)
    have := ih (h.step h0 s ha hd) (by simpa using hn) (by simpa using hp)
    simpa using this

theorem ownBalances_eq {l : List (Str × Balance)} (h : (l.map Prod.fst).Nodup) :
    ownBalances l = l := by
  unfold ownBalances
  have := HMap.foldl_insert_eq_append (fun e : Str × Balance => e.1) (fun e => e.2) l []
  simpa [HMap.keys, h] using this

theorem colonsLe_total : TotalLe (fun a b : Str => decide (colons a ≤ colons b)) :=
  ⟨fun a b => by simp only [decide_eq_true_eq]; omega,
   fun a b c => by simp only [decide_eq_true_eq]; omega⟩

/-- The rows of the tree report. -/
theorem treeRows_spec {o : BalOrders} {bals : Balances} {sel : List (Txn Posting × Posting)}
    (h : Collected bals sel) (hh : ∀ x ∈ sel, Headed x.2.account) :
    ((treeRows o bals).map Prod.fst).Nodup ∧
    (∀ e ∈ treeRows o bals, e.2.Canon ∧ e.2.isZero = false ∧
      ∀ c, e.2.amountOf c = selSum sel (inSubtree e.1) c) ∧
    (∀ a, (∃ c, selSum sel (inSubtree a) c ≠ 0) → ∃ b, (a, b) ∈ treeRows o bals) := by
  have hp : (o.own.run bals).Perm bals := o.own.perm bals
  have hn : ((o.own.run bals).map Prod.fst).Nodup := (hp.map _).nodup_iff.mpr h.nodup
  have hkey : ∀ e ∈ o.own.run bals, Headed e.1 := by
    intro e he
    obtain ⟨x, hx, hxa⟩ := (h.mem e.1).mp (HMap.mem_keys_of_mem (hp.mem_iff.mp he))
    exact hxa ▸ hh x hx
  have hacc := mem_treeAccounts _ hkey
  have hown := ownBalances_eq hn
  have hps : (sortBy (fun a b => decide (colons a ≤ colons b))
      (o.accounts.run (treeAccounts (o.own.run bals)))).Perm (treeAccounts (o.own.run bals)) :=
    (sortBy_perm _ _).trans (o.accounts.perm _)
  have hsorted := sortBy_sorted colonsLe_total (o.accounts.run (treeAccounts (o.own.run bals)))
  have h0 : Rolled (o.own.run bals) (o.own.run bals) [] :=
    ⟨hn, fun e he => h.canon e (hp.mem_iff.mp he), fun _ _ => rfl, by intro a ha; cases ha⟩
  have hr := Rolled.foldl (m0 := o.own.run bals) hn o.roll _ h0
    (by simpa using hps.nodup_iff.mpr (treeAccounts_nodup _))
    (by simpa using hsorted)
  rw [List.nil_append] at hr
  have hsum : ∀ P c, balSum (o.own.run bals) P c = selSum sel P c := fun P c => by
    rw [balSum_perm hp, h.sum]
  unfold treeRows
  simp only [hown]
  generalize hacs : sortBy (fun a b => decide (colons a ≤ colons b))
      (o.accounts.run (treeAccounts (o.own.run bals))) = acs at *
  generalize hnb : acs.foldl (rollStep o.roll) (o.own.run bals) = nb at *
  have hpr : (o.rows.run nb).Perm nb := o.rows.perm nb
  have hget : ∀ a b, (a, b) ∈ nb → a ∈ acs := by
    intro a b hab
    by_contra ha
    have h1 := hr.rest a ha
    rw [HMap.get?_of_mem hr.nodup hab] at h1
    exact ha (hps.mem_iff.mpr ((hacc a).mpr ⟨(a, b), HMap.mem_of_get? h1.symm, Or.inl rfl⟩))
  refine ⟨?_, ?_, ?_⟩
  · exact ((hpr.map Prod.fst).nodup_iff.mpr hr.nodup).sublist (List.filter_sublist.map _)
  · rintro ⟨a, b⟩ he
    obtain ⟨he1, he2⟩ := List.mem_filter.mp he
    have he1 := hpr.mem_iff.mp he1
    refine ⟨hr.canon _ he1, by simpa using he2, fun c => ?_⟩
    obtain ⟨b', hb', hs⟩ := hr.sums a (hget a b he1)
    rw [HMap.get?_of_mem hr.nodup he1] at hb'
    cases hb'
    rw [hs c, hsum]
  · rintro a ⟨c, hc⟩
    have hex : ∃ e ∈ o.own.run bals, inSubtree a e.1 = true := by
      by_contra hno
      apply hc
      rw [← hsum]
      exact balSum_of_zero (fun e he hP => absurd ⟨e, he, hP⟩ hno)
    obtain ⟨e, he, hP⟩ := hex
    have ha : a ∈ acs := hps.mem_iff.mpr ((hacc a).mpr ⟨e, he, (inSubtree_iff _ _).mp hP⟩)
    obtain ⟨b, hb, hs⟩ := hr.sums a ha
    refine ⟨b, List.mem_filter.mpr ⟨hpr.mem_iff.mpr (HMap.mem_of_get? hb), ?_⟩⟩
    have hbz : b.isZero ≠ true := by
      intro hz
      exact hc (by rw [← hsum, ← hs]; exact (Balance.isZero_iff
        (hr.canon _ (HMap.mem_of_get? hb)).toWF).mp hz c)
    simpa using hbz

/-! ### Grouping by depth -/

theorem joinColon_append {L1 L2 : List Str} (h1 : L1 ≠ []) (h2 : L2 ≠ []) :
    joinColon (L1 ++ L2) = joinColon L1 ++ ':' :: joinColon L2 := by
  induction L1 with
  | nil => exact absurd rfl h1
  | cons x L1 ih =>
    by_cases hL : L1 = []
    · subst hL; rw [List.singleton_append, joinColon_cons h2]; rfl
    · rw [List.cons_append, joinColon_cons (by simp [hL]), joinColon_cons hL, ih hL]; simp

theorem components_append (a b : Str) :
    components (a ++ ':' :: b) = components a + components b := by
  simp [components]; omega

theorem components_noColon {x : Str} (h : ':' ∉ x) : components x = 1 := by
  unfold components
  rw [List.filter_eq_nil_iff.mpr]; · rfl
  intro c hc
  simp only [decide_eq_true_eq]
  rintro rfl; exact h hc

theorem components_join (L : List Str) (hne : L ≠ []) (hn : ∀ x ∈ L, ':' ∉ x) :
    components (joinColon L) = L.length := by
  induction L with
  | nil => exact absurd rfl hne
  | cons x L ih =>
    by_cases hL : L = []
    · subst hL; exact components_noColon (hn x (by simp))
    · rw [joinColon_cons hL, components_append, ih hL (fun y hy => hn y (List.mem_cons_of_mem _ hy)),
        components_noColon (hn x (by simp))]; simp; omega

theorem cut_iff (d : Nat) (name g : Str) :
    joinColon ((splitColon name).take d) = g ↔ CutTo d name g := by
  have hj := joinColon_splitColon name
  have hne := splitColon_ne_nil name
  have hnc := splitColon_noColon name
  generalize splitColon name = L at *
  subst hj
  have hc := components_join L hne hnc
  unfold CutTo
  rcases Nat.eq_zero_or_pos d with rfl | hd
  · simp [joinColon, eq_comm]
  · by_cases hlen : L.length ≤ d
    · rw [List.take_of_length_le hlen]
      constructor
      · rintro rfl; exact Or.inr (Or.inl ⟨hd, by omega, rfl⟩)
      · rintro (⟨h, _⟩ | ⟨_, _, h⟩ | ⟨_, h1, r, h2⟩)
        · omega
        · exact h.symm
        · rw [h2, components_append] at hc
          have : 0 < components r := Nat.succ_pos _
          omega
    · have h1 : L.take d ≠ [] := by
        intro h
        rcases List.take_eq_nil_iff.mp h with h | h
        · omega
        · exact hne h
      have h2 : L.drop d ≠ [] := by
        intro h; exact hlen (List.drop_eq_nil_iff.mp h)
      constructor
      · rintro rfl
        refine Or.inr (Or.inr ⟨hd, ?_, joinColon (L.drop d), ?_⟩)
        · rw [components_join _ h1 (fun x hx => hnc x (List.mem_of_mem_take hx)), List.length_take]
          omega
        · rw [← joinColon_append h1 h2, List.take_append_drop]
      · rintro (⟨h, _⟩ | ⟨_, h, _⟩ | ⟨_, h3, r, h4⟩)
        · omega
        · omega
        · obtain ⟨L1, L2, h5, rfl, rfl⟩ := (below_join L hne hnc g).mp (Or.inr ⟨r, h4⟩)
          rw [components_join _ h5 (fun x hx => hnc x (by simp [hx]))] at h3
          rw [← h3]; simp

theorem mergeLoop_spec (l : List (Str × Balance)) :
    ∀ (account : Str) (b : Balance) (acc : List (Str × Balance)),
      l.Pairwise (fun x y => strLe x.1 y.1 = true) →
      (∀ e ∈ l, strLe account e.1 = true) →
      (((account, b) :: acc).reverse.map Prod.fst).Pairwise (· < ·) →
      (∀ e ∈ (account, b) :: acc, e.2.Canon) → (∀ e ∈ l, e.2.Canon) →
      ∃ r, mergeLoop l account ((account, b) :: acc) = .ok r ∧
        (r.map Prod.fst).Pairwise (· < ·) ∧ (∀ e ∈ r, e.2.Canon) ∧
        (∀ P c, balSum r P c = balSum ((account, b) :: acc) P c + balSum l P c) := by
  induction l with
  | nil =>
    intro account b acc _ _ hs hc _
    refine ⟨((account, b) :: acc).reverse, rfl, hs, ?_, ?_⟩
    · intro e he; exact hc e (List.mem_reverse.mp he)
    · intro P c; rw [balSum_perm (List.reverse_perm _)]; simp
  | cons e l ih =>
    obtain ⟨name, v⟩ := e
    intro account b acc hl ha hs hc hcl
    rw [List.pairwise_cons] at hl
    have hcl' : ∀ e ∈ l, e.2.Canon := fun e he => hcl e (List.mem_cons_of_mem _ he)
    have hv := hcl (name, v) (by simp)
    unfold mergeLoop
    by_cases hne : name ≠ account
    · rw [if_pos hne]
      have hlt : account < name := str_lt_of ((strLe_iff _ _).mp (ha (name, v) (by simp))) hne.symm
      obtain ⟨r, h1, h2, h3, h4⟩ := ih name v ((account, b) :: acc) hl.2 hl.1 (by
          rw [List.reverse_cons, List.map_append, List.pairwise_append]
          refine ⟨hs, by simp, ?_⟩
          intro x hx y hy
          simp only [List.map_cons, List.map_nil, List.mem_singleton] at hy
          subst hy
          rw [List.reverse_cons, List.map_append, List.pairwise_append] at hs
          rw [List.reverse_cons, List.map_append, List.mem_append] at hx
          rcases hx with hx | hx
          · exact List.lt_trans (hs.2.2 x hx account (by simp)) hlt
          · simp only [List.map_cons, List.map_nil, List.mem_singleton] at hx
            rw [hx]; exact hlt)
        (by
          intro e he
          rcases List.mem_cons.mp he with rfl | he
          · exact hv
          · exact hc e he) hcl'
      refine ⟨r, h1, h2, h3, fun P c => ?_⟩
      rw [h4, balSum_cons (name, v), balSum_cons (name, v) l]; ring
    · have hne : name = account := by simpa using hne
      subst hne
      simp only [ne_eq, not_true_eq_false, if_false]
      have hb := hc (name, b) (by simp)
      obtain ⟨r, h1, h2, h3, h4⟩ := ih name (Balance.add b v) acc hl.2 hl.1
        (by simpa using hs)
        (by
          intro e he
          rcases List.mem_cons.mp he with rfl | he
          · exact Balance.add_canon hb.toWF hv.toWF
          · exact hc e (List.mem_cons_of_mem _ he)) hcl'
      refine ⟨r, h1, h2, h3, fun P c => ?_⟩
      rw [h4]; simp only [balSum_cons]
      by_cases hP : P name
      · simp only [hP, if_true]
        rw [Balance.amountOf_add hb.toWF hv.toWF]; ring
      · simp [hP]

/-- Merging from the start: panics exactly when the first name is empty. -/
theorem mergeLoop_start (l : List (Str × Balance)) (hl : l.Pairwise (fun x y => strLe x.1 y.1 = true))
    (hcl : ∀ e ∈ l, e.2.Canon) :
    ((∃ e ∈ l, e.1 = []) ∧ (mergeLoop l [] []).isPanic = true) ∨
    ((∀ e ∈ l, e.1 ≠ []) ∧ ∃ r, mergeLoop l [] [] = .ok r ∧
        (r.map Prod.fst).Pairwise (· < ·) ∧ (∀ e ∈ r, e.2.Canon) ∧
        (∀ P c, balSum r P c = balSum l P c)) := by
  cases l with
  | nil => exact Or.inr ⟨by simp, [], rfl, by simp, by simp, by simp⟩
  | cons e l =>
    obtain ⟨name, v⟩ := e
    by_cases hn : name = []
    · subst hn
      refine Or.inl ⟨⟨([], v), by simp, rfl⟩, ?_⟩
      simp [mergeLoop, Res.isPanic]
    · refine Or.inr ⟨?_, ?_⟩
      · intro e he hz
        rcases List.mem_cons.mp he with rfl | he
        · exact hn hz
        · have := (List.pairwise_cons.mp hl).1 e he
          rw [strLe_iff, hz] at this
          cases name with
          | nil => exact hn rfl
          | cons c name => exact this (List.nil_lt_cons c name)
      · rw [List.pairwise_cons] at hl
        obtain ⟨r, h1, h2, h3, h4⟩ := mergeLoop_spec l name v [] hl.2 hl.1 (by simp)
          (by intro e he; exact hcl e (by simp at he; simp [he]))
          (fun e he => hcl e (List.mem_cons_of_mem _ he))
        refine ⟨r, ?_, h2, h3, fun P c => ?_⟩
        · unfold mergeLoop; rw [if_pos hn]; exact h1
        · rw [h4]; simp only [balSum_cons, balSum_nil]; ring

theorem balSum_map (f : Str → Str) (l : List (Str × Balance)) (P : Str → Bool) (c : Cur) :
    balSum (l.map (fun e => (f e.1, e.2))) P c = balSum l (fun n => P (f n)) c := by
  induction l with
  | nil => rfl
  | cons e l ih => rw [List.map_cons, balSum_cons, balSum_cons, ih]

/-! ### The whole report -/

theorem finishBalance_plain {o : BalOrders} {flat showTotal : Bool} {depth : Option Nat}
    {bals : Balances} {rows : List (Str × Balance)} {rep : BalReport}
    (h : finishBalance o flat showTotal depth bals none rows = .ok rep) :
    rep.lines = printLoop flat depth o.shown (sortBy (fun a b => strLe a.1 b.1) rows).length
        (sortBy (fun a b => strLe a.1 b.1) rows) ∧
    rep.total = if showTotal && rep.lines.length > 1 then
        some (if (grandTotal o.total bals).isZero then []
          else (o.shownTotal.run (grandTotal o.total bals)).map Prod.snd) else none := by
  unfold finishBalance at h
  simp only at h
  split at h
  · next hc => cases h; exact ⟨rfl, by rw [if_pos hc]⟩
  · next hc => cases h; exact ⟨rfl, by rw [if_neg hc]⟩

theorem balanceReport_plain {env : Env} {o : BalOrders} {today : Date} {opts : ReportOpts}
    {flat showTotal : Bool} {l : Ledger} {rep : BalReport}
    (h : balanceReport env o today opts flat showTotal l = .ok rep) (hx : opts.exchange = none) :
    ∃ sel bals rows, Selected env opts l sel ∧ (∀ x ∈ sel, x.2.amount.isSome) ∧
      Collected bals sel ∧
      (if flat then flatRows o opts.depth bals else .ok (treeRows o bals)) = .ok rows ∧
      finishBalance o flat showTotal opts.depth bals none rows = .ok rep := by
  unfold balanceReport at h
  split at h
  · cases h
  · next node hn =>
    split at h
    · cases h
    · next bals st hc =>
      obtain ⟨sel, hs, ha, hcol⟩ := collected hc
      split at h
      · cases h
      · next rows hrows =>
        rw [hx] at h
        simp only [exchangeTable] at h
        exact ⟨sel, bals, rows, ⟨node, st, hn, hs⟩, ha, hcol, hrows, h⟩

theorem grandTotal_spec {bals : Balances} {sel : List (Txn Posting × Posting)}
    (h : Collected bals sel) (s : Shuf) :
    (grandTotal s bals).Canon ∧ ∀ c, (grandTotal s bals).amountOf c = selSum sel (fun _ => true) c := by
  have hp : (s.run bals).Perm bals := s.perm bals
  have hw : ∀ e ∈ s.run bals, e.2.WF := fun e he => (h.canon e (hp.mem_iff.mp he)).toWF
  refine ⟨canon_foldl _ _ Balance.Canon.nil hw, fun c => ?_⟩
  unfold grandTotal
  rw [(balSum_foldl _ Balance.new Balance.WF.nil hw).2, balSum_perm hp, h.sum]
  simp [Balance.new]

theorem shows_nil {f : Cur → Rat} (h : ∀ c, f c = 0) : Shows [] f :=
  ⟨fun c => by simp [sumIn, h c], by simp, by simp⟩

theorem Shows.congr {ms : List Money} {f g : Cur → Rat} (h : Shows ms f) (hfg : ∀ c, f c = g c) :
    Shows ms g := ⟨fun c => by rw [h.sum, hfg], h.nonzero, h.once⟩

/-- The total of a report without conversion. -/
theorem total_spec {o : BalOrders} {flat showTotal : Bool} {depth : Option Nat} {bals : Balances}
    {sel : List (Txn Posting × Posting)} {rows : List (Str × Balance)} {rep : BalReport}
    (hc : Collected bals sel) (h : finishBalance o flat showTotal depth bals none rows = .ok rep)
    {ms : List Money} (hm : rep.total = some ms) : Shows ms (selSum sel (fun _ => true)) := by
  obtain ⟨_, ht⟩ := finishBalance_plain h
  obtain ⟨hcan, hsum⟩ := grandTotal_spec hc o.total
  rw [ht] at hm
  split at hm
  · split at hm
    · next hz =>
      cases hm
      exact shows_nil (fun c => by rw [← hsum]; exact (Balance.isZero_iff hcan.toWF).mp hz c)
    · cases hm; exact (Canon.shows hcan o.shownTotal).congr hsum
  · cases hm

/-- The lines of a flat report, for any rows with distinct names. -/
theorem flat_lines {o : BalOrders} {showTotal : Bool} {depth : Option Nat} {bals : Balances}
    {rows : List (Str × Balance)} {rep : BalReport}
    (h : finishBalance o true showTotal depth bals none rows = .ok rep)
    (hn : (rows.map Prod.fst).Nodup) (hc : ∀ e ∈ rows, e.2.Canon) :
    (rep.lines.map BalLine.label).Pairwise (· < ·) ∧
    (∀ line ∈ rep.lines, line.indent = 0 ∧ ∃ b, (line.label, b) ∈ rows ∧
      Shows line.amounts b.amountOf ∧ printable depth (line.label, b) = true) ∧
    (∀ e ∈ rows, printable depth e = true → ∃ line ∈ rep.lines, line.label = e.1) := by
  obtain ⟨hl, _⟩ := finishBalance_plain h
  rw [printLoop_flat _ _ _ _ le_rfl] at hl
  have hp := sortBy_perm (fun a b : Str × Balance => strLe a.1 b.1) rows
  have hs := sorted_strict hn
  generalize sortBy (fun a b : Str × Balance => strLe a.1 b.1) rows = rs at *
  refine ⟨?_, ?_, ?_⟩
  · rw [hl, List.map_map]
    exact hs.sublist (List.filter_sublist.map Prod.fst)
  · intro line hline
    rw [hl] at hline
    obtain ⟨e, he, rfl⟩ := List.mem_map.mp hline
    obtain ⟨he1, he2⟩ := List.mem_filter.mp he
    have he1 := hp.mem_iff.mp he1
    exact ⟨rfl, e.2, he1, Canon.shows (hc e he1) (o.shown e.1), he2⟩
  · intro e he hpr
    refine ⟨⟨((o.shown e.1).run e.2).map Prod.snd, 0, e.1⟩, ?_, rfl⟩
    rw [hl]
    exact List.mem_map.mpr ⟨e, List.mem_filter.mpr ⟨hp.mem_iff.mpr he, hpr⟩, rfl⟩

theorem Canon.isZero_false {b : Balance} (h : b.Canon) : b.isZero = false ↔ ∃ c, b.amountOf c ≠ 0 := by
  rw [← Bool.not_eq_true, Balance.isZero_iff h.toWF]; push Not; rfl

/-! ### The register -/

theorem registerAdd_spec {b : Balance} (h : b.WF) (m : Money) :
    (registerAdd b m).WF ∧ (∀ c, (registerAdd b m).amountOf c = b.amountOf c + m.amountIn c) ∧
    (((∀ c, b.amountOf c + m.amountIn c = 0) ∧ registerAdd b m = [(none, .zero)]) ∨
      ((registerAdd b m).Canon ∧ (registerAdd b m).isZero = false)) := by
  have hm := Balance.ofMoney_wf m
  have hc := Balance.add_canon h hm
  have ha : ∀ c, (Balance.add b (Balance.ofMoney m)).amountOf c = b.amountOf c + m.amountIn c :=
    fun c => by rw [Balance.amountOf_add h hm, Balance.amountOf_ofMoney]
  unfold registerAdd
  simp only
  split
  · next hz =>
    have hz := (Balance.isZero_iff hc.toWF).mp hz
    refine ⟨Balance.ofMoney_wf .zero, fun c => ?_, Or.inl ⟨fun c => by rw [← ha]; exact hz c, rfl⟩⟩
    rw [← ha, hz c, Balance.amountOf_ofMoney]; simp [Money.amountIn, Money.commodity]
  · next hz => exact ⟨hc.toWF, ha, Or.inr ⟨hc, by simpa using hz⟩⟩

theorem registerFold_spec (ms : List Money) {b : Balance} (h : b.WF) :
    (ms.foldl registerAdd b).WF ∧
    (∀ c, (ms.foldl registerAdd b).amountOf c = b.amountOf c + sumIn ms c) ∧
    (ms ≠ [] → ((∀ c, b.amountOf c + sumIn ms c = 0) ∧ ms.foldl registerAdd b = [(none, .zero)]) ∨
      ((ms.foldl registerAdd b).Canon ∧ (ms.foldl registerAdd b).isZero = false)) := by
  induction ms generalizing b with
  | nil => exact ⟨h, fun c => by simp [sumIn], fun hh => absurd rfl hh⟩
  | cons m ms ih =>
    obtain ⟨h1, h2, h3⟩ := registerAdd_spec h m
    obtain ⟨i1, i2, i3⟩ := ih h1
    have hs : ∀ c, sumIn (m :: ms) c = m.amountIn c + sumIn ms c := fun c => by simp [sumIn]
    refine ⟨i1, fun c => ?_, fun _ => ?_⟩
    · rw [List.foldl_cons, i2, h2, hs]; ring
    · by_cases hms : ms = []
      · subst hms; simpa [sumIn] using h3
      · rcases i3 hms with ⟨i4, i5⟩ | i4
        · refine Or.inl ⟨fun c => ?_, i5⟩
          have := i4 c; rw [h2] at this; rw [hs, ← this]; ring
        · exact Or.inr i4

/-- What a stretch of register lines looks like. -/
structure RegStretch (s : Nat → Shuf) (sel : List (Txn Posting × Posting)) (st st' : RegState)
    (new : List RegLine) : Prop where
  lines : st'.lines = st.lines ++ new
  balance : st'.balance = (new.map RegLine.amount).foldl registerAdd st.balance
  content : new.map (fun l => (l.account, l.kind, some l.amount)) =
    sel.map (fun x => (x.2.account, x.2.kind, x.2.amount))
  running : ∀ pre line post, new = pre ++ line :: post →
    line.running = ((s (st.lines.length + pre.length)).run
      (((pre ++ [line]).map RegLine.amount).foldl registerAdd st.balance)).map Prod.snd

theorem RegStretch.refl (s : Nat → Shuf) (st st' : RegState) (h1 : st'.lines = st.lines)
    (h2 : st'.balance = st.balance) : RegStretch s [] st st' [] :=
  ⟨by simp [h1], by simp [h2], rfl, by intro pre line post h; simp at h⟩

theorem RegStretch.trans {s : Nat → Shuf} {sel sel' : List (Txn Posting × Posting)}
    {st st' st'' : RegState} {new new' : List RegLine} (h : RegStretch s sel st st' new)
    (h' : RegStretch s sel' st' st'' new') : RegStretch s (sel ++ sel') st st'' (new ++ new') := by
  refine ⟨by rw [h'.lines, h.lines, List.append_assoc], ?_, ?_, ?_⟩
  · rw [h'.balance, h.balance, List.map_append, List.foldl_append]
  · rw [List.map_append, List.map_append, h.content, h'.content]
  · intro pre line post he
    rcases List.append_eq_append_iff.mp he with ⟨t, h1, h2⟩ | ⟨t, h1, h2⟩
    · have := h'.running t line post h2
      rw [this, h.lines, h.balance, h1]
      simp [Nat.add_assoc]
    · cases t with
      | nil =>
        have := h'.running [] line post (by simpa using h2.symm)
        rw [this, h.lines, h.balance]
        have h1 : new = pre := by simpa using h1
        subst h1; simp
      | cons y t =>
        simp only [List.cons_append, List.cons.injEq] at h2
        obtain ⟨rfl, h2⟩ := h2
        exact h.running pre line t h1

theorem registerPosting_spec {env : Env} {s : Nat → Shuf} {t : Txn Posting} {counter : Nat}
    {p : Posting} {st st' : RegState}
    (h : registerPosting env (s st.lines.length) t counter p st = .ok st') :
    st'.commodities = st.commodities ∧ ∃ line, RegStretch s [(t, p)] st st' [line] := by
  unfold registerPosting at h
  split at h
  · cases h
  · next header payees _ =>
    split at h
    · cases h
    · next m hm =>
      cases h
      refine ⟨rfl, ⟨header, p.account, p.kind, m, ((s st.lines.length).run
        (registerAdd st.balance m)).map Prod.snd⟩, rfl, rfl, ?_, ?_⟩
      · simp [hm]
      · intro pre line post he
        cases pre with
        | nil =>
          simp only [List.nil_append, List.cons.injEq] at he
          obtain ⟨rfl, _⟩ := he
          rfl
        | cons y pre => simp at he

theorem registerPostings_spec {env : Env} {s : Nat → Shuf} {o : FilterOpts} {node : Option Ast}
    {t : Txn Posting} (ps : List Posting) {counter : Nat} {st st' : RegState}
    (h : registerPostings env s o node t ps counter st = .ok st') :
    ∃ sel new, Selects env o node (ps.map (fun p => (t, p))) st.commodities sel st'.commodities ∧
      RegStretch s sel st st' new := by
  induction ps generalizing counter st with
  | nil =>
    simp only [registerPostings] at h; cases h
    exact ⟨[], [], .nil _, .refl s _ _ rfl rfl⟩
  | cons p ps ih =>
    unfold registerPostings at h
    split at h
    · cases h
    · next c hf =>
      obtain ⟨sel, new, hs, hr⟩ := ih h
      exact ⟨sel, new, .drop hf hs, ⟨hr.lines, hr.balance, hr.content, hr.running⟩⟩
    · next c hf =>
      split at h
      · cases h
      · next st1 h1 =>
        obtain ⟨sel, new, hs, hr⟩ := ih h
        obtain ⟨hc, line, hl⟩ := registerPosting_spec (st := { st with commodities := c }) h1
        rw [hc] at hs
        have hl' : RegStretch s [(t, p)] st st1 [line] :=
          ⟨hl.lines, hl.balance, hl.content, hl.running⟩
        exact ⟨(t, p) :: sel, line :: new, .keep hf hs, hl'.trans hr⟩

theorem registerAll_spec {env : Env} {s : Nat → Shuf} {o : FilterOpts} {node : Option Ast}
    (ts : List (Txn Posting)) {st st' : RegState} (h : registerAll env s o node ts st = .ok st') :
    ∃ sel new, Selects env o node (ts.flatMap (fun t => t.postings.map (fun p => (t, p))))
        st.commodities sel st'.commodities ∧ RegStretch s sel st st' new := by
  induction ts generalizing st with
  | nil =>
    simp only [registerAll] at h; cases h
    exact ⟨[], [], .nil _, .refl s _ _ rfl rfl⟩
  | cons t ts ih =>
    unfold registerAll at h
    split at h
    · cases h
    · next st1 h1 =>
      obtain ⟨sel1, new1, hs1, hr1⟩ := registerPostings_spec _ h1
      obtain ⟨sel, new, hs, hr⟩ := ih h
      exact ⟨sel1 ++ sel, new1 ++ new, hs1.append hs, hr1.trans hr⟩

theorem registerReport_spec {env : Env} {s : Nat → Shuf} {opts : ReportOpts} {l : Ledger}
    {lines : List RegLine} (h : registerReport env s opts l = .ok lines) :
    ∃ sel, Selected env opts l sel ∧
      lines.map (fun l => (l.account, l.kind, some l.amount)) =
        sel.map (fun x => (x.2.account, x.2.kind, x.2.amount)) ∧
      ∀ pre line post, lines = pre ++ line :: post →
        line.running = ((s pre.length).run
          (((pre ++ [line]).map RegLine.amount).foldl registerAdd Balance.new)).map Prod.snd := by
  unfold registerReport at h
  split at h
  · cases h
  · next node hn =>
    split at h
    · cases h
    · next st hst =>
      cases h
      obtain ⟨sel, new, hs, hr⟩ := registerAll_spec _ hst
      have hl : st.lines = new := by simpa using hr.lines
      refine ⟨sel, ⟨node, _, hn, hs⟩, by rw [hl]; exact hr.content, ?_⟩
      rw [hl]
      simpa using hr.running

/-! ### The tree printer -/

theorem lastPart_spec (name : Str) :
    ':' ∉ lastPart name ∧ ((name = lastPart name) ∨ ∃ q, name = q ++ ':' :: lastPart name) := by
  have hj := joinColon_splitColon name
  have hne := splitColon_ne_nil name
  have hnc := splitColon_noColon name
  unfold lastPart
  obtain ⟨init, last, hL⟩ : ∃ init last, splitColon name = init ++ [last] :=
    ⟨_, _, (List.dropLast_append_getLast hne).symm⟩
  rw [hL] at hj hnc
  rw [hL]
  simp only [List.getLast?_append, List.getLast?_singleton, Option.some_or, Option.getD_some]
  refine ⟨hnc last (by simp), ?_⟩
  rcases init with _ | ⟨x, init⟩
  · left; rw [← hj]; rfl
  · right
    refine ⟨joinColon (x :: init), ?_⟩
    rw [← hj, joinColon_append (by simp) (by simp)]
    rfl

/-- A sub-account with one more component is the account, a colon and the last component. -/
theorem below_child {p q : Str} (h : Below p q) (hc : components q = components p + 1) :
    q = p ++ ':' :: lastPart q := by
  rcases h with rfl | ⟨r, rfl⟩
  · omega
  · have hr : ':' ∉ r := by
      intro hm
      have : 0 < (r.filter (fun c => c = ':')).length :=
        List.length_pos_of_mem (List.mem_filter.mpr ⟨hm, by simp⟩)
      simp only [components, List.filter_append, List.filter_cons_of_pos, decide_true,
        List.length_append, List.length_cons] at hc
      omega
    obtain ⟨hl, h2 | ⟨q', h2⟩⟩ := lastPart_spec (p ++ ':' :: r)
    · exfalso; apply hl; rw [← h2]; simp
    · generalize lastPart (p ++ ':' :: r) = last at *
      have := h2
      rcases List.append_eq_append_iff.mp h2 with ⟨t, h3, h4⟩ | ⟨t, h3, h4⟩
      · cases t with
        | nil => simp at h4; rw [h4]
        | cons y t =>
          simp only [List.cons_append, List.cons.injEq] at h4
          exfalso; apply hr; rw [h4.2]; simp
      · cases t with
        | nil => simp at h4; rw [h4]
        | cons y t =>
          simp only [List.cons_append, List.cons.injEq] at h4
          exfalso; apply hl; rw [h4.2]; simp

theorem below_trans {a b c : Str} (h : Below a b) (h' : Below b c) : Below a c := by
  rcases h with rfl | ⟨r, rfl⟩
  · exact h'
  · rcases h' with rfl | ⟨r', rfl⟩
    · exact Or.inr ⟨r, rfl⟩
    · exact Or.inr ⟨r ++ ':' :: r', by simp⟩

theorem below_refl (a : Str) : Below a a := Or.inl rfl

theorem Below.prefix {a b : Str} (h : Below a b) : a <+: b := by
  rcases h with rfl | ⟨r, rfl⟩
  · exact List.prefix_rfl
  · exact List.prefix_append _ _

theorem lt_append_cons (p : Str) (c : Char) (r : Str) : p < p ++ c :: r := by
  induction p with
  | nil => exact List.nil_lt_cons _ _
  | cons x p ih => exact List.cons_lt_cons_iff.mpr (Or.inr ⟨rfl, ih⟩)

/-- Between an account and a name starting with it, all names start with it. -/
theorem prefix_between {p x y : Str} (h1 : p < x) (h2 : x < y) (h3 : p <+: y) : p <+: x := by
  obtain ⟨r, rfl⟩ := h3
  induction p generalizing x with
  | nil => exact List.nil_prefix
  | cons c p ih =>
    cases x with
    | nil => exact absurd h1 (List.not_lt_nil _)
    | cons d x =>
      rw [List.cons_append] at h2
      rw [List.cons_lt_cons_iff] at h1 h2
      rcases h1 with h1 | ⟨rfl, h1⟩
      · rcases h2 with h2 | ⟨rfl, h2⟩
        · exact absurd h1 (Char.lt_asymm h2)
        · exact absurd h1 (Char.lt_irrefl _)
      · rcases h2 with h2 | ⟨_, h2⟩
        · exact absurd h2 (Char.lt_irrefl _)
        · exact (List.prefix_cons_inj c).mpr (ih h1 h2)

theorem noSibling_iff {account : Str} {n : Nat} {rest : List (Str × Balance)}
    (hs : ((account, ([] : Balance)) :: rest).Pairwise (fun a b => a.1 < b.1)) :
    noSibling account n rest = true ↔
      ∀ e ∈ rest, account <+: e.1 → components e.1 ≠ n + 1 := by
  induction rest with
  | nil => simp [noSibling]
  | cons e rest ih =>
    obtain ⟨name, b⟩ := e
    have hs' : ((account, ([] : Balance)) :: rest).Pairwise (fun a b => a.1 < b.1) :=
      hs.sublist (by simp)
    unfold noSibling
    by_cases hp : account <+: name
    · rw [if_neg (by simpa using hp), parts_eq_components]
      by_cases hc : components name = n + 1
      · rw [if_pos hc]
        constructor
        · intro h; cases h
        · intro h; exact absurd hc (h _ (List.mem_cons_self ..) hp)
      · rw [if_neg hc, ih hs']
        constructor
        · intro h e he
          rcases List.mem_cons.mp he with rfl | he
          · intro _; exact hc
          · exact h e he
        · intro h e he; exact h e (List.mem_cons_of_mem _ he)
    · rw [if_pos (by rw [← List.isPrefixOf_iff_prefix, Bool.not_eq_true] at hp; rw [hp]; rfl)]
      refine ⟨fun _ e he hpe => ?_, fun _ => rfl⟩
      rcases List.mem_cons.mp he with rfl | he
      · exact absurd hpe hp
      · exfalso
        rw [List.pairwise_cons, List.pairwise_cons] at hs
        exact hp (prefix_between (hs.1 (name, b) (by simp)) (hs.2.1 e he) hpe)

/-- What collapsing does, when the rows are orderly. -/
theorem collapse_spec {rows : List (Str × Balance)} (ho : Orderly rows)
    (hs : rows.Pairwise (fun a b => a.1 < b.1)) {a : Str × Balance} :
    ∀ (todo pre : List (Str × Balance)) (p : Str × Balance) (text : Str),
      rows = pre ++ p :: todo → Below a.1 p.1 → Labels a.1 p.1 text →
      (∀ c, a.2.amountOf c = p.2.amountOf c) →
      ∃ mid rest b, todo = mid ++ rest ∧ b ∈ p :: mid ∧
        (collapseLoop a.1 todo (parts p.1) text).2 = rest ∧
        Labels a.1 b.1 (collapseLoop a.1 todo (parts p.1) text).1 ∧
        (∀ x ∈ mid, Below a.1 x.1) ∧ (∀ x ∈ p :: mid, Below x.1 b.1) ∧
        (∀ x ∈ p :: mid, ∀ c, a.2.amountOf c = x.2.amountOf c) := by
  intro todo
  induction todo with
  | nil =>
    intro pre p text _ hb hl hamt
    exact ⟨[], [], p, rfl, by simp, rfl, hl, by simp, by simpa using below_refl p.1, by simpa using hamt⟩
  | cons next todo ih =>
    intro pre p text hr hb hl hamt
    unfold collapseLoop
    have stop : ∃ mid rest b, next :: todo = mid ++ rest ∧ b ∈ p :: mid ∧
        ((text, next :: todo) : Str × List (Str × Balance)).2 = rest ∧
        Labels a.1 b.1 ((text, next :: todo) : Str × List (Str × Balance)).1 ∧
        (∀ x ∈ mid, Below a.1 x.1) ∧ (∀ x ∈ p :: mid, Below x.1 b.1) ∧
        (∀ x ∈ p :: mid, ∀ c, a.2.amountOf c = x.2.amountOf c) :=
      ⟨[], next :: todo, p, rfl, by simp, rfl, hl, by simp, by simpa using below_refl p.1,
        by simpa using hamt⟩
    by_cases hpn : parts next.1 = parts p.1 + 1
    · rw [if_neg (by simpa using hpn)]
      by_cases hsib : noSibling a.1 (parts p.1) todo = true
      · rw [if_pos hsib]
        rw [parts_eq_components, parts_eq_components] at hpn
        have hbel : Below p.1 next.1 := ho.1 pre p next todo hr hpn
        have hlast := below_child hbel hpn
        -- the only child
        have hmemp : p ∈ rows := by rw [hr]; simp
        have hmemn : next ∈ rows := by rw [hr]; simp
        have hle : a.1 = p.1 ∨ a.1 < p.1 := by
          rcases hb with h | ⟨r, h⟩
          · exact Or.inl h.symm
          · exact Or.inr (by rw [h]; exact lt_append_cons _ _ _)
        have hsuf : (next :: todo).Pairwise (fun a b => a.1 < b.1) := by
          rw [hr] at hs
          exact (List.pairwise_cons.mp (List.pairwise_append.mp hs).2.1).2
        have hptodo : ∀ e ∈ todo, a.1 < e.1 := by
          intro e he
          have hpe : p.1 < e.1 := by
            rw [hr] at hs
            exact (List.pairwise_cons.mp (List.pairwise_append.mp hs).2.1).1 e
              (List.mem_cons_of_mem _ he)
          rcases hle with h | h
          · rw [h]; exact hpe
          · exact List.lt_trans h hpe
        have hsib' := (noSibling_iff (n := parts p.1) (rest := todo) (account := a.1)
          (by
            rw [List.pairwise_cons]
            exact ⟨fun e he => hptodo e he, (List.pairwise_cons.mp hsuf).2⟩)).mp hsib
        have honly : ∀ x ∈ rows, Below p.1 x.1 → components x.1 = components p.1 + 1 → x = next := by
          intro x hx hbx hcx
          rw [hr] at hx
          rcases List.mem_append.mp hx with hx | hx
          · exfalso
            have hlt : x.1 < p.1 := by
              rw [hr] at hs
              exact (List.pairwise_append.mp hs).2.2 x hx p (by simp)
            rcases hbx with h | ⟨r, h⟩
            · rw [h] at hcx; omega
            · rw [h] at hlt
              exact List.lt_irrefl _ (List.lt_trans hlt (lt_append_cons _ _ _))
          · rcases List.mem_cons.mp hx with rfl | hx
            · omega
            · rcases List.mem_cons.mp hx with rfl | hx
              · rfl
              · exfalso
                exact hsib' x hx ((below_trans hb hbx).prefix) (by rw [parts_eq_components]; exact hcx)
        have hamt' : ∀ c, p.2.amountOf c = next.2.amountOf c :=
          ho.2 p hmemp next hmemn hbel hpn honly
        have hl' : Labels a.1 next.1 (text ++ ':' :: lastPart next.1) := by
          obtain ⟨parent, last, h1, h2, h3, h4⟩ := hl
          refine ⟨parent, last, h1, h2, h3, ?_⟩
          rw [← List.append_assoc, ← h4, ← hlast]
        have hpn' : parts next.1 = parts p.1 + 1 := by
          rw [parts_eq_components, parts_eq_components]; exact hpn
        obtain ⟨mid, rest, b, e1, e2, e3, e4, e5, e6, e7⟩ :=
          ih (pre ++ [p]) next (text ++ ':' :: lastPart next.1) (by rw [hr]; simp)
            (below_trans hb hbel) hl' (fun c => (hamt c).trans (hamt' c))
        rw [hpn'] at e3 e4
        refine ⟨next :: mid, rest, b, by rw [e1]; rfl, List.mem_cons_of_mem _ e2, e3, e4, ?_, ?_, ?_⟩
        · intro x hx
          rcases List.mem_cons.mp hx with rfl | hx
          · exact below_trans hb hbel
          · exact e5 x hx
        · intro x hx
          rcases List.mem_cons.mp hx with rfl | hx
          · exact below_trans hbel (e6 next (by simp))
          · exact e6 x hx
        · intro x hx
          rcases List.mem_cons.mp hx with rfl | hx
          · exact hamt
          · exact e7 x hx
      · rw [if_neg hsib]; exact stop
    · rw [if_pos (by simpa using hpn)]; exact stop

theorem labels_last (a : Str) : Labels a a (lastPart a) := by
  obtain ⟨h1, h2 | ⟨q, h2⟩⟩ := lastPart_spec a
  · exact ⟨[], lastPart a, by simpa using h2, h1, Or.inl rfl, by simpa using h2⟩
  · exact ⟨q ++ [':'], lastPart a, by simpa using h2, h1, Or.inr ⟨q, rfl⟩, by simpa using h2⟩

theorem printLoop_tree {rows : List (Str × Balance)} (ho : Orderly rows)
    (hs : rows.Pairwise (fun a b => a.1 < b.1)) (hz : ∀ e ∈ rows, e.2.isZero = false)
    (depth : Option Nat) (s : Str → Shuf) :
    ∀ (k : Nat) (pre todo : List (Str × Balance)), rows = pre ++ todo → todo.length ≤ k →
      (∀ line ∈ printLoop false depth s k todo, ∃ a ∈ rows, ∃ b ∈ rows,
        line.indent = components a.1 ∧ Labels a.1 b.1 line.label ∧ Below a.1 b.1 ∧
        (∀ c, a.2.amountOf c = b.2.amountOf c) ∧ line.amounts = ((s a.1).run a.2).map Prod.snd) ∧
      (∀ x ∈ todo, tooDeep depth x.1 = false → ∃ line ∈ printLoop false depth s k todo,
        ∃ a ∈ rows, ∃ b ∈ rows,
        line.indent = components a.1 ∧ Labels a.1 b.1 line.label ∧ Below a.1 x.1 ∧ Below x.1 b.1 ∧
        (∀ c, a.2.amountOf c = x.2.amountOf c) ∧ line.amounts = ((s a.1).run a.2).map Prod.snd) := by
  intro k
  induction k with
  | zero =>
    intro pre todo _ hk
    have : todo = [] := List.length_eq_zero_iff.mp (Nat.le_zero.mp hk)
    subst this; simp [printLoop]
  | succ k ih =>
    intro pre todo hr hk
    cases todo with
    | nil => simp [printLoop]
    | cons a todo =>
      obtain ⟨account, bal⟩ := a
      have hmem : (account, bal) ∈ rows := by rw [hr]; simp
      simp only [List.length_cons] at hk
      have hskip := ih (pre ++ [(account, bal)]) todo (by rw [hr]; simp) (by omega)
      unfold printLoop
      by_cases hd : tooDeep depth account = true
      · rw [if_pos hd]
        refine ⟨hskip.1, fun x hx hxd => ?_⟩
        rcases List.mem_cons.mp hx with rfl | hx
        · rw [hd] at hxd; cases hxd
        · exact hskip.2 x hx hxd
      · rw [if_neg hd, if_neg (by rw [hz _ hmem]; simp), if_neg (by simp)]
        obtain ⟨mid, rest, b, e1, e2, e3, e4, e5, e6, e7⟩ :=
          collapse_spec ho hs todo pre (account, bal) (lastPart account) hr (below_refl _)
            (labels_last _) (fun _ => rfl)
        simp only at e3 e4 e5 e6 e7 ⊢
        rw [e3]
        have hbm : b ∈ rows := by
          rw [hr, e1]
          rcases List.mem_cons.mp e2 with rfl | h
          · simp
          · simp [h]
        have hnext := ih (pre ++ (account, bal) :: mid) rest (by rw [hr, e1]; simp)
          (by rw [e1] at hk; simp at hk; omega)
        refine ⟨?_, ?_⟩
        · intro line hline
          rcases List.mem_cons.mp hline with rfl | hline
          · exact ⟨(account, bal), hmem, b, hbm, parts_eq_components _, e4,
              e6 (account, bal) (by simp), e7 b e2, rfl⟩
          · exact hnext.1 line hline
        · intro x hx hxd
          have hcase : x ∈ (account, bal) :: mid ∨ x ∈ rest := by
            rw [e1] at hx
            rcases List.mem_cons.mp hx with rfl | hx
            · exact Or.inl (by simp)
            · rcases List.mem_append.mp hx with hx | hx
              · exact Or.inl (List.mem_cons_of_mem _ hx)
              · exact Or.inr hx
          rcases hcase with hx | hx
          · refine ⟨_, List.mem_cons_self .., (account, bal), hmem, b, hbm, parts_eq_components _,
              e4, ?_, e6 x hx, e7 x hx, rfl⟩
            rcases List.mem_cons.mp hx with rfl | hx
            · exact below_refl _
            · exact e5 x hx
          · obtain ⟨line, hl, h⟩ := hnext.2 x hx hxd
            exact ⟨line, List.mem_cons_of_mem _ hl, h⟩

/-! ### Facts about selections -/

theorem Selects.mem {env : Env} {o : FilterOpts} {node : Option Ast}
    {l sel : List (Txn Posting × Posting)} {st st' : Commodities}
    (h : Selects env o node l st sel st') : ∀ x ∈ sel, x ∈ l := by
  induction h with
  | nil => intro x hx; cases hx
  | keep _ _ ih =>
    intro x hx
    rcases List.mem_cons.mp hx with rfl | hx
    · exact List.mem_cons_self ..
    · exact List.mem_cons_of_mem _ (ih x hx)
  | drop _ _ ih => intro x hx; exact List.mem_cons_of_mem _ (ih x hx)

theorem Selects.all {env : Env} {o : FilterOpts} {node : Option Ast}
    {l sel : List (Txn Posting × Posting)} {st st' : Commodities}
    (h : Selects env o node l st sel st')
    (hf : ∀ t p st, filterPosting env o node t p st = .ok (true, st)) : sel = l := by
  induction h with
  | nil => rfl
  | keep _ _ ih => rw [ih]
  | drop h _ _ => rw [hf] at h; cases h

theorem sumIn_eq_zero {ms : List Money} {c : Cur} (h : ∀ m ∈ ms, m.amountIn c = 0) :
    sumIn ms c = 0 := by
  induction ms with
  | nil => rfl
  | cons m ms ih =>
    rw [sumIn_cons, h m (by simp), ih (fun m hm => h m (List.mem_cons_of_mem _ hm))]; ring

/-! ### Reports that cannot fail -/

theorem filterPosting_ok {env : Env} {o : FilterOpts} {t : Txn Posting} (hd : t.date.isSome)
    (p : Posting) (st : Commodities) :
    ∃ b, filterPosting env o none t p st = .ok (b, st) := by
  obtain ⟨d, hd⟩ := Option.isSome_iff_exists.mp hd
  unfold filterPosting
  rw [hd]
  split
  · exact ⟨_, rfl⟩
  · cases o.toDate with
    | none =>
      cases o.fromDate with
      | none => exact ⟨_, rfl⟩
      | some x => by_cases hx : d < x <;> simp [hx]
    | some y =>
      by_cases hy : d ≥ y
      · simp [hy]
      · cases o.fromDate with
        | none => simp [hy]
        | some x => by_cases hx : d < x <;> simp [hy, hx]

theorem collectPostings_ok {env : Env} {o : FilterOpts} {t : Txn Posting} (hd : t.date.isSome)
    (ps : List Posting) (ha : ∀ p ∈ ps, p.amount.isSome) (bals : Balances) (st : Commodities) :
    ∃ r, collectPostings env o none t ps bals st = .ok r := by
  induction ps generalizing bals with
  | nil => exact ⟨_, rfl⟩
  | cons p ps ih =>
    have ih := ih (fun q hq => ha q (List.mem_cons_of_mem _ hq))
    obtain ⟨b, hb⟩ := filterPosting_ok (env := env) (o := o) hd p st
    obtain ⟨m, hm⟩ := Option.isSome_iff_exists.mp (ha p (by simp))
    unfold collectPostings
    rw [hb]
    cases b with
    | false => exact ih bals
    | true => simp only [collectPosting, hm]; exact ih _

theorem getPayee_ok {env : Env} (t : Txn Posting) {payees : NList PayeeDef}
    (h : payees.Reachable env.lower) :
    ∃ r, getPayee env t payees = .ok r ∧ r.2.Reachable env.lower := by
  have hi := NList.Inv.reach h
  unfold getPayee
  have : (∃ e, payees.get env.lower t.description = .ok e) ∨
      payees.get env.lower t.description = .error (.error .aliasNotInList) := by
    unfold NList.get
    cases h1 : payees.list.get? (env.lower t.description) with
    | some x => exact Or.inl ⟨x, rfl⟩
    | none =>
      cases h2 : payees.aliases.get? (env.lower t.description) with
      | none => exact Or.inr rfl
      | some x =>
        obtain ⟨e, he⟩ := Option.isSome_iff_exists.mp (hi.aliasOk _ _ h2)
        exact Or.inl ⟨e, by simp [he, unwrap]⟩
  rcases this with ⟨e, he⟩ | he
  · rw [he]; exact ⟨_, rfl, h⟩
  · rw [he]; exact ⟨_, rfl, .insert _ h⟩

theorem registerPostings_ok {env : Env} {s : Nat → Shuf} {o : FilterOpts} {t : Txn Posting}
    (hd : t.date.isSome) (ps : List Posting) (ha : ∀ p ∈ ps, p.amount.isSome) (counter : Nat)
    (st : RegState) (hp : st.payees.Reachable env.lower) :
    ∃ r, registerPostings env s o none t ps counter st = .ok r ∧ r.payees.Reachable env.lower := by
  induction ps generalizing counter st with
  | nil => exact ⟨_, rfl, hp⟩
  | cons p ps ih =>
    have ih := ih (fun q hq => ha q (List.mem_cons_of_mem _ hq))
    obtain ⟨b, hb⟩ := filterPosting_ok (env := env) (o := o) hd p st.commodities
    obtain ⟨m, hm⟩ := Option.isSome_iff_exists.mp (ha p (by simp))
    unfold registerPostings
    rw [hb]
    cases b with
    | false => exact ih counter _ hp
    | true =>
      obtain ⟨d, hd⟩ := Option.isSome_iff_exists.mp hd
      obtain ⟨⟨payee, payees⟩, h1, h2⟩ := getPayee_ok (env := env) t hp
      by_cases hc : counter = 0
      · simp only [registerPosting, hc, hd, h1, hm, if_true]
        exact ih _ _ h2
      · simp only [registerPosting, hc, hm, if_false]
        exact ih _ _ hp

theorem forall₂_right {α β : Type} {R : α → β → Prop} {l : List α} {l' : List β}
    (h : List.Forall₂ R l l') : ∀ y ∈ l', ∃ x ∈ l, R x y := by
  induction h with
  | nil => intro y hy; cases hy
  | cons h _ ih =>
    intro y hy
    rcases List.mem_cons.mp hy with rfl | hy
    · exact ⟨_, by simp, h⟩
    · obtain ⟨x, hx, hr⟩ := ih y hy
      exact ⟨x, List.mem_cons_of_mem _ hx, hr⟩

end Dinero
