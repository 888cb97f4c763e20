import Verif.Spec.Sales
import Verif.Lemmas.Typing
/-
Lemmas on sales in brackets.
-/
namespace Dinero

theorem bought_cases (p : Posting) : p.bought = p ∨
    (p.kind = .virtBal ∧ ∃ u q c, p.cost = some (.perUnit u) ∧ p.amount = some (.mk q c) ∧
      p.bought = { p with amount := some (.mk |q| c) }) := by
  unfold Posting.bought
  split
  · next h1 h2 h3 => exact .inr ⟨h1, _, _, _, h2, h3, rfl⟩
  · exact .inl rfl

theorem bought_kind (p : Posting) : p.bought.kind = p.kind := by
  rcases bought_cases p with h | ⟨_, _, _, _, _, _, h⟩ <;> rw [h]

theorem bought_account (p : Posting) : p.bought.account = p.account := by
  rcases bought_cases p with h | ⟨_, _, _, _, _, _, h⟩ <;> rw [h]

theorem bought_other {p : Posting} (hk : p.kind ≠ .virtBal) : p.bought = p := by
  rcases bought_cases p with h | ⟨h, _⟩
  · exact h
  · exact absurd h hk

theorem bought_costOk {p : Posting} (h : p.CostOk) : p.bought.CostOk := by
  rcases bought_cases p with e | ⟨_, u, q, c, h1, h2, e⟩
  · rw [e]; exact h
  · rw [e]
    unfold Posting.CostOk at h ⊢
    simp only [h1] at h ⊢
    exact ⟨⟨_, _, rfl⟩, h.2⟩

theorem bought_noSales (ps : List Posting) : NoNegPerUnit .virtBal (ps.map Posting.bought) := by
  intro p hp hk u m hc hm
  obtain ⟨p0, _, rfl⟩ := List.mem_map.mp hp
  rcases bought_cases p0 with e | ⟨_, v, q, c, h1, h2, e⟩
  · rw [e] at hk hc hm
    cases m with
    | zero => exact le_refl _
    | mk q c =>
      have : p0.bought = { p0 with amount := some (.mk |q| c) } := by
        unfold Posting.bought; rw [hk, hc, hm]
      rw [e] at this
      have h3 := congrArg Posting.amount this
      simp only [hm, Option.some.injEq, Money.mk.injEq, and_true] at h3
      show 0 ≤ q
      rw [h3]; exact abs_nonneg q
  · rw [e] at hm
    cases hm
    exact abs_nonneg q

theorem totalBalanceLoop_bought (ps : List Posting) (acc : Balance) :
    totalBalanceLoop .virtBal (ps.map Posting.bought) acc = totalBalanceLoop .virtBal ps acc := by
  induction ps generalizing acc with
  | nil => rfl
  | cons p ps ih =>
    rcases bought_cases p with e | ⟨hk, u, q, c, h1, h2, e⟩
    · rw [List.map_cons, e, totalBalanceLoop, totalBalanceLoop]
      simp only [ih]
    · rw [List.map_cons, e, totalBalanceLoop, totalBalanceLoop]
      simp only [h2, hk, if_true, h1, ih]
      have : totalBalanceEntry (.mk |q| c) (some (.perUnit u)) = totalBalanceEntry (.mk q c) (some (.perUnit u)) := by
        cases u with
        | zero => rfl
        | mk x d =>
          unfold totalBalanceEntry
          simp only [Money.isNegative, Money.amount]
          by_cases h : q < 0
          · have h' : ¬ -q < 0 := by linarith
            simp only [h, h', decide_true, decide_false, if_true, Bool.false_eq_true, if_false, abs_of_neg h]
            congr 3; ring
          · rw [abs_of_nonneg (not_lt.mp h)]
      rw [this]

theorem balanceLoop_bought {skip : Bool} (ps : List Posting) (st : LoopSt) :
    balanceLoop skip (ps.map Posting.bought) st = balanceLoop skip ps st := by
  induction ps generalizing st with
  | nil => rfl
  | cons p ps ih =>
    rw [List.map_cons, balanceLoop, balanceLoop]
    have : balanceStep skip st p.bought = balanceStep skip st p := by
      by_cases hk : p.kind = .virtBal
      · have h1 : p.kind ≠ .real := by rw [hk]; decide
        have h2 : p.bought.kind ≠ .real := by rw [bought_kind]; exact h1
        unfold balanceStep
        rw [if_pos h1, if_pos h2]
      · rw [bought_other hk]
    rw [this]
    simp only [ih]

theorem fillLoop_congr {t u : Txn Posting} (hc : u.comments = t.comments) (ht : u.tags = t.tags) {a : Str}
    {y : Option Str} (ms : List Money) : ∀ {bals : Balances} {out : List Posting},
    fillLoop u a y ms bals out = fillLoop t a y ms bals out := by
  induction ms with
  | nil => intro bals out; rfl
  | cons m ms ih =>
    intro bals out
    rw [fillLoop, fillLoop, hc, ht]
    simp only [ih]

theorem filter_bought (ps : List Posting) :
    (ps.map Posting.bought).filter (fun p => p.kind = .real) = ps.filter (fun p => p.kind = .real) := by
  induction ps with
  | nil => rfl
  | cons p ps ih =>
    rw [List.map_cons, List.filter_cons, List.filter_cons, ih, bought_kind]
    by_cases hk : p.kind = .real
    · rw [bought_other (by rw [hk]; decide)]
    · rw [if_neg (by simpa using hk), if_neg (by simpa using hk)]

/-- The code takes sales in brackets for purchases. -/
theorem balance_bought {s : Shuf} {skip : Bool} {bals : Balances} {t : Txn Posting} :
    (Txn.balance s skip bals t.bought).map (fun x => (x.1, x.2.2)) =
      (Txn.balance s skip bals t).map (fun x => (x.1, x.2.2)) := by
  unfold Txn.balance
  have h1 : totalBalance t.bought.postings .virtBal = totalBalance t.postings .virtBal :=
    totalBalanceLoop_bought _ _
  rw [h1]
  cases totalBalance t.postings .virtBal with
  | error e => rfl
  | ok vb =>
    simp only
    split
    · rfl
    · rw [show balanceLoop skip t.bought.postings _ = balanceLoop skip t.postings
        ⟨bals, Balance.new, "this will never be used".toList, none, []⟩ from balanceLoop_bought _ _]
      cases balanceLoop skip t.postings ⟨bals, Balance.new, "this will never be used".toList, none, []⟩ with
      | error e => rfl
      | ok st =>
        simp only
        rw [show t.bought.postings.filter (fun p => p.kind = .real) = t.postings.filter (fun p => p.kind = .real) from
          filter_bought _]
        split
        · rfl
        · split
          · split <;> rfl
          · rw [fillLoop_congr (t := t) (u := t.bought) rfl rfl]
            split <;> rfl

theorem balanceAll_bought {skip : Bool} (ts : List (Txn Posting)) {σ : Nat → Shuf} {bals : Balances} :
    (∃ x, balanceAll skip σ bals (ts.map Txn.bought) = .ok x) ↔ ∃ x, balanceAll skip σ bals ts = .ok x := by
  induction ts generalizing σ bals with
  | nil => exact Iff.rfl
  | cons t ts ih =>
    have h := balance_bought (s := σ 0) (skip := skip) (bals := bals) (t := t)
    rw [List.map_cons, balanceAll, balanceAll]
    cases h1 : Txn.balance (σ 0) skip bals t.bought with
    | error e =>
      cases h2 : Txn.balance (σ 0) skip bals t with
      | error e => simp
      | ok y => rw [h1, h2] at h; cases h
    | ok x =>
      cases h2 : Txn.balance (σ 0) skip bals t with
      | error e => rw [h1, h2] at h; cases h
      | ok y =>
        obtain ⟨b1, t1, r1⟩ := x
        obtain ⟨b2, t2, r2⟩ := y
        rw [h1, h2] at h
        cases h
        have := ih (σ := fun i => σ (i + 1)) (bals := b1)
        simp only
        cases h3 : balanceAll skip (fun i => σ (i + 1)) b1 (ts.map Txn.bought) with
        | error e =>
          cases h4 : balanceAll skip (fun i => σ (i + 1)) b1 ts with
          | error e => simp
          | ok y => rw [h3, h4] at this; simp at this
        | ok x =>
          cases h4 : balanceAll skip (fun i => σ (i + 1)) b1 ts with
          | error e => rw [h3, h4] at this; simp at this
          | ok y => simp

/-- The balancing pass succeeds exactly when the transactions can be booked with purchases for sales in brackets. -/
theorem balanceAll_iff_books {skip : Bool} {ts : List (Txn Posting)} {σ : Nat → Shuf} {accounts : NList AccountDef}
    (hp : ∀ t ∈ ts, ∀ p ∈ t.postings, p.CostOk ∧ ((initialBalances accounts).get? p.account).isSome) :
    (∃ x, balanceAll skip σ (initialBalances accounts) ts = .ok x) ↔
      ∃ final, BooksAll skip (fun _ _ => 0) (ts.map Txn.bought) final := by
  have hp' : ∀ t ∈ ts.map Txn.bought, ∀ p ∈ t.postings, p.CostOk ∧ ((initialBalances accounts).get? p.account).isSome := by
    intro t ht p hpm
    obtain ⟨t0, ht0, rfl⟩ := List.mem_map.mp ht
    obtain ⟨p0, hp0, rfl⟩ := List.mem_map.mp hpm
    obtain ⟨h1, h2⟩ := hp t0 ht0 p0 hp0
    exact ⟨bought_costOk h1, by rw [bought_account]; exact h2⟩
  have hn : ∀ t ∈ ts.map Txn.bought, NoNegPerUnit .virtBal t.postings := by
    intro t ht
    obtain ⟨t0, _, rfl⟩ := List.mem_map.mp ht
    exact bought_noSales _
  rw [← balanceAll_bought]
  constructor
  · rintro ⟨⟨b, rs⟩, hx⟩
    have := books_of_balanceAll _ (initialBalances_ok _) hp' hn hx
    rw [initialBalances_amt] at this
    exact ⟨_, this⟩
  · rintro ⟨final, hx⟩
    exact balanceAll_of_books hx (initialBalances_amt _) (initialBalances_ok _) hp' hn

theorem weightOf_real_bought (ps : List Posting) (c : Cur) :
    weightOf .real (ps.map Posting.bought) c = weightOf .real ps c := by
  unfold weightOf
  rw [filter_bought]

theorem postedTo_bought (ps : List Posting) (a : Str) (c : Cur) :
    postedTo (ps.map Posting.bought) a c = postedTo ps a c := by
  have h : ∀ qs : List Posting, qs.filter (fun p => p.kind = .real ∧ p.account = a) =
      (qs.filter (fun p => p.kind = .real)).filter (fun p => p.account = a) := by
    intro qs; rw [List.filter_filter]; congr; funext p; simp [Bool.and_comm]
  unfold postedTo
  rw [h, h, filter_bought]

theorem assertions_bought {start : Str → Cur → Rat} (ps : List Posting) :
    AssertionsHold start (ps.map Posting.bought) ↔ AssertionsHold start ps := by
  constructor
  · intro h pre q post hq hk x d hb
    have := h (pre.map Posting.bought) q (post.map Posting.bought)
      (by rw [hq, List.map_append, List.map_cons, bought_other (p := q) (by rw [hk]; decide)]) hk x d hb
    rw [show pre.map Posting.bought ++ [q] = (pre ++ [q]).map Posting.bought by
      rw [List.map_append, List.map_singleton, bought_other (p := q) (by rw [hk]; decide)], postedTo_bought] at this
    exact this
  · intro h pre q post hq hk x d hb
    obtain ⟨pre', rest, e1, e2, e3⟩ := List.map_eq_append_iff.mp hq
    obtain ⟨q', post', e4, e5, e6⟩ := List.map_eq_cons_iff.mp e3
    have hq' : q' = q := by
      rw [← e5]
      exact (bought_other (by rw [← bought_kind, e5, hk]; decide)).symm
    subst hq'
    have := h pre' q' post' (by rw [e1, e4]) hk x d hb
    rw [← e2, ← postedTo_bought (pre' ++ [q']), List.map_append, List.map_singleton, e5] at *
    exact this

theorem amounts_bought {ps : List Posting} (h : AllAmounts ps) : AllAmounts (ps.map Posting.bought) := by
  intro p hp hk
  obtain ⟨p0, hp0, rfl⟩ := List.mem_map.mp hp
  rw [bought_kind] at hk
  rw [bought_other (by rw [hk]; decide)]
  exact h p0 hp0 hk

/-- With all amounts written. -/
theorem booksAll_bought {ts : List (Txn Posting)} (hf : ∀ t ∈ ts, AllAmounts t.postings) :
    (∃ final, BooksAll false (fun _ _ => 0) (ts.map Txn.bought) final) ↔
      (∀ t ∈ ts, MayBalance (weightOf .real t.postings) ∧ MayBalance (weightOf .virtBal t.bought.postings)) ∧
        AssertionsHold (fun _ _ => 0) (ts.flatMap (fun t => t.postings)) := by
  have hfull := fun final => booksAll_full (skip := false) (start := fun _ _ => 0) (final := final) (ts.map Txn.bought)
    (by
      intro t ht
      obtain ⟨t0, ht0, rfl⟩ := List.mem_map.mp ht
      exact amounts_bought (hf t0 ht0))
  have e : (ts.map Txn.bought).flatMap (fun t => t.postings) = (ts.flatMap (fun t => t.postings)).map Posting.bought := by
    induction ts with
    | nil => rfl
    | cons t ts ih =>
      simp only [List.map_cons, List.flatMap_cons, List.map_append]
      rw [ih (fun u hu => hf u (by simp [hu]))]
      · rfl
      · intro final; exact booksAll_full _ (by
          intro t ht
          obtain ⟨t0, ht0, rfl⟩ := List.mem_map.mp ht
          exact amounts_bought (hf t0 (by simp [ht0])))
  have hw : (∀ t ∈ ts.map Txn.bought, MayBalance (weightOf .real t.postings) ∧ MayBalance (weightOf .virtBal t.postings)) ↔
      ∀ t ∈ ts, MayBalance (weightOf .real t.postings) ∧ MayBalance (weightOf .virtBal t.bought.postings) := by
    rw [List.forall_mem_map]
    refine forall₂_congr fun t _ => and_congr ?_ Iff.rfl
    exact mayBalance_congr (fun c => weightOf_real_bought _ c)
  rw [e, assertions_bought] at hfull
  simp only [hw] at hfull
  constructor
  · rintro ⟨final, hb⟩
    obtain ⟨h1, h2, _⟩ := (hfull _).mp hb
    exact ⟨h1, h2.resolve_left (by simp)⟩
  · rintro ⟨h1, h2⟩
    exact ⟨_, (hfull _).mpr ⟨h1, .inr h2, fun _ _ => rfl⟩⟩

end Dinero
