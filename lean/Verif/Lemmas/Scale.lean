import Verif.Spec.Scale
import Verif.Lemmas.Rulework
import Verif.Lemmas.Sales
import Verif.Lemmas.Crash
/-
Helper lemmas about journals in another unit.
-/
namespace Dinero

/-! ### Money -/

theorem times_amountIn (k : Rat) (m : Money) (c : Cur) : (m.times k).amountIn c = k * m.amountIn c := by
  cases m with
  | zero => simp [Money.times, Money.amountIn, Money.commodity]
  | mk a d =>
    unfold Money.times Money.amountIn
    simp only [Money.commodity, Money.amount]
    by_cases h : d = c <;> simp [h]

theorem times_amount (k : Rat) (m : Money) : (m.times k).amount = k * m.amount := by
  cases m <;> simp [Money.times, Money.amount]

theorem sumIn_times (k : Rat) (ms : List Money) (c : Cur) : sumIn (ms.map (Money.times k)) c = k * sumIn ms c := by
  induction ms with
  | nil => simp
  | cons m ms ih => rw [List.map_cons, sumIn_cons, sumIn_cons, times_amountIn, ih]; ring

theorem times_inv {k : Rat} (hk : k ≠ 0) (m : Money) : (m.times k).times k⁻¹ = m := by
  cases m with
  | zero => rfl
  | mk a c => simp [Money.times, inv_mul_cancel_left₀ hk]

theorem times_neg (k : Rat) (m : Money) : (m.neg).times k = (m.times k).neg := by
  cases m <;> simp [Money.times, Money.neg]

/-! ### Postings -/

theorem posting_times_inv {k : Rat} (hk : k ≠ 0) (p : Posting) : (p.times k).times k⁻¹ = p := by
  have h : (Money.times k⁻¹ ∘ Money.times k) = id := by funext m; exact times_inv hk m
  unfold Posting.times
  simp only [Option.map_map, h, Option.map_id_fun, id]
  rw [show p.cost.map _ = p.cost from ?_]
  cases hc : p.cost with
  | none => rfl
  | some c => cases c with
    | total m => simp [times_inv hk]
    | perUnit m => rfl

theorem postings_times_inv {k : Rat} (hk : k ≠ 0) (ps : List Posting) :
    (ps.map (Posting.times k)).map (Posting.times k⁻¹) = ps := by
  rw [List.map_map]
  conv_rhs => rw [← List.map_id ps]
  apply List.map_congr_left
  intro p _
  exact posting_times_inv hk p

theorem times_weight {k : Rat} (hk : 0 < k) (p : Posting) (c : Cur) :
    (p.times k).weight.amountIn c = k * p.weight.amountIn c := by
  unfold Posting.weight Posting.times
  cases ha : p.amount with
  | none => simp [Money.amountIn, Money.commodity]
  | some m =>
    cases hc : p.cost with
    | none => simp [times_amountIn]
    | some x => cases x with
      | total t =>
        simp only [Option.map_some, times_amount]
        have : k * m.amount < 0 ↔ m.amount < 0 := by
          constructor
          · intro h; by_contra hn; exact absurd (mul_nonneg hk.le (not_lt.mp hn)) (not_le.mpr h)
          · exact fun h => mul_neg_of_pos_of_neg hk h
        simp only [this]
        split
        · rw [← times_neg, times_amountIn]
        · rw [times_amountIn]
      | perUnit u =>
        simp only [Option.map_some, times_amount]
        cases u with
        | zero => simp [Money.mul, Money.amountIn, Money.commodity]
        | mk b d =>
          simp only [Money.mul, Money.amountIn, Money.commodity, Money.amount]
          by_cases h : d = c
          · simp only [h, if_true]; ring
          · simp [h]

theorem times_weightOf {k : Rat} (hk : 0 < k) (kd : Kind) (ps : List Posting) (c : Cur) :
    weightOf kd (ps.map (Posting.times k)) c = k * weightOf kd ps c := by
  unfold weightOf
  induction ps with
  | nil => simp
  | cons p ps ih =>
    rw [List.map_cons]
    by_cases h : p.kind = kd
    · rw [List.filter_cons_of_pos (by simp [Posting.times, h]), List.filter_cons_of_pos (by simp [h]),
        List.map_cons, List.map_cons, sumIn_cons, sumIn_cons, ih, times_weight hk]; ring
    · rw [List.filter_cons_of_neg (by simp [Posting.times, h]), List.filter_cons_of_neg (by simp [h]), ih]

/-- What is posted where `P` says, by account and kind. -/
def postedWhere (P : Str → Kind → Bool) (ps : List Posting) (c : Cur) : Rat :=
  sumIn ((ps.filter (fun p => P p.account p.kind)).filterMap Posting.amount) c

theorem postedWhere_append (P : Str → Kind → Bool) (ps qs : List Posting) (c : Cur) :
    postedWhere P (ps ++ qs) c = postedWhere P ps c + postedWhere P qs c := by
  unfold postedWhere
  rw [List.filter_append, List.filterMap_append, sumIn_append]

theorem times_postedWhere (k : Rat) (P : Str → Kind → Bool) (ps : List Posting) (c : Cur) :
    postedWhere P (ps.map (Posting.times k)) c = k * postedWhere P ps c := by
  unfold postedWhere
  rw [← sumIn_times]
  congr 1
  induction ps with
  | nil => rfl
  | cons p ps ih =>
    rw [List.map_cons]
    by_cases h : P p.account p.kind = true
    · rw [List.filter_cons_of_pos (p := fun p : Posting => P p.account p.kind) (by simpa [Posting.times] using h), List.filter_cons_of_pos (p := fun p : Posting => P p.account p.kind) h]
      cases ha : p.amount with
      | none => rw [List.filterMap_cons_none (by simp [Posting.times, ha]), List.filterMap_cons_none ha, ih]
      | some m =>
        rw [List.filterMap_cons_some (b := m.times k) (by simp [Posting.times, ha]), List.filterMap_cons_some ha, ih]; rfl
    · rw [List.filter_cons_of_neg (p := fun p : Posting => P p.account p.kind) (by simpa [Posting.times] using h), List.filter_cons_of_neg (p := fun p : Posting => P p.account p.kind) h, ih]

theorem postedTo_where (ps : List Posting) (a : Str) (c : Cur) :
    postedTo ps a c = postedWhere (fun x kd => decide (kd = .real ∧ x = a)) ps c := rfl

theorem times_postedTo (k : Rat) (ps : List Posting) (a : Str) (c : Cur) :
    postedTo (ps.map (Posting.times k)) a c = k * postedTo ps a c := by
  rw [postedTo_where, postedTo_where, times_postedWhere]

theorem times_elided (k : Rat) (skip : Bool) (p : Posting) : (p.times k).elided skip ↔ p.elided skip := by
  unfold Posting.elided Posting.times
  simp

theorem times_mayBalance {k : Rat} (hk : 0 < k) {f g : Cur → Rat} (h : ∀ c, g c = k * f c) (hf : MayBalance f) :
    MayBalance g := by
  rcases hf with h0 | ⟨c, d, h1, h2⟩
  · exact .inl (fun c => by rw [h, h0, mul_zero])
  · exact .inr ⟨c, d, by rw [h]; exact mul_pos hk h1, by rw [h]; exact mul_neg_of_pos_of_neg hk h2⟩

theorem times_bought {k : Rat} (hk : 0 < k) (p : Posting) : (p.times k).bought = p.bought.times k := by
  unfold Posting.bought
  rw [show (p.times k).kind = p.kind from rfl]
  cases hkd : p.kind with
  | real => rfl
  | virt => rfl
  | virtBal =>
    cases hc : p.cost with
    | none => simp [Posting.times, hc]
    | some x =>
      cases x with
      | total t => simp [Posting.times, hc]
      | perUnit u =>
        cases ha : p.amount with
        | none => simp [Posting.times, hc, ha]
        | some m =>
          cases m with
          | zero => simp [Posting.times, hc, ha, Money.times]
          | mk q c => simp [Posting.times, hc, ha, Money.times, abs_mul, abs_of_pos hk]

/-! ### Booking -/

/-- Amounts `k` times as large. -/
def largerBy (k : Rat) (f : Str → Cur → Rat) : Str → Cur → Rat := fun a c => k * f a c

theorem times_afterPosting (k : Rat) (start : Str → Cur → Rat) (a : Str) (m : Money) :
    afterPosting (largerBy k start) a (m.times k) = largerBy k (afterPosting start a m) := by
  funext x c
  unfold afterPosting largerBy
  rw [times_amountIn]
  by_cases h : a = x
  · simp only [h, if_true]; ring
  · simp [h]

theorem times_posts {k : Rat} (hk : 0 < k) {skip : Bool} {start : Str → Cur → Rat} {ps qs : List Posting}
    (h : Posts skip start ps qs) : Posts skip (largerBy k start) (ps.map (Posting.times k)) (qs.map (Posting.times k)) := by
  induction h with
  | nil => exact .nil
  | other h1 _ ih => exact .other h1 ih
  | elided h1 _ ih => exact .elided ((times_elided k _ _).mpr h1) ih
  | @given start p m ps qs h1 h2 h3 _ ih =>
    refine .given (m := m.times k) h1 (by simp [Posting.times, h2]) ?_ ?_
    · intro hs x d hb
      simp only [Posting.times, Option.map_eq_some_iff] at hb
      obtain ⟨b, hb, hbx⟩ := hb
      cases b with
      | zero => cases hbx
      | mk y e =>
        simp only [Money.times, Money.mk.injEq] at hbx
        obtain ⟨rfl, rfl⟩ := hbx
        rw [times_amountIn]
        change k * start p.account e + _ = _
        rw [← mul_add, h3 hs y e hb]
    · rw [show (p.times k).account = p.account from rfl, times_afterPosting]; exact ih
  | @assigned start p m b ps qs h1 h2 h3 h4 h5 h6 _ ih =>
    have := Posts.assigned (skip := skip) (start := largerBy k start) (p := p.times k) (m := m.times k) (b := b.times k)
      (ps := ps.map (Posting.times k)) (qs := qs.map (Posting.times k)) h1 (by simp [Posting.times, h2]) h3
      (by simp [Posting.times, h4]) (fun c => by
        rw [times_amountIn, times_amountIn, ← h5 c]
        change k * start p.account c + _ = _
        ring)
      (h6.imp (fun h => by rw [h]; rfl) (fun h => by rw [times_amount]; exact mul_ne_zero hk.ne' h))
      (by rw [show (p.times k).account = p.account from rfl, times_afterPosting]; exact ih)
    rw [List.map_cons, List.map_cons]
    rw [show ({ p with amount := some m } : Posting).times k = { p.times k with amount := some (m.times k) } from rfl]
    exact this

theorem times_filter (k : Rat) {Q : Posting → Prop} [DecidablePred Q] (h : ∀ p : Posting, Q (p.times k) ↔ Q p) (ps : List Posting) :
    (ps.map (Posting.times k)).filter (fun p => Q p) = (ps.filter (fun p => Q p)).map (Posting.times k) := by
  rw [List.filter_map]
  congr 1
  apply List.filter_congr
  intro p _
  simp [h]

theorem times_books {k : Rat} (hk : 0 < k) {skip : Bool} {start after : Str → Cur → Rat} {t t' : Txn Posting}
    (ht : t'.postings = t.postings.map (Posting.times k)) (h : Books skip start t after) :
    Books skip (largerBy k start) t' (largerBy k after) := by
  obtain ⟨qs, h1, h2, h3⟩ := h
  refine ⟨qs.map (Posting.times k), by rw [ht]; exact times_posts hk h1,
    times_mayBalance hk (fun c => by rw [ht, times_weightOf hk]) h2, ?_⟩
  rcases h3 with ⟨g1, g2, g3⟩ | ⟨p, g1, g2⟩
  · refine .inl ⟨fun p hp => ?_, times_mayBalance hk (times_weightOf hk _ _) g2, fun a c => ?_⟩
    · rw [ht] at hp
      obtain ⟨p0, hp0, rfl⟩ := List.mem_map.mp hp
      rw [times_elided]; exact g1 p0 hp0
    · unfold largerBy; rw [g3, times_postedTo]; ring
  · refine .inr ⟨p.times k, ?_, fun a c => ?_⟩
    · rw [ht, times_filter k (times_elided k skip), g1]; rfl
    · unfold largerBy
      rw [g2, times_postedTo, times_weightOf hk, show (p.times k).account = p.account from rfl]
      split <;> ring

/-- The same transactions with `k` times the amounts, as far as amounts go. -/
def LargerBy (k : Rat) : List (Txn Posting) → List (Txn Posting) → Prop :=
  List.Forall₂ (fun t t' => t'.postings = t.postings.map (Posting.times k))

theorem times_booksAll {k : Rat} (hk : 0 < k) {skip : Bool} {start final : Str → Cur → Rat} {ts ts' : List (Txn Posting)}
    (ht : LargerBy k ts ts') (h : BooksAll skip start ts final) : BooksAll skip (largerBy k start) ts' (largerBy k final) := by
  induction h generalizing ts' with
  | nil => cases ht; exact .nil
  | cons h1 _ ih =>
    cases ht with
    | cons e1 e2 => exact .cons (times_books hk e1 h1) (ih e2)

theorem LargerBy.inv {k : Rat} (hk : k ≠ 0) {ts ts' : List (Txn Posting)} (h : LargerBy k ts ts') : LargerBy k⁻¹ ts' ts := by
  unfold LargerBy at *
  refine h.flip.imp (fun t t' ht => ?_)
  rw [ht, postings_times_inv hk]

theorem LargerBy.bought {k : Rat} (hk : 0 < k) {ts ts' : List (Txn Posting)} (h : LargerBy k ts ts') :
    LargerBy k (ts.map Txn.bought) (ts'.map Txn.bought) := by
  unfold LargerBy at *
  rw [List.forall₂_map_left_iff, List.forall₂_map_right_iff]
  refine h.imp (fun t t' ht => ?_)
  unfold Txn.bought
  simp only [ht, List.map_map]
  apply List.map_congr_left
  intro p _
  exact times_bought hk p

theorem larger_zero (k : Rat) : largerBy k (fun _ _ => 0) = fun _ _ => 0 := by
  funext a c; simp [largerBy]

/-- Whether transactions can be booked does not depend on the unit. -/
theorem booksAll_times_iff {k : Rat} (hk : 0 < k) {skip : Bool} {ts ts' : List (Txn Posting)} (h : LargerBy k ts ts') :
    (∃ final, BooksAll skip (fun _ _ => 0) ts final) ↔ ∃ final, BooksAll skip (fun _ _ => 0) ts' final := by
  constructor
  · rintro ⟨f, hf⟩
    have := times_booksAll hk h hf
    rw [larger_zero] at this
    exact ⟨_, this⟩
  · rintro ⟨f, hf⟩
    have := times_booksAll (inv_pos.mpr hk) (h.inv hk.ne') hf
    rw [larger_zero] at this
    exact ⟨_, this⟩

/-! ### Entries -/

theorem money_ext {m n : Money} (hm : m = .zero ∨ m.amount ≠ 0) (hn : n = .zero ∨ n.amount ≠ 0)
    (h : ∀ c, m.amountIn c = n.amountIn c) : m = n := by
  cases m with
  | zero =>
    cases n with
    | zero => rfl
    | mk b d =>
      have := h d
      simp only [Money.amountIn, Money.commodity, Money.amount] at this
      rcases hn with hn | hn
      · cases hn
      · simp only [Money.amount] at hn
        simp at this
        exact absurd this.symm hn
  | mk a c =>
    rcases hm with hm | hm
    · cases hm
    have hc := h c
    cases n with
    | zero => simp [Money.amountIn, Money.commodity, Money.amount] at hc; exact absurd hc hm
    | mk b d =>
      by_cases hcd : c = d
      · subst hcd
        simp [Money.amountIn, Money.commodity, Money.amount] at hc
        rw [hc]
      · simp [Money.amountIn, Money.commodity, Money.amount, Ne.symm hcd] at hc
        exact absurd hc hm

/-- What is posted is determined. -/
theorem posts_unique {skip : Bool} {start : Str → Cur → Rat} {ps qs qs' : List Posting} (h : Posts skip start ps qs)
    (h' : Posts skip start ps qs') : qs = qs' := by
  induction h generalizing qs' with
  | nil => cases h'; rfl
  | other h1 _ ih =>
    cases h' with
    | other _ g => exact ih g
    | elided g1 _ => exact absurd g1.1 h1
    | given g1 _ _ _ => exact absurd g1 h1
    | assigned g1 _ _ _ _ _ _ => exact absurd g1 h1
  | elided h1 _ ih =>
    cases h' with
    | other g1 _ => exact absurd h1.1 g1
    | elided _ g => exact ih g
    | given _ g2 _ _ => rw [h1.2.1] at g2; cases g2
    | assigned _ _ g3 g4 _ _ _ =>
      rcases h1.2.2 with h | h
      · rw [h] at g4; cases g4
      · rw [g3] at h; cases h
  | given h1 h2 _ _ ih =>
    cases h' with
    | other g1 _ => exact absurd h1 g1
    | elided g1 _ => rw [g1.2.1] at h2; cases h2
    | given _ g2 _ g =>
      rw [h2] at g2; cases g2
      rw [ih g]
    | assigned _ g2 _ _ _ _ _ => rw [h2] at g2; cases g2
  | assigned h1 h2 h3 h4 h5 h6 _ ih =>
    cases h' with
    | other g1 _ => exact absurd h1 g1
    | elided g1 _ =>
      rcases g1.2.2 with h | h
      · rw [h] at h4; cases h4
      · rw [h3] at h; cases h
    | given _ g2 _ _ => rw [h2] at g2; cases g2
    | assigned _ _ _ g4 g5 g6 g =>
      rw [h4] at g4; cases g4
      obtain rfl := money_ext h6 g6 (fun c => by have a := h5 c; have b := g5 c; linarith)
      rw [ih g]

/-- The entries by account and kind. -/
theorem enters_where {skip : Bool} {start : Str → Cur → Rat} {t : Txn Posting} {es : List Posting} (h : Enters skip start t es) :
    ∃ qs, Posts skip start t.postings qs ∧ ∀ P c, postedWhere P es c = postedWhere P qs c +
      (match t.postings.filter (fun p => p.elided skip) with
        | [p] => if P p.account .real then -(weightOf .real qs c) else 0
        | _ => 0) + postedWhere P (t.postings.filter (fun p => p.kind ≠ .real)) c := by
  obtain ⟨qs, gen, h1, rfl, h3⟩ := h
  refine ⟨qs, h1, fun P c => ?_⟩
  rw [postedWhere_append, postedWhere_append]
  congr 2
  rcases h3 with ⟨g1, _, rfl⟩ | ⟨p, g1, g2, ms, g3, g4, g5⟩
  · rw [show t.postings.filter (fun p => p.elided skip) = [] from by
      rw [List.filter_eq_nil_iff]; intro p hp; simpa using g1 p hp]
    rfl
  · rw [g1]
    simp only
    have hP : ∀ q ∈ gen, P q.account q.kind = P p.account .real := by
      intro q hq; obtain ⟨a1, a2, _⟩ := g2 q hq; rw [a1, a2]
    unfold postedWhere
    by_cases hp : P p.account .real = true
    · rw [List.filter_eq_self.mpr (fun q hq => by rw [hP q hq]; exact hp), if_pos hp]
      have : gen.filterMap Posting.amount = ms := by
        have e : gen.filterMap Posting.amount = (gen.map Posting.amount).filterMap id := by rw [List.filterMap_map]; rfl
        rw [e, g3, List.filterMap_map]
        simp
      rw [this]
      exact sumIn_of_cover (f := fun c => -(weightOf .real qs c)) g4 (fun m => by rw [g5]; simp) c
    · rw [List.filter_eq_nil_iff.mpr (fun q hq => by rw [hP q hq]; exact hp), if_neg hp]
      rfl

theorem times_enters {k : Rat} (hk : 0 < k) {skip : Bool} {start : Str → Cur → Rat} {t t' : Txn Posting} {es es' : List Posting}
    (ht : t'.postings = t.postings.map (Posting.times k)) (h : Enters skip start t es)
    (h' : Enters skip (largerBy k start) t' es') (P : Str → Kind → Bool) (c : Cur) :
    postedWhere P es' c = k * postedWhere P es c := by
  obtain ⟨qs, h1, h2⟩ := enters_where h
  obtain ⟨qs', h1', h2'⟩ := enters_where h'
  rw [ht] at h1'
  obtain rfl := posts_unique (times_posts hk h1) h1'
  rw [h2, h2', ht, times_filter k (times_elided k skip), times_filter k (Q := fun p => p.kind ≠ .real) (fun p => Iff.rfl),
    times_postedWhere, times_postedWhere]
  have : ∀ l : List Posting, (match l.map (Posting.times k) with
        | [p] => if P p.account .real then -(weightOf .real (qs.map (Posting.times k)) c) else 0
        | _ => 0) = k * (match l with
        | [p] => if P p.account .real then -(weightOf .real qs c) else 0
        | _ => 0) := by
    intro l
    match l with
    | [] => simp
    | [p] =>
      simp only [List.map_cons, List.map_nil]
      rw [times_weightOf hk, show (p.times k).account = p.account from rfl]
      split <;> ring
    | _ :: _ :: _ => simp
  rw [this]
  ring

theorem times_entersAll {k : Rat} (hk : 0 < k) {skip : Bool} {start : Str → Cur → Rat} {ts ts' : List (Txn Posting)} {es es' : List Posting}
    (ht : LargerBy k ts ts') (h : EntersAll skip start ts es) (h' : EntersAll skip (largerBy k start) ts' es')
    (P : Str → Kind → Bool) (c : Cur) : postedWhere P es' c = k * postedWhere P es c := by
  induction h generalizing ts' es' with
  | nil => cases ht; cases h'; simp [postedWhere]
  | @cons start t es ts rest h1 _ ih =>
    cases ht with
    | cons e1 e2 =>
      cases h' with
      | @cons _ _ es1 _ rest' g1 g2 =>
        have key := times_enters hk e1 h1 g1
        have : (fun a c => largerBy k start a c + postedTo es1 a c) = largerBy k (fun a c => start a c + postedTo es a c) := by
          funext a c
          unfold largerBy
          rw [postedTo_where, key, ← postedTo_where]; ring
        rw [this] at g2
        rw [postedWhere_append, postedWhere_append, key, ih e2 g2]
        ring

/-! ### Converting -/

theorem times_populate (env : Env) (o : LedgerOrders) (k : Rat) (pl : ParsedLedger) :
    populate env o (pl.times k) = populate env o pl := by
  have hp : (pl.times k).postings = pl.postings.map (RawPosting.times k) := by
    unfold ParsedLedger.postings ParsedLedger.times
    simp only [List.flatMap_map, List.map_flatMap]
    rfl
  have h1 : (pl.times k).commodityStrs = pl.commodityStrs := by
    unfold ParsedLedger.commodityStrs
    rw [hp, List.flatMap_map]
    rfl
  have h2 : (pl.times k).accountStrs = pl.accountStrs := by
    unfold ParsedLedger.accountStrs
    rw [hp, List.map_map]
    rfl
  have h3 : (pl.times k).payeeStrs = pl.payeeStrs := by
    unfold ParsedLedger.payeeStrs
    rw [hp, List.map_map]
    rfl
  unfold populate
  rw [h1, h2, h3]
  rfl

theorem times_regular (k : Rat) (pl : ParsedLedger) : (pl.times k).regular = pl.regular.map (Txn.times k) := by
  unfold ParsedLedger.regular ParsedLedger.times
  rw [List.filter_map]
  rfl

theorem times_automated {k : Rat} {pl : ParsedLedger} (h : pl.automated = []) : (pl.times k).automated = [] := by
  unfold ParsedLedger.automated ParsedLedger.times at *
  rw [List.filter_map, show ((fun t : Txn RawPosting => decide (t.ttype = .automated)) ∘ Txn.times k) =
    fun t => decide (t.ttype = .automated) from rfl, h]
  rfl

theorem times_totals {k : Rat} (hk : k ≠ 0) {pl : ParsedLedger} : (pl.times k).NoFreeTotals ↔ pl.NoFreeTotals := by
  unfold ParsedLedger.NoFreeTotals
  rw [times_regular]
  have e : ∀ p : RawPosting, (p.times k).moneyAmount ≠ some 0 ↔ p.moneyAmount ≠ some 0 := by
    intro p
    unfold RawPosting.times
    cases p.moneyAmount with
    | none => simp
    | some a => simp [hk]
  constructor
  · intro h t ht p hp hc
    exact (e p).mp (h (t.times k) (List.mem_map_of_mem ht) (p.times k) (List.mem_map_of_mem hp) hc)
  · intro h t ht p hp hc
    obtain ⟨t0, ht0, rfl⟩ := List.mem_map.mp ht
    obtain ⟨p0, hp0, rfl⟩ := List.mem_map.mp hp
    exact (e p0).mpr (h t0 ht0 p0 hp0 hc)

theorem times_rawMoney (env : Env) (cs : Commodities) (cur : Option Str) (k : Rat) (a : Option Rat) {m : Option Money}
    (h : rawMoney env cs cur a = .ok m) : rawMoney env cs cur (a.map (k * ·)) = .ok (m.map (Money.times k)) := by
  unfold rawMoney at *
  cases cur with
  | none => cases h; rfl
  | some c =>
    simp only at h ⊢
    cases hn : commodityNamed env cs c with
    | error e => rw [hn] at h; cases h
    | ok n =>
      rw [hn] at h
      cases a with
      | none => cases h
      | some q => cases h; rfl

theorem times_rawCost (env : Env) (cs : Commodities) (date : Option Date) {k : Rat} (hk : k ≠ 0) (p : RawPosting) (amount : Option Money)
    {x : Option (Cost × Price)} (h : rawCost env cs date p amount = .ok x) :
    ∃ x', rawCost env cs date (p.times k) (amount.map (Money.times k)) = .ok x' ∧
      x'.map Prod.fst = (x.map Prod.fst).map (fun c => match c with | .total m => .total (m.times k) | .perUnit m => .perUnit m) ∧
      x'.map Prod.snd = x.map Prod.snd := by
  unfold rawCost at *
  rw [show (p.times k).costCurrency = p.costCurrency from rfl, show (p.times k).moneyCurrency = p.moneyCurrency from rfl,
    show (p.times k).costType = p.costType from rfl]
  cases hc : p.costCurrency with
  | none => rw [hc] at h; cases h; exact ⟨none, rfl, rfl, rfl⟩
  | some c =>
    rw [hc] at h
    simp only at h ⊢
    cases hm : p.moneyCurrency with
    | none => rw [hm] at h; cases h
    | some mc =>
      rw [hm] at h
      simp only at h ⊢
      cases h1 : commodityNamed env cs mc with
      | error e => rw [h1] at h; cases h
      | ok pc =>
        rw [h1] at h
        simp only at h ⊢
        cases h2 : commodityNamed env cs c with
        | error e => rw [h2] at h; cases h
        | ok cn =>
          rw [h2] at h
          simp only at h ⊢
          cases hq : p.costAmount with
          | none => rw [hq] at h; cases h
          | some q =>
            cases ht : p.costType with
            | none => rw [hq, ht] at h; cases h
            | some ty =>
              cases date with
              | none => rw [hq, ht] at h; cases h
              | some d =>
                rw [hq, ht] at h
                simp only at h
                cases ty with
                | perUnit =>
                  simp only [RawPosting.times, ht, hq] at h ⊢
                  rw [if_neg (by simp)]
                  simp only
                  rw [show unitPrice .perUnit q (amount.map (Money.times k)) = unitPrice .perUnit q amount from rfl]
                  cases hu : unitPrice .perUnit q amount with
                  | error e => rw [hu] at h; cases h
                  | ok u => rw [hu] at h; cases h; exact ⟨_, rfl, rfl, rfl⟩
                | total =>
                  simp only [RawPosting.times, ht, hq] at h ⊢
                  simp only [if_true, Option.map_some]
                  cases amount with
                  | none => cases h
                  | some m =>
                    have hu : ∀ u, unitPrice .total q (some m) = .ok u → unitPrice .total (k * q) (some (m.times k)) = .ok u := by
                      intro u hu
                      unfold unitPrice ratDiv at hu ⊢
                      simp only at hu ⊢
                      rw [times_amount]
                      split at hu
                      · cases hu
                      · next hne =>
                        rw [if_neg (mul_ne_zero hk hne)]
                        cases hu
                        rw [mul_div_mul_left _ _ hk]
                    cases hu0 : unitPrice .total q (some m) with
                    | error e => rw [hu0] at h; cases h
                    | ok u =>
                      rw [hu0] at h; cases h
                      simp only [Option.map_some]
                      rw [hu u hu0]
                      exact ⟨_, rfl, rfl, rfl⟩

theorem times_convertPosting {env : Env} {s : Shuf} {l : Lists} {t : Txn RawPosting} {tags : List Tag} {p : RawPosting} {k : Rat}
    (hk : k ≠ 0) {q : Posting} {pr : Option Price} (h : convertPosting env s l t tags p = .ok (q, pr)) :
    convertPosting env s l (t.times k) tags (p.times k) = .ok (q.times k, pr) := by
  unfold convertPosting at *
  rw [show postingPayee env l.payees (t.times k).description (p.times k) = postingPayee env l.payees t.description p from rfl]
  cases h1 : postingPayee env l.payees t.description p with
  | error e => rw [h1] at h; cases h
  | ok payee =>
    rw [h1] at h
    simp only at h ⊢
    rw [show (p.times k).account = p.account from rfl]
    cases h2 : postingAccount env s l.accounts p.account payee with
    | error e => rw [h2] at h; cases h
    | ok account =>
      rw [h2] at h
      simp only at h ⊢
      cases h3 : rawMoney env l.commodities p.moneyCurrency p.moneyAmount with
      | error e => rw [h3] at h; cases h
      | ok amount =>
        rw [h3] at h
        simp only at h
        rw [show rawMoney env l.commodities (p.times k).moneyCurrency (p.times k).moneyAmount = _ from
          times_rawMoney env l.commodities p.moneyCurrency k p.moneyAmount h3]
        simp only
        cases h4 : rawCost env l.commodities t.date p amount with
        | error e => rw [h4] at h; cases h
        | ok cost =>
          rw [h4] at h
          simp only at h
          obtain ⟨cost', g1, g2, g3⟩ := times_rawCost env l.commodities t.date hk p amount h4
          rw [show rawCost env l.commodities (t.times k).date (p.times k) (amount.map (Money.times k)) = _ from g1]
          simp only
          cases h5 : rawMoney env l.commodities p.balanceCurrency p.balanceAmount with
          | error e => rw [h5] at h; cases h
          | ok balance =>
            rw [h5] at h
            cases h
            rw [show rawMoney env l.commodities (p.times k).balanceCurrency (p.times k).balanceAmount = _ from
              times_rawMoney env l.commodities p.balanceCurrency k p.balanceAmount h5]
            simp only [g2, g3]
            rfl

theorem times_convertPostings {env : Env} {s : Shuf} {l : Lists} {t : Txn RawPosting} {tags : List Tag} {k : Rat}
    (hk : k ≠ 0) (ps : List RawPosting) {qs : List Posting} {prs : List Price} (h : convertPostings env s l t tags ps = .ok (qs, prs)) :
    convertPostings env s l (t.times k) tags (ps.map (RawPosting.times k)) = .ok (qs.map (Posting.times k), prs) := by
  induction ps generalizing qs prs with
  | nil => cases h; rfl
  | cons p ps ih =>
    rw [convertPostings] at h
    rw [List.map_cons, convertPostings]
    cases h1 : convertPosting env s l t tags p with
    | error e => rw [h1] at h; cases h
    | ok x =>
      obtain ⟨q, pr⟩ := x
      rw [h1] at h
      simp only at h
      rw [times_convertPosting hk h1]
      simp only
      cases h2 : convertPostings env s l t tags ps with
      | error e => rw [h2] at h; cases h
      | ok y =>
        rw [h2] at h
        cases h
        rw [ih h2]
        rfl

theorem times_conv {env : Env} {s : Shuf} {l : Lists} {t : Txn RawPosting} {k : Rat} (hk : k ≠ 0)
    (h : Converts env s l t (convOf env s l t)) (h' : Converts env s l (t.times k) (convOf env s l (t.times k))) :
    (convOf env s l (t.times k)).1.postings = (convOf env s l t).1.postings.map (Posting.times k) ∧
      (convOf env s l (t.times k)).2 = (convOf env s l t).2 := by
  obtain ⟨ps, h1, _, h2, _⟩ := convertTxn_inv (t := (convOf env s l t).1) (prs := (convOf env s l t).2) h
  obtain ⟨ps', h1', _, h2', _⟩ := convertTxn_inv (t := (convOf env s l (t.times k)).1) (prs := (convOf env s l (t.times k)).2) h'
  have := times_convertPostings hk t.postings h1
  rw [show convertPostings env s l (t.times k) (t.comments.flatMap getTags) (t.postings.map (RawPosting.times k)) = _ from h1'] at this
  simp only [Except.ok.injEq, Prod.mk.injEq] at this
  exact ⟨by rw [h2', h2, this.1], this.2⟩

/-- The ledger of a journal without automated transactions is the pass over its transactions by date. -/
theorem toLedger_conv {env : Env} {o : LedgerOrders} {pl : ParsedLedger} (h : pl.Ok env.lower) (hz : pl.NoFreeTotals)
    (ha : pl.automated = []) :
    ∃ l, populate env o pl = .ok l ∧ (∀ t ∈ pl.regular, Converts env o.unknown l t (convOf env o.unknown l t)) ∧
      (∀ t ∈ (sortBy dateLe pl.regular).map (fun t => (convOf env o.unknown l t).1), t.date.isSome ∧ ∀ q ∈ t.postings,
        q.CostOk ∧ ((initialBalances l.accounts).get? q.account).isSome) ∧
      ∀ skip, match balancePass skip o.fill o.rate (initialBalances l.accounts)
          ((sortBy dateLe pl.regular).map (fun t => (convOf env o.unknown l t).1)) with
        | .error e => toLedger env o skip pl = .error e
        | .ok x => ∃ L, toLedger env o skip pl = .ok L ∧ L.transactions = x.1 := by
  obtain ⟨l, h1, h2, _⟩ := populate_spec (o := o) h.lists
  have hreg : ∀ t ∈ pl.regular, Converts env o.unknown l t (convOf env o.unknown l t) := by
    intro t htr
    have hm := List.mem_filter.mp htr
    obtain ⟨r, hr⟩ := convertTxn_ok (fun p hp => convertPosting_ok (h.dated t htr) (h.postings t htr p hp)
      (h2.postings t hm.1 p hp) (hz t htr p hp))
    have hr' : Converts env o.unknown l t r := hr
    rw [← converts_convOf hr']; exact hr'
  have hconv : ∀ t ∈ pl.transactions, t.ttype = .real → ∃ r, Converts env o.unknown l t r := by
    intro t ht hk
    exact ⟨_, hreg t (List.mem_filter.mpr ⟨ht, by simpa using hk⟩)⟩
  have hsm : sortBy dateLe (pl.regular.map (fun t => (convOf env o.unknown l t).1)) =
      (sortBy dateLe pl.regular).map (fun t => (convOf env o.unknown l t).1) := by
    apply sortBy_map
    intro a ha b hb
    unfold dateLe
    rw [convOf_date (hreg a ha), convOf_date (hreg b hb)]
  have hall : ∀ t ∈ (sortBy dateLe pl.regular).map (fun t => (convOf env o.unknown l t).1),
      t.date.isSome ∧ ∀ q ∈ t.postings,
        q.CostOk ∧ ((initialBalances l.accounts).get? q.account).isSome := by
    intro t ht
    obtain ⟨raw, hraw, rfl⟩ := List.mem_map.mp ht
    have hraw := (mem_sortBy _ _ _).mp hraw
    refine ⟨by rw [convOf_date (hreg raw hraw)]; exact h.dated raw hraw, ?_⟩
    intro q hq
    obtain ⟨c1, k, x, c2, c3⟩ := convertTxn_costOk (t := (convOf env o.unknown l raw).1)
      (prs := (convOf env o.unknown l raw).2) (hreg raw hraw) q hq
    exact ⟨c1, by rw [← c3]; exact (initialBalances_get l.accounts).1 k x c2⟩
  obtain ⟨dp, hdp⟩ := directivePrices_ok pl.prices h2.prices
  have hsort : sortByDate (pl.regular.map (fun t => (convOf env o.unknown l t).1)) =
      .ok ((sortBy dateLe pl.regular).map (fun t => (convOf env o.unknown l t).1)) := by
    rw [← hsm]
    unfold sortByDate
    rw [if_neg]
    · rfl
    · intro hany
      obtain ⟨t, ht, hn⟩ := List.any_eq_true.mp hany
      have := (hall t (by rw [← hsm]; exact (mem_sortBy _ _ _).mpr ht)).1
      rw [Option.isNone_iff_eq_none.mp hn] at this
      cases this
  refine ⟨l, h1, hreg, hall, fun skip => ?_⟩
  unfold toLedger
  rw [h1]
  simp only
  unfold buildLedger
  rw [hdp]
  simp only
  rw [convertAll_of _ hconv]
  simp only
  rw [show (pl.transactions.filter (fun t => t.ttype = .real)) = pl.regular from rfl, hsort]
  simp only
  rw [show (pl.transactions.filter (fun t => t.ttype = .automated)) = pl.automated from rfl, ha]
  cases hb : balancePass skip o.fill o.rate (initialBalances l.accounts)
      ((sortBy dateLe pl.regular).map (fun t => (convOf env o.unknown l t).1)) with
  | error e => rfl
  | ok x => exact ⟨_, rfl, rfl⟩

end Dinero
