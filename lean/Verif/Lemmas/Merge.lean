import Verif.Spec.Merge
import Verif.Lemmas.Scale
import Verif.Lemmas.History
import Verif.Lemmas.Text
/-
Helper lemmas about journals with other names for the accounts.
-/
namespace Dinero

/-! ### Booking -/

/-- The same posting, on an account that goes with its own. -/
def Renamed (R : Str → Str → Prop) (p p' : Posting) : Prop :=
  R p.account p'.account ∧ p'.kind = p.kind ∧ p'.amount = p.amount ∧ p'.balance = p.balance ∧ p'.cost = p.cost

/-- Accounts go with one account each. -/
def OneToOne (R : Str → Str → Prop) : Prop := ∀ a a' b b', R a a' → R b b' → (a = b ↔ a' = b')

/-- Accounts that go together have the same amounts. -/
def Agree (R : Str → Str → Prop) (f g : Str → Cur → Rat) : Prop := ∀ a a' c, R a a' → f a c = g a' c

theorem Renamed.flip {R : Str → Str → Prop} {p p' : Posting} (h : Renamed R p p') : Renamed (fun a b => R b a) p' p :=
  ⟨h.1, h.2.1.symm, h.2.2.1.symm, h.2.2.2.1.symm, h.2.2.2.2.symm⟩

theorem Renamed.elided {R : Str → Str → Prop} {p p' : Posting} (h : Renamed R p p') (skip : Bool) : p'.elided skip ↔ p.elided skip := by
  unfold Posting.elided
  rw [h.2.1, h.2.2.1, h.2.2.2.1]

theorem Renamed.weight {R : Str → Str → Prop} {p p' : Posting} (h : Renamed R p p') : p'.weight = p.weight := by
  unfold Posting.weight
  rw [h.2.2.1, h.2.2.2.2]

theorem Renamed.weightOf {R : Str → Str → Prop} {ps ps' : List Posting} (h : List.Forall₂ (Renamed R) ps ps') (k : Kind) (c : Cur) :
    weightOf k ps' c = weightOf k ps c := by
  unfold Dinero.weightOf
  congr 1
  induction h with
  | nil => rfl
  | cons h _ ih =>
    rw [List.filter_cons, List.filter_cons, h.2.1]
    split
    · rw [List.map_cons, List.map_cons, ih, h.weight]
    · exact ih

theorem Renamed.filter {R : Str → Str → Prop} {Q : Posting → Prop} [DecidablePred Q] (hQ : ∀ p p', Renamed R p p' → (Q p' ↔ Q p))
    {ps ps' : List Posting} (h : List.Forall₂ (Renamed R) ps ps') :
    List.Forall₂ (Renamed R) (ps.filter (fun p => Q p)) (ps'.filter (fun p => Q p)) := by
  induction h with
  | nil => exact .nil
  | @cons p p' _ _ h _ ih =>
    by_cases hp : Q p
    · rw [List.filter_cons_of_pos (by simpa using hp), List.filter_cons_of_pos (by simpa using (hQ p p' h).mpr hp)]
      exact .cons h ih
    · rw [List.filter_cons_of_neg (by simpa using hp), List.filter_cons_of_neg (by simpa using fun g => hp ((hQ p p' h).mp g))]
      exact ih

theorem Renamed.where {R : Str → Str → Prop} {P P' : Str → Kind → Bool} (hP : ∀ a a' k, R a a' → P a k = P' a' k)
    {ps ps' : List Posting} (h : List.Forall₂ (Renamed R) ps ps') (c : Cur) : postedWhere P ps c = postedWhere P' ps' c := by
  unfold postedWhere
  congr 1
  induction h with
  | nil => rfl
  | @cons p p' ps ps' h _ ih =>
    rw [List.filter_cons, List.filter_cons, hP _ _ p.kind h.1, h.2.1]
    split
    · cases ha : p.amount with
      | none => rw [List.filterMap_cons_none ha, List.filterMap_cons_none (by rw [h.2.2.1, ha]), ih]
      | some m => rw [List.filterMap_cons_some ha, List.filterMap_cons_some (by rw [h.2.2.1, ha]), ih]
    · exact ih

theorem OneToOne.where {R : Str → Str → Prop} (hR : OneToOne R) {a a' : Str} (h : R a a') :
    ∀ x x' (k : Kind), R x x' → (decide (k = .real ∧ x = a)) = decide (k = .real ∧ x' = a') := by
  intro x x' k hx
  rw [decide_eq_decide, hR x x' a a' hx h]

theorem agree_after {R : Str → Str → Prop} (hR : OneToOne R) {f g : Str → Cur → Rat} (h : Agree R f g) {x x' : Str} (hx : R x x')
    (m : Money) : Agree R (afterPosting f x m) (afterPosting g x' m) := by
  intro a a' c ha
  unfold afterPosting
  rw [h a a' c ha]
  by_cases e : x = a
  · rw [if_pos e, if_pos ((hR _ _ _ _ hx ha).mp e)]
  · rw [if_neg e, if_neg (fun g => e ((hR _ _ _ _ hx ha).mpr g))]

theorem posts_moved {R : Str → Str → Prop} {skip : Bool} {start start' : Str → Cur → Rat} {ps ps' qs : List Posting}
    (h : Posts skip start ps qs) (hs : List.Forall₂ (Renamed R) ps ps')
    (hb : OneToOne R ∨ ∀ p ∈ ps, skip = true ∨ p.balance = none) (ha : OneToOne R → Agree R start start') :
    ∃ qs', Posts skip start' ps' qs' ∧ List.Forall₂ (Renamed R) qs qs' := by
  induction h generalizing start' ps' with
  | nil => cases hs; exact ⟨[], .nil, .nil⟩
  | other h1 _ ih =>
    cases hs with
    | cons s1 s2 =>
      obtain ⟨qs', g1, g2⟩ := ih s2 (hb.imp id (fun h p hp => h p (List.mem_cons_of_mem _ hp))) ha
      exact ⟨qs', .other (by rw [s1.2.1]; exact h1) g1, g2⟩
  | elided h1 _ ih =>
    cases hs with
    | cons s1 s2 =>
      obtain ⟨qs', g1, g2⟩ := ih s2 (hb.imp id (fun h p hp => h p (List.mem_cons_of_mem _ hp))) ha
      exact ⟨qs', .elided ((s1.elided skip).mpr h1) g1, g2⟩
  | @given start p m ps qs h1 h2 h3 _ ih =>
    cases hs with
    | @cons _ p' _ ps' s1 s2 =>
      obtain ⟨qs', g1, g2⟩ := ih (start' := afterPosting start' p'.account m) s2
        (hb.imp id (fun h p hp => h p (List.mem_cons_of_mem _ hp))) (fun hR => agree_after hR (ha hR) s1.1 m)
      refine ⟨p' :: qs', .given (by rw [s1.2.1]; exact h1) (by rw [s1.2.2.1]; exact h2) ?_ g1, .cons s1 g2⟩
      intro hsk x d hx
      rw [s1.2.2.2.1] at hx
      rcases hb with hR | hb
      · rw [← ha hR _ _ d s1.1]; exact h3 hsk x d hx
      · rcases hb p (by simp) with hb | hb
        · rw [hsk] at hb; cases hb
        · rw [hb] at hx; cases hx
  | @assigned start p m b ps qs h1 h2 h3 h4 h5 h6 _ ih =>
    cases hs with
    | @cons _ p' _ ps' s1 s2 =>
      have hR : OneToOne R := by
        rcases hb with hR | hb
        · exact hR
        · rcases hb p (by simp) with hb | hb
          · rw [h3] at hb; cases hb
          · rw [hb] at h4; cases h4
      obtain ⟨qs', g1, g2⟩ := ih (start' := afterPosting start' p'.account m) s2
        (.inl hR) (fun hR => agree_after hR (ha hR) s1.1 m)
      refine ⟨{ p' with amount := some m } :: qs', .assigned (by rw [s1.2.1]; exact h1) (by rw [s1.2.2.1]; exact h2) h3
        (by rw [s1.2.2.2.1]; exact h4) (fun c => ?_) h6 g1, .cons ⟨s1.1, s1.2.1, rfl, s1.2.2.2.1, s1.2.2.2.2⟩ g2⟩
      rw [← ha hR _ _ c s1.1]; exact h5 c

theorem books_moved {R : Str → Str → Prop} {skip : Bool} {start start' after : Str → Cur → Rat} {t t' : Txn Posting}
    (h : Books skip start t after) (hs : List.Forall₂ (Renamed R) t.postings t'.postings)
    (hb : OneToOne R ∨ ∀ p ∈ t.postings, skip = true ∨ p.balance = none) (ha : OneToOne R → Agree R start start') :
    ∃ after', Books skip start' t' after' ∧ (OneToOne R → Agree R after after') := by
  obtain ⟨qs, h1, h2, h3⟩ := h
  obtain ⟨qs', g1, g2⟩ := posts_moved h1 hs hb ha
  have hw : MayBalance (weightOf .virtBal t'.postings) := (mayBalance_congr (Renamed.weightOf hs .virtBal)).mpr h2
  have hpost : OneToOne R → ∀ a a' c, R a a' → postedTo qs a c = postedTo qs' a' c := by
    intro hR a a' c haa
    rw [postedTo_where, postedTo_where]
    exact Renamed.where (hR.where haa) g2 c
  rcases h3 with ⟨e1, e2, e3⟩ | ⟨p, e1, e2⟩
  · refine ⟨fun a c => start' a c + postedTo qs' a c, ⟨qs', g1, hw, .inl ⟨?_, (mayBalance_congr (Renamed.weightOf g2 .real)).mpr e2,
      fun _ _ => rfl⟩⟩, ?_⟩
    · intro p' hp'
      have hflip := Renamed.filter (R := R) (Q := fun p => p.elided skip) (fun p p' h => h.elided skip) hs
      rw [List.filter_eq_nil_iff.mpr (fun p hp => by simpa using e1 p hp)] at hflip
      have hnil : t'.postings.filter (fun p => p.elided skip) = [] := List.forall₂_nil_left_iff.mp hflip
      have := List.filter_eq_nil_iff.mp hnil p' hp'
      simpa using this
    · intro hR a a' c haa
      rw [e3, ha hR a a' c haa, hpost hR a a' c haa]
  · have hflip := Renamed.filter (R := R) (Q := fun p => p.elided skip) (fun p p' h => h.elided skip) hs
    rw [e1] at hflip
    obtain ⟨p', hp', hl⟩ : ∃ p', Renamed R p p' ∧ t'.postings.filter (fun p => p.elided skip) = [p'] := by
      generalize t'.postings.filter (fun p => p.elided skip) = l at hflip
      cases hflip with
      | cons x y => cases y; exact ⟨_, x, rfl⟩
    refine ⟨fun a c => start' a c + postedTo qs' a c + if p'.account = a then - weightOf .real qs' c else 0,
      ⟨qs', g1, hw, .inr ⟨p', hl, fun _ _ => rfl⟩⟩, ?_⟩
    intro hR a a' c haa
    rw [e2, ha hR a a' c haa, hpost hR a a' c haa, ← Renamed.weightOf g2]
    by_cases e : p.account = a
    · rw [if_pos e]; simp only [if_pos ((hR _ _ _ _ hp'.1 haa).mp e)]
    · rw [if_neg e]; simp only [if_neg (fun g => e ((hR _ _ _ _ hp'.1 haa).mpr g))]

/-- The same transactions with other accounts, as far as amounts go. -/
def MovedBy (R : Str → Str → Prop) : List (Txn Posting) → List (Txn Posting) → Prop :=
  List.Forall₂ (fun t t' => List.Forall₂ (Renamed R) t.postings t'.postings)

theorem booksAll_moved {R : Str → Str → Prop} {skip : Bool} {start start' final : Str → Cur → Rat} {ts ts' : List (Txn Posting)}
    (h : BooksAll skip start ts final) (hs : MovedBy R ts ts')
    (hb : OneToOne R ∨ ∀ t ∈ ts, ∀ p ∈ t.postings, skip = true ∨ p.balance = none) (ha : OneToOne R → Agree R start start') :
    ∃ final', BooksAll skip start' ts' final' := by
  induction h generalizing start' ts' with
  | nil => cases hs; exact ⟨_, .nil⟩
  | @cons start t after ts final h1 _ ih =>
    cases hs with
    | cons s1 s2 =>
      obtain ⟨after', g1, g2⟩ := books_moved h1 s1 (hb.imp id (fun h => h t (by simp))) ha
      obtain ⟨f, g3⟩ := ih s2 (hb.imp id (fun h t ht => h t (by simp [ht]))) g2
      exact ⟨f, .cons g1 g3⟩

theorem OneToOne.flip {R : Str → Str → Prop} (h : OneToOne R) : OneToOne (fun a b => R b a) :=
  fun a a' b b' ha hb => (h a' a b' b ha hb).symm

theorem MovedBy.flip {R : Str → Str → Prop} {ts ts' : List (Txn Posting)} (h : MovedBy R ts ts') : MovedBy (fun a b => R b a) ts' ts := by
  unfold MovedBy at *
  exact h.flip.imp (fun _ _ h => List.Forall₂.imp (fun _ _ h => Renamed.flip h) h.flip)

theorem Renamed.bought {R : Str → Str → Prop} {p p' : Posting} (h : Renamed R p p') : Renamed R p.bought p'.bought := by
  obtain ⟨h1, h2, h3, h4, h5⟩ := h
  unfold Posting.bought
  rw [h2, h3, h5]
  split
  · exact ⟨h1, rfl, rfl, h4, rfl⟩
  · exact ⟨h1, h2, h3, h4, h5⟩

theorem MovedBy.bought {R : Str → Str → Prop} {ts ts' : List (Txn Posting)} (h : MovedBy R ts ts') :
    MovedBy R (ts.map Txn.bought) (ts'.map Txn.bought) := by
  unfold MovedBy at *
  rw [List.forall₂_map_left_iff, List.forall₂_map_right_iff]
  refine h.imp (fun t t' ht => ?_)
  unfold Txn.bought
  rw [List.forall₂_map_left_iff, List.forall₂_map_right_iff]
  exact ht.imp (fun _ _ h => h.bought)

theorem MovedBy.balances {R : Str → Str → Prop} {skip : Bool} {ts ts' : List (Txn Posting)} (h : MovedBy R ts ts')
    (hb : ∀ t ∈ ts, ∀ p ∈ t.postings, skip = true ∨ p.balance = none) : ∀ t ∈ ts', ∀ p ∈ t.postings, skip = true ∨ p.balance = none := by
  intro t' ht' p' hp'
  obtain ⟨t, ht, hs⟩ := Forall₂.mem_right h ht'
  obtain ⟨p, hp, hpp⟩ := Forall₂.mem_right hs hp'
  rw [hpp.2.2.2.1]
  exact hb t ht p hp

theorem bought_balance (p : Posting) : p.bought.balance = p.balance := by
  unfold Posting.bought
  split <;> rfl

/-- Whether transactions can be booked does not depend on the names. -/
theorem booksAll_moved_iff {R : Str → Str → Prop} {skip : Bool} {ts ts' : List (Txn Posting)} (h : MovedBy R ts ts')
    (hb : OneToOne R ∨ ∀ t ∈ ts, ∀ p ∈ t.postings, skip = true ∨ p.balance = none) :
    (∃ final, BooksAll skip (fun _ _ => 0) ts final) ↔ ∃ final, BooksAll skip (fun _ _ => 0) ts' final := by
  constructor
  · rintro ⟨f, hf⟩
    exact booksAll_moved hf h hb (fun _ _ _ _ _ => rfl)
  · rintro ⟨f, hf⟩
    refine booksAll_moved hf h.flip ?_ (fun _ _ _ _ _ => rfl)
    exact hb.imp (fun h => h.flip) (fun hb => h.balances hb)

/-! ### Entries -/

theorem enters_moved {R : Str → Str → Prop} {skip : Bool} {start start' : Str → Cur → Rat} {t t' : Txn Posting} {es es' : List Posting}
    (h : Enters skip start t es) (h' : Enters skip start' t' es') (hs : List.Forall₂ (Renamed R) t.postings t'.postings)
    (hb : OneToOne R ∨ ∀ p ∈ t.postings, skip = true ∨ p.balance = none) (ha : OneToOne R → Agree R start start')
    {P P' : Str → Kind → Bool} (hP : ∀ a a' k, R a a' → P a k = P' a' k) (c : Cur) :
    postedWhere P es c = postedWhere P' es' c := by
  obtain ⟨qs, h1, h2⟩ := enters_where h
  obtain ⟨qs1, h1', h2'⟩ := enters_where h'
  obtain ⟨qs', g1, g2⟩ := posts_moved h1 hs hb ha
  obtain rfl := posts_unique g1 h1'
  rw [h2, h2', Renamed.where hP g2, Renamed.where hP (Renamed.filter (R := R) (Q := fun p => p.kind ≠ .real)
    (fun p p' h => by rw [h.2.1]) hs)]
  congr 2
  have hf := Renamed.filter (R := R) (Q := fun p => p.elided skip) (fun p p' h => h.elided skip) hs
  generalize t.postings.filter (fun p => p.elided skip) = l at hf
  generalize t'.postings.filter (fun p => p.elided skip) = l' at hf
  cases hf with
  | nil => rfl
  | cons x y =>
    cases y with
    | nil => simp only; rw [hP _ _ .real x.1, Renamed.weightOf g2]
    | cons _ _ => rfl

theorem entersAll_moved {R : Str → Str → Prop} {skip : Bool} {start start' : Str → Cur → Rat} {ts ts' : List (Txn Posting)}
    {es es' : List Posting} (h : EntersAll skip start ts es) (h' : EntersAll skip start' ts' es') (hs : MovedBy R ts ts')
    (hb : OneToOne R ∨ ∀ t ∈ ts, ∀ p ∈ t.postings, skip = true ∨ p.balance = none) (ha : OneToOne R → Agree R start start')
    {P P' : Str → Kind → Bool} (hP : ∀ a a' k, R a a' → P a k = P' a' k) (c : Cur) :
    postedWhere P es c = postedWhere P' es' c := by
  induction h generalizing start' ts' es' with
  | nil => cases hs; cases h'; rfl
  | @cons start t es ts rest h1 _ ih =>
    cases hs with
    | cons s1 s2 =>
      cases h' with
      | @cons _ _ es1 _ rest' g1 g2 =>
        have hb1 := hb.imp id (fun h => h t (by simp))
        rw [postedWhere_append, postedWhere_append, enters_moved h1 g1 s1 hb1 ha hP c]
        congr 1
        refine ih g2 s2 (hb.imp id (fun h t ht => h t (by simp [ht]))) (fun hR a a' d haa => ?_)
        change start a d + postedTo es a d = start' a' d + postedTo es1 a' d
        rw [ha hR a a' d haa, postedTo_where, postedTo_where]
        congr 1
        exact enters_moved h1 g1 s1 hb1 ha (hR.where haa) d

/-! ### Conversion -/

theorem moved_regular (f : Str → Str) (pl : ParsedLedger) : (pl.moved f).regular = pl.regular.map (Txn.moved f) := by
  unfold ParsedLedger.regular ParsedLedger.moved
  rw [List.filter_map]
  rfl

theorem moved_automated {f : Str → Str} {pl : ParsedLedger} (h : pl.automated = []) : (pl.moved f).automated = [] := by
  unfold ParsedLedger.automated ParsedLedger.moved at *
  rw [List.filter_map, show ((fun t : Txn RawPosting => decide (t.ttype = .automated)) ∘ Txn.moved f) =
    fun t => decide (t.ttype = .automated) from rfl, h]
  rfl

theorem moved_totals {f : Str → Str} {pl : ParsedLedger} : (pl.moved f).NoFreeTotals ↔ pl.NoFreeTotals := by
  unfold ParsedLedger.NoFreeTotals
  rw [moved_regular]
  constructor
  · intro h t ht p hp hc
    exact h (t.moved f) (List.mem_map_of_mem ht) { p with account := f p.account } (List.mem_map_of_mem (f := fun p : RawPosting => { p with account := f p.account }) hp) hc
  · intro h t ht p hp hc
    obtain ⟨t0, ht0, rfl⟩ := List.mem_map.mp ht
    obtain ⟨p0, hp0, rfl⟩ := List.mem_map.mp hp
    exact h t0 ht0 p0 hp0 hc

theorem moved_uses {f : Str → Str} {pl : ParsedLedger} {a : Str} : (pl.moved f).usesAccount a ↔ ∃ b, pl.usesAccount b ∧ f b = a := by
  unfold ParsedLedger.usesAccount ParsedLedger.moved
  constructor
  · rintro ⟨t, ht, p, hp, rfl⟩
    obtain ⟨t0, ht0, rfl⟩ := List.mem_map.mp ht
    obtain ⟨p0, hp0, rfl⟩ := List.mem_map.mp hp
    exact ⟨p0.account, ⟨t0, ht0, p0, hp0, rfl⟩, rfl⟩
  · rintro ⟨b, ⟨t, ht, p, hp, rfl⟩, rfl⟩
    exact ⟨t.moved f, List.mem_map_of_mem ht, _, List.mem_map_of_mem (f := fun p : RawPosting => { p with account := f p.account }) hp, rfl⟩

theorem moved_populate {env : Env} {o : LedgerOrders} {f : Str → Str} {pl : ParsedLedger} {l l' : Lists} (h : populate env o pl = .ok l)
    (h' : populate env o (pl.moved f) = .ok l') : l'.payees = l.payees ∧ l'.commodities = l.commodities := by
  have hp : (pl.moved f).postings = pl.postings.map (fun p => { p with account := f p.account }) := by
    unfold ParsedLedger.postings ParsedLedger.moved
    simp only [List.flatMap_map, List.map_flatMap]
    rfl
  have h1 : (pl.moved f).commodityStrs = pl.commodityStrs := by
    unfold ParsedLedger.commodityStrs
    rw [hp, List.flatMap_map]
    rfl
  have h3 : (pl.moved f).payeeStrs = pl.payeeStrs := by
    unfold ParsedLedger.payeeStrs
    rw [hp, List.map_map]
    rfl
  obtain ⟨a1, _, a3⟩ := populate_inv h
  obtain ⟨b1, _, b3⟩ := populate_inv h'
  rw [h1] at b1
  rw [h3] at b3
  have e1 := a1.symm.trans b1
  have e3 := a3.symm.trans b3
  simp only [Except.ok.injEq] at e1 e3
  exact ⟨e3.symm, e1.symm⟩

theorem populate_ok {env : Env} {o : LedgerOrders} {pl : ParsedLedger} {l : Lists} (hok : pl.lists.Ok env.lower)
    (h : populate env o pl = .ok l) : l.Ok env.lower := by
  obtain ⟨l', h1, h2, _⟩ := populate_spec (o := o) hok
  rw [h] at h1
  cases h1
  exact h2.ok

theorem plain_account {env : Env} {o : LedgerOrders} {s : Shuf} {pl : ParsedLedger} {l : Lists} (hok : pl.lists.Ok env.lower)
    (hp : pl.PlainAccounts env) (h : populate env o pl = .ok l) (hl : l.Ok env.lower) {a payee b : Str} (ha : pl.usesAccount a)
    (hb : postingAccount env s l.accounts a payee = .ok b) : b = a := by
  have hn := (populate_names hok h).accounts
  rw [hp.undeclared] at hn
  have hnone : redirect env s l.accounts payee = none := by
    rcases redirect_spec (env := env) (s := s) (accounts := l.accounts) (payee := payee) with ⟨h1, _⟩ | ⟨k, x, h1, ⟨pat, h2, _⟩, _⟩
    · exact h1
    · rcases (populate_elements hok h hl).1 (k, x) h1 with h3 | h3
      · rw [hp.undeclared] at h3; cases h3
      · rw [h3] at h2; cases h2
  unfold postingAccount at hb
  rw [hnone, ite_self] at hb
  simp only at hb
  cases hg : l.accounts.get env.lower a with
  | error e => rw [hg] at hb; cases hb
  | ok x =>
    rw [hg] at hb
    cases hb
    exact completed_self hn hp.cases ha ⟨x, hg, rfl⟩

theorem moved_convertPosting {env : Env} {s : Shuf} {l l' : Lists} {t : Txn RawPosting} {f : Str → Str} {tags : List Tag}
    {p : RawPosting} {q q' : Posting} {pr pr' : Option Price} {R : Str → Str → Prop} (hp : l'.payees = l.payees)
    (hc : l'.commodities = l.commodities)
    (hR : ∀ n a a', postingAccount env s l.accounts p.account n = .ok a → postingAccount env s l'.accounts (f p.account) n = .ok a' → R a a')
    (h : convertPosting env s l t tags p = .ok (q, pr))
    (h' : convertPosting env s l' (t.moved f) tags { p with account := f p.account } = .ok (q', pr')) : Renamed R q q' := by
  unfold convertPosting at h h'
  rw [hp, hc] at h'
  have e1 : postingPayee env l.payees (t.moved f).description { p with account := f p.account } = postingPayee env l.payees t.description p := rfl
  rw [e1] at h'
  cases h1 : postingPayee env l.payees t.description p with
  | error e => rw [h1] at h; cases h
  | ok n =>
    rw [h1] at h h'
    simp only at h h'
    cases h2 : postingAccount env s l.accounts p.account n with
    | error e => rw [h2] at h; cases h
    | ok a =>
      rw [h2] at h
      simp only at h
      cases h2' : postingAccount env s l'.accounts (f p.account) n with
      | error e => rw [h2'] at h'; cases h'
      | ok a' =>
        rw [h2'] at h'
        simp only at h'
        cases h3 : rawMoney env l.commodities p.moneyCurrency p.moneyAmount with
        | error e => rw [h3] at h; cases h
        | ok m =>
          rw [h3] at h h'
          simp only at h h'
          have e2 : rawCost env l.commodities (t.moved f).date { p with account := f p.account } m = rawCost env l.commodities t.date p m := rfl
          rw [e2] at h'
          cases h4 : rawCost env l.commodities t.date p m with
          | error e => rw [h4] at h; cases h
          | ok c =>
            rw [h4] at h h'
            simp only at h h'
            cases h5 : rawMoney env l.commodities p.balanceCurrency p.balanceAmount with
            | error e => rw [h5] at h; cases h
            | ok b =>
              rw [h5] at h h'
              cases h
              cases h'
              exact ⟨hR n a a' h2 h2', rfl, rfl, rfl, rfl⟩

theorem moved_convertPostings {env : Env} {s : Shuf} {l l' : Lists} {t : Txn RawPosting} {f : Str → Str} {tags : List Tag}
    {R : Str → Str → Prop} (hp : l'.payees = l.payees) (hc : l'.commodities = l.commodities) (ps : List RawPosting)
    (hR : ∀ p ∈ ps, ∀ n a a', postingAccount env s l.accounts p.account n = .ok a →
      postingAccount env s l'.accounts (f p.account) n = .ok a' → R a a')
    {qs qs' : List Posting} {prs prs' : List Price} (h : convertPostings env s l t tags ps = .ok (qs, prs))
    (h' : convertPostings env s l' (t.moved f) tags (ps.map (fun p => { p with account := f p.account })) = .ok (qs', prs')) :
    List.Forall₂ (Renamed R) qs qs' := by
  induction ps generalizing qs qs' prs prs' with
  | nil => cases h; cases h'; exact .nil
  | cons p ps ih =>
    rw [convertPostings] at h
    rw [List.map_cons, convertPostings] at h'
    cases h1 : convertPosting env s l t tags p with
    | error e => rw [h1] at h; cases h
    | ok x =>
      obtain ⟨q, pr⟩ := x
      rw [h1] at h
      simp only at h
      cases h1' : convertPosting env s l' (t.moved f) tags { p with account := f p.account } with
      | error e => rw [h1'] at h'; cases h'
      | ok x' =>
        obtain ⟨q', pr'⟩ := x'
        rw [h1'] at h'
        simp only at h'
        cases h2 : convertPostings env s l t tags ps with
        | error e => rw [h2] at h; cases h
        | ok y =>
          cases h2' : convertPostings env s l' (t.moved f) tags (ps.map (fun p => { p with account := f p.account })) with
          | error e => rw [h2'] at h'; cases h'
          | ok y' =>
            rw [h2] at h
            rw [h2'] at h'
            cases h
            cases h'
            exact .cons (moved_convertPosting hp hc (hR p (by simp)) h1 h1') (ih (fun p hp => hR p (by simp [hp])) h2 h2')

theorem moved_conv {env : Env} {s : Shuf} {l l' : Lists} {t : Txn RawPosting} {f : Str → Str} {R : Str → Str → Prop}
    (hp : l'.payees = l.payees) (hc : l'.commodities = l.commodities)
    (hR : ∀ p ∈ t.postings, ∀ n a a', postingAccount env s l.accounts p.account n = .ok a →
      postingAccount env s l'.accounts (f p.account) n = .ok a' → R a a')
    (h : Converts env s l t (convOf env s l t)) (h' : Converts env s l' (t.moved f) (convOf env s l' (t.moved f))) :
    List.Forall₂ (Renamed R) (convOf env s l t).1.postings (convOf env s l' (t.moved f)).1.postings := by
  obtain ⟨ps, h1, _, h2, _⟩ := convertTxn_inv (t := (convOf env s l t).1) (prs := (convOf env s l t).2) h
  obtain ⟨ps', h1', _, h2', _⟩ := convertTxn_inv (t := (convOf env s l' (t.moved f)).1) (prs := (convOf env s l' (t.moved f)).2) h'
  rw [h2, h2']
  exact moved_convertPostings hp hc t.postings hR h1 h1'

theorem converts_balance {env : Env} {s : Shuf} {l : Lists} {t : Txn RawPosting} (h : Converts env s l t (convOf env s l t))
    (hn : ∀ p ∈ t.postings, p.balanceCurrency = none) : ∀ q ∈ (convOf env s l t).1.postings, q.balance = none := by
  obtain ⟨ps, h1, _, h2, _⟩ := convertTxn_inv (t := (convOf env s l t).1) (prs := (convOf env s l t).2) h
  rw [h2]
  intro q hq
  obtain ⟨rs, g1, rfl, _⟩ := convertPostings_inv _ h1
  obtain ⟨r, hr, rfl⟩ := List.mem_map.mp hq
  obtain ⟨p, hp, hpq⟩ := Forall₂.mem_right g1 hr
  have := hpq.balance
  rw [hn p hp] at this
  exact (Except.ok.inj this).symm

end Dinero
