import Verif.Spec.Coins
import Verif.Lemmas.Merge
/-
Helper lemmas about journals with other names for the commodities.
-/
namespace Dinero

/-! ### Money -/

theorem called_amountIn (f : Str ≃ Str) (m : Money) (c : Cur) : (m.called f).amountIn c = m.amountIn (f.symm c) := by
  cases m with
  | zero => rfl
  | mk a d =>
    have e : f d = c ↔ d = f.symm c := ⟨fun h => by rw [← h, Equiv.symm_apply_apply], fun h => by rw [h, Equiv.apply_symm_apply]⟩
    change (if some (f d) = some c then a else 0) = if some d = some (f.symm c) then a else 0
    simp only [Option.some.injEq, e]

theorem called_amount (f : Str → Str) (m : Money) : (m.called f).amount = m.amount := by
  cases m <;> rfl

theorem sumIn_called (f : Str ≃ Str) (ms : List Money) (c : Cur) : sumIn (ms.map (Money.called f)) c = sumIn ms (f.symm c) := by
  induction ms with
  | nil => rfl
  | cons m ms ih => rw [List.map_cons, sumIn_cons, sumIn_cons, called_amountIn, ih]

theorem called_inv (f : Str ≃ Str) (m : Money) : (m.called f).called f.symm = m := by
  cases m with
  | zero => rfl
  | mk a c => simp [Money.called]

theorem called_neg (f : Str → Str) (m : Money) : (m.neg).called f = (m.called f).neg := by
  cases m <;> rfl

theorem called_mul (f : Str → Str) (m : Money) (x : Rat) : (m.mul x).called f = (m.called f).mul x := by
  cases m <;> rfl

/-! ### Postings -/

theorem posting_called_inv (f : Str ≃ Str) (p : Posting) : (p.called f).called f.symm = p := by
  have h : (Money.called f.symm ∘ Money.called f) = id := by funext m; exact called_inv f m
  unfold Posting.called
  simp only [Option.map_map, h, Option.map_id_fun, id]
  rw [show p.cost.map _ = p.cost from ?_]
  cases hc : p.cost with
  | none => rfl
  | some c => cases c <;> simp [called_inv]

theorem postings_called_inv (f : Str ≃ Str) (ps : List Posting) :
    (ps.map (Posting.called f)).map (Posting.called f.symm) = ps := by
  rw [List.map_map]
  conv_rhs => rw [← List.map_id ps]
  apply List.map_congr_left
  intro p _
  exact posting_called_inv f p

theorem called_weight (f : Str → Str) (p : Posting) : (p.called f).weight = p.weight.called f := by
  unfold Posting.weight Posting.called
  cases ha : p.amount with
  | none => rfl
  | some m =>
    cases hc : p.cost with
    | none => rfl
    | some x => cases x with
      | total t =>
        simp only [Option.map_some, called_amount]
        by_cases h : m.amount < 0 <;> simp [h, called_neg]
      | perUnit u => simp [called_amount, called_mul]

theorem called_weightOf (f : Str ≃ Str) (kd : Kind) (ps : List Posting) (c : Cur) :
    weightOf kd (ps.map (Posting.called f)) c = weightOf kd ps (f.symm c) := by
  unfold weightOf
  rw [← sumIn_called, List.filter_map, List.map_map, List.map_map]
  congr 1
  rw [show ((fun p : Posting => decide (p.kind = kd)) ∘ Posting.called f) = fun p => decide (p.kind = kd) from rfl]
  apply List.map_congr_left
  intro p _
  exact called_weight f p

theorem called_postedWhere (f : Str ≃ Str) (P : Str → Kind → Bool) (ps : List Posting) (c : Cur) :
    postedWhere P (ps.map (Posting.called f)) c = postedWhere P ps (f.symm c) := by
  unfold postedWhere
  rw [← sumIn_called, List.filter_map, List.filterMap_map, List.map_filterMap]
  rfl

theorem called_postedTo (f : Str ≃ Str) (ps : List Posting) (a : Str) (c : Cur) :
    postedTo (ps.map (Posting.called f)) a c = postedTo ps a (f.symm c) := by
  rw [postedTo_where, postedTo_where, called_postedWhere]

theorem called_elided (f : Str → Str) (skip : Bool) (p : Posting) : (p.called f).elided skip ↔ p.elided skip := by
  unfold Posting.elided Posting.called
  simp

theorem called_mayBalance (f : Str ≃ Str) {g h : Cur → Rat} (e : ∀ c, h c = g (f.symm c)) (hg : MayBalance g) : MayBalance h := by
  rcases hg with h0 | ⟨c, d, h1, h2⟩
  · exact .inl (fun c => by rw [e, h0])
  · exact .inr ⟨f c, f d, by rw [e, Equiv.symm_apply_apply]; exact h1, by rw [e, Equiv.symm_apply_apply]; exact h2⟩

theorem called_bought (f : Str → Str) (p : Posting) : (p.called f).bought = p.bought.called f := by
  unfold Posting.bought
  rw [show (p.called f).kind = p.kind from rfl]
  cases hkd : p.kind with
  | real => rfl
  | virt => rfl
  | virtBal =>
    cases hc : p.cost with
    | none => simp [Posting.called, hc]
    | some x =>
      cases x with
      | total t => simp [Posting.called, hc]
      | perUnit u =>
        cases ha : p.amount with
        | none => simp [Posting.called, hc, ha]
        | some m =>
          cases m with
          | zero => simp [Posting.called, hc, ha, Money.called]
          | mk q c => simp [Posting.called, hc, ha, Money.called]

/-! ### Booking -/

/-- Amounts under new names. -/
def calledBy (f : Str ≃ Str) (g : Str → Cur → Rat) : Str → Cur → Rat := fun a c => g a (f.symm c)

theorem called_afterPosting (f : Str ≃ Str) (start : Str → Cur → Rat) (a : Str) (m : Money) :
    afterPosting (calledBy f start) a (m.called f) = calledBy f (afterPosting start a m) := by
  funext x c
  unfold afterPosting calledBy
  rw [called_amountIn]

theorem called_posts (f : Str ≃ Str) {skip : Bool} {start : Str → Cur → Rat} {ps qs : List Posting}
    (h : Posts skip start ps qs) : Posts skip (calledBy f start) (ps.map (Posting.called f)) (qs.map (Posting.called f)) := by
  induction h with
  | nil => exact .nil
  | other h1 _ ih => exact .other h1 ih
  | elided h1 _ ih => exact .elided ((called_elided f _ _).mpr h1) ih
  | @given start p m ps qs h1 h2 h3 _ ih =>
    refine .given (m := m.called f) h1 (by simp [Posting.called, h2]) ?_ ?_
    · intro hs x d hb
      simp only [Posting.called, Option.map_eq_some_iff] at hb
      obtain ⟨b, hb, hbx⟩ := hb
      cases b with
      | zero => cases hbx
      | mk y e =>
        simp only [Money.called, Money.mk.injEq] at hbx
        obtain ⟨rfl, rfl⟩ := hbx
        rw [called_amountIn]
        change start p.account (f.symm (f e)) + _ = _
        rw [Equiv.symm_apply_apply, h3 hs y e hb]
    · rw [show (p.called f).account = p.account from rfl, called_afterPosting]; exact ih
  | @assigned start p m b ps qs h1 h2 h3 h4 h5 h6 _ ih =>
    have := Posts.assigned (skip := skip) (start := calledBy f start) (p := p.called f) (m := m.called f) (b := b.called f)
      (ps := ps.map (Posting.called f)) (qs := qs.map (Posting.called f)) h1 (by simp [Posting.called, h2]) h3
      (by simp [Posting.called, h4]) (fun c => by
        rw [called_amountIn, called_amountIn, ← h5 (f.symm c)]
        rfl)
      (h6.imp (fun h => by rw [h]; rfl) (fun h => by rw [called_amount]; exact h))
      (by rw [show (p.called f).account = p.account from rfl, called_afterPosting]; exact ih)
    rw [List.map_cons, List.map_cons]
    rw [show ({ p with amount := some m } : Posting).called f = { p.called f with amount := some (m.called f) } from rfl]
    exact this

theorem called_filter (f : Str → Str) {Q : Posting → Prop} [DecidablePred Q] (h : ∀ p : Posting, Q (p.called f) ↔ Q p) (ps : List Posting) :
    (ps.map (Posting.called f)).filter (fun p => Q p) = (ps.filter (fun p => Q p)).map (Posting.called f) := by
  rw [List.filter_map]
  congr 1
  apply List.filter_congr
  intro p _
  simp [h]

theorem called_books (f : Str ≃ Str) {skip : Bool} {start after : Str → Cur → Rat} {t t' : Txn Posting}
    (ht : t'.postings = t.postings.map (Posting.called f)) (h : Books skip start t after) :
    Books skip (calledBy f start) t' (calledBy f after) := by
  obtain ⟨qs, h1, h2, h3⟩ := h
  refine ⟨qs.map (Posting.called f), by rw [ht]; exact called_posts f h1,
    called_mayBalance f (fun c => by rw [ht, called_weightOf]) h2, ?_⟩
  rcases h3 with ⟨g1, g2, g3⟩ | ⟨p, g1, g2⟩
  · refine .inl ⟨fun p hp => ?_, called_mayBalance f (called_weightOf f _ _) g2, fun a c => ?_⟩
    · rw [ht] at hp
      obtain ⟨p0, hp0, rfl⟩ := List.mem_map.mp hp
      rw [called_elided]; exact g1 p0 hp0
    · unfold calledBy; rw [g3, called_postedTo]
  · refine .inr ⟨p.called f, ?_, fun a c => ?_⟩
    · rw [ht, called_filter f (called_elided f skip), g1]; rfl
    · unfold calledBy
      rw [g2, called_postedTo, called_weightOf, show (p.called f).account = p.account from rfl]

/-- The same transactions with the new names of commodities, as far as amounts go. -/
def CalledBy (f : Str → Str) : List (Txn Posting) → List (Txn Posting) → Prop :=
  List.Forall₂ (fun t t' => t'.postings = t.postings.map (Posting.called f))

theorem called_booksAll (f : Str ≃ Str) {skip : Bool} {start final : Str → Cur → Rat} {ts ts' : List (Txn Posting)}
    (ht : CalledBy f ts ts') (h : BooksAll skip start ts final) : BooksAll skip (calledBy f start) ts' (calledBy f final) := by
  induction h generalizing ts' with
  | nil => cases ht; exact .nil
  | cons h1 _ ih =>
    cases ht with
    | cons e1 e2 => exact .cons (called_books f e1 h1) (ih e2)

theorem CalledBy.inv (f : Str ≃ Str) {ts ts' : List (Txn Posting)} (h : CalledBy f ts ts') : CalledBy f.symm ts' ts := by
  unfold CalledBy at *
  refine h.flip.imp (fun t t' ht => ?_)
  rw [ht, postings_called_inv f]

theorem CalledBy.bought {f : Str → Str} {ts ts' : List (Txn Posting)} (h : CalledBy f ts ts') :
    CalledBy f (ts.map Txn.bought) (ts'.map Txn.bought) := by
  unfold CalledBy at *
  rw [List.forall₂_map_left_iff, List.forall₂_map_right_iff]
  refine h.imp (fun t t' ht => ?_)
  unfold Txn.bought
  simp only [ht, List.map_map]
  apply List.map_congr_left
  intro p _
  exact called_bought f p

/-- Whether transactions can be booked does not depend on the names of commodities. -/
theorem booksAll_called_iff (f : Str ≃ Str) {skip : Bool} {ts ts' : List (Txn Posting)} (h : CalledBy f ts ts') :
    (∃ final, BooksAll skip (fun _ _ => 0) ts final) ↔ ∃ final, BooksAll skip (fun _ _ => 0) ts' final :=
  ⟨fun ⟨_, hf⟩ => ⟨_, called_booksAll f h hf⟩, fun ⟨_, hf⟩ => ⟨_, called_booksAll f.symm (h.inv f) hf⟩⟩

/-! ### Entries -/

theorem called_enters (f : Str ≃ Str) {skip : Bool} {start : Str → Cur → Rat} {t t' : Txn Posting} {es es' : List Posting}
    (ht : t'.postings = t.postings.map (Posting.called f)) (h : Enters skip start t es)
    (h' : Enters skip (calledBy f start) t' es') (P : Str → Kind → Bool) (c : Cur) :
    postedWhere P es' c = postedWhere P es (f.symm c) := by
  obtain ⟨qs, h1, h2⟩ := enters_where h
  obtain ⟨qs', h1', h2'⟩ := enters_where h'
  rw [ht] at h1'
  obtain rfl := posts_unique (called_posts f h1) h1'
  rw [h2, h2', ht, called_filter f (called_elided f skip), called_filter f (Q := fun p => p.kind ≠ .real) (fun p => Iff.rfl),
    called_postedWhere, called_postedWhere]
  congr 2
  generalize t.postings.filter (fun p => p.elided skip) = l
  match l with
  | [] => rfl
  | [p] =>
    simp only [List.map_cons, List.map_nil]
    rw [called_weightOf, show (p.called f).account = p.account from rfl]
  | _ :: _ :: _ => rfl

theorem called_entersAll (f : Str ≃ Str) {skip : Bool} {start : Str → Cur → Rat} {ts ts' : List (Txn Posting)} {es es' : List Posting}
    (ht : CalledBy f ts ts') (h : EntersAll skip start ts es) (h' : EntersAll skip (calledBy f start) ts' es')
    (P : Str → Kind → Bool) (c : Cur) : postedWhere P es' c = postedWhere P es (f.symm c) := by
  induction h generalizing ts' es' with
  | nil => cases ht; cases h'; rfl
  | @cons start t es ts rest h1 _ ih =>
    cases ht with
    | cons e1 e2 =>
      cases h' with
      | @cons _ _ es1 _ rest' g1 g2 =>
        have key := called_enters f e1 h1 g1
        have : (fun a c => calledBy f start a c + postedTo es1 a c) = calledBy f (fun a c => start a c + postedTo es a c) := by
          funext a c
          unfold calledBy
          rw [postedTo_where, key, ← postedTo_where]
        rw [this] at g2
        rw [postedWhere_append, postedWhere_append, key, ih e2 g2]

/-! ### Converting -/

theorem called_regular (f : Str → Str) (pl : ParsedLedger) : (pl.called f).regular = pl.regular.map (Txn.called f) := by
  unfold ParsedLedger.regular ParsedLedger.called
  rw [List.filter_map]
  rfl

theorem called_automated {f : Str → Str} {pl : ParsedLedger} (h : pl.automated = []) : (pl.called f).automated = [] := by
  unfold ParsedLedger.automated ParsedLedger.called at *
  rw [List.filter_map, show ((fun t : Txn RawPosting => decide (t.ttype = .automated)) ∘ Txn.called f) =
    fun t => decide (t.ttype = .automated) from rfl, h]
  rfl

theorem called_totals {f : Str → Str} {pl : ParsedLedger} : (pl.called f).NoFreeTotals ↔ pl.NoFreeTotals := by
  unfold ParsedLedger.NoFreeTotals
  rw [called_regular]
  constructor
  · intro h t ht p hp hc
    exact h (t.called f) (List.mem_map_of_mem ht) (p.called f) (List.mem_map_of_mem hp) hc
  · intro h t ht p hp hc
    obtain ⟨t0, ht0, rfl⟩ := List.mem_map.mp ht
    obtain ⟨p0, hp0, rfl⟩ := List.mem_map.mp hp
    exact h t0 ht0 p0 hp0 hc

theorem called_uses {f : Str → Str} {pl : ParsedLedger} {c : Str} (h : pl.usesCommodity c) : (pl.called f).usesCommodity (f c) := by
  rcases h with ⟨t, ht, p, hp, h⟩ | ⟨p, hp, h⟩
  · refine .inl ⟨t.called f, List.mem_map_of_mem ht, p.called f, List.mem_map_of_mem hp, ?_⟩
    simp only [RawPosting.called]
    rcases h with h | h | h <;> simp [h]
  · refine .inr ⟨_, List.mem_map_of_mem (f := fun p : ParsedPrice => { p with commodity := f p.commodity, otherCommodity := f p.otherCommodity }) hp, ?_⟩
    rcases h with h | h <;> simp [h]

theorem called_populate {env : Env} {o : LedgerOrders} {f : Str → Str} {pl : ParsedLedger} {l l' : Lists} (h : populate env o pl = .ok l)
    (h' : populate env o (pl.called f) = .ok l') : l'.payees = l.payees ∧ l'.accounts = l.accounts := by
  have hp : (pl.called f).postings = pl.postings.map (RawPosting.called f) := by
    unfold ParsedLedger.postings ParsedLedger.called
    simp only [List.flatMap_map, List.map_flatMap]
    rfl
  have h1 : (pl.called f).accountStrs = pl.accountStrs := by
    unfold ParsedLedger.accountStrs
    rw [hp, List.map_map]
    rfl
  have h3 : (pl.called f).payeeStrs = pl.payeeStrs := by
    unfold ParsedLedger.payeeStrs
    rw [hp, List.map_map]
    rfl
  obtain ⟨_, a1, a3⟩ := populate_inv h
  obtain ⟨_, b1, b3⟩ := populate_inv h'
  rw [h1] at b1
  rw [h3] at b3
  have e1 := a1.symm.trans b1
  have e3 := a3.symm.trans b3
  simp only [Except.ok.injEq] at e1 e3
  exact ⟨e3.symm, e1.symm⟩

theorem plain_commodity {env : Env} {o : LedgerOrders} {pl : ParsedLedger} {l : Lists} (hok : pl.lists.Ok env.lower)
    (hp : pl.PlainCommodities env) (h : populate env o pl = .ok l) {c n : Str} (hc : pl.usesCommodity c)
    (hn : commodityNamed env l.commodities c = .ok n) : n = c := by
  have hN := (populate_names hok h).commodities
  rw [hp.undeclared] at hN
  unfold commodityNamed at hn
  cases hg : l.commodities.get env.lower c with
  | error e => rw [hg] at hn; cases hn
  | ok x =>
    rw [hg] at hn
    cases hn
    exact completed_self hN hp.cases hc ⟨x, hg, rfl⟩

/-- The names found in the two lists. -/
def Alike (env : Env) (f : Str → Str) (cs cs' : Commodities) (c : Str) : Prop :=
  ∀ n n', commodityNamed env cs c = .ok n → commodityNamed env cs' (f c) = .ok n' → n' = f n

theorem called_rawMoney {env : Env} {cs cs' : Commodities} {f : Str → Str} {cur : Option Str} {a : Option Rat} {m m' : Option Money}
    (hc : ∀ c, cur = some c → Alike env f cs cs' c)
    (h : rawMoney env cs cur a = .ok m) (h' : rawMoney env cs' (cur.map f) a = .ok m') : m' = m.map (Money.called f) := by
  unfold rawMoney at *
  cases cur with
  | none => cases h; cases h'; rfl
  | some c =>
    simp only [Option.map_some] at h h'
    cases hn : commodityNamed env cs c with
    | error e => rw [hn] at h; cases h
    | ok n =>
      cases hn' : commodityNamed env cs' (f c) with
      | error e => rw [hn'] at h'; cases h'
      | ok n' =>
        rw [hn] at h
        rw [hn'] at h'
        cases a with
        | none => cases h
        | some q =>
          cases h
          cases h'
          rw [hc c rfl n n' hn hn']
          rfl

theorem called_rawCost {env : Env} {cs cs' : Commodities} {f : Str → Str} {date : Option Date} {p : RawPosting} {m m' : Option Money}
    {x x' : Option (Cost × Price)} (hc : ∀ c, p.costCurrency = some c → Alike env f cs cs' c)
    (h : rawCost env cs date p m = .ok x) (h' : rawCost env cs' date (p.called f) m' = .ok x') :
    x'.map Prod.fst = (x.map Prod.fst).map (fun c => match c with | .total m => .total (m.called f) | .perUnit m => .perUnit (m.called f)) := by
  unfold rawCost at h h'
  rw [show (p.called f).costCurrency = p.costCurrency.map f from rfl, show (p.called f).moneyCurrency = p.moneyCurrency.map f from rfl,
    show (p.called f).costType = p.costType from rfl, show (p.called f).costAmount = p.costAmount from rfl] at h'
  cases hcc : p.costCurrency with
  | none => rw [hcc] at h h'; cases h; cases h'; rfl
  | some c =>
    rw [hcc] at h h'
    simp only [Option.map_some] at h h'
    cases hm : p.moneyCurrency with
    | none => rw [hm] at h; cases h
    | some mc =>
      rw [hm] at h h'
      simp only [Option.map_some] at h h'
      cases h1 : commodityNamed env cs mc with
      | error e => rw [h1] at h; cases h
      | ok pc =>
        cases h1' : commodityNamed env cs' (f mc) with
        | error e => rw [h1'] at h'; cases h'
        | ok pc' =>
          rw [h1] at h
          rw [h1'] at h'
          simp only at h h'
          cases h2 : commodityNamed env cs c with
          | error e => rw [h2] at h; cases h
          | ok cn =>
            cases h2' : commodityNamed env cs' (f c) with
            | error e => rw [h2'] at h'; cases h'
            | ok cn' =>
              rw [h2] at h
              rw [h2'] at h'
              simp only at h h'
              have hcn := hc c hcc cn cn' h2 h2'
              subst hcn
              cases hq : p.costAmount with
              | none => rw [hq] at h; cases h
              | some q =>
                cases ht : p.costType with
                | none => rw [hq, ht] at h; cases h
                | some ty =>
                  cases date with
                  | none => rw [hq, ht] at h; cases h
                  | some d =>
                    rw [hq, ht] at h h'
                    simp only at h h'
                    cases hu : unitPrice ty q m with
                    | error e => rw [hu] at h; cases h
                    | ok u =>
                      cases hu' : unitPrice ty q m' with
                      | error e => rw [hu'] at h'; cases h'
                      | ok u' =>
                        rw [hu] at h
                        rw [hu'] at h'
                        cases h
                        cases h'
                        cases ty <;> rfl

theorem called_convertPosting {env : Env} {s : Shuf} {l l' : Lists} {t : Txn RawPosting} {f : Str → Str} {tags : List Tag}
    {p : RawPosting} {q q' : Posting} {pr pr' : Option Price} (hp : l'.payees = l.payees) (ha : l'.accounts = l.accounts)
    (hc : ∀ c, p.moneyCurrency = some c ∨ p.costCurrency = some c ∨ p.balanceCurrency = some c → Alike env f l.commodities l'.commodities c)
    (h : convertPosting env s l t tags p = .ok (q, pr))
    (h' : convertPosting env s l' (t.called f) tags (p.called f) = .ok (q', pr')) : q' = q.called f := by
  unfold convertPosting at h h'
  rw [hp, ha] at h'
  rw [show postingPayee env l.payees (t.called f).description (p.called f) = postingPayee env l.payees t.description p from rfl] at h'
  cases h1 : postingPayee env l.payees t.description p with
  | error e => rw [h1] at h; cases h
  | ok n =>
    rw [h1] at h h'
    simp only at h h'
    rw [show (p.called f).account = p.account from rfl] at h'
    cases h2 : postingAccount env s l.accounts p.account n with
    | error e => rw [h2] at h; cases h
    | ok a =>
      rw [h2] at h h'
      simp only at h h'
      cases h3 : rawMoney env l.commodities p.moneyCurrency p.moneyAmount with
      | error e => rw [h3] at h; cases h
      | ok m =>
        cases h3' : rawMoney env l'.commodities (p.called f).moneyCurrency (p.called f).moneyAmount with
        | error e => rw [h3'] at h'; cases h'
        | ok m' =>
          rw [h3] at h
          rw [h3'] at h'
          simp only at h h'
          cases h4 : rawCost env l.commodities t.date p m with
          | error e => rw [h4] at h; cases h
          | ok c =>
            cases h4' : rawCost env l'.commodities (t.called f).date (p.called f) m' with
            | error e => rw [h4'] at h'; cases h'
            | ok c' =>
              rw [h4] at h
              rw [h4'] at h'
              simp only at h h'
              cases h5 : rawMoney env l.commodities p.balanceCurrency p.balanceAmount with
              | error e => rw [h5] at h; cases h
              | ok b =>
                cases h5' : rawMoney env l'.commodities (p.called f).balanceCurrency (p.called f).balanceAmount with
                | error e => rw [h5'] at h'; cases h'
                | ok b' =>
                  rw [h5] at h
                  rw [h5'] at h'
                  cases h
                  cases h'
                  have e3 := called_rawMoney (fun c hcc => hc c (.inl hcc)) h3 h3'
                  have e4 := called_rawCost (fun c hcc => hc c (.inr (.inl hcc))) h4 h4'
                  have e5 := called_rawMoney (fun c hcc => hc c (.inr (.inr hcc))) h5 h5'
                  simp only [Posting.called, e3, e4, e5]
                  rfl

theorem called_convertPostings {env : Env} {s : Shuf} {l l' : Lists} {t : Txn RawPosting} {f : Str → Str} {tags : List Tag}
    (hp : l'.payees = l.payees) (ha : l'.accounts = l.accounts) (ps : List RawPosting)
    (hc : ∀ p ∈ ps, ∀ c, p.moneyCurrency = some c ∨ p.costCurrency = some c ∨ p.balanceCurrency = some c →
      Alike env f l.commodities l'.commodities c)
    {qs qs' : List Posting} {prs prs' : List Price} (h : convertPostings env s l t tags ps = .ok (qs, prs))
    (h' : convertPostings env s l' (t.called f) tags (ps.map (RawPosting.called f)) = .ok (qs', prs')) :
    qs' = qs.map (Posting.called f) := by
  induction ps generalizing qs qs' prs prs' with
  | nil => cases h; cases h'; rfl
  | cons p ps ih =>
    rw [convertPostings] at h
    rw [List.map_cons, convertPostings] at h'
    cases h1 : convertPosting env s l t tags p with
    | error e => rw [h1] at h; cases h
    | ok x =>
      obtain ⟨q, pr⟩ := x
      rw [h1] at h
      simp only at h
      cases h1' : convertPosting env s l' (t.called f) tags (p.called f) with
      | error e => rw [h1'] at h'; cases h'
      | ok x' =>
        obtain ⟨q', pr'⟩ := x'
        rw [h1'] at h'
        simp only at h'
        cases h2 : convertPostings env s l t tags ps with
        | error e => rw [h2] at h; cases h
        | ok y =>
          cases h2' : convertPostings env s l' (t.called f) tags (ps.map (RawPosting.called f)) with
          | error e => rw [h2'] at h'; cases h'
          | ok y' =>
            rw [h2] at h
            rw [h2'] at h'
            cases h
            cases h'
            rw [called_convertPosting hp ha (hc p (by simp)) h1 h1', ih (fun p hp => hc p (by simp [hp])) h2 h2']
            rfl

theorem called_conv {env : Env} {s : Shuf} {l l' : Lists} {t : Txn RawPosting} {f : Str → Str}
    (hp : l'.payees = l.payees) (ha : l'.accounts = l.accounts)
    (hc : ∀ p ∈ t.postings, ∀ c, p.moneyCurrency = some c ∨ p.costCurrency = some c ∨ p.balanceCurrency = some c →
      Alike env f l.commodities l'.commodities c)
    (h : Converts env s l t (convOf env s l t)) (h' : Converts env s l' (t.called f) (convOf env s l' (t.called f))) :
    (convOf env s l' (t.called f)).1.postings = (convOf env s l t).1.postings.map (Posting.called f) := by
  obtain ⟨ps, h1, _, h2, _⟩ := convertTxn_inv (t := (convOf env s l t).1) (prs := (convOf env s l t).2) h
  obtain ⟨ps', h1', _, h2', _⟩ := convertTxn_inv (t := (convOf env s l' (t.called f)).1) (prs := (convOf env s l' (t.called f)).2) h'
  rw [h2, h2']
  exact called_convertPostings hp ha t.postings hc h1 h1'

end Dinero
