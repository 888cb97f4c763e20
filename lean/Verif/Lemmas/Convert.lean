import Verif.Lemmas.Populate
/-
Lemmas on converting transactions and on panics.
-/
namespace Dinero

theorem finds_commodity {env : Env} {cs : Commodities} {c n : Str} (h : Finds env.lower cs c n) :
    commodityNamed env cs c = .ok n := by
  obtain ⟨x, hx, rfl⟩ := h
  unfold commodityNamed; rw [hx]; rfl

theorem commodity_finds {env : Env} {cs : Commodities} {c n : Str} (h : commodityNamed env cs c = .ok n) :
    Finds env.lower cs c n := by
  unfold commodityNamed at h
  split at h
  · next x hx => cases h; exact ⟨x, hx, rfl⟩
  · cases h

theorem rawMoney_inv {env : Env} {cs : Commodities} {c : Option Str} {a : Option Rat} {m : Option Money}
    (h : rawMoney env cs c a = .ok m) :
    (c = none ∧ m = none) ∨ ∃ x n q, c = some x ∧ a = some q ∧ Finds env.lower cs x n ∧
      m = some (.mk q n) := by
  unfold rawMoney at h
  split at h
  · cases h; exact Or.inl ⟨rfl, rfl⟩
  · next x =>
    split at h
    · cases h
    · next n hn =>
      split at h
      · cases h
      · next q => cases h; exact Or.inr ⟨x, n, q, rfl, rfl, commodity_finds hn, rfl⟩

theorem rawMoney_ok {env : Env} {cs : Commodities} {c : Option Str} {a : Option Rat}
    (h1 : c.isSome = a.isSome) (h2 : ∀ x, c = some x → ∃ n, Finds env.lower cs x n) :
    ∃ m, rawMoney env cs c a = .ok m := by
  unfold rawMoney
  cases c with
  | none => exact ⟨_, rfl⟩
  | some x =>
    obtain ⟨n, hn⟩ := h2 x rfl
    obtain ⟨q, hq⟩ := Option.isSome_iff_exists.mp (h1 ▸ rfl : a.isSome = true)
    simp only [finds_commodity hn, hq]
    exact ⟨_, rfl⟩

/-- What a converted cost is. -/
structure ConvertedCost (env : Env) (cs : Commodities) (date : Option Date) (p : RawPosting)
    (cost : Cost) (pr : Price) : Prop where
  price : CostPrice env.lower cs date p pr
  cost : ∃ q, p.costAmount = some q ∧
    ((p.costType = some .total ∧ cost = .total (.mk q pr.cur)) ∨
     (p.costType = some .perUnit ∧ cost = .perUnit (.mk q pr.cur)))

theorem rawCost_inv {env : Env} {cs : Commodities} {date : Option Date} {p : RawPosting}
    {m : Option Money} {r : Option (Cost × Price)}
    (hm : rawMoney env cs p.moneyCurrency p.moneyAmount = .ok m)
    (h : rawCost env cs date p m = .ok r) :
    (p.costCurrency = none ∧ r = none) ∨ ∃ cost pr, p.costCurrency.isSome ∧ r = some (cost, pr) ∧
      m.isSome ∧ ConvertedCost env cs date p cost pr := by
  unfold rawCost at h
  split at h
  · next hc => cases h; exact Or.inl ⟨hc, rfl⟩
  · next c hc =>
    split at h
    · cases h
    · next mc hmc =>
      split at h
      · cases h
      · next pc hpc =>
        split at h
        · cases h
        · next cn hcn =>
          split at h
          · next q ty d hq hty =>
            split at h
            · cases h
            · next u hu =>
              cases h
              right
              rcases rawMoney_inv hm with ⟨hx, _⟩ | ⟨x, n, qm, hx, hqm, _, rfl⟩
              · rw [hx] at hmc; cases hmc
              · refine ⟨_, _, by simp [hc], rfl, rfl, ⟨rfl, ⟨mc, hmc, commodity_finds hpc⟩,
                  ⟨c, hc, commodity_finds hcn⟩, ?_⟩, q, hq, ?_⟩
                · unfold unitPrice at hu
                  cases ty with
                  | total =>
                    simp only at hu
                    unfold ratDiv at hu
                    split at hu
                    · cases hu
                    · next hz =>
                      cases hu
                      refine Or.inr ⟨hty, qm, hqm, by simpa [Money.amount] using hz, ?_⟩
                      rw [hq]
                      simp only [Money.amount] at hz ⊢
                      congr 1
                      field_simp
                  | perUnit =>
                    simp only [ratDiv] at hu
                    rw [if_neg (by norm_num)] at hu
                    cases hu
                    exact Or.inl ⟨hty, by rw [hq, div_one]⟩
                · cases ty with
                  | total => exact Or.inl ⟨hty, rfl⟩
                  | perUnit => exact Or.inr ⟨hty, rfl⟩
          · cases h

theorem rawCost_ok {env : Env} {cs : Commodities} {date : Option Date} {p : RawPosting}
    {m : Option Money} (hp : p.Ok) (hd : date.isSome)
    (hm : rawMoney env cs p.moneyCurrency p.moneyAmount = .ok m)
    (h2 : ∀ x, p.moneyCurrency = some x → ∃ n, Finds env.lower cs x n)
    (h3 : ∀ x, p.costCurrency = some x → ∃ n, Finds env.lower cs x n)
    (hz : p.costType = some .total → p.moneyAmount ≠ some 0) :
    ∃ r, rawCost env cs date p m = .ok r := by
  unfold rawCost
  cases hc : p.costCurrency with
  | none => exact ⟨_, rfl⟩
  | some c =>
    have hcs : p.costCurrency.isSome = true := by simp [hc]
    obtain ⟨mc, hmc⟩ := Option.isSome_iff_exists.mp (hp.costOn hcs)
    obtain ⟨q, hq⟩ := Option.isSome_iff_exists.mp (hp.cost ▸ hcs)
    obtain ⟨ty, hty⟩ := Option.isSome_iff_exists.mp (hp.costType ▸ hcs)
    obtain ⟨d, hd⟩ := Option.isSome_iff_exists.mp hd
    obtain ⟨pc, hpc⟩ := h2 mc hmc
    obtain ⟨cn, hcn⟩ := h3 c hc
    simp only [hmc, finds_commodity hpc, finds_commodity hcn, hq, hty, hd]
    rcases rawMoney_inv hm with ⟨hx, _⟩ | ⟨x, n, qm, hx, hqm, _, rfl⟩
    · rw [hx] at hmc; cases hmc
    · cases ty with
      | perUnit =>
        simp only [unitPrice, ratDiv]
        rw [if_neg (by norm_num)]
        exact ⟨_, rfl⟩
      | total =>
        have : qm ≠ 0 := fun h0 => hz hty (by rw [hqm, h0])
        have hu : unitPrice .total q (some (.mk qm n)) = .ok (q / qm) := if_neg this
        simp only [hu]
        exact ⟨_, rfl⟩

theorem redirect_fold {env : Env} (payee : Str) (l : List (Str × AccountDef)) (acc : Option AccountDef) :
    ∀ r, l.foldl (fun acc e =>
        if e.2.payees.any (fun pat => env.rx pat payee) then some e.2 else acc) acc = r →
      (r = acc ∧ ∀ e ∈ l, ¬ e.2.takes env payee) ∨
      ∃ pre e post, l = pre ++ e :: post ∧ r = some e.2 ∧ e.2.takes env payee ∧
        ∀ e' ∈ post, ¬ e'.2.takes env payee := by
  have hiff : ∀ e : Str × AccountDef,
      e.2.payees.any (fun pat => env.rx pat payee) = true ↔ e.2.takes env payee := by
    intro e; rw [List.any_eq_true]; rfl
  induction l generalizing acc with
  | nil => rintro r rfl; exact Or.inl ⟨rfl, by simp⟩
  | cons e l ih =>
    intro r hr
    rw [List.foldl_cons] at hr
    rcases ih _ r hr with ⟨h1, h2⟩ | ⟨pre, x, post, h1, h2, h3, h4⟩
    · by_cases hc : e.2.takes env payee
      · rw [if_pos ((hiff e).mpr hc)] at h1
        exact Or.inr ⟨[], e, l, rfl, h1, hc, h2⟩
      · rw [if_neg (fun h => hc ((hiff e).mp h))] at h1
        refine Or.inl ⟨h1, ?_⟩
        intro x hx
        rcases List.mem_cons.mp hx with rfl | hx
        · exact hc
        · exact h2 x hx
    · exact Or.inr ⟨e :: pre, x, post, by rw [h1]; rfl, h2, h3, h4⟩

theorem redirect_spec {env : Env} {s : Shuf} {accounts : NList AccountDef} {payee : Str} :
    (redirect env s accounts payee = none ∧ ∀ e ∈ accounts.list, ¬ e.2.takes env payee) ∨
    ∃ k a, (k, a) ∈ accounts.list ∧ a.takes env payee ∧ redirect env s accounts payee = some a := by
  rcases redirect_fold payee (s.run accounts.list) none _ rfl with ⟨h1, h2⟩ | ⟨pre, e, post, h1, h2, h3, _⟩
  · exact Or.inl ⟨h1, fun e he => h2 e ((s.perm _).mem_iff.mpr he)⟩
  · exact Or.inr ⟨e.1, e.2, (s.perm _).mem_iff.mp (by rw [h1]; simp), h3, h2⟩

/-- The account found is one of the list. -/
theorem postingAccount_mem {env : Env} {s : Shuf} {accounts : NList AccountDef} {account payee a : Str}
    (h : postingAccount env s accounts account payee = .ok a) :
    ∃ k x, (k, x) ∈ accounts.list ∧ x.name = a := by
  unfold postingAccount at h
  split at h
  · next x hx =>
    cases h
    split at hx
    · rcases redirect_spec (env := env) (s := s) (accounts := accounts) (payee := payee) with
        ⟨h1, _⟩ | ⟨k, y, hk, _, hy⟩
      · rw [h1] at hx; cases hx
      · rw [hy] at hx; cases hx; exact ⟨k, x, hk, rfl⟩
    · cases hx
  · split at h
    · next x hx =>
      cases h
      unfold NList.get at hx
      split at hx
      · next y hy => cases hx; exact ⟨_, _, HMap.mem_of_get? hy, rfl⟩
      · split at hx
        · cases hx
        · next z _ =>
          unfold unwrap at hx
          split at hx
          · next y hy => cases hx; exact ⟨_, _, HMap.mem_of_get? hy, rfl⟩
          · cases hx
    · cases h

theorem postingAccount_ok {env : Env} {s : Shuf} {accounts : NList AccountDef} {account payee : Str}
    (h : ∃ n, Finds env.lower accounts account n) :
    ∃ a, postingAccount env s accounts account payee = .ok a := by
  obtain ⟨n, x, hx, _⟩ := h
  unfold postingAccount
  split
  · exact ⟨_, rfl⟩
  · rw [hx]; exact ⟨_, rfl⟩

/-- What a converted posting is. -/
structure ConvertedPosting (env : Env) (s : Shuf) (l : Lists) (raw : Txn RawPosting)
    (tags : List Tag) (p : RawPosting) (q : Posting) (pr : Option Price) : Prop where
  payee : ∃ n, q.payee = some n ∧ postingPayee env l.payees raw.description p = .ok n ∧
    postingAccount env s l.accounts p.account n = .ok q.account
  amount : rawMoney env l.commodities p.moneyCurrency p.moneyAmount = .ok q.amount
  balance : rawMoney env l.commodities p.balanceCurrency p.balanceAmount = .ok q.balance
  cost : (p.costCurrency = none ∧ q.cost = none ∧ pr = none) ∨ ∃ cost price, p.costCurrency.isSome ∧
    q.cost = some cost ∧ pr = some price ∧ q.amount.isSome ∧
    ConvertedCost env l.commodities raw.date p cost price
  kind : q.kind = p.kind
  tags : q.tags = tags ++ p.comments.flatMap getTags
  origin : q.origin = .fromTransaction
  comments : q.comments = []

theorem convertPosting_inv {env : Env} {s : Shuf} {l : Lists} {raw : Txn RawPosting} {tags : List Tag}
    {p : RawPosting} {q : Posting} {pr : Option Price}
    (h : convertPosting env s l raw tags p = .ok (q, pr)) :
    ConvertedPosting env s l raw tags p q pr := by
  unfold convertPosting at h
  split at h
  · cases h
  · next n hn =>
    split at h
    · cases h
    · next a ha =>
      split at h
      · cases h
      · next m hm =>
        split at h
        · cases h
        · next c hc =>
          split at h
          · cases h
          · next b hb =>
            cases h
            refine ⟨⟨n, rfl, hn, ha⟩, hm, hb, ?_, rfl, rfl, rfl, rfl⟩
            rcases rawCost_inv hm hc with ⟨h1, rfl⟩ | ⟨cost, price, h1, rfl, h2, h3⟩
            · exact Or.inl ⟨h1, rfl, rfl⟩
            · exact Or.inr ⟨cost, price, h1, rfl, rfl, h2, h3⟩

theorem convertPosting_ok {env : Env} {s : Shuf} {l : Lists} {raw : Txn RawPosting} {tags : List Tag}
    {p : RawPosting} (hd : raw.date.isSome) (hp : p.Ok) (hr : Resolves env.lower l p)
    (hz : p.costType = some .total → p.moneyAmount ≠ some 0) :
    ∃ r, convertPosting env s l raw tags p = .ok r := by
  obtain ⟨y, hy⟩ := Option.isSome_iff_exists.mp hp.payee
  obtain ⟨n, x, hx, _⟩ := hr.payee y hy
  have hpay : postingPayee env l.payees raw.description p = .ok x.name := by
    unfold postingPayee; rw [hy]; simp only [hx]
  obtain ⟨a, ha⟩ := postingAccount_ok (s := s) (payee := x.name) hr.account
  obtain ⟨m, hm⟩ := rawMoney_ok hp.money hr.money
  obtain ⟨c, hc⟩ := rawCost_ok hp hd hm hr.money hr.cost hz
  obtain ⟨b, hb⟩ := rawMoney_ok hp.balance hr.balance
  unfold convertPosting
  rw [hpay]
  simp only [ha, hm, hc, hb]
  exact ⟨_, rfl⟩

theorem convertPostings_inv {env : Env} {s : Shuf} {l : Lists} {raw : Txn RawPosting} {tags : List Tag}
    (ps : List RawPosting) {qs : List Posting} {prs : List Price}
    (h : convertPostings env s l raw tags ps = .ok (qs, prs)) :
    ∃ rs : List (Posting × Option Price),
      List.Forall₂ (fun p r => ConvertedPosting env s l raw tags p r.1 r.2) ps rs ∧
      qs = rs.map Prod.fst ∧ prs = rs.filterMap Prod.snd := by
  induction ps generalizing qs prs with
  | nil => cases h; exact ⟨[], .nil, rfl, rfl⟩
  | cons p ps ih =>
    unfold convertPostings at h
    split at h
    · cases h
    · next q pr hp =>
      split at h
      · cases h
      · next qs' prs' hr =>
        cases h
        obtain ⟨rs, h1, rfl, rfl⟩ := ih hr
        refine ⟨(q, pr) :: rs, .cons (convertPosting_inv hp) h1, rfl, ?_⟩
        cases pr <;> simp

theorem convertPostings_ok {env : Env} {s : Shuf} {l : Lists} {raw : Txn RawPosting} {tags : List Tag}
    (ps : List RawPosting) (h : ∀ p ∈ ps, ∃ r, convertPosting env s l raw tags p = .ok r) :
    ∃ r, convertPostings env s l raw tags ps = .ok r := by
  induction ps with
  | nil => exact ⟨_, rfl⟩
  | cons p ps ih =>
    obtain ⟨⟨q, pr⟩, hq⟩ := h p (by simp)
    obtain ⟨⟨qs, prs⟩, hqs⟩ := ih (fun x hx => h x (by simp [hx]))
    unfold convertPostings
    rw [hq]
    simp only [hqs]
    exact ⟨_, rfl⟩

theorem ConvertedPosting.costOk {env : Env} {s : Shuf} {l : Lists} {raw : Txn RawPosting}
    {tags : List Tag} {p : RawPosting} {q : Posting} {pr : Option Price}
    (h : ConvertedPosting env s l raw tags p q pr) : q.CostOk := by
  unfold Posting.CostOk
  rcases h.cost with ⟨_, h2, _⟩ | ⟨cost, price, _, h2, _, h3, hc⟩
  · rw [h2]; trivial
  · rw [h2]
    have ham : ∃ x a, q.amount = some (.mk x a) := by
      rcases rawMoney_inv h.amount with ⟨_, h4⟩ | ⟨_, n, x, _, _, _, h4⟩
      · rw [h4] at h3; cases h3
      · exact ⟨x, n, h4⟩
    obtain ⟨x, _, hx⟩ := hc.cost
    rcases hx with ⟨_, rfl⟩ | ⟨_, rfl⟩
    · exact ⟨ham, x, price.cur, rfl⟩
    · exact ⟨ham, x, price.cur, rfl⟩

/-- Every posting of a converted transaction is well formed and on an account of the list. -/
theorem convertTxn_postings {env : Env} {s : Shuf} {l : Lists} {raw : Txn RawPosting} {t : Txn Posting}
    {prs : List Price} (h : convertTxn env s l raw = .ok (t, prs)) :
    ∃ rs : List (Posting × Option Price),
      List.Forall₂ (fun p r => ConvertedPosting env s l raw (raw.comments.flatMap getTags) p r.1 r.2)
        raw.postings rs ∧ t.postings = rs.map Prod.fst ∧ prs = rs.filterMap Prod.snd := by
  obtain ⟨ps, hp, _, h2, _⟩ := convertTxn_inv h
  obtain ⟨rs, h3, h4, h5⟩ := convertPostings_inv _ hp
  exact ⟨rs, h3, by rw [h2, h4], h5⟩

theorem convertTxn_costOk {env : Env} {s : Shuf} {l : Lists} {raw : Txn RawPosting} {t : Txn Posting}
    {prs : List Price} (h : convertTxn env s l raw = .ok (t, prs)) :
    ∀ q ∈ t.postings, q.CostOk ∧ ∃ k x, (k, x) ∈ l.accounts.list ∧ x.name = q.account := by
  obtain ⟨rs, h1, h2, _⟩ := convertTxn_postings h
  intro q hq
  rw [h2] at hq
  obtain ⟨r, hr, rfl⟩ := List.mem_map.mp hq
  obtain ⟨p, _, hp⟩ := Forall₂.mem_right h1 hr
  obtain ⟨n, _, _, hn⟩ := hp.payee
  exact ⟨hp.costOk, postingAccount_mem hn⟩

/-! ### No panics -/

theorem totalBalanceEntry_ok {p : Posting} {m : Money} (hc : p.CostOk) :
    ∃ b, totalBalanceEntry m p.cost = .ok b := by
  unfold totalBalanceEntry
  unfold Posting.CostOk at hc
  cases h : p.cost with
  | none => exact ⟨_, rfl⟩
  | some c =>
    rw [h] at hc
    cases c with
    | total t => simp only; split <;> exact ⟨_, rfl⟩
    | perUnit u => obtain ⟨_, x, b, rfl⟩ := hc; exact ⟨_, rfl⟩

theorem balanceEntry_ok {p : Posting} {m : Money} (hc : p.CostOk) :
    ∃ b, balanceEntry m p.cost = .ok b := by
  unfold balanceEntry
  unfold Posting.CostOk at hc
  cases h : p.cost with
  | none => exact ⟨_, rfl⟩
  | some c =>
    rw [h] at hc
    cases c with
    | total t => simp only; split <;> exact ⟨_, rfl⟩
    | perUnit u => obtain ⟨_, x, b, rfl⟩ := hc; exact ⟨_, rfl⟩

theorem totalBalanceLoop_ok (k : Kind) (ps : List Posting) (acc : Balance)
    (h : ∀ p ∈ ps, p.CostOk) : ∃ b, totalBalanceLoop k ps acc = .ok b := by
  induction ps generalizing acc with
  | nil => exact ⟨_, rfl⟩
  | cons p ps ih =>
    have ih := fun acc => ih acc (fun q hq => h q (by simp [hq]))
    unfold totalBalanceLoop
    cases p.amount with
    | none => exact ih acc
    | some m =>
      simp only
      split
      · obtain ⟨b, hb⟩ := totalBalanceEntry_ok (m := m) (h p (by simp))
        rw [hb]
        exact ih _
      · exact ih acc

theorem isBalanced_ok {t : Txn Posting} (h : ∀ p ∈ t.postings, p.CostOk) : ∃ b, t.isBalanced = .ok b := by
  unfold Txn.isBalanced totalBalance
  obtain ⟨b, hb⟩ := totalBalanceLoop_ok .real t.postings Balance.new h
  rw [hb]; exact ⟨_, rfl⟩

/-- An answer or an error, but no panic. -/
def Calm {α : Type} (r : Res α) : Prop := ∀ w, r ≠ .error (.panic w)

theorem Calm.ok {α : Type} (a : α) : Calm (.ok a : Res α) := by intro w h; cases h
theorem Calm.err {α : Type} (e : Err) : Calm (.error (.error e) : Res α) := by intro w h; cases h
theorem Calm.isPanic {α : Type} {r : Res α} (h : Calm r) : r.isPanic = false := by
  cases r with
  | ok a => rfl
  | error e => cases e with
    | panic w => exact absurd rfl (h w)
    | error e => rfl

theorem balanceStep_calm {skip : Bool} {st : LoopSt} {p : Posting} (hc : p.CostOk)
    (hk : (st.balances.get? p.account).isSome) : Calm (balanceStep skip st p) := by
  obtain ⟨had, hh⟩ := Option.isSome_iff_exists.mp hk
  unfold balanceStep
  split
  · exact .ok _
  · split
    · simp only [hh]
      split
      · exact .err _
      · split
        · next e he => obtain ⟨b, hb⟩ := balanceEntry_ok hc; rw [hb] at he; cases he
        · exact .ok _
    · next b _ _ =>
      simp only [hh]
      split
      · next e he =>
        unfold Balance.toMoney at he
        split at he <;> cases he
        exact .err _
      · exact .ok _
    · exact .ok _

theorem balanceLoop_calm {skip : Bool} (ps : List Posting) {st : LoopSt}
    (hb : st.balances.Ok) (ht : st.tbal.Reachable) (ht' : Balance.Canon st.tbal)
    (hp : ∀ p ∈ ps, p.CostOk ∧ (st.balances.get? p.account).isSome) :
    Calm (balanceLoop skip ps st) := by
  induction ps generalizing st with
  | nil => exact .ok _
  | cons p ps ih =>
    unfold balanceLoop
    have hs := balanceStep_calm (skip := skip) (hp p (by simp)).1 (hp p (by simp)).2
    split
    · next e he => intro w hw; cases hw; exact hs w he
    · next st' hst =>
      obtain ⟨h1, h2, h3, h4, _⟩ := balanceStep_spec hst hb ht ht' (hp p (by simp)).1
      exact ih h1 h2 h3 (fun q hq => ⟨(hp q (by simp [hq])).1, by
        rw [h4]; exact (hp q (by simp [hq])).2⟩)

theorem fillLoop_calm {t : Txn Posting} {acc : Str} {pay : Option Str} (ms : List Money)
    {bals : Balances} {out : List Posting} (h : (bals.get? acc).isSome) :
    Calm (fillLoop t acc pay ms bals out) := by
  induction ms generalizing bals out with
  | nil => exact .ok _
  | cons m ms ih =>
    obtain ⟨had, hh⟩ := Option.isSome_iff_exists.mp h
    unfold fillLoop
    rw [hh]
    exact ih (by rw [HMap.get?_insert]; simp)

theorem balance_calm {s : Shuf} {skip : Bool} {bals : Balances} {t : Txn Posting} (hb : bals.Ok)
    (hp : ∀ p ∈ t.postings, p.CostOk ∧ (bals.get? p.account).isSome) :
    Calm (Txn.balance s skip bals t) := by
  have hcost : ∀ p ∈ t.postings, p.CostOk := fun p h => (hp p h).1
  unfold Txn.balance
  obtain ⟨vb, hvb⟩ := totalBalanceLoop_ok .virtBal t.postings Balance.new hcost
  unfold totalBalance
  rw [hvb]
  simp only
  split
  · exact .err _
  · have hl := balanceLoop_calm (skip := skip) t.postings (st := initSt bals) hb .new Balance.Canon.nil hp
    split
    · next e he => intro w hw; cases hw; exact hl w he
    · next st hst =>
      split
      · exact .err _
      · split
        · split
          · exact .ok _
          · exact .err _
        · next hne =>
          have hspec := balanceLoop_spec t.postings (st := initSt bals) hst hb .new Balance.Canon.nil hcost
          obtain ⟨_, _, _, hdom, res, hout, hres, _⟩ := hspec
          have hfill := balanceLoop_fill t.postings (st := initSt bals) hst hb .new Balance.Canon.nil hcost
          have hknown : (st.balances.get? st.fillAccount).isSome := by
            rcases hfill with ⟨p, hpm, _, h1, _⟩ | ⟨hno, _⟩
            · rw [h1, hdom]; exact (hp p hpm).2
            · exfalso
              have hlen := length_real skip t.postings
              have he : t.postings.filter (fun p => p.elided skip) = [] := by
                rw [List.filter_eq_nil_iff]; intro p hpm; simpa using hno p hpm
              rw [he] at hlen
              have ho : st.out.length = (t.postings.filter (Posting.kept skip)).length := by
                rw [hout, hres.length_eq]; simp [initSt]
              simp only [List.length_nil, Nat.add_zero] at hlen
              omega
          have hf := fillLoop_calm (t := t) (pay := st.fillPayee)
            ((s.run (Balance.neg st.tbal)).map Prod.snd) (out := st.out) hknown
          split
          · next e he => intro w hw; cases hw; exact hf w he
          · exact .ok _

/-! ### Implied prices -/

theorem impliedPrice_spec {s : Shuf} {date : Date} {b : Balance} (hb : Balance.Canon b) :
    ∃ o, impliedPrice s date b = .ok o ∧
      match o with
      | some pr => pr.date = date ∧ pr.commodity ≠ pr.cur ∧ b.amountOf pr.commodity ≠ 0 ∧
          b.amountOf pr.cur ≠ 0 ∧ (∀ e, b.amountOf e ≠ 0 → e = pr.commodity ∨ e = pr.cur) ∧
          pr.amount * |b.amountOf pr.commodity| = |b.amountOf pr.cur|
      | none => ¬ ∃ c d, c ≠ d ∧ b.amountOf c ≠ 0 ∧ b.amountOf d ≠ 0 ∧
          ∀ e, b.amountOf e ≠ 0 → e = c ∨ e = d := by
  have hperm := s.perm b
  have hr : Balance.Canon (s.run b) := hb.perm hperm.symm
  have hamt : ∀ c, Balance.amountOf (s.run b) c = b.amountOf c := fun c => Balance.amountOf_perm hperm c
  have hmem : ∀ k m, (k, m) ∈ s.run b ↔ ∃ c, k = some c ∧ m = .mk (b.amountOf c) c ∧ b.amountOf c ≠ 0 := by
    intro k m; rw [hr.mem_iff]; simp only [hamt]
  have hnd := hr.nodup
  unfold impliedPrice
  have habs : ∀ (x : Rat) (c : Cur), (Money.mk x c).abs.amount = |x| ∧ (Money.mk x c).abs.commodity = some c := by
    intro x c
    unfold Money.abs Money.isNegative
    by_cases hx : x < 0
    · simp [hx, Money.neg, Money.amount, Money.commodity, abs_of_neg hx]
    · simp [hx, Money.amount, Money.commodity, abs_of_nonneg (not_lt.mp hx)]
  match hrun : s.run b with
  | [] =>
    refine ⟨none, rfl, ?_⟩
    rintro ⟨c, d, _, hc, _, _⟩
    have := (hmem (some c) (.mk (b.amountOf c) c)).mpr ⟨c, rfl, rfl, hc⟩
    rw [hrun] at this; cases this
  | [x] =>
    refine ⟨none, rfl, ?_⟩
    rintro ⟨c, d, hcd, hc, hd, _⟩
    have h1 := (hmem (some c) (.mk (b.amountOf c) c)).mpr ⟨c, rfl, rfl, hc⟩
    have h2 := (hmem (some d) (.mk (b.amountOf d) d)).mpr ⟨d, rfl, rfl, hd⟩
    rw [hrun] at h1 h2
    simp only [List.mem_singleton] at h1 h2
    have := h1.trans h2.symm
    exact hcd (Option.some.inj (Prod.mk.inj this).1)
  | [(k1, m1), (k2, m2)] =>
    obtain ⟨c, rfl, rfl, hc⟩ := (hmem k1 m1).mp (by rw [hrun]; simp)
    obtain ⟨d, rfl, rfl, hd⟩ := (hmem k2 m2).mp (by rw [hrun]; simp)
    have hcd : c ≠ d := by
      rw [hrun] at hnd
      simpa [HMap.keys] using hnd
    obtain ⟨a1, a2⟩ := habs (b.amountOf c) c
    obtain ⟨b1, b2⟩ := habs (b.amountOf d) d
    have hne : |b.amountOf c| ≠ 0 := abs_ne_zero.mpr hc
    refine ⟨some ⟨date, c, |b.amountOf d| / |b.amountOf c|, d⟩, ?_, rfl, hcd, hc, hd, ?_, ?_⟩
    · simp only [a2, b2, a1, b1, ratDiv, if_neg hne]
    · intro e he
      have := (hmem (some e) (.mk (b.amountOf e) e)).mpr ⟨e, rfl, rfl, he⟩
      rw [hrun] at this
      simp only [List.mem_cons, List.not_mem_nil, or_false, Prod.mk.injEq, Option.some.injEq] at this
      tauto
    · exact div_mul_cancel₀ _ hne
  | x :: y :: z :: r =>
    refine ⟨none, rfl, ?_⟩
    rintro ⟨c, d, hcd, _, _, hall⟩
    obtain ⟨e1, h1, _, n1⟩ := (hmem x.1 x.2).mp (by rw [hrun]; simp)
    obtain ⟨e2, h2, _, n2⟩ := (hmem y.1 y.2).mp (by rw [hrun]; simp)
    obtain ⟨e3, h3, _, n3⟩ := (hmem z.1 z.2).mp (by rw [hrun]; simp)
    rw [hrun] at hnd
    simp only [HMap.keys, List.map_cons, List.nodup_cons, List.mem_cons, not_or] at hnd
    rw [h1, h2, h3] at hnd
    obtain ⟨⟨p12, p13, _⟩, ⟨p23, _⟩, _⟩ := hnd
    have p12 : e1 ≠ e2 := fun h => p12 (by rw [h])
    have p13 : e1 ≠ e3 := fun h => p13 (by rw [h])
    have p23 : e2 ≠ e3 := fun h => p23 (by rw [h])
    rcases hall e1 n1 with r1 | r1 <;> rcases hall e2 n2 with r2 | r2 <;>
      rcases hall e3 n3 with r3 | r3 <;> simp_all

/-- What the balancing pass guarantees. -/
theorem balancePass_spec {skip : Bool} (ts : List (Txn Posting)) {σ ρ : Nat → Shuf} {bals : Balances}
    {ts' : List (Txn Posting)} {prs : List Price} (hb : bals.Ok)
    (hp : ∀ t ∈ ts, ∀ p ∈ t.postings, p.CostOk)
    (h : balancePass skip σ ρ bals ts = .ok (ts', prs)) :
    ∃ rates : List (Option Price), List.Forall₂ ImpliesRate ts' rates ∧ prs = rates.filterMap id ∧
      ∃ bals' rs, balanceAll skip σ bals ts = .ok (bals', rs) ∧ ts' = rs.map Prod.fst := by
  induction ts generalizing σ ρ bals ts' prs with
  | nil => cases h; exact ⟨[], .nil, rfl, bals, [], rfl, rfl⟩
  | cons t ts ih =>
    unfold balancePass at h
    split at h
    · cases h
    · next d hd =>
      split at h
      · cases h
      · next bals' t' ret hbal =>
        split at h
        · cases h
        · next pr hpr =>
          split at h
          · cases h
          · next ts'' prs' hr =>
            cases h
            have hpt := hp t (by simp)
            obtain ⟨res, gen, hB⟩ := balance_spec hbal hb hpt
            obtain ⟨rates, h1, h2, bals'', rs, h3, h4⟩ :=
              ih hB.balsOk (fun u hu => hp u (by simp [hu])) hr
            have hcanon : Balance.Canon ret := by
              rcases hB.cases with ⟨_, _, _, _, hc, _⟩ | ⟨_, _, hret, _⟩
              · exact hc
              · rw [hret]; exact Balance.Canon.nil
            have htot := fun c => real_total hbal hb hpt c
            obtain ⟨o, ho, hspec⟩ := impliedPrice_spec (s := ρ 0) (date := d) hcanon
            rw [hpr] at ho
            obtain rfl := Except.ok.inj ho
            refine ⟨pr :: rates, .cons ?_ h1, ?_, bals'', (t', ret) :: rs, ?_, by rw [h4]; rfl⟩
            · have hdate : t'.date = some d := by rw [balance_header hbal]; exact hd
              unfold ImpliesRate
              cases pr with
              | none => simpa only [htot] using hspec
              | some pr =>
                obtain ⟨e1, e2, e3, e4, e5, e6⟩ := hspec
                simp only [htot] at e3 e4 e5 e6
                exact ⟨by rw [hdate, e1], e2, e3, e4, e5, e6⟩
            · rw [h2]; cases pr <;> simp
            · unfold balanceAll; rw [hbal]; simp only [h3]

theorem balancePass_calm {skip : Bool} (ts : List (Txn Posting)) {σ ρ : Nat → Shuf} {bals : Balances}
    (hb : bals.Ok) (hd : ∀ t ∈ ts, t.date.isSome)
    (hp : ∀ t ∈ ts, ∀ p ∈ t.postings, p.CostOk ∧ (bals.get? p.account).isSome) :
    Calm (balancePass skip σ ρ bals ts) := by
  induction ts generalizing σ ρ bals with
  | nil => exact .ok _
  | cons t ts ih =>
    obtain ⟨d, hd'⟩ := Option.isSome_iff_exists.mp (hd t (by simp))
    have hpt := hp t (by simp)
    have hc := balance_calm (s := σ 0) (skip := skip) hb hpt
    unfold balancePass
    rw [hd']
    simp only
    split
    · next e he => intro w hw; cases hw; exact hc w he
    · next bals' t' ret hbal =>
      obtain ⟨res, gen, hB⟩ := balance_spec hbal hb (fun p h => (hpt p h).1)
      have hcanon : Balance.Canon ret := by
        rcases hB.cases with ⟨_, _, _, _, hc, _⟩ | ⟨_, _, hret, _⟩
        · exact hc
        · rw [hret]; exact Balance.Canon.nil
      obtain ⟨o, ho, _⟩ := impliedPrice_spec (s := ρ 0) (date := d) hcanon
      rw [ho]
      simp only
      have hr := ih (σ := fun i => σ (i + 1)) (ρ := fun i => ρ (i + 1)) hB.balsOk
        (fun u hu => hd u (by simp [hu])) (fun u hu q hq => ⟨(hp u (by simp [hu]) q hq).1, by
          rw [hB.dom]; exact (hp u (by simp [hu]) q hq).2⟩)
      split
      · next e he => intro w hw; cases hw; exact hr w he
      · exact .ok _

/-! ### The initial balances -/

theorem initialBalances_get (accounts : NList AccountDef) :
    (∀ k x, (k, x) ∈ accounts.list → ((initialBalances accounts).get? x.name).isSome) ∧
    ∀ a b, (initialBalances accounts).get? a = some b → b = Balance.new := by
  unfold initialBalances
  have key : ∀ (l : List (Str × AccountDef)) (acc : Balances),
      (∀ a b, acc.get? a = some b → b = Balance.new) →
      (∀ a b, (l.foldl (fun acc e => HMap.insert acc e.2.name Balance.new) acc).get? a = some b →
        b = Balance.new) ∧
      (∀ a, (acc.get? a).isSome →
        ((l.foldl (fun acc e => HMap.insert acc e.2.name Balance.new) acc).get? a).isSome) ∧
      ∀ k x, (k, x) ∈ l →
        ((l.foldl (fun acc e => HMap.insert acc e.2.name Balance.new) acc).get? x.name).isSome := by
    intro l
    induction l with
    | nil => intro acc h; exact ⟨h, fun _ h => h, by simp⟩
    | cons e l ih =>
      intro acc h
      have h' : ∀ a b, (HMap.insert acc e.2.name Balance.new).get? a = some b → b = Balance.new := by
        intro a b hab
        rw [HMap.get?_insert] at hab
        split at hab
        · exact (Option.some.inj hab).symm
        · exact h a b hab
      obtain ⟨i1, i2, i3⟩ := ih _ h'
      refine ⟨i1, ?_, ?_⟩
      · intro a ha
        refine i2 a ?_
        rw [HMap.get?_insert]; split
        · rfl
        · exact ha
      · intro k x hx
        rcases List.mem_cons.mp hx with rfl | hx
        · exact i2 _ (by rw [HMap.get?_insert]; simp)
        · exact i3 k x hx
  obtain ⟨h1, _, h3⟩ := key accounts.list [] (by simp)
  exact ⟨h3, h1⟩

theorem initialBalances_ok (accounts : NList AccountDef) : (initialBalances accounts).Ok := by
  intro a b h
  rw [(initialBalances_get accounts).2 a b h]
  exact .new

end Dinero
