import Verif.Props.Commands

namespace Dinero

/-! Lemmas about journals with a total cost for a zero quantity. -/

theorem convertPosting_free {env : Env} {s : Shuf} {l : Lists} {raw : Txn RawPosting} {tags : List Tag}
    {p : RawPosting} (hd : raw.date.isSome) (hp : p.Ok) (hr : Resolves env.lower l p)
    (ht : p.costType = some .total) (hz : p.moneyAmount = some 0) :
    convertPosting env s l raw tags p = .error (.panic "division by zero") := by
  obtain ⟨y, hy⟩ := Option.isSome_iff_exists.mp hp.payee
  obtain ⟨n, x, hx, _⟩ := hr.payee y hy
  have hpay : postingPayee env l.payees raw.description p = .ok x.name := by
    unfold postingPayee; rw [hy]; simp only [hx]
  obtain ⟨a, ha⟩ := postingAccount_ok (s := s) (payee := x.name) hr.account
  obtain ⟨m, hm⟩ := rawMoney_ok hp.money hr.money
  have hc : rawCost env l.commodities raw.date p m = .error (.panic "division by zero") := by
    unfold rawCost
    have hcs : p.costCurrency.isSome = true := by rw [hp.costType, ht]; rfl
    obtain ⟨c, hc⟩ := Option.isSome_iff_exists.mp hcs
    obtain ⟨mc, hmc⟩ := Option.isSome_iff_exists.mp (hp.costOn hcs)
    obtain ⟨q, hq⟩ := Option.isSome_iff_exists.mp (hp.cost ▸ hcs)
    obtain ⟨d, hd⟩ := Option.isSome_iff_exists.mp hd
    obtain ⟨pc, hpc⟩ := hr.money mc hmc
    obtain ⟨cn, hcn⟩ := hr.cost c hc
    simp only [hc, hmc, finds_commodity hpc, finds_commodity hcn, hq, ht, hd]
    rcases rawMoney_inv hm with ⟨hx, _⟩ | ⟨x, n, qm, hx, hqm, _, rfl⟩
    · rw [hx] at hmc; cases hmc
    · rw [hz] at hqm
      cases hqm
      have hu : unitPrice .total q (some (.mk 0 n)) = .error (.panic "division by zero") := by
        unfold unitPrice ratDiv
        exact if_pos rfl
      simp only [hu]
  unfold convertPosting
  rw [hpay]
  simp only [ha, hm, hc]

theorem convertPostings_free {env : Env} {s : Shuf} {l : Lists} {raw : Txn RawPosting} {tags : List Tag}
    (ps : List RawPosting) (hd : raw.date.isSome) (hp : ∀ p ∈ ps, p.Ok) (hr : ∀ p ∈ ps, Resolves env.lower l p)
    (hz : ∃ p ∈ ps, p.costType = some .total ∧ p.moneyAmount = some 0) :
    convertPostings env s l raw tags ps = .error (.panic "division by zero") := by
  induction ps with
  | nil => obtain ⟨p, hm, _⟩ := hz; cases hm
  | cons p ps ih =>
    unfold convertPostings
    by_cases hpz : p.costType = some .total ∧ p.moneyAmount = some 0
    · rw [convertPosting_free hd (hp p (by simp)) (hr p (by simp)) hpz.1 hpz.2]
    · obtain ⟨⟨q, pr⟩, hq⟩ := convertPosting_ok (s := s) (tags := tags) hd (hp p (by simp)) (hr p (by simp))
        (fun h1 h2 => hpz ⟨h1, h2⟩)
      rw [hq]
      simp only
      rw [ih (fun x hx => hp x (by simp [hx])) (fun x hx => hr x (by simp [hx]))]
      obtain ⟨x, hx, hxz⟩ := hz
      rcases List.mem_cons.mp hx with rfl | hx
      · exact absurd hxz hpz
      · exact ⟨x, hx, hxz⟩

theorem convertAll_free {env : Env} {s : Shuf} {l : Lists} (ts : List (Txn RawPosting))
    (hd : ∀ t ∈ ts, t.ttype = .real → t.date.isSome) (hp : ∀ t ∈ ts, t.ttype = .real → ∀ p ∈ t.postings, p.Ok)
    (hr : ∀ t ∈ ts, ∀ p ∈ t.postings, Resolves env.lower l p)
    (hz : ∃ t ∈ ts, t.ttype = .real ∧ ∃ p ∈ t.postings, p.costType = some .total ∧ p.moneyAmount = some 0) :
    convertAll env s l ts = .error (.panic "division by zero") := by
  induction ts with
  | nil => obtain ⟨p, hm, _⟩ := hz; cases hm
  | cons t ts ih =>
    have hrest : (∃ t ∈ ts, t.ttype = .real ∧ ∃ p ∈ t.postings, p.costType = some .total ∧ p.moneyAmount = some 0) →
        convertAll env s l ts = .error (.panic "division by zero") :=
      ih (fun x hx => hd x (by simp [hx])) (fun x hx => hp x (by simp [hx])) (fun x hx => hr x (by simp [hx]))
    obtain ⟨x, hx, hxr, hxz⟩ := hz
    unfold convertAll
    cases htt : t.ttype with
    | real =>
      simp only
      by_cases hpz : ∃ p ∈ t.postings, p.costType = some .total ∧ p.moneyAmount = some 0
      · have : convertTxn env s l t = .error (.panic "division by zero") := by
          unfold convertTxn
          rw [convertPostings_free _ (hd t (by simp) htt) (hp t (by simp) htt) (hr t (by simp)) hpz]
        rw [this]
      · obtain ⟨r, hcv⟩ := convertTxn_ok (s := s) (fun p hpm => convertPosting_ok (hd t (by simp) htt) (hp t (by simp) htt p hpm)
          (hr t (by simp) p hpm) (fun h1 h2 => hpz ⟨p, hpm, h1, h2⟩))
        have hcv' : convertTxn env s l t = .ok r := hcv
        rw [hcv']
        simp only
        rw [hrest]
        rcases List.mem_cons.mp hx with rfl | hx
        · exact absurd hxz hpz
        · exact ⟨x, hx, hxr, hxz⟩
    | automated =>
      simp only
      rw [hrest]
      rcases List.mem_cons.mp hx with rfl | hx
      · rw [htt] at hxr; cases hxr
      · exact ⟨x, hx, hxr, hxz⟩
    | periodic =>
      simp only
      rw [hrest]
      rcases List.mem_cons.mp hx with rfl | hx
      · rw [htt] at hxr; cases hxr
      · exact ⟨x, hx, hxr, hxz⟩

theorem toLedger_free {env : Env} {o : LedgerOrders} {skip : Bool} {pl : ParsedLedger} (h : pl.Ok env.lower)
    (hz : ¬ pl.NoFreeTotals) : toLedger env o skip pl = .error (.panic "division by zero") := by
  obtain ⟨l, h1, h2, _⟩ := populate_spec (o := o) h.lists
  obtain ⟨dp, hdp⟩ := directivePrices_ok pl.prices h2.prices
  unfold toLedger
  rw [h1]
  simp only
  unfold buildLedger
  rw [hdp]
  simp only
  rw [convertAll_free]
  · exact fun t ht hk => h.dated t (List.mem_filter.mpr ⟨ht, by simpa using hk⟩)
  · exact fun t ht hk => h.postings t (List.mem_filter.mpr ⟨ht, by simpa using hk⟩)
  · exact h2.postings
  · unfold ParsedLedger.NoFreeTotals at hz
    push Not at hz
    obtain ⟨t, ht, p, hp, h3, h4⟩ := hz
    have hm := List.mem_filter.mp ht
    exact ⟨t, hm.1, by simpa using hm.2, p, hp, h3, h4⟩

end Dinero
