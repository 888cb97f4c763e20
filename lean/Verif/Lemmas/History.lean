import Verif.Spec.History
import Verif.Lemmas.Orders
import Verif.Lemmas.Sales
import Verif.Lemmas.Check
/-
Lemmas about journals that go on (C126).
-/
namespace Dinero

/-! ### The names -/

section
variable {T : Type}

/-- A name is found alike in both lists. -/
def AgreeAt (lower : Str → Str) (l l' : NList T) (n : Str) : Prop := l.get lower n = l'.get lower n

theorem agreeAt_of {lower : Str → Str} {l l' : NList T} {n : Str}
    (h1 : l.list.get? (lower n) = l'.list.get? (lower n))
    (h2 : l.aliases.get? (lower n) = l'.aliases.get? (lower n))
    (h3 : ∀ z, l.aliases.get? (lower n) = some z → l.list.get? z = l'.list.get? z) :
    AgreeAt lower l l' n := by
  unfold AgreeAt NList.get
  rw [h1, ← h2]
  cases l'.list.get? (lower n) with
  | some x => rfl
  | none =>
    cases hz : l.aliases.get? (lower n) with
    | none => rfl
    | some z => simp only [h3 z hz]

theorem find?_used {names : List Str} {lower : Str → Str} {n : Str} (hn : n ∈ names)
    (hu : ∀ a ∈ names, ∀ b ∈ names, lower a = lower b → a = b) :
    names.find? (fun m => lower m = lower n) = some n := by
  cases h : names.find? (fun m => lower m = lower n) with
  | none => exact absurd (decide_eq_true rfl) (List.find?_eq_none.mp h n hn)
  | some m =>
    have hm := List.find?_some h
    rw [hu m (List.mem_of_find?_eq_some h) n hn (of_decide_eq_true hm)]

theorem ensureAll_agree [Named T] {lower : Str → Str} {make : Str → T} (hm : ∀ n, Named.name (make n) = n)
    (ha : ∀ n, Named.aliases (make n) = []) {names names' : List Str} {l l1 l2 : NList T}
    (hr : l.Reachable lower) (h1 : NList.ensureAll lower make names l = .ok l1)
    (h2 : NList.ensureAll lower make names' l = .ok l2)
    (hsub : ∀ a ∈ names, a ∈ names')
    (hu : ∀ a ∈ names', ∀ b ∈ names', lower a = lower b → a = b) {n : Str} (hn : n ∈ names) :
    AgreeAt lower l1 l2 n := by
  obtain ⟨a1, b1⟩ := ensureAll_closed hm ha names hr h1
  obtain ⟨a2, b2⟩ := ensureAll_closed hm ha names' hr h2
  refine agreeAt_of ?_ (by rw [a1, a2]) ?_
  · rw [b1, b2, find?_used hn (fun a ha b hb => hu a (hsub a ha) b (hsub b hb)), find?_used (hsub n hn) hu]
  · intro z hz
    rw [a1] at hz
    obtain ⟨x, hx⟩ := Option.isSome_iff_exists.mp ((NList.Inv.reach hr).aliasOk _ _ hz)
    rw [b1, b2, hx]
    rfl

end

theorem ensureAll_keeps {T : Type} [Named T] {lower : Str → Str} {make : Str → T} (hm : ∀ n, Named.name (make n) = n)
    (ha : ∀ n, Named.aliases (make n) = []) {names names' : List Str} {l l1 l2 : NList T}
    (hr : l.Reachable lower) (h1 : NList.ensureAll lower make names l = .ok l1)
    (h2 : NList.ensureAll lower make names' l = .ok l2)
    (hsub : ∀ a ∈ names, a ∈ names')
    (hu : ∀ a ∈ names', ∀ b ∈ names', lower a = lower b → a = b) {k : Str} {x : T} (hx : l1.list.get? k = some x) :
    l2.list.get? k = some x := by
  obtain ⟨a1, b1⟩ := ensureAll_closed hm ha names hr h1
  obtain ⟨a2, b2⟩ := ensureAll_closed hm ha names' hr h2
  rw [b1] at hx
  rw [b2]
  cases hd : l.list.get? k with
  | some y => rw [hd] at hx; exact hx
  | none =>
    rw [hd] at hx
    simp only [Option.none_or] at hx ⊢
    split at hx
    · cases hx
    · next hal =>
      rw [if_neg hal]
      obtain ⟨n, hn, rfl⟩ := Option.map_eq_some_iff.mp hx
      have hk := List.find?_some hn
      have hk := of_decide_eq_true hk
      subst hk
      rw [find?_used (hsub n (List.mem_of_find?_eq_some hn)) hu]
      rfl

theorem popPayees_agree {env : Env} {s : Shuf} {copy l1 l2 : NList PayeeDef}
    (hc : copy.Reachable env.lower) {names names' : List Str}
    (h1 : popPayees env s copy names copy = .ok l1) (h2 : popPayees env s copy names' copy = .ok l2)
    (hsub : ∀ a ∈ names, a ∈ names')
    (hu : ∀ a ∈ names', ∀ b ∈ names', env.lower a = env.lower b → a = b) {n : Str} (hn : n ∈ names) :
    AgreeAt env.lower l1 l2 n := by
  obtain ⟨a1, b1⟩ := popPayees_closed hc names hc (.refl _ _) h1
  obtain ⟨a2, b2⟩ := popPayees_closed hc names' hc (.refl _ _) h2
  have f1 := find?_used hn (fun a ha b hb => hu a (hsub a ha) b (hsub b hb))
  have f2 := find?_used (hsub n hn) hu
  have decl : ∀ z, (copy.list.get? z).isSome → l1.list.get? z = l2.list.get? z := by
    intro z hz
    obtain ⟨x, hx⟩ := Option.isSome_iff_exists.mp hz
    rw [a1, a2, hx]
    rfl
  refine agreeAt_of (by rw [a1, a2, f1, f2]) (by rw [b1, b2, f1, f2]) ?_
  intro z hz
  apply decl
  rw [b1] at hz
  cases hd : copy.aliases.get? (env.lower n) with
  | some y =>
    rw [hd] at hz
    cases hz
    exact (NList.Inv.reach hc).aliasOk _ _ hd
  | none =>
    rw [hd, f1] at hz
    simp only [Option.none_or, Option.bind_some] at hz
    split at hz
    · cases hz
    · obtain ⟨p, hp, rfl⟩ := Option.map_eq_some_iff.mp hz
      unfold findPattern at hp
      obtain ⟨x, hx, rfl⟩ := List.mem_map.mp (List.mem_of_find?_eq_some hp)
      have hx := (s.perm _).mem_iff.mp hx
      have i := NList.Inv.reach hc
      have hg := HMap.get?_of_mem i.nodupL hx
      have := i.named _ _ hg
      show (copy.list.get? (env.lower (Named.name x.2))).isSome = true
      rw [← this, hg]
      rfl

section
variable {env : Env} {o : LedgerOrders} {pl pl' : ParsedLedger} {more : List (Txn RawPosting)} {l l' : Lists}

theorem GoesOn.uses (g : GoesOn pl pl' more) :
    (∀ a, pl.usesAccount a → pl'.usesAccount a) ∧ (∀ a, pl.usesPayee a → pl'.usesPayee a) ∧
      ∀ a, pl.usesCommodity a → pl'.usesCommodity a := by
  have ht : ∀ t ∈ pl.transactions, t ∈ pl'.transactions := fun t h => by rw [g.transactions]; simp [h]
  refine ⟨?_, ?_, ?_⟩
  · rintro a ⟨t, h, p⟩; exact ⟨t, ht t h, p⟩
  · rintro a ⟨t, h, p⟩; exact ⟨t, ht t h, p⟩
  · rintro a (⟨t, h, p⟩ | ⟨p, h, q⟩)
    · exact Or.inl ⟨t, ht t h, p⟩
    · obtain ⟨ps, e⟩ := g.prices
      exact Or.inr ⟨p, by rw [e]; simp [h], q⟩

theorem GoesOn.orderFree (g : GoesOn pl pl' more) (hf : OrderFree env pl') : OrderFree env pl := by
  obtain ⟨u1, u2, u3⟩ := g.uses
  refine ⟨?_, ?_, ?_, ?_, ?_, ?_⟩
  · have := hf.noRules
    unfold ParsedLedger.automated at this ⊢
    rw [g.transactions, List.filter_append, List.append_eq_nil_iff] at this
    exact this.1
  · exact fun a b ha hb => hf.commodities a b (u3 a ha) (u3 b hb)
  · exact fun a b ha hb => hf.accounts a b (u1 a ha) (u1 b hb)
  · exact fun a b ha hb => hf.payees a b (u2 a ha) (u2 b hb)
  · intro n hn
    have := hf.patterns n (u2 n hn)
    rw [g.lists] at this
    exact this
  · intro n hn
    have := hf.takers n (by rw [g.lists]; exact hn.imp (u2 n) id)
    rw [g.lists] at this
    exact this

/-- The names of the shorter journal mean the same in the longer one. -/
theorem populate_agree (hok : pl.lists.Ok env.lower) (hf : OrderFree env pl') (g : GoesOn pl pl' more)
    (h : populate env o pl = .ok l) (h' : populate env o pl' = .ok l') :
    (∀ a, pl.usesAccount a → AgreeAt env.lower l.accounts l'.accounts a) ∧
    (∀ a, pl.usesPayee a → AgreeAt env.lower l.payees l'.payees a) ∧
    (∀ a, pl.usesCommodity a → AgreeAt env.lower l.commodities l'.commodities a) ∧
    ∀ k x, l.accounts.list.get? k = some x → l'.accounts.list.get? k = some x := by
  obtain ⟨c1, a1, p1⟩ := populate_inv h
  obtain ⟨c2, a2, p2⟩ := populate_inv h'
  rw [g.lists] at c2 a2 p2
  obtain ⟨u1, u2, u3⟩ := g.uses
  have sa : ∀ a ∈ o.accounts.run pl.accountStrs, a ∈ o.accounts.run pl'.accountStrs := fun a ha =>
    (o.accounts.perm _).mem_iff.mpr (mem_accountStrs.mpr (u1 a (mem_accountStrs.mp ((o.accounts.perm _).mem_iff.mp ha))))
  have ua : ∀ a ∈ o.accounts.run pl'.accountStrs, ∀ b ∈ o.accounts.run pl'.accountStrs, env.lower a = env.lower b → a = b :=
    fun a ha b hb => hf.accounts a b (mem_accountStrs.mp ((o.accounts.perm _).mem_iff.mp ha))
      (mem_accountStrs.mp ((o.accounts.perm _).mem_iff.mp hb))
  refine ⟨?_, ?_, ?_, ?_⟩
  · intro a ha
    exact ensureAll_agree (fun _ => rfl) (fun _ => rfl) hok.accounts a1 a2 sa ua
      ((o.accounts.perm _).mem_iff.mpr (mem_accountStrs.mpr ha))
  · intro a ha
    refine popPayees_agree hok.payees p1 p2 ?_ ?_ ((o.payees.perm _).mem_iff.mpr (mem_payeeStrs.mpr ha))
    · exact fun a ha => (o.payees.perm _).mem_iff.mpr (mem_payeeStrs.mpr (u2 a (mem_payeeStrs.mp ((o.payees.perm _).mem_iff.mp ha))))
    · exact fun a ha b hb => hf.payees a b (mem_payeeStrs.mp ((o.payees.perm _).mem_iff.mp ha))
        (mem_payeeStrs.mp ((o.payees.perm _).mem_iff.mp hb))
  · intro a ha
    refine ensureAll_agree (fun _ => rfl) (fun _ => rfl) hok.commodities c1 c2 ?_ ?_
      ((o.commodities.perm _).mem_iff.mpr (mem_commodityStrs.mpr ha))
    · exact fun a ha => (o.commodities.perm _).mem_iff.mpr
        (mem_commodityStrs.mpr (u3 a (mem_commodityStrs.mp ((o.commodities.perm _).mem_iff.mp ha))))
    · exact fun a ha b hb => hf.commodities a b (mem_commodityStrs.mp ((o.commodities.perm _).mem_iff.mp ha))
        (mem_commodityStrs.mp ((o.commodities.perm _).mem_iff.mp hb))
  · exact fun k x hx => ensureAll_keeps (fun _ => rfl) (fun _ => rfl) hok.accounts a1 a2 sa ua hx

/-! ### The transactions -/

theorem commodityNamed_agree {cs cs' : Commodities} {n : Str} (h : AgreeAt env.lower cs cs' n) :
    commodityNamed env cs n = commodityNamed env cs' n := by
  unfold commodityNamed
  unfold AgreeAt at h
  rw [h]

theorem rawMoney_agree {cs cs' : Commodities} {c : Option Str} (h : ∀ n, c = some n → AgreeAt env.lower cs cs' n)
    (a : Option Rat) : rawMoney env cs c a = rawMoney env cs' c a := by
  unfold rawMoney
  cases c with
  | none => rfl
  | some c => simp only [commodityNamed_agree (h c rfl)]

theorem rawCost_agree {cs cs' : Commodities} {p : RawPosting}
    (h : ∀ n, p.costCurrency = some n ∨ p.moneyCurrency = some n → AgreeAt env.lower cs cs' n) (d : Option Date)
    (a : Option Money) : rawCost env cs d p a = rawCost env cs' d p a := by
  unfold rawCost
  cases h1 : p.costCurrency with
  | none => rfl
  | some c =>
    cases h2 : p.moneyCurrency with
    | none => rfl
    | some m => simp only [commodityNamed_agree (h c (Or.inl h1)), commodityNamed_agree (h m (Or.inr h2))]

theorem directivePrices_agree {cs cs' : Commodities} (ps : List ParsedPrice)
    (h : ∀ p ∈ ps, AgreeAt env.lower cs cs' p.commodity ∧ AgreeAt env.lower cs cs' p.otherCommodity) :
    directivePrices env cs ps = directivePrices env cs' ps := by
  induction ps with
  | nil => rfl
  | cons p ps ih =>
    obtain ⟨h1, h2⟩ := h p (by simp)
    unfold directivePrices
    rw [commodityNamed_agree h1, commodityNamed_agree h2, ih (fun q hq => h q (by simp [hq]))]

theorem directivePrices_prefix {cs : Commodities} (ps qs : List ParsedPrice) {x : List Price}
    (h : directivePrices env cs (ps ++ qs) = .ok x) :
    ∃ y z, directivePrices env cs ps = .ok y ∧ x = y ++ z := by
  induction ps generalizing x with
  | nil => exact ⟨[], x, rfl, rfl⟩
  | cons p ps ih =>
    rw [List.cons_append] at h
    unfold directivePrices at h ⊢
    split at h
    · cases h
    split at h
    · cases h
    split at h
    · cases h
    rename_i hc _ _ hd _ rest hr
    cases h
    obtain ⟨y, z, h1, rfl⟩ := ih hr
    rw [h1]
    exact ⟨_, z, rfl, rfl⟩

theorem redirect_agree {s : Shuf} {payee : Str} (hok : pl.lists.Ok env.lower) (hf : OrderFree env pl)
    (hl : l.Ok env.lower) (hl' : l'.Ok env.lower) (g : GoesOn pl pl' more)
    (h : populate env o pl = .ok l) (h' : populate env o pl' = .ok l')
    (hk : ∀ k x, l.accounts.list.get? k = some x → l'.accounts.list.get? k = some x)
    (hp : pl.usesPayee payee ∨ ∃ e ∈ pl.lists.payees.list, e.2.name = payee) :
    redirect env s l.accounts payee = redirect env s l'.accounts payee := by
  have hok' : pl'.lists.Ok env.lower := by rw [g.lists]; exact hok
  have dec : ∀ z ∈ l.accounts.list, z.2.takes env payee → z ∈ pl.lists.accounts.list := by
    rintro z hz ⟨pat, hpat, tz⟩
    rcases (populate_elements hok h hl).1 z hz with h | h
    · exact h
    · rw [h] at hpat; cases hpat
  have dec' : ∀ z ∈ l'.accounts.list, z.2.takes env payee → z ∈ pl.lists.accounts.list := by
    rintro z hz ⟨pat, hpat, tz⟩
    rcases (populate_elements hok' h' hl').1 z hz with h | h
    · rw [g.lists] at h; exact h
    · rw [h] at hpat; cases hpat
  have up : ∀ z ∈ l.accounts.list, z ∈ l'.accounts.list := fun z hz =>
    (HMap.get?_eq_some_iff (NList.Inv.reach hl'.accounts).nodupL _ _).mp
      (hk _ _ (HMap.get?_of_mem (NList.Inv.reach hl.accounts).nodupL hz))
  have down : ∀ z ∈ pl.lists.accounts.list, z ∈ l.accounts.list := by
    intro z hz
    obtain ⟨_, a1, _⟩ := populate_inv h
    apply (HMap.get?_eq_some_iff (NList.Inv.reach hl.accounts).nodupL _ _).mp
    rw [(ensureAll_closed (fun _ => rfl) (fun _ => rfl) _ hok.accounts a1).2,
      HMap.get?_of_mem (NList.Inv.reach hok.accounts).nodupL hz]
    rfl
  rcases redirect_spec (env := env) (s := s) (accounts := l.accounts) (payee := payee) with
    ⟨h1, h2⟩ | ⟨k, x, h1, h2, h3⟩ <;>
  rcases redirect_spec (env := env) (s := s) (accounts := l'.accounts) (payee := payee) with
    ⟨g1, g2⟩ | ⟨j, y, g1, g2, g3⟩
  · rw [h1, g1]
  · exact absurd g2 (h2 (j, y) (down _ (dec' _ g1 g2)))
  · exact absurd h2 (g2 (k, x) (up _ h1))
  · rw [h3, g3]
    cases hf.takers payee hp (k, x) (dec _ h1 h2) (j, y) (dec' _ g1 g2) h2 g2
    rfl

theorem convertPosting_agree {s : Shuf} (hok : pl.lists.Ok env.lower) (hf : OrderFree env pl') (g : GoesOn pl pl' more)
    (h : populate env o pl = .ok l) (h' : populate env o pl' = .ok l') (hl : l.Ok env.lower) (hl' : l'.Ok env.lower)
    {t : Txn RawPosting} (ht : t ∈ pl.transactions) (tags : List Tag) {p : RawPosting} (hp : p ∈ t.postings)
    (hpay : p.payee.isSome) :
    convertPosting env s l t tags p = convertPosting env s l' t tags p := by
  obtain ⟨g1, g2, g3, g4⟩ := populate_agree hok hf g h h'
  obtain ⟨n, hn⟩ := Option.isSome_iff_exists.mp hpay
  have hpay : postingPayee env l.payees t.description p = postingPayee env l'.payees t.description p := by
    have := g2 n ⟨t, ht, p, hp, hn⟩
    unfold AgreeAt at this
    unfold postingPayee
    rw [hn]
    simp only [this]
  unfold convertPosting
  rw [← hpay]
  cases hx : postingPayee env l.payees t.description p with
  | error e => rfl
  | ok payee =>
    have hknown : pl.usesPayee payee ∨ ∃ e ∈ pl.lists.payees.list, e.2.name = payee := by
      unfold postingPayee at hx
      rw [hn] at hx
      simp only at hx
      split at hx
      · next x hx' =>
        cases hx
        obtain ⟨k, hk⟩ := get_mem hl.payees hx'
        rcases (populate_elements hok h hl).2 _ hk with h | h
        · exact Or.inr ⟨_, h, rfl⟩
        · exact Or.inl h
      · cases hx
    have hacc : postingAccount env s l.accounts p.account payee =
        postingAccount env s l'.accounts p.account payee := by
      have := g1 p.account ⟨t, ht, p, hp, rfl⟩
      unfold AgreeAt at this
      unfold postingAccount
      rw [redirect_agree hok (g.orderFree hf) hl hl' g h h' g4 hknown, this]
    have hcur : ∀ c, p.moneyCurrency = some c ∨ p.costCurrency = some c ∨ p.balanceCurrency = some c →
        AgreeAt env.lower l.commodities l'.commodities c := fun c hc => g3 c (Or.inl ⟨t, ht, p, hp, hc⟩)
    simp only
    rw [hacc, rawMoney_agree (fun c hc => hcur c (Or.inl hc)),
      rawMoney_agree (c := p.balanceCurrency) (fun c hc => hcur c (Or.inr (Or.inr hc)))]
    simp only [rawCost_agree (p := p) (fun c hc => hcur c (hc.elim (fun h => Or.inr (Or.inl h)) Or.inl))]

end

theorem convertAll_congr {env : Env} {s s' : Shuf} {l l' : Lists} (ts : List (Txn RawPosting))
    (h : ∀ t ∈ ts, t.ttype = .real → ∀ tags, ∀ p ∈ t.postings,
      convertPosting env s l t tags p = convertPosting env s' l' t tags p) :
    convertAll env s l ts = convertAll env s' l' ts := by
  have h1 : ∀ t tags ps, (∀ p ∈ ps, convertPosting env s l t tags p = convertPosting env s' l' t tags p) →
      convertPostings env s l t tags ps = convertPostings env s' l' t tags ps := by
    intro t tags ps
    induction ps with
    | nil => intro _; rfl
    | cons p ps ih =>
      intro hp
      unfold convertPostings
      rw [hp p (by simp), ih (fun q hq => hp q (by simp [hq]))]
  induction ts with
  | nil => rfl
  | cons t ts ih =>
    have ih := ih (fun u hu => h u (by simp [hu]))
    unfold convertAll
    cases htt : t.ttype with
    | real =>
      have h2 : convertTxn env s l t = convertTxn env s' l' t := by
        unfold convertTxn
        rw [h1 t _ _ (h t (by simp) htt _)]
      simp only [h2, ih]
    | automated => simp only [ih]
    | periodic => simp only [ih]

theorem convertAll_prefix {env : Env} {s : Shuf} {l : Lists} (ts us : List (Txn RawPosting))
    {txns : List (Txn Posting)} {autos : List (Txn RawPosting)} {prices : List Price}
    (h : convertAll env s l (ts ++ us) = .ok (txns, autos, prices)) :
    ∃ t1 a1 p1 t2 a2 p2, convertAll env s l ts = .ok (t1, a1, p1) ∧ convertAll env s l us = .ok (t2, a2, p2) ∧
      txns = t1 ++ t2 ∧ autos = a1 ++ a2 ∧ prices = p1 ++ p2 := by
  induction ts generalizing txns autos prices with
  | nil => exact ⟨[], [], [], _, _, _, rfl, h, rfl, rfl, rfl⟩
  | cons t ts ih =>
    rw [List.cons_append] at h
    unfold convertAll at h
    cases htt : t.ttype with
    | real =>
      rw [htt] at h
      simp only at h
      split at h
      · cases h
      split at h
      · cases h
      rename_i t' prs hc _ x y z hr
      cases h
      obtain ⟨t1, a1, p1, t2, a2, p2, e1, e2, rfl, rfl, rfl⟩ := ih hr
      refine ⟨t' :: t1, a1, prs ++ p1, t2, a2, p2, ?_, e2, rfl, rfl, by simp⟩
      unfold convertAll
      rw [htt]
      simp only [hc, e1]
    | automated =>
      rw [htt] at h
      simp only at h
      split at h
      · cases h
      next x y z hr =>
      cases h
      obtain ⟨t1, a1, p1, t2, a2, p2, e1, e2, rfl, rfl, rfl⟩ := ih hr
      refine ⟨t1, t :: a1, p1, t2, a2, p2, ?_, e2, rfl, rfl, rfl⟩
      unfold convertAll
      rw [htt]
      simp only [e1]
    | periodic =>
      rw [htt] at h
      simp only at h
      obtain ⟨t1, a1, p1, t2, a2, p2, e1, e2, rfl, rfl, rfl⟩ := ih h
      refine ⟨t1, a1, p1, t2, a2, p2, ?_, e2, rfl, rfl, rfl⟩
      unfold convertAll
      rw [htt]
      exact e1

/-! ### The order -/

theorem insertSorted_append {α : Type} {le : α → α → Bool} {a : α} (x y : List α) (h : ∀ b ∈ y, le a b = true) :
    insertSorted le a (x ++ y) = insertSorted le a x ++ y := by
  induction x with
  | nil =>
    cases y with
    | nil => rfl
    | cons b y =>
      show insertSorted le a (b :: y) = a :: b :: y
      unfold insertSorted
      rw [if_pos (h b (by simp))]
  | cons b x ih =>
    show insertSorted le a (b :: (x ++ y)) = insertSorted le a (b :: x) ++ y
    unfold insertSorted
    split
    · rfl
    · rw [ih]; rfl

theorem sortBy_append {α : Type} {le : α → α → Bool} (x y : List α) (h : ∀ a ∈ x, ∀ b ∈ y, le a b = true) :
    sortBy le (x ++ y) = sortBy le x ++ sortBy le y := by
  induction x with
  | nil => rfl
  | cons a x ih =>
    show insertSorted le a (sortBy le (x ++ y)) = insertSorted le a (sortBy le x) ++ sortBy le y
    rw [ih (fun b hb => h b (by simp [hb])), insertSorted_append]
    intro b hb
    exact h a (by simp) b ((mem_sortBy _ _ _).mp hb)

/-! ### The balances -/

/-- All that is in the first is in the second. -/
def Wider (x y : Balances) : Prop := ∀ a b, x.get? a = some b → y.get? a = some b

theorem Wider.insert {x y : Balances} (h : Wider x y) (a : Str) (b : Balance) :
    Wider (x.insert a b) (y.insert a b) := by
  intro k c hc
  rw [HMap.get?_insert] at hc ⊢
  split at hc
  · next e => rw [if_pos e]; exact hc
  · next e => rw [if_neg e]; exact h k c hc

theorem balanceStep_wider {skip : Bool} {st st1 : LoopSt} {y : Balances} (hw : Wider st.balances y) {p : Posting}
    (h : balanceStep skip st p = .ok st1) :
    ∃ y1, balanceStep skip { st with balances := y } p = .ok { st1 with balances := y1 } ∧ Wider st1.balances y1 := by
  unfold balanceStep at h ⊢
  by_cases hk : p.kind ≠ .real
  · rw [if_pos hk] at h ⊢; cases h; exact ⟨y, rfl, hw⟩
  rw [if_neg hk] at h ⊢
  cases hm : p.amount with
  | some money =>
    rw [hm] at h
    simp only at h ⊢
    split at h
    · cases h
    next had hh =>
    rw [hw _ _ hh]
    simp only
    split at h
    · cases h
    next ha =>
    rw [if_neg ha]
    split at h
    · cases h
    next w hw' =>
    cases h
    exact ⟨_, rfl, hw.insert _ _⟩
  | none =>
    rw [hm] at h
    cases hb : p.balance with
    | none =>
      rw [hb] at h
      simp only at h ⊢
      cases h
      exact ⟨y, rfl, hw⟩
    | some b =>
      rw [hb] at h
      cases skip with
      | true =>
        simp only at h ⊢
        cases h
        exact ⟨y, rfl, hw⟩
      | false =>
        simp only at h ⊢
        split at h
        · cases h
        next had hh =>
        rw [hw _ _ hh]
        simp only
        split at h
        · cases h
        next money hmo =>
        cases h
        exact ⟨_, rfl, hw.insert _ _⟩

theorem balanceLoop_wider {skip : Bool} (ps : List Posting) {st st1 : LoopSt} {y : Balances} (hw : Wider st.balances y)
    (h : balanceLoop skip ps st = .ok st1) :
    ∃ y1, balanceLoop skip ps { st with balances := y } = .ok { st1 with balances := y1 } ∧ Wider st1.balances y1 := by
  induction ps generalizing st y with
  | nil => cases h; exact ⟨y, rfl, hw⟩
  | cons p ps ih =>
    unfold balanceLoop at h ⊢
    split at h
    · cases h
    next st' hs =>
    obtain ⟨y1, e1, e2⟩ := balanceStep_wider hw hs
    rw [e1]
    exact ih e2 h

theorem fillLoop_wider {t : Txn Posting} {acc : Str} {pay : Option Str} (ms : List Money) {x y x1 : Balances}
    {out out1 : List Posting} (hw : Wider x y) (h : fillLoop t acc pay ms x out = .ok (x1, out1)) :
    ∃ y1, fillLoop t acc pay ms y out = .ok (y1, out1) ∧ Wider x1 y1 := by
  induction ms generalizing x y out with
  | nil => cases h; exact ⟨y, rfl, hw⟩
  | cons m ms ih =>
    unfold fillLoop at h ⊢
    split at h
    · cases h
    next had hh =>
    rw [hw _ _ hh]
    exact ih (hw.insert _ _) h

theorem balance_wider {s : Shuf} {skip : Bool} {x y x1 : Balances} {t t1 : Txn Posting} {ret : Balance} (hw : Wider x y)
    (h : Txn.balance s skip x t = .ok (x1, t1, ret)) :
    ∃ y1, Txn.balance s skip y t = .ok (y1, t1, ret) ∧ Wider x1 y1 := by
  unfold Txn.balance at h ⊢
  split at h
  · cases h
  next vb hv =>
  split at h
  · cases h
  next hz =>
  rw [if_neg hz]
  split at h
  · cases h
  next st hst =>
  obtain ⟨y1, e1, e2⟩ := balanceLoop_wider (y := y) t.postings hw hst
  rw [e1]
  simp only at h ⊢
  split at h
  · cases h
  next h1 =>
  rw [if_neg h1]
  split at h
  · next h2 =>
    rw [if_pos h2]
    split at h
    · next h3 => rw [if_pos h3]; cases h; exact ⟨y1, rfl, e2⟩
    · cases h
  · next h2 =>
    rw [if_neg h2]
    split at h
    · cases h
    next b o hf =>
    cases h
    obtain ⟨y2, e3, e4⟩ := fillLoop_wider _ e2 hf
    rw [e3]
    exact ⟨y2, rfl, e4⟩

theorem balancePass_wider {skip : Bool} (ts : List (Txn Posting)) {σ ρ : Nat → Shuf} {x y : Balances}
    {r : List (Txn Posting) × List Price} (hw : Wider x y) (h : balancePass skip σ ρ x ts = .ok r) :
    balancePass skip σ ρ y ts = .ok r := by
  induction ts generalizing σ ρ x y r with
  | nil => cases h; rfl
  | cons t ts ih =>
    unfold balancePass at h ⊢
    split at h
    · cases h
    next d hd =>
    split at h
    · cases h
    next b t1 ret hb =>
    obtain ⟨y1, e1, e2⟩ := balance_wider hw hb
    rw [e1]
    simp only
    split at h
    · cases h
    next pr hpr =>
    split at h
    · cases h
    next ts' prs hts =>
    cases h
    rw [ih e2 hts]

theorem balancePass_prefix {skip : Bool} (ts us : List (Txn Posting)) {σ ρ : Nat → Shuf} {x : Balances}
    {xs : List (Txn Posting)} {prs : List Price} (h : balancePass skip σ ρ x (ts ++ us) = .ok (xs, prs)) :
    ∃ x1 p1 x2 p2, balancePass skip σ ρ x ts = .ok (x1, p1) ∧ xs = x1 ++ x2 ∧ prs = p1 ++ p2 := by
  induction ts generalizing σ ρ x xs prs with
  | nil => exact ⟨[], [], xs, prs, rfl, rfl, rfl⟩
  | cons t ts ih =>
    rw [List.cons_append] at h
    unfold balancePass at h ⊢
    split at h
    · cases h
    next d hd =>
    split at h
    · cases h
    next b t1 ret hb =>
    split at h
    · cases h
    next pr hpr =>
    split at h
    · cases h
    next ts' prs hts =>
    cases h
    obtain ⟨x1, p1, x2, p2, e1, rfl, rfl⟩ := ih hts
    rw [e1]
    exact ⟨_, _, x2, p2, rfl, rfl, by simp⟩

theorem initialBalances_wider {lower : Str → Str} {l l' : NList AccountDef} (hr : l.Reachable lower)
    (hr' : l'.Reachable lower) (h : ∀ k x, l.list.get? k = some x → l'.list.get? k = some x) :
    Wider (initialBalances l) (initialBalances l') := by
  intro a b hb
  have hd : ((initialBalances l).get? a).isSome = true := by rw [hb]; rfl
  rw [initialBalances_dom] at hd
  obtain ⟨e, he, hn⟩ := hd
  have he' : e ∈ l'.list := (HMap.get?_eq_some_iff (NList.Inv.reach hr').nodupL _ _).mp
    (h _ _ (HMap.get?_of_mem (NList.Inv.reach hr).nodupL he))
  obtain ⟨c, hc⟩ := Option.isSome_iff_exists.mp ((initialBalances_dom l' a).mpr ⟨e, he', hn⟩)
  rw [hc, (initialBalances_get l').2 a c hc, (initialBalances_get l).2 a b hb]

/-! ### The ledger -/

/-- With the same hash orders the ledger of the longer journal starts with that of the shorter one. -/
theorem toLedger_goesOn {env : Env} {o : LedgerOrders} {skip : Bool} {pl pl' : ParsedLedger}
    {more : List (Txn RawPosting)} {L' : Ledger} (hok : pl.Ok env.lower) (hf : OrderFree env pl')
    (g : GoesOn pl pl' more) (hlater : Later pl.transactions more) (h : toLedger env o skip pl' = .ok L') :
    ∃ L rest, toLedger env o skip pl = .ok L ∧ L'.transactions = L.transactions ++ rest := by
  obtain ⟨l', hl', hb⟩ := toLedger_inv h
  have hok' : pl'.lists.Ok env.lower := by rw [g.lists]; exact hok.lists
  obtain ⟨l0, e0, hp', _⟩ := populate_spec (o := o) hok'
  rw [hl'] at e0; cases e0
  obtain ⟨l, hl, hp, _⟩ := populate_spec (o := o) hok.lists
  obtain ⟨_, _, g3, g4⟩ := populate_agree hok.lists hf g hl hl'
  obtain ⟨dp, txns, autos, cp, sorted, ts, ip, ts', ap, l2, h1, h2, h3, h4, h5, h6⟩ := buildLedger_inv hb
  have hautos : autos = [] := by
    rw [(convertAll_spec _ h2).1]
    exact hf.noRules
  subst hautos
  rw [g.transactions] at h2
  obtain ⟨t1, a1, p1, t2, a2, p2, c1, c2, rfl, ha, rfl⟩ := convertAll_prefix _ _ h2
  obtain ⟨rfl, rfl⟩ := List.append_eq_nil_iff.mp ha.symm
  have hconv : convertAll env o.unknown l pl.transactions = .ok (t1, [], p1) := by
    rw [← c1]
    refine convertAll_congr _ (fun t ht hr tags p hpm => ?_)
    exact convertPosting_agree hok.lists hf g hl hl' hp.ok hp'.ok ht tags hpm
      (hok.postings t (List.mem_filter.mpr ⟨ht, by simpa using hr⟩) p hpm).payee
  have hraw : ∀ (l : Lists) ts txns as ps, convertAll env o.unknown l ts = .ok (txns, as, ps) →
      ∀ t ∈ txns, ∃ raw ∈ ts, t.date = raw.date ∧ ∀ q ∈ t.postings, q.CostOk ∧
        ∃ k x, (k, x) ∈ l.accounts.list ∧ x.name = q.account := by
    intro l ts txns as ps hc t ht
    obtain ⟨_, rs, hrs, rfl, _⟩ := convertAll_spec _ hc
    obtain ⟨r, hr, rfl⟩ := List.mem_map.mp ht
    obtain ⟨raw, hm, hcv⟩ := Forall₂.mem_right hrs hr
    have hcv' : convertTxn env o.unknown l raw = .ok (r.1, r.2) := hcv
    refine ⟨raw, (List.mem_filter.mp hm).1, ?_, convertTxn_costOk hcv'⟩
    obtain ⟨_, _, hh, _⟩ := convertTxn_inv hcv'
    exact congrArg Prod.fst hh
  obtain ⟨hd, rfl⟩ := sortByDate_inv h3
  have hle : ∀ a ∈ t1, ∀ b ∈ t2, dateLe a b = true := by
    intro a ha b hb
    obtain ⟨x, hx, ex, _⟩ := hraw _ _ _ _ _ c1 a ha
    obtain ⟨y, hy, ey, _⟩ := hraw _ _ _ _ _ c2 b hb
    obtain ⟨d, hda⟩ := Option.isSome_iff_exists.mp (hd a (by simp [ha]))
    obtain ⟨e, heb⟩ := Option.isSome_iff_exists.mp (hd b (by simp [hb]))
    unfold dateLe
    rw [hda, heb]
    exact decide_eq_true (hlater x hx y hy d e (ex ▸ hda) (ey ▸ heb))
  rw [sortBy_append _ _ hle] at h4
  obtain ⟨x1, q1, x2, q2, b1, rfl, rfl⟩ := balancePass_prefix _ _ h4
  have hd1 : ∀ t ∈ sortBy dateLe t1, t.date.isSome := fun t ht => hd t (by simp [(mem_sortBy _ _ _).mp ht])
  have k1 : ∀ t ∈ sortBy dateLe t1, ∀ p ∈ t.postings, p.CostOk ∧ ((initialBalances l.accounts).get? p.account).isSome := by
    intro t ht p hpm
    obtain ⟨_, _, _, h⟩ := hraw _ _ _ _ _ hconv t ((mem_sortBy _ _ _).mp ht)
    obtain ⟨h, k, x, hx, hn⟩ := h p hpm
    exact ⟨h, (initialBalances_dom _ _).mpr ⟨(k, x), hx, hn⟩⟩
  have k2 : ∀ t ∈ sortBy dateLe t1, ∀ p ∈ t.postings, p.CostOk ∧ ((initialBalances l'.accounts).get? p.account).isSome := by
    intro t ht p hpm
    obtain ⟨_, _, _, h⟩ := hraw _ _ _ _ _ c1 t ((mem_sortBy _ _ _).mp ht)
    obtain ⟨h, k, x, hx, hn⟩ := h p hpm
    exact ⟨h, (initialBalances_dom _ _).mpr ⟨(k, x), hx, hn⟩⟩
  obtain ⟨r, hr⟩ := (balancePass_iff (σ := o.fill) (ρ := o.rate) _ (initialBalances_ok l.accounts) hd1
    (fun t ht p hp => (k1 t ht p hp).1)).mpr
    ((balanceAll_iff_books k1).mpr ((balanceAll_iff_books (σ := o.fill) k2).mp
      ((balancePass_iff (ρ := o.rate) _ (initialBalances_ok l'.accounts) hd1 (fun t ht p hp => (k2 t ht p hp).1)).mp ⟨_, b1⟩)))
  have hw := balancePass_wider _ (initialBalances_wider hp.ok.accounts hp'.ok.accounts g4) hr
  rw [b1] at hw
  cases hw
  obtain ⟨ps, eps⟩ := g.prices
  rw [eps] at h1
  obtain ⟨dp1, dp2, d1, _⟩ := directivePrices_prefix _ _ h1
  rw [← directivePrices_agree (cs := l.commodities)] at d1
  · cases h5
    refine ⟨{ accounts := l.accounts, commodities := l.commodities, transactions := x1,
              prices := dp1 ++ p1 ++ q1 ++ [], payees := l.payees }, x2, ?_, ?_⟩
    · unfold toLedger
      rw [hl]
      simp only
      unfold buildLedger
      rw [d1, hconv]
      simp only
      have : sortByDate t1 = .ok (sortBy dateLe t1) := by
        unfold sortByDate
        rw [if_neg]
        · rfl
        · rw [List.any_eq_true]
          rintro ⟨t, ht, hn⟩
          have := hd t (by simp [ht])
          rw [Option.isNone_iff_eq_none.mp hn] at this
          cases this
      rw [this]
      simp only
      rw [hr]
      rfl
    · subst h6
      rfl
  · intro p hpm
    exact ⟨g3 _ (Or.inr ⟨p, hpm, Or.inl rfl⟩), g3 _ (Or.inr ⟨p, hpm, Or.inr rfl⟩)⟩

end Dinero
