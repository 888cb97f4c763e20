import Verif.Spec.Price
import Verif.Lemmas.HMap
import Verif.Lemmas.Sort
import Verif.Lemmas.Balance
import Mathlib.Tactic.Ring
import Mathlib.Tactic.Linarith
import Mathlib.Tactic.FieldSimp
/- The shortest-path search of `conversion`. -/
namespace Dinero

/-! ### The prices kept -/

theorem pair_eq_iff (p q : Price) : p.pair = q.pair ↔ SamePair p q := by
  unfold Price.pair SamePair
  have tri : ∀ a b : Str, ¬ a < b → ¬ b < a → a = b := by
    intro a b h1 h2
    exact List.le_antisymm (by simpa [List.not_lt] using h2) (by simpa [List.not_lt] using h1)
  have asym : ∀ a b : Str, a < b → ¬ b < a := fun a b h => List.lt_asymm h
  split <;> split
  · next h1 h2 => simp only [Prod.mk.injEq]
                  constructor
                  · rintro ⟨a, b⟩; exact Or.inl ⟨b, a⟩
                  · rintro (⟨a, b⟩ | ⟨a, b⟩)
                    · exact ⟨b, a⟩
                    · rw [a, b] at h1; exact absurd h1 (asym _ _ h2)
  · next h1 h2 => simp only [Prod.mk.injEq]
                  constructor
                  · rintro ⟨a, b⟩; exact Or.inr ⟨b, a⟩
                  · rintro (⟨a, b⟩ | ⟨a, b⟩)
                    · rw [a, b] at h1; exact absurd h1 h2
                    · exact ⟨b, a⟩
  · next h1 h2 => simp only [Prod.mk.injEq]
                  constructor
                  · rintro ⟨a, b⟩; exact Or.inr ⟨a, b⟩
                  · rintro (⟨a, b⟩ | ⟨a, b⟩)
                    · rw [a, b] at h1; exact absurd h2 h1
                    · exact ⟨a, b⟩
  · next h1 h2 => simp only [Prod.mk.injEq]
                  constructor
                  · rintro ⟨a, b⟩; exact Or.inl ⟨a, b⟩
                  · rintro (⟨a, b⟩ | ⟨a, b⟩)
                    · exact ⟨a, b⟩
                    · rw [a, b] at h1
                      have := tri _ _ h1 h2
                      rw [a, b]; exact ⟨this.symm, this⟩

/-- What `prices_nodup` holds after the prices `l`. -/
structure NodupInv (l : List Price) (date : Date) (m : HMap (Cur × Cur) Price) : Prop where
  nodup : m.keys.Nodup
  sound : ∀ k p, m.get? k = some p → p.pair = k ∧ p ∈ l ∧ p.date ≤ date ∧
    ∀ q ∈ l, q.date ≤ date → q.pair = k → q.date ≤ p.date
  complete : ∀ q ∈ l, q.date ≤ date → ∃ p, m.get? q.pair = some p

theorem nodupInv_step {l : List Price} {date : Date} {m : HMap (Cur × Cur) Price}
    (h : NodupInv l date m) (p : Price) : NodupInv (l ++ [p]) date (nodupStep date m p) := by
  unfold nodupStep
  split
  · next hd =>
    refine ⟨h.nodup, fun k q hq => ?_, fun q hq hqd => ?_⟩
    · obtain ⟨a, b, c, d⟩ := h.sound k q hq
      refine ⟨a, by simp [b], c, fun r hr hrd hk => ?_⟩
      rcases List.mem_append.mp hr with hr | hr
      · exact d r hr hrd hk
      · simp only [List.mem_singleton] at hr; subst hr; omega
    · rcases List.mem_append.mp hq with hr | hr
      · exact h.complete q hr hqd
      · simp only [List.mem_singleton] at hr; subst hr; omega
  · next hd =>
    have hpd : p.date ≤ date := by omega
    have key : ∀ (hb : ∀ q ∈ l, q.date ≤ date → q.pair = p.pair → q.date ≤ p.date),
        NodupInv (l ++ [p]) date (m.insert p.pair p) := by
      intro hb
      refine ⟨HMap.nodup_keys_insert _ _ _ h.nodup, fun k q hq => ?_, fun q hq hqd => ?_⟩
      · rw [HMap.get?_insert] at hq
        split at hq
        · next hk =>
          cases hq
          refine ⟨hk, by simp, hpd, fun r hr hrd hrk => ?_⟩
          rcases List.mem_append.mp hr with hr | hr
          · exact hb r hr hrd (hrk.trans hk.symm)
          · simp only [List.mem_singleton] at hr; subst hr; exact le_refl _
        · next hk =>
          obtain ⟨a, b, c, d⟩ := h.sound k q hq
          refine ⟨a, by simp [b], c, fun r hr hrd hrk => ?_⟩
          rcases List.mem_append.mp hr with hr | hr
          · exact d r hr hrd hrk
          · simp only [List.mem_singleton] at hr; subst hr; exact absurd hrk hk
      · rw [HMap.get?_insert]
        split
        · exact ⟨p, rfl⟩
        · next hk =>
          rcases List.mem_append.mp hq with hr | hr
          · exact h.complete q hr hqd
          · simp only [List.mem_singleton] at hr; subst hr; exact absurd rfl hk
    split
    · next hn =>
      apply key
      intro q hq hqd hqk
      obtain ⟨x, hx⟩ := h.complete q hq hqd
      rw [hqk, hn] at hx; cases hx
    · next x hx =>
      obtain ⟨a, b, c, d⟩ := h.sound _ x hx
      split
      · next hlt =>
        apply key
        intro q hq hqd hqk
        have := d q hq hqd hqk
        omega
      · next hlt =>
        refine ⟨h.nodup, fun k q hq => ?_, fun q hq hqd => ?_⟩
        · obtain ⟨a', b', c', d'⟩ := h.sound k q hq
          refine ⟨a', by simp [b'], c', fun r hr hrd hrk => ?_⟩
          rcases List.mem_append.mp hr with hr | hr
          · exact d' r hr hrd hrk
          · simp only [List.mem_singleton] at hr; subst hr
            rw [← hrk, hx] at hq; cases hq; omega
        · rcases List.mem_append.mp hq with hr | hr
          · exact h.complete q hr hqd
          · simp only [List.mem_singleton] at hr; subst hr; exact ⟨x, hx⟩

theorem nodupInv_foldl {l l' : List Price} {date : Date} {m : HMap (Cur × Cur) Price}
    (h : NodupInv l date m) : NodupInv (l ++ l') date (l'.foldl (nodupStep date) m) := by
  induction l' generalizing l m with
  | nil => simpa using h
  | cons p l' ih =>
    have := ih (nodupInv_step h p)
    simpa using this

theorem nodupInv (prices : List Price) (date : Date) :
    NodupInv prices date (pricesNodup prices date) := by
  have : NodupInv [] date [] := ⟨by simp, by simp, by simp⟩
  have := nodupInv_foldl (l' := prices) this
  simpa [pricesNodup] using this

/-- Every price kept is usable. -/
theorem usable_of_mem_nodup {prices : List Price} {date : Date} {p : Price}
    (h : p ∈ (pricesNodup prices date).map Prod.snd) : Usable prices date p := by
  obtain ⟨⟨k, q⟩, he, rfl⟩ := List.mem_map.mp h
  have inv := nodupInv prices date
  obtain ⟨a, b, c, d⟩ := inv.sound k q (HMap.get?_of_mem inv.nodup he)
  exact ⟨b, c, fun r hr hrd hs => d r hr hrd (by
    rw [← a]; exact ((pair_eq_iff q r).mpr hs).symm)⟩

/-- For every usable price a price of the same pair and date is kept. -/
theorem exists_kept {prices : List Price} {date : Date} {p : Price} (h : Usable prices date p) :
    ∃ q ∈ (pricesNodup prices date).map Prod.snd, SamePair p q ∧ q.date = p.date := by
  have inv := nodupInv prices date
  obtain ⟨q, hq⟩ := inv.complete p h.mem h.known
  obtain ⟨a, b, c, d⟩ := inv.sound _ q hq
  refine ⟨q, List.mem_map.mpr ⟨_, HMap.mem_of_get? hq, rfl⟩, (pair_eq_iff p q).mp a.symm, ?_⟩
  have h1 := h.latest q b c ((pair_eq_iff p q).mp a.symm)
  have h2 := d p h.mem h.known rfl
  omega

/-! ### The graph -/

theorem mem_currencyDates (source : Node) (ps : List Price) (n : Node) :
    n ∈ currencyDates source ps ↔
      n = source ∨ ∃ p ∈ ps, n = ⟨p.commodity, p.date⟩ ∨ n = ⟨p.cur, p.date⟩ := by
  have hpair : ∀ (p : Price) (n : Node), (n = ⟨p.pair.1, p.date⟩ ∨ n = ⟨p.pair.2, p.date⟩) ↔
      (n = ⟨p.commodity, p.date⟩ ∨ n = ⟨p.cur, p.date⟩) := by
    intro p n; unfold Price.pair; split
    · exact or_comm
    · exact Iff.rfl
  have gen : ∀ (s : List Node), n ∈ ps.foldl (fun s p =>
      setInsert (setInsert s ⟨p.pair.1, p.date⟩) ⟨p.pair.2, p.date⟩) s ↔
      n ∈ s ∨ ∃ p ∈ ps, n = ⟨p.commodity, p.date⟩ ∨ n = ⟨p.cur, p.date⟩ := by
    intro s
    induction ps generalizing s with
    | nil => simp
    | cons p ps ih =>
      rw [List.foldl_cons, ih, mem_setInsert, mem_setInsert]
      simp only [List.mem_cons, exists_eq_or_imp]
      rw [← hpair p n]
      simp only [or_assoc, or_comm]
  unfold currencyDates
  rw [gen]; simp

theorem mem_sameCurEdges (l : List Node) (e : Edge) (h : e ∈ sameCurEdges l) :
    e.price = none ∧ e.src.cur = e.dst.cur ∧ e.src ∈ l ∧ e.dst ∈ l := by
  induction l with
  | nil => simp [sameCurEdges] at h
  | cons n l ih =>
    unfold sameCurEdges at h
    rcases List.mem_append.mp h with h | h
    · obtain ⟨m, hm, rfl⟩ := List.mem_map.mp h
      obtain ⟨h1, h2⟩ := List.mem_filter.mp hm
      exact ⟨rfl, by simpa using h2, by simp, h1⟩
    · obtain ⟨a, b, c, d⟩ := ih h
      exact ⟨a, b, List.mem_cons_of_mem _ c, List.mem_cons_of_mem _ d⟩

theorem exists_sameCurEdge {l : List Node} {a b : Node} (ha : a ∈ l) (hb : b ∈ l)
    (h : a.cur = b.cur) : (⟨none, a, b⟩ : Edge) ∈ sameCurEdges l ∨ ⟨none, b, a⟩ ∈ sameCurEdges l := by
  induction l with
  | nil => simp at ha
  | cons n l ih =>
    have e : sameCurEdges (n :: l) = ((n :: l).filter (fun m => n.cur = m.cur)).map
      (fun m => ⟨none, n, m⟩) ++ sameCurEdges l := rfl
    rw [e]
    rcases List.mem_cons.mp ha with rfl | ha'
    · left; apply List.mem_append_left
      exact List.mem_map.mpr ⟨b, List.mem_filter.mpr ⟨hb, by simpa using h⟩, rfl⟩
    · rcases List.mem_cons.mp hb with rfl | hb'
      · right; apply List.mem_append_left
        exact List.mem_map.mpr ⟨a, List.mem_filter.mpr ⟨ha, by simpa using h.symm⟩, rfl⟩
      · rcases ih ha' hb' with h | h
        · left; exact List.mem_append_right _ h
        · right; exact List.mem_append_right _ h

/-- `e` joins `v` and `u`. -/
def Joins (e : Edge) (v u : Node) : Prop := (e.src = v ∧ e.dst = u) ∨ (e.dst = v ∧ e.src = u)

theorem mem_neighbours (g : Graph) (v u : Node) (e : Edge) (h : (u, e) ∈ g.neighbours v) :
    e ∈ g.edges ∧ Joins e v u := by
  unfold Graph.neighbours at h
  obtain ⟨e', he', h⟩ := List.mem_filterMap.mp h
  split at h
  · next h1 => cases h; exact ⟨he', Or.inl ⟨h1, rfl⟩⟩
  · split at h
    · next h1 h2 => cases h; exact ⟨he', Or.inr ⟨h2, rfl⟩⟩
    · cases h

theorem neighbours_of_joins (g : Graph) (v u : Node) (e : Edge) (he : e ∈ g.edges)
    (h : Joins e v u) : (u, e) ∈ g.neighbours v := by
  unfold Graph.neighbours
  refine List.mem_filterMap.mpr ⟨e, he, ?_⟩
  rcases h with ⟨h1, h2⟩ | ⟨h1, h2⟩
  · simp [h1, h2]
  · by_cases h3 : e.src = v
    · have huv : u = v := h2.symm.trans h3
      simp [h3, h1, huv]
    · rw [if_neg h3, if_pos h1, h2]

theorem Edge.length_spec (e : Edge) {v u : Node} (h : Joins e v u) :
    0 ≤ e.length ∧ v.date - u.date ≤ e.length := by
  unfold Edge.length
  rcases h with ⟨rfl, rfl⟩ | ⟨rfl, rfl⟩ <;> split <;> omega

/-- What the search needs to know about the graph. -/
structure GraphOk (prices : List Price) (date : Date) (target : Cur) (g : Graph) : Prop where
  ends : ∀ e ∈ g.edges, e.src ∈ g.nodes ∧ e.dst ∈ g.nodes
  kind : ∀ e ∈ g.edges, (e.price = none ∧ e.src.cur = e.dst.cur) ∨
    ∃ p, Usable prices date p ∧ e = ⟨some p, ⟨p.commodity, p.date⟩, ⟨p.cur, p.date⟩⟩
  source : (⟨target, date⟩ : Node) ∈ g.nodes
  same : ∀ a b, a ∈ g.nodes → b ∈ g.nodes → a.cur = b.cur → ∃ e ∈ g.edges, Joins e a b
  kept : ∀ p, Usable prices date p → ∃ e ∈ g.edges,
    (e.src = ⟨p.commodity, p.date⟩ ∧ e.dst = ⟨p.cur, p.date⟩) ∨
    (e.dst = ⟨p.commodity, p.date⟩ ∧ e.src = ⟨p.cur, p.date⟩)

theorem graphOk (sP sN : Shuf) (prices : List Price) (date : Date) (target : Cur) :
    GraphOk prices date target (Graph.fromPrices sP sN prices ⟨target, date⟩) := by
  have hps : ∀ p, p ∈ (sP.run (pricesNodup prices date)).map Prod.snd ↔
      p ∈ (pricesNodup prices date).map Prod.snd := fun p => ((sP.perm _).map _).mem_iff
  have hn : ∀ n, n ∈ (Graph.fromPrices sP sN prices ⟨target, date⟩).nodes ↔
      n = ⟨target, date⟩ ∨ ∃ p ∈ (pricesNodup prices date).map Prod.snd,
        n = ⟨p.commodity, p.date⟩ ∨ n = ⟨p.cur, p.date⟩ := by
    intro n
    show n ∈ sN.run _ ↔ _
    rw [(sN.perm _).mem_iff, mem_currencyDates]
    simp only [hps]
  have he : ∀ e, e ∈ (Graph.fromPrices sP sN prices ⟨target, date⟩).edges ↔
      e ∈ priceEdges ((sP.run (pricesNodup prices date)).map Prod.snd) ∨
        e ∈ sameCurEdges (Graph.fromPrices sP sN prices ⟨target, date⟩).nodes := by
    intro e; exact List.mem_append
  have hpe : ∀ e, e ∈ priceEdges ((sP.run (pricesNodup prices date)).map Prod.snd) ↔
      ∃ p ∈ (pricesNodup prices date).map Prod.snd,
        (⟨some p, ⟨p.commodity, p.date⟩, ⟨p.cur, p.date⟩⟩ : Edge) = e := by
    intro e; unfold priceEdges; rw [List.mem_map]; simp only [hps]
  refine ⟨fun e h => ?_, fun e h => ?_, (hn _).mpr (Or.inl rfl), fun a b ha hb hab => ?_,
    fun p hp => ?_⟩
  · rcases (he e).mp h with h | h
    · obtain ⟨p, hp, rfl⟩ := (hpe e).mp h
      exact ⟨(hn _).mpr (Or.inr ⟨p, hp, Or.inl rfl⟩), (hn _).mpr (Or.inr ⟨p, hp, Or.inr rfl⟩)⟩
    · exact (mem_sameCurEdges _ e h).2.2
  · rcases (he e).mp h with h | h
    · obtain ⟨p, hp, rfl⟩ := (hpe e).mp h
      exact Or.inr ⟨p, usable_of_mem_nodup hp, rfl⟩
    · have := mem_sameCurEdges _ e h
      exact Or.inl ⟨this.1, this.2.1⟩
  · rcases exists_sameCurEdge ha hb hab with h | h
    · exact ⟨_, (he _).mpr (Or.inr h), Or.inl ⟨rfl, rfl⟩⟩
    · exact ⟨_, (he _).mpr (Or.inr h), Or.inr ⟨rfl, rfl⟩⟩
  · obtain ⟨q, hq, hs, hd⟩ := exists_kept hp
    refine ⟨_, (he _).mpr (Or.inl ((hpe _).mpr ⟨q, hq, rfl⟩)), ?_⟩
    rcases hs with ⟨h1, h2⟩ | ⟨h1, h2⟩
    · left; simp [h1, h2, hd]
    · right; simp [h1, h2, hd]

/-! ### The search -/

/-- A path found by the search: edges leading from a node of the target commodity to `n`. -/
inductive Walk (g : Graph) (target : Cur) : Node → List Edge → Prop
  | start {n : Node} : n.cur = target → Walk g target n []
  | step {v u : Node} {p : List Edge} {e : Edge} : Walk g target v p → e ∈ g.edges →
      Joins e v u → u ≠ v → Walk g target u (p ++ [e])

/-- Invariant of the search. -/
structure SearchInv (g : Graph) (target : Cur) (date : Date) (st : DState) : Prop where
  dom : ∀ n ∈ g.nodes, ∃ d, st.dist.get? n = some d
  lower : ∀ n d, st.dist.get? n = some (some d) → date - n.date ≤ d
  home : ∀ n ∈ g.nodes, n.cur = target → st.dist.get? n = some (some (date - n.date))
  path : ∀ n d, st.dist.get? n = some (some d) → n.cur = target ∨ ∃ p, st.paths.get? n = some p
  walk : ∀ n p, st.paths.get? n = some p → n.cur ≠ target ∧ Walk g target n p
  nodup : st.paths.keys.Nodup
  known : ∀ n d, st.dist.get? n = some d → n ∈ g.nodes

/-- The node has a finite distance. -/
def Reached (st : DState) (n : Node) : Prop := ∃ d, st.dist.get? n = some (some d)

theorem relaxStep_spec {prices : List Price} {date : Date} {target : Cur} {g : Graph}
    (hg : GraphOk prices date target g) {st : DState} (inv : SearchInv g target date st)
    {v u : Node} {e : Edge} {cp : List Edge} (hv : Reached st v) (hcp : Walk g target v cp)
    (he : e ∈ g.edges) (hj : Joins e v u) :
    ∃ st', relaxStep v cp st (u, e) = .ok st' ∧ SearchInv g target date st' ∧ Reached st' u ∧
      ∀ n, Reached st n → Reached st' n := by
  obtain ⟨dv, hdv⟩ := hv
  have hu : u ∈ g.nodes := by
    rcases hj with ⟨_, rfl⟩ | ⟨_, rfl⟩
    · exact (hg.ends e he).2
    · exact (hg.ends e he).1
  obtain ⟨du, hdu⟩ := inv.dom u hu
  obtain ⟨l0, l1⟩ := e.length_spec hj
  have hlow := inv.lower v dv hdv
  have upd : ∀ (hne : u ≠ v) (hcur : u.cur ≠ target),
      SearchInv g target date
        ⟨st.dist.insert u (some (dv + e.length)), st.paths.insert u (cp ++ [e])⟩ ∧
      Reached ⟨st.dist.insert u (some (dv + e.length)), st.paths.insert u (cp ++ [e])⟩ u ∧
      ∀ n, Reached st n →
        Reached ⟨st.dist.insert u (some (dv + e.length)), st.paths.insert u (cp ++ [e])⟩ n := by
    intro hne hcur
    refine ⟨⟨fun n hn => ?_, fun n d hd => ?_, fun n hn hc => ?_, fun n d hd => ?_,
      fun n p hp => ?_, HMap.nodup_keys_insert _ _ _ inv.nodup, fun n d hd => ?_⟩,
      ⟨dv + e.length, by simp⟩, ?_⟩
    · simp only [HMap.get?_insert]; split
      · exact ⟨_, rfl⟩
      · exact inv.dom n hn
    · simp only [HMap.get?_insert] at hd; split at hd
      · next h => cases hd; subst h; omega
      · exact inv.lower n d hd
    · simp only [HMap.get?_insert]; split
      · next h => subst h; exact absurd hc hcur
      · exact inv.home n hn hc
    · simp only [HMap.get?_insert] at hd ⊢; split at hd
      · next h => exact Or.inr ⟨_, by rw [if_pos h]⟩
      · next h => rw [if_neg h]; exact inv.path n d hd
    · simp only [HMap.get?_insert] at hp; split at hp
      · next h => cases hp; subst h; exact ⟨hcur, .step hcp he hj hne⟩
      · exact inv.walk n p hp
    · simp only [HMap.get?_insert] at hd; split at hd
      · next h => exact h ▸ hu
      · exact inv.known n d hd
    · rintro n ⟨d, hd⟩
      unfold Reached
      simp only [HMap.get?_insert]; split
      · exact ⟨_, rfl⟩
      · exact ⟨d, hd⟩
  unfold relaxStep
  simp only [hdv, hdu]
  cases du with
  | none =>
    have hne : u ≠ v := by rintro rfl; rw [hdv] at hdu; cases hdu
    have hcur : u.cur ≠ target := by intro h; rw [inv.home u hu h] at hdu; cases hdu
    obtain ⟨a, b, c⟩ := upd hne hcur
    exact ⟨_, by simp, a, b, c⟩
  | some d =>
    by_cases hlt : dv + e.length < d
    · have hne : u ≠ v := by rintro rfl; rw [hdv] at hdu; cases hdu; omega
      have hcur : u.cur ≠ target := by
        intro h; rw [inv.home u hu h] at hdu; cases hdu; omega
      obtain ⟨a, b, c⟩ := upd hne hcur
      exact ⟨_, by simp [hlt], a, b, c⟩
    · exact ⟨st, by simp [hlt], inv, ⟨d, hdu⟩, fun _ h => h⟩

theorem relaxAll_spec {prices : List Price} {date : Date} {target : Cur} {g : Graph}
    (hg : GraphOk prices date target g) {v : Node} {cp : List Edge} (hcp : Walk g target v cp)
    (l : List (Node × Edge)) (hl : ∀ ue ∈ l, ue.2 ∈ g.edges ∧ Joins ue.2 v ue.1) :
    ∀ {st : DState}, SearchInv g target date st → Reached st v →
    ∃ st', relaxAll v cp l st = .ok st' ∧ SearchInv g target date st' ∧
      (∀ ue ∈ l, Reached st' ue.1) ∧ ∀ n, Reached st n → Reached st' n := by
  induction l with
  | nil => intro st inv hv; exact ⟨st, rfl, inv, by simp, fun _ h => h⟩
  | cons ue l ih =>
    intro st inv hv
    obtain ⟨h1, h2⟩ := hl ue (by simp)
    obtain ⟨st1, e1, i1, r1, m1⟩ := relaxStep_spec hg inv hv hcp h1 h2
    obtain ⟨st2, e2, i2, r2, m2⟩ := ih (fun x hx => hl x (by simp [hx])) i1 (m1 v hv)
    refine ⟨st2, by simp only [relaxAll, e1, e2], i2, fun x hx => ?_, fun n hn => m2 n (m1 n hn)⟩
    rcases List.mem_cons.mp hx with rfl | hx
    · exact m2 _ r1
    · exact r2 x hx

theorem distCmp_le_iff (a b : Option Int) : distCmp a b ≠ .gt ↔
    (b = none ∨ ∃ x y, a = some x ∧ b = some y ∧ x ≤ y) := by
  cases a <;> cases b <;> simp [distCmp, compare, compareOfLessAndEq]
  split
  · simp; omega
  · split
    · simp; omega
    · simp; omega

theorem queueLe_total (dist : HMap Node (Option Int)) : TotalLe (queueLe dist) := by
  refine ⟨fun a b => ?_, fun a b c => ?_⟩
  · simp only [queueLe, decide_eq_true_eq, distCmp_le_iff]
    cases ha : (dist.get? a).getD none <;> cases hb : (dist.get? b).getD none <;> simp
    omega
  · simp only [queueLe, decide_eq_true_eq, distCmp_le_iff]
    cases ha : (dist.get? a).getD none <;> cases hb : (dist.get? b).getD none <;>
      cases hc : (dist.get? c).getD none <;> simp
    omega

/-- Everything around a processed node is reached. -/
def Closed (g : Graph) (st : DState) (n : Node) : Prop :=
  ∀ e u, e ∈ g.edges → Joins e n u → Reached st u

theorem dijkstra_spec {prices : List Price} {date : Date} {target : Cur} {g : Graph}
    (hg : GraphOk prices date target g) : ∀ (k : Nat) (queue : List Node) (st : DState),
    SearchInv g target date st → queue.length ≤ k → (∀ n ∈ queue, n ∈ g.nodes) →
    (∀ n ∈ g.nodes, n ∈ queue ∨ Closed g st n) →
    ∃ st', dijkstra g k queue st = .ok st' ∧ SearchInv g target date st' ∧
      ∀ n, Reached st' n → Closed g st' n := by
  intro k
  induction k with
  | zero =>
    intro queue st inv hk _ hc
    have : queue = [] := by simpa using hk
    subst this
    exact ⟨st, rfl, inv, fun n hn => (hc n (hn.elim fun d => inv.known n (some d))).resolve_left (by simp)⟩
  | succ k ih =>
    intro queue st inv hk hq hc
    have hperm : (sortBy (queueLe st.dist) queue).reverse.Perm queue :=
      (List.reverse_perm _).trans (sortBy_perm _ _)
    have hsort : (sortBy (queueLe st.dist) queue).reverse.Pairwise
        (fun x y => queueLe st.dist y x = true) := by
      rw [List.pairwise_reverse]; exact sortBy_sorted (queueLe_total _) _
    unfold dijkstra
    cases hs : (sortBy (queueLe st.dist) queue).reverse with
    | nil =>
      rw [hs] at hperm
      have : queue = [] := (List.Perm.nil_eq hperm).symm
      subst this
      exact ⟨st, rfl, inv, fun n hn => (hc n (hn.elim fun d => inv.known n (some d))).resolve_left (by simp)⟩
    | cons v rest =>
      rw [hs] at hperm hsort
      have hv : v ∈ g.nodes := hq v (hperm.mem_iff.mp (by simp))
      obtain ⟨d, hd⟩ := inv.dom v hv
      simp only [hd]
      cases d with
      | none =>
        refine ⟨st, rfl, inv, fun n hn => (hc n (hn.elim fun d => inv.known n (some d))).resolve_left (fun hmem => ?_)⟩
        obtain ⟨x, hx⟩ := hn
        rcases List.mem_cons.mp (hperm.mem_iff.mpr hmem) with rfl | hr
        · rw [hd] at hx; cases hx
        · have := (List.pairwise_cons.mp hsort).1 n hr
          simp only [queueLe, decide_eq_true_eq, distCmp_le_iff, hd, hx] at this
          simp at this
      | some dv =>
        have hcp : Walk g target v ((st.paths.get? v).getD []) := by
          cases hp : st.paths.get? v with
          | some p => exact (inv.walk v p hp).2
          | none =>
            rcases inv.path v dv hd with h | ⟨p, h⟩
            · exact .start h
            · rw [hp] at h; cases h
        obtain ⟨st1, e1, i1, r1, m1⟩ := relaxAll_spec hg hcp (g.neighbours v)
          (fun ue h => mem_neighbours g v ue.1 ue.2 h) inv ⟨dv, hd⟩
        simp only [e1]
        have hlen : rest.length ≤ k := by
          have := hperm.length_eq
          simp only [List.length_cons] at this
          omega
        refine ih rest.reverse st1 i1 (by simpa using hlen) (fun n hn => ?_) (fun n hn => ?_)
        · exact hq n (hperm.mem_iff.mp (List.mem_cons_of_mem _ (List.mem_reverse.mp hn)))
        · by_cases hnv : n = v
          · right; intro e u he hj; subst hnv
            exact r1 (u, e) (neighbours_of_joins g n u e he hj)
          · rcases hc n hn with h | h
            · left
              rcases List.mem_cons.mp (hperm.mem_iff.mpr h) with h | h
              · exact absurd h hnv
              · exact List.mem_reverse.mpr h
            · right; intro e u he hj; exact m1 u (h e u he hj)

theorem get?_initDist (target : Cur) (date : Date) (nodes : List Node) (n : Node) :
    (initDist target date nodes).get? n =
      if n ∈ nodes then some (if n.cur = target then some (date - n.date) else none) else none := by
  unfold initDist
  have gen : ∀ (m : HMap Node (Option Int)), (nodes.foldl (fun m n =>
      m.insert n (if n.cur = target then some (date - n.date) else none)) m).get? n =
      if n ∈ nodes then some (if n.cur = target then some (date - n.date) else none)
      else m.get? n := by
    induction nodes with
    | nil => intro m; simp
    | cons a l ih =>
      intro m
      rw [List.foldl_cons, ih, HMap.get?_insert]
      by_cases h1 : n ∈ l
      · simp [h1]
      · by_cases h2 : a = n
        · subst h2; simp
        · simp [h1, h2, Ne.symm h2]
  exact gen []

theorem searchInv_init {prices : List Price} {date : Date} {target : Cur} {g : Graph}
    (_hg : GraphOk prices date target g) :
    SearchInv g target date ⟨initDist target date g.nodes, []⟩ := by
  refine ⟨fun n hn => ?_, fun n d hd => ?_, fun n hn hc => ?_, fun n d hd => ?_, by simp, by simp,
    fun n d hd => ?_⟩
  · simp [get?_initDist, hn]
  · rw [get?_initDist] at hd; split at hd
    · split at hd
      · cases hd; exact le_refl _
      · cases hd
    · cases hd
  · simp [get?_initDist, hn, hc]
  · rw [get?_initDist] at hd; split at hd
    · split at hd
      · next h => exact Or.inl h
      · cases hd
    · cases hd
  · rw [get?_initDist] at hd; split at hd
    · assumption
    · cases hd

/-- The result of the whole search: it does not fail; the nodes with a path are the nodes of other
commodities that some chain of usable prices connects to the target. -/
theorem search_spec {prices : List Price} {date : Date} {target : Cur} {g : Graph}
    (hg : GraphOk prices date target g) :
    ∃ st, dijkstra g g.nodes.length g.nodes ⟨initDist target date g.nodes, []⟩ = .ok st ∧
      SearchInv g target date st ∧ ∀ n, Reached st n → Closed g st n :=
  dijkstra_spec hg _ _ _ (searchInv_init hg) (le_refl _) (fun _ h => h) (fun _ h => Or.inl h)

/-! ### From paths to multipliers -/

theorem ratDiv_ok {a b r : Rat} (h : ratDiv a b = .ok r) : b ≠ 0 ∧ r = a / b := by
  unfold ratDiv at h
  split at h
  · cases h
  · next hb => cases h; exact ⟨hb, rfl⟩

theorem pathMult_walk {prices : List Price} {date : Date} {target : Cur} {g : Graph}
    (hg : GraphOk prices date target g) {n : Node} {p : List Edge} (hw : Walk g target n p) :
    ∀ (x m : Rat), pathMult p.reverse x n.cur = .ok m →
      ∃ r, Chain (Usable prices date) target n.cur r ∧ m = x * r := by
  induction hw with
  | start h =>
    intro x m hm
    simp only [List.reverse_nil, pathMult, Except.ok.injEq] at hm
    exact ⟨1, h ▸ Chain.here, by rw [← hm]; ring⟩
  | @step v u p e hw he hj hne ih =>
    intro x m hm
    rw [List.reverse_append] at hm
    simp only [List.reverse_cons, List.reverse_nil, List.nil_append, List.singleton_append,
      pathMult] at hm
    rcases hg.kind e he with ⟨hp, hc⟩ | ⟨q, hq, rfl⟩
    · have huv : u.cur = v.cur := by
        rcases hj with ⟨rfl, rfl⟩ | ⟨rfl, rfl⟩
        · exact hc.symm
        · exact hc
      simp only [hp, huv] at hm
      rw [huv]; exact ih x m hm
    · simp only at hm
      rcases hj with ⟨rfl, rfl⟩ | ⟨rfl, rfl⟩
      · have hcc : q.cur ≠ q.commodity := by intro h; apply hne; simp [h]
        simp only [hcc, if_false] at hm
        cases hd : ratDiv x q.amount with
        | error f => rw [hd] at hm; cases hm
        | ok y =>
          rw [hd] at hm
          obtain ⟨h0, rfl⟩ := ratDiv_ok hd
          obtain ⟨r, hr, rfl⟩ := ih _ m hm
          exact ⟨_, Chain.backward hq h0 hr, by field_simp⟩
      · simp only [if_true] at hm
        obtain ⟨r, hr, rfl⟩ := ih _ m hm
        exact ⟨_, Chain.forward hq hr, by ring⟩

/-- With non-zero usable prices the product along a path is always defined. -/
theorem pathMult_total {prices : List Price} {date : Date} {target : Cur} {g : Graph}
    (hg : GraphOk prices date target g) (hz : ∀ p, Usable prices date p → p.amount ≠ 0)
    (l : List Edge) (hl : ∀ e ∈ l, e ∈ g.edges) : ∀ (x : Rat) (c : Cur),
    ∃ m, pathMult l x c = .ok m := by
  induction l with
  | nil => intro x c; exact ⟨x, rfl⟩
  | cons e l ih =>
    intro x c
    have ih := ih (fun e h => hl e (by simp [h]))
    rcases hg.kind e (hl e (by simp)) with ⟨hp, _⟩ | ⟨q, hq, rfl⟩
    · simp only [pathMult, hp]; exact ih x c
    · simp only [pathMult, ratDiv, hz q hq, if_false]
      split
      · exact ih _ _
      · exact ih _ _

theorem Walk.edges {g : Graph} {target : Cur} {n : Node} {p : List Edge} (h : Walk g target n p) :
    ∀ e ∈ p, e ∈ g.edges := by
  induction h with
  | start _ => simp
  | step _ he _ _ ih =>
    intro x hx
    rcases List.mem_append.mp hx with h | h
    · exact ih x h
    · simp only [List.mem_singleton] at h; exact h ▸ he

/-- What the loop over the paths returns. -/
theorem multLoop_spec (l : List (Node × List Edge)) : ∀ (ms : HMap Cur Rat) (ins : HMap Cur Date)
    (out : HMap Cur Rat), (∀ c, (ins.get? c).isSome = (ms.get? c).isSome) →
    multLoop l ms ins = .ok out →
    (∀ c m, out.get? c = some m → ms.get? c = some m ∨
      ∃ k p, (k, p) ∈ l ∧ k.cur = c ∧ pathMult p.reverse 1 k.cur = .ok m) ∧
    (∀ c, (ms.get? c).isSome ∨ (∃ k p, (k, p) ∈ l ∧ k.cur = c) → (out.get? c).isSome) := by
  induction l with
  | nil =>
    intro ms ins out hi h
    simp only [multLoop, Except.ok.injEq] at h
    subst h
    exact ⟨fun c m h => Or.inl h, fun c h => h.elim id (by simp)⟩
  | cons e l ih =>
    obtain ⟨k, path⟩ := e
    intro ms ins out hi h
    have main : ∀ (m : Rat) (ins' : HMap Cur Date), pathMult path.reverse 1 k.cur = .ok m →
        (∀ c, (ins'.get? c).isSome = ((ms.insert k.cur m).get? c).isSome) →
        multLoop l (ms.insert k.cur m) ins' = .ok out →
        (∀ c m, out.get? c = some m → ms.get? c = some m ∨
          ∃ k' p, (k', p) ∈ (k, path) :: l ∧ k'.cur = c ∧ pathMult p.reverse 1 k'.cur = .ok m) ∧
        (∀ c, (ms.get? c).isSome ∨ (∃ k' p, (k', p) ∈ (k, path) :: l ∧ k'.cur = c) →
          (out.get? c).isSome) := by
      intro m ins' hm hi' hl
      obtain ⟨a, b⟩ := ih _ _ _ hi' hl
      refine ⟨fun c x hx => ?_, fun c hc => b c ?_⟩
      · rcases a c x hx with h | ⟨k', p, h1, h2, h3⟩
        · rw [HMap.get?_insert] at h; split at h
          · next hk => cases h; exact Or.inr ⟨k, path, by simp, hk, hm⟩
          · exact Or.inl h
        · exact Or.inr ⟨k', p, by simp [h1], h2, h3⟩
      · rw [HMap.get?_insert]
        rcases hc with h | ⟨k', p, h1, h2⟩
        · left; split
          · rfl
          · exact h
        · rcases List.mem_cons.mp h1 with h | h
          · cases h; left; simp [h2]
          · exact Or.inr ⟨k', p, h, h2⟩
    unfold multLoop at h
    split at h
    · next x hx =>
      have hk : (ms.get? k.cur).isSome := by rw [← hi, hx]; rfl
      split at h
      · obtain ⟨a, b⟩ := ih _ _ _ hi h
        refine ⟨fun c x hx => ?_, fun c hc => b c ?_⟩
        · rcases a c x hx with h | ⟨k', p, h1, h2, h3⟩
          · exact Or.inl h
          · exact Or.inr ⟨k', p, by simp [h1], h2, h3⟩
        · rcases hc with h | ⟨k', p, h1, h2⟩
          · exact Or.inl h
          · rcases List.mem_cons.mp h1 with h | h
            · cases h; left; rw [← h2]; exact hk
            · exact Or.inr ⟨k', p, h, h2⟩
      · split at h
        · cases h
        · next m hm =>
          refine main m ins hm (fun c => ?_) h
          rw [hi, HMap.get?_insert]; split
          · next hc => rw [← hc]; simpa using hk
          · rfl
    · split at h
      · cases h
      · next m hm =>
        refine main m _ hm (fun c => ?_) h
        rw [HMap.get?_insert, HMap.get?_insert]; split
        · rfl
        · exact hi c

theorem multLoop_total (l : List (Node × List Edge))
    (h : ∀ k p, (k, p) ∈ l → ∃ m, pathMult p.reverse 1 k.cur = .ok m) :
    ∀ (ms : HMap Cur Rat) (ins : HMap Cur Date), ∃ out, multLoop l ms ins = .ok out := by
  induction l with
  | nil => intro ms ins; exact ⟨ms, rfl⟩
  | cons e l ih =>
    obtain ⟨k, path⟩ := e
    intro ms ins
    have ih := ih (fun k p hk => h k p (by simp [hk]))
    obtain ⟨m, hm⟩ := h k path (by simp)
    unfold multLoop
    simp only [hm]
    split
    · split
      · exact ih _ _
      · exact ih _ _
    · exact ih _ _

/-- Everything about one successful call of `conversion`. -/
theorem conversion_spec {o : ConvOrders} {target : Cur} {date : Date} {prices : List Price}
    {ms : HMap Cur Rat} (h : conversion o target date prices = .ok ms) :
    (∀ c m, ms.get? c = some m → c ≠ target ∧ Chain (Usable prices date) target c m) ∧
    (∀ c, c ≠ target → Linked prices date target c → (ms.get? c).isSome) := by
  have hg := graphOk o.prices o.nodes prices date target
  obtain ⟨st, e, inv, hcl⟩ := search_spec hg
  unfold conversion at h
  simp only [e] at h
  obtain ⟨a, b⟩ := multLoop_spec _ [] [] ms (by simp) h
  have hmem : ∀ k p, (k, p) ∈ o.paths.run st.paths ↔ st.paths.get? k = some p := by
    intro k p
    rw [(o.paths.perm _).mem_iff, HMap.get?_eq_some_iff inv.nodup]
  refine ⟨fun c m hm => ?_, fun c hc hl => ?_⟩
  · rcases a c m hm with h | ⟨k, p, h1, h2, h3⟩
    · simp at h
    · obtain ⟨w1, w2⟩ := inv.walk k p ((hmem k p).mp h1)
      obtain ⟨r, hr, hmr⟩ := pathMult_walk hg w2 1 m h3
      subst h2
      rw [one_mul] at hmr
      exact ⟨w1, hmr ▸ hr⟩
  · -- all nodes of a linked commodity are reached
    have hall : ∀ c, Linked prices date target c →
        ∀ n ∈ (Graph.fromPrices o.prices o.nodes prices ⟨target, date⟩).nodes, n.cur = c →
        Reached st n := by
      intro c hl
      induction hl with
      | here => intro n hn hc; exact ⟨_, inv.home n hn hc⟩
      | @forward p hp hl ih =>
        intro n hn hc
        obtain ⟨e, he, hj⟩ := hg.kept p hp
        have hends := hg.ends e he
        rcases hj with ⟨h1, h2⟩ | ⟨h1, h2⟩
        · have hr := ih e.dst hends.2 (by rw [h2])
          have hr2 : Reached st e.src := hcl _ hr e _ he (Or.inr ⟨rfl, rfl⟩)
          obtain ⟨e', he', hj'⟩ := hg.same e.src n hends.1 hn (by rw [h1, hc])
          exact hcl _ hr2 e' n he' hj'
        · have hr := ih e.src hends.1 (by rw [h2])
          have hr2 : Reached st e.dst := hcl _ hr e _ he (Or.inl ⟨rfl, rfl⟩)
          obtain ⟨e', he', hj'⟩ := hg.same e.dst n hends.2 hn (by rw [h1, hc])
          exact hcl _ hr2 e' n he' hj'
      | @backward p hp hl ih =>
        intro n hn hc
        obtain ⟨e, he, hj⟩ := hg.kept p hp
        have hends := hg.ends e he
        rcases hj with ⟨h1, h2⟩ | ⟨h1, h2⟩
        · have hr := ih e.src hends.1 (by rw [h1])
          have hr2 : Reached st e.dst := hcl _ hr e _ he (Or.inl ⟨rfl, rfl⟩)
          obtain ⟨e', he', hj'⟩ := hg.same e.dst n hends.2 hn (by rw [h2, hc])
          exact hcl _ hr2 e' n he' hj'
        · have hr := ih e.dst hends.2 (by rw [h1])
          have hr2 : Reached st e.src := hcl _ hr e _ he (Or.inr ⟨rfl, rfl⟩)
          obtain ⟨e', he', hj'⟩ := hg.same e.src n hends.1 hn (by rw [h2, hc])
          exact hcl _ hr2 e' n he' hj'
    have hnode : ∃ n ∈ (Graph.fromPrices o.prices o.nodes prices ⟨target, date⟩).nodes,
        n.cur = c := by
      cases hl with
      | here => exact absurd rfl hc
      | @forward p hp _ =>
        obtain ⟨e, he, hj⟩ := hg.kept p hp
        have hends := hg.ends e he
        rcases hj with ⟨h1, h2⟩ | ⟨h1, h2⟩
        · exact ⟨e.src, hends.1, by rw [h1]⟩
        · exact ⟨e.dst, hends.2, by rw [h1]⟩
      | @backward p hp _ =>
        obtain ⟨e, he, hj⟩ := hg.kept p hp
        have hends := hg.ends e he
        rcases hj with ⟨h1, h2⟩ | ⟨h1, h2⟩
        · exact ⟨e.dst, hends.2, by rw [h2]⟩
        · exact ⟨e.src, hends.1, by rw [h2]⟩
    obtain ⟨n, hn, hnc⟩ := hnode
    obtain ⟨d, hd⟩ := hall c hl n hn hnc
    rcases inv.path n d hd with h | ⟨p, hp⟩
    · exact absurd (hnc.symm.trans h) hc
    · exact b c (Or.inr ⟨n, p, (hmem n p).mpr hp, hnc⟩)

/-- With non-zero usable prices `conversion` does not panic. -/
theorem conversion_total (o : ConvOrders) (target : Cur) (date : Date) (prices : List Price)
    (hz : ∀ p, Usable prices date p → p.amount ≠ 0) :
    ∃ ms, conversion o target date prices = .ok ms := by
  have hg := graphOk o.prices o.nodes prices date target
  obtain ⟨st, e, inv, _⟩ := search_spec hg
  unfold conversion
  simp only [e]
  apply multLoop_total
  intro k p hk
  rw [(o.paths.perm _).mem_iff, ← HMap.get?_eq_some_iff inv.nodup] at hk
  exact pathMult_total hg hz _ (fun e he =>
    (inv.walk k p hk).2.edges e (List.mem_reverse.mp he)) _ _

theorem Chain.mono {ok ok' : Price → Prop} {target c : Cur} {r : Rat} (h : Chain ok target c r)
    (hm : ∀ p, ok p → ok' p) : Chain ok' target c r := by
  induction h with
  | here => exact .here
  | forward hp _ ih => exact .forward (hm _ hp) ih
  | backward hp h0 _ ih => exact .backward (hm _ hp) h0 ih

theorem Chain.linked {prices : List Price} {date : Date} {target c : Cur} {r : Rat}
    (h : Chain (Usable prices date) target c r) : Linked prices date target c := by
  induction h with
  | here => exact .here
  | forward hp _ ih => exact .forward hp ih
  | backward hp _ _ ih => exact .backward hp ih

theorem Consistent.amount_ne {prices : List Price} {date : Date} {val : Cur → Rat}
    (h : Consistent prices date val) (p : Price) (hp : Usable prices date p) : p.amount ≠ 0 := by
  intro h0
  have := h.rate p hp
  rw [h0, zero_mul] at this
  exact h.ne _ this

theorem Chain.value {prices : List Price} {date : Date} {target c : Cur} {r : Rat}
    {val : Cur → Rat} (hv : Consistent prices date val) (h : Chain (Usable prices date) target c r) :
    r = val c / val target := by
  have ht := hv.ne target
  induction h with
  | here => field_simp
  | forward hp _ ih => rw [hv.rate _ hp, ih]; ring
  | @backward p r hp h0 _ ih =>
    rw [ih, hv.rate _ hp]; field_simp

/-! ### Converting a balance -/

/-- What one entry of a balance contributes to commodity `d` after conversion. -/
def contrib (ms : HMap Cur Rat) (target d : Cur) (e : Option Cur × Money) : Rat :=
  match e.1 with
  | none => 0
  | some c => match ms.get? c with
    | some r => if target = d then e.2.amount * r else 0
    | none => if c = d then e.2.amount else 0

theorem convertLoop_spec (ms : HMap Cur Rat) (target : Cur) (l : List (Option Cur × Money))
    (hk : ∀ e ∈ l, e.1 ≠ none) (hc : ∀ e ∈ l, e.2.commodity = e.1) :
    ∀ acc, Balance.WF acc → ∃ out, convertLoop ms target l acc = .ok out ∧ Balance.WF out ∧
      ∀ d, out.amountOf d = acc.amountOf d +
        (l.map (contrib ms target d)).sum := by
  induction l with
  | nil => intro acc hw; exact ⟨acc, rfl, hw, by simp⟩
  | cons e l ih =>
    obtain ⟨k, m⟩ := e
    intro acc hw
    have ih := ih (fun e he => hk e (by simp [he])) (fun e he => hc e (by simp [he]))
    cases k with
    | none => exact absurd rfl (hk (none, m) (by simp))
    | some c =>
      have hmc : m.commodity = some c := hc (some c, m) (by simp)
      unfold convertLoop
      cases hg : ms.get? c with
      | none =>
        obtain ⟨out, h1, h2, h3⟩ := ih _ (Balance.add_canon hw (Balance.ofMoney_wf m)).toWF
        refine ⟨out, h1, h2, fun d => ?_⟩
        rw [h3, Balance.amountOf_add hw (Balance.ofMoney_wf _), Balance.amountOf_ofMoney]
        simp only [List.map_cons, List.sum_cons, contrib, hg, Money.amountIn, hmc, Option.some.injEq]
        ring
      | some r =>
        obtain ⟨out, h1, h2, h3⟩ := ih _ (Balance.add_canon hw
          (Balance.ofMoney_wf (.mk (m.amount * r) target))).toWF
        refine ⟨out, h1, h2, fun d => ?_⟩
        rw [h3, Balance.amountOf_add hw (Balance.ofMoney_wf _), Balance.amountOf_ofMoney]
        simp only [List.map_cons, List.sum_cons, contrib, hg, Money.amountIn, Money.commodity, Money.amount,
          Option.some.injEq]
        ring

end Dinero
