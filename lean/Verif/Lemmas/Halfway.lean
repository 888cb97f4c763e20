import Verif.Spec.Halfway
import Verif.Lemmas.Columns
import Verif.Props.Report
/-
Lemmas about the register that fails half way.
-/
namespace Dinero

/-- The loop over the postings, up to where it fails. -/
theorem registerPostingsPart_cases {env : Env} {s : Nat → Shuf} {o : FilterOpts} {node : Option Ast} {t : Txn Posting}
    (ps : List Posting) (counter : Nat) (st : RegState) :
    (∃ st', registerPostings env s o node t ps counter st = .ok st' ∧
      registerPostingsPart env s o node t ps counter st = { state := st' }) ∨
    ∃ e qs p rest st' b, ps = qs ++ p :: rest ∧ registerPostings env s o node t qs counter st = .ok st' ∧
      registerPostings env s o node t ps counter st = .error e ∧
      registerPostingsPart env s o node t ps counter st = ⟨st', b, some e⟩ ∧
      (filterPosting env o node t p st'.commodities = .error e ∧ b = [] ∨
        ∃ c k, filterPosting env o node t p st'.commodities = .ok (true, c) ∧
          st'.lines.length + counter = st.lines.length + k ∧
          registerPosting env (s st'.lines.length) t k p { st' with commodities := c } = .error e ∧
          b = lineBegun env t k p st'.payees) := by
  induction ps generalizing counter st with
  | nil => exact .inl ⟨st, rfl, rfl⟩
  | cons p ps ih =>
    cases hf : filterPosting env o node t p st.commodities with
    | error e =>
      refine .inr ⟨e, [], p, ps, st, [], rfl, rfl, ?_, ?_, .inl ⟨hf, rfl⟩⟩
      · simp only [registerPostings, hf]
      · simp only [registerPostingsPart, hf]
    | ok x =>
      obtain ⟨keep, c⟩ := x
      cases keep with
      | false =>
        simp only [registerPostings, registerPostingsPart, hf]
        rcases ih counter { st with commodities := c } with h | ⟨e, qs, q, rest, st', b, h1, h2, h3, h4, h5⟩
        · exact .inl h
        · exact .inr ⟨e, p :: qs, q, rest, st', b, by rw [h1]; rfl, by simp only [registerPostings, hf]; exact h2, h3, h4, h5⟩
      | true =>
        cases hp : registerPosting env (s st.lines.length) t counter p { st with commodities := c } with
        | error e =>
          refine .inr ⟨e, [], p, ps, st, lineBegun env t counter p st.payees, rfl, rfl, ?_, ?_,
            .inr ⟨c, counter, hf, rfl, hp, rfl⟩⟩
          · simp only [registerPostings, hf, hp]
          · simp only [registerPostingsPart, hf, hp]
        | ok st1 =>
          obtain ⟨_, line, hl⟩ := registerPosting_spec (st := { st with commodities := c }) hp
          have hlen : st1.lines.length = st.lines.length + 1 := by rw [hl.lines]; simp
          simp only [registerPostings, registerPostingsPart, hf, hp]
          rcases ih (counter + 1) st1 with h | ⟨e, qs, q, rest, st', b, h1, h2, h3, h4, h5⟩
          · exact .inl h
          · refine .inr ⟨e, p :: qs, q, rest, st', b, by rw [h1]; rfl, by simp only [registerPostings, hf, hp]; exact h2, h3, h4, ?_⟩
            rcases h5 with h5 | ⟨c', k, g1, g2, g3, g4⟩
            · exact .inl h5
            · exact .inr ⟨c', k, g1, by omega, g3, g4⟩

/-- The loop over the transactions, up to where it fails. -/
theorem registerAllPart_cases {env : Env} {s : Nat → Shuf} {o : FilterOpts} {node : Option Ast} (ts : List (Txn Posting))
    (st : RegState) :
    (∃ st', registerAll env s o node ts st = .ok st' ∧ registerAllPart env s o node ts st = { state := st' }) ∨
    ∃ e us t rest ps p qs st1 st' b, ts = us ++ t :: rest ∧ t.postings = ps ++ p :: qs ∧
      registerAll env s o node us st = .ok st1 ∧ registerPostings env s o node t ps 0 st1 = .ok st' ∧
      registerAll env s o node ts st = .error e ∧
      registerAllPart env s o node ts st = ⟨st', b, some e⟩ ∧
      (filterPosting env o node t p st'.commodities = .error e ∧ b = [] ∨
        ∃ c k, filterPosting env o node t p st'.commodities = .ok (true, c) ∧
          st'.lines.length = st1.lines.length + k ∧
          registerPosting env (s st'.lines.length) t k p { st' with commodities := c } = .error e ∧
          b = lineBegun env t k p st'.payees) := by
  induction ts generalizing st with
  | nil => exact .inl ⟨st, rfl, rfl⟩
  | cons t ts ih =>
    rcases registerPostingsPart_cases (env := env) (s := s) (o := o) (node := node) (t := t) t.postings 0 st with
      ⟨st', h1, h2⟩ | ⟨e, qs, p, rest, st', b, h1, h2, h3, h4, h5⟩
    · simp only [registerAll, registerAllPart, h1, h2]
      rcases ih st' with h | ⟨e, us, u, rest, ps, p, qs, st1, st2, b, g1, g2, g3, g4, g5, g6, g7⟩
      · exact .inl h
      · exact .inr ⟨e, t :: us, u, rest, ps, p, qs, st1, st2, b, by rw [g1]; rfl, g2,
          by simp only [registerAll, h1]; exact g3, g4, g5, g6, g7⟩
    · refine .inr ⟨e, [], t, ts, qs, p, rest, st, st', b, rfl, h1, rfl, h2, ?_, ?_, h5⟩
      · simp only [registerAll, h3]
      · simp only [registerAllPart, h4]

/-- The headers of the lines, and the payees seen so far. -/
theorem registerAll_seen {env : Env} {s : Nat → Shuf} {o : FilterOpts} {node : Option Ast} (ts : List (Txn Posting))
    {st st' : RegState} {l : Ledger} (hs : PayeesSeen env.lower l.payees st.payees)
    (h : registerAll env s o node ts st = .ok st') :
    PayeesSeen env.lower l.payees st'.payees ∧
      ∃ blocks, st'.lines = st.lines ++ blocks.flatten ∧ List.Forall₂ (RegBlock env l) ts blocks := by
  induction ts generalizing st with
  | nil => cases h; exact ⟨hs, [], by simp, .nil⟩
  | cons t ts ih =>
    unfold registerAll at h
    split at h
    · cases h
    next st1 h1 =>
    obtain ⟨new, g⟩ := registerPostings_part _ hs h1
    obtain ⟨k0, blocks, k1, k2⟩ := ih g.payees h
    exact ⟨k0, new :: blocks, by rw [k1, g.lines]; simp, .cons ⟨g.postings, g.first rfl, g.others rfl⟩ k2⟩

/-- The sums next to the lines. -/
theorem running_sums {s : Nat → Shuf} {lines : List RegLine} (h3 : ∀ pre line post, lines = pre ++ line :: post →
      line.running = ((s pre.length).run
        (((pre ++ [line]).map RegLine.amount).foldl registerAdd Balance.new)).map Prod.snd) :
    ∀ pre line post, lines = pre ++ line :: post →
      ((∀ c, sumIn ((pre ++ [line]).map RegLine.amount) c = 0) → line.running = [.zero]) ∧
      ((∃ c, sumIn ((pre ++ [line]).map RegLine.amount) c ≠ 0) →
        Shows line.running (sumIn ((pre ++ [line]).map RegLine.amount))) := by
  intro pre line post he
  rw [h3 pre line post he]
  obtain ⟨_, g2, g3⟩ := registerFold_spec ((pre ++ [line]).map RegLine.amount) Balance.WF.nil
  rw [show (Balance.new : Balance) = [] from rfl]
  have hb : ∀ c, Balance.amountOf [] c = 0 := fun c => rfl
  simp only [hb, zero_add] at g2 g3
  generalize List.foldl registerAdd [] ((pre ++ [line]).map RegLine.amount) = b at *
  refine ⟨fun hz => ?_, fun ⟨c, hz⟩ => ?_⟩
  · rcases g3 (by simp) with ⟨_, g4⟩ | ⟨g4, g5⟩
    · rw [g4]
      have hp := (s pre.length).perm [((none : Option Cur), Money.zero)]
      rw [List.perm_singleton.mp hp]; rfl
    · obtain ⟨c, hc⟩ := (Canon.isZero_false g4).mp g5
      rw [g2, hz] at hc; exact absurd rfl hc
  · rcases g3 (by simp) with ⟨g4, _⟩ | ⟨g4, _⟩
    · exact absurd (g4 c) hz
    · exact (Canon.shows g4 _).congr g2

/-- A posting that passes the filter only fails for want of an amount. -/
theorem registerPosting_fails {env : Env} {s : Shuf} {t : Txn Posting} {k : Nat} {p : Posting} {st : RegState} {e : Fail}
    {l : Ledger} (hs : PayeesSeen env.lower l.payees st.payees) (hd : t.date.isSome)
    (h : registerPosting env s t k p st = .error e) :
    p.amount = none ∧ (∃ m, e = .panic m) ∧ (k ≠ 0 → lineBegun env t k p st.payees = datePayeeText none) ∧
      (k = 0 → ∃ d name, t.date = some d ∧ ShownPayee env l t name ∧
        lineBegun env t k p st.payees = datePayeeText (some (d, name))) := by
  obtain ⟨d, hd⟩ := Option.isSome_iff_exists.mp hd
  obtain ⟨⟨name, payees⟩, hg, _⟩ := getPayee_ok (env := env) t hs.reach
  obtain ⟨_, g2, g3⟩ := getPayee_spec hs hg
  cases hm : p.amount with
  | some m =>
    by_cases hk : k = 0
    · simp only [registerPosting, hk, hd, hg, hm, if_true] at h
      cases h
    · simp only [registerPosting, hk, hm, if_false] at h
      cases h
  | none =>
    by_cases hk : k = 0
    · simp only [registerPosting, hk, hd, hg, hm, if_true] at h
      cases h
      exact ⟨rfl, ⟨_, rfl⟩, fun h => absurd hk h, fun _ => ⟨d, name, hd, ⟨g2, g3⟩, by simp only [lineBegun, hm, hk, hd, hg, if_true]⟩⟩
    · simp only [registerPosting, hk, hm, if_false] at h
      cases h
      exact ⟨rfl, ⟨_, rfl⟩, fun _ => by simp only [lineBegun, hm, hk, if_false], fun h => absurd h hk⟩

/-- The register that fails stops at a posting. -/
theorem registerAllPart_stops {env : Env} {s : Nat → Shuf} {o : FilterOpts} {node : Option Ast} {l : Ledger} {e : Fail}
    (hr : l.payees.Reachable env.lower) (hd : ∀ t ∈ l.transactions, t.date.isSome)
    (h : registerAll env s o node l.transactions { commodities := l.commodities, payees := l.payees } = .error e) :
    ∃ ts t ps p x, registerAllPart env s o node l.transactions { commodities := l.commodities, payees := l.payees } = x ∧
      StopsAt env o node l ts t ps p e x.state.lines x.begun := by
  rcases registerAllPart_cases (env := env) (s := s) (o := o) (node := node) l.transactions
    { commodities := l.commodities, payees := l.payees } with ⟨st', g1, _⟩ |
      ⟨e', us, t, rest, ps, p, qs, st1, st', b, g1, g2, g3, g4, g5, g6, g7⟩
  · rw [h] at g1; cases g1
  rw [h] at g5; cases g5
  have hs0 : PayeesSeen env.lower l.payees l.payees := ⟨hr, .refl _ _, fun k x e h1 h2 => by rw [h1] at h2; cases h2⟩
  obtain ⟨before, new1, m1, m2⟩ := registerAll_spec us g3
  obtain ⟨own, new2, n1, n2⟩ := registerPostings_spec ps g4
  obtain ⟨hseen, blocks, b1, b2⟩ := registerAll_seen (l := l) us hs0 g3
  obtain ⟨new, q⟩ := registerPostings_part (l0 := l.payees) ps hseen g4
  have ht := m2.trans n2
  have hl : st'.lines = new1 ++ new2 := by simpa using ht.lines
  refine ⟨us, t, ps, p, _, g6, ⟨⟨rest, g1⟩, ⟨qs, g2⟩, ⟨before, own, _, _, m1, n1, ?_, ?_⟩, ?_, ?_⟩⟩
  · simp only [hl]; exact ht.content
  · rcases g7 with g7 | ⟨c, k, k1, k2, k3, k4⟩
    · exact .inl g7
    · refine .inr ⟨⟨c, k1⟩, ?_⟩
      obtain ⟨a1, a2, a3, a4⟩ := registerPosting_fails (l := l) (st := { st' with commodities := c }) q.payees
        (hd t (by rw [g1]; simp)) k3
      have hlen : new2.length = own.length := by
        have := congrArg List.length n2.content
        simpa using this
      have hk : k = own.length := by
        have := congrArg List.length n2.lines
        rw [List.length_append] at this
        omega
      refine ⟨a1, a2, fun hne => ?_, fun he => ?_⟩
      · simp only [k4]; exact a3 (fun h0 => hne (List.length_eq_zero_iff.mp (by omega)))
      · simp only [k4]; exact a4 (by rw [hk, he]; rfl)
  · simp only [hl]
    refine running_sums (s := s) ?_
    simpa using ht.running
  · refine ⟨blocks ++ [new], ?_, List.rel_append b2 (.cons ⟨?_, q.first rfl, q.others rfl⟩ .nil)⟩
    · have : st1.lines = blocks.flatten := by simpa using b1
      simp only [q.lines, this, List.flatten_append, List.flatten_cons, List.flatten_nil, List.append_nil]
    · obtain ⟨sub, c1, c2⟩ := q.postings
      exact ⟨sub, c1.trans (by rw [g2]; exact List.sublist_append_left _ _), c2⟩

end Dinero
