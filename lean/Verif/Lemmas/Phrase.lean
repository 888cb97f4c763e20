import Verif.Spec.Phrase
import Verif.Lemmas.Grammar
/-
Reading expressions with few parentheses.
-/
namespace Dinero
open P

theorem Phrase.start {env : Env} {L : Nat} {ends : Ends} {stops : Bool} {e : Ast} {s : Str}
    (h : Phrase env L ends stops e s) :
    ∃ c r, s = c :: r ∧ c ≠ ' ' := by
  induction h with
  | operand h => exact h.start
  | number h => exact h.start
  | paren | not | neg => exact ⟨_, _, rfl, by decide⟩
  | @call _ _ op f _ _ hf _ =>
    cases op <;> simp only [funText, Option.some.injEq, reduceCtorEq] at hf <;> subst hf <;>
      exact ⟨_, _, rfl, by decide⟩
  | up _ ih => exact ih
  | chain _ _ _ _ _ _ _ ih _ _ =>
    obtain ⟨c, r, rfl, hc⟩ := ih
    exact ⟨_, _, rfl, hc⟩

theorem Phrase.skip {env : Env} {L : Nat} {ends : Ends} {stops : Bool} {e : Ast} {s : Str}
    (h : Phrase env L ends stops e s) (k : Str) :
    skip (s ++ k) = s ++ k := by
  obtain ⟨c, r, rfl, hc⟩ := h.start
  exact skip_cons_ne hc

/-- What may follow a piece of level `L` that ends so: a closing parenthesis, or an operator of the level or above. -/
def Next (L : Nat) (ends : Ends) (k : Str) : Prop :=
  (∃ k', k = ')' :: k') ∨
    ∃ (op : BinaryOp) (k' : Str), L ≤ op.level ∧ ends.before op.level ∧ k = ' ' :: op.text ++ ' ' :: k'

theorem Next.skip {L : Nat} {ends : Ends} {k : Str} (h : Next L ends k) :
    Dinero.skip (Dinero.skip k) = Dinero.skip k ∧ ∀ i < L, lvlOp i (Dinero.skip k) = none ∧ lvlOp i k = none := by
  rcases h with ⟨k', rfl⟩ | ⟨op, k', h1, _, rfl⟩
  · rw [skip_close, skip_close]
    exact ⟨rfl, fun i _ => ⟨lvlOp_close i k', lvlOp_close i k'⟩⟩
  · obtain ⟨e1, e2, _⟩ := skip_op op (' ' :: k')
    rw [e1, e2]
    refine ⟨rfl, fun i hi => ⟨lvlOp_lower op i (by omega) _, ?_⟩⟩
    unfold lvlOp
    split <;> exact rule_none (by rfl)

theorem Reads.step {env : Env} {n L : Nat} {s k : Str} {e : Ast} (h : Reads env (lvlP env n L) s k e)
    (ho : lvlOp L (Dinero.skip k) = none) : Reads env (lvlP env n (L + 1)) s (Dinero.skip k) e :=
  Reads.single (lvlRule_level L) h (op := lvlOp L) ho

/-- The text of operators and operands. -/
def operandsText (items : List Operand) : Str := chainText (items.map (fun i => (i.op, i.text)))

theorem operandsText_cons (i : Operand) (items : List Operand) (k : Str) :
    operandsText (i :: items) ++ k = ' ' :: i.op.text ++ (' ' :: (i.text ++ (operandsText items ++ k))) := by
  simp [operandsText, chainText]

theorem operandsText_next {L : Nat} {ends : Ends} {i : Operand} (items : List Operand) (k : Str) (h : i.op.level = L)
    (he : ends.before L) : Next L ends (operandsText (i :: items) ++ k) := by
  refine .inr ⟨i.op, i.text ++ (operandsText items ++ k), h ▸ Nat.le_refl _, by rw [h]; exact he, ?_⟩
  exact operandsText_cons i items k

/-- One operator with its operand. -/
theorem operand_step {env : Env} {n L : Nat} {i : Operand} {k k' : Str} (hl : i.op.level = L)
    (hs : skip (i.text ++ k) = i.text ++ k) (h : Reads env (lvlP env n L) (i.text ++ k) k' i.tree) :
    ∃ po pr, seq (lvlOp L) (seq wss (lvlP env n L)) (i.op.text ++ ' ' :: (i.text ++ k)) = some ([po, pr], k') ∧
      binaryOf (lvlRule L) po.text = .ok i.op ∧ buildAst env pr = .ok i.tree := by
  obtain ⟨po, h1, h2⟩ := lvlOp_self i.op (i.text ++ k)
  rw [hl] at h1 h2
  obtain ⟨pr, h3, h4⟩ := h
  refine ⟨po, pr, ?_, h2, h4⟩
  have hsk : skip (' ' :: (i.text ++ k)) = i.text ++ k := by rw [skip_space, hs]
  exact seq_some h1 (seq_some (wss_eq _) (by
    rw [show List.dropWhile _ _ = skip (' ' :: (i.text ++ k)) from rfl, hsk]
    exact h3))

/-- The operators and operands of a chain are all read. -/
theorem operands_star {env : Env} {n L : Nat} {last : Operand} {k k' : Str} (mid : List Operand)
    (hops : ∀ i ∈ mid ++ [last], i.op.level = L) (hskip : ∀ i ∈ mid ++ [last], ∀ k, skip (i.text ++ k) = i.text ++ k)
    (hb : ∀ i ∈ mid, i.ends.before L)
    (hmid : ∀ i ∈ mid, ∀ k, Next L i.ends k → Reads env (lvlP env n L) (i.text ++ k) (skip k) i.tree)
    (hlast : Reads env (lvlP env n L) (last.text ++ k) k' last.tree) (hk : lvlOp L k' = none) :
    ∀ fuel, mid.length + 1 ≤ fuel → ∃ first rest po pr ps, mid ++ [last] = first :: rest ∧
      starN (seq (lvlOp L) (seq wss (lvlP env n L))) fuel (skip (operandsText (mid ++ [last]) ++ k)) =
        some (po :: pr :: ps, k') ∧
      binaryOf (lvlRule L) po.text = .ok first.op ∧ buildAst env pr = .ok first.tree := by
  induction mid with
  | nil =>
    intro fuel hf
    obtain ⟨fuel, rfl⟩ : ∃ m, fuel = m + 1 := ⟨fuel - 1, by omega⟩
    obtain ⟨po, pr, h1, h2, h3⟩ := operand_step (hops last (by simp)) (hskip last (by simp) k) hlast
    refine ⟨last, [], po, pr, [], rfl, ?_, h2, h3⟩
    rw [List.nil_append, operandsText_cons, (skip_op last.op _).1]
    have h0 : seq (lvlOp L) (seq wss (lvlP env n L)) k' = none := seq_none hk
    have e0 : operandsText [] ++ k = k := rfl
    rw [e0]
    simp only [starN, h1]
    cases fuel with
    | zero => rfl
    | succ fuel => simp only [starN, h0]; rfl
  | cons i mid ih =>
    intro fuel hf
    obtain ⟨fuel, rfl⟩ : ∃ m, fuel = m + 1 := ⟨fuel - 1, by omega⟩
    obtain ⟨first, rest, po', pr', ps, hfr, hst, _, _⟩ := ih (fun j hj => hops j (by simp at hj ⊢; tauto))
      (fun j hj => hskip j (by simp at hj ⊢; tauto)) (fun j hj => hb j (by simp [hj]))
      (fun j hj => hmid j (by simp [hj])) fuel (by simp at hf; omega)
    have hnext : Next L i.ends (operandsText (mid ++ [last]) ++ k) := by
      rw [hfr]
      refine operandsText_next rest k (hops first ?_) (hb i (by simp))
      rw [List.cons_append, hfr]; simp
    obtain ⟨po, pr, h1, h2, h3⟩ := operand_step (hops i (by simp)) (hskip i (by simp) _) (hmid i (by simp) _ hnext)
    refine ⟨i, mid ++ [last], po, pr, po' :: pr' :: ps, rfl, ?_, h2, h3⟩
    rw [List.cons_append, operandsText_cons, (skip_op i.op _).1]
    simp only [starN, h1, hst]
    rfl

theorem operandsText_count (items : List Operand) : items.length ≤ (operandsText items).length := by
  have := chainText_count (items.map (fun i => (i.op, i.text)))
  simpa [operandsText] using this

theorem operandsText_length {items : List Operand} {i : Operand} (h : i ∈ items) :
    i.text.length ≤ (operandsText items).length :=
  chainText_length (items := items.map (fun i => (i.op, i.text))) (List.mem_map.mpr ⟨i, h, rfl⟩)

/-- Expressions with few parentheses are read as the levels of the operators say. -/
theorem Phrase.reads {env : Env} (ha : env.AsciiSep) {L : Nat} {ends : Ends} {stops : Bool} {e : Ast} {s : Str}
    (h : Phrase env L ends stops e s) : ∀ n k, s.length ≤ n → Next L ends k →
      Reads env (lvlP env n L) (s ++ k) (if stops then k else Dinero.skip k) e := by
  have inner : ∀ {ends : Ends} {stops : Bool} {e : Ast} {s : Str},
      (∀ n k, s.length ≤ n → Next 5 ends k →
        Reads env (lvlP env n 5) (s ++ k) (if stops then k else Dinero.skip k) e) →
      ∀ n k, s.length < n → ReadsExpr env n (s ++ ')' :: k) (')' :: k) e := by
    intro ends stops e s ih n k hn
    obtain ⟨n, rfl⟩ : ∃ m, n = m + 1 := ⟨n - 1, by omega⟩
    have h3 := ih n (')' :: k) (by omega) (.inl ⟨k, rfl⟩)
    rw [skip_close, ite_self] at h3
    exact Reads.expr h3
  induction h with
  | operand h =>
    intro n k hn hk
    refine h.readBack ha n k hn ?_
    rcases hk with hk | ⟨op, k', _, _, hk⟩
    · exact .inl hk
    · exact .inr ⟨op, k', hk⟩
  | number h =>
    intro n k hn hk
    refine h.readBack ha n k hn ?_
    rcases hk with hk | ⟨op, k', _, hb, hk⟩
    · exact .inl hk
    · refine .inr ⟨op, k', ?_, ?_, hk⟩ <;> rintro rfl <;> simp [BinaryOp.level, Ends.before] at hb
  | @paren ends stops e s hw ih =>
    intro n k hn _
    simp only [List.length_append, List.length_cons, List.length_nil] at hn
    exact reads_paren (hw.skip _) (inner ih n k (by omega))
  | @call ends stops op f e s hf hw ih =>
    intro n k hn _
    simp only [List.length_append, List.length_cons, List.length_nil] at hn
    have hfl : f ≠ [] := by rintro rfl; cases op <;> simp [funText] at hf
    have := List.length_pos_iff.mpr hfl
    exact reads_call ha hf (hw.skip _) (inner ih n k (by omega))
  | @not ends stops e s hw ih =>
    intro n k hn hk
    rcases hk with ⟨k', rfl⟩ | ⟨_, _, _, hb, _⟩
    · have hlen : s.length + 4 ≤ n := by
        have : ("not ".toList).length = 4 := by decide
        rw [List.length_append, this] at hn
        omega
      have h2 : Dinero.skip (' ' :: (s ++ ')' :: k')) = s ++ ')' :: k' := by rw [skip_space, hw.skip]
      exact reads_unary (s := ' ' :: (s ++ ')' :: k')) (.inl ⟨rfl, rfl⟩) (h2.symm ▸ inner ih n k' (by omega))
    · exact hb.elim
  | @neg ends stops e s hw ih =>
    intro n k hn hk
    rcases hk with ⟨k', rfl⟩ | ⟨_, _, _, hb, _⟩
    · simp only [List.length_cons] at hn
      have h2 : Dinero.skip (s ++ ')' :: k') = s ++ ')' :: k' := hw.skip _
      exact reads_unary (s := s ++ ')' :: k') (.inr ⟨rfl, rfl⟩) (h2.symm ▸ inner ih n k' (by omega))
    · exact hb.elim
  | @up L ends stops e s hw ih =>
    intro n k hn hk
    obtain ⟨h1, h2⟩ := hk.skip
    have h3 := ih n k hn (hk.imp id (fun ⟨op, k', a, b⟩ => ⟨op, k', by omega, b⟩))
    have hsk : Dinero.skip (if stops then k else Dinero.skip k) = Dinero.skip k := by
      cases stops; exacts [h1, rfl]
    have := h3.step (by rw [hsk]; exact (h2 L (by omega)).1)
    rwa [hsk] at this
  | @chain L ends stops l sl first last mid rest hfr hops hl hbl hmid hbmid hlast ihl ihmid ihlast =>
    intro n k hn hk
    change (sl ++ operandsText (first :: rest)).length ≤ n at hn
    show Reads env _ (sl ++ operandsText (first :: rest) ++ k) _ _
    rw [← hfr] at hops hn ⊢
    rw [List.length_append] at hn
    obtain ⟨hs1, hs2⟩ := hk.skip
    have hlen : ∀ i ∈ mid ++ [last], i.text.length ≤ n := fun i hi => by
      have := operandsText_length hi; omega
    have hlr := ihlast n k (hlen last (by simp))
      (hk.imp id (fun ⟨op, k', a, b⟩ => ⟨op, k', by omega, b⟩))
    have hop' : lvlOp L (if last.stops then k else Dinero.skip k) = none := by
      cases last.stops
      exacts [(hs2 L (by omega)).1, (hs2 L (by omega)).2]
    have hmr : ∀ i ∈ mid, ∀ k, Next L i.ends k → Reads env (lvlP env n L) (i.text ++ k) (Dinero.skip k) i.tree := by
      intro i hi k hk
      have hi' := ihmid i hi n k (hlen i (by simp [hi])) hk
      rw [(hbmid i hi).2] at hi'
      exact hi'
    have hskip : ∀ i ∈ mid ++ [last], ∀ k, Dinero.skip (i.text ++ k) = i.text ++ k := by
      intro i hi k
      rcases List.mem_append.mp hi with hi | hi
      · exact (hmid i hi).skip k
      · rw [List.mem_singleton.mp hi]; exact hlast.skip k
    have hnext : Next L ends (operandsText (mid ++ [last]) ++ k) := by
      rw [hfr]
      exact operandsText_next rest k (hops first (by rw [hfr]; simp)) hbl
    obtain ⟨pl, hpl, hbl'⟩ := ihl n _ (by omega) hnext
    have hfuel : mid.length + 1 ≤ (Dinero.skip (operandsText (mid ++ [last]) ++ k)).length := by
      have h1 := operandsText_count rest
      have h2 : mid.length + 1 = rest.length + 1 := by
        have := congrArg List.length hfr
        simpa using this
      rw [hfr, operandsText_cons, (skip_op first.op _).1]
      simp only [List.length_append, List.length_cons]
      omega
    obtain ⟨first', rest', po, pr, ps, hfr', hst, hb1, hb2⟩ :=
      operands_star mid hops hskip (fun i hi => (hbmid i hi).1) hmr hlr hop' _ hfuel
    rw [hfr] at hfr'
    cases hfr'
    have hsky : Dinero.skip (if stops then operandsText (mid ++ [last]) ++ k
        else Dinero.skip (operandsText (mid ++ [last]) ++ k)) = Dinero.skip (operandsText (mid ++ [last]) ++ k) := by
      cases stops
      exacts [hnext.skip.1, rfl]
    generalize (if stops then operandsText (mid ++ [last]) ++ k
        else Dinero.skip (operandsText (mid ++ [last]) ++ k)) = y at hpl hsky
    have h3 := seq_some (b := star (seq (lvlOp L) (seq wss (lvlP env n L)))) (wss_eq y) (by
      rw [show List.dropWhile _ _ = Dinero.skip y from rfl, hsky]; exact hst)
    obtain ⟨tx, h4⟩ := rule_some' (r := lvlRule L) (seq_some hpl h3)
    rw [List.append_assoc]
    refine ⟨_, h4, ?_⟩
    have hrl := lvlRule_level L
    generalize lvlRule L = rl at hrl hb1
    simp only [isLevel, List.mem_cons, List.not_mem_nil, or_false] at hrl
    rcases hrl with rfl | rfl | rfl | rfl | rfl <;> simp [buildAst, hbl', hb1, hb2]

theorem buildRoot_phrase {env : Env} (ha : env.AsciiSep) {ends : Ends} {stops : Bool} {e : Ast} {s : Str}
    (h : Phrase env 5 ends stops e s) (rest : Str) : buildRoot env ('(' :: s ++ ')' :: rest) = .ok e := by
  refine buildRoot_of_reads h.skip rest ?_
  have h3 := h.reads ha ((s ++ ')' :: rest).length) (')' :: rest) (by simp) (.inl ⟨rest, rfl⟩)
  rw [skip_close, ite_self] at h3
  exact Reads.expr h3

end Dinero
