import Verif.Spec.Question
import Verif.Lemmas.Phrase
import Verif.Lemmas.Query
/-
Reading the words of a question.
-/
namespace Dinero

theorem Phrase.lift {env : Env} {L : Nat} {ends : Ends} {stops : Bool} {e : Ast} {s : Str}
    (h : Phrase env L ends stops e s) (m : Nat) : Phrase env (L + m + 1) ends false e s := by
  induction m with
  | zero => exact .up h
  | succ m ih => exact .up ih

/-- One operator between two operands. -/
theorem Phrase.two {env : Env} {op : BinaryOp} {ends ends' : Ends} {stops stops' : Bool} {l r : Ast} {sl sr : Str}
    (hl : Phrase env op.level ends stops l sl) (hb : ends.before op.level) (hr : Phrase env op.level ends' stops' r sr) :
    Phrase env (op.level + 1) ends' stops' (.binary op l r) (sl ++ ' ' :: op.text ++ ' ' :: sr) := by
  have := Phrase.chain (env := env) (mid := []) (last := ⟨op, r, sr, ends', stops'⟩) (first := ⟨op, r, sr, ends', stops'⟩)
    (rest := []) rfl (by simp) hl hb (by simp) (by simp) hr
  simpa [chainText] using this

/-- Operands with the same operator between them. -/
theorem Phrase.join {env : Env} {op : BinaryOp} {es : List Ast} {ts : List Str} {e : Ast} {t : Str}
    (h : List.Forall₂ (fun e t => Phrase env op.level .closed false e t) (e :: es) (t :: ts)) :
    Phrase env (op.level + 1) .closed false (joined op (e :: es)) (t ++ chainText (ts.map (fun t => (op, t)))) := by
  cases h with
  | cons h1 h2 =>
    cases h2 with
    | nil => simpa [joined, chainText] using Phrase.up h1
    | @cons a u es ts h3 h4 =>
      have key : ∀ {es : List Ast} {ts : List Str},
          List.Forall₂ (fun e t => Phrase env op.level .closed false e t) es ts → ∃ items : List Operand,
            (∀ i ∈ items, i.op = op ∧ i.ends = .closed ∧ i.stops = false ∧ Phrase env op.level i.ends i.stops i.tree i.text) ∧
            items.map (fun i => (i.op, i.text)) = ts.map (fun t => (op, t)) := by
        intro es ts h
        induction h with
        | nil => exact ⟨[], by simp, rfl⟩
        | @cons e t es ts h _ ih =>
          obtain ⟨items, g1, g2⟩ := ih
          refine ⟨⟨op, e, t, .closed, false⟩ :: items, ?_, by simp [g2]⟩
          intro i hi
          rcases List.mem_cons.mp hi with rfl | hi
          · exact ⟨rfl, rfl, rfl, h⟩
          · exact g1 i hi
      obtain ⟨items, g1, g2⟩ := key h4
      have hall : ∀ i ∈ (⟨op, a, u, .closed, false⟩ : Operand) :: items,
          i.op = op ∧ i.ends = .closed ∧ i.stops = false ∧ Phrase env op.level i.ends i.stops i.tree i.text := by
        intro i hi
        rcases List.mem_cons.mp hi with rfl | hi
        · exact ⟨rfl, rfl, rfl, h3⟩
        · exact g1 i hi
      have hne : (⟨op, a, u, .closed, false⟩ : Operand) :: items ≠ [] := by simp
      have hsplit := List.dropLast_append_getLast hne
      generalize hm : ((⟨op, a, u, .closed, false⟩ : Operand) :: items).dropLast = mid at hsplit
      generalize hg : ((⟨op, a, u, .closed, false⟩ : Operand) :: items).getLast hne = last at hsplit
      have hlast := hall last (by rw [← hsplit]; simp)
      have hmid : ∀ i ∈ mid, _ := fun i hi => hall i (by rw [← hsplit]; simp [hi])
      have := Phrase.chain (env := env) (L := op.level) hsplit (fun i hi => by rw [(hall i hi).1]) h1 trivial
        (fun i hi => (hmid i hi).2.2.2)
        (fun i hi => ⟨by rw [(hmid i hi).2.1]; trivial, (hmid i hi).2.2.1⟩) hlast.2.2.2
      rw [hlast.2.1, hlast.2.2.1, List.map_cons, g2] at this
      exact this

/-- What stands in front of the next term. -/
def QueryState.conn (st : QueryState) : Str :=
  if st.first then [] else if st.and then " and ".toList else " or ".toList

theorem queryStep_term {env : Env} {st : QueryState} {s : Str} (ht : trim env s = s) (hne : s ≠ []) (hk : ¬ IsKeyword s) :
    queryStep env st s = { expression := st.expression ++ st.conn ++ ('(' :: wrapTerm st.expr s ++ [')']),
                           and := false, first := false, expr := false } := by
  simp only [IsKeyword, not_or] at hk
  unfold queryStep QueryState.conn
  rw [ht]
  simp only [if_neg hne, if_neg hk.1, if_neg hk.2.1, if_neg hk.2.2]
  congr 1
  have e1 : " or (".toList = " or ".toList ++ "(".toList := by decide
  have e2 : " and (".toList = " and ".toList ++ "(".toList := by decide
  have e3 : "(".toList = ['('] := by decide
  have e4 : ")".toList = [')'] := by decide
  cases st.first <;> cases st.and <;>
    simp [e1, e2, e3, e4, List.append_assoc]

theorem not_keyword_cons {c : Char} {r : Str} (h1 : c ≠ 'a') (h2 : c ≠ 'o') (h3 : c ≠ 'e') : ¬ IsKeyword (c :: r) := by
  have e1 : "and".toList = 'a' :: ['n', 'd'] := by decide
  have e2 : "or".toList = 'o' :: ['r'] := by decide
  have e3 : "expr".toList = 'e' :: ['x', 'p', 'r'] := by decide
  unfold IsKeyword
  rw [e1, e2, e3]
  rintro (h | h | h) <;> injection h <;> contradiction

theorem slash_free {p : Str} (h : '/' ∉ p) : '/' ∉ "(?i)".toList ++ p := by
  intro hm
  rcases List.mem_append.mp hm with hm | hm
  · revert hm; decide
  · exact h hm

/-- A term adds its expression in parentheses. -/
theorem Term.step {env : Env} {w : List Str} {e : Ast} (h : Term env w e) :
    ∃ s ends stops, Phrase env 5 ends stops e s ∧ ∀ st : QueryState, st.expr = false →
      w.foldl (queryStep env) st = { expression := st.expression ++ st.conn ++ ('(' :: s ++ [')']),
                                     and := false, first := false, expr := false } := by
  have hwrite : ∀ {e : Ast} {s : Str}, Writes env .operand e s → Phrase env 2 .closed false e s :=
    fun h => (Phrase.operand h).lift 1
  have heq : ∀ {a : Ast} {x pat : Str}, Writes env .operand a x → '/' ∉ pat → env.rxOk pat = true →
      Phrase env 5 .closed false (.binary .eq a (.regex pat)) (x ++ ' ' :: BinaryOp.eq.text ++ ' ' :: ('/' :: pat ++ ['/'])) := by
    intro a x pat h1 h2 h3
    exact (Phrase.two (op := .eq) (hwrite h1) trivial (hwrite (.regex h2 h3))).lift 1
  have hone : ∀ {s x : Str}, trim env s = s → s ≠ [] → ¬ IsKeyword s → wrapTerm false s = x → ∀ st : QueryState,
      st.expr = false → [s].foldl (queryStep env) st =
        { expression := st.expression ++ st.conn ++ ('(' :: x ++ [')']), and := false, first := false, expr := false } := by
    intro s x h1 h2 h3 h4 st hst
    rw [List.foldl_cons, List.foldl_nil, queryStep_term h1 h2 h3, hst, h4]
  have e1 : "account =~ /(?i)".toList = "account".toList ++ ' ' :: BinaryOp.eq.text ++ ' ' :: '/' :: "(?i)".toList := by decide
  have e2 : "payee =~ /(?i)".toList = "payee".toList ++ ' ' :: BinaryOp.eq.text ++ ' ' :: '/' :: "(?i)".toList := by decide
  have e3 : "has_tag(/(?i)".toList = "has_tag".toList ++ '(' :: '/' :: "(?i)".toList := by decide
  have e4 : "/".toList = ['/'] := by decide
  have e5 : "/)".toList = ['/', ')'] := by decide
  have e6 : "account =~ ".toList = "account".toList ++ ' ' :: BinaryOp.eq.text ++ [' '] := by decide
  cases h with
  | @account p h =>
    refine ⟨_, _, _, heq .account (slash_free h.noSlash) h.compiles, hone h.trimmed h.nonempty h.noKeyword ?_⟩
    obtain ⟨c, r, rfl⟩ := List.exists_cons_of_ne_nil h.nonempty
    rw [wrapTerm_plain]
    · rw [e1, e4]; simp
    · rintro rfl; exact h.noSigil.1 rfl
    · rintro rfl; exact h.noSigil.2 rfl
    · rintro rfl; exact h.noSlash (List.mem_cons_self ..)
  | @payee p h1 h2 h3 =>
    refine ⟨_, _, _, heq .payee (slash_free h2) h3,
      hone h1 (by simp) (not_keyword_cons (by decide) (by decide) (by decide)) ?_⟩
    unfold wrapTerm
    simp [e2, e4]
  | @tag p h1 h2 h3 =>
    refine ⟨_, _, _, (Phrase.operand (.call (op := .hasTag) (f := "has_tag".toList) (by decide)
      (.operandAlone (.regex (slash_free h2) h3)))).lift 4,
      hone h1 (by simp) (not_keyword_cons (by decide) (by decide) (by decide)) ?_⟩
    unfold wrapTerm
    simp [e3, e5]
  | @regex p h1 h2 h3 =>
    refine ⟨_, _, _, heq .account h2 h3,
      hone h1 (by simp) (not_keyword_cons (by decide) (by decide) (by decide)) ?_⟩
    unfold wrapTerm
    simp [e6]
  | @expr s ends stops e h0 h1 h2 h3 =>
    refine ⟨_, _, _, h3, fun st hst => ?_⟩
    obtain ⟨c, r, rfl, _⟩ := h3.start
    have hx : queryStep env st "expr".toList = { st with expr := true } := by
      unfold queryStep
      rw [h0]
      simp
    rw [List.foldl_cons, hx, List.foldl_cons, List.foldl_nil, queryStep_term h1 (by simp) h2]
    rfl

theorem Group.fold {env : Env} (hand : trim env "and".toList = "and".toList) {ws : List Str} {es : List Ast}
    (h : Group env ws es) :
    ∃ e es' t ts, es = e :: es' ∧ List.Forall₂ (fun e t => Phrase env 3 .closed false e t) (e :: es') (t :: ts) ∧
      ∀ st : QueryState, st.expr = false → ws.foldl (queryStep env) st =
        { expression := st.expression ++ st.conn ++ (t ++ chainText (ts.map (fun t => (.and, t)))),
          and := false, first := false, expr := false } := by
  induction h with
  | one h =>
    obtain ⟨s, ends, stops, h1, h2⟩ := h.step
    refine ⟨_, [], _, [], rfl, .cons ((Phrase.paren h1).lift 2) .nil, fun st hst => ?_⟩
    rw [h2 st hst]
    simp [chainText]
  | @and w ws e es h _ ih =>
    obtain ⟨s, ends, stops, h1, h2⟩ := h.step
    obtain ⟨e', es', t, ts, rfl, g1, g2⟩ := ih
    refine ⟨_, _, _, t :: ts, rfl, .cons ((Phrase.paren h1).lift 2) g1, fun st hst => ?_⟩
    rw [List.foldl_append, h2 st hst, List.foldl_cons]
    have hx : ∀ st : QueryState, queryStep env st "and".toList = { st with and := true } := by
      intro st
      unfold queryStep
      rw [hand]
      simp
    rw [hx, g2 _ rfl]
    have e1 : " and ".toList = ' ' :: BinaryOp.and.text ++ [' '] := by decide
    simp [QueryState.conn, chainText, e1]

theorem Question.fold {env : Env} (hand : trim env "and".toList = "and".toList) (hor : trim env "or".toList = "or".toList)
    {ws : List Str} {ess : List (List Ast)} (h : Question env ws ess) :
    ∃ e es t ts, ess.map (joined .and) = e :: es ∧
      List.Forall₂ (fun e t => Phrase env 4 .closed false e t) (e :: es) (t :: ts) ∧
      ∀ st : QueryState, st.expr = false → st.and = false → ∃ conn : Str, conn = (if st.first then [] else " or ".toList) ∧
        ws.foldl (queryStep env) st = { expression := st.expression ++ conn ++ (t ++ chainText (ts.map (fun t => (.or, t)))),
                                        and := false, first := false, expr := false } := by
  have hx : ∀ st : QueryState, queryStep env st "or".toList = { st with and := false } := by
    intro st
    unfold queryStep
    rw [hor]
    simp
  have hconn : ∀ st : QueryState, st.and = false → st.conn = if st.first then [] else " or ".toList := by
    intro st hst
    unfold QueryState.conn
    rw [hst]
    rfl
  have e1 : " or ".toList = ' ' :: BinaryOp.or.text ++ [' '] := by decide
  induction h with
  | one h =>
    obtain ⟨e, es, t, ts, rfl, g1, g2⟩ := h.fold hand
    refine ⟨_, [], _, [], rfl, .cons (Phrase.join (op := .and) g1) .nil, fun st h1 h2 => ⟨_, hconn st h2, ?_⟩⟩
    rw [g2 st h1]
    simp [chainText]
  | @next ws r es ess h _ ih =>
    obtain ⟨e, es, t, ts, rfl, g1, g2⟩ := h.fold hand
    obtain ⟨e', es', t', ts', k1, k2, k3⟩ := ih
    refine ⟨_, e' :: es', _, t' :: ts', by rw [List.map_cons, k1], .cons (Phrase.join (op := .and) g1) k2,
      fun st h1 h2 => ⟨_, hconn st h2, ?_⟩⟩
    rw [List.foldl_append, g2 st h1]
    obtain ⟨conn, hc, hf⟩ := k3
      { expression := st.expression ++ st.conn ++ (t ++ chainText (ts.map (fun t => (.and, t)))),
        and := false, first := false, expr := false } rfl rfl
    rw [hf, hc]
    simp [chainText, e1]
  | @or ws r es ess h _ ih =>
    obtain ⟨e, es, t, ts, rfl, g1, g2⟩ := h.fold hand
    obtain ⟨e', es', t', ts', k1, k2, k3⟩ := ih
    refine ⟨_, e' :: es', _, t' :: ts', by rw [List.map_cons, k1], .cons (Phrase.join (op := .and) g1) k2,
      fun st h1 h2 => ⟨_, hconn st h2, ?_⟩⟩
    rw [List.foldl_append, g2 st h1, List.foldl_cons, hx]
    obtain ⟨conn, hc, hf⟩ := k3
      { expression := st.expression ++ st.conn ++ (t ++ chainText (ts.map (fun t => (.and, t)))),
        and := false, first := false, expr := false } rfl rfl
    rw [hf, hc]
    simp [chainText, e1]

theorem buildRoot_question {env : Env} (ha : env.AsciiSep) (hand : trim env "and".toList = "and".toList)
    (hor : trim env "or".toList = "or".toList) {ws : List Str} {ess : List (List Ast)} (h : Question env ws ess) :
    buildRoot env (preprocessQuery env ws) = .ok (joined .or (ess.map (joined .and))) ∧
      (preprocessQuery env ws).length > 2 := by
  obtain ⟨e, es, t, ts, h1, h2, h3⟩ := h.fold hand hor
  obtain ⟨conn, hc, hf⟩ := h3 {} rfl rfl
  have hj := Phrase.join (op := .or) h2
  have e1 : "(".toList = ['('] := by decide
  have e2 : ")".toList = [')'] := by decide
  have ht : preprocessQuery env ws = '(' :: (t ++ chainText (ts.map (fun t => (BinaryOp.or, t)))) ++ ')' :: [] := by
    unfold preprocessQuery
    rw [hf, hc, e1, e2]
    simp
  rw [h1, ht]
  refine ⟨buildRoot_phrase ha hj [], ?_⟩
  obtain ⟨c, r, hr, _⟩ := hj.start
  simp only [hr, List.length_append, List.length_cons, List.length_nil]
  omega

theorem queryNode_question {env : Env} (ha : env.AsciiSep) (hand : trim env "and".toList = "and".toList)
    (hor : trim env "or".toList = "or".toList) {ws : List Str} {ess : List (List Ast)} (h : Question env ws ess) :
    queryNode env ws = .ok (some (joined .or (ess.map (joined .and)))) := by
  obtain ⟨h1, h2⟩ := buildRoot_question ha hand hor h
  unfold queryNode
  simp only [h2, h1, if_true]

end Dinero
