import Verif.Spec.Query
import Verif.Lemmas.Grammar
/-
Helper lemmas on queries.
-/
namespace Dinero

/-! ### preprocess_query -/

theorem wraps_wrapTerm (q : QueryTerm) (hq : q.term ≠ []) :
    Wraps q (wrapTerm (decide ("expr".toList ∈ q.kws)) q.term) := by
  obtain ⟨kws, term⟩ := q
  by_cases h : "expr".toList ∈ kws
  · simp only [wrapTerm, h, decide_true, if_true]
    exact .expr h
  · cases term with
    | nil => exact absurd rfl hq
    | cons c r =>
      simp only [wrapTerm, h, decide_false]
      by_cases h1 : c = '@'
      · subst h1; simpa using Wraps.payee (r := r) h
      · by_cases h2 : c = '%'
        · subst h2; simpa using Wraps.tag (r := r) h
        · by_cases h3 : c = '/'
          · subst h3; simpa using Wraps.regex (r := r) h
          · simpa [h1, h2, h3] using Wraps.account (r := r) h h1 h2 h3

/-- What the loop of `preprocess_query` has seen so far. -/
structure QuerySeen (env : Env) (query : List Str) (st : QueryState) (qs : List QueryTerm)
    (trailing : List Str) : Prop where
  words : (query.map (trim env)).filter (· ≠ []) = qs.flatMap QueryTerm.words ++ trailing
  kws : ∀ q ∈ qs, (∀ k ∈ q.kws, IsKeyword k) ∧ ¬ IsKeyword q.term ∧ q.term ≠ []
  trail : ∀ k ∈ trailing, IsKeyword k
  text : QueryText qs st.expression
  first : st.first = true ↔ qs = []
  and : st.and = decide ((trailing.filter (· ≠ "expr".toList)).getLast? = some "and".toList)
  expr : st.expr = decide ("expr".toList ∈ trailing)

theorem querySeen (env : Env) (query : List Str) :
    ∃ qs trailing, QuerySeen env query (query.foldl (queryStep env) {}) qs trailing := by
  induction query using List.reverseRecOn with
  | nil => exact ⟨[], [], by simp, by simp, by simp, .nil, by simp, by simp, by simp⟩
  | append_singleton query raw ih =>
    obtain ⟨qs, trailing, h⟩ := ih
    rw [List.foldl_append, List.foldl_cons, List.foldl_nil]
    generalize query.foldl (queryStep env) {} = st at h
    have hw : ((query ++ [raw]).map (trim env)).filter (· ≠ []) =
        qs.flatMap QueryTerm.words ++ trailing ++ (if trim env raw = [] then [] else [trim env raw]) := by
      rw [List.map_append, List.filter_append, h.words]
      by_cases h0 : trim env raw = [] <;> simp [h0]
    unfold queryStep
    by_cases h0 : trim env raw = []
    · rw [if_pos h0] at hw ⊢
      exact ⟨qs, trailing, by simpa using hw, h.kws, h.trail, h.text, h.first, h.and, h.expr⟩
    · rw [if_neg h0] at hw ⊢
      by_cases h1 : trim env raw = "and".toList
      · rw [if_pos h1]
        refine ⟨qs, trailing ++ ["and".toList], by rw [hw, h1, List.append_assoc], h.kws, ?_, h.text,
          h.first, ?_, ?_⟩
        · intro k hk; rcases List.mem_append.mp hk with hk | hk
          · exact h.trail k hk
          · left; simpa using hk
        · simp
        · show st.expr = _
          rw [h.expr]; simp
      · rw [if_neg h1]
        by_cases h2 : trim env raw = "or".toList
        · rw [if_pos h2]
          refine ⟨qs, trailing ++ ["or".toList], by rw [hw, h2, List.append_assoc], h.kws, ?_, h.text,
            h.first, ?_, ?_⟩
          · intro k hk; rcases List.mem_append.mp hk with hk | hk
            · exact h.trail k hk
            · right; left; simpa using hk
          · simp
          · show st.expr = _
            rw [h.expr]; simp
        · rw [if_neg h2]
          by_cases h3 : trim env raw = "expr".toList
          · rw [if_pos h3]
            refine ⟨qs, trailing ++ ["expr".toList], by rw [hw, h3, List.append_assoc], h.kws, ?_, h.text,
              h.first, ?_, ?_⟩
            · intro k hk; rcases List.mem_append.mp hk with hk | hk
              · exact h.trail k hk
              · right; right; simpa using hk
            · show st.and = _
              rw [h.and]; simp
            · simp
          · rw [if_neg h3]
            have hk : ¬ IsKeyword (trim env raw) := by
              rintro (h | h | h)
              · exact h1 h
              · exact h2 h
              · exact h3 h
            have hwr := wraps_wrapTerm ⟨trailing, trim env raw⟩ h0
            simp only [← h.expr] at hwr
            refine ⟨qs ++ [⟨trailing, trim env raw⟩], [], ?_, ?_, by simp, ?_, by simp, by simp, by simp⟩
            · rw [hw]; simp [QueryTerm.words]
            · intro q hq; rcases List.mem_append.mp hq with hq | hq
              · exact h.kws q hq
              · obtain rfl : q = ⟨trailing, trim env raw⟩ := by simpa using hq
                exact ⟨h.trail, hk, h0⟩
            · show QueryText _ (st.expression ++ _ ++ _ ++ _)
              by_cases hf : qs = []
              · have hst : st.expression = [] := by
                  have := h.text; subst hf; generalize st.expression = x at this
                  generalize hq : ([] : List QueryTerm) = y at this
                  cases this with
                  | nil => rfl
                  | one => cases hq
                  | snoc => simp at hq
                subst hf
                rw [if_pos (h.first.mpr rfl), hst]
                simpa using QueryText.one hwr
              · rw [if_neg (by rw [h.first]; exact hf)]
                have := QueryText.snoc hf h.text hwr
                unfold QueryTerm.connective at this
                simp only [h.and, decide_eq_true_eq]
                split <;> rename_i hc <;> simp only [hc, if_true, if_false] at this <;>
                  simpa using this

/-! ### Account patterns -/

/-- The text of an account pattern. -/
def accountText (p : Str) : Str := "(account =~ /(?i)".toList ++ p ++ "/)".toList

theorem wrapTerm_plain {c : Char} {r : Str} (h1 : c ≠ '@') (h2 : c ≠ '%') (h3 : c ≠ '/') :
    wrapTerm false (c :: r) = "account =~ /(?i)".toList ++ c :: r ++ "/".toList := by
  unfold wrapTerm
  rw [if_neg (by simp)]
  show (if c = '@' then _ else _) = _
  rw [if_neg h1, if_neg h2, if_neg h3]

theorem accountText_eq (p x : Str) :
    x ++ "(".toList ++ ("account =~ /(?i)".toList ++ p ++ "/".toList) ++ ")".toList =
      x ++ accountText p := by
  have e1 : "(account =~ /(?i)".toList = "(".toList ++ "account =~ /(?i)".toList := by decide
  have e2 : "/)".toList = "/".toList ++ ")".toList := by decide
  unfold accountText
  rw [e1, e2]; simp only [List.append_assoc]

theorem plain_step {env : Env} {p : Str} (h : PlainPattern env p) (st : QueryState) (he : st.expr = false)
    (ha : st.and = false) :
    queryStep env st p =
      { expression := st.expression ++ (if st.first then [] else " or ".toList) ++ accountText p,
        and := false, first := false, expr := false } := by
  have hk := h.noKeyword
  simp only [IsKeyword, not_or] at hk
  have hw : wrapTerm false p = "account =~ /(?i)".toList ++ p ++ "/".toList := by
    obtain ⟨c, r, rfl⟩ := List.exists_cons_of_ne_nil h.nonempty
    refine wrapTerm_plain ?_ ?_ ?_
    · rintro rfl; exact h.noSigil.1 rfl
    · rintro rfl; exact h.noSigil.2 rfl
    · rintro rfl; exact h.noSlash (List.mem_cons_self ..)
  unfold queryStep
  rw [h.trimmed]
  simp only [if_neg h.nonempty, if_neg hk.1, if_neg hk.2.1, if_neg hk.2.2, he, ha, hw]
  congr 1
  rw [← accountText_eq]
  cases st.first with
  | true => simp only [if_true, List.append_nil]
  | false =>
    have e1 : " or (".toList = " or ".toList ++ "(".toList := by decide
    simp only [Bool.false_eq_true, if_false]
    rw [e1]; simp only [List.append_assoc]

theorem plain_fold {env : Env} (ps : List Str) (h : ∀ p ∈ ps, PlainPattern env p) (st : QueryState)
    (he : st.expr = false) (ha : st.and = false) (hf : st.first = false) :
    (ps.foldl (queryStep env) st).expression =
      st.expression ++ chainText (ps.map (fun p => (.or, accountText p))) := by
  induction ps generalizing st with
  | nil => simp [chainText]
  | cons p ps ih =>
    rw [List.foldl_cons, plain_step (h p (by simp)) st he ha,
      ih (fun q hq => h q (by simp [hq])) _ rfl rfl rfl]
    simp [hf, chainText, BinaryOp.text]

theorem plain_query {env : Env} {p : Str} {ps : List Str} (hp : PlainPattern env p)
    (h : ∀ p ∈ ps, PlainPattern env p) :
    preprocessQuery env (p :: ps) =
      '(' :: (accountText p ++ chainText (ps.map (fun p => (.or, accountText p)))) ++ ')' :: [] := by
  unfold preprocessQuery
  rw [List.foldl_cons, plain_step hp {} rfl rfl, plain_fold ps h _ rfl rfl rfl]
  simp

/-- The expression of an account pattern. -/
abbrev accountAst (p : Str) : Ast := .binary .eq .account (.regex ("(?i)".toList ++ p))

theorem writes_account {env : Env} {p : Str} (h : PlainPattern env p) :
    Writes env .operand (accountAst p) (accountText p) := by
  have h1 : '/' ∉ "(?i)".toList ++ p := by
    intro hm
    rcases List.mem_append.mp hm with hm | hm
    · revert hm; decide
    · exact h.noSlash hm
  have h2 : Writes env .alone (accountAst p) _ :=
    Writes.binary (op := .eq) (env := env) .account (.regex h1 h.compiles)
  have h3 := Writes.paren h2
  have e : accountText p = '(' :: ("account".toList ++ ' ' :: BinaryOp.eq.text ++ ' ' ::
      ('/' :: ("(?i)".toList ++ p) ++ ['/'])) ++ [')'] := by
    have e1 : "(account =~ /(?i)".toList = '(' :: ("account".toList ++ ' ' :: BinaryOp.eq.text ++
      [' ', '/']) ++ "(?i)".toList := by decide
    have e2 : "/)".toList = ['/', ')'] := by decide
    unfold accountText
    rw [e1, e2]
    simp only [List.append_assoc, List.cons_append, List.nil_append]
  rw [e]
  exact h3

theorem query_long {env : Env} {p : Str} {ps : List Str} (hp : PlainPattern env p)
    (h : ∀ p ∈ ps, PlainPattern env p) : (preprocessQuery env (p :: ps)).length > 2 := by
  rw [plain_query hp h]
  have : 0 < (accountText p).length := by
    unfold accountText
    rw [List.length_append, List.length_append]
    have : ("(account =~ /(?i)".toList).length = 17 := by decide
    omega
  simp only [List.length_append, List.length_cons, List.length_nil]
  omega

theorem queryNode_one {env : Env} (ha : env.AsciiSep) {p : Str} (h : PlainPattern env p) :
    queryNode env [p] = .ok (some (accountAst p)) := by
  have h1 : buildRoot env (preprocessQuery env [p]) = .ok (accountAst p) := by
    rw [plain_query h (by simp)]
    have := buildRoot_writes ha (.operandAlone (writes_account h)) []
    simpa only [chainText, List.map_nil, List.append_nil] using this
  have hl := query_long h (ps := []) (by simp)
  unfold queryNode
  simp only [hl, h1, if_true]

theorem queryNode_many {env : Env} (ha : env.AsciiSep) {p q : Str} {ps : List Str}
    (hp : PlainPattern env p) (hq : PlainPattern env q) (h : ∀ p ∈ ps, PlainPattern env p) :
    queryNode env (p :: q :: ps) = .ok (some (.binary .or (accountAst p) (accountAst q))) := by
  have hall : ∀ r ∈ q :: ps, PlainPattern env r := by
    intro r hr; rcases List.mem_cons.mp hr with rfl | hr
    · exact hq
    · exact h r hr
  have h1 : buildRoot env (preprocessQuery env (p :: q :: ps)) =
      .ok (.binary .or (accountAst p) (accountAst q)) := by
    rw [plain_query hp hall]
    refine buildRoot_chain ha (op := .or) (by decide) (.inl (writes_account hp))
      (.inl (writes_account hq)) (ps.map (fun p => (.or, accountText p))) ?_ []
    intro i hi
    obtain ⟨r, hr, rfl⟩ := List.mem_map.mp hi
    exact ⟨rfl, _, .inl (writes_account (h r hr))⟩
  have hl := query_long hp hall
  unfold queryNode
  simp only [hl, h1, if_true]

theorem eval_account (env : Env) (t : Txn Posting) (pat : Str) (p : Posting) (st : Commodities) :
    eval env t (.binary .eq .account (.regex pat)) p st = .ok (.bool (env.rx pat p.account), st) := by
  simp [eval, evalBinary, evalEq]

/-! ### get_filter_query -/

theorem Unsplit.init {w : Str} {c : Char} (h : Unsplit (w ++ [c])) :
    Unsplit w ∧ (c = ' ' → ¬ Outside w) := by
  constructor
  · intro a b hab
    exact h a (b ++ [c]) (by rw [hab]; simp)
  · rintro rfl
    exact h w [] rfl

theorem fold_word (w : Str) (h : Unsplit w) (st : SplitState) (h1 : st.inString = false)
    (h2 : st.inRegex = false) :
    w.foldl splitStep st =
      { parts := st.parts, current := st.current ++ w.filter (· ≠ '"'),
        inString := decide (w.count '"' % 2 = 1), inRegex := decide (w.count '/' % 2 = 1) } := by
  induction w using List.reverseRecOn with
  | nil => obtain ⟨a, b, c, d⟩ := st; simp at h1 h2; simp [h1, h2]
  | append_singleton w c ih =>
    obtain ⟨hw, hc⟩ := h.init
    rw [List.foldl_append, List.foldl_cons, List.foldl_nil, ih hw]
    have hno : ¬ (c = ' ' ∧ ¬ (decide (w.count '"' % 2 = 1)) = true ∧ ¬ (decide (w.count '/' % 2 = 1)) = true) := by
      rintro ⟨hcs, h3, h4⟩
      simp only [decide_eq_true_eq] at h3 h4
      exact hc hcs ⟨by omega, by omega⟩
    unfold splitStep
    simp only [if_neg hno]
    have flip : ∀ n : Nat, (!decide (n % 2 = 1)) = decide ((n + 1) % 2 = 1) := by
      intro n; by_cases hn : n % 2 = 1 <;> simp [hn] <;> omega
    by_cases hq : c = '"'
    · subst hq
      simp [List.count_append, flip]
    · by_cases hr : c = '/'
      · subst hr
        simp [List.count_append, flip]
      · simp [hq, hr, List.count_append]

/-- Running over the remaining words. -/
theorem fold_words (words : List Str) (hne : words ≠ []) (hu : ∀ w ∈ words, Unsplit w)
    (hc : ∀ w ∈ words.dropLast, Outside w) (st : SplitState) (h1 : st.inString = false)
    (h2 : st.inRegex = false) :
    ((List.intercalate [' '] words).foldl splitStep st).parts ++
      [((List.intercalate [' '] words).foldl splitStep st).current] =
    st.parts ++ ((st.current ++ (words.head hne).filter (· ≠ '"')) ::
      words.tail.map (fun w => ' ' :: w.filter (· ≠ '"'))) := by
  induction words generalizing st with
  | nil => exact absurd rfl hne
  | cons w words ih =>
    cases words with
    | nil =>
      simp only [List.intercalate, List.intersperse, List.flatten_cons, List.flatten_nil,
        List.append_nil]
      rw [fold_word w (hu w (by simp)) st h1 h2]
      simp
    | cons v words =>
      have hcl : Outside w := hc w (by simp [List.dropLast])
      have e1 : List.intercalate [' '] (w :: v :: words) =
          w ++ (' ' :: List.intercalate [' '] (v :: words)) := by simp [List.intercalate]
      rw [e1, List.foldl_append, fold_word w (hu w (by simp)) st h1 h2, List.foldl_cons]
      have hstep : splitStep
          { parts := st.parts, current := st.current ++ w.filter (· ≠ '"'),
            inString := decide (w.count '"' % 2 = 1), inRegex := decide (w.count '/' % 2 = 1) } ' ' =
          { parts := st.parts ++ [st.current ++ w.filter (· ≠ '"')], current := [' '],
            inString := false, inRegex := false } := by
        have a1 : decide (w.count '"' % 2 = 1) = false := by have := hcl.1; simp; omega
        have a2 : decide (w.count '/' % 2 = 1) = false := by have := hcl.2; simp; omega
        rw [a1, a2]
        simp [splitStep]
      rw [hstep, ih (by simp) (fun x hx => hu x (by simp [hx]))
        (fun x hx => hc x (by simp only [List.dropLast_cons_cons]; simp [hx])) _ rfl rfl]
      simp

theorem splitQuery_spec {text : Str} {words : List Str} (h : IsSplit text words) :
    splitQuery text = (words.head h.nonempty).filter (· ≠ '"') ::
      words.tail.map (fun w => ' ' :: w.filter (· ≠ '"')) := by
  unfold splitQuery
  have := fold_words words h.nonempty h.unsplit h.closed {} rfl rfl
  rw [← h.joined] at this
  simpa using this

theorem trim_space {env : Env} (h : env.ws ' ' = true) (s : Str) : trim env (' ' :: s) = trim env s := by
  simp [trim, h]

theorem query_congr {env : Env} (a b : List Str) (h : a.map (trim env) = b.map (trim env)) :
    preprocessQuery env a = preprocessQuery env b := by
  have hstep : ∀ (l : List Str) (st : QueryState), l.foldl (queryStep env) st =
      (l.map (trim env)).foldl (fun st t =>
        if t = [] then st
        else if t = "and".toList then { st with and := true }
        else if t = "or".toList then { st with and := false }
        else if t = "expr".toList then { st with expr := true }
        else
          { expression := st.expression ++
              (if st.first then "(".toList else if st.and then " and (".toList else " or (".toList) ++
              wrapTerm st.expr t ++ ")".toList,
            and := false, expr := false, first := false }) st := by
    intro l
    induction l with
    | nil => intro st; rfl
    | cons x l ih => intro st; rw [List.foldl_cons, List.map_cons, List.foldl_cons, ih]; rfl
  unfold preprocessQuery
  rw [hstep, hstep, h]

theorem exists_split (text : Str) : ∃ words, IsSplit text words := by
  induction text using List.reverseRecOn with
  | nil =>
    refine ⟨[[]], by simp, by simp [List.intercalate], ?_, by simp⟩
    intro w hw a b hab
    obtain rfl : w = [] := by simpa using hw
    simp at hab
  | append_singleton text c ih =>
    obtain ⟨words, h⟩ := ih
    obtain ⟨init, w, rfl⟩ : ∃ init w, words = init ++ [w] :=
      ⟨_, _, (List.dropLast_append_getLast h.nonempty).symm⟩
    have hinit : ∀ x ∈ init, Outside x := by
      intro x hx; exact h.closed x (by simpa using hx)
    have hjoin : ∀ y, List.intercalate [' '] (init ++ [w ++ y]) =
        List.intercalate [' '] (init ++ [w]) ++ y := by
      intro y
      have : ∀ l : List Str, List.intercalate [' '] (l ++ [w ++ y]) =
          List.intercalate [' '] (l ++ [w]) ++ y := by
        intro l
        induction l with
        | nil => simp [List.intercalate]
        | cons a l ih =>
          cases l with
          | nil => simp [List.intercalate]
          | cons b l =>
            have e : ∀ z, List.intercalate [' '] ((a :: b :: l) ++ [z]) =
                a ++ ' ' :: List.intercalate [' '] ((b :: l) ++ [z]) := by
              intro z; simp [List.intercalate]
            rw [e, e, ih]; simp
      exact this init
    by_cases hs : c = ' ' ∧ Outside w
    · obtain ⟨rfl, ho⟩ := hs
      refine ⟨init ++ [w] ++ [[]], by simp, ?_, ?_, ?_⟩
      · have : ∀ l : List Str, l ≠ [] → List.intercalate [' '] (l ++ [[]]) =
            List.intercalate [' '] l ++ [' '] := by
          intro l hl
          induction l with
          | nil => exact absurd rfl hl
          | cons a l ih =>
            cases l with
            | nil => simp [List.intercalate]
            | cons b l =>
              have e : List.intercalate [' '] ((a :: b :: l) ++ [[]]) =
                  a ++ ' ' :: List.intercalate [' '] ((b :: l) ++ [[]]) := by
                simp [List.intercalate]
              have e' : List.intercalate [' '] (a :: b :: l) =
                  a ++ ' ' :: List.intercalate [' '] (b :: l) := by
                simp [List.intercalate]
              rw [e, e', ih (by simp)]; simp
        rw [this _ (by simp), ← h.joined]
      · intro x hx
        rcases List.mem_append.mp hx with hx | hx
        · exact h.unsplit x hx
        · obtain rfl : x = [] := by simpa using hx
          intro a b hab; simp at hab
      · intro x hx
        rw [List.dropLast_concat] at hx
        rcases List.mem_append.mp hx with hx | hx
        · exact hinit x hx
        · obtain rfl : x = w := by simpa using hx
          exact ho
    · refine ⟨init ++ [w ++ [c]], by simp, ?_, ?_, ?_⟩
      · rw [hjoin, ← h.joined]
      · intro x hx
        rcases List.mem_append.mp hx with hx | hx
        · exact h.unsplit x (by simp [hx])
        · obtain rfl : x = w ++ [c] := by simpa using hx
          intro a b hab
          rcases List.eq_nil_or_concat b with rfl | ⟨b', d, rfl⟩
          · have h1 : w = a ∧ c = ' ' := by
              have := List.append_inj' hab rfl
              exact ⟨this.1, by simpa using this.2⟩
            rw [← h1.1]
            exact fun ho => hs ⟨h1.2, ho⟩
          · have h1 : w = a ++ ' ' :: b' := by
              have : w ++ [c] = (a ++ ' ' :: b') ++ [d] := by rw [hab]; simp
              exact (List.append_inj' this rfl).1
            exact h.unsplit w (by simp) a b' h1
      · intro x hx
        rw [List.dropLast_concat] at hx
        exact hinit x hx

end Dinero
