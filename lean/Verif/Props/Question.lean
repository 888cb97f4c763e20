import Verif.Lemmas.Question
import Verif.Props.Meaning
/-
Property theorems about expressions with few parentheses and about the words of questions (C113, C114).
-/
namespace Dinero

/-! ### C113: how operators bind -/

/-- An expression with few parentheses is read as the levels of the operators say: products first, then sums,
comparisons, `and`, and `or`; `not` and `-` take what follows; what is in parentheses is read for itself. -/
theorem C113_levels (env : Env) (ha : env.AsciiSep) {ends : Ends} {stops : Bool} {e : Ast} {s : Str}
    (h : Phrase env 5 ends stops e s) (rest : Str) : buildRoot env ('(' :: s ++ ')' :: rest) = .ok e :=
  buildRoot_phrase ha h rest

/-- So it has one reading only. -/
theorem C113_unique (env : Env) (ha : env.AsciiSep) {ends ends' : Ends} {stops stops' : Bool} {e e' : Ast} {s : Str}
    (h : Phrase env 5 ends stops e s) (h' : Phrase env 5 ends' stops' e' s) : e = e' := by
  have h1 := C113_levels env ha h []
  rw [C113_levels env ha h' []] at h1
  cases h1
  rfl

/-- `2 * amount + 3 EUR > 10 EUR and account =~ /Food/ or not payee =~ /Bar/`. -/
def exPhrase : Ast :=
  .binary .or
    (.binary .and
      (.binary .gt (.binary .add (.binary .mult (.number 2) .amount) (.money "EUR".toList 3)) (.money "EUR".toList 10))
      (.binary .eq .account (.regex "Food".toList)))
    (.unary .not (.binary .eq .payee (.regex "Bar".toList)))

example : Phrase exEnv 5 .greedy false exPhrase
    "2 * amount + 3 EUR > 10 EUR and account =~ /Food/ or not payee =~ /Bar/".toList := by
  have hm : ∀ n : Str, IsNumeral n → Writes exEnv .operand (.money "EUR".toList (unsignedVal n)) (n ++ ' ' :: "EUR".toList) :=
    fun n hn => .money hn ⟨by decide, by decide, by decide, by decide, by decide, by decide, by decide⟩
  have h3 := hm "3".toList (.inl ⟨by decide, by decide⟩)
  have h10 := hm "10".toList (.inl ⟨by decide, by decide⟩)
  have h2 := Writes.number (env := exEnv) (n := "2".toList) (.inl ⟨by decide, by decide⟩)
  rw [show unsignedVal "3".toList = 3 by decide +kernel] at h3
  rw [show unsignedVal "10".toList = 10 by decide +kernel] at h10
  rw [show unsignedVal "2".toList = 2 by decide +kernel] at h2
  have hr : ∀ p : Str, '/' ∉ p → Writes exEnv .operand (.regex p) ('/' :: p ++ ['/']) := fun p hp => .regex hp rfl
  have p1 := Phrase.two (op := .mult) (.number h2) (show BinaryOp.mult.level < 3 by decide) (.operand .amount)
  have p2 := Phrase.two (op := .add) p1 trivial ((Phrase.operand h3).lift 0)
  have p3 := Phrase.two (op := .gt) p2 trivial ((Phrase.operand h10).lift 1)
  have p4 := Phrase.two (op := .eq) ((Phrase.operand .account).lift 1) trivial ((Phrase.operand (hr "Food".toList (by decide))).lift 1)
  have p5 := Phrase.two (op := .and) p3 trivial p4
  have p6 := Phrase.two (op := .eq) ((Phrase.operand .payee).lift 1) trivial ((Phrase.operand (hr "Bar".toList (by decide))).lift 1)
  have p7 := Phrase.not (p6.lift 1)
  have p8 := Phrase.two (op := .or) p5 trivial (p7.lift 3)
  exact p8

/-- The levels are not all there is to it: a product that is neither the first nor the last term makes the program
panic, and so does a comparison that ends with one between two `and`. -/
theorem C113_false :
    (∀ s ∈ ["(1 + 2 * 3 + 4)", "(amount > 1 EUR and amount > 1 EUR + 2 * amount and amount > 1 EUR)"],
      buildRoot exEnv s.toList = .error (.panic "unsuccessful parse")) ∧
    (∀ s ∈ ["(1 + 2 * 3)", "(1 * 2 + 3 + 4)", "(amount > 1 EUR and amount > 2 * amount and amount > 1 EUR)"],
      (buildRoot exEnv s.toList).toOption.isSome = true) := by
  have key : ∀ s ∈ ["(1 + 2 * 3 + 4)", "(amount > 1 EUR and amount > 1 EUR + 2 * amount and amount > 1 EUR)"],
      (match buildRoot exEnv s.toList with
        | .error (.panic m) => decide (m = "unsuccessful parse")
        | _ => false) = true := by decide +kernel
  refine ⟨fun s hs => ?_, by decide +kernel⟩
  have := key s hs
  split at this
  · next m hm => rw [hm, of_decide_eq_true this]
  · cases this

/-! ### C114: the words of a question -/

theorem Group.ne_nil {env : Env} {ws : List Str} {es : List Ast} (h : Group env ws es) : es ≠ [] := by
  cases h <;> simp

theorem Question.ne_nil {env : Env} {ws : List Str} {ess : List (List Ast)} (h : Question env ws ess) :
    ess ≠ [] ∧ ∀ es ∈ ess, es ≠ [] := by
  induction h with
  | one h =>
    refine ⟨by simp, fun es hes => ?_⟩
    rw [List.mem_singleton.mp hes]; exact h.ne_nil
  | next h _ ih | or h _ ih =>
    refine ⟨by simp, fun es hes => ?_⟩
    rcases List.mem_cons.mp hes with rfl | hes
    · exact h.ne_nil
    · exact ih.2 es hes

theorem joined_and {env : Env} {t : Txn Posting} {p : Posting} {es : List Ast} (h : es ≠ []) :
    ((joined .and es).sense env t p).holds = (es.take 2).all (fun e => (e.sense env t p).holds) := by
  match es, h with
  | [e], _ => simp [joined]
  | a :: b :: _, _ => simp [joined, Ast.sense, Sense.binary, Sense.holds]

theorem joined_or {env : Env} {t : Txn Posting} {p : Posting} {es : List Ast} (h : es ≠ []) :
    ((joined .or es).sense env t p).holds = (es.take 2).any (fun e => (e.sense env t p).holds) := by
  match es, h with
  | [e], _ => simp [joined]
  | a :: b :: _, _ => simp [joined, Ast.sense, Sense.binary, Sense.holds]

theorem joined_clear {env : Env} {only : Option Cur} {op : BinaryOp} (hop : op = .and ∨ op = .or) {es : List Ast} (hne : es ≠ [])
    (h : ∀ e ∈ es, e.HasType env only .bool ∧ e.apart env only.isSome = true) :
    (joined op es).HasType env only .bool ∧ (joined op es).apart env only.isSome = true := by
  match es, hne with
  | [e], _ => exact h e (by simp)
  | a :: b :: _, _ =>
    obtain ⟨⟨a1, a2⟩, a3⟩ := h a (by simp)
    obtain ⟨⟨b1, b2⟩, b3⟩ := h b (by simp)
    refine ⟨⟨?_, fun d hd c hc => ?_⟩, ?_⟩
    · rcases hop with rfl | rfl <;> simp [joined, Ast.type, a1, b1, binaryType]
    · rcases List.mem_append.mp hc with hc | hc
      exacts [a2 d hd c hc, b2 d hd c hc]
    · rcases hop with rfl | rfl <;> simp [joined, Ast.apart, a3, b3]

/-- A question of words, joined by `and`, `or` or nothing, is read as the groups between the `or`s; in each group, and of
the groups, the first two count.  (That the others are ignored is C50.) -/
theorem C114_reads {env : Env} (ha : env.AsciiSep) (hand : trim env "and".toList = "and".toList)
    (hor : trim env "or".toList = "or".toList) {query : List Str} {ess : List (List Ast)} (h : Question env query ess) :
    queryNode env query = .ok (some (joined .or (ess.map (joined .and)))) ∧
      ∀ t p, ((joined .or (ess.map (joined .and))).sense env t p).holds = answered env ess t p := by
  refine ⟨queryNode_question ha hand hor h, fun t p => ?_⟩
  obtain ⟨h1, h2⟩ := h.ne_nil
  rw [joined_or (by simpa using h1), ← List.map_take, List.any_map]
  unfold answered
  have h3 : ∀ es ∈ ess.take 2, es ≠ [] := fun es hes => h2 es (List.mem_of_mem_take hes)
  generalize ess.take 2 = l at h3
  induction l with
  | nil => rfl
  | cons a l ih =>
    rw [List.any_cons, List.any_cons, ih (fun es hes => h3 es (List.mem_cons_of_mem _ hes))]
    congr 1
    exact joined_and (h3 a (by simp))

/-- When its expressions make sense the question is clear. -/
theorem C114_clear {env : Env} {only : Option Cur} (ha : env.AsciiSep) (hand : trim env "and".toList = "and".toList)
    (hor : trim env "or".toList = "or".toList) {query : List Str} {ess : List (List Ast)} (h : Question env query ess)
    (ht : ∀ es ∈ ess, ∀ e ∈ es, e.HasType env only .bool ∧ e.apart env only.isSome = true) :
    ClearQuery env only query (some (joined .or (ess.map (joined .and)))) := by
  refine ⟨queryNode_question ha hand hor h, fun n hn => ?_⟩
  cases hn
  obtain ⟨h1, h2⟩ := h.ne_nil
  refine joined_clear (.inr rfl) (by simpa using h1) ?_
  intro e he
  obtain ⟨es, hes, rfl⟩ := List.mem_map.mp he
  exact joined_clear (.inl rfl) (h2 es hes) (ht es hes)

/-- From the words on the command line to the lines of the register: exactly the postings are listed for which the
question is answered with yes, and that are within the dates, and real if these are asked for. -/
theorem C114_register {r : Run} {s : Nat → Shuf} {opts : ReportOpts} {skip : Bool} {path : Str} {pl : ParsedLedger}
    {only : Option Cur} {rules : List (Txn RawPosting × Ast)} {ess : List (List Ast)} {lines : List RegLine}
    (ha : r.env.AsciiSep) (hand : trim r.env "and".toList = "and".toList) (hor : trim r.env "or".toList = "or".toList)
    (h : r.journal path = .ok pl) (hs : pl.Sound r.env only rules) (hq : Question r.env opts.query ess)
    (ht : ∀ es ∈ ess, ∀ e ∈ es, e.HasType r.env only .bool ∧ e.apart r.env only.isSome = true)
    (hr : registerCommand r s opts skip path = .ok lines) :
    ∃ txns, pl.Yields r.env skip txns ∧
      lines.map (fun l => (l.account, l.kind, some l.amount)) = txns.flatMap (fun t =>
        (t.postings.filter (fun p => opts.asks r.env none t p && answered r.env ess t p)).map Posting.entry) := by
  obtain ⟨txns, h1, h2, _⟩ := C112_register h hs (C114_clear ha hand hor hq ht) hr
  refine ⟨txns, h1, h2.trans ?_⟩
  unfold askedOf
  rw [List.map_flatMap]
  congr 1
  funext t
  rw [List.map_map]
  congr 1
  apply List.filter_congr
  intro p _
  unfold ReportOpts.asks
  rw [Option.all_some, (C114_reads ha hand hor hq).2]
  simp

/-- The description of an automated transaction is such a question, without the quotes. -/
theorem C114_rule {env : Env} (ha : env.AsciiSep) (hws : env.ws ' ' = true) (hand : trim env "and".toList = "and".toList)
    (hor : trim env "or".toList = "or".toList) {description : Str} {words : List Str} {ess : List (List Ast)}
    (hw : IsSplit description words) (h : Question env ((words.map (·.filter (· ≠ '"'))).filter (· ≠ [])) ess) :
    buildRoot env (getFilterQuery env description none).1 = .ok (joined .or (ess.map (joined .and))) := by
  obtain ⟨words', hw', he, _⟩ := C68_words env hws description
  rw [he, C68_split_unique _ _ _ hw' hw, query_nonempty]
  exact (buildRoot_question ha hand hor h).1

/-- Accounts, payees, tags and an expression in one question, on `exTypedText`. -/
example : Question (exRuleRun exTypedText).env
      ["Cash".toList, "and".toList, "@Bar".toList, "or".toList, "expr".toList, "amount > 20 EUR".toList, "and".toList,
        "/(?i)Food/".toList]
      [[.binary .eq .account (.regex "(?i)Cash".toList), .binary .eq .payee (.regex "(?i)Bar".toList)],
        [.binary .gt .amount (.money "EUR".toList 20), .binary .eq .account (.regex "(?i)Food".toList)]] ∧
    (registerCommand (exRuleRun exTypedText) (fun _ => .id)
      { query := ["Cash".toList, "and".toList, "@Bar".toList, "or".toList, "expr".toList, "amount > 20 EUR".toList,
          "and".toList, "/(?i)Food/".toList] } false "main".toList).toOption.map
      (fun ls => ls.map (fun l : RegLine => (l.account, l.amount))) = some
      [("Food".toList, .mk 30 "EUR".toList), ("Cash".toList, .mk (-30) "EUR".toList)] := by
  refine ⟨?_, by decide +kernel⟩
  have hm : Writes (exRuleRun exTypedText).env .operand (.money "EUR".toList (unsignedVal "20".toList))
      ("20".toList ++ ' ' :: "EUR".toList) :=
    .money (.inl ⟨by decide, by decide⟩) ⟨by decide, by decide, by decide, by decide, by decide, by decide, by decide⟩
  rw [show unsignedVal "20".toList = 20 by decide +kernel] at hm
  have hx : Phrase (exRuleRun exTypedText).env 5 .closed false (.binary .gt .amount (.money "EUR".toList 20))
      "amount > 20 EUR".toList :=
    (Phrase.two (op := .gt) ((Phrase.operand .amount).lift 1) trivial ((Phrase.operand hm).lift 1)).lift 1
  have w1 : Term (exRuleRun exTypedText).env ["Cash".toList] (.binary .eq .account (.regex "(?i)Cash".toList)) :=
    .account ⟨by decide, by decide, by decide, by decide, by decide, rfl⟩
  have w2 : Term (exRuleRun exTypedText).env ["@Bar".toList] (.binary .eq .payee (.regex "(?i)Bar".toList)) :=
    .payee (p := "Bar".toList) (by decide) (by decide) rfl
  have w3 : Term (exRuleRun exTypedText).env ["expr".toList, "amount > 20 EUR".toList]
      (.binary .gt .amount (.money "EUR".toList 20)) := .expr (by decide) (by decide) (by decide) hx
  have w4 : Term (exRuleRun exTypedText).env ["/(?i)Food/".toList] (.binary .eq .account (.regex "(?i)Food".toList)) :=
    .regex (p := "(?i)Food".toList) (by decide) (by decide) rfl
  exact .or (.and w1 (.one w2)) (.one (.and w3 (.one w4)))

end Dinero
