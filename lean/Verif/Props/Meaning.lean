import Verif.Lemmas.Meaning
import Verif.Props.Answer
import Verif.Props.Options
/-
Property theorems about what value expressions say, and about reports that answer questions (C111, C112).
-/
namespace Dinero

/-! ### C111: expressions mean what they say -/

/-- An expression that makes sense, and does not hold amounts of different commodities equal, comes to what it says:
quantities are computed and compared as rational numbers, texts and days in their order, patterns are looked for in
what they are held against, and `any` asks all postings. -/
theorem C111_meaning {env : Env} {t : Txn Posting} {only : Option Cur} {n : Ast} {ty : Ty} {p : Posting} {st : Commodities}
    (hty : n.type env only.isSome = some ty) (ha : n.apart env only.isSome = true) (ht : n.FitsTxn only t)
    (hp : n.FitsPosting only p) (hw : n.Written env only st) (hst : st.Reachable env.lower) :
    ∃ v st', eval env t n p st = .ok (v, st') ∧ v.Of only ty ∧ v.Shows t (n.sense env t p) := by
  obtain ⟨v, st', he, hv⟩ := type_sound n ht hp hw hst hty
  exact ⟨v, st', he, hv, eval_shows n ht hp hw hst hty ha he⟩

/-- The expression `exSense` says the same of the two postings as it evaluates to, and may ask for equality. -/
example : exSense.sense exEnv exTxn exPosting = .truth true ∧ exSense.sense exEnv exTxn exPosting2 = .truth false ∧
    exSense.apart exEnv true = true ∧
    (Ast.binary .eq .amount (.money "EUR".toList 7)).apart exEnv true = true ∧
    (Ast.binary .eq .amount (.money "EUR".toList 7)).apart exEnv false = false ∧
    (Ast.binary .eq .amount (.number 7)).apart exEnv false = true := by decide +kernel

/-- The restriction is needed: where there are several commodities, the same quantity of two is not equal.  (Of an
amount of nothing, the code even says that it is different from the same amount with a commodity.) -/
theorem C111_false :
    (Ast.binary .eq (.money "EUR".toList 3) (.money "USD".toList 3)).type exEnv false = some .bool ∧
    (Ast.binary .eq (.money "EUR".toList 3) (.money "USD".toList 3)).sense exEnv exTxn exPosting = .truth true ∧
    exVal (eval exEnv exTxn (.binary .eq (.money "EUR".toList 3) (.money "USD".toList 3)) exPosting {}) =
      some (.bool false) := by decide +kernel

/-! ### C112: reports show what is asked for -/

theorem selSum_asked {r : Run} {path : Str} {pl : ParsedLedger} {rules : List (Txn RawPosting × Ast)}
    {only : Option Cur} {skip : Bool} {L : Ledger} {o : ReportOpts} {node : Option Ast} {sel : List (Txn Posting × Posting)}
    (h : r.journal path = .ok pl) (hs : pl.Sound r.env only rules) (hl : r.ledger skip path = .ok L)
    (hq : ClearQuery r.env only o.query node) (hsel : Selected r.env o L sel) (P : Str → Bool) :
    selSum sel P = selSum (askedOf r.env o node L.transactions) P := by
  rw [selected_asked h hs hl hq hsel]

/-- The register of a journal that makes sense lists exactly the postings of which the question, an expression or words,
is true, and next to each the sum so far. -/
theorem C112_register {r : Run} {s : Nat → Shuf} {opts : ReportOpts} {skip : Bool} {path : Str} {pl : ParsedLedger}
    {only : Option Cur} {rules : List (Txn RawPosting × Ast)} {node : Option Ast} {lines : List RegLine}
    (h : r.journal path = .ok pl) (hs : pl.Sound r.env only rules) (hq : ClearQuery r.env only opts.query node)
    (hr : registerCommand r s opts skip path = .ok lines) :
    ∃ txns, pl.Yields r.env skip txns ∧
      lines.map (fun l => (l.account, l.kind, some l.amount)) =
        (askedOf r.env opts node txns).map (fun x => x.2.entry) ∧
      ∀ pre line post, lines = pre ++ line :: post →
        ((∀ c, sumIn ((pre ++ [line]).map RegLine.amount) c = 0) → line.running = [.zero]) ∧
        ((∃ c, sumIn ((pre ++ [line]).map RegLine.amount) c ≠ 0) →
          Shows line.running (sumIn ((pre ++ [line]).map RegLine.amount))) := by
  unfold registerCommand at hr
  cases hl : r.ledger skip path with
  | error e => rw [hl] at hr; cases hr
  | ok L =>
    rw [hl] at hr
    simp only at hr
    cases hrep : registerReport r.env s opts L with
    | error e => rw [hrep] at hr; cases hr
    | ok ls =>
      rw [hrep] at hr; cases hr
      obtain ⟨sel, g1, g2, g3⟩ := C55_register hrep
      refine ⟨L.transactions, ledger_yields h hl, ?_, g3⟩
      rw [g2, ← selected_asked h hs hl hq g1]
      rfl

/-- The flat balance of a journal that makes sense shows for every account what the postings of which the question is
true sum to, leaves out the accounts where that is nothing, and totals to the sum of all of them. -/
theorem C112_balance {r : Run} {o : BalOrders} {today : Date} {opts : ReportOpts} {skip showTotal : Bool} {path : Str}
    {pl : ParsedLedger} {only : Option Cur} {rules : List (Txn RawPosting × Ast)} {node : Option Ast} {rep : BalReport}
    (h : r.journal path = .ok pl) (hs : pl.Sound r.env only rules) (hq : ClearQuery r.env only opts.query node)
    (hd : opts.depth = none) (hx : opts.exchange = none)
    (hr : balanceCommand r o today opts skip true showTotal path = .ok rep) :
    ∃ txns, pl.Yields r.env skip txns ∧
      (rep.lines.map BalLine.label).Pairwise (· < ·) ∧
      (∀ line ∈ rep.lines, line.indent = 0 ∧
        Shows line.amounts (selSum (askedOf r.env opts node txns) (fun a => a = line.label))) ∧
      (∀ a, (∃ line ∈ rep.lines, line.label = a) ↔
        ∃ c, selSum (askedOf r.env opts node txns) (fun x => x = a) c ≠ 0) ∧
      ∀ ms, rep.total = some ms → Shows ms (selSum (askedOf r.env opts node txns) (fun _ => true)) := by
  obtain ⟨L, hl, hrep⟩ := balanceCommand_report hr
  obtain ⟨sel, g1, g2, g3, g4⟩ := C51_flat hd hx hrep
  obtain ⟨sel', g5, g6⟩ := C53_total hx hrep
  obtain rfl := g1.unique g5
  rw [selected_asked h hs hl hq g1] at g3 g4 g6
  exact ⟨L.transactions, ledger_yields h hl, g2, g3, g4, g6⟩

/-- With `--depth`, the postings of which the question is true are summed by the first components of their accounts. -/
theorem C112_depth {r : Run} {o : BalOrders} {today : Date} {opts : ReportOpts} {skip showTotal : Bool} {path : Str}
    {pl : ParsedLedger} {only : Option Cur} {rules : List (Txn RawPosting × Ast)} {node : Option Ast} {rep : BalReport}
    {d : Nat} (h : r.journal path = .ok pl) (hs : pl.Sound r.env only rules)
    (hq : ClearQuery r.env only opts.query node) (hd : opts.depth = some d) (hx : opts.exchange = none)
    (hr : balanceCommand r o today opts skip true showTotal path = .ok rep) :
    ∃ txns, pl.Yields r.env skip txns ∧
      (rep.lines.map BalLine.label).Pairwise (· < ·) ∧
      (∀ line ∈ rep.lines, line.indent = 0 ∧
        Shows line.amounts (selSum (askedOf r.env opts node txns) (fun a => CutTo d a line.label))) ∧
      (∀ g, (∃ line ∈ rep.lines, line.label = g) ↔
        ∃ c, selSum (askedOf r.env opts node txns) (fun a => CutTo d a g) c ≠ 0) := by
  obtain ⟨L, hl, hrep⟩ := balanceCommand_report hr
  refine ⟨L.transactions, ledger_yields h hl, ?_⟩
  obtain ⟨node', sel0, st, bals, hn, hsel0, hc⟩ := balanceReport_selected hrep
  obtain ⟨sel, hsel, h1 | ⟨_, rep', h2, h3⟩⟩ := C54_flat_depth_partial (o := o) (today := today) (showTotal := showTotal)
    hd hx hn hc
  · rw [hrep] at h1; cases h1.2
  · rw [hrep] at h2; cases h2
    rw [selected_asked h hs hl hq hsel] at h3
    exact h3

/-- The tree shows them under the labels of C57, where the accounts fit in a tree. -/
theorem C112_tree_partial {r : Run} {o : BalOrders} {today : Date} {opts : ReportOpts} {skip showTotal : Bool} {path : Str}
    {pl : ParsedLedger} {only : Option Cur} {rules : List (Txn RawPosting × Ast)} {node : Option Ast} {rep : BalReport}
    (h : r.journal path = .ok pl) (hs : pl.Sound r.env only rules) (hq : ClearQuery r.env only opts.query node)
    (hx : opts.exchange = none) (hr : balanceCommand r o today opts skip false showTotal path = .ok rep) :
    ∃ txns, pl.Yields r.env skip txns ∧
      ((∀ x ∈ askedOf r.env opts node txns, x.2.account.head? ≠ some ':') → TreeFit (askedOf r.env opts node txns) →
        (∀ line ∈ rep.lines, ∃ a b, line.indent = components a ∧ Labels a b line.label ∧ Below a b ∧
          Left (askedOf r.env opts node txns) b ∧
          Shows line.amounts (selSum (askedOf r.env opts node txns) (fun x => Below b x))) ∧
        (∀ x, Left (askedOf r.env opts node txns) x → (∀ d, opts.depth = some d → components x ≤ d) →
          ∃ line ∈ rep.lines, ∃ a b, line.indent = components a ∧ Labels a b line.label ∧
            Below a x ∧ Below x b ∧
            Shows line.amounts (selSum (askedOf r.env opts node txns) (fun y => Below x y)))) := by
  obtain ⟨L, hl, hrep⟩ := balanceCommand_report hr
  refine ⟨L.transactions, ledger_yields h hl, fun hh hf => ?_⟩
  obtain ⟨node', sel, st, _, hn, hsel, _⟩ := balanceReport_selected hrep
  have hsel' : Selected r.env opts L sel := ⟨node', st, hn, hsel⟩
  obtain rfl := selected_asked h hs hl hq hsel'
  exact C57_labels_partial hx hsel' hrep hh hf

/-- Words that are patterns of accounts are clear, and ask for what C96 says they do. -/
theorem C112_words {env : Env} {o : ReportOpts} {only : Option Cur} (ha : env.AsciiSep) (hq : PlainQuery env o.query) :
    ∃ node, ClearQuery env only o.query node ∧ ∀ t p, o.asks env node t p = o.wants env t p := by
  have hw : ∀ (node : Option Ast) t p,
      node.all (fun n => (n.sense env t p).holds) = (o.query.isEmpty || byPatterns env o.query p.account) →
      o.asks env node t p = o.wants env t p := by
    intro node t p h
    unfold ReportOpts.asks ReportOpts.wants
    rw [h]
  match hqq : o.query, hq with
  | [], _ =>
    refine ⟨none, ⟨by simp [queryNode, preprocessQuery], fun n hn => by cases hn⟩, fun t p => hw _ _ _ ?_⟩
    rw [hqq]; rfl
  | [a], hq =>
    refine ⟨_, ⟨queryNode_one ha (hq a (by simp)), fun n hn => ?_⟩, fun t p => hw _ _ _ ?_⟩
    · cases hn
      exact ⟨⟨rfl, fun d _ c hc => by cases hc⟩, by simp [Ast.apart, Ast.type]⟩
    · rw [hqq]
      simp [Ast.sense, Sense.binary, Sense.shows, Sense.holds, byPatterns]
  | a :: c :: ps, hq =>
    refine ⟨_, ⟨queryNode_many ha (hq a (by simp)) (hq c (by simp)) (ps := ps) (fun p hp => hq p (by simp [hp])),
      fun n hn => ?_⟩, fun t p => hw _ _ _ ?_⟩
    · cases hn
      exact ⟨⟨rfl, fun d _ c hc => by cases hc⟩, by simp [Ast.apart, Ast.type]⟩
    · rw [hqq]
      simp [Ast.sense, Sense.binary, Sense.shows, Sense.holds, byPatterns]

/-- The question that is asked of `exTypedText` is clear, and is answered by the postings of which it is true. -/
example : ClearQuery (exRuleRun exTypedText).env (some "EUR".toList) ["expr".toList, "abs(amount) > 10 EUR".toList]
      (some (.binary .gt (.unary .abs .amount) (.money "EUR".toList 10))) ∧
    ((exRuleRun exTypedText).ledger false "main".toList).toOption.map (fun L =>
      (askedOf (exRuleRun exTypedText).env {} (some (.binary .gt (.unary .abs .amount) (.money "EUR".toList 10)))
        L.transactions).map (fun x => (x.2.account, x.2.amount))) = some
      [("Food".toList, some (.mk 30 "EUR".toList)), ("Cash".toList, some (.mk (-30) "EUR".toList)),
       ("Budget".toList, some (.mk (-60) "EUR".toList)), ("Envelope".toList, some (.mk (-30) "EUR".toList)),
       ("Rest".toList, some (.mk 30 "EUR".toList))] := by
  refine ⟨⟨?_, fun n hn => ?_⟩, by decide +kernel⟩
  · have key : (match queryNode (exRuleRun exTypedText).env ["expr".toList, "abs(amount) > 10 EUR".toList] with
        | .ok x => decide (x = some (.binary .gt (.unary .abs .amount) (.money "EUR".toList 10)))
        | _ => false) = true := by decide +kernel
    split at key
    · next x hx => rw [hx, of_decide_eq_true key]
    · cases key
  · cases hn
    refine ⟨⟨by decide +kernel, fun d hd c hc => ?_⟩, by decide +kernel⟩
    cases hd
    exact List.mem_singleton.mp hc

end Dinero
