import Verif.Lemmas.Parts
/-
Property theorems about reports for different questions (C137).
-/
namespace Dinero

/-- A posting answers an expression or its negation, and not both. -/
theorem asks_not {env : Env} {only : Option Cur} {o : ReportOpts} {w w' : List Str} {e : Ast} (hc : e.Clear env only)
    (t : Txn Posting) (p : Posting) :
    (o.asking []).asks env none t p = ((o.asking w).asks env (some e) t p || (o.asking w').asks env (some (.unary .not e)) t p) ∧
      ((o.asking w).asks env (some e) t p && (o.asking w').asks env (some (.unary .not e)) t p) = false := by
  unfold ReportOpts.asks ReportOpts.asking
  simp only [Option.all_some, Option.all_none, not_holds hc.1.1]
  generalize (e.sense env t p).holds = x
  constructor
  · cases x <;> simp
  · cases x <;> simp

/-- A posting answers a question with `or` if it answers one of its sides, and one with `and` if it answers both. -/
theorem asks_join {env : Env} {o : ReportOpts} {w0 w1 w2 w3 : List Str} {e e' : Ast} (t : Txn Posting) (p : Posting) :
    (o.asking w0).asks env (some (.binary .or e e')) t p =
        ((o.asking w1).asks env (some e) t p || (o.asking w2).asks env (some e') t p) ∧
      (o.asking w3).asks env (some (.binary .and e e')) t p =
        ((o.asking w1).asks env (some e) t p && (o.asking w2).asks env (some e') t p) := by
  have h1 : ((Ast.binary .or e e').sense env t p).holds = ((e.sense env t p).holds || (e'.sense env t p).holds) := by
    simp [Ast.sense, Sense.binary, Sense.holds]
  have h2 : ((Ast.binary .and e e').sense env t p).holds = ((e.sense env t p).holds && (e'.sense env t p).holds) := by
    simp [Ast.sense, Sense.binary, Sense.holds]
  unfold ReportOpts.asks ReportOpts.asking
  simp only [Option.all_some, h1, h2]
  generalize (e.sense env t p).holds = x
  generalize (e'.sense env t p).holds = y
  constructor
  · cases x <;> cases y <;> simp
  · cases x <;> cases y <;> simp

/-! ### C137: reports for different questions add up -/

/-- `not` before an expression asks for its negation. -/
theorem C137_not {env : Env} {s : Str} {e : Ast} (h : Term env ["expr".toList, s] e)
    (hs : trim env ("not ".toList ++ s) = "not ".toList ++ s) : Term env ["expr".toList, "not ".toList ++ s] (.unary .not e) := by
  cases h with
  | expr h1 h2 h3 h4 =>
    refine .expr h1 hs ?_ (.up (.up (.up (.up (.up (.not h4))))))
    rintro (k | k | k)
    · exact absurd (List.cons.inj k).1 (by decide)
    · exact absurd (List.cons.inj k).1 (by decide)
    · exact absurd (List.cons.inj k).1 (by decide)

/-- What the flat balance says of an account is what it says of the postings a question asks for and of those that its
negation asks for. -/
theorem C137_balance {r : Run} {o o1 o2 : BalOrders} {today : Date} {opts : ReportOpts} {skip total : Bool} {path : Str}
    {pl : ParsedLedger} {rules : List (Txn RawPosting × Ast)} {only : Option Cur} {w w' : List Str} {e : Ast}
    {rep first second : BalReport} (ha : r.env.AsciiSep) (hand : trim r.env "and".toList = "and".toList)
    (hor : trim r.env "or".toList = "or".toList) (h : r.journal path = .ok pl) (hs : pl.Sound r.env only rules)
    (hx : opts.exchange = none) (hw : Term r.env w e) (hw' : Term r.env w' (.unary .not e)) (hc : e.Clear r.env only)
    (h0 : balanceCommand r o today (opts.asking []) skip true total path = .ok rep)
    (h1 : balanceCommand r o1 today (opts.asking w) skip true total path = .ok first)
    (h2 : balanceCommand r o2 today (opts.asking w') skip true total path = .ok second) (a : Str) (c : Cur) :
    rep.says a c = first.says a c + second.says a c := by
  obtain ⟨L, hl⟩ := ledger_of_balance h0
  rw [clear_says (opts := opts.asking []) h hs hl no_question hx h0, clear_says (opts := opts.asking w) h hs hl (term_clear ha hand hor hw hc) hx h1,
    clear_says (opts := opts.asking w') h hs hl (term_clear ha hand hor hw' (not_clear hc)) hx h2]
  show selSum _ (inLine opts.depth a) c = selSum _ (inLine opts.depth a) c + selSum _ (inLine opts.depth a) c
  rw [← selSum_append]
  exact selSum_perm (asked_two (fun t p => (asks_not hc t p).1) (fun t p => (asks_not hc t p).2)).2.2 _ c

/-- The totals add up, flat or as a tree. -/
theorem C137_total {r : Run} {o o1 o2 : BalOrders} {today : Date} {opts : ReportOpts} {skip flat total : Bool} {path : Str}
    {pl : ParsedLedger} {rules : List (Txn RawPosting × Ast)} {only : Option Cur} {w w' : List Str} {e : Ast}
    {rep first second : BalReport} (ha : r.env.AsciiSep) (hand : trim r.env "and".toList = "and".toList)
    (hor : trim r.env "or".toList = "or".toList) (h : r.journal path = .ok pl) (hs : pl.Sound r.env only rules)
    (hx : opts.exchange = none) (hw : Term r.env w e) (hw' : Term r.env w' (.unary .not e)) (hc : e.Clear r.env only)
    (h0 : balanceCommand r o today (opts.asking []) skip flat total path = .ok rep)
    (h1 : balanceCommand r o1 today (opts.asking w) skip flat total path = .ok first)
    (h2 : balanceCommand r o2 today (opts.asking w') skip flat total path = .ok second) :
    ∀ ms ms1 ms2, rep.total = some ms → first.total = some ms1 → second.total = some ms2 →
      ∀ c, sumIn ms c = sumIn ms1 c + sumIn ms2 c := by
  intro ms ms1 ms2 t0 t1 t2 c
  obtain ⟨L, hl⟩ := ledger_of_balance h0
  rw [clear_total (opts := opts.asking []) h hs hl no_question hx h0 t0, clear_total (opts := opts.asking w) h hs hl (term_clear ha hand hor hw hc) hx h1 t1,
    clear_total (opts := opts.asking w') h hs hl (term_clear ha hand hor hw' (not_clear hc)) hx h2 t2, ← selSum_append]
  exact selSum_perm (asked_two (fun t p => (asks_not hc t p).1) (fun t p => (asks_not hc t p).2)).2.2 _ c

/-- The entries of the register are those a question asks for and those that its negation asks for, in the same order. -/
theorem C137_register {r : Run} {s s1 s2 : Nat → Shuf} {opts : ReportOpts} {skip : Bool} {path : Str}
    {pl : ParsedLedger} {rules : List (Txn RawPosting × Ast)} {only : Option Cur} {w w' : List Str} {e : Ast}
    {lines first second : List RegLine} (ha : r.env.AsciiSep) (hand : trim r.env "and".toList = "and".toList)
    (hor : trim r.env "or".toList = "or".toList) (h : r.journal path = .ok pl) (hs : pl.Sound r.env only rules)
    (hw : Term r.env w e) (hw' : Term r.env w' (.unary .not e)) (hc : e.Clear r.env only)
    (h0 : registerCommand r s (opts.asking []) skip path = .ok lines)
    (h1 : registerCommand r s1 (opts.asking w) skip path = .ok first)
    (h2 : registerCommand r s2 (opts.asking w') skip path = .ok second) :
    MadeOf (lines.map RegLine.entry) (first.map RegLine.entry) (second.map RegLine.entry) := by
  obtain ⟨L, hl⟩ := ledger_of_register h0
  rw [clear_entries h hs hl no_question h0, clear_entries h hs hl (term_clear ha hand hor hw hc) h1,
    clear_entries h hs hl (term_clear ha hand hor hw' (not_clear hc)) h2]
  exact (asked_two (fun t p => (asks_not hc t p).1) (fun t p => (asks_not hc t p).2)).map _

/-- What the flat balance says for two questions with `or`, and for them with `and`, is what it says for each of them. -/
theorem C137_join {r : Run} {o o1 o2 o3 : BalOrders} {today : Date} {opts : ReportOpts} {skip total : Bool} {path : Str}
    {pl : ParsedLedger} {rules : List (Txn RawPosting × Ast)} {only : Option Cur} {w w' : List Str} {e e' : Ast}
    {either both first second : BalReport} (ha : r.env.AsciiSep) (hand : trim r.env "and".toList = "and".toList)
    (hor : trim r.env "or".toList = "or".toList) (h : r.journal path = .ok pl) (hs : pl.Sound r.env only rules)
    (hx : opts.exchange = none) (hw : Term r.env w e) (hc : e.Clear r.env only) (hw' : Term r.env w' e')
    (hc' : e'.Clear r.env only)
    (h0 : balanceCommand r o today (opts.asking (w ++ "or".toList :: w')) skip true total path = .ok either)
    (h3 : balanceCommand r o3 today (opts.asking (w ++ "and".toList :: w')) skip true total path = .ok both)
    (h1 : balanceCommand r o1 today (opts.asking w) skip true total path = .ok first)
    (h2 : balanceCommand r o2 today (opts.asking w') skip true total path = .ok second) (a : Str) (c : Cur) :
    either.says a c + both.says a c = first.says a c + second.says a c := by
  obtain ⟨L, hl⟩ := ledger_of_balance h0
  rw [clear_says (opts := opts.asking (w ++ "or".toList :: w')) h hs hl (or_clear ha hand hor hw hc hw' hc') hx h0,
    clear_says (opts := opts.asking (w ++ "and".toList :: w')) h hs hl (and_clear ha hand hor hw hc hw' hc') hx h3,
    clear_says (opts := opts.asking w) h hs hl (term_clear ha hand hor hw hc) hx h1,
    clear_says (opts := opts.asking w') h hs hl (term_clear ha hand hor hw' hc') hx h2]
  show selSum _ (inLine opts.depth a) c + selSum _ (inLine opts.depth a) c = selSum _ (inLine opts.depth a) c + selSum _ (inLine opts.depth a) c
  rw [← selSum_append, ← selSum_append]
  exact selSum_perm (asked_four (fun t p => (asks_join (w3 := []) t p).1) (fun t p => (asks_join (w0 := []) t p).2)) _ c

/-- So are the entries of the register, except for their order. -/
theorem C137_entries {r : Run} {s s1 s2 s3 : Nat → Shuf} {opts : ReportOpts} {skip : Bool} {path : Str}
    {pl : ParsedLedger} {rules : List (Txn RawPosting × Ast)} {only : Option Cur} {w w' : List Str} {e e' : Ast}
    {either both first second : List RegLine} (ha : r.env.AsciiSep) (hand : trim r.env "and".toList = "and".toList)
    (hor : trim r.env "or".toList = "or".toList) (h : r.journal path = .ok pl) (hs : pl.Sound r.env only rules)
    (hw : Term r.env w e) (hc : e.Clear r.env only) (hw' : Term r.env w' e') (hc' : e'.Clear r.env only)
    (h0 : registerCommand r s (opts.asking (w ++ "or".toList :: w')) skip path = .ok either)
    (h3 : registerCommand r s3 (opts.asking (w ++ "and".toList :: w')) skip path = .ok both)
    (h1 : registerCommand r s1 (opts.asking w) skip path = .ok first)
    (h2 : registerCommand r s2 (opts.asking w') skip path = .ok second) :
    (either.map RegLine.entry ++ both.map RegLine.entry).Perm (first.map RegLine.entry ++ second.map RegLine.entry) := by
  obtain ⟨L, hl⟩ := ledger_of_register h0
  rw [clear_entries h hs hl (or_clear ha hand hor hw hc hw' hc') h0,
    clear_entries h hs hl (and_clear ha hand hor hw hc hw' hc') h3,
    clear_entries h hs hl (term_clear ha hand hor hw hc) h1,
    clear_entries h hs hl (term_clear ha hand hor hw' hc') h2, ← List.map_append, ← List.map_append]
  exact (asked_four (fun t p => (asks_join (w3 := []) t p).1) (fun t p => (asks_join (w0 := []) t p).2)).map _

/-- The expenses of `exTypedText` and the rest: the two questions are as the theorems want them (the journal is a sound one,
see `exTyped_sound`), and the reports. -/
example : Term (exRuleRun exTypedText).env ["Food".toList] (.binary .eq .account (.regex "(?i)Food".toList)) ∧
    Term (exRuleRun exTypedText).env ["expr".toList, "not account =~ /(?i)Food/".toList]
      (.unary .not (.binary .eq .account (.regex "(?i)Food".toList))) ∧
    (Ast.binary .eq .account (.regex "(?i)Food".toList)).Clear (exRuleRun exTypedText).env (some "EUR".toList) := by
  have w1 : Term (exRuleRun exTypedText).env ["Food".toList] (.binary .eq .account (.regex "(?i)Food".toList)) :=
    .account ⟨by decide, by decide, by decide, by decide, by decide, rfl⟩
  have hx : Phrase (exRuleRun exTypedText).env 5 .closed false (.binary .eq .account (.regex "(?i)Food".toList))
      "account =~ /(?i)Food/".toList :=
    (Phrase.two (op := .eq) ((Phrase.operand .account).lift 1) trivial
      ((Phrase.operand (.regex (pat := "(?i)Food".toList) (by decide) rfl)).lift 1)).lift 1
  exact ⟨w1, C137_not (.expr (by decide) (by decide) (by decide) hx) (by decide), ⟨by decide, by decide⟩, by decide⟩

example : [[], ["Food".toList], ["expr".toList, "not account =~ /(?i)Food/".toList]].map (fun q =>
    (registerCommand (exRuleRun exTypedText) (fun _ => .id) (({} : ReportOpts).asking q) false "main".toList).toOption.map
      (fun ls => ls.map (fun l => (l.account, l.amount.amountIn "EUR".toList)))) =
    [some [("Food".toList, 30), ("Cash".toList, -30), ("Budget".toList, -60), ("Envelope".toList, -30), ("Rest".toList, 30),
        ("Food".toList, 4), ("Cash".toList, -4)],
      some [("Food".toList, 30), ("Food".toList, 4)],
      some [("Cash".toList, -30), ("Budget".toList, -60), ("Envelope".toList, -30), ("Rest".toList, 30),
        ("Cash".toList, -4)]] := by decide +kernel

/-- With `or` and with `and`. -/
example : [["Food".toList, "or".toList, "@Bar".toList], ["Food".toList, "and".toList, "@Bar".toList], ["Food".toList],
      ["@Bar".toList]].map (fun q =>
    (balanceCommand (exRuleRun exTypedText) exOrders 0 (({} : ReportOpts).asking q) false true true "main".toList).toOption.map
      (fun rep => (rep.says "Food".toList "EUR".toList, rep.says "Cash".toList "EUR".toList))) =
    [some (34, -30), some (30, 0), some (34, 0), some (30, -30)] := by decide +kernel

end Dinero
