import Verif.Lemmas.Ruled
import Verif.Props.Meaning
/-
Property theorems about what automated transactions with expressions add (C116).
-/
namespace Dinero

/-! ### C116: what rules with expressions add -/

/-- The register of a journal whose rules make sense and are clear lists the postings that are asked for of its
transactions, as booked, with what the rules make of them: the rules are applied one after the other, each to the
journal's postings of which its condition is true, and an amount that is an expression is what it comes to. -/
theorem C116_register {r : Run} {s : Nat → Shuf} {opts : ReportOpts} {skip : Bool} {path : Str} {pl : ParsedLedger}
    {only : Option Cur} {rules : List (Txn RawPosting × Ast)} {node : Option Ast} {lines : List RegLine}
    (h : r.journal path = .ok pl) (hne : pl.automated ≠ []) (hs : pl.Sound r.env only rules)
    (hc : ∀ x ∈ rules, ClearRule r.env only x) (hq : ClearQuery r.env only opts.query node)
    (hr : registerCommand r s opts skip path = .ok lines) :
    ∃ l ts booked names applied txns, pl.StandsWith r.env l ts ∧ BookedAs skip (fun _ _ => 0) ts booked ∧
      l.Grow r.env.lower names ∧ List.Forall₂ (Ruled r.env only names rules) booked applied ∧
      BookedAs skip (fun _ _ => 0) applied txns ∧
      lines.map (fun l => (l.account, l.kind, some l.amount)) =
        (askedOf r.env opts node txns).map (fun x => x.2.entry) := by
  unfold registerCommand at hr
  cases hl : r.ledger skip path with
  | error e => rw [hl] at hr; cases hr
  | ok L =>
    rw [hl] at hr
    simp only at hr
    cases hrep : registerReport r.env s opts L with
    | error e => rw [hrep] at hr; cases hr
    | ok ls =>
      rw [hrep] at hr; cases hr
      obtain ⟨sel, g1, g2, _⟩ := C55_register hrep
      obtain ⟨l, ts, booked, names, applied, h1, h2, h3, h4, h5, _⟩ :=
        ledger_clear h hne hs.totals hs.nodes hs.typed hc hs.single hs.serves hl
      refine ⟨l, ts, booked, names, applied, L.transactions, h1, h2, h3, h4, h5, ?_⟩
      rw [g2, ← selected_asked h hs hl hq g1]
      rfl

/-- With patterns of accounts as question, which ask for nothing that is not booked, the lines are those of the
transactions that the rules have been applied to, the real postings of each before the virtual ones. -/
theorem C116_patterns {r : Run} {s : Nat → Shuf} {opts : ReportOpts} {skip : Bool} {path : Str} {pl : ParsedLedger}
    {only : Option Cur} {rules : List (Txn RawPosting × Ast)} {lines : List RegLine} (ha : r.env.AsciiSep)
    (hp : PlainQuery r.env opts.query) (h : r.journal path = .ok pl) (hne : pl.automated ≠ []) (hz : pl.NoFreeTotals)
    (hn : RuleNodes r.env pl.automated rules) (ht : ∀ x ∈ rules, TypedRule r.env only x)
    (hc : ∀ x ∈ rules, ClearRule r.env only x) (ho : ∀ d, only = some d → pl.OnlyIn r.env d) (hf : pl.Serves rules)
    (hr : registerCommand r s opts skip path = .ok lines) :
    ∃ l ts booked names applied, pl.StandsWith r.env l ts ∧ BookedAs skip (fun _ _ => 0) ts booked ∧
      l.Grow r.env.lower names ∧ List.Forall₂ (Ruled r.env only names rules) booked applied ∧
      lines.map (fun l => (l.account, l.kind, some l.amount)) =
        (wanted r.env opts (applied.map Txn.realFirst)).map Posting.entry := by
  unfold registerCommand at hr
  cases hl : r.ledger skip path with
  | error e => rw [hl] at hr; cases hr
  | ok L =>
    rw [hl] at hr
    simp only at hr
    cases hrep : registerReport r.env s opts L with
    | error e => rw [hrep] at hr; cases hr
    | ok ls =>
      rw [hrep] at hr; cases hr
      obtain ⟨sel, g1, g2, _⟩ := C55_register hrep
      obtain ⟨l, ts, booked, names, applied, h1, h2, h3, h4, h5, h6⟩ := ledger_clear h hne hz hn ht hc ho hf hl
      refine ⟨l, ts, booked, names, applied, h1, h2, h3, h4, ?_⟩
      rw [← sameEntry_entries (wanted_realFirst (h5.full h6)), ← selected_wanted ha hp g1, List.map_map]
      exact g2

/-- `check` of a journal whose rules make sense and are clear: C109 with what the rules make of the transactions spelled
out.  Missing: sales in brackets (see C84). -/
theorem C116_check_partial {r : Run} {path : Str} {pl : ParsedLedger} {rules : List (Txn RawPosting × Ast)} {only : Option Cur}
    (h : r.journal path = .ok pl) (hne : pl.automated ≠ []) (hz : pl.NoFreeTotals) (hb : pl.NoBracketedSales)
    (hn : RuleNodes r.env pl.automated rules) (ht : ∀ x ∈ rules, TypedRule r.env only x)
    (hc : ∀ x ∈ rules, ClearRule r.env only x) (ho : ∀ d, only = some d → pl.OnlyIn r.env d) (hf : pl.Serves rules) :
    ∃ l ts, pl.StandsWith r.env l ts ∧
      (((¬ ∃ final, BooksAll false (fun _ _ => 0) ts final) ∧ ∃ e, checkCommand r path = .ok (.ko e)) ∨
        ∃ booked names applied, (∃ final, BooksAll false (fun _ _ => 0) ts final) ∧
          BookedAs false (fun _ _ => 0) ts booked ∧ l.Grow r.env.lower names ∧
          List.Forall₂ (Ruled r.env only names rules) booked applied ∧
          (checkCommand r path = .ok .ok ↔
            (∀ t ∈ applied, MayBalance (weightOf .real t.postings) ∧ MayBalance (weightOf .virtBal t.postings)) ∧
              AssertionsHold (fun _ _ => 0) (applied.flatMap (fun t => t.postings)))) := by
  obtain ⟨l, ts, h1, h2 | ⟨booked, names, applied, h2, h3, h4, h5, h6, h7⟩⟩ := check_applied h hne hz hb hn ht ho hf
  · exact ⟨l, ts, h1, .inl h2⟩
  · exact ⟨l, ts, h1, .inr ⟨booked, names, applied, h2, h3.entered, h5, booked_ruled h hn ht hc ho hf h3 h4, h7⟩⟩

/-- The rules are seen to be clear. -/
def exClear (env : Env) (mono : Bool) (rules : List (Txn RawPosting × Ast)) : Bool :=
  rules.all (fun x => x.2.clear env mono && x.1.postings.all (fun rp => match rp.amountExpr with
    | none => true
    | some e => match buildRoot env e with
      | .ok n => n.clear env mono
      | .error _ => true))

theorem exClear_spec {env : Env} {only : Option Cur} {rules : List (Txn RawPosting × Ast)}
    (h : exClear env only.isSome rules = true) : ∀ x ∈ rules, ClearRule env only x := by
  intro x hx
  have := List.all_eq_true.mp h x hx
  rw [Bool.and_eq_true] at this
  refine ⟨this.1, fun rp hrp _ e n he hn => ?_⟩
  have := List.all_eq_true.mp this.2 rp hrp
  simp only [he, hn] at this
  exact this

/-- The rule of `exTypedText` makes sense and is clear. -/
example : ∃ pl rules, (exRuleRun exTypedText).journal "main".toList = .ok pl ∧ pl.automated ≠ [] ∧
    pl.NoBracketedSales ∧ pl.Sound (exRuleRun exTypedText).env (some "EUR".toList) rules ∧
    ∀ x ∈ rules, ClearRule (exRuleRun exTypedText).env (some "EUR".toList) x := by
  obtain ⟨pl, rules, h1, hs⟩ := exTyped_sound
  obtain ⟨pl', _, h1', h2, _, h3, _⟩ := exTyped_fits
  obtain rfl : pl = pl' := Except.ok.inj (h1.symm.trans h1')
  refine ⟨pl, rules, h1, h2, h3, hs, exClear_spec ?_⟩
  have key : ((exRuleRun exTypedText).journal "main".toList).toOption.bind (fun pl =>
      (ruleNodes (exRuleRun exTypedText).env pl.automated).toOption.map
        (exClear (exRuleRun exTypedText).env true)) = some true := by decide +kernel
  have hr := ruleNodes_of hs.nodes
  rw [h1] at key
  simp only [Except.toOption, Option.bind_some] at key
  rw [hr] at key
  exact Option.some.inj key

/-- What a rule adds is seen by `any` in the next, but the next is not for it; it is for the postings that the first has
tagged.  An expression without a commodity is a factor. -/
example : (registerCommand (exRuleRun ("2020-01-05 Bar\n Food  30 EUR\n Cash\n= Food\n ; kept: 3\n (Budget)  -2\n" ++
      "= expr \"any(amount < -50 EUR) and has_tag(/(?i)kept/)\"\n (Half)  (amount / 2 + 1 EUR)\n (Twice)  (2 * 1)\n"))
      (fun _ => .id) {} false "main".toList).toOption.map (fun ls => ls.map (fun l : RegLine => (l.account, l.amount))) =
      some [("Food".toList, .mk 30 "EUR".toList), ("Cash".toList, .mk (-30) "EUR".toList),
        ("Budget".toList, .mk (-60) "EUR".toList), ("Half".toList, .mk 16 "EUR".toList),
        ("Twice".toList, .mk 60 "EUR".toList)] := by decide +kernel

/-- A condition that asks for the tags of other postings is not true or false of a posting once and for all: a rule that
tags the postings it is for is for a later one because it was for an earlier one. -/
theorem C116_false :
    let lines := fun (cond : String) => (registerCommand (exRuleRun ("2020-01-05 Bar\n Food  30 EUR\n Cash\n= expr \"" ++
      cond ++ "\"\n ; seen: 3\n (Budget)  1 EUR\n")) (fun _ => .id) {} false "main".toList).toOption.map
        (fun ls => ls.map (fun l : RegLine => (l.account, l.amount)))
    lines "(account =~ /(?i)Food/) or any(has_tag(/(?i)seen/))" =
      some [("Food".toList, .mk 30 "EUR".toList), ("Cash".toList, .mk (-30) "EUR".toList),
        ("Budget".toList, .mk 1 "EUR".toList), ("Budget".toList, .mk 1 "EUR".toList)] ∧
    lines "(account =~ /(?i)Cash/) or any(has_tag(/(?i)seen/))" =
      some [("Food".toList, .mk 30 "EUR".toList), ("Cash".toList, .mk (-30) "EUR".toList),
        ("Budget".toList, .mk 1 "EUR".toList)] := by decide +kernel

end Dinero
