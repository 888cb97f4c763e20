import Verif.Lemmas.Typing
import Verif.Props.Rulework
/-
Property theorems about value expressions that make sense, and about journals whose rules are such expressions
(C107-C109).
-/
namespace Dinero

/-! ### C107: expressions that make sense have a value -/

/-- An expression that makes sense has a value of its type, whatever the posting; nothing panics. -/
theorem C107_sound {env : Env} {t : Txn Posting} {only : Option Cur} {n : Ast} {ty : Ty} {p : Posting} {st : Commodities}
    (hty : n.type env only.isSome = some ty) (ht : n.FitsTxn only t) (hp : n.FitsPosting only p)
    (hw : n.Written env only st) (hst : st.Reachable env.lower) :
    ∃ v st', eval env t n p st = .ok (v, st') ∧ v.Of only ty := type_sound _ ht hp hw hst hty

/-- An expression that makes sense where everything is in one commodity: is there a posting of more than 10 EUR, and
does this one, doubled and taken from 3 EUR, come to no more than nothing? -/
def exSense : Ast :=
  .binary .and (.unary .any (.binary .gt (.unary .abs .amount) (.money "EUR".toList 10)))
    (.binary .le (.binary .subtract (.money "EUR".toList 3) (.binary .mult (.number 2) .amount)) (.number 0))

example : exSense.type exEnv true = some .bool ∧ exSense.type exEnv false = none ∧
    exSense.FitsTxn (some "EUR".toList) exTxn ∧ exSense.FitsPosting (some "EUR".toList) exPosting ∧
    exVal (eval exEnv exTxn exSense exPosting {}) = some (.bool true) ∧
    exVal (eval exEnv exTxn exSense exPosting2 {}) = some (.bool false) := by
  have hp : exSense.FitsPosting (some "EUR".toList) exPosting :=
    ⟨fun _ => ⟨_, rfl, fun d hd => by cases hd; exact .inr rfl⟩, fun _ => rfl⟩
  have hp2 : exSense.FitsPosting (some "EUR".toList) exPosting2 :=
    ⟨fun _ => ⟨_, rfl, fun d hd => by cases hd; exact .inr rfl⟩, fun _ => rfl⟩
  refine ⟨by decide +kernel, by decide +kernel, ⟨fun _ => rfl, fun q hq => ?_⟩, hp, by decide +kernel, by decide +kernel⟩
  simp only [exTxn, List.mem_cons, List.not_mem_nil, or_false] at hq
  rcases hq with rfl | rfl
  · exact hp
  · exact hp2

/-- The restrictions are needed: two commodities that are compared or added, a missing amount, a divisor that is
nothing, and a text that is no date, all panic. -/
theorem C107_false :
    exVal (eval exEnv exTxn (.binary .gt .amount (.money "USD".toList 1)) exPosting {}) = none ∧
    exVal (eval exEnv exTxn (.binary .add .amount (.money "USD".toList 1)) exPosting {}) = none ∧
    exVal (eval exEnv exTxn .amount { exPosting with amount := none } {}) = none ∧
    exVal (eval exEnv exTxn (.binary .div .amount (.number 0)) exPosting {}) = none ∧
    exVal (eval { exEnv with dateOf := fun _ => none } exTxn (.unary .toDate (.string [])) exPosting {}) = none := by
  decide +kernel

/-! ### C108: rules that make sense never stop the program -/

/-- A journal whose rules make sense, and that has what they ask for, never makes the program panic. -/
theorem C108_no_panic {r : Run} {path : Str} {pl : ParsedLedger} {rules : List (Txn RawPosting × Ast)} {only : Option Cur}
    (h : r.journal path = .ok pl) (hz : pl.NoFreeTotals) (hn : RuleNodes r.env pl.automated rules)
    (ht : ∀ x ∈ rules, TypedRule r.env only x) (ho : ∀ d, only = some d → pl.OnlyIn r.env d) (hf : pl.Serves rules) :
    (∀ skip, (∃ L, r.ledger skip path = .ok L) ∨ ∃ e, r.ledger skip path = .error (.fail (.error e))) ∧
      ∃ v, checkCommand r path = .ok v := by
  by_cases hne : pl.automated = []
  · exact C83_no_panic h hne hz
  have key : ∀ skip, (∃ L, toLedger r.env r.orders skip pl = .ok L) ∨ ∃ e, toLedger r.env r.orders skip pl = .error (.error e) := by
    intro skip
    obtain ⟨l, listed, ts, _, _, _, _, _, h5⟩ := toLedger_rules h hne hz (ruleNodes_of hn)
      (fun _ _ _ _ hb => (booked_typed h hn ht ho hf id hf.amounts hb).imp (fun _ hx => hx.1))
    rcases h5 skip with ⟨_, he⟩ | ⟨_, _, _, _, _, _, _, _, _, ⟨_, he⟩ | ⟨L, _, _, _, hL, _⟩⟩
    · exact .inr he
    · exact .inr he
    · exact .inl ⟨L, hL⟩
  constructor
  · intro skip
    unfold Run.ledger
    rw [h]
    rcases key skip with ⟨L, hL⟩ | ⟨e, he⟩
    · exact .inl ⟨L, by simp only [hL]; rfl⟩
    · exact .inr ⟨e, by simp only [he]; rfl⟩
  · unfold checkCommand
    rw [h]
    rcases key false with ⟨L, hL⟩ | ⟨e, he⟩
    · exact ⟨.ok, by simp only [hL]⟩
    · exact ⟨.ko e, by simp only [he]⟩

/-- A journal in one commodity whose rule looks at accounts and amounts, and computes an amount. -/
def exTypedText : String :=
  "2020-01-05 Bar\n Food  30 EUR\n Cash\n= expr \"(account =~ /(?i)Food/) and (abs(amount) > 10 EUR)\"\n" ++
    " (Budget)  (-2 * abs(amount))\n [Envelope]  -1\n [Rest]  (amount)\n" ++
    "2020-01-06 Baz\n Food  4 EUR\n Cash  -4 EUR = -34 EUR\n"

/-- The condition of the rule of `exTypedText`. -/
def exCondition : Ast :=
  .binary .and (.binary .eq .account (.regex "(?i)Food".toList))
    (.binary .gt (.unary .abs .amount) (.money "EUR".toList 10))

/-- What is to be seen in the journal of `exTypedText`. -/
def exTypedSeen (env : Env) (pl : ParsedLedger) : Bool :=
  decide ((ruleNodes env pl.automated).toOption.map (fun l => l.map Prod.snd) = some [exCondition]) &&
  decide (pl.automated.map (fun t => t.postings.map (fun p => (p.moneyCurrency, p.amountExpr))) =
    [[(none, some "(-2 * abs(amount))".toList), (some [], none), (none, some "(amount)".toList)]]) &&
  decide (∀ t ∈ pl.transactions, ∀ p ∈ t.postings, p.costCurrency = none ∧
    (p.balanceCurrency = none ∨ p.balanceCurrency = some "EUR".toList) ∧
    (p.moneyCurrency = none ∨ p.moneyCurrency = some "EUR".toList ∨ (p.moneyCurrency = some [] ∧ t.ttype = .automated))) &&
  decide (∃ t ∈ pl.transactions, ∃ p ∈ t.postings, p.moneyCurrency = some "EUR".toList) &&
  decide (pl.prices.length = 0) &&
  decide ((pl.lists.commodities.get env.lower "EUR".toList).toOption.map (fun x => x.name) = none) &&
  decide (∀ t ∈ pl.regular, ∀ p ∈ t.postings, p.costType = none ∧ p.kind = .real ∧
    (p.moneyCurrency.isSome ∨ p.balanceCurrency = none))

/-- The rule of `exTypedText` makes sense, and the journal has what it asks for. -/
theorem exTyped_fits : ∃ pl rules, (exRuleRun exTypedText).journal "main".toList = .ok pl ∧ pl.automated ≠ [] ∧
    pl.NoFreeTotals ∧ pl.NoBracketedSales ∧ RuleNodes (exRuleRun exTypedText).env pl.automated rules ∧
    (∀ x ∈ rules, TypedRule (exRuleRun exTypedText).env (some "EUR".toList) x) ∧
    pl.OnlyIn (exRuleRun exTypedText).env "EUR".toList ∧ pl.Serves rules := by
  have key : ((exRuleRun exTypedText).journal "main".toList).toOption.map (exTypedSeen (exRuleRun exTypedText).env) =
      some true := by decide +kernel
  cases hj : (exRuleRun exTypedText).journal "main".toList with
  | error e => rw [hj] at key; cases key
  | ok pl =>
    rw [hj] at key
    simp only [Except.toOption, Option.map_some, Option.some.injEq, exTypedSeen, Bool.and_eq_true,
      decide_eq_true_eq, and_assoc] at key
    obtain ⟨k1, k2, k3, k4, k5, k6, k7⟩ := key
    cases hr : ruleNodes (exRuleRun exTypedText).env pl.automated with
    | error e => rw [hr] at k1; cases k1
    | ok rules =>
      rw [hr] at k1
      simp only [Option.map_some, Option.some.injEq, decide_eq_true_eq] at k1
      have hnodes := ruleNodes_spec _ hr
      have hp0 : pl.prices = [] := List.eq_nil_of_length_eq_zero k5
      have hcur : ∀ t ∈ pl.transactions, ∀ p ∈ t.postings, ∀ c,
          (p.moneyCurrency = some c ∨ p.costCurrency = some c ∨ p.balanceCurrency = some c) →
            c = "EUR".toList ∨ (c = [] ∧ t.ttype = .automated) := by
        intro t ht p hp c hc
        obtain ⟨g1, g2, g3⟩ := k3 t ht p hp
        rcases hc with hc | hc | hc
        · rcases g3 with g3 | g3 | ⟨g3, g4⟩ <;> rw [g3] at hc <;> cases hc
          · exact .inl rfl
          · exact .inr ⟨rfl, g4⟩
        · rw [g1] at hc; cases hc
        · rcases g2 with g2 | g2 <;> rw [g2] at hc <;> cases hc
          exact .inl rfl
      refine ⟨pl, rules, rfl, ?_, ?_, ?_, hnodes, fun x hx => ⟨?_, ?_⟩, ⟨?_, hcur, ?_, ?_⟩, ⟨?_, ?_⟩⟩
      · rintro h; rw [h] at k2; cases k2
      · intro t ht p hp h; rw [(k7 t ht p hp).1] at h; cases h
      · intro t ht p hp _ h; rw [(k7 t ht p hp).1] at h; cases h
      · have : x.2 ∈ rules.map Prod.snd := List.mem_map.mpr ⟨x, hx, rfl⟩
        rw [k1, List.mem_singleton] at this
        rw [this]
        refine ⟨by decide +kernel, fun d hd c hc => ?_⟩
        cases hd
        exact List.mem_singleton.mp hc
      · intro rp hrp hn
        obtain ⟨a, ha, e, _⟩ := Forall₂.mem_right hnodes hx
        rw [e] at hrp
        have h1 : a.postings.map (fun p => (p.moneyCurrency, p.amountExpr)) ∈
            pl.automated.map (fun t => t.postings.map (fun p => (p.moneyCurrency, p.amountExpr))) :=
          List.mem_map.mpr ⟨a, ha, rfl⟩
        rw [k2, List.mem_singleton] at h1
        have h2 : (rp.moneyCurrency, rp.amountExpr) ∈ a.postings.map (fun p => (p.moneyCurrency, p.amountExpr)) :=
          List.mem_map.mpr ⟨rp, hrp, rfl⟩
        rw [h1, hn] at h2
        simp only [List.mem_cons, Prod.mk.injEq, true_and, reduceCtorEq, false_and, false_or, List.not_mem_nil,
          or_false] at h2
        rcases h2 with h2 | h2
        · exact ⟨_, .unary .neg (.binary .mult (.number 2) (.unary .abs .amount)), h2, by decide +kernel,
            .inr ⟨by decide +kernel, fun d _ c hc => by cases hc⟩⟩
        · exact ⟨_, .amount, h2, by decide +kernel, .inr ⟨by decide +kernel, fun d _ c hc => by cases hc⟩⟩
      · obtain ⟨t, ht, p, hp, he⟩ := k4
        exact .inl ⟨t, ht, p, hp, .inl he⟩
      · intro x hx
        rw [hx] at k6; cases k6
      · rintro c (⟨t, ht, p, hp, hc⟩ | ⟨p, hp, _⟩) hl
        · rcases hcur t ht p hp c hc with rfl | ⟨rfl, _⟩
          · rfl
          · exact absurd hl (by decide +kernel)
        · rw [hp0] at hp; cases hp
      · intro _ t ht p hp
        obtain ⟨_, g1, g2⟩ := k7 t ht p hp
        rcases g2 with g2 | g2
        · exact .inl g2
        · exact .inr ⟨g1, g2⟩
      · intro _ t ht p hp
        exact .inl (k7 t ht p hp).2.1

/-- What the rule adds to it. -/
example : (registerCommand (exRuleRun exTypedText) (fun _ => .id) {} false "main".toList).toOption.map
    (fun ls => ls.map (fun l : RegLine => (l.account, l.amount))) = some
      [("Food".toList, .mk 30 "EUR".toList), ("Cash".toList, .mk (-30) "EUR".toList),
       ("Budget".toList, .mk (-60) "EUR".toList), ("Envelope".toList, .mk (-30) "EUR".toList),
       ("Rest".toList, .mk 30 "EUR".toList), ("Food".toList, .mk 4 "EUR".toList),
       ("Cash".toList, .mk (-4) "EUR".toList)] := by decide +kernel

/-- The restrictions are needed: rules that compare different commodities, ask a virtual posting for its missing
amount, or divide by what is nothing, make the program panic. -/
theorem C108_false :
    (checkCommand (exRuleRun "2020-01-05 Bar\n Food  30 EUR\n Cash\n= expr \"amount > 10 USD\"\n (Budget)  2\n")
      "main".toList).toOption = none ∧
    (checkCommand (exRuleRun
      "2020-01-05 Bar\n Food  30 EUR\n Cash\n (X)\n= expr \"abs(amount) > 10 EUR\"\n (Budget)  2 EUR\n")
      "main".toList).toOption = none ∧
    (checkCommand (exRuleRun "2020-01-05 Bar\n Food  30 EUR\n Cash\n= Food\n (Budget)  (amount / 0)\n")
      "main".toList).toOption = none := by decide +kernel

/-! ### C109: what check says of rules that make sense -/

/-- `check` of a journal whose rules make sense: when its regular transactions cannot be booked it is not in order;
otherwise it is exactly when each of them, with what the rules add, balances, the bracketed postings as well, and every
asserted total is what the account then has.  Missing: sales in brackets (see C84). -/
theorem C109_check_partial {r : Run} {path : Str} {pl : ParsedLedger} {rules : List (Txn RawPosting × Ast)} {only : Option Cur}
    (h : r.journal path = .ok pl) (hne : pl.automated ≠ []) (hz : pl.NoFreeTotals) (hb : pl.NoBracketedSales)
    (hn : RuleNodes r.env pl.automated rules) (ht : ∀ x ∈ rules, TypedRule r.env only x)
    (ho : ∀ d, only = some d → pl.OnlyIn r.env d) (hf : pl.Serves rules) :
    ∃ l ts, pl.StandsWith r.env l ts ∧
      (((¬ ∃ final, BooksAll false (fun _ _ => 0) ts final) ∧ ∃ e, checkCommand r path = .ok (.ko e)) ∨
        ∃ booked names applied, (∃ final, BooksAll false (fun _ _ => 0) ts final) ∧
          BookedAs false (fun _ _ => 0) ts booked ∧ l.Grow r.env.lower names ∧
          List.Forall₂ (RulesOn r.env names rules) booked applied ∧
          (checkCommand r path = .ok .ok ↔
            (∀ t ∈ applied, MayBalance (weightOf .real t.postings) ∧ MayBalance (weightOf .virtBal t.postings)) ∧
              AssertionsHold (fun _ _ => 0) (applied.flatMap (fun t => t.postings)))) := by
  obtain ⟨l, ts, h1, h2 | ⟨booked, names, applied, h2, h3, _, h5, h6, h7⟩⟩ := check_applied h hne hz hb hn ht ho hf
  · exact ⟨l, ts, h1, .inl h2⟩
  · exact ⟨l, ts, h1, .inr ⟨booked, names, applied, h2, h3.entered, h5, h6, h7⟩⟩

/-- Bracketed postings that the rule computes, and that balance; and some that do not. -/
example : checkCommand (exRuleRun exTypedText) "main".toList = .ok .ok ∧
    checkCommand (exRuleRun ("2020-01-05 Bar\n Food  30 EUR\n Cash\n= expr \"amount > 10 EUR\"\n" ++
      " [Envelope]  -1\n [Rest]  (amount - 1 EUR)\n")) "main".toList = .ok (.ko .notBalanced) := by decide +kernel

end Dinero
