import Verif.Lemmas.Rates
import Verif.Props.Naming
/-
Property theorems about the prices of journals with automated transactions (C124).
-/
namespace Dinero

/-! ### C124: the prices of journals with rules -/

/-- `prices` for a journal with automated transactions: the prices of the directives, then those paid in postings, then
the rates implied by the transactions as they are booked without the rules, then the rates implied by the transactions
as they are with what the rules add. -/
theorem C124_prices {r : Run} {skip : Bool} {path : Str} {pl : ParsedLedger} {out : List (Date × Cur × Money)}
    (h : r.journal path = .ok pl) (hne : pl.automated ≠ []) (hr : pricesCommand r skip path = .ok out) :
    ∃ L l ts booked given costs rates rates', r.ledger skip path = .ok L ∧ pl.StandsWith r.env l ts ∧
      BookedAs skip (fun _ _ => 0) ts booked ∧
      out = (given ++ costs ++ rates.filterMap id ++ rates'.filterMap id).map
        (fun p => (p.date, p.commodity, .mk p.amount p.cur)) ∧
      List.Forall₂ (DirectivePrice r.env.lower l.commodities) pl.prices given ∧
      List.Forall₂ (fun c pr => CostPrice r.env.lower l.commodities c.1 c.2 pr) pl.costs costs ∧
      List.Forall₂ ImpliesRate booked rates ∧ List.Forall₂ ImpliesRate L.transactions rates' := by
  unfold pricesCommand at hr
  cases hl : r.ledger skip path with
  | error e => rw [hl] at hr; cases hr
  | ok L =>
    rw [hl] at hr
    cases hr
    obtain ⟨l, ts, booked, rules, applied, given, costs, rates, rates', h1, h2, _, _, _, _, h3, h4, h5, h6, h7⟩ :=
      ledger_rates h hne hl
    exact ⟨L, l, ts, booked, given, costs, rates, rates', rfl, h1, h2, by beta_reduce; rw [h3], h4, h5, h6, h7⟩

/-- When the rules have no real postings, each of these rates is listed twice, the second time possibly in the other
direction. -/
theorem C124_twice {r : Run} {skip : Bool} {path : Str} {pl : ParsedLedger} {out : List (Date × Cur × Money)}
    (h : r.journal path = .ok pl) (hne : pl.automated ≠ [])
    (hv : ∀ t ∈ pl.automated, ∀ p ∈ t.postings, p.kind ≠ .real) (hr : pricesCommand r skip path = .ok out) :
    ∃ given rates rates' : List Price, out = (given ++ rates ++ rates').map (fun p => (p.date, p.commodity, .mk p.amount p.cur)) ∧
      given.length = pl.prices.length + pl.costs.length ∧ List.Forall₂ SameRate rates rates' ∧
      ∃ L implied, r.ledger skip path = .ok L ∧ List.Forall₂ ImpliesRate L.transactions implied ∧
        rates' = implied.filterMap id := by
  unfold pricesCommand at hr
  cases hl : r.ledger skip path with
  | error e => rw [hl] at hr; cases hr
  | ok L =>
    rw [hl] at hr
    cases hr
    obtain ⟨l, ts, booked, rules, applied, given, costs, rates, rates', h1, h2, ham, hn, hR, hb, h3, h4, h5, h6, h7⟩ :=
      ledger_rates h hne hl
    refine ⟨given ++ costs, rates.filterMap id, rates'.filterMap id, by beta_reduce; rw [h3], ?_, ?_, L, rates', rfl, h7, rfl⟩
    · rw [List.length_append, h4.length_eq, h5.length_eq]
    · have hw := rules_weights ham (fun x hx => hv _ (hn.mem hx)) hR hb
      refine sameRates ?_
      clear h1 h2 ham hn hR hb h3
      generalize L.transactions = txns at h7 hw
      induction hw generalizing rates rates' with
      | nil => cases h6; cases h7; exact .nil
      | cons h _ ih =>
        cases h6 with
        | cons i1 i2 =>
          cases h7 with
          | cons j1 j2 => exact .cons (implies_same i1 j1 h.1 h.2) (ih _ _ i2 j2)

/-- An exchange. -/
def exRatesText : String := "2020-01-05 Bank\n Wallet  12 USD\n Cash  -10 EUR\n"

/-- The same with a rule that does nothing. -/
def exRatesRuleText : String := "2020-01-05 Bank\n Wallet  12 USD\n Cash  -10 EUR\n= Food\n (Budget)  1\n"

/-- The rate is listed once, and twice when there is a rule. -/
example : (pricesCommand (exRuleRun exRatesText) false "main".toList).toOption =
      some [(dayNumber 2020 1 5, "USD".toList, .mk (5 / 6) "EUR".toList)] ∧
    (pricesCommand (exRuleRun exRatesRuleText) false "main".toList).toOption =
      some [(dayNumber 2020 1 5, "USD".toList, .mk (5 / 6) "EUR".toList),
        (dayNumber 2020 1 5, "USD".toList, .mk (5 / 6) "EUR".toList)] ∧
    ((exRuleRun exRatesRuleText).journal "main".toList).toOption.any (fun pl => decide (pl.automated.length = 1) &&
      pl.automated.all (fun a => a.postings.all (fun p => decide (p.kind ≠ .real)))) = true := by decide +kernel

end Dinero
