import Verif.Lemmas.Naming
import Verif.Props.Lists
import Verif.Props.Rules
/-
Property theorems about the names of journals with automated transactions (C123).
-/
namespace Dinero

/-! ### C123: the lists of journals with rules -/

/-- `accounts`, `payees` and `commodities` for any journal, with or without automated transactions: sorted, each once,
what is declared and what is used without being declared, be it by an automated transaction.  Rules add no account and
no payee that is not written in a posting; the commodities can also be written in the condition of a rule or in the
expression for an amount, and those of conditions are listed as soon as there is an amount the condition is put to. -/
theorem C123_lists {r : Run} {s : Shuf} {skip : Bool} {path : Str} {pl : ParsedLedger} {as ps cs : List Str}
    (h : r.journal path = .ok pl) (h1 : accountsCommand r s skip path = .ok as)
    (h2 : payeesCommand r s skip path = .ok ps) (h3 : commoditiesCommand r s skip path = .ok cs) :
    as.Pairwise (· < ·) ∧ ps.Pairwise (· < ·) ∧ cs.Pairwise (· < ·) ∧
      (∀ n, Lists? pl.lists.accounts n → n ∈ as) ∧ (∀ n, Lists? pl.lists.payees n → n ∈ ps) ∧
      (∀ n, Lists? pl.lists.commodities n → n ∈ cs) ∧
      (∀ n ∈ as, Lists? pl.lists.accounts n ∨
        pl.usesAccount n ∧ ¬ Declared r.env.lower pl.lists.accounts n) ∧
      (∀ n ∈ ps, Lists? pl.lists.payees n ∨ pl.usesPayee n ∧ ¬ Declared r.env.lower pl.lists.payees n ∧
        ∀ p, ¬ Matches r.env pl.lists.payees p n) ∧
      (∀ n ∈ cs, Lists? pl.lists.commodities n ∨
        (pl.usesCommodity n ∨ pl.conditionNames r.env n ∨ pl.formulaNames r.env n) ∧
          ¬ Declared r.env.lower pl.lists.commodities n) ∧
      (∀ n, pl.usesAccount n → ¬ Declared r.env.lower pl.lists.accounts n →
        ∃ m ∈ as, pl.usesAccount m ∧ r.env.lower m = r.env.lower n) ∧
      (∀ n, (pl.usesCommodity n ∨ (pl.conditionNames r.env n ∧
          ∃ t ∈ pl.regular, ∃ p ∈ t.postings, p.moneyCurrency.isSome)) →
        ¬ Declared r.env.lower pl.lists.commodities n → ∃ m ∈ cs, r.env.lower m = r.env.lower n) ∧
      (∀ n, pl.usesPayee n → ¬ Declared r.env.lower pl.lists.payees n →
        ∃ m, pl.usesPayee m ∧ r.env.lower m = r.env.lower n ∧
          (m ∈ ps ∨ ∃ p, Matches r.env pl.lists.payees p m)) := by
  unfold accountsCommand at h1
  unfold payeesCommand at h2
  unfold commoditiesCommand at h3
  cases hl : r.ledger skip path with
  | error e => rw [hl] at h1; cases h1
  | ok L =>
    rw [hl] at h1 h2 h3
    cases h1; cases h2; cases h3
    obtain ⟨used, hA, hP, hC, u1, u2, u3⟩ := ledger_names h hl
    obtain ⟨a1, a2, _⟩ := C59_list hA.reachable s s
    obtain ⟨p1, p2, _⟩ := C59_list hP.reachable s s
    obtain ⟨c1, c2, _⟩ := C59_list hC.reachable s s
    refine ⟨a1, p1, c1, fun n hn => (a2 n).mpr (hA.kept n hn), fun n hn => (p2 n).mpr (hP.kept n hn),
      fun n hn => (c2 n).mpr (hC.kept n hn), fun n hn => hA.only n ((a2 n).mp hn),
      fun n hn => hP.only n ((p2 n).mp hn), fun n hn => (hC.only n ((c2 n).mp hn)).imp id (fun h => ⟨u2 n h.1, h.2⟩),
      ?_, ?_, ?_⟩
    · intro n hu hd
      obtain ⟨m, m1, m2, m3⟩ := hA.added n hu hd
      obtain ⟨k, e, m4, m5⟩ := finds_mem m3
      exact ⟨m, (a2 m).mpr ⟨k, e, m4, m5⟩, m1, m2⟩
    · intro n hu hd
      obtain ⟨m, m1, m2, m3⟩ := hC.added n (hu.elim (u1 n) (fun h => u3 h.2 n h.1)) hd
      obtain ⟨k, e, m4, m5⟩ := finds_mem m3
      exact ⟨m, (c2 m).mpr ⟨k, e, m4, m5⟩, m2⟩
    · intro n hu hd
      obtain ⟨m, m1, m2, m3⟩ := hP.added n hu hd
      refine ⟨m, m1, m2, ?_⟩
      rcases m3 with ⟨_, m3⟩ | ⟨p, m3, _⟩
      · obtain ⟨k, e, m4, m5⟩ := finds_mem m3
        exact .inl ((p2 m).mpr ⟨k, e, m4, m5⟩)
      · exact .inr ⟨p, m3⟩

/-- A rule that names a commodity no posting is in, another in the expression of an amount, and an account nothing else
is posted to. -/
def exNamingText : String :=
  "2020-01-05 Bar\n Food  10 EUR\n Cash\n= expr \"(account =~ /(?i)Food/) or (amount == 5 USD)\"\n (Budget)  (2 GBP)\n"

/-- The lists of `exNamingText`: `USD` is only in the condition, `GBP` only in the expression. -/
example : (accountsCommand (exRuleRun exNamingText) .id false "main".toList).toOption =
      some ["Budget".toList, "Cash".toList, "Food".toList] ∧
    (payeesCommand (exRuleRun exNamingText) .id false "main".toList).toOption = some ["Bar".toList] ∧
    (commoditiesCommand (exRuleRun exNamingText) .id false "main".toList).toOption =
      some ["EUR".toList, "GBP".toList, "USD".toList] ∧
    ((exRuleRun exNamingText).journal "main".toList).toOption.any (fun pl => decide (pl.automated.length = 1) &&
      pl.automated.all (fun a => a.postings.all (fun p => decide (p.moneyCurrency = none)))) = true := by decide +kernel

/-- What the program writes for `accounts`, read line by line, for any journal. -/
theorem C123_accounts {w : World} {args : List Str} {i : Invocation} {pl : ParsedLedger} {out : Str}
    (h : Invokes w args i) (hi : i.command = .accounts) (hj : w.run.journal i.file = .ok pl)
    (hnl : ∀ n, (Lists? pl.lists.accounts n ∨ pl.usesAccount n) → '\n' ∉ n) (hp : Prints w args out) :
    (rowsFrom [] out).Pairwise (· < ·) ∧ (∀ n, Lists? pl.lists.accounts n → n ∈ rowsFrom [] out) ∧
      (∀ n ∈ rowsFrom [] out, Lists? pl.lists.accounts n ∨
        pl.usesAccount n ∧ ¬ Declared w.run.env.lower pl.lists.accounts n) ∧
      ∀ n, pl.usesAccount n → ¬ Declared w.run.env.lower pl.lists.accounts n →
        ∃ m ∈ rowsFrom [] out, pl.usesAccount m ∧ w.run.env.lower m = w.run.env.lower n := by
  unfold Prints at hp
  rw [program_of h] at hp
  unfold runCommand at hp
  rw [hi] at hp
  obtain ⟨as, h1, rfl⟩ := outcomeOf_ok hp
  cases hl : w.run.ledger i.skip i.file with
  | error e => unfold accountsCommand at h1; rw [hl] at h1; cases h1
  | ok L =>
    obtain ⟨c1, _, _, c2, _, _, c3, _, _, c4, _⟩ := C123_lists hj h1 (s := w.list)
      (ps := listCommand w.list L.payees) (cs := listCommand w.list L.commodities)
      (by unfold payeesCommand; rw [hl]; rfl) (by unfold commoditiesCommand; rw [hl]; rfl)
    rw [C106_list (fun n hn => hnl n ((c3 n hn).imp id And.left))]
    exact ⟨c1, c2, c3, c4⟩

/-- The same for `commodities`. -/
theorem C123_commodities {w : World} {args : List Str} {i : Invocation} {pl : ParsedLedger} {out : Str}
    (h : Invokes w args i) (hi : i.command = .commodities) (hj : w.run.journal i.file = .ok pl)
    (hnl : ∀ n, (Lists? pl.lists.commodities n ∨ pl.usesCommodity n ∨ pl.conditionNames w.run.env n ∨
      pl.formulaNames w.run.env n) → '\n' ∉ n) (hp : Prints w args out) :
    (rowsFrom [] out).Pairwise (· < ·) ∧ (∀ n, Lists? pl.lists.commodities n → n ∈ rowsFrom [] out) ∧
      (∀ n ∈ rowsFrom [] out, Lists? pl.lists.commodities n ∨
        (pl.usesCommodity n ∨ pl.conditionNames w.run.env n ∨ pl.formulaNames w.run.env n) ∧
          ¬ Declared w.run.env.lower pl.lists.commodities n) ∧
      ∀ n, (pl.usesCommodity n ∨ (pl.conditionNames w.run.env n ∧
          ∃ t ∈ pl.regular, ∃ p ∈ t.postings, p.moneyCurrency.isSome)) →
        ¬ Declared w.run.env.lower pl.lists.commodities n →
        ∃ m ∈ rowsFrom [] out, w.run.env.lower m = w.run.env.lower n := by
  unfold Prints at hp
  rw [program_of h] at hp
  unfold runCommand at hp
  rw [hi] at hp
  obtain ⟨cs, h1, rfl⟩ := outcomeOf_ok hp
  cases hl : w.run.ledger i.skip i.file with
  | error e => unfold commoditiesCommand at h1; rw [hl] at h1; cases h1
  | ok L =>
    obtain ⟨_, _, c1, _, _, c2, _, _, c3, _, c4, _⟩ := C123_lists hj (s := w.list)
      (as := listCommand w.list L.accounts) (ps := listCommand w.list L.payees)
      (by unfold accountsCommand; rw [hl]; rfl) (by unfold payeesCommand; rw [hl]; rfl) h1
    rw [C106_list (fun n hn => hnl n ((c3 n hn).imp id And.left))]
    exact ⟨c1, c2, c3, c4⟩

/-- The same for `payees`, where a used name can also be taken by a pattern. -/
theorem C123_payees {w : World} {args : List Str} {i : Invocation} {pl : ParsedLedger} {out : Str}
    (h : Invokes w args i) (hi : i.command = .payees) (hj : w.run.journal i.file = .ok pl)
    (hnl : ∀ n, (Lists? pl.lists.payees n ∨ pl.usesPayee n) → '\n' ∉ n) (hp : Prints w args out) :
    (rowsFrom [] out).Pairwise (· < ·) ∧ (∀ n, Lists? pl.lists.payees n → n ∈ rowsFrom [] out) ∧
      (∀ n ∈ rowsFrom [] out, Lists? pl.lists.payees n ∨ pl.usesPayee n ∧
        ¬ Declared w.run.env.lower pl.lists.payees n ∧ ∀ p, ¬ Matches w.run.env pl.lists.payees p n) ∧
      ∀ n, pl.usesPayee n → ¬ Declared w.run.env.lower pl.lists.payees n →
        ∃ m, pl.usesPayee m ∧ w.run.env.lower m = w.run.env.lower n ∧
          (m ∈ rowsFrom [] out ∨ ∃ p, Matches w.run.env pl.lists.payees p m) := by
  unfold Prints at hp
  rw [program_of h] at hp
  unfold runCommand at hp
  rw [hi] at hp
  obtain ⟨ps, h1, rfl⟩ := outcomeOf_ok hp
  cases hl : w.run.ledger i.skip i.file with
  | error e => unfold payeesCommand at h1; rw [hl] at h1; cases h1
  | ok L =>
    obtain ⟨_, c1, _, _, c2, _, _, c3, _, _, _, c4⟩ := C123_lists hj (s := w.list)
      (as := listCommand w.list L.accounts) (cs := listCommand w.list L.commodities)
      (by unfold accountsCommand; rw [hl]; rfl) h1 (by unfold commoditiesCommand; rw [hl]; rfl)
    rw [C106_list (fun n hn => hnl n ((c3 n hn).imp id And.left))]
    exact ⟨c1, c2, c3, c4⟩

example : (program (exWorld (exRuleRun exNamingText) { command := .commodities, file := "main".toList })
      (exArgs [])).map Outcome.out = some (some "EUR\nGBP\nUSD\n".toList) ∧
    (program (exWorld (exRuleRun exNamingText) { command := .accounts, file := "main".toList })
      (exArgs [])).map Outcome.out = some (some "Budget\nCash\nFood\n".toList) := by decide +kernel

end Dinero
