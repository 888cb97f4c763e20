import Verif.Lemmas.Complaint
import Verif.Props.Sales
import Verif.Lemmas.Print
/-
Property theorems about the message for a transaction that cannot be booked (C118).
-/
namespace Dinero

/-! ### C118: the message names the first transaction that cannot be booked, and what is wrong with it -/

/-- Balancing fails exactly when something is wrong with the transaction, and this is what it writes. -/
theorem C118_fault {o : Shuf × Shuf} {s : Shuf} {skip : Bool} {bals : Balances} {t : Txn Posting} {e : Err}
    (hb : bals.Ok) (hp : ∀ p ∈ t.postings, p.CostOk) (hd : ∀ p ∈ t.postings, (bals.get? p.account).isSome) :
    (Txn.balance s skip bals t = .error (.error e) ↔ ∃ text, Fault skip (balAmt bals) t e text) ∧
      (Txn.balance s skip bals t = .error (.error e) → Fault skip (balAmt bals) t e (balanceStderr o skip bals t)) :=
  ⟨⟨fun h => ⟨_, balance_fault (o := o) hb hp hd h⟩, fun ⟨_, h⟩ => fault_balance hb hp hd h⟩, balance_fault hb hp hd⟩

/-- A journal without automated transactions makes the ledger fail exactly when one of its transactions is stuck; the
message then names the first such transaction, shows it, and says what is wrong with it. -/
theorem C118_names {r : Run} {path : Str} {pl : ParsedLedger} (h : r.journal path = .ok pl)
    (ha : pl.automated = []) (hz : pl.NoFreeTotals) :
    ∃ ts, pl.StandsFor r.env ts ∧ ∀ skip e,
      (r.ledger skip path = .error (.fail (.error e)) ↔ ∃ message, Stuck skip ts e message) ∧
      (r.ledger skip path = .error (.fail (.error e)) → ∀ q, Stuck skip ts e (r.complaint q skip path)) := by
  have hok := (C83_wellformed h).1
  obtain ⟨l, listed, ts, h1, _, _, h2, h3, h4, htx, h5⟩ := toLedger_stages (o := r.orders) hok hz
  refine ⟨ts, ⟨l, listed, populate_names hok.lists h1, h2, h3⟩, fun skip e => ?_⟩
  have hpass : r.ledger skip path = .error (.fail (.error e)) ↔
      balancePass skip r.orders.fill r.orders.rate (initialBalances l.accounts) ts = .error (.error e) := by
    unfold Run.ledger
    rw [h]
    simp only
    obtain ⟨s1, s2⟩ := h5 skip
    cases hb : balancePass skip r.orders.fill r.orders.rate (initialBalances l.accounts) ts with
    | error e1 => rw [s1 _ hb]; simp [PRes.lift]
    | ok x =>
      obtain ⟨L, hL, _⟩ := (s2 x.1 x.2 hb).2 (x.1, [], l) (by rw [ha]; rfl)
      rw [hL]; simp [PRes.lift]
  have key := fun q => pass_iff_stuck (o := q) (skip := skip) (e := e) (σ := r.orders.fill) (ρ := r.orders.rate)
    (accounts := l.accounts) (fun t ht => (h4 t ht).1) (fun t ht => (h4 t ht).2)
  refine ⟨hpass.trans (key (.id, .id)).1, fun hf q => ?_⟩
  have := (key q).2 (hpass.mp hf)
  unfold Run.complaint
  rw [h]
  simp only
  rw [htx, hpass.mp hf]
  exact this

/-- With rules that make sense (C109): the transactions as written are stuck, or they are not and the transactions are
stuck with what the rules add. -/
theorem C118_rules {r : Run} {path : Str} {pl : ParsedLedger} {rules : List (Txn RawPosting × Ast)} {only : Option Cur}
    (h : r.journal path = .ok pl) (hne : pl.automated ≠ []) (hz : pl.NoFreeTotals)
    (hn : RuleNodes r.env pl.automated rules) (ht : ∀ x ∈ rules, TypedRule r.env only x)
    (ho : ∀ d, only = some d → pl.OnlyIn r.env d) (hf : pl.Serves rules) :
    ∃ l ts, pl.StandsWith r.env l ts ∧ ∀ skip e, r.ledger skip path = .error (.fail (.error e)) →
      (∀ q, Stuck skip ts e (r.complaint q skip path)) ∨
        ∃ booked names applied, BookedAs skip (fun _ _ => 0) ts booked ∧ l.Grow r.env.lower names ∧
          List.Forall₂ (RulesOn r.env names rules) booked applied ∧ ∀ q, Stuck skip applied e (r.complaint q skip path) := by
  obtain ⟨l, listed, ts, h1, h2, h3, h4, _, h5⟩ := toLedger_rules_text h hne hz (ruleNodes_of hn)
    (fun _ _ _ _ hb => (booked_typed h hn ht ho hf id hf.amounts hb).imp (fun _ hx => hx.1))
  refine ⟨l, ts, ⟨h1, listed, h2, h3⟩, fun skip e he => ?_⟩
  have htl : toLedger r.env r.orders skip pl = .error (.error e) := by
    unfold Run.ledger at he
    rw [h] at he
    simp only at he
    cases hl : toLedger r.env r.orders skip pl with
    | ok L => rw [hl] at he; simp [PRes.lift] at he
    | error e1 => rw [hl] at he; simp only [PRes.lift] at he; cases he; rfl
  have hcomp : ∀ q, r.complaint q skip path = ledgerText r.env r.orders q skip pl := by
    intro q; unfold Run.complaint; rw [h]
  rcases h5 skip with ⟨_, e1, g1, g2, g3⟩ | ⟨booked, names, applied, _, g1, _, g2, g5, gd, g3, g4⟩
  · rw [htl] at g1; cases g1
    refine .inl fun q => ?_
    rw [hcomp, g3]
    exact (pass_iff_stuck (o := q) (fun t ht => (h4 t ht).1) (fun t ht => (h4 t ht).2)).2 g2
  · refine .inr ⟨booked, names, applied, g1.entered, g5, g2, fun q => ?_⟩
    rcases g4 with ⟨_, e1, k1, k2, k3⟩ | ⟨L, _, _, _, k, _⟩
    · rw [htl] at k1; cases k1
      rw [hcomp, k3]
      exact (pass_iff_stuck (o := q) gd (fun t ht => (g3 t ht).2.2)).2 k2
    · rw [htl] at k; cases k

/-- The message has, after what is written about the fault, a row with date and description, a row for each posting and a
row with the name of the error. -/
theorem C118_rows {text : Str} {date : Date} {t : Txn Posting} {e : Err} (hd : '\n' ∉ t.description)
    (ha : ∀ p ∈ t.postings, '\n' ∉ p.account ∧ ∀ q c, p.amount = some (.mk q c) → '\n' ∉ c) :
    ∃ rest, faultText text date t e = text ++ rest ∧
      rowsFrom [] rest = (isoDate date ++ ' ' :: t.description) :: t.postings.map postingLine ++ [faultName e] := by
  refine ⟨faultText [] date t e, by simp [faultText], ?_⟩
  have hn := faultName_nl e
  have hl : ∀ p ∈ t.postings, '\n' ∉ postingLine p := by
    intro p hp hm
    obtain ⟨h1, h2⟩ := ha p hp
    unfold postingLine padRight at hm
    simp only [List.cons_append, List.mem_cons, List.mem_append, List.mem_replicate] at hm
    rcases hm with hm | (hm | hm) | hm
    · exact absurd hm (by decide)
    · exact h1 hm
    · exact absurd hm.2 (by decide)
    · cases hx : p.amount with
      | none => rw [hx] at hm; cases hm
      | some m =>
        rw [hx] at hm
        exact shown_nl (m := m) (fun q c hmm => h2 q c (by rw [hx, hmm])) hm
  have hrows : ∀ (ps : List Posting) (s : Str), (∀ p ∈ ps, '\n' ∉ postingLine p) →
      rowsFrom [] ((ps.map (fun p => postingLine p ++ "\n".toList)).flatten ++ s) = ps.map postingLine ++ rowsFrom [] s := by
    intro ps s h
    induction ps with
    | nil => rfl
    | cons p ps ih =>
      rw [List.map_cons, List.flatten_cons]
      have e1 : postingLine p ++ "\n".toList ++ (ps.map (fun p => postingLine p ++ "\n".toList)).flatten ++ s =
          postingLine p ++ '\n' :: ((ps.map (fun p => postingLine p ++ "\n".toList)).flatten ++ s) := by simp
      rw [e1, rowsFrom_row (h p (by simp)), ih (fun q hq => h q (by simp [hq]))]
      rfl
  have e1 : faultText [] date t e = (isoDate date ++ ' ' :: t.description) ++ '\n' ::
      ((t.postings.map (fun p => postingLine p ++ "\n".toList)).flatten ++ (faultName e ++ '\n' :: [])) := by
    simp [faultText]
  have hi : '\n' ∉ isoDate date ++ ' ' :: t.description := by
    simp only [List.mem_append, List.mem_cons, not_or]
    exact ⟨isoDate_nl date, by decide, hd⟩
  rw [e1, rowsFrom_row hi, hrows _ _ hl, rowsFrom_row hn]
  simp [rowsFrom]

/-- The journals of the examples below meet the conditions of `C118_names`, the last one those of `C118_rules`. -/
example : ∀ text ∈ ["2020-01-05 Bar\n Food  10 EUR\n Cash\n2020-01-06 Baz\n Food  4 EUR\n Cash  -4 EUR = -13 EUR\n",
      "2020-01-05 Bar\n Food  10 EUR\n Cash\n2020-01-06 Baz\n Food  4 EUR\n Cash\n Bank\n"],
    ((exRuleRun text).journal "main".toList).toOption.map (fun pl => decide (pl.automated.length = 0 ∧ pl.regular.length = 2 ∧
      (∀ t ∈ pl.regular, ∀ p ∈ t.postings, p.costType = some .total → p.moneyAmount ≠ some 0))) = some true := by
  decide +kernel

/-- An asserted total that does not hold. -/
example : (exRuleRun "2020-01-05 Bar\n Food  10 EUR\n Cash\n2020-01-06 Baz\n Food  4 EUR\n Cash  -4 EUR = -13 EUR\n").complaint
      (.id, .id) false "main".toList =
    "Found:       -13.00 EUR\nExpected:    -14.00 EUR\nDifference:  -1.00 EUR\n2020-01-06 Baz\n".toList ++
      "\tFood                                              4.00 EUR\n".toList ++
      "\tCash                                              -4.00 EUR\nTransactionIsNotBalanced\n".toList := by
  decide +kernel

/-- Two amounts left out, and a rule that leaves the transaction unbalanced. -/
example : (exRuleRun "2020-01-05 Bar\n Food  10 EUR\n Cash\n2020-01-06 Baz\n Food  4 EUR\n Cash\n Bank\n").complaint
      (.id, .id) false "main".toList =
    "2020-01-06 Baz\n\tFood                                              4.00 EUR\n".toList ++
      "\tCash                                              \n".toList ++
      "\tBank                                              \nTooManyEmptyPostings(2)\n".toList ∧
    (exRuleRun "2020-01-05 Bar\n Food  10 EUR\n Cash\n= Food\n Cash  -1\n").complaint (.id, .id) false "main".toList =
    "2020-01-05 Bar\n\tFood                                              10.00 EUR\n".toList ++
      "\tCash                                              -10.00 EUR\n".toList ++
      "\tCash                                              -10.00 EUR\nTransactionIsNotBalanced\n".toList := by
  decide +kernel

/-- Brackets that do not balance, an assigned total that no single amount reaches, and a transaction that does not
balance. -/
example : ∀ text ∈ ["2020-01-05 Bar\n Food  10 EUR\n Cash\n [Save]  1 EUR\n",
      "2020-01-05 Bar\n Food  1 EUR\n Food  1 USD\n Cash\n2020-01-06 Baz\n Food  = 3 EUR\n Cash\n",
      "2020-01-05 Bar\n Food  1 EUR\n Cash  1 EUR\n"],
    checkCommand (exRuleRun text) "main".toList = .ok (.ko .notBalanced) := by decide +kernel

end Dinero
