import Verif.Lemmas.Halfway
import Verif.Props.Status
import Verif.Props.Answer
import Verif.Props.Periods
/-
Property theorems about what is on stdout when a command fails (C122).
-/
namespace Dinero

/-! ### C122: what is printed by a command that fails -/

/-- A question that cannot be answered for a posting: the posting is asked about (it is in the period, and real if only those
are wanted), and the expression has no value, or one that is not a truth value. -/
theorem C122_question {env : Env} {o : FilterOpts} {node : Option Ast} {t : Txn Posting} {p : Posting} {st : Commodities}
    {e : Fail} (hd : t.date.isSome) (h : filterPosting env o node t p st = .error e) :
    (o.real = true → p.kind = .real) ∧ (∀ d, o.fromDate = some d → ∃ x, t.date = some x ∧ d ≤ x) ∧
      (∀ d, o.toDate = some d → ∃ x, t.date = some x ∧ x < d) ∧
      ∃ n, node = some n ∧ (eval env t n p st = .error e ∨
        e = .error .notBoolean ∧ ∃ v st', eval env t n p st = .ok (v, st') ∧ ∀ b, v ≠ .bool b) := by
  obtain ⟨x, hx⟩ := Option.isSome_iff_exists.mp hd
  unfold filterPosting at h
  split at h
  · cases h
  next hr =>
  rw [hx] at h
  have hreal : o.real = true → p.kind = .real := by
    intro h1
    by_contra h2
    exact hr (by simp [h1, h2])
  have hnode : ∀ r, (match node with
      | none => (.ok (true, st) : Res (Bool × Commodities))
      | some n => filterExpression env t n p st) = r → r = .error e →
      ∃ n, node = some n ∧ (eval env t n p st = .error e ∨
        e = .error .notBoolean ∧ ∃ v st', eval env t n p st = .ok (v, st') ∧ ∀ b, v ≠ .bool b) := by
    intro r h1 h2
    subst h2
    cases node with
    | none => cases h1
    | some n =>
      refine ⟨n, rfl, ?_⟩
      simp only [filterExpression] at h1
      split at h1
      · next e' he => cases h1; exact .inl he
      · cases h1
      · next v hv hne =>
        cases h1
        obtain ⟨v, st'⟩ := v
        exact .inr ⟨rfl, v, st', hne, fun b hb => hv b st' (by rw [hb])⟩
  cases hto : o.toDate with
  | none =>
    cases hfrom : o.fromDate with
    | none =>
      simp only [hto, hfrom] at h
      exact ⟨hreal, fun d hd => (by cases hd), fun d hd => (by cases hd), hnode _ rfl h⟩
    | some d =>
      simp only [hto, hfrom] at h
      by_cases hlt : x < d
      · simp only [decide_eq_true hlt] at h; cases h
      · simp only [decide_eq_false hlt] at h
        exact ⟨hreal, fun d' hd => by cases hd; exact ⟨x, hx, not_lt.mp hlt⟩, fun d hd => (by cases hd), hnode _ rfl h⟩
  | some d2 =>
    simp only [hto] at h
    by_cases hge : x ≥ d2
    · simp only [decide_eq_true hge] at h; cases h
    simp only [decide_eq_false hge] at h
    cases hfrom : o.fromDate with
    | none =>
      simp only [hfrom] at h
      exact ⟨hreal, fun d hd => (by cases hd), fun d' hd => by cases hd; exact ⟨x, hx, not_le.mp hge⟩, hnode _ rfl h⟩
    | some d =>
      simp only [hfrom] at h
      by_cases hlt : x < d
      · simp only [decide_eq_true hlt] at h; cases h
      · simp only [decide_eq_false hlt] at h
        exact ⟨hreal, fun d' hd => by cases hd; exact ⟨x, hx, not_lt.mp hlt⟩,
          fun d' hd => by cases hd; exact ⟨x, hx, not_le.mp hge⟩, hnode _ rfl h⟩

/-- The register that fails stops at a posting, and has printed the lines of the postings before it, and nothing else but the
beginning of the line of a posting without amount. -/
theorem C122_register {w : World} {args : List Str} {i : Invocation} {pl : ParsedLedger} {L : Ledger} {e : Fail}
    (h : Invokes w args i) (hi : i.command = .register) (hj : w.run.journal i.file = .ok pl)
    (hl : w.run.ledger i.skip i.file = .ok L) (hf : registerReport w.run.env w.reg i.opts L = .error e) :
    (queryNode w.run.env i.opts.query = .error e ∧ program w args = some ⟨e.status, some []⟩) ∨
      ∃ node ts t ps p lines begun, queryNode w.run.env i.opts.query = .ok node ∧
        StopsAt w.run.env i.opts.filter node L ts t ps p e lines begun ∧
        program w args = some ⟨e.status, some (registerText w.term lines ++ begun)⟩ := by
  have hout : ∀ part, registerRemains w.run w.reg w.term i.opts i.skip i.file = part →
      program w args = some ⟨e.status, some part⟩ := by
    intro part hp
    rw [program_of h]
    unfold runCommand
    rw [hi]
    simp only [registerCommand, hl, hf, hp]
    cases e <;> rfl
  cases hq : queryNode w.run.env i.opts.query with
  | error e' =>
    have : e' = e := by
      unfold registerReport at hf
      rw [hq] at hf
      cases hf; rfl
    subst this
    exact .inl ⟨rfl, hout _ (by simp only [registerRemains, hl, hq])⟩
  | ok node =>
    have hall : registerAll w.run.env w.reg i.opts.filter node L.transactions
        { commodities := L.commodities, payees := L.payees } = .error e := by
      unfold registerReport at hf
      rw [hq] at hf
      simp only at hf
      split at hf
      · next e' he' => cases hf; exact he'
      · cases hf
    obtain ⟨ts, t, ps, p, x, h1, h2⟩ := registerAllPart_stops (ledger_reachable hj hl).payees (ledger_dated hl).1 hall
    exact .inr ⟨node, ts, t, ps, p, _, _, rfl, h2, hout _ (by simp only [registerRemains, hl, hq, h1])⟩

/-- All other commands print nothing when they fail, but for the verdict of `check`. -/
theorem C122_nothing {w : World} {args : List Str} {i : Invocation} {o : Outcome} (h : Invokes w args i)
    (hi : i.command ≠ .register) (hc : i.command ≠ .check) (ho : program w args = some o) (hs : o.status ≠ 0) :
    o.out = some [] := by
  rw [program_of h] at ho
  have key : ∀ {α : Type} {text : α → Str} {x : PRes α}, outcomeOf text [] x = some o → o.out = some [] := by
    intro α text x hx
    cases x with
    | ok a => cases hx; exact absurd rfl hs
    | error f =>
      cases f with
      | fuel => cases hx
      | fail f => cases f <;> (cases hx; rfl)
  unfold runCommand at ho
  obtain ⟨c, file, skip, opts⟩ := i
  cases c with
  | register => exact absurd rfl hi
  | check => exact absurd rfl hc
  | accounts => exact key ho
  | payees => exact key ho
  | prices => exact key ho
  | commodities => exact key ho
  | balance flat noTotal =>
    simp only at ho
    by_cases hrem : balanceRemains w.run w.bal w.today opts skip flat file = []
    · rw [hrem] at ho; exact key ho
    · exfalso
      obtain ⟨rep, hrep⟩ : ∃ rep, balanceCommand w.run w.bal w.today opts skip flat (!noTotal) file = .ok rep := by
        unfold balanceRemains at hrem
        unfold balanceCommand
        cases hl : w.run.ledger skip file with
        | error e => rw [hl] at hrem; exact absurd rfl hrem
        | ok L =>
          simp only [hl] at hrem
          simp only [balanceReport]
          cases hq : queryNode w.run.env opts.query with
          | error e => rw [hq] at hrem; exact absurd rfl hrem
          | ok node =>
            simp only [hq] at hrem
            cases hcol : collectAll w.run.env opts.filter node L.transactions [] L.commodities with
            | error e => rw [hcol] at hrem; exact absurd rfl hrem
            | ok r =>
              obtain ⟨bals, st⟩ := r
              simp only [hcol] at hrem
              obtain ⟨_, _, _, hcan⟩ := collected hcol
              generalize hr : (if flat then flatRows w.bal opts.depth bals else .ok (treeRows w.bal bals) :
                Res (List (Str × Balance))) = rows at hrem
              cases rows with
              | error e => exact absurd rfl hrem
              | ok rows =>
                simp only at hrem
                cases hx : exchangeTable w.run.env w.bal w.today L st opts.exchange with
                | error e => rw [hx] at hrem; exact absurd rfl hrem
                | ok table =>
                  cases table with
                  | none =>
                    obtain ⟨rep, hrep⟩ := finishBalance_ok (o := w.bal) (flat := flat) (showTotal := !noTotal)
                      (depth := opts.depth) none rows hcan.canon
                    exact ⟨rep, by simp only [hcol, hr, hx, hrep]; rfl⟩
                  | some y =>
                    obtain ⟨target, ms⟩ := y
                    simp only [hx] at hrem
                    cases hv : convertRows w.bal.convRow ms target rows with
                    | error e => rw [hv] at hrem; exact absurd rfl hrem
                    | ok rows' =>
                      obtain ⟨rep, hrep⟩ := finishBalance_ok (o := w.bal) (flat := flat) (showTotal := !noTotal)
                        (depth := opts.depth) (some (target, ms)) rows' hcan.canon
                      exact ⟨rep, by simp only [hcol, hr, hx, hv, hrep]; rfl⟩
      rw [hrep] at ho
      cases ho
      exact hs rfl

/-- The question cannot be answered for the dollars: the line before them is printed. -/
example : (program (exWorld (exRuleRun
        "2020-01-05 Bar\n Food  30 EUR\n Cash\n2020-01-06 Baz\n Food  4 USD\n Cash\n")
        { command := .register, file := "main".toList, opts := { query := ["expr".toList, "amount > 10 EUR".toList] } }) (exArgs [])) =
    some ⟨101, some ("2020-01-05 Bar".toList ++ List.replicate 39 ' ' ++ "Food".toList ++ List.replicate 33 ' ' ++
      "30.00 EUR".toList ++ List.replicate 12 ' ' ++ "30.00 EUR\n".toList)⟩ := by decide +kernel

/-- A virtual posting without amount: its line is begun, with the date and the payee or with blanks.  A balance that fails prints nothing. -/
example : (program (exWorld (exRuleRun "2020-01-05 Bar\n Food  30 EUR\n Cash\n (X)\n")
        { command := .register, file := "main".toList, opts := { query := ["X".toList] } }) (exArgs [])) =
      some ⟨101, some ("2020-01-05 Bar".toList ++ List.replicate 39 ' ')⟩ ∧
    (program (exWorld (exRuleRun "2020-01-05 Bar\n Food  30 EUR\n Cash\n (X)\n")
        { command := .register, file := "main".toList }) (exArgs [])).map (fun o => (o.status, o.out.map (fun s => (s.length, s.drop 242)))) =
      some (101, some (295, List.replicate 53 ' ')) ∧
    (program (exWorld (exRuleRun "2020-01-05 Bar\n Food  30 EUR\n Cash\n")
        { command := .balance true false, file := "main".toList, opts := { depth := some 0 } }) (exArgs [])) = some ⟨101, some []⟩ := by decide +kernel

end Dinero
