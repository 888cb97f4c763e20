import Verif.Lemmas.Crash
import Verif.Props.Complaint
import Verif.Props.Status
/-
Property theorems about what becomes of a journal that is read (C120).
-/
namespace Dinero

/-! ### C120: a journal that is read is accepted, rejected, or has a total cost for nothing -/

/-- A total cost for a zero quantity ends every command with a panic, whatever else is in the journal. -/
theorem C120_free_total {r : Run} {path : Str} {pl : ParsedLedger} (h : r.journal path = .ok pl)
    (hz : ¬ pl.NoFreeTotals) (skip : Bool) : r.ledger skip path = .error (.fail (.panic "division by zero")) := by
  unfold Run.ledger
  rw [h]
  simp only
  rw [toLedger_free (C83_wellformed h).1 hz]
  rfl

/-- Then the status is 101. -/
theorem C120_crash {w : World} {args : List Str} {i : Invocation} {pl : ParsedLedger} (h : Invokes w args i)
    (hj : w.run.journal i.file = .ok pl) (hz : ¬ pl.NoFreeTotals) :
    (program w args).map Outcome.status = some 101 :=
  (C115_failure h).2.1 _ (C120_free_total hj hz _)

/-- Without automated transactions there are three cases: a total cost is written for nothing; the transactions can be
booked one after the other, and there is a ledger; or one of them is the first that cannot, and the message says which
and why. -/
theorem C120_outcome {r : Run} {path : Str} {pl : ParsedLedger} (h : r.journal path = .ok pl) (ha : pl.automated = [])
    (skip : Bool) :
    (¬ pl.NoFreeTotals ∧ r.ledger skip path = .error (.fail (.panic "division by zero"))) ∨
    (pl.NoFreeTotals ∧ ∃ ts, pl.StandsFor r.env ts ∧
      (((∃ final, BooksAll skip (fun _ _ => 0) (ts.map Txn.bought) final) ∧
          (¬ ∃ e message, Stuck skip ts e message) ∧ ∃ L, r.ledger skip path = .ok L) ∨
        ((¬ ∃ final, BooksAll skip (fun _ _ => 0) (ts.map Txn.bought) final) ∧ ∃ e,
          r.ledger skip path = .error (.fail (.error e)) ∧ ∀ q, Stuck skip ts e (r.complaint q skip path)))) := by
  by_cases hz : pl.NoFreeTotals
  · refine .inr ⟨hz, ?_⟩
    have hok := (C83_wellformed h).1
    obtain ⟨l, listed, ts, h1, _, _, h2, h3, h4, htx, h5⟩ := toLedger_stages (o := r.orders) hok hz
    refine ⟨ts, ⟨l, listed, populate_names hok.lists h1, h2, h3⟩, ?_⟩
    have hb := balanceAll_iff_books (skip := skip) (σ := r.orders.fill) (accounts := l.accounts) (fun t ht => (h4 t ht).2)
    rw [← balancePass_iff (skip := skip) (σ := r.orders.fill) (ρ := r.orders.rate) ts (initialBalances_ok l.accounts)
      (fun t ht => (h4 t ht).1) (fun t ht p hpm => ((h4 t ht).2 p hpm).1)] at hb
    rw [← hb]
    obtain ⟨s1, s2⟩ := h5 skip
    have hl : r.ledger skip path = PRes.lift (toLedger r.env r.orders skip pl) := by unfold Run.ledger; rw [h]
    have hno := C24_no_panic (o := r.orders) (skip := skip) hok ha hz
    cases hpass : balancePass skip r.orders.fill r.orders.rate (initialBalances l.accounts) ts with
    | ok x =>
      obtain ⟨L, hL, _⟩ := (s2 x.1 x.2 hpass).2 (x.1, [], l) (by rw [ha]; rfl)
      refine .inl ⟨⟨_, rfl⟩, fun ⟨e, m, hst⟩ => ?_, L, by rw [hl, hL]; rfl⟩
      have := (pass_iff_stuck (o := (.id, .id)) (σ := r.orders.fill) (ρ := r.orders.rate) (fun t ht => (h4 t ht).1)
        (fun t ht => (h4 t ht).2)).1.mpr ⟨m, hst⟩
      rw [hpass] at this
      cases this
    | error e1 =>
      refine .inr ⟨fun ⟨_, hx⟩ => (by cases hx), ?_⟩
      have hte := s1 _ hpass
      cases e1 with
      | panic w => rw [hte] at hno; cases hno
      | error e =>
        refine ⟨e, by rw [hl, hte]; rfl, fun q => ?_⟩
        have hc : r.complaint q skip path = passText q skip r.orders.fill (initialBalances l.accounts) ts := by
          unfold Run.complaint
          rw [h]
          simp only
          rw [htx, hpass]
        rw [hc]
        exact (pass_iff_stuck (o := q) (fun t ht => (h4 t ht).1) (fun t ht => (h4 t ht).2)).2 hpass
  · exact .inl ⟨hz, C120_free_total h hz skip⟩

/-- The exit status of `check` tells these cases apart. -/
theorem C120_status {w : World} {args : List Str} {i : Invocation} {pl : ParsedLedger} (h : Invokes w args i)
    (hj : w.run.journal i.file = .ok pl) (ha : pl.automated = []) (hc : i.command = .check) :
    ((program w args).map Outcome.status = some 101 ↔ ¬ pl.NoFreeTotals) ∧
    (pl.NoFreeTotals → ∃ ts, pl.StandsFor w.run.env ts ∧
      ((program w args).map Outcome.status = some 0 ↔
        ∃ final, BooksAll false (fun _ _ => 0) (ts.map Txn.bought) final) ∧
      ((program w args).map Outcome.status = some 1 ↔ ∃ e message, Stuck false ts e message)) := by
  have hs : i.skips = false := by simp [Invocation.skips, hc]
  have hfail := C115_failure h
  rw [hs] at hfail
  have hok : ∀ L, w.run.ledger false i.file = .ok L → (program w args).map Outcome.status = some 0 := by
    intro L hL
    rw [program_of h]
    unfold runCommand
    rw [hc]
    simp only
    rw [(checkCommand_ledger (r := w.run) (path := i.file)).1 L hL]
    rfl
  rcases C120_outcome hj ha false with ⟨hz, hp⟩ | ⟨hz, ts, hts, ⟨hb, hns, L, hL⟩ | ⟨hb, e, he, hq⟩⟩
  · exact ⟨⟨fun _ => hz, fun _ => hfail.2.1 _ hp⟩, fun g => absurd g hz⟩
  · have h0 := hok L hL
    refine ⟨by rw [h0]; simp [hz], fun _ => ⟨ts, hts, by rw [h0]; simp [hb], ?_⟩⟩
    rw [h0]
    refine ⟨fun g => (by cases g), fun g => absurd g hns⟩
  · have h1 := hfail.1 e he
    refine ⟨by rw [h1]; simp [hz], fun _ => ⟨ts, hts, by rw [h1]; simp [hb], ?_⟩⟩
    rw [h1]
    exact ⟨fun _ => ⟨e, _, hq (.id, .id)⟩, fun _ => rfl⟩

/-- One journal of each kind. -/
example : (program (exWorld (exRun "2020-01-01 A\n Stock  0 ACME @@ 5 EUR\n Cash\n") { command := .check, file := "main".toList })
      (exArgs [])).map Outcome.status = some 101 ∧
    (program (exWorld (exRun "2020-01-01 A\n Stock  1 ACME @@ 5 EUR\n Cash\n") { command := .check, file := "main".toList })
      (exArgs [])).map Outcome.status = some 0 ∧
    (program (exWorld (exRun "2020-01-01 A\n Cash  1 EUR\n Food  1 EUR\n") { command := .check, file := "main".toList })
      (exArgs [])).map Outcome.status = some 1 := by decide +kernel

/-- The first of them is read and meets the condition of `C120_free_total`. -/
example : ((exRun "2020-01-01 A\n Stock  0 ACME @@ 5 EUR\n Cash\n").journal "main".toList).toOption.map (fun pl =>
    decide (∃ t ∈ pl.regular, ∃ p ∈ t.postings, p.costType = some .total ∧ p.moneyAmount = some 0)) = some true := by
  decide +kernel

end Dinero
