import Verif.Lemmas.Stderr
import Verif.Props.Trouble
import Verif.Props.App
/-
Property theorems about why a command ends with status 1, and what it says (C129).
-/
namespace Dinero

/-! ### C129: a failure has a cause, and the program names it -/

theorem configArgs_only (env : Env) (fs : Files) (exist : Str → Bool) (home : Str) (args : List Str) :
    OnlyPanics (configArgs env fs exist home args) := by
  have h1 : ∀ as, OnlyPanics (initFileArg as) := by
    intro as
    induction as with
    | nil => exact .ok _
    | cons a as ih =>
      intro e h
      rw [initFileArg.eq_def] at h
      simp only at h
      repeat' split at h
      · cases h
      · cases h
      · exact ih _ h
  have h2 : ∀ ls as, OnlyPanics (configLines env as ls) := by
    intro ls
    induction ls with
    | nil => exact fun _ => .ok _
    | cons l ls ih =>
      intro as e h
      rw [configLines] at h
      split at h
      · next he =>
        cases h
        unfold configLine at he
        simp only at he
        repeat' split at he
        all_goals cases he
      · exact ih _ _ h
  intro e h
  unfold configArgs configFile at h
  cases hi : initFileArg args with
  | error f =>
    rw [hi] at h
    cases h
    exact h1 _ _ hi
  | ok a =>
    rw [hi] at h
    simp only [Except.map] at h
    repeat' split at h
    all_goals first
      | (cases h; done)
      | exact h2 _ _ _ h
      | simp_all

theorem outcomeOf_one {α : Type} {text : α → Str} {part : Str} {x : PRes α} {out : Option Str}
    (h : outcomeOf text part x = some ⟨1, out⟩) : ∃ e, x = .error (.fail (.error e)) := by
  cases x with
  | ok a => simp [outcomeOf] at h
  | error s =>
    cases s with
    | fuel => simp [outcomeOf] at h
    | fail f =>
      cases f with
      | panic w => simp [outcomeOf] at h
      | error e => exact ⟨e, rfl⟩

theorem map_one {α β : Type} {f : α → β} {x : PRes α} {e : Err} (h : x.map f = .error (.fail (.error e))) :
    x = .error (.fail (.error e)) := by
  cases x with
  | ok a => cases h
  | error s => cases h; rfl

theorem lift_one {α : Type} {x : Res α} {e : Err} (h : PRes.lift x = .error (.fail (.error e))) : x = .error (.error e) := by
  cases x with
  | ok a => cases h
  | error s => cases h; rfl

/-- If the program itself ends with status 1, it has understood its arguments and its configuration. -/
theorem C129_understood {w : World} {args : List Str} {out : Str} (h : program w args = some ⟨1, some out⟩) :
    ∃ i, Invokes w args i := by
  unfold program at h
  split at h
  · cases h
  · next he => exact absurd he (configArgs_only _ _ _ _ _ _)
  · next all hall =>
    split at h
    · cases h
    · next i hi => exact ⟨i, all, hall, hi⟩

/-- Whenever a command ends with status 1, it says why: the parser does not understand the journal, a transaction cannot be booked,
or what should be a condition is none. -/
theorem C129_told {w : World} (ha : w.run.env.AsciiChars) (sp : Speech) {args : List Str} {i : Invocation} {out : Option Str}
    (hi : Invokes w args i) (h : program w args = some ⟨1, out⟩) : CommandCause w sp i (commandSaid w sp i) := by
  rw [program_of hi] at h
  obtain ⟨c, file, skip, opts⟩ := i
  unfold runCommand at h
  have report : ∀ {α : Type} {x : Ledger → Res α} {e : Err},
      (match w.run.ledger skip file with | .error e => .error e | .ok l => PRes.lift (x l) : PRes α) = .error (.fail (.error e)) →
      (∀ L e, x L = .error (.error e) →
        ∃ n t p, queryNode w.run.env opts.query = .ok (some n) ∧ t ∈ L.transactions ∧ NoCondition w.run.env t p n) →
      ReportCause w.run sp skip opts file (reportSaid w.run sp skip opts file) := by
    intro α x e h hx
    unfold reportSaid
    cases hl : w.run.ledger skip file with
    | error f =>
      rw [hl] at h
      cases h
      exact .ledger (ledger_cause ha hl)
    | ok L =>
      rw [hl] at h
      obtain ⟨n, t, p, h1, h2, h3⟩ := hx L e (lift_one h)
      simp only [h1]
      exact .query hl (queryNode_some h1) h2 h3
  cases c with
  | balance flat noTotal =>
    obtain ⟨e, he⟩ := outcomeOf_one h
    exact report (e := e) he (fun L e => balanceReport_error)
  | register =>
    obtain ⟨e, he⟩ := outcomeOf_one h
    exact report (e := e) he (fun L e => registerReport_error)
  | check =>
    have hc : ∃ e, w.run.ledger false file = .error (.fail (.error e)) := by
      simp only at h
      unfold checkCommand at h
      unfold Run.ledger
      cases hj : w.run.journal file with
      | error f =>
        rw [hj] at h
        cases f with
        | fuel => simp [checkOutcome] at h
        | fail f => cases f with
          | panic w => simp [checkOutcome] at h
          | error e => exact ⟨e, rfl⟩
      | ok pl =>
        rw [hj] at h
        simp only at h ⊢
        cases ht : toLedger w.run.env w.run.orders false pl with
        | ok L => rw [ht] at h; simp [checkOutcome] at h
        | error f =>
          rw [ht] at h
          cases f with
          | panic w => simp [checkOutcome] at h
          | error e => exact ⟨e, rfl⟩
    obtain ⟨e, he⟩ := hc
    exact ledger_cause ha he
  | accounts =>
    obtain ⟨e, he⟩ := outcomeOf_one h
    exact ledger_cause ha (map_one he)
  | payees =>
    obtain ⟨e, he⟩ := outcomeOf_one h
    exact ledger_cause ha (map_one he)
  | prices =>
    obtain ⟨e, he⟩ := outcomeOf_one h
    exact ledger_cause ha (map_one he)
  | commodities =>
    obtain ⟨e, he⟩ := outcomeOf_one h
    exact ledger_cause ha (map_one he)

/-- A cause that nothing is written about: a line that starts like an `include` directive and is none. -/
theorem cause_silent {r : Run} {sp : Speech} {skip : Bool} {path : Str} (h : Cause r sp skip path [])
    (hC : ∀ f content, r.fs.read f = some content → content.getLast? = some '\n' ∨ '=' ∉ content) :
    ∃ f read rest, r.fs.read f = some (read ++ rest) ∧ NoInclude read rest := by
  generalize ht : ([] : Str) = text at h
  cases h with
  | parser h hx =>
    next x =>
    obtain ⟨f, content, hf, hr, hp, hn⟩ := hx
    cases hx : x.place with
    | none =>
      obtain ⟨n1, n2, read, rest, n3, n4⟩ := hn hx
      exact ⟨f, read, rest, n3 ▸ hr, n4 (hC f _ hr)⟩
    | some t =>
      exfalso
      rw [Trouble.written, hx] at ht
      have := congrArg List.length ht
      simp only [List.length_append, List.length_nil, List.length_cons] at this
      omega
  | booking => simp at ht
  | rule => simp [Speech.notBoolean] at ht

/-- Status 1 without a word: only for a line that starts like an `include` directive and is none. -/
theorem C129_silent_partial {w : World} (ha : w.run.env.AsciiChars) (sp : Speech) {args : List Str} {i : Invocation}
    {out : Option Str} (hi : Invokes w args i) (h : program w args = some ⟨1, out⟩) (hs : commandSaid w sp i = [])
    (hC : ∀ f content, w.run.fs.read f = some content → content.getLast? = some '\n' ∨ '=' ∉ content) :
    ∃ f read rest, w.run.fs.read f = some (read ++ rest) ∧ NoInclude read rest := by
  have hc := C129_told ha sp hi h
  rw [hs] at hc
  have report : ∀ {skip opts path}, ReportCause w.run sp skip opts path [] →
      ∃ f read rest, w.run.fs.read f = some (read ++ rest) ∧ NoInclude read rest := by
    intro skip opts path h
    generalize ht : ([] : Str) = text at h
    cases h with
    | ledger h => subst ht; exact cause_silent h hC
    | query => simp [Speech.notBoolean] at ht
  obtain ⟨c, file, skip, opts⟩ := i
  cases c with
  | balance flat noTotal => exact report hc
  | register => exact report hc
  | check => exact cause_silent hc hC
  | accounts => exact cause_silent hc hC
  | payees => exact cause_silent hc hC
  | prices => exact cause_silent hc hC
  | commodities => exact cause_silent hc hC

/-! ### Without a query the journal alone decides -/

/-- Whether asserted totals go unchecked: `check` always checks them. -/
def Invocation.unchecked (i : Invocation) : Bool := match i.command with | .check => false | _ => i.skip

theorem outcomeOf_is_one {α : Type} {text : α → Str} {part : Str} {x : PRes α} {e : Err} (h : x = .error (.fail (.error e))) :
    ∃ out, outcomeOf text part x = some ⟨1, out⟩ := by
  subst h
  exact ⟨_, rfl⟩

/-- Without a query, a command ends with status 1 exactly when there is no ledger for its file. -/
theorem C129_fault {w : World} {args : List Str} {i : Invocation} (hi : Invokes w args i) (hq : i.opts.query = []) :
    (∃ out, program w args = some ⟨1, out⟩) ↔ ∃ e, w.run.ledger i.unchecked i.file = .error (.fail (.error e)) := by
  rw [program_of hi]
  obtain ⟨c, file, skip, opts⟩ := i
  simp only at hq
  have hnode : queryNode w.run.env opts.query = .ok none := by rw [hq]; rfl
  unfold runCommand
  have report : ∀ {α : Type} {text : α → Str} {part : Str} {x : Ledger → Res α},
      (∀ L e, x L = .error (.error e) →
        ∃ n t p, queryNode w.run.env opts.query = .ok (some n) ∧ t ∈ L.transactions ∧ NoCondition w.run.env t p n) →
      ((∃ out, outcomeOf text part
        (match w.run.ledger skip file with | .error e => .error e | .ok l => PRes.lift (x l) : PRes α) = some ⟨1, out⟩) ↔
        ∃ e, w.run.ledger skip file = .error (.fail (.error e))) := by
    intro α text part x hx
    constructor
    · rintro ⟨out, h⟩
      obtain ⟨e, he⟩ := outcomeOf_one h
      cases hl : w.run.ledger skip file with
      | error f => rw [hl] at he; cases he; exact ⟨_, rfl⟩
      | ok L =>
        rw [hl] at he
        obtain ⟨n, t, p, h1, _⟩ := hx L e (lift_one he)
        rw [hnode] at h1
        cases h1
    · rintro ⟨e, he⟩
      rw [he]
      exact ⟨_, rfl⟩
  have list : ∀ {α β : Type} {text : β → Str} {part : Str} {f : Ledger → β},
      ((∃ out, outcomeOf text part ((w.run.ledger skip file).map f) = some ⟨1, out⟩) ↔
        ∃ e, w.run.ledger skip file = .error (.fail (.error e))) := by
    intro α β text part f
    constructor
    · rintro ⟨out, h⟩
      obtain ⟨e, he⟩ := outcomeOf_one h
      exact ⟨e, map_one he⟩
    · rintro ⟨e, he⟩
      rw [he]
      exact ⟨_, rfl⟩
  cases c with
  | balance flat noTotal => exact report (fun L e => balanceReport_error)
  | register => exact report (fun L e => registerReport_error)
  | check =>
    simp only [Invocation.unchecked]
    unfold checkCommand Run.ledger
    cases hj : w.run.journal file with
    | error f =>
      cases f with
      | fuel => simp [checkOutcome]
      | fail f => cases f with
        | panic w => simp [checkOutcome]
        | error e => simp [checkOutcome]
    | ok pl =>
      simp only
      cases ht : toLedger w.run.env w.run.orders false pl with
      | ok L => simp [checkOutcome, PRes.lift]
      | error f =>
        cases f with
        | panic w => simp [checkOutcome, PRes.lift]
        | error e => simp [checkOutcome, PRes.lift]
  | accounts => exact list (α := Unit)
  | payees => exact list (α := Unit)
  | prices => exact list (α := Unit)
  | commodities => exact list (α := Unit)

/-- So all commands without a query agree about a journal: if one of them ends with status 1, every other one does. -/
theorem C129_agree {w : World} {args args' : List Str} {i i' : Invocation} (hi : Invokes w args i) (hi' : Invokes w args' i')
    (hq : i.opts.query = []) (hq' : i'.opts.query = []) (hf : i'.file = i.file) (hs : i'.unchecked = i.unchecked) :
    (∃ out, program w args = some ⟨1, out⟩) ↔ ∃ out, program w args' = some ⟨1, out⟩ := by
  rw [C129_fault hi hq, C129_fault hi' hq', hf, hs]

/-! ### Examples -/

/-- Expressions are shown as `NODE`. -/
def exSpeech : Speech := { shown := exShown, maps := (.id, .id), node := fun _ => "NODE ".toList }

/-- How a command on a file with this text ends, and what it says. -/
def exTold (text : String) (i : Invocation) : Option Nat × Str :=
  ((program (exWorld (exRun text) i) (exArgs [])).map Outcome.status, commandSaid (exWorld (exRun text) i) exSpeech i)

/-- All four causes: a transaction that does not sum to zero, a query that is a number, a rule that looks for a number, and a posting
without its closing bracket. -/
example :
    exTold "2020-01-01 Bar\n Food  5 EUR\n Cash  -4 EUR\n" { command := .register, file := "main".toList } =
      (some 1, "2020-01-01 Bar\n".toList ++ "\tFood                                              5.00 EUR\n".toList ++
        "\tCash                                              -4.00 EUR\n".toList ++ "TransactionIsNotBalanced\n".toList) ∧
    exTold "2020-01-01 Bar\n Food  5 EUR\n Cash\n"
        { command := .register, file := "main".toList, opts := { query := ["expr".toList, "5".toList] } } =
      (some 1, "NODE should return a boolean\n".toList) ∧
    exTold "= expr 5\n (X)  1 EUR\n2020-01-01 Bar\n Food  5 EUR\n Cash\n" { command := .accounts, file := "main".toList } =
      (some 1, "NODE should return a boolean\n".toList) ∧
    exTold "2020-01-01 Bar\n (X  1 EUR\n" { command := .prices, file := "main".toList } =
      (some 1, "Error while parsing posting.\n".toList ++ "Error: UnexpectedInput(Some(\"Expected ')'\"))\n".toList ++
        " --> \"main\":2:6\n".toList ++ "1 |      2020-01-01 Bar\n".toList ++ "2 |       (X  1 EUR\n".toList ++
        "  |      -----^-----\n".toList) := by
  decide +kernel

/-- The hypotheses of C129 are met: this command ends with status 1 and has no query. -/
example : ∃ (w : World) (i : Invocation) (out : Str), w.run.env.AsciiChars ∧ Invokes w (exArgs []) i ∧ i.opts.query = [] ∧
    i.unchecked = false ∧ program w (exArgs []) = some ⟨1, some out⟩ ∧
    ∀ f content, w.run.fs.read f = some content → content.getLast? = some '\n' ∨ '=' ∉ content := by
  refine ⟨exWorld (exRun "2020-01-01 Bar\n Food  5 EUR\n Cash  -4 EUR\n") { command := .register, file := "main".toList },
    { command := .register, file := "main".toList }, [], exEnvJ_ascii, ⟨exArgs [], rfl, rfl⟩, rfl, rfl, by decide +kernel, ?_⟩
  intro f content h
  simp only [exWorld, exRun, exDir, List.find?_cons, List.find?_nil] at h
  split at h
  · cases h
    left
    decide +kernel
  · cases h

/-- The one case in which nothing is said. -/
theorem C129_false :
    exTold "\nincomplete\n" { command := .check, file := "main".toList } = (some 1, []) := by
  decide +kernel

end Dinero
