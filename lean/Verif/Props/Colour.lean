import Verif.Lemmas.Colour
import Verif.Props.Args
import Verif.Props.Report
/-
Property theorems about colours (C127).
-/
namespace Dinero

/-! ### C127: colours do not change the text -/

/-- **C127**: whatever the surroundings and the options, the program ends the same with and without colours, and a terminal
shows the same text, if there are no escape characters in it.  Behind it nothing is coloured.  (With escape characters in
the names it is not so, `C127_escapes`.) -/
theorem C127_shown_partial (s : Surroundings) {w : World} {args : List Str} {status : Nat} {out : Str}
    (h : program w args = some ⟨status, some out⟩) (he : '\x1b' ∉ out) :
    ∃ out', paintedProgram s w args = some ⟨status, some out'⟩ ∧ (seen out').map Prod.fst = out ∧
      (({} : Screen).write out').2 = {} := by
  rw [← escChar_eq] at he
  have key : ∃ out', paintedProgram s w args = some ⟨status, some out'⟩ ∧ Same out' out := by
    revert h
    unfold program paintedProgram
    cases configArgs w.run.env w.run.fs w.exist w.home args with
    | error e => cases e <;> exact fun h => ⟨_, h, same_plain he⟩
    | ok all =>
      simp only
      cases w.parse all with
      | error st => intro h; cases h
      | ok i => exact fun h => runPainted_same s w i _ _ h he
  obtain ⟨out', h1, cells, h2, h3⟩ := key
  exact ⟨out', h1, by unfold seen; rw [h2]; exact h3, by rw [h2]⟩

/-- The same way of ending, in both directions. -/
theorem C127_status (s : Surroundings) (w : World) (args : List Str) :
    (paintedProgram s w args).map Outcome.status = (program w args).map Outcome.status := by
  unfold paintedProgram program
  cases configArgs w.run.env w.run.fs w.exist w.home args with
  | error e => cases e <;> rfl
  | ok all =>
    simp only
    cases w.parse all with
    | error st => rfl
    | ok i =>
      simp only [runPainted, runCommand]
      have key : ∀ {α : Type} (f g : α → Str) (a b : Str) (x : PRes α),
          (outcomeOf f a x).map Outcome.status = (outcomeOf g b x).map Outcome.status := by
        intro α f g a b x
        match x with
        | .ok _ => rfl
        | .error (.fail (.error _)) => rfl
        | .error (.fail (.panic _)) => rfl
        | .error .fuel => rfl
      cases i.command with
      | balance flat noTotal => exact key _ _ _ _ _
      | register => exact key _ _ _ _ _
      | check =>
        simp only
        match checkCommand w.run i.file with
        | .ok .ok => rfl
        | .ok (.ko _) => rfl
        | .error (.fail (.error _)) => rfl
        | .error (.fail (.panic _)) => rfl
        | .error .fuel => rfl
      | _ => rfl

/-- **C127**: how the register looks: the accounts are blue, the amounts red if they are negative. -/
theorem C127_register {s : Surroundings} {w : World} {args : List Str} {i : Invocation} {lines : List RegLine}
    (h : Invokes w args i) (hc : i.command = .register) (hon : (s.forced i).colours = true)
    (hr : registerCommand w.run w.reg i.opts i.skip i.file = .ok lines)
    (he : '\x1b' ∉ registerText w.term lines) :
    ∃ out, paintedProgram s w args = some ⟨0, some out⟩ ∧ seen out = lines.flatMap (regLineSeen (regCols w.term)) := by
  rw [← escChar_eq] at he
  rw [paintedProgram_of h]
  unfold runPainted
  rw [hc, hon]
  simp only [hr]
  refine ⟨_, rfl, ?_⟩
  unfold seen
  rw [register_shown he]

/-- **C127**: how the balance looks. -/
theorem C127_balance {s : Surroundings} {w : World} {args : List Str} {i : Invocation} {flat noTotal : Bool}
    {rep : BalReport} (h : Invokes w args i) (hc : i.command = .balance flat noTotal)
    (hon : (s.forced i).colours = true)
    (hr : balanceCommand w.run w.bal w.today i.opts i.skip flat (!noTotal) i.file = .ok rep)
    (he : '\x1b' ∉ balanceText flat rep) :
    ∃ out, paintedProgram s w args = some ⟨0, some out⟩ ∧
      seen out = rep.lines.flatMap (balLineSeen flat) ++ totalSeen rep.total := by
  rw [← escChar_eq] at he
  rw [paintedProgram_of h]
  unfold runPainted
  rw [hc, hon]
  simp only [hr]
  refine ⟨_, rfl, ?_⟩
  unfold seen
  rw [balance_shown he]

/-- **C127**: how what `check` says looks. -/
theorem C127_check {s : Surroundings} {w : World} {args : List Str} {i : Invocation} {v : Verdict}
    (h : Invokes w args i) (hc : i.command = .check) (hon : s.colours = true) (hr : checkCommand w.run i.file = .ok v)
    (he : '\x1b' ∉ i.file) :
    ∃ st out, paintedProgram s w args = some ⟨st, some out⟩ ∧ seen out = checkSeen i.file (decide (st = 0)) ∧
      (st = 0 ↔ v = .ok) := by
  rw [← escChar_eq] at he
  rw [paintedProgram_of h]
  unfold runPainted Surroundings.forced
  rw [hc]
  simp only [hon, hr]
  cases v with
  | ok =>
    refine ⟨_, _, rfl, ?_, by simp⟩
    unfold seen
    rw [check_shown he]
    rfl
  | ko e =>
    refine ⟨_, _, rfl, ?_, by simp⟩
    unfold seen
    rw [check_shown he]
    rfl

/-- **C127**: with colours the sign of an amount can be seen, also where it is lost in print (C09): amounts of different
signs do not look the same. -/
theorem C127_sign {n : Nat} {a b : Rat} {c d : Cur}
    (h : ink (amountLook (.mk a c)) (padLeft n (Money.mk a c).shown) =
      ink (amountLook (.mk b d)) (padLeft n (Money.mk b d).shown)) : a < 0 ↔ b < 0 := by
  have hne : ∀ (a : Rat) (c : Cur), padLeft n (Money.mk a c).shown ≠ [] := by
    intro a c hnil
    unfold padLeft at hnil
    have := (List.append_eq_nil_iff.mp hnil).2
    rcases (shown_form (Money.mk a c)).2 with h | ⟨z, m, d, q, -, h⟩
    · rw [h] at this; cases this
    · rw [h] at this; simp at this
  have hl : amountLook (.mk a c) = amountLook (.mk b d) := by
    have e1 := ink_chars (amountLook (.mk a c)) (padLeft n (Money.mk a c).shown)
    have e2 := ink_chars (amountLook (.mk b d)) (padLeft n (Money.mk b d).shown)
    unfold ink at h
    cases ha : padLeft n (Money.mk a c).shown with
    | nil => exact absurd ha (hne a c)
    | cons x xs =>
      cases hb : padLeft n (Money.mk b d).shown with
      | nil => exact absurd hb (hne b d)
      | cons y ys =>
        rw [ha, hb] at h
        simp only [List.map_cons, List.cons.injEq, Prod.mk.injEq] at h
        exact h.1.2
  unfold amountLook at hl
  simp only [Money.amount, reduceCtorEq, or_false] at hl
  by_cases h1 : a < 0 <;> by_cases h2 : b < 0 <;> simp [h1, h2, redLook] at hl ⊢

/-- **C127**: without colours the program is the one of the other properties: when it does not write to a terminal, the
environment does not force it, and `--force-color` is not given. -/
theorem C127_quiet {s : Surroundings} {w : World} {args : List Str} {i : Invocation} (h : Invokes w args i)
    (hs : s.quiet) (hi : i.opts.forceColor = false) : paintedProgram s w args = program w args := by
  rw [paintedProgram_of h, program_of h]
  refine runPainted_off ?_
  have h1 : s.forced i = s := by
    unfold Surroundings.forced
    split <;> first | rfl | (rw [hi]; rfl)
  rw [h1]
  unfold Surroundings.colours
  have h2 : normalizeEnv s.force ≠ some true := by
    intro hx
    unfold normalizeEnv at hx
    cases hf : s.force with
    | none => rw [hf] at hx; cases hx
    | some v =>
      rw [hf, hs.2 v hf] at hx
      revert hx
      decide
  rw [if_neg h2, hs.1, Bool.and_false]
  simp

/-- **C127**: with `--force-color` the environment and the terminal do not matter: there are colours. -/
theorem C127_forced {w : World} {args : List Str} {i : Invocation} (h : Invokes w args i) (hi : i.wantsColours)
    (s s' : Surroundings) : (s.forced i).colours = true ∧ paintedProgram s w args = paintedProgram s' w args := by
  have key : ∀ s : Surroundings, (s.forced i).colours = true := by
    intro s
    obtain ⟨h1, h2, h3⟩ := hi
    unfold Surroundings.forced
    split
    · exact absurd ‹_› h2
    · exact absurd ‹_› h3
    · rw [h1]
      rfl
  refine ⟨key s, ?_⟩
  rw [paintedProgram_of h, paintedProgram_of h]
  unfold runPainted
  rw [key s, key s']

/-- **C127**: with `NO_COLOR` there are no colours unless they are forced. -/
theorem C127_noColor {s : Surroundings} {w : World} {args : List Str} {i : Invocation} {v : Str} (h : Invokes w args i)
    (hn : s.noColor = some v) (hf : s.force = none) (hi : i.opts.forceColor = false) :
    paintedProgram s w args = program w args := by
  rw [paintedProgram_of h, program_of h]
  refine runPainted_off ?_
  have h1 : s.forced i = s := by
    unfold Surroundings.forced
    split <;> first | rfl | (rw [hi]; rfl)
  rw [h1]
  unfold Surroundings.colours
  rw [hn, hf]
  rfl

/-- **C127**: exactly if the surroundings ask for them there are colours; so on a terminal where no variable is set. -/
theorem C127_when (s : Surroundings) : s.colours = true ↔ s.asks := by
  obtain ⟨c, f, n, t⟩ := s
  unfold Surroundings.colours Surroundings.asks
  have hz : "0".toList = ['0'] := by decide
  rw [hz]
  cases f with
  | some v =>
    by_cases hv : v = ['0']
    · subst hv
      cases n <;> cases c <;> cases t <;> simp [normalizeEnv]
    · simp [normalizeEnv, hv]
  | none => cases n <;> cases c <;> cases t <;> simp [normalizeEnv]

example : ({ tty := true } : Surroundings).asks ∧ ¬ ({ tty := true, clicolor := some ['0'] } : Surroundings).asks := by
  constructor
  · exact Or.inr ⟨rfl, rfl, by decide⟩
  · rintro (⟨v, h, -⟩ | ⟨-, -, h⟩)
    · cases h
    · exact h (by decide)

/-- **C127**: the lists have no colours at all. -/
theorem C127_lists (s : Surroundings) {w : World} {args : List Str} {i : Invocation} (h : Invokes w args i)
    (hi : i.command.lists = true) : paintedProgram s w args = program w args := by
  rw [paintedProgram_of h, program_of h]
  obtain ⟨c, f, k, o⟩ := i
  cases c <;> first | rfl | cases hi

/-- **C127**, what fails: `check` does not know `--force-color`: what it prints only depends on the surroundings. -/
theorem C127_check_ignores (s : Surroundings) {w : World} {i : Invocation} (hc : i.command = .check) (b : Bool) :
    runPainted s w { i with opts := { i.opts with forceColor := b } } = runPainted s w i := by
  obtain ⟨c, f, k, o⟩ := i
  cases hc
  rfl

/-- **C127**: in the balance, in all its lines and in the total, red is what is negative. -/
theorem C127_red_balance {r : Run} {o : BalOrders} {today : Date} {opts : ReportOpts} {skip flat showTotal : Bool}
    {path : Str} {rep : BalReport} (h : balanceCommand r o today opts skip flat showTotal path = .ok rep) :
    (∀ line ∈ rep.lines, ∀ m ∈ line.amounts, amountLook m = redLook ↔ m.amount < 0) ∧
      ∀ ms, rep.total = some ms → ∀ m ∈ ms, amountLook m = redLook ↔ m.amount < 0 := by
  have key : ∀ m : Money, m.isZero = false → (amountLook m = redLook ↔ m.amount < 0) := by
    intro m hm
    have hz : m ≠ .zero := by rintro rfl; cases hm
    unfold amountLook
    by_cases hn : m.amount < 0
    · simp [hn]
    · simp [hn, hz, redLook]
  unfold balanceCommand at h
  split at h
  · cases h
  · rename_i l hl
    have h' : balanceReport r.env o today opts flat showTotal l = .ok rep := by
      cases hb : balanceReport r.env o today opts flat showTotal l with
      | error e => rw [hb] at h; cases h
      | ok x => rw [hb] at h; cases h; rfl
    obtain ⟨h1, h2⟩ := balanceReport_nonzero h'
    exact ⟨fun line hl m hm => key m (h1 line hl m hm), fun ms hms m hm => key m (h2 ms hms m hm)⟩

/-- **C127**: in the register the running totals are red where they are negative. -/
theorem C127_red_running {r : Run} {s : Nat → Shuf} {opts : ReportOpts} {skip : Bool} {path : Str} {lines : List RegLine}
    (h : registerCommand r s opts skip path = .ok lines) :
    ∀ line ∈ lines, ∀ m ∈ line.running, runningLook m = redLook ↔ m.amount < 0 := by
  unfold registerCommand at h
  split at h
  · cases h
  · rename_i l hl
    have h' : registerReport r.env s opts l = .ok lines := by
      cases hb : registerReport r.env s opts l with
      | error e => rw [hb] at h; cases h
      | ok x => rw [hb] at h; cases h; rfl
    obtain ⟨sel, -, -, h3⟩ := C55_register h'
    intro line hline m hm
    obtain ⟨pre, post, rfl⟩ := List.append_of_mem hline
    obtain ⟨g1, g2⟩ := h3 pre line post rfl
    have hm' : m = .zero ∨ m.amount ≠ 0 := by
      by_cases hz : ∀ c, sumIn ((pre ++ [line]).map RegLine.amount) c = 0
      · rw [g1 hz] at hm
        exact .inl (List.mem_singleton.mp hm)
      · push Not at hz
        exact .inr ((g2 hz).nonzero m hm)
    unfold runningLook
    rcases hm' with rfl | hm'
    · simp [Money.amount, redLook]
    · by_cases hn : m.amount < 0
      · simp [hn]
      · simp [hn, hm', redLook]

/-- **C127**: the amounts of the postings are red where they are negative, but for a zero that comes from an asserted total
(`C127_zero`). -/
theorem C127_red_amount_partial (m : Money) (h : m ≠ .zero) : amountLook m = redLook ↔ m.amount < 0 := by
  unfold amountLook
  by_cases hn : m.amount < 0
  · simp [hn]
  · simp [hn, h, redLook]

/-! ### Examples -/

/-- The register with colours. -/
def exColour : Invocation := { command := .register, file := "main".toList, opts := { forceColor := true } }

/-- An expense. -/
def exColourText : String := "2020-01-01 Bar\n Food  0.25 EUR\n Cash\n"

/-- What the program writes, with colours and without. -/
example : paintedProgram {} (exWorld (exRun exColourText) exColour) (exArgs []) = some ⟨0, some (
      "2020-01-01 Bar                                       \x1b[34mFood                     \x1b[0m             0.25 EUR             0.25 EUR\n                                                     \x1b[34mCash                     \x1b[0m\x1b[31m             0.25 EUR\x1b[0m                    0\n").toList⟩ ∧
    program (exWorld (exRun exColourText) exColour) (exArgs []) = some ⟨0, some (
      "2020-01-01 Bar                                       Food                                  0.25 EUR             0.25 EUR\n                                                     Cash                                  0.25 EUR                    0\n").toList⟩ := by
  decide +kernel

/-- The hypotheses of the theorems are met. -/
example : Invokes (exWorld (exRun exColourText) exColour) (exArgs []) exColour ∧ exColour.wantsColours ∧
    (({} : Surroundings).forced exColour).colours = true ∧ ({} : Surroundings).quiet :=
  ⟨⟨exArgs [], rfl, rfl⟩, ⟨rfl, by decide, by decide⟩, by decide, rfl, fun v hv => (by cases hv)⟩

/-- Colours in other surroundings: on a terminal, with `NO_COLOR`, forced, and `CLICOLOR=0`. -/
example : ({ tty := true } : Surroundings).colours = true ∧
    ({ tty := true, noColor := some [] } : Surroundings).colours = false ∧
    ({ noColor := some [], force := some "1".toList } : Surroundings).colours = true ∧
    ({ tty := true, clicolor := some "0".toList } : Surroundings).colours = false := by decide

/-- A zero that comes from an asserted total. -/
def exZeroText : String := "2020-01-01 Bar\n Food  5 EUR\n Cash  -5 EUR\n Safe  = 0 EUR\n"

/-- **C127**, what fails: a zero that comes from an asserted total is red. -/
theorem C127_zero : ∃ lines, registerCommand (exRun exZeroText) (fun _ => .id) {} false "main".toList = .ok lines ∧
    ∃ line ∈ lines, amountLook line.amount = redLook ∧ ¬ line.amount.amount < 0 := by
  refine ⟨_, (?_ : _ = Except.ok [
    ⟨some (737425, "Bar".toList), "Food".toList, .real, .mk 5 "EUR".toList, [.mk 5 "EUR".toList]⟩,
    ⟨none, "Cash".toList, .real, .mk (-5) "EUR".toList, [.zero]⟩,
    ⟨none, "Safe".toList, .real, .zero, [.zero]⟩]), ⟨none, "Safe".toList, .real, .zero, [.zero]⟩, by simp, by decide +kernel,
    by decide +kernel⟩
  decide +kernel

/-- An account with an escape sequence in its name. -/
def exEscapeText : String := "2020-01-01 Bar\n Fo\x1b[0mod  5 EUR\n Cash\n"

/-- **C127**, what fails: with escape sequences in a name the text is another one with colours: fewer blanks. -/
theorem C127_escapes : ∃ out out',
    program (exWorld (exRun exEscapeText) exColour) (exArgs []) = some ⟨0, some out⟩ ∧
    paintedProgram {} (exWorld (exRun exEscapeText) exColour) (exArgs []) = some ⟨0, some out'⟩ ∧
    (seen out').map Prod.fst ≠ (seen out).map Prod.fst :=
  ⟨("2020-01-01 Bar                                       Fo\x1b[0mod                              5.00 EUR             5.00 EUR\n                                                     Cash                                 -5.00 EUR                    0\n").toList,
   ("2020-01-01 Bar                                       \x1b[34mFo\x1b[0m\x1b[34mod            \x1b[0m             5.00 EUR             5.00 EUR\n                                                     \x1b[34mCash                     \x1b[0m\x1b[31m            -5.00 EUR\x1b[0m                    0\n").toList,
   by decide +kernel⟩

end Dinero
