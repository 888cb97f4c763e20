import Verif.Props.App
import Verif.Props.Answer
import Verif.Props.Tokenizer
/-
Property theorems about the exit status of the program (C115), and about the width of the register (C92).
-/
namespace Dinero

/-! ### C92, continued: the rows and the terminal -/

theorem forall2_flatten {α β : Type} {R : α → List β → Prop} {P : β → Prop} (h : ∀ a bs, R a bs → ∀ b ∈ bs, P b)
    {as : List α} {bss : List (List β)} (hf : List.Forall₂ R as bss) : ∀ b ∈ bss.flatten, P b := by
  induction hf with
  | nil => intro b hb; cases hb
  | cons h1 _ ih =>
    intro b hb
    rw [List.flatten_cons, List.mem_append] at hb
    rcases hb with hb | hb
    exacts [h _ _ h1 b hb, ih b hb]

/-- The rows of the register are as wide as the terminal, when that is wider than 95 columns; otherwise they have 121
columns. -/
theorem C92_width {term : Option Nat} {lines : List RegLine} (h : ∀ l ∈ lines, Fits (regCols term) l) :
    ∀ row ∈ rowsFrom [] (registerText term lines),
      row.length = if 95 < term.getD 80 then term.getD 80 else 121 := by
  obtain ⟨rows, e, hf⟩ := C92_register h
  rw [e]
  refine forall2_flatten (fun l bs hl b hb => ?_) hf
  have hw : 53 + (regCols term).account + (regCols term).amount + (regCols term).balance =
      if 95 < term.getD 80 then term.getD 80 else 121 := by
    unfold regCols
    simp only
    split
    · rw [if_neg (by omega)]; rfl
    · rw [if_pos (by omega)]
      simp only
      omega
  rw [← hw]
  cases bs with
  | nil => cases hb
  | cons r rs =>
    obtain ⟨m, ms, _, h1, h2⟩ := hl
    rcases List.mem_cons.mp hb with rfl | hb
    · exact h1.length
    · have key : ∀ (ms : List Money) (rs : List Str), List.Forall₂ (fun m row => NextRow (regCols term) (Money.shown m) row) ms rs →
          ∀ b ∈ rs, b.length = 53 + (regCols term).account + (regCols term).amount + (regCols term).balance := by
        intro ms rs hh
        induction hh with
        | nil => intro b hb; cases hb
        | cons g _ ih =>
          intro b hb
          rcases List.mem_cons.mp hb with rfl | hb
          exacts [g.length, ih b hb]
      exact key ms rs h2 b hb

/-- The account column shows the account as a journal has it, so that account and kind can be read from it. -/
theorem C92_account {env : Env} {k : Kind} {a : Str} (hn : AccountName env (accountShown k a)) (ht : Trimmed env a)
    (hr : k = .real → ∀ c, a.head? = some c → c.toNat < 128 ∧ env.numeric c = false ∧ c ∉ ['(', '[', ';']) :
    WritesAccount env (accountShown k a) a k := by
  have hb : Blanks env [] := fun c hc => by cases hc
  cases k with
  | real => exact .real hn (hr rfl)
  | virt =>
    have := WritesAccount.virt (b := []) (b' := []) (a := a) (by simpa [accountShown] using hn) hb hb ht
    simpa [accountShown] using this
  | virtBal =>
    have := WritesAccount.virtBal (b := []) (b' := []) (a := a) (by simpa [accountShown] using hn) hb hb ht
    simpa [accountShown] using this

/-! ### C115: the exit status -/

/-- The balances are not checked; `check` always checks them. -/
def Invocation.skips (i : Invocation) : Bool := i.skip && i.command ≠ .check

theorem checkCommand_ledger {r : Run} {path : Str} :
    (∀ L, r.ledger false path = .ok L → checkCommand r path = .ok .ok) ∧
      (∀ e, r.ledger false path = .error (.fail (.error e)) →
        checkCommand r path = .ok (.ko e) ∨ checkCommand r path = .error (.fail (.error e))) ∧
      (∀ m, r.ledger false path = .error (.fail (.panic m)) → checkCommand r path = .error (.fail (.panic m))) ∧
      (r.ledger false path = .error .fuel → checkCommand r path = .error .fuel) := by
  unfold Run.ledger checkCommand
  cases r.journal path with
  | error e =>
    refine ⟨?_, ?_, ?_, ?_⟩
    · intro L h; cases h
    · intro e' h; cases h; exact .inr rfl
    · intro m h; cases h; rfl
    · intro h; cases h; rfl
  | ok pl =>
    simp only
    cases toLedger r.env r.orders false pl with
    | ok L =>
      refine ⟨fun _ _ => rfl, ?_, ?_, ?_⟩
      · intro e h; cases h
      · intro m h; cases h
      · intro h; cases h
    | error f =>
      cases f with
      | error e =>
        refine ⟨?_, ?_, ?_, ?_⟩
        · intro L h; cases h
        · intro e' h; cases h; exact .inl rfl
        · intro m h; cases h
        · intro h; cases h
      | panic m =>
        refine ⟨?_, ?_, ?_, ?_⟩
        · intro L h; cases h
        · intro e' h; cases h
        · intro m' h; cases h; rfl
        · intro h; cases h

/-- A journal that cannot be read, or whose transactions cannot be booked, ends every command in the same way: with
status 1 for an error, 101 for a panic, and not at all when reading does not end. -/
theorem C115_failure {w : World} {args : List Str} {i : Invocation} (h : Invokes w args i) :
    (∀ e, w.run.ledger i.skips i.file = .error (.fail (.error e)) → (program w args).map Outcome.status = some 1) ∧
    (∀ m, w.run.ledger i.skips i.file = .error (.fail (.panic m)) → (program w args).map Outcome.status = some 101) ∧
    (w.run.ledger i.skips i.file = .error .fuel → program w args = none) := by
  rw [program_of h]
  obtain ⟨c, file, skip, opts⟩ := i
  cases c with
  | check =>
    have hs : Invocation.skips ⟨.check, file, skip, opts⟩ = false := by simp [Invocation.skips]
    rw [hs]
    obtain ⟨_, h2, h3, h4⟩ := checkCommand_ledger (r := w.run) (path := file)
    simp only [runCommand]
    refine ⟨fun e he => ?_, fun m hm => ?_, fun hf => ?_⟩
    · rcases h2 e he with h | h <;> rw [h] <;> rfl
    · rw [h3 m hm]; rfl
    · rw [h4 hf]; rfl
  | _ =>
    simp only [Invocation.skips, runCommand, balanceCommand, registerCommand, accountsCommand, payeesCommand, pricesCommand,
      commoditiesCommand, ne_eq, reduceCtorEq, not_false_eq_true, decide_true, Bool.and_true]
    refine ⟨fun e he => ?_, fun m hm => ?_, fun hf => ?_⟩
    · rw [he]; rfl
    · rw [hm]; rfl
    · rw [hf]; rfl

/-- The program ends with the status of the parser of the arguments when that does not accept them. -/
theorem C115_arguments {w : World} {args all : List Str} {status : Nat}
    (h : configArgs w.run.env w.run.fs w.exist w.home args = .ok all) (hp : w.parse all = .error status) :
    (program w args).map Outcome.status = some status := by
  unfold program
  rw [h]
  simp only
  rw [hp]
  rfl

/-- A character on the first line that starts no item ends every command with status 101. -/
theorem C115_first_line {w : World} (ha : w.run.env.AsciiChars) {args : List Str} {i : Invocation} {c : Char} {rest : Str}
    (h : Invokes w args i) (hf : w.run.fs.read i.file = some (c :: rest)) (hfuel : w.run.fuel ≠ 0)
    (hdepth : w.run.depth ≠ 0) (hw : w.run.env.ws c = false) (hn : w.run.env.numeric c = false)
    (hc : c ∉ [';', '!', '*', '%', '#', '=', 'i', 'c', 'p', 't', 'a', 'P']) :
    (program w args).map Outcome.status = some 101 := by
  refine (C115_failure h).2.1 "attempt to subtract with overflow" ?_
  unfold Run.ledger Run.journal
  obtain ⟨fuel, hfu⟩ := Nat.exists_eq_succ_of_ne_zero hfuel
  obtain ⟨depth, hde⟩ := Nat.exists_eq_succ_of_ne_zero hdepth
  rw [hfu, hde, tokenizeFile]
  simp only [hf]
  rw [items_first ha _ _ _ _ rest hw hn hc]

/-- A file that starts with a letter, and one that leaves a transaction unbalanced. -/
example : (program (exWorld (exRun "x\n") { command := .register, file := "main".toList }) (exArgs [])).map Outcome.status =
      some 101 ∧
    (program (exWorld (exRun "2020-01-01 A\n Cash  1 EUR\n Food  1 EUR\n") { command := .register, file := "main".toList })
      (exArgs [])).map Outcome.status = some 1 := by decide +kernel

/-- Where the rules and the question make sense, every command ends with status 0 or 1, and with 0 exactly when the
transactions can be booked. -/
theorem C115_status {w : World} {args : List Str} {i : Invocation} {pl : ParsedLedger} {only : Option Cur}
    {rules : List (Txn RawPosting × Ast)} (h : Invokes w args i) (hj : w.run.journal i.file = .ok pl)
    (hs : pl.Sound w.run.env only rules) (hq : SoundQuery w.run.env only i.opts.query)
    (hd : i.opts.depth ≠ none → i.opts.depth ≠ some 0 ∧ ∀ L, w.run.ledger i.skip i.file = .ok L → L.Named)
    (hx : i.opts.exchange ≠ none → ∀ L, w.run.ledger i.skip i.file = .ok L → ∀ p, Usable L.prices w.today p → p.amount ≠ 0) :
    ((∃ L, w.run.ledger i.skips i.file = .ok L) ∧ ∃ out, Prints w args out) ∨
      ((∃ e, w.run.ledger i.skips i.file = .error (.fail (.error e))) ∧ (program w args).map Outcome.status = some 1) := by
  rcases ledger_lift (skip := i.skips) hj hs with ⟨L, hL⟩ | ⟨e, he⟩
  · refine .inl ⟨⟨L, hL⟩, ?_⟩
    unfold Prints
    rw [program_of h]
    obtain ⟨c, file, skip, opts⟩ := i
    cases c with
    | check =>
      have hk : Invocation.skips ⟨.check, file, skip, opts⟩ = false := by simp [Invocation.skips]
      rw [hk] at hL
      simp only [runCommand]
      rw [(checkCommand_ledger (r := w.run) (path := file)).1 L hL]
      exact ⟨_, rfl⟩
    | register =>
      simp only [Invocation.skips, ne_eq, reduceCtorEq, not_false_eq_true, decide_true, Bool.and_true] at hL
      rcases C110_register (s := w.reg) (skip := skip) hj hs hq with ⟨lines, hl⟩ | ⟨e, he, _⟩
      · simp only [runCommand]
        rw [hl]
        exact ⟨_, rfl⟩
      · simp only at he; rw [hL] at he; cases he
    | balance flat noTotal =>
      simp only [Invocation.skips, ne_eq, reduceCtorEq, not_false_eq_true, decide_true, Bool.and_true] at hL
      rcases C110_balance (o := w.bal) (today := w.today) (flat := flat) (showTotal := !noTotal) (skip := skip) hj hs hq
        (fun _ => hd) hx with ⟨rep, hr⟩ | ⟨e, he, _⟩
      · simp only [runCommand]
        rw [hr]
        exact ⟨_, rfl⟩
      · simp only at he; rw [hL] at he; cases he
    | _ =>
      simp only [Invocation.skips, ne_eq, reduceCtorEq, not_false_eq_true, decide_true, Bool.and_true] at hL
      simp only [runCommand, accountsCommand, payeesCommand, pricesCommand, commoditiesCommand]
      rw [hL]
      exact ⟨_, rfl⟩
  · exact .inr ⟨⟨e, he⟩, (C115_failure h).1 e he⟩

/-- So all commands agree on the journal. -/
theorem C115_agree {w : World} {args args' : List Str} {i i' : Invocation} {pl : ParsedLedger} {only : Option Cur}
    {rules : List (Txn RawPosting × Ast)} (h : Invokes w args i) (h' : Invokes w args' i') (hf : i'.file = i.file)
    (hk : i.skip = false) (hk' : i'.skip = false) (hj : w.run.journal i.file = .ok pl) (hs : pl.Sound w.run.env only rules)
    (hq : SoundQuery w.run.env only i.opts.query) (hq' : SoundQuery w.run.env only i'.opts.query)
    (hd : i.opts.depth = none ∧ i'.opts.depth = none) (hx : i.opts.exchange = none ∧ i'.opts.exchange = none) :
    (∃ out, Prints w args out) ↔ ∃ out, Prints w args' out := by
  have hs1 : i.skips = false := by simp [Invocation.skips, hk]
  have hs2 : i'.skips = false := by simp [Invocation.skips, hk']
  have no : ∀ {a : List Str}, (program w a).map Outcome.status = some 1 → ¬ ∃ out, Prints w a out := by
    rintro a ha ⟨out, ho⟩
    rw [ho] at ha
    cases ha
  have g1 := C115_status h hj hs hq (fun g => absurd hd.1 g) (fun g => absurd hx.1 g)
  have g2 := C115_status h' (hf ▸ hj) hs hq' (fun g => absurd hd.2 g) (fun g => absurd hx.2 g)
  rw [hs1] at g1
  rw [hs2, hf] at g2
  rcases g1 with ⟨⟨L, hL⟩, p1⟩ | ⟨⟨e, he⟩, p1⟩ <;> rcases g2 with ⟨⟨L', hL'⟩, p2⟩ | ⟨⟨e', he'⟩, p2⟩
  · exact ⟨fun _ => p2, fun _ => p1⟩
  · rw [hL] at he'; cases he'
  · rw [he] at hL'; cases hL'
  · exact ⟨fun g => absurd g (no p1), fun g => absurd g (no p2)⟩

/-- The journal of `exTypedText`, whose rules make sense, with the question of C110. -/
example : (∃ pl rules, (exRuleRun exTypedText).journal "main".toList = .ok pl ∧
      pl.Sound (exRuleRun exTypedText).env (some "EUR".toList) rules) ∧
    (program (exWorld (exRuleRun exTypedText) { command := .register, file := "main".toList }) (exArgs [])).map
      Outcome.status = some 0 := by
  refine ⟨exTyped_sound, by decide +kernel⟩

end Dinero
