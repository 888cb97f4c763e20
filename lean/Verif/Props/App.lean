import Verif.Spec.App
import Verif.Lemmas.App
import Verif.Props.Config
/-
Property theorems about the whole program: the exit status (C94), from the file and the arguments to what is
printed (C95).
-/
namespace Dinero

/-! ### C93, continued: the reports of the command -/

/-- What the balance command prints can be read back, in the flat form and in the tree. -/
theorem C93_command {r : Run} {o : BalOrders} {today : Date} {opts : ReportOpts} {skip flat showTotal : Bool}
    {path : Str} {rep : BalReport} (hr : balanceCommand r o today opts skip flat showTotal path = .ok rep)
    (hl : ∀ l ∈ rep.lines, l.label.head? ≠ some ' ' ∧ '\n' ∉ l.label)
    (hm : ∀ l ∈ rep.lines, ∀ m ∈ l.amounts, m.shown.length ≤ 20 ∧ '\n' ∉ m.shown)
    (ht : ∀ ms, rep.total = some ms → ∀ m ∈ ms, '\n' ∉ m.shown) :
    readRows (rowsFrom [] (balanceText flat rep)) [] =
      (rep.lines.map (fun l => (l.label, if flat then 2 else 2 * l.indent, l.amounts.map Money.shown)),
        rep.total.map (fun ms => if ms = [] then [['0']] else ms.map Money.shown)) := by
  have hs : ∀ line ∈ rep.lines, line.amounts ≠ [] ∧ (flat ∨ 1 ≤ line.indent) := by
    unfold balanceCommand at hr
    cases hx : r.ledger skip path with
    | error e => rw [hx] at hr; cases hr
    | ok L =>
      rw [hx] at hr
      simp only at hr
      cases hrep : balanceReport r.env o today opts flat showTotal L with
      | error e => rw [hrep] at hr; cases hr
      | ok rep' => rw [hrep] at hr; cases hr; exact balanceReport_shape hrep
  exact C93_balance (fun l hl' => ⟨⟨⟨(hs l hl').1, hm l hl'⟩, hl l hl'⟩, (hs l hl').2⟩) ht

/-! ### C94: the exit status -/

theorem program_of {w : World} {args : List Str} {i : Invocation} (h : Invokes w args i) :
    program w args = runCommand w i := by
  obtain ⟨all, h1, h2⟩ := h
  unfold program
  rw [h1]
  simp only
  rw [h2]

theorem outcomeOf_prints {α β : Type} (text : β → Str) (f : α → β) (x : PRes α) :
    (∃ out, outcomeOf text [] (x.map f) = some ⟨0, some out⟩) ↔ ∃ a, x = .ok a := by
  cases x with
  | error e =>
    cases e with
    | fuel => simp [Except.map, outcomeOf]
    | fail f => cases f <;> simp [Except.map, outcomeOf]
  | ok L => simp [Except.map, outcomeOf]

theorem prints_list {w : World} {args : List Str} {i : Invocation} (h : Invokes w args i) (hi : i.command.lists) :
    (∃ out, Prints w args out) ↔ ∃ L, w.run.ledger i.skip i.file = .ok L := by
  unfold Prints
  rw [program_of h]
  unfold runCommand
  obtain ⟨c, file, skip, opts⟩ := i
  simp only at hi ⊢
  cases c with
  | balance _ _ => cases hi
  | register => cases hi
  | check => cases hi
  | accounts => exact outcomeOf_prints _ _ _
  | payees => exact outcomeOf_prints _ _ _
  | prices => exact outcomeOf_prints _ _ _
  | commodities => exact outcomeOf_prints _ _ _

theorem prints_check {w : World} {args : List Str} {i : Invocation} (h : Invokes w args i) (hi : i.command = .check) :
    (∃ out, Prints w args out) ↔ ∃ L, w.run.ledger false i.file = .ok L := by
  unfold Prints
  rw [program_of h]
  unfold runCommand
  rw [hi]
  simp only [checkCommand, Run.ledger]
  cases hx : w.run.journal i.file with
  | error e =>
    cases e with
    | fuel => simp [checkOutcome]
    | fail f => cases f <;> simp [checkOutcome]
  | ok pl =>
    simp only
    cases hy : toLedger w.run.env w.run.orders false pl with
    | ok L => simp [checkOutcome, PRes.lift]
    | error f => cases f <;> simp [checkOutcome, PRes.lift]

/-- `check` exits with 0 exactly when the list commands do (with the balances checked), whatever is in the files: a file
is in order for one of the commands iff it is for all. -/
theorem C94_agree {w : World} {args args' : List Str} {i i' : Invocation} (h : Invokes w args i)
    (hi : i.command = .check) (h' : Invokes w args' i') (hi' : i'.command.lists) (hs : i'.skip = false)
    (hf : i'.file = i.file) : (∃ out, Prints w args out) ↔ ∃ out, Prints w args' out := by
  rw [prints_check h hi, prints_list h' hi', hs, hf]

/-- What `check` writes and how it exits, for a journal of plain transactions: `OK` and 0 when every transaction sums
to zero or leaves out one amount, `KO` and 1 otherwise. -/
theorem C94_check {w : World} (ha : w.run.env.AsciiChars) (hs : w.run.env.AsciiSep) {args : List Str} {i : Invocation}
    {cur : Str} {ls : List Str} {bs : List Block} (h : Invokes w args i) (hi : i.command = .check)
    (hj : HoldsJournal w.run i.file ls bs) (hone : Plain cur bs) :
    ((∀ t, .txn t ∈ bs → SumsUp t) → Prints w args ("Input file ".toList ++ i.file ++ " is OK\n".toList)) ∧
      (¬ (∀ t, .txn t ∈ bs → SumsUp t) →
        program w args = some ⟨1, some ("Input file ".toList ++ i.file ++ " is KO\n".toList)⟩) := by
  have hc := C90_check ha hs hj hone
  have hj' := hj.journal ha hs
  obtain ⟨hreg, hauto⟩ := hj.regular (fun t ht => (hone t ht).1)
  have hok := (C83_wellformed hj').1
  have hz : (meaning w.run.env (fun _ => {}) bs).NoFreeTotals := by
    intro t ht p hp hx
    have := (hok.postings t ht p hp).costType
    rw [hreg] at ht
    rw [((hone t (mem_txns.mp ht)).2 p hp).2.1, hx] at this
    cases this
  obtain ⟨v, hv⟩ := (C83_no_panic hj' hauto hz).2
  unfold Prints
  rw [program_of h]
  unfold runCommand
  rw [hi]
  simp only
  rw [hv] at hc ⊢
  constructor
  · intro hall
    cases hc.mpr hall
    rw [checkOutcome, (checkText_eq _).1]
  · intro hnot
    cases v with
    | ok => exact absurd (hc.mp rfl) hnot
    | ko e => rw [checkOutcome, (checkText_eq _).2]

/-! ### C95: from the file to the printed report -/

/-- The register of a journal of plain transactions that are written out and sum to zero: the program ends without an
error, and the postings are listed as they are written, by date, each with the sum so far, in the columns. -/
theorem C95_register {w : World} (ha : w.run.env.AsciiChars) (hs : w.run.env.AsciiSep) {args : List Str}
    {i : Invocation} {cur : Str} {ls : List Str} {bs : List Block} (h : Invokes w args i) (hi : i.command = .register)
    (ho : i.opts = {}) (hk : i.skip = false) (hj : HoldsJournal w.run i.file ls bs) (hone : Plain cur bs)
    (hw : WrittenOut w.run.env bs) (hsum : ∀ t, .txn t ∈ bs → SumsUp t) :
    ∃ lines listed, Prints w args (registerText w.term lines) ∧ DateOrder (bs.filterMap Block.txn?) listed ∧
      lines.map (fun l => (l.account, l.kind, some l.amount)) = (listed.flatMap Txn.postings).map RawPosting.entry ∧
      (∀ pre line post, lines = pre ++ line :: post →
        ((∀ c, sumIn ((pre ++ [line]).map RegLine.amount) c = 0) → line.running = [.zero]) ∧
        ((∃ c, sumIn ((pre ++ [line]).map RegLine.amount) c ≠ 0) →
          Shows line.running (sumIn ((pre ++ [line]).map RegLine.amount)))) := by
  obtain ⟨L, hL, g1, g2, g3⟩ := plain_ledger ha hs hj hone hsum
  obtain ⟨lines, hlines⟩ := C58_register_partial (f := {}) (s := w.reg) g1 g2 g3
  have hcmd : registerCommand w.run w.reg {} false i.file = .ok lines := by
    unfold registerCommand
    rw [hL]
    simp only
    rw [hlines]
    rfl
  obtain ⟨listed, e1, e2, e3⟩ := C90_register ha hs hj hw hcmd
  refine ⟨lines, listed, ?_, e1, ?_, e3⟩
  · unfold Prints
    rw [program_of h]
    unfold runCommand
    rw [hi]
    simp only
    rw [ho, hk, hcmd]
    rfl
  · rw [e2]
    congr 1
    have : ∀ t ∈ listed, t.postings.filter (fun p => p.kind = .real) ++ t.postings.filter (fun p => p.kind ≠ .real) =
        t.postings := by
      intro t ht
      have hr := (hone t (mem_txns.mp (e1.perm.mem_iff.mp ht))).2
      rw [List.filter_eq_self.mpr (fun p hp => by simp [(hr p hp).1]),
        List.filter_eq_nil_iff.mpr (fun p hp => by simp [(hr p hp).1]), List.append_nil]
    rw [List.flatMap_congr this]

/-- The flat balance of such a journal, read from what the program prints: the accounts in order, each with the sum of
what is written for it, without those where that is nothing; the total is `0`. -/
theorem C95_balance {w : World} (ha : w.run.env.AsciiChars) (hs : w.run.env.AsciiSep) {args : List Str}
    {i : Invocation} {noTotal : Bool} {cur : Str} {ls : List Str} {bs : List Block} (h : Invokes w args i)
    (hi : i.command = .balance true noTotal) (ho : i.opts = {}) (hk : i.skip = false)
    (hj : HoldsJournal w.run i.file ls bs) (hone : Plain cur bs) (hw : WrittenOut w.run.env bs)
    (hsum : ∀ t, .txn t ∈ bs → SumsUp t) (hcur : '\n' ∉ cur)
    (hnames : ∀ t, .txn t ∈ bs → ∀ p ∈ t.postings, p.account.head? ≠ some ' ' ∧ '\n' ∉ p.account)
    (hfit : ∀ a, (Money.mk (sumIn (writtenFor bs (fun x => decide (x = a))) cur) cur).shown.length ≤ 20) :
    ∃ (out : Str) (lines : List (Str × List Money)), Prints w args out ∧
      readRows (rowsFrom [] out) [] = (lines.map (fun l => (l.1, 2, l.2.map Money.shown)),
        if noTotal = false ∧ 1 < lines.length then some [['0']] else none) ∧
      (lines.map Prod.fst).Pairwise (· < ·) ∧
      (∀ a ms, (a, ms) ∈ lines → Shows ms (sumIn (writtenFor bs (fun x => decide (x = a))))) ∧
      ∀ a, a ∈ lines.map Prod.fst ↔ ∃ c, sumIn (writtenFor bs (fun x => decide (x = a))) c ≠ 0 := by
  obtain ⟨L, hL, g1, g2, g3⟩ := plain_ledger ha hs hj hone hsum
  obtain ⟨rep, hrep⟩ := C58_balance_partial (env := w.run.env) (o := w.bal) (today := w.today) (f := {}) (depth := none)
    (flat := true) (showTotal := !noTotal) g1 g2 (fun _ => rfl)
  have hcmd : balanceCommand w.run w.bal w.today {} false true (!noTotal) i.file = .ok rep := by
    unfold balanceCommand
    rw [hL]
    simp only
    rw [hrep]
    rfl
  obtain ⟨e1, e2, e3, _⟩ := C90_balance ha hs hj hw hcmd
  have htot : ∀ ms, rep.total = some ms → ms = [] := fun ms hm =>
    C90_total ha hs hj (fun t ht => ⟨(hone t ht).1, fun p hp =>
      ⟨((hone t ht).2 p hp).1, ((hone t ht).2 p hp).2.1, .inl ((hone t ht).2 p hp).2.2.1,
        ((hone t ht).2 p hp).2.2.2⟩⟩) hcmd hm
  have hsome := balanceReport_total hrep
  have hmoney : ∀ l ∈ rep.lines, ∀ m ∈ l.amounts, m.shown.length ≤ 20 ∧ '\n' ∉ m.shown := by
    intro l hl m hm
    obtain ⟨q, c, rfl, hq⟩ := (e2 l hl).2.mem hm
    have hc : c = cur := by
      by_contra hne
      have : (Money.mk q c).amount ≠ 0 := (e2 l hl).2.nonzero _ hm
      exact this (by rw [show (Money.mk q c).amount = q from rfl, hq]; exact written_other hone hne)
    subst hc
    refine ⟨by rw [hq]; exact hfit _, shown_nl (fun _ _ e => by cases e; exact hcur)⟩
  have hlabel : ∀ l ∈ rep.lines, l.label.head? ≠ some ' ' ∧ '\n' ∉ l.label := by
    intro l hl
    obtain ⟨c, hc⟩ := (e3 l.label).mp ⟨l, hl, rfl⟩
    obtain ⟨t, ht, p, hp, e⟩ := written_account hc
    rw [← e]; exact hnames t ht p hp
  have hread := C93_command hcmd hlabel hmoney (fun ms hm m hmm => by rw [htot ms hm] at hmm; cases hmm)
  refine ⟨_, rep.lines.map (fun l => (l.label, l.amounts)), ?_, hread.trans ?_, ?_, ?_, ?_⟩
  · unfold Prints
    rw [program_of h]
    unfold runCommand
    rw [hi]
    simp only
    rw [ho, hk, hcmd]
    rfl
  · rw [List.map_map, List.length_map]
    refine Prod.ext rfl ?_
    simp only
    cases ht : rep.total with
    | none =>
      rw [ht] at hsome
      rw [if_neg (by simpa using hsome)]; rfl
    | some ms =>
      rw [ht] at hsome
      rw [if_pos (by simpa using hsome), htot ms ht]; rfl
  · rw [List.map_map]; exact e1
  · intro a ms hm
    obtain ⟨l, hl, e⟩ := List.mem_map.mp hm
    cases e
    exact (e2 l hl).2
  · intro a
    rw [← e3 a, List.map_map, List.mem_map]
    rfl

/-! ### Examples -/

/-- Everything around the run: no configuration file, a terminal of 120 columns and these arguments. -/
def exWorld (r : Run) (i : Invocation) : World :=
  { run := r, exist := fun _ => false, home := "~/.ledgerrc".toList, parse := fun _ => .ok i, term := some 120, today := 0,
    bal := exOrders, reg := fun _ => .id, list := .id }

example : Invokes (exWorld (exOn exOutLines) { command := .check, file := "main".toList }) (exArgs [])
    { command := .check, file := "main".toList } :=
  ⟨exArgs [], rfl, rfl⟩

theorem exOut_plain : Plain "EUR".toList exOut := by
  intro t ht
  simp [exOut] at ht
  subst ht
  exact ⟨rfl, by decide⟩

/-- The hypotheses of the theorems above are met by a file with one transaction. -/
example : (∀ t, .txn t ∈ exOut → SumsUp t) ∧
    (∀ t, .txn t ∈ exOut → ∀ p ∈ t.postings, p.account.head? ≠ some ' ' ∧ '\n' ∉ p.account) := by
  constructor
  · intro t ht
    simp [exOut] at ht
    subst ht
    exact .inl ⟨by decide, by decide +kernel⟩
  · intro t ht
    simp [exOut] at ht
    subst ht
    decide

/-- What the program does with it. -/
example : program (exWorld (exOn exOutLines) { command := .check, file := "main".toList }) (exArgs []) =
    some ⟨0, some "Input file main is OK\n".toList⟩ := by decide +kernel

example : program (exWorld (exOn exOutLines) { command := .balance true false, file := "main".toList }) (exArgs []) =
    some ⟨0, some ("          -12.50 EUR  Assets:Cash\n           12.50 EUR  Expenses:Food\n" ++
      "--------------------\n                   0\n").toList⟩ := by decide +kernel

/-! With `--no-balance-check` the agreement of C94 is lost. -/

/-- Two amounts that follow from asserted totals. -/
def exTotals : String := "2020-01-01 Start\n Cash  = 5 EUR\n Equity  = -5 EUR\n"

/-- `check` finds it in order, and so do the other commands; when the totals are not to be checked they reject it. -/
theorem C94_false : ∃ (r : Run) (file : Str),
    (program (exWorld r { command := .check, file := file }) (exArgs [])).map Outcome.status = some 0 ∧
    (program (exWorld r { command := .accounts, file := file }) (exArgs [])).map Outcome.status = some 0 ∧
    (program (exWorld r { command := .accounts, file := file, skip := true }) (exArgs [])).map Outcome.status = some 1 :=
  ⟨exRun exTotals, "main".toList, by decide +kernel⟩

end Dinero
