import Verif.Lemmas.Notes
import Verif.Props.Stderr
/-
Property theorems about what the program notes on stderr while it reads a journal (C131).
-/
namespace Dinero

/-! ### C131: what is noted about an accepted journal -/

/-- The notes about a journal that is accepted are about the names it declares again, and about the entries that cannot be read.  The
names are those of its lists. -/
theorem C131_notes {r : Run} (ha : r.env.AsciiChars) {path : Str} {pl : ParsedLedger} (h : r.journal path = .ok pl) :
    ∃ ds, Tells r.env r.fs [] path ds (r.notes path) ∧
      ∀ n, (n ∈ pl.lists.accounts.list.keys ↔ .account n ∈ ds) ∧ (n ∈ pl.lists.commodities.list.keys ↔ .commodity n ∈ ds) ∧
        (n ∈ pl.lists.payees.list.keys ↔ .payee n ∈ ds) := by
  obtain ⟨ds, h1, h2⟩ := file_tells ha r.fs r.fuel r.depth [] path pl h
  refine ⟨ds, h1, fun n => ⟨?_, ?_, ?_⟩⟩
  · rw [← h2.accounts, HMap.get?_isSome_iff]
  · rw [← h2.commodities, HMap.get?_isSome_iff]
  · rw [← h2.payees, HMap.get?_isSome_iff]

theorem outcomeOf_zero {α : Type} {text : α → Str} {part : Str} {x : PRes α} {out : Option Str}
    (h : outcomeOf text part x = some ⟨0, out⟩) : ∃ a, x = .ok a := by
  cases x with
  | ok a => exact ⟨a, rfl⟩
  | error s =>
    cases s with
    | fuel => simp [outcomeOf] at h
    | fail f => cases f <;> simp [outcomeOf] at h

/-- A command that ends with status 0 has a ledger. -/
theorem ledger_of_success {w : World} {i : Invocation} {out : Option Str} (h : runCommand w i = some ⟨0, out⟩) :
    ∃ L, w.run.ledger i.unchecked i.file = .ok L := by
  obtain ⟨c, file, skip, opts⟩ := i
  unfold runCommand at h
  have report : ∀ {α : Type} {x : Ledger → Res α} {a : α},
      (match w.run.ledger skip file with | .error e => .error e | .ok l => PRes.lift (x l) : PRes α) = .ok a →
      ∃ L, w.run.ledger skip file = .ok L := by
    intro α x a h
    cases hl : w.run.ledger skip file with
    | error f => rw [hl] at h; cases h
    | ok L => exact ⟨L, rfl⟩
  cases c with
  | balance flat noTotal => obtain ⟨a, h⟩ := outcomeOf_zero h; exact report h
  | register => obtain ⟨a, h⟩ := outcomeOf_zero h; exact report h
  | accounts => obtain ⟨a, h⟩ := outcomeOf_zero h; obtain ⟨L, h, _⟩ := takes_map h; exact ⟨L, h⟩
  | payees => obtain ⟨a, h⟩ := outcomeOf_zero h; obtain ⟨L, h, _⟩ := takes_map h; exact ⟨L, h⟩
  | prices => obtain ⟨a, h⟩ := outcomeOf_zero h; obtain ⟨L, h, _⟩ := takes_map h; exact ⟨L, h⟩
  | commodities => obtain ⟨a, h⟩ := outcomeOf_zero h; obtain ⟨L, h, _⟩ := takes_map h; exact ⟨L, h⟩
  | check =>
    simp only [Invocation.unchecked] at h ⊢
    unfold checkCommand at h
    unfold Run.ledger
    cases hj : w.run.journal file with
    | error f =>
      rw [hj] at h
      cases f with
      | fuel => simp [checkOutcome] at h
      | fail f => cases f <;> simp [checkOutcome] at h
    | ok pl =>
      rw [hj] at h
      simp only at h ⊢
      cases ht : toLedger w.run.env w.run.orders false pl with
      | ok L => exact ⟨L, rfl⟩
      | error f => rw [ht] at h; cases f <;> simp [checkOutcome] at h

instance (x : Note) : Decidable (∃ pattern n, x = .entry pattern n) :=
  match x with
  | .entry pattern n => .isTrue ⟨pattern, n, rfl⟩
  | .account _ => .isFalse (by simp)
  | .commodity _ => .isFalse (by simp)
  | .payee _ => .isFalse (by simp)

/-- The line a note should be on: names that are declared again are introduced as such, the other lines say what cannot be read.  The
rest of the line is a parameter. -/
def Note.line (x : Note) (rest : Str) : Str :=
  (if ∃ pattern n, x = .entry pattern n then [] else "Duplicate element: ".toList) ++ rest ++ ['\n']

theorem notesText_lines (debug : Nat → Note → Str) (k : Nat) (ns : List Note) :
    notesText debug k ns = ((ns.zipIdx k).map (fun x => x.1.line (debug x.2 x.1))).flatten := by
  induction ns generalizing k with
  | nil => rfl
  | cons x xs ih =>
    rw [notesText, ih, List.zipIdx_cons, List.map_cons, List.flatten_cons]
    congr 1
    cases x <;> simp [noteText, Note.line]

/-- A command that ends with status 0 has written nothing but the notes to stderr, in order, each on its line. -/
theorem C131_success {w : World} (ha : w.run.env.AsciiChars) (sp : Speech) (debug : Nat → Note → Str) {args : List Str} {i : Invocation}
    {out : Option Str} (hi : Invokes w args i) (h : program w args = some ⟨0, out⟩) :
    ∃ ds ns, Tells w.run.env w.run.fs [] i.file ds ns ∧ commandErr w sp debug i =
      (ns.zipIdx.map (fun x => x.1.line (debug x.2 x.1))).flatten := by
  simp only [← notesText_lines]
  rw [program_of hi] at h
  obtain ⟨L, hL⟩ := ledger_of_success h
  obtain ⟨pl, hpl⟩ : ∃ pl, w.run.journal i.file = .ok pl := by
    unfold Run.ledger at hL
    cases hj : w.run.journal i.file with
    | error f => rw [hj] at hL; cases hL
    | ok pl => exact ⟨pl, rfl⟩
  obtain ⟨ds, hds, _⟩ := C131_notes ha hpl
  refine ⟨ds, _, hds, ?_⟩
  have hsaid := said_ok sp hL
  unfold commandErr
  obtain ⟨c, file, skip, opts⟩ := i
  cases c with
  | balance flat noTotal => simp only [Invocation.unchecked] at hL; simp only [hL, h, List.append_nil]
  | register => simp only [Invocation.unchecked] at hL; simp only [hL, h, List.append_nil]
  | accounts => exact (congrArg _ hsaid).trans (List.append_nil _)
  | payees => exact (congrArg _ hsaid).trans (List.append_nil _)
  | prices => exact (congrArg _ hsaid).trans (List.append_nil _)
  | commodities => exact (congrArg _ hsaid).trans (List.append_nil _)
  | check => exact (congrArg _ hsaid).trans (List.append_nil _)

/-- For a file without include directives nothing is written exactly when all its names are different. -/
theorem C131_once {w : World} (ha : w.run.env.AsciiChars) (sp : Speech) (debug : Nat → Note → Str) {args : List Str} {i : Invocation}
    {out : Option Str} (hi : Invokes w args i) (h : program w args = some ⟨0, out⟩) :
    ∃ text bs, w.run.fs.read i.file = some text ∧ TakesJournal w.run.env text bs ∧
      ((∀ x, .incl x ∉ bs) →
        (commandErr w sp debug i = [] ↔ bs.Pairwise (fun a b => ¬ SameName w.run.env.lower a b))) := by
  obtain ⟨ds, ns, h1, h2⟩ := C131_success ha sp debug hi h
  cases h1 with
  | mk pattern entries names notes r1 r2 r3 r4 =>
    next text bs =>
    refine ⟨text, bs, r1, r2, fun hx => ?_⟩
    rw [h2, ← notesText_lines, notesText_nil]
    exact notedAll_nil bs [] (by simpa using hx) .nil

/-- If one of the files an include directive names is rejected, nothing is noted about the ones after it. -/
theorem C131_stopped {tok : Str → PRes ParsedLedger} (tokN : Str → List Note) {before after : List Str} {f : Str} {e : Stop}
    (h : ∀ g ∈ before, ∃ pl, tok g = .ok pl) (hf : tok f = .error e) :
    includeFilesNotes tok tokN (before ++ f :: after) = before.flatMap tokN ++ tokN f := by
  induction before with
  | nil => simp [includeFilesNotes, hf]
  | cons g before ih =>
    obtain ⟨pl, hg⟩ := h g (by simp)
    rw [List.cons_append, includeFilesNotes, hg]
    simp only [ih (fun g hg => h g (by simp [hg])), List.flatMap_cons, List.append_assoc]

example : includeFilesNotes (fun f => if f = "b".toList then .error (.fail (.panic "")) else .ok {}) (fun f => [.entry f 0])
    ["a".toList, "b".toList, "c".toList] = [.entry "a".toList 0, .entry "b".toList 0] := by rfl

/-- A declaration that is noted has no effect. -/
theorem C131_ignored (env : Env) (included : Str → ParsedLedger) {before after : List Block} {a b : Block} (ha : a ∈ before)
    (h : SameName env.lower a b) : meaning env included (before ++ b :: after) = meaning env included (before ++ after) := by
  unfold meaning
  rw [List.foldl_append, List.foldl_append, List.foldl_cons]
  congr 1
  let inside : Str → List Announced := fun x => (included x).lists.accounts.list.keys.map .account ++
    ((included x).lists.commodities.list.keys.map .commodity ++ (included x).lists.payees.list.keys.map .payee)
  have hk := (knows_all (env := env) (included := included) (inside := inside) (fun _ => []) before [] {} knows_nil (by
    intro x _
    refine ⟨fun n => ?_, fun n => ?_, fun n => ?_⟩ <;> rw [HMap.get?_isSome_iff] <;> simp [inside])).1
  have hm : ∀ d, d ∈ a.declares env.lower inside → d ∈ ([] ++ before).flatMap (Block.declares env.lower inside) :=
    fun d hd => List.mem_flatMap.mpr ⟨a, ha, hd⟩
  have same : ∀ {T : Type} [Named T] (l : NList T) (e : T), (l.list.get? (env.lower (Named.name e))).isSome = true →
      l.insert env.lower e = l := by
    intro T _ l e he
    unfold NList.insert
    cases hg : l.list.get? (env.lower (Named.name e)) with
    | none => rw [hg] at he; cases he
    | some x => rfl
  generalize before.foldl (addBlock env included) {} = pl at hk
  cases a with
  | account x =>
    cases b with
    | account y =>
      have := same pl.lists.accounts y ((hk.accounts _).mpr (hm _ (by rw [show env.lower (Named.name y) = env.lower x.name from h.symm]; simp [Block.declares])))
      simp only [addBlock, this]
    | _ => exact absurd h id
  | commodity x =>
    cases b with
    | commodity y =>
      have := same pl.lists.commodities y ((hk.commodities _).mpr (hm _ (by rw [show env.lower (Named.name y) = env.lower x.name from h.symm]; simp [Block.declares])))
      simp only [addBlock, this]
    | _ => exact absurd h id
  | payee x =>
    cases b with
    | payee y =>
      have := same pl.lists.payees y ((hk.payees _).mpr (hm _ (by rw [show env.lower (Named.name y) = env.lower x.name from h.symm]; simp [Block.declares])))
      simp only [addBlock, this]
    | _ => exact absurd h id
  | _ => exact absurd h id

/-- A note, without what it shows. -/
def Note.brief : Note → Str
  | .account a => "account ".toList ++ a.name
  | .commodity c => "commodity ".toList ++ c.name
  | .payee p => "payee ".toList ++ p.name
  | .entry p n => "entry ".toList ++ p ++ ' ' :: digits n

/-- A journal with a second file, and capital letters. -/
def exNotedRun (main other : String) : Run :=
  { exRun main with env := { exEnvJ with lower := fun s => s.map Char.toLower }
                    fs := exDir [("main".toList, main.toList), ("b".toList, other.toList)] }

/-- The notes about it. -/
def exNoted (main other : String) : List Str := ((exNotedRun main other).notes "main".toList).map Note.brief

/-- An included file can declare a name again without a note, and then its declaration replaces the other one. -/
theorem C131_false :
    exNoted "account A\ninclude b\n" "account a\n alias x\n" = [] ∧
    ((exNotedRun "account A\ninclude b\n" "account a\n alias x\n").journal "main".toList).toOption.map (fun pl => pl.lists.accounts.list.map (fun a => (a.1, a.2.name, a.2.aliases))) =
      some [("a".toList, "a".toList, ["x".toList])] := by
  decide +kernel

/-! ### Examples -/

example : exNoted "account A\ncommodity A\naccount a\ninclude b\npayee X\n" "payee x\npayee X\n" =
    ["account a".toList, "payee X".toList, "payee X".toList] := by decide +kernel

/-- Also if it is rejected later on. -/
example : exNoted "account A\naccount a\n?\naccount A\n" "" = ["account a".toList] := by decide +kernel

/-- The hypotheses of C131 are met. -/
example : ∃ (w : World) (i : Invocation) (out : Str), w.run.env.AsciiChars ∧ Invokes w (exArgs []) i ∧
    program w (exArgs []) = some ⟨0, some out⟩ ∧
    commandErr w exSpeech (fun _ x => x.brief) i = "Duplicate element: account a\n".toList := by
  refine ⟨exWorld (exNotedRun "account A\naccount a\n" "") { command := .check, file := "main".toList },
    { command := .check, file := "main".toList }, checkText "main".toList true, ⟨exEnvJ_ascii.ws, exEnvJ_ascii.numeric, exEnvJ_ascii.disjoint⟩, ⟨exArgs [], rfl, rfl⟩, ?_, ?_⟩
  · decide +kernel
  · decide +kernel

example : SameName (exNotedRun "" "").env.lower (.account { name := "A".toList }) (.account { name := "a".toList }) := by
  show (exNotedRun "" "").env.lower _ = (exNotedRun "" "").env.lower _
  decide +kernel

end Dinero
