import Verif.Lemmas.Args
/-
**C125**: the command line and the configuration file together.
-/
namespace Dinero

/-- **C125**: the options may be in any order and in any of their forms: what the command line says is what is run (there is
no configuration file). -/
theorem C125_reads {w : World} {date : Str → Res Date} {v : Verb} {long : Bool} {items : List ArgItem}
    {args : List Str} (hu : w.Understands date) (hn : configArgs w.run.env w.run.fs w.exist w.home args = .ok args)
    (h : WritesArgs v long items args) (hf : Fine date items) :
    ∃ i, Says date v items i ∧ program w args = runCommand w i := by
  obtain ⟨prog, name, parts, rfl, h1, h2, h3⟩ := h
  obtain ⟨i, hi, hs⟩ := readValues_fine (v := v) (writesItems_kinded h3) hf
  refine ⟨i, hs, program_of ⟨_, hn, hu _ _ ?_⟩⟩
  rw [readArgs_of h2 (readItems_written h3), hi]

/-- **C125**: the order of the options and the forms they are written in do not matter, only the order of the words of the
query does. -/
theorem C125_order {w : World} {date : Str → Res Date} {v : Verb} {l1 l2 : Bool} {xs ys : List ArgItem}
    {args args' : List Str} (hu : w.Understands date)
    (hn : configArgs w.run.env w.run.fs w.exist w.home args = .ok args)
    (hn' : configArgs w.run.env w.run.fs w.exist w.home args' = .ok args')
    (h : WritesArgs v l1 xs args) (h' : WritesArgs v l2 ys args') (hf : Fine date xs) (hp : xs.Perm ys)
    (hw : xs.filter (fun x => match x with | .word _ => true | .opt _ _ => false) =
      ys.filter (fun x => match x with | .word _ => true | .opt _ _ => false)) :
    program w args = program w args' := by
  have hm : ∀ x, x ∈ xs ↔ x ∈ ys := fun x => hp.mem_iff
  have hf' : Fine date ys := by
    refine ⟨?_, ?_, fun s hs => hf.depth s ((hm _).mpr hs), fun o s ho hs => hf.dates o s ho ((hm _).mpr hs)⟩
    · unfold Once
      refine (hp.pairwise_iff ?_).mp hf.once
      intro a b hab o s s' e e'
      exact hab o s' s e' e
    · obtain ⟨s, hs⟩ := hf.file
      exact ⟨s, (hm _).mp hs⟩
  obtain ⟨i, hi, e⟩ := C125_reads hu hn h hf
  obtain ⟨j, hj, e'⟩ := C125_reads hu hn' h' hf'
  rw [e, e', says_unique (fun o s => hm _) hw hf.once hi hj]

/-- **C125**: an option that is there twice, in whatever forms, is refused. -/
theorem C125_twice {w : World} {date : Str → Res Date} {v : Verb} {long : Bool} {items : List ArgItem}
    {args : List Str} (hu : w.Understands date) (hn : configArgs w.run.env w.run.fs w.exist w.home args = .ok args)
    (h : WritesArgs v long items args) (hd : NoPanic date items) (h2 : ¬ Once items) :
    program w args = some ⟨1, none⟩ := by
  obtain ⟨prog, name, parts, rfl, h1, h2', h3⟩ := h
  unfold program
  rw [hn]
  simp only
  rw [hu _ _ (by rw [readArgs_of h2' (readItems_written h3), readValues_twice hd h2])]

/-- **C125**: what is in the configuration file counts as if it were on the command line, unless the option is there; of the
same option the first line counts.  For command lines with the long forms (and `-f`). -/
theorem C125_config_partial {w : World} {date : Str → Res Date} {v : Verb} {items conf : List ArgItem}
    {args : List Str} {cs : List ConfLine} (hu : w.Understands date) (hc : Configured w args cs)
    (h : WritesArgs v true items args) (hi : ConfItems v cs conf) (hf : Fine date (items ++ fresh items conf)) :
    ∃ i, Says date v (items ++ fresh items conf) i ∧ program w args = runCommand w i := by
  have hw := configured_writes hc h (counting_fresh hi args items (writesArgs_given h))
  have ha := configured_args hc
  generalize args ++ (counting args cs).flatMap ConfLine.args = all at hw ha
  obtain ⟨prog, name, parts, rfl, h1, h2, h3⟩ := hw
  obtain ⟨i, hi, hs⟩ := readValues_fine (v := v) (writesItems_kinded h3) hf
  refine ⟨i, hs, program_of ⟨_, ha, hu _ _ ?_⟩⟩
  rw [readArgs_of h2 (readItems_written h3), hi]

/-- Nothing is there twice on account of the configuration file. -/
theorem C125_fresh (items conf : List ArgItem) (h : Once items) : Once (items ++ fresh items conf) := by
  induction conf generalizing items with
  | nil => rw [fresh, List.append_nil]; exact h
  | cons x conf ih =>
    rw [fresh]
    split
    · exact ih items h
    · rename_i hx
      have hs : items ++ x :: fresh (items ++ [x]) conf = (items ++ [x]) ++ fresh (items ++ [x]) conf := by simp
      rw [hs]
      refine ih _ ?_
      unfold Once
      rw [List.pairwise_append]
      refine ⟨h, List.pairwise_singleton _ _, fun a ha b hb o s s' e e' => ?_⟩
      rw [List.mem_singleton] at hb
      subst hb
      subst e
      exact hx ⟨o, s', s, e', ha⟩

/-- **C125**, what fails: an option in the configuration file is not overridden by its short form, or by the form with an
equals sign, on the command line.  The program refuses to run. -/
theorem C125_config_short {w : World} {date : Str → Res Date} {v : Verb} {items conf : List ArgItem}
    {args : List Str} {cs : List ConfLine} (hu : w.Understands date) (hc : Configured w args cs)
    (h : WritesArgs v false items args) (hi : ConfItems v cs conf) (hd : NoPanic date (items ++ conf)) {o : OptId}
    {n : Str} {s s' : Option Str} (hn : o.longName = some n) (hg : ¬ Given args ("--".toList ++ n))
    (h1 : .opt o s ∈ items) (h2 : .opt o s' ∈ conf) : program w args = some ⟨1, none⟩ := by
  obtain ⟨added, ha, hsub, hin⟩ := counting_items hi args
  have hw := configured_writes hc h ha
  have hargs := configured_args hc
  generalize args ++ (counting args cs).flatMap ConfLine.args = all at hw hargs
  obtain ⟨prog, name, parts, rfl, g1, g2, g3⟩ := hw
  obtain ⟨t, ht⟩ := hin o n s' h2 hn hg
  have hnot : ¬ Once (items ++ added) := by
    unfold Once
    rw [List.pairwise_append]
    exact fun hx => hx.2.2 _ h1 _ ht o s t rfl rfl
  have hd' : NoPanic date (items ++ added) := fun o s m ho hm =>
    hd o s m ho (by
      rcases List.mem_append.mp hm with hm | hm
      · exact List.mem_append_left _ hm
      · exact List.mem_append_right _ (hsub _ hm))
  unfold program
  rw [hargs]
  simp only
  rw [hu _ _ (by rw [readArgs_of g2 (readItems_written g3), readValues_twice hd' hnot])]

/-- **C125**, what fails: an option of `balance` in the configuration file, or one nobody knows, makes the other commands
refuse to run. -/
theorem C125_config_unknown {w : World} {date : Str → Res Date} {v : Verb} {long : Bool} {items : List ArgItem}
    {args : List Str} {pre post : List ConfLine} {conf : List ArgItem} {n : Str} {vs : List Str}
    (hu : w.Understands date) (hc : Configured w args (pre ++ .option ("--".toList ++ n) vs :: post))
    (h : WritesArgs v long items args) (hi : ConfItems v pre conf) (hn : Unknown v n)
    (hg : ¬ Given args ("--".toList ++ n)) : program w args = some ⟨1, none⟩ := by
  obtain ⟨prog, name, parts, rfl, g1, g2, g3⟩ := h
  have hsplit : ∀ (given : List Str), ¬ Given given ("--".toList ++ n) →
      ∃ more, counting given (pre ++ .option ("--".toList ++ n) vs :: post) =
        counting given pre ++ .option ("--".toList ++ n) vs :: more := by
    clear hc g1 g2 g3 hg
    induction hi with
    | nil =>
      intro given hg
      show ∃ more, counting given (.option ("--".toList ++ n) vs :: post) = .option ("--".toList ++ n) vs :: more
      rw [counting]
      simp only [ConfLine.name?]
      rw [if_neg hg]
      exact ⟨_, rfl⟩
    | @option c x cs xs hx _ ih =>
      intro given hg
      obtain ⟨o, s, m, rfl, hm, hcn⟩ := hx.name
      rw [List.cons_append, counting, counting, hcn]
      simp only
      have hmn : n ≠ m := by
        rintro rfl
        cases hx with
        | flag a1 a2 a3 => exact hn.none _ a1 hm
        | value a1 a2 a3 a4 => exact hn.none _ a1 hm
      by_cases hgm : Given given ("--".toList ++ m)
      · rw [if_pos hgm, if_pos hgm]
        exact ih given hg
      · rw [if_neg hgm, if_neg hgm]
        obtain ⟨more, e⟩ := ih (given ++ ["--".toList ++ m]) (fun hx => by
          rcases given_append.mp hx with hx | hx
          · exact hg hx
          · exact hmn hx)
        exact ⟨more, by rw [e]; rfl⟩
    | @skip c cs xs hcn _ ih =>
      intro given hg
      rw [List.cons_append, counting, counting, hcn]
      exact ih given hg
  obtain ⟨more, e⟩ := hsplit _ hg
  have hargs := configured_args hc
  rw [e, List.flatMap_append, List.flatMap_cons] at hargs
  obtain ⟨added, ha, _, _⟩ := counting_items hi (prog :: name :: parts.flatten)
  have hww := confItems_write ha
    (fun m us hm => configured_words hc m us (List.mem_append_left _ (counting_sub hm)))
    (fun m s us hm => hc.values m s us (List.mem_append_left _ (counting_sub hm))) long
  have hread : ∀ rest : List Str,
      readItems v.decls ((parts.flatten ++ ((counting (prog :: name :: parts.flatten) pre).map ConfLine.args).flatten) ++
        (("--".toList ++ n) :: rest)) = some none := by
    intro rest
    have h3 := List.rel_append g3 hww
    rw [← List.flatten_append, readItems_items h3, readItems_unknown hn, foldr_addItem_unknown]
  have harg : ∃ rest, ConfLine.args (.option ("--".toList ++ n) vs) = ("--".toList ++ n) :: rest := by
    cases vs with
    | nil => exact ⟨_, rfl⟩
    | cons a b => exact ⟨_, rfl⟩
  obtain ⟨rest, er⟩ := harg
  unfold program
  rw [hargs]
  simp only
  rw [hu _ (.error 1) ?_]
  have := hread (rest ++ more.flatMap ConfLine.args)
  rw [List.append_assoc] at this
  rw [er, List.flatMap_def]
  exact readArgs_unknown g2 (by simpa using this)

/-! ### Examples -/

/-- The date parser of the examples. -/
def exDateParser : Str → Res Date := dateParser isDig (fun _ => none)

/-- A world with a configuration file, where the arguments are read as they are declared. -/
def exCli (rc : String) : World :=
  { exWorld { exRun exText with fs := exDir [("main".toList, exText.toList), ("rc".toList, rc.toList)] }
      { command := .check, file := [] } with
    exist := (· == "rc".toList)
    home := "rc".toList
    parse := fun args => (readArgs exDateParser args).getD (.error 1) }

theorem exCli_understands (rc : String) : (exCli rc).Understands exDateParser := by
  intro args x h
  show (readArgs exDateParser args).getD (.error 1) = x
  rw [h]
  rfl

/-- A command line: `dinero bal -f main --depth 2 food --real`. -/
def exCliArgs : List Str :=
  ["dinero".toList, "bal".toList, "-f".toList, "main".toList, "--depth".toList, "2".toList, "food".toList, "--real".toList]

def exCliItems : List ArgItem :=
  [.opt .file (some "main".toList), .opt .depth (some "2".toList), .word "food".toList, .opt .real none]

theorem exCli_writes : WritesArgs .balance true exCliItems exCliArgs := by
  refine ⟨_, _, [["-f".toList, "main".toList], ["--depth".toList, "2".toList], ["food".toList], ["--real".toList]], rfl,
    by unfold Undashed; decide, by decide, ?_⟩
  exact .cons (.short (c := 'f') rfl (by decide) (by unfold Undashed; decide) (fun _ => .inl rfl))
    (.cons (.value (n := "depth".toList) (by unfold Verb.has; decide) rfl rfl (by decide) (by unfold Undashed; decide))
    (.cons (.word (by unfold Undashed; decide))
    (.cons (.flag (n := "real".toList) (by unfold Verb.has; decide) rfl rfl) .nil)))

/-- The lines of its configuration file: the depth is given already, the option of `balance` counts. -/
def exCliLines : List ConfLine :=
  [.comment, .option "--depth".toList ["1".toList], .option "--flat".toList [], .option "--begin".toList ["2020-01-02".toList]]

def exCliConf : List ArgItem := [.opt .depth (some "1".toList), .opt .flat none, .opt .fromDay (some "2020-01-02".toList)]

def exCliRc : String := "# mine\n--depth 1\n--flat\n--begin  2020-01-02"

theorem exCli_configured (args : List Str) (h : "--init-file".toList ∉ args) :
    Configured (exCli exCliRc) args exCliLines := by
  refine ⟨exEnvJ_ascii, ⟨"rc".toList, ["# mine".toList, "--depth 1".toList, "--flat".toList, "--begin  2020-01-02".toList],
    C69_file_default h, by simp, by decide +kernel, by decide, ?_⟩, ?_⟩
  · refine .cons (.comment (b := []) (c := '#') (s := " mine".toList) (by unfold Blanks; decide) (by simp) (by decide))
      (.cons (.option (name := "depth".toList) (trail := []) [(" ".toList, "1".toList)] ⟨by simp, by decide⟩ ?_
        (by unfold Blanks; decide))
      (.cons (.option (name := "flat".toList) (trail := []) [] ⟨by simp, by decide⟩ (by simp) (by unfold Blanks; decide))
      (.cons (.option (name := "begin".toList) (trail := []) [("  ".toList, "2020-01-02".toList)] ⟨by simp, by decide⟩ ?_
        (by unfold Blanks; decide)) .nil)))
    all_goals
      intro v hv
      simp only [List.mem_singleton] at hv
      subst hv
      exact ⟨by decide, by unfold Blanks; decide, by simp, by decide⟩
  · intro n v vs hm
    simp only [exCliLines, List.mem_cons, List.not_mem_nil, or_false, reduceCtorEq, false_or, ConfLine.option.injEq,
      List.cons.injEq] at hm
    rcases hm with ⟨_, rfl, _⟩ | ⟨_, h⟩ | ⟨_, rfl, _⟩
    · decide
    · cases h
    · decide

theorem exCli_conf : ConfItems .balance exCliLines exCliConf :=
  .skip rfl (.option (.value (n := "depth".toList) (by unfold Verb.has; decide) rfl rfl (by simp))
    (.option (.flag (n := "flat".toList) (by unfold Verb.has; decide) rfl rfl)
    (.option (.value (n := "begin".toList) (by unfold Verb.has; decide) rfl rfl (by simp)) .nil)))

theorem exCli_fresh : fresh exCliItems exCliConf = [.opt .flat none, .opt .fromDay (some "2020-01-02".toList)] := by
  have h1 : (ArgItem.opt .depth (some "1".toList)).given exCliItems :=
    ⟨.depth, _, some "2".toList, rfl, by decide⟩
  have h2 : ∀ (o : OptId) (s : Option Str) (l : List ArgItem), givenOpt o l = false → ¬ (ArgItem.opt o s).given l := by
    rintro o s l h ⟨o', t, t', e, hm⟩
    injection e with e1 e2
    subst e1
    rw [givenOpt_iff.mpr ⟨_, hm⟩] at h
    cases h
  unfold exCliConf
  rw [fresh, if_pos h1, fresh, if_neg (h2 _ _ _ (by decide)), fresh, if_neg (h2 _ _ _ (by decide)), fresh]

theorem exCli_fine : Fine exDateParser (exCliItems ++ fresh exCliItems exCliConf) := by
  refine ⟨C125_fresh _ _ (noneTwice_iff.mp (by decide)), ⟨"main".toList, by simp [exCliItems]⟩, ?_, ?_⟩
  · intro s hs
    rw [exCli_fresh] at hs
    simp [exCliItems] at hs
    subst hs
    exact ⟨2, readUsize_iff.mp (by decide)⟩
  · intro o s ho hs
    rw [exCli_fresh] at hs
    simp [exCliItems] at hs
    rcases hs with ⟨rfl, _⟩ | ⟨rfl, _⟩ | ⟨rfl, rfl⟩
    · cases ho
    · cases ho
    · exact ⟨dayNumber 2020 1 2, by decide +kernel⟩

/-- The configuration file sets what the command line does not. -/
example : ∃ i, Says exDateParser .balance (exCliItems ++ fresh exCliItems exCliConf) i ∧
    program (exCli exCliRc) exCliArgs = runCommand (exCli exCliRc) i :=
  C125_config_partial (exCli_understands _) (exCli_configured _ (by decide)) exCli_writes exCli_conf exCli_fine

/-- It is refused when the depth is given by its short form, and so is `register`. -/
example : program (exCli exCliRc) (["dinero", "bal", "-f", "main", "-d", "2"].map (·.toList)) = some ⟨1, none⟩ ∧
    program (exCli exCliRc) (["dinero", "bal", "-f", "main", "--depth=2"].map (·.toList)) = some ⟨1, none⟩ ∧
    program (exCli exCliRc) (["dinero", "reg", "-f", "main"].map (·.toList)) = some ⟨1, none⟩ := by decide +kernel

/-- The same with the long form, and with a configuration file for everybody. -/
example : program (exCli exCliRc) (["dinero", "bal", "-f", "main", "--depth", "2"].map (·.toList)) =
      program (exCli "") (["dinero", "balance", "--flat", "-b2020-01-02", "--file=main", "-d", "+2"].map (·.toList)) ∧
    program (exCli "--real") (["dinero", "reg", "-f", "main"].map (·.toList)) =
      program (exCli "") (["dinero", "register", "--real", "--file", "main"].map (·.toList)) := by decide +kernel

end Dinero
