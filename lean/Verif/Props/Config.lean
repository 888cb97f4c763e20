import Verif.Lemmas.Config
import Verif.Props.Journal
/-
C69: command line options override the configuration file.
-/
namespace Dinero

/-- Every line of the configuration file adds its option, with its values as one argument, unless the option
was given or met before.  Nothing given on the command line is changed.  (Partial: short forms other than `-f` and options
written with an equals sign do not count as given, see below; and values starting with a dash are
excluded, they are taken for options.) -/
theorem C69_merge_partial {env : Env} (ha : env.AsciiChars) {fs : Files} {exist : Str → Bool} {home file : Str}
    {args ls : List Str} {cs : List ConfLine} (hf : configFile exist home args = .ok (some file)) (h0 : ls ≠ [])
    (hr : fs.read file = some (joinLines ls)) (hl : ∀ l ∈ ls, '\n' ∉ l) (h : List.Forall₂ (WritesConf env) ls cs)
    (hv : ∀ n v vs, .option n (v :: vs) ∈ cs → v.head? ≠ some '-') :
    configArgs env fs exist home args = .ok (args ++ (counting args cs).flatMap ConfLine.args) := by
  unfold configArgs
  rw [hf]
  simp only
  rw [hr]
  simp only
  rw [configLines_text ha h0 hl]
  exact configLines_writes ha h hv args args (fun _ _ => Iff.rfl)

/-- The lines of the file that count: their options are not given, ... -/
theorem C69_overridden {args : List Str} {cs : List ConfLine} {n : Str} {vs : List Str}
    (h : .option n vs ∈ counting args cs) : ¬ Given args n ∧ .option n vs ∈ cs := by
  induction cs generalizing args with
  | nil => simp [counting] at h
  | cons c cs ih =>
    rw [counting] at h
    split at h
    · exact ⟨(ih h).1, by simp [(ih h).2]⟩
    · rename_i m hm
      split at h
      · exact ⟨(ih h).1, by simp [(ih h).2]⟩
      · rename_i hg
        rcases List.mem_cons.mp h with rfl | h
        · cases hm
          exact ⟨hg, by simp⟩
        · obtain ⟨i1, i2⟩ := ih h
          refine ⟨fun g => i1 ?_, by simp [i2]⟩
          unfold Given at g ⊢
          simp only [List.mem_append]
          tauto

/-- ... no two of them have the same option, ... -/
theorem C69_once (args : List Str) (cs : List ConfLine) : ((counting args cs).filterMap ConfLine.name?).Nodup := by
  induction cs generalizing args with
  | nil => simp [counting]
  | cons c cs ih =>
    rw [counting]
    split
    · exact ih args
    · rename_i m hm
      split
      · exact ih args
      · rw [List.filterMap_cons_some hm, List.nodup_cons]
        refine ⟨fun hx => ?_, ih _⟩
        obtain ⟨d, hd, e⟩ := List.mem_filterMap.mp hx
        cases d with
        | option n vs =>
          cases e
          exact (C69_overridden hd).1 (.inl (by simp))
        | comment => cases e
        | blank => cases e

/-- ... and every option that is not given has one, the first of its lines. -/
theorem C69_default {args : List Str} {pre post : List ConfLine} {n : Str} {vs : List Str} (hg : ¬ Given args n)
    (hp : n ∉ pre.filterMap ConfLine.name?) (hd : ∀ m ∈ pre.filterMap ConfLine.name?, "--".toList <+: m) :
    .option n vs ∈ counting args (pre ++ .option n vs :: post) := by
  induction pre generalizing args with
  | nil => simp [counting, ConfLine.name?, hg]
  | cons c pre ih =>
    rw [List.cons_append, counting]
    split
    · rename_i hm
      rw [List.filterMap_cons_none hm] at hp hd
      exact ih hg hp hd
    · rename_i m hm
      rw [List.filterMap_cons_some hm] at hp hd
      simp only [List.mem_cons, not_or] at hp
      split
      · exact ih hg hp.2 (fun k hk => hd k (by simp [hk]))
      · refine List.mem_cons_of_mem _ (ih ?_ hp.2 (fun k hk => hd k (by simp [hk])))
        unfold Given at hg ⊢
        simp only [List.mem_append, List.mem_singleton, not_or, not_and] at hg ⊢
        refine ⟨⟨hg.1, hp.1⟩, fun e => ⟨hg.2 e, ?_⟩⟩
        rintro rfl
        exact absurd (hd "-f".toList (by simp)) (by decide)

/-- The file is accepted iff each of its lines is an option, a comment or blank; what was given stays in front. -/
theorem C69_accepted {env : Env} (ha : env.AsciiChars) {fs : Files} {exist : Str → Bool} {home file text : Str}
    {args : List Str} (hf : configFile exist home args = .ok (some file)) (hr : fs.read file = some text)
    (h : ∀ l ∈ splitNl text, ∃ c, WritesConf env l c) :
    ∃ added, configArgs env fs exist home args = .ok (args ++ added) := by
  unfold configArgs
  rw [hf]
  simp only
  rw [hr]
  simp only
  conv => rhs; ext; lhs; rw [← join_splitNl text]
  rw [configLines_text ha (splitNl_ne _) (splitNl_nl _)]
  rcases configLines_total ha (splitNl_nl text) args with ⟨_, h2⟩ | ⟨h1, _⟩
  · exact h2
  · exact absurd h h1

/-- Any other line makes the program panic. -/
theorem C69_rejected {env : Env} (ha : env.AsciiChars) {fs : Files} {exist : Str → Bool} {home file text : Str}
    {args : List Str} (hf : configFile exist home args = .ok (some file)) (hr : fs.read file = some text)
    {l : Str} (hl : l ∈ splitNl text) (h : ∀ c, ¬ WritesConf env l c) :
    configArgs env fs exist home args = .error (.panic "Bad config file") := by
  unfold configArgs
  rw [hf]
  simp only
  rw [hr]
  simp only
  conv => lhs; rw [← join_splitNl text]
  rw [configLines_text ha (splitNl_ne _) (splitNl_nl _)]
  rcases configLines_total ha (splitNl_nl text) args with ⟨h1, _⟩ | ⟨_, h2⟩
  · obtain ⟨c, hc⟩ := h1 l hl
    exact absurd hc (h c)
  · exact h2

/-- The lines of a text are what its line breaks separate. -/
theorem C69_lines (text : Str) : joinLines (splitNl text) = text ∧ ∀ l ∈ splitNl text, '\n' ∉ l :=
  ⟨join_splitNl text, splitNl_nl text⟩

/-- The file named by the first `--init-file` is used if it exists, otherwise the one in the home directory, otherwise the
one in the current directory. -/
theorem C69_file {exist : Str → Bool} {home p : Str} {pre post : List Str} (h : "--init-file".toList ∉ pre) :
    configFile exist home (pre ++ "--init-file".toList :: p :: post) =
      .ok (if exist p then some p else if exist home then some home
        else if exist ".ledgerrc".toList then some ".ledgerrc".toList else none) := by
  unfold configFile
  rw [initFileArg_first h]
  simp only [Except.map, Option.toList, List.cons_append, List.nil_append, List.find?]
  cases exist p <;> cases exist home <;> cases exist ".ledgerrc".toList <;> rfl

/-- Without the option, the one in the home directory, then the one in the current directory. -/
theorem C69_file_default {exist : Str → Bool} {home : Str} {args : List Str} (h : "--init-file".toList ∉ args) :
    configFile exist home args = .ok (if exist home then some home
      else if exist ".ledgerrc".toList then some ".ledgerrc".toList else none) := by
  unfold configFile
  rw [initFileArg_none h]
  simp only [Except.map, Option.toList, List.nil_append, List.find?]
  cases exist home <;> cases exist ".ledgerrc".toList <;> rfl

/-- When there is none of these files the arguments stay as they are. -/
theorem C69_no_file {env : Env} {fs : Files} {exist : Str → Bool} {home : Str} {args : List Str}
    (h : "--init-file".toList ∉ args) (h1 : exist home = false) (h2 : exist ".ledgerrc".toList = false) :
    configArgs env fs exist home args = .ok args := by
  unfold configArgs
  rw [C69_file_default h, h1, h2]
  rfl

/-- A file that is there but cannot be read makes the program panic. -/
theorem C69_unreadable {env : Env} {fs : Files} {exist : Str → Bool} {home file : Str} {args : List Str}
    (hf : configFile exist home args = .ok (some file)) (hr : fs.read file = none) :
    configArgs env fs exist home args = .error (.panic "read_to_string(file).unwrap()") := by
  unfold configArgs
  rw [hf]
  simp only
  rw [hr]

/-- `--init-file` as the last argument makes the program panic. -/
theorem C69_init_file_last {env : Env} {fs : Files} {exist : Str → Bool} {home : Str} {pre : List Str}
    (h : "--init-file".toList ∉ pre) :
    configArgs env fs exist home (pre ++ ["--init-file".toList]) = .error (.panic "index out of bounds") := by
  unfold configArgs configFile
  rw [initFileArg_last h]
  rfl

/-! ### Examples -/

/-- The command line of the examples. -/
def exArgs (more : List String) : List Str := (["dinero", "bal", "-f", "a"] ++ more).map (·.toList)

/-- The arguments with a configuration file. -/
def exConf (text : String) (args : List Str) : Res (List Str) :=
  configArgs exEnvJ (exDir [("rc".toList, text.toList)]) (· == "rc".toList) "rc".toList args

/-- A configuration file: the journal file is given already, `--depth` comes twice. -/
example : exConf "# mine\n--file  x\n--depth 2\n\n--period  this   month \n--depth 3" (exArgs ["--real"]) =
    .ok (exArgs ["--real", "--depth", "2", "--period", "this month"]) := by decide

/-- The hypotheses of the theorems are met by a file. -/
example : List.Forall₂ (WritesConf exEnvJ) ["  # mine".toList, "--depth  2 ".toList, []]
    [.comment, .option "--depth".toList ["2".toList], .blank] :=
  .cons (.comment (b := "  ".toList) (c := '#') (s := " mine".toList) (by unfold Blanks; decide) (by simp) (by decide))
    (.cons (.option (name := "depth".toList) (trail := [' ']) [("  ".toList, "2".toList)] ⟨by simp, by decide⟩
      (by
        intro v hv
        simp only [List.mem_singleton] at hv
        subst hv
        exact ⟨by decide, by unfold Blanks; decide, by simp, by decide⟩) (by unfold Blanks; decide))
    (.cons (.blank (by unfold Blanks; decide)) .nil))

/-- Counting in the example: the depth of the command line counts. -/
example : counting (exArgs ["--depth", "1"]) [.comment, .option "--depth".toList ["2".toList], .blank] = [] := by
  simp [counting, ConfLine.name?, Given, exArgs]

/-- The short forms of the other options do not count as given: both depths are passed on. -/
theorem C69_short_forms :
    exConf "--depth 2\n" (exArgs ["-d", "1"]) = .ok (exArgs ["-d", "1", "--depth", "2"]) ∧
    exConf "--begin 2020\n" (exArgs ["-b", "2021"]) = .ok (exArgs ["-b", "2021", "--begin", "2020"]) ∧
    exConf "--depth 2\n" (exArgs ["--depth=1"]) = .ok (exArgs ["--depth=1", "--depth", "2"]) := by
  refine ⟨?_, ?_, ?_⟩ <;> decide

/-- In general: whatever else is given, an option that is not given literally is added. -/
theorem C69_not_literal {env : Env} (ha : env.AsciiChars) {fs : Files} {exist : Str → Bool} {home file : Str}
    {args : List Str} {name : Str} (hf : configFile exist home args = .ok (some file))
    (hr : fs.read file = some ("--".toList ++ name)) (hn : Word env ("--".toList ++ name))
    (h : "--".toList ++ name ∉ args) (hfile : "--".toList ++ name ≠ "--file".toList) :
    configArgs env fs exist home args = .ok (args ++ ["--".toList ++ name]) := by
  have hnl : '\n' ∉ "--".toList ++ name := fun hx => by
    have := hn.2 _ hx
    rw [(ha.ws '\n' (by decide)).mpr (.inr (by decide))] at this
    cases this
  have hw := WritesConf.option (trail := []) [] hn (by simp) (by unfold Blanks; simp)
  simp only [List.flatMap_nil, List.append_nil, List.map_nil] at hw
  have := C69_merge_partial ha (ls := ["--".toList ++ name]) hf (by simp) hr (by simpa using hnl) (.cons hw .nil)
    (by intro n v vs hm; simp at hm)
  rw [this]
  have hg : ¬ Given args ("--".toList ++ name) := by
    unfold Given
    rintro (g | ⟨g, _⟩)
    · exact h g
    · exact hfile g
  rw [counting]
  simp only [ConfLine.name?]
  rw [if_neg hg]
  simp [counting, ConfLine.args]

/-- A value that looks like an option counts as given. -/
theorem C69_dashed_value :
    exConf "--period --real\n--real\n" (exArgs []) = .ok (exArgs ["--period", "--real"]) := by decide

/-- An indented option and an option with one dash are refused; an init file that does not exist is passed over in silence. -/
example : exConf " --real\n" (exArgs []) = .error (.panic "Bad config file") := by decide
example : exConf "-f x\n" (exArgs []) = .error (.panic "Bad config file") := by decide
example : exConf "--real\n" (exArgs ["--init-file", "missing"]) = .ok (exArgs ["--init-file", "missing", "--real"]) := by decide

end Dinero
