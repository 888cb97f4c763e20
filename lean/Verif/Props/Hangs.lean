import Verif.Lemmas.Hangs
import Verif.Props.Tokenizer
import Verif.Props.Exact
/-
Property theorems about the journals that are never read to the end (C136).
-/
namespace Dinero

/-! ### C136: reading a journal does not end exactly if there is a tag directive with a comment in it -/

/-- Such a journal is read forever, whatever other files there are. -/
theorem C136_loops {env : Env} (ha : env.AsciiChars) {fs : Files} {file : Str} (h : Hangs env fs [] file) (fuel depth : Nat) :
    tokenizeFile env fs fuel depth [] file = .error .fuel :=
  hangs_loop ha h fuel depth

/-- Any other journal is read to an end, if there are only finitely many paths that patterns can stand for. -/
theorem C136_ends {env : Env} (ha : env.AsciiChars) {fs : Files} {paths : List Str}
    (hg : ∀ p es, fs.glob p = some es → ∀ f, some f ∈ es → f ∈ paths) {file : Str} (h : ¬ Hangs env fs [] file) :
    ∃ N, ∀ fuel depth, N ≤ fuel → N ≤ depth → tokenizeFile env fs fuel depth [] file ≠ .error .fuel := by
  obtain ⟨N, hN⟩ := forall_bound (fun f n => ∀ c, fs.read f = some c → 3 * c.length + 2 ≤ n) (file :: paths)
    (fun f _ => ⟨((fs.read f).map (fun c => 3 * c.length + 2)).getD 0, fun n hn c hc => by simpa [hc] using hn⟩)
  refine ⟨N + paths.length + 1, fun fuel depth h1 h2 he => h ?_⟩
  refine file_hangs ha hg (fun f hf => hN f (by simp [hf]) fuel (by omega)) depth [] file (hN file (by simp) fuel (by omega)) ?_ he
  exact Nat.lt_of_le_of_lt (List.length_filter_le _ _) (by omega)

/-- Both together. -/
theorem C136_exact {env : Env} (ha : env.AsciiChars) {fs : Files} {paths : List Str}
    (hg : ∀ p es, fs.glob p = some es → ∀ f, some f ∈ es → f ∈ paths) (file : Str) :
    (∀ fuel depth, tokenizeFile env fs fuel depth [] file = .error .fuel) ↔ Hangs env fs [] file := by
  refine ⟨fun h => ?_, fun h => C136_loops ha h⟩
  by_contra hn
  obtain ⟨N, hN⟩ := C136_ends ha hg hn
  exact hN N N (Nat.le_refl _) (Nat.le_refl _) (h N N)

/-- The file is rejected, with an error or a panic. -/
def Rejects (env : Env) (fs : Files) (file : Str) : Prop :=
  ∃ e N, ∀ fuel depth, N ≤ fuel → N ≤ depth → tokenizeFile env fs fuel depth [] file = .error (.fail e)

/-- A journal stands for something and is accepted (C132), or it is rejected, or it is read forever, and only one of these. -/
theorem C136_three {env : Env} (ha : env.AsciiChars) {fs : Files} {paths : List Str}
    (hg : ∀ p es, fs.glob p = some es → ∀ f, some f ∈ es → f ∈ paths) (file : Str) :
    ((∃ pl, Takes env fs [] file pl) ∨ Hangs env fs [] file ∨ Rejects env fs file) ∧
    ¬ ((∃ pl, Takes env fs [] file pl) ∧ Hangs env fs [] file) ∧ ¬ ((∃ pl, Takes env fs [] file pl) ∧ Rejects env fs file) ∧
    ¬ (Hangs env fs [] file ∧ Rejects env fs file) := by
  refine ⟨?_, ?_, ?_, ?_⟩
  · by_cases hh : Hangs env fs [] file
    · exact .inr (.inl hh)
    · obtain ⟨N, hN⟩ := C136_ends ha hg hh
      have h0 := hN N N (Nat.le_refl _) (Nat.le_refl _)
      cases hr : tokenizeFile env fs N N [] file with
      | ok pl => exact .inl ⟨pl, file_takes ha fs N N [] file pl hr⟩
      | error s =>
        cases s with
        | fuel => exact absurd hr h0
        | fail e =>
          refine .inr (.inr ⟨e, N, fun fuel depth h1 h2 => ?_⟩)
          rw [← hr]
          exact C132_fuel env fs (hN fuel depth h1 h2) h0
  · rintro ⟨⟨pl, h1⟩, h2⟩
    obtain ⟨N, hN⟩ := file_exact ha h1
    have := hN N (Nat.le_refl _) N (Nat.le_refl _)
    rw [C136_loops ha h2] at this
    cases this
  · rintro ⟨⟨pl, h1⟩, e, M, h2⟩
    obtain ⟨N, hN⟩ := file_exact ha h1
    have := hN (N + M) (by omega) (N + M) (by omega)
    rw [h2 _ _ (by omega) (by omega)] at this
    cases this
  · rintro ⟨h1, e, M, h2⟩
    have := h2 M M (Nat.le_refl _) (Nat.le_refl _)
    rw [C136_loops ha h1] at this
    cases this

/-- A tag directive with a property and then a comment. -/
theorem exTagged (rest : Str) : HangsTag exEnvJ ("tag x\n  check y\n\n  ; note".toList ++ rest) := by
  refine ⟨"tag x".toList, "x".toList, "  check y\n\n  ; note".toList ++ rest, ⟨by decide, .inl rfl⟩,
    ⟨[], " ".toList, by decide, ⟨by simp [Spaces], by decide, by decide, by decide, by decide⟩⟩, ?_⟩
  exact .property (w := "  ".toList) (s := "check y\n\n  ; note".toList ++ rest) (r := "\n  ; note".toList ++ rest) (by unfold White; decide)
    (by decide) ⟨'c', rfl, by decide⟩
    (.value (v := "check".toList) (w := "check".toList) (b := " ".toList) (s := "y\n\n  ; note".toList ++ rest) (b1 := []) (x := "y".toList)
      (b2 := []) (.plain (s := "check".toList) (by decide) (by simp [WordChar]; decide) (by
        intro c hc; cases hc; simp [WordChar]; decide)) (by decide) (by unfold Blanks; decide)
      (by intro c hc; cases hc; decide) ⟨by decide, .inl rfl⟩ (by simp [Blanks]) (by unfold Trimmed; decide) (by simp [Blanks]))
    (.comment (w := "\n  ".toList) (by unfold White; decide) (by decide))

/-- A file that includes another one with such a directive, after a comment. -/
def exHanging : Files :=
  exDir [("a".toList, "; mine\ninclude b\n".toList), ("b".toList, "tag x\n  check y\n\n  ; note\n".toList)]

example : Hangs exEnvJ exHanging [] "a".toList := by
  refine .incl (s := "include b\n".toList) (x := "b".toList) (r := []) (f := "b".toList) (pre := []) (post := []) (fun _ => {})
    ⟨"; mine\ninclude b\n".toList, [.comment "mine".toList], [], fun _ => [], fun _ => {}, by decide, ?_, by simp [White], by decide,
      ⟨'i', rfl, by decide⟩, by simp⟩ ⟨by decide, .inl rfl⟩ ⟨[], by decide, by decide⟩ ?_ (by simp) ?_
  · exact .cons (w := []) (s := "; mine\ninclude b\n".toList) (r := "include b\n".toList) (by simp [White]) (by decide)
      ⟨';', rfl, by decide⟩
      (.comment (m := ';') (b := " ".toList) (by decide) ⟨by decide, .inl rfl⟩ (by unfold Blanks; decide) (by
        intro x hx; cases hx; decide)) .nil
  · intro g hg
    simp only [List.nil_append, List.mem_cons, Option.some.injEq, List.not_mem_nil, or_false] at hg
    subst hg
    exact ⟨by decide, by decide⟩
  · exact .tag ⟨_, [], [], fun _ => [], fun _ => {}, by decide, .nil, by simp [White], by decide, ⟨'t', rfl, by decide⟩, by simp⟩
      (exTagged "\n".toList)

example : ∀ p es, exHanging.glob p = some es → ∀ f, some f ∈ es → f ∈ ["a".toList, "b".toList] := by
  intro p es h f hf
  simp only [exHanging, exDir, Option.some.injEq] at h
  subst h
  simp only [List.mem_map, List.mem_filter, Option.some.injEq] at hf
  obtain ⟨g, ⟨hg, _⟩, rfl⟩ := hf
  simp only [List.mem_cons, List.not_mem_nil, or_false] at hg
  rcases hg with rfl | rfl <;> simp

/-- It does not suffice that there are lines that look like this: here something before them is rejected (C64 says nothing about it). -/
example : TagComment exEnvJ.ws "\n?\ntag x\n ; y\n".toList ∧ ¬ Hangs exEnvJ (exRun "\n?\ntag x\n ; y\n").fs [] "main".toList := by
  refine ⟨⟨"\n?\n".toList, "tag x".toList, [], " ".toList, " y\n".toList, by decide, by decide, by decide, ⟨[], "x".toList, by decide⟩,
    by simp, by decide, by decide⟩, fun h => ?_⟩
  have h1 : exRefused "\n?\ntag x\n ; y\n" = true := by decide +kernel
  unfold exRefused at h1
  rw [show (exRun "\n?\ntag x\n ; y\n").journal "main".toList = .error .fuel from C136_loops exEnvJ_ascii h _ _] at h1
  cases h1

end Dinero
