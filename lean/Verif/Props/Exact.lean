import Verif.Lemmas.Exact
import Verif.Lemmas.Fuel
import Verif.Props.Accepted
/-
Property theorems about which journals are accepted (C132).
-/
namespace Dinero

/-! ### C132: a journal is accepted exactly if it stands for something -/

/-- A file is read as `pl` if and only if `pl` is what its characters, and those of the files it includes, stand for. -/
theorem C132_exact {env : Env} (ha : env.AsciiChars) (fs : Files) (file : Str) (pl : ParsedLedger) :
    (∃ N, ∀ fuel depth, N ≤ fuel → N ≤ depth → tokenizeFile env fs fuel depth [] file = .ok pl) ↔ Takes env fs [] file pl := by
  constructor
  · rintro ⟨N, h⟩
    exact file_takes ha fs N N [] file pl (h N N (Nat.le_refl _) (Nat.le_refl _))
  · intro h
    obtain ⟨N, hN⟩ := file_exact ha h
    exact ⟨N, fun fuel depth h1 h2 => hN fuel h1 depth h2⟩

/-- A journal cannot stand for two things. -/
theorem C132_unique {env : Env} (ha : env.AsciiChars) {fs : Files} {seen : List Str} {file : Str} {pl pl' : ParsedLedger}
    (h : Takes env fs seen file pl) (h' : Takes env fs seen file pl') : pl = pl' := by
  obtain ⟨N, hN⟩ := file_exact ha h
  obtain ⟨N', hN'⟩ := file_exact ha h'
  have h1 := hN (N + N') (by omega) (N + N') (by omega)
  have h2 := hN' (N + N') (by omega) (N + N') (by omega)
  rw [h1] at h2
  exact Except.ok.inj h2

/-- How many iterations are allowed does not matter, as long as they are enough: a reading that ends, ends the same way. -/
theorem C132_fuel (env : Env) (fs : Files) {fuel depth fuel' depth' : Nat} {file : Str}
    (h : tokenizeFile env fs fuel depth [] file ≠ .error .fuel) (h' : tokenizeFile env fs fuel' depth' [] file ≠ .error .fuel) :
    tokenizeFile env fs fuel depth [] file = tokenizeFile env fs fuel' depth' [] file := by
  have key : ∀ {f d}, tokenizeFile env fs f d [] file ≠ .error .fuel → f ≤ fuel + fuel' → d ≤ depth + depth' →
      tokenizeFile env fs f d [] file = tokenizeFile env fs (fuel + fuel') (depth + depth') [] file := by
    intro f d h hf hd
    rcases tokenizeFile_upto env fs hf _ _ hd [] file with k | k
    · exact absurd k h
    · exact k
  rw [key h (by omega) (by omega), key h' (by omega) (by omega)]

/-- A run that ends accepts the journal if and only if it stands for something, and reads it as that. -/
theorem C132_journal {r : Run} (ha : r.env.AsciiChars) {path : Str} (hf : r.journal path ≠ .error .fuel) (pl : ParsedLedger) :
    r.journal path = .ok pl ↔ Takes r.env r.fs [] path pl := by
  refine ⟨fun h => C130_accepted ha h, fun h => ?_⟩
  obtain ⟨N, hN⟩ := file_exact ha h
  have hN := hN N (Nat.le_refl _) N (Nat.le_refl _)
  exact (C132_fuel r.env r.fs hf (by rw [hN]; simp)).trans hN

/-- It rejects it, with an error or a panic, if and only if it stands for nothing. -/
theorem C132_rejects {r : Run} (ha : r.env.AsciiChars) {path : Str} (hf : r.journal path ≠ .error .fuel) :
    (∃ e, r.journal path = .error (.fail e)) ↔ ∀ pl, ¬ Takes r.env r.fs [] path pl := by
  constructor
  · rintro ⟨e, he⟩ pl h
    rw [(C132_journal ha hf pl).mpr h] at he
    cases he
  · intro h
    cases hj : r.journal path with
    | ok pl => exact absurd (C130_accepted ha hj) (h pl)
    | error s =>
      cases s with
      | fuel => exact absurd hj hf
      | fail e => exact ⟨e, rfl⟩

/-- The hypotheses are met by examples: a journal that stands for something. -/
example : ∃ pl, Takes exEnvJ (exRun exText).fs [] "main".toList pl := by
  have h : ((exRun exText).journal "main".toList).toBool = true := by decide +kernel
  cases hj : (exRun exText).journal "main".toList with
  | error e => rw [hj] at h; cases h
  | ok pl => exact ⟨pl, C130_accepted exEnvJ_ascii hj⟩

/-- The journal is read to an end, but rejected. -/
def exRefused (text : String) : Bool := match (exRun text).journal "main".toList with
  | .error (.fail _) => true
  | _ => false

/-- A price without a number, an amount without an account, an account directive that is cut off. -/
example : ∀ text ∈ ["P 2020-01-05 BTC EUR\n", "2020-01-05 Bar\n 5 EUR\n", "account\n"],
    ∀ pl, ¬ Takes exEnvJ (exRun text).fs [] "main".toList pl := by
  intro text ht
  have h : exRefused text = true := by
    have : ∀ text ∈ ["P 2020-01-05 BTC EUR\n", "2020-01-05 Bar\n 5 EUR\n", "account\n"], exRefused text = true := by decide +kernel
    exact this text ht
  unfold exRefused at h
  cases hj : (exRun text).journal "main".toList with
  | ok pl => rw [hj] at h; cases h
  | error s =>
    cases s with
    | fuel => rw [hj] at h; cases h
    | fail e => exact (C132_rejects (r := exRun text) exEnvJ_ascii (by rw [hj]; simp)).mp ⟨e, hj⟩

end Dinero
