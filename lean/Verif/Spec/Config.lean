import Verif.Spec.Journal
/-
What a configuration file means.
-/
namespace Dinero

/-- A line of a configuration file. -/
inductive ConfLine where
  | option (name : Str) (values : List Str)
  | comment
  | blank

/-- A text without white space. -/
def Word (env : Env) (w : Str) : Prop := w ≠ [] ∧ ∀ c ∈ w, env.ws c = false

/-- How the lines are written: an option starts with two dashes at the beginning of the line and is followed by its
values, comments and blank lines may be indented. -/
inductive WritesConf (env : Env) : Str → ConfLine → Prop
  | option {name trail : Str} (vs : List (Str × Str)) : Word env ("--".toList ++ name) →
      (∀ v ∈ vs, v.1 ≠ [] ∧ Blanks env v.1 ∧ Word env v.2) → Blanks env trail →
      WritesConf env ("--".toList ++ name ++ vs.flatMap (fun v => v.1 ++ v.2) ++ trail)
        (.option ("--".toList ++ name) (vs.map Prod.snd))
  | comment {b s : Str} {c : Char} : Blanks env b → c = ';' ∨ c = '#' ∨ c = '!' ∨ c = '%' → '\n' ∉ s →
      WritesConf env (b ++ c :: s) .comment
  | blank {b : Str} : Blanks env b → WritesConf env b .blank

/-- Values joined by single spaces. -/
def joinWords : List Str → Str
  | [] => []
  | [w] => w
  | w :: w' :: ws => w ++ ' ' :: joinWords (w' :: ws)

/-- An option is given: as it is or, for the journal file, by its short form. -/
def Given (args : List Str) (name : Str) : Prop :=
  name ∈ args ∨ (name = "--file".toList ∧ "-f".toList ∈ args)

instance (args : List Str) (name : Str) : Decidable (Given args name) := by unfold Given; infer_instance

/-- The name of the option in a line, if there is one. -/
def ConfLine.name? : ConfLine → Option Str
  | .option name _ => some name
  | _ => none

/-- The arguments a line stands for: the values are one argument. -/
def ConfLine.args : ConfLine → List Str
  | .option name [] => [name]
  | .option name vs => [name, joinWords vs]
  | _ => []

/-- The lines that count: of those with the same option the first, and none whose option is given (or met before). -/
def counting (given : List Str) : List ConfLine → List ConfLine
  | [] => []
  | l :: ls =>
    match l.name? with
    | none => counting given ls
    | some n => if Given given n then counting given ls else l :: counting (given ++ [n]) ls

end Dinero
