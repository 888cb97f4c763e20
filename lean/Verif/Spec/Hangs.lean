import Verif.Spec.Accepted
/-
The journals that are never read to the end (C136).
-/
namespace Dinero

/-- The lines below a tag directive, up to a comment: there are only properties before it. -/
inductive HangsLines (env : Env) : Str → Prop
  | comment {w r : Str} : White env w → columnOf w ≠ 0 → HangsLines env (w ++ ';' :: r)
  | property {w s k x r : Str} : White env w → columnOf w ≠ 0 → (∃ c, s.head? = some c ∧ env.ws c = false) →
      TakesProperty env [] ["check".toList, "assert".toList] s (.value k x) false r → HangsLines env r → HangsLines env (w ++ s)

/-- A tag directive with a comment in it. -/
def HangsTag (env : Env) (s : Str) : Prop :=
  ∃ l n r, TakesLine s l r ∧ ReadsDirective "tag".toList l n ∧ HangsLines env r

/-- The first items of a text, each of them at the start of a line, and what comes after them. -/
inductive TakesItems (env : Env) : Str → List Block → Str → Prop
  | nil {s : Str} : TakesItems env s [] s
  | cons {w s r rest : Str} {b : Block} {bs : List Block} : White env w → columnOf w = 0 →
      (∃ c, s.head? = some c ∧ env.ws c = false) → TakesItem env s b r → TakesItems env r bs rest →
      TakesItems env (w ++ s) (b :: bs) rest

/-- What an include directive with the pattern `x` in `file` stands for. -/
def Expands (fs : Files) (file x : Str) (es : List (Option Str)) : Prop :=
  ∃ dir, fs.parent file = some dir ∧ fs.glob ((if dir = [] then ['.'] else dir) ++ '/' :: x) = some es

/-- The file is read without trouble up to an item, which is `s`, at the start of a line. -/
def Reaches (env : Env) (fs : Files) (seen : List Str) (file s : Str) : Prop :=
  ∃ text bs w, ∃ (entries : Str → List (Option Str)) (content : Str → ParsedLedger),
    fs.read file = some text ∧ TakesItems env text bs (w ++ s) ∧ White env w ∧ columnOf w = 0 ∧
    (∃ c, s.head? = some c ∧ env.ws c = false) ∧
    ∀ x, .incl x ∈ bs → Expands fs file x (entries x) ∧ ∀ f, some f ∈ entries x →
      f ≠ file ∧ f ∉ seen ∧ Takes env fs (file :: seen) f (content f)

/-- Reading the file does not end; `seen` are the files that are being read. -/
inductive Hangs (env : Env) (fs : Files) : List Str → Str → Prop
  /-- Some item is a tag directive with a comment in it. -/
  | tag {seen : List Str} {file s : Str} : Reaches env fs seen file s → HangsTag env s → Hangs env fs seen file
  /-- Or there is such an item in a file that is included. -/
  | incl {seen : List Str} {file s x r f : Str} {pre post : List (Option Str)} (content : Str → ParsedLedger) :
      Reaches env fs seen file s → TakesLine s ("include ".toList ++ x) r → Expands fs file x (pre ++ some f :: post) →
      (∀ g, some g ∈ pre ++ some f :: post → g ≠ file ∧ g ∉ seen) →
      (∀ g, some g ∈ pre → Takes env fs (file :: seen) g (content g)) →
      Hangs env fs (file :: seen) f → Hangs env fs seen file

end Dinero
