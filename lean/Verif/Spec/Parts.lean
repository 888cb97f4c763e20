import Verif.Spec.Question
import Verif.Spec.Periods
/-
The same report for different questions (C137).
-/
namespace Dinero

/-- The same request with another question. -/
def ReportOpts.asking (o : ReportOpts) (query : List Str) : ReportOpts := { o with query := query }

/-- The expression makes sense as a question, in journals with the commodity `only` if there is one. -/
def Ast.Clear (env : Env) (only : Option Cur) (e : Ast) : Prop :=
  e.HasType env only .bool ∧ e.apart env only.isSome = true

/-- The second and the third list are what the first one consists of, each in the same order. -/
def MadeOf {α : Type} (l a b : List α) : Prop := a.Sublist l ∧ b.Sublist l ∧ l.Perm (a ++ b)

end Dinero
