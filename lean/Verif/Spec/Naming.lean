import Verif.Spec.Commands
import Verif.Spec.Typing
/-
The commodities that the rules of a journal write.
-/
namespace Dinero

/-- The commodity is written in the condition of an automated transaction. -/
def ParsedLedger.conditionNames (env : Env) (pl : ParsedLedger) (c : Str) : Prop :=
  ∃ a ∈ pl.automated, ∃ node, buildRoot env (getFilterQuery env a.description none).1 = .ok node ∧ c ∈ node.commodities

/-- The commodity is written in the expression that a posting of an automated transaction has for its amount. -/
def ParsedLedger.formulaNames (env : Env) (pl : ParsedLedger) (c : Str) : Prop :=
  ∃ a ∈ pl.automated, ∃ p ∈ a.postings, ∃ e node, p.moneyCurrency = none ∧ p.amountExpr = some e ∧
    buildRoot env e = .ok node ∧ c ∈ node.commodities

end Dinero
