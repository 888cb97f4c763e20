import Verif.Spec.Accepted
/-
What it takes for a journal to be continued (C133).
-/
namespace Dinero

/-- The text ends with a line break, and there is no blank before it. -/
def EndsLine (env : Env) (s : Str) : Prop := s.getLast? = some '\n' ∧ ∀ x c, s = x ++ [c, '\n'] → env.ws c = true → c = '\n'

/-- As many parentheses are closed as are opened. -/
def ParensMatch (e : Str) : Prop := e.count '(' = e.count ')'

/-- No posting of the journal has an expression with an open parenthesis. -/
def NothingOpen (pl : ParsedLedger) : Prop :=
  ∀ t ∈ pl.transactions, ∀ p ∈ t.postings, ∀ e, p.amountExpr = some e → ParensMatch e

/-- The same files, but for the text of one of them. -/
structure SameBut (file : Str) (fs fs' : Files) : Prop where
  read : ∀ f, f ≠ file → fs.read f = fs'.read f
  glob : fs.glob = fs'.glob
  parent : fs.parent = fs'.parent

end Dinero
