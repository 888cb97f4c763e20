import Verif.Model.Stderr
import Verif.Spec.Trouble
import Verif.Spec.App
import Verif.Spec.Ledger
/-
Why a command can end with status 1 (C129).
-/
namespace Dinero

/-- An expression that is used as a condition, and is none: for a posting it has a value, which is neither true nor false. -/
def NoCondition (env : Env) (t : Txn Posting) (p : Posting) (n : Ast) : Prop :=
  p ∈ t.postings ∧ ∃ before v after, eval env t n p before = .ok (v, after) ∧ ∀ b, v ≠ .bool b

/-- Why there is no ledger for a file, and what is written about it. -/
inductive Cause (r : Run) (sp : Speech) (skip : Bool) (path : Str) : Str → Prop
  /-- The parser meets something it does not understand; it says where. -/
  | parser {e : Err} {x : Trouble} (h : r.journal path = .error (.fail (.error e))) (hx : Located r.env r.fs x) :
      Cause r sp skip path (x.written sp.shown)
  /-- One of the transactions, perhaps with what the rules add, cannot be booked: it is shown, with the name of the error. -/
  | booking {pl : ParsedLedger} {raw : Txn RawPosting} {t : Txn Posting} {e : Err} {s : Shuf} {bals : Balances} {before : Str}
      (h : r.journal path = .ok pl) (hr : raw ∈ pl.regular) (hh : t.header = raw.header) (he : e = .notBalanced ∨ ∃ n, 2 ≤ n ∧ e = .tooManyEmpty n)
      (hb : Txn.balance s skip bals t = .error (.error e)) :
      Cause r sp skip path (before ++ t.display ++ '\n' :: e.debug ++ ['\n'])
  /-- What an automated transaction looks for is no condition. -/
  | rule {pl : ParsedLedger} {raw : Txn RawPosting} {n : Ast} {t : Txn Posting} {p : Posting} (h : r.journal path = .ok pl)
      (hr : raw ∈ pl.automated)
      (hn : buildRoot r.env (preprocessQuery r.env (splitQuery raw.description)) = .ok n) (hc : NoCondition r.env t p n) :
      Cause r sp skip path (sp.notBoolean n)

/-- Why there is no report, and what is written about it. -/
inductive ReportCause (r : Run) (sp : Speech) (skip : Bool) (opts : ReportOpts) (path : Str) : Str → Prop
  | ledger {text : Str} (h : Cause r sp skip path text) : ReportCause r sp skip opts path text
  /-- What the command line asks for is no condition. -/
  | query {L : Ledger} {n : Ast} {t : Txn Posting} {p : Posting} (h : r.ledger skip path = .ok L)
      (hn : buildRoot r.env (preprocessQuery r.env opts.query) = .ok n) (ht : t ∈ L.transactions) (hc : NoCondition r.env t p n) :
      ReportCause r sp skip opts path (sp.notBoolean n)

/-- Why a command ends with status 1, and what is written about it. -/
def CommandCause (w : World) (sp : Speech) (i : Invocation) (text : Str) : Prop :=
  match i.command with
  | .balance _ _ | .register => ReportCause w.run sp i.skip i.opts i.file text
  | .check => Cause w.run sp false i.file text
  | _ => Cause w.run sp i.skip i.file text

end Dinero
