import Verif.Spec.Ledger
import Verif.Spec.Commands
/-
Journals with other names for the accounts.
-/
namespace Dinero

/-- The transaction with the account `f a` wherever it names `a`. -/
def Txn.moved (f : Str → Str) (t : Txn RawPosting) : Txn RawPosting :=
  { t with postings := t.postings.map (fun p => { p with account := f p.account }) }

/-- The journal with the account `f a` wherever it names `a`. -/
def ParsedLedger.moved (f : Str → Str) (pl : ParsedLedger) : ParsedLedger :=
  { pl with transactions := pl.transactions.map (Txn.moved f) }

/-- No two accounts of the journal differ in case only, and none is declared. -/
structure ParsedLedger.PlainAccounts (env : Env) (pl : ParsedLedger) : Prop where
  undeclared : pl.lists.accounts = {}
  cases : ∀ a b, pl.usesAccount a → pl.usesAccount b → env.lower a = env.lower b → a = b

/-- Nothing is lost by the new names: none of them stands for two accounts, or no asserted total is in force. -/
def Harmless (f : Str → Str) (skip : Bool) (pl : ParsedLedger) : Prop :=
  (∀ a b, pl.usesAccount a → pl.usesAccount b → f a = f b → a = b) ∨ skip = true ∨
    ∀ t ∈ pl.regular, ∀ p ∈ t.postings, p.balanceCurrency = none

/-- The account has this name in a balance with this depth. -/
def LabelledAt (d : Option Nat) (a g : Str) : Bool :=
  match d with
  | none => a = g
  | some d => CutTo d a g

end Dinero
