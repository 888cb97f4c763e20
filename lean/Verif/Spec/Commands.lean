import Verif.Spec.Ledger
import Verif.Spec.Report
import Verif.Spec.Check
import Verif.Spec.Journal
import Verif.Model.Commands
/-
What the commands should do, in terms of what the journal says.
-/
namespace Dinero
variable {T : Type} [Named T]

/-- The name is declared: it is the name or an alias of an element. -/
def Declared (lower : Str → Str) (decl : NList T) (n : Str) : Prop := ∃ x, decl.get lower n = .ok x

/-- It is the name of an element. -/
def Lists? (l : NList T) (n : Str) : Prop := ∃ k e, l.list.get? k = some e ∧ Named.name e = n

/-- `l` contains what is declared and an element for each used name that is not; used names that differ
in case only share it. -/
structure Completed (lower : Str → Str) (decl l : NList T) (used : Str → Prop) : Prop where
  reachable : l.Reachable lower
  declared : ∀ n x, decl.get lower n = .ok x → l.get lower n = .ok x
  added : ∀ n, used n → ¬ Declared lower decl n → ∃ m, used m ∧ lower m = lower n ∧ Finds lower l n m
  kept : ∀ n, Lists? decl n → Lists? l n
  only : ∀ n, Lists? l n → Lists? decl n ∨ (used n ∧ ¬ Declared lower decl n)

/-- A declared payee with a pattern that matches. -/
def Matches (env : Env) (decl : NList PayeeDef) (p : PayeeDef) (n : Str) : Prop :=
  (∃ k, (k, p) ∈ decl.list) ∧ ∃ pat ∈ p.aliasRx, env.rx pat n = true

/-- The same for payees: a used name that is not declared goes to a declared payee with a pattern that matches, if there
is one. -/
structure CompletedPayees (env : Env) (decl l : NList PayeeDef) (used : Str → Prop) : Prop where
  reachable : l.Reachable env.lower
  declared : ∀ n x, decl.get env.lower n = .ok x → l.get env.lower n = .ok x
  added : ∀ n, used n → ¬ Declared env.lower decl n → ∃ m, used m ∧ env.lower m = env.lower n ∧
    (((∀ p, ¬ Matches env decl p m) ∧ Finds env.lower l n m) ∨
      ∃ p, Matches env decl p m ∧ Finds env.lower l n p.name)
  kept : ∀ n, Lists? decl n → Lists? l n
  only : ∀ n, Lists? l n → Lists? decl n ∨
    (used n ∧ ¬ Declared env.lower decl n ∧ ∀ p, ¬ Matches env decl p n)

/-- The names a posting can use. -/
structure NamesOf (env : Env) (pl : ParsedLedger) (l : Lists) : Prop where
  accounts : Completed env.lower pl.lists.accounts l.accounts pl.usesAccount
  payees : CompletedPayees env pl.lists.payees l.payees pl.usesPayee
  commodities : Completed env.lower pl.lists.commodities l.commodities pl.usesCommodity

/-- `ts` are the transactions of the journal by date, each posting under the names it stands for. -/
def ParsedLedger.StandsFor (env : Env) (pl : ParsedLedger) (ts : List (Txn Posting)) : Prop :=
  ∃ l listed, NamesOf env pl l ∧ DateOrder pl.regular listed ∧
    List.Forall₂ (fun raw t => t.header = raw.header ∧ t.ttype = .real ∧
      List.Forall₂ (WrittenAs env l raw) raw.postings t.postings) listed ts

/-- No total cost is written for a zero quantity. -/
def ParsedLedger.NoFreeTotals (pl : ParsedLedger) : Prop :=
  ∀ t ∈ pl.regular, ∀ p ∈ t.postings, p.costType = some .total → p.moneyAmount ≠ some 0

/-- No bracketed posting gives something away at a price per unit. -/
def ParsedLedger.NoBracketedSales (pl : ParsedLedger) : Prop :=
  ∀ t ∈ pl.regular, ∀ p ∈ t.postings, p.kind = .virtBal → p.costType = some .perUnit →
    ∀ q, p.moneyAmount = some q → 0 ≤ q

/-- The amounts, totals and costs of a posting come with a commodity (a possibly empty one), and a cost only with an
amount. -/
structure RawPosting.Paired (p : RawPosting) : Prop where
  money : p.moneyCurrency.isSome = p.moneyAmount.isSome
  balance : p.balanceCurrency.isSome = p.balanceAmount.isSome
  cost : p.costCurrency.isSome = p.costAmount.isSome
  costType : p.costCurrency.isSome = p.costType.isSome
  costOn : p.costCurrency.isSome → p.moneyCurrency.isSome

/-- The postings of a transaction sum to zero or leave out exactly one amount. -/
def SumsUp (t : Txn RawPosting) : Prop :=
  ((∀ p ∈ t.postings, p.moneyAmount ≠ none) ∧ (t.postings.filterMap RawPosting.moneyAmount).sum = 0) ∨
    (t.postings.filter (fun p => p.moneyAmount = none)).length = 1

/-- The transaction of an item. -/
def Block.txn? : Block → Option (Txn RawPosting)
  | .txn t => some t
  | _ => none

/-- Nothing but transactions and comments. -/
def OnlyTransactions (bs : List Block) : Prop := ∀ b ∈ bs, (∃ c, b = .comment c) ∨ ∃ t, b = .txn t

/-- What a posting shows in a report, as it is written. -/
def RawPosting.entry (p : RawPosting) : Str × Kind × Option Money :=
  (p.account, p.kind, match p.moneyAmount, p.moneyCurrency with
    | some q, some c => some (.mk q c)
    | _, _ => none)

/-- The file contains the lines of a journal of these items, without include directives. -/
structure HoldsJournal (r : Run) (path : Str) (ls : List Str) (bs : List Block) : Prop where
  read : r.fs.read path = some (joinLines ls)
  writes : WritesJournal r.env ls bs
  noIncludes : ∀ x, .incl x ∉ bs
  lastLine : LastLineOk r.env ls bs
  fuel : ls.length + 4 ≤ r.fuel
  depth : 1 ≤ r.depth

/-- No two of the names differ in case only. -/
def CaseFree (lower : Str → Str) (used : Str → Prop) : Prop := ∀ m n, used m → used n → lower m = lower n → m = n

/-- The transactions are written out: every amount and every account is there, and every name is written in one way. -/
structure WrittenOut (env : Env) (bs : List Block) : Prop where
  only : OnlyTransactions bs
  real : ∀ t, .txn t ∈ bs → t.ttype = .real
  amounts : ∀ t, .txn t ∈ bs → ∀ p ∈ t.postings, p.moneyAmount.isSome
  accounts : ∀ t, .txn t ∈ bs → ∀ p ∈ t.postings, ¬ EndsUnknown env p.account
  oneAccount : CaseFree env.lower (fun n => ∃ t, .txn t ∈ bs ∧ ∃ p ∈ t.postings, p.account = n)
  oneCommodity : CaseFree env.lower (fun n => ∃ t, .txn t ∈ bs ∧ ∃ p ∈ t.postings,
    p.moneyCurrency = some n ∨ p.costCurrency = some n ∨ p.balanceCurrency = some n)

/-- The amounts written for the accounts that are wanted. -/
def writtenFor (bs : List Block) (wanted : Str → Bool) : List Money :=
  (((bs.filterMap Block.txn?).flatMap Txn.postings).filter (fun p => wanted p.account)).filterMap (fun p => p.entry.2.2)

end Dinero
