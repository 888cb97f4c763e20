import Verif.Spec.Commands
import Verif.Spec.Query
/-
What the reports should show of a journal with or without automated transactions, and with the options that select
postings.
-/
namespace Dinero

/-- The transactions a journal stands for: the regular ones booked by date; with automated transactions, those are
then applied to each of them in turn, and what comes out is booked again, from the beginning. -/
def ParsedLedger.Yields (env : Env) (skip : Bool) (pl : ParsedLedger) (txns : List (Txn Posting)) : Prop :=
  ∃ ts, pl.StandsFor env ts ∧
    ((pl.automated = [] ∧ BookedAs skip (fun _ _ => 0) ts txns) ∨
      (pl.automated ≠ [] ∧ ∃ booked rules names applied, BookedAs skip (fun _ _ => 0) ts booked ∧
        RuleNodes env pl.automated rules ∧ List.Forall₂ (RulesOn env names rules) booked applied ∧
        BookedAs skip (fun _ _ => 0) applied txns))

/-- Any number of words, each the pattern of an account. -/
def PlainQuery (env : Env) (query : List Str) : Prop := ∀ p ∈ query, PlainPattern env p

/-- What counts of account patterns: the account matches one of the first two (`C50_false`: the others are ignored). -/
def byPatterns (env : Env) (query : List Str) (account : Str) : Bool :=
  (query.take 2).any (fun pat => env.rx ("(?i)".toList ++ pat) account)

/-- The options ask for the posting: it is real, if only these are asked for; it is not before the first day and before
the last one; its account matches one of the first two patterns, if there are any. -/
def ReportOpts.wants (env : Env) (o : ReportOpts) (t : Txn Posting) (p : Posting) : Bool :=
  (!o.filter.real || p.kind = .real) &&
  o.filter.fromDate.all (fun d => t.date.any (fun x => d ≤ x)) &&
  o.filter.toDate.all (fun d => t.date.any (fun x => x < d)) &&
  (o.query.isEmpty || byPatterns env o.query p.account)

/-- The postings of the transactions that are asked for. -/
def wanted (env : Env) (o : ReportOpts) (txns : List (Txn Posting)) : List Posting :=
  txns.flatMap (fun t => t.postings.filter (o.wants env t))

/-! ### Rules on accounts -/

/-- The condition of the automated transaction `a` is made of the patterns of accounts `pats`: the words of its
description, without quotes; there is at least one.  (A blank before the first gives an empty word, which does not
count.) -/
def PatternRule (env : Env) (a : Txn RawPosting) (pats : List Str) : Prop :=
  (∃ words, IsSplit a.description words ∧ pats = (words.map (·.filter (· ≠ '"'))).filter (· ≠ [])) ∧ pats ≠ [] ∧
    PlainQuery env pats

/-- An automated transaction with the patterns of its condition. -/
abbrev AccountRule := Txn RawPosting × List Str

/-- The automated transactions of the journal as rules on accounts. -/
def ParsedLedger.AccountRules (env : Env) (pl : ParsedLedger) (rules : List AccountRule) : Prop :=
  List.Forall₂ (fun a r => r.1 = a ∧ PatternRule env a r.2) pl.automated rules

/-- The rule is for the posting. -/
def AccountRule.catches (env : Env) (r : AccountRule) (p : Posting) : Bool := byPatterns env r.2 p.account

/-- The posting `q` is what the posting `rp` of a rule makes of the posting `p`: on the account and of the kind that are
written, to the payee of `p`, with the amount that is written, or that of `p` times the factor that is written. -/
structure Adds (env : Env) (names : Lists) (p : Posting) (rp : RawPosting) (q : Posting) : Prop where
  account : Finds env.lower names.accounts rp.account q.account
  amount : (∃ c n a, rp.moneyCurrency = some c ∧ c ≠ [] ∧ rp.moneyAmount = some a ∧
      Finds env.lower names.commodities c n ∧ q.amount = some (.mk a n)) ∨
    (∃ x c f, rp.moneyCurrency = some [] ∧ rp.moneyAmount = some f ∧ p.amount = some (.mk x c) ∧
      q.amount = some (.mk (x * f) c))
  rest : q = { account := q.account, amount := q.amount, kind := rp.kind, payee := p.payee, origin := .automated }

/-- What the rules make of a transaction: the tags of every rule are added to the postings it is for, and for each rule,
each posting it is for and each posting of the rule there is a new posting, in this order. -/
def AppliedTo (env : Env) (names : Lists) (rules : List AccountRule) (t t' : Txn Posting) : Prop :=
  ∃ extra, t' = { t with postings := t.postings.map (fun p => { p with
      tags := p.tags ++ (rules.filter (·.catches env p)).flatMap (fun r => r.1.comments.flatMap getTags) }) ++ extra } ∧
    List.Forall₂ (fun x q => Adds env names x.1 x.2 q)
      (rules.flatMap (fun r => (t.postings.filter (r.catches env)).flatMap (fun p => r.1.postings.map (fun rp => (p, rp)))))
      extra

/-- The postings of the rules state an amount, or a factor; in this case every posting of the journal states an amount,
or is real and has none, not even an asserted total. -/
def ParsedLedger.RulesFit (pl : ParsedLedger) : Prop :=
  (∀ a ∈ pl.automated, ∀ rp ∈ a.postings, rp.moneyCurrency.isSome) ∧
  ((∃ a ∈ pl.automated, ∃ rp ∈ a.postings, rp.moneyCurrency = some []) → ∀ t ∈ pl.regular, ∀ p ∈ t.postings,
    p.moneyCurrency.isSome ∨ (p.kind = .real ∧ p.balanceCurrency = none))

/-- `ts` are the transactions of the journal by date, under the names in `l`. -/
def ParsedLedger.StandsWith (env : Env) (pl : ParsedLedger) (l : Lists) (ts : List (Txn Posting)) : Prop :=
  NamesOf env pl l ∧ ∃ listed, DateOrder pl.regular listed ∧
    List.Forall₂ (fun raw t => t.header = raw.header ∧ t.ttype = .real ∧
      List.Forall₂ (WrittenAs env l raw) raw.postings t.postings) listed ts

/-- The transaction with its real postings first. -/
def Txn.realFirst (t : Txn Posting) : Txn Posting :=
  { t with postings := t.postings.filter (fun p => p.kind = .real) ++ t.postings.filter (fun p => p.kind ≠ .real) }

/-- The name under which the list has `n`. -/
def NList.nameOf {T : Type} [Named T] (lower : Str → Str) (l : NList T) (n : Str) : Option Str :=
  (l.get lower n).toOption.map Named.name

/-- What the posting `rp` of a rule brings in commodity `c` for the postings `caught`: the factor times their sum, or
the written amount for each of them. -/
def RawPosting.share (env : Env) (names : Lists) (rp : RawPosting) (caught : List Posting) (c : Cur) : Rat :=
  match rp.moneyCurrency, rp.moneyAmount with
  | some [], some f => f * sumIn (caught.filterMap Posting.amount) c
  | some d, some x => if names.commodities.nameOf env.lower d = some c then caught.length * x else 0
  | _, _ => 0

/-- What the rules bring to the account `a` in commodity `c` for the postings `ps`. -/
def broughtTo (env : Env) (names : Lists) (rules : List AccountRule) (ps : List Posting) (a : Str) (c : Cur) : Rat :=
  (rules.map (fun r => (r.1.postings.map (fun rp =>
    if names.accounts.nameOf env.lower rp.account = some a then rp.share env names (ps.filter (r.catches env)) c
    else 0)).sum)).sum

end Dinero
