import Verif.Spec.Expr
import Verif.Spec.Rules
/-
Which value expressions make sense: a type for each, and what the values of a type are.
-/
namespace Dinero

/-- The types of value expressions; `maybe` is a text that may be missing. -/
inductive Ty where
  | number | money | bool | account | payee | regex | text | maybe | date | note
  deriving DecidableEq

/-- An amount, with or without commodity. -/
def Ty.numeric : Ty → Bool
  | .number | .money => true
  | _ => false

/-- A text, there or missing. -/
def Ty.textual : Ty → Bool
  | .text | .maybe => true
  | _ => false

/-- What a regular expression can be held against. -/
def Ty.matchable : Ty → Bool
  | .account | .payee | .text | .maybe | .note => true
  | _ => false

/-- The leaf `x` occurs in the expression. -/
def Ast.has : Ast → Ast → Bool
  | .unary _ c, x => c.has x
  | .binary _ l r, x => l.has x || r.has x
  | n, x => n = x

/-- The commodities that are written in the expression. -/
def Ast.commodities : Ast → List Str
  | .money c _ => [c]
  | .unary _ c => c.commodities
  | .binary _ l r => l.commodities ++ r.commodities
  | _ => []

/-- A number that is written and is not zero. -/
def Ast.divisor : Ast → Bool
  | .number r => r ≠ 0
  | _ => false

/-- The type of an operation on a value of this type. -/
def unaryType : UnaryOp → Ty → Option Ty
  | .not, .bool => some .bool
  | .neg, .bool => some .bool
  | .neg, .number => some .number
  | .neg, .money => some .money
  | .abs, .number => some .number
  | .abs, .money => some .money
  | .any, .bool => some .bool
  | .hasTag, .regex => some .bool
  | .tag, .regex => some .maybe
  | .tag, .text => some .maybe
  | _, _ => none

/-- The type of an operation on two values of these types; `mono` says that there is only one commodity, without which
money is neither added nor put in order. -/
def binaryType (mono : Bool) (op : BinaryOp) (a b : Ty) : Option Ty :=
  match op with
  | .or | .and => if a = .bool ∧ b = .bool then some .bool else none
  | .eq =>
    if (b = .regex ∧ a.matchable) ∨ (a.numeric ∧ b.numeric) ∨ (a.textual ∧ b.textual) ∨ (a = .bool ∧ b = .bool) ∨
        (a = .date ∧ b = .date) then some .bool
    else none
  | .lt | .gt | .le | .ge =>
    if (a.numeric ∧ b.numeric ∧ (mono ∨ a = .number ∨ b = .number)) ∨ (a.textual ∧ b.textual) ∨
        (a = .date ∧ b = .date) then some .bool
    else none
  | .add | .subtract =>
    if a = .number ∧ b = .number then some .number else if a = .money ∧ b = .money ∧ mono then some .money else none
  | .mult =>
    if a = .number ∧ b = .number then some .number
    else if (a = .number ∧ b = .money) ∨ (a = .money ∧ b = .number) then some .money
    else none
  | .div => if a.numeric ∧ b = .number then some a else none

/-- The type of an expression, if it makes sense.  The divisor is a number that is written, and not zero; what is turned
into a date is a text that is written, and is one. -/
def Ast.type (env : Env) (mono : Bool) : Ast → Option Ty
  | .amount => some .money
  | .account => some .account
  | .payee => some .payee
  | .note => some .note
  | .date => some .date
  | .number _ => some .number
  | .money _ _ => some .money
  | .regex _ => some .regex
  | .string _ => some .text
  | .unary .toDate (.string s) => if (env.dateOf s).isSome then some .date else none
  | .unary op c => (c.type env mono).bind (unaryType op)
  | .binary op l r =>
    if op = .div ∧ r.divisor = false then none
    else (l.type env mono).bind (fun a => (r.type env mono).bind (binaryType mono op a))

/-- The values of a type; money is in the commodity `only`, if there is one, or is nothing at all. -/
inductive Val.Of (only : Option Cur) : Val → Ty → Prop
  | number (r : Rat) : Val.Of only (.number r) .number
  | money (m : Money) : (∀ d, only = some d → m.commodity = none ∨ m.commodity = some d) → Val.Of only (.money m) .money
  | bool (b : Bool) : Val.Of only (.bool b) .bool
  | account (n : Str) : Val.Of only (.account n) .account
  | payee (n : Str) : Val.Of only (.payee n) .payee
  | regex (pat : Str) : Val.Of only (.regex pat) .regex
  | text (s : Str) : Val.Of only (.string (some s)) .text
  | maybe (s : Option Str) : Val.Of only (.string s) .maybe
  | date (d : Date) : Val.Of only (.date d) .date
  | note : Val.Of only .note .note

/-- The posting has what the expression asks for: an amount, in the commodity `only` if there is one, and a payee. -/
structure Ast.FitsPosting (n : Ast) (only : Option Cur) (p : Posting) : Prop where
  amount : n.has .amount = true → ∃ m, p.amount = some m ∧ ∀ d, only = some d → m.commodity = none ∨ m.commodity = some d
  payee : n.has .payee = true → p.payee.isSome

/-- The transaction has what the expression asks for: a date, and what it asks for of the postings. -/
structure Ast.FitsTxn (n : Ast) (only : Option Cur) (t : Txn Posting) : Prop where
  date : n.has .date = true → t.date.isSome
  postings : ∀ q ∈ t.postings, n.FitsPosting only q

/-- The commodities that are written in the expression are all names of `only`, if there is only one. -/
def Ast.Written (n : Ast) (env : Env) (only : Option Cur) (st : Commodities) : Prop :=
  ∀ d, only = some d → ∀ c ∈ n.commodities, ∃ x, st.get env.lower c = .ok x ∧ x.name = d

/-! ### Rules that make sense -/

/-- The expression has the type, and names no commodity but the only one, if there is one. -/
def Ast.HasType (env : Env) (only : Option Cur) (n : Ast) (ty : Ty) : Prop :=
  n.type env only.isSome = some ty ∧ ∀ d, only = some d → ∀ c ∈ n.commodities, c = d

/-- The rule, with its condition, makes sense: the condition is true or false, and an amount that is an expression is
money, or a factor. -/
structure TypedRule (env : Env) (only : Option Cur) (r : Txn RawPosting × Ast) : Prop where
  condition : r.2.HasType env only .bool
  amounts : ∀ rp ∈ r.1.postings, rp.moneyCurrency = none → ∃ e n, rp.amountExpr = some e ∧ buildRoot env e = .ok n ∧
    (n.HasType env only .number ∨ n.HasType env only .money)

/-- The rule needs the amounts of the postings: in its condition, or in an expression that stands for an amount. -/
def RuleAsks (r : Txn RawPosting × Ast) : Prop :=
  r.2.has .amount = true ∨ ∃ rp ∈ r.1.postings, rp.moneyCurrency = none

/-- All postings are in commodity `d`, which is declared, if it is, under this name, and no other commodity of the
journal has its letters.  (A factor has no commodity.) -/
structure ParsedLedger.OnlyIn (env : Env) (pl : ParsedLedger) (d : Cur) : Prop where
  used : pl.usesCommodity d
  only : ∀ t ∈ pl.transactions, ∀ p ∈ t.postings, ∀ c,
    (p.moneyCurrency = some c ∨ p.costCurrency = some c ∨ p.balanceCurrency = some c) →
      c = d ∨ (c = [] ∧ t.ttype = .automated)
  declared : ∀ x, pl.lists.commodities.get env.lower d = .ok x → x.name = d
  distinct : ∀ c, pl.usesCommodity c → env.lower c = env.lower d → c = d

/-- The journal has what its rules ask for.  For a factor every posting states an amount, or is real and has none, not
even an asserted total; when an expression asks for amounts, the virtual postings state one. -/
structure ParsedLedger.Serves (pl : ParsedLedger) (rules : List (Txn RawPosting × Ast)) : Prop where
  factors : (∃ a ∈ pl.automated, ∃ rp ∈ a.postings, rp.moneyCurrency = some []) → ∀ t ∈ pl.regular, ∀ p ∈ t.postings,
    p.moneyCurrency.isSome ∨ (p.kind = .real ∧ p.balanceCurrency = none)
  amounts : (∃ r ∈ rules, RuleAsks r) → ∀ t ∈ pl.regular, ∀ p ∈ t.postings, p.kind = .real ∨ p.moneyCurrency.isSome

/-! ### Questions that make sense -/

/-- The question makes sense: it is read as nothing at all, or as an expression that is true or false. -/
def SoundQuery (env : Env) (only : Option Cur) (query : List Str) : Prop :=
  ∃ node, queryNode env query = .ok node ∧ ∀ n, node = some n → n.HasType env only .bool

/-- Rules that make sense, in a journal that has what they ask for, and whose virtual postings state their amounts. -/
structure ParsedLedger.Sound (env : Env) (pl : ParsedLedger) (only : Option Cur) (rules : List (Txn RawPosting × Ast)) :
    Prop where
  totals : pl.NoFreeTotals
  nodes : RuleNodes env pl.automated rules
  typed : ∀ x ∈ rules, TypedRule env only x
  single : ∀ d, only = some d → pl.OnlyIn env d
  serves : pl.Serves rules
  stated : ∀ t ∈ pl.regular, ∀ p ∈ t.postings, p.kind = .real ∨ p.moneyCurrency.isSome

/-- The account names of the ledger have a first component. -/
def Ledger.Named (L : Ledger) : Prop :=
  ∀ t ∈ L.transactions, ∀ p ∈ t.postings, p.account ≠ [] ∧ p.account.head? ≠ some ':'

end Dinero
