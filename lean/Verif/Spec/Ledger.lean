import Verif.Model.Ledger
import Verif.Spec.Transaction
import Verif.Spec.List
/-
What the ledger built from a parsed journal should be.
-/
namespace Dinero

/-- What identifies a transaction of the journal. -/
def Txn.header {P : Type} (t : Txn P) : Option Date × Option Date × Str × List Str :=
  (t.date, t.effectiveDate, t.description, t.comments)

/-- The regular transactions of a journal. -/
def ParsedLedger.regular (pl : ParsedLedger) : List (Txn RawPosting) :=
  pl.transactions.filter (fun t => t.ttype = .real)

/-- The automated transactions of a journal. -/
def ParsedLedger.automated (pl : ParsedLedger) : List (Txn RawPosting) :=
  pl.transactions.filter (fun t => t.ttype = .automated)

/-- `l'` lists the transactions of `l` by date, those of a date in the order they have in `l`. -/
structure DateOrder {P : Type} (l l' : List (Txn P)) : Prop where
  perm : l'.Perm l
  sorted : l'.Pairwise (fun a b => ∃ d e, a.date = some d ∧ b.date = some e ∧ d ≤ e)
  stable : ∀ d : Option Date, l'.filter (fun t => t.date = d) = l.filter (fun t => t.date = d)

/-- The name is found, under the name `n`. -/
def Finds {T : Type} [Named T] (lower : Str → Str) (l : NList T) (name n : Str) : Prop :=
  ∃ x, l.get lower name = .ok x ∧ Named.name x = n

/-- Everything a posting names is found. -/
structure Resolves (lower : Str → Str) (l : Lists) (p : RawPosting) : Prop where
  account : ∃ n, Finds lower l.accounts p.account n
  payee : ∀ x, p.payee = some x → ∃ n, Finds lower l.payees x n
  money : ∀ c, p.moneyCurrency = some c → ∃ n, Finds lower l.commodities c n
  cost : ∀ c, p.costCurrency = some c → ∃ n, Finds lower l.commodities c n
  balance : ∀ c, p.balanceCurrency = some c → ∃ n, Finds lower l.commodities c n

/-- The name lists are as left by the parser. -/
structure Lists.Ok (lower : Str → Str) (l : Lists) : Prop where
  accounts : l.accounts.Reachable lower
  payees : l.payees.Reachable lower
  commodities : l.commodities.Reachable lower

/-- A posting as the parser makes it: amounts come with a commodity (a possibly empty one), a cost only with
an amount, and a payee is set. -/
structure RawPosting.Ok (p : RawPosting) : Prop where
  money : p.moneyCurrency.isSome = p.moneyAmount.isSome
  balance : p.balanceCurrency.isSome = p.balanceAmount.isSome
  cost : p.costCurrency.isSome = p.costAmount.isSome
  costType : p.costCurrency.isSome = p.costType.isSome
  costOn : p.costCurrency.isSome → p.moneyCurrency.isSome
  payee : p.payee.isSome

/-- A journal as the parser makes it: its regular transactions are dated. -/
structure ParsedLedger.Ok (lower : Str → Str) (pl : ParsedLedger) : Prop where
  lists : pl.lists.Ok lower
  dated : ∀ t ∈ pl.regular, t.date.isSome
  postings : ∀ t ∈ pl.regular, ∀ p ∈ t.postings, p.Ok

/-- The price a cost stands for: on the date, one unit of the commodity of the posting is worth `u` of the
other one, where `u` is the cost per unit, or the total cost is the quantity times `u`. -/
structure CostPrice (lower : Str → Str) (cs : Commodities) (date : Option Date) (p : RawPosting)
    (pr : Price) : Prop where
  date : date = some pr.date
  commodity : ∃ c, p.moneyCurrency = some c ∧ Finds lower cs c pr.commodity
  cur : ∃ c, p.costCurrency = some c ∧ Finds lower cs c pr.cur
  unit : (p.costType = some .perUnit ∧ p.costAmount = some pr.amount) ∨
    (p.costType = some .total ∧ ∃ q, p.moneyAmount = some q ∧ q ≠ 0 ∧
      p.costAmount = some (q * pr.amount))

/-- The rate a transaction implies: if what its real postings add up to is in exactly two commodities,
these are worth each other. -/
def ImpliesRate (t : Txn Posting) (o : Option Price) : Prop :=
  match o with
  | some pr =>
    t.date = some pr.date ∧ pr.commodity ≠ pr.cur ∧
    weightOf .real t.postings pr.commodity ≠ 0 ∧ weightOf .real t.postings pr.cur ≠ 0 ∧
    (∀ e, weightOf .real t.postings e ≠ 0 → e = pr.commodity ∨ e = pr.cur) ∧
    pr.amount * |weightOf .real t.postings pr.commodity| = |weightOf .real t.postings pr.cur|
  | none => ¬ ∃ c d, c ≠ d ∧ weightOf .real t.postings c ≠ 0 ∧ weightOf .real t.postings d ≠ 0 ∧
      ∀ e, weightOf .real t.postings e ≠ 0 → e = c ∨ e = d

/-! ### Automated transactions -/

/-- The same posting, possibly with tags added. -/
def SameUpToTags (p q : Posting) : Prop := q = { p with tags := q.tags } ∧ p.tags <+: q.tags

/-- The same transaction, possibly with tags added to its postings. -/
def SeenAs (t u : Txn Posting) : Prop :=
  u = { t with postings := u.postings } ∧ List.Forall₂ SameUpToTags t.postings u.postings

/-- The amount a posting of a rule stands for when the rule matches the posting `p` of `t`: what is
written, if a commodity is; the amount of `p` times the number, if there is only a number; the
value of the expression otherwise, a number again scaling the amount of `p`. -/
def RuleAmount (env : Env) (cs : Commodities) (t : Txn Posting) (p : Posting) (rp : RawPosting)
    (m : Money) : Prop :=
  (∃ c n a, rp.moneyCurrency = some c ∧ c ≠ [] ∧ rp.moneyAmount = some a ∧
    Finds env.lower cs c n ∧ m = .mk a n) ∨
  (∃ x c f, rp.moneyCurrency = some [] ∧ rp.moneyAmount = some f ∧ p.amount = some (.mk x c) ∧
    m = .mk (x * f) c) ∨
  (∃ e node v cs1 cs2, rp.moneyCurrency = none ∧ rp.amountExpr = some e ∧ buildRoot env e = .ok node ∧
    eval env t node p cs1 = .ok (v, cs2) ∧
    (v = .money m ∨ ∃ r, v = .number r ∧
      ((∃ x c, p.amount = some (.mk x c) ∧ m = .mk (x * r) c) ∨ (p.amount = some .zero ∧ m = .zero))))

/-- A posting generated by the posting `rp` of a rule for the posting `p` of `t`; `l` are the lists in which
names are found. -/
structure Generated (env : Env) (l : Lists) (t : Txn Posting) (p : Posting) (rp : RawPosting)
    (q : Posting) : Prop where
  account : Finds env.lower l.accounts rp.account q.account
  amount : ∃ m, q.amount = some m ∧ RuleAmount env l.commodities t p rp m
  payee : match rp.payee with
    | none => q.payee = p.payee
    | some n => ∃ m, q.payee = some m ∧ Finds env.lower l.payees n m
  rest : q.kind = rp.kind ∧ q.origin = .automated ∧ q.cost = none ∧ q.balance = none ∧ q.tags = [] ∧
    q.comments = []

/-- What a rule does to the posting `p` of `t`: it becomes `p'`, and `block` is generated. -/
inductive RuleOn (env : Env) (l : Lists) (rule : Txn RawPosting × Ast) (t : Txn Posting) (p : Posting) :
    Posting × List Posting → Prop
  | notOwn : p.origin ≠ .fromTransaction → RuleOn env l rule t p (p, [])
  | unmatched {u cs cs'} : p.origin = .fromTransaction → SeenAs t u →
      filterExpression env u rule.2 p cs = .ok (false, cs') → RuleOn env l rule t p (p, [])
  | matched {u u' cs cs' p' block} : p.origin = .fromTransaction → SeenAs t u → SeenAs t u' →
      filterExpression env u rule.2 p cs = .ok (true, cs') →
      p' = { p with tags := p.tags ++ rule.1.comments.flatMap getTags } →
      List.Forall₂ (Generated env l u' p') rule.1.postings block → RuleOn env l rule t p (p', block)

/-- What the rules do to a transaction, one after the other: each one looks at all postings and appends
what it generates. -/
inductive RulesOn (env : Env) (l : Lists) : List (Txn RawPosting × Ast) → Txn Posting → Txn Posting → Prop
  | nil {t} : RulesOn env l [] t t
  | cons {r rs t t' rows} : List.Forall₂ (RuleOn env l r t) t.postings rows →
      RulesOn env l rs { t with postings := rows.map Prod.fst ++ rows.flatMap Prod.snd } t' →
      RulesOn env l (r :: rs) t t'

/-- The rules of a journal with their conditions. -/
def RuleNodes (env : Env) (autos : List (Txn RawPosting)) (rules : List (Txn RawPosting × Ast)) : Prop :=
  List.Forall₂ (fun a r => r.1 = a ∧ buildRoot env (getFilterQuery env a.description none).1 = .ok r.2)
    autos rules

/-- A block generated by a rule for a posting of the journal. -/
def BlockFor (env : Env) (l : Lists) (r : Txn RawPosting × Ast) (p : Posting) (block : List Posting) : Prop :=
  block = [] ∨ (p.origin = .fromTransaction ∧ ∃ u p', SameUpToTags p p' ∧
    List.Forall₂ (Generated env l u p') r.1.postings block)

/-- The price a directive stands for. -/
structure DirectivePrice (lower : Str → Str) (cs : Commodities) (p : ParsedPrice) (pr : Price) : Prop where
  date : pr.date = p.date
  commodity : Finds lower cs p.commodity pr.commodity
  amount : pr.amount = p.otherQuantity
  cur : Finds lower cs p.otherCommodity pr.cur

/-- The postings of the regular transactions that have a cost, in journal order, with their dates. -/
def ParsedLedger.costs (pl : ParsedLedger) : List (Option Date × RawPosting) :=
  pl.regular.flatMap (fun t => (t.postings.filter (fun p => p.costCurrency.isSome)).map (fun p => (t.date, p)))

/-! ### Postings as written -/

/-- The account declares a payee pattern that matches. -/
def AccountDef.takes (env : Env) (a : AccountDef) (payee : Str) : Prop :=
  ∃ pat ∈ a.payees, env.rx pat payee = true

/-- The name ends in `unknown`. -/
def EndsUnknown (env : Env) (account : Str) : Prop := "unknown".toList <:+ env.lower account

/-- The account a posting goes to: an account that takes the payee, if the written one ends in `unknown` and there
is such an account; the written one otherwise. -/
def AccountFor (env : Env) (accounts : NList AccountDef) (account payee a : Str) : Prop :=
  (EndsUnknown env account ∧ ∃ k x, (k, x) ∈ accounts.list ∧ x.takes env payee ∧ x.name = a) ∨
  ((EndsUnknown env account → ∀ k x, (k, x) ∈ accounts.list → ¬ x.takes env payee) ∧
    Finds env.lower accounts account a)

/-- An optional amount as written. -/
def MoneyAs (lower : Str → Str) (cs : Commodities) (c : Option Str) (a : Option Rat) (m : Option Money) :
    Prop :=
  (c = none ∧ m = none) ∨ ∃ x n q, c = some x ∧ a = some q ∧ Finds lower cs x n ∧ m = some (.mk q n)

/-- The posting `q` is what is written as `p` in the transaction `t`. -/
structure WrittenAs (env : Env) (l : Lists) (t : Txn RawPosting) (p : RawPosting) (q : Posting) : Prop where
  payee : ∃ n, q.payee = some n ∧ Finds env.lower l.payees (p.payee.getD t.description) n ∧
    AccountFor env l.accounts p.account n q.account
  amount : MoneyAs env.lower l.commodities p.moneyCurrency p.moneyAmount q.amount
  balance : MoneyAs env.lower l.commodities p.balanceCurrency p.balanceAmount q.balance
  cost : (p.costCurrency = none ∧ q.cost = none) ∨ ∃ c n x, p.costCurrency = some c ∧
    p.costAmount = some x ∧ Finds env.lower l.commodities c n ∧
    ((p.costType = some .total ∧ q.cost = some (.total (.mk x n))) ∨
     (p.costType = some .perUnit ∧ q.cost = some (.perUnit (.mk x n))))
  kind : q.kind = p.kind
  tags : q.tags = t.comments.flatMap getTags ++ p.comments.flatMap getTags
  origin : q.origin = .fromTransaction

/-! ### Hash orders -/

/-- The commodity is written in a posting or in a price directive. -/
def ParsedLedger.usesCommodity (pl : ParsedLedger) (c : Str) : Prop :=
  (∃ t ∈ pl.transactions, ∃ p ∈ t.postings,
    p.moneyCurrency = some c ∨ p.costCurrency = some c ∨ p.balanceCurrency = some c) ∨
  ∃ p ∈ pl.prices, p.commodity = c ∨ p.otherCommodity = c

/-- The account is written in a posting. -/
def ParsedLedger.usesAccount (pl : ParsedLedger) (a : Str) : Prop :=
  ∃ t ∈ pl.transactions, ∃ p ∈ t.postings, p.account = a

/-- The payee is that of a posting. -/
def ParsedLedger.usesPayee (pl : ParsedLedger) (n : Str) : Prop :=
  ∃ t ∈ pl.transactions, ∃ p ∈ t.postings, p.payee = some n

/-- A journal that leaves hash orders nothing to decide but the order of filled in postings and the direction of
implied rates: there are no automated transactions, no two names that are used differ in case only, at
most one declared payee has a pattern that matches a used payee, and at most one declared account
takes a payee. -/
structure OrderFree (env : Env) (pl : ParsedLedger) : Prop where
  noRules : pl.automated = []
  commodities : ∀ a b, pl.usesCommodity a → pl.usesCommodity b → env.lower a = env.lower b → a = b
  accounts : ∀ a b, pl.usesAccount a → pl.usesAccount b → env.lower a = env.lower b → a = b
  payees : ∀ a b, pl.usesPayee a → pl.usesPayee b → env.lower a = env.lower b → a = b
  patterns : ∀ n, pl.usesPayee n → ∀ x ∈ pl.lists.payees.list, ∀ y ∈ pl.lists.payees.list,
    (∃ pat ∈ x.2.aliasRx, env.rx pat n = true) → (∃ pat ∈ y.2.aliasRx, env.rx pat n = true) → x = y
  takers : ∀ n, (pl.usesPayee n ∨ ∃ e ∈ pl.lists.payees.list, e.2.name = n) →
    ∀ x ∈ pl.lists.accounts.list, ∀ y ∈ pl.lists.accounts.list,
      x.2.takes env n → y.2.takes env n → x = y

/-- The same rate, possibly in the other direction. -/
def SameRate (p q : Price) : Prop :=
  p.date = q.date ∧ ((p.commodity = q.commodity ∧ p.cur = q.cur ∧ p.amount = q.amount) ∨
    (p.commodity = q.cur ∧ p.cur = q.commodity ∧ p.amount * q.amount = 1))

/-- The same transaction, its postings possibly in another order. -/
def SamePostings (t t' : Txn Posting) : Prop :=
  t' = { t with postings := t'.postings } ∧ t'.postings.Perm t.postings

/-- The same elements under the same names. -/
def SameNames {T : Type} (l l' : NList T) : Prop :=
  (∀ k, l.list.get? k = l'.list.get? k) ∧ ∀ k, l.aliases.get? k = l'.aliases.get? k

/-- What two runs of an order free journal agree on. -/
structure SameLedger (L L' : Ledger) : Prop where
  accounts : SameNames L.accounts L'.accounts
  payees : SameNames L.payees L'.payees
  commodities : SameNames L.commodities L'.commodities
  transactions : List.Forall₂ SamePostings L.transactions L'.transactions
  prices : ∃ fixed rates rates', L.prices = fixed ++ rates ∧ L'.prices = fixed ++ rates' ∧
    List.Forall₂ SameRate rates rates'

end Dinero
