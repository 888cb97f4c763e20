import Verif.Model.Report
/-
Model of src/models/mod.rs 54-470: from the parsed journal to the ledger.
-/
namespace Dinero

/-- `enum PriceType`, src/models/price.rs. -/
inductive PriceType where
  | total
  | perUnit
  deriving DecidableEq

/-- `struct RawPosting`, src/parser/tokenizers/transaction.rs 174-188. -/
structure RawPosting where
  account : Str
  moneyAmount : Option Rat := none
  moneyCurrency : Option Str := none
  costAmount : Option Rat := none
  costCurrency : Option Str := none
  costType : Option PriceType := none
  balanceAmount : Option Rat := none
  balanceCurrency : Option Str := none
  comments : List Str := []
  amountExpr : Option Str := none
  kind : Kind := .real
  payee : Option Str := none
  deriving DecidableEq

/-- `struct ParsedPrice`, src/models/models.rs 5-11. -/
structure ParsedPrice where
  date : Date
  commodity : Str
  otherCommodity : Str
  otherQuantity : Rat
  deriving DecidableEq

/-- The three name lists, the mutable state of `to_ledger`. -/
structure Lists where
  accounts : NList AccountDef := {}
  payees : NList PayeeDef := {}
  commodities : Commodities := {}

/-- `struct ParsedLedger`, src/parser/mod.rs 32-41. -/
structure ParsedLedger where
  lists : Lists := {}
  transactions : List (Txn RawPosting) := []
  prices : List ParsedPrice := []
  comments : List Str := []
  tags : List Str := []

/-- The hash orders met by `to_ledger`. -/
structure LedgerOrders where
  /-- of the sets of names -/
  commodities : Shuf
  accounts : Shuf
  payees : Shuf
  /-- of `payees_copy` -/
  patterns : Shuf
  /-- of the accounts, when an `unknown` account is looked for -/
  unknown : Shuf
  /-- inside `balance`, and of the balance an implied price is taken from, in both passes -/
  fill : Nat → Shuf
  rate : Nat → Shuf
  fill2 : Nat → Shuf
  rate2 : Nat → Shuf

/-! ### 1. The names used -/

/-- Inserting the present ones of some names. -/
def setInsertAll (s : List Str) (names : List (Option Str)) : List Str :=
  names.foldl (fun s n => match n with | some n => setInsert s n | none => s) s

/-- All postings, src/models/mod.rs 64-65. -/
def ParsedLedger.postings (pl : ParsedLedger) : List RawPosting :=
  pl.transactions.flatMap (fun t => t.postings)

/-- `account_strs`, src/models/mod.rs 66. -/
def ParsedLedger.accountStrs (pl : ParsedLedger) : List Str :=
  setInsertAll [] (pl.postings.map (fun p => some p.account))

/-- `payee_strs`, src/models/mod.rs 67-69. -/
def ParsedLedger.payeeStrs (pl : ParsedLedger) : List Str :=
  setInsertAll [] (pl.postings.map (fun p => p.payee))

/-- `commodity_strs`, src/models/mod.rs 71-85. -/
def ParsedLedger.commodityStrs (pl : ParsedLedger) : List Str :=
  setInsertAll
    (setInsertAll [] (pl.postings.flatMap
      (fun p => [p.moneyCurrency, p.costCurrency, p.balanceCurrency])))
    (pl.prices.flatMap (fun p => [some p.commodity, some p.otherCommodity]))

/-! ### 2. Missing names are added -/

/-- `match list.get(&alias) { Ok(_) => {}, Err(_) => list.insert(From(alias)) }`, src/models/mod.rs 92-95,
99-102, 233-238, 240-245 and 267-272; `make` is `From<&str>`. -/
def NList.ensure {T : Type} [Named T] (lower : Str → Str) (make : Str → T) (l : NList T) (name : Str) :
    Res (NList T) :=
  match l.get lower name with
  | .ok _ => .ok l
  | .error (.panic w) => .error (.panic w)
  | .error (.error _) => .ok (l.insert lower (make name))

/-- The loops over the names, src/models/mod.rs 91-96 and 98-103. -/
def NList.ensureAll {T : Type} [Named T] (lower : Str → Str) (make : Str → T) :
    List Str → NList T → Res (NList T)
  | [], l => .ok l
  | n :: ns, l =>
    match l.ensure lower make n with
    | .error e => .error e
    | .ok l' => ensureAll lower make ns l'

/-- `Account::from`, src/models/account.rs 105-120. -/
def accountOf (name : Str) : AccountDef := { name := name }
/-- `Payee::from`, src/models/payee.rs 94-104. -/
def payeeOf (name : Str) : PayeeDef := { name := name }
/-- `Currency::from`, src/models/currency.rs 86-98. -/
def currencyOf (name : Str) : CurrencyDef := { name := name }

/-- The declared payee with a matching pattern, src/models/mod.rs 115-124: the first one in the order of
the map. -/
def findPattern (env : Env) (s : Shuf) (copy : NList PayeeDef) (name : Str) : Option PayeeDef :=
  ((s.run copy.list).map Prod.snd).find? (fun p => p.aliasRx.any (fun pat => env.rx pat name))

/-- The loop over the payee names, src/models/mod.rs 107-132. -/
def popPayees (env : Env) (s : Shuf) (copy : NList PayeeDef) :
    List Str → NList PayeeDef → Res (NList PayeeDef)
  | [], l => .ok l
  | n :: ns, l =>
    match l.get env.lower n with
    | .ok _ => popPayees env s copy ns l
    | .error (.panic w) => .error (.panic w)
    | .error (.error _) =>
      match findPattern env s copy n with
      | none => popPayees env s copy ns (l.insert env.lower (payeeOf n))
      | some p =>
        match l.addAlias env.lower n p with
        | .error e => .error e
        | .ok l' => popPayees env s copy ns l'

/-- Steps 1 and 2, src/models/mod.rs 58-132. -/
def populate (env : Env) (o : LedgerOrders) (pl : ParsedLedger) : Res Lists :=
  match pl.lists.commodities.ensureAll env.lower currencyOf (o.commodities.run pl.commodityStrs) with
  | .error e => .error e
  | .ok cs =>
    match pl.lists.accounts.ensureAll env.lower accountOf (o.accounts.run pl.accountStrs) with
    | .error e => .error e
    | .ok acs =>
      match popPayees env o.patterns pl.lists.payees (o.payees.run pl.payeeStrs) pl.lists.payees with
      | .error e => .error e
      | .ok ps => .ok { accounts := acs, payees := ps, commodities := cs }

/-! ### 3. Prices -/

/-- `self.commodities.get(..).unwrap()`: the name of the commodity. -/
def commodityNamed (env : Env) (cs : Commodities) (name : Str) : Res Cur :=
  match cs.get env.lower name with
  | .ok c => .ok c.name
  | .error _ => .error (.panic "self.commodities.get(..).unwrap()")

/-- The prices of the price directives, src/models/mod.rs 135-152. -/
def directivePrices (env : Env) (cs : Commodities) : List ParsedPrice → Res (List Price)
  | [] => .ok []
  | p :: ps =>
    match commodityNamed env cs p.commodity with
    | .error e => .error e
    | .ok c =>
      match commodityNamed env cs p.otherCommodity with
      | .error e => .error e
      | .ok d =>
        match directivePrices env cs ps with
        | .error e => .error e
        | .ok rest => .ok (⟨p.date, c, p.otherQuantity, d⟩ :: rest)

/-! ### 4. Transactions -/

/-- The payee of a posting, src/models/mod.rs 371-374 and src/models/transaction.rs 104-109. -/
def postingPayee (env : Env) (payees : NList PayeeDef) (description : Str) (p : RawPosting) : Res Str :=
  match p.payee with
  | none =>
    match payees.get env.lower description with
    | .ok x => .ok x.name
    | .error _ => .error (.panic "Payee not found")
  | some n =>
    match payees.get env.lower n with
    | .ok x => .ok x.name
    | .error _ => .error (.panic "self.payees.get(x).unwrap()")

/-- The account with a matching payee pattern, src/models/mod.rs 376-384: `break` only leaves the inner
loop, so the last one in the order of the map wins. -/
def redirect (env : Env) (s : Shuf) (accounts : NList AccountDef) (payee : Str) : Option AccountDef :=
  (s.run accounts.list).foldl
    (fun acc e => if e.2.payees.any (fun pat => env.rx pat payee) then some e.2 else acc) none

/-- `p.account.to_lowercase().ends_with("unknown")`, src/models/mod.rs 375. -/
def isUnknown (env : Env) (account : Str) : Bool := "unknown".toList.isSuffixOf (env.lower account)

/-- The account of a posting, src/models/mod.rs 375-391. -/
def postingAccount (env : Env) (s : Shuf) (accounts : NList AccountDef) (account payee : Str) :
    Res Str :=
  match (if isUnknown env account then redirect env s accounts payee else none) with
  | some a => .ok a.name
  | none =>
    match accounts.get env.lower account with
    | .ok a => .ok a.name
    | .error e => .error e

/-- The amount and the asserted total of a posting, src/models/mod.rs 400-405 and 438-443. -/
def rawMoney (env : Env) (cs : Commodities) (currency : Option Str) (amount : Option Rat) :
    Res (Option Money) :=
  match currency with
  | none => .ok none
  | some c =>
    match commodityNamed env cs c with
    | .error e => .error e
    | .ok n =>
      match amount with
      | none => .error (.panic "amount.clone().unwrap()")
      | some q => .ok (some (.mk q n))

/-- The unit price of a cost, src/models/mod.rs 427-433. -/
def unitPrice (ty : PriceType) (q : Rat) (amount : Option Money) : Res Rat :=
  match ty with
  | .perUnit => ratDiv q 1
  | .total =>
    match amount with
    | none => .error (.panic "posting.amount.as_ref().unwrap()")
    | some m => ratDiv q m.amount

/-- The cost of a posting and the price it implies, src/models/mod.rs 406-437. -/
def rawCost (env : Env) (cs : Commodities) (date : Option Date) (p : RawPosting)
    (amount : Option Money) : Res (Option (Cost × Price)) :=
  match p.costCurrency with
  | none => .ok none
  | some c =>
    match p.moneyCurrency with
    | none => .error (.panic "p.money_currency.as_ref().unwrap()")
    | some mc =>
      match commodityNamed env cs mc with
      | .error e => .error e
      | .ok pc =>
        match commodityNamed env cs c with
        | .error e => .error e
        | .ok cn =>
          match p.costAmount, p.costType, date with
          | some q, some ty, some d =>
            match unitPrice ty q amount with
            | .error e => .error e
            | .ok u =>
              .ok (some ((match ty with | .total => .total (.mk q cn) | .perUnit => .perUnit (.mk q cn)),
                ⟨d, pc, u, cn⟩))
          | _, _, _ => .error (.panic "unwrap()")

/-- One round of the posting loop of `_transaction_to_ledger`, src/models/mod.rs 370-445: the posting
and the price implied by its cost.  An amount expression is not looked at. -/
def convertPosting (env : Env) (s : Shuf) (l : Lists) (t : Txn RawPosting) (tags : List Tag)
    (p : RawPosting) : Res (Posting × Option Price) :=
  match postingPayee env l.payees t.description p with
  | .error e => .error e
  | .ok payee =>
    match postingAccount env s l.accounts p.account payee with
    | .error e => .error e
    | .ok account =>
      match rawMoney env l.commodities p.moneyCurrency p.moneyAmount with
      | .error e => .error e
      | .ok amount =>
        match rawCost env l.commodities t.date p amount with
        | .error e => .error e
        | .ok cost =>
          match rawMoney env l.commodities p.balanceCurrency p.balanceAmount with
          | .error e => .error e
          | .ok balance =>
            .ok ({ account := account, amount := amount, balance := balance,
                   cost := cost.map Prod.fst, kind := p.kind, tags := tags ++ p.comments.flatMap getTags,
                   payee := some payee, origin := .fromTransaction }, cost.map Prod.snd)

/-- The posting loop of `_transaction_to_ledger`, src/models/mod.rs 370-445. -/
def convertPostings (env : Env) (s : Shuf) (l : Lists) (t : Txn RawPosting) (tags : List Tag) :
    List RawPosting → Res (List Posting × List Price)
  | [] => .ok ([], [])
  | p :: ps =>
    match convertPosting env s l t tags p with
    | .error e => .error e
    | .ok (q, pr) =>
      match convertPostings env s l t tags ps with
      | .error e => .error e
      | .ok (qs, prs) => .ok (q :: qs, pr.toList ++ prs)

/-- `_transaction_to_ledger` on a regular transaction, src/models/mod.rs 358-453. -/
def convertTxn (env : Env) (s : Shuf) (l : Lists) (t : Txn RawPosting) :
    Res (Txn Posting × List Price) :=
  match convertPostings env s l t (t.comments.flatMap getTags) t.postings with
  | .error e => .error e
  | .ok (ps, prs) =>
    let t' : Txn Posting :=
      { date := t.date, effectiveDate := t.effectiveDate, description := t.description,
        postings := ps, comments := t.comments, ttype := .real, tags := t.comments.flatMap getTags }
    match t'.isBalanced with
    | .error e => .error e
    | .ok true => .ok ({ t' with status := .internallyBalanced }, prs)
    | .ok false => .ok (t', prs)

/-- The loop over the parsed transactions, src/models/mod.rs 160-165 with `_transaction_to_ledger`,
src/models/mod.rs 343-466: regular transactions, automated ones, prices. -/
def convertAll (env : Env) (s : Shuf) (l : Lists) :
    List (Txn RawPosting) → Res (List (Txn Posting) × List (Txn RawPosting) × List Price)
  | [] => .ok ([], [], [])
  | t :: ts =>
    match t.ttype with
    | .real =>
      match convertTxn env s l t with
      | .error e => .error e
      | .ok (t', prs) =>
        match convertAll env s l ts with
        | .error e => .error e
        | .ok (txns, autos, prices) => .ok (t' :: txns, autos, prs ++ prices)
    | .automated =>
      match convertAll env s l ts with
      | .error e => .error e
      | .ok (txns, autos, prices) => .ok (txns, t :: autos, prices)
    | .periodic => convertAll env s l ts

/-- Sorting by date, src/models/mod.rs 168.  A transaction without a date panics, here or at the
`t.date.unwrap()` of line 178. -/
def sortByDate (ts : List (Txn Posting)) : Res (List (Txn Posting)) :=
  if ts.any (fun t => t.date.isNone) then .error (.panic "date.unwrap()")
  else .ok (sortBy (fun a b => decide (a.date.getD 0 ≤ b.date.getD 0)) ts)

/-- The initial balances, src/models/mod.rs 171-174 and 305-308 (only ever read by key, so the order
is irrelevant). -/
def initialBalances (accounts : NList AccountDef) : Balances :=
  accounts.list.foldl (fun acc e => HMap.insert acc e.2.name Balance.new) []

/-- The price implied by what a transaction leaves, src/models/mod.rs 187-197 and 321-331; `s` is the
order of the balance. -/
def impliedPrice (s : Shuf) (date : Date) (b : Balance) : Res (Option Price) :=
  match s.run b with
  | [x, y] =>
    match x.2.abs.commodity, y.2.abs.commodity with
    | some c, some d =>
      match ratDiv y.2.abs.amount x.2.abs.amount with
      | .error e => .error e
      | .ok q => .ok (some ⟨date, c, q, d⟩)
    | _, _ => .error (.panic "get_commodity().unwrap()")
  | _ => .ok none

/-- The balancing pass, src/models/mod.rs 177-198 and 311-332: `Model.balanceAll` together with the
implied prices. -/
def balancePass (skip : Bool) : (σ ρ : Nat → Shuf) → Balances → List (Txn Posting) →
    Res (List (Txn Posting) × List Price)
  | _, _, _, [] => .ok ([], [])
  | σ, ρ, bals, t :: ts =>
    match t.date with
    | none => .error (.panic "t.date.unwrap()")
    | some d =>
      match Txn.balance (σ 0) skip bals t with
      | .error e => .error e
      | .ok (bals', t', ret) =>
        match impliedPrice (ρ 0) d ret with
        | .error e => .error e
        | .ok pr =>
          match balancePass skip (fun i => σ (i + 1)) (fun i => ρ (i + 1)) bals' ts with
          | .error e => .error e
          | .ok (ts', prs) => .ok (t' :: ts', pr.toList ++ prs)

/-! ### 5. Automated transactions -/

/-- The amount of a generated posting, src/models/mod.rs 251-279: `p` is the matched posting of `t`, `rp`
the posting of the rule. -/
def ruleMoney (env : Env) (t : Txn Posting) (p : Posting) (rp : RawPosting) (cs : Commodities) :
    Res (Money × Commodities) :=
  match rp.moneyCurrency with
  | none =>
    match rp.amountExpr with
    | none => .error (.panic "auto_posting.amount_expr.clone().unwrap()")
    | some e => evalValueExpression env e t p cs
  | some [] =>
    match p.amount with
    | none => .error (.panic "p.amount.clone().unwrap()")
    | some .zero => .error (.panic "get_commodity().unwrap()")
    | some (.mk a c) =>
      match rp.moneyAmount with
      | none => .error (.panic "auto_posting.money_amount.clone().unwrap()")
      | some q => .ok (.mk (a * q) c, cs)
  | some name =>
    match cs.ensure env.lower currencyOf name with
    | .error e => .error e
    | .ok cs' =>
      match commodityNamed env cs' name with
      | .error e => .error e
      | .ok c =>
        match rp.moneyAmount with
        | none => .error (.panic "auto_posting.money_amount.clone().unwrap()")
        | some q => .ok (.mk q c, cs')

/-- The payee of a generated posting, src/models/mod.rs 239-249. -/
def rulePayee (env : Env) (p : Posting) (rp : RawPosting) (payees : NList PayeeDef) :
    Res (Option Str × NList PayeeDef) :=
  match rp.payee with
  | none => .ok (p.payee, payees)
  | some n =>
    match payees.ensure env.lower payeeOf n with
    | .error e => .error e
    | .ok payees' =>
      match payees'.get env.lower n with
      | .ok x => .ok (some x.name, payees')
      | .error _ => .error (.panic "self.payees.get(&payee_alias).unwrap()")

/-- A generated posting, src/models/mod.rs 231-295. -/
def rulePosting (env : Env) (t : Txn Posting) (p : Posting) (rp : RawPosting) (l : Lists) :
    Res (Posting × Lists) :=
  match l.accounts.ensure env.lower accountOf rp.account with
  | .error e => .error e
  | .ok accounts =>
    match rulePayee env p rp l.payees with
    | .error e => .error e
    | .ok (payee, payees) =>
      match accounts.get env.lower rp.account with
      | .error _ => .error (.panic "self.accounts.get(&account_alias).unwrap()")
      | .ok a =>
        match ruleMoney env t p rp l.commodities with
        | .error e => .error e
        | .ok (m, cs) =>
          .ok ({ account := a.name, amount := some m, kind := rp.kind, payee := payee,
                 origin := .automated }, ⟨accounts, payees, cs⟩)

/-- The postings generated for one matched posting, src/models/mod.rs 231-295. -/
def rulePostings (env : Env) (t : Txn Posting) (p : Posting) :
    List RawPosting → Lists → Res (List Posting × Lists)
  | [], l => .ok ([], l)
  | rp :: rps, l =>
    match rulePosting env t p rp l with
    | .error e => .error e
    | .ok (q, l') =>
      match rulePostings env t p rps l' with
      | .error e => .error e
      | .ok (qs, l'') => .ok (q :: qs, l'')

/-- The loop over the postings of a transaction for one rule, src/models/mod.rs 215-297: the postings
already looked at (with the tags they got), those to come, the generated ones.  The transaction
seen by expressions has the current tags. -/
def ruleLoop (env : Env) (node : Ast) (rule : Txn RawPosting) (t : Txn Posting) :
    List Posting → List Posting → List Posting → Lists → Res (List Posting × List Posting × Lists)
  | done, [], extra, l => .ok (done, extra, l)
  | done, p :: todo, extra, l =>
    if p.origin ≠ .fromTransaction then ruleLoop env node rule t (done ++ [p]) todo extra l
    else
      match filterExpression env { t with postings := done ++ p :: todo } node p l.commodities with
      | .error e => .error e
      | .ok (false, cs) =>
        ruleLoop env node rule t (done ++ [p]) todo extra { l with commodities := cs }
      | .ok (true, cs) =>
        let p' := { p with tags := p.tags ++ rule.comments.flatMap getTags }
        match rulePostings env { t with postings := done ++ p' :: todo } p' rule.postings
            { l with commodities := cs } with
        | .error e => .error e
        | .ok (qs, l') => ruleLoop env node rule t (done ++ [p']) todo (extra ++ qs) l'

/-- One rule on one transaction, src/models/mod.rs 213-298. -/
def applyRule (env : Env) (rule : Txn RawPosting × Ast) (t : Txn Posting) (l : Lists) :
    Res (Txn Posting × Lists) :=
  match ruleLoop env rule.2 rule.1 t [] t.postings [] l with
  | .error e => .error e
  | .ok (ps, extra, l') => .ok ({ t with postings := ps ++ extra }, l')

/-- All rules on one transaction, src/models/mod.rs 212-302. -/
def applyRules (env : Env) : List (Txn RawPosting × Ast) → Txn Posting → Lists →
    Res (Txn Posting × Lists)
  | [], t, l => .ok (t, l)
  | r :: rs, t, l =>
    match applyRule env r t l with
    | .error e => .error e
    | .ok (t', l') => applyRules env rs t' l'

/-- The loop over the transactions, src/models/mod.rs 211-303. -/
def automate (env : Env) (rules : List (Txn RawPosting × Ast)) :
    List (Txn Posting) → Lists → Res (List (Txn Posting) × Lists)
  | [], l => .ok ([], l)
  | t :: ts, l =>
    match applyRules env rules t l with
    | .error e => .error e
    | .ok (t', l') =>
      match automate env rules ts l' with
      | .error e => .error e
      | .ok (ts', l'') => .ok (t' :: ts', l'')

/-- The expressions of the rules, src/models/mod.rs 203-209. -/
def ruleNodes (env : Env) : List (Txn RawPosting) → Res (List (Txn RawPosting × Ast))
  | [] => .ok []
  | r :: rs =>
    match buildRoot env (getFilterQuery env r.description none).1 with
    | .error e => .error e
    | .ok n =>
      match ruleNodes env rs with
      | .error e => .error e
      | .ok ns => .ok ((r, n) :: ns)

/-- Step 5, src/models/mod.rs 201-333. -/
def automatedPass (env : Env) (o : LedgerOrders) (skip : Bool) (autos : List (Txn RawPosting))
    (ts : List (Txn Posting)) (l : Lists) : Res (List (Txn Posting) × List Price × Lists) :=
  if autos.length > 0 then
    match ruleNodes env autos with
    | .error e => .error e
    | .ok rules =>
      match automate env rules ts l with
      | .error e => .error e
      | .ok (ts', l') =>
        match balancePass skip o.fill2 o.rate2 (initialBalances l'.accounts) ts' with
        | .error e => .error e
        | .ok (ts'', prs) => .ok (ts'', prs, l')
  else .ok (ts, [], l)

/-- Steps 3 to 5, src/models/mod.rs 134-341, with the populated lists. -/
def buildLedger (env : Env) (o : LedgerOrders) (skip : Bool) (pl : ParsedLedger) (l : Lists) :
    Res Ledger :=
  match directivePrices env l.commodities pl.prices with
  | .error e => .error e
  | .ok prices =>
    match convertAll env o.unknown l pl.transactions with
    | .error e => .error e
    | .ok (txns, autos, costPrices) =>
      match sortByDate txns with
      | .error e => .error e
      | .ok sorted =>
        match balancePass skip o.fill o.rate (initialBalances l.accounts) sorted with
        | .error e => .error e
        | .ok (ts, prs) =>
          match automatedPass env o skip autos ts l with
          | .error e => .error e
          | .ok (ts', prs', l') =>
            .ok { accounts := l'.accounts, commodities := l'.commodities, transactions := ts',
                  prices := prices ++ costPrices ++ prs ++ prs', payees := l'.payees }

/-- `ParsedLedger::to_ledger`, src/models/mod.rs 57-341. -/
def toLedger (env : Env) (o : LedgerOrders) (skip : Bool) (pl : ParsedLedger) : Res Ledger :=
  match populate env o pl with
  | .error e => .error e
  | .ok l => buildLedger env o skip pl l

end Dinero
