import Verif.Model.Query
import Verif.Model.Price
import Verif.Model.Comment
/-
Model of the reports: src/commands/balance.rs, src/commands/register.rs and the list commands
src/commands/{accounts,payees,commodities,prices}.rs, from an already built ledger on.  Reports are
modelled as lists of structured lines: column widths, colours and the clipping of long payee names are
not modelled; how an amount is written is in `Model/Display.lean`.
-/
namespace Dinero

/-- `struct Ledger`, src/models/mod.rs 38-44. -/
structure Ledger where
  accounts : NList AccountDef := {}
  commodities : Commodities := {}
  transactions : List (Txn Posting) := []
  prices : List Price := []
  payees : NList PayeeDef := {}

/-- The options of `CommonOpts`, src/app.rs 60-120, that the reports read. -/
structure ReportOpts where
  filter : FilterOpts := {}
  query : List Str := []
  depth : Option Nat := none
  exchange : Option Str := none
  forceColor : Bool := false

/-- The body of the posting loop, src/commands/balance.rs 44-49. -/
def collectPosting (bals : Balances) (p : Posting) : Res Balances :=
  match p.amount with
  | none => .error (.panic "p.amount.as_ref().unwrap()")
  | some m => .ok (bals.insert p.account
      (Balance.add ((bals.get? p.account).getD Balance.new) (Balance.ofMoney m)))

/-- The loop over the postings of one transaction, src/commands/balance.rs 40-50. -/
def collectPostings (env : Env) (o : FilterOpts) (node : Option Ast) (t : Txn Posting) :
    List Posting → Balances → Commodities → Res (Balances × Commodities)
  | [], bals, st => .ok (bals, st)
  | p :: ps, bals, st =>
    match filterPosting env o node t p st with
    | .error e => .error e
    | .ok (false, st') => collectPostings env o node t ps bals st'
    | .ok (true, st') =>
      match collectPosting bals p with
      | .error e => .error e
      | .ok bals' => collectPostings env o node t ps bals' st'

/-- The loop over the transactions, src/commands/balance.rs 39-51. -/
def collectAll (env : Env) (o : FilterOpts) (node : Option Ast) :
    List (Txn Posting) → Balances → Commodities → Res (Balances × Commodities)
  | [], bals, st => .ok (bals, st)
  | t :: ts, bals, st =>
    match collectPostings env o node t t.postings bals st with
    | .error e => .error e
    | .ok (bals', st') => collectAll env o node ts bals' st'

/-- `Vec<String>::join(":")`. -/
def joinColon : List Str → Str
  | [] => []
  | [part] => part
  | part :: parts => part ++ ':' :: joinColon parts

/-- `account.split(":").count()`. -/
def parts (name : Str) : Nat := (splitColon name).length

/-- `account.split(":").last().unwrap()`. -/
def lastPart (name : Str) : Str := (splitColon name).getLast?.getD []

/-- `a.matches(":").count()`. -/
def colons (name : Str) : Nat := name.count ':'

/-- `String::cmp` as a sorting test. -/
def strLe (a b : Str) : Bool := !decide (b < a)

/-- The inner loop collecting the ancestors of an account, src/commands/balance.rs 63-70. -/
def prefixLoop : List Str → Str → List Str → List Str
  | [], _, accounts => accounts
  | part :: rest, pattern, accounts =>
    let pattern := (if pattern = [] then pattern else pattern ++ [':']) ++ part
    prefixLoop rest pattern (setInsert accounts pattern)

/-- The set `accounts`, src/commands/balance.rs 62-72. -/
def treeAccounts (bals : List (Str × Balance)) : List Str :=
  bals.foldl (fun acc e => prefixLoop (splitColon e.1) [] acc) []

/-- The initial `new_balances`, src/commands/balance.rs 71. -/
def ownBalances (bals : List (Str × Balance)) : Balances :=
  bals.foldl (fun acc e => HMap.insert acc e.1 e.2) []

/-- Is `name` the account itself or below it (`(x.0 == account) | x.0.starts_with(&prefix)`),
src/commands/balance.rs 83? -/
def inSubtree (account name : Str) : Bool :=
  name == account || (account ++ [':']).isPrefixOf name

/-- One round of the roll-up, src/commands/balance.rs 78-86; `s` is the order in which
`new_balances` is read. -/
def rollStep (s : Str → Shuf) (nb : Balances) (account : Str) : Balances :=
  nb.insert account
    ((((s account).run nb).filter (fun e => inSubtree account e.1)).foldl
      (fun acc e => Balance.add acc e.2) Balance.new)

/-- The hash orders met by one balance report. -/
structure BalOrders where
  /-- of `balances`, at each of its iterations -/
  own : Shuf
  group : Shuf
  total : Shuf
  /-- of the set `accounts` -/
  accounts : Shuf
  /-- of `new_balances`, when the given account is summed up, and at the end -/
  roll : Str → Shuf
  rows : Shuf
  /-- inside `conversion` -/
  conv : ConvOrders
  /-- of the balance of an account, when it is converted and when it is printed -/
  convRow : Str → Shuf
  shown : Str → Shuf
  convTotal : Shuf
  shownTotal : Shuf

/-- The rows of the tree report, src/commands/balance.rs 61-91. -/
def treeRows (o : BalOrders) (bals : Balances) : List (Str × Balance) :=
  let accounts := sortBy (fun a b => decide (colons a ≤ colons b))
    (o.accounts.run (treeAccounts (o.own.run bals)))
  let nb := accounts.foldl (rollStep o.roll) (ownBalances (o.own.run bals))
  (o.rows.run nb).filter (fun e => !e.2.isZero)

/-- The loop merging neighbours of the same name, src/commands/balance.rs 113-124: `account` is the
name of the previous entry, the result is kept in reverse. -/
def mergeLoop : List (Str × Balance) → Str → List (Str × Balance) → Res (List (Str × Balance))
  | [], _, acc => .ok acc.reverse
  | (name, value) :: rest, account, acc =>
    if name ≠ account then mergeLoop rest name ((name, value) :: acc)
    else
      match acc with
      | [] => .error (.panic "vec_balances[n - 1]")
      | (_, b) :: acc' => mergeLoop rest name ((name, Balance.add b value) :: acc')

/-- The rows of the flat report, src/commands/balance.rs 92-133. -/
def flatRows (o : BalOrders) (depth : Option Nat) (bals : Balances) : Res (List (Str × Balance)) :=
  match depth with
  | some d =>
    mergeLoop (sortBy (fun a b => strLe a.1 b.1)
      (((o.group.run bals).filter (fun e => !e.2.isZero)).map
        (fun e => (joinColon ((splitColon e.1).take d), e.2)))) [] []
  | none => .ok ((o.own.run bals).filter (fun e => !e.2.isZero))

/-- The loop converting the rows, src/commands/balance.rs 145-151. -/
def convertRows (s : Str → Shuf) (ms : HMap Cur Rat) (target : Cur) :
    List (Str × Balance) → Res (List (Str × Balance))
  | [] => .ok []
  | (name, b) :: rest =>
    match convertBalance (s name) b ms target with
    | .error e => .error e
    | .ok b' =>
      match convertRows s ms target rest with
      | .error e => .error e
      | .ok rest' => .ok ((name, b') :: rest')

/-- One printed line: the amounts in the order printed, the indentation and the label. -/
structure BalLine where
  amounts : List Money
  indent : Nat
  label : Str
  deriving DecidableEq

/-- The inner loop looking for a second child, src/commands/balance.rs 207-217: is `collapse` still
true afterwards? -/
def noSibling (account : Str) (n : Nat) : List (Str × Balance) → Bool
  | [] => true
  | (name, _) :: rest =>
    if !account.isPrefixOf name then true
    else if parts name = n + 1 then false
    else noSibling account n rest

/-- The collapsing loop, src/commands/balance.rs 200-226: the label and the rows left to print. -/
def collapseLoop (account : Str) : List (Str × Balance) → Nat → Str → Str × List (Str × Balance)
  | [], _, text => (text, [])
  | next :: rest, n, text =>
    if parts next.1 ≠ n + 1 then (text, next :: rest)
    else if noSibling account n rest then
      collapseLoop account rest (n + 1) (text ++ ':' :: lastPart next.1)
    else (text, next :: rest)

/-- The depth test, src/commands/balance.rs 162-167. -/
def tooDeep (depth : Option Nat) (account : Str) : Bool :=
  match depth with
  | some d => decide (parts account > d)
  | none => false

/-- The printing loop, src/commands/balance.rs 156-230.  The first argument bounds the number of
rounds (`index` grows in every round, so the number of rows suffices). -/
def printLoop (flat : Bool) (depth : Option Nat) (s : Str → Shuf) :
    Nat → List (Str × Balance) → List BalLine
  | 0, _ => []
  | _, [] => []
  | k + 1, (account, bal) :: rest =>
    if tooDeep depth account then
      printLoop flat depth s k rest
    else if bal.isZero then printLoop flat depth s k rest
    else
      let amounts := ((s account).run bal).map Prod.snd
      if flat then ⟨amounts, 0, account⟩ :: printLoop flat depth s k rest
      else
        let (text, rest') := collapseLoop account rest (parts account) (lastPart account)
        ⟨amounts, parts account, text⟩ :: printLoop flat depth s k rest'

/-- The printed report: its lines and the amounts of the total, if it is printed (an empty list
is printed as `0`). -/
structure BalReport where
  lines : List BalLine
  total : Option (List Money)
  deriving DecidableEq

/-- The sum over all accounts, src/commands/balance.rs 235-237. -/
def grandTotal (s : Shuf) (bals : Balances) : Balance :=
  (s.run bals).foldl (fun acc e => Balance.add acc e.2) Balance.new

/-- The exchange option, src/commands/balance.rs 135-152: the commodity asked for, if it is given and
known, with the table of multipliers. -/
def exchangeTable (env : Env) (o : BalOrders) (today : Date) (l : Ledger) (st : Commodities)
    (exchange : Option Str) : Res (Option (Cur × HMap Cur Rat)) :=
  match exchange with
  | none => .ok none
  | some x =>
    match st.get env.lower x with
    | .error (.panic w) => .error (.panic w)
    | .error (.error _) => .ok none
    | .ok c =>
      match conversion o.conv c.name today l.prices with
      | .error e => .error e
      | .ok ms => .ok (some (c.name, ms))

/-- Printing of the rows and of the total, src/commands/balance.rs 154-265. -/
def finishBalance (o : BalOrders) (flat showTotal : Bool) (depth : Option Nat) (bals : Balances)
    (table : Option (Cur × HMap Cur Rat)) (rows : List (Str × Balance)) : Res BalReport :=
  let sorted := sortBy (fun a b => strLe a.1 b.1) rows
  let lines := printLoop flat depth o.shown sorted.length sorted
  if showTotal && lines.length > 1 then
    match (match table with
      | some (target, ms) =>
        if ms.length > 0 then convertBalance o.convTotal (grandTotal o.total bals) ms target
        else .ok (grandTotal o.total bals)
      | none => .ok (grandTotal o.total bals) : Res Balance) with
    | .error e => .error e
    | .ok total =>
      .ok ⟨lines, some (if total.isZero then [] else (o.shownTotal.run total).map Prod.snd)⟩
  else .ok ⟨lines, none⟩

/-- `balance::execute`, src/commands/balance.rs 17-268, on a built ledger. -/
def balanceReport (env : Env) (o : BalOrders) (today : Date) (opts : ReportOpts)
    (flat showTotal : Bool) (l : Ledger) : Res BalReport :=
  match queryNode env opts.query with
  | .error e => .error e
  | .ok node =>
    match collectAll env opts.filter node l.transactions [] l.commodities with
    | .error e => .error e
    | .ok (bals, st) =>
      match (if flat then flatRows o opts.depth bals else .ok (treeRows o bals) :
          Res (List (Str × Balance))) with
      | .error e => .error e
      | .ok rows =>
        match exchangeTable env o today l st opts.exchange with
        | .error e => .error e
        | .ok none => finishBalance o flat showTotal opts.depth bals none rows
        | .ok (some (target, ms)) =>
          match convertRows o.convRow ms target rows with
          | .error e => .error e
          | .ok rows' => finishBalance o flat showTotal opts.depth bals (some (target, ms)) rows'

/-- `Transaction::get_payee`, src/models/transaction.rs 88-103: the payee is looked up by the
description, and added to the list when missing (the lookup then finds it). -/
def getPayee (env : Env) (t : Txn Posting) (payees : NList PayeeDef) : Res (Str × NList PayeeDef) :=
  match payees.get env.lower t.description with
  | .ok x => .ok (x.name, payees)
  | .error (.panic w) => .error (.panic w)
  | .error (.error _) =>
    .ok (t.description, payees.insert env.lower { name := t.description })

/-- One register line: date and payee (on the first line of a transaction), account, kind, amount
and the running total in the order printed. -/
structure RegLine where
  header : Option (Date × Str)
  account : Str
  kind : Kind
  amount : Money
  running : List Money
  deriving DecidableEq

/-- The mutable variables of `register::execute`. -/
structure RegState where
  balance : Balance := Balance.new
  commodities : Commodities := {}
  payees : NList PayeeDef := {}
  lines : List RegLine := []

/-- The running total after a posting, src/commands/register.rs 76-79. -/
def registerAdd (b : Balance) (m : Money) : Balance :=
  let b' := Balance.add b (Balance.ofMoney m)
  if b'.isZero then Balance.ofMoney .zero else b'

/-- The body of the posting loop, src/commands/register.rs 57-123, for a posting that passes the
filter; `s` is the order in which the running total is printed. -/
def registerPosting (env : Env) (s : Shuf) (t : Txn Posting) (counter : Nat) (p : Posting)
    (st : RegState) : Res RegState :=
  match (if counter = 0 then
      match t.date with
      | none => .error (.panic "t.date.unwrap()")
      | some d =>
        match getPayee env t st.payees with
        | .error e => .error e
        | .ok (payee, payees) => .ok (some (d, payee), payees)
    else .ok (none, st.payees) : Res (Option (Date × Str) × NList PayeeDef)) with
  | .error e => .error e
  | .ok (header, payees) =>
    match p.amount with
    | none => .error (.panic "p.amount.as_ref().unwrap()")
    | some m =>
      let b := registerAdd st.balance m
      .ok { st with
        balance := b
        payees := payees
        lines := st.lines ++ [⟨header, p.account, p.kind, m, (s.run b).map Prod.snd⟩] }

/-- The loop over the postings of one transaction, src/commands/register.rs 52-124. -/
def registerPostings (env : Env) (s : Nat → Shuf) (o : FilterOpts) (node : Option Ast)
    (t : Txn Posting) : List Posting → Nat → RegState → Res RegState
  | [], _, st => .ok st
  | p :: ps, counter, st =>
    match filterPosting env o node t p st.commodities with
    | .error e => .error e
    | .ok (false, c) => registerPostings env s o node t ps counter { st with commodities := c }
    | .ok (true, c) =>
      match registerPosting env (s st.lines.length) t counter p { st with commodities := c } with
      | .error e => .error e
      | .ok st' => registerPostings env s o node t ps (counter + 1) st'

/-- The loop over the transactions, src/commands/register.rs 52-125. -/
def registerAll (env : Env) (s : Nat → Shuf) (o : FilterOpts) (node : Option Ast) :
    List (Txn Posting) → RegState → Res RegState
  | [], st => .ok st
  | t :: ts, st =>
    match registerPostings env s o node t t.postings 0 st with
    | .error e => .error e
    | .ok st' => registerAll env s o node ts st'

/-- `register::execute`, src/commands/register.rs 12-129, on a built ledger: the printed lines;
`s i` is the order in which the running total of line `i` is printed. -/
def registerReport (env : Env) (s : Nat → Shuf) (opts : ReportOpts) (l : Ledger) :
    Res (List RegLine) :=
  match queryNode env opts.query with
  | .error e => .error e
  | .ok node =>
    match registerAll env s opts.filter node l.transactions
        { commodities := l.commodities, payees := l.payees } with
    | .error e => .error e
    | .ok st => .ok st.lines

/-- The list commands, src/commands/accounts.rs 8-23, src/commands/payees.rs 7-22 and
src/commands/commodities.rs 7-22: the names of the values of the map in hash order `s`, sorted. -/
def listCommand {T : Type} [Named T] (s : Shuf) (l : NList T) : List Str :=
  (sortBy (fun a b => strLe (Named.name a) (Named.name b)) ((s.run l.list).map Prod.snd)).map
    Named.name

end Dinero
