import Verif.Model.Money
/-
Model of src/models/transaction.rs: postings, transactions and `Transaction::balance`.
-/
namespace Dinero

/-- `chrono::NaiveDate`, as its day number (the calendar itself is in `Model/Date.lean`);
`NaiveDate` comparison and subtraction are comparison and subtraction of day numbers. -/
notation "Date" => Int

/-- `enum PostingType`, src/models/transaction.rs 133-138. -/
inductive Kind where
  | real
  | virt
  | virtBal
  deriving DecidableEq, Repr

/-- `enum PostingOrigin`, src/models/transaction.rs 50-55. -/
inductive POrigin where
  | fromTransaction
  | automated
  | periodic
  deriving DecidableEq, Repr

/-- `enum Cost`, src/models/transaction.rs 189-193. -/
inductive Cost where
  | total (m : Money)
  | perUnit (m : Money)
  deriving DecidableEq

/-- `struct Tag`, src/models/models.rs 13-19 (the `check`/`assert` lists are never read and are
dropped). -/
structure Tag where
  name : Str
  value : Option Str
  deriving DecidableEq

/-- `struct Posting`, src/models/transaction.rs 36-48.  The account and payee are represented by
their names (`Account` and `Payee` compare and hash by name, src/models/account.rs 83-101,
src/models/payee.rs 52-93); the weak pointer to the transaction is dropped (never read). -/
structure Posting where
  account : Str
  amount : Option Money := none
  balance : Option Money := none
  cost : Option Cost := none
  kind : Kind := .real
  comments : List Str := []
  tags : List Tag := []
  payee : Option Str := none
  origin : POrigin := .fromTransaction
  deriving DecidableEq

/-- `enum TransactionType`, src/models/transaction.rs 119-124. -/
inductive TType where
  | real
  | automated
  | periodic
  deriving DecidableEq, Repr

/-- `enum TransactionStatus`, src/models/transaction.rs 112-117. -/
inductive TStatus where
  | notChecked
  | internallyBalanced
  | correct
  deriving DecidableEq, Repr

/-- `struct Transaction<PostingType>`, src/models/transaction.rs 20-33.  Dropped: `cleared` and
`code` (never read after parsing) and the memo `filter_query` (see `Model/Query.lean`). -/
structure Txn (P : Type) where
  status : TStatus := .notChecked
  date : Option Date := none
  effectiveDate : Option Date := none
  description : Str := []
  payee : Option Str := none
  postings : List P := []
  comments : List Str := []
  ttype : TType := .real
  tags : List Tag := []
  deriving DecidableEq

/-- The value a posting contributes in `total_balance`, src/models/transaction.rs 219-253: note
that a per-unit cost is multiplied by -1 once more for negative amounts. -/
def totalBalanceEntry (amount : Money) (cost : Option Cost) : Res Balance :=
  match cost with
  | none => .ok (Balance.ofMoney amount)
  | some (.total t) =>
    if amount.isNegative then .ok (Balance.ofMoney t.neg) else .ok (Balance.ofMoney t)
  | some (.perUnit .zero) => .error (.panic "Cost has no currency")
  | some (.perUnit (.mk u currency)) =>
    .ok (Balance.ofMoney
      (.mk (u * amount.amount * (if amount.isNegative then -1 else 1)) currency))

/-- The fold of `total_balance` over the postings, src/models/transaction.rs 215-254: `acc + cur`
for every posting that has an amount and is of the given kind. -/
def totalBalanceLoop (kind : Kind) : List Posting → Balance → Res Balance
  | [], acc => .ok acc
  | p :: ps, acc =>
    match p.amount with
    | none => totalBalanceLoop kind ps acc
    | some m =>
      if p.kind = kind then
        match totalBalanceEntry m p.cost with
        | .error e => .error e
        | .ok cur => totalBalanceLoop kind ps (Balance.add acc cur)
      else totalBalanceLoop kind ps acc

/-- `fn total_balance`, src/models/transaction.rs 214-255. -/
def totalBalance (ps : List Posting) (kind : Kind) : Res Balance :=
  totalBalanceLoop kind ps Balance.new

/-- The value a real posting contributes to the transaction balance, the `match &p.cost` of
`Transaction::balance`, src/models/transaction.rs 326-357. -/
def balanceEntry (amount : Money) (cost : Option Cost) : Res Balance :=
  match cost with
  | none => .ok (Balance.ofMoney amount)
  | some (.total t) =>
    if amount.isNegative then .ok (Balance.ofMoney t.neg) else .ok (Balance.ofMoney t)
  | some (.perUnit .zero) => .error (.panic "Cost has no currency")
  | some (.perUnit (.mk u currency)) => .ok (Balance.ofMoney (.mk (u * amount.amount) currency))

/-- `HashMap<Rc<Account>, Balance>`: the running balance of every account. -/
abbrev Balances := HMap Str Balance

/-- The mutable variables of the posting loop of `Transaction::balance`,
src/models/transaction.rs 286-298. -/
structure LoopSt where
  balances : Balances
  tbal : Balance
  fillAccount : Str
  fillPayee : Option Str
  out : List Posting

/-- The balance assertion check, src/models/transaction.rs 308-320: passes when checks are off, when
there is no assertion, or when `Balance::from(asserted) == expected`. -/
def assertOk (skip : Bool) (asserted : Option Money) (expected : Balance) : Bool :=
  if skip then true
  else match asserted with
    | none => true
    | some b => Balance.eq (Balance.ofMoney b) expected

/-- The posting pushed to the result, src/models/transaction.rs 360-371 and 383-394 (there the
amount is `p.amount.clone()`, resp. `Some(money)`). -/
def Posting.resolve (p : Posting) (m : Money) : Posting :=
  { account := p.account, amount := some m, balance := p.balance, cost := p.cost, kind := .real,
    comments := p.comments, tags := p.tags, payee := p.payee, origin := .fromTransaction }

/-- One iteration of the posting loop of `Transaction::balance`, src/models/transaction.rs
300-400.  On `Err`/panic the (partially updated) account balances are dropped: every caller gives
up there. -/
def balanceStep (skip : Bool) (st : LoopSt) (p : Posting) : Res LoopSt :=
  if p.kind ≠ .real then .ok st
  else
    match p.amount, p.balance, skip with
    | some money, asserted, _ =>
      match st.balances.get? p.account with
      | none => .error (.panic "balances.get(account).unwrap()")
      | some had =>
        let expected := Balance.add had (Balance.ofMoney money)
        if !assertOk skip asserted expected then .error (.error .notBalanced)
        else
          match balanceEntry money p.cost with
          | .error e => .error e
          | .ok w =>
            .ok { st with
              balances := st.balances.insert p.account expected
              tbal := Balance.add st.tbal w
              out := st.out ++ [p.resolve money] }
    | none, some b, false =>
      match st.balances.get? p.account with
      | none => .error (.panic "balances.get(account).unwrap()")
      | some had =>
        match Balance.toMoney (Balance.sub (Balance.ofMoney b) had) with
        | .error e => .error e
        | .ok money =>
          .ok { st with
            balances := st.balances.insert p.account (Balance.ofMoney b)
            tbal := Balance.add st.tbal (Balance.ofMoney money)
            out := st.out ++ [p.resolve money] }
    | none, _, _ => .ok { st with fillAccount := p.account, fillPayee := p.payee }

/-- The posting loop of `Transaction::balance`, src/models/transaction.rs 300-400. -/
def balanceLoop (skip : Bool) : List Posting → LoopSt → Res LoopSt
  | [], st => .ok st
  | p :: ps, st =>
    match balanceStep skip st p with
    | .error e => .error e
    | .ok st' => balanceLoop skip ps st'

/-- The loop generating the postings on the elided account, src/models/transaction.rs 432-450,
over the entries of `-transaction_balance` in some order. -/
def fillLoop (t : Txn Posting) (account : Str) (payee : Option Str) :
    List Money → Balances → List Posting → Res (Balances × List Posting)
  | [], bals, out => .ok (bals, out)
  | money :: ms, bals, out =>
    match bals.get? account with
    | none => .error (.panic "balances.get(fill_account).unwrap()")
    | some had =>
      fillLoop t account payee ms
        (bals.insert account (Balance.add had (Balance.ofMoney money)))
        (out ++ [{ account := account, amount := some money, balance := none, cost := none,
                   kind := .real, comments := t.comments, tags := t.tags, payee := payee,
                   origin := .fromTransaction }])

/-- `Transaction::balance`, src/models/transaction.rs 281-465: returns the new account balances,
the transaction with its postings replaced, and the returned balance.  `s` is the iteration order
of the map `-transaction_balance`. -/
def Txn.balance (s : Shuf) (skip : Bool) (bals : Balances) (t : Txn Posting) :
    Res (Balances × Txn Posting × Balance) :=
  match totalBalance t.postings .virtBal with
  | .error e => .error e
  | .ok vb =>
    if !Balance.canBeZero vb then .error (.error .notBalanced)
    else
      match balanceLoop skip t.postings
          ⟨bals, Balance.new, "this will never be used".toList, none, []⟩ with
      | .error e => .error e
      | .ok st =>
        let empties := (t.postings.filter (fun p => p.kind = .real)).length - st.out.length
        let others := t.postings.filter (fun p => p.kind ≠ .real)
        if empties > 1 then .error (.error (.tooManyEmpty empties))
        else if empties = 0 then
          if Balance.canBeZero st.tbal then
            .ok (st.balances, { t with postings := st.out ++ others }, st.tbal)
          else .error (.error .notBalanced)
        else
          match fillLoop t st.fillAccount st.fillPayee
              ((s.run (Balance.neg st.tbal)).map Prod.snd) st.balances st.out with
          | .error e => .error e
          | .ok (bals', out') =>
            .ok (bals', { t with postings := out' ++ others }, Balance.new)

/-- `Transaction::is_balanced`, src/models/transaction.rs 258-260. -/
def Txn.isBalanced (t : Txn Posting) : Res Bool :=
  match totalBalance t.postings .real with
  | .error e => .error e
  | .ok b => .ok (Balance.canBeZero b)

/-- `Transaction::num_empty_postings`, src/models/transaction.rs 262-269. -/
def Txn.numEmptyPostings (t : Txn Posting) : Nat :=
  (t.postings.filter (fun p => p.amount.isNone && p.balance.isNone)).length

/-- The balancing pass of `to_ledger` over the sorted transactions, src/models/mod.rs 176-186 and
310-320 (the implied prices of lines 187-197 and 321-331 are in `Model/Ledger.lean`): balances
are threaded from one transaction to the next, the first failure aborts.  `σ i` is the hash order
met by the `i`-th transaction. -/
def balanceAll (skip : Bool) : (σ : Nat → Shuf) → Balances → List (Txn Posting) →
    Res (Balances × List (Txn Posting × Balance))
  | _, bals, [] => .ok (bals, [])
  | σ, bals, t :: ts =>
    match Txn.balance (σ 0) skip bals t with
    | .error e => .error e
    | .ok (bals', t', ret) =>
      match balanceAll skip (fun i => σ (i + 1)) bals' ts with
      | .error e => .error e
      | .ok (bals'', rest) => .ok (bals'', (t', ret) :: rest)

end Dinero
