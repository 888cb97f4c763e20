import Verif.Model.Print
/-
What `to_ledger` writes to stderr about a transaction that cannot be booked.
-/
namespace Dinero

/-- `impl Display for Balance`, src/models/balance.rs 70-78: the amounts without anything between them; `s` is the order
of the map. -/
def Balance.display (s : Shuf) (b : Balance) : Str := ((s.run b).map Prod.snd).flatMap Money.shown

/-- The lines about an asserted total, src/models/transaction.rs 311-316; `o` are the orders of the two maps. -/
def assertionText (o : Shuf × Shuf) (found : Money) (expected : Balance) : Str :=
  "Found:       ".toList ++ found.shown ++ "\nExpected:    ".toList ++ expected.display o.1 ++
    "\nDifference:  ".toList ++ (Balance.sub expected (Balance.ofMoney found)).display o.2 ++ ['\n']

/-- What a round of the posting loop of `Transaction::balance` that fails has written, src/models/transaction.rs 305-320. -/
def stepText (o : Shuf × Shuf) (skip : Bool) (st : LoopSt) (p : Posting) : Str :=
  match p.amount, p.balance, st.balances.get? p.account with
  | some money, some b, some had =>
    let expected := Balance.add had (Balance.ofMoney money)
    if assertOk skip (some b) expected then [] else assertionText o b expected
  | _, _, _ => []

/-- What the posting loop has written when it fails, src/models/transaction.rs 300-400. -/
def loopText (o : Shuf × Shuf) (skip : Bool) : List Posting → LoopSt → Str
  | [], _ => []
  | p :: ps, st =>
    match balanceStep skip st p with
    | .error _ => stepText o skip st p
    | .ok st' => loopText o skip ps st'

/-- What `Transaction::balance` has written when it fails, src/models/transaction.rs 281-465: nothing before the posting
loop (289-293) and nothing after it. -/
def balanceStderr (o : Shuf × Shuf) (skip : Bool) (bals : Balances) (t : Txn Posting) : Str :=
  match totalBalance t.postings .virtBal with
  | .error _ => []
  | .ok vb =>
    if !Balance.canBeZero vb then []
    else loopText o skip t.postings ⟨bals, Balance.new, "this will never be used".toList, none, []⟩

/-- A posting in `impl Display for Transaction<Posting>`, src/models/transaction.rs 472-486. -/
def postingText (p : Posting) : Str :=
  '\n' :: '\t' :: padRight 50 p.account ++ (match p.amount with | some m => m.shown | none => [])

/-- `impl Display for Transaction<Posting>`, src/models/transaction.rs 468-488; without a date it panics, but the passes
have looked at the date before. -/
def Txn.display (t : Txn Posting) : Str :=
  isoDate (t.date.getD 0) ++ ' ' :: t.description ++ t.postings.flatMap postingText

/-- `impl From<LedgerError> for Error`, src/error.rs 50-56: the error is written as `Debug` shows it.  Balancing has no other
errors than these two. -/
def Err.debug : Err → Str
  | .notBalanced => "TransactionIsNotBalanced".toList
  | .tooManyEmpty n => "TooManyEmptyPostings(".toList ++ digits n ++ [')']
  | _ => []

/-- What a balancing pass has written when it fails, src/models/mod.rs 177-186 and 311-320: the transaction at fault and
the error. -/
def passText (o : Shuf × Shuf) (skip : Bool) : (σ : Nat → Shuf) → Balances → List (Txn Posting) → Str
  | _, _, [] => []
  | σ, bals, t :: ts =>
    match Txn.balance (σ 0) skip bals t with
    | .error (.error e) => balanceStderr o skip bals t ++ t.display ++ '\n' :: e.debug ++ ['\n']
    | .error (.panic _) => []
    | .ok (bals', _, _) => passText o skip (fun i => σ (i + 1)) bals' ts

/-- What step 5 has written when it fails, src/models/mod.rs 201-333: the rules write nothing. -/
def automatedText (env : Env) (o : LedgerOrders) (q : Shuf × Shuf) (skip : Bool) (autos : List (Txn RawPosting))
    (ts : List (Txn Posting)) (l : Lists) : Str :=
  if autos.length > 0 then
    match ruleNodes env autos with
    | .error _ => []
    | .ok rules =>
      match automate env rules ts l with
      | .error _ => []
      | .ok (ts', l') => passText q skip o.fill2 (initialBalances l'.accounts) ts'
  else []

/-- What `to_ledger` has written when it fails, src/models/mod.rs 57-341.  Not covered: the errors of step 4, which do not
occur (C24). -/
def ledgerText (env : Env) (o : LedgerOrders) (q : Shuf × Shuf) (skip : Bool) (pl : ParsedLedger) : Str :=
  match populate env o pl with
  | .error _ => []
  | .ok l =>
    match directivePrices env l.commodities pl.prices with
    | .error _ => []
    | .ok _ =>
      match convertAll env o.unknown l pl.transactions with
      | .error _ => []
      | .ok (txns, autos, _) =>
        match sortByDate txns with
        | .error _ => []
        | .ok sorted =>
          match balancePass skip o.fill o.rate (initialBalances l.accounts) sorted with
          | .error _ => passText q skip o.fill (initialBalances l.accounts) sorted
          | .ok (ts, _) => automatedText env o q skip autos ts l

/-- What a command has written to stderr when `to_ledger` fails: an error of the ledger has no message, so
src/app.rs 223-227 adds nothing. -/
def Run.complaint (r : Run) (q : Shuf × Shuf) (skip : Bool) (path : Str) : Str :=
  match r.journal path with
  | .error _ => []
  | .ok pl => ledgerText r.env r.orders q skip pl

end Dinero
