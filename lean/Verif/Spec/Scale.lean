import Verif.Spec.Commands
/-
Journals in another unit: everything that is written as a quantity is multiplied by the same number.
-/
namespace Dinero

/-- The money `k` times. -/
def Money.times (k : Rat) : Money → Money
  | .zero => .zero
  | .mk a c => .mk (k * a) c

/-- The posting with `k` times the amount, the asserted total and the total cost.  A price per unit stays. -/
def RawPosting.times (k : Rat) (p : RawPosting) : RawPosting :=
  { p with
    moneyAmount := p.moneyAmount.map (k * ·)
    balanceAmount := p.balanceAmount.map (k * ·)
    costAmount := if p.costType = some .total then p.costAmount.map (k * ·) else p.costAmount }

/-- The transaction with `k` times every posting. -/
def Txn.times (k : Rat) (t : Txn RawPosting) : Txn RawPosting := { t with postings := t.postings.map (RawPosting.times k) }

/-- The journal with `k` times every transaction.  Price directives stay. -/
def ParsedLedger.times (k : Rat) (pl : ParsedLedger) : ParsedLedger :=
  { pl with transactions := pl.transactions.map (Txn.times k) }

/-- The posting of a ledger with `k` times the amount, the asserted total and the total cost. -/
def Posting.times (k : Rat) (p : Posting) : Posting :=
  { p with
    amount := p.amount.map (Money.times k)
    balance := p.balance.map (Money.times k)
    cost := p.cost.map (fun c => match c with | .total m => .total (m.times k) | .perUnit m => .perUnit m) }

end Dinero
