import Verif.Spec.Commands
import Mathlib.Logic.Equiv.Defs
/-
Journals with other names for the commodities.
-/
namespace Dinero

/-- The money under the new name of its commodity. -/
def Money.called (f : Str → Str) : Money → Money
  | .zero => .zero
  | .mk a c => .mk a (f c)

/-- The posting with the new names of its commodities. -/
def RawPosting.called (f : Str → Str) (p : RawPosting) : RawPosting :=
  { p with
    moneyCurrency := p.moneyCurrency.map f
    balanceCurrency := p.balanceCurrency.map f
    costCurrency := p.costCurrency.map f }

/-- The transaction with the new names of its commodities. -/
def Txn.called (f : Str → Str) (t : Txn RawPosting) : Txn RawPosting := { t with postings := t.postings.map (RawPosting.called f) }

/-- The journal with the new names of its commodities, also in price directives. -/
def ParsedLedger.called (f : Str → Str) (pl : ParsedLedger) : ParsedLedger :=
  { pl with
    transactions := pl.transactions.map (Txn.called f)
    prices := pl.prices.map (fun p => { p with commodity := f p.commodity, otherCommodity := f p.otherCommodity }) }

/-- The posting of a ledger with the new names of its commodities. -/
def Posting.called (f : Str → Str) (p : Posting) : Posting :=
  { p with
    amount := p.amount.map (Money.called f)
    balance := p.balance.map (Money.called f)
    cost := p.cost.map (fun c => match c with | .total m => .total (m.called f) | .perUnit m => .perUnit (m.called f)) }

/-- No two commodities of the journal differ in case only, and none is declared. -/
structure ParsedLedger.PlainCommodities (env : Env) (pl : ParsedLedger) : Prop where
  undeclared : pl.lists.commodities = {}
  cases : ∀ a b, pl.usesCommodity a → pl.usesCommodity b → env.lower a = env.lower b → a = b

end Dinero
