import Verif.Model.Transaction
import Verif.Spec.Balance
/-
What the postings of a transaction mean: weights, sums per account, assertions.
-/
namespace Dinero

/-- The weight of a posting: `q A` weighs `q A`; `q A @ p B` weighs `q*p B`; `q A @@ t B` weighs
`t B` with the sign of `q`. -/
def Posting.weight (p : Posting) : Money :=
  match p.amount, p.cost with
  | none, _ => .zero
  | some m, none => m
  | some m, some (.perUnit u) => u.mul m.amount
  | some m, some (.total t) => if m.amount < 0 then t.neg else t

/-- Total weight, in commodity `c`, of the postings of kind `k`. -/
def weightOf (k : Kind) (ps : List Posting) (c : Cur) : Rat :=
  sumIn ((ps.filter (fun p => p.kind = k)).map Posting.weight) c

/-- The balance test of the property list: everything is zero, or one commodity is gained while
another is given. -/
def MayBalance (f : Cur → Rat) : Prop := (∀ c, f c = 0) ∨ ∃ c d, 0 < f c ∧ f d < 0

/-- Sum, in commodity `c`, of the amounts of the real postings made to `account`. -/
def postedTo (ps : List Posting) (account : Str) (c : Cur) : Rat :=
  sumIn ((ps.filter (fun p => p.kind = .real ∧ p.account = account)).filterMap Posting.amount) c

/-- The amount of commodity `c` an account has in the running balances (0 if it is unknown). -/
def balAmt (bals : Balances) (account : Str) (c : Cur) : Rat :=
  match bals.get? account with
  | none => 0
  | some b => b.amountOf c

/-- A real posting that brings no amount of its own: no amount written, and no balance
assignment that is in force. -/
def Posting.elided (skip : Bool) (p : Posting) : Prop :=
  p.kind = .real ∧ p.amount = none ∧ (p.balance = none ∨ skip = true)

instance (skip : Bool) (p : Posting) : Decidable (p.elided skip) := by
  unfold Posting.elided; infer_instance

/-- The shape of postings built from a journal: a cost only comes with a written amount, and
both have a commodity. -/
def Posting.CostOk (p : Posting) : Prop :=
  match p.cost with
  | none => True
  | some (.total t) => (∃ q a, p.amount = some (.mk q a)) ∧ ∃ x b, t = .mk x b
  | some (.perUnit u) => (∃ q a, p.amount = some (.mk q a)) ∧ ∃ x b, u = .mk x b

/-- Running account balances as they occur: every stored balance is reachable. -/
def Balances.Ok (bals : Balances) : Prop := ∀ a b, bals.get? a = some b → b.Reachable

/-- Every asserted total in `ps` holds: starting from the amounts `start`, the sum of the postings
to the account up to and including the asserting one is the asserted amount. -/
def AssertionsHold (start : Str → Cur → Rat) (ps : List Posting) : Prop :=
  ∀ pre q post, ps = pre ++ q :: post → q.kind = .real → ∀ x d, q.balance = some (.mk x d) →
    start q.account d + postedTo (pre ++ [q]) q.account d = x

/-- Two postings that differ at most in their asserted total. -/
def EqUpToBalance (p q : Posting) : Prop := { p with balance := none } = { q with balance := none }

/-- Running balances holding the same amounts for the same accounts. -/
structure BalsEq (x y : Balances) : Prop where
  dom : ∀ a, (x.get? a).isSome = (y.get? a).isSome
  amt : ∀ a c, balAmt x a c = balAmt y a c

end Dinero
