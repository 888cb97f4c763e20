import Verif.Spec.Meaning
/-
What automated transactions with expressions make of a transaction.
-/
namespace Dinero

/-- The expression does not ask for tags. -/
def Ast.tagless : Ast → Bool
  | .unary .hasTag _ => false
  | .unary .tag _ => false
  | .unary _ c => c.tagless
  | .binary _ l r => l.tagless && r.tagless
  | _ => true

/-- The expression does not ask for the tags of other postings: these change while a rule is applied. -/
def Ast.steady : Ast → Bool
  | .unary .any c => c.tagless
  | .unary _ c => c.steady
  | .binary _ l r => l.steady && r.steady
  | _ => true

/-- An amount of the expression is in the commodity `c`: that of the posting, or one that is written. -/
def Ast.InCoin (env : Env) (names : Lists) (p : Posting) : Ast → Cur → Prop
  | .amount, c => ∃ x, p.amount = some (.mk x c)
  | .money d _, c => Finds env.lower names.commodities d c
  | .unary _ n, c => n.InCoin env names p c
  | .binary _ l r, c => l.InCoin env names p c ∨ r.InCoin env names p c
  | _, _ => False

/-- The rule, with its condition, is for the posting of `t`: it is one of the journal, and the condition is true of it. -/
def isFor (env : Env) (rule : Txn RawPosting × Ast) (t : Txn Posting) (p : Posting) : Bool :=
  p.origin = .fromTransaction && (rule.2.sense env t p).holds

/-- The posting with the tags of the rule, if it is for it. -/
def tagged (env : Env) (rule : Txn RawPosting × Ast) (t : Txn Posting) (p : Posting) : Posting :=
  if isFor env rule t p then { p with tags := p.tags ++ rule.1.comments.flatMap getTags } else p

/-- The posting `q` is what the posting `rp` of a rule makes of the posting `p` of `t`: on the account and of the kind
that are written, to the payee of `p`, with the amount that is written, or that of `p` times the factor that is written,
or times what the expression comes to, or what the expression comes to, if it is one of money. -/
structure Makes (env : Env) (only : Option Cur) (names : Lists) (t : Txn Posting) (p : Posting) (rp : RawPosting)
    (q : Posting) : Prop where
  account : Finds env.lower names.accounts rp.account q.account
  amount : (∃ c n a, rp.moneyCurrency = some c ∧ c ≠ [] ∧ rp.moneyAmount = some a ∧
      Finds env.lower names.commodities c n ∧ q.amount = some (.mk a n)) ∨
    (∃ x c f, rp.moneyCurrency = some [] ∧ rp.moneyAmount = some f ∧ p.amount = some (.mk x c) ∧
      q.amount = some (.mk (x * f) c)) ∨
    (∃ e n x m, rp.moneyCurrency = none ∧ rp.amountExpr = some e ∧ buildRoot env e = .ok n ∧
      n.sense env t p = .quantity x ∧ q.amount = some m ∧
      ((n.type env only.isSome = some .number ∧ ∃ b, p.amount = some b ∧ m.amount = b.amount * x ∧
          m.commodity = b.commodity) ∨
        (n.type env only.isSome = some .money ∧ m.amount = x ∧
          ∀ c, m.commodity = some c → n.InCoin env names p c)))
  rest : q = { account := q.account, amount := q.amount, kind := rp.kind, payee := p.payee, origin := .automated }

/-- What the rules make of a transaction, one after the other: the postings a rule is for get its tags, and for each of
them and each posting of the rule there is a new posting at the end. -/
inductive Ruled (env : Env) (only : Option Cur) (names : Lists) :
    List (Txn RawPosting × Ast) → Txn Posting → Txn Posting → Prop
  | nil {t} : Ruled env only names [] t t
  | cons {r rs t t' extra} :
      List.Forall₂ (fun x q => Makes env only names t x.1 x.2 q)
        ((t.postings.filter (isFor env r t)).flatMap (fun p => r.1.postings.map (fun rp => (tagged env r t p, rp)))) extra →
      Ruled env only names rs { t with postings := t.postings.map (tagged env r t) ++ extra } t' →
      Ruled env only names (r :: rs) t t'

/-- The expression is clear: it does not hold amounts of different commodities equal, nor ask for the tags of other
postings. -/
def Ast.clear (env : Env) (mono : Bool) (n : Ast) : Bool := n.apart env mono && n.steady

/-- The condition and the amounts of the rule are clear. -/
structure ClearRule (env : Env) (only : Option Cur) (r : Txn RawPosting × Ast) : Prop where
  condition : r.2.clear env only.isSome = true
  amounts : ∀ rp ∈ r.1.postings, rp.moneyCurrency = none → ∀ e n, rp.amountExpr = some e → buildRoot env e = .ok n →
    n.clear env only.isSome = true

end Dinero
