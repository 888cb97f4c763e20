import Verif.Model.Entities
/-
Model of the evaluation of value expressions, src/parser/value_expr.rs 72-370.
-/
namespace Dinero

/-- `enum Unary`, src/parser/value_expr.rs 372-381. -/
inductive UnaryOp where
  | not | neg | abs | any | hasTag | tag | toDate
  deriving DecidableEq, Repr

/-- `enum Binary`, src/parser/value_expr.rs 383-396. -/
inductive BinaryOp where
  | add | subtract | mult | div | or | and | eq | ge | gt | le | lt
  deriving DecidableEq, Repr

/-- `enum Node`, src/parser/value_expr.rs 72-95 (a `Regex` is its pattern). -/
inductive Ast where
  | amount
  | account
  | payee
  | note
  | date
  | number (r : Rat)
  | money (currency : Str) (amount : Rat)
  | unary (op : UnaryOp) (child : Ast)
  | binary (op : BinaryOp) (lhs rhs : Ast)
  | regex (pat : Str)
  | string (s : Str)
  deriving DecidableEq

/-- `enum EvalResult`, src/parser/value_expr.rs 97-108. -/
inductive Val where
  | number (r : Rat)
  | money (m : Money)
  | bool (b : Bool)
  | account (name : Str)
  | payee (name : Str)
  | regex (pat : Str)
  | string (s : Option Str)
  | date (d : Date)
  | note
  deriving DecidableEq

/-- `Option<String>::cmp`: `None` first. -/
def optStrCmp : Option Str → Option Str → Ordering
  | none, none => .eq
  | none, some _ => .lt
  | some _, none => .gt
  | some a, some b => Money.strCmp a b

/-- `NaiveDate::cmp`. -/
def dateCmp (a b : Date) : Ordering := if a < b then .lt else if b < a then .gt else .eq

/-- `impl PartialOrd for EvalResult`, src/parser/value_expr.rs 111-135. -/
def Val.partialCmp : Val → Val → Res (Option Ordering)
  | .number l, .number r => .ok (some (Money.ratCmp l r))
  | .number l, .money r => .ok (some (Money.ratCmp l r.amount))
  | .money l, .number r => .ok (some (Money.ratCmp l.amount r))
  | .money l, .money r =>
    match Money.cmp l r with
    | .ok o => .ok (some o)
    | .error e => .error e
  | .string l, .string r => .ok (some (optStrCmp l r))
  | .date l, .date r => .ok (some (dateCmp l r))
  | _, _ => .ok none

/-- `impl PartialEq for EvalResult`, src/parser/value_expr.rs 137-166. -/
def Val.eq : Val → Val → Res Bool
  | .number l, .number r => .ok (l == r)
  | .number l, .money r => .ok (l == r.amount)
  | .number _, _ => .error (.panic "Expected number")
  | .money l, .number r => .ok (l.amount == r)
  | .money l, .money r => .ok (Money.eq l r)
  | .money _, _ => .error (.panic "Can't compare money")
  | .bool l, .bool r => .ok (l == r)
  | .bool _, _ => .error (.panic "Expected boolean")
  | .string l, .string r => .ok (l == r)
  | .string _, _ => .error (.panic "Expected string")
  | .date l, .date r => .ok (l == r)
  | .date _, _ => .error (.panic "Expected string")
  | _, _ => .error (.panic "Can't compare")

/-- `Posting::has_tag`, src/models/transaction.rs 163-170. -/
def Posting.hasTag (rx : Str → Str → Bool) (p : Posting) (pat : Str) : Bool :=
  p.tags.any (fun t => rx pat t.name)

/-- `Posting::get_tag`, src/models/transaction.rs 171-178. -/
def Posting.getTag (rx : Str → Str → Bool) (p : Posting) (pat : Str) : Option Str :=
  match p.tags.find? (fun t => rx pat t.name) with
  | some t => t.value
  | none => none

/-- `Posting::get_exact_tag`, src/models/transaction.rs 179-186. -/
def Posting.getExactTag (p : Posting) (name : Str) : Option Str :=
  match p.tags.find? (fun t => name == t.name) with
  | some t => t.value
  | none => none

/-- The commodity list threaded through evaluation (`commodities: &mut List<Currency>`). -/
abbrev Commodities := NList CurrencyDef

/-- `(l + r).to_money().unwrap()` and `(l - r).to_money().unwrap()`, src/parser/value_expr.rs 297-298. -/
def unwrapMoney (b : Balance) : Res Val :=
  match b.toMoney with
  | .ok m => .ok (.money m)
  | .error _ => .error (.panic "to_money().unwrap()")

/-- `Binary::Add | Binary::Subtract`, src/parser/value_expr.rs 283-307. -/
def evalAddSub (isAdd : Bool) : Val → Val → Res Val
  | .number l, .number r => .ok (.number (if isAdd then l + r else l - r))
  | .number _, _ => .error (.panic "Should be numbers")
  | .money l, .money r => unwrapMoney (if isAdd then Money.add l r else Money.sub l r)
  | .money _, _ => .error (.panic "Should be money")
  | _, _ => .error (.panic "Should be money")

/-- `Binary::Mult`, src/parser/value_expr.rs 308-338. -/
def evalMult : Val → Val → Res Val
  | .number l, .number r => .ok (.number (l * r))
  | .number l, .money r => .ok (.money (r.mul l))
  | .number _, _ => .error (.panic "Should be numbers")
  | .money l, .number r => .ok (.money (l.mul r))
  | .money _, _ => .error (.panic "rhs should be a number")
  | _, _ => .error (.panic "Should be numbers")

/-- `Binary::Div`, src/parser/value_expr.rs 308-338. -/
def evalDiv : Val → Val → Res Val
  | .number l, .number r =>
    match ratDiv l r with
    | .ok q => .ok (.number q)
    | .error e => .error e
  | .number _, .money _ => .error (.panic "Can't divide number by money")
  | .number _, _ => .error (.panic "Should be numbers")
  | .money l, .number r =>
    match Money.div l r with
    | .ok q => .ok (.money q)
    | .error e => .error e
  | .money _, _ => .error (.panic "rhs should be a number")
  | _, _ => .error (.panic "Should be numbers")

/-- `Binary::Or | Binary::And`, src/parser/value_expr.rs 339-365 (both operands are already
evaluated). -/
def evalBool (isOr : Bool) : Val → Val → Res Val
  | .bool l, right =>
    if l = isOr then .ok (.bool isOr)
    else match right with
      | .bool r => .ok (.bool r)
      | _ => .error (.panic "Should be booleans")
  | _, _ => .error (.panic "Should be booleans")

/-- `Binary::Eq`, src/parser/value_expr.rs 257-278.  Account and payee matching goes through the
memo `CachedName.isMatch`, proved equal to plain matching (C43). -/
def evalEq (env : Env) (t : Txn Posting) : Val → Val → Res Val
  | left, .regex pat =>
    match left with
    | .account n => .ok (.bool (env.rx pat n))
    | .payee n => .ok (.bool (env.rx pat n))
    | .string (some s) => .ok (.bool (env.rx pat s))
    | .string none => .ok (.bool false)
    | .note => .ok (.bool (t.comments.any (fun c => env.rx pat c)))
    | _ => .error (.panic "Found")
  | left, right =>
    match Val.eq left right with
    | .ok b => .ok (.bool b)
    | .error e => .error e

/-- `<`, `>`, `<=`, `>=` through `partial_cmp`, src/parser/value_expr.rs 279-282: the provided
`PartialOrd` methods answer `false` when `partial_cmp` is `None`. -/
def evalCmp (test : Ordering → Bool) (l r : Val) : Res Val :=
  match Val.partialCmp l r with
  | .ok (some o) => .ok (.bool (test o))
  | .ok none => .ok (.bool false)
  | .error e => .error e

/-- The `match op` on two evaluated operands, src/parser/value_expr.rs 256-366. -/
def evalBinary (env : Env) (t : Txn Posting) (op : BinaryOp) (l r : Val) : Res Val :=
  match op with
  | .eq => evalEq env t l r
  | .lt => evalCmp (· == .lt) l r
  | .gt => evalCmp (· == .gt) l r
  | .ge => evalCmp (· != .lt) l r
  | .le => evalCmp (· != .gt) l r
  | .add => evalAddSub true l r
  | .subtract => evalAddSub false l r
  | .mult => evalMult l r
  | .div => evalDiv l r
  | .or => evalBool true l r
  | .and => evalBool false l r

/-- The loop of `Unary::Any`, src/parser/value_expr.rs 203-219, with its early exit; `f` evaluates
the child. -/
def anyLoop (f : Posting → Commodities → Res (Val × Commodities)) :
    List Posting → Commodities → Res (Val × Commodities)
  | [], st => .ok (.bool false, st)
  | p :: ps, st =>
    match f p st with
    | .error e => .error e
    | .ok (.bool true, st') => .ok (.bool true, st')
    | .ok (.bool false, st') => anyLoop f ps st'
    | .ok _ => .error (.panic "Should evaluate to boolean")

/-- The `match op` on an evaluated operand, src/parser/value_expr.rs 197-251, except `Any`. -/
def evalUnary (env : Env) (p : Posting) (op : UnaryOp) (v : Val) : Res Val :=
  match op, v with
  | .not, .bool b => .ok (.bool (!b))
  | .not, _ => .error (.panic "Can't do neg")
  | .neg, .number n => .ok (.number (-n))
  | .neg, .money m => .ok (.money m.neg)
  | .neg, .bool b => .ok (.bool (!b))
  | .neg, _ => .error (.panic "Can't do neg")
  | .abs, .number n => .ok (.number (if n < 0 then -n else n))
  | .abs, .money .zero => .ok (.money .zero)
  | .abs, .money (.mk a c) => .ok (.money (.mk (if a < 0 then -a else a) c))
  | .abs, _ => .error (.panic "Can't do abs")
  | .hasTag, .regex pat => .ok (.bool (p.hasTag env.rx pat))
  | .hasTag, _ => .error (.panic "Expected regex")
  | .tag, .regex pat => .ok (.string (p.getTag env.rx pat))
  | .tag, .string (some s) => .ok (.string (p.getExactTag s))
  | .tag, .string none => .error (.panic "r.unwrap()")
  | .tag, _ => .error (.panic "Expected regex")
  | .toDate, .string (some s) =>
    match env.dateOf s with
    | some d => .ok (.date d)
    | none => .error (.panic "date_parser(..).unwrap()")
  | .toDate, .string none => .error (.panic "r.unwrap()")
  | .toDate, _ => .error (.panic "Expected String")
  | .any, v => .ok v

/-- `Node::Money`, src/parser/value_expr.rs 184-194: an unknown commodity is added to the list. -/
def evalMoney (env : Env) (currency : Str) (amount : Rat) (st : Commodities) :
    Res (Val × Commodities) :=
  match st.get env.lower currency with
  | .ok c => .ok (.money (.mk amount c.name), st)
  | .error (.panic w) => .error (.panic w)
  | .error (.error _) =>
    .ok (.money (.mk amount currency), st.insert env.lower { name := currency })

/-- `fn eval`, src/parser/value_expr.rs 168-370.  The regex table is not used by evaluation. -/
def eval (env : Env) (t : Txn Posting) : Ast → Posting → Commodities → Res (Val × Commodities)
  | .amount, p, st =>
    match p.amount with
    | some m => .ok (.money m, st)
    | none => .error (.panic "posting.amount.unwrap()")
  | .account, p, st => .ok (.account p.account, st)
  | .payee, p, st =>
    match p.payee with
    | some n => .ok (.payee n, st)
    | none => .error (.panic "posting.payee.unwrap()")
  | .note, _, st => .ok (.note, st)
  | .date, _, st =>
    match t.date with
    | some d => .ok (.date d, st)
    | none => .error (.panic "transaction.date.unwrap()")
  | .regex pat, _, st => .ok (.regex pat, st)
  | .string s, _, st => .ok (.string (some s), st)
  | .number r, _, st => .ok (.number r, st)
  | .money c a, _, st => evalMoney env c a st
  | .unary op child, p, st =>
    match eval env t child p st with
    | .error e => .error e
    | .ok (v, st') =>
      match op with
      | .any => anyLoop (fun q s => eval env t child q s) t.postings st'
      | op =>
        match evalUnary env p op v with
        | .ok w => .ok (w, st')
        | .error e => .error e
  | .binary op l r, p, st =>
    match eval env t l p st with
    | .error e => .error e
    | .ok (lv, st') =>
      match eval env t r p st' with
      | .error e => .error e
      | .ok (rv, st'') =>
        match evalBinary env t op lv rv with
        | .ok w => .ok (w, st'')
        | .error e => .error e

/-- `eval_value_expression` after parsing, src/parser/value_expr.rs 55-70: a number scales the
posting's amount. -/
def evalAmountNode (env : Env) (t : Txn Posting) (n : Ast) (p : Posting) (st : Commodities) :
    Res (Money × Commodities) :=
  match eval env t n p st with
  | .error e => .error e
  | .ok (.number r, st') =>
    match p.amount with
    | some m => .ok (m.mul r, st')
    | none => .error (.panic "posting.amount.unwrap()")
  | .ok (.money m, st') => .ok (m, st')
  | .ok _ => .error (.panic "Should be money.")

/-- `struct CommonOpts`, the filtering part: src/app.rs (`real`, `begin`, `end`). -/
structure FilterOpts where
  real : Bool := false
  fromDate : Option Date := none
  toDate : Option Date := none

/-- `filter_expression`, src/filter.rs 45-62. -/
def filterExpression (env : Env) (t : Txn Posting) (n : Ast) (p : Posting) (st : Commodities) :
    Res (Bool × Commodities) :=
  match eval env t n p st with
  | .error e => .error e
  | .ok (.bool b, st') => .ok (b, st')
  | .ok _ => .error (.error .notBoolean)

/-- `filter`, src/filter.rs 9-43. -/
def filterPosting (env : Env) (o : FilterOpts) (node : Option Ast) (t : Txn Posting) (p : Posting)
    (st : Commodities) : Res (Bool × Commodities) :=
  if o.real && p.kind ≠ .real then .ok (false, st)
  else
    match (match o.toDate with
      | none => (.ok false : Res Bool)
      | some d => match t.date with
        | none => .error (.panic "transaction.date.unwrap()")
        | some x => .ok (decide (x ≥ d))) with
    | .error e => .error e
    | .ok true => .ok (false, st)
    | .ok false =>
      match (match o.fromDate with
        | none => (.ok false : Res Bool)
        | some d => match t.date with
          | none => .error (.panic "transaction.date.unwrap()")
          | some x => .ok (decide (x < d))) with
      | .error e => .error e
      | .ok true => .ok (false, st)
      | .ok false =>
        match node with
        | none => .ok (true, st)
        | some n => filterExpression env t n p st

end Dinero
