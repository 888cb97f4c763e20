import Verif.Model.Base
import Mathlib.Algebra.Order.Ring.Rat
/-
Model of src/models/money.rs and src/models/balance.rs.
-/
namespace Dinero

/-- `enum Money`, src/models/money.rs 48-54. -/
inductive Money where
  | zero
  | mk (amount : Rat) (cur : Cur)
  deriving DecidableEq

namespace Money

/-- `Money::is_zero`, src/models/money.rs 60-65. -/
def isZero : Money → Bool
  | zero => true
  | mk a _ => a == 0

/-- `Money::is_positive`, src/models/money.rs 66-71 (true for `Money::Zero`). -/
def isPositive : Money → Bool
  | zero => true
  | mk a _ => decide (0 < a)

/-- `Money::is_negative`, src/models/money.rs 72-77 (true for `Money::Zero`). -/
def isNegative : Money → Bool
  | zero => true
  | mk a _ => decide (a < 0)

/-- `Money::get_commodity`, src/models/money.rs 78-83. -/
def commodity : Money → Option Cur
  | zero => none
  | mk _ c => some c

/-- `Money::get_amount`, src/models/money.rs 84-89. -/
def amount : Money → Rat
  | zero => 0
  | mk a _ => a

/-- `impl Neg for Money`, src/models/money.rs 241-253. -/
def neg : Money → Money
  | zero => zero
  | mk a c => mk (-a) c

/-- `Money::abs`, src/models/money.rs 90-95. -/
def abs (m : Money) : Money := if m.isNegative then m.neg else m

/-- `impl PartialEq for Money`, src/models/money.rs 143-162. -/
def eq : Money → Money → Bool
  | zero, zero => true
  | zero, mk a _ => a == 0
  | mk a _, zero => a == 0
  | mk a1 c1, mk a2 c2 => a1 == a2 && c1 == c2

/-- `BigRational::cmp`. -/
def ratCmp (a b : Rat) : Ordering := if a < b then .lt else if b < a then .gt else .eq

/-- `impl Ord for Money`, src/models/money.rs 164-185: panics on two different currencies. -/
def cmp (a b : Money) : Res Ordering :=
  match a.commodity, b.commodity with
  | some c, some d =>
    if c = d then .ok (ratCmp a.amount b.amount)
    else .error (.panic "Can't compare different currencies")
  | _, _ => .ok (ratCmp a.amount b.amount)

/-- `String::cmp` on currency names (`impl Ord for Currency`, src/models/currency.rs 122-126). -/
def strCmp (a b : Str) : Ordering := if a < b then .lt else if b < a then .gt else .eq

/-- The derived `PartialOrd` of `Money` (`#[derive(PartialOrd)]`, src/models/money.rs 47): variant
order first (`Zero` before `Money`), then the fields `amount` and `currency` lexicographically. -/
def partialCmp : Money → Money → Ordering
  | zero, zero => .eq
  | zero, mk _ _ => .lt
  | mk _ _, zero => .gt
  | mk a c, mk b d => (ratCmp a b).then (strCmp c d)

/-- `impl Mul<BigRational> for Money`, src/models/money.rs 186-195. -/
def mul (m : Money) (r : Rat) : Money :=
  match m with
  | zero => zero
  | mk a c => mk (a * r) c

/-- `impl Div<BigRational> for Money`, src/models/money.rs 197-203: `self * rhs.inv()`; `inv` of
zero panics. -/
def div (m : Money) (r : Rat) : Res Money :=
  if r = 0 then .error (.panic "inverse of zero") else .ok (m.mul r⁻¹)

end Money

/-- `struct Balance`, src/models/balance.rs 10-13. -/
abbrev Balance := HMap (Option Cur) Money

namespace Balance

/-- `Balance::new`, src/models/balance.rs 16-20. -/
def new : Balance := []

/-- `impl From<Money> for Balance`, src/models/balance.rs 137-148. -/
def ofMoney : Money → Balance
  | .zero => HMap.insert [] none .zero
  | .mk a c => HMap.insert [] (some c) (.mk a c)

/-- `Balance::to_money`, src/models/balance.rs 22-33. -/
def toMoney (b : Balance) : Res Money :=
  match (b.map Prod.snd).filter (fun m => !m.isZero) with
  | [] => .ok .zero
  | [m] => .ok m
  | _ => .error (.error .notBalanced)

/-- `Balance::is_zero`, src/models/balance.rs 34-46. -/
def isZero (b : Balance) : Bool := b.all (fun e => e.2.isZero)

/-- The loop of `Balance::can_be_zero`, src/models/balance.rs 51-60, with its early return. -/
def canBeZeroLoop : Balance → Bool → Bool → Bool
  | [], _, _ => false
  | (_, m) :: rest, positive, negative =>
    let positive := m.isPositive || positive
    let negative := m.isNegative || negative
    if positive && negative then true else canBeZeroLoop rest positive negative

/-- `Balance::can_be_zero`, src/models/balance.rs 47-61. -/
def canBeZero (b : Balance) : Bool :=
  if isZero b then true else canBeZeroLoop b false false

/-- `impl Neg for Balance`, src/models/balance.rs 80-90. -/
def neg (b : Balance) : Balance :=
  b.foldl (fun acc e => HMap.insert acc e.1 e.2.neg) []

/-- One iteration of the inner loop of `impl Add for Balance`, src/models/balance.rs 99-118.
Where both stored moneys are non-zero values and the key is `None`, Rust panics
(`cur.as_ref().unwrap()`); the model leaves the map unchanged there, and `addPanics` is the
panic condition (proved impossible for balances built by the public operations). -/
def addStep (total : Balance) (cur : Option Cur) (money : Money) : Balance :=
  match total.get? cur with
  | none => total.insert cur money
  | some .zero => total.insert cur money
  | some (.mk already _) =>
    match money with
    | .zero => total
    | .mk a _ =>
      match cur with
      | some c => total.insert cur (.mk (a + already) c)
      | none => total

/-- The panic condition of one iteration of `impl Add for Balance` (line 111). -/
def addStepPanics (total : Balance) (cur : Option Cur) (money : Money) : Bool :=
  match total.get? cur, money, cur with
  | some (.mk _ _), .mk _ _, none => true
  | _, _, _ => false

/-- The two nested loops of `impl Add for Balance`, src/models/balance.rs 96-119: both operands'
entries, the left operand first. -/
def addLoop (a b : Balance) : Balance :=
  (a ++ b).foldl (fun total e => addStep total e.1 e.2) []

/-- Does some iteration of `addLoop` panic? -/
def addPanicsFrom : Balance → List (Option Cur × Money) → Bool
  | _, [] => false
  | total, e :: rest => addStepPanics total e.1 e.2 || addPanicsFrom (addStep total e.1 e.2) rest

/-- Does `a + b` panic? -/
def addPanics (a b : Balance) : Bool := addPanicsFrom [] (a ++ b)

/-- `impl Add for Balance`, src/models/balance.rs 92-125. -/
def add (a b : Balance) : Balance := (addLoop a b).filter (fun e => !e.2.isZero)

/-- `impl Sub for Balance`, src/models/balance.rs 127-134. -/
def sub (a b : Balance) : Balance := add a (neg b)

/-- `impl PartialEq for Balance`, src/models/balance.rs 150-169: iterates over the entries of the
left operand only. -/
def eq (a b : Balance) : Bool :=
  a.all (fun e =>
    match b.get? e.1 with
    | none => e.2.isZero
    | some m => Money.eq m e.2)

end Balance

/-- `impl Add for Money`, src/models/money.rs 222-230. -/
def Money.add (a b : Money) : Balance := Balance.add (Balance.ofMoney a) (Balance.ofMoney b)

/-- `impl Sub for Money`, src/models/money.rs 231-239. -/
def Money.sub (a b : Money) : Balance := Balance.sub (Balance.ofMoney a) (Balance.ofMoney b)

end Dinero
