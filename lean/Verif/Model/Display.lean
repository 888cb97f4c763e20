import Verif.Model.Money
/-
Model of `impl Display for Money`, src/models/money.rs 98-139.
-/
namespace Dinero

/-- The character of a decimal digit. -/
def digitChar (n : Nat) : Char := Char.ofNat (48 + n)

/-- `format!("{}", n)` for an unsigned integer: its decimal digits. -/
def digits (n : Nat) : Str :=
  if n < 10 then [digitChar n] else digits (n / 10) ++ [digitChar (n % 10)]
  termination_by n
  decreasing_by omega

/-- `format!("{}", z)` for a signed integer. -/
def fmtInt (z : Int) : Str := if z < 0 then '-' :: digits z.natAbs else digits z.natAbs

/-- `format!("{:0width$}", n)`: zero padding on the left. -/
def padZero (width : Nat) (n : Nat) : Str :=
  List.replicate (width - (digits n).length) '0' ++ digits n

/-- `u64::from_str` on a string of digits (at most 9 of them here, so it fits). -/
def parseDigits (s : Str) : Nat := s.foldl (fun n c => 10 * n + (c.toNat - 48)) 0

/-- `BigRational::trunc`: rounding towards zero. -/
def ratTrunc (a : Rat) : Int := a.num.tdiv a.den

/-- `10i32.pow(exp)`: overflows (a panic in debug builds) from `10^10` on, src/models/money.rs 107. -/
def pow10i32 (exp : Nat) : Res Int :=
  if exp < 10 then .ok (10 ^ exp) else .error (.panic "attempt to multiply with overflow")

/-- The number printed by `impl Display for Money`, src/models/money.rs 102-134 (everything before
the commodity name): `decimals` is the precision of the commodity. -/
def displayNumber (amount : Rat) (decimals : Nat) : Res Str :=
  match pow10i32 (decimals + 2) with
  | .error e => .error e
  | .ok p =>
    let integerPart := ratTrunc amount
    let fract := amount - integerPart
    let decimalPart := ratTrunc |fract * p|
    let decimalStr := (padZero (decimals + 2) decimalPart.natAbs).take (decimals + 1)
    let v := parseDigits decimalStr
    let decimal := if v % 10 ≥ 5 then v / 10 + 1 else v / 10
    if (digits decimal).length = decimals + 1 then
      let integerPart := if integerPart > 0 then integerPart + 1 else integerPart - 1
      .ok (fmtInt integerPart ++ '.' :: padZero decimals 0)
    else .ok (fmtInt integerPart ++ '.' :: padZero decimals decimal)

/-- `impl Display for Money`, src/models/money.rs 98-139: `precision` gives the precision of a
commodity (`Currency::get_precision`, src/models/currency.rs 59-64, 2 unless set). -/
def Money.display (precision : Cur → Nat) : Money → Res Str
  | .zero => .ok ['0']
  | .mk a c =>
    match displayNumber a (precision c) with
    | .error e => .error e
    | .ok n => .ok (n ++ ' ' :: c)

end Dinero
