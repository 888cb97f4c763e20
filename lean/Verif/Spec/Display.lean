import Verif.Model.Money
import Mathlib.Algebra.Order.Ring.Rat
/-
What a decimal numeral denotes, and what it means to be correctly rounded.
-/
namespace Dinero

/-- The value of a string of decimal digits. -/
def digitsVal (s : Str) : Nat := s.foldl (fun n c => 10 * n + (c.toNat - 48)) 0

/-- The value of `123.45`. -/
def unsignedVal (s : Str) : Rat :=
  let int := s.takeWhile (· ≠ '.')
  let frac := (s.dropWhile (· ≠ '.')).drop 1
  digitsVal int + digitsVal frac / 10 ^ frac.length

/-- The value of `-123.45` or `123.45`. -/
def decimalVal : Str → Rat
  | '-' :: r => -unsignedVal r
  | r => unsignedVal r

/-- Number of digits after the point. -/
def fracDigits (s : Str) : Nat := ((s.dropWhile (· ≠ '.')).drop 1).length

/-- `v` is `a` rounded to `d` decimals, ties away from zero: a multiple of `10^-d`, at most half a
unit away from `a`, and when exactly half a unit away then the one with the larger magnitude. -/
structure IsRounded (d : Nat) (a v : Rat) : Prop where
  multiple : ∃ k : Int, v * 10 ^ d = k
  near : |a - v| ≤ 1 / 2 / 10 ^ d
  tie : |a - v| = 1 / 2 / 10 ^ d → |a| < |v|

end Dinero
