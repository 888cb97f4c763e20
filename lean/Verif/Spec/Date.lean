import Verif.Model.Date
import Verif.Spec.Grammar
/-
The calendar and the written form of dates, independently of day numbers.
-/
namespace Dinero

/-- A date that exists: the months have their usual lengths, February 29 days in the years divisible by 4
but not by 100, and in those divisible by 400. -/
def ValidDate (y : Int) (m d : Nat) : Prop :=
  1 ≤ d ∧ ((m ∈ [1, 3, 5, 7, 8, 10, 12] ∧ d ≤ 31) ∨ (m ∈ [4, 6, 9, 11] ∧ d ≤ 30) ∨
    (m = 2 ∧ (d ≤ 28 ∨ (d = 29 ∧ ((4 ∣ y ∧ ¬ 100 ∣ y) ∨ 400 ∣ y)))))

instance (y : Int) (m d : Nat) : Decidable (ValidDate y m d) := by unfold ValidDate; infer_instance

/-- Earlier: by year, then by month, then by day. -/
def Earlier (a b : Int × Nat × Nat) : Prop :=
  a.1 < b.1 ∨ (a.1 = b.1 ∧ (a.2.1 < b.2.1 ∨ (a.2.1 = b.2.1 ∧ a.2.2 < b.2.2)))

/-- The next day: the next of the month if it exists, else the first of the next month if there is one, else
the first of January. -/
def nextDay (y : Int) (m d : Nat) : Int × Nat × Nat :=
  if ValidDate y m (d + 1) then (y, m, d + 1)
  else if ValidDate y (m + 1) 1 then (y, m + 1, 1) else (y + 1, 1, 1)

/-- The number `n` written with one digit or two. -/
def TwoDigits (s : Str) (n : Nat) : Prop := IsDigits s ∧ s.length ≤ 2 ∧ digitsVal s = n

/-- A written date: year with an optional minus sign, month and day with one or two digits, twice the
same separator. -/
inductive WritesDate : Str → Int → Nat → Nat → Prop
  | mk {ys ms ds : Str} {m d : Nat} {sep : Char} (neg : Bool) (hy : IsDigits ys) (hm : TwoDigits ms m)
      (hd : TwoDigits ds d) (hs : sep ∈ ['.', '/', '-']) :
      WritesDate ((if neg then ['-'] else []) ++ ys ++ [sep] ++ ms ++ [sep] ++ ds)
        (if neg then -(digitsVal ys : Int) else (digitsVal ys : Int)) m d

end Dinero
