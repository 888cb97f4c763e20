import Verif.Model.Grammar
/-
Dates: the calendar behind `chrono::NaiveDate`, the date part of src/grammar/grammar.pest,
src/parser/utils.rs `parse_date` and src/app.rs `date_parser`.
-/
namespace Dinero
open P

/-! ### The calendar -/

/-- Leap years of the proleptic Gregorian calendar, which `NaiveDate` uses. -/
def isLeap (y : Int) : Bool := (decide (y % 4 = 0) && !decide (y % 100 = 0)) || decide (y % 400 = 0)

/-- The number of days of a month. -/
def daysInMonth (y : Int) (m : Nat) : Nat :=
  if m = 2 then (if isLeap y then 29 else 28)
  else if m = 4 ∨ m = 6 ∨ m = 9 ∨ m = 11 then 30 else 31

/-- The days of the year before the first of the month. -/
def daysBeforeMonth (y : Int) : Nat → Nat
  | 0 => 0
  | 1 => 0
  | m + 1 => daysBeforeMonth y m + daysInMonth y m

/-- The day number (`num_days_from_ce`) of a date. -/
def dayNumber (y : Int) (m d : Nat) : Date :=
  365 * (y - 1) + (y - 1) / 4 - (y - 1) / 100 + (y - 1) / 400 + (daysBeforeMonth y m : Int) + (d : Int)

/-- `NaiveDate::from_ymd` (chrono 0.4): panics on a date that does not exist and on years that do not fit
its representation.  A date is represented by its day number (C70 proves that this loses
nothing). -/
def fromYmd (y : Int) (m d : Nat) : Res Date :=
  if (-262144 ≤ y ∧ y ≤ 262143) ∧ (1 ≤ m ∧ m ≤ 12) ∧ (1 ≤ d ∧ d ≤ daysInMonth y m) then
    .ok (dayNumber y m d)
  else .error (.panic "invalid or out-of-range date")

/-! ### The grammar -/

/-- `ASCII_NONZERO_DIGIT`. -/
def nonzeroDigit : P := chr (fun c => decide ('1' ≤ c) && decide (c ≤ '9'))

/-- `year`, grammar.pest 30. -/
def gYear : P := rule .year (seq (opt (lit ['-'])) bigint)
/-- `date_sep`, grammar.pest 29. -/
def gDateSep : P := rule .dateSep (lits [".", "/", "-"])
/-- `month`, grammar.pest 31. -/
def gMonth : P := rule .month (alt (seq (lit ['1']) (lits ["0", "1", "2"])) (seq (opt (lit ['0'])) nonzeroDigit))
/-- `day`, grammar.pest 32-34. -/
def gDay : P := rule .day (alt (seq (lit ['3']) (lits ["0", "1"]))
  (alt (seq (lits ["1", "2"]) digit) (seq (opt (lit ['0'])) nonzeroDigit)))
/-- `date`, grammar.pest 27. -/
def gDate : P := rule .date (seq gYear (seq gDateSep (seq gMonth (seq gDateSep gDay))))

/-- `hour`, grammar.pest 35: the second alternative is the literal sequence `2`, `0`, `1`, `2`, `3`.  (The
pairs inside `time` are never looked at and are dropped.) -/
def gHour : P := alt (seq (lits ["0", "1"]) digit) (lit "20123".toList)
/-- `minute`, grammar.pest 36. -/
def gMinute : P := seq (lits ["0", "1", "2", "3", "4", "5"]) digit
/-- `second`, grammar.pest 37. -/
def gSecond : P := seq (lits ["0", "1", "2", "3", "4", "5"]) (seq digit (opt (seq (lit ['.']) bigint)))
/-- `time`, grammar.pest 28: the seconds are not optional. -/
def gTime : P := rule .time (seq gHour (seq (lit [':']) (seq gMinute (seq (lit [':']) gSecond))))

/-- `parse_date`, src/parser/utils.rs 10-21.  (`i32::from_str` also fails for years outside of its range;
`from_ymd` panics for these in any case.) -/
def parseDate (p : Pair) : Res Date :=
  match p.inner with
  | y :: s1 :: m :: s2 :: d :: _ =>
    match intOf y.text, natOf m.text, natOf d.text with
    | some y, some m, some d =>
      if s1.text = s2.text then fromYmd y m d else .error (.panic "wrong date separator")
    | _, _, _ => .error (.panic "from_str(..).unwrap()")
  | _ => .error (.panic "parsed.next().unwrap()")

/-! ### `date_parser` -/

/-- The text split before its last run of digits (`\d`, i.e. the Unicode decimal digits): what comes
before, and the digits. -/
def lastDigits (isDigit : Char → Bool) (s : Str) : Str × Str :=
  ((s.reverse.dropWhile isDigit).reverse, (s.reverse.takeWhile isDigit).reverse)

/-- A slash or dash and one or two digits (`\d\d?`) at the end: what comes before, and the digits.  A separator is no digit, so the digits are the
whole last run. -/
def lastField (isDigit : Char → Bool) (s : Str) : Option (Str × Str) :=
  let r := lastDigits isDigit s
  if r.2.length = 1 ∨ r.2.length = 2 then
    if r.1.getLast? = some '/' ∨ r.1.getLast? = some '-' then some (r.1.dropLast, r.2) else none
  else none

/-- `(\d{4})` at the end: the year group is the last four characters, whatever comes before (the
expressions are not anchored on the left). -/
def lastYear (isDigit : Char → Bool) (s : Str) : Option Str :=
  let y := (s.reverse.take 4).reverse
  if y.length = 4 ∧ y.all isDigit = true then some y else none

/-- What `RE_DATE` captures, src/app.rs 237. -/
def reDate (isDigit : Char → Bool) (s : Str) : Option (Str × Str × Str) :=
  match lastField isDigit s with
  | none => none
  | some (s', d) =>
    match lastField isDigit s' with
    | none => none
    | some (s'', m) =>
      match lastYear isDigit s'' with
      | none => none
      | some y => some (y, m, d)

/-- What `RE_MONTH` captures, src/app.rs 236. -/
def reMonth (isDigit : Char → Bool) (s : Str) : Option (Str × Str) :=
  match lastField isDigit s with
  | none => none
  | some (s', m) =>
    match lastYear isDigit s' with
    | none => none
    | some y => some (y, m)

/-- `NaiveDate::from_ymd` on parsed texts, src/app.rs 241-245 and 248-252: a Unicode digit that is not an
ASCII digit makes `parse` fail. -/
def ymdOf (y m d : Str) : Res Date :=
  match natOf y, natOf m, natOf d with
  | some y, some m, some d => fromYmd (y : Int) m d
  | _, _, _ => .error (.panic "parse().unwrap()")

/-- `date_parser`, src/app.rs 234-268; `other` is `two_timer::parse` on the rest (the start of the period it
finds). -/
def dateParser (isDigit : Char → Bool) (other : Str → Option Date) (s : Str) : Res Date :=
  match reDate isDigit s with
  | some (y, m, d) => ymdOf y m d
  | none =>
    match reMonth isDigit s with
    | some (y, m) => ymdOf y m ['1']
    | none =>
      match other s with
      | some d => .ok d
      | none => .error (.error .unexpectedInput)

end Dinero
