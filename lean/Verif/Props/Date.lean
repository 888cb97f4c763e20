import Verif.Lemmas.Date
/-
Properties of dates (C70).
-/
namespace Dinero

/-- **C70**, dates in the journal: a written date that is not followed by a digit is read as a whole; it is
accepted iff it exists (and its year fits chrono), as the date with that year, month and day. -/
theorem C70_read {s k : Str} {y : Int} {m d : Nat} (h : WritesDate s y m d) (hm : 1 ≤ m ∧ m ≤ 12)
    (hd : 1 ≤ d ∧ d ≤ 31) (hk : ∀ c r, k = c :: r → ¬ ('0' ≤ c ∧ c ≤ '9')) :
    ∃ p, gDate (s ++ k) = some ([p], k) ∧ p.rule = .date ∧ parseDate p = fromYmd y m d ∧
      ((fromYmd y m d = .ok (dayNumber y m d) ∧ ValidDate y m d ∧ -262144 ≤ y ∧ y ≤ 262143) ∨
       ((fromYmd y m d).isPanic = true ∧ ¬ (ValidDate y m d ∧ -262144 ≤ y ∧ y ≤ 262143))) := by
  obtain ⟨p, h1, h2, h3⟩ := gDate_some h hm hd (k := k) (by
    intro c hc
    cases k with
    | nil => cases hc
    | cons c' r =>
      have : c' = c := by simpa using hc
      subst this
      have := hk c' r rfl
      cases hi : isDig c' with
      | false => rfl
      | true => exact absurd (isDig_iff.mp hi) this)
  refine ⟨p, h1, h2, h3, ?_⟩
  by_cases hv : (-262144 ≤ y ∧ y ≤ 262143) ∧ ValidDate y m d
  · exact .inl ⟨fromYmd_ok.mpr ⟨hv.1, hv.2, rfl⟩, hv.2, hv.1⟩
  · refine .inr ⟨?_, fun e => hv ⟨e.2, e.1⟩⟩
    rw [validDate_iff] at hv
    unfold fromYmd
    rw [if_neg hv]; rfl

example : WritesDate "2021/2/29".toList 2021 2 29 :=
  .mk (ys := "2021".toList) (ms := "2".toList) (ds := "29".toList) (sep := '/') false
    ⟨by decide, by decide⟩ ⟨⟨by decide, by decide⟩, by decide, by decide⟩
    ⟨⟨by decide, by decide⟩, by decide, by decide⟩ (by decide)
example : (fromYmd 2021 2 29).isPanic = true ∧ fromYmd 2024 2 29 = .ok 738945 := by decide +kernel

/-- **C70**: two dates compare as their years, months and days do, and are equal only if these are. -/
theorem C70_order {y y' : Int} {m m' d d' : Nat} {a b : Date} (ha : fromYmd y m d = .ok a)
    (hb : fromYmd y' m' d' = .ok b) :
    (a < b ↔ Earlier (y, m, d) (y', m', d')) ∧ (a = b ↔ (y, m, d) = (y', m', d')) := by
  obtain ⟨_, h1, rfl⟩ := fromYmd_ok.mp ha
  obtain ⟨_, h2, rfl⟩ := fromYmd_ok.mp hb
  refine ⟨dayNumber_lt_iff h1 h2, fun e => ?_, fun e => ?_⟩
  · obtain ⟨rfl, rfl, rfl⟩ := dayNumber_inj h1 h2 e; rfl
  · simp only [Prod.mk.injEq] at e; obtain ⟨rfl, rfl, rfl⟩ := e; rfl

example : fromYmd 1900 2 28 = .ok 693654 ∧ fromYmd 1900 3 1 = .ok 693655 := by decide +kernel

/-- **C70**: the dates are counted day by day, without gaps. -/
theorem C70_days {y : Int} {m d : Nat} (h : ValidDate y m d) :
    ValidDate (nextDay y m d).1 (nextDay y m d).2.1 (nextDay y m d).2.2 ∧
    dayNumber (nextDay y m d).1 (nextDay y m d).2.1 (nextDay y m d).2.2 = dayNumber y m d + 1 ∧
    dayNumber 1 1 1 = 1 := ⟨nextDay_valid y m d, dayNumber_next h, by decide⟩

example : ValidDate 2023 12 31 ∧ nextDay 2023 12 31 = (2024, 1, 1) := by decide

/-- **C70**, dates on the command line and in `to_date`: a four digit year, month and day, separated by slashes
or dashes, are that date; whatever comes before is ignored. -/
theorem C70_command_line {isDigit : Char → Bool} (hc : DigitClass isDigit) {other : Str → Option Date}
    {pre ys ms ds : Str} {m d : Nat} {s1 s2 : Char} (hy : IsDigits ys) (hl : ys.length = 4)
    (hm : TwoDigits ms m) (hd : TwoDigits ds d) (h1 : s1 = '/' ∨ s1 = '-') (h2 : s2 = '/' ∨ s2 = '-') :
    dateParser isDigit other (pre ++ ys ++ s1 :: ms ++ s2 :: ds) = fromYmd (digitsVal ys : Int) m d ∧
    dateParser isDigit other (ys ++ s1 :: ms) = fromYmd (digitsVal ys : Int) m 1 := by
  constructor
  · unfold dateParser
    rw [reDate_some hc hy hl hm hd h1 h2]
    simp only
    rw [ymdOf_digits hy hm.1 hd.1, hm.2.2, hd.2.2]
  · unfold dateParser
    have e := reMonth_some hc (pre := []) hy hl hm h1
    rw [List.nil_append] at e
    rw [reDate_none hc hy hl hm h1, e]
    simp only
    rw [ymdOf_digits hy hm.1 ⟨by decide, by decide⟩, hm.2.2]
    rfl

example : DigitClass (fun c => decide ('0' ≤ c) && decide (c ≤ '9')) :=
  ⟨fun c h => by simpa using h, by decide, by decide⟩

/-- A year of five digits silently loses its first one on the command line. -/
theorem C70_long_year : ∀ other, dateParser isDig other "12020-01-02".toList = fromYmd 2020 1 2 := by
  intro other
  have hc : DigitClass isDig := ⟨fun c h => by simpa using h, by decide, by decide⟩
  exact (C70_command_line hc (pre := ['1']) (ys := "2020".toList) (ms := "01".toList) (ds := "02".toList) (m := 1) (d := 2)
    (s1 := '-') (s2 := '-') ⟨by decide, by decide⟩ (by decide) ⟨⟨by decide, by decide⟩, by decide, by decide⟩
    ⟨⟨by decide, by decide⟩, by decide, by decide⟩ (by decide) (by decide)).1

end Dinero
