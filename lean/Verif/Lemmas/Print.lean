import Verif.Model.Print
import Verif.Lemmas.Date
import Verif.Lemmas.Display
import Verif.Spec.Print
/-
Printed dates and columns.
-/
namespace Dinero

/-! ### Dates -/

theorem yearOf_between (n : Date) : yearStart (yearOf n) < n ∧ n ≤ yearStart (yearOf n + 1) := by
  unfold yearOf yearStart
  simp only
  have h1 := Int.emod_nonneg (n - 1) (show (146097 : Int) ≠ 0 by decide)
  have h2 := Int.emod_lt_of_pos (n - 1) (show (0 : Int) < 146097 by decide)
  have h3 := Int.mul_ediv_add_emod (n - 1) 146097
  generalize (n - 1) % 146097 = r at *
  generalize (n - 1) / 146097 = q at *
  obtain ⟨c, hc, hc3, hc1, hc2⟩ : ∃ c : Int, min 3 (r / 36524) = c ∧ 0 ≤ c ∧ c ≤ 3 ∧
      (0 ≤ r - c * 36524 ∧ (r - c * 36524 < 36524 ∨ (c = 3 ∧ r - c * 36524 ≤ 36524))) := by
    refine ⟨_, rfl, ?_, ?_, ?_⟩ <;> omega
  rw [hc]
  have h4 : (r - c * 36524) / 1461 ≤ 24 ∧ 0 ≤ (r - c * 36524) / 1461 := by omega
  have h5 := Int.emod_nonneg (r - c * 36524) (show (1461 : Int) ≠ 0 by decide)
  have h6 := Int.emod_lt_of_pos (r - c * 36524) (show (0 : Int) < 1461 by decide)
  have h7 := Int.mul_ediv_add_emod (r - c * 36524) 1461
  generalize hs : (r - c * 36524) % 1461 = s at *
  generalize hf : (r - c * 36524) / 1461 = f at *
  obtain ⟨g, hg, hg1, hg2, hg3, hg4⟩ : ∃ g : Int, min 3 (s / 365) = g ∧ 0 ≤ g ∧ g ≤ 3 ∧ 0 ≤ s - g * 365 ∧
      (s - g * 365 < 365 ∨ (g = 3 ∧ s - g * 365 ≤ 365)) := by
    refine ⟨_, rfl, ?_, ?_, ?_, ?_⟩ <;> omega
  rw [hg]
  have e4 : (400 * q + 100 * c + 4 * f + g + 1 - 1) / 4 = 100 * q + 25 * c + f := by omega
  have e100 : (400 * q + 100 * c + 4 * f + g + 1 - 1) / 100 = 4 * q + c := by omega
  have e400 : (400 * q + 100 * c + 4 * f + g + 1 - 1) / 400 = q := by omega
  have hn : n = 146097 * q + 36524 * c + 1461 * f + s + 1 := by omega
  rw [e4, e100, e400]
  constructor
  · omega
  · by_cases hg3' : g = 3
    · by_cases hf24 : f = 24
      · by_cases hc3' : c = 3
        · subst hg3' hf24 hc3'; omega
        · subst hg3' hf24
          have : (400 * q + 100 * c + 4 * 24 + 3 + 1 + 1 - 1) / 4 = 100 * q + 25 * c + 25 := by omega
          have : (400 * q + 100 * c + 4 * 24 + 3 + 1 + 1 - 1) / 100 = 4 * q + c + 1 := by omega
          have : (400 * q + 100 * c + 4 * 24 + 3 + 1 + 1 - 1) / 400 = q := by omega
          omega
      · subst hg3'
        have : (400 * q + 100 * c + 4 * f + 3 + 1 + 1 - 1) / 4 = 100 * q + 25 * c + f + 1 := by omega
        have : (400 * q + 100 * c + 4 * f + 3 + 1 + 1 - 1) / 100 = 4 * q + c := by omega
        have : (400 * q + 100 * c + 4 * f + 3 + 1 + 1 - 1) / 400 = q := by omega
        omega
    · have : (400 * q + 100 * c + 4 * f + g + 1 + 1 - 1) / 4 = 100 * q + 25 * c + f := by omega
      have : (400 * q + 100 * c + 4 * f + g + 1 + 1 - 1) / 100 = 4 * q + c := by omega
      have : (400 * q + 100 * c + 4 * f + g + 1 + 1 - 1) / 400 = q := by omega
      omega

theorem monthLoop_spec (y : Int) : ∀ (fuel m k : Nat), 1 ≤ m → m + fuel = 12 →
    daysBeforeMonth y m + k < daysBeforeMonth y 12 + daysInMonth y 12 →
    ∃ m' d', monthLoop y fuel m k = (m', d') ∧ (1 ≤ m' ∧ m' ≤ 12) ∧ (1 ≤ d' ∧ d' ≤ daysInMonth y m') ∧
      daysBeforeMonth y m' + d' = daysBeforeMonth y m + k + 1
  | 0, m, k, h1, h2, h3 => by
    obtain rfl : m = 12 := by omega
    exact ⟨12, k + 1, rfl, by omega, by omega, by omega⟩
  | fuel + 1, m, k, h1, h2, h3 => by
    unfold monthLoop
    by_cases hk : k < daysInMonth y m
    · rw [if_pos hk]
      exact ⟨m, k + 1, rfl, by omega, by omega, by omega⟩
    · rw [if_neg hk]
      have hs := daysBeforeMonth_succ y h1
      obtain ⟨m', d', e, g1, g2, g3⟩ := monthLoop_spec y fuel (m + 1) (k - daysInMonth y m) (by omega) (by omega) (by omega)
      exact ⟨m', d', e, g1, g2, by omega⟩

/-- The date with a given number. -/
theorem civil_spec (n : Date) : ∃ y m d, civil n = (y, m, d) ∧ ValidDate y m d ∧ dayNumber y m d = n := by
  obtain ⟨h1, h2⟩ := yearOf_between n
  have e1 : dayNumber (yearOf n) 1 1 = yearStart (yearOf n) + 1 := by rw [dayNumber_eq]; simp [daysBeforeMonth]
  have hy := yearStart_succ (yearOf n)
  have hl := year_length (yearOf n)
  obtain ⟨m, d, e, g1, g2, g3⟩ := monthLoop_spec (yearOf n) 11 1 (n - dayNumber (yearOf n) 1 1).toNat (by omega) rfl (by
    simp only [daysBeforeMonth] at hl ⊢
    rw [hl]
    split at hy <;> split <;> omega)
  refine ⟨yearOf n, m, d, by rw [civil, e], (validDate_iff _ _ _).mpr ⟨g1, g2⟩, ?_⟩
  rw [dayNumber_eq, g3]
  simp only [daysBeforeMonth]
  omega

theorem civil_dayNumber {y : Int} {m d : Nat} (h : ValidDate y m d) : civil (dayNumber y m d) = (y, m, d) := by
  obtain ⟨y', m', d', e, hv, hn⟩ := civil_spec (dayNumber y m d)
  obtain ⟨rfl, rfl, rfl⟩ := dayNumber_inj hv h hn
  exact e

theorem isDigits_padZero (w n : Nat) : IsDigits (padZero w n) := by
  refine ⟨?_, fun c hc => ?_⟩
  · unfold padZero
    have := digits_ne_nil n
    simp [this]
  · obtain ⟨k, hk, rfl⟩ := isDigit_padZero w n c hc
    interval_cases k <;> decide

/-- The written form of a printed date. -/
theorem isoDate_writes {y : Int} {m d : Nat} (h : ValidDate y m d) (hy : y ≤ 9999) :
    WritesDate (isoDate (dayNumber y m d)) y m d := by
  have hv := (validDate_iff y m d).mp h
  have hm : TwoDigits (padZero 2 m) m :=
    ⟨isDigits_padZero 2 m, by rw [padZero_length 2 m ((digits_length_le m 2 (by omega)).mpr (by omega))],
      padZero_val 2 m⟩
  have hd31 : daysInMonth y m ≤ 31 := by unfold daysInMonth; split <;> split <;> omega
  have hd : TwoDigits (padZero 2 d) d :=
    ⟨isDigits_padZero 2 d, by rw [padZero_length 2 d ((digits_length_le d 2 (by omega)).mpr (by omega))],
      padZero_val 2 d⟩
  unfold isoDate
  rw [civil_dayNumber h]
  simp only
  by_cases h0 : 0 ≤ y
  · have := WritesDate.mk false (isDigits_padZero 4 y.natAbs) hm hd (sep := '-') (by simp)
    rw [if_pos ⟨h0, hy⟩]
    simp only [Bool.false_eq_true, if_false, List.nil_append, padZero_val, Int.natCast_natAbs, abs_of_nonneg h0] at this
    simpa using this
  · have := WritesDate.mk true (isDigits_padZero 4 y.natAbs) hm hd (sep := '-') (by simp)
    rw [if_neg (fun h => h0 h.1), if_pos (by omega)]
    simp only [if_true, padZero_val, Int.natCast_natAbs, abs_of_neg (show y < 0 by omega), neg_neg] at this
    simpa using this

theorem padZero_nl (w n : Nat) : '\n' ∉ padZero w n := by
  intro h
  have := (isDigits_padZero w n).2 _ h
  revert this; decide

theorem isoDate_nl (n : Date) : '\n' ∉ isoDate n := by
  unfold isoDate
  simp only
  have h := padZero_nl
  split
  · simp [h]
  · split <;> simp [h]

theorem isoDate_length {y : Int} {m d : Nat} (h : ValidDate y m d) (h0 : 0 ≤ y) (hy : y ≤ 9999) :
    (isoDate (dayNumber y m d)).length = 10 := by
  have hv := (validDate_iff y m d).mp h
  have hd31 : daysInMonth y m ≤ 31 := by unfold daysInMonth; split <;> split <;> omega
  unfold isoDate
  rw [civil_dayNumber h]
  simp only [if_pos (And.intro h0 hy), List.length_append, List.length_cons]
  rw [padZero_length 2 m ((digits_length_le m 2 (by omega)).mpr (by omega)),
    padZero_length 2 d ((digits_length_le d 2 (by omega)).mpr (by omega)),
    padZero_length 4 _ ((digits_length_le _ 4 (by omega)).mpr (by omega))]

/-! ### Order of texts -/

theorem lt_append {a a' b b' : Str} (h : a.length = a'.length) : a ++ b < a' ++ b' ↔ a < a' ∨ (a = a' ∧ b < b') := by
  induction a generalizing a' with
  | nil =>
    cases a' with
    | nil => simp
    | cons _ _ => cases h
  | cons x a ih =>
    cases a' with
    | nil => cases h
    | cons x' a' =>
      simp only [List.length_cons, Nat.add_right_cancel_iff] at h
      rw [List.cons_append, List.cons_append, List.cons_lt_cons_iff, List.cons_lt_cons_iff, ih h]
      simp only [List.cons.injEq]
      tauto

theorem digitsVal_cons (c : Char) (s : Str) : digitsVal (c :: s) = (c.toNat - 48) * 10 ^ s.length + digitsVal s := by
  have := digitsVal_append [c] s
  simpa [digitsVal] using this

theorem digitsVal_lt {s : Str} (h : ∀ c ∈ s, '0' ≤ c ∧ c ≤ '9') : digitsVal s < 10 ^ s.length := by
  induction s with
  | nil => simp [digitsVal]
  | cons c s ih =>
    rw [digitsVal_cons, List.length_cons, pow_succ]
    have h1 := ih (fun c hc => h c (by simp [hc]))
    have h2 : c.toNat ≤ 57 := (h c (by simp)).2
    have : (c.toNat - 48) * 10 ^ s.length ≤ 9 * 10 ^ s.length := Nat.mul_le_mul_right _ (by omega)
    omega

/-- Numerals of the same length are ordered like their values. -/
theorem digits_lt {a b : Str} (ha : ∀ c ∈ a, '0' ≤ c ∧ c ≤ '9') (hb : ∀ c ∈ b, '0' ≤ c ∧ c ≤ '9')
    (h : a.length = b.length) : (a < b ↔ digitsVal a < digitsVal b) ∧ (a = b ↔ digitsVal a = digitsVal b) := by
  induction a generalizing b with
  | nil =>
    cases b with
    | nil => simp
    | cons _ _ => cases h
  | cons x a ih =>
    cases b with
    | nil => cases h
    | cons y b =>
      simp only [List.length_cons, Nat.add_right_cancel_iff] at h
      obtain ⟨i1, i2⟩ := ih (fun c hc => ha c (by simp [hc])) (fun c hc => hb c (by simp [hc])) h
      have va := digitsVal_lt (fun c hc => ha c (by simp [hc]) : ∀ c ∈ a, _)
      have vb := digitsVal_lt (fun c hc => hb c (by simp [hc]) : ∀ c ∈ b, _)
      have hx1 : 48 ≤ x.toNat := (ha x (by simp)).1
      have hy1 : 48 ≤ y.toNat := (hb y (by simp)).1
      rw [h] at va
      rw [List.cons_lt_cons_iff, List.cons.injEq, digitsVal_cons, digitsVal_cons, h, i1, i2]
      have hlt : x < y ↔ x.toNat < y.toNat := Iff.rfl
      have heq : x = y ↔ x.toNat = y.toNat := ⟨fun e => by rw [e], fun e => Char.toNat_inj.mp e⟩
      rw [hlt, heq]
      generalize x.toNat = p at *
      generalize y.toNat = q at *
      generalize 10 ^ b.length = k at *
      rcases Nat.lt_trichotomy p q with hpq | hpq | hpq
      · have : (p - 48) * k + k ≤ (q - 48) * k := by
          have := Nat.mul_le_mul_right k (show p - 48 + 1 ≤ q - 48 by omega)
          rw [Nat.add_mul, Nat.one_mul] at this; exact this
        omega
      · subst hpq; omega
      · have : (q - 48) * k + k ≤ (p - 48) * k := by
          have := Nat.mul_le_mul_right k (show q - 48 + 1 ≤ p - 48 by omega)
          rw [Nat.add_mul, Nat.one_mul] at this; exact this
        omega

theorem padZero_lt {w a b : Nat} (hw : 1 ≤ w) (ha : a < 10 ^ w) (hb : b < 10 ^ w) :
    (padZero w a < padZero w b ↔ a < b) ∧ (padZero w a = padZero w b ↔ a = b) ∧
      (padZero w a).length = (padZero w b).length := by
  have la := padZero_length w a ((digits_length_le a w hw).mpr ha)
  have lb := padZero_length w b ((digits_length_le b w hw).mpr hb)
  have := digits_lt (isDigits_padZero w a).2 (isDigits_padZero w b).2 (by rw [la, lb])
  rw [padZero_val, padZero_val] at this
  exact ⟨this.1, this.2, by rw [la, lb]⟩

/-- Printed dates are ordered like the dates. -/
theorem isoDate_lt {y y' : Int} {m m' d d' : Nat} (h : ValidDate y m d) (h' : ValidDate y' m' d')
    (hy : 0 ≤ y ∧ y ≤ 9999) (hy' : 0 ≤ y' ∧ y' ≤ 9999) :
    isoDate (dayNumber y m d) < isoDate (dayNumber y' m' d') ↔ Earlier (y, m, d) (y', m', d') := by
  have hv := (validDate_iff y m d).mp h
  have hv' := (validDate_iff y' m' d').mp h'
  have hd31 : daysInMonth y m ≤ 31 := by unfold daysInMonth; split <;> split <;> omega
  have hd31' : daysInMonth y' m' ≤ 31 := by unfold daysInMonth; split <;> split <;> omega
  obtain ⟨y1, y2, y3⟩ := padZero_lt (w := 4) (a := y.natAbs) (b := y'.natAbs) (by omega) (by omega) (by omega)
  obtain ⟨m1, m2, m3⟩ := padZero_lt (w := 2) (a := m) (b := m') (by omega) (by omega) (by omega)
  obtain ⟨d1, d2, d3⟩ := padZero_lt (w := 2) (a := d) (b := d') (by omega) (by omega) (by omega)
  unfold isoDate
  rw [civil_dayNumber h, civil_dayNumber h']
  simp only [if_pos hy, if_pos hy']
  rw [List.append_assoc, List.append_assoc, lt_append y3, List.cons_append, List.cons_append, List.cons_lt_cons_iff,
    lt_append m3, List.cons_lt_cons_iff, y1, y2, m1, m2, d1]
  have hn : ¬ ('-' < '-') := by decide
  simp only [Earlier, hn, false_or, true_and]
  omega

/-! ### Rows -/

theorem rowsFrom_row {r : Str} (h : '\n' ∉ r) (acc s : Str) : rowsFrom acc (r ++ '\n' :: s) = (acc ++ r) :: rowsFrom [] s := by
  induction r generalizing acc with
  | nil => simp [rowsFrom]
  | cons c r ih =>
    have hc : c ≠ '\n' := fun e => h (by simp [e])
    rw [List.cons_append, rowsFrom, if_neg hc, ih (fun hm => h (by simp [hm]))]
    simp

theorem padRight_nl {w : Nat} {s : Str} (h : '\n' ∉ s) : '\n' ∉ padRight w s := by
  simp [padRight, h]

theorem padLeft_nl {w : Nat} {s : Str} (h : '\n' ∉ s) : '\n' ∉ padLeft w s := by
  simp [padLeft, h]

theorem padRight_length {w : Nat} {s : Str} (h : s.length ≤ w) : (padRight w s).length = w := by
  simp [padRight]; omega

theorem padLeft_length {w : Nat} {s : Str} (h : s.length ≤ w) : (padLeft w s).length = w := by
  simp [padLeft]; omega

theorem atLeft_padRight (w : Nat) (s : Str) : AtLeft (padRight w s) s := ⟨_, rfl⟩
theorem atRight_padLeft (w : Nat) (s : Str) : AtRight (padLeft w s) s := ⟨_, rfl⟩

theorem column_mid {a b c : Str} {start width : Nat} (h1 : a.length = start) (h2 : b.length = width) :
    column (a ++ (b ++ c)) start width = b := by
  subst h1 h2
  simp [column]

theorem column_end {a b : Str} {start width : Nat} (h1 : a.length = start) (h2 : b.length = width) :
    column (a ++ b) start width = b := by
  subst h1 h2
  simp [column]

/-! ### Amounts and payees -/

theorem fmtInt_chars (z : Int) : fmtInt z ≠ [] ∧ ∀ c ∈ fmtInt z, c = '-' ∨ ('0' ≤ c ∧ c ≤ '9') := by
  have hd : ∀ n, ∀ c ∈ digits n, '0' ≤ c ∧ c ≤ '9' := by
    intro n c hc
    have := isDigits_padZero 0 n
    simp only [padZero, Nat.zero_sub, List.replicate_zero, List.nil_append] at this
    exact this.2 c hc
  unfold fmtInt
  split
  · exact ⟨by simp, fun c hc => by
      rcases List.mem_cons.mp hc with rfl | hc
      · exact .inl rfl
      · exact .inr (hd _ c hc)⟩
  · exact ⟨digits_ne_nil _, fun c hc => .inr (hd _ c hc)⟩

/-- The form of a printed amount. -/
theorem shown_form (m : Money) : m.display (fun _ => 2) = .ok m.shown ∧ (m.shown = ['0'] ∨
    ∃ z n c q, m = .mk q c ∧ m.shown = fmtInt z ++ '.' :: padZero 2 n ++ ' ' :: c) := by
  cases m with
  | zero => exact ⟨rfl, .inl rfl⟩
  | mk q c =>
    have : ∃ z n, displayNumber q 2 = .ok (fmtInt z ++ '.' :: padZero 2 n) := by
      unfold displayNumber
      simp only [pow10i32, Nat.reduceAdd, Nat.reduceLT, if_true]
      repeat' split
      all_goals exact ⟨_, _, rfl⟩
    obtain ⟨z, n, h⟩ := this
    have e : Money.display (fun _ => 2) (.mk q c) = .ok (fmtInt z ++ '.' :: padZero 2 n ++ ' ' :: c) := by
      unfold Money.display
      simp only [h]
    unfold Money.shown
    rw [e]
    exact ⟨rfl, .inr ⟨z, n, c, q, rfl, rfl⟩⟩

theorem shown_head (m : Money) : m.shown ≠ [] ∧ m.shown.head? ≠ some ' ' := by
  rcases (shown_form m).2 with h | ⟨z, n, c, q, _, h⟩
  · rw [h]; simp
  · rw [h]
    obtain ⟨h1, h2⟩ := fmtInt_chars z
    cases hz : fmtInt z with
    | nil => exact absurd hz h1
    | cons x xs =>
      rw [hz] at h2
      refine ⟨by simp, ?_⟩
      intro e
      simp at e
      subst e
      exact absurd (h2 ' ' (by simp)) (by decide)

theorem shown_digit (m : Money) : ∃ c ∈ m.shown, c ≠ '-' ∧ c ≠ ' ' := by
  rcases (shown_form m).2 with h | ⟨z, n, c, q, _, h⟩
  · rw [h]; exact ⟨'0', by simp, by decide, by decide⟩
  · rw [h]; exact ⟨'.', by simp, by decide, by decide⟩

theorem shown_nl {m : Money} (h : ∀ q c, m = .mk q c → '\n' ∉ c) : '\n' ∉ m.shown := by
  rcases (shown_form m).2 with e | ⟨z, n, c, q, hm, e⟩
  · rw [e]; decide
  · rw [e]
    have h1 : '\n' ∉ fmtInt z := fun hn => absurd ((fmtInt_chars z).2 _ hn) (by decide)
    have h2 : '\n' ∉ padZero 2 n := fun hn => absurd ((isDigits_padZero 2 n).2 _ hn) (by decide)
    simp [h1, h2, h q c hm]

theorem clip_shown (p : Str) : ∃ t, PayeeShown p t ∧ (clip (p ++ [' ']) 42 = t ∨ clip (p ++ [' ']) 42 = t ++ [' ']) ∧
    (clip (p ++ [' ']) 42).length ≤ 41 ∧ ('\n' ∉ p → '\n' ∉ clip (p ++ [' ']) 42) := by
  have hb : ∀ s : Str, s.length ≤ byteLen s := by
    intro s
    induction s with
    | nil => simp [byteLen]
    | cons c s ih =>
      have := Char.utf8Size_pos c
      simp only [byteLen, List.map_cons, List.sum_cons, List.length_cons] at ih ⊢
      omega
  unfold clip
  split
  · next h =>
    refine ⟨p, .inl rfl, .inr rfl, ?_, fun hn => by simp [hn]⟩
    have := hb (p ++ [' '])
    omega
  · refine ⟨_, .inr rfl, .inl rfl, by simp, fun hn => ?_⟩
    intro hm
    rcases List.mem_append.mp hm with hm | hm
    · have := List.mem_of_mem_take hm
      simp [hn] at this
    · simp at hm

theorem unblank_blanks (k : Nat) {s : Str} (h : s.head? ≠ some ' ') : unblank (List.replicate k ' ' ++ s) = s := by
  unfold unblank
  induction k with
  | zero =>
    cases s with
    | nil => rfl
    | cons c s =>
      rw [List.replicate_zero, List.nil_append, List.dropWhile_cons_of_neg]
      simpa using h
  | succ k ih => rw [List.replicate_succ, List.cons_append, List.dropWhile_cons_of_pos (by simp), ih]

end Dinero
