import Verif.Lemmas.Display
/-
C09: the printed amount.
-/
namespace Dinero

/-- For a precision of 1 to 7 decimals and every amount outside the two ranges where the code is
wrong, the printed number has exactly `d` decimals, denotes the correctly rounded amount and
carries the sign of the amount.  Missing from the full statement: amounts between
`-(1 - 10^-d/2)` and 0 (`C09_sign_lost`), amounts from `1 - 10^-d/2` to 1
(`C09_almost_one`), precision 0 (`C09_precision_zero`) and precisions above 7
(`C09_precision_overflow`). -/
theorem C09_rounded_partial (a : Rat) (d : Nat) (h1 : 1 ≤ d) (h7 : d ≤ 7)
    (ha : (0 ≤ a ∧ a < 1 - 1 / 2 / 10 ^ d) ∨ 1 ≤ a ∨ a ≤ -(1 - 1 / 2 / 10 ^ d)) :
    ∃ num, displayNumber a d = .ok num ∧ fracDigits num = d ∧ IsRounded d a (decimalVal num) ∧
      (num.head? = some '-' ↔ a < 0) := by
  have hd0 : (0 : Rat) < 10 ^ d := by positivity
  have hp : pow10i32 (d + 2) = .ok (10 ^ (d + 2)) := by
    unfold pow10i32; rw [if_pos (by omega)]
  obtain ⟨N, hN, hN1, hN2⟩ := ratTrunc_nonneg (abs_nonneg a)
  -- the truncated integer part and the fractional part
  have htr : ratTrunc a = if a < 0 then -(N : Int) else N := by
    split
    · next h => rw [abs_of_neg h, ratTrunc_neg] at hN; omega
    · next h => rw [abs_of_nonneg (not_lt.mp h)] at hN; exact hN
  have hfr : |a - (ratTrunc a : Int)| = |a| - N := by
    rw [htr]
    split
    · next h =>
      rw [abs_of_neg h] at hN1 ⊢
      rw [abs_of_nonpos (by push_cast; linarith)]; push_cast; ring
    · next h =>
      rw [abs_of_nonneg (not_lt.mp h)] at hN1 ⊢
      rw [abs_of_nonneg (by push_cast; linarith)]; push_cast; ring
  obtain ⟨r1, r2, r3⟩ := roundedDecimals_spec (f := a - (ratTrunc a : Int)) d
    (by rw [hfr]; linarith)
  rw [hfr] at r2 r3
  generalize hr : roundedDecimals (a - (ratTrunc a : Int)) d = r at r1 r2 r3
  have hdisp : displayNumber a d =
      if (digits r).length = d + 1 then
        .ok (fmtInt (if ratTrunc a > 0 then ratTrunc a + 1 else ratTrunc a - 1) ++
          '.' :: padZero d 0)
      else .ok (fmtInt (ratTrunc a) ++ '.' :: padZero d r) := by
    rw [← hr]
    unfold displayNumber
    rw [hp]
    rfl
  -- the carry happens exactly when all decimals round up
  have hcarry : (digits r).length = d + 1 ↔ r = 10 ^ d := by
    have e1 := digits_length_le r d h1
    have e2 := digits_length_le r (d + 1) (by omega)
    have hpos : 0 < 10 ^ d := Nat.pow_pos (by norm_num)
    have : r < 10 ^ (d + 1) := by rw [pow_succ]; omega
    constructor
    · intro h; have : ¬ r < 10 ^ d := by rw [← e1]; omega
      omega
    · intro h
      have a1 : ¬ (digits r).length ≤ d := by rw [e1]; omega
      have a2 := e2.mpr this
      omega
  have half : (0 : Rat) < 1 / 2 / 10 ^ d := by positivity
  have halfle : (1 : Rat) / 2 / 10 ^ d ≤ 1 / 2 := by
    apply div_le_self (by norm_num)
    exact one_le_pow₀ (by norm_num)
  have hz : (digits 0).length ≤ d := by
    rw [digits_length_le 0 d h1]; positivity
  have r2' : (r : Rat) / 10 ^ d - 1 / 2 / 10 ^ d ≤ |a| - N := by
    rw [div_sub_div_same, div_le_iff₀ hd0]; exact r2
  have r3' : |a| - N < (r : Rat) / 10 ^ d + 1 / 2 / 10 ^ d := by
    rw [← add_div, lt_div_iff₀ hd0]; exact r3
  -- the printed value has the magnitude `N + r/10^d` and the sign of `a`
  have hmain : ∃ num, displayNumber a d = .ok num ∧ fracDigits num = d ∧
      decimalVal num = (if a < 0 then -1 else 1) * ((N : Rat) + r / 10 ^ d) ∧
      (num.head? = some '-' ↔ a < 0) := by
    by_cases hc : (digits r).length = d + 1
    · have hr10 := hcarry.mp hc
      have hr1 : (r : Rat) / 10 ^ d = 1 := by rw [hr10]; push_cast; exact div_self hd0.ne'
      rw [hdisp, if_pos hc, htr]
      refine ⟨_, rfl, fracDigits_fmtInt _ _ _ hz, ?_, ?_⟩
      · rw [decimalVal_fmtInt _ _ _ hz, hr1]
        by_cases hneg : a < 0
        · simp only [hneg, if_true]
          have hnp : ¬ (-(N : Int) > 0) := by omega
          rw [if_neg hnp, if_pos (by omega)]
          have : ((-(N : Int) - 1).natAbs : Rat) = N + 1 := by
            have : (-(N : Int) - 1).natAbs = N + 1 := by omega
            rw [this]; push_cast; ring
          rw [this]; push_cast; ring
        · simp only [hneg, if_false]
          have hN0 : 1 ≤ N := by
            by_contra hcon
            have hN0 : N = 0 := by omega
            rw [abs_of_nonneg (not_lt.mp hneg), hN0, hr1] at r2'
            rw [abs_of_nonneg (not_lt.mp hneg), hN0] at hN2
            push_cast at r2' hN2
            rcases ha with ⟨_, h⟩ | h | h <;> linarith
          have hnp : (N : Int) > 0 := by omega
          rw [if_pos hnp, if_neg (by omega)]
          have : (((N : Int) + 1).natAbs : Rat) = N + 1 := by
            have : ((N : Int) + 1).natAbs = N + 1 := by omega
            rw [this]; push_cast; ring
          rw [this]; push_cast; ring
      · rw [head_fmtInt]
        by_cases hneg : a < 0
        · simp only [hneg, if_true, iff_true]; split <;> omega
        · simp only [hneg, if_false, iff_false]
          have hN0 : 1 ≤ N := by
            by_contra hcon
            have hN0 : N = 0 := by omega
            rw [abs_of_nonneg (not_lt.mp hneg), hN0, hr1] at r2'
            rw [abs_of_nonneg (not_lt.mp hneg), hN0] at hN2
            push_cast at r2' hN2
            rcases ha with ⟨_, h⟩ | h | h <;> linarith
          split <;> omega
    · have hrlt : r < 10 ^ d := by
        rcases Nat.lt_or_ge r (10 ^ d) with h | h
        · exact h
        · exact absurd (hcarry.mpr (by omega)) hc
      have hrl := (digits_length_le r d h1).mpr hrlt
      rw [hdisp, if_neg hc, htr]
      have hrlt' : (r : Rat) / 10 ^ d ≤ 1 - 1 / 10 ^ d := by
        rw [div_le_iff₀ hd0, sub_mul, one_mul, div_mul_cancel₀ _ hd0.ne']
        have : (r : Rat) + 1 ≤ 10 ^ d := by exact_mod_cast hrlt
        linarith
      have hneg1 : a < 0 → 1 ≤ N := by
        intro hneg
        by_contra hcon
        have hN0 : N = 0 := by omega
        rw [abs_of_neg hneg, hN0] at r3'
        push_cast at r3'
        have e : (1 : Rat) / 10 ^ d = 1 / 2 / 10 ^ d + 1 / 2 / 10 ^ d := by ring
        rcases ha with ⟨h, _⟩ | h | h <;> linarith
      refine ⟨_, rfl, fracDigits_fmtInt _ _ _ hrl, ?_, ?_⟩
      · rw [decimalVal_fmtInt _ _ _ hrl]
        by_cases hneg : a < 0
        · have := hneg1 hneg
          simp only [hneg, if_true]
          rw [if_pos (by omega), Int.natAbs_neg, Int.natAbs_natCast]; ring
        · simp only [hneg, if_false]
          rw [if_neg (by omega), Int.natAbs_natCast]; ring
      · rw [head_fmtInt]
        by_cases hneg : a < 0
        · have := hneg1 hneg
          simp only [hneg, if_true, iff_true]; omega
        · simp only [hneg, if_false, iff_false]; omega
  obtain ⟨num, m1, m2, m3, m4⟩ := hmain
  have hmag : 0 ≤ (N : Rat) + r / 10 ^ d := by positivity
  have hdiff : |a - decimalVal num| = |(|a|) - ((N : Rat) + r / 10 ^ d)| := by
    rw [m3]
    split
    · next h => rw [abs_of_neg h, ← abs_neg]; congr 1; ring
    · next h => rw [abs_of_nonneg (not_lt.mp h)]; congr 1; ring
  refine ⟨num, m1, m2, ⟨?_, ?_, ?_⟩, m4⟩
  · refine ⟨(if a < 0 then -1 else 1) * ((N : Int) * 10 ^ d + r), ?_⟩
    rw [m3]; push_cast; rw [mul_assoc, add_mul, div_mul_cancel₀ _ hd0.ne']
  · rw [hdiff, abs_le]; constructor <;> linarith
  · intro ht
    rw [hdiff] at ht
    have hv : |decimalVal num| = (N : Rat) + r / 10 ^ d := by
      rw [m3]
      split
      · rw [abs_mul, abs_of_nonneg hmag]; norm_num
      · rw [one_mul, abs_of_nonneg hmag]
    rw [hv]
    rcases le_or_gt ((N : Rat) + r / 10 ^ d) |a| with h | h
    · rw [abs_of_nonneg (by linarith)] at ht; linarith
    · exact h

/-- The same for the whole printed amount: the number, a space and the commodity. -/
theorem C09_display_partial (precision : Cur → Nat) (a : Rat) (c : Cur) (h1 : 1 ≤ precision c)
    (h7 : precision c ≤ 7) (ha : (0 ≤ a ∧ a < 1 - 1 / 2 / 10 ^ (precision c)) ∨ 1 ≤ a ∨
      a ≤ -(1 - 1 / 2 / 10 ^ (precision c))) :
    ∃ num, Money.display precision (.mk a c) = .ok (num ++ ' ' :: c) ∧
      fracDigits num = precision c ∧ IsRounded (precision c) a (decimalVal num) ∧
      (num.head? = some '-' ↔ a < 0) := by
  obtain ⟨num, h, h'⟩ := C09_rounded_partial a (precision c) h1 h7 ha
  refine ⟨num, ?_, h'⟩
  simp only [Money.display, h]

/-- 12.345 at precision 2. -/
example : ∃ a : Rat, (1 : Nat) ≤ 2 ∧ 1 ≤ a ∧ displayNumber a 2 = .ok "12.35".toList :=
  ⟨12345 / 1000, by norm_num, by norm_num, by decide +kernel⟩

/-- The full statement is false: -0.50 is printed without its sign. -/
theorem C09_sign_lost : displayNumber (-1 / 2) 2 = .ok "0.50".toList ∧
    ¬ IsRounded 2 (-1 / 2) (decimalVal "0.50".toList) := by
  refine ⟨by decide +kernel, fun h => ?_⟩
  have hv : decimalVal "0.50".toList = 1 / 2 := by decide +kernel
  rw [hv] at h
  have := h.near
  norm_num at this

/-- The full statement is false: 0.995 is printed as `-1.00`. -/
theorem C09_almost_one : displayNumber (995 / 1000) 2 = .ok "-1.00".toList := by decide +kernel

/-- Every amount in that range comes out negative. -/
theorem C09_almost_one_all (a : Rat) (d : Nat) (h1 : 1 ≤ d) (h7 : d ≤ 7)
    (h : 1 - 1 / 2 / 10 ^ d ≤ a) (h' : a < 1) :
    ∃ num, displayNumber a d = .ok num ∧ decimalVal num = -1 := by
  have hd0 : (0 : Rat) < 10 ^ d := by positivity
  have halfle : (1 : Rat) / 2 / 10 ^ d ≤ 1 / 2 := by
    apply div_le_self (by norm_num)
    exact one_le_pow₀ (by norm_num)
  have ha0 : 0 ≤ a := by linarith
  obtain ⟨N, hN, hN1, hN2⟩ := ratTrunc_nonneg ha0
  have hN0 : N = 0 := by
    have : (N : Rat) < 1 := lt_of_le_of_lt hN1 h'
    have : N < 1 := by exact_mod_cast this
    omega
  rw [hN0] at hN
  obtain ⟨r1, r2, r3⟩ := roundedDecimals_spec (f := a - (ratTrunc a : Int)) d
    (by rw [hN]; push_cast; rw [sub_zero, abs_of_nonneg ha0]; exact h')
  rw [hN] at r3
  push_cast at r3
  rw [sub_zero, abs_of_nonneg ha0] at r3
  have hr : roundedDecimals (a - (ratTrunc a : Int)) d = 10 ^ d := by
    have e : (1 - 1 / 2 / 10 ^ d) * 10 ^ d ≤ a * (10 : Rat) ^ d :=
      mul_le_mul_of_nonneg_right h hd0.le
    rw [sub_mul, one_mul, div_mul_cancel₀ _ hd0.ne'] at e
    have : ((10 : Rat) ^ d) < roundedDecimals (a - 0) d + 1 := by rw [sub_zero]; linarith
    have hn : 10 ^ d < roundedDecimals (a - 0) d + 1 := by exact_mod_cast this
    rw [hN] at r1 ⊢
    push_cast at r1 ⊢
    omega
  have hp : pow10i32 (d + 2) = .ok (10 ^ (d + 2)) := by
    unfold pow10i32; rw [if_pos (by omega)]
  have hz : (digits 0).length ≤ d := by
    rw [digits_length_le 0 d h1]; positivity
  have hdisp : displayNumber a d =
      if (digits (roundedDecimals (a - (ratTrunc a : Int)) d)).length = d + 1 then
        .ok (fmtInt (if ratTrunc a > 0 then ratTrunc a + 1 else ratTrunc a - 1) ++
          '.' :: padZero d 0)
      else .ok (fmtInt (ratTrunc a) ++
        '.' :: padZero d (roundedDecimals (a - (ratTrunc a : Int)) d)) := by
    unfold displayNumber
    rw [hp]
    rfl
  have hlen : (digits (10 ^ d)).length = d + 1 := by
    have e1 := digits_length_le (10 ^ d) d h1
    have e2 := (digits_length_le (10 ^ d) (d + 1) (by omega)).mpr
      (Nat.pow_lt_pow_right (by norm_num) (by omega))
    have : ¬ (digits (10 ^ d)).length ≤ d := by rw [e1]; omega
    omega
  rw [hdisp, hr, if_pos hlen, hN]
  refine ⟨_, rfl, ?_⟩
  rw [decimalVal_fmtInt _ _ _ hz]
  norm_num

/-- The full statement is false: at precision 0 every amount is off by one. -/
theorem C09_precision_zero : displayNumber 5 0 = .ok "6.0".toList := by decide +kernel

/-- The full statement is false: from precision 8 on the computation overflows. -/
theorem C09_precision_overflow (a : Rat) (d : Nat) (h : 8 ≤ d) :
    displayNumber a d = .error (.panic "attempt to multiply with overflow") := by
  unfold displayNumber pow10i32
  rw [if_neg (by omega)]

end Dinero
