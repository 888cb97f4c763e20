import Verif.Model.Display
import Verif.Spec.Display
import Mathlib.Tactic.Ring
import Mathlib.Tactic.Linarith
import Mathlib.Tactic.FieldSimp
import Mathlib.Tactic.Positivity
import Mathlib.Tactic.IntervalCases
/- Helper lemmas for C09. -/
namespace Dinero

theorem parseDigits_eq : parseDigits = digitsVal := rfl

theorem digitsVal_snoc (s : Str) (c : Char) : digitsVal (s ++ [c]) = 10 * digitsVal s + (c.toNat - 48) := by
  simp [digitsVal]

theorem digitChar_val {n : Nat} (h : n < 10) : (digitChar n).toNat - 48 = n := by
  interval_cases n <;> rfl

theorem digitsVal_digits (n : Nat) : digitsVal (digits n) = n := by
  induction n using Nat.strong_induction_on with
  | _ n ih =>
    rw [digits]
    split
    · next h => simp [digitsVal, digitChar_val h]
    · next h =>
      rw [digitsVal_snoc, ih _ (by omega), digitChar_val (by omega)]; omega

theorem digits_length_pos (n : Nat) : 0 < (digits n).length := by
  rw [digits]; split <;> simp

/-- `n` has at most `w` digits iff `n < 10^w`. -/
theorem digits_length_le (n w : Nat) (hw : 1 ≤ w) : (digits n).length ≤ w ↔ n < 10 ^ w := by
  induction n using Nat.strong_induction_on generalizing w with
  | _ n ih =>
    rw [digits]
    split
    · next h =>
      simp only [List.length_singleton]
      refine ⟨fun _ => ?_, fun _ => hw⟩
      calc n < 10 := h
        _ = 10 ^ 1 := by norm_num
        _ ≤ 10 ^ w := Nat.pow_le_pow_right (by norm_num) hw
    · next h =>
      rw [List.length_append, List.length_singleton]
      cases w with
      | zero => omega
      | succ w =>
        cases w with
        | zero =>
          have := digits_length_pos (n / 10)
          constructor
          · intro h1; omega
          · intro h1; simp at h1; omega
        | succ w =>
          have := ih (n / 10) (by omega) (w + 1) (by omega)
          rw [Nat.add_le_add_iff_right, this, Nat.pow_succ 10 (w + 1)]
          omega

def IsDigit (c : Char) : Prop := ∃ n, n < 10 ∧ c = digitChar n

theorem IsDigit.ne_dot {c : Char} (h : IsDigit c) : c ≠ '.' := by
  obtain ⟨n, hn, rfl⟩ := h
  interval_cases n <;> decide

theorem IsDigit.ne_minus {c : Char} (h : IsDigit c) : c ≠ '-' := by
  obtain ⟨n, hn, rfl⟩ := h
  interval_cases n <;> decide

theorem isDigit_digits (n : Nat) : ∀ c ∈ digits n, IsDigit c := by
  induction n using Nat.strong_induction_on with
  | _ n ih =>
    rw [digits]
    split
    · next h => intro c hc; simp only [List.mem_singleton] at hc; exact ⟨n, h, hc⟩
    · next h =>
      intro c hc
      rcases List.mem_append.mp hc with hc | hc
      · exact ih _ (by omega) c hc
      · simp only [List.mem_singleton] at hc; exact ⟨n % 10, by omega, hc⟩

theorem digitsVal_zeros (k : Nat) (s : Str) :
    digitsVal (List.replicate k '0' ++ s) = digitsVal s := by
  induction k with
  | zero => rfl
  | succ k ih =>
    rw [List.replicate_succ, List.cons_append]
    simp only [digitsVal, List.foldl_cons] at ih ⊢
    exact ih

theorem padZero_val (w n : Nat) : digitsVal (padZero w n) = n := by
  rw [padZero, digitsVal_zeros, digitsVal_digits]

theorem padZero_length (w n : Nat) (h : (digits n).length ≤ w) : (padZero w n).length = w := by
  rw [padZero, List.length_append, List.length_replicate]; omega

theorem isDigit_padZero (w n : Nat) : ∀ c ∈ padZero w n, IsDigit c := by
  intro c hc
  rw [padZero] at hc
  rcases List.mem_append.mp hc with hc | hc
  · rw [List.mem_replicate] at hc; exact ⟨0, by norm_num, by rw [hc.2]; rfl⟩
  · exact isDigit_digits n c hc

theorem take_val (s : Str) (w : Nat) (h : s.length = w + 1) (hd : ∀ c ∈ s, IsDigit c) :
    digitsVal (s.take w) = digitsVal s / 10 := by
  have hne : s ≠ [] := by intro h0; rw [h0] at h; simp at h
  obtain ⟨s', c, rfl⟩ : ∃ s' c, s = s' ++ [c] := ⟨s.dropLast, s.getLast hne, (List.dropLast_append_getLast hne).symm⟩
  have hl : s'.length = w := by simpa using h
  rw [List.take_append_of_le_length (by omega), List.take_of_length_le (by omega), digitsVal_snoc]
  obtain ⟨n, hn, hc⟩ := hd c (by simp)
  rw [hc, digitChar_val hn]; omega

theorem takeWhile_dot (s t : Str) (h : ∀ c ∈ s, IsDigit c) :
    (s ++ '.' :: t).takeWhile (· ≠ '.') = s ∧ (s ++ '.' :: t).dropWhile (· ≠ '.') = '.' :: t := by
  induction s with
  | nil => simp
  | cons c s ih =>
    have hc := (h c (by simp)).ne_dot
    have := ih (fun x hx => h x (by simp [hx]))
    simp only [List.cons_append, List.takeWhile_cons, List.dropWhile_cons]
    simp only [decide_not] at this
    simp [hc, this]

theorem unsignedVal_eq (s t : Str) (h : ∀ c ∈ s, IsDigit c) :
    unsignedVal (s ++ '.' :: t) = digitsVal s + digitsVal t / 10 ^ t.length := by
  unfold unsignedVal
  rw [(takeWhile_dot s t h).1, (takeWhile_dot s t h).2]; rfl

theorem decimalVal_unsigned (s t : Str) (h : ∀ c ∈ s, IsDigit c) (hne : s ≠ []) :
    decimalVal (s ++ '.' :: t) = unsignedVal (s ++ '.' :: t) := by
  cases s with
  | nil => exact absurd rfl hne
  | cons c s =>
    have := (h c (by simp)).ne_minus
    unfold decimalVal
    split
    · next r heq => simp only [List.cons_append, List.cons.injEq] at heq; exact absurd heq.1 this
    · rfl

theorem digits_ne_nil (n : Nat) : digits n ≠ [] := by
  intro h; have := digits_length_pos n; rw [h] at this; simp at this

/-- What a printed `integer.decimals` denotes. -/
theorem decimalVal_fmtInt (z : Int) (d n : Nat) (hd : (digits n).length ≤ d) :
    decimalVal (fmtInt z ++ '.' :: padZero d n) =
      (if z < 0 then -((z.natAbs : Rat) + n / 10 ^ d) else (z.natAbs : Rat) + n / 10 ^ d) := by
  unfold fmtInt
  split
  · rw [List.cons_append]
    show -unsignedVal _ = _
    rw [unsignedVal_eq _ _ (isDigit_digits _), digitsVal_digits, padZero_val, padZero_length _ _ hd]
  · rw [decimalVal_unsigned _ _ (isDigit_digits _) (digits_ne_nil _),
      unsignedVal_eq _ _ (isDigit_digits _), digitsVal_digits, padZero_val, padZero_length _ _ hd]

theorem fracDigits_fmtInt (z : Int) (d n : Nat) (hd : (digits n).length ≤ d) :
    fracDigits (fmtInt z ++ '.' :: padZero d n) = d := by
  unfold fracDigits fmtInt
  split
  · have := (takeWhile_dot (digits z.natAbs) (padZero d n) (isDigit_digits _)).2
    rw [List.cons_append, List.dropWhile_cons_of_pos (by decide), this]
    simpa using padZero_length _ _ hd
  · rw [(takeWhile_dot (digits z.natAbs) (padZero d n) (isDigit_digits _)).2]
    simpa using padZero_length _ _ hd

theorem head_fmtInt (z : Int) (t : Str) : (fmtInt z ++ t).head? = some '-' ↔ z < 0 := by
  unfold fmtInt
  split
  · next h => simp [h]
  · next h =>
    refine ⟨fun h1 => ?_, fun h1 => absurd h1 h⟩
    cases hd : digits z.natAbs with
    | nil => exact absurd hd (digits_ne_nil _)
    | cons c s =>
      rw [hd] at h1
      simp only [List.cons_append, List.head?_cons, Option.some.injEq] at h1
      have := (isDigit_digits z.natAbs c (by rw [hd]; simp)).ne_minus
      exact absurd h1 this

theorem ratTrunc_nonneg {a : Rat} (h : 0 ≤ a) : ∃ n : Nat, ratTrunc a = n ∧ (n : Rat) ≤ a ∧ a < n + 1 := by
  have hn : 0 ≤ a.num := Rat.num_nonneg.mpr h
  have e : ratTrunc a = a.floor := by
    rw [ratTrunc, Rat.floor_def, Int.tdiv_eq_ediv_of_nonneg hn]
  have h0 : 0 ≤ a.floor := by rw [Rat.le_floor_iff]; simpa using h
  obtain ⟨n, hn'⟩ := Int.eq_ofNat_of_zero_le h0
  refine ⟨n, by rw [e, hn'], ?_, ?_⟩
  · have := Rat.floor_le a; rw [hn'] at this; simpa using this
  · have := Rat.lt_floor_add_one a; rw [hn'] at this; simpa using this

theorem ratTrunc_neg (a : Rat) : ratTrunc (-a) = -ratTrunc a := by
  unfold ratTrunc; rw [Rat.neg_num, Rat.neg_den, Int.neg_tdiv]

/-- The rounded decimals computed from the fractional part. -/
def roundedDecimals (fract : Rat) (d : Nat) : Nat :=
  let v := parseDigits ((padZero (d + 2) (ratTrunc |fract * ((10 ^ (d + 2) : Int) : Rat)|).natAbs).take (d + 1))
  if v % 10 ≥ 5 then v / 10 + 1 else v / 10

theorem roundedDecimals_spec {f : Rat} (d : Nat) (h1 : |f| < 1) :
    roundedDecimals f d ≤ 10 ^ d ∧ (roundedDecimals f d : Rat) - 1 / 2 ≤ |f| * 10 ^ d ∧
      |f| * 10 ^ d < roundedDecimals f d + 1 / 2 := by
  have hp : (0 : Rat) < 10 ^ (d + 2) := by positivity
  have habs : |f * ((10 ^ (d + 2) : Int) : Rat)| = |f| * 10 ^ (d + 2) := by
    rw [abs_mul]; push_cast; rw [abs_of_pos hp]
  obtain ⟨D, hD, hD1, hD2⟩ := ratTrunc_nonneg (a := |f| * 10 ^ (d + 2)) (by positivity)
  have hDlt : D < 10 ^ (d + 2) := by
    have : (D : Rat) < 10 ^ (d + 2) := lt_of_le_of_lt hD1 (by
      calc |f| * 10 ^ (d + 2) < 1 * 10 ^ (d + 2) := by
            exact mul_lt_mul_of_pos_right h1 hp
        _ = _ := one_mul _)
    exact_mod_cast this
  have hlen : (padZero (d + 2) D).length = d + 1 + 1 :=
    padZero_length _ _ ((digits_length_le D (d + 2) (by omega)).mpr hDlt)
  have hv : parseDigits ((padZero (d + 2) (ratTrunc |f * ((10 ^ (d + 2) : Int) : Rat)|).natAbs).take
      (d + 1)) = D / 10 := by
    rw [habs, hD, parseDigits_eq]
    rw [show ((D : Int).natAbs) = D from rfl, take_val _ _ hlen (isDigit_padZero _ _), padZero_val]
  have hdec : roundedDecimals f d = (D / 10 + 5) / 10 := by
    unfold roundedDecimals
    simp only [hv]
    split <;> omega
  rw [hdec]
  obtain ⟨v, hvdef⟩ : ∃ v, v = D / 10 := ⟨_, rfl⟩
  obtain ⟨r, hrdef⟩ : ∃ r, r = (v + 5) / 10 := ⟨_, rfl⟩
  rw [← hvdef, ← hrdef]
  have a1 : 10 * v ≤ D := by omega
  have a2 : D + 1 ≤ 10 * v + 10 := by omega
  have b1 : 10 * r ≤ v + 5 := by omega
  have b2 : v + 5 + 1 ≤ 10 * r + 10 := by omega
  have a1' : (10 : Rat) * v ≤ D := by exact_mod_cast a1
  have a2' : (D : Rat) + 1 ≤ 10 * v + 10 := by exact_mod_cast a2
  have b1' : (10 : Rat) * r ≤ v + 5 := by exact_mod_cast b1
  have b2' : (v : Rat) + 5 + 1 ≤ 10 * r + 10 := by exact_mod_cast b2
  have hpow : |f| * 10 ^ (d + 2) = 100 * (|f| * 10 ^ d) := by ring
  rw [hpow] at hD1 hD2
  refine ⟨?_, ?_, ?_⟩
  · have : D < 100 * 10 ^ d := by rw [pow_add] at hDlt; omega
    omega
  · linarith
  · linarith

end Dinero
