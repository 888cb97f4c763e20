import Verif.Spec.Date
import Verif.Lemmas.Grammar
import Mathlib.Tactic.IntervalCases
/-
Helper lemmas on dates.
-/
namespace Dinero
open P

/-! ### The calendar -/

theorem isLeap_iff (y : Int) : isLeap y = true ↔ ((4 ∣ y ∧ ¬ 100 ∣ y) ∨ 400 ∣ y) := by
  unfold isLeap
  simp only [Bool.or_eq_true, Bool.and_eq_true, decide_eq_true_eq, Bool.not_eq_true', decide_eq_false_iff_not]
  omega

theorem validDate_iff (y : Int) (m d : Nat) :
    ValidDate y m d ↔ (1 ≤ m ∧ m ≤ 12) ∧ (1 ≤ d ∧ d ≤ daysInMonth y m) := by
  by_cases hm : 1 ≤ m ∧ m ≤ 12
  · obtain ⟨h1, h2⟩ := hm
    unfold ValidDate daysInMonth
    rw [← isLeap_iff y]
    cases isLeap y <;> (interval_cases m <;> simp <;> omega)
  · refine ⟨fun h => absurd ?_ hm, fun h => absurd h.1 hm⟩
    obtain ⟨_, ⟨h, _⟩ | ⟨h, _⟩ | ⟨h, _⟩⟩ := h
    · simp at h; omega
    · simp at h; omega
    · omega

theorem fromYmd_ok {y : Int} {m d : Nat} {n : Date} :
    fromYmd y m d = .ok n ↔ (-262144 ≤ y ∧ y ≤ 262143) ∧ ValidDate y m d ∧ n = dayNumber y m d := by
  rw [validDate_iff]
  unfold fromYmd
  split
  · next h => simp only [Except.ok.injEq]; exact ⟨fun e => ⟨h.1, h.2, e.symm⟩, fun e => e.2.2.symm⟩
  · next h => exact ⟨fun e => by (cases e), fun e => absurd ⟨e.1, e.2.1⟩ h⟩

theorem daysInMonth_pos (y : Int) (m : Nat) : 28 ≤ daysInMonth y m := by
  unfold daysInMonth; split
  · split <;> omega
  · split <;> omega

theorem daysBeforeMonth_succ (y : Int) {m : Nat} (h : 1 ≤ m) :
    daysBeforeMonth y (m + 1) = daysBeforeMonth y m + daysInMonth y m := by
  obtain ⟨k, rfl⟩ : ∃ k, m = k + 1 := ⟨m - 1, by omega⟩
  rfl

theorem daysBeforeMonth_lt (y : Int) {a b : Nat} (ha : 1 ≤ a) (hab : a < b) :
    daysBeforeMonth y a + daysInMonth y a ≤ daysBeforeMonth y b := by
  obtain ⟨k, rfl⟩ : ∃ k, b = a + 1 + k := ⟨b - (a + 1), by omega⟩
  clear hab
  induction k with
  | zero => rw [Nat.add_zero, daysBeforeMonth_succ y ha]
  | succ k ih =>
    have := daysBeforeMonth_succ y (m := a + 1 + k) (by omega)
    have h2 : a + 1 + (k + 1) = a + 1 + k + 1 := by omega
    rw [h2]; omega

theorem year_length (y : Int) :
    daysBeforeMonth y 12 + daysInMonth y 12 = 365 + (if isLeap y then 1 else 0) := by
  simp only [daysBeforeMonth, daysInMonth]
  cases isLeap y <;> simp

/-- The days before the year. -/
def yearStart (y : Int) : Int := 365 * (y - 1) + (y - 1) / 4 - (y - 1) / 100 + (y - 1) / 400

theorem yearStart_succ (y : Int) : yearStart (y + 1) = yearStart y + 365 + (if isLeap y then 1 else 0) := by
  unfold yearStart
  have := isLeap_iff y
  split
  · next h => rw [this] at h; omega
  · next h => rw [this] at h; omega

theorem yearStart_mono {a b : Int} (h : a ≤ b) : yearStart a ≤ yearStart b := by
  unfold yearStart; omega

theorem dayNumber_eq (y : Int) (m d : Nat) :
    dayNumber y m d = yearStart y + ((daysBeforeMonth y m + d : Nat) : Int) := by
  unfold dayNumber yearStart; push_cast; omega

theorem dayNumber_lt_of_earlier {y y' : Int} {m m' d d' : Nat} (h : ValidDate y m d) (h' : ValidDate y' m' d')
    (he : Earlier (y, m, d) (y', m', d')) : dayNumber y m d < dayNumber y' m' d' := by
  rw [validDate_iff] at h h'
  rw [dayNumber_eq, dayNumber_eq]
  rcases he with hy | ⟨hy, hm | ⟨hm, hd⟩⟩
  · have h1 := yearStart_mono (a := y + 1) (b := y') (by simp only at hy; omega)
    rw [yearStart_succ] at h1
    have h2 := year_length y
    have h3 : daysBeforeMonth y m + daysInMonth y m ≤ daysBeforeMonth y 12 + daysInMonth y 12 := by
      by_cases h12 : m = 12
      · rw [h12]
      · have := daysBeforeMonth_lt y (a := m) (b := 12) h.1.1 (by omega); omega
    split at h1
    · next hl => simp only [hl, if_true] at h2; omega
    · next hl => simp only [hl] at h2; simp at h2; omega
  · simp only at hy hm; subst hy
    have := daysBeforeMonth_lt y h.1.1 hm
    omega
  · simp only at hy hm hd; subst hy; subst hm; omega

theorem earlier_trichotomy (a b : Int × Nat × Nat) : Earlier a b ∨ a = b ∨ Earlier b a := by
  obtain ⟨y, m, d⟩ := a; obtain ⟨y', m', d'⟩ := b
  simp only [Earlier, Prod.mk.injEq]; omega

theorem dayNumber_lt_iff {y y' : Int} {m m' d d' : Nat} (h : ValidDate y m d) (h' : ValidDate y' m' d') :
    dayNumber y m d < dayNumber y' m' d' ↔ Earlier (y, m, d) (y', m', d') := by
  refine ⟨fun hl => ?_, dayNumber_lt_of_earlier h h'⟩
  rcases earlier_trichotomy (y, m, d) (y', m', d') with he | he | he
  · exact he
  · simp only [Prod.mk.injEq] at he
    obtain ⟨rfl, rfl, rfl⟩ := he; omega
  · have := dayNumber_lt_of_earlier h' h he; omega

theorem dayNumber_inj {y y' : Int} {m m' d d' : Nat} (h : ValidDate y m d) (h' : ValidDate y' m' d')
    (he : dayNumber y m d = dayNumber y' m' d') : y = y' ∧ m = m' ∧ d = d' := by
  rcases earlier_trichotomy (y, m, d) (y', m', d') with hl | hl | hl
  · have := dayNumber_lt_of_earlier h h' hl; omega
  · simpa using hl
  · have := dayNumber_lt_of_earlier h' h hl; omega

theorem nextDay_valid (y : Int) (m d : Nat) :
    ValidDate (nextDay y m d).1 (nextDay y m d).2.1 (nextDay y m d).2.2 := by
  unfold nextDay
  split
  · next hv => exact hv
  · split
    · next hv => exact hv
    · rw [validDate_iff]; have := daysInMonth_pos (y + 1) 1; simp; omega

theorem dayNumber_next {y : Int} {m d : Nat} (h : ValidDate y m d) :
    dayNumber (nextDay y m d).1 (nextDay y m d).2.1 (nextDay y m d).2.2 = dayNumber y m d + 1 := by
  have hv := (validDate_iff y m d).mp h
  unfold nextDay
  split
  · simp only [dayNumber_eq]; push_cast; omega
  · next hn =>
    rw [validDate_iff] at hn
    have hd : d = daysInMonth y m := by omega
    split
    · have := daysBeforeMonth_succ y hv.1.1
      simp only [dayNumber_eq, this]; push_cast; omega
    · next hn' =>
      rw [validDate_iff] at hn'
      have := daysInMonth_pos y (m + 1)
      have hm : m = 12 := by omega
      subst hm
      simp only [dayNumber_eq, yearStart_succ]
      have := year_length y
      have h1 : daysBeforeMonth (y + 1) 1 = 0 := rfl
      rw [h1, hd]
      split
      · next hl => simp only [hl, if_true] at this; omega
      · next hl => simp only [hl] at this; simp at this; omega

/-! ### Reading dates -/

theorem isDig_cases {c : Char} (h : '0' ≤ c ∧ c ≤ '9') :
    c = '0' ∨ c = '1' ∨ c = '2' ∨ c = '3' ∨ c = '4' ∨ c = '5' ∨ c = '6' ∨ c = '7' ∨ c = '8' ∨ c = '9' := by
  have h1 : 48 ≤ c.toNat := h.1
  have h2 : c.toNat ≤ 57 := h.2
  have h3 : c = Char.ofNat c.toNat := (Char.ofNat_toNat c).symm
  generalize c.toNat = n at h1 h2 h3
  interval_cases n <;> simp_all

/-- No digit comes next. -/
def NoDigit (k : Str) : Prop := ∀ c, k.head? = some c → isDig c = false

theorem NoDigit.cons {c : Char} {k : Str} (h : isDig c = false) : NoDigit (c :: k) := by
  intro d hd; simp at hd; subst hd; exact h

theorem TwoDigits.cases {s : Str} {n : Nat} (h : TwoDigits s n) (hn : 1 ≤ n) :
    (∃ a, s = [a] ∧ ('1' ≤ a ∧ a ≤ '9') ∧ n = a.toNat - 48) ∨
    (∃ a b, s = [a, b] ∧ ('0' ≤ a ∧ a ≤ '9') ∧ ('0' ≤ b ∧ b ≤ '9') ∧
      n = 10 * (a.toNat - 48) + (b.toNat - 48)) := by
  obtain ⟨⟨h1, h2⟩, h3, h4⟩ := h
  match s, h1, h2, h3, h4 with
  | [], h1, _, _, _ => exact absurd rfl h1
  | [a], _, h2, _, h4 =>
    left
    have ha := h2 a (by simp)
    refine ⟨a, rfl, ⟨?_, ha.2⟩, by rw [← h4]; simp [digitsVal]⟩
    rcases isDig_cases ha with rfl | rfl | rfl | rfl | rfl | rfl | rfl | rfl | rfl | rfl <;>
      first | decide | (exfalso; revert h4 hn; simp [digitsVal]; omega)
  | [a, b], _, h2, _, h4 =>
    right
    refine ⟨a, b, rfl, h2 a (by simp), h2 b (by simp), by rw [← h4]; simp [digitsVal]⟩
  | _ :: _ :: _ :: _, _, _, h3, _ => simp at h3

theorem isDig_iff {c : Char} : isDig c = true ↔ '0' ≤ c ∧ c ≤ '9' := by simp [isDig]

/-- A digit is not matched by the next character. -/
theorem NoDigit.lit {k : Str} (h : NoDigit k) {d : Char} (hd : isDig d = true) : lit [d] k = none := by
  refine lit_none (by simp) ?_
  intro he
  cases k with
  | nil => simp at he
  | cons c k =>
    have : c = d := by simpa using he
    subst this
    have := h c rfl
    rw [hd] at this; cases this

theorem NoDigit.chr {k : Str} (h : NoDigit k) {p : Char → Bool} (hp : ∀ c, p c = true → isDig c = true) :
    chr p k = none := by
  cases k with
  | nil => rfl
  | cons c k =>
    have hc := h c rfl
    show (if p c then _ else none) = none
    rw [if_neg]
    intro hpc; rw [hp c hpc] at hc; cases hc

theorem NoDigit.lits {k : Str} (h : NoDigit k) : ∀ (ls : List String),
    (∀ l ∈ ls, ∃ d, l.toList = [d] ∧ isDig d = true) → lits ls k = none
  | [], _ => rfl
  | l :: ls, hl => by
    obtain ⟨d, h1, h2⟩ := hl l (by simp)
    show alt (P.lit l.toList) (P.lits ls) k = none
    rw [h1, alt_right (h.lit h2)]
    exact NoDigit.lits h ls (fun x hx => hl x (by simp [hx]))

theorem nonzero_one {a : Char} {k : Str} (h : '1' ≤ a ∧ a ≤ '9') : nonzeroDigit (a :: k) = some ([], k) := by
  show (if _ then _ else _) = _
  rw [if_pos (by simpa using h)]

theorem nonzero_isDig {a : Char} (h : '1' ≤ a ∧ a ≤ '9') : '0' ≤ a ∧ a ≤ '9' :=
  ⟨Nat.le_trans (show (48 : Nat) ≤ 49 by decide) (show 49 ≤ a.toNat from h.1), h.2⟩

theorem nonzero_cases {c : Char} (h : '1' ≤ c ∧ c ≤ '9') :
    c = '1' ∨ c = '2' ∨ c = '3' ∨ c = '4' ∨ c = '5' ∨ c = '6' ∨ c = '7' ∨ c = '8' ∨ c = '9' := by
  rcases isDig_cases (nonzero_isDig h) with rfl | h'
  · exact absurd h.1 (by decide)
  · exact h'

theorem gMonth_some {s k : Str} {n : Nat} (h : TwoDigits s n) (hn : 1 ≤ n ∧ n ≤ 12) (hk : NoDigit k) :
    gMonth (s ++ k) = some ([.mk .month s []], k) := by
  apply rule_some
  have hl := hk.lits ["0", "1", "2"] (by simp [isDig])
  rcases h.cases hn.1 with ⟨a, rfl, ha, rfl⟩ | ⟨a, b, rfl, ha, hb, rfl⟩
  · have h0 : opt (lit ['0']) (a :: k) = some ([], a :: k) := by
      unfold opt; rw [alt_right (lit_none (by simp) ?_)]; · rfl
      intro he
      have : a = '0' := by simpa using he
      subst this; exact absurd ha.1 (by decide)
    have h1 : seq (lit ['1']) (lits ["0", "1", "2"]) ([a] ++ k) = none := by
      by_cases h1 : a = '1'
      · subst h1; exact seq_none' (lit_append ['1'] k) hl
      · exact seq_none (lit_none (by simp) (by simpa using h1))
    rw [alt_right h1]
    exact seq_some h0 (nonzero_one ha)
  · rcases isDig_cases ha with rfl | rfl | rfl | rfl | rfl | rfl | rfl | rfl | rfl | rfl <;>
    rcases isDig_cases hb with rfl | rfl | rfl | rfl | rfl | rfl | rfl | rfl | rfl | rfl <;>
    first
      | rfl
      | (exfalso; revert hn; decide)

theorem gDay_some {s k : Str} {n : Nat} (h : TwoDigits s n) (hn : 1 ≤ n ∧ n ≤ 31) (hk : NoDigit k) :
    gDay (s ++ k) = some ([.mk .day s []], k) := by
  apply rule_some
  have hl := hk.lits ["0", "1"] (by simp [isDig])
  have hd : digit k = none := hk.chr (fun c hc => hc)
  rcases h.cases hn.1 with ⟨a, rfl, ha, rfl⟩ | ⟨a, b, rfl, ha, hb, rfl⟩
  · have h0 : opt (lit ['0']) (a :: k) = some ([], a :: k) := by
      unfold opt; rw [alt_right (lit_none (by simp) ?_)]; · rfl
      intro he
      have : a = '0' := by simpa using he
      subst this; exact absurd ha.1 (by decide)
    have h1 : seq (lit ['3']) (lits ["0", "1"]) ([a] ++ k) = none := by
      by_cases h1 : a = '3'
      · subst h1; exact seq_none' (lit_append ['3'] k) hl
      · exact seq_none (lit_none (by simp) (by simpa using h1))
    have h2 : seq (lits ["1", "2"]) digit ([a] ++ k) = none := by
      rcases nonzero_cases ha with rfl | rfl | rfl | rfl | rfl | rfl | rfl | rfl | rfl
      · exact seq_none' (s1 := k) (x := []) rfl hd
      · exact seq_none' (s1 := k) (x := []) rfl hd
      all_goals exact seq_none rfl
    rw [alt_right h1, alt_right h2]
    exact seq_some h0 (nonzero_one ha)
  · rcases isDig_cases ha with rfl | rfl | rfl | rfl | rfl | rfl | rfl | rfl | rfl | rfl <;>
    rcases isDig_cases hb with rfl | rfl | rfl | rfl | rfl | rfl | rfl | rfl | rfl | rfl <;>
    first
      | rfl
      | (exfalso; revert hn; decide)

theorem gYear_some {neg : Bool} {s k : Str} (h : IsDigits s) (hk : NoDigit k) :
    gYear (((if neg then ['-'] else []) ++ s) ++ k) = some ([.mk .year ((if neg then ['-'] else []) ++ s) []], k) := by
  apply rule_some
  have hb := bigint_some h hk
  cases neg with
  | true => exact seq_some (x := []) (s1 := s ++ k) (alt_left (lit_append ['-'] (s ++ k))) hb
  | false =>
    obtain ⟨c, r, rfl, hc⟩ := h.head
    have : opt (lit ['-']) (c :: r ++ k) = some ([], c :: r ++ k) := by
      unfold opt; rw [alt_right (lit_none (by simp) ?_)]; · rfl
      intro he
      have : c = '-' := by simpa using he
      subst this; exact absurd hc (by decide)
    exact seq_some (x := []) this hb

theorem gDateSep_some {c : Char} {k : Str} (h : c ∈ ['.', '/', '-']) :
    gDateSep (c :: k) = some ([.mk .dateSep [c] []], k) := by
  apply rule_some (t := [c])
  simp at h
  rcases h with rfl | rfl | rfl <;> rfl

theorem sep_noDigit {c : Char} {k : Str} (h : c ∈ ['.', '/', '-']) : NoDigit (c :: k) := by
  apply NoDigit.cons
  simp at h
  rcases h with rfl | rfl | rfl <;> rfl

theorem gDate_some {s k : Str} {y : Int} {m d : Nat} (h : WritesDate s y m d) (hm : 1 ≤ m ∧ m ≤ 12)
    (hd : 1 ≤ d ∧ d ≤ 31) (hk : NoDigit k) :
    ∃ p, gDate (s ++ k) = some ([p], k) ∧ p.rule = .date ∧ parseDate p = fromYmd y m d := by
  cases h with
  | @mk ys ms ds _ _ sep neg hy hm' hd' hs =>
  have hseq : seq gYear (seq gDateSep (seq gMonth (seq gDateSep gDay)))
      (((if neg then ['-'] else []) ++ ys ++ [sep] ++ ms ++ [sep] ++ ds) ++ k) =
      some ([.mk .year ((if neg then ['-'] else []) ++ ys) [], .mk .dateSep [sep] [], .mk .month ms [],
        .mk .dateSep [sep] [], .mk .day ds []], k) := by
    have e : ((if neg then ['-'] else []) ++ ys ++ [sep] ++ ms ++ [sep] ++ ds) ++ k =
        ((if neg then ['-'] else []) ++ ys) ++ (sep :: (ms ++ (sep :: (ds ++ k)))) := by simp
    rw [e]
    exact seq_some (gYear_some hy (sep_noDigit hs)) (seq_some (gDateSep_some hs)
      (seq_some (gMonth_some hm' hm (sep_noDigit hs)) (seq_some (gDateSep_some hs)
        (gDay_some hd' hd hk))))
  refine ⟨_, rule_some hseq, rfl, ?_⟩
  have h1 : intOf ((if neg then ['-'] else []) ++ ys) =
      some (if neg then -(digitsVal ys : Int) else (digitsVal ys : Int)) := by
    cases neg with
    | true =>
      show (natOf ys).map _ = _
      rw [natOf_digits hy]; rfl
    | false => exact intOf_digits hy
  simp only [parseDate, Pair.inner, Pair.text, h1, natOf_digits hm'.1, natOf_digits hd'.1, if_true,
    hm'.2.2, hd'.2.2]

/-! ### `date_parser` -/

/-- What `\d` matches: among the ASCII characters, the digits. -/
structure DigitClass (isDigit : Char → Bool) : Prop where
  digit : ∀ c, '0' ≤ c ∧ c ≤ '9' → isDigit c = true
  slash : isDigit '/' = false
  dash : isDigit '-' = false

theorem takeWhile_append_stop {α : Type} {p : α → Bool} {l : List α} {x : α} {r : List α}
    (h : ∀ a ∈ l, p a = true) (hx : p x = false) :
    (l ++ x :: r).takeWhile p = l ∧ (l ++ x :: r).dropWhile p = x :: r := by
  induction l with
  | nil => simp [hx]
  | cons a l ih =>
    have ha := h a (by simp)
    have := ih (fun b hb => h b (by simp [hb]))
    simp [ha, this]

theorem lastField_some {isDigit : Char → Bool} (hc : DigitClass isDigit) {pre s : Str} {n : Nat} {sep : Char}
    (hs : sep = '/' ∨ sep = '-') (h : TwoDigits s n) : lastField isDigit (pre ++ sep :: s) = some (pre, s) := by
  have hsep : isDigit sep = false := by
    rcases hs with rfl | rfl
    · exact hc.slash
    · exact hc.dash
  have hr : (pre ++ sep :: s).reverse = s.reverse ++ sep :: pre.reverse := by simp
  have hd := takeWhile_append_stop (p := isDigit) (l := s.reverse) (x := sep) (r := pre.reverse)
    (fun a ha => hc.digit a (h.1.2 a (by simpa using ha))) hsep
  have hl : s.length = 1 ∨ s.length = 2 := by
    have h1 := List.length_pos_iff.mpr h.1.1
    have h2 := h.2.1
    omega
  unfold lastField lastDigits
  simp only [hr, hd.1, hd.2, List.reverse_reverse, List.reverse_cons]
  rw [if_pos hl, if_pos (by simpa using hs)]
  simp

theorem lastYear_some {isDigit : Char → Bool} (hc : DigitClass isDigit) {pre s : Str} (h : IsDigits s)
    (hl : s.length = 4) : lastYear isDigit (pre ++ s) = some s := by
  have : ((pre ++ s).reverse.take 4).reverse = s := by
    rw [List.reverse_append, List.take_left' (by simpa using hl), List.reverse_reverse]
  unfold lastYear
  simp only [this]
  rw [if_pos ⟨hl, by rw [List.all_eq_true]; exact fun c hcs => hc.digit c (h.2 c hcs)⟩]

theorem reDate_some {isDigit : Char → Bool} (hc : DigitClass isDigit) {pre ys ms ds : Str} {m d : Nat}
    {s1 s2 : Char} (hy : IsDigits ys) (hl : ys.length = 4) (hm : TwoDigits ms m) (hd : TwoDigits ds d)
    (h1 : s1 = '/' ∨ s1 = '-') (h2 : s2 = '/' ∨ s2 = '-') :
    reDate isDigit (pre ++ ys ++ s1 :: ms ++ s2 :: ds) = some (ys, ms, ds) := by
  unfold reDate
  rw [lastField_some hc h2 hd]
  simp only
  rw [lastField_some hc h1 hm]
  simp only
  rw [lastYear_some hc hy hl]

theorem reMonth_some {isDigit : Char → Bool} (hc : DigitClass isDigit) {pre ys ms : Str} {m : Nat}
    {s1 : Char} (hy : IsDigits ys) (hl : ys.length = 4) (hm : TwoDigits ms m)
    (h1 : s1 = '/' ∨ s1 = '-') :
    reMonth isDigit (pre ++ ys ++ s1 :: ms) = some (ys, ms) := by
  unfold reMonth
  rw [lastField_some hc h1 hm]
  simp only
  rw [lastYear_some hc hy hl]

theorem ymdOf_digits {ys ms ds : Str} (hy : IsDigits ys) (hm : IsDigits ms) (hd : IsDigits ds) :
    ymdOf ys ms ds = fromYmd (digitsVal ys : Int) (digitsVal ms) (digitsVal ds) := by
  simp only [ymdOf, natOf_digits hy, natOf_digits hm, natOf_digits hd]

/-- No full date ends in a year and a month when less than a full date comes before. -/
theorem reDate_none {isDigit : Char → Bool} (hc : DigitClass isDigit) {ys ms : Str} {m : Nat}
    {s1 : Char} (hy : IsDigits ys) (hl : ys.length = 4) (hm : TwoDigits ms m)
    (h1 : s1 = '/' ∨ s1 = '-') : reDate isDigit (ys ++ s1 :: ms) = none := by
  unfold reDate
  rw [lastField_some hc h1 hm]
  have : lastField isDigit ys = none := by
    unfold lastField lastDigits
    have hall : ∀ a ∈ ys.reverse, isDigit a = true := fun a ha => hc.digit a (hy.2 a (by simpa using ha))
    have : ys.reverse.takeWhile isDigit = ys.reverse := by
      simpa using List.takeWhile_append_of_pos (l₂ := []) hall
    simp only [this]
    rw [if_neg]
    simp [hl]
  simp only [this]

end Dinero
