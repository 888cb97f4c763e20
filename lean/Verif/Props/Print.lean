import Verif.Lemmas.Print
import Verif.Props.Date
/-
Property theorems about what is printed (C91-C93).
-/
namespace Dinero

/-! ### C91: printed dates -/

/-- A printed date is read back by the journal grammar as the same date, up to the year 9999. -/
theorem C91_read_partial {y : Int} {m d : Nat} {n : Date} {k : Str} (h : fromYmd y m d = .ok n) (hy : y ≤ 9999)
    (hk : ∀ c r, k = c :: r → ¬ ('0' ≤ c ∧ c ≤ '9')) :
    ∃ p, gDate (isoDate n ++ k) = some ([p], k) ∧ parseDate p = .ok n := by
  obtain ⟨hr, hv, rfl⟩ := fromYmd_ok.mp h
  have hv' := (validDate_iff y m d).mp hv
  have hd31 : daysInMonth y m ≤ 31 := by unfold daysInMonth; split <;> split <;> omega
  obtain ⟨p, h1, _, h2⟩ := gDate_some (isoDate_writes hv hy) hv'.1 (by omega) (k := k) (by
    intro c hc
    cases k with
    | nil => cases hc
    | cons x r => cases hc; have := hk _ _ rfl; simpa [isDig] using this)
  exact ⟨p, h1, by rw [h2, h]⟩

/-- The full statement is false: a date from the year 10000 on is printed with a plus sign, which is not read. -/
theorem C91_false {y : Int} {m d : Nat} {n : Date} (h : fromYmd y m d = .ok n) (hy : 10000 ≤ y) (k : Str) :
    gDate (isoDate n ++ k) = none := by
  obtain ⟨hr, hv, rfl⟩ := fromYmd_ok.mp h
  unfold isoDate
  rw [civil_dayNumber hv]
  simp only
  rw [if_neg (by omega), if_neg (by omega)]
  rfl

/-- The same on the command line, for years with at most four digits. -/
theorem C91_command_line {isDigit : Char → Bool} (hc : DigitClass isDigit) {other : Str → Option Date} {y : Int}
    {m d : Nat} {n : Date} (h : fromYmd y m d = .ok n) (hy : 0 ≤ y ∧ y ≤ 9999) :
    dateParser isDigit other (isoDate n) = .ok n := by
  obtain ⟨hr, hv, rfl⟩ := fromYmd_ok.mp h
  have hv' := (validDate_iff y m d).mp hv
  have hd31 : daysInMonth y m ≤ 31 := by unfold daysInMonth; split <;> split <;> omega
  have e := (C70_command_line hc (other := other) (pre := []) (s1 := '-') (s2 := '-') (isDigits_padZero 4 y.natAbs)
    (padZero_length 4 _ ((digits_length_le _ 4 (by omega)).mpr (by omega))) (m := m) (d := d)
    ⟨isDigits_padZero 2 m, by rw [padZero_length 2 m ((digits_length_le m 2 (by omega)).mpr (by omega))], padZero_val 2 m⟩
    ⟨isDigits_padZero 2 d, by rw [padZero_length 2 d ((digits_length_le d 2 (by omega)).mpr (by omega))], padZero_val 2 d⟩
    (.inr rfl) (.inr rfl)).1
  rw [padZero_val, Int.natAbs_of_nonneg hy.1, h] at e
  unfold isoDate
  rw [civil_dayNumber hv]
  simp only [if_pos hy]
  simpa using e

/-- Printed dates have the same length and are ordered like the dates, for years with at most four digits. -/
theorem C91_order {y y' : Int} {m m' d d' : Nat} {a b : Date} (ha : fromYmd y m d = .ok a)
    (hb : fromYmd y' m' d' = .ok b) (hy : 0 ≤ y ∧ y ≤ 9999) (hy' : 0 ≤ y' ∧ y' ≤ 9999) :
    (isoDate a).length = 10 ∧ (isoDate a < isoDate b ↔ a < b) := by
  obtain ⟨_, h1, rfl⟩ := fromYmd_ok.mp ha
  obtain ⟨_, h2, rfl⟩ := fromYmd_ok.mp hb
  exact ⟨isoDate_length h1 hy.1 hy.2, by rw [isoDate_lt h1 h2 hy hy', dayNumber_lt_iff h1 h2]⟩

example : isoDate (dayNumber 2024 2 29) = "2024-02-29".toList ∧ isoDate (dayNumber 33 1 2) = "0033-01-02".toList ∧
    isoDate (dayNumber (-5) 12 31) = "-0005-12-31".toList ∧ isoDate (dayNumber 12345 6 7) = "+12345-06-07".toList := by
  decide +kernel

/-! ### C92: the layout of the register -/

/-- What the register writes for a payee: short names in full, all others with two dots after the first 39 characters
of the name and a blank.  The column has a blank at the end in any case. -/
theorem C92_payee_partial (p : Str) : (clip (p ++ [' ']) 42).length ≤ 41 ∧
    (byteLen p ≤ 37 → clip (p ++ [' ']) 42 = p ++ [' ']) ∧
    (38 ≤ byteLen p → clip (p ++ [' ']) 42 = (p ++ [' ']).take 39 ++ ['.', '.']) := by
  have e : byteLen (p ++ [' ']) = byteLen p + 1 := by
    have : ' '.utf8Size = 1 := by decide
    simp [byteLen, this]
  obtain ⟨_, _, _, h, _⟩ := clip_shown p
  refine ⟨h, fun hp => ?_, fun hp => ?_⟩
  · unfold clip; rw [if_pos (by omega)]
  · unfold clip; rw [if_neg (by omega)]

/-- The full statement is false: a complete name can be marked as cut.  A name of 38 characters is, and so is a shorter
one that is not ASCII. -/
theorem C92_false : clip ("12345678901234567890123456789012345678".toList ++ [' ']) 42 =
      "12345678901234567890123456789012345678 ..".toList ∧
    clip ("ééééééééééééééééééé".toList ++ [' ']) 42 = "ééééééééééééééééééé ..".toList := by
  decide +kernel

/-- The register is a table: rows of the same width, with the date, the payee, the account, the amount and the running
totals in their columns, one row for each running total. -/
theorem C92_register {term : Option Nat} {lines : List RegLine} (h : ∀ l ∈ lines, Fits (regCols term) l) :
    ∃ rows : List (List Str), rowsFrom [] (registerText term lines) = rows.flatten ∧
      List.Forall₂ (RowsOf (regCols term)) lines rows := by
  generalize hc : regCols term = c at h
  have hrun : ∀ (ms : List Money) (s : Str), (∀ m ∈ ms, m.shown.length ≤ c.balance ∧ '\n' ∉ m.shown) →
      ∃ rows, rowsFrom [] (runningText c false ms ++ s) = rows ++ rowsFrom [] s ∧
        List.Forall₂ (fun m row => NextRow c (Money.shown m) row) ms rows := by
    intro ms
    induction ms with
    | nil => intro s _; exact ⟨[], rfl, .nil⟩
    | cons m ms ih =>
      intro s hm
      obtain ⟨rows, e, hr⟩ := ih s (fun m' hm' => hm m' (by simp [hm']))
      obtain ⟨h1, h2⟩ := hm m (by simp)
      refine ⟨(padRight (11 + 42 + c.account + c.amount) [] ++ padLeft c.balance m.shown) :: rows, ?_, .cons ?_ hr⟩
      · simp only [runningText, Bool.false_eq_true, if_false, List.append_assoc, List.cons_append, List.nil_append]
        rw [← List.append_assoc, rowsFrom_row, e]
        · rfl
        · simp only [List.mem_append, not_or]
          exact ⟨padRight_nl (by simp), padLeft_nl h2⟩
      · have l1 : (padRight (11 + 42 + c.account + c.amount) []).length = 53 + c.account + c.amount :=
          padRight_length (by simp)
        have l2 := padLeft_length h1
        refine ⟨by rw [List.length_append, l1, l2], ?_, ?_⟩
        · have := column_mid (a := []) (c := padLeft c.balance m.shown) rfl l1
          rw [List.nil_append, List.length_nil] at this
          rw [this]; exact atLeft_padRight _ _
        · rw [column_end l1 l2]; exact atRight_padLeft _ _
  have hreg : ∀ lines, registerText term lines = lines.flatMap (fun l => regLineText c l) := fun lines => by
    unfold registerText; rw [hc]
  simp only [hreg] at *
  induction lines with
  | nil => exact ⟨[], rfl, .nil⟩
  | cons l lines ih =>
    obtain ⟨rows, e, hf⟩ := ih (fun l hl => h l (by simp [hl]))
    have hl := h l (by simp)
    cases hms : l.running with
    | nil => exact absurd hms hl.some
    | cons m ms =>
      have hrunning := hl.running
      rw [hms] at hrunning
      obtain ⟨h1, h2⟩ := hrunning m (by simp)
      obtain ⟨next, e', hn⟩ := hrun ms (lines.flatMap (regLineText c)) (fun m' hm' => hrunning m' (by simp [hm']))
      have hhead : (datePayeeText l.header).length = 53 ∧ '\n' ∉ datePayeeText l.header ∧
          (∀ d p, l.header = some (d, p) → AtLeft (column (datePayeeText l.header) 0 11) (isoDate d) ∧
            ∃ t, PayeeShown p t ∧ AtLeft (column (datePayeeText l.header) 11 42) t) ∧
          (l.header = none → AtLeft (datePayeeText l.header) []) := by
        cases hh : l.header with
        | none => exact ⟨by decide, by decide, fun _ _ e => (by cases e), fun _ => ⟨53, by decide⟩⟩
        | some x =>
          obtain ⟨d, p⟩ := x
          obtain ⟨g1, g2⟩ := hl.date d p hh
          obtain ⟨t, k1, k2, k3, k4⟩ := clip_shown p
          have l1 : (padRight 11 (isoDate d)).length = 11 := padRight_length g1
          have l2 : (padRight 42 (clip (p ++ [' ']) 42)).length = 42 := padRight_length (by omega)
          have hnl : '\n' ∉ isoDate d := isoDate_nl d
          refine ⟨by simp only [datePayeeText, List.length_append]; omega, ?_, ?_, fun e => (by cases e)⟩
          · simp only [datePayeeText, List.mem_append, not_or]
            exact ⟨padRight_nl hnl, padRight_nl (k4 g2)⟩
          · rintro d' p' e
            cases e
            refine ⟨?_, t, k1, ?_⟩
            · have := column_mid (a := []) (c := padRight 42 (clip (p ++ [' ']) 42)) rfl l1
              rw [List.nil_append, List.length_nil] at this
              simp only [datePayeeText]
              rw [this]; exact atLeft_padRight _ _
            · simp only [datePayeeText]
              rw [column_end l1 l2]
              rcases k2 with k2 | k2
              · rw [k2]; exact atLeft_padRight _ _
              · rw [k2]
                obtain ⟨k, hk⟩ := atLeft_padRight 42 (t ++ [' '])
                exact ⟨k + 1, by rw [hk, List.append_assoc]; rfl⟩
      obtain ⟨hh1, hh2, hh3, hh4⟩ := hhead
      have l1 : (padRight c.account (accountShown l.kind l.account)).length = c.account := padRight_length hl.account.1
      have l2 : (padLeft c.amount l.amount.shown).length = c.amount := padLeft_length hl.amount.1
      have l3 : (padLeft c.balance m.shown).length = c.balance := padLeft_length h1
      generalize hA : datePayeeText l.header = A at *
      generalize hB : padRight c.account (accountShown l.kind l.account) = B at *
      generalize hC : padLeft c.amount l.amount.shown = C at *
      generalize hD : padLeft c.balance m.shown = D at *
      refine ⟨((A ++ (B ++ (C ++ D))) :: next) :: rows, ?_, .cons ⟨m, ms, hms, ?_, hn⟩ hf⟩
      · have hline : regLineText c l = A ++ B ++ C ++ runningText c true (m :: ms) := by
          unfold regLineText
          rw [hms, hA, hB, hC]
        rw [List.flatMap_cons, hline]
        simp only [runningText, if_true, List.nil_append, hD]
        have : A ++ B ++ C ++ (D ++ ['\n'] ++ runningText c false ms) ++ List.flatMap (regLineText c) lines =
            (A ++ (B ++ (C ++ D))) ++ '\n' :: (runningText c false ms ++ List.flatMap (regLineText c) lines) := by
          simp
        rw [this, rowsFrom_row, e', e]
        · simp
        · simp only [List.mem_append, not_or]
          refine ⟨hh2, ?_, ?_, ?_⟩
          · rw [← hB]
            refine padRight_nl ?_
            have := hl.account.2
            cases l.kind <;> simp [accountShown, this]
          · rw [← hC]; exact padLeft_nl hl.amount.2
          · rw [← hD]; exact padLeft_nl h2
      · have c1 : column (A ++ (B ++ (C ++ D))) 53 c.account = B := column_mid hh1 l1
        have c2 : column (A ++ (B ++ (C ++ D))) (53 + c.account) c.amount = C := by
          rw [← List.append_assoc]
          exact column_mid (by rw [List.length_append, hh1, l1]) l2
        have c3 : column (A ++ (B ++ (C ++ D))) (53 + c.account + c.amount) c.balance = D := by
          rw [← List.append_assoc, ← List.append_assoc]
          exact column_end (by rw [List.length_append, List.length_append, hh1, l1, l2]) l3
        have cA : ∀ a w, a + w ≤ 53 → column (A ++ (B ++ (C ++ D))) a w = column A a w := by
          intro a w haw
          unfold column
          rw [List.drop_append_of_le_length (by omega), List.take_append_of_le_length (by rw [List.length_drop]; omega)]
        refine ⟨by simp only [List.length_append]; omega, ?_, ?_, ?_, ?_, ?_, ?_⟩
        · intro d p e
          rw [cA 0 11 (by omega)]; exact (hh3 d p e).1
        · intro d p e
          rw [cA 11 42 (by omega)]; exact (hh3 d p e).2
        · intro e
          rw [cA 0 53 (by omega)]
          have : column A 0 53 = A := by unfold column; rw [List.drop_zero, ← hh1, List.take_length]
          rw [this]; exact hh4 e
        · rw [c1, ← hB]; exact atLeft_padRight _ _
        · rw [c2, ← hC]; exact atRight_padLeft _ _
        · rw [c3, ← hD]; exact atRight_padLeft _ _

/-- Non-vacuity: a posting with two running totals and one without a header, in a terminal of 100 columns. -/
example : (∀ l ∈ [(⟨some (738000, "Shop".toList), "Food".toList, .real, .mk 5 "USD".toList,
      [.mk 5 "USD".toList, .mk (-2) "EUR".toList]⟩ : RegLine),
      ⟨none, "Cash".toList, .virt, .mk (-5) "USD".toList, [.mk (-2) "EUR".toList]⟩], Fits (regCols (some 120)) l) := by
  intro l hl
  simp only [List.mem_cons, List.not_mem_nil, or_false] at hl
  rcases hl with rfl | rfl
  · exact ⟨fun d p e => (by cases e; decide +kernel), by decide +kernel, by decide +kernel, by decide +kernel, by decide +kernel⟩
  · exact ⟨fun d p e => (by cases e), by decide +kernel, by decide +kernel, by decide +kernel, by decide +kernel⟩

/-! ### C93: reading a balance report -/

/-- A balance report can be read back from what is printed: the accounts, their levels and their amounts, and the
total. -/
theorem C93_balance {flat : Bool} {rep : BalReport} (h : ∀ l ∈ rep.lines, Legible l ∧ (flat ∨ 1 ≤ l.indent))
    (ht : ∀ ms, rep.total = some ms → ∀ m ∈ ms, '\n' ∉ m.shown) :
    readRows (rowsFrom [] (balanceText flat rep)) [] =
      (rep.lines.map (fun l => (l.label, if flat then 2 else 2 * l.indent, l.amounts.map Money.shown)),
        rep.total.map (fun ms => if ms = [] then [['0']] else ms.map Money.shown)) := by
  have hun : ∀ (w : Nat) (s : Str), s.head? ≠ some ' ' → unblank (padLeft w s) = s := fun w s hs => unblank_blanks _ hs
  have hrow : ∀ (m : Money) (s : Str), padLeft 20 m.shown ++ s ≠ List.replicate 20 '-' := by
    intro m s e
    obtain ⟨c, hc, h1, _⟩ := shown_digit m
    have : c ∈ List.replicate 20 '-' := by rw [← e]; simp [padLeft, hc]
    exact h1 (List.eq_of_mem_replicate this)
  have hamounts : ∀ (ms : List Money) (acc : List Str) (tail s : Str), ms ≠ [] → tail ≠ [] →
      (∀ m ∈ ms, m.shown.length ≤ 20 ∧ '\n' ∉ m.shown) → '\n' ∉ tail →
      readRows (rowsFrom [] (amountsText ms ++ (tail ++ '\n' :: s))) acc =
        ((unblank tail, tail.length - (unblank tail).length, acc ++ ms.map Money.shown) ::
          (readRows (rowsFrom [] s) []).1, (readRows (rowsFrom [] s) []).2) := by
    intro ms
    induction ms with
    | nil => intro acc tail s h; exact absurd rfl h
    | cons m ms ih =>
      intro acc tail s _ htail hm hnl
      obtain ⟨h1, h2⟩ := hm m (by simp)
      have hlen : (padLeft 20 m.shown).length = 20 := padLeft_length h1
      cases ms with
      | nil =>
        rw [amountsText, ← List.append_assoc, rowsFrom_row (by simp [padLeft_nl h2, hnl]), List.nil_append, readRows,
          if_neg (hrow m tail), if_neg]
        · have d1 : (padLeft 20 m.shown ++ tail).drop 20 = tail := by
            have := List.drop_left (l₁ := padLeft 20 m.shown) (l₂ := tail)
            rwa [hlen] at this
          have d2 : (padLeft 20 m.shown ++ tail).take 20 = padLeft 20 m.shown := by
            have := List.take_left (l₁ := padLeft 20 m.shown) (l₂ := tail)
            rwa [hlen] at this
          simp only [d1, d2, List.map_cons, List.map_nil]
          rw [hun 20 _ (shown_head m).2]
        · rw [List.length_append, hlen]
          have := List.length_pos_iff.2 htail
          omega
      | cons m' ms =>
        rw [amountsText, List.append_assoc, List.cons_append, rowsFrom_row (padLeft_nl h2), List.nil_append, readRows,
          if_neg (by simpa using hrow m []), if_pos (by omega), hun 20 _ (shown_head m).2,
          ih _ _ _ (by simp) htail (fun m hm' => hm m (by simp [hm'])) hnl]
        · simp
        · simp
  obtain ⟨lines, total⟩ := rep
  simp only at h ht
  unfold balanceText
  simp only
  induction lines with
  | nil =>
    cases total with
    | none => rfl
    | some ms =>
      have hdash : '\n' ∉ List.replicate 20 '-' := by decide
      have hrest : ∀ ms : List Money, (∀ m ∈ ms, '\n' ∉ m.shown) → ∀ acc : Str, '\n' ∉ acc →
          rowsFrom [] (acc ++ ms.flatMap (fun m => '\n' :: padLeft 20 m.shown) ++ ['\n']) =
            acc :: ms.map (fun m => padLeft 20 m.shown) := by
        intro ms
        induction ms with
        | nil => intro _ acc hacc; simpa [rowsFrom] using rowsFrom_row hacc [] []
        | cons m ms ih =>
          intro hm acc hacc
          have := ih (fun m hm' => hm m (by simp [hm'])) (padLeft 20 m.shown) (padLeft_nl (hm m (by simp)))
          rw [List.flatMap_cons, List.cons_append, List.append_assoc, List.cons_append, rowsFrom_row hacc, this]
          rfl
      cases ms with
      | nil => cases flat <;> decide
      | cons m ms =>
        have hm := ht _ rfl
        simp only [List.flatMap_nil, List.nil_append, endText, totalText]
        rw [hrest _ hm _ hdash, readRows, if_pos rfl]
        simp only [List.map_map, List.map_nil, Option.map_some, reduceCtorEq, if_false, Prod.mk.injEq, true_and,
          Option.some.injEq]
        refine List.map_congr_left fun m _ => ?_
        exact hun 20 _ (shown_head m).2
  | cons l lines ih =>
    obtain ⟨hl, hi⟩ := h l (by simp)
    have := ih (fun l hl => h l (by simp [hl]))
    generalize hk : (if flat = true then 2 else 2 * l.indent) = k at *
    have hk2 : 2 ≤ k := by
      cases flat with
      | true => simp at hk; omega
      | false => simp at hk hi; omega
    have e : balLineText flat l = amountsText l.amounts ++ ((List.replicate k ' ' ++ l.label) ++ ['\n']) := by
      unfold balLineText; rw [hk]; simp
    have hn : unblank (List.replicate k ' ' ++ l.label) = l.label := unblank_blanks _ hl.label.1
    rw [List.flatMap_cons, e]
    have := hamounts l.amounts [] (List.replicate k ' ' ++ l.label) (lines.flatMap (balLineText flat) ++ endText total)
      hl.amounts.1 (by intro e; have := congrArg List.length e; simp at this; omega) hl.amounts.2
      (by simp [hl.label.2])
    simp only [List.append_assoc, List.cons_append, List.nil_append] at this ⊢
    rw [this, hn]
    simp_all

end Dinero
