import Verif.Spec.Colour
import Verif.Spec.App
import Verif.Lemmas.Report
/-
Lemmas about escape sequences.
-/
namespace Dinero

theorem escChar_eq : escChar = '\x1b' := by decide

theorem write_append (s : Screen) (a b : Str) :
    s.write (a ++ b) = ((s.write a).1 ++ ((s.write a).2.write b).1, ((s.write a).2.write b).2) := by
  induction a generalizing s with
  | nil => simp [Screen.write]
  | cons c a ih =>
    rw [List.cons_append, Screen.write, Screen.write]
    split
    · split
      · rw [ih]
      · simp only [ih, List.cons_append]
    · split <;> rw [ih]

theorem write_plain {l : Look} {s : Str} (h : escChar ∉ s) : ({ look := l } : Screen).write s = (ink l s, { look := l }) := by
  induction s with
  | nil => rfl
  | cons c s ih =>
    have hc : c ≠ '\x1b' := fun e => h (by rw [e, ← escChar_eq]; exact List.mem_cons_self)
    rw [Screen.write]
    simp only
    rw [if_neg hc, ih (fun hm => h (List.mem_cons_of_mem _ hm))]
    rfl

/-- How a text looks that has been painted. -/
def Paint.look : Paint → Look
  | .blue => blueLook
  | .red => redLook
  | .bold => { bold := true }
  | .boldGreen => { bold := true, colour := some 92 }
  | .boldRed => { bold := true, colour := some 91 }

theorem write_style (p : Paint) : ({} : Screen).write p.style = ([], { look := p.look }) := by
  cases p <;> decide

theorem write_reset (l : Look) : ({ look := l } : Screen).write resetSeq = ([], {}) := rfl

theorem restyle_plain {style s : Str} (h : escChar ∉ s) : restyle style s = s := by
  induction s with
  | nil => rfl
  | cons c s ih =>
    have hc : c ≠ escChar := fun e => h (by rw [e]; exact List.mem_cons_self)
    have hs : escChar ∉ s := fun hm => h (List.mem_cons_of_mem _ hm)
    unfold restyle
    split
    · cases ‹_ = []›
    · rename_i e
      injection e with e1 e2
      subst e1 e2
      rw [if_neg hc, ih hs]
    · rename_i e
      injection e with e1 e2
      subst e1 e2
      rw [ih hs]

/-- A text without escape sequences, and one with, that a terminal shows like this. -/
def ShownAs (raw : Str) (cells : List (Char × Look)) : Prop := ({} : Screen).write raw = (cells, {})

theorem ShownAs.append {a b : Str} {x y : List (Char × Look)} (h1 : ShownAs a x) (h2 : ShownAs b y) :
    ShownAs (a ++ b) (x ++ y) := by
  unfold ShownAs at *
  rw [write_append, h1]
  simp only [h2]

theorem ShownAs.nil : ShownAs [] [] := rfl

theorem shownAs_plain {s : Str} (h : escChar ∉ s) : ShownAs s (ink {} s) := write_plain h

theorem shownAs_painted {p : Paint} {pad : Str → Str} {s : Str} (h : escChar ∉ s) (hp : escChar ∉ pad s) :
    ShownAs (painted true p pad s) (ink p.look (pad s)) := by
  unfold ShownAs painted
  rw [if_pos rfl, restyle_plain h, write_append, write_append, write_style]
  simp only
  rw [write_plain hp]
  simp only
  rw [write_reset]
  simp

theorem shownAs_flatMap {α : Type} {l : List α} {f : α → Str} {g : α → List (Char × Look)}
    (h : ∀ x ∈ l, ShownAs (f x) (g x)) : ShownAs (l.flatMap f) (l.flatMap g) := by
  induction l with
  | nil => exact .nil
  | cons x l ih =>
    rw [List.flatMap_cons, List.flatMap_cons]
    exact (h x List.mem_cons_self).append (ih fun y hy => h y (List.mem_cons_of_mem _ hy))

theorem ink_chars (l : Look) (s : Str) : (ink l s).map Prod.fst = s := by
  unfold ink
  rw [List.map_map]
  exact List.map_id' s

theorem padLeft_free {n : Nat} {s : Str} (h : escChar ∉ padLeft n s) : escChar ∉ s :=
  fun hm => h (by unfold padLeft; exact List.mem_append_right _ hm)

theorem padRight_free {n : Nat} {s : Str} (h : escChar ∉ padRight n s) : escChar ∉ s :=
  fun hm => h (by unfold padRight; exact List.mem_append_left _ hm)

theorem isNegative_iff (m : Money) : m.isNegative = true ↔ m.amount < 0 ∨ m = .zero := by
  cases m with
  | zero => simp [Money.isNegative]
  | mk a c => simp [Money.isNegative, Money.amount]

theorem isPositive_iff (m : Money) : (!m.isPositive) = true ↔ m.amount < 0 ∨ (m.amount = 0 ∧ m ≠ .zero) := by
  cases m with
  | zero => simp [Money.isPositive, Money.amount]
  | mk a c => simp [Money.isPositive, Money.amount, le_iff_lt_or_eq]

theorem shownAs_maybeRed {red : Bool} {n : Nat} {s : Str} {l : Look} (h : escChar ∉ padLeft n s)
    (hl : l = if red = true then redLook else {}) : ShownAs (maybeRed true red (padLeft n) s) (ink l (padLeft n s)) := by
  subst hl
  unfold maybeRed
  cases red with
  | true => exact shownAs_painted (padLeft_free h) h
  | false => exact shownAs_plain h

theorem amountLook_eq (m : Money) : amountLook m = if m.isNegative = true then redLook else {} := by
  unfold amountLook
  by_cases h : m.isNegative = true
  · rw [if_pos h, if_pos ((isNegative_iff m).mp h)]
  · rw [if_neg h, if_neg (fun hx => h ((isNegative_iff m).mpr hx))]

theorem runningLook_eq (m : Money) : runningLook m = if (!m.isPositive) = true then redLook else {} := by
  unfold runningLook
  by_cases h : (!m.isPositive) = true
  · rw [if_pos h, if_pos ((isPositive_iff m).mp h)]
  · rw [if_neg h, if_neg (fun hx => h ((isPositive_iff m).mpr hx))]

theorem not_mem_left {c : Char} {a b : Str} (h : c ∉ a ++ b) : c ∉ a := fun hm => h (List.mem_append_left _ hm)

theorem not_mem_right {c : Char} {a b : Str} (h : c ∉ a ++ b) : c ∉ b := fun hm => h (List.mem_append_right _ hm)

/-! ### The register -/

theorem running_shown {c : RegCols} {first : Bool} {ms : List Money} (h : escChar ∉ runningText c first ms) :
    ShownAs (runningPaint true c first ms) (runningSeen c first ms) := by
  induction ms generalizing first with
  | nil => exact .nil
  | cons m ms ih =>
    rw [runningText] at h
    rw [runningPaint, runningSeen]
    have h1 := not_mem_left (not_mem_left (not_mem_left h))
    have e : (if first = true then ([] : Str) else padRight (11 + 42 + c.account + c.amount) []) =
        if first = true then [] else List.replicate (53 + c.account + c.amount) ' ' := by
      cases first <;> simp [padRight]
    refine (((e ▸ shownAs_plain h1).append (shownAs_maybeRed (not_mem_right (not_mem_left (not_mem_left h)))
      (runningLook_eq m))).append (shownAs_plain (by decide))).append (ih (not_mem_right h))

theorem regLine_shown {c : RegCols} {l : RegLine} (h : escChar ∉ regLineText c l) :
    ShownAs (regLinePaint true c l) (regLineSeen c l) := by
  unfold regLineText at h
  unfold regLinePaint regLineSeen
  have h2 := not_mem_right (not_mem_left (not_mem_left h))
  exact (((shownAs_plain (not_mem_left (not_mem_left (not_mem_left h)))).append
    (shownAs_painted (p := .blue) (padRight_free h2) h2)).append
    (shownAs_maybeRed (not_mem_right (not_mem_left h)) (amountLook_eq _))).append (running_shown (not_mem_right h))

theorem register_shown {term : Option Nat} {ls : List RegLine} (h : escChar ∉ registerText term ls) :
    ShownAs (registerPaint true term ls) (ls.flatMap (regLineSeen (regCols term))) :=
  shownAs_flatMap fun l hl => regLine_shown fun hm => h (List.mem_flatMap.mpr ⟨l, hl, hm⟩)

theorem runningSeen_chars (c : RegCols) (first : Bool) (ms : List Money) :
    (runningSeen c first ms).map Prod.fst = runningText c first ms := by
  induction ms generalizing first with
  | nil => rfl
  | cons m ms ih =>
    rw [runningSeen, runningText]
    simp only [List.map_append, ink_chars, ih]
    cases first <;> simp [padRight]

theorem regLineSeen_chars (c : RegCols) (l : RegLine) : (regLineSeen c l).map Prod.fst = regLineText c l := by
  unfold regLineSeen regLineText
  simp only [List.map_append, ink_chars, runningSeen_chars]

theorem flatMap_chars {α : Type} {l : List α} {f : α → Str} {g : α → List (Char × Look)}
    (h : ∀ x, (g x).map Prod.fst = f x) : (l.flatMap g).map Prod.fst = l.flatMap f := by
  rw [List.map_flatMap]
  simp only [h]

/-! ### The balance -/

theorem amounts_shown {ms : List Money} (h : escChar ∉ amountsText ms) : ShownAs (amountsPaint true ms) (amountsSeen ms) := by
  induction ms with
  | nil => exact shownAs_plain h
  | cons m ms ih =>
    cases ms with
    | nil => exact shownAs_maybeRed h (amountLook_eq m)
    | cons m' ms =>
      rw [amountsText.eq_def] at h
      rw [amountsPaint.eq_def, amountsSeen.eq_def]
      simp only at h ⊢
      rw [← List.singleton_append, ← List.append_assoc] at h ⊢
      exact ((shownAs_maybeRed (not_mem_left (not_mem_left h)) (amountLook_eq m)).append (shownAs_plain (by decide))).append
        (ih (not_mem_right h))

theorem balLine_shown {flat : Bool} {l : BalLine} (h : escChar ∉ balLineText flat l) :
    ShownAs (balLinePaint true flat l) (balLineSeen flat l) := by
  unfold balLineText at h
  unfold balLinePaint balLineSeen
  have h2 := not_mem_right (not_mem_left h)
  exact (((amounts_shown (not_mem_left (not_mem_left (not_mem_left h)))).append
    (shownAs_plain (not_mem_right (not_mem_left (not_mem_left h))))).append
    (shownAs_painted (p := .blue) (pad := id) h2 h2)).append (shownAs_plain (not_mem_right h))

theorem end_shown {t : Option (List Money)} (h : escChar ∉ endText t) : ShownAs (endPaint true t) (totalSeen t) := by
  match t with
  | none => exact .nil
  | some [] => exact shownAs_plain h
  | some (m :: ms) =>
    unfold endText totalText at h
    refine ((shownAs_plain (not_mem_left (not_mem_left h))).append (shownAs_flatMap fun x hx => ?_)).append
      (shownAs_plain (not_mem_right h))
    have hx' : escChar ∉ '\n' :: padLeft 20 x.shown :=
      fun hm => not_mem_right (not_mem_left h) (List.mem_flatMap.mpr ⟨x, hx, hm⟩)
    exact (shownAs_plain (s := ['\n']) (by decide)).append
      (shownAs_maybeRed (fun hm => hx' (List.mem_cons_of_mem _ hm)) (amountLook_eq x))

theorem balance_shown {flat : Bool} {rep : BalReport} (h : escChar ∉ balanceText flat rep) :
    ShownAs (balancePaint true flat rep) (rep.lines.flatMap (balLineSeen flat) ++ totalSeen rep.total) :=
  (shownAs_flatMap fun l hl => balLine_shown fun hm => not_mem_left h (List.mem_flatMap.mpr ⟨l, hl, hm⟩)).append
    (end_shown (not_mem_right h))

theorem amountsSeen_chars (ms : List Money) : (amountsSeen ms).map Prod.fst = amountsText ms := by
  induction ms with
  | nil => rw [amountsSeen, amountsText, ink_chars]
  | cons m ms ih =>
    cases ms with
    | nil => rw [amountsSeen, amountsText, ink_chars]
    | cons m' ms =>
      rw [amountsSeen.eq_def, amountsText.eq_def]
      simp only [List.map_append, ink_chars, ih]
      simp

theorem balLineSeen_chars (flat : Bool) (l : BalLine) : (balLineSeen flat l).map Prod.fst = balLineText flat l := by
  unfold balLineSeen balLineText
  simp only [List.map_append, ink_chars, amountsSeen_chars]

theorem totalSeen_chars (t : Option (List Money)) : (totalSeen t).map Prod.fst = endText t := by
  match t with
  | none => rfl
  | some [] => unfold totalSeen; rw [ink_chars]; rfl
  | some (m :: ms) =>
    unfold totalSeen endText totalText
    simp only [List.map_append, ink_chars]
    rw [flatMap_chars (f := fun m => '\n' :: padLeft 20 m.shown)]
    intro x
    simp [ink_chars]

/-! ### Without colours -/

theorem runningPaint_off (c : RegCols) (first : Bool) (ms : List Money) :
    runningPaint false c first ms = runningText c first ms := by
  induction ms generalizing first with
  | nil => rfl
  | cons m ms ih => rw [runningPaint, runningText, ih]; simp [maybeRed, painted]

theorem regLinePaint_off (c : RegCols) : regLinePaint false c = regLineText c := by
  funext l
  unfold regLinePaint regLineText
  rw [runningPaint_off]
  simp [maybeRed, painted]

theorem registerPaint_off (term : Option Nat) : registerPaint false term = registerText term := by
  funext ls
  unfold registerPaint registerText
  rw [regLinePaint_off]

theorem amountsPaint_off (ms : List Money) : amountsPaint false ms = amountsText ms := by
  induction ms with
  | nil => rfl
  | cons m ms ih =>
    cases ms with
    | nil => rw [amountsPaint, amountsText]; simp [maybeRed, painted]
    | cons m' ms =>
      rw [amountsPaint.eq_def, amountsText.eq_def]
      simp only [ih]
      simp [maybeRed, painted]

theorem balLinePaint_off (flat : Bool) : balLinePaint false flat = balLineText flat := by
  funext l
  unfold balLinePaint balLineText
  rw [amountsPaint_off]
  simp [painted]

theorem endPaint_off (t : Option (List Money)) : endPaint false t = endText t := by
  match t with
  | none => rfl
  | some [] => rfl
  | some (m :: ms) => simp [endPaint, endText, totalPaint, totalText, maybeRed, painted]

theorem balancePaint_off (flat : Bool) : balancePaint false flat = balanceText flat := by
  funext rep
  unfold balancePaint balanceText
  rw [balLinePaint_off, endPaint_off]

theorem registerRemainsPaint_off (r : Run) (s : Nat → Shuf) (term : Option Nat) (opts : ReportOpts) (skip : Bool)
    (path : Str) : registerRemainsPaint false r s term opts skip path = registerRemains r s term opts skip path := by
  unfold registerRemainsPaint registerRemains
  rw [registerPaint_off]
  cases r.ledger skip path with
  | error e => rfl
  | ok l => cases queryNode r.env opts.query <;> rfl

theorem finishRemainsPaint_off : finishRemainsPaint false = finishRemains := by
  funext o flat depth rows
  unfold finishRemainsPaint finishRemains
  rw [balLinePaint_off]

theorem balanceRemainsPaint_off (r : Run) (o : BalOrders) (today : Date) (opts : ReportOpts) (skip flat : Bool)
    (path : Str) : balanceRemainsPaint false r o today opts skip flat path = balanceRemains r o today opts skip flat path := by
  unfold balanceRemainsPaint balanceRemains
  rw [finishRemainsPaint_off]
  cases r.ledger skip path with
  | error e => rfl
  | ok l =>
    simp only
    cases queryNode r.env opts.query with
    | error e => rfl
    | ok node =>
      simp only
      cases collectAll r.env opts.filter node l.transactions [] l.commodities with
      | error e => rfl
      | ok x =>
        obtain ⟨bals, st⟩ := x
        simp only
        cases (if flat then flatRows o opts.depth bals else .ok (treeRows o bals) : Res (List (Str × Balance))) with
        | error e => rfl
        | ok rows =>
          simp only
          cases exchangeTable r.env o today l st opts.exchange with
          | error e => rfl
          | ok x =>
            cases x with
            | none => rfl
            | some x =>
              obtain ⟨target, ms⟩ := x
              simp only
              cases convertRows o.convRow ms target rows <;> rfl

theorem checkPaint_off (path : Str) (ok : Bool) : checkPaint false path ok = checkText path ok := by
  have h1 : "OK".toList ++ ['\n'] = "OK\n".toList := by decide
  have h2 : "KO".toList ++ ['\n'] = "KO\n".toList := by decide
  unfold checkPaint checkText painted
  cases ok
  · simp only [Bool.false_eq_true, if_false, id, List.append_assoc]
    rw [h2]
  · simp only [Bool.false_eq_true, if_false, if_true, id, List.append_assoc]
    rw [h1]

theorem checkOutcomePaint_off (path : Str) : checkOutcomePaint false path = checkOutcome path := by
  funext v
  unfold checkOutcomePaint checkOutcome
  simp only [checkPaint_off]
  split <;> rfl

theorem runPainted_off {s : Surroundings} {w : World} {i : Invocation} (h : (s.forced i).colours = false) :
    runPainted s w i = runCommand w i := by
  unfold runPainted runCommand
  rw [h]
  simp only [balancePaint_off, registerPaint_off, balanceRemainsPaint_off, registerRemainsPaint_off, checkOutcomePaint_off]
  cases i.command <;> rfl

theorem paintedProgram_of {s : Surroundings} {w : World} {args : List Str} {i : Invocation} (h : Invokes w args i) :
    paintedProgram s w args = runPainted s w i := by
  obtain ⟨all, h1, h2⟩ := h
  unfold paintedProgram
  rw [h1]
  simp only [h2]

/-! ### What is seen of a run -/

/-- A text with escape sequences that shows another. -/
def Same (raw plain : Str) : Prop := ∃ cells, ShownAs raw cells ∧ cells.map Prod.fst = plain

theorem same_plain {s : Str} (h : escChar ∉ s) : Same s s := ⟨_, shownAs_plain h, ink_chars _ _⟩

theorem registerPaint_same {term : Option Nat} {ls : List RegLine} (h : escChar ∉ registerText term ls) :
    Same (registerPaint true term ls) (registerText term ls) :=
  ⟨_, register_shown h, flatMap_chars (regLineSeen_chars _)⟩

theorem balancePaint_same {flat : Bool} {rep : BalReport} (h : escChar ∉ balanceText flat rep) :
    Same (balancePaint true flat rep) (balanceText flat rep) := by
  refine ⟨_, balance_shown h, ?_⟩
  rw [List.map_append, flatMap_chars (balLineSeen_chars flat), totalSeen_chars]
  rfl

theorem Same.append {a b x y : Str} (h1 : Same a x) (h2 : Same b y) : Same (a ++ b) (x ++ y) := by
  obtain ⟨c, h1, rfl⟩ := h1
  obtain ⟨d, h2, rfl⟩ := h2
  exact ⟨_, h1.append h2, List.map_append⟩

theorem registerRemainsPaint_same {r : Run} {s : Nat → Shuf} {term : Option Nat} {opts : ReportOpts} {skip : Bool}
    {path : Str} (h : escChar ∉ registerRemains r s term opts skip path) :
    Same (registerRemainsPaint true r s term opts skip path) (registerRemains r s term opts skip path) := by
  revert h
  unfold registerRemainsPaint registerRemains
  cases r.ledger skip path with
  | error e => exact fun _ => same_plain List.not_mem_nil
  | ok l =>
    simp only
    cases queryNode r.env opts.query with
    | error e => exact fun _ => same_plain List.not_mem_nil
    | ok node => exact fun h => (registerPaint_same (not_mem_left h)).append (same_plain (not_mem_right h))

theorem finishRemainsPaint_same {o : BalOrders} {flat : Bool} {depth : Option Nat} {rows : List (Str × Balance)}
    (h : escChar ∉ finishRemains o flat depth rows) :
    Same (finishRemainsPaint true o flat depth rows) (finishRemains o flat depth rows) := by
  unfold finishRemainsPaint
  unfold finishRemains at h ⊢
  refine Same.append ⟨_, shownAs_flatMap fun l hl => balLine_shown fun hm => not_mem_left h
    (List.mem_flatMap.mpr ⟨l, hl, hm⟩), flatMap_chars (balLineSeen_chars flat)⟩ (same_plain (not_mem_right h))

theorem balanceRemainsPaint_same {r : Run} {o : BalOrders} {today : Date} {opts : ReportOpts} {skip flat : Bool}
    {path : Str} (h : escChar ∉ balanceRemains r o today opts skip flat path) :
    Same (balanceRemainsPaint true r o today opts skip flat path) (balanceRemains r o today opts skip flat path) := by
  revert h
  unfold balanceRemainsPaint balanceRemains
  cases r.ledger skip path with
  | error e => exact fun _ => same_plain List.not_mem_nil
  | ok l =>
    simp only
    cases queryNode r.env opts.query with
    | error e => exact fun _ => same_plain List.not_mem_nil
    | ok node =>
      simp only
      cases collectAll r.env opts.filter node l.transactions [] l.commodities with
      | error e => exact fun _ => same_plain List.not_mem_nil
      | ok x =>
        obtain ⟨bals, st⟩ := x
        simp only
        cases (if flat then flatRows o opts.depth bals else .ok (treeRows o bals) : Res (List (Str × Balance))) with
        | error e => exact fun _ => same_plain List.not_mem_nil
        | ok rows =>
          simp only
          cases exchangeTable r.env o today l st opts.exchange with
          | error e => exact fun _ => same_plain List.not_mem_nil
          | ok x =>
            cases x with
            | none => exact finishRemainsPaint_same
            | some x =>
              obtain ⟨target, ms⟩ := x
              simp only
              cases convertRows o.convRow ms target rows with
              | error e => exact fun _ => same_plain List.not_mem_nil
              | ok rows' => exact finishRemainsPaint_same

theorem check_shown {path : Str} {ok : Bool} (h : escChar ∉ path) : ShownAs (checkPaint true path ok) (checkSeen path ok) := by
  unfold checkPaint checkSeen
  refine ((((shownAs_plain (by decide)).append (shownAs_painted (p := .bold) (pad := id) h h)).append
    (shownAs_plain (by decide))).append ?_).append (shownAs_plain (by decide))
  cases ok with
  | true => exact shownAs_painted (p := .boldGreen) (pad := id) (by decide) (by decide)
  | false => exact shownAs_painted (p := .boldRed) (pad := id) (by decide) (by decide)

theorem checkPaint_same {path : Str} {ok : Bool} (h : escChar ∉ checkText path ok) :
    Same (checkPaint true path ok) (checkText path ok) := by
  have hp : escChar ∉ path := by
    unfold checkText at h
    exact not_mem_right (not_mem_left (not_mem_left h))
  refine ⟨_, check_shown hp, ?_⟩
  unfold checkSeen checkText
  simp only [List.map_append, ink_chars]
  cases ok <;> simp

/-- The outcomes with and without colours. -/
def SameOutcome (o o' : Option Outcome) : Prop :=
  ∀ st out, o = some ⟨st, some out⟩ → escChar ∉ out → ∃ out', o' = some ⟨st, some out'⟩ ∧ Same out' out

theorem outcomeOf_same {α : Type} {text text' : α → Str} {part part' : Str} {x : PRes α}
    (h1 : ∀ a, escChar ∉ text a → Same (text' a) (text a)) (h2 : escChar ∉ part → Same part' part) :
    SameOutcome (outcomeOf text part x) (outcomeOf text' part' x) := by
  intro st out h he
  unfold outcomeOf at h ⊢
  split at h
  · cases h; exact ⟨_, rfl, h1 _ he⟩
  · cases h; exact ⟨_, rfl, h2 he⟩
  · cases h; exact ⟨_, rfl, h2 he⟩
  · cases h

theorem outcome_same_self {o : Option Outcome} : SameOutcome o o :=
  fun _ out h he => ⟨out, h, same_plain he⟩

theorem checkOutcome_same {path : Str} {v : PRes Verdict} :
    SameOutcome (checkOutcome path v) (checkOutcomePaint true path v) := by
  intro st out h he
  unfold checkOutcome at h
  unfold checkOutcomePaint
  split at h
  · cases h; exact ⟨_, rfl, checkPaint_same he⟩
  · cases h; exact ⟨_, rfl, checkPaint_same he⟩
  · cases h; exact ⟨_, rfl, same_plain he⟩
  · cases h; exact ⟨_, rfl, same_plain he⟩
  · cases h

theorem runPainted_same (s : Surroundings) (w : World) (i : Invocation) :
    SameOutcome (runCommand w i) (runPainted s w i) := by
  by_cases hon : (s.forced i).colours = true
  · unfold runPainted runCommand
    rw [hon]
    cases i.command with
    | balance flat noTotal => exact outcomeOf_same (fun _ => balancePaint_same) balanceRemainsPaint_same
    | register => exact outcomeOf_same (fun _ => registerPaint_same) registerRemainsPaint_same
    | check => exact checkOutcome_same
    | _ => exact outcome_same_self
  · rw [runPainted_off (by simpa using hon)]
    exact outcome_same_self

/-! ### No amount of a report is zero -/

theorem mem_insert_value {K V : Type} [DecidableEq K] {m : HMap K V} {k : K} {v : V} {e : K × V}
    (h : e ∈ HMap.insert m k v) : e.2 = v ∨ e ∈ m := by
  induction m with
  | nil =>
    simp only [HMap.insert, List.mem_singleton] at h
    exact .inl (by rw [h])
  | cons x m ih =>
    simp only [HMap.insert] at h
    split at h
    · rcases List.mem_cons.mp h with h | h
      · exact .inl (by rw [h])
      · exact .inr (List.mem_cons_of_mem _ h)
    · rcases List.mem_cons.mp h with h | h
      · exact .inr (by rw [h]; exact List.mem_cons_self)
      · rcases ih h with h | h
        · exact .inl h
        · exact .inr (List.mem_cons_of_mem _ h)

theorem add_noZero (a b : Balance) : (Balance.add a b).NoZero := by
  intro e he
  unfold Balance.add at he
  have := (List.mem_filter.mp he).2
  simpa using this

/-- Balances of accounts without zeros. -/
def Zeroless (bals : List (Str × Balance)) : Prop := ∀ e ∈ bals, e.2.NoZero

theorem foldAdd_noZero {α : Type} (f : α → Balance) (l : List α) {b : Balance} (h : b.NoZero) :
    (l.foldl (fun acc e => Balance.add acc (f e)) b).NoZero := by
  induction l generalizing b with
  | nil => exact h
  | cons x l ih => exact ih (add_noZero _ _)

theorem insert_zeroless {bals : Balances} {a : Str} {b : Balance} (h : Zeroless bals) (hb : b.NoZero) :
    Zeroless (HMap.insert bals a b) := by
  intro e he
  rcases mem_insert_value he with h' | h'
  · rw [h']; exact hb
  · exact h e h'

theorem collectPostings_zeroless {env : Env} {o : FilterOpts} {node : Option Ast} {t : Txn Posting} {ps : List Posting}
    {bals bals' : Balances} {st st' : Commodities} (hz : Zeroless bals)
    (h : collectPostings env o node t ps bals st = .ok (bals', st')) : Zeroless bals' := by
  induction ps generalizing bals st with
  | nil => cases h; exact hz
  | cons p ps ih =>
    unfold collectPostings at h
    split at h
    · cases h
    · exact ih hz h
    · split at h
      · cases h
      · rename_i b hb
        refine ih ?_ h
        unfold collectPosting at hb
        split at hb
        · cases hb
        · cases hb
          exact insert_zeroless hz (add_noZero _ _)

theorem collectAll_zeroless {env : Env} {o : FilterOpts} {node : Option Ast} {ts : List (Txn Posting)}
    {bals bals' : Balances} {st st' : Commodities} (hz : Zeroless bals)
    (h : collectAll env o node ts bals st = .ok (bals', st')) : Zeroless bals' := by
  induction ts generalizing bals st with
  | nil => cases h; exact hz
  | cons t ts ih =>
    unfold collectAll at h
    split at h
    · cases h
    · rename_i b s hb
      exact ih (collectPostings_zeroless hz hb) h

theorem new_noZero : (Balance.new : Balance).NoZero := fun _ he => absurd he List.not_mem_nil

theorem treeRows_zeroless {o : BalOrders} {bals : Balances} (h : Zeroless bals) : Zeroless (treeRows o bals) := by
  have h1 : ∀ (l : List (Str × Balance)) (acc : Balances), Zeroless l → Zeroless acc →
      Zeroless (l.foldl (fun acc e => HMap.insert acc e.1 e.2) acc) := by
    intro l
    induction l with
    | nil => exact fun acc _ h => h
    | cons x l ih =>
      exact fun acc hl ha => ih _ (fun e he => hl e (List.mem_cons_of_mem _ he))
        (insert_zeroless ha (hl x List.mem_cons_self))
  have h2 : ∀ (l : List Str) (acc : Balances), Zeroless acc → Zeroless (l.foldl (rollStep o.roll) acc) := by
    intro l
    induction l with
    | nil => exact fun acc h => h
    | cons x l ih => exact fun acc ha => ih _ (insert_zeroless ha (foldAdd_noZero _ _ new_noZero))
  intro e he
  unfold treeRows at he
  have he := (List.mem_filter.mp he).1
  rw [(o.rows.perm _).mem_iff] at he
  exact h2 _ _ (h1 _ _ (fun x hx => h x ((o.own.perm _).mem_iff.mp hx)) (fun _ hx => absurd hx List.not_mem_nil)) e he

theorem mergeLoop_zeroless {l acc rows : List (Str × Balance)} {account : Str} (hl : Zeroless l) (ha : Zeroless acc)
    (h : mergeLoop l account acc = .ok rows) : Zeroless rows := by
  induction l generalizing acc account with
  | nil =>
    cases h
    exact fun e he => ha e (List.mem_reverse.mp he)
  | cons x l ih =>
    obtain ⟨name, value⟩ := x
    have hl' : Zeroless l := fun e he => hl e (List.mem_cons_of_mem _ he)
    unfold mergeLoop at h
    split at h
    · refine ih hl' (fun e he => ?_) h
      rcases List.mem_cons.mp he with rfl | he
      · exact hl _ List.mem_cons_self
      · exact ha e he
    · split at h
      · cases h
      · refine ih hl' (fun e he => ?_) h
        rcases List.mem_cons.mp he with rfl | he
        · exact add_noZero _ _
        · exact ha e (List.mem_cons_of_mem _ he)

theorem flatRows_zeroless {o : BalOrders} {depth : Option Nat} {bals : Balances} {rows : List (Str × Balance)}
    (hz : Zeroless bals) (h : flatRows o depth bals = .ok rows) : Zeroless rows := by
  unfold flatRows at h
  split at h
  · refine mergeLoop_zeroless (fun e he => ?_) (fun _ he => absurd he List.not_mem_nil) h
    rw [mem_sortBy] at he
    obtain ⟨x, hx, rfl⟩ := List.mem_map.mp he
    exact hz x ((o.group.perm _).mem_iff.mp (List.mem_filter.mp hx).1)
  · cases h
    exact fun e he => hz e ((o.own.perm _).mem_iff.mp (List.mem_filter.mp he).1)

theorem convertLoop_noZero {ms : HMap Cur Rat} {target : Cur} {l : List (Option Cur × Money)} {acc b : Balance}
    (ha : acc.NoZero) (h : convertLoop ms target l acc = .ok b) : b.NoZero := by
  induction l generalizing acc with
  | nil => cases h; exact ha
  | cons x l ih =>
    obtain ⟨c, m⟩ := x
    cases c with
    | none => cases h
    | some c =>
      unfold convertLoop at h
      split at h <;> exact ih (add_noZero _ _) h

theorem convertRows_zeroless {s : Str → Shuf} {ms : HMap Cur Rat} {target : Cur} {l rows : List (Str × Balance)}
    (h : convertRows s ms target l = .ok rows) : Zeroless rows := by
  induction l generalizing rows with
  | nil => cases h; exact fun _ he => absurd he List.not_mem_nil
  | cons x l ih =>
    obtain ⟨name, b⟩ := x
    unfold convertRows at h
    split at h
    · cases h
    · rename_i b' hb
      split at h
      · cases h
      · rename_i rest hr
        cases h
        intro e he
        rcases List.mem_cons.mp he with rfl | he
        · exact convertLoop_noZero new_noZero hb
        · exact ih hr e he

theorem collapseLoop_sub {account : Str} {l : List (Str × Balance)} {n : Nat} {text : Str} :
    ∀ e ∈ (collapseLoop account l n text).2, e ∈ l := by
  induction l generalizing n text with
  | nil => exact fun e he => he
  | cons x l ih =>
    intro e he
    unfold collapseLoop at he
    split at he
    · exact he
    · split at he
      · exact List.mem_cons_of_mem _ (ih e he)
      · exact he

theorem printLoop_nonzero {flat : Bool} {depth : Option Nat} {s : Str → Shuf} {k : Nat} {rows : List (Str × Balance)}
    (h : Zeroless rows) : ∀ line ∈ printLoop flat depth s k rows, ∀ m ∈ line.amounts, m.isZero = false := by
  induction k generalizing rows with
  | zero => intro line hl; simp [printLoop] at hl
  | succ k ih =>
    cases rows with
    | nil => intro line hl; simp [printLoop] at hl
    | cons x rows =>
      obtain ⟨account, bal⟩ := x
      have hr : Zeroless rows := fun e he => h e (List.mem_cons_of_mem _ he)
      have hb : ∀ m ∈ ((s account).run bal).map Prod.snd, m.isZero = false := by
        intro m hm
        obtain ⟨e, he, rfl⟩ := List.mem_map.mp hm
        exact h _ List.mem_cons_self e (((s account).perm _).mem_iff.mp he)
      intro line hl
      unfold printLoop at hl
      split at hl
      · exact ih hr line hl
      · split at hl
        · exact ih hr line hl
        · simp only at hl
          split at hl
          · rcases List.mem_cons.mp hl with rfl | hl
            · exact hb
            · exact ih hr line hl
          · rcases List.mem_cons.mp hl with rfl | hl
            · exact hb
            · exact ih (fun e he => hr e (collapseLoop_sub e he)) line hl

theorem finishBalance_nonzero {o : BalOrders} {flat showTotal : Bool} {depth : Option Nat} {bals : Balances}
    {table : Option (Cur × HMap Cur Rat)} {rows : List (Str × Balance)} {rep : BalReport} (hr : Zeroless rows)
    (h : finishBalance o flat showTotal depth bals table rows = .ok rep) :
    (∀ line ∈ rep.lines, ∀ m ∈ line.amounts, m.isZero = false) ∧
      ∀ ms, rep.total = some ms → ∀ m ∈ ms, m.isZero = false := by
  have hs : Zeroless (sortBy (fun a b => strLe a.1 b.1) rows) := fun e he => hr e ((mem_sortBy _ _ _).mp he)
  have hg : (grandTotal o.total bals).NoZero := foldAdd_noZero _ _ new_noZero
  unfold finishBalance at h
  simp only at h
  split at h
  · split at h
    · cases h
    · rename_i total ht
      cases h
      refine ⟨printLoop_nonzero hs, fun ms hms m hm => ?_⟩
      injection hms with hms
      subst hms
      have hn : total.NoZero := by
        split at ht
        · split at ht
          · exact convertLoop_noZero new_noZero ht
          · cases ht; exact hg
        · cases ht; exact hg
      split at hm
      · exact absurd hm List.not_mem_nil
      · obtain ⟨e, he, rfl⟩ := List.mem_map.mp hm
        exact hn e ((o.shownTotal.perm _).mem_iff.mp he)
  · cases h
    exact ⟨printLoop_nonzero hs, fun ms hms => (by cases hms)⟩

theorem balanceReport_nonzero {env : Env} {o : BalOrders} {today : Date} {opts : ReportOpts} {flat showTotal : Bool}
    {l : Ledger} {rep : BalReport} (h : balanceReport env o today opts flat showTotal l = .ok rep) :
    (∀ line ∈ rep.lines, ∀ m ∈ line.amounts, m.isZero = false) ∧
      ∀ ms, rep.total = some ms → ∀ m ∈ ms, m.isZero = false := by
  unfold balanceReport at h
  split at h
  · cases h
  split at h
  · cases h
  rename_i bals st hc
  have hz := collectAll_zeroless (fun _ he => absurd he List.not_mem_nil) hc
  split at h
  · cases h
  rename_i rows hr
  have hrows : Zeroless rows := by
    split at hr
    · exact flatRows_zeroless hz hr
    · cases hr; exact treeRows_zeroless hz
  split at h
  · cases h
  · exact finishBalance_nonzero hrows h
  · split at h
    · cases h
    · rename_i rows' hc'
      exact finishBalance_nonzero (convertRows_zeroless hc') h

end Dinero
