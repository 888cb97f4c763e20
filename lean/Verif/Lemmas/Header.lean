import Verif.Spec.Journal
import Verif.Lemmas.Date
/-
Helper lemmas on the lines read with the grammar.
-/
namespace Dinero
open P

/-! ### Spaces -/

theorem skip_spaces {b s : Str} (h : Spaces b) : skip (b ++ s) = skip s := by
  induction b with
  | nil => rfl
  | cons c b ih =>
    have hc : c = ' ' := h c (by simp)
    subst hc
    rw [List.cons_append, skip_space]
    exact ih (fun c hc => h c (by simp [hc]))

theorem skip_self {s : Str} (h : s.head? ≠ some ' ') : skip s = s := by
  cases s with
  | nil => rfl
  | cons c s => exact skip_cons_ne (by simpa using h)

theorem skip_idem (s : Str) : skip (skip s) = skip s := by
  induction s with
  | nil => rfl
  | cons c s ih =>
    by_cases hc : c = ' '
    · subst hc; rw [skip_space]; exact ih
    · rw [skip_cons_ne hc, skip_cons_ne hc]

theorem skip_head (s : Str) : (skip s).head? ≠ some ' ' := by
  induction s with
  | nil => simp
  | cons c s ih =>
    by_cases hc : c = ' '
    · subst hc; rw [skip_space]; exact ih
    · rw [skip_cons_ne hc]; simpa using hc

theorem wsp_some {b s : Str} (h : Spaces b) (hb : b ≠ []) : wsp (b ++ s) = some ([], skip s) := by
  cases b with
  | nil => exact absurd rfl hb
  | cons c b =>
    have hc : c = ' ' := h c (by simp)
    subst hc
    unfold wsp
    rw [lit_one, List.cons_append, plus_chr (by simp)]
    have := skip_spaces (b := b) (s := s) (fun c hc => h c (by simp [hc]))
    exact congrArg (fun x => some ([], x)) this

/-! ### Ends -/

theorem gEnd_nil : gEnd [] = some ([.mk .eol [] []], []) := rfl
theorem gEnd_cr : gEnd ['\r'] = some ([.mk .eol ['\r'] []], []) := rfl

theorem gComment_some (c : Str) : gComment (';' :: c) = some ([.mk .comment (';' :: c) []], []) := by
  have h : seq (lit [';']) (star (chr (fun _ => true))) ((';' :: c) ++ []) = some ([], []) := by
    refine seq_some (x := []) (y := []) (s1 := c) (by simpa using lit_append [';'] c) ?_
    have := star_chr_append (p := fun _ => true) (t := c) (k := []) (by simp) (by simp)
    simpa using this
  have := rule_some (r := .comment) h
  simpa [gComment] using this

theorem gComment_none {s : Str} (h : s.head? ≠ some ';') : gComment s = none :=
  rule_none (seq_none (lit_none (by simp) (by simpa using h)))

/-- The end of the first line: a comment or not, and the end. -/
theorem headerEnd_some {en : Str} {cs : List Str} (h : WritesHeaderEnd en cs) :
    ∃ ps x, seq (opt gComment) gEnd en = some (ps ++ [.mk .eol x []], []) ∧
      ((cs = [] ∧ ps = []) ∨ ∃ c, cs = [c] ∧ ps = [.mk .comment c []]) := by
  cases h with
  | none => exact ⟨[], [], rfl, .inl ⟨rfl, rfl⟩⟩
  | cr => exact ⟨[], ['\r'], by
      refine seq_some (x := []) (s1 := ['\r']) ?_ gEnd_cr
      unfold opt; rw [alt_right (gComment_none (by simp))]; rfl, .inl ⟨rfl, rfl⟩⟩
  | @comment c h =>
    exact ⟨[.mk .comment (';' :: c) []], [], seq_some (alt_left (gComment_some c)) gEnd_nil, .inr ⟨_, rfl, rfl⟩⟩

theorem headerEnd_head {en : Str} {cs : List Str} (h : WritesHeaderEnd en cs) :
    ∀ c, en.head? = some c → c = '\r' ∨ c = ';' := by
  intro c hc
  cases h <;> simp at hc
  · exact .inl hc.symm
  · exact .inr hc.symm

/-! ### Times -/

theorem lits_digits {ls : List String} {s k : Str} {x : List Pair} (hl : ∀ l ∈ ls, ∀ c ∈ l.toList, isDig c = true)
    (h : lits ls s = some (x, k)) : ∃ u, s = u ++ k ∧ ∀ c ∈ u, isDig c = true := by
  induction ls with
  | nil => cases h
  | cons l ls ih =>
    rw [lits] at h
    cases hh : lit l.toList s with
    | none => rw [alt_right hh] at h; exact ih (fun l' hl' => hl l' (by simp [hl'])) h
    | some r =>
      rw [alt_left hh] at h
      cases h
      unfold lit at hh
      split at hh
      · rename_i hp
        rw [List.isPrefixOf_iff_prefix] at hp
        obtain ⟨t, rfl⟩ := hp
        simp at hh
        obtain ⟨rfl, rfl⟩ := hh
        exact ⟨_, rfl, hl l (by simp)⟩
      · cases hh

theorem gHour_digits {s k : Str} {x : List Pair} (h : gHour s = some (x, k)) :
    ∃ u, s = u ++ k ∧ ∀ c ∈ u, isDig c = true := by
  unfold gHour at h
  cases h1 : seq (lits ["0", "1"]) digit s with
  | some r =>
    rw [alt_left h1] at h
    cases h
    unfold seq at h1
    cases h2 : lits ["0", "1"] s with
    | none => simp [h2] at h1
    | some r =>
      obtain ⟨y, s1⟩ := r
      obtain ⟨u, rfl, hu⟩ := lits_digits (by decide) h2
      simp only [h2] at h1
      cases s1 with
      | nil => simp [digit, chr] at h1
      | cons c s1 =>
        by_cases hc : isDig c = true
        · have : digit (c :: s1) = some ([], s1) := by
            show (if isDig c then _ else _) = _
            rw [if_pos hc]
          simp only [this] at h1
          cases h1
          refine ⟨u ++ [c], by simp, ?_⟩
          intro d hd
          rcases List.mem_append.mp hd with hd | hd
          · exact hu d hd
          · obtain rfl : d = c := by simpa using hd
            exact hc
        · have : digit (c :: s1) = none := by
            show (if isDig c then _ else _) = _
            rw [if_neg hc]
          simp only [this] at h1
          cases h1
  | none =>
    rw [alt_right h1] at h
    have h' : lits ["20123"] s = some (x, k) := by rw [lits]; exact alt_left h
    exact lits_digits (by decide) h'

/-- Not a time of day: no colon before something that is neither a digit nor a colon. -/
theorem gTime_none {u v : Str} (hu : ':' ∉ u) (hv : ∀ c, v.head? = some c → isDig c = false ∧ c ≠ ':') :
    gTime (u ++ v) = none := by
  apply rule_none
  cases h : gHour (u ++ v) with
  | none => exact seq_none h
  | some r =>
    obtain ⟨x, k⟩ := r
    refine seq_none' h (seq_none (lit_none (by simp) ?_))
    intro hk
    obtain ⟨w, hw, hd⟩ := gHour_digits h
    cases k with
    | nil => simp at hk
    | cons c k =>
      simp only [List.head?_cons, Option.some.injEq] at hk
      subst hk
      rcases List.append_eq_append_iff.mp hw with ⟨a, rfl, hv'⟩ | ⟨a, rfl, hv'⟩
      · cases a with
        | nil =>
          have := (hv ':' (by simp [hv'])).2
          exact this rfl
        | cons d a =>
          have h1 := (hv d (by simp [hv'])).1
          rw [hd d (by simp)] at h1
          cases h1
      · cases a with
        | nil =>
          have := (hv ':' (by rw [← List.nil_append v, ← hv']; simp)).2
          exact this rfl
        | cons d a =>
          rw [List.cons_append] at hv'
          injection hv' with h1 h2
          subst h1
          exact hu (by simp)

theorem digit_some {c : Char} {k : Str} (h : isDig c = true) : digit (c :: k) = some ([], k) := by
  show (if isDig c then _ else _) = _
  rw [if_pos h]

theorem IsDigits.isDig {s : Str} (h : IsDigits s) : ∀ c ∈ s, isDig c = true := by
  intro c hc
  have := h.2 c hc
  simpa [Dinero.isDig] using this

/-- Two digits, the first of which is at most `m`. -/
theorem twoDigits_two {s : Str} {n : Nat} (h : TwoDigits s n) (hl : s.length = 2) :
    ∃ a b, s = [a, b] ∧ isDig a = true ∧ isDig b = true ∧ n = 10 * (a.toNat - 48) + (b.toNat - 48) := by
  match s, hl with
  | [a, b], _ =>
    have h1 := h.1.isDig
    exact ⟨a, b, rfl, h1 a (by simp), h1 b (by simp), by rw [← h.2.2]; simp [digitsVal]⟩

theorem lits_first {ls : List String} {a : Char} {k : Str} (h : [a] ∈ ls.map String.toList)
    (hl : ∀ l ∈ ls, l.toList.length = 1) : lits ls (a :: k) = some ([], k) := by
  induction ls with
  | nil => cases h
  | cons l ls ih =>
    obtain ⟨d, hd⟩ := List.length_eq_one_iff.mp (hl l (by simp))
    rw [lits, hd]
    by_cases hda : d = a
    · subst hda; exact alt_left (lit_append [d] k)
    · rw [alt_right (lit_none (by simp) (by simpa using fun e => hda e.symm))]
      refine ih ?_ (fun l' hl' => hl l' (by simp [hl']))
      rw [List.map_cons, hd] at h
      rcases List.mem_cons.mp h with h | h
      · exfalso; simp at h; exact hda h.symm
      · exact h

theorem gTime_some {t k : Str} (h : WritesTime t) (hk : k.head? ≠ some '.') :
    ∃ p, gTime (t ++ k) = some ([p], k) ∧ p.rule = .time := by
  cases h with
  | @mk h m s nh nm ns hh hhl hh20 hm hml hm60 hs hsl hs60 =>
  obtain ⟨a, b, rfl, ha, hb, rfl⟩ := twoDigits_two hh hhl
  obtain ⟨c, d, rfl, hc, hd, rfl⟩ := twoDigits_two hm hml
  obtain ⟨e, f, rfl, he, hf, rfl⟩ := twoDigits_two hs hsl
  have h1 : gHour ([a, b] ++ ':' :: [c, d] ++ ':' :: [e, f] ++ k) = some ([], ':' :: c :: d :: ':' :: e :: f :: k) := by
    refine alt_left (seq_some (x := []) (s1 := b :: ':' :: c :: d :: ':' :: e :: f :: k) ?_ (digit_some hb))
    refine lits_first ?_ (by decide)
    rcases isDig_cases (isDig_iff.mp ha) with rfl | rfl | rfl | rfl | rfl | rfl | rfl | rfl | rfl | rfl <;>
      first | decide | (exfalso; revert hh20; simp; try omega)
  have h2 : gMinute (c :: d :: ':' :: e :: f :: k) = some ([], ':' :: e :: f :: k) := by
    refine seq_some (x := []) (s1 := d :: ':' :: e :: f :: k) ?_ (digit_some hd)
    refine lits_first ?_ (by decide)
    rcases isDig_cases (isDig_iff.mp hc) with rfl | rfl | rfl | rfl | rfl | rfl | rfl | rfl | rfl | rfl <;>
      first | decide | (exfalso; revert hm60; simp; try omega)
  have h3 : gSecond (e :: f :: k) = some ([], k) := by
    refine seq_some (x := []) (y := []) (s1 := f :: k) ?_
      (seq_some (x := []) (y := []) (s1 := k) (digit_some hf) ?_)
    · refine lits_first ?_ (by decide)
      rcases isDig_cases (isDig_iff.mp he) with rfl | rfl | rfl | rfl | rfl | rfl | rfl | rfl | rfl | rfl <;>
        first | decide | (exfalso; revert hs60; simp; try omega)
    · unfold opt; rw [alt_right (seq_none (lit_none (by simp) (by simpa using hk)))]; rfl
  have h4 := seq_some h1 (seq_some (by simpa using lit_append [':'] (c :: d :: ':' :: e :: f :: k))
    (seq_some h2 (seq_some (by simpa using lit_append [':'] (e :: f :: k)) h3)))
  obtain ⟨tx, h5⟩ := rule_some' (r := .time) h4
  exact ⟨_, h5, rfl⟩

/-- Zero or one time of day. -/
def TimeItems (ps : List Pair) : Prop := ps = [] ∨ ∃ p, ps = [p] ∧ p.rule = .time

/-- A date, with or without a time of day. -/
theorem when_some {s k : Str} {date : Date} (h : WritesWhen s date) (hk : k.head? = some ' ' ∨ k.head? = some '=')
    (ht : gTimeOpt k = some ([], k)) :
    ∃ p s1 tl, gDate (s ++ k) = some ([p], s1) ∧ gTimeOpt s1 = some (tl, k) ∧ p.rule = .date ∧
      parseDate p = .ok date ∧ TimeItems tl := by
  have hdot : k.head? ≠ some '.' := by rcases hk with h | h <;> rw [h] <;> decide
  have hnd : NoDigit k := by
    intro c hc
    rcases hk with h | h <;> rw [h] at hc <;> cases hc <;> rfl
  cases h with
  | @date _ y m d hw hv h1 h2 =>
    have hv' := (validDate_iff y m d).mp hv
    obtain ⟨p, a1, a2, a3⟩ := gDate_some hw hv'.1
      ⟨hv'.2.1, le_trans hv'.2.2 (by unfold daysInMonth; split_ifs <;> omega)⟩ hnd
    exact ⟨p, k, [], a1, ht, a2, by rw [a3]; exact fromYmd_ok.mpr ⟨⟨h1, h2⟩, hv, rfl⟩, .inl rfl⟩
  | @time s t y m d hw hv h1 h2 hti =>
    have hv' := (validDate_iff y m d).mp hv
    obtain ⟨p, a1, a2, a3⟩ := gDate_some (k := ' ' :: (t ++ k)) hw hv'.1
      ⟨hv'.2.1, le_trans hv'.2.2 (by unfold daysInMonth; split_ifs <;> omega)⟩ (NoDigit.cons rfl)
    obtain ⟨q, b1, b2⟩ := gTime_some hti hdot
    refine ⟨p, ' ' :: (t ++ k), [q], by simpa using a1, ?_, a2,
      by rw [a3]; exact fromYmd_ok.mpr ⟨⟨h1, h2⟩, hv, rfl⟩, .inr ⟨q, rfl, b2⟩⟩
    exact alt_left (seq_some (x := []) (by simpa using lit_append [' '] (t ++ k)) b1)

/-! ### The items of the first line -/

/-- No item, or one of this rule. -/
def OptItem (r : Rule) (ps : List Pair) : Prop := ps = [] ∨ ∃ p, ps = [p] ∧ p.rule = r

/-- No item and no value, or one of this rule with this value. -/
def OptValue {α : Type} (r : Rule) (f : Pair → Res α) (ps : List Pair) (o : Option α) : Prop :=
  (ps = [] ∧ o = none) ∨ ∃ p a, ps = [p] ∧ p.rule = r ∧ f p = .ok a ∧ o = some a

/-- The first item has one of these rules. -/
def Starts (rs : List Rule) (ps : List Pair) : Prop := ∃ p l, ps = p :: l ∧ p.rule ∈ rs

theorem OptItem.starts {r : Rule} {ps l : List Pair} {rs : List Rule} (h : OptItem r ps) (hl : Starts rs l) :
    Starts (r :: rs) (ps ++ l) := by
  obtain ⟨q, l, rfl, hq⟩ := hl
  rcases h with rfl | ⟨p, rfl, hp⟩
  · exact ⟨q, l, rfl, by simp [hq]⟩
  · exact ⟨p, q :: l, rfl, by simp [hp]⟩

theorem OptValue.opt {α : Type} {r : Rule} {f : Pair → Res α} {ps : List Pair} {o : Option α}
    (h : OptValue r f ps o) : OptItem r ps := by
  rcases h with ⟨rfl, _⟩ | ⟨p, _, rfl, hp, _⟩
  · exact .inl rfl
  · exact .inr ⟨p, rfl, hp⟩

theorem skip_opt {r : Rule} {ps l : List Pair} {rs : List Rule} (h : OptItem r ps) (hl : Starts rs l)
    (hr : r ∉ rs) : skipItem r (ps ++ l) = .ok l := by
  obtain ⟨q, l, rfl, hq⟩ := hl
  have hqr : q.rule ≠ r := fun e => hr (e ▸ hq)
  rcases h with rfl | ⟨p, rfl, hp⟩
  · simp [skipItem, hqr]
  · simp [skipItem, hp, nextItem]

theorem take_opt {α : Type} {r : Rule} {f : Pair → Res α} {ps l : List Pair} {o : Option α} {rs : List Rule}
    (h : OptValue r f ps o) (hl : Starts rs l) (hr : r ∉ rs) : takeItem r f (ps ++ l) = .ok (o, l) := by
  obtain ⟨q, l, rfl, hq⟩ := hl
  have hqr : q.rule ≠ r := fun e => hr (e ▸ hq)
  rcases h with ⟨rfl, rfl⟩ | ⟨p, a, rfl, hp, ha, rfl⟩
  · simp [takeItem, hqr]
  · simp [takeItem, hp, ha, nextItem]

/-- The items after the date give the transaction. -/
theorem headerItems_ok {env : Env} {date : Date} {tl el tl2 sl cl pl cml : List Pair} {pd : Pair}
    {eff : Option Date} {desc : Str} {payee : Option Str} {cs : List Str} {x : Str} (h1 : OptItem .time tl)
    (h2 : OptValue .date parseDate el eff) (h3 : OptItem .time tl2) (h3' : el = [] → tl2 = [])
    (h4 : OptItem .status sl) (h5 : OptItem .code cl) (h6 : pd.rule = .description)
    (h6' : headerText env pd = .ok desc) (h7 : OptValue .payee (headerText env) pl payee)
    (h8 : (cs = [] ∧ cml = []) ∨ ∃ c, cs = [c] ∧ cml = [.mk .comment c []]) :
    headerItems env date (tl ++ (el ++ (tl2 ++ (sl ++ (cl ++ ([pd] ++ (pl ++ (cml ++ [.mk .eol x [] ])))))))) =
      .ok { date := some date, effectiveDate := eff, description := desc
            payee := some (headerPayee payee desc), comments := cs } := by
  have s8 : Starts [.comment, .eol] (cml ++ [.mk .eol x []]) := by
    rcases h8 with ⟨_, rfl⟩ | ⟨c, _, rfl⟩
    · exact ⟨_, _, rfl, by simp [Pair.rule]⟩
    · exact ⟨_, _, rfl, by simp [Pair.rule]⟩
  have s7 := h7.opt.starts s8
  have v6 : OptValue .description (headerText env) [pd] (some desc) := .inr ⟨pd, desc, rfl, h6, h6', rfl⟩
  have s6 : Starts [.description] ([pd] ++ (pl ++ (cml ++ [.mk .eol x []]))) := ⟨pd, _, rfl, by simp [h6]⟩
  have s5 := h5.starts s6
  have s4 := h4.starts s5
  have s3 := h3.starts s4
  have s2 : Starts [.date, .status, .code, .description]
      (el ++ (tl2 ++ (sl ++ (cl ++ ([pd] ++ (pl ++ (cml ++ [.mk .eol x []]))))))) := by
    rcases h2 with ⟨rfl, _⟩ | ⟨p, _, rfl, hp, _⟩
    · rw [h3' rfl]
      obtain ⟨q, l, e, hq⟩ := s4
      exact ⟨q, l, by simpa using e, by simp at hq ⊢; tauto⟩
    · exact ⟨p, _, rfl, by simp [hp]⟩
  unfold headerItems
  simp only [bind, Except.bind, skip_opt h1 s2 (by decide)]
  have t2 : takeItem .date parseDate (el ++ (tl2 ++ (sl ++ (cl ++ ([pd] ++ (pl ++ (cml ++ [.mk .eol x []]))))))) =
      .ok (eff, tl2 ++ (sl ++ (cl ++ ([pd] ++ (pl ++ (cml ++ [.mk .eol x []])))))) := take_opt h2 s3 (by decide)
  simp only [t2, skip_opt h3 s4 (by decide), skip_opt h4 s5 (by decide), skip_opt h5 s6 (by decide),
    take_opt v6 s7 (by decide), take_opt h7 s8 (by decide)]
  rcases h8 with ⟨rfl, rfl⟩ | ⟨c, rfl, rfl⟩
  · simp [Pair.rule, pure, Except.pure]
  · simp [Pair.rule, pure, Except.pure, parseString, parseLeaf, Pair.text]

/-! ### The text of the first line -/

theorem dropWhile_all {α : Type} {p : α → Bool} {l r : List α} (h : ∀ a ∈ l, p a = true) :
    (l ++ r).dropWhile p = r.dropWhile p := List.dropWhile_append_of_pos h

theorem dropWhile_head {α : Type} {p : α → Bool} {l : List α} (h : ∀ a, l.head? = some a → p a = false) :
    l.dropWhile p = l := by
  cases l with
  | nil => rfl
  | cons a l => simp [h a rfl]

theorem trim_wrap {env : Env} {b s b' : Str} (hb : ∀ c ∈ b, env.ws c = true) (hs : Trimmed env s)
    (hb' : ∀ c ∈ b', env.ws c = true) : trim env (b ++ s ++ b') = s := by
  unfold trim
  rw [List.append_assoc, dropWhile_all hb]
  by_cases h0 : s = []
  · subst h0
    have : (([] ++ b' : Str).dropWhile env.ws) = [] := by
      simpa using dropWhile_all (r := []) hb'
    rw [this]; rfl
  · have h1 : (s ++ b').dropWhile env.ws = s ++ b' := by
      apply dropWhile_head
      intro a ha
      rw [List.head?_append_of_ne_nil _ h0] at ha
      exact hs.1 a ha
    rw [h1, List.reverse_append, dropWhile_all (by simpa using hb'), dropWhile_head, List.reverse_reverse]
    intro a ha
    rw [List.head?_reverse] at ha
    exact hs.2 a ha

theorem trimmed_nil (env : Env) : Trimmed env [] := ⟨by simp, by simp⟩

theorem HeaderText.some {env : Env} (hws : env.ws ' ' = true) {r : Rule} (hr : r ≠ .currency) (hr' : r ≠ .string)
    {t b k : Str} (h : HeaderText env t) (hb : Spaces b) (hk : ∀ c, k.head? = some c → descChar c = false) :
    ∃ p, rule r (alt gString (star (chr descChar))) (skip (t ++ (b ++ k))) = .some ([p], k) ∧ p.rule = r ∧
      headerText env p = .ok t := by
  obtain ⟨h1, h2, h3, h4⟩ := h
  have hsp : descChar ' ' = true := by decide
  have key : ∀ u : Str, (∀ c ∈ u, descChar c = true) → u.head? ≠ .some '"' → u.head? ≠ .some '\'' →
      rule r (alt gString (star (chr descChar))) (u ++ k) = .some ([.mk r u []], k) := by
    intro u hu hq hq'
    refine rule_some ?_
    rw [alt_right]
    · exact star_chr_append hu hk
    · have hne : ∀ q, descChar q = true → u.head? ≠ .some q → k.head? ≠ .some q → (u ++ k).head? ≠ .some q := by
        intro q _ a1 a2
        cases u with
        | nil => exact a2
        | cons c u => exact a1
      have hkq : ∀ q, descChar q = true → k.head? ≠ .some q := by
        intro q hq he
        rw [hk q he] at hq; cases hq
      exact gString_none (hne _ (by decide) hq (hkq _ (by decide))) (hne _ (by decide) hq' (hkq _ (by decide)))
  have ht : ∀ u : Str, headerText env (.mk r u []) = .ok (trim env u) := by
    intro u; simp [headerText, parseString, parseLeaf, Pair.rule, Pair.text, hr, hr', Except.map]
  by_cases h0 : t = []
  · subst h0
    have hkk : k.head? ≠ .some ' ' := by
      intro he; rw [hk ' ' he] at hsp; cases hsp
    rw [List.nil_append, skip_spaces hb, skip_self hkk]
    refine ⟨_, by simpa using key [] (by simp) (by simp) (by simp), rfl, ?_⟩
    rw [ht]; rfl
  · have hh : ∀ q, (t ++ b ++ k).head? = .some q → t.head? = .some q := by
      intro q hq
      rw [List.append_assoc, List.head?_append_of_ne_nil _ h0] at hq
      exact hq
    have hne : (t ++ b ++ k).head? ≠ .some ' ' := by
      intro he
      have := h1.1 ' ' (hh _ he)
      rw [hws] at this; cases this
    rw [← List.append_assoc, skip_self hne]
    refine ⟨_, key (t ++ b) ?_ ?_ ?_, rfl, ?_⟩
    · intro c hc
      rcases List.mem_append.mp hc with hc | hc
      · have := h2 c hc
        simp at this
        simp [descChar, this]
      · rw [hb c hc]; decide
    · rw [List.head?_append_of_ne_nil _ h0]; exact h3
    · rw [List.head?_append_of_ne_nil _ h0]; exact h4
    · rw [ht]
      have := trim_wrap (env := env) (b := []) (b' := b) (by simp) h1 (by intro c hc; rw [hb c hc]; exact hws)
      simpa using this

theorem opt_none {a : P} {s : Str} (h : a s = none) : opt a s = .some ([], s) := by
  unfold opt; rw [alt_right h]; rfl
theorem opt_some {a : P} {s : Str} {r : List Pair × Str} (h : a s = some r) : opt a s = some r := alt_left h

/-- The part after the description. -/
theorem payeeEnd_some {env : Env} (hws : env.ws ' ' = true) {pa en : Str} {payee : Option Str} {cs : List Str}
    (hp : WritesPayee env pa payee) (he : WritesHeaderEnd en cs) :
    ∃ pl cml x, seq wss (seq (opt (seq (lit ['|']) (seq wss gPayee))) (seq wss (seq (opt gComment) gEnd))) (pa ++ en) =
        some (pl ++ (cml ++ [.mk .eol x []]), []) ∧
      OptValue .payee (headerText env) pl payee ∧
      ((cs = [] ∧ cml = []) ∨ ∃ c, cs = [c] ∧ cml = [.mk .comment c []]) := by
  obtain ⟨cml, x, h1, h2⟩ := headerEnd_some he
  have hen : ∀ c, en.head? = some c → descChar c = false := by
    intro c hc
    rcases headerEnd_head he c hc with rfl | rfl <;> decide
  have hen' : en.head? ≠ some ' ' := by
    intro h; have := hen _ h; revert this; decide
  have hw : wss en = some ([], en) := by rw [wss_eq]; exact congrArg (fun x => some ([], x)) (skip_self hen')
  cases hp with
  | none =>
    have hb : en.head? ≠ some '|' := by
      intro h
      rcases headerEnd_head he _ h with h | h <;> revert h <;> decide
    refine ⟨[], cml, x, ?_, .inl ⟨rfl, rfl⟩, h2⟩
    have := seq_some hw (seq_some (opt_none (a := seq (lit ['|']) (seq wss gPayee))
      (seq_none (lit_none (by simp) (by simpa using hb)))) (seq_some hw h1))
    simpa using this
  | @some b p b' hb hp hb' =>
    obtain ⟨q, g1, g2, g3⟩ := hp.some hws (r := .payee) (by decide) (by decide) hb' hen
    refine ⟨[q], cml, x, ?_, .inr ⟨q, p, rfl, g2, g3, rfl⟩, h2⟩
    have e : ('|' :: b ++ p ++ b') ++ en = '|' :: (b ++ (p ++ (b' ++ en))) := by simp
    have w0 : wss ('|' :: (b ++ (p ++ (b' ++ en)))) = Option.some ([], '|' :: (b ++ (p ++ (b' ++ en)))) := by
      rw [wss_eq]; exact congrArg (fun x => Option.some ([], x)) (skip_self (by simp))
    have w1 : wss (b ++ (p ++ (b' ++ en))) = Option.some ([], skip (p ++ (b' ++ en))) := by
      rw [wss_eq]; exact congrArg (fun x => Option.some ([], x)) (skip_spaces hb)
    rw [e]
    have := seq_some w0 (seq_some (opt_some (a := seq (lit ['|']) (seq wss gPayee))
      (seq_some (by simpa using lit_append ['|'] (b ++ (p ++ (b' ++ en)))) (seq_some w1 g1))) (seq_some hw h1))
    simpa using this

theorem payeeEnd_head {env : Env} {pa en : Str} {payee : Option Str} {cs : List Str}
    (hp : WritesPayee env pa payee) (he : WritesHeaderEnd en cs) :
    ∀ c, (pa ++ en).head? = some c → c = '|' ∨ c = '\r' ∨ c = ';' := by
  intro c hc
  cases hp with
  | none => exact .inr (headerEnd_head he c hc)
  | some => simp at hc; exact .inl hc.symm

/-- The part from the description on. -/
theorem descEnd_some {env : Env} (hws : env.ws ' ' = true) {desc b3 pa en : Str} {payee : Option Str} {cs : List Str}
    (hd : HeaderText env desc) (hb : Spaces b3) (hp : WritesPayee env pa payee) (he : WritesHeaderEnd en cs) :
    ∃ pd pl cml x, seq gDescription (seq wss (seq (opt (seq (lit ['|']) (seq wss gPayee)))
          (seq wss (seq (opt gComment) gEnd)))) (skip (desc ++ (b3 ++ (pa ++ en)))) =
        some ([pd] ++ (pl ++ (cml ++ [.mk .eol x []])), []) ∧
      pd.rule = .description ∧ headerText env pd = .ok desc ∧
      OptValue .payee (headerText env) pl payee ∧
      ((cs = [] ∧ cml = []) ∨ ∃ c, cs = [c] ∧ cml = [.mk .comment c []]) := by
  obtain ⟨pl, cml, x, h1, h2, h3⟩ := payeeEnd_some hws hp he
  obtain ⟨pd, g1, g2, g3⟩ := hd.some hws (r := .description) (by decide) (by decide) (k := pa ++ en) hb (by
    intro c hc
    rcases payeeEnd_head hp he c hc with rfl | rfl | rfl <;> decide)
  exact ⟨pd, pl, cml, x, seq_some g1 h1, g2, g3, h2, h3⟩

theorem desc_head {env : Env} (hws : env.ws ' ' = true) {desc b3 pa en : Str} {payee : Option Str} {cs : List Str}
    (hd : HeaderText env desc) (hb : Spaces b3) (hp : WritesPayee env pa payee) (he : WritesHeaderEnd en cs) :
    (desc = [] ∧ skip (desc ++ (b3 ++ (pa ++ en))) = pa ++ en) ∨
    (desc ≠ [] ∧ skip (desc ++ (b3 ++ (pa ++ en))) = desc ++ (b3 ++ (pa ++ en))) := by
  by_cases h0 : desc = []
  · subst h0
    left
    refine ⟨rfl, ?_⟩
    rw [List.nil_append, skip_spaces hb, skip_self]
    intro h
    rcases payeeEnd_head hp he _ h with h | h | h <;> revert h <;> decide
  · right
    refine ⟨h0, skip_self ?_⟩
    rw [List.head?_append_of_ne_nil _ h0]
    intro h
    have := hd.1.1 _ h
    rw [hws] at this; cases this

theorem gCode_some {c : Str} (h : '"' ∉ c) (h' : '\\' ∉ c) (k : Str) :
    ∃ p, gCode (('(' :: '"' :: c ++ ['"', ')']) ++ k) = some ([p], k) ∧ p.rule = .code := by
  have hs : gString (('"' :: c ++ ['"']) ++ (')' :: k)) = some ([.mk .string ('"' :: c ++ ['"']) []], ')' :: k) := by
    refine rule_some (x := []) (alt_left ?_)
    have e1 : ('"' :: c ++ ['"']) ++ (')' :: k) = '"' :: (c ++ '"' :: (')' :: k)) := by simp
    rw [e1]
    simp [quoted, quotedBody_plain h h']
  have := seq_some (by simpa using lit_append ['('] (('"' :: c ++ ['"']) ++ (')' :: k)))
    (seq_some hs (by simpa using lit_append [')'] k))
  obtain ⟨tx, h5⟩ := rule_some' (r := .code) this
  refine ⟨.mk .code tx ([] ++ ([.mk .string ('"' :: c ++ ['"']) []] ++ [])), ?_, rfl⟩
  rw [← h5]; unfold gCode; congr 1; simp

/-- The part from the code on. -/
theorem codeEnd_some {env : Env} (hws : env.ws ' ' = true) {co b2 desc b3 pa en : Str} {payee : Option Str}
    {cs : List Str} (hc : WritesCode co) (hb2 : Spaces b2)
    (hd : HeaderText env desc) (hb : Spaces b3) (hp : WritesPayee env pa payee) (he : WritesHeaderEnd en cs)
    (hdc : desc.head? = some '(' → (desc.drop 1).head? ≠ some '"' ∧ (desc.drop 1).head? ≠ some '\'') :
    ∃ cl pd pl cml x, seq (opt gCode) (seq wss (seq gDescription (seq wss (seq (opt (seq (lit ['|']) (seq wss gPayee)))
          (seq wss (seq (opt gComment) gEnd)))))) (skip (co ++ (b2 ++ (desc ++ (b3 ++ (pa ++ en)))))) =
        some (cl ++ ([pd] ++ (pl ++ (cml ++ [.mk .eol x []]))), []) ∧
      OptItem .code cl ∧ pd.rule = .description ∧ headerText env pd = .ok desc ∧
      OptValue .payee (headerText env) pl payee ∧
      ((cs = [] ∧ cml = []) ∨ ∃ c, cs = [c] ∧ cml = [.mk .comment c []]) := by
  obtain ⟨pd, pl, cml, x, h1, h2, h3, h4, h5⟩ := descEnd_some hws hd hb hp he
  cases hc with
  | none =>
    refine ⟨[], pd, pl, cml, x, ?_, .inl rfl, h2, h3, h4, h5⟩
    rw [List.nil_append, skip_spaces hb2]
    have w : wss (skip (desc ++ (b3 ++ (pa ++ en)))) = some ([], skip (desc ++ (b3 ++ (pa ++ en)))) := by
      rw [wss_eq]; exact congrArg (fun x => some ([], x)) (skip_idem _)
    have hn : gCode (skip (desc ++ (b3 ++ (pa ++ en)))) = none := by
      apply rule_none
      rcases desc_head hws hd hb hp he with ⟨_, e⟩ | ⟨h0, e⟩
      · rw [e]
        refine seq_none (lit_none (by simp) ?_)
        intro h
        rcases payeeEnd_head hp he '(' (by simpa using h) with h | h | h <;> revert h <;> decide
      · rw [e]
        by_cases hp1 : desc.head? = some '('
        · obtain ⟨q1, q2⟩ := hdc hp1
          cases desc with
          | nil => exact absurd rfl h0
          | cons c d =>
            obtain rfl : c = '(' := by simpa using hp1
            refine seq_none' (x := []) (s1 := d ++ (b3 ++ (pa ++ en)))
              (by simpa using lit_append ['('] (d ++ (b3 ++ (pa ++ en)))) (seq_none ?_)
            have hq : ∀ q, (q = '"' ∨ q = '\'') → d.head? ≠ some q → (d ++ (b3 ++ (pa ++ en))).head? ≠ some q := by
              intro q hq hdq
              cases d with
              | cons c d => exact hdq
              | nil =>
                rw [List.nil_append]
                cases b3 with
                | nil =>
                  rw [List.nil_append]
                  intro h
                  rcases payeeEnd_head hp he q h with rfl | rfl | rfl <;> revert hq <;> decide
                | cons c b3 =>
                  have : c = ' ' := hb c (by simp)
                  subst this
                  intro h
                  simp at h; subst h; revert hq; decide
            exact gString_none (hq _ (.inl rfl) q1) (hq _ (.inr rfl) q2)
        · refine seq_none (lit_none (by simp) ?_)
          rw [List.head?_append_of_ne_nil _ h0]
          simpa using hp1
    have := seq_some (opt_none hn) (seq_some w h1)
    simpa using this
  | @some c hc1 hc2 _ =>
    obtain ⟨p, g1, g2⟩ := gCode_some hc1 hc2 (b2 ++ (desc ++ (b3 ++ (pa ++ en))))
    refine ⟨[p], pd, pl, cml, x, ?_, .inr ⟨p, rfl, g2⟩, h2, h3, h4, h5⟩
    have w : wss (b2 ++ (desc ++ (b3 ++ (pa ++ en)))) = Option.some ([], skip (desc ++ (b3 ++ (pa ++ en)))) := by
      rw [wss_eq]; exact congrArg (fun x => Option.some ([], x)) (skip_spaces hb2)
    rw [skip_self (by simp)]
    have := seq_some (opt_some g1) (seq_some w h1)
    simpa using this

theorem code_head {env : Env} (hws : env.ws ' ' = true) {co b2 desc b3 pa en : Str} {payee : Option Str}
    {cs : List Str} (hc : WritesCode co) (hb2 : Spaces b2)
    (hd : HeaderText env desc) (hb : Spaces b3) (hp : WritesPayee env pa payee) (he : WritesHeaderEnd en cs) :
    ∀ c, (skip (co ++ (b2 ++ (desc ++ (b3 ++ (pa ++ en)))))).head? = some c →
      (c ∈ ['(', '|', '\r', ';'] ∨ desc.head? = some c) := by
  intro c hc'
  cases hc with
  | none =>
    rw [List.nil_append, skip_spaces hb2] at hc'
    rcases desc_head hws hd hb hp he with ⟨_, e⟩ | ⟨h0, e⟩
    · rw [e] at hc'
      rcases payeeEnd_head hp he c hc' with rfl | rfl | rfl <;> simp
    · rw [e, List.head?_append_of_ne_nil _ h0] at hc'
      exact .inr hc'
  | some h1 h2 =>
    rw [skip_self (by simp)] at hc'
    simp at hc'
    simp [← hc']

/-- The part from the status on. -/
theorem statusEnd_some {env : Env} (hws : env.ws ' ' = true) {st b1 co b2 desc b3 pa en : Str} {payee : Option Str}
    {cs : List Str} (hst : WritesStatus st) (hb1 : Spaces b1) (hc : WritesCode co) (hb2 : Spaces b2)
    (hd : HeaderText env desc) (hb : Spaces b3) (hp : WritesPayee env pa payee) (he : WritesHeaderEnd en cs)
    (hds : st = [] → desc.head? ≠ some '*' ∧ desc.head? ≠ some '!')
    (hdc : desc.head? = some '(' → (desc.drop 1).head? ≠ some '"' ∧ (desc.drop 1).head? ≠ some '\'') :
    ∃ sl cl pd pl cml x, seq (opt gStatus) (seq wss (seq (opt gCode) (seq wss (seq gDescription (seq wss
          (seq (opt (seq (lit ['|']) (seq wss gPayee))) (seq wss (seq (opt gComment) gEnd))))))))
          (skip (st ++ (b1 ++ (co ++ (b2 ++ (desc ++ (b3 ++ (pa ++ en)))))))) =
        some (sl ++ (cl ++ ([pd] ++ (pl ++ (cml ++ [.mk .eol x []])))), []) ∧
      OptItem .status sl ∧ OptItem .code cl ∧ pd.rule = .description ∧ headerText env pd = .ok desc ∧
      OptValue .payee (headerText env) pl payee ∧
      ((cs = [] ∧ cml = []) ∨ ∃ c, cs = [c] ∧ cml = [.mk .comment c []]) := by
  obtain ⟨cl, pd, pl, cml, x, h1, h2⟩ := codeEnd_some hws hc hb2 hd hb hp he hdc
  have go : ∀ m : Char, gStatus (m :: (b1 ++ (co ++ (b2 ++ (desc ++ (b3 ++ (pa ++ en))))))) =
        some ([.mk .status [m] []], b1 ++ (co ++ (b2 ++ (desc ++ (b3 ++ (pa ++ en)))))) → m ≠ ' ' →
      seq (opt gStatus) (seq wss (seq (opt gCode) (seq wss (seq gDescription (seq wss
          (seq (opt (seq (lit ['|']) (seq wss gPayee))) (seq wss (seq (opt gComment) gEnd))))))))
          (skip ([m] ++ (b1 ++ (co ++ (b2 ++ (desc ++ (b3 ++ (pa ++ en)))))))) =
        some ([.mk .status [m] []] ++ (cl ++ ([pd] ++ (pl ++ (cml ++ [.mk .eol x []])))), []) := by
    intro m hm hm'
    have w : wss (b1 ++ (co ++ (b2 ++ (desc ++ (b3 ++ (pa ++ en)))))) =
        some ([], skip (co ++ (b2 ++ (desc ++ (b3 ++ (pa ++ en)))))) := by
      rw [wss_eq]; exact congrArg (fun x => some ([], x)) (skip_spaces hb1)
    rw [skip_self (by simpa using hm')]
    have := seq_some (opt_some hm) (seq_some w h1)
    simpa using this
  rcases hst with rfl | rfl | rfl
  · refine ⟨[], cl, pd, pl, cml, x, ?_, .inl rfl, h2⟩
    rw [List.nil_append, skip_spaces hb1]
    have w : wss (skip (co ++ (b2 ++ (desc ++ (b3 ++ (pa ++ en)))))) =
        some ([], skip (co ++ (b2 ++ (desc ++ (b3 ++ (pa ++ en)))))) := by
      rw [wss_eq]; exact congrArg (fun x => some ([], x)) (skip_idem _)
    obtain ⟨d1, d2⟩ := hds rfl
    have hn : gStatus (skip (co ++ (b2 ++ (desc ++ (b3 ++ (pa ++ en)))))) = none := by
      apply rule_none
      apply lits_none
      intro l hl
      have hh := code_head hws hc hb2 hd hb hp he
      simp only [List.mem_cons, List.not_mem_nil, or_false] at hl
      rcases hl with rfl | rfl
      · refine ⟨by decide, fun h => ?_⟩
        rcases hh '*' (by simpa using h) with h | h
        · revert h; decide
        · exact d1 h
      · refine ⟨by decide, fun h => ?_⟩
        rcases hh '!' (by simpa using h) with h | h
        · revert h; decide
        · exact d2 h
    have := seq_some (opt_none hn) (seq_some w h1)
    simpa using this
  · exact ⟨_, cl, pd, pl, cml, x, go '*' (by
      have := rule_some (r := .status) (a := lits ["*", "!"]) (t := ['*'])
        (k := b1 ++ (co ++ (b2 ++ (desc ++ (b3 ++ (pa ++ en)))))) (x := []) (lits_first (by decide) (by decide))
      simpa [gStatus] using this) (by decide), .inr ⟨_, rfl, rfl⟩, h2⟩
  · exact ⟨_, cl, pd, pl, cml, x, go '!' (by
      have := rule_some (r := .status) (a := lits ["*", "!"]) (t := ['!'])
        (k := b1 ++ (co ++ (b2 ++ (desc ++ (b3 ++ (pa ++ en)))))) (x := []) (lits_first (by decide) (by decide))
      simpa [gStatus] using this) (by decide), .inr ⟨_, rfl, rfl⟩, h2⟩

/-- After the dates: no time of day is seen. -/
theorem noTime {env : Env} {b st b1 co b2 desc b3 pa en : Str} {payee : Option Str}
    {cs : List Str} (hb0 : Spaces b) (hb0' : b ≠ []) (hst : WritesStatus st) (hb1 : Spaces b1) (hc : WritesCode co)
    (hb2 : Spaces b2) (hd : HeaderText env desc) (hb : Spaces b3) (hp : WritesPayee env pa payee)
    (he : WritesHeaderEnd en cs) (hdt : (∃ c, desc.head? = some c ∧ '0' ≤ c ∧ c ≤ '9') → ':' ∉ desc) :
    gTimeOpt (b ++ (st ++ (b1 ++ (co ++ (b2 ++ (desc ++ (b3 ++ (pa ++ en)))))))) =
      some ([], b ++ (st ++ (b1 ++ (co ++ (b2 ++ (desc ++ (b3 ++ (pa ++ en)))))))) := by
  apply opt_none
  cases b with
  | nil => exact absurd rfl hb0'
  | cons c b =>
    obtain rfl : c = ' ' := hb0 c (by simp)
    have hb0 : Spaces b := fun c hc => hb0 c (by simp [hc])
    refine seq_none' (x := []) (s1 := b ++ (st ++ (b1 ++ (co ++ (b2 ++ (desc ++ (b3 ++ (pa ++ en))))))))
      (by simpa using lit_append [' '] (b ++ (st ++ (b1 ++ (co ++ (b2 ++ (desc ++ (b3 ++ (pa ++ en))))))))) ?_
    -- everything in front of the description has no colon and no digit
    have nodig : ∀ v : Str, (∀ c, v.head? = some c → isDig c = false ∧ c ≠ ':') → gTime v = none :=
      fun v hv => by simpa using gTime_none (u := []) (v := v) (by simp) hv
    have hsp : ∀ (b s : Str), Spaces b → gTime s = none → gTime (b ++ s) = none := by
      intro b s hb hs
      cases b with
      | nil => exact hs
      | cons c b =>
        obtain rfl : c = ' ' := hb c (by simp)
        exact nodig _ (by intro c hc; simp at hc; subst hc; decide)
    have htail : ∀ c, (b3 ++ (pa ++ en)).head? = some c → isDig c = false ∧ c ≠ ':' := by
      intro c hc
      cases b3 with
      | nil => rcases payeeEnd_head hp he c hc with rfl | rfl | rfl <;> decide
      | cons x b3 =>
        obtain rfl : x = ' ' := hb x (by simp)
        simp at hc; subst hc; decide
    refine hsp _ _ hb0 ?_
    rcases hst with rfl | rfl | rfl
    · rw [List.nil_append]
      refine hsp _ _ hb1 ?_
      cases hc with
      | none =>
        rw [List.nil_append]
        refine hsp _ _ hb2 ?_
        by_cases hdig : ∃ c, desc.head? = some c ∧ '0' ≤ c ∧ c ≤ '9'
        · exact gTime_none (hdt hdig) htail
        · by_cases h0 : desc = []
          · subst h0; exact nodig _ htail
          · have hh : gHour (desc ++ (b3 ++ (pa ++ en))) = none := by
              cases hg : gHour (desc ++ (b3 ++ (pa ++ en))) with
              | none => rfl
              | some r =>
                obtain ⟨x, k⟩ := r
                obtain ⟨u, hu, hud⟩ := gHour_digits hg
                cases u with
                | nil =>
                  exfalso
                  rw [List.nil_append] at hu
                  -- an hour is not empty
                  cases desc with
                  | nil => exact h0 rfl
                  | cons c d =>
                    have hcd : isDig c = false := by
                      cases hi : isDig c with
                      | false => rfl
                      | true => exact absurd ⟨c, rfl, isDig_iff.mp hi⟩ hdig
                    have : gHour ((c :: d) ++ (b3 ++ (pa ++ en))) = none := by
                      unfold gHour
                      have hnd : NoDigit ((c :: d) ++ (b3 ++ (pa ++ en))) := NoDigit.cons hcd
                      rw [alt_right (seq_none (hnd.lits ["0", "1"] (by simp [isDig])))]
                      refine lit_none (by decide) ?_
                      intro h
                      simp at h
                      rw [h] at hcd
                      revert hcd; decide
                    rw [this] at hg; cases hg
                | cons c u =>
                  exfalso
                  have h1 : (desc ++ (b3 ++ (pa ++ en))).head? = some c := by rw [hu]; rfl
                  rw [List.head?_append_of_ne_nil _ h0] at h1
                  exact hdig ⟨c, h1, isDig_iff.mp (hud c (by simp))⟩
            exact rule_none (seq_none hh)
      | some h1 h2 => exact nodig _ (by intro c hc; simp at hc; subst hc; decide)
    · exact nodig _ (by intro c hc; simp at hc; subst hc; decide)
    · exact nodig _ (by intro c hc; simp at hc; subst hc; decide)

theorem headerPayee_eq (payee : Option Str) (desc : Str) :
    headerPayee payee desc = payee.getD (if desc = [] then "[Unspecified payee]".toList else desc) := by
  cases payee with
  | none => unfold headerPayee; by_cases h : desc = [] <;> simp [h]
  | some p => rfl

/-- The first line of a transaction is read as it is meant. -/
theorem parseHeader_ok {env : Env} (hws : env.ws ' ' = true) {h : Str} {t : Txn RawPosting} (hh : WritesHeader env h t) :
    parseHeader env h = .ok t := by
  cases hh with
  | @mk d e b st b' co b'' desc b3 pa en date eff payee cs hd he hb hb0 hst hb' hco hb'' hdesc hb3 hpa hen q1 q2 q3 =>
  obtain ⟨sl, cl, pd, pl, cml, x, h1, h2, h3, h4, h5, h6, h7⟩ := statusEnd_some hws hst hb' hco hb'' hdesc hb3 hpa hen q1 q2
  have hnt := noTime hb hb0 hst hb' hco hb'' hdesc hb3 hpa hen q3
  have hw := wsp_some (s := st ++ (b' ++ (co ++ (b'' ++ (desc ++ (b3 ++ (pa ++ en))))))) hb hb0
  have hsp : (b ++ (st ++ (b' ++ (co ++ (b'' ++ (desc ++ (b3 ++ (pa ++ en)))))))).head? = some ' ' := by
    cases b with
    | nil => exact absurd rfl hb0
    | cons c b => obtain rfl : c = ' ' := hb c (by simp); rfl
  have hrest := seq_some hw h1
  -- the effective date
  have heff : ∃ el tl2, opt (seq (lit ['=']) (seq gDate gTimeOpt))
        (e ++ (b ++ (st ++ (b' ++ (co ++ (b'' ++ (desc ++ (b3 ++ (pa ++ en))))))))) =
        some (el ++ tl2, b ++ (st ++ (b' ++ (co ++ (b'' ++ (desc ++ (b3 ++ (pa ++ en)))))))) ∧
      OptValue .date parseDate el eff ∧ OptItem .time tl2 ∧ (el = [] → tl2 = []) ∧
      ((e ++ (b ++ (st ++ (b' ++ (co ++ (b'' ++ (desc ++ (b3 ++ (pa ++ en))))))))).head? = some ' ' ∨
       (e ++ (b ++ (st ++ (b' ++ (co ++ (b'' ++ (desc ++ (b3 ++ (pa ++ en))))))))).head? = some '=') ∧
      gTimeOpt (e ++ (b ++ (st ++ (b' ++ (co ++ (b'' ++ (desc ++ (b3 ++ (pa ++ en))))))))) =
        some ([], (e ++ (b ++ (st ++ (b' ++ (co ++ (b'' ++ (desc ++ (b3 ++ (pa ++ en)))))))))) := by
    cases he with
    | none =>
      refine ⟨[], [], ?_, .inl ⟨rfl, rfl⟩, .inl rfl, fun _ => rfl, .inl (by simpa using hsp), by simpa using hnt⟩
      exact opt_none (seq_none (lit_none (by simp) (by rw [List.nil_append, hsp]; simp)))
    | @some s dt hs =>
      obtain ⟨p, s1, tl, w1, w2, w3, w4, w5⟩ := when_some hs (.inl hsp) hnt
      refine ⟨[p], tl, ?_, .inr ⟨p, dt, rfl, w3, w4, rfl⟩, w5, fun h => by simp at h, .inr rfl, ?_⟩
      · have := seq_some (by simpa using lit_append ['='] (s ++ (b ++ (st ++ (b' ++ (co ++ (b'' ++ (desc ++ (b3 ++ (pa ++ en))))))))))
          (seq_some w1 w2)
        simpa using opt_some this
      · exact opt_none (seq_none (lit_none (by simp) (by simp)))
  obtain ⟨el, tl2, e1, e2, e3, e4, e5, e6⟩ := heff
  obtain ⟨p, s1, tl, w1, w2, w3, w4, w5⟩ := when_some hd e5 e6
  have hall := seq_some w1 (seq_some w2 (seq_some e1 hrest))
  obtain ⟨tx, hr⟩ := rule_some' (r := .transaction) hall
  have hline : d ++ e ++ b ++ st ++ b' ++ co ++ b'' ++ desc ++ b3 ++ pa ++ en =
      d ++ (e ++ (b ++ (st ++ (b' ++ (co ++ (b'' ++ (desc ++ (b3 ++ (pa ++ en))))))))) := by simp
  have hi := headerItems_ok (env := env) (date := date) (x := x) w5 e2 e3 e4 h2 h3 h4 h5 h6 h7
  have hg : gTransaction (d ++ e ++ b ++ st ++ b' ++ co ++ b'' ++ desc ++ b3 ++ pa ++ en) =
      some ([.mk .transaction tx (p :: (tl ++ (el ++ (tl2 ++ (sl ++ (cl ++ ([pd] ++ (pl ++ (cml ++ [.mk .eol x []])))))))))], []) := by
    rw [hline]
    unfold gTransaction
    rw [hr]; simp
  unfold parseHeader
  rw [hg, headerPayee_eq] at *
  cases hl : tl ++ (el ++ (tl2 ++ (sl ++ (cl ++ ([pd] ++ (pl ++ (cml ++ [.mk .eol x []]))))))) with
  | nil => simp at hl
  | cons y l =>
    rw [hl] at hi
    simp only [Pair.inner, w4]
    exact hi

/-! ### Prices and commodities -/

/-- What can come after a commodity name. -/
def CurStop (env : Env) (k : Str) : Prop := ∀ c, k.head? = some c → (!reserved c && !env.sep c) = false

theorem currency_some {env : Env} {cs c k : Str} (h : WritesCommodity env cs c) (hk : CurStop env k) :
    ∃ p, gCurrency env (cs ++ k) = some ([p], k) ∧ p.rule = .currency ∧ parseString p = .ok c := by
  cases h with
  | plain h hw =>
    obtain ⟨h1, h2, h3, h4, h5, h6, h7⟩ := h
    have : IsWord env cs := by
      refine ⟨h1, fun x hx => by simp [h2 x hx], fun x hx => ?_⟩
      rw [hx] at h3 h4 h5 h6 h7
      exact ⟨fun e => h3 (by rw [e]), fun e => h4 (by rw [e]), fun e => h5 (by rw [e]), fun e => h6 (by rw [e]),
        fun e => h7 (by rw [e])⟩
    exact ⟨.mk .currency cs [.mk .unquoted cs []], this.currency hk, rfl, rfl⟩
  | quoted h1 h2 h3 h4 =>
    have hs : gString (('"' :: c ++ ['"']) ++ k) = some ([.mk .string ('"' :: c ++ ['"']) []], k) := by
      refine rule_some (x := []) (alt_left ?_)
      have e1 : ('"' :: c ++ ['"']) ++ k = '"' :: (c ++ '"' :: k) := by simp
      rw [e1]
      simp [quoted, quotedBody_plain h1 h2]
    refine ⟨_, rule_some (alt_left hs), rfl, ?_⟩
    simp only [parseString, Pair.rule, Pair.inner, if_true, parseLeaf, Pair.text]
    rw [unquote_wrap]

theorem currency_head {env : Env} (hsep : env.AsciiSep) {cs c : Str} (h : WritesCommodity env cs c) :
    ∃ x r, cs = x :: r ∧ x ≠ ' ' := by
  cases h with
  | plain h _ =>
    cases cs with
    | nil => exact absurd rfl h.1
    | cons x r =>
      refine ⟨x, r, rfl, ?_⟩
      rintro rfl
      have := (h.2.1 ' ' (by simp)).2
      rw [(hsep ' ' (by decide)).mpr rfl] at this
      cases this
  | quoted => exact ⟨_, _, rfl, by decide⟩

theorem spaces_head {b s : Str} (h : Spaces b) (h0 : b ≠ []) : (b ++ s).head? = some ' ' := by
  cases b with
  | nil => exact absurd rfl h0
  | cons c b => obtain rfl : c = ' ' := h c (by simp); rfl

theorem curStop_space {env : Env} (hsep : env.AsciiSep) {k : Str} (h : k.head? = some ' ') : CurStop env k := by
  intro c hc
  rw [h] at hc; cases hc
  simp [(hsep ' ' (by decide)).mpr rfl]

theorem curStop_end {env : Env} (hsep : env.AsciiSep) {b en : Str} {cm : List Str} (hb : Spaces b)
    (he : WritesHeaderEnd en cm) (hr : en ≠ ['\r']) : CurStop env (b ++ en) := by
  by_cases h0 : b = []
  · subst h0
    intro c hc
    cases he with
    | none => cases hc
    | cr => exact absurd rfl hr
    | comment => simp at hc; subst hc; simp [reserved]
  · exact curStop_space hsep (spaces_head hb h0)

/-- The end of a price directive or of a first line of a commodity directive. -/
theorem lineEnd_some {b en : Str} {cm : List Str} (hb : Spaces b) (he : WritesHeaderEnd en cm) :
    ∃ l, seq wss (seq (opt gComment) gEnd) (b ++ en) = some (l, []) := by
  obtain ⟨cml, x, h, _⟩ := headerEnd_some he
  have w : wss (b ++ en) = some ([], skip (b ++ en)) := wss_eq _
  rw [skip_spaces hb, skip_self (by
    intro h'
    rcases headerEnd_head he _ h' with h' | h' <;> revert h' <;> decide)] at w
  exact ⟨_, seq_some w h⟩

/-- The line of a price directive is read as it is meant. -/
theorem parsePrice_ok {env : Env} (hsep : env.AsciiSep) {l : Str} {p : ParsedPrice} (h : WritesPrice env l p) :
    parsePrice env l = .ok p := by
  cases h with
  | @mk b1 d b2 cs c b3 n b4 os o b5 en date q cm hb1 hd hb2 hb2' hc hb3 hb3' hn hb4 hb4' ho hb5 hen hr =>
  obtain ⟨le, hle⟩ := lineEnd_some hb5 hen
  obtain ⟨po, o1, o2, o3⟩ := currency_some ho (curStop_end hsep hb5 hen hr)
  obtain ⟨xo, ro, eo, hxo⟩ := currency_head hsep ho
  obtain ⟨xc, rc, ec, hxc⟩ := currency_head hsep hc
  have w4 : wss (b4 ++ (os ++ (b5 ++ en))) = some ([], os ++ (b5 ++ en)) := by
    rw [wss_eq]
    refine congrArg (fun x => some ([], x)) ((skip_spaces hb4).trans (skip_self ?_))
    rw [eo]; simpa using hxo
  -- the number
  have hnum : ∃ pn, gNumber (n ++ (b4 ++ (os ++ (b5 ++ en)))) = some ([pn], b4 ++ (os ++ (b5 ++ en))) ∧
      parseRational pn.text = .ok q ∧ (n ++ (b4 ++ (os ++ (b5 ++ en)))).head? ≠ some ' ' := by
    have k1 : ∀ c, (b4 ++ (os ++ (b5 ++ en))).head? = some c → isDig c = false := by
      intro c hc; rw [spaces_head hb4 hb4'] at hc; cases hc; rfl
    have k2 : (b4 ++ (os ++ (b5 ++ en))).head? ≠ some '.' := by rw [spaces_head hb4 hb4']; decide
    cases hn with
    | pos hn =>
      refine ⟨_, gNumber_some hn k1 k2, parseRational_numeral hn, ?_⟩
      obtain ⟨c, r, rfl, hc⟩ := hn.head
      simpa using isDig_ne hc (d := ' ') rfl
    | neg hn =>
      exact ⟨_, gNumber_neg hn k1 k2, parseRational_neg hn, by simp⟩
  obtain ⟨pn, n1, n2, n3⟩ := hnum
  have w3 : wss (b3 ++ (n ++ (b4 ++ (os ++ (b5 ++ en))))) = some ([], n ++ (b4 ++ (os ++ (b5 ++ en)))) := by
    rw [wss_eq]
    exact congrArg (fun x => some ([], x)) ((skip_spaces hb3).trans (skip_self n3))
  obtain ⟨pc, c1, c2, c3⟩ := currency_some (k := b3 ++ (n ++ (b4 ++ (os ++ (b5 ++ en))))) hc
    (curStop_space hsep (spaces_head hb3 hb3'))
  have w2 := wsp_some (s := cs ++ (b3 ++ (n ++ (b4 ++ (os ++ (b5 ++ en)))))) hb2 hb2'
  rw [skip_self (by rw [ec]; simpa using hxc)] at w2
  -- no time of day
  have hnt : gTimeOpt (b2 ++ (cs ++ (b3 ++ (n ++ (b4 ++ (os ++ (b5 ++ en))))))) =
      some ([], b2 ++ (cs ++ (b3 ++ (n ++ (b4 ++ (os ++ (b5 ++ en))))))) := by
    apply opt_none
    cases b2 with
    | nil => exact absurd rfl hb2'
    | cons y b2 =>
      obtain rfl : y = ' ' := hb2 y (by simp)
      refine seq_none' (x := []) (s1 := b2 ++ (cs ++ (b3 ++ (n ++ (b4 ++ (os ++ (b5 ++ en)))))))
        (by simpa using lit_append [' '] (b2 ++ (cs ++ (b3 ++ (n ++ (b4 ++ (os ++ (b5 ++ en)))))))) ?_
      cases b2 with
      | cons z b2 =>
        obtain rfl : z = ' ' := hb2 z (by simp)
        exact gTime_none (u := []) (by simp) (by intro c hc; simp at hc; subst hc; decide)
      | nil =>
        rw [List.nil_append]
        cases hc with
        | plain hp _ =>
          refine gTime_none (fun hm => ?_) ?_
          · have := (hp.2.1 ':' hm).1; revert this; decide
          · intro c hc; rw [spaces_head hb3 hb3'] at hc; cases hc; decide
        | quoted =>
          exact gTime_none (u := []) (by simp) (by intro c hc; simp at hc; subst hc; decide)
  obtain ⟨p, s1, tl, d1, d2, d3, d4, d5⟩ := when_some hd (.inl (spaces_head hb2 hb2')) hnt
  have w1 : wss (b1 ++ (d ++ (b2 ++ (cs ++ (b3 ++ (n ++ (b4 ++ (os ++ (b5 ++ en))))))))) =
      some ([], d ++ (b2 ++ (cs ++ (b3 ++ (n ++ (b4 ++ (os ++ (b5 ++ en)))))))) := by
    rw [wss_eq]
    refine congrArg (fun x => some ([], x)) ((skip_spaces hb1).trans (skip_self ?_))
    intro hh
    have : gDate (d ++ (b2 ++ (cs ++ (b3 ++ (n ++ (b4 ++ (os ++ (b5 ++ en)))))))) = none := by
      cases hl : d ++ (b2 ++ (cs ++ (b3 ++ (n ++ (b4 ++ (os ++ (b5 ++ en)))))))  with
      | nil => rw [hl] at hh; cases hh
      | cons y l =>
        rw [hl] at hh
        obtain rfl : y = ' ' := by simpa using hh
        rfl
    rw [this] at d1; cases d1
  have hall := seq_some (by simpa using lit_append ['P'] (b1 ++ (d ++ (b2 ++ (cs ++ (b3 ++ (n ++ (b4 ++ (os ++ (b5 ++ en)))))))))) (seq_some w1 (seq_some d1 (seq_some d2 (seq_some w2 (seq_some c1 (seq_some w3 (seq_some n1
    (seq_some w4 (seq_some o1 hle)))))))))
  obtain ⟨tx, hr⟩ := rule_some' (r := .price) hall
  have hg : gPrice env ('P' :: b1 ++ d ++ b2 ++ cs ++ b3 ++ n ++ b4 ++ os ++ b5 ++ en) =
      some ([.mk .price tx (p :: (tl ++ (pc :: pn :: po :: le)))], []) := by
    have : 'P' :: b1 ++ d ++ b2 ++ cs ++ b3 ++ n ++ b4 ++ os ++ b5 ++ en =
      'P' :: (b1 ++ (d ++ (b2 ++ (cs ++ (b3 ++ (n ++ (b4 ++ (os ++ (b5 ++ en)))))))))  := by simp
    rw [this]
    unfold gPrice
    rw [hr]; simp
  have hpr : priceOf date (pc :: pn :: po :: le) =
      .ok { date := date, commodity := c, otherCommodity := o, otherQuantity := q } := by
    simp [priceOf, c3, n2, o3]
  unfold parsePrice
  rw [hg]
  rcases d5 with rfl | ⟨pt, rfl, ht⟩
  · simp only [Pair.inner, List.nil_append, d4]
    rw [if_neg (by rw [c2]; decide)]
    exact hpr
  · simp only [Pair.inner, List.cons_append, List.nil_append, d4, ht, if_true]
    exact hpr

/-- The first line of a commodity directive is read as it is meant. -/
theorem parseCommodityName_ok {env : Env} (hsep : env.AsciiSep) {b cs c b' en : Str} {cm : List Str}
    (hb : Spaces b) (hb0 : b ≠ []) (hc : WritesCommodity env cs c) (hb' : Spaces b') (he : WritesHeaderEnd en cm)
    (hr : en ≠ ['\r']) : parseCommodityName env ("commodity".toList ++ b ++ cs ++ b' ++ en) = .ok c := by
  obtain ⟨le, hle⟩ := lineEnd_some hb' he
  obtain ⟨p, c1, c2, c3⟩ := currency_some hc (curStop_end hsep hb' he hr)
  obtain ⟨xc, rc, ec, hxc⟩ := currency_head hsep hc
  have w := wsp_some (s := cs ++ (b' ++ en)) hb hb0
  rw [skip_self (by rw [ec]; simpa using hxc)] at w
  have hall := seq_some (lit_append "commodity".toList (b ++ (cs ++ (b' ++ en)))) (seq_some w (seq_some c1 hle))
  obtain ⟨tx, hg⟩ := rule_some' (r := .commodity) hall
  unfold parseCommodityName gCommodity
  have : "commodity".toList ++ b ++ cs ++ b' ++ en = "commodity".toList ++ (b ++ (cs ++ (b' ++ en))) := by simp
  rw [this, hg]
  simpa [Pair.inner] using c3

end Dinero
