import Verif.Model.Config
import Verif.Spec.Config
import Verif.Lemmas.Tokenizer
/-
Lemmas about the configuration file.
-/
namespace Dinero

/-! ### Lines -/

theorem splitNl_line {l : Str} (h : '\n' ∉ l) : splitNl l = [l] := by
  induction l with
  | nil => rfl
  | cons c l ih =>
    simp only [List.mem_cons, not_or] at h
    rw [splitNl, if_neg (fun e => h.1 e.symm), ih h.2]

theorem splitNl_cons {l s : Str} (h : '\n' ∉ l) : splitNl (l ++ '\n' :: s) = l :: splitNl s := by
  induction l with
  | nil => simp [splitNl]
  | cons c l ih =>
    simp only [List.mem_cons, not_or] at h
    rw [List.cons_append, splitNl, if_neg (fun e => h.1 e.symm), ih h.2]

theorem splitNl_join {ls : List Str} (h0 : ls ≠ []) (h : ∀ l ∈ ls, '\n' ∉ l) : splitNl (joinLines ls) = ls := by
  induction ls with
  | nil => exact absurd rfl h0
  | cons l ls ih =>
    cases ls with
    | nil => exact splitNl_line (h l (by simp))
    | cons l' ls =>
      rw [joinLines, splitNl_cons (h l (by simp)), ih (by simp) (fun x hx => h x (by simp [hx]))]

theorem splitNl_ne (s : Str) : splitNl s ≠ [] := by
  cases s with
  | nil => simp [splitNl]
  | cons c s =>
    rw [splitNl]
    split
    · simp
    · split <;> simp

theorem splitNl_nl (s : Str) : ∀ l ∈ splitNl s, '\n' ∉ l := by
  induction s with
  | nil => simp [splitNl]
  | cons c s ih =>
    rw [splitNl]
    split
    · intro l hl
      rcases List.mem_cons.mp hl with rfl | hl
      · simp
      · exact ih l hl
    · rename_i hc
      split
      · rename_i l ls e
        rw [e] at ih
        intro x hx
        rcases List.mem_cons.mp hx with rfl | hx
        · simp only [List.mem_cons, not_or]
          exact ⟨fun e => hc e.symm, ih l (by simp)⟩
        · exact ih x (by simp [hx])
      · intro x hx
        simp only [List.mem_singleton] at hx
        subst hx
        simpa using fun e => hc e.symm

theorem join_splitNl (s : Str) : joinLines (splitNl s) = s := by
  induction s with
  | nil => rfl
  | cons c s ih =>
    rw [splitNl]
    split
    · rename_i hc
      subst hc
      have := splitNl_ne s
      cases hs : splitNl s with
      | nil => exact absurd hs this
      | cons l ls => rw [joinLines, ← hs, ih]; rfl
    · split
      · rename_i l ls e
        rw [e] at ih
        cases ls with
        | nil => simpa [joinLines] using ih
        | cons l' ls => rw [joinLines] at ih ⊢; rw [List.cons_append, ih]
      · rename_i e
        exact absurd e (splitNl_ne s)

/-! ### Words -/

theorem strWords_ws {ws : Char → Bool} {b s : Str} (h : ∀ c ∈ b, ws c = true) : strWords ws (b ++ s) = strWords ws s := by
  induction b with
  | nil => rfl
  | cons c b ih =>
    rw [List.cons_append, strWords.eq_def]
    simp only
    rw [if_pos (h c (by simp)), ih (fun x hx => h x (by simp [hx]))]

theorem strWords_blank {ws : Char → Bool} {b : Str} (h : ∀ c ∈ b, ws c = true) : strWords ws b = [] := by
  have := strWords_ws (s := []) h
  simpa [strWords] using this

theorem strWords_word {ws : Char → Bool} {w s : Str} (h0 : w ≠ []) (h : ∀ c ∈ w, ws c = false)
    (hs : ∀ c, s.head? = some c → ws c = true) : strWords ws (w ++ s) = w :: strWords ws s := by
  induction w with
  | nil => exact absurd rfl h0
  | cons c w ih =>
    have hc : ¬ ws c = true := by rw [h c (by simp)]; decide
    cases w with
    | nil =>
      rw [List.cons_append, List.nil_append, strWords.eq_def]
      simp only
      rw [if_neg hc]
      cases s with
      | nil => rfl
      | cons d s => simp only; rw [if_pos (hs d rfl)]
    | cons d w =>
      rw [List.cons_append, List.cons_append, strWords.eq_def]
      simp only
      rw [if_neg hc]
      rw [if_neg (by rw [h d (by simp)]; decide), ← List.cons_append,
        ih (by simp) (fun x hx => h x (List.mem_cons_of_mem _ hx))]

theorem strWords_line {env : Env} (vs : List (Str × Str)) {trail : Str}
    (hv : ∀ v ∈ vs, v.1 ≠ [] ∧ Blanks env v.1 ∧ Word env v.2) (ht : Blanks env trail) :
    strWords env.ws (vs.flatMap (fun v => v.1 ++ v.2) ++ trail) = vs.map Prod.snd ∧
    (∀ c, (vs.flatMap (fun v => v.1 ++ v.2) ++ trail).head? = some c → env.ws c = true) := by
  induction vs with
  | nil =>
    refine ⟨by simpa using strWords_blank (fun c hc => (ht c hc).1), ?_⟩
    intro c hc
    exact (ht c (by simpa using List.mem_of_head? hc)).1
  | cons v vs ih =>
    obtain ⟨h1, h2⟩ := ih (fun x hx => hv x (by simp [hx]))
    obtain ⟨hb, hb', hw⟩ := hv v (by simp)
    constructor
    · simp only [List.flatMap_cons, List.append_assoc] at h1 h2 ⊢
      rw [strWords_ws (fun c hc => (hb' c hc).1), strWords_word hw.1 hw.2 h2, h1]
      rfl
    · intro c hc
      obtain ⟨d, b, e⟩ := List.exists_cons_of_ne_nil hb
      simp only [List.flatMap_cons, List.append_assoc, e, List.cons_append, List.head?_cons, Option.some.injEq] at hc
      subst hc
      exact (hb' d (by rw [e]; simp)).1

/-- Every text is white space, or words with white space before, between and after them. -/
theorem strWords_exists {ws : Char → Bool} (s : Str) :
    ∃ (vs : List (Str × Str)) (trail : Str), s = vs.flatMap (fun v => v.1 ++ v.2) ++ trail ∧
      (∀ v ∈ vs, (∀ c ∈ v.1, ws c = true) ∧ v.2 ≠ [] ∧ ∀ c ∈ v.2, ws c = false) ∧ (∀ c ∈ trail, ws c = true) ∧
      (∀ v ∈ vs.tail, v.1 ≠ []) ∧ (∀ c, s.head? = some c → ws c = false → ∀ v, vs.head? = some v → v.1 = []) ∧
      (∀ c, s.head? = some c → ws c = true → ∀ v, vs.head? = some v → v.1 ≠ []) := by
  induction s with
  | nil => exact ⟨[], [], rfl, by simp, by simp, by simp, by simp, by simp⟩
  | cons c s ih =>
    obtain ⟨vs, trail, rfl, hv, ht, hn, h0, h1⟩ := ih
    cases vs with
    | nil =>
      cases hc : ws c with
      | true =>
        refine ⟨[], c :: trail, rfl, by simp, ?_, by simp, by simp, by simp⟩
        intro x hx
        rcases List.mem_cons.mp hx with rfl | hx
        · exact hc
        · exact ht x hx
      | false =>
        refine ⟨[([], [c])], trail, rfl, ?_, ht, by simp, by simp, ?_⟩
        · intro v hv
          simp only [List.mem_singleton] at hv
          subst hv
          simp [hc]
        · intro d hd
          cases hd
          rw [hc]; simp
    | cons v vs =>
      obtain ⟨b, w⟩ := v
      obtain ⟨hb, hw0, hw⟩ := hv (b, w) (by simp)
      cases hc : ws c with
      | true =>
        refine ⟨(c :: b, w) :: vs, trail, by simp, ?_, ht, hn, ?_, by simp⟩
        · intro v hv'
          rcases List.mem_cons.mp hv' with rfl | hv'
          · refine ⟨fun x hx => ?_, hw0, hw⟩
            rcases List.mem_cons.mp hx with rfl | hx
            · exact hc
            · exact hb x hx
          · exact hv v (by simp [hv'])
        · intro d hd
          cases hd
          rw [hc]; simp
      | false =>
        by_cases he : b = []
        · subst he
          refine ⟨([], c :: w) :: vs, trail, by simp, ?_, ht, hn, by simp, ?_⟩
          · intro v hv'
            rcases List.mem_cons.mp hv' with rfl | hv'
            · refine ⟨by simp, by simp, fun x hx => ?_⟩
              rcases List.mem_cons.mp hx with rfl | hx
              · exact hc
              · exact hw x hx
            · exact hv v (by simp [hv'])
          · intro d hd
            cases hd
            rw [hc]; simp
        · refine ⟨([], [c]) :: (b, w) :: vs, trail, by simp, ?_, ht, ?_, by simp, ?_⟩
          · intro v hv'
            rcases List.mem_cons.mp hv' with rfl | hv'
            · simp [hc]
            · exact hv v hv'
          · intro v hv'
            rcases List.mem_cons.mp hv' with rfl | hv'
            · exact he
            · exact hn v hv'
          · intro d hd
            cases hd
            rw [hc]; simp

theorem strWords_append_ws {ws : Char → Bool} {c : Char} (hc : ws c = true) (s : Str) :
    strWords ws (s ++ [c]) = strWords ws s := by
  induction s with
  | nil => simp [strWords.eq_def, hc]
  | cons d s ih =>
    rw [List.cons_append, strWords.eq_def, strWords.eq_def ws (d :: s)]
    simp only
    cases hd : ws d with
    | true => simpa using ih
    | false =>
      rw [if_neg (by decide), if_neg (by decide)]
      cases s with
      | nil => simp [strWords.eq_def, hc]
      | cons e s => rw [List.cons_append] at ih ⊢; simp only [ih]

/-! ### One line -/

theorem given_iff {args : List Str} {n : Str} (hn : n ≠ []) :
    args.any (fun x => x == n || configAlias x == n) = true ↔ Given args n := by
  simp only [List.any_eq_true, Bool.or_eq_true, beq_iff_eq, Given, configAlias]
  constructor
  · rintro ⟨x, hx, h⟩
    rcases h with rfl | h
    · exact .inl hx
    · split at h
      · rename_i e
        subst e
        exact .inr ⟨h.symm, hx⟩
      · exact absurd h.symm hn
  · rintro (h | ⟨h, h'⟩)
    · exact ⟨n, h, .inl rfl⟩
    · exact ⟨_, h', .inr (by rw [if_pos rfl, h])⟩

theorem flatMap_words (w : Str) (ws : List Str) :
    (w :: ws).flatMap (fun w => ' ' :: w) = ' ' :: joinWords (w :: ws) := by
  induction ws generalizing w with
  | nil => simp [joinWords]
  | cons w' ws ih => rw [List.flatMap_cons, ih, joinWords]; rfl

theorem trimmed_words {env : Env} (w : Str) (ws : List Str) (h : ∀ x ∈ w :: ws, Word env x) :
    Trimmed env (joinWords (w :: ws)) ∧ joinWords (w :: ws) ≠ [] := by
  induction ws generalizing w with
  | nil =>
    obtain ⟨h0, h1⟩ := h w (by simp)
    exact ⟨⟨fun c hc => h1 c (List.mem_of_head? hc), fun c hc => h1 c (List.mem_of_getLast? hc)⟩, h0⟩
  | cons w' ws ih =>
    obtain ⟨h0, h1⟩ := h w (by simp)
    obtain ⟨⟨_, i2⟩, i3⟩ := ih w' (fun x hx => h x (List.mem_cons_of_mem _ hx))
    rw [joinWords]
    refine ⟨⟨fun c hc => ?_, fun c hc => ?_⟩, by simp⟩
    · obtain ⟨d, w, rfl⟩ := List.exists_cons_of_ne_nil h0
      cases hc
      exact h1 _ (by simp)
    · rw [List.getLast?_append, List.getLast?_cons_of_ne_nil i3] at hc
      obtain ⟨x, hx⟩ := Option.isSome_iff_exists.mp (by simpa [List.getLast?_isSome] using i3 : (joinWords (w' :: ws)).getLast?.isSome)
      rw [hx] at hc
      cases hc
      exact i2 _ hx

/-- What a line adds. -/
def ConfLine.adds (args : List Str) (l : ConfLine) : List Str :=
  match l.name? with
  | none => []
  | some n => if Given args n then [] else l.args

theorem configLine_writes {env : Env} (ha : env.AsciiChars) {line : Str} {l : ConfLine} (h : WritesConf env line l)
    (args : List Str) : configLine env args line = .ok (args ++ l.adds args) := by
  cases h with
  | @option name trail vs hn hv ht =>
    obtain ⟨w1, w2⟩ := strWords_line vs hv ht
    have e : "--".toList ++ name ++ vs.flatMap (fun v => v.1 ++ v.2) ++ trail =
        ("--".toList ++ name) ++ (vs.flatMap (fun v => v.1 ++ v.2) ++ trail) := by simp only [List.append_assoc]
    rw [e]
    have w3 := strWords_word hn.1 hn.2 w2
    have hd : (("--".toList ++ name) ++ (vs.flatMap (fun v => v.1 ++ v.2) ++ trail)).dropWhile env.ws =
        '-' :: ('-' :: name ++ (vs.flatMap (fun v => v.1 ++ v.2) ++ trail)) := by
      have : env.ws '-' = false := hn.2 '-' (by simp)
      simp [this]
    unfold configLine
    rw [hd]
    simp only [if_true]
    rw [if_pos (by simp [List.isPrefixOf]), w3, w1]
    simp only
    unfold ConfLine.adds
    simp only [ConfLine.name?]
    by_cases hg : Given args ("--".toList ++ name)
    · rw [if_pos ((given_iff hn.1).mpr hg), if_pos hg, List.append_nil]
    · rw [if_neg (fun x => hg ((given_iff hn.1).mp x)), if_neg hg]
      have hw : ∀ x ∈ vs.map Prod.snd, Word env x := by
        intro x hx
        obtain ⟨v, hv', rfl⟩ := List.mem_map.mp hx
        exact (hv v hv').2.2
      cases hvs : vs.map Prod.snd with
      | nil => simp [ConfLine.args]
      | cons w ws =>
        rw [hvs] at hw
        rw [flatMap_words]
        have hsp : env.ws ' ' = true := (ha.ws ' ' (by decide)).mpr (.inl rfl)
        obtain ⟨t1, _⟩ := trimmed_words w ws hw
        have := trim_wrap (env := env) (b := [' ']) (b' := []) (by simpa using hsp) t1 (by simp)
        simp only [List.append_nil, List.cons_append, List.nil_append] at this
        simp [ConfLine.args, this]
  | @comment b s c hb hc hs =>
    have hw : env.ws c = false := by
      have : ∀ c ∈ [';', '#', '!', '%'], env.ws c = false := by
        intro c hc
        have h1 : c.toNat < 128 := by revert hc c; decide
        have h2 : ¬ (c = ' ' ∨ (9 ≤ c.toNat ∧ c.toNat ≤ 13)) := by revert hc c; decide
        cases hx : env.ws c with
        | false => rfl
        | true => exact absurd ((ha.ws c h1).mp hx) h2
      exact this c (by simpa using hc)
    have hd : (b ++ c :: s).dropWhile env.ws = c :: s := by
      rw [dropWhile_all (fun c hc => (hb c hc).1)]
      simp [hw]
    unfold configLine
    rw [hd]
    simp only
    rw [if_neg (by rcases hc with rfl | rfl | rfl | rfl <;> decide),
      if_pos (by rcases hc with rfl | rfl | rfl | rfl <;> decide)]
    simp [ConfLine.adds, ConfLine.name?]
  | blank hb =>
    have hd : line.dropWhile env.ws = [] := by
      have := dropWhile_all (p := env.ws) (r := []) (fun c hc => (hb c hc).1)
      simpa using this
    unfold configLine
    rw [hd]
    simp [ConfLine.adds, ConfLine.name?]

theorem dropWhile_first {p : Char → Bool} {s r : Str} {c : Char} (h : s.dropWhile p = c :: r) : p c = false := by
  induction s with
  | nil => cases h
  | cons d s ih =>
    rw [List.dropWhile_cons] at h
    split at h
    · exact ih h
    · rename_i hd
      cases h
      simpa using hd

theorem takeWhile_mem {p : Char → Bool} {s : Str} {c : Char} (h : c ∈ s.takeWhile p) : p c = true ∧ c ∈ s := by
  induction s with
  | nil => cases h
  | cons d s ih =>
    rw [List.takeWhile_cons] at h
    split at h
    · rename_i hd
      rcases List.mem_cons.mp h with rfl | h
      · exact ⟨hd, by simp⟩
      · exact ⟨(ih h).1, by simp [(ih h).2]⟩
    · cases h

/-- A line is one of those that can be written, or it is refused. -/
theorem configLine_total {env : Env} {line : Str} (hl : '\n' ∉ line) :
    (∃ l, WritesConf env line l) ∨ ∀ args, configLine env args line = .error (.panic "Bad config file") := by
  cases hd : line.dropWhile env.ws with
  | nil =>
    refine .inl ⟨.blank, .blank fun c hc => ⟨?_, fun e => hl (e ▸ hc)⟩⟩
    have := List.takeWhile_append_dropWhile (p := env.ws) (l := line)
    rw [hd, List.append_nil] at this
    rw [← this] at hc
    exact (takeWhile_mem hc).1
  | cons c r =>
    have hs : line = line.takeWhile env.ws ++ c :: r := by rw [← hd, List.takeWhile_append_dropWhile]
    have hb : Blanks env (line.takeWhile env.ws) :=
      fun x hx => ⟨(takeWhile_mem hx).1, fun e => hl (e ▸ (takeWhile_mem hx).2)⟩
    by_cases hc : c = '-'
    · by_cases hp : "--".toList.isPrefixOf line = true
      · left
        obtain ⟨r, rfl⟩ := List.isPrefixOf_iff_prefix.mp hp
        have hdash : env.ws '-' = false := by
          have := dropWhile_first hd
          rw [hc] at this
          exact this
        obtain ⟨vs, trail, e, h1, h2, h3, _, h5⟩ := strWords_exists (ws := env.ws) (r.dropWhile (fun c => !env.ws c))
        have hr : r = r.takeWhile (fun c => !env.ws c) ++ (vs.flatMap (fun v => v.1 ++ v.2) ++ trail) := by
          rw [← e, List.takeWhile_append_dropWhile]
        have hmem : ∀ x, x ∈ vs.flatMap (fun v => v.1 ++ v.2) ++ trail → x ≠ '\n' := by
          intro x hx e
          subst e
          rw [hr] at hl
          exact hl (by simp only [List.mem_append] at hx ⊢; tauto)
        refine ⟨.option ("--".toList ++ r.takeWhile (fun c => !env.ws c)) (vs.map Prod.snd), ?_⟩
        have hw : WritesConf env ("--".toList ++ r.takeWhile (fun c => !env.ws c) ++ vs.flatMap (fun v => v.1 ++ v.2) ++ trail)
            (.option ("--".toList ++ r.takeWhile (fun c => !env.ws c)) (vs.map Prod.snd)) := by
          refine .option vs ⟨by simp, ?_⟩ ?_ ?_
          · intro x hx
            rcases List.mem_append.mp hx with hx | hx
            · have : x = '-' := by simpa using hx
              rw [this]; exact hdash
            · simpa using (takeWhile_mem hx).1
          · intro v hv
            obtain ⟨g1, g2, g3⟩ := h1 v hv
            refine ⟨?_, fun x hx => ⟨g1 x hx, ?_⟩, g2, g3⟩
            · cases vs with
              | nil => cases hv
              | cons v' vs =>
                rcases List.mem_cons.mp hv with rfl | hv
                · cases hx : r.dropWhile (fun c => !env.ws c) with
                  | nil =>
                    rw [hx] at e
                    have := congrArg List.length e
                    simp only [List.length_nil, List.flatMap_cons, List.length_append] at this
                    have := List.length_pos_iff.mpr g2
                    omega
                  | cons d t =>
                    refine h5 d (by rw [hx]; rfl) ?_ v rfl
                    simpa using dropWhile_first hx
                · exact h3 v hv
            · exact hmem x (by
                simp only [List.mem_append, List.mem_flatMap]
                exact .inl ⟨v, hv, .inl hx⟩)
          · exact fun x hx => ⟨h2 x hx, hmem x (by simp [hx])⟩
        have e2 : "--".toList ++ r = "--".toList ++ r.takeWhile (fun c => !env.ws c) ++
            vs.flatMap (fun v => v.1 ++ v.2) ++ trail := by
          simp only [List.append_assoc]
          rw [← hr]
        rw [e2]
        exact hw
      · right
        intro args
        unfold configLine
        rw [hd]
        simp only
        rw [if_pos hc, if_neg hp]
    · by_cases hc' : c ∈ [';', '#', '!', '%']
      · left
        rw [hs]
        refine ⟨.comment, .comment hb (by simpa using hc') fun hx => hl ?_⟩
        rw [hs]; simp [hx]
      · right
        intro args
        unfold configLine
        rw [hd]
        simp only
        rw [if_neg hc, if_neg hc']

theorem configLine_dropCr {env : Env} (ha : env.AsciiChars) (args : List Str) (l : Str) :
    configLine env args (dropCr l) = configLine env args l := by
  unfold dropCr
  split
  · rename_i h
    obtain ⟨x, rfl⟩ : ∃ x, l = x ++ ['\r'] := by
      refine ⟨l.dropLast, ?_⟩
      have h0 : l ≠ [] := by rintro rfl; cases h
      have := List.dropLast_append_getLast h0
      rw [List.getLast?_eq_some_getLast h0] at h
      rw [Option.some.inj h] at this
      exact this.symm
    have hr : env.ws '\r' = true := (ha.ws _ (by decide)).mpr (.inr (by decide))
    rw [List.dropLast_concat]
    unfold configLine
    have hx : (x ++ ['\r']).dropWhile env.ws = if x.dropWhile env.ws = [] then [] else x.dropWhile env.ws ++ ['\r'] := by
      rw [List.dropWhile_append]
      split
      · rename_i h
        rw [if_pos (by simpa using h)]
        simp [hr]
      · rename_i h
        rw [if_neg (by simpa using h)]
    rw [hx]
    cases hd : x.dropWhile env.ws with
    | nil => rfl
    | cons c r =>
      have e : (if c :: r = [] then [] else c :: r ++ ['\r']) = c :: (r ++ ['\r']) := rfl
      rw [e]
      have hp : "--".toList.isPrefixOf (x ++ ['\r']) = "--".toList.isPrefixOf x := by
        match x with
        | [] => rfl
        | [c] => simp [List.isPrefixOf]
        | c :: d :: x => simp [List.isPrefixOf]
      simp only [strWords_append_ws hr, hp]
  · rfl

theorem configLines_map {env : Env} (f : Str → Str) (hf : ∀ args l, configLine env args (f l) = configLine env args l)
    (ls : List Str) : ∀ args, configLines env args (ls.map f) = configLines env args ls := by
  induction ls with
  | nil => intro args; rfl
  | cons l ls ih =>
    intro args
    rw [List.map_cons, configLines, configLines, hf]
    cases configLine env args l with
    | error e => rfl
    | ok a => exact ih a

theorem configLines_append {env : Env} (ls ls' : List Str) : ∀ args, configLines env args (ls ++ ls') =
    match configLines env args ls with
    | .error e => .error e
    | .ok args => configLines env args ls' := by
  induction ls with
  | nil => intro args; rfl
  | cons l ls ih =>
    intro args
    rw [List.cons_append, configLines, configLines]
    cases configLine env args l with
    | error e => rfl
    | ok a => exact ih a

/-- The lines of a text. -/
theorem configLines_text {env : Env} (ha : env.AsciiChars) {ls : List Str} (h0 : ls ≠ []) (h : ∀ l ∈ ls, '\n' ∉ l)
    (args : List Str) : configLines env args (strLines (joinLines ls)) = configLines env args ls := by
  unfold strLines
  rw [configLines_map _ (configLine_dropCr ha), splitNl_join h0 h]
  split
  · rename_i hl
    have e := List.dropLast_append_getLast h0
    rw [List.getLast?_eq_some_getLast h0] at hl
    rw [Option.some.inj hl] at e
    conv_rhs => rw [← e]
    rw [configLines_append]
    cases configLines env args ls.dropLast with
    | error e => rfl
    | ok a => rfl
  · rfl

/-! ### All lines -/

theorem configLines_total {env : Env} (ha : env.AsciiChars) {ls : List Str} (h : ∀ l ∈ ls, '\n' ∉ l) :
    ∀ args, (∀ l ∈ ls, ∃ c, WritesConf env l c) ∧ (∃ added, configLines env args ls = .ok (args ++ added)) ∨
      ¬ (∀ l ∈ ls, ∃ c, WritesConf env l c) ∧ configLines env args ls = .error (.panic "Bad config file") := by
  induction ls with
  | nil => intro args; exact .inl ⟨by simp, [], by simp [configLines]⟩
  | cons l ls ih =>
    intro args
    rw [configLines]
    by_cases hw : ∃ c, WritesConf env l c
    · obtain ⟨c, hc⟩ := hw
      rw [configLine_writes ha hc]
      rcases ih (fun x hx => h x (by simp [hx])) (args ++ c.adds args) with ⟨i1, added, i2⟩ | ⟨i1, i2⟩
      · refine .inl ⟨?_, c.adds args ++ added, by rw [← List.append_assoc]; exact i2⟩
        intro x hx
        rcases List.mem_cons.mp hx with rfl | hx
        · exact ⟨c, hc⟩
        · exact i1 x hx
      · exact .inr ⟨fun g => i1 fun x hx => g x (by simp [hx]), i2⟩
    · rcases configLine_total (h l (by simp)) with h' | h'
      · exact absurd h' hw
      · refine .inr ⟨fun g => hw (g l (by simp)), ?_⟩
        rw [h' args]

theorem given_congr {A G : List Str} {n v : Str} {added : List Str} (h : Given A n ↔ Given G n) (hn : n ≠ v)
    (hv : "-f".toList ≠ v) (hm : ∀ x, x ∈ added ↔ x = v ∨ x ∈ ([] : List Str)) (k : Str) :
    Given (A ++ k :: added) n ↔ Given (G ++ [k]) n := by
  unfold Given at h ⊢
  simp only [List.mem_append, List.mem_cons, hm, List.not_mem_nil, or_false]
  tauto

theorem configLines_writes {env : Env} (ha : env.AsciiChars) {ls : List Str} {cs : List ConfLine}
    (h : List.Forall₂ (WritesConf env) ls cs)
    (hv : ∀ n v vs, .option n (v :: vs) ∈ cs → v.head? ≠ some '-') :
    ∀ A G : List Str, (∀ n, "--".toList <+: n → (Given A n ↔ Given G n)) →
      configLines env A ls = .ok (A ++ (counting G cs).flatMap ConfLine.args) := by
  induction h with
  | nil => intro A G _; simp [configLines, counting]
  | @cons l c ls cs hc _ ih =>
    intro A G hg
    have ih := ih (fun n v vs hm => hv n v vs (by simp [hm]))
    rw [configLines, configLine_writes ha hc]
    simp only
    cases hc with
    | comment _ _ _ =>
      simpa [ConfLine.adds, ConfLine.name?, counting] using ih A G hg
    | blank _ =>
      simpa [ConfLine.adds, ConfLine.name?, counting] using ih A G hg
    | @option name trail vs hn hvs ht =>
      simp only [ConfLine.adds, ConfLine.name?, counting]
      have hp : "--".toList <+: "--".toList ++ name := ⟨name, rfl⟩
      by_cases hgi : Given A ("--".toList ++ name)
      · rw [if_pos hgi, if_pos ((hg _ hp).mp hgi), List.append_nil]
        exact ih A G hg
      · rw [if_neg hgi, if_neg (fun x => hgi ((hg _ hp).mpr x))]
        rw [ih _ (G ++ ["--".toList ++ name]) ?_]
        · simp
        · intro n hn'
          cases hvv : vs.map Prod.snd with
          | nil =>
            have := hg n hn'
            simp only [ConfLine.args]
            unfold Given at this ⊢
            simp only [List.mem_append, List.mem_cons, List.not_mem_nil, or_false]
            tauto
          | cons v vs' =>
            have hd := hv ("--".toList ++ name) v vs' (by simp [hvv])
            have hw : Word env v := by
              have : v ∈ vs.map Prod.snd := by rw [hvv]; simp
              obtain ⟨x, hx, rfl⟩ := List.mem_map.mp this
              exact (hvs x hx).2.2
            have hj : ∀ y : Str, '-' :: y ≠ joinWords (v :: vs') := by
              intro y hy
              obtain ⟨d, w, rfl⟩ := List.exists_cons_of_ne_nil hw.1
              cases vs' with
              | nil => rw [joinWords] at hy; cases hy; exact hd rfl
              | cons => rw [joinWords] at hy; cases hy; exact hd rfl
            obtain ⟨y, rfl⟩ := hn'
            exact given_congr (hg _ ⟨y, rfl⟩) (hj _) (hj _) (by simp) _

/-! ### The file -/

theorem initFileArg_first {pre post : List Str} {p : Str} (h : "--init-file".toList ∉ pre) :
    initFileArg (pre ++ "--init-file".toList :: p :: post) = .ok (some p) := by
  induction pre with
  | nil => rw [List.nil_append, initFileArg.eq_def]; simp
  | cons a pre ih =>
    simp only [List.mem_cons, not_or] at h
    rw [List.cons_append, initFileArg.eq_def]
    simp only
    rw [if_neg (fun e => h.1 e.symm), ih h.2]

theorem initFileArg_last {pre : List Str} (h : "--init-file".toList ∉ pre) :
    initFileArg (pre ++ ["--init-file".toList]) = .error (.panic "index out of bounds") := by
  induction pre with
  | nil => rw [List.nil_append, initFileArg.eq_def]; simp
  | cons a pre ih =>
    simp only [List.mem_cons, not_or] at h
    rw [List.cons_append, initFileArg.eq_def]
    simp only
    rw [if_neg (fun e => h.1 e.symm), ih h.2]

theorem initFileArg_none {args : List Str} (h : "--init-file".toList ∉ args) : initFileArg args = .ok none := by
  induction args with
  | nil => rfl
  | cons a args ih =>
    simp only [List.mem_cons, not_or] at h
    rw [initFileArg.eq_def]
    simp only
    rw [if_neg (fun e => h.1 e.symm), ih h.2]

end Dinero
