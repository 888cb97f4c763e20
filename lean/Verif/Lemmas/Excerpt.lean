import Verif.Model.Excerpt
import Verif.Spec.Excerpt
import Verif.Lemmas.Include
import Verif.Lemmas.Posting
import Verif.Lemmas.Lines
import Verif.Props.Tokenizer
import Mathlib.Data.List.Basic
/-
Lemmas about the message about a line that cannot be read.
-/
namespace Dinero

theorem digitChar_digit {n : Nat} (h : n < 10) : Nat.digitChar n = digitChar n := by
  match n, h with
  | 0, _ => rfl
  | 1, _ => rfl
  | 2, _ => rfl
  | 3, _ => rfl
  | 4, _ => rfl
  | 5, _ => rfl
  | 6, _ => rfl
  | 7, _ => rfl
  | 8, _ => rfl
  | 9, _ => rfl

theorem digits_toDigits (n : Nat) : digits n = Nat.toDigits 10 n := by
  induction n using Nat.strongRecOn with
  | _ n ih =>
    rw [digits]
    split
    · next h => rw [Nat.toDigits_of_lt_base h, digitChar_digit h]
    · next h => rw [Nat.toDigits_of_base_le (by omega) (by omega), ih _ (by omega), digitChar_digit (by omega)]

/-! ### The lines -/

theorem excerptLoop_skip (k : Nat) (pre rest : List Str) : ∀ i, i + pre.length ≤ k - 1 →
    excerptLoop k i (pre ++ rest) = excerptLoop k (i + pre.length) rest := by
  induction pre with
  | nil => intro i _; rfl
  | cons l ls ih =>
    intro i h
    rw [List.length_cons] at h
    rw [List.cons_append, excerptLoop, if_pos (by omega), ih _ (by omega), List.length_cons]
    congr 1
    omega

theorem excerptLoop_two (k : Nat) (pre post : List Str) (a b : Str) (h : pre.length + 1 = k) :
    excerptLoop k 0 (pre ++ a :: b :: post) = [(k - 1, a), (k, b)] := by
  rw [excerptLoop_skip _ _ _ _ (by omega), excerptLoop, if_neg (by omega), if_neg (by omega), excerptLoop, if_neg (by omega),
    if_neg (by omega)]
  have : 0 + pre.length = k - 1 := by omega
  rw [this, show k - 1 + 1 = k by omega]
  cases post with
  | nil => rfl
  | cons c post => rw [excerptLoop, if_neg (by omega), if_pos (by omega)]

theorem nlSplit_ne (s : Str) : splitNl s ≠ [] := by
  cases s with
  | nil => simp [splitNl]
  | cons c s =>
    rw [splitNl]
    split
    · simp
    · cases h : splitNl s <;> simp

theorem nlSplit_line {l : Str} (h : '\n' ∉ l) : splitNl l = [l] := by
  induction l with
  | nil => rfl
  | cons c l ih =>
    have h1 : c ≠ '\n' := by rintro rfl; exact h (by simp)
    rw [splitNl, if_neg h1, ih (fun hm => h (by simp [hm]))]

theorem nlSplit_append {l : Str} (s : Str) (h : '\n' ∉ l) : splitNl (l ++ '\n' :: s) = l :: splitNl s := by
  induction l with
  | nil => simp [splitNl]
  | cons c l ih =>
    have h1 : c ≠ '\n' := by rintro rfl; exact h (by simp)
    rw [List.cons_append, splitNl, if_neg h1, ih (fun hm => h (by simp [hm]))]

theorem nlSplit_join {ls : List Str} (h : ∀ l ∈ ls, '\n' ∉ l) (h0 : ls ≠ []) : splitNl (joinLines ls) = ls := by
  induction ls with
  | nil => exact absurd rfl h0
  | cons l ls ih =>
    cases ls with
    | nil => exact nlSplit_line (h l (by simp))
    | cons l' ls =>
      rw [joinLines, nlSplit_append _ (h l (by simp)), ih (fun x hx => h x (by simp [hx])) (by simp)]

/-- Lines of the text at its beginning are among those that the loop sees, unless they are empty and last. -/
theorem nlSplit_prefix {ls : List Str} (h : ∀ l ∈ ls, '\n' ∉ l) {x y : Str} (s : Str) (hx : '\n' ∉ x)
    (hs : s = [] ∨ s = '\n' :: y) :
    ∃ post, splitNl (joinLines (ls ++ [x]) ++ s) = ls ++ x :: post := by
  induction ls with
  | nil =>
    rcases hs with rfl | rfl
    · exact ⟨[], by simp [joinLines, nlSplit_line hx]⟩
    · exact ⟨splitNl y, by simp [joinLines, nlSplit_append _ hx]⟩
  | cons l ls ih =>
    obtain ⟨post, e⟩ := ih (fun z hz => h z (by simp [hz]))
    refine ⟨post, ?_⟩
    cases hls : ls ++ [x] with
    | nil => simp at hls
    | cons l' ls' =>
      rw [List.cons_append, hls, joinLines, List.append_assoc, List.cons_append, nlSplit_append _ (h l (by simp)), ← hls, e]
      rfl

theorem joinLines_append (ls : List Str) (x : Str) (post : List Str) :
    joinLines (ls ++ x :: post) = joinLines (ls ++ [x]) ++ tailText post := by
  have h1 := tailText_join (ls := ls ++ x :: post) (by simp)
  have h2 := tailText_join (ls := ls ++ [x]) (by simp)
  have h3 : tailText (ls ++ x :: post) = tailText (ls ++ [x]) ++ tailText post := by simp [tailText]
  rw [h1, h2, List.cons_append] at h3
  exact (List.cons.inj h3).2

theorem strLines_prefix {ls post : List Str} {x : Str} (h : ∀ l ∈ ls, '\n' ∉ l) (hx : '\n' ∉ x) (h0 : x ≠ []) :
    ∃ post', strLines (joinLines (ls ++ x :: post)) = ls.map dropCr ++ dropCr x :: post' := by
  have hs : tailText post = [] ∨ ∃ y, tailText post = '\n' :: y := eol_tailText post
  have key : ∃ post', splitNl (joinLines (ls ++ x :: post)) = ls ++ x :: post' := by
    rw [joinLines_append]
    rcases hs with hs | ⟨y, hs⟩
    · exact nlSplit_prefix (y := []) h _ hx (.inl hs)
    · exact nlSplit_prefix h _ hx (.inr hs)
  obtain ⟨post', e⟩ := key
  unfold strLines
  rw [e]
  split
  · next hl =>
    cases post' with
    | nil => simp at hl; exact absurd hl h0
    | cons p ps =>
      refine ⟨((p :: ps).dropLast).map dropCr, ?_⟩
      rw [List.dropLast_append_of_ne_nil (by simp), List.dropLast_cons_of_ne_nil (by simp)]
      simp
  · exact ⟨post'.map dropCr, by simp⟩

/-! ### The marks -/

theorem byteLen_ge (s : Str) : s.length ≤ byteLen s := by
  induction s with
  | nil => simp [byteLen]
  | cons c s ih =>
    have : 1 ≤ c.utf8Size := Char.utf8Size_pos c
    simp only [byteLen, List.map_cons, List.sum_cons, List.length_cons] at ih ⊢
    omega

theorem byteLen_append (a b : Str) : byteLen (a ++ b) = byteLen a + byteLen b := by simp [byteLen]

theorem marks_at (n k : Nat) (h : k < n) :
    (List.range n).map (fun i => if i = k then '^' else '-') =
      List.replicate k '-' ++ '^' :: List.replicate (n - k - 1) '-' := by
  apply List.ext_getElem
  · simp; omega
  · intro i h1 h2
    simp only [List.getElem_map, List.getElem_range]
    rcases Nat.lt_trichotomy i k with h | h | h
    · rw [if_neg (by omega), List.getElem_append_left (by simpa using h)]; simp
    · subst h
      rw [if_pos rfl, List.getElem_append_right (by simp)]; simp
    · rw [if_neg (by omega), List.getElem_append_right (by simp; omega)]
      simp only [List.length_replicate]
      obtain ⟨m, hm⟩ : ∃ m, i - k = m + 1 := ⟨i - k - 1, by omega⟩
      simp [hm]

theorem excerptMarks_eq {l : Str} {k : Nat} (h : k ≤ byteLen l) :
    excerptMarks k (l ++ ['\n']) = List.replicate k '-' ++ '^' :: List.replicate (byteLen l - k) '-' := by
  have e : byteLen (l ++ ['\n']) = byteLen l + 1 := by rw [byteLen_append]; rfl
  unfold excerptMarks
  rw [e, marks_at _ _ (by omega)]
  congr 3
  omega

/-- The message, when the lines are known. -/
theorem message_eq {t : Tok} {file what a b : Str} {pre post : List Str} (h : strLines t.content = pre ++ a :: b :: post)
    (hl : pre.length + 1 = t.line) (hc : t.col ≤ byteLen b) :
    t.message (some file) what ++ ['\n'] = troubleText what file (t.line + 1) (t.col + 1) (byteLen b) a b := by
  have e1 : t.line - 1 + 1 = t.line := by omega
  have e0 : t.message (some file) what = excerptText t.line t.col (some file) what [(t.line - 1, a), (t.line, b)] := by
    rw [Tok.message, h, excerptLoop_two _ _ _ _ _ hl]
  have e5 : excerptMarks t.col (excerptLast t.line t.col (some file) what [(t.line - 1, a), (t.line, b)]) =
      List.replicate t.col '-' ++ '^' :: List.replicate (byteLen b - t.col) '-' := excerptMarks_eq hc
  have d1 := digits_toDigits (t.line + 1)
  have d2 := digits_toDigits t.line
  have d3 := digits_toDigits (t.col + 1)
  rewrite [e0]
  unfold excerptText
  rewrite [e5]
  unfold troubleText excerptPlace marginText
  simp only [List.flatMap_cons, List.flatMap_nil]
  unfold excerptLine padLeft
  rewrite [e1, Nat.add_sub_cancel, Nat.add_sub_cancel, Nat.add_sub_add_right, ← d1, ← d2, ← d3]
  generalize digits (t.line + 1) = n
  generalize digits t.line = m
  generalize digits (t.col + 1) = k
  generalize "Error: ".toList = x1
  generalize "--> ".toList = x2
  have e2 : " |      ".toList = " |".toList ++ List.replicate 6 ' ' := by decide
  have e3 : "|      ".toList = '|' :: List.replicate 6 ' ' := by decide
  rewrite [e2, e3, List.replicate_succ (n := n.length)]
  generalize " |".toList = x3
  generalize List.replicate 6 ' ' = x4
  simp only [List.append_assoc, List.cons_append, List.nil_append, List.append_nil]

/-! ### Getting there -/

/-- The first character of an item other than an automated transaction. -/
theorem block_not_auto {env : Env} {c : Char} {r : Str} {body : List Str} {b : Block} (hb : WritesBlock env (c :: r) body b)
    (hq : ∀ x, b = .txn x → x.ttype ≠ .automated) (ha : env.AsciiChars) : c ≠ '=' := by
  generalize hhd : c :: r = hd at hb
  cases hb with
  | @comment m b c' hm' hb' hc hc' =>
    obtain ⟨rfl, rfl⟩ : c = m ∧ r = b ++ c' := by simpa using hhd
    rintro rfl
    revert hm'
    decide
  | price hp =>
    obtain ⟨r', hr⟩ := (price_nl ha hp).2
    rw [hr] at hhd
    rw [(List.cons.inj hhd).1]
    decide
  | @txn _ t0 _ xs hh hd hb =>
    obtain ⟨_, _, _, c', r', e, hc⟩ := header_nl hh
    rw [e] at hhd
    rw [(List.cons.inj hhd).1]
    rcases hc with hc | rfl
    · rintro rfl
      revert hc
      decide
    · decide
  | @auto d _ xs hd hb => exact absurd rfl (hq _ rfl)
  | account => rw [(List.cons.inj hhd).1]; decide
  | commodity => rw [(List.cons.inj hhd).1]; decide
  | payee => rw [(List.cons.inj hhd).1]; decide
  | tag => rw [(List.cons.inj hhd).1]; decide
  | incl => rw [(List.cons.inj hhd).1]; decide

/-- A character that starts no item. -/
theorem item_unknown {env : Env} {fuel : Nat} {inc : Tok → PRes (ParsedLedger × Tok)} {c : Char} {pl : ParsedLedger} {t : Tok}
    (h : env.starts c = false) : item env fuel inc c pl t = .error (.fail (t.fail .unexpectedInput)) := by
  simp only [Env.starts, Bool.or_eq_false_iff, List.contains_eq_mem, decide_eq_false_iff_not, List.mem_cons, List.not_mem_nil,
    or_false, not_or] at h
  obtain ⟨⟨⟨c1, c2, c3, c4, c5⟩, hn⟩, c6, c7, c8, c9, c10, c11, c12⟩ := h
  unfold item
  rw [if_neg (by simp [c1, c2, c3, c4, c5]), if_neg (by simp [hn]), if_neg c6, if_neg c7, if_neg c8, if_neg c9, if_neg c10,
    if_neg c11, if_neg c12]

theorem item_starts {env : Env} {fuel : Nat} {inc : Tok → PRes (ParsedLedger × Tok)} {c : Char} {pl : ParsedLedger} {t : Tok}
    {x : ParsedLedger × Tok} (h : item env fuel inc c pl t = .ok x) : env.starts c = true := by
  cases hs : env.starts c with
  | true => rfl
  | false => rw [item_unknown hs] at h; cases h

/-- One round of the loop over the items. -/
theorem round {env : Env} {fuel : Nat} {inc : Tok → PRes (ParsedLedger × Tok)} {file : Option Str} {n : Nat} {c : Char} {r : Str}
    {pl pl' : ParsedLedger} {t t1 t' : Tok} (h1 : wsLines env t = (t1, .blank)) (h2 : t1.rest = c :: r)
    (e : item env fuel inc c pl t1 = .ok (pl', t')) :
    items env fuel inc (n + 1) pl t = items env fuel inc n pl' t' ∧
      itemsText env fuel inc file (n + 1) pl t = itemsText env fuel inc file n pl' t' := by
  have h0 : t.rest ≠ [] := by
    intro h0
    have := wsLines_nil (env := env) h0
    rw [h1, h2] at this
    cases this
  rw [items, if_neg h0, itemsText, if_neg h0]
  simp only [h1]
  rw [h2]
  simp only [item_starts e, e, if_true]
  exact ⟨trivial, trivial⟩

/-- Reading the first lines of a text. -/
theorem itemsText_prefix {env : Env} (ha : env.AsciiChars) (hs : env.AsciiSep) {fuel : Nat}
    {inc : Tok → PRes (ParsedLedger × Tok)} {included : Str → ParsedLedger} {ls : List Str} {bs : List Block} {text : Str}
    (file : Option Str) (h : WritesJournal env ls bs) {more : List Str} (hm : Stops env more) (hm0 : more ≠ [])
    (hq : ∀ x, Block.txn x ∈ bs → x.ttype ≠ .automated) :
    ∀ (n : Nat) (pl : ParsedLedger) (t : Tok), Includes inc included bs → ls.length + 4 ≤ fuel → ls.length ≤ n →
      At env t (ls ++ more) → Visited env fuel inc (· ≠ '=') text t →
      ∃ n' pl' t', n ≤ n' + ls.length ∧ At env t' more ∧ Visited env fuel inc (· ≠ '=') text t' ∧
        items env fuel inc n pl t = items env fuel inc n' pl' t' ∧
        itemsText env fuel inc file n pl t = itemsText env fuel inc file n' pl' t' := by
  induction h with
  | nil => intro n pl t _ _ _ ht hv; exact ⟨n, pl, t, by simp, ht, hv, rfl, rfl⟩
  | @blank b ls bs hb h ih =>
    intro n pl t hi hf hn ht hv
    obtain ⟨n', pl', t', h1, h2⟩ := ih hq n pl t hi (by simp at hf; omega) (by simp at hn; omega) (ht.blank hb) hv
    exact ⟨n', pl', t', by simp; omega, h2⟩
  | @cons h body ls b bs hb h ih =>
    intro n pl t hi hf hn ht hv
    have hst : Stops env (ls ++ more) := by
      clear ih hi hn ht hf hb hq
      induction h with
      | nil => exact hm
      | blank hb h ih =>
        intro t ht
        obtain ⟨t', h1, _⟩ := ih t (ht.blank hb)
        exact ⟨t', h1, ht.again h1⟩
      | cons hb h ih =>
        intro t ht
        obtain ⟨c, r, rfl, hc⟩ := block_head ha hb
        obtain ⟨t', h1, _⟩ := At.top ha ht hc
        exact ⟨t', h1, ht.again h1⟩
    obtain ⟨n, rfl⟩ : ∃ m, n = m + 1 := ⟨n - 1, by simp at hn; omega⟩
    obtain ⟨c, r, rfl, hc⟩ := block_head ha hb
    have ht : At env t ((c :: r) :: (body ++ (ls ++ more))) := by simpa using ht
    obtain ⟨t1, h1, h2⟩ := At.top ha ht hc
    obtain ⟨t', e1, e2⟩ := item_ok ha hs (fuel := fuel) (inc := inc) (included := included) (more := ls ++ more) hb
      (fun x hx => hi x (by simp at hx; simp [hx])) hst (by
        intro _ h0
        exact absurd (List.append_eq_nil_iff.mp h0).2 hm0) (by simp at hf; omega) pl h2
    have hv1 : Visited env fuel inc (· ≠ '=') text t1 := by
      have := hv.skip
      rwa [h1] at this
    have hv2 : Visited env fuel inc (· ≠ '=') text t' :=
      .item hv1 h2 (by rintro rfl; rw [ha.wsT (by decide) (by decide)] at hc; cases hc)
        (block_not_auto hb (fun x hx => hq x (by simp [hx])) ha) e1
    obtain ⟨n', pl', t'', e3, e4, e5, e6, e7⟩ := ih (fun x hx => hq x (by simp [hx])) n (addBlock env included pl b) t'
      (fun x hx => hi x (by simp [hx])) (by simp at hf; omega) (by simp at hn; omega) e2 hv2
    obtain ⟨r1, r2⟩ := round (n := n) (file := file) h1 h2 e1
    exact ⟨n', pl', t'', by simp at hn ⊢; omega, e4, e5, r1.trans e6, r2.trans e7⟩

/-- The text of a visited state, and how many lines of it have been read. -/
theorem visited_place {env : Env} (ha : env.AsciiChars) {fuel : Nat} {fs : Files} {file : Option Str} {seen : List Str}
    {tok : Str → PRes ParsedLedger} {t : Tok} {ls post : List Str} {x i s : Str} (hx : x = i ++ s)
    (h : Visited env fuel (includeTok fs file seen tok) (· ≠ '=') (joinLines (ls ++ x :: post)) t)
    (hr : t.rest = s ++ tailText post) (hl : ∀ l ∈ ls, '\n' ∉ l) (hi : '\n' ∉ i) :
    t.content = joinLines (ls ++ x :: post) ∧ t.line = ls.length := by
  have hcont : t.content = joinLines (ls ++ x :: post) := by
    clear hr
    induction h with
    | start => rfl
    | skip _ ih => exact ih
    | item hv hr' hne hq h ih =>
      obtain ⟨read, h1, h2⟩ := C71_lines_partial ha fuel hv
      exact ((item_step ha fuel (fun t pl t' h => includeTok_step h) _ _ ⟨read, h1.symm⟩ hr' hne).2 _ _ h).1.content.trans ih
  refine ⟨hcont, ?_⟩
  obtain ⟨read, h1, h2⟩ := C71_lines_partial ha fuel h
  have e := tailText_join (ls := ls ++ x :: post) (by simp)
  rw [← hcont, h1, hr] at e
  have e' : tailText (ls ++ x :: post) = tailText ls ++ ('\n' :: (i ++ (s ++ tailText post))) := by
    simp [tailText, hx]
  rw [e'] at e
  have e2 : (tailText ls ++ '\n' :: i) ++ (s ++ tailText post) = ('\n' :: read) ++ (s ++ tailText post) := by
    simpa using e
  have e3 := congrArg (List.count '\n') (List.append_cancel_right e2)
  have hcnt : ∀ ls : List Str, (∀ l ∈ ls, '\n' ∉ l) → (tailText ls).count '\n' = ls.length := by
    intro ls
    induction ls with
    | nil => intro _; rfl
    | cons l ls ih =>
      intro h
      rw [tailText_cons, List.count_cons_self, List.count_append, List.count_eq_zero_of_not_mem (h l (by simp)),
        ih (fun y hy => h y (by simp [hy])), List.length_cons]
      omega
  rw [List.count_append, hcnt _ hl, List.count_cons_self, List.count_cons_self, List.count_eq_zero_of_not_mem hi] at e3
  omega

theorem At.indent_col {env : Env} (ha : env.AsciiChars) {t : Tok} {i r : Str} {c : Char} {ls : List Str}
    (h : At env t ((i ++ c :: r) :: ls)) (hi : Blanks env i) (hi0 : i ≠ []) (hc : env.ws c = false) :
    ∃ t', wsLines env t = (t', .indented) ∧ t'.rest = c :: r ++ tailText ls ∧ t'.col = i.length := by
  obtain ⟨t0, h1, h2, h3⟩ := h.line
  have hn : c ≠ '\n' := by rintro rfl; rw [ha.wsT (by decide) (by decide)] at hc; cases hc
  have hr : c ≠ '\r' := by rintro rfl; rw [ha.wsT (by decide) (by decide)] at hc; cases hc
  rw [h3]
  have e : wsLinesAux env.ws t0.rest t0.line t0.col = (c :: r ++ tailText ls, t0.line, t0.col + i.length) := by
    rw [h1, List.append_assoc, wsLinesAux_blanks hi, List.cons_append, wsLinesAux, if_neg hn,
      if_neg (by simp [hc, hr])]
  refine ⟨{ t0 with rest := c :: r ++ tailText ls, col := t0.col + i.length }, ?_, rfl, by simp [h2]⟩
  have : i.length ≠ 0 := by simpa using hi0
  simp only [wsLines, e]
  rw [if_pos ⟨by simp, by omega⟩]

theorem wsLines_blank_col {env : Env} {t t' : Tok} {c : Char} {r : Str} (h : wsLines env t = (t', .blank)) (hr : t'.rest = c :: r) :
    t'.col = 0 := by
  simp only [wsLines, Prod.mk.injEq] at h
  obtain ⟨rfl, h2⟩ := h
  simp only at hr ⊢
  by_contra h0
  rw [if_pos ⟨by rw [hr]; simp, h0⟩] at h2
  cases h2

/-- A comment or a price: nothing can be missing at its end. -/
theorem item_line {env : Env} (ha : env.AsciiChars) (hs : env.AsciiSep) {fuel : Nat} {inc : Tok → PRes (ParsedLedger × Tok)}
    {c : Char} {r : Str} {more : List Str} {b : Block} (hb : WritesBlock env (c :: r) [] b)
    (hk : (∃ x, b = .comment x) ∨ ∃ p, b = .price p) (pl : ParsedLedger) {t : Tok} (ht : t.rest = c :: r ++ tailText more) :
    ∃ pl' t', item env fuel inc c pl t = .ok (pl', t') ∧ At env t' more := by
  generalize hhd : c :: r = hd at hb ht
  cases hb with
  | @comment m b c' hm' hb' hc hc' =>
    obtain ⟨rfl, rfl⟩ : c = m ∧ r = b ++ c' := by simpa using hhd
    obtain ⟨e1, e2⟩ := commentTok_ok ht hb' hc hc' (eol_tailText _)
    refine ⟨{ pl with comments := pl.comments ++ [(commentTok env t).1] }, _, ?_, e2.at⟩
    simp only [item, hm', if_true]
  | @price _ p hp =>
    obtain ⟨r', hr⟩ := (price_nl ha hp).2
    rw [hr] at hhd
    obtain ⟨rfl, rfl⟩ : c = 'P' ∧ r = r' := by simpa using hhd
    obtain ⟨t', e1, e2⟩ := priceTok_ok ha hs hp (eol_tailText _) ht
    refine ⟨{ pl with prices := pl.prices ++ [p] }, t', ?_, e2.at⟩
    unfold item
    rw [if_neg (by decide), if_neg (by rw [ha.numF (by decide) (by decide)]; decide), if_neg (by decide),
      if_neg (by decide), if_neg (by decide), if_neg (by decide), if_neg (by decide), if_neg (by decide),
      if_pos rfl, e1]
    rfl
  | txn | auto | account | commodity | payee | tag | incl => rcases hk with ⟨x, hk⟩ | ⟨p, hk⟩ <;> cases hk

theorem At.blanks {env : Env} {t : Tok} {bl ls : List Str} (h : At env t (bl ++ ls)) (hb : ∀ b ∈ bl, Blanks env b) :
    At env t ls := by
  induction bl generalizing t with
  | nil => exact h
  | cons b bl ih => exact ih (At.blank h (hb b (by simp))) (fun x hx => hb x (by simp [hx]))

end Dinero
