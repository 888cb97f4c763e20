import Verif.Lemmas.Excerpt
import Verif.Props.Journal
import Verif.Props.Commands
/-
Property theorems about the message about a line that cannot be read (C119).
-/
namespace Dinero

/-! ### C119: what the message about a line that cannot be read says -/

theorem shownLine_last {l : Str} (h : l.getLast? ≠ some '\r') : dropCr l = l := by
  rw [dropCr, if_neg h]

/-- A line that starts with a character that starts no item is reported, and the message says where it is and shows it and the line
before it, whatever comes after it. -/
theorem C119_unknown {r : Run} (ha : r.env.AsciiChars) (hs : r.env.AsciiSep) {path shown before s : Str} {ls post : List Str}
    {bs : List Block} {c : Char} (hr : r.fs.read path = some (joinLines (ls ++ (c :: s) :: post)))
    (hj : WritesJournal r.env ls bs) (hi : ∀ x, .incl x ∉ bs) (hq : ∀ x, .txn x ∈ bs → x.ttype ≠ .automated)
    (hl : ∀ l ∈ ls, '\n' ∉ l) (hb : ls.getLast? = some before)
    (hw : r.env.ws c = false) (hn : r.env.numeric c = false)
    (hc : c ∉ [';', '!', '*', '%', '#', '=', 'i', 'c', 'p', 't', 'a', 'P'])
    (hx : '\n' ∉ s) (hcr : (c :: s).getLast? ≠ some '\r') (hf : ls.length + 4 ≤ r.fuel) (hd : 0 < r.depth) :
    r.journal path = .error (.fail (.error .unexpectedInput)) ∧
      r.excerpt shown path = some (troubleText "UnexpectedInput(None)".toList shown (ls.length + 1) 1
        ((c :: s).map Char.utf8Size).sum (shownLine before) (c :: s)) := by
  obtain ⟨ls, rfl⟩ : ∃ ls', ls = ls' ++ [before] := List.getLast?_eq_some_iff.mp hb
  obtain ⟨depth, hdep⟩ : ∃ d, r.depth = d + 1 := ⟨r.depth - 1, by omega⟩
  have hst : r.env.starts c = false := by
    simp only [List.mem_cons, List.not_mem_nil, or_false, not_or] at hc
    simp [Env.starts, hn, hc]
  have hcn : c ≠ '\n' := by rintro rfl; rw [ha.wsT (by decide) (by decide)] at hw; cases hw
  obtain ⟨n', pl', t1, h1, h2, h3, h4, h5⟩ := itemsText_prefix ha hs (fuel := r.fuel)
    (inc := includeTok r.fs (some path) [path] (fun f => tokenizeFile r.env r.fs r.fuel depth [path] f)) (some shown) hj
    (stops_top ha hw s post) (by simp) hq r.fuel {} (Tok.ofContent (joinLines (ls ++ [before] ++ (c :: s) :: post)))
    (noIncludes hi) hf (by omega) (ofContent_at (by simp)) .start
  obtain ⟨n', rfl⟩ : ∃ m, n' = m + 1 := ⟨n' - 1, by omega⟩
  obtain ⟨t2, h6, h7⟩ := At.top ha h2 hw
  have h0 : t1.rest ≠ [] := by
    intro h0
    have := wsLines_nil (env := r.env) h0
    rw [h6, h7] at this
    cases this
  have hv := h3.skip
  rw [h6] at hv
  change Visited _ _ _ _ _ t2 at hv
  obtain ⟨p1, p2⟩ := visited_place ha (i := []) (s := c :: s) rfl hv h7 hl (by simp)
  have hcol := wsLines_blank_col h6 (by rw [h7, List.cons_append])
  have hmsg : t2.message (some shown) "UnexpectedInput(None)".toList ++ ['\n'] =
      troubleText "UnexpectedInput(None)".toList shown ((ls ++ [before]).length + 1) 1
        ((c :: s).map Char.utf8Size).sum (shownLine before) (c :: s) := by
    obtain ⟨post', e⟩ := strLines_prefix (post := post) (x := c :: s) hl
      (by simp only [List.mem_cons, not_or]; exact ⟨fun h => hcn h.symm, hx⟩) (by simp)
    rw [shownLine_last hcr] at e
    have := message_eq (t := t2) (file := shown) (what := "UnexpectedInput(None)".toList) (pre := ls.map dropCr) (a := dropCr before)
      (b := c :: s) (post := post') (by rw [p1]; exact e.trans (by simp)) (by rw [p2]; simp) (by rw [hcol]; exact Nat.zero_le _)
    rw [this, p2, hcol]
    rfl
  constructor
  · rw [Run.journal, hdep, tokenizeFile, hr]
    simp only
    rw [h4, items, if_neg h0]
    simp only [h6]
    rw [h7]
    simp only [List.cons_append]
    rw [item_unknown hst]
    simp [Tok.fail, p2]
  · simp only [Run.excerpt, hdep, hr]
    rw [h5, itemsText, if_neg h0]
    simp only [h6]
    rw [h7]
    simp only [List.cons_append, hst, Bool.false_eq_true, if_false, Option.map_some]
    rw [hmsg]

/-- So is an indented line that belongs to nothing: one after a comment or a price, with blank lines between them or not. -/
theorem C119_indented {r : Run} (ha : r.env.AsciiChars) (hs : r.env.AsciiSep) {path shown before h i s : Str}
    {ls bl post : List Str} {bs : List Block} {b : Block} {c : Char}
    (hr : r.fs.read path = some (joinLines (ls ++ h :: bl ++ (i ++ c :: s) :: post)))
    (hj : WritesJournal r.env ls bs) (hi : ∀ x, .incl x ∉ bs) (hq : ∀ x, .txn x ∈ bs → x.ttype ≠ .automated)
    (hh : WritesBlock r.env h [] b) (hk : (∃ x, b = .comment x) ∨ ∃ p, b = .price p) (hbl : ∀ b ∈ bl, Blanks r.env b)
    (hl : ∀ l ∈ ls ++ h :: bl, '\n' ∉ l) (hb : (h :: bl).getLast? = some before)
    (hin : Blanks r.env i) (hin0 : i ≠ []) (hw : r.env.ws c = false)
    (hx : '\n' ∉ s) (hcr : (c :: s).getLast? ≠ some '\r') (hf : ls.length + 5 ≤ r.fuel) (hd : 0 < r.depth) :
    r.journal path = .error (.fail (.error .unexpectedInput)) ∧
      r.excerpt shown path = some (troubleText "UnexpectedInput(Some(\"Unexpected indentation\"))".toList shown
        (ls.length + bl.length + 2) (i.length + 1) ((i ++ c :: s).map Char.utf8Size).sum (shownLine before) (i ++ c :: s)) := by
  obtain ⟨depth, hdep⟩ : ∃ d, r.depth = d + 1 := ⟨r.depth - 1, by omega⟩
  have hcn : c ≠ '\n' := by rintro rfl; rw [ha.wsT (by decide) (by decide)] at hw; cases hw
  obtain ⟨d, h', rfl, hdw⟩ := block_head ha hh
  have htext : ls ++ (d :: h') :: bl ++ (i ++ c :: s) :: post = ls ++ (d :: h') :: (bl ++ (i ++ c :: s) :: post) := by simp
  obtain ⟨n', pl', t1, h1, h2, h3, h4, h5⟩ := itemsText_prefix ha hs (fuel := r.fuel)
    (inc := includeTok r.fs (some path) [path] (fun f => tokenizeFile r.env r.fs r.fuel depth [path] f)) (some shown) hj
    (stops_top ha hdw h' (bl ++ (i ++ c :: s) :: post)) (by simp) hq r.fuel {}
    (Tok.ofContent (joinLines (ls ++ (d :: h') :: bl ++ (i ++ c :: s) :: post)))
    (noIncludes hi) (by omega) (by omega) (htext ▸ ofContent_at (by simp)) .start
  obtain ⟨n', rfl⟩ : ∃ m, n' = m + 2 := ⟨n' - 2, by omega⟩
  obtain ⟨t2, h6, h7⟩ := At.top ha h2 hdw
  obtain ⟨pl2, t3, h8, h9⟩ := item_line ha hs (fuel := r.fuel)
    (inc := includeTok r.fs (some path) [path] (fun f => tokenizeFile r.env r.fs r.fuel depth [path] f)) hh hk pl' h7
  obtain ⟨q1, q2⟩ := round (n := n' + 1) (file := some shown) h6 h7 h8
  obtain ⟨t4, h10, h11, h12⟩ := At.indent_col ha (h9.blanks hbl) hin hin0 hw
  have h0 : t3.rest ≠ [] := by
    intro h0
    have := wsLines_nil (env := r.env) h0
    rw [h10, h11] at this
    cases this
  have hv2 := h3.skip
  rw [h6] at hv2
  have hv3 :=
    Visited.item hv2 h7 (by rintro rfl; rw [ha.wsT (by decide) (by decide)] at hdw; cases hdw)
      (block_not_auto hh (fun x hx => by rcases hk with ⟨y, hk⟩ | ⟨y, hk⟩ <;> (rw [hk] at hx; cases hx)) ha) h8
  have hv := hv3.skip
  rw [h10] at hv
  change Visited _ _ _ _ _ t4 at hv
  have hinl : '\n' ∉ i := fun hm => (hin _ hm).2 rfl
  obtain ⟨p1, p2⟩ := visited_place ha (i := i) (s := c :: s) rfl hv h11 hl hinl
  have hlen : (ls ++ (d :: h') :: bl).length = ls.length + bl.length + 1 := by simp; omega
  have hmsg : t4.message (some shown) "UnexpectedInput(Some(\"Unexpected indentation\"))".toList ++ ['\n'] =
      troubleText "UnexpectedInput(Some(\"Unexpected indentation\"))".toList shown (ls.length + bl.length + 2) (i.length + 1)
        ((i ++ c :: s).map Char.utf8Size).sum (shownLine before) (i ++ c :: s) := by
    obtain ⟨post', e⟩ := strLines_prefix (post := post) (x := i ++ c :: s) hl
      (by simp only [List.mem_append, List.mem_cons, not_or]; exact ⟨hinl, fun h => hcn h.symm, hx⟩) (by simp)
    obtain ⟨pre, hpre⟩ : ∃ pre, (d :: h') :: bl = pre ++ [before] := List.getLast?_eq_some_iff.mp hb
    have hcr' : (i ++ c :: s).getLast? ≠ some '\r' := by
      rw [List.getLast?_append_of_ne_nil _ (by simp)]; exact hcr
    have hlen' : (ls ++ pre).length + 1 = ls.length + bl.length + 1 := by
      have := congrArg List.length hpre
      simp at this ⊢
      omega
    rw [shownLine_last hcr'] at e
    have := message_eq (t := t4) (file := shown) (what := "UnexpectedInput(Some(\"Unexpected indentation\"))".toList)
      (pre := (ls ++ pre).map dropCr) (a := dropCr before)
      (b := i ++ c :: s) (post := post') (by rw [p1]; exact e.trans (by rw [hpre]; simp)) (by rw [p2, hlen]; simpa using hlen')
      (by rw [h12]; have := byteLen_ge (i ++ c :: s); simp at this; omega)
    rw [this, p2, h12, hlen]
    rfl
  constructor
  · rw [Run.journal, hdep, tokenizeFile, hr]
    simp only
    rw [h4, q1, items, if_neg h0]
    simp only [h10]
    simp [Tok.fail, p2]
  · simp only [Run.excerpt, hdep, hr]
    rw [h5, q2, itemsText, if_neg h0]
    simp only [h10, Option.map_some]
    rw [hmsg]

theorem mark_rows (n gap bar a s : Str) (c : Char) (m : Nat) (hg : gap.length = bar.length + 1) (hb : '^' ∉ bar) :
    ∃ k, (n ++ gap ++ (a ++ c :: s))[k]? = some c ∧
      (List.replicate (n.length + 1) ' ' ++ bar ++ List.replicate a.length '-' ++ '^' :: List.replicate m '-')[k]? = some '^' ∧
      (∀ j, (List.replicate (n.length + 1) ' ' ++ bar ++ List.replicate a.length '-' ++ '^' :: List.replicate m '-')[j]? =
        some '^' → j = k) ∧
      (n ++ gap ++ (a ++ c :: s)).drop (k - a.length) = a ++ c :: s := by
  refine ⟨n.length + gap.length + a.length, ?_, ?_, ?_, ?_⟩
  · rw [List.getElem?_append_right (by simp), List.getElem?_append_right (by simp)]
    rw [show n.length + gap.length + a.length - (n ++ gap).length - a.length = 0 by simp]
    rfl
  · rw [List.getElem?_append_right (by simp; omega)]
    rw [show n.length + gap.length + a.length -
      (List.replicate (n.length + 1) ' ' ++ bar ++ List.replicate a.length '-').length = 0 by simp; omega]
    rfl
  · intro j hj
    rcases Nat.lt_or_ge j (n.length + gap.length + a.length) with h | h
    · rw [List.getElem?_append_left (by simp; omega)] at hj
      have hm := List.mem_of_getElem? hj
      rw [List.mem_append, List.mem_append] at hm
      rcases hm with (hm | hm) | hm
      · exact absurd (List.eq_of_mem_replicate hm) (by decide)
      · exact absurd hm hb
      · exact absurd (List.eq_of_mem_replicate hm) (by decide)
    · rw [List.getElem?_append_right (by simp; omega)] at hj
      cases hk : j - (List.replicate (n.length + 1) ' ' ++ bar ++ List.replicate a.length '-').length with
      | zero => simp at hk; omega
      | succ m =>
        rw [hk, List.getElem?_cons_succ] at hj
        exact absurd (List.eq_of_mem_replicate (List.mem_of_getElem? hj)) (by decide)
  · rw [show n.length + gap.length + a.length - a.length = (n ++ gap).length by simp, List.drop_left]

/-- The mark stands below the character, in the same column of the two last rows, and there is no other mark in its row. -/
theorem C119_mark (what file : Str) (number bytes : Nat) (before a s : Str) (c : Char) :
    ∃ top row marks, troubleText what file number (a.length + 1) bytes before (a ++ c :: s) =
        top ++ row ++ '\n' :: marks ++ ['\n'] ∧
      ∃ k, row[k]? = some c ∧ marks[k]? = some '^' ∧ (∀ j, marks[j]? = some '^' → j = k) ∧
        row.drop (k - a.length) = a ++ c :: s := by
  refine ⟨"Error: ".toList ++ what ++ '\n' :: List.replicate (Nat.toDigits 10 number).length ' ' ++ "--> ".toList ++ file ++
    ':' :: Nat.toDigits 10 number ++ ':' :: Nat.toDigits 10 (a.length + 1) ++ '\n' ::
      marginText (Nat.toDigits 10 number).length (Nat.toDigits 10 (number - 1)) before,
    _, _, ?_, mark_rows (Nat.toDigits 10 number) " |      ".toList "|      ".toList a s c (bytes + 1 - (a.length + 1))
      (by decide) (by decide)⟩
  unfold troubleText
  unfold marginText
  generalize Nat.toDigits 10 number = n
  generalize Nat.toDigits 10 (a.length + 1) = k
  generalize Nat.toDigits 10 (number - 1) = m
  generalize "Error: ".toList = x1
  generalize "--> ".toList = x2
  generalize " |      ".toList = x3
  generalize "|      ".toList = x4
  simp only [Nat.sub_self, List.replicate_zero, List.nil_append, List.append_assoc, List.cons_append, Nat.add_sub_cancel]

/-! ### Examples -/

def exTroubledText : String :=
  "; mine\n\n2021-01-15 * Shop\n  Expenses:Food  12.50 EUR ; lunch\n  Assets:Cash\nP 2021-01-15 USD 0.8 EUR\nüber 5\n; more\n"

/-- The message about its seventh line (with an umlaut of two bytes). -/
example : (exRun exTroubledText).excerpt "\"main\"".toList "main".toList =
    some ("Error: UnexpectedInput(None)\n".toList ++ " --> \"main\":7:1\n".toList ++
      "6 |      P 2021-01-15 USD 0.8 EUR\n".toList ++ "7 |      über 5\n".toList ++ "  |      ^-------\n".toList) := by
  decide +kernel

/-- The hypotheses of C119 are met by the example. -/
example : (exRun exTroubledText).excerpt "\"main\"".toList "main".toList =
    some (troubleText "UnexpectedInput(None)".toList "\"main\"".toList 7 1 7 "P 2021-01-15 USD 0.8 EUR".toList "über 5".toList) :=
  (C119_unknown (r := exRun exTroubledText) (ls := exLines) (c := 'ü') (s := "ber 5".toList) (post := ["; more".toList, []])
    exEnvJ_ascii exEnvJ_sep (by decide +kernel) exBook (by intro x hx; simp [exBlocks] at hx)
    (by intro x hx; simp [exBlocks] at hx; subst hx; decide) (by decide) rfl (by decide +kernel) (by decide +kernel) (by decide)
    (by decide) (by decide) (by decide) (by decide)).2

/-- An indented line after a comment, and a price before that. -/
example : (exRun "P 2021-01-15 USD 0.8 EUR\r\n\n; mine\n \n   Cash  5\n").excerpt "\"main\"".toList "main".toList =
    some ("Error: UnexpectedInput(Some(\"Unexpected indentation\"))\n".toList ++ " --> \"main\":5:4\n".toList ++
      "4 |       \n".toList ++ "5 |         Cash  5\n".toList ++ "  |      ---^-------\n".toList) := by
  decide +kernel

example : (exRun "; mine\n \n   Cash  5\n").excerpt "\"main\"".toList "main".toList =
    some (troubleText "UnexpectedInput(Some(\"Unexpected indentation\"))".toList "\"main\"".toList 3 4 10 " ".toList
      "   Cash  5".toList) :=
  (C119_indented (r := exRun "; mine\n \n   Cash  5\n") (ls := []) (bl := [" ".toList]) (c := 'C') (s := "ash  5".toList)
    (i := "   ".toList) (post := [[]]) (h := "; mine".toList) exEnvJ_ascii exEnvJ_sep (by decide +kernel) .nil (by simp) (by simp)
    (.comment (m := ';') (b := " ".toList) (c := "mine".toList) (by decide) (by unfold Blanks; decide)
      (by decide) (by intro x hx; cases hx; decide)) (.inl ⟨_, rfl⟩) (by simp [Blanks]; decide) (by decide) rfl
    (by unfold Blanks; decide) (by decide) (by decide +kernel) (by decide) (by decide) (by decide) (by decide)).2

end Dinero
