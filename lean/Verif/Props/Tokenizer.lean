import Verif.Lemmas.Include
import Verif.Props.Journal
/-
Property theorems about the run of the tokenizer (C64, C65, C71, C82).
-/
namespace Dinero

/-! ### C64: termination -/

/-- Tokenizing a text ends, if it and the files it can include have no comment in a tag directive and there are only
finitely many paths the patterns can stand for. -/
theorem C64_terminates_partial {env : Env} (ha : env.AsciiChars) {fs : Files} {paths : List Str}
    (hg : ∀ p es, fs.glob p = some es → ∀ f, some f ∈ es → f ∈ paths)
    (ht : ∀ f c, fs.read f = some c → ¬ TagComment env.ws c) {text : Str} (htext : ¬ TagComment env.ws text) :
    ∃ N, ∀ fuel depth, N ≤ fuel → N ≤ depth → tokenizeText env fs fuel depth text ≠ .error .fuel := by
  obtain ⟨N, hN⟩ := forall_bound (fun f n => ∀ c, fs.read f = some c → 3 * c.length + 2 ≤ n) paths
    (fun f _ => ⟨((fs.read f).map (fun c => 3 * c.length + 2)).getD 0, fun n hn c hc => by simpa [hc] using hn⟩)
  refine ⟨max (N + paths.length + 1) (3 * text.length + 2), fun fuel depth h1 h2 => ?_⟩
  refine items_done ha fuel (fun t pl t' h => includeTok_step h) (fun t => ?_) fuel {} (Tok.ofContent text)
    List.suffix_rfl htext ?_ ?_
  · refine includeTok_done fun p es he hns f hf => ?_
    have hfu := hg p es he f hf
    have hb : ∀ f ∈ paths, ∀ c, fs.read f = some c → 3 * c.length + 2 ≤ fuel := fun f hf => hN f hf fuel (by omega)
    refine tokenizeFile_done ha hg ht hb depth [] f (hb f hfu) ?_
    exact Nat.lt_of_le_of_lt (List.length_filter_le _ _) (by omega)
  · simp only [Tok.size, Tok.ofContent]; omega
  · simp only [Tok.ofContent]; omega

theorem tagLines_loop {env : Env} (ha : env.AsciiChars) {t : Tok} {r : Str} (h : t.rest = ';' :: r) (hc : t.col ≠ 0) (n : Nat) :
    tagLines env n t = .error .fuel := by
  have e : wsLines env t = (t, .indented) := by
    have h1 : wsLinesAux env.ws t.rest t.line t.col = (t.rest, t.line, t.col) := by
      rw [h, wsLinesAux, if_neg (by decide), if_neg (by simp [ha.wsF (c := ';') (by decide) (by decide)])]
    simp only [wsLines, h1]
    rw [if_pos ⟨by rw [h]; simp, hc⟩]
  induction n with
  | zero => rfl
  | succ n ih =>
    rw [tagLines, e]
    simp only
    rw [if_pos (by rw [h]; rfl), ih]

/-- A comment in a tag directive makes the program loop forever, whatever comes before and after. -/
theorem C64_tag_comment_loops {env : Env} (ha : env.AsciiChars) (hs : env.AsciiSep) (fs : Files) (depth : Nat)
    {ls post : List Str} {bs : List Block} {n b c : Str} (hj : WritesJournal env ls bs) (hi : ∀ x, .incl x ∉ bs)
    (hn : '\n' ∉ n) (hb : Blanks env b) (hb0 : b ≠ []) {fuel : Nat} (hf : ls.length + 4 ≤ fuel) :
    tokenizeText env fs fuel depth (joinLines (ls ++ ("tag ".toList ++ n) :: (b ++ ';' :: c) :: post)) = .error .fuel := by
  unfold tokenizeText
  have hst : Stops env (("tag ".toList ++ n) :: (b ++ ';' :: c) :: post) := by
    intro t ht
    have ht' : At env t (('t' :: ("ag ".toList ++ n)) :: (b ++ ';' :: c) :: post) := ht
    obtain ⟨t', h1, _⟩ := At.top ha ht' (ha.wsF (by decide) (by decide))
    exact ⟨t', h1, ht.again h1⟩
  obtain ⟨m, t1, h1, h2, h3⟩ := items_prefix ha hs (fuel := fuel)
    (inc := includeTok fs none [] (fun f => tokenizeFile env fs fuel depth [] f)) hj hst (by simp) fuel {}
    (Tok.ofContent (joinLines (ls ++ ("tag ".toList ++ n) :: (b ++ ';' :: c) :: post))) (noIncludes hi) hf (by omega)
    (ofContent_at (by simp))
  rw [h3]
  obtain ⟨m, rfl⟩ : ∃ k, m = k + 1 := ⟨m - 1, by omega⟩
  have h2' : At env t1 (('t' :: ("ag ".toList ++ n)) :: (b ++ ';' :: c) :: post) := h2
  obtain ⟨t2, h4, h5⟩ := At.top ha h2' (ha.wsF (by decide) (by decide))
  have h0 : t1.rest ≠ [] := by
    intro h0
    have := wsLines_nil (env := env) h0
    rw [h4, h5] at this
    cases this
  obtain ⟨e1, e2⟩ := getLine_line (l := "tag ".toList ++ n) h5 (by simp [hn]) (eol_tailText _)
  obtain ⟨t3, e3, e4⟩ := At.indent ha (e2.at (env := env)) hb hb0 (ha.wsF (by decide) (by decide))
  have hcol : t3.col ≠ 0 := by
    have : (wsLines env (getLine t2).2).2 = .indented := by rw [e3]
    simp only [wsLines] at this
    have h' : t3 = (wsLines env (getLine t2).2).1 := by rw [e3]
    rw [h']
    simp only [wsLines]
    split at this
    · next h => exact h.2
    · cases this
  have htl : tagLines env fuel (getLine t2).2 = .error .fuel := by
    cases fuel with
    | zero => rfl
    | succ k =>
      rw [tagLines, e3]
      simp only
      rw [if_pos (by rw [e4]; rfl), tagLines_loop ha e4 hcol]
  have hdn : directiveName "tag".toList ("tag ".toList ++ n) = some (n.dropWhile (· == ' ')) := by
    show directiveName "tag".toList ('t' :: ("ag ".toList ++ n)) = _
    rw [directiveName, if_pos]
    · show some ((' ' :: n).dropWhile (· == ' ')) = _
      simp
    · rw [List.isPrefixOf_iff_prefix]
      exact ⟨n, rfl⟩
  rw [items, if_neg h0]
  simp only [h4]
  rw [h5]
  simp only [List.cons_append]
  have ht : tagTok env fuel t2 = .error .fuel := by
    simp only [tagTok, e1, hdn, htl]
  have : item env fuel (includeTok fs none [] (fun f => tokenizeFile env fs fuel depth [] f)) 't'
      (bs.foldl (addBlock env (fun _ => {})) {}) t2 = .error .fuel := by
    unfold item
    rw [if_neg (by decide), if_neg (by rw [ha.numF (by decide) (by decide)]; decide), if_neg (by decide),
      if_neg (by decide), if_neg (by decide), if_neg (by decide), if_pos rfl, ht]
    rfl
  rw [this]

example : tokenizeText exEnvJ exNoFiles 50 0 "tag x\n  ; note\n".toList = .error .fuel :=
  C64_tag_comment_loops exEnvJ_ascii exEnvJ_sep exNoFiles 0 (ls := []) (n := "x".toList) (b := "  ".toList)
    (c := " note".toList) (post := [[]]) .nil (by simp) (by decide) (by unfold Blanks; decide) (by decide) (by decide)

/-- The hypotheses of C64 are met by a text without the letter `t`. -/
example : ¬ TagComment exEnvJ.ws "; mine\n\n2021-01-15 Shop\n  Food  5 EUR\n  Cash\n".toList := by
  rintro ⟨pre, line, ls, b, post, h, h1, _⟩
  have : 't' ∈ "; mine\n\n2021-01-15 Shop\n  Food  5 EUR\n  Cash\n".toList := by
    rw [h]
    have : 't' ∈ line := List.mem_of_mem_head? h1
    simp [this]
  revert this
  decide

/-! ### C65: includes -/

/-- Tokenizing a file ends, if there are only finitely many paths that patterns can stand for and no file has a comment in
a tag directive. -/
theorem C65_terminates_partial {env : Env} (ha : env.AsciiChars) {fs : Files} {paths : List Str}
    (hg : ∀ p es, fs.glob p = some es → ∀ f, some f ∈ es → f ∈ paths)
    (ht : ∀ f c, fs.read f = some c → ¬ TagComment env.ws c) (file : Str) :
    ∃ N, ∀ fuel depth, N ≤ fuel → N ≤ depth → tokenizeFile env fs fuel depth [] file ≠ .error .fuel := by
  obtain ⟨N, hN⟩ := forall_bound (fun f n => ∀ c, fs.read f = some c → 3 * c.length + 2 ≤ n) (file :: paths)
    (fun f _ => ⟨((fs.read f).map (fun c => 3 * c.length + 2)).getD 0, fun n hn c hc => by simpa [hc] using hn⟩)
  refine ⟨N + paths.length + 1, fun fuel depth h1 h2 => ?_⟩
  refine tokenizeFile_done ha hg ht (fun f hf => hN f (by simp [hf]) fuel (by omega)) depth [] file
    (hN file (by simp) fuel (by omega)) ?_
  exact Nat.lt_of_le_of_lt (List.length_filter_le _ _) (by omega)

/-- A file that includes itself, directly or through other files, is an error. -/
theorem C65_loop {env : Env} (ha : env.AsciiChars) (hs : env.AsciiSep) {fs : Files} {file : Str}
    (h : IncludesItself env fs [] file) :
    ∃ N, ∀ fuel depth, N ≤ fuel → N ≤ depth →
      tokenizeFile env fs fuel depth [] file = .error (.fail (.error .includeLoop)) :=
  loop_error ha hs h

/-- Two files that include each other. -/
def exLoop : Files := exDir [("a".toList, "; mine\ninclude b\n".toList), ("b".toList, "include a\n".toList)]

/-- The hypothesis of the theorem is met by the example. -/
example : IncludesItself exEnvJ exLoop [] "a".toList :=
  .deeper (ls := ["; mine".toList]) (x := "b".toList) (post := [[]]) (dir := []) (f := "b".toList) (pre := []) (es := [])
    (fun _ => []) (fun _ => {}) (by decide) exNote (by decide) rfl (by simp) (by simp) (by simp) (by decide)
    (by intro g hg; simp at hg; subst hg; decide) (by simp)
    (.here (ls := []) (x := "a".toList) (post := [[]]) (dir := []) (f := "a".toList) (es := [some "a".toList])
      (fun _ => []) (fun _ => {}) (by decide) (by simp) .nil (by decide) rfl (by simp) (by simp) (by simp) (by decide) (by simp)
      (.inr (by simp)))

example : ∀ p es, exLoop.glob p = some es → ∀ f, some f ∈ es → f ∈ ["a".toList, "b".toList] := by
  intro p es h f hf
  simp only [exLoop, exDir, Option.some.injEq] at h
  subst h
  simp only [List.mem_map, List.mem_filter, Option.some.injEq] at hf
  obtain ⟨g, ⟨hg, _⟩, rfl⟩ := hf
  simp only [List.mem_cons, List.not_mem_nil, or_false] at hg
  rcases hg with rfl | rfl <;> simp

/-- A file `j/a` that includes itself as `../j/a`. -/
def exDots : Files where
  read := fun _ => some "include ../j/a\n".toList
  glob := fun p => some [some p]
  parent := fun f => some ((f.reverse.dropWhile (· != '/')).drop 1).reverse

/-- A path with `..` is not recognised as that of a file that is being read: the file includes itself forever. -/
theorem C65_spelling_diverges (fuel : Nat) : ∀ (depth : Nat) (seen : List Str) (e : Str), e ≠ [] →
    (∀ f ∈ seen, f.length ≤ e.length + 2) → tokenizeFile exEnvJ exDots fuel depth seen (e ++ "/a".toList) = .error .fuel := by
  intro depth
  induction depth with
  | zero => intro seen e _ _; rfl
  | succ depth ih =>
    intro seen e he hs
    rw [tokenizeFile]
    simp only [exDots]
    cases fuel with
    | zero => rfl
    | succ k =>
      refine items_include exEnvJ_ascii (x := "../j/a".toList) (post := [[]]) {} (ofContent_at (ls := ["include ../j/a".toList, []])
        (by simp)) fun t ht => ?_
      have hpar : (((e ++ "/a".toList).reverse.dropWhile (· != '/')).drop 1).reverse = e := by
        simp
      refine includeTok_first (p := e ++ "/../j".toList ++ "/a".toList) (f := e ++ "/../j".toList ++ "/a".toList) (pre := []) (entries := []) ht
        (eol_tailText _) (by decide) ?_ rfl ?_ (by simp) (ih _ _ (by simp) ?_)
      · simp only [includePattern, hpar]
        rw [if_neg he]
        simp
      · intro g hg hm
        simp only [List.nil_append, List.mem_cons, Option.some.injEq, List.not_mem_nil, or_false] at hg
        subst hg
        rcases List.mem_cons.mp hm with h | h
        · have := congrArg List.length h
          simp at this
        · have := hs _ h
          simp at this
      · intro f hf
        rcases List.mem_cons.mp hf with rfl | h
        · simp
        · have := hs _ h
          simp
          omega

example (fuel depth : Nat) : tokenizeFile exEnvJ exDots fuel depth [] "j/a".toList = .error .fuel :=
  C65_spelling_diverges fuel depth [] "j".toList (by decide) (by simp)

/-! ### C71: the line counter -/

theorem CountsLines.step {t t' : Tok} (h : t.CountsLines) (hs : t.Step t') : t'.CountsLines := by
  obtain ⟨read, h1, h2⟩ := h
  obtain ⟨p, hp⟩ := hs.rest
  refine ⟨read ++ p, by rw [hs.content, h1, ← hp]; simp, ?_⟩
  have := hs.line
  rw [← hp, List.count_append] at this
  rw [List.count_append]
  omega

/-- Between the items of a journal the line counter is the number of line breaks read so far, as long as there is no
automated transaction. -/
theorem C71_lines_partial {env : Env} (ha : env.AsciiChars) (fuel : Nat) {fs : Files} {file : Option Str} {seen : List Str}
    {tok : Str → PRes ParsedLedger} {text : Str} {t : Tok}
    (h : Visited env fuel (includeTok fs file seen tok) (· ≠ '=') text t) : t.CountsLines := by
  have hsuf : ∀ t : Tok, t.CountsLines → t.rest <:+ t.content := fun t ⟨read, h, _⟩ => ⟨read, h.symm⟩
  induction h with
  | start => exact ⟨[], rfl, rfl⟩
  | skip _ ih => exact CountsLines.step ih (wsLines_step _ _)
  | item hv hr hne hq h ih =>
    exact CountsLines.step ih (((item_step ha fuel (fun t pl t' h => includeTok_step h) _ _ (hsuf _ ih) hr hne).2 _ _ h).2.2 hq)

/-- With automated transactions, it is at most that. -/
theorem C71_at_most {env : Env} (ha : env.AsciiChars) (fuel : Nat) {fs : Files} {file : Option Str} {seen : List Str}
    {tok : Str → PRes ParsedLedger} {text : Str} {t : Tok}
    (h : Visited env fuel (includeTok fs file seen tok) (fun _ => True) text t) :
    ∃ read, text = read ++ t.rest ∧ t.line ≤ read.count '\n' := by
  have : t.content = text ∧ ∃ read, text = read ++ t.rest ∧ t.line ≤ read.count '\n' := by
    induction h with
    | start => exact ⟨rfl, [], rfl, by simp [Tok.ofContent]⟩
    | @skip t hv ih =>
      obtain ⟨h1, read, h2, h3⟩ := ih
      have hs := wsLines_step env t
      obtain ⟨p, hp⟩ := hs.rest
      refine ⟨hs.content.trans h1, read ++ p, by rw [h2, ← hp]; simp, ?_⟩
      have := hs.line
      rw [← hp, List.count_append] at this
      rw [List.count_append]
      omega
    | @item t t' c r pl pl' hv hr hne hq h ih =>
      obtain ⟨h1, read, h2, h3⟩ := ih
      have hs := ((item_step ha fuel (fun t pl t' h => includeTok_step h) _ _ ⟨read, by rw [h1, ← h2]⟩ hr hne).2 _ _ h).1
      obtain ⟨p, hp⟩ := hs.rest
      refine ⟨hs.content.trans h1, read ++ p, by rw [h2, ← hp]; simp, ?_⟩
      have := hs.line
      rw [← hp, List.count_append] at this
      rw [List.count_append]
      omega
  exact this.2

/-- An automated transaction at the end of the text makes the counter fall behind (and the last character is read
twice: here it becomes an amount). -/
theorem C71_automated :
    (automatedTok exEnvJ 20 (Tok.ofContent "= x\n  A  total * 5".toList)).toOption.map (fun x => (x.2.rest, x.2.line)) =
      some ([], 0) ∧
    (automatedTok exEnvJ 20 (Tok.ofContent "= x\n  A  total * 5".toList)).toOption.map
      (fun x => x.1.postings.map (fun p => p.amountExpr)) = some [some "* 5".toList] ∧
    (automatedTok exEnvJ 20 (Tok.ofContent "= x\n  A  total * 5".toList)).toOption.map
      (fun x => x.1.postings.map (fun p => p.moneyAmount)) = some [some 5] := by decide +kernel

/-! ### C82: errors on the first line -/

theorem items_first {env : Env} (ha : env.AsciiChars) (bound fuel : Nat) (inc : Tok → PRes (ParsedLedger × Tok))
    (pl : ParsedLedger) {c : Char} (r : Str) (hw : env.ws c = false) (hn : env.numeric c = false)
    (hc : c ∉ [';', '!', '*', '%', '#', '=', 'i', 'c', 'p', 't', 'a', 'P']) :
    items env bound inc (fuel + 1) pl (Tok.ofContent (c :: r)) =
      .error (.fail (.panic "attempt to subtract with overflow")) := by
  have h1 : c ≠ '\n' := by rintro rfl; rw [ha.wsT (by decide) (by decide)] at hw; cases hw
  have h2 : c ≠ '\r' := by rintro rfl; rw [ha.wsT (by decide) (by decide)] at hw; cases hw
  have e : wsLines env (Tok.ofContent (c :: r)) = (Tok.ofContent (c :: r), .blank) := by
    have h3 : wsLinesAux env.ws (c :: r) 0 0 = (c :: r, 0, 0) := by
      rw [wsLinesAux, if_neg h1, if_neg (by simp [hw, h2])]
    simp only [wsLines, Tok.ofContent, h3]
    simp
  simp only [List.mem_cons, List.not_mem_nil, or_false, not_or] at hc
  obtain ⟨c1, c2, c3, c4, c5, c6, c7, c8, c9, c10, c11, c12⟩ := hc
  rw [items, if_neg (by simp [Tok.ofContent])]
  simp only [e]
  simp only [Tok.ofContent]
  unfold item
  rw [if_neg (by simp [c1, c2, c3, c4, c5]), if_neg (by simp [hn]), if_neg c6, if_neg c7, if_neg c8, if_neg c9, if_neg c10,
    if_neg c11, if_neg c12]
  simp [Tok.fail]

/-- A character on the first line that starts no item makes the program panic (in a build with overflow checks) instead
of reporting it. -/
theorem C82_first_line {env : Env} (ha : env.AsciiChars) (fs : Files) (fuel depth : Nat) {c : Char} (r : Str)
    (hw : env.ws c = false) (hn : env.numeric c = false)
    (hc : c ∉ [';', '!', '*', '%', '#', '=', 'i', 'c', 'p', 't', 'a', 'P']) :
    tokenizeText env fs (fuel + 1) depth (c :: r) = .error (.fail (.panic "attempt to subtract with overflow")) :=
  items_first ha _ _ _ _ r hw hn hc

example : tokenizeText exEnvJ exNoFiles 20 0 "x\n".toList = .error (.fail (.panic "attempt to subtract with overflow")) :=
  C82_first_line exEnvJ_ascii exNoFiles 19 0 _ (by decide) (by decide) (by decide)

/-- On a later line it is reported. -/
example : (match tokenizeText exEnvJ exNoFiles 20 0 "\nx\n".toList with
    | .error (.fail (.error .unexpectedInput)) => true
    | _ => false) = true := by decide +kernel

/-- After the first line break it is reported. -/
theorem C82_reported_partial {env : Env} (ha : env.AsciiChars) (fuel : Nat) {fs : Files} {file : Option Str} {seen : List Str}
    {tok : Str → PRes ParsedLedger} {text read r : Str} {t : Tok} {c : Char} (pl : ParsedLedger)
    (h : Visited env fuel (includeTok fs file seen tok) (· ≠ '=') text t) (ht : t.rest = c :: r)
    (hr : text = read ++ c :: r) (hl : '\n' ∈ read) (hn : env.numeric c = false)
    (hc : c ∉ [';', '!', '*', '%', '#', '=', 'i', 'c', 'p', 't', 'a', 'P']) :
    item env fuel (includeTok fs file seen tok) c pl t = .error (.fail (.error .unexpectedInput)) := by
  obtain ⟨read', h1, h2⟩ := C71_lines_partial ha fuel h
  have hcont : t.content = text := by
    clear h1 h2 ht
    induction h with
    | start => rfl
    | skip _ ih => exact ih
    | item hv hr' hne hq h ih =>
      obtain ⟨read, h1, h2⟩ := C71_lines_partial ha fuel hv
      exact ((item_step ha fuel (fun t pl t' h => includeTok_step h) _ _ ⟨read, h1.symm⟩ hr' hne).2 _ _ h).1.content.trans ih
  have hread : read' = read := by
    rw [hcont, hr, ht] at h1
    exact (List.append_cancel_right h1).symm
  have hline : t.line ≠ 0 := by
    rw [h2, hread]
    exact Nat.ne_of_gt (List.count_pos_iff.mpr hl)
  simp only [List.mem_cons, List.not_mem_nil, or_false, not_or] at hc
  obtain ⟨c1, c2, c3, c4, c5, c6, c7, c8, c9, c10, c11, c12⟩ := hc
  unfold item
  rw [if_neg (by simp [c1, c2, c3, c4, c5]), if_neg (by simp [hn]), if_neg c6, if_neg c7, if_neg c8, if_neg c9, if_neg c10,
    if_neg c11, if_neg c12]
  simp [Tok.fail, hline]

example : Visited exEnvJ 20 (includeTok exNoFiles none [] (fun _ => .error .fuel)) (· ≠ '=') "\nx".toList
    { content := "\nx".toList, rest := "x".toList, line := 1 } := .skip .start

end Dinero
