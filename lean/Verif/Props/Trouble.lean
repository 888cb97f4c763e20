import Verif.Lemmas.Trouble
import Verif.Props.Excerpt
/-
Property theorems about the messages about a journal that cannot be read (C128).
-/
namespace Dinero

/-! ### C128: every error of the parser is explained -/

/-- Whenever the parser ends with an error, what the program writes is about a file that can be read, and about a place in it that is
not on the first line. -/
theorem C128_explained {r : Run} (ha : r.env.AsciiChars) (sh : Shown) {path : Str} {e : Err}
    (h : r.journal path = .error (.fail (.error e))) :
    ∃ x, r.rejection sh path = some (x.written sh) ∧ Located r.env r.fs x := by
  obtain ⟨x, h1, h2⟩ := file_place ha r.fs r.fuel r.depth [] path (by simp) e h
  exact ⟨x, by rw [Run.rejection, h, h1]; rfl, h2⟩

/-- If the files end with a line break or have no equals sign, the message names the file, the line and the column of something that the
error is true of, and shows that line and the one before it: nothing at all is written only if a line starts like an `include` directive
and is none.  (The column of a missing bracket is wrong at the end of a line, and that of an include loop at the end of the text.) -/
theorem C128_message_partial {r : Run} (ha : r.env.AsciiChars) (sh : Shown)
    (hC : ∀ f content, r.fs.read f = some content → content.getLast? = some '\n' ∨ '=' ∉ content) {path : Str} {e : Err}
    (h : r.journal path = .error (.fail (.error e))) :
    ∃ f read rest, r.fs.read f = some (read ++ rest) ∧
      ((r.rejection sh path = some [] ∧ NoInclude read rest) ∨
        ∃ (posting : Bool) (why : Reason) (col : Nat), Explains r.env r.fs read rest posting why ∧ read.count '\n' ≠ 0 ∧
          ColumnAt read rest why col ∧
          r.rejection sh path = some ((if posting then "Error while parsing posting.\n".toList else []) ++
            noticeText (why.shown sh) (sh.path f) (read.count '\n' + 1) (col + 1) (strLines (read ++ rest)))) := by
  obtain ⟨x, h1, f, content, hf, hr, hp, hn⟩ := C128_explained ha sh h
  cases hx : x.place with
  | none =>
    obtain ⟨n1, n2, read, rest, n3, n4⟩ := hn hx
    refine ⟨f, read, rest, n3 ▸ hr, .inl ⟨?_, n4 (hC f _ hr)⟩⟩
    rw [h1, Trouble.written, hx, n1]
    rfl
  | some t =>
    obtain ⟨p1, p2, p3⟩ := hp t hx
    obtain ⟨read, q1, q2, q3, q4⟩ := p3 (hC f _ hr)
    refine ⟨f, read, t.rest, by rw [← q1, p1]; exact hr, .inr ⟨x.posting, x.why, t.col, q3, by rw [← q2]; exact p2, q4, ?_⟩⟩
    rw [h1, Trouble.written, hx, hf]
    simp only [Option.map_some]
    rw [message_notice p2 (by rw [q2, q1, List.count_append]; omega), q2, q1]

/-! #### The errors of the main loop -/

theorem itemsText_trouble {env : Env} {fuel : Nat} {inc : Tok → PRes (ParsedLedger × Tok)} {incT : Tok → Option Trouble} {f : Str}
    {sh : Shown} (hs : ∀ c, ' ' ≤ c → c ≤ '~' → sh.printable c = true) : ∀ (n : Nat) (pl : ParsedLedger) (t : Tok) {m : Str},
    itemsText env fuel inc (some (sh.path f)) n pl t = some m →
    ∃ x, itemsTrouble env fuel inc incT (some f) n pl t = some x ∧ x.written sh = m ++ ['\n'] := by
  have hin : Reason.shown sh (.text "Unexpected indentation".toList) =
      "UnexpectedInput(Some(\"Unexpected indentation\"))".toList := by
    have : "Unexpected indentation".toList.flatMap sh.char = "Unexpected indentation".toList := by
      have key : ∀ l : Str, (∀ c ∈ l, (' ' ≤ c ∧ c ≤ '~') ∧ c ≠ '"' ∧ c ≠ '\\') → l.flatMap sh.char = l := by
        intro l
        induction l with
        | nil => intro _; rfl
        | cons c l ih =>
          intro h
          obtain ⟨⟨h1, h2⟩, h3, h4⟩ := h c (by simp)
          rw [List.flatMap_cons, ih (fun d hd => h d (by simp [hd]))]
          have n0 : c.toNat ≠ 0 := by
            intro h0
            have : (' ' : Char).toNat ≤ c.toNat := h1
            rw [h0] at this
            exact absurd this (by decide)
          have nt : ∀ d : Char, d.toNat < 32 → c ≠ d := by
            rintro d hd rfl
            have : (' ' : Char).toNat ≤ c.toNat := h1
            have e : (' ' : Char).toNat = 32 := rfl
            omega
          have : sh.char c = [c] := by
            unfold Shown.char
            rw [if_neg h3, if_neg h4, if_neg (nt _ (by decide)), if_neg (nt _ (by decide)), if_neg (nt _ (by decide)), if_neg n0,
              if_pos (hs c h1 h2)]
          rw [this]
          rfl
      exact key _ (by decide)
    show "UnexpectedInput(Some(".toList ++ ('"' :: "Unexpected indentation".toList.flatMap sh.char ++ ['"']) ++ "))".toList = _
    rw [this]
    decide
  intro n
  induction n with
  | zero => intro pl t m h; cases h
  | succ n ih =>
    intro pl t m h
    rw [itemsText] at h
    rw [itemsTrouble]
    split at h
    · cases h
    · next hne =>
      rw [if_neg hne]
      cases hw : wsLines env t with
      | mk t1 lt =>
        rw [hw] at h
        cases lt with
        | indented =>
          cases h
          refine ⟨_, rfl, ?_⟩
          simp only [Trouble.written, Option.map_some, hin]
          rfl
        | blank =>
          simp only at h ⊢
          cases hr : t1.rest with
          | nil => rw [hr] at h; exact ih _ _ h
          | cons c r =>
            rw [hr] at h
            simp only at h ⊢
            cases hst : env.starts c with
            | true =>
              rw [if_pos hst] at h
              cases hit : item env fuel inc c pl t1 with
              | error e => rw [hit] at h; cases h
              | ok y =>
                obtain ⟨pl', t2⟩ := y
                rw [hit] at h
                exact ih _ _ h
            | false =>
              rw [if_neg (by simp [hst])] at h
              cases h
              rw [item_unknown hst]
              have : itemTrouble env fuel incT (some f) c t1 =
                  some { file := some f, posting := false, place := some t1, why := .nothing } := by
                simp only [Env.starts, Bool.or_eq_false_iff, List.contains_eq_mem, decide_eq_false_iff_not] at hst
                obtain ⟨⟨s1, s2⟩, s3⟩ := hst
                simp only [List.mem_cons, List.not_mem_nil, or_false, not_or] at s3
                unfold itemTrouble
                rw [if_neg s1, if_neg (by simp [s2]), if_neg s3.1, if_neg s3.2.1, if_neg s3.2.2.1, if_neg s3.2.2.2.1,
                  if_neg s3.2.2.2.2.1, if_neg s3.2.2.2.2.2.1, if_neg s3.2.2.2.2.2.2]
              exact ⟨_, this, rfl⟩

/-- The messages of C119 are what is written. -/
theorem C128_main_loop {r : Run} {sh : Shown} (hs : ∀ c, ' ' ≤ c → c ≤ '~' → sh.printable c = true) {path m : Str} {e : Err}
    (h : r.journal path = .error (.fail (.error e))) (hm : r.excerpt (sh.path path) path = some m) :
    r.rejection sh path = some m := by
  rw [Run.rejection, h]
  simp only
  unfold Run.excerpt at hm
  cases hd : r.depth with
  | zero => rw [hd] at hm; cases hm
  | succ depth =>
    rw [hd] at hm
    rw [fileTrouble]
    cases hr : r.fs.read path with
    | none => rw [hr] at hm; cases hm
    | some content =>
      rw [hr] at hm
      simp only at hm ⊢
      obtain ⟨m', h1, h2⟩ := Option.map_eq_some_iff.mp hm
      obtain ⟨x, h3, h4⟩ := itemsText_trouble (incT := includeTrouble r.fs (some path) [path]
        (fun f => tokenizeFile r.env r.fs r.fuel depth [path] f) (fun f => fileTrouble r.env r.fs r.fuel depth [path] f)) hs _ _ _ h1
      rw [h3, Option.map_some, h4, h2]

/-! ### C71: with automated transactions -/

/-- If the text ends with a line break, the line counter is right after automated transactions, too. -/
theorem C71_ended {env : Env} (ha : env.AsciiChars) (fuel : Nat) {fs : Files} {file : Option Str} {seen : List Str}
    {tok : Str → PRes ParsedLedger} {text : Str} {t : Tok} (hn : text.getLast? = some '\n')
    (h : Visited env fuel (includeTok fs file seen tok) (fun _ => True) text t) : t.CountsLines := by
  have : t.content = text ∧ t.CountsLines := by
    induction h with
    | start => exact ⟨rfl, [], rfl, rfl⟩
    | @skip t hv ih => exact ⟨(wsLines_step env t).content.trans ih.1, counts_step ih.2 (wsLines_step env t)⟩
    | @item t t' c r pl pl' hv hr hne _ h ih =>
      obtain ⟨i1, i2⟩ := ih
      obtain ⟨w1, _, w3⟩ :=
        (item_step ha fuel (fun t pl t' h => includeTok_step h) _ _ (counts_suffix i2) hr hne).2 _ _ h
      refine ⟨w1.content.trans i1, ?_⟩
      by_cases hc : c = '='
      · subst hc
        unfold item at h
        rw [if_neg (by decide), if_neg (by rw [ha.numF (by decide) (by decide)]; decide), if_pos rfl] at h
        obtain ⟨a, e1, e2⟩ := map_ok h
        cases e2
        unfold automatedTok at e1
        simp only at e1
        split at e1
        · cases e1
        · exact ((txn_place ha fs fuel none (E := True) fuel _ (getLine t).2 ((getLine_step t).suffix (counts_suffix i2))
            (fun _ => getLine_loose i2) (fun _ _ => by rw [(getLine_step t).content, i1]; exact hn)).1 _ _ e1 trivial).counts
      · exact counts_step i2 (w3 hc)
  exact this.2

/-! ### Examples -/

/-- Paths in quotes, and every character can be printed. -/
def exShown : Shown := { path := fun p => '"' :: p ++ ['"'], printable := fun c => decide (' ' ≤ c ∧ c ≤ '~') }

/-- Whether a journal is rejected with an error. -/
def exRejected (e : Err) : PRes ParsedLedger → Bool
  | .error (.fail (.error e')) => decide (e' = e)
  | _ => false

theorem exRejected_error {e : Err} {x : PRes ParsedLedger} (h : exRejected e x = true) : x = .error (.fail (.error e)) := by
  unfold exRejected at h
  split at h
  · rw [of_decide_eq_true h]
  · cases h

def exRejection (text : String) : Option Str := (exRun text).rejection exShown "main".toList

/-- A line of a transaction that starts with a digit: the message, and C128 of it. -/
example : exRejection "2020-01-01 Bar\n  Food  5 EUR\n  12:Cash\n" =
    some ("Error: UnexpectedInput(Some(\"Expecting account name\"))\n".toList ++ " --> \"main\":3:3\n".toList ++
      "2 |        Food  5 EUR\n".toList ++ "3 |        12:Cash\n".toList ++ "  |      --^-------\n".toList) := by
  decide +kernel

example :=
  C128_message_partial (r := exRun "2020-01-01 Bar\n  Food  5 EUR\n  12:Cash\n") (path := "main".toList) (e := .unexpectedInput)
    exEnvJ_ascii exShown
    (by
      intro f content hc
      left
      simp only [exRun, exDir, List.find?_cons, List.find?_nil] at hc
      split at hc
      · cases hc; decide
      · cases hc) (exRejected_error (by decide +kernel))

/-- A number with two points, something that is no number, a price without an amount. -/
example : exRejection "2020-01-01 Bar\n Food  1.2.3 EUR\n Cash\n" =
    some ("Error while parsing posting.\n".toList ++ "Error: UnexpectedInput(Some(\"Too many decimal separators\"))\n".toList ++
      " --> \"main\":2:11\n".toList ++ "1 |      2020-01-01 Bar\n".toList ++ "2 |       Food  1.2.3 EUR\n".toList ++
      "  |      ----------^------\n".toList) ∧
    exRejection "2020-01-01 Bar\n Food  EUR x\n Cash\n" =
    some ("Error while parsing posting.\n".toList ++ "Error: UnexpectedInput(Some(\"Wrong number format\"))\n".toList ++
      " --> \"main\":2:12\n".toList ++ "1 |      2020-01-01 Bar\n".toList ++ "2 |       Food  EUR x\n".toList ++
      "  |      -----------^-\n".toList) ∧
    exRejection "2020-01-01 Bar\n Food  @ 5 EUR\n Cash\n" =
    some ("Error while parsing posting.\n".toList ++ "Error: UnexpectedInput(Some(\"Amount not found\"))\n".toList ++
      " --> \"main\":2:8\n".toList ++ "1 |      2020-01-01 Bar\n".toList ++ "2 |       Food  @ 5 EUR\n".toList ++
      "  |      -------^-------\n".toList) ∧
    exRejection "2020-01-01 Bar\n Food  5 EUR =" =
    some ("Error while parsing posting.\n".toList ++ "Error: UnexpectedInput(Some(\"Expected ammount missing\"))\n".toList ++
      " --> \"main\":2:15\n".toList ++ "1 |      2020-01-01 Bar\n".toList ++ "2 |       Food  5 EUR =\n".toList ++
      "  |      --------------^\n".toList) := by
  decide +kernel

/-- Directives with a property that they do not have: these are called postings, too. -/
example : exRejection "account A\n alias B\n  colour   red\n" =
    some ("Error while parsing posting.\n".toList ++
      "Error: UnexpectedInput(Some(\"Found colour. Expected one of alias, note, isin, check, assert, payee.\"))\n".toList ++
      " --> \"main\":3:12\n".toList ++ "2 |       alias B\n".toList ++ "3 |        colour   red\n".toList ++
      "  |      -----------^---\n".toList) ∧
    exRejection "commodity A\n colour red\n" =
    some ("Error while parsing posting.\n".toList ++
      "Error: UnexpectedInput(Some(\"Found colour. Should be one of 'note', 'alias', 'format', 'default'\"))\n".toList ++
      " --> \"main\":2:9\n".toList ++ "1 |      commodity A\n".toList ++ "2 |       colour red\n".toList ++
      "  |      --------^---\n".toList) ∧
    exRejection "payee A\n colour red\n" =
    some ("Error while parsing posting.\n".toList ++ "Error: UnexpectedInput(None)\n".toList ++
      " --> \"main\":2:9\n".toList ++ "1 |      payee A\n".toList ++ "2 |       colour red\n".toList ++
      "  |      --------^---\n".toList) := by
  decide +kernel

/-- The example of C119, and the hypotheses of the theorem about the main loop. -/
example : exRejection exTroubledText = (exRun exTroubledText).excerpt "\"main\"".toList "main".toList := by
  have h : (exRun exTroubledText).excerpt (exShown.path "main".toList) "main".toList =
      (exRun exTroubledText).excerpt "\"main\"".toList "main".toList := by decide +kernel
  obtain ⟨m, hm⟩ : ∃ m, (exRun exTroubledText).excerpt (exShown.path "main".toList) "main".toList = some m :=
    Option.isSome_iff_exists.mp (by decide +kernel)
  rw [← h, hm]
  exact C128_main_loop (r := exRun exTroubledText) (e := .unexpectedInput) (fun c h1 h2 => by simp [exShown, h1, h2])
    (exRejected_error (by decide +kernel)) hm

/-- An automated transaction with an amount that is no number, at the end of a text with a line break at its end: the lines are counted
right. -/
example : ∃ t : Tok, Visited exEnvJ 50 (includeTok exNoFiles none [] (fun _ => .error .fuel)) (fun _ => True)
      "= x\n  A  total * 5\n".toList t ∧ t.rest = [] ∧ t.line = 2 ∧ t.CountsLines := by
  have h1 : (item exEnvJ 50 (includeTok exNoFiles none [] (fun _ => .error .fuel)) '=' {}
      (Tok.ofContent "= x\n  A  total * 5\n".toList)).toOption.map (fun x => (x.2.rest, x.2.line)) = some ([], 2) := by
    decide +kernel
  obtain ⟨y, hy, e⟩ := Option.map_eq_some_iff.mp h1
  have hit : item exEnvJ 50 (includeTok exNoFiles none [] (fun _ => .error .fuel)) '=' {}
      (Tok.ofContent "= x\n  A  total * 5\n".toList) = .ok y := by
    revert hy
    cases item exEnvJ 50 (includeTok exNoFiles none [] (fun _ => .error .fuel)) '=' {}
      (Tok.ofContent "= x\n  A  total * 5\n".toList) with
    | error e => intro h; cases h
    | ok z => intro h; cases h; rfl
  have hv : Visited exEnvJ 50 (includeTok exNoFiles none [] (fun _ => .error .fuel)) (fun _ => True)
      "= x\n  A  total * 5\n".toList y.2 :=
    .item .start (c := '=') (r := " x\n  A  total * 5\n".toList) (by decide) (by decide) trivial hit
  exact ⟨y.2, hv, (Prod.mk.injEq .. ▸ e).1, (Prod.mk.injEq .. ▸ e).2, C71_ended exEnvJ_ascii 50 (by decide) hv⟩

/-! ### Where C128 fails -/

/-- A line that starts like an `include` directive and is none: nothing at all is written.  (The message is empty, and empty messages
are not printed.) -/
theorem C128_silent :
    (exRun "\nincomplete\n").journal "main".toList = .error (.fail (.error .unexpectedInput)) ∧
    exRejection "\nincomplete\n" = some [] :=
  ⟨exRejected_error (by decide +kernel), by decide +kernel⟩

/-- A missing bracket at the end of a line is reported at the first column, and with a blank after it on the next line. -/
theorem C128_brackets :
    exRejection "2020-01-01 Bar\n (Food\n Cash\n" =
      some ("Error while parsing posting.\n".toList ++ "Error: UnexpectedInput(Some(\"Expected ')'\"))\n".toList ++
        " --> \"main\":2:1\n".toList ++ "1 |      2020-01-01 Bar\n".toList ++ "2 |       (Food\n".toList ++
        "  |      ^------\n".toList) ∧
    exRejection "2020-01-01 Bar\n (Food \n Cash\n" =
      some ("Error while parsing posting.\n".toList ++ "Error: UnexpectedInput(Some(\"Expected ')'\"))\n".toList ++
        " --> \"main\":3:1\n".toList ++ "2 |       (Food \n".toList ++ "3 |       Cash\n".toList ++
        "  |      ^-----\n".toList) := by
  decide +kernel

/-- A file that includes itself is reported at the line after the `include` directive, which need not exist. -/
theorem C128_cycle :
    exRejection "; x\ninclude main\n" =
      some ("Error: IncludeLoop(\"Cycle detected. \\\"main\\\"\")\n".toList ++ " --> \"main\":3:1\n".toList ++
        "2 |      include main\n".toList ++ "  |      ^------------\n".toList) := by
  decide +kernel

end Dinero
