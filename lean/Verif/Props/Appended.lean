import Verif.Lemmas.Appended
import Verif.Props.Exact
/-
Property theorems about adding to the end of a journal (C133).
-/
namespace Dinero

/-! ### C133: adding to the end of a journal -/

/-- If a file stands for something and so does what is added to it, then what they stand for together is the one after the other.  (The
file must end with a line break without a blank before it, and must not leave a parenthesis open.) -/
theorem C133_append_partial {env : Env} (ha : env.AsciiChars) {fs fs1 fs2 : Files} {file text more : Str} {pl1 pl2 : ParsedLedger}
    (h1 : Takes env fs1 [] file pl1) (t1 : fs1.read file = some text) (s1 : SameBut file fs1 fs)
    (h2 : Takes env fs2 [] file pl2) (t2 : fs2.read file = some more) (s2 : SameBut file fs2 fs)
    (t : fs.read file = some (text ++ more)) (he : text = [] ∨ EndsLine env text) (ho : NothingOpen pl1) :
    ∃ pl, Takes env fs [] file pl ∧ pl.transactions = pl1.transactions ++ pl2.transactions ∧ pl.prices = pl1.prices ++ pl2.prices ∧
      pl.comments = pl1.comments ++ pl2.comments ∧ pl.tags = pl1.tags ++ pl2.tags := by
  obtain ⟨bs1, j1, i1, e1⟩ := takes_canon ha h1 t1
  obtain ⟨bs2, j2, i2, e2⟩ := takes_canon ha h2 t2
  refine ⟨_, takes_append ha t j1 j2 (fun x hx => includable_same s1 (i1 x hx)) (fun x hx => includable_same s2 (i2 x hx)) he
    (closed_of (e1 ▸ ho)), ?_⟩
  rw [includes_same s1] at e1
  rw [includes_same s2] at e2
  unfold meaning
  rw [List.foldl_append, e1, e2]
  exact addBlock_after bs2 _

/-- The same for what the program reads. -/
theorem C133_journal_partial {r r1 r2 : Run} (ha : r.env.AsciiChars) (e1 : r1.env = r.env) (e2 : r2.env = r.env) {file text more : Str}
    {pl1 pl2 : ParsedLedger} (h1 : r1.journal file = .ok pl1) (t1 : r1.fs.read file = some text) (s1 : SameBut file r1.fs r.fs)
    (h2 : r2.journal file = .ok pl2) (t2 : r2.fs.read file = some more) (s2 : SameBut file r2.fs r.fs)
    (t : r.fs.read file = some (text ++ more)) (he : text = [] ∨ EndsLine r.env text) (ho : NothingOpen pl1)
    (hf : r.journal file ≠ .error .fuel) :
    ∃ pl, r.journal file = .ok pl ∧ pl.transactions = pl1.transactions ++ pl2.transactions ∧ pl.prices = pl1.prices ++ pl2.prices ∧
      pl.comments = pl1.comments ++ pl2.comments ∧ pl.tags = pl1.tags ++ pl2.tags := by
  have k1 := C130_accepted (by rw [e1]; exact ha) h1
  have k2 := C130_accepted (by rw [e2]; exact ha) h2
  rw [e1] at k1
  rw [e2] at k2
  obtain ⟨pl, g1, g2⟩ := C133_append_partial ha k1 t1 s1 k2 t2 s2 t he ho
  exact ⟨pl, (C132_journal ha hf pl).mpr g1, g2⟩

/-- What is added comes on top of what there was before, item by item; what was declared before stands. -/
theorem C133_more_partial {env : Env} (ha : env.AsciiChars) {fs fs1 : Files} {file text more : Str} {pl : ParsedLedger} {bs : List Block}
    (h : Takes env fs1 [] file pl) (t1 : fs1.read file = some text) (s1 : SameBut file fs1 fs)
    (hm : TakesJournal env more bs) (hi : ∀ x, .incl x ∉ bs) (t : fs.read file = some (text ++ more))
    (he : text = [] ∨ EndsLine env text) (ho : NothingOpen pl) (inc : Str → ParsedLedger) :
    Takes env fs [] file (bs.foldl (addBlock env inc) pl) ∧
    (∀ key a, pl.lists.accounts.list.get? key = some a → (bs.foldl (addBlock env inc) pl).lists.accounts.list.get? key = some a) ∧
    (∀ key c, pl.lists.commodities.list.get? key = some c → (bs.foldl (addBlock env inc) pl).lists.commodities.list.get? key = some c) ∧
    (∀ key p, pl.lists.payees.list.get? key = some p → (bs.foldl (addBlock env inc) pl).lists.payees.list.get? key = some p) := by
  obtain ⟨bs1, j1, i1, e1⟩ := takes_canon ha h t1
  have h := takes_append ha t j1 hm (fun x hx => includable_same s1 (i1 x hx)) (fun x hx => absurd hx (hi x)) he (closed_of (e1 ▸ ho))
  rw [includes_same s1] at e1
  unfold meaning at h
  rw [List.foldl_append] at h
  have e2 : bs1.foldl (addBlock env (includes env fs [] file)) {} = pl := e1.symm
  rw [e2, meaning_congr (inc' := inc) bs (fun x hx => absurd hx (hi x))] at h
  exact ⟨h, addBlock_keeps bs hi pl⟩

/-- A text that does not leave a parenthesis open, and texts that do or end with a blank. -/
def exStart : String := "account Food\n alias f\n2020-01-05 Bar\n Food  5 EUR\n Cash\n"

/-- What is added. -/
def exAdded : String := "P 2020-01-05 BTC 9000 EUR\n; noted\n2020-01-06 Baz\n Food  1 EUR\n Cash\n"

/-- What is read of a text: descriptions, prices and comments. -/
def exRead (text : String) : Option (List Str × Nat × List Str) :=
  ((exRun text).journal "main".toList).toOption.map (fun pl => (pl.transactions.map (·.description), pl.prices.length, pl.comments))

/-- A posting with a parenthesis that is not closed takes everything that is added; after an account and a single blank, what is added is
taken as the amount, and the journal is rejected or the comment goes to the posting. -/
theorem C133_false :
    exRead "2020-01-05 Bar\n Food  (5\n" = some (["Bar".toList], 0, []) ∧
    exRead "2020-01-06 Baz\n Food  1 EUR\n" = some (["Baz".toList], 0, []) ∧
    exRead "2020-01-05 Bar\n Food  (5\n2020-01-06 Baz\n Food  1 EUR\n" = some (["Bar".toList], 0, []) ∧
    exRead "2020-01-05 Bar\n Food \n" = some (["Bar".toList], 0, []) ∧
    exRead "2020-01-05 Bar\n Food \n2020-01-06 Baz\n Food  1 EUR\n" = none ∧
    exRead "2020-01-05 Bar\n Food \n; noted\n" = some (["Bar".toList], 0, []) := by
  refine ⟨?_, ?_, ?_, ?_, ?_, ?_⟩ <;> decide +kernel

/-- The hypotheses are met by an example. -/
example : EndsLine exEnvJ exStart.toList := by
  refine ⟨by decide, fun x c e hw => ?_⟩
  have h : exStart.toList.reverse = '\n' :: c :: x.reverse := by rw [e]; simp
  have h2 : exStart.toList.reverse[1]? = some 'h' := by decide
  rw [h] at h2
  simp at h2
  subst h2
  exact absurd hw (by decide)

theorem exSameBut (text text' : String) : SameBut "main".toList (exRun text).fs (exRun text').fs where
  read := by
    intro f hf
    have : ("main".toList == f) = false := by simpa using fun e => hf e.symm
    simp only [exRun, exDir, List.find?, this]
  glob := by
    funext p
    simp only [exRun, exDir, List.filter]
    split <;> rfl
  parent := rfl

example : ∃ pl1 pl2, Takes exEnvJ (exRun exStart).fs [] "main".toList pl1 ∧ NothingOpen pl1 ∧
    Takes exEnvJ (exRun exAdded).fs [] "main".toList pl2 := by
  have h1 : ((exRun exStart).journal "main".toList).toOption.map
      (fun pl => pl.transactions.all (fun t => t.postings.all (fun p => p.amountExpr == none))) = some true := by decide +kernel
  have h2 : ((exRun exAdded).journal "main".toList).toBool = true := by decide +kernel
  cases hj : (exRun exStart).journal "main".toList with
  | error e => rw [hj] at h1; cases h1
  | ok pl1 =>
    cases hk : (exRun exAdded).journal "main".toList with
    | error e => rw [hk] at h2; cases h2
    | ok pl2 =>
      refine ⟨pl1, pl2, C130_accepted exEnvJ_ascii hj, ?_, C130_accepted exEnvJ_ascii hk⟩
      rw [hj] at h1
      intro t ht p hp e he
      simp only [Except.toOption, Option.map_some, Option.some.injEq, List.all_eq_true, beq_iff_eq] at h1
      rw [h1 t ht p hp] at he
      cases he

/-- Together they are read as the theorem says. -/
example : exRead (exStart ++ exAdded) = some (["Bar".toList, "Baz".toList], 1, ["noted".toList]) := by decide +kernel

end Dinero
