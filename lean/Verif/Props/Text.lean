import Verif.Lemmas.Text
import Verif.Props.Commands
/-
Property theorems about the commands, from the text of the journal on (C90).
-/
namespace Dinero

/-! ### C90: files with transactions -/

/-- `check` on a file in one commodity, with plain transactions: it is in order exactly when every written
transaction sums to zero or leaves out exactly one amount.  Any directives may be there too. -/
theorem C90_check {r : Run} (ha : r.env.AsciiChars) (hs : r.env.AsciiSep) {path cur : Str} {ls : List Str}
    {bs : List Block} (h : HoldsJournal r path ls bs)
    (hone : ∀ t, .txn t ∈ bs → t.ttype = .real ∧ ∀ p ∈ t.postings, p.kind = .real ∧ p.costCurrency = none ∧
      p.balanceCurrency = none ∧ (p.moneyCurrency = none ∨ p.moneyCurrency = some cur)) :
    checkCommand r path = .ok .ok ↔ ∀ t, .txn t ∈ bs → SumsUp t := by
  obtain ⟨hreg, hauto⟩ := h.regular (fun t ht => (hone t ht).1)
  rw [C84_one_commodity (cur := cur) (h.journal ha hs) hauto ?_]
  · rw [hreg]
    exact ⟨fun g t ht => g t (mem_txns.mpr ht), fun g t ht => g t (mem_txns.mp ht)⟩
  · intro t ht
    rw [hreg] at ht
    exact (hone t (mem_txns.mp ht)).2

/-- The total of the balance report of such a file is nothing; asserted totals may stand for amounts. -/
theorem C90_total {r : Run} (ha : r.env.AsciiChars) (hs : r.env.AsciiSep) {o : BalOrders} {today : Date}
    {skip flat showTotal : Bool} {path cur : Str} {ls : List Str} {bs : List Block} {rep : BalReport} {ms : List Money}
    (h : HoldsJournal r path ls bs)
    (hone : ∀ t, .txn t ∈ bs → t.ttype = .real ∧ ∀ p ∈ t.postings, p.kind = .real ∧ p.costCurrency = none ∧
      (p.balanceCurrency = none ∨ p.balanceCurrency = some cur) ∧
      (p.moneyCurrency = none ∨ p.moneyCurrency = some cur))
    (hr : balanceCommand r o today {} skip flat showTotal path = .ok rep) (hm : rep.total = some ms) : ms = [] := by
  obtain ⟨hreg, hauto⟩ := h.regular (fun t ht => (hone t ht).1)
  refine C87_total (cur := cur) (h.journal ha hs) hauto ?_ hr hm
  intro t ht
  rw [hreg] at ht
  exact (hone t (mem_txns.mp ht)).2

/-- A file whose transactions are written out: the register shows exactly what is written, by date, of each
transaction the real postings first; next to each line the sum so far. -/
theorem C90_register {r : Run} (ha : r.env.AsciiChars) (hs : r.env.AsciiSep) {s : Nat → Shuf} {skip : Bool} {path : Str}
    {ls : List Str} {bs : List Block} {lines : List RegLine} (h : HoldsJournal r path ls bs) (hw : WrittenOut r.env bs)
    (hr : registerCommand r s {} skip path = .ok lines) :
    ∃ listed, DateOrder (bs.filterMap Block.txn?) listed ∧
      lines.map (fun l => (l.account, l.kind, some l.amount)) =
        (listed.flatMap (fun t => t.postings.filter (fun p => p.kind = .real) ++
          t.postings.filter (fun p => p.kind ≠ .real))).map RawPosting.entry ∧
      ∀ pre line post, lines = pre ++ line :: post →
        ((∀ c, sumIn ((pre ++ [line]).map RegLine.amount) c = 0) → line.running = [.zero]) ∧
        ((∃ c, sumIn ((pre ++ [line]).map RegLine.amount) c ≠ 0) →
          Shows line.running (sumIn ((pre ++ [line]).map RegLine.amount))) := by
  have hj := h.journal ha hs
  obtain ⟨hreg, hauto⟩ := h.regular hw.real
  obtain ⟨ts, es, h1, h2, h3, h4⟩ := C85_register hj hauto hr
  have hok := (C83_wellformed hj).1
  obtain ⟨listed, hd, he⟩ := hw.entries h hok h1
  refine ⟨listed, hd, ?_, h4⟩
  rw [h3, entersAll_full h2 (standsFor_full hok h1 ?_), he]
  intro t ht p hp _
  rw [hreg] at ht
  exact hw.amounts t (mem_txns.mp ht) p hp

/-- The flat balance of such a file shows for every account the sum of what is written for it, and leaves out the
accounts where that is nothing; its total is the sum of everything written. -/
theorem C90_balance {r : Run} (ha : r.env.AsciiChars) (hs : r.env.AsciiSep) {o : BalOrders} {today : Date}
    {skip showTotal : Bool} {path : Str} {ls : List Str} {bs : List Block} {rep : BalReport}
    (h : HoldsJournal r path ls bs) (hw : WrittenOut r.env bs)
    (hr : balanceCommand r o today {} skip true showTotal path = .ok rep) :
    (rep.lines.map BalLine.label).Pairwise (· < ·) ∧
      (∀ line ∈ rep.lines, line.indent = 0 ∧
        Shows line.amounts (sumIn (writtenFor bs (fun a => decide (a = line.label))))) ∧
      (∀ a, (∃ line ∈ rep.lines, line.label = a) ↔ ∃ c, sumIn (writtenFor bs (fun x => decide (x = a))) c ≠ 0) ∧
      ∀ ms, rep.total = some ms → Shows ms (sumIn (writtenFor bs (fun _ => true))) := by
  have hj := h.journal ha hs
  obtain ⟨hreg, hauto⟩ := h.regular hw.real
  obtain ⟨ts, es, h1, h2, h3, h4, h5, h6⟩ := C86_balance hj hauto hr
  have hok := (C83_wellformed hj).1
  obtain ⟨listed, hd, he⟩ := hw.entries h hok h1
  rw [← entersAll_full h2 (standsFor_full hok h1 (by
    intro t ht p hp _
    rw [hreg] at ht
    exact hw.amounts t (mem_txns.mp ht) p hp))] at he
  have hsum := fun wanted => funext (fun c => entries_sum hd he wanted c)
  refine ⟨h3, fun line hline => ?_, fun a => ?_, fun ms hm => ?_⟩
  · rw [← hsum]; exact h4 line hline
  · rw [h5, ← hsum]
  · rw [← hsum, List.filter_true]; exact h6 ms hm

/-! ### Examples -/

theorem exCashOut : WritesTxnLine exEnvJ (some "Shop".toList) "  Assets:Cash  -12.50 EUR".toList
    (.posting { account := "Assets:Cash".toList, moneyAmount := some (-unsignedVal "12.50".toList),
                moneyCurrency := some "EUR".toList, payee := some "Shop".toList }) := by
  refine .posting (i := "  ".toList) (s := "Assets:Cash  -12.50 EUR".toList) (by decide) (by unfold Blanks; decide) ?_
  refine .amounts (s := "Assets:Cash".toList) (a := "Assets:Cash".toList) (sep := "  ".toList) (f := "-12.50 EUR".toList)
    (c := []) (k := .real) (fs := [(.amount, -unsignedVal "12.50".toList, "EUR".toList)])
    (cs := []) ?_ ?_ ?_ (by simp [FieldOrder]) .none
  · exact .real (accountName_plain (by decide) (by decide)) (by intro c hc; cases hc; decide)
  · exact ⟨by unfold Blanks; decide, .inr ⟨' ', ' ', [], rfl⟩⟩
  · refine .cons (b := []) (m := "-12.50 EUR".toList) (b' := []) (s := []) .amount (noBlanks _) ?_
      (by unfold Blanks; decide) (fun _ => rfl) (fun _ => rfl) .nil
    refine .after (n := "-12.50".toList) (b := " ".toList) (cs := "EUR".toList) ?_ (by unfold Blanks; decide) ?_
    · exact .neg ⟨"12".toList, "50".toList, by decide, by decide, .inl rfl⟩
    · exact .plain (by decide) (by decide) (by intro x hx; cases hx; decide)

/-- A file with one transaction that is written out. -/
def exOut : List Block :=
  [.comment "mine".toList,
   .txn { exHead with postings := [exFood, { account := "Assets:Cash".toList,
                                             moneyAmount := some (-unsignedVal "12.50".toList),
                                             moneyCurrency := some "EUR".toList, payee := some "Shop".toList }] }]

/-- Its lines. -/
def exOutLines : List Str :=
  ["; mine".toList, [], "2021-01-15 * Shop".toList, "  Expenses:Food  12.50 EUR ; lunch".toList,
   "  Assets:Cash  -12.50 EUR".toList, []]

/-- A run on these lines. -/
def exOn (ls : List Str) : Run :=
  { env := exEnvJ, fs := exDir [("main".toList, joinLines ls)], orders := exHash, fuel := 300, depth := 2 }

theorem exOut_holds : HoldsJournal (exOn exOutLines) "main".toList exOutLines exOut where
  read := rfl
  writes := by
    refine .cons (body := []) (.comment (m := ';') (b := " ".toList) (c := "mine".toList) (by decide)
      (by unfold Blanks; decide) (by decide) (by intro x hx; cases hx; decide)) (.blank (noBlanks _) ?_)
    exact .cons (body := ["  Expenses:Food  12.50 EUR ; lunch".toList, "  Assets:Cash  -12.50 EUR".toList])
      (.txn exHeader (by intro c hc; cases hc; decide) (.cons exFoodLine (.cons exCashOut .nil)))
      (.blank (noBlanks _) .nil)
  noIncludes := by intro x hx; simp [exOut] at hx
  lastLine := by
    intro t ht
    simp [exOut] at ht
    subst ht
    intro l hl
    simp [exOutLines] at hl
    subst hl
    intro i s a k e hi
    cases i with
    | nil => exact absurd rfl hi
    | cons _ _ => cases e
  fuel := by decide
  depth := by decide

theorem exOut_written : WrittenOut exEnvJ exOut where
  only := by
    intro b hb
    simp [exOut] at hb
    rcases hb with rfl | rfl
    · exact .inl ⟨_, rfl⟩
    · exact .inr ⟨_, rfl⟩
  real := by intro t ht; simp [exOut] at ht; subst ht; rfl
  amounts := by intro t ht; simp [exOut] at ht; subst ht; decide
  accounts := by intro t ht; simp [exOut] at ht; subst ht; unfold EndsUnknown; decide
  oneAccount := fun _ _ _ _ e => e
  oneCommodity := fun _ _ _ _ e => e

/-- The hypotheses of the first two are met with an amount left out and a directive. -/
example : HoldsJournal (exOn exLines) "main".toList exLines exBlocks where
  read := rfl
  writes := exBook
  noIncludes := by intro x hx; simp [exBlocks] at hx
  lastLine := by intro t ht; simp [exBlocks] at ht
  fuel := by decide
  depth := by decide

example : checkCommand (exOn exLines) "main".toList = .ok .ok ∧
    (∀ t, .txn t ∈ exBlocks → t.ttype = .real ∧ ∀ p ∈ t.postings, p.kind = .real ∧ p.costCurrency = none ∧
      p.balanceCurrency = none ∧ (p.moneyCurrency = none ∨ p.moneyCurrency = some "EUR".toList)) := by
  refine ⟨by decide +kernel, ?_⟩
  intro t ht
  simp [exBlocks] at ht
  subst ht
  exact ⟨rfl, by decide⟩

/-- The reports of the file that is written out. -/
example : (registerCommand (exOn exOutLines) (fun _ => .id) {} false "main".toList).toOption.map
    (fun ls => ls.map (fun l : RegLine => (l.account, l.amount, l.running))) = some
      [("Expenses:Food".toList, .mk (25/2) "EUR".toList, [.mk (25/2) "EUR".toList]),
       ("Assets:Cash".toList, .mk (-25/2) "EUR".toList, [.zero])] ∧
    (balanceCommand (exOn exOutLines) exOrders 0 {} false true true "main".toList).toOption.map
      (fun rep : BalReport => (rep.lines.map (fun l => (l.label, l.amounts)), rep.total)) = some
        ([("Assets:Cash".toList, [.mk (-25/2) "EUR".toList]), ("Expenses:Food".toList, [.mk (25/2) "EUR".toList])],
         some []) := by
  decide +kernel

end Dinero
