import Verif.Lemmas.Sum
import Verif.Props.Course
import Verif.Props.Appended
/-
Property theorems about a journal made of two journals (C144).
-/
namespace Dinero

/-! ### C144: balances add up -/

/-- What becomes of the three journals. -/
theorem sum_conv {env : Env} {o o₁ o₂ : LedgerOrders} {pl pl₁ pl₂ : ParsedLedger} (g : Combines pl₁ pl₂ pl) (hf : OrderFree env pl)
    (h : pl.Ok env.lower) (h₁ : pl₁.Ok env.lower) (h₂ : pl₂.Ok env.lower) (hz : pl.NoFreeTotals) {skip : Bool} (hT : pl.Timeless skip) :
    ((∃ L, toLedger env o skip pl = .ok L) ↔ (∃ L, toLedger env o₁ skip pl₁ = .ok L) ∧ ∃ L, toLedger env o₂ skip pl₂ = .ok L) ∧
    ∀ L L₁ L₂, toLedger env o skip pl = .ok L → toLedger env o₁ skip pl₁ = .ok L₁ → toLedger env o₂ skip pl₂ = .ok L₂ →
      ∃ es es₁ es₂, (∀ P c, postedWhere P es c = postedWhere P es₁ c + postedWhere P es₂ c) ∧
        (L.entries.map Prod.snd).map Posting.entry = es.map Posting.entry ∧
        (L₁.entries.map Prod.snd).map Posting.entry = es₁.map Posting.entry ∧
        (L₂.entries.map Prod.snd).map Posting.entry = es₂.map Posting.entry := by
  obtain ⟨l, p, c, a, m⟩ := toLedger_conv (o := o) h hz hf.noRules
  obtain ⟨l₁, p₁, c₁, a₁, m₁⟩ := toLedger_conv (o := o₁) h₁ (g.totals.mp hz).1 (g.automated hf.noRules)
  obtain ⟨l₂, p₂, c₂, a₂, m₂⟩ := toLedger_conv (o := o₂) h₂ (g.totals.mp hz).2 (g.symm.automated hf.noRules)
  have hts : ∀ t ∈ (sortBy dateLe pl.regular).map (fun t => (convOf env o.unknown l t).1), TimelessPostings skip t.postings := by
    intro t ht
    obtain ⟨u, hu, rfl⟩ := List.mem_map.mp ht
    have hu := (mem_sortBy _ _ _).mp hu
    exact convOf_timeless (hT.imp id (fun hT => hT u hu)) (c u hu)
  have e₁ : pl₁.regular.map (fun t => (convOf env o₁.unknown l₁ t).1) = pl₁.regular.map (fun t => (convOf env o.unknown l t).1) :=
    List.map_congr_left (fun t ht => by rw [g.conv h₁ hf p p₁ ht])
  have e₂ : pl₂.regular.map (fun t => (convOf env o₂.unknown l₂ t).1) = pl₂.regular.map (fun t => (convOf env o.unknown l t).1) :=
    List.map_congr_left (fun t ht => by rw [g.symm.conv h₂ hf p p₂ ht])
  have key : ((sortBy dateLe pl.regular).map (fun t => (convOf env o.unknown l t).1)).Perm
      ((sortBy dateLe pl₁.regular).map (fun t => (convOf env o₁.unknown l₁ t).1) ++
        (sortBy dateLe pl₂.regular).map (fun t => (convOf env o₂.unknown l₂ t).1)) := by
    refine ((sortBy_perm _ _).map _).trans ?_
    refine List.Perm.trans ?_ (((sortBy_perm _ _).map _).append ((sortBy_perm _ _).map _)).symm
    rw [e₁, e₂, ← List.map_append]
    exact g.regular.map _
  generalize (sortBy dateLe pl.regular).map (fun t => (convOf env o.unknown l t).1) = ts at *
  generalize (sortBy dateLe pl₁.regular).map (fun t => (convOf env o₁.unknown l₁ t).1) = ts₁ at *
  generalize (sortBy dateLe pl₂.regular).map (fun t => (convOf env o₂.unknown l₂ t).1) = ts₂ at *
  have hts₁ : ∀ t ∈ ts₁, TimelessPostings skip t.postings := fun t ht => hts t (key.mem_iff.mpr (by simp [ht]))
  have hts₂ : ∀ t ∈ ts₂, TimelessPostings skip t.postings := fun t ht => hts t (key.mem_iff.mpr (by simp [ht]))
  obtain ⟨k1, k2⟩ := toLedger_books a (m skip)
  obtain ⟨k3, k4⟩ := toLedger_books a₁ (m₁ skip)
  obtain ⟨k5, k6⟩ := toLedger_books a₂ (m₂ skip)
  refine ⟨?_, fun L L₁ L₂ g1 g2 g3 => ?_⟩
  · have bt : ∀ us : List (Txn Posting), (∀ t ∈ us, TimelessPostings skip t.postings) →
        ∀ t ∈ us.map Txn.bought, TimelessPostings skip t.postings := by
      intro us hus t ht
      obtain ⟨u, hu, rfl⟩ := List.mem_map.mp ht
      exact timeless_bought (hus u hu)
    rw [k1, k3, k5, booksAll_timeless _ _ (bt ts hts), booksAll_timeless _ _ (bt ts₁ hts₁), booksAll_timeless _ _ (bt ts₂ hts₂)]
    have hm : ∀ ps, ps ∈ (ts.map Txn.bought).map Txn.postings ↔
        ps ∈ (ts₁.map Txn.bought).map Txn.postings ∨ ps ∈ (ts₂.map Txn.bought).map Txn.postings := by
      intro ps
      rw [((key.map Txn.bought).map Txn.postings).mem_iff, List.map_append, List.map_append, List.mem_append]
    constructor
    · exact fun h => ⟨fun ps hps => h ps ((hm ps).mpr (.inl hps)), fun ps hps => h ps ((hm ps).mpr (.inr hps))⟩
    · exact fun h ps hps => ((hm ps).mp hps).elim (h.1 ps) (h.2 ps)
  · obtain ⟨es, q1, q2⟩ := k2 L g1
    obtain ⟨es₁, q3, q4⟩ := k4 L₁ g2
    obtain ⟨es₂, q5, q6⟩ := k6 L₂ g3
    refine ⟨es, es₁, es₂, fun P c => ?_, q2, q4, q6⟩
    rw [entersAll_timeless hts q1, entersAll_timeless hts₁ q3, entersAll_timeless hts₂ q5, ← List.sum_append, ← List.map_append,
      ← List.map_append]
    exact ((key.map _).map _).sum_eq

theorem ledger_iff {r : Run} {skip : Bool} {path : Str} {pl : ParsedLedger} (h : r.journal path = .ok pl) (L : Ledger) :
    r.ledger skip path = .ok L ↔ toLedger r.env r.orders skip pl = .ok L := by
  unfold Run.ledger
  rw [h]
  simp only
  cases toLedger r.env r.orders skip pl <;> simp [PRes.lift]

/-- Without totals in force, a journal made of two others is accepted exactly if both are. -/
theorem C144_outcome {r r₁ r₂ : Run} {path path₁ path₂ : Str} {pl pl₁ pl₂ : ParsedLedger} (he₁ : r₁.env = r.env) (he₂ : r₂.env = r.env)
    (h : r.journal path = .ok pl) (h₁ : r₁.journal path₁ = .ok pl₁) (h₂ : r₂.journal path₂ = .ok pl₂) (g : Combines pl₁ pl₂ pl)
    (hf : OrderFree r.env pl) {skip : Bool} (hT : pl.Timeless skip) :
    (∃ L, r.ledger skip path = .ok L) ↔ (∃ L, r₁.ledger skip path₁ = .ok L) ∧ ∃ L, r₂.ledger skip path₂ = .ok L := by
  by_cases hz : pl.NoFreeTotals
  · simp only [ledger_iff h, ledger_iff h₁, ledger_iff h₂, he₁, he₂]
    exact (sum_conv g hf (C83_wellformed h).1 (by have := (C83_wellformed h₁).1; rwa [he₁] at this)
      (by have := (C83_wellformed h₂).1; rwa [he₂] at this) hz hT).1
  · have hn : ¬ pl₁.NoFreeTotals ∨ ¬ pl₂.NoFreeTotals := by
      rw [g.totals] at hz
      exact not_and_or.mp hz
    rw [C120_free_total h hz skip]
    rcases hn with hn | hn
    · rw [C120_free_total h₁ hn skip]; simp
    · rw [C120_free_total h₂ hn skip]; simp

/-- Then its flat balance is the sum of the other two. -/
theorem C144_balance {r r₁ r₂ : Run} {path path₁ path₂ : Str} {pl pl₁ pl₂ : ParsedLedger} {o o₁ o₂ : BalOrders}
    {today today₁ today₂ : Date} {skip t t₁ t₂ : Bool} {d : Option Nat} {rep rep₁ rep₂ : BalReport} (he₁ : r₁.env = r.env)
    (he₂ : r₂.env = r.env) (h : r.journal path = .ok pl) (h₁ : r₁.journal path₁ = .ok pl₁) (h₂ : r₂.journal path₂ = .ok pl₂)
    (g : Combines pl₁ pl₂ pl) (hf : OrderFree r.env pl) (hT : pl.Timeless skip)
    (hr : balanceCommand r o today { depth := d } skip true t path = .ok rep)
    (hr₁ : balanceCommand r₁ o₁ today₁ { depth := d } skip true t₁ path₁ = .ok rep₁)
    (hr₂ : balanceCommand r₂ o₂ today₂ { depth := d } skip true t₂ path₂ = .ok rep₂) (a : Str) (c : Cur) :
    rep.says a c = rep₁.says a c + rep₂.says a c := by
  obtain ⟨L, hl, q⟩ := balanceCommand_report hr
  obtain ⟨L₁, hl₁, q₁⟩ := balanceCommand_report hr₁
  obtain ⟨L₂, hl₂, q₂⟩ := balanceCommand_report hr₂
  obtain ⟨sel, hs, hsays⟩ := flat_says (opts := { depth := d }) rfl q
  obtain ⟨sel₁, hs₁, hsays₁⟩ := flat_says (opts := { depth := d }) rfl q₁
  obtain ⟨sel₂, hs₂, hsays₂⟩ := flat_says (opts := { depth := d }) rfl q₂
  obtain rfl := selected_all hs
  obtain rfl := selected_all hs₁
  obtain rfl := selected_all hs₂
  have hz : pl.NoFreeTotals := by
    by_contra hz
    rw [C120_free_total h hz skip] at hl
    cases hl
  rw [ledger_iff h] at hl
  rw [ledger_iff h₁, he₁] at hl₁
  rw [ledger_iff h₂, he₂] at hl₂
  obtain ⟨es, es₁, es₂, g1, g2, g3, g4⟩ := (sum_conv g hf (C83_wellformed h).1 (by have := (C83_wellformed h₁).1; rwa [he₁] at this)
    (by have := (C83_wellformed h₂).1; rwa [he₂] at this) hz hT).2 L L₁ L₂ hl hl₁ hl₂
  rw [hsays, hsays₁, hsays₂, selSum_entries g2, selSum_entries g3, selSum_entries g4]
  exact g1 (fun x _ => match (generalizing := false) d with | none => x = a | some d => CutTo d x a) c

/-! #### Texts -/

/-- The lists depend on the lists before. -/
theorem addBlock_lists {env : Env} {inc : Str → ParsedLedger} (bs : List Block) : ∀ (pl pl' : ParsedLedger), pl.lists = pl'.lists →
    (bs.foldl (addBlock env inc) pl).lists = (bs.foldl (addBlock env inc) pl').lists := by
  induction bs with
  | nil => intro pl pl' h; exact h
  | cons b bs ih =>
    intro pl pl' h
    rw [List.foldl_cons, List.foldl_cons]
    refine ih _ _ ?_
    cases b <;> simp [addBlock, ParsedLedger.append, h]

/-- A text without declarations, with another one after it, is a journal made of the two. -/
theorem madeOf_appended {r r₁ r₂ : Run} (ha : r.env.AsciiChars) (e₁ : r₁.env = r.env) (e₂ : r₂.env = r.env) {file text more : Str}
    {pl pl₁ pl₂ : ParsedLedger} (h₁ : r₁.journal file = .ok pl₁) (t₁ : r₁.fs.read file = some text) (s₁ : SameBut file r₁.fs r.fs)
    (h₂ : r₂.journal file = .ok pl₂) (t₂ : r₂.fs.read file = some more) (s₂ : SameBut file r₂.fs r.fs)
    (t : r.fs.read file = some (text ++ more)) (he : text = [] ∨ EndsLine r.env text) (ho : NothingOpen pl₁) (hl₁ : pl₁.lists = {})
    (hl₂ : pl₂.lists = {}) (h : r.journal file = .ok pl) : Combines pl₁ pl₂ pl := by
  have k₁ := C130_accepted (by rw [e₁]; exact ha) h₁
  have k₂ := C130_accepted (by rw [e₂]; exact ha) h₂
  rw [e₁] at k₁
  rw [e₂] at k₂
  obtain ⟨bs₁, j₁, i₁, m₁⟩ := takes_canon ha k₁ t₁
  obtain ⟨bs₂, j₂, i₂, m₂⟩ := takes_canon ha k₂ t₂
  have g := takes_append ha t j₁ j₂ (fun x hx => includable_same s₁ (i₁ x hx)) (fun x hx => includable_same s₂ (i₂ x hx)) he
    (closed_of (m₁ ▸ ho))
  have g' := (C132_journal ha (by rw [h]; simp) _).mpr g
  rw [h] at g'
  cases g'
  rw [includes_same s₁] at m₁
  rw [includes_same s₂] at m₂
  unfold meaning
  rw [List.foldl_append]
  have m₁ : bs₁.foldl (addBlock r.env (includes r.env r.fs [] file)) {} = pl₁ := m₁.symm
  rw [m₁]
  obtain ⟨q1, q2, _⟩ := addBlock_after (env := r.env) (inc := includes r.env r.fs [] file) bs₂ pl₁
  have q3 : (bs₂.foldl (addBlock r.env (includes r.env r.fs [] file)) pl₁).lists = {} := by
    rw [addBlock_lists bs₂ pl₁ {} hl₁, show bs₂.foldl (addBlock r.env (includes r.env r.fs [] file)) {} = pl₂ from m₂.symm, hl₂]
  refine ⟨by rw [q3, hl₁], by rw [q3, hl₂], ?_, ?_⟩
  · rw [q1, m₂]
  · rw [q2, m₂]

/-- The flat balance of two texts without declarations, one after the other in a file, is the sum of the balances of the two. -/
theorem C144_text {r r₁ r₂ : Run} (ha : r.env.AsciiChars) (e₁ : r₁.env = r.env) (e₂ : r₂.env = r.env) {file text more : Str}
    {pl pl₁ pl₂ : ParsedLedger} (h₁ : r₁.journal file = .ok pl₁) (t₁ : r₁.fs.read file = some text) (s₁ : SameBut file r₁.fs r.fs)
    (h₂ : r₂.journal file = .ok pl₂) (t₂ : r₂.fs.read file = some more) (s₂ : SameBut file r₂.fs r.fs)
    (t : r.fs.read file = some (text ++ more)) (he : text = [] ∨ EndsLine r.env text) (ho : NothingOpen pl₁) (hl₁ : pl₁.lists = {})
    (hl₂ : pl₂.lists = {}) (h : r.journal file = .ok pl) (hf : OrderFree r.env pl) {skip : Bool} (hT : pl.Timeless skip)
    {o o₁ o₂ : BalOrders} {today : Date} {t' : Bool} {d : Option Nat} {rep : BalReport}
    (hr : balanceCommand r o today { depth := d } skip true t' file = .ok rep) :
    (∃ L, r₁.ledger skip file = .ok L) ∧ (∃ L, r₂.ledger skip file = .ok L) ∧
    ∀ rep₁ rep₂, balanceCommand r₁ o₁ today { depth := d } skip true t' file = .ok rep₁ →
      balanceCommand r₂ o₂ today { depth := d } skip true t' file = .ok rep₂ → ∀ a c, rep.says a c = rep₁.says a c + rep₂.says a c := by
  have g := madeOf_appended ha e₁ e₂ h₁ t₁ s₁ h₂ t₂ s₂ t he ho hl₁ hl₂ h
  obtain ⟨L, hl, _⟩ := balanceCommand_report hr
  obtain ⟨k₁, k₂⟩ := (C144_outcome e₁ e₂ h h₁ h₂ g hf hT).mp ⟨L, hl⟩
  exact ⟨k₁, k₂, fun rep₁ rep₂ hr₁ hr₂ a c => C144_balance e₁ e₂ h h₁ h₂ g hf hT hr hr₁ hr₂ a c⟩

/-! #### A case, and why there are no totals -/

/-- The beginning of `exStroll`. -/
def exMorning : String := "2020-01-01 a\n Food  10.5 EUR\n Cash\n"

/-- The rest of it. -/
def exEvening : String := "2020-01-02 b\n Stock  2 ACME @ 25 EUR\n Cash  -50 EUR\n2020-01-03 c\n Fuel  4 OIL @@ 6 EUR\n Cash\n"

theorem exMorning_read : (exHistRun exMorning).journal "main".toList = .ok (exHistory exMorning) := exHistory_read (by decide +kernel)

theorem exEvening_read : (exHistRun exEvening).journal "main".toList = .ok (exHistory exEvening) := exHistory_read (by decide +kernel)

/-- Checking that a journal is made of two. -/
theorem madeOf_of {pl₁ pl₂ pl : ParsedLedger} (h : pl₁.lists = pl.lists ∧ pl₂.lists = pl.lists ∧
    pl.transactions = pl₁.transactions ++ pl₂.transactions ∧ pl.prices = pl₁.prices ++ pl₂.prices) : Combines pl₁ pl₂ pl :=
  ⟨h.1, h.2.1, .of_eq h.2.2.1, .of_eq h.2.2.2⟩

theorem exStroll_made : Combines (exHistory exMorning) (exHistory exEvening) (exHistory exStroll) := madeOf_of (by decide +kernel)

example : exSays exMorning exPlaces = some [21 / 2, -21 / 2, 0] := by decide +kernel

example : exSays exEvening exPlaces = some [0, -56, 2] := by decide +kernel

/-- A total that holds by itself. -/
def exSelfish : String := "2020-01-01 a\n Food  1 EUR = 1 EUR\n Cash\n"

/-- But not twice. -/
def exTwiceSelfish : String := "2020-01-01 a\n Food  1 EUR = 1 EUR\n Cash\n2020-01-01 a\n Food  1 EUR = 1 EUR\n Cash\n"

theorem exSelfish_read : (exHistRun exSelfish).journal "main".toList = .ok (exHistory exSelfish) := exHistory_read (by decide +kernel)

theorem exTwiceSelfish_read : (exHistRun exTwiceSelfish).journal "main".toList = .ok (exHistory exTwiceSelfish) :=
  exHistory_read (by decide +kernel)

theorem exSelfish_made : Combines (exHistory exSelfish) (exHistory exSelfish) (exHistory exTwiceSelfish) := madeOf_of (by decide +kernel)

theorem exSelfish_free : OrderFree (exHistRun exTwiceSelfish).env (exHistory exTwiceSelfish) := orderFree_of (by decide +kernel)

theorem exSelfish_accepted : ((exHistRun exSelfish).ledger false "main".toList).toOption.isSome = true := by decide +kernel

theorem exTwiceSelfish_rejected : ((exHistRun exTwiceSelfish).ledger false "main".toList).toOption.isSome = false := by decide +kernel

/-- With a total, two accepted journals can make one that is rejected. -/
theorem C144_false : ∃ (text text' : String) (pl pl' : ParsedLedger),
    (exHistRun text).journal "main".toList = .ok pl ∧ (exHistRun text').journal "main".toList = .ok pl' ∧ Combines pl pl pl' ∧
    OrderFree (exHistRun text').env pl' ∧ ((exHistRun text).ledger false "main".toList).toOption.isSome = true ∧
    ((exHistRun text').ledger false "main".toList).toOption.isSome = false :=
  ⟨exSelfish, exTwiceSelfish, exHistory exSelfish, exHistory exTwiceSelfish, exSelfish_read, exTwiceSelfish_read, exSelfish_made,
    exSelfish_free, exSelfish_accepted, exTwiceSelfish_rejected⟩

/-- The hypotheses about the texts are met. -/
example : (exHistRun exStroll).env.AsciiChars := ⟨exEnvJ_ascii.ws, exEnvJ_ascii.numeric, exEnvJ_ascii.disjoint⟩

example : SameBut "main".toList (exHistRun exMorning).fs (exHistRun exStroll).fs := exSameBut _ _

example : exStroll.toList = exMorning.toList ++ exEvening.toList := by decide +kernel

example : EndsLine (exHistRun exStroll).env exMorning.toList := by
  refine ⟨by decide, fun x c e hw => ?_⟩
  have h : exMorning.toList.reverse = '\n' :: c :: x.reverse := by rw [e]; simp
  have h2 : exMorning.toList.reverse[1]? = some 'h' := by decide
  rw [h] at h2
  simp at h2
  subst h2
  exact absurd hw (by decide)

example : NothingOpen (exHistory exMorning) := by
  have h : ∀ t ∈ (exHistory exMorning).transactions, ∀ p ∈ t.postings, p.amountExpr = none := by decide +kernel
  intro t ht p hp e he
  rw [h t ht p hp] at he
  cases he

example : (exHistory exMorning).lists = {} ∧ (exHistory exEvening).lists = {} := by decide +kernel

end Dinero
