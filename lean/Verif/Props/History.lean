import Verif.Lemmas.History
import Verif.Props.Periods
import Verif.Props.Text
/-
Property theorems about journals that go on (C126).
-/
namespace Dinero

/-! ### Lemmas -/

theorem SamePostings.date {t t' : Txn Posting} (h : SamePostings t t') : t'.date = t.date := by
  rw [h.1]

theorem ledger_toLedger {r : Run} {skip : Bool} {path : Str} {pl : ParsedLedger} {L : Ledger}
    (h : r.journal path = .ok pl) : r.ledger skip path = .ok L ↔ toLedger r.env r.orders skip pl = .ok L := by
  unfold Run.ledger
  rw [h]
  simp only
  cases toLedger r.env r.orders skip pl with
  | error e => exact ⟨fun h => (by cases h), fun h => (by cases h)⟩
  | ok x => exact ⟨fun h => (by cases h; rfl), fun h => (by cases h; rfl)⟩

/-- The dates of the ledger are those of the regular transactions. -/
theorem ledger_dates {env : Env} {o : LedgerOrders} {skip : Bool} {pl : ParsedLedger} {L : Ledger}
    (h : toLedger env o skip pl = .ok L) : (L.transactions.map Txn.date).Perm (pl.regular.map Txn.date) := by
  obtain ⟨listed, h1, h2, h3⟩ := C22_transactions h
  have hdate : L.transactions.map Txn.date = listed.map Txn.date := by
    have := congrArg (List.map (fun h : Option Date × Option Date × Str × List Str => h.1)) h3
    rw [List.map_map, List.map_map] at this
    exact this
  rw [hdate]
  exact h1.perm.map _

/-- Whatever has not come with the beginning has come with what was added. -/
theorem added_dates {env : Env} {o o' : LedgerOrders} {skip : Bool} {pl pl' : ParsedLedger} {more : List (Txn RawPosting)}
    {L L' : Ledger} (g : GoesOn pl pl' more) (h : toLedger env o skip pl = .ok L) (h' : toLedger env o' skip pl' = .ok L')
    {first rest : List (Txn Posting)} (he : L'.transactions = first ++ rest) (hs : List.Forall₂ SamePostings L.transactions first) :
    ∀ t ∈ rest, ∃ u ∈ more, t.date = u.date := by
  have p := ledger_dates h
  have p' := ledger_dates h'
  have e1 : first.map Txn.date = L.transactions.map Txn.date := by
    clear he h p
    generalize L.transactions = ts at hs
    induction hs with
    | nil => rfl
    | cons hd _ ih => rw [List.map_cons, List.map_cons, hd.date, ih]
  rw [he, List.map_append, e1] at p'
  unfold ParsedLedger.regular at p p'
  rw [g.transactions, List.filter_append, List.map_append] at p'
  have := (List.perm_append_left_iff _).mp ((p.symm.append_right _).trans p')
  intro t ht
  have hm : t.date ∈ (more.filter (fun t => t.ttype = .real)).map Txn.date :=
    this.mem_iff.mp (List.mem_map_of_mem ht)
  obtain ⟨u, hu, e⟩ := List.mem_map.mp hm
  exact ⟨u, (List.mem_filter.mp hu).1, e.symm⟩

theorem inPeriod_same {want : Posting → Bool} {b e : Option Date} {ts ts' : List (Txn Posting)}
    (h : List.Forall₂ SamePostings ts ts') :
    ((inPeriod (fun _ p => want p) b e ts).map Prod.snd).Perm ((inPeriod (fun _ p => want p) b e ts').map Prod.snd) := by
  induction h with
  | nil => exact .nil
  | @cons t t' ts ts' ht _ ih =>
    rw [inPeriod_cons, inPeriod_cons _ _ _ t', List.map_append, List.map_append]
    refine List.Perm.append ?_ ih
    simp only [inPeriod, List.flatMap_cons, List.flatMap_nil, List.append_nil, List.map_map, ht.date]
    exact ((ht.2.symm).filter _).map _

theorem inPeriod_rest (want : Txn Posting → Posting → Bool) {b : Option Date} {d : Date} {first rest : List (Txn Posting)}
    (h : ∀ t ∈ rest, ∀ e, t.date = some e → d ≤ e) :
    inPeriod want b (some d) (first ++ rest) = inPeriod want b (some d) first := by
  have : inPeriod want b (some d) rest = [] := by
    unfold inPeriod
    rw [List.flatMap_eq_nil_iff]
    intro t ht
    cases hd : t.date with
    | none => simp
    | some e =>
      have : (some e).any (fun x => x < d) = false := decide_eq_false (not_lt.mpr (h t ht e hd))
      simp only [Option.all_some, this, Bool.and_false, Bool.false_and]
      simp
  unfold inPeriod at this ⊢
  rw [List.flatMap_append, this, List.append_nil]

theorem selSum_snd {x y : List (Txn Posting × Posting)} (h : (x.map Prod.snd).Perm (y.map Prod.snd)) (P : Str → Bool)
    (c : Cur) : selSum x P c = selSum y P c := by
  have key : ∀ x : List (Txn Posting × Posting), selSum x P c =
      sumIn (((x.map Prod.snd).filter (fun p => P p.account)).filterMap Posting.amount) c := by
    intro x
    unfold selSum
    rw [List.filter_map, List.filterMap_map]
    rfl
  rw [key, key]
  exact sumIn_perm ((h.filter _).filterMap _) c

/-- What is selected before a day is the same, up to the order. -/
theorem history_selected {env : Env} {opts : ReportOpts} (ha : env.AsciiSep) (hq : PlainQuery env opts.query) {b : Option Date}
    {d : Date} {L L' : Ledger} {first rest : List (Txn Posting)} (he : L'.transactions = first ++ rest)
    (hs : List.Forall₂ SamePostings L.transactions first) (hr : ∀ t ∈ rest, ∀ e, t.date = some e → d ≤ e)
    {sel sel' : List (Txn Posting × Posting)} (h : Selected env (opts.during b (some d)) L sel)
    (h' : Selected env (opts.during b (some d)) L' sel') : (sel.map Prod.snd).Perm (sel'.map Prod.snd) := by
  have key : ∀ (L : Ledger) sel, Selected env (opts.during b (some d)) L sel →
      sel = inPeriod (fun _ p => (!opts.filter.real || p.kind = .real) &&
        (opts.query.isEmpty || byPatterns env opts.query p.account)) b (some d) L.transactions := by
    intro L sel h
    rw [← wantedOf_period]
    exact selected_plain ha (o := opts.during b (some d)) hq h
  rw [key L sel h, key L' sel' h', he, inPeriod_rest _ hr]
  exact inPeriod_same hs

/-! ### C126: adding to a journal does not change its history -/

/-- Transactions and prices are added to the end of a journal, no transaction dated before those it has.  If the longer
journal is accepted, so is the shorter one, and the transactions of the longer one start with those of the shorter one:
the same accounts, amounts and payees, whatever the hash orders of the two runs; and the others have the dates of the
added ones.  It has no automated transactions and leaves hash orders nothing to decide. -/
theorem C126_ledger_partial {r r' : Run} {skip : Bool} {path path' : Str} {pl pl' : ParsedLedger} {more : List (Txn RawPosting)}
    {L' : Ledger} (henv : r'.env = r.env) (hj : r.journal path = .ok pl) (hj' : r'.journal path' = .ok pl')
    (g : GoesOn pl pl' more) (hlater : Later pl.transactions more) (hf : OrderFree r.env pl')
    (h : r'.ledger skip path' = .ok L') :
    ∃ L, r.ledger skip path = .ok L ∧ ∃ first rest, L'.transactions = first ++ rest ∧
      List.Forall₂ SamePostings L.transactions first ∧ ∀ t ∈ rest, ∃ u ∈ more, t.date = u.date := by
  have hok := (C83_wellformed hj).1
  have h := (ledger_toLedger hj').mp h
  rw [henv] at h
  obtain ⟨L0, rest, h0, e0⟩ := toLedger_goesOn hok hf g hlater h
  obtain ⟨L, hL, hs⟩ := toLedger_orders (o' := r.orders) hok.lists (g.orderFree hf) h0
  have hs' : List.Forall₂ SamePostings L.transactions L0.transactions := by
    refine (hs.transactions.imp (fun a b h => ?_)).flip
    refine ⟨?_, h.2.symm⟩
    obtain ⟨h1, _⟩ := h
    cases a; cases b
    simp only [Txn.mk.injEq] at h1 ⊢
    simp [h1]
  exact ⟨L, (ledger_toLedger hj).mpr hL, L0.transactions, rest, e0, hs', added_dates g hL h e0 hs'⟩

/-- If moreover the hash orders are the same, so are the orders of the postings. -/
theorem C126_exact_partial {r r' : Run} {skip : Bool} {path path' : Str} {pl pl' : ParsedLedger} {more : List (Txn RawPosting)}
    {L' : Ledger} (henv : r'.env = r.env) (hord : r'.orders = r.orders) (hj : r.journal path = .ok pl)
    (hj' : r'.journal path' = .ok pl') (g : GoesOn pl pl' more) (hlater : Later pl.transactions more)
    (hf : OrderFree r.env pl') (h : r'.ledger skip path' = .ok L') :
    ∃ L rest, r.ledger skip path = .ok L ∧ L'.transactions = L.transactions ++ rest := by
  have h := (ledger_toLedger hj').mp h
  rw [henv, hord] at h
  obtain ⟨L, rest, h0, e0⟩ := toLedger_goesOn (C83_wellformed hj).1 hf g hlater h
  exact ⟨L, rest, (ledger_toLedger hj).mpr h0, e0⟩

/-- What the flat balance says of an account before a day stays as it was when transactions from that day on are added;
any depth, any options and patterns of accounts. -/
theorem C126_balance_partial {r r' : Run} {o o' : BalOrders} {today today' : Date} {opts : ReportOpts}
    {skip total total' : Bool} {path path' : Str} {pl pl' : ParsedLedger} {more : List (Txn RawPosting)} {b : Option Date}
    {d : Date} {rep rep' : BalReport} (ha : r.env.AsciiSep) (hq : PlainQuery r.env opts.query) (hx : opts.exchange = none)
    (henv : r'.env = r.env) (hj : r.journal path = .ok pl) (hj' : r'.journal path' = .ok pl')
    (g : GoesOn pl pl' more) (hlater : Later pl.transactions more) (hf : OrderFree r.env pl')
    (hd : ∀ u ∈ more, ∀ e, u.date = some e → d ≤ e)
    (h : balanceCommand r o today (opts.during b (some d)) skip true total path = .ok rep)
    (h' : balanceCommand r' o' today' (opts.during b (some d)) skip true total' path' = .ok rep') (a : Str) (c : Cur) :
    rep'.says a c = rep.says a c := by
  obtain ⟨L, hl, k⟩ := balanceCommand_report h
  obtain ⟨L', hl', k'⟩ := balanceCommand_report h'
  obtain ⟨L1, hl1, first, rest, he, hs, hr⟩ := C126_ledger_partial henv hj hj' g hlater hf hl'
  rw [hl] at hl1
  cases hl1
  rw [henv] at k'
  obtain ⟨s, m, e⟩ := flat_says (by exact hx) k
  obtain ⟨s', m', e'⟩ := flat_says (by exact hx) k'
  rw [e, e']
  refine (selSum_snd (history_selected ha hq he hs ?_ m m') _ c).symm
  intro t ht x hx
  obtain ⟨u, hu, eu⟩ := hr t ht
  exact hd u hu x (eu ▸ hx)

/-- The entries of the register before that day stay as they were, up to the order of those of a transaction. -/
theorem C126_register_partial {r r' : Run} {s s' : Nat → Shuf} {opts : ReportOpts} {skip : Bool} {path path' : Str}
    {pl pl' : ParsedLedger} {more : List (Txn RawPosting)} {b : Option Date} {d : Date} {lines lines' : List RegLine}
    (ha : r.env.AsciiSep) (hq : PlainQuery r.env opts.query) (henv : r'.env = r.env) (hj : r.journal path = .ok pl)
    (hj' : r'.journal path' = .ok pl') (g : GoesOn pl pl' more) (hlater : Later pl.transactions more)
    (hf : OrderFree r.env pl') (hd : ∀ u ∈ more, ∀ e, u.date = some e → d ≤ e)
    (h : registerCommand r s (opts.during b (some d)) skip path = .ok lines)
    (h' : registerCommand r' s' (opts.during b (some d)) skip path' = .ok lines') :
    (lines'.map RegLine.entry).Perm (lines.map RegLine.entry) := by
  unfold registerCommand at h h'
  cases hl : r.ledger skip path with
  | error x => rw [hl] at h; cases h
  | ok L =>
  cases hl' : r'.ledger skip path' with
  | error x => rw [hl'] at h'; cases h'
  | ok L' =>
    rw [hl] at h
    rw [hl', henv] at h'
    obtain ⟨L1, hl1, first, rest, he, hs, hr⟩ := C126_ledger_partial henv hj hj' g hlater hf hl'
    rw [hl] at hl1
    cases hl1
    obtain ⟨s0, m0, e0, _⟩ := C55_register (PRes.lift_ok h)
    obtain ⟨s1, m1, e1, _⟩ := C55_register (PRes.lift_ok h')
    have hp := history_selected ha hq he hs (fun t ht x hx => by
      obtain ⟨u, hu, eu⟩ := hr t ht
      exact hd u hu x (eu ▸ hx)) m0 m1
    have hp := hp.map (fun p : Posting => (p.account, p.kind, p.amount.getD .zero))
    have k : ∀ (lines : List RegLine) (sel : List (Txn Posting × Posting)),
        lines.map (fun l => (l.account, l.kind, some l.amount)) = sel.map (fun x => (x.2.account, x.2.kind, x.2.amount)) →
        lines.map RegLine.entry = (sel.map Prod.snd).map (fun p => (p.account, p.kind, p.amount.getD .zero)) := by
      intro lines sel e
      have := congrArg (List.map (fun x : Str × Kind × Option Money => (x.1, x.2.1, x.2.2.getD .zero))) e
      rw [List.map_map, List.map_map] at this
      rw [List.map_map]
      exact this
    rw [k _ _ e0, k _ _ e1]
    exact hp.symm

/-- An item that adds to a journal without declaring anything. -/
def Block.Adds : Block → Prop
  | .comment _ | .price _ | .txn _ | .tag _ => True
  | _ => False

theorem goesOn_blocks (env : Env) (bs : List Block) (h : ∀ b ∈ bs, b.Adds) (pl : ParsedLedger) :
    GoesOn pl (bs.foldl (addBlock env (fun _ => {})) pl) (bs.filterMap Block.txn?) := by
  induction bs generalizing pl with
  | nil => exact ⟨rfl, by simp, [], by simp⟩
  | cons b bs ih =>
    have hb := h b (by simp)
    obtain ⟨h1, h2, ps, h3⟩ := ih (fun x hx => h x (by simp [hx])) (addBlock env (fun _ => {}) pl b)
    rw [List.foldl_cons]
    refine ⟨h1.trans ?_, ?_, ?_⟩
    · cases b <;> first | rfl | exact hb.elim
    · rw [h2]
      cases b <;> first | rfl | exact hb.elim | (simp [addBlock, Block.txn?])
    · cases b <;> first | exact ⟨ps, h3⟩ | exact hb.elim | (next p => exact ⟨p :: ps, by rw [h3]; simp [addBlock]⟩)

/-- The same from the text on: to a file of items, transactions, prices, comments and tags are added. -/
theorem C126_text_partial {r r' : Run} (hc : r.env.AsciiChars) (ha : r.env.AsciiSep) {skip : Bool} {path path' : Str}
    {ls ls' : List Str} {bs more : List Block} {L' : Ledger} (henv : r'.env = r.env) (hj : HoldsJournal r path ls bs)
    (hj' : HoldsJournal r' path' ls' (bs ++ more)) (hadds : ∀ b ∈ more, b.Adds)
    (hlater : ∀ t, .txn t ∈ bs → ∀ u, .txn u ∈ more → ∀ d e, t.date = some d → u.date = some e → d ≤ e)
    (hf : OrderFree r.env (meaning r.env (fun _ => {}) (bs ++ more))) (h : r'.ledger skip path' = .ok L') :
    ∃ L, r.ledger skip path = .ok L ∧ ∃ first rest, L'.transactions = first ++ rest ∧
      List.Forall₂ SamePostings L.transactions first ∧ ∀ t ∈ rest, ∃ u, .txn u ∈ more ∧ t.date = u.date := by
  have j := hj.journal hc ha
  have j' := hj'.journal (henv ▸ hc) (henv ▸ ha)
  rw [henv] at j'
  have g : GoesOn (meaning r.env (fun _ => {}) bs) (meaning r.env (fun _ => {}) (bs ++ more)) (more.filterMap Block.txn?) := by
    have := goesOn_blocks r.env more hadds (meaning r.env (fun _ => {}) bs)
    unfold meaning at this ⊢
    rw [List.foldl_append]
    exact this
  have hl : Later (meaning r.env (fun _ => {}) bs).transactions (more.filterMap Block.txn?) := by
    intro t ht u hu
    refine hlater t ?_ u (mem_txns.mp hu)
    rw [hj.transactions] at ht
    exact mem_txns.mp ht
  obtain ⟨L, h1, first, rest, h2, h3, h4⟩ := C126_ledger_partial henv j j' g hl hf h
  refine ⟨L, h1, first, rest, h2, h3, fun t ht => ?_⟩
  obtain ⟨u, hu, e⟩ := h4 t ht
  exact ⟨u, mem_txns.mp hu, e⟩

/-! ### Examples, and where it fails -/

deriving instance DecidableEq for NList, Lists, ParsedLedger

/-- A run in which names are compared without regard of case. -/
def exHistRun (text : String) : Run := { exRuleRun text with env := { (exRuleRun text).env with lower := exLow } }

/-- What such a run reads. -/
def exHistory (text : String) : ParsedLedger := ((exHistRun text).journal "main".toList).toOption.getD {}

theorem exHistory_read {text : String} (h : ((exHistRun text).journal "main".toList).toOption.isSome = true) :
    (exHistRun text).journal "main".toList = .ok (exHistory text) := by
  unfold exHistory
  cases hj : (exHistRun text).journal "main".toList with
  | error e => rw [hj] at h; cases h
  | ok pl => rfl

/-- A journal with a declared account that takes a payee, an elided amount and an asserted total. -/
def exBefore : String :=
  "account Bars\n payee Pub\n2020-01-05 Pub\n Unknown  30 EUR\n Cash\n2020-01-01 Shop\n Food  7 EUR\n Cash  -7 EUR = -7 EUR\n"

/-- The same one a month later: a new account and a rate. -/
def exAfter : String :=
  "account Bars\n payee Pub\n2020-01-05 Pub\n Unknown  30 EUR\n Cash\n2020-01-01 Shop\n Food  7 EUR\n Cash  -7 EUR = -7 EUR\nP 2020-02-01 USD 2 EUR\n2020-02-10 Back\n Cash  5 EUR = -32 EUR\n Travel\n"

/-- What the month has brought. -/
def exMore : List (Txn RawPosting) := (exHistory exAfter).transactions.drop 2

/-- No name is written in two ways, no payee and at most one account are declared. -/
theorem orderFree_of {env : Env} {pl : ParsedLedger} (h : pl.automated = [] ∧
    (∀ a ∈ pl.commodityStrs, ∀ b ∈ pl.commodityStrs, env.lower a = env.lower b → a = b) ∧
    (∀ a ∈ pl.accountStrs, ∀ b ∈ pl.accountStrs, env.lower a = env.lower b → a = b) ∧
    (∀ a ∈ pl.payeeStrs, ∀ b ∈ pl.payeeStrs, env.lower a = env.lower b → a = b) ∧ pl.lists.payees.list = [] ∧
    ∀ x ∈ pl.lists.accounts.list, ∀ y ∈ pl.lists.accounts.list, x = y) : OrderFree env pl := by
  obtain ⟨h1, h2, h3, h4, h5, h6⟩ := h
  refine ⟨h1, ?_, ?_, ?_, ?_, fun n _ x hx y hy _ _ => h6 x hx y hy⟩
  · exact fun a b ha hb => h2 a (mem_commodityStrs.mpr ha) b (mem_commodityStrs.mpr hb)
  · exact fun a b ha hb => h3 a (mem_accountStrs.mpr ha) b (mem_accountStrs.mpr hb)
  · exact fun a b ha hb => h4 a (mem_payeeStrs.mpr ha) b (mem_payeeStrs.mpr hb)
  · intro n _ x hx
    rw [h5] at hx
    cases hx

theorem goesOn_of {pl pl' : ParsedLedger} {n : Nat} (h : pl'.lists = pl.lists ∧ pl'.transactions = pl.transactions ++ pl'.transactions.drop n ∧
    pl'.prices = pl.prices ++ pl'.prices ∧ ∀ t ∈ pl.transactions, ∀ u ∈ pl'.transactions.drop n, t.date.getD 0 ≤ u.date.getD 0) :
    GoesOn pl pl' (pl'.transactions.drop n) ∧ Later pl.transactions (pl'.transactions.drop n) := by
  refine ⟨⟨h.1, h.2.1, _, h.2.2.1⟩, fun t ht u hu d e hd he => ?_⟩
  have := h.2.2.2 t ht u hu
  rw [hd, he] at this
  exact this

theorem exHistory_later : GoesOn (exHistory exBefore) (exHistory exAfter) exMore ∧ Later (exHistory exBefore).transactions exMore :=
  goesOn_of (by decide +kernel)

theorem exHistory_free : OrderFree (exHistRun exBefore).env (exHistory exAfter) := orderFree_of (by decide +kernel)

/-- The hypotheses are met. -/
example : (exHistRun exBefore).journal "main".toList = .ok (exHistory exBefore) ∧
    (exHistRun exAfter).journal "main".toList = .ok (exHistory exAfter) :=
  ⟨exHistory_read (by decide +kernel), exHistory_read (by decide +kernel)⟩

/-- The register before and after, and the one of January after. -/
example : [(exBefore, none), (exAfter, none), (exAfter, some 737456)].map (fun x : String × Option Date =>
    (registerCommand (exHistRun x.1) (fun _ => .id) (({} : ReportOpts).during none x.2) false "main".toList).toOption.map
      (fun ls => ls.map (fun l => (l.account, l.amount.amountIn "EUR".toList)))) =
    [some [("Food".toList, 7), ("Cash".toList, -7), ("Bars".toList, 30), ("Cash".toList, -30)],
     some [("Food".toList, 7), ("Cash".toList, -7), ("Bars".toList, 30), ("Cash".toList, -30), ("Cash".toList, 5), ("Travel".toList, -5)],
     some [("Food".toList, 7), ("Cash".toList, -7), ("Bars".toList, 30), ("Cash".toList, -30)]] := by decide +kernel

/-- The entries of a register up to January, with the hash orders given. -/
def exJanuary (o : LedgerOrders) (text : String) : Option (List (Str × Rat)) :=
  (registerCommand { exHistRun text with orders := o } (fun _ => .id) (({} : ReportOpts).during none (some 737456)) false
    "main".toList).toOption.map (fun ls => ls.map (fun l => (l.account, l.amount.amountIn "EUR".toList)))

/-- A journal of one transaction. -/
def exMonth : String := "2020-01-05 Bar\n Food  10 EUR\n Cash\n"

/-- A later transaction that writes an account in another way renames it in the history, depending on a hash order. -/
theorem C126_case : (GoesOn (exHistory exMonth)
      (exHistory "2020-01-05 Bar\n Food  10 EUR\n Cash\n2020-02-10 Back\n Cash  5 EUR\n food\n")
      ((exHistory "2020-01-05 Bar\n Food  10 EUR\n Cash\n2020-02-10 Back\n Cash  5 EUR\n food\n").transactions.drop 1) ∧
    Later (exHistory exMonth).transactions
      ((exHistory "2020-01-05 Bar\n Food  10 EUR\n Cash\n2020-02-10 Back\n Cash  5 EUR\n food\n").transactions.drop 1)) ∧
    exJanuary exHashRev exMonth = some [("Food".toList, 10), ("Cash".toList, -10)] ∧
    exJanuary exHashRev "2020-01-05 Bar\n Food  10 EUR\n Cash\n2020-02-10 Back\n Cash  5 EUR\n food\n" =
      some [("food".toList, 10), ("Cash".toList, -10)] :=
  ⟨goesOn_of (by decide +kernel), by decide +kernel⟩

/-- An automated transaction at the end adds postings to the history. -/
theorem C126_rule : (GoesOn (exHistory exMonth)
      (exHistory "2020-01-05 Bar\n Food  10 EUR\n Cash\n= Food\n (Budget)  1\n")
      ((exHistory "2020-01-05 Bar\n Food  10 EUR\n Cash\n= Food\n (Budget)  1\n").transactions.drop 1) ∧
    ∀ u ∈ (exHistory "2020-01-05 Bar\n Food  10 EUR\n Cash\n= Food\n (Budget)  1\n").transactions.drop 1, u.date = none) ∧
    exJanuary exHash exMonth = some [("Food".toList, 10), ("Cash".toList, -10)] ∧
    exJanuary exHash "2020-01-05 Bar\n Food  10 EUR\n Cash\n= Food\n (Budget)  1\n" =
      some [("Food".toList, 10), ("Cash".toList, -10), ("Budget".toList, 10)] :=
  ⟨⟨⟨by decide +kernel, by decide +kernel, [], by decide +kernel⟩, by decide +kernel⟩, by decide +kernel⟩

/-- A transaction that is added at the end but dated before another one changes an amount that an asserted total stands
for. -/
theorem C126_earlier :
    exJanuary exHash "2020-01-05 Bar\n Food\n Cash  = -7 EUR\n" = some [("Cash".toList, -7), ("Food".toList, 7)] ∧
    exJanuary exHash "2020-01-05 Bar\n Food\n Cash  = -7 EUR\n2020-01-01 Shop\n Food  2 EUR\n Cash  -2 EUR\n" =
      some [("Food".toList, 2), ("Cash".toList, -2), ("Cash".toList, -5), ("Food".toList, 5)] := by decide +kernel

/-- The lines of `exOut` and of its transaction once more. -/
def exAgainLines : List Str :=
  exOutLines ++ ["2021-01-15 * Shop".toList, "  Expenses:Food  12.50 EUR ; lunch".toList, "  Assets:Cash  -12.50 EUR".toList, []]

/-- The hypotheses of the theorem about the text are met. -/
example : HoldsJournal (exOn exAgainLines) "main".toList exAgainLines (exOut ++ exOut.drop 1) ∧
    (∀ b ∈ exOut.drop 1, b.Adds) ∧
    (∀ t, .txn t ∈ exOut → ∀ u, .txn u ∈ exOut.drop 1 → ∀ d e, t.date = some d → u.date = some e → d ≤ e) ∧
    OrderFree exEnvJ (meaning exEnvJ (fun _ => {}) (exOut ++ exOut.drop 1)) ∧
    ((exOn exAgainLines).ledger false "main".toList).toOption.map (fun L => L.transactions.length) = some 2 := by
  refine ⟨⟨rfl, ?_, ?_, ?_, by decide, by decide⟩, ?_, ?_, orderFree_of (by decide +kernel), by decide +kernel⟩
  · refine .cons (body := []) (.comment (m := ';') (b := " ".toList) (c := "mine".toList) (by decide)
      (by unfold Blanks; decide) (by decide) (by intro x hx; cases hx; decide)) (.blank (noBlanks _) ?_)
    refine .cons (body := ["  Expenses:Food  12.50 EUR ; lunch".toList, "  Assets:Cash  -12.50 EUR".toList])
      (.txn exHeader (by intro c hc; cases hc; decide) (.cons exFoodLine (.cons exCashOut .nil)))
      (.blank (noBlanks _) ?_)
    exact .cons (body := ["  Expenses:Food  12.50 EUR ; lunch".toList, "  Assets:Cash  -12.50 EUR".toList])
      (.txn exHeader (by intro c hc; cases hc; decide) (.cons exFoodLine (.cons exCashOut .nil)))
      (.blank (noBlanks _) .nil)
  · intro x hx; simp [exOut] at hx
  · intro t ht
    simp [exOut] at ht
    subst ht
    intro l hl
    simp [exAgainLines, exOutLines] at hl
    subst hl
    intro i s a k e hi
    cases i with
    | nil => exact absurd rfl hi
    | cons _ _ => cases e
  · intro b hb
    simp [exOut] at hb
    subst hb
    trivial
  · intro t ht u hu d e hd he
    simp [exOut] at ht hu
    subst ht hu
    rw [hd] at he
    cases he
    exact le_refl _

end Dinero
