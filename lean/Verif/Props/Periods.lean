import Verif.Spec.Periods
import Verif.Props.Meaning
import Verif.Props.Options
/-
Property theorems about reports of periods (C121).
-/
namespace Dinero

/-! ### Lemmas -/

theorem says_of_shows {rep : BalReport} {f : Str → Cur → Rat} (h1 : (rep.lines.map BalLine.label).Pairwise (· < ·))
    (h2 : ∀ line ∈ rep.lines, Shows line.amounts (f line.label))
    (h3 : ∀ a, (∃ line ∈ rep.lines, line.label = a) ↔ ∃ c, f a c ≠ 0) (a : Str) (c : Cur) :
    rep.says a c = f a c := by
  unfold BalReport.says
  by_cases hx : ∃ line ∈ rep.lines, line.label = a
  · obtain ⟨line, hm, rfl⟩ := hx
    have hnd : (rep.lines.map BalLine.label).Nodup := h1.imp (fun h e => by rw [e] at h; exact absurd h (List.lt_irrefl _))
    have : rep.lines.filter (fun l => l.label = line.label) = [line] := by
      generalize rep.lines = ls at hm hnd
      induction ls with
      | nil => cases hm
      | cons x xs ih =>
        rw [List.map_cons, List.nodup_cons] at hnd
        rcases List.mem_cons.mp hm with rfl | hm
        · rw [List.filter_cons_of_pos (by simp), List.filter_eq_nil_iff.mpr]
          intro y hy hyl
          exact hnd.1 (by rw [← of_decide_eq_true hyl]; exact List.mem_map_of_mem hy)
        · rw [List.filter_cons_of_neg, ih hm hnd.2]
          intro hxl
          exact hnd.1 (by rw [of_decide_eq_true hxl]; exact List.mem_map_of_mem hm)
    rw [this]
    simp only [List.flatMap_cons, List.flatMap_nil, List.append_nil]
    exact (h2 line hm).sum c
  · rw [List.filter_eq_nil_iff.mpr]
    · have : f a c = 0 := by
        by_contra hne
        exact hx ((h3 a).mpr ⟨c, hne⟩)
      rw [this]; rfl
    · intro y hy hyl
      exact hx ⟨y, hy, of_decide_eq_true hyl⟩

/-- The part of the postings of a list of transactions that is in a period and of interest. -/
def inPeriod (want : Txn Posting → Posting → Bool) (b e : Option Date) (txns : List (Txn Posting)) :
    List (Txn Posting × Posting) :=
  txns.flatMap (fun t => (t.postings.filter (fun p => b.all (fun d => t.date.any (fun x => d ≤ x)) &&
    e.all (fun d => t.date.any (fun x => x < d)) && want t p)).map (fun p => (t, p)))

theorem period_cases {b e : Option Date} {d v : Date} (h : Splits b d e) :
    (v < d → (e.all (fun d => (some v).any (fun x => x < d)) = true) ∧ (some v).any (fun x => d ≤ x) = false) ∧
    (d ≤ v → (b.all (fun d => (some v).any (fun x => d ≤ x)) = true) ∧ (some v).any (fun x => x < d) = false) := by
  constructor
  · intro hv
    constructor
    · cases e with
      | none => rfl
      | some x => exact decide_eq_true (lt_of_lt_of_le hv (h.2 x rfl))
    · exact decide_eq_false (not_le.mpr hv)
  · intro hv
    constructor
    · cases b with
      | none => rfl
      | some x => exact decide_eq_true (le_trans (h.1 x rfl) hv)
    · exact decide_eq_false (not_lt.mpr hv)

/-- A transaction is in one of the two parts of a period. -/
theorem inPeriod_one (want : Txn Posting → Posting → Bool) {b e : Option Date} {d : Date} (h : Splits b d e)
    {t : Txn Posting} {v : Date} (hv : t.date = some v) :
    (v < d → inPeriod want b e [t] = inPeriod want b (some d) [t] ∧ inPeriod want (some d) e [t] = []) ∧
      (d ≤ v → inPeriod want b e [t] = inPeriod want (some d) e [t] ∧ inPeriod want b (some d) [t] = []) := by
  obtain ⟨h1, h2⟩ := period_cases (v := v) h
  constructor
  · intro hlt
    obtain ⟨g1, g2⟩ := h1 hlt
    have g3 : (some v).any (fun x => x < d) = true := decide_eq_true hlt
    simp only [inPeriod, List.flatMap_cons, List.flatMap_nil, List.append_nil, hv]
    rw [g1]
    simp only [Option.all_some, g2, g3, Bool.and_true, Bool.false_and]
    simp
  · intro hle
    obtain ⟨g1, g2⟩ := h2 hle
    have g3 : (some v).any (fun x => d ≤ x) = true := decide_eq_true hle
    simp only [inPeriod, List.flatMap_cons, List.flatMap_nil, List.append_nil, hv]
    rw [g1]
    simp only [Option.all_some, g2, g3, Bool.false_and, Bool.and_false, Bool.true_and]
    simp

theorem inPeriod_cons (want : Txn Posting → Posting → Bool) (b e : Option Date) (t : Txn Posting) (ts : List (Txn Posting)) :
    inPeriod want b e (t :: ts) = inPeriod want b e [t] ++ inPeriod want b e ts := by
  simp [inPeriod]

/-- What is in a period is in one of its parts, up to the order. -/
theorem inPeriod_perm (want : Txn Posting → Posting → Bool) {b e : Option Date} {d : Date} (h : Splits b d e)
    (ts : List (Txn Posting)) (hd : ∀ t ∈ ts, t.date.isSome) :
    (inPeriod want b e ts).Perm (inPeriod want b (some d) ts ++ inPeriod want (some d) e ts) := by
  induction ts with
  | nil => exact .nil
  | cons t ts ih =>
    have ih := ih (fun x hx => hd x (by simp [hx]))
    obtain ⟨v, hv⟩ := Option.isSome_iff_exists.mp (hd t (by simp))
    rw [inPeriod_cons, inPeriod_cons want b (some d), inPeriod_cons want (some d) e]
    obtain ⟨h1, h2⟩ := inPeriod_one want h hv
    rcases lt_or_ge v d with hlt | hge
    · obtain ⟨g1, g2⟩ := h1 hlt
      rw [g1, g2, List.nil_append, List.append_assoc]
      exact ih.append_left _
    · obtain ⟨g1, g2⟩ := h2 hge
      rw [g1, g2, List.nil_append]
      refine (ih.append_left _).trans ?_
      rw [← List.append_assoc, ← List.append_assoc]
      exact List.perm_append_comm.append_right _

/-- When the transactions are in the order of their dates, the first part comes first. -/
theorem inPeriod_append (want : Txn Posting → Posting → Bool) {b e : Option Date} {d : Date} (h : Splits b d e)
    (ts : List (Txn Posting)) (hd : ∀ t ∈ ts, t.date.isSome)
    (hs : ts.Pairwise (fun a b => ∃ d e, a.date = some d ∧ b.date = some e ∧ d ≤ e)) :
    inPeriod want b e ts = inPeriod want b (some d) ts ++ inPeriod want (some d) e ts := by
  induction ts with
  | nil => rfl
  | cons t ts ih =>
    rw [List.pairwise_cons] at hs
    have ih := ih (fun x hx => hd x (by simp [hx])) hs.2
    obtain ⟨v, hv⟩ := Option.isSome_iff_exists.mp (hd t (by simp))
    rw [inPeriod_cons, inPeriod_cons want b (some d), inPeriod_cons want (some d) e]
    obtain ⟨h1, h2⟩ := inPeriod_one want h hv
    rcases lt_or_ge v d with hlt | hge
    · obtain ⟨g1, g2⟩ := h1 hlt
      rw [g1, g2, List.nil_append, List.append_assoc, ih]
    · obtain ⟨g1, g2⟩ := h2 hge
      have hnil : inPeriod want b (some d) ts = [] := by
        unfold inPeriod
        rw [List.flatMap_eq_nil_iff]
        intro x hx
        obtain ⟨d1, d2, e1, e2, hle⟩ := hs.1 x hx
        rw [hv] at e1; cases e1
        have : (some d2).any (fun x => x < d) = false := decide_eq_false (not_lt.mpr (le_trans hge hle))
        simp only [Option.all_some, e2, this, Bool.and_false, Bool.false_and]
        simp
      rw [g1, g2, ih, hnil]
      rfl

theorem selSum_perm {x y : List (Txn Posting × Posting)} (h : x.Perm y) (P : Str → Bool) (c : Cur) :
    selSum x P c = selSum y P c := sumIn_perm ((h.filter _).filterMap _) c

/-- The transactions of a ledger are dated and in the order of their dates. -/
theorem ledger_dated {r : Run} {skip : Bool} {path : Str} {L : Ledger} (hl : r.ledger skip path = .ok L) :
    (∀ t ∈ L.transactions, t.date.isSome) ∧
      L.transactions.Pairwise (fun a b => ∃ d e, a.date = some d ∧ b.date = some e ∧ d ≤ e) := by
  unfold Run.ledger at hl
  cases hj : r.journal path with
  | error e => rw [hj] at hl; cases hl
  | ok pl =>
    rw [hj] at hl
    simp only at hl
    cases ht : toLedger r.env r.orders skip pl with
    | error e => rw [ht] at hl; cases hl
    | ok L' =>
      rw [ht] at hl; cases hl
      obtain ⟨listed, h1, h2, h3⟩ := C22_transactions ht
      have hdate : L.transactions.map Txn.date = listed.map Txn.date := by
        have := congrArg (List.map (fun h : Option Date × Option Date × Str × List Str => h.1)) h3
        rw [List.map_map, List.map_map] at this
        exact this
      have hp := h1.sorted
      rw [← List.pairwise_map (f := Txn.date) (R := fun a b => ∃ d e, a = some d ∧ b = some e ∧ d ≤ e), ← hdate] at hp
      refine ⟨fun t ht => ?_, List.pairwise_map.mp hp⟩
      have : t.date ∈ listed.map Txn.date := by rw [← hdate]; exact List.mem_map_of_mem ht
      obtain ⟨x, hx, he⟩ := List.mem_map.mp this
      rw [← he]; exact h2 x hx

theorem wantedOf_period (env : Env) (o : ReportOpts) (b e : Option Date) (txns : List (Txn Posting)) :
    wantedOf env (o.during b e) txns = inPeriod (fun _ p => (!o.filter.real || p.kind = .real) &&
      (o.query.isEmpty || byPatterns env o.query p.account)) b e txns := by
  unfold wantedOf inPeriod
  congr 1; funext t; congr 2; funext p
  unfold ReportOpts.wants ReportOpts.during
  simp only
  generalize b.all _ = x; generalize e.all _ = y
  generalize (!o.filter.real || decide (p.kind = Kind.real)) = z
  cases x <;> cases y <;> cases z <;> rfl

theorem askedOf_period (env : Env) (o : ReportOpts) (node : Option Ast) (b e : Option Date) (txns : List (Txn Posting)) :
    askedOf env (o.during b e) node txns = inPeriod (fun t p => (!o.filter.real || p.kind = .real) &&
      node.all (fun n => (n.sense env t p).holds)) b e txns := by
  unfold askedOf inPeriod
  congr 1; funext t; congr 2; funext p
  unfold ReportOpts.asks ReportOpts.during
  simp only
  generalize b.all _ = x; generalize e.all _ = y
  generalize (!o.filter.real || decide (p.kind = Kind.real)) = z
  cases x <;> cases y <;> cases z <;> rfl

/-- The selections of a period and of its parts. -/
def PartsOf (env : Env) (opts : ReportOpts) (L : Ledger) (b : Option Date) (d : Date) (e : Option Date) : Prop :=
  ∃ want, (∀ sel, Selected env (opts.during b e) L sel → sel = inPeriod want b e L.transactions) ∧
    (∀ sel, Selected env (opts.during b (some d)) L sel → sel = inPeriod want b (some d) L.transactions) ∧
    ∀ sel, Selected env (opts.during (some d) e) L sel → sel = inPeriod want (some d) e L.transactions

theorem partsOf_plain {env : Env} {opts : ReportOpts} {L : Ledger} (ha : env.AsciiSep) (hq : PlainQuery env opts.query)
    (b : Option Date) (d : Date) (e : Option Date) : PartsOf env opts L b d e := by
  have key : ∀ b e sel, Selected env (opts.during b e) L sel → sel = inPeriod (fun _ p => (!opts.filter.real || p.kind = .real) &&
      (opts.query.isEmpty || byPatterns env opts.query p.account)) b e L.transactions := by
    intro b e sel h
    rw [← wantedOf_period]
    exact selected_plain ha (o := opts.during b e) hq h
  exact ⟨_, key b e, key b (some d), key (some d) e⟩

theorem partsOf_clear {r : Run} {path : Str} {pl : ParsedLedger} {rules : List (Txn RawPosting × Ast)} {only : Option Cur}
    {skip : Bool} {opts : ReportOpts} {node : Option Ast} {L : Ledger} (h : r.journal path = .ok pl)
    (hs : pl.Sound r.env only rules) (hl : r.ledger skip path = .ok L) (hq : ClearQuery r.env only opts.query node)
    (b : Option Date) (d : Date) (e : Option Date) : PartsOf r.env opts L b d e := by
  have key : ∀ b e sel, Selected r.env (opts.during b e) L sel → sel = inPeriod (fun t p => (!opts.filter.real || p.kind = .real) &&
      node.all (fun n => (n.sense r.env t p).holds)) b e L.transactions := by
    intro b e sel hsel
    rw [← askedOf_period]
    exact selected_asked (o := opts.during b e) h hs hl hq hsel
  exact ⟨_, key b e, key b (some d), key (some d) e⟩

/-- What a flat balance says of an account. -/
theorem flat_says {env : Env} {o : BalOrders} {today : Date} {opts : ReportOpts} {showTotal : Bool} {L : Ledger}
    {rep : BalReport} (hx : opts.exchange = none) (h : balanceReport env o today opts true showTotal L = .ok rep) :
    ∃ sel, Selected env opts L sel ∧ ∀ a c, rep.says a c = selSum sel
      (fun x => match opts.depth with | none => x = a | some d => CutTo d x a) c := by
  cases hd : opts.depth with
  | none =>
    obtain ⟨sel, g1, g2, g3, g4⟩ := C51_flat hd hx h
    exact ⟨sel, g1, says_of_shows g2 (fun line hm => (g3 line hm).2) g4⟩
  | some d =>
    obtain ⟨node, sel0, st, bals, hn, _, hc⟩ := balanceReport_selected h
    obtain ⟨sel, g1, k1 | ⟨_, rep', k2, g2, g3, g4⟩⟩ := C54_flat_depth_partial (o := o) (today := today)
      (showTotal := showTotal) hd hx hn hc
    · rw [h] at k1; cases k1.2
    rw [h] at k2; cases k2
    exact ⟨sel, g1, says_of_shows (f := fun a c => selSum sel (fun x => CutTo d x a) c) g2 (fun line hm => (g3 line hm).2) g4⟩

/-- The sums over a period. -/
theorem period_sums {r : Run} {skip : Bool} {path : Str} {L : Ledger} (hl : r.ledger skip path = .ok L)
    (want : Txn Posting → Posting → Bool) {b e : Option Date} {d : Date} (hs : Splits b d e) (P : Str → Bool) (c : Cur) :
    selSum (inPeriod want b e L.transactions) P c =
      selSum (inPeriod want b (some d) L.transactions) P c + selSum (inPeriod want (some d) e L.transactions) P c := by
  rw [← selSum_append]
  exact selSum_perm (inPeriod_perm _ hs _ (ledger_dated hl).1) P c

theorem period_balance {r : Run} {o o1 o2 : BalOrders} {today : Date} {opts : ReportOpts} {skip total : Bool} {path : Str}
    {b e : Option Date} {d : Date} {rep first second : BalReport} (hx : opts.exchange = none) (hs : Splits b d e)
    (hp : ∀ L, r.ledger skip path = .ok L → PartsOf r.env opts L b d e)
    (h0 : balanceCommand r o today (opts.during b e) skip true total path = .ok rep)
    (h1 : balanceCommand r o1 today (opts.during b (some d)) skip true total path = .ok first)
    (h2 : balanceCommand r o2 today (opts.during (some d) e) skip true total path = .ok second) (a : Str) (c : Cur) :
    rep.says a c = first.says a c + second.says a c := by
  obtain ⟨L, hl, k0⟩ := balanceCommand_report h0
  obtain ⟨L1, hl1, k1⟩ := balanceCommand_report h1
  obtain ⟨L2, hl2, k2⟩ := balanceCommand_report h2
  rw [hl] at hl1 hl2
  cases hl1; cases hl2
  obtain ⟨want, w0, w1, w2⟩ := hp L hl
  obtain ⟨s0, m0, e0⟩ := flat_says (by exact hx) k0
  obtain ⟨s1, m1, e1⟩ := flat_says (by exact hx) k1
  obtain ⟨s2, m2, e2⟩ := flat_says (by exact hx) k2
  rw [e0, e1, e2, w0 _ m0, w1 _ m1, w2 _ m2]
  exact period_sums hl want hs _ c

theorem period_total {r : Run} {o o1 o2 : BalOrders} {today : Date} {opts : ReportOpts} {skip flat total : Bool} {path : Str}
    {b e : Option Date} {d : Date} {rep first second : BalReport} (hx : opts.exchange = none) (hs : Splits b d e)
    (hp : ∀ L, r.ledger skip path = .ok L → PartsOf r.env opts L b d e)
    (h0 : balanceCommand r o today (opts.during b e) skip flat total path = .ok rep)
    (h1 : balanceCommand r o1 today (opts.during b (some d)) skip flat total path = .ok first)
    (h2 : balanceCommand r o2 today (opts.during (some d) e) skip flat total path = .ok second) :
    ∀ ms ms1 ms2, rep.total = some ms → first.total = some ms1 → second.total = some ms2 →
      ∀ c, sumIn ms c = sumIn ms1 c + sumIn ms2 c := by
  intro ms ms1 ms2 t0 t1 t2 c
  obtain ⟨L, hl, k0⟩ := balanceCommand_report h0
  obtain ⟨L1, hl1, k1⟩ := balanceCommand_report h1
  obtain ⟨L2, hl2, k2⟩ := balanceCommand_report h2
  rw [hl] at hl1 hl2
  cases hl1; cases hl2
  obtain ⟨want, w0, w1, w2⟩ := hp L hl
  obtain ⟨s0, m0, e0⟩ := C53_total (by exact hx) k0
  obtain ⟨s1, m1, e1⟩ := C53_total (by exact hx) k1
  obtain ⟨s2, m2, e2⟩ := C53_total (by exact hx) k2
  rw [(e0 ms t0).sum c, (e1 ms1 t1).sum c, (e2 ms2 t2).sum c, w0 _ m0, w1 _ m1, w2 _ m2]
  exact period_sums hl want hs _ c

theorem PRes.lift_ok {α : Type} {x : Res α} {a : α} (h : PRes.lift x = .ok a) : x = .ok a := by
  cases x with
  | error e => cases h
  | ok b => cases h; rfl

theorem period_register {r : Run} {s s1 s2 : Nat → Shuf} {opts : ReportOpts} {skip : Bool} {path : Str} {b e : Option Date}
    {d : Date} {lines first second : List RegLine} (hs : Splits b d e)
    (hp : ∀ L, r.ledger skip path = .ok L → PartsOf r.env opts L b d e)
    (h0 : registerCommand r s (opts.during b e) skip path = .ok lines)
    (h1 : registerCommand r s1 (opts.during b (some d)) skip path = .ok first)
    (h2 : registerCommand r s2 (opts.during (some d) e) skip path = .ok second) :
    lines.map RegLine.entry = first.map RegLine.entry ++ second.map RegLine.entry := by
  unfold registerCommand at h0 h1 h2
  cases hl : r.ledger skip path with
  | error x => rw [hl] at h0; cases h0
  | ok L =>
    rw [hl] at h0 h1 h2
    obtain ⟨want, w0, w1, w2⟩ := hp L hl
    obtain ⟨s0, m0, e0, _⟩ := C55_register (PRes.lift_ok h0)
    obtain ⟨s1, m1, e1, _⟩ := C55_register (PRes.lift_ok h1)
    obtain ⟨s2, m2, e2, _⟩ := C55_register (PRes.lift_ok h2)
    obtain ⟨hd1, hd2⟩ := ledger_dated hl
    rw [w0 _ m0, inPeriod_append want hs _ hd1 hd2, ← w1 _ m1, ← w2 _ m2, List.map_append, ← e1, ← e2] at e0
    have := congrArg (List.map (fun x : Str × Kind × Option Money => (x.1, x.2.1, x.2.2.getD .zero))) e0
    rw [List.map_append, List.map_map, List.map_map, List.map_map] at this
    exact this

/-! ### C121: reports of periods add up -/

/-- What the flat balance says of an account is what it says of it before a day and from that day on; any journal, any
depth, any options and patterns of accounts. -/
theorem C121_balance {r : Run} {o o1 o2 : BalOrders} {today : Date} {opts : ReportOpts} {skip total : Bool} {path : Str}
    {b e : Option Date} {d : Date} {rep first second : BalReport} (ha : r.env.AsciiSep) (hq : PlainQuery r.env opts.query)
    (hx : opts.exchange = none) (hs : Splits b d e)
    (h0 : balanceCommand r o today (opts.during b e) skip true total path = .ok rep)
    (h1 : balanceCommand r o1 today (opts.during b (some d)) skip true total path = .ok first)
    (h2 : balanceCommand r o2 today (opts.during (some d) e) skip true total path = .ok second) (a : Str) (c : Cur) :
    rep.says a c = first.says a c + second.says a c :=
  period_balance hx hs (fun _ _ => partsOf_plain ha hq b d e) h0 h1 h2 a c

/-- The same when the question is a clear one, of any kind, about a sound journal. -/
theorem C121_balance_asked {r : Run} {o o1 o2 : BalOrders} {today : Date} {opts : ReportOpts} {skip total : Bool} {path : Str}
    {pl : ParsedLedger} {rules : List (Txn RawPosting × Ast)} {only : Option Cur} {node : Option Ast}
    {b e : Option Date} {d : Date} {rep first second : BalReport} (h : r.journal path = .ok pl)
    (hsd : pl.Sound r.env only rules) (hq : ClearQuery r.env only opts.query node)
    (hx : opts.exchange = none) (hs : Splits b d e)
    (h0 : balanceCommand r o today (opts.during b e) skip true total path = .ok rep)
    (h1 : balanceCommand r o1 today (opts.during b (some d)) skip true total path = .ok first)
    (h2 : balanceCommand r o2 today (opts.during (some d) e) skip true total path = .ok second) (a : Str) (c : Cur) :
    rep.says a c = first.says a c + second.says a c :=
  period_balance hx hs (fun _ hl => partsOf_clear h hsd hl hq b d e) h0 h1 h2 a c

/-- The totals of the balance add up, flat or as a tree. -/
theorem C121_total {r : Run} {o o1 o2 : BalOrders} {today : Date} {opts : ReportOpts} {skip flat total : Bool} {path : Str}
    {b e : Option Date} {d : Date} {rep first second : BalReport} (ha : r.env.AsciiSep) (hq : PlainQuery r.env opts.query)
    (hx : opts.exchange = none) (hs : Splits b d e)
    (h0 : balanceCommand r o today (opts.during b e) skip flat total path = .ok rep)
    (h1 : balanceCommand r o1 today (opts.during b (some d)) skip flat total path = .ok first)
    (h2 : balanceCommand r o2 today (opts.during (some d) e) skip flat total path = .ok second) :
    ∀ ms ms1 ms2, rep.total = some ms → first.total = some ms1 → second.total = some ms2 →
      ∀ c, sumIn ms c = sumIn ms1 c + sumIn ms2 c :=
  period_total hx hs (fun _ _ => partsOf_plain ha hq b d e) h0 h1 h2

/-- The entries of the register are those before a day, followed by those from that day on. -/
theorem C121_register {r : Run} {s s1 s2 : Nat → Shuf} {opts : ReportOpts} {skip : Bool} {path : Str} {b e : Option Date}
    {d : Date} {lines first second : List RegLine} (ha : r.env.AsciiSep) (hq : PlainQuery r.env opts.query) (hs : Splits b d e)
    (h0 : registerCommand r s (opts.during b e) skip path = .ok lines)
    (h1 : registerCommand r s1 (opts.during b (some d)) skip path = .ok first)
    (h2 : registerCommand r s2 (opts.during (some d) e) skip path = .ok second) :
    lines.map RegLine.entry = first.map RegLine.entry ++ second.map RegLine.entry :=
  period_register hs (fun _ _ => partsOf_plain ha hq b d e) h0 h1 h2

/-- The same when the question is a clear one, of any kind, about a sound journal. -/
theorem C121_register_asked {r : Run} {s s1 s2 : Nat → Shuf} {opts : ReportOpts} {skip : Bool} {path : Str}
    {pl : ParsedLedger} {rules : List (Txn RawPosting × Ast)} {only : Option Cur} {node : Option Ast} {b e : Option Date}
    {d : Date} {lines first second : List RegLine} (h : r.journal path = .ok pl)
    (hsd : pl.Sound r.env only rules) (hq : ClearQuery r.env only opts.query node) (hs : Splits b d e)
    (h0 : registerCommand r s (opts.during b e) skip path = .ok lines)
    (h1 : registerCommand r s1 (opts.during b (some d)) skip path = .ok first)
    (h2 : registerCommand r s2 (opts.during (some d) e) skip path = .ok second) :
    lines.map RegLine.entry = first.map RegLine.entry ++ second.map RegLine.entry :=
  period_register hs (fun _ hl => partsOf_clear h hsd hl hq b d e) h0 h1 h2

/-- A journal of three days, not in their order. -/
def exPeriodText : String :=
  "2020-03-01 Shop\n Food  7 EUR\n Cash\n2020-01-05 Bar\n Food  30 EUR\n Cash\n2020-02-10 Back\n Cash  5 EUR\n Food\n"

/-- Three reports of a balance, and three of a register; the day in between is February 1. -/
example : Splits (some 737425) 737456 none ∧
    (balanceCommand (exRuleRun exPeriodText) exOrders 0 (({} : ReportOpts).during (some 737425) none) false true true
      "main".toList).toOption.map (fun rep => (rep.says "Food".toList "EUR".toList, rep.says "Cash".toList "EUR".toList)) =
      some (32, -32) ∧
    (balanceCommand (exRuleRun exPeriodText) exOrders 0 (({} : ReportOpts).during (some 737425) (some 737456)) false true true
      "main".toList).toOption.map (fun rep => (rep.says "Food".toList "EUR".toList, rep.says "Cash".toList "EUR".toList)) =
      some (30, -30) ∧
    (balanceCommand (exRuleRun exPeriodText) exOrders 0 (({} : ReportOpts).during (some 737456) none) false true true
      "main".toList).toOption.map (fun rep => (rep.says "Food".toList "EUR".toList, rep.says "Cash".toList "EUR".toList)) =
      some (2, -2) := by
  refine ⟨⟨fun x h => by cases h; decide, fun x h => by cases h⟩, ?_⟩
  decide +kernel

example : (registerCommand (exRuleRun exPeriodText) (fun _ => .id) (({} : ReportOpts).during none none) false
      "main".toList).toOption.map (fun ls => ls.map (fun l => (l.account, l.amount.amountIn "EUR".toList))) =
      some [("Food".toList, 30), ("Cash".toList, -30), ("Cash".toList, 5), ("Food".toList, -5),
        ("Food".toList, 7), ("Cash".toList, -7)] ∧
    (registerCommand (exRuleRun exPeriodText) (fun _ => .id) (({} : ReportOpts).during none (some 737465)) false
      "main".toList).toOption.map (fun ls => ls.map (fun l => (l.account, l.amount.amountIn "EUR".toList))) =
      some [("Food".toList, 30), ("Cash".toList, -30)] ∧
    (registerCommand (exRuleRun exPeriodText) (fun _ => .id) (({} : ReportOpts).during (some 737465) none) false
      "main".toList).toOption.map (fun ls => ls.map (fun l => (l.account, l.amount.amountIn "EUR".toList))) =
      some [("Cash".toList, 5), ("Food".toList, -5), ("Food".toList, 7), ("Cash".toList, -7)] := by
  decide +kernel

/-- A question about amounts (`C112` shows that it is a clear one), of a journal with rules: everything is on January 5. -/
example : [none, some 737430, some 737429].map (fun e : Option Date => (registerCommand (exRuleRun exTypedText) (fun _ => .id)
      (({ query := ["expr".toList, "abs(amount) > 10 EUR".toList] } : ReportOpts).during none e) false
      "main".toList).toOption.map List.length) = [some 5, some 5, some 0] := by decide +kernel

end Dinero
