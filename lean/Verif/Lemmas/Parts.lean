import Verif.Spec.Parts
import Verif.Props.Periods
import Verif.Props.Question
/-
Lemmas about reports for different questions (C137).
-/
namespace Dinero

/-! ### Truth -/

theorem unaryType_cases {op : UnaryOp} {a b : Ty} (h : unaryType op a = some b) :
    (b = .bool → (a = .bool ∧ (op = .not ∨ op = .neg ∨ op = .any)) ∨ (a = .regex ∧ op = .hasTag)) ∧ b ≠ .regex := by
  cases op <;> cases a <;> cases h <;> simp

theorem binaryType_cases {mono : Bool} {op : BinaryOp} {a b c : Ty} (h : binaryType mono op a b = some c) :
    (c = .bool → op ∈ [.or, .and, .eq, .lt, .gt, .le, .ge]) ∧ c ≠ .regex := by
  unfold binaryType at h
  cases op <;> simp only at h <;> split at h <;> (try split at h) <;> cases h <;> first
    | (simp; done)
    | (cases a <;> simp_all [Ty.numeric])

theorem type_unary {env : Env} {mono : Bool} {op : UnaryOp} {c : Ast} {ty : Ty} (h : (Ast.unary op c).type env mono = some ty) :
    ty = .date ∨ ∃ a, c.type env mono = some a ∧ unaryType op a = some ty := by
  unfold Ast.type at h
  split at h
  all_goals first
    | (rename_i heq; cases heq; done)
    | skip
  · split at h
    · cases h; exact .inl rfl
    · cases h
  · rename_i heq
    cases heq
    right
    exact Option.bind_eq_some_iff.mp h

theorem type_regex {env : Env} {mono : Bool} (e : Ast) (h : e.type env mono = some .regex) : ∃ s, e = .regex s := by
  cases e with
  | amount | account | payee | note | date => cases h
  | number r | money c r | string s => cases h
  | regex s => exact ⟨s, rfl⟩
  | unary op c =>
    rcases type_unary h with h | ⟨a, _, h⟩
    · cases h
    · exact absurd rfl (unaryType_cases h).2
  | binary op l r =>
    rw [Ast.type] at h
    split at h
    · cases h
    · obtain ⟨a, _, h⟩ := Option.bind_eq_some_iff.mp h
      obtain ⟨b, _, h⟩ := Option.bind_eq_some_iff.mp h
      exact absurd rfl (binaryType_cases h).2

/-- What makes sense as a question is true or not. -/
theorem sense_truth {env : Env} {mono : Bool} {t : Txn Posting} {p : Posting} : ∀ (e : Ast), e.type env mono = some .bool →
    ∃ b, e.sense env t p = .truth b := by
  intro e
  induction e with
  | amount | account | payee | note | date => intro h; cases h
  | number r | money c r | regex s | string s => intro h; cases h
  | unary op c ih =>
    intro h
    rcases type_unary h with h | ⟨a, hc, h⟩
    · cases h
    · rcases (unaryType_cases h).1 rfl with ⟨rfl, rfl | rfl | rfl⟩ | ⟨rfl, rfl⟩
      · obtain ⟨b, hb⟩ := ih hc
        exact ⟨!b, by simp only [Ast.sense, hb, Sense.unary]⟩
      · obtain ⟨b, hb⟩ := ih hc
        exact ⟨!b, by simp only [Ast.sense, hb, Sense.unary]⟩
      · exact ⟨_, by simp only [Ast.sense]; rfl⟩
      · obtain ⟨s, rfl⟩ := type_regex c hc
        exact ⟨_, by simp only [Ast.sense, Sense.unary]; rfl⟩
  | binary op l r ihl ihr =>
    intro h
    rw [Ast.type] at h
    split at h
    · cases h
    · obtain ⟨a, _, h⟩ := Option.bind_eq_some_iff.mp h
      obtain ⟨b, _, h⟩ := Option.bind_eq_some_iff.mp h
      have := (binaryType_cases h).1 rfl
      rw [Ast.sense]
      simp only [List.mem_cons, List.not_mem_nil, or_false] at this
      rcases this with rfl | rfl | rfl | rfl | rfl | rfl | rfl
      rotate_left 2
      · unfold Sense.binary
        simp only
        split
        · exact ⟨_, rfl⟩
        · exact ⟨_, rfl⟩
      all_goals exact ⟨_, rfl⟩

theorem not_holds {env : Env} {mono : Bool} {t : Txn Posting} {p : Posting} {e : Ast} (h : e.type env mono = some .bool) :
    ((Ast.unary .not e).sense env t p).holds = !(e.sense env t p).holds := by
  obtain ⟨b, hb⟩ := sense_truth (t := t) (p := p) e h
  simp only [Ast.sense, hb, Sense.unary, Sense.holds]

/-! ### Parts of what is asked for -/

/-- All postings, each with its transaction. -/
def allOf (txns : List (Txn Posting)) : List (Txn Posting × Posting) := txns.flatMap (fun t => t.postings.map (fun p => (t, p)))

theorem askedOf_filter (env : Env) (o : ReportOpts) (node : Option Ast) (txns : List (Txn Posting)) :
    askedOf env o node txns = (allOf txns).filter (fun x => o.asks env node x.1 x.2) := by
  unfold askedOf allOf
  rw [List.filter_flatMap]
  congr 1
  funext t
  rw [List.filter_map]
  rfl

theorem filter_four {α : Type} {f0 f1 f2 f3 : α → Bool} (h0 : ∀ x, f0 x = (f1 x || f2 x)) (h3 : ∀ x, f3 x = (f1 x && f2 x))
    (l : List α) : (l.filter f0 ++ l.filter f3).Perm (l.filter f1 ++ l.filter f2) := by
  induction l with
  | nil => exact .nil
  | cons x l ih =>
    simp only [List.filter_cons, h0 x, h3 x]
    cases f1 x <;> cases f2 x
    · exact ih
    · simp only [Bool.false_or, if_true, Bool.false_and, Bool.false_eq_true, if_false, List.cons_append]
      exact (ih.cons x).trans List.perm_middle.symm
    · simp only [Bool.true_or, if_true, Bool.true_and, Bool.false_eq_true, if_false, List.cons_append]
      exact ih.cons x
    · simp only [Bool.true_or, if_true, Bool.true_and, List.cons_append]
      exact (List.perm_middle.cons x).trans (((ih.cons x).cons x).trans (List.perm_middle.symm.cons x))

/-- What four questions select, the first two being either and both of the last two. -/
theorem asked_four {env : Env} {o0 o1 o2 o3 : ReportOpts} {n0 n1 n2 n3 : Option Ast} {txns : List (Txn Posting)}
    (h0 : ∀ t p, o0.asks env n0 t p = (o1.asks env n1 t p || o2.asks env n2 t p))
    (h3 : ∀ t p, o3.asks env n3 t p = (o1.asks env n1 t p && o2.asks env n2 t p)) :
    (askedOf env o0 n0 txns ++ askedOf env o3 n3 txns).Perm (askedOf env o1 n1 txns ++ askedOf env o2 n2 txns) := by
  simp only [askedOf_filter]
  exact filter_four (fun x : Txn Posting × Posting => h0 x.1 x.2) (fun x => h3 x.1 x.2) _

/-- What two questions select, of which every posting answers one. -/
theorem asked_two {env : Env} {o0 o1 o2 : ReportOpts} {n0 n1 n2 : Option Ast} {txns : List (Txn Posting)}
    (h0 : ∀ t p, o0.asks env n0 t p = (o1.asks env n1 t p || o2.asks env n2 t p))
    (h3 : ∀ t p, (o1.asks env n1 t p && o2.asks env n2 t p) = false) :
    MadeOf (askedOf env o0 n0 txns) (askedOf env o1 n1 txns) (askedOf env o2 n2 txns) := by
  simp only [askedOf_filter]
  have hs : ∀ f : Txn Posting × Posting → Bool, (∀ x, f x = true → o0.asks env n0 x.1 x.2 = true) →
      ((allOf txns).filter f).Sublist ((allOf txns).filter (fun x => o0.asks env n0 x.1 x.2)) := by
    intro f hf
    exact List.monotone_filter_right _ hf
  refine ⟨hs _ (fun x hx => by rw [h0, hx]; rfl), hs _ (fun x hx => by rw [h0, hx, Bool.or_true]), ?_⟩
  have := filter_four (f0 := fun x : Txn Posting × Posting => o0.asks env n0 x.1 x.2) (f1 := fun x => o1.asks env n1 x.1 x.2)
    (f2 := fun x => o2.asks env n2 x.1 x.2) (f3 := fun _ => false) (fun x => h0 x.1 x.2) (fun x => (h3 x.1 x.2).symm) (allOf txns)
  simpa using this

/-- The question of one term. -/
theorem term_clear {env : Env} {only : Option Cur} (ha : env.AsciiSep) (hand : trim env "and".toList = "and".toList)
    (hor : trim env "or".toList = "or".toList) {w : List Str} {e : Ast} (h : Term env w e) (hc : e.Clear env only) :
    ClearQuery env only w (some e) :=
  C114_clear ha hand hor (.one (.one h)) (by
    intro es hes x hx
    rw [List.mem_singleton.mp hes] at hx
    rw [List.mem_singleton.mp hx]
    exact hc)

theorem or_clear {env : Env} {only : Option Cur} (ha : env.AsciiSep) (hand : trim env "and".toList = "and".toList)
    (hor : trim env "or".toList = "or".toList) {w w' : List Str} {e e' : Ast} (h : Term env w e) (hc : e.Clear env only)
    (h' : Term env w' e') (hc' : e'.Clear env only) :
    ClearQuery env only (w ++ "or".toList :: w') (some (.binary .or e e')) :=
  C114_clear ha hand hor (.or (.one h) (.one (.one h'))) (by
    intro es hes x hx
    rcases List.mem_cons.mp hes with rfl | hes
    · rw [List.mem_singleton.mp hx]; exact hc
    · rw [List.mem_singleton.mp hes] at hx
      rw [List.mem_singleton.mp hx]; exact hc')

theorem and_clear {env : Env} {only : Option Cur} (ha : env.AsciiSep) (hand : trim env "and".toList = "and".toList)
    (hor : trim env "or".toList = "or".toList) {w w' : List Str} {e e' : Ast} (h : Term env w e) (hc : e.Clear env only)
    (h' : Term env w' e') (hc' : e'.Clear env only) :
    ClearQuery env only (w ++ "and".toList :: w') (some (.binary .and e e')) :=
  C114_clear ha hand hor (.one (.and h (.one h'))) (by
    intro es hes x hx
    rw [List.mem_singleton.mp hes] at hx
    rcases List.mem_cons.mp hx with rfl | hx
    · exact hc
    · rw [List.mem_singleton.mp hx]; exact hc')

theorem no_question {env : Env} {only : Option Cur} : ClearQuery env only [] none :=
  ⟨by simp [queryNode, preprocessQuery], fun n hn => by cases hn⟩

theorem not_clear {env : Env} {only : Option Cur} {e : Ast} (h : e.Clear env only) : (Ast.unary .not e).Clear env only := by
  obtain ⟨⟨h1, h2⟩, h3⟩ := h
  refine ⟨⟨?_, h2⟩, h3⟩
  rw [Ast.type]
  · rw [h1]; rfl
  · intro s hs; cases hs

/-! ### Reports -/

/-- The account whose line an account is shown in. -/
def inLine (depth : Option Nat) (a x : Str) : Bool := match depth with | none => x = a | some d => CutTo d x a

/-- What the flat balance says, for a clear question about a sound journal. -/
theorem clear_says {r : Run} {o : BalOrders} {today : Date} {opts : ReportOpts} {skip total : Bool} {path : Str} {pl : ParsedLedger}
    {rules : List (Txn RawPosting × Ast)} {only : Option Cur} {node : Option Ast} {L : Ledger} {rep : BalReport}
    (h : r.journal path = .ok pl) (hs : pl.Sound r.env only rules) (hl : r.ledger skip path = .ok L)
    (hq : ClearQuery r.env only opts.query node) (hx : opts.exchange = none)
    (hr : balanceCommand r o today opts skip true total path = .ok rep) (a : Str) (c : Cur) :
    rep.says a c = selSum (askedOf r.env opts node L.transactions)
      (inLine opts.depth a) c := by
  obtain ⟨L', hl', k⟩ := balanceCommand_report hr
  rw [hl] at hl'; cases hl'
  obtain ⟨sel, m, e⟩ := flat_says hx k
  rw [e, selected_asked h hs hl hq m]
  congr 1

theorem clear_total {r : Run} {o : BalOrders} {today : Date} {opts : ReportOpts} {skip flat total : Bool} {path : Str} {pl : ParsedLedger}
    {rules : List (Txn RawPosting × Ast)} {only : Option Cur} {node : Option Ast} {L : Ledger} {rep : BalReport}
    (h : r.journal path = .ok pl) (hs : pl.Sound r.env only rules) (hl : r.ledger skip path = .ok L)
    (hq : ClearQuery r.env only opts.query node) (hx : opts.exchange = none)
    (hr : balanceCommand r o today opts skip flat total path = .ok rep) {ms : List Money} (ht : rep.total = some ms) (c : Cur) :
    sumIn ms c = selSum (askedOf r.env opts node L.transactions) (fun _ => true) c := by
  obtain ⟨L', hl', k⟩ := balanceCommand_report hr
  rw [hl] at hl'; cases hl'
  obtain ⟨sel, m, e⟩ := C53_total hx k
  rw [(e ms ht).sum c, selected_asked h hs hl hq m]

theorem clear_entries {r : Run} {s : Nat → Shuf} {opts : ReportOpts} {skip : Bool} {path : Str} {pl : ParsedLedger}
    {rules : List (Txn RawPosting × Ast)} {only : Option Cur} {node : Option Ast} {L : Ledger} {lines : List RegLine}
    (h : r.journal path = .ok pl) (hs : pl.Sound r.env only rules) (hl : r.ledger skip path = .ok L)
    (hq : ClearQuery r.env only opts.query node) (hr : registerCommand r s opts skip path = .ok lines) :
    lines.map RegLine.entry = (askedOf r.env opts node L.transactions).map (fun x => (x.2.account, x.2.kind, x.2.amount.getD .zero)) := by
  unfold registerCommand at hr
  rw [hl] at hr
  obtain ⟨sel, m, e, _⟩ := C55_register (PRes.lift_ok hr)
  rw [selected_asked h hs hl hq m] at e
  have := congrArg (List.map (fun x : Str × Kind × Option Money => (x.1, x.2.1, x.2.2.getD .zero))) e
  rw [List.map_map, List.map_map] at this
  exact this

theorem ledger_of_balance {r : Run} {o : BalOrders} {today : Date} {opts : ReportOpts} {skip flat total : Bool} {path : Str} {rep : BalReport}
    (h : balanceCommand r o today opts skip flat total path = .ok rep) : ∃ L, r.ledger skip path = .ok L := by
  obtain ⟨L, hl, _⟩ := balanceCommand_report h
  exact ⟨L, hl⟩

theorem ledger_of_register {r : Run} {s : Nat → Shuf} {opts : ReportOpts} {skip : Bool} {path : Str} {lines : List RegLine}
    (h : registerCommand r s opts skip path = .ok lines) : ∃ L, r.ledger skip path = .ok L := by
  unfold registerCommand at h
  cases hl : r.ledger skip path with
  | error x => rw [hl] at h; cases h
  | ok L => exact ⟨L, rfl⟩

theorem MadeOf.map {α β : Type} {l a b : List α} (h : MadeOf l a b) (f : α → β) : MadeOf (l.map f) (a.map f) (b.map f) :=
  ⟨h.1.map f, h.2.1.map f, by rw [← List.map_append]; exact h.2.2.map f⟩

end Dinero
