import Verif.Spec.Stderr
import Verif.Lemmas.Trouble
import Verif.Lemmas.Commands
/-
Lemmas for C129: what can end with an error, and what can only panic.
-/
namespace Dinero

/-- The computation ends well or panics. -/
def OnlyPanics {α : Type} (x : Res α) : Prop := ∀ e, x ≠ .error (.error e)

theorem OnlyPanics.ok {α : Type} (a : α) : OnlyPanics (.ok a : Res α) := fun _ h => by cases h
theorem OnlyPanics.panic {α : Type} (w : String) : OnlyPanics (.error (.panic w) : Res α) := fun _ h => by cases h

theorem ratDiv_only (a b : Rat) : OnlyPanics (ratDiv a b) := by
  unfold ratDiv; split <;> intro e h <;> cases h

theorem parseRational_only (s : Str) : OnlyPanics (parseRational s) := by
  unfold parseRational; split <;> intro e h <;> cases h

theorem unaryOf_only (s : Str) : OnlyPanics (unaryOf s) := by
  intro e h; unfold unaryOf at h; repeat' split at h
  all_goals cases h

theorem binaryOf_only (r : Rule) (s : Str) : OnlyPanics (binaryOf r s) := by
  intro e h; unfold binaryOf at h; repeat' split at h
  all_goals cases h

theorem variableOf_only (s : Str) : OnlyPanics (variableOf s) := by
  intro e h; unfold variableOf at h; repeat' split at h
  all_goals cases h

theorem moneyOf_only (l : List Pair) : OnlyPanics (moneyOf l) := by
  intro e h; unfold moneyOf at h; repeat' split at h
  all_goals first
    | cases h; done
    | (next he => cases h; exact parseRational_only _ _ he)

theorem regexOf_only (env : Env) (s : Str) : OnlyPanics (regexOf env s) := by
  intro e h; unfold regexOf at h; split at h <;> cases h

theorem buildAst_only (env : Env) (p : Pair) : OnlyPanics (buildAst env p) := by
  intro e
  induction p using buildAst.induct env with
  | _ =>
    intro h
    rw [buildAst.eq_def] at h
    simp only at h
    repeat' split at h
    all_goals first
      | (cases h; done)
      | exact moneyOf_only _ _ h
      | exact variableOf_only _ _ h
      | exact regexOf_only _ _ _ h
      | (cases h; exact unaryOf_only _ _ ‹_›)
      | (cases h; exact binaryOf_only _ _ _ ‹_›)
      | (cases h; exact parseRational_only _ _ ‹_›)
      | simp_all

theorem buildRoot_only (env : Env) (s : Str) : OnlyPanics (buildRoot env s) := by
  intro e h; unfold buildRoot at h; repeat' split at h
  · cases h
  · exact buildAst_only _ _ _ h
  · cases h

theorem moneyCmp_only (a b : Money) : OnlyPanics (Money.cmp a b) := by
  intro e h; unfold Money.cmp at h; repeat' split at h
  all_goals cases h

theorem moneyDiv_only (a : Money) (q : Rat) : OnlyPanics (Money.div a q) := by
  intro e h; unfold Money.div at h; repeat' split at h
  all_goals first
    | (cases h; done)
    | (cases h; exact ratDiv_only _ _ _ ‹_›)

theorem valEq_only (a b : Val) : OnlyPanics (Val.eq a b) := by
  intro e h; unfold Val.eq at h; repeat' split at h
  all_goals cases h

theorem partialCmp_only (a b : Val) : OnlyPanics (Val.partialCmp a b) := by
  intro e h; unfold Val.partialCmp at h; repeat' split at h
  all_goals first
    | (cases h; done)
    | (cases h; exact moneyCmp_only _ _ _ ‹_›)

theorem unwrapMoney_only (b : Balance) : OnlyPanics (unwrapMoney b) := by
  intro e h; unfold unwrapMoney at h; split at h <;> cases h

theorem evalBinary_only (env : Env) (t : Txn Posting) (op : BinaryOp) (l r : Val) : OnlyPanics (evalBinary env t op l r) := by
  intro e h
  cases op <;> simp only [evalBinary, evalEq, evalCmp, evalAddSub, evalMult, evalDiv, evalBool] at h
  all_goals repeat' split at h
  all_goals first
    | (cases h; done)
    | exact unwrapMoney_only _ _ h
    | (cases h; exact valEq_only _ _ _ ‹_›)
    | (cases h; exact partialCmp_only _ _ _ ‹_›)
    | (cases h; exact moneyDiv_only _ _ _ ‹_›)
    | (cases h; exact ratDiv_only _ _ _ ‹_›)

theorem evalUnary_only (env : Env) (p : Posting) (op : UnaryOp) (v : Val) : OnlyPanics (evalUnary env p op v) := by
  intro e h; unfold evalUnary at h; repeat' split at h
  all_goals cases h

theorem evalMoney_only (env : Env) (c : Str) (q : Rat) (st : Commodities) : OnlyPanics (evalMoney env c q st) := by
  intro e h; unfold evalMoney at h; repeat' split at h
  all_goals cases h

theorem anyLoop_only {f : Posting → Commodities → Res (Val × Commodities)} (hf : ∀ p st, OnlyPanics (f p st)) :
    ∀ (ps : List Posting) (st : Commodities), OnlyPanics (anyLoop f ps st)
  | [], st => .ok _
  | p :: ps, st => by
    intro e h
    rw [anyLoop] at h
    split at h
    · next he => cases h; exact hf _ _ _ he
    · cases h
    · exact anyLoop_only hf ps _ _ h
    · cases h

/-- The value of an expression: none of the errors of the program. -/
theorem eval_only (env : Env) (t : Txn Posting) (n : Ast) : ∀ (p : Posting) (st : Commodities), OnlyPanics (eval env t n p st) := by
  induction n with
  | unary op c ih =>
    intro p st e h
    rw [eval] at h
    split at h
    · next he => cases h; exact ih _ _ _ he
    · split at h
      · exact anyLoop_only (fun q s => ih q s) _ _ _ h
      · split at h
        · cases h
        · next he => cases h; exact evalUnary_only _ _ _ _ _ he
  | binary op l r ihl ihr =>
    intro p st e h
    rw [eval] at h
    split at h
    · next he => cases h; exact ihl _ _ _ he
    · split at h
      · next he => cases h; exact ihr _ _ _ he
      · split at h
        · cases h
        · next he => cases h; exact evalBinary_only _ _ _ _ _ _ he
  | money c q => intro p st; rw [eval]; exact evalMoney_only _ _ _ _
  | _ =>
    intro p st e h
    rw [eval] at h
    repeat' split at h
    all_goals cases h

theorem evalAmountNode_only (env : Env) (t : Txn Posting) (n : Ast) (p : Posting) (st : Commodities) :
    OnlyPanics (evalAmountNode env t n p st) := by
  intro e h; unfold evalAmountNode at h; repeat' split at h
  all_goals first
    | (cases h; done)
    | (cases h; exact eval_only _ _ _ _ _ _ ‹_›)

theorem evalValueExpression_only (env : Env) (s : Str) (t : Txn Posting) (p : Posting) (st : Commodities) :
    OnlyPanics (evalValueExpression env s t p st) := by
  intro e h; unfold evalValueExpression at h; split at h
  · next he => cases h; exact buildRoot_only _ _ _ he
  · exact evalAmountNode_only _ _ _ _ _ _ h

/-- The only error of a filter: its expression is no condition. -/
theorem filterExpression_error {env : Env} {t : Txn Posting} {n : Ast} {p : Posting} {st : Commodities} {e : Err}
    (h : filterExpression env t n p st = .error (.error e)) :
    ∃ v st', eval env t n p st = .ok (v, st') ∧ ∀ b, v ≠ .bool b := by
  unfold filterExpression at h
  split at h
  · next he => cases h; exact absurd he (eval_only _ _ _ _ _ _)
  · cases h
  · next x hn he => exact ⟨x.1, x.2, he, fun b hb => hn b x.2 (by rw [← hb])⟩

theorem filterPosting_error {env : Env} {o : FilterOpts} {node : Option Ast} {t : Txn Posting} {p : Posting} {st : Commodities}
    {e : Err} (h : filterPosting env o node t p st = .error (.error e)) :
    ∃ n, node = some n ∧ ∃ v st', eval env t n p st = .ok (v, st') ∧ ∀ b, v ≠ .bool b := by
  unfold filterPosting at h
  split at h
  · cases h
  · split at h
    · next he => exfalso; repeat' split at he
                 all_goals first | (cases he; done) | (cases he; cases h)
    · cases h
    · split at h
      · next he => exfalso; repeat' split at he
                   all_goals first | (cases he; done) | (cases he; cases h)
      · cases h
      · split at h
        · cases h
        · exact ⟨_, rfl, filterExpression_error h⟩

theorem queryNode_only (env : Env) (q : List Str) : OnlyPanics (queryNode env q) := by
  intro e h; unfold queryNode at h; simp only at h; repeat' split at h
  all_goals first
    | (cases h; done)
    | (cases h; exact buildRoot_only _ _ _ ‹_›)

theorem queryNode_some {env : Env} {q : List Str} {n : Ast} (h : queryNode env q = .ok (some n)) :
    buildRoot env (preprocessQuery env q) = .ok n := by
  unfold queryNode at h; simp only at h; repeat' split at h
  all_goals first
    | (cases h; done)
    | (cases h; assumption)

/-! ### The reports -/

theorem collectPostings_error {env : Env} {o : FilterOpts} {node : Option Ast} {t : Txn Posting} {e : Err} :
    ∀ (ps : List Posting) (bals : Balances) (st : Commodities), collectPostings env o node t ps bals st = .error (.error e) →
      ∃ n p, node = some n ∧ p ∈ ps ∧ ∃ before v after, eval env t n p before = .ok (v, after) ∧ ∀ b, v ≠ .bool b
  | [], bals, st, h => by cases h
  | p :: ps, bals, st, h => by
    rw [collectPostings] at h
    split at h
    · next he =>
      cases h
      obtain ⟨n, h1, v, st', h2⟩ := filterPosting_error he
      exact ⟨n, p, h1, by simp, st, v, st', h2⟩
    · obtain ⟨n, q, h1, h2, h3⟩ := collectPostings_error ps _ _ h
      exact ⟨n, q, h1, List.mem_cons_of_mem _ h2, h3⟩
    · split at h
      · next he =>
        cases h
        unfold collectPosting at he
        split at he <;> cases he
      · obtain ⟨n, q, h1, h2, h3⟩ := collectPostings_error ps _ _ h
        exact ⟨n, q, h1, List.mem_cons_of_mem _ h2, h3⟩

theorem collectAll_error {env : Env} {o : FilterOpts} {node : Option Ast} {e : Err} :
    ∀ (ts : List (Txn Posting)) (bals : Balances) (st : Commodities), collectAll env o node ts bals st = .error (.error e) →
      ∃ n t p, node = some n ∧ t ∈ ts ∧ NoCondition env t p n
  | [], bals, st, h => by cases h
  | t :: ts, bals, st, h => by
    rw [collectAll] at h
    split at h
    · next he =>
      cases h
      obtain ⟨n, p, h1, h2, h3⟩ := collectPostings_error _ _ _ he
      exact ⟨n, t, p, h1, by simp, h2, h3⟩
    · obtain ⟨n, t', p, h1, h2, h3⟩ := collectAll_error ts _ _ h
      exact ⟨n, t', p, h1, List.mem_cons_of_mem _ h2, h3⟩

theorem mergeLoop_only (l : List (Str × Balance)) (a : Str) (acc : List (Str × Balance)) : OnlyPanics (mergeLoop l a acc) := by
  induction l generalizing a acc with
  | nil => exact .ok _
  | cons x rest ih =>
    obtain ⟨name, value⟩ := x
    unfold mergeLoop
    split
    · exact ih _ _
    · split
      · exact .panic _
      · exact ih _ _

theorem flatRows_only (o : BalOrders) (d : Option Nat) (bals : Balances) : OnlyPanics (flatRows o d bals) := by
  unfold flatRows
  split
  · exact mergeLoop_only _ _ _
  · exact .ok _

theorem relaxAll_only (v : Node) (path : List Edge) : ∀ (l : List (Node × Edge)) (st : DState), OnlyPanics (relaxAll v path l st)
  | [], st => .ok _
  | ue :: l, st => by
    intro e h
    rw [relaxAll] at h
    split at h
    · next he =>
      cases h
      unfold relaxStep at he
      simp only at he
      repeat' split at he
      all_goals cases he
    · exact relaxAll_only v path l _ _ h

theorem dijkstra_only (g : Graph) : ∀ (k : Nat) (q : List Node) (st : DState), OnlyPanics (dijkstra g k q st)
  | 0, q, st => .ok _
  | k + 1, q, st => by
    intro e h
    rw [dijkstra] at h
    repeat' split at h
    · cases h
    · cases h
    · cases h
    · next he => cases h; exact relaxAll_only _ _ _ _ _ he
    · exact dijkstra_only g k _ _ _ h

theorem pathMult_only : ∀ (es : List Edge) (m : Rat) (c : Cur), OnlyPanics (pathMult es m c)
  | [], m, c => .ok _
  | x :: es, m, c => by
    intro e h
    rw [pathMult] at h
    repeat' split at h
    · exact pathMult_only es _ _ _ h
    · exact pathMult_only es _ _ _ h
    · next he => cases h; exact ratDiv_only _ _ _ he
    · exact pathMult_only es _ _ _ h

theorem multLoop_only : ∀ (l : List (Node × List Edge)) (ms : HMap Cur Rat) (ins : HMap Cur Date), OnlyPanics (multLoop l ms ins)
  | [], ms, ins => .ok _
  | (k, path) :: rest, ms, ins => by
    intro e h
    rw [multLoop] at h
    repeat' split at h
    · exact multLoop_only rest _ _ _ h
    · next he => cases h; exact pathMult_only _ _ _ _ he
    · exact multLoop_only rest _ _ _ h
    · next he => cases h; exact pathMult_only _ _ _ _ he
    · exact multLoop_only rest _ _ _ h

theorem conversion_only (o : ConvOrders) (target : Cur) (date : Date) (prices : List Price) :
    OnlyPanics (conversion o target date prices) := by
  intro e h
  unfold conversion at h
  simp only at h
  split at h
  · next he => cases h; exact dijkstra_only _ _ _ _ _ he
  · exact multLoop_only _ _ _ _ h

theorem convertLoop_only (ms : HMap Cur Rat) (target : Cur) : ∀ (l : List (Option Cur × Money)) (acc : Balance),
    OnlyPanics (convertLoop ms target l acc)
  | [], acc => .ok _
  | (none, _) :: _, acc => .panic _
  | (some c, money) :: rest, acc => by
    rw [convertLoop]
    split
    · exact convertLoop_only ms target rest _
    · exact convertLoop_only ms target rest _

theorem convertRows_only (s : Str → Shuf) (ms : HMap Cur Rat) (target : Cur) : ∀ (l : List (Str × Balance)),
    OnlyPanics (convertRows s ms target l)
  | [] => .ok _
  | (name, b) :: rest => by
    intro e h
    rw [convertRows] at h
    repeat' split at h
    · next he => cases h; exact convertLoop_only _ _ _ _ _ he
    · next he => cases h; exact convertRows_only s ms target rest _ he
    · cases h

theorem exchangeTable_only (env : Env) (o : BalOrders) (today : Date) (l : Ledger) (st : Commodities) (x : Option Str) :
    OnlyPanics (exchangeTable env o today l st x) := by
  intro e h
  unfold exchangeTable at h
  repeat' split at h
  all_goals first
    | (cases h; done)
    | (cases h; exact conversion_only _ _ _ _ _ ‹_›)

theorem finishBalance_only (o : BalOrders) (flat showTotal : Bool) (d : Option Nat) (bals : Balances)
    (table : Option (Cur × HMap Cur Rat)) (rows : List (Str × Balance)) :
    OnlyPanics (finishBalance o flat showTotal d bals table rows) := by
  intro e h
  unfold finishBalance at h
  simp only at h
  split at h
  · split at h
    · next he =>
      cases h
      repeat' split at he
      · exact convertLoop_only _ _ _ _ _ he
      · cases he
      · cases he
    · cases h
  · cases h

/-- The only error of the balance report: the query is no condition. -/
theorem balanceReport_error {env : Env} {o : BalOrders} {today : Date} {opts : ReportOpts} {flat showTotal : Bool} {l : Ledger}
    {e : Err} (h : balanceReport env o today opts flat showTotal l = .error (.error e)) :
    ∃ n t p, queryNode env opts.query = .ok (some n) ∧ t ∈ l.transactions ∧ NoCondition env t p n := by
  unfold balanceReport at h
  split at h
  · next he => cases h; exact absurd he (queryNode_only _ _ _)
  · next node hq =>
    split at h
    · next he =>
      cases h
      obtain ⟨n, t, p, h1, h2⟩ := collectAll_error _ _ _ he
      exact ⟨n, t, p, by rw [hq, h1], h2⟩
    · exfalso
      repeat' split at h
      all_goals first
        | exact finishBalance_only _ _ _ _ _ _ _ _ h
        | (cases h; exact exchangeTable_only _ _ _ _ _ _ _ ‹_›)
        | (cases h; exact convertRows_only _ _ _ _ _ ‹_›)
        | (next he => cases h; repeat' split at he
                      all_goals first | (cases he; done) | exact flatRows_only _ _ _ _ he)

theorem getPayee_only (env : Env) (t : Txn Posting) (l : NList PayeeDef) : OnlyPanics (getPayee env t l) := by
  intro e h
  unfold getPayee at h
  repeat' split at h
  all_goals cases h

theorem registerPosting_only (env : Env) (s : Shuf) (t : Txn Posting) (k : Nat) (p : Posting) (st : RegState) :
    OnlyPanics (registerPosting env s t k p st) := by
  intro e h
  unfold registerPosting at h
  split at h
  · next he =>
    cases h
    repeat' split at he
    all_goals first
      | (cases he; done)
      | (cases he; exact getPayee_only _ _ _ _ ‹_›)
  · split at h <;> cases h

theorem registerPostings_error {env : Env} {s : Nat → Shuf} {o : FilterOpts} {node : Option Ast} {t : Txn Posting} {e : Err} :
    ∀ (ps : List Posting) (k : Nat) (st : RegState), registerPostings env s o node t ps k st = .error (.error e) →
      ∃ n p, node = some n ∧ p ∈ ps ∧ ∃ before v after, eval env t n p before = .ok (v, after) ∧ ∀ b, v ≠ .bool b
  | [], k, st, h => by cases h
  | p :: ps, k, st, h => by
    rw [registerPostings] at h
    split at h
    · next he =>
      cases h
      obtain ⟨n, h1, v, st', h2⟩ := filterPosting_error he
      exact ⟨n, p, h1, by simp, st.commodities, v, st', h2⟩
    · obtain ⟨n, q, h1, h2, h3⟩ := registerPostings_error ps _ _ h
      exact ⟨n, q, h1, List.mem_cons_of_mem _ h2, h3⟩
    · split at h
      · next he => cases h; exact absurd he (registerPosting_only _ _ _ _ _ _ _)
      · obtain ⟨n, q, h1, h2, h3⟩ := registerPostings_error ps _ _ h
        exact ⟨n, q, h1, List.mem_cons_of_mem _ h2, h3⟩

theorem registerAll_error {env : Env} {s : Nat → Shuf} {o : FilterOpts} {node : Option Ast} {e : Err} :
    ∀ (ts : List (Txn Posting)) (st : RegState), registerAll env s o node ts st = .error (.error e) →
      ∃ n t p, node = some n ∧ t ∈ ts ∧ NoCondition env t p n
  | [], st, h => by cases h
  | t :: ts, st, h => by
    rw [registerAll] at h
    split at h
    · next he =>
      cases h
      obtain ⟨n, p, h1, h2, h3⟩ := registerPostings_error _ _ _ he
      exact ⟨n, t, p, h1, by simp, h2, h3⟩
    · obtain ⟨n, t', p, h1, h2, h3⟩ := registerAll_error ts _ h
      exact ⟨n, t', p, h1, List.mem_cons_of_mem _ h2, h3⟩

/-- The only error of the register: the query is no condition. -/
theorem registerReport_error {env : Env} {s : Nat → Shuf} {opts : ReportOpts} {l : Ledger} {e : Err}
    (h : registerReport env s opts l = .error (.error e)) :
    ∃ n t p, queryNode env opts.query = .ok (some n) ∧ t ∈ l.transactions ∧ NoCondition env t p n := by
  unfold registerReport at h
  split at h
  · next he => cases h; exact absurd he (queryNode_only _ _ _)
  · next node hq =>
    split at h
    · next he =>
      cases h
      obtain ⟨n, t, p, h1, h2⟩ := registerAll_error _ _ he
      exact ⟨n, t, p, by rw [hq, h1], h2⟩
    · cases h

/-! ### The ledger -/

theorem commodityNamed_only (env : Env) (cs : Commodities) (n : Str) : OnlyPanics (commodityNamed env cs n) := by
  unfold commodityNamed; split <;> intro e h <;> cases h

theorem directivePrices_only (env : Env) (cs : Commodities) : ∀ ps, OnlyPanics (directivePrices env cs ps)
  | [] => .ok _
  | p :: ps => by
    intro e h
    rw [directivePrices] at h
    repeat' split at h
    all_goals first
      | (cases h; done)
      | (next he => cases h; exact commodityNamed_only _ _ _ _ he)
      | (next he => cases h; exact directivePrices_only env cs ps _ he)

theorem rawMoney_only (env : Env) (cs : Commodities) (c : Option Str) (q : Option Rat) : OnlyPanics (rawMoney env cs c q) := by
  intro e h
  unfold rawMoney at h
  repeat' split at h
  all_goals first
    | (cases h; done)
    | (next he => cases h; exact commodityNamed_only _ _ _ _ he)

theorem rawCost_only (env : Env) (cs : Commodities) (d : Option Date) (p : RawPosting) (m : Option Money) :
    OnlyPanics (rawCost env cs d p m) := by
  intro e h
  unfold rawCost at h
  repeat' split at h
  all_goals first
    | (cases h; done)
    | (next he => cases h; exact commodityNamed_only _ _ _ _ he)
    | (next he =>
        cases h
        unfold unitPrice at he
        repeat' split at he
        all_goals first | (cases he; done) | exact ratDiv_only _ _ _ he)

theorem convertPosting_only {env : Env} {s : Shuf} {l : Lists} {t : Txn RawPosting} {tags : List Tag} {p : RawPosting}
    (ha : ∃ n, Finds env.lower l.accounts p.account n) : OnlyPanics (convertPosting env s l t tags p) := by
  intro e h
  unfold convertPosting at h
  repeat' split at h
  all_goals first
    | (cases h; done)
    | (next he => cases h; exact rawMoney_only _ _ _ _ _ he)
    | (next he => cases h; exact rawCost_only _ _ _ _ _ _ he)
    | (next he =>
        cases h
        unfold postingPayee at he
        repeat' split at he
        all_goals (cases he; done))
    | (next he =>
        cases h
        unfold postingAccount at he
        obtain ⟨n, x, hx, _⟩ := ha
        split at he
        · cases he
        · rw [hx] at he; cases he)

theorem convertPostings_only {env : Env} {s : Shuf} {l : Lists} {t : Txn RawPosting} {tags : List Tag} :
    ∀ (ps : List RawPosting), (∀ p ∈ ps, ∃ n, Finds env.lower l.accounts p.account n) → OnlyPanics (convertPostings env s l t tags ps)
  | [], _ => .ok _
  | p :: ps, ha => by
    intro e h
    rw [convertPostings] at h
    repeat' split at h
    · next he => cases h; exact convertPosting_only (ha p (by simp)) _ he
    · next he => cases h; exact convertPostings_only ps (fun q hq => ha q (List.mem_cons_of_mem _ hq)) _ he
    · cases h

theorem totalBalanceEntry_only (m : Money) (c : Option Cost) : OnlyPanics (totalBalanceEntry m c) := by
  intro e h
  unfold totalBalanceEntry at h
  repeat' split at h
  all_goals cases h

theorem totalBalance_only (ps : List Posting) (k : Kind) : OnlyPanics (totalBalance ps k) := by
  have : ∀ (acc : Balance), OnlyPanics (totalBalanceLoop k ps acc) := by
    induction ps with
    | nil => exact fun _ => .ok _
    | cons p ps ih =>
      intro acc e h
      rw [totalBalanceLoop] at h
      repeat' split at h
      all_goals first
        | exact ih _ _ h
        | (next he => cases h; exact totalBalanceEntry_only _ _ _ he)
  exact this _

theorem convertTxn_only {env : Env} {s : Shuf} {l : Lists} {t : Txn RawPosting}
    (ha : ∀ p ∈ t.postings, ∃ n, Finds env.lower l.accounts p.account n) : OnlyPanics (convertTxn env s l t) := by
  intro e h
  unfold convertTxn at h
  split at h
  · next he => cases h; exact convertPostings_only _ ha _ he
  · simp only at h
    repeat' split at h
    all_goals first
      | (cases h; done)
      | (next he =>
          cases h
          unfold Txn.isBalanced at he
          split at he
          · next he' => cases he; exact totalBalance_only _ _ _ he'
          · cases he)

theorem convertTxn_header {env : Env} {s : Shuf} {l : Lists} {t : Txn RawPosting} {t' : Txn Posting} {prs : List Price}
    (h : convertTxn env s l t = .ok (t', prs)) : t'.header = t.header := by
  unfold convertTxn at h
  split at h
  · cases h
  · simp only at h
    repeat' split at h
    all_goals (cases h; try rfl)

theorem convertAll_only {env : Env} {s : Shuf} {l : Lists} :
    ∀ (ts : List (Txn RawPosting)), (∀ t ∈ ts, ∀ p ∈ t.postings, ∃ n, Finds env.lower l.accounts p.account n) →
      OnlyPanics (convertAll env s l ts)
  | [], _ => .ok _
  | t :: ts, ha => by
    intro e h
    rw [convertAll] at h
    have hr := convertAll_only (env := env) (s := s) (l := l) ts (fun q hq => ha q (List.mem_cons_of_mem _ hq))
    repeat' split at h
    all_goals first
      | (cases h; done)
      | exact hr _ h
      | (next he => cases h; exact convertTxn_only (ha t (by simp)) _ he)
      | (next he => cases h; exact hr _ he)

theorem convertAll_headers {env : Env} {s : Shuf} {l : Lists} :
    ∀ (ts : List (Txn RawPosting)) {txns : List (Txn Posting)} {autos : List (Txn RawPosting)} {prs : List Price},
      convertAll env s l ts = .ok (txns, autos, prs) →
      (∀ t ∈ txns, ∃ raw ∈ ts, raw.ttype = .real ∧ t.header = raw.header) ∧ ∀ t ∈ autos, t ∈ ts ∧ t.ttype = .automated
  | [], _, _, _, h => by cases h; simp
  | t :: ts, txns, autos, prs, h => by
    rw [convertAll] at h
    split at h
    · next hk =>
      split at h
      · cases h
      · next hc =>
        split at h
        · cases h
        · next hr =>
          cases h
          obtain ⟨i1, i2⟩ := convertAll_headers ts hr
          refine ⟨fun x hx => ?_, fun x hx => ⟨List.mem_cons_of_mem _ (i2 x hx).1, (i2 x hx).2⟩⟩
          rcases List.mem_cons.mp hx with rfl | hx
          · exact ⟨t, by simp, hk, convertTxn_header hc⟩
          · obtain ⟨raw, h1, h2⟩ := i1 x hx
            exact ⟨raw, List.mem_cons_of_mem _ h1, h2⟩
    · next hk =>
      split at h
      · cases h
      · next hr =>
        cases h
        obtain ⟨i1, i2⟩ := convertAll_headers ts hr
        refine ⟨fun x hx => ?_, fun x hx => ?_⟩
        · obtain ⟨raw, h1, h2⟩ := i1 x hx
          exact ⟨raw, List.mem_cons_of_mem _ h1, h2⟩
        · rcases List.mem_cons.mp hx with rfl | hx
          · exact ⟨by simp, hk⟩
          · exact ⟨List.mem_cons_of_mem _ (i2 x hx).1, (i2 x hx).2⟩
    · obtain ⟨i1, i2⟩ := convertAll_headers ts h
      refine ⟨fun x hx => ?_, fun x hx => ⟨List.mem_cons_of_mem _ (i2 x hx).1, (i2 x hx).2⟩⟩
      obtain ⟨raw, h1, h2⟩ := i1 x hx
      exact ⟨raw, List.mem_cons_of_mem _ h1, h2⟩

theorem impliedPrice_only (s : Shuf) (d : Date) (b : Balance) : OnlyPanics (impliedPrice s d b) := by
  intro e h
  unfold impliedPrice at h
  repeat' split at h
  all_goals first
    | (cases h; done)
    | (next he => cases h; exact ratDiv_only _ _ _ he)

theorem balanceEntry_only (m : Money) (c : Option Cost) : OnlyPanics (balanceEntry m c) := by
  intro e h
  unfold balanceEntry at h
  repeat' split at h
  all_goals cases h

theorem toMoney_fails {b : Balance} {e : Err} (h : Balance.toMoney b = .error (.error e)) : e = .notBalanced := by
  unfold Balance.toMoney at h
  split at h <;> cases h
  rfl

theorem balanceLoop_fails {skip : Bool} {e : Err} : ∀ (ps : List Posting) (st : LoopSt),
    balanceLoop skip ps st = .error (.error e) → e = .notBalanced
  | [], st, h => by cases h
  | p :: ps, st, h => by
    rw [balanceLoop] at h
    split at h
    · next he =>
      cases h
      unfold balanceStep at he
      simp only at he
      repeat' split at he
      all_goals first
        | (cases he; done)
        | (cases he; rfl)
        | (cases he; exact toMoney_fails ‹_›)
        | (cases he; exact absurd ‹_› (balanceEntry_only _ _ _))
    · exact balanceLoop_fails ps _ h

theorem fillLoop_only (t : Txn Posting) (a : Str) (p : Option Str) : ∀ (ms : List Money) (bals : Balances) (out : List Posting),
    OnlyPanics (fillLoop t a p ms bals out)
  | [], bals, out => .ok _
  | m :: ms, bals, out => by
    rw [fillLoop]
    split
    · exact .panic _
    · exact fillLoop_only t a p ms _ _

/-- The errors of balancing: the transaction does not balance, or several amounts are left out. -/
theorem balance_error {s : Shuf} {skip : Bool} {bals : Balances} {t : Txn Posting} {e : Err}
    (h : Txn.balance s skip bals t = .error (.error e)) : e = .notBalanced ∨ ∃ n, 2 ≤ n ∧ e = .tooManyEmpty n := by
  unfold Txn.balance at h
  simp only at h
  split at h
  · next he => cases h; exact absurd he (totalBalance_only _ _ _)
  · split at h
    · cases h; exact .inl rfl
    · split at h
      · next he => cases h; exact .inl (balanceLoop_fails _ _ he)
      · split at h
        · next hg => cases h; exact .inr ⟨_, hg, rfl⟩
        · repeat' split at h
          all_goals first
            | (cases h; done)
            | (cases h; exact .inl rfl)
            | (next he =>
                cases h
                exact absurd he (fillLoop_only _ _ _ _ _ _ _))

/-- A pass that ends with an error has a transaction that cannot be booked, and shows it. -/
theorem balancePass_error {skip : Bool} {e : Err} {o : Shuf × Shuf} : ∀ (ts : List (Txn Posting)) (σ ρ : Nat → Shuf) (bals : Balances),
    balancePass skip σ ρ bals ts = .error (.error e) → ∃ t ∈ ts, ∃ s b before, Txn.balance s skip b t = .error (.error e) ∧
      passText o skip σ bals ts = before ++ t.display ++ '\n' :: e.debug ++ ['\n']
  | [], σ, ρ, bals, h => by cases h
  | t :: ts, σ, ρ, bals, h => by
    rw [balancePass] at h
    rw [passText]
    split at h
    · cases h
    · split at h
      · next he =>
        cases h
        rw [he]
        exact ⟨t, by simp, _, _, _, he, rfl⟩
      · next hb =>
        rw [hb]
        split at h
        · next he => cases h; exact absurd he (impliedPrice_only _ _ _ _)
        · split at h
          · next he =>
            cases h
            obtain ⟨t', h1, h2⟩ := balancePass_error (o := o) ts _ _ _ he
            exact ⟨t', List.mem_cons_of_mem _ h1, h2⟩
          · cases h

theorem ensure_only {T : Type} [Named T] (lower : Str → Str) (make : Str → T) (l : NList T) (n : Str) :
    OnlyPanics (l.ensure lower make n) := by
  intro e h
  unfold NList.ensure at h
  repeat' split at h
  all_goals cases h

theorem rulePosting_only (env : Env) (t : Txn Posting) (p : Posting) (rp : RawPosting) (l : Lists) :
    OnlyPanics (rulePosting env t p rp l) := by
  intro e h
  unfold rulePosting rulePayee ruleMoney at h
  repeat' split at h
  all_goals first
    | (cases h; done)
    | (cases h; exact ensure_only _ _ _ _ _ ‹_›)
    | (next he =>
        cases h
        repeat' split at he
        all_goals first
          | (cases he; done)
          | exact evalValueExpression_only _ _ _ _ _ _ he
          | (cases he; exact ensure_only _ _ _ _ _ ‹_›)
          | (cases he; exact commodityNamed_only _ _ _ _ ‹_›))

theorem rulePostings_only (env : Env) (t : Txn Posting) (p : Posting) : ∀ (rps : List RawPosting) (l : Lists),
    OnlyPanics (rulePostings env t p rps l)
  | [], l => .ok _
  | rp :: rps, l => by
    intro e h
    rw [rulePostings] at h
    repeat' split at h
    · next he => cases h; exact rulePosting_only _ _ _ _ _ _ he
    · next he => cases h; exact rulePostings_only env t p rps _ _ he
    · cases h

theorem ruleLoop_error {env : Env} {node : Ast} {rule : Txn RawPosting} {t : Txn Posting} {e : Err} :
    ∀ (todo done extra : List Posting) (l : Lists), ruleLoop env node rule t done todo extra l = .error (.error e) →
      ∃ t' p, NoCondition env t' p node
  | [], done, extra, l, h => by rw [ruleLoop] at h; cases h
  | p :: todo, done, extra, l, h => by
    rw [ruleLoop] at h
    split at h
    · exact ruleLoop_error todo _ _ _ h
    · split at h
      · next he =>
        cases h
        obtain ⟨v, st', h1, h2⟩ := filterExpression_error he
        exact ⟨_, p, by simp, l.commodities, v, st', h1, h2⟩
      · exact ruleLoop_error todo _ _ _ h
      · simp only at h
        split at h
        · next he => cases h; exact absurd he (rulePostings_only _ _ _ _ _ _)
        · exact ruleLoop_error todo _ _ _ h

theorem applyRule_error {env : Env} {rule : Txn RawPosting × Ast} {t : Txn Posting} {l : Lists} {e : Err}
    (h : applyRule env rule t l = .error (.error e)) : ∃ t' p, NoCondition env t' p rule.2 := by
  unfold applyRule at h
  split at h
  · next he => cases h; exact ruleLoop_error _ _ _ _ he
  · cases h

theorem applyRules_error {env : Env} {e : Err} : ∀ (rules : List (Txn RawPosting × Ast)) (t : Txn Posting) (l : Lists),
    applyRules env rules t l = .error (.error e) →
      ∃ r ∈ rules, culprit env rules t l = some r.2 ∧ ∃ t' p, NoCondition env t' p r.2
  | [], t, l, h => by cases h
  | r :: rs, t, l, h => by
    rw [applyRules] at h
    rw [culprit]
    split at h
    · next he =>
      cases h
      rw [he]
      exact ⟨r, by simp, rfl, applyRule_error he⟩
    · next he =>
      rw [he]
      obtain ⟨r', h1, h2⟩ := applyRules_error rs _ _ h
      exact ⟨r', List.mem_cons_of_mem _ h1, h2⟩

theorem automate_error {env : Env} {rules : List (Txn RawPosting × Ast)} {e : Err} : ∀ (ts : List (Txn Posting)) (l : Lists),
    automate env rules ts l = .error (.error e) →
      ∃ r ∈ rules, culprits env rules ts l = some r.2 ∧ ∃ t' p, NoCondition env t' p r.2
  | [], l, h => by cases h
  | t :: ts, l, h => by
    rw [automate] at h
    rw [culprits]
    split at h
    · next he =>
      cases h
      rw [he]
      exact applyRules_error _ _ _ he
    · next he =>
      rw [he]
      split at h
      · next ha => cases h; exact automate_error ts _ ha
      · cases h

theorem automate_no_culprit {env : Env} {rules : List (Txn RawPosting × Ast)} : ∀ (ts : List (Txn Posting)) (l : Lists)
    (x : List (Txn Posting) × Lists), automate env rules ts l = .ok x → culprits env rules ts l = none
  | [], l, x, h => rfl
  | t :: ts, l, x, h => by
    rw [automate] at h
    rw [culprits]
    split at h
    · cases h
    · next he =>
      rw [he]
      split at h
      · cases h
      · next ha => exact automate_no_culprit ts _ _ ha

theorem ruleNodes_only (env : Env) : ∀ rs, OnlyPanics (ruleNodes env rs)
  | [] => .ok _
  | r :: rs => by
    intro e h
    rw [ruleNodes] at h
    repeat' split at h
    · next he => cases h; exact buildRoot_only _ _ _ he
    · next he => cases h; exact ruleNodes_only env rs _ he
    · cases h

theorem ruleNodes_mem {env : Env} : ∀ (rs : List (Txn RawPosting)) {rules : List (Txn RawPosting × Ast)}, ruleNodes env rs = .ok rules →
    ∀ r ∈ rules, r.1 ∈ rs ∧ buildRoot env (preprocessQuery env (splitQuery r.1.description)) = .ok r.2
  | [], rules, h => by cases h; simp
  | x :: rs, rules, h => by
    rw [ruleNodes] at h
    repeat' split at h
    · cases h
    · cases h
    · next hb _ _ hr =>
      cases h
      intro r hm
      rcases List.mem_cons.mp hm with rfl | hm
      · exact ⟨by simp, hb⟩
      · exact ⟨List.mem_cons_of_mem _ (ruleNodes_mem rs hr r hm).1, (ruleNodes_mem rs hr r hm).2⟩

theorem forall₂_left {α β : Type} {R : α → β → Prop} {xs : List α} {ys : List β} (h : List.Forall₂ R xs ys) :
    ∀ y ∈ ys, ∃ x ∈ xs, R x y := by
  induction h with
  | nil => simp
  | cons hr _ ih =>
    intro y hy
    rcases List.mem_cons.mp hy with rfl | hy
    · exact ⟨_, by simp, hr⟩
    · obtain ⟨x, h1, h2⟩ := ih y hy
      exact ⟨x, List.mem_cons_of_mem _ h1, h2⟩

/-- Whenever there is no ledger, and not because of a panic, something is written, and this is why. -/
theorem ledger_cause {r : Run} {sp : Speech} {skip : Bool} {path : Str} {e : Err} (ha : r.env.AsciiChars)
    (h : r.ledger skip path = .error (.fail (.error e))) : Cause r sp skip path (r.said sp skip path) := by
  unfold Run.ledger at h
  unfold Run.said
  cases hj : r.journal path with
  | error f =>
    rw [hj] at h
    cases h
    simp only
    obtain ⟨x, h1, h2⟩ := file_place ha r.fs r.fuel r.depth [] path (by simp) e hj
    have : r.rejection sp.shown path = some (x.written sp.shown) := by rw [Run.rejection, hj, h1]; rfl
    rw [this]
    exact .parser hj h2
  | ok pl =>
    rw [hj] at h
    simp only at h ⊢
    have ht : toLedger r.env r.orders skip pl = .error (.error e) := by
      revert h
      cases toLedger r.env r.orders skip pl with
      | ok L => intro h; cases h
      | error f => intro h; cases h; rfl
    clear h
    have hok : JournalOk r.env.lower pl := tokenizeFile_journalOk _ _ _ hj
    obtain ⟨l, hp, hpop, _⟩ := populate_spec (o := r.orders) hok.ok.lists
    unfold toLedger at ht
    rw [hp] at ht
    simp only at ht
    unfold ledgerText ledgerCulprit
    rw [hp]
    simp only
    unfold buildLedger at ht
    cases hd : directivePrices r.env l.commodities pl.prices with
    | error f => rw [hd] at ht; cases ht; exact absurd hd (directivePrices_only _ _ _ _)
    | ok prices =>
      rw [hd] at ht
      simp only at ht ⊢
      cases hc : convertAll r.env r.orders.unknown l pl.transactions with
      | error f =>
        rw [hc] at ht; cases ht
        exact absurd hc (convertAll_only _ (fun t ht p hp => ⟨_, (hpop.postings t ht p hp).account.choose_spec⟩) _)
      | ok x =>
        obtain ⟨txns, autos, prs⟩ := x
        obtain ⟨hh1, hh2⟩ := convertAll_headers _ hc
        rw [hc] at ht
        simp only at ht ⊢
        have hsd : sortByDate txns = if txns.any (fun t => t.date.isNone) then .error (.panic "date.unwrap()")
          else .ok (sortBy (fun a b => decide (a.date.getD 0 ≤ b.date.getD 0)) txns) := rfl
        by_cases hdates : txns.any (fun t => t.date.isNone)
        · rw [if_pos hdates] at hsd
          rw [hsd] at ht
          cases ht
        · rw [if_neg hdates] at hsd
          rw [hsd] at ht ⊢
          simp only at ht ⊢
          have hmem : ∀ t ∈ sortBy (fun a b => decide (a.date.getD 0 ≤ b.date.getD 0)) txns, ∃ raw ∈ pl.regular, t.header = raw.header := by
            intro t htm
            obtain ⟨raw, h1, h2, h3⟩ := hh1 t ((sortBy_perm _ _).mem_iff.mp htm)
            exact ⟨raw, List.mem_filter.mpr ⟨h1, by simp [h2]⟩, h3⟩
          cases hb : balancePass skip r.orders.fill r.orders.rate (initialBalances l.accounts)
              (sortBy (fun a b => decide (a.date.getD 0 ≤ b.date.getD 0)) txns) with
          | error f =>
            rw [hb] at ht
            cases ht
            simp only
            obtain ⟨t, h1, s, b, before, h2, h3⟩ := balancePass_error (o := sp.maps) _ _ _ _ hb
            obtain ⟨raw, h4, h5⟩ := hmem t h1
            rw [h3, List.append_nil]
            exact .booking hj h4 h5 (balance_error h2) h2
          | ok y =>
            obtain ⟨ts, rates⟩ := y
            rw [hb] at ht
            simp only at ht ⊢
            have hinv := balancePass_inv _ hb
            unfold automatedPass at ht
            unfold automatedText
            split at ht
            · next he =>
              cases ht
              split at he
              · next hlen =>
                rw [if_pos hlen]
                cases hn : ruleNodes r.env autos with
                | error f => rw [hn] at he; cases he; exact absurd hn (ruleNodes_only _ _ _)
                | ok rules =>
                  rw [hn] at he
                  simp only at he ⊢
                  cases hau : automate r.env rules ts l with
                  | error f =>
                    rw [hau] at he
                    cases he
                    obtain ⟨rule, k1, k2, t', p, k3⟩ := automate_error _ _ hau
                    obtain ⟨k4, k5⟩ := ruleNodes_mem _ hn _ k1
                    rw [k2]
                    simp only [List.nil_append]
                    exact .rule hj (List.mem_filter.mpr ⟨(hh2 _ k4).1, by simp [(hh2 _ k4).2]⟩) k5 k3
                  | ok z =>
                    obtain ⟨ts', l'⟩ := z
                    rw [hau] at he
                    rw [automate_no_culprit _ _ _ hau]
                    simp only at he ⊢
                    cases hb2 : balancePass skip r.orders.fill2 r.orders.rate2 (initialBalances l'.accounts) ts' with
                    | ok u => rw [hb2] at he; cases he
                    | error f =>
                      rw [hb2] at he
                      cases he
                      obtain ⟨t, h1, s, b, before, h2, h3⟩ := balancePass_error (o := sp.maps) _ _ _ _ hb2
                      obtain ⟨t1, h4, h5⟩ := forall₂_left (automate_header _ hau) t h1
                      obtain ⟨t0, h6, h7⟩ := forall₂_left hinv t1 h4
                      obtain ⟨raw, h8, h9⟩ := hmem t0 h6
                      rw [h3, List.append_nil]
                      refine .booking hj h8 ?_ (balance_error h2) h2
                      rw [h5, ← h9, h7]
                      rfl
              · cases he
            · cases ht

end Dinero
