import Verif.Lemmas.Columns
import Verif.Props.Report
/-
Properties of the converted balance report and of the headers of the register (C77, C78).
-/
namespace Dinero

/-! ### C77: `--exchange` -/

/-- **C77**, a commodity that is not known: the result is the one without conversion. -/
theorem C77_unknown {env : Env} {o : BalOrders} {today : Date} {opts : ReportOpts} {flat showTotal : Bool}
    {l : Ledger} {x : Str} {node : Option Ast} {sel : List (Txn Posting × Posting)}
    {st : Commodities} (hx : opts.exchange = some x) (hn : queryNode env opts.query = .ok node)
    (hs : Selects env opts.filter node l.entries l.commodities sel st) (hr : st.Reachable env.lower)
    (hu : ¬ ∃ n, Finds env.lower st x n) :
    balanceReport env o today opts flat showTotal l =
      balanceReport env o today { opts with exchange := none } flat showTotal l := by
  unfold balanceReport
  simp only [hn, hx]
  cases hc : collectAll env opts.filter node l.transactions [] l.commodities with
  | error e => rfl
  | ok r =>
    obtain ⟨bals, st'⟩ := r
    obtain ⟨sel', hs', _, _⟩ := collected hc
    obtain ⟨rfl, rfl⟩ := hs.unique hs'
    have he : ∃ e, st.get env.lower x = .error (.error e) := by
      rcases hg : st.get env.lower x with (w | e) | c
      · have := C32_get_total hr x
        rw [hg] at this
        simp at this
      · exact ⟨e, rfl⟩
      · exact absurd ⟨_, c, hg, rfl⟩ hu
    obtain ⟨e, he⟩ := he
    simp only [exchangeTable, he]

/-- **C77**, the total: it is the sum of all selected postings, converted with the table for the commodity
asked for (by name or alias); it is there as asked when there is more than one line. -/
theorem C77_total {env : Env} {o : BalOrders} {today : Date} {opts : ReportOpts} {flat showTotal : Bool}
    {l : Ledger} {rep : BalReport} {x target : Str} {node : Option Ast}
    {sel : List (Txn Posting × Posting)} {st : Commodities} (hx : opts.exchange = some x)
    (hn : queryNode env opts.query = .ok node)
    (hs : Selects env opts.filter node l.entries l.commodities sel st)
    (hf : Finds env.lower st x target)
    (h : balanceReport env o today opts flat showTotal l = .ok rep) :
    ∃ ms, conversion o.conv target today l.prices = .ok ms ∧
      (rep.total.isSome = true ↔ showTotal = true ∧ rep.lines.length > 1) ∧
      ∀ tm, rep.total = some tm →
        ∃ g, ConvertedTo ms target (selSum sel (fun _ => true)) g ∧ Shows tm g := by
  obtain ⟨node', sel', st', bals, rows, h1, h2, h3, h4, h5⟩ := balanceReport_exchange h hx
  rw [hn] at h1; cases h1
  obtain ⟨rfl, rfl⟩ := hs.unique h2
  rcases h5 with ⟨⟨e, he⟩, _, _⟩ | ⟨target', ms, rows', ⟨c, hc, rfl⟩, h7, h8, h9⟩
  · obtain ⟨c, hc, _⟩ := hf
    rw [he] at hc; cases hc
  · obtain ⟨c', hc', rfl⟩ := hf
    rw [hc] at hc'; cases hc'
    obtain ⟨_, h10, h11⟩ := finishBalance_exchange h3 h9
    exact ⟨ms, h7, h10, h11⟩

/-- **C77**, the lines of the flat report: one for every account for which something remains after
conversion, in increasing order of names, with the converted sum of the selected postings on the
account. -/
theorem C77_flat {env : Env} {o : BalOrders} {today : Date} {opts : ReportOpts} {showTotal : Bool}
    {l : Ledger} {rep : BalReport} {x target : Str} {node : Option Ast}
    {sel : List (Txn Posting × Posting)} {st : Commodities} (hd : opts.depth = none)
    (hx : opts.exchange = some x) (hn : queryNode env opts.query = .ok node)
    (hs : Selects env opts.filter node l.entries l.commodities sel st)
    (hf : Finds env.lower st x target)
    (h : balanceReport env o today opts true showTotal l = .ok rep) :
    ∃ ms, conversion o.conv target today l.prices = .ok ms ∧
      (rep.lines.map BalLine.label).Pairwise (· < ·) ∧
      (∀ line ∈ rep.lines, line.indent = 0 ∧
        ∃ g, ConvertedTo ms target (selSum sel (fun a => a = line.label)) g ∧ Shows line.amounts g) ∧
      ∀ a, (∃ line ∈ rep.lines, line.label = a) ↔
        ∃ g c, ConvertedTo ms target (selSum sel (fun x => x = a)) g ∧ g c ≠ 0 := by
  obtain ⟨node', sel', st', bals, rows, h1, h2, hcol, hrows, h5⟩ := balanceReport_exchange h hx
  rw [hn] at h1; cases h1
  obtain ⟨rfl, rfl⟩ := hs.unique h2
  rcases h5 with ⟨⟨e, he⟩, _, _⟩ | ⟨target', ms, rows', ⟨cu, hc, rfl⟩, h7, h8, h9⟩
  · obtain ⟨c, hc, _⟩ := hf
    rw [he] at hc; cases hc
  obtain ⟨c', hc', rfl⟩ := hf
  rw [hc] at hc'; cases hc'
  obtain ⟨hfin, _, _⟩ := finishBalance_exchange hcol h9
  simp only [if_true, hd, flatRows, Except.ok.injEq] at hrows
  have hp : (o.own.run bals).Perm bals := o.own.perm bals
  have hmem : ∀ e, e ∈ rows ↔ e ∈ bals ∧ e.2.isZero = false := by
    intro e; rw [← hrows, List.mem_filter, hp.mem_iff]; simp
  have hn : (rows.map Prod.fst).Nodup := by
    rw [← hrows]
    exact ((hp.map _).nodup_iff.mpr hcol.nodup).sublist (List.filter_sublist.map _)
  have hsum : ∀ e ∈ bals, ∀ c, e.2.amountOf c = selSum sel (fun x => x = e.1) c := by
    intro e he c
    rw [← hcol.sum, ← balSum_eq_single hcol.nodup (a := e.1) (b := e.2) he]
    apply balSum_congr; intro x _; rw [Bool.eq_iff_iff, beq_iff_eq, decide_eq_true_iff]
  have hconv := convertRows_spec rows (fun e he => hcol.canon e ((hmem e).mp he).1) h8
  have hnames : rows'.map Prod.fst = rows.map Prod.fst := by
    clear hmem hn hrows h8 h9 hfin
    induction hconv with
    | nil => rfl
    | cons hab _ ih => rw [List.map_cons, List.map_cons, ih, hab.1]
  have hcan' : ∀ e ∈ rows', e.2.Canon := by
    intro e he
    obtain ⟨e0, _, h⟩ := Forall₂.mem_right hconv he
    exact h.2.1
  obtain ⟨k1, k2, k3⟩ := flat_lines hfin (by rw [hnames]; exact hn) hcan'
  refine ⟨ms, h7, k1, ?_, ?_⟩
  · intro line hl
    obtain ⟨k4, b, hb, k5, _⟩ := k2 line hl
    obtain ⟨e0, he0, heq, _, hcv⟩ := Forall₂.mem_right hconv hb
    refine ⟨k4, b.amountOf, ?_, k5⟩
    have heq : line.label = e0.1 := heq
    rw [heq]
    exact hcv.congr (hsum e0 ((hmem e0).mp he0).1)
  · intro a
    constructor
    · rintro ⟨line, hl, rfl⟩
      obtain ⟨_, b, hb, _, hpr⟩ := k2 line hl
      obtain ⟨e0, he0, heq, hcan, hcv⟩ := Forall₂.mem_right hconv hb
      have heq : line.label = e0.1 := heq
      have hz : b.isZero = false := by
        unfold printable at hpr
        simp only [Bool.and_eq_true, Bool.not_eq_true'] at hpr
        exact hpr.2
      obtain ⟨c, hc⟩ := (Canon.isZero_false hcan).mp hz
      refine ⟨b.amountOf, c, ?_, hc⟩
      rw [heq]
      exact hcv.congr (hsum e0 ((hmem e0).mp he0).1)
    · rintro ⟨g, c, hg, hgc⟩
      have hex : ∃ e ∈ bals, e.1 = a := by
        by_contra hno
        push Not at hno
        have hz : ∀ c, selSum sel (fun x => x = a) c = 0 := by
          intro c
          rw [← hcol.sum]
          apply balSum_of_zero
          intro e he hea
          exact absurd (by simpa using hea) (hno e he)
        have : g c = 0 := by
          by_cases hct : c = Named.name cu
          · subst hct
            rw [hg.total [] (by simp) (fun d hd => absurd (hz d) hd)]; rfl
          · rw [hg.rest c hct, hz]; simp
        exact hgc this
      obtain ⟨e, he, rfl⟩ := hex
      have hbz : e.2.isZero = false := by
        cases hz : e.2.isZero with
        | false => rfl
        | true =>
          exfalso
          have hz := (Balance.isZero_iff (hcol.canon e he).toWF).mp hz
          have : g c = 0 := by
            have hz' : ∀ c, selSum sel (fun x => x = e.1) c = 0 := fun c => by rw [← hsum e he, hz]
            by_cases hct : c = Named.name cu
            · subst hct
              rw [hg.total [] (by simp) (fun d hd => absurd (hz' d) hd)]; rfl
            · rw [hg.rest c hct, hz']; simp
          exact hgc this
      obtain ⟨e', he', heq, hcan, hcv⟩ := Forall₂.mem_left hconv ((hmem e).mpr ⟨he, hbz⟩)
      have hgg : ∀ d, e'.2.amountOf d = g d := by
        intro d
        have hcv := hcv.congr (hsum e he)
        have hk := hcol.canon e he
        refine hcv.unique hg (cs := (e.2.keys.filterMap id)) ?_ ?_ d
        · refine List.Nodup.filterMap ?_ hk.toWF.nodup
          intro a a' x hx hx'
          simp only [id, Option.mem_def] at hx hx'
          rw [hx, hx']
        · intro c hc
          rw [← hsum e he, Balance.amountOf_eq hk.toWF] at hc
          cases hgt : HMap.get? e.2 (some c) with
          | none => rw [hgt] at hc; exact absurd rfl hc
          | some m =>
            exact List.mem_filterMap.mpr ⟨some c, HMap.mem_keys_of_mem
              ((HMap.get?_eq_some_iff hk.toWF.nodup _ _).mp hgt), rfl⟩
      have hz' : e'.2.isZero = false := (Canon.isZero_false hcan).mpr ⟨c, by rw [hgg]; exact hgc⟩
      obtain ⟨line, hl, hlab⟩ := k3 e' he' (by simp [printable, tooDeep, hd, hz'])
      exact ⟨line, hl, hlab.trans heq⟩

/-- The ledger of the reports with a price and an alias. -/
def exPriced : Ledger :=
  { exLedger with
    commodities := NList.insert exEnv.lower {} { name := "EUR".toList, aliases := ["Euro".toList] }
    prices := [⟨0, "ACME".toList, 35, "EUR".toList⟩] }

example : queryNode exEnv [] = .ok none ∧
    (exPriced.commodities.get exEnv.lower "Euro".toList).toOption.map Named.name = some "EUR".toList ∧
    (balanceReport exEnv exOrders 0 { exchange := some "Euro".toList } true true exPriced).toOption = some
    ⟨[⟨[.mk 70 "EUR".toList], 0, "Assets:Shares".toList⟩,
      ⟨[.mk 30 "EUR".toList], 0, "Expenses:Food".toList⟩,
      ⟨[.mk 10 "EUR".toList], 0, "Expenses:Fun".toList⟩,
      ⟨[.mk (-100) "EUR".toList], 0, "Income".toList⟩],
     some [.mk 10 "EUR".toList]⟩ := by decide +kernel

example : exPriced.commodities.Reachable exEnv.lower :=
  NList.Reachable.insert (lower := exEnv.lower)
    ({ name := "EUR".toList, aliases := ["Euro".toList] } : CurrencyDef) .new
example : (exPriced.commodities.get exEnv.lower "Zloty".toList).toOption.map Named.name = none ∧
    (balanceReport exEnv exOrders 0 { exchange := some "Zloty".toList } true true exPriced).toOption =
    (balanceReport exEnv exOrders 0 {} true true exPriced).toOption ∧
    (balanceReport exEnv exOrders 0 {} true true exPriced).toOption.isSome = true := by decide +kernel

/-! ### C78: the headers of the register -/

/-- **C78**: the lines of the register come in blocks, one for each transaction, in order; only the first line
of a block has a header, with the date of the transaction and its payee under the name the
payee list knows. -/
theorem C78_headers {env : Env} {s : Nat → Shuf} {opts : ReportOpts} {l : Ledger} {lines : List RegLine}
    (hr : l.payees.Reachable env.lower) (h : registerReport env s opts l = .ok lines) :
    ∃ blocks, lines = blocks.flatten ∧ List.Forall₂ (RegBlock env l) l.transactions blocks := by
  unfold registerReport at h
  split at h
  · cases h
  split at h
  · cases h
  next st hst =>
  cases h
  obtain ⟨blocks, h1, h2⟩ := registerAll_blocks l.transactions (l := l)
    ⟨hr, .refl _ _, fun k x e h1 h2 => by rw [h1] at h2; cases h2⟩ hst
  exact ⟨blocks, by simpa using h1, h2⟩

/-- The ledger of the reports with a payee that has an alias. -/
def exAliased : Ledger :=
  { exLedger with payees := NList.insert exEnv.lower {} { name := "Supermarket".toList, aliases := ["Shop".toList] } }

example : exAliased.payees.Reachable exEnv.lower :=
  NList.Reachable.insert (lower := exEnv.lower)
    ({ name := "Supermarket".toList, aliases := ["Shop".toList] } : PayeeDef) .new
example : (registerReport exEnv (fun _ => .id) {} exAliased).toOption.map (fun ls => ls.map RegLine.header) = some
    [some (1, "Job".toList), none, some (2, "Supermarket".toList), none, none, some (3, "Broker".toList),
     none] := by decide +kernel

end Dinero
