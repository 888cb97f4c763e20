import Verif.Lemmas.List
/-
C31-C34: the case-insensitive name lists.
-/
namespace Dinero
variable {T : Type} [Named T]

/-! ### Example data -/

/-- A minimal element type: a name and aliases. -/
structure ExElem where
  name : Str
  aliases : List Str := []
  deriving DecidableEq

instance : Named ExElem := ⟨ExElem.name, ExElem.aliases⟩

/-- ASCII lower-casing, for the examples. -/
def exLower (s : Str) : Str := s.map Char.toLower

def exEuro : ExElem := ⟨"EUR".toList, ["euro".toList, "€".toList]⟩
def exDollar : ExElem := ⟨"usd".toList, ["$".toList]⟩
/-- A history, newest first: EUR, usd, `Eur` again, and an alias for usd. -/
def exOps : List (ListOp ExElem) :=
  [.bind "Buck".toList exDollar, .ins ⟨"Eur".toList, ["fake".toList]⟩, .ins exDollar, .ins exEuro]

/-! ### C31 -/

/-- After any history of insertions and aliases: a lookup returns the first inserted element of
that name (ignoring case), else the element named by the most recent alias binding of the key,
else the "not in list" error. -/
theorem C31_lookup {lower : Str → Str} {ops : List (ListOp T)} {l : NList T}
    (h : runOps lower ops = some l) (ha : AliasesForPresent lower ops) (key : Str) :
    (∀ e, firstNamed lower key ops = some e → l.get lower key = .ok e) ∧
    (firstNamed lower key ops = none →
      (∀ n, lastAlias lower key ops = some n →
        ∃ e, firstNamed lower n ops = some e ∧ l.get lower key = .ok e) ∧
      (lastAlias lower key ops = none → l.get lower key = .error (.error .aliasNotInList))) := by
  obtain ⟨h1, h2⟩ := runOps_spec ops h key
  refine ⟨fun e he => ?_, fun hn => ⟨fun n hl => ?_, fun hl => ?_⟩⟩
  · unfold NList.get; rw [h1, he]
  · obtain ⟨e, he⟩ := Option.isSome_iff_exists.mp (lastAlias_present ops ha key n hl)
    refine ⟨e, he, ?_⟩
    unfold NList.get
    rw [h1, hn, h2, hl]
    simp only [Option.map_some]
    rw [(runOps_spec ops h n).1, he]; rfl
  · unfold NList.get; rw [h1, hn, h2, hl]; rfl

/-- Inserting an element whose name is already there (ignoring case) changes nothing. -/
theorem C31_duplicate {lower : Str → Str} {ops : List (ListOp T)} {l : NList T}
    (h : runOps lower ops = some l) (e : T) (hd : (firstNamed lower (Named.name e) ops).isSome) :
    l.insert lower e = l := by
  unfold NList.insert
  rw [(runOps_spec ops h (Named.name e)).1]
  obtain ⟨x, hx⟩ := Option.isSome_iff_exists.mp hd
  rw [hx]

omit [Named T] in
/-- Lookups ignore case. -/
theorem C31_case_insensitive {lower : Str → Str} (l : NList T) {k k' : Str}
    (h : lower k = lower k') : l.get lower k = l.get lower k' := by
  unfold NList.get; rw [h]

example : (runOps exLower exOps).isSome ∧ AliasesForPresent exLower exOps ∧
    firstNamed exLower "eUr".toList exOps = some exEuro ∧
    lastAlias exLower "BUCK".toList exOps = some "usd".toList ∧
    lastAlias exLower "fake".toList exOps = none ∧
    (runOps exLower exOps).map (fun l => l.get exLower "bUcK".toList) = some (.ok exDollar) := by
  refine ⟨rfl, ⟨rfl, trivial⟩, by decide +kernel, by decide +kernel, by decide +kernel,
    by decide +kernel⟩

/-! ### C32 -/

/-- In every list obtained by insertions, aliases for present elements, merges and regex
lookups, `get` returns an element or the "not in list" error; it never panics. -/
theorem C32_get_total {lower : Str → Str} {l : NList T} (h : l.Reachable lower) (key : Str) :
    (∃ e, l.get lower key = .ok e) ∨ l.get lower key = .error (.error .aliasNotInList) := by
  have hi := NList.Inv.reach h
  unfold NList.get
  cases h1 : l.list.get? (lower key) with
  | some x => exact Or.inl ⟨x, rfl⟩
  | none =>
    cases h2 : l.aliases.get? (lower key) with
    | none => exact Or.inr rfl
    | some x =>
      obtain ⟨e, he⟩ := Option.isSome_iff_exists.mp (hi.aliasOk _ _ h2)
      exact Or.inl ⟨e, by simp [he, unwrap]⟩

/-- Nor does the regex lookup panic (lower-casing being idempotent). -/
theorem C32_getRegex_total {lower : Str → Str} (hlow : ∀ s, lower (lower s) = lower s)
    {l : NList T} (h : l.Reachable lower) (s s' : Shuf) (pat : Str) (isMatch : Str → Bool) :
    ∃ r, l.getRegex lower s s' pat isMatch = .ok r := by
  have hi := NList.Inv.reach h
  unfold NList.getRegex
  cases hm : l.memo.get? pat with
  | some o =>
    cases o with
    | none => exact ⟨_, rfl⟩
    | some a =>
      obtain ⟨e, he⟩ := Option.isSome_iff_exists.mp (hi.memoOk _ _ hm)
      have hk := hi.named _ _ he
      have : l.get lower a = .ok e := by
        unfold NList.get
        rw [hk, hlow, ← hk, he]
      simp only [this]
      exact ⟨_, rfl⟩
  | none =>
    simp only
    cases (s.run l.list).find? (fun e => isMatch (Named.name e.2)) with
    | some e => exact ⟨_, rfl⟩
    | none =>
      simp only
      cases (s'.run l.aliases).find? (fun e => isMatch e.1) with
      | some e => exact ⟨_, rfl⟩
      | none => exact ⟨_, rfl⟩

/-- Aliasing an element that is not in the list does make a later lookup panic. -/
theorem C32_alias_of_absent_panics : ∃ l : NList ExElem,
    NList.new.addAlias exLower "x".toList exEuro = .ok l ∧
    l.get exLower "x".toList = .error (.panic "self.list.get(x).unwrap()") :=
  ⟨_, rfl, by decide +kernel⟩

example : ∃ l : NList ExElem, l.Reachable exLower ∧ l.get exLower "BUCK".toList = .ok exDollar := by
  refine ⟨_, runOps_reachable exOps rfl ⟨rfl, trivial⟩, by decide +kernel⟩

/-! ### C33 -/

/-- After `a.append(b)`: a name defined in `b` gives `b`'s element, a name defined only in `a`
gives `a`'s element, and every key that either list could look up is still found. -/
theorem C33_append {lower : Str → Str} {opsA opsB : List (ListOp T)} {a b : NList T}
    (ha : runOps lower opsA = some a) (hb : runOps lower opsB = some b)
    (hpA : AliasesForPresent lower opsA) (hpB : AliasesForPresent lower opsB) (key : Str) :
    (∀ e, firstNamed lower key opsB = some e → (a.append b).get lower key = .ok e) ∧
    (∀ e, firstNamed lower key opsB = none → firstNamed lower key opsA = some e →
      (a.append b).get lower key = .ok e) ∧
    ((∃ e, a.get lower key = .ok e) ∨ (∃ e, b.get lower key = .ok e) ↔
      ∃ e, (a.append b).get lower key = .ok e) := by
  have iA := NList.Inv.reach (runOps_reachable opsA ha hpA)
  have iB := NList.Inv.reach (runOps_reachable opsB hb hpB)
  have iAB := NList.Inv.reach (NList.Reachable.append (runOps_reachable opsA ha hpA)
    (runOps_reachable opsB hb hpB))
  have hl : ∀ k, (a.append b).list.get? k = match b.list.get? k with
      | some v => some v
      | none => a.list.get? k := fun k => HMap.get?_extend _ _ iB.nodupL k
  have hal : ∀ k, (a.append b).aliases.get? k = match b.aliases.get? k with
      | some v => some v
      | none => a.aliases.get? k := by
    intro k
    show (a.aliases.extend b.aliases).get? k = _
    rw [HMap.get?_extend _ _ iB.nodupA k]
    cases b.aliases.get? k <;> rfl
  have kA := (runOps_spec opsA ha key).1
  have kB := (runOps_spec opsB hb key).1
  have found : ∀ (l : NList T), l.Inv lower →
      ((∃ e, l.get lower key = .ok e) ↔
        (l.list.get? (lower key)).isSome ∨ (l.aliases.get? (lower key)).isSome) := by
    intro l hi
    unfold NList.get
    cases h1 : l.list.get? (lower key) with
    | some x => simp
    | none =>
      cases h2 : l.aliases.get? (lower key) with
      | none => simp
      | some x =>
        obtain ⟨e, he⟩ := Option.isSome_iff_exists.mp (hi.aliasOk _ _ h2)
        simp [he, unwrap]
  refine ⟨?_, ?_, ?_⟩
  · intro e he
    unfold NList.get
    rw [hl, kB, he]
  · intro e hn he
    unfold NList.get
    rw [hl, kB, hn]
    simp only [kA, he]
  · rw [found a iA, found b iB, found _ iAB, hl, hal]
    cases b.list.get? (lower key) <;> cases a.list.get? (lower key) <;>
      cases b.aliases.get? (lower key) <;> cases a.aliases.get? (lower key) <;> simp

example : ((runOps exLower [.ins (⟨"EUR".toList, []⟩ : ExElem), .ins exDollar]).map fun a =>
    (runOps exLower [.ins exEuro]).map fun b => ((a.append b).get exLower "eur".toList,
      (a.append b).get exLower "USD".toList, (a.append b).get exLower "€".toList))
    = some (some (.ok exEuro, .ok exDollar, .ok exEuro)) := by decide +kernel

/-! ### C34 -/

/-- A pattern that was not looked up before finds an element exactly when it matches some
element name or some lower-cased alias, and the element found is one with such a name or alias.
Missing from the full statement: patterns looked up before a later change of the list
(`C34_stale_memo`) and the case of aliases (`C34_alias_case`). -/
theorem C34_fresh_partial {lower : Str → Str} {l : NList T} (h : l.Reachable lower) (s s' : Shuf)
    (pat : Str) (isMatch : Str → Bool) (hfresh : l.memo.get? pat = none) :
    ∃ r l', l.getRegex lower s s' pat isMatch = .ok (r, l') ∧
      (r.isSome ↔ (∃ e ∈ l.list, isMatch (Named.name e.2)) ∨ ∃ a ∈ l.aliases, isMatch a.1) ∧
      (∀ e, r = some e → (∃ k, (k, e) ∈ l.list) ∧
        (isMatch (Named.name e) ∨ ∃ a ∈ l.aliases, isMatch a.1 ∧ a.2 = lower (Named.name e))) := by
  have hi := NList.Inv.reach h
  unfold NList.getRegex
  rw [hfresh]
  simp only
  cases hf : (s.run l.list).find? (fun e => isMatch (Named.name e.2)) with
  | some e =>
    refine ⟨_, _, rfl, ?_, ?_⟩
    · simp only [Option.isSome_some, true_iff]
      left
      exact ⟨e, (s.perm _).mem_iff.mp (List.mem_of_find?_eq_some hf),
        by simpa using List.find?_some hf⟩
    · rintro x ⟨⟩
      exact ⟨⟨e.1, (s.perm _).mem_iff.mp (List.mem_of_find?_eq_some hf)⟩,
        Or.inl (by simpa using List.find?_some hf)⟩
  | none =>
    have hno : ¬ ∃ e ∈ l.list, isMatch (Named.name e.2) := by
      rintro ⟨e, he, hm⟩
      have := List.find?_eq_none.mp hf e ((s.perm _).mem_iff.mpr he)
      exact this hm
    simp only
    cases hf' : (s'.run l.aliases).find? (fun e => isMatch e.1) with
    | some a =>
      have hmem := (s'.perm _).mem_iff.mp (List.mem_of_find?_eq_some hf')
      have hma : isMatch a.1 = true := by simpa using List.find?_some hf'
      obtain ⟨e, he⟩ := Option.isSome_iff_exists.mp
        (hi.aliasOk a.1 a.2 (HMap.get?_of_mem hi.nodupA hmem))
      refine ⟨_, _, rfl, ?_, ?_⟩
      · rw [he]
        simp only [Option.isSome_some, true_iff]
        exact Or.inr ⟨a, hmem, hma⟩
      · intro x hx
        rw [he] at hx
        cases hx
        exact ⟨⟨a.2, HMap.mem_of_get? he⟩, Or.inr ⟨a, hmem, hma, hi.named _ _ he⟩⟩
    | none =>
      refine ⟨_, _, rfl, ?_, by rintro e ⟨⟩⟩
      simp only [Option.isSome_none, Bool.false_eq_true, false_iff]
      rintro (h1 | ⟨a, ha, hm⟩)
      · exact hno h1
      · exact List.find?_eq_none.mp hf' a ((s'.perm _).mem_iff.mpr ha) hm

/-- The full statement of C34 is false: a failed lookup is remembered, and an element inserted
afterwards whose name matches is not found. -/
theorem C34_stale_memo : ∃ (pat : Str) (isMatch : Str → Bool) (l1 : NList ExElem),
    NList.new.getRegex exLower .id .id pat isMatch = .ok (none, l1) ∧
    isMatch exEuro.name = true ∧
    ((l1.insert exLower exEuro).getRegex exLower .id .id pat isMatch).map Prod.fst = .ok none :=
  ⟨"EUR".toList, fun s => s == "EUR".toList, _, rfl, by decide +kernel, by decide +kernel⟩

/-- Aliases are matched in lower case only: an alias written `ACME` is not found by the pattern
`ACME`. -/
theorem C34_alias_case : ∃ (e : ExElem) (pat : Str), pat ∈ e.aliases ∧
    ((NList.new.insert exLower e).getRegex exLower .id .id pat (fun s => s == pat)).map Prod.fst
      = .ok none :=
  ⟨⟨"foo".toList, ["ACME".toList]⟩, "ACME".toList, by decide +kernel, by decide +kernel⟩

example : ∃ l : NList ExElem, l.Reachable exLower ∧ l.memo.get? "EUR".toList = none ∧
    ∃ e ∈ l.list, (fun s => s == "EUR".toList) (Named.name e.2) :=
  ⟨NList.new.insert exLower exEuro, .insert _ .new, rfl,
    (exLower exEuro.name, exEuro), by decide +kernel, by decide +kernel⟩

end Dinero
