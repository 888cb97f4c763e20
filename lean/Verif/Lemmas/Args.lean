import Verif.Spec.Args
import Verif.Lemmas.Posting
import Verif.Props.Config
import Verif.Props.App
/-
Lemmas about the command line.
-/
namespace Dinero

/-! ### The declarations -/

theorem findLong_decl {v : Verb} {o : OptId} {n : Str} (hv : v.has o) (hn : o.longName = some n) :
    ∃ d, findLong v.decls n = some d ∧ d.id = o ∧ d.takes = !o.isFlag := by
  cases o <;> first | (cases hn; done) | skip
  all_goals
    injection hn with hn
    subst hn
    first
      | (cases v <;> exact ⟨_, rfl, rfl, rfl⟩)
      | (have := hv (by simp); subst this; exact ⟨_, rfl, rfl, rfl⟩)

theorem findShort_decl {o : OptId} {c : Char} (v : Verb) (hc : o.shortName = some c) :
    ∃ d, findShort v.decls c = some d ∧ d.id = o ∧ d.takes = true := by
  cases o <;> first | (cases hc; done) | skip
  all_goals
    injection hc with hc
    subst hc
    cases v <;> exact ⟨_, rfl, rfl, rfl⟩

theorem short_plain {o : OptId} {c : Char} (hc : o.shortName = some c) : c ≠ 'h' ∧ c ≠ 'V' ∧ c ≠ '-' := by
  cases o <;> first | (cases hc; done) | skip
  all_goals
    injection hc with hc
    subst hc
    decide

theorem long_plain {o : OptId} {n : Str} (hn : o.longName = some n) :
    ¬ (n = [] ∨ n = "help".toList ∨ n = "version".toList) ∧ '=' ∉ n := by
  cases o <;> first | (cases hn; done) | skip
  all_goals
    injection hn with hn
    subst hn
    decide

theorem long_inj {o o' : OptId} {n : Str} (h : o.longName = some n) (h' : o'.longName = some n) : o = o' := by
  cases o <;> first | (cases h; done) | skip
  all_goals
    injection h with h
    subst h
    revert h'
    cases o' <;> decide

theorem verbNamed_names {v : Verb} {s : Str} (h : s ∈ v.names) : verbNamed s = some v := by
  cases v <;> simp only [Verb.names, List.mem_cons, List.not_mem_nil, or_false] at h
  all_goals rcases h with rfl | rfl <;> decide

theorem splitEq_none {n : Str} (h : '=' ∉ n) : splitEq n = (n, none) := by
  induction n with
  | nil => rfl
  | cons c n ih =>
    simp only [List.mem_cons, not_or] at h
    rw [splitEq, if_neg (fun e => h.1 e.symm), ih h.2]

theorem splitEq_some {n s : Str} (h : '=' ∉ n) : splitEq (n ++ '=' :: s) = (n, some s) := by
  induction n with
  | nil => rfl
  | cons c n ih =>
    simp only [List.mem_cons, not_or] at h
    rw [List.cons_append, splitEq, if_neg (fun e => h.1 e.symm), ih h.2]

/-! ### One thing after another -/

/-- An option without a value. -/
theorem readItems_flag {ds : List OptDecl} {n : Str} {d : OptDecl} {as : List Str} (hd : findLong ds n = some d)
    (h0 : ¬ (n = [] ∨ n = "help".toList ∨ n = "version".toList)) (he : '=' ∉ n) (ht : d.takes = false) :
    readItems ds (("--".toList ++ n) :: as) = addItem (.opt d.id none) (readItems ds as) := by
  show readItems ds (('-' :: '-' :: n) :: as) = _
  rw [readItems.eq_2, if_neg h0, splitEq_none he]
  simp only [hd, ht]
  rfl

theorem readItems_value {ds : List OptDecl} {n s : Str} {d : OptDecl} {as : List Str} (hd : findLong ds n = some d)
    (h0 : ¬ (n = [] ∨ n = "help".toList ∨ n = "version".toList)) (he : '=' ∉ n) (ht : d.takes = true)
    (hs : s ≠ []) (hu : Undashed s) :
    readItems ds (("--".toList ++ n) :: s :: as) = addItem (.opt d.id (some s)) (readItems ds as) := by
  show readItems ds (('-' :: '-' :: n) :: s :: as) = _
  rw [readItems.eq_2, if_neg h0, splitEq_none he]
  simp only [hd, ht, if_true]
  rw [if_neg (by rintro (h | h); exact hu h; exact hs h)]

theorem readItems_valueEq {ds : List OptDecl} {n s : Str} {d : OptDecl} {as : List Str} (hd : findLong ds n = some d)
    (he : '=' ∉ n) (ht : d.takes = true)
    (hs : s ≠ []) (hu : s.head? ≠ some '=') :
    readItems ds (("--".toList ++ n ++ '=' :: s) :: as) = addItem (.opt d.id (some s)) (readItems ds as) := by
  show readItems ds (('-' :: '-' :: (n ++ '=' :: s)) :: as) = _
  have hx : ∀ m : Str, '=' ∉ m → n ++ '=' :: s ≠ m := by
    rintro m hm rfl
    exact hm (by simp)
  rw [readItems.eq_2, if_neg (by
    rintro (h | h | h)
    · simp at h
    · exact hx _ (by decide) h
    · exact hx _ (by decide) h), splitEq_some he]
  simp only [hd, ht]
  rw [if_pos]
  simp [plainTail, hs, hu]

theorem readItems_short {ds : List OptDecl} {c : Char} {s : Str} {d : OptDecl} {as : List Str}
    (hd : findShort ds c = some d) (hc : c ≠ 'h' ∧ c ≠ 'V' ∧ c ≠ '-') (ht : d.takes = true) (hs : s ≠ [])
    (hu : Undashed s) :
    readItems ds (['-', c] :: s :: as) = addItem (.opt d.id (some s)) (readItems ds as) := by
  rw [readItems.eq_4 _ _ _ _ (fun h => hc.2.2 h), if_neg (by rintro (h | h); exact hc.1 h; exact hc.2.1 h)]
  simp only [hd, ht, if_true]
  rw [if_neg (by rintro (h | h); exact hu h; exact hs h)]

theorem readItems_glued {ds : List OptDecl} {c : Char} {s : Str} {d : OptDecl} {as : List Str}
    (hd : findShort ds c = some d) (hc : c ≠ 'h' ∧ c ≠ 'V' ∧ c ≠ '-') (ht : d.takes = true) (hs : s ≠ [])
    (hu : s.head? ≠ some '=') :
    readItems ds (('-' :: c :: s) :: as) = addItem (.opt d.id (some s)) (readItems ds as) := by
  rw [readItems.eq_4 _ _ _ _ (fun h => hc.2.2 h), if_neg (by rintro (h | h); exact hc.1 h; exact hc.2.1 h)]
  simp only [hd, ht, if_true]
  rw [if_neg hs, if_pos]
  simp [plainTail, hs, hu]

theorem readItems_word {ds : List OptDecl} {s : Str} {as : List Str} (hu : Undashed s) :
    readItems ds (s :: as) = addItem (.word s) (readItems ds as) := by
  rw [readItems.eq_5]
  · rintro n rfl; exact hu rfl
  · rintro rfl; exact hu rfl
  · rintro c v rfl; exact hu rfl

theorem readItems_item {v : Verb} {long : Bool} {x : ArgItem} {ss as : List Str} (h : WritesItem v long x ss) :
    readItems v.decls (ss ++ as) = addItem x (readItems v.decls as) := by
  cases h with
  | flag hv hf hn =>
    obtain ⟨d, h1, h2, h3⟩ := findLong_decl hv hn
    rw [hf] at h3
    have := readItems_flag (as := as) h1 (long_plain hn).1 (long_plain hn).2 h3
    rw [h2] at this
    exact this
  | value hv hf hn hs hu =>
    obtain ⟨d, h1, h2, h3⟩ := findLong_decl hv hn
    rw [hf] at h3
    have := readItems_value (as := as) h1 (long_plain hn).1 (long_plain hn).2 h3 hs hu
    rw [h2] at this
    exact this
  | valueEq hv hf hn hs hu _ =>
    obtain ⟨d, h1, h2, h3⟩ := findLong_decl hv hn
    rw [hf] at h3
    have := readItems_valueEq (as := as) h1 (long_plain hn).2 h3 hs hu
    rw [h2] at this
    exact this
  | short hc hs hu _ =>
    obtain ⟨d, h1, h2, h3⟩ := findShort_decl v hc
    have := readItems_short (as := as) h1 (short_plain hc) h3 hs hu
    rw [h2] at this
    exact this
  | glued hc hs hu _ =>
    obtain ⟨d, h1, h2, h3⟩ := findShort_decl v hc
    have := readItems_glued (as := as) h1 (short_plain hc) h3 hs hu
    rw [h2] at this
    exact this
  | word hu => exact readItems_word hu

/-- The things that are written are read, whatever comes after them. -/
theorem readItems_items {v : Verb} {long : Bool} {items : List ArgItem} {parts : List (List Str)} {as : List Str}
    (h : List.Forall₂ (WritesItem v long) items parts) :
    readItems v.decls (parts.flatten ++ as) = items.foldr addItem (readItems v.decls as) := by
  induction h with
  | nil => rfl
  | cons hx _ ih => rw [List.flatten_cons, List.append_assoc, readItems_item hx, ih, List.foldr_cons]

theorem foldr_addItem (items xs : List ArgItem) :
    items.foldr addItem (some (some xs)) = some (some (items ++ xs)) := by
  induction items with
  | nil => rfl
  | cons x items ih => rw [List.foldr_cons, ih]; rfl

theorem foldr_addItem_unknown (items : List ArgItem) : items.foldr addItem (some none) = some none := by
  induction items with
  | nil => rfl
  | cons x items ih => rw [List.foldr_cons, ih]; rfl

theorem readItems_written {v : Verb} {long : Bool} {items : List ArgItem} {parts : List (List Str)}
    (h : List.Forall₂ (WritesItem v long) items parts) : readItems v.decls parts.flatten = some (some items) := by
  have := readItems_items (as := []) h
  rw [List.append_nil] at this
  rw [this]
  show items.foldr addItem (some (some [])) = _
  rw [foldr_addItem, List.append_nil]

/-! ### The values -/

theorem mem_valuesOf {o : OptId} {xs : List ArgItem} {s : Option Str} : s ∈ valuesOf o xs ↔ .opt o s ∈ xs := by
  unfold valuesOf
  rw [List.mem_filterMap]
  constructor
  · rintro ⟨x, hx, e⟩
    cases x with
    | word _ => cases e
    | opt o' t =>
      simp only at e
      split at e
      · rename_i h; injection e with e; subst h; subst e; exact hx
      · cases e
  · intro h
    exact ⟨_, h, by simp⟩

theorem givenOpt_iff {o : OptId} {xs : List ArgItem} : givenOpt o xs = true ↔ ∃ s, .opt o s ∈ xs := by
  unfold givenOpt
  rw [Bool.not_eq_true', List.isEmpty_eq_false_iff_exists_mem]
  exact ⟨fun ⟨s, hs⟩ => ⟨s, mem_valuesOf.mp hs⟩, fun ⟨s, hs⟩ => ⟨s, mem_valuesOf.mpr hs⟩⟩

theorem noneTwice_iff {xs : List ArgItem} : noneTwice xs = true ↔ Once xs := by
  unfold Once
  induction xs with
  | nil => simp [noneTwice]
  | cons x xs ih =>
    rw [List.pairwise_cons]
    cases x with
    | word w =>
      rw [noneTwice, ih]
      exact ⟨fun h => ⟨fun b _ o s s' e => (by cases e), h⟩, fun h => h.2⟩
    | opt o s =>
      rw [noneTwice, Bool.and_eq_true, ih, Bool.not_eq_true', ← Bool.not_eq_true, givenOpt_iff]
      refine and_congr_left fun _ => ⟨fun h b hb o' t t' e e' => ?_, fun h ⟨t, ht⟩ => h _ ht o s t rfl rfl⟩
      cases e
      subst e'
      exact h ⟨_, hb⟩

theorem once_eq {xs : List ArgItem} (h : Once xs) {o : OptId} {s s' : Option Str} (h1 : .opt o s ∈ xs)
    (h2 : .opt o s' ∈ xs) : s = s' := by
  unfold Once at h
  induction xs with
  | nil => cases h1
  | cons x xs ih =>
    rw [List.pairwise_cons] at h
    rcases List.mem_cons.mp h1 with e1 | h1 <;> rcases List.mem_cons.mp h2 with e2 | h2
    · rw [← e1] at e2; cases e2; rfl
    · exact absurd rfl (h.1 _ h2 o s s' e1.symm)
    · exact absurd rfl (h.1 _ h1 o s' s e2.symm)
    · exact ih h.2 h1 h2

theorem valueOf_iff {xs : List ArgItem} (h : Once xs) {o : OptId} {s : Str} :
    valueOf o xs = some s ↔ .opt o (some s) ∈ xs := by
  unfold valueOf
  rw [← mem_valuesOf]
  cases hv : valuesOf o xs with
  | nil => simp
  | cons a l =>
    have ha : ArgItem.opt o a ∈ xs := mem_valuesOf.mp (by rw [hv]; simp)
    simp only [List.head?_cons, Option.bind_some, id]
    constructor
    · rintro rfl; simp
    · intro hm
      rw [← hv] at hm
      exact once_eq h ha (mem_valuesOf.mp hm)

/-- Flags are without a value, the other options have one. -/
def Kinded (items : List ArgItem) : Prop := ∀ o s, .opt o s ∈ items → s.isNone = o.isFlag

theorem WritesItem.kinded {v : Verb} {long : Bool} {o : OptId} {s : Option Str} {ss : List Str}
    (h : WritesItem v long (.opt o s) ss) : s.isNone = o.isFlag := by
  cases h with
  | flag _ hf _ => exact hf.symm
  | value _ hf _ _ _ => exact hf.symm
  | valueEq _ hf _ _ _ _ => exact hf.symm
  | short hc _ _ _ => cases o <;> first | rfl | cases hc
  | glued hc _ _ _ => cases o <;> first | rfl | cases hc

theorem writesItems_kinded {v : Verb} {long : Bool} {items : List ArgItem} {parts : List (List Str)}
    (h : List.Forall₂ (WritesItem v long) items parts) : Kinded items := by
  induction h with
  | nil => intro o s hm; cases hm
  | cons hx _ ih =>
    intro o s hm
    rcases List.mem_cons.mp hm with e | hm
    · rw [← e] at hx; exact hx.kinded
    · exact ih o s hm

theorem given_flag {xs : List ArgItem} (hk : Kinded xs) {o : OptId} (hf : o.isFlag = true) :
    givenOpt o xs = true ↔ .opt o none ∈ xs := by
  rw [givenOpt_iff]
  refine ⟨fun ⟨s, hs⟩ => ?_, fun h => ⟨_, h⟩⟩
  have := hk o s hs
  rw [hf] at this
  cases s with
  | none => exact hs
  | some _ => cases this

theorem readUsize_iff {s : Str} {n : Nat} : readUsize s = some n ↔ WritesUsize s n := by
  unfold readUsize WritesUsize
  constructor
  · intro h
    split at h
    · rename_i m hm
      split at h
      · rename_i hlt
        injection h with h
        subst h
        obtain ⟨hd, rfl⟩ := natOf_sound hm
        refine ⟨_, ?_, hd, rfl, hlt⟩
        unfold dropPlus
        split
        · exact .inr rfl
        · exact .inl rfl
      · cases h
    · cases h
  · rintro ⟨ds, he, hd, rfl, hlt⟩
    have key : dropPlus s = ds := by
      unfold dropPlus
      rcases he with rfl | rfl
      · split
        · rename_i t
          have := (hd.2 '+' (by simp)).1
          exact absurd this (by decide)
        · rfl
      · rfl
    rw [key, natOf_digits hd]
    simp only
    rw [if_pos hlt]

theorem mem_datesOf {date : Str → Res Date} {xs : List ArgItem} {r : Res Date} :
    r ∈ datesOf date xs ↔ ∃ o s, OptId.isDate o ∧ .opt o (some s) ∈ xs ∧ r = date s := by
  unfold datesOf dateOpts
  simp only [List.mem_flatMap, List.mem_filterMap]
  constructor
  · rintro ⟨o, ho, v, hv, e⟩
    have hd : OptId.isDate o := by
      simp only [List.mem_cons, List.not_mem_nil, or_false] at ho
      rcases ho with rfl | rfl | rfl <;> trivial
    cases v with
    | none => cases e
    | some s =>
      injection e with e
      exact ⟨o, s, hd, mem_valuesOf.mp hv, e.symm⟩
  · rintro ⟨o, s, hd, hm, rfl⟩
    refine ⟨o, ?_, some s, mem_valuesOf.mpr hm, rfl⟩
    cases o <;> first | (exact hd.elim) | decide

theorem wordsOf_eq (xs : List ArgItem) :
    (wordsOf xs).map ArgItem.word = xs.filter (fun x => match x with | .word _ => true | .opt _ _ => false) := by
  unfold wordsOf
  induction xs with
  | nil => rfl
  | cons x xs ih =>
    cases x with
    | word w => simp [ih]
    | opt o s => simp [ih]

theorem dateOf_iff {date : Str → Res Date} {xs : List ArgItem} (h : Once xs) {o : OptId} {d : Date} :
    dateOf date (valueOf o xs) = some d ↔ ∃ s, .opt o (some s) ∈ xs ∧ date s = .ok d := by
  unfold dateOf
  rw [Option.bind_eq_some_iff]
  refine exists_congr fun s => and_congr (valueOf_iff h) ?_
  cases date s with
  | error e => simp [Except.toOption]
  | ok x => simp [Except.toOption]

theorem commandSaid_iff {v : Verb} {xs : List ArgItem} (hk : Kinded xs) : CommandSaid v xs (v.command xs) := by
  cases v with
  | balance => exact ⟨rfl, given_flag hk rfl, given_flag hk rfl⟩
  | _ => rfl

/-- What is fine is read. -/
theorem readValues_fine {date : Str → Res Date} {v : Verb} {xs : List ArgItem} (hk : Kinded xs) (h : Fine date xs) :
    ∃ i, readValues date v xs = some (.ok i) ∧ Says date v xs i := by
  have hfile : givenOpt .file xs = true := givenOpt_iff.mpr (h.file.imp' _ fun _ hs => hs)
  have h1 : noneTwice xs = true := noneTwice_iff.mpr h.once
  have h2 : (valuesOf .depth xs).any (fun s => (s.bind readUsize).isNone) = false := by
    rw [List.any_eq_false]
    intro s hs
    have hm := mem_valuesOf.mp hs
    cases s with
    | none => have := hk _ _ hm; cases this
    | some s =>
      obtain ⟨n, hn⟩ := h.depth s hm
      simp [readUsize_iff.mpr hn]
  have h3 : (datesOf date xs).any refused = false := by
    rw [List.any_eq_false]
    intro r hr
    obtain ⟨o, s, ho, hm, rfl⟩ := mem_datesOf.mp hr
    obtain ⟨d, hd⟩ := h.dates o s ho hm
    rw [hd]
    exact Bool.false_ne_true
  have h4 : (datesOf date xs).any panicked = false := by
    rw [List.any_eq_false]
    intro r hr
    obtain ⟨o, s, ho, hm, rfl⟩ := mem_datesOf.mp hr
    obtain ⟨d, hd⟩ := h.dates o s ho hm
    rw [hd]
    exact Bool.false_ne_true
  unfold readValues
  rw [if_pos hfile]
  simp only [h1, h2, h3, h4, Bool.not_true, Bool.or_false, Bool.false_eq_true, if_false]
  refine ⟨_, rfl, commandSaid_iff hk, ?_, given_flag hk rfl, given_flag hk rfl, fun d => dateOf_iff h.once,
    fun d => dateOf_iff h.once, wordsOf_eq xs, fun n => ?_, fun c => valueOf_iff h.once, given_flag hk rfl⟩
  · obtain ⟨s, hs⟩ := h.file
    simp only
    rw [(valueOf_iff h.once).mpr hs]
    exact hs
  · simp only
    rw [Option.bind_eq_some_iff]
    exact exists_congr fun s => and_congr (valueOf_iff h.once) readUsize_iff

theorem noPanic_dates {date : Str → Res Date} {xs : List ArgItem} (h : NoPanic date xs) :
    (datesOf date xs).any panicked = false := by
  rw [List.any_eq_false]
  intro r hr
  obtain ⟨o, s, ho, hm, rfl⟩ := mem_datesOf.mp hr
  cases hd : date s with
  | ok d => simp [panicked]
  | error e =>
    cases e with
    | panic m => exact absurd hd (h o s m ho hm)
    | error e => simp [panicked]

theorem readValues_twice {date : Str → Res Date} {v : Verb} {xs : List ArgItem} (hd : NoPanic date xs)
    (h : ¬ Once xs) : readValues date v xs = some (.error 1) := by
  unfold readValues
  split
  · have h1 : noneTwice xs = false := by rw [← Bool.not_eq_true, noneTwice_iff]; exact h
    simp only [h1, noPanic_dates hd, Bool.not_false, Bool.true_or, Bool.false_eq_true, if_false, if_true]
  · rfl

/-! ### What is not known -/

theorem decls_long (v : Verb) : ∀ d ∈ v.decls, d.long = d.id.longName ∧ v.has d.id := by
  unfold Verb.has
  cases v <;> decide

theorem readItems_unknown {v : Verb} {n : Str} {as : List Str} (h : Unknown v n) :
    readItems v.decls (("--".toList ++ n) :: as) = some none := by
  show readItems v.decls (('-' :: '-' :: n) :: as) = _
  have hf : findLong v.decls n = none := by
    unfold findLong
    rw [List.find?_eq_none]
    intro d hd
    obtain ⟨h1, h2⟩ := decls_long v d hd
    rw [decide_eq_true_eq, h1]
    exact h.none d.id h2
  rw [readItems.eq_2, if_neg (by
    rintro (e | e | e)
    · exact h.plain.1 e
    · exact h.plain.2.1 e
    · exact h.plain.2.2 e), splitEq_none h.noEq]
  simp only [hf]

/-! ### Reading a command line -/

theorem readArgs_of {date : Str → Res Date} {v : Verb} {prog name : Str} {rest : List Str} (hn : name ∈ v.names)
    {items : List ArgItem} (hr : readItems v.decls rest = some (some items)) :
    readArgs date (prog :: name :: rest) = readValues date v items := by
  rw [readArgs, verbNamed_names hn]
  simp only [hr]

theorem readArgs_unknown {date : Str → Res Date} {v : Verb} {prog name : Str} {rest : List Str} (hn : name ∈ v.names)
    (hr : readItems v.decls rest = some none) : readArgs date (prog :: name :: rest) = some (.error 1) := by
  rw [readArgs, verbNamed_names hn]
  simp only [hr]

/-- What is said determines what is called. -/
theorem says_unique {date : Str → Res Date} {v : Verb} {xs ys : List ArgItem} {i j : Invocation}
    (ho : ∀ o s, ArgItem.opt o s ∈ xs ↔ ArgItem.opt o s ∈ ys)
    (hw : xs.filter (fun x => match x with | .word _ => true | .opt _ _ => false) =
      ys.filter (fun x => match x with | .word _ => true | .opt _ _ => false))
    (hx : Once xs) (hi : Says date v xs i) (hj : Says date v ys j) : i = j := by
  obtain ⟨c, f, k, ⟨⟨r, b, e⟩, q, dp, x, fc⟩⟩ := i
  obtain ⟨c', f', k', ⟨⟨r', b', e'⟩, q', dp', x', fc'⟩⟩ := j
  have h1 : c = c' := by
    have a := hi.command
    have a' := hj.command
    simp only at a a'
    cases c <;> cases c' <;> simp only [CommandSaid] at a a' <;> first | rfl | skip
    all_goals first
      | (rw [a.1] at a'; cases a'; done)
      | (rw [a] at a'; cases a'.1)
      | (rw [a] at a'; cases a')
      | (congr 1
         · rw [Bool.eq_iff_iff, a.2.1, a'.2.1, ho]
         · rw [Bool.eq_iff_iff, a.2.2, a'.2.2, ho])
  have h2 : f = f' := by
    have := once_eq hx hi.file ((ho _ _).mpr hj.file)
    injection this
  have h3 : k = k' := by rw [Bool.eq_iff_iff, hi.skip, hj.skip, ho]
  have h4 : r = r' := by rw [Bool.eq_iff_iff, hi.real, hj.real, ho]
  have h5 : b = b' := Option.ext fun d => by
    rw [hi.fromDate d, hj.fromDate d]; simp only [ho]
  have h6 : e = e' := Option.ext fun d => by
    rw [hi.toDate d, hj.toDate d]; simp only [ho]
  have h7 : q = q' := by
    have := hi.query.trans (hw.trans hj.query.symm)
    exact List.map_injective_iff.mpr (fun a b e => by injection e) this
  have h8 : dp = dp' := Option.ext fun d => by
    rw [hi.depth d, hj.depth d]; simp only [ho]
  have h9 : x = x' := Option.ext fun d => by
    rw [hi.exchange d, hj.exchange d]; simp only [ho]
  have h10 : fc = fc' := by rw [Bool.eq_iff_iff, hi.color, hj.color, ho]
  subst h1 h2 h3 h4 h5 h6 h7 h8 h9 h10
  rfl

/-! ### The configuration file -/

theorem writesConf_words {env : Env} {l : Str} {n : Str} {vs : List Str} (h : WritesConf env l (.option n vs)) :
    ∀ v ∈ vs, Word env v := by
  cases h with
  | option ps hw hv ht =>
    intro v hm
    obtain ⟨p, hp, rfl⟩ := List.mem_map.mp hm
    exact (hv p hp).2.2

theorem joinWords_head {v : Str} (vs : List Str) (h : v ≠ []) :
    joinWords (v :: vs) ≠ [] ∧ (joinWords (v :: vs)).head? = v.head? := by
  cases v with
  | nil => exact absurd rfl h
  | cons c s => cases vs <;> simp [joinWords]

theorem ConfItem.writes {v : Verb} {c : ConfLine} {x : ArgItem} (h : ConfItem v c x)
    (hw : ∀ n vs, c = .option n vs → ∀ s ∈ vs, s ≠ [])
    (hv : ∀ n s vs, c = .option n (s :: vs) → s.head? ≠ some '-') : WritesItem v true x c.args := by
  cases h with
  | flag h1 h2 h3 => exact .flag h1 h2 h3
  | @value o n vs h1 h2 h3 h4 =>
    cases vs with
    | nil => exact absurd rfl h4
    | cons s vs =>
      have hs : s ≠ [] := hw _ _ rfl s (by simp)
      obtain ⟨j1, j2⟩ := joinWords_head vs hs
      exact .value h1 h2 h3 j1 (by unfold Undashed; rw [j2]; exact hv _ _ _ rfl)

theorem ConfItem.name {v : Verb} {c : ConfLine} {x : ArgItem} (h : ConfItem v c x) :
    ∃ o s n, x = .opt o s ∧ o.longName = some n ∧ c.name? = some ("--".toList ++ n) := by
  cases h with
  | flag h1 h2 h3 => exact ⟨_, _, _, rfl, h3, rfl⟩
  | value h1 h2 h3 h4 => exact ⟨_, _, _, rfl, h3, rfl⟩

theorem WritesItem.weaken {v : Verb} {x : ArgItem} {ss : List Str} (h : WritesItem v true x ss) (long : Bool) :
    WritesItem v long x ss := by
  cases h with
  | flag h1 h2 h3 => exact .flag h1 h2 h3
  | value h1 h2 h3 h4 h5 => exact .value h1 h2 h3 h4 h5
  | valueEq h1 h2 h3 h4 h5 h6 => cases h6
  | short h1 h2 h3 h4 => exact .short h1 h2 h3 (fun _ => h4 rfl)
  | glued h1 h2 h3 h4 => exact .glued h1 h2 h3 (fun _ => h4 rfl)
  | word h1 => exact .word h1

theorem given_append {args : List Str} {n m : Str} :
    Given (args ++ ["--".toList ++ n]) ("--".toList ++ m) ↔ Given args ("--".toList ++ m) ∨ m = n := by
  unfold Given
  rw [List.mem_append, List.mem_append, List.mem_singleton, List.mem_singleton]
  have h1 : ("--".toList ++ m = "--".toList ++ n) ↔ m = n := ⟨List.append_cancel_left, fun h => by rw [h]⟩
  have h2 : ¬ ("-f".toList = "--".toList ++ n) := by
    intro h
    have h3 : ['-', 'f'] = '-' :: '-' :: n := h
    injection h3 with _ h3
    injection h3 with h3 _
    exact absurd h3 (by decide)
  rw [h1]
  simp only [h2, or_false]
  constructor
  · rintro ((h | h) | h)
    · exact .inl (.inl h)
    · exact .inr h
    · exact .inl (.inr h)
  · rintro ((h | h) | h)
    · exact .inl (.inl h)
    · exact .inr h
    · exact .inl (.inr h)

/-- The arguments and the things on the command line know of the same options. -/
def SameGiven (args : List Str) (items : List ArgItem) : Prop :=
  ∀ o n, o.longName = some n → (Given args ("--".toList ++ n) ↔ ∃ s, .opt o s ∈ items)

theorem counting_fresh {v : Verb} {cs : List ConfLine} {conf : List ArgItem} (h : ConfItems v cs conf) :
    ∀ (args : List Str) (items : List ArgItem), SameGiven args items →
      List.Forall₂ (ConfItem v) (counting args cs) (fresh items conf) := by
  induction h with
  | nil => intro args items _; exact .nil
  | @option c x cs xs hc _ ih =>
    intro args items hs
    obtain ⟨o, s, n, rfl, hn, hcn⟩ := hc.name
    rw [counting, hcn, fresh]
    simp only
    have hg : (ArgItem.opt o s).given items ↔ Given args ("--".toList ++ n) := by
      rw [hs o n hn]
      exact ⟨fun ⟨o', t, t', e, hm⟩ => by cases e; exact ⟨_, hm⟩, fun ⟨t, hm⟩ => ⟨o, s, t, rfl, hm⟩⟩
    by_cases hgiv : Given args ("--".toList ++ n)
    · rw [if_pos hgiv, if_pos (hg.mpr hgiv)]
      exact ih args items hs
    · rw [if_neg hgiv, if_neg (fun hx => hgiv (hg.mp hx))]
      refine .cons hc (ih _ _ ?_)
      intro o' m hm
      rw [given_append, hs o' m hm]
      constructor
      · rintro (⟨t, ht⟩ | rfl)
        · exact ⟨t, by simp [ht]⟩
        · rw [long_inj hm hn]; exact ⟨s, by simp⟩
      · rintro ⟨t, ht⟩
        rcases List.mem_append.mp ht with ht | ht
        · exact .inl ⟨t, ht⟩
        · rw [List.mem_singleton] at ht
          injection ht with e1 e2
          subst e1
          rw [hn] at hm
          injection hm with hm
          exact .inr hm.symm
  | @skip c cs xs hc _ ih =>
    intro args items hs
    rw [counting, hc]
    exact ih args items hs

/-- Whatever is given: the lines that count are things on the command line, and of the file. -/
theorem counting_items {v : Verb} {cs : List ConfLine} {conf : List ArgItem} (h : ConfItems v cs conf) :
    ∀ (args : List Str), ∃ added, List.Forall₂ (ConfItem v) (counting args cs) added ∧ (∀ x ∈ added, x ∈ conf) ∧
      ∀ o n s, ArgItem.opt o s ∈ conf → o.longName = some n → ¬ Given args ("--".toList ++ n) →
        ∃ s', ArgItem.opt o s' ∈ added := by
  induction h with
  | nil => intro args; exact ⟨[], .nil, by simp, by intro o n s h; cases h⟩
  | @option c x cs xs hc _ ih =>
    intro args
    obtain ⟨o, s, n, rfl, hn, hcn⟩ := hc.name
    rw [counting, hcn]
    simp only
    by_cases hgiv : Given args ("--".toList ++ n)
    · rw [if_pos hgiv]
      obtain ⟨ad, h1, h2, h3⟩ := ih args
      refine ⟨ad, h1, fun x hx => by simp [h2 x hx], fun o' m t ht hm hng => ?_⟩
      rcases List.mem_cons.mp ht with e | ht
      · injection e with e1 e2
        subst e1
        rw [hn] at hm
        injection hm with hm
        subst hm
        exact absurd hgiv hng
      · exact h3 o' m t ht hm hng
    · rw [if_neg hgiv]
      obtain ⟨ad, h1, h2, h3⟩ := ih (args ++ ["--".toList ++ n])
      refine ⟨.opt o s :: ad, .cons hc h1, fun x hx => ?_, fun o' m t ht hm hng => ?_⟩
      · rcases List.mem_cons.mp hx with rfl | hx
        · simp
        · simp [h2 x hx]
      · rcases List.mem_cons.mp ht with e | ht
        · injection e with e1 e2
          subst e1
          exact ⟨s, by simp⟩
        · by_cases hmn : m = n
          · subst hmn
            rw [long_inj hm hn]
            exact ⟨s, by simp⟩
          · obtain ⟨s', hs'⟩ := h3 o' m t ht hm (fun hx => by
              rcases given_append.mp hx with hx | hx
              · exact hng hx
              · exact hmn hx)
            exact ⟨s', by simp [hs']⟩
  | @skip c cs xs hc _ ih =>
    intro args
    rw [counting, hc]
    exact ih args

theorem undashed_ne {s n : Str} (h : Undashed s) : s ≠ "--".toList ++ n ∧ s ≠ "-f".toList :=
  ⟨fun e => h (by rw [e]; rfl), fun e => h (by rw [e]; rfl)⟩

theorem name_undashed {v : Verb} {s : Str} (h : s ∈ v.names) : Undashed s := by
  unfold Undashed
  cases v <;> simp only [Verb.names, List.mem_cons, List.not_mem_nil, or_false] at h
  all_goals rcases h with rfl | rfl <;> decide

theorem dash2_ne {n : Str} {c : Char} {s : Str} (hc : c ≠ '-') : '-' :: c :: s ≠ "--".toList ++ n := by
  intro h
  have h3 : '-' :: c :: s = '-' :: '-' :: n := h
  injection h3 with _ h3
  injection h3 with h3 _
  exact hc h3

/-- The option in its long form, or the file in the short one. -/
theorem item_given {v : Verb} {o o' : OptId} {s : Option Str} {n : Str} {ss : List Str}
    (h : WritesItem v true (.opt o' s) ss) (hn : o.longName = some n) : Given ss ("--".toList ++ n) ↔ o' = o := by
  have hf : ∀ {m : Str}, o'.longName = some m → ("--".toList ++ n = "--".toList ++ m ↔ o' = o) := by
    intro m hm
    constructor
    · intro e
      have := List.append_cancel_left e
      subst this
      exact long_inj hm hn
    · rintro rfl
      rw [hn] at hm
      injection hm with hm
      rw [hm]
  have hfile : "--".toList ++ n = "--file".toList ↔ o = .file := by
    constructor
    · intro e
      have : n = "file".toList := List.append_cancel_left (as := "--".toList) e
      subst this
      exact long_inj hn rfl
    · rintro rfl
      injection hn with hn
      subst hn
      decide
  have hff : ∀ m : Str, "-f".toList ≠ "--".toList ++ m := fun m => dash2_ne (c := 'f') (s := []) (by decide)
  unfold Given
  cases h with
  | flag h1 h2 h3 =>
    simp only [List.mem_singleton, hf h3, (hff _), and_false, or_false]
  | value h1 h2 h3 h4 h5 =>
    simp only [List.mem_cons, List.not_mem_nil, or_false, hf h3, (hff _), false_or]
    have a := undashed_ne (n := n) h5
    simp only [a.1.symm, a.2.symm, and_false, or_false]
  | valueEq h1 h2 h3 h4 h5 h6 => cases h6
  | @short _ c t h1 h2 h3 h4 =>
    have a := undashed_ne (n := n) h3
    simp only [List.mem_cons, List.not_mem_nil, or_false, a.1.symm, a.2.symm,
      (dash2_ne (n := n) (s := []) (short_plain h1).2.2).symm, false_or, hfile]
    rcases h4 rfl with rfl | rfl
    · injection h1 with h1
      subst h1
      simp only [show "-f".toList = ['-', 'f'] from rfl, and_true]
      exact eq_comm
    · injection h1 with h1
      subst h1
      constructor
      · rintro ⟨_, e⟩; exact absurd e (by decide)
      · rintro rfl; cases hn
  | @glued _ c t h1 h2 h3 h4 =>
    simp only [List.mem_singleton, (dash2_ne (n := n) (s := t) (short_plain h1).2.2).symm, false_or]
    have := h4 rfl
    subst this
    injection h1 with h1
    subst h1
    constructor
    · rintro ⟨_, e⟩
      have h3 : ['-', 'f'] = '-' :: 'X' :: t := e
      injection h3 with _ h3
      injection h3 with h3 _
      exact absurd h3 (by decide)
    · rintro rfl; cases hn

theorem given_cons {a : Str} {as : List Str} {n : Str} (h : Undashed a) :
    Given (a :: as) ("--".toList ++ n) ↔ Given as ("--".toList ++ n) := by
  unfold Given
  have := undashed_ne (n := n) h
  simp only [List.mem_cons, this.1.symm, this.2.symm, false_or]

theorem given_or {as bs : List Str} {n : Str} : Given (as ++ bs) n ↔ Given as n ∨ Given bs n := by
  unfold Given
  simp only [List.mem_append]
  constructor
  · rintro ((h | h) | ⟨e, h | h⟩)
    · exact .inl (.inl h)
    · exact .inr (.inl h)
    · exact .inl (.inr ⟨e, h⟩)
    · exact .inr (.inr ⟨e, h⟩)
  · rintro ((h | ⟨e, h⟩) | (h | ⟨e, h⟩))
    · exact .inl (.inl h)
    · exact .inr ⟨e, .inl h⟩
    · exact .inl (.inr h)
    · exact .inr ⟨e, .inr h⟩

theorem items_given {v : Verb} {items : List ArgItem} {parts : List (List Str)}
    (h : List.Forall₂ (WritesItem v true) items parts) : SameGiven parts.flatten items := by
  intro o n hn
  induction h with
  | nil => simp [Given]
  | @cons x ss xs sss hx _ ih =>
    rw [List.flatten_cons, given_or, ih]
    cases x with
    | word w =>
      cases hx with
      | word hu =>
        rw [given_cons hu]
        simp [Given]
    | opt o' s =>
      rw [item_given hx hn]
      constructor
      · rintro (rfl | ⟨t, ht⟩)
        · exact ⟨s, by simp⟩
        · exact ⟨t, by simp [ht]⟩
      · rintro ⟨t, ht⟩
        rcases List.mem_cons.mp ht with e | ht
        · injection e with e1 e2
          exact .inl e1.symm
        · exact .inr ⟨t, ht⟩

theorem writesArgs_given {v : Verb} {items : List ArgItem} {args : List Str} (h : WritesArgs v true items args) :
    SameGiven args items := by
  obtain ⟨prog, name, parts, rfl, h1, h2, h3⟩ := h
  intro o n hn
  rw [given_cons h1, given_cons (name_undashed h2)]
  exact items_given h3 o n hn

theorem confItems_write {v : Verb} {cs : List ConfLine} {added : List ArgItem} (h : List.Forall₂ (ConfItem v) cs added)
    (hw : ∀ n vs, .option n vs ∈ cs → ∀ s ∈ vs, s ≠ [])
    (hv : ∀ n s vs, .option n (s :: vs) ∈ cs → s.head? ≠ some '-') (long : Bool) :
    List.Forall₂ (WritesItem v long) added (cs.map ConfLine.args) := by
  induction h with
  | nil => exact .nil
  | @cons c x cs xs hx _ ih =>
    refine .cons (WritesItem.weaken (hx.writes (fun n vs e => hw n vs (by simp [e])) (fun n s vs e => hv n s vs (by simp [e]))) long)
      (ih (fun n vs hm => hw n vs (by simp [hm])) (fun n s vs hm => hv n s vs (by simp [hm])))

theorem configured_words {w : World} {args : List Str} {cs : List ConfLine} (h : Configured w args cs) :
    ∀ n vs, .option n vs ∈ cs → ∀ s ∈ vs, s ≠ [] := by
  obtain ⟨_, ⟨file, ls, _, _, _, _, hf⟩, _⟩ := h
  clear * - hf
  induction hf with
  | nil => intro n vs hm; cases hm
  | cons hx _ ih =>
    intro n vs hm
    rcases List.mem_cons.mp hm with e | hm
    · rw [← e] at hx
      exact fun s hs => (writesConf_words hx s hs).1
    · exact ih n vs hm

theorem counting_sub {args : List Str} {cs : List ConfLine} {n : Str} {vs : List Str}
    (h : .option n vs ∈ counting args cs) : .option n vs ∈ cs := (C69_overridden h).2

/-- The arguments after the configuration file has been read. -/
theorem configured_args {w : World} {args : List Str} {cs : List ConfLine} (h : Configured w args cs) :
    configArgs w.run.env w.run.fs w.exist w.home args = .ok (args ++ (counting args cs).flatMap ConfLine.args) := by
  obtain ⟨ha, ⟨file, ls, h1, h2, h3, h4, h5⟩, hv⟩ := h
  exact C69_merge_partial ha h1 h2 h3 h4 h5 hv

theorem writesArgs_append {v : Verb} {long : Bool} {items added : List ArgItem} {args : List Str}
    {parts : List (List Str)} (h : WritesArgs v long items args) (ha : List.Forall₂ (WritesItem v long) added parts) :
    WritesArgs v long (items ++ added) (args ++ parts.flatten) := by
  obtain ⟨prog, name, ps, rfl, h1, h2, h3⟩ := h
  refine ⟨prog, name, ps ++ parts, ?_, h1, h2, List.rel_append h3 ha⟩
  rw [List.flatten_append]
  simp

theorem configured_writes {w : World} {v : Verb} {long : Bool} {args : List Str} {cs : List ConfLine}
    {items added : List ArgItem} (h : Configured w args cs) (hw : WritesArgs v long items args)
    (ha : List.Forall₂ (ConfItem v) (counting args cs) added) :
    WritesArgs v long (items ++ added) (args ++ (counting args cs).flatMap ConfLine.args) := by
  rw [List.flatMap_def]
  refine writesArgs_append hw (confItems_write ha ?_ ?_ long)
  · exact fun n vs hm => configured_words h n vs (counting_sub hm)
  · exact fun n s vs hm => h.values n s vs (counting_sub hm)

end Dinero
