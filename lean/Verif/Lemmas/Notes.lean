import Verif.Lemmas.Accepted
import Verif.Lemmas.Stderr
/-
Lemmas about the notes on stderr (C131).
-/
namespace Dinero

theorem HMap.isSome_extend {K V : Type} [DecidableEq K] (k : K) : ∀ (m' m : HMap K V),
    ((m.extend m').get? k).isSome = true ↔ (m.get? k).isSome = true ∨ (m'.get? k).isSome = true := by
  intro m'
  induction m' with
  | nil => intro m; simp [HMap.extend]
  | cons e m' ih =>
    intro m
    have h := ih (m.insert e.1 e.2)
    show ((HMap.extend (m.insert e.1 e.2) m').get? k).isSome = true ↔ _
    rw [h, HMap.get?_insert]
    obtain ⟨a, b⟩ := e
    rw [HMap.get?_cons]
    by_cases hk : a = k <;> simp [hk]

theorem NList.isSome_insert {T : Type} [Named T] (lower : Str → Str) (l : NList T) (e : T) (k : Str) :
    ((l.insert lower e).list.get? k).isSome = true ↔ (l.list.get? k).isSome = true ∨ k = lower (Named.name e) := by
  unfold NList.insert
  cases h : l.list.get? (lower (Named.name e)) with
  | some x =>
    simp only
    constructor
    · exact .inl
    · rintro (h' | rfl)
      · exact h'
      · rw [h]; rfl
  | none =>
    simp only
    rw [HMap.get?_insert]
    by_cases hk : lower (Named.name e) = k
    · simp [hk]
    · rw [if_neg hk]
      simp [Ne.symm hk]

/-- The names of these lists. -/
structure Knows (l : Lists) (ds : List Announced) : Prop where
  accounts : ∀ n, (l.accounts.list.get? n).isSome = true ↔ .account n ∈ ds
  commodities : ∀ n, (l.commodities.list.get? n).isSome = true ↔ .commodity n ∈ ds
  payees : ∀ n, (l.payees.list.get? n).isSome = true ↔ .payee n ∈ ds

theorem knows_nil : Knows {} [] := ⟨by simp, by simp, by simp⟩

theorem knows_append {pl pl' : ParsedLedger} {ds ds' : List Announced} (h : Knows pl.lists ds) (h' : Knows pl'.lists ds') :
    Knows (pl.append pl').lists (ds ++ ds') := by
  refine ⟨fun n => ?_, fun n => ?_, fun n => ?_⟩
  · rw [List.mem_append, ← h.accounts, ← h'.accounts]; exact HMap.isSome_extend _ _ _
  · rw [List.mem_append, ← h.commodities, ← h'.commodities]; exact HMap.isSome_extend _ _ _
  · rw [List.mem_append, ← h.payees, ← h'.payees]; exact HMap.isSome_extend _ _ _

theorem knows_fold {content : Str → ParsedLedger} {names : Str → List Announced} : ∀ (l : List Str) (pl : ParsedLedger)
    (ds : List Announced), Knows pl.lists ds → (∀ f ∈ l, Knows (content f).lists (names f)) →
    Knows (l.foldl (fun pl f => pl.append (content f)) pl).lists (ds ++ l.flatMap names) := by
  intro l
  induction l with
  | nil => intro pl ds h _; simpa using h
  | cons f l ih =>
    intro pl ds h hf
    rw [List.foldl_cons, List.flatMap_cons, ← List.append_assoc]
    exact ih _ _ (knows_append h (hf f List.mem_cons_self)) (fun g hg => hf g (List.mem_cons_of_mem _ hg))

theorem knows_block {env : Env} {included : Str → ParsedLedger} {inside : Str → List Announced} {pl : ParsedLedger}
    {ds : List Announced} {b : Block} (h : Knows pl.lists ds) (hi : ∀ x, b = .incl x → Knows (included x).lists (inside x)) :
    Knows (addBlock env included pl b).lists (ds ++ b.declares env.lower inside) := by
  obtain ⟨h1, h2, h3⟩ := h
  cases b with
  | comment c => simpa [Block.declares, addBlock] using ⟨h1, h2, h3⟩
  | price c => simpa [Block.declares, addBlock] using ⟨h1, h2, h3⟩
  | txn c => simpa [Block.declares, addBlock] using ⟨h1, h2, h3⟩
  | tag c => simpa [Block.declares, addBlock] using ⟨h1, h2, h3⟩
  | account a =>
    refine ⟨fun n => ?_, by simpa [Block.declares, addBlock] using h2, by simpa [Block.declares, addBlock] using h3⟩
    simp only [addBlock, Block.declares]
    rw [NList.isSome_insert, h1]
    simp [Named.name]
  | commodity a =>
    refine ⟨by simpa [Block.declares, addBlock] using h1, fun n => ?_, by simpa [Block.declares, addBlock] using h3⟩
    simp only [addBlock, Block.declares]
    rw [NList.isSome_insert, h2]
    simp [Named.name]
  | payee a =>
    refine ⟨by simpa [Block.declares, addBlock] using h1, by simpa [Block.declares, addBlock] using h2, fun n => ?_⟩
    simp only [addBlock, Block.declares]
    rw [NList.isSome_insert, h3]
    simp [Named.name]
  | incl x => exact knows_append ⟨h1, h2, h3⟩ (hi x rfl)

theorem plNotes_eq {env : Env} {told : Str → List Note} {pl : ParsedLedger} {ds : List Announced} (h : Knows pl.lists ds) (b : Block) :
    plNotes env told pl b = b.noted env.lower told ds := by
  cases b with
  | account a => simp only [plNotes, Block.noted, insertNote, h.accounts]; rfl
  | commodity a => simp only [plNotes, Block.noted, insertNote, h.commodities]; rfl
  | payee a => simp only [plNotes, Block.noted, insertNote, h.payees]; rfl
  | comment c => rfl
  | price c => rfl
  | txn c => rfl
  | tag c => rfl
  | incl c => rfl

theorem knows_all {env : Env} {included : Str → ParsedLedger} {inside : Str → List Announced} (told : Str → List Note) :
    ∀ (bs before : List Block) (pl : ParsedLedger), Knows pl.lists (before.flatMap (Block.declares env.lower inside)) →
      (∀ x, .incl x ∈ bs → Knows (included x).lists (inside x)) →
      Knows (bs.foldl (addBlock env included) pl).lists ((before ++ bs).flatMap (Block.declares env.lower inside)) ∧
      plNotesAll env included told pl bs = notedAll env.lower inside told before bs := by
  intro bs
  induction bs with
  | nil => intro before pl h _; rw [List.append_nil]; exact ⟨h, rfl⟩
  | cons b bs ih =>
    intro before pl h hi
    have hb := knows_block (env := env) (included := included) (inside := inside) (b := b) h
      (fun x hx => hi x (by rw [hx]; exact List.mem_cons_self))
    have := ih (before ++ [b]) _ (by simpa using hb) (fun x hx => hi x (List.mem_cons_of_mem _ hx))
    refine ⟨by simpa using this.1, ?_⟩
    rw [plNotesAll, notedAll, plNotes_eq h, this.2]

/-- What is noted about a file that is accepted. -/
theorem file_tells {env : Env} (ha : env.AsciiChars) (fs : Files) (fuel : Nat) :
    ∀ (depth : Nat) (seen : List Str) (file : Str) (pl : ParsedLedger), tokenizeFile env fs fuel depth seen file = .ok pl →
      ∃ ds, Tells env fs seen file ds (fileNotes env fs fuel depth seen file) ∧ Knows pl.lists ds := by
  intro depth
  induction depth with
  | zero => intro seen file pl h; cases h
  | succ depth ih =>
    intro seen file pl h
    rw [tokenizeFile] at h
    rw [fileNotes]
    cases hf : fs.read file with
    | none => rw [hf] at h; cases h
    | some text =>
      rw [hf] at h
      simp only at h ⊢
      let content : Str → ParsedLedger := fun f => match tokenizeFile env fs fuel depth (file :: seen) f with
        | .ok x => x
        | .error _ => {}
      let pattern : Str → Str := fun x => (if (fs.parent file).getD [] = [] then ['.'] else (fs.parent file).getD []) ++ '/' :: x
      let entries : Str → List (Option Str) := fun x =>
        ((fs.parent file).bind (fun dir => fs.glob ((if dir = [] then ['.'] else dir) ++ '/' :: x))).getD []
      have hpt : ∀ x dir, fs.parent file = some dir → pattern x = (if dir = [] then ['.'] else dir) ++ '/' :: x := by
        intro x dir hd; simp only [pattern]; rw [hd]; rfl
      have hinc := include_takes (fs := fs) (file := file) (seen := seen) (tok := fun f => tokenizeFile env fs fuel depth (file :: seen) f)
        (content := content) (fun f => fileNotes env fs fuel depth (file :: seen) f) hpt (entries := entries)
        (by intro f x hx; simp only [content, hx])
        (by intro x dir es hd hg; simp only [entries]; rw [hd, Option.bind_some, hg]; rfl)
      obtain ⟨bs, b1, b2, b4, b3⟩ := items_takes ha fuel hinc (fun _ _ _ h => includeTok_step h) fuel {} (Tok.ofContent text)
        List.suffix_rfl (.inr (.inr (by simp [Tok.ofContent]))) pl h
      have hall : ∀ f, ∃ ds, (∃ x, .incl x ∈ bs ∧ some f ∈ entries x) →
          Tells env fs (file :: seen) f ds (fileNotes env fs fuel depth (file :: seen) f) ∧ Knows (content f).lists ds := by
        intro f
        by_cases hx : ∃ x, Block.incl x ∈ bs ∧ some f ∈ entries x
        · obtain ⟨x, h1, h2⟩ := hx
          obtain ⟨ds, d⟩ := ih _ _ _ ((b3 x h1).2.2 f h2)
          exact ⟨ds, fun _ => d⟩
        · exact ⟨[], fun h => absurd h hx⟩
      choose names hnames using hall
      have hk := knows_all (env := env)
        (included := fun x => ((entries x).filterMap id).foldl (fun pl f => pl.append (content f)) {})
        (inside := fun x => ((entries x).filterMap id).flatMap names)
        (fun x => unreadable (pattern x) 0 (entries x) ++
          ((entries x).filterMap id).flatMap (fun f => fileNotes env fs fuel depth (file :: seen) f)) bs [] {} knows_nil
        (by
          intro x hx
          have := knows_fold (content := content) (names := names) ((entries x).filterMap id) {} [] knows_nil (by
            intro f hf
            obtain ⟨a, h1, h2⟩ := List.mem_filterMap.mp hf
            cases a with
            | none => cases h2
            | some y =>
              cases h2
              exact (hnames _ ⟨x, hx, h1⟩).2)
          simpa using this)
      refine ⟨_, ?_, by rw [b2]; exact hk.1⟩
      rw [b4, hk.2]
      refine .mk pattern entries names _ hf b1 ?_ ?_
      · intro x hx
        obtain ⟨dir, h1, h2⟩ := (b3 x hx).1
        exact ⟨dir, h1, hpt x dir h1, by rw [hpt x dir h1]; exact h2⟩
      · intro x hx f hm
        exact (hnames f ⟨x, hx, hm⟩).1

/-! ### Nothing else is said -/

theorem passText_ok (o : Shuf × Shuf) (skip : Bool) (ts : List (Txn Posting)) : ∀ (σ ρ : Nat → Shuf) (bals : Balances)
    (x : List (Txn Posting) × List Price), balancePass skip σ ρ bals ts = .ok x → passText o skip σ bals ts = [] := by
  induction ts with
  | nil => intro σ ρ bals x _; rfl
  | cons t ts ih =>
    intro σ ρ bals x h
    rw [balancePass] at h
    rw [passText]
    cases hd : t.date with
    | none => rw [hd] at h; cases h
    | some d =>
      rw [hd] at h
      simp only at h
      cases hb : Txn.balance (σ 0) skip bals t with
      | error e => rw [hb] at h; cases h
      | ok y =>
        obtain ⟨bals', t', ret⟩ := y
        rw [hb] at h
        simp only at h ⊢
        cases hp : impliedPrice (ρ 0) d ret with
        | error e => rw [hp] at h; cases h
        | ok pr =>
          rw [hp] at h
          simp only at h
          cases hr : balancePass skip (fun i => σ (i + 1)) (fun i => ρ (i + 1)) bals' ts with
          | error e => rw [hr] at h; cases h
          | ok z => exact ih _ _ _ _ hr

theorem culprits_ok (env : Env) (rules : List (Txn RawPosting × Ast)) (ts : List (Txn Posting)) : ∀ (l : Lists)
    (x : List (Txn Posting) × Lists), automate env rules ts l = .ok x → culprits env rules ts l = none := by
  induction ts with
  | nil => intro l x _; rfl
  | cons t ts ih =>
    intro l x h
    rw [automate] at h
    rw [culprits]
    cases ha : applyRules env rules t l with
    | error e => rw [ha] at h; cases h
    | ok y =>
      obtain ⟨t', l'⟩ := y
      rw [ha] at h
      simp only at h ⊢
      cases hr : automate env rules ts l' with
      | error e => rw [hr] at h; cases h
      | ok z => exact ih _ _ hr

theorem culprits_nil (env : Env) (ts : List (Txn Posting)) : ∀ (l : Lists), culprits env [] ts l = none := by
  induction ts with
  | nil => intro l; rfl
  | cons t ts ih => intro l; rw [culprits]; exact ih l

/-- If there is a ledger, nothing is said about it. -/
theorem said_ok {r : Run} {skip : Bool} {path : Str} {L : Ledger} (sp : Speech) (h : r.ledger skip path = .ok L) :
    r.said sp skip path = [] := by
  unfold Run.ledger at h
  unfold Run.said
  cases hj : r.journal path with
  | error f => rw [hj] at h; cases h
  | ok pl =>
    rw [hj] at h
    simp only at h ⊢
    have ht : toLedger r.env r.orders skip pl = .ok L := by
      revert h
      cases toLedger r.env r.orders skip pl with
      | ok L => intro h; cases h; rfl
      | error f => intro h; cases h
    unfold toLedger at ht
    unfold ledgerText ledgerCulprit
    cases hp : populate r.env r.orders pl with
    | error f => rw [hp] at ht; cases ht
    | ok l =>
      rw [hp] at ht
      simp only at ht ⊢
      unfold buildLedger at ht
      cases hd : directivePrices r.env l.commodities pl.prices with
      | error f => rw [hd] at ht; cases ht
      | ok prices =>
        rw [hd] at ht
        simp only at ht ⊢
        cases hc : convertAll r.env r.orders.unknown l pl.transactions with
        | error f => rw [hc] at ht; cases ht
        | ok x =>
          obtain ⟨txns, autos, prs⟩ := x
          rw [hc] at ht
          simp only at ht ⊢
          cases hs : sortByDate txns with
          | error f => rw [hs] at ht; cases ht
          | ok sorted =>
            rw [hs] at ht
            simp only at ht ⊢
            cases hb : balancePass skip r.orders.fill r.orders.rate (initialBalances l.accounts) sorted with
            | error f => rw [hb] at ht; cases ht
            | ok y =>
              obtain ⟨ts, prs'⟩ := y
              rw [hb] at ht
              simp only at ht ⊢
              cases ha : automatedPass r.env r.orders skip autos ts l with
              | error f => rw [ha] at ht; cases ht
              | ok z =>
                unfold automatedPass at ha
                unfold automatedText
                split at ha
                · next hl =>
                  rw [if_pos hl]
                  cases hn : ruleNodes r.env autos with
                  | error f => rw [hn] at ha; cases ha
                  | ok rules =>
                    rw [hn] at ha
                    simp only at ha ⊢
                    cases hau : automate r.env rules ts l with
                    | error f => rw [hau] at ha; cases ha
                    | ok q =>
                      obtain ⟨ts', l'⟩ := q
                      rw [hau] at ha
                      simp only at ha ⊢
                      rw [culprits_ok _ _ _ _ _ hau]
                      cases hb2 : balancePass skip r.orders.fill2 r.orders.rate2 (initialBalances l'.accounts) ts' with
                      | error f => rw [hb2] at ha; cases ha
                      | ok u => rw [passText_ok _ _ _ _ _ _ _ hb2]; rfl
                · next hl =>
                  rw [if_neg hl]
                  have : autos = [] := by
                    cases autos with
                    | nil => rfl
                    | cons a as => simp at hl
                  subst this
                  simp only [ruleNodes, culprits_nil]
                  rfl

/-! ### Files without includes -/

theorem noted_sameName {lower : Str → Str} {told : Str → List Note} {inside : Str → List Announced} {before : List Block} {b : Block}
    (hb : ∀ x, .incl x ∉ before) (hi : ∀ x, b ≠ .incl x) :
    b.noted lower told (before.flatMap (Block.declares lower inside)) = [] ↔ ∀ a ∈ before, ¬ SameName lower a b := by
  have key : ∀ d : Announced, d ∈ before.flatMap (Block.declares lower inside) ↔
      ∃ a ∈ before, d ∈ a.declares lower inside := by intro d; rw [List.mem_flatMap]
  cases b with
  | incl x => exact absurd rfl (hi x)
  | comment c => simp only [Block.noted, true_iff]; intro a _; cases a <;> simp [SameName]
  | price c => simp only [Block.noted, true_iff]; intro a _; cases a <;> simp [SameName]
  | txn c => simp only [Block.noted, true_iff]; intro a _; cases a <;> simp [SameName]
  | tag c => simp only [Block.noted, true_iff]; intro a _; cases a <;> simp [SameName]
  | account x =>
    simp only [Block.noted, ite_eq_right_iff, List.cons_ne_nil, imp_false, key, not_exists, not_and]
    refine forall₂_congr fun a ha => ?_
    cases a with
    | incl y => exact absurd ha (hb y)
    | _ => simp [Block.declares, SameName, eq_comm]
  | commodity x =>
    simp only [Block.noted, ite_eq_right_iff, List.cons_ne_nil, imp_false, key, not_exists, not_and]
    refine forall₂_congr fun a ha => ?_
    cases a with
    | incl y => exact absurd ha (hb y)
    | _ => simp [Block.declares, SameName, eq_comm]
  | payee x =>
    simp only [Block.noted, ite_eq_right_iff, List.cons_ne_nil, imp_false, key, not_exists, not_and]
    refine forall₂_congr fun a ha => ?_
    cases a with
    | incl y => exact absurd ha (hb y)
    | _ => simp [Block.declares, SameName, eq_comm]

theorem notedAll_nil {lower : Str → Str} {told : Str → List Note} {inside : Str → List Announced} : ∀ (bs before : List Block),
    (∀ x, .incl x ∉ before ++ bs) → before.Pairwise (fun a b => ¬ SameName lower a b) →
    (notedAll lower inside told before bs = [] ↔ (before ++ bs).Pairwise (fun a b => ¬ SameName lower a b)) := by
  intro bs
  induction bs with
  | nil => intro before _ h; simp [notedAll, h]
  | cons b bs ih =>
    intro before hi h
    have hb : ∀ x, .incl x ∉ before := fun x hx => hi x (List.mem_append_left _ hx)
    have hbi : ∀ x, b ≠ .incl x := fun x hx => hi x (by simp [hx])
    rw [notedAll, List.append_eq_nil_iff, noted_sameName hb hbi]
    have hap : before ++ b :: bs = (before ++ [b]) ++ bs := by simp
    constructor
    · rintro ⟨h1, h2⟩
      rw [hap]
      refine (ih (before ++ [b]) (by rw [← hap]; exact hi) ?_).mp h2
      rw [List.pairwise_append]
      exact ⟨h, List.pairwise_singleton _ _, fun a ha c hc => by rw [List.mem_singleton] at hc; rw [hc]; exact h1 a ha⟩
    · intro hp
      have hp' := hp
      rw [hap, List.pairwise_append] at hp'
      have h1 := (List.pairwise_append.mp hp'.1).2.2
      exact ⟨fun a ha => h1 a ha b List.mem_cons_self, (ih (before ++ [b]) (by rw [← hap]; exact hi) hp'.1).mpr (by rw [← hap]; exact hp)⟩

theorem notesText_nil (debug : Nat → Note → Str) (n : Nat) (xs : List Note) : notesText debug n xs = [] ↔ xs = [] := by
  cases xs with
  | nil => simp [notesText]
  | cons x xs => cases x <;> simp [notesText, noteText]

end Dinero
