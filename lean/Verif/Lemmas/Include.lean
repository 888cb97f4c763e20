import Verif.Lemmas.Lines
import Verif.Lemmas.List
/-
Lemmas about included files: what they contain is what pasting them gives.
-/
namespace Dinero

/-! ### Merging lists -/

section
variable {K V : Type} [DecidableEq K]

theorem HMap.insert_comm_append (m : HMap K V) (k k' : K) (v v' : V) (hk : k ≠ k') (h : k ∈ m.keys) :
    (m.insert k' v').insert k v = (m.insert k v).insert k' v' := by
  induction m with
  | nil => cases h
  | cons e m ih =>
    obtain ⟨a, b⟩ := e
    by_cases h1 : a = k
    · subst h1
      simp [HMap.insert, hk]
    · by_cases h2 : a = k'
      · subst h2
        simp [HMap.insert, h1]
      · have : k ∈ HMap.keys m := by
          rcases List.mem_cons.mp h with h | h
          · exact absurd h.symm h1
          · exact h
        simp [HMap.insert, h1, h2, ih this]

theorem HMap.insert_insert (m : HMap K V) (k : K) (v v' : V) : (m.insert k v).insert k v' = m.insert k v' := by
  induction m with
  | nil => simp [HMap.insert]
  | cons e m ih =>
    obtain ⟨a, b⟩ := e
    by_cases h1 : a = k
    · subst h1; simp [HMap.insert]
    · simp [HMap.insert, h1, ih]

/-- Inserting a key that is there already can be done before further insertions of other keys. -/
theorem HMap.extend_insert_mem (m' : HMap K V) (k : K) (v : V) : ∀ m : HMap K V, k ∉ m'.keys → k ∈ m.keys →
    (m.extend m').insert k v = (m.insert k v).extend m' := by
  induction m' with
  | nil => intro m _ _; rfl
  | cons e m' ih =>
    intro m h1 h2
    simp only [HMap.keys_cons, List.mem_cons, not_or] at h1
    show ((m.insert e.1 e.2).extend m').insert k v = ((m.insert k v).insert e.1 e.2).extend m'
    rw [ih _ h1.2 (by rw [HMap.mem_keys_insert]; exact .inr h2), HMap.insert_comm_append _ _ _ _ _ h1.1 h2]

theorem HMap.extend_insert (m' : HMap K V) (k : K) (v : V) : ∀ m : HMap K V, m'.keys.Nodup →
    m.extend (m'.insert k v) = (m.extend m').insert k v := by
  induction m' with
  | nil => intro m _; rfl
  | cons e m' ih =>
    intro m hn
    obtain ⟨a, b⟩ := e
    simp only [HMap.keys_cons, List.nodup_cons] at hn
    by_cases h : a = k
    · subst h
      have e1 : HMap.insert ((a, b) :: m') a v = (a, v) :: m' := by simp [HMap.insert]
      rw [e1]
      show (m.insert a v).extend m' = ((m.insert a b).extend m').insert a v
      rw [HMap.extend_insert_mem _ _ _ _ hn.1 (by rw [HMap.mem_keys_insert]; exact .inl rfl), HMap.insert_insert]
    · have e1 : HMap.insert ((a, b) :: m') k v = (a, b) :: HMap.insert m' k v := by simp [HMap.insert, h]
      rw [e1]
      exact ih (m.insert a b) hn.2
end

variable {T : Type} [Named T]

theorem HMap.extend_foldl {α : Type} (f : α → Str) (v : Str) (xs : List α) : ∀ (m m' : HMap Str Str), m'.keys.Nodup →
    m.extend (xs.foldl (fun acc a => HMap.insert acc (f a) v) m') =
      xs.foldl (fun acc a => HMap.insert acc (f a) v) (m.extend m') := by
  induction xs with
  | nil => intro m m' _; rfl
  | cons x xs ih =>
    intro m m' h
    simp only [List.foldl_cons]
    rw [ih m _ (HMap.nodup_keys_insert _ _ _ h), HMap.extend_insert _ _ _ _ h]

/-- Appending a list with one more element that the first one does not have. -/
theorem NList.append_insert {lower : Str → Str} (l : NList T) {b : NList T} (e : T) (hb : b.Inv lower)
    (hn : l.list.get? (lower (Named.name e)) = none) :
    l.append (b.insert lower e) = (l.append b).insert lower e := by
  unfold NList.insert
  have hg : (l.append b).list.get? (lower (Named.name e)) = b.list.get? (lower (Named.name e)) := by
    show (l.list.extend b.list).get? _ = _
    rw [HMap.get?_extend _ _ hb.nodupL, hn]
    cases b.list.get? (lower (Named.name e)) <;> rfl
  rw [hg]
  cases b.list.get? (lower (Named.name e)) with
  | some x => rfl
  | none =>
    simp only [NList.append]
    rw [HMap.extend_foldl _ _ _ _ _ hb.nodupA, HMap.extend_insert _ _ _ _ hb.nodupL]

/-! ### Journals -/

/-- The lists of a journal are built by insertions and merges. -/
structure Lists.Reachable (lower : Str → Str) (l : Lists) : Prop where
  accounts : l.accounts.Reachable lower
  payees : l.payees.Reachable lower
  commodities : l.commodities.Reachable lower

theorem addBlock_reachable {env : Env} {included : Str → ParsedLedger}
    {pl : ParsedLedger} {b : Block} (hi : ∀ x, b = .incl x → (included x).lists.Reachable env.lower)
    (h : pl.lists.Reachable env.lower) :
    (addBlock env included pl b).lists.Reachable env.lower := by
  cases b with
  | account a => exact ⟨.insert _ h.accounts, h.payees, h.commodities⟩
  | commodity a => exact ⟨h.accounts, h.payees, .insert _ h.commodities⟩
  | payee a => exact ⟨h.accounts, .insert _ h.payees, h.commodities⟩
  | incl x => exact ⟨.append h.accounts (hi x rfl).accounts, .append h.payees (hi x rfl).payees,
      .append h.commodities (hi x rfl).commodities⟩
  | _ => exact h

theorem Lists.Reachable.empty (lower : Str → Str) : Lists.Reachable lower {} := ⟨.new, .new, .new⟩

theorem foldl_reachable {env : Env} {included : Str → ParsedLedger} (bs : List Block) : ∀ pl : ParsedLedger,
    (∀ x, .incl x ∈ bs → (included x).lists.Reachable env.lower) → pl.lists.Reachable env.lower →
    (bs.foldl (addBlock env included) pl).lists.Reachable env.lower := by
  induction bs with
  | nil => intro pl _ h; exact h
  | cons b bs ih =>
    intro pl hi h
    exact ih _ (fun x hx => hi x (by simp [hx])) (addBlock_reachable (fun x hx => hi x (by simp [hx])) h)

theorem insert_keys {lower : Str → Str} (l : NList T) (e : T) (k : Str) (h : (l.insert lower e).list.get? k ≠ none) :
    l.list.get? k ≠ none ∨ k = lower (Named.name e) := by
  unfold NList.insert at h
  cases hg : l.list.get? (lower (Named.name e)) with
  | some x => rw [hg] at h; exact .inl h
  | none =>
    rw [hg] at h
    simp only [HMap.get?_insert] at h
    split at h
    · next hk => exact .inr hk.symm
    · exact .inl h

/-- The names of a journal without includes come from its items. -/
theorem meaning_names {env : Env} {included : Str → ParsedLedger} (bs : List Block) (k : Str) : ∀ pl : ParsedLedger,
    (∀ x, .incl x ∉ bs) →
    ((bs.foldl (addBlock env included) pl).lists.accounts.list.get? k ≠ none →
      pl.lists.accounts.list.get? k ≠ none ∨ ∃ a, .account a ∈ bs ∧ k = env.lower a.name) ∧
    ((bs.foldl (addBlock env included) pl).lists.commodities.list.get? k ≠ none →
      pl.lists.commodities.list.get? k ≠ none ∨ ∃ a, .commodity a ∈ bs ∧ k = env.lower a.name) ∧
    ((bs.foldl (addBlock env included) pl).lists.payees.list.get? k ≠ none →
      pl.lists.payees.list.get? k ≠ none ∨ ∃ a, .payee a ∈ bs ∧ k = env.lower a.name) := by
  induction bs with
  | nil => intro pl _; exact ⟨.inl, .inl, .inl⟩
  | cons b bs ih =>
    intro pl hi
    obtain ⟨h1, h2, h3⟩ := ih (addBlock env included pl b) (fun x hx => hi x (by simp [hx]))
    simp only [List.foldl_cons]
    refine ⟨fun h => ?_, fun h => ?_, fun h => ?_⟩
    · rcases h1 h with h | ⟨a, ha, hk⟩
      · cases b with
        | account a =>
          rcases insert_keys _ _ _ h with h | h
          · exact .inl h
          · exact .inr ⟨a, by simp, h⟩
        | incl x => exact absurd List.mem_cons_self (hi x)
        | _ => exact .inl h
      · exact .inr ⟨a, by simp [ha], hk⟩
    · rcases h2 h with h | ⟨a, ha, hk⟩
      · cases b with
        | commodity a =>
          rcases insert_keys _ _ _ h with h | h
          · exact .inl h
          · exact .inr ⟨a, by simp, h⟩
        | incl x => exact absurd List.mem_cons_self (hi x)
        | _ => exact .inl h
      · exact .inr ⟨a, by simp [ha], hk⟩
    · rcases h3 h with h | ⟨a, ha, hk⟩
      · cases b with
        | payee a =>
          rcases insert_keys _ _ _ h with h | h
          · exact .inl h
          · exact .inr ⟨a, by simp, h⟩
        | incl x => exact absurd List.mem_cons_self (hi x)
        | _ => exact .inl h
      · exact .inr ⟨a, by simp [ha], hk⟩

/-- Adding what a journal contains is adding its items one by one, if they are neither tags nor includes nor
declare names that are there already. -/
theorem append_meaning {env : Env} {included : Str → ParsedLedger} (pl : ParsedLedger) (bs : List Block)
    (hi : ∀ x, .incl x ∉ bs) (ht : ∀ n, .tag n ∉ bs)
    (ha : ∀ a, .account a ∈ bs → pl.lists.accounts.list.get? (env.lower a.name) = none)
    (hc : ∀ a, .commodity a ∈ bs → pl.lists.commodities.list.get? (env.lower a.name) = none)
    (hp : ∀ a, .payee a ∈ bs → pl.lists.payees.list.get? (env.lower a.name) = none) :
    pl.append (meaning env included bs) = bs.foldl (addBlock env included) pl := by
  induction bs using List.reverseRecOn with
  | nil =>
    simp [meaning, ParsedLedger.append, NList.append, HMap.extend]
  | append_singleton bs b ih =>
    have ih := ih (fun x hx => hi x (by simp [hx])) (fun x hx => ht x (by simp [hx])) (fun a h => ha a (by simp [h]))
      (fun a h => hc a (by simp [h])) (fun a h => hp a (by simp [h]))
    have hr : (meaning env included bs).lists.Reachable env.lower :=
      foldl_reachable bs {} (fun x hx => absurd (by simp [hx]) (hi x)) (.empty _)
    rw [List.foldl_append, ← ih]
    unfold meaning at *
    rw [List.foldl_append]
    generalize bs.foldl (addBlock env included) {} = m at hr ih
    clear ih
    simp only [List.foldl_cons, List.foldl_nil]
    cases b with
    | comment c => simp [addBlock, ParsedLedger.append]
    | price p => simp [addBlock, ParsedLedger.append]
    | txn t => simp [addBlock, ParsedLedger.append]
    | account a =>
      simp only [addBlock, ParsedLedger.append]
      rw [NList.append_insert _ _ (NList.Inv.reach hr.accounts) (ha a (by simp))]
    | commodity a =>
      simp only [addBlock, ParsedLedger.append]
      rw [NList.append_insert _ _ (NList.Inv.reach hr.commodities) (hc a (by simp))]
    | payee a =>
      simp only [addBlock, ParsedLedger.append]
      rw [NList.append_insert _ _ (NList.Inv.reach hr.payees) (hp a (by simp))]
    | tag n => exact absurd (by simp) (ht n)
    | incl x => exact absurd (by simp) (hi x)

theorem WritesJournal.append {env : Env} {ls ls' : List Str} {bs bs' : List Block} (h : WritesJournal env ls bs)
    (h' : WritesJournal env ls' bs') : WritesJournal env (ls ++ ls') (bs ++ bs') := by
  induction h with
  | nil => exact h'
  | blank hb h ih => exact .blank hb ih
  | cons hb h ih =>
    have := WritesJournal.cons hb ih
    simpa using this

/-! ### Trees of files -/

theorem forall_bound {α : Type} (P : α → Nat → Prop) (l : List α)
    (h : ∀ a ∈ l, ∃ N, ∀ n, N ≤ n → P a n) : ∃ N, ∀ a ∈ l, ∀ n, N ≤ n → P a n := by
  induction l with
  | nil => exact ⟨0, by simp⟩
  | cons a l ih =>
    obtain ⟨N1, h1⟩ := ih (fun a ha => h a (by simp [ha]))
    obtain ⟨N2, h2⟩ := h a (by simp)
    refine ⟨max N1 N2, fun x hx n hn => ?_⟩
    rcases List.mem_cons.mp hx with rfl | hx
    · exact h2 n (by omega)
    · exact h1 x hx n (by omega)

theorem includeFiles_ok {tok : Str → PRes ParsedLedger} {content : Str → ParsedLedger} (l : List Str) :
    ∀ pl : ParsedLedger, (∀ f ∈ l, tok f = .ok (content f)) →
    includeFiles tok l pl = .ok (l.foldl (fun pl f => pl.append (content f)) pl) := by
  induction l with
  | nil => intro pl _; rfl
  | cons f l ih =>
    intro pl h
    rw [includeFiles, h f (by simp)]
    exact ih _ (fun f hf => h f (by simp [hf]))

theorem includePattern_ok {fs : Files} {file dir x : Str} (h : fs.parent file = some dir) :
    includePattern fs (some file) x = .ok ((if dir = [] then ['.'] else dir) ++ '/' :: x) := by
  simp [includePattern, h]

theorem incl_nl {env : Env} {ls : List Str} {bs : List Block} {x : Str} (h : WritesJournal env ls bs)
    (hx : .incl x ∈ bs) : '\n' ∉ x := by
  induction h with
  | nil => cases hx
  | blank _ _ ih => exact ih hx
  | cons hb _ ih =>
    rcases List.mem_cons.mp hx with rfl | hx
    · cases hb with
      | incl h => exact h
    · exact ih hx

/-- Include directives of files that can be read. -/
theorem prior_ok {env : Env} {fs : Files} {seen : List Str} {file dir : Str} {ls : List Str} {bs : List Block}
    {entries : Str → List (Option Str)} {content : Str → ParsedLedger} (hj : WritesJournal env ls bs)
    (hd : (∃ x, .incl x ∈ bs) → fs.parent file = some dir)
    (hg : ∀ x, .incl x ∈ bs → fs.glob ((if dir = [] then ['.'] else dir) ++ '/' :: x) = some (entries x))
    (hn : ∀ x, .incl x ∈ bs → ∀ f, some f ∈ entries x → f ≠ file ∧ f ∉ seen)
    (ih : ∀ x, .incl x ∈ bs → ∀ f, some f ∈ entries x → ∃ N, ∀ n, N ≤ n → ∀ fuel depth, n ≤ fuel → n ≤ depth →
      tokenizeFile env fs fuel depth (file :: seen) f = .ok (content f)) :
    ∃ N, ∀ fuel depth, N ≤ fuel → N ≤ depth →
      Includes (includeTok fs (some file) (file :: seen) (fun f => tokenizeFile env fs fuel depth (file :: seen) f))
        (fun x => ((entries x).filterMap id).foldl (fun pl f => pl.append (content f)) {}) bs := by
  have h1 : ∃ N, ∀ b ∈ bs, ∀ n, N ≤ n → ∀ x, b = .incl x → ∀ f, some f ∈ entries x → ∀ fuel depth, n ≤ fuel → n ≤ depth →
      tokenizeFile env fs fuel depth (file :: seen) f = .ok (content f) := by
    refine forall_bound (fun b n => ∀ x, b = .incl x → ∀ f, some f ∈ entries x → ∀ fuel depth, n ≤ fuel →
      n ≤ depth → tokenizeFile env fs fuel depth (file :: seen) f = .ok (content f)) bs ?_
    intro b hb
    by_cases hx : ∃ x, b = .incl x
    · obtain ⟨x, rfl⟩ := hx
      obtain ⟨N, hN⟩ := forall_bound (fun f n => ∀ fuel depth, n ≤ fuel →
        n ≤ depth → tokenizeFile env fs fuel depth (file :: seen) f = .ok (content f)) ((entries x).filterMap id)
        (fun f hf => ih x hb f (by
          obtain ⟨a, h1, h2⟩ := List.mem_filterMap.mp hf
          cases h2; exact h1))
      refine ⟨N, fun n hn x' hx' f hf => ?_⟩
      cases hx'
      exact hN f (List.mem_filterMap.mpr ⟨some f, hf, rfl⟩) n hn
    · exact ⟨0, fun n _ x hx' => absurd ⟨x, hx'⟩ hx⟩
  obtain ⟨N, hN⟩ := h1
  refine ⟨N, fun fuel depth hf hdp x hx t k ht hk => ?_⟩
  refine includeTok_ok ht (incl_nl hj hx) hk (includePattern_ok (hd ⟨x, hx⟩)) (hg x hx) ?_ ?_
  · intro f hf
    simpa using hn x hx f hf
  · refine includeFiles_ok _ _ fun f hf => ?_
    obtain ⟨a, h1, h2⟩ := List.mem_filterMap.mp hf
    cases h2
    exact hN _ hx N (Nat.le_refl _) x rfl f h1 fuel depth (by omega) (by omega)

theorem loads_ok {env : Env} (ha : env.AsciiChars) (hs : env.AsciiSep) {fs : Files} {seen : List Str} {file : Str}
    {pl : ParsedLedger} (h : Loads env fs seen file pl) :
    ∃ N, ∀ n, N ≤ n → ∀ fuel depth, n ≤ fuel → n ≤ depth → tokenizeFile env fs fuel depth seen file = .ok pl := by
  induction h with
  | @mk seen file dir ls bs entries content hr hj hl hd hg hn hc ih =>
    obtain ⟨N, hN⟩ := prior_ok hj hd hg hn ih
    refine ⟨max (N + 1) (ls.length + 4), fun n hn1 fuel depth hf hdp => ?_⟩
    obtain ⟨depth, rfl⟩ : ∃ d, depth = d + 1 := ⟨depth - 1, by omega⟩
    rw [tokenizeFile, hr]
    exact text_ok ha hs hj (hN fuel depth (by omega) (by omega)) hl (by omega)

/-! ### Include loops -/

/-- Reading the first lines of a text. -/
theorem items_prefix {env : Env} (ha : env.AsciiChars) (hs : env.AsciiSep) {fuel : Nat}
    {inc : Tok → PRes (ParsedLedger × Tok)} {included : Str → ParsedLedger} {ls : List Str} {bs : List Block}
    (h : WritesJournal env ls bs) {more : List Str} (hm : Stops env more) (hm0 : more ≠ []) :
    ∀ (n : Nat) (pl : ParsedLedger) (t : Tok), Includes inc included bs → ls.length + 4 ≤ fuel → ls.length ≤ n →
      At env t (ls ++ more) →
      ∃ n' t', n ≤ n' + ls.length ∧ At env t' more ∧
        items env fuel inc n pl t = items env fuel inc n' (bs.foldl (addBlock env included) pl) t' := by
  induction h with
  | nil => intro n pl t _ _ _ ht; exact ⟨n, t, by simp, ht, rfl⟩
  | @blank b ls bs hb h ih =>
    intro n pl t hi hf hn ht
    obtain ⟨n', t', h1, h2, h3⟩ := ih n pl t hi (by simp at hf; omega) (by simp at hn; omega) (ht.blank hb)
    exact ⟨n', t', by simp; omega, h2, h3⟩
  | @cons h body ls b bs hb h ih =>
    intro n pl t hi hf hn ht
    have hst : Stops env (ls ++ more) := by
      clear ih hi hn ht hf hb
      induction h with
      | nil => exact hm
      | blank hb h ih =>
        intro t ht
        obtain ⟨t', h1, _⟩ := ih t (ht.blank hb)
        exact ⟨t', h1, ht.again h1⟩
      | cons hb h ih =>
        intro t ht
        obtain ⟨c, r, rfl, hc⟩ := block_head ha hb
        obtain ⟨t', h1, _⟩ := At.top ha ht hc
        exact ⟨t', h1, ht.again h1⟩
    obtain ⟨n, rfl⟩ : ∃ m, n = m + 1 := ⟨n - 1, by simp at hn; omega⟩
    obtain ⟨c, r, rfl, hc⟩ := block_head ha hb
    have ht : At env t ((c :: r) :: (body ++ (ls ++ more))) := by simpa using ht
    obtain ⟨t1, h1, h2⟩ := At.top ha ht hc
    have h0 : t.rest ≠ [] := by
      intro h0
      have := wsLines_nil (env := env) h0
      rw [h1, h2] at this
      cases this
    obtain ⟨t', e1, e2⟩ := item_ok ha hs (fuel := fuel) (inc := inc) (included := included) (more := ls ++ more) hb
      (fun x hx => hi x (by simp at hx; simp [hx])) hst (by
        intro _ h0
        exact absurd (List.append_eq_nil_iff.mp h0).2 hm0) (by simp at hf; omega) pl h2
    obtain ⟨n', t'', e3, e4, e5⟩ := ih n (addBlock env included pl b) t' (fun x hx => hi x (by simp [hx]))
      (by simp at hf; omega) (by simp at hn; omega) e2
    refine ⟨n', t'', by simp at hn ⊢; omega, e4, ?_⟩
    rw [items, if_neg h0]
    simp only [h1]
    rw [h2]
    simp only [List.cons_append, e1]
    rw [e5]; rfl

theorem stops_include {env : Env} (ha : env.AsciiChars) (x : Str) (post : List Str) :
    Stops env (("include ".toList ++ x) :: post) := by
  intro t ht
  have ht' : At env t (('i' :: ("nclude ".toList ++ x)) :: post) := ht
  obtain ⟨t', h1, _⟩ := At.top ha ht' (ha.wsF (by decide) (by decide))
  exact ⟨t', h1, ht.again h1⟩

/-- An include directive that fails. -/
theorem items_include {env : Env} (ha : env.AsciiChars) {fuel n : Nat} {inc : Tok → PRes (ParsedLedger × Tok)}
    {x : Str} {post : List Str} {t : Tok} {s : Stop} (pl : ParsedLedger) (ht : At env t (("include ".toList ++ x) :: post))
    (hi : ∀ t, t.rest = "include ".toList ++ x ++ tailText post → inc t = .error s) :
    items env fuel inc (n + 1) pl t = .error s := by
  have ht' : At env t (('i' :: ("nclude ".toList ++ x)) :: post) := ht
  obtain ⟨t1, h1, h2⟩ := At.top ha ht' (ha.wsF (by decide) (by decide))
  have h0 : t.rest ≠ [] := by
    intro h0
    have := wsLines_nil (env := env) h0
    rw [h1, h2] at this
    cases this
  rw [items, if_neg h0]
  simp only [h1]
  rw [h2]
  simp only [List.cons_append]
  have e : item env fuel inc 'i' pl t1 = .error s := by
    unfold item
    rw [if_neg (by decide), if_neg (by rw [ha.numF (by decide) (by decide)]; decide), if_neg (by decide),
      if_pos rfl, hi t1 h2]
    rfl
  rw [e]

theorem consumeStr_include {t : Tok} {x k : Str} (ht : t.rest = "include ".toList ++ x ++ k) :
    consumeStr "include ".toList t =
      .ok { t with rest := x ++ k, col := t.col + "include ".toList.length } := by
  unfold consumeStr
  rw [if_pos]
  · rw [ht, List.append_assoc, List.drop_left]
  · rw [List.isPrefixOf_iff_prefix, ht, List.append_assoc]
    exact ⟨_, rfl⟩

/-- An include directive that names a file that is being read. -/
theorem includeTok_seen {fs : Files} {file : Option Str} {seen : List Str} {tok : Str → PRes ParsedLedger} {x k p : Str}
    {entries : List (Option Str)} {t : Tok} {f : Str} (ht : t.rest = "include ".toList ++ x ++ '\n' :: k)
    (hx : '\n' ∉ x) (hp : includePattern fs file x = .ok p) (hg : fs.glob p = some entries)
    (hf : some f ∈ entries) (hs : f ∈ seen) :
    includeTok fs file seen tok t = .error (.fail (.error .includeLoop)) := by
  have hc := consumeStr_include ht
  obtain ⟨e1, _⟩ := getLine_line (t := { t with rest := x ++ '\n' :: k, col := t.col + "include ".toList.length }) rfl hx
    (.inr ⟨k, rfl⟩)
  have e2 : (getLine { t with rest := x ++ '\n' :: k, col := t.col + "include ".toList.length }).2.line ≠ 0 := by
    rcases getLine_cases { t with rest := x ++ '\n' :: k, col := t.col + "include ".toList.length } with
      ⟨h, _⟩ | ⟨l, r, _, _, h⟩
    · exact absurd (by simp) h
    · rw [h]; simp
  simp only [includeTok, hc, e1, hp, hg]
  rw [if_pos]
  · unfold Tok.fail
    rw [if_neg (fun h => e2 h.1)]
  · simp only [List.any_eq_true, List.mem_filterMap, id]
    exact ⟨f, ⟨_, hf, rfl⟩, by simpa using hs⟩

/-- Files of which one cannot be read. -/
theorem includeFiles_error {tok : Str → PRes ParsedLedger} {f : Str} {s : Stop} {post : List Str} (hf : tok f = .error s)
    (pre : List Str) : ∀ pl : ParsedLedger, (∀ g ∈ pre, ∃ c, tok g = .ok c) →
    includeFiles tok (pre ++ f :: post) pl = .error s := by
  induction pre with
  | nil => intro pl _; simp only [List.nil_append, includeFiles, hf]
  | cons g pre ih =>
    intro pl h
    obtain ⟨c, hc⟩ := h g (by simp)
    rw [List.cons_append, includeFiles, hc]
    exact ih _ (fun g hg => h g (by simp [hg]))

/-- An include directive with a file that cannot be read. -/
theorem includeTok_first {fs : Files} {file : Option Str} {seen : List Str} {tok : Str → PRes ParsedLedger} {x k p : Str}
    {pre entries : List (Option Str)} {t : Tok} {f : Str} {s : Stop} (ht : t.rest = "include ".toList ++ x ++ k) (hk : Eol k)
    (hx : '\n' ∉ x) (hp : includePattern fs file x = .ok p) (hg : fs.glob p = some (pre ++ some f :: entries))
    (hs : ∀ g, some g ∈ pre ++ some f :: entries → g ∉ seen) (hpre : ∀ g, some g ∈ pre → ∃ c, tok g = .ok c)
    (hf : tok f = .error s) : includeTok fs file seen tok t = .error s := by
  have hc := consumeStr_include ht
  obtain ⟨e1, _⟩ := getLine_line (t := { t with rest := x ++ k, col := t.col + "include ".toList.length }) rfl hx hk
  simp only [includeTok, hc, e1, hp, hg]
  rw [if_neg]
  · have : includeFiles tok ((pre ++ some f :: entries).filterMap id) {} = .error s := by
      rw [List.filterMap_append, List.filterMap_cons]
      refine includeFiles_error hf _ _ fun g hg => ?_
      obtain ⟨a, h1, h2⟩ := List.mem_filterMap.mp hg
      cases h2
      exact hpre g h1
    rw [this]; rfl
  · simp only [List.any_eq_true, not_exists, not_and, List.mem_filterMap, id]
    rintro g ⟨_, hg, rfl⟩
    simpa using hs g hg

theorem noIncludes {inc : Tok → PRes (ParsedLedger × Tok)} {bs : List Block} (h : ∀ y, .incl y ∉ bs) :
    Includes inc (fun _ => {}) bs := fun x hx => absurd hx (h x)

/-- A file whose include directive fails, after lines that can be read. -/
theorem file_include {env : Env} (ha : env.AsciiChars) (hs : env.AsciiSep) {fs : Files} {seen : List Str} {file x : Str}
    {ls post : List Str} {bs : List Block} {fuel depth : Nat} {s : Stop} {included : Str → ParsedLedger}
    (hr : fs.read file = some (joinLines (ls ++ ("include ".toList ++ x) :: post)))
    (hj : WritesJournal env ls bs)
    (hn : Includes (includeTok fs (some file) (file :: seen) (fun f => tokenizeFile env fs fuel depth (file :: seen) f))
      included bs) (hf : ls.length + 4 ≤ fuel)
    (hi : ∀ t, t.rest = "include ".toList ++ x ++ tailText post → includeTok fs (some file) (file :: seen)
      (fun f => tokenizeFile env fs fuel depth (file :: seen) f) t = .error s) :
    tokenizeFile env fs fuel (depth + 1) seen file = .error s := by
  rw [tokenizeFile, hr]
  obtain ⟨n', t', h1, h2, h3⟩ := items_prefix ha hs (fuel := fuel)
    (inc := includeTok fs (some file) (file :: seen) (fun f => tokenizeFile env fs fuel depth (file :: seen) f))
    hj (stops_include ha x post) (by simp) fuel {} (Tok.ofContent (joinLines (ls ++ ("include ".toList ++ x) :: post)))
    hn hf (by omega) (ofContent_at (by simp))
  simp only
  rw [h3]
  obtain ⟨n', rfl⟩ : ∃ m, n' = m + 1 := ⟨n' - 1, by omega⟩
  exact items_include ha _ h2 hi

theorem loop_error {env : Env} (ha : env.AsciiChars) (hs : env.AsciiSep) {fs : Files} {seen : List Str} {file : Str}
    (h : IncludesItself env fs seen file) :
    ∃ N, ∀ fuel depth, N ≤ fuel → N ≤ depth →
      tokenizeFile env fs fuel depth seen file = .error (.fail (.error .includeLoop)) := by
  induction h with
  | @here seen file dir x f ls post bs es entries content hr hp hj hx hd hg0 hn0 hl0 hg hf hseen =>
    obtain ⟨N, hN⟩ := prior_ok hj (fun _ => hd) hg0 hn0 (fun y hy g hg => loads_ok ha hs (hl0 y hy g hg))
    refine ⟨max (N + 1) (ls.length + 4), fun fuel depth h1 h2 => ?_⟩
    obtain ⟨depth, rfl⟩ : ∃ m, depth = m + 1 := ⟨depth - 1, by omega⟩
    refine file_include ha hs hr hj (hN fuel depth (by omega) (by omega)) (by omega) fun t ht => ?_
    obtain ⟨k, hk⟩ : ∃ k, tailText post = '\n' :: k := by
      cases post with
      | nil => exact absurd rfl hp
      | cons l post => exact ⟨_, tailText_cons l post⟩
    rw [hk] at ht
    exact includeTok_seen ht hx (includePattern_ok hd) hg hf (by simpa using hseen)
  | @deeper seen file dir x f ls post bs pre es entries content hr hj hx hd hg0 hn0 hl0 hg hu hpre hl ih =>
    obtain ⟨N, hN⟩ := ih
    obtain ⟨M, hM⟩ := prior_ok hj (fun _ => hd) hg0 hn0 (fun y hy g hg => loads_ok ha hs (hl0 y hy g hg))
    obtain ⟨K, hK⟩ := forall_bound (fun g n => ∀ fuel depth, n ≤ fuel →
      n ≤ depth → tokenizeFile env fs fuel depth (file :: seen) g = .ok (content g)) (pre.filterMap id)
      (fun g hg => by
        obtain ⟨a, h1, h2⟩ := List.mem_filterMap.mp hg
        cases h2
        exact loads_ok ha hs (hpre g h1))
    refine ⟨max (max (N + 1) (ls.length + 4)) (max (M + 1) (K + 1)), fun fuel depth h1 h2 => ?_⟩
    obtain ⟨depth, rfl⟩ : ∃ m, depth = m + 1 := ⟨depth - 1, by omega⟩
    refine file_include ha hs hr hj (hM fuel depth (by omega) (by omega)) (by omega) fun t ht => ?_
    exact includeTok_first ht (eol_tailText _) hx (includePattern_ok hd) hg (fun g hg => by simpa using hu g hg)
      (fun g hg => ⟨content g, hK g (List.mem_filterMap.mpr ⟨some g, hg, rfl⟩) K le_rfl fuel depth (by omega) (by omega)⟩)
      (hN fuel depth (by omega) (by omega))

/-! ### Termination with includes -/

theorem includeFiles_done {tok : Str → PRes ParsedLedger} (l : List Str) : ∀ pl : ParsedLedger,
    (∀ f ∈ l, tok f ≠ .error .fuel) → includeFiles tok l pl ≠ .error .fuel := by
  induction l with
  | nil => intro pl _ h; cases h
  | cons f l ih =>
    intro pl h
    rw [includeFiles]
    cases hf : tok f with
    | error e =>
      intro h'; cases h'; exact h f (by simp) hf
    | ok new => exact ih _ (fun f hf => h f (by simp [hf]))

theorem includeTok_done {fs : Files} {file : Option Str} {seen : List Str} {tok : Str → PRes ParsedLedger} {t : Tok}
    (h : ∀ p es, fs.glob p = some es → (∀ f, some f ∈ es → f ∉ seen) → ∀ f, some f ∈ es → tok f ≠ .error .fuel) :
    includeTok fs file seen tok t ≠ .error .fuel := by
  unfold includeTok
  split
  · intro h; cases h
  · simp only
    split
    · intro h; cases h
    · split
      · intro h; cases h
      · next _ es hg =>
        split
        · intro h; cases h
        · next hs =>
          simp only [List.any_eq_true, not_exists, not_and, List.mem_filterMap, id] at hs
          refine map_error (includeFiles_done _ _ fun f hf => ?_)
          obtain ⟨a, h1, h2⟩ := List.mem_filterMap.mp hf
          cases h2
          exact h _ es hg (fun g hg' => by simpa using hs g ⟨_, hg', rfl⟩) f h1

theorem filter_lt {univ seen : List Str} {f : Str} (hf : f ∈ univ) (hs : f ∉ seen) :
    (univ.filter (fun g => decide (g ∉ f :: seen))).length < (univ.filter (fun g => decide (g ∉ seen))).length := by
  induction univ with
  | nil => cases hf
  | cons g univ ih =>
    have hle : (univ.filter (fun g => decide (g ∉ f :: seen))).length ≤ (univ.filter (fun g => decide (g ∉ seen))).length := by
      clear ih hf
      induction univ with
      | nil => simp
      | cons g univ ih =>
        simp only [List.filter_cons, List.mem_cons]
        by_cases h1 : g ∈ seen <;> by_cases h2 : g = f <;> (simp_all; try omega)
    simp only [List.filter_cons]
    by_cases h1 : g = f
    · subst h1
      simp [hs]
      simp at hle
      omega
    · have hf : f ∈ univ := by
        rcases List.mem_cons.mp hf with h | h
        · exact absurd h.symm h1
        · exact h
      have := ih hf
      by_cases h2 : g ∈ seen
      · simpa [h1, h2] using this
      · simpa [h1, h2] using this

theorem tokenizeFile_done {env : Env} (ha : env.AsciiChars) {fs : Files} {univ : List Str} {fuel : Nat}
    (hg : ∀ p es, fs.glob p = some es → ∀ f, some f ∈ es → f ∈ univ)
    (ht : ∀ f c, fs.read f = some c → ¬ TagComment env.ws c)
    (hu : ∀ f ∈ univ, ∀ c, fs.read f = some c → 3 * c.length + 2 ≤ fuel) :
    ∀ (depth : Nat) (seen : List Str) (file : Str), (∀ c, fs.read file = some c → 3 * c.length + 2 ≤ fuel) →
      (univ.filter (fun g => decide (g ∉ file :: seen))).length < depth →
      tokenizeFile env fs fuel depth seen file ≠ .error .fuel := by
  intro depth
  induction depth with
  | zero => intro seen file _ h; omega
  | succ depth ih =>
    intro seen file hfile hd
    rw [tokenizeFile]
    cases hr : fs.read file with
    | none => intro h; cases h
    | some content =>
      have hlen := hfile content hr
      refine items_done ha fuel (fun t pl t' h => includeTok_step h) (fun t => ?_) fuel {} (Tok.ofContent content)
        List.suffix_rfl (ht _ _ hr) ?_ ?_
      · refine includeTok_done fun p es he hns f hf => ?_
        have hfu := hg p es he f hf
        refine ih (file :: seen) f (hu f hfu) ?_
        have := filter_lt hfu (hns f hf)
        omega
      · simp only [Tok.size, Tok.ofContent]; omega
      · simp only [Tok.ofContent]; omega

/-! ### Pasting -/

theorem Loads.change {env : Env} {fs : Files} {seen : List Str} {f : Str} {pl : ParsedLedger} (h : Loads env fs seen f pl)
    {main text : Str} (hm : main ∈ seen) (hf : f ≠ main) : Loads env (fs.withText main text) seen f pl := by
  induction h with
  | @mk seen file dir ls bs entries content hr hj hl hd hg hn hc ih =>
    refine .mk (dir := dir) entries content ?_ hj hl hd hg hn (fun x hx f hf' => ?_)
    · simp only [Files.withText]
      rw [if_neg hf, hr]
    · exact ih x hx f hf' (by simp [hm]) (fun h => (hn x hx f hf').2 (h ▸ hm))

theorem foldl_noIncl {env : Env} {inc inc' : Str → ParsedLedger} {bs : List Block} (h : ∀ x, .incl x ∉ bs) :
    ∀ pl, bs.foldl (addBlock env inc) pl = bs.foldl (addBlock env inc') pl := by
  induction bs with
  | nil => intro pl; rfl
  | cons b bs ih =>
    intro pl
    have hb : addBlock env inc pl b = addBlock env inc' pl b := by
      cases b with
      | incl x => exact absurd (by simp) (h x)
      | _ => rfl
    rw [List.foldl_cons, List.foldl_cons, hb]
    exact ih (fun x hx => h x (by simp [hx])) _

theorem meaning_append {env : Env} {inc : Str → ParsedLedger} (a b : List Block) :
    meaning env inc (a ++ b) = b.foldl (addBlock env inc) (meaning env inc a) := List.foldl_append ..

/-- A file with an include directive contains the same as with the text of the included file in its place. -/
theorem paste_loads {env : Env} {fs : Files} {seen : List Str} {main dir x f : Str} {pre lf post : List Str}
    {bpre bf bpost : List Block} (entries : Str → List (Option Str)) (content : Str → ParsedLedger)
    (hr : fs.read main = some (joinLines (pre ++ ("include ".toList ++ x) :: post)))
    (hrf : fs.read f = some (joinLines lf))
    (h1 : WritesJournal env pre bpre) (h2 : WritesJournal env lf bf) (h3 : WritesJournal env post bpost) (hx : '\n' ∉ x)
    (hl : LastLineOk env (pre ++ ("include ".toList ++ x) :: post) (bpre ++ .incl x :: bpost))
    (hlf : LastLineOk env lf bf) (hlp : LastLineOk env (pre ++ lf ++ post) (bpre ++ bf ++ bpost))
    (hd : fs.parent main = some dir)
    (hg : ∀ y, .incl y ∈ bpre ++ .incl x :: bpost →
      fs.glob ((if dir = [] then ['.'] else dir) ++ '/' :: y) = some (entries y))
    (hn : ∀ y, .incl y ∈ bpre ++ .incl x :: bpost → ∀ g, some g ∈ entries y → g ≠ main ∧ g ∉ seen)
    (hc : ∀ y, .incl y ∈ bpre ++ bpost → ∀ g, some g ∈ entries y → Loads env fs (main :: seen) g (content g))
    (he : entries x = [some f]) (hcf : content f = meaning env (fun _ => {}) bf)
    (hi : ∀ y, .incl y ∉ bf) (ht : ∀ n, .tag n ∉ bf)
    (hna : ∀ a, .account a ∈ bf → (meaning env
      (fun y => ((entries y).filterMap id).foldl (fun pl g => pl.append (content g)) {}) bpre).lists.accounts.list.get?
        (env.lower a.name) = none)
    (hnc : ∀ a, .commodity a ∈ bf → (meaning env
      (fun y => ((entries y).filterMap id).foldl (fun pl g => pl.append (content g)) {}) bpre).lists.commodities.list.get?
        (env.lower a.name) = none)
    (hnp : ∀ a, .payee a ∈ bf → (meaning env
      (fun y => ((entries y).filterMap id).foldl (fun pl g => pl.append (content g)) {}) bpre).lists.payees.list.get?
        (env.lower a.name) = none) :
    ∃ pl, Loads env fs seen main pl ∧ Loads env (fs.withText main (joinLines (pre ++ lf ++ post))) seen main pl := by
  have hf := hn x (by simp) f (by simp [he])
  have hlo : Loads env fs (main :: seen) f (content f) := by
    rw [hcf]
    have := Loads.mk (env := env) (fs := fs) (seen := main :: seen) (file := f) (dir := dir) (ls := lf) (bs := bf)
      (fun _ => []) (fun _ => {}) hrf h2 hlf (fun ⟨y, hy⟩ => absurd hy (hi y)) (fun y hy => absurd hy (hi y))
      (fun y hy => absurd hy (hi y)) (fun y hy => absurd hy (hi y))
    simpa using this
  have hl1 := Loads.mk (env := env) (fs := fs) (seen := seen) (file := main) (dir := dir) entries content hr
    (h1.append (WritesJournal.cons (body := []) (.incl hx) h3)) hl (fun _ => hd) hg hn (by
      intro y hy g hg'
      rcases List.mem_append.mp hy with hy | hy
      · exact hc y (by simp [hy]) g hg'
      · rcases List.mem_cons.mp hy with hy | hy
        · cases hy
          rw [he] at hg'
          simp only [List.mem_singleton, Option.some.injEq] at hg'
          subst hg'
          exact hlo
        · exact hc y (by simp [hy]) g hg')
  refine ⟨_, hl1, ?_⟩
  have hsub : ∀ y, Block.incl y ∈ bpre ++ bf ++ bpost → .incl y ∈ bpre ++ bpost := by
    intro y hy
    simp only [List.mem_append] at hy ⊢
    rcases hy with (hy | hy) | hy
    · exact .inl hy
    · exact absurd hy (hi y)
    · exact .inr hy
  have hsub' : ∀ y, Block.incl y ∈ bpre ++ bpost → .incl y ∈ bpre ++ .incl x :: bpost := by
    intro y hy
    rcases List.mem_append.mp hy with hy | hy <;> simp [hy]
  have hl2 := Loads.mk (env := env) (fs := fs.withText main (joinLines (pre ++ lf ++ post))) (seen := seen) (file := main)
    (dir := dir) entries content (by simp [Files.withText]) ((h1.append h2).append h3) hlp (fun _ => hd)
    (fun y hy => hg y (hsub' y (hsub y hy))) (fun y hy => hn y (hsub' y (hsub y hy)))
    (fun y hy g hg' => (hc y (hsub y hy) g hg').change (by simp) (hn y (hsub' y (hsub y hy)) g hg').1)
  convert hl2 using 1
  rw [meaning_append, List.foldl_cons, meaning_append, meaning_append]
  congr 1
  refine Eq.trans ?_ (append_meaning _ bf hi ht hna hnc hnp)
  simp only [addBlock]
  congr 1
  rw [he]
  simp only [List.filterMap_cons, List.filterMap_nil, id, List.foldl_cons, List.foldl_nil, hcf]
  have h0 : ParsedLedger.append {} (meaning env (fun _ => {}) bf) = meaning env (fun _ => {}) bf :=
    append_meaning {} bf hi ht (fun _ _ => rfl) (fun _ _ => rfl) (fun _ _ => rfl)
  rw [h0]
  exact foldl_noIncl hi {}

end Dinero
