import Verif.Lemmas.Commands
import Verif.Lemmas.Include
/-
From the text of a journal to what it says.
-/
namespace Dinero

theorem meaning_transactions (env : Env) (bs : List Block) (hi : ∀ x, .incl x ∉ bs) (pl : ParsedLedger) :
    (bs.foldl (addBlock env (fun _ => {})) pl).transactions = pl.transactions ++ bs.filterMap Block.txn? := by
  induction bs generalizing pl with
  | nil => simp
  | cons b bs ih =>
    rw [List.foldl_cons, ih (fun x hx => hi x (by simp [hx]))]
    cases b with
    | txn t => simp [addBlock, Block.txn?]
    | incl x => exact absurd (by simp) (hi x)
    | _ => rw [List.filterMap_cons_none rfl]; rfl

theorem meaning_only (env : Env) (bs : List Block) (ho : OnlyTransactions bs) (pl : ParsedLedger) :
    (bs.foldl (addBlock env (fun _ => {})) pl).lists = pl.lists ∧
      (bs.foldl (addBlock env (fun _ => {})) pl).prices = pl.prices := by
  induction bs generalizing pl with
  | nil => simp
  | cons b bs ih =>
    rw [List.foldl_cons]
    obtain ⟨i1, i2⟩ := ih (fun x hx => ho x (by simp [hx])) (addBlock env (fun _ => {}) pl b)
    rw [i1, i2]
    rcases ho b (by simp) with ⟨c, rfl⟩ | ⟨t, rfl⟩ <;> exact ⟨rfl, rfl⟩

theorem OnlyTransactions.noIncludes {bs : List Block} (h : OnlyTransactions bs) : ∀ x, .incl x ∉ bs := by
  intro x hx
  rcases h _ hx with ⟨c, h⟩ | ⟨t, h⟩ <;> cases h

/-- Reading a file without includes. -/
theorem journal_ok {r : Run} (ha : r.env.AsciiChars) (hs : r.env.AsciiSep) {path : Str} {ls : List Str}
    {bs : List Block} (hr : r.fs.read path = some (joinLines ls)) (h : WritesJournal r.env ls bs)
    (hi : ∀ x, .incl x ∉ bs) (hl : LastLineOk r.env ls bs) (hf : ls.length + 4 ≤ r.fuel) (hd : 1 ≤ r.depth) :
    r.journal path = .ok (meaning r.env (fun _ => {}) bs) := by
  unfold Run.journal
  obtain ⟨d, hd⟩ : ∃ d, r.depth = d + 1 := ⟨r.depth - 1, by omega⟩
  rw [hd, tokenizeFile, hr]
  simp only
  exact text_ok ha hs h (fun x hx => absurd hx (hi x)) hl hf

/-- A name that is used but not declared stands for itself, if no other one differs from it in case only. -/
theorem completed_self {T : Type} [Named T] {lower : Str → Str} {l : NList T} {used : Str → Prop}
    (h : Completed lower {} l used) (hc : ∀ m n, used m → used n → lower m = lower n → m = n) {n m : Str} (hu : used n)
    (hf : Finds lower l n m) : m = n := by
  obtain ⟨m', u, e, f⟩ := h.added n hu (by
    rintro ⟨x, hx⟩
    simp [NList.get, HMap.get?] at hx)
  rw [hf.unique f]
  exact hc _ _ u hu e

theorem mem_txns {bs : List Block} {t : Txn RawPosting} : t ∈ bs.filterMap Block.txn? ↔ .txn t ∈ bs := by
  simp only [List.mem_filterMap]
  constructor
  · rintro ⟨b, hb, e⟩
    cases b <;> cases e
    exact hb
  · intro hb; exact ⟨_, hb, rfl⟩

theorem HoldsJournal.journal {r : Run} (ha : r.env.AsciiChars) (hs : r.env.AsciiSep) {path : Str} {ls : List Str}
    {bs : List Block} (h : HoldsJournal r path ls bs) : r.journal path = .ok (meaning r.env (fun _ => {}) bs) :=
  journal_ok ha hs h.read h.writes h.noIncludes h.lastLine h.fuel h.depth

theorem HoldsJournal.transactions {r : Run} {path : Str} {ls : List Str} {bs : List Block}
    (h : HoldsJournal r path ls bs) : (meaning r.env (fun _ => {}) bs).transactions = bs.filterMap Block.txn? := by
  unfold meaning
  rw [meaning_transactions _ _ h.noIncludes]
  rfl

theorem HoldsJournal.regular {r : Run} {path : Str} {ls : List Str} {bs : List Block}
    (h : HoldsJournal r path ls bs) (hr : ∀ t, .txn t ∈ bs → t.ttype = .real) :
    (meaning r.env (fun _ => {}) bs).regular = bs.filterMap Block.txn? ∧
      (meaning r.env (fun _ => {}) bs).automated = [] := by
  unfold ParsedLedger.regular ParsedLedger.automated
  rw [h.transactions, List.filter_eq_self, List.filter_eq_nil_iff]
  constructor <;> intro t ht <;> simp [hr t (mem_txns.mp ht)]

theorem entersAll_full {skip : Bool} {start : Str → Cur → Rat} {ts : List (Txn Posting)} {es : List Posting}
    (he : EntersAll skip start ts es) (hall : ∀ t ∈ ts, AllAmounts t.postings) :
    es = ts.flatMap (fun t => t.postings.filter (fun p => p.kind = .real) ++
      t.postings.filter (fun p => p.kind ≠ .real)) := by
  induction he with
  | nil => rfl
  | @cons start t es ts rest h1 _ ih =>
    rw [List.flatMap_cons, ← ih (fun t ht => hall t (by simp [ht]))]
    congr 1
    obtain ⟨qs, gen, g1, rfl, g3⟩ := h1
    rw [((posts_full t.postings (hall t (by simp))).mp g1).1]
    rcases g3 with ⟨_, _, rfl⟩ | ⟨p, hp, _⟩
    · simp
    · have hm : p ∈ t.postings.filter (fun p => p.elided skip) := by rw [hp]; simp
      obtain ⟨hm1, hm2⟩ := List.mem_filter.mp hm
      obtain ⟨k1, k2, _⟩ := of_decide_eq_true hm2
      have := hall t (by simp) p hm1 k1
      rw [k2] at this; cases this

/-- What is written out stands for itself. -/
theorem WrittenOut.entries {r : Run} {path : Str} {ls : List Str} {bs : List Block} (h : HoldsJournal r path ls bs)
    (hw : WrittenOut r.env bs) (hok : (meaning r.env (fun _ => {}) bs).Ok r.env.lower) {ts : List (Txn Posting)}
    (hs : (meaning r.env (fun _ => {}) bs).StandsFor r.env ts) :
    ∃ listed, DateOrder (bs.filterMap Block.txn?) listed ∧
      (ts.flatMap (fun t => t.postings.filter (fun p => p.kind = .real) ++
        t.postings.filter (fun p => p.kind ≠ .real))).map Posting.entry =
      (listed.flatMap (fun t => t.postings.filter (fun p => p.kind = .real) ++
          t.postings.filter (fun p => p.kind ≠ .real))).map RawPosting.entry := by
  have htx := h.transactions
  obtain ⟨hreg, _⟩ := h.regular hw.real
  obtain ⟨hlists, hprices⟩ : (meaning r.env (fun _ => {}) bs).lists = {} ∧
      (meaning r.env (fun _ => {}) bs).prices = [] := meaning_only r.env bs hw.only {}
  obtain ⟨l, listed, hN, hd, hf⟩ := hs
  rw [hreg] at hd
  refine ⟨listed, hd, ?_⟩
  have hentry : ∀ raw ∈ listed, ∀ p ∈ raw.postings, ∀ q, WrittenAs r.env l raw p q →
      q.entry = p.entry ∧ q.kind = p.kind := by
    intro raw hraw p hp q w
    have hb := mem_txns.mp (hd.perm.mem_iff.mp hraw)
    have h1 := hw.amounts raw hb p hp
    have h2 := hw.accounts raw hb p hp
    have hmem : raw ∈ (meaning r.env (fun _ => {}) bs).transactions := by rw [htx]; exact mem_txns.mpr hb
    have hacc : q.account = p.account := by
      obtain ⟨n, _, _, ⟨hx, _⟩ | ⟨_, hx⟩⟩ := w.payee
      · exact absurd hx h2
      · refine completed_self (used := (meaning r.env (fun _ => {}) bs).usesAccount)
          (by have := hN.accounts; rw [hlists] at this; exact this) ?_ ⟨raw, hmem, p, hp, rfl⟩ hx
        rintro m n ⟨t1, a1, p1, b1, c1⟩ ⟨t2, a2, p2, b2, c2⟩ e
        rw [htx] at a1 a2
        exact hw.oneAccount m n ⟨t1, mem_txns.mp a1, p1, b1, c1⟩ ⟨t2, mem_txns.mp a2, p2, b2, c2⟩ e
    refine ⟨?_, w.kind⟩
    unfold Posting.entry RawPosting.entry
    rw [hacc, w.kind]
    rcases w.amount with ⟨g1, g2⟩ | ⟨x, n, v, g1, g2, g3, g4⟩
    · have := (hok.postings raw (by rw [hreg]; exact mem_txns.mpr hb) p hp).money
      rw [g1] at this
      rw [← this] at h1; cases h1
    · rw [g1, g2, g4]
      have : n = x := by
        refine completed_self (used := (meaning r.env (fun _ => {}) bs).usesCommodity)
          (by have := hN.commodities; rw [hlists] at this; exact this) ?_ (.inl ⟨raw, hmem, p, hp, .inl g1⟩) g3
        have key : ∀ m, (meaning r.env (fun _ => {}) bs).usesCommodity m → ∃ t, .txn t ∈ bs ∧ ∃ p ∈ t.postings,
            p.moneyCurrency = some m ∨ p.costCurrency = some m ∨ p.balanceCurrency = some m := by
          rintro m (⟨t1, a1, p1, b1, c1⟩ | ⟨p1, a1, _⟩)
          · rw [htx] at a1; exact ⟨t1, mem_txns.mp a1, p1, b1, c1⟩
          · rw [hprices] at a1; cases a1
        exact fun m n hm hn e => hw.oneCommodity m n (key m hm) (key n hn) e
      rw [this]
  clear hd
  induction hf with
  | nil => rfl
  | @cons raw t listed ts h1 _ ih =>
    rw [List.flatMap_cons, List.flatMap_cons, List.map_append, List.map_append,
      ih (fun raw hraw => hentry raw (by simp [hraw]))]
    have hpost : ∀ (k : Kind → Bool) (ps : List RawPosting) (qs : List Posting), (∀ p ∈ ps, p ∈ raw.postings) →
        List.Forall₂ (WrittenAs r.env l raw) ps qs →
        (qs.filter (fun q => k q.kind)).map Posting.entry = (ps.filter (fun p => k p.kind)).map RawPosting.entry := by
      intro k ps qs hsub hf
      induction hf with
      | nil => rfl
      | @cons p q ps qs w _ ih =>
        obtain ⟨e1, e2⟩ := hentry raw (by simp) p (hsub p (by simp)) q w
        rw [List.filter_cons, List.filter_cons, e2]
        split
        · rw [List.map_cons, List.map_cons, e1, ih (fun p hp => hsub p (by simp [hp]))]
        · exact ih (fun p hp => hsub p (by simp [hp]))
    rw [List.map_append, List.map_append]
    have p1 := hpost (fun k => decide (k = .real)) raw.postings t.postings (fun _ h => h) h1.2.2
    have p2 := hpost (fun k => decide (k ≠ .real)) raw.postings t.postings (fun _ h => h) h1.2.2
    rw [p1, p2]

theorem entries_sum {bs : List Block} {listed : List (Txn RawPosting)} {es : List Posting}
    (hd : DateOrder (bs.filterMap Block.txn?) listed)
    (he : es.map Posting.entry = (listed.flatMap (fun t => t.postings.filter (fun p => p.kind = .real) ++
      t.postings.filter (fun p => p.kind ≠ .real))).map RawPosting.entry) (wanted : Str → Bool) (c : Cur) :
    sumIn ((es.filter (fun p => wanted p.account)).filterMap Posting.amount) c = sumIn (writtenFor bs wanted) c := by
  have e1 : (es.filter (fun p => wanted p.account)).filterMap Posting.amount =
      ((es.map Posting.entry).filter (fun e => wanted e.1)).filterMap (fun e => e.2.2) := by
    rw [List.filter_map, List.filterMap_map]; rfl
  have e2 : writtenFor bs wanted =
      ((((bs.filterMap Block.txn?).flatMap Txn.postings).map RawPosting.entry).filter (fun e => wanted e.1)).filterMap
        (fun e => e.2.2) := by
    unfold writtenFor
    rw [List.filter_map, List.filterMap_map]; rfl
  rw [e1, e2, he]
  refine sumIn_perm (((List.Perm.map _ ?_).filter _).filterMap _) c
  refine List.Perm.trans ?_ (hd.perm.flatMap_right _)
  refine List.Perm.flatMap_left _ (fun t _ => ?_)
  have := List.filter_append_perm (fun p : RawPosting => decide (p.kind = .real)) t.postings
  simpa using this

end Dinero
