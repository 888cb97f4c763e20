import Verif.Model.Commands
import Verif.Spec.Commands
/-
What the tokenizer hands over.
-/
namespace Dinero

theorem amounts_paired {env : Env} {ttype : TType} : ∀ (n : Nat) (p : RawPosting) (t : Tok) {q : RawPosting} {t' : Tok},
    amounts env ttype n p t = .ok (.ok q, t') → p.Paired → q.Paired ∧ q.payee = p.payee := by
  intro n
  induction n with
  | zero => intro p t q t' h; simp [amounts] at h
  | succ n ih =>
    intro p t q t' h hp
    rw [amounts.eq_def] at h
    simp only at h
    split at h
    · simp only [Except.ok.injEq, Prod.mk.injEq] at h
      obtain ⟨rfl, _⟩ := h
      exact ⟨hp, rfl⟩
    · simp only [Except.ok.injEq, Prod.mk.injEq] at h
      obtain ⟨rfl, _⟩ := h
      exact ⟨hp, rfl⟩
    · simp only [Except.ok.injEq, Prod.mk.injEq] at h
      obtain ⟨rfl, _⟩ := h
      exact ⟨⟨hp.money, hp.balance, hp.cost, hp.costType, hp.costOn⟩, rfl⟩
    · have i := ih _ _ h
      exact i ⟨hp.money, hp.balance, hp.cost, hp.costType, hp.costOn⟩
    · split at h
      · simp at h
      · have i := ih _ _ h
        exact i ⟨hp.money, rfl, hp.cost, hp.costType, hp.costOn⟩
    · split at h
      · simp at h
      · rename_i hm
        split at h
        · simp at h
        · split at h
          · simp at h
          · have i := ih _ _ h
            refine i ⟨hp.money, hp.balance, rfl, rfl, fun _ => ?_⟩
            show p.moneyCurrency.isSome
            rw [hp.money, hm]
            rfl
    · split at h
      · have i := ih _ _ h
        exact i ⟨rfl, hp.balance, hp.cost, hp.costType, fun _ => rfl⟩
      · split at h
        · split at h
          · simp at h
          · have i := ih _ _ h
            exact i ⟨hp.money, hp.balance, hp.cost, hp.costType, hp.costOn⟩
        · simp at h

theorem parsePosting_paired {env : Env} {fuel : Nat} {ttype : TType} {payee : Option Str} {t t' : Tok} {q : RawPosting}
    (h : parsePosting env fuel ttype payee t = .ok (.ok q, t')) : q.Paired ∧ q.payee = payee := by
  unfold parsePosting at h
  split at h
  · simp at h
  · split at h
    · simp at h
    · simp at h
    · split at h
      · simp only [Except.ok.injEq, Prod.mk.injEq] at h
        obtain ⟨rfl, _⟩ := h
        exact ⟨⟨rfl, rfl, rfl, rfl, by simp⟩, rfl⟩
      · exact amounts_paired _ _ _ h ⟨rfl, rfl, rfl, rfl, by simp⟩

theorem addComment_paired {c : Str} {payee : Option Str} : ∀ {ps : List RawPosting},
    (∀ p ∈ ps, p.Paired ∧ p.payee = payee) → ∀ p ∈ addComment c ps, p.Paired ∧ p.payee = payee
  | [], _, p, hp => by simp [addComment] at hp
  | [a], h, p, hp => by
    simp only [addComment, List.mem_singleton] at hp
    subst hp
    obtain ⟨h1, h2⟩ := h a (by simp)
    exact ⟨⟨h1.money, h1.balance, h1.cost, h1.costType, h1.costOn⟩, h2⟩
  | a :: b :: ps, h, p, hp => by
    simp only [addComment, List.mem_cons] at hp
    rcases hp with rfl | hp
    · exact h p (by simp)
    · exact addComment_paired (ps := b :: ps) (fun p hp => h p (List.mem_cons_of_mem _ hp)) p hp

/-- A transaction as the tokenizer makes it: its postings have the payee of the transaction. -/
def TxnPaired (t : Txn RawPosting) : Prop := ∀ p ∈ t.postings, p.Paired ∧ p.payee = t.payee

theorem txnLines_paired {env : Env} {fuel : Nat} : ∀ (n : Nat) (txn : Txn RawPosting) (t : Tok) {txn' : Txn RawPosting}
    {t' : Tok}, txnLines env fuel n txn t = .ok (txn', t') → TxnPaired txn →
      TxnPaired txn' ∧ txn'.date = txn.date ∧ txn'.ttype = txn.ttype ∧ txn'.payee = txn.payee := by
  intro n
  induction n with
  | zero => intro txn t txn' t' h; simp [txnLines] at h
  | succ n ih =>
    intro txn t txn' t' h hp
    rw [txnLines] at h
    split at h
    · simp only [Except.ok.injEq, Prod.mk.injEq] at h
      obtain ⟨rfl, _⟩ := h
      exact ⟨hp, rfl, rfl, rfl⟩
    · split at h
      · simp at h
      · split at h
        · split at h
          · obtain ⟨i1, i2⟩ := ih _ _ h hp
            exact ⟨i1, i2⟩
          · obtain ⟨i1, i2⟩ := ih _ _ h (addComment_paired hp)
            exact ⟨i1, i2⟩
        · split at h
          · simp at h
          · split at h
            · simp at h
            · simp at h
            · rename_i p t2 hpp
              obtain ⟨i1, i2⟩ := ih _ _ h (by
                intro q hq
                simp only [List.mem_append, List.mem_singleton] at hq
                rcases hq with hq | rfl
                · exact hp q hq
                · exact parsePosting_paired hpp)
              exact ⟨i1, i2⟩

theorem headerItems_inv {env : Env} {date : Date} {items : List Pair} {t : Txn RawPosting}
    (h : headerItems env date items = .ok t) :
    t.date = some date ∧ t.payee.isSome ∧ t.ttype = .real ∧ t.postings = [] := by
  unfold headerItems at h
  simp only [bind, Except.bind, pure, Except.pure, throw, throwThe, MonadExceptOf.throw] at h
  repeat' split at h
  all_goals first
    | (simp only [Except.ok.injEq] at h; subst h; exact ⟨rfl, rfl, rfl, rfl⟩)
    | simp at h

theorem parseHeader_inv {env : Env} {line : Str} {t : Txn RawPosting} (h : parseHeader env line = .ok t) :
    t.date.isSome ∧ t.payee.isSome ∧ t.ttype = .real ∧ t.postings = [] := by
  unfold parseHeader at h
  split at h
  · split at h
    · split at h
      · simp at h
      · obtain ⟨h1, h2⟩ := headerItems_inv h
        exact ⟨by simp [h1], h2⟩
    · simp at h
  · simp at h

/-- What every transaction of a journal satisfies. -/
structure TxnOk (t : Txn RawPosting) : Prop where
  paired : TxnPaired t
  kind : (t.ttype = .real ∧ t.date.isSome ∧ t.payee.isSome) ∨ (t.ttype = .automated ∧ t.payee = none)

theorem transactionTok_inv {env : Env} {fuel : Nat} {t t' : Tok} {txn : Txn RawPosting}
    (h : transactionTok env fuel t = .ok (txn, t')) : TxnOk txn := by
  unfold transactionTok at h
  simp only at h
  split at h
  · simp at h
  · rename_i x hx
    obtain ⟨h1, h2, h3, h4⟩ := parseHeader_inv hx
    obtain ⟨g1, g2, g3, g4⟩ := txnLines_paired _ _ _ h (by intro p hp; rw [h4] at hp; cases hp)
    exact ⟨g1, .inl ⟨by rw [g3, h3], by rw [g2, h1], by rw [g4, h2]⟩⟩

theorem automatedTok_inv {env : Env} {fuel : Nat} {t t' : Tok} {txn : Txn RawPosting}
    (h : automatedTok env fuel t = .ok (txn, t')) : TxnOk txn := by
  unfold automatedTok at h
  simp only at h
  split at h
  · simp at h
  · obtain ⟨g1, g2, g3, g4⟩ := txnLines_paired _ _ _ h (by intro p hp; cases hp)
    exact ⟨g1, .inr ⟨g3, g4⟩⟩

/-- What every journal satisfies. -/
structure JournalOk (lower : Str → Str) (pl : ParsedLedger) : Prop where
  lists : pl.lists.Ok lower
  txns : ∀ t ∈ pl.transactions, TxnOk t

theorem JournalOk.empty (lower : Str → Str) : JournalOk lower {} :=
  ⟨⟨.new, .new, .new⟩, by simp⟩

theorem JournalOk.append {lower : Str → Str} {a b : ParsedLedger} (ha : JournalOk lower a) (hb : JournalOk lower b) :
    JournalOk lower (a.append b) := by
  refine ⟨⟨ha.lists.accounts.append hb.lists.accounts, ha.lists.payees.append hb.lists.payees,
    ha.lists.commodities.append hb.lists.commodities⟩, ?_⟩
  intro t ht
  simp only [ParsedLedger.append, List.mem_append] at ht
  exact ht.elim (ha.txns t) (hb.txns t)

theorem JournalOk.txn {lower : Str → Str} {pl : ParsedLedger} (h : JournalOk lower pl) {t : Txn RawPosting} (ht : TxnOk t) :
    JournalOk lower { pl with transactions := pl.transactions ++ [t] } := by
  refine ⟨h.lists, fun x hx => ?_⟩
  simp only [List.mem_append, List.mem_singleton] at hx
  rcases hx with hx | rfl
  · exact h.txns x hx
  · exact ht

theorem Except.map_inv {ε α β : Type} {x : Except ε α} {f : α → β} {b : β} (h : x.map f = .ok b) :
    ∃ a, x = .ok a ∧ f a = b := by
  cases x with
  | error e => cases h
  | ok a => exact ⟨a, rfl, by simpa [Except.map] using h⟩

theorem item_journalOk {env : Env} {fuel : Nat} {inc : Tok → PRes (ParsedLedger × Tok)}
    (hi : ∀ t x t', inc t = .ok (x, t') → JournalOk env.lower x) {c : Char} {pl pl' : ParsedLedger} {t t' : Tok}
    (h : item env fuel inc c pl t = .ok (pl', t')) (hp : JournalOk env.lower pl) : JournalOk env.lower pl' := by
  unfold item at h
  by_cases h1 : c ∈ [';', '!', '*', '%', '#']
  · rw [if_pos h1] at h
    simp only [Except.ok.injEq, Prod.mk.injEq] at h
    obtain ⟨rfl, _⟩ := h
    exact ⟨hp.lists, hp.txns⟩
  rw [if_neg h1] at h
  by_cases h2 : env.numeric c
  · rw [if_pos h2] at h
    obtain ⟨⟨x, u⟩, hx, e⟩ := Except.map_inv h
    cases e
    exact hp.txn (transactionTok_inv hx)
  rw [if_neg h2] at h
  by_cases h3 : c = '='
  · rw [if_pos h3] at h
    obtain ⟨⟨x, u⟩, hx, e⟩ := Except.map_inv h
    cases e
    exact hp.txn (automatedTok_inv hx)
  rw [if_neg h3] at h
  by_cases h4 : c = 'i'
  · rw [if_pos h4] at h
    obtain ⟨⟨x, u⟩, hx, e⟩ := Except.map_inv h
    cases e
    exact hp.append (hi _ _ _ hx)
  rw [if_neg h4] at h
  by_cases h5 : c = 'c'
  · rw [if_pos h5] at h
    obtain ⟨⟨x, u⟩, hx, e⟩ := Except.map_inv h
    cases e
    exact ⟨⟨hp.lists.accounts, hp.lists.payees, .insert _ hp.lists.commodities⟩, hp.txns⟩
  rw [if_neg h5] at h
  by_cases h6 : c = 'p'
  · rw [if_pos h6] at h
    obtain ⟨⟨x, u⟩, hx, e⟩ := Except.map_inv h
    cases e
    exact ⟨⟨hp.lists.accounts, .insert _ hp.lists.payees, hp.lists.commodities⟩, hp.txns⟩
  rw [if_neg h6] at h
  by_cases h7 : c = 't'
  · rw [if_pos h7] at h
    obtain ⟨⟨x, u⟩, hx, e⟩ := Except.map_inv h
    cases e
    exact ⟨hp.lists, hp.txns⟩
  rw [if_neg h7] at h
  by_cases h8 : c = 'a'
  · rw [if_pos h8] at h
    obtain ⟨⟨x, u⟩, hx, e⟩ := Except.map_inv h
    cases e
    exact ⟨⟨.insert _ hp.lists.accounts, hp.lists.payees, hp.lists.commodities⟩, hp.txns⟩
  rw [if_neg h8] at h
  by_cases h9 : c = 'P'
  · rw [if_pos h9] at h
    obtain ⟨⟨x, u⟩, hx, e⟩ := Except.map_inv h
    cases e
    exact ⟨hp.lists, hp.txns⟩
  rw [if_neg h9] at h
  cases h

theorem items_journalOk {env : Env} {fuel : Nat} {inc : Tok → PRes (ParsedLedger × Tok)}
    (hi : ∀ t x t', inc t = .ok (x, t') → JournalOk env.lower x) : ∀ (n : Nat) (pl : ParsedLedger) (t : Tok)
    {pl' : ParsedLedger}, items env fuel inc n pl t = .ok pl' → JournalOk env.lower pl → JournalOk env.lower pl' := by
  intro n
  induction n with
  | zero => intro pl t pl' h; simp [items] at h
  | succ n ih =>
    intro pl t pl' h hp
    rw [items] at h
    split at h
    · simp only [Except.ok.injEq] at h
      subst h
      exact hp
    · split at h
      · simp at h
      · split at h
        · exact ih _ _ h hp
        · split at h
          · simp at h
          · rename_i hx
            exact ih _ _ h (item_journalOk hi hx hp)

theorem includeFiles_journalOk {lower : Str → Str} {tok : Str → PRes ParsedLedger}
    (ht : ∀ f x, tok f = .ok x → JournalOk lower x) : ∀ (fs : List Str) (pl : ParsedLedger) {pl' : ParsedLedger},
    includeFiles tok fs pl = .ok pl' → JournalOk lower pl → JournalOk lower pl'
  | [], pl, pl', h, hp => by
    simp only [includeFiles, Except.ok.injEq] at h
    subst h
    exact hp
  | f :: fs, pl, pl', h, hp => by
    rw [includeFiles] at h
    split at h
    · simp at h
    · rename_i x hx
      exact includeFiles_journalOk ht fs _ h (hp.append (ht f x hx))

theorem includeTok_journalOk {lower : Str → Str} {fs : Files} {file : Option Str} {seen : List Str}
    {tok : Str → PRes ParsedLedger} (ht : ∀ f x, tok f = .ok x → JournalOk lower x) {t t' : Tok} {pl : ParsedLedger}
    (h : includeTok fs file seen tok t = .ok (pl, t')) : JournalOk lower pl := by
  unfold includeTok at h
  split at h
  · simp at h
  · simp only at h
    split at h
    · simp at h
    · split at h
      · simp at h
      · split at h
        · simp at h
        · obtain ⟨x, hx, e⟩ := Except.map_inv h
          cases e
          exact includeFiles_journalOk ht _ _ hx (.empty lower)

theorem tokenizeFile_journalOk {env : Env} {fs : Files} {fuel : Nat} : ∀ (depth : Nat) (seen : List Str) (file : Str)
    {pl : ParsedLedger}, tokenizeFile env fs fuel depth seen file = .ok pl → JournalOk env.lower pl := by
  intro depth
  induction depth with
  | zero => intro seen file pl h; simp [tokenizeFile] at h
  | succ depth ih =>
    intro seen file pl h
    rw [tokenizeFile] at h
    split at h
    · simp at h
    · refine items_journalOk (fun t x t' hx => ?_) _ _ _ h (.empty _)
      exact includeTok_journalOk (fun f x hf => ih _ f hf) hx

theorem tokenizeText_journalOk {env : Env} {fs : Files} {fuel depth : Nat} {content : Str} {pl : ParsedLedger}
    (h : tokenizeText env fs fuel depth content = .ok pl) : JournalOk env.lower pl := by
  unfold tokenizeText at h
  refine items_journalOk (fun t x t' hx => ?_) _ _ _ h (.empty _)
  exact includeTok_journalOk (fun f x hf => tokenizeFile_journalOk _ _ f hf) hx

theorem JournalOk.ok {lower : Str → Str} {pl : ParsedLedger} (h : JournalOk lower pl) : pl.Ok lower := by
  have hreg : ∀ t ∈ pl.regular, t ∈ pl.transactions ∧ t.date.isSome ∧ t.payee.isSome := by
    intro t ht
    obtain ⟨ht, hk⟩ := List.mem_filter.mp ht
    rcases (h.txns t ht).kind with ⟨_, h1, h2⟩ | ⟨h1, _⟩
    · exact ⟨ht, h1, h2⟩
    · rw [h1] at hk; simp at hk
  refine ⟨h.lists, fun t ht => (hreg t ht).2.1, fun t ht p hp => ?_⟩
  obtain ⟨h1, h2⟩ := (h.txns t (hreg t ht).1).paired p hp
  exact ⟨h1.money, h1.balance, h1.cost, h1.costType, h1.costOn, by rw [h2]; exact (hreg t ht).2.2⟩

end Dinero
