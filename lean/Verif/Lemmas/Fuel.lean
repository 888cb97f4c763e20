import Verif.Model.Include
/-
More iterations do not change what the tokenizer does once it ends (C132).
-/
namespace Dinero

/-- Either nothing is known yet, or both are the same. -/
def Upto {α : Type} (x y : PRes α) : Prop := x = .error .fuel ∨ x = y

theorem Upto.rfl {α : Type} {x : PRes α} : Upto x x := .inr (Eq.refl _)

theorem Upto.fuel {α : Type} {y : PRes α} : Upto (.error .fuel) y := .inl (Eq.refl _)

theorem Upto.map {α β : Type} {x y : PRes α} (f : α → β) (h : Upto x y) : Upto (x.map f) (y.map f) := by
  rcases h with rfl | rfl
  · exact .fuel
  · exact .rfl

theorem Upto.reported {α : Type} {x y : PRes (Except Err α × Tok)} (h : Upto x y) : Upto (reported x) (reported y) := by
  rcases h with rfl | rfl
  · exact .fuel
  · exact .rfl

theorem amounts_upto (env : Env) (tt : TType) : ∀ (n m : Nat), n ≤ m → ∀ (p : RawPosting) (t : Tok),
    Upto (amounts env tt n p t) (amounts env tt m p t) := by
  intro n
  induction n with
  | zero => intro m _ p t; exact .fuel
  | succ n ih =>
    intro m hm p t
    obtain ⟨m, rfl⟩ : ∃ k, m = k + 1 := ⟨m - 1, by omega⟩
    have ih := ih m (by omega)
    rw [amounts.eq_def env tt (n + 1), amounts.eq_def env tt (m + 1)]
    simp only
    cases hr : t.rest with
    | nil => exact .rfl
    | cons c r =>
      by_cases h1 : c = '\n'
      · subst h1; exact .rfl
      by_cases h2 : c = ';'
      · subst h2; exact .rfl
      by_cases h3 : c = '('
      · subst h3; exact ih _ _
      by_cases h4 : c = '='
      · subst h4
        cases hm : parseMoney env (consumeWs env { t with rest := r, col := t.col + 1 }) with
        | mk a t' =>
          simp only [hm]
          cases a with
          | error e => exact .rfl
          | ok a => exact ih _ _
      by_cases h5 : c = '@'
      · subst h5
        cases p.moneyAmount with
        | none => exact .rfl
        | some _ =>
          cases r with
          | nil => exact .rfl
          | cons d r' =>
            simp only
            cases hm : parseMoney env (consumeWs env
              (if d = '@' then { t with rest := r', col := t.col + 2 } else { t with rest := d :: r', col := t.col + 1 })) with
            | mk a t' =>
              cases a with
              | error e => exact .rfl
              | ok a => exact ih _ _
      split <;> first | (simp_all; done) | skip
      split
      · exact ih _ _
      · split
        · split
          · exact .rfl
          · exact ih _ _
        · exact .rfl

theorem parsePosting_upto {env : Env} {n m : Nat} (h : n ≤ m) (tt : TType) (payee : Option Str) (t : Tok) :
    Upto (parsePosting env n tt payee t) (parsePosting env m tt payee t) := by
  unfold parsePosting
  split
  · exact .rfl
  · simp only
    split
    · exact .rfl
    · exact .rfl
    · split
      · exact .rfl
      · exact amounts_upto env tt n m h _ _

theorem txnLines_upto (env : Env) {f g : Nat} (hf : f ≤ g) : ∀ (n m : Nat), n ≤ m → ∀ (txn : Txn RawPosting) (t : Tok),
    Upto (txnLines env f n txn t) (txnLines env g m txn t) := by
  intro n
  induction n with
  | zero => intro m _ p t; exact .fuel
  | succ n ih =>
    intro m hm txn t
    obtain ⟨m, rfl⟩ : ∃ k, m = k + 1 := ⟨m - 1, by omega⟩
    have ih := ih m (by omega)
    rw [txnLines, txnLines]
    cases wsLines env t with
    | mk t1 lt =>
      cases lt with
      | blank => exact .rfl
      | indented =>
        simp only
        cases t1.rest with
        | nil => exact .rfl
        | cons c r =>
          simp only
          split
          · split
            · exact ih _ _
            · exact ih _ _
          · split
            · exact .rfl
            · rcases parsePosting_upto (env := env) hf txn.ttype txn.payee t1 with h | h
              · rw [h]; exact .fuel
              · rw [h]
                split
                · exact .rfl
                · exact .rfl
                · exact ih _ _

theorem accountLines_upto (env : Env) : ∀ (n m : Nat), n ≤ m → ∀ (a : AccountDef) (t : Tok),
    Upto (accountLines env n a t) (accountLines env m a t) := by
  intro n
  induction n with
  | zero => intro m _ p t; exact .fuel
  | succ n ih =>
    intro m hm a t
    obtain ⟨m, rfl⟩ : ∃ k, m = k + 1 := ⟨m - 1, by omega⟩
    have ih := ih m (by omega)
    rw [accountLines, accountLines]
    cases wsLines env t with
    | mk t1 lt =>
      cases lt with
      | blank => exact .rfl
      | indented =>
        simp only
        repeat' split
        all_goals first | exact .rfl | exact ih _ _

theorem commodityLines_upto (env : Env) : ∀ (n m : Nat), n ≤ m → ∀ (a : CurrencyDef) (t : Tok),
    Upto (commodityLines env n a t) (commodityLines env m a t) := by
  intro n
  induction n with
  | zero => intro m _ p t; exact .fuel
  | succ n ih =>
    intro m hm a t
    obtain ⟨m, rfl⟩ : ∃ k, m = k + 1 := ⟨m - 1, by omega⟩
    have ih := ih m (by omega)
    rw [commodityLines, commodityLines]
    cases wsLines env t with
    | mk t1 lt =>
      cases lt with
      | blank => exact .rfl
      | indented =>
        simp only
        repeat' split
        all_goals first | exact .rfl | exact ih _ _

theorem payeeLines_upto (env : Env) : ∀ (n m : Nat), n ≤ m → ∀ (a : List Str) (t : Tok),
    Upto (payeeLines env n a t) (payeeLines env m a t) := by
  intro n
  induction n with
  | zero => intro m _ p t; exact .fuel
  | succ n ih =>
    intro m hm a t
    obtain ⟨m, rfl⟩ : ∃ k, m = k + 1 := ⟨m - 1, by omega⟩
    have ih := ih m (by omega)
    rw [payeeLines, payeeLines]
    cases wsLines env t with
    | mk t1 lt =>
      cases lt with
      | blank => exact .rfl
      | indented =>
        simp only
        repeat' split
        all_goals first | exact .rfl | exact ih _ _

theorem tagLines_upto (env : Env) : ∀ (n m : Nat), n ≤ m → ∀ (t : Tok), Upto (tagLines env n t) (tagLines env m t) := by
  intro n
  induction n with
  | zero => intro m _ t; exact .fuel
  | succ n ih =>
    intro m hm t
    obtain ⟨m, rfl⟩ : ∃ k, m = k + 1 := ⟨m - 1, by omega⟩
    have ih := ih m (by omega)
    rw [tagLines, tagLines]
    cases wsLines env t with
    | mk t1 lt =>
      cases lt with
      | blank => exact .rfl
      | indented =>
        simp only
        repeat' split
        all_goals first | exact .rfl | exact ih _

theorem item_upto (env : Env) {f g : Nat} (hf : f ≤ g) {inc inc' : Tok → PRes (ParsedLedger × Tok)} (hi : ∀ t, Upto (inc t) (inc' t))
    (c : Char) (pl : ParsedLedger) (t : Tok) : Upto (item env f inc c pl t) (item env g inc' c pl t) := by
  unfold item
  repeat' split
  · exact .rfl
  · refine Upto.map _ ?_
    unfold transactionTok
    simp only
    split
    · exact .rfl
    · exact txnLines_upto env hf _ _ hf _ _
  · refine Upto.map _ ?_
    unfold automatedTok
    simp only
    split
    · exact .rfl
    · exact txnLines_upto env hf _ _ hf _ _
  · exact (hi t).map _
  · refine Upto.map _ (Upto.reported ?_)
    unfold commodityTok
    simp only
    split
    · exact .rfl
    · exact commodityLines_upto env _ _ hf _ _
  · refine Upto.map _ (Upto.reported ?_)
    unfold payeeTok
    simp only
    split
    · exact .rfl
    · rcases payeeLines_upto env _ _ hf [] (getLine t).2 with h | h
      · rw [h]; exact .fuel
      · rw [h]; exact .rfl
  · refine Upto.map _ (Upto.reported ?_)
    unfold tagTok
    simp only
    split
    · exact .rfl
    · rcases tagLines_upto env _ _ hf (getLine t).2 with h | h
      · rw [h]; exact .fuel
      · rw [h]; exact .rfl
  · refine Upto.map _ (Upto.reported ?_)
    unfold accountTok
    simp only
    split
    · exact .rfl
    · exact accountLines_upto env _ _ hf _ _
  · exact .rfl
  · exact .rfl

theorem items_upto (env : Env) {f g : Nat} (hf : f ≤ g) {inc inc' : Tok → PRes (ParsedLedger × Tok)} (hi : ∀ t, Upto (inc t) (inc' t)) :
    ∀ (n m : Nat), n ≤ m → ∀ (pl : ParsedLedger) (t : Tok), Upto (items env f inc n pl t) (items env g inc' m pl t) := by
  intro n
  induction n with
  | zero => intro m _ pl t; exact .fuel
  | succ n ih =>
    intro m hm pl t
    obtain ⟨m, rfl⟩ : ∃ k, m = k + 1 := ⟨m - 1, by omega⟩
    have ih := ih m (by omega)
    rw [items, items]
    split
    · exact .rfl
    · cases wsLines env t with
      | mk t1 lt =>
        cases lt with
        | indented => exact .rfl
        | blank =>
          simp only
          cases t1.rest with
          | nil => exact ih _ _
          | cons c r =>
            simp only
            rcases item_upto env hf hi c pl t1 with h | h
            · rw [h]; exact .fuel
            · rw [h]
              split
              · exact .rfl
              · exact ih _ _

theorem includeFiles_upto {tok tok' : Str → PRes ParsedLedger} (h : ∀ f, Upto (tok f) (tok' f)) : ∀ (l : List Str) (pl : ParsedLedger),
    Upto (includeFiles tok l pl) (includeFiles tok' l pl) := by
  intro l
  induction l with
  | nil => intro pl; exact .rfl
  | cons f l ih =>
    intro pl
    rw [includeFiles, includeFiles]
    rcases h f with h | h
    · rw [h]; exact .fuel
    · rw [h]
      split
      · exact .rfl
      · exact ih _

theorem includeTok_upto {fs : Files} {file : Option Str} {seen : List Str} {tok tok' : Str → PRes ParsedLedger}
    (h : ∀ f, Upto (tok f) (tok' f)) (t : Tok) : Upto (includeTok fs file seen tok t) (includeTok fs file seen tok' t) := by
  unfold includeTok
  split
  · exact .rfl
  · simp only
    split
    · exact .rfl
    · split
      · exact .rfl
      · split
        · exact .rfl
        · exact (includeFiles_upto h _ _).map _

/-- What tokenizing a file comes to does not depend on how many iterations are allowed, as long as they are enough. -/
theorem tokenizeFile_upto (env : Env) (fs : Files) {f g : Nat} (hf : f ≤ g) : ∀ (n m : Nat), n ≤ m → ∀ (seen : List Str) (file : Str),
    Upto (tokenizeFile env fs f n seen file) (tokenizeFile env fs g m seen file) := by
  intro n
  induction n with
  | zero => intro m _ seen file; exact .fuel
  | succ n ih =>
    intro m hm seen file
    obtain ⟨m, rfl⟩ : ∃ k, m = k + 1 := ⟨m - 1, by omega⟩
    have ih := ih m (by omega)
    rw [tokenizeFile, tokenizeFile]
    split
    · exact .rfl
    · exact items_upto env hf (fun t => includeTok_upto (fun f => ih _ f) t) _ _ hf _ _

end Dinero
