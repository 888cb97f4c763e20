import Verif.Spec.Appended
import Verif.Lemmas.Exact
import Verif.Lemmas.HMap
/-
Lemmas for C133: what stands for something still does when more text follows.
-/
namespace Dinero

theorem EndsLine.suffix {env : Env} {a t : Str} (h : EndsLine env (a ++ t)) (ht : t ≠ []) : EndsLine env t := by
  obtain ⟨h1, h2⟩ := h
  refine ⟨?_, fun x c e => h2 (a ++ x) c (by rw [e, List.append_assoc])⟩
  rw [List.getLast?_append_of_ne_nil _ ht] at h1
  exact h1

theorem EndsLine.ne {env : Env} {t : Str} (h : EndsLine env t) : t ≠ [] := by
  rintro rfl; cases h.1

theorem EndsLine.mem {env : Env} {t : Str} (h : EndsLine env t) : '\n' ∈ t := List.mem_of_getLast? h.1

/-- A part without line breaks is not the end. -/
theorem EndsLine.rest {env : Env} {a t : Str} (h : EndsLine env (a ++ t)) (ha : '\n' ∉ a) : t ≠ [] := by
  rintro rfl
  rw [List.append_nil] at h
  exact ha h.mem

theorem head_append {t k : Str} (h : t ≠ []) : (t ++ k).head? = t.head? := by
  cases t with
  | nil => exact absurd rfl h
  | cons c t => rfl

theorem endsNumber_append {env : Env} {t k : Str} (h : EndsNumber env t) (h0 : t ≠ []) : EndsNumber env (t ++ k) := by
  unfold EndsNumber; rw [head_append h0]; exact h

theorem endsBlanks_append {env : Env} {t k : Str} (h : EndsBlanks env t) (h0 : t ≠ []) : EndsBlanks env (t ++ k) := by
  unfold EndsBlanks; rw [head_append h0]; exact h

theorem Blanks.noNl {env : Env} {b : Str} (h : Blanks env b) : '\n' ∉ b := fun hm => (h _ hm).2 rfl

theorem readsNumber_noNl {n : Str} {q : Rat} (h : ReadsNumber n q) : '\n' ∉ n := by
  have hd : ∀ {s : Str}, IsAmount s → '\n' ∉ s := by
    rintro s ⟨a, b, h1, _, h2⟩ hm
    have hn : '\n' ∉ a ++ b := fun h => absurd (h1 _ h) (by decide)
    simp only [List.mem_append, not_or] at hn
    rcases h2 with rfl | ⟨rfl, _⟩
    · simp [hn.1, hn.2] at hm
    · exact hn.1 hm
  cases h with
  | plain h =>
    cases h with
    | pos h => exact hd h
    | neg h => intro hm; exact hd h (by simpa using hm)
  | @shifted d h _ =>
    intro hm
    have : '\n' ∈ d := by simpa using hm
    exact absurd (h _ this) (by decide)

theorem readsWord_noNl {env : Env} (hnl : env.ws '\n' = true) {v w k : Str} (h : ReadsWord env v w k) : '\n' ∉ v := by
  cases h with
  | plain _ h _ =>
    intro hm
    have := (h _ hm).1
    rw [hnl] at this
    cases this
  | quoted h1 h2 h3 h4 h5 =>
    intro hm
    simp only [List.mem_append, List.mem_cons, List.not_mem_nil, or_false] at hm
    rcases hm with (hm | hm) | hm
    · exact absurd (h2 _ hm) (by decide)
    · exact h5 hm
    · exact absurd hm (by decide)
  | unclosed h1 h2 h3 h4 h5 =>
    intro hm
    rcases List.mem_append.mp hm with hm | hm
    · exact absurd (h2 _ hm) (by decide)
    · exact h4 hm

theorem readsWord_append {env : Env} {v w t k : Str} (h : ReadsWord env v w t) (h0 : t ≠ []) : ReadsWord env v w (t ++ k) := by
  cases h with
  | plain h1 h2 h3 => exact .plain h1 h2 (by rw [head_append h0]; exact h3)
  | quoted h1 h2 h3 h4 h5 => exact .quoted h1 h2 h3 h4 h5
  | unclosed h1 h2 h3 h4 h5 =>
    refine .unclosed h1 h2 h3 h4 (.inr ?_)
    rw [head_append h0]
    exact h5.resolve_left h0

theorem readsMoney_noNl {env : Env} (hnl : env.ws '\n' = true) {m t c : Str} {q : Rat} (h : ReadsMoney env m q c t) : '\n' ∉ m := by
  cases h with
  | after h1 h2 h3 h4 h5 =>
    intro hm
    simp only [List.mem_append] at hm
    rcases hm with (hm | hm) | hm
    · exact readsNumber_noNl h1 hm
    · exact h3.noNl hm
    · exact readsWord_noNl hnl h5 hm
  | before h1 h2 h3 h4 h5 h6 =>
    intro hm
    simp only [List.mem_append] at hm
    rcases hm with (hm | hm) | hm
    · exact readsWord_noNl hnl h3 hm
    · exact h4.noNl hm
    · exact readsNumber_noNl h5 hm

theorem readsMoney_append {env : Env} {m t k c : Str} {q : Rat} (h : ReadsMoney env m q c t) (h0 : t ≠ []) : ReadsMoney env m q c (t ++ k) := by
  cases h with
  | after h1 h2 h3 h4 h5 =>
    refine .after h1 ?_ h3 ?_ (readsWord_append h5 h0)
    · rw [← List.append_assoc]; exact endsNumber_append h2 (by simp [h0])
    · rw [← List.append_assoc]; exact endsBlanks_append h4 (by simp [h0])
  | before h1 h2 h3 h4 h5 h6 =>
    refine .before h1 h2 ?_ h4 h5 (endsNumber_append h6 h0)
    rw [← List.append_assoc]; exact readsWord_append h3 (by simp [h0])

theorem noMoney_append {env : Env} {v t k : Str} (h : NoMoney env v t) (h0 : t ≠ []) : NoMoney env v (t ++ k) := by
  have hn : ∀ {n : Str}, NoNumber env n t → NoNumber env n (t ++ k) := by
    rintro n ⟨h1, h2⟩
    refine ⟨h1, ?_⟩
    rcases h2 with ⟨a, b, c⟩ | ⟨a, b⟩
    · exact .inl ⟨a, endsNumber_append b h0, c⟩
    · exact .inr ⟨a, by rw [head_append h0]; exact b⟩
  cases h with
  | number h1 h2 => exact .number h1 (hn h2)
  | @word w c b n _ h1 h2 h3 h4 h5 h6 =>
    refine .word ?_ ?_ (c := c) ?_ h4 ?_ (hn h6)
    · rw [← List.append_assoc]; exact endsNumber_append h1 (by simp [h0])
    · rw [← List.append_assoc]; exact endsBlanks_append h2 (by simp [h0])
    · rw [← List.append_assoc]; exact readsWord_append h3 (by simp [h0])
    · rw [← List.append_assoc]; exact endsBlanks_append h5 (by simp [h0])

theorem takesLine_append {env : Env} {s l r : Str} (k : Str) (h : TakesLine s l r) (he : EndsLine env s) : TakesLine (s ++ k) l (r ++ k) := by
  obtain ⟨h1, h2 | ⟨h2, h3⟩⟩ := h
  · exact ⟨h1, .inl (by rw [h2]; simp)⟩
  · rw [h2] at he; exact absurd he.mem h1

theorem takesLine_suffix {s l r : Str} (h : TakesLine s l r) : ∃ a, s = a ++ r := by
  obtain ⟨h1, h2 | ⟨h2, h3⟩⟩ := h
  · exact ⟨l ++ ['\n'], by rw [h2]; simp⟩
  · exact ⟨s, by rw [h3]; simp⟩

theorem takesPieces_nil {env : Env} {auto had : Bool} {text : Str} {ps : List Piece} {cs : List Str} {rest : Str}
    (h : TakesPieces env auto had text ps cs rest) (h0 : text = []) : ps = [] := by
  cases h with
  | stop _ => rfl
  | comment h1 _ _ => rfl
  | expr h1 => simp at h0; rw [h0.1] at h1; cases h1
  | field f h1 h2 =>
    simp only [List.append_eq_nil_iff] at h0
    cases h2 with
    | after h _ _ _ _ =>
      obtain ⟨c, r, rfl, _⟩ := readsNumber_head h
      simp at h0
    | before _ _ _ _ h _ =>
      obtain ⟨c, r, rfl, _⟩ := readsNumber_head h
      simp at h0
  | line _ _ _ _ _ => simp at h0
  | last h1 h2 h3 h4 h5 h6 => exact absurd h0 h6

/-- The amounts of a posting. -/
theorem takesPieces_append {env : Env} (hnl : env.ws '\n' = true) (k : Str) {auto had : Bool} {text : Str} {ps : List Piece} {cs : List Str} {rest : Str}
    (h : TakesPieces env auto had text ps cs rest) : EndsLine env text → (∀ e, ps.getLast? = some (.expr e) → ParensMatch e) →
      TakesPieces env auto had (text ++ k) ps cs (rest ++ k) ∧ ∃ a, text = a ++ rest := by
  induction h with
  | @stop had rest h =>
    intro he _
    refine ⟨.stop (.inr ?_), [], rfl⟩
    rw [head_append he.ne]
    exact h.resolve_left he.ne
  | comment h1 h2 h3 => intro he _; exact ⟨.comment (takesLine_append k h1 he) h2 h3, takesLine_suffix h1⟩
  | @expr had e b s rest ps cs h1 h2 h3 h4 h5 h6 h7 ih =>
    intro he hb
    have hs : s ≠ [] := by
      rintro rfl
      have h0 := takesPieces_nil h7 rfl
      subst h0
      have hbal : ParensMatch e := hb e rfl
      rw [List.append_nil] at he
      have hb0 : b = [] := by
        by_contra hb0
        exact h5.noNl (he.suffix hb0).mem
      rw [hb0, List.append_nil] at he
      obtain ⟨x, hx⟩ := List.getLast?_eq_some_iff.mp he.1
      refine h3 x [] hx ?_
      have h9 := hbal
      unfold ParensMatch at h9
      rw [hx] at h9
      simpa using h9
    have he' := he.suffix hs
    have hb' : ∀ e, ps.getLast? = some (.expr e) → ParensMatch e := by
      intro e' h'
      refine hb e' ?_
      cases ps with
      | nil => cases h'
      | cons y ps => exact h'
    obtain ⟨i1, a, i2⟩ := ih he' hb'
    refine ⟨?_, e ++ b ++ a, by rw [i2]; simp⟩
    rw [List.append_assoc (e ++ b)]
    refine .expr h1 h2 h3 ?_ h5 (endsBlanks_append h6 hs) i1
    · rw [← List.append_assoc, head_append (by simp [hs])]
      rcases h4 with h4 | h4
      · simp [hs] at h4
      · exact .inr h4
  | @field had f b m b' s rest c q ps cs h1 h2 h3 h4 h5 h6 h7 h8 ih =>
    intro he hb
    have hs : s ≠ [] := by
      refine he.rest ?_
      simp only [List.mem_append, not_or]
      refine ⟨⟨⟨?_, h1.noNl⟩, readsMoney_noNl hnl h2⟩, h3.noNl⟩
      cases f <;> decide
    have hb' : ∀ e, ps.getLast? = some (.expr e) → ParensMatch e := by
      intro e' h'
      refine hb e' ?_
      cases ps with
      | nil => cases h'
      | cons y ps => exact h'
    obtain ⟨i1, a, i2⟩ := ih (he.suffix hs) hb'
    refine ⟨?_, f.mark ++ b ++ m ++ b' ++ a, by rw [i2]; simp⟩
    rw [List.append_assoc _ s k]
    refine .field f h1 ?_ h3 (endsBlanks_append h4 hs) h5 h6 h7 i1
    rw [← List.append_assoc]; exact readsMoney_append h2 (by simp [hs])
  | @line had v e r h1 h2 h3 h4 h5 =>
    intro he _
    refine ⟨?_, v ++ e, rfl⟩
    rw [List.append_assoc _ _ k, List.cons_append]
    refine .line h1 ?_ h3 h4 h5
    have := noMoney_append (k := k) h2 (by simp)
    rw [List.append_assoc] at this
    exact this
  | @last had v e b s rest ps cs h1 h2 h3 h4 h5 h6 h7 h8 h9 ih =>
    intro he _
    exact absurd he.mem h3

theorem piece_last {ps : List Piece} {e : Str} (p : RawPosting) (h : ps.getLast? = some (.expr e)) :
    (ps.foldl Piece.set p).amountExpr = some e := by
  obtain ⟨x, rfl⟩ := List.getLast?_eq_some_iff.mp h
  rw [List.foldl_append]
  rfl

/-- A posting. -/
theorem takesPosting_append {env : Env} (hnl : env.ws '\n' = true) (k : Str) {auto : Bool} {payee : Option Str} {text rest : Str} {p : RawPosting}
    (h : TakesPosting env auto payee text p rest) (he : EndsLine env text) (hb : ∀ e, p.amountExpr = some e → ParensMatch e) :
    TakesPosting env auto payee (text ++ k) p (rest ++ k) ∧ ∃ a, text = a ++ rest := by
  cases h with
  | @account s a r kind h =>
    refine ⟨?_, s, rfl⟩
    rw [List.append_assoc, List.cons_append]
    exact .account h
  | @amounts s a sep b text rest kind ps cs h1 h2 h3 h4 h5 =>
    have hs : text ≠ [] := by
      rintro rfl
      rw [List.append_nil] at he
      have hb0 : b = [] := by
        by_contra hb0
        exact h3.noNl (he.suffix hb0).mem
      rw [hb0, List.append_nil] at he
      rcases h2 with rfl | ⟨x, y, rfl, g1, g2, g3, g4⟩
      · have := he.1; simp at this
      · have hy : y = '\n' := by have := he.1; simpa using this
        exact g2 (he.2 s x (by rw [hy]) g1)
    obtain ⟨i1, c, i2⟩ := takesPieces_append hnl k h5 (he.suffix hs) (fun e h' => hb e (piece_last _ h'))
    refine ⟨?_, s ++ sep ++ b ++ c, by rw [i2]; simp⟩
    rw [List.append_assoc _ text k]
    exact .amounts h1 h2 h3 (endsBlanks_append h4 hs) i1

/-- A property of a directive. -/
theorem takesProperty_append {env : Env} (hnl : env.ws '\n' = true) (k : Str) {flags words : List Str} {s r : Str} {x : Property} {next : Bool}
    (h : TakesProperty env flags words s x next r) (he : EndsLine env s) :
    TakesProperty env flags words (s ++ k) x next (r ++ k) ∧ (∃ a, s = a ++ r) ∧ (r = [] → next = false) := by
  cases h with
  | comment h => exact ⟨.comment (takesLine_append k h he), takesLine_suffix h, fun _ => rfl⟩
  | @flag v w b r h h1 h2 h3 =>
    have hs : r ≠ [] := by
      refine he.rest ?_
      simp only [List.mem_append, not_or]
      exact ⟨readsWord_noNl hnl h, h2.noNl⟩
    refine ⟨?_, ⟨_, rfl⟩, fun e => absurd e hs⟩
    rw [List.append_assoc _ r k]
    refine .flag ?_ h1 h2 (endsBlanks_append h3 hs)
    rw [← List.append_assoc]; exact readsWord_append h (by simp [hs])
  | @value v w b s b1 y b2 r h h1 h2 h3 h4 h5 h6 h7 =>
    have hs : s ≠ [] := by
      refine he.rest ?_
      simp only [List.mem_append, not_or]
      exact ⟨readsWord_noNl hnl h, h2.noNl⟩
    obtain ⟨c, hc⟩ := takesLine_suffix h4
    refine ⟨?_, ⟨v ++ b ++ c, by rw [hc]; simp⟩, fun _ => rfl⟩
    rw [List.append_assoc _ s k]
    refine .value ?_ h1 h2 (endsBlanks_append h3 hs) (takesLine_append k h4 (he.suffix hs)) h5 h6 h7
    rw [← List.append_assoc]; exact readsWord_append h (by simp [hs])

/-- A line of a transaction. -/
theorem takesTxnLine_append {env : Env} (hnl : env.ws '\n' = true) (k : Str) {auto : Bool} {payee : Option Str} {s r : Str} {x : TxnLine} {next : Bool}
    (h : TakesTxnLine env auto payee s x next r) (he : EndsLine env s) (hb : ∀ p, x = .posting p → ∀ e, p.amountExpr = some e → ParensMatch e) :
    TakesTxnLine env auto payee (s ++ k) x next (r ++ k) ∧ (∃ a, s = a ++ r) ∧ (r = [] → next = false) := by
  cases h with
  | posting h =>
    obtain ⟨h1, h2⟩ := takesPosting_append hnl k h he (hb _ rfl)
    exact ⟨.posting h1, h2, fun _ => rfl⟩
  | comment h1 h2 h3 => exact ⟨.comment (takesLine_append k h1 he) h2 h3, takesLine_suffix h1, fun _ => rfl⟩

theorem columnOf_zero {w : Str} (h : columnOf w = 0) : w = [] ∨ ∃ x, w = x ++ ['\n'] := by
  rcases List.eq_nil_or_concat w with rfl | ⟨x, c, rfl⟩
  · exact .inl rfl
  · right
    by_cases hc : c = '\n'
    · exact ⟨x, by rw [hc]; simp⟩
    · simp [columnOf, hc] at h

theorem columnOf_two {w w' : Str} (h : columnOf w = 0) (h' : columnOf w' = 0) : columnOf (w ++ w') = 0 := by
  rcases columnOf_zero h' with rfl | ⟨x, rfl⟩
  · rw [List.append_nil]; exact h
  · rw [← List.append_assoc]; exact columnOf_nl _

theorem EndsLine.column {env : Env} {w : Str} (h : EndsLine env w) : columnOf w = 0 := by
  obtain ⟨x, rfl⟩ := List.getLast?_eq_some_iff.mp h.1
  exact columnOf_nl _

/-- The white space before something that follows. -/
structure Follows (env : Env) (k w s : Str) : Prop where
  split : k = w ++ s
  white : White env w
  column : s = [] ∨ columnOf w = 0
  head : ∀ c, s.head? = some c → env.ws c = false

/-- Things that are indented. -/
theorem takesIndented_append {env : Env} {α : Type} {one : Str → α → Bool → Str → Prop} (k : Str) {within : Bool} {text rest : Str} {xs : List α}
    (h : TakesIndented env one within text xs rest) :
    ((text = [] ∧ within = false) ∨ EndsLine env text) →
    (∀ x ∈ xs, ∀ s next r, one s x next r → EndsLine env s → one (s ++ k) x next (r ++ k) ∧ (∃ a, s = a ++ r) ∧ (r = [] → next = false)) →
    (rest ≠ [] → TakesIndented env one within (text ++ k) xs (rest ++ k)) ∧
    (rest = [] → ∀ w s, Follows env k w s → TakesIndented env one within (text ++ k) xs s) ∧ ∃ a, text = a ++ rest := by
  induction h with
  | @done within w rest h1 h2 h3 =>
    intro he _
    refine ⟨fun h0 => ?_, fun h0 w2 s2 hf => ?_, w, rfl⟩
    · rw [List.append_assoc]
      exact .done h1 (.inr (h2.resolve_left h0)) (by rw [head_append h0]; exact h3)
    · subst h0
      rw [List.append_nil, hf.split, ← List.append_assoc]
      rw [List.append_nil] at he
      refine .done (fun c hc => ?_) ?_ hf.head
      · rcases List.mem_append.mp hc with hc | hc
        · exact h1 c hc
        · exact hf.white c hc
      · rcases hf.column with h | h
        · exact .inl h
        · right
          unfold Indents
          rcases he with ⟨rfl, rfl⟩ | he
          · simp [h]
          · simp [columnOf_two he.column h, he.mem]
  | @cons within next w s r rest x xs h1 h2 h3 h4 h5 ih =>
    intro he hone
    have hs : s ≠ [] := by
      rintro rfl
      obtain ⟨c, hc, _⟩ := h3
      cases hc
    have he' : EndsLine env s := by
      rcases he with ⟨h, _⟩ | he
      · simp [hs] at h
      · exact he.suffix hs
    obtain ⟨g1, ⟨a, g2⟩, g3⟩ := hone x List.mem_cons_self s next r h4 he'
    obtain ⟨i1, i2, b, i3⟩ := ih (by
      by_cases h0 : r = []
      · exact .inl ⟨h0, g3 h0⟩
      · rw [g2] at he'; exact .inr (he'.suffix h0)) (fun y hy => hone y (List.mem_cons_of_mem _ hy))
    have h3' : ∃ c, (s ++ k).head? = some c ∧ env.ws c = false := by rw [head_append hs]; exact h3
    refine ⟨fun h0 => ?_, fun h0 w2 s2 hf => ?_, w ++ a ++ b, by rw [g2, i3]; simp⟩
    · rw [List.append_assoc]; exact .cons h1 h2 h3' g1 (i1 h0)
    · rw [List.append_assoc]; exact .cons h1 h2 h3' g1 (i2 h0 w2 s2 hf)

theorem attach_expr {xs : List TxnLine} {p : RawPosting} (h : .posting p ∈ xs) : ∃ q ∈ (attach xs).2, q.amountExpr = p.amountExpr := by
  induction xs with
  | nil => cases h
  | cons x xs ih =>
    rcases List.mem_cons.mp h with h | h
    · subst h; exact ⟨_, List.mem_cons_self, rfl⟩
    · obtain ⟨q, hq, e⟩ := ih h
      cases x with
      | comment c => exact ⟨q, hq, e⟩
      | posting p' => exact ⟨q, List.mem_cons_of_mem _ hq, e⟩

/-- No posting of the item has an expression with an open parenthesis. -/
def Block.Closed (b : Block) : Prop := ∀ t, b = .txn t → ∀ p ∈ t.postings, ∀ e, p.amountExpr = some e → ParensMatch e

/-- An item of a journal. -/
theorem takesItem_append {env : Env} (hnl : env.ws '\n' = true) (k : Str) {s rest : Str} {b : Block} (h : TakesItem env s b rest)
    (he : EndsLine env s) (hb : b.Closed) :
    (rest ≠ [] → TakesItem env (s ++ k) b (rest ++ k)) ∧
    (rest = [] → ∀ w u, Follows env k w u → ∃ w', (w' = [] ∨ w' = w) ∧ TakesItem env (s ++ k) b (w' ++ u)) ∧ ∃ a, s = a ++ rest := by
  have line : ∀ {l r : Str}, TakesLine s l r → TakesLine (s ++ k) l (r ++ k) ∧ ((r = [] ∧ false = false) ∨ EndsLine env r) ∧ ∃ a, s = a ++ r := by
    intro l r h
    obtain ⟨a, ha⟩ := takesLine_suffix h
    refine ⟨takesLine_append k h he, ?_, a, ha⟩
    by_cases h0 : r = []
    · exact .inl ⟨h0, rfl⟩
    · rw [ha] at he; exact .inr (he.suffix h0)
  have whole : ∀ {l : Str}, TakesLine s l rest → (TakesLine (s ++ k) l (rest ++ k) → TakesItem env (s ++ k) b (rest ++ k)) →
      (rest ≠ [] → TakesItem env (s ++ k) b (rest ++ k)) ∧
      (rest = [] → ∀ w u, Follows env k w u → ∃ w', (w' = [] ∨ w' = w) ∧ TakesItem env (s ++ k) b (w' ++ u)) ∧ ∃ a, s = a ++ rest := by
    intro l h hi
    obtain ⟨l1, _, l3⟩ := line h
    refine ⟨fun _ => hi l1, fun h0 w u hf => ⟨w, .inr rfl, ?_⟩, l3⟩
    have := hi l1
    rw [h0, List.nil_append] at this
    rw [← hf.split]
    exact this
  have body : ∀ {α : Type} {one : Str → α → Bool → Str → Prop} {l r : Str} {xs : List α}, TakesLine s l r →
      TakesIndented env one false r xs rest →
      (∀ x ∈ xs, ∀ s next r, one s x next r → EndsLine env s → one (s ++ k) x next (r ++ k) ∧ (∃ a, s = a ++ r) ∧ (r = [] → next = false)) →
      (∀ {rest'}, TakesLine (s ++ k) l (r ++ k) → TakesIndented env one false (r ++ k) xs rest' → TakesItem env (s ++ k) b rest') →
      (rest ≠ [] → TakesItem env (s ++ k) b (rest ++ k)) ∧
      (rest = [] → ∀ w u, Follows env k w u → ∃ w', (w' = [] ∨ w' = w) ∧ TakesItem env (s ++ k) b (w' ++ u)) ∧ ∃ a, s = a ++ rest := by
    intro α one l r xs h1 h2 hone hi
    obtain ⟨l1, l2, a, l3⟩ := line h1
    obtain ⟨i1, i2, c, i3⟩ := takesIndented_append k h2 l2 hone
    exact ⟨fun h0 => hi l1 (i1 h0), fun h0 w u hf => ⟨[], .inl rfl, hi l1 (i2 h0 w u hf)⟩, a ++ c, by rw [l3, i3]; simp⟩
  cases h with
  | comment h1 h2 h3 h4 => exact whole h2 (fun h => .comment h1 h h3 h4)
  | price h1 h2 => exact whole h1 (fun h => .price h h2)
  | incl h1 => exact whole h1 (fun h => .incl h)
  | @txn _ l r _ t xs h1 h2 h3 h4 =>
    refine body h1 h4 ?_ (fun g1 g2 => .txn g1 h2 h3 g2)
    intro x hx s next r h he
    refine takesTxnLine_append hnl k h he ?_
    rintro p rfl e hp
    obtain ⟨q, q1, q2⟩ := attach_expr hx
    exact hb _ rfl q q1 e (q2.trans hp)
  | @auto _ d r _ xs h1 h2 =>
    refine body h1 h2 ?_ (fun g1 g2 => .auto g1 g2)
    intro x hx s next r h he
    refine takesTxnLine_append hnl k h he ?_
    rintro p rfl e hp
    obtain ⟨q, q1, q2⟩ := attach_expr hx
    exact hb _ rfl q q1 e (q2.trans hp)
  | account h1 h2 h3 h4 h5 h6 h7 =>
    exact body h1 h6 (fun x _ s next r h he => takesProperty_append hnl k h he) (fun g1 g2 => .account g1 h2 h3 h4 h5 g2 h7)
  | commodity h1 h2 h3 h4 h5 h6 =>
    exact body h1 h6 (fun x _ s next r h he => takesProperty_append hnl k h he) (fun g1 g2 => .commodity g1 h2 h3 h4 h5 g2)
  | payee h1 h2 h3 h4 =>
    exact body h1 h3 (fun x _ s next r h he => takesProperty_append hnl k h he) (fun g1 g2 => .payee g1 h2 g2 h4)
  | tag h1 h2 h3 h4 h5 h6 h7 =>
    exact body h1 h6 (fun x _ s next r h he => takesProperty_append hnl k h he) (fun g1 g2 => .tag g1 h2 h3 h4 h5 g2 h7)

theorem takesJournal_follows {env : Env} {k : Str} {bs : List Block} (h : TakesJournal env k bs) :
    ∃ w s, Follows env k w s ∧ ∀ w', White env w' → columnOf w' = 0 → (∀ w'', (w'' = w ∨ w'' = []) → TakesJournal env (w' ++ w'' ++ s) bs) := by
  have hw2 : ∀ {a b : Str}, White env a → White env b → White env (a ++ b) := by
    intro a b ha hb c hc
    rcases List.mem_append.mp hc with h | h
    · exact ha c h
    · exact hb c h
  have hnil : White env [] := by intro c hc; cases hc
  cases h with
  | nil h =>
    refine ⟨k, [], ⟨by simp, h, .inl rfl, by simp⟩, fun w' h1 h2 w'' h3 => ?_⟩
    rw [List.append_nil]
    rcases h3 with rfl | rfl
    · exact .nil (hw2 h1 h)
    · exact .nil (hw2 h1 hnil)
  | @cons w s rest b bs h1 h2 h3 h4 h5 =>
    refine ⟨w, s, ⟨rfl, h1, .inr h2, ?_⟩, fun w' g1 g2 w'' g3 => ?_⟩
    · intro c hc
      obtain ⟨d, h, hd⟩ := h3
      rw [h] at hc; cases hc; exact hd
    · rcases g3 with rfl | rfl
      · exact .cons (hw2 g1 h1) (columnOf_two g2 h2) h3 h4 h5
      · exact .cons (hw2 g1 hnil) (by rw [List.append_nil]; exact g2) h3 h4 h5

/-- Two journals, one after the other. -/
theorem takesJournal_append {env : Env} (hnl : env.ws '\n' = true) {text more : Str} {bs bs' : List Block} (h : TakesJournal env text bs)
    (hm : TakesJournal env more bs') : (text = [] ∨ EndsLine env text) → (∀ b ∈ bs, b.Closed) → TakesJournal env (text ++ more) (bs ++ bs') := by
  induction h with
  | @nil w hw =>
    intro he _
    obtain ⟨w2, s2, hf, hj⟩ := takesJournal_follows hm
    have hc : columnOf w = 0 := by
      rcases he with rfl | he
      · rfl
      · exact he.column
    rw [hf.split, ← List.append_assoc]
    exact hj w hw hc w2 (.inl rfl)
  | @cons w s rest b bs h1 h2 h3 h4 h5 ih =>
    intro he hcl
    have hs : s ≠ [] := by
      rintro rfl
      obtain ⟨c, hc, _⟩ := h3
      cases hc
    have he' : EndsLine env s := by
      rcases he with h | he
      · simp [hs] at h
      · exact he.suffix hs
    obtain ⟨i1, i2, a, i3⟩ := takesItem_append hnl more h4 he' (hcl b List.mem_cons_self)
    have h3' : ∃ c, (s ++ more).head? = some c ∧ env.ws c = false := by rw [head_append hs]; exact h3
    rw [List.append_assoc, List.cons_append]
    by_cases h0 : rest = []
    · obtain ⟨w2, s2, hf, hj⟩ := takesJournal_follows hm
      obtain ⟨w', g1, g2⟩ := i2 h0 w2 s2 hf
      have hbs : bs = [] := by
        cases h5 with
        | nil _ => rfl
        | cons _ _ h _ _ =>
          obtain ⟨c, hc, _⟩ := h
          have := (List.append_eq_nil_iff.mp h0).2
          rw [this] at hc
          cases hc
      rw [hbs, List.nil_append]
      refine .cons h1 h2 h3' g2 ?_
      have := hj [] (by intro c hc; cases hc) rfl w' (g1.symm)
      simpa using this
    · refine .cons h1 h2 h3' (i1 h0) (ih (.inr ?_) (fun b hb => hcl b (List.mem_cons_of_mem _ hb)))
      rw [i3] at he'
      exact he'.suffix h0

/-! ### Files -/

/-- Files that are being read are not read again. -/
theorem takes_same {env : Env} {fs fs' : Files} {file : Str} (hs : SameBut file fs fs') {seen : List Str} {f : Str} {pl : ParsedLedger}
    (h : Takes env fs seen f pl) : file ∈ seen → f ≠ file → Takes env fs' seen f pl := by
  induction h with
  | @mk seen f text bs entries content h1 h2 h3 h4 h5 ih =>
    intro hm hf
    refine .mk entries content (by rw [← hs.read f hf]; exact h1) h2 (by rw [← hs.parent, ← hs.glob]; exact h3) h4 ?_
    intro x hx g hg
    refine ih x hx g hg (List.mem_cons_of_mem _ hm) ?_
    rintro rfl
    exact (h4 x hx g hg).2 hm

theorem SameBut.symm {file : Str} {fs fs' : Files} (h : SameBut file fs fs') : SameBut file fs' fs :=
  ⟨fun f hf => (h.read f hf).symm, h.glob.symm, h.parent.symm⟩

/-- What an included file stands for, if it stands for something. -/
noncomputable def standsFor (env : Env) (fs : Files) (seen : List Str) (file f : Str) : ParsedLedger :=
  @Classical.epsilon _ ⟨{}⟩ (fun pl => f ≠ file ∧ Takes env fs (file :: seen) f pl)

theorem standsFor_eq {env : Env} (ha : env.AsciiChars) {fs : Files} {seen : List Str} {file f : Str} {pl : ParsedLedger} (hf : f ≠ file)
    (h : Takes env fs (file :: seen) f pl) : standsFor env fs seen file f = pl := by
  have hx : ∃ pl, f ≠ file ∧ Takes env fs (file :: seen) f pl := ⟨pl, hf, h⟩
  obtain ⟨N, hN⟩ := file_exact ha (Classical.epsilon_spec hx).2
  obtain ⟨M, hM⟩ := file_exact ha h
  have h1 := hN (N + M) (by omega) (N + M) (by omega)
  have h2 := hM (N + M) (by omega) (N + M) (by omega)
  rw [h1] at h2
  exact Except.ok.inj h2

theorem standsFor_same {env : Env} {fs fs' : Files} {seen : List Str} {file : Str} (hs : SameBut file fs fs') :
    standsFor env fs seen file = standsFor env fs' seen file := by
  funext f
  have : (fun pl => f ≠ file ∧ Takes env fs (file :: seen) f pl) = (fun pl => f ≠ file ∧ Takes env fs' (file :: seen) f pl) := by
    funext pl
    apply propext
    constructor
    · rintro ⟨h1, h2⟩; exact ⟨h1, takes_same hs h2 List.mem_cons_self h1⟩
    · rintro ⟨h1, h2⟩; exact ⟨h1, takes_same hs.symm h2 List.mem_cons_self h1⟩
  unfold standsFor
  rw [this]

/-- The files an include directive is about. -/
def includedFiles (fs : Files) (file x : Str) : List (Option Str) :=
  ((fs.parent file).bind (fun dir => fs.glob ((if dir = [] then ['.'] else dir) ++ '/' :: x))).getD []

/-- What an include directive adds. -/
noncomputable def includes (env : Env) (fs : Files) (seen : List Str) (file x : Str) : ParsedLedger :=
  ((includedFiles fs file x).filterMap id).foldl (fun pl f => pl.append (standsFor env fs seen file f)) {}

/-- The include directive can be followed. -/
def Includable (env : Env) (fs : Files) (seen : List Str) (file x : Str) : Prop :=
  (∃ dir, fs.parent file = some dir ∧ fs.glob ((if dir = [] then ['.'] else dir) ++ '/' :: x) = some (includedFiles fs file x)) ∧
  (∀ f, some f ∈ includedFiles fs file x → f ≠ file ∧ f ∉ seen) ∧
  ∀ f, some f ∈ includedFiles fs file x → Takes env fs (file :: seen) f (standsFor env fs seen file f)

theorem includes_same {env : Env} {fs fs' : Files} {seen : List Str} {file : Str} (hs : SameBut file fs fs') :
    includes env fs seen file = includes env fs' seen file := by
  funext x
  unfold includes includedFiles
  rw [standsFor_same hs, hs.parent, hs.glob]

theorem includable_same {env : Env} {fs fs' : Files} {seen : List Str} {file x : Str} (hs : SameBut file fs fs')
    (h : Includable env fs seen file x) : Includable env fs' seen file x := by
  obtain ⟨h1, h2, h3⟩ := h
  have e : includedFiles fs file x = includedFiles fs' file x := by unfold includedFiles; rw [hs.parent, hs.glob]
  rw [e] at h1 h2 h3
  rw [hs.parent, hs.glob] at h1
  rw [standsFor_same hs] at h3
  exact ⟨h1, h2, fun f hf => takes_same hs (h3 f hf) List.mem_cons_self (h2 f hf).1⟩

theorem meaning_congr {env : Env} {inc inc' : Str → ParsedLedger} (bs : List Block) (h : ∀ x, .incl x ∈ bs → inc x = inc' x) :
    ∀ pl, bs.foldl (addBlock env inc) pl = bs.foldl (addBlock env inc') pl := by
  induction bs with
  | nil => intro pl; rfl
  | cons b bs ih =>
    intro pl
    rw [List.foldl_cons, List.foldl_cons, ← ih (fun x hx => h x (List.mem_cons_of_mem _ hx))]
    congr 1
    cases b with
    | incl x => show pl.append (inc x) = pl.append (inc' x); rw [h x List.mem_cons_self]
    | _ => rfl

/-- What a file stands for, with the included files as they are. -/
theorem takes_canon {env : Env} (ha : env.AsciiChars) {fs : Files} {seen : List Str} {file text : Str} {pl : ParsedLedger}
    (h : Takes env fs seen file pl) (ht : fs.read file = some text) :
    ∃ bs, TakesJournal env text bs ∧ (∀ x, .incl x ∈ bs → Includable env fs seen file x) ∧ pl = meaning env (includes env fs seen file) bs := by
  cases h with
  | @mk _ _ text' bs entries content h1 h2 h3 h4 h5 =>
    have : text' = text := Option.some.inj (h1.symm.trans ht)
    subst this
    have he : ∀ x, .incl x ∈ bs → includedFiles fs file x = entries x := by
      intro x hx
      obtain ⟨dir, d1, d2⟩ := h3 x hx
      unfold includedFiles
      rw [d1, Option.bind_some, d2]
      rfl
    have hc : ∀ x, .incl x ∈ bs → ∀ f, some f ∈ entries x → standsFor env fs seen file f = content f :=
      fun x hx f hf => standsFor_eq ha (h4 x hx f hf).1 (h5 x hx f hf)
    refine ⟨bs, h2, fun x hx => ?_, ?_⟩
    · refine ⟨?_, ?_, ?_⟩
      · rw [he x hx]; exact h3 x hx
      · rw [he x hx]; exact h4 x hx
      · rw [he x hx]; intro f hf; rw [hc x hx f hf]; exact h5 x hx f hf
    · unfold meaning
      refine meaning_congr bs (fun x hx => ?_) _
      unfold includes
      rw [he x hx]
      have : ∀ (l : List Str) (pl : ParsedLedger), (∀ f ∈ l, some f ∈ entries x) →
          l.foldl (fun pl f => pl.append (content f)) pl = l.foldl (fun pl f => pl.append (standsFor env fs seen file f)) pl := by
        intro l
        induction l with
        | nil => intro pl _; rfl
        | cons f l ih =>
          intro pl hl
          rw [List.foldl_cons, List.foldl_cons, hc x hx f (hl f List.mem_cons_self)]
          exact ih _ (fun g hg => hl g (List.mem_cons_of_mem _ hg))
      exact this _ _ (fun f hf => by simpa using hf)

/-- And the other way round. -/
theorem takes_of_canon {env : Env} {fs : Files} {seen : List Str} {file text : Str} {bs : List Block} (ht : fs.read file = some text)
    (h : TakesJournal env text bs) (hi : ∀ x, .incl x ∈ bs → Includable env fs seen file x) :
    Takes env fs seen file (meaning env (includes env fs seen file) bs) :=
  .mk (includedFiles fs file) (standsFor env fs seen file) ht h (fun x hx => (hi x hx).1) (fun x hx => (hi x hx).2.1)
    (fun x hx => (hi x hx).2.2)

/-- Everything but the lists is put one after the other. -/
theorem addBlock_after {env : Env} {inc : Str → ParsedLedger} (bs : List Block) : ∀ (pl : ParsedLedger),
    (bs.foldl (addBlock env inc) pl).transactions = pl.transactions ++ (meaning env inc bs).transactions ∧
    (bs.foldl (addBlock env inc) pl).prices = pl.prices ++ (meaning env inc bs).prices ∧
    (bs.foldl (addBlock env inc) pl).comments = pl.comments ++ (meaning env inc bs).comments ∧
    (bs.foldl (addBlock env inc) pl).tags = pl.tags ++ (meaning env inc bs).tags := by
  unfold meaning
  induction bs with
  | nil => intro pl; simp
  | cons b bs ih =>
    intro pl
    rw [List.foldl_cons, List.foldl_cons]
    obtain ⟨a1, a2, a3, a4⟩ := ih (addBlock env inc pl b)
    obtain ⟨b1, b2, b3, b4⟩ := ih (addBlock env inc {} b)
    rw [a1, a2, a3, a4, b1, b2, b3, b4]
    cases b <;> simp [addBlock, ParsedLedger.append]

theorem closed_of {env : Env} {inc : Str → ParsedLedger} {bs : List Block} (h : NothingOpen (meaning env inc bs)) : ∀ b ∈ bs, b.Closed := by
  rintro b hb t rfl p hp e he
  refine h t ?_ p hp e he
  obtain ⟨l, r, rfl⟩ := List.append_of_mem hb
  unfold meaning
  rw [List.foldl_append, List.foldl_cons, (addBlock_after r _).1]
  simp [addBlock]

/-- A file whose text is put together from two, both of which stand for something. -/
theorem takes_append {env : Env} (ha : env.AsciiChars) {fs : Files} {seen : List Str} {file text more : Str} {bs bs' : List Block}
    (ht : fs.read file = some (text ++ more)) (h : TakesJournal env text bs) (h' : TakesJournal env more bs')
    (hi : ∀ x, .incl x ∈ bs → Includable env fs seen file x) (hi' : ∀ x, .incl x ∈ bs' → Includable env fs seen file x)
    (he : text = [] ∨ EndsLine env text) (hc : ∀ b ∈ bs, b.Closed) :
    Takes env fs seen file (meaning env (includes env fs seen file) (bs ++ bs')) := by
  refine takes_of_canon ht (takesJournal_append (ha.wsT (by decide) (by decide)) h h' he hc) (fun x hx => ?_)
  rcases List.mem_append.mp hx with hx | hx
  · exact hi x hx
  · exact hi' x hx

theorem insert_keeps {T : Type} [Named T] {lower : Str → Str} (l : NList T) (x : T) {key : Str} {a : T} (hk : l.list.get? key = some a) :
    (l.insert lower x).list.get? key = some a := by
  unfold NList.insert
  split
  · exact hk
  · next hn =>
    simp only
    rw [HMap.get?_insert_ne]
    · exact hk
    · rintro e
      rw [e, hk] at hn
      cases hn

/-- What is declared stands, if nothing is included. -/
theorem addBlock_keeps {env : Env} {inc : Str → ParsedLedger} (bs : List Block) (hi : ∀ x, .incl x ∉ bs) : ∀ (pl : ParsedLedger),
    (∀ key a, pl.lists.accounts.list.get? key = some a → (bs.foldl (addBlock env inc) pl).lists.accounts.list.get? key = some a) ∧
    (∀ key c, pl.lists.commodities.list.get? key = some c → (bs.foldl (addBlock env inc) pl).lists.commodities.list.get? key = some c) ∧
    (∀ key p, pl.lists.payees.list.get? key = some p → (bs.foldl (addBlock env inc) pl).lists.payees.list.get? key = some p) := by
  induction bs with
  | nil => intro pl; exact ⟨fun _ _ h => h, fun _ _ h => h, fun _ _ h => h⟩
  | cons b bs ih =>
    intro pl
    obtain ⟨i1, i2, i3⟩ := ih (fun x hx => hi x (List.mem_cons_of_mem _ hx)) (addBlock env inc pl b)
    rw [List.foldl_cons]
    refine ⟨fun key a h => i1 key a ?_, fun key a h => i2 key a ?_, fun key a h => i3 key a ?_⟩
    · cases b with
      | account x => exact insert_keeps _ _ h
      | incl x => exact absurd List.mem_cons_self (hi x)
      | _ => exact h
    · cases b with
      | commodity x => exact insert_keeps _ _ h
      | incl x => exact absurd List.mem_cons_self (hi x)
      | _ => exact h
    · cases b with
      | payee x => exact insert_keeps _ _ h
      | incl x => exact absurd List.mem_cons_self (hi x)
      | _ => exact h

end Dinero
