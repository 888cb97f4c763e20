import Verif.Spec.Hangs
import Verif.Lemmas.Exact
import Verif.Lemmas.Fuel
/-
Lemmas about journals that are never read to the end (C136).
-/
namespace Dinero

/-! ### What makes the program loop -/

/-- The lines of a tag directive are read forever only if there is a comment. -/
theorem tagLines_hangs {env : Env} (ha : env.AsciiChars) : ∀ (n : Nat) (t : Tok), t.rest.length < n → Stands false t →
    tagLines env n t = .error .fuel → HangsLines env t.rest := by
  intro n
  induction n with
  | zero => intro t h; omega
  | succ n ih =>
    intro t hn hst h
    rw [tagLines] at h
    cases hw : wsLines env t with
    | mk t1 lt =>
      rw [hw] at h
      have hlen := (wsLines_step' hw).length
      obtain ⟨w, w1, w2, w3, w4, w5⟩ := wsLines_reads ha hw hst
      cases lt with
      | blank => cases h
      | indented =>
        simp only at h
        obtain ⟨k1, k2, k3⟩ := w4 rfl
        have k1 : columnOf w ≠ 0 := by
          rcases k1 with k1 | ⟨k1, _⟩
          · exact k1
          · cases k1
        cases hr : t1.rest with
        | nil => exact absurd hr k2
        | cons c r =>
          have hd : ∃ c, t1.rest.head? = some c ∧ env.ws c = false := ⟨c, by rw [hr]; rfl, w3 c (by rw [hr]; rfl)⟩
          split at h
          · next h1 =>
            rw [hr] at h1
            simp only [List.head?_cons, Option.some.injEq] at h1
            subst h1
            rw [w1, hr]
            exact .comment w2 k1
          · split at h
            · next h2 =>
              obtain ⟨v1, v2⟩ := value_takes ha [] ["check".toList, "assert".toList] w3 (by
                rcases h2 with h2 | h2 <;> rw [h2] <;> simp)
              have hlt := (wordLine_step env k2).2
              have := ih _ (show (getLine (getString env t1).2).2.rest.length < n by omega) v2 h
              rw [w1]
              exact .property w2 k1 hd v1 this
            · cases h

/-- A tag directive is read forever only if it has a comment. -/
theorem tagTok_hangs {env : Env} (ha : env.AsciiChars) {fuel : Nat} {t : Tok} {r : Str} (hr : t.rest = 't' :: r) (hf : t.size < fuel)
    (h : tagTok env fuel t = .error .fuel) : HangsTag env t.rest := by
  unfold tagTok at h
  simp only at h
  obtain ⟨l, l1, l2, l3⟩ := line_takes (t := t)
  rw [l2] at h
  cases hn : directiveName "tag".toList l with
  | none => rw [hn] at h; cases h
  | some n =>
    rw [hn] at h
    simp only at h
    have ht : tagLines env fuel (getLine t).2 = .error .fuel := by
      split at h
      · next e he => cases h; exact he
      · cases h
      · cases h
    obtain ⟨pre, b, d1, d2, d3, d4, d5⟩ := directiveName_reads _ _ hn
    have hlen := (getLine_step t).length
    have := tagLines_hangs ha _ _ (by unfold Tok.size at hf; omega) (.line l3) ht
    exact ⟨l, n, _, l1, ⟨pre, b, d1, d2, d3, d4, by rw [takesLine_head l1 (c := 't') (by rw [hr]; rfl) (by decide)]; rfl, d5⟩, this⟩

/-- An item is read forever only if it is such a directive or it includes a file. -/
theorem item_hangs {env : Env} (ha : env.AsciiChars) {fuel : Nat} {inc : Tok → PRes (ParsedLedger × Tok)} {c : Char} {r : Str}
    {pl : ParsedLedger} {t : Tok} (hs : t.rest <:+ t.content) (hr : t.rest = c :: r) (hf : t.size < fuel)
    (h : item env fuel inc c pl t = .error .fuel) : HangsTag env t.rest ∨ inc t = .error .fuel := by
  have hne : t.rest ≠ [] := by rw [hr]; simp
  have me : ∀ {α β : Type} {x : PRes α} {f : α → β}, x.map f = .error .fuel → x = .error .fuel := by
    intro α β x f hx
    cases x with
    | error e => cases hx; rfl
    | ok a => cases hx
  have re : ∀ {α : Type} {x : PRes (Except Err α × Tok)}, reported x = .error .fuel → x = .error .fuel := by
    intro α x hx
    by_contra hn
    exact reported_error hn hx
  unfold item at h
  split at h
  · cases h
  · split at h
    · exact absurd (me h) ((transactionTok_step ha fuel t hs hne).1 hf)
    · split at h
      · exact absurd (me h) ((automatedTok_step ha fuel t hs hne).1 hf)
      · split at h
        · exact .inr (me h)
        · split at h
          · exact absurd (re (me h)) ((commodityTok_step env fuel t hne).1 hf)
          · split at h
            · exact absurd (re (me h)) ((payeeTok_step env fuel t hne).1 hf)
            · split at h
              · next hk => subst hk; exact .inl (tagTok_hangs ha hr hf (re (me h)))
              · split at h
                · exact absurd (re (me h)) ((accountTok_step env fuel t hne).1 hf)
                · split at h
                  · exact absurd (me h) (priceTok_step env t hne).1
                  · cases h

/-- The main loop is endless only if some item is. -/
theorem items_hangs {env : Env} (ha : env.AsciiChars) {fuel : Nat} {inc : Tok → PRes (ParsedLedger × Tok)} {incN : Tok → List Note}
    {included : Str → ParsedLedger} {told : Str → List Note} {Q : Str → Prop} (hi : IncTakes inc incN included told Q) (his : IncStep inc) :
    ∀ (n : Nat) (pl : ParsedLedger) (t : Tok), t.rest <:+ t.content → Stands false t → t.size < fuel → t.rest.length + 1 < n →
      items env fuel inc n pl t = .error .fuel →
        ∃ bs w s, TakesItems env t.rest bs (w ++ s) ∧ White env w ∧ columnOf w = 0 ∧ (∃ c, s.head? = some c ∧ env.ws c = false) ∧
          (∀ x, .incl x ∈ bs → Q x) ∧ (HangsTag env s ∨ ∃ t', t'.rest = s ∧ inc t' = .error .fuel) := by
  intro n
  induction n with
  | zero => intro pl t _ _ _ h; omega
  | succ n ih =>
    intro pl t hs hst hf hn h
    rw [items] at h
    split at h
    · cases h
    · next h0 =>
      cases hw : wsLines env t with
      | mk t1 lt =>
        rw [hw] at h
        have hstep := wsLines_step' hw
        have hlen := hstep.length
        have hsz := hstep.size
        obtain ⟨w, w1, w2, w3, w4, w5⟩ := wsLines_reads ha hw hst
        have hs1 := hstep.suffix hs
        cases lt with
        | indented => cases h
        | blank =>
          simp only at h
          obtain ⟨k1, k2⟩ := w5 rfl
          cases hr : t1.rest with
          | nil =>
            rw [hr] at h
            simp only at h
            obtain ⟨n, rfl⟩ : ∃ m, n = m + 1 := ⟨n - 1, by have := List.length_pos_of_ne_nil h0; omega⟩
            rw [items, if_pos hr] at h
            cases h
          | cons c r =>
            rw [hr] at h
            have hc : env.ws c = false := w3 c (by rw [hr]; rfl)
            have hcn : c ≠ '\n' := by
              rintro rfl
              rw [ha.wsT (by decide) (by decide)] at hc; cases hc
            have hcol : columnOf w = 0 := by
              rcases k1 with k1 | k1
              · rw [hr] at k1; cases k1
              · by_contra hx
                exact k1 (.inl hx)
            have hd : ∃ c, t1.rest.head? = some c ∧ env.ws c = false := ⟨c, by rw [hr]; rfl, hc⟩
            simp only at h
            cases hit : item env fuel inc c pl t1 with
            | error e =>
              rw [hit] at h
              cases h
              refine ⟨[], w, t1.rest, by rw [w1]; exact .nil, w2, hcol, hd, by simp, ?_⟩
              rcases item_hangs ha hs1 hr (by omega) hit with h | h
              · exact .inl h
              · exact .inr ⟨t1, rfl, h⟩
            | ok y =>
              obtain ⟨pl2, t2⟩ := y
              rw [hit] at h
              simp only at h
              obtain ⟨b, b1, b2, b5, b3, b4⟩ := item_takes ha fuel hi pl hs1 hr hcn hit
              obtain ⟨hst2, hlt, _⟩ := (item_step ha fuel his pl t1 hs1 hr hcn).2 _ _ hit
              have hsz2 := hst2.size
              obtain ⟨bs, w', s, i1, i2, i3, i4, i5, i6⟩ := ih pl2 t2 (hst2.suffix hs1) b4 (by omega) (by omega) h
              refine ⟨b :: bs, w', s, ?_, i2, i3, i4, ?_, i6⟩
              · rw [w1]
                exact .cons w2 hcol hd b1 i1
              · intro x hx
                rcases List.mem_cons.mp hx with h | h
                · exact b3 x h.symm
                · exact i5 x h

theorem includeFiles_hangs {tok : Str → PRes ParsedLedger} : ∀ (es : List (Option Str)) (pl : ParsedLedger),
    includeFiles tok (es.filterMap id) pl = .error .fuel →
      ∃ pre f post, es = pre ++ some f :: post ∧ tok f = .error .fuel ∧ ∀ g, some g ∈ pre → ∃ pl, tok g = .ok pl := by
  intro es
  induction es with
  | nil => intro pl h; cases h
  | cons e es ih =>
    intro pl h
    cases e with
    | none =>
      obtain ⟨pre, f, post, h1, h2, h3⟩ := ih pl h
      refine ⟨none :: pre, f, post, by rw [h1]; rfl, h2, fun g hg => ?_⟩
      rcases List.mem_cons.mp hg with hg | hg
      · cases hg
      · exact h3 g hg
    | some f =>
      rw [List.filterMap_cons] at h
      simp only [id] at h
      rw [includeFiles] at h
      cases ht : tok f with
      | error e =>
        rw [ht] at h
        cases h
        exact ⟨[], f, es, rfl, ht, by simp⟩
      | ok new =>
        rw [ht] at h
        obtain ⟨pre, g, post, h1, h2, h3⟩ := ih _ h
        refine ⟨some f :: pre, g, post, by rw [h1]; rfl, h2, fun k hk => ?_⟩
        rcases List.mem_cons.mp hk with hk | hk
        · cases hk; exact ⟨new, ht⟩
        · exact h3 k hk

/-- An include directive is read forever only if one of the files is. -/
theorem include_hangs {fs : Files} {file : Str} {seen : List Str} {tok : Str → PRes ParsedLedger} {t : Tok}
    (h : includeTok fs (some file) (file :: seen) tok t = .error .fuel) :
    ∃ x r pre f post, TakesLine t.rest ("include ".toList ++ x) r ∧ Expands fs file x (pre ++ some f :: post) ∧
      (∀ g, some g ∈ pre ++ some f :: post → g ≠ file ∧ g ∉ seen) ∧ tok f = .error .fuel ∧ ∀ g, some g ∈ pre → ∃ pl, tok g = .ok pl := by
  unfold includeTok at h
  cases hcs : consumeStr "include ".toList t with
  | error e => rw [hcs] at h; cases h
  | ok t1 =>
    rw [hcs] at h
    simp only at h
    unfold consumeStr at hcs
    split at hcs
    · next hp =>
      obtain ⟨r, hr⟩ := List.isPrefixOf_iff_prefix.mp hp
      cases hcs
      have e1 : t.rest.drop "include ".toList.length = r := by rw [← hr]; simp
      obtain ⟨x, x1, x2, x3⟩ := line_takes (t := { t with rest := t.rest.drop "include ".toList.length, col := t.col + "include ".toList.length })
      rw [x2] at h
      split at h
      · cases h
      · next pat hpat =>
        unfold includePattern at hpat
        simp only at hpat
        cases hd : fs.parent file with
        | none => rw [hd] at hpat; cases hpat
        | some dir =>
          rw [hd] at hpat
          simp only [Except.ok.injEq] at hpat
          have hpat : (if dir = [] then ['.'] else dir) ++ '/' :: x = pat := by rw [← hpat]; simp
          split at h
          · cases h
          · next es hg =>
            split at h
            · cases h
            · next hany =>
              have h' : includeFiles tok (es.filterMap id) {} = .error .fuel := by
                cases hx : includeFiles tok (es.filterMap id) {} with
                | error e => rw [hx] at h; cases h; rfl
                | ok a => rw [hx] at h; cases h
              obtain ⟨pre, f, post, i1, i2, i3⟩ := includeFiles_hangs es {} h'
              have hl : TakesLine t.rest ("include ".toList ++ x) (getLine { t with
                  rest := t.rest.drop "include ".toList.length, col := t.col + "include ".toList.length }).2.rest := by
                obtain ⟨z1, z2⟩ := x1
                refine ⟨?_, ?_⟩
                · rw [List.mem_append, not_or]; exact ⟨by decide, z1⟩
                · rcases z2 with z2 | ⟨z2, z3⟩
                  · left
                    rw [← hr, List.append_assoc]
                    congr 1
                    rw [← e1]; exact z2
                  · right
                    refine ⟨?_, z3⟩
                    rw [← hr]
                    congr 1
                    rw [← e1]; exact z2
              refine ⟨x, _, pre, f, post, hl, ⟨dir, hd, by rw [hpat, ← i1]; exact hg⟩, fun g hgm => ?_, i2, i3⟩
              rw [← i1] at hgm
              have : g ∉ file :: seen := by
                intro hm
                apply hany
                rw [List.any_eq_true]
                exact ⟨g, List.mem_filterMap.mpr ⟨some g, hgm, rfl⟩, by simpa using hm⟩
              simpa only [List.mem_cons, not_or] using this
    · cases hcs

/-- A file that is read forever is one of those described. -/
theorem file_hangs {env : Env} (ha : env.AsciiChars) {fs : Files} {univ : List Str} {fuel : Nat}
    (hg : ∀ p es, fs.glob p = some es → ∀ f, some f ∈ es → f ∈ univ)
    (hu : ∀ f ∈ univ, ∀ c, fs.read f = some c → 3 * c.length + 2 ≤ fuel) :
    ∀ (depth : Nat) (seen : List Str) (file : Str), (∀ c, fs.read file = some c → 3 * c.length + 2 ≤ fuel) →
      (univ.filter (fun g => decide (g ∉ file :: seen))).length < depth →
      tokenizeFile env fs fuel depth seen file = .error .fuel → Hangs env fs seen file := by
  intro depth
  induction depth with
  | zero => intro seen file _ h; omega
  | succ depth ih =>
    intro seen file hfile hd h
    rw [tokenizeFile] at h
    cases hr : fs.read file with
    | none => rw [hr] at h; cases h
    | some text =>
      have hlen := hfile text hr
      rw [hr] at h
      simp only at h
      let content : Str → ParsedLedger := fun f => match tokenizeFile env fs fuel depth (file :: seen) f with
        | .ok x => x
        | .error _ => {}
      let pattern : Str → Str := fun x => (if (fs.parent file).getD [] = [] then ['.'] else (fs.parent file).getD []) ++ '/' :: x
      let entries : Str → List (Option Str) := fun x =>
        ((fs.parent file).bind (fun dir => fs.glob ((if dir = [] then ['.'] else dir) ++ '/' :: x))).getD []
      have hinc := include_takes (fs := fs) (file := file) (seen := seen) (tok := fun f => tokenizeFile env fs fuel depth (file :: seen) f)
        (content := content) (fun _ => []) (pattern := pattern) (by intro x dir hd; simp only [pattern]; rw [hd]; rfl) (entries := entries)
        (by intro f x hx; simp only [content, hx])
        (by intro x dir es hd hg; simp only [entries]; rw [hd, Option.bind_some, hg]; rfl)
      obtain ⟨bs, w, s, i1, i2, i3, i4, i5, i6⟩ := items_hangs ha hinc (fun _ _ _ h => includeTok_step h) fuel {} (Tok.ofContent text)
        List.suffix_rfl (.inr (.inr (by simp [Tok.ofContent]))) (by simp only [Tok.size, Tok.ofContent]; omega)
        (by simp only [Tok.ofContent]; omega) h
      have hreach : Reaches env fs seen file s := by
        refine ⟨text, bs, w, entries, content, hr, i1, i2, i3, i4, fun x hx => ?_⟩
        obtain ⟨⟨dir, q1, q1'⟩, q2, q3⟩ := i5 x hx
        exact ⟨⟨dir, q1, q1'⟩, fun f hf => ⟨(q2 f hf).1, (q2 f hf).2, file_takes ha fs fuel _ _ _ _ (q3 f hf)⟩⟩
      rcases i6 with i6 | ⟨t', rfl, i6⟩
      · exact .tag hreach i6
      · obtain ⟨x, r, pre, f, post, j1, j2, j3, j4, j5⟩ := include_hangs i6
        have hfu : f ∈ univ := by
          obtain ⟨dir, _, hg'⟩ := j2
          exact hg _ _ hg' f (by simp)
        obtain ⟨n1, n2⟩ := j3 f (by simp)
        refine .incl content hreach j1 j2 j3 (fun g hg' => ?_) (ih (file :: seen) f (hu f hfu) ?_ j4)
        · obtain ⟨pl, hpl⟩ := j5 g hg'
          have : content g = pl := by simp only [content, hpl]
          rw [this]
          exact file_takes ha fs fuel _ _ _ _ hpl
        · have := filter_lt (seen := file :: seen) hfu (by simp [n1, n2])
          omega

/-! ### And it does -/

theorem hangsLines_loop {env : Env} (ha : env.AsciiChars) {s : Str} (h : HangsLines env s) : ∀ (n : Nat) (t : Tok), t.rest = s →
    Stands false t → tagLines env n t = .error .fuel := by
  induction h with
  | @comment w r h1 h2 =>
    intro n t ht hst
    cases n with
    | zero => rfl
    | succ n =>
      obtain ⟨t1, k1, k2, k3⟩ := wsLines_cons ha ht hst h1 (.inl h2) ⟨';', rfl, ha.wsF (by decide) (by decide)⟩
      have hh : t1.rest.head? = some ';' := by rw [k2]; rfl
      rw [tagLines, k1]
      simp only
      rw [if_pos hh]
      exact tagLines_comment n hh (ha.wsF (by decide) (by decide)) k3
  | @property w s k x r h1 h2 h3 h4 _ ih =>
    intro n t ht hst
    cases n with
    | zero => rfl
    | succ n =>
      obtain ⟨t1, k1, k2, k3⟩ := wsLines_cons ha ht hst h1 (.inl h2) h3
      rcases property_exact ha (by decide) (by decide) h4 k2 h3 k3 with ⟨e, _⟩ | ⟨_, hw, _⟩ |
        ⟨w, hw, y, e, g1, g2, g3, g4, g5⟩
      · cases e
      · cases hw
      · rw [tagLines, k1]
        simp only [if_neg g1, g2]
        rw [if_pos (by simpa using hw)]
        exact ih n _ g4 g5

theorem hangsTag_loop {env : Env} (ha : env.AsciiChars) {t : Tok} (h : HangsTag env t.rest) (fuel : Nat) :
    tagTok env fuel t = .error .fuel ∧ t.rest.head? = some 't' := by
  obtain ⟨l, n, r, h1, h2, h3⟩ := h
  refine ⟨?_, takesLine_starts h1 (by obtain ⟨_, _, _, _, _, _, e, _⟩ := h2; rw [e]; rfl)⟩
  obtain ⟨k1, k2⟩ := line_exact h1
  obtain ⟨_, _, _, k3⟩ := line_takes (t := t)
  unfold tagTok
  simp only
  rw [k1, directiveName_exact h2]
  simp only
  rw [hangsLines_loop ha h3 fuel _ k2 (.line k3)]

/-- The first items are read. -/
theorem items_reach {env : Env} (ha : env.AsciiChars) (included : Str → ParsedLedger) {text rest : Str} {bs : List Block}
    (h : TakesItems env text bs rest) :
    ∃ N, ∀ fuel, N ≤ fuel → ∀ n, ∀ (inc : Tok → PRes (ParsedLedger × Tok)), IncStep inc →
      (∀ x, .incl x ∈ bs → IncExact inc x (included x)) →
      ∀ (pl : ParsedLedger) (t : Tok), t.rest = text → t.rest <:+ t.content → Stands false t →
        ∃ pl' t', items env fuel inc (n + bs.length) pl t = items env fuel inc n pl' t' ∧ t'.rest = rest ∧ t'.rest <:+ t'.content ∧
          Stands false t' := by
  induction h with
  | nil => exact ⟨0, fun fuel _ n inc _ _ pl t ht hs hst => ⟨pl, t, rfl, ht, hs, hst⟩⟩
  | @cons w s r rest b bs h1 h2 h3 h4 h5 ih =>
    obtain ⟨N1, hN1⟩ := item_exact ha included h4
    obtain ⟨N2, ih⟩ := ih
    refine ⟨N1 + N2, fun fuel hf n inc hstep hinc pl t ht hs hst => ?_⟩
    obtain ⟨c, hc, hcw⟩ := h3
    have hcn : c ≠ '\n' := by
      rintro rfl
      rw [ha.wsT (by decide) (by decide)] at hcw; cases hcw
    have h0 : t.rest ≠ [] := by
      rw [ht]
      intro e
      rw [(List.append_eq_nil_iff.mp e).2] at hc
      cases hc
    obtain ⟨t1, k1, k2, k3⟩ := wsLines_done ha ht hst h1 (.inr (by simp [Indents, h2])) (by
      intro x hx; rw [hc] at hx; cases hx; exact hcw)
    have hs1 := (wsLines_step' k1).suffix hs
    obtain ⟨t2, q1, q2, q3⟩ := hN1 fuel (by omega) inc (fun x hx => hinc x (by rw [hx]; exact List.mem_cons_self)) c pl t1 hc k2 hs1
    obtain ⟨r', hr⟩ : ∃ r, t1.rest = c :: r := by
      rw [k2]
      cases s with
      | nil => cases hc
      | cons y r => cases hc; exact ⟨r, rfl⟩
    have hs2 := ((item_step ha fuel hstep pl t1 hs1 hr hcn).2 _ _ q1).1.suffix hs1
    obtain ⟨pl', t', e1, e2, e3, e4⟩ := ih fuel (by omega) n inc hstep (fun x hx => hinc x (List.mem_cons_of_mem _ hx)) _ t2 q2 hs2 q3
    refine ⟨pl', t', ?_, e2, e3, e4⟩
    rw [List.length_cons, ← Nat.add_assoc, items, if_neg h0, k1]
    simp only [hr, q1]
    exact e1

/-- The loop at the first item that is read forever. -/
theorem items_stuck {env : Env} (ha : env.AsciiChars) {fuel : Nat} {inc : Tok → PRes (ParsedLedger × Tok)} {w s : Str} {c : Char}
    (hw : White env w) (hcol : columnOf w = 0) (hc : s.head? = some c) (hcw : env.ws c = false) {pl : ParsedLedger} {t : Tok}
    (ht : t.rest = w ++ s) (hst : Stands false t)
    (h : ∀ t', t'.rest = s → item env fuel inc c pl t' = .error .fuel) (n : Nat) : items env fuel inc n pl t = .error .fuel := by
  cases n with
  | zero => rfl
  | succ n =>
    have h0 : t.rest ≠ [] := by
      rw [ht]
      intro e
      rw [(List.append_eq_nil_iff.mp e).2] at hc
      cases hc
    obtain ⟨t1, k1, k2, k3⟩ := wsLines_done ha ht hst hw (.inr (by simp [Indents, hcol])) (by
      intro x hx; rw [hc] at hx; cases hx; exact hcw)
    obtain ⟨r, hr⟩ : ∃ r, t1.rest = c :: r := by
      rw [k2]
      cases s with
      | nil => cases hc
      | cons y r => cases hc; exact ⟨r, rfl⟩
    rw [items, if_neg h0, k1]
    simp only [hr, h t1 k2]

/-- A file with an item that is read forever. -/
theorem reaches_stuck {env : Env} (ha : env.AsciiChars) {fs : Files} {seen : List Str} {file s : Str} (h : Reaches env fs seen file s)
    (hs : ∃ N, ∀ fuel, N ≤ fuel → ∀ depth, N ≤ depth → ∀ (c : Char) (pl : ParsedLedger) (t : Tok), s.head? = some c → t.rest = s →
      item env fuel (includeTok fs (some file) (file :: seen) (fun f => tokenizeFile env fs fuel depth (file :: seen) f)) c pl t = .error .fuel)
    (fuel depth : Nat) : tokenizeFile env fs fuel depth seen file = .error .fuel := by
  obtain ⟨text, bs, w, entries, content, h1, h2, h3, h4, ⟨c, hc, hcw⟩, h5⟩ := h
  obtain ⟨N0, hN0⟩ := items_reach ha (fun x => ((entries x).filterMap id).foldl (fun pl f => pl.append (content f)) {}) h2
  obtain ⟨N2, hN2⟩ := hs
  have hb : ∃ N, ∀ b ∈ bs, ∀ n, N ≤ n → ∀ x, b = .incl x → ∀ f, some f ∈ entries x → ∀ fuel, n ≤ fuel → ∀ depth, n ≤ depth →
      tokenizeFile env fs fuel depth (file :: seen) f = .ok (content f) := by
    refine bound_list _ bs (fun b hb => ?_)
    cases b with
    | incl x =>
      obtain ⟨N, hN⟩ := bound_list (fun e n => ∀ f, e = some f → ∀ fuel, n ≤ fuel → ∀ depth, n ≤ depth →
        tokenizeFile env fs fuel depth (file :: seen) f = .ok (content f)) (entries x) (by
          intro e he
          cases e with
          | none => exact ⟨0, by simp⟩
          | some f =>
            obtain ⟨N, hN⟩ := file_exact ha ((h5 x hb).2 f he).2.2
            exact ⟨N, fun n hn g hg fuel hf depth hd => by cases hg; exact hN fuel (by omega) depth (by omega)⟩)
      exact ⟨N, fun n hn y hy f hf fuel h1 depth h2 => by cases hy; exact hN _ hf n hn f rfl fuel h1 depth h2⟩
    | _ => exact ⟨0, by simp⟩
  obtain ⟨N1, hN1⟩ := hb
  -- with more iterations allowed it is the same
  have hbig : ∀ fuel depth, N0 + N1 + N2 + bs.length ≤ fuel → N0 + N1 + N2 + 1 ≤ depth →
      tokenizeFile env fs fuel depth seen file = .error .fuel := by
    intro fuel depth hf hd
    obtain ⟨depth, rfl⟩ : ∃ m, depth = m + 1 := ⟨depth - 1, by omega⟩
    rw [tokenizeFile, h1]
    simp only
    obtain ⟨n, hn⟩ : ∃ n, fuel = n + bs.length := ⟨fuel - bs.length, by omega⟩
    obtain ⟨pl', t', e1, e2, e3, e4⟩ := hN0 fuel (by omega) n
      (includeTok fs (some file) (file :: seen) (fun f => tokenizeFile env fs fuel depth (file :: seen) f))
      (fun _ _ _ h => includeTok_step h) (fun x hx => by
        obtain ⟨⟨dir, d1, d2⟩, d3⟩ := h5 x hx
        exact include_exact d1 d2 (fun f hf => ⟨(d3 f hf).1, (d3 f hf).2.1⟩)
          (fun f hf' => hN1 _ hx N1 (Nat.le_refl _) x rfl f hf' fuel (by omega) depth (by omega)))
      {} (Tok.ofContent text) rfl List.suffix_rfl (.inr (.inr (by simp [Tok.ofContent])))
    rw [← hn] at e1
    rw [e1]
    exact items_stuck ha h3 h4 hc hcw e2 e4 (fun t'' ht => hN2 fuel (by omega) depth (by omega) c pl' t'' hc ht) n
  have := hbig (max fuel (N0 + N1 + N2 + bs.length)) (max depth (N0 + N1 + N2 + 1)) (Nat.le_max_right _ _) (Nat.le_max_right _ _)
  rcases tokenizeFile_upto env fs (Nat.le_max_left fuel (N0 + N1 + N2 + bs.length)) _ _
    (Nat.le_max_left depth (N0 + N1 + N2 + 1)) seen file with h | h
  · exact h
  · rw [h, this]

theorem includeFiles_stuck {tok : Str → PRes ParsedLedger} {f : Str} {post : List (Option Str)} (hf : tok f = .error .fuel) :
    ∀ (pre : List (Option Str)) (pl : ParsedLedger), (∀ g, some g ∈ pre → ∃ pl, tok g = .ok pl) →
      includeFiles tok ((pre ++ some f :: post).filterMap id) pl = .error .fuel := by
  intro pre
  induction pre with
  | nil =>
    intro pl _
    show includeFiles tok (f :: post.filterMap id) pl = _
    rw [includeFiles, hf]
  | cons e pre ih =>
    intro pl h
    cases e with
    | none => exact ih pl (fun g hg => h g (List.mem_cons_of_mem _ hg))
    | some g =>
      show includeFiles tok (g :: (pre ++ some f :: post).filterMap id) pl = _
      obtain ⟨new, hn⟩ := h g List.mem_cons_self
      rw [includeFiles, hn]
      exact ih _ (fun g hg => h g (List.mem_cons_of_mem _ hg))

theorem include_stuck {fs : Files} {file x : Str} {seen : List Str} {tok : Str → PRes ParsedLedger} {pre post : List (Option Str)} {f : Str}
    (hx : Expands fs file x (pre ++ some f :: post)) (hse : ∀ g, some g ∈ pre ++ some f :: post → g ≠ file ∧ g ∉ seen)
    (hf : tok f = .error .fuel) (hpre : ∀ g, some g ∈ pre → ∃ pl, tok g = .ok pl) {t : Tok} {r : Str}
    (hl : TakesLine t.rest ("include ".toList ++ x) r) : includeTok fs (some file) (file :: seen) tok t = .error .fuel := by
  obtain ⟨dir, hd, hg⟩ := hx
  have hl' : ∃ k, t.rest = "include ".toList ++ k ∧ TakesLine k x r := by
    obtain ⟨h1, h2⟩ := hl
    have hx : '\n' ∉ x := fun h => h1 (by simp [h])
    rcases h2 with h2 | ⟨h2, h3⟩
    · exact ⟨_, by rw [h2, List.append_assoc], hx, .inl rfl⟩
    · exact ⟨x, h2, hx, .inr ⟨rfl, h3⟩⟩
  obtain ⟨k, e, hk⟩ := hl'
  let t1 : Tok := { t with rest := t.rest.drop "include ".toList.length, col := t.col + "include ".toList.length }
  have hc : consumeStr "include ".toList t = .ok t1 := by
    unfold consumeStr
    rw [if_pos]
    rw [List.isPrefixOf_iff_prefix, e]
    exact ⟨k, rfl⟩
  have hr : t1.rest = k := by simp only [t1, e, List.drop_left]
  rw [← hr] at hk
  obtain ⟨k1, k2⟩ := line_exact hk
  unfold includeTok
  rw [hc]
  simp only
  rw [k1]
  have hp : includePattern fs (some file) x = .ok ((if dir = [] then ['.'] else dir) ++ '/' :: x) := by
    unfold includePattern
    simp only [hd, List.append_assoc, List.cons_append, List.nil_append]
  rw [hp]
  simp only [hg]
  rw [if_neg, includeFiles_stuck hf _ _ hpre]
  · rfl
  · simp only [List.any_eq_true, not_exists, not_and]
    intro g hg'
    obtain ⟨a1, a2⟩ := hse g (by simpa using hg')
    simp [a1, a2]

/-- Files that are described are read forever. -/
theorem hangs_loop {env : Env} (ha : env.AsciiChars) {fs : Files} {seen : List Str} {file : Str} (h : Hangs env fs seen file) :
    ∀ fuel depth, tokenizeFile env fs fuel depth seen file = .error .fuel := by
  have hnum : ∀ c : Char, c.toNat < 128 → ¬ ('0' ≤ c ∧ c ≤ '9') → ¬ env.numeric c = true := fun c h1 h2 h3 => h2 ((ha.numeric c h1).mp h3)
  induction h with
  | tag h1 h2 =>
    refine reaches_stuck ha h1 ⟨0, fun fuel _ depth _ c pl t hc ht => ?_⟩
    obtain ⟨k1, k2⟩ := hangsTag_loop ha (by rw [ht]; exact h2) fuel (t := t)
    rw [ht, hc] at k2
    cases k2
    unfold item
    rw [if_neg (by decide), if_neg (hnum _ (by decide) (by decide)), if_neg (by decide), if_neg (by decide), if_neg (by decide),
      if_neg (by decide), if_pos rfl, k1]
    rfl
  | @incl seen file s x r f pre post content h1 h2 h3 h4 h5 _ ih =>
    have hb : ∃ N, ∀ e ∈ pre, ∀ n, N ≤ n → ∀ g, e = some g → ∀ fuel, n ≤ fuel → ∀ depth, n ≤ depth →
        tokenizeFile env fs fuel depth (file :: seen) g = .ok (content g) := by
      refine bound_list _ pre (fun e he => ?_)
      cases e with
      | none => exact ⟨0, by simp⟩
      | some g =>
        obtain ⟨N, hN⟩ := file_exact ha (h5 g he)
        exact ⟨N, fun n hn k hk fuel hf depth hd => by cases hk; exact hN fuel (by omega) depth (by omega)⟩
    obtain ⟨N, hN⟩ := hb
    refine reaches_stuck ha h1 ⟨N, fun fuel hf depth hd c pl t hc ht => ?_⟩
    have : some 'i' = some c := (takesLine_starts h2 (c := 'i') rfl).symm.trans hc
    cases this
    unfold item
    rw [if_neg (by decide), if_neg (hnum _ (by decide) (by decide)), if_neg (by decide), if_pos rfl,
      include_stuck h3 h4 (ih fuel depth) (fun g hg => ⟨_, hN _ hg N (Nat.le_refl _) g rfl fuel hf depth hd⟩) (by rw [ht]; exact h2)]
    rfl

end Dinero
