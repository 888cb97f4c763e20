import Verif.Lemmas.Convert
/-
Lemmas on automated transactions.
-/
namespace Dinero

/-! ### Lists only grow -/

theorem ensure_grows {T : Type} [Named T] {lower : Str → Str} {make : Str → T}
    (hm : ∀ n, Named.name (make n) = n) (ha : ∀ n, Named.aliases (make n) = []) {l l' : NList T}
    {name : Str} (h : l.ensure lower make name = .ok l') :
    Extends lower l l' ∧ ∃ x, l'.get lower name = .ok x := by
  unfold NList.ensure at h
  split at h
  · next x hx => cases h; exact ⟨.refl _ _, x, hx⟩
  · cases h
  · next e he =>
    cases h
    obtain ⟨h1, h2, _⟩ := insert_fresh he (hm name) (ha name)
    exact ⟨h2, _, h1⟩

theorem evalMoney_grows {env : Env} {c : Str} {a : Rat} {st st' : Commodities} {v : Val}
    (h : evalMoney env c a st = .ok (v, st')) : Extends env.lower st st' := by
  unfold evalMoney at h
  split at h
  · cases h; exact .refl _ _
  · cases h
  · next e he => cases h; exact (insert_fresh (x := ({ name := c } : CurrencyDef)) he rfl rfl).2.1

theorem anyLoop_grows {lower : Str → Str} {f : Posting → Commodities → Res (Val × Commodities)}
    (hf : ∀ p st v st', f p st = .ok (v, st') → Extends lower st st') (ps : List Posting)
    {st st' : Commodities} {v : Val} (h : anyLoop f ps st = .ok (v, st')) : Extends lower st st' := by
  induction ps generalizing st with
  | nil => cases h; exact .refl _ _
  | cons p ps ih =>
    unfold anyLoop at h
    split at h
    · cases h
    · next s1 h1 => cases h; exact hf _ _ _ _ h1
    · next s1 h1 => exact (hf _ _ _ _ h1).trans (ih h)
    · cases h

theorem eval_grows {env : Env} {t : Txn Posting} (n : Ast) {p : Posting} {st st' : Commodities} {v : Val}
    (h : eval env t n p st = .ok (v, st')) : Extends env.lower st st' := by
  induction n generalizing p st st' v with
  | amount =>
    unfold eval at h; split at h <;> cases h; exact .refl _ _
  | account => unfold eval at h; cases h; exact .refl _ _
  | payee => unfold eval at h; split at h <;> cases h; exact .refl _ _
  | note => unfold eval at h; cases h; exact .refl _ _
  | date => unfold eval at h; split at h <;> cases h; exact .refl _ _
  | regex => unfold eval at h; cases h; exact .refl _ _
  | string => unfold eval at h; cases h; exact .refl _ _
  | number => unfold eval at h; cases h; exact .refl _ _
  | money c a => unfold eval at h; exact evalMoney_grows h
  | unary op child ih =>
    unfold eval at h
    split at h
    · cases h
    · next v1 s1 h1 =>
      have e1 := ih h1
      split at h
      · exact e1.trans (anyLoop_grows (fun p st v st' hh => ih hh) _ h)
      · split at h
        · cases h; exact e1
        · cases h
  | binary op l r ihl ihr =>
    unfold eval at h
    split at h
    · cases h
    · next v1 s1 h1 =>
      split at h
      · cases h
      · next v2 s2 h2 =>
        split at h
        · cases h; exact (ihl h1).trans (ihr h2)
        · cases h

theorem filterExpression_grows {env : Env} {t : Txn Posting} {n : Ast} {p : Posting}
    {st st' : Commodities} {b : Bool} (h : filterExpression env t n p st = .ok (b, st')) :
    Extends env.lower st st' := by
  unfold filterExpression at h
  split at h
  · cases h
  · next b s he => cases h; exact eval_grows n he
  · cases h

/-- All three lists only grow. -/
structure Lists.Grow (lower : Str → Str) (l l' : Lists) : Prop where
  accounts : Extends lower l.accounts l'.accounts
  payees : Extends lower l.payees l'.payees
  commodities : Extends lower l.commodities l'.commodities

theorem Lists.Grow.refl (lower : Str → Str) (l : Lists) : l.Grow lower l :=
  ⟨.refl _ _, .refl _ _, .refl _ _⟩
theorem Lists.Grow.trans {lower : Str → Str} {a b c : Lists} (h1 : a.Grow lower b) (h2 : b.Grow lower c) :
    a.Grow lower c :=
  ⟨h1.accounts.trans h2.accounts, h1.payees.trans h2.payees, h1.commodities.trans h2.commodities⟩

theorem Finds.grow {T : Type} [Named T] {lower : Str → Str} {l l' : NList T} (h : Extends lower l l')
    {a n : Str} (hf : Finds lower l a n) : Finds lower l' a n := by
  obtain ⟨x, hx, he⟩ := hf; exact ⟨x, h _ _ hx, he⟩

theorem RuleAmount.grow {env : Env} {cs cs' : Commodities} (h : Extends env.lower cs cs')
    {t : Txn Posting} {p : Posting} {rp : RawPosting} {m : Money}
    (ha : RuleAmount env cs t p rp m) : RuleAmount env cs' t p rp m := by
  rcases ha with ⟨c, n, a, h1, h2, h3, h4, h5⟩ | h2 | h3
  · exact Or.inl ⟨c, n, a, h1, h2, h3, h4.grow h, h5⟩
  · exact Or.inr (Or.inl h2)
  · exact Or.inr (Or.inr h3)

theorem Generated.grow {env : Env} {l l' : Lists} (h : l.Grow env.lower l') {t : Txn Posting}
    {p : Posting} {rp : RawPosting} {q : Posting} (hg : Generated env l t p rp q) :
    Generated env l' t p rp q := by
  refine ⟨hg.account.grow h.accounts, ?_, ?_, hg.rest⟩
  · obtain ⟨m, h1, h2⟩ := hg.amount; exact ⟨m, h1, h2.grow h.commodities⟩
  · have := hg.payee
    split at this
    · exact this
    · obtain ⟨m, h1, h2⟩ := this; exact ⟨m, h1, h2.grow h.payees⟩

theorem RuleOn.grow {env : Env} {l l' : Lists} (h : l.Grow env.lower l') {r : Txn RawPosting × Ast}
    {t : Txn Posting} {p : Posting} {x : Posting × List Posting} (hr : RuleOn env l r t p x) :
    RuleOn env l' r t p x := by
  cases hr with
  | notOwn h1 => exact .notOwn h1
  | unmatched h1 h2 h3 => exact .unmatched h1 h2 h3
  | matched h1 h2 h3 h4 h5 h6 => exact .matched h1 h2 h3 h4 h5 (h6.imp (fun _ _ hg => hg.grow h))

theorem RulesOn.grow {env : Env} {l l' : Lists} (h : l.Grow env.lower l')
    {rs : List (Txn RawPosting × Ast)} {t t' : Txn Posting} (hr : RulesOn env l rs t t') :
    RulesOn env l' rs t t' := by
  induction hr with
  | nil => exact .nil
  | cons h1 _ ih => exact .cons (h1.imp (fun _ _ hg => hg.grow h)) ih

/-! ### Generated postings -/

theorem ruleMoney_spec {env : Env} {t : Txn Posting} {p : Posting} {rp : RawPosting}
    {cs cs' : Commodities} {m : Money} (h : ruleMoney env t p rp cs = .ok (m, cs')) :
    RuleAmount env cs' t p rp m ∧ Extends env.lower cs cs' := by
  unfold ruleMoney at h
  split at h
  · next hc =>
    split at h
    · cases h
    · next e he =>
      unfold evalValueExpression at h
      split at h
      · cases h
      · next node hn =>
        unfold evalAmountNode at h
        split at h
        · cases h
        · next r st' hev =>
          split at h
          · next a ha =>
            cases h
            refine ⟨Or.inr (Or.inr ⟨e, node, _, cs, _, hc, he, hn, hev, Or.inr ⟨r, rfl, ?_⟩⟩),
              eval_grows node hev⟩
            cases a with
            | zero => exact Or.inr ⟨ha, rfl⟩
            | mk x c => exact Or.inl ⟨x, c, ha, rfl⟩
          · cases h
        · next m' st' hev =>
          cases h
          exact ⟨Or.inr (Or.inr ⟨e, node, _, cs, _, hc, he, hn, hev, Or.inl rfl⟩), eval_grows node hev⟩
        · cases h
  · next hc =>
    split at h
    · cases h
    · cases h
    · next a c ha =>
      split at h
      · cases h
      · next q hq => cases h; exact ⟨Or.inr (Or.inl ⟨a, c, q, hc, hq, ha, rfl⟩), .refl _ _⟩
  · next name hne hc =>
    split at h
    · cases h
    · next cs1 hcs =>
      split at h
      · cases h
      · next c hcn =>
        split at h
        · cases h
        · next q hq =>
          cases h
          obtain ⟨h1, _⟩ := ensure_grows (fun _ => rfl) (fun _ => rfl) hcs
          exact ⟨Or.inl ⟨name, c, q, hc, hne, hq, commodity_finds hcn, rfl⟩, h1⟩

theorem rulePosting_spec {env : Env} {t : Txn Posting} {p : Posting} {rp : RawPosting} {l l' : Lists}
    {q : Posting} (h : rulePosting env t p rp l = .ok (q, l')) :
    Generated env l' t p rp q ∧ l.Grow env.lower l' := by
  unfold rulePosting at h
  split at h
  · cases h
  · next accounts hacc =>
    split at h
    · cases h
    · next payee payees hpay =>
      split at h
      · cases h
      · next a ha =>
        split at h
        · cases h
        · next m cs hm =>
          cases h
          obtain ⟨h1, h2⟩ := ruleMoney_spec hm
          obtain ⟨h3, _⟩ := ensure_grows (fun _ => rfl) (fun _ => rfl) hacc
          have hp : (match rp.payee with
              | none => payee = p.payee
              | some n => ∃ m, payee = some m ∧ Finds env.lower payees n m) ∧
              Extends env.lower l.payees payees := by
            unfold rulePayee at hpay
            split at hpay
            · next hn => cases hpay; rw [hn]; exact ⟨rfl, .refl _ _⟩
            · next n hn =>
              split at hpay
              · cases hpay
              · next ps hps =>
                split at hpay
                · next x hx =>
                  cases hpay
                  obtain ⟨h4, _⟩ := ensure_grows (fun _ => rfl) (fun _ => rfl) hps
                  rw [hn]
                  exact ⟨⟨x.name, rfl, x, hx, rfl⟩, h4⟩
                · cases hpay
          exact ⟨⟨⟨a, ha, rfl⟩, ⟨m, rfl, h1⟩, hp.1, rfl, rfl, rfl, rfl, rfl, rfl⟩, ⟨h3, hp.2, h2⟩⟩

theorem rulePostings_spec {env : Env} {t : Txn Posting} {p : Posting} (rps : List RawPosting)
    {l l' : Lists} {qs : List Posting} (h : rulePostings env t p rps l = .ok (qs, l')) :
    List.Forall₂ (Generated env l' t p) rps qs ∧ l.Grow env.lower l' := by
  induction rps generalizing l qs with
  | nil => cases h; exact ⟨.nil, .refl _ _⟩
  | cons rp rps ih =>
    unfold rulePostings at h
    split at h
    · cases h
    · next q l1 h1 =>
      split at h
      · cases h
      · next qs' l2 h2 =>
        cases h
        obtain ⟨a1, a2⟩ := rulePosting_spec h1
        obtain ⟨b1, b2⟩ := ih h2
        exact ⟨.cons (a1.grow b2) b1, a2.trans b2⟩

theorem SameUpToTags.refl (p : Posting) : SameUpToTags p p := ⟨rfl, List.prefix_rfl⟩

theorem SameUpToTags.trans {p q r : Posting} (h1 : SameUpToTags p q) (h2 : SameUpToTags q r) :
    SameUpToTags p r := by
  refine ⟨?_, h1.2.trans h2.2⟩
  rw [h2.1, h1.1]

theorem SameUpToTags.tag (p : Posting) (ts : List Tag) :
    SameUpToTags p { p with tags := p.tags ++ ts } := ⟨rfl, List.prefix_append _ _⟩

theorem seenAs_split {t : Txn Posting} {before done rest : List Posting} (ht : t.postings = before ++ rest)
    (hd : List.Forall₂ SameUpToTags before done) {p p' : Posting} {todo : List Posting}
    (hr : rest = p :: todo) (hp : SameUpToTags p p') :
    SeenAs t { t with postings := done ++ p' :: todo } := by
  refine ⟨rfl, ?_⟩
  show List.Forall₂ SameUpToTags t.postings (done ++ p' :: todo)
  rw [ht, hr]
  exact forall₂_append hd (.cons hp (forall₂_refl SameUpToTags.refl todo))

theorem RuleOn.same {env : Env} {l : Lists} {r : Txn RawPosting × Ast} {t : Txn Posting} {p : Posting}
    {x : Posting × List Posting} (h : RuleOn env l r t p x) : SameUpToTags p x.1 := by
  cases h with
  | notOwn _ => exact .refl p
  | unmatched _ _ _ => exact .refl p
  | matched _ _ _ _ h _ => subst h; exact .tag p _

theorem ruleLoop_spec {env : Env} {node : Ast} {rule : Txn RawPosting} {t : Txn Posting}
    (todo : List Posting) {before done extra ps ex : List Posting} {l l' : Lists}
    (ht : t.postings = before ++ todo) (hd : List.Forall₂ SameUpToTags before done)
    (h : ruleLoop env node rule t done todo extra l = .ok (ps, ex, l')) :
    l.Grow env.lower l' ∧ ∃ rows : List (Posting × List Posting),
      List.Forall₂ (RuleOn env l' (rule, node) t) todo rows ∧ ps = done ++ rows.map Prod.fst ∧
      ex = extra ++ rows.flatMap Prod.snd := by
  induction todo generalizing before done extra l with
  | nil => cases h; exact ⟨.refl _ _, [], .nil, by simp, by simp⟩
  | cons p todo ih =>
    unfold ruleLoop at h
    have ht' : t.postings = (before ++ [p]) ++ todo := by rw [ht]; simp
    split at h
    · next ho =>
      obtain ⟨g, rows, h1, h2, h3⟩ := ih ht' (forall₂_append hd (.cons (SameUpToTags.refl p) .nil)) h
      exact ⟨g, (p, []) :: rows, .cons (.notOwn ho) h1, by rw [h2]; simp, by rw [h3]; simp⟩
    · next ho =>
      have ho : p.origin = .fromTransaction := not_not.mp ho
      have hseen := seenAs_split ht hd rfl (SameUpToTags.refl p)
      split at h
      · cases h
      · next cs hf =>
        obtain ⟨g, rows, h1, h2, h3⟩ := ih ht' (forall₂_append hd (.cons (SameUpToTags.refl p) .nil)) h
        refine ⟨Lists.Grow.trans (b := { l with commodities := cs }) ⟨.refl _ _, .refl _ _, filterExpression_grows hf⟩ g,
          (p, []) :: rows, .cons (.unmatched ho hseen hf) h1, by rw [h2]; simp, by rw [h3]; simp⟩
      · next cs hf =>
        simp only at h
        split at h
        · cases h
        · next qs l1 hqs =>
          obtain ⟨b1, b2⟩ := rulePostings_spec _ hqs
          obtain ⟨g, rows, h1, h2, h3⟩ := ih ht' (forall₂_append hd (.cons (SameUpToTags.tag p _) .nil)) h
          have hseen' := seenAs_split (p' := { p with tags := p.tags ++ rule.comments.flatMap getTags })
            ht hd rfl (SameUpToTags.tag p _)
          refine ⟨Lists.Grow.trans (b := { l with commodities := cs }) ⟨.refl _ _, .refl _ _, filterExpression_grows hf⟩ (b2.trans g),
            (_, qs) :: rows, .cons (.matched ho hseen hseen' hf rfl
              (b1.imp (fun _ _ hg => hg.grow g))) h1, by rw [h2]; simp, by rw [h3]; simp⟩

theorem applyRules_spec {env : Env} (rules : List (Txn RawPosting × Ast)) {t t' : Txn Posting}
    {l l' : Lists} (h : applyRules env rules t l = .ok (t', l')) :
    RulesOn env l' rules t t' ∧ l.Grow env.lower l' := by
  induction rules generalizing t l with
  | nil => cases h; exact ⟨.nil, .refl _ _⟩
  | cons r rs ih =>
    unfold applyRules at h
    split at h
    · cases h
    · next t1 l1 h1 =>
      unfold applyRule at h1
      split at h1
      · cases h1
      · next ps ex l2 hl =>
        cases h1
        obtain ⟨g, rows, a1, a2, a3⟩ := ruleLoop_spec t.postings (before := []) rfl .nil hl
        obtain ⟨b1, b2⟩ := ih h
        rw [a2, a3] at b1
        exact ⟨.cons (a1.imp (fun _ _ hg => hg.grow b2)) (by simpa using b1), g.trans b2⟩

theorem automate_spec {env : Env} {rules : List (Txn RawPosting × Ast)} (ts : List (Txn Posting))
    {ts' : List (Txn Posting)} {l l' : Lists} (h : automate env rules ts l = .ok (ts', l')) :
    List.Forall₂ (RulesOn env l' rules) ts ts' ∧ l.Grow env.lower l' := by
  induction ts generalizing ts' l with
  | nil => cases h; exact ⟨.nil, .refl _ _⟩
  | cons t ts ih =>
    unfold automate at h
    split at h
    · cases h
    · next t1 l1 h1 =>
      split at h
      · cases h
      · next ts1 l2 h2 =>
        cases h
        obtain ⟨a1, a2⟩ := applyRules_spec rules h1
        obtain ⟨b1, b2⟩ := ih h2
        exact ⟨.cons (a1.grow b2) b1, a2.trans b2⟩

theorem ruleNodes_spec {env : Env} (autos : List (Txn RawPosting)) {rules : List (Txn RawPosting × Ast)}
    (h : ruleNodes env autos = .ok rules) : RuleNodes env autos rules := by
  induction autos generalizing rules with
  | nil => cases h; exact .nil
  | cons a autos ih =>
    unfold ruleNodes at h
    split at h
    · cases h
    · next n hn =>
      split at h
      · cases h
      · next ns hns => cases h; exact .cons ⟨rfl, hn⟩ (ih hns)

/-! ### Consequences -/

theorem ruleOn_generated {env : Env} {l : Lists} {r : Txn RawPosting × Ast} {t : Txn Posting}
    {gen : List Posting} {rows : List (Posting × List Posting)} (h : List.Forall₂ (RuleOn env l r t) gen rows)
    (hgen : ∀ q ∈ gen, q.origin ≠ .fromTransaction) : rows = gen.map (fun q => (q, [])) := by
  induction h with
  | nil => rfl
  | @cons q x qs xs hq _ ihq =>
    rw [List.map_cons, ← ihq (fun y hy => hgen y (by simp [hy]))]
    congr 1
    cases hq with
    | notOwn _ => rfl
    | unmatched h _ _ => exact absurd h (hgen q (by simp))
    | matched h _ _ _ _ _ => exact absurd h (hgen q (by simp))

theorem blockFor_back {env : Env} {l : Lists} {r : Txn RawPosting × Ast} {a b : List Posting}
    {c : List (List Posting)} (hab : List.Forall₂ SameUpToTags a b)
    (hbc : List.Forall₂ (BlockFor env l r) b c) : List.Forall₂ (BlockFor env l r) a c := by
  induction hab generalizing c with
  | nil => cases hbc; exact .nil
  | cons hp _ ih =>
    cases hbc with
    | cons hq hr =>
      refine .cons ?_ (ih hr)
      rcases hq with rfl | ⟨q1, u, p', q2, q3⟩
      · exact Or.inl rfl
      · refine Or.inr ⟨?_, u, p', hp.trans q2, q3⟩
        rw [hp.1] at q1; exact q1

/-- The journal's own postings stay in front; what follows was generated, rule by rule and posting by
posting, for own postings only. -/
theorem RulesOn.append {env : Env} {l : Lists} {rs : List (Txn RawPosting × Ast)} {t t' : Txn Posting}
    (h : RulesOn env l rs t t') : ∀ own gen, t.postings = own ++ gen →
    (∀ q ∈ gen, q.origin ≠ .fromTransaction) →
    ∃ own' blocks, t' = { t with postings := own' ++ (gen ++ blocks.flatMap List.flatten) } ∧
      List.Forall₂ SameUpToTags own own' ∧
      List.Forall₂ (fun r (row : List (List Posting)) => List.Forall₂ (BlockFor env l r) own row)
        rs blocks := by
  induction h with
  | @nil t =>
    intro own gen ho _
    exact ⟨own, [], by simp [← ho], forall₂_refl SameUpToTags.refl own, .nil⟩
  | @cons r rs t t' rows h1 _ ih =>
    intro own gen ho hgen
    rw [ho] at h1
    obtain ⟨rows1, rows2, hrows, f1, f2⟩ : ∃ rows1 rows2, rows = rows1 ++ rows2 ∧
        List.Forall₂ (RuleOn env l r t) own rows1 ∧ List.Forall₂ (RuleOn env l r t) gen rows2 :=
      ⟨rows.take own.length, rows.drop own.length, (List.take_append_drop _ _).symm,
        by simpa using List.forall₂_take own.length h1, by simpa using List.forall₂_drop own.length h1⟩
    subst hrows
    have hgen2 := ruleOn_generated f2 hgen
    subst hgen2
    have hblock : ∀ q ∈ rows1.flatMap Prod.snd, q.origin ≠ .fromTransaction := by
      intro q hq
      obtain ⟨x, hx, hqx⟩ := List.mem_flatMap.mp hq
      obtain ⟨p, _, hp⟩ := Forall₂.mem_right f1 hx
      cases hp with
      | notOwn _ => cases hqx
      | unmatched _ _ _ => cases hqx
      | matched _ _ _ _ _ hall =>
        obtain ⟨rp, _, hg⟩ := Forall₂.mem_right hall hqx
        rw [hg.rest.2.1]; decide
    obtain ⟨own', blocks, g1, g2, g3⟩ := ih (rows1.map Prod.fst) (gen ++ rows1.flatMap Prod.snd)
      (by simp [List.map_append, List.flatMap_append, List.flatMap_map, Function.comp_def])
      (by
        intro q hq
        rcases List.mem_append.mp hq with hq | hq
        · exact hgen q hq
        · exact hblock q hq)
    have hsame : List.Forall₂ SameUpToTags own (rows1.map Prod.fst) := by
      rw [List.forall₂_map_right_iff]; exact f1.imp (fun _ _ hh => hh.same)
    refine ⟨own', rows1.map Prod.snd :: blocks, ?_, ?_, .cons ?_ ?_⟩
    · rw [g1]; simp [List.flatMap_def]
    · exact forall₂_trans (R := SameUpToTags) (fun _ _ _ h1 h2 => h1.trans h2) hsame g2
    · rw [List.forall₂_map_right_iff]
      refine f1.imp ?_
      intro p x hx
      cases hx with
      | notOwn _ => exact Or.inl rfl
      | unmatched _ _ _ => exact Or.inl rfl
      | @matched u u' cs cs' p' block a1 _ _ _ a5 a6 =>
        exact Or.inr ⟨a1, u', p', by rw [a5]; exact .tag p _, a6⟩
    · exact g3.imp (fun r row hrow => blockFor_back hsame hrow)

/-! ### Used by the theorems on prices -/

theorem directivePrices_inv {env : Env} {cs : Commodities} (ps : List ParsedPrice) {prs : List Price}
    (h : directivePrices env cs ps = .ok prs) :
    List.Forall₂ (DirectivePrice env.lower cs) ps prs := by
  induction ps generalizing prs with
  | nil => cases h; exact .nil
  | cons p ps ih =>
    unfold directivePrices at h
    split at h
    · cases h
    · next c hc =>
      split at h
      · cases h
      · next d hd =>
        split at h
        · cases h
        · next rest hr =>
          cases h
          exact .cons ⟨rfl, commodity_finds hc, rfl, commodity_finds hd⟩ (ih hr)

theorem directivePrices_ok {env : Env} {cs : Commodities} (ps : List ParsedPrice)
    (h : ∀ p ∈ ps, (∃ n, Finds env.lower cs p.commodity n) ∧
      ∃ n, Finds env.lower cs p.otherCommodity n) : ∃ prs, directivePrices env cs ps = .ok prs := by
  induction ps with
  | nil => exact ⟨[], rfl⟩
  | cons p ps ih =>
    obtain ⟨⟨c, hc⟩, d, hd⟩ := h p (by simp)
    obtain ⟨prs, hp⟩ := ih (fun q hq => h q (by simp [hq]))
    unfold directivePrices
    rw [finds_commodity hc]; simp only
    rw [finds_commodity hd]; simp only
    rw [hp]
    exact ⟨_, rfl⟩

theorem convertTxn_ok {env : Env} {s : Shuf} {l : Lists} {t : Txn RawPosting}
    (h : ∀ p ∈ t.postings, ∃ r, convertPosting env s l t (t.comments.flatMap getTags) p = .ok r) :
    ∃ r, Converts env s l t r := by
  unfold Converts convertTxn
  obtain ⟨⟨ps, prs⟩, hr⟩ := convertPostings_ok _ h
  rw [hr]
  simp only
  obtain ⟨rs, h1, h2, _⟩ := convertPostings_inv _ hr
  have hc : ∀ p ∈ ps, p.CostOk := by
    intro p hp
    rw [h2] at hp
    obtain ⟨r, hr, rfl⟩ := List.mem_map.mp hp
    obtain ⟨_, _, hcv⟩ := Forall₂.mem_right h1 hr
    exact hcv.costOk
  obtain ⟨b, hb⟩ := isBalanced_ok (t :=
    { date := t.date, effectiveDate := t.effectiveDate, description := t.description, postings := ps,
      comments := t.comments, ttype := .real, tags := t.comments.flatMap getTags }) hc
  rw [hb]
  cases b <;> exact ⟨_, rfl⟩

theorem forall₂_flatMap {α β γ δ : Type} {R : α → β → Prop} {S : γ → δ → Prop} {f : α → List γ}
    {g : β → List δ} {x : List α} {y : List β} (h : List.Forall₂ R x y)
    (hfg : ∀ a b, R a b → List.Forall₂ S (f a) (g b)) : List.Forall₂ S (x.flatMap f) (y.flatMap g) := by
  induction h with
  | nil => exact .nil
  | cons h _ ih => rw [List.flatMap_cons, List.flatMap_cons]; exact forall₂_append (hfg _ _ h) ih

theorem costs_forall₂ {env : Env} {s : Shuf} {l : Lists} {ts : List (Txn RawPosting)}
    {rs : List (Txn Posting × List Price)} (h : List.Forall₂ (Converts env s l) ts rs) :
    List.Forall₂ (fun (c : Option Date × RawPosting) pr => CostPrice env.lower l.commodities c.1 c.2 pr)
      (ts.flatMap (fun t => (t.postings.filter (fun p => p.costCurrency.isSome)).map (fun p => (t.date, p))))
      (rs.flatMap Prod.snd) := by
  refine forall₂_flatMap h ?_
  intro t r hr
  obtain ⟨qs, h1, h2, h3⟩ := convertTxn_postings (t := r.1) (prs := r.2) hr
  rw [h3, List.forall₂_map_left_iff]
  clear h2 h3 hr
  generalize t.postings = ps at h1
  induction h1 with
  | nil => exact .nil
  | @cons p q ps qs hpq _ ih =>
    rcases hpq.cost with ⟨c1, _, c3⟩ | ⟨cost, pr, c1, _, c3, _, c5⟩
    · rw [List.filter_cons_of_neg (by simp [c1]), List.filterMap_cons_none c3]; exact ih
    · rw [List.filter_cons_of_pos (by simpa using c1), List.filterMap_cons_some c3]
      exact .cons c5.price ih

theorem balanceAll_costOk {skip : Bool} (ts : List (Txn Posting)) {σ : Nat → Shuf} {bals bals' : Balances}
    {rs : List (Txn Posting × Balance)} (hb : bals.Ok) (hp : ∀ t ∈ ts, ∀ p ∈ t.postings, p.CostOk)
    (h : balanceAll skip σ bals ts = .ok (bals', rs)) :
    ∀ t ∈ rs.map Prod.fst, ∀ p ∈ t.postings, p.CostOk := by
  induction ts generalizing σ bals rs with
  | nil => cases h; intro t ht; cases ht
  | cons t ts ih =>
    unfold balanceAll at h
    split at h
    · cases h
    · next b1 t1 r1 h1 =>
      split at h
      · cases h
      · next b2 rest h2 =>
        cases h
        obtain ⟨res, gen, hB⟩ := balance_spec h1 hb (hp t (by simp))
        intro u hu
        rcases List.mem_cons.mp hu with rfl | hu
        · exact hB.costOk (hp t (by simp))
        · exact ih hB.balsOk (fun x hx => hp x (by simp [hx])) h2 u hu

theorem RulesOn.costOk {env : Env} {l : Lists} {rs : List (Txn RawPosting × Ast)} {t t' : Txn Posting}
    (h : RulesOn env l rs t t') (hp : ∀ p ∈ t.postings, p.CostOk) : ∀ p ∈ t'.postings, p.CostOk := by
  induction h with
  | nil => exact hp
  | @cons r rs t t' rows h1 _ ih =>
    apply ih
    intro q hq
    rcases List.mem_append.mp hq with hq | hq
    · obtain ⟨x, hx, rfl⟩ := List.mem_map.mp hq
      obtain ⟨p, hpm, hr⟩ := Forall₂.mem_right h1 hx
      have := hp p hpm
      rw [hr.same.1]
      exact this
    · obtain ⟨x, hx, hqx⟩ := List.mem_flatMap.mp hq
      obtain ⟨p, hpm, hr⟩ := Forall₂.mem_right h1 hx
      cases hr with
      | notOwn _ => cases hqx
      | unmatched _ _ _ => cases hqx
      | matched _ _ _ _ _ hall =>
        obtain ⟨rp, _, hg⟩ := Forall₂.mem_right hall hqx
        unfold Posting.CostOk
        rw [hg.rest.2.2.1]
        trivial

/-! ### Postings as written -/

theorem isUnknown_iff {env : Env} {a : Str} : isUnknown env a = true ↔ EndsUnknown env a :=
  List.isSuffixOf_iff_suffix

theorem postingAccount_spec {env : Env} {s : Shuf} {accounts : NList AccountDef} {account payee a : Str}
    (h : postingAccount env s accounts account payee = .ok a) :
    AccountFor env accounts account payee a := by
  unfold postingAccount at h
  by_cases hu : isUnknown env account = true
  · rw [if_pos hu] at h
    rcases redirect_spec (env := env) (s := s) (accounts := accounts) (payee := payee) with
      ⟨h1, h2⟩ | ⟨k, x, h1, h2, h3⟩
    · rw [h1] at h
      simp only at h
      split at h
      · next y hy => cases h; exact Or.inr ⟨fun _ k x hx => h2 (k, x) hx, y, hy, rfl⟩
      · cases h
    · rw [h3] at h
      cases h
      exact Or.inl ⟨isUnknown_iff.mp hu, k, x, h1, h2, rfl⟩
  · rw [if_neg hu] at h
    simp only at h
    split at h
    · next y hy => cases h; exact Or.inr ⟨fun hn => absurd (isUnknown_iff.mpr hn) hu, y, hy, rfl⟩
    · cases h

theorem ConvertedPosting.written {env : Env} {s : Shuf} {l : Lists} {raw : Txn RawPosting}
    {p : RawPosting} {q : Posting} {pr : Option Price}
    (h : ConvertedPosting env s l raw (raw.comments.flatMap getTags) p q pr) :
    WrittenAs env l raw p q := by
  refine ⟨?_, rawMoney_inv h.amount, rawMoney_inv h.balance, ?_, h.kind, h.tags, h.origin⟩
  · obtain ⟨n, h1, h2, h3⟩ := h.payee
    refine ⟨n, h1, ?_, postingAccount_spec h3⟩
    unfold postingPayee at h2
    split at h2
    · next hp =>
      split at h2
      · next x hx => cases h2; rw [hp]; exact ⟨x, hx, rfl⟩
      · cases h2
    · next m hp =>
      split at h2
      · next x hx => cases h2; rw [hp]; exact ⟨x, hx, rfl⟩
      · cases h2
  · rcases h.cost with ⟨h1, h2, _⟩ | ⟨cost, price, h1, h2, _, _, h5⟩
    · exact Or.inl ⟨h1, h2⟩
    · right
      obtain ⟨c, c1, c2⟩ := h5.price.cur
      obtain ⟨x, x1, x2⟩ := h5.cost
      refine ⟨c, price.cur, x, c1, x1, c2, ?_⟩
      rcases x2 with ⟨y1, y2⟩ | ⟨y1, y2⟩
      · exact Or.inl ⟨y1, by rw [h2, y2]⟩
      · exact Or.inr ⟨y1, by rw [h2, y2]⟩

/-- What building a ledger does before automated transactions. -/
theorem buildLedger_booked {env : Env} {o : LedgerOrders} {skip : Bool} {pl : ParsedLedger} {l : Lists}
    {L : Ledger} (h : buildLedger env o skip pl l = .ok L) :
    ∃ listed converted booked bals rs, DateOrder pl.regular listed ∧
      List.Forall₂ (fun raw t => t.header = raw.header ∧ t.ttype = .real ∧
        List.Forall₂ (WrittenAs env l raw) raw.postings t.postings) listed converted ∧
      (∀ t ∈ converted, ∀ p ∈ t.postings, p.CostOk) ∧
      balanceAll skip o.fill (initialBalances l.accounts) converted = .ok (bals, rs) ∧
      booked = rs.map Prod.fst ∧
      (pl.automated = [] → L.transactions = booked ∧ L.accounts = l.accounts ∧ L.payees = l.payees ∧
        L.commodities = l.commodities) ∧
      (∃ L0, buildLedger env o skip { pl with transactions := pl.regular } l = .ok L0 ∧
        L0.transactions = booked) ∧
      (pl.automated ≠ [] → ∃ rules applied, l.Grow env.lower ⟨L.accounts, L.payees, L.commodities⟩ ∧
        RuleNodes env pl.automated rules ∧
        List.Forall₂ (RulesOn env ⟨L.accounts, L.payees, L.commodities⟩ rules) booked applied ∧
        (∀ t ∈ applied, ∀ p ∈ t.postings, p.CostOk) ∧
        ∃ bals' rs', balanceAll skip o.fill2 (initialBalances L.accounts) applied = .ok (bals', rs') ∧
          L.transactions = rs'.map Prod.fst) := by
  obtain ⟨dp, txns, autos, cp, sorted, ts, ip, ts', ap, l', hd, hc, hs, hbp, hap, rfl⟩ :=
    buildLedger_inv h
  obtain ⟨hconv, heq⟩ := convertAll_eq hc
  simp only [Prod.mk.injEq] at heq
  obtain ⟨rfl, rfl, rfl⟩ := heq
  obtain ⟨hdate, rfl⟩ := sortByDate_inv hs
  have hreg : ∀ t ∈ pl.regular, Converts env o.unknown l t (convOf env o.unknown l t) := by
    intro t ht
    have hm := List.mem_filter.mp ht
    obtain ⟨r, hr⟩ := hconv t hm.1 (by simpa using hm.2)
    rw [← converts_convOf hr]; exact hr
  have hdates : ∀ t ∈ pl.regular, t.date.isSome := by
    intro t ht
    have := hdate _ (List.mem_map.mpr ⟨t, ht, rfl⟩)
    rwa [convOf_date (hreg t ht)] at this
  have hsm : sortBy dateLe ((pl.transactions.filter (fun t => t.ttype = .real)).map
      (fun t => (convOf env o.unknown l t).1)) =
      (sortBy dateLe pl.regular).map (fun t => (convOf env o.unknown l t).1) := by
    apply sortBy_map
    intro a ha b hb
    unfold dateLe
    rw [convOf_date (hreg a ha), convOf_date (hreg b hb)]
  rw [hsm] at hbp
  have hcost : ∀ t ∈ (sortBy dateLe pl.regular).map (fun t => (convOf env o.unknown l t).1),
      ∀ p ∈ t.postings, p.CostOk := by
    intro t ht
    obtain ⟨raw, hraw, rfl⟩ := List.mem_map.mp ht
    exact fun p hp => (convertTxn_costOk (hreg raw ((mem_sortBy _ _ _).mp hraw)) p hp).1
  obtain ⟨rates, hr1, hr2, bals', rs1, hr3, hr4⟩ :=
    balancePass_spec _ (initialBalances_ok l.accounts) hcost hbp
  refine ⟨sortBy dateLe pl.regular, _, ts, bals', rs1, dateOrder_sortBy hdates, ?_, hcost, hr3, hr4,
    ?_, ?_, ?_⟩
  · rw [List.forall₂_map_right_iff]
    rw [List.forall₂_same]
    intro raw hraw
    have hcv := hreg raw ((mem_sortBy _ _ _).mp hraw)
    obtain ⟨ps, _, i2, _, i4, _⟩ :=
      convertTxn_inv (t := (convOf env o.unknown l raw).1) (prs := (convOf env o.unknown l raw).2) hcv
    obtain ⟨qs, j1, j2, _⟩ := convertTxn_postings (t := (convOf env o.unknown l raw).1)
      (prs := (convOf env o.unknown l raw).2) hcv
    refine ⟨i2, i4, ?_⟩
    rw [j2, List.forall₂_map_right_iff]
    exact j1.imp (fun _ _ hh => hh.written)
  · intro hnil
    rw [show pl.transactions.filter (fun t => t.ttype = .automated) = [] from hnil] at hap
    cases hap
    exact ⟨rfl, rfl, rfl, rfl⟩
  · have hrr : (pl.regular).filter (fun t => t.ttype = .real) = pl.regular := by
      unfold ParsedLedger.regular; rw [List.filter_filter]; simp
    have hra : (pl.regular).filter (fun t => t.ttype = .automated) = [] := by
      rw [List.filter_eq_nil_iff]
      intro t ht hh
      have := (List.mem_filter.mp ht).2
      simp only [decide_eq_true_eq] at this hh
      rw [this] at hh; cases hh
    refine ⟨{ accounts := l.accounts, commodities := l.commodities, transactions := ts,
              prices := dp ++ pl.regular.flatMap (fun t => (convOf env o.unknown l t).2) ++ ip ++ [],
              payees := l.payees }, ?_, rfl⟩
    unfold buildLedger
    simp only
    rw [hd]
    simp only
    rw [convertAll_of pl.regular (fun t ht _ => ⟨_, hreg t ht⟩), hrr, hra]
    simp only
    have hs' : sortByDate (pl.regular.map (fun t => (convOf env o.unknown l t).1)) = .ok _ := hs
    rw [hs']
    simp only
    have hsm' : sortBy dateLe (pl.regular.map
      (fun t => (convOf env o.unknown l t).1)) =
      (sortBy dateLe pl.regular).map (fun t => (convOf env o.unknown l t).1) := hsm
    have := hbp
    rw [← hsm'] at this
    rw [show sortBy dateLe ((pl.transactions.filter (fun t => t.ttype = .real)).map
      (fun t => (convOf env o.unknown l t).1)) = sortBy dateLe (pl.regular.map
      (fun t => (convOf env o.unknown l t).1)) from rfl, this]
    simp only
    unfold automatedPass
    rw [if_neg (by simp)]
  · intro hne
    unfold automatedPass at hap
    rw [if_pos (by exact List.length_pos_iff.mpr hne)] at hap
    split at hap
    · cases hap
    · next rules hru =>
      split at hap
      · cases hap
      · next ts1 l1 hau =>
        split at hap
        · cases hap
        · next ts2 prs2 hbp2 =>
          cases hap
          have hcost1 : ∀ t ∈ ts, ∀ p ∈ t.postings, p.CostOk := by
            rw [hr4]; exact balanceAll_costOk _ (initialBalances_ok l.accounts) hcost hr3
          have hcost2 : ∀ t ∈ ts1, ∀ p ∈ t.postings, p.CostOk := by
            intro t ht
            obtain ⟨t0, ht0, hR⟩ := Forall₂.mem_right (automate_spec _ hau).1 ht
            exact hR.costOk (hcost1 t0 ht0)
          obtain ⟨rates2, _, _, q3⟩ := balancePass_spec _ (initialBalances_ok _) hcost2 hbp2
          exact ⟨rules, ts1, (automate_spec _ hau).2, ruleNodes_spec _ hru, (automate_spec _ hau).1, hcost2, q3⟩

theorem balanceAll_origin {skip : Bool} (ts : List (Txn Posting)) {σ : Nat → Shuf} {bals bals' : Balances}
    {rs : List (Txn Posting × Balance)} (hb : bals.Ok) (hp : ∀ t ∈ ts, ∀ p ∈ t.postings, p.CostOk)
    (ho : ∀ t ∈ ts, ∀ p ∈ t.postings, p.origin = .fromTransaction)
    (h : balanceAll skip σ bals ts = .ok (bals', rs)) :
    ∀ t ∈ rs.map Prod.fst, ∀ p ∈ t.postings, p.origin = .fromTransaction := by
  induction ts generalizing σ bals rs with
  | nil => cases h; intro t ht; cases ht
  | cons t ts ih =>
    unfold balanceAll at h
    split at h
    · cases h
    · next b1 t1 r1 h1 =>
      split at h
      · cases h
      · next b2 rest h2 =>
        cases h
        obtain ⟨res, gen, hB⟩ := balance_spec h1 hb (hp t (by simp))
        intro u hu
        rcases List.mem_cons.mp hu with rfl | hu
        · intro p hpm
          by_cases hk : p.kind = .real
          · exact (hB.allAmounts p hpm hk).2.2
          · have hpm' := hpm
            rw [hB.postings] at hpm'
            simp only [List.mem_append] at hpm'
            rcases hpm' with hpm' | hpm'
            · have : p ∈ (u.postings.filter (fun p => p.kind = .real)) := by
                rw [hB.reals]; exact List.mem_append.mpr hpm'
              exact absurd (by simpa using (List.mem_filter.mp this).2) hk
            · exact ho t (by simp) p (List.mem_filter.mp hpm').1
        · exact ih hB.balsOk (fun x hx => hp x (by simp [hx])) (fun x hx => ho x (by simp [hx])) h2 u hu

end Dinero
