import Verif.Lemmas.Comment
/-
Theorems on the tags of comments: C67.
-/
namespace Dinero

theorem WritesValue.noFlags {line name value : Str} (h : WritesValue line name value) :
    ∀ flags, ¬ WritesFlags line flags := by
  rintro flags ⟨_, h1, h2, head, n, _, he⟩
  obtain ⟨hn, hv, _, _, a, b, he'⟩ := h
  have c1 : line.count ':' = 1 := by
    rw [he']
    simp [List.count_append, List.count_eq_zero.mpr hn, List.count_eq_zero.mpr hv,
      List.count_replicate]
  have c2 : 2 ≤ line.count ':' := by
    rw [he]
    cases flags with
    | nil => exact absurd rfl h1
    | cons t l =>
      simp only [List.count_append, List.flatMap_cons, List.count_cons_self]
      omega
  omega

/-- **C67 (partial)**: a comment line has exactly the tags it writes: flags between colons at its end; or
a name and a value around its only colon; or none.  `pre` are the earlier lines of the comment, if
any.  Missing from C67: a value with a colon in it is not found, see `C67_false`. -/
theorem C67_partial {pre line : Str} (hp : pre = [] ∨ pre.getLast? = some '\n')
    (hl : '\n' ∉ line) (tags : List Tag) : getTags (pre ++ line) = tags ↔ HasTags line tags := by
  have hall : HasTags line (getTags (pre ++ line)) := by
    unfold getTags
    split
    · next v hv =>
      obtain ⟨flags, hf⟩ := of_flagsCapture hp hl hv
      rw [flagsCapture_of hp hl hf] at hv
      obtain rfl := Option.some.inj hv
      rw [splitColon_colon, splitColon_flags hf.1]
      rw [List.map_cons, List.map_append, ← List.cons_append]
      simp only [List.map_cons, List.map_nil, List.dropLast_concat]
      exact HasTags.flags hf
    · next hv =>
      have hno : ∀ flags, ¬ WritesFlags line flags := by
        intro flags hf; rw [flagsCapture_of hp hl hf] at hv; cases hv
      by_cases hc : ':' ∈ line
      · obtain ⟨a, b, rfl, hb⟩ := cut_last hc
        rw [tagCapture_eq hp hl hb]
        simp only
        obtain ⟨m, ha1, ha2⟩ := exists_spaces a
        obtain ⟨n, hb1, hb2⟩ := exists_spaces b
        split
        · next hcol =>
          refine .none hno ?_
          rintro name value ⟨hn, hv', _, _, i, j, he⟩
          have c1 : (a ++ ':' :: b).count ':' = 1 := by
            rw [he]
            simp [List.count_append, List.count_eq_zero.mpr hn,
              List.count_eq_zero.mpr hv', List.count_replicate]
          have ca : ':' ∈ a := by rw [ha1]; exact List.mem_append_right _ hcol
          have := List.count_pos_iff.mpr ca
          rw [List.count_append, List.count_cons_self] at c1
          omega
        · next hcol =>
          refine .value ⟨hcol, ?_, ha2, hb2, m, n, ?_⟩
          · intro h; apply hb; rw [hb1]; exact List.mem_append_right _ h
          · rw [← ha1, ← hb1]
      · rw [tagCapture_none hp hl hc]
        refine .none hno ?_
        rintro name value ⟨_, _, _, _, i, j, he⟩
        exact hc (by rw [he]; simp)
  constructor
  · rintro rfl; exact hall
  · intro h
    -- the specification is single-valued
    have uniq : ∀ t1 t2, HasTags line t1 → HasTags line t2 → t1 = t2 := by
      intro t1 t2 h1 h2
      have flagsEq : ∀ f1 f2, WritesFlags line f1 → WritesFlags line f2 → f1 = f2 := by
        intro f1 f2 hf1 hf2
        have e := (flagsCapture_of hp hl hf1).symm.trans (flagsCapture_of hp hl hf2)
        have e' := congrArg splitColon (Option.some.inj e)
        rw [splitColon_colon, splitColon_colon, splitColon_flags hf1.1, splitColon_flags hf2.1] at e'
        exact List.append_cancel_right (List.cons.inj e').2
      have valEq : ∀ n1 v1 n2 v2, WritesValue line n1 v1 → WritesValue line n2 v2 → n1 = n2 ∧ v1 = v2 := by
        have key : ∀ n v, WritesValue line n v → tagCapture (pre ++ line) = some (n, v) := by
          rintro n v ⟨hn, hv, hn', hv', i, j, he⟩
          rw [he] at hl ⊢
          rw [tagCapture_eq hp hl (by simp [hv, List.mem_replicate]), dropSpaces _ hn', dropSpaces _ hv']
        intro n1 v1 n2 v2 hw1 hw2
        have := (key _ _ hw1).symm.trans (key _ _ hw2)
        simpa using this
      cases h1 with
      | flags hf1 =>
        cases h2 with
        | flags hf2 => rw [flagsEq _ _ hf1 hf2]
        | value hw => exact absurd hf1 (hw.noFlags _)
        | none hno _ => exact absurd hf1 (hno _)
      | value hw1 =>
        cases h2 with
        | flags hf2 => exact absurd hf2 (hw1.noFlags _)
        | value hw2 => obtain ⟨rfl, rfl⟩ := valEq _ _ _ _ hw1 hw2; rfl
        | none _ hno => exact absurd hw1 (hno _ _)
      | none hno hno' =>
        cases h2 with
        | flags hf2 => exact absurd hf2 (hno _)
        | value hw2 => exact absurd hw2 (hno' _ _)
        | none _ _ => rfl
    exact uniq _ _ hall h

/-- `paid by card  :food:fun: ` has the flags `food` and `fun`. -/
example : WritesFlags "paid by card  :food:fun: ".toList ["food".toList, "fun".toList] :=
  ⟨by decide +kernel, by decide, by decide, "paid by card  ".toList, 1, by decide +kernel,
    by decide +kernel⟩

/-- `  Payee:  The shop` has the tag `Payee` with a value. -/
example : WritesValue "  Payee:  The shop".toList "Payee".toList "The shop".toList :=
  ⟨by decide +kernel, by decide +kernel, by decide +kernel, by decide +kernel, 2, 2, by decide +kernel⟩

/-- **C67 is false as stated**: `name: value` yields nothing if the value has a colon, so a web address or
a time of day cannot be tagged. -/
theorem C67_false : ∃ name value : Str, ':' ∉ name ∧
    getTags (name ++ ':' :: ' ' :: value) = [] :=
  ⟨"url".toList, "http://x.y/z".toList, by decide +kernel, by decide +kernel⟩

/-- Blanks around a value: those before it are dropped, those after it are kept, although the expression
has ` *` on both sides. -/
theorem C67_trailing : getTags "a: b ".toList = [⟨"a".toList, some "b ".toList⟩] := by decide +kernel

end Dinero
