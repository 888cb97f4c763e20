import Verif.Props.App
/-
Property theorems about the lists the program writes (C106).
-/
namespace Dinero

/-! ### C106: the lists can be read back -/

theorem rows_lines {rows : List Str} (h : ∀ r ∈ rows, '\n' ∉ r) :
    rowsFrom [] (rows.flatMap (fun r => r ++ ['\n'])) = rows := by
  induction rows with
  | nil => rfl
  | cons r rows ih =>
    rw [List.flatMap_cons, List.append_assoc, List.singleton_append, rowsFrom_row (h r (by simp)),
      ih (fun r hr => h r (by simp [hr]))]
    rfl

theorem padZero_blank (w n : Nat) : ' ' ∉ padZero w n := by
  intro h
  exact absurd ((isDigits_padZero w n).2 _ h) (by decide)

theorem isoDate_blank (n : Date) : ' ' ∉ isoDate n := by
  unfold isoDate
  simp only
  have h := padZero_blank
  split
  · simp [h]
  · split <;> simp [h]

theorem priceFields_row {a b c : Str} (ha : ' ' ∉ a) (hb : ' ' ∉ b) : priceFields (a ++ ' ' :: b ++ ' ' :: c) = (a, b, c) := by
  have t1 : ∀ {x y : Str}, ' ' ∉ x → (x ++ ' ' :: y).takeWhile (· ≠ ' ') = x ∧ (x ++ ' ' :: y).dropWhile (· ≠ ' ') = ' ' :: y := by
    intro x y hx
    induction x with
    | nil => simp
    | cons z x ih =>
      simp only [List.mem_cons, not_or] at hx
      have hz : z ≠ ' ' := fun e => hx.1 e.symm
      have := ih hx.2
      simp only [ne_eq, decide_not] at this ⊢
      simp [hz, this]
  unfold priceFields
  rw [List.append_assoc, List.cons_append, (t1 ha).1, (t1 ha).2]
  simp only [List.drop_succ_cons, List.drop_zero, (t1 hb).1, (t1 hb).2]

/-- The names a list command prints are the lines of what it prints. -/
theorem C106_list {names : List Str} (h : ∀ n ∈ names, '\n' ∉ n) : rowsFrom [] (listText names) = names := rows_lines h

/-- The prices that `prices` prints can be read back: the date, the commodity and the amount. -/
theorem C106_prices {prices : List (Date × Cur × Money)} (h : ∀ p ∈ prices, ' ' ∉ p.2.1 ∧ '\n' ∉ p.2.1)
    (hm : ∀ p ∈ prices, ∀ q c, p.2.2 = .mk q c → '\n' ∉ c) :
    (rowsFrom [] (pricesText prices)).map priceFields = prices.map (fun p => (isoDate p.1, p.2.1, p.2.2.shown)) := by
  have e : pricesText prices =
      (prices.map (fun p => isoDate p.1 ++ ' ' :: p.2.1 ++ ' ' :: p.2.2.shown)).flatMap (fun r => r ++ ['\n']) := by
    unfold pricesText
    rw [List.flatMap_map]
  rw [e, rows_lines, List.map_map]
  · apply List.map_congr_left
    intro p hp
    exact priceFields_row (isoDate_blank p.1) (h p hp).1
  · intro r hr
    obtain ⟨p, hp, rfl⟩ := List.mem_map.mp hr
    have h1 := isoDate_nl p.1
    have h2 := shown_nl (hm p hp)
    simp [h1, h2, (h p hp).2]

theorem outcomeOf_ok {α : Type} {text : α → Str} {o : Str} {x : PRes α} {out : Str}
    (h : outcomeOf text o x = some ⟨0, some out⟩) : ∃ a, x = .ok a ∧ out = text a := by
  cases x with
  | ok a => cases h; exact ⟨a, rfl, rfl⟩
  | error e =>
    cases e with
    | fuel => cases h
    | fail f => cases f <;> cases h

/-- What the program writes for `accounts`, read line by line: in order, every declared account, and the used ones that
are not declared, once each (in one of the spellings that differ in case only). -/
theorem C106_accounts {w : World} {args : List Str} {i : Invocation} {pl : ParsedLedger} {out : Str}
    (h : Invokes w args i) (hi : i.command = .accounts) (hj : w.run.journal i.file = .ok pl) (ha : pl.automated = [])
    (hnl : ∀ n, (Lists? pl.lists.accounts n ∨ pl.usesAccount n) → '\n' ∉ n) (hp : Prints w args out) :
    (rowsFrom [] out).Pairwise (· < ·) ∧ (∀ n, Lists? pl.lists.accounts n → n ∈ rowsFrom [] out) ∧
      (∀ n ∈ rowsFrom [] out, Lists? pl.lists.accounts n ∨
        pl.usesAccount n ∧ ¬ Declared w.run.env.lower pl.lists.accounts n) ∧
      ∀ n, pl.usesAccount n → ¬ Declared w.run.env.lower pl.lists.accounts n →
        ∃ m ∈ rowsFrom [] out, pl.usesAccount m ∧ w.run.env.lower m = w.run.env.lower n := by
  unfold Prints at hp
  rw [program_of h] at hp
  unfold runCommand at hp
  rw [hi] at hp
  obtain ⟨as, h1, rfl⟩ := outcomeOf_ok hp
  cases hl : w.run.ledger i.skip i.file with
  | error e => unfold accountsCommand at h1; rw [hl] at h1; cases h1
  | ok L =>
    obtain ⟨c1, _, _, c2, _, _, c3, _, _, c4, _⟩ := C88_lists hj ha h1 (s := w.list)
      (ps := listCommand w.list L.payees) (cs := listCommand w.list L.commodities)
      (by unfold payeesCommand; rw [hl]; rfl) (by unfold commoditiesCommand; rw [hl]; rfl)
    rw [C106_list (fun n hn => hnl n ((c3 n hn).imp id And.left))]
    exact ⟨c1, c2, c3, c4⟩

/-- The same for `commodities`. -/
theorem C106_commodities {w : World} {args : List Str} {i : Invocation} {pl : ParsedLedger} {out : Str}
    (h : Invokes w args i) (hi : i.command = .commodities) (hj : w.run.journal i.file = .ok pl) (ha : pl.automated = [])
    (hnl : ∀ n, (Lists? pl.lists.commodities n ∨ pl.usesCommodity n) → '\n' ∉ n) (hp : Prints w args out) :
    (rowsFrom [] out).Pairwise (· < ·) ∧ (∀ n, Lists? pl.lists.commodities n → n ∈ rowsFrom [] out) ∧
      (∀ n ∈ rowsFrom [] out, Lists? pl.lists.commodities n ∨
        pl.usesCommodity n ∧ ¬ Declared w.run.env.lower pl.lists.commodities n) ∧
      ∀ n, pl.usesCommodity n → ¬ Declared w.run.env.lower pl.lists.commodities n →
        ∃ m ∈ rowsFrom [] out, pl.usesCommodity m ∧ w.run.env.lower m = w.run.env.lower n := by
  unfold Prints at hp
  rw [program_of h] at hp
  unfold runCommand at hp
  rw [hi] at hp
  obtain ⟨cs, h1, rfl⟩ := outcomeOf_ok hp
  cases hl : w.run.ledger i.skip i.file with
  | error e => unfold commoditiesCommand at h1; rw [hl] at h1; cases h1
  | ok L =>
    obtain ⟨_, _, c1, _, _, c2, _, _, c3, _, c4, _⟩ := C88_lists hj ha (s := w.list)
      (as := listCommand w.list L.accounts) (ps := listCommand w.list L.payees)
      (by unfold accountsCommand; rw [hl]; rfl) (by unfold payeesCommand; rw [hl]; rfl) h1
    rw [C106_list (fun n hn => hnl n ((c3 n hn).imp id And.left))]
    exact ⟨c1, c2, c3, c4⟩

/-- The same for `payees`, where a used name can also be taken by a pattern. -/
theorem C106_payees {w : World} {args : List Str} {i : Invocation} {pl : ParsedLedger} {out : Str}
    (h : Invokes w args i) (hi : i.command = .payees) (hj : w.run.journal i.file = .ok pl) (ha : pl.automated = [])
    (hnl : ∀ n, (Lists? pl.lists.payees n ∨ pl.usesPayee n) → '\n' ∉ n) (hp : Prints w args out) :
    (rowsFrom [] out).Pairwise (· < ·) ∧ (∀ n, Lists? pl.lists.payees n → n ∈ rowsFrom [] out) ∧
      (∀ n ∈ rowsFrom [] out, Lists? pl.lists.payees n ∨ pl.usesPayee n ∧
        ¬ Declared w.run.env.lower pl.lists.payees n ∧ ∀ p, ¬ Matches w.run.env pl.lists.payees p n) ∧
      ∀ n, pl.usesPayee n → ¬ Declared w.run.env.lower pl.lists.payees n →
        ∃ m, pl.usesPayee m ∧ w.run.env.lower m = w.run.env.lower n ∧
          (m ∈ rowsFrom [] out ∨ ∃ p, Matches w.run.env pl.lists.payees p m) := by
  unfold Prints at hp
  rw [program_of h] at hp
  unfold runCommand at hp
  rw [hi] at hp
  obtain ⟨ps, h1, rfl⟩ := outcomeOf_ok hp
  cases hl : w.run.ledger i.skip i.file with
  | error e => unfold payeesCommand at h1; rw [hl] at h1; cases h1
  | ok L =>
    obtain ⟨_, c1, _, _, c2, _, _, c3, _, _, _, c4⟩ := C88_lists hj ha (s := w.list)
      (as := listCommand w.list L.accounts) (cs := listCommand w.list L.commodities)
      (by unfold accountsCommand; rw [hl]; rfl) h1 (by unfold commoditiesCommand; rw [hl]; rfl)
    rw [C106_list (fun n hn => hnl n ((c3 n hn).imp id And.left))]
    exact ⟨c1, c2, c3, c4⟩

/-- What the program writes for `prices` is, line by line, what the command finds. -/
theorem C106_prices_command {w : World} {args : List Str} {i : Invocation} {out : Str} (h : Invokes w args i)
    (hi : i.command = .prices) (hp : Prints w args out) :
    ∃ prices, pricesCommand w.run i.skip i.file = .ok prices ∧
      ((∀ p ∈ prices, ' ' ∉ p.2.1 ∧ '\n' ∉ p.2.1) → (∀ p ∈ prices, ∀ q c, p.2.2 = .mk q c → '\n' ∉ c) →
        (rowsFrom [] out).map priceFields = prices.map (fun p => (isoDate p.1, p.2.1, p.2.2.shown))) := by
  unfold Prints at hp
  rw [program_of h] at hp
  unfold runCommand at hp
  rw [hi] at hp
  obtain ⟨ps, h1, rfl⟩ := outcomeOf_ok hp
  exact ⟨ps, h1, C106_prices⟩

example : (program (exWorld (exRun exText) { command := .accounts, file := "main".toList }) (exArgs [])).map Outcome.out =
      some (some "Cash\nFood\nStock\n".toList) ∧
    (program (exWorld (exRun exText) { command := .payees, file := "main".toList }) (exArgs [])).map Outcome.out =
      some (some "Bar\nBroker\n".toList) ∧
    rowsFrom [] "Cash\nFood\nStock\n".toList = ["Cash".toList, "Food".toList, "Stock".toList] ∧
    (rowsFrom [] "2020-01-05 ACME 5.00 EUR\n".toList).map priceFields =
      [("2020-01-05".toList, "ACME".toList, "5.00 EUR".toList)] := by decide +kernel

end Dinero
