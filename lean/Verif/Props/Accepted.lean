import Verif.Lemmas.Accepted
import Verif.Props.Commands
/-
Property theorems about what a journal that is accepted says (C130).
-/
namespace Dinero

/-! ### C130: nothing in an accepted journal is ignored -/

/-- Whatever journal is accepted, what is read is what its characters stand for. -/
theorem C130_accepted {r : Run} (ha : r.env.AsciiChars) {path : Str} {pl : ParsedLedger}
    (h : r.journal path = .ok pl) : Takes r.env r.fs [] path pl :=
  file_takes ha r.fs r.fuel r.depth [] path pl h

/-- The first line of a transaction is accepted if and only if it has its form, and then it is read as what it stands for. -/
theorem C130_header {env : Env} (ha : env.AsciiChars) (line : Str) (t : Txn RawPosting) :
    parseHeader env line = .ok t ↔ TakesHeader env line t := parseHeader_iff ha

/-- So is the line of a price. -/
theorem C130_price (env : Env) (line : Str) (p : ParsedPrice) : parsePrice env line = .ok p ↔ TakesPrice env line p := parsePrice_iff

/-- So is the first line of a commodity. -/
theorem C130_commodity (env : Env) (line name : Str) : parseCommodityName env line = .ok name ↔ TakesCommodity env line name :=
  parseCommodityName_iff

/-- The amounts of a posting are all kept, unless there are two of the same kind on the line. -/
theorem C130_kept (p : RawPosting) : ∀ {ps : List Piece}, (ps.map Piece.slot).Nodup → ∀ x ∈ ps,
    x.set (ps.foldl Piece.set p) = ps.foldl Piece.set p := by
  have comm : ∀ (x y : Piece) (p : RawPosting), x.slot ≠ y.slot → x.set (y.set p) = y.set (x.set p) := by
    intro x y p h
    cases x with
    | expr e => cases y with
      | expr e' => exact absurd rfl h
      | field g q' c' => cases g <;> rfl
    | field f q c => cases y with
      | expr e' => cases f <;> rfl
      | field g q' c' => cases f <;> cases g <;> first | rfl | exact absurd rfl h
  have idem : ∀ (x : Piece) (p : RawPosting), x.set (x.set p) = x.set p := by
    intro x p
    cases x with
    | expr e => rfl
    | field f q c => cases f <;> rfl
  have out : ∀ (ps : List Piece) (x : Piece) (p : RawPosting), x.slot ∉ ps.map Piece.slot →
      x.set (ps.foldl Piece.set p) = ps.foldl Piece.set (x.set p) := by
    intro ps
    induction ps with
    | nil => intro x p _; rfl
    | cons y ps ih =>
      intro x p h
      simp only [List.map_cons, List.mem_cons, not_or] at h
      rw [List.foldl_cons, List.foldl_cons, ih x _ h.2, comm x y p h.1]
  intro ps
  induction ps generalizing p with
  | nil => intro _ x hx; cases hx
  | cons y ps ih =>
    intro h x hx
    rw [List.map_cons, List.nodup_cons] at h
    rw [List.foldl_cons]
    rcases List.mem_cons.mp hx with rfl | hx
    · rw [out ps x _ h.1, idem]
    · exact ih _ h.2 x hx

/-- What is accepted without being meant that way: of two amounts the first is dropped; in an automated transaction the first word of an
expression is dropped; a minus sign after a point makes the number ten times smaller; the amount can stand on the next line. -/
theorem C130_false :
    ((exRun "2020-01-05 Bar\n Food  5 EUR 6 USD\n").journal "main".toList).toOption.map (fun pl => pl.transactions.map (·.postings)) =
      some [[{ account := "Food".toList, moneyAmount := some 6, moneyCurrency := some "USD".toList, payee := some "Bar".toList }]] ∧
    ((exRun "= Food\n Tax  amount * 2\n").journal "main".toList).toOption.map (fun pl => pl.transactions.map (·.postings)) =
      some [[{ account := "Tax".toList, amountExpr := some "* 2".toList }]] ∧
    ((exRun "2020-01-05 Bar\n Food  .-5 EUR\n").journal "main".toList).toOption.map (fun pl => pl.transactions.map (·.postings)) =
      some [[{ account := "Food".toList, moneyAmount := some (-5 / 100), moneyCurrency := some "EUR".toList, payee := some "Bar".toList }]] ∧
    ((exRun "2020-01-05 Bar\n Food \n 5 EUR\n").journal "main".toList).toOption.map (fun pl => pl.transactions.map (·.postings)) =
      some [[{ account := "Food".toList, moneyAmount := some 5, moneyCurrency := some "EUR".toList, payee := some "Bar".toList }]] := by
  refine ⟨?_, ?_, ?_, ?_⟩ <;> decide +kernel

/-- The words before `account` are dropped, and two properties can stand on a line. -/
theorem C130_false_directive :
    ((exRun "abc account Foo\n default alias x\n").journal "main".toList).toOption.map
      (fun pl => pl.lists.accounts.list.map (fun a => (a.2.name, a.2.aliases, a.2.isDefault))) =
      some [("Foo".toList, ["x".toList], true)] := by decide +kernel

/-- In the first line of a transaction everything after a carriage return is dropped, and the only hour after 19 is `20123`. -/
theorem C130_false_header :
    ((exRun "2020-01-05 Bar\r | Foo\n").journal "main".toList).toOption.map (fun pl => pl.transactions.map (·.payee)) =
      some [some "Bar".toList] ∧
    ((exRun "2020-01-05 20123:00:00 Bar\n").journal "main".toList).toOption.map (fun pl => pl.transactions.map (·.payee)) =
      some [some "Bar".toList] ∧
    ((exRun "2020-01-05 20:00:00 Bar\n").journal "main".toList).toOption.map (fun pl => pl.transactions.map (·.payee)) =
      some [some "20:00:00 Bar".toList] := by
  refine ⟨?_, ?_, ?_⟩ <;> decide +kernel

/-- At the end of a file the last character of an expression can be read twice, and the second time counts. -/
theorem C130_false_last :
    ((exRun "= Food\n Tax  amount * 2(").journal "main".toList).toOption.map (fun pl => pl.transactions.map (·.postings)) =
      some [[{ account := "Tax".toList, amountExpr := some "(".toList }]] := by decide +kernel

/-- The hypotheses of C130 are met by an example. -/
example : ((exRun exText).journal "main".toList).toBool = true := by decide +kernel

example : (([.field .amount 5 "EUR".toList, .field .unitCost 2 "USD".toList] : List Piece).map Piece.slot).Nodup := by decide

example : parseHeader exEnvJ "2020-01-05=2020-01-07 * (\"7\") Bar | Foo ; note".toList =
    .ok { date := some (dayNumber 2020 1 5), effectiveDate := some (dayNumber 2020 1 7), description := "Bar".toList
          payee := some "Foo".toList, comments := ["; note".toList] } := by decide +kernel

example : (parsePrice exEnvJ "P 2020-01-05 12:00:00 BTC 9000.50 \"U S\"".toList).toOption =
    some { date := dayNumber 2020 1 5, commodity := "BTC".toList, otherCommodity := "U S".toList, otherQuantity := 18001 / 2 } := by
  decide +kernel

example : (parseCommodityName exEnvJ "commodity  EUR ; euro".toList).toOption = some "EUR".toList := by decide +kernel

end Dinero
