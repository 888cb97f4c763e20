import Verif.Model.Date
import Verif.Model.Ledger
import Verif.Model.Query
/-
The lines read with the grammar: the first line of a transaction, price directives and the first line of
a commodity directive (src/grammar/grammar.pest 8-37, src/parser/tokenizers/transaction.rs 20-67, price.rs,
commodity.rs 13-20).
-/
namespace Dinero
open P

/-- `end`, grammar.pest 99: the end of the text, or a line break (`NEWLINE = "\n" | "\r\n" | "\r"`). -/
def gEnd : P := rule .eol (alt (fun s => if s = [] then some ([], []) else none)
  (alt (lit ['\n']) (alt (lit ['\r', '\n']) (lit ['\r']))))

/-- A character `!"|" ~ !";" ~ !end ~ ANY`, grammar.pest 23-24. -/
def descChar (c : Char) : Bool := c != '|' && c != ';' && c != '\n' && c != '\r'

/-- `description`, grammar.pest 24. -/
def gDescription : P := rule .description (alt gString (star (chr descChar)))
/-- `payee`, grammar.pest 23. -/
def gPayee : P := rule .payee (alt gString (star (chr descChar)))
/-- `comment`, grammar.pest 25. -/
def gComment : P := rule .comment (seq (lit [';']) (star (chr (fun _ => true))))
/-- `status`, grammar.pest 21. -/
def gStatus : P := rule .status (lits ["*", "!"])
/-- `code`, grammar.pest 20: only a quoted string between the parentheses. -/
def gCode : P := rule .code (seq (lit ['(']) (seq gString (lit [')'])))
/-- `(ws ~ time)?`, grammar.pest 8, 11 and 12. -/
def gTimeOpt : P := opt (seq (lit [' ']) gTime)
/-- `ws+`. -/
def wsp : P := plus (lit [' '])

/-- `transaction`, grammar.pest 10-18: nothing is required after `end`. -/
def gTransaction : P := rule .transaction
  (seq gDate (seq gTimeOpt
  (seq (opt (seq (lit ['=']) (seq gDate gTimeOpt)))
  (seq wsp (seq (opt gStatus)
  (seq wss (seq (opt gCode)
  (seq wss (seq gDescription
  (seq wss (seq (opt (seq (lit ['|']) (seq wss gPayee)))
  (seq wss (seq (opt gComment) gEnd)))))))))))))

/-- `price`, grammar.pest 8. -/
def gPrice (env : Env) : P := rule .price
  (seq (lit ['P']) (seq wss (seq gDate (seq gTimeOpt (seq wsp (seq (gCurrency env)
  (seq wss (seq gNumber (seq wss (seq (gCurrency env)
  (seq wss (seq (opt gComment) gEnd))))))))))))

/-- `commodity`, grammar.pest 9. -/
def gCommodity (env : Env) : P := rule .commodity
  (seq (lit "commodity".toList) (seq wsp (seq (gCurrency env) (seq wss (seq (opt gComment) gEnd)))))

/-- `parse_string`, src/parser/utils.rs 43-54, on anything but a currency: a quoted string loses its quotes
(one byte each), anything else is taken as it is. -/
def parseLeaf (p : Pair) : Str :=
  if p.rule = .string then unquote p.text else p.text

/-- `parse_string`, src/parser/utils.rs 43-54: a currency is the string or unquoted name in it. -/
def parseString (p : Pair) : Res Str :=
  if p.rule = .currency then
    match p.inner with
    | q :: _ => .ok (parseLeaf q)
    | [] => .error (.panic "string.into_inner().next().unwrap()")
  else .ok (parseLeaf p)

/-- `parsed.next().unwrap()`: the items without the first one; the new first one must exist. -/
def nextItem : List Pair → Res (List Pair)
  | _ :: p :: ps => .ok (p :: ps)
  | _ => .error (.panic "parsed.next().unwrap()")

/-- `if next_item.as_rule() == r { next_item = parsed.next().unwrap() }`, src/parser/tokenizers/transaction.rs
31-33, 38-46.  The first of the items is `next_item`. -/
def skipItem (r : Rule) (items : List Pair) : Res (List Pair) :=
  match items with
  | p :: ps => if p.rule = r then nextItem (p :: ps) else .ok (p :: ps)
  | [] => .error (.panic "parsed.next().unwrap()")

/-- `if next_item.as_rule() == r { x = Some(f(next_item)); next_item = parsed.next().unwrap() }`,
src/parser/tokenizers/transaction.rs 34-37 and 47-54. -/
def takeItem {α : Type} (r : Rule) (f : Pair → Res α) (items : List Pair) : Res (Option α × List Pair) :=
  match items with
  | p :: ps =>
    if p.rule = r then
      match f p with
      | .error e => .error e
      | .ok a =>
        match nextItem (p :: ps) with
        | .error e => .error e
        | .ok rest => .ok (some a, rest)
    else .ok (none, p :: ps)
  | [] => .error (.panic "parsed.next().unwrap()")

/-- The payee of a transaction, src/parser/tokenizers/transaction.rs 61-67. -/
def headerPayee (payee : Option Str) (description : Str) : Str :=
  match payee with
  | some p => p
  | none => if description ≠ [] then description else "[Unspecified payee]".toList

/-- A text of the header, trimmed, src/parser/tokenizers/transaction.rs 48 and 52. -/
def headerText (env : Env) (p : Pair) : Res Str := (parseString p).map (trim env)

/-- The items of the first line of a transaction, from the one after the date, src/parser/tokenizers/transaction.rs 31-67. -/
def headerItems (env : Env) (date : Date) (items : List Pair) : Res (Txn RawPosting) := do
  let items ← skipItem .time items
  let (eff, items) ← takeItem .date parseDate items
  let items ← skipItem .time items
  let items ← skipItem .status items
  let items ← skipItem .code items
  let (desc, items) ← takeItem .description (headerText env) items
  let (payee, items) ← takeItem .payee (headerText env) items
  let desc := desc.getD []
  match items with
  | p :: _ =>
    if p.rule = .comment then
      let c ← parseString p
      return { date := some date, effectiveDate := eff, description := desc,
               payee := some (headerPayee payee desc), comments := [c] }
    else
      return { date := some date, effectiveDate := eff, description := desc,
               payee := some (headerPayee payee desc) }
  | [] => throw (.panic "parsed.next().unwrap()")

/-- The first line of a transaction, src/parser/tokenizers/transaction.rs 22-67. -/
def parseHeader (env : Env) (line : Str) : Res (Txn RawPosting) :=
  match gTransaction line with
  | some (p :: _, _) =>
    match p.inner with
    | d :: x :: items =>
      match parseDate d with
      | .error e => .error e
      | .ok date => headerItems env date (x :: items)
    | _ => .error (.panic "parsed.next().unwrap()")
  | _ => .error (.panic "Could not parse transaction!")

/-- The four things in a price directive, src/parser/tokenizers/price.rs 16-31. -/
def priceOf (date : Date) : List Pair → Res ParsedPrice
  | c :: n :: o :: _ =>
    match parseString c, parseRational n.text, parseString o with
    | .ok c, .ok q, .ok o => .ok { date := date, commodity := c, otherCommodity := o, otherQuantity := q }
    | .error e, _, _ => .error e
    | _, .error e, _ => .error e
    | _, _, .error e => .error e
  | _ => .error (.panic "parsed.next().unwrap()")

/-- The line of a price directive, src/parser/tokenizers/price.rs 10-31. -/
def parsePrice (env : Env) (line : Str) : Res ParsedPrice :=
  match gPrice env line with
  | some (p :: _, _) =>
    match p.inner with
    | d :: x :: items =>
      match parseDate d with
      | .error e => .error e
      | .ok date => priceOf date (if x.rule = .time then items else x :: items)
    | _ => .error (.panic "parsed.next().unwrap()")
  | _ => .error (.panic "Could not parse price!")

/-- The name in the first line of a commodity directive, src/parser/tokenizers/commodity.rs 14-20. -/
def parseCommodityName (env : Env) (line : Str) : Res Str :=
  match gCommodity env line with
  | some (p :: _, _) =>
    match p.inner with
    | c :: _ => parseString c
    | [] => .error (.panic "parsed.next().unwrap()")
  | _ => .error (.panic "Could not parse commodity!")

end Dinero
