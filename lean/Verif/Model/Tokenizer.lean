import Verif.Model.Header
/-
Model of the tokenizer: src/parser/mod.rs 76-277, src/parser/chars.rs and src/parser/tokenizers.  Included
files are in `Model/Include.lean`.

Loops carry a bound on their number of iterations (`fuel`), the same for every loop.  Running out of it
is an outcome of its own, `Stop.fuel`: a text with that outcome for every bound makes the program loop
forever.
-/
namespace Dinero

/-- What can stop the tokenizer: a panic or an error, or the bound on the iterations. -/
inductive Stop where
  | fail (f : Fail)
  | fuel
  deriving DecidableEq, Repr

/-- The result of a part of the tokenizer. -/
abbrev PRes (α : Type) := Except Stop α

/-- A result that does not depend on the bound. -/
def PRes.lift {α : Type} : Res α → PRes α
  | .ok a => .ok a
  | .error e => .error (.fail e)

/-- `struct Tokenizer`, src/parser/mod.rs 76-87: `position` is represented by the text that is left (`rest`, a
suffix of `content`), `line` is `line_index` and `col` is `line_position`.  `line_string` and
`line_characters` are never used. -/
structure Tok where
  content : Str
  rest : Str
  line : Nat := 0
  col : Nat := 0
  deriving DecidableEq

/-- `Tokenizer::from`, src/parser/mod.rs 113-126. -/
def Tok.ofContent (content : Str) : Tok := { content := content, rest := content }

/-- `enum LineType`, src/parser/chars.rs 5-8. -/
inductive LineType where
  | blank
  | indented
  deriving DecidableEq

/-- `Tokenizer::error`, src/parser/mod.rs 199-254, as the failure it ends in.  `self.line_index - 1` is evaluated
for every line of the text (223): on the first line the subtraction overflows, a panic in a build with
overflow checks. -/
def Tok.fail (t : Tok) (e : Err) : Fail :=
  if t.line = 0 ∧ t.content ≠ [] then .panic "attempt to subtract with overflow" else .error e

/-- `position -= 1`. -/
def Tok.unread (t : Tok) : Tok :=
  { t with rest := t.content.drop (t.content.length - t.rest.length - 1) }

/-! ### src/parser/chars.rs -/

/-- `consume_whitespaces_and_lines`, src/parser/chars.rs 10-27, on the text, line and position. -/
def wsLinesAux (ws : Char → Bool) : Str → Nat → Nat → Str × Nat × Nat
  | [], line, col => ([], line, col)
  | c :: r, line, col =>
    if c = '\n' then wsLinesAux ws r (line + 1) 0
    else if ws c ∨ c = '\r' then wsLinesAux ws r line (col + 1)
    else (c :: r, line, col)

/-- `consume_whitespaces_and_lines`, src/parser/chars.rs 10-27. -/
def wsLines (env : Env) (t : Tok) : Tok × LineType :=
  let x := wsLinesAux env.ws t.rest t.line t.col
  ({ t with rest := x.1, line := x.2.1, col := x.2.2 },
    if x.1 ≠ [] ∧ x.2.2 ≠ 0 then .indented else .blank)

/-- A blank within a line. -/
def Env.blank (env : Env) (c : Char) : Bool := env.ws c && c != '\n'

/-- `consume_whitespaces`, src/parser/chars.rs 29-40. -/
def consumeWs (env : Env) (t : Tok) : Tok :=
  { t with rest := t.rest.dropWhile env.blank
           col := t.col + (t.rest.takeWhile env.blank).length }

/-- `consume_str`, src/parser/chars.rs 42-63, for a text without line breaks. -/
def consumeStr (s : Str) (t : Tok) : Res Tok :=
  if s.isPrefixOf t.rest then .ok { t with rest := t.rest.drop s.length, col := t.col + s.length }
  else .error (.error .unexpectedInput)

/-- `get_value_expression`, src/parser/chars.rs 65-88: the text read, what is left, line and position.  The
position is not advanced. -/
def valueExprAux : Str → Nat → Nat → Nat → Nat → Str × Str × Nat × Nat
  | [], _, _, line, col => ([], [], line, col)
  | c :: r, opened, closed, line, col =>
    if c = '(' then
      let x := valueExprAux r (opened + 1) closed line col
      (c :: x.1, x.2)
    else if c = ')' then
      let x := valueExprAux r opened (closed + 1) line col
      (c :: x.1, x.2)
    else if c = '\n' then
      if opened = closed then ([], c :: r, line, col)
      else
        let x := valueExprAux r opened closed (line + 1) 0
        (c :: x.1, x.2)
    else if c = ';' then ([], c :: r, line, col)
    else
      let x := valueExprAux r opened closed line col
      (c :: x.1, x.2)

/-- `get_value_expression`, src/parser/chars.rs 65-88. -/
def getValueExpression (t : Tok) : Str × Tok :=
  let x := valueExprAux t.rest 0 0 t.line t.col
  (x.1, { t with rest := x.2.1, line := x.2.2.1, col := x.2.2.2 })

/-- `get_line`, src/parser/chars.rs 90-102: up to and including the next line break (which is not part of the
result).  The position is only reset, never advanced. -/
def getLine (t : Tok) : Str × Tok :=
  let l := t.rest.takeWhile (· != '\n')
  match t.rest.dropWhile (· != '\n') with
  | [] => (l, { t with rest := [] })
  | _ :: r => (l, { t with rest := r, line := t.line + 1, col := 0 })

/-- The characters that end a word outside of quotes, src/parser/chars.rs 120. -/
def Env.wordEnd (env : Env) (c : Char) : Bool :=
  env.ws c || env.numeric c || c == '.' || c == '-' || c == ';'

/-- The loop of `get_string`, src/parser/chars.rs 109-129: `empty` iff nothing has been collected.  Result: the
word, the number of characters consumed and what is left.  Quotes are consumed but not collected. -/
def wordAux (env : Env) : Str → (empty quote : Bool) → Str × Nat × Str
  | [], _, _ => ([], 0, [])
  | c :: r, empty, quote =>
    if c = '\n' then ([], 0, c :: r)
    else if c = '"' then
      if empty then
        let x := wordAux env r empty true
        (x.1, x.2.1 + 1, x.2.2)
      else if quote then ([], 1, r)
      else
        let x := wordAux env r empty quote
        (x.1, x.2.1 + 1, x.2.2)
    else if env.wordEnd c && !quote then ([], 0, c :: r)
    else
      let x := wordAux env r false quote
      (c :: x.1, x.2.1 + 1, x.2.2)

/-- `get_string`, src/parser/chars.rs 104-132. -/
def getString (env : Env) (t : Tok) : Str × Tok :=
  let t := consumeWs env t
  let x := wordAux env t.rest true false
  (x.1, consumeWs env { t with rest := x.2.2, col := t.col + x.2.1 })

/-! ### Comments and amounts -/

/-- `comment::parse`, src/parser/tokenizers/comment.rs 28-35, at the character that starts the comment. -/
def commentTok (env : Env) (t : Tok) : Str × Tok :=
  getLine (consumeWs env { t with rest := t.rest.drop 1, col := t.col + 1 })

/-- The characters of an amount: those collected, whether each comes after the point, and what is left.  `none`
after a second point. -/
def amountAux (env : Env) : Str → Bool → Option (Str × Nat × Nat × Str)
  | [], _ => some ([], 0, 0, [])
  | c :: r, decimal =>
    if c = '.' then
      if decimal then none
      else (amountAux env r true).map (fun x => (x.1, x.2.1, x.2.2.1 + 1, x.2.2.2))
    else if c = '-' ∨ env.numeric c then
      (amountAux env r decimal).map
        (fun x => (c :: x.1, x.2.1 + (if decimal then 1 else 0), x.2.2.1 + 1, x.2.2.2))
    else some ([], 0, 0, c :: r)

/-- `parse_amount`, src/parser/tokenizers/transaction.rs 389-429.  An error leaves the tokenizer where it
was before the offending character; only its place in the text matters afterwards (automated
transactions go on with the rest of the line). -/
def parseAmount (env : Env) (t : Tok) : Except Err Rat × Tok :=
  match amountAux env t.rest false with
  | none =>
    -- stopped at the second point
    let pre := (t.rest.takeWhile (· != '.')).length + 1
    let pre := pre + ((t.rest.drop pre).takeWhile (· != '.')).length
    (.error .unexpectedInput, { t with rest := t.rest.drop pre, col := t.col + pre })
  | some (num, decimals, n, rest) =>
    (match intOf num with
      | none => .error .unexpectedInput
      | some i => .ok ((i : Rat) / (10 ^ decimals : Nat)),
      { t with rest := rest, col := t.col + n })

/-- `parse_money`, src/parser/tokenizers/transaction.rs 347-387.  `get_string` never collects a quote, so the
branches that strip quotes (361-364, 368-371) are dead and left out. -/
def parseMoney (env : Env) (t : Tok) : Except Err (Rat × Str) × Tok :=
  match t.rest with
  | [] => (.error .unexpectedInput, t)
  | c :: _ =>
    if env.numeric c ∨ c = '.' ∨ c = '-' then
      match parseAmount env t with
      | (.error e, t') => (.error e, t')
      | (.ok a, t') =>
        let x := getString env t'
        (.ok (a, x.1), x.2)
    else
      let x := getString env t
      match parseAmount env x.2 with
      | (.error e, t') => (.error e, t')
      | (.ok a, t') => (.ok (a, x.1), t')

/-! ### Postings -/

/-- How the account name ended: with the line, or before something else. -/
inductive AccountEnd where
  | line
  | more
  deriving DecidableEq

/-- The loop that collects the account name, src/parser/tokenizers/transaction.rs 201-222: the name, how it ended, what is left,
line and position.  `none`: `Tokenizer::next` panics at the end of the text. -/
def accountAux (ws : Char → Bool) : Str → Nat → Nat → Option (Str × AccountEnd × Str × Nat × Nat)
  | [], _, _ => none
  | c :: r, line, col =>
    if ws c = false then
      (accountAux ws r (if c = '\n' then line + 1 else line) (if c = '\n' then 0 else col + 1)).map
        (fun x => (c :: x.1, x.2))
    else if c = '\n' then some ([], .line, c :: r, line, 0)
    else if c = '\t' then some ([], .more, r, line, col + 1)
    else
      match r with
      | [] => none
      | d :: r' =>
        if ws d then some ([], .more, r', if d = '\n' then line + 1 else line, if d = '\n' then 0 else col + 2)
        else
          (accountAux ws r' (if d = '\n' then line + 1 else line) (if d = '\n' then 0 else col + 2)).map
            (fun x => (c :: d :: x.1, x.2))

/-- The brackets around the account of a virtual posting, src/parser/tokenizers/transaction.rs 224-251:
`&account[0..1]` panics if the name is empty or its first character longer than a byte. -/
def accountKind (env : Env) (account : Str) : Except Stop (Except Err (Str × Kind)) :=
  match account with
  | [] => .error (.fail (.panic "byte index 1 is out of bounds"))
  | c :: _ =>
    if 128 ≤ c.toNat then .error (.fail (.panic "byte index 1 is not a char boundary"))
    else if c = '(' then
      if account.getLast? = some ')' then .ok (.ok (trim env (account.dropLast.drop 1), .virt))
      else .ok (.error .unexpectedInput)
    else if c = '[' then
      if account.getLast? = some ']' then .ok (.ok (trim env (account.dropLast.drop 1), .virtBal))
      else .ok (.error .unexpectedInput)
    else .ok (.ok (account, .real))

/-- The loop over the amounts of a posting, src/parser/tokenizers/transaction.rs 272-343. -/
def amounts (env : Env) (ttype : TType) : Nat → RawPosting → Tok → PRes (Except Err RawPosting × Tok)
  | 0, _, _ => .error .fuel
  | n + 1, p, t =>
    match t.rest with
    | [] => .ok (.ok p, t)
    | '\n' :: _ => .ok (.ok p, t)
    | ';' :: _ =>
      let x := commentTok env t
      .ok (.ok { p with comments := p.comments ++ [x.1] }, x.2)
    | '(' :: _ =>
      let x := getValueExpression t
      amounts env ttype n { p with amountExpr := some x.1 } (consumeWs env x.2)
    | '=' :: r =>
      match parseMoney env (consumeWs env { t with rest := r, col := t.col + 1 }) with
      | (.error e, t') => .ok (.error e, t')
      | (.ok m, t') =>
        amounts env ttype n { p with balanceAmount := some m.1, balanceCurrency := some m.2 } (consumeWs env t')
    | '@' :: r =>
      match p.moneyAmount with
      | none => .ok (.error .unexpectedInput, t)
      | some _ =>
        match r with
        | [] => .error (.fail (.panic "tokenizer.get_char().unwrap()"))
        | d :: r' =>
          let t' := if d = '@' then { t with rest := r', col := t.col + 2 }
            else { t with rest := r, col := t.col + 1 }
          match parseMoney env (consumeWs env t') with
          | (.error e, t') => .ok (.error e, t')
          | (.ok m, t') =>
            amounts env ttype n
              { p with costAmount := some m.1, costCurrency := some m.2,
                       costType := some (if d = '@' then .total else .perUnit) } (consumeWs env t')
    | _ :: _ =>
      match parseMoney env t with
      | (.ok m, t') =>
        amounts env ttype n { p with moneyAmount := some m.1, moneyCurrency := some m.2 } (consumeWs env t')
      | (.error e, t') =>
        if ttype = .automated then
          let x := getLine t'
          if x.2.line = 0 then .error (.fail (.panic "attempt to subtract with overflow"))
          else
            amounts env ttype n { p with amountExpr := some x.1 }
              (consumeWs env { x.2.unread with line := x.2.line - 1 })
        else .ok (.error e, t')

/-- `parse_posting`, src/parser/tokenizers/transaction.rs 192-344. -/
def parsePosting (env : Env) (fuel : Nat) (ttype : TType) (payee : Option Str) (t : Tok) :
    PRes (Except Err RawPosting × Tok) :=
  match accountAux env.ws t.rest t.line t.col with
  | none => .error (.fail (.panic "Tokenizer::next at the end of the text"))
  | some (name, stop, rest, line, col) =>
    let t' : Tok := { t with rest := rest, line := line, col := col }
    match accountKind env name with
    | .error e => .error e
    | .ok (.error e) => .ok (.error e, t')
    | .ok (.ok (account, kind)) =>
      let p : RawPosting := { account := account, kind := kind, payee := payee }
      if stop = .line then .ok (.ok p, t')
      else amounts env ttype fuel p (consumeWs env t')

/-! ### Transactions -/

/-- `postings[len - 1].comments.push(comment)`, src/parser/tokenizers/transaction.rs 77-81. -/
def addComment (c : Str) : List RawPosting → List RawPosting
  | [] => []
  | [p] => [{ p with comments := p.comments ++ [c] }]
  | p :: q :: ps => p :: addComment c (q :: ps)

/-- The lines of a transaction, src/parser/tokenizers/transaction.rs 70-108 and 133-171.  `parsed_posting` is true
iff there is a posting. -/
def txnLines (env : Env) (fuel : Nat) : Nat → Txn RawPosting → Tok → PRes (Txn RawPosting × Tok)
  | 0, _, _ => .error .fuel
  | n + 1, txn, t =>
    match wsLines env t with
    | (t, .blank) => .ok (txn, t)
    | (t, .indented) =>
      match t.rest with
      | [] => .error (.fail (.panic "tokenizer.get_char().unwrap()"))
      | c :: _ =>
        if c = ';' then
          let x := commentTok env t
          if txn.postings = [] then
            txnLines env fuel n { txn with comments := txn.comments ++ [x.1] } x.2
          else txnLines env fuel n { txn with postings := addComment x.1 txn.postings } x.2
        else if env.numeric c then .error (.fail (t.fail .unexpectedInput))
        else
          match parsePosting env fuel txn.ttype txn.payee t with
          | .error e => .error e
          | .ok (.error e, t') => .error (.fail (t'.fail e))
          | .ok (.ok p, t') => txnLines env fuel n { txn with postings := txn.postings ++ [p] } t'

/-- `transaction::parse`, src/parser/tokenizers/transaction.rs 15-109. -/
def transactionTok (env : Env) (fuel : Nat) (t : Tok) : PRes (Txn RawPosting × Tok) :=
  let x := getLine t
  match parseHeader env x.1 with
  | .error e => .error (.fail e)
  | .ok txn => txnLines env fuel fuel txn x.2

/-- `parse_automated_transaction`, src/parser/tokenizers/transaction.rs 111-172: the description is what comes after the first
equals sign of the line. -/
def automatedTok (env : Env) (fuel : Nat) (t : Tok) : PRes (Txn RawPosting × Tok) :=
  let x := getLine t
  match x.1.dropWhile (· != '=') with
  | [] => .error (.fail (.panic "RE_AUTOMATED.captures(..).unwrap()"))
  | _ :: d => txnLines env fuel fuel { ttype := .automated, description := d } x.2

/-! ### Directives -/

/-- What a regular expression `(word) +(.*)` captures in a line: it matches at the first place where the word
is followed by a blank; the blanks are skipped, the rest of the line is the name. -/
def directiveName (word : Str) : Str → Option Str
  | [] => none
  | c :: s =>
    if (word ++ [' ']).isPrefixOf (c :: s) then some (((c :: s).drop word.length).dropWhile (· == ' '))
    else directiveName word s

/-- A `get_line` whose result is trimmed. -/
def lineTrim (env : Env) (t : Tok) : Str × Tok := ((trim env (getLine t).1), (getLine t).2)

/-- The lines of an account directive, src/parser/tokenizers/account.rs 53-83. -/
def accountLines (env : Env) : Nat → AccountDef → Tok → PRes (Except Err AccountDef × Tok)
  | 0, _, _ => .error .fuel
  | n + 1, a, t =>
    match wsLines env t with
    | (t, .blank) => .ok (.ok a, t)
    | (t, .indented) =>
      if t.rest.head? = some ';' then accountLines env n a (getLine t).2
      else
        let w := getString env t
        let l := lineTrim env w.2
        if w.1 = "note".toList ∨ w.1 = "isin".toList ∨ w.1 = "check".toList ∨ w.1 = "assert".toList then
          accountLines env n a l.2
        else if w.1 = "alias".toList then
          accountLines env n { a with aliases := setInsert a.aliases l.1 } l.2
        else if w.1 = "payee".toList then
          if env.rxOk l.1 then accountLines env n { a with payees := a.payees ++ [l.1] } l.2
          else .error (.fail (.panic "Regex::new(..).unwrap()"))
        else if w.1 = "default".toList then accountLines env n { a with isDefault := true } w.2
        else .ok (.error .unexpectedInput, w.2)

/-- `account::parse`, src/parser/tokenizers/account.rs 9-96. -/
def accountTok (env : Env) (fuel : Nat) (t : Tok) : PRes (Except Err AccountDef × Tok) :=
  let x := getLine t
  match directiveName "account".toList x.1 with
  | none => .error (.fail (.panic "RE.captures(..).unwrap()"))
  | some name => accountLines env fuel { name := trim env name } x.2

/-- The lines of a commodity directive, src/parser/tokenizers/commodity.rs 27-46 (comments are dropped). -/
def commodityLines (env : Env) : Nat → CurrencyDef → Tok → PRes (Except Err CurrencyDef × Tok)
  | 0, _, _ => .error .fuel
  | n + 1, a, t =>
    match wsLines env t with
    | (t, .blank) => .ok (.ok a, t)
    | (t, .indented) =>
      if t.rest.head? = some ';' then commodityLines env n a (commentTok env t).2
      else
        let w := getString env t
        let l := lineTrim env w.2
        if w.1 = "note".toList ∨ w.1 = "format".toList then commodityLines env n a l.2
        else if w.1 = "alias".toList then
          commodityLines env n { a with aliases := setInsert a.aliases l.1 } l.2
        else if w.1 = "default".toList then commodityLines env n { a with isDefault := true } w.2
        else .ok (.error .unexpectedInput, w.2)

/-- `commodity::parse`, src/parser/tokenizers/commodity.rs 12-58. -/
def commodityTok (env : Env) (fuel : Nat) (t : Tok) : PRes (Except Err CurrencyDef × Tok) :=
  let x := getLine t
  match parseCommodityName env x.1 with
  | .error e => .error (.fail e)
  | .ok name => commodityLines env fuel { name := trim env name } x.2

/-- The lines of a payee directive, src/parser/tokenizers/payee.rs 58-71: the aliases. -/
def payeeLines (env : Env) : Nat → List Str → Tok → PRes (Except Err (List Str) × Tok)
  | 0, _, _ => .error .fuel
  | n + 1, aliases, t =>
    match wsLines env t with
    | (t, .blank) => .ok (.ok aliases, t)
    | (t, .indented) =>
      if t.rest.head? = some ';' then payeeLines env n aliases (commentTok env t).2
      else
        let w := getString env t
        let l := lineTrim env w.2
        if w.1 = "alias".toList then payeeLines env n (setInsert aliases l.1) l.2
        else .ok (.error .unexpectedInput, w.2)

/-- `payee::parse`, src/parser/tokenizers/payee.rs 12-84.  The second group takes the whole rest of the line, so the
note is never captured; the name is not trimmed. -/
def payeeTok (env : Env) (fuel : Nat) (t : Tok) : PRes (Except Err PayeeDef × Tok) :=
  let x := getLine t
  match directiveName "payee".toList x.1 with
  | none => .error (.fail (.panic "RE.captures(..).unwrap()"))
  | some name =>
    match payeeLines env fuel [] x.2 with
    | .error e => .error e
    | .ok (.error e, t') => .ok (.error e, t')
    | .ok (.ok aliases, t') =>
      if aliases.all env.rxOk then .ok (.ok { name := name, aliases := aliases, aliasRx := aliases }, t')
      else .error (.fail (.panic "Regex::new(..).unwrap()"))

/-- The lines of a tag directive, src/parser/tokenizers/tag.rs 48-64: a comment is not skipped, the loop meets it again and
again. -/
def tagLines (env : Env) : Nat → Tok → PRes (Except Err Unit × Tok)
  | 0, _ => .error .fuel
  | n + 1, t =>
    match wsLines env t with
    | (t, .blank) => .ok (.ok (), t)
    | (t, .indented) =>
      if t.rest.head? = some ';' then tagLines env n t
      else
        let w := getString env t
        if w.1 = "check".toList ∨ w.1 = "assert".toList then tagLines env n (getLine w.2).2
        else .ok (.error .unexpectedInput, w.2)

/-- `tag::parse`, src/parser/tokenizers/tag.rs 9-72: the name (`check` and `assert` are never read). -/
def tagTok (env : Env) (fuel : Nat) (t : Tok) : PRes (Except Err Str × Tok) :=
  let x := getLine t
  match directiveName "tag".toList x.1 with
  | none => .error (.fail (.panic "RE.captures(..).unwrap()"))
  | some name =>
    match tagLines env fuel x.2 with
    | .error e => .error e
    | .ok (.error e, t') => .ok (.error e, t')
    | .ok (.ok _, t') => .ok (.ok (trim env name), t')

/-- `price::parse`, src/parser/tokenizers/price.rs 8-32. -/
def priceTok (env : Env) (t : Tok) : PRes (ParsedPrice × Tok) :=
  let x := getLine t
  match parsePrice env x.1 with
  | .error e => .error (.fail e)
  | .ok p => .ok (p, x.2)

/-! ### The main loop -/

/-- `ParsedLedger::append`, src/parser/mod.rs 55-63: the tags of the other ledger are lost.  (The second
`transactions.append` has nothing left to append.) -/
def ParsedLedger.append (a b : ParsedLedger) : ParsedLedger :=
  { a with
    lists :=
      { accounts := a.lists.accounts.append b.lists.accounts
        payees := a.lists.payees.append b.lists.payees
        commodities := a.lists.commodities.append b.lists.commodities }
    transactions := a.transactions ++ b.transactions
    comments := a.comments ++ b.comments
    prices := a.prices ++ b.prices }

/-- An error of a directive, reported by the main loop, src/parser/mod.rs 148-177. -/
def reported {α : Type} (x : PRes (Except Err α × Tok)) : PRes (α × Tok) :=
  match x with
  | .error e => .error e
  | .ok (.error e, t) => .error (.fail (t.fail e))
  | .ok (.ok a, t) => .ok (a, t)

/-- One item of the journal at its first character, src/parser/mod.rs 137-181; `inc` is `include::parse`. -/
def item (env : Env) (fuel : Nat) (inc : Tok → PRes (ParsedLedger × Tok)) (c : Char) (pl : ParsedLedger)
    (t : Tok) : PRes (ParsedLedger × Tok) :=
  if c ∈ [';', '!', '*', '%', '#'] then
    let x := commentTok env t
    .ok ({ pl with comments := pl.comments ++ [x.1] }, x.2)
  else if env.numeric c then
    (transactionTok env fuel t).map (fun x => ({ pl with transactions := pl.transactions ++ [x.1] }, x.2))
  else if c = '=' then
    (automatedTok env fuel t).map (fun x => ({ pl with transactions := pl.transactions ++ [x.1] }, x.2))
  else if c = 'i' then (inc t).map (fun x => (pl.append x.1, x.2))
  else if c = 'c' then
    (reported (commodityTok env fuel t)).map (fun x =>
      ({ pl with lists := { pl.lists with commodities := pl.lists.commodities.insert env.lower x.1 } }, x.2))
  else if c = 'p' then
    (reported (payeeTok env fuel t)).map (fun x =>
      ({ pl with lists := { pl.lists with payees := pl.lists.payees.insert env.lower x.1 } }, x.2))
  else if c = 't' then
    (reported (tagTok env fuel t)).map (fun x => ({ pl with tags := pl.tags ++ [x.1] }, x.2))
  else if c = 'a' then
    (reported (accountTok env fuel t)).map (fun x =>
      ({ pl with lists := { pl.lists with accounts := pl.lists.accounts.insert env.lower x.1 } }, x.2))
  else if c = 'P' then
    (priceTok env t).map (fun x => ({ pl with prices := pl.prices ++ [x.1] }, x.2))
  else .error (.fail (t.fail .unexpectedInput))

/-- `Tokenizer::tokenize`, src/parser/mod.rs 131-192. -/
def items (env : Env) (fuel : Nat) (inc : Tok → PRes (ParsedLedger × Tok)) :
    Nat → ParsedLedger → Tok → PRes ParsedLedger
  | 0, _, _ => .error .fuel
  | n + 1, pl, t =>
    if t.rest = [] then .ok pl
    else
      match wsLines env t with
      | (t, .indented) => .error (.fail (t.fail .unexpectedInput))
      | (t, .blank) =>
        match t.rest with
        | [] => items env fuel inc n pl t
        | c :: _ =>
          match item env fuel inc c pl t with
          | .error e => .error e
          | .ok (pl', t') => items env fuel inc n pl' t'

end Dinero
