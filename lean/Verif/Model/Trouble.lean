import Verif.Model.Excerpt
/-
Model of the messages about a journal that cannot be read, for every error of the parser: those that the main loop finds
(`Model/Excerpt.lean`) and those inside of a transaction, a directive or an included file.

The functions of `Model/Tokenizer.lean` return an error without its text.  Those below say what the text is when the function with
the corresponding name there returns an error.
-/
namespace Dinero

/-- The contents of a `ParserError`, src/error.rs 5-10: `UnexpectedInput(None)`, `UnexpectedInput(Some(text))` and `IncludeLoop` with the
path in it (src/parser/include.rs 28-31).  The parser builds no other (`CannotReadFile` is a panic, src/parser/mod.rs 91-96). -/
inductive Reason where
  | nothing
  | text (s : Str)
  | cycle (path : Str)
  deriving DecidableEq

/-- How `{:?}` writes things. -/
structure Shown where
  /-- A path. -/
  path : Str → Str
  /-- The characters that are not escaped in a text: those that the standard library can print and that are no part of another
  character.  (Quotes, backslashes and the characters with an escape of their own do not get here.) -/
  printable : Char → Bool

/-- `char::escape_debug_ext` for a character of a text, of the standard library. -/
def Shown.char (sh : Shown) (c : Char) : Str :=
  if c = '"' then "\\\"".toList
  else if c = '\\' then "\\\\".toList
  else if c = '\t' then "\\t".toList
  else if c = '\r' then "\\r".toList
  else if c = '\n' then "\\n".toList
  else if c.toNat = 0 then "\\0".toList
  else if sh.printable c then [c]
  else "\\u{".toList ++ Nat.toDigits 16 c.toNat ++ ['}']

/-- `{:?}` for a `String`, of the standard library. -/
def Shown.text (sh : Shown) (s : Str) : Str := '"' :: s.flatMap sh.char ++ ['"']

/-- `{:?}` for a `ParserError`, src/error.rs 5-10, as src/parser/mod.rs 203 writes it. -/
def Reason.shown (sh : Shown) : Reason → Str
  | .nothing => "UnexpectedInput(None)".toList
  | .text s => "UnexpectedInput(Some(".toList ++ sh.text s ++ "))".toList
  | .cycle p => "IncludeLoop(".toList ++ sh.text ("Cycle detected. ".toList ++ sh.path p) ++ ")".toList

/-- An error of the parser: the file of the tokenizer that finds it, whether `Error while parsing posting.` is written before it, the
state of that tokenizer when it builds the message (none: the error is made without `Tokenizer::error`), and the error. -/
structure Trouble where
  file : Option Str
  posting : Bool
  place : Option Tok
  why : Reason
  deriving DecidableEq

/-! ### Postings -/

/-- The errors of `parse_amount`, src/parser/tokenizers/transaction.rs 389-429: the second point (397-399) or the number (415-417).  The
denominator is always a number. -/
def amountReason (env : Env) (t : Tok) : Reason :=
  match amountAux env t.rest false with
  | none => .text "Too many decimal separators".toList
  | some _ => .text "Wrong number format".toList

/-- The errors of `parse_money`, src/parser/tokenizers/transaction.rs 347-387. -/
def moneyReason (env : Env) (t : Tok) : Reason :=
  match t.rest with
  | [] => .text "Expected ammount missing".toList
  | c :: _ =>
    if env.numeric c ∨ c = '.' ∨ c = '-' then amountReason env t
    else amountReason env (getString env t).2

/-- The errors about the brackets around an account, src/parser/tokenizers/transaction.rs 225-241. -/
def kindReason (account : Str) : Reason :=
  if account.head? = some '(' then .text "Expected ')'".toList else .text "Expected ']'".toList

/-- The errors of the loop over the amounts of a posting, src/parser/tokenizers/transaction.rs 272-343. -/
def amountsReason (env : Env) (ttype : TType) : Nat → RawPosting → Tok → Option Reason
  | 0, _, _ => none
  | n + 1, p, t =>
    match t.rest with
    | [] => none
    | '\n' :: _ => none
    | ';' :: _ => none
    | '(' :: _ =>
      let x := getValueExpression t
      amountsReason env ttype n { p with amountExpr := some x.1 } (consumeWs env x.2)
    | '=' :: r =>
      let t1 := consumeWs env { t with rest := r, col := t.col + 1 }
      match parseMoney env t1 with
      | (.error _, _) => some (moneyReason env t1)
      | (.ok m, t') =>
        amountsReason env ttype n { p with balanceAmount := some m.1, balanceCurrency := some m.2 } (consumeWs env t')
    | '@' :: r =>
      match p.moneyAmount with
      | none => some (.text "Amount not found".toList)
      | some _ =>
        match r with
        | [] => none
        | d :: r' =>
          let t1 := consumeWs env (if d = '@' then { t with rest := r', col := t.col + 2 }
            else { t with rest := r, col := t.col + 1 })
          match parseMoney env t1 with
          | (.error _, _) => some (moneyReason env t1)
          | (.ok m, t') =>
            amountsReason env ttype n
              { p with costAmount := some m.1, costCurrency := some m.2,
                       costType := some (if d = '@' then .total else .perUnit) } (consumeWs env t')
    | _ :: _ =>
      match parseMoney env t with
      | (.ok m, t') =>
        amountsReason env ttype n { p with moneyAmount := some m.1, moneyCurrency := some m.2 } (consumeWs env t')
      | (.error _, t') =>
        if ttype = .automated then
          let x := getLine t'
          if x.2.line = 0 then none
          else
            amountsReason env ttype n { p with amountExpr := some x.1 }
              (consumeWs env { x.2.unread with line := x.2.line - 1 })
        else some (moneyReason env t)

/-- The errors of `parse_posting`, src/parser/tokenizers/transaction.rs 192-344. -/
def postingReason (env : Env) (fuel : Nat) (ttype : TType) (payee : Option Str) (t : Tok) : Option Reason :=
  match accountAux env.ws t.rest t.line t.col with
  | none => none
  | some (name, stop, rest, line, col) =>
    let t' : Tok := { t with rest := rest, line := line, col := col }
    match accountKind env name with
    | .error _ => none
    | .ok (.error _) => some (kindReason name)
    | .ok (.ok (account, kind)) =>
      let p : RawPosting := { account := account, kind := kind, payee := payee }
      if stop = .line then none
      else amountsReason env ttype fuel p (consumeWs env t')

/-! ### Transactions -/

/-- The errors among the lines of a transaction, src/parser/tokenizers/transaction.rs 70-108 and 133-171. -/
def txnTrouble (env : Env) (fuel : Nat) (file : Option Str) : Nat → Txn RawPosting → Tok → Option Trouble
  | 0, _, _ => none
  | n + 1, txn, t =>
    match wsLines env t with
    | (_, .blank) => none
    | (t, .indented) =>
      match t.rest with
      | [] => none
      | c :: _ =>
        if c = ';' then
          let x := commentTok env t
          if txn.postings = [] then
            txnTrouble env fuel file n { txn with comments := txn.comments ++ [x.1] } x.2
          else txnTrouble env fuel file n { txn with postings := addComment x.1 txn.postings } x.2
        else if env.numeric c then
          some { file := file, posting := false, place := some t, why := .text "Expecting account name".toList }
        else
          match parsePosting env fuel txn.ttype txn.payee t with
          | .error _ => none
          | .ok (.error _, t') =>
            (postingReason env fuel txn.ttype txn.payee t).map
              (fun w => { file := file, posting := true, place := some t', why := w })
          | .ok (.ok p, t') => txnTrouble env fuel file n { txn with postings := txn.postings ++ [p] } t'

/-- The errors of `transaction::parse`, src/parser/tokenizers/transaction.rs 15-109. -/
def transactionTrouble (env : Env) (fuel : Nat) (file : Option Str) (t : Tok) : Option Trouble :=
  let x := getLine t
  match parseHeader env x.1 with
  | .error _ => none
  | .ok txn => txnTrouble env fuel file fuel txn x.2

/-- The errors of `parse_automated_transaction`, src/parser/tokenizers/transaction.rs 111-172. -/
def automatedTrouble (env : Env) (fuel : Nat) (file : Option Str) (t : Tok) : Option Trouble :=
  let x := getLine t
  match x.1.dropWhile (· != '=') with
  | [] => none
  | _ :: d => txnTrouble env fuel file fuel { ttype := .automated, description := d } x.2

/-! ### Directives -/

/-- The word that no property of an account is called, src/parser/tokenizers/account.rs 53-83. -/
def accountWord (env : Env) : Nat → Tok → Option Str
  | 0, _ => none
  | n + 1, t =>
    match wsLines env t with
    | (_, .blank) => none
    | (t, .indented) =>
      if t.rest.head? = some ';' then accountWord env n (getLine t).2
      else
        let w := getString env t
        let l := lineTrim env w.2
        if w.1 = "note".toList ∨ w.1 = "isin".toList ∨ w.1 = "check".toList ∨ w.1 = "assert".toList ∨ w.1 = "alias".toList then
          accountWord env n l.2
        else if w.1 = "payee".toList then
          if env.rxOk l.1 then accountWord env n l.2 else none
        else if w.1 = "default".toList then accountWord env n w.2
        else some w.1

/-- The word that no property of a commodity is called, src/parser/tokenizers/commodity.rs 27-46. -/
def commodityWord (env : Env) : Nat → Tok → Option Str
  | 0, _ => none
  | n + 1, t =>
    match wsLines env t with
    | (_, .blank) => none
    | (t, .indented) =>
      if t.rest.head? = some ';' then commodityWord env n (commentTok env t).2
      else
        let w := getString env t
        if w.1 = "note".toList ∨ w.1 = "format".toList ∨ w.1 = "alias".toList then commodityWord env n (lineTrim env w.2).2
        else if w.1 = "default".toList then commodityWord env n w.2
        else some w.1

/-- The error of `account::parse`, src/parser/tokenizers/account.rs 76-81. -/
def accountReason (env : Env) (fuel : Nat) (t : Tok) : Option Reason :=
  (accountWord env fuel (getLine t).2).map (fun w =>
    .text ("Found ".toList ++ w ++ ". Expected one of alias, note, isin, check, assert, payee.".toList))

/-- The error of `commodity::parse`, src/parser/tokenizers/commodity.rs 37-43. -/
def commodityReason (env : Env) (fuel : Nat) (t : Tok) : Option Reason :=
  (commodityWord env fuel (getLine t).2).map (fun w =>
    .text ("Found ".toList ++ w ++ ". Should be one of 'note', 'alias', 'format', 'default'".toList))

/-- The error of a directive with this reason, reported by the main loop, src/parser/mod.rs 148-177. -/
def directiveTrouble {α : Type} (file : Option Str) (x : PRes (Except Err α × Tok)) (w : Option Reason) : Option Trouble :=
  match x with
  | .ok (.error _, t) => w.map (fun w => { file := file, posting := true, place := some t, why := w })
  | _ => none

/-! ### The main loop -/

/-- The error of one item, src/parser/mod.rs 137-181; `inc` is about `include::parse`.  The errors of payee and tag directives have no
text (src/parser/tokenizers/payee.rs 67, src/parser/tokenizers/tag.rs 60); a price that cannot be read is a panic. -/
def itemTrouble (env : Env) (fuel : Nat) (inc : Tok → Option Trouble) (file : Option Str) (c : Char) (t : Tok) : Option Trouble :=
  if c ∈ [';', '!', '*', '%', '#'] then none
  else if env.numeric c then transactionTrouble env fuel file t
  else if c = '=' then automatedTrouble env fuel file t
  else if c = 'i' then inc t
  else if c = 'c' then directiveTrouble file (commodityTok env fuel t) (commodityReason env fuel t)
  else if c = 'p' then directiveTrouble file (payeeTok env fuel t) (some .nothing)
  else if c = 't' then directiveTrouble file (tagTok env fuel t) (some .nothing)
  else if c = 'a' then directiveTrouble file (accountTok env fuel t) (accountReason env fuel t)
  else if c = 'P' then none
  else some { file := file, posting := false, place := some t, why := .nothing }

/-- The error of `Tokenizer::tokenize`, src/parser/mod.rs 131-192. -/
def itemsTrouble (env : Env) (fuel : Nat) (inc : Tok → PRes (ParsedLedger × Tok)) (incT : Tok → Option Trouble) (file : Option Str) :
    Nat → ParsedLedger → Tok → Option Trouble
  | 0, _, _ => none
  | n + 1, pl, t =>
    if t.rest = [] then none
    else
      match wsLines env t with
      | (t, .indented) => some { file := file, posting := false, place := some t, why := .text "Unexpected indentation".toList }
      | (t, .blank) =>
        match t.rest with
        | [] => itemsTrouble env fuel inc incT file n pl t
        | c :: _ =>
          match item env fuel inc c pl t with
          | .error _ => itemTrouble env fuel incT file c t
          | .ok (pl', t') => itemsTrouble env fuel inc incT file n pl' t'

/-! ### Included files -/

/-- The error of the first of these files that cannot be read as a journal, src/parser/include.rs 39-47. -/
def includeFilesTrouble (tok : Str → PRes ParsedLedger) (tokT : Str → Option Trouble) : List Str → Option Trouble
  | [] => none
  | f :: fs =>
    match tok f with
    | .error _ => tokT f
    | .ok _ => includeFilesTrouble tok tokT fs

/-- The error of `include::parse`, src/parser/include.rs 8-49.  `consume_str(..)?` turns its error into one without a message
(src/error.rs 39-44); the error about a file that is already being read is about the first such file. -/
def includeTrouble (fs : Files) (file : Option Str) (seen : List Str) (tok : Str → PRes ParsedLedger) (tokT : Str → Option Trouble)
    (t : Tok) : Option Trouble :=
  match consumeStr "include ".toList t with
  | .error _ => some { file := file, posting := false, place := none, why := .nothing }
  | .ok t =>
    let x := getLine t
    match includePattern fs file x.1 with
    | .error _ => none
    | .ok pattern =>
      match fs.glob pattern with
      | none => none
      | some entries =>
        let files := entries.filterMap id
        match files.find? (fun f => seen.contains f) with
        | some f => some { file := file, posting := false, place := some x.2, why := .cycle f }
        | none => includeFilesTrouble tok tokT files

/-- The error of a file, src/parser/mod.rs 89-111 and 131-192 and src/parser/include.rs 39-47, as in `tokenizeFile`. -/
def fileTrouble (env : Env) (fs : Files) (fuel : Nat) : Nat → List Str → Str → Option Trouble
  | 0, _, _ => none
  | depth + 1, seen, file =>
    match fs.read file with
    | none => none
    | some content =>
      itemsTrouble env fuel
        (includeTok fs (some file) (file :: seen) (fun f => tokenizeFile env fs fuel depth (file :: seen) f))
        (includeTrouble fs (some file) (file :: seen) (fun f => tokenizeFile env fs fuel depth (file :: seen) f)
          (fun f => fileTrouble env fs fuel depth (file :: seen) f))
        (some file) fuel {} (Tok.ofContent content)

/-! ### What is written -/

/-- What an error writes to stderr: `eprintln!("Error while parsing posting.")` where there is one, and the message and a line break,
src/app.rs 223-227: nothing if the message is empty. -/
def Trouble.written (sh : Shown) (x : Trouble) : Str :=
  (if x.posting then "Error while parsing posting.\n".toList else []) ++
    (match x.place with
      | none => []
      | some t => t.message (x.file.map sh.path) (x.why.shown sh) ++ ['\n'])

/-- What the program writes to stderr about a journal that it rejects with an error, src/app.rs 223-227.  (Not part of it: the
notes that are written in any case, `Model/Notes`.) -/
def Run.rejection (r : Run) (sh : Shown) (path : Str) : Option Str :=
  match r.journal path with
  | .error (.fail (.error _)) => (fileTrouble r.env r.fs r.fuel r.depth [] path).map (·.written sh)
  | _ => none

end Dinero
