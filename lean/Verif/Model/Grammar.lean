import Verif.Model.Peg
import Verif.Model.Expr
/-
Model of the value expression part of src/grammar/grammar.pest and of the construction of the
syntax tree, src/parser/value_expr.rs 16-53 and 401-521.
-/
namespace Dinero
open P

/-- `number`, grammar.pest 96. -/
def gNumber : P := rule .number (seq (opt (lit ['-'])) (seq bigint (opt (seq (lit ['.']) bigint))))

/-- The body of a quoted string up to and including the closing quote: `(("\\q") | (!"q" ~ ANY))* ~
"q"`, grammar.pest 64-67. -/
def quotedBody (q : Char) : Str → Option Str
  | [] => none
  | c :: s =>
    if c = '\\' ∧ s.head? = some q then
      match s with
      | [] => none
      | _ :: s' => quotedBody q s'
    else if c = q then some s
    else quotedBody q s

/-- One of the two alternatives of `string`. -/
def quoted (q : Char) : P
  | c :: s => if c = q then (quotedBody q s).map (fun r => ([], r)) else none
  | [] => none

/-- `string`, grammar.pest 64-67. -/
def gString : P := rule .string (alt (quoted '"') (quoted '\''))

/-- `reserved`, grammar.pest 68. -/
def reserved (c : Char) : Bool :=
  ['+', '*', '/', '\\', '|', '%', '<', '>', ':', '?', '(', ')', ';'].contains c

/-- `unquoted`, grammar.pest 69-70. -/
def gUnquoted (env : Env) : P := rule .unquoted (seq
  (neg (chr (fun c => reserved c || c == '=' || c == '-' || c == '&')))
  (plus (chr (fun c => !reserved c && !env.sep c))))

/-- `currency`, grammar.pest 62. -/
def gCurrency (env : Env) : P := rule .currency (alt gString (gUnquoted env))

/-- `money`, grammar.pest 61. -/
def gMoney (env : Env) : P := rule .money (alt
  (seq gNumber (seq wss (gCurrency env)))
  (seq (gCurrency env) (seq wss gNumber)))

/-- `regex`, grammar.pest 63: up to the next slash. -/
def gRegex : P := rule .regex (seq (lit ['/']) (seq (star (chr (· != '/'))) (lit ['/'])))

/-- `variable`, grammar.pest 71-92. -/
def gVariable : P := rule .variable (lits ["account", "payee", "date", "note", "amount",
  "total_amount", "cost", "value", "gain", "depth", "posting_number", "posting_count", "cleared",
  "real", "not_automated", "running_total", "note", "T", "N", "O", "Z", "R", "X", "n", "l", "g",
  "v", "b"])

/-- `term` (silent), grammar.pest 60. -/
def gTerm (env : Env) : P :=
  alt gVariable (alt (gMoney env) (alt gNumber (alt gRegex gString)))

/-- `unary`, grammar.pest 106. -/
def gUnary : P := rule .unary (lits ["-", "!", "not"])
/-- `function`, grammar.pest 107. -/
def gFunction : P := rule .function (lits ["abs", "has_tag", "to_date", "any", "tag"])
/-- `add`, grammar.pest 102. -/
def gAdd : P := rule .add (lits ["+", "-"])
/-- `mult`, grammar.pest 103. -/
def gMult : P := rule .mult (lits ["*", "/"])
/-- `and`, grammar.pest 104. -/
def gAnd : P := rule .and (lits ["&", "and"])
/-- `or`, grammar.pest 105. -/
def gOr : P := rule .or (lits ["|", "or"])
/-- `comparison`, grammar.pest 108-114 (its inner pair is never looked at and is dropped). -/
def gComparison : P := rule .comparison (lits ["=~", "==", "!=", ">=", ">", "<=", "<"])

/-- `primary`, grammar.pest 52-57; `e` is the parser for `expr`. -/
def gPrimary (env : Env) (e : P) : P := rule .primary
  (alt (seq (lit ['(']) (seq wss (seq e (seq wss (lit [')'])))))
  (alt (seq gUnary (seq wss e))
  (alt (gTerm env)
    (seq gFunction (seq wss (seq (lit ['(']) (seq wss (seq e (seq wss
      (seq (star (seq (lit [',']) (seq wss (seq e wss)))) (lit [')']))))))))))) 

/-- The shape shared by the five operator levels, grammar.pest 47-51:
`operand ~ ws* ~ ( op ~ ws* ~ operand )*`. -/
def gLevel (r : Rule) (op operand : P) : P :=
  rule r (seq operand (seq wss (star (seq op (seq wss operand)))))

/-- `expr`, grammar.pest 46-51, with the nesting depth bounded by the first argument (every nested
`expr` is preceded by a consumed character, so the length of the text is a sufficient bound). -/
def gExprN (env : Env) : Nat → P
  | 0 => fun _ => none
  | n + 1 => rule .expr
      (gLevel .orExpr gOr (gLevel .andExpr gAnd (gLevel .comparisonExpr gComparison
        (gLevel .additiveExpr gAdd (gLevel .multiplicativeExpr gMult (gPrimary env (gExprN env n)))))))

/-- `expr`. -/
def gExpr (env : Env) : P := fun s => gExprN env (s.length + 1) s

/-- `value_expr`, grammar.pest 43: nothing is required after the closing parenthesis. -/
def gValueExpr (env : Env) : P := rule .valueExpr
  (seq (lit ['(']) (seq wss (seq (gExpr env) (seq wss (lit [')'])))))

/-- A string of decimal digits as a number; `none` if it is empty or has another character. -/
def natOf (s : Str) : Option Nat :=
  if s = [] then none
  else s.foldl (fun acc c => acc.bind (fun n =>
    if '0' ≤ c ∧ c ≤ '9' then some (10 * n + (c.toNat - 48)) else none)) (some 0)

/-- `BigInt::from_str` (`i32::from_str` for the year, without its range check): an optional sign and
digits. -/
def intOf : Str → Option Int
  | '-' :: s => (natOf s).map (fun n : Nat => -(n : Int))
  | '+' :: s => (natOf s).map (fun n : Nat => (n : Int))
  | s => (natOf s).map (fun n : Nat => (n : Int))

/-- `parse_rational`, src/parser/utils.rs 23-41, on the text of the pair. -/
def parseRational (text : Str) : Res Rat :=
  match intOf (text.filter (· ≠ '.')) with
  | none => .error (.panic "BigInt::from_str(..).unwrap()")
  | some n =>
    let decimals := ((text.dropWhile (· ≠ '.')).filter (· ≠ '.')).length
    .ok ((n : Rat) / (10 ^ decimals : Nat))

/-- `&full[1..full.len() - 1]`, src/parser/value_expr.rs 475-477 (both quotes are one byte long). -/
def unquote (s : Str) : Str := (s.drop 1).dropLast

/-- The operator text, src/parser/value_expr.rs 419-434. -/
def binaryOf (r : Rule) (text : Str) : Res BinaryOp :=
  match r with
  | .orExpr => .ok .or
  | .andExpr => .ok .and
  | _ =>
    if text = "+".toList then .ok .add
    else if text = "-".toList then .ok .subtract
    else if text = "*".toList then .ok .mult
    else if text = "/".toList then .ok .div
    else if text = "=~".toList ∨ text = "==".toList then .ok .eq
    else if text = "<".toList then .ok .lt
    else if text = ">".toList then .ok .gt
    else if text = "<=".toList then .ok .le
    else if text = ">=".toList then .ok .ge
    else .error (.panic "unreachable!")

/-- The function or unary operator text, src/parser/value_expr.rs 446-455. -/
def unaryOf (text : Str) : Res UnaryOp :=
  if text = "abs".toList then .ok .abs
  else if text = "-".toList then .ok .neg
  else if text = "has_tag".toList then .ok .hasTag
  else if text = "tag".toList then .ok .tag
  else if text = "to_date".toList then .ok .toDate
  else if text = "not".toList then .ok .not
  else if text = "any".toList then .ok .any
  else .error (.panic "Unknown expr")

/-- Variables, src/parser/value_expr.rs 491-498. -/
def variableOf (text : Str) : Res Ast :=
  if text = "account".toList then .ok .account
  else if text = "amount".toList then .ok .amount
  else if text = "payee".toList then .ok .payee
  else if text = "note".toList then .ok .note
  else if text = "date".toList then .ok .date
  else .error (.panic "Unknown variable")

/-- `Rule::money`, src/parser/value_expr.rs 458-472. -/
def moneyOf (inner : List Pair) : Res Ast :=
  match inner with
  | a :: b :: _ =>
    match a.rule with
    | .number =>
      match parseRational a.text with
      | .ok q => .ok (.money b.text q)
      | .error e => .error e
    | .currency =>
      match parseRational b.text with
      | .ok q => .ok (.money a.text q)
      | .error e => .error e
    | _ => .error (.panic "Unknown rule")
  | _ => .error (.panic "money.next().unwrap()")

/-- `Rule::regex` and `Rule::string`, src/parser/value_expr.rs 474-490.  A pattern in the table of
compiled regexes was compiled before, so the table does not change the result. -/
def regexOf (env : Env) (text : Str) : Res Ast :=
  if env.rxOk (unquote text) then .ok (.regex (unquote text))
  else .error (.panic "Regex::new(slice).unwrap()")

/-- `build_ast_from_expr`, src/parser/value_expr.rs 401-506.  Only the first operator and the first
two operands of a chain are looked at. -/
def buildAst (env : Env) : Pair → Res Ast
  | .mk .expr _ (p :: _) => buildAst env p
  | .mk .expr _ [] => .error (.panic "pair.into_inner().next().unwrap()")
  | .mk .primary _ [] => .error (.panic "inner.next().unwrap()")
  | .mk .primary _ (first :: rest) =>
    match first.rule, rest with
    | .function, arg :: _ | .unary, arg :: _ =>
      match unaryOf first.text with
      | .error e => .error e
      | .ok op =>
        match buildAst env arg with
        | .error e => .error e
        | .ok a => .ok (.unary op a)
    | .function, [] | .unary, [] => .error (.panic "inner.next().unwrap()")
    | .money, _ => moneyOf first.inner
    | .number, _ =>
      match parseRational first.text with
      | .ok q => .ok (.number q)
      | .error e => .error e
    | .regex, _ => regexOf env first.text
    | .string, _ => .ok (.string (unquote first.text))
    | .variable, _ => variableOf first.text
    | .expr, _ => buildAst env first
    | _, _ => .error (.panic "Unknown rule")
  | .mk _ _ [] => .error (.panic "pair.next().unwrap()")
  | .mk r _ [l] =>
    if r ∈ [Rule.comparisonExpr, .orExpr, .andExpr, .additiveExpr, .multiplicativeExpr] then
      buildAst env l
    else .error (.panic "Unknown expr")
  | .mk _ _ [_, _] => .error (.panic "pair.next().unwrap()")
  | .mk r _ (l :: op :: rr :: _) =>
    if r ∈ [Rule.comparisonExpr, .orExpr, .andExpr, .additiveExpr, .multiplicativeExpr] then
      match buildAst env l with
      | .error e => .error e
      | .ok lhs =>
        match binaryOf r op.text with
        | .error e => .error e
        | .ok o =>
          match buildAst env rr with
          | .error e => .error e
          | .ok rhs => .ok (.binary o lhs rhs)
    else .error (.panic "Unknown expr")

/-- `build_root_node_from_expression`, src/parser/value_expr.rs 19-33. -/
def buildRoot (env : Env) (expression : Str) : Res Ast :=
  match gValueExpr env expression with
  | none => .error (.panic "unsuccessful parse")
  | some (.mk _ _ (p :: _) :: _, _) => buildAst env p
  | some _ => .error (.panic "next().unwrap()")

/-- `eval_expression`, src/parser/value_expr.rs 35-53. -/
def evalExpression (env : Env) (expression : Str) (t : Txn Posting) (p : Posting)
    (st : Commodities) : Res (Val × Commodities) :=
  match buildRoot env expression with
  | .error e => .error e
  | .ok n => eval env t n p st

/-- `eval_value_expression`, src/parser/value_expr.rs 55-70. -/
def evalValueExpression (env : Env) (expression : Str) (t : Txn Posting) (p : Posting)
    (st : Commodities) : Res (Money × Commodities) :=
  match buildRoot env expression with
  | .error e => .error e
  | .ok n => evalAmountNode env t n p st

end Dinero
