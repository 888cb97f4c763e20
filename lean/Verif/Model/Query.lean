import Verif.Model.Grammar
/-
Model of the query sugar: src/filter.rs 64-137 and src/models/transaction.rs 58-87.
-/
namespace Dinero

/-- `str::trim`. -/
def trim (env : Env) (s : Str) : Str :=
  ((s.dropWhile env.ws).reverse.dropWhile env.ws).reverse

/-- The local variables of `preprocess_query`, src/filter.rs 77-80. -/
structure QueryState where
  expression : Str := []
  and : Bool := false
  first : Bool := true
  expr : Bool := false

/-- What a term contributes between the parentheses, src/filter.rs 105-130 (the sigils are one byte
long, so `[1..]` drops exactly them). -/
def wrapTerm (expr : Bool) (term : Str) : Str :=
  if expr then term
  else match term with
    | [] => []
    | c :: r =>
      if c = '@' then "payee =~ /(?i)".toList ++ r ++ "/".toList
      else if c = '%' then "has_tag(/(?i)".toList ++ r ++ "/)".toList
      else if c = '/' then "account =~ ".toList ++ term
      else "account =~ /(?i)".toList ++ term ++ "/".toList

/-- One round of the loop of `preprocess_query`, src/filter.rs 81-135. -/
def queryStep (env : Env) (st : QueryState) (raw : Str) : QueryState :=
  let term := trim env raw
  if term = [] then st
  else if term = "and".toList then { st with and := true }
  else if term = "or".toList then { st with and := false }
  else if term = "expr".toList then { st with expr := true }
  else
    { expression := st.expression ++
        (if st.first then "(".toList else if st.and then " and (".toList else " or (".toList) ++
        wrapTerm st.expr term ++ ")".toList,
      and := false, expr := false, first := false }

/-- `preprocess_query`, src/filter.rs 76-137. -/
def preprocessQuery (env : Env) (query : List Str) : Str :=
  "(".toList ++ (query.foldl (queryStep env) {}).expression ++ ")".toList

/-- The expression tree the reports build once, src/commands/balance.rs 29-37 and
src/commands/register.rs 42-50: none for the empty query `()` (`len()` counts
bytes, but since the text starts with `(` and ends with `)` it has more than two bytes exactly when it
has more than two characters). -/
def queryNode (env : Env) (query : List Str) : Res (Option Ast) :=
  let q := preprocessQuery env query
  if q.length > 2 then
    match buildRoot env q with
    | .ok n => .ok (some n)
    | .error e => .error e
  else .ok none

/-- The local variables of `get_filter_query`, src/models/transaction.rs 61-64. -/
structure SplitState where
  parts : List Str := []
  current : Str := []
  inRegex : Bool := false
  inString : Bool := false

/-- One round of the loop of `get_filter_query`, src/models/transaction.rs 65-78. -/
def splitStep (st : SplitState) (c : Char) : SplitState :=
  let st := if c = ' ' ∧ ¬ st.inString ∧ ¬ st.inRegex then
      { st with parts := st.parts ++ [st.current], current := [] }
    else st
  if c = '"' then { st with inString := !st.inString }
  else if c = '/' then { st with inRegex := !st.inRegex, current := st.current ++ [c] }
  else { st with current := st.current ++ [c] }

/-- The terms of the query of an automated transaction, src/models/transaction.rs 61-79. -/
def splitQuery (description : Str) : List Str :=
  let st := description.foldl splitStep {}
  st.parts ++ [st.current]

/-- `Transaction::get_filter_query`, src/models/transaction.rs 58-87: the description, the memo
`filter_query`; the answer and the new memo. -/
def getFilterQuery (env : Env) (description : Str) (memo : Option Str) : Str × Option Str :=
  match memo with
  | none => (preprocessQuery env (splitQuery description), some (preprocessQuery env (splitQuery description)))
  | some x => (x, some x)

end Dinero
