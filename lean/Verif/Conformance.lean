import Verif.Model.Args
import Verif.Model.Comment
import Verif.Model.Notes
/-
The tests of the project, run on the model.  Nothing is proved here: these are the examples that the authors of the program have
written down, tests/*.rs and the `mod tests` of src, with what they expect, and each is evaluated with two orders of the hash maps.
They are evidence that the model is one of this program.

Left out: `test_include` and `include_glob`, tests/test_include.rs (the files they include are not in the repository, only
references to them), the date `2010` of `command_line_dates`, src/app.rs 280 (the crate two_timer reads it), and
`next_panic_gracefully`, src/parser/mod.rs 301-306 (it sets a position that no reading gets to).
-/
namespace Dinero.Conformance
open Dinero

/-- tests/example_files. -/
def files : List (String × String) := [
  ("tests/example_files/automated.ledger",
    "= Income:Salary\n" ++
    "    (Savings)            600 EUR\n" ++
    "    (Free spending)      (abs(amount) - EUR 600)\n" ++
    "= Savings\n" ++
    "    (Savings:Risky investments)    (amount * 0.10)\n" ++
    "    (Savings:Deposits)             0.40\n" ++
    "    (Savings:Shares)               (amount / 2)\n" ++
    "= Expenses:Rent\n" ++
    "    Expenses:Rent        EUR 553.12\n" ++
    "    Expenses:Utilities   (amount - 553.12 EUR)\n" ++
    "    Expenses:Rent        (-amount)\n" ++
    "= @\"My favorite restaurant\"\n" ++
    "    ; :yummy:\n" ++
    "\n" ++
    "2021-01-01 * Flights\n" ++
    "    Income:Salary      -1000 EUR\n" ++
    "    Assets:Checking account\n" ++
    "2021-01-05 * Rent\n" ++
    "    Expenses:Rent               705.43 EUR\n" ++
    "    Assets:Checking account\n" ++
    "2021-01-06 * Meal | My favorite restaurant\n" ++
    "    ; :one_tag:\n" ++
    "    Expenses:Restaurants        58.33 EUR\n" ++
    "    Assets:Cash\n"),
  ("tests/example_files/automated_fail.ledger",
    "; This should fail because the added posting makes the transaction unbalanced\n" ++
    "\n" ++
    "= flights\n" ++
    "    [Bugdet:Holiday]   -1\n" ++
    "\n" ++
    "2021-01-01 * Flights\n" ++
    "    ; :holiday:\n" ++
    "    Expenses:Flights      200 USD\n" ++
    "    Assets:Checking account\n" ++
    "\n" ++
    "\n"),
  ("tests/example_files/demo.ledger",
    "; A simple demo file with comments\n" ++
    "! Comments can also be like this\n" ++
    "# or like this\n" ++
    "\n" ++
    "2021-01-01 * Groceries\n" ++
    "    ; :fruit:\n" ++
    "    Expenses:Groceries   $100\n" ++
    "    Assets:Bank:Checking account\n" ++
    "\n" ++
    "2021-01-03 * Clothing\n" ++
    "    ; :skirt:\n" ++
    "    Expenses:Clothes   $69.37\n" ++
    "    Assets:Bank:Checking account   $-69.37\n" ++
    "\n" ++
    "2021-01-15 * Flights\n" ++
    "    ; destination: spain\n" ++
    "    Expenses:Unknown      200 EUR    ; this will get translated to Expenses:Flights\n" ++
    "    Assets:Bank:Checking account   $-210.12\n" ++
    "\n" ++
    "2021-01-16 * Alphabet Inc.\n" ++
    "    Assets:Shares        2 GOOGL @ $957.37\n" ++
    "    Assets:Bank:Checking account\n" ++
    "\n" ++
    "2021-01-16 * ACME.\n" ++
    "    Assets:Shares        2 ACME @@ $957.37\n" ++
    "    Assets:Bank:Checking account\n" ++
    "\n" ++
    "2021-01-27 * ACME, inc.\n" ++
    "    Income:Salary     $-100\n" ++
    "    Assets:Bank:Checking account\n" ++
    "\n" ++
    "commodity €\n" ++
    "    alias EUR\n" ++
    "    alias EURUSD=X\n" ++
    "commodity USD\n" ++
    "    alias $\n" ++
    "P 2021-01-23 AAPL 139.07 USD\n" ++
    "; Difficult things to parse that were in my ledger\n" ++
    "P 2018/01/14 17:37:11 BTC 13420.7 USD\n" ++
    "P 2013/12/11 EURUSD=X 1.376444 USD\n" ++
    "P 2015/08/07 ETH-USD 2.772120 USD\n" ++
    "\n" ++
    "payee ACME, inc.\n" ++
    "    alias (?i)(.*acme.*)\n" ++
    "account Expenses:Travel\n" ++
    "    payee Flights\n"),
  ("tests/example_files/demo_bad.ledger",
    "; A simple demo file with comments\n" ++
    "! Comments can also be like this\n" ++
    "# or like this\n" ++
    "\n" ++
    "2021-01-01 * Groceries\n" ++
    "    ; :fruit:\n" ++
    "    Expenses:Groceries   $100\n" ++
    "    Assets:Checking account\n" ++
    "\n" ++
    "; This does not balance... on purpose\n" ++
    "2021-01-03 * Clothing\n" ++
    "    ; :skirt:\n" ++
    "    Expenses:Clothes   $69.37\n" ++
    "    Assets:Checking account   $-100\n" ++
    "\n" ++
    "2021-01-15 * Flights\n" ++
    "    ; destination: spain\n" ++
    "    Expenses:Travel      200 EUR\n" ++
    "    Assets:Checking account   $-210.12\n" ++
    "\n" ++
    "2021-01-16 * Alphabet Inc.\n" ++
    "    Assets:Shares        2 GOOGL @ $957.37\n" ++
    "    Assets:Checking account\n" ++
    "\n" ++
    "2021-01-16 * ACME.\n" ++
    "    Assets:Shares        2 ACME @@ $957.37\n" ++
    "    Assets:Checking account\n" ++
    "\n" ++
    "2021-01-27 * ACME, inc.\n" ++
    "    Income:Salary     $-100\n" ++
    "    Assets:Checking account\n" ++
    "\n" ++
    "commodity €\n" ++
    "    alias EUR\n" ++
    "commodity USD\n" ++
    "    alias $\n" ++
    "P 2021-01-23 AAPL 139.07 USD\n"),
  ("tests/example_files/exchange.ledger",
    "2020-01-01 * ACME, Inc.\n" ++
    "    Assets:Shares        1 ACME @ 1000.00 USD\n" ++
    "    Assets:Bank:Checking account\n" ++
    "2021-01-01 * ACME, Inc.\n" ++
    "    Assets:Shares        1 ACME @ 1000.00 EUR\n" ++
    "    Assets:Bank:Checking account\n" ++
    "\n" ++
    "P 2020-07-01 EUR 1.5 USD\n" ++
    "\n" ++
    "; I have 2 ACME Shares\n" ++
    "; worth 2000 EUR\n" ++
    "; worth 3000 USD because the last exchange rate was 1.5\n" ++
    "; in terms of nodes there should be\n" ++
    "; 2021-01-01 ACME\n" ++
    "; 2021-01-01 EUR\n" ++
    "; 2020-07-01 EUR\n" ++
    "; 2020-07-01 USD\n" ++
    "; NOTHING for 2020-01-01\n" ++
    ";"),
  ("tests/example_files/tags.ledger",
    "; File to test tags and tag related options\n" ++
    "2021-01-01 * Fruit\n" ++
    "    ; :shopping:\n" ++
    "    Expenses:Groceries     15.03 EUR\n" ++
    "    ; :healthy:\n" ++
    "    Assets:Cash\n"),
  ("tests/example_files/virtual_postings.ledger",
    "2021-01-01 * Groceries 1\n" ++
    "    Expenses:Groceries   $100\n" ++
    "    (Budget:Food)        $-100\n" ++
    "    Assets:Checking account\n" ++
    "\n" ++
    "2021-01-02 * Groceries 2\n" ++
    "    Budget:Food    $50\n" ++
    "    Assets:Checking account\n" ++
    "\n" ++
    "2021-01-03 * Groceries virtual balanced\n" ++
    "    [Budget:Food]      $200\n" ++
    "    [Bugget:Savings]  $-200\n"),
  ("tests/example_files/example_ledgerrc",
    "# This is a sample file of ledgerrc, very comfortable for setting default options\n" ++
    "--force-color\n" ++
    "--real\n"),
  ("tests/example_files/example_bad_ledgerrc",
    "# This is a sample file of ledgerrc, very comfortable for setting default options\n" ++
    "This line should be a comment but isn't, it is bad on purpose.\n"),
  ("tests/example_files/example_bad_ledgerrc2",
    "- This does not parse either. And it shouldn't.")]

/-- Is `p` somewhere in `s`? -/
def inside (p : Str) : Str → Bool
  | [] => p.isEmpty
  | c :: s => p.isPrefixOf (c :: s) || inside p s

def low (s : Str) : Str := s.map Char.toLower

/-- The regular expressions of the tests are words, perhaps with `(?i)` and in `(.*…​.*)`. -/
def rx (pat text : Str) : Bool :=
  let body := if "(?i)".toList.isPrefixOf pat then low (pat.drop 4) else pat
  let text := if "(?i)".toList.isPrefixOf pat then low text else text
  let body := if "(.*".toList.isPrefixOf body then (body.drop 3).take (body.length - 6) else body
  inside body text

def date (s : Str) : Res Date := dateParser Char.isDigit (fun _ => none) s

def env : Env :=
  { lower := low, rxOk := fun _ => true, rx := rx, dateOf := fun s => (date s).toOption,
    ws := Char.isWhitespace, numeric := Char.isDigit, sep := fun c => c == ' ' || c == '\u00a0' }

def fs : Files :=
  { read := fun p => (files.find? (fun f => f.1.toList == p)).map (·.2.toList)
    glob := fun p => some ((files.filter (fun f => f.1.toList == p)).map (fun f => some f.1.toList))
    parent := fun _ => some "tests/example_files".toList }

def shuf (b : Bool) : Shuf := if b then .rev else .id

def world (b : Bool) : World :=
  { run :=
      { env := env, fs := fs, fuel := 2000, depth := 3,
        orders := ⟨shuf b, shuf b, shuf b, shuf b, shuf b, fun _ => shuf b, fun _ => shuf b, fun _ => shuf b, fun _ => shuf b⟩ }
    exist := fun p => files.any (fun f => f.1.toList == p), home := "~/.ledgerrc".toList
    parse := fun a => (readArgs date a).getD (.error 99), term := none
    today := dayNumber 2026 11 16
    bal := ⟨shuf b, shuf b, shuf b, shuf b, fun _ => shuf b, shuf b, ⟨shuf b, shuf b, shuf b⟩, fun _ => shuf b,
      fun _ => shuf b, shuf b, shuf b⟩
    reg := fun _ => shuf b
    list := shuf b }

def run (b : Bool) (args : List String) : Option Outcome := program (world b) ("dinero".toList :: args.map String.toList)


/-- Status and number of lines on stdout, if they are the same for both orders. -/
def lines (args : List String) : Option (Nat × Option Nat) :=
  let of (b : Bool) := (run b args).map (fun o => (o.status, o.out.map (fun t => (strLines t).length)))
  if of false = of true then of false else none

/-- The text on stdout, if it is the same for both orders. -/
def out (args : List String) : Option Str :=
  let of (b : Bool) := (run b args).bind (fun o => o.out)
  if of false = of true then of false else none

def speech (b : Bool) : Speech :=
  { shown := ⟨fun p => ['"'] ++ p ++ ['"'], fun c => decide (' ' ≤ c)⟩, maps := (shuf b, shuf b), node := fun _ => "Node".toList }

/-- The number of lines on stderr. -/
def errLines (b : Bool) (args : List String) : Option Nat :=
  match readArgs date ("dinero".toList :: args.map String.toList) with
  | some (.ok i) => some (strLines (commandErr (world b) (speech b) (fun _ _ => []) i)).length
  | _ => none

def parsed (text : String) : Option ParsedLedger := (tokenizeText env fs 2000 3 text.toList).toOption

/-- `tokenize().unwrap().to_ledger(skip)`. -/
def ledgerOf (b skip : Bool) (text : String) : Option (Res Ledger) :=
  (parsed text).map (toLedger env (world b).run.orders skip)

def accepted (text : String) : Bool :=
  [true, false].all (fun b => match ledgerOf b false text with | some (.ok _) => true | _ => false)

def rejected (text : String) : Bool :=
  [true, false].all (fun b => match ledgerOf b false text with | some (.error (.error _)) => true | _ => false)

def panics (text : String) (why : String) : Bool :=
  [true, false].all (fun b => match ledgerOf b false text with | some (.error (.panic w)) => w == why | _ => false)

/-- `conversion` to a commodity of a ledger, on the day of the program. -/
def rates (b : Bool) (text name : String) : Option (HMap Cur Rat) :=
  match ledgerOf b false text with
  | some (.ok l) =>
    match l.commodities.get low name.toList with
    | .ok c => (conversion ⟨shuf b, shuf b, shuf b⟩ c.name (world b).today l.prices).toOption
    | .error _ => none
  | _ => none

/-! ### tests/test_commands.rs, tests/test_expressions.rs and tests/test_tags.rs -/

#guard lines ["bal", "-f", "tests/example_files/demo.ledger"] = some (0, some 17)
#guard lines ["bal", "-f", "tests/example_files/demo.ledger", "-e", "2021-01-17", "-b", "2021-01-15", "--force-color"] = some (0, some 12)
#guard lines ["reg", "-f", "tests/example_files/virtual_postings.ledger"] = some (0, some 7)
#guard lines ["reg", "-f", "tests/example_files/virtual_postings.ledger", "--real"] = some (0, some 4)
#guard lines ["bal", "-f", "tests/example_files/demo.ledger", "--flat", "%fruit"] = some (0, some 4)
#guard lines ["bal", "-f", "tests/example_files/demo.ledger", "--depth", "1"] = some (0, some 11)
#guard lines ["bal", "-f", "tests/example_files/demo.ledger", "--flat", "--depth", "1"] = some (0, some 11)
#guard lines ["bal", "-f", "tests/example_files/demo.ledger", "--flat", "travel"] = some (0, some 1)
#guard lines ["accounts", "-f", "tests/example_files/demo.ledger"] = some (0, some 7)
#guard lines ["check", "-f", "tests/example_files/demo.ledger"] = some (0, some 1)
#guard lines ["check", "-f", "tests/example_files/demo_bad.ledger"] = some (1, some 1)
#guard lines ["prices", "-f", "tests/example_files/demo.ledger"] = some (0, some 7)
#guard lines ["payees", "-f", "tests/example_files/demo.ledger"] = some (0, some 5)
#guard lines ["commodities", "-f", "tests/example_files/demo.ledger"] = some (0, some 7)
#guard lines ["reg", "-f", "tests/example_files/automated_fail.ledger"] = some (1, some 0)
#guard lines ["reg", "-f", "tests/example_files/automated.ledger"] = some (0, some 11)
#guard lines ["reg", "-f", "tests/example_files/automated.ledger", "%yummy"] = some (0, some 2)
#guard lines ["reg", "-f", "tests/example_files/demo.ledger", "expr", "date > to_date('2021/01/16')"] = some (0, some 2)
#guard lines ["reg", "-f", "tests/example_files/demo.ledger", "expr", "date >= to_date('2021/01/16')"] = some (0, some 15)
#guard lines ["reg", "-f", "tests/example_files/demo.ledger", "expr", "date < to_date('2021/01/16')"] = some (0, some 7)
#guard lines ["reg", "-f", "tests/example_files/demo.ledger", "expr", "date <= to_date('2021/01/01')"] = some (0, some 2)
#guard lines ["reg", "-f", "tests/example_files/demo.ledger", "expr", "date == to_date('2021/01/01')"] = some (0, some 2)
#guard lines ["reg", "-f", "tests/example_files/demo.ledger", "expr", "any(abs(amount) > 1000)"] = some (0, some 3)
#guard lines ["reg", "-f", "tests/example_files/demo.ledger", "expr", "any((500 + 500) < abs(amount))"] = some (0, some 3)
#guard lines ["reg", "-f", "tests/example_files/demo.ledger", "expr", "any(abs(amount) == (2 * 1))"] = some (0, some 9)
#guard lines ["reg", "-f", "tests/example_files/demo.ledger", "expr", "any(abs(amount) == 100 $)"] = some (0, some 4)
#guard lines ["reg", "-f", "tests/example_files/demo.ledger", "expr", "(2 * (5 eur)) < ((3 usd) / 5))"] = some (101, some 0)
#guard lines ["reg", "-f", "tests/example_files/tags.ledger", "%healthy"] = some (0, some 1)
#guard lines ["reg", "-f", "tests/example_files/tags.ledger", "%shopping"] = some (0, some 2)

-- `exchange` and `commodity_alias`
#guard (out ["bal", "-f", "tests/example_files/demo.ledger", "-X", "EUR", "--force-color"]).isSome
#guard (out ["bal", "-f", "tests/example_files/demo.ledger", "-X", "EUR"]).isSome
#guard out ["bal", "-f", "tests/example_files/demo.ledger", "-X", "EUR"] =
  out ["bal", "-f", "tests/example_files/demo.ledger", "-X", "eur"]
#guard lines ["bal", "-f", "tests/example_files/demo.ledger", "-X", "eur"] matches some (0, _)

-- `check_command_bad_file` and `automated_fail`: the lines on stderr
#guard errLines false ["check", "-f", "tests/example_files/demo_bad.ledger"] = some 4
#guard errLines true ["check", "-f", "tests/example_files/demo_bad.ledger"] = some 4
#guard errLines false ["reg", "-f", "tests/example_files/automated_fail.ledger"] = some 5
#guard errLines true ["reg", "-f", "tests/example_files/automated_fail.ledger"] = some 5

/-! ### src/app.rs -/

#guard (date "2010-5-3".toList).toOption = some (dayNumber 2010 5 3)
#guard (date "2010-09".toList).toOption = some (dayNumber 2010 9 1)
#guard (date "2020-09-05".toList).toOption = some (dayNumber 2020 9 5)
#guard (date "2017-12-05".toList).toOption = some (dayNumber 2017 12 5)
#guard (date "2020-01-12".toList).toOption = some (dayNumber 2020 1 12)
#guard date "this is not a date".toList matches .error (.error _)
-- "This test panics correctly, but it should be written elsewhere"
#guard date "2020-13-12".toList matches .error (.panic _)

#guard lines ["bal", "-f", "tests/example_files/demo.ledger", "--init-file", "tests/example_files/example_ledgerrc", "--real"]
  matches some (0, _)
#guard lines ["bal", "--init-file", "tests/example_files/example_bad_ledgerrc"] = some (101, some 0)
#guard lines ["bal", "--init-file", "tests/example_files/example_bad_ledgerrc2"] = some (101, some 0)
#guard lines ["bal", "-f", "this_file_does_not_exist.ledger"] = some (101, some 0)

/-! ### tests/test_account_names.rs -/

def accountNames : List String := [
  "2021-01-15 * Flights\n" ++
    "    Expenses:Travel            200 EUR\n" ++
    "    Assets:Checking account   -200 EUR\n" ++
    "2021-01-16 * More flights\n" ++
    "    Expenses:Travel            300 EUR\n" ++
    "    Assets:Checking account \n",
  "2021-01-15 * Flights\n" ++
    "    Expenses:Travel            200 EUR\n" ++
    "    Assets:Checking account   -200 EUR\n" ++
    "2021-01-16 * More flights\n" ++
    "    Expenses:Travel            300 EUR\n" ++
    "    Assets:Checking account  =-500 EUR\n",
  "2021-01-15 * Flights\n" ++
    "    Expenses:Travel            200 EUR\n" ++
    "    Assets:Checking account   -200 EUR\n" ++
    "2021-01-16 * More flights\n" ++
    "    Expenses:Travel            300 EUR\n" ++
    "    Assets:Checking account   -300 EUR\n",
  "2021-01-15 * Flights\n" ++
    "    Expenses:Travel            200 EUR\n" ++
    "    Assets:Checking account   -200 EUR\n" ++
    "2021-01-16 * More flights\n" ++
    "    Expenses:Travel            300 EUR\n" ++
    "    Assets:Checking account   -300 EUR = -500 EUR\n"]

#guard accountNames.all (fun t => (parsed t).any (fun pl => pl.lists.accounts.list.length == 0))
#guard accountNames.all (fun t => [true, false].all (fun b =>
  match ledgerOf b true t with | some (.ok l) => l.accounts.list.length == 2 | _ => false))

/-! ### tests/test_balances.rs, tests/test_failures.rs and tests/test_include.rs -/

#guard accepted (
    "2021-01-15 * Flights\n" ++
    "    Expenses:Travel            200 EUR\n" ++
    "    Assets:Checking account   -200 EUR\n" ++
    "2021-01-16 * More flights 1\n" ++
    "    Expenses:Travel            300 EUR\n" ++
    "    Assets:Checking account           = -500 EUR\n" ++
    "2021-01-16 * More flights 2\n" ++
    "    Expenses:Travel            300 EUR\n" ++
    "    Assets:Checking account   -300 EUR = -800 EUR \n" ++
    "2021-01-16 * More flights 3\n" ++
    "    Expenses:Travel            300 EUR\n" ++
    "    Assets:Checking account           = -1100 EUR\n")
#guard panics (
    "\n" ++
    "= travel\n" ++
    "    (failure)     (account)\n" ++
    "2021-01-15 * Flights\n" ++
    "    Expenses:Travel      200 EUR\n" ++
    "    Assets:Checking account   -200 EUR\n")
    "Should be money."
#guard rejected (
    "\n" ++
    "2021-01-15 * Flights\n" ++
    "    Expenses:Travel      200 EUR\n" ++
    "    Assets:Checking account   -180 EUR\n")
#guard accepted (
    "\n" ++
    "2000-01-01 * Sell shares\n" ++
    "    Assets:Shares      -3.25 ACME @@ 326 USD;@ 100 USD\n" ++
    "    Assets:Checking     326 USD\n" ++
    "        ")
#guard accepted (
    "\n" ++
    "2000-01-01 * Sell shares\n" ++
    "    Assets:Shares      -3.25 ACME @@ 326 USD  ;@ 100 USD\n" ++
    "    Assets:Checking     326 USD\n" ++
    "        ")
#guard (files.find? (fun f => f.1 == "tests/example_files/demo.ledger")).any (fun f => accepted f.2)

/-! ### tests/test_exchange.rs and src/models/price.rs -/

def exchangeText : String :=
    "2020-01-01 * ACME, Inc.\n" ++
    "    Assets:Shares        1 ACME @ 1000.00 USD\n" ++
    "    Assets:Bank:Checking account\n" ++
    "2021-01-01 * ACME, Inc.\n" ++
    "    Assets:Shares        1 ACME @ 1000.00 EUR\n" ++
    "    Assets:Bank:Checking account\n" ++
    "\n" ++
    "P 2020-07-01 EUR 1.5 USD\n" ++
    "\n" ++
    "; I have 2 ACME Shares\n" ++
    "; worth 2000 EUR\n" ++
    "; worth 3000 USD because the last exchange rate was 1.5\n" ++
    "; in terms of nodes there should be\n" ++
    "; 2021-01-01 ACME\n" ++
    "; 2021-01-01 EUR\n" ++
    "; 2020-07-01 EUR\n" ++
    "; 2020-07-01 USD\n" ++
    "; NOTHING for 2020-01-01\n" ++
    ";\n" ++
    "        "

#guard [true, false].all (fun b => (rates b exchangeText "acme").any (fun m => m.get? "EUR".toList == some (1 / 1000)))
#guard [true, false].all (fun b => (rates b exchangeText "acme").any (fun m => m.get? "USD".toList == some (1 / 1500)))
#guard [true, false].all (fun b => (files.find? (fun f => f.1 == "tests/example_files/demo.ledger")).any (fun f =>
  (rates b f.2 "EUR").any (fun m => m.length == 6)))

/-! ### src/models/comment.rs -/

def tagsOf (s : String) : List (String × Option String) :=
  (getTags s.toList).map (fun t => (String.ofList t.name, t.value.map String.ofList))

#guard tagsOf ":tag_1:tag_2:tag_3:" = [("tag_1", none), ("tag_2", none), ("tag_3", none)]
#guard tagsOf ":tag_1:tag_2:tag_3: this is not valid" = []
#guard tagsOf "not a tag whatsoever" = []
#guard tagsOf "tag: value" = [("tag", some "value")]
#guard tagsOf " tag: value with spaces" = [("tag", some "value with spaces")]

/-! ### src/parser/mod.rs and src/parser/tokenizers -/

def empty (text : String) : Bool :=
  (parsed text).any (fun pl => pl.lists.accounts.list.isEmpty && pl.lists.payees.list.isEmpty && pl.lists.commodities.list.isEmpty &&
    pl.transactions.isEmpty && pl.prices.isEmpty && pl.comments.isEmpty && pl.tags.isEmpty)

#guard empty ""
#guard empty "\n\n\n\n\n"

def accountOf (text : String) : Option AccountDef :=
  match accountTok env 2000 (Tok.ofContent text.toList) with
  | .ok (.ok a, _) => some a
  | _ => none

#guard (accountOf "account An account name with spaces   ").map (·.name) = some "An account name with spaces".toList
#guard (accountOf ("account Assets:Checking account\n    alias checking\n    note An account for everyday expenses\n" ++
  "    ; this line will be ignored\n    alias checking account\n    isin 123456789\n    payee Employer\n    ")).map
    (fun a => (a.name, a.isDefault)) = some ("Assets:Checking account".toList, false)
#guard (accountOf "account Assets:MyAccount\n    alias myAccount\n    ").any (fun a =>
  a.name == "Assets:MyAccount".toList && !a.isDefault &&
    (match ((NList.new : NList AccountDef).insert low a).get low "myAccount".toList with | .ok _ => true | _ => false))

#guard payeeTok env 2000 (Tok.ofContent "payee ACME  ; From the Looney Tunes\n\tWrong Acme, Inc.\n".toList) matches .ok (.error _, _)
#guard (match payeeTok env 2000 (Tok.ofContent "payee ACME\n\talias Acme, Inc.\n".toList) with
  | .ok (.ok p, _) => p.name == "ACME".toList | _ => false)
#guard (match tagTok env 2000 (Tok.ofContent "tag   A tag name with spaces   ".toList) with
  | .ok (.ok n, _) => n == "A tag name with spaces".toList | _ => false)

/-! ### src/list.rs -/

def acme : PayeeDef := { name := "ACME Inc.".toList }
def one : NList PayeeDef := (NList.new : NList PayeeDef).insert low acme
def lenAlias (l : NList PayeeDef) : Nat := l.aliases.length + l.list.length
def find (b : Bool) (l : NList PayeeDef) (p : String) : Option (Option PayeeDef) :=
  (l.getRegex low (shuf b) (shuf b) p.toList (inside p.toList)).toOption.map (·.1)

#guard [true, false].all (fun b => find b one "ACME" == some (some acme))
#guard lenAlias one = 1
#guard (match one.addAlias low "ACME is awesome".toList acme with
  | .ok l =>
    lenAlias l == 2 && [true, false].all (fun b => find b l "Warner" == some none && (find b l "awesome").any (·.isSome)) &&
      (match l.get low "Warner".toList with | .error (.error _) => true | _ => false)
  | _ => false)
#guard (match one.addAlias low "ACME, Inc.".toList acme with
  | .ok l => (match l.addAlias low "ACME, Inc.".toList acme with | .error (.panic _) => true | _ => false)
  | _ => false)

end Dinero.Conformance
