#!/usr/bin/env python3
"""Writes /verif/properties.jsonl (one JSON object per line)."""
import json, os
P = []
def prop(id, title, statement, quantifier, why, anchors):
    P.append(dict(id=id, title=title, statement=statement, quantifier=quantifier,
                  why_tests_cant=why, anchors=anchors))

M="src/models/"; 
# ---------------------------------------------------------------- money and balances
prop("C01","Adding balances is exact per commodity",
 "For any two balances and any commodity, the amount of that commodity in `a + b` is the exact rational sum of its amounts in `a` and in `b`; commodities whose sum is zero leave no entry, and the addition never panics on balances obtained from the public constructors.",
 "all pairs of balances reachable through Balance::new / From<Money> / + / - / neg, all commodities, all hash-map iteration orders",
 "amounts are unbounded rationals and the maps are iterated in a random order; a test samples a few amounts and one order",
 [M+"balance.rs: impl Add for Balance", M+"money.rs: impl Add for Money"])
prop("C02","A balance does not depend on the order things were added in",
 "Summing the same multiset of amounts in any order, with any grouping, gives balances with identical per-commodity amounts, and the empty balance is neutral.",
 "all lists of money, all permutations and groupings of them",
 "factorially many orders of unboundedly long lists",
 [M+"balance.rs: impl Add for Balance, From<Money>"])
prop("C03","Subtraction and negation of balances and money are exact inverses",
 "`-b` has in every commodity minus the amount of `b`, `a - b` the exact difference, and `b - b` is zero.",
 "all reachable balances, all commodities", "unbounded domain of rationals and commodity sets",
 [M+"balance.rs: impl Neg, impl Sub", M+"money.rs: impl Sub, impl Neg"])
prop("C04","Zero test and single-commodity extraction are correct",
 "`is_zero` answers true exactly when every commodity amounts to zero; `to_money` returns the only non-zero commodity (or zero when there is none) and fails exactly when two or more commodities are non-zero.",
 "all reachable balances, all iteration orders","unbounded number of commodities and random iteration order",
 [M+"balance.rs: Balance::is_zero, Balance::to_money"])
prop("C05","The 'may balance' decision is exactly: all zero, or a gain in one commodity against a loss in another",
 "`can_be_zero` is true iff every commodity is zero or some commodity is strictly positive while another is strictly negative.",
 "all reachable balances, all iteration orders","random iteration order with an early return; unbounded commodity sets",
 [M+"balance.rs: Balance::can_be_zero"])
prop("C06","Balance comparison checks every commodity of the left operand",
 "`a == b` holds iff every commodity of `a` has the same amount in `b` (an absent commodity counting as zero); it deliberately ignores commodities only present in `b`, so it is not symmetric.",
 "all pairs of reachable balances","unbounded domain; asymmetry only shows for operands a test does not pick",
 [M+"balance.rs: impl PartialEq for Balance"])
prop("C07","Money equality and ordering are coherent",
 "Money `==` is an equivalence, `cmp` is a total order on amounts of one commodity that agrees with `==`, and the `<` operator agrees with `cmp`.",
 "all pairs/triples of money values","algebraic law over an infinite domain",
 [M+"money.rs: impl PartialEq, impl Ord, derive(PartialOrd)"])
prop("C08","Scaling money is exact",
 "Multiplying and dividing money by a number multiplies/divides the exact amount and keeps the commodity; dividing undoes multiplying; dividing non-zero money by zero panics rather than producing a value; abs is non-negative and keeps the magnitude.",
 "all money values and all rationals","infinite domain of rationals",
 [M+"money.rs: impl Mul, impl Div, Money::abs"])
prop("C09","The printed amount is the exact amount rounded to the commodity precision",
 "The decimal string printed for an amount denotes the multiple of 10^-precision nearest to the exact amount (ties away from zero), with the sign of the amount.",
 "all rational amounts","carry and sign corner cases are measure-zero for sampled tests, infinite domain",
 [M+"money.rs: impl Display for Money", M+"currency.rs: Currency::get_precision"])
# ---------------------------------------------------------------- transactions
prop("C10","The elided amount makes the transaction balance exactly",
 "When exactly one real posting of an accepted transaction has no amount, postings are generated on that posting's account so that the weights of all real postings sum to exactly zero in every commodity, one generated posting per commodity that needed it and none otherwise.",
 "all transactions with one empty posting, all account histories, all iteration orders","unbounded number of postings, commodities and rational amounts",
 [M+"transaction.rs: Transaction::balance"])
prop("C11","A transaction with no elided amount is accepted exactly when it balances",
 "With all amounts present and assertions satisfied, the transaction is accepted iff the per-commodity sum of the weights of its real postings is zero everywhere or has both a positive and a negative commodity (and the balanced-virtual group passes the same test); in particular a single-commodity transaction is accepted iff it sums to exactly zero.",
 "all transactions, all account histories","needs every combination of amounts; rejects and accepts on an exact rational equality",
 [M+"transaction.rs: Transaction::balance, total_balance", M+"balance.rs: can_be_zero"])
prop("C12","More than one elided amount is always rejected",
 "A transaction with two or more real postings without amount (and without a usable balance assignment) is never accepted.",
 "all transactions, all histories","unbounded posting lists",
 [M+"transaction.rs: Transaction::balance"])
prop("C13","Balancing neither loses, alters nor invents explicit postings",
 "After a successful balance every posting that was written with an amount is still there with the same account, amount, cost, assertion and kind, real postings in their original order; virtual postings are untouched; the only new postings are on the elided posting's account; and every real posting now has an amount.",
 "all transactions and histories for which balancing succeeds","unbounded posting lists",
 [M+"transaction.rs: Transaction::balance"])
prop("C14","A balance assertion next to an amount is enforced exactly",
 "With checks on, a real posting `amount = total` is accepted only if the account's running amount of the asserted commodity including this posting equals the asserted total exactly, and is never the cause of a rejection when it does.",
 "all postings, histories and asserted totals","exact rational comparison against an unbounded history",
 [M+"transaction.rs: Transaction::balance lines 305-320"])
prop("C15","A balance assignment sets the account to the asserted total",
 "With checks on, a real posting written only as `= total` receives the amount that makes the account's running balance exactly the asserted total; it is rejected iff the needed amount spans several commodities.",
 "all histories and totals","unbounded history and commodity sets",
 [M+"transaction.rs: Transaction::balance lines 372-394"])
prop("C16","With checks off balance assertions cannot reject a journal",
 "With `--no-balance-check`, changing or removing the asserted totals of postings that also carry an amount changes neither acceptance nor any amount of the resulting transaction.",
 "all transactions, histories and assertions","relational property over pairs of runs",
 [M+"transaction.rs: Transaction::balance (skip_balance_check)"])
prop("C17","Account balances are the exact sum of their postings",
 "After any sequence of accepted transactions the running balance kept per account equals, in every commodity, the exact sum of the amounts of all real postings made to it.",
 "all sequences of transactions (histories), all accounts, all commodities","history of unbounded length",
 [M+"transaction.rs: Transaction::balance", M+"mod.rs: ParsedLedger::to_ledger lines 170-198"])
prop("C18","Every assertion of an accepted journal holds in date order",
 "If a journal is accepted with checks on, then for each real posting with an asserted total, the sum of the amounts of all real postings to that account up to and including it, in the final transaction order, equals the assertion in its commodity.",
 "all journals","quantifies over whole histories of unbounded length",
 [M+"mod.rs: ParsedLedger::to_ledger", M+"transaction.rs: Transaction::balance"])
prop("C19","Bracketed virtual postings must balance among themselves",
 "A transaction whose `[account]` postings do not pass the balance test is rejected whatever its real postings are, and parenthesised virtual postings never influence acceptance.",
 "all transactions and histories","unbounded posting lists, relational",
 [M+"transaction.rs: Transaction::balance lines 288-293, total_balance"])
prop("C20","Costs weigh a posting by the exact converted amount, symmetric for purchases and sales",
 "A posting `q A @ p B` weighs q*p of B and `q A @@ t B` weighs t of B with the sign of q, for purchases and sales alike and for real and bracketed postings alike.",
 "all quantities and prices, both cost kinds, both posting groups","sign handling only fails on negative quantities in one of two code paths",
 [M+"transaction.rs: total_balance, Transaction::balance"])
prop("C21","Balancing an already balanced journal changes nothing",
 "Running the balancing pass a second time over its own result (as happens whenever automated transactions exist) succeeds and leaves every posting unchanged.",
 "all journals accepted by the first pass","needs all histories; second pass starts from fresh balances",
 [M+"mod.rs: ParsedLedger::to_ledger lines 304-332", M+"transaction.rs: Transaction::balance"])
# ---------------------------------------------------------------- ledger
prop("C22","The ledger contains each journal transaction exactly once, in stable date order",
 "The transactions of an accepted ledger are exactly the regular transactions of the journal, sorted by date, with transactions of equal date kept in journal order.",
 "all journals","unbounded lists, all date patterns",
 [M+"mod.rs: ParsedLedger::to_ledger lines 157-168, 343-464"])
prop("C23","The order in which files are read does not matter across dates",
 "Two journals with the same transactions, where any two transactions of the same date appear in the same relative order, yield the same ordered transaction list (docs: 'the extra ordering step means it doesn't matter').",
 "all pairs of journals that are reorderings of each other preserving same-date order","factorially many orders",
 ["docs/differences_with_ledger.md", M+"mod.rs: ParsedLedger::to_ledger line 168"])
prop("C24","Every name used in the journal resolves",
 "Building the ledger never panics on an unresolved account, commodity or payee: after the population phase, every account, commodity and payee string used by any posting or price is found by lookup.",
 "all parsed journals, all directive lists, all iteration orders","unbounded journals with aliases and case variants",
 [M+"mod.rs: ParsedLedger::to_ledger lines 58-152, _transaction_to_ledger", "src/list.rs: List::get"])
prop("C25","A posting cost records the exact unit price",
 "For every posting with a cost a price is recorded at the transaction date with unit price = per-unit cost, or total cost divided by quantity; multiplied by the quantity it gives the total cost back. A total cost on a zero quantity panics.",
 "all quantities and costs","rational division over an infinite domain with a singular point",
 [M+"mod.rs: _transaction_to_ledger lines 406-437"])
prop("C26","A two-commodity transaction implies the exact exchange rate",
 "If a fully specified transaction leaves exactly two commodities a and -b, the price recorded values one unit of one commodity at the exact ratio of the other, never divides by zero, and whichever of the two directions the hash order picks, it states the same exchange rate.",
 "all transactions, all iteration orders","random iteration order decides the direction",
 [M+"mod.rs: ParsedLedger::to_ledger lines 187-197"])
prop("C27","Automated transactions only append, and never trigger each other",
 "Applying automated transactions leaves the journal's own postings in place (up to added tags), appends for every matching (posting, rule) pair exactly the rule's postings in order, and never applies a rule to a posting produced by a rule.",
 "all journals, all rule lists, all match outcomes","unbounded rule and posting lists",
 [M+"mod.rs: ParsedLedger::to_ledger lines 200-303"])
prop("C28","Automated amounts are exact",
 "A generated posting gets: the written amount if a commodity is written; the matched posting's amount times the factor, in the matched posting's commodity, if only a number is written; the value of the expression otherwise (a number result scaling the matched amount).",
 "all matched postings and rules","infinite domain of amounts and expressions",
 [M+"mod.rs: ParsedLedger::to_ledger lines 251-279", "src/parser/value_expr.rs: eval_value_expression"])
prop("C29","The ledger built from a journal does not depend on the hash seed",
 "Two runs on the same journal produce the same commodities, accounts, payees, transactions and prices.",
 "all journals, all pairs of hash seeds","the seed is random per process; a test observes one draw",
 [M+"mod.rs: ParsedLedger::to_ledger", "src/list.rs: List::insert"])
prop("C30","Accounts ending in 'unknown' are redirected by payee rules deterministically",
 "A posting on an account whose name ends in 'unknown' goes to an account declaring a payee pattern that matches the posting's payee if there is one, otherwise stays; the choice is unique.",
 "all account lists, payees and iteration orders","random iteration order over accounts",
 [M+"mod.rs: _transaction_to_ledger lines 375-391"])
# ---------------------------------------------------------------- List
prop("C31","Name lists look up case-insensitively, by name before alias, and the first definition wins",
 "After any sequence of insertions, a lookup returns the first inserted element whose name equals the key ignoring case, else the element to which the most recent alias binding of that key points; inserting a duplicate changes nothing.",
 "all operation sequences, all keys, any case-folding function","stateful container: unbounded operation histories",
 ["src/list.rs: List::insert, List::get"])
prop("C32","Looking a name up never panics",
 "In every list obtained by insertions, merges and aliases for present elements, every alias points to a present element, so `get` returns an element or a 'not in list' error.",
 "all operation sequences","invariant over unbounded histories",
 ["src/list.rs: List::get, List::add_alias, List::append"])
prop("C33","Merging lists keeps every definition reachable, later file winning on conflict",
 "After `append`, a name defined in either list is found; when both define it, the appended list's definition is returned.",
 "all pairs of lists, all keys","unbounded domain",
 ["src/list.rs: List::append", "src/parser/mod.rs: ParsedLedger::append"])
prop("C34","Regex lookup answers according to the current contents",
 "`get_regex` returns an element iff some element name or alias matches the pattern, whatever lookups and insertions happened before.",
 "all operation sequences, all patterns, all iteration orders","memo table filled by earlier operations; needs histories",
 ["src/list.rs: List::get_regex"])
# ---------------------------------------------------------------- conversion
prop("C35","Currency conversion only uses prices known at the report date, the most recent per pair",
 "Every rate entering a conversion multiplier comes from a price dated on or before the report date, and no later such price exists for the same pair of commodities.",
 "all price lists, dates, iteration orders","unbounded price histories",
 [M+"price.rs: conversion, Graph::from_prices"])
prop("C36","A conversion multiplier is the product of the rates along a chain of prices",
 "Whenever `conversion` returns a multiplier for a commodity, there is a chain of prices connecting it to the target commodity and the multiplier is exactly the product of the rates (or inverse rates) along it.",
 "all price lists, dates, iteration orders","graph search over arbitrary graphs",
 [M+"price.rs: conversion"])
prop("C37","With arbitrage-free prices conversion is exact and reproducible",
 "If the prices in use are mutually consistent (each commodity has a value), every multiplier is the exact ratio of values, independently of hash order and of the chain chosen.",
 "all consistent price lists, all iteration orders","all graphs, all tie-breaks",
 [M+"price.rs: conversion"])
prop("C38","A commodity is convertible exactly when prices connect it to the target",
 "`conversion` returns a multiplier for a commodity other than the target iff a chain of usable prices connects the two.",
 "all price graphs","completeness of a graph search",
 [M+"price.rs: conversion"])
prop("C39","Amounts already in the target commodity are never rescaled",
 "`conversion` never returns a multiplier for the target commodity itself, so converting leaves those amounts untouched.",
 "all price lists including degenerate ones","needs the shortest-path argument for all graphs",
 [M+"price.rs: conversion", "src/commands/balance.rs: convert_balance"])
prop("C40","Conversion is a function of the prices",
 "For any price list and date, two runs return the same multipliers.",
 "all price lists, all pairs of hash seeds","tests/test_commands.rs::exchange repeats 100 draws on one journal only",
 [M+"price.rs: conversion"])
prop("C41","Converting a balance converts each commodity once and conserves the rest",
 "The converted balance has, in the target commodity, the sum of amount*multiplier over convertible commodities plus the amount already in the target, and every non-convertible commodity unchanged.",
 "all balances, multiplier tables and orders","unbounded commodity sets",
 ["src/commands/balance.rs: convert_balance"])
# ---------------------------------------------------------------- queries
prop("C42","Report filters select exactly the requested postings",
 "A posting is reported iff (no --real or it is real) and (no begin or date >= begin) and (no end or date < end) and the query expression is true of it; an expression that does not yield a boolean is an error only for postings passing the other filters.",
 "all options, postings, expressions","combinatorial options over infinite date domain",
 ["src/filter.rs: filter, filter_expression"])
prop("C43","Regex caches are transparent",
 "Matching an account or payee against a pattern gives the answer of the pattern on its name, whatever patterns were matched before.",
 "all sequences of match queries","history-dependent memo table",
 [M+"account.rs: Account::is_match", M+"payee.rs: Payee::is_match"])
prop("C44","Boolean operators mean what they say",
 "When both operands evaluate to booleans, `and`, `or`, `not` evaluate to conjunction, disjunction, negation.",
 "all expressions, postings, transactions","structural recursion over all expressions",
 ["src/parser/value_expr.rs: eval"])
prop("C45","Expression arithmetic is exact and never mixes commodities silently",
 "+,-,*,/ on numbers are exact rational operations; money + money is exact in one commodity and panics when two non-zero commodities meet; money*number scales; comparing money of different commodities panics.",
 "all operands","infinite domain",
 ["src/parser/value_expr.rs: eval, impl PartialOrd/PartialEq for EvalResult"])
prop("C46","any(e) is true iff e is true of some posting of the transaction",
 "If e evaluates to a boolean on every posting, any(e) is the disjunction over all postings of the transaction.",
 "all expressions and transactions","unbounded posting lists",
 ["src/parser/value_expr.rs: eval (Unary::Any)"])
prop("C47","Tag functions look at the posting's tags",
 "has_tag(/re/) is true iff some tag name matches; tag(x) returns the value of the first matching tag.",
 "all tag lists and patterns","unbounded tag lists",
 [M+"transaction.rs: Posting::has_tag, get_tag, get_exact_tag"])
prop("C48","Operator chains evaluate all their operands",
 "`a op b op c ...` in a value expression combines all operands.",
 "all chains of any length","tests only use two operands",
 ["src/parser/value_expr.rs: build_ast_from_expr", "src/grammar/grammar.pest"])
prop("C49","Query preprocessing wraps every term exactly once",
 "The expression built from command line terms contains each non-empty, non-keyword term exactly once, in order, wrapped according to its sigil and joined with `and` iff the last keyword before it was `and`, else `or`.",
 "all lists of terms","unbounded term lists with mode flags",
 ["src/filter.rs: preprocess_query"])
prop("C50","A query with several account patterns selects postings matching any of them",
 "Reporting with patterns p1..pn selects exactly the postings whose account matches at least one of them.",
 "all lists of plain patterns, all postings","length of the list is unbounded; tests use one pattern",
 ["src/filter.rs: preprocess_query", "src/parser/value_expr.rs", "src/commands/balance.rs", "src/commands/register.rs"])
# ---------------------------------------------------------------- reports
prop("C51","The flat balance report shows the exact sum per account",
 "Each line of `bal --flat` shows an account with the exact sum of the amounts of the selected postings on it; accounts whose sum is zero, and only those, are omitted.",
 "all ledgers, filters, orders","unbounded ledgers",
 ["src/commands/balance.rs: execute lines 40-52, 126-132"])
prop("C52","The tree balance report rolls sub-accounts up into parents exactly once",
 "In the tree report the amount computed for an account is the exact sum over the selected postings on it and on all accounts below it.",
 "all account hierarchies","arbitrary trees, processed in place in depth order",
 ["src/commands/balance.rs: execute lines 61-91"])
prop("C53","The grand total is the sum of all selected postings",
 "The total line equals the exact sum of the amounts of all selected postings in every commodity; for an unfiltered ledger without virtual postings and costs it is zero in single-commodity journals.",
 "all ledgers and filters","unbounded ledgers",
 ["src/commands/balance.rs: execute lines 232-260"])
prop("C54","Depth-limited flat reports conserve the total",
 "`bal --flat --depth n` groups accounts by their first n components, each group showing the exact sum of its members.",
 "all ledgers, all depths","boundary depth 0; unbounded accounts",
 ["src/commands/balance.rs: execute lines 92-125"])
prop("C55","The register running total is the exact prefix sum",
 "After each register line the running total shown equals the exact sum of the amounts of all lines printed so far.",
 "all ledgers and filters, every line","unbounded report length",
 ["src/commands/register.rs: execute"])
prop("C56","Register and balance reports agree",
 "The last running total of the register equals the grand total of the balance report under the same filter.",
 "all ledgers and filters","relates two commands over all inputs",
 ["src/commands/register.rs", "src/commands/balance.rs"])
prop("C57","Every line of the tree report is labelled with the account whose total it shows, and no non-zero account is lost",
 "In the printed tree report, the amount next to a (possibly collapsed) label is the total of the account the label denotes, and every account with non-zero total within depth is visible as a line or as a collapsed prefix with the same total.",
 "all account hierarchies","depends on neighbouring lines of a sorted listing",
 ["src/commands/balance.rs: execute lines 156-230"])
prop("C58","Reports never crash on an accepted ledger",
 "Every posting of an accepted ledger has an amount, so balance and register reports without a query do not panic.",
 "all accepted ledgers","needs all journals incl. virtual postings",
 ["src/commands/balance.rs line 49", "src/commands/register.rs line 74", M+"transaction.rs: Transaction::balance"])
prop("C59","The list commands print every element once, sorted by name",
 "`accounts`, `payees` and `commodities` print each element of the ledger exactly once in non-decreasing name order, independent of hash order.",
 "all ledgers, all iteration orders","random hash order",
 ["src/commands/accounts.rs", "src/commands/payees.rs", "src/commands/commodities.rs"])
# ---------------------------------------------------------------- parser
prop("C60","Amounts in the journal are read exactly",
 "Reading a decimal numeral with optional minus sign and fraction yields exactly the rational it denotes, consumes exactly the numeral, and a second decimal point is rejected.",
 "all numerals of any length","infinite set of numerals",
 ["src/parser/tokenizers/transaction.rs: parse_amount", "src/parser/utils.rs: parse_rational"])
prop("C61","Account names are read up to two spaces or a tab, and brackets decide the posting kind",
 "For a posting line the account is the text before the first tab, newline or double space; (x) is virtual, [x] balanced virtual, anything else real.",
 "all account names including unicode","string slicing on bytes fails on names a test does not use",
 ["src/parser/tokenizers/transaction.rs: parse_posting"])
prop("C62","Trailing whitespace after an account name is harmless",
 "A posting line consisting of an account name followed by spaces parses like the same line without the spaces.",
 "all posting lines and following text","interaction with whatever follows",
 ["src/parser/tokenizers/transaction.rs: parse_posting lines 201-222"])
prop("C63","A journal need not end with a newline",
 "Removing the final newline of a journal does not change how it is parsed (docs: 'End with newline: no need to do that').",
 "all journals","all possible last lines",
 ["docs/differences_with_ledger.md", "src/parser/mod.rs: Tokenizer::next", "src/parser/tokenizers/transaction.rs"])
prop("C64","Parsing always terminates",
 "Tokenizing any finite text finishes.",
 "all texts","non-termination cannot be observed by a passing test",
 ["src/parser/mod.rs: Tokenizer::tokenize", "src/parser/tokenizers/tag.rs", "src/parser/tokenizers/transaction.rs"])
prop("C65","Include loops are detected",
 "Tokenizing terminates on any finite set of files including each other arbitrarily; a file that (transitively) includes itself yields an include-loop error, and diamonds are accepted.",
 "all include graphs","arbitrary graphs",
 ["src/parser/include.rs: parse", "src/parser/mod.rs: Tokenizer::from"])
prop("C66","Including a file is equivalent to pasting it",
 "The parsed journal of a file with includes contains the directives, transactions, prices and comments of the included files at the place of the include.",
 "all journals and splits into files","unbounded",
 ["src/parser/mod.rs: ParsedLedger::append", "src/parser/include.rs"])
prop("C67","Tags are extracted from comments exactly",
 "A comment ending in `:t1:...:tn:` yields exactly the tags t1..tn; `name: value` yields that tag with that value; other comments none.",
 "all comments","regex semantics over all strings",
 [M+"comment.rs: Comment::get_tags"])
prop("C68","Automated rule queries are split at spaces outside quotes and regexes",
 "The rule text is split at spaces not inside a quoted string or a /regex/, quotes being removed.",
 "all rule texts","stateful scanner over all strings",
 [M+"transaction.rs: Transaction::get_filter_query"])
prop("C69","Command line options override the configuration file",
 "An option line of the configuration file is added iff the option (or its short alias) was not given before; comment lines are ignored; other lines are rejected.",
 "all argument lists and configuration files","unbounded inputs",
 ["src/app.rs: run_app"])
prop("C70","Dates are compared chronologically",
 "Parsed dates are valid calendar dates and are ordered chronologically (lexicographically by year, month, day).",
 "all dates","calendar arithmetic over all years",
 ["src/parser/utils.rs: parse_date", "src/app.rs: date_parser"])
prop("C71","Error positions count lines correctly",
 "During tokenizing the line counter equals the number of newlines consumed so far.",
 "all texts, every point of the parse","manual counter updates in many places",
 ["src/parser/chars.rs", "src/parser/mod.rs: Tokenizer::next, Tokenizer::error"])
prop("C72","A unary operator applies to the operand next to it",
 "In a value expression `-a op b` negates only `a`, and `not a and b` negates only `a`.",
 "all operands and operators","precedence over all expressions",
 ["src/grammar/grammar.pest: primary", "src/parser/value_expr.rs: build_ast_from_expr"])
prop("C73","Comparisons with numbers can be combined with and/or",
 "`a < n and b` (any comparison with a numeric literal, any connective) is read as the connective of the comparison and `b`.",
 "all numerals, operands and operators","needs a test per position of a literal",
 ["src/grammar/grammar.pest: money, number, currency", "src/parser/value_expr.rs: build_ast_from_expr"])
prop("C74","Matching against a regex looks at the right text",
 "`x =~ /re/` matches an account or payee by its name, a text by itself, a missing tag value never, and the note iff some comment of the transaction matches; other values panic.",
 "all operands, patterns, postings and transactions","decision table over all value kinds",
 ["src/parser/value_expr.rs: eval (Binary::Eq)"])
prop("C75","Comparisons order values by quantity, day or text",
 "A number is compared with a number or money by quantity, dates chronologically, texts lexicographically with a missing text first; equality agrees with the order; values without an order compare false.",
 "all operands of all kinds","decision table over all value kinds and all values",
 ["src/parser/value_expr.rs: impl PartialOrd for EvalResult, impl PartialEq for EvalResult, eval"])
prop("C76","The ledger contains exactly the postings that are written",
 "Every posting of a regular transaction enters the ledger with the written amount, cost, asserted total and kind, the account and payee its names resolve to, and the tags of its own and its transaction's comments, in the written order.",
 "all journals","all combinations of optional parts of all postings",
 ["src/models/mod.rs: _transaction_to_ledger, to_ledger"])
prop("C77","The balance report in another commodity",
 "With `--exchange X`, every line and the total show the sum of the selected postings with every commodity for which a rate is known converted to X and the others kept; lines where nothing remains are left out; an unknown X changes nothing.",
 "all ledgers, options and prices","unbounded ledgers and price tables",
 ["src/commands/balance.rs: execute, convert_balance", "src/models/price.rs: conversion"])
prop("C78","The register names date and payee once per transaction",
 "The lines of the register come in blocks, one per transaction; the first line of a block shows the date and the payee under its declared name, the others show neither.",
 "all ledgers and options","unbounded ledgers",
 ["src/commands/register.rs: execute", M+"transaction.rs: Transaction::get_payee"])

prop("C79","A journal is read as it is written",
 "The text of any sequence of comments, transactions, automated transactions, price, account, commodity, payee and tag directives, in the documented layout, yields exactly these items in their order, each posting with the written account, kind, amount, cost, asserted total, expression and comments.",
 "all journals","unbounded combinations of items, amounts and layouts",
 ["src/parser/mod.rs: Tokenizer::tokenize", "src/parser/chars.rs", "src/parser/tokenizers"])
prop("C80","The first line of a transaction is read as it is written",
 "Date, effective date, status, code, description, payee and comment of a written header line are read back; a missing payee is the description.",
 "all header lines","combinations of eight optional parts and blanks",
 ["src/parser/tokenizers/transaction.rs: parse", "src/grammar/grammar.pest: transaction_head"])
prop("C81","Price directives are read as they are written",
 "Date, commodity, quantity and other commodity of a written price line are read back.",
 "all price lines","all dates, numerals and commodity names",
 ["src/parser/tokenizers/price.rs: parse", "src/grammar/grammar.pest: price"])
prop("C82","Unexpected input is reported",
 "A character that starts no item is reported as an error with its place; the program does not panic.",
 "all texts","depends on the position in the text",
 ["src/parser/mod.rs: Tokenizer::tokenize, Tokenizer::error"])
prop("C83","What is read can be built into a ledger",
 "A journal that is read is well formed: regular transactions are dated, their postings have payees, amounts, costs and totals come with a commodity; building the ledger from it and `check` never panic.",
 "all files","the ledger code unwraps what the parser must provide, for every text",
 ["src/parser/mod.rs: Tokenizer::tokenize", "src/models/mod.rs: to_ledger", "src/commands/check.rs: execute"])
prop("C84","`check` accepts exactly the journals whose transactions can be booked",
 "From the file on: `check` reports no error exactly when the transactions, in the order of their dates, can be booked: each balances or determines its missing amounts and the asserted totals hold; every other command gets its ledger exactly then.",
 "all files","both directions, over unbounded journals",
 ["src/commands/check.rs: execute", "src/models/mod.rs: to_ledger, balance", "src/models/transaction.rs: balance"])
prop("C85","The register lists the entries of the journal",
 "From the file on: the lines of the register are exactly the postings of the transactions by date, of each transaction the real ones first, each under the account its name stands for and with its written amount, or the amount its elision or asserted total stands for; next to each the sum of all lines so far.",
 "all files without automated transactions","the composition of reading, resolving names, sorting, balancing and reporting, on unbounded journals",
 ["src/commands/register.rs: execute", "src/models/mod.rs: to_ledger", "src/models/transaction.rs: balance"])
prop("C86","The balance sums the entries of the journal",
 "From the file on: the flat balance shows for each account the sum of its entries in the journal, per commodity, leaves out the accounts where that is nothing, and the total is the sum of all entries.",
 "all files without automated transactions","the composition of reading, resolving names, sorting, balancing and reporting, on unbounded journals",
 ["src/commands/balance.rs: execute", "src/models/mod.rs: to_ledger", "src/models/transaction.rs: balance"])
prop("C87","The books balance",
 "The total printed for a journal in one commodity, with real postings without costs, is nothing, whatever amounts are elided or given by asserted totals.",
 "all files without automated transactions","a conservation law over unbounded journals",
 ["src/commands/balance.rs: execute", "src/models/transaction.rs: balance"])
prop("C88","The lists contain what is declared and what is used",
 "From the file on: accounts, payees and commodities print, sorted and each once, the declared names and the used ones that are not declared; used payees that match a pattern of a declared one are left out.",
 "all files without automated transactions","all combinations of declarations, aliases, patterns and uses",
 ["src/commands/accounts.rs: execute", "src/commands/payees.rs: execute", "src/commands/commodities.rs: execute"])
prop("C89","The price list contains the written, the paid and the implied prices",
 "From the file on: prices prints the price directives in order, then the costs of the postings, then the rates implied by the transactions, and nothing else.",
 "all files without automated transactions","unbounded journals",
 ["src/commands/prices.rs: execute", "src/models/mod.rs: to_ledger"])
prop("C90","From the characters of the file to the printed report",
 "A file of transactions in one commodity passes check exactly when every transaction, as written, sums to zero or leaves out exactly one amount, and its balance report totals to nothing; when the amounts are written out, the register lists exactly the written postings by date with their running sum, and the flat balance shows for every account the sum of what is written for it.",
 "all texts that write such journals, in any layout the grammar allows","unbounded texts; the claim spans the grammar, the ledger and the reports",
 ["src/commands/check.rs: execute", "src/commands/register.rs: execute", "src/commands/balance.rs: execute", "src/parser/tokenizers/transaction.rs: parse", "src/models/mod.rs: to_ledger"])
prop("C91","Printed dates can be read",
 "The date printed in a report is the date of the transaction: read again by the date parser, or by the parser of the command line, it is the same day; and printed dates sort like the days.",
 "all dates","the whole calendar, leap years and years of any length",
 ["src/commands/register.rs: execute", "src/models/price.rs: Display for Price", "src/parser/utils.rs: parse_date", "src/app.rs: date_parser"])
prop("C92","The register is a table",
 "Each posting takes one row per running total, all rows have the same width, and date, payee, account, amount and running total stand in their columns whenever they fit; payees that are cut are marked, and only those.",
 "all registers and terminal widths","all combinations of lengths and widths",
 ["src/commands/register.rs: execute, clip"])
prop("C93","A printed balance can be read back",
 "From the printed text of a balance report, flat or as a tree, the accounts, their levels, their amounts and the total can be recovered exactly.",
 "all reports whose amounts fit into their column","unambiguity of a layout over all reports",
 ["src/commands/balance.rs: execute"])
prop("C94","The exit status tells whether the journal is in order",
 "check exits with 0 and writes OK exactly when the journal is in order, with 1 and KO otherwise; the other commands accept a journal exactly when check does, and turning balance checks off never makes a journal be rejected.",
 "all files and arguments","relates the results of all commands on all files",
 ["src/main.rs: main", "src/app.rs: run_app", "src/commands/check.rs: execute", "src/commands/accounts.rs: execute"])
prop("C95","The program, from the arguments and the file to stdout",
 "For a journal of plain transactions that are written out and sum to zero the program ends with status 0; the register it writes lists the postings as written, by date, with the sum so far; from what it writes as flat balance the exact sum of each account can be read, and a total of 0.",
 "all such files, arguments, configuration files and hash orders","spans the whole program for unbounded files",
 ["src/main.rs: main", "src/app.rs: run_app", "src/commands/register.rs: execute", "src/commands/balance.rs: execute"])
prop("C96","Reports with options and automated transactions, from the file on",
 "For every journal, with or without automated transactions, and with any of --real, --begin, --end and any account patterns (of which the first two count), the register lists exactly the wanted postings of the transactions the journal stands for (booked by date, the rules then applied and the result booked again), with the sum so far; the flat balance shows the sums of the wanted postings per account and in total.",
 "all files, all such options","unbounded journals, rules and combinations of options",
 ["src/filter.rs: filter", "src/commands/register.rs: execute", "src/commands/balance.rs: execute", "src/models/mod.rs: to_ledger"])
prop("C97","What check accepts of a journal with automated transactions",
 "If check accepts a journal with automated transactions, its regular transactions can be booked; with the generated postings every transaction balances, the bracketed postings as well; and every asserted total holds with the generated postings counted in.",
 "all files with automated transactions","unbounded journals and rules",
 ["src/commands/check.rs: execute", "src/models/mod.rs: to_ledger", "src/models/transaction.rs: balance"])
prop("C98","Virtual rules are invisible to --real",
 "When the postings of all automated transactions are in parentheses or brackets, register --real and balance --real show exactly the real entries of the journal without them.",
 "all files with such automated transactions","non-interference over unbounded journals and rules",
 ["src/filter.rs: filter", "src/models/mod.rs: to_ledger"])
prop("C99","Rules keep the books balanced",
 "In a journal in one commodity with real postings only and without costs the balance report totals to nothing, whatever automated transactions with amounts in that commodity or with factors add.",
 "all such files, reports flat or as a tree","an invariant of unbounded journals and rules",
 ["src/models/mod.rs: to_ledger", "src/models/transaction.rs: balance", "src/commands/balance.rs: execute"])
prop("C100","Tree and depth, from the file on",
 "For every journal, with --real, --begin, --end and account patterns, the tree report shows for each of its lines an account with the sum of the wanted postings on it and below, and every account within --depth on which something is left is visible in such a line; with --flat --depth d it shows one line for every group of accounts with the same first d components whose sum is not zero.",
 "all files, all such options","unbounded journals, rules and account hierarchies",
 ["src/commands/balance.rs: execute", "src/filter.rs: filter", "src/models/mod.rs: to_ledger"])
prop("C101","Conversion, from the file on",
 "With --exchange the flat report of every journal shows the sums of the wanted postings, per account and in total, converted with the rates that follow from the prices the command prices prints; asking for a commodity the journal does not know changes nothing.",
 "all files, options and hash orders","spans parser, ledger, prices and report",
 ["src/commands/balance.rs: execute", "src/commands/prices.rs: execute", "src/models/price.rs: conversion"])
prop("C102","Rules on accounts never make the program panic",
 "A journal whose automated transactions select postings by account patterns and state amounts, or factors where every posting they could be for has an amount of its own or is completed, is accepted or rejected with an error by every command, never by a panic.",
 "all such files","absence of panics over unbounded journals and rules",
 ["src/models/mod.rs: to_ledger", "src/models/transaction.rs: get_filter_query", "src/parser/value_expr.rs: eval"])
prop("C103","What rules on accounts add",
 "For a journal whose automated transactions are account patterns with amounts or factors, the register lists the wanted entries of its booked transactions together with one posting for each rule, each posting the rule is for and each posting of the rule, with the written account, kind and amount, or the amount times the factor.",
 "all such files, options and hash orders","unbounded journals and rules",
 ["src/models/mod.rs: to_ledger", "src/commands/register.rs: execute"])
prop("C104","What check says of rules on accounts",
 "For such a journal check says KO when its regular transactions cannot be booked; otherwise OK exactly when each of them, with what the rules add, balances (the bracketed postings as well) and every asserted total holds with what the rules add counted in.",
 "all such files","an equivalence over unbounded journals and rules",
 ["src/commands/check.rs: execute", "src/models/mod.rs: to_ledger", "src/models/transaction.rs: balance"])
prop("C105","What rules on accounts bring to the balance",
 "For such a journal the flat balance shows for every account the sum of its entries plus, for each posting of a rule on it, the factor times the sum of the postings the rule is for, or the amount for each of them; accounts where this is nothing are not shown.",
 "all such files and hash orders","a law about sums over unbounded journals and rules",
 ["src/models/mod.rs: to_ledger", "src/commands/balance.rs: execute"])
prop("C106","The printed lists can be read back",
 "What accounts, payees and commodities write is, read line by line, the ascending list of the declared names and of the used ones that are not declared; from each line prices writes the date, the commodity and the amount can be read.",
 "all files, arguments and hash orders, names without line breaks (for prices: commodities without blanks)","unambiguity of a layout over all lists",
 ["src/commands/accounts.rs: execute", "src/commands/payees.rs: execute", "src/commands/commodities.rs: execute", "src/commands/prices.rs: execute", "src/models/price.rs: fmt"])
prop("C107","Expressions that make sense have a value",
 "An expression whose operators are applied to operands of the right types (amounts added, or put in order, only with numbers or in a journal in one commodity; divisors written and not zero; dates written as such) evaluates, on every posting that has the amount and payee it asks for, to a value of its type, without panic.",
 "all expressions, postings, transactions and lists of commodities","type soundness over all expression trees",
 ["src/parser/value_expr.rs: eval", "src/filter.rs: filter_expression"])
prop("C108","Rules that make sense never make the program panic",
 "A journal whose automated transactions have conditions that are true or false and amounts that are stated, factors or expressions for money, all of which make sense, and whose postings have what they ask for, is accepted or rejected with an error by every command, never by a panic.",
 "all such files","absence of panics over unbounded journals, rules and expressions",
 ["src/models/mod.rs: to_ledger", "src/parser/value_expr.rs: eval", "src/parser/value_expr.rs: eval_value_expression"])
prop("C109","What check says of rules that make sense",
 "For such a journal check says KO when its regular transactions cannot be booked; otherwise OK exactly when each of them, with what the rules add, balances (the bracketed postings as well) and every asserted total holds with what the rules add counted in.",
 "all such files","an equivalence over unbounded journals, rules and expressions",
 ["src/commands/check.rs: execute", "src/models/mod.rs: to_ledger", "src/parser/value_expr.rs: eval"])
prop("C110","Reports answer questions that make sense",
 "For a journal whose rules make sense and whose virtual postings state their amounts, and a query that makes sense, register and balance (as a tree or flat, with dates, --real, a depth limit other than zero, amounts converted at rates that are not zero) print a report or the error for which the transactions cannot be booked, and never panic; words that are patterns of accounts always make sense.",
 "all such files, queries, options and hash orders","absence of panics over unbounded journals and queries",
 ["src/commands/register.rs: execute", "src/commands/balance.rs: execute", "src/filter.rs: filter", "src/parser/value_expr.rs: eval"])
prop("C111","Expressions mean what they say",
 "An expression that makes sense (C107) evaluates on a posting to what it says: quantities computed and compared as rational numbers, texts and days in their order, patterns looked for in what they are held against, any asking all postings, has_tag and tag the tags of the posting; provided it does not hold amounts equal to each other in a journal with several commodities.",
 "all expressions, postings, transactions and lists of commodities","agreement of two evaluations over all expression trees",
 ["src/parser/value_expr.rs: eval", "src/parser/value_expr.rs: eval_value_expression"])
prop("C112","Reports show what the question asks for",
 "For a journal whose rules make sense and a question that makes sense, the register lists exactly the postings of which the question is true, with the dates and --real, and the balance (flat, with a depth limit, as a tree) shows the sums of exactly these.",
 "all such files, queries, options and hash orders","a law about sums over unbounded journals and all expressions",
 ["src/commands/register.rs: execute", "src/commands/balance.rs: execute", "src/filter.rs: filter", "src/parser/value_expr.rs: eval"])
prop("C113","Operators bind by their levels",
 "An expression written without parentheses is read with products first, then sums, comparisons, and, or; not and - take what follows; what is in parentheses is read for itself.",
 "all expressions and texts of this form","correctness of a recursive grammar over all texts",
 ["src/grammar/grammar.pest: value_expr", "src/parser/value_expr.rs: build_ast_from_expr"])
prop("C114","Words of questions are joined as written",
 "Words that are patterns for accounts, payees (@) or tags (%), regular expressions, and expressions after expr, joined by and, or, or nothing, are read as groups between the ors, of which the first two (and in each group the first two words) count; the register lists exactly the postings for which the question is answered with yes. The same holds for the descriptions of automated transactions.",
 "all such questions, files, options and hash orders","correctness of a translation of text over unbounded questions",
 ["src/filter.rs: preprocess_query", "src/grammar/grammar.pest: value_expr", "src/commands/register.rs: execute", "src/models/transaction.rs: get_filter_query"])
prop("C115","The exit status tells whether the journal is in order",
 "For a journal whose rules make sense and a question that makes sense, every command ends with status 0 when the transactions can be booked and with 1 otherwise, never with a panic, so that all commands agree; a journal that cannot be read ends every command with the same status (1 for an error, 101 for a panic); arguments that are not accepted end it with the status of their parser.",
 "all files, arguments and hash orders","an equivalence over all files and commands",
 ["src/main.rs: main", "src/app.rs: run_app", "src/commands/check.rs: execute"])
prop("C116","What rules with expressions add",
 "For a journal whose rules make sense, and hold no amounts of different commodities equal nor ask for the tags of other postings, the register lists the asked-for postings of its booked transactions with what the rules make of them one after the other: a rule is for the journal's own postings of which its condition is true of the transaction before the rule, tags them, and adds for each of them and each of its own postings one with the written account and kind and the amount written, or the amount times a factor or expression for a number, or what an expression for money comes to, in a commodity that occurs in it; check says OK exactly when this balances and the asserted totals hold.",
 "all such files, questions, options and hash orders","unbounded journals, rules and expressions",
 ["src/models/mod.rs: to_ledger", "src/parser/value_expr.rs: eval", "src/parser/value_expr.rs: eval_value_expression", "src/commands/register.rs: execute", "src/commands/check.rs: execute"])
prop("C117","What check says, with sales in brackets",
 "The conditions of C11, C84, C104, C109 and C116 under which a transaction or a journal is accepted hold without exception when each bracketed posting that gives something away at a price per unit is weighed as the purchase of as much (which is what the code does, against C11).",
 "all transactions and files (without total costs for nothing; rules as in C104, C109)","an equivalence over unbounded journals and rules",
 ["src/models/transaction.rs: total_balance", "src/models/transaction.rs: balance", "src/commands/check.rs: execute", "src/models/mod.rs: to_ledger"])
prop("C118","The message names the transaction at fault and what is wrong with it",
 "When the ledger of a journal, without automated transactions or with rules that make sense, fails with an error, the message on stderr shows the first transaction by date that cannot be booked after those before it, with its date, description and a line for each posting, and the error is the one for the first thing wrong with it: brackets that do not balance, an asserted total the account does not have (then the total written, what the account has and the difference are shown), an assigned total no single amount reaches, more than one amount left out (with their number), or a sum that cannot be zero; and the ledger fails with this error whenever one of these is so.",
 "all files, with and without balance checks, and all hash orders","unbounded journals",
 ["src/models/mod.rs: to_ledger", "src/models/transaction.rs: balance", "src/models/transaction.rs: fmt", "src/models/balance.rs: fmt", "src/error.rs: From<LedgerError>"])
prop("C119","The message about a line that cannot be read shows where it is",
 "When a journal without include directives and automated transactions, after lines that can be read, has a line that starts with a character that starts no item, or an indented line that belongs to nothing, then the journal is rejected, and the message names the error, the file, the number of the line and the column, shows the line before and the line, each next to its number, and below it has exactly one mark, in the column of the character at fault.",
 "all files, whatever comes after the line","unbounded texts",
 ["src/parser/mod.rs: Tokenizer::error, Tokenizer::tokenize", "src/parser/chars.rs: consume_whitespaces_and_lines", "src/app.rs: run_app"])
prop("C120","A journal that is read is accepted, rejected, or crashes the program for a total cost of nothing",
 "A journal that is read and has no automated transactions either has a total cost for a zero quantity, and then every command panics, or its transactions can be booked by date, and then there is a ledger, or one of them is the first that cannot, and then the message names it; the exit status of `check` is 101, 0 or 1 accordingly. With a total cost for a zero quantity every command panics whatever else is in the journal.",
 "all files","an exact case distinction over unbounded journals",
 ["src/models/mod.rs: to_ledger, _transaction_to_ledger lines 406-437", "src/models/transaction.rs: balance", "src/commands/check.rs: execute", "src/main.rs"])
prop("C121","Reports of periods add up",
 "For every journal, every question and every day in a period: what the flat balance says of an account for the period is the sum of what it says for the part before the day (`--end day`) and for the part from the day on (`--begin day`), the totals add up in the same way, and the entries of the register are those of the first part followed by those of the second.",
 "all files, questions, periods and days in them","a relation between three reports on unbounded journals, whatever the order of the transactions in the file",
 ["src/filter.rs: filter", "src/commands/balance.rs: execute", "src/commands/register.rs: execute", "src/models/mod.rs: to_ledger"])
prop("C122","A command that fails has printed the report up to there, or nothing",
 "When the register of an accepted journal fails, it stops at one posting: stdout has the complete lines of the postings selected before it, with their headers and running totals, and nothing else unless that posting has no amount, in which case its line is begun. It stops there because the question has no answer for that posting, or the posting has no amount; the exit status is 1 or 101. Every other command that fails prints nothing (`check` its verdict).",
 "all files, arguments and questions","where an evaluation fails depends on the whole input; all prefixes of all reports have to be looked at",
 ["src/commands/register.rs: execute", "src/commands/balance.rs: execute", "src/filter.rs: filter, filter_expression", "src/main.rs"])
prop('C123','The lists of journals with automated transactions',
 'For every journal, with or without automated transactions, `accounts`, `payees` and `commodities` write, in order and each once, what is declared and what is used without being declared. Automated transactions add no account and no payee that is not written in a posting of the journal. The commodities are those of postings and price directives, and those written in the condition of a rule or in the expression for one of its amounts; a commodity of a condition is listed even if nothing is in it, as soon as there is an amount to put the condition to.',
 'all files, arguments and hash orders','rules change the lists while they are evaluated, for every posting; no sample of rules shows what they leave alone',
 ['src/models/mod.rs: to_ledger', 'src/parser/value_expr.rs: eval, eval_expression', 'src/commands/accounts.rs: execute', 'src/commands/payees.rs: execute', 'src/commands/commodities.rs: execute'])
prop('C124','The prices of journals with automated transactions',
 'For every journal with automated transactions, `prices` lists the prices of the directives, then the prices paid in postings, then the rates implied by the transactions as they are booked before the rules, then the rates implied by the transactions with what the rules add. If the rules have no real postings, the last two lists agree one by one up to direction: each implied rate is listed twice, whatever the rules say.',
 'all files, options and hash orders','what is recorded in each pass depends on every transaction and every rule; only a proof covers all',
 ['src/models/mod.rs: to_ledger', 'src/commands/prices.rs: execute'])
prop('C125','The command line and the configuration file together',
 'For every command line that is written as declared (commands with their aliases; long, short and equals forms; query words in between): the program runs what the options say, in whatever order and form they are; an option given twice is refused with status 1. An option in the configuration file acts as if it were on the command line unless it is given there, for command lines with the long forms or `-f`. It fails otherwise: with `--depth 3` in the file, `-d 2` or `--depth=2` makes the program refuse to run, and `--flat` in the file makes every command but `balance` refuse to run.',
 'all command lines, configuration files and journals','the forms, orders and combinations of options with a configuration file are unbounded; the tests use a handful',
 ['src/app.rs: Command', 'src/app.rs: CommonOpts', 'src/app.rs: run_app'])
prop('C126','Adding to a journal does not change its history',
 'When transactions and prices are added to the end of a journal, none dated before those it has: if the longer journal is accepted so is the shorter one, and the transactions of the longer one begin with those of the shorter one (accounts, payees, amounts, filled in and asserted ones), whatever the hash orders of the two runs; the balance and the register before the added days stay as they were. This holds for journals without automated transactions in which no name is written in two ways. It fails otherwise: a later transaction that writes `food` for `Food` can rename the account in the history, depending on a hash order, and an automated transaction at the end adds to all transactions.',
 'all journals, additions, hash orders, report options and patterns of accounts','journals grow without bound and the names, orders and totals they bring interact with everything before; a test can only compare two given journals',
 ['src/models/mod.rs: to_ledger', 'src/models/mod.rs: _transaction_to_ledger', 'src/models/transaction.rs: balance', 'src/commands/register.rs: execute', 'src/commands/balance.rs: execute'])
prop('C127','Colours do not change what is shown',
 'Whatever the environment, the terminal and the options, the program ends the same with and without colours, and a terminal that understands the escape sequences shows the same characters, with nothing coloured behind them; accounts are blue, and amounts are red where they are negative, so that amounts of different signs never look the same, even where the printed sign is lost; without a terminal, or with NO_COLOR, the text has no escape sequences unless they are forced; with --force-color the surroundings do not matter. It fails for names with escape sequences in them (the blanks beside them change), a zero that comes from an asserted total is red, and `check` does not heed --force-color.',
 'all environments, worlds, arguments, journals, hash orders and outcomes','the combinations of environment variables, options, commands, signs and commodities are unbounded, and a test run without a terminal never sees a colour',
 ['src/commands/register.rs: execute', 'src/commands/balance.rs: execute', 'src/commands/check.rs: execute', 'src/app.rs: run_app'])
prop('C128','Every rejected journal is explained',
 'Whenever the parser rejects a journal (or a file it includes), stderr names the file, the line and the column of a place that the reported error is true of - a digit where an account should be, a second decimal point, a word that is no number, a price without an amount, a bracket that is not closed, a property that the directive does not have, a file that includes itself - and shows that line and the one before it, with a mark under the column. It fails for a line that starts like an `include` directive and is none, where nothing is written; a missing bracket at the end of a line is reported in the first column or on the next line, and an include loop on the line after the directive.',
 'all files, included files, journals and errors of the parser','the places where an error can be found, and the counters that lead to them, are unbounded',
 ['src/parser/mod.rs: Tokenizer::error, Tokenizer::tokenize', 'src/parser/tokenizers/transaction.rs: parse_generic, parse_posting', 'src/parser/tokenizers/account.rs: parse', 'src/parser/tokenizers/commodity.rs: parse', 'src/parser/include.rs: include'])
prop('C129','A failure has a cause, and the program names it',
 'Whenever a command ends with status 1 although its arguments could be read, what stands on stderr belongs to one of four causes: the parser does not understand the journal, a transaction of the journal (with what the rules add to it) cannot be booked, the query of an automated transaction has a value that is neither true nor false, or the query on the command line has. Without a query only the journal decides: a command ends with status 1 exactly when there is no ledger for the file, so all commands agree about a journal. It fails for a line that starts like an `include` directive and is none, for which nothing is written.',
 'all commands, options, queries, journals and orders of the maps','which commands agree, and what every failure says, is a statement about all journals and all queries',
 ['src/app.rs: run_app', 'src/filter.rs: filter_expression', 'src/models/mod.rs: ParsedLedger::to_ledger', 'src/commands/check.rs: execute', 'src/commands/balance.rs: execute', 'src/commands/register.rs: execute'])
prop('C130','What an accepted journal says is what is read',
 'Whenever the program reads a journal without an error, its text is made up, to the last character, of things that stand for what was read: it is a sequence of blank lines and items, each item is a line of its own with the indented lines below it, each posting is an account, two blanks and a sequence of amounts, costs, asserted totals and expressions up to a comment or the end of the line, and the first lines of transactions, prices and commodities have the parts described in a specification of their own; the same holds for the included files. For these first lines this is an equivalence: what has the form is accepted. If no two amounts of the same kind stand on the line of a posting, all of them are kept. Not meant that way but accepted: of two amounts the first is lost, in automated transactions the first word of an expression without brackets is lost, `.-5` is -0.05, the amount can stand on the line below the account, text after a carriage return in a first line is lost, and the last character of a file can be read twice.',
 'all accepted journals, well written or not','what the program accepts is an infinite set of texts, most of which nobody would write into a test',
 ['src/parser/mod.rs: Tokenizer::tokenize', 'src/parser/tokenizers/transaction.rs', 'src/parser/utils.rs', 'src/parser/chars.rs', 'src/parser/tokenizers'])
prop('C131','Names that are declared twice are noted on stderr, and nothing else is said on success',
 'If a command ends with status 0, then what it has written to stderr is one line for every account, commodity or payee that a file declares although it has declared the same name before (ignoring case) or a file it includes has, one for every entry of an include pattern that cannot be read, in the order of the journal, and nothing else; for a file without include directives it is silent exactly when its names are pairwise different, and a noted declaration has no effect. It is false that every repeated declaration is noted: a name that an included file declares again silently replaces the first declaration.',
 'every journal with its included files, every command and every environment','duplicate declarations are not tested; that nothing else is written needs all error paths to be excluded',
 ['src/list.rs:40-53', 'src/parser/mod.rs:131-192', 'src/parser/include.rs:8-49', 'src/app.rs:183-228'])
prop('C132','A journal is accepted exactly if it stands for something, and it cannot stand for two things',
 'A file is read as a parsed ledger if and only if that is what the characters of the file and of the files it includes stand for, in the description of accepted journals (C130); nothing can stand for two different ledgers; a reading that ends rejects the journal exactly if it stands for nothing; and how many iterations the loops are allowed makes no difference to a reading that ends.',
 'every text of every file, every file system and every environment','that a text is rejected only when no reading of it is possible needs all readings; uniqueness needs all pairs of readings',
 ['src/parser/mod.rs:89-192', 'src/parser/include.rs:8-49', 'src/parser/tokenizers/transaction.rs:15-344', 'src/parser/tokenizers/account.rs:9-96', 'src/parser/chars.rs:1-132'])
prop('C133','What is added to the end of a journal leaves what was there as it was',
 'If a journal is accepted and so is a text on its own, then the journal with the text added to its end is accepted, its transactions, prices, comments and tags are those of the journal followed by those of the text, and the accounts, commodities and payees that were declared before keep their declarations (unless the text includes files). This is false if the journal leaves a parenthesis of an expression open, or if it ends with an account and a single blank before the line break.',
 'every journal with its included files, every text that is added and every environment','all pairs of texts',
 ['src/parser/mod.rs:131-192', 'src/parser/chars.rs:1-132', 'src/parser/tokenizers/transaction.rs:192-344', 'src/list.rs:40-53'])
prop('C134','The outermost lines of the tree report add up to the total',
 'In every tree report, the amounts of the lines that are indented least add up, in every commodity, to the sum of all selected postings and to the total printed below them; with --exchange, to that sum converted. This holds for all account names, also where the labels are wrong (C57).',
 'every ledger, all options and hash orders','all ledgers and trees',
 ['src/commands/balance.rs:60-91', 'src/commands/balance.rs:135-265'])
prop('C135','Every line of the tree shows the total of the account it starts at',
 'In every tree report, every line starts at an account on which something is left: it is indented by the depth of that account, its label starts with the last component of its name, and it shows the sum of the selected postings on it and below. The lines are in the order of these accounts, no account starts two lines, none is deeper than --depth, and every outermost account on which something is left starts a line.',
 'every ledger, all options and hash orders','all ledgers and trees',
 ['src/commands/balance.rs:60-91', 'src/commands/balance.rs:154-230'])
prop('C136','Reading a journal does not end exactly if a tag directive has a comment',
 'Reading a file goes on forever if and only if everything before some item is read without trouble and that item is a tag directive that has, after properties only, an indented comment, or includes a file of which the same is true. So every file is accepted (and then stands for what C132 says), rejected or read forever, and which of the three is decided by its characters and those of the files it includes.',
 'every text, all files and included files','a test that does not end is no test; all texts',
 ['src/parser/tokenizers/tag.rs:48-63', 'src/parser/mod.rs:131-192', 'src/parser/include.rs:8-49'])
prop('C137','Reports for a question and for its negation add up',
 'For a journal and a question that make sense (C110): what the flat balance says of an account, at any depth and with any options, is the sum of what it says for a question and for its negation (`expr "not …"`), the totals are sums in the same way, flat or as a tree, and the register is made of the two registers, each in the same order. What the reports say for two questions joined with `or` and with `and` is together what they say for each of the two.',
 'every sound journal, every clear question, every option, all orders of hash tables','two evaluations of the same expression over the same postings must agree for every posting',
 ['src/filter.rs: filter', 'src/parser/value_expr.rs: eval', 'src/commands/balance.rs: execute', 'src/commands/register.rs: execute'])
prop('C138','A report does not depend on the hash seed, except for the order of the amounts',
 'Whatever the orders in which hash tables are read: the balance of a ledger fails in the same way or shows the same lines (label, indentation, amounts) and the same total, except for the order of the amounts of one line; the register likewise, except for the order of the amounts of the running total. With `--exchange` this holds if the prices do not contradict each other. If all amounts are of one commodity, the reports are equal. Two runs on a journal that leaves hash orders nothing to decide (C29) show the same balance in this sense.',
 'every ledger, all options, all pairs of orders of all hash tables','hash maps are seeded at random in every process: a test sees one order of each table per run',
 ['src/commands/balance.rs: execute', 'src/commands/register.rs: execute', 'src/models/balance.rs: Balance'])
prop('C139','Reports of different depths agree',
 'For one ledger and the same options: every line of a flat balance with a depth shows the sum of the lines that a flat balance with a greater depth, or without one, shows for the accounts it stands for, and it is there exactly if that is not nothing. Every line of a tree, of any depth, shows the sum of the lines of the flat balance for the account it starts at and those below it. The outermost lines of any tree add up to the lines of any flat balance.',
 'every ledger and journal, all questions and filters, all depths, all hash orders','tests count the lines at depth 1; agreement for all depths and account hierarchies cannot be enumerated',
 ['src/commands/balance.rs: execute'])
prop('C140','The unit does not matter',
 'If every amount, asserted total and total cost of a journal without automated transactions is multiplied by the same positive number, and prices per unit stay, the journal is accepted, rejected with a message or ends the program exactly if it was before. If it is accepted, every line of the flat balance, with any depth, is multiplied by that number.',
 'every journal without automated transactions, every positive rational number, all commodities, elided amounts, assigned totals and costs, with and without checking totals','tests use fixed amounts; that nothing depends on how large they are, for example through rounding or a tolerance, cannot be seen from examples',
 ['src/models/mod.rs: _transaction_to_ledger', 'src/models/mod.rs: to_ledger', 'src/models/transaction.rs: balance', 'src/commands/balance.rs: execute'])
prop('C141','Other names for accounts move their lines, and one name for two adds them up',
 'If the accounts of a journal without automated transactions and account declarations get other names, it is accepted, rejected with a message or ends the program exactly if it was before. If it is accepted, the flat balance, with any depth, has for every name the sum of the lines of the accounts that now have this name or one that is cut to it; names that differ leave every line as it is. No two names, neither the old nor the new ones, differ in case only, and no asserted total is in force unless the new names differ.',
 'every journal without automated transactions and account declarations, every function on names, all commodities, elided amounts, assigned totals and costs, with and without checking totals','tests use fixed names; that nothing depends on which name it is, for example on a hash or a prefix, cannot be seen from examples',
 ['src/models/mod.rs: to_ledger', 'src/models/mod.rs: _transaction_to_ledger', 'src/models/transaction.rs: balance', 'src/commands/balance.rs: execute'])
prop('C142','The names of commodities do not matter',
 'If the commodities of a journal without automated transactions and commodity declarations get other names, different ones for different commodities, in postings, costs, asserted totals and price directives alike, it is accepted, rejected with a message or ends the program exactly if it was before. If it is accepted, every line of the flat balance, with any depth, says of the new name what it said of the old one. No two names, neither the old nor the new ones, differ in case only.',
 'every journal without automated transactions and commodity declarations, every bijection on names, elided amounts, assigned totals and costs, with and without checking totals','tests use fixed commodities; that none of them is treated differently, for example by the order of its name or as a default, cannot be seen from examples',
 ['src/models/mod.rs: to_ledger', 'src/models/mod.rs: _transaction_to_ledger', 'src/models/transaction.rs: balance', 'src/models/balance.rs: can_be_zero', 'src/commands/balance.rs: execute'])
prop('C143','Neither order nor dates matter to balances, unless totals are asked for',
 'If the transactions of a journal are put in any order and at any dates, then, as long as no asserted or assigned total is in force, it is accepted, rejected with a message or ends the program exactly if it was before, and the balance report is the same up to the order of the amounts of one account: flat or as a tree, with the total, with any depth, with --real, and with any account patterns. With totals in force this is so if later transactions stay later and those of a day stay in their order, wherever they stand in the file. The journal leaves hash orders nothing to decide, and the two runs may meet different hash orders.',
 'every journal without automated transactions, every rearrangement and every choice of dates, all hash orders of both runs, elided amounts, costs and virtual postings, with and without checking totals','tests have journals in one order at fixed dates; that sorting, the running balances and the implied prices never leak into sums cannot be seen from examples',
 ['src/models/mod.rs: to_ledger', 'src/models/mod.rs: _transaction_to_ledger', 'src/models/transaction.rs: balance', 'src/commands/balance.rs: execute'])
prop('C144','Balances add up',
 'A journal that consists of the transactions and prices of two journals, in any order, is accepted exactly if both are, and its flat balance, with any depth, is for every account and commodity the sum of theirs, provided no asserted or assigned total is in force. In particular this holds for two texts without declarations, one after the other in a file. All journals have the same declarations, and what they contain together leaves hash orders nothing to decide; the three runs may meet different hash orders.',
 'every two journals without automated transactions, every way of mixing them, all hash orders of the three runs, elided amounts, costs and virtual postings, with and without checking totals','tests look at single journals; that no state is carried over from one transaction to another cannot be seen from examples',
 ['src/models/mod.rs: to_ledger', 'src/models/mod.rs: _transaction_to_ledger', 'src/models/transaction.rs: balance', 'src/parser/mod.rs: append', 'src/commands/balance.rs: execute'])
prop('C145','A report of a period is the report of the part of the journal in this period',
 'Let a journal consist of a part with the transactions of a period and of the rest, both with the same declarations, in any order, with no asserted or assigned total in force. If the journal is accepted, so is the part. The balance report of the journal with --begin and --end for the period is the balance report of the part without them, up to the order of the amounts of one account: flat or as a tree, with the total, with any depth, with --real, and with any account patterns.',
 'every journal without automated transactions, every period, every part, all hash orders of the two runs, elided amounts, costs and virtual postings, with and without checking totals','tests look at single journals with few dates; that nothing before a period changes what is reported about it cannot be seen from examples',
 ['src/models/mod.rs: to_ledger', 'src/models/transaction.rs: balance', 'src/filter.rs: filter', 'src/commands/balance.rs: execute'])
prop('C146','The order of the postings of a transaction does not matter to balances',
 'Let two journals be the same except for the order of the postings within each transaction, with no asserted or assigned total in force. One is accepted, rejected with a message, or ends the program, exactly if the other does. The balance reports of the two, as trees or flat, for any account patterns, any period and any depth, have the same rows.',
 'every journal without automated transactions, every order of the postings of every transaction, all hash orders of the two runs, elided amounts, costs and virtual postings, with and without checking totals','tests write the postings of a transaction in one order; that the elided amount may stand anywhere and is filled in with the same sums cannot be seen from examples',
 ['src/models/mod.rs: to_ledger', 'src/models/mod.rs: populate_directive_lists', 'src/models/transaction.rs: balance', 'src/commands/balance.rs: execute'])
prop('C147','A posting may be written as two',
 'Let two journals be the same except that some postings of the first are written as two in the second, with amounts of the same commodity, of any sign, that add up to the amount of the first. The posting has no total cost, and if it is in brackets no cost at all; no asserted or assigned total is in force. One journal is accepted, rejected with a message, or ends the program, exactly if the other does, and the flat balance, for any period and depth, and for any patterns that do not ask for fields, says the same of every account and commodity.',
 'every journal without automated transactions, any number of postings in any transactions, all amounts, all hash orders of the two runs, elided amounts and prices per unit, with and without checking totals','tests post whole amounts; that only sums count, whatever the signs of the parts, cannot be seen from examples',
 ['src/models/mod.rs: to_ledger', 'src/models/mod.rs: _transaction_to_ledger', 'src/models/transaction.rs: balance', 'src/commands/balance.rs: execute'])
prop('C148','An amount may be left out',
 'Let two journals be the same except that in some transactions of the second the amount of one real posting is left out. In those transactions all real postings have amounts in one commodity and no costs, and there is more than one of them; no asserted or assigned total is in force. If the first journal is accepted so is the second, and the flat balance, for any period and depth, and for any patterns that do not ask for fields, says the same of every account and commodity.',
 'every journal without automated transactions, any transactions and any posting in them, all amounts, all hash orders of the two runs, any virtual postings beside, with and without checking totals','tests elide the last posting of pairs; that the amount filled in is the one that had been written, wherever it stands, cannot be seen from examples',
 ['src/models/mod.rs: to_ledger', 'src/models/mod.rs: _transaction_to_ledger', 'src/models/transaction.rs: balance', 'src/commands/balance.rs: execute'])

with open(os.path.join(os.path.dirname(__file__),"..","properties.jsonl"),"w") as f:
    for p in P: f.write(json.dumps(p, ensure_ascii=False)+"\n")
print(len(P))
