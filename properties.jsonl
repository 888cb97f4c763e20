{"id": "C01", "title": "Adding balances is exact per commodity", "statement": "For any two balances and any commodity, the amount of that commodity in `a + b` is the exact rational sum of its amounts in `a` and in `b`; commodities whose sum is zero leave no entry, and the addition never panics on balances obtained from the public constructors.", "quantifier": "all pairs of balances reachable through Balance::new / From<Money> / + / - / neg, all commodities, all hash-map iteration orders", "why_tests_cant": "amounts are unbounded rationals and the maps are iterated in a random order; a test samples a few amounts and one order", "anchors": ["src/models/balance.rs: impl Add for Balance", "src/models/money.rs: impl Add for Money"]}
{"id": "C02", "title": "A balance does not depend on the order things were added in", "statement": "Summing the same multiset of amounts in any order, with any grouping, gives balances with identical per-commodity amounts, and the empty balance is neutral.", "quantifier": "all lists of money, all permutations and groupings of them", "why_tests_cant": "factorially many orders of unboundedly long lists", "anchors": ["src/models/balance.rs: impl Add for Balance, From<Money>"]}
{"id": "C03", "title": "Subtraction and negation of balances and money are exact inverses", "statement": "`-b` has in every commodity minus the amount of `b`, `a - b` the exact difference, and `b - b` is zero.", "quantifier": "all reachable balances, all commodities", "why_tests_cant": "unbounded domain of rationals and commodity sets", "anchors": ["src/models/balance.rs: impl Neg, impl Sub", "src/models/money.rs: impl Sub, impl Neg"]}
{"id": "C04", "title": "Zero test and single-commodity extraction are correct", "statement": "`is_zero` answers true exactly when every commodity amounts to zero; `to_money` returns the only non-zero commodity (or zero when there is none) and fails exactly when two or more commodities are non-zero.", "quantifier": "all reachable balances, all iteration orders", "why_tests_cant": "unbounded number of commodities and random iteration order", "anchors": ["src/models/balance.rs: Balance::is_zero, Balance::to_money"]}
{"id": "C05", "title": "The 'may balance' decision is exactly: all zero, or a gain in one commodity against a loss in another", "statement": "`can_be_zero` is true iff every commodity is zero or some commodity is strictly positive while another is strictly negative.", "quantifier": "all reachable balances, all iteration orders", "why_tests_cant": "random iteration order with an early return; unbounded commodity sets", "anchors": ["src/models/balance.rs: Balance::can_be_zero"]}
{"id": "C06", "title": "Balance comparison checks every commodity of the left operand", "statement": "`a == b` holds iff every commodity of `a` has the same amount in `b` (an absent commodity counting as zero); it deliberately ignores commodities only present in `b`, so it is not symmetric.", "quantifier": "all pairs of reachable balances", "why_tests_cant": "unbounded domain; asymmetry only shows for operands a test does not pick", "anchors": ["src/models/balance.rs: impl PartialEq for Balance"]}
{"id": "C07", "title": "Money equality and ordering are coherent", "statement": "Money `==` is an equivalence, `cmp` is a total order on amounts of one commodity that agrees with `==`, and the `<` operator agrees with `cmp`.", "quantifier": "all pairs/triples of money values", "why_tests_cant": "algebraic law over an infinite domain", "anchors": ["src/models/money.rs: impl PartialEq, impl Ord, derive(PartialOrd)"]}
{"id": "C08", "title": "Scaling money is exact", "statement": "Multiplying and dividing money by a number multiplies/divides the exact amount and keeps the commodity; dividing undoes multiplying; dividing non-zero money by zero panics rather than producing a value; abs is non-negative and keeps the magnitude.", "quantifier": "all money values and all rationals", "why_tests_cant": "infinite domain of rationals", "anchors": ["src/models/money.rs: impl Mul, impl Div, Money::abs"]}
{"id": "C09", "title": "The printed amount is the exact amount rounded to the commodity precision", "statement": "The decimal string printed for an amount denotes the multiple of 10^-precision nearest to the exact amount (ties away from zero), with the sign of the amount.", "quantifier": "all rational amounts", "why_tests_cant": "carry and sign corner cases are measure-zero for sampled tests, infinite domain", "anchors": ["src/models/money.rs: impl Display for Money", "src/models/currency.rs: Currency::get_precision"]}
{"id": "C10", "title": "The elided amount makes the transaction balance exactly", "statement": "When exactly one real posting of an accepted transaction has no amount, postings are generated on that posting's account so that the weights of all real postings sum to exactly zero in every commodity, one generated posting per commodity that needed it and none otherwise.", "quantifier": "all transactions with one empty posting, all account histories, all iteration orders", "why_tests_cant": "unbounded number of postings, commodities and rational amounts", "anchors": ["src/models/transaction.rs: Transaction::balance"]}
{"id": "C11", "title": "A transaction with no elided amount is accepted exactly when it balances", "statement": "With all amounts present and assertions satisfied, the transaction is accepted iff the per-commodity sum of the weights of its real postings is zero everywhere or has both a positive and a negative commodity (and the balanced-virtual group passes the same test); in particular a single-commodity transaction is accepted iff it sums to exactly zero.", "quantifier": "all transactions, all account histories", "why_tests_cant": "needs every combination of amounts; rejects and accepts on an exact rational equality", "anchors": ["src/models/transaction.rs: Transaction::balance, total_balance", "src/models/balance.rs: can_be_zero"]}
{"id": "C12", "title": "More than one elided amount is always rejected", "statement": "A transaction with two or more real postings without amount (and without a usable balance assignment) is never accepted.", "quantifier": "all transactions, all histories", "why_tests_cant": "unbounded posting lists", "anchors": ["src/models/transaction.rs: Transaction::balance"]}
{"id": "C13", "title": "Balancing neither loses, alters nor invents explicit postings", "statement": "After a successful balance every posting that was written with an amount is still there with the same account, amount, cost, assertion and kind, real postings in their original order; virtual postings are untouched; the only new postings are on the elided posting's account; and every real posting now has an amount.", "quantifier": "all transactions and histories for which balancing succeeds", "why_tests_cant": "unbounded posting lists", "anchors": ["src/models/transaction.rs: Transaction::balance"]}
{"id": "C14", "title": "A balance assertion next to an amount is enforced exactly", "statement": "With checks on, a real posting `amount = total` is accepted only if the account's running amount of the asserted commodity including this posting equals the asserted total exactly, and is never the cause of a rejection when it does.", "quantifier": "all postings, histories and asserted totals", "why_tests_cant": "exact rational comparison against an unbounded history", "anchors": ["src/models/transaction.rs: Transaction::balance lines 305-320"]}
{"id": "C15", "title": "A balance assignment sets the account to the asserted total", "statement": "With checks on, a real posting written only as `= total` receives the amount that makes the account's running balance exactly the asserted total; it is rejected iff the needed amount spans several commodities.", "quantifier": "all histories and totals", "why_tests_cant": "unbounded history and commodity sets", "anchors": ["src/models/transaction.rs: Transaction::balance lines 372-394"]}
{"id": "C16", "title": "With checks off balance assertions cannot reject a journal", "statement": "With `--no-balance-check`, changing or removing the asserted totals of postings that also carry an amount changes neither acceptance nor any amount of the resulting transaction.", "quantifier": "all transactions, histories and assertions", "why_tests_cant": "relational property over pairs of runs", "anchors": ["src/models/transaction.rs: Transaction::balance (skip_balance_check)"]}
{"id": "C17", "title": "Account balances are the exact sum of their postings", "statement": "After any sequence of accepted transactions the running balance kept per account equals, in every commodity, the exact sum of the amounts of all real postings made to it.", "quantifier": "all sequences of transactions (histories), all accounts, all commodities", "why_tests_cant": "history of unbounded length", "anchors": ["src/models/transaction.rs: Transaction::balance", "src/models/mod.rs: ParsedLedger::to_ledger lines 170-198"]}
{"id": "C18", "title": "Every assertion of an accepted journal holds in date order", "statement": "If a journal is accepted with checks on, then for each real posting with an asserted total, the sum of the amounts of all real postings to that account up to and including it, in the final transaction order, equals the assertion in its commodity.", "quantifier": "all journals", "why_tests_cant": "quantifies over whole histories of unbounded length", "anchors": ["src/models/mod.rs: ParsedLedger::to_ledger", "src/models/transaction.rs: Transaction::balance"]}
{"id": "C19", "title": "Bracketed virtual postings must balance among themselves", "statement": "A transaction whose `[account]` postings do not pass the balance test is rejected whatever its real postings are, and parenthesised virtual postings never influence acceptance.", "quantifier": "all transactions and histories", "why_tests_cant": "unbounded posting lists, relational", "anchors": ["src/models/transaction.rs: Transaction::balance lines 288-293, total_balance"]}
{"id": "C20", "title": "Costs weigh a posting by the exact converted amount, symmetric for purchases and sales", "statement": "A posting `q A @ p B` weighs q*p of B and `q A @@ t B` weighs t of B with the sign of q, for purchases and sales alike and for real and bracketed postings alike.", "quantifier": "all quantities and prices, both cost kinds, both posting groups", "why_tests_cant": "sign handling only fails on negative quantities in one of two code paths", "anchors": ["src/models/transaction.rs: total_balance, Transaction::balance"]}
{"id": "C21", "title": "Balancing an already balanced journal changes nothing", "statement": "Running the balancing pass a second time over its own result (as happens whenever automated transactions exist) succeeds and leaves every posting unchanged.", "quantifier": "all journals accepted by the first pass", "why_tests_cant": "needs all histories; second pass starts from fresh balances", "anchors": ["src/models/mod.rs: ParsedLedger::to_ledger lines 304-332", "src/models/transaction.rs: Transaction::balance"]}
{"id": "C22", "title": "The ledger contains each journal transaction exactly once, in stable date order", "statement": "The transactions of an accepted ledger are exactly the regular transactions of the journal, sorted by date, with transactions of equal date kept in journal order.", "quantifier": "all journals", "why_tests_cant": "unbounded lists, all date patterns", "anchors": ["src/models/mod.rs: ParsedLedger::to_ledger lines 157-168, 343-464"]}
{"id": "C23", "title": "The order in which files are read does not matter across dates", "statement": "Two journals with the same transactions, where any two transactions of the same date appear in the same relative order, yield the same ordered transaction list (docs: 'the extra ordering step means it doesn't matter').", "quantifier": "all pairs of journals that are reorderings of each other preserving same-date order", "why_tests_cant": "factorially many orders", "anchors": ["docs/differences_with_ledger.md", "src/models/mod.rs: ParsedLedger::to_ledger line 168"]}
{"id": "C24", "title": "Every name used in the journal resolves", "statement": "Building the ledger never panics on an unresolved account, commodity or payee: after the population phase, every account, commodity and payee string used by any posting or price is found by lookup.", "quantifier": "all parsed journals, all directive lists, all iteration orders", "why_tests_cant": "unbounded journals with aliases and case variants", "anchors": ["src/models/mod.rs: ParsedLedger::to_ledger lines 58-152, _transaction_to_ledger", "src/list.rs: List::get"]}
{"id": "C25", "title": "A posting cost records the exact unit price", "statement": "For every posting with a cost a price is recorded at the transaction date with unit price = per-unit cost, or total cost divided by quantity; multiplied by the quantity it gives the total cost back. A total cost on a zero quantity panics.", "quantifier": "all quantities and costs", "why_tests_cant": "rational division over an infinite domain with a singular point", "anchors": ["src/models/mod.rs: _transaction_to_ledger lines 406-437"]}
{"id": "C26", "title": "A two-commodity transaction implies the exact exchange rate", "statement": "If a fully specified transaction leaves exactly two commodities a and -b, the price recorded values one unit of one commodity at the exact ratio of the other, never divides by zero, and whichever of the two directions the hash order picks, it states the same exchange rate.", "quantifier": "all transactions, all iteration orders", "why_tests_cant": "random iteration order decides the direction", "anchors": ["src/models/mod.rs: ParsedLedger::to_ledger lines 187-197"]}
{"id": "C27", "title": "Automated transactions only append, and never trigger each other", "statement": "Applying automated transactions leaves the journal's own postings in place (up to added tags), appends for every matching (posting, rule) pair exactly the rule's postings in order, and never applies a rule to a posting produced by a rule.", "quantifier": "all journals, all rule lists, all match outcomes", "why_tests_cant": "unbounded rule and posting lists", "anchors": ["src/models/mod.rs: ParsedLedger::to_ledger lines 200-303"]}
{"id": "C28", "title": "Automated amounts are exact", "statement": "A generated posting gets: the written amount if a commodity is written; the matched posting's amount times the factor, in the matched posting's commodity, if only a number is written; the value of the expression otherwise (a number result scaling the matched amount).", "quantifier": "all matched postings and rules", "why_tests_cant": "infinite domain of amounts and expressions", "anchors": ["src/models/mod.rs: ParsedLedger::to_ledger lines 251-279", "src/parser/value_expr.rs: eval_value_expression"]}
{"id": "C29", "title": "The ledger built from a journal does not depend on the hash seed", "statement": "Two runs on the same journal produce the same commodities, accounts, payees, transactions and prices.", "quantifier": "all journals, all pairs of hash seeds", "why_tests_cant": "the seed is random per process; a test observes one draw", "anchors": ["src/models/mod.rs: ParsedLedger::to_ledger", "src/list.rs: List::insert"]}
{"id": "C30", "title": "Accounts ending in 'unknown' are redirected by payee rules deterministically", "statement": "A posting on an account whose name ends in 'unknown' goes to an account declaring a payee pattern that matches the posting's payee if there is one, otherwise stays; the choice is unique.", "quantifier": "all account lists, payees and iteration orders", "why_tests_cant": "random iteration order over accounts", "anchors": ["src/models/mod.rs: _transaction_to_ledger lines 375-391"]}
{"id": "C31", "title": "Name lists look up case-insensitively, by name before alias, and the first definition wins", "statement": "After any sequence of insertions, a lookup returns the first inserted element whose name equals the key ignoring case, else the element to which the most recent alias binding of that key points; inserting a duplicate changes nothing.", "quantifier": "all operation sequences, all keys, any case-folding function", "why_tests_cant": "stateful container: unbounded operation histories", "anchors": ["src/list.rs: List::insert, List::get"]}
{"id": "C32", "title": "Looking a name up never panics", "statement": "In every list obtained by insertions, merges and aliases for present elements, every alias points to a present element, so `get` returns an element or a 'not in list' error.", "quantifier": "all operation sequences", "why_tests_cant": "invariant over unbounded histories", "anchors": ["src/list.rs: List::get, List::add_alias, List::append"]}
{"id": "C33", "title": "Merging lists keeps every definition reachable, later file winning on conflict", "statement": "After `append`, a name defined in either list is found; when both define it, the appended list's definition is returned.", "quantifier": "all pairs of lists, all keys", "why_tests_cant": "unbounded domain", "anchors": ["src/list.rs: List::append", "src/parser/mod.rs: ParsedLedger::append"]}
{"id": "C34", "title": "Regex lookup answers according to the current contents", "statement": "`get_regex` returns an element iff some element name or alias matches the pattern, whatever lookups and insertions happened before.", "quantifier": "all operation sequences, all patterns, all iteration orders", "why_tests_cant": "memo table filled by earlier operations; needs histories", "anchors": ["src/list.rs: List::get_regex"]}
{"id": "C35", "title": "Currency conversion only uses prices known at the report date, the most recent per pair", "statement": "Every rate entering a conversion multiplier comes from a price dated on or before the report date, and no later such price exists for the same pair of commodities.", "quantifier": "all price lists, dates, iteration orders", "why_tests_cant": "unbounded price histories", "anchors": ["src/models/price.rs: conversion, Graph::from_prices"]}
{"id": "C36", "title": "A conversion multiplier is the product of the rates along a chain of prices", "statement": "Whenever `conversion` returns a multiplier for a commodity, there is a chain of prices connecting it to the target commodity and the multiplier is exactly the product of the rates (or inverse rates) along it.", "quantifier": "all price lists, dates, iteration orders", "why_tests_cant": "graph search over arbitrary graphs", "anchors": ["src/models/price.rs: conversion"]}
{"id": "C37", "title": "With arbitrage-free prices conversion is exact and reproducible", "statement": "If the prices in use are mutually consistent (each commodity has a value), every multiplier is the exact ratio of values, independently of hash order and of the chain chosen.", "quantifier": "all consistent price lists, all iteration orders", "why_tests_cant": "all graphs, all tie-breaks", "anchors": ["src/models/price.rs: conversion"]}
{"id": "C38", "title": "A commodity is convertible exactly when prices connect it to the target", "statement": "`conversion` returns a multiplier for a commodity other than the target iff a chain of usable prices connects the two.", "quantifier": "all price graphs", "why_tests_cant": "completeness of a graph search", "anchors": ["src/models/price.rs: conversion"]}
{"id": "C39", "title": "Amounts already in the target commodity are never rescaled", "statement": "`conversion` never returns a multiplier for the target commodity itself, so converting leaves those amounts untouched.", "quantifier": "all price lists including degenerate ones", "why_tests_cant": "needs the shortest-path argument for all graphs", "anchors": ["src/models/price.rs: conversion", "src/commands/balance.rs: convert_balance"]}
{"id": "C40", "title": "Conversion is a function of the prices", "statement": "For any price list and date, two runs return the same multipliers.", "quantifier": "all price lists, all pairs of hash seeds", "why_tests_cant": "tests/test_commands.rs::exchange repeats 100 draws on one journal only", "anchors": ["src/models/price.rs: conversion"]}
{"id": "C41", "title": "Converting a balance converts each commodity once and conserves the rest", "statement": "The converted balance has, in the target commodity, the sum of amount*multiplier over convertible commodities plus the amount already in the target, and every non-convertible commodity unchanged.", "quantifier": "all balances, multiplier tables and orders", "why_tests_cant": "unbounded commodity sets", "anchors": ["src/commands/balance.rs: convert_balance"]}
{"id": "C42", "title": "Report filters select exactly the requested postings", "statement": "A posting is reported iff (no --real or it is real) and (no begin or date >= begin) and (no end or date < end) and the query expression is true of it; an expression that does not yield a boolean is an error only for postings passing the other filters.", "quantifier": "all options, postings, expressions", "why_tests_cant": "combinatorial options over infinite date domain", "anchors": ["src/filter.rs: filter, filter_expression"]}
{"id": "C43", "title": "Regex caches are transparent", "statement": "Matching an account or payee against a pattern gives the answer of the pattern on its name, whatever patterns were matched before.", "quantifier": "all sequences of match queries", "why_tests_cant": "history-dependent memo table", "anchors": ["src/models/account.rs: Account::is_match", "src/models/payee.rs: Payee::is_match"]}
{"id": "C44", "title": "Boolean operators mean what they say", "statement": "When both operands evaluate to booleans, `and`, `or`, `not` evaluate to conjunction, disjunction, negation.", "quantifier": "all expressions, postings, transactions", "why_tests_cant": "structural recursion over all expressions", "anchors": ["src/parser/value_expr.rs: eval"]}
{"id": "C45", "title": "Expression arithmetic is exact and never mixes commodities silently", "statement": "+,-,*,/ on numbers are exact rational operations; money + money is exact in one commodity and panics when two non-zero commodities meet; money*number scales; comparing money of different commodities panics.", "quantifier": "all operands", "why_tests_cant": "infinite domain", "anchors": ["src/parser/value_expr.rs: eval, impl PartialOrd/PartialEq for EvalResult"]}
{"id": "C46", "title": "any(e) is true iff e is true of some posting of the transaction", "statement": "If e evaluates to a boolean on every posting, any(e) is the disjunction over all postings of the transaction.", "quantifier": "all expressions and transactions", "why_tests_cant": "unbounded posting lists", "anchors": ["src/parser/value_expr.rs: eval (Unary::Any)"]}
{"id": "C47", "title": "Tag functions look at the posting's tags", "statement": "has_tag(/re/) is true iff some tag name matches; tag(x) returns the value of the first matching tag.", "quantifier": "all tag lists and patterns", "why_tests_cant": "unbounded tag lists", "anchors": ["src/models/transaction.rs: Posting::has_tag, get_tag, get_exact_tag"]}
{"id": "C48", "title": "Operator chains evaluate all their operands", "statement": "`a op b op c ...` in a value expression combines all operands.", "quantifier": "all chains of any length", "why_tests_cant": "tests only use two operands", "anchors": ["src/parser/value_expr.rs: build_ast_from_expr", "src/grammar/grammar.pest"]}
{"id": "C49", "title": "Query preprocessing wraps every term exactly once", "statement": "The expression built from command line terms contains each non-empty, non-keyword term exactly once, in order, wrapped according to its sigil and joined with `and` iff the last keyword before it was `and`, else `or`.", "quantifier": "all lists of terms", "why_tests_cant": "unbounded term lists with mode flags", "anchors": ["src/filter.rs: preprocess_query"]}
{"id": "C50", "title": "A query with several account patterns selects postings matching any of them", "statement": "Reporting with patterns p1..pn selects exactly the postings whose account matches at least one of them.", "quantifier": "all lists of plain patterns, all postings", "why_tests_cant": "length of the list is unbounded; tests use one pattern", "anchors": ["src/filter.rs: preprocess_query", "src/parser/value_expr.rs", "src/commands/balance.rs", "src/commands/register.rs"]}
{"id": "C51", "title": "The flat balance report shows the exact sum per account", "statement": "Each line of `bal --flat` shows an account with the exact sum of the amounts of the selected postings on it; accounts whose sum is zero, and only those, are omitted.", "quantifier": "all ledgers, filters, orders", "why_tests_cant": "unbounded ledgers", "anchors": ["src/commands/balance.rs: execute lines 40-52, 126-132"]}
{"id": "C52", "title": "The tree balance report rolls sub-accounts up into parents exactly once", "statement": "In the tree report the amount computed for an account is the exact sum over the selected postings on it and on all accounts below it.", "quantifier": "all account hierarchies", "why_tests_cant": "arbitrary trees, processed in place in depth order", "anchors": ["src/commands/balance.rs: execute lines 61-91"]}
{"id": "C53", "title": "The grand total is the sum of all selected postings", "statement": "The total line equals the exact sum of the amounts of all selected postings in every commodity; for an unfiltered ledger without virtual postings and costs it is zero in single-commodity journals.", "quantifier": "all ledgers and filters", "why_tests_cant": "unbounded ledgers", "anchors": ["src/commands/balance.rs: execute lines 232-260"]}
{"id": "C54", "title": "Depth-limited flat reports conserve the total", "statement": "`bal --flat --depth n` groups accounts by their first n components, each group showing the exact sum of its members.", "quantifier": "all ledgers, all depths", "why_tests_cant": "boundary depth 0; unbounded accounts", "anchors": ["src/commands/balance.rs: execute lines 92-125"]}
{"id": "C55", "title": "The register running total is the exact prefix sum", "statement": "After each register line the running total shown equals the exact sum of the amounts of all lines printed so far.", "quantifier": "all ledgers and filters, every line", "why_tests_cant": "unbounded report length", "anchors": ["src/commands/register.rs: execute"]}
{"id": "C56", "title": "Register and balance reports agree", "statement": "The last running total of the register equals the grand total of the balance report under the same filter.", "quantifier": "all ledgers and filters", "why_tests_cant": "relates two commands over all inputs", "anchors": ["src/commands/register.rs", "src/commands/balance.rs"]}
{"id": "C57", "title": "Every line of the tree report is labelled with the account whose total it shows, and no non-zero account is lost", "statement": "In the printed tree report, the amount next to a (possibly collapsed) label is the total of the account the label denotes, and every account with non-zero total within depth is visible as a line or as a collapsed prefix with the same total.", "quantifier": "all account hierarchies", "why_tests_cant": "depends on neighbouring lines of a sorted listing", "anchors": ["src/commands/balance.rs: execute lines 156-230"]}
{"id": "C58", "title": "Reports never crash on an accepted ledger", "statement": "Every posting of an accepted ledger has an amount, so balance and register reports without a query do not panic.", "quantifier": "all accepted ledgers", "why_tests_cant": "needs all journals incl. virtual postings", "anchors": ["src/commands/balance.rs line 49", "src/commands/register.rs line 74", "src/models/transaction.rs: Transaction::balance"]}
{"id": "C59", "title": "The list commands print every element once, sorted by name", "statement": "`accounts`, `payees` and `commodities` print each element of the ledger exactly once in non-decreasing name order, independent of hash order.", "quantifier": "all ledgers, all iteration orders", "why_tests_cant": "random hash order", "anchors": ["src/commands/accounts.rs", "src/commands/payees.rs", "src/commands/commodities.rs"]}
{"id": "C60", "title": "Amounts in the journal are read exactly", "statement": "Reading a decimal numeral with optional minus sign and fraction yields exactly the rational it denotes, consumes exactly the numeral, and a second decimal point is rejected.", "quantifier": "all numerals of any length", "why_tests_cant": "infinite set of numerals", "anchors": ["src/parser/tokenizers/transaction.rs: parse_amount", "src/parser/utils.rs: parse_rational"]}
{"id": "C61", "title": "Account names are read up to two spaces or a tab, and brackets decide the posting kind", "statement": "For a posting line the account is the text before the first tab, newline or double space; (x) is virtual, [x] balanced virtual, anything else real.", "quantifier": "all account names including unicode", "why_tests_cant": "string slicing on bytes fails on names a test does not use", "anchors": ["src/parser/tokenizers/transaction.rs: parse_posting"]}
{"id": "C62", "title": "Trailing whitespace after an account name is harmless", "statement": "A posting line consisting of an account name followed by spaces parses like the same line without the spaces.", "quantifier": "all posting lines and following text", "why_tests_cant": "interaction with whatever follows", "anchors": ["src/parser/tokenizers/transaction.rs: parse_posting lines 201-222"]}
{"id": "C63", "title": "A journal need not end with a newline", "statement": "Removing the final newline of a journal does not change how it is parsed (docs: 'End with newline: no need to do that').", "quantifier": "all journals", "why_tests_cant": "all possible last lines", "anchors": ["docs/differences_with_ledger.md", "src/parser/mod.rs: Tokenizer::next", "src/parser/tokenizers/transaction.rs"]}
{"id": "C64", "title": "Parsing always terminates", "statement": "Tokenizing any finite text finishes.", "quantifier": "all texts", "why_tests_cant": "non-termination cannot be observed by a passing test", "anchors": ["src/parser/mod.rs: Tokenizer::tokenize", "src/parser/tokenizers/tag.rs", "src/parser/tokenizers/transaction.rs"]}
{"id": "C65", "title": "Include loops are detected", "statement": "Tokenizing terminates on any finite set of files including each other arbitrarily; a file that (transitively) includes itself yields an include-loop error, and diamonds are accepted.", "quantifier": "all include graphs", "why_tests_cant": "arbitrary graphs", "anchors": ["src/parser/include.rs: parse", "src/parser/mod.rs: Tokenizer::from"]}
{"id": "C66", "title": "Including a file is equivalent to pasting it", "statement": "The parsed journal of a file with includes contains the directives, transactions, prices and comments of the included files at the place of the include.", "quantifier": "all journals and splits into files", "why_tests_cant": "unbounded", "anchors": ["src/parser/mod.rs: ParsedLedger::append", "src/parser/include.rs"]}
{"id": "C67", "title": "Tags are extracted from comments exactly", "statement": "A comment ending in `:t1:...:tn:` yields exactly the tags t1..tn; `name: value` yields that tag with that value; other comments none.", "quantifier": "all comments", "why_tests_cant": "regex semantics over all strings", "anchors": ["src/models/comment.rs: Comment::get_tags"]}
{"id": "C68", "title": "Automated rule queries are split at spaces outside quotes and regexes", "statement": "The rule text is split at spaces not inside a quoted string or a /regex/, quotes being removed.", "quantifier": "all rule texts", "why_tests_cant": "stateful scanner over all strings", "anchors": ["src/models/transaction.rs: Transaction::get_filter_query"]}
{"id": "C69", "title": "Command line options override the configuration file", "statement": "An option line of the configuration file is added iff the option (or its short alias) was not given before; comment lines are ignored; other lines are rejected.", "quantifier": "all argument lists and configuration files", "why_tests_cant": "unbounded inputs", "anchors": ["src/app.rs: run_app"]}
{"id": "C70", "title": "Dates are compared chronologically", "statement": "Parsed dates are valid calendar dates and are ordered chronologically (lexicographically by year, month, day).", "quantifier": "all dates", "why_tests_cant": "calendar arithmetic over all years", "anchors": ["src/parser/utils.rs: parse_date", "src/app.rs: date_parser"]}
{"id": "C71", "title": "Error positions count lines correctly", "statement": "During tokenizing the line counter equals the number of newlines consumed so far.", "quantifier": "all texts, every point of the parse", "why_tests_cant": "manual counter updates in many places", "anchors": ["src/parser/chars.rs", "src/parser/mod.rs: Tokenizer::next, Tokenizer::error"]}
{"id": "C72", "title": "A unary operator applies to the operand next to it", "statement": "In a value expression `-a op b` negates only `a`, and `not a and b` negates only `a`.", "quantifier": "all operands and operators", "why_tests_cant": "precedence over all expressions", "anchors": ["src/grammar/grammar.pest: primary", "src/parser/value_expr.rs: build_ast_from_expr"]}
{"id": "C73", "title": "Comparisons with numbers can be combined with and/or", "statement": "`a < n and b` (any comparison with a numeric literal, any connective) is read as the connective of the comparison and `b`.", "quantifier": "all numerals, operands and operators", "why_tests_cant": "needs a test per position of a literal", "anchors": ["src/grammar/grammar.pest: money, number, currency", "src/parser/value_expr.rs: build_ast_from_expr"]}
{"id": "C74", "title": "Matching against a regex looks at the right text", "statement": "`x =~ /re/` matches an account or payee by its name, a text by itself, a missing tag value never, and the note iff some comment of the transaction matches; other values panic.", "quantifier": "all operands, patterns, postings and transactions", "why_tests_cant": "decision table over all value kinds", "anchors": ["src/parser/value_expr.rs: eval (Binary::Eq)"]}
{"id": "C75", "title": "Comparisons order values by quantity, day or text", "statement": "A number is compared with a number or money by quantity, dates chronologically, texts lexicographically with a missing text first; equality agrees with the order; values without an order compare false.", "quantifier": "all operands of all kinds", "why_tests_cant": "decision table over all value kinds and all values", "anchors": ["src/parser/value_expr.rs: impl PartialOrd for EvalResult, impl PartialEq for EvalResult, eval"]}
{"id": "C76", "title": "The ledger contains exactly the postings that are written", "statement": "Every posting of a regular transaction enters the ledger with the written amount, cost, asserted total and kind, the account and payee its names resolve to, and the tags of its own and its transaction's comments, in the written order.", "quantifier": "all journals", "why_tests_cant": "all combinations of optional parts of all postings", "anchors": ["src/models/mod.rs: _transaction_to_ledger, to_ledger"]}
{"id": "C77", "title": "The balance report in another commodity", "statement": "With `--exchange X`, every line and the total show the sum of the selected postings with every commodity for which a rate is known converted to X and the others kept; lines where nothing remains are left out; an unknown X changes nothing.", "quantifier": "all ledgers, options and prices", "why_tests_cant": "unbounded ledgers and price tables", "anchors": ["src/commands/balance.rs: execute, convert_balance", "src/models/price.rs: conversion"]}
{"id": "C78", "title": "The register names date and payee once per transaction", "statement": "The lines of the register come in blocks, one per transaction; the first line of a block shows the date and the payee under its declared name, the others show neither.", "quantifier": "all ledgers and options", "why_tests_cant": "unbounded ledgers", "anchors": ["src/commands/register.rs: execute", "src/models/transaction.rs: Transaction::get_payee"]}
{"id": "C79", "title": "A journal is read as it is written", "statement": "The text of any sequence of comments, transactions, automated transactions, price, account, commodity, payee and tag directives, in the documented layout, yields exactly these items in their order, each posting with the written account, kind, amount, cost, asserted total, expression and comments.", "quantifier": "all journals", "why_tests_cant": "unbounded combinations of items, amounts and layouts", "anchors": ["src/parser/mod.rs: Tokenizer::tokenize", "src/parser/chars.rs", "src/parser/tokenizers"]}
{"id": "C80", "title": "The first line of a transaction is read as it is written", "statement": "Date, effective date, status, code, description, payee and comment of a written header line are read back; a missing payee is the description.", "quantifier": "all header lines", "why_tests_cant": "combinations of eight optional parts and blanks", "anchors": ["src/parser/tokenizers/transaction.rs: parse", "src/grammar/grammar.pest: transaction_head"]}
{"id": "C81", "title": "Price directives are read as they are written", "statement": "Date, commodity, quantity and other commodity of a written price line are read back.", "quantifier": "all price lines", "why_tests_cant": "all dates, numerals and commodity names", "anchors": ["src/parser/tokenizers/price.rs: parse", "src/grammar/grammar.pest: price"]}
{"id": "C82", "title": "Unexpected input is reported", "statement": "A character that starts no item is reported as an error with its place; the program does not panic.", "quantifier": "all texts", "why_tests_cant": "depends on the position in the text", "anchors": ["src/parser/mod.rs: Tokenizer::tokenize, Tokenizer::error"]}
{"id": "C83", "title": "What is read can be built into a ledger", "statement": "A journal that is read is well formed: regular transactions are dated, their postings have payees, amounts, costs and totals come with a commodity; building the ledger from it and `check` never panic.", "quantifier": "all files", "why_tests_cant": "the ledger code unwraps what the parser must provide, for every text", "anchors": ["src/parser/mod.rs: Tokenizer::tokenize", "src/models/mod.rs: to_ledger", "src/commands/check.rs: execute"]}
{"id": "C84", "title": "`check` accepts exactly the journals whose transactions can be booked", "statement": "From the file on: `check` reports no error exactly when the transactions, in the order of their dates, can be booked: each balances or determines its missing amounts and the asserted totals hold; every other command gets its ledger exactly then.", "quantifier": "all files", "why_tests_cant": "both directions, over unbounded journals", "anchors": ["src/commands/check.rs: execute", "src/models/mod.rs: to_ledger, balance", "src/models/transaction.rs: balance"]}
{"id": "C85", "title": "The register lists the entries of the journal", "statement": "From the file on: the lines of the register are exactly the postings of the transactions by date, of each transaction the real ones first, each under the account its name stands for and with its written amount, or the amount its elision or asserted total stands for; next to each the sum of all lines so far.", "quantifier": "all files without automated transactions", "why_tests_cant": "the composition of reading, resolving names, sorting, balancing and reporting, on unbounded journals", "anchors": ["src/commands/register.rs: execute", "src/models/mod.rs: to_ledger", "src/models/transaction.rs: balance"]}
{"id": "C86", "title": "The balance sums the entries of the journal", "statement": "From the file on: the flat balance shows for each account the sum of its entries in the journal, per commodity, leaves out the accounts where that is nothing, and the total is the sum of all entries.", "quantifier": "all files without automated transactions", "why_tests_cant": "the composition of reading, resolving names, sorting, balancing and reporting, on unbounded journals", "anchors": ["src/commands/balance.rs: execute", "src/models/mod.rs: to_ledger", "src/models/transaction.rs: balance"]}
{"id": "C87", "title": "The books balance", "statement": "The total printed for a journal in one commodity, with real postings without costs, is nothing, whatever amounts are elided or given by asserted totals.", "quantifier": "all files without automated transactions", "why_tests_cant": "a conservation law over unbounded journals", "anchors": ["src/commands/balance.rs: execute", "src/models/transaction.rs: balance"]}
{"id": "C88", "title": "The lists contain what is declared and what is used", "statement": "From the file on: accounts, payees and commodities print, sorted and each once, the declared names and the used ones that are not declared; used payees that match a pattern of a declared one are left out.", "quantifier": "all files without automated transactions", "why_tests_cant": "all combinations of declarations, aliases, patterns and uses", "anchors": ["src/commands/accounts.rs: execute", "src/commands/payees.rs: execute", "src/commands/commodities.rs: execute"]}
{"id": "C89", "title": "The price list contains the written, the paid and the implied prices", "statement": "From the file on: prices prints the price directives in order, then the costs of the postings, then the rates implied by the transactions, and nothing else.", "quantifier": "all files without automated transactions", "why_tests_cant": "unbounded journals", "anchors": ["src/commands/prices.rs: execute", "src/models/mod.rs: to_ledger"]}
{"id": "C90", "title": "From the characters of the file to the printed report", "statement": "A file of transactions in one commodity passes check exactly when every transaction, as written, sums to zero or leaves out exactly one amount, and its balance report totals to nothing; when the amounts are written out, the register lists exactly the written postings by date with their running sum, and the flat balance shows for every account the sum of what is written for it.", "quantifier": "all texts that write such journals, in any layout the grammar allows", "why_tests_cant": "unbounded texts; the claim spans the grammar, the ledger and the reports", "anchors": ["src/commands/check.rs: execute", "src/commands/register.rs: execute", "src/commands/balance.rs: execute", "src/parser/tokenizers/transaction.rs: parse", "src/models/mod.rs: to_ledger"]}
{"id": "C91", "title": "Printed dates can be read", "statement": "The date printed in a report is the date of the transaction: read again by the date parser, or by the parser of the command line, it is the same day; and printed dates sort like the days.", "quantifier": "all dates", "why_tests_cant": "the whole calendar, leap years and years of any length", "anchors": ["src/commands/register.rs: execute", "src/models/price.rs: Display for Price", "src/parser/utils.rs: parse_date", "src/app.rs: date_parser"]}
{"id": "C92", "title": "The register is a table", "statement": "Each posting takes one row per running total, all rows have the same width, and date, payee, account, amount and running total stand in their columns whenever they fit; payees that are cut are marked, and only those.", "quantifier": "all registers and terminal widths", "why_tests_cant": "all combinations of lengths and widths", "anchors": ["src/commands/register.rs: execute, clip"]}
{"id": "C93", "title": "A printed balance can be read back", "statement": "From the printed text of a balance report, flat or as a tree, the accounts, their levels, their amounts and the total can be recovered exactly.", "quantifier": "all reports whose amounts fit into their column", "why_tests_cant": "unambiguity of a layout over all reports", "anchors": ["src/commands/balance.rs: execute"]}
{"id": "C94", "title": "The exit status tells whether the journal is in order", "statement": "check exits with 0 and writes OK exactly when the journal is in order, with 1 and KO otherwise; the other commands accept a journal exactly when check does, and turning balance checks off never makes a journal be rejected.", "quantifier": "all files and arguments", "why_tests_cant": "relates the results of all commands on all files", "anchors": ["src/main.rs: main", "src/app.rs: run_app", "src/commands/check.rs: execute", "src/commands/accounts.rs: execute"]}
{"id": "C95", "title": "The program, from the arguments and the file to stdout", "statement": "For a journal of plain transactions that are written out and sum to zero the program ends with status 0; the register it writes lists the postings as written, by date, with the sum so far; from what it writes as flat balance the exact sum of each account can be read, and a total of 0.", "quantifier": "all such files, arguments, configuration files and hash orders", "why_tests_cant": "spans the whole program for unbounded files", "anchors": ["src/main.rs: main", "src/app.rs: run_app", "src/commands/register.rs: execute", "src/commands/balance.rs: execute"]}
{"id": "C96", "title": "Reports with options and automated transactions, from the file on", "statement": "For every journal, with or without automated transactions, and with any of --real, --begin, --end and any account patterns (of which the first two count), the register lists exactly the wanted postings of the transactions the journal stands for (booked by date, the rules then applied and the result booked again), with the sum so far; the flat balance shows the sums of the wanted postings per account and in total.", "quantifier": "all files, all such options", "why_tests_cant": "unbounded journals, rules and combinations of options", "anchors": ["src/filter.rs: filter", "src/commands/register.rs: execute", "src/commands/balance.rs: execute", "src/models/mod.rs: to_ledger"]}
{"id": "C97", "title": "What check accepts of a journal with automated transactions", "statement": "If check accepts a journal with automated transactions, its regular transactions can be booked; with the generated postings every transaction balances, the bracketed postings as well; and every asserted total holds with the generated postings counted in.", "quantifier": "all files with automated transactions", "why_tests_cant": "unbounded journals and rules", "anchors": ["src/commands/check.rs: execute", "src/models/mod.rs: to_ledger", "src/models/transaction.rs: balance"]}
{"id": "C98", "title": "Virtual rules are invisible to --real", "statement": "When the postings of all automated transactions are in parentheses or brackets, register --real and balance --real show exactly the real entries of the journal without them.", "quantifier": "all files with such automated transactions", "why_tests_cant": "non-interference over unbounded journals and rules", "anchors": ["src/filter.rs: filter", "src/models/mod.rs: to_ledger"]}
{"id": "C99", "title": "Rules keep the books balanced", "statement": "In a journal in one commodity with real postings only and without costs the balance report totals to nothing, whatever automated transactions with amounts in that commodity or with factors add.", "quantifier": "all such files, reports flat or as a tree", "why_tests_cant": "an invariant of unbounded journals and rules", "anchors": ["src/models/mod.rs: to_ledger", "src/models/transaction.rs: balance", "src/commands/balance.rs: execute"]}
{"id": "C100", "title": "Tree and depth, from the file on", "statement": "For every journal, with --real, --begin, --end and account patterns, the tree report shows for each of its lines an account with the sum of the wanted postings on it and below, and every account within --depth on which something is left is visible in such a line; with --flat --depth d it shows one line for every group of accounts with the same first d components whose sum is not zero.", "quantifier": "all files, all such options", "why_tests_cant": "unbounded journals, rules and account hierarchies", "anchors": ["src/commands/balance.rs: execute", "src/filter.rs: filter", "src/models/mod.rs: to_ledger"]}
{"id": "C101", "title": "Conversion, from the file on", "statement": "With --exchange the flat report of every journal shows the sums of the wanted postings, per account and in total, converted with the rates that follow from the prices the command prices prints; asking for a commodity the journal does not know changes nothing.", "quantifier": "all files, options and hash orders", "why_tests_cant": "spans parser, ledger, prices and report", "anchors": ["src/commands/balance.rs: execute", "src/commands/prices.rs: execute", "src/models/price.rs: conversion"]}
{"id": "C102", "title": "Rules on accounts never make the program panic", "statement": "A journal whose automated transactions select postings by account patterns and state amounts, or factors where every posting they could be for has an amount of its own or is completed, is accepted or rejected with an error by every command, never by a panic.", "quantifier": "all such files", "why_tests_cant": "absence of panics over unbounded journals and rules", "anchors": ["src/models/mod.rs: to_ledger", "src/models/transaction.rs: get_filter_query", "src/parser/value_expr.rs: eval"]}
{"id": "C103", "title": "What rules on accounts add", "statement": "For a journal whose automated transactions are account patterns with amounts or factors, the register lists the wanted entries of its booked transactions together with one posting for each rule, each posting the rule is for and each posting of the rule, with the written account, kind and amount, or the amount times the factor.", "quantifier": "all such files, options and hash orders", "why_tests_cant": "unbounded journals and rules", "anchors": ["src/models/mod.rs: to_ledger", "src/commands/register.rs: execute"]}
{"id": "C104", "title": "What check says of rules on accounts", "statement": "For such a journal check says KO when its regular transactions cannot be booked; otherwise OK exactly when each of them, with what the rules add, balances (the bracketed postings as well) and every asserted total holds with what the rules add counted in.", "quantifier": "all such files", "why_tests_cant": "an equivalence over unbounded journals and rules", "anchors": ["src/commands/check.rs: execute", "src/models/mod.rs: to_ledger", "src/models/transaction.rs: balance"]}
{"id": "C105", "title": "What rules on accounts bring to the balance", "statement": "For such a journal the flat balance shows for every account the sum of its entries plus, for each posting of a rule on it, the factor times the sum of the postings the rule is for, or the amount for each of them; accounts where this is nothing are not shown.", "quantifier": "all such files and hash orders", "why_tests_cant": "a law about sums over unbounded journals and rules", "anchors": ["src/models/mod.rs: to_ledger", "src/commands/balance.rs: execute"]}
{"id": "C106", "title": "The printed lists can be read back", "statement": "What accounts, payees and commodities write is, read line by line, the ascending list of the declared names and of the used ones that are not declared; from each line prices writes the date, the commodity and the amount can be read.", "quantifier": "all files, arguments and hash orders, names without line breaks (for prices: commodities without blanks)", "why_tests_cant": "unambiguity of a layout over all lists", "anchors": ["src/commands/accounts.rs: execute", "src/commands/payees.rs: execute", "src/commands/commodities.rs: execute", "src/commands/prices.rs: execute", "src/models/price.rs: fmt"]}
{"id": "C107", "title": "Expressions that make sense have a value", "statement": "An expression whose operators are applied to operands of the right types (amounts added, or put in order, only with numbers or in a journal in one commodity; divisors written and not zero; dates written as such) evaluates, on every posting that has the amount and payee it asks for, to a value of its type, without panic.", "quantifier": "all expressions, postings, transactions and lists of commodities", "why_tests_cant": "type soundness over all expression trees", "anchors": ["src/parser/value_expr.rs: eval", "src/filter.rs: filter_expression"]}
{"id": "C108", "title": "Rules that make sense never make the program panic", "statement": "A journal whose automated transactions have conditions that are true or false and amounts that are stated, factors or expressions for money, all of which make sense, and whose postings have what they ask for, is accepted or rejected with an error by every command, never by a panic.", "quantifier": "all such files", "why_tests_cant": "absence of panics over unbounded journals, rules and expressions", "anchors": ["src/models/mod.rs: to_ledger", "src/parser/value_expr.rs: eval", "src/parser/value_expr.rs: eval_value_expression"]}
{"id": "C109", "title": "What check says of rules that make sense", "statement": "For such a journal check says KO when its regular transactions cannot be booked; otherwise OK exactly when each of them, with what the rules add, balances (the bracketed postings as well) and every asserted total holds with what the rules add counted in.", "quantifier": "all such files", "why_tests_cant": "an equivalence over unbounded journals, rules and expressions", "anchors": ["src/commands/check.rs: execute", "src/models/mod.rs: to_ledger", "src/parser/value_expr.rs: eval"]}
{"id": "C110", "title": "Reports answer questions that make sense", "statement": "For a journal whose rules make sense and whose virtual postings state their amounts, and a query that makes sense, register and balance (as a tree or flat, with dates, --real, a depth limit other than zero, amounts converted at rates that are not zero) print a report or the error for which the transactions cannot be booked, and never panic; words that are patterns of accounts always make sense.", "quantifier": "all such files, queries, options and hash orders", "why_tests_cant": "absence of panics over unbounded journals and queries", "anchors": ["src/commands/register.rs: execute", "src/commands/balance.rs: execute", "src/filter.rs: filter", "src/parser/value_expr.rs: eval"]}
{"id": "C111", "title": "Expressions mean what they say", "statement": "An expression that makes sense (C107) evaluates on a posting to what it says: quantities computed and compared as rational numbers, texts and days in their order, patterns looked for in what they are held against, any asking all postings, has_tag and tag the tags of the posting; provided it does not hold amounts equal to each other in a journal with several commodities.", "quantifier": "all expressions, postings, transactions and lists of commodities", "why_tests_cant": "agreement of two evaluations over all expression trees", "anchors": ["src/parser/value_expr.rs: eval", "src/parser/value_expr.rs: eval_value_expression"]}
{"id": "C112", "title": "Reports show what the question asks for", "statement": "For a journal whose rules make sense and a question that makes sense, the register lists exactly the postings of which the question is true, with the dates and --real, and the balance (flat, with a depth limit, as a tree) shows the sums of exactly these.", "quantifier": "all such files, queries, options and hash orders", "why_tests_cant": "a law about sums over unbounded journals and all expressions", "anchors": ["src/commands/register.rs: execute", "src/commands/balance.rs: execute", "src/filter.rs: filter", "src/parser/value_expr.rs: eval"]}
{"id": "C113", "title": "Operators bind by their levels", "statement": "An expression written without parentheses is read with products first, then sums, comparisons, and, or; not and - take what follows; what is in parentheses is read for itself.", "quantifier": "all expressions and texts of this form", "why_tests_cant": "correctness of a recursive grammar over all texts", "anchors": ["src/grammar/grammar.pest: value_expr", "src/parser/value_expr.rs: build_ast_from_expr"]}
{"id": "C114", "title": "Words of questions are joined as written", "statement": "Words that are patterns for accounts, payees (@) or tags (%), regular expressions, and expressions after expr, joined by and, or, or nothing, are read as groups between the ors, of which the first two (and in each group the first two words) count; the register lists exactly the postings for which the question is answered with yes. The same holds for the descriptions of automated transactions.", "quantifier": "all such questions, files, options and hash orders", "why_tests_cant": "correctness of a translation of text over unbounded questions", "anchors": ["src/filter.rs: preprocess_query", "src/grammar/grammar.pest: value_expr", "src/commands/register.rs: execute", "src/models/transaction.rs: get_filter_query"]}
{"id": "C115", "title": "The exit status tells whether the journal is in order", "statement": "For a journal whose rules make sense and a question that makes sense, every command ends with status 0 when the transactions can be booked and with 1 otherwise, never with a panic, so that all commands agree; a journal that cannot be read ends every command with the same status (1 for an error, 101 for a panic); arguments that are not accepted end it with the status of their parser.", "quantifier": "all files, arguments and hash orders", "why_tests_cant": "an equivalence over all files and commands", "anchors": ["src/main.rs: main", "src/app.rs: run_app", "src/commands/check.rs: execute"]}
{"id": "C116", "title": "What rules with expressions add", "statement": "For a journal whose rules make sense, and hold no amounts of different commodities equal nor ask for the tags of other postings, the register lists the asked-for postings of its booked transactions with what the rules make of them one after the other: a rule is for the journal's own postings of which its condition is true of the transaction before the rule, tags them, and adds for each of them and each of its own postings one with the written account and kind and the amount written, or the amount times a factor or expression for a number, or what an expression for money comes to, in a commodity that occurs in it; check says OK exactly when this balances and the asserted totals hold.", "quantifier": "all such files, questions, options and hash orders", "why_tests_cant": "unbounded journals, rules and expressions", "anchors": ["src/models/mod.rs: to_ledger", "src/parser/value_expr.rs: eval", "src/parser/value_expr.rs: eval_value_expression", "src/commands/register.rs: execute", "src/commands/check.rs: execute"]}
{"id": "C117", "title": "What check says, with sales in brackets", "statement": "The conditions of C11, C84, C104, C109 and C116 under which a transaction or a journal is accepted hold without exception when each bracketed posting that gives something away at a price per unit is weighed as the purchase of as much (which is what the code does, against C11).", "quantifier": "all transactions and files (without total costs for nothing; rules as in C104, C109)", "why_tests_cant": "an equivalence over unbounded journals and rules", "anchors": ["src/models/transaction.rs: total_balance", "src/models/transaction.rs: balance", "src/commands/check.rs: execute", "src/models/mod.rs: to_ledger"]}
{"id": "C118", "title": "The message names the transaction at fault and what is wrong with it", "statement": "When the ledger of a journal, without automated transactions or with rules that make sense, fails with an error, the message on stderr shows the first transaction by date that cannot be booked after those before it, with its date, description and a line for each posting, and the error is the one for the first thing wrong with it: brackets that do not balance, an asserted total the account does not have (then the total written, what the account has and the difference are shown), an assigned total no single amount reaches, more than one amount left out (with their number), or a sum that cannot be zero; and the ledger fails with this error whenever one of these is so.", "quantifier": "all files, with and without balance checks, and all hash orders", "why_tests_cant": "unbounded journals", "anchors": ["src/models/mod.rs: to_ledger", "src/models/transaction.rs: balance", "src/models/transaction.rs: fmt", "src/models/balance.rs: fmt", "src/error.rs: From<LedgerError>"]}
{"id": "C119", "title": "The message about a line that cannot be read shows where it is", "statement": "When a journal without include directives and automated transactions, after lines that can be read, has a line that starts with a character that starts no item, or an indented line that belongs to nothing, then the journal is rejected, and the message names the error, the file, the number of the line and the column, shows the line before and the line, each next to its number, and below it has exactly one mark, in the column of the character at fault.", "quantifier": "all files, whatever comes after the line", "why_tests_cant": "unbounded texts", "anchors": ["src/parser/mod.rs: Tokenizer::error, Tokenizer::tokenize", "src/parser/chars.rs: consume_whitespaces_and_lines", "src/app.rs: run_app"]}
{"id": "C120", "title": "A journal that is read is accepted, rejected, or crashes the program for a total cost of nothing", "statement": "A journal that is read and has no automated transactions either has a total cost for a zero quantity, and then every command panics, or its transactions can be booked by date, and then there is a ledger, or one of them is the first that cannot, and then the message names it; the exit status of `check` is 101, 0 or 1 accordingly. With a total cost for a zero quantity every command panics whatever else is in the journal.", "quantifier": "all files", "why_tests_cant": "an exact case distinction over unbounded journals", "anchors": ["src/models/mod.rs: to_ledger, _transaction_to_ledger lines 406-437", "src/models/transaction.rs: balance", "src/commands/check.rs: execute", "src/main.rs"]}
{"id": "C121", "title": "Reports of periods add up", "statement": "For every journal, every question and every day in a period: what the flat balance says of an account for the period is the sum of what it says for the part before the day (`--end day`) and for the part from the day on (`--begin day`), the totals add up in the same way, and the entries of the register are those of the first part followed by those of the second.", "quantifier": "all files, questions, periods and days in them", "why_tests_cant": "a relation between three reports on unbounded journals, whatever the order of the transactions in the file", "anchors": ["src/filter.rs: filter", "src/commands/balance.rs: execute", "src/commands/register.rs: execute", "src/models/mod.rs: to_ledger"]}
{"id": "C122", "title": "A command that fails has printed the report up to there, or nothing", "statement": "When the register of an accepted journal fails, it stops at one posting: stdout has the complete lines of the postings selected before it, with their headers and running totals, and nothing else unless that posting has no amount, in which case its line is begun. It stops there because the question has no answer for that posting, or the posting has no amount; the exit status is 1 or 101. Every other command that fails prints nothing (`check` its verdict).", "quantifier": "all files, arguments and questions", "why_tests_cant": "where an evaluation fails depends on the whole input; all prefixes of all reports have to be looked at", "anchors": ["src/commands/register.rs: execute", "src/commands/balance.rs: execute", "src/filter.rs: filter, filter_expression", "src/main.rs"]}
{"id": "C123", "title": "The lists of journals with automated transactions", "statement": "For every journal, with or without automated transactions, `accounts`, `payees` and `commodities` write, in order and each once, what is declared and what is used without being declared. Automated transactions add no account and no payee that is not written in a posting of the journal. The commodities are those of postings and price directives, and those written in the condition of a rule or in the expression for one of its amounts; a commodity of a condition is listed even if nothing is in it, as soon as there is an amount to put the condition to.", "quantifier": "all files, arguments and hash orders", "why_tests_cant": "rules change the lists while they are evaluated, for every posting; no sample of rules shows what they leave alone", "anchors": ["src/models/mod.rs: to_ledger", "src/parser/value_expr.rs: eval, eval_expression", "src/commands/accounts.rs: execute", "src/commands/payees.rs: execute", "src/commands/commodities.rs: execute"]}
{"id": "C124", "title": "The prices of journals with automated transactions", "statement": "For every journal with automated transactions, `prices` lists the prices of the directives, then the prices paid in postings, then the rates implied by the transactions as they are booked before the rules, then the rates implied by the transactions with what the rules add. If the rules have no real postings, the last two lists agree one by one up to direction: each implied rate is listed twice, whatever the rules say.", "quantifier": "all files, options and hash orders", "why_tests_cant": "what is recorded in each pass depends on every transaction and every rule; only a proof covers all", "anchors": ["src/models/mod.rs: to_ledger", "src/commands/prices.rs: execute"]}
{"id": "C125", "title": "The command line and the configuration file together", "statement": "For every command line that is written as declared (commands with their aliases; long, short and equals forms; query words in between): the program runs what the options say, in whatever order and form they are; an option given twice is refused with status 1. An option in the configuration file acts as if it were on the command line unless it is given there, for command lines with the long forms or `-f`. It fails otherwise: with `--depth 3` in the file, `-d 2` or `--depth=2` makes the program refuse to run, and `--flat` in the file makes every command but `balance` refuse to run.", "quantifier": "all command lines, configuration files and journals", "why_tests_cant": "the forms, orders and combinations of options with a configuration file are unbounded; the tests use a handful", "anchors": ["src/app.rs: Command", "src/app.rs: CommonOpts", "src/app.rs: run_app"]}
{"id": "C126", "title": "Adding to a journal does not change its history", "statement": "When transactions and prices are added to the end of a journal, none dated before those it has: if the longer journal is accepted so is the shorter one, and the transactions of the longer one begin with those of the shorter one (accounts, payees, amounts, filled in and asserted ones), whatever the hash orders of the two runs; the balance and the register before the added days stay as they were. This holds for journals without automated transactions in which no name is written in two ways. It fails otherwise: a later transaction that writes `food` for `Food` can rename the account in the history, depending on a hash order, and an automated transaction at the end adds to all transactions.", "quantifier": "all journals, additions, hash orders, report options and patterns of accounts", "why_tests_cant": "journals grow without bound and the names, orders and totals they bring interact with everything before; a test can only compare two given journals", "anchors": ["src/models/mod.rs: to_ledger", "src/models/mod.rs: _transaction_to_ledger", "src/models/transaction.rs: balance", "src/commands/register.rs: execute", "src/commands/balance.rs: execute"]}
{"id": "C127", "title": "Colours do not change what is shown", "statement": "Whatever the environment, the terminal and the options, the program ends the same with and without colours, and a terminal that understands the escape sequences shows the same characters, with nothing coloured behind them; accounts are blue, and amounts are red where they are negative, so that amounts of different signs never look the same, even where the printed sign is lost; without a terminal, or with NO_COLOR, the text has no escape sequences unless they are forced; with --force-color the surroundings do not matter. It fails for names with escape sequences in them (the blanks beside them change), a zero that comes from an asserted total is red, and `check` does not heed --force-color.", "quantifier": "all environments, worlds, arguments, journals, hash orders and outcomes", "why_tests_cant": "the combinations of environment variables, options, commands, signs and commodities are unbounded, and a test run without a terminal never sees a colour", "anchors": ["src/commands/register.rs: execute", "src/commands/balance.rs: execute", "src/commands/check.rs: execute", "src/app.rs: run_app"]}
{"id": "C128", "title": "Every rejected journal is explained", "statement": "Whenever the parser rejects a journal (or a file it includes), stderr names the file, the line and the column of a place that the reported error is true of - a digit where an account should be, a second decimal point, a word that is no number, a price without an amount, a bracket that is not closed, a property that the directive does not have, a file that includes itself - and shows that line and the one before it, with a mark under the column. It fails for a line that starts like an `include` directive and is none, where nothing is written; a missing bracket at the end of a line is reported in the first column or on the next line, and an include loop on the line after the directive.", "quantifier": "all files, included files, journals and errors of the parser", "why_tests_cant": "the places where an error can be found, and the counters that lead to them, are unbounded", "anchors": ["src/parser/mod.rs: Tokenizer::error, Tokenizer::tokenize", "src/parser/tokenizers/transaction.rs: parse_generic, parse_posting", "src/parser/tokenizers/account.rs: parse", "src/parser/tokenizers/commodity.rs: parse", "src/parser/include.rs: include"]}
{"id": "C129", "title": "A failure has a cause, and the program names it", "statement": "Whenever a command ends with status 1 although its arguments could be read, what stands on stderr belongs to one of four causes: the parser does not understand the journal, a transaction of the journal (with what the rules add to it) cannot be booked, the query of an automated transaction has a value that is neither true nor false, or the query on the command line has. Without a query only the journal decides: a command ends with status 1 exactly when there is no ledger for the file, so all commands agree about a journal. It fails for a line that starts like an `include` directive and is none, for which nothing is written.", "quantifier": "all commands, options, queries, journals and orders of the maps", "why_tests_cant": "which commands agree, and what every failure says, is a statement about all journals and all queries", "anchors": ["src/app.rs: run_app", "src/filter.rs: filter_expression", "src/models/mod.rs: ParsedLedger::to_ledger", "src/commands/check.rs: execute", "src/commands/balance.rs: execute", "src/commands/register.rs: execute"]}
{"id": "C130", "title": "What an accepted journal says is what is read", "statement": "Whenever the program reads a journal without an error, its text is made up, to the last character, of things that stand for what was read: it is a sequence of blank lines and items, each item is a line of its own with the indented lines below it, each posting is an account, two blanks and a sequence of amounts, costs, asserted totals and expressions up to a comment or the end of the line, and the first lines of transactions, prices and commodities have the parts described in a specification of their own; the same holds for the included files. For these first lines this is an equivalence: what has the form is accepted. If no two amounts of the same kind stand on the line of a posting, all of them are kept. Not meant that way but accepted: of two amounts the first is lost, in automated transactions the first word of an expression without brackets is lost, `.-5` is -0.05, the amount can stand on the line below the account, text after a carriage return in a first line is lost, and the last character of a file can be read twice.", "quantifier": "all accepted journals, well written or not", "why_tests_cant": "what the program accepts is an infinite set of texts, most of which nobody would write into a test", "anchors": ["src/parser/mod.rs: Tokenizer::tokenize", "src/parser/tokenizers/transaction.rs", "src/parser/utils.rs", "src/parser/chars.rs", "src/parser/tokenizers"]}
{"id": "C131", "title": "Names that are declared twice are noted on stderr, and nothing else is said on success", "statement": "If a command ends with status 0, then what it has written to stderr is one line for every account, commodity or payee that a file declares although it has declared the same name before (ignoring case) or a file it includes has, one for every entry of an include pattern that cannot be read, in the order of the journal, and nothing else; for a file without include directives it is silent exactly when its names are pairwise different, and a noted declaration has no effect. It is false that every repeated declaration is noted: a name that an included file declares again silently replaces the first declaration.", "quantifier": "every journal with its included files, every command and every environment", "why_tests_cant": "duplicate declarations are not tested; that nothing else is written needs all error paths to be excluded", "anchors": ["src/list.rs:40-53", "src/parser/mod.rs:131-192", "src/parser/include.rs:8-49", "src/app.rs:183-228"]}
{"id": "C132", "title": "A journal is accepted exactly if it stands for something, and it cannot stand for two things", "statement": "A file is read as a parsed ledger if and only if that is what the characters of the file and of the files it includes stand for, in the description of accepted journals (C130); nothing can stand for two different ledgers; a reading that ends rejects the journal exactly if it stands for nothing; and how many iterations the loops are allowed makes no difference to a reading that ends.", "quantifier": "every text of every file, every file system and every environment", "why_tests_cant": "that a text is rejected only when no reading of it is possible needs all readings; uniqueness needs all pairs of readings", "anchors": ["src/parser/mod.rs:89-192", "src/parser/include.rs:8-49", "src/parser/tokenizers/transaction.rs:15-344", "src/parser/tokenizers/account.rs:9-96", "src/parser/chars.rs:1-132"]}
{"id": "C133", "title": "What is added to the end of a journal leaves what was there as it was", "statement": "If a journal is accepted and so is a text on its own, then the journal with the text added to its end is accepted, its transactions, prices, comments and tags are those of the journal followed by those of the text, and the accounts, commodities and payees that were declared before keep their declarations (unless the text includes files). This is false if the journal leaves a parenthesis of an expression open, or if it ends with an account and a single blank before the line break.", "quantifier": "every journal with its included files, every text that is added and every environment", "why_tests_cant": "all pairs of texts", "anchors": ["src/parser/mod.rs:131-192", "src/parser/chars.rs:1-132", "src/parser/tokenizers/transaction.rs:192-344", "src/list.rs:40-53"]}
{"id": "C134", "title": "The outermost lines of the tree report add up to the total", "statement": "In every tree report, the amounts of the lines that are indented least add up, in every commodity, to the sum of all selected postings and to the total printed below them; with --exchange, to that sum converted. This holds for all account names, also where the labels are wrong (C57).", "quantifier": "every ledger, all options and hash orders", "why_tests_cant": "all ledgers and trees", "anchors": ["src/commands/balance.rs:60-91", "src/commands/balance.rs:135-265"]}
{"id": "C135", "title": "Every line of the tree shows the total of the account it starts at", "statement": "In every tree report, every line starts at an account on which something is left: it is indented by the depth of that account, its label starts with the last component of its name, and it shows the sum of the selected postings on it and below. The lines are in the order of these accounts, no account starts two lines, none is deeper than --depth, and every outermost account on which something is left starts a line.", "quantifier": "every ledger, all options and hash orders", "why_tests_cant": "all ledgers and trees", "anchors": ["src/commands/balance.rs:60-91", "src/commands/balance.rs:154-230"]}
{"id": "C136", "title": "Reading a journal does not end exactly if a tag directive has a comment", "statement": "Reading a file goes on forever if and only if everything before some item is read without trouble and that item is a tag directive that has, after properties only, an indented comment, or includes a file of which the same is true. So every file is accepted (and then stands for what C132 says), rejected or read forever, and which of the three is decided by its characters and those of the files it includes.", "quantifier": "every text, all files and included files", "why_tests_cant": "a test that does not end is no test; all texts", "anchors": ["src/parser/tokenizers/tag.rs:48-63", "src/parser/mod.rs:131-192", "src/parser/include.rs:8-49"]}
{"id": "C137", "title": "Reports for a question and for its negation add up", "statement": "For a journal and a question that make sense (C110): what the flat balance says of an account, at any depth and with any options, is the sum of what it says for a question and for its negation (`expr \"not …\"`), the totals are sums in the same way, flat or as a tree, and the register is made of the two registers, each in the same order. What the reports say for two questions joined with `or` and with `and` is together what they say for each of the two.", "quantifier": "every sound journal, every clear question, every option, all orders of hash tables", "why_tests_cant": "two evaluations of the same expression over the same postings must agree for every posting", "anchors": ["src/filter.rs: filter", "src/parser/value_expr.rs: eval", "src/commands/balance.rs: execute", "src/commands/register.rs: execute"]}
{"id": "C138", "title": "A report does not depend on the hash seed, except for the order of the amounts", "statement": "Whatever the orders in which hash tables are read: the balance of a ledger fails in the same way or shows the same lines (label, indentation, amounts) and the same total, except for the order of the amounts of one line; the register likewise, except for the order of the amounts of the running total. With `--exchange` this holds if the prices do not contradict each other. If all amounts are of one commodity, the reports are equal. Two runs on a journal that leaves hash orders nothing to decide (C29) show the same balance in this sense.", "quantifier": "every ledger, all options, all pairs of orders of all hash tables", "why_tests_cant": "hash maps are seeded at random in every process: a test sees one order of each table per run", "anchors": ["src/commands/balance.rs: execute", "src/commands/register.rs: execute", "src/models/balance.rs: Balance"]}
{"id": "C139", "title": "Reports of different depths agree", "statement": "For one ledger and the same options: every line of a flat balance with a depth shows the sum of the lines that a flat balance with a greater depth, or without one, shows for the accounts it stands for, and it is there exactly if that is not nothing. Every line of a tree, of any depth, shows the sum of the lines of the flat balance for the account it starts at and those below it. The outermost lines of any tree add up to the lines of any flat balance.", "quantifier": "every ledger and journal, all questions and filters, all depths, all hash orders", "why_tests_cant": "tests count the lines at depth 1; agreement for all depths and account hierarchies cannot be enumerated", "anchors": ["src/commands/balance.rs: execute"]}
{"id": "C140", "title": "The unit does not matter", "statement": "If every amount, asserted total and total cost of a journal without automated transactions is multiplied by the same positive number, and prices per unit stay, the journal is accepted, rejected with a message or ends the program exactly if it was before. If it is accepted, every line of the flat balance, with any depth, is multiplied by that number.", "quantifier": "every journal without automated transactions, every positive rational number, all commodities, elided amounts, assigned totals and costs, with and without checking totals", "why_tests_cant": "tests use fixed amounts; that nothing depends on how large they are, for example through rounding or a tolerance, cannot be seen from examples", "anchors": ["src/models/mod.rs: _transaction_to_ledger", "src/models/mod.rs: to_ledger", "src/models/transaction.rs: balance", "src/commands/balance.rs: execute"]}
{"id": "C141", "title": "Other names for accounts move their lines, and one name for two adds them up", "statement": "If the accounts of a journal without automated transactions and account declarations get other names, it is accepted, rejected with a message or ends the program exactly if it was before. If it is accepted, the flat balance, with any depth, has for every name the sum of the lines of the accounts that now have this name or one that is cut to it; names that differ leave every line as it is. No two names, neither the old nor the new ones, differ in case only, and no asserted total is in force unless the new names differ.", "quantifier": "every journal without automated transactions and account declarations, every function on names, all commodities, elided amounts, assigned totals and costs, with and without checking totals", "why_tests_cant": "tests use fixed names; that nothing depends on which name it is, for example on a hash or a prefix, cannot be seen from examples", "anchors": ["src/models/mod.rs: to_ledger", "src/models/mod.rs: _transaction_to_ledger", "src/models/transaction.rs: balance", "src/commands/balance.rs: execute"]}
{"id": "C142", "title": "The names of commodities do not matter", "statement": "If the commodities of a journal without automated transactions and commodity declarations get other names, different ones for different commodities, in postings, costs, asserted totals and price directives alike, it is accepted, rejected with a message or ends the program exactly if it was before. If it is accepted, every line of the flat balance, with any depth, says of the new name what it said of the old one. No two names, neither the old nor the new ones, differ in case only.", "quantifier": "every journal without automated transactions and commodity declarations, every bijection on names, elided amounts, assigned totals and costs, with and without checking totals", "why_tests_cant": "tests use fixed commodities; that none of them is treated differently, for example by the order of its name or as a default, cannot be seen from examples", "anchors": ["src/models/mod.rs: to_ledger", "src/models/mod.rs: _transaction_to_ledger", "src/models/transaction.rs: balance", "src/models/balance.rs: can_be_zero", "src/commands/balance.rs: execute"]}
{"id": "C143", "title": "Neither order nor dates matter to balances, unless totals are asked for", "statement": "If the transactions of a journal are put in any order and at any dates, then, as long as no asserted or assigned total is in force, it is accepted, rejected with a message or ends the program exactly if it was before, and the balance report is the same up to the order of the amounts of one account: flat or as a tree, with the total, with any depth, with --real, and with any account patterns. With totals in force this is so if later transactions stay later and those of a day stay in their order, wherever they stand in the file. The journal leaves hash orders nothing to decide, and the two runs may meet different hash orders.", "quantifier": "every journal without automated transactions, every rearrangement and every choice of dates, all hash orders of both runs, elided amounts, costs and virtual postings, with and without checking totals", "why_tests_cant": "tests have journals in one order at fixed dates; that sorting, the running balances and the implied prices never leak into sums cannot be seen from examples", "anchors": ["src/models/mod.rs: to_ledger", "src/models/mod.rs: _transaction_to_ledger", "src/models/transaction.rs: balance", "src/commands/balance.rs: execute"]}
{"id": "C144", "title": "Balances add up", "statement": "A journal that consists of the transactions and prices of two journals, in any order, is accepted exactly if both are, and its flat balance, with any depth, is for every account and commodity the sum of theirs, provided no asserted or assigned total is in force. In particular this holds for two texts without declarations, one after the other in a file. All journals have the same declarations, and what they contain together leaves hash orders nothing to decide; the three runs may meet different hash orders.", "quantifier": "every two journals without automated transactions, every way of mixing them, all hash orders of the three runs, elided amounts, costs and virtual postings, with and without checking totals", "why_tests_cant": "tests look at single journals; that no state is carried over from one transaction to another cannot be seen from examples", "anchors": ["src/models/mod.rs: to_ledger", "src/models/mod.rs: _transaction_to_ledger", "src/models/transaction.rs: balance", "src/parser/mod.rs: append", "src/commands/balance.rs: execute"]}
{"id": "C145", "title": "A report of a period is the report of the part of the journal in this period", "statement": "Let a journal consist of a part with the transactions of a period and of the rest, both with the same declarations, in any order, with no asserted or assigned total in force. If the journal is accepted, so is the part. The balance report of the journal with --begin and --end for the period is the balance report of the part without them, up to the order of the amounts of one account: flat or as a tree, with the total, with any depth, with --real, and with any account patterns.", "quantifier": "every journal without automated transactions, every period, every part, all hash orders of the two runs, elided amounts, costs and virtual postings, with and without checking totals", "why_tests_cant": "tests look at single journals with few dates; that nothing before a period changes what is reported about it cannot be seen from examples", "anchors": ["src/models/mod.rs: to_ledger", "src/models/transaction.rs: balance", "src/filter.rs: filter", "src/commands/balance.rs: execute"]}
{"id": "C146", "title": "The order of the postings of a transaction does not matter to balances", "statement": "Let two journals be the same except for the order of the postings within each transaction, with no asserted or assigned total in force. One is accepted, rejected with a message, or ends the program, exactly if the other does. The balance reports of the two, as trees or flat, for any account patterns, any period and any depth, have the same rows.", "quantifier": "every journal without automated transactions, every order of the postings of every transaction, all hash orders of the two runs, elided amounts, costs and virtual postings, with and without checking totals", "why_tests_cant": "tests write the postings of a transaction in one order; that the elided amount may stand anywhere and is filled in with the same sums cannot be seen from examples", "anchors": ["src/models/mod.rs: to_ledger", "src/models/mod.rs: populate_directive_lists", "src/models/transaction.rs: balance", "src/commands/balance.rs: execute"]}
{"id": "C147", "title": "A posting may be written as two", "statement": "Let two journals be the same except that some postings of the first are written as two in the second, with amounts of the same commodity, of any sign, that add up to the amount of the first. The posting has no total cost, and if it is in brackets no cost at all; no asserted or assigned total is in force. One journal is accepted, rejected with a message, or ends the program, exactly if the other does, and the flat balance, for any period and depth, and for any patterns that do not ask for fields, says the same of every account and commodity.", "quantifier": "every journal without automated transactions, any number of postings in any transactions, all amounts, all hash orders of the two runs, elided amounts and prices per unit, with and without checking totals", "why_tests_cant": "tests post whole amounts; that only sums count, whatever the signs of the parts, cannot be seen from examples", "anchors": ["src/models/mod.rs: to_ledger", "src/models/mod.rs: _transaction_to_ledger", "src/models/transaction.rs: balance", "src/commands/balance.rs: execute"]}
{"id": "C148", "title": "An amount may be left out", "statement": "Let two journals be the same except that in some transactions of the second the amount of one real posting is left out. In those transactions all real postings have amounts in one commodity and no costs, and there is more than one of them; no asserted or assigned total is in force. If the first journal is accepted so is the second, and the flat balance, for any period and depth, and for any patterns that do not ask for fields, says the same of every account and commodity.", "quantifier": "every journal without automated transactions, any transactions and any posting in them, all amounts, all hash orders of the two runs, any virtual postings beside, with and without checking totals", "why_tests_cant": "tests elide the last posting of pairs; that the amount filled in is the one that had been written, wherever it stands, cannot be seen from examples", "anchors": ["src/models/mod.rs: to_ledger", "src/models/mod.rs: _transaction_to_ledger", "src/models/transaction.rs: balance", "src/commands/balance.rs: execute"]}
