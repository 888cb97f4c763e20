# Formal model of dinero-rs in Lean 4: design

## What this is

`/verif/lean` is a Lean 4 project with an executable model of the Rust code in `/repo/src`,
function by function, and theorems about it.  The properties are listed in `properties.jsonl`,
their status and theorems in `MANIFEST.json` (written by `tools/gen_properties.py` and
`tools/gen_manifest.py`).  `seeded/LOG.jsonl` records wrong programs the theorems were tried on
(`tools/mutate.py`).

| directory | contents |
|---|---|
| `Verif/Model/*` | the model; every definition cites the file and lines it models |
| `Verif/Spec/*` | small specifications used by the statements, independent of the model's helpers |
| `Verif/Lemmas/*` | helper lemmas |
| `Verif/Props/*` | the property theorems, one file per area, with concrete cases beside them |

## Modelling conventions

* `BigRational` is `Rat` (exact, unbounded).  Division by zero panics in Rust, so every division
  in the model is guarded and yields a panic value.
* `String` is `Str = List Char`.  Byte slicing is modelled where it can panic (`chars.rs`).
* A panic (`unwrap`, `panic!`, index out of range, integer underflow in a debug build) is the
  value `Fail.panic why`, an `Err(..)` is `Fail.error ..`; results are `Res α = Except Fail α`.
* Loops over the input carry a bound (`fuel`); running out of it is a third outcome, `Stop.fuel`
  (`PRes α = Except Stop α`).  A text with that outcome for every bound is one on which the
  program does not return.  C64 and C65 prove that for all other texts a bound exists; C136 says for which texts exactly.
* `HashMap` and `HashSet` are association lists with distinct keys; the list order is one possible
  iteration order.  Where the iteration order can be observed, the model takes a `Shuf` argument,
  an arbitrary permutation (the hash seed), and the theorems quantify over it.
* `Rc` and `RefCell` disappear, `&mut` functions return the new value.  `Rc<Currency>`,
  `Rc<Account>` and `Rc<Payee>` compare and hash by name in Rust, so inside money, postings and
  balances they are represented by the name; the whole elements are in the lists of the ledger.
* Dates are day numbers; C70 proves that this loses nothing.
* Reports are lists of structured lines; the text of an amount is modelled separately
  (`Model/Display`).

## Trusted base

* Lean 4.33.0's kernel.
* Axioms: every property theorem depends on at most `propext`, `Classical.choice` and
  `Quot.sound` (`tools/gen_manifest.py --check` runs `#print axioms` on all theorems of the
  manifest).  No axioms of our own, no `sorry`, `native_decide`, `bv_decide`.
* That the definitions in `Verif/Model` say what the cited Rust lines say.  Nothing is extracted
  from the code and the code was not run.
* The external functions below are parameters.  Theorems hold for all of them unless they state
  a hypothesis.

| parameter | stands for | hypotheses used |
|---|---|---|
| `Env.lower` | `str::to_lowercase` | none (C31-C34, C67 state the one they need) |
| `Env.rxOk`, `Env.rx` | `Regex::new(..).is_ok()`, `is_match` | none |
| `Env.dateOf` | `two_timer::parse` behind `date_parser` for anything but `Y-M-D` and `Y-M` | none |
| `Env.ws`, `Env.numeric` | `char::is_whitespace`, `char::is_numeric` | `AsciiChars`: what they say about ASCII characters; a blank is one byte or not ASCII |
| `Env.sep` | pest's `SEPARATOR` | `AsciiSep`: among ASCII characters only the blank |
| `Files.read`, `glob`, `parent` | `read_to_string`, `glob`, `Path::parent` | none; C65 needs finitely many paths |
| `exist`, `home` (Config) | `Path::exists`, `shellexpand::tilde` | none |
| `LedgerOrders`, `BalOrders`, `Shuf` | iteration orders of hash maps and sets | none |
| `World.parse` | `Opt::from_iter` of structopt: what the arguments ask for, or its own exit status | none; in C125 `World.Understands`: plain arguments are read as they are declared in src/app.rs 17-120 (`Model/Args`), as clap 2.33 does |
| `World.term` | the width of the terminal, if there is one | none |
| today's date | `Local::today` in `balance.rs` | none |

Assumed about libraries, by how they are modelled: `BigRational` is exact; `regex` patterns that
are literals in the code (`comment.rs`, `app.rs`) match as described at their definitions; pest
runs a grammar as ordered choice with greedy repetition (`Model/Peg`); chrono's calendar is the
proleptic Gregorian one; colored 2.0 writes `\x1B[..m`, the padded text and `\x1B[0m`, and reads `CLICOLOR_FORCE`,
`NO_COLOR`, `CLICOLOR` and the terminal as described in `Model/Colour`; stable sorting; overflow checks are on (debug build).

### Modelled

| code | model |
|---|---|
| `models/money.rs`, `models/balance.rs` | `Model/Money`, `Model/Display` (all functions) |
| `models/transaction.rs` | `Model/Transaction`, `Model/Query` 58-87 (`get_filter_query`), `Model/Complaint` (`Display`) |
| `models/price.rs`, `convert_balance` of `commands/balance.rs` | `Model/Price` (graph, search, conversion) |
| `list.rs` | `Model/List` (all functions) |
| `models/account.rs`, `payee.rs`, `currency.rs`, `models.rs` | `Model/Entities` (fields that are read, lookups, name matching) |
| `models/comment.rs` | `Model/Comment` |
| `models/mod.rs` | `Model/Ledger` (`to_ledger` with all its passes, `_transaction_to_ledger`, automated transactions, implied rates) |
| `filter.rs` | `Model/Query`, `Model/Expr` (`filter`) |
| `parser/value_expr.rs` | `Model/Expr` (evaluation), `Model/Grammar` (syntax tree) |
| `grammar/grammar.pest` | `Model/Peg`, `Model/Grammar`, `Model/Header`, `Model/Date` (all rules the code starts from) |
| `parser/chars.rs`, `parser/mod.rs`, `parser/tokenizers/*`, `parser/utils.rs` | `Model/Tokenizer`, `Model/Header`, `Model/Date` |
| `parser/include.rs` | `Model/Include` |
| `commands/*.rs` | `Model/Report` (from the ledger on), `Model/Commands` (from the file on) |
| the texts printed by `commands/*.rs`, `Display` of prices | `Model/Print` (rows, columns, clipping), `Model/Halfway` (what is printed before a report fails), `Model/Colour` (the same with the escape sequences of `colored`) |
| what `to_ledger` writes to stderr, `error.rs` | `Model/Complaint` (errors of balancing; the two maps shown may come in any order) |
| what is on stderr when a command ends with status 1 | `Model/Stderr` (`{:?}` of expressions is a parameter; without the colours) |
| what is noted on stderr while a journal is read (`list.rs` 43, `include.rs` 36) | `Model/Notes` (`{:?}` of the elements and of the errors of `glob` is a parameter; the note about periodic transactions, `models/mod.rs` 460, is never written, as the parser makes none) |
| `Tokenizer::error` of `parser/mod.rs` | `Model/Excerpt` (the message of the errors found by the main loop), `Model/Trouble` (of all errors of the parser; how Rust shows paths and unprintable characters is a parameter) |
| `app.rs`, `main.rs` | `Model/Config` (the configuration file), `Model/Date` (`date_parser`), `Model/App` (dispatch, exit status), `Model/Args` (the declared commands and options) |

### Not modelled

what `structopt` makes of arguments other than those in `Model/Args` (help, version, `--`, options without their value),
`two_timer`, the inside of `regex`, `pest`, `glob`, `shellexpand` and of the file
system, messages of panics and of unreadable files, the colours of error messages, fields that are never read (`origin`, notes, formats of
commodities, checks of tags), memory and running time, failing writes.

### Compared with the project's own tests

Nothing here runs the program, so the model was held against what the authors say the program does. `lean/Verif/Conformance.lean`
evaluates the model (`#guard`) on the tests of the project: all 29 command lines of `tests/test_commands.rs`,
`tests/test_expressions.rs` and `tests/test_tags.rs` with their statuses and numbers of lines on stdout and stderr, the other files of
`tests/`, and the `mod tests` of `src/`, each with two different orders of all hash maps. Every one gives what the test expects. The
regular expressions of the tests are words, so a search for a word stands in for the `regex` crate. The few tests that are left out
are listed at the head of the file, with the reason. These are tests of the model, not proofs, and no claim rests on them.

## Where the properties fail

The statement of each property is the behaviour one expects.  Where the code does something else,
the theorem with the suffix `_partial` proves the property for all other inputs, and the theorems
named here prove the failure, either for a class of inputs or with a witness.

| | what happens | theorem |
|---|---|---|
| C06 | equality of balances is not symmetric | `C06_not_symmetric` |
| C07 | equality of amounts is not transitive (zero amounts), `<` disagrees with `cmp`, `cmp` panics for different commodities | `C07_eq_not_transitive`, `C07_lt_disagrees_with_cmp`, `C07_cmp_panics` |
| C09 | amounts above -1 lose their sign, 0.995..1 is printed as -1.00, precision 0 and above 7 go wrong | `C09_sign_lost`, `C09_almost_one_all`, `C09_precision_zero`, `C09_precision_overflow` |
| C11, C19, C20 | a bracketed posting that sells at a unit price is weighed with the wrong sign | `C11_false_for_bracketed_sale`, `C19_false_for_bracketed_sale`, `C20_false_for_per_unit_sale` |
| C25 | a total cost for a zero quantity panics | `C25_zero_quantity_panics` |
| C26 | with automated transactions implied rates are recorded twice | `C26_rates_twice` |
| C29 | the ledger depends on the hash order (names in different case, filled in postings, implied rates) | `C29_false_case`, `C29_false_fill`, `C29_false_rate` |
| C30 | with several accounts taking the payee the hash order decides | `C30_false` |
| C32 | `add_alias` for an absent element panics | `C32_alias_of_absent_panics` |
| C34 | failed lookups are remembered after the name is added; aliases only match in lower case | `C34_stale_memo`, `C34_alias_case` |
| C38 | a price of zero can panic | `C38_zero_price_panics` |
| C40 | with contradicting prices the hash order decides the rate | `C40_negation` |
| C48, C50 | from the third operand or pattern on, operands are dropped or rejected | `C48_chain_keeps_two`, `C48_product_chain_panics`, `C50_only_first_two` |
| C52 | account names that start with a colon | `C52_false` |
| C54 | `--depth 0` panics | `C54_false` |
| C57, C77 | the tree report glues or misplaces labels | `C57_false_own`, `C57_false_order`, `C57_false_parent`, `C57_depth_exceeded`, `C77_false_tree` |
| C58 | reports panic on virtual postings without an amount | `C58_false` |
| C61 | an account that does not start with an ASCII letter panics | `C61_unicode_panics` |
| C62 | one blank between account and amount, or a carriage return | `C62_single_blank_rejected`, `C62_journal_rejected` |
| C63 | a last line with just an account and no line break panics | `C63_last_account_panics` |
| C64 | a comment in a tag directive loops forever | `C64_tag_comment_loops` |
| C65 | a file that includes itself through `..` is not recognised (in practice until the path gets too long) | `C65_spelling_diverges` |
| C66 | tags of included files are lost, redeclared names replaced | `C66_tags_lost`, `C66_redeclared` |
| C67 | values with a colon yield no tag | `C67_false` |
| C69 | only long forms and `-f` on the command line override the configuration file; a dashed value counts as an option; `--init-file` as last argument panics | `C69_short_forms`, `C69_not_literal`, `C69_dashed_value`, `C69_init_file_last` |
| C71 | an automated transaction at the end of the text makes the line counter fall behind | `C71_automated` |
| C72, C73 | unary operators take the whole rest of the expression; `1 and` is an amount | `C72_unary_takes_all`, `C73_false` |
| C82 | an error on the first line panics when it is reported | `C82_first_line` |
| C91 | years from 10000 on are printed with a sign that is not read | `C91_false` |
| C92 | complete payees of 38 bytes and more are marked as cut | `C92_false` |
| C94 | with `--no-balance-check` a journal that is in order is rejected, when two amounts are given by their totals | `C94_false` |
| C102 | a factor applied to a posting without amount, a rule without amount, a condition that is not true or false panic | `C102_false` |
| C107, C108, C110 | expressions that mix commodities, divide by zero or ask for a missing amount panic; so do reports of accounts that start with a colon (with a depth) and conversions at a rate of zero | `C107_false`, `C108_false`, `C110_false` |
| C111 | equal quantities of different commodities are not equal, which the meaning as quantities does not see | `C111_false` |
| C113 | a product in the middle of a sum, or at the end of a comparison between two `and`, makes the expression unreadable (panic) | `C113_false` |
| C116 | a condition on the tags of other postings sees the tags the same rule has just given, so a rule is for postings that come after one it is for, but not for those before | `C116_false` |
| C125 | an option of the configuration file that is given in its short form or with an equals sign makes the program refuse to run; an option of `balance` in the file makes the other commands refuse to run | `C125_config_short`, `C125_config_unknown` |
| C126 | a later transaction that writes an account in another way can rename it in the history; an automated transaction at the end of the file adds postings to all transactions | `C126_case`, `C126_rule` |
| C127 | an escape sequence in a name changes the blanks beside it when there are colours; a zero that comes from an asserted total is red; `check` ignores `--force-color` | `C127_escapes`, `C127_zero`, `C127_check_ignores` |
| C128 | a line that starts like `include` and is none is rejected without a word; a missing bracket at the end of a line is reported in the first column, with one blank after it on the next line; an include loop is reported on the line after the directive; the errors of directives are announced as errors of postings | `C128_silent`, `C128_brackets`, `C128_cycle`, examples in `Props/Trouble` |
| C129 | a line that starts like `include` and is none makes every command end with status 1 without a word | `C129_false` |
| C130 | of two amounts on the line of a posting the first is lost; `amount * 2` in an automated transaction becomes `* 2`; `.-5` is read as -0.05; an amount can stand on the line below its account; words before `account` are dropped; what follows a carriage return in the first line of a transaction is dropped; `20:00:00` is no time but `20123:00:00` is; at the end of a file without a line break the last character of an automated transaction is read twice | `C130_false`, `C130_false_directive`, `C130_false_header`, `C130_false_last` |
| C131 | a name that an included file declares again replaces the first declaration without a note | `C131_false` |
| C133 | text added to a journal that leaves a parenthesis open disappears in the expression; after an account and a single blank it is taken as the amount | `C133_false` |
| C135, C139 | the line of an account whose name starts with a colon leaves out what is below it | `C135_false`, `C139_false` |
| C140 | a journal and the one with all amounts, totals and total costs negated are not both accepted | `C140_false` |
| C141 | one name for two accounts breaks an asserted total of one of them; accounts whose new names differ in case only become one | `C141_false_asserted`, `C141_false_case` |
| C142 | with one name for two commodities an exchange is no longer accepted | `C142_false` |
| C143 | a total asked for at another moment need not hold | `C143_false` |
| C144 | two accepted journals with a total make one that is rejected | `C144_false` |
| C145 | with a total, the part of an accepted journal in a period is rejected | `C145_false` |
| C146 | totals within a transaction hold in one order of its postings and not in another | `C146_false` |
| C147 | a total holds after a posting and not after its first half; a bracketed purchase written as a larger one and a sale is rejected | `C147_false`, `C147_bracketed` |
| C148 | what was given in an exchange of two commodities, left out, is filled in with the commodity of the others | `C148_false` |
| C138 | the amounts of a total, of an account and of a running total come in the order of a hash table | `C138_false` |

Seen in the code while modelling it, not stated as properties: text after the closing parenthesis
of a value expression is ignored; `!=` and unary `!` panic; `NOK 5` and other commodities
starting like a function name break; a quoted commodity keeps its quotes in expressions; the
amount expression of a posting is ignored outside automated transactions; an unreadable file panics;
a comment in a transaction header keeps its `;`; text after a closed quoted description panics;
a price directive in a CRLF file keeps the carriage return; an indented or single-dashed option
in the configuration file panics and a missing `--init-file` is ignored.

## How the proofs go

* **C01-C08** abstraction `amountOf : Balance → Cur → Rat`; each operation is proved correct against
  it for all well-formed balances and all entry orders.
* **C09** the digit algorithm of `Display` against the nearest multiple of 10^-p.
* **C10-C21** `Transaction::balance` with the account map threaded; induction over the postings with
  a loop invariant, histories by induction over transaction lists.
* **C22-C30, C76** `to_ledger` with the hash orders as parameters; uniqueness of stable sorting.
* **C31-C34** invariants by induction over operation sequences.
* **C35-C41** the Dijkstra loop: invariant on recorded paths, potential argument (C37), closure
  argument (C38), lower bound on distances (C39).
* **C42-C50, C72-C75** evaluation by structural induction; the round trip of C48 through the PEG
  grammar.
* **C51-C59, C77, C78** reports against sums over the selected postings.
* **C60-C66, C71, C79-C82** a relation `Writes…` between lines and items (`Spec/Journal`) that
  covers the layouts the grammar allows; the tokenizer is proved to invert it.
* **C67-C70** tags, query words, configuration file, calendar.
* **C83-C90** the commands from the file on: what reading hands over, when `check` accepts, what the
  reports show, in terms of what is written.
* **C91-C95, C106** layouts with a reader in `Spec/Print`; the program as a function from files and
  arguments to status and output.
* **C96-C105** automated transactions: booking, rules and booking again as relations (`Spec/Check`,
  `Spec/Rules`), composed with the report theorems; for rules on accounts the relation is explicit,
  and the lemmas of `Lemmas/Rulework` show that none of the steps can panic.
* **C107-C110, C115** a type for each expression (`Spec/Typing`), soundness by structural induction; a
  journal in one commodity stays in it through booking and rules, so what the reports ask for is there.
* **C111-C114** a second evaluation of expressions, into quantities, truth, texts and days (`Spec/Meaning`),
  with which the model's evaluation agrees by structural induction; a relation between texts and trees
  indexed by the level of the operators (`Spec/Phrase`), which the grammar inverts; words and groups of words
  (`Spec/Question`).
* **C116** with this meaning, what rules make of a transaction (`Spec/Ruled`): tags given on the way are invisible to
  conditions that do not ask for those of other postings.
* **C117** the code weighs a sale in brackets as a purchase, so a transaction is accepted exactly when it can be booked
  with purchases in their place (`Spec/Sales`).
* **C118** `Spec/Complaint` says what can be wrong with a transaction, in the order of the checks; the pass stops at the
  first transaction with a fault, and what it writes is the text of the fault and the transaction.
* **C119** the text before the line is a journal (C79), the counter is the number of its lines (C71), and the loop over the
  lines of the text keeps the two at that place.
* **C120** the conversion of the postings comes before everything that can be rejected, and fails exactly at a total cost for
  a zero quantity; the rest is C118.
* **C121** the transactions of a ledger are in the order of their dates, so that what is asked for in a period is what is
  asked for in its first part followed by what is asked for in its second part.
* **C122** the loops of the register are followed up to where they fail: before that place they are the loops of C55 and C78.
  The balance prints when all is computed but the total, whose conversion does not fail.
* **C123** the invariant of adding names (C88) is carried through evaluation: every part of an expression is evaluated, so what is
  added is what it writes. The names of a rule's postings are found before the rules run, so accounts and payees stay.
* **C124** both balancing passes are followed (C26); rules without real postings leave dates and real postings (C98), which is all
  that a rate depends on.
* **C125** the arguments are read one thing at a time; every form of an option is read as that option, so the values are those of
  the list of things written; the lines of the configuration file that count (C69) are the options not given, by their long names.
* **C126** the names that the shorter journal uses are found alike in both lists; sorting an addition that is not earlier leaves it at
  the end; balancing with more accounts known gives the same, and the shorter journal can be balanced because the books of its
  transactions do not depend on the accounts that are known (C84).
* **C127** a terminal is a small machine that reads characters (`Spec/Colour`); a painted text leaves it as it was, so that what is seen
  is put together from the pieces; the amounts of a report are never zero because every one of them is the result of an addition.
* **C128** the functions of the parser that can fail have twins that say why (`Model/Trouble`); the counters are followed through every
  one of them (a state is `Loose` where only the line is right and a line break follows, `Exact` where the column is right, too), and what
  the message says is a relation on what was read and what is left (`Explains`), which does not mention the tokenizer.
* **C129** all functions that do not fail (`OnlyPanics`) are separated from the few that do; an error of `to_ledger` or of a report is then
  one of those of the grammar (C128), of balancing one transaction, or of a condition.  The causes (`Spec/Stderr`) are stated with the
  evaluation of expressions and the balancing of one transaction only.
* **C130** the converse of C79: `Spec/Accepted` describes everything the tokenizer accepts, with what it drops, by relations between a
  text, what it stands for and what comes after it; words, numbers and blanks end where they cannot go on.  The proof inverts every loop
  of the parser and (`Lemmas/HeaderInv`) every rule of the grammar for first lines.
* **C131** `Model/Notes` collects what is noted on stderr while a journal is read.  `Spec/Notes.Tells` says what should be noted, on top of
  the description of accepted journals (C130); a command that succeeds writes nothing else.  Names that are declared again in an included
  file are not noted (`C131_false`).
* **C132** the converse of C130: by induction over the description of accepted journals, every reading it allows is the one the loops make,
  with enough iterations (`Lemmas/Exact`); uniqueness follows, since the program is a function.  `Lemmas/Fuel` shows that more iterations
  change nothing.
* **C133** by induction over the description of accepted journals (C130): what stands for something still does when more text follows its
  last line break; since that description is exact (C132), the program reads it so.
* **C134** and **C135** by what collapsing can skip: only rows further in than the line they are joined to.  The outermost rows are right even
  for names that start with a colon, where the others are not (C52).
* **C135** is what remains of C57 for accounts that do not form a tree that can be drawn.
* **C136** by the relations of C132 for the first items of a file: what makes a loop run out of iterations can only be the comment of a tag
  directive or an included file.
* **C137** by showing that a clear question is true or false of every posting (`sense_truth`), and that what is selected are filters of the
  same list.
* **C138** by relating all intermediate values of two runs: account maps with the same keys and sums, rows with the same names and
  permuted amounts.
* **C139** by regrouping sums: a report shows all groups with a non-zero sum, so that the sum over any set of groups is the sum of
  lines; cutting a name twice is cutting it once.
* **C140** by scaling the specification: booking and entering commute with multiplication, what is posted is determined, and
  conversion keeps names and unit prices.
* **C141** by a relation between old and new names: postings on related accounts are posted, filled in and entered alike, the weights
  do not depend on names, and without declarations every name stands for itself.
* **C142** like C140: sums under new names are the sums under the old ones, booking and entering commute with the names, and without
  declarations every name stands for itself.
* **C143** without totals the postings of a transaction do not depend on what the accounts had, so it can be booked for itself, and sums do
  not depend on the order. With totals, the stable sort of the one journal is that of the other. The names of the rearranged journal are
  entered as those of the first one in another hash order.
* **C144** like C143: without totals every transaction can be booked for itself. A name means the same in one of the journals and in both
  together, because it does when a journal goes on (C126) and when it is rearranged (C143). The texts are put together by C133.
* **C145** like C144, but transaction by transaction, since a report looks at the date of each: a booked transaction keeps its date
  (`BookedAs`), so the entries a report of a period finds are, up to their order, those
  of the transactions of this period, and reports of the same entries are alike (`report_like`, from what C138 needs).
* **C146** without totals the postings booked by a transaction are its real postings with an amount (`posts_givens`), so a permutation of
  the postings permutes what is booked, and the sums that decide about balancing and about the elided amount are the same.
* **C147** without totals a transaction is booked by the sums of its real postings with an amount (`posts_givens`, `enteredSum`), and
  weights are linear in the amount unless there is a total cost or a price in brackets (C11).
* **C148** a balanced transaction in one commodity has real postings that add up to zero (`balanced_zero`), so the amount filled in for
  the one left out is minus the sum of the others, which is the amount that had been written.
