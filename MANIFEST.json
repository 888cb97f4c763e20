{
 "claims": [
  {
   "property": "C01",
   "status": "proved",
   "theorems": [
    "Dinero.C01_add_exact",
    "Dinero.C01_money_add"
   ],
   "note": ""
  },
  {
   "property": "C02",
   "status": "proved",
   "theorems": [
    "Dinero.C02_sum_exact",
    "Dinero.C02_order_independent",
    "Dinero.C02_same_map",
    "Dinero.C02_new_neutral"
   ],
   "note": ""
  },
  {
   "property": "C03",
   "status": "proved",
   "theorems": [
    "Dinero.C03_neg_sub_exact",
    "Dinero.C03_money"
   ],
   "note": ""
  },
  {
   "property": "C04",
   "status": "proved",
   "theorems": [
    "Dinero.C04_isZero_iff",
    "Dinero.C04_toMoney"
   ],
   "note": ""
  },
  {
   "property": "C05",
   "status": "proved",
   "theorems": [
    "Dinero.C05_canBeZero_iff"
   ],
   "note": ""
  },
  {
   "property": "C06",
   "status": "proved",
   "theorems": [
    "Dinero.C06_eq_iff",
    "Dinero.C06_both_sides",
    "Dinero.C06_not_symmetric"
   ],
   "note": ""
  },
  {
   "property": "C07",
   "status": "partial",
   "theorems": [
    "Dinero.C07_coherent_partial",
    "Dinero.C07_eq_not_transitive",
    "Dinero.C07_lt_disagrees_with_cmp",
    "Dinero.C07_cmp_panics"
   ],
   "note": "false of the code: == is not transitive through zero amounts, < disagrees with cmp for Money::Zero; negations proved, the rest proved"
  },
  {
   "property": "C08",
   "status": "proved",
   "theorems": [
    "Dinero.C08_scaling"
   ],
   "note": ""
  },
  {
   "property": "C09",
   "status": "partial",
   "theorems": [
    "Dinero.C09_rounded_partial",
    "Dinero.C09_display_partial",
    "Dinero.C09_sign_lost",
    "Dinero.C09_almost_one",
    "Dinero.C09_almost_one_all",
    "Dinero.C09_precision_zero",
    "Dinero.C09_precision_overflow"
   ],
   "note": "false of the code for amounts in (-(1-u/2),0) (sign lost), [1-u/2,1) (printed -1.00), precision 0 and precision above 7; proved for all other amounts"
  },
  {
   "property": "C10",
   "status": "proved",
   "theorems": [
    "Dinero.C10_elided_amount"
   ],
   "note": ""
  },
  {
   "property": "C11",
   "status": "partial",
   "theorems": [
    "Dinero.C11_accept_iff_partial",
    "Dinero.C11_single_commodity",
    "Dinero.C11_false_for_bracketed_sale"
   ],
   "note": "false of the code for bracketed postings that sell at a per-unit cost (wrong sign); proved without them"
  },
  {
   "property": "C12",
   "status": "proved",
   "theorems": [
    "Dinero.C12_two_elided_rejected"
   ],
   "note": ""
  },
  {
   "property": "C13",
   "status": "proved",
   "theorems": [
    "Dinero.C13_postings_preserved"
   ],
   "note": ""
  },
  {
   "property": "C14",
   "status": "proved",
   "theorems": [
    "Dinero.C14_assertion_enforced",
    "Dinero.C14_true_assertion_harmless"
   ],
   "note": ""
  },
  {
   "property": "C15",
   "status": "proved",
   "theorems": [
    "Dinero.C15_assignment",
    "Dinero.C15_rejected_iff"
   ],
   "note": ""
  },
  {
   "property": "C16",
   "status": "proved",
   "theorems": [
    "Dinero.C16_no_check"
   ],
   "note": ""
  },
  {
   "property": "C17",
   "status": "proved",
   "theorems": [
    "Dinero.C17_running_balances"
   ],
   "note": ""
  },
  {
   "property": "C18",
   "status": "proved",
   "theorems": [
    "Dinero.C18_assertions_in_order"
   ],
   "note": ""
  },
  {
   "property": "C19",
   "status": "partial",
   "theorems": [
    "Dinero.C19_bracketed_partial",
    "Dinero.C19_parenthesised_irrelevant",
    "Dinero.C19_false_for_bracketed_sale"
   ],
   "note": "false of the code for bracketed per-unit sales; proved without them; irrelevance of parenthesised postings proved in full"
  },
  {
   "property": "C20",
   "status": "partial",
   "theorems": [
    "Dinero.C20_weights_partial",
    "Dinero.C20_real_total",
    "Dinero.C20_false_for_per_unit_sale"
   ],
   "note": "proved for real postings; false of the code for bracketed per-unit sales (negation proved)"
  },
  {
   "property": "C21",
   "status": "proved",
   "theorems": [
    "Dinero.C21_idempotent"
   ],
   "note": ""
  },
  {
   "property": "C31",
   "status": "proved",
   "theorems": [
    "Dinero.C31_lookup",
    "Dinero.C31_duplicate",
    "Dinero.C31_case_insensitive"
   ],
   "note": ""
  },
  {
   "property": "C32",
   "status": "proved",
   "theorems": [
    "Dinero.C32_get_total",
    "Dinero.C32_getRegex_total",
    "Dinero.C32_alias_of_absent_panics"
   ],
   "note": ""
  },
  {
   "property": "C33",
   "status": "proved",
   "theorems": [
    "Dinero.C33_append"
   ],
   "note": ""
  },
  {
   "property": "C34",
   "status": "partial",
   "theorems": [
    "Dinero.C34_fresh_partial",
    "Dinero.C34_stale_memo",
    "Dinero.C34_alias_case"
   ],
   "note": "false of the code: failed lookups are remembered across later insertions, aliases are only matched in lower case; proved for patterns not looked up before"
  },
  {
   "property": "C35",
   "status": "proved",
   "theorems": [
    "Dinero.C35_later_prices_ignored",
    "Dinero.C35_only_usable_prices"
   ],
   "note": ""
  },
  {
   "property": "C36",
   "status": "proved",
   "theorems": [
    "Dinero.C36_multiplier_is_chain_product"
   ],
   "note": ""
  },
  {
   "property": "C37",
   "status": "proved",
   "theorems": [
    "Dinero.C37_consistent_prices_exact",
    "Dinero.C37_consistent_prices_reproducible"
   ],
   "note": ""
  },
  {
   "property": "C38",
   "status": "partial",
   "theorems": [
    "Dinero.C38_convertible_iff_linked_partial",
    "Dinero.C38_returns_partial",
    "Dinero.C38_zero_price_panics",
    "Dinero.C38_negation"
   ],
   "note": "a usable price of zero can make the call panic (negation proved); proved for every call that returns, and every call returns when no usable price is zero"
  },
  {
   "property": "C39",
   "status": "proved",
   "theorems": [
    "Dinero.C39_target_never_rescaled"
   ],
   "note": ""
  },
  {
   "property": "C40",
   "status": "partial",
   "theorems": [
    "Dinero.C40_same_commodities_partial",
    "Dinero.C40_negation"
   ],
   "note": "false of the code: with inconsistent prices the rate depends on the hash order; proved that the set of convertible commodities never does, and with C37 that rates agree for consistent prices"
  },
  {
   "property": "C41",
   "status": "proved",
   "theorems": [
    "Dinero.C41_convert_balance",
    "Dinero.C41_report_balances"
   ],
   "note": ""
  },
  {
   "property": "C42",
   "status": "proved",
   "theorems": [
    "Dinero.C42_filter"
   ],
   "note": ""
  },
  {
   "property": "C43",
   "status": "proved",
   "theorems": [
    "Dinero.C43_cache_transparent"
   ],
   "note": ""
  },
  {
   "property": "C44",
   "status": "proved",
   "theorems": [
    "Dinero.C44_connectives",
    "Dinero.C44_formula",
    "Dinero.C44_non_boolean_panics"
   ],
   "note": ""
  },
  {
   "property": "C45",
   "status": "proved",
   "theorems": [
    "Dinero.C45_exact",
    "Dinero.C45_names_stable",
    "Dinero.C45_mixing_panics",
    "Dinero.C45_ill_typed_panics"
   ],
   "note": ""
  },
  {
   "property": "C46",
   "status": "proved",
   "theorems": [
    "Dinero.C46_any",
    "Dinero.C46_any_sound"
   ],
   "note": ""
  },
  {
   "property": "C47",
   "status": "proved",
   "theorems": [
    "Dinero.C47_tags"
   ],
   "note": ""
  },
  {
   "property": "C48",
   "status": "partial",
   "theorems": [
    "Dinero.C48_round_trip_partial",
    "Dinero.C48_chain_keeps_two",
    "Dinero.C48_product_chain_panics",
    "Dinero.C48_false"
   ],
   "note": "false of the code: from the third operand on, operands are dropped or the expression is rejected (both proved for all chains); proved that expressions with two operands per operator and parentheses are read back exactly"
  },
  {
   "property": "C72",
   "status": "partial",
   "theorems": [
    "Dinero.C72_unary_operand_partial",
    "Dinero.C72_unary_takes_all",
    "Dinero.C72_false"
   ],
   "note": "false of the code: unary operators apply to the whole rest of the expression (proved for all expressions); proved when nothing follows the operand"
  },
  {
   "property": "C73",
   "status": "partial",
   "theorems": [
    "Dinero.C73_number_connective_partial",
    "Dinero.C73_false"
   ],
   "note": "false of the code: `1 and` is read as an amount of the commodity `and`; proved for parenthesised comparisons"
  },
  {
   "property": "C49",
   "status": "proved",
   "theorems": [
    "Dinero.C49_terms",
    "Dinero.C49_unique",
    "Dinero.C49_trim"
   ],
   "note": ""
  },
  {
   "property": "C50",
   "status": "partial",
   "theorems": [
    "Dinero.C50_patterns_partial",
    "Dinero.C50_only_first_two",
    "Dinero.C50_false"
   ],
   "note": "false of the code: from the third pattern on, patterns are ignored (proved for all lists); proved for one and two patterns"
  },
  {
   "property": "C68",
   "status": "proved",
   "theorems": [
    "Dinero.C68_words",
    "Dinero.C68_split_unique"
   ],
   "note": ""
  },
  {
   "property": "C51",
   "status": "proved",
   "theorems": [
    "Dinero.C51_flat"
   ],
   "note": ""
  },
  {
   "property": "C52",
   "status": "partial",
   "theorems": [
    "Dinero.C52_rollup_partial",
    "Dinero.C52_false"
   ],
   "note": "proved for all ledgers in which no account name starts with a colon; false without that (witness)"
  },
  {
   "property": "C53",
   "status": "proved",
   "theorems": [
    "Dinero.C53_total",
    "Dinero.C53_single_commodity"
   ],
   "note": "without --exchange"
  },
  {
   "property": "C54",
   "status": "partial",
   "theorems": [
    "Dinero.C54_flat_depth_partial",
    "Dinero.C54_false"
   ],
   "note": "exact groups whenever the report succeeds; it panics exactly when a non-zero account is cut to the empty name, e.g. always under --depth 0"
  },
  {
   "property": "C55",
   "status": "proved",
   "theorems": [
    "Dinero.C55_register"
   ],
   "note": ""
  },
  {
   "property": "C56",
   "status": "proved",
   "theorems": [
    "Dinero.C56_agree"
   ],
   "note": ""
  },
  {
   "property": "C57",
   "status": "partial",
   "theorems": [
    "Dinero.C57_labels_partial",
    "Dinero.C57_false_own",
    "Dinero.C57_false_order",
    "Dinero.C57_false_parent",
    "Dinero.C57_depth_exceeded"
   ],
   "note": "false of the code (four witnesses); proved for the accounts TreeFit describes: no account sorts between another one and its subaccounts, an account with something left below it has something left itself, and an account with a single child has nothing of its own"
  },
  {
   "property": "C58",
   "status": "partial",
   "theorems": [
    "Dinero.C58_balance_partial",
    "Dinero.C58_register_partial",
    "Dinero.C58_amounts",
    "Dinero.C58_false"
   ],
   "note": "false of the code for virtual postings without an amount; proved when they have amounts, and for flat reports without --depth"
  },
  {
   "property": "C59",
   "status": "proved",
   "theorems": [
    "Dinero.C59_list"
   ],
   "note": ""
  },
  {
   "property": "C74",
   "status": "proved",
   "theorems": [
    "Dinero.C74_match",
    "Dinero.C74_operands"
   ],
   "note": ""
  },
  {
   "property": "C75",
   "status": "proved",
   "theorems": [
    "Dinero.C75_compare",
    "Dinero.C75_texts",
    "Dinero.C75_unordered"
   ],
   "note": ""
  },
  {
   "property": "C67",
   "status": "partial",
   "theorems": [
    "Dinero.C67_partial",
    "Dinero.C67_false",
    "Dinero.C67_trailing"
   ],
   "note": "complete description of the tags of any comment; false of the code only for values with a colon in them, which yield no tag"
  },
  {
   "property": "C22",
   "status": "proved",
   "theorems": [
    "Dinero.C22_transactions"
   ],
   "note": ""
  },
  {
   "property": "C23",
   "status": "proved",
   "theorems": [
    "Dinero.C23_file_order",
    "Dinero.C23_build"
   ],
   "note": "the prices agree up to order"
  },
  {
   "property": "C24",
   "status": "proved",
   "theorems": [
    "Dinero.C24_resolves",
    "Dinero.C24_no_panic"
   ],
   "note": "absence of panics is proved for journals without automated transactions and without a total cost on a zero quantity (C25)"
  },
  {
   "property": "C25",
   "status": "proved",
   "theorems": [
    "Dinero.C25_prices",
    "Dinero.C25_zero_quantity",
    "Dinero.C25_zero_quantity_panics"
   ],
   "note": ""
  },
  {
   "property": "C26",
   "status": "proved",
   "theorems": [
    "Dinero.C26_implied_rates",
    "Dinero.C26_directions",
    "Dinero.C26_rates_twice"
   ],
   "note": "with automated transactions the rates are recorded twice (witness)"
  },
  {
   "property": "C27",
   "status": "proved",
   "theorems": [
    "Dinero.C27_rules",
    "Dinero.C27_append",
    "Dinero.C27_single_rule"
   ],
   "note": ""
  },
  {
   "property": "C28",
   "status": "proved",
   "theorems": [
    "Dinero.C28_amounts",
    "Dinero.C28_expression"
   ],
   "note": ""
  },
  {
   "property": "C29",
   "status": "partial",
   "theorems": [
    "Dinero.C29_orders_partial",
    "Dinero.C29_false_case",
    "Dinero.C29_false_fill",
    "Dinero.C29_false_rate"
   ],
   "note": "false of the code in general (three witnesses); proved up to the order of filled in postings and the direction of implied rates for journals without automated transactions, names that differ in case, or competing payee patterns"
  },
  {
   "property": "C30",
   "status": "partial",
   "theorems": [
    "Dinero.C30_unknown_partial",
    "Dinero.C30_false"
   ],
   "note": "the account is one that takes the payee; which one is left to the hash order if there are several (witness)"
  },
  {
   "property": "C76",
   "status": "proved",
   "theorems": [
    "Dinero.C76_postings"
   ],
   "note": ""
  },
  {
   "property": "C77",
   "status": "partial",
   "theorems": [
    "Dinero.C77_unknown",
    "Dinero.C77_total",
    "Dinero.C77_flat",
    "Dinero.C77_tree_partial",
    "Dinero.C77_false_tree"
   ],
   "note": "the lines of the flat report without a depth limit; those of the tree report under the conditions of C57, false without them (witness)"
  },
  {
   "property": "C78",
   "status": "proved",
   "theorems": [
    "Dinero.C78_headers"
   ],
   "note": ""
  },
  {
   "property": "C70",
   "status": "proved",
   "theorems": [
    "Dinero.C70_read",
    "Dinero.C70_order",
    "Dinero.C70_days",
    "Dinero.C70_command_line",
    "Dinero.C70_long_year"
   ],
   "note": "date_parser is proved for full dates and year-month; the English dates of two_timer are a parameter"
  },
  {
   "property": "C60",
   "status": "proved",
   "theorems": [
    "Dinero.C60_amount",
    "Dinero.C60_only",
    "Dinero.C60_points"
   ],
   "note": "with the exact set of texts that are read as numbers, which also contains a point followed by a minus sign"
  },
  {
   "property": "C61",
   "status": "partial",
   "theorems": [
    "Dinero.C61_account_partial",
    "Dinero.C61_just_account",
    "Dinero.C61_unicode_panics"
   ],
   "note": "for accounts that start with an ASCII character other than a digit; any other first character panics (proved)"
  },
  {
   "property": "C62",
   "status": "partial",
   "theorems": [
    "Dinero.C62_blanks_partial",
    "Dinero.C62_single_blank",
    "Dinero.C62_single_blank_rejected",
    "Dinero.C62_journal_rejected"
   ],
   "note": "holds for a tab or at least two blanks; false for a single blank or a carriage return (proved)"
  },
  {
   "property": "C63",
   "status": "partial",
   "theorems": [
    "Dinero.C63_final_newline_partial",
    "Dinero.C63_last_account_panics"
   ],
   "note": "false if the last line is just the account of a posting, which panics (proved)"
  },
  {
   "property": "C64",
   "status": "partial",
   "theorems": [
    "Dinero.C64_terminates_partial",
    "Dinero.C64_tag_comment_loops"
   ],
   "note": "false for a comment in a tag directive (proved); proved for all other texts"
  },
  {
   "property": "C65",
   "status": "partial",
   "theorems": [
    "Dinero.C65_terminates_partial",
    "Dinero.C65_loop",
    "Dinero.C65_spelling_diverges"
   ],
   "note": "termination for texts without a comment in a tag directive and finitely many paths; a path with `..` is not recognised (witness). Loops are proved to be reported"
  },
  {
   "property": "C66",
   "status": "partial",
   "theorems": [
    "Dinero.C66_loads_partial",
    "Dinero.C66_paste_partial",
    "Dinero.C66_tags_lost",
    "Dinero.C66_redeclared"
   ],
   "note": "tags of included files are lost and redeclared names replaced (witnesses); otherwise equal to pasting"
  },
  {
   "property": "C71",
   "status": "partial",
   "theorems": [
    "Dinero.C71_lines_partial",
    "Dinero.C71_at_most",
    "Dinero.C71_ended",
    "Dinero.C71_automated"
   ],
   "note": "proved between items, and with automated transactions if the text ends with a line break; an automated transaction at the end of a text without one makes the counter fall behind (witness)"
  },
  {
   "property": "C79",
   "status": "proved",
   "theorems": [
    "Dinero.C79_journal"
   ],
   "note": ""
  },
  {
   "property": "C80",
   "status": "proved",
   "theorems": [
    "Dinero.C80_header"
   ],
   "note": ""
  },
  {
   "property": "C81",
   "status": "proved",
   "theorems": [
    "Dinero.C81_price"
   ],
   "note": ""
  },
  {
   "property": "C82",
   "status": "partial",
   "theorems": [
    "Dinero.C82_reported_partial",
    "Dinero.C82_first_line"
   ],
   "note": "false on the first line, where reporting the error overflows (proved)"
  },
  {
   "property": "C69",
   "status": "partial",
   "theorems": [
    "Dinero.C69_merge_partial",
    "Dinero.C69_overridden",
    "Dinero.C69_once",
    "Dinero.C69_default",
    "Dinero.C69_accepted",
    "Dinero.C69_rejected",
    "Dinero.C69_lines",
    "Dinero.C69_file",
    "Dinero.C69_file_default",
    "Dinero.C69_no_file",
    "Dinero.C69_unreadable",
    "Dinero.C69_init_file_last",
    "Dinero.C69_short_forms",
    "Dinero.C69_not_literal",
    "Dinero.C69_dashed_value"
   ],
   "note": "proved for options given in their long form or as `-f`; short forms other than `-f` and `--opt=x` do not count as given, a value starting with a dash counts as an option (witnesses)"
  },
  {
   "property": "C83",
   "status": "partial",
   "theorems": [
    "Dinero.C83_wellformed",
    "Dinero.C83_no_panic"
   ],
   "note": "the absence of panics is proved without automated transactions and without a total cost for a zero quantity (that panics, C25)"
  },
  {
   "property": "C84",
   "status": "partial",
   "theorems": [
    "Dinero.C84_check_partial",
    "Dinero.C84_full_partial",
    "Dinero.C84_one_commodity"
   ],
   "note": "proved without automated transactions; bracketed sales are weighed with the wrong sign (C11) and are excluded; C117 covers them, C104 and C109 automated transactions"
  },
  {
   "property": "C85",
   "status": "proved",
   "theorems": [
    "Dinero.C85_register",
    "Dinero.C85_full"
   ],
   "note": ""
  },
  {
   "property": "C86",
   "status": "proved",
   "theorems": [
    "Dinero.C86_balance",
    "Dinero.C86_total"
   ],
   "note": ""
  },
  {
   "property": "C87",
   "status": "proved",
   "theorems": [
    "Dinero.C87_total"
   ],
   "note": ""
  },
  {
   "property": "C88",
   "status": "proved",
   "theorems": [
    "Dinero.C88_lists"
   ],
   "note": ""
  },
  {
   "property": "C89",
   "status": "proved",
   "theorems": [
    "Dinero.C89_prices"
   ],
   "note": ""
  },
  {
   "property": "C90",
   "status": "proved",
   "theorems": [
    "Dinero.C90_check",
    "Dinero.C90_total",
    "Dinero.C90_register",
    "Dinero.C90_balance"
   ],
   "note": ""
  },
  {
   "property": "C91",
   "status": "partial",
   "theorems": [
    "Dinero.C91_read_partial",
    "Dinero.C91_false",
    "Dinero.C91_command_line",
    "Dinero.C91_order"
   ],
   "note": "false for years from 10000 on, which are printed with a sign that is not read (C91_false)"
  },
  {
   "property": "C92",
   "status": "partial",
   "theorems": [
    "Dinero.C92_payee_partial",
    "Dinero.C92_false",
    "Dinero.C92_register",
    "Dinero.C92_width",
    "Dinero.C92_account"
   ],
   "note": "the table is proved; the marking of cut payees is false: names of 38 characters, and shorter ones that are not ASCII, are marked although complete (C92_false)"
  },
  {
   "property": "C93",
   "status": "proved",
   "theorems": [
    "Dinero.C93_balance",
    "Dinero.C93_command"
   ],
   "note": ""
  },
  {
   "property": "C94",
   "status": "partial",
   "theorems": [
    "Dinero.C94_agree",
    "Dinero.C94_check",
    "Dinero.C94_false"
   ],
   "note": "proved with balance checks on; with --no-balance-check a journal that check accepts can be rejected (C94_false)"
  },
  {
   "property": "C95",
   "status": "proved",
   "theorems": [
    "Dinero.C95_register",
    "Dinero.C95_balance"
   ],
   "note": ""
  },
  {
   "property": "C96",
   "status": "proved",
   "theorems": [
    "Dinero.C96_register",
    "Dinero.C96_balance"
   ],
   "note": ""
  },
  {
   "property": "C97",
   "status": "proved",
   "theorems": [
    "Dinero.C97_accepted"
   ],
   "note": "the statement is about accepted journals; why a rule may fail to apply is not characterised"
  },
  {
   "property": "C98",
   "status": "proved",
   "theorems": [
    "Dinero.C98_register",
    "Dinero.C98_balance"
   ],
   "note": ""
  },
  {
   "property": "C99",
   "status": "proved",
   "theorems": [
    "Dinero.C99_total"
   ],
   "note": ""
  },
  {
   "property": "C100",
   "status": "partial",
   "theorems": [
    "Dinero.C100_tree_partial",
    "Dinero.C100_depth"
   ],
   "note": "the tree under the conditions of C57, without which it is false; --depth for the flat report is complete"
  },
  {
   "property": "C101",
   "status": "proved",
   "theorems": [
    "Dinero.C101_flat",
    "Dinero.C101_unknown"
   ],
   "note": "for the flat report; the table of rates is the one of C35-C41"
  },
  {
   "property": "C102",
   "status": "partial",
   "theorems": [
    "Dinero.C102_no_panic_partial",
    "Dinero.C102_false"
   ],
   "note": "conditions and amounts that are expressions are covered by C108; without the conditions on amounts it is false"
  },
  {
   "property": "C103",
   "status": "proved",
   "theorems": [
    "Dinero.C103_register"
   ],
   "note": ""
  },
  {
   "property": "C104",
   "status": "partial",
   "theorems": [
    "Dinero.C104_check_partial"
   ],
   "note": "bracketed sales are excluded, as in C84 (C117_accounts covers them); amounts of rules as in C102"
  },
  {
   "property": "C105",
   "status": "proved",
   "theorems": [
    "Dinero.C105_balance"
   ],
   "note": ""
  },
  {
   "property": "C106",
   "status": "proved",
   "theorems": [
    "Dinero.C106_list",
    "Dinero.C106_prices",
    "Dinero.C106_accounts",
    "Dinero.C106_commodities",
    "Dinero.C106_payees",
    "Dinero.C106_prices_command"
   ],
   "note": "the lists of names for journals without automated transactions"
  },
  {
   "property": "C107",
   "status": "proved",
   "theorems": [
    "Dinero.C107_sound",
    "Dinero.C107_false"
   ],
   "note": "C107_false: without the restrictions evaluation panics"
  },
  {
   "property": "C108",
   "status": "proved",
   "theorems": [
    "Dinero.C108_no_panic",
    "Dinero.C108_false"
   ],
   "note": "C108_false: without the restrictions the program panics"
  },
  {
   "property": "C109",
   "status": "partial",
   "theorems": [
    "Dinero.C109_check_partial"
   ],
   "note": "bracketed sales are excluded, as in C84; C117_rules covers them"
  },
  {
   "property": "C110",
   "status": "proved",
   "theorems": [
    "Dinero.C110_register",
    "Dinero.C110_balance",
    "Dinero.C110_words",
    "Dinero.C110_false"
   ],
   "note": "C110_false: without the restrictions the reports panic"
  },
  {
   "property": "C111",
   "status": "proved",
   "theorems": [
    "Dinero.C111_meaning",
    "Dinero.C111_false"
   ],
   "note": "C111_false: without the restriction equality asks for the commodity too"
  },
  {
   "property": "C112",
   "status": "partial",
   "theorems": [
    "Dinero.C112_register",
    "Dinero.C112_balance",
    "Dinero.C112_depth",
    "Dinero.C112_tree_partial",
    "Dinero.C112_words"
   ],
   "note": "the tree under the conditions of C57; the other reports are complete"
  },
  {
   "property": "C113",
   "status": "partial",
   "theorems": [
    "Dinero.C113_levels",
    "Dinero.C113_unique",
    "Dinero.C113_false"
   ],
   "note": "products in the middle of sums are excluded: C113_false proves that they panic"
  },
  {
   "property": "C114",
   "status": "proved",
   "theorems": [
    "Dinero.C114_reads",
    "Dinero.C114_clear",
    "Dinero.C114_register",
    "Dinero.C114_rule"
   ],
   "note": ""
  },
  {
   "property": "C115",
   "status": "proved",
   "theorems": [
    "Dinero.C115_status",
    "Dinero.C115_agree",
    "Dinero.C115_failure",
    "Dinero.C115_arguments",
    "Dinero.C115_first_line"
   ],
   "note": "C115_first_line: the panic of C82 seen from outside"
  },
  {
   "property": "C116",
   "status": "partial",
   "theorems": [
    "Dinero.C116_register",
    "Dinero.C116_patterns",
    "Dinero.C116_check_partial",
    "Dinero.C116_false"
   ],
   "note": "check without sales in brackets (C117_rules covers them); C116_false proves that conditions on the tags of other postings depend on the order of the postings"
  },
  {
   "property": "C117",
   "status": "proved",
   "theorems": [
    "Dinero.C117_accept",
    "Dinero.C117_check",
    "Dinero.C117_full",
    "Dinero.C117_accounts",
    "Dinero.C117_rules",
    "Dinero.C117_no_sales"
   ],
   "note": "completes C84, C104, C109 and C116 for sales in brackets"
  },
  {
   "property": "C118",
   "status": "proved",
   "theorems": [
    "Dinero.C118_fault",
    "Dinero.C118_names",
    "Dinero.C118_rules",
    "Dinero.C118_rows"
   ],
   "note": "the condition on rules is that of C109"
  },
  {
   "property": "C119",
   "status": "proved",
   "theorems": [
    "Dinero.C119_unknown",
    "Dinero.C119_indented",
    "Dinero.C119_mark"
   ],
   "note": "on the first line the message cannot be written (C82)"
  },
  {
   "property": "C120",
   "status": "proved",
   "theorems": [
    "Dinero.C120_free_total",
    "Dinero.C120_crash",
    "Dinero.C120_outcome",
    "Dinero.C120_status"
   ],
   "note": ""
  },
  {
   "property": "C121",
   "status": "proved",
   "theorems": [
    "Dinero.C121_balance",
    "Dinero.C121_balance_asked",
    "Dinero.C121_total",
    "Dinero.C121_register",
    "Dinero.C121_register_asked"
   ],
   "note": "Questions are patterns of accounts about any journal, or clear questions of any kind about sound journals; without --exchange."
  },
  {
   "property": "C122",
   "status": "proved",
   "theorems": [
    "Dinero.C122_question",
    "Dinero.C122_register",
    "Dinero.C122_nothing"
   ],
   "note": ""
  },
  {
   "property": "C123",
   "status": "proved",
   "theorems": [
    "Dinero.C123_lists",
    "Dinero.C123_accounts",
    "Dinero.C123_commodities",
    "Dinero.C123_payees"
   ],
   "note": ""
  },
  {
   "property": "C124",
   "status": "proved",
   "theorems": [
    "Dinero.C124_prices",
    "Dinero.C124_twice"
   ],
   "note": ""
  },
  {
   "property": "C125",
   "status": "partial",
   "theorems": [
    "Dinero.C125_reads",
    "Dinero.C125_order",
    "Dinero.C125_twice",
    "Dinero.C125_config_partial",
    "Dinero.C125_fresh",
    "Dinero.C125_config_short",
    "Dinero.C125_config_unknown"
   ],
   "note": "overriding by short forms and by equals signs does not work in the code: C125_config_short proves that such command lines are refused; hypothesis: clap reads arguments as declared (World.Understands)"
  },
  {
   "property": "C126",
   "status": "partial",
   "theorems": [
    "Dinero.C126_ledger_partial",
    "Dinero.C126_exact_partial",
    "Dinero.C126_balance_partial",
    "Dinero.C126_register_partial",
    "Dinero.C126_text_partial",
    "Dinero.C126_case",
    "Dinero.C126_rule",
    "Dinero.C126_earlier"
   ],
   "note": "partial because the property fails for names that differ in case (C126_case) and for automated transactions (C126_rule); C126_earlier shows that the dates matter"
  },
  {
   "property": "C127",
   "status": "partial",
   "theorems": [
    "Dinero.C127_shown_partial",
    "Dinero.C127_status",
    "Dinero.C127_register",
    "Dinero.C127_balance",
    "Dinero.C127_check",
    "Dinero.C127_sign",
    "Dinero.C127_quiet",
    "Dinero.C127_forced",
    "Dinero.C127_noColor",
    "Dinero.C127_when",
    "Dinero.C127_lists",
    "Dinero.C127_check_ignores",
    "Dinero.C127_red_balance",
    "Dinero.C127_red_running",
    "Dinero.C127_red_amount_partial",
    "Dinero.C127_zero",
    "Dinero.C127_escapes"
   ],
   "note": "partial because the property fails for names with escape sequences (C127_escapes), for zeros from asserted totals (C127_zero) and for --force-color with check (C127_check_ignores)"
  },
  {
   "property": "C128",
   "status": "partial",
   "theorems": [
    "Dinero.C128_explained",
    "Dinero.C128_message_partial",
    "Dinero.C128_main_loop",
    "Dinero.C128_silent",
    "Dinero.C128_brackets",
    "Dinero.C128_cycle"
   ],
   "note": "partial because a line like `incomplete` is rejected without a message (C128_silent), missing brackets and include loops are reported elsewhere (C128_brackets, C128_cycle), and lines are miscounted after an automated transaction at the end of a text without a line break (C71)"
  },
  {
   "property": "C129",
   "status": "partial",
   "theorems": [
    "Dinero.C129_understood",
    "Dinero.C129_told",
    "Dinero.C129_silent_partial",
    "Dinero.C129_fault",
    "Dinero.C129_agree",
    "Dinero.C129_false"
   ],
   "note": "partial because a line like `incomplete` makes the program end with status 1 and without a word (C129_false); C129_silent_partial shows that this is the only case"
  },
  {
   "property": "C130",
   "status": "proved",
   "theorems": [
    "Dinero.C130_accepted",
    "Dinero.C130_header",
    "Dinero.C130_price",
    "Dinero.C130_commodity",
    "Dinero.C130_kept",
    "Dinero.C130_false",
    "Dinero.C130_false_directive",
    "Dinero.C130_false_header",
    "Dinero.C130_false_last"
   ],
   "note": "the converse, that everything of this form is accepted, is proved for the first lines here and for well-written journals in C79; the texts that are accepted although they do not mean what they say are part of the specification and shown in C130_false"
  },
  {
   "property": "C131",
   "status": "proved",
   "theorems": [
    "Dinero.C131_notes",
    "Dinero.C131_success",
    "Dinero.C131_once",
    "Dinero.C131_ignored",
    "Dinero.C131_stopped",
    "Dinero.C131_false"
   ],
   "note": "the texts of the notes ({:?} of an element or of a glob error) are a parameter; for rejected journals it is only proved that nothing is noted after the file that is rejected"
  },
  {
   "property": "C132",
   "status": "proved",
   "theorems": [
    "Dinero.C132_exact",
    "Dinero.C132_unique",
    "Dinero.C132_fuel",
    "Dinero.C132_journal",
    "Dinero.C132_rejects"
   ],
   "note": "for files; the same text on standard input is covered by C64 only"
  },
  {
   "property": "C133",
   "status": "partial",
   "theorems": [
    "Dinero.C133_append_partial",
    "Dinero.C133_journal_partial",
    "Dinero.C133_more_partial",
    "Dinero.C133_false"
   ],
   "note": "proved for journals that end with a line break without a blank before it and leave no parenthesis open; without that it is false (C133_false)"
  },
  {
   "property": "C134",
   "status": "proved",
   "theorems": [
    "Dinero.C134_outer",
    "Dinero.C134_exchange",
    "Dinero.C134_total",
    "Dinero.C134_command"
   ],
   "note": "at depth 0 there are no lines and no total, which is the only exception of C134_outer and C134_exchange"
  },
  {
   "property": "C135",
   "status": "partial",
   "theorems": [
    "Dinero.C135_lines_partial",
    "Dinero.C135_false"
   ],
   "note": "proved unless names start with a colon (C135_false); no condition on the tree, unlike C57, which also says where the labels end"
  },
  {
   "property": "C136",
   "status": "proved",
   "theorems": [
    "Dinero.C136_exact",
    "Dinero.C136_loops",
    "Dinero.C136_ends",
    "Dinero.C136_three"
   ],
   "note": "C136_loops needs nothing about the files; the others need finitely many paths (C65_spelling_diverges shows that this is necessary)"
  },
  {
   "property": "C137",
   "status": "proved",
   "theorems": [
    "Dinero.C137_balance",
    "Dinero.C137_total",
    "Dinero.C137_register",
    "Dinero.C137_join",
    "Dinero.C137_entries",
    "Dinero.C137_not"
   ],
   "note": "without exchange to another currency; questions of one term on each side (C48 shows that a third one is ignored)"
  },
  {
   "property": "C138",
   "status": "partial",
   "theorems": [
    "Dinero.C138_balance",
    "Dinero.C138_register",
    "Dinero.C138_one",
    "Dinero.C138_one_register",
    "Dinero.C138_runs",
    "Dinero.C138_patterns",
    "Dinero.C138_false"
   ],
   "note": "false for the order of the amounts (C138_false): the lines of the total can come in either order; with contradicting prices see C40; between runs on one journal: for account patterns and periods, without exchange"
  },
  {
   "property": "C139",
   "status": "partial",
   "theorems": [
    "Dinero.C139_flat",
    "Dinero.C139_commands",
    "Dinero.C139_tree_partial",
    "Dinero.C139_outer",
    "Dinero.C139_false"
   ],
   "note": "the tree is for names that do not start with a colon: otherwise it is false (C139_false); without `--exchange`"
  },
  {
   "property": "C140",
   "status": "proved",
   "theorems": [
    "Dinero.C140_outcome",
    "Dinero.C140_balance",
    "Dinero.C140_false"
   ],
   "note": "the number has to be positive: with -1 it is false, because a total cost takes the sign of the amount (C140_false)"
  },
  {
   "property": "C141",
   "status": "proved",
   "theorems": [
    "Dinero.C141_outcome",
    "Dinero.C141_balance",
    "Dinero.C141_renamed"
   ],
   "note": "the conditions are needed: one name for two accounts can break an asserted total (C141_false_asserted), and names that differ in case only are one account (C141_false_case)"
  },
  {
   "property": "C142",
   "status": "proved",
   "theorems": [
    "Dinero.C142_outcome",
    "Dinero.C142_balance"
   ],
   "note": "with one name for two commodities it is false, because an exchange becomes a difference (C142_false)"
  },
  {
   "property": "C143",
   "status": "proved",
   "theorems": [
    "Dinero.C143_outcome",
    "Dinero.C143_balance",
    "Dinero.C143_report"
   ],
   "note": "with totals in force and dates that change the order it is false (C143_false)"
  },
  {
   "property": "C144",
   "status": "proved",
   "theorems": [
    "Dinero.C144_outcome",
    "Dinero.C144_balance",
    "Dinero.C144_text"
   ],
   "note": "with totals in force it is false (C144_false)"
  },
  {
   "property": "C145",
   "status": "proved",
   "theorems": [
    "Dinero.C145_accepted",
    "Dinero.C145_report"
   ],
   "note": "with totals in force it is false (C145_false)"
  },
  {
   "property": "C146",
   "status": "proved",
   "theorems": [
    "Dinero.C146_outcome",
    "Dinero.C146_report"
   ],
   "note": "with totals in force it is false (C146_false): totals are compared posting by posting"
  },
  {
   "property": "C147",
   "status": "proved",
   "theorems": [
    "Dinero.C147_outcome",
    "Dinero.C147_balance",
    "Dinero.C147_report"
   ],
   "note": "with totals in force it is false (C147_false), as for prices in brackets (C147_bracketed)"
  },
  {
   "property": "C148",
   "status": "proved",
   "theorems": [
    "Dinero.C148_accepted",
    "Dinero.C148_balance",
    "Dinero.C148_report"
   ],
   "note": "with two commodities, an exchange, it is false (C148_false)"
  }
 ]
}