#!/usr/bin/env python3
"""Writes /verif/MANIFEST.json, and (with --check) checks the named theorems and their axioms."""
import json, os, subprocess, sys, re
HERE = os.path.dirname(os.path.abspath(__file__)); ROOT = os.path.dirname(HERE)
C = []
def claim(p, status, theorems, note=""):
    C.append(dict(property=p, status=status, theorems=["Dinero." + t for t in theorems.split()], note=note))

claim("C01","proved","C01_add_exact C01_money_add")
claim("C02","proved","C02_sum_exact C02_order_independent C02_same_map C02_new_neutral")
claim("C03","proved","C03_neg_sub_exact C03_money")
claim("C04","proved","C04_isZero_iff C04_toMoney")
claim("C05","proved","C05_canBeZero_iff")
claim("C06","proved","C06_eq_iff C06_both_sides C06_not_symmetric")
claim("C07","partial","C07_coherent_partial C07_eq_not_transitive C07_lt_disagrees_with_cmp C07_cmp_panics",
 "false of the code: == is not transitive through zero amounts, < disagrees with cmp for Money::Zero; negations proved, the rest proved")
claim("C08","proved","C08_scaling")
claim("C09","partial","C09_rounded_partial C09_display_partial C09_sign_lost C09_almost_one C09_almost_one_all C09_precision_zero C09_precision_overflow",
 "false of the code for amounts in (-(1-u/2),0) (sign lost), [1-u/2,1) (printed -1.00), precision 0 and precision above 7; proved for all other amounts")
claim("C10","proved","C10_elided_amount")
claim("C11","partial","C11_accept_iff_partial C11_single_commodity C11_false_for_bracketed_sale",
 "false of the code for bracketed postings that sell at a per-unit cost (wrong sign); proved without them")
claim("C12","proved","C12_two_elided_rejected")
claim("C13","proved","C13_postings_preserved")
claim("C14","proved","C14_assertion_enforced C14_true_assertion_harmless")
claim("C15","proved","C15_assignment C15_rejected_iff")
claim("C16","proved","C16_no_check")
claim("C17","proved","C17_running_balances")
claim("C18","proved","C18_assertions_in_order")
claim("C19","partial","C19_bracketed_partial C19_parenthesised_irrelevant C19_false_for_bracketed_sale",
 "false of the code for bracketed per-unit sales; proved without them; irrelevance of parenthesised postings proved in full")
claim("C20","partial","C20_weights_partial C20_real_total C20_false_for_per_unit_sale",
 "proved for real postings; false of the code for bracketed per-unit sales (negation proved)")
claim("C21","proved","C21_idempotent")
claim("C31","proved","C31_lookup C31_duplicate C31_case_insensitive")
claim("C32","proved","C32_get_total C32_getRegex_total C32_alias_of_absent_panics")
claim("C33","proved","C33_append")
claim("C34","partial","C34_fresh_partial C34_stale_memo C34_alias_case",
 "false of the code: failed lookups are remembered across later insertions, aliases are only matched in lower case; proved for patterns not looked up before")
claim("C35","proved","C35_later_prices_ignored C35_only_usable_prices")
claim("C36","proved","C36_multiplier_is_chain_product")
claim("C37","proved","C37_consistent_prices_exact C37_consistent_prices_reproducible")
claim("C38","partial","C38_convertible_iff_linked_partial C38_returns_partial C38_zero_price_panics C38_negation",
 "a usable price of zero can make the call panic (negation proved); proved for every call that returns, and every call returns when no usable price is zero")
claim("C39","proved","C39_target_never_rescaled")
claim("C40","partial","C40_same_commodities_partial C40_negation",
 "false of the code: with inconsistent prices the rate depends on the hash order; proved that the set of convertible commodities never does, and with C37 that rates agree for consistent prices")
claim("C41","proved","C41_convert_balance C41_report_balances")
claim("C42","proved","C42_filter")
claim("C43","proved","C43_cache_transparent")
claim("C44","proved","C44_connectives C44_formula C44_non_boolean_panics")
claim("C45","proved","C45_exact C45_names_stable C45_mixing_panics C45_ill_typed_panics")
claim("C46","proved","C46_any C46_any_sound")
claim("C47","proved","C47_tags")
claim("C48","partial","C48_round_trip_partial C48_chain_keeps_two C48_product_chain_panics C48_false",
 "false of the code: from the third operand on, operands are dropped or the expression is rejected (both proved for all chains); proved that expressions with two operands per operator and parentheses are read back exactly")
claim("C72","partial","C72_unary_operand_partial C72_unary_takes_all C72_false",
 "false of the code: unary operators apply to the whole rest of the expression (proved for all expressions); proved when nothing follows the operand")
claim("C73","partial","C73_number_connective_partial C73_false",
 "false of the code: `1 and` is read as an amount of the commodity `and`; proved for parenthesised comparisons")
claim("C49","proved","C49_terms C49_unique C49_trim")
claim("C50","partial","C50_patterns_partial C50_only_first_two C50_false",
 "false of the code: from the third pattern on, patterns are ignored (proved for all lists); proved for one and two patterns")
claim("C68","proved","C68_words C68_split_unique")
claim("C51","proved","C51_flat")
claim("C52","partial","C52_rollup_partial C52_false",
 "proved for all ledgers in which no account name starts with a colon; false without that (witness)")
claim("C53","proved","C53_total C53_single_commodity",
 "without --exchange")
claim("C54","partial","C54_flat_depth_partial C54_false",
 "exact groups whenever the report succeeds; it panics exactly when a non-zero account is cut to the empty name, e.g. always under --depth 0")
claim("C55","proved","C55_register")
claim("C56","proved","C56_agree")
claim("C57","partial","C57_labels_partial C57_false_own C57_false_order C57_false_parent C57_depth_exceeded",
 "false of the code (four witnesses); proved for the accounts TreeFit describes: no account sorts between another one and its subaccounts, an account with something left below it has something left itself, and an account with a single child has nothing of its own")
claim("C58","partial","C58_balance_partial C58_register_partial C58_amounts C58_false",
 "false of the code for virtual postings without an amount; proved when they have amounts, and for flat reports without --depth")
claim("C59","proved","C59_list")
claim("C74","proved","C74_match C74_operands")
claim("C75","proved","C75_compare C75_texts C75_unordered")
claim("C67","partial","C67_partial C67_false C67_trailing",
 "complete description of the tags of any comment; false of the code only for values with a colon in them, which yield no tag")
claim("C22","proved","C22_transactions")
claim("C23","proved","C23_file_order C23_build",
 "the prices agree up to order")
claim("C24","proved","C24_resolves C24_no_panic",
 "absence of panics is proved for journals without automated transactions and without a total cost on a zero quantity (C25)")
claim("C25","proved","C25_prices C25_zero_quantity C25_zero_quantity_panics")
claim("C26","proved","C26_implied_rates C26_directions C26_rates_twice",
 "with automated transactions the rates are recorded twice (witness)")
claim("C27","proved","C27_rules C27_append C27_single_rule")
claim("C28","proved","C28_amounts C28_expression")
claim("C29","partial","C29_orders_partial C29_false_case C29_false_fill C29_false_rate",
 "false of the code in general (three witnesses); proved up to the order of filled in postings and the direction of implied rates for journals without automated transactions, names that differ in case, or competing payee patterns")
claim("C30","partial","C30_unknown_partial C30_false",
 "the account is one that takes the payee; which one is left to the hash order if there are several (witness)")
claim("C76","proved","C76_postings")
claim("C77","partial","C77_unknown C77_total C77_flat C77_tree_partial C77_false_tree",
 "the lines of the flat report without a depth limit; those of the tree report under the conditions of C57, false without them (witness)")
claim("C78","proved","C78_headers")
claim("C70","proved","C70_read C70_order C70_days C70_command_line C70_long_year",
 "date_parser is proved for full dates and year-month; the English dates of two_timer are a parameter")
claim("C60","proved","C60_amount C60_only C60_points",
 "with the exact set of texts that are read as numbers, which also contains a point followed by a minus sign")
claim("C61","partial","C61_account_partial C61_just_account C61_unicode_panics",
 "for accounts that start with an ASCII character other than a digit; any other first character panics (proved)")
claim("C62","partial","C62_blanks_partial C62_single_blank C62_single_blank_rejected C62_journal_rejected",
 "holds for a tab or at least two blanks; false for a single blank or a carriage return (proved)")
claim("C63","partial","C63_final_newline_partial C63_last_account_panics",
 "false if the last line is just the account of a posting, which panics (proved)")
claim("C64","partial","C64_terminates_partial C64_tag_comment_loops",
 "false for a comment in a tag directive (proved); proved for all other texts")
claim("C65","partial","C65_terminates_partial C65_loop C65_spelling_diverges",
 "termination for texts without a comment in a tag directive and finitely many paths; a path with `..` is not recognised (witness). Loops are proved to be reported")
claim("C66","partial","C66_loads_partial C66_paste_partial C66_tags_lost C66_redeclared",
 "tags of included files are lost and redeclared names replaced (witnesses); otherwise equal to pasting")
claim("C71","partial","C71_lines_partial C71_at_most C71_ended C71_automated",
 "proved between items, and with automated transactions if the text ends with a line break; an automated transaction at the end of a text without one makes the counter fall behind (witness)")
claim("C79","proved","C79_journal")
claim("C80","proved","C80_header")
claim("C81","proved","C81_price")
claim("C82","partial","C82_reported_partial C82_first_line",
 "false on the first line, where reporting the error overflows (proved)")
claim("C69","partial","C69_merge_partial C69_overridden C69_once C69_default C69_accepted C69_rejected C69_lines C69_file C69_file_default C69_no_file C69_unreadable C69_init_file_last C69_short_forms C69_not_literal C69_dashed_value",
 "proved for options given in their long form or as `-f`; short forms other than `-f` and `--opt=x` do not count as given, a value starting with a dash counts as an option (witnesses)")
claim("C83","partial","C83_wellformed C83_no_panic",
 "the absence of panics is proved without automated transactions and without a total cost for a zero quantity (that panics, C25)")
claim("C84","partial","C84_check_partial C84_full_partial C84_one_commodity",
 "proved without automated transactions; bracketed sales are weighed with the wrong sign (C11) and are excluded; C117 covers them, C104 and C109 automated transactions")
claim("C85","proved","C85_register C85_full","")
claim("C86","proved","C86_balance C86_total","")
claim("C87","proved","C87_total","")
claim("C88","proved","C88_lists","")
claim("C89","proved","C89_prices","")
claim("C90","proved","C90_check C90_total C90_register C90_balance","")
claim("C91","partial","C91_read_partial C91_false C91_command_line C91_order",
 "false for years from 10000 on, which are printed with a sign that is not read (C91_false)")
claim("C92","partial","C92_payee_partial C92_false C92_register C92_width C92_account",
 "the table is proved; the marking of cut payees is false: names of 38 characters, and shorter ones that are not ASCII, are marked although complete (C92_false)")
claim("C93","proved","C93_balance C93_command","")
claim("C94","partial","C94_agree C94_check C94_false",
 "proved with balance checks on; with --no-balance-check a journal that check accepts can be rejected (C94_false)")
claim("C95","proved","C95_register C95_balance","")
claim("C96","proved","C96_register C96_balance","")
claim("C97","proved","C97_accepted","the statement is about accepted journals; why a rule may fail to apply is not characterised")
claim("C98","proved","C98_register C98_balance","")
claim("C99","proved","C99_total","")
claim("C100","partial","C100_tree_partial C100_depth","the tree under the conditions of C57, without which it is false; --depth for the flat report is complete")
claim("C101","proved","C101_flat C101_unknown","for the flat report; the table of rates is the one of C35-C41")
claim("C102","partial","C102_no_panic_partial C102_false","conditions and amounts that are expressions are covered by C108; without the conditions on amounts it is false")
claim("C103","proved","C103_register","")
claim("C104","partial","C104_check_partial","bracketed sales are excluded, as in C84 (C117_accounts covers them); amounts of rules as in C102")
claim("C105","proved","C105_balance","")
claim("C106","proved","C106_list C106_prices C106_accounts C106_commodities C106_payees C106_prices_command","the lists of names for journals without automated transactions")
claim("C107","proved","C107_sound C107_false","C107_false: without the restrictions evaluation panics")
claim("C108","proved","C108_no_panic C108_false","C108_false: without the restrictions the program panics")
claim("C109","partial","C109_check_partial","bracketed sales are excluded, as in C84; C117_rules covers them")
claim("C110","proved","C110_register C110_balance C110_words C110_false","C110_false: without the restrictions the reports panic")
claim("C111","proved","C111_meaning C111_false","C111_false: without the restriction equality asks for the commodity too")
claim("C112","partial","C112_register C112_balance C112_depth C112_tree_partial C112_words","the tree under the conditions of C57; the other reports are complete")
claim("C113","partial","C113_levels C113_unique C113_false","products in the middle of sums are excluded: C113_false proves that they panic")
claim("C114","proved","C114_reads C114_clear C114_register C114_rule","")
claim("C115","proved","C115_status C115_agree C115_failure C115_arguments C115_first_line","C115_first_line: the panic of C82 seen from outside")
claim("C116","partial","C116_register C116_patterns C116_check_partial C116_false","check without sales in brackets (C117_rules covers them); C116_false proves that conditions on the tags of other postings depend on the order of the postings")
claim("C117","proved","C117_accept C117_check C117_full C117_accounts C117_rules C117_no_sales","completes C84, C104, C109 and C116 for sales in brackets")
claim("C118","proved","C118_fault C118_names C118_rules C118_rows","the condition on rules is that of C109")
claim("C119","proved","C119_unknown C119_indented C119_mark","on the first line the message cannot be written (C82)")
claim("C120","proved","C120_free_total C120_crash C120_outcome C120_status","")
claim("C121","proved","C121_balance C121_balance_asked C121_total C121_register C121_register_asked","Questions are patterns of accounts about any journal, or clear questions of any kind about sound journals; without --exchange.")
claim("C122","proved","C122_question C122_register C122_nothing","")
claim('C123','proved','C123_lists C123_accounts C123_commodities C123_payees','')
claim('C124','proved','C124_prices C124_twice','')
claim('C125','partial','C125_reads C125_order C125_twice C125_config_partial C125_fresh C125_config_short C125_config_unknown','overriding by short forms and by equals signs does not work in the code: C125_config_short proves that such command lines are refused; hypothesis: clap reads arguments as declared (World.Understands)')
claim('C126','partial','C126_ledger_partial C126_exact_partial C126_balance_partial C126_register_partial C126_text_partial C126_case C126_rule C126_earlier','partial because the property fails for names that differ in case (C126_case) and for automated transactions (C126_rule); C126_earlier shows that the dates matter')
claim('C127','partial','C127_shown_partial C127_status C127_register C127_balance C127_check C127_sign C127_quiet C127_forced C127_noColor C127_when C127_lists C127_check_ignores C127_red_balance C127_red_running C127_red_amount_partial C127_zero C127_escapes','partial because the property fails for names with escape sequences (C127_escapes), for zeros from asserted totals (C127_zero) and for --force-color with check (C127_check_ignores)')
claim('C128','partial','C128_explained C128_message_partial C128_main_loop C128_silent C128_brackets C128_cycle','partial because a line like `incomplete` is rejected without a message (C128_silent), missing brackets and include loops are reported elsewhere (C128_brackets, C128_cycle), and lines are miscounted after an automated transaction at the end of a text without a line break (C71)')
claim('C129','partial','C129_understood C129_told C129_silent_partial C129_fault C129_agree C129_false','partial because a line like `incomplete` makes the program end with status 1 and without a word (C129_false); C129_silent_partial shows that this is the only case')
claim('C130','proved','C130_accepted C130_header C130_price C130_commodity C130_kept C130_false C130_false_directive C130_false_header C130_false_last','the converse, that everything of this form is accepted, is proved for the first lines here and for well-written journals in C79; the texts that are accepted although they do not mean what they say are part of the specification and shown in C130_false')
claim('C131','proved','C131_notes C131_success C131_once C131_ignored C131_stopped C131_false','the texts of the notes ({:?} of an element or of a glob error) are a parameter; for rejected journals it is only proved that nothing is noted after the file that is rejected')
claim('C132','proved','C132_exact C132_unique C132_fuel C132_journal C132_rejects','for files; the same text on standard input is covered by C64 only')
claim('C133','partial','C133_append_partial C133_journal_partial C133_more_partial C133_false','proved for journals that end with a line break without a blank before it and leave no parenthesis open; without that it is false (C133_false)')
claim('C134','proved','C134_outer C134_exchange C134_total C134_command','at depth 0 there are no lines and no total, which is the only exception of C134_outer and C134_exchange')
claim('C135','partial','C135_lines_partial C135_false','proved unless names start with a colon (C135_false); no condition on the tree, unlike C57, which also says where the labels end')
claim('C136','proved','C136_exact C136_loops C136_ends C136_three','C136_loops needs nothing about the files; the others need finitely many paths (C65_spelling_diverges shows that this is necessary)')
claim('C137','proved','C137_balance C137_total C137_register C137_join C137_entries C137_not','without exchange to another currency; questions of one term on each side (C48 shows that a third one is ignored)')
claim('C138','partial','C138_balance C138_register C138_one C138_one_register C138_runs C138_patterns C138_false','false for the order of the amounts (C138_false): the lines of the total can come in either order; with contradicting prices see C40; between runs on one journal: for account patterns and periods, without exchange')
claim('C139','partial','C139_flat C139_commands C139_tree_partial C139_outer C139_false','the tree is for names that do not start with a colon: otherwise it is false (C139_false); without `--exchange`')
claim('C140','proved','C140_outcome C140_balance C140_false','the number has to be positive: with -1 it is false, because a total cost takes the sign of the amount (C140_false)')
claim('C141','proved','C141_outcome C141_balance C141_renamed','the conditions are needed: one name for two accounts can break an asserted total (C141_false_asserted), and names that differ in case only are one account (C141_false_case)')
claim('C142','proved','C142_outcome C142_balance','with one name for two commodities it is false, because an exchange becomes a difference (C142_false)')
claim('C143','proved','C143_outcome C143_balance C143_report','with totals in force and dates that change the order it is false (C143_false)')
claim('C144','proved','C144_outcome C144_balance C144_text','with totals in force it is false (C144_false)')
claim('C145','proved','C145_accepted C145_report','with totals in force it is false (C145_false)')
claim('C146','proved','C146_outcome C146_report','with totals in force it is false (C146_false): totals are compared posting by posting')
claim('C147','proved','C147_outcome C147_balance C147_report','with totals in force it is false (C147_false), as for prices in brackets (C147_bracketed)')
claim('C148','proved','C148_accepted C148_balance C148_report','with two commodities, an exchange, it is false (C148_false)')
# MORE

json.dump(dict(claims=C), open(os.path.join(ROOT, "MANIFEST.json"), "w"), indent=1)
print(len(C), "claims")
if "--check" in sys.argv:
    src = "import Verif\n" + "".join("#print axioms %s\n" % t for c in C for t in c["theorems"])
    f = "/tmp/axcheck.lean"; open(f, "w").write(src)
    out = subprocess.run(["lake", "env", "lean", f], cwd=os.path.join(ROOT, "lean"), capture_output=True, text=True)
    txt = out.stdout + out.stderr
    bad = [l for l in txt.splitlines() if "error" in l or "sorryAx" in l]
    axs = set(re.findall(r"propext|Classical\.choice|Quot\.sound|[A-Za-z_.]*sorry[A-Za-z]*|[\w.]*ofReduce\w*|trustCompiler", txt))
    print("axioms used:", sorted(axs)); print("bad:", bad)
