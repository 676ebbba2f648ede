{
 "claims": [
  {
   "property": "C01",
   "status": "proved",
   "theorems": [
    "Yash.HashTable.C01_hashtable_is_finite_map",
    "Yash.HashTable.C01_lookup_after_history",
    "Yash.HashTable.C01_ensureCapacity_provides",
    "Yash.HashTable.C01_clear_frees_each_pair_once"
   ],
   "note": "any history, any capacity, any hash compatible with key equality"
  },
  {
   "property": "C02",
   "status": "proved",
   "theorems": [
    "Yash.HashTable.C02_enumeration"
   ],
   "note": ""
  },
  {
   "property": "C03",
   "status": "proved",
   "theorems": [
    "Yash.Buf.C03_buffer_is_list",
    "Yash.Buf.C03_clear_frees_elements",
    "Yash.Buf.C03_count"
   ],
   "note": "Growable lists and string buffers refine lists for every operation history; allocation failure not modelled."
  },
  {
   "property": "C04",
   "status": "proved",
   "theorems": [
    "Yash.Xgetopt.C04_option_parsing",
    "Yash.Xgetopt.C04_permutation",
    "Yash.Xgetopt.C04_deterministic",
    "Yash.Xgetopt.C04_negative_stale_optarg",
    "Yash.Xgetopt.C04_negative_exact_ambiguous"
   ],
   "note": "Refinement of a recursive reading of the argument list, permutation and order corollaries; the stale xoptarg and the exact-but-ambiguous long name are recorded as negative theorems."
  },
  {
   "property": "C05",
   "status": "proved",
   "theorems": [
    "Yash.Xgetopt.C05_separator",
    "Yash.Xgetopt.C05_separator_removed",
    "Yash.Xgetopt.C05_posix_order",
    "Yash.Xgetopt.C05_posix_operand"
   ],
   "note": "Separator in every mode, operands in POSIX mode."
  },
  {
   "property": "C06",
   "status": "proved",
   "theorems": [
    "Yash.Trie.C06_lookup"
   ],
   "note": "Any history of insertions (including the NUL key) and removals; memory accesses in bounds."
  },
  {
   "property": "C07",
   "status": "proved",
   "theorems": [
    "Yash.Trie.C07_enumeration",
    "Yash.Trie.C07_once",
    "Yash.Trie.C07_collect"
   ],
   "note": ""
  },
  {
   "property": "C08",
   "status": "proved",
   "theorems": [
    "Yash.Arith.C08_arithmetic",
    "Yash.Arith.C08_bits",
    "Yash.Arith.C08_comparison",
    "Yash.Arith.C08_unary",
    "Yash.Arith.C08_defined",
    "Yash.Arith.C08_conversion_undefined"
   ],
   "note": "integer operators, comparisons and unary operators equal the mathematical result or report an error; the evaluator executes no undefined operation unless an out-of-range floating point number is converted to an integer, which C08_conversion_undefined shows to be possible (finding)"
  },
  {
   "property": "C09",
   "status": "proved",
   "theorems": [
    "Yash.Arith.C09_expansion",
    "Yash.Arith.C09_index",
    "Yash.Arith.fuel_enough"
   ],
   "note": "the one-pass evaluator equals the semantics of the tree the C grammar assigns to the tokens, and rejects all other strings; the fuel of the model is irrelevant (fuel_enough)"
  },
  {
   "property": "C10",
   "status": "proved",
   "theorems": [
    "Yash.Arith.C10_or",
    "Yash.Arith.C10_and",
    "Yash.Arith.C10_conditional",
    "Yash.Arith.C10_pure"
   ],
   "note": "result and state with a skipped operand equal those without it; expressions without assignment operators never assign"
  },
  {
   "property": "C11",
   "status": "proved",
   "theorems": [
    "Yash.Expand.C11_unquote_quote",
    "Yash.Expand.C11_quote_injective",
    "Yash.Expand.C11_unquote_segments"
   ],
   "note": ""
  },
  {
   "property": "C12",
   "status": "proved",
   "theorems": [
    "Yash.Expand.C12_one_token",
    "Yash.Expand.C12_one_field",
    "Yash.Expand.C12_read_and_expand",
    "Yash.Expand.C12_expand_line"
   ],
   "note": "reading back with a model of the tokenizer (aliases off) and then all word expansions; the word may still be recognised as a reserved word or IO number by the grammar when it consists of safe characters only"
  },
  {
   "property": "C13",
   "status": "proved",
   "theorems": [
    "Yash.Expand.C13_unescape_escape",
    "Yash.Expand.C13_unescape_escapefree",
    "Yash.Expand.C13_escape_covers",
    "Yash.Expand.C13_unescape_trailing"
   ],
   "note": ""
  },
  {
   "property": "C14",
   "status": "proved",
   "theorems": [
    "Yash.Expand.C14_fieldsplit_spec",
    "Yash.Expand.C14_fieldsplit_list"
   ],
   "note": "Model of extract_fields and fieldsplit equals a declarative POSIX specification."
  },
  {
   "property": "C15",
   "status": "proved",
   "theorems": [
    "Yash.Expand.C15_fieldsplit_pieces",
    "Yash.Expand.C15_unsplittable_word_is_one_field",
    "Yash.Expand.C15_tail_is_whitespace"
   ],
   "note": ""
  },
  {
   "property": "C16",
   "status": "proved",
   "theorems": [
    "Yash.Expand.C16_brace_product",
    "Yash.Expand.C16_every_word_has_tree",
    "Yash.Expand.C16_brace_expansion",
    "Yash.Expand.C16_quoted_braces_unchanged"
   ],
   "note": "Stated over trees; every word has a tree. Locale and long range are parameters."
  },
  {
   "property": "C17",
   "status": "proved",
   "theorems": [
    "Yash.Expand.C17_sequence_is_progression",
    "Yash.Expand.C17_sequence_values"
   ],
   "note": "The first value is always produced, also when it is beyond the end."
  },
  {
   "property": "C18",
   "status": "proved",
   "theorems": [
    "Yash.Fnmatch.C18_literal",
    "Yash.Fnmatch.C18_semantics"
   ],
   "note": "Literal path equals regex path and the POSIX meaning, all flag combinations."
  },
  {
   "property": "C19",
   "status": "partial",
   "theorems": [
    "Yash.Fnmatch.C19_total",
    "Yash.Fnmatch.C19_search_partial",
    "Yash.Fnmatch.C19_match_partial",
    "Yash.Fnmatch.C19_case_partial",
    "Yash.Fnmatch.C19_period_partial",
    "Yash.Fnmatch.C19_quoted_period",
    "Yash.Fnmatch.C19_quoted_class"
   ],
   "note": "All patterns except bracket expressions where a quoted . : or = follows an unquoted [ (or closes a symbol), for which the property is false: C19_quoted_period, C19_quoted_class. regcomp/regexec are modelled as POSIX defines them."
  },
  {
   "property": "C20",
   "status": "partial",
   "theorems": [
    "Yash.Fnmatch.C20_trim",
    "Yash.Fnmatch.C20_subst",
    "Yash.Fnmatch.C20_substAll",
    "Yash.Fnmatch.C20_whole_partial",
    "Yash.Fnmatch.C20_whole_empty"
   ],
   "note": "Everything except that ${x:/p/r} with an empty value and a pattern beginning with * leaves the value empty (C20_whole_empty), and patterns excluded in C19."
  },
  {
   "property": "C21",
   "status": "proved",
   "theorems": [
    "Yash.TestBuiltin.C21_test",
    "Yash.TestBuiltin.C21_bracket",
    "Yash.TestBuiltin.C21_unique"
   ],
   "note": ""
  },
  {
   "property": "C22",
   "status": "proved",
   "theorems": [
    "Yash.TestBuiltin.C22_precedence",
    "Yash.TestBuiltin.C22_error"
   ],
   "note": ""
  },
  {
   "property": "C23",
   "status": "partial",
   "theorems": [
    "Yash.TestBuiltin.C23_components_partial",
    "Yash.TestBuiltin.C23_components_exist",
    "Yash.TestBuiltin.C23_preorder_partial",
    "Yash.TestBuiltin.C23_trichotomy",
    "Yash.TestBuiltin.C23_cycle"
   ],
   "note": "Transitivity is proved for collations decided by the first character when it differs (e.g. the POSIX locale); in locales whose wcscoll ignores punctuation at first it is false: C23_cycle. Trichotomy and symmetry hold in every locale."
  },
  {
   "property": "C24",
   "status": "partial",
   "theorems": [
    "Yash.Alias.C24_never_again_partial",
    "Yash.Alias.C24_bounded_partial",
    "Yash.Alias.C24_rewound",
    "Yash.Alias.C24_abort"
   ],
   "note": "Proved for histories that go forward in the buffer (all the parser does except when it re-reads failed arithmetic expansion text): bound on the number of substitutions and no re-expansion. C24_rewound shows that the claim fails when text is read again."
  },
  {
   "property": "C25",
   "status": "partial",
   "theorems": [
    "Yash.Variable.C25_sane",
    "Yash.Variable.C25_kept_partial",
    "Yash.Variable.C25_refused",
    "Yash.Variable.C25_assign_refused",
    "Yash.Variable.C25_shift_violates",
    "Yash.Variable.C25_getter_violates"
   ],
   "note": "Read-only variables keep their value and attempts are refused, for all histories; excluded are shift -A and the computed variables LINENO and RANDOM, where the code violates the property (negative theorems). Read-only functions: C79."
  },
  {
   "property": "C26",
   "status": "partial",
   "theorems": [
    "Yash.Variable.C26_initial",
    "Yash.Variable.C26_agrees_partial",
    "Yash.Variable.C26_edit_violates",
    "Yash.Variable.C26_random_violates"
   ],
   "note": "Holds for all histories without in-place edits of exported arrays (array -d/-i/-s, shift -A), which the code gets wrong (negative theorem), and apart from the initialization of RANDOM."
  },
  {
   "property": "C27",
   "status": "proved",
   "theorems": [
    "Yash.Variable.C27_no_abort",
    "Yash.Variable.C27_frame",
    "Yash.Variable.C27_restored",
    "Yash.Variable.C27_enter",
    "Yash.Variable.C27_leave",
    "Yash.Variable.C27_assigned",
    "Yash.Variable.C27_typeset",
    "Yash.Variable.C27_unset"
   ],
   "note": ""
  },
  {
   "property": "C28",
   "status": "proved",
   "theorems": [
    "Yash.Variable.C28_delete",
    "Yash.Variable.C28_survivors",
    "Yash.Variable.C28_insert",
    "Yash.Variable.C28_not_a_number",
    "Yash.Variable.C28_set",
    "Yash.Variable.C28_set_error",
    "Yash.Variable.C28_shift",
    "Yash.Variable.C28_shift_error"
   ],
   "note": ""
  },
  {
   "property": "C29",
   "status": "partial",
   "theorems": [
    "Yash.Getopts.C29_total",
    "Yash.Getopts.C29_unique",
    "Yash.Getopts.C29_option_string",
    "Yash.Getopts.C29_visits",
    "Yash.Getopts.C29_optind_partial",
    "Yash.Getopts.C29_missing_violates"
   ],
   "note": "Every argument list has exactly one list of option reports (C29_total, C29_unique); repeated calls show exactly these and then report the end, and OPTIND then designates the first operand. Not covered because the code violates it: after a missing option-argument OPTIND is the number of arguments plus two (C29_missing_violates)."
  },
  {
   "property": "C30",
   "status": "proved",
   "theorems": [
    "Yash.Path.C30_index",
    "Yash.Path.C30_pushd",
    "Yash.Path.C30_pushd_refused",
    "Yash.Path.C30_popd",
    "Yash.Path.C30_popd_refused",
    "Yash.Path.C30_dirs",
    "Yash.Path.C30_dirs_operands",
    "Yash.Path.C30_dirs_numbers",
    "Yash.Path.C30_clear",
    "Yash.Path.C30_roundtrip",
    "Yash.Path.C30_hook_violates"
   ],
   "note": "pushd, popd and dirs; a YASH_AFTER_CD script is any transformation that leaves DIRSTACK alone (C30_hook_violates shows why); options are parsed elsewhere"
  },
  {
   "property": "C31",
   "status": "proved",
   "theorems": [
    "Yash.Path.C31_canonical",
    "Yash.Path.C31_unique",
    "Yash.Path.C31_fails",
    "Yash.Path.C31_length",
    "Yash.Path.C31_idempotent",
    "Yash.Path.C31_same_directory",
    "Yash.Path.C31_root_parents",
    "Yash.Path.C31_root_parents_same",
    "Yash.Path.C31_normalized"
   ],
   "note": "canonicalize_path, canonicalize_path_ex and is_normalized_path over all strings and all directory structures; no write beyond the buffer"
  },
  {
   "property": "C32",
   "status": "partial",
   "theorems": [
    "Yash.Path.C32_symbolic",
    "Yash.Path.C32_octal",
    "Yash.Path.C32_malformed_partial",
    "Yash.Path.C32_wide_operator_violates",
    "Yash.Path.C32_print_symbolic",
    "Yash.Path.C32_print_octal"
   ],
   "note": "all masks and all operands; missing: operands with a wide character that equals an operator modulo 256, which the code accepts (C32_wide_operator_violates)"
  },
  {
   "property": "C33",
   "status": "proved",
   "theorems": [
    "Yash.Path.C33_search",
    "Yash.Path.C33_remembered",
    "Yash.Path.C33_lookup",
    "Yash.Path.C33_place"
   ],
   "note": "Search along PATH, and over all histories of variable operations, searches and hash -r: the result of a search is the first match in the current PATH directories or a location remembered since PATH last changed that is still executable."
  },
  {
   "property": "C34",
   "status": "partial",
   "theorems": [
    "Yash.Path.C34_access_partial",
    "Yash.Path.C34_missing",
    "Yash.Path.C34_system",
    "Yash.Path.C34_wrong",
    "Yash.Path.C34_supplementary_violates"
   ],
   "note": "The code compares the wrong group in the loop over supplementary groups: proved where this makes no difference, and that the answer is wrong in all other cases where group and other permissions differ."
  },
  {
   "property": "C35",
   "status": "proved",
   "theorems": [
    "Yash.Trie.C35_prediction"
   ],
   "note": "double is an abstract type with arbitrary operations."
  },
  {
   "property": "C36",
   "status": "proved",
   "theorems": [
    "Yash.Arith.C36_read",
    "Yash.Arith.C36_write",
    "Yash.Arith.C36_roundtrip"
   ],
   "note": "reading is characterised by an independent grammar of constants with place values; writing gives the canonical decimal constant; round trip"
  },
  {
   "property": "C37",
   "status": "proved",
   "theorems": [
    "Yash.Arith.C37_longest",
    "Yash.Arith.C37_invalid",
    "Yash.Arith.C37_end",
    "Yash.Arith.C37_tokens"
   ],
   "note": "longest match against an explicit table of spellings"
  },
  {
   "property": "C38",
   "status": "proved",
   "theorems": [
    "Yash.Fnmatch.C38_plain",
    "Yash.Fnmatch.C38_pathname"
   ],
   "note": ""
  },
  {
   "property": "C39",
   "status": "proved",
   "theorems": [
    "Yash.Alias.C39_replaced",
    "Yash.Alias.C39_kept",
    "Yash.Alias.C39_applies"
   ],
   "note": "C39_applies is for histories without line continuations (C24_abort shows why)"
  },
  {
   "property": "C40",
   "status": "partial",
   "theorems": [
    "Yash.Variable.C40_paths_partial",
    "Yash.Variable.C40_nodup",
    "Yash.Variable.C40_edit_violates"
   ],
   "note": "Holds for all histories without changes of single elements of a path array, which the code gets wrong (negative theorem)."
  },
  {
   "property": "C41",
   "status": "proved",
   "theorems": [
    "Yash.Path.C41_order",
    "Yash.Path.C41_slash"
   ],
   "note": "The two calls of search_command for a simple command."
  },
  {
   "property": "C42",
   "status": "proved",
   "theorems": [
    "Yash.Path.C42_named",
    "Yash.Path.C42_failed",
    "Yash.Path.C42_variables",
    "Yash.Path.C42_place",
    "Yash.Path.C42_no_links",
    "Yash.Path.C42_no_abort",
    "Yash.Path.C42_pwd",
    "Yash.Path.C42_operands",
    "Yash.Path.C42_initial",
    "Yash.Path.C42_always"
   ],
   "note": "cd, pwd and init_pwd over an arbitrary file system with links. Hypotheses: PWD is not read-only, getcwd succeeds after cd -P (the code ignores a failure there and leaves PWD stale), system calls answer truthfully. C42_no_abort characterises the one case where an assertion in change_directory fails. The YASH_AFTER_CD hook is outside the model."
  },
  {
   "property": "C43",
   "status": "proved",
   "theorems": [
    "Yash.Expand.C43_quoted_word",
    "Yash.Expand.C43_literal_word",
    "Yash.Expand.C43_quoted_scalar",
    "Yash.Expand.C43_quoted_at",
    "Yash.Expand.C43_quoted_star",
    "Yash.Expand.C43_unset_error",
    "Yash.Expand.C43_unquoted_variable",
    "Yash.Expand.C43_read"
   ],
   "note": "words of plain characters, quoted segments and double-quoted simple parameters; single unquoted parameters"
  },
  {
   "property": "C44",
   "status": "proved",
   "theorems": [
    "Yash.Expand.C44_index",
    "Yash.Expand.C44_slice",
    "Yash.Expand.C44_default",
    "Yash.Expand.C44_alternative",
    "Yash.Expand.C44_error",
    "Yash.Expand.C44_assign",
    "Yash.Expand.C44_length"
   ],
   "note": "Words w are plain text (no quoting, no leading tilde). Element assignment ${x[i]=w} and the pattern operators are covered by C10 for the matching and not restated here."
  },
  {
   "property": "C45",
   "status": "partial",
   "theorems": [
    "Yash.Redir.C45_effect_partial",
    "Yash.Redir.C45_undone_partial",
    "Yash.Redir.C45_restored_partial",
    "Yash.Redir.C45_persistent_partial",
    "Yash.Redir.C45_inherited",
    "Yash.Redir.C45_private_target",
    "Yash.Redir.C45_private_source",
    "Yash.Redir.C45_closed_source",
    "Yash.Redir.C45_subshell",
    "Yash.Redir.C45_moved",
    "Yash.Redir.C45_unsaved_not_undone",
    "Yash.Redir.C45_beyond_limit_leaks",
    "Yash.Redir.C45_pipe_clobbers_copy",
    "Yash.Redir.C45_self_copy_of_closed"
   ],
   "note": "Missing: false without enough spare descriptors, for descriptors beyond the limit and for n>>|m with n among the shell's descriptors (negative theorems)."
  },
  {
   "property": "C46",
   "status": "proved",
   "theorems": [
    "Yash.Redir.File.C46_noclobber_harmless",
    "Yash.Redir.File.C46_noclobber_new",
    "Yash.Redir.File.C46_others_harmless",
    "Yash.Redir.File.C46_clobber",
    "Yash.Redir.File.C46_append",
    "Yash.Redir.File.C46_here",
    "Yash.Redir.File.C46_stat_failure_accepts"
   ],
   "note": "fstat is assumed to succeed on the descriptor just opened (C46_noclobber_new)."
  },
  {
   "property": "C47",
   "status": "partial",
   "theorems": [
    "Yash.Exec.C47_script_partial",
    "Yash.Exec.C47_documented_partial",
    "Yash.Exec.C47_commands_partial",
    "Yash.Exec.C47_exit_partial",
    "Yash.Exec.C47_deterministic",
    "Yash.Exec.C47_if_return"
   ],
   "note": "Model and structured semantics agree exactly (soundness and completeness), and the semantics is deterministic. Missing: the documented status of return in the condition of if, which the code loses (C47_if_return); without such a return the documented semantics holds. Traps, stopped jobs and interactive input are not modelled."
  },
  {
   "property": "C48",
   "status": "proved",
   "theorems": [
    "Yash.Exec.C48_lists",
    "Yash.Exec.C48_script",
    "Yash.Exec.C48_ends"
   ],
   "note": "For lists and scripts: ends with (x, w) in the process itself iff it does when the process survives the last command."
  },
  {
   "property": "C49",
   "status": "proved",
   "theorems": [
    "Yash.Exec.C49_function",
    "Yash.Exec.C49_subshell",
    "Yash.Exec.C49_pipeline",
    "Yash.Exec.C49_list"
   ],
   "note": ""
  },
  {
   "property": "C50",
   "status": "proved",
   "theorems": [
    "Yash.Exec.C50_ignored",
    "Yash.Exec.C50_negated",
    "Yash.Exec.C50_condition",
    "Yash.Exec.C50_exits"
   ],
   "note": "errexit can be changed to an arbitrary function of the state in an examined position."
  },
  {
   "property": "C51",
   "status": "partial",
   "theorems": [
    "Yash.Sig.C51_program_signals",
    "Yash.Sig.C51_documented_partial",
    "Yash.Sig.C51_ignored_on_entry",
    "Yash.Sig.C51_lost_ignore",
    "Yash.Sig.C51_documented_quiet_partial"
   ],
   "note": "partial because a nested subshell can lose the ignoring of a signal (C51_lost_ignore); C51_program_signals describes what happens for all histories"
  },
  {
   "property": "C52",
   "status": "proved",
   "theorems": [
    "Yash.Sig.C52_shell_signals"
   ],
   "note": ""
  },
  {
   "property": "C53",
   "status": "partial",
   "theorems": [
    "Yash.Sig.C53_no_signal_lost_partial",
    "Yash.Sig.C53_no_spurious",
    "Yash.Sig.C53_current_command",
    "Yash.Sig.C53_child_of_action"
   ],
   "note": "C53_no_signal_lost_partial excludes subshells started from the action of a trap, where the code does lose signals (C53_child_of_action)"
  },
  {
   "property": "C54",
   "status": "partial",
   "theorems": [
    "Yash.Sig.Names.C54_names_partial",
    "Yash.Sig.Names.C54_rtmax_zero",
    "Yash.Sig.Names.C54_roundtrip",
    "Yash.Sig.Names.C54_kill_l",
    "Yash.Sig.Names.C54_kill_l_name",
    "Yash.Sig.Names.C54_trap_restores"
   ],
   "note": "Every string is handled as claimed except RTMAX-0 (and SIGRTMAX-0), on which an assertion fails (C54_rtmax_zero)."
  },
  {
   "property": "C55",
   "status": "partial",
   "theorems": [
    "Yash.Parser.printed_command_reads_back_partial",
    "Yash.Parser.printed_pipelines_read_back_partial",
    "Yash.Parser.printed_commands_differ_partial",
    "Yash.Parser.Quirks.escaped_space",
    "Yash.Parser.Quirks.escaped_space_in_array",
    "Yash.Parser.Quirks.backquotes",
    "Yash.Parser.Quirks.backquotes_error",
    "Yash.Parser.Quirks.large_fd",
    "Yash.Parser.Quirks.keyword_function",
    "Yash.Parser.Quirks.nested_function",
    "Yash.Parser.Quirks.dollar_function",
    "Yash.Parser.Quirks.empty_pattern",
    "Yash.Parser.Quirks.bracket_groups",
    "Yash.Parser.Quirks.keyword_word",
    "Yash.Parser.Quirks.backslash_at_end"
   ],
   "note": "Proved for commands without the features in Parser.Spec (CommandOk, PipelinesOk), which are not printed faithfully (each shown in Parser.Quirks), for input that does not end with a backslash. Missing: here-documents, which are not in the parser model."
  },
  {
   "property": "C56",
   "status": "proved",
   "theorems": [
    "Yash.Parser.parse_ends",
    "Yash.Parser.parse_reads_forward"
   ],
   "note": "The bound on the recursion of the parser model is never reached."
  },
  {
   "property": "C57",
   "status": "partial",
   "theorems": [
    "Yash.Restore.C57_typeset_partial",
    "Yash.Restore.C57_typeset_operands_partial",
    "Yash.Restore.C57_local_partial",
    "Yash.Restore.C57_typeset_global_partial",
    "Yash.Restore.C57_export_partial",
    "Yash.Restore.C57_readonly_partial",
    "Yash.Restore.C57_set_partial",
    "Yash.Restore.C57_array_partial",
    "Yash.Restore.C57_hyphen_lost",
    "Yash.Restore.C57_array_name_lost",
    "Yash.Restore.C57_array_in_function",
    "Yash.Restore.C57_posix_lost"
   ],
   "note": "The listings restore the variables in every shell at top level where they can be replaced; excluded, and shown to fail in Restore.Quirks: names that begin with a hyphen, arrays whose name is not a proper name, execution in a function, typeset in the POSIXly-correct mode."
  },
  {
   "property": "C58",
   "status": "partial",
   "theorems": [
    "Yash.Parser.well_formed_command_accepted_partial",
    "Yash.Parser.well_formed_pipelines_accepted_partial",
    "Yash.Parser.well_formed_commands_differ_partial"
   ],
   "note": "Missing from the grammar: here-documents, backquotes, and the features the printer does not handle (C55)."
  },
  {
   "property": "C59",
   "status": "proved",
   "theorems": [
    "Yash.Job.current_job_settled",
    "Yash.Job.current_job_valid",
    "Yash.Job.no_current_job",
    "Yash.Job.job_keeps_number",
    "Yash.Job.async_job_number",
    "Yash.Job.foreground_job_number",
    "Yash.Job.async_job_current",
    "Yash.Job.job_specification",
    "Yash.Job.job_specification_error"
   ],
   "note": "Job specifications with process IDs are only modelled for wait"
  },
  {
   "property": "C60",
   "status": "proved",
   "theorems": [
    "Yash.Job.process_status_tracked",
    "Yash.Job.job_status_tracked",
    "Yash.Job.foreground_exit_status",
    "Yash.Job.foreground_ends",
    "Yash.Job.wait_exit_status",
    "Yash.Job.prompt_reports_changes"
   ],
   "note": "For pipelines with at least one process that could be created; wait without operands is only in C59. The exceptions are in Job.Quirks"
  },
  {
   "property": "C61",
   "status": "proved",
   "theorems": [
    "Yash.Shopt.set_option_given",
    "Yash.Shopt.set_option_refused",
    "Yash.Shopt.start_option_given",
    "Yash.Shopt.set_unknown_option",
    "Yash.Shopt.set_letters",
    "Yash.Shopt.option_tested",
    "Yash.Shopt.hyphen_letter",
    "Yash.Shopt.options_consistent",
    "Yash.Shopt.set_keeps_fixed",
    "Yash.Shopt.set_params",
    "Yash.Shopt.set_double_hyphen",
    "Yash.Shopt.set_operands",
    "Yash.Shopt.options_parsed",
    "Yash.Shopt.set_total",
    "Yash.Shopt.options_restored",
    "Yash.Shopt.options_not_restored"
   ],
   "note": "Parsing of options for set and for the start of the shell; the table of options is shared by model and specification. The help and version output, the listing of set -o and messages are not modelled; trap and terminal effects of the monitor option are not part of it. set +o restores the options if commands go on to be executed; otherwise see options_not_restored"
  },
  {
   "property": "C62",
   "status": "proved",
   "theorems": [
    "Yash.History.settings_sane",
    "Yash.History.histsize_kept",
    "Yash.History.histsize_wraps",
    "Yash.History.text_added",
    "Yash.History.limits_kept",
    "Yash.History.limits_at_start",
    "Yash.History.found_by_number",
    "Yash.History.not_found_by_number",
    "Yash.History.beyond_undefined"
   ],
   "note": "Model of history.c. The limits hold after any command for any contents of the file; adding, numbering, duplicates and finding by number as specified; a number beyond a history that has started again leaves the list (beyond_undefined), reported in DESIGN.md."
  },
  {
   "property": "C63",
   "status": "proved",
   "theorems": [
    "Yash.History.history_shared",
    "Yash.History.history_defined",
    "Yash.History.file_lines",
    "Yash.History.write_read",
    "Yash.History.long_value_not_written"
   ],
   "note": "Any number of shells and events, any initial file. Assumes laws of printing and reading numbers, a clock that does not go back, process_exists true of running shells, lines shorter than LINE_MAX - 34, and a revision below LONG_MAX. Killing a shell while it writes is left out."
  },
  {
   "property": "C64",
   "status": "partial",
   "theorems": [
    "Yash.History.fc_range_partial",
    "Yash.History.fc_touching_undefined",
    "Yash.History.fc_list_default",
    "Yash.History.fc_unknown",
    "Yash.History.fc_silent",
    "Yash.History.history_count",
    "Yash.History.fc_int_min"
   ],
   "note": "Proved for all histories and operands except places that touch, where the program leaves the list (fc_touching_undefined), numbers beyond a history that has started again, and the least number."
  },
  {
   "property": "C65",
   "status": "proved",
   "theorems": [
    "Yash.Input.C65_line_read",
    "Yash.Input.C65_last_line_read",
    "Yash.Input.C65_returns",
    "Yash.Input.C65_lines_read",
    "Yash.Read.C65_read_takes_its_line",
    "Yash.Input.C65_nul_never_passed",
    "Yash.Input.C65_nul_stays"
   ],
   "note": ""
  },
  {
   "property": "C66",
   "status": "proved",
   "theorems": [
    "Yash.Read.C66_read",
    "Yash.Read.C66_line_exists",
    "Yash.Read.C66_command",
    "Yash.Read.C66_bad_operands",
    "Yash.Read.C66_values_determined",
    "Yash.Read.logical_unique",
    "Yash.Read.remainder_unique"
   ],
   "note": ""
  },
  {
   "property": "C67",
   "status": "proved",
   "theorems": [
    "Yash.Printf.C67_echo",
    "Yash.Printf.C67_echo_args",
    "Yash.Printf.C67_echo_fails",
    "Yash.Printf.C67_echo_exact"
   ],
   "note": "stateless encodings; writing always succeeds"
  },
  {
   "property": "C68",
   "status": "partial",
   "theorems": [
    "Yash.Printf.C68_printf_partial",
    "Yash.Printf.C68_fails_partial",
    "Yash.Printf.C68_bad_format",
    "Yash.Printf.C68_determined",
    "Yash.Printf.C68_every_operand_once",
    "Yash.Printf.C68_literal",
    "Yash.Printf.C68_lines",
    "Yash.Printf.C68_empty_operand_lost",
    "Yash.Printf.C68_character_cut"
   ],
   "note": "missing: %c with an empty operand, where the code loses operands (C68_empty_operand_lost)"
  },
  {
   "property": "C69",
   "status": "proved",
   "theorems": [
    "Yash.Glob.C69_terminates",
    "Yash.Glob.C69_sound",
    "Yash.Glob.C69_nodup",
    "Yash.Glob.C69_sorted",
    "Yash.Glob.C69_unencodable",
    "Yash.Glob.C69_divides"
   ],
   "note": "For every unchanging file system that meets Sane (names listed once, listing complete for readable directories, a directory's stat equals its lstat); matching of single names as in C19. Names are listed or refer to a file (dangling links can be found by a search for directories)."
  },
  {
   "property": "C70",
   "status": "partial",
   "theorems": [
    "Yash.Glob.C70_complete_partial",
    "Yash.Glob.C70_exact_partial",
    "Yash.Glob.C70_depth_violated",
    "Yash.Glob.C70_loop_violated"
   ],
   "note": "Complete up to 254 directories entered, none of them twice; exact in readable trees without loops. The code misses deeper files (C70_depth_violated) and enters directories again if two searches are adjacent (C70_loop_violated)."
  },
  {
   "property": "C71",
   "status": "proved",
   "theorems": [
    "Yash.Pipe.C71_pipeline",
    "Yash.Pipe.C71_ends",
    "Yash.Pipe.C71_read",
    "Yash.Pipe.C71_write",
    "Yash.Pipe.C71_executed"
   ],
   "note": "For every descriptor table and every combination of failing pipe and fork calls."
  },
  {
   "property": "C72",
   "status": "proved",
   "theorems": [
    "Yash.HereDoc.C72_here_documents",
    "Yash.HereDoc.C72_quoted",
    "Yash.HereDoc.C72_unclosed",
    "Yash.HereDoc.C72_plain",
    "Yash.HereDoc.C72_plain_unclosed"
   ],
   "note": "For every number of operators, all delimiters and contents; unclosed: quoted delimiters and text without expansions."
  },
  {
   "property": "C73",
   "status": "proved",
   "theorems": [
    "Yash.Edit.undo_restores_line",
    "Yash.Edit.cancel_undo_restores_line",
    "Yash.Edit.undo_all_restores_original",
    "Yash.Edit.cancel_undo_all_restores_line",
    "Yash.Edit.change_forgets_undone"
   ],
   "note": "All commands that record the line (Records lists those that do not: typing and its like); cancelling, undoing everything, forgetting. replace_char_not_recorded shows why r is not among them."
  },
  {
   "property": "C74",
   "status": "partial",
   "theorems": [
    "Yash.Edit.line_editing_is_safe_partial",
    "Yash.Edit.put_zero_times_fails",
    "Yash.Edit.put_pop_after_refused_put_fails"
   ],
   "note": "For all sessions in which killed text is put back a positive number of times and not while an operator is pending (Careful); put_zero_times_fails and put_pop_after_refused_put_fails show that the property fails otherwise."
  },
  {
   "property": "C75",
   "status": "partial",
   "theorems": [
    "Yash.Edit.delete_removes_region_partial",
    "Yash.Edit.put_back_restores_partial",
    "Yash.Edit.case_changes_region_partial",
    "Yash.Edit.change_removes_region_partial",
    "Yash.Edit.change_word_removes_word",
    "Yash.Edit.delete_to_char_partial",
    "Yash.Edit.just_one_space_loses_text",
    "Yash.Edit.delete_back_till_deletes_char"
   ],
   "note": "Deleting, killing, changing, putting back and changing case with all motions of C76, deleting to a character. Missing: overwriting, backward motions where backward_word_misses; changing case while a prediction is shown; changing by words at the very end of the line; case operators and change with motions to a character. just_one_space_loses_text and delete_back_till_deletes_char are violations."
  },
  {
   "property": "C76",
   "status": "partial",
   "theorems": [
    "Yash.Edit.motion_goes_partial",
    "Yash.Edit.find_char_goes_partial",
    "Yash.Edit.backward_word_misses",
    "Yash.Edit.refind_back_ignores_minus"
   ],
   "note": "All motions with all counts, and the commands that find a character. Missing: the backward motions where a bigword, semiword or emacsword starts at the second character (backward_word_misses shows that they go elsewhere); the command mode of vi while a prediction is shown; finding a character zero times, and refind_back_ignores_minus."
  },
  {
   "property": "C77",
   "status": "proved",
   "theorems": [
    "Yash.Edit.typing_inserts",
    "Yash.Edit.typed_text_inserted",
    "Yash.Edit.accepted_line"
   ],
   "note": "Typing one character with any count, typing any text, and what accepting gives."
  },
  {
   "property": "C78",
   "status": "proved",
   "theorems": [
    "Yash.Edit.travel_returns",
    "Yash.Edit.history_goes",
    "Yash.Edit.beginning_search_finds",
    "Yash.Edit.edit_forgets_line"
   ],
   "note": "All commands that go to other lines, in any sequence; relative motions with all counts; searching for the beginning of a line without a count. edit_forgets_line shows why nothing may be edited between."
  },
  {
   "property": "C79",
   "status": "proved",
   "theorems": [
    "Yash.Function.call_finds_last",
    "Yash.Function.defining",
    "Yash.Function.body_stays",
    "Yash.Function.readonly_stays",
    "Yash.Function.making_readonly",
    "Yash.Function.unsetting",
    "Yash.Function.command_keeps_bodies"
   ],
   "note": "For every history of definitions and commands with arbitrary fields."
  },
  {
   "property": "C80",
   "status": "partial",
   "theorems": [
    "Yash.Function.listing_restores_partial",
    "Yash.Function.function_commands_end",
    "Yash.Function.Ex.keyword_lost",
    "Yash.Function.Ex.hyphen_lost"
   ],
   "note": "Any history in both shells; function_commands_end: printing never fails. Missing: bodies with the features excluded in C55 and here-documents, names that are keywords (keyword_lost) or, if read-only, begin with a hyphen (hyphen_lost), the POSIXly-correct mode, where typeset -f is not accepted."
  },
  {
   "property": "C81",
   "status": "partial",
   "theorems": [
    "Yash.Keys.typed_is_executed",
    "Yash.Keys.typing_shows_text",
    "Yash.Keys.nothing_lost_partial",
    "Yash.Keys.reading_never_fails",
    "Yash.Keys.Ex.text_like_key_lost",
    "Yash.Keys.Ex.key_after_interruption"
   ],
   "note": "every key and character leads to its command in order, also late keys, special and verbatim characters; typed text appears in the line; bytes are never lost except for texts that begin like a bound sequence (finding) and bytes that are no character; no assertion fails. nothing_lost_partial excludes verbatim characters"
  },
  {
   "property": "C82",
   "status": "partial",
   "theorems": [
    "Yash.Complete.one_candidate",
    "Yash.Complete.one_candidate_unfinished",
    "Yash.Complete.several_candidates",
    "Yash.Complete.no_candidates",
    "Yash.Complete.going_through",
    "Yash.Complete.selectByOffset_eq",
    "Yash.Complete.all_candidates",
    "Yash.Complete.max_prefix",
    "Yash.Complete.numbered_candidate",
    "Yash.Complete.typed_word",
    "Yash.Complete.context_found",
    "Yash.Complete.complete_in_line",
    "Yash.Complete.Ex.selection_after_backslash_fails",
    "Yash.Complete.Ex.empty_candidate_lost",
    "Yash.Complete.Ex.empty_candidate_after_backslash"
   ],
   "note": "Full statement: also for empty candidates and, when going through candidates, words that end with a backslash; the code violates these (findings selection_after_backslash_fails, empty_candidate_lost, empty_candidate_after_backslash). context_found shows the assumption on the context (OnWord) for simple commands of words without expansions."
  },
  {
   "property": "C83",
   "status": "proved",
   "theorems": [
    "Yash.Bindkey.bind_sets",
    "Yash.Bindkey.bind_removes",
    "Yash.Bindkey.bind_refuses",
    "Yash.Bindkey.changes_one",
    "Yash.Bindkey.never_undefined",
    "Yash.Bindkey.initial_bindings",
    "Yash.Bindkey.bound_named",
    "Yash.Bindkey.bindings_restored",
    "Yash.Bindkey.bindings_equal",
    "Yash.Bindkey.binding_printed",
    "Yash.Bindkey.names_listed",
    "Yash.Bindkey.posix_refuses",
    "Yash.Bindkey.too_many",
    "Yash.Bindkey.no_mode",
    "Yash.Bindkey.list_alone"
   ],
   "note": "Printed bindings are executed by the parser of C55 and the expansions of C43; --help, messages and write errors are left out."
  },
  {
   "property": "C84",
   "status": "partial",
   "theorems": [
    "Yash.Alias.alias_defines",
    "Yash.Alias.unalias_removes",
    "Yash.Alias.unalias_all",
    "Yash.Alias.unalias_refuses",
    "Yash.Alias.posix_refuses",
    "Yash.Alias.names_valid",
    "Yash.Alias.aliases_restored_partial",
    "Yash.Alias.alias_printed_partial",
    "Yash.Alias.definition_printed_partial",
    "Yash.Alias.definitions_printed_partial",
    "Yash.Alias.name_unquoted"
   ],
   "note": "Names with { * ? [ ~ are printed unquoted, so the listing does not restore them (Finding, name_unquoted); everything about defining and removing is proved for all names."
  },
  {
   "property": "C85",
   "status": "proved",
   "theorems": [
    "Yash.Mail.check_looks",
    "Yash.Mail.check_early",
    "Yash.Mail.check_off",
    "Yash.Mail.first_silent",
    "Yash.Mail.change_reported",
    "Yash.Mail.due_again",
    "Yash.Mail.changes_reported",
    "Yash.Mail.firsts_distinct",
    "Yash.Mail.every_value",
    "Yash.Mail.components_writes",
    "Yash.Mail.parse_elementText"
   ],
   "note": "The expansion of messages is not modelled; a trailing lone backslash in MAILPATH is outside Looks."
  },
  {
   "property": "C86",
   "status": "proved",
   "theorems": [
    "Yash.Ulimit.limit_set",
    "Yash.Ulimit.limit_changes",
    "Yash.Ulimit.limit_printed",
    "Yash.Ulimit.printed_restores",
    "Yash.Ulimit.usage_errors",
    "Yash.Ulimit.all_printed",
    "Yash.Ulimit.operand_iff"
   ],
   "note": "Argument lists made of clusters of short options and operands; limit_changes holds for every argument list. Long options are in the model only."
  },
  {
   "property": "C87",
   "status": "partial",
   "theorems": [
    "Yash.Kill.kill_sends_partial",
    "Yash.Kill.kill_wraps",
    "Yash.Kill.kill_refused",
    "Yash.Kill.kill_lists_all",
    "Yash.Kill.kill_lists",
    "Yash.Kill.printed_understood"
   ],
   "note": "Proved for operands in the range of process IDs; beyond it the property is false of the code: kill_wraps shows that the number is reduced modulo 2^32."
  },
  {
   "property": "C88",
   "status": "partial",
   "theorems": [
    "Yash.Command.identified",
    "Yash.Command.executed",
    "Yash.Command.agrees",
    "Yash.Command.absolute_partial",
    "Yash.Command.alias_restored_partial",
    "Yash.Command.refused",
    "Yash.Command.substitutive_relative",
    "Yash.Command.pwd_relative",
    "Yash.Command.option_letters"
   ],
   "note": "All but the claim that pathnames are always absolute: false for substitutive built-ins found in a relative directory of PATH and when PWD is a relative name of the current directory (negative theorems). Alias lines restore the alias if its name needs no quoting."
  },
  {
   "property": "C89",
   "status": "partial",
   "theorems": [
    "Yash.Leave.break_leaves",
    "Yash.Leave.break_executed",
    "Yash.Leave.break_refused_partial",
    "Yash.Leave.break_negative",
    "Yash.Leave.break_iteration",
    "Yash.Leave.return_returns",
    "Yash.Leave.return_invalid",
    "Yash.Leave.return_refused",
    "Yash.Leave.exit_status",
    "Yash.Leave.exit_refused",
    "Yash.Leave.exit_warned",
    "Yash.Leave.exit_trap",
    "Yash.Leave.option_letters"
   ],
   "note": "negative operands of break and continue are accepted (break_negative), so break_refused_partial does not cover them"
  },
  {
   "property": "C90",
   "status": "partial",
   "theorems": [
    "Yash.Expand.tilde_word",
    "Yash.Expand.tilde_not",
    "Yash.Expand.tilde_assignment_partial",
    "Yash.Expand.tilde_empty",
    "Yash.Expand.colons_all",
    "Yash.Expand.directory_unique"
   ],
   "note": "assignment values are without quotes and variables; an empty home directory gives no field (tilde_empty)"
  },
  {
   "property": "C91",
   "status": "proved",
   "theorems": [
    "Yash.Hash.hash_commands",
    "Yash.Hash.hash_forget",
    "Yash.Hash.hash_print",
    "Yash.Hash.hash_homes",
    "Yash.Hash.hash_forget_homes",
    "Yash.Hash.hash_print_homes",
    "Yash.Hash.hash_refused",
    "Yash.Hash.hash_letters",
    "Yash.Hash.tilde_history",
    "Yash.Hash.tilde_same",
    "Yash.Hash.hash_stale"
   ],
   "note": "All forms of the command and all histories; the entry of a user that no longer exists stays (hash_stale)."
  },
  {
   "property": "C92",
   "status": "partial",
   "theorems": [
    "Yash.Buf.C92_wcsncat",
    "Yash.Buf.C92_wccat",
    "Yash.Buf.C92_mbscat",
    "Yash.Buf.C92_round_trip",
    "Yash.Buf.C92_vprintf",
    "Yash.Buf.C92_vwprintf_partial",
    "Yash.Buf.C92_join"
   ],
   "note": "All buffers, strings and encodings; formatting wide text of 1048575 characters or more may fail on systems where vswprintf does not tell the length."
  },
  {
   "property": "C93",
   "status": "proved",
   "theorems": [
    "Yash.Startup.startup_total",
    "Yash.Startup.startup_decided",
    "Yash.Startup.startup_exits",
    "Yash.Startup.startup_files",
    "Yash.Startup.startup_rights",
    "Yash.Startup.startup_plain",
    "Yash.Startup.startup_name",
    "Yash.Startup.startup_command",
    "Yash.Startup.startup_script",
    "Yash.Startup.startup_stdin",
    "Yash.Startup.startup_alone",
    "Yash.Startup.startup_interactive",
    "Yash.Startup.startup_no_name"
   ],
   "note": "The whole of main from the parsing of arguments to the execution of the input; reading outside the arrays if there is not even a name is shown by startup_no_name."
  },
  {
   "property": "C94",
   "status": "proved",
   "theorems": [
    "Yash.Source.dot_executes",
    "Yash.Source.dot_missing",
    "Yash.Source.dot_refused",
    "Yash.Source.exec_executes",
    "Yash.Source.exec_failed",
    "Yash.Source.exec_not_found",
    "Yash.Source.exec_nothing",
    "Yash.Source.exec_refused",
    "Yash.Source.unconvertible",
    "Yash.Source.exec_as_unconvertible",
    "Yash.Source.forms",
    "Yash.Source.helps"
   ],
   "note": "All built-in invocations and all effects of the executed file; system calls, command search for exec and the execution of commands are parameters. See DESIGN.md for what is left out."
  },
  {
   "property": "C95",
   "status": "proved",
   "theorems": [
    "Yash.Source.eval_joins",
    "Yash.Source.eval_iterates",
    "Yash.Source.iteration_spec",
    "Yash.Source.iteration_contained",
    "Yash.Source.eval_refused"
   ],
   "note": "All lists of operands and all effects of the commands; the parsing and execution of a command is a parameter."
  }
 ]
}
