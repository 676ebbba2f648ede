{"id": "C01", "title": "Hash table behaves as a finite map", "statement": "After any sequence of set, remove, clear and resize operations on a table, a lookup of any key returns exactly the value of the most recent set of an equal key that was not followed by a remove of that key or a clear, or nothing if there is none; set and remove return the pair they displaced.", "quantifier": "all sequences of table operations, all keys, all hash functions consistent with key equality, all starting capacities", "why_tests_cant": "collisions, free-slot reuse and rehashing interact over arbitrary histories; tests see a few", "anchors": ["hashtable.c: ht_initwithcapacity, ht_setcapacity, ht_ensurecapacity, ht_clear, ht_get, ht_set, ht_remove"]}
{"id": "C02", "title": "Hash table enumeration is complete and duplicate free", "statement": "Iterating over a table from index zero yields every live entry exactly once and nothing else, the reported count equals the number of entries yielded, and dumping the table to an array gives the same pairs.", "quantifier": "all tables reachable by any operation sequence", "why_tests_cant": "removed slots leave holes anywhere in the entry array depending on the history", "anchors": ["hashtable.c: ht_next, ht_tokvarray, ht_each"]}
{"id": "C03", "title": "Pointer list editing equals list editing", "statement": "Inserting, removing, replacing or truncating a range of a growable list gives the same sequence as the corresponding operation on an immutable list, out-of-range positions and lengths being clamped to the end; the contents stay NULL terminated and within the allocated capacity.", "quantifier": "all lists, positions, lengths and replacement arrays", "why_tests_cant": "unit tests fix a few lengths; the aliasing and clamping cases are unbounded", "anchors": ["plist.c: pl_setmax, pl_ensuremax, pl_replace, pl_add, pl_clear", "plist.h: pl_insert, pl_remove, pl_truncate"]}
{"id": "C04", "title": "Built-in option parsing only permutes the arguments", "statement": "Parsing the options of a built-in command reorders the argument array but never loses, duplicates or alters an argument; the operands end up after all options and keep their relative order, and every option is reported in the order it was written.", "quantifier": "all argument arrays and all option tables", "why_tests_cant": "interleavings of options, option arguments and operands are unbounded", "anchors": ["xgetopt.c: xgetopt, search_argv, argshift, parse_short_option, parse_long_option"]}
{"id": "C05", "title": "POSIX option parsing stops at the first operand and at --", "statement": "In POSIX mode no argument after the first operand is treated as an option and the array is not reordered; in every mode nothing after a -- argument is treated as an option.", "quantifier": "all argument arrays and option tables", "why_tests_cant": "must hold whatever precedes and follows the separator", "anchors": ["xgetopt.c: search_argv, xgetopt"]}
{"id": "C06", "title": "Key-sequence trie is a map with longest-prefix lookup", "statement": "After any sequence of insertions and removals, looking up an input string reports an exact match with the longest bound key that is a prefix of the input together with that key's latest value, reports that more input is needed exactly when the input is a proper prefix of a bound key, and reports failure otherwise.", "quantifier": "all insertion and removal histories over non-empty keys, all lookup strings", "why_tests_cant": "nodes are created and pruned by history; only a few shapes can be tested", "anchors": ["lineedit/trie.c: trie_setw, trie_set, trie_removew, trie_getw, trie_get"]}
{"id": "C07", "title": "Trie enumeration visits every bound key once in order", "statement": "Visiting a trie calls the callback exactly once for each bound key, with its latest value, in ascending key order.", "quantifier": "all tries reachable by insertions and removals", "why_tests_cant": "depends on the sorted order being preserved by every insertion", "anchors": ["lineedit/trie.c: trie_foreachw, foreachw, insert_entry"]}
{"id": "C08", "title": "Integer arithmetic is exact or reports an error", "statement": "Every integer operator of the arithmetic expansion either yields the mathematically exact result representable as a signed long or reports an error; it never wraps around and never executes an operation whose behaviour C leaves undefined (overflow, division by zero, out-of-range shift).", "quantifier": "all pairs of signed 64-bit operands and all operators", "why_tests_cant": "2^128 operand pairs per operator", "anchors": ["arith.c: do_long_calculation, do_long_comparison, do_double_calculation, long_mul_will_overflow, do_increment_or_decrement, parse_prefix"]}
{"id": "C09", "title": "Arithmetic expressions follow C precedence and associativity", "statement": "The value and variable updates computed in the single parsing pass are those of the syntax tree that the C-like grammar assigns to the token string (binary operators grouped by the documented precedence, left associative; assignment and conditional right associative).", "quantifier": "all token strings", "why_tests_cant": "expression nesting and length are unbounded", "anchors": ["arith.c: parse_assignment, parse_conditional, parse_logical_or ... parse_primary"]}
{"id": "C10", "title": "Unevaluated arithmetic operands have no effect", "statement": "The right operand of && and || that is not needed, and the branch of ?: that is not selected, is syntax checked but neither assigns variables nor raises evaluation errors such as division by zero.", "quantifier": "all operand expressions and variable states", "why_tests_cant": "operand expressions are unbounded", "anchors": ["arith.c: parse_logical_or, parse_logical_and, parse_conditional"]}
{"id": "C11", "title": "Quoting a string yields a word that expands back to it", "statement": "Printing any string in the quoted form used by set, alias, typeset and xtrace gives a word that, after quote removal, is exactly the original string.", "quantifier": "all strings, including those with quotes, backslashes, newlines and control characters", "why_tests_cant": "infinite string domain", "anchors": ["expand.c: wb_quote_as_word, quote_as_word, unquote"]}
{"id": "C12", "title": "Quoted output is a single literal word for the shell parser", "statement": "The quoted form of any string contains no unquoted character that the shell treats specially, so re-reading it gives one word on which no expansion, splitting or globbing happens.", "quantifier": "all strings", "why_tests_cant": "infinite string domain", "anchors": ["expand.c: wb_quote_as_word", "parser.c: is_token_delimiter_char"]}
{"id": "C13", "title": "Backslash escaping round trip", "statement": "Escaping a string with respect to any set of characters containing the backslash and then unescaping it gives back the string, and in the escaped string every listed character is preceded by a backslash.", "quantifier": "all strings and character sets", "why_tests_cant": "infinite string domain", "anchors": ["expand.c: escape, escapefree, unescape, unescapefree"]}
{"id": "C14", "title": "Field splitting follows the IFS rules", "statement": "Splitting an expanded word gives the fields defined by the POSIX rules: runs of IFS whitespace separate, each other IFS character (with adjacent IFS whitespace) terminates a field, leading and trailing IFS whitespace is ignored; characters that are quoted or did not come from an expansion never separate.", "quantifier": "all words, character categories and IFS values", "why_tests_cant": "all interleavings of whitespace and non-whitespace separators", "anchors": ["expand.c: extract_fields, fieldsplit, is_ifs_char, is_ifs_whitespace"]}
{"id": "C15", "title": "Field splitting loses only separators", "statement": "The fields are disjoint, in order, contiguous pieces of the input, every character outside the fields is a splittable IFS character, and no field contains a splittable IFS character.", "quantifier": "all words, character categories and IFS values", "why_tests_cant": "unbounded input", "anchors": ["expand.c: extract_fields, add_field"]}
{"id": "C16", "title": "Brace expansion is the product of its alternatives", "statement": "Brace expansion of a word yields exactly the words obtained by choosing one alternative in every well-formed comma brace, ordered with the leftmost choice varying slowest; braces without a matching partner or without a comma are left literal and quoted braces are never expanded.", "quantifier": "all words and quotings, any nesting depth", "why_tests_cant": "nesting and number of braces unbounded", "anchors": ["expand.c: expand_brace, generate_brace_expand_results"]}
{"id": "C17", "title": "Numeric brace sequences terminate and are arithmetic progressions", "statement": "{a..b} and {a..b..d} expand to the value a followed by the values a+d, a+2d, ... that do not pass b, the expansion always terminates and never overflows a long.", "quantifier": "all 64-bit start, end and step values", "why_tests_cant": "2^192 combinations", "anchors": ["expand.c: try_expand_brace_sequence"]}
{"id": "C18", "title": "Pattern matching fast path agrees with the pattern semantics", "statement": "A pattern made only of literal characters with optional leading or trailing asterisks, which is matched without the regex engine, matches exactly the strings and gives exactly the longest or shortest prefix or suffix match that the shell pattern semantics requires.", "quantifier": "all patterns of that form, all subject strings, all flag combinations", "why_tests_cant": "infinite string domain", "anchors": ["xfnmatch.c: try_compile_literal, wmatch_literal, last_wcsstr"]}
{"id": "C19", "title": "Shell patterns are translated faithfully into regular expressions", "statement": "A shell pattern matches exactly the strings that POSIX says it matches, for ordinary characters, quoted characters, ?, * and bracket expressions (ranges, negation, collating symbols, equivalence and character classes, literal closing brackets), although it is matched by a basic regular expression; a leading period is matched only explicitly in pathnames.", "quantifier": "all patterns and subject strings", "why_tests_cant": "infinite domains on both sides", "anchors": ["xfnmatch.c: encode_pattern, encode_pattern_bracket, xfnm_compile"]}
{"id": "C20", "title": "Pattern removal and substitution act on the selected match", "statement": "${x#p}, ${x##p}, ${x%p} and ${x%%p} remove the shortest or longest prefix or suffix that matches p; ${x/p/r}, ${x/#p/r}, ${x/%p/r} and ${x:/p/r} replace the leftmost longest match, the longest matching prefix, the longest matching suffix or the whole value, and ${x//p/r} replaces every match from left to right; the rest of the string is unchanged.", "quantifier": "all subject strings, patterns, replacements and flags", "why_tests_cant": "infinite string domain", "anchors": ["xfnmatch.c: xfnm_subst, xfnm_wmatch, wmatch_shortest_head, wmatch_shortest_tail, wmatch_longest", "expand.c: match_each, subst_each"]}
{"id": "C21", "title": "test argument-count dispatch", "statement": "With zero to four arguments the test built-in chooses the interpretation POSIX prescribes for that number of arguments regardless of what the operands look like, and it returns only 0, 1 or 2, with 2 exactly when an error message was printed.", "quantifier": "all argument lists", "why_tests_cant": "operands may look like operators", "anchors": ["builtins/test.c: test_builtin, test_single_args, test_double_args, test_triple_args, test_long_args"]}
{"id": "C22", "title": "test expression precedence", "statement": "Longer test expressions are evaluated with ! binding tighter than -a and -a tighter than -o, and parentheses grouping.", "quantifier": "all expressions of any length and nesting", "why_tests_cant": "unbounded nesting", "anchors": ["builtins/test.c: test_long_or, test_long_and, test_long_term"]}
{"id": "C23", "title": "Version comparison is a total preorder", "statement": "The -veq -vne -vgt -vge -vlt -vle operators of test compare by a single total preorder: exactly one of less, equal, greater holds, and less and equal are transitive.", "quantifier": "all pairs and triples of strings", "why_tests_cant": "infinite string domain", "anchors": ["builtins/test.c: compare_versions"]}
{"id": "C24", "title": "Alias substitution terminates and never re-expands a name inside its own value", "statement": "Reading a command word performs only finitely many alias substitutions for any set of aliases, including mutually recursive ones, and a word that comes from the value of an alias is not replaced by that same alias again.", "quantifier": "all alias tables and input lines", "why_tests_cant": "recursive alias graphs of any size", "anchors": ["alias.c: substitute_alias, substitute_alias_range, contained_in_list, remove_expired_aliases, shift_aliaslist_index"]}
{"id": "C25", "title": "Read-only variables keep their value", "statement": "Once a variable has been made read-only, no assignment, built-in or unset in its scope changes its value or removes it, and every attempt is reported as an error.", "quantifier": "all later command sequences", "why_tests_cant": "any history of variable operations", "anchors": ["variable.c: new_variable, set_variable, set_array, set_array_element, unset_variable, array_builtin, shift_builtin, typeset_builtin"]}
{"id": "C26", "title": "Exported variables and the process environment agree", "statement": "After every variable operation the environment passed to external commands contains for each name exactly the value of the innermost exported variable of that name, and nothing for names without one.", "quantifier": "all sequences of assignments, exports, unexports, unsets and scope entries and exits", "why_tests_cant": "scope nesting and histories unbounded", "anchors": ["variable.c: update_environment, get_exported_value, set_variable, set_array, array_remove_elements, array_insert_elements, array_set_element, shift_builtin, close_current_environment"]}
{"id": "C27", "title": "Scopes isolate local and temporary variables", "statement": "Leaving a function or the scope of a temporary assignment restores the visibility and values of all outer variables except those assigned globally meanwhile; a local declaration never changes an outer variable.", "quantifier": "all sequences of operations inside the scope", "why_tests_cant": "histories unbounded", "anchors": ["variable.c: open_new_environment, close_current_environment, new_global, new_local, new_temporary"]}
{"id": "C28", "title": "shift and array element operations equal list operations", "statement": "shift n drops the first n (or, for negative n, the last n) elements and fails without effect if there are fewer; array -d removes exactly the designated elements regardless of order and repetition of the indices; array -i inserts at the designated position; array -s replaces one element.", "quantifier": "all arrays, counts and index lists", "why_tests_cant": "arbitrary index lists with duplicates, negatives and out-of-range values", "anchors": ["variable.c: shift_builtin, array_remove_elements, array_insert_elements, array_set_element"]}
{"id": "C29", "title": "getopts visits every option once", "statement": "Repeated calls of getopts with unchanged arguments report each option character with its argument in order, then report the end, with OPTIND designating the first operand; the iteration always terminates.", "quantifier": "all argument lists and option specifications", "why_tests_cant": "unbounded argument lists and clustered options", "anchors": ["variable.c: getopts_builtin, check_options, set_optind"]}
{"id": "C30", "title": "Directory stack operations", "statement": "pushd, popd and dirs treat DIRSTACK plus PWD as a stack: +n and -n designate the n-th entry from the top and from the bottom, pushd of an index rotates that entry to the top without losing others, and popd removes exactly the designated entry.", "quantifier": "all stacks and indices", "why_tests_cant": "unbounded stacks", "anchors": ["variable.c: parse_dirstack_index, pushd_builtin, popd_builtin, dirs_builtin, push_dirstack, remove_dirstack_entry_at"]}
{"id": "C31", "title": "Logical path canonicalization", "statement": "cd's canonicalization removes . components and redundant slashes and cancels each .. with the preceding component, gives a result no longer than the input, containing no . component and .. only at the beginning, is idempotent, and denotes the same component sequence.", "quantifier": "all path strings and all directory structures", "why_tests_cant": "infinite string domain", "anchors": ["path.c: canonicalize_path, not_dotdot, canonicalize_path_ex, is_normalized_path"]}
{"id": "C32", "title": "umask printing and setting", "statement": "Printing the file creation mask in octal or symbolic form and passing the output back to umask restores the mask; a symbolic mode string changes exactly the permission bits it designates and a malformed string leaves the mask unchanged.", "quantifier": "all masks and all mode strings", "why_tests_cant": "mode strings are unbounded", "anchors": ["path.c: print_umask_symbolic, print_umask_octal, set_umask"]}
{"id": "C33", "title": "Command search follows PATH order", "statement": "Looking up a command name without a slash returns the first directory of the search path containing an executable regular file of that name; a remembered location is used only while it is still an absolute path to an executable regular file, and it is forgotten when PATH changes.", "quantifier": "all PATH values, file system states and lookup histories", "why_tests_cant": "cache staleness depends on history", "anchors": ["path.c: which, get_command_path, forget_command_path, clear_cmdhash", "variable.c: variable_set, decompose_paths"]}
{"id": "C34", "title": "Fallback permission check", "statement": "When the operating system cannot check access with effective IDs, the shell's own check grants access exactly when the POSIX permission class (owner, group incl. supplementary groups, other) of the process for the file allows it.", "quantifier": "all files, user and group identities and supplementary group lists", "why_tests_cant": "identities and modes range over a huge space", "anchors": ["path.c: check_access"]}
{"id": "C35", "title": "Predictions extend the typed text to a recorded line", "statement": "Asking the prediction trie for the most probable continuation never fails, and a non-empty answer appended to the typed text is always a prefix of some recorded line, whatever the recorded probabilities are.", "quantifier": "all sequences of recorded lines and probabilities, all typed texts", "why_tests_cant": "the tree shape and the probabilities are unbounded", "anchors": ["lineedit/trie.c: trie_add_probability, trie_probable_key, most_probable_child"]}
{"id": "C36", "title": "Integers are read and written exactly in arithmetic", "statement": "In arithmetic expansion a text is taken as an integer exactly if it is, after optional white space and sign, a decimal, octal (leading 0) or hexadecimal (leading 0x) constant of the C language whose value is representable, and then it denotes that value; an integer result is written as the shortest decimal constant denoting it, so a value stored in a variable is read back unchanged.", "quantifier": "all texts and all 64-bit integers", "why_tests_cant": "unbounded texts and 2^64 values; the boundaries of the representable range matter", "anchors": ["util.c: xwcstol", "arith.c: parse_as_number, coerce_number, value_to_string"]}
{"id": "C37", "title": "Arithmetic tokens are recognised by longest match", "statement": "The tokens of an arithmetic expression are the operators of C, identifiers and numbers; after white space the longest possible token is taken, a character at which no token can start is an error, and any sequence of tokens separated by spaces is read as that sequence.", "quantifier": "all strings and all locale character classifications", "why_tests_cant": "all combinations of adjacent characters matter, e.g. <<= against << and <", "anchors": ["arith.c: next_token"]}
{"id": "C38", "title": "Words that are not patterns match only themselves", "statement": "If a word is not regarded as a pattern, so that pathname expansion treats it literally, the pattern that it would be matches exactly one string, the word without its quoting backslashes; and if a pathname is not regarded as a pattern, none of its components is one.", "quantifier": "all words", "why_tests_cant": "infinite string domain; brackets, quotes and symbols nest in many ways", "anchors": ["xfnmatch.c: is_matching_pattern, is_matching_pattern_bracket, is_pathname_matching_pattern", "path.c: wglob_parse_component"]}
{"id": "C39", "title": "Aliases apply exactly where they should, and a word is replaced by exactly the value", "statement": "A word is replaced only if it is the name of a defined alias, and then by exactly the value of the alias, the rest of the text staying as it is. This happens for a command word, for a word that follows (after blanks only) the value of a non-global alias that ends with a blank, and for any word if the alias is global and the shell is not in POSIX mode; in these places the alias is always applied unless an earlier use of the same alias reaches up to the word.", "quantifier": "all alias tables, input texts, and histories of earlier substitutions, line continuations and input lines", "why_tests_cant": "the bookkeeping of limits depends on the whole history of nested substitutions", "anchors": ["alias.c: substitute_alias_range, remove_expired_aliases, shift_aliaslist_index, add_to_aliaslist", "parser.c: psubstitute_alias, line_continuation"]}
{"id": "C40", "title": "The directories searched are those of the path variable", "statement": "The directories searched for commands, by cd and for scripts to load are always the parts between the colons (or the elements) of the innermost PATH, CDPATH or YASH_LOADPATH variable that has a value, in order and without repetitions.", "quantifier": "all histories of assignments, unsets, typesets and scope entries and exits", "why_tests_cant": "the list is cached per scope, so that a stale cache depends on the history", "anchors": ["variable.c: variable_set, reset_path, get_path_array, decompose_paths, convert_path_array, array_builtin, set_array_element"]}
{"id": "C41", "title": "Order of command search", "statement": "A command name without a slash denotes, in this order: a special built-in, a function, a mandatory or elective built-in, an extension built-in (outside POSIX mode), and else what is found in the PATH directories, which is a substitutive built-in of that name if there is one. A name with a slash denotes the file itself, never a built-in or a function.", "quantifier": "all names, sets of built-ins and functions, PATH values, file system states and remembered commands", "why_tests_cant": "the combinations of definitions, modes and remembered locations are unbounded", "anchors": ["exec.c: exec_simple_command_without_expansion, search_command", "path.c: get_command_path, which"]}
{"id": "C42", "title": "PWD names the working directory", "statement": "After the shell has started and after every cd, $PWD is an absolute path of the working directory and $OLDPWD is the path of the previous one; cd goes where its operand, or HOME, OLDPWD or CDPATH, says, a failing cd leaves the working directory and all variables alone, and pwd prints a path of the working directory.", "quantifier": "all file systems (with symbolic links), environments, histories of cd and variable operations, operands, CDPATH values and modes", "why_tests_cant": "the logical path is computed textually, and whether it names the directory that chdir enters depends on links and on every earlier cd", "anchors": ["path.c: cd_builtin, change_directory, canonicalize_path, canonicalize_path_ex, pwd_builtin", "variable.c: init_pwd"]}
{"id": "C43", "title": "Quoting decides what a word expands to", "statement": "A word in which everything special is quoted expands to exactly the fields its text says, whatever the variables, IFS, the options and the files are: single quotes and backslashes give their characters, \"$x\" gives one field with the value, \"$@\" gives one field per positional parameter (joined to adjacent text, and none if there are none), \"$*\" gives one field joined with the first character of IFS. Outside quotes a value is split at IFS characters and each field undergoes pathname expansion, but never brace expansion.", "quantifier": "all words of quoted segments, values, IFS values, options and file systems", "why_tests_cant": "words, values and environments are unbounded", "anchors": ["expand.c: expand_line, expand_multiple, expand_four, expand_param, merge_expand_four, glob_all"]}
{"id": "C44", "title": "Parameter expansion operators and indices", "statement": "In double quotes ${x[i]} is the character (of a string) or element (of an array) at position i, counted from one or, if i is negative, from the end, and nothing if there is none; ${x[i,j]} is everything from position i to position j and never reads outside the value. ${#x} is the number of characters. ${x-w}, ${x+w}, ${x=w}, ${x?w} and their forms with a colon use w, keep x, assign w to x or fail exactly according to whether x is unset (or, with a colon, unset or empty).", "quantifier": "all variables, values, environments, index values and plain words w", "why_tests_cant": "values, arrays and indices are unbounded, and the boundaries (zero, minus one, the length, SSIZE_MAX) interact", "anchors": ["expand.c: expand_param, parse_indextype, trim_wstring, trim_array, concatenate_values_into_array"]}
{"id": "C45", "title": "Redirections take effect in order and are undone completely", "statement": "The redirections of a command take effect from left to right, each changing exactly the descriptors it mentions. When the command ends, or when one of the redirections fails, every redirected descriptor is what it was before and nothing else has changed; with the exec built-in they persist. The descriptors the shell keeps for itself can be neither redirected nor copied, are closed in subshells, and are never inherited by programs: these get exactly the descriptors the user sees. Copying a closed descriptor is an error.", "quantifier": "all lists of redirections, all states of the descriptor table, all outcomes of opening files, everything a command may do to its own descriptors", "why_tests_cant": "the number of redirections and the descriptor tables are unbounded, and the copies the shell makes may coincide with descriptors mentioned later", "anchors": ["redir.c: open_redirections, undo_redirections, clear_savefd, save_fd, parse_and_check_dup, parse_and_exec_pipe, copy_as_shellfd, move_to_shellfd, clear_shellfds, xdup2"]}
{"id": "C46", "title": "noclobber never destroys a file", "statement": "With the noclobber option, > never empties or overwrites an existing regular file: a regular file it opens has been created by that very redirection, whatever other processes do to the file system in the meantime. <, >> and <> never destroy data. Without the option, and with >|, an existing file is emptied and no other file is touched. A here-document delivers exactly its contents whatever its length.", "quantifier": "all file systems, paths and interleavings with other processes between the system calls; all contents and all ways a write may be split", "why_tests_cant": "the claim is about races: what other processes do between two system calls of the shell", "anchors": ["redir.c: open_redirections, open_file, open_herestring, write_all"]}
{"id": "C47", "title": "Control flow of scripts follows the structured semantics", "statement": "Executing a script runs exactly the commands, in exactly the order and with exactly the statuses, that a structured reading of the script gives: && and || are decided by the status so far; if, while, until, for and case select and repeat their parts by the statuses and words; break n and continue n leave or continue the n-th enclosing loop of the same function and no more; return leaves the function or sourced script; a subshell or pipeline never affects the control flow of the shell around it; failing expansions, redirections and assignments have the documented statuses and end the shell exactly when documented. The shell ends, with a given status and given effects, if and only if this reading does; it loops for ever if and only if this reading has no outcome.", "quantifier": "all scripts (all command syntax trees of any depth), all behaviours of expansions, programs and built-ins, all option settings at every moment, unbounded execution length", "why_tests_cant": "scripts are unbounded and the code implements control flow by global flags that every function must examine and restore; only an inductive argument covers all nestings", "anchors": ["exec.c: exec_and_or_lists, exec_pipelines, exec_commands, exec_one_command, exec_simple_command, exec_if, exec_for, exec_while, exec_case, exec_funcdef, exec_function_body, break_builtin, return_builtin, dot_builtin, need_break", "yash.c: parse_and_exec"]}
{"id": "C48", "title": "Executing the last command without another process cannot be seen", "statement": "When a shell process is about to end, it executes its last command in its own process instead of starting another one. This is never observable: for every script, the exit status and the effects are those of the execution in which the process survives the command and then exits.", "quantifier": "all lists of commands and scripts, all states, all behaviours of programs, all positions of the last command (in conditions, loops, functions, pipelines, with redirections, traps, job control, pipefail)", "why_tests_cant": "the optimisation interacts with every construct (negation, &&, loops, redirections, pipefail, errexit); each combination would need its own test", "anchors": ["exec.c: finally_exit in exec_and_or_lists, exec_pipelines, exec_commands, exec_for, exec_nonsimple_command, invoke_simple_command", "yash.c: parse_and_exec"]}
{"id": "C49", "title": "Functions, subshells and pipelines confine break, continue, return and exit", "statement": "After a function call or sourced script, no break, continue or return is under way and the enclosing loops are as before, whatever the body did. Nothing done in a subshell, or in a command of a longer pipeline, ends the shell around it or leaves its loops and functions. Outside of loops no break or continue remains after any list of commands. Every list of commands leaves the suppression of errexit and errreturn as it was.", "quantifier": "all bodies, all states of the shell, all nestings", "why_tests_cant": "the flags are global and saved and restored in many places; a missed path corrupts later commands only in rare nestings", "anchors": ["exec.c: save_execstate, reset_execstate, restore_execstate, cancel_return, become_child, suppresserrexit, suppresserrreturn"]}
{"id": "C50", "title": "errexit acts exactly where failures are not examined", "statement": "In the condition of if, while and until, in a pipeline after !, before && and ||, and in everything called from there (functions, subshells, sourced scripts), the errexit option makes no difference at all, however it is set at each moment. Elsewhere, a simple command, subshell, [[ command or longer pipeline that fails while errexit is on ends the shell with its status: the shell never goes on behind it.", "quantifier": "all commands, all states, all settings of the option over time", "why_tests_cant": "quantifies over all commands reachable from an examined position, including recursion through functions", "anchors": ["exec.c: apply_errexit_errreturn, is_errexit_condition, is_err_condition_for, exec_pipelines, exec_condition"]}
{"id": "C51", "title": "Programs find signals as the user has set them", "statement": "A program started by the shell, in a new process or by exec, ignores exactly the signals that the user has made the shell ignore (those ignored when the shell was started and not changed, those with an empty trap, SIGINT and SIGQUIT in asynchronous lists without job control, SIGTSTP in command substitutions with job control) and has the default action for all others, whatever the shell itself does with them for job control or because it is interactive. The signal mask of the program is the one the shell was started with, except for signals that have been given a trap command. A signal that was ignored when a non-interactive shell was started stays ignored in every program, whatever traps are set.", "quantifier": "all dispositions and masks the shell can be started with, all histories of trap commands, set -m, subshells (nested in any way), failed exec, signals received and trap actions run", "why_tests_cant": "the dispositions depend on the order of trap, set -m, subshell entry and exec, with several sets updated at different times; histories are unbounded", "anchors": ["sig.c: set_signals, restore_signals, reset_job_signals, set_special_handler, reset_special_handler, set_trap, phantomize_traps, banish_phantoms, ignore_sigquit_and_sigint, ignore_sigtstp", "exec.c: become_child, exec_external_program"]}
{"id": "C52", "title": "The shell itself handles signals as documented", "statement": "At every moment the shell process catches the signals that have a trap command and SIGCHLD; an interactive shell also catches SIGINT and SIGWINCH and ignores SIGTERM and SIGQUIT; with job control it ignores SIGTSTP, SIGTTIN and SIGTTOU; for the rest it does what the user has set. Signals that it catches for a trap, and SIGCHLD, are blocked while commands are executed and let through when the shell accepts signals.", "quantifier": "all ways to start the shell, all histories as for C51", "why_tests_cant": "histories are unbounded and each operation changes only part of the state", "anchors": ["sig.c: set_signals, restore_signals, reset_job_signals, set_trap, handle_signals, official_sigmask, accept_sigmask"]}
{"id": "C53", "title": "No signal with a trap is lost, and none is made up", "statement": "If a signal that has a trap command arrives at any moment, even while traps are being handled or an action is running, and the trap is not changed, then the command of the trap is executed after the signal has arrived, once the shell has handled traps. An action is executed for a signal at most as often as the signal arrived, and what is executed is always the command the user has set last.", "quantifier": "all histories, all moments at which signals arrive (between any two steps of the loop that handles traps)", "why_tests_cant": "depends on the moment at which a signal arrives relative to the scanning loop; races cannot be enumerated by tests", "anchors": ["sig.c: sig_handler, handle_signals, handle_traps, any_signal_received, signal_received, handled_signal"]}
{"id": "C54", "title": "Signal names are understood as printed, and the output of trap restores the traps", "statement": "Every name the shell prints for a signal is understood, with or without the prefix SIG, as that signal and no other; anything else is rejected. kill -l of a signal number, of the exit status of a process killed by the signal, or of the name prints the name. Executing the commands that `trap` prints in a shell without traps sets exactly the traps that were set.", "quantifier": "all signal tables, all strings, all trap settings reachable by any sequence of trap commands, all command texts", "why_tests_cant": "the command text of a trap is an arbitrary string that must survive quoting and parsing; signal tables differ between systems", "anchors": ["sig.c: get_signal_name, get_signal_number, get_signal_number_toupper, parse_signal_number, trap_builtin, set_traps, print_trap, kill_builtin"]}
{"id": "C55", "title": "A printed command is read back as the same command", "statement": "When the shell prints a command it has read (a function in the output of `typeset -fp`, a command in the list of jobs), reading the printed text gives exactly the same command, and nothing else is read from it. This holds for a command at any depth in what was read, printed on one line or on several. Hence two different commands are never printed alike.", "quantifier": "all inputs the parser accepts, all commands in them outside command substitutions (simple and compound commands, function definitions, pipelines, and-or lists), all nested expansions and command substitutions in their words, both formats, all locales", "why_tests_cant": "the grammar is recursive and the printer must choose for every construct, in every context, where quotes, separators, newlines and spaces go; the number of combinations is unbounded", "anchors": ["parser.c: command_to_wcs, pipelines_to_wcs, print_and_or_lists, print_pipelines, print_commands, print_simple_command, print_group, print_if, print_for, print_while, print_case, print_double_bracket, print_dbexp, print_function_definition, print_assignments, print_redirections, print_word, print_paramexp, print_cmdsubst, read_and_parse, parse_command_list, parse_command, parse_word, parse_paramexp_in_brace, next_token"]}
{"id": "C56", "title": "Parsing always ends", "statement": "The parser ends for every input: each call of the parser for a nested construct, and each round of its loops, is made with less text left, so that a text of length n is parsed with no more than n+2 nested calls and rounds. What is left to read is always shorter than what there was if any command was read, so reading commands one after another reaches the end of the input.", "quantifier": "all inputs, accepted or not, all locales in which the newline is not a blank", "why_tests_cant": "the parser goes back in the text in two places (a regular expression in a double bracket command and `$((` that is not an arithmetic expansion) and functions call each other in cycles; termination is a claim on all inputs", "anchors": ["parser.c: read_and_parse, parse_command_list, parse_compound_command, parse_special_word_unit, tryparse_arith, parse_double_bracket_operand_regex, parse_word, rewind_index"]}
{"id": "C57", "title": "Listings of variables restore the variables", "statement": "What `typeset`, `typeset -g`, `local`, `export`, `readonly`, `set` and `array` print without operands, and `typeset -p name...`, is a script: when it is executed in any shell at top level, it runs without an error and prints nothing, and then every listed variable has the value it had (string, array or no value) and the read-only and exported attributes the built-in is about, and no other variable has changed. Which variables are listed: the innermost ones, all visible ones, the exported or read-only ones, those that can be set by an assignment, or the arrays.", "quantifier": "all states of the shell that prints, all variable names and values, all sort orders of the listing, all reachable states of the shell that executes the script in which the variables are not read-only, all locales", "why_tests_cant": "values are arbitrary strings that must survive printing, parsing and expansion, and the executing shell can be in any state", "anchors": ["variable.c: typeset_builtin, print_variable, print_scalar, print_array, vartype_option_string, make_array_of_all_variables, get_all_variables_rec, array_dump_all, do_assignments, set_variable, new_global, new_local", "exec.c: exec_simple_command", "parser.c: parse_simple_command_tokens, tryparse_assignment", "expand.c: quote_as_word"]}
{"id": "C58", "title": "Every command that follows the grammar is accepted", "statement": "Every command put together by the rules of the grammar - words from characters, quotations, parameter expansions with all modifiers, nested arithmetic and command substitutions; simple commands from assignments, words and redirections; and every compound command from lists of commands - is accepted by the shell when it is written as the shell prints it, and is read as exactly that command with nothing left over. No well-formed command is rejected because of its depth, its length or the combination of its parts.", "quantifier": "all syntax trees the grammar derives, of any depth and size, on one line or several, all locales", "why_tests_cant": "the grammar derives infinitely many commands, and an error may show only for one construct inside another", "anchors": ["parser.c: read_and_parse, parse_command_list, parse_and_or_list, parse_pipeline, parse_command, parse_simple_command, parse_compound_command, parse_if, parse_for, parse_while, parse_case, parse_double_bracket, parse_function, parse_word, parse_paramexp_in_brace, parse_arith, next_token", "parser.c: command_to_wcs, pipelines_to_wcs"]}
{"id": "C59", "title": "Numbers of jobs and the current and the previous job", "statement": "A new job gets the least number that is free, and no job ever changes its number. Between commands there is no active job, the current and the previous job are different jobs that exist, and `fg` and `bg` without operands never touch a job that is gone. After every prompt, `jobs`, asynchronous command, pipeline in the foreground, and successful `fg`, `bg`, `disown`: if there are jobs there is a current job; it is a stopped one if any job is stopped; the same holds for the previous job among the remaining ones. A job specification (`%%`, `%+`, `%-`, `%n`, `%name`, `%?name`) denotes exactly the job it describes, and the error tells whether there is none or more than one.", "quantifier": "all histories of commands, of actions of traps and of reports about child processes, all options, all operands", "why_tests_cant": "jobs may stop, continue and end at any moment between the operations, and the numbers depend on the whole history", "anchors": ["job.c: set_active_job, add_job, remove_job, trim_joblist, set_current_jobnumber, find_next_job, apply_curstop, get_jobnumber_from_name, get_jobnumber_from_pid, jobs_builtin, fg_builtin, continue_job, wait_builtin, disown_builtin", "exec.c: exec_commands"]}
{"id": "C60", "title": "Waiting for jobs does not depend on the order of events", "statement": "In whatever order and in whatever groups the system reports changes of child processes: each process has the status that was last reported about it, up to its end; a job is running if one of its processes is, otherwise stopped if one is, otherwise done; a pipeline in the foreground and `wait` for a job wait until the job has ended or, with job control, stopped, and no longer; the wait does end when the reports have arrived; the exit status is that of the last command, with pipefail that of the last command that failed, and for a stopped job that of the last stopped process. Before a prompt exactly the jobs whose status has changed since the last report are reported, once each and in the order of their numbers.", "quantifier": "all schedules of child processes and groupings of their reports, all pipelines of any length for which at least one process could be created, all histories of the job list", "why_tests_cant": "the reports race with the shell; tests see a few schedules", "anchors": ["job.c: do_wait, wait_for_job, calc_status_of_job, calc_status, print_job_status, print_job_status_all, wait_for_job_by_jobspec", "sig.c: handle_sigchld, wait_for_sigchld", "exec.c: exec_commands"]}
{"id": "C61", "title": "Shell options", "statement": "An option may be given by name, separately or joined (`-o name`, `-oname`, `--name`, the same with `+`), in any capitals and with any punctuation, abbreviated as long as it stands for one option only, with `no` in front to invert it, or by its letter, several letters together. In every state this turns the option on or off and changes nothing else, except that of two options that exclude each other (vi and emacs, the two for eight-bit characters) the other one is turned off; never are both on, and the editing mode follows them. Names that stand for no option or for several are errors that change nothing. `set` never changes options that can only be given at start-up. Whatever the arguments are, parsing them ends without a failed assertion, and an error leaves the positional parameters as they are; `set --` takes any arguments as positional parameters. A letter is in `$-` exactly if giving it changes nothing, and `test -o` is true exactly if the option is on. What `set +o` prints, read and executed as a script in another shell, gives its options the values they had in the first one and changes nothing else.", "quantifier": "all lists of arguments of set and of the shell, all states of the options, all sequences of set after any start of the shell, all locales that know the English letters", "why_tests_cant": "45 options are set in unboundedly many ways and sequences; abbreviations depend on all names together", "anchors": ["option.c: parse_shell_options, parse_short_option, parse_long_option, collect_matching_shell_options, search_shell_options, search_normal_options, handle_search_result, set_shell_option, set_normal_option, test_option_unique, get_hyphen_parameter, set_builtin, set_builtin_print_restoring_commands"]}
{"id": "C62", "title": "Numbers and limits of the command history", "statement": "Whatever `HISTSIZE` and `HISTRMDUP` are, at least one entry is kept and there are at least twice as many numbers as entries. After any sequence of commands that use the history, and whatever the history file contains or other processes do to it, the history has at most `HISTSIZE` entries and their numbers are distinct, between 1 and the maximum, and increase from the oldest to the newest, starting again from small numbers at most once. A command line is added line by line: a line without visible characters is not added, the recent duplicates are removed, the new entry has the number after the newest one (1 after the maximum), and no more of the oldest entries are removed than the limits require. Every entry is found by its number, and a number that no entry has is not found.", "quantifier": "all settings, all histories within the limits, all command lines, all contents of the history file, all sequences of commands", "why_tests_cant": "numbers start again only after a hundred thousand entries, and the limits depend on the whole sequence of commands and on what other shells write to the file", "anchors": ["history.c: set_histsize, new_entry, need_remove_entry, remove_last_entry, renumber_all_entries, search_entry_by_number, remove_duplicates, add_history, add_history_line, next_history_number, get_history_entry, read_history, update_history"]}
{"id": "C63", "title": "Shells share one history through the history file", "statement": "When several shells use the same history file, each being started, used, ended or killed at any time, there is one history: it begins with what the first shell read from the file, and it is changed by the commands of all shells one after another, each command having the effect it has in a single shell (adding a command line, reading a file of lines, removing the newest entry, deleting an entry, clearing, rewriting the file). Whenever any of the shells uses the history it gets exactly this history. Starting, ending or killing a shell does not change it, except that entries are renumbered when a shell starts and no other is running. No such command fails, except when it looks for a number beyond a history whose numbers have started again. Only complete lines are written to the file. What `history -w` writes, `history -r` reads as the same lines in the same order.", "quantifier": "all sequences of events of any number of shells, all commands, all contents of the file at the start, all times, all answers about which other processes exist", "why_tests_cant": "the interleavings of shells that read only the new lines of the file, while others append to it or rewrite it, are unbounded", "anchors": ["history.c: maybe_init_history, finalize_history, update_history, maybe_refresh_file, refresh_file, read_history, parse_history_entry, parse_removed_entry, parse_process_id, write_signature, write_history_entry, add_histfile_pid, remove_histfile_pid, add_history, add_history_line, history_delete, history_clear_all, history_read, history_write, fc_remove_last_entry"]}
{"id": "C64", "title": "The entries fc and history are about", "statement": "An operand of fc or history stands for a place: a positive number for the entry with it (or the place between, before or after entries where it would be), a negative number for an entry counted from the newest, a string for the newest entry that begins with it. `fc first last` lists or edits exactly the entries from the one place to the other, in the order of the operands, or the opposite order with `-r`; `fc -l` lists the sixteen newest; `fc -s` executes the entry of its operand; `history n` lists the n newest. An operand that no entry begins with is an error, and no entry outside the history is ever used.", "quantifier": "all histories within the limits, all pairs of operands, both orders, all counts", "why_tests_cant": "the numbers may have gaps and may have started again, so the places of two operands relate in unboundedly many ways", "anchors": ["history.c: fc_search_entry, search_entry_by_number, search_entry_by_prefix, get_nth_newest_entry, entry_is_newer, fc_print_entries, fc_builtin, fc_exec_entry, history_builtin"]}
{"id": "C65", "title": "Reading a line takes the line and nothing else from the input", "statement": "When the shell reads a line - a line of the script, or one for the read built-in - from input that is valid text without null characters, it gets exactly the characters up to and including the next newline (or up to the end of the input, and it can tell whether there were any), and what it has not read afterwards is exactly what follows. This holds for every multibyte encoding, for regular files as well as for pipes and terminals, with buffers of any size, however few bytes the system gives at a time and however often it interrupts. From the standard input the shell leaves the file offset at the end of the line, so that a command finds the rest of the input. Lines are thus read one after another, each exactly once. The call ends as soon as the line is there.", "quantifier": "all input bytes, all encodings, all buffer sizes, all sequences of partial reads and interruptions", "why_tests_cant": "a character or the newline may be split over reads at any place, and reading ahead must be undone for every amount read", "anchors": ["input.c: read_input, optimized_read_input, is_seekable_file", "variable.c: read_with_prompt, read_one_line"]}
{"id": "C66", "title": "The read built-in assigns the fields of one line", "statement": "read takes one line from the input: with -r up to the next newline; without it, a backslash quotes the next character and a backslash and a newline are removed so that the next line continues it. Each variable but the last gets one field of the line, or the empty string when there are no more fields; quoted characters never separate. The last variable gets the field if one is left, and if more are left all of the line from there on, with its separators but without white space that separates at the end; with -A it gets the remaining fields as an array (none if there is only an empty one). The values are assigned from left to right, and the exit status is zero if and only if the line ended with a newline and all assignments succeeded. A wrong operand is an error before anything is read. These rules determine the values.", "quantifier": "all inputs, all IFS values, both settings of emptylastfield, all numbers of variables, all options", "why_tests_cant": "separators of both kinds, escapes and continued lines combine without bound", "anchors": ["variable.c: read_builtin, read_with_prompt, read_one_line, unescape_line, assign_array", "expand.c: extract_fields"]}
{"id": "C67", "title": "echo prints exactly its operands", "statement": "echo prints its operands with a space between each two and a newline at the end. ECHO_STYLE decides which of the options -n, -e and -E are recognised and whether escapes are enabled by default; options are the leading arguments made of a hyphen and letters (for the styles with only -n: one argument that is exactly -n), and of e and E the last counts. With escapes enabled the escapes of the whole text are replaced (an octal escape takes at most three digits), a \\c ends everything including the newline, and a backslash before anything else stays. If a character cannot be printed, nothing is printed and the exit status is 1. Every text can be printed exactly, with its backslashes doubled if escapes are enabled.", "quantifier": "all operands, all values of ECHO_STYLE, all stateless encodings", "why_tests_cant": "escapes, their boundaries between operands and option words combine without bound", "anchors": ["builtins/printf.c: echo_builtin, echo_parse_escape"]}
{"id": "C68", "title": "printf gives every operand to one conversion", "statement": "printf prints its format with the escapes replaced and each conversion specification replaced by the formatted value of the next operand; the format is used again until all operands are used, and once if there are none. A missing operand is an empty string or zero, a quote and a character are the code of the character, any other operand of a numeric conversion must be a number as a whole: otherwise the exit status is 1. %b prints the operand with the escapes of echo, cut to the precision and padded to the width in bytes, and \\c ends the output. A format with an invalid specification, or a value that cannot be formatted, prints nothing. Every text can be printed exactly by doubling its backslashes and percent signs, and printf '%s\\n' prints every operand on a line.", "quantifier": "all formats, all lists of operands, any C library functions for numbers and single conversions", "why_tests_cant": "formats and operand lists are unbounded, and all flags, widths and escapes combine", "anchors": ["builtins/printf.c: printf_builtin, printf_parse_format, printf_parse_percent, printf_parse_percent_b, printf_printf, printf_parse_integer, printf_print_escape"]}
{"id": "C69", "title": "Pathname expansion finds only files that match, each once, in order", "statement": "Pathname expansion always ends, also in directories that contain symbolic links to themselves. The pattern is divided at its slashes; components without special characters are names, with extendedglob the components **, ***, .** and .*** that are not the last search directories at any depth (with *** through symbolic links, with .** through hidden directories), and the others are patterns that match single file names, without a leading period unless dotglob is on or the pattern begins with a period, and without regard to case if caseglob is off. Every pathname that is found consists of names that match the components one by one and is listed in its directory or refers to a file; with markdirs directories that a pattern matched get a slash. No pathname is found twice and the pathnames are in collation order. A pattern with a name that cannot be encoded finds nothing.", "quantifier": "all patterns, all options, all (unchanging) file systems whatever their depth, loops and permissions", "why_tests_cant": "directory trees and patterns are unbounded; loops through symbolic links make infinite trees", "anchors": ["path.c: wglob, wglob_parse_pattern, wglob_parse_component, wglob_search, wglob_scandir, wglob_scandir_entry, wglob_should_recurse, wglob_is_reentry, wglob_add_result"]}
{"id": "C70", "title": "Pathname expansion finds every file that matches", "statement": "Every pathname that matches the pattern component by component is found: all names listed in a directory are tried, names are found in directories that cannot be read, and a search at any depth enters every directory once. If all directories can be read and none contains itself, the pathnames found are exactly those that match.", "quantifier": "all patterns, all options, all (unchanging) file systems", "why_tests_cant": "several components are searched for at the same time, so a component can spoil the search of another only in particular combinations of patterns and trees", "anchors": ["path.c: wglob_search, wglob_search_literal_each, wglob_search_literal_uniq, wglob_scandir, wglob_scandir_entry, wglob_should_recurse, wglob_is_reentry"]}
{"id": "C71", "title": "Pipelines connect exactly neighbouring commands", "statement": "In a pipeline the standard output of each command and the standard input of the next one are the two ends of one pipe, whatever descriptors the shell has open (also if its standard input, output or error is closed). Apart from that every command has the descriptors of the shell: no other process has an end of the pipe, so the reader sees the end of the input when the writer has finished. The shell itself keeps none of the pipes. If a pipe cannot be opened or a process not be created, the other commands are connected all the same and no descriptor is lost. The first command of an asynchronous pipeline reads the null device unless job control is active. The same holds for the pipes of command substitutions and process redirections.", "quantifier": "all numbers of commands, all descriptor tables of the shell, all limits, every combination of failing calls", "why_tests_cant": "the numbers the kernel gives to the pipes depend on all descriptors that are open, and calls fail at any point", "anchors": ["exec.c: exec_commands, next_pipe, connect_pipes, exec_command_substitution", "redir.c: open_process_redirection, maybe_redirect_stdin_to_devnull"]}
{"id": "C72", "title": "Here-documents reach the command as they are written", "statement": "The lines after a command with here-document operators are taken as their contents in the order of the operators, each up to the first line that is its delimiter (the word after the operator without quotations), and what follows the last delimiter is read as commands again. If the delimiter is quoted, the command reads exactly the lines between, whatever characters they consist of; otherwise it reads them with parameter expansions, command substitutions and arithmetic expansions replaced, backslashes before $, ` and \\ removed, lines joined at a backslash and newline, and every other character, including quotation marks, unchanged. The operator <<- removes the leading tabs of every line and of the delimiter. A here-document that nothing closes is an error.", "quantifier": "all numbers of operators, delimiters, contents and following text, all states of the shell", "why_tests_cant": "contents and delimiters are arbitrary text: any line may look like the delimiter or contain characters that are special elsewhere", "anchors": ["parser.c: read_heredoc_contents, read_heredoc_contents_without_expansion, is_end_of_heredoc_contents, read_heredoc_contents_with_expansion, parse_string_without_quotes, next_line", "redir.c: open_heredocument", "expand.c: expand_single (TT_NONE, Q_INDQ)"]}
{"id": "C73", "title": "Undo brings back the line exactly", "statement": "While a line is edited, undoing a command that changed it brings back the line as it was, with the cursor where it was (at the beginning for commands about the whole line); not among them are typing, backspace after backspace and the replacement of a character in vi mode, which are undone together with their neighbours. Cancelling as many undos brings back the line as it was before them. Undoing everything gives the line as it was before editing: an empty line, or the line of the history that was gone to. Undoing everything after a change and cancelling all of it brings back the line. A new change forgets what had been undone.", "quantifier": "all histories of commands on this line and the lines before, all contents, counts, predictions and histories", "why_tests_cant": "what undo does depends on everything that was done to the line before, in any order", "anchors": ["lineedit/editing.c: save_undo_history, maybe_save_undo_history, cancel_undo, go_to_history, le_invoke_command, all commands"]}
{"id": "C74", "title": "Line editing never fails or leaves the line", "statement": "Whatever commands have been executed on a line and the lines before it, the next command finds every text it needs: no assertion fails, no array is accessed outside its bounds, and the cursor stays within the line, at most at the end of what has been typed or accepted from the prediction.", "quantifier": "all histories of commands, all contents, counts, modes, pending operators, predictions and histories", "why_tests_cant": "the places kept from earlier commands (undo, last put text, overwritten text) may be used after any sequence of changes", "anchors": ["lineedit/editing.c: le_invoke_command, exec_motion_command, insert_killed_string, cmd_put_pop, restore_overwritten_buffer_contents, find_nth_occurence"]}
{"id": "C75", "title": "Operators change exactly the text between the cursor and where the motion goes", "statement": "An operator that deletes removes exactly the text from the cursor to the place its motion goes to (including the character there if the motion is inclusive) and leaves the cursor at the beginning of it; if it kills the text, putting it back to the left of the cursor restores the line. An operator that changes the case of letters changes those in this part of the line and nothing else.", "quantifier": "all lines, cursor positions, counts, operators and motions, after every history of commands", "why_tests_cant": "ranges over all lines, words and counts, including those beyond the ends of the line", "anchors": ["lineedit/editing.c: exec_motion_command, exec_motion_expect_command, set_motion_expect_command, add_to_kill_ring, put_killed_string, insert_killed_string, to_upper_case, to_lower_case, switch_case"]}
{"id": "C76", "title": "Motions go where words start and end", "statement": "A motion command moves the cursor over as many characters or words as the count says, in the other direction if it is negative, and not beyond the ends of the line: to where the next or the previous word starts, where a word ends, or behind it, for bigwords, semiwords, viwords and emacswords, to a column, to the ends of the line or to the first character that is not blank. It does not change the line; if it goes into the predicted part, that becomes part of the line.", "quantifier": "all lines, cursor positions and counts, all classifications of characters, after every history of commands", "why_tests_cant": "ranges over all lines and counts; words are delimited in ways that interact at the ends of the line", "anchors": ["lineedit/editing.c: move_cursor_forward_char, next_bigword_index, next_end_of_bigword_index, previous_bigword_index, next_viword_index, next_end_of_viword_index, previous_viword_index, next_emacsword_index, previous_emacsword_index, go_to_column, cmd_first_nonblank"]}
{"id": "C77", "title": "Typed text is what the shell gets", "statement": "Typed characters appear in the line at the cursor in the order they were typed, as many times as the count says, and nothing else changes (in the overwriting mode of vi they take the place of what is behind the cursor), whatever was predicted meanwhile. When the line is accepted, the shell gets exactly the line as it was typed and edited, without the prediction; with the command that accepts the prediction it gets what is shown; with the command for comments it gets the line with # before it, or without it if there is a count and it is there.", "quantifier": "all histories of commands, all texts, cursor positions, counts and predictions", "why_tests_cant": "the prediction is spliced into the buffer of the line after every command, so that any sequence of commands could mix it with the line", "anchors": ["lineedit/editing.c: cmd_self_insert, cmd_accept_line, cmd_accept_prediction, cmd_accept_with_hash, clear_prediction, update_buffer_with_prediction, le_editing_finalize"]}
{"id": "C78", "title": "Going through the history loses nothing", "statement": "Going through the history in any way and coming back finds the line as it was left. The commands for the next and the previous line go as many lines as the count says, and do nothing if there are not so many; a line that was not edited is shown as it is in the history. Searching for the beginning of a line goes to the nearest line of the history in that direction that begins with the text before the cursor, and does nothing if there is none.", "quantifier": "all histories, all sequences of commands that go to other lines, all edits before, all counts", "why_tests_cant": "what is kept of the edited line depends on the sequence of lines gone to and the edits before", "anchors": ["lineedit/editing.c: go_to_history, go_to_history_absolute, go_to_history_relative, beginning_search, beginning_search_check_go_to_history, perform_search, maybe_save_undo_history"]}
{"id": "C79", "title": "A call finds the function that was defined last; read-only functions stay", "statement": "Calling a function executes the body of its last definition, whatever has been done to other functions since, unless it has been unset; a definition changes no other function. A function that has been made read-only keeps its body forever: it can be neither redefined nor unset, and each attempt is refused with an error and changes nothing. readonly -f and typeset -fr make exactly the named functions read-only and report an error iff one of them does not exist; unset -f removes exactly the named functions that are not read-only and reports an error iff one is. No other command creates, changes or removes a function.", "quantifier": "all histories of function definitions and commands with any arguments", "why_tests_cant": "any history of definitions and commands may lie between the definition and the call", "anchors": ["variable.c: define_function, get_function, typeset_builtin, unset_builtin, unset_function", "exec.c: exec_funcdef"]}
{"id": "C80", "title": "What typeset -f prints restores the functions", "statement": "The text that typeset -f prints, executed in any shell, restores all functions: each has the same body as before and is read-only iff it was. What readonly -f prints restores the read-only functions. All other functions of that shell stay as they are. Printing never fails.", "quantifier": "all histories of definitions and commands in both shells, all function bodies and names", "why_tests_cant": "the bodies are arbitrary programs and the names arbitrary strings", "anchors": ["variable.c: print_function, typeset_builtin, define_function", "exec.c: exec_funcdef", "parser.c: command_to_wcs, parse_function, try_reparse_as_function"]}
{"id": "C81", "title": "Keys and characters take effect in the order in which they are typed", "statement": "While a line is edited, every key and every character that is typed leads to exactly one command, in the order in which they are typed: a key to the command that is bound to it, also if its code is the beginning of that of another key and nothing follows in time, and a character to which nothing is bound to the default command of the mode, however many bytes it has. The special characters of the terminal are recognised whatever key codes begin with them, and a character that is to be taken verbatim goes to the default command whatever is bound to it. A text that is typed appears in the line. No byte is lost, doubled or reordered, except those that are no character; bytes that may be the beginning of a character or a key wait for what follows. Whatever is typed, no assertion fails and the reader does not loop.", "quantifier": "all byte sequences, all timings, all sets of key codes and key bindings and all histories that led to them, all editors", "why_tests_cant": "bytes, timeouts and bindings combine without bound, and commands change the mode and thereby the bindings", "anchors": ["lineedit/lineedit.c: read_next, append_to_second_buffer, make_trieget, has_meta_bit, reader_init", "lineedit/trie.c: trie_get, trie_getw", "lineedit/keymap.c: le_keymap_init"]}
{"id": "C82", "title": "Completion inserts text that reads back as the candidate", "statement": "When a word that has been typed is completed, with or without an open quotation or a backslash before the cursor, the text that then stands in its place is one word for the shell and expands to exactly the chosen candidate, whatever characters the candidate contains; the name of a command does not become an assignment. A candidate that does not end the word leaves the quotation open, so that the word can be gone on with. With several candidates the word comes to stand for their longest common prefix; going through them shows at any time a word for the selected one, offsets add up around the list, and coming back to a candidate restores the line. Where the word is a pattern, it is replaced with words that expand to the candidates, one for each, in order. In all cases the text before the word and behind the cursor is unchanged.", "quantifier": "all lines, words and cursor positions, all candidates, all sequences of selections, all locales", "why_tests_cant": "candidates are arbitrary strings (file names) and combine with every way in which the beginning of the word can have been quoted; selections can be repeated without bound", "anchors": ["lineedit/complete.c: le_complete, lecr_normal, lecr_substitute_all_candidates, lecr_longest_common_prefix, select_candidate, select_candidate_by_offset, le_complete_fix_candidate, get_common_prefix_length, update_main_buffer, need_subst, substitute_source_word_all, quote", "lineedit/compparse.c: cparse_word"]}
{"id": "C83", "title": "Key bindings are a map, and what bindkey prints restores them", "statement": "Before the first use of bindkey the keys listed for a mode are bound to their commands and nothing else is. `bindkey -m key command` binds the key sequence in the selected mode, `bindkey -m key -` unbinds it, and neither changes any other binding of any mode; an empty key sequence, an unknown command, a missing mode and superfluous operands are refused and change nothing; whatever the arguments are, at most one binding changes. Every name that `bindkey -l` prints is accepted as a command, and no other name is. `bindkey -m key` prints a command for a bound key sequence and fails for others. What `bindkey -m` and `bindkey -m key` print, executed by the shell, binds the key sequences in question to the same commands, whatever characters they contain, and leaves everything else as it was.", "quantifier": "all sequences of invocations with all arguments, all key sequences, all states of the shell that executes the printed text, all locales", "why_tests_cant": "key sequences are arbitrary strings that must survive quoting, parsing and option parsing; the bindings depend on the whole history of insertions into and removals from a trie", "anchors": ["lineedit/keymap.c: bindkey_builtin, set_key_binding, get_command_from_name, command_name_compare, print_binding, print_binding_main, get_command_name, print_all_commands, le_keymap_init, bindkey_options", "lineedit/Makefile.in: commands.in", "lineedit/editing.h", "lineedit/trie.c: trie_setw, trie_removew, trie_getw, trie_foreachw"]}
{"id": "C84", "title": "Aliases are a map, and what alias prints restores them", "statement": "`alias name=value ...` gives each name the value of the last operand that defines it, global iff -g was given, and leaves all other aliases alone, even when some of the operands are invalid; its exit status is zero iff every operand is a definition or the name of an alias that exists at that point. `unalias` removes exactly the aliases named, and succeeds iff they are different existing aliases; `unalias -a` removes all; wrong usage changes nothing. Whatever was done, only valid names are aliases. The commands printed by `alias -p` (or by `alias -p name` and `command -v name`) define the same aliases when executed in any other shell, and leave its other aliases alone.", "quantifier": "all tables reachable by any sequence of invocations, all arguments, all names and values, all locales that satisfy the stated laws, all states of the second shell", "why_tests_cant": "names and values are arbitrary strings, whose quoting must be undone by the parser and the expansions", "anchors": ["alias.c: define_alias, remove_alias, print_alias, print_alias_if_defined, alias_builtin, unalias_builtin, is_alias_name_char", "plist.c/strbuf.c: quote_as_word"]}
{"id": "C85", "title": "Mail is announced once per change, and never without one", "statement": "When it is time to check mail, a message is printed exactly for those listed files that were seen in an earlier check, have a modification time different from the one seen last, and are not empty (or just exist, in POSIX mode); in the order of the list, once per file, with the message given for the first mention of the file. A file that is looked at for the first time is never announced; turning mail checking off forgets what was seen; calls that come before the time given by MAILCHECK has passed since the last check print nothing and change nothing. MAILPATH, in which colons, percent signs and backslashes are written after a backslash, is read as the list of paths and messages that was written; arrays are not split at colons; MAIL is used only if MAILPATH is not set.", "quantifier": "all histories of calls with arbitrary clocks, variables and file states, all lists of paths and messages", "why_tests_cant": "histories of file changes, clock values and variable changes are unbounded, and paths and messages are arbitrary strings", "anchors": ["mail.c: check_mail, is_time_to_check_mail, check_mail_and_print_message, handle_mailpath, handle_mailpath_element, is_update, activate, inactivate"]}
{"id": "C86", "title": "Resource limits are set exactly as asked, or not at all", "statement": "ulimit with an operand changes only the selected limits (both, or the one of the last of -H and -S) of the chosen resource (the last one named, by default the size of files), to the value that the operand means: a number times the unit of the resource, computed without overflow and never hitting a special value, the current hard or soft limit, or no limit. If the operand means nothing, the soft limit would be above the hard limit or the system refuses, the built-in fails and no limit changes. Without an operand the soft limit (the hard limit with -H) is printed in units, rounded down, and nothing changes; giving the printed text back sets the same value up to less than one unit, never a larger one. -a prints one line for each resource whose limits the system tells; superfluous operands and -a with another resource are errors.", "quantifier": "all argument lists made of option clusters and operands, all states of the limits, all systems (widths of integers, special values, refusals)", "why_tests_cant": "limits, operands and arguments are unbounded, and the values near overflow depend on the widths of integers of the system", "anchors": ["builtins/ulimit.c: ulimit_builtin, print_all_limits, print_limit_value, ulimit_options", "util.c: xwcstoul"]}
{"id": "C87", "title": "kill sends the signal to exactly what was named", "statement": "kill sends one signal, TERM or the one given with -s, -n or directly, by name in any case, with or without SIG, or by number, to each operand that stands for something: an integer stands for the process or process group of that number, a job specification that means exactly one job-controlled job of this shell for its process group; in the order of the operands, each exactly once, also when others are wrong or the system refuses. It succeeds exactly if every operand stands for something and the system refuses nothing. Without operands or with an unknown signal nothing is sent. kill -l prints a line for every signal, with a name that kill understands as this signal; with operands it prints the signal for a number, an exit status or a name, and never sends anything.", "quantifier": "all arguments, all tables of signals, all reachable states of the jobs, all answers of the system", "why_tests_cant": "operands, names, job tables and answers of the system are unbounded combinations, and numbers beyond the range of process IDs are dangerous to try", "anchors": ["sig.c: kill_builtin, signal_job, print_signal, get_signal_number_toupper", "job.c: get_job_pgid"]}
{"id": "C88", "title": "command -v and type tell what would be executed", "statement": "For each operand in turn, `command -v`, `command -V` and `type` print the line for the first of the following that the name stands for: a keyword, an alias that is not global, a special built-in, a function, another built-in (an extension only outside the POSIX mode, a substitutive one only if its external command is found), an external command, with its absolute pathname. The options -k, -a, -b, -f, -e restrict the search to the kinds they name, -p uses the system's default path. The built-in succeeds exactly if every operand stands for something. For a name that is neither a keyword nor an alias, what is printed is what executing the name would run. `command name` executes the first built-in or external command, never a function, unless -b, -e, -f say otherwise. The line for an alias defines that alias again. Wrong options print and execute nothing.", "quantifier": "all arguments, aliases, built-ins, functions, variables, remembered commands, file system states, in both modes", "why_tests_cant": "the combinations of options, definitions, remembered locations and files are unbounded", "anchors": ["exec.c: command_builtin, command_builtin_execute, print_command_info, print_command_absolute_path, search_command", "alias.c: print_alias_if_defined"]}
{"id": "C89", "title": "break, continue, return and exit leave what they are asked to leave, with the status asked for", "statement": "`break n` leaves the n-th loop around it and `continue n` goes on with its next iteration, or the outermost one if there are fewer than n loops; n is 1 if it is not given. An operand that is not a positive integer, more than one operand, or no loop around the command is an error that leaves nothing. `break -i` and `continue -i` work only in an iteration and keep the exit status. `return n` leaves the function or script with the status n; without operand the status is that of the last command, in a trap that of the last command before the trap; an operand that is not a status is an error, but returns with the status 2; with -n nothing is left; an interactive shell itself is not left. `exit n` ends the shell with the status n, without operand with that of the last command, and with 2 if the operand is not a status. An interactive shell with stopped jobs does not exit at once but warns: it exits only if `exit` came before in the same line, or `exit` or `jobs` in the line before, or with -f. The EXIT trap changes the exit status only by `exit` with an operand.", "quantifier": "all arguments, nestings of loops, states of the shell, and sequences of interactive lines", "why_tests_cant": "operands, loop depths and histories of interactive lines are unbounded", "anchors": ["exec.c: break_builtin, return_builtin", "yash.c: exit_builtin, exit_shell_with_status, parse_and_exec", "sig.c: execute_exit_trap", "util.c: xwcstoul, xwcstoi", "job.c: jobs_builtin"]}
{"id": "C90", "title": "Tilde expansion", "statement": "A `~name` that is not quoted, at the beginning of a word and followed by a slash or the end of the word, is replaced by a directory: `$HOME` if there is no name, `$PWD` for +, `$OLDPWD` for -, an entry of the directory stack for + or - and a number (all of these only outside the POSIX mode), and otherwise the home directory of that user. The directory is neither split into fields nor taken as a pattern, whatever characters are in it, and the rest of the word is expanded as if it stood alone. In an assignment, the same happens at the beginning of the value and after each colon, where a colon also ends the name. In all other cases the tilde is an ordinary character.", "quantifier": "all words written with literal characters, quotes and quoted variables after the tilde; all directories; all states of the shell; all assignment values without quotes", "why_tests_cant": "words, directories and environments are unbounded", "anchors": ["expand.c: expand_tilde, expand_four, expand_multiple, expand_single"]}
{"id": "C91", "title": "hash remembers, forgets and lists commands and home directories; where ~user comes from", "statement": "`hash name...` searches PATH for each name and remembers the file in the first directory that has an executable one; a command that is not found is forgotten, and a name with a slash is an error that changes nothing. `hash -r` forgets all commands or the named ones, and no others. Without operands the absolute pathnames of the remembered commands are printed, those of built-ins only with -a. `hash -d` does the same with home directories, except that the entry of a user that does not exist stays. The status is 0 exactly if nothing went wrong, and nothing else in the shell changes. In every history of tilde expansions and of executions of `hash`, `~user` gives the directory found by the last lookup that counts: it is looked up only if none is remembered, it stays the same until a `hash -d` that concerns the user, and after that it is the current one.", "quantifier": "all argument lists, states of the caches, values of PATH, sets of executable files and users, and all histories in which files and users change arbitrarily between the events", "why_tests_cant": "staleness of a cache is a property of all histories of lookups, removals and changes of the user database; tests try a few orders on the users of one machine", "anchors": ["path.c:hash_builtin", "path.c:get_home_directory", "path.c:forget_home_directory", "path.c:print_command_paths", "path.c:print_home_directories", "path.c:get_command_path"]}
{"id": "C92", "title": "Conversions between wide and multibyte strings and formatting append exactly the text, whatever the size of the buffer", "statement": "Appending a converted or a formatted string to a string buffer gives the old text followed by exactly the new one, terminated, for every content and capacity of the buffer, and never writes outside the allocated block. Converting stops at the first character that has no equivalent, and the result tells which one it is; then no more than what is before it has been appended. The loops that enlarge the buffer end. If the encoding has no shift states and characters are found again in their bytes, then a wide string that has been converted to bytes and back is unchanged. If formatting fails, the text in the buffer is unchanged. Joining strings gives the elements with the padding between them, in a block of exactly the size needed.", "quantifier": "all buffers, strings, numbers of characters, shift states and character encodings that respect MB_CUR_MAX; all texts a format can stand for; all arrays and paddings", "why_tests_cant": "the functions work in rounds that depend on how the room left in the block divides the characters, including multibyte characters that just do not fit; tests see few of these alignments, and one or two encodings", "anchors": ["strbuf.c:sb_wccat", "strbuf.c:sb_wcsncat", "strbuf.c:wb_mbscat", "strbuf.c:sb_vprintf", "strbuf.c:wb_vwprintf", "strbuf.c:malloc_wcsntombs", "strbuf.c:malloc_mbstowcs", "strbuf.c:joinwcsarray"]}
{"id": "C93", "title": "The arguments of the shell decide what it executes, and a shell with other rights than the user's executes no initialization file", "statement": "Whatever the arguments are, the shell either exits with a status or starts. With -c it executes the first operand, the second one is $0 and the others are the positional parameters; with -s or without operands it executes the standard input; otherwise the first operand is the file that is executed and $0. -c together with -s, and -c without a command, are errors with status 2; a file that does not exist gives 127, one that cannot be opened 126. The shell is interactive if -i says so, or, unless +i is given, if it has no operands, reads the standard input and is connected to a terminal. It is POSIXly correct if its name without directory is sh, with or without a hyphen. Before that, a login shell executes the first profile that can be opened of the places in order, and an interactive shell executes the first initialization file; never more than one of each, never one after a given one, and none at all if the real and effective user or group ids differ.", "quantifier": "all argument vectors, variables, files, terminals and user and group ids; all effects of the executed files", "why_tests_cant": "the combinations of name, options, operands, ids, variables and files are unbounded, and test suites do not run set-user-id shells", "anchors": ["yash.c:main", "yash.c:execute_profile", "yash.c:execute_rcfile", "yash.c:execute_file_in", "yash.c:execute_file", "option.c:parse_shell_options"]}
{"id": "C94", "title": ". executes the file that its operand names, in the caller's environment but with its own loops; exec replaces the shell by the command with exactly the given arguments and environment", "statement": "`. name` executes the first readable regular file of that name in the directories of PATH, or with -L of YASH_LOADPATH; a name with a slash is opened as it is; if there is none in PATH, the name is opened in the current directory, but not in the POSIXly-correct mode. While the file is executed, no loop of the caller can be left and return ends the file only; afterwards loops, the suppression of errreturn and, if operands were given, the positional parameters of the caller are as before, and the status is that of the file. A file that is missing makes a non-interactive shell exit with 1, unless . is called by command. `exec name args` replaces the process by the file that the name stands for; its arguments are the name, or the operand of the last -a, followed by the others; its environment is that of the shell, or with -c the exported ones of the variables assigned for exec. A file without an executable format is executed by a shell with the same arguments. Otherwise the status is 127 if the command does not exist and 126 if it cannot be executed, and the shell exits unless it is interactive and not POSIXly correct. Without operands, or in an interactive shell with stopped jobs and without -f, the shell goes on.", "quantifier": "all arguments, modes, directories, files and results of system calls; all states of the shell and all effects of the executed file", "why_tests_cant": "what a sourced file does to the state is arbitrary, and the combinations of options, modes, search paths and errors of the system are unbounded", "anchors": ["exec.c:dot_builtin", "exec.c:exec_builtin", "exec.c:exec_builtin_2", "exec.c:exec_external_program", "exec.c:exec_fall_back_on_sh", "exec.c:reset_execstate", "exec.c:cancel_return", "builtin.c:special_builtin_error"]}
{"id": "C95", "title": "eval executes its operands joined by spaces as one command; eval -i executes them one by one, each with the caller's $?, until one says to stop", "statement": "Without -i, the operands joined by single spaces are executed once, in the state of the caller, and the status is that of the commands executed. With -i, the operands are executed in order; each one starts with the value of $? that the caller had, in the state that the one before left. The next operand is executed if and only if the one before ended normally or by continue -i, leaves no loop and was not interrupted; break -i ends the iteration, and return or the leaving of a loop goes through to the caller. Afterwards break -i and continue -i have no further effect, $? and whether an iteration can be left are as before for the caller, and the status is that of the last operand that was executed, or 0 if there is none. Wrong options give 2 and execute nothing.", "quantifier": "all lists of operands, all effects of the executed commands on the state of the shell, all interruptions", "why_tests_cant": "the number of operands and what each one does to the state, including the ways to leave it, are unbounded", "anchors": ["exec.c:eval_builtin", "exec.c:exec_iteration", "strbuf.c:joinwcsarray"]}
