# Formal model of yash in Lean 4

The subject is the C source of magicant/yash in `/repo` (read as text, never built).
The model lives in `lean/Verif/`, one directory per component:

* `Model.lean`  – definitions that follow the C functions one by one. Each cites file and lines
  and says what is simplified.
* `Spec.lean`   – a small specification written without the model's helpers.
* `Lemmas.lean` – proof scripts that nobody needs to read.
* `Props.lean`  – the property theorems, each followed by an `example` showing that a
  concrete case meets its hypotheses.

## Trusted base

* Lean 4.33.0's kernel.
* Axioms: only `propext`, `Classical.choice`, `Quot.sound` (checked by the gate for each theorem).
  No own axioms, `sorry`, `native_decide` or `bv_decide`.
* That the definitions in `Model.lean` files mean what the cited C lines do. This is a manual
  translation; the comments say where it simplifies.
* That the `Spec.lean` definitions express the English properties.

### General modelling conventions

* A C wide string is a `List Char` (the terminating NUL is the end of the list). `wchar_t` values
  that are not Unicode scalar values do not occur.
* Locale dependent classification functions (`iswalnum`, `iswspace`, …) are parameters; where a
  theorem needs a fact about them it is an explicit hypothesis.
* Memory: a C array is a list or a function from indices; access outside the allocated object is
  an explicit failure outcome (`none`/`ub`), so "no memory error" is a provable statement.
  `malloc` never fails (yash aborts when it does). `free` and aliasing are not modelled unless
  stated.
* Machine integers: `long` is an `Int` with explicit range checks; executing an operation whose
  mathematical result does not fit is a distinct `ub` outcome.
* System calls, terminals, the locale database and floating point are not
  modelled; they appear as parameters (oracles) where the logic around them is modelled.
* The regular expression library (`regcomp`, `regexec`) is modelled in `Fnmatch/Regex.lean` after
  the POSIX text on basic regular expressions (leftmost-longest matching), restricted to the
  constructs the encoder in xfnmatch.c can produce; that the C library conforms is trusted.
  Conversion between wide and multibyte strings is the identity.

## Plan per property

| id | model | how it is proved |
|----|-------|------------------|
| C01 | `HashTable`: entry array + chains exactly as in hashtable.c | representation invariant (chains partition live slots, free list holds the rest) preserved by every operation; refinement to an abstract map; induction over operation sequences |
| C02 | same | the invariant gives completeness and no duplicates of `ht_next` iteration |
| C03 | `PList`: buffer with capacity, memmove/memcpy with bounds checks | each operation refines the list function and never leaves the buffer |
| C04, C05 | `Xgetopt`: argv, xoptind, argvindex, charindex state machine | loop invariant: argv is a permutation; refinement of a whole parse to a specification over the original list |
| C06, C07 | `Trie`: sorted child arrays with binary search | structural induction, abstraction function to a finite map |
| C08 | `Arith.Ops`: operators on `Int` in long range with `ub` outcome | case analysis and integer arithmetic |
| C09, C10 | `Arith.Eval`: tokens, one-pass evaluator with parse-only mode | refinement to AST parser + big-step evaluator; induction on fuel/AST |
| C11, C13 | `Quote`: quote, unquote, escape, unescape | induction on strings |
| C12, C43 | `Syntax.Lex` (tokenizer), `Expand.Four` (`expand_line`, `expand_multiple`, `expand_four`, `expand_param` over an arbitrary environment) | words written as segments (`Expand.WordSpec`); invariant of the expansion loop: the fields so far are the joined fields of the segments, and no later step can touch a character in them |
| C44 | `Expand.Four` (`expand_param`) | `Expand.ParamSpec` numbers positions from one and from the end and filters the value by position; the C index arithmetic is proved to select the same positions, by cases on the signs; the operators are a table over `Missing` |
| C45 | `Redir.Model`: descriptor table of the process, the shell's record of its own descriptors, `open_redirections`, `undo_redirections` and what they call; opening files, pipes, here-documents and process redirections are oracles | invariant of the loop (`Kept`): whatever a command does to its own descriptors, undoing the list of saved ones gives the original table; each redirection is proved equal to an action of `Redir.Spec` on the user's view. Partial: needs spare descriptors and valid ones, see Findings |
| C46 | `Redir.File`: `open_file` over a file system that other processes change between system calls; `open_herestring`, `write_all` | every system call of the shell is shown harmless; case analysis over all outcomes |
| C47–C50 | `Exec.Model`: the functions of exec.c and `parse_and_exec` that decide which command is executed next, with their global flags, over an arbitrary environment (`Exec.Base`: expansions, redirections, programs, built-ins and the parser are functions on an opaque state; `Lawful` lists what is assumed of them) | `Exec.Spec`: a big-step semantics with signals (`break n`, `continue n`, `return`) instead of flags. Soundness: induction on the fuel of the model. Completeness: induction on derivations. The flags `breakloopnest`, `exception` are decoded by `Pend`. C47 is partial: the status of a `return` in an `if` condition is lost, see Findings |
| C51–C53 | `Sig.Model`: the global variables of sig.c, the dispositions and the mask of the process, and every function that changes them; a history is a list of operations, where each iteration of the loop in `handle_traps` is an operation of its own, so that signals can arrive between any two | `Sig.Spec` keeps one action per signal. Invariant (`Inv`) that ties the sets of sig.c to these actions, preserved by every operation. For C53 the invariant also says that a received signal has its flag set or lies ahead of the scan |
| C54 | `Sig.NameModel`: the tables of signal names, `get_signal_name`, `get_signal_number`, `kill -l`, the operands of `trap` and what `trap` prints | `Sig.NameSpec` says which strings denote a signal. Printed text is read back with the word parser and quote removal (`Expand.LineProps`) and executed with the modelled `trap`; induction over the table. Exception `RTMAX-0` (Findings) |
| C55, C56 | `Parser.Model`, `Syntax.Lex`: the lexer and the parser, function by function, on syntax trees (`Syntax.Ast`); `Parser.Print`: the functions that print syntax trees. The functions that call each other are tied by a bound on the depth of the recursion | C55: every production is shown to be read back after any text before it and before any text that ends it (`At`, `Ev`), by induction on what the parser has read; `Parser.Spec` lists the features that are not printed faithfully, in terms of trees only, and `Parser.RoundTripQuirks` shows that none of the conditions can be dropped. C56: a measure on positions (`Parser.Progress`); two bounds larger than the text give the same result (`Parser.Agree`) |
| C57 | `Restore.Model`: `typeset_builtin` and its relatives with the printing of variables, on the model of variables (C25, C26, C40), option parsing (C04, C05), and the execution of simple commands and assignments read by the parser of C55 with words expanded by the model of C43 | Each printed line is read as one command whose words are literal (`Restore.Literal`, `Restore.Lines`), its execution changes exactly the variable (`Restore.Effect`), and lines compose (`Restore.Script`). `Restore.Spec` says when a variable can be restored; `Restore.Quirks` shows that the conditions are needed |
| C58 | The parser and the printer of C55. The grammar is given separately as inductive predicates on syntax trees (`Parser.Grammar`), which refer neither to the parser nor to the printer | By mutual induction on derivations of the grammar: each rule yields what C55 needs to know about its parts (`Parser.AcceptWords`, `Parser.AcceptParams`, `Parser.Accept`) |
| C59 | `Job.Model`: the job list, the choice of the current and the previous job, job specifications and the built-ins `jobs`, `fg`, `bg`, `wait`, `disown`, and how pipelines become jobs. What the system reports about child processes is a parameter, as are the actions of traps, which may be any of these operations again | `Job.Spec` gives the histories (`Runs`) as an inductive relation; a predicate that each operation keeps holds after every history (`Job.Runs`: `Closed`). The choice of the jobs is compared with the description `Discipline`, job specifications with `Means` |
| C60 | The same model. A wait consumes a list of wakes, each with a group of reports | A report changes at most one process (`Job.Track`), so that the state of a process depends only on the reports about itself; induction on the wakes with the job up to the flags that notifications change (`Job.Wait`); every job of a history has status codes that fit (`Job.Sane`), so exit statuses and reports are defined |
| C61 | `Shopt.Model`: the table of options and the functions of `option.c` that parse arguments and set options; `Script.Model`: reading and executing a text of simple commands with the models of the parser (C55) and of expansions (C43) | `Shopt.Spec` says what a name stands for (`Denotes`), how options are given (`Gives`) and what changes (`turned`). Facts about the table (unique names, letters and prefixes) are computed by the kernel; everything about names, arguments and states is by induction on the arguments. The listing of `set +o` is a list of lines of literal words, which the parser and the expansions give back (`Script.Lemmas`) |
| C62 | `History.Model`: `history.c` as functions on the list of entries and the lines of the history file; reading, writing, rewriting the file, and every command that changes the history | `History.Spec` says what the numbers of a history may be (`Good`), and what adding a line does (`Added`). The limits are an invariant of every command, for arbitrary contents of the file (`History.Numbers`); the search by number is shown to stop at the place of the number by induction on the two increasing parts (`History.Find`) |
| C63 | The same model, with any number of shells, the file and a clock (`History.World`, `step`) | The file stands for a list of records; reading it is replaying them (`History.Records`), and a shell that has read a part of the records gets the shared history from the rest (`View`). The invariant is kept by appending records, by rewriting the file with a new revision, and by shells that start, end or are killed (`History.Sync`, `History.Commands`, `History.Shared`). The shared history itself is changed as `History.Spec.Sequence` says, which mentions neither the file nor the shells' lists |
| C64 | The same model | Places of operands are in the specification (`Denotes`), as well as the order of places. The search finds the place (`History.Find`), the comparison of entries agrees with the order of their positions (`History.Fc`), and printing goes through the slice (`History.Range`). Partial: for places that touch the program leaves the list |
| C65 | `input.c` `read_input`, `optimized_read_input` (`Verif/Input`): a file is bytes and an offset, `mbrtowc` is the iteration of any machine that takes one byte at a time, the system is a list of events | A specification of text (`Text`): which characters bytes stand for. Induction over the text for one buffer (`convert_line`) and over the events (`fill_good`); rewinding restores the offset. Together with C66 in `Read.Bytes` |
| C66 | `variable.c` `read_builtin` and its helpers (`Verif/Read`), with the model of `extract_fields` of C14 | The line is specified by an inductive relation (`Logical`, `Raw`), the values by the fields of C14 and by a decomposition of the line (`Remainder`), which is shown to be unique. Induction over the loop of `extract_fields` shows where fields begin |
| C67 | `builtins/printf.c` `echo_builtin`, `echo_parse_escape` (`Verif/Printf`): an encoding is any function from characters to bytes | The escapes are an inductive relation on the text of all operands joined with spaces (`Escaped`); the code treats the operands one by one. Strong induction over the text, and a lemma that a space ends every escape |
| C68 | `builtins/printf.c` `printf_builtin` and its helpers (`Verif/Printf`); `vsnprintf` for one value and the functions that read numbers are parameters | Formats are an inductive relation (`Format`), the operands are given to the pieces by their numbers (`uses`), what is printed is `Prints` and `Outcome`. The parser is sound and complete for the relation; induction over the rounds |
| C69 | `path.c` `wglob` and its helpers (`Verif/Glob`); the file system is three functions (`readdir`, `stat`, `lstat`) that do not change, the collation order is a parameter | The division of patterns is an inductive relation (`Divides`), what a list of components finds is another (`Finds`); the code searches for all components at once with an array of counters. Termination: a rank of the array decreases at each descent (the counters are unsigned chars). Soundness and uniqueness by induction over the search, with the search of each directory as an arbitrary function. `qsort` is a merge sort |
| C70 | the same | `FindsOnce` adds to `Finds` that no directory is entered again and no more than 254 of them; completeness by induction over it, with a window of stack frames that correspond to the directories entered. Exactness if all directories can be read and none contains itself (`Tame`, `NoLoop`). Partial: files 255 directories deep are not found (`C70_depth_violated`) |
| C71 | `exec.c` `exec_commands` (creation of the processes), `next_pipe`, `connect_pipes`, `exec_command_substitution`, `redir.c` `open_process_redirection`, `maybe_redirect_stdin_to_devnull` (`Verif/Pipe`); tables of descriptors as in C45 | Invariant of the loop: the table is the shell's original one and at most three entries on top; induction over the commands. `Connected` describes each process by its descriptors alone. Which calls fail is an oracle |
| C72 | `parser.c` `next_line`, `read_heredoc_contents` and what it calls, `parse_string_without_quotes`, `redir.c` `open_heredocument` up to the conversion to bytes (`Verif/HereDoc`); expansions inside are read by the parser of C55 and expanded by the model of C44 | `HereDoc.Spec` describes the delimiter, the lines and what each part of a line becomes, without positions. Induction over the lines for reading, over the parts for expanding |
| C73–C78 | `lineedit/editing.c` (`Verif/Edit`): the state of the editor, all commands except those left out below, `le_invoke_command`, `le_editing_init`, `le_editing_finalize`. The predictor, the history and the classes of characters are parameters (`Env`) | `Edit.Spec`: a session is any list of commands on any list of lines. C74: an invariant (`Inv`) kept by every command, which says where all kept places are. C73: the undo history is viewed as a list of lines with a place in it (`Zip`); every command that records the line is shown to move this view in one of three ways. C76: `WordSpec` describes words by how characters are sorted; the loops are shown to find the first or last place where a word starts or ends. C75: what operators do is stated in terms of where the motion goes. C77: the buffer without the prediction is what every command sees. C78: a function from entries to lines (`recall`) says what would be found at each entry; steps through the history keep it. Exceptions: see Findings |
| C79, C80 | `Verif/Function`: `define_function`, `get_function`, `unset_function`, `print_function`, the part of `typeset_builtin` and `unset_builtin` about functions (variable.c), `exec_funcdef` (in `Script.Model`). Options are read by the model of C04, function bodies are the syntax trees of C55 | C79: `Function.Spec`: a history is any list of definitions and commands (fields with arbitrary contents). An invariant (a function cannot be removed iff it is read-only), and induction over the history. C80: the listing is executed by the model of the parser (C55), of expansion (C43) and of the built-ins; what is printed for each function is shown to be read as its definition followed by the command that makes it read-only, and induction over the listing. Exceptions: see Findings |
| C81 | `Verif/Keys`: `read_next` with the loops over its two buffers, `append_to_second_buffer`, `reader_init` (lineedit/lineedit.c). The decoder, the key codes and bindings (any history of changes to the tries of C06) and the editor are parameters (`Terminal`) | `Keys.Spec`: `Typed` says which command each key and character leads to; induction over it, with induction over the bytes of a character and of a key inside. `Sorts` and `Acts` say how bytes become key sequences and these become commands; that nothing is lost is an invariant of the buffers (`Inv`). With the editor of C74–C78 as the parameter, typed text appears in the line. Partial: `nothing_lost_partial`, see Findings |
| C82 | `Verif/Complete`: the part of lineedit/complete.c that changes the line (`quote`, `get_common_prefix_length`, `update_main_buffer`, `substitute_source_word_all`, the `lecr_` functions, `select_candidate`, `select_candidate_by_offset`, `le_complete_fix_candidate`). Candidate generation is a parameter (`Finder`). `Verif/Complete/Parse`: `le_get_context`, `cparse_word`, `cparse_commands`, `cparse_simple_command` (lineedit/compparse.c) for simple commands of words without expansions | `Complete.Spec.Typed` says, character by character, what string a word that is being typed stands for and what is open at its end. Quoting keeps on typing (induction over the candidate); a typed word is a word for the tokenizer and the expansions of C43 (`typed_word`, by turning it into segments); the selection is an invariant of the line. `Complete.Spec.Before` says which texts can stand before the word; the parser goes through them (induction) and finds the context that the theorems about insertion assume (`context_found`, `complete_in_line`). Partial: empty candidates and words that end with a backslash, see Findings |
| C83 | `Verif/Bindkey`: the `bindkey` built-in (lineedit/keymap.c) with its table of commands as it is generated from lineedit/editing.h (lineedit/Makefile.in:47-53), the initial bindings of all modes and the trie of C06. Options are parsed as in C04 | `bound` is the lookup the editor does. Reachable states are those after any invocations; their invariant is that the tries are well-formed, the empty sequence is unbound and every bound command has a name. The binary search is correct for sorted tables (induction), and the table is sorted (by evaluation, as it is a constant of the program). The printed lines are words that the parser of C55 and the expansions of C43 read back (`Verif/Script`); induction over the listing |
| C84 | `Verif/Alias/Builtin`: the built-ins `alias` and `unalias` (alias.c) and the printing for `command -v`, on the table of C24. Options are parsed as in C04 | `Alias.BuiltinSpec`: `meaning` of a name, `ValidName`, `Defines` (an operand defines a name), tables reachable by any invocations. Induction over the operands; the printed lines are words that the parser of C55 and the expansions of C43 read back (`Verif/Script`), induction over the listing. Partial: names that contain `{`, `*`, `?`, `[` or `~`, see Findings |
| C85 | `Verif/Mail`: all of mail.c except the expansion of messages. The clock, `stat`, the variables, `xwcstol` and the encoding are parameters | `Mail.Spec`: how lists of paths and messages are written (`Writes`, an inductive relation), when a check is due, what counts as news. The splitting loops are shown to read back what was written, by induction on the relation; a check is compared with the list of files, by induction on the list; induction over the calls between two checks |
| C86 | `Verif/Ulimit`: all of builtins/ulimit.c except the help, for a system that has all the resources. The widths of the integers, the special values of `rlim_t` and the decisions of the system are parameters | `Ulimit.Spec`: letters and units, arguments (`Usage`), which limits are selected and of which resource (`Selects`, `Chooses`), the meaning of operands without overflow (`Means`). The built-in is compared with them by induction on the letters; the check of overflow by arithmetic |
| C87 | `Verif/Kill`: all of `kill_builtin` with `signal_job`, `print_signal` and `get_job_pgid`, on top of the models of signal names (C54) and of jobs (C59). Which calls of `kill` succeed is a parameter that may depend on the calls before | `Kill.Spec`: the ways to write arguments (`Usage`, `ListUsage`), signals, integers and targets as inductive relations, the calls for a list of operands (`Sends`), lines of listings. Induction on the operands and on the letters of options; a theorem about the reduction of large numbers shows that the property fails for them |
| C88 | `Verif/Command`: all of `command_builtin`, `print_command_info` and `print_command_absolute_path`, on top of the models of `search_command` (C41), of the search in `PATH` (C33), of option parsing and of the printing of aliases (C84). What is executed by `command` is the result of the search | `Command.Spec`: the list `things` of all that a name stands for in order, the first one that is asked for, and the line for each (`Line`). `identified` and `executed` by a case analysis of the search for all flags; `agrees` compares with the two searches of simple commands (C41); `alias_restored_partial` runs the printed line in the model of scripts |
| C89 | `Verif/Leave`: all of `break_builtin`, `return_builtin` and `exit_builtin` on top of option parsing and of the models of numbers (C20, C34), `exit_shell_with_status` with the `EXIT` trap, and `forceexit`/`nextforceexit` over the lines of an interactive shell. The operands are specified by `Arith.Spec.Signed` and `TestBuiltin.Spec.IsInteger`. `break_executed` ties the result to the `break` and `continue` of the model of execution (C47), where the number is given. The warning about stopped jobs is stated over all sequences of lines (`exit_warned`), by induction over the commands. Partial: negative operands of `break` are accepted (`break_negative`). |
| C90 | `expand_tilde` in `Expand.Four`, as part of the expansion of whole words (C43). `Expand.TildeSpec` says what `~name` stands for, independently of the order of the tests in the code. `tilde_word` and `tilde_not` are about all words whose rest is made of segments as in C43, by the same invariant over the state of `expand_four`; `tilde_assignment_partial` is by induction over the parts between colons. Partial: values of assignments are without quotes and variables, and an empty home directory gives no field (`tilde_empty`). |
| C91 | `hash_builtin` and the cache of home directories in `Hash.Model`, on the model of command search (C33) and of options (`Xgetopt.Spec.parse`, C05). One theorem for each form of the command says what is in the tables afterwards, for every name (`hash_commands`, `hash_forget`, `hash_print`, `hash_homes`, `hash_forget_homes`, `hash_print_homes`, `hash_refused`). `tilde_history` is an invariant over all histories in which the users may change between the events; `tilde_same` says that nothing but `hash -d` changes what `~user` gives. |
| C92 | `Buf.Conv`, on the blocks with bounds checks of C03; the functions of the C library are modelled by a character encoding with shift states (`Codec`), or by the text that a format stands for. Invariant of the loops: the block starts with the text so far, the terminator may be missing (`Text`); the rounds are bounded by the number of characters, because after the buffer has grown at least one character fits. The round trip justifies that other parts of the model take these conversions as the identity. Partial: on systems where `vswprintf` does not tell the size that is needed, texts of 1048575 characters or more may not fit after 20 rounds. |
| C93 | `Startup`: `main` after the initialization of modules, on the option parser of C61 and `which` from the model of command search; what the system answers and what a file does are parameters, so that they are arbitrary. The specification says what operands mean (`Decided`, `Rejected`), and which file is the first of the places (`FirstRun`, `RcRun`, `Initialized`). Proofs: the attempts to execute files compose (`Tried`); the forms of the command line follow from what the parser gives. |
| C94 | `Source`: `dot_builtin`, `exec_builtin` and what they call, on the option parser of C61 and `which` from the model of command search; `exec_input`, `execve`, `get_command_path` and the files are parameters, so that they are arbitrary. The specification says which file a name stands for (`Sources`, with `FirstMatch` of command search) and which `-a` counts (`AsName`). `KeepsOthers` assumes of the executed commands that they leave the positional parameters of outer environments alone. Proofs: by cases on the results; the list of assignments by induction. |
| C95 | `Source/Eval`: `eval_builtin` and `exec_iteration`, which also executes `PROMPT_COMMAND` and the like; the execution of a command is an arbitrary partial function on states. The specification is the sequence of commands with the states before and after each (`Trace`), with what makes the iteration go on (`GoesOn`). Proofs: by induction on the operands. |
| C14, C15 | `FieldSplit`: index loop of extract_fields | refinement to a declarative splitter; span invariants |
| C16, C17 | `Brace`: both passes of brace expansion, sequence loop | refinement to grammar based product; termination measure on the interval |
| C18–C20 | `Fnmatch`: literal fast path, encoder, substitution | refinement to a declarative `Matches` relation |
| C21–C23 | `TestBuiltin` | decision logic, grammar refinement, order axioms |
| C24, C39 | `Alias`: alias list, substitution, line continuations, as a forward reading history with the origin of each character | invariants over histories: limits lie beyond the text they protect; a weight per character that decreases with each substitution; ordering of the blank-ending items |
| C25–C28, C40 | `Variable`: stack of scopes, each a map from names to variables, the process environment, the path arrays; array element operations | invariants over all operation sequences from the start of the shell (`Reachable`, `Run`); full functional specifications of assignment, typeset and unset; negative theorems where the code deviates |
| C29 | `Getopts` | induction on the arguments left |
| C30 | `Path.DirStack` (`pushd`, `popd`, `dirs`, on top of `Path.Cd` and `Variable`); `YASH_AFTER_CD` is a function on states | refinement to a list of entries with the working directory at the head; round trip with `Path.C42_place` |
| C31–C34, C41 | `Path`: canonicalization, umask, command search with the remembered commands (which live in the variable model, because changing PATH clears them), access check | component-list refinement; bit-level case analysis; invariant over all histories of variable operations and searches |
| C42 | `Path.Cd`: `cd`, `pwd` and the initial `PWD` over the variable model and an arbitrary file system with links; system calls are a parameter that must tell the truth about the file system | logical path computation refined to component lists; invariant over the life of a shell (`Life`) |

Left out of the signal model (C51–C53): `wait_for_sigchld` and `wait_for_input` (which call the modelled functions),
`sigint_received`, the line editor, failures of `sigaction`, and the status that the action of a trap sees and
leaves. The table of signals and the real-time signals are one list of signals.

Left out of the execution model (C47–C50): signals and traps, stopped jobs, a failing `fork`, `eval -i`
and `break -i`, interactive input. What runs at the same time as a pipeline or in the background is part of
the arbitrary environment.

Left out of the model of listings (C57): alias substitution, functions that are named like the built-ins, redirections and
command tracing, the effect of assignments to `LC_*` on the locale, `-f` and `--help`. An error of any command makes the whole
script fail in the model.

Left out of the parser model (C55, C56): here-documents (an error in the model), alias substitution (see C24 and C39), the
POSIXly-correct mode, error messages, line numbers, reading the input piecewise (all of it has been read).

Left out of the grammar (C58): here-documents, command substitutions in backquotes, line continuations and comments, and the features that are not printed faithfully (C55).

Left out of the model of jobs (C59, C60): the formats `-l` and `-p` of `jobs`, process groups of the terminal (`put_foreground`), saving the terminal
settings, notifications while the line editor is active and the message about signals after a command (`notify_signaled_job`), errors of
writing, and jobs of subshells, of which only `neglect_all_jobs` is modelled. Process IDs of processes that have not ended are taken to be different
(`DistinctPids`, `FreshPids`), as the system guarantees.

Left out of the model of options (C61): the output of `set -o`, `--help` and `--version`, messages, the signals and the terminal that job control needs
(only whether it can be opened), and the environment variable `YASHRC` and the like at start-up.

Left out of the model of reading lines (C65): other processes that move the offset or change the contents while a line is being read (between two lines they may), traps that are executed while waiting, and what the state of the converter is after an invalid sequence (a parameter).

Left out of the model of `read` (C66): the prompt and line-editing, errors of reading (nothing is assigned then), parsing of the options (C50).

Left out of the model of echo and printf (C67, C68): encodings with shift states, errors of writing, overflow of the width and the precision in `%b`, the options of printf (C05).

Left out of the model of pathname expansion (C69, C70): changes of the file system during the search, names that cannot be converted to wide characters (they are skipped), interruption by signals, the order in which a hash table lists names in a directory that cannot be read (it is visible only if results are not sorted). The contents of uninitialised `struct stat`s are a parameter.

Left out of the model of pipes (C71): process groups and signals (C51, C52), what the processes execute, interruptions of `close` and `dup2`.

Left out of here-documents (C72): that the operators of a command are queued in order (the parser model rejects `<<`), conversion to bytes and the pipe or temporary file; `$@` with several parameters (`Value.param` is about one field); that an unclosed here-document is an error is proved for quoted delimiters and for text without `$`, backquotes and backslashes. `Line` is about expansions written the way the shell prints them, and backquotes without backslashes. Under `Value.param` what a parameter expansion means is left to C44.

Left out of line editing (C73–C78): what is shown on the terminal, completion, searching in the history (except by the beginning of the line), `vi-edit-and-accept`, `vi-exec-alias`, `expect-verbatim`, and how keys are bound to commands. Finding a character (C76 `find_char_goes_partial`, C75 `delete_to_char_partial`) leaves out a count of zero, the character NUL and, for repeating in the other direction, a count that is only a minus sign. C75 is not about deleting while characters are overwritten, and for `c` (`change_removes_region_partial`, `change_word_removes_word`) not about motions by words at the very end of the line. C73 requires at most 999999999 changes where everything is undone.

Left out of functions (C79, C80): autoloading and the execution of functions, `hashondef` (which only fills the cache of command paths), `print_builtin_help`, errors in writing the listing, and alias substitution and functions named like the built-ins when a listing is executed. C80 is `_partial`: the bodies have the limits of C55 (`CommandOk`; here-documents are not in the parser model), and names as in Findings.

Left out of reading keys (C81): the display, the alert and messages; `wait_for_input`, `read` and traps (the events are arbitrary), the difference between an error of `read` and one of waiting; where the key codes come from (terminfo.c), how the answer of the terminal gets into the prebuffer; `cmd_expect_verbatim` in the editor of C74–C78 (the terminal of C81 has it). In `nothing_lost_partial` nothing is taken verbatim.

Left out of completion (C82): the display of candidates, columns and pages (`le_display_select_column`), sorting and the removal of duplicates, all candidate generation and the completion functions, the prefix that is ignored in candidates; variables, tildes, braces, assignments, redirections and compound commands as contexts (`getContext` is `none` for these lines; `OnWord` is about ordinary words); aliases.

Left out of key bindings (C83): `--help`, messages, errors in writing, and how wide characters are converted (an ASCII string is assumed to be encoded by its own bytes and nothing else by them). `bsearch` is the one of the GNU C library. The listing does not mention key sequences that were unbound, so it makes two shells agree only where the second binds no more than the first (`bindings_equal`). In the POSIXly correct mode the built-in refuses all its options (`posix_refuses`).

Left out of the alias built-ins (C84): `--help`, messages, errors in writing, the message of `command -V`, and alias substitution while a listing is executed (a listing may contain a global alias for one of its own words). The sorting of the listing is any function that permutes its argument. Where the theorems are `_partial`, the names must be without `{`, `*`, `?`, `[` and `~`.

Left out of mail checking (C85): the expansion of messages (`parse_and_expand_string`), where `check_mail` is called, and the conversion of paths to bytes (any function). What `stat` says about a path does not change during one check. `MAILPATH` with a backslash at its very end (which is ignored in a path) is covered by the model but not by the theorems about what is looked at; every other value is covered (`every_value`).

Left out of `ulimit` (C86): messages, help, translation of "unlimited", the long names of the options in the theorems (they are in the model), resources that the system lacks, and errors of writing. Options are read by `Xgetopt.Spec.parse`, to which `xgetopt` has been proved equal (C04, C05).

Left out of `kill` (C87): messages, help, and failures of writing. `long` has 64 bits and `pid_t` has 32 bits, and the conversion reduces modulo 2^32. Arguments that mix `-l` with a signal (errors) are in the model but not in the theorems. Names for which the code fails an assertion (`RTMAX-0`, see C54) are excluded.

Left out of `command` and `type` (C88): messages, help, failures of writing and of conversions between wide and multibyte strings. That the pathname is absolute is proved for external commands (`absolute_partial`) unless `PWD` is a relative name of the current directory (`pwd_relative`); it is false for substitutive built-ins (`substitutive_relative`). Lines for aliases restore them if the name needs no quoting (see C84).

Left out of `break`, `continue`, `return` and `exit` (C89): messages, help, the phantom process that does not execute the `EXIT` trap, saving the history on exit, and the end of input in place of `exit` (yash.c:573-588). The number of stopped jobs does not change during the lines of `exit_warned`.

Left out of tilde expansion (C90): that the words come from the parser in units that are as long as possible; quotes and expansions in the values of assignments; conversions of the name and the directory between wide and multibyte strings.

Left out of `hash` (C91): failures of printing and of the conversion between wide and multibyte strings; the order in which the entries are printed; --help prints the help and changes nothing. `getpwnam` is a function of the name at the time of the event.

Left out of conversions (C92): the code for systems without `wcsnrtombs`; overflow of sizes and failure of allocation (the shell exits); that `vsnprintf` cannot return more than `INT_MAX`.

Left out of the start of the shell (C93): arguments that cannot be converted to wide strings; the initialization of modules and of variables; `ensure_foreground` and signals; the file descriptors of files that are executed; the execution of the input itself.

Left out of `.` and `exec` (C94): the contents of an environment other than positional parameters; the execution of the commands of the file; how redirections of `exec` are kept, which is in the model of redirections; signals; other ways than `/proc/self/exe` to find the shell itself; the text of messages; the empty name.

Left out of `eval` (C95): the parsing and execution of the commands; the name given to the code in messages.

Left out of the model of the history (C62, C63, C64): shells that are killed while they have locked the file, errors of reading and writing it, conversions between wide and
multibyte strings (so `LINE_MAX` counts characters), the formats and times that `fc -l` and `history` print, and how `fc` calls the editor
and executes the result. All shells have the same settings. C63 assumes about the C library only that printed numbers are read back
(`LibcOk`, which `History.Ascii` satisfies), that the clock does not go back, and that `process_exists` is true of running shells.

What cannot be expressed here: signal delivery timing, terminal output, real file system races,
memory exhaustion, locale collation tables.

## Findings

Each entry is a behaviour of the code that contradicts, or is narrower than, what a user would
expect. Where a theorem exhibits it the name is given.

* Option parser (`xgetopt`): an exact long option name is reported as ambiguous when two longer
  names with the same beginning are listed before it; the argument left by an earlier option stays
  visible after a long option with an optional argument. (negative theorems in `Xgetopt.Props`)
* Parameter expansion (by reading): `${x:/p/r}` sets the same flag as `${x:-w}`, so with `set -u` a variable
  that is set but empty counts as unset; in `${${x}:/p/r}` the error message then prints a member of a union
  that holds a pointer. When text that starts like `$((` turns out to be a command substitution, line
  continuations have already been removed from it, even inside single quotes.
* Arithmetic: converting a floating value out of range of `long` (`1e30 & 1`) is undefined
  behaviour in C and is the `ub` outcome of the model; `x=y` copies the text of `y` and the value
  of the assignment still names `y`, so that `(x=y)=5` assigns to `y`; `1?x:y=3` assigns to `x`;
  `08` is read as the floating number 8 outside POSIX mode.
* Brace expansion: `{5..1..1}` gives only `5`: a step whose sign disagrees with the direction gives the
  start alone.
* Patterns: a quoted `.`, `:` or `=` right after an unquoted `[` inside a bracket expression loses
  its quotation (`Fnmatch.C19_quoted_period`, `Fnmatch.C19_quoted_class`): `[[\.]` matches nothing and
  `[[\:alpha:]]` is a character class.
* Substitution: `${x:/*/y}` with an empty `x` gives the empty string although `*` matches it
  (`Fnmatch.C20_whole_empty`).
* Version comparison of `test` is not transitive in locales whose collation ignores punctuation at
  first: `-5` < `+9` < `+10` < `-5` (`TestBuiltin.C23_cycle`).
* Aliases: the parser goes back to the first parenthesis when text that starts like an arithmetic
  expansion is not one (`tryparse_arith`), but the text in between has been alias-substituted and the
  limits of the aliases have expired. So `$(( $(x;z) ) )` with `x='x y'` replaces `x` a second time
  (`Alias.C24_rewound`), and by reading the code `x='$(( $(x;z) ) )'` makes the parser substitute for
  ever: each level that is read again finds `x` free in the next one.
* Variables: `shift -A name` changes a read-only array (`Variable.C25_shift_violates`), and a read-only
  `LINENO` or `RANDOM` still changes (`Variable.C25_getter_violates`).
* Variables: `array -d`, `-i`, `-s` and `shift -A` on an exported array leave the old value in the
  environment of commands (`Variable.C26_edit_violates`); on an array named `PATH`, `CDPATH` or
  `YASH_LOADPATH` they, and the assignment of an element by `${PATH[1]:=x}`, leave the old
  directories in use (`Variable.C40_edit_violates`).
* Variables: a shell started with `RANDOM` in its environment passes the old value to commands though
  the variable is not exported any more (`Variable.C26_random_violates`).
* Variables: `export =x` makes a variable with an empty name, for which `setenv` fails; the model
  leaves the environment alone then, and C26 speaks of other names only.
* getopts: after an option whose argument is missing `OPTIND` is the number of arguments plus two, so
  that `shift $((OPTIND-1))` fails (`Getopts.C29_missing_violates`). Called once more after it has
  reported the end at `--`, it parses the operand after `--` as an option.
* Aliases: a value that ends with a backslash forms a line continuation with the newline after it; the
  limit index then lies inside the next word, and if that word is an alias with a shorter value an
  assertion in `shift_aliaslist_index` fails (`Alias.C24_abort`).
* umask: the operator of a symbolic mask is stored in a `char`, so a wide character whose code is that
  of `+`, `-` or `=` modulo 256 is accepted as an operator: `umask aīr` (U+012B) succeeds
  (`Path.C32_wide_operator_violates`).
* Permission check: the loop over the supplementary groups in `check_access` compares them with the
  effective group ID instead of the group of the file. Where the system cannot check access itself,
  files of a supplementary group are judged by the permissions of others, and if the effective group is
  listed among the supplementary groups, all other people's files are judged by the permissions of
  their group (`Path.C34_wrong`, `Path.C34_supplementary_violates`).
* cd: `cd -P` in a directory that has been removed, with `PWD` set to something that is not an absolute
  path, fails an assertion (`Path.C42_no_abort` shows that this is the only such case); in a build without
  assertions `OLDPWD` gets the wrong value. When `getcwd` fails after `cd -P`, the command succeeds and
  `PWD` remains the old path. A read-only `PWD` does not keep `cd` from changing the directory.
* Directory stack: `pushd +n` finds the array index before it changes the directory, so a script in
  `YASH_AFTER_CD` that changes `DIRSTACK` makes it remove another entry or one that does not exist
  (`Path.C30_hook_violates`); `popd` keeps a pointer to the variable across the script. If `DIRSTACK` is
  not an array or read-only, `pushd` fails only after it has changed the directory. If `popd` cannot
  change to the directory, the entry is lost all the same.
* Redirections: if a descriptor cannot be saved for a reason other than its being closed (all descriptors
  are in use, or `ulimit -n` is so low that none may be used for this), yash prints an error but performs
  the redirection, which is then never undone (`Redir.C45_unsaved_not_undone`). A redirection of a
  descriptor beyond the limit fails, but the file that has been opened for it stays open
  (`Redir.C45_beyond_limit_leaks`). In `n>>|m` with a large closed `n` the copy of `m` may be saved as
  descriptor `n` itself, which the pipe then overwrites: after `{ :; } 100>>|0` the standard input is the
  output side of the pipe (`Redir.C45_pipe_clobbers_copy`). `n>&n` succeeds if `n` is closed
  (`Redir.C45_self_copy_of_closed`). If there can be more than `FD_SETSIZE` descriptors, the set of the
  shell's descriptors is accessed out of bounds (`none` in `nextMax`, `clearShell`).
* noclobber: were `fstat` to fail on the opened file, a regular file would be accepted
  (`Redir.File.C46_stat_failure_accepts`).
* Control flow: `return` with a status in the condition of `if` loses the status: after
  `f() { if return 3; then :; fi; }`, `f` returns 0 (`Exec.C47_if_return`). `exec_if` sets the status to
  zero when no condition was true, even if it stops because of `return`. Scripts that do not do that have
  the documented outcome (`Exec.C47_documented_partial`); `Exec.C47_script_partial` describes the others too.
* Signals: in an asynchronous list without job control, where `SIGINT` and `SIGQUIT` are ignored, a nested
  subshell makes them have the default action again if the parent of the list had a trap command for them and
  any signal has been received in the list: `trap 'echo x' INT; { /bin/true; (sleep 100); } &`. The trap is
  remembered for `trap -p`, and `phantomize_traps` resets it a second time (`Sig.C51_lost_ignore`).
* Traps: `handled_signal` is not reset in a subshell, so traps set in a subshell that was started from the
  action of a trap are never executed (`Sig.C53_child_of_action`).
- `RTMAX-0` as a signal name (`kill -s RTMAX-0`, `trap - RTMAX-0`) fails `assert(num < 0)` in `get_signal_number` (sig.c:187,
  `Sig.Names.C54_rtmax_zero`).
* Printing commands (C55, all in `Parser.Quirks`): a space quoted by a backslash at the end of a word is
  printed as part of the separator and removed: `echo a\ ` becomes `echo a\` (`escaped_space`), and `a=(x\ )` becomes
  `a=(x\)`, which is a syntax error (`escaped_space_in_array`). A command in backquotes is printed as `$(…)`, so that an error in it
  is found earlier (`backquotes_error`). A file descriptor that is too large is printed as the word `-1` (`large_fd`). A
  function named by a keyword, or whose body is another function, is printed as a syntax error (`keyword_function`,
  `nested_function`); one with a name that ends with `$` gets another name (`dollar_function`). `${x/}` becomes
  `${x//}` (`empty_pattern`). `[[ (a || b) || c ]]` loses its parentheses, which changes the tree but not the meaning
  (`bracket_groups`). A keyword after a redirection is printed first, with a backslash (`keyword_word`). A backslash at the end
  of the input joins lines when it is printed (`backslash_at_end`).
* Parsing: line continuations are not removed after a special parameter in braces: `${@\<newline>}` is a syntax error
  (`Parser.Quirks.continuation_after_special`). When `$((` turns out to be a command substitution, line continuations are
  removed even inside single quotes (`Parser.Quirks.continuation_in_quotes`).
* Listings of variables (C57, in `Restore.Quirks`): a variable whose name begins with a hyphen, which can come from the environment, is
  printed without `--`, and the name is taken for options (`C57_hyphen_lost`). An array with a name that is not a proper one
  (`array 'a b' x`) is printed as `'a b'=(x)`, a syntax error (`C57_array_name_lost`). If the listing is executed in a function, arrays
  are assigned in the global scope and the local variable has no value (`C57_array_in_function`). In the POSIXly-correct mode `typeset -p`
  prints options that it does not accept (`C57_posix_lost`). Restoring `LINENO` and `RANDOM` makes them ordinary variables. With a temporary
  scope innermost `typeset -p` lists only the temporary variables (`allVariables`): the condition in
  `make_array_of_all_variables` looks inverted.
* Jobs (C59, C60, in `Job.Quirks`): if no process of a pipeline can be created, the shell waits for it forever, or the job is running forever
  (`no_process_hangs`, `no_process_running_forever`), because the job is marked as running whatever its processes are. If the action of a
  trap removes the job that `wait` waits for, the shell uses it after it has been freed (`wait_uses_removed_job`). `jobs` may mark two jobs
  with `+` in the same listing (`two_current_jobs`). Between an event and the next prompt the current job need not be a stopped one, so `fg`
  in a list of commands may continue a running job although another one has stopped (`current_job_not_stopped`). On systems that do not report that processes are continued, a job continued with `bg` is
  taken to be stopped as soon as one of its processes has ended (`continued_job_looks_stopped`).
* Options (C61): if `exec` is off, the listing of `set +o` turns it off before the options that come after it in the alphabet, so that a
  shell that is not interactive ignores the rest of the listing (`options_not_restored`).
* Null bytes (C65): `read_input` does not pass a null character: it stays in the buffer. If it came from a pipe or a terminal, every later `read` from anything that is not a regular file ends at once without reading, even if the standard input has been redirected in the meantime (`C65_nul_never_passed`, `C65_nul_stays`).
* `read -A` (C66): a line that consists of one empty field (for example `-` when `IFS` is `-`) gives an empty array, although `set -- $line` gives one empty field.
* `printf '%c' '' a` (C68): `%c` does not take an empty operand, so nothing is printed and `a` is lost; in longer formats the following conversion gets the empty operand (`C68_empty_operand_lost`).
* `printf '%.1b' é` (C68) prints only the first byte of the character, although the manual says that yash never does that (`C68_character_cut`).
* `**/x` (C70) does not find files that are 255 or more directories deep, because the depth is counted in an unsigned char that becomes zero (`C70_depth_violated`).
* `***/**/x` (C70): the check that a directory is not entered again fails if two searches for directories are adjacent, because the second one overwrites what was recorded about the directory: where `loop` is a link to its own directory, `***/x` finds two pathnames and `***/**/x` 255 (`C70_loop_violated`).
* A symbolic link that refers to nothing is found by `**/x` but not by `d/x` or `*/x` if its name is `x` (C69 requires only that a name is listed or refers to a file), and if a directory cannot be read and two or more names are searched for in it, the patterns are also tried on these names.
* A redirection to a pattern that no file matches is reported as one that matches more than one file unless the shell is POSIXly correct (expand.c:343-366; from reading, not modelled).
* Here-documents (C72): the word in `${x-'a'}` is treated as outside double quotes, so that its quotation marks are removed, although elsewhere in a here-document they are kept (`open_heredocument` expands with `Q_INDQ`, which `expand_param` is not told of; from reading).
* Line editing (C73–C78): if no prediction is shown, `just-one-space` between two characters that are not blank adds to the length of the typed part, which then is `SIZE_MAX`, so that it wraps around to zero, and everything after the cursor is lost: `ab|cd` becomes `ab ` (`just_one_space_loses_text`). `dT` with the cursor just behind the character deletes the character under the cursor, although the motion goes nowhere (`delete_back_till_deletes_char`). With only a minus sign as the count, repeating a search for a character in the other direction does not move (`refind_back_ignores_minus`).
* Listing functions (C80): a function whose name is a keyword (`function if { …; }`) is printed as `if()`, which is a syntax error (`keyword_lost`). A read-only function whose name begins with a hyphen (`function -x { …; }`) is printed with `typeset -fr -x`, where the name is taken for an option, so that it is not made read-only again (`hyphen_lost`).
* Completion (C82): where the word ends with a backslash and there are several candidates, selecting one fails the assertion that the backslash is there, because the completion before has removed it (`Complete.Ex.selection_after_backslash_fails`). Builds without assertions (the default) insert the candidate as expected.
* Completion (C82): where all candidates are inserted, an empty candidate vanishes (`empty_candidate_lost`); so does an empty candidate of a word that is a single backslash (`empty_candidate_after_backslash`). A single empty candidate otherwise is inserted as `""`.
* Reading keys (C81): if a typed text begins like a key sequence to which a command is bound but goes on in another way, none of its characters is inserted: with `jk` bound, typing `ja` only gives an alert (`text_like_key_lost`).
  If reading a line is interrupted after the first byte of a multibyte character, `incomplete_wchar` stays set, so that the first key of the next line is not recognised: the interrupt character is taken as a character (`key_after_interruption`).
  A null byte in the first buffer makes the reader forget the bytes behind it (`Sorts.nul`).
  With the count 0 putting killed text at the beginning of an empty line fails an assertion (`put_zero_times_fails`). `put-pop` after a put that was refused because an operator was pending uses the place of an older put, which may be
  beyond the end of the line (`put_pop_after_refused_put_fails`). The backward motions by bigwords, semiwords and emacswords do not stop at a word that starts at the second character: `M-DEL` after `$foo` deletes the `$` too (`backward_word_misses`).
  `r` in vi mode does not record the line for undo, so that `x`, `ra` and `u` undo both (`replace_char_not_recorded`).
  Only one edited line is kept: if a line of the history is edited, the line that was typed before is lost (`edit_forgets_line`).
* History (C62, C64): when the numbers have started again, looking for a number beyond them all follows the links out of the list and reads
  memory that is not an entry (`beyond_undefined`), for `fc` and `history -d` alike. `entry_is_newer` is true of an entry and itself, so
  `fc -l 3 5` leaves the list if the places touch, for instance if there is an entry 5 but none with 3 or 4 (`fc_touching_undefined`).
  `fc -l -2147483648` negates the least number (`fc_int_min`). A line of the history file with the number 0 fails an assertion.
  `HISTSIZE` is reduced modulo 4294967296, so that 4294967296 leaves a single entry (`histsize_wraps`). `history -d -N` with `N` larger
  than the history deletes the oldest entry.
  A command line whose length reaches `LINE_MAX` is kept by the shell but not written to the file (`long_value_not_written`), so that other
  shells do not have it, and the shell itself loses it when it reads the file again; C63 is about lines that are shorter than that by 34.
- `alias -p` prints the value of an alias with quotes, but not its name. Valid names may contain `{`, `*`, `?`, `[` and `~`: after `alias 'a{b,c}=x'` the printed command `alias a{b,c}=x` defines `ab` and `ac` instead of `a{b,c}` (`Alias.name_unquoted`).
* `kill` (sig.c:1432): "XXX this cast might not be safe". An operand that is a valid `long` but not a valid `pid_t` is not refused: the signal is sent to the process (or the process group, or all processes) whose number is the operand modulo 2^32, so `kill 4294967295` is `kill -1`, which sends the signal to every process that may get it (`Kill.kill_wraps`).
* `command -v` (exec.c:2494-2510) prints the path of a substitutive built-in as it was found. If `PATH` has a relative directory, a relative pathname is printed for such a built-in, but an absolute one for every other command in the same directory (`Command.substitutive_relative`). POSIX requires absolute pathnames for both.
* `command -v` (exec.c:2541-2546) takes the value of `PWD` as the directory if it names the current directory, without checking that it is absolute: after `PWD=.`, the printed pathname is relative (`Command.pwd_relative`).
* `break` and `continue` (exec.c:1949) read the operand with `wcstoul`, which accepts a minus sign: `break -- -1` is not an error, but leaves all loops (`Leave.break_negative`), although `break 0` is an error. The base is 0, so `break 010` leaves eight loops; POSIX says decimal integer.
* `~` (expand.c:430-436): if `HOME` is set but empty, `~` expands to no field, because the empty result of tilde expansion is removed like that of a variable (`Expand.tilde_empty`). POSIX requires an empty field in this case.
* `hash -d user` (path.c:1610-1612): if the user does not exist any more, an error is reported, but the remembered directory stays and `~user` still expands to it (`Hash.hash_stale`); a command that is not found any more is forgotten.
* `wb_vwprintf` (strbuf.c:451-474) tries at most 20 times with a buffer that is twice as large each time; on systems where `vswprintf` returns a negative number if the buffer is too small, a longer text is lost with an error although there is enough memory (`Buf.C92_vwprintf_partial`). A failure of another kind, such as a character that cannot be converted, is tried 20 times too, with a buffer of at least a million characters in the end.
* `main` (yash.c:190-199): if the shell is executed with an empty array of arguments (`argc` is 0), then `xoptind` is 1 and not equal to `argc`, so that the standard input is not chosen; `argv[1]` and `wargv[1]` are read, which are outside the arrays (`Startup.startup_no_name`). On systems that allow this, what is opened as a script is usually the first string of the environment.
* `exec -c` (exec.c:2276-2284) makes one string of the environment for each assignment: after `A=1 A=2 exec -c env`, the environment contains `A=2` twice (an example in `Source/Examples.lean`). Without `-c`, every variable is in it once.
* `.` (exec.c:2108-2109, 2093-2097): a file name that cannot be converted gives status 2, but unlike all other errors of `.` it does not make a POSIXly-correct shell exit (`Source.unconvertible`).
