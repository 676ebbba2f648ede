/-!
# The editing commands and the initial key bindings

Written out from lineedit/editing.h, lineedit/key.h and lineedit/keymap.c.
-/
set_option autoImplicit false

namespace Yash.Bindkey

/-- The list of the characters of a string, written out. -/
local macro "c!" s:str : term => do
  let cs : Array (Lean.TSyntax `term) := s.getString.toList.toArray.map fun c => Lean.Syntax.mkCharLit c
  `([$cs,*])

/-- The editing modes (`le_mode_id_T`, lineedit/keymap.h:34-42). -/
inductive Mode where
  | viInsert | viCommand | viSearch | emacs | emacsSearch | charExpect
deriving DecidableEq, Repr

/-- The lines of lineedit/editing.h:54-233 that end with `/*C*/`: the first word that starts with `cmd_`, without that prefix. -/
def identifiers : List (List Char) :=
  [c!"noop", c!"alert", c!"self_insert", c!"insert_tab", c!"expect_verbatim", c!"digit_argument", c!"bol_or_digit", c!"accept_line", c!"abort_line", c!"eof",
   c!"eof_if_empty", c!"eof_or_delete", c!"accept_with_hash", c!"accept_prediction", c!"setmode_viinsert", c!"setmode_vicommand", c!"setmode_emacs", c!"expect_char",
   c!"abort_expect_char", c!"redraw_all", c!"clear_and_redraw_all", c!"forward_char", c!"backward_char", c!"forward_bigword", c!"end_of_bigword",
   c!"backward_bigword", c!"forward_semiword", c!"end_of_semiword", c!"backward_semiword", c!"forward_viword", c!"end_of_viword", c!"backward_viword",
   c!"forward_emacsword", c!"backward_emacsword", c!"beginning_of_line", c!"end_of_line", c!"go_to_column", c!"first_nonblank", c!"find_char", c!"find_char_rev",
   c!"till_char", c!"till_char_rev", c!"refind_char", c!"refind_char_rev", c!"delete_char", c!"delete_bigword", c!"delete_semiword", c!"delete_viword",
   c!"delete_emacsword", c!"backward_delete_char", c!"backward_delete_bigword", c!"backward_delete_semiword", c!"backward_delete_viword",
   c!"backward_delete_emacsword", c!"delete_line", c!"forward_delete_line", c!"backward_delete_line", c!"kill_char", c!"kill_bigword", c!"kill_semiword",
   c!"kill_viword", c!"kill_emacsword", c!"backward_kill_char", c!"backward_kill_bigword", c!"backward_kill_semiword", c!"backward_kill_viword",
   c!"backward_kill_emacsword", c!"kill_line", c!"forward_kill_line", c!"backward_kill_line", c!"put_before", c!"put", c!"put_left", c!"put_pop", c!"undo", c!"undo_all",
   c!"cancel_undo", c!"cancel_undo_all", c!"redo", c!"complete", c!"complete_next_candidate", c!"complete_prev_candidate", c!"complete_next_column",
   c!"complete_prev_column", c!"complete_next_page", c!"complete_prev_page", c!"complete_list", c!"complete_all", c!"complete_max", c!"complete_max_then_list",
   c!"complete_max_then_next_candidate", c!"complete_max_then_prev_candidate", c!"clear_candidates", c!"vi_replace_char", c!"vi_insert_beginning", c!"vi_append",
   c!"vi_append_to_eol", c!"vi_replace", c!"vi_switch_case", c!"vi_switch_case_char", c!"vi_yank", c!"vi_yank_to_eol", c!"vi_delete", c!"vi_delete_to_eol",
   c!"vi_change", c!"vi_change_to_eol", c!"vi_change_line", c!"vi_yank_and_change", c!"vi_yank_and_change_to_eol", c!"vi_yank_and_change_line", c!"vi_substitute",
   c!"vi_append_last_bigword", c!"vi_exec_alias", c!"vi_edit_and_accept", c!"vi_complete_list", c!"vi_complete_all", c!"vi_complete_max", c!"vi_search_forward",
   c!"vi_search_backward", c!"emacs_transpose_chars", c!"emacs_transpose_words", c!"emacs_upcase_word", c!"emacs_downcase_word", c!"emacs_capitalize_word",
   c!"emacs_delete_horizontal_space", c!"emacs_just_one_space", c!"emacs_search_forward", c!"emacs_search_backward", c!"emacs_search_forward_current",
   c!"emacs_search_backward_current", c!"oldest_history", c!"newest_history", c!"return_history", c!"oldest_history_bol", c!"newest_history_bol",
   c!"return_history_bol", c!"oldest_history_eol", c!"newest_history_eol", c!"return_history_eol", c!"next_history", c!"prev_history", c!"next_history_bol",
   c!"prev_history_bol", c!"next_history_eol", c!"prev_history_eol", c!"srch_self_insert", c!"srch_backward_delete_char", c!"srch_backward_delete_line",
   c!"srch_continue_forward", c!"srch_continue_backward", c!"srch_accept_search", c!"srch_abort_search", c!"search_again", c!"search_again_rev",
   c!"search_again_forward", c!"search_again_backward", c!"beginning_search_forward", c!"beginning_search_backward"]

/-- The functions are identified by their names, and there is one macro (lineedit/editing.h:170). -/
def function (identifier : List Char) : List Char :=
  if identifier = c!"vi_delete_to_eol" then c!"forward_kill_line" else identifier

/-- lineedit/keymap.c:71-101. -/
def viInsertKeys : List (List Char × List Char) :=
  [(c!"\\\\", c!"self_insert"), (c!"\\^V", c!"expect_verbatim"), (c!"\\R", c!"forward_char"), (c!"\\L", c!"backward_char"), (c!"\\H", c!"beginning_of_line"),
   (c!"\\E", c!"end_of_line"), (c!"\\et", c!"accept_line"), (c!"\\^J", c!"accept_line"), (c!"\\^M", c!"accept_line"), (c!"\\!", c!"abort_line"), (c!"\\^C", c!"abort_line"),
   (c!"\\#", c!"eof_if_empty"), (c!"\\^D", c!"eof_if_empty"), (c!"\\^[", c!"setmode_vicommand"), (c!"\\^L", c!"redraw_all"), (c!"\\X", c!"delete_char"),
   (c!"\\B", c!"backward_delete_char"), (c!"\\?", c!"backward_delete_char"), (c!"\\^H", c!"backward_delete_char"), (c!"\\^W", c!"backward_delete_semiword"),
   (c!"\\$", c!"backward_delete_line"), (c!"\\^U", c!"backward_delete_line"), (c!"\\^I", c!"complete_next_candidate"), (c!"\\bt", c!"complete_prev_candidate"),
   (c!"\\D", c!"next_history_eol"), (c!"\\^N", c!"next_history_eol"), (c!"\\U", c!"prev_history_eol"), (c!"\\^P", c!"prev_history_eol")]

/-- lineedit/keymap.c:103-195. -/
def viCommandKeys : List (List Char × List Char) :=
  [(c!"\\^[", c!"noop"), (c!"1", c!"digit_argument"), (c!"2", c!"digit_argument"), (c!"3", c!"digit_argument"), (c!"4", c!"digit_argument"), (c!"5", c!"digit_argument"),
   (c!"6", c!"digit_argument"), (c!"7", c!"digit_argument"), (c!"8", c!"digit_argument"), (c!"9", c!"digit_argument"), (c!"0", c!"bol_or_digit"),
   (c!"\\et", c!"accept_line"), (c!"\\^J", c!"accept_line"), (c!"\\^M", c!"accept_line"), (c!"\\!", c!"abort_line"), (c!"\\^C", c!"abort_line"), (c!"\\#", c!"eof_if_empty"),
   (c!"\\^D", c!"eof_if_empty"), (c!"#", c!"accept_with_hash"), (c!"i", c!"setmode_viinsert"), (c!"\\I", c!"setmode_viinsert"), (c!"\\^L", c!"redraw_all"),
   (c!"l", c!"forward_char"), (c!" ", c!"forward_char"), (c!"\\R", c!"forward_char"), (c!"h", c!"backward_char"), (c!"\\L", c!"backward_char"), (c!"\\B", c!"backward_char"),
   (c!"\\?", c!"backward_char"), (c!"\\^H", c!"backward_char"), (c!"W", c!"forward_bigword"), (c!"E", c!"end_of_bigword"), (c!"B", c!"backward_bigword"),
   (c!"w", c!"forward_viword"), (c!"e", c!"end_of_viword"), (c!"b", c!"backward_viword"), (c!"\\H", c!"beginning_of_line"), (c!"$", c!"end_of_line"),
   (c!"\\E", c!"end_of_line"), (c!"^", c!"first_nonblank"), (c!"f", c!"find_char"), (c!"F", c!"find_char_rev"), (c!"t", c!"till_char"), (c!"T", c!"till_char_rev"),
   (c!";", c!"refind_char"), (c!",", c!"refind_char_rev"), (c!"x", c!"kill_char"), (c!"\\X", c!"kill_char"), (c!"X", c!"backward_kill_char"), (c!"P", c!"put_before"),
   (c!"p", c!"put"), (c!"u", c!"undo"), (c!"U", c!"undo_all"), (c!"\\^R", c!"cancel_undo"), (c!".", c!"redo"), (c!"|", c!"go_to_column"), (c!"r", c!"vi_replace_char"),
   (c!"I", c!"vi_insert_beginning"), (c!"a", c!"vi_append"), (c!"A", c!"vi_append_to_eol"), (c!"R", c!"vi_replace"), (c!"~", c!"vi_switch_case_char"), (c!"y", c!"vi_yank"),
   (c!"Y", c!"vi_yank_to_eol"), (c!"d", c!"vi_delete"), (c!"D", c!"vi_delete_to_eol"), (c!"c", c!"vi_change"), (c!"C", c!"vi_change_to_eol"), (c!"S", c!"vi_change_line"),
   (c!"s", c!"vi_substitute"), (c!"_", c!"vi_append_last_bigword"), (c!"@", c!"vi_exec_alias"), (c!"v", c!"vi_edit_and_accept"), (c!"=", c!"vi_complete_list"),
   (c!"*", c!"vi_complete_all"), (c!"\\\\", c!"vi_complete_max"), (c!"?", c!"vi_search_forward"), (c!"/", c!"vi_search_backward"), (c!"n", c!"search_again"),
   (c!"N", c!"search_again_rev"), (c!"G", c!"oldest_history_bol"), (c!"g", c!"return_history_bol"), (c!"j", c!"next_history_bol"), (c!"+", c!"next_history_bol"),
   (c!"\\D", c!"next_history_bol"), (c!"\\^N", c!"next_history_bol"), (c!"k", c!"prev_history_bol"), (c!"-", c!"prev_history_bol"), (c!"\\U", c!"prev_history_bol"),
   (c!"\\^P", c!"prev_history_bol")]

/-- lineedit/keymap.c:197-213. -/
def viSearchKeys : List (List Char × List Char) :=
  [(c!"\\^V", c!"expect_verbatim"), (c!"\\!", c!"abort_line"), (c!"\\^C", c!"abort_line"), (c!"\\^L", c!"redraw_all"), (c!"\\\\", c!"srch_self_insert"),
   (c!"\\B", c!"srch_backward_delete_char"), (c!"\\?", c!"srch_backward_delete_char"), (c!"\\^H", c!"srch_backward_delete_char"),
   (c!"\\$", c!"srch_backward_delete_line"), (c!"\\^U", c!"srch_backward_delete_line"), (c!"\\et", c!"srch_accept_search"), (c!"\\^J", c!"srch_accept_search"),
   (c!"\\^M", c!"srch_accept_search"), (c!"\\^[", c!"srch_abort_search")]

/-- lineedit/keymap.c:215-303. -/
def emacsKeys : List (List Char × List Char) :=
  [(c!"\\\\", c!"self_insert"), (c!"\\^[\\^I", c!"insert_tab"), (c!"\\^Q", c!"expect_verbatim"), (c!"\\^V", c!"expect_verbatim"), (c!"\\^[0", c!"digit_argument"),
   (c!"\\^[1", c!"digit_argument"), (c!"\\^[2", c!"digit_argument"), (c!"\\^[3", c!"digit_argument"), (c!"\\^[4", c!"digit_argument"), (c!"\\^[5", c!"digit_argument"),
   (c!"\\^[6", c!"digit_argument"), (c!"\\^[7", c!"digit_argument"), (c!"\\^[8", c!"digit_argument"), (c!"\\^[9", c!"digit_argument"), (c!"\\^[-", c!"digit_argument"),
   (c!"\\et", c!"accept_line"), (c!"\\^J", c!"accept_line"), (c!"\\^M", c!"accept_line"), (c!"\\!", c!"abort_line"), (c!"\\^C", c!"abort_line"),
   (c!"\\#", c!"eof_or_delete"), (c!"\\^D", c!"eof_or_delete"), (c!"\\^[#", c!"accept_with_hash"), (c!"\\^L", c!"redraw_all"), (c!"\\R", c!"forward_char"),
   (c!"\\^F", c!"forward_char"), (c!"\\L", c!"backward_char"), (c!"\\^B", c!"backward_char"), (c!"\\^[f", c!"forward_emacsword"), (c!"\\^[F", c!"forward_emacsword"),
   (c!"\\^[b", c!"backward_emacsword"), (c!"\\^[B", c!"backward_emacsword"), (c!"\\H", c!"beginning_of_line"), (c!"\\^A", c!"beginning_of_line"),
   (c!"\\E", c!"end_of_line"), (c!"\\^E", c!"end_of_line"), (c!"\\^]", c!"find_char"), (c!"\\^[\\^]", c!"find_char_rev"), (c!"\\X", c!"delete_char"),
   (c!"\\B", c!"backward_delete_char"), (c!"\\?", c!"backward_delete_char"), (c!"\\^H", c!"backward_delete_char"), (c!"\\^[d", c!"kill_emacsword"),
   (c!"\\^[D", c!"kill_emacsword"), (c!"\\^[\\B", c!"backward_kill_emacsword"), (c!"\\^[\\?", c!"backward_kill_emacsword"),
   (c!"\\^[\\^H", c!"backward_kill_emacsword"), (c!"\\^K", c!"forward_kill_line"), (c!"\\$", c!"backward_kill_line"), (c!"\\^U", c!"backward_kill_line"),
   (c!"\\^X\\B", c!"backward_kill_line"), (c!"\\^X\\?", c!"backward_kill_line"), (c!"\\^Y", c!"put_left"), (c!"\\^[y", c!"put_pop"), (c!"\\^[Y", c!"put_pop"),
   (c!"\\^W", c!"backward_kill_bigword"), (c!"\\^_", c!"undo"), (c!"\\^X\\^U", c!"undo"), (c!"\\^X\\$", c!"undo"), (c!"\\^[\\^R", c!"undo_all"), (c!"\\^[r", c!"undo_all"),
   (c!"\\^[R", c!"undo_all"), (c!"\\^I", c!"complete_next_candidate"), (c!"\\bt", c!"complete_prev_candidate"), (c!"\\^[=", c!"complete_list"),
   (c!"\\^[?", c!"complete_list"), (c!"\\^[*", c!"complete_all"), (c!"\\^T", c!"emacs_transpose_chars"), (c!"\\^[t", c!"emacs_transpose_words"),
   (c!"\\^[T", c!"emacs_transpose_words"), (c!"\\^[l", c!"emacs_downcase_word"), (c!"\\^[L", c!"emacs_downcase_word"), (c!"\\^[u", c!"emacs_upcase_word"),
   (c!"\\^[U", c!"emacs_upcase_word"), (c!"\\^[c", c!"emacs_capitalize_word"), (c!"\\^[C", c!"emacs_capitalize_word"),
   (c!"\\^[\\\\", c!"emacs_delete_horizontal_space"), (c!"\\^[ ", c!"emacs_just_one_space"), (c!"\\^S", c!"emacs_search_forward"),
   (c!"\\^R", c!"emacs_search_backward"), (c!"\\^[<", c!"oldest_history_eol"), (c!"\\^[>", c!"return_history_eol"), (c!"\\D", c!"next_history_eol"),
   (c!"\\^N", c!"next_history_eol"), (c!"\\U", c!"prev_history_eol"), (c!"\\^P", c!"prev_history_eol")]

/-- lineedit/keymap.c:305-324. -/
def emacsSearchKeys : List (List Char × List Char) :=
  [(c!"\\^V", c!"expect_verbatim"), (c!"\\et", c!"accept_line"), (c!"\\^M", c!"accept_line"), (c!"\\!", c!"abort_line"), (c!"\\^C", c!"abort_line"),
   (c!"\\^L", c!"redraw_all"), (c!"\\\\", c!"srch_self_insert"), (c!"\\B", c!"srch_backward_delete_char"), (c!"\\?", c!"srch_backward_delete_char"),
   (c!"\\^H", c!"srch_backward_delete_char"), (c!"\\$", c!"srch_backward_delete_line"), (c!"\\^U", c!"srch_backward_delete_line"),
   (c!"\\^S", c!"srch_continue_forward"), (c!"\\^R", c!"srch_continue_backward"), (c!"\\^J", c!"srch_accept_search"), (c!"\\^[", c!"srch_accept_search"),
   (c!"\\^G", c!"srch_abort_search")]

/-- lineedit/keymap.c:326-333. -/
def charExpectKeys : List (List Char × List Char) :=
  [(c!"\\^V", c!"expect_verbatim"), (c!"\\!", c!"abort_line"), (c!"\\^C", c!"abort_line"), (c!"\\\\", c!"expect_char"), (c!"\\^[", c!"abort_expect_char")]

/-- The initial bindings of the modes (`le_keymap_init`, lineedit/keymap.c:58-334), with the keys as in lineedit/key.h. -/
def initialKeys : Mode → List (List Char × List Char)
  | .viInsert => viInsertKeys
  | .viCommand => viCommandKeys
  | .viSearch => viSearchKeys
  | .emacs => emacsKeys
  | .emacsSearch => emacsSearchKeys
  | .charExpect => charExpectKeys

end Yash.Bindkey
