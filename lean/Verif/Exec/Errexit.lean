import Verif.Exec.Complete3
/-!
# What `errexit` and the `if` command can and cannot do
-/
set_option autoImplicit false

namespace Yash.Exec
open Yash.Syntax Spec

variable {σ ω ρ ι : Type} {E : Shell σ ω ρ ι}

/-- The same shell with another setting of `errexit` in each state. -/
def withErrexit (E : Shell σ ω ρ ι) (f : σ → Bool) : Shell σ ω ρ ι := { E with errexit := f }

theorem checked_ignored {c : Ctx} (hc : c.ignoreExit = true) (f : σ → Bool) (sig : Sig) (st : Nat) (s : σ) :
    (checked (withErrexit E f) c sig st s : Out σ ω) = checked E c sig st s := by
  simp only [checked, hc]; simp [withErrexit]; rfl

theorem out_checked_ignored {c : Ctx} (hc : c.ignoreExit = true) (f : σ → Bool) (o : Out σ ω) :
    o.checked (withErrexit E f) c = o.checked E c := by
  cases o with
  | done sig st s => exact checked_ignored hc f sig st s
  | exit st w => rfl

theorem matches_errexit (f : σ → Bool) {w : Str} {st : Nat} {ps : List Word} {s s' : σ} {r : Option Bool}
    (h : Matches E w st ps s s' r) : Matches (withErrexit E f) w st ps s s' r := by
  induction h with
  | nil s => exact .nil s
  | error p ps s s' h => exact .error p ps s s' h
  | found p ps s s' h => exact .found p ps s s' h
  | next p ps s s' s'' r h _ ih => exact .next p ps s s' s'' r h ih

theorem selects_errexit (f : σ → Bool) {w : Str} {st : Nat} {items : List CaseItem} {s s' : σ} {r : Option (Option (List AndOr))}
    (h : Selects E w st items s s' r) : Selects (withErrexit E f) w st items s s' r := by
  induction h with
  | nil s => exact .nil s
  | error ps b items s s' h => exact .error ps b items s s' (matches_errexit f h)
  | found ps b items s s' h => exact .found ps b items s s' (matches_errexit f h)
  | next ps b items s s' s'' r h _ ih => exact .next ps b items s s' s'' r (matches_errexit f h) ih

theorem resolves_errexit (f : σ → Bool) {name : Str} {argv : List Str} {st : Nat} {s : σ} {k : Kind} {st' : Nat} {s' : σ}
    {r : Option Kind} (h : Resolves E name argv st s k st' s' r) : Resolves (withErrexit E f) name argv st s k st' s' r := by
  cases h with
  | found k h => exact .found k h
  | program k h1 h2 => exact .program k h1 h2
  | posix h1 h2 => exact .posix h1 h2
  | handled s' st' h1 h2 h3 => exact .handled s' st' h1 h2 h3
  | unhandled s' h1 h2 h3 => exact .unhandled s' h1 h2 h3

/-- Where failures are examined, `errexit` does not matter. -/
theorem sem_errexit (f : σ → Bool) {q : Nat → Nat} {c : Ctx} {x : Node ι} {st : Nat} {s : σ} {o : Out σ ω}
    (h : Sem E q c x st s o) (hc : c.ignoreExit = true) : Sem (withErrexit E f) q c x st s o := by
  induction h with
  | list_nil c st s => exact .list_nil c st s
  | list_cons c a l st st' s s' o h1 h2 ih1 ih2 => exact .list_cons c a l st st' s s' o (ih1 hc) (ih2 hc)
  | list_stop c a l st s o h1 h2 ih1 => exact .list_stop c a l st s o (ih1 hc) h2
  | item_sync c ps st s o h1 ih1 => exact .item_sync c ps st s o (ih1 hc)
  | item_async c ps st st' s s' h1 h2 => exact .item_async c ps st st' s s' h1 h2
  | item_async_one c x cond st st' s s' h1 h2 => exact .item_async_one c x cond st st' s s' h1 h2
  | item_async_checked c cs cond st st' s s' h1 h2 =>
    rw [← checked_ignored hc f]; exact .item_async_checked c cs cond st st' s s' h1 h2
  | chain_nil c st s => exact .chain_nil c st s
  | chain_last c p st s o h1 ih1 => exact .chain_last c p st s o (ih1 hc)
  | chain_cons c p ps st st' s s' o h1 h2 h3 ih2 ih3 => exact .chain_cons c p ps st st' s s' o h1 (ih2 rfl) (ih3 hc)
  | chain_stop c p ps st s o h1 h2 h3 ih2 => exact .chain_stop c p ps st s o h1 (ih2 rfl) h3
  | behind_nil c st s => exact .behind_nil c st s
  | and_run c cs neg ps s o h1 ih1 => exact .and_run c cs neg ps s o (ih1 hc)
  | and_skip c cs neg ps st s o h1 h2 ih2 => exact .and_skip c cs neg ps st s o h1 (ih2 hc)
  | or_run c cs neg ps st s o h1 h2 ih2 => exact .or_run c cs neg ps st s o h1 (ih2 hc)
  | or_skip c cs neg ps s o h1 ih1 => exact .or_skip c cs neg ps s o (ih1 hc)
  | pipeline c cs cond st s o h1 ih1 => exact .pipeline c cs cond st s o (ih1 hc)
  | negated c cs cond st st' s s' h1 ih1 => exact .negated c cs cond st st' s s' (ih1 rfl)
  | negated_stop c cs cond st s o h1 h2 ih1 => exact .negated_stop c cs cond st s o (ih1 rfl) h2
  | cmds_basic c x st s o h1 h2 ih2 => rw [← out_checked_ignored hc f]; exact .cmds_basic c x st s o h1 (ih2 hc)
  | cmds_compound c x st s o h1 h2 ih2 => exact .cmds_compound c x st s o h1 (ih2 hc)
  | cmds_many c cs st st' s os hl h1 h2 h3 ih2 =>
    rw [← checked_ignored hc f]; exact .cmds_many c cs st st' s os hl h1 (fun i h => ih2 i h hc) h3
  | compound c x st s s' saved o h1 h2 h3 ih3 => exact .compound c x st s s' saved o h1 h2 (ih3 hc)
  | compound_redir c x st s s' saved h1 h2 => rw [← checked_ignored hc f]; exact .compound_redir c x st s s' saved h1 h2
  | group c r l st s o h1 ih1 => exact .group c r l st s o (ih1 hc)
  | subshell c r l st s o h1 ih1 => exact .subshell c r l st s o (ih1 hc)
  | bracket c r e st st' s s' h1 => exact .bracket c r e st st' s s' h1
  | funcdef c r n x st s s' s'' name ok h1 h2 => exact .funcdef c r n x st s s' s'' name ok h1 h2
  | funcdef_error c r n x st s s' h1 => exact .funcdef_error c r n x st s s' h1
  | if_ c r cl st s o h1 ih1 => exact .if_ c r cl st s o (ih1 hc)
  | ifs_nil c st s => exact .ifs_nil c st s
  | ifs_else c l cl st s o h1 ih1 => exact .ifs_else c l cl st s o (ih1 hc)
  | ifs_then c i l cl st st' s s' o h1 h2 h3 ih1 ih3 => exact .ifs_then c i l cl st st' s s' o (ih1 rfl) h2 (ih3 hc)
  | ifs_next c i l cl st st' s s' o h1 h2 h3 ih1 ih3 => exact .ifs_next c i l cl st st' s s' o (ih1 rfl) h2 (ih3 hc)
  | ifs_signal c i l cl sig st st' s s' h1 h2 ih1 => exact .ifs_signal c i l cl sig st st' s s' (ih1 rfl) h2
  | ifs_exit c i l cl st st' s w h1 ih1 => exact .ifs_exit c i l cl st st' s w (ih1 rfl)
  | for_error c r n ws l st s s' h1 => rw [← checked_ignored hc f]; exact .for_error c r n ws l st s s' h1
  | for_words c r n ws l st s s' vs o h1 h2 h3 ih3 => exact .for_words c r n ws l st s s' vs o h1 h2 (ih3 hc)
  | for_none c r n ws l st s s' h1 => exact .for_none c r n ws l st s s' h1
  | for_positional c r n l st s o h1 h2 ih2 => exact .for_positional c r n l st s o h1 (ih2 hc)
  | for_no_positional c r n l st s h1 => exact .for_no_positional c r n l st s h1
  | words_nil c n l st s => exact .words_nil c n l st s
  | words_error c n v vs l st s s' h1 h2 => rw [← checked_ignored hc f]; exact .words_error c n v vs l st s s' h1 h2
  | words_fatal c n v vs l st s s' h1 h2 => exact .words_fatal c n v vs l st s s' h1 h2
  | words_again c n v vs l sig st st' s s' s'' o h1 h2 h3 h4 ih2 ih4 =>
    exact .words_again c n v vs l sig st st' s s' s'' o h1 (ih2 hc) h3 (ih4 hc)
  | words_leave c n v vs l sig st st' s s' s'' h1 h2 h3 ih2 => exact .words_leave c n v vs l sig st st' s s' s'' h1 (ih2 hc) h3
  | words_exit c n v vs l st st' s s' w h1 h2 ih2 => exact .words_exit c n v vs l st st' s s' w h1 (ih2 hc)
  | while_ c r isWhile i l st s o h1 ih1 => exact .while_ c r isWhile i l st s o (ih1 hc)
  | loop_end c isWhile i l last st st' s s' h1 h2 ih1 => exact .loop_end c isWhile i l last st st' s s' (ih1 rfl) h2
  | loop_cond_again c isWhile i l last st st' s s' o h1 h2 ih1 ih2 =>
    exact .loop_cond_again c isWhile i l last st st' s s' o (ih1 rfl) (ih2 hc)
  | loop_cond_leave c isWhile i l last sig st st' s s' h1 h2 ih1 =>
    exact .loop_cond_leave c isWhile i l last sig st st' s s' (ih1 rfl) h2
  | loop_cond_exit c isWhile i l last st st' s w h1 ih1 => exact .loop_cond_exit c isWhile i l last st st' s w (ih1 rfl)
  | loop_again c isWhile i l last sig st st' st'' s s' s'' o h1 h2 h3 h4 h5 ih1 ih3 ih5 =>
    exact .loop_again c isWhile i l last sig st st' st'' s s' s'' o (ih1 rfl) h2 (ih3 hc) h4 (ih5 hc)
  | loop_leave c isWhile i l last sig st st' st'' s s' s'' h1 h2 h3 h4 ih1 ih3 =>
    exact .loop_leave c isWhile i l last sig st st' st'' s s' s'' (ih1 rfl) h2 (ih3 hc) h4
  | loop_exit c isWhile i l last st st' st'' s s' w h1 h2 h3 ih1 ih3 =>
    exact .loop_exit c isWhile i l last st st' st'' s s' w (ih1 rfl) h2 (ih3 hc)
  | case_word_error c r w items st s s' h1 => rw [← checked_ignored hc f]; exact .case_word_error c r w items st s s' h1
  | case_error c r w items st s s' s'' v h1 h2 =>
    rw [← checked_ignored hc f]; exact .case_error c r w items st s s' s'' v h1 (selects_errexit f h2)
  | case_none c r w items st s s' s'' v h1 h2 => exact .case_none c r w items st s s' s'' v h1 (selects_errexit f h2)
  | case_empty c r w items st s s' s'' v h1 h2 => exact .case_empty c r w items st s s' s'' v h1 (selects_errexit f h2)
  | case_item c r w items st s s' s'' v l o h1 h2 h3 h4 ih4 =>
    exact .case_item c r w items st s s' s'' v l o h1 (selects_errexit f h2) h3 (ih4 hc)
  | words_fail c r a w st s s' h1 => exact .words_fail c r a w st s s' h1
  | bare_error c r a w st s s' s'' h1 h2 => exact .bare_error c r a w st s s' s'' h1 h2
  | bare c a w st s s' s'' h1 h2 => exact .bare c a w st s s' s'' h1 h2
  | bare_redir c r a w st s s' s'' t saved ok h1 h2 h3 h4 => exact .bare_redir c r a w st s s' s'' t saved ok h1 h2 h3 h4
  | redir_error c r a w st s s' s'' name args saved h1 h2 h3 => exact .redir_error c r a w st s s' s'' name args saved h1 h2 h3
  | redir_fatal c r a w st s s' s'' name args saved h1 h2 h3 h4 h5 =>
    exact .redir_fatal c r a w st s s' s'' name args saved h1 h2 h3 h4 h5
  | assign_error c r a w st s s' s'' t name args saved temp h1 h2 h3 h4 h5 =>
    exact .assign_error c r a w st s s' s'' t name args saved temp h1 h2 h3 h4 h5
  | assign_fatal c r a w st s s' s'' t name args saved temp h1 h2 h3 h4 h5 =>
    exact .assign_fatal c r a w st s s' s'' t name args saved temp h1 h2 h3 h4 h5
  | handled c r a w st st' s s' s'' t u name args saved temp h1 h2 h3 h4 h5 =>
    exact .handled c r a w st st' s s' s'' t u name args saved temp h1 h2 h3 h4 (resolves_errexit f h5)
  | simple c r a w st st' s s' s'' t u name args saved temp k o h1 h2 h3 h4 h5 h6 ih6 =>
    exact .simple c r a w st st' s s' s'' t u name args saved temp k o h1 h2 h3 h4 (resolves_errexit f h5) (ih6 hc)
  | run_none c argv st s => exact .run_none c argv st s
  | run_external c path argv st st' s w h1 => exact .run_external c path argv st st' s w h1
  | run_function c x argv st s o h1 ih1 => exact .run_function c x argv st s o (ih1 hc)
  | call c x args sig st st' s s' h1 ih1 => exact .call c x args sig st st' s s' (ih1 hc)
  | call_exit c x args st st' s w h1 ih1 => exact .call_exit c x args st st' s w (ih1 hc)
  | builtin c k argv st st' s s' h1 h2 => exact .builtin c k argv st st' s s' h1 h2
  | break_ c k argv n st s s' h1 h2 h3 => exact .break_ c k argv n st s s' h1 h2 h3
  | continue_ c k argv n st s s' h1 h2 h3 => exact .continue_ c k argv n st s s' h1 h2 h3
  | no_loop c k argv act n st s s' h1 h2 h3 h4 => exact .no_loop c k argv act n st s s' h1 h2 h3 h4
  | return_ c k argv st st' s s' h1 h2 h3 => exact .return_ c k argv st st' s s' h1 h2 h3
  | return_error c k argv st st' s s' h1 h2 h3 h4 => exact .return_error c k argv st st' s s' h1 h2 h3 h4
  | exit_ c k argv st st' s s' h1 h2 => exact .exit_ c k argv st st' s s' h1 h2
  | eval c k argv code st s s' o h1 h2 h3 ih3 => exact .eval c k argv code st s s' o h1 h2 (ih3 hc)
  | dot c k argv code sig st st' s s' s'' h1 h2 h3 ih3 => exact .dot c k argv code sig st st' s s' s'' h1 h2 (ih3 hc)
  | dot_args c k argv args code sig st st' s s' s'' h1 h2 h3 ih3 =>
    exact .dot_args c k argv args code sig st st' s s' s'' h1 h2 (ih3 hc)
  | dot_exit c k argv args code st st' s s' w h1 h2 h3 ih3 => exact .dot_exit c k argv args code st st' s s' w h1 h2 (ih3 hc)
  | run_command c k k' argv argv' st s s' o h1 h2 h3 ih3 => exact .run_command c k k' argv argv' st s s' o h1 h2 (ih3 hc)
  | script_blank c inp rest atEof executed st s s' o h1 h2 ih2 =>
    exact .script_blank c inp rest atEof executed st s s' o h1 (ih2 hc)
  | script_noexec c inp rest l atEof executed st s s' o h1 h2 h3 h4 ih4 =>
    exact .script_noexec c inp rest l atEof executed st s s' o h1 h2 h3 (ih4 hc)
  | script_cons c inp rest l atEof executed st st' s s' s'' o h1 h2 h3 h4 h5 ih4 ih5 =>
    exact .script_cons c inp rest l atEof executed st st' s s' s'' o h1 h2 h3 (ih4 hc) (ih5 hc)
  | script_stop c inp rest l atEof executed st s s' o h1 h2 h3 h4 h5 ih4 =>
    exact .script_stop c inp rest l atEof executed st s s' o h1 h2 h3 (ih4 hc) h5
  | script_eof c inp executed st s s' h1 => exact .script_eof c inp executed st s s' h1
  | script_syntax c inp executed st s s' h1 => exact .script_syntax c inp executed st s s' h1
  | script_input c inp executed st s s' h1 => exact .script_input c inp executed st s s' h1

/-- Only `return` leaves commands with a failure status, and only where there is a function or script around that is not left
because of `errreturn`. -/
def Zero (c : Ctx) (o : Out σ ω) : Prop :=
  ∀ sig st s, o = .done sig st s → sig ≠ .normal → c.ignoreReturn = true ∨ sig ≠ .ret → st = 0

theorem Zero.normal {c : Ctx} {st : Nat} {s : σ} : Zero c (.done .normal st s : Out σ ω) := by
  intro sig st s e h; cases e; exact absurd rfl h

theorem Zero.exit {c : Ctx} {st : Nat} {w : ω} : Zero c (.exit st w : Out σ ω) := by
  intro sig st s e h; cases e

theorem Zero.checked {c : Ctx} {sig : Sig} {st : Nat} {s : σ} (h : Zero c (.done sig st s : Out σ ω)) :
    Zero c (checked E c sig st s : Out σ ω) := by
  unfold Spec.checked
  split
  · exact .exit
  · split
    · rename_i h2
      intro sig st s e h3 h4
      cases e
      rcases h4 with h4 | h4
      · rw [h2.2.2.1] at h4; cases h4
      · exact absurd rfl h4
    · exact h

theorem Zero.out_checked {c : Ctx} {o : Out σ ω} (h : Zero c o) : Zero c (o.checked E c) := by
  cases o with
  | done sig st s => exact Zero.checked h
  | exit st w => exact .exit

theorem Zero.after {c : Ctx} {o : Out σ ω} {f : Nat → σ → σ} (h : Zero c o) : Zero c (o.after f) := by
  cases o with
  | done sig st s => intro sig st s e h1 h2; cases e; exact h _ _ _ rfl h1 h2
  | exit st w => exact .exit

theorem Zero.examined {c : Ctx} {o : Out σ ω} (h : Zero c.examined o) : Zero c o :=
  fun sig st s e h1 _ => h sig st s e h1 (.inl rfl)

theorem Zero.leave {c : Ctx} {sig : Sig} {st : Nat} {s : σ} (h : Zero c (.done sig st s : Out σ ω)) :
    Zero c (.done (leave sig) st s : Out σ ω) := by
  intro sig' st' s' e h1 h2
  cases e
  refine h sig st s rfl (fun e => h1 (by rw [e]; rfl)) ?_
  rcases h2 with h2 | h2
  · exact .inl h2
  · exact .inr (fun e => h2 (by rw [e]; rfl))

theorem Zero.signal {c : Ctx} {sig : Sig} {st st' : Nat} {s : σ} (h : Zero c.examined (.done sig st s : Out σ ω))
    (hs : st = 0 → st' = 0) : Zero c (.done sig st' s : Out σ ω) := by
  intro sig' st' s' e h1 h2
  cases e
  exact hs (h sig st s rfl h1 (.inl rfl))

/-- No `return` with a failure status. -/
def ReturnsZero (E : Shell σ ω ρ ι) : Prop := ∀ argv st s s' st', E.builtin argv st s = (s', .ret st') → st' = 0

/-- The statuses of signals. -/
theorem sem_zero (hret : ReturnsZero E) {q : Nat → Nat} {c : Ctx} {x : Node ι} {st : Nat} {s : σ} {o : Out σ ω}
    (h : Sem E q c x st s o) : Zero c o := by
  induction h with
  | list_nil c st s => exact .normal
  | list_cons c a l st st' s s' o h1 h2 ih1 ih2 => exact ih2
  | list_stop c a l st s o h1 h2 ih1 => exact ih1
  | item_sync c ps st s o h1 ih1 => exact ih1
  | item_async c ps st st' s s' h1 h2 => exact .normal
  | item_async_one c x cond st st' s s' h1 h2 => exact .normal
  | item_async_checked c cs cond st st' s s' h1 h2 => exact Zero.checked .normal
  | chain_nil c st s => exact .normal
  | chain_last c p st s o h1 ih1 => exact ih1
  | chain_cons c p ps st st' s s' o h1 h2 h3 ih2 ih3 => exact ih3
  | chain_stop c p ps st s o h1 h2 h3 ih2 => exact ih2.examined
  | behind_nil c st s => exact .normal
  | and_run c cs neg ps s o h1 ih1 => exact ih1
  | and_skip c cs neg ps st s o h1 h2 ih2 => exact ih2
  | or_run c cs neg ps st s o h1 h2 ih2 => exact ih2
  | or_skip c cs neg ps s o h1 ih1 => exact ih1
  | pipeline c cs cond st s o h1 ih1 => exact ih1
  | negated c cs cond st st' s s' h1 ih1 => exact .normal
  | negated_stop c cs cond st s o h1 h2 ih1 => exact ih1.examined
  | cmds_basic c x st s o h1 h2 ih2 => exact ih2.out_checked
  | cmds_compound c x st s o h1 h2 ih2 => exact ih2
  | cmds_many c cs st st' s os hl h1 h2 h3 ih2 => exact Zero.checked .normal
  | compound c x st s s' saved o h1 h2 h3 ih3 => exact ih3.after
  | compound_redir c x st s s' saved h1 h2 => exact Zero.checked .normal
  | group c r l st s o h1 ih1 => exact ih1
  | subshell c r l st s o h1 ih1 => exact .normal
  | bracket c r e st st' s s' h1 => exact .normal
  | funcdef c r n x st s s' s'' name ok h1 h2 => exact .normal
  | funcdef_error c r n x st s s' h1 => exact .normal
  | if_ c r cl st s o h1 ih1 => exact ih1
  | ifs_nil c st s => exact .normal
  | ifs_else c l cl st s o h1 ih1 => exact ih1
  | ifs_then c i l cl st st' s s' o h1 h2 h3 ih1 ih3 => exact ih3
  | ifs_next c i l cl st st' s s' o h1 h2 h3 ih1 ih3 => exact ih3
  | ifs_signal c i l cl sig st st' s s' h1 h2 ih1 => exact ih1.signal (fun e => by simp [e])
  | ifs_exit c i l cl st st' s w h1 ih1 => exact .exit
  | for_error c r n ws l st s s' h1 => exact Zero.checked .normal
  | for_words c r n ws l st s s' vs o h1 h2 h3 ih3 => exact ih3
  | for_none c r n ws l st s s' h1 => exact .normal
  | for_positional c r n l st s o h1 h2 ih2 => exact ih2
  | for_no_positional c r n l st s h1 => exact .normal
  | words_nil c n l st s => exact .normal
  | words_error c n v vs l st s s' h1 h2 => exact Zero.checked .normal
  | words_fatal c n v vs l st s s' h1 h2 => exact .exit
  | words_again c n v vs l sig st st' s s' s'' o h1 h2 h3 h4 ih2 ih4 => exact ih4
  | words_leave c n v vs l sig st st' s s' s'' h1 h2 h3 ih2 => exact ih2.leave
  | words_exit c n v vs l st st' s s' w h1 h2 ih2 => exact .exit
  | while_ c r isWhile i l st s o h1 ih1 => exact ih1
  | loop_end c isWhile i l last st st' s s' h1 h2 ih1 => exact .normal
  | loop_cond_again c isWhile i l last st st' s s' o h1 h2 ih1 ih2 => exact ih2
  | loop_cond_leave c isWhile i l last sig st st' s s' h1 h2 ih1 => exact ih1.examined.leave
  | loop_cond_exit c isWhile i l last st st' s w h1 ih1 => exact .exit
  | loop_again c isWhile i l last sig st st' st'' s s' s'' o h1 h2 h3 h4 h5 ih1 ih3 ih5 => exact ih5
  | loop_leave c isWhile i l last sig st st' st'' s s' s'' h1 h2 h3 h4 ih1 ih3 => exact ih3.leave
  | loop_exit c isWhile i l last st st' st'' s s' w h1 h2 h3 ih1 ih3 => exact .exit
  | case_word_error c r w items st s s' h1 => exact Zero.checked .normal
  | case_error c r w items st s s' s'' v h1 h2 => exact Zero.checked .normal
  | case_none c r w items st s s' s'' v h1 h2 => exact .normal
  | case_empty c r w items st s s' s'' v h1 h2 => exact .normal
  | case_item c r w items st s s' s'' v l o h1 h2 h3 h4 ih4 => exact ih4
  | words_fail c r a w st s s' h1 => exact .normal
  | bare_error c r a w st s s' s'' h1 h2 =>
    exact by (try unfold shellError); split <;> first | exact Zero.exit | exact Zero.normal
  | bare c a w st s s' s'' h1 h2 => exact .normal
  | bare_redir c r a w st s s' s'' t saved ok h1 h2 h3 h4 => exact .normal
  | redir_error c r a w st s s' s'' name args saved h1 h2 h3 => exact .normal
  | redir_fatal c r a w st s s' s'' name args saved h1 h2 h3 h4 h5 => exact .exit
  | assign_error c r a w st s s' s'' t name args saved temp h1 h2 h3 h4 h5 => exact .normal
  | assign_fatal c r a w st s s' s'' t name args saved temp h1 h2 h3 h4 h5 => exact .exit
  | handled c r a w st st' s s' s'' t u name args saved temp h1 h2 h3 h4 h5 => exact .normal
  | simple c r a w st st' s s' s'' t u name args saved temp k o h1 h2 h3 h4 h5 h6 ih6 => exact ih6.after
  | run_none c argv st s => exact .normal
  | run_external c path argv st st' s w h1 => exact .normal
  | run_function c x argv st s o h1 ih1 => exact ih1
  | call c x args sig st st' s s' h1 ih1 => exact .normal
  | call_exit c x args st st' s w h1 ih1 => exact .exit
  | builtin c k argv st st' s s' h1 h2 => exact .normal
  | break_ c k argv n st s s' h1 h2 h3 => exact fun _ _ _ e _ _ => by cases e; rfl
  | continue_ c k argv n st s s' h1 h2 h3 => exact fun _ _ _ e _ _ => by cases e; rfl
  | no_loop c k argv act n st s s' h1 h2 h3 h4 =>
    exact by (try unfold shellError); split <;> first | exact Zero.exit | exact Zero.normal
  | return_ c k argv st st' s s' h1 h2 h3 => exact fun sig _ _ e _ _ => by cases e; exact hret _ _ _ _ _ h2
  | return_error c k argv st st' s s' h1 h2 h3 h4 => exact .normal
  | exit_ c k argv st st' s s' h1 h2 => exact .exit
  | eval c k argv code st s s' o h1 h2 h3 ih3 => exact ih3
  | dot c k argv code sig st st' s s' s'' h1 h2 h3 ih3 => exact .normal
  | dot_args c k argv args code sig st st' s s' s'' h1 h2 h3 ih3 => exact .normal
  | dot_exit c k argv args code st st' s s' w h1 h2 h3 ih3 => exact .exit
  | run_command c k k' argv argv' st s s' o h1 h2 h3 ih3 => exact ih3
  | script_blank c inp rest atEof executed st s s' o h1 h2 ih2 => exact ih2
  | script_noexec c inp rest l atEof executed st s s' o h1 h2 h3 h4 ih4 => exact ih4
  | script_cons c inp rest l atEof executed st st' s s' s'' o h1 h2 h3 h4 h5 ih4 ih5 => exact ih5
  | script_stop c inp rest l atEof executed st s s' o h1 h2 h3 h4 h5 ih4 => exact ih4
  | script_eof c inp executed st s s' h1 => exact .normal
  | script_syntax c inp executed st s s' h1 =>
    exact by (try unfold shellError); split <;> first | exact Zero.exit | exact Zero.normal
  | script_input c inp executed st s s' h1 => exact .normal

/-- Then what `if` does with the status of a `return` in its condition does not matter. -/
theorem sem_change (hret : ReturnsZero E) (q q' : Nat → Nat) {c : Ctx} {x : Node ι} {st : Nat} {s : σ} {o : Out σ ω}
    (h : Sem E q c x st s o) : Sem E q' c x st s o := by
  induction h with
  | list_nil c st s => exact .list_nil c st s
  | list_cons c a l st st' s s' o h1 h2 ih1 ih2 => exact .list_cons c a l st st' s s' o ih1 ih2
  | list_stop c a l st s o h1 h2 ih1 => exact .list_stop c a l st s o ih1 h2
  | item_sync c ps st s o h1 ih1 => exact .item_sync c ps st s o ih1
  | item_async c ps st st' s s' h1 h2 => exact .item_async c ps st st' s s' h1 h2
  | item_async_one c x cond st st' s s' h1 h2 => exact .item_async_one c x cond st st' s s' h1 h2
  | item_async_checked c cs cond st st' s s' h1 h2 => exact .item_async_checked c cs cond st st' s s' h1 h2
  | chain_nil c st s => exact .chain_nil c st s
  | chain_last c p st s o h1 ih1 => exact .chain_last c p st s o ih1
  | chain_cons c p ps st st' s s' o h1 h2 h3 ih2 ih3 => exact .chain_cons c p ps st st' s s' o h1 ih2 ih3
  | chain_stop c p ps st s o h1 h2 h3 ih2 => exact .chain_stop c p ps st s o h1 ih2 h3
  | behind_nil c st s => exact .behind_nil c st s
  | and_run c cs neg ps s o h1 ih1 => exact .and_run c cs neg ps s o ih1
  | and_skip c cs neg ps st s o h1 h2 ih2 => exact .and_skip c cs neg ps st s o h1 ih2
  | or_run c cs neg ps st s o h1 h2 ih2 => exact .or_run c cs neg ps st s o h1 ih2
  | or_skip c cs neg ps s o h1 ih1 => exact .or_skip c cs neg ps s o ih1
  | pipeline c cs cond st s o h1 ih1 => exact .pipeline c cs cond st s o ih1
  | negated c cs cond st st' s s' h1 ih1 => exact .negated c cs cond st st' s s' ih1
  | negated_stop c cs cond st s o h1 h2 ih1 => exact .negated_stop c cs cond st s o ih1 h2
  | cmds_basic c x st s o h1 h2 ih2 => exact .cmds_basic c x st s o h1 ih2
  | cmds_compound c x st s o h1 h2 ih2 => exact .cmds_compound c x st s o h1 ih2
  | cmds_many c cs st st' s os hl h1 h2 h3 ih2 => exact .cmds_many c cs st st' s os hl h1 ih2 h3
  | compound c x st s s' saved o h1 h2 h3 ih3 => exact .compound c x st s s' saved o h1 h2 ih3
  | compound_redir c x st s s' saved h1 h2 => exact .compound_redir c x st s s' saved h1 h2
  | group c r l st s o h1 ih1 => exact .group c r l st s o ih1
  | subshell c r l st s o h1 ih1 => exact .subshell c r l st s o ih1
  | bracket c r e st st' s s' h1 => exact .bracket c r e st st' s s' h1
  | funcdef c r n x st s s' s'' name ok h1 h2 => exact .funcdef c r n x st s s' s'' name ok h1 h2
  | funcdef_error c r n x st s s' h1 => exact .funcdef_error c r n x st s s' h1
  | if_ c r cl st s o h1 ih1 => exact .if_ c r cl st s o ih1
  | ifs_nil c st s => exact .ifs_nil c st s
  | ifs_else c l cl st s o h1 ih1 => exact .ifs_else c l cl st s o ih1
  | ifs_then c i l cl st st' s s' o h1 h2 h3 ih1 ih3 => exact .ifs_then c i l cl st st' s s' o ih1 h2 ih3
  | ifs_next c i l cl st st' s s' o h1 h2 h3 ih1 ih3 => exact .ifs_next c i l cl st st' s s' o ih1 h2 ih3
  | ifs_signal c i l cl sig st st' s s' h1 h2 ih1 =>
    have e : st' = 0 := sem_zero hret h1 _ _ _ rfl h2 (.inl rfl)
    have := Sem.ifs_signal c i l cl sig st st' s s' ih1 h2
    rw [if_neg (by simp [e])] at this ⊢
    exact this
  | ifs_exit c i l cl st st' s w h1 ih1 => exact .ifs_exit c i l cl st st' s w ih1
  | for_error c r n ws l st s s' h1 => exact .for_error c r n ws l st s s' h1
  | for_words c r n ws l st s s' vs o h1 h2 h3 ih3 => exact .for_words c r n ws l st s s' vs o h1 h2 ih3
  | for_none c r n ws l st s s' h1 => exact .for_none c r n ws l st s s' h1
  | for_positional c r n l st s o h1 h2 ih2 => exact .for_positional c r n l st s o h1 ih2
  | for_no_positional c r n l st s h1 => exact .for_no_positional c r n l st s h1
  | words_nil c n l st s => exact .words_nil c n l st s
  | words_error c n v vs l st s s' h1 h2 => exact .words_error c n v vs l st s s' h1 h2
  | words_fatal c n v vs l st s s' h1 h2 => exact .words_fatal c n v vs l st s s' h1 h2
  | words_again c n v vs l sig st st' s s' s'' o h1 h2 h3 h4 ih2 ih4 =>
    exact .words_again c n v vs l sig st st' s s' s'' o h1 ih2 h3 ih4
  | words_leave c n v vs l sig st st' s s' s'' h1 h2 h3 ih2 => exact .words_leave c n v vs l sig st st' s s' s'' h1 ih2 h3
  | words_exit c n v vs l st st' s s' w h1 h2 ih2 => exact .words_exit c n v vs l st st' s s' w h1 ih2
  | while_ c r isWhile i l st s o h1 ih1 => exact .while_ c r isWhile i l st s o ih1
  | loop_end c isWhile i l last st st' s s' h1 h2 ih1 => exact .loop_end c isWhile i l last st st' s s' ih1 h2
  | loop_cond_again c isWhile i l last st st' s s' o h1 h2 ih1 ih2 =>
    exact .loop_cond_again c isWhile i l last st st' s s' o ih1 ih2
  | loop_cond_leave c isWhile i l last sig st st' s s' h1 h2 ih1 =>
    exact .loop_cond_leave c isWhile i l last sig st st' s s' ih1 h2
  | loop_cond_exit c isWhile i l last st st' s w h1 ih1 => exact .loop_cond_exit c isWhile i l last st st' s w ih1
  | loop_again c isWhile i l last sig st st' st'' s s' s'' o h1 h2 h3 h4 h5 ih1 ih3 ih5 =>
    exact .loop_again c isWhile i l last sig st st' st'' s s' s'' o ih1 h2 ih3 h4 ih5
  | loop_leave c isWhile i l last sig st st' st'' s s' s'' h1 h2 h3 h4 ih1 ih3 =>
    exact .loop_leave c isWhile i l last sig st st' st'' s s' s'' ih1 h2 ih3 h4
  | loop_exit c isWhile i l last st st' st'' s s' w h1 h2 h3 ih1 ih3 =>
    exact .loop_exit c isWhile i l last st st' st'' s s' w ih1 h2 ih3
  | case_word_error c r w items st s s' h1 => exact .case_word_error c r w items st s s' h1
  | case_error c r w items st s s' s'' v h1 h2 => exact .case_error c r w items st s s' s'' v h1 h2
  | case_none c r w items st s s' s'' v h1 h2 => exact .case_none c r w items st s s' s'' v h1 h2
  | case_empty c r w items st s s' s'' v h1 h2 => exact .case_empty c r w items st s s' s'' v h1 h2
  | case_item c r w items st s s' s'' v l o h1 h2 h3 h4 ih4 => exact .case_item c r w items st s s' s'' v l o h1 h2 h3 ih4
  | words_fail c r a w st s s' h1 => exact .words_fail c r a w st s s' h1
  | bare_error c r a w st s s' s'' h1 h2 => exact .bare_error c r a w st s s' s'' h1 h2
  | bare c a w st s s' s'' h1 h2 => exact .bare c a w st s s' s'' h1 h2
  | bare_redir c r a w st s s' s'' t saved ok h1 h2 h3 h4 => exact .bare_redir c r a w st s s' s'' t saved ok h1 h2 h3 h4
  | redir_error c r a w st s s' s'' name args saved h1 h2 h3 => exact .redir_error c r a w st s s' s'' name args saved h1 h2 h3
  | redir_fatal c r a w st s s' s'' name args saved h1 h2 h3 h4 h5 =>
    exact .redir_fatal c r a w st s s' s'' name args saved h1 h2 h3 h4 h5
  | assign_error c r a w st s s' s'' t name args saved temp h1 h2 h3 h4 h5 =>
    exact .assign_error c r a w st s s' s'' t name args saved temp h1 h2 h3 h4 h5
  | assign_fatal c r a w st s s' s'' t name args saved temp h1 h2 h3 h4 h5 =>
    exact .assign_fatal c r a w st s s' s'' t name args saved temp h1 h2 h3 h4 h5
  | handled c r a w st st' s s' s'' t u name args saved temp h1 h2 h3 h4 h5 =>
    exact .handled c r a w st st' s s' s'' t u name args saved temp h1 h2 h3 h4 h5
  | simple c r a w st st' s s' s'' t u name args saved temp k o h1 h2 h3 h4 h5 h6 ih6 =>
    exact .simple c r a w st st' s s' s'' t u name args saved temp k o h1 h2 h3 h4 h5 ih6
  | run_none c argv st s => exact .run_none c argv st s
  | run_external c path argv st st' s w h1 => exact .run_external c path argv st st' s w h1
  | run_function c x argv st s o h1 ih1 => exact .run_function c x argv st s o ih1
  | call c x args sig st st' s s' h1 ih1 => exact .call c x args sig st st' s s' ih1
  | call_exit c x args st st' s w h1 ih1 => exact .call_exit c x args st st' s w ih1
  | builtin c k argv st st' s s' h1 h2 => exact .builtin c k argv st st' s s' h1 h2
  | break_ c k argv n st s s' h1 h2 h3 => exact .break_ c k argv n st s s' h1 h2 h3
  | continue_ c k argv n st s s' h1 h2 h3 => exact .continue_ c k argv n st s s' h1 h2 h3
  | no_loop c k argv act n st s s' h1 h2 h3 h4 => exact .no_loop c k argv act n st s s' h1 h2 h3 h4
  | return_ c k argv st st' s s' h1 h2 h3 => exact .return_ c k argv st st' s s' h1 h2 h3
  | return_error c k argv st st' s s' h1 h2 h3 h4 => exact .return_error c k argv st st' s s' h1 h2 h3 h4
  | exit_ c k argv st st' s s' h1 h2 => exact .exit_ c k argv st st' s s' h1 h2
  | eval c k argv code st s s' o h1 h2 h3 ih3 => exact .eval c k argv code st s s' o h1 h2 ih3
  | dot c k argv code sig st st' s s' s'' h1 h2 h3 ih3 => exact .dot c k argv code sig st st' s s' s'' h1 h2 ih3
  | dot_args c k argv args code sig st st' s s' s'' h1 h2 h3 ih3 =>
    exact .dot_args c k argv args code sig st st' s s' s'' h1 h2 ih3
  | dot_exit c k argv args code st st' s s' w h1 h2 h3 ih3 => exact .dot_exit c k argv args code st st' s s' w h1 h2 ih3
  | run_command c k k' argv argv' st s s' o h1 h2 h3 ih3 => exact .run_command c k k' argv argv' st s s' o h1 h2 ih3
  | script_blank c inp rest atEof executed st s s' o h1 h2 ih2 => exact .script_blank c inp rest atEof executed st s s' o h1 ih2
  | script_noexec c inp rest l atEof executed st s s' o h1 h2 h3 h4 ih4 =>
    exact .script_noexec c inp rest l atEof executed st s s' o h1 h2 h3 ih4
  | script_cons c inp rest l atEof executed st st' s s' s'' o h1 h2 h3 h4 h5 ih4 ih5 =>
    exact .script_cons c inp rest l atEof executed st st' s s' s'' o h1 h2 h3 ih4 ih5
  | script_stop c inp rest l atEof executed st s s' o h1 h2 h3 h4 h5 ih4 =>
    exact .script_stop c inp rest l atEof executed st s s' o h1 h2 h3 ih4 h5
  | script_eof c inp executed st s s' h1 => exact .script_eof c inp executed st s s' h1
  | script_syntax c inp executed st s s' h1 => exact .script_syntax c inp executed st s s' h1
  | script_input c inp executed st s s' h1 => exact .script_input c inp executed st s s' h1

end Yash.Exec
