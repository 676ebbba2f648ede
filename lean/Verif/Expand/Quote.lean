import Verif.Expand.Types
/-!
# Model of the quoting functions of `expand.c` (lines 1680-1900)

A wide string is a `List Char`; the NUL terminator is the end of the list, so NUL does not occur
inside strings.  Output buffers are results.
-/
set_option autoImplicit false

namespace Yash.Expand

/-- expand.c:1687-1703 `add_sq`. The argument is the text after the opening quote; the result is
the (possibly backslashed) added text and the rest, which starts with the closing quote or is empty
if there is none. -/
def addSq (esc : Bool) : List Char → List Char × List Char
  | [] => ([], [])
  | c :: s =>
    if c = '\'' then ([], c :: s)
    else
      let (a, r) := addSq esc s
      (if esc then '\\' :: c :: a else c :: a, r)

/-- expand.c:1708-1718 `escape`; `none` is a `NULL` second argument. -/
def escape (t : Option (List Char)) : List Char → List Char
  | [] => []
  | c :: s =>
    let special := match t with
      | none => true
      | some t => t.contains c
    if special then '\\' :: c :: escape t s else c :: escape t s

/-- expand.c:1721-1729 `escapefree`. -/
def escapefree (t : Option (List Char)) (s : List Char) : List Char :=
  match t with
  | some t' => if s.any (fun c => t'.contains c) then escape t s else s
  | none => escape t s

/-- expand.c:1734-1747 `unescape`. -/
def unescape : List Char → List Char
  | [] => []
  | ['\\'] => []
  | '\\' :: c :: s => c :: unescape s
  | c :: s => c :: unescape s

/-- expand.c:1793-1794: characters that `wb_quote_as_word` leaves alone. -/
def isSafe (L : Locale) (c : Char) : Bool :=
  c == '.' || c == '-' || c == '_' || c == '/' || L.alnum c

theorem length_dropWhile_le {α : Type} (p : α → Bool) : ∀ l : List α, (l.dropWhile p).length ≤ l.length
  | [] => by simp
  | a :: l => by
    simp only [List.dropWhile_cons]
    split
    · have := length_dropWhile_le p l; simp; omega
    · simp

/-- expand.c:1785-1810, the loop of `wb_quote_as_word`. -/
def quoteLoop (L : Locale) : List Char → List Char
  | [] => []
  | c :: s =>
    if c = '\'' then '\\' :: '\'' :: quoteLoop L s
    else
      if h : isSafe L c = true ∧ ((c :: s).dropWhile (isSafe L) = [] ∨
          ((c :: s).dropWhile (isSafe L)).head? = some '\'') then
        (c :: s).takeWhile (isSafe L) ++ quoteLoop L ((c :: s).dropWhile (isSafe L))
      else
        '\'' :: (c :: s).takeWhile (· ≠ '\'') ++ '\'' :: quoteLoop L (s.dropWhile (· ≠ '\''))
termination_by s => s.length
decreasing_by
  · simp
  · rw [List.dropWhile_cons_of_pos h.1]
    have := length_dropWhile_le (isSafe L) s
    simp; omega
  · have := length_dropWhile_le (· ≠ '\'') s
    simp at this ⊢; omega

/-- expand.c:1777-1812 `wb_quote_as_word` on an empty buffer (= `quote_as_word`, 1765-1771).

The C test on line 1796 is `*end == L'\0' || *end == L'\''`. When `*s` itself is unsafe, `end == s`
and the test is false because `*s` is neither NUL nor a quote there; hence the conjunct `isSafe c`
in `quoteLoop`, which is only needed for the termination argument. -/
def quoteAsWord (L : Locale) (s : List Char) : List Char :=
  if s = [] then ['\'', '\''] else quoteLoop L s

/-- expand.h:28 `CHARS_ESCAPABLE`. -/
def charsEscapable : List Char := ['$', '`', '"', '\\']

theorem addSq_length (esc : Bool) : ∀ s, (addSq esc s).2.length ≤ s.length
  | [] => by simp [addSq]
  | c :: s => by
    have := addSq_length esc s
    simp only [addSq]
    split
    · simp
    · simp; omega

/-- expand.c:1820-1857 `unquote`: `none` is the `NULL` result for an unclosed quotation.
`buf` is the output so far. -/
def unquoteLoop (indq : Bool) (buf : List Char) : List Char → Option (List Char)
  | [] => if indq then none else some buf
  | c :: s =>
    if c = '\'' ∧ indq = false then
      match h : addSq false s with
      | (_, []) => none
      | (a, _ :: s') => unquoteLoop indq (buf ++ a) s'
    else if c = '"' then unquoteLoop (!indq) buf s
    else if c = '\\' then
      match s with
      | [] => unquoteLoop indq (buf ++ [c]) []
      | d :: s' =>
        if indq = false ∨ charsEscapable.contains d then unquoteLoop indq (buf ++ [d]) s'
        else unquoteLoop indq (buf ++ [c]) (d :: s')
    else unquoteLoop indq (buf ++ [c]) s
termination_by s => s.length
decreasing_by
  · have := addSq_length false s
    rw [h] at this
    simp at this ⊢; omega
  all_goals (simp <;> try omega)

/-- expand.c:1820 `unquote`. -/
def unquote (s : List Char) : Option (List Char) := unquoteLoop false [] s

/-- expand.h:66-76 `escaping_T`. -/
inductive Escaping where
  | none
  | quoted
  | quotedHard
deriving DecidableEq, Repr

/-- expand.c:1862-1875 `should_escape`. -/
def shouldEscape (cc : CC) : Escaping → Bool
  | .none => false
  | .quoted => cc.quoted
  | .quotedHard => cc.origin == .hard || cc.quoted

/-- expand.c:1880-1893 `quote_removal`. -/
def quoteRemoval (e : Escaping) : CWord → List Char
  | [] => []
  | (c, cc) :: w =>
    if cc.quotation then quoteRemoval e w
    else if shouldEscape cc e then '\\' :: c :: quoteRemoval e w
    else c :: quoteRemoval e w

end Yash.Expand
