import Verif.Syntax.Ast
import Verif.Expand.Types
/-!
# Commands that can be printed and read back

The printer has known defects.  The predicates below say that a command has none of the features that are not printed
faithfully; they are stated in terms of syntax trees only.
-/
set_option autoImplicit false

namespace Yash.Parser.Spec

open Syntax
open Expand (Locale)

/-- The facts about character classes that POSIX guarantees in every locale: the space is blank, the newline is not, letters
and digits of the portable character set are alphanumeric, and punctuation is not. -/
structure LocaleOk (L : Locale) : Prop where
  ok : L.Ok
  space : L.blank ' ' = true
  newline : L.blank '\n' = false
  digit : ∀ c, '0' ≤ c → c ≤ '9' → L.alnum c = true
  lower : ∀ c, 'a' ≤ c → c ≤ 'z' → L.alnum c = true
  upper : ∀ c, 'A' ≤ c → c ≤ 'Z' → L.alnum c = true
  punct : ∀ c ∈ "/-. ".toList, L.alnum c = false

/-- The words with a meaning of their own at the start of a command. -/
def keywords : List (List Char) :=
  ["case", "do", "done", "elif", "else", "esac", "fi", "for", "function", "if", "in", "then", "until", "while",
    "{", "}", "[[", "!"].map String.toList

/-- The word is an unquoted keyword. -/
def Keyword (w : List WordUnit) : Prop := ∃ s ∈ keywords, w = [.str s]

/-- The text of the word ends with a space (which then must be quoted by a backslash). -/
def EndsWithSpace (w : List WordUnit) : Prop := ∃ w' s, w = w' ++ [.str (s ++ [' '])]

/-- The word ends with a dollar sign that stands for itself. -/
def EndsWithDollar (w : List WordUnit) : Prop := ∃ w', w = w' ++ [.str ['$']]

/-- The word is an unquoted name. -/
def Name (L : Locale) (w : List WordUnit) : Prop :=
  ∃ c s, w = [.str (c :: s)] ∧ ¬('0' ≤ c ∧ c ≤ '9') ∧ ∀ d ∈ c :: s, d = '_' ∨ L.alnum d = true

/-- The command is a function definition with a name that does not need the keyword `function`. -/
def NamedFunction (L : Locale) : Command → Prop
  | .funcdef _ name _ => Name L name
  | _ => False

/-- `${name/pattern/replacement}` without a pattern. -/
def EmptyPattern (t : ParamType) (pattern : List WordUnit) : Prop :=
  t.op = .subst ∧ t.colon = false ∧ t.all = false ∧ t.head = false ∧ t.tail = false ∧ pattern = []

def IsOr : DbExp → Prop
  | .or _ _ => True
  | _ => False

def IsAnd : DbExp → Prop
  | .and _ _ => True
  | _ => False

/-- The largest file descriptor. -/
def maxFd : Nat := 2147483647

mutual

/-- No command substitution in backquotes, and no empty pattern in a substitution. -/
def WordOk (L : Locale) : List WordUnit → Prop
  | [] => True
  | u :: us => UnitOk L u ∧ WordOk L us

def UnitOk (L : Locale) : WordUnit → Prop
  | .str _ => True
  | .param p => ParamOk L p
  | .cmdsub c => EmbedOk L c
  | .arith w => WordOk L w

def ParamOk (L : Locale) : Param → Prop
  | .mk t base start stop pattern subst =>
    ¬EmptyPattern t pattern ∧ BaseOk L base ∧ WordOk L start ∧ WordOk L stop ∧ WordOk L pattern ∧ WordOk L subst

def BaseOk (L : Locale) : ParamBase → Prop
  | .name _ => True
  | .nest u => UnitOk L u

def EmbedOk (L : Locale) : Embed → Prop
  | .unparsed _ => False
  | .parsed l => ListOk L l

def ListOk (L : Locale) : List AndOr → Prop
  | [] => True
  | a :: l => AndOrOk L a ∧ ListOk L l

def AndOrOk (L : Locale) : AndOr → Prop
  | .mk ps _ => PipelinesOk L ps

def PipelinesOk (L : Locale) : List Pipeline → Prop
  | [] => True
  | p :: ps => PipelineOk L p ∧ PipelinesOk L ps

def PipelineOk (L : Locale) : Pipeline → Prop
  | .mk cs _ _ => CommandsOk L cs

def CommandsOk (L : Locale) : List Command → Prop
  | [] => True
  | c :: cs => CommandOk L c ∧ CommandsOk L cs

/-- Words and values do not end with an escaped space; a command without assignments does not start with a keyword as an ordinary
word (as `<file if` does); a function defined with the keyword `function` is not named by another keyword or by a word
that ends with a dollar sign, and its body is not the definition of another function. -/
def CommandOk (L : Locale) : Command → Prop
  | .simple rs as ws =>
    RedirsOk L rs ∧ AssignsOk L as ∧ WordsOk L ws ∧ (∀ w ∈ ws, ¬EndsWithSpace w) ∧ (as = [] → ∀ w ∈ ws.head?, ¬Keyword w)
  | .group rs l => RedirsOk L rs ∧ ListOk L l
  | .subshell rs l => RedirsOk L rs ∧ ListOk L l
  | .ifs rs cs => RedirsOk L rs ∧ ClausesOk L cs
  | .fors rs _ none l => RedirsOk L rs ∧ ListOk L l
  | .fors rs _ (some ws) l => RedirsOk L rs ∧ WordsOk L ws ∧ ListOk L l
  | .whiles rs _ c l => RedirsOk L rs ∧ ListOk L c ∧ ListOk L l
  | .cases rs w cs => RedirsOk L rs ∧ WordOk L w ∧ ItemsOk L cs
  | .bracket rs e => RedirsOk L rs ∧ DbOk L e
  | .funcdef _ name c =>
    WordOk L name ∧ CommandOk L c ∧ (Name L name → ¬Keyword name) ∧ ¬EndsWithDollar name ∧ ¬NamedFunction L c

def WordsOk (L : Locale) : List (List WordUnit) → Prop
  | [] => True
  | w :: ws => WordOk L w ∧ WordsOk L ws

def ClausesOk (L : Locale) : List IfClause → Prop
  | [] => True
  | c :: cs => ClauseOk L c ∧ ClausesOk L cs

def ClauseOk (L : Locale) : IfClause → Prop
  | .cond c l => ListOk L c ∧ ListOk L l
  | .els l => ListOk L l

def ItemsOk (L : Locale) : List CaseItem → Prop
  | [] => True
  | c :: cs => ItemOk L c ∧ ItemsOk L cs

def ItemOk (L : Locale) : CaseItem → Prop
  | .mk ps l => WordsOk L ps ∧ ListOk L l

/-- Operators are grouped to the right. -/
def DbOk (L : Locale) : DbExp → Prop
  | .or l r => ¬IsOr l ∧ DbOk L l ∧ DbOk L r
  | .and l r => ¬IsAnd l ∧ DbOk L l ∧ DbOk L r
  | .not e => DbOk L e
  | .unary _ w => WordOk L w
  | .binary _ l r => WordOk L l ∧ WordOk L r
  | .string w => WordOk L w

def AssignsOk (L : Locale) : List Assign → Prop
  | [] => True
  | a :: as => AssignOk L a ∧ AssignsOk L as

def AssignOk (L : Locale) : Assign → Prop
  | .scalar _ w => WordOk L w ∧ ¬EndsWithSpace w
  | .array _ ws => WordsOk L ws ∧ ∀ w ∈ ws, ¬EndsWithSpace w

def RedirsOk (L : Locale) : List Redir → Prop
  | [] => True
  | r :: rs => RedirOk L r ∧ RedirsOk L rs

/-- No here-documents, and no file descriptors that are too large. -/
def RedirOk (L : Locale) : Redir → Prop
  | .file _ fd w => fd ≤ maxFd ∧ WordOk L w ∧ ¬EndsWithSpace w
  | .heredoc _ _ _ _ => False
  | .proc _ fd c => fd ≤ maxFd ∧ EmbedOk L c

end

/-- The command, or the body of the function it defines, or the body of the function that one defines, and so on. -/
inductive Body : Command → Command → Prop
  | self (c : Command) : Body c c
  | function {c d : Command} (rs : List Redir) (name : List WordUnit) : Body c d → Body c (.funcdef rs name d)

/-- The lists a compound command consists of. -/
inductive Block : List AndOr → Command → Prop
  | group (rs : List Redir) (l : List AndOr) : Block l (.group rs l)
  | subshell (rs : List Redir) (l : List AndOr) : Block l (.subshell rs l)
  | ifCond {rs : List Redir} {cs : List IfClause} {c l : List AndOr} : .cond c l ∈ cs → Block c (.ifs rs cs)
  | ifThen {rs : List Redir} {cs : List IfClause} {c l : List AndOr} : .cond c l ∈ cs → Block l (.ifs rs cs)
  | ifElse {rs : List Redir} {cs : List IfClause} {l : List AndOr} : .els l ∈ cs → Block l (.ifs rs cs)
  | for (rs : List Redir) (name : List Char) (ws : Option (List (List WordUnit))) (l : List AndOr) : Block l (.fors rs name ws l)
  | whileCond (rs : List Redir) (t : Bool) (c l : List AndOr) : Block c (.whiles rs t c l)
  | whileDo (rs : List Redir) (t : Bool) (c l : List AndOr) : Block l (.whiles rs t c l)
  | case {rs : List Redir} {w : List WordUnit} {cs : List CaseItem} {ps : List (List WordUnit)} {l : List AndOr} :
    .mk ps l ∈ cs → Block l (.cases rs w cs)
  | function {l : List AndOr} {c : Command} (rs : List Redir) (name : List WordUnit) : Block l c → Block l (.funcdef rs name c)

/-- The command is one of those the list is made of. -/
def CommandOf (c : Command) (l : List AndOr) : Prop :=
  ∃ ps async cs neg cond, .mk ps async ∈ l ∧ .mk cs neg cond ∈ ps ∧ c ∈ cs

/-- The first list is the second one, or is inside a command in it. -/
inductive ListIn : List AndOr → List AndOr → Prop
  | self (l : List AndOr) : ListIn l l
  | inner {l l1 l' : List AndOr} {c : Command} : CommandOf c l → Block l1 c → ListIn l' l1 → ListIn l' l

/-- The command occurs in the list, outside command substitutions. -/
def CommandIn (c : Command) (l : List AndOr) : Prop := ∃ l' d, ListIn l' l ∧ CommandOf d l' ∧ Body c d

/-- The and-or list occurs in the list, outside command substitutions. -/
def AndOrIn (a : AndOr) (l : List AndOr) : Prop := ∃ l', ListIn l' l ∧ a ∈ l'

end Yash.Parser.Spec
