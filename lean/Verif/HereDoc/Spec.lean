import Verif.HereDoc.Model
import Verif.Parser.Grammar
import Verif.Parser.Print
/-!
# What here-documents mean

The lines after the command up to the line that is the delimiter.  Nothing here refers to how they are found.
-/
set_option autoImplicit false

namespace Yash.HereDoc.Spec

open Syntax
open Expand (Locale)

/-! ## The delimiter -/

/-- Text between double quotes, and what it stands for: a backslash quotes `$`, a backquote, `"` and a backslash only. -/
inductive InDouble : List Char → List Char → Prop
  | nil : InDouble [] []
  | char {c : Char} {s t : List Char} : c ≠ '"' → c ≠ '\\' → InDouble s t → InDouble (c :: s) (c :: t)
  | escaped {c : Char} {s t : List Char} : c ∈ "$`\"\\".toList → InDouble s t → InDouble ('\\' :: c :: s) (c :: t)
  | backslash {c : Char} {s t : List Char} : c ∉ "$`\"\\".toList → InDouble (c :: s) t → InDouble ('\\' :: c :: s) ('\\' :: t)

/-- A word after the operator, and the delimiter it stands for: quotations are removed, and nothing else has a meaning. -/
inductive StandsFor : List Char → List Char → Prop
  | nil : StandsFor [] []
  | char {c : Char} {s t : List Char} : c ≠ '"' → c ≠ '\'' → c ≠ '\\' → StandsFor s t → StandsFor (c :: s) (c :: t)
  | backslash {c : Char} {s t : List Char} : StandsFor s t → StandsFor ('\\' :: c :: s) (c :: t)
  | single {q s t : List Char} : '\'' ∉ q → StandsFor s t → StandsFor ('\'' :: q ++ '\'' :: s) (q ++ t)
  | double {q p s t : List Char} : InDouble q p → StandsFor s t → StandsFor ('"' :: q ++ '"' :: s) (p ++ t)

/-- Some of the word is quoted. -/
def Quoted (s : List Char) : Prop := ∃ c ∈ s, c = '"' ∨ c = '\'' ∨ c = '\\'

/-! ## Lines -/

/-- The line, for the operator `<<-` without its leading tabs. -/
def untab (tabs : Bool) (l : List Char) : List Char := if tabs then l.dropWhile (· = '\t') else l

/-- `text` begins with the delimiter on a line of its own, which the end of the input may end; `rest` is what follows. -/
def Closes (tabs : Bool) (delim text rest : List Char) : Prop :=
  ∃ l, '\n' ∉ l ∧ untab tabs l = delim ∧ (text = l ++ '\n' :: rest ∨ (text = l ∧ l ≠ [] ∧ rest = []))

/-- `text` is the lines, none of them the delimiter, then the delimiter, then `rest`. -/
def Verbatim (tabs : Bool) (delim : List Char) (lines : List (List Char)) (text rest : List Char) : Prop :=
  (∀ l ∈ lines, '\n' ∉ l ∧ untab tabs l ≠ delim) ∧
  ∃ last, text = lines.flatMap (· ++ ['\n']) ++ last ∧ Closes tabs delim last rest

/-! ## The contents -/

/-- A part of the contents. -/
inductive Item where
  /-- A character that stands for itself. -/
  | char (c : Char)
  /-- A backslash and a character. -/
  | backslash (c : Char)
  /-- A backslash and a newline. -/
  | continuation
  /-- A dollar sign that starts no expansion. -/
  | dollar
  /-- An expansion that starts with a dollar sign. -/
  | unit (u : WordUnit)
  /-- A command between backquotes. -/
  | backquotes (s : List Char)

/-- How the part is written; expansions as the shell prints them. -/
def written (L : Locale) : Item → List Char
  | .char c => [c]
  | .backslash c => ['\\', c]
  | .continuation => ['\\', '\n']
  | .dollar => ['$']
  | .unit u => Parser.printUnit L false 0 u []
  | .backquotes s => '`' :: s ++ ['`']

/-- The parts of a line that is subject to expansion. -/
inductive Line (L : Locale) : List Item → Prop
  | nil : Line L []
  | char {c : Char} {is : List Item} : c ∉ "\\$`\n".toList → Line L is → Line L (.char c :: is)
  | backslash {c : Char} {is : List Item} : c ≠ '\n' → Line L is → Line L (.backslash c :: is)
  | continuation {is : List Item} : Line L is → Line L (.continuation :: is)
  | dollar {is : List Item} : (∀ c ∈ (is.flatMap (written L)).head?, ¬Parser.Grammar.StartsExpansion c) → is.head? ≠ some .continuation →
    Line L is → Line L (.dollar :: is)
  | unit {u : WordUnit} {is : List Item} : Parser.Grammar.UnitG L u → Line L is → Line L (.unit u :: is)
  | backquotes {s : List Char} {is : List Item} : '`' ∉ s → '\\' ∉ s → Line L is → Line L (.backquotes s :: is)

/-- The line, for the operator `<<-` without its leading tabs. -/
def untabItems (tabs : Bool) (is : List Item) : List Item :=
  if tabs then is.dropWhile fun i => match i with | .char c => c = '\t' | _ => false else is

/-- `text` begins with a here-document for the operator `d`; `rest` is what follows it, and the items are its contents. -/
inductive Doc (L : Locale) (d : Pending) : List Char → List Char → List Item → Prop
  /-- The delimiter is quoted: every character stands for itself. -/
  | quoted {delim text rest : List Char} {lines : List (List Char)} : Quoted d.delim → StandsFor d.delim delim →
    Verbatim d.removeTabs delim lines text rest →
    Doc L d text rest ((lines.flatMap fun l => untab d.removeTabs l ++ ['\n']).map .char)
  /-- The delimiter is not quoted: there can be expansions.  The first physical line of an item list must not be the
  delimiter. -/
  | expanding {text rest last : List Char} {lines : List (List Item)} : ¬Quoted d.delim → (∀ l ∈ lines, Line L l) →
    (∀ l ∈ lines, untab d.removeTabs ((l.flatMap (written L)).takeWhile (· ≠ '\n')) ≠ d.delim) →
    text = lines.flatMap (fun l => l.flatMap (written L) ++ ['\n']) ++ last → Closes d.removeTabs d.delim last rest →
    Doc L d text rest (lines.flatMap fun l => untabItems d.removeTabs l ++ [.char '\n'])

/-- Here-documents one after another, in the order of the operators. -/
inductive Docs (L : Locale) : List Pending → List Char → List Char → List (List Item) → Prop
  | nil (text : List Char) : Docs L [] text text []
  | cons {d : Pending} {ds : List Pending} {text mid rest : List Char} {is : List Item} {iss : List (List Item)} : '\n' ∉ d.delim →
    Doc L d text mid is → Docs L ds mid rest iss → Docs L (d :: ds) text rest (is :: iss)

/-! ## What the command reads -/

/-- What a part of the contents becomes: the state of the shell changes from the first to the second. -/
inductive Value {σ : Type} (E : Expand.Env σ) : σ → Item → σ → List Char → Prop
  | char (s : σ) (c : Char) : Value E s (.char c) s [c]
  /-- A backslash quotes `$`, a backquote and a backslash. -/
  | quoted (s : σ) {c : Char} : c ∈ "$`\\".toList → Value E s (.backslash c) s [c]
  | backslash (s : σ) {c : Char} : c ∉ "$`\\".toList → Value E s (.backslash c) s ['\\', c]
  | continuation (s : σ) : Value E s .continuation s []
  | dollar (s : σ) : Value E s .dollar s ['$']
  | command {s s' : σ} {c : Embed} {t : List Char} : E.cmdsub s c = (s', some t) → Value E s (.unit (.cmdsub c)) s' t
  | backquotes {s s' : σ} {c t : List Char} : E.cmdsub s (.unparsed c) = (s', some t) → Value E s (.backquotes c) s' t
  /-- `$name`: the value, as it is. -/
  | variable {s : σ} {n v : List Char} : E.get s n = .scalar v → Value E s (.unit (.param (.mk {} (.name n) [] [] [] []))) s v
  | unset {s : σ} {n : List Char} : E.get s n = .notFound → E.unsetOk = true →
    Value E s (.unit (.param (.mk {} (.name n) [] [] [] []))) s []
  /-- Any parameter expansion that makes one field. -/
  | param {s s' : σ} {p : Param} {v : Expand.CWord} : Expand.expandParam E false p s = .ok s' [v] →
    Value E s (.unit (.param p)) s' (Expand.quoteRemoval .none v)
  | arith {s s' s'' : σ} {w : Word} {x t : List Char} : Expand.expandSingle E .none .indq .none w s = .ok s' x → E.arith s' x = (s'', some t) →
    Value E s (.unit (.arith w)) s'' t

/-- What the contents become, part by part. -/
inductive Values {σ : Type} (E : Expand.Env σ) : σ → List Item → σ → List Char → Prop
  | nil (s : σ) : Values E s [] s []
  | cons {s s' s'' : σ} {i : Item} {is : List Item} {t t' : List Char} : Value E s i s' t → Values E s' is s'' t' →
    Values E s (i :: is) s'' (t ++ t')

end Yash.HereDoc.Spec
