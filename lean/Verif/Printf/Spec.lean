import Verif.Printf.Model
/-!
# Specification of echo and printf

From the model only the types of the C library (`Lib`, `Value`) are used.
-/
set_option autoImplicit false

namespace Yash.Printf.Spec

/-- The number that octal digits denote. -/
def octalValue (ds : List Char) : Nat := ds.foldl (fun n d => 8 * n + (d.toNat - 48)) 0

/-- The number that decimal digits denote. -/
def decimalValue (ds : List Char) : Nat := ds.foldl (fun n d => 10 * n + (d.toNat - 48)) 0

def octalDigits : List Char := ['0', '1', '2', '3', '4', '5', '6', '7']

def digits : List Char := octalDigits ++ ['8', '9']

/-- `ds` are the octal digits, at most three, before `s`. -/
def OctalRun (ds s : List Char) : Prop :=
  (∀ d ∈ ds, d ∈ octalDigits) ∧ ds.length ≤ 3 ∧
    (ds.length < 3 → ∀ d ∈ s.head?, d ∉ octalDigits)

/-- The escapes of echo and the codes of the characters. -/
def echoTable : List (Char × Nat) :=
  [('a', 7), ('b', 8), ('e', 27), ('f', 12), ('n', 10), ('r', 13), ('t', 9), ('v', 11), ('\\', 92)]

/-- `Escaped enc s out stop`: the text `s` with the escapes of echo is printed as `out`; `stop` tells
whether there is a `\c`. -/
inductive Escaped (enc : Char → Option (List Byte)) : List Char → List Byte → Bool → Prop
  | nil : Escaped enc [] [] false
  | plain (c : Char) (s : List Char) (b out : List Byte) (e : Bool) :
      c ≠ '\\' → enc c = some b → Escaped enc s out e → Escaped enc (c :: s) (b ++ out) e
  | control (l : Char) (k : Nat) (s : List Char) (b out : List Byte) (e : Bool) :
      (l, k) ∈ echoTable → enc (Char.ofNat k) = some b → Escaped enc s out e →
      Escaped enc ('\\' :: l :: s) (b ++ out) e
  | octal (ds s : List Char) (out : List Byte) (e : Bool) :
      OctalRun ds s → Escaped enc s out e →
      Escaped enc ('\\' :: '0' :: (ds ++ s)) (UInt8.ofNat (octalValue ds) :: out) e
  | stop (s : List Char) : Escaped enc ('\\' :: 'c' :: s) [] true
  | other (s : List Char) (b out : List Byte) (e : Bool) :
      (∀ d ∈ s.head?, d ∉ ['a', 'b', 'c', 'e', 'f', 'n', 'r', 't', 'v', '\\', '0']) →
      enc '\\' = some b → Escaped enc s out e → Escaped enc ('\\' :: s) (b ++ out) e

/-- `Literal enc s out`: the text `s` is printed as it is. -/
inductive Literal (enc : Char → Option (List Byte)) : List Char → List Byte → Prop
  | nil : Literal enc [] []
  | cons (c : Char) (s : List Char) (b out : List Byte) :
      enc c = some b → Literal enc s out → Literal enc (c :: s) (b ++ out)

/-- The words with a space between each two. -/
def joined : List (List Char) → List Char
  | [] => []
  | [w] => w
  | w :: ws => w ++ ' ' :: joined ws

/-- Which options echo has. -/
inductive Options where
  | none
  | onlyN
  | all
deriving DecidableEq

/-- The options that echo accepts, and whether escapes are enabled without an option, for the values
of `$ECHO_STYLE` (only the first character counts). -/
def style (v : Option (List Char)) : Options × Bool :=
  let first := v.bind List.head?
  if first ∈ [some 'B', some 'b'] then (.onlyN, false)
  else if first ∈ [some 'G', some 'g'] then (.all, false)
  else if first ∈ [some 'Z', some 'z'] then (.all, true)
  else if first ∈ [some 'D', some 'd'] then (.onlyN, true)
  else if first ∈ [some 'R', some 'r'] then (.none, false)
  else (.none, true)

/-- A word made of a hyphen and letters of options. -/
def IsOption (w : List Char) : Prop :=
  ∃ ls, ls ≠ [] ∧ w = '-' :: ls ∧ ∀ c ∈ ls, c = 'n' ∨ c = 'e' ∨ c = 'E'

/-- Whether escapes are enabled: what the last of the letters `e` and `E` says. -/
def lastE (default : Bool) (letters : List Char) : Bool :=
  match (letters.filter fun c => c = 'e' || c = 'E').getLast? with
  | some c => c = 'e'
  | .none => default

/-- `EchoArgs o d args noNewline escapes operands`: what the arguments of echo mean. -/
def EchoArgs (o : Options) (d : Bool) (args : List (List Char)) (noNewline escapes : Bool)
    (operands : List (List Char)) : Prop :=
  match o with
  | .none => noNewline = false ∧ escapes = d ∧ operands = args
  | .onlyN =>
    escapes = d ∧
      (args = ['-', 'n'] :: operands ∧ noNewline = true ∨
        operands = args ∧ args.head? ≠ some ['-', 'n'] ∧ noNewline = false)
  | .all =>
    ∃ opts, args = opts ++ operands ∧ (∀ w ∈ opts, IsOption w) ∧
      (∀ w ∈ operands.head?, ¬ IsOption w) ∧
      (noNewline = true ↔ 'n' ∈ opts.flatten) ∧ escapes = lastE d opts.flatten

/-- `EchoText enc escapes operands out stop`: what is printed for the operands. -/
def EchoText (enc : Char → Option (List Byte)) (escapes : Bool) (operands : List (List Char))
    (out : List Byte) (stop : Bool) : Prop :=
  if escapes then Escaped enc (joined operands) out stop
  else Literal enc (joined operands) out ∧ stop = false

/-! ## Formats -/

/-- A format is text and conversion specifications: flags, width, precision and the letter. -/
inductive Piece where
  | text (b : List Byte)
  | conv (flags width prec : List Char) (letter : Char)

/-- The escapes in formats and the codes of the characters. -/
def formatTable : List (Char × Byte) :=
  [('a', 7), ('b', 8), ('f', 12), ('n', 10), ('r', 13), ('t', 9), ('v', 11), ('\\', 92),
    ('"', 34), ('\'', 39)]

/-- The letters and the flags that may be used with them. -/
def Allowed (flags : List Char) (letter : Char) : Prop :=
  letter ∈ ['o', 'x', 'X', 'f', 'F', 'e', 'E', 'g', 'G'] ∨
  letter ∈ ['d', 'i', 'u'] ∧ '#' ∉ flags ∨
  letter ∈ ['c', 's', 'b'] ∧ '#' ∉ flags ∧ '0' ∉ flags

/-- `Format enc s ps`: the format `s` consists of the pieces `ps`. -/
inductive Format (enc : Char → Option (List Byte)) : List Char → List Piece → Prop
  | nil : Format enc [] []
  | plain (c : Char) (s : List Char) (b : List Byte) (ps : List Piece) :
      c ≠ '%' → c ≠ '\\' → enc c = some b → Format enc s ps → Format enc (c :: s) (.text b :: ps)
  | control (l : Char) (k : Byte) (s : List Char) (ps : List Piece) :
      (l, k) ∈ formatTable → Format enc s ps → Format enc ('\\' :: l :: s) (.text [k] :: ps)
  | octal (ds s : List Char) (ps : List Piece) :
      ds ≠ [] → OctalRun ds s → Format enc s ps →
      Format enc ('\\' :: (ds ++ s)) (.text [UInt8.ofNat (octalValue ds)] :: ps)
  | backslash (s : List Char) (b : List Byte) (ps : List Piece) :
      (∀ d ∈ s.head?, d ∉ ['a', 'b', 'f', 'n', 'r', 't', 'v', '\\', '"', '\''] ∧ d ∉ octalDigits) →
      enc '\\' = some b → Format enc s ps → Format enc ('\\' :: s) (.text b :: ps)
  | percent (s : List Char) (ps : List Piece) :
      Format enc s ps → Format enc ('%' :: '%' :: s) (.text [37] :: ps)
  | conv (flags width prec : List Char) (letter : Char) (s : List Char) (ps : List Piece) :
      (∀ c ∈ flags, c ∈ ['#', '0', '-', '+', ' ']) → (∀ c ∈ width, c ∈ digits) →
      width.head? ≠ some '0' →
      (prec = [] ∨ ∃ ds, prec = '.' :: ds ∧ ∀ c ∈ ds, c ∈ digits) →
      Allowed flags letter → Format enc s ps →
      Format enc ('%' :: (flags ++ width ++ prec ++ letter :: s))
        (.conv flags width prec letter :: ps)

/-- How many operands the format uses each time. -/
def convs (ps : List Piece) : Nat :=
  (ps.filter fun p => match p with | .conv .. => true | .text _ => false).length

/-- How often the format is used for a number of operands: at least once, and until there are no
more operands. -/
def rounds (ps : List Piece) (n : Nat) : Nat :=
  if convs ps = 0 then 1 else max 1 ((n + convs ps - 1) / convs ps)

/-- The conversion specifications take the operands from number `i` on, one after the other. -/
def withOperands (args : List (List Char)) : Nat → List Piece → List (Piece × Option (List Char))
  | _, [] => []
  | i, .text b :: ps => (.text b, .none) :: withOperands args i ps
  | i, .conv f w p l :: ps => (.conv f w p l, args[i]?) :: withOperands args (i + 1) ps

/-- All that is to be printed: the format, as often as needed, with the operands. -/
def uses (ps : List Piece) (args : List (List Char)) : List (Piece × Option (List Char)) :=
  (List.range (rounds ps args.length)).flatMap fun r => withOperands args (r * convs ps) ps

/-- `Number read code arg v valid`: the number that an operand stands for.  A missing operand is zero,
a quote and a character are the code of the character; other operands must be numbers as a whole. -/
inductive Number {α : Type} (read : List Char → α × List Char × Bool) (code : Nat → α) :
    Option (List Char) → α → Bool → Prop
  | missing (v : α) (r : List Char) (e : Bool) :
      read ['0'] = (v, r, e) → Number read code .none v (r.isEmpty && !e)
  | character (q c : Char) (s : List Char) :
      q = '"' ∨ q = '\'' → Number read code (some (q :: c :: s)) (code c.toNat) true
  | noCharacter (q : Char) :
      q = '"' ∨ q = '\'' → Number read code (some [q]) (code 0) true
  | number (s : List Char) (v : α) (r : List Char) (e : Bool) :
      (∀ q ∈ s.head?, q ≠ '"' ∧ q ≠ '\'') → read s = (v, r, e) →
      Number read code (some s) v (!s.isEmpty && r.isEmpty && !e)

/-- `Padded left width prec text out`: at most so many bytes as the precision says, filled up with
spaces to the width. -/
def Padded (left : Prop) (width : List Char) (prec : List Char) (text out : List Byte) : Prop :=
  ∃ cut blank : List Byte,
    (prec = [] ∧ cut = text ∨ ∃ ds, prec = '.' :: ds ∧ cut = text.take (decimalValue ds)) ∧
    (∀ b ∈ blank, b = 32) ∧
    (out = cut ++ blank ∧ left ∨ out = blank ++ cut ∧ ¬ left) ∧
    out.length = max cut.length (decimalValue width)

/-- What the C library is asked to do: the specification as it was given, with a length modifier. -/
def cspec (flags width prec : List Char) (modifier letter : Char) : List Char :=
  '%' :: (flags ++ width ++ prec ++ [modifier, letter])

/-- `Prints lib p arg out stop valid`: what a piece prints for an operand, whether nothing is printed
after it, and whether the operand is valid. -/
inductive Prints {F : Type} (lib : Lib F) :
    Piece → Option (List Char) → List Byte → Bool → Bool → Prop
  | text (b : List Byte) (a : Option (List Char)) : Prints lib (.text b) a b false true
  | string (f w p : List Char) (a : Option (List Char)) (b : List Byte) :
      lib.format (cspec f w p 'l' 's') (.str (a.getD [])) = some b →
      Prints lib (.conv f w p 's') a b false true
  | char (f w p : List Char) (c : Char) (s : List Char) (b : List Byte) :
      lib.format (cspec f w p 'l' 'c') (.chr c) = some b →
      Prints lib (.conv f w p 'c') (some (c :: s)) b false true
  | noChar (f w p : List Char) (a : Option (List Char)) :
      a = .none ∨ a = some [] → Prints lib (.conv f w p 'c') a [] false true
  | signed (f w p : List Char) (l : Char) (a : Option (List Char)) (v : Int) (valid : Bool)
      (b : List Byte) :
      l ∈ ['d', 'i'] → Number lib.imax Int.ofNat a v valid →
      lib.format (cspec f w p 'j' l) (.int v) = some b → Prints lib (.conv f w p l) a b false valid
  | unsigned (f w p : List Char) (l : Char) (a : Option (List Char)) (v : Nat) (valid : Bool)
      (b : List Byte) :
      l ∈ ['u', 'o', 'x', 'X'] → Number lib.umax id a v valid →
      lib.format (cspec f w p 'j' l) (.uint v) = some b → Prints lib (.conv f w p l) a b false valid
  | floating (f w p : List Char) (l : Char) (a : Option (List Char)) (s r : List Char) (e : Bool)
      (v : F) (b : List Byte) :
      l ∈ ['f', 'F', 'e', 'E', 'g', 'G'] → s = a.getD ['0'] → lib.float s = (v, r, e) →
      lib.format (cspec f w p 'L' l) (.float v) = some b →
      Prints lib (.conv f w p l) a b false (!s.isEmpty && r.isEmpty && !e)
  | escaped (f w p : List Char) (a : Option (List Char)) (t b : List Byte) (stop : Bool) :
      Escaped lib.enc (a.getD []) t stop → Padded ('-' ∈ f) w p t b →
      Prints lib (.conv f w p 'b') a b stop true

/-- `Outcome lib us out valid`: what is printed, up to the first stop, and whether all operands used
until then are valid. -/
inductive Outcome {F : Type} (lib : Lib F) :
    List (Piece × Option (List Char)) → List Byte → Bool → Prop
  | nil : Outcome lib [] [] true
  | stop (p : Piece) (a : Option (List Char)) (us : List (Piece × Option (List Char)))
      (b : List Byte) (v : Bool) :
      Prints lib p a b true v → Outcome lib ((p, a) :: us) b v
  | cons (p : Piece) (a : Option (List Char)) (us : List (Piece × Option (List Char)))
      (b out : List Byte) (v valid : Bool) :
      Prints lib p a b false v → Outcome lib us out valid →
      Outcome lib ((p, a) :: us) (b ++ out) (v && valid)

end Yash.Printf.Spec
