import Verif.Syntax.Ast
import Verif.Expand.Quote
import Verif.Expand.Brace
import Verif.Expand.FieldSplit
import Verif.Fnmatch.Match
/-!
# Model of word expansion (`expand.c`, lines 150-1180 and 1924-1960)

The state of the shell is of any type; variables, command substitution, arithmetic and the file system
are given by an `Env`.  Error messages and the exit of a non-interactive shell after an error are left
out.
-/
set_option autoImplicit false

namespace Yash.Expand

open Syntax (Word WordUnit Param ParamBase ParamType ParamOp Embed)

/-- `tildetype_T` (expand.h:31). -/
inductive Tilde where
  | none
  | single
  | multi
deriving DecidableEq, Repr

/-- `quoting_T` (expand.h:34-45). -/
inductive Quoting where
  | word
  | dqparam
  | indq
  | literal
deriving DecidableEq, Repr

/-- The result of `get_variable` (variable.c:825-932). -/
inductive VarValue where
  | notFound
  | scalar (v : List Char)
  | array (vs : List (List Char))
  | concat (vs : List (List Char))
deriving DecidableEq, Repr

/-- `enum indextype_T` (expand.c:71). -/
inductive IndexType where
  | none
  | all
  | concat
  | number
deriving DecidableEq, Repr

/-- What expansion needs from the rest of the shell.  A result that is `none` is an error that has been
reported. -/
structure Env (σ : Type) where
  posix : Bool
  /-- `shopt_unset`: unset variables expand to nothing. -/
  unsetOk : Bool
  braceexpand : Bool
  glob : Bool
  nullglob : Bool
  emptylast : Bool
  locale : Locale
  long : LongRange
  /-- The locale for pattern matching. -/
  chars : Fnmatch.Locale
  /-- `getvar`. -/
  getvar : σ → List Char → Option (List Char)
  /-- `get_variable`. -/
  get : σ → List Char → VarValue
  /-- The entry of the directory stack, if `parse_dirstack_index` finds one. -/
  dirEntry : σ → List Char → Option (List Char)
  /-- `get_home_directory`. -/
  homeOf : List Char → Option (List Char)
  /-- `set_variable`. -/
  set : σ → List Char → List Char → σ × Bool
  /-- `set_array_element`. -/
  setElement : σ → List Char → Nat → List Char → σ × Bool
  /-- `exec_command_substitution`. -/
  cmdsub : σ → Embed → σ × Option (List Char)
  /-- `evaluate_arithmetic`. -/
  arith : σ → List Char → σ × Option (List Char)
  /-- `evaluate_index`. -/
  index : σ → List Char → σ × Option Int
  /-- `is_name`. -/
  isName : List Char → Bool
  /-- `wglob`: the pathnames that match a pattern. -/
  wglob : σ → List Char → List (List Char)

/-- The result of a function that may change the state. -/
inductive Res (σ α : Type) where
  /-- An assertion fails. -/
  | abort
  /-- An error has been reported. -/
  | fail (s : σ)
  | ok (s : σ) (a : α)

/-- A function that may change the state. -/
def M (σ α : Type) : Type := σ → Res σ α

namespace M

variable {σ α β : Type}

def pure (a : α) : M σ α := fun s => .ok s a

def bind (m : M σ α) (f : α → M σ β) : M σ β := fun s =>
  match m s with
  | .abort => .abort
  | .fail s => .fail s
  | .ok s a => f a s

instance : Monad (M σ) where
  pure := M.pure
  bind := M.bind

/-- A failed assertion. -/
def abort : M σ α := fun _ => .abort

/-- A reported error. -/
def fail : M σ α := fun s => .fail s

/-- The state. -/
def get : M σ σ := fun s => .ok s s

/-- An action that reports an error if it has no result. -/
def act (f : σ → σ × Option α) : M σ α := fun s =>
  match f s with
  | (s, some a) => .ok s a
  | (s, none) => .fail s

/-- An action that tells whether it has succeeded. -/
def attempt (f : σ → σ × Bool) : M σ Unit := fun s =>
  match f s with
  | (s, true) => .ok s ()
  | (s, false) => .fail s

/-- A pure result, or a failed assertion. -/
def check (a : Option α) : M σ α :=
  match a with
  | some a => pure a
  | none => abort

end M

/-! ## Tilde expansion -/

/-- The directory for a user name in `expand_tilde` (expand.c:618-645). -/
def tildeHome {σ : Type} (E : Env σ) (s : σ) (user : List Char) : Option (List Char) :=
  if user = [] then E.getvar s "HOME".toList
  else if user.any (fun c => c = '"' || c = '\'' || c = '\\') then none
  else if !E.posix && user = ['+'] then E.getvar s "PWD".toList
  else if !E.posix && user = ['-'] then E.getvar s "OLDPWD".toList
  else
    match (if !E.posix && (user.head? = some '+' || user.head? = some '-') then E.dirEntry s user else none) with
    | some d => some d
    | none => E.homeOf user

/-- `expand_tilde` (expand.c:594-648): the directory and the rest of the string. -/
def expandTilde {σ : Type} (E : Env σ) (s : σ) (tt : Tilde) (hasNext : Bool) :
    List Char → Option (List Char × List Char)
  | '~' :: w =>
    let isEnd : Char → Bool := fun c => c = '/' || (tt != .single && c = ':')
    let user := w.takeWhile fun c => !isEnd c
    let rest := w.dropWhile fun c => !isEnd c
    if rest = [] && hasNext then none
    else
      match tildeHome E s user with
      | none => none
      | some home => some (home, rest)
  | _ => none

theorem expandTilde_length {σ : Type} (E : Env σ) (s : σ) (tt : Tilde) (hasNext : Bool) (w home rest : List Char)
    (h : expandTilde E s tt hasNext w = some (home, rest)) : rest.length < w.length := by
  unfold expandTilde at h
  split at h
  · rename_i w
    simp only at h
    split at h
    · cases h
    · split at h
      · cases h
      · simp only [Option.some.injEq, Prod.mk.injEq] at h
        rw [← h.2]
        have := length_dropWhile_le (fun c => !(decide (c = '/') || (tt != .single && decide (c = ':')))) w
        simp only [List.length_cons]
        omega
  · cases h

/-! ## The four expansions -/

/-- The local variables of `expand_four` (expand.c:393-423). -/
structure St where
  /-- `e`: the fields that are complete. -/
  fields : List CWord := []
  /-- `valuebuf` and `ccbuf`: the last field. -/
  buf : CWord := []
  indq : Bool := false
  removedq : Bool := false
  removeempty : Bool := false

/-- Adds a character. -/
def St.add (st : St) (c : Char) (cc : CC) : St := { st with buf := st.buf ++ [(c, cc)] }

/-- Adds a string; `wb_catfree` and `fill_ccbuf` (expand.c:572-577). -/
def St.addAll (st : St) (s : List Char) (cc : CC) : St := { st with buf := st.buf ++ s.map fun c => (c, cc) }

/-- A double quote (expand.c:440-464). -/
def St.dquote (st : St) (cc : CC) : St :=
  if st.indq then
    let st := { st with indq := false }
    if st.removedq && st.fields.isEmpty &&
        (match st.buf with
        | [(c, k)] => c = '"' && k.quotation
        | _ => false) then
      { st with buf := [], removeempty := true }
    else st.add '"' { cc with quotation := true }
  else { st with indq := true, removedq := false }.add '"' { cc with quotation := true }

/-- Whether a backslash quotes the character that follows (expand.c:479-496); `wcschr` finds the
terminating null. -/
def backslashQuotes (q : Quoting) (indq : Bool) (next : Option Char) : Bool :=
  match next, q with
  | _, .literal => false
  | none, _ => true
  | some c, .word => !indq || c = '$' || c = '`' || c = '"' || c = '\\'
  | some c, .dqparam => c = '$' || c = '`' || c = '"' || c = '\\' || c = '}'
  | some c, .indq => c = '$' || c = '`' || c = '\\'

/-- The loop over a string unit (expand.c:437-524); `none` is the failed assertion in line 471. -/
def stringLoop {σ : Type} (E : Env σ) (s : σ) (tilde : Tilde) (q : Quoting) (cc : CC) (hasNext : Bool) (st : St) :
    List Char → Option St
  | [] => some st
  | c :: w =>
    if c = '"' && (q = .word || q = .dqparam) then stringLoop E s tilde q cc hasNext (st.dquote cc) w
    else if c = '\'' && q = .word && !st.indq then
      match h : addSq false w with
      | (_, []) => none
      | (a, _ :: w') =>
        stringLoop E s tilde q cc hasNext
          (((st.add '\'' { cc with quotation := true }).addAll a { cc with quoted := true }).add '\''
            { cc with quotation := true }) w'
    else if c = '\\' && backslashQuotes q st.indq w.head? then
      match w with
      | [] => some (st.add '\\' { cc with quotation := true })
      | d :: w' =>
        stringLoop E s tilde q cc hasNext
          ((st.add '\\' { cc with quotation := true }).add d { cc with quoted := true }) w'
    else if c = ':' && !st.indq && tilde = .multi then
      match h : expandTilde E s tilde hasNext w with
      | none => stringLoop E s tilde q cc hasNext (st.add ':' cc) w
      | some (home, w') =>
        stringLoop E s tilde q cc hasNext ((st.add ':' cc).addAll home { origin := .hard }) w'
    else stringLoop E s tilde q cc hasNext (st.add c { cc with quoted := cc.quoted || st.indq }) w
termination_by w => w.length
decreasing_by
  · simp
  · have := addSq_length false w
    rw [h] at this
    simp at this ⊢; omega
  · simp; omega
  · simp
  · have := expandTilde_length _ _ _ _ _ _ _ h
    simp; omega
  · simp

/-- A string unit (expand.c:427-525). -/
def expandString {σ : Type} (E : Env σ) (s : σ) (tilde : Tilde) (q : Quoting) (cc : CC) (first hasNext : Bool)
    (st : St) (w : List Char) : Option St :=
  match (if first && tilde != .none then expandTilde E s tilde hasNext w else none) with
  | none => stringLoop E s tilde q cc hasNext st w
  | some (home, w') =>
    stringLoop E s tilde q cc hasNext (st.addAll home { origin := .hard, quoted := cc.quoted }) w'

/-- `merge_expand_four` (expand.c:1165-1203). -/
def St.merge (st : St) (vs : List CWord) : St :=
  match vs with
  | [] => st
  | [v] => { st with buf := st.buf ++ v }
  | v :: w :: ws =>
    { st with
      fields := st.fields ++ (st.buf ++ v) :: (w :: ws).dropLast
      buf := (w :: ws).getLast (by simp) }

/-- A parameter expansion without fields (expand.c:531-536). -/
def St.noFields (st : St) (vs : List CWord) : St :=
  if vs.isEmpty then (if st.indq then { st with removedq := true } else { st with removeempty := true }) else st

/-- The end of `expand_four` (expand.c:560-568). -/
def St.finish (st : St) : List CWord :=
  if st.removeempty && st.fields.isEmpty && st.buf.isEmpty then [] else st.fields ++ [st.buf]

/-- `expand_single_cc` after the four expansions (expand.c:246-277); `ifs` is the value of `$IFS`. -/
def joinFields (ifs : Option (List Char)) : List CWord → CWord
  | [] => []
  | [w] => w
  | w :: ws =>
    match ifs with
    | some [] => w ++ joinFields ifs ws
    | some (c :: _) => w ++ (c, { origin := .soft }) :: joinFields ifs ws
    | none => w ++ (' ', { origin := .soft }) :: joinFields ifs ws

/-- `expand_single` after the four expansions (expand.c:303-309). -/
def single {σ : Type} (E : Env σ) (e : Escaping) (st : St) : M σ (List Char) := fun s =>
  .ok s (quoteRemoval e (joinFields (E.getvar s "IFS".toList) st.finish))

/-! ## Parameter expansion -/

/-- `SSIZE_MAX`. -/
def ssizeMax : Int := 9223372036854775807

/-- `parse_indextype` (expand.c:938-948). -/
def parseIndexType : List Char → IndexType
  | ['@'] => .all
  | ['*'] => .concat
  | ['#'] => .number
  | _ => .none

/-- The adjustment of the start index (expand.c:685-688). -/
def startIndex (i : Int) : Int := if i = 0 then ssizeMax else if i ≥ 0 then i - 1 else i

/-- The end index when there is only one index (expand.c:678). -/
def defaultEnd (i : Int) : Int := if i = -1 then ssizeMax else i

/-- `trim_wstring` (expand.c:953-988); the loops are `take` and `drop`. -/
def trimString (v : List Char) (start stop : Int) : List Char :=
  if start = 0 ∧ stop = ssizeMax then v
  else
    let start := if start < 0 then (if start + v.length < 0 then 0 else start + v.length) else start
    let stop := if stop < 0 then stop + v.length + 1 else stop
    if stop ≤ start then []
    else (v.drop start.toNat).take (stop - start).toNat

/-- The range of array elements (expand.c:750-766). -/
def arrayRange (count : Nat) (start stop : Int) : Int × Int :=
  let start := if start ≥ 0 then (if start > count then (count : Int) else start)
    else (if start + count < 0 then 0 else start + count)
  let stop := if stop < 0 then stop + count + 1 else stop
  (start, if stop < start then start else stop)

/-- The elements in a range; `trim_array` (expand.c:996-1019) and `plndup`. -/
def trimArray (vs : List (List Char)) (start stop : Int) : List (List Char) :=
  (vs.drop start.toNat).take (stop - start).toNat

/-- The decimal number, `malloc_wprintf(L"%zu", n)`. -/
def decimal (n : Nat) : List Char := Nat.toDigits 10 n

/-- The values that the indices select (expand.c:724-788): whether they are to be concatenated, and the
range of array elements. -/
structure Selected where
  values : List (List Char)
  concat : Bool
  start : Int
  stop : Int

def select (v : VarValue) (t : IndexType) (start stop : Int) : Selected :=
  match v with
  | .notFound => ⟨[if t = .number then decimal 0 else trimString [] start stop], false, start, stop⟩
  | .scalar x => ⟨[if t = .number then decimal x.length else trimString x start stop], false, start, stop⟩
  | .array vs =>
    if t = .number then ⟨[decimal vs.length], false, start, stop⟩
    else
      let r := arrayRange vs.length start stop
      ⟨trimArray vs r.1 r.2, t = .concat, r.1, r.2⟩
  | .concat vs =>
    if t = .number then ⟨[decimal vs.length], false, start, stop⟩
    else
      let r := arrayRange vs.length start stop
      ⟨trimArray vs r.1 r.2, true, r.1, r.2⟩

/-- Whether the parameter counts as unset (expand.c:703-722 and 791-794). -/
def countsUnset (v : VarValue) (colon : Bool) (values : List (List Char)) : Bool :=
  v = .notFound || (colon && (values = [] || values = [[]]))

/-- `concatenate_values_into_array` (expand.c:1117-1146). -/
def concatenate (ifs : Option (List Char)) (vs : List (List Char)) : List (List Char) :=
  match vs with
  | [v] => [v]
  | vs => [List.intercalate (match ifs with
    | none => [' ']
    | some s => s.take 1) vs]

/-- The categories of the values (expand.c:900-919). -/
def markValues (indq : Bool) (vs : List (List Char)) : List CWord :=
  vs.map fun v => v.map (fun c => (c, { origin := .soft, quoted := indq })) ++
    (if indq && decide (vs.length > 1) then [('"', { origin := .soft, quoted := indq, quotation := true })] else [])

/-- What is left to do after the substitution (expand.c:889-898). -/
def finishParam {σ : Type} (E : Env σ) (t : ParamType) (indq concat : Bool) (values : List (List Char)) :
    M σ (List CWord) := fun s =>
  let vs := if concat && indq then concatenate (E.getvar s "IFS".toList) values else values
  let vs := if t.number then vs.map fun v => decimal v.length else vs
  .ok s (markValues indq vs)

/-- The assignment in `${name=word}` (expand.c:833-847). -/
def assignParam {σ : Type} (E : Env σ) (name : List Char) (v : VarValue) (start : Int) (w : List Char) : M σ Unit :=
  match v with
  | .array vs =>
    if 0 ≤ start ∧ start ≤ vs.length then .attempt fun s => E.setElement s name start.toNat w else .abort
  | _ => .attempt fun s => E.set s name w

/-- Whether `${name=word}` can assign (expand.c:815-830). -/
def assignable {σ : Type} (E : Env σ) (base : ParamBase) (v : VarValue) (start stop : Int) : Bool :=
  match base with
  | .nest _ => false
  | .name n =>
    E.isName n &&
    (match v with
    | .concat _ => false
    | .array _ => decide (start + 1 = stop)
    | _ => true)

/-- The name that is assigned to. -/
def baseName : ParamBase → List Char
  | .name n => n
  | .nest _ => []

mutual

/-- One round of the loop in `expand_four` (expand.c:425-557). -/
def expandUnit {σ : Type} (E : Env σ) (tilde : Tilde) (q : Quoting) (cc : CC) (first hasNext : Bool) (st : St) :
    WordUnit → M σ St
  | .str w => fun s => M.check (expandString E s tilde q cc first hasNext st w) s
  | .param p => do
    let vs ← expandParam E (st.indq || q = .literal || cc.quoted) p
    pure ((st.noFields vs).merge vs)
  | .cmdsub c => do
    let v ← M.act fun s => E.cmdsub s c
    pure (st.addAll v { origin := .soft, quoted := st.indq || cc.quoted })
  | .arith w => do
    let st' ← expandUnits E .none .indq .lit true {} w
    let e ← single E .none st'
    let v ← M.act fun s => E.arith s e
    pure (st.addAll v { origin := .soft, quoted := st.indq || cc.quoted })

/-- The loop in `expand_four` (expand.c:425-558). -/
def expandUnits {σ : Type} (E : Env σ) (tilde : Tilde) (q : Quoting) (cc : CC) (first : Bool) (st : St) :
    List WordUnit → M σ St
  | [] => pure st
  | u :: w => do
    let st ← expandUnit E tilde q cc first (!w.isEmpty) st u
    expandUnits E tilde q cc false st w

/-- The value of a parameter or nested expansion (expand.c:696-722). -/
def expandBase {σ : Type} (E : Env σ) : ParamBase → M σ VarValue
  | .name n => fun s => .ok s (E.get s n)
  | .nest u => do
    let st ← expandUnit E .none .word .lit true false {} u
    let vs := st.finish.map (quoteRemoval .none)
    match vs with
    | [v] => pure (.scalar v)
    | vs => pure (.array vs)

/-- `expand_param` (expand.c:653-933). -/
def expandParam {σ : Type} (E : Env σ) (indq : Bool) : Param → M σ (List CWord)
  | .mk t base start stop pattern subst => do
    let (si, ei, it) ← (if start.isEmpty then pure (0, ssizeMax, .none)
      else do
        let st ← expandUnits E .none .word .lit true {} start
        let w ← single E .none st
        if parseIndexType w ≠ .none then
          if stop.isEmpty then pure (0, ssizeMax, parseIndexType w) else M.fail
        else do
          let si ← M.act fun s => E.index s w
          if stop.isEmpty then pure (startIndex si, defaultEnd si, .none)
          else do
            let st ← expandUnits E .none .word .lit true {} stop
            let w ← single E .none st
            let ei ← M.act fun s => E.index s w
            pure (startIndex si, ei, .none) : M σ (Int × Int × IndexType))
    let v ← expandBase E base
    let r := select v it si ei
    let unset := countsUnset v t.colon r.values
    match t.op with
    | .plus =>
      if unset then finishParam E t indq r.concat r.values
      else do
        let st ← expandUnits E .single (if indq then .dqparam else .word) { origin := .soft, quoted := indq } true {} subst
        pure st.finish
    | .minus =>
      if unset then do
        let st ← expandUnits E .single (if indq then .dqparam else .word) { origin := .soft, quoted := indq } true {} subst
        pure st.finish
      else finishParam E t indq r.concat r.values
    | .assign =>
      if unset then
        if assignable E base v r.start r.stop then do
          let st ← expandUnits E .single (if indq then .dqparam else .word) .lit true {} subst
          let w ← single E .none st
          assignParam E (baseName base) v r.start w
          finishParam E t indq r.concat [w]
        else M.fail
      else finishParam E t indq r.concat r.values
    | .error =>
      if unset then do
        let _ ← expandUnits E .single (if indq then .dqparam else .word) .lit true {} subst
        M.fail
      else finishParam E t indq r.concat r.values
    | .none =>
      if unset && !E.unsetOk then M.fail else finishParam E t indq r.concat r.values
    | .«match» =>
      if unset && !E.unsetOk then M.fail
      else do
        let st ← expandUnits E .single .word .lit true {} pattern
        let p ← single E .quoted st
        finishParam E t indq r.concat (r.values.map (Fnmatch.matchEach E.chars p t.head t.tail t.longest))
    | .subst =>
      if unset && !E.unsetOk then M.fail
      else do
        let st ← expandUnits E .single .word .lit true {} pattern
        let p ← single E .quoted st
        let st ← expandUnits E .single .word .lit true {} subst
        let w ← single E .none st
        finishParam E t indq r.concat (r.values.map (Fnmatch.substEach E.chars p w t.head t.tail t.all))

end

/-- `expand_four` (expand.c:388-570). -/
def expandFour {σ : Type} (E : Env σ) (tilde : Tilde) (q : Quoting) (cc : CC) (w : Word) : M σ (List CWord) := do
  let st ← expandUnits E tilde q cc true {} w
  pure st.finish

/-- `expand_single` (expand.c:303-309). -/
def expandSingle {σ : Type} (E : Env σ) (tilde : Tilde) (q : Quoting) (e : Escaping) (w : Word) :
    M σ (List Char) := do
  let st ← expandUnits E tilde q .lit true {} w
  single E e st

/-! ## Whole words -/

/-- `glob_all` (expand.c:1924-1960) for one field. -/
def globField {σ : Type} (E : Env σ) (s : σ) (f : CWord) : List (List Char) :=
  let pattern := quoteRemoval .quotedHard f
  if E.glob && Fnmatch.isPathnameMatchingPattern [] pattern then
    let found := E.wglob s pattern
    if !E.nullglob && found.isEmpty then [quoteRemoval .none f] else found
  else [quoteRemoval .none f]

/-- `expand_multiple` (expand.c:193-228). -/
def expandMultiple {σ : Type} (E : Env σ) (w : Word) : M σ (List (List Char)) := do
  let ws ← expandFour E .single .word .lit w
  let ws ← M.check (if E.braceexpand then expandBraceEach E.locale E.long ws else some ws)
  let s ← M.get
  pure ((fieldsplit E.locale E.emptylast (E.getvar s "IFS".toList) ws).flatMap (globField E s))

/-- `expand_line` (expand.c:168-186). -/
def expandLine {σ : Type} (E : Env σ) : List Word → M σ (List (List Char))
  | [] => pure []
  | w :: ws => do
    let r ← expandMultiple E w
    let rs ← expandLine E ws
    pure (r ++ rs)

end Yash.Expand
