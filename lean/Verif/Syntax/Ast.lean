/-!
# Syntax trees (`parser.h`)

Linked lists and null-terminated arrays are lists; a null pointer to a word is the empty list.  Line
numbers and reference counts are left out.
-/
set_option autoImplicit false

namespace Yash.Syntax

/-- `paramexptype_T` without the flags (parser.h:204-212). -/
inductive ParamOp where
  | none
  | minus
  | plus
  | assign
  | error
  | «match»
  | subst
deriving DecidableEq, Repr

/-- `paramexptype_T` (parser.h:204-220) except for `PT_NEST`, which is part of `ParamBase`. -/
structure ParamType where
  op : ParamOp := .none
  number : Bool := false
  colon : Bool := false
  head : Bool := false
  tail : Bool := false
  longest : Bool := false
  all : Bool := false
deriving DecidableEq, Repr

/-- `redirtype_T` (parser.h:284-298) except for those with other operands. -/
inductive FileRedir where
  | input
  | output
  | clobber
  | append
  | inout
  | dupin
  | dupout
  | pipe
  | herestr
deriving DecidableEq, Repr

mutual

/-- `wordunit_T` (parser.h:186-195). -/
inductive WordUnit where
  | str (s : List Char)
  | param (p : Param)
  | cmdsub (c : Embed)
  | arith (w : List WordUnit)

/-- `paramexp_T` (parser.h:243-251).  An absent index is the empty word. -/
inductive Param where
  | mk (type : ParamType) (base : ParamBase) (start stop pattern subst : List WordUnit)

/-- `pe_value` (parser.h:245-248). -/
inductive ParamBase where
  | name (s : List Char)
  | nest (u : WordUnit)

/-- `embedcmd_T` (parser.h:169-175). -/
inductive Embed where
  | unparsed (s : List Char)
  | parsed (l : List AndOr)

/-- `and_or_T` (parser.h:37-41). -/
inductive AndOr where
  | mk (pipelines : List Pipeline) (async : Bool)

/-- `pipeline_T` (parser.h:46-50). -/
inductive Pipeline where
  | mk (commands : List Command) (neg cond : Bool)

/-- `command_T` (parser.h:72-105); `some` words of a `for` loop are those after `in`. -/
inductive Command where
  | simple (redirs : List Redir) (assigns : List Assign) (words : List (List WordUnit))
  | group (redirs : List Redir) (body : List AndOr)
  | subshell (redirs : List Redir) (body : List AndOr)
  | ifs (redirs : List Redir) (clauses : List IfClause)
  | fors (redirs : List Redir) (name : List Char) (words : Option (List (List WordUnit))) (body : List AndOr)
  | whiles (redirs : List Redir) (isWhile : Bool) (cond body : List AndOr)
  | cases (redirs : List Redir) (word : List WordUnit) (items : List CaseItem)
  | bracket (redirs : List Redir) (e : DbExp)
  | funcdef (redirs : List Redir) (name : List WordUnit) (body : Command)

/-- `ifcommand_T` (parser.h:127-131). -/
inductive IfClause where
  | cond (c body : List AndOr)
  | els (body : List AndOr)

/-- `caseitem_T` (parser.h:135-139). -/
inductive CaseItem where
  | mk (patterns : List (List WordUnit)) (body : List AndOr)

/-- `dbexp_T` (parser.h:144-164). -/
inductive DbExp where
  | or (l r : DbExp)
  | and (l r : DbExp)
  | not (e : DbExp)
  | unary (op : List Char) (w : List WordUnit)
  | binary (op : List Char) (l r : List WordUnit)
  | string (w : List WordUnit)

/-- `assign_T` (parser.h:264-277). -/
inductive Assign where
  | scalar (name : List Char) (w : List WordUnit)
  | array (name : List Char) (ws : List (List WordUnit))

/-- `redir_T` (parser.h:301-313). -/
inductive Redir where
  | file (type : FileRedir) (fd : Nat) (w : List WordUnit)
  | heredoc (removeTabs : Bool) (fd : Nat) (delim : List Char) (content : List WordUnit)
  | proc (isIn : Bool) (fd : Nat) (c : Embed)

end

/-- A word: a chain of word units. -/
abbrev Word := List WordUnit

end Yash.Syntax
