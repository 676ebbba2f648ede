import Verif.Parser.RoundTripProps
/-!
# C55: what is not read back

Each theorem shows a command that the parser reads, and the text printed for it, from which something else is read. They show that
the conditions in `Verif.Parser.Spec` cannot be dropped.
-/
set_option autoImplicit false

namespace Yash.Parser.Quirks

open Syntax
open Expand (cLocale)
open Ex (w one)

/-- The command is read from the first text and printed as the second. -/
def Printed (source : String) (c : Command) (printed : String) : Prop :=
  (∃ rest, parseLine cLocale source.toList = some (one c, rest)) ∧ commandToWcs cLocale c false = printed.toList

/-- `echo a\ ` is printed without the space at the end. -/
theorem escaped_space :
    Printed "echo a\\ \n" (.simple [] [] [w "echo", w "a\\ "]) "echo a\\" ∧
      parseLine cLocale "echo a\\".toList = some (one (.simple [] [] [w "echo", w "a\\"]), []) :=
  ⟨⟨⟨_, rfl⟩, rfl⟩, rfl⟩

/-- `a=(x\ )` is printed as a text with an unclosed parenthesis. -/
theorem escaped_space_in_array :
    Printed "a=(x\\ )\n" (.simple [] [.array "a".toList [w "x\\ "]] []) "a=(x\\)" ∧ parseLine cLocale "a=(x\\)".toList = none :=
  ⟨⟨⟨_, rfl⟩, rfl⟩, rfl⟩

/-- A command substitution in backquotes is printed in the other form. -/
theorem backquotes :
    Printed "`pwd`\n" (.simple [] [] [[.cmdsub (.unparsed "pwd".toList)]]) "$(pwd)" ∧
      parseLine cLocale "$(pwd)".toList = some (one (.simple [] [] [[.cmdsub (.parsed (one (.simple [] [] [w "pwd"])))]]), []) :=
  ⟨⟨⟨_, rfl⟩, rfl⟩, rfl⟩

/-- Even a syntax error in backquotes, which would be found when the command is executed, is found when it is read. -/
theorem backquotes_error :
    Printed "`)`\n" (.simple [] [] [[.cmdsub (.unparsed ")".toList)]]) "$())" ∧ parseLine cLocale "$())".toList = none :=
  ⟨⟨⟨_, rfl⟩, rfl⟩, rfl⟩

/-- A file descriptor that is too large is printed as a word. -/
theorem large_fd :
    Printed "99999999999<f\n" (.simple [.file .input 2147483648 (w "f")] [] []) "-1<f" ∧
      parseLine cLocale "-1<f".toList = some (one (.simple [.file .input 0 (w "f")] [] [w "-1"]), []) :=
  ⟨⟨⟨_, rfl⟩, rfl⟩, rfl⟩

/-- A function named by a keyword is printed without `function`. -/
theorem keyword_function :
    Printed "function if { :; }\n" (.funcdef [] (w "if") (.group [] (one (.simple [] [] [w ":"])))) "if() { :; }" ∧
      parseLine cLocale "if() { :; }".toList = none :=
  ⟨⟨⟨_, rfl⟩, rfl⟩, rfl⟩

/-- The same for a function that defines a function. -/
theorem nested_function :
    Printed "function f function g { :; }\n" (.funcdef [] (w "f") (.funcdef [] (w "g") (.group [] (one (.simple [] [] [w ":"])))))
      "f() g() { :; }" ∧
      parseLine cLocale "f() g() { :; }".toList = none :=
  ⟨⟨⟨_, rfl⟩, rfl⟩, rfl⟩

/-- The parentheses become part of the name of a function that ends with a dollar sign. -/
theorem dollar_function :
    Printed "function a$ { :; }\n" (.funcdef [] [.str "a".toList, .str "$".toList] (.group [] (one (.simple [] [] [w ":"])))) "function a$() { :; }" ∧
      parseLine cLocale "function a$() { :; }".toList =
        some (one (.funcdef [] [.str "a".toList, .cmdsub (.parsed [])] (.group [] (one (.simple [] [] [w ":"])))), []) :=
  ⟨⟨⟨_, rfl⟩, rfl⟩, rfl⟩

/-- `${x/}` is printed as `${x//}`. -/
theorem empty_pattern :
    Printed "${x/}\n" (.simple [] [] [[.param (.mk { op := .subst, longest := true } (.name "x".toList) [] [] [] [])]]) "${x//}" ∧
      parseLine cLocale "${x//}".toList =
        some (one (.simple [] [] [[.param (.mk { op := .subst, all := true, longest := true } (.name "x".toList) [] [] [] [])]]), []) :=
  ⟨⟨⟨_, rfl⟩, rfl⟩, rfl⟩

/-- Parentheses in `[[` that group to the left are not printed. -/
theorem bracket_groups :
    Printed "[[ (a || b) || c ]]\n" (.bracket [] (.or (.or (.string (w "a")) (.string (w "b"))) (.string (w "c")))) "[[ a || b || c ]]" ∧
      parseLine cLocale "[[ a || b || c ]]".toList =
        some (one (.bracket [] (.or (.string (w "a")) (.or (.string (w "b")) (.string (w "c"))))), []) :=
  ⟨⟨⟨_, rfl⟩, rfl⟩, rfl⟩

/-- A keyword after a redirection is printed first, with a backslash. -/
theorem keyword_word :
    Printed "<f if\n" (.simple [.file .input 0 (w "f")] [] [w "if"]) "\\if 0<f" ∧
      parseLine cLocale "\\if 0<f".toList = some (one (.simple [.file .input 0 (w "f")] [] [w "\\if"]), []) :=
  ⟨⟨⟨_, rfl⟩, rfl⟩, rfl⟩

/-- A backslash at the end of the input is kept; printed on more than one line, it joins the lines. -/
theorem backslash_at_end :
    parseLine cLocale "{ :; } >a\\".toList = some (one (.group [.file .output 1 (w "a\\")] (one (.simple [] [] [w ":"]))), []) ∧
      commandToWcs cLocale (.group [.file .output 1 (w "a\\")] (one (.simple [] [] [w ":"]))) true = "{\n   :\n} 1>a\\\n".toList ∧
      parseLine cLocale "{\n   :\n} 1>a\\\n".toList =
        some (one (.group [.file .output 1 (w "a")] (one (.simple [] [] [w ":"]))), []) :=
  ⟨rfl, rfl, rfl⟩

/-- A line continuation after a special parameter in braces is a syntax error. -/
theorem continuation_after_special :
    parseLine cLocale "${@\\\n}\n".toList = none ∧
      parseLine cLocale "${a\\\n}\n".toList = some (one (.simple [] [] [[.param (.mk {} (.name "a".toList) [] [] [] [])]]), []) :=
  ⟨rfl, rfl⟩

/-- When `$((` turns out to be a command substitution, line continuations have been removed even in single quotes. -/
theorem continuation_in_quotes :
    parseLine cLocale "$((echo 'a\\\nb'); :)\n".toList = some (one (.simple [] [] [[.cmdsub (.parsed
        [.mk [.mk [.subshell [] (one (.simple [] [] [w "echo", w "'ab'"]))] false false] false, .mk [.mk [.simple [] [] [w ":"]] false false] false])]]), []) ∧
      parseLine cLocale "$( (echo 'a\\\nb'); :)\n".toList = some (one (.simple [] [] [[.cmdsub (.parsed
        [.mk [.mk [.subshell [] (one (.simple [] [] [w "echo", w "'a\\\nb'"]))] false false] false, .mk [.mk [.simple [] [] [w ":"]] false false] false])]]), []) :=
  ⟨rfl, rfl⟩

end Yash.Parser.Quirks
