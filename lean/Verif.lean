import Verif.HashTable.Props
import Verif.Buf.Props
import Verif.Expand.QuoteProps
import Verif.Expand.FieldSplitProps
import Verif.Expand.BraceProps
import Verif.Xgetopt.Props
import Verif.Trie.Props
import Verif.Arith.Props
import Verif.Fnmatch.Props
import Verif.TestBuiltin.Props
import Verif.Alias.Props
import Verif.Variable.Props
import Verif.Getopts.Props
import Verif.Path.CanonProps
import Verif.Path.UmaskProps
import Verif.Path.WhichProps
import Verif.Path.AccessProps
import Verif.Path.CdProps
import Verif.Path.DirStackProps
import Verif.Syntax.Ast
import Verif.Syntax.Lex
import Verif.Expand.WordProps
import Verif.Expand.QuoteWord
import Verif.Expand.ParamProps
import Verif.Redir.Props
import Verif.Redir.FileProps
import Verif.Exec.Props
import Verif.Sig.Props
import Verif.Sig.NameProps
import Verif.Parser.Print
import Verif.Parser.Spec
import Verif.Parser.RoundTripQuirks
import Verif.Parser.AcceptProps
import Verif.Restore.Props
import Verif.Restore.Quirks
import Verif.Job.Quirks
import Verif.Shopt.Restore
import Verif.History.Range
import Verif.History.Numbers
import Verif.History.Ascii
import Verif.Input.Utf8
import Verif.Read.Bytes
import Verif.Printf.Props
import Verif.Glob.Props
import Verif.Pipe.Props
import Verif.HereDoc.Props
import Verif.Edit.Props
import Verif.Edit.Props2
import Verif.Edit.Props3
import Verif.Edit.Props4
import Verif.Edit.Props5
import Verif.Edit.Props6
import Verif.Function.Props
import Verif.Function.Restore
import Verif.Keys.Props
import Verif.Keys.Typed
import Verif.Keys.Line
import Verif.Complete.Props
import Verif.Complete.Examples
import Verif.Complete.ParseProps
import Verif.Complete.ParseExamples
import Verif.Bindkey.Props
import Verif.Bindkey.Examples
import Verif.Alias.BuiltinProps
import Verif.Alias.BuiltinExamples
import Verif.Mail.Props
import Verif.Mail.Examples
import Verif.Ulimit.Props
import Verif.Ulimit.Examples
import Verif.Kill.Props
import Verif.Kill.Examples
import Verif.Command.Props
import Verif.Command.Examples
import Verif.Leave.Props
import Verif.Leave.Examples
import Verif.Expand.TildeProps
import Verif.Expand.TildeExamples
import Verif.Hash.Props
import Verif.Hash.Examples
import Verif.Buf.ConvProps
import Verif.Buf.ConvExamples
import Verif.Startup.Props
import Verif.Startup.Examples
import Verif.Source.Model
import Verif.Source.Spec
import Verif.Source.Props
import Verif.Source.Examples
import Verif.Source.Eval
import Verif.Source.EvalSpec
import Verif.Source.EvalProps
import Verif.Source.EvalExamples
