import Verif.Model.Ast
import Verif.Model.Basic
import Verif.Model.CommentLexer
import Verif.Model.CommentWrite
import Verif.Model.Config
import Verif.Model.Display
import Verif.Model.Files
import Verif.Model.Formatter
import Verif.Model.Grammar
import Verif.Model.LexUtil
import Verif.Model.LuaLexer
import Verif.Model.Main
import Verif.Model.Parser
import Verif.Model.Reconstruct
import Verif.Model.Template
import Verif.Model.Util
import Verif.Model.Write
import Verif.Spec.Asked
import Verif.Spec.Cli
import Verif.Spec.CommentLines
import Verif.Spec.Elements
import Verif.Spec.Files
import Verif.Spec.KeptLines
import Verif.Spec.Layout
import Verif.Spec.Lex
import Verif.Spec.Lines
import Verif.Spec.LuaString
import Verif.Spec.Messages
import Verif.Spec.Numeral
import Verif.Spec.Options
import Verif.Spec.Program
import Verif.Spec.RangeSafe
import Verif.Spec.Recursion
import Verif.Spec.Selection
import Verif.Spec.Spacing
import Verif.Spec.Syntax
import Verif.Spec.Unchanged
import Verif.Proofs.Adjacent
import Verif.Proofs.AskLines
import Verif.Proofs.AskMarks
import Verif.Proofs.AskPair
import Verif.Proofs.AskTree
import Verif.Proofs.Asks
import Verif.Proofs.Calm
import Verif.Proofs.Cli
import Verif.Proofs.Comment
import Verif.Proofs.CommentLines
import Verif.Proofs.CommentText
import Verif.Proofs.Config
import Verif.Proofs.Display
import Verif.Proofs.Emit
import Verif.Proofs.EmitAll
import Verif.Proofs.Files
import Verif.Proofs.FirstLast
import Verif.Proofs.Fresh
import Verif.Proofs.GapAfter
import Verif.Proofs.GapExact
import Verif.Proofs.GapLex
import Verif.Proofs.GapSep
import Verif.Proofs.GapWrite
import Verif.Proofs.Index
import Verif.Proofs.Inversion
import Verif.Proofs.Items
import Verif.Proofs.KeptLines
import Verif.Proofs.KeptPairs
import Verif.Proofs.Laid
import Verif.Proofs.LastLine
import Verif.Proofs.Layout
import Verif.Proofs.LayoutGap
import Verif.Proofs.LayoutPair
import Verif.Proofs.LayoutTree
import Verif.Proofs.LexAll
import Verif.Proofs.LexProps
import Verif.Proofs.Lexer
import Verif.Proofs.LinesTree
import Verif.Proofs.Live
import Verif.Proofs.LiveTree
import Verif.Proofs.LiveWrite
import Verif.Proofs.LuaString
import Verif.Proofs.MarkRuns
import Verif.Proofs.MarkWrite
import Verif.Proofs.Marks
import Verif.Proofs.OutElems
import Verif.Proofs.Output
import Verif.Proofs.Outside
import Verif.Proofs.ParserComplete
import Verif.Proofs.ParserSound
import Verif.Proofs.RangeElems
import Verif.Proofs.Ranges
import Verif.Proofs.Reading
import Verif.Proofs.Reads
import Verif.Proofs.Relayout
import Verif.Proofs.Render
import Verif.Proofs.Rewrite
import Verif.Proofs.RewriteTree
import Verif.Proofs.Same
import Verif.Proofs.SameTree
import Verif.Proofs.Seek
import Verif.Proofs.SepsAll
import Verif.Proofs.SetText
import Verif.Proofs.Slice
import Verif.Proofs.Spaced
import Verif.Proofs.SpacesAll
import Verif.Proofs.Spans
import Verif.Proofs.TailsAll
import Verif.Proofs.Tile
import Verif.Proofs.TileAll
import Verif.Props.AfterComment
import Verif.Props.Behind
import Verif.Props.Breaks
import Verif.Props.Cli
import Verif.Props.CommentLines
import Verif.Props.Comments
import Verif.Props.ConfigFile
import Verif.Props.Display
import Verif.Props.Files
import Verif.Props.Identity
import Verif.Props.KeptLines
import Verif.Props.Layout
import Verif.Props.Lexing
import Verif.Props.LineStarts
import Verif.Props.Lines
import Verif.Props.Messages
import Verif.Props.Options
import Verif.Props.Output
import Verif.Props.Outside
import Verif.Props.Printing
import Verif.Props.Program
import Verif.Props.Progress
import Verif.Props.Project
import Verif.Props.Ranged
import Verif.Props.Ranges
import Verif.Props.Runs
import Verif.Props.Selection
import Verif.Props.Spacing
import Verif.Props.Trees
