import Verif.Str.Props
import Verif.Util.Props
import Verif.Comment.Props
import Verif.Io.Props
import Verif.Diff.Props
import Verif.Libks.Arith
import Verif.Libks.Buffer
import Verif.Libks.Vector
import Verif.Libks.List
import Verif.Libks.Map
import Verif.Libks.Arena
import Verif.Lexer.CommentText
import Verif.Stream.Consume
import Verif.Cases
import Verif.Stream.Edit
import Verif.Stream.BranchFold
import Verif.Doc.Lines
import Verif.Doc.Fits
import Verif.Doc.Exact
import Verif.Parser.Region
import Verif.Doc.DiffMode
import Verif.Expr.Gram
import Verif.Ruler.White
import Verif.Ruler.Stable
import Verif.Cpp.AlignTwice
import Verif.Cpp.GuardProps
import Verif.Cpp.IncludeProps
import Verif.Simple.PassProps
import Verif.Simple.PrintfProps
import Verif.Simple.StmtProps
import Verif.Simple.ForwardProps
import Verif.Simple.Decl
import Verif.Simple.DeclSpec
import Verif.Simple.DeclEdit
import Verif.Simple.DeclLeave
import Verif.Simple.DeclCollect
import Verif.Simple.DeclLeft
import Verif.Simple.DeclPlan
import Verif.Simple.DeclProps
import Verif.Simple.DeclWitness
import Verif.Sys.Search
import Verif.Sys.Error
import Verif.Style.Witness
import Verif.Parse.Base
import Verif.Parse.Peek
import Verif.Parse.Model
import Verif.Parse.Drop
import Verif.Parse.Wp
import Verif.Parse.Rules
import Verif.Parse.ExprProps
import Verif.Parse.DocProps
import Verif.Parse.PartProps
import Verif.Parse.DeclProps
import Verif.Parse.StmtProps
import Verif.Parse.Balance
import Verif.Parse.BalanceExpr
import Verif.Parse.Theorems
import Verif.Parse.Progress
import Verif.Parse.Consume
import Verif.Parse.Repair
import Verif.Parse.Total
import Verif.Parse.Ends
import Verif.Parse.PeekProps
import Verif.Parse.Refine
import Verif.Parse.Terminates
import Verif.Simple.Small
import Verif.Simple.Static
import Verif.Simple.Loop
import Verif.Simple.Proto
import Verif.Whole.Attached
import Verif.Whole.Format
import Verif.Stream.Semi
import Verif.Stream.Recover
import Verif.Stream.RecoverProps
import Verif.Stream.RecoverExec
import Verif.Stream.RecoverLoss
import Verif.Stream.Alternatives
import Verif.Stream.AlternativesExec
import Verif.Stream.Both
import Verif.Lexer.Unique
import Verif.Lexer.ReadBack
import Verif.Lexer.Joins
import Verif.Lexer.IsToken
import Verif.Doc.Sep
import Verif.Expr.Doc
import Verif.Expr.ReadBack
import Verif.Expr.Pairs
import Verif.Expr.Again
import Verif.Expr.Meaning
import Verif.Lexer.Constant
import Verif.Parse.SepRules
import Verif.Parse.SepExpr
import Verif.Parse.SepDoc
import Verif.Parse.SepPart
import Verif.Parse.SepDecl
import Verif.Parse.SepStmt
import Verif.Parse.NearSound
import Verif.Lexer.Alone
import Verif.Parse.SepFile
import Verif.Cpp.IncludeTwice
import Verif.Simple.Twice
import Verif.Io.Diff
import Verif.Io.Options
import Verif.Simple.BracesTwice
import Verif.Parse.Work
import Verif.Style.Categories
import Verif.Lexer.Gaps
import Verif.Doc.OneLine
import Verif.Expr.Twice
import Verif.Expr.Neat
import Verif.Expr.Stable
import Verif.Expr.Fixed
import Verif.Expr.Blanks
import Verif.Libks.ArenaBuffer
import Verif.Doc.Laid
import Verif.Expr.Remark
import Verif.Expr.RemarkProps
import Verif.Expr.RemarkCases
import Verif.Expr.RemarkLex
import Verif.Doc.Straight
import Verif.Layout.Say
import Verif.Layout.Model
import Verif.Layout.Spec
import Verif.Layout.Base
import Verif.Layout.DeclRun
import Verif.Layout.Props
import Verif.Layout.FileModel
import Verif.Layout.FileSpec
import Verif.Layout.FileProps
import Verif.Layout.DeclModel
import Verif.Layout.DeclSpec
import Verif.Layout.DeclProps
import Verif.Layout.UnitModel
import Verif.Layout.UnitSpec
import Verif.Layout.UnitProps
import Verif.Ruler.Decide
import Verif.Layout.SenseSpec
import Verif.Layout.SenseProps
import Verif.Ruler.Again
import Verif.Layout.AgainSpec
import Verif.Layout.AgainProps
import Verif.Ruler.Twice
import Verif.Layout.BodySpec
import Verif.Layout.BodyProps
import Verif.Layout.WholeSpec
import Verif.Layout.WholeProps
