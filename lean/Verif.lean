import Verif.Model.Reformat
import Verif.Model.Cli
import Verif.Props.Api
import Verif.Props.Parse
import Verif.Props.Args
import Verif.Props.Log
import Verif.Props.Cli
import Verif.Props.Blocks
import Verif.Props.Wrap
import Verif.Props.Paragraphs
import Verif.Props.Chars
import Verif.Props.Quotes
import Verif.Props.Lrd
import Verif.Props.Trailing
import Verif.Props.Lists
import Verif.Props.Tables
import Verif.Props.Budget
import Verif.Props.Termination
import Verif.Props.Prose
import Verif.Props.Idempotent
import Verif.Props.Compose
import Verif.Props.Extents
import Verif.Props.Errors
import Verif.Props.ListKinds
import Verif.Props.TextSpec
import Verif.Lemmas.Text
import Verif.Props.RefSpec
import Verif.Lemmas.Refs
import Verif.Props.TreeSpec
import Verif.Lemmas.TreeSettle
import Verif.Props.Tree
import Verif.Props.Consistency
import Verif.Lemmas.Lrd
import Verif.Lemmas.Finds
import Verif.Lemmas.Greedy
import Verif.Lemmas.CodeSpans
import Verif.Props.InlineSpec
import Verif.Lemmas.Inline
import Verif.Lemmas.LinkRx
import Verif.Lemmas.InlineCode
import Verif.Lemmas.Bare
import Verif.Lemmas.InlineLink
import Verif.Lemmas.InlineWrap
import Verif.Lemmas.Squeeze
import Verif.Lemmas.Fill
import Verif.Props.Inline
import Verif.Model.Version
import Verif.Props.Version
import Verif.Props.Accept
import Verif.Props.Renders
import Verif.Props.Kept
import Verif.Model.LogM
import Verif.Model.DetectLog
import Verif.Model.Messages
import Verif.Lemmas.LogM
import Verif.Lemmas.DetectLog
import Verif.Props.DetectLog
import Verif.Props.Messages
import Verif.Props.DetectFound
import Verif.Model.Append
import Verif.Props.Append
import Verif.Model.Repr
import Verif.Lemmas.Repr
import Verif.Props.Repr
import Verif.Lemmas.Steady
import Verif.Model.MainLog
import Verif.Props.MainLog
import Verif.Props.CliMore
import Verif.Lemmas.Harm
import Verif.Props.LogDamage
import Verif.Model.Argv
import Verif.Props.Argv
import Verif.Lemmas.Pieces
import Verif.Props.WrapFails
import Verif.Props.TrailingAll
import Verif.Model.Deprecated
import Verif.Props.Deprecated
import Verif.Props.CheckPass
import Verif.Props.TableCells
import Verif.Props.TableAgain
import Verif.Props.FenceDoc
import Verif.Props.WrapKept
import Verif.Props.ParDoc
import Verif.Props.CodeDoc
import Verif.Lemmas.NoStop
import Verif.Props.QuoteDoc
import Verif.Props.RefDoc
import Verif.Props.ListDoc
import Verif.Props.HeadDoc
import Verif.Props.Chunks
import Verif.Props.Lazy
import Verif.Props.Wide
import Verif.Props.Endings
import Verif.Props.Opening
import Verif.Props.LazyList
import Verif.Props.Wider
import Verif.Props.DefSpec
import Verif.Props.DefLines
import Verif.Props.Divide
import Verif.Props.DivideQuotes
import Verif.Lemmas.ScanRx
import Verif.Lemmas.CodeRef
import Verif.Lemmas.LinkRef
import Verif.Props.WrapRef
import Verif.Props.WrapExact
import Verif.Props.FormatRef
import Verif.Props.FormatExact
import Verif.Props.LogRef
import Verif.Props.LogExact
import Verif.Props.LogFails
import Verif.Props.Blowup
import Verif.Props.Bytes
import Verif.Props.Command
import Verif.Props.CommonSpec
import Verif.Props.CommonRead
import Verif.Props.Common
import Verif.Props.CommonBlocks
import Verif.Props.CommonPrint
import Verif.Props.CommonMark
import Verif.Props.Effort
import Verif.Props.LineEnds
import Verif.Props.LineEndsDoc
import Verif.Props.LineEndsProg
import Verif.Props.Widths
import Verif.Model.Pipe
import Verif.Props.Pipe
import Verif.Lemmas.Size
import Verif.Props.LineCount
import Verif.Lemmas.Room
import Verif.Props.Length
import Verif.Props.LengthMet
import Verif.Lemmas.Rename
import Verif.Lemmas.RenameDetect
import Verif.Lemmas.RenameWrap
import Verif.Lemmas.RenameFormat
import Verif.Props.Rename
import Verif.Props.Masking
import Verif.Props.Needs
import Verif.Model.Digits
import Verif.Props.Digits
import Verif.Tests.Repo
import Verif.Tests.CommonMark
