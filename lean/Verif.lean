import Verif.Model.Basic
import Verif.Model.Lex
import Verif.Model.Attr
import Verif.Model.Numbers
import Verif.Model.Block
import Verif.Model.Inline
import Verif.Model.Parser
import Verif.Model.Html
import Verif.Proofs.Top
import Verif.Proofs.InlIter
import Verif.Props.Attr
import Verif.Props.AttrValues
import Verif.Props.AttrSyntax
import Verif.Props.Numbers
import Verif.Props.Lex
import Verif.Props.Lines
import Verif.Props.Smart
import Verif.Props.Escape
import Verif.Props.Writer
import Verif.Props.Block
import Verif.Props.Fence
import Verif.Props.Table
import Verif.Props.Layout
import Verif.Props.Html
import Verif.Props.Footnotes
import Verif.Props.Ids
import Verif.Props.Parser
import Verif.Props.Doc
import Verif.Props.Headings
import Verif.Props.Spelled
import Verif.Props.Verbatim
import Verif.Proofs.RoundInl
import Verif.Props.Round
import Verif.Props.Literal
import Verif.Props.HtmlTree
import Verif.Props.HtmlReuse
import Verif.Props.RoundHtml
import Verif.Props.RoundSec
import Verif.Props.BlockStarts
import Verif.Proofs.SimLines
import Verif.Props.RenderTotal
import Verif.Props.RawHtml
import Verif.Props.Main
