import Verif.Model.ToYamd
import Verif.Tests.Lexer
import Verif.Tests.Ops
import Verif.Tests.Nodes
import Verif.Props.Lexer
import Verif.Props.Ops
import Verif.Props.Doc
import Verif.Props.RoundTrip
import Verif.Props.Subst
import Verif.Props.Links
import Verif.Props.Reference
import Verif.Props.Steady
import Verif.Props.Lines
import Verif.Props.Local
import Verif.Props.Marks
import Verif.Props.Size
import Verif.Props.PropTests
import Verif.Props.Wrap
import Verif.Props.Serde
import Verif.Props.Utils
import Verif.Props.Api
import Verif.Props.OpsOf
import Verif.Props.Dressed
import Verif.Props.Exact
import Verif.Props.Final
import Verif.Props.Crlf
import Verif.Props.Blank
import Verif.Props.Range
import Verif.Props.Unslash
import Verif.Props.Mixed
import Verif.Props.Passes
