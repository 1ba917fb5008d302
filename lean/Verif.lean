import Verif.Props.SemverOrder
import Verif.Props.SemverMatch
import Verif.Props.SemverParse
import Verif.Props.SemverExact
import Verif.Props.InlineStr
import Verif.Props.TomlLit
import Verif.Props.Lex
import Verif.Props.Common
import Verif.Props.Index
import Verif.Props.Parse
import Verif.Props.Places
import Verif.Props.Grammar
import Verif.Props.Map
import Verif.Props.Check
import Verif.Props.Simple
import Verif.Cli.Model
import Verif.Props.Cli
import Verif.Toml.ReprSpans
import Verif.Nvim.Model
import Verif.Props.Nvim
import Verif.Props.Fetch
import Verif.Props.OneVec
import Verif.Props.Damage
import Verif.Props.Render
import Verif.Props.LitTruth
import Verif.Props.SemverTruth
import Verif.Props.LexTruth
import Verif.Props.ParseTruth
import Verif.Props.Soft
import Verif.Props.Assoc
import Verif.Props.AssocArr
import Verif.Props.Container
import Verif.Props.AssocKind
import Verif.Props.AssocLevel
import Verif.Props.AssocOwn
import Verif.Props.MapAll
import Verif.Props.Wording
import Verif.Props.CheckParts
import Verif.Props.Member
import Verif.Props.ReqAlgebra
import Verif.Props.Reach
import Verif.Props.Size
import Verif.Props.OrderReq
import Verif.Props.Compat
