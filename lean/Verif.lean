import Verif.Props.Tokens
import Verif.Props.Writers
import Verif.Props.Sinks
import Verif.Props.Series
import Verif.Props.Paths
import Verif.Props.Layout
import Verif.Props.Lines
import Verif.Props.Quoting
import Verif.Props.I16
import Verif.Props.Gaps
import Verif.Props.Escape
import Verif.Props.Rust
import Verif.Props.Inject
import Verif.Props.Simple
import Verif.Props.Python
import Verif.Props.Java
import Verif.Props.Shift
import Verif.Props.Csharp
import Verif.Props.Js
import Verif.Props.Nix
import Verif.Props.Macro
import Verif.Props.Fake
import Verif.Props.MacroPlace
import Verif.Props.MacroParse
import Verif.Props.Values
import Verif.Props.Behind
import Verif.Props.Builders
import Verif.Props.Sources
import Verif.Props.Text
import Verif.Props.Template
import Verif.Props.Void
import Verif.Props.Source
import Verif.Props.Rounds
import Verif.Props.SourceFile
import Verif.Props.Doc
import Verif.Props.DocFile
import Verif.Props.Conformance
import Verif.Props.ConformanceLang
import Verif.Props.Reflow
import Verif.Props.Wrap
import Verif.Props.Tiers
import Verif.Props.Controls
import Verif.Props.Parted
import Verif.Props.Seam
import Verif.Props.Entry
import Verif.Props.Configs
import Verif.Props.Found
import Verif.Props.Helpers
import Verif.Props.Interp
import Verif.Props.Open
import Verif.Props.Raw
import Verif.Props.Usize
import Verif.Props.Refutable
import Verif.Props.Utf8
import Verif.Props.NixNames
import Verif.Props.References
import Verif.Props.Worded
import Verif.Props.Attributes
import Verif.Props.PlainNames
import Verif.Props.Repeats
import Verif.Props.Calm
import Verif.Props.Advice
import Verif.Props.Size
import Verif.Props.Blame
import Verif.Props.AdviceText
import Verif.Props.Retab
import Verif.Props.Solo
import Verif.Props.Grow
import Verif.Props.Extend
import Verif.Props.GrowAll
import Verif.Props.Once
import Verif.Props.Account
import Verif.Props.Joined
import Verif.Props.Programs
import Verif.Props.Rearranged
import Verif.Props.TextPrograms
import Verif.Props.TemplatePrograms
import Verif.Props.InvocationPrograms
