import Verif.Lemmas.Accept
import Verif.Lemmas.Added
import Verif.Lemmas.AddedNote
import Verif.Lemmas.AddedRun
import Verif.Lemmas.ApartEither
import Verif.Lemmas.Append
import Verif.Lemmas.Bare
import Verif.Lemmas.BareBuild
import Verif.Lemmas.BareCosmos
import Verif.Lemmas.BareOrder
import Verif.Lemmas.BareRun
import Verif.Lemmas.Binary
import Verif.Lemmas.Bundle
import Verif.Lemmas.CBlocks
import Verif.Lemmas.CCompile
import Verif.Lemmas.CConstant
import Verif.Lemmas.CDecls
import Verif.Lemmas.CHeader
import Verif.Lemmas.CInit
import Verif.Lemmas.CMap
import Verif.Lemmas.CReader
import Verif.Lemmas.CScope
import Verif.Lemmas.CSource
import Verif.Lemmas.CSourceFits
import Verif.Lemmas.ClauseOrder
import Verif.Lemmas.ClauseOrderCosmos
import Verif.Lemmas.ClauseOrderRun
import Verif.Lemmas.ClauseValues
import Verif.Lemmas.Clear
import Verif.Lemmas.ClearUnique
import Verif.Lemmas.CommandLine
import Verif.Lemmas.Comments
import Verif.Lemmas.Cosmos
import Verif.Lemmas.CosmosApart
import Verif.Lemmas.CosmosData
import Verif.Lemmas.CosmosEither
import Verif.Lemmas.CosmosItem
import Verif.Lemmas.CosmosLookup
import Verif.Lemmas.CosmosNotes
import Verif.Lemmas.CosmosOrder
import Verif.Lemmas.CosmosPossible
import Verif.Lemmas.CosmosReal
import Verif.Lemmas.CosmosRun
import Verif.Lemmas.CosmosSize
import Verif.Lemmas.CosmosSuccess
import Verif.Lemmas.Decimal
import Verif.Lemmas.Defines
import Verif.Lemmas.Derive
import Verif.Lemmas.Enum
import Verif.Lemmas.Examples
import Verif.Lemmas.FaithfulType
import Verif.Lemmas.FieldType
import Verif.Lemmas.Files
import Verif.Lemmas.FirstBytes
import Verif.Lemmas.Folder
import Verif.Lemmas.Grow
import Verif.Lemmas.GrowNote
import Verif.Lemmas.Header
import Verif.Lemmas.Ieee
import Verif.Lemmas.Imports
import Verif.Lemmas.ImportsCosmos
import Verif.Lemmas.ImportsEnd
import Verif.Lemmas.ImportsRun
import Verif.Lemmas.InPlace
import Verif.Lemmas.InPlaceCosmos
import Verif.Lemmas.InPlaceOrder
import Verif.Lemmas.InPlaceRun
import Verif.Lemmas.Joined
import Verif.Lemmas.Layout
import Verif.Lemmas.Local
import Verif.Lemmas.LocalRun
import Verif.Lemmas.MoreItems
import Verif.Lemmas.MsgId
import Verif.Lemmas.Names
import Verif.Lemmas.NewValues
import Verif.Lemmas.NewValuesCosmos
import Verif.Lemmas.OtherBits
import Verif.Lemmas.Overlay
import Verif.Lemmas.Parser
import Verif.Lemmas.Printer
import Verif.Lemmas.Process
import Verif.Lemmas.Program
import Verif.Lemmas.Relabel
import Verif.Lemmas.RelabelCosmos
import Verif.Lemmas.RelabelRun
import Verif.Lemmas.Rename
import Verif.Lemmas.RenameCosmos
import Verif.Lemmas.RenameRun
import Verif.Lemmas.Reorder
import Verif.Lemmas.Report
import Verif.Lemmas.ReportTrue
import Verif.Lemmas.Retype
import Verif.Lemmas.RetypeCosmos
import Verif.Lemmas.RetypeLimits
import Verif.Lemmas.RetypeOrder
import Verif.Lemmas.RetypeRun
import Verif.Lemmas.Run
import Verif.Lemmas.SameRange
import Verif.Lemmas.Shared
import Verif.Lemmas.Shuffle
import Verif.Lemmas.ShuffleRun
import Verif.Lemmas.Size
import Verif.Lemmas.SizeSpec
import Verif.Lemmas.Sorter
import Verif.Lemmas.Success
import Verif.Lemmas.SuccessBinary
import Verif.Lemmas.Symbols
import Verif.Lemmas.Syntax
import Verif.Lemmas.SyntaxBlock
import Verif.Lemmas.SyntaxModule
import Verif.Lemmas.SyntaxType
import Verif.Lemmas.Telemetry
import Verif.Lemmas.Text
import Verif.Lemmas.Uncomment
import Verif.Lemmas.Unfix
import Verif.Lemmas.UnfixCosmos
import Verif.Lemmas.UnfixOrder
import Verif.Lemmas.UnfixRun
import Verif.Lemmas.Unique
import Verif.Lemmas.Upper
import Verif.Lemmas.Valid
import Verif.Lemmas.Widen
import Verif.Lemmas.Written
import Verif.Lemmas.WrittenInv
import Verif.Model.Ast
import Verif.Model.Binary
import Verif.Model.Builder
import Verif.Model.CGen
import Verif.Model.CMap
import Verif.Model.Cfs
import Verif.Model.CommandLine
import Verif.Model.Cosmos
import Verif.Model.Main
import Verif.Model.Output
import Verif.Model.Parser
import Verif.Model.Processor
import Verif.Model.Program
import Verif.Model.Report
import Verif.Model.Size
import Verif.Model.Sorter
import Verif.Model.Struct
import Verif.Model.Text
import Verif.Props.Accept
import Verif.Props.Added
import Verif.Props.Agreement
import Verif.Props.ApartEither
import Verif.Props.Apid
import Verif.Props.Append
import Verif.Props.Arrays
import Verif.Props.Binary
import Verif.Props.Bundle
import Verif.Props.CChoice
import Verif.Props.CCompile
import Verif.Props.CCompileIff
import Verif.Props.CInit
import Verif.Props.CLimits
import Verif.Props.CMacros
import Verif.Props.CReader
import Verif.Props.CScope
import Verif.Props.CSource
import Verif.Props.ClauseOrder
import Verif.Props.Cli
import Verif.Props.CommandLine
import Verif.Props.CommentOnly
import Verif.Props.Comments
import Verif.Props.Cosmos
import Verif.Props.CosmosApart
import Verif.Props.CosmosData
import Verif.Props.CosmosEither
import Verif.Props.CosmosLookup
import Verif.Props.CosmosNotes
import Verif.Props.CosmosOrder
import Verif.Props.CosmosOther
import Verif.Props.CosmosPossible
import Verif.Props.CosmosReal
import Verif.Props.CosmosSuccess
import Verif.Props.Defines
import Verif.Props.Enum
import Verif.Props.Exact
import Verif.Props.FieldTypes
import Verif.Props.Files
import Verif.Props.FirstBytes
import Verif.Props.Folder
import Verif.Props.Grow
import Verif.Props.Header
import Verif.Props.Imports
import Verif.Props.InPlace
import Verif.Props.Independent
import Verif.Props.Joined
import Verif.Props.Layout
import Verif.Props.Levels
import Verif.Props.Local
import Verif.Props.MoreItems
import Verif.Props.MsgId
import Verif.Props.MsgIdBits
import Verif.Props.Names
import Verif.Props.NewValues
import Verif.Props.NormalForm
import Verif.Props.Order
import Verif.Props.OtherBits
import Verif.Props.Overlay
import Verif.Props.Parser
import Verif.Props.Range
import Verif.Props.Relabel
import Verif.Props.Rename
import Verif.Props.RenameFiles
import Verif.Props.Reorder
import Verif.Props.Report
import Verif.Props.SameRange
import Verif.Props.SelfContained
import Verif.Props.Shared
import Verif.Props.Shuffle
import Verif.Props.SizeOf
import Verif.Props.Sizes
import Verif.Props.StandardNames
import Verif.Props.Success
import Verif.Props.Unfixed
import Verif.Props.Values
import Verif.Props.Whole
import Verif.Props.Widen
import Verif.Props.Written
import Verif.Spec.Added
import Verif.Spec.Agreement
import Verif.Spec.Altered
import Verif.Spec.ApartEither
import Verif.Spec.Append
import Verif.Spec.Arrays
import Verif.Spec.Binary
import Verif.Spec.Bundle
import Verif.Spec.CChoice
import Verif.Spec.CCompile
import Verif.Spec.CFields
import Verif.Spec.CInit
import Verif.Spec.CLimits
import Verif.Spec.CMacros
import Verif.Spec.CReader
import Verif.Spec.CScope
import Verif.Spec.CSource
import Verif.Spec.ClauseOrder
import Verif.Spec.CommandLine
import Verif.Spec.CommentOnly
import Verif.Spec.Comments
import Verif.Spec.Cosmos
import Verif.Spec.CosmosApart
import Verif.Spec.CosmosData
import Verif.Spec.CosmosEither
import Verif.Spec.CosmosNotes
import Verif.Spec.CosmosOrder
import Verif.Spec.CosmosOther
import Verif.Spec.CosmosPossible
import Verif.Spec.CosmosReal
import Verif.Spec.CosmosSuccess
import Verif.Spec.Decimal
import Verif.Spec.Defines
import Verif.Spec.Enum
import Verif.Spec.Files
import Verif.Spec.FirstBytes
import Verif.Spec.Folder
import Verif.Spec.Grammar
import Verif.Spec.Header
import Verif.Spec.Imports
import Verif.Spec.InPlace
import Verif.Spec.Joined
import Verif.Spec.Layout
import Verif.Spec.Levels
import Verif.Spec.Lists
import Verif.Spec.Local
import Verif.Spec.MoreItems
import Verif.Spec.MsgId
import Verif.Spec.MsgIdBits
import Verif.Spec.Names
import Verif.Spec.NewValues
import Verif.Spec.Numbers
import Verif.Spec.Order
import Verif.Spec.OtherBits
import Verif.Spec.Overlay
import Verif.Spec.Printer
import Verif.Spec.Relabel
import Verif.Spec.Rename
import Verif.Spec.Report
import Verif.Spec.SameRange
import Verif.Spec.SelfContained
import Verif.Spec.Shared
import Verif.Spec.Shuffle
import Verif.Spec.Sizes
import Verif.Spec.Success
import Verif.Spec.SuccessBinary
import Verif.Spec.Syntax
import Verif.Spec.Text
import Verif.Spec.Unfixed
import Verif.Spec.Valid
import Verif.Spec.Values
import Verif.Spec.Whole
import Verif.Spec.Widen
import Verif.Spec.Written
