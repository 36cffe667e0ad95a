import Verif.Model.Regexes
import Verif.Model.Objdump
import Verif.Model.AsmText
import Verif.Model.Main
import Verif.Props.Vocabulary
import Verif.Proofs.Chunks
import Verif.Props.ObjLines
import Verif.Props.ObjNames
import Verif.Props.ObjText
import Verif.Props.ObjNumbers
import Verif.Props.ObjListing
import Verif.Props.ObjPages
import Verif.Props.Json
import Verif.Props.TextUtils
import Verif.Props.TextMode
import Verif.Props.TextComments
import Verif.Props.TextVisible
import Verif.Props.TextLive
import Verif.Props.Main
import Verif.Props.DebugJson
import Verif.Validate
import Verif.Tests
import Verif.Props.Usage
import Verif.Props.References
import Verif.Props.Sources
import Verif.Props.Removal
import Verif.Props.Graph
import Verif.Props.Lines
import Verif.Props.TextJson
import Verif.Props.Utf8
import Verif.Props.ObjAngles
import Verif.Props.MoreFilters
import Verif.Props.Program
import Verif.Props.ObjMargin
import Verif.Props.Decode
import Verif.Props.Chains
import Verif.Props.Kept
import Verif.Props.Again
import Verif.Props.Remarks
import Verif.Props.Append
import Verif.Props.Pieces
import Verif.Proofs.Sides
import Verif.Spec.Loss
import Verif.Proofs.Loss
import Verif.Props.Loss
import Verif.Props.Agree
import Verif.Proofs.Fewer
import Verif.Props.Fewer
import Verif.Spec.Apart
import Verif.Proofs.Apart
import Verif.Props.Apart
import Verif.Proofs.Crlf
import Verif.Props.Crlf
import Verif.Model.JsonPretty
import Verif.Proofs.JsonPretty
import Verif.Props.JsonPretty
import Verif.Spec.Resume
import Verif.Proofs.Resume
import Verif.Props.Resume
import Verif.Spec.LineInfo
import Verif.Proofs.LineInfo
import Verif.Props.LineInfo
import Verif.Proofs.Locales
import Verif.Props.Locales
import Verif.Spec.Silent
import Verif.Proofs.Silent
import Verif.Props.Silent
import Verif.Model.Cost
import Verif.Spec.Cost
import Verif.Proofs.Cost
import Verif.Proofs.Ladder
import Verif.Props.Cost
import Verif.Props.JsonExact
import Verif.Spec.Gaps
import Verif.Proofs.Gaps
import Verif.Props.Gaps
import Verif.Spec.Interleaved
import Verif.Proofs.Interleaved
import Verif.Props.Interleaved
import Verif.Spec.Mute
import Verif.Proofs.Mute
import Verif.Props.Mute
import Verif.Spec.InlineAsm
import Verif.Proofs.InlineAsm
import Verif.Props.InlineAsm
import Verif.Spec.OneBlank
import Verif.Proofs.OneBlank
import Verif.Proofs.RespLines
import Verif.Proofs.RespMore
import Verif.Proofs.Alike
import Verif.Proofs.Respaced
import Verif.Props.Respaced
import Verif.Spec.Tidied
import Verif.Proofs.Tidied
import Verif.Proofs.Squashed
import Verif.Props.Tidied
import Verif.Proofs.Size
import Verif.Proofs.BigJson
import Verif.Props.Size
import Verif.Spec.Circles
import Verif.Proofs.Circles
import Verif.Props.Circles
import Verif.Spec.Once
import Verif.Proofs.FilterRest
import Verif.Proofs.Exported
import Verif.Props.Exported
import Verif.Props.OnlyRemoves
import Verif.Spec.Unaffected
import Verif.Proofs.Unaffected
import Verif.Props.Unaffected
import Verif.Proofs.JsonSize
import Verif.Props.SizeJson
import Verif.Spec.Compiled
import Verif.Proofs.Compiled
import Verif.Proofs.CompiledPos
import Verif.Proofs.CompiledRows
import Verif.Props.Compiled
import Verif.Spec.CompiledUse
import Verif.Proofs.CompiledUse
import Verif.Proofs.CompiledNeed
import Verif.Proofs.CompiledLeft
import Verif.Props.CompiledUse
import Verif.Spec.Columns
import Verif.Proofs.Columns
import Verif.Props.Columns
import Verif.Spec.Settle
import Verif.Proofs.Settle
import Verif.Props.Settle
import Verif.Spec.CompiledJson
import Verif.Proofs.CompiledJson
import Verif.Props.CompiledJson
import Verif.Props.Joint
import Verif.Spec.CompiledLeftJson
import Verif.Proofs.CompiledLeftJson
import Verif.Props.CompiledLeftJson
import Verif.Spec.CompiledTidy
import Verif.Proofs.CompiledTidy
import Verif.Props.CompiledTidy
import Verif.Proofs.Spared
import Verif.Proofs.CompiledGaps
import Verif.Props.CompiledGaps
import Verif.Proofs.ObjJsonSize
import Verif.Proofs.BigBinary
import Verif.Props.SizeBinary
import Verif.Proofs.First
import Verif.Props.First
import Verif.Props.FirstJson
import Verif.Props.CompiledCrlf
import Verif.Props.CompiledFilters
