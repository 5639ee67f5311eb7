import Verif.Lemmas.Account
import Verif.Lemmas.Aligned
import Verif.Lemmas.AlignedHost
import Verif.Lemmas.AnyBare
import Verif.Lemmas.AnyLayout
import Verif.Lemmas.AnyLead
import Verif.Lemmas.AnyPool
import Verif.Lemmas.AnyRun
import Verif.Lemmas.AnyType
import Verif.Lemmas.Callback
import Verif.Lemmas.Chosen
import Verif.Lemmas.CostDef
import Verif.Lemmas.CostSim
import Verif.Lemmas.Cur
import Verif.Lemmas.Decide
import Verif.Lemmas.Elab
import Verif.Lemmas.ElabInv
import Verif.Lemmas.ElabPath
import Verif.Lemmas.Encoding
import Verif.Lemmas.Evolve
import Verif.Lemmas.Extend
import Verif.Lemmas.Fits
import Verif.Lemmas.FitsPlan
import Verif.Lemmas.FnCache
import Verif.Lemmas.FnPass
import Verif.Lemmas.Forget
import Verif.Lemmas.Frame
import Verif.Lemmas.FrameX
import Verif.Lemmas.Good
import Verif.Lemmas.Grammar
import Verif.Lemmas.GrammarDecls
import Verif.Lemmas.GrammarEq
import Verif.Lemmas.GrammarRules
import Verif.Lemmas.GrammarToks
import Verif.Lemmas.GrammarTop
import Verif.Lemmas.GrammarWrite
import Verif.Lemmas.Hoist
import Verif.Lemmas.HoistCost
import Verif.Lemmas.HoistFits
import Verif.Lemmas.HostGen
import Verif.Lemmas.Inv
import Verif.Lemmas.Json
import Verif.Lemmas.MainCur
import Verif.Lemmas.MainTri
import Verif.Lemmas.NoThrow
import Verif.Lemmas.Nominal
import Verif.Lemmas.PlanCtx
import Verif.Lemmas.PlanCtxAll
import Verif.Lemmas.PlanCtxHoist
import Verif.Lemmas.PlanCtxLayout
import Verif.Lemmas.PlanCtxOff
import Verif.Lemmas.PlanCtxOut
import Verif.Lemmas.PlanCtxSplit
import Verif.Lemmas.PlanDef
import Verif.Lemmas.PlanLayout
import Verif.Lemmas.PlanOut
import Verif.Lemmas.PortalGen
import Verif.Lemmas.Reflect
import Verif.Lemmas.ReflectObj
import Verif.Lemmas.Rel
import Verif.Lemmas.Round
import Verif.Lemmas.Run
import Verif.Lemmas.Same
import Verif.Lemmas.Sender
import Verif.Lemmas.SizeSim
import Verif.Lemmas.Sort
import Verif.Lemmas.StraightBare
import Verif.Lemmas.StraightDefined
import Verif.Lemmas.StraightLine
import Verif.Lemmas.StraightOrder
import Verif.Lemmas.StraightSame
import Verif.Lemmas.Tight
import Verif.Lemmas.Tri
import Verif.Lemmas.Unreflect
import Verif.Lemmas.ValEq
import Verif.Lemmas.VariantBare
import Verif.Lemmas.VariantCode
import Verif.Lemmas.VariantOrder
import Verif.Lemmas.VariantSame
import Verif.Lemmas.VariantUnknown
import Verif.Lemmas.VecTri
import Verif.Lemmas.WireGen
import Verif.Lemmas.Written
import Verif.Lemmas.WrittenText
import Verif.Model.Align
import Verif.Model.Aligned
import Verif.Model.Any
import Verif.Model.BinCompat
import Verif.Model.Bytes
import Verif.Model.Coalesce
import Verif.Model.CoalesceFn
import Verif.Model.Codec
import Verif.Model.CopyTag
import Verif.Model.Dispatch
import Verif.Model.Effects
import Verif.Model.Elab
import Verif.Model.Extend
import Verif.Model.FnCache
import Verif.Model.Framing
import Verif.Model.Grammar
import Verif.Model.Handles
import Verif.Model.HostGen
import Verif.Model.Ident
import Verif.Model.Imports
import Verif.Model.IntConv
import Verif.Model.Intern
import Verif.Model.Mem
import Verif.Model.Nominal
import Verif.Model.OffsetSpan
import Verif.Model.Path
import Verif.Model.Plan
import Verif.Model.PlanCtx
import Verif.Model.PortalGen
import Verif.Model.Print
import Verif.Model.RecordFile
import Verif.Model.Reflect
import Verif.Model.ReflectObj
import Verif.Model.ReflectWire
import Verif.Model.SafeRead
import Verif.Model.Size
import Verif.Model.Span
import Verif.Model.StraightLine
import Verif.Model.TagWidth
import Verif.Model.Ty
import Verif.Model.Validate
import Verif.Model.VariantCode
import Verif.Model.VariantDecl
import Verif.Model.WireGen
import Verif.Model.Word
import Verif.Model.Xcode
import Verif.Props.C01_RoundTrip
import Verif.Props.C02_Relocation
import Verif.Props.C03_Size
import Verif.Props.C04_Rounded
import Verif.Props.C04_Wrap
import Verif.Props.C05_DecodeFrame
import Verif.Props.C06_DecodeBuffer
import Verif.Props.C07_FailedDecode
import Verif.Props.C08_Handlers
import Verif.Props.C08_Two
import Verif.Props.C09_StructEvolution
import Verif.Props.C10_VariantEvolution
import Verif.Props.C11_EnumCopy
import Verif.Props.C12_IntConv
import Verif.Props.C13_C14_Sequences
import Verif.Props.C15_C16_WireLayout
import Verif.Props.C17_TagWidth
import Verif.Props.C18_Hoist
import Verif.Props.C19_Split
import Verif.Props.C20_Outline
import Verif.Props.C21_Dispatch
import Verif.Props.C22_BinCompat
import Verif.Props.C23_Paths
import Verif.Props.C24_Intern
import Verif.Props.C25_TagAssignment
import Verif.Props.C26_Resolution
import Verif.Props.C27_Imports
import Verif.Props.C28_Framing
import Verif.Props.C29_C30_Reflect
import Verif.Props.C29_Transport
import Verif.Props.C31_Any
import Verif.Props.C32_OffsetSpan
import Verif.Props.C33_RecordFile
import Verif.Props.C34_Effects
import Verif.Props.C35_Coalesce
import Verif.Props.C35_Flush
import Verif.Props.C35_Function
import Verif.Props.C36_SourceOrder
import Verif.Props.C37_Default
import Verif.Props.C38_Validation
import Verif.Props.C39_PriorMemory
import Verif.Props.C40_KnownTerm
import Verif.Props.C41_Align
import Verif.Props.C42_Extend
import Verif.Props.C43_Evolution
import Verif.Props.C45_HostTypes
import Verif.Props.C46_WireGen
import Verif.Props.C47_Grammar
import Verif.Props.C48_Schema
import Verif.Props.C48_Written
import Verif.Props.C49_Module
import Verif.Props.C50_Handlers
import Verif.Props.C50_Portals
import Verif.Props.C51_EndToEnd
import Verif.Props.C52_SentProtocols
import Verif.Props.C53_Printed
import Verif.Props.C54_PlanCtx
import Verif.Props.C55_SafeRead
import Verif.Props.C55_Sources
import Verif.Props.C56_StraightLine
import Verif.Props.C57_Alignment
import Verif.Props.C58_Unknown
import Verif.Props.C58_Variants
import Verif.Props.C59_Handles
import Verif.Props.C60_Spans
import Verif.Props.Defects
import Verif.Props.Planned
import Verif.Spec.Aligned
import Verif.Spec.Any
import Verif.Spec.AtPath
import Verif.Spec.Cost
import Verif.Spec.Cursor
import Verif.Spec.Elab
import Verif.Spec.Evolve
import Verif.Spec.Extend
import Verif.Spec.Fits
import Verif.Spec.Grammar
import Verif.Spec.Host
import Verif.Spec.IntValue
import Verif.Spec.Json
import Verif.Spec.Layout
import Verif.Spec.Obs
import Verif.Spec.PlanCtx
import Verif.Spec.Reflect
import Verif.Spec.SafeRead
import Verif.Spec.Samples
import Verif.Spec.Schema
import Verif.Spec.StraightLine
import Verif.Spec.Sub
import Verif.Spec.Value
import Verif.Spec.WireGen
import Verif.Spec.Written
