import Verif.Base
import Verif.ConvertModel
import Verif.ConvertSpec
import Verif.ConvertLemmas
import Verif.ConvertProps
import Verif.ConvGenLemmas
import Verif.ConvGenLift
import Verif.ConvGenProps
import Verif.CircuitModel
import Verif.CircuitSpec
import Verif.CircuitRep
import Verif.CircuitOps
import Verif.CircuitConnect
import Verif.CircuitTerm
import Verif.CircuitDeembed
import Verif.CircuitEval
import Verif.CircuitSolve
import Verif.CircuitLin
import Verif.CircuitFrame
import Verif.CircuitBuilt
import Verif.CircuitInv
import Verif.CircuitProps
import Verif.CircuitProps2
import Verif.CircuitExamples
import Verif.CircuitPower
import Verif.CircuitNest
import Verif.CircuitEmbed
import Verif.CircuitStale
import Verif.CircuitExtend
import Verif.PortPower
import Verif.RLCModel
import Verif.RLCProps
import Verif.RLCProps2
import Verif.Bridge
import Verif.RfBase
import Verif.Coupler
import Verif.TRLSpec
import Verif.TRLModel
import Verif.TRLLemmas
import Verif.TRLProps
import Verif.TRLProps2
import Verif.MaxFun
import Verif.Misc
import Verif.GTLVars
import Verif.VSW
import Verif.RfObject
import Verif.RfObjectProps
import Verif.RfObjectProps2
import Verif.RfObjectDeembed
import Verif.RfObjectEx
import Verif.ConvComplete
import Verif.Touchstone
import Verif.TouchstoneText
import Verif.TouchstoneRead
import Verif.TouchstoneHead
import Verif.TouchstoneOpt
import Verif.TouchstoneTrip
import Verif.TouchstoneDec
import Verif.TouchstoneErr
import Verif.TouchstoneStr
import Verif.TouchstoneBad
import Verif.Resolver
import Verif.ResolverProps
import Verif.ResolverProps2
import Verif.ResolverProps3
import Verif.ResolverLine
import Verif.ResolverSound
import Verif.ResolverSound2
import Verif.ResolverValues
import Verif.ResolverWrong
import Verif.CircuitRefuse
import Verif.CircuitSolution
import Verif.CircuitSolProps
import Verif.CircuitMaxV
import Verif.RLCMaxV
import Verif.CircuitCopy
import Verif.Heap
import Verif.HeapCopy
import Verif.HeapAdd
import Verif.HeapSet
import Verif.HeapSetProps
import Verif.HeapEx
import Verif.TouchstoneMore
import Verif.CircuitSolNest
import Verif.CircuitSolCirc
import Verif.CircuitSolEx
import Verif.CircuitPorts
import Verif.TouchstoneGrid
import Verif.GTLModel
import Verif.GTLNet
import Verif.GTLProps
import Verif.GTLEx
import Verif.GTLPos
import Verif.GTLPos2
import Verif.GTLPos3
import Verif.Linfun
import Verif.LinfunProps
import Verif.ResolverUniform
import Verif.CircuitInternal
import Verif.CircuitInternalProps
import Verif.CircuitInternalEx
import Verif.GTLElem
import Verif.GTLFile
import Verif.CircuitPos
import Verif.CircuitPosNest
import Verif.RfObjectRef
import Verif.CircuitParams
import Verif.CircuitParamsProps
import Verif.CircuitParamsEx
import Verif.TouchstoneHFSS
import Verif.RfObjectFile
import Verif.Interp
import Verif.InterpProps
import Verif.InterpEx
import Verif.TRLFile
import Verif.TRLFileProps
import Verif.CircuitList
import Verif.CircuitListFrame
import Verif.CircuitListProps
import Verif.CircuitListThms
import Verif.CircuitListEx
import Verif.CircuitOwn
import Verif.CircuitShare
import Verif.OwnMisc
import Verif.CircuitSolStale
import Verif.CircuitSolLater
import Verif.CircuitOld
import Verif.CircuitOldProps
import Verif.TouchstoneVars
import Verif.RfObjectEq
import Verif.CircuitCtor
import Verif.CompareSs
import Verif.PrintM
import Verif.CircuitVSW
import Verif.CircuitOldInternal
import Verif.CircuitOldMaxV
import Verif.StrVSW
import Verif.GTLCopy
import Verif.Parts
import Verif.PartsNest
import Verif.CouplerLines
import Verif.PartsSol
import Verif.PartsDeep
import Verif.LineMax
import Verif.PartsMax
import Verif.RfObjectSeq
import Verif.Sweep
import Verif.PartsPower
import Verif.Chain
import Verif.Loaded
import Verif.Cascade
import Verif.Scaling
import Verif.Resonance
import Verif.Continuous
import Verif.Logging
import Verif.ReadDict
import Verif.Immittance
