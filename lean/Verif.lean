import Verif.Spec.Alias
import Verif.Spec.Assign
import Verif.Spec.BitTree
import Verif.Spec.Bits
import Verif.Spec.BlockCopy
import Verif.Spec.Builtins
import Verif.Spec.Bytes
import Verif.Spec.CString
import Verif.Spec.Cdep
import Verif.Spec.CodeImage
import Verif.Spec.ConvTree
import Verif.Spec.Digits
import Verif.Spec.DomCfg
import Verif.Spec.Dominance
import Verif.Spec.DontCare
import Verif.Spec.DoubleWord
import Verif.Spec.Expr
import Verif.Spec.FlagCode
import Verif.Spec.Float
import Verif.Spec.Garbage
import Verif.Spec.Heights
import Verif.Spec.IR
import Verif.Spec.KnownBits
import Verif.Spec.Linear
import Verif.Spec.LiveCfg
import Verif.Spec.LivePoints
import Verif.Spec.Liveness
import Verif.Spec.LowerDw
import Verif.Spec.MachineImm
import Verif.Spec.ModeB
import Verif.Spec.NarrowIR
import Verif.Spec.Pbqp
import Verif.Spec.Perm
import Verif.Spec.Reaching
import Verif.Spec.Returns
import Verif.Spec.Ring
import Verif.Spec.Sched
import Verif.Spec.Setsort
import Verif.Spec.SsaCons
import Verif.Spec.SsaGraph
import Verif.Spec.StackCode
import Verif.Spec.TailRec
import Verif.Spec.TarVal
import Verif.Spec.Usage
import Verif.Spec.X86
import Verif.Spec.X86Exec
import Verif.Spec.X86Flags
import Verif.Spec.X86Small
import Verif.Spec.X87
import Verif.Model.Alias
import Verif.Model.Array
import Verif.Model.BackendImm
import Verif.Model.BeFlags
import Verif.Model.Bejit
import Verif.Model.Bipartite
import Verif.Model.BitFiddle
import Verif.Model.Bitset
import Verif.Model.BoolOpt
import Verif.Model.Builtins
import Verif.Model.Cdep
import Verif.Model.Chordal
import Verif.Model.Confirms
import Verif.Model.ConstBits
import Verif.Model.ConstBitsAlg
import Verif.Model.ConstBitsExpr
import Verif.Model.ConstBitsGraph
import Verif.Model.ConstBitsIter
import Verif.Model.ConvOpt
import Verif.Model.Dca
import Verif.Model.DcaGraph
import Verif.Model.Deq
import Verif.Model.DivConst
import Verif.Model.Dom
import Verif.Model.EorEquality
import Verif.Model.FltCalc
import Verif.Model.Garbage
import Verif.Model.GaussJordan
import Verif.Model.GaussSeidel
import Verif.Model.HashSet
import Verif.Model.Heights
import Verif.Model.Hungarian
import Verif.Model.Ia32Encode
import Verif.Model.Ia32Patterns
import Verif.Model.Ia32Stack
import Verif.Model.Interfere
import Verif.Model.Intrinsics
import Verif.Model.IrIo
import Verif.Model.IrOptArith
import Verif.Model.IrOptBase
import Verif.Model.IrOptBits
import Verif.Model.IrOptCmp
import Verif.Model.IrOptMux
import Verif.Model.IrOptShift
import Verif.Model.IrOptValue
import Verif.Model.LSet
import Verif.Model.Layout
import Verif.Model.Leb128
import Verif.Model.ListHead
import Verif.Model.LiveChk
import Verif.Model.LiveSets
import Verif.Model.LowerCopyB
import Verif.Model.LowerDw
import Verif.Model.LowerModeB
import Verif.Model.LowerSwitch
import Verif.Model.Mode
import Verif.Model.MulDecomp
import Verif.Model.PQueue
import Verif.Model.Pbqp
import Verif.Model.Perm
import Verif.Model.Relation
import Verif.Model.Returns
import Verif.Model.Sched
import Verif.Model.Setsort
import Verif.Model.SsaCons
import Verif.Model.SsaRecon
import Verif.Model.StrCalc
import Verif.Model.StrCalcIO
import Verif.Model.StrCalcInPlace
import Verif.Model.TailRec
import Verif.Model.TarVal
import Verif.Model.TvIntern
import Verif.Model.UnionFind
import Verif.Model.UpperBits
import Verif.Model.Usage
import Verif.Model.Vrp
import Verif.Model.X86Cond
import Verif.Model.X87
import Verif.Lemmas.Alias
import Verif.Lemmas.AliasExample
import Verif.Lemmas.BackendImm
import Verif.Lemmas.BeFlags
import Verif.Lemmas.Bejit
import Verif.Lemmas.Bits
import Verif.Lemmas.Bytes
import Verif.Lemmas.Cdep
import Verif.Lemmas.Chordal
import Verif.Lemmas.ConstBits
import Verif.Lemmas.ConstBits2
import Verif.Lemmas.ConstBitsAcyclic
import Verif.Lemmas.ConstBitsAlg
import Verif.Lemmas.ConstBitsExpr
import Verif.Lemmas.ConstBitsIter
import Verif.Lemmas.ConstBitsMono
import Verif.Lemmas.ConvOpt
import Verif.Lemmas.Dca
import Verif.Lemmas.DcaGraph
import Verif.Lemmas.DivConst
import Verif.Lemmas.DivConst2
import Verif.Lemmas.DivConst3
import Verif.Lemmas.DomBlocks
import Verif.Lemmas.DomDfs
import Verif.Lemmas.DomFront
import Verif.Lemmas.DomLT
import Verif.Lemmas.DomPost
import Verif.Lemmas.DomTheory
import Verif.Lemmas.DomTree
import Verif.Lemmas.EorEquality
import Verif.Lemmas.Float
import Verif.Lemmas.FltArith
import Verif.Lemmas.FltCalc
import Verif.Lemmas.FltPattern
import Verif.Lemmas.HashSet
import Verif.Lemmas.Heights
import Verif.Lemmas.Hungarian
import Verif.Lemmas.Ia32Encode
import Verif.Lemmas.Ia32Patterns
import Verif.Lemmas.Ia32Stack
import Verif.Lemmas.Interfere
import Verif.Lemmas.IrOptArith
import Verif.Lemmas.IrOptAttr
import Verif.Lemmas.IrOptBase
import Verif.Lemmas.IrOptBitRules
import Verif.Lemmas.IrOptBits
import Verif.Lemmas.IrOptCmp
import Verif.Lemmas.IrOptMux
import Verif.Lemmas.IrOptShift
import Verif.Lemmas.IrOptValue
import Verif.Lemmas.LiveArrays
import Verif.Lemmas.LiveChain
import Verif.Lemmas.LiveDfs
import Verif.Lemmas.LiveEnv
import Verif.Lemmas.LiveLook
import Verif.Lemmas.LiveMark
import Verif.Lemmas.LiveQuery
import Verif.Lemmas.LiveSets
import Verif.Lemmas.LiveTheory
import Verif.Lemmas.LowerDw
import Verif.Lemmas.LowerDwMem
import Verif.Lemmas.LowerDwWords
import Verif.Lemmas.LowerModeB
import Verif.Lemmas.MulDecomp
import Verif.Lemmas.MulDecomp2
import Verif.Lemmas.Pbqp
import Verif.Lemmas.PbqpSteps
import Verif.Lemmas.Perm
import Verif.Lemmas.PermCycles
import Verif.Lemmas.Reaching
import Verif.Lemmas.Sched
import Verif.Lemmas.Setsort
import Verif.Lemmas.SetsortPoly
import Verif.Lemmas.SsaBuild
import Verif.Lemmas.SsaCons
import Verif.Lemmas.SsaRecon
import Verif.Lemmas.SsaReconInit
import Verif.Lemmas.SsaReconTotal
import Verif.Lemmas.SsaTerm
import Verif.Lemmas.StrCalcArith
import Verif.Lemmas.StrCalcBits
import Verif.Lemmas.StrCalcDiv
import Verif.Lemmas.StrCalcMisc
import Verif.Lemmas.TailRec
import Verif.Lemmas.TarVal
import Verif.Lemmas.UpperBits
import Verif.Lemmas.Usage
import Verif.Lemmas.Vrp
import Verif.Lemmas.VrpRun
import Verif.Lemmas.X86Cond
import Verif.Lemmas.X87
import Verif.Lemmas.X87Graph
import Verif.Lemmas.X87Shuffle
import Verif.Props.Alias
import Verif.Props.Array
import Verif.Props.BackendImm
import Verif.Props.BeFlags
import Verif.Props.Bejit
import Verif.Props.Bipartite
import Verif.Props.BitFiddle
import Verif.Props.Bitset
import Verif.Props.BoolOpt
import Verif.Props.Builtins
import Verif.Props.Cdep
import Verif.Props.Chordal
import Verif.Props.Confirms
import Verif.Props.ConstBits
import Verif.Props.ConstBitsAlg
import Verif.Props.ConstBitsExpr
import Verif.Props.ConstBitsGraph
import Verif.Props.ConstBitsIter
import Verif.Props.ConvOpt
import Verif.Props.Dca
import Verif.Props.Deq
import Verif.Props.DivConst
import Verif.Props.Dom
import Verif.Props.EorEquality
import Verif.Props.FltArith
import Verif.Props.FltBytes
import Verif.Props.FltCmp
import Verif.Props.FltConst
import Verif.Props.FltInt
import Verif.Props.Garbage
import Verif.Props.GaussJordan
import Verif.Props.GaussSeidel
import Verif.Props.HashCons
import Verif.Props.HashSet
import Verif.Props.Heights
import Verif.Props.Hungarian
import Verif.Props.Ia32Encode
import Verif.Props.Ia32Patterns
import Verif.Props.Ia32Stack
import Verif.Props.InPlace
import Verif.Props.IntArith
import Verif.Props.IntBits
import Verif.Props.IntBitwise
import Verif.Props.IntBytes
import Verif.Props.IntCmp
import Verif.Props.IntConv
import Verif.Props.IntDiv
import Verif.Props.IntParse
import Verif.Props.IntShift
import Verif.Props.Interfere
import Verif.Props.Intrinsics
import Verif.Props.IrIo
import Verif.Props.IrOptArith
import Verif.Props.IrOptBits
import Verif.Props.IrOptCmp
import Verif.Props.IrOptMux
import Verif.Props.IrOptShift
import Verif.Props.IrOptValue
import Verif.Props.LSet
import Verif.Props.Layout
import Verif.Props.Leb128
import Verif.Props.ListHead
import Verif.Props.LiveChk
import Verif.Props.LiveSets
import Verif.Props.LowerCopyB
import Verif.Props.LowerDw
import Verif.Props.LowerModeB
import Verif.Props.LowerSwitch
import Verif.Props.MulDecomp
import Verif.Props.PQueue
import Verif.Props.Pbqp
import Verif.Props.Perm
import Verif.Props.PsetNew
import Verif.Props.Relation
import Verif.Props.Returns
import Verif.Props.Sched
import Verif.Props.Setsort
import Verif.Props.SsaCons
import Verif.Props.SsaRecon
import Verif.Props.TailRec
import Verif.Props.UnionFind
import Verif.Props.UpperBits
import Verif.Props.Usage
import Verif.Props.Vrp
import Verif.Props.X86Cond
import Verif.Props.X87
