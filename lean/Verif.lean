import Verif.Arm
import Verif.ArmClass
import Verif.ArmCmp
import Verif.ArmConc
import Verif.ArmFrame
import Verif.ArmGen
import Verif.ArmImpl
import Verif.ArmMul
import Verif.ArmMul2
import Verif.ArmMul3
import Verif.ArmMulChk1
import Verif.ArmMulChk2
import Verif.ArmMulChk3
import Verif.ArmMulChk4
import Verif.ArmMulChk5
import Verif.ArmMulChk6
import Verif.ArmMulRun
import Verif.ArmRaw
import Verif.ArmRaw2
import Verif.ArmShift
import Verif.ArmShift2
import Verif.ArmShiftChk
import Verif.ArmShiftRun
import Verif.ArmSym
import Verif.ArmTouch
import Verif.ArmTouchChk
import Verif.ArmVal
import Verif.AsmAdd
import Verif.AsmAddSub
import Verif.AsmBit
import Verif.AsmBitDisp
import Verif.AsmBitMain
import Verif.AsmBitRun
import Verif.AsmBuilder
import Verif.AsmBuilderProof
import Verif.AsmBuilderSim
import Verif.AsmCmp
import Verif.AsmCmpMain
import Verif.AsmCmpRun
import Verif.AsmConc
import Verif.AsmConcLib
import Verif.AsmConcWf
import Verif.AsmConv
import Verif.AsmCopyn
import Verif.AsmEval
import Verif.AsmFrame
import Verif.AsmLib
import Verif.AsmLogic
import Verif.AsmMont
import Verif.AsmMontCall
import Verif.AsmMontMain
import Verif.AsmMontRounds
import Verif.AsmMontRun
import Verif.AsmMontSecond
import Verif.AsmMontSim
import Verif.AsmMontSix
import Verif.AsmMontSixMul
import Verif.AsmMontTail
import Verif.AsmMontVal
import Verif.AsmMul
import Verif.AsmMulRun
import Verif.AsmNot
import Verif.AsmOps
import Verif.AsmRaw
import Verif.AsmRawMisc
import Verif.AsmRawNeg
import Verif.AsmRawProof
import Verif.AsmRawRun
import Verif.AsmRawShort
import Verif.AsmRawSwap
import Verif.AsmShift
import Verif.AsmShiftAll
import Verif.AsmShiftDo
import Verif.AsmShiftMain
import Verif.AsmShiftParse
import Verif.AsmShiftRun
import Verif.AsmShiftTag
import Verif.AsmTagMach
import Verif.AsmTagRun
import Verif.AsmTagged
import Verif.AsmToInt
import Verif.AsmTouch
import Verif.AsmTouchBack
import Verif.AsmTouchCall
import Verif.AsmTouchLike
import Verif.AsmTouchMont
import Verif.AsmTouchShift
import Verif.AsmTouchTag
import Verif.AsmTouchTagChk
import Verif.AsmTouchTagFine
import Verif.AsmTouchTagRun
import Verif.BinFile
import Verif.BinProof
import Verif.BinSpec
import Verif.Bn254
import Verif.Bounds
import Verif.Chunk
import Verif.Consts
import Verif.Copyn
import Verif.Curve
import Verif.CurveProof
import Verif.CurveSpec
import Verif.ElField
import Verif.F2Inst
import Verif.Fft
import Verif.FftBr
import Verif.FftCtor
import Verif.FftLimb
import Verif.FftPool
import Verif.FftProof
import Verif.FieldMap
import Verif.FrCpp
import Verif.Gmp
import Verif.GroupCode
import Verif.Interleave
import Verif.LRep
import Verif.Limbs
import Verif.Log2
import Verif.Montgomery
import Verif.Msm
import Verif.MsmFixed
import Verif.MsmPar
import Verif.MsmPool
import Verif.Multiexp
import Verif.MultiexpPar
import Verif.Naf
import Verif.Omp
import Verif.Par
import Verif.PoolSeq
import Verif.Primes
import Verif.Props.Arm
import Verif.Props.ArmMont
import Verif.Props.ArmShift
import Verif.Props.ArmTagged
import Verif.Props.ArmTouch
import Verif.Props.Asm
import Verif.Props.AsmMont
import Verif.Props.AsmPred
import Verif.Props.AsmProgram
import Verif.Props.AsmSeven
import Verif.Props.AsmShift
import Verif.Props.AsmTagged
import Verif.Props.AsmToInt
import Verif.Props.AsmTouch
import Verif.Props.AsmTouchTag
import Verif.Props.Backends
import Verif.Props.Bin
import Verif.Props.Bn254
import Verif.Props.Bounds
import Verif.Props.Conc
import Verif.Props.ConcFft
import Verif.Props.ConcLocals
import Verif.Props.ConcLoop
import Verif.Props.ConcPoly
import Verif.Props.ConcProgram
import Verif.Props.ConcRaw
import Verif.Props.ConcTso
import Verif.Props.Copyn
import Verif.Props.Curve
import Verif.Props.Fft
import Verif.Props.FftLimb
import Verif.Props.FftPool
import Verif.Props.FrCpp
import Verif.Props.Limb
import Verif.Props.MsmFixed
import Verif.Props.MsmPool
import Verif.Props.Multiexp
import Verif.Props.MultiexpPar
import Verif.Props.Program
import Verif.Props.Raw
import Verif.Props.Tagged
import Verif.Props.Text
import Verif.Props.Tower
import Verif.Props.TowerLimb
import Verif.Props.Worker
import Verif.Race
import Verif.Raw
import Verif.RawBits
import Verif.RawClass
import Verif.RawFr
import Verif.RawMem
import Verif.RepDec
import Verif.Show
import Verif.Spec
import Verif.SplitPar
import Verif.SplitParProof
import Verif.SplitSpec
import Verif.SplitTree
import Verif.StoreBuffer
import Verif.Tagged
import Verif.TaggedAgree
import Verif.TaggedArith
import Verif.TaggedOver
import Verif.TaggedPred
import Verif.TaggedProof
import Verif.TaggedShift
import Verif.ThreadPool
import Verif.Tower
import Verif.TowerBn
import Verif.TowerMap
import Verif.TowerProof
import Verif.TowerSpec
import Verif.Worker
import Verif.WorkerPool
import Verif.WorkerProgress
import Verif.WorkerProof
import Verif.WorkerSim
import Verif.X86
import Verif.X86Agree
import Verif.X86Impl
