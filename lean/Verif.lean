import Verif.Go
import Verif.Model.Arm64
import Verif.Model.Asm
import Verif.Model.AsmAmd64
import Verif.Model.AsmArm64
import Verif.Model.AsmPkgs
import Verif.Model.AsmVec
import Verif.Model.BEncoder
import Verif.Model.Context
import Verif.Model.Csprng
import Verif.Model.CtxHeap
import Verif.Model.Digits
import Verif.Model.Examples
import Verif.Model.Field
import Verif.Model.FieldExtra
import Verif.Model.FieldInv
import Verif.Model.FieldLegendre
import Verif.Model.FieldMem
import Verif.Model.FieldPkgs
import Verif.Model.FieldRandom
import Verif.Model.FieldSmall
import Verif.Model.FieldSqrt
import Verif.Model.FieldText
import Verif.Model.FieldVec
import Verif.Model.FieldVecOps
import Verif.Model.Gauss
import Verif.Model.JCopy
import Verif.Model.JEncoder
import Verif.Model.JEnvOf
import Verif.Model.JFloat
import Verif.Model.JLimbs
import Verif.Model.JProto
import Verif.Model.JRound
import Verif.Model.JSize
import Verif.Model.JUtil
import Verif.Model.JVerMem
import Verif.Model.Linear
import Verif.Model.NTT
import Verif.Model.Piop
import Verif.Model.Poly
import Verif.Model.Pool
import Verif.Model.Race
import Verif.Model.Vec
import Verif.Model.Walk
import Verif.Proof.Asker
import Verif.Proof.Asm
import Verif.Proof.AsmArm64
import Verif.Proof.AsmBfly
import Verif.Proof.AsmFun
import Verif.Proof.AsmInst
import Verif.Proof.AsmMul
import Verif.Proof.AsmProg
import Verif.Proof.AsmVec
import Verif.Proof.Assign
import Verif.Proof.Aut
import Verif.Proof.BEncoder
import Verif.Proof.Complete
import Verif.Proof.Complete2
import Verif.Proof.Context
import Verif.Proof.Context2
import Verif.Proof.Cosac
import Verif.Proof.CtxHeap
import Verif.Proof.Examples
import Verif.Proof.Examples2
import Verif.Proof.Examples3
import Verif.Proof.Field
import Verif.Proof.FieldBytes
import Verif.Proof.FieldExtra
import Verif.Proof.FieldGcd
import Verif.Proof.FieldInv
import Verif.Proof.FieldInvLoop
import Verif.Proof.FieldLegLoop
import Verif.Proof.FieldLegWords
import Verif.Proof.FieldLegendre
import Verif.Proof.FieldMem
import Verif.Proof.FieldMont
import Verif.Proof.FieldMul
import Verif.Proof.FieldMulNc
import Verif.Proof.FieldSmall
import Verif.Proof.FieldSqrt
import Verif.Proof.FieldText
import Verif.Proof.FieldVec
import Verif.Proof.FieldVecAsync
import Verif.Proof.FieldVecFill
import Verif.Proof.FieldVecOps
import Verif.Proof.Gauss
import Verif.Proof.Honest
import Verif.Proof.JBound
import Verif.Proof.JCommit
import Verif.Proof.JCopy
import Verif.Proof.JCopyAlloc
import Verif.Proof.JCopyFresh
import Verif.Proof.JCount
import Verif.Proof.JEncoder
import Verif.Proof.JEnvOf
import Verif.Proof.JEval
import Verif.Proof.JExtract
import Verif.Proof.JFloat
import Verif.Proof.JLimbs
import Verif.Proof.JProto
import Verif.Proof.JRep
import Verif.Proof.JRing
import Verif.Proof.JRound
import Verif.Proof.JRoundLog
import Verif.Proof.JRoundOut
import Verif.Proof.JSound
import Verif.Proof.JTypical
import Verif.Proof.JVerMem
import Verif.Proof.JVerify
import Verif.Proof.KeyLaw
import Verif.Proof.LinRev
import Verif.Proof.Linear
import Verif.Proof.Linear2
import Verif.Proof.NTTAlg
import Verif.Proof.NTTFinal
import Verif.Proof.NTTFn
import Verif.Proof.NTTNew
import Verif.Proof.NTTRefine
import Verif.Proof.Negacyclic
import Verif.Proof.Norm
import Verif.Proof.Norm2
import Verif.Proof.Piop1
import Verif.Proof.Piop2
import Verif.Proof.Piop3
import Verif.Proof.Piop4
import Verif.Proof.PolyAlg
import Verif.Proof.PolyOps
import Verif.Proof.Pool
import Verif.Proof.PoolClient
import Verif.Proof.PoolEval
import Verif.Proof.PoolOps
import Verif.Proof.Prov
import Verif.Proof.Reject
import Verif.Proof.Rom
import Verif.Proof.RomChain
import Verif.Proof.RomCore
import Verif.Proof.RomRounds
import Verif.Proof.Run
import Verif.Proof.Transcript
import Verif.Proof.Vec
import Verif.Proof.Verify
import Verif.Proof.Walk
import Verif.Proof.Words
import Verif.Proof.ZKCount
import Verif.Proof.ZKMain
import Verif.Proof.ZKMask
import Verif.Proof.ZKPlan
import Verif.Proof.ZKRun
import Verif.Proof.ZKSpec
import Verif.Proof.Zig
import Verif.Proof.ZigTab
import Verif.Props.Arith
import Verif.Props.Asm
import Verif.Props.AsmArm64
import Verif.Props.Binding
import Verif.Props.Complete
import Verif.Props.Complete2
import Verif.Props.Cosac
import Verif.Props.Csprng
import Verif.Props.CtxHeap
import Verif.Props.CtxHeapEx
import Verif.Props.Digits
import Verif.Props.EndToEnd
import Verif.Props.EndToEndEx
import Verif.Props.Examples
import Verif.Props.Examples2
import Verif.Props.Field
import Verif.Props.FieldHash
import Verif.Props.FieldInv
import Verif.Props.FieldLegendre
import Verif.Props.FieldRandom
import Verif.Props.FieldSqrt
import Verif.Props.FieldText
import Verif.Props.FieldVec
import Verif.Props.FieldVecOps
import Verif.Props.Gauss
import Verif.Props.Interactive
import Verif.Props.JBatch
import Verif.Props.JBatchEx
import Verif.Props.JBatchExtract
import Verif.Props.JBatchExtractEx
import Verif.Props.JBatchRom
import Verif.Props.JBatchSound
import Verif.Props.JBatchSoundEx
import Verif.Props.JBuckler
import Verif.Props.JBucklerComplete
import Verif.Props.JBucklerCompleteEx
import Verif.Props.JBucklerEx
import Verif.Props.JChal
import Verif.Props.JComSize
import Verif.Props.JCopy
import Verif.Props.JDiv
import Verif.Props.JEncoder
import Verif.Props.JEnvOf
import Verif.Props.JEnvOfEx
import Verif.Props.JExtract
import Verif.Props.JExtractEx
import Verif.Props.JForge
import Verif.Props.JHide
import Verif.Props.JHideEx
import Verif.Props.JLimbs
import Verif.Props.JMatrix
import Verif.Props.JParams
import Verif.Props.JProto
import Verif.Props.JProtoEx
import Verif.Props.JRns
import Verif.Props.JRnsAll
import Verif.Props.JRom
import Verif.Props.JRomEx
import Verif.Props.JRound
import Verif.Props.JSearch
import Verif.Props.JSearchEx
import Verif.Props.JShape
import Verif.Props.JSkip
import Verif.Props.JSound
import Verif.Props.JTypical
import Verif.Props.JTypicalEx
import Verif.Props.JVerMem
import Verif.Props.KeyLaw
import Verif.Props.LinSum
import Verif.Props.Linear
import Verif.Props.Moduli
import Verif.Props.Mutate
import Verif.Props.NTT
import Verif.Props.NTTSafe
import Verif.Props.Norm
import Verif.Props.Norm2
import Verif.Props.Poly
import Verif.Props.Poly2
import Verif.Props.Pool
import Verif.Props.Proj
import Verif.Props.Protocol
import Verif.Props.Protocol2
import Verif.Props.Race
import Verif.Props.Rom
import Verif.Props.RomCase
import Verif.Props.Sound
import Verif.Props.Trunc
import Verif.Props.Unsound
import Verif.Props.Vec
import Verif.Props.Walk
import Verif.Props.ZeroKnow
import Verif.Props.Zig
import Verif.Props.Ziggurat
import Verif.Spec.Arm64
import Verif.Spec.Asker
import Verif.Spec.Asm
import Verif.Spec.BitRev
import Verif.Spec.FiatShamir
import Verif.Spec.Field
import Verif.Spec.FieldText
import Verif.Spec.FieldVec
import Verif.Spec.Gauss
import Verif.Spec.Honest
import Verif.Spec.JBatch
import Verif.Spec.JBuckler
import Verif.Spec.JComSize
import Verif.Spec.JEnvOf
import Verif.Spec.JExtract
import Verif.Spec.JLimbs
import Verif.Spec.JParams
import Verif.Spec.JRom
import Verif.Spec.JRound
import Verif.Spec.JSearch
import Verif.Spec.JTypical
import Verif.Spec.Jindo
import Verif.Spec.Lattigo
import Verif.Spec.Linear
import Verif.Spec.Piop
import Verif.Spec.Poly
import Verif.Spec.Pool
import Verif.Spec.Ring
import Verif.Spec.Rom
import Verif.Spec.Sound
import Verif.Spec.Walk
import Verif.Spec.Words
import Verif.Spec.ZeroKnow
