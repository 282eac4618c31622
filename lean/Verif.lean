import Verif.Prelude
import Verif.Types
import Verif.Representation
import Verif.Syntax
import Verif.WellFormedTypes
import Verif.Lemmas.Basic
import Verif.Lemmas.IntEnc
import Verif.Lemmas.Good
import Verif.Lemmas.Bytes
import Verif.Spec.Representation
import Verif.Lemmas.Ptr
import Verif.Lemmas.Repr
import Verif.Lemmas.ReprLaws
import Verif.Lemmas.ReprLaws2
import Verif.Lemmas.LeSpec
import Verif.Enums
import Verif.Lemmas.Enums
import Verif.Lemmas.ReprLaws3
import Verif.Props.Representation
import Verif.Memory
import Verif.Spec.Memory
import Verif.Lemmas.Memory
import Verif.Lemmas.MemHistory
import Verif.Props.Memory
import Verif.TreeBorrows
import Verif.Spec.TreeBorrows
import Verif.Lemmas.Tree
import Verif.Lemmas.TreeRelease
import Verif.Lemmas.TreeInv
import Verif.Lemmas.TBInv
import Verif.Lemmas.TBOps
import Verif.Lemmas.TBExit
import Verif.Lemmas.FreezeMask
import Verif.Lemmas.TBComm
import Verif.Lemmas.TBErase
import Verif.Lemmas.TBRetag
import Verif.Props.TreeBorrows
import Verif.Operators
import Verif.WellFormed
import Verif.Machine
import Verif.Step
import Verif.Spec.Operators
import Verif.Lemmas.Operators
import Verif.Props.Operators
import Verif.Spec.Layout
import Verif.Lemmas.Layout
import Verif.Props.Layout
import Verif.Spec.Abi
import Verif.Lemmas.Abi
import Verif.Props.Abi
import Verif.Lemmas.EM
import Verif.Spec.SelfAssign
import Verif.Lemmas.SelfAssign
import Verif.Props.SelfAssign
import Verif.Lemmas.Soft
import Verif.Lemmas.ExprRel
import Verif.Lemmas.Quiet
import Verif.Lemmas.Ctl
import Verif.Lemmas.SoftMem
import Verif.Lemmas.Threads
import Verif.Examples.Run
import Verif.Lemmas.Threads2
import Verif.Spec.Threads
import Verif.Lemmas.Threads3
import Verif.Lemmas.SkelChange
import Verif.Examples.Programs
import Verif.Props.Threads
import Verif.Lemmas.MachineMem
import Verif.Props.Outcomes
import Verif.Spec.Init
import Verif.Lemmas.Init
import Verif.Props.Init
import Verif.Spec.Pointers
import Verif.Lemmas.Prov
import Verif.Lemmas.Eval
import Verif.Lemmas.Pointers
import Verif.Props.Pointers
import Verif.Spec.PtrOps
import Verif.Props.PtrOps
import Verif.Spec.Provenance
import Verif.Lemmas.Known
import Verif.Lemmas.KnownExpr
import Verif.Lemmas.KnownStep
import Verif.Lemmas.KnownReach
import Verif.Props.Provenance
import Verif.Lemmas.Slots
import Verif.Lemmas.Steady
import Verif.Lemmas.Flow
import Verif.Lemmas.WfProg
import Verif.Spec.Frames
import Verif.Lemmas.Frames
import Verif.Lemmas.Unwind
import Verif.Lemmas.CallData
import Verif.Examples.Calls
import Verif.Props.Calls
import Verif.Spec.Tame
import Verif.Lemmas.NoPanic
import Verif.Lemmas.NoPanicMem
import Verif.Lemmas.NoPanicOps
import Verif.Lemmas.NoPanicExpr
import Verif.Lemmas.NoPanicState
import Verif.Lemmas.NoPanicStmt
import Verif.Lemmas.NoPanicCall
import Verif.Lemmas.NoPanicIntr
import Verif.Lemmas.NoPanicStep
import Verif.Lemmas.NoPanicInit
import Verif.Lemmas.PlainMem
import Verif.Props.Soundness
import Verif.Props.Panics
import Verif.Spec.Places
import Verif.Spec.Expr
import Verif.Lemmas.Places
import Verif.Lemmas.Blind
import Verif.Props.Places
import Verif.Props.Assign
import Verif.Props.Expr
import Verif.Spec.Statements
import Verif.Lemmas.Discriminant
import Verif.Props.Statements
import Verif.Spec.Heap
import Verif.Lemmas.IntrArgs
import Verif.Props.Heap
import Verif.Spec.Atomic
import Verif.Props.Atomic
import Verif.Lemmas.Mute
import Verif.Lemmas.NoProtect
import Verif.Props.Exposed
import Verif.Spec.Intrinsics
import Verif.Props.Intrinsics
import Verif.Chunks
import Verif.Spec.Chunks
import Verif.Lemmas.Chunks
import Verif.Props.Chunks
import Verif.Spec.Enums
import Verif.Lemmas.EnumTranslation
import Verif.Props.Enums
import Verif.RsTypes
import Verif.Spec.RsTypes
import Verif.Lemmas.RsTypes
import Verif.Lemmas.RsTranslate
import Verif.Props.RsTypes
import Verif.Spec.TBValues
import Verif.Spec.TBMachine
import Verif.Lemmas.TBValues
import Verif.Lemmas.TBKnown
import Verif.Lemmas.TBKnownMem
import Verif.Lemmas.TBKnownExpr
import Verif.Lemmas.TBFresh
import Verif.Lemmas.TBKnownStep
import Verif.Lemmas.TBKnownReach
import Verif.Lemmas.NoPanicMask
import Verif.Props.TBValues
import Verif.Props.TBPrograms
import Verif.Lemmas.TBLax
import Verif.Lemmas.TBGuard
import Verif.Props.TBSoundness
import Verif.Builder
import Verif.Spec.Builder
import Verif.Lemmas.BuilderSim
import Verif.Lemmas.Builder
import Verif.Lemmas.BuilderSound
import Verif.Lemmas.BuilderTotal
import Verif.Lemmas.BuilderFn
import Verif.Props.Builder
import Verif.Spec.Activation
import Verif.Props.Activation
import Verif.Mir
import Verif.Spec.Mir
import Verif.Lemmas.MirSim
import Verif.Lemmas.MirTrans
import Verif.Lemmas.MirFn
import Verif.Props.Mir
import Verif.Rvalue
import Verif.Spec.Rvalue
import Verif.Lemmas.Rvalue
import Verif.Props.Rvalue
import Verif.Crate
import Verif.Spec.Crate
import Verif.Lemmas.Crate
import Verif.Lemmas.CrateDone
import Verif.Lemmas.CrateConst
import Verif.Props.Crate
import Verif.Spec.Refine
import Verif.Lemmas.Refine
import Verif.Lemmas.RefineMem
import Verif.Lemmas.RefineExpr
import Verif.Lemmas.RefineStep
import Verif.Props.Refine
import Verif.Props.RefinePlain
import Verif.TypeConv
import Verif.Spec.TypeConv
import Verif.Props.TypeConv
import Verif.ProgramBuilder
import Verif.Spec.ProgramBuilder
import Verif.Lemmas.ProgramBuilder
import Verif.Props.ProgramBuilder
import Verif.Spec.Footprint
import Verif.Lemmas.Foot
import Verif.Lemmas.FootMem
import Verif.Lemmas.FootStep
import Verif.Lemmas.FootWrite
import Verif.Lemmas.Swap
import Verif.Props.Footprint
import Verif.Run
import Verif.Spec.Run
import Verif.Spec.EndToEnd
import Verif.Props.Run
import Verif.Props.EndToEnd
import Verif.Native
import Verif.Spec.Native
import Verif.Lemmas.Native
import Verif.Props.Native
import Verif.Lemmas.Choices
import Verif.Props.Choices
import Verif.Spec.Races
import Verif.Lemmas.Races
import Verif.Props.Races
import Verif.Minimize
import Verif.Spec.Minimize
import Verif.Props.Minimize
import Verif.Props.Pretty
import Verif.Props.Recode
import Verif.Props.Start
import Verif.Minitest
import Verif.Spec.Minitest
import Verif.Props.Minitest
import Verif.Spec.Termination
import Verif.Lemmas.Termination
import Verif.Props.Termination
import Verif.Props.Structured
import Verif.ExprBuilder
import Verif.Props.ExprBuilder
import Verif.TyBuilder
import Verif.Props.TyBuilder
import Verif.Props.Bypass
