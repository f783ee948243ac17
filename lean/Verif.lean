import Verif.Spec.Tree
import Verif.Spec.Store
import Verif.Spec.Bfs
import Verif.Model.Heap
import Verif.Model.Node
import Verif.Model.Machine
import Verif.Model.Bfs
import Verif.Proof.Step
import Verif.Proof.Frame
import Verif.Proof.BfsSpec
import Verif.Proof.Fill
import Verif.Proof.FromBfs
import Verif.Proof.RefSource
import Verif.Proof.OwnSource
import Verif.Proof.MutSource
import Verif.Props.Refinement
import Verif.Props.Nodes
import Verif.Props.Observe
import Verif.Props.Memory
import Verif.Props.Bfs
import Verif.Model.Traits
import Verif.Spec.Order
import Verif.Proof.Traits
import Verif.Props.Traits
import Verif.Model.IterMut
import Verif.Proof.IterMut
import Verif.Props.IterMut
import Verif.Model.IterKept
import Verif.Props.IterKept
import Verif.Model.Notation
import Verif.Props.Notation
import Verif.Model.Size
import Verif.Props.Size
import Verif.Spec.Tuple
import Verif.Model.Tuple
import Verif.Props.TupleVisit
import Verif.Proof.TupleFill
import Verif.Proof.FromTuple
import Verif.Proof.TupleBad
import Verif.Props.FromTuple
import Verif.Spec.Walk
import Verif.Model.Walk
import Verif.Proof.Walk
import Verif.Proof.Tour
import Verif.Props.Walk
import Verif.Proof.Robust
import Verif.Proof.RobustOps
import Verif.Proof.RobustStep
import Verif.Model.Rc
import Verif.Proof.RcHeap
import Verif.Spec.Shared
import Verif.Proof.RcDrop
import Verif.Proof.RcDestroy
import Verif.Proof.RcLift
import Verif.Proof.RcRestrict
import Verif.Proof.RcInv
import Verif.Proof.RcExcl
import Verif.Proof.RcLook
import Verif.Proof.RcState
import Verif.Proof.RcChange
import Verif.Proof.RcAttach
import Verif.Proof.RcPush
import Verif.Proof.RcRead
import Verif.Proof.RcPop
import Verif.Proof.RcRelease
import Verif.Proof.RcGuard
import Verif.Proof.RcOwn
import Verif.Model.RcView
import Verif.Proof.RcSafe
import Verif.Proof.RcCoherent
import Verif.Props.SharedDemo
import Verif.Props.Shared
import Verif.Proof.RcMono
import Verif.Props.SharedCases
import Verif.Props.SharedDefects
import Verif.Spec.Crash
import Verif.Model.Crash
import Verif.Proof.Crash
import Verif.Proof.CrashOps
import Verif.Props.Crash
import Verif.Props.Counters
import Verif.Props.Visits
import Verif.Spec.Ident
import Verif.Spec.Param
import Verif.Model.Ident
import Verif.Proof.Nat
import Verif.Proof.NatOps
import Verif.Proof.NatBfs
import Verif.Proof.NatStep
import Verif.Proof.Ident
import Verif.Props.Ident
import Verif.Model.RcTraits
import Verif.Spec.SharedOrder
import Verif.Proof.RcTraits
import Verif.Props.SharedTraits
import Verif.Proof.Forget
import Verif.Proof.CrashDrop
import Verif.Props.CrashDrop
import Verif.Spec.Ledger
import Verif.Proof.Ledger
import Verif.Props.Ledger
import Verif.Props.SharedExact
import Verif.Spec.Visits
import Verif.Model.Visits
import Verif.Proof.Verdict
import Verif.Proof.VerdictShape
import Verif.Props.VisitsExact
import Verif.Model.Alloc
import Verif.Proof.Alloc
import Verif.Proof.AllocOps
import Verif.Proof.AllocBfs
import Verif.Proof.AllocStep
import Verif.Props.Alloc
import Verif.Spec.SharedStore
import Verif.Proof.SharedTrees
import Verif.Proof.SharedEdits
import Verif.Proof.SharedFacts
import Verif.Proof.SharedSim
import Verif.Proof.SharedTrans
import Verif.Proof.SharedInsert
import Verif.Proof.SharedRemove
import Verif.Proof.SharedStep
import Verif.Proof.SharedCalls
import Verif.Proof.SharedCalls2
import Verif.Proof.NoBlock
import Verif.Props.SharedProgram
import Verif.Spec.SharedLedger
import Verif.Proof.SharedLedger
import Verif.Props.SharedLedger
import Verif.Spec.Format
import Verif.Model.Format
import Verif.Proof.Format
import Verif.Props.Format
import Verif.Model.Extend
import Verif.Props.Extend
import Verif.Model.AllocRc
import Verif.Proof.AllocRc
import Verif.Proof.AllocRcStep
import Verif.Proof.SharedSafe
import Verif.Props.AllocRc
import Verif.Model.RcPanic
import Verif.Proof.RcPanic
import Verif.Props.RcPanic
import Verif.Model.Swap
import Verif.Props.Swap
import Verif.Model.Fine
import Verif.Model.Conc
import Verif.Proof.Fine
import Verif.Proof.FineStep
import Verif.Proof.Conc
import Verif.Proof.FineExec
import Verif.Proof.FineLit
import Verif.Proof.Split
import Verif.Proof.ConcEnd
import Verif.Proof.ConcRead
import Verif.Props.Conc
import Verif.Props.ConcWitness
import Verif.Props.ConcExact
import Verif.Spec.Foreign
import Verif.Model.Foreign
import Verif.Proof.Foreign
import Verif.Props.Foreign
import Verif.Model.Cost
import Verif.Proof.Cost
import Verif.Proof.CostDrop
import Verif.Proof.CostFill
import Verif.Proof.CostSrc
import Verif.Spec.Cost
import Verif.Proof.CostCst
import Verif.Proof.CostOwn
import Verif.Proof.CostCalls
import Verif.Proof.CostRun
import Verif.Props.Cost
import Verif.Spec.Stack
import Verif.Model.Stack
import Verif.Proof.Stack
import Verif.Props.Stack
import Verif.Model.StackRc
import Verif.Proof.StackRc
import Verif.Props.StackRc
import Verif.Model.StackFmt
import Verif.Proof.StackFmt
import Verif.Props.StackFmt
import Verif.Props.StackRcTraits
import Verif.Proof.ConcMix
import Verif.Proof.ConcClone
import Verif.Proof.ConcThread
import Verif.Proof.ConcSys
import Verif.Proof.ConcStart
import Verif.Props.ConcMix
import Verif.Props.ConcMixWitness
import Verif.Model.ForgetRc
import Verif.Spec.Forget
import Verif.Proof.ForgetRc
import Verif.Props.ForgetRc
import Verif.Spec.Reenter
import Verif.Model.Reenter
import Verif.Proof.ReenterLift
import Verif.Proof.ReenterPend
import Verif.Proof.ReenterDrop
import Verif.Proof.Reenter
import Verif.Props.Reenter
import Verif.Spec.ReenterLedger
import Verif.Props.ReenterLedger
import Verif.Spec.SharedPanic
import Verif.Model.RcTraitsPanic
import Verif.Proof.RcTraitsPanic
import Verif.Props.SharedPanicTraits
import Verif.Spec.Live
import Verif.Model.Live
import Verif.Proof.Live
import Verif.Props.Live
import Verif.Proof.LiveMut
import Verif.Props.LiveMut
import Verif.Spec.WalkLive
import Verif.Model.WalkLive
import Verif.Proof.WalkLive
import Verif.Props.WalkLive
import Verif.Spec.Pin
import Verif.Model.Pin
import Verif.Proof.Pin
import Verif.Props.Pin
import Verif.Proof.PinItem
import Verif.Props.PinItem
