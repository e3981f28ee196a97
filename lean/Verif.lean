import Verif.Lemmas.Bits
import Verif.Model.Kron
import Verif.Spec.Matrices
import Verif.Lemmas.Spread
import Verif.Lemmas.Kron
import Verif.Lemmas.Entwine
import Verif.Lemmas.C32
import Verif.Props.Bits
import Verif.Lemmas.KronSelect
import Verif.Props.Kron
import Verif.Lemmas.OpAlgebra
import Verif.Spec.Gates
import Verif.Lemmas.Gates
import Verif.Props.Gates
import Verif.Lemmas.FuncApply
import Verif.Props.FuncApply
import Verif.Model.Measure
import Verif.Spec.Measure
import Verif.Lemmas.Measure
import Verif.Lemmas.MeasureTop
import Verif.Props.Probs
import Verif.Lemmas.MeasureState
import Verif.Props.Measure
import Verif.Model.Backend
import Verif.Spec.Backend
import Verif.Lemmas.Backend
import Verif.Props.Backend
import Verif.Model.Graph
import Verif.Model.Run
import Verif.Spec.Graph
import Verif.Lemmas.Heap
import Verif.Lemmas.Built
import Verif.Lemmas.Run
import Verif.Spec.Run
import Verif.Lemmas.Wires
import Verif.Lemmas.RunState
import Verif.Lemmas.RunInit
import Verif.Lemmas.Local
import Verif.Lemmas.RunPre
import Verif.Lemmas.Demo
import Verif.Lemmas.Extend
import Verif.Lemmas.Pieces
import Verif.Lemmas.Slice
import Verif.Props.Run
import Verif.Props.RunMore
import Verif.Props.Rerun
import Verif.Props.Graph
import Verif.Props.GraphOutside
import Verif.Model.Wrap
import Verif.Spec.Wrap
import Verif.Lemmas.Grow
import Verif.Lemmas.WrapOp
import Verif.Lemmas.OpStep
import Verif.Lemmas.SplitStep
import Verif.Lemmas.Evolve
import Verif.Lemmas.WrapStep
import Verif.Lemmas.WrapRun
import Verif.Lemmas.Control
import Verif.Lemmas.Registers
import Verif.Lemmas.Outputs
import Verif.Lemmas.OneQubit
import Verif.Props.Wrap
import Verif.Props.Context
import Verif.Props.Construct
import Verif.Spec.Dft
import Verif.Lemmas.Ready
import Verif.Lemmas.Qfft
import Verif.Lemmas.Dft
import Verif.Props.Qfft
import Verif.Model.Shor
import Verif.Props.Shor
import Verif.Model.Svg
import Verif.Spec.Svg
import Verif.Lemmas.Svg
import Verif.Props.Svg
import Verif.Model.Print
import Verif.Props.Print
import Verif.Model.Frame
import Verif.Spec.Frame
import Verif.Props.Frame
import Verif.Model.Wire
import Verif.Props.Wire
import Verif.Model.Pool
import Verif.Props.Pool
import Verif.Model.Manager
import Verif.Props.Manager
import Verif.Model.Top
import Verif.Spec.Top
import Verif.Props.Top
import Verif.Model.Net
import Verif.Lemmas.Net
import Verif.Model.Worker
import Verif.Lemmas.Transfer
import Verif.Lemmas.NetStep
import Verif.Props.Transfer
import Verif.Lemmas.Sync
import Verif.Lemmas.Grid
import Verif.Lemmas.Parts
import Verif.Lemmas.Blocked
import Verif.Props.Distributed
import Verif.Lemmas.MeasureNet
import Verif.Props.DistMeasure
import Verif.Model.Reduce
import Verif.Lemmas.Short
import Verif.Props.DistReduce
import Verif.Lemmas.Block
import Verif.Props.Continue
import Verif.Model.Examples
import Verif.Lemmas.SwapTest
import Verif.Lemmas.SwapApply
import Verif.Props.Examples
import Verif.Lemmas.TopStep
import Verif.Lemmas.Hadamard
import Verif.Lemmas.Oracle
import Verif.Lemmas.Grover
import Verif.Lemmas.GroverRun
import Verif.Props.Grover
import Verif.Spec.Born
import Verif.Lemmas.Born
import Verif.Props.Born
import Verif.Lemmas.Pick
import Verif.Lemmas.ShorRun
import Verif.Spec.Shor
import Verif.Lemmas.ShorAmp
import Verif.Props.ShorCircuit
import Verif.Props.Spectrum
import Verif.Props.Factor
import Verif.Lemmas.Convergents
import Verif.Lemmas.PeakBound
import Verif.Props.Period
import Verif.Model.Job
import Verif.Spec.Job
import Verif.Lemmas.Job
import Verif.Props.Job
import Verif.Model.Jobs
import Verif.Spec.Jobs
import Verif.Lemmas.Shared
import Verif.Props.Jobs
import Verif.Model.Stop
import Verif.Props.Stop
import Verif.Props.DistProbs
import Verif.Model.Float
import Verif.Spec.Rounding
import Verif.Lemmas.Rounding
import Verif.Lemmas.Underflow
import Verif.Props.Rounding
import Verif.Lemmas.IntState
import Verif.Model.CKernel
import Verif.Spec.CKernel
import Verif.Lemmas.CKernel
import Verif.Lemmas.CGate
import Verif.Props.CKernel
import Verif.Model.DistRun
import Verif.Spec.DistRun
import Verif.Lemmas.DistRun
import Verif.Props.DistRun
import Verif.Model.CMeasure
import Verif.Lemmas.CMeasure
import Verif.Props.CMeasure
import Verif.Model.CFunc
import Verif.Lemmas.CFunc
import Verif.Props.CFunc
import Verif.Props.Range
import Verif.Model.FMeasure
import Verif.Spec.FMeasure
import Verif.Lemmas.FMeasure
import Verif.Props.FMeasure
import Verif.Lemmas.FRanged
import Verif.Props.FRanged
import Verif.Props.DistNorm
import Verif.Model.FCircuit
import Verif.Spec.FCircuit
import Verif.Lemmas.FCircuit
import Verif.Props.FCircuit
import Verif.Lemmas.FCircuitRanged
import Verif.Props.FCircuitRanged
import Verif.Spec.DistBorn
import Verif.Lemmas.DistBorn
import Verif.Lemmas.DistBornRun
import Verif.Props.DistBorn
import Verif.Props.DistError
import Verif.Model.Conn
import Verif.Spec.Conn
import Verif.Props.Conn
import Verif.Model.Session
import Verif.Model.Client
import Verif.Props.Session
import Verif.Props.Client
import Verif.Model.Close
import Verif.Props.DistReuse
import Verif.Model.Locks
import Verif.Props.Locks
import Verif.Model.Accept
import Verif.Spec.Accept
import Verif.Props.Accept
import Verif.Props.Runner
import Verif.Check.UtilTest
import Verif.Model.Repr
import Verif.Lemmas.Repr
import Verif.Props.Repr
import Verif.Model.Cluster
import Verif.Lemmas.Alone
import Verif.Lemmas.Cluster
import Verif.Lemmas.ClusterThread
import Verif.Lemmas.ClusterRun
import Verif.Lemmas.AloneEnds
import Verif.Props.Cluster
import Verif.Props.ClusterRun
import Verif.Model.Bounded
import Verif.Lemmas.Bounded
import Verif.Props.Capacity
import Verif.Props.CapacityJob
import Verif.Model.FDist
import Verif.Spec.FDist
import Verif.Lemmas.FDist
import Verif.Lemmas.FDistRanged
import Verif.Props.FDist
import Verif.Props.FDistOrder
import Verif.Model.FNet
import Verif.Lemmas.FNetTransfer
import Verif.Lemmas.FNetStep
import Verif.Lemmas.FNetSync
import Verif.Lemmas.FNetGrid
import Verif.Lemmas.FNetKron
import Verif.Props.FDistNet
import Verif.Model.FDistMeasure
import Verif.Spec.FDistMeasure
import Verif.Lemmas.FDistMeasure
import Verif.Props.FDistMeasure
import Verif.Model.FDistCircuit
import Verif.Spec.FDistCircuit
import Verif.Lemmas.FDistCircuit
import Verif.Props.FDistCircuit
import Verif.Lemmas.FNetMeasure
import Verif.Spec.FNet
import Verif.Props.FDistJob
import Verif.Props.FDistJobRanged
import Verif.Props.FDistAccepted
import Verif.Lemmas.FDistMeasureRanged
import Verif.Props.FDistMeasureRanged
import Verif.Spec.FDistCircuitRanged
import Verif.Lemmas.FDistCircuitRanged
import Verif.Props.FDistCircuitRanged
import Verif.Model.Retry
import Verif.Spec.Retry
import Verif.Lemmas.Retry
import Verif.Props.Retry
import Verif.Model.RunIn
import Verif.Spec.Hash
import Verif.Lemmas.Hash
import Verif.Props.RunIn
import Verif.Spec.Feeds
import Verif.Lemmas.Feeds
import Verif.Lemmas.FeedTwice
import Verif.Props.Feeds
import Verif.Spec.Phase
import Verif.Lemmas.Phase
import Verif.Props.Phase
import Verif.Props.Causal
import Verif.Props.Again
