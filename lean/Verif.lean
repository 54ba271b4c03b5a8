import Verif.Core.Kron
import Verif.Props.Canon
import Verif.Core.Gc
import Verif.Core.Cx
import Verif.Core.DetProbs
import Verif.Core.NamedGates
import Verif.Props.Named
import Verif.Props.Storage
import Verif.Props.Demo2
import Verif.Props.Tables
import Verif.Props.Murmur
import Verif.Props.Shor
import Verif.Props.Wsq
import Verif.Props.Epoch
import Verif.Props.Sched
import Verif.Props.Lookup
import Verif.Props.Tol
import Verif.Props.Large
import Verif.Props.Prune
import Verif.Mpi.Gate
import Verif.Props.MpiMeasure
import Verif.Props.Backend
import Verif.Props.Merge
import Verif.Py.Nested
import Verif.Props.Nested
import Verif.Props.Swap
import Verif.Props.Jobs
import Verif.Props.Sampler
import Verif.Props.Estimator
import Verif.Props.EstDemo
import Verif.Safe.MatMul
import Verif.Safe.Machine
import Verif.Safe.Round
import Verif.Safe.Nan
import Verif.Props.Safe
import Verif.Num.Inv
import Verif.Num.Make
import Verif.Num.Vec
import Verif.Num.Mul
import Verif.Num.MatAdd
import Verif.Num.MatMul
import Verif.Num.MatRow
import Verif.Num.MatRead
import Verif.Num.Gates
import Verif.Num.Gc
import Verif.Num.State
import Verif.Num.Norm
import Verif.Num.Apx
import Verif.Num.Machine
import Verif.Num.Float
import Verif.Num.MeasR
import Verif.Num.MeasAll
import Verif.Num.MeasOne
import Verif.Props.Num
import Verif.Props.Collapse
import Verif.Grover.Model
import Verif.Grover.Ops
import Verif.Grover.Algebra
import Verif.Props.Grover
import Verif.Num.Born
import Verif.Num.Collapse
import Verif.Num.MeasMachine
import Verif.Num.FloatR
import Verif.Props.NumMeas
import Verif.Props.Repro
import Verif.Props.EstApprox
import Verif.Shor.Circuit
import Verif.Shor.Qft
import Verif.Shor.Mult
import Verif.Props.ShorCircuit
import Verif.Core.Dot
import Verif.Props.Nodes
import Verif.Props.Dot
import Verif.Conc.Steal
import Verif.Props.Steal
import Verif.Shor.Legendre
import Verif.Props.ShorPost
import Verif.Bench.Model
import Verif.Bench.Net
import Verif.Bench.Add
import Verif.Bench.Mod
import Verif.Bench.Mul
import Verif.Bench.Amp
import Verif.Bench.Iqft
import Verif.Bench.Circ
import Verif.Props.Bench
import Verif.Bench.Quality
import Verif.Bench.Toffoli
import Verif.Props.BenchQuality
import Verif.Py.Stats
import Verif.Py.EstVar
import Verif.Props.Stats
import Verif.Props.EstStats
import Verif.Props.SampExact
import Verif.Props.Actual
import Verif.Props.ProbsActual
import Verif.Props.OpenCtrl
import Verif.Props.JobsActual
import Verif.Props.SwapActual
import Verif.Props.SamplerActual
import Verif.Props.ReproActual
import Verif.Props.MergeActual
import Verif.Props.EstActual
import Verif.Props.Toffoli
import Verif.Props.ToffoliQuality
