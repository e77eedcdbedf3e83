import Verif.Model.GeneralizedJacobian
import Verif.Model.Function
import Verif.Model.AbsNormal
import Verif.Model.Parallel
import Verif.Model.Matrix
import Verif.Model.Jacobian
import Verif.Spec.Reverse
import Verif.Spec.Scalars
import Verif.Spec.Linear
import Verif.Spec.Jacobian
import Verif.Spec.Jet
import Verif.Spec.History
import Verif.Spec.Tape
import Verif.Spec.Real
import Verif.Spec.Demo
import Verif.Spec.Recorded
import Verif.Spec.Function
import Verif.Proof.Fn
import Verif.Proof.Record
import Verif.Proof.Relabel
import Verif.Proof.History
import Verif.Proof.Eval
import Verif.Proof.Jacobian
import Verif.Proof.Run
import Verif.Proof.TapeMatrix
import Verif.Proof.Jet
import Verif.Proof.Linear
import Verif.Proof.Parallel
import Verif.Proof.TapeOf
import Verif.Proof.Sweeps
import Verif.Props.Contexts
import Verif.Props.AFloat
import Verif.Props.Functions
import Verif.Props.Linear
import Verif.Props.Jacobian
import Verif.Props.Recording
import Verif.Spec.AbsNormal
import Verif.Proof.Views
import Verif.Proof.AnfMath
import Verif.Proof.AnfForm
import Verif.Proof.AnfExtra
import Verif.Props.AbsNormal
import Verif.Spec.GenJac
import Verif.Proof.GenJac
import Verif.Proof.GenJacPiece
import Verif.Props.GeneralizedJacobian
import Verif.Model.Checkpointing
import Verif.Spec.Checkpointing
import Verif.Spec.CkptLog
import Verif.Proof.CkptArith
import Verif.Proof.CkptEst
import Verif.Proof.Ckpt
import Verif.Proof.CkptLog
import Verif.Props.Checkpointing
import Verif.Model.Chain
import Verif.Spec.Chain
import Verif.Proof.Chain
import Verif.Props.Chain
import Verif.Spec.Deriv
import Verif.Proof.Family
import Verif.Proof.Deriv
import Verif.Props.Deriv
import Verif.Model.Concurrent
import Verif.Spec.Concurrent
import Verif.Spec.DemoConcurrent
import Verif.Proof.Concurrent
import Verif.Proof.Solo
import Verif.Props.Concurrent
import Verif.Model.Cxx
import Verif.Spec.Cxx
import Verif.Spec.DemoCxx
import Verif.Proof.Cxx
import Verif.Proof.CxxSpec
import Verif.Props.Cxx
import Verif.Spec.Denote
import Verif.Proof.Denote
import Verif.Props.Denote
import Verif.Spec.Duplicates
import Verif.Proof.Duplicates
import Verif.Props.Duplicates
import Verif.Proof.Replay
import Verif.Props.Replay
import Verif.Props.CkptCost
import Verif.Props.Limiting
import Verif.Props.SecondOrder
import Verif.Proof.Probe
import Verif.Props.ChainWhole
import Verif.Model.Locks
import Verif.Spec.Locks
import Verif.Proof.Locks
import Verif.Proof.LockSim
import Verif.Proof.LockLive
import Verif.Spec.DemoLocks
import Verif.Props.Locks
import Verif.Spec.Rounding
import Verif.Proof.Rounding
import Verif.Proof.TwoArith
import Verif.Proof.RoundFamily
import Verif.Proof.RoundSweeps
import Verif.Proof.RoundUniform
import Verif.Proof.Binary
import Verif.Props.Rounding
import Verif.Model.Precision
import Verif.Spec.Precision
import Verif.Proof.Natural
import Verif.Proof.Mixed
import Verif.Proof.MixedHistory
import Verif.Props.Precision
import Verif.Spec.Fresh
import Verif.Proof.Fresh
import Verif.Props.Fresh
import Verif.Model.FloydWarshall
import Verif.Proof.CkptBudget
import Verif.Spec.FloydWarshall
import Verif.Spec.DemoFw
import Verif.Proof.FwRun
import Verif.Proof.FloydWarshall
import Verif.Props.FloydWarshall
import Verif.Proof.Selection
import Verif.Proof.FwFresh
import Verif.Proof.FwGradient
import Verif.Proof.FwHalf
import Verif.Proof.FwDeriv
import Verif.Proof.FwGeneric
import Verif.Props.FwGradient
import Verif.Props.Perceptron
import Verif.Model.FwOptimise
import Verif.Spec.FwOptimise
import Verif.Proof.FwOptimise
import Verif.Props.FwOptimise
import Verif.Props.PerceptronPath
import Verif.Props.RoundingDrivers
import Verif.Model.Nested
import Verif.Spec.Nested
import Verif.Proof.Nested
import Verif.Props.Nested
import Verif.Model.NestedN
import Verif.Spec.NestedN
import Verif.Spec.NestedSteady
import Verif.Proof.NestedN
import Verif.Proof.NestedSteady
import Verif.Props.NestedN
import Verif.Props.NestedSteady
import Verif.Spec.Layout
import Verif.Proof.Layout
import Verif.Props.Layout
import Verif.Proof.Conical
import Verif.Props.Conical
import Verif.Proof.CkptRound
import Verif.Props.CkptEstimate
import Verif.Proof.CkptAny
import Verif.Props.CkptAny
import Verif.Spec.Machine
import Verif.Spec.Ieee
import Verif.Proof.Ieee
import Verif.Props.Machine
import Verif.Spec.MachineForms
import Verif.Proof.RoundAnf
import Verif.Proof.RoundGenJac
import Verif.Proof.RoundForms
import Verif.Props.MachineAnf
import Verif.Props.MachineChain
import Verif.Spec.ValueMut
import Verif.Proof.ValueMut
import Verif.Props.ValueMut
import Verif.Props.ChainAny
import Verif.Proof.Kinks
import Verif.Props.ChainLimiting
import Verif.Spec.Likq
import Verif.Proof.Likq
import Verif.Props.Likq
import Verif.Proof.ShadowNear
import Verif.Proof.Pieces
import Verif.Proof.PieceShadow
import Verif.Proof.PieceFunc
import Verif.Props.Pieces
import Verif.Proof.SemiShadow
import Verif.Proof.SemiFunc
import Verif.Props.Semismooth
import Verif.Props.ChainNewton
import Verif.Proof.TapeNear
import Verif.Proof.ResultsNear
import Verif.Props.NewtonBall
import Verif.Proof.ChainNear
import Verif.Props.ChainNewtonBall
import Verif.Props.InexactNewton
import Verif.Props.NoisyNewton
import Verif.Model.CkptRelease
import Verif.Proof.CkptRelease
import Verif.Props.CkptRelease
import Verif.Conformance.Tests
import Verif.Conformance.RealTests
import Verif.Conformance.CxxTests
