import Verif.Model.Py
import Verif.Model.Params
import Verif.Model.Geometry
import Verif.Model.Readout
import Verif.Model.DecoderGraph
import Verif.Model.Decoder
import Verif.Model.LookUp
import Verif.Model.Benchmark
import Verif.Model.Circuit
import Verif.Model.Registers
import Verif.Model.CircReadout
import Verif.Spec.Lattice
import Verif.Spec.Readout
import Verif.Spec.Graph
import Verif.Spec.Matching
import Verif.Spec.Benchmark
import Verif.Spec.Circuit
import Verif.Spec.Registers
import Verif.Spec.Quantum
import Verif.Spec.QuantumCnot
import Verif.Spec.Noise
import Verif.Spec.Equivalent
import Verif.Props.Sizes
import Verif.Props.Geometry
import Verif.Props.Readout
import Verif.Props.Graph
import Verif.Props.SizeChecks
import Verif.Props.Decoding
import Verif.Props.Degeneracy
import Verif.Props.LookUp
import Verif.Props.Benchmark
import Verif.Props.Circuit
import Verif.Props.Registers
import Verif.Props.Quantum
import Verif.Props.QuantumFrame
import Verif.Props.QuantumCnot
import Verif.Props.EndToEnd
import Verif.Props.Radius
import Verif.Props.CircReadout
import Verif.Props.CxRuns
import Verif.Props.Repetition
import Verif.Props.DegenerateRadius
import Verif.Props.SurfaceThreshold
import Verif.Props.WeightedThreshold
import Verif.Props.RateSymmetry
import Verif.Props.Slope
import Verif.Model.DecoderObject
import Verif.Proof.KeepDict
import Verif.Props.SharedParams
import Verif.Props.OutsideHits
import Verif.Model.MatchedGraph
import Verif.Proof.MatchedGraph
import Verif.Props.MatchedGraph
import Verif.Spec.OddLines
import Verif.Proof.OddLines
import Verif.Spec.CircuitNoise
import Verif.Proof.QSpread
import Verif.Proof.QSlips
import Verif.Proof.Hooks
import Verif.Proof.QHooks
import Verif.Proof.QRoundSlips
import Verif.Proof.QBlockSlips
import Verif.Proof.QSlipRun
import Verif.Props.CircuitNoise
import Verif.Proof.Staircase
import Verif.Proof.StairRun
import Verif.Proof.QBlockSlipsXZZX
import Verif.Proof.HookRun
import Verif.Props.CircuitNoiseXZZX
import Verif.Spec.LocalNoise
import Verif.Proof.LocalNoise
import Verif.Proof.Culprits
import Verif.Props.CircuitThreshold
import Verif.Props.FirstRound
import Verif.Proof.Components
import Verif.Spec.UnknownState
import Verif.Props.UnknownState
import Verif.Model.Tests
import Verif.Proof.Indifferent
import Verif.Spec.OwnTests
import Verif.Props.OwnTests
import Verif.Model.Drawing
import Verif.Spec.Drawing
import Verif.Props.Drawing
import Verif.Model.DataFiles
import Verif.Props.DataFiles
import Verif.Spec.Distance
import Verif.Proof.Distance
import Verif.Proof.Pairing
import Verif.Props.Distance
import Verif.Spec.Pairing
import Verif.Props.Pairing
import Verif.Props.Recorded
import Verif.Props.LookUpBest
import Verif.Spec.Sampling
import Verif.Proof.Sampling
import Verif.Props.Sampling
import Verif.Spec.Repetition
import Verif.Props.RepetitionBest
import Verif.Spec.SelfCnot
import Verif.Props.SelfCnot
import Verif.Spec.Biased
import Verif.Proof.Biased
import Verif.Props.Biased
import Verif.Props.BiasedDecoding
import Verif.Spec.Ties
import Verif.Proof.AnyMatching
import Verif.Proof.Ties
import Verif.Props.Ties
import Verif.Proof.Counting
import Verif.Proof.CountTable
import Verif.Proof.Certificate
import Verif.Proof.Rules
import Verif.Proof.OneStep
import Verif.Proof.RuleRate
import Verif.Proof.OptimalChecks
import Verif.Props.Optimal
import Verif.Spec.Programs
import Verif.Proof.ProgOps
import Verif.Proof.Programs
import Verif.Proof.ProgSteps
import Verif.Proof.ProgCnot
import Verif.Props.Programs
import Verif.Proof.Rejected
import Verif.Props.Rejected
import Verif.Spec.Chance
import Verif.Proof.Weight
import Verif.Proof.Chances
import Verif.Proof.Odds
import Verif.Proof.Segments
import Verif.Props.Chance
import Verif.Spec.AnyError
import Verif.Proof.AnyError
import Verif.Props.AnyError
import Verif.Proof.AnyState
import Verif.Props.AnyState
import Verif.Spec.WeakErrors
import Verif.Proof.WeakErrors
import Verif.Props.WeakErrors
import Verif.Spec.Environment
import Verif.Proof.Environment
import Verif.Props.Environment
import Verif.Spec.Shared
import Verif.Proof.Shared
import Verif.Proof.SharedRun
import Verif.Proof.SharedReg
import Verif.Proof.SharedTwo
import Verif.Props.Shared
import Verif.Spec.CnotError
import Verif.Proof.CnotError
import Verif.Props.CnotError
import Verif.Props.CnotBefore
import Verif.Props.RareBenchmark
import Verif.Props.DecodingExamples
import Verif.Proof.LoneHit
import Verif.Props.LoneHit
import Verif.Proof.EdgeErrors
import Verif.Props.EdgeErrors
import Verif.Props.LatticeBench
import Verif.Proof.Spanning
import Verif.Props.Completeness
import Verif.Proof.LatticeOdds
import Verif.Props.LatticeOdds
import Verif.Proof.OneQubit
import Verif.Props.OneQubit
import Verif.Proof.Inner
import Verif.Proof.Detect
import Verif.Props.Detect
import Verif.Props.LogicalQubit
import Verif.Props.LogicalErrors
import Verif.Props.Restore
import Verif.Props.Digital
