import Verif.Model.PQueue
import Verif.Lemmas.PQueue
import Verif.Props.PQueue
import Verif.Model.Backtracking
import Verif.Lemmas.Backtracking
import Verif.Props.Backtracking
import Verif.Props.BacktrackingBest
import Verif.Model.Cost
import Verif.Props.Cost
import Verif.Model.Strategy
import Verif.Props.Strategy
import Verif.Model.Parallel
import Verif.Lemmas.Parallel
import Verif.Props.Parallel
import Verif.Model.Ecc
import Verif.Props.Ecc
import Verif.Model.EmptyWire
import Verif.Props.EmptyWire
import Verif.Model.Chunks
import Verif.Lemmas.Chunks
import Verif.Props.Chunks
import Verif.Model.BorrowSquash
import Verif.Lemmas.BorrowSquash
import Verif.Lemmas.BorrowSquashSem
import Verif.Props.BorrowSquash
import Verif.Model.Commands
import Verif.Lemmas.Commands
import Verif.Lemmas.CommandUnits
import Verif.Props.Commands
import Verif.Model.Hash
import Verif.Props.Hash
import Verif.Model.Ops
import Verif.Quantum.Basic
import Verif.Quantum.Gates
import Verif.Props.Ops
import Verif.Model.Commutation
import Verif.Lemmas.Commutation
import Verif.Lemmas.CommutationPass
import Verif.Props.Commutation
import Verif.Quantum.Mat
import Verif.Quantum.Native
import Verif.Model.QSystem
import Verif.Lemmas.QSystem
import Verif.Props.QSystem
import Verif.Quantum.Controls
import Verif.Model.ControlSynth
import Verif.Lemmas.ControlSynth
import Verif.Lemmas.ControlSynthX
import Verif.Lemmas.ControlCircuit
import Verif.Props.ControlSynth
import Verif.Model.Modifier
import Verif.Lemmas.Modifier
import Verif.Props.Modifier
import Verif.Model.Encoder
import Verif.Model.EncoderSpec
import Verif.Lemmas.Encoder
import Verif.Lemmas.EncoderRun
import Verif.Lemmas.EncoderBase
import Verif.Lemmas.EncoderDen
import Verif.Props.Encoder
import Verif.Model.Registers
import Verif.Lemmas.Registers
import Verif.Props.Registers
import Verif.Props.Params
import Verif.Float.Basic
import Verif.Float.Lemmas
import Verif.Props.ParamsFloat
import Verif.Model.Resource
import Verif.Model.ResourceSpec
import Verif.Model.Interval
import Verif.Lemmas.Resource
import Verif.Lemmas.Interval
import Verif.Lemmas.ResourceReach
import Verif.Props.Resource
import Verif.Props.Interval
import Verif.Model.Decoder
import Verif.Model.DecoderSpec
import Verif.Lemmas.Decoder
import Verif.Lemmas.DecoderInv
import Verif.Lemmas.DecoderRun
import Verif.Lemmas.DecoderLin
import Verif.Lemmas.DecoderOnce
import Verif.Lemmas.DecoderOk
import Verif.Lemmas.DecoderTyped
import Verif.Props.Decoder
import Verif.Model.LazyBool
import Verif.Model.LazyBoolSpec
import Verif.Lemmas.LazyBool
import Verif.Lemmas.LazyBoolLin
import Verif.Lemmas.LazyBoolBal
import Verif.Lemmas.LazyBoolScope
import Verif.Props.LazyBool
import Verif.Model.Random
import Verif.Props.Random
import Verif.Model.CopyExpr
import Verif.Model.CopyExprSpec
import Verif.Lemmas.CopyExpr
import Verif.Lemmas.CopyExprRun
import Verif.Props.CopyExpr
import Verif.Model.Containers
import Verif.Model.ContainersSpec
import Verif.Lemmas.Containers
import Verif.Lemmas.ContainersRun
import Verif.Props.Containers
import Verif.Model.StaticArray
import Verif.Model.StaticArraySpec
import Verif.Lemmas.StaticArray
import Verif.Props.StaticArray
import Verif.Model.ClExpr
import Verif.Model.ClExprSpec
import Verif.Lemmas.ClExpr
import Verif.Props.ClExpr
import Verif.Model.GateTable
import Verif.Model.GateTableSpec
import Verif.Lemmas.GateTable
import Verif.Props.GateTable
import Verif.Model.TypeTranslate
import Verif.Model.TypeTranslateSpec
import Verif.Lemmas.TypeTranslate
import Verif.Props.TypeTranslate
import Verif.Model.QRuntime
import Verif.Model.QRuntimeSpec
import Verif.Lemmas.QRuntime
import Verif.Props.QRuntime
import Verif.Model.Results
import Verif.Model.ResultsSpec
import Verif.Lemmas.Results
import Verif.Props.Results
import Verif.Model.ExtOps
import Verif.Model.ExtOpsSpec
import Verif.Props.ExtOps
import Verif.Model.Matching
import Verif.Model.MatchingSpec
import Verif.Lemmas.Matching
import Verif.Props.Matching
import Verif.Model.Gpu
import Verif.Model.GpuSpec
import Verif.Lemmas.Gpu
import Verif.Lemmas.GpuRun
import Verif.Props.Gpu
import Verif.Model.Opaque
import Verif.Model.OpaqueSpec
import Verif.Lemmas.Opaque
import Verif.Props.Opaque
import Verif.Model.Inline
import Verif.Model.InlineSpec
import Verif.Lemmas.Inline
import Verif.Props.Inline
import Verif.Model.Unsup
import Verif.Model.UnsupSpec
import Verif.Lemmas.Unsup
import Verif.Props.Unsup
import Verif.Model.Quartz
import Verif.Model.QuartzSpec
import Verif.Lemmas.Quartz
import Verif.Lemmas.QuartzLoad
import Verif.Props.Quartz
import Verif.Model.Tket1
import Verif.Model.Tket1Spec
import Verif.Model.BadgerSplit
import Verif.Lemmas.Tket1
import Verif.Lemmas.BadgerSplit
import Verif.Props.Tket1
import Verif.Props.BadgerSplit
import Verif.Model.Untuple
import Verif.Lemmas.Untuple
import Verif.Props.Untuple
import Verif.Model.Rotation
import Verif.Model.RotationSpec
import Verif.Lemmas.Rotation
import Verif.Props.Rotation
import Verif.Model.Entry
import Verif.Props.Entry
import Verif.Model.ForceOrder
import Verif.Model.ForceOrderSpec
import Verif.Lemmas.ForceOrder
import Verif.Props.ForceOrder
import Verif.Model.CallLinks
import Verif.Model.CallLinksSpec
import Verif.Lemmas.CallLinks
import Verif.Props.CallLinks
import Verif.Model.ResolveAll
import Verif.Model.ResolveAllSpec
import Verif.Lemmas.ResolveAll
import Verif.Props.ResolveAll
import Verif.Model.RegionWiring
import Verif.Model.RegionWiringSpec
import Verif.Lemmas.RegionWiring
import Verif.Props.RegionWiring
import Verif.Model.Units
import Verif.Model.UnitsSpec
import Verif.Lemmas.Units
import Verif.Props.Units
import Verif.Model.NumOps
import Verif.Props.NumOps
import Verif.Model.Trace
import Verif.Props.Trace
import Verif.Model.EncConfig
import Verif.Model.EncConfigSpec
import Verif.Lemmas.EncConfig
import Verif.Props.EncConfig
import Verif.Model.PyBadger
import Verif.Props.PyBadger
import Verif.Model.PyCost
import Verif.Props.PyCost
import Verif.Model.EdgeIds
import Verif.Lemmas.EdgeIds
import Verif.Props.EdgeIds
import Verif.Model.OpMap
import Verif.Model.OpMapSpec
import Verif.Lemmas.OpMap
import Verif.Props.OpMap
import Verif.Lemmas.EncoderBound
import Verif.Model.RoundTrip
import Verif.Model.RoundTripSpec
import Verif.Lemmas.RoundTrip
import Verif.Lemmas.RoundTripRun
import Verif.Lemmas.RoundTripOut
import Verif.Lemmas.RoundTripFlow
import Verif.Props.RoundTrip
import Verif.Model.PyBuild
import Verif.Model.PyBuildSpec
import Verif.Lemmas.PyBuild
import Verif.Lemmas.PyBuildLinear
import Verif.Props.PyBuild
import Verif.Model.SubRegions
import Verif.Model.SubRegionsSpec
import Verif.Lemmas.SubRegions
import Verif.Lemmas.SubRegionsRedo
import Verif.Props.SubRegions
import Verif.Model.Rules
import Verif.Model.RulesSpec
import Verif.Lemmas.Rules
import Verif.Lemmas.RulesFind
import Verif.Props.Rules
import Verif.Model.Together
import Verif.Model.TogetherSpec
import Verif.Lemmas.Together
import Verif.Lemmas.TogetherBadger
import Verif.Lemmas.TogetherCheck
import Verif.Props.Together
import Verif.Model.AmplitudeSpec
import Verif.Lemmas.Amplitude
import Verif.Props.Amplitude
import Verif.Model.EccRun
import Verif.Model.EccRunSpec
import Verif.Lemmas.EccRun
import Verif.Lemmas.Through
import Verif.Props.EccRun
import Verif.Model.GateRulesSpec
import Verif.Props.GateRules
import Verif.Model.ParamClassSpec
import Verif.Lemmas.ParamClass
import Verif.Props.ParamClass
import Verif.Model.NormalizeGuppy
import Verif.Model.NormalizeGuppySpec
import Verif.Props.NormalizeGuppy
import Verif.Model.StateResult
import Verif.Props.StateResult
import Verif.Model.PyOps
import Verif.Model.PyOpsSpec
import Verif.Props.PyOps
import Verif.Model.PyExts
import Verif.Model.PyExtsSpec
import Verif.Props.PyExts
import Verif.Model.SaveFile
import Verif.Props.SaveFile
import Verif.Model.BadgerLog
import Verif.Props.BadgerLog
import Verif.Model.Threads
import Verif.Lemmas.Threads
import Verif.Props.Threads
import Verif.Model.PyOptimiser
import Verif.Props.PyOptimiser
import Verif.Model.PyCircuit
import Verif.Lemmas.PyCircuit
import Verif.Props.PyCircuit
import Verif.Model.PyStubs
import Verif.Props.PyStubs
import Verif.Model.Drops
import Verif.Model.DropsSpec
import Verif.Lemmas.Drops
import Verif.Props.Drops
import Verif.Model.InputParams
import Verif.Model.InputParamsSpec
import Verif.Lemmas.InputParams
import Verif.Props.InputParams
