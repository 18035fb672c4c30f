import Verif.Base.Dict
import Verif.Base.Res
import Verif.Base.Slice
import Verif.Lemmas.Adaptors
import Verif.Lemmas.Agree
import Verif.Lemmas.Dict
import Verif.Lemmas.Eject
import Verif.Lemmas.FifoSample
import Verif.Lemmas.Gather
import Verif.Lemmas.History
import Verif.Lemmas.Legacy
import Verif.Lemmas.List
import Verif.Lemmas.Points
import Verif.Lemmas.Prios
import Verif.Lemmas.Proxy
import Verif.Lemmas.Sample
import Verif.Lemmas.Serialize
import Verif.Lemmas.Short
import Verif.Lemmas.Strategy
import Verif.Lemmas.Table
import Verif.Lemmas.Threads
import Verif.Lemmas.Trainer
import Verif.Lemmas.Twin
import Verif.Lemmas.Window
import Verif.Model.Adaptors
import Verif.Model.AgentProxy
import Verif.Model.Amp
import Verif.Model.AtomicStore
import Verif.Model.Callback
import Verif.Model.Checkpoint
import Verif.Model.Checks
import Verif.Model.CkptWrite
import Verif.Model.ClassHooks
import Verif.Model.Collector
import Verif.Model.Conv
import Verif.Model.CoverageRun
import Verif.Model.Crud
import Verif.Model.Curl
import Verif.Model.CurlRun
import Verif.Model.DetModel
import Verif.Model.Discriminator
import Verif.Model.Dqn
import Verif.Model.DqnRun
import Verif.Model.DynLoss
import Verif.Model.DynSave
import Verif.Model.Dynamics
import Verif.Model.Ensemble
import Verif.Model.EpsGreedy
import Verif.Model.Frames
import Verif.Model.Genrl
import Verif.Model.GymRun
import Verif.Model.GymThreads
import Verif.Model.History
import Verif.Model.HlGaussRun
import Verif.Model.Importer
import Verif.Model.LegacyFill
import Verif.Model.Loader
import Verif.Model.Logging
import Verif.Model.LossStep
import Verif.Model.MemoryDraws
import Verif.Model.MinTree
import Verif.Model.Mlp
import Verif.Model.ModelEnv
import Verif.Model.Numerics
import Verif.Model.Onnx
import Verif.Model.OnnxTrace
import Verif.Model.Optim
import Verif.Model.Policy
import Verif.Model.Prios
import Verif.Model.Proxy
import Verif.Model.RealDraws
import Verif.Model.Report
import Verif.Model.Returns
import Verif.Model.SacCritics
import Verif.Model.SacPolicy
import Verif.Model.SacRun
import Verif.Model.Sampler
import Verif.Model.Schedules
import Verif.Model.SegmentTree
import Verif.Model.Serialize
import Verif.Model.Stats
import Verif.Model.Strategy
import Verif.Model.SystemLogger
import Verif.Model.Table
import Verif.Model.TableThreads
import Verif.Model.Targets
import Verif.Model.Temperature
import Verif.Model.Threads
import Verif.Model.Tracked
import Verif.Model.Trainer
import Verif.Model.TreeDraws
import Verif.Model.Truncated
import Verif.Model.UniformDraws
import Verif.Model.UniformRun
import Verif.Model.Utils
import Verif.Model.Warmup
import Verif.Model.Wrappers
import Verif.Props.Adaptors
import Verif.Props.AgentProxy
import Verif.Props.Agree
import Verif.Props.Amp
import Verif.Props.AtomicStore
import Verif.Props.BatchMean
import Verif.Props.Callback
import Verif.Props.Checkpoint
import Verif.Props.Checks
import Verif.Props.CkptWrite
import Verif.Props.ClassHooks
import Verif.Props.Clear
import Verif.Props.Collector
import Verif.Props.Conv
import Verif.Props.CoverageRun
import Verif.Props.Crud
import Verif.Props.CrudFiles
import Verif.Props.Curl
import Verif.Props.CurlRun
import Verif.Props.DetModel
import Verif.Props.Discriminator
import Verif.Props.Dqn
import Verif.Props.DqnCoverage
import Verif.Props.DqnMemory
import Verif.Props.DqnOffline
import Verif.Props.DqnResume
import Verif.Props.DqnRun
import Verif.Props.DynLoss
import Verif.Props.DynSave
import Verif.Props.Dynamics
import Verif.Props.EjectLaw
import Verif.Props.EndToEnd
import Verif.Props.Ensemble
import Verif.Props.EnsembleNet
import Verif.Props.EpsGreedy
import Verif.Props.Explore
import Verif.Props.Exporter
import Verif.Props.Frames
import Verif.Props.Genrl
import Verif.Props.Gone
import Verif.Props.GymRun
import Verif.Props.GymTargets
import Verif.Props.GymThreads
import Verif.Props.HlGauss
import Verif.Props.HlGaussRun
import Verif.Props.Importer
import Verif.Props.LeftOut
import Verif.Props.Legacy
import Verif.Props.LegacyFill
import Verif.Props.Loader
import Verif.Props.LogWrap
import Verif.Props.LogWritten
import Verif.Props.Logging
import Verif.Props.LossStep
import Verif.Props.MemoryCount
import Verif.Props.MemoryDraws
import Verif.Props.MemoryDrawsSac
import Verif.Props.MemoryLaw
import Verif.Props.MemorySpread
import Verif.Props.MinTree
import Verif.Props.Mixture
import Verif.Props.Mlp
import Verif.Props.ModelEnv
import Verif.Props.NormLimit
import Verif.Props.Numerics
import Verif.Props.Onnx
import Verif.Props.OnnxTrace
import Verif.Props.Optim
import Verif.Props.Policy
import Verif.Props.Proxy
import Verif.Props.RealDraws
import Verif.Props.RealEject
import Verif.Props.Replay
import Verif.Props.Report
import Verif.Props.Resume
import Verif.Props.Returns
import Verif.Props.RowMean
import Verif.Props.SacBatch
import Verif.Props.SacCritics
import Verif.Props.SacEnv
import Verif.Props.SacMemory
import Verif.Props.SacPolicy
import Verif.Props.SacRun
import Verif.Props.Sampler
import Verif.Props.Sampling
import Verif.Props.Schedules
import Verif.Props.SegmentTree
import Verif.Props.Serialize
import Verif.Props.SoftIter
import Verif.Props.Starve
import Verif.Props.Stats
import Verif.Props.Strategy
import Verif.Props.Survive
import Verif.Props.SystemLogger
import Verif.Props.TableThreads
import Verif.Props.Targets
import Verif.Props.Temperature
import Verif.Props.Threads
import Verif.Props.Trainer
import Verif.Props.TreeDraws
import Verif.Props.Truncated
import Verif.Props.UniformDraws
import Verif.Props.UniformRun
import Verif.Props.Utils
import Verif.Props.Vae
import Verif.Props.Warmup
import Verif.Props.Weights
import Verif.Spec.Callback
import Verif.Spec.Concurrent
import Verif.Spec.Proxy
import Verif.Spec.Replay
import Verif.Spec.Strategy
import Verif.Spec.Trainer
import Verif.Spec.Window
