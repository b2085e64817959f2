import Verif.Aio.Linux
import Verif.Aio.LinuxLive
import Verif.Aio.LinuxProps
import Verif.Aio.Pool
import Verif.Aio.PoolProps
import Verif.Cli.Args
import Verif.Cli.ArgsProps
import Verif.Cli.Clusters
import Verif.Cli.Lemmas
import Verif.Cli.Model
import Verif.Cli.Number
import Verif.Cli.NumberLemmas
import Verif.Cli.NumberProps
import Verif.Cli.PrintLemmas
import Verif.Cli.Props
import Verif.Cli.Server
import Verif.Cli.ServerProps
import Verif.Common.Bytes
import Verif.Common.ListLemmas
import Verif.Common.Map
import Verif.Common.XorMask
import Verif.Counter.Lemmas
import Verif.Counter.Model
import Verif.Diana.HidingProps
import Verif.Diana.Kinds
import Verif.Diana.KindsLemmas
import Verif.Diana.KindsProps
import Verif.Diana.KindsSpec
import Verif.Diana.Lemmas
import Verif.Diana.MatchCountProps
import Verif.Diana.Model
import Verif.Diana.ParallelLemmas
import Verif.Diana.ParallelProps
import Verif.Diana.Props
import Verif.Diana.Spec
import Verif.Faults.Lemmas
import Verif.Faults.Model
import Verif.Faults.ParallelReads
import Verif.Faults.ParallelReadsLemmas
import Verif.Faults.ParallelReadsProps
import Verif.Faults.Props
import Verif.Faults.SlotLemmas
import Verif.Faults.Spec
import Verif.Fp.Lemmas
import Verif.Fp.Model
import Verif.Fp.Props
import Verif.Fp.SizeLemmas
import Verif.Generator.Computed
import Verif.Generator.Lemmas
import Verif.Generator.Model
import Verif.Generator.Props
import Verif.Generator.RandLemmas
import Verif.Generator.Spec
import Verif.Ideal.Adaptive
import Verif.Ideal.Chain
import Verif.Ideal.Cmds
import Verif.Ideal.Diana
import Verif.Ideal.DianaAdaptive
import Verif.Ideal.DianaHiding
import Verif.Ideal.DianaKeys
import Verif.Ideal.DianaOracle
import Verif.Ideal.DianaProps
import Verif.Ideal.Dist
import Verif.Ideal.Janus
import Verif.Ideal.JanusAdaptive
import Verif.Ideal.JanusFull
import Verif.Ideal.JanusFullKeys
import Verif.Ideal.JanusHiding
import Verif.Ideal.JanusKeys
import Verif.Ideal.JanusOracle
import Verif.Ideal.JanusPoints
import Verif.Ideal.JanusProps
import Verif.Ideal.Keyed
import Verif.Ideal.Lemmas
import Verif.Ideal.Oracle
import Verif.Ideal.Prob
import Verif.Ideal.RandomPerm
import Verif.Ideal.Sophos
import Verif.Ideal.SophosAdaptive
import Verif.Ideal.SophosHiding
import Verif.Ideal.SophosKeys
import Verif.Ideal.SophosOracle
import Verif.Ideal.SophosProps
import Verif.Ideal.SophosRandom
import Verif.Ideal.Tethys
import Verif.Ideal.TethysHiding
import Verif.Ideal.TethysProps
import Verif.Ideal.Together
import Verif.Ideal.Uniform
import Verif.Janus.Concurrent
import Verif.Janus.ConcurrentInv
import Verif.Janus.ConcurrentIssue
import Verif.Janus.ConcurrentLemmas
import Verif.Janus.ConcurrentProps
import Verif.Janus.Crash
import Verif.Janus.CrashLemmas
import Verif.Janus.CrashProps
import Verif.Janus.CrashRefine
import Verif.Janus.CrashSpec
import Verif.Janus.Faults
import Verif.Janus.FaultsHonest
import Verif.Janus.FaultsLemmas
import Verif.Janus.FaultsMixed
import Verif.Janus.FaultsMixedLemmas
import Verif.Janus.FaultsMixedProps
import Verif.Janus.FaultsProps
import Verif.Janus.FaultsSpec
import Verif.Janus.Foreign
import Verif.Janus.ForeignLemmas
import Verif.Janus.ForeignProps
import Verif.Janus.HidingProps
import Verif.Janus.Lemmas
import Verif.Janus.Mixed
import Verif.Janus.MixedLemmas
import Verif.Janus.MixedProps
import Verif.Janus.Model
import Verif.Janus.Power
import Verif.Janus.PowerHonest
import Verif.Janus.PowerLemmas
import Verif.Janus.PowerProps
import Verif.Janus.PowerSpec
import Verif.Janus.Props
import Verif.Janus.Refine
import Verif.Janus.Spec
import Verif.Janus.TagProps
import Verif.Janus.Toy
import Verif.Leak.Core
import Verif.Leak.Spec
import Verif.Live.DianaLemmas
import Verif.Live.Model
import Verif.Live.Props
import Verif.Live.SophosLemmas
import Verif.Live.Spec
import Verif.Oceanus.Async
import Verif.Oceanus.AsyncProps
import Verif.Oceanus.Build
import Verif.Oceanus.BuildAny
import Verif.Oceanus.Cuckoo
import Verif.Oceanus.DirectProps
import Verif.Oceanus.Files
import Verif.Oceanus.FilesLemmas
import Verif.Oceanus.FilesProps
import Verif.Oceanus.Lemmas
import Verif.Oceanus.ModesProps
import Verif.Oceanus.Moved
import Verif.Oceanus.MovedProps
import Verif.Oceanus.Props
import Verif.Oceanus.Spec
import Verif.Pluto.Faults
import Verif.Pluto.FaultsLemmas
import Verif.Pluto.FaultsProps
import Verif.Pluto.FaultsRun
import Verif.Pluto.HidingProps
import Verif.Pluto.Lemmas
import Verif.Pluto.Model
import Verif.Pluto.Props
import Verif.Pluto.RepeatCuckoo
import Verif.Pluto.RepeatCuckooProps
import Verif.Pluto.RepeatLemmas
import Verif.Pluto.RepeatProps
import Verif.Pluto.StopProps
import Verif.Power.Flush
import Verif.Power.FlushLemmas
import Verif.Power.FlushProps
import Verif.Power.Lemmas
import Verif.Power.Model
import Verif.Power.Props
import Verif.Power.Spec
import Verif.Runner.Foreign
import Verif.Runner.ForeignLemmas
import Verif.Runner.ForeignProps
import Verif.Runner.Load
import Verif.Runner.LoadFail
import Verif.Runner.LoadLemmas
import Verif.Runner.LoadProps
import Verif.Runner.LoadSearch
import Verif.Runner.Message
import Verif.Runner.MessageProps
import Verif.Runner.Restart
import Verif.Runner.RestartLemmas
import Verif.Runner.RestartProps
import Verif.Runner.RestartSpec
import Verif.Runner.SearchRpc
import Verif.Runner.SearchRpcProps
import Verif.Runner.Session
import Verif.Runner.SessionBase
import Verif.Runner.SessionEnd
import Verif.Runner.SessionEx
import Verif.Runner.SessionExStep
import Verif.Runner.SessionGood
import Verif.Runner.SessionLive
import Verif.Runner.SessionProps
import Verif.Runner.SessionSearch
import Verif.Runner.SessionSpec
import Verif.Runner.SessionStep
import Verif.Runner.SessionTr
import Verif.Runner.Setup
import Verif.Runner.SetupConc
import Verif.Runner.SetupConcLemmas
import Verif.Runner.SetupConcProps
import Verif.Runner.SetupProps
import Verif.Sophos.HidingLemmas
import Verif.Sophos.HidingProps
import Verif.Sophos.Lemmas
import Verif.Sophos.Model
import Verif.Sophos.Parallel
import Verif.Sophos.ParallelLemmas
import Verif.Sophos.ParallelProps
import Verif.Sophos.Props
import Verif.Sophos.Spec
import Verif.Tethys.AllocLemmas
import Verif.Tethys.AllocProps
import Verif.Tethys.AllocSpec
import Verif.Tethys.Allocator
import Verif.Tethys.Async
import Verif.Tethys.AsyncProps
import Verif.Tethys.Components
import Verif.Tethys.ComponentsLemmas
import Verif.Tethys.DirectProps
import Verif.Tethys.Encoder
import Verif.Tethys.EncoderLemmas
import Verif.Tethys.Faults
import Verif.Tethys.FaultsProps
import Verif.Tethys.Files
import Verif.Tethys.FilesLemmas
import Verif.Tethys.FilesProps
import Verif.Tethys.FilesSearch
import Verif.Tethys.Fine
import Verif.Tethys.FineLemmas
import Verif.Tethys.FineProps
import Verif.Tethys.Generic
import Verif.Tethys.GenericLemmas
import Verif.Tethys.GenericProps
import Verif.Tethys.GenericSpec
import Verif.Tethys.Graph
import Verif.Tethys.GraphCut
import Verif.Tethys.GraphFlow
import Verif.Tethys.GraphLemmas
import Verif.Tethys.GraphProps
import Verif.Tethys.GraphSpec
import Verif.Tethys.HidingLemmas
import Verif.Tethys.HidingProps
import Verif.Tethys.KeySpec
import Verif.Tethys.ModesProps
import Verif.Tethys.PageProps
import Verif.Tethys.ParallelLemmas
import Verif.Tethys.RepeatLemmas
import Verif.Tethys.RepeatProps
import Verif.Tethys.Scheme
import Verif.Tethys.SchemeLemmas
import Verif.Tethys.SchemeProps
import Verif.Tethys.Store
import Verif.Tethys.StoreBuild
import Verif.Tethys.StoreGet
import Verif.Tethys.StoreLemmas
import Verif.Tethys.StoreProps
import Verif.Tethys.StoreSpec
import Verif.Tethys.Stream
import Verif.Tethys.StreamLemmas
import Verif.Tethys.StreamProps
import Verif.Tethys.StreamSpec
import Verif.Tethys.SumLemmas
import Verif.Tethys.TrimLemmas
import Verif.ThreadPool.Lemmas
import Verif.ThreadPool.Model
import Verif.ThreadPool.Props
import Verif.ThreadPool.Systems
import Verif.Utils.Concat
import Verif.Utils.ConcatProps
import Verif.Utils.Helpers
import Verif.Utils.HelpersProps
import Verif.Utils.ListStore
import Verif.Utils.ListStoreProps
import Verif.Utils.Logger
import Verif.Utils.LoggerProps
import Verif.Utils.MaskProps
import Verif.Utils.Optional
import Verif.Utils.OptionalLemmas
import Verif.Utils.OptionalProps
import Verif.Utils.OptionalSpec
import Verif.Utils.Rocks
import Verif.Utils.RocksLemmas
import Verif.Utils.RocksProps
import Verif.Utils.RocksSpec
import Verif.Vec.Buffers
import Verif.Vec.BuffersGood
import Verif.Vec.BuffersInv
import Verif.Vec.BuffersLemmas
import Verif.Vec.BuffersProps
import Verif.Vec.BuffersSpec
import Verif.Vec.BuffersStep
import Verif.Vec.Commit
import Verif.Vec.CommitLemmas
import Verif.Vec.CommitProps
import Verif.Vec.Concurrent
import Verif.Vec.ConcurrentLemmas
import Verif.Vec.ConcurrentProps
import Verif.Vec.ConcurrentSpec
import Verif.Vec.Direct
import Verif.Vec.DirectProps
import Verif.Vec.Lemmas
import Verif.Vec.Model
import Verif.Vec.Modes
import Verif.Vec.ModesEnds
import Verif.Vec.ModesLemmas
import Verif.Vec.ModesProps
import Verif.Vec.Props
import Verif.Vec.Spec
