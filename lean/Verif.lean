import Verif.Buffer.BuilderLemmas
import Verif.Buffer.FlattenLemmas
import Verif.Buffer.Lemmas
import Verif.Buffer.Model
import Verif.Buffer.Props
import Verif.Buffer.Spec
import Verif.Buffer.StreamLemmas
import Verif.Common.Conservation
import Verif.Common.Count
import Verif.Common.Linearizable
import Verif.Common.Sum
import Verif.Common.Upd
import Verif.Conn.Cases
import Verif.Conn.Cleanup
import Verif.Conn.CleanupCases
import Verif.Conn.CleanupProofs
import Verif.Conn.Destroy
import Verif.Conn.Handshake
import Verif.Conn.HandshakeProofs
import Verif.Conn.Writes
import Verif.Conn.WritesProofs
import Verif.Container.BoundedQueueModel
import Verif.Container.BoundedQueueProps
import Verif.Container.BoundedQueueSpec
import Verif.Container.Dlist
import Verif.Container.DlistProps
import Verif.Container.Erased
import Verif.Container.ErasedProps
import Verif.Container.FixedPool
import Verif.Container.FixedPoolProps
import Verif.Container.IndexAlloc
import Verif.Container.IndexAllocProps
import Verif.Container.Slist
import Verif.Container.SlistProps
import Verif.Fiber.HeapLemmas
import Verif.Fiber.HeapModel
import Verif.Fiber.SchedBits
import Verif.Fiber.SchedInv
import Verif.Fiber.SchedModel
import Verif.Fiber.SchedProps
import Verif.Fiber.SchedSpec
import Verif.Fiber.SchedStep
import Verif.Fiber.SchedWake
import Verif.Fiber.SyncBuild
import Verif.Fiber.SyncCond
import Verif.Fiber.SyncInv
import Verif.Fiber.SyncLock
import Verif.Fiber.SyncModel
import Verif.Fiber.SyncMove
import Verif.Fiber.SyncProps
import Verif.Fiber.SyncQuiet
import Verif.Fiber.SyncResume
import Verif.Fiber.SyncRun
import Verif.Fiber.SyncSpec
import Verif.Fiber.SyncStep
import Verif.Fiber.SyncTimer
import Verif.Fiber.SyncUnlock
import Verif.Fiber.TimerInv
import Verif.Fiber.TimerModel
import Verif.Fiber.TimerProps
import Verif.Fiber.TimerSpec
import Verif.Fiber.TimerStep
import Verif.Filter.Chain
import Verif.Filter.ChainProofs
import Verif.Filter.Flow
import Verif.Filter.FlowProofs
import Verif.Filter.Props
import Verif.Filter.Spec
import Verif.Future.CoreInv
import Verif.Future.CoreLemmas
import Verif.Future.CoreModel
import Verif.Future.CoreProps
import Verif.Future.CoreSpec
import Verif.Future.CoreStep
import Verif.Future.LoopModel
import Verif.Future.LoopProps
import Verif.Future.LoopSpec
import Verif.Future.RWLockProps
import Verif.Future.SemaphoreLemmas
import Verif.Future.SemaphoreModel
import Verif.Future.SemaphoreProps
import Verif.Future.SemaphoreSpec
import Verif.Future.WhenAll
import Verif.Future.WhenAny
import Verif.Future.WhenAnyReady
import Verif.Future.WhenModel
import Verif.Future.WhenProps
import Verif.Future.WhenSpec
import Verif.Http.Base64
import Verif.Http.Base64Proofs
import Verif.Http.Checker
import Verif.Http.CheckerProofs
import Verif.Http.Client
import Verif.Http.ClientProofs
import Verif.Http.Cookie
import Verif.Http.CookieProps
import Verif.Http.FieldMap
import Verif.Http.FieldMapProofs
import Verif.Http.Message
import Verif.Http.MessageProofs
import Verif.Http.Percent
import Verif.Http.PercentProofs
import Verif.Http.Query
import Verif.Http.QueryProofs
import Verif.Http.Routes
import Verif.Http.RoutesProofs
import Verif.Http.Url
import Verif.Http.UrlProps
import Verif.HttpStream.Read
import Verif.HttpStream.ReadProps
import Verif.HttpStream.Write
import Verif.HttpStream.WriteProps
import Verif.LB.HashProps
import Verif.LB.HashSpec
import Verif.LB.Model
import Verif.LB.PollingProps
import Verif.LB.WRRLemmas
import Verif.LB.WRRProps
import Verif.LB.WRRRace
import Verif.Limiter.ConcurrencyModel
import Verif.Limiter.ConcurrencyProps
import Verif.Limiter.RetryModel
import Verif.Limiter.RetryProps
import Verif.Limiter.SecondsLemmas
import Verif.Limiter.SecondsModel
import Verif.Limiter.SecondsProps
import Verif.Limiter.SmoothLemmas
import Verif.Limiter.SmoothModel
import Verif.Limiter.SmoothProps
import Verif.Limiter.SmoothSpec
import Verif.Limiter.TokenLemmas
import Verif.Limiter.TokenModel
import Verif.Limiter.TokenProps
import Verif.Limiter.TokenSpec
import Verif.Overload.HighPct
import Verif.Overload.HighPctProps
import Verif.Overload.Priority
import Verif.Overload.PriorityProps
import Verif.Overload.Throttle
import Verif.Overload.ThrottleProps
import Verif.Pool.Global
import Verif.Pool.GlobalInv
import Verif.Pool.GlobalProps
import Verif.Pool.Objects
import Verif.Pool.ObjectsInv
import Verif.Pool.ObjectsProps
import Verif.Pool.ObjectsShared
import Verif.Pool.ObjectsSharedInv
import Verif.Pool.ObjectsSharedProps
import Verif.Pool.Shared
import Verif.Pool.SharedInv
import Verif.Pool.SharedOwn
import Verif.Pool.SharedProps
import Verif.Pool.SharedRuns
import Verif.Queue.BoundedSpmc
import Verif.Queue.DequeLemmas
import Verif.Queue.DequeModel
import Verif.Queue.DequeProps
import Verif.Queue.DequeSpec
import Verif.Queue.MpmcLemmas
import Verif.Queue.MpmcModel
import Verif.Queue.MpmcProps
import Verif.Queue.MpmcSpec
import Verif.Queue.RunQueueLemmas
import Verif.Queue.RunQueueModel
import Verif.Queue.RunQueueProps
import Verif.Queue.RunQueueSpec
import Verif.Reactor.Conn
import Verif.Reactor.ConnProps
import Verif.Reactor.Tasks
import Verif.Reactor.TasksProps
import Verif.Reactor.Timers
import Verif.Reactor.TimersProps
import Verif.Redis.Bytes
import Verif.Redis.Checker
import Verif.Redis.Decide
import Verif.Redis.Items
import Verif.Redis.Machine
import Verif.Redis.Props
import Verif.Redis.Reader
import Verif.Redis.Request
import Verif.Redis.RequestProofs
import Verif.Redis.RoundTrip
import Verif.Redis.Spec
import Verif.Runtime.Periphery
import Verif.Runtime.PeripheryBugs
import Verif.Runtime.PeripheryProps
import Verif.Runtime.PeripheryRefs
import Verif.Runtime.PeripheryThms
import Verif.Stream.FlowControlModel
import Verif.Stream.FlowControlProps
import Verif.Stream.FlowControlSpec
import Verif.Stream.Locks
import Verif.Stream.Sched
import Verif.Stream.SchedProofs
import Verif.Stream.SchedProps
import Verif.Stream.Trpc
import Verif.Stream.TrpcCases
import Verif.Stream.TrpcNet
import Verif.Stream.TrpcProofs
import Verif.Stream.TrpcWire
import Verif.Sync.Blocking
import Verif.Sync.BlockingInv
import Verif.Sync.BlockingProps
import Verif.Sync.HashMap
import Verif.Sync.HashMapBugs
import Verif.Sync.HashMapProps
import Verif.Sync.HashMapThms
import Verif.Sync.Hazptr
import Verif.Sync.HazptrProps
import Verif.Sync.Notifier
import Verif.Sync.NotifierEx
import Verif.Sync.NotifierProps
import Verif.Sync.NotifierStep
import Verif.Sync.NotifierStep2
import Verif.Sync.NotifierStep3
import Verif.Sync.NotifierStep4
import Verif.Sync.NotifierThms
import Verif.Sync.SeqLock
import Verif.Sync.SeqLockProps
import Verif.Sync.SharedMutex
import Verif.Sync.SharedMutexInv
import Verif.Sync.SharedMutexProps
import Verif.Text.Helper
import Verif.Text.HelperProps
import Verif.Text.HelperProps2
import Verif.Text.HelperProps3
import Verif.Thread.BindCore
import Verif.Thread.BindCoreProps
import Verif.Thread.SqPoolModel
import Verif.Thread.SqPoolProps
import Verif.Thread.SqPoolSpec
import Verif.Transport.CallMapModel
import Verif.Transport.CallMapProps
import Verif.Transport.Complex
import Verif.Transport.ComplexProps
import Verif.Transport.ConnectorModel
import Verif.Transport.ConnectorProps
import Verif.Transport.FiberPool
import Verif.Transport.FiberPoolProps
import Verif.Transport.FiberUdpPool
import Verif.Transport.Pipeline
import Verif.Transport.Pool
import Verif.Transport.PoolProofs
import Verif.Transport.PoolProps
import Verif.Transport.Wheel
import Verif.Transport.WheelProofs
import Verif.Transport.WheelProps
import Verif.Trpc.FrameLemmas
import Verif.Trpc.Lemmas
import Verif.Trpc.Model
import Verif.Trpc.Props
import Verif.Trpc.Spec
import Verif.Tvar.Cell
import Verif.Tvar.CellProps
import Verif.Tvar.Group
import Verif.Tvar.GroupProps
import Verif.Tvar.GroupProps2
import Verif.Tvar.GroupProps3
import Verif.Tvar.Packed
import Verif.Tvar.PackedProps
import Verif.Tvar.Percentile
import Verif.Tvar.PercentileProps
import Verif.Tvar.PercentileProps2
import Verif.Tvar.PercentileProps3
import Verif.Tvar.Series
import Verif.Tvar.SeriesProps
import Verif.Tvar.Window
import Verif.Tvar.WindowProps
