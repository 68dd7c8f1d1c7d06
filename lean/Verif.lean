import Verif.Props.Status
import Verif.Props.Containers
import Verif.Props.Queues
import Verif.Props.Graph
import Verif.Props.Dynamic
import Verif.Props.DagType
import Verif.Props.Optimizer
import Verif.Props.Pool
import Verif.Props.PoolRun
import Verif.Props.Element
import Verif.Props.Group
import Verif.Props.Some
import Verif.Props.Control
import Verif.Props.Param
import Verif.Props.PipelinePair
import Verif.Props.Message
import Verif.Props.Stage
import Verif.Props.Event
import Verif.Props.PipeMgr
import Verif.Props.Codec
import Verif.Props.Storage
import Verif.Props.Timer
import Verif.Props.Async
import Verif.Props.Level
import Verif.Props.Nest
import Verif.Props.Perf
import Verif.Props.Singleton
import Verif.Props.Mutable
import Verif.Props.Frozen
import Verif.Props.Memory
import Verif.Props.Dump
import Verif.Props.NestOrder
import Verif.Props.Separate
import Verif.Audit
import Verif.Props.Serial
import Verif.Props.NestFail
import Verif.Props.NestTrim
import Verif.Props.Passed
import Verif.Props.Distance
import Verif.Props.Overlap
import Verif.Props.Visible
import Verif.Props.Lifetime
import Verif.Props.Coord
import Verif.Props.Adapter
import Verif.Props.PoolLive
import Verif.Props.WeakMem
import Verif.Props.WeakPar
import Verif.Props.ParLeft
import Verif.Props.WeakDyn
import Verif.Props.WeakStatic
import Verif.Props.EngPool
import Verif.Props.Channel
import Verif.Props.StatPool
import Verif.Props.WsConc
import Verif.Props.AqConc
import Verif.Props.Primary
import Verif.Props.ParPool
import Verif.Props.ParamConc
import Verif.Props.PubSub
import Verif.Props.Lazy
import Verif.Props.TopicConc
import Verif.Props.Threads
import Verif.Props.BindConc
import Verif.Props.PqConc
import Verif.Props.TimeCnt
