import Verif.Props.LockFreeStack
import Verif.Props.ObjectPool
import Verif.Props.SafeQueue
import Verif.Props.BasicMiddleware
import Verif.Props.SafeEmitter
import Verif.Props.MultiEmitter
import Verif.Props.SingleEmitter
import Verif.Props.Subscriber
import Verif.Props.MultiRing
import Verif.Props.SingleRing
import Verif.Props.Processor
import Verif.Props.StateMachine
import Verif.Props.Env
import Verif.Props.EnvFile
import Verif.Props.ConfigFile
import Verif.Props.DataMux
import Verif.Props.EventLoop
import Verif.Props.Callback
import Verif.Props.CallbackNested
import Verif.Props.HandlerEnd
import Verif.Props.Construct
import Verif.Props.CacheListener
import Verif.Props.Container
import Verif.Props.ManagedService
import Verif.Props.Mapper
import Verif.Props.Chain
import Verif.Props.Channel
import Verif.Props.Zmq
import Verif.Props.Poller
import Verif.Props.PollerLive
import Verif.Props.Scheduler
import Verif.Props.SchedLive
import Verif.Props.Socket
import Verif.Props.SocketScan
import Verif.Props.BaseSocket
import Verif.Props.Reentry
import Verif.Props.RingRaces
import Verif.Props.RaChain
import Verif.Props.RaRing
import Verif.Props.RaMulti
import Verif.Props.RaWait
import Verif.Props.ConcurrentQueue
import Verif.Props.ProviderMaps
import Verif.Props.Destroy
import Verif.Props.RaStack
import Verif.Props.Endpoint
import Verif.Props.Pipeline
import Verif.Props.PoolEnd
import Verif.Props.Live
import Verif.Props.LoopLive
import Verif.Props.SyncNet
import Verif.Props.Period
import Verif.Props.MemLive
import Verif.Props.PubThrow
import Verif.Props.CqLive
import Verif.Props.RefPath
import Verif.Props.ElDispatch
import Verif.Props.LockFree
import Verif.Props.MemDispatch
import Verif.Props.MemDispatchLive
import Verif.Props.MuxLive
import Verif.Props.ZmqEnd
import Verif.Props.Locks
import Verif.Props.Races
import Verif.Props.ElSched
import Verif.Props.MuxDispatch
import Verif.Props.ClaimFree
import Verif.Props.GatingVec
import Verif.Props.ElDispatchLive
import Verif.Props.ElSchedLive
import Verif.Props.MuxDispatchLive
import Verif.Props.NeverStuck
import Verif.Props.NeverStuckMem
import Verif.Props.NeverStuckDispatch
import Verif.Props.NeverStuckEx
import Verif.Props.FsmReentry
import Verif.Props.ZmqEnvPoller
import Verif.Props.EnvShared
