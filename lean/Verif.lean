import Verif.Mutex.Props
import Verif.Mutex.Uncontended
import Verif.SharedMutex.Props
import Verif.Fly.Props
import Verif.Lock.Props
import Verif.Locks.Props
import Verif.WaitGroup.Props
import Verif.WaitGroup.Zero
import Verif.WaitGroup.Guard
import Verif.Hub.Props
import Verif.ReleaseOnce.Props
import Verif.Queues.StdQueue
import Verif.Queues.Wrapper
import Verif.Pool.Props
import Verif.WSQ.Props
import Verif.Future.Props
import Verif.Task.Props
import Verif.Nest.Props
import Verif.Generator.Props
import Verif.Generator.AdaptorProps
import Verif.Timer.Props
import Verif.UserLoops.Props
import Verif.Uring.More
import Verif.Uring.Overflow
import Verif.UringMem.Props
import Verif.OpBatch.Props
import Verif.Cancel.Props
import Verif.Stream.Props
import Verif.Expected.Props
import Verif.Functional.Props
import Verif.DirMutex.Props
import Verif.DirMutex.Guard
import Verif.Monitor.Props
import Verif.LocalSched.Props
import Verif.Sched.Props
import Verif.SchedIo.Props
import Verif.TcpUtil.Props
import Verif.TcpServer.Literal
import Verif.TcpServer.Props
import Verif.EvLoop.Props
import Verif.Life.Destroy
import Verif.Storage.Props
import Verif.Ops.Props
import Verif.Fd.Props
import Verif.Sock.Props
import Verif.GenLife.Props
import Verif.Scope.Props
import Verif.Block.Props
import Verif.Leak.Props
import Verif.Deadline.Props
import Verif.Reinit.Props
import Verif.Hb.MutexProps
import Verif.Hb.WgProps
import Verif.Hb.FutureProps
import Verif.Hb.ShrCalm
import Verif.Hb.GenProps
import Verif.Fair.Props
import Verif.Err.Spec
import Verif.Err.Model
import Verif.Err.Props
import Verif.Mortal.Spec
import Verif.Mortal.Model
import Verif.Mortal.Props
import Verif.Nap.Props
import Verif.PoolFut.Props
import Verif.Future.Broken
import Verif.Attrs.Props
import Verif.Mutex.Live
import Verif.WaitGroup.Live
import Verif.Idle.Props
import Verif.Lazy.Props
import Verif.Hb.PoolProps
import Verif.TaskId.Props
import Verif.SharedMutex.Live
import Verif.FutMany.Props
import Verif.EndToEnd.Hang
import Verif.ForkJoin.Props
import Verif.ForkJoin.Span
import Verif.ForkJoin.Time
import Verif.ForkJoin.OnTime
import Verif.TcpMove.Spec
import Verif.TcpMove.Model
import Verif.TcpMove.Props
import Verif.TcpMove.Moved
import Verif.FileAppend.Spec
import Verif.FileAppend.Model
import Verif.FileAppend.Props
import Verif.FileAppend.Life
import Verif.FileAppend.End
import Verif.FileAppend.Refuted
