import Verif.Go
import Verif.UBuf.Model
import Verif.UBuf.Spec
import Verif.UBuf.Refine
import Verif.UBuf.Props
import Verif.UBuf.Snapshot
import Verif.UBuf.Mixed
import Verif.UBuf.Reader
import Verif.UBuf.Gob
import Verif.UBuf.Conform
import Verif.UBuf.Conc
import Verif.UBuf.ConcExact
import Verif.Stack.Model
import Verif.Stack.Buf
import Verif.Stack.Step
import Verif.Stack.Codec
import Verif.Stack.Keeps
import Verif.Stack.Procs
import Verif.Stack.Stat
import Verif.Stack.Frame
import Verif.Stack.FrameProps
import Verif.Stack.Chain
import Verif.Stack.Deliver
import Verif.Stack.Turn
import Verif.Stack.Halt
import Verif.Reg.Slice
import Verif.Reg.Callers
import Verif.Reg.CallersFair
import Verif.Reg.Broadcast
import Verif.Reg.Model
import Verif.Reg.Props
import Verif.Reg.History
import Verif.Reg.Serving
import Verif.Reg.ServingExact
import Verif.Reg.Build
import Verif.Reg.Snapshot
import Verif.Reg.RunExact
import Verif.Trace
import Verif.Reg.Serve
import Verif.Reg.Race
import Verif.Reg.Listener
import Verif.Reg.ListenerExact
import Verif.Reg.Options
import Verif.Stack.Loop
import Verif.Conn.Close
import Verif.Conn.Heartbeat
import Verif.Conn.Timed
import Verif.Conn.Reference
import Verif.Conn.ReferenceExact
import Verif.Conn.Stream
import Verif.Conn.StreamExact
import Verif.Conn.DialExact
import Verif.Conn.Accept
import Verif.Conn.AcceptExact
import Verif.Conn.Counter
import Verif.Conn.Backpressure
import Verif.Conn.Pipeline
import Verif.Conn.Peers
import Verif.Conn.PeersFair
import Verif.Conn.Shut
import Verif.Conn.Retire
import Verif.Stack.Switch
import Verif.Conn.Service
import Verif.Conn.ServiceExact
import Verif.Conn.SocketFile
import Verif.Reg.MapRace
import Verif.Reg.Reentrant
import Verif.Reg.ReentrantExact
import Verif.Reg.Fluent
import Verif.Reg.Publish
import Verif.Reg.Reuse
import Verif.Reg.Foreign
import Verif.Stack.Split
import Verif.Stack.Within
import Verif.Stack.Isolate
import Verif.Stack.Shared
import Verif.Stack.SharedExact
import Verif.Stack.CrashExact
import Verif.Stack.Crash
import Verif.Stack.EchoExact
import Verif.Stack.DeliverExact
import Verif.Stack.RefExact
import Verif.Stack.LoopExact
import Verif.Stack.Fuel
import Verif.Stack.Net
import Verif.Stack.NetCut
import Verif.Stack.Report
import Verif.Program
import Verif.ProgramCrash
import Verif.Examples
import Verif.ExampleRuns
import Verif.ExampleCuts
import Verif.UBuf.Exact
import Verif.UBuf.Corners
import Verif.Stack.Exact
import Verif.Conn.LostLock
import Verif.Conn.LostLockFair
import Verif.Conn.Dynamic
import Verif.Conn.AppSession
import Verif.Conn.Startup
import Verif.Conn.Rejoin
import Verif.Conn.Forget
import Verif.Stack.FrameRace
import Verif.Stack.Hop
import Verif.Stack.Machine
import Verif.Stack.Stall
import Verif.Stack.StallAbove
import Verif.Stack.Concurrent
import Verif.Stack.Together
import Verif.Stack.Tame
import Verif.Stack.Unasked
import Verif.Stack.Server
import Verif.Stack.CutExact
import Verif.Stack.MtuCut
import Verif.Stack.ServerCut
import Verif.Stack.BareCut
import Verif.Stack.NetExact
import Verif.Conn.Rate
import Verif.Conn.RateFair
import Verif.Access.Basic
import Verif.Access.Program
import Verif.Access.Exact
import Verif.Access.Locks
import Verif.Access.LocksFair
import Verif.Access.Deadlock
import Verif.Access.Concurrent
import Verif.Reg.Again
import Verif.Fair
import Verif.Reg.ServeFair
import Verif.Reg.ListenerFair
import Verif.Conn.BackpressureFair
import Verif.Conn.AcceptFair
import Verif.Conn.ServiceFair
import Verif.Conn.EchoFair
import Verif.Conn.ServiceStarve
import Verif.Conn.RestFair
import Verif.Reg.BroadcastFair
import Verif.Conn.HeartbeatForever
import Verif.Reg.Several
import Verif.Reg.SeveralIO
