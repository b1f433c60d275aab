import Verif.Access.Basic

/-!
# Which fields two goroutines access at once (C105)

What every function of the library does to the fields that more than one goroutine can reach: reads, writes, mutexes and `go`
statements in the order of the code.  Followed are the fields of a stack, of its UpperDeck, of one Heartbeat, one StatCounter and
one FrameDecoder in its chain, of one endpoint `e`, of one TCP or Unix transport `t`, of one reference transport `r` and of one connection `c` of one of
them; there are any number of other endpoints, transports and connections, whose goroutines do the same except for the fields of `e`, `t` and `c`
(argument `false` of the functions below).

The program calls the library from one goroutine, its main goroutine: it sets the stack up, calls `Run` once, and after that does
what its features say.  Listeners and codecs of the program do not touch the fields of the library.

Simplifications: branches are open (an `if` may go either way whatever its condition), and so is how far a message gets in the
chain and in which order the processors come; both only add executions, and the executions with races shown below are
executions of the code.  Channel operations are left out (they are synchronised), so are the fields of contexts, buffers and
endpoint data (each belongs to one goroutine at a time, C101 for the exception), local variables, `name` of endpoints, processors
and transports, `forServer`, `address` and the options of processors and transports (not changed once the goroutines that read them are
started), the counters of Filter and Forwarder (like those of StatCounter), and Loopback.  `Stop` of a reference
transport does nothing but look at `isRunning`, which is never set (C54).
-/

namespace Verif.Access

inductive Field where
  /-- `DefaultUStack` (ustack_default.go:79-91); `decks`: both pointers -/
  | mtu | overhead | options | endpoints | transports | processors | decks | listeners | stackName
  /-- `UpperDeck.endpoints`, the map (proc_upperdeck.go:15) -/
  | served
  /-- `upper`, `lower` and `ustack` of the processors and the decks (proc_base.go:10-19) -/
  | links
  | enable
  /-- `intervalInSecond`, `timeoutInSecond`, `closeOnLost` (proc_heartbeat.go:21-23) -/
  | heartbeatConf
  | monitors
  /-- `intervalInSecond` (proc_stat_counter.go:21) -/
  | statConf
  | txCounter | rxCounter
  /-- `cacheCapacity`, `cache` and the buffer (proc_frame_decoder.go:17-18) -/
  | cache
  /-- of `t` (tran_tcp.go:91-106, tran_unix.go:93-107); `retry`: both numbers -/
  | isRunning | connections | next | listener | retry
  /-- of `r`: `isRunning`, `queueSize`, `connection` (tran_reference.go:150-160), and the global map with the counts (230-231) -/
  | refRunning | refSize | refConnection | channels
  /-- of `c` -/
  | closed
  /-- of `e` (endp_default.go:70-79) -/
  | session | eventListener | dataListener | inAutoReceive
  deriving Repr, DecidableEq

inductive Mutex where
  | upperDeck | heartbeat | transport
  /-- of `r`, and the global one -/
  | reference | channels
  deriving Repr, DecidableEq

/-- The functions started with `go`.  `true`: for `t` or for `c`. -/
inductive Fun where
  /-- tran_tcp.go:161-183, tran_unix.go:166-192 -/
  | accept
  /-- tran_tcp.go:186-207, tran_unix.go:195-215 -/
  | connect
  /-- proc_lowerdeck.go:40-89 -/
  | next (t : Bool)
  /-- the same for `r` -/
  | refNext
  /-- proc_lowerdeck.go:59-87 -/
  | reader (c : Bool)
  /-- proc_upperdeck.go:47-67 -/
  | service
  /-- proc_heartbeat.go:146-169 -/
  | beat (c : Bool)
  /-- proc_heartbeat.go:193-198 -/
  | check
  /-- proc_stat_counter.go:156-167 -/
  | ask (c : Bool)
  /-- endp_default.go:82-93 -/
  | autoReceive
  deriving Repr, DecidableEq

/-- What a program has in its chain and what it does after Run. -/
inductive Feature where
  /-- a Heartbeat, a StatCounter, a FrameDecoder, another processor in the chain -/
  | heartbeat | stat | frame | codec
  /-- the reference transport `r` -/
  | reference
  /-- AddEndPoint and DeleteEndPoint after Run -/
  | changeEndPoints
  /-- AddTransport and DeleteTransport after Run -/
  | changeTransports
  | setEnable | setStackName | setEventListener | appendProcessor
  /-- SetSession, SetEventListener of `e` after Run; SetDataListener a second time -/
  | setSession | setEndPointListener | setDataListenerAgain
  deriving Repr, DecidableEq

abbrev C := Cmd Field Mutex Fun

def rd (l : Field) : C := .act (.rd l)
def wr (l : Field) : C := .act (.wr l)
def go (k : Fun) : C := .act (.go k)

/-- One after the other. -/
def all : List C → C
  | [] => .skip
  | c :: cs => .seq c (all cs)

/-- One of them, or nothing. -/
def one : List C → C
  | [] => .skip
  | c :: cs => .alt c (one cs)

def opt (c : C) : C := .alt c .skip

/-- `Lock`, `defer Unlock`. -/
def locked (m : Mutex) (cs : List C) : C := .seq (.act (.lock m)) (.seq (all cs) (.act (.unlock m)))

def increment (l : Field) : C := .seq (rd l) (wr l)

section
variable (F : Feature → Bool)

/-- Only if the program has the feature. -/
def feature (x : Feature) (c : C) : C := if F x then opt c else .skip

/-- Only for `t` or `c`. -/
def only (b : Bool) (c : C) : C := if b then c else .skip

/-! ## Events -/

/-- `PublishEvent` (ustack_default.go:309-326): what the UpperDeck, the processors and the LowerDeck do is given; an endpoint's `OnEvent`
is endp_default.go:156-160. -/
def publish (upper procs lower : C) : C :=
  all [rd .listeners, rd .endpoints, .star (rd .eventListener), rd .decks, upper, rd .processors, procs, rd .decks, lower]

/-- The processors' `OnEvent` for a new connection (proc_heartbeat.go:139-171, proc_stat_counter.go:146-169). -/
def onNewConnection (c : Bool) : C :=
  all [feature F .heartbeat (all [rd .heartbeatConf, locked .heartbeat [wr .monitors], go (.beat c)]),
    feature F .stat (all [rd .statConf, opt (go (.ask c))])]

/-- `LowerDeck.closeConnection` (proc_lowerdeck.go:22-32). -/
def closeConnection (c : Bool) : C := all [only c (wr .closed), rd .links, publish .skip .skip .skip]

/-! ## Data -/

/-- Down the chain from any processor on: the processors (codecs: proc_codec_bytes.go:21-47; proc_heartbeat.go:95-109;
proc_stat_counter.go:43-62; proc_frame_decoder.go:37-54) and the LowerDeck (proc_lowerdeck.go:98-120, `Write`: tran_tcp.go:56-63). -/
def down (c : Bool) : C :=
  all [.star (one [
      feature F .codec (all [rd .enable, opt (all [rd .links, rd .mtu, rd .overhead]), rd .links]),
      feature F .heartbeat (rd .links),
      feature F .stat (rd .links),
      feature F .frame (rd .links),
      feature F .stat (all [rd .enable, opt (increment .txCounter), rd .links]),
      feature F .frame (all [rd .enable, rd .links])]),
    opt (all [only c (rd .closed), opt (closeConnection c)])]

/-- Up the chain: the processors (an Echo sends back; proc_heartbeat.go:112-136; proc_stat_counter.go:79-93, 109-143;
proc_frame_decoder.go:57-190) and the UpperDeck (proc_upperdeck.go:83-93, 105-120).  In any order and number: a FrameDecoder goes on when a
message has been delivered. -/
def up (c : Bool) : C :=
  all [.star (one [
      feature F .codec (all [rd .enable, rd .links, opt (down F c)]),
      feature F .heartbeat (all [rd .links, opt (locked .heartbeat [wr .monitors])]),
      feature F .stat (rd .links),
      feature F .stat (all [rd .enable, opt (increment .rxCounter), rd .links]),
      feature F .stat (all [rd .enable, rd .links, rd .mtu, rd .links, rd .overhead, rd .txCounter, rd .rxCounter, rd .links, rd .stackName, rd .links, down F c]),
      feature F .frame (all [rd .enable, .star (one [rd .cache, wr .cache, rd .links])]),
      feature F .frame (one [rd .cache, wr .cache, rd .links]),
      locked .upperDeck [rd .served, .star (rd .session)]])]

/-! ## Transports -/

/-- `Run` of `t` (tran_tcp.go:253-272, tran_unix.go:261-280). -/
def runTransport : C :=
  locked .transport [rd .isRunning, opt (all [wr .isRunning, wr .retry, rd .retry, wr .connections, wr .next, one [go .accept, go .connect]])]

/-- `Stop` of `t` (tran_tcp.go:275-295, tran_unix.go:283-303). -/
def stopTransport : C :=
  locked .transport [rd .isRunning, opt (all [rd .listener, opt (all [rd .listener, wr .listener]), rd .next, rd .connections, opt (wr .closed),
    wr .isRunning])]

/-- `NextConnection` of `t` (tran_tcp.go:246-250, tran_unix.go:254-258) with `saveConnection`. -/
def nextConnection : C := all [rd .next, opt (locked .transport [rd .connections, opt (all [rd .connections, wr .connections])])]

/-- `acceptTransport` (proc_lowerdeck.go:35-90). -/
def acceptTransport (t : Bool) : C := all [only t runTransport, go (.next t)]

/-- `Run` of `r` (tran_reference.go:234-261). -/
def runReference : C :=
  locked .reference [rd .refRunning, wr .refSize, locked .channels [rd .channels, opt (all [rd .refSize, wr .channels]), wr .channels]]

/-- `Stop` of `r` (tran_reference.go:264-289). -/
def stopReference : C := locked .reference [rd .refRunning]

def acceptReference : C := all [runReference, go .refNext]

/-! ## Endpoints -/

/-- `acceptEndpoint` (proc_upperdeck.go:31-68) with `existsEndpoint` (18-28). -/
def acceptEndpoint : C :=
  all [locked .upperDeck [rd .served, .star (rd .session)],
    opt (locked .upperDeck [wr .served, opt (rd .session), rd .links, go .service])]

/-- `deleteEndpoint` (proc_upperdeck.go:71-81). -/
def deleteEndpoint : C := locked .upperDeck [rd .served, opt (wr .served)]

/-! ## The goroutines -/

/-- A new connection is announced to all processors, then read. -/
def announce (c : Bool) : C := all [rd .links, publish .skip (.star (onNewConnection F c)) .skip, go (.reader c)]

/-- What the functions started with `go` do. -/
def body : Fun → C
  | .accept => all [wr .listener, .star (all [rd .listener, rd .next]), rd .listener, stopTransport]
  | .connect => all [.star (rd .retry), one [rd .next, stopTransport]]
  | .next t => all [.star (all [only t nextConnection, one [announce F t, announce F false]]), only t nextConnection]
  | .refNext => .star (all [wr .refConnection, rd .refConnection, one [announce F true, announce F false]])
  | .reader c => all [.star (all [opt (all [rd .links, rd .mtu]), only c (rd .closed), rd .links, up F c]), opt (all [rd .links, rd .mtu]),
      only c (opt (rd .closed)), closeConnection c]
  | .service => .star (all [rd .served, one [down F true, down F false]])
  | .beat c => all [.star (all [only c (rd .closed), rd .links, rd .mtu, rd .links, rd .overhead, rd .links, down F c]), only c (rd .closed),
      locked .heartbeat [rd .monitors, opt (wr .monitors)]]
  | .check => .star (locked .heartbeat [rd .monitors, .star (all [rd .heartbeatConf, opt (all [wr .monitors, rd .heartbeatConf, opt (wr .closed), rd .links,
      publish .skip .skip .skip])])])
  | .ask c => .star (all [only c (rd .closed), rd .links, rd .mtu, rd .links, rd .overhead, rd .links, down F c])
  | .autoReceive => all [rd .dataListener, opt (all [wr .inAutoReceive, .star (all [rd .dataListener, rd .dataListener]), opt (all [rd .dataListener, wr .inAutoReceive])])]

/-! ## The main goroutine -/

/-- Before Run: AddEndPoint, AppendDataProcessor, AddTransport, SetEventListener, SetOption, SetName, SetEnable, SetSession and the
endpoint's SetEventListener, in any order and number. -/
def setUp : C :=
  .star (one [
    all [rd .endpoints, opt (all [publish .skip .skip .skip, rd .endpoints, wr .endpoints])],
    all [rd .processors, wr .processors],
    all [rd .transports, opt (all [publish .skip .skip .skip, rd .transports, wr .transports])],
    all [rd .listeners, wr .listeners],
    wr .options, wr .stackName, wr .enable, wr .session, wr .eventListener])

/-- `SetDataListener` (endp_default.go:115-121). -/
def setDataListener : C := all [wr .dataListener, rd .inAutoReceive, opt (go .autoReceive)]

/-- `build` (ustack_default.go:120-146). -/
def build : C :=
  all [rd .options, wr .mtu, wr .decks, wr .links, rd .processors, wr .links, .star (all [rd .processors, wr .links]),
    .star (all [rd .processors, wr .links, increment .overhead])]

/-- The `Run` of the processors (proc_heartbeat.go:174-201, proc_stat_counter.go:172-179, proc_frame_decoder.go:193-205). -/
def runProcessors : C :=
  all [rd .processors,
    feature F .heartbeat (all [rd .heartbeatConf, wr .heartbeatConf, go .check]),
    feature F .stat (all [rd .statConf, wr .statConf]),
    feature F .frame (all [rd .links, rd .mtu, wr .cache])]

/-- `Run` (ustack_default.go:329-345) up to the LowerDeck; `UpperDeck.Run`: proc_upperdeck.go:137-143. -/
def runUpper : C := all [build, rd .decks, rd .links, rd .endpoints, .star acceptEndpoint, runProcessors F, rd .decks, rd .links, rd .transports]

/-- `Run` with `LowerDeck.Run` (proc_lowerdeck.go:138-144): every transport once. -/
def run : C :=
  all [runUpper F, .star (acceptTransport false),
    .alt (all [opt (acceptTransport true), .star (acceptTransport false), feature F .reference acceptReference])
      (all [feature F .reference acceptReference, .star (acceptTransport false), opt (acceptTransport true)]),
    .star (acceptTransport false)]

/-- After Run: GetMTU, GetOverhead, GetEndPoint, GetTransport (ustack_default.go:236-238, 247-254, 298-300) and what the features say. -/
def later : C :=
  .star (one [rd .mtu, rd .overhead, rd .endpoints, rd .transports,
    feature F .changeEndPoints (all [rd .endpoints, opt (all [publish acceptEndpoint .skip .skip, rd .endpoints, wr .endpoints])]),
    feature F .changeEndPoints (all [rd .endpoints, opt (all [publish deleteEndpoint .skip .skip, rd .endpoints, wr .endpoints])]),
    feature F .changeTransports (all [rd .transports, publish .skip .skip (acceptTransport true), rd .transports, wr .transports]),
    feature F .changeTransports (all [rd .transports, publish .skip .skip (acceptTransport false), rd .transports, wr .transports]),
    feature F .changeTransports (all [rd .transports, wr .transports, publish .skip .skip (opt stopTransport)]),
    feature F .changeTransports (feature F .reference (all [rd .transports, publish .skip .skip acceptReference, rd .transports, wr .transports])),
    feature F .changeTransports (feature F .reference (all [rd .transports, wr .transports, publish .skip .skip stopReference])),
    feature F .setEnable (wr .enable),
    feature F .setStackName (wr .stackName),
    feature F .setEventListener (all [rd .listeners, wr .listeners]),
    feature F .appendProcessor (all [rd .processors, wr .processors]),
    feature F .setSession (wr .session),
    feature F .setEndPointListener (wr .eventListener),
    feature F .setDataListenerAgain setDataListener])

def mainFun : C := all [setUp, opt setDataListener, setUp, run F, later F]

end

/-! ## The claim -/

/-- Two goroutines may be about to access the field, one of them writing. -/
def RacyField (F : Feature → Bool) (l : Field) : Prop := Racy (body F) (mainFun F) l

/-- The fields for which this is so. -/
def conflicts (F : Feature → Bool) : Field → Bool
  | .served => true
  | .closed => true
  | .txCounter => F .stat
  | .rxCounter => F .stat
  | .cache => F .frame
  | .endpoints => F .changeEndPoints
  | .next => F .changeTransports
  | .listener => F .changeTransports
  | .retry => F .changeTransports
  | .refConnection => F .reference && F .changeTransports
  | .listeners => F .setEventListener
  | .processors => F .appendProcessor
  | .enable => F .setEnable && (F .codec || F .stat || F .frame)
  | .stackName => F .setStackName && F .stat
  | .session => F .setSession
  | .eventListener => F .setEndPointListener
  | .dataListener => F .setDataListenerAgain
  | .inAutoReceive => F .setDataListenerAgain
  | _ => false

end Verif.Access
