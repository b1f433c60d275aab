# Formal model of guolinp/ustack in Lean 4

`/repo` (Go) is read as text; nothing in it is built or run. `/verif/lean` contains the model, the
specifications and the proofs. `/verif/properties.jsonl` lists the properties (C01...),
`/verif/MANIFEST.json` maps each to theorem names, `/verif/seeded/LOG.jsonl` records the tests of the
theorems against wrong programs.

## Trusted base

* Lean 4.33.0's kernel. The axioms used are at most `propext`, `Classical.choice`, `Quot.sound`, per
  theorem in the last section. No axiom of our own, no `sorry`, no `native_decide`/`bv_decide`.
* The reading of the Go code: every model definition cites the file and lines it models.
  `Verif/UBuf/Conform.lean` runs the repository's own `ubuf_test.go` on the model of UBuf (a test of the
  model, not a proof of a property).
* The Go language facts baked into the model (`Verif/Go.lean` and the module comments): slice and index
  bounds checks panic, `copy` copies `min` lengths, `append` writes in place when the capacity allows, a
  nil function or interface call panics, channels are FIFO and bounded, a send on a closed channel panics, a
  receive from a closed drained channel yields the zero value, a nil channel blocks for ever, maps are
  finite maps whose concurrent read and write ends the process, `uint32(x)`/`uint64` arithmetic wraps,
  deferred calls run on return.
* Standard-library facts used: `binary.Read/Write` of a fixed-size integer = one `io.ReadFull` /
  one `Write` of its bytes; `io.CopyN(dst, src, n)` = `dst.ReadFrom(LimitedReader{src, n})` when
  `dst` has `ReadFrom`; `json`/`gob` are parameters (arbitrary functions), except that for C100 the way `encoding/gob` fetches its bytes is modelled after its
  published source (not in the sandbox): a `UBuf` has `ReadByte`, so it is read directly; count, body and type loop as in `UBuf/Gob.lean`; `io.ReadFull` and `io.ReadAll` as in `UBuf/Reader.lean`; closing a Unix listener unlinks its path.

## Modelled / not modelled

| Go file | Lean module | Not modelled |
|---|---|---|
| `ubuf.go` | `UBuf.Model` (every method), `UBuf.Snapshot`, `UBuf.Mixed` (worlds of buffers), `UBuf.Reader` and `UBuf.Gob` (standard readers on a buffer), `UBuf.Conc` (interleaved copy-on-write) | `String`-like printing |
| `proc_codec_*.go`, `proc_session_resolver.go`, `proc_frame_decoder.go`, `proc_heartbeat.go` (data), `proc_stat_counter.go`, `proc_load_balancer.go`, `proc_filter.go`, `proc_forwarder.go`, `proc_discarder.go`, `proc_echo.go`, `proc_loopback.go`, `proc_flow_controller.go`, `proc_base.go` | `Stack.Model` (every `OnUpperData`/`OnLowerData`/`OnEvent`), interpreter `call` with an explicit call depth; `SetEnable` in `Stack.Switch` | printing; the JSON/gob encodings |
| `proc_frame_decoder.go` under several goroutines | `Stack.FrameRace` | byte-wise tearing of `copy` |
| `proc_lowerdeck.go` | `Stack.Model` (write path, receive loop), `Conn.Close`, `Conn.Accept`, `Conn.Backpressure`, `Conn.Pipeline`, `Conn.Peers`, `Conn.Shut`, `Conn.Service`, `Conn.Retire`, `Conn.Rejoin`, `Conn.Forget` | |
| `proc_upperdeck.go` | `Stack.Model` (routing), `Reg.Model` (served set), `Reg.Serve` (service goroutine), `Reg.Race`, `Reg.MapRace` | |
| `ustack_default.go`, `ustack.go` | `Reg.Model` (registries over real slices, events, build, Run), `Reg.Build`, `Reg.Reentrant`, `Reg.Publish`, `Reg.Callers`, `Reg.Broadcast` (concurrent calls), `Program` (registries and data path together) | |
| `endp_default.go` | `Reg.Listener`, `Reg.Options` (data accessors), `Reg.Model` | |
| `utils.go`, option maps | `Reg.Options` | |
| `proc_heartbeat.go` (monitor) | `Conn.Heartbeat` (checks at arbitrary times), `Conn.Timed` (clock, sleeping goroutines, delays), `Conn.LostLock` (the mutex), `Conn.Forget` | |
| `tran_reference.go` | `Conn.Reference`, `Conn.Shut`, `Conn.Rejoin` | |
| `tran_tcp.go`, `tran_unix.go` | `Conn.Stream`, `Conn.Shut`, `Conn.SocketFile`, `Conn.Retire`, `Conn.Forget` | the OS network stack: read, write, dial, accept results are arbitrary |
| `feat_base.go`, `feature.go` | `Reg.Options` (options), `Reg.Fluent` (setters, `where`) | |
| `examples/` | `Examples` (the calls each program makes, `Program`), `Conn.Dynamic` (counting connections), `Conn.AppSession`, `Conn.Startup` | addresses, printing, sleeping, `os.Exit` |
| who accesses which field, all files | `Access.Program` | values; the fields named there |

Everywhere: `fmt.Println` output, memory exhaustion and the Go memory model's weak behaviour under data races are left out
(shared accesses are interleaved atomically, which gives the races found here but not all of them). Go `int` indices bounded by
a capacity are `Nat`; `refCount` is an unbounded `Int`. User callbacks only observe, except in `Reg.Reentrant`, where they are
arbitrary functions of the history, and for filter/forward/codec functions, which are arbitrary.

## Method

* Data movement: a state monad with panics, `GoM σ α := σ → Res α × σ`. The heap-level `UBuf` is refined to a bounded byte
  deque (`UBuf.Spec`, `UBuf.Refine`); processors and chains are reasoned about on that level. Chains are lists of processors of any
  length; proofs are by induction over the list, the call depth, or the list of reads. The call depth is only a bound: a call that has come to an
  end has the same result for every larger depth (`Stack.call_mono`).
* Registries: slices with shared backing arrays (`Reg.Slice`) refined to ordered sets, for every history of calls.
* Goroutines: labelled transition systems (`Trace`), one label per atomic action, `exec step s labels`; theorems quantify over every
  list of labels, by inductive invariants. Accesses to fields and mutexes (C105, C106) are words of a small language with a verified analysis (`Access.Basic`). Counterexamples are concrete schedules, or families of them.
* A property the code violates is kept in full in `properties.jsonl`; its violation is proved (`_violated` and similar names), and the part
  that holds is proved with the suffix `_partial` and an explicit restriction. "violated" in the table means a proved counterexample.
* Each theorem has a neighbouring `example` (or a witness theorem) that meets its hypotheses.

## Properties: model, proof, status

| Id | Title | Modelled in | Status | How proved / what is missing |
|---|---|---|---|---|
| C01 | Buffer lengths always add up | UBuf | proved | Invariant over every operation sequence. |
| C02 | Buffer behaves as a bounded byte deque | UBuf | proved | Refinement to a bounded deque, every operation and every history. refinement of every method to a bounded byte deque |
| C03 | Allocated buffers never panic; bad allocations always do | UBuf | proved | No-panic by refinement; exact condition for allocation. |
| C04 | Fixed-width integers round-trip in both byte orders | UBuf | proved | For all values and widths, both byte orders. |
| C05 | Header integers written at the head are read back first | UBuf | proved | Induction over the list of headers. |
| C06 | Peeking never consumes | UBuf | partial | Refinement; the exact cases from the deque. violated by empty buffers: Peek fails where Read returns (0, nil); the bytes always agree, and whether the call fails agrees iff the buffer is not empty. Peeking has no later effect in any state. Errors are compared by presence (their texts differ). |
| C07 | Failed fixed-size operations change nothing | UBuf | partial | Refinement, operation by operation; `short_iff` compares with the room and data a call needs. a failed call never changes anything; it fails exactly when room or data is short, with two exceptions: Peek of zero bytes of an empty buffer and WriteHeadBytes of an empty slice when the data starts at the end of the storage |
| C08 | Bulk Write/Read transfer the longest possible prefix | UBuf | partial | Refinement; the exact case by arithmetic; FIFO by induction over the history. one exception: an empty Write into a full buffer reports an error although it is not short |
| C09 | ReadFrom and WriteTo move exactly what the peer accepted | UBuf | partial | Arbitrary reader/writer oracles. violated when the reader/writer returns n>0 together with an error: bytes lost (ReadFrom) or offered again (WriteTo); proved for error-free calls. Exactly which results keep the bytes is proved (iff). |
| C10 | Copy-on-write snapshots are isolated | UBuf | partial | World of buffers over a shared heap, refinement to independent deques. `c10_exact`: the weakest condition on the head writes of a history under which the buffers stay isolated. violated: a head write on a shared copy-on-write buffer panics or loses the readable data; proved for every family and history in which head writes happen only on unshared buffers; c10_exact says exactly which histories keep the buffers isolated |
| C11 | CopyDirectly snapshots are isolated and equal | UBuf | proved | World refinement. |
| C12 | Reference snapshots share bytes but not positions | UBuf | proved | World refinement. |
| C13 | Wrapping a user slice keeps every access inside the slice | UBuf | partial | violated for slices with len < cap (panic / short write); proved for len = cap. A wrapped slice acts as a deque iff len = cap. |
| C14 | Copy-on-write is safe under concurrent writers | UBuf.Conc | partial | Interleaving system at load/decrement/copy/write granularity. violated: the count is dropped before the copy, so Reset+write of the other goroutine can overwrite bytes being copied; proved for any number of goroutines that never Reset, and with Reset exactly (iff) when there is one snapshot, an empty message, one that fills the block, or one before the place Reset goes back to |
| C15 | Bytes codec round trip | Stack | proved | Arbitrary neighbours (continuations). |
| C16 | String codec round trip | Stack | proved | Arbitrary neighbours. |
| C17 | User-supplied, JSON and gob codecs round-trip if their encoder does | Stack | proved | Arbitrary encoder/decoder pair. |
| C18 | Messages are never sent truncated | Stack | partial | violated when the overhead exceeds the MTU: sending panics; proved for 0 <= overhead <= MTU. Exact: iff the overhead fits the MTU. |
| C19 | Session number survives the wire | Stack | proved | All 32-bit sessions. head room of 4 is provided by C20 |
| C20 | Reserved head room always suffices for a message created in the stack | Stack | partial | Induction over the chain; `c20_exact`: for every chain, what a send puts on the wire. proved for every order and multiplicity of processors below one codec; violated with a second enabled codec below (it re-encodes, the headers between are lost). c20_exact: whatever the chain, a send writes nothing, or exactly the headers below the LOWEST enabled codec followed by its encoding. |
| C21 | End-to-end delivery through any matching pair of stacks | Stack | partial | Wrap/unwrap induction over the chain; `c21_exact`: exactly which chains and messages are delivered. proved for every chain with one enabled codec, silent processors above, any header/transparent processors below; violated for the named compositions. c21_exact: delivered iff the chain has that shape, for every chain without generic/gob codec and without user filter functions. |
| C22 | Coalesced frames are all delivered in order | Stack | proved | Induction over the payload list. any list of non-empty payloads (stream shorter than 2^32 bytes), any layer above; cache idle |
| C23 | Framing is independent of how the stream is split | Stack | partial | the code violates the property for reads that end inside a frame (proved); exact characterisation for an idle decoder: the payloads arrive if and only if every read ends at a frame boundary |
| C24 | No peer input can crash the frame decoder | Stack | partial | the code violates the property: four zero bytes panic (proved for every continuation); c24_exact: reads on any connections crash an idle decoder if and only if one of them consists of whole frames followed by four zero bytes, and no earlier read has jammed the cache; termination, conservation and 'only zero headers panic' are proved for every input |
| C25 | Control messages are invisible to the application and vice versa | Stack | partial | violated: a disabled StatCounter hands control messages up, an enabled LoadBalancer takes application messages for control messages; proved for Heartbeat and for enabled StatCounter receivers. Exact for StatCounter: iff enabled. |
| C26 | Statistics count exactly the application messages | Stack | partial | Handler lemmas for one StatCounter, induction over histories of sends and receives, with a second induction that also admits reference connections and compares with what should have been counted; the report by composing the writes of `response` with the reads of `show` on the deque level, for every name, MTU and overhead. violated on reference connections (not counted); proved for every history on byte connections; for histories on both kinds of connections the counters are right iff no message passed on a reference connection while enabled (c26_iff); what a report shows is proved exactly (c26_report_exact), it is complete iff the name has at most 128 bytes and fits the MTU |
| C27 | Disabled processors are transparent | Stack | partial | violated by Heartbeat, StatCounter, LoadBalancer, Loopback; proved for all other processors. Exact: which processors are transparent when disabled. |
| C28 | Echo returns what it received | Stack | partial | Induction over the processors below the Echo: the way up removes one header per processor and keeps the head room it frees, the way down writes the same headers back; never passing up by an invariant of the interpreter for all call depths. `c28_exact`: every read either stops at a processor or loses a prefix of the header's length; comparing the prefixes with the headers written on the way down gives the iff. never passing up is proved for every chain; the bytes come back equal over every chain of session resolvers, counters, transparent processors; violated over FrameDecoder (the length header is lost), enabled LoadBalancer and Heartbeat/LoadBalancer tags; without FrameDecoders and enabled StatCounters below, the exact condition: a read comes back iff no LoadBalancer below is enabled and the read has the headers those processors write, with one session |
| C29 | Loopback returns messages to the sending stack | Stack | partial | The descent stops at a processor or reaches the Loopback with headers written (`fall`, `segment_down`); the ascent is read backwards (`up_exact`): `c29_exact` is an iff for every chain above the topmost Loopback. Nothing below is reached by an invariant of the interpreter. Exact condition (c29_exact, iff) on the processors above the topmost Loopback, the message and the session for the message to come back, once and equal, with nothing else observable; nothing below a Loopback is ever reached: proved for every chain; delivery proved for every order of header processors between codec and Loopback; violated with an enabled LoadBalancer above the Loopback |
| C30 | Discarder drops all and only received data | Stack | proved | at chain level: nothing entering below an enabled Discarder is delivered, in any chain |
| C31 | Filter passes exactly what a filter function accepts | Stack | partial | violated: NewFilter puts a nil function first, so every enabled Filter panics; the decision logic is proved for lists without it. Exact: when it panics. |
| C32 | Forwarder diverts exactly what a forward function accepts | Stack | partial | violated: NewForwarder puts a nil function first; the decision logic is proved for lists without it. Exact: when it panics. |
| C33 | Load-balanced application traffic gets through | Stack | partial | violated: with both sides enabled everything is lost; proved delivered in all other settings. Exact: delivered iff not both enabled. |
| C34 | Reference connections carry the message object itself | Stack | partial | Case analysis per processor kind lifted to chains by induction; `c34_send_iff` decides for every chain of library processors whether a sent object is set on the connection; `c34_receive_iff` decides for every chain without enabled Filter/Forwarder whether a received object reaches the UpperDeck. exactly when a sent object is set on the connection (c34_send_iff) and a received one is handed up (c34_receive_iff), together end to end (c34_exact); proved for chains whose processors let references pass; violated: enabled codecs and SessionResolver drop references, the destination session is not carried, FrameDecoder calls the wrong neighbour |
| C35 | Every send terminates | Stack | partial | the code violates the property (Echo above Loopback, FrameDecoder on reference connections). Without an enabled Echo above a Loopback, with byte connections or without FrameDecoder, and (if a StatCounter stands above a Loopback) without FrameDecoder or user function between the two, every history of events is proved to be processed with bounded nesting. For an Echo, processors that open their own header, and a Loopback: a message never returns iff no LoadBalancer between them is enabled (c35_swing_exact, c35_send_swing_exact). Not covered: an enabled FrameDecoder or a user function between a StatCounter and a Loopback. |
| C36 | Received messages reach exactly the endpoint of their session | Stack | proved | Routing for arbitrary served sets. for distinct served sessions (C37) |
| C37 | At most one served endpoint per session | Reg, Reg.Race | partial | Invariant of the stack object over all histories, on services read off the log; `c37_exact` by induction on the history from the end: while every `Run` found nobody alive, only the current deck serves and only registered endpoints, so a `Run` beside a live goroutine doubles its session. Exact condition (c37_exact): as long as session numbers are changed only while an endpoint is not served, the sessions served differ after every call iff every Run finds no service goroutine alive; every renumbering of a served endpoint can be continued to a violation (c37_renumbering_violated). For every history of calls with fixed session numbers and at most one Run, the live service goroutines (read off the observable log) are for different endpoints and sessions; for one deck also with any number of Runs. The code violates the full statement: a second Run serves every endpoint twice, and SetSession on a served endpoint lets another endpoint in under the number its goroutine still uses; and the test and the registration in UpperDeck are not atomic, so concurrent additions of endpoints with one session can all be served. |
| C38 | Registered endpoints are exactly the served endpoints | Reg | partial | As C37; while the registered sessions differ, the current deck serves the registered endpoints in order. Exact condition (c38_exact): the endpoints served are those registered after every call from the first Run on iff the registered endpoints have different session numbers from then on and no later Run finds an endpoint registered. With one Run, fixed and different session numbers, the endpoints served are exactly those registered, in the same order, for every history; without the assumption on sessions only registered endpoints are served. Violated by the code for two endpoints with the same session and after a second Run. |
| C39 | Adding and deleting endpoints/transports is set-like | Reg | proved | Refinement of slices to ordered sets over all histories. Refinement of the slice operations (with shared backing arrays) to ordered sets, for every history of all calls. |
| C40 | Add/delete events are published exactly once per effective change | Reg | proved | Per call, and per listener/endpoint over whole histories. Listeners only observe. |
| C41 | A deleted endpoint is no longer served | Reg.Serve | partial | Violated: if the service goroutine is not waiting in its select when the endpoint is deleted (or picks the data branch), it later waits on a nil stop channel and serves the endpoint for ever; proved when the goroutine takes the stop signal before data arrives. Exact for one goroutine: it ends iff its first action after the deletion is to take the stop signal. |
| C42 | Endpoint data is forwarded in order, once, with the right session | Reg.Serve | proved | Invariant over all schedules. Every schedule of adds, deletes, session changes, pushes and goroutine steps; exactly once for any number of goroutines, in order for one. |
| C43 | Data listener receives every message once, in order | Reg.Listener | partial | Interleaving system with one step per access to a shared field; invariants over all schedules, and for each clause an iff on the state (invariant one way, a constructed schedule the other). Every schedule of SetDataListener, pushes and goroutine steps: nothing delivered twice, and everything accounted for; in order and exactly once while the listener stays set and one goroutine runs. Violated: an item taken after the listener was removed is dropped, two goroutines lose the order, a nil listener is called, a wake-up is lost. For each clause the exact (iff) condition on the state is proved. |
| C44 | Slices returned by getters are stable snapshots | Reg | partial | Registries over real Go slices (backing array, length, capacity); a list handed out earlier is a window of the backing array, `deleteAt` shifts inside it, `append` writes behind it or moves away. Exact for whole histories: a list handed out earlier is still what it was iff no deletion shifted a part of the array it still shares (c44_exact). Stable under all calls but deletions; the exact content after a deletion; the code violates the statement for deletions (in-place append). |
| C45 | Overhead and MTU reported by a running stack | Reg | partial | MTU for any number of Runs; overhead for one Run; after k Runs the overhead is k times the sum (violation). Exact: after k Runs right iff k = 1 or the sum is 0. |
| C46 | The chain is wired in append order | Reg | proved | Induction over the processor list. For every history with distinct processors, any number of earlier Runs and any later calls. |
| C47 | Options are last-write-wins and typed | Reg.Options | proved | Every history of SetOption/GetOption/Run. |
| C48 | Each received chunk is passed up once, in order, and loss of the connection is reported | Stack | partial | Every finite sequence of read results: exactly the bytes read before the end are handed up, in order. Violated: bytes returned together with an error are dropped, and a non-positive MTU panics. Exact: which read results lose bytes. |
| C49 | ConnectionClosed is published exactly once per connection | Conn.Close | partial | Every schedule of readers and writers: exactly one report without failing writes, in general one per failing write plus one (c49_count), so exactly one if and only if no write fails (c49_exact); violated: more than one ConnectionClosed event. |
| C50 | Failed writes are reported | Stack | partial | Every outcome of the write; violated: a write on a connection closed elsewhere reports success and loses the data. Exact: when success is reported falsely. |
| C51 | Heartbeat loss detection | Conn.Heartbeat | proved | Exact characterisation of one check; whole histories by induction. |
| C52 | A connection with timely heartbeats is never declared lost | Conn.Heartbeat | proved | Timed-history invariant. Infinite histories (`Conn/HeartbeatForever.lean`): the entry of a silent connection stays until a check comes at or after the timeout, and is gone from then on. Every sequence of beats, checks and closes; c52_forever and c52_again: infinite histories. |
| C53 | Reference transport delivers objects exactly once in order | Conn.Reference | proved | Ghost history of both ends, invariant over all schedules. Every interleaving of all calls on any number of transports and connections, per channel and direction. |
| C54 | Stopping a reference transport closes its connection and releases the address | Conn.Reference | partial | Violated: Run never sets isRunning, so Stop never does anything (proved for every history); the unreachable body of Stop would be right. |
| C55 | Run of a reference transport is idempotent | Conn.Reference | partial | Violated: a second Run makes a second connection, or waits for ever holding the global mutex. c55_exact: it returns if and only if every connection made by the earlier Runs was taken, and when it returns there always is one more connection. |
| C56 | A client transport dials at most MaxRetryCount times and yields at most one connection | Conn.Stream | partial | Every interleaving, every retry limit, every sequence of dial results: per Run at most MaxRetryCount dials and at most one connection, exactly one after a successful dial, otherwise (single Run) the transport stops and NextConnection returns nil. Violated across a restart: the goroutine of a stopped run goes on and its connection lands in the next run. Exact: no run yields more than one connection iff Run waits for earlier goroutines to end, or the transport never dials (c56_exact). The channel of a run without a successful dial is always closed in the end (c56_closed). |
| C57 | Run/Stop of a stream transport | Conn.Stream | partial | Every interleaving: Stop itself never crashes (Unix sockets; TCP if nil was not saved), closes all saved connections, unblocks callers, is idempotent; Run on a running transport is a no-op. Violated: crashes in the accept/connect goroutines and (TCP) in Stop, connections left open, left-over connections handed out after Stop. Exact: which transports cannot crash (c57_crash_exact), which calls on a stopped transport return nil (c57_nil_iff), which connections are closed (c57_closed_exact: those saved while the transport is running). |
| C58 | Endpoint data accessors | Reg.Options | proved | Every history of stores on a context. |
| C59 | Re-running a stack | Reg | partial | c59_exact: exactly (iff) after which histories a further Run changes nothing: overheads summing up to zero, the option standing for the same MTU, no endpoint registered. MTU and registries are kept; overhead is added again and every endpoint is served again (violation). |
| C60 | A conversation arrives complete and in order | Stack | proved | Induction over the conversation, on top of C21-C23. cut at message boundaries; other cuts are C23 and C103 |
| C61 | Processing data never changes the configuration | Stack | proved | Frame condition by induction over the call depth. |
| C62 | A closed connection is never declared lost | Conn.Heartbeat | partial | Transition system of the monitor per connection; every history is summarised by the last heartbeat and whether the connection ended before it. Exactly which histories declare a closed connection lost (c62_exact). Holds for every history in which no heartbeat of the connection arrives after its end; violated in general: a late heartbeat starts monitoring again and the connection is declared lost once more. |
| C63 | Counters count | Conn.Counter | partial | Every interleaving: never more than the messages counted, never 0 after one; exact if increments do not overlap, in particular with one goroutine. Violated: k goroutines, one message each, counter 1, for every k; the counter goes back by any amount. Exact: the counter is right iff no store falls between load and store of another increment. |
| C64 | A slow reader loses nothing and holds up nobody else | Conn.Backpressure | partial | Interleaving system of receive goroutines, bounded channels and users; the room a channel still needs is monotone while its user takes nothing, which gives the iff. Every interleaving: exactly once, in order, bounded, no deadlock, drained as long as the users concerned take messages. Violated: a full channel of one endpoint keeps the later messages of the same connection from all other endpoints. c64_exact: exactly (iff) which users must take messages for the first k messages to be delivered. |
| C65 | A waiting Unix transport can be dialled | Conn.SocketFile | partial | Exact: the file leads to a listener iff nobody has removed it since it was made. Holds for every interleaving if Run is called again only after the earlier accept goroutine has returned. Violated: the old goroutine's deferred os.Remove deletes the new run's file; Run, Stop, Run can end the process in log.Fatal; Stop between two Accepts dereferences nil. |
| C66 | Every observer sees the life of a connection in the same order | Conn.Accept | partial | Every interleaving: announced once to every observer, data only after the announcement; c66_exact: exactly which targets see the end after the beginning (those not called after a Heartbeat), at most once (no Heartbeat), and all events in one order (a single target). Violated: observers see events of different goroutines in different orders, the end may be seen before the announcement and more than once. |
| C67 | The endpoint map is never accessed concurrently | Reg.MapRace | partial | Exact characterisation: a conflicting access is possible iff there is a service goroutine and somebody adds or deletes an endpoint. |
| C68 | Listeners may add and delete | Reg.Reentrant | partial | Exact, for all listeners: every call and every call nested in it does what it should iff the listeners, when told, neither register what is being added nor move what is being deleted (c68_exact). Holds for deletion of transports with listeners deleting transports, for adding endpoints with listeners adding endpoints of lower rank, for deleting an endpoint with listeners only adding. Violated otherwise: infinite recursion, double registration, wrong endpoint removed, panic. |
| C69 | Chained setters configure the object they start from | Reg.Fluent | partial | Holds for every chain on the processors (their constructors call SetWhere). On NewProcBase and NewFeatBase it holds exactly for the empty chain. Violated, with the exact effect of every chain, for NewProcBase and NewFeatBase: where points to the constructor's local variable, so the chain continues on a hidden copy. |
| C70 | An event reaches every endpoint once although listeners add and delete | Reg.Publish | partial | The loop of `PublishEvent` over the live slice with user callbacks changing the registry in between; closed form of the sequence of receivers for one deletion at any position. Holds if listeners only add. Exactly when it holds for one deletion, and the exact sequence of receivers for one deletion at any position; violated: an endpoint that deletes itself makes the next one miss the event and the last one get it twice. |
| C71 | A connection is closed only for a reason | Stack | partial | A relation between worlds lifted to the whole chain by induction over the call depth (`call_keeps`); the reference part along a segment. Proved for byte connections on every chain. On reference connections sending closes iff the object is nil, but the control messages of Heartbeat and StatCounter carry no object, so the first one closes a healthy reference connection (proved for every such chain). |
| C72 | Work for one connection touches only that connection | Stack | proved | Contexts and worlds restricted to one connection, closed under every handler, by induction over the call depth (`call_within`); induction over the events. |
| C73 | Frame decoding of a connection depends only on that connection | Stack | partial | Invariant of the cache (empty or stuck) over all reads. No bytes of one connection are ever handed up for another, for any reads. Not affected holds for reads at frame boundaries; violated otherwise: one connection can fill the shared cache with an incomplete frame, then nothing is handed up for any connection any more. c73_exact: a later frame is handed up if and only if no read so far ended in the beginning of a frame at least as long as the cache. |
| C74 | A network of stacks | Stack | partial | Transition system of worlds and byte queues; invariant per connection (what was sent = seen ++ on the way), each step by the lemmas for C20 and C22. For reads of one to three bytes: the decoder's cache refuses a piece smaller than its room, so the stack is unchanged while the bytes are gone (`NetCut`). Which cuts are survived (`NetExact`): every node of an execution is a server in the sense of C103 (`net_flow`: its world is the result of its own reads and sends); if no read makes a node write (proved for stacks without StatCounter) the streams are the packets sent, and the byte count of C103 applies to every node. For reads that return whole packets (several at once with a FrameDecoder at the bottom). Violated for reads that cut packets: in every network with a FrameDecoder at the bottom, whatever is sent and then read one to three bytes at a time is taken from the connection and nothing of it is ever seen. Exact for networks whose stacks have the codec for byte slices or strings and one FrameDecoder, at the bottom, or none, in executions in which no read is answered (always so without StatCounter, statless_unanswered): if everything was read, all packets are seen, in order and on their connections, if and only if every read took whole packets, without FrameDecoder exactly one (c74_exact). |
| C75 | Programs deliver to the endpoints they registered | Program | partial | The data path of a stack object is defined from its links, registries and numbers; C46, C45, C38/C39 determine these for every program, then C20/C21/C74 apply; the converse for cut reads (`ExampleCuts`) is C74's. The data path of a program and when Run gets through: exact. Delivery under the restrictions of C21 and C74 (one enabled codec, messages that fit, reads of whole packets), each shown to be needed there. For networks of programs with the codec for byte slices or strings and one FrameDecoder, at the bottom, or none the condition on reads is exact (c75_network_exact). |
| C76 | The example programs do what they show | Examples | partial | The programs of `/repo/examples` as sequences of calls; instances of C75, C28, C29, C30, C34 for every content; whole runs with any number of clients by C75 for networks (`ExampleRuns`). The exact condition on reads by C74 (`ExampleCuts`). Each example for one message at a time; all examples with an endpoint on each side for any number of clients and whole runs (c76_clients_partial), reads of whole packets; for the examples with the codec for byte slices or strings everything arrives if and only if the reads are whole packets, without FrameDecoder one packet each (c76_clients_exact). The full claim fails for the examples without a FrameDecoder: two messages in one read arrive as one (c76_merged). heartbeat is in C78, statcounter in C77. |
| C77 | Statistics are collected end to end | Stack, Examples | partial | Request, answer and printing as three runs through the chain interpreter, with what each leaves unchanged; the answer's bytes by cases on the room left by the MTU; the counting by carrying exact counters through the lemmas for C20, C21 and C60. For byte connections. What is shown is proved for every MTU that allows the answer to be built; it is right iff the counters and the printed part of the name fit (violated by small MTUs, where counters are shown as 0). With the default MTU right for every name. Reference connections are not counted (C26) and control messages close them (C71). |
| C78 | Heartbeats in real time | Conn.Heartbeat | proved | A timed transition system (clock, sleeping senders, heartbeats on the way, check goroutine) around the monitor of C51; every step is projected to one connection (`step_local`), invariants bound the silence by what is still owed; the converse by constructing the execution for all parameters. Timed executions with explicit bounds for jitter, delay and check slack; the bound is exact. The configuration of examples/heartbeat (interval 10 s, timeouts 3 s and 5 s) is proved to lose every connection. |
| C79 | Requests and answers never get stuck in the channels | Conn.Pipeline | proved | A row of bounded queues as a transition system; invariant: what is under way are the requests less the answers; if no inner goroutine can move, a message in one buffer means all later ones are full; a potential that every step lowers by one bounds the executions. Exact for any row of buffers with positive capacities; the numbers are for message queues (Reference transport). One client, one answer per request. |
| C80 | A client that stops reading does not affect the others | Conn.Service | partial | A transition system with any number of clients; invariant for the order; the stalled state is built for every capacity and shown to be kept by every step but the stalled client's own read; with an Echo every execution projects to each client. Exact: from every reachable state, whether a reading client can still get (c80_may_exact) or is sure to get (c80_must_exact) all its answers while given other clients do not read. Each client gets its own answers in order; nobody waits while all clients read; with an Echo the clients are independent. Violated for servers that answer from an endpoint: one client that does not read stops the endpoint's only service goroutine, then nobody gets an answer any more. |
| C81 | A HeartbeatLost listener may wait for a message | Conn.LostLock | partial | A transition system: check goroutine, receive goroutines, announcements, a listener that may wait under the mutex. The stuck state is kept by every step (invariant); the exact condition to get on is an iff. Infinite executions are in `Conn/LostLockFair.lean`: induction on what is left of the round of checks; strong fairness for receive goroutines, which wait for a mutex. Listeners that return without waiting: the check always comes to its end. Violated: a HeartbeatLost listener that waits for a message which has arrived behind a heartbeat never returns, and no heartbeat, no new connection and no check is processed any more; exactly when (iff). In infinite executions, the scheduler being fair: with any listeners the mutex is given back again and again unless a listener waits for ever for a message that is never there (c81_or); with listeners that do not wait everything that arrives is processed (c81_forever_partial); a stuck listener stays so however fair the scheduler is (c81_never). |
| C82 | A program that counts connections exits when the last one is gone | Conn.Dynamic | partial | The product of any number of `Conn.Close` systems and a counter; every component of an execution is an execution of `Conn.Close` (projection), so its theorems apply. Counting by an invariant. Without failing writes: the program exits exactly when every connection is closed and reported. The counter is always announced minus reported. Violated: a connection whose write fails is reported twice, and the program exits while another connection is open; at exit some connection is unreported if and only if another was reported twice or more (iff). |
| C83 | A session object answers on the connection it reads from | Conn.AppSession | partial | A transition system: accept goroutine, receive goroutines, user; every access to `s.c` is a step. Invariants over all schedules; the third connection's fate by counting the items of `ready`. Every Write goes to an accepted connection, and messages are read in order, for every schedule; with one connection (a client's session) the claim holds. Violated: a connection accepted between a Read and the answer gets the answer (iff), only the first two connections are ever served (iff), the third blocks the accept goroutine for ever. |
| C84 | A listener may use the stack it is registered with | Conn.Startup | partial | A transition system: main goroutine, accept goroutines; the order of assignment and `Run` is a parameter. One invariant ties the state to the schedule. The program panics exactly if a connection is announced before the variable is assigned (iff), which the examples allow; with the assignment before Run no schedule panics. |
| C85 | Connections read at the same time do not disturb each other's frames | Stack.FrameRace | partial | A transition system in which every access to the shared cache by a receive goroutine is a step (`Stack.FrameRace`); an invariant (nothing is ever cached) with a ledger of frames per connection; the pure decoder of one chunk is shown equal to the one of the sequential model. Converse by building, for every such family of chunks, the schedule that fills the cache; the data races by concrete schedules. Holds in every interleaving if the incomplete frame at the end of each chunk is shorter than the cache (always, with the default capacity of twice the MTU) and no frame has length 0. Exactly then (iff, for two or more connections). Violated otherwise: one connection silences all others for ever; by a data race bytes of one connection are handed up as a message of another; by a data race the process panics. |
| C86 | Messages worked on at the same time do not influence each other | Stack | partial | The handlers are cut at their calls into hops, proved equal to the handlers (`Stack.Hop`); a goroutine is a machine with one hop per step, proved to do what the runs of the model do (`Stack.Machine`); two worlds that differ only in counters, closed flags, trace and foreign caches give the same step (`Stack.Concurrent`); by induction over the schedule each goroutine of the interleaved system is where it would be alone (`Stack.Together`). FrameDecoders with more room than a read can bring: every hop keeps every buffer at or below the MTU and every cache empty, so sharing is harmless (`Stack.Tame`). Simplification: a hop is one step. Holds for every interleaving if no StatCounter is asked for its statistics and no two goroutines use the cache of the same FrameDecoder: in particular for any goroutines without FrameDecoder (c86_plain), for one receiving connection and any senders in a stack without Loopback (c86_one_receiver), and for any number of receiving connections and senders if every FrameDecoder's cache has more room than the MTU and is empty at the start (c86_receivers: every cache is empty again between two goroutines' uses, c86_caches_empty). If writes succeed and the runs one by one close nothing, no interleaving closes anything (c86_sure_partial). Violated otherwise: an answer to a statistics request depends on the other goroutines (c86_counted); two connections behind one FrameDecoder whose cache a read can fill lose each other's messages (c86_mixed). The decomposition of the handlers into hops is proved equal to the handlers of the model. |
| C87 | A server under load delivers every message once and keeps packets whole | Stack | proved | Each goroutine alone does what is expected (`receive_packets`, `packet_on_the_wire`, induction over its tasks); together they do the same (`c86_sure_partial` with the modes of `Stack.Tame`), where a simulation argument shows that no step closes a connection that does not do so alone, and an invariant of the machine (`fair_unasked`, `Stack.Unasked`) that whoever reads whole packets never makes a StatCounter answer. Order per connection from permutation and sublist of equal length; the byte stream as concatenation of a permutation of packets; end to end by composing both (`Stack.Server`). For the schedules of the hop machine of C86. The hypotheses (Serves, Task.Ok) are met by the stack and tasks of the examples; a complete schedule exists (server_run). |
| C88 | Two programs that answer each other's requests do not lock each other up | Conn.Peers | proved | Two rows of bounded buffers that end in each other's beginnings, as a transition system; invariant: answers got, answers and requests under way and requests to be sent make up the list of answers; every step lowers the work by one; who is stuck has both rows full with requests in both listeners' hands; conversely a schedule that fills both rows is built. Exact for any two rows of buffers with positive capacities. One endpoint on each side, one answer per request, the connection stays open. |
| C89 | Closing a connection ends the work on it | Conn.Shut | partial | Transition system of both ends of one connection: a receive goroutine and any number of senders on each side; every step of a goroutine lowers a weight, so all come to rest; in a stream connection nothing but ended goroutines can be at rest; for Reference connections the state at rest is computed from invariants. Holds for stream connections; exactly for those (c89_iff). Violated by Reference connections, whose Close only sets a flag on the local side: the other side is never told (c89_not_told), what it sends is lost and, once the channel is full, its senders wait for ever (c89_lost, c89_blocks_exact, c89_stuck); the local receive goroutine waits for ever if nothing is to come (c89_reader_exact); at most one object is still handed up (c89_one_more). |
| C90 | Processors may be switched on and off while the stack runs | Stack | partial | `setEnable` on the worlds of the Stack model; induction on the history of switches and messages, with the end-to-end theorem of C21 at each message and `Moved` carried through the switches; one-sided switches by comparing the wire formats of both ends: the receiver takes the bytes for another message of its own format; the decoder at the bottom by `frameLower_feeds` with no payloads. Holds for histories in which both ends switch while nothing is under way (c90_switch_partial), and for one end alone if the processor is a StatCounter, Heartbeat or FlowController (c90_one_sided). For the processor right below a BytesCodec switched at the receiver alone: all messages arrive if and only if it is not a SessionResolver or FrameDecoder (c90_iff). Violated otherwise: a FrameDecoder at the bottom, switched on while a message without a frame is under way, loses the message (c90_lost), loses everything that follows (c90_jammed) or panics (c90_panic), depending on the first four bytes and the length. Not modelled: SetEnable in another goroutine in the middle of a call (an unsynchronised write). |
| C91 | Deleting a transport ends the service of every connection it made | Conn.Retire | partial | The transport of C57 and the accept and receive goroutines of LowerDeck as one transition system; every step is a step of the transport alone or leaves it alone, so the invariants of C57 carry over; further invariants: which goroutine is in which call of NextConnection, a running transport is attended, what was published; the goroutines' own steps lower a weight, so they come to rest. Holds if nothing is between the transport and LowerDeck whenever the transport stops (c91_partial). Exactly: a connection that an accept goroutine took, and nobody else closed, is closed and told about if and only if the transport was still running when NextConnection returned it (c91_exact). Violated: otherwise it is announced after the deletion, stays open and is read for ever (c91_violated). LowerDeck always comes to rest (c92_settles), and its accept goroutines always end (c91_loops). Crashes of the transport are the subject of C57. |
| C92 | Every connection an added transport makes is announced once and read until it is closed | Conn.Retire | partial | Same system; conservation: every connection made is in exactly one place (goroutine of the transport, channel, call, accept goroutine, announced), by counting; at rest only channels that are closed can hold any. Order and uniqueness hold in every execution (c92_life, c92_one_reader). At rest, a connection that was made has been announced if and only if it was not left behind in a channel of the transport that is closed (c92_exact), and every announced one is being read or is closed and told about (c92_read). Violated: a connection waiting while the accept goroutine is busy and the transport is deleted and added again is never announced (c92_lost, c92_violated). |
| C93 | Endpoints and transports may be added and deleted from several goroutines | Reg.Callers | partial | Callers as threads over a slice with its backing array, one action per element looked at; invariant in three phases of the only effective call (before its write, between write and assignment, after), with what every other caller will still find; conversely a schedule is built for any two effective calls, for any registry (both take the slice, then write one after the other), and for the caller that overlooks its item while the tail moves down. Infinite executions: what a call has left to do is bounded by the length of the slice it took (`Reg/CallersFair.lean`). Exact: for callers with different items every schedule is right if and only if at most one of the calls has something to do and, should that be a deletion, nobody adds what is registered behind it and is not the last (c93_iff). Violated otherwise: an added item is lost (c93_violated), the wrong item is deleted (c93_wrong), DeleteEndPoint panics (c93_panics), an item is registered twice (c93_twice). Every call returns, alone (c93_returns) and in every infinite execution whose scheduler does not forget it (c93_always_returns), unless the program panics. |
| C94 | Objects sent through reference transports are passed up exactly once and in order | Conn.Rejoin | partial | `Conn.Reference` (C53-C55) composed with the accept and receive goroutines of LowerDeck; multiset equation by induction over steps; every connection is in one place (counting), so readers of a side are bounded by connections, these by additions; with one reader the taken objects are the passed-up ones followed by the held one. Conversely an execution is built for any three transports at one address (two may be the same one, added twice). Exactly once holds in every execution: what was sent is passed up, or with a goroutine that passes it up next, or in the channel, as a multiset (c94_once). The order, exactly: with each transport t added up to n t times, the order is kept in every execution if and only if no address with both sides in use has two transports at one side or one that is added twice (c94_iff). Violated otherwise, for every such set of transports (c94_violated). |
| C95 | The end of a reference connection is noticed at both ends | Conn.Rejoin | partial | Same system; deletions can be erased from any execution; a reader ends only with its own end closed, which only a local close does; a potential (what the reader may still pass up) bounds what comes after the close; announcements by counting. After its end was closed at most one more object is passed up from a connection (c95_partial); its end is announced once by its reader and once per failing send, exactly (c95_announced); at rest every reader has ended, with its end closed, or waits at an empty channel (c95_rest). Violated: deletions have no effect at all (c95_delete); a reader never notices that the other end was closed (c95_violated, every execution); the reader of a closed end waits until the next object comes and passes it up (c95_late). |
| C96 | An event reaches every endpoint once although another goroutine adds and deletes | Reg.Broadcast | partial | Shared arrays (`Reg.Slice`); invariant per publisher: the endpoints it began with that are still registered are a prefix, at their places in what its slice shows, and nowhere else; conversely the first deletion of another endpoint than the last, just after an event was published, doubles the last one. Exact: all events reach the right endpoints in every interleaving if and only if every endpoint deleted is the one registered last at that time (c96_iff); for one deletion also exactly when, depending on how many endpoints have been told (c96_moment). That nobody is told who was not registered meanwhile holds always (c96_known). Violated otherwise: an endpoint that stays is never told (c96_lost) or told twice (c96_twice). |
| C97 | No input crashes a stack | Stack, Program | partial | The chain interpreter of `Stack/Model.lean` with `Safe` (no panic, whatever the fuel) by induction over the fuel, like C35's `Ends`; user functions are assumed not to panic. For the FrameDecoder the run of one read is split into the frames handed up (`frameLower_feeds`) and what the decoder itself does (C24); nothing above can panic or change the cache (C35, `Sealed`), so the decoder's result decides. Then induction over the history. Holds for every chain without a FrameDecoder enabled on byte connections and every history of addressed messages (c97_partial). Exact with the FrameDecoder as the lowest processor: a history crashes the stack if and only if some read is whole frames followed by four zero bytes and no earlier read jammed the cache (c97_exact); with the default cache, if and only if some read is of that kind (c97_default); the same for programs, whose data path and cache are read off their calls and options (c97_program, c97_program_default), among them those in examples/ (c97_examples, c97_tcp). Violated: four zero bytes crash every such stack (c97_violated); a message without a connection panics in FrameDecoder, StatCounter, Heartbeat and LoadBalancer, enabled or not (c97_unaddressed). |
| C98 | A closed connection is forgotten | Conn.Retire, Conn.Heartbeat | partial | The transport of C91/C92 (`Conn.Retire`): no step but a start removes anything from the list, and what is returned is on it (`saved_step`); combined with the ledger of C92 this gives the list in terms of what was announced. The leak is an explicit state `served n` with one more visit as the induction step. Heartbeat: the history function of C51 characterised by its last relevant event. Violated without bound: for every n, n clients of a TCP or Unix server have come and gone, nothing is open or going on, and the transport holds all n connections (c98_violated). Exact: a transport holds, once each, the connections handed out since it was last started, closed or not (c98_exact), hence no closed one if and only if none of these has come to its end (c98_iff); a new start forgets all earlier ones (c98_restart_partial). The Heartbeat holds a closed connection exactly if it is refreshed after the sender goroutine has seen its end, until the next check that comes the timeout later (c98_heartbeat_exact, c98_heartbeat_violated); otherwise, and eventually, it forgets it (c98_heartbeat_partial, c98_heartbeat_eventually). |
| C99 | Snapshots of different types can be mixed | UBuf | partial | The worlds of C10 with reference snapshots. The specification keeps stores and windows; what a call stores is stated per method (`Deque.stores`), and `exec_heap` shows that a buffer without the flag stores exactly that, in place. Invariant `MInv`: blocks are shared along references only, or with the flag set and counted. The violation is proved for every reachable world. Holds for every history in which no buffer takes part in both a reference and a copy-on-write snapshot and no buffer of the latter is written at its head: results and contents are those of a specification with shared stores (c99_mixed_partial), so a call is seen through exactly the buffers of the same store (c99_isolated, c99_shared). Violated for every non-empty buffer otherwise: with a reference and a copy-on-write snapshot of it, in either order, bytes written through the reference change the copy-on-write snapshot, and the source no longer shares with its reference once it is written (c99_violated). |
| C100 | Handling a received message comes to an end | UBuf, Stack | partial | `io.ReadFull`, `io.ReadAll` and the byte fetching of `encoding/gob` are modelled as loops over `UBuf.read` with a step budget (`UBuf/Reader.lean`, `UBuf/Gob.lean`; "forever" is "for every budget"). Against byte-string specifications `Counts`, `Stalls`, `Yields`: induction over the content. Stack level (`Stack/Stall.lean`): the processors below the codec take their headers off (`opens_up`, C22), so the read ends if and only if the decoder does. `Stack/StallAbove.lean`: with a payload the decoder finishes, whatever processors above the codec do with the message ends (induction over the budget, with the per-processor lemmas of C35). Violated: Read on an empty buffer returns no bytes and no error, so io.ReadFull runs forever exactly if it wants bytes and there are none (c100_readFull_exact), io.ReadAll exactly if the content is empty or fills its slice, and it never succeeds (c100_readAll_exact, c100_readAll_never_succeeds). A gob decoder runs forever exactly if the content ends where a message, the digits of a count or a message body should begin (c100_gob_exact); a stack with a GOBCodec finishes a read exactly if its payload is not of that kind (c100_exact with silent processors above the codec, c100_exact_above with an Echo, Filter, Forwarder, Discarder or further codecs there, c100_finished_partial; c100_never_finished for anything above the codec); one byte of payload hangs every such stack (c100_violated). A complete gob is decoded (c100_gob_yields). Missing: what gob does with a complete message is an arbitrary function; the positive half for chains with an enabled FrameDecoder above the codec, or where a Loopback turns around what is sent from above it. |
| C101 | A message is sent as it was when it was handed over | Reg.Reuse | partial | Memory is a map of cells; an object is read cell by cell, each cell chosen by the values read before, so reads can be torn (`Reg/Reuse.lean`). Sufficiency: invariant relating what was passed, what is being read and the channel to the list of what was handed over. Necessity: schedules in which the goroutine is exactly K+1 messages behind are constructed by induction over the program. Exact: with a channel of capacity K every message is passed down as it was handed over in every execution if and only if at all times the last K+1 objects handed over are unchanged (c101_iff); so a program that uses n buffers in turn is right for all data if and only if n is at least K+2, 514 with the channel of the endpoint (c101_ring). Violated otherwise: any write that changes an object handed over can change the message (c101_violated). Objects that are never changed afterwards are passed down as they were (c101_partial). |
| C102 | No argument makes a call on the stack panic or change what is served | Reg.Foreign | partial | The stack object with `none` for nil interfaces and `Option` for panics (`Reg/Foreign.lean`). The specification `Bad`/`Serving` is stated on the list of calls alone (splits of the list, last values); an invariant relates it to the state call by call. Exact: a sequence of calls panics if and only if one of its calls is of the kinds listed in `Bad` (c102_iff), and an endpoint is served if and only if it was started and not ended since by Run, by an effective addition or deletion, or by an event of the program (c102_served, endpoints with different sessions). Holds for programs that publish no events about endpoints (c102_own_partial). Violated: an announced endpoint is served without being registered and DeleteEndPoint does not end it, and conversely (c102_foreign); a nil endpoint is accepted and makes every later event, Run and its own deletion panic (c102_nil). Listeners only observe; a panic ends the program; the goroutines started are not modelled. |
| C103 | A conversation arrives however the stream is cut | Stack | partial | A program logic `Emits` for what a call delivers to endpoints (`Stack/CutExact.lean`): a call on a buffer of L bytes delivers at most one message, of at most L bytes less all headers between. Summed over the frames of all reads (`Below`), equality with what was sent leaves no byte over, so no frame was lost or split; with the exact frame semantics of C23 the reads end at boundaries. The other direction is C60. For a server (`Stack/ServerCut.lean`) the same sum runs over the deliveries and reads of all connections (`sum_by_key`); sends, control messages and closings deliver nothing and leave the FrameDecoder's cache alone (`Mute`). Heartbeats count as signs of four header bytes and more, so the sum also covers mixed streams. Without FrameDecoder each read gives at most one delivery (`Stack/BareCut.lean`). Exact for stacks with one codec (Bytes or String): with an enabled FrameDecoder at the bottom and nowhere else below the codec, exactly the messages sent are delivered if and only if every read ends where a message ends (c103_iff); without an enabled FrameDecoder, if and only if every read is exactly one message (c103_bare). Both also hold for a server: one stack, its FrameDecoder (if any) shared by any number of connections, with the stack's own sends, control messages and closings between the reads (c103_server, c103_server_bare), with FrameDecoder also for a stream of messages and heartbeats (c103_server_beats). So the code violates the statement for all other cuts. Whatever bytes are read, by honest or other peers, the payloads delivered and their headers never exceed the bytes read (c103_paid). Missing: several enabled FrameDecoders in one stack; codecs whose decoding is not injective. |
| C104 | Timers keep to their configuration | Conn.Rate | partial | All timer goroutines of a stack under one clock in nanoseconds (`Conn/Rate.lean`); sleeping returns at its time or any time later; the product of the interval and a second wraps as int64. Invariant `Paced` relates the program counter of a goroutine to what it has sent; the other direction is an execution built round by round (`round_of`, `flood`). Infinite executions are in `Conn/RateFair.lean`: a sleeping goroutine can go on at all times from some time on because time is unbounded (`moves`). Holds for the pause the goroutine really sleeps (c104_rate_partial), which is the interval exactly up to 9223372036 seconds (c104_pause). Exact: a Heartbeat keeps its interval in every execution if and only if it is at most 9223372036 seconds (c104_exact), and what it sends in a given time is bounded if and only if the wrapped product is positive (c104_bounded): violated by an interval of 0 or less, with which it sends without end while no time passes (c104_violated). At most one message after the end, and at most four more steps (c104_stop); never stuck (c104_live). In infinite executions in which time goes on and the scheduler is fair to the goroutine, it sends again and again while its connection is open (c104_forever) and ends for good once it is closed (c104_over). Number of goroutines: exact (c104_count), none for a StatCounter with an interval that is not positive (c104_quiet), one for every announcement made while it is positive (c104_collects). Every goroutine sleeps as long as its processor was configured to by the last Run before the announcement, a checker one second (c104_configured). Violated: every further Run of a Heartbeat adds one more checker that never ends (c104_checker, c104_checkers_violated). |
| C105 | No field is accessed by two goroutines at once | Access | partial | A language of reads, writes, mutexes and `go` statements with open branches (`Access/Basic.lean`), in which every function started with `go` and the main goroutine are written (`Access/Program.lean`). An analysis with three policies (nobody writes, everybody holds the mutex, one owner; each from the first `go` of a function that accesses the field on) is proved right for every execution with any number of goroutines (`safe_sound`); the other direction is an execution for each field, recognised by derivatives (`accepts_sound`); programs with fewer features do less (`RacyField.mono`), so finitely many cases give all sets of features (`Access/Exact.lean`). For programs with several goroutines and calling listeners, everything they call to any depth is shown to be made of pieces (`user_soup`), and the analysis is done with any pieces in any order (`Access/Concurrent.lean`). Exact: for every set of features of a program (its processors, what it changes after Run) and every field, two goroutines may come to access the field at once, one of them writing, if and only if the field is in the table `conflicts` (c105_iff). Holds for programs that only set up, run, send and receive, except for the UpperDeck's map, `closed` of connections, the counters of StatCounter and the cache of FrameDecoder (c105_static_partial). Violated in every program for the UpperDeck's map (its goroutines read it without the mutex while the next endpoint is entered) and for `closed` (c105_violated), and for nearly all fields of the stack when Run is called again (c105_rerun). The same, exactly, for programs that call the library from any number of goroutines and from event listeners to any depth (c105_concurrent): more fields conflict, among them the list of transports and the intervals. |
| C106 | Goroutines never lock each other up | Access | partial | The functions of C105 with the program's functions put in where listeners are called (`Cmd.subst`), nested to any depth, and with any number of instances of each mutex (`Inst`). Mutexes have ranks and are locked in the order of their ranks and unlocked in reverse; this is checked on the commands (`flow`) and shown for all their words. From it: the goroutine that holds the mutex of the highest rank can always go on, so all come to their end (`all_finish`, `Access/Locks.lean`), by induction on what is left to do. Infinite executions (`Access/LocksFair.lean`): by induction on the rank, from the highest down, every mutex is free again and again. For every program without a Heartbeat or whose listeners publish no NewConnection events: in every state all goroutines can be brought to their end, after which no mutex is held (c106_finish_partial), and no goroutines wait for each other in a circle (c106_circle_partial), with any number of mutexes of each kind, listeners that call the library to any depth and goroutines of the program. Violated if a listener publishes a NewConnection event when a heartbeat is lost: the checking goroutine waits for ever for the mutex it holds (c106_violated, c106_never). In infinite executions, under strong fairness: every mutex is given back again and again and every goroutine does all it has to do (c106_served_partial). Missing: channel operations (C55, C81). |
| C107 | The chains of different stacks are separate | Reg.Several | partial | The fields `lower`, `upper` and `ustack` of the processors and decks of any number of stacks under `AppendDataProcessor` and `Run` (`Reg/Several.lean`). `Run`s of stacks without a common processor keep the links of a chain (`kept`); what a later `Run` wrote is a set closed under both links that contains no deck of the stack (`Astray`), hence both directions. The way down ends: shown for the links one `Run` writes by induction on the list, and carried over every `Run`. Exact for every history of any number of stacks (c107_iff): the ways down and up are right if and only if the processors are distinct and no stack run later has one of them; the processors belong to the stack if and only if no stack run later has one of them. Holds for stacks whose processors are distinct and not shared (c107_separate_partial). Violated for a processor of two stacks (what the first stack sends leaves through the second one's connections) and for one appended twice (received messages go round for ever) (c107_violated). Going down always comes to an end (c107_down_ends); going up does if and only if the processors are distinct (c107_up_ends_iff). Nothing missing for the fields upper, lower and ustack. |
| C108 | An endpoint or transport may belong to several stacks | Reg.SeveralIO | partial | A transition system of one endpoint and one stream transport with a goroutine for each stack that has the endpoint and each that has the transport, taking messages and connections from the common channels in any order (`Reg/SeveralIO.lean`). Conservation by induction on the execution; the equivalences from an invariant (which stacks the goroutines belong to) and an execution for each pair of stacks that violates them. Every message is passed down once and every connection announced once, in order, in every execution (c108_once). The rest is exact for every choice of the stacks: messages are passed down in the stack that announced their connection if and only if no stack with the endpoint is another one than a stack with the transport (c108_sent_iff), in order if and only if at most one stack has the endpoint or none the transport (c108_order_iff), everything received arrives if and only if every stack with the transport has the endpoint (c108_received_iff), a deletion closes only connections of the deleting stack if and only if no other stack has the transport (c108_delete_iff, c108_delete_all). Holds for one stack (c108_one_stack_partial), violated for an endpoint of two stacks (c108_violated). Nothing is added meanwhile; channels are unbounded. |
| C109 | Peers may have different MTUs | Stack | partial | On the model of C103: the necessary half of C103 is proved again without the assumption that the messages fit the receiver (`reads_need` in `Stack/MtuCut.lean`: induction over the reads, comparing the bytes read with the bytes the deliveries need); if every read ends at the end of a frame, every frame fits a read. Violated: a message that is longer on the wire than the receiver's MTU is not delivered, however the stream is cut (c109_lost, c109_violated), although the cache of the receiver's FrameDecoder has twice that size by default. Exact for stacks with one codec (Bytes or String), a FrameDecoder at the bottom and nowhere else below the codec, whose head room is all used: everything can be delivered if and only if every message with its headers fits the receiver's MTU (c109_iff), and a cut delivers it if and only if every read ends at the end of a message (c109_exact, C103 for different MTUs). With disabled processors that reserve head room, the latter for messages that fit the receiver with all its head room (c109_delivered_partial). Without a FrameDecoder, if and only if every read is one message, and a message longer than the receiver's MTU is lost (c109_bare, c109_bare_lost). Missing: messages that fit the receiver's MTU only because such processors are disabled. |
| C110 | An endpoint may be deleted and added again | Reg.Serve | partial | On the model of C41 and C42 (`Reg/Serve.lean`), now for any number of additions and deletions (`Reg/Again.lean`): every step is one of five kinds (`move`); additions, deletions, goroutines and stop signals are counted by an invariant; a signal nobody waits for stays so because no later select looks at its channel; with two goroutines a schedule is constructed in which the second of two messages comes first. Exact: besides the goroutine a registered endpoint is to have, as many serve it as there are stop signals nobody has taken (c110_count), and the right number can still be reached, whatever happens, if and only if some goroutine waits for every signal (c110_iff); a signal nobody waits for is never taken, also if the endpoint is added again (c110_forever). Messages are passed down once and in order in every continuation without additions if and only if at most one goroutine serves the endpoint (c110_order_iff), and in every execution in which that holds throughout, also with the session of the last addition (c110_in_order_partial, c110_session_partial). Violated without bound: for every n, n goroutines serve a deleted endpoint for ever (c110_violated). |
| C111 | Nothing queued waits for ever | Reg.Serve, Reg.Listener, Conn.Backpressure, Conn.Accept, Conn.Service, Reg.Broadcast | partial | Infinite executions of the models of C42, C43, C64, C66, C80 and C96 (`Verif/Fair.lean`: runs, weak and strong fairness, three leads-to rules). Each clause: as long as the goal is not reached the goroutine can go on (from the invariants of those claims), and each of its steps increases what is done, or lowers what is left, while nothing else undoes it (`Reg/ServeFair.lean`, `Reg/ListenerFair.lean`, `Conn/BackpressureFair.lean`, `Conn/AcceptFair.lean`). Services (`Conn/ServiceFair.lean`): the service goroutine writes as long as anything is in the endpoint, so the receive channel has room again and again, every request gets in, and each write brings the first request of a client one place forward. With an Echo (`Conn/EchoFair.lean`) each connection is on its own and weak fairness is enough. Events (`Reg/BroadcastFair.lean`): what is left of the loop of a publisher falls with each of its steps and is changed by nobody else. Infinite executions under weak fairness (strong fairness for the receive goroutine, which competes with others for a place in a channel). Proved: transmit channels, arriving messages, connections, answers of a service and of an Echo. The clause about listeners is violated: in a fair execution a listener that is removed and set again may never be called (c111_heard_violated); proved for non-nil listeners, with the order for one receive goroutine (c111_heard_partial) and without it for any number (c111_heard_any_partial). c111_unfair: without fairness the first clause fails; c111_starved: weak fairness for the receive goroutines is not enough for the last. Events published while endpoints come and go: the loop always ends, and those that stay are told if only the last endpoint is ever deleted (c111_told_partial); otherwise false (c111_told_violated). Missing: nil listeners and other deletions, for which the clauses are false. |
| C112 | A program that is left alone comes to a good end | Conn.Pipeline, Conn.Peers, Conn.Retire, Conn.Shut | partial | The measures that bound the steps of the goroutines in C79, C88, C89 and C92 are turned into leads-to proofs (`Run.descends` of `Verif/Fair.lean`): as long as somebody can go on somebody does, and each step lowers the measure, so a point of rest is reached; it is kept (data that arrive do not end it), and what holds at rest is known from those claims (`Conn/RestFair.lean`, `Conn/PeersFair.lean`). Infinite executions of the models of C79, C88, C89, C91 and C92, under the weakest fairness. Proved: clients, two programs that answer each other (exactly, c112_peers), connections of stream transports, closing of stream connections. The last clause is violated for Reference connections: the receive goroutines of both sides wait for ever (c112_closed_violated). |

## What the code does wrong (all proved as theorems named in MANIFEST.json or beside them)

* **UBuf**: bytes returned together with an error are lost or offered twice (C09); a head write on a shared copy-on-write buffer panics or
  loses data (C10); wrapped slices with `len < cap` panic (C13); the reference count is dropped before the copy, so a concurrent
  `Reset` and write can overwrite bytes being copied (C14); calls about nothing fail: `Peek` of an empty buffer, an empty `Write` into a full
  one, an empty `WriteHeadBytes` at the end of the storage (C06-C08).
* **Codecs**: overhead above the MTU makes sending panic (C18); a second enabled codec below loses the headers (C20); received references are
  dropped (C34).
* **FrameDecoder**: a comparison is off by the header size, so a read ending inside a frame truncates; in fact the cache never helps: a cut stream is decoded completely if and only if every read ends at a frame boundary (C23, `c23_iff`); four zero bytes where a header is expected panic, and nothing else does (C24, `c24_exact`); the
  cache is shared by all connections, and one connection can block all others for ever with one incomplete frame (C73); two receive goroutines inside it at the same time can hand bytes of one connection up as a message of another, three can make the process panic (C85; only with a `CacheCapacity` not larger than what one read may leave over, as in the tcp example: 128); on reference connections `OnUpperData` calls its upper neighbour, which never returns or drops (C34, C35).
* **SessionResolver / Heartbeat / StatCounter / LoadBalancer** (C25-C27, C33, C34): references are dropped, the destination session is not carried
  by references; disabled StatCounter leaks control messages; an enabled LoadBalancer at both ends loses all traffic; disabled Heartbeat,
  StatCounter, LoadBalancer and Loopback are not transparent; with a small MTU a StatCounter's answer loses counters, which are shown as 0 (C77).
* **Filter / Forwarder**: the constructor puts a nil function first, so every enabled one panics (C31, C32).
* **Echo / Loopback**: Echo above Loopback never returns (C35); an Echo above FrameDecoder or a tag loses or misreads bytes (C28); Loopback drops what comes from below (C29).
* **Counters** are incremented without a lock: updates are lost, the counter goes back (C63).
* **UpperDeck**: same-session endpoints are registered but not served (C38); check-then-act race gives two servants per session (C37); a deleted
  endpoint may be served for ever (C41); the service goroutine reads the map without the lock (C67); a full endpoint holds up its
  connections (C64).
* **UStack**: `Run` twice doubles overhead and services (C45, C59; `c59_exact`: harmless only without endpoints and overhead); deletion changes slices handed out earlier (C44); `AddEndPoint` publishes
  before registering and `DeleteEndPoint` removes by a stale index, so listeners that add or delete cause infinite recursion, double registration,
  removal of the wrong endpoint or a panic (C68); events are published without a lock, observers disagree about their order (C66).
  A nil endpoint is accepted and makes every later event panic; a NewConnection event whose data is no connection panics in Heartbeat and StatCounter; a
  program's own EndpointAdded event makes the stack serve an endpoint it does not list (C102).
* **Endpoint listener**: dropped message, lost order, nil call, lost wake-up (C43).
* **Chained setters**: `NewFeatBase()` and `NewProcBase()` hand out a copy whose `where` is the constructor's local variable; `AddFeature(NewFeatBase().SetName(n))`
  registers an object that `GetFeature(n)` does not find (C69).
* **One service goroutine per endpoint**: a client that does not read its answers stops the server's endpoint for all other clients (C80); a client that
  sends more than the channels hold before it reads blocks for ever (C79); two
  programs that answer each other's requests in their listeners can lock each other up
  once they have as many requests under way (C88).
* **SetEnable**: a SessionResolver or FrameDecoder switched at one end while a message is under way makes that message arrive with a header in front
  of it or without its first bytes; a FrameDecoder switched on may also jam for good, or panic (C90).
* **PublishEvent**: an endpoint that deletes itself in its listener makes the next endpoint miss the event and the last one get it twice (C70).
* **LowerDeck**: data read together with an error is dropped, `MTU <= 0` panics (C48); one ConnectionClosed more for every failing write (C49, `c49_count`); writes to a
  closed connection report success (C50); the dynamic examples count these events, so they exit while a connection is still open (C82).
* **Heartbeat / StatCounter on reference connections**: their control messages carry no object, so `SetReference(nil)` fails and the first one closes the connection (C71).
* **Heartbeat**: a heartbeat that arrives late starts monitoring the closed connection again (C62). In `examples/heartbeat` the interval is 10 s and the timeouts are 3 s and 5 s: every connection is declared lost, and
  closed by the server, although both sides are alive (C78). `check` calls the listeners while it holds the mutex that every received heartbeat and
  every new connection needs: a listener that waits for a message behind a heartbeat stops the whole stack (C81).
* **Examples**: an `AppSession` with more than one connection answers on the connection accepted last instead of the one read from, and serves only two
  connections (C83); the dynamic examples call a method of a nil interface if a connection comes before `Run` has returned (C84).
* **Reference transport**: `Run` never sets `isRunning`, so `Stop` never does anything (C54); a second `Run` makes a second connection or blocks
  for ever holding the global mutex (C55; `c55_exact`: exactly when an earlier connection was not taken). `Close` sets a flag of the local object only: the
  other side is not told, its senders fill the channel and then wait for ever, and the receive goroutine of the closed side waits for an object that may never come (C89, C112).
* **TCP and Unix transports**: nil listener and closed-channel crashes, connections left open, goroutines of an earlier run act on the next run
  (C56, C57); the Unix socket file of a running transport is removed, `Run`/`Stop`/`Run` can end in `log.Fatal` (C65). After
  `DeleteTransport` a connection that was on the way is announced and served for ever (C91); deleted and added again, a connection can be lost, open and never announced (C92).
* `AddEndPoint`, `DeleteEndPoint`, `AddTransport`, `DeleteTransport` take no lock, but are called from listeners, which run on several goroutines: an added
  endpoint can get lost, the wrong one be deleted, one be registered twice, or the call panic (C93).
  An event published at the same time as a deletion can miss an endpoint that stays registered and reach the last one twice (C96).
* A reference transport that is deleted and added again gets a second receive goroutine on the same channel, since `Stop` does nothing (C54): objects are
  passed up in the wrong order (C94). Closing a reference connection is not noticed by the other side, nor by its own receive goroutine before the next
  object comes, which is still passed up (C95).
* A read of whole frames followed by four zero bytes is the only input by which a peer can crash a stack whose lowest processor is the FrameDecoder (C97, `c97_exact`);
  the program itself crashes it with a message that has no connection (`c97_unaddressed`).
* A TCP or Unix transport keeps every connection it ever handed out until it is stopped and started again: a server leaks one per client (C98).
* A reference snapshot is not counted: with a reference and a copy-on-write snapshot of one buffer, writing through the reference changes the copy-on-write
  snapshot, and writing the source separates it from its reference (C99).
* `UBuf.Read` on an empty buffer returns `(0, nil)` instead of `io.EOF`: a gob payload that stops before a message, a count or a message body keeps the receive
  goroutine in `io.ReadFull` for ever. One byte, say a frame `00 00 00 01 05`, is enough for every stack with a GOBCodec and a FrameDecoder (C100, `c100_violated`).
* `GetTxChannel() <- epd` hands over a pointer: a buffer written again before 513 further messages were handed over can change the earlier message, also in
  part (C101). A program needs 514 buffers to reuse them in turn (`c101_ring`).
* A Heartbeat with an interval of 0 or less sends heartbeats in a busy loop (a StatCounter checks this, `c104_quiet`); every further `Run` leaves one more
  checking goroutine behind (C104).
* Data races (C105): the endpoints' goroutines read the UpperDeck's map without its mutex while `Run` enters the next endpoint (two endpoints suffice for Go's fatal
  "concurrent map read and map write"); `closed` of a connection, the counters of a StatCounter and the cache of a FrameDecoder are not guarded at all. A
  `DeleteTransport` races with the goroutine that begins to listen; all setters race when used after `Run`.
* Deadlock (C106): `Heartbeat.check` publishes HeartbeatLost with its mutex held (proc_heartbeat.go). A listener may add and delete endpoints and transports there, but one that
  publishes a NewConnection event (say after reconnecting) comes back into `OnEvent` of the same Heartbeat, which locks the mutex again: the goroutine waits for itself for ever, and with it every later check, beat and event (`c106_violated`).
* Processors of several stacks (C107): a processor has one `upper`, `lower` and `ustack`, and `AppendDataProcessor` checks nothing. With the same codec in two stacks, what the stack that
  was run first sends leaves through the other one's LowerDeck and what it receives is handed to the other one's endpoints; a processor appended twice to one stack makes every received message go round until the stack overflows (`c107_violated`).
* Endpoints and transports of several stacks (C108): the stacks take messages and connections from common channels. With an endpoint in two stacks, a message for a connection of one
  is passed down the processors of the other (and messages overtake each other); `DeleteTransport` of one stack stops the transport and closes the connections of all (`c108_violated`, `c108_delete_iff`).
* Different MTUs (C109): a stack whose MTU is smaller than its peer's never receives the messages whose size is between the two, in no cut of the stream, because every read that ends inside a message loses it (C23, C103). Nothing tells either side.
* Deleting and adding an endpoint (C110): a service goroutine that is not waiting in its `select` when the endpoint is deleted looks for its stop channel later, finds nil, or the channel made by the next `AddEndPoint`, and stays for ever; with every round there can be one more, and with two of them messages overtake each other and may be sent with the session number of an earlier round.

## Tests against wrong programs

`seeded/LOG.jsonl` has one line per edit of a model definition: the definition, the edit, the claims it breaks, the theorems that failed
(a theorem counts as failed if its own proof or a lemma it needs no longer goes through) and what was tightened afterwards.

## Axioms each theorem depends on

From `#print axioms` on every theorem named in `MANIFEST.json`.

**none** (4):
`UBuf.c03_alloc_panics_iff`, `UBuf.c12_reference_equal`, `Conn.Heartbeat.c62_violated`, `Conn.Heartbeat.c98_heartbeat_violated`.

**propext** (37):
`UBuf.c10_violated`, `UBuf.c10_empty_head_write_loses`, `UBuf.c12_reference_breaks_cow`, `UBuf.c13_panics`, `UBuf.c13_short_write`, `Stack.c18_panics`, `Stack.c20_second_codec`, `Stack.c27_loopback_violated`, `Stack.c28_load_balancer_violated`, `Stack.c28_tag_violated`, `Stack.c29_load_balancer_violated`, `Stack.c31_filter_partial`, `Stack.accept_pure`, `Stack.c31_violated`, `Stack.c32_forwarder_partial`, `Stack.c32_violated`, `Reg.Serve.c42_two_goroutines`, `Reg.Listener.c43_no_listener`, `Reg.Listener.c43_dropped_violated`, `Reg.Listener.c43_order_violated`, `Reg.Listener.c43_nil_panic`, `Reg.Listener.deaf_forever`, `Conn.Reference.c54_witness`, `Conn.Reference.c55_second_connection`, `Conn.Backpressure.c64_order`, `Conn.Accept.c66_closed_violated`, `Conn.Accept.c66_order_violated`, `Conn.Accept.c66_twice`, `Conn.Service.c80_answers`, `Conn.Dynamic.c82_violated`, `Conn.AppSession.c83_violated`, `Stack.FrameRace.c85_mixed`, `Stack.c86_mixed`, `Stack.c86_counted`, `Conn.Shut.c89_stream_partial`, `Conn.Rejoin.c95_late`, `Conn.Rate.c104_quiet`.

**Quot.sound, propext** (174):
`UBuf.c06_peek_pure`, `UBuf.c07_peek_violated`, `UBuf.c07_head_violated`, `UBuf.c08_write_violated`, `UBuf.c09_writeTo_duplicates`, `UBuf.c12_positions_independent`, `UBuf.c13_refused_iff`, `UBuf.Conc.c14_reset_race`, `Stack.c21_header_above_codec`, `Stack.c26_reference_not_counted`, `Stack.c27_disabled_transparent_partial`, `Stack.c31_panics_iff`, `Stack.c32_panics_iff`, `Stack.c34_reference_partial`, `Stack.c34_dropped`, `Stack.c34_session_violated`, `Stack.c34_frame_violated`, `Stack.c35_echo_over_loopback`, `Stack.c35_send_never_returns`, `Stack.c35_frame_on_reference`, `Stack.call_mono`, `Reg.c37_run_twice_violated`, `Reg.c37_setSession_violated`, `Reg.Race.c37_race_violated`, `Reg.c38_same_session_violated`, `Reg.c38_run_twice_violated`, `Reg.c39_noop`, `Reg.Serve.c41_partial`, `Reg.Serve.c41_violated`, `Reg.Serve.c41_leaked_forever`, `Reg.Serve.c42_in_order`, `Reg.Serve.c42_exactly_once`, `Reg.Listener.c43_progress`, `Reg.Listener.c43_lost_wakeup`, `Reg.c44_violated`, `Reg.c46_same_twice`, `Reg.Options.c47_last_write`, `Reg.Options.c47_typed`, `Reg.Options.c47_run_fixed`, `Reg.Options.c47_run_sticky`, `Stack.c48_reference`, `Stack.c48_mtu_panics`, `Stack.receive_eq_readStep`, `Conn.Close.events_count`, `Conn.Close.no_reports`, `Conn.Close.c49_at_least`, `Conn.Close.c49_at_most`, `Conn.Close.c49_count`, `Conn.Close.c49_violated`, `Stack.c50_reference`, `Conn.Reference.c53_fifo`, `Conn.Reference.c54_body_partial`, `Conn.Reference.c54_violated`, `Conn.Reference.never_running`, `Conn.Reference.c55_partial`, `Conn.Reference.c55_violated`, `Conn.Reference.stuck_forever`, `Conn.Stream.c56_progress`, `Conn.Stream.c56_restart_violated`, `Conn.Stream.c57_run_noop`, `Conn.Stream.c57_run`, `Conn.Stream.no_nil_saved`, `Conn.Stream.c57_nil_listener_violated`, `Conn.Stream.c57_send_violated`, `Conn.Stream.c57_dial_violated`, `Conn.Stream.c57_nil_connection_violated`, `Conn.Stream.c57_open_after_stop_violated`, `Conn.Stream.c57_left_over_violated`, `Conn.Stream.c57_too_early`, `Conn.Stream.c57_stale_stop`, `Reg.Options.c58_has`, `Reg.Options.c58_last`, `Reg.c59_violated`, `Conn.Counter.c63_bounds`, `Conn.Counter.c63_violated`, `Conn.Counter.c63_backwards`, `Conn.Backpressure.c64_bounded`, `Conn.Backpressure.c64_capacity`, `Conn.Backpressure.c64_progress`, `Conn.Backpressure.c64_violated`, `Conn.Backpressure.c64_blocks_other`, `Conn.SocketFile.c65_exact`, `Conn.SocketFile.c65_guarded_partial`, `Conn.SocketFile.c65_violated`, `Conn.SocketFile.c65_fatal`, `Conn.SocketFile.c65_nil`, `Conn.Accept.c66_announced_once`, `Conn.Accept.c66_data`, `Conn.Accept.c66_same_order`, `Conn.Accept.c66_closed_partial`, `Reg.MapRace.c67_iff`, `Reg.MapRace.c67_violated`, `Reg.MapRace.c67_locked_partial`, `Reg.MapRace.c67_static_partial`, `Reg.Reentrant.c68_readd_violated`, `Reg.Reentrant.c68_twice_violated`, `Reg.Reentrant.c68_wrong_violated`, `Reg.Reentrant.call_depth`, `Reg.Fluent.c69_processor_partial`, `Reg.Fluent.c69_feature_violated`, `Reg.Publish.c70_add_partial`, `Stack.c71_reference_iff`, `Stack.c72_one_event`, `Stack.c72_events`, `Examples.framed_examples`, `Examples.unframed_examples`, `Conn.Pipeline.c79_answers`, `Conn.Pipeline.c79_fits`, `Conn.Pipeline.c79_listener`, `Conn.Service.c80_blocked_by`, `Conn.Service.c80_reading_partial`, `Conn.Service.c80_echo_partial`, `Conn.Service.c80_echo_answers`, `Conn.Service.c80_echo_exact`, `Conn.Service.c80_echo_all`, `Conn.LostLock.c81_partial`, `Conn.Dynamic.c82_count`, `Conn.AppSession.c83_connected`, `Conn.AppSession.c83_at_most_two`, `Conn.AppSession.c83_served_iff`, `Conn.AppSession.c83_answer_iff`, `Conn.Startup.c84_violated`, `Stack.FrameRace.c85_isolated_partial`, `Stack.FrameRace.c85_complete_partial`, `Stack.FrameRace.c85_finishes_partial`, `Stack.FrameRace.c85_default`, `Stack.FrameRace.c85_jammed`, `Stack.FrameRace.c85_crashed`, `Stack.FrameRace.decodeCurrent_parse`, `Stack.onUpper_hop`, `Stack.onLower_hop`, `Stack.currentLoop_hop`, `Stack.handleCached_hop`, `Stack.upperDeck_hop`, `Stack.lowerDeck_hop`, `Stack.solo_job`, `Stack.solo_jobs`, `Conn.Peers.c88_answers`, `Conn.Shut.c89_iff`, `Conn.Shut.c89_silent`, `Conn.Shut.c89_told`, `Conn.Shut.c89_one_more`, `Conn.Shut.c89_not_told`, `Conn.Shut.c89_lost`, `Conn.Shut.c89_stuck`, `Conn.Retire.c91_violated`, `Conn.Retire.c92_bounded`, `Conn.Rejoin.c94_violated`, `Conn.Rejoin.c95_partial`, `Conn.Rejoin.c95_announced`, `Conn.Rejoin.c95_rest`, `Conn.Retire.c98_violated`, `Conn.Rate.c104_pause`, `Conn.Rate.c104_configured`, `Access.c105_iff`, `Access.c105_static_partial`, `Access.c105_violated`, `Access.c105_rerun`, `Access.c106_circle_partial`, `Access.c106_violated`, `Access.c106_never`, `Reg.SeveralIO.c108_once`, `Reg.SeveralIO.c108_sent_iff`, `Reg.SeveralIO.c108_received_iff`, `Reg.SeveralIO.c108_order_iff`, `Reg.SeveralIO.c108_delete_iff`, `Reg.SeveralIO.c108_delete_all`, `Reg.SeveralIO.c108_one_stack_partial`, `Reg.SeveralIO.c108_violated`, `Reg.Serve.c111_unfair`, `Reg.Listener.c111_heard_violated`, `Conn.Service.c111_starved`, `Reg.Broadcast.c111_told_violated`, `Conn.Shut.c112_closed_violated`.

**Classical.choice, Quot.sound, propext** (406):
`UBuf.c01_lengths_add_up`, `UBuf.c02_deque_refinement`, `UBuf.c03_no_panic`, `UBuf.c04_int_round_trip`, `UBuf.c05_headers_lifo`, `UBuf.c05_header_first`, `UBuf.c06_peek_agrees_partial`, `UBuf.c06_peek_exact`, `UBuf.c06_empty_violated`, `UBuf.c07_failure_changes_nothing_partial`, `UBuf.c07_exact`, `UBuf.c08_write_prefix_partial`, `UBuf.c08_write_exact`, `UBuf.c08_read_prefix`, `UBuf.c08_fifo`, `UBuf.c09_readFrom_partial`, `UBuf.c09_readFrom_error`, `UBuf.c09_readFrom_loses`, `UBuf.c09_writeTo_partial`, `UBuf.c09_readFrom_iff`, `UBuf.c09_writeTo_iff`, `UBuf.c10_cow_isolation_partial`, `UBuf.c10_cow_isolation_no_head`, `UBuf.c10_head_write_panics`, `UBuf.c10_exact`, `UBuf.c11_direct_equal`, `UBuf.c11_direct_isolated`, `UBuf.c12_lengths_independent`, `UBuf.c12_writes_visible`, `UBuf.c13_wrap_partial`, `UBuf.c13_iff`, `UBuf.Conc.c14_concurrent_isolation_partial`, `UBuf.Conc.c14_exact`, `Stack.c15_bytes_round_trip`, `Stack.c15_empty_dropped`, `Stack.c16_string_round_trip`, `Stack.c17_json_round_trip`, `Stack.c17_generic_round_trip`, `Stack.c18_all_or_nothing_partial`, `Stack.c18_generic_all_or_nothing_partial`, `Stack.c18_iff`, `Stack.c18_panics_iff`, `Stack.c19_session_round_trip`, `Stack.c19_end_to_end`, `Stack.c19_in_range`, `Stack.c20_head_room_partial`, `Stack.c20_on_the_wire_partial`, `Stack.c20_exact`, `Stack.c21_end_to_end_partial`, `Stack.c21_exact`, `Stack.c21_two_codecs`, `Stack.c33_both_enabled_lose`, `Stack.c22_coalesced`, `Stack.frameLower_feeds`, `Stack.c23_aligned_partial`, `Stack.c23_iff`, `Stack.c23_violated`, `Stack.c23_truncates`, `Stack.c24_honest_partial`, `Stack.c24_reads_partial`, `Stack.c24_exact`, `Stack.c24_violated`, `Stack.c25_heartbeat`, `Stack.c25_stat_partial`, `Stack.c25_stat_disabled_leaks`, `Stack.c25_stat_iff`, `Stack.c26_counters_partial`, `Stack.stat_send`, `Stack.stat_recv`, `Stack.c26_report_partial`, `Stack.c26_history_iff`, `Stack.c26_iff`, `Stack.c26_report_exact`, `Stack.c26_report_iff`, `Stack.c27_tag_violated`, `Stack.c27_iff`, `Stack.c28_echo_partial`, `Stack.c28_exact`, `Stack.c28_never_up`, `Stack.c28_frame_violated`, `Stack.c29_loopback_partial`, `Stack.c29_nothing_below`, `Stack.loopback_returns`, `Stack.c29_exact`, `Stack.c30_discarder`, `Stack.c33_load_balancer_partial`, `Stack.c33_iff`, `Stack.c34_send_iff`, `Stack.c34_receive_iff`, `Stack.c34_exact`, `Stack.c35_terminates_partial`, `Stack.c35_send_terminates_partial`, `Stack.c35_swing_exact`, `Stack.c35_send_swing_exact`, `Stack.c36_routing`, `Reg.c37_partial`, `Reg.c37_one_deck_partial`, `Reg.c37_exact`, `Reg.c37_renumbering_violated`, `Reg.Race.c37_serial_partial`, `Reg.c38_partial`, `Reg.c38_only_registered_partial`, `Reg.c38_exact`, `Reg.c39_registries`, `Reg.c39_nodup`, `Reg.c40_call`, `Reg.c40_listener`, `Reg.c40_endpoint`, `Reg.Serve.c41_iff`, `Reg.Serve.c42_progress`, `Reg.Listener.c43_ledger`, `Reg.Listener.c43_exactly_once_partial`, `Reg.Listener.c43_in_order_partial`, `Reg.Listener.c43_served_iff`, `Reg.Listener.c43_order_iff`, `Reg.Listener.c43_kept_iff`, `Reg.c44_partial`, `Reg.c44_delete`, `Reg.c44_step_iff`, `Reg.c44_exact`, `Reg.c45_mtu`, `Reg.c45_overhead_first_run_partial`, `Reg.c45_before_run`, `Reg.c45_run_again_violated`, `Reg.c45_iff`, `Reg.c46_wiring`, `Stack.c48_partial`, `Stack.c48_violated`, `Stack.c48_closed_elsewhere`, `Stack.c48_iff`, `Conn.Close.c49_partial`, `Conn.Close.c49_exact`, `Stack.c50_partial`, `Stack.c50_violated`, `Stack.c50_iff`, `Conn.Heartbeat.c51_check`, `Conn.Heartbeat.c51_history`, `Conn.Heartbeat.c52_timely`, `Conn.Heartbeat.c52_not_twice`, `Conn.Heartbeat.c52_detects`, `Conn.Heartbeat.c52_forever`, `Conn.Heartbeat.c52_again`, `Conn.Reference.c53_bounded`, `Conn.Reference.c55_exact`, `Conn.Stream.c56_bounded`, `Conn.Stream.c56_ended`, `Conn.Stream.c56_gives_up`, `Conn.Stream.c56_closed`, `Conn.Stream.c56_exact`, `Conn.Stream.c57_stop_partial`, `Conn.Stream.c57_unblocked_partial`, `Conn.Stream.c57_nil_partial`, `Conn.Stream.c57_closed_partial`, `Conn.Stream.c57_crash_exact`, `Conn.Stream.c57_nil_iff`, `Conn.Stream.c57_closed_exact`, `Reg.c59_partial`, `Reg.overhead_runs`, `Reg.c59_exact`, `Stack.c60_conversation`, `Stack.call_evolves`, `Conn.Heartbeat.c62_closed_partial`, `Conn.Heartbeat.c62_exact`, `Conn.Counter.c63_serial_partial`, `Conn.Counter.c63_single_partial`, `Conn.Counter.c63_iff`, `Conn.Backpressure.c64_drains`, `Conn.Backpressure.c64_independent_partial`, `Conn.Backpressure.c64_exact`, `Conn.Accept.c66_exact`, `Conn.Accept.c66_closed_count`, `Reg.Reentrant.c68_exact`, `Reg.Reentrant.c68_transport_partial`, `Reg.Reentrant.c68_add_partial`, `Reg.Reentrant.c68_delete_partial`, `Reg.Reentrant.c68_panic_violated`, `Reg.Reentrant.c68_keep_lost`, `Reg.Fluent.c69_base_exact`, `Reg.Fluent.c69_base_violated`, `Reg.Publish.c70_delete`, `Reg.Publish.c70_delete_iff`, `Reg.Publish.c70_violated`, `Stack.c71_bytes_partial`, `Stack.c71_control_violated`, `Stack.c73_own_bytes`, `Stack.c73_aligned_partial`, `Stack.c73_exact`, `Stack.c73_violated`, `Stack.c74_network_partial`, `Stack.c74_drained_partial`, `Stack.c74_exact`, `Stack.statless_unanswered`, `Stack.c74_violated`, `Program.c75_data_path`, `Program.c75_runs_iff`, `Program.c75_programs_deliver_partial`, `Program.c75_network_partial`, `Program.c75_network_exact`, `Examples.c76_session`, `Examples.c76_dynamic_endpoint`, `Examples.c76_dynamic_endpoint_deleted`, `Examples.c76_microservices`, `Examples.c76_tcp`, `Examples.c76_speedtest`, `Examples.c76_codec_alone`, `Examples.c76_transports`, `Examples.c76_echo`, `Examples.c76_discard`, `Examples.c76_loopback`, `Examples.c76_reference`, `Examples.c76_session_clients_partial`, `Examples.c76_clients_partial`, `Examples.c76_clients_exact`, `Examples.two_sided_examples`, `Examples.c76_merged`, `Stack.c77_report_partial`, `Stack.c77_shown`, `Stack.c77_iff`, `Stack.c77_violated`, `Stack.c77_counted`, `Examples.c77_statcounter`, `Conn.Heartbeat.c78_never_lost`, `Conn.Heartbeat.c78_can_be_lost`, `Conn.Heartbeat.c78_exact`, `Conn.Heartbeat.c78_detected`, `Conn.Heartbeat.c78_always_lost`, `Conn.Heartbeat.c78_defaults`, `Conn.Heartbeat.c78_example_loses`, `Conn.Pipeline.c79_ends`, `Conn.Pipeline.c79_only_if`, `Conn.Pipeline.c79_exact`, `Conn.Pipeline.c79_burst`, `Conn.Pipeline.c79_burst_echo`, `Conn.Pipeline.c79_one_by_one`, `Conn.Service.c80_may_exact`, `Conn.Service.c80_must_exact`, `Conn.Service.c80_violated`, `Conn.LostLock.c81_iff`, `Conn.LostLock.c81_stuck_forever`, `Conn.LostLock.c81_violated`, `Conn.LostLock.c81_or`, `Conn.LostLock.c81_forever_partial`, `Conn.LostLock.c81_never`, `Conn.Dynamic.c82_partial`, `Conn.Dynamic.c82_iff`, `Conn.AppSession.c83_in_order`, `Conn.AppSession.c83_single_partial`, `Conn.AppSession.c83_third_never`, `Conn.Startup.c84_iff`, `Conn.Startup.c84_before_partial`, `Conn.Startup.c84_late_partial`, `Conn.Startup.c84_after_all`, `Stack.FrameRace.c85_iff`, `Stack.FrameRace.c85_silenced`, `Stack.c86_alike_partial`, `Stack.c86_goes_on_partial`, `Stack.c86_deliveries_partial`, `Stack.c86_all_partial`, `Stack.c86_ends_partial`, `Stack.c86_plain`, `Stack.c86_one_receiver`, `Stack.c86_receivers_alike`, `Stack.c86_receivers`, `Stack.c86_caches_empty`, `Stack.c86_sure_partial`, `Stack.c87_server`, `Stack.c87_in_order`, `Stack.c87_whole_packets`, `Stack.c87_end_to_end`, `Stack.fair_unasked`, `Conn.Peers.c88_ends`, `Conn.Peers.c88_exact`, `Conn.Peers.c88_reference`, `Conn.Shut.c89_rests`, `Conn.Shut.c89_blocks_exact`, `Conn.Shut.c89_reader_exact`, `Stack.c90_switch_partial`, `Stack.c90_one_sided`, `Stack.c90_iff`, `Stack.c90_jammed`, `Stack.c90_lost`, `Stack.c90_panic`, `Conn.Retire.c91_exact`, `Conn.Retire.c91_partial`, `Conn.Retire.c91_loops`, `Conn.Retire.c92_settles`, `Conn.Retire.c92_life`, `Conn.Retire.c92_one_reader`, `Conn.Retire.c92_exact`, `Conn.Retire.c92_read`, `Conn.Retire.c92_lost`, `Conn.Retire.c92_violated`, `Reg.Callers.c93_iff`, `Reg.Callers.c93_partial`, `Reg.Callers.c93_violated`, `Reg.Callers.c93_wrong`, `Reg.Callers.c93_panics`, `Reg.Callers.c93_twice`, `Reg.Callers.c93_returns`, `Reg.Callers.c93_always_returns`, `Conn.Rejoin.c94_iff`, `Conn.Rejoin.c94_once`, `Conn.Rejoin.c94_partial`, `Conn.Rejoin.c95_delete`, `Conn.Rejoin.c95_violated`, `Reg.Broadcast.c96_iff`, `Reg.Broadcast.c96_partial`, `Reg.Broadcast.c96_known`, `Reg.Broadcast.c96_moment`, `Reg.Broadcast.c96_lost`, `Reg.Broadcast.c96_twice`, `Reg.Broadcast.c96_add`, `Reg.Broadcast.c96_ends`, `Stack.c97_partial`, `Stack.c97_exact`, `Stack.c97_default`, `Stack.c97_violated`, `Stack.c97_unaddressed`, `Program.c97_program`, `Program.c97_program_default`, `Program.c97_examples`, `Program.c97_tcp`, `Conn.Retire.c98_exact`, `Conn.Retire.c98_iff`, `Conn.Retire.c98_restart_partial`, `Conn.Heartbeat.c98_heartbeat_exact`, `Conn.Heartbeat.c98_heartbeat_partial`, `Conn.Heartbeat.c98_heartbeat_eventually`, `UBuf.c99_mixed_partial`, `UBuf.c99_isolated`, `UBuf.c99_shared`, `UBuf.c99_violated`, `UBuf.c100_readFull_exact`, `UBuf.c100_readAll_exact`, `UBuf.c100_readAll_never_succeeds`, `UBuf.c100_gob_exact`, `UBuf.c100_gob_yields`, `Stack.c100_exact`, `Stack.c100_exact_above`, `Stack.c100_finished_partial`, `Stack.c100_never_finished`, `Stack.c100_violated`, `Reg.Reuse.c101_iff`, `Reg.Reuse.c101_partial`, `Reg.Reuse.c101_ring`, `Reg.Reuse.c101_violated`, `Reg.Foreign.c102_iff`, `Reg.Foreign.c102_served`, `Reg.Foreign.c102_own_partial`, `Reg.Foreign.c102_foreign`, `Reg.Foreign.c102_nil`, `Stack.c103_iff`, `Stack.c103_server`, `Stack.c103_server_beats`, `Stack.c103_bare`, `Stack.c103_server_bare`, `Stack.c103_paid`, `Conn.Rate.c104_rate_partial`, `Conn.Rate.c104_exact`, `Conn.Rate.c104_bounded`, `Conn.Rate.c104_violated`, `Conn.Rate.c104_stop`, `Conn.Rate.c104_live`, `Conn.Rate.c104_count`, `Conn.Rate.c104_checker`, `Conn.Rate.c104_checkers_violated`, `Conn.Rate.c104_collects`, `Conn.Rate.c104_forever`, `Conn.Rate.c104_over`, `Access.c105_concurrent`, `Access.c106_finish_partial`, `Access.c106_served_partial`, `Reg.Several.c107_iff`, `Reg.Several.c107_separate_partial`, `Reg.Several.c107_down_ends`, `Reg.Several.c107_up_ends_iff`, `Reg.Several.c107_violated`, `Stack.c109_lost`, `Stack.c109_exact`, `Stack.c109_iff`, `Stack.c109_delivered_partial`, `Stack.c109_bare`, `Stack.c109_bare_lost`, `Stack.c109_violated`, `Reg.Serve.c110_count`, `Reg.Serve.c110_iff`, `Reg.Serve.c110_forever`, `Reg.Serve.c110_in_order_partial`, `Reg.Serve.c110_order_iff`, `Reg.Serve.c110_session_partial`, `Reg.Serve.c110_violated`, `Reg.Serve.c111_passed`, `Reg.Listener.c111_heard_partial`, `Reg.Listener.c111_heard_any_partial`, `Conn.Backpressure.c111_taken`, `Conn.Accept.c111_announced`, `Conn.Service.c111_answered`, `Conn.Service.c111_echo`, `Reg.Broadcast.c111_told_partial`, `Conn.Pipeline.c112_program`, `Conn.Pipeline.c112_listener`, `Conn.Pipeline.fair_run`, `Conn.Peers.c112_peers`, `Conn.Peers.fair_run`, `Conn.Retire.c112_connections`, `Conn.Shut.c112_closed_partial`.
