{"id": "C01", "title": "Buffer lengths always add up", "statement": "For a buffer obtained from UBufAlloc/UBufAllocWithHeadReserved(capacity, reserved), after any sequence of reads, writes, peeks, head writes and resets, HeadWritableLength + ReadableLength + TailWritableLength = Capacity = capacity, and none of the three is ever negative.", "quantifier": "every valid (capacity, reserved), every finite sequence of buffer method calls with every argument", "why_tests_cant": "the state space (capacity x indices x histories) is unbounded; a test fixes one history", "anchors": ["ubuf.go:UBufAllocWithHeadReserved", "ubuf.go:Capacity", "ubuf.go:ReadableLength", "ubuf.go:HeadWritableLength", "ubuf.go:TailWritableLength", "ubuf.go:Reset"]}
{"id": "C02", "title": "Buffer behaves as a bounded byte deque", "statement": "Every UBuf method on an allocated buffer returns exactly the value, count and error that a bounded byte deque (append at tail, prepend at head, consume from front) would return, for any history of calls.", "quantifier": "every history of Write*/Read*/Peek*/WriteHead*/ReadFrom/WriteTo/Reset calls with arbitrary arguments", "why_tests_cant": "a refinement claim over unbounded histories; tests sample a handful", "anchors": ["ubuf.go:Write", "ubuf.go:Read", "ubuf.go:WriteByte", "ubuf.go:ReadByte", "ubuf.go:writeHead", "ubuf.go:Peek", "ubuf.go:ReadFrom", "ubuf.go:WriteTo"]}
{"id": "C03", "title": "Allocated buffers never panic; bad allocations always do", "statement": "UBufAllocWithHeadReserved panics exactly when capacity <= 0 or reserved is outside [0, capacity]; no later method call on the returned buffer ever panics (with io.Reader arguments that respect their contract), while no copy-on-write snapshot is outstanding.", "quantifier": "every integer capacity/reserved, every history of method calls", "why_tests_cant": "absence of panics over all histories cannot be sampled", "anchors": ["ubuf.go:UBufAllocWithHeadReserved", "ubuf.go:UBufAlloc"]}
{"id": "C04", "title": "Fixed-width integers round-trip in both byte orders", "statement": "A value written by WriteU16/U32/U64 (BE, LE or default) into a buffer with room is what the matching PeekUxx and then ReadUxx return, whatever was buffered before it; the bytes stored are the standard big/little-endian bytes and the default methods are big-endian.", "quantifier": "every value of every width, every byte order, every prior buffer state", "why_tests_cant": "2^64 values times all buffer states", "anchors": ["ubuf.go:WriteU16BE", "ubuf.go:WriteU32BE", "ubuf.go:WriteU64BE", "ubuf.go:WriteU16LE", "ubuf.go:WriteU32LE", "ubuf.go:WriteU64LE", "ubuf.go:ReadU16BE", "ubuf.go:ReadU64LE", "ubuf.go:PeekU32BE"]}
{"id": "C05", "title": "Header integers written at the head are read back first", "statement": "A value or byte string written with WriteHeadXxx to a buffer with enough head room is the next thing ReadXxx of the same kind returns, and the data that was readable before is untouched behind it; headers nest last-in first-out.", "quantifier": "every value, width, byte order, any list of nested headers, every buffer state with head room", "why_tests_cant": "unbounded nesting and values", "anchors": ["ubuf.go:writeHead", "ubuf.go:WriteHeadByte", "ubuf.go:WriteHeadBytes", "ubuf.go:WriteHeadU16BE", "ubuf.go:WriteHeadU32BE", "ubuf.go:WriteHeadU64BE", "ubuf.go:WriteHeadU16LE", "ubuf.go:WriteHeadU32LE", "ubuf.go:WriteHeadU64LE"]}
{"id": "C06", "title": "Peeking never consumes", "statement": "Peek, PeekByte and PeekUxx leave every later observable result of the buffer unchanged, and return exactly what the corresponding Read would return next.", "quantifier": "every buffer state and argument length", "why_tests_cant": "quantifies over all states and all continuations", "anchors": ["ubuf.go:Peek", "ubuf.go:PeekByte", "ubuf.go:PeekU16BE", "ubuf.go:PeekU64LE"]}
{"id": "C07", "title": "Failed fixed-size operations change nothing", "statement": "WriteByte, WriteUxx, WriteHeadXxx, ReadByte, ReadUxx, PeekXxx that return an error leave the buffer's readable data and all lengths exactly as they were; they fail exactly when room (or data) is short.", "quantifier": "every buffer state, every operation, every value", "why_tests_cant": "all-or-nothing over all states", "anchors": ["ubuf.go:WriteByte", "ubuf.go:WriteU16BE", "ubuf.go:writeHead", "ubuf.go:ReadByte", "ubuf.go:ReadU16BE"]}
{"id": "C08", "title": "Bulk Write/Read transfer the longest possible prefix", "statement": "Write(p) appends exactly the first min(len p, free) bytes of p and reports that count, with an error iff it is short; Read(p) removes exactly the first min(len p, readable) bytes and reports that count, with an error iff it is short and non-empty; bytes read over a history are the bytes written, in order, without loss or duplication.", "quantifier": "every buffer state, every slice, every interleaving of writes and reads", "why_tests_cant": "FIFO exactness over unbounded histories", "anchors": ["ubuf.go:Write", "ubuf.go:Read"]}
{"id": "C09", "title": "ReadFrom and WriteTo move exactly what the peer accepted", "statement": "ReadFrom(r) makes readable exactly the bytes r produced; WriteTo(w) hands w the whole readable data and afterwards exactly the bytes w did not accept are still readable.", "quantifier": "every reader/writer respecting the io contracts (including n>0 with an error), every buffer state", "why_tests_cant": "quantifies over arbitrary readers/writers, including error-returning ones", "anchors": ["ubuf.go:ReadFrom", "ubuf.go:WriteTo"]}
{"id": "C10", "title": "Copy-on-write snapshots are isolated", "statement": "After UBufMakeSnapshot(ub, CopyOnWrite), no operation on any of the buffers that (transitively) share the data changes what any other of them reads: every buffer behaves as an independent copy.", "quantifier": "every family of buffers built by any history of CopyOnWrite/CopyDirectly snapshots and any method calls on any of them", "why_tests_cant": "isolation over unbounded families and histories", "anchors": ["ubuf.go:UBufMakeSnapshot", "ubuf.go:resolveCopyOnWriteIfNeed"]}
{"id": "C11", "title": "CopyDirectly snapshots are isolated and equal", "statement": "A CopyDirectly snapshot reads the same data as the source at the time of the snapshot and the two never influence each other afterwards.", "quantifier": "every source state and every later history on both buffers", "why_tests_cant": "unbounded histories", "anchors": ["ubuf.go:UBufMakeSnapshot"]}
{"id": "C12", "title": "Reference snapshots share bytes but not positions", "statement": "A Reference snapshot starts with the same readable data; consuming from or moving the positions of one buffer never changes the lengths reported by the other, while bytes written in place through one become visible to the other.", "quantifier": "every buffer state and operation", "why_tests_cant": "aliasing behaviour over all states", "anchors": ["ubuf.go:UBufMakeSnapshot"]}
{"id": "C13", "title": "Wrapping a user slice keeps every access inside the slice", "statement": "A buffer from UBufFrom/UBufFromWithHeadReserved behaves like an allocated buffer over the user's storage; nil, empty-capacity or out-of-range reservations return nil.", "quantifier": "every slice (any len <= cap), every reservation, every history", "why_tests_cant": "len/cap combinations and histories are unbounded", "anchors": ["ubuf.go:UBufFromWithHeadReserved", "ubuf.go:UBufFrom"]}
{"id": "C14", "title": "Copy-on-write is safe under concurrent writers", "statement": "Two goroutines each using its own copy-on-write snapshot of one buffer observe only their own writes, for every interleaving.", "quantifier": "every schedule of the two goroutines' loads, decrements, copies and writes", "why_tests_cant": "schedules cannot be enumerated by tests", "anchors": ["ubuf.go:resolveCopyOnWriteIfNeed"]}
{"id": "C15", "title": "Bytes codec round trip", "statement": "A non-empty []byte message that fits MTU minus overhead goes down as a buffer holding exactly those bytes, and a received buffer holding those bytes goes up as an equal []byte.", "quantifier": "every byte string, MTU and overhead", "why_tests_cant": "all messages, all stack configurations", "anchors": ["proc_codec_bytes.go:BytesCodec"]}
{"id": "C16", "title": "String codec round trip", "statement": "Same as the bytes codec for Go strings (arbitrary byte sequences, including invalid UTF-8).", "quantifier": "every string, MTU and overhead", "why_tests_cant": "all messages, all stack configurations", "anchors": ["proc_codec_string.go:StringCodec"]}
{"id": "C17", "title": "User-supplied, JSON and gob codecs round-trip if their encoder does", "statement": "If the supplied encoder/decoder pair (JSON marshal/unmarshal, gob encode/decode, or the user's functions) is a round trip on a message and its encoding fits, then the message received equals the message sent.", "quantifier": "every encoder/decoder pair, every message", "why_tests_cant": "quantifies over arbitrary user functions", "anchors": ["proc_codec_generic.go:GenericCodec", "proc_codec_json.go:JSONCodec", "proc_codec_gob.go:GOBCodec"]}
{"id": "C18", "title": "Messages are never sent truncated", "statement": "Whatever an endpoint sends, a codec either passes down a buffer holding the complete encoding or sends nothing at all; oversize, empty, nil and wrongly-typed messages are dropped silently.", "quantifier": "every message value, MTU and overhead", "why_tests_cant": "all message sizes around and beyond the limit, all configurations", "anchors": ["proc_codec_bytes.go:OnUpperData", "proc_codec_string.go:OnUpperData", "proc_codec_json.go:OnUpperData"]}
{"id": "C19", "title": "Session number survives the wire", "statement": "A message sent to destination session s through SessionResolver is delivered with session s at the peer (s in 0..2^32-1); any other int is delivered as s mod 2^32.", "quantifier": "every int session, every payload", "why_tests_cant": "2^64 sessions and all payloads", "anchors": ["proc_session_resolver.go:SessionResolver", "proc_upperdeck.go:UpperDeck"]}
{"id": "C20", "title": "Reserved head room always suffices for a message created in the stack", "statement": "For a message encoded by a codec in a built stack, every header written by the processors below succeeds: the wire bytes are exactly the concatenated headers followed by the encoding.", "quantifier": "every list of processors in every order and multiplicity, every message that fits", "why_tests_cant": "all stack compositions", "anchors": ["ustack_default.go:build", "processor.go:GetOverhead", "proc_frame_decoder.go:OnUpperData", "proc_heartbeat.go:OnUpperData", "proc_stat_counter.go:OnUpperData", "proc_session_resolver.go:OnUpperData", "proc_load_balancer.go:OnUpperData"]}
{"id": "C21", "title": "End-to-end delivery through any matching pair of stacks", "statement": "If two stacks are built from the same processors, what an endpoint of one sends with destination session s is delivered, equal and exactly once, to the endpoint with session s of the other when the wire bytes arrive in one read.", "quantifier": "every list of processors, every message that fits, every session", "why_tests_cant": "all stack compositions and messages", "anchors": ["ustack_default.go:build", "proc_upperdeck.go:OnLowerData", "proc_lowerdeck.go:OnUpperData", "proc_lowerdeck.go:acceptTransport"]}
{"id": "C22", "title": "Coalesced frames are all delivered in order", "statement": "If one read returns any number of complete frames back to back, the FrameDecoder delivers exactly their payloads, in order, each once.", "quantifier": "every list of non-empty payloads that fits in one read", "why_tests_cant": "unbounded number and sizes of frames", "anchors": ["proc_frame_decoder.go:handleCurrentData"]}
{"id": "C23", "title": "Framing is independent of how the stream is split", "statement": "However the byte stream of frames is split into reads, the FrameDecoder delivers exactly the sent payloads in order.", "quantifier": "every list of payloads and every partition of the byte stream into reads", "why_tests_cant": "all partitions of all streams", "anchors": ["proc_frame_decoder.go:handleCurrentData", "proc_frame_decoder.go:handleCachedData"]}
{"id": "C24", "title": "No peer input can crash the frame decoder", "statement": "Whatever bytes a peer sends, in whatever reads, the FrameDecoder terminates without panicking and never delivers more bytes than it received.", "quantifier": "every sequence of reads of arbitrary bytes, every cache capacity", "why_tests_cant": "adversarial input space is unbounded", "anchors": ["proc_frame_decoder.go:OnLowerData", "ubuf.go:UBufAlloc"]}
{"id": "C25", "title": "Control messages are invisible to the application and vice versa", "statement": "A Heartbeat/StatCounter/LoadBalancer control message is never delivered to layers above, and an application payload is never mistaken for a control message, whatever bytes it starts with.", "quantifier": "every payload, every state", "why_tests_cant": "all payloads", "anchors": ["proc_heartbeat.go:OnLowerData", "proc_stat_counter.go:OnLowerData", "proc_load_balancer.go:OnLowerData"]}
{"id": "C26", "title": "Statistics count exactly the application messages", "statement": "The counters a StatCounter reports equal the number of messages it passed down and up while enabled; a peer that asks gets exactly these numbers (mod 2^64) and the stack name.", "quantifier": "every history of sends, receives, requests, responses and enable/disable switches", "why_tests_cant": "unbounded histories; 64-bit wrap-around", "anchors": ["proc_stat_counter.go:OnUpperData", "proc_stat_counter.go:OnLowerData", "proc_stat_counter.go:response"]}
{"id": "C27", "title": "Disabled processors are transparent", "statement": "With SetEnable(false) a processor passes every context through unchanged in both directions.", "quantifier": "every processor kind, every context, both directions", "why_tests_cant": "all processors and all contexts", "anchors": ["proc_base.go:SetEnable", "proc_*.go:OnUpperData", "proc_*.go:OnLowerData"]}
{"id": "C28", "title": "Echo returns what it received", "statement": "An enabled Echo sends back to the same connection exactly the bytes the peer sent, and never passes them up.", "quantifier": "every payload and every list of processors below the Echo", "why_tests_cant": "all compositions and payloads", "anchors": ["proc_echo.go:OnLowerData"]}
{"id": "C29", "title": "Loopback returns messages to the sending stack", "statement": "With a Loopback in the stack every message sent by an endpoint comes back to the endpoint with the destination session, equal, and nothing reaches the wire.", "quantifier": "every message, session and list of processors above the Loopback", "why_tests_cant": "all compositions", "anchors": ["proc_loopback.go:OnUpperData"]}
{"id": "C30", "title": "Discarder drops all and only received data", "statement": "An enabled Discarder delivers nothing received to upper layers while letting everything sent pass.", "quantifier": "every context", "why_tests_cant": "all inputs", "anchors": ["proc_discarder.go:Discarder"]}
{"id": "C31", "title": "Filter passes exactly what a filter function accepts", "statement": "An enabled Filter with functions fns passes a context iff some function returns true for it, counts the dropped ones, and never crashes.", "quantifier": "every list of filter functions, every context, both directions", "why_tests_cant": "arbitrary user functions", "anchors": ["proc_filter.go:NewFilter", "proc_filter.go:doFilter"]}
{"id": "C32", "title": "Forwarder diverts exactly what a forward function accepts", "statement": "An enabled Forwarder with functions fns diverts a context iff some function returns true for it (short-circuit, in order), otherwise passes it through.", "quantifier": "every list of forward functions, every context, both directions", "why_tests_cant": "arbitrary user functions", "anchors": ["proc_forwarder.go:NewForwarder", "proc_forwarder.go:doForward"]}
{"id": "C33", "title": "Load-balanced application traffic gets through", "statement": "An application message sent through a LoadBalancer is delivered by the LoadBalancer of the peer.", "quantifier": "every payload, every enable setting on both sides", "why_tests_cant": "all configurations", "anchors": ["proc_load_balancer.go:OnUpperData", "proc_load_balancer.go:OnLowerData"]}
{"id": "C34", "title": "Reference connections carry the message object itself", "statement": "On a connection that uses references, the very object sent is delivered at the peer, untouched by processors.", "quantifier": "every message and every list of processors", "why_tests_cant": "all compositions", "anchors": ["proc_frame_decoder.go:OnUpperData", "proc_codec_bytes.go:OnLowerData", "proc_lowerdeck.go:OnUpperData", "tran_reference.go:SetReference"]}
{"id": "C35", "title": "Every send terminates", "statement": "Passing a message down (or up) a built stack terminates after a bounded number of processor calls.", "quantifier": "every list of processors, every context", "why_tests_cant": "non-termination cannot be observed by a test", "anchors": ["ustack_default.go:build", "proc_echo.go", "proc_loopback.go", "proc_frame_decoder.go:OnUpperData"]}
{"id": "C36", "title": "Received messages reach exactly the endpoint of their session", "statement": "A message arriving with session s is put on the receive channel of the one endpoint served with session s, and of no other; if there is none it is dropped; nil messages are dropped.", "quantifier": "every set of endpoints, every session and message", "why_tests_cant": "all endpoint sets", "anchors": ["proc_upperdeck.go:OnLowerData", "proc_upperdeck.go:findEndPoint"]}
{"id": "C37", "title": "At most one served endpoint per session", "statement": "However endpoints are added, deleted and re-added, no two served endpoints have the same session number and no endpoint is served twice.", "quantifier": "every history of AddEndPoint/DeleteEndPoint/Run", "why_tests_cant": "unbounded histories", "anchors": ["proc_upperdeck.go:acceptEndpoint", "proc_upperdeck.go:existsEndpoint"]}
{"id": "C38", "title": "Registered endpoints are exactly the served endpoints", "statement": "Once the stack runs, GetEndPoint lists exactly the endpoints whose traffic is served.", "quantifier": "every history of AddEndPoint/DeleteEndPoint before and after Run", "why_tests_cant": "unbounded histories", "anchors": ["ustack_default.go:AddEndPoint", "ustack_default.go:DeleteEndPoint", "ustack_default.go:Run", "proc_upperdeck.go:OnEvent"]}
{"id": "C39", "title": "Adding and deleting endpoints/transports is set-like", "statement": "AddEndPoint/AddTransport of a registered item is a no-op; deletion removes exactly that item and keeps the order of the others; deletion of an unknown item is a no-op.", "quantifier": "every history of add/delete calls", "why_tests_cant": "unbounded histories", "anchors": ["ustack_default.go:AddEndPoint", "ustack_default.go:DeleteEndPoint", "ustack_default.go:AddTransport", "ustack_default.go:DeleteTransport"]}
{"id": "C40", "title": "Add/delete events are published exactly once per effective change", "statement": "Each effective add or delete publishes exactly one matching event to every listener and every endpoint registered at that time, in registration order, listeners first; no-op calls publish nothing.", "quantifier": "every history of calls", "why_tests_cant": "unbounded histories", "anchors": ["ustack_default.go:PublishEvent", "ustack_default.go:AddEndPoint", "ustack_default.go:DeleteTransport"]}
{"id": "C41", "title": "A deleted endpoint is no longer served", "statement": "After DeleteEndPoint(ep) returns, data put on ep's transmit channel is never sent, for every schedule of ep's service goroutine.", "quantifier": "every schedule, every history of add/delete", "why_tests_cant": "depends on the interleaving of the service goroutine", "anchors": ["proc_upperdeck.go:acceptEndpoint", "proc_upperdeck.go:deleteEndpoint"]}
{"id": "C42", "title": "Endpoint data is forwarded in order, once, with the right session", "statement": "While an endpoint is served by one goroutine, the messages put on its transmit channel are passed down in order, exactly once, to the destination session if set, else to the endpoint's session at the time it was accepted.", "quantifier": "every sequence of endpoint data and every schedule", "why_tests_cant": "unbounded sequences and schedules", "anchors": ["proc_upperdeck.go:acceptEndpoint", "endp_default.go:DefaultEndPointData"]}
{"id": "C43", "title": "Data listener receives every message once, in order", "statement": "With a data listener set, every message delivered to the endpoint is passed to the listener exactly once and in order; messages arriving while no listener is set stay on the receive channel.", "quantifier": "every schedule of deliveries, listener changes and the receive goroutine(s)", "why_tests_cant": "depends on goroutine interleavings", "anchors": ["endp_default.go:SetDataListener", "endp_default.go:autoReceive"]}
{"id": "C44", "title": "Slices returned by getters are stable snapshots", "statement": "The slice returned by GetEndPoint/GetTransport is not changed by later AddEndPoint/DeleteEndPoint calls.", "quantifier": "every history of calls after the getter", "why_tests_cant": "Go slice aliasing over unbounded histories", "anchors": ["ustack_default.go:GetEndPoint", "ustack_default.go:DeleteEndPoint"]}
{"id": "C45", "title": "Overhead and MTU reported by a running stack", "statement": "After the first Run, GetOverhead is the sum of the overheads of the appended processors and GetMTU is the MTU option if it is an int, else 2048.", "quantifier": "every list of processors, every option value, every number of Run calls", "why_tests_cant": "all configurations", "anchors": ["ustack_default.go:build", "ustack_default.go:parseOptions", "utils.go:OptionParseInt"]}
{"id": "C46", "title": "The chain is wired in append order", "statement": "After Run each processor's upper and lower neighbours are the previous and next appended processors, with the decks at the ends.", "quantifier": "every list of (distinct) processors", "why_tests_cant": "all list lengths", "anchors": ["ustack_default.go:build"]}
{"id": "C47", "title": "Options are last-write-wins and typed", "statement": "GetOption returns the last value set for that name (nil if none), and the option parsers return the value iff it has the expected dynamic type, else the default.", "quantifier": "every history of SetOption calls, every value", "why_tests_cant": "unbounded histories", "anchors": ["utils.go:OptionParseInt", "utils.go:OptionParseByte", "utils.go:OptionParseBool", "utils.go:OptionParseByteSlice", "proc_base.go:SetOption", "ustack_default.go:SetOption"]}
{"id": "C48", "title": "Each received chunk is passed up once, in order, and loss of the connection is reported", "statement": "The receive loop of a connection passes up every non-empty read exactly once and in order, and when the connection ends it closes it, publishes ConnectionClosed and stops.", "quantifier": "every sequence of read results", "why_tests_cant": "unbounded sequences", "anchors": ["proc_lowerdeck.go:acceptTransport", "proc_lowerdeck.go:closeConnection"]}
{"id": "C49", "title": "ConnectionClosed is published exactly once per connection", "statement": "For each connection announced by NewConnection, exactly one ConnectionClosed event is published.", "quantifier": "every interleaving of read failures, write failures and heartbeat closes", "why_tests_cant": "schedules and failure points", "anchors": ["proc_lowerdeck.go:closeConnection", "proc_lowerdeck.go:OnUpperData"]}
{"id": "C50", "title": "Failed writes are reported", "statement": "A message that could not be written to its connection leads to ConnectionClosed; a message is never silently lost on a byte-stream connection.", "quantifier": "every connection state and write result", "why_tests_cant": "all failure points", "anchors": ["proc_lowerdeck.go:OnUpperData", "tran_tcp.go:Write"]}
{"id": "C51", "title": "Heartbeat loss detection", "statement": "At each check, exactly the connections whose last heartbeat is at least the timeout (in whole seconds) old are declared lost: one HeartbeatLost event each, closed iff CloseOnLost, and no longer monitored; all others stay monitored.", "quantifier": "every set of monitored connections, every time, every timeout", "why_tests_cant": "time and connection sets are unbounded", "anchors": ["proc_heartbeat.go:check"]}
{"id": "C52", "title": "A connection with timely heartbeats is never declared lost", "statement": "If a heartbeat arrives on a connection at least once in every window shorter than the timeout, no HeartbeatLost is ever published for it; HeartbeatLost is never published twice without a heartbeat or a new connection event in between; and a connection from which nothing is heard any more, and whose end nobody notices, is declared lost in the end, exactly once.", "quantifier": "every history of heartbeats, checks, connection events and times", "why_tests_cant": "unbounded timed histories", "anchors": ["proc_heartbeat.go:check", "proc_heartbeat.go:updateMonitor", "proc_heartbeat.go:OnLowerData"]}
{"id": "C53", "title": "Reference transport delivers objects exactly once in order", "statement": "Objects set on one side of a reference transport pair come out at the other side exactly once and in order, in each direction independently, and at most MaxQueueSize are pending.", "quantifier": "every interleaving of sends and receives on both sides", "why_tests_cant": "schedules are unbounded", "anchors": ["tran_reference.go:SetReference", "tran_reference.go:GetReference", "tran_reference.go:Run"]}
{"id": "C54", "title": "Stopping a reference transport closes its connection and releases the address", "statement": "After Run then Stop on a ReferenceTransport its connection is closed, and when both sides stopped the address can be reused with a fresh channel.", "quantifier": "every history of Run/Stop/NextConnection over any set of transports", "why_tests_cant": "unbounded histories", "anchors": ["tran_reference.go:Stop", "tran_reference.go:Run"]}
{"id": "C55", "title": "Run of a reference transport is idempotent", "statement": "Calling Run again on a running ReferenceTransport has no effect and never blocks.", "quantifier": "every history of Run/NextConnection", "why_tests_cant": "blocking on a channel while holding a global lock", "anchors": ["tran_reference.go:Run"]}
{"id": "C56", "title": "A client transport dials at most MaxRetryCount times and yields at most one connection", "statement": "In client mode a TCP/UDS transport attempts to connect at most MaxRetryCount times, yields exactly one connection if one of them succeeds, and otherwise stops itself so that NextConnection returns nil.", "quantifier": "every retry limit and every sequence of dial results", "why_tests_cant": "all failure sequences", "anchors": ["tran_tcp.go:connect", "tran_unix.go:connect"]}
{"id": "C57", "title": "Run/Stop of a stream transport", "statement": "Stop on a running TCP/UDS transport closes every connection it handed out, unblocks NextConnection with nil and makes a further Stop a no-op; Run on a running transport is a no-op; Stop/Run never panic.", "quantifier": "every interleaving of Run, Stop, NextConnection, accept and connect steps", "why_tests_cant": "schedules are unbounded", "anchors": ["tran_tcp.go:Run", "tran_tcp.go:Stop", "tran_tcp.go:NextConnection", "tran_tcp.go:saveConnection", "tran_unix.go:saveConnection"]}
{"id": "C58", "title": "Endpoint data accessors", "statement": "HasDestinationSession is true exactly when a destination was set after the last clear, and GetDestinationSession returns the last destination set.", "quantifier": "every history of setter calls", "why_tests_cant": "unbounded histories", "anchors": ["endp_default.go:DefaultEndPointData"]}
{"id": "C59", "title": "Re-running a stack", "statement": "Calling Run on an already running stack leaves overhead, MTU and the single service of each endpoint unchanged.", "quantifier": "every configuration and number of Run calls", "why_tests_cant": "unbounded number of calls", "anchors": ["ustack_default.go:Run", "ustack_default.go:build"]}
{"id": "C60", "title": "A conversation arrives complete and in order", "statement": "Any number of messages sent one after the other over one connection between matching stacks are delivered, each exactly once, equal, in order, to the endpoints of their sessions, when the byte stream arrives cut at message boundaries: one message per read, or any number per read if the lowest processor is a FrameDecoder.", "quantifier": "every list of processors (around one codec), every list of messages, every grouping of messages into reads", "why_tests_cant": "unbounded conversations, all groupings and compositions", "anchors": ["proc_frame_decoder.go:handleCurrentData", "proc_lowerdeck.go:acceptTransport", "proc_upperdeck.go:OnLowerData", "ustack_default.go:build"]}
{"id": "C61", "title": "Processing data never changes the configuration", "statement": "Whatever message or byte sequence is processed, in whatever state and whether or not processing finishes, the stack's MTU, overhead, name, processor list, enable flags, processor kinds, endpoints and connection types stay as they are, closed connections stay closed, and observations are only added.", "quantifier": "every chain, entry point, direction, context and budget", "why_tests_cant": "a frame condition over all executions", "anchors": ["proc_*.go:OnUpperData", "proc_*.go:OnLowerData", "ustack_default.go:build"]}
{"id": "C62", "title": "A closed connection is never declared lost", "statement": "Once the Heartbeat processor has been told that a connection is closed, it never again counts it as monitored and never publishes ConnectionClosed for it, whatever heartbeats, checks and connections follow.", "quantifier": "every history of heartbeats received, checks, new and closed connections, in every order", "why_tests_cant": "an in-flight heartbeat of the closed connection has to arrive at an arbitrary later point", "anchors": ["proc_heartbeat.go:OnLowerData", "proc_heartbeat.go:OnEvent", "proc_heartbeat.go:check"]}
{"id": "C63", "title": "Counters count", "statement": "The transmit and receive counters of StatCounter, Filter and Forwarder are, when no message is being processed, equal to the number of messages processed, whichever goroutines passed them; in between they never exceed it and never go back.", "quantifier": "every number of goroutines and every interleaving of their loads and stores", "why_tests_cant": "lost updates need particular interleavings; the race detector only sees the runs it is given", "anchors": ["proc_stat_counter.go:OnUpperData", "proc_stat_counter.go:OnLowerData", "proc_filter.go:OnUpperData", "proc_forwarder.go:OnUpperData", "proc_upperdeck.go:acceptEndpoint", "proc_lowerdeck.go:acceptTransport"]}
{"id": "C64", "title": "A slow reader loses nothing and holds up nobody else", "statement": "However slowly the users of the endpoints take messages, the messages of a connection for an endpoint arrive each once and in order, the memory used per endpoint is bounded, no goroutine is stuck for ever while users take messages, and a user who takes nothing does not keep messages from other endpoints.", "quantifier": "every number of connections and endpoints, every interleaving, unbounded runs", "why_tests_cant": "needs full channels (512) and all interleavings of readers and users", "anchors": ["proc_upperdeck.go:OnLowerData", "endp_default.go:NewEndPoint", "endp_default.go:autoReceive", "proc_lowerdeck.go:acceptTransport"]}
{"id": "C65", "title": "A waiting Unix transport can be dialled", "statement": "While the accept goroutine of a Unix socket transport waits on an open listener, the socket file exists and leads to that listener; starting and stopping the transport, in any order, never ends the process.", "quantifier": "every interleaving of Run, Stop, the accept goroutines of all runs, and clients", "why_tests_cant": "goroutines of earlier runs act at arbitrary later points", "anchors": ["tran_unix.go:accept", "tran_unix.go:Run", "tran_unix.go:Stop"]}
{"id": "C66", "title": "Every observer sees the life of a connection in the same order", "statement": "Every connection a transport hands out is announced once to every observer, before its data are delivered and before its end is announced; its end is announced once; and all observers see the events in the same order.", "quantifier": "every number of transports and connections, every interleaving of accept, receive and heartbeat goroutines, event delivery observer by observer", "why_tests_cant": "events are published by many goroutines without a lock", "anchors": ["proc_lowerdeck.go:acceptTransport", "proc_lowerdeck.go:closeConnection", "ustack_default.go:PublishEvent", "proc_heartbeat.go:check"]}
{"id": "C67", "title": "The endpoint map is never accessed concurrently", "statement": "No two goroutines access UpperDeck's endpoint map at the same time if one of them writes (the Go runtime ends the process otherwise).", "quantifier": "every set of callers and service goroutines, every interleaving", "why_tests_cant": "the window is a map access long", "anchors": ["proc_upperdeck.go:acceptEndpoint", "proc_upperdeck.go:deleteEndpoint", "proc_upperdeck.go:existsEndpoint", "proc_upperdeck.go:findEndPoint"]}
{"id": "C68", "title": "Listeners may add and delete", "statement": "If event listeners add and delete endpoints and transports from inside their callbacks, every call returns without panic, no endpoint is registered twice, the ones deleted are the ones removed, the ones added are registered, and each change is announced once.", "quantifier": "every behaviour of the listeners (a function of the history), every registry, every depth of nesting", "why_tests_cant": "all listener behaviours cannot be enumerated", "anchors": ["ustack_default.go:AddEndPoint", "ustack_default.go:DeleteEndPoint", "ustack_default.go:AddTransport", "ustack_default.go:DeleteTransport", "ustack_default.go:PublishEvent"]}
{"id": "C69", "title": "Chained setters configure the object they start from", "statement": "A chain of setters on a new processor or feature (SetName, SetOption, SetEnable, ForServer) returns the object it started from, and afterwards that object has all the settings, later ones over earlier ones.", "quantifier": "every chain of setters, every kind of constructor, every heap", "why_tests_cant": "all chains; the copy and the original look alike until something is read back", "anchors": ["proc_base.go:NewProcBaseInstance", "proc_base.go:SetWhere", "feat_base.go:NewFeatBaseInstance", "feat_base.go:SetName", "ustack_default.go:GetFeature"]}
{"id": "C70", "title": "An event reaches every endpoint once although listeners add and delete", "statement": "An event published is handed exactly once to every endpoint registered at the time of publishing (and not deleted before its turn), in the order of registration, even if the listeners called add and delete endpoints.", "quantifier": "every registry, every position of the endpoint that deletes and of the one deleted, any additions", "why_tests_cant": "depends on array sharing between the range loop and append; all positions and lengths", "anchors": ["ustack_default.go:PublishEvent", "ustack_default.go:AddEndPoint", "ustack_default.go:DeleteEndPoint"]}
{"id": "C71", "title": "A connection is closed only for a reason", "statement": "While the peer has not ended its stream, the stack publishes the close of a connection only because a write on it has just failed, or because the application handed in nil.", "quantifier": "every chain of processors in every state, every message sent or received, every control message, every behaviour of the connection", "why_tests_cant": "all chains, states and answers of the connection", "anchors": ["proc_lowerdeck.go:OnUpperData", "proc_lowerdeck.go:closeConnection", "proc_heartbeat.go:OnEvent", "proc_stat_counter.go:request", "tran_reference.go:SetReference"]}
{"id": "C72", "title": "Work for one connection touches only that connection", "statement": "Whatever is sent on a connection, received from it or sent periodically on it: everything written, delivered, closed or refreshed names this connection, and no other connection changes, as long as user functions leave the context's connection alone.", "quantifier": "every chain of processors in every state, every sequence of events on any connections, whether the handling returns, panics or goes on", "why_tests_cant": "a mix-up of connections shows only for particular interleavings", "anchors": ["proc_upperdeck.go:OnLowerData", "proc_lowerdeck.go:OnUpperData", "proc_frame_decoder.go:OnLowerData", "ustack_default.go:NewUStackContext"]}
{"id": "C73", "title": "Frame decoding of a connection depends only on that connection", "statement": "With several connections on one stack, what the FrameDecoder hands up for a connection consists of that connection's bytes only and is not affected by what other connections send.", "quantifier": "every number of connections, every sequence of reads of any bytes, every cache capacity", "why_tests_cant": "all interleavings of reads and cuts", "anchors": ["proc_frame_decoder.go:OnLowerData", "proc_frame_decoder.go:handleCurrentData", "proc_frame_decoder.go:handleCachedData", "ubuf.go:ReadFrom"]}
{"id": "C74", "title": "A network of stacks", "statement": "Any number of matching stacks joined by ordered lossless byte connections, each sending application messages and heartbeats on any of its connections while reading others: no call panics, and on every connection the receiver sees exactly what was sent into it, once and in order, up to what is still on the way.", "quantifier": "every number of stacks, every topology, every chain of processors, every interleaving of sends and reads, every length of run", "why_tests_cant": "all interleavings, chains and topologies", "anchors": ["proc_upperdeck.go:acceptEndpoint", "proc_upperdeck.go:OnLowerData", "proc_lowerdeck.go:OnUpperData", "proc_frame_decoder.go:OnLowerData", "proc_heartbeat.go:OnEvent", "proc_session_resolver.go:OnLowerData"]}
{"id": "C75", "title": "Programs deliver to the endpoints they registered", "statement": "Two programs that call AddEndPoint, DeleteEndPoint, AppendDataProcessor, SetOption, AddTransport, Run and so on in any order, with one Run each, the same processors appended before it and endpoints with different sessions: Run gets through exactly if every FrameDecoder has a positive cache capacity; afterwards a message sent to a session arrives once and equal at exactly the endpoint the other program has registered for this session (also one added after Run), and a session whose endpoint was deleted has no receiver. The same holds for any number of such programs joined by connections.", "quantifier": "every sequence of calls before and after Run, every chain with one codec, every message that fits, every order of the served map, every network and interleaving", "why_tests_cant": "all call sequences; registries, links, head room and data path have to fit together", "anchors": ["ustack_default.go:Run", "ustack_default.go:build", "ustack_default.go:AddEndPoint", "ustack_default.go:DeleteEndPoint", "ustack_default.go:AppendDataProcessor", "proc_upperdeck.go:acceptEndpoint", "proc_frame_decoder.go:Run"]}
{"id": "C76", "title": "The example programs do what they show", "statement": "In the repository's example programs every message of the kind they send, with any content that fits into the MTU of 2048, arrives where the example's other half expects it: session, dynamic_endpoint, microservices, tcp, speedtest, unix, dynamic_transport, jsoncodec, gobcodec, genericcodec at the endpoint with the session of the sender; echo at the client's second endpoint after a round trip; loopback at the sender; reference as the same object; discard nowhere.", "quantifier": "every content and length up to the MTU, every number of clients of one server", "why_tests_cant": "the examples send a few constants and print", "anchors": ["examples/session/main.go:client", "examples/dynamic_endpoint/main.go:client", "examples/microservices/main.go:startApp", "examples/tcp/main.go:client", "examples/speedtest/main.go:client", "examples/unix/main.go:client", "examples/dynamic_transport/main.go:client", "examples/echo/main.go:client", "examples/discard/main.go:server", "examples/loopback/main.go:client", "examples/reference/main.go:client"]}
{"id": "C77", "title": "Statistics are collected end to end", "statement": "A StatCounter that asks over a connection makes the StatCounter of the other stack answer in one write, and prints exactly that one's two counters and its name (128 bytes, filled up with zeros); no endpoint gets anything and no counter changes through it, whatever processors are above the two. The counters it prints are those of the traffic: after a conversation of N messages every enabled StatCounter below the codec has counted N more, sent on one side, received on the other. In particular the collector of examples/statcounter gets the counters of the stacks of examples/tcp.", "quantifier": "every chain of header processors below the StatCounters, different processors above, every counter value, name and conversation, every cut of the stream at message boundaries", "why_tests_cant": "all chains and histories; the control messages must not be confused with messages", "anchors": ["proc_stat_counter.go:request", "proc_stat_counter.go:response", "proc_stat_counter.go:show", "proc_stat_counter.go:OnLowerData", "proc_stat_counter.go:OnUpperData", "examples/statcounter/main.go:client"]}
{"id": "C78", "title": "Heartbeats in real time", "statement": "If a peer sends heartbeats every I with jitter at most J and delay at most D, it is never declared lost while it lives if I+J+D is less than the timeout, and this bound is exact; whatever other peers do. A watched connection from which nothing more arrives is declared lost not before the timeout and at most one second plus the check's slack after it. If I exceeds timeout + 1 s + slack + D every open connection is declared lost after every heartbeat.", "quantifier": "every timed execution: any number of connections, intervals, delays, timeouts, accept and check times, deaths and closes", "why_tests_cant": "needs every phase between senders, network and the checking goroutine, over unbounded time", "anchors": ["proc_heartbeat.go:check", "proc_heartbeat.go:updateMonitor", "proc_heartbeat.go:OnEvent", "proc_heartbeat.go:Run", "examples/heartbeat/main.go:client", "examples/heartbeat/main.go:server"]}
{"id": "C79", "title": "Requests and answers never get stuck in the channels", "statement": "A client sends requests to a server that answers each one (a data listener, or an Echo) and reads the answers, over the bounded channels of two stacks. However the goroutines are scheduled they come to rest after a bounded number of steps; the answers arrive complete and in order; and the client's program is finished if and only if it never has more requests outstanding than the channels and goroutines on the way hold altogether: 2053 + 2·MaxQueueSize with a listener, 1027 + 2·MaxQueueSize with an Echo over a Reference transport. A client whose answers are taken by its own data listener never gets stuck.", "quantifier": "every program of sends and receives, every schedule, every number and capacity of buffers, every answer function", "why_tests_cant": "a deadlock needs thousands of outstanding messages; the bound must hold for all schedules", "anchors": ["endp_default.go:NewEndPoint", "endp_default.go:autoReceive", "proc_upperdeck.go:acceptEndpoint", "proc_upperdeck.go:OnLowerData", "proc_lowerdeck.go:acceptTransport", "tran_reference.go:newReferenceChannel", "proc_echo.go:OnLowerData", "examples/microservices/main.go:startApp"]}
{"id": "C80", "title": "A client that stops reading does not affect the others", "statement": "A server with many clients answers every request of a client that reads, in order, whatever the other clients do, in particular if some of them do not read their answers.", "quantifier": "every number of clients, every interleaving, every capacity of channels and connections", "why_tests_cant": "needs a client that fills the buffers of the operating system, and all interleavings", "anchors": ["proc_upperdeck.go:acceptEndpoint", "proc_lowerdeck.go:OnUpperData", "endp_default.go:autoReceive", "proc_echo.go:OnLowerData", "examples/microservices/main.go:startHelloServer", "examples/speedtest/main.go:server"]}
{"id": "C81", "title": "A HeartbeatLost listener may wait for a message", "statement": "A listener that, when told that a connection is lost, waits for a message of another connection goes on when the message has arrived there; meanwhile heartbeats are counted, new connections announced and connections checked.", "quantifier": "every number of connections, every interleaving of arrivals, receive goroutines, new connections and checks, every choice of what listeners wait for", "why_tests_cant": "needs a heartbeat between the loss of one connection and the answer on another; a deadlock shows only as silence", "anchors": ["proc_heartbeat.go:check", "proc_heartbeat.go:updateMonitor", "proc_heartbeat.go:OnLowerData", "proc_heartbeat.go:OnEvent", "ustack_default.go:PublishEvent", "proc_lowerdeck.go:acceptTransport"]}
{"id": "C82", "title": "A program that counts connections exits when the last one is gone", "statement": "The programs that count NewConnection and ConnectionClosed events and exit at zero exit exactly when there have been connections and every one of them is closed.", "quantifier": "every number of connections, every interleaving of accepting, reading, writing (failing or not), closing and stopping", "why_tests_cant": "needs a write that fails while the receive goroutine sees the same error, with another connection still open", "anchors": ["examples/dynamic_transport/main.go:client", "examples/dynamic_transport/main.go:server", "examples/dynamic_endpoint/main.go:client", "examples/dynamic_endpoint/main.go:server", "proc_lowerdeck.go:closeConnection", "proc_lowerdeck.go:OnUpperData"]}
{"id": "C83", "title": "A session object answers on the connection it reads from", "statement": "Every Write of an AppSession goes to an accepted connection, namely to the connection of the message read last; every connection the session accepts is served, its messages are read in order.", "quantifier": "every number of connections, every interleaving of accepting, signalling, arriving, receiving, reading and writing", "why_tests_cant": "needs a second client at exactly the moment between a read and the answer; the third client hangs without any message", "anchors": ["examples/microservices/main.go:NewAppSession", "examples/microservices/main.go:WaitReady", "examples/microservices/main.go:Read", "examples/microservices/main.go:Write", "examples/microservices/main.go:Run", "proc_lowerdeck.go:acceptTransport"]}
{"id": "C84", "title": "A listener may use the stack it is registered with", "statement": "The listeners of the dynamic examples, which call methods of the variable the stack is assigned to, never find it unassigned; the first connection adds the further transport, once.", "quantifier": "every number of transports, every interleaving of starting the accept goroutines, assigning and announcing connections", "why_tests_cant": "needs a connection before Run has returned; a panic that depends on the scheduler", "anchors": ["examples/dynamic_transport/main.go:client", "examples/dynamic_transport/main.go:server", "examples/dynamic_endpoint/main.go:client", "examples/dynamic_endpoint/main.go:server", "ustack_default.go:Run", "proc_lowerdeck.go:Run"]}
{"id": "C85", "title": "Connections read at the same time do not disturb each other's frames", "statement": "One FrameDecoder serves all connections, each from its own receive goroutine. Whatever chunks the connections receive and however the goroutines interleave, what is handed up for a connection are the frames of that connection's own chunks, in order, completely when its goroutine has worked them off; a goroutine never waits for another; nothing panics.", "quantifier": "every number of connections, every list of chunks per connection, every cache capacity, every interleaving of the accesses to the cache", "why_tests_cant": "needs two or three goroutines inside the same few instructions; the race detector sees only what happened", "anchors": ["proc_frame_decoder.go:OnLowerData", "proc_frame_decoder.go:handleCurrentData", "proc_frame_decoder.go:handleCachedData", "proc_frame_decoder.go:Run", "ubuf.go:ReadFrom", "ubuf.go:Read", "ubuf.go:Reset", "proc_lowerdeck.go:acceptTransport"]}
{"id": "C86", "title": "Messages worked on at the same time do not influence each other", "statement": "Endpoints' goroutines, one receive goroutine per connection and the timers of Heartbeat and StatCounter all run through the same processors at the same time. However they interleave, each goroutine does to its messages exactly what it would do if it were alone: the endpoints are handed, and the connections are asked to write, exactly what the goroutines one by one would hand over and write, each in its own order; a goroutine can go on if and only if it could alone; nobody panics who would not alone; if each comes to an end alone, all come to an end together.", "quantifier": "every chain of processors, every number of goroutines, every list of messages sent, bytes received and control messages per goroutine, every interleaving of the handlers' hops", "why_tests_cant": "the number of interleavings is astronomic; tests run one message at a time or observe one interleaving", "anchors": ["proc_upperdeck.go:acceptEndpoint", "proc_upperdeck.go:OnLowerData", "proc_lowerdeck.go:OnUpperData", "proc_lowerdeck.go:acceptTransport", "proc_heartbeat.go:OnLowerData", "proc_stat_counter.go:OnLowerData", "proc_frame_decoder.go:OnLowerData", "proc_session_resolver.go:OnLowerData"]}
{"id": "C87", "title": "A server under load delivers every message once and keeps packets whole", "statement": "Any number of receive goroutines (one per connection), sending endpoints and heartbeat goroutines work in one stack whose FrameDecoder has more room than the MTU, with writes that succeed and reads that bring whole packets. Under every schedule: everything comes to an end, nobody panics or gets stuck, no connection is closed; the endpoints are handed every message read exactly once, those of a connection in the order they were read; every packet sent is one write, so the byte stream of a connection is made of whole packets, each once; and a matching stack that reads them hands them up, each once.", "quantifier": "every chain around one codec, every number of goroutines, connections and messages, every interleaving of the handlers' hops on both sides", "why_tests_cant": "load tests see a few interleavings and cannot tell a lost message from a late one", "anchors": ["proc_upperdeck.go:acceptEndpoint", "proc_upperdeck.go:OnLowerData", "proc_lowerdeck.go:OnUpperData", "proc_lowerdeck.go:acceptTransport", "proc_heartbeat.go:Run", "proc_frame_decoder.go:OnLowerData", "proc_frame_decoder.go:Run"]}
{"id": "C88", "title": "Two programs that answer each other's requests do not lock each other up", "statement": "Two programs send requests over one connection and each has a data listener that answers the other's requests on the same endpoint. However the goroutines are scheduled they come to rest after a bounded number of steps, and the answers that have arrived are those to the first requests, in order. Every schedule ends with every request answered if and only if one of the programs sends no requests or both together send fewer than all channels and goroutines on both ways hold: 2054 + 2·MaxQueueSize over a Reference transport.", "quantifier": "every list of requests on both sides, every answer function, every number and capacity of buffers, every schedule", "why_tests_cant": "the deadlock needs both listeners to be blocked at the same time with thousands of messages under way; the bound is over all schedules", "anchors": ["endp_default.go:NewEndPoint", "endp_default.go:autoReceive", "proc_upperdeck.go:acceptEndpoint", "proc_upperdeck.go:OnLowerData", "proc_lowerdeck.go:acceptTransport", "tran_reference.go:newReferenceChannel"]}
{"id": "C89", "title": "Closing a connection ends the work on it", "statement": "After Close on one side of a connection, and whatever both sides were doing: the receive goroutines of both sides come to their ends, nobody who sends waits for ever, nothing that arrives after Close is handed up on the closed side, and the other side's stack gets a ConnectionClosed event.", "quantifier": "every state of both sides, every number of senders, every capacity of the connection, every interleaving of the goroutines of both sides and of further calls of Close", "why_tests_cant": "a goroutine that waits for ever looks like one that is idle; the blocked sender needs a channel filled after the other side has closed", "anchors": ["proc_lowerdeck.go:acceptTransport", "proc_lowerdeck.go:OnUpperData", "proc_lowerdeck.go:closeConnection", "tran_reference.go:GetReference", "tran_reference.go:SetReference", "tran_reference.go:Close", "tran_tcp.go:Read", "tran_tcp.go:Write", "tran_tcp.go:Close"]}
{"id": "C90", "title": "Processors may be switched on and off while the stack runs", "statement": "SetEnable may be called between messages: whatever was switched on or off before, at either end, each message that the sender's present configuration carries is delivered, once, in order and as it was sent, to the endpoint of its session, and later messages are not affected by earlier switches.", "quantifier": "every stack, every sequence of SetEnable calls and messages, every session and payload, every order in which the switch and the messages under way reach the receiver", "why_tests_cant": "tests build a stack once and never switch; the failures need a message under way at the moment of the switch, and depend on what its bytes look like when read as a header", "anchors": ["proc_base.go:SetEnable", "proc_session_resolver.go:OnLowerData", "proc_frame_decoder.go:OnLowerData", "proc_frame_decoder.go:handleCurrentData", "proc_stat_counter.go:OnLowerData"]}
{"id": "C91", "title": "Deleting a transport ends the service of every connection it made", "statement": "After DeleteTransport, once the goroutines of the stack have come to rest, every accept goroutine of the transport has ended, and every connection the transport made is closed, is not read any more, and its end has been announced.", "quantifier": "every TCP or Unix transport, added and deleted any number of times, every interleaving of its goroutines, of LowerDeck's accept and receive goroutines, of the peers and of the program", "why_tests_cant": "tests delete a transport when nothing is going on; a connection that is between Accept and NewConnection at that moment is needed to see it survive", "anchors": ["proc_lowerdeck.go:deleteTransport", "proc_lowerdeck.go:acceptTransport", "tran_tcp.go:Stop", "tran_tcp.go:NextConnection", "tran_unix.go:Stop", "ustack_default.go:DeleteTransport"]}
{"id": "C92", "title": "Every connection an added transport makes is announced once and read until it is closed", "statement": "Every connection made by a transport of a running stack is announced (NewConnection) exactly once, then read by exactly one goroutine until it is closed by one of its ends, and then its end is announced, once; also if the transport is deleted and added again in between.", "quantifier": "every TCP or Unix transport, added and deleted any number of times, every interleaving of its goroutines, of LowerDeck's accept and receive goroutines, of the peers and of the program", "why_tests_cant": "the connections that get lost are those waiting while an accept goroutine is busy announcing another one and the transport is deleted and added again; no test arranges that", "anchors": ["proc_lowerdeck.go:acceptTransport", "proc_lowerdeck.go:closeConnection", "tran_tcp.go:accept", "tran_tcp.go:NextConnection", "tran_tcp.go:Run", "ustack_default.go:AddTransport"]}
{"id": "C93", "title": "Endpoints and transports may be added and deleted from several goroutines", "statement": "If several goroutines call AddEndPoint and DeleteEndPoint (or AddTransport and DeleteTransport) for different items at the same time, no call panics, and once all have returned those added are registered, those deleted are not, all others are as before and in the same order, nothing is registered twice, and each call that changed something published one event.", "quantifier": "every content of the registry, every number of callers and calls, every interleaving of their reads and writes of the slice and its array", "why_tests_cant": "event listeners run on the accept and receive goroutines, so real programs make these calls concurrently, but the window is a few instructions; a test hits it once in millions of runs and then sees a missing endpoint far from the cause", "anchors": ["ustack_default.go:AddEndPoint", "ustack_default.go:DeleteEndPoint", "ustack_default.go:AddTransport", "ustack_default.go:DeleteTransport"]}
{"id": "C94", "title": "Objects sent through reference transports are passed up exactly once and in order", "statement": "Whatever reference transports the stacks of a process have, and however often they are deleted and added again, every object sent at one side of an address is passed up by LowerDeck at the other side exactly once, and in the order in which the objects were sent.", "quantifier": "every set of reference transports (any addresses, sides and queue sizes), every number of additions and deletions of each, every interleaving of LowerDeck's accept and receive goroutines with the senders", "why_tests_cant": "a transport added again gets a second receive goroutine on the same channel; objects are reordered only if both hold one at the same time", "anchors": ["tran_reference.go:Run", "tran_reference.go:Stop", "tran_reference.go:GetReference", "proc_lowerdeck.go:acceptTransport"]}
{"id": "C95", "title": "The end of a reference connection is noticed at both ends", "statement": "After a reference connection was closed at one side, or its transport was deleted, nothing is passed up from it any more; once the goroutines have come to rest its receive goroutines have ended at both sides, and the end was announced once at each.", "quantifier": "every set of reference transports, every history of additions, deletions, sends and closes, every interleaving with LowerDeck's goroutines", "why_tests_cant": "the receive goroutine waits in a channel receive that Close does not interrupt; tests that close and then exit never see it", "anchors": ["tran_reference.go:Close", "tran_reference.go:Stop", "tran_reference.go:GetReference", "proc_lowerdeck.go:acceptTransport", "proc_lowerdeck.go:closeConnection"]}
{"id": "C96", "title": "An event reaches every endpoint once although another goroutine adds and deletes", "statement": "An event published by any goroutine is handed exactly once, in the order of registration, to every endpoint registered from the beginning to the end of the publication, and to no endpoint that was not registered meanwhile, whatever endpoints the program adds and deletes at the same time.", "quantifier": "every registry, every program of additions and deletions, any number of events published at any moments, every interleaving", "why_tests_cant": "the range loop and append share an array; depends on how far each publisher has come when a deletion moves the elements", "anchors": ["ustack_default.go:PublishEvent", "ustack_default.go:AddEndPoint", "ustack_default.go:DeleteEndPoint", "proc_lowerdeck.go:acceptTransport"]}
{"id": "C97", "title": "No input crashes a stack", "statement": "Whatever messages the program sends, whatever bytes and objects arrive on whatever connections and whatever control messages the processors send, in any order, no goroutine of a running stack panics.", "quantifier": "every chain of processors, every history of messages, reads, received objects and control messages, of any length", "why_tests_cant": "the bytes of the peer are chosen by an attacker; which of them crash depends on the whole history of reads and on every processor of the chain", "anchors": ["proc_frame_decoder.go:OnLowerData", "proc_frame_decoder.go:OnUpperData", "proc_stat_counter.go:OnUpperData", "proc_heartbeat.go:OnUpperData", "proc_load_balancer.go:OnUpperData", "proc_lowerdeck.go:acceptTransport"]}
{"id": "C98", "title": "A closed connection is forgotten", "statement": "Once the end of a connection was published, the transport that made it and the Heartbeat that watched it do not hold on to it any more, so that the memory of a server depends on the connections that are open and not on those that have been.", "quantifier": "every history of starts, deletions, connections, reads and closes of a TCP or Unix transport of a running stack and every interleaving of its goroutines; every history of a Heartbeat", "why_tests_cant": "shows only after very many connections; nothing observable is wrong before the memory is used up", "anchors": ["tran_tcp.go:saveConnection", "tran_tcp.go:dropConnections", "tran_unix.go:saveConnection", "proc_lowerdeck.go:closeConnection", "proc_heartbeat.go:updateMonitor", "proc_heartbeat.go:check"]}
{"id": "C99", "title": "Snapshots of different types can be mixed", "statement": "Whatever mixture of Reference, CopyOnWrite and CopyDirectly snapshots is made of buffers and of their snapshots, bytes written through one buffer are seen by exactly those buffers that are connected with it by Reference snapshots; all others behave as independent copies.", "quantifier": "every history of allocations, snapshots of all types and method calls on any of the buffers", "why_tests_cant": "which buffers share storage depends on the whole history of snapshots and writes", "anchors": ["ubuf.go:UBufMakeSnapshot", "ubuf.go:resolveCopyOnWriteIfNeed"]}
{"id": "C100", "title": "Handling a received message comes to an end", "statement": "Whatever bytes a peer sends, every processor of the receiving stack finishes with them, so that the receive goroutine of the connection goes on to the next read; no standard reader that is given a buffer (io.ReadFull, io.ReadAll, a gob decoder) reads from it forever.", "quantifier": "every content of a buffer, every chain of processors below the codec, every session, every behaviour of the decoder on complete messages", "why_tests_cant": "the goroutine hangs without any message or error, and only for truncated input that no honest peer sends", "anchors": ["ubuf.go:Read", "proc_codec_gob.go:OnLowerData", "proc_codec_generic.go:OnLowerData", "proc_lowerdeck.go:acceptTransport"]}
{"id": "C101", "title": "A message is sent as it was when it was handed over", "statement": "What is passed down for a message put on an endpoint's transmit channel is the destination, the connection and the data it had at that moment, whatever the program writes into the EndPointData or into the data afterwards, so that a program may reuse its objects and buffers.", "quantifier": "every program of writes and sends, every kind of object (any fields, slices and pointers), every capacity of the channel, every interleaving of the program with the single reads of the endpoint's goroutine", "why_tests_cant": "how far the goroutine lags behind depends on the scheduler; a short message sent by a lightly loaded program is always read in time", "anchors": ["endp_default.go:NewEndPoint", "endp_default.go:SetDestinationSession", "proc_upperdeck.go:acceptEndpoint", "proc_codec_bytes.go:OnUpperData"]}
{"id": "C102", "title": "No argument makes a call on the stack panic or change what is served", "statement": "Whatever a program passes to the methods of a stack (nil endpoints, transports, processors, features and listeners, options of any value, events of its own with any type and data), no call panics, and the endpoints served by a running stack are exactly the registered ones.", "quantifier": "every sequence of calls of SetEventListener, AddFeature, GetFeature, AddEndPoint, DeleteEndPoint, AddTransport, DeleteTransport, AppendDataProcessor, SetOption, PublishEvent and Run with any arguments", "why_tests_cant": "which call fails depends on all calls before: a nil endpoint is accepted and only the next event fails; an event of the wrong kind is harmless until a StatCounter has an interval", "anchors": ["ustack_default.go:PublishEvent", "ustack_default.go:Run", "ustack_default.go:GetFeature", "proc_heartbeat.go:OnEvent", "proc_stat_counter.go:OnEvent", "proc_upperdeck.go:OnEvent", "proc_lowerdeck.go:OnEvent"]}
{"id": "C103", "title": "A conversation arrives however the stream is cut", "statement": "The messages sent one after the other over one connection between matching stacks are delivered, each exactly once, equal and in order, however the byte stream is cut into reads.", "quantifier": "every list of processors (around one codec), every list of messages, every cut of the bytes sent into reads that fit the read buffer", "why_tests_cant": "how a stream is cut depends on the network; a test on one machine nearly always reads what was written in one piece", "anchors": ["proc_frame_decoder.go:handleCurrentData", "proc_frame_decoder.go:handleCachedData", "proc_lowerdeck.go:acceptTransport", "proc_upperdeck.go:OnLowerData"]}
{"id": "C104", "title": "Timers keep to their configuration", "statement": "A Heartbeat or StatCounter with an interval of I seconds sends on every connection at most one control message every I seconds, however late its goroutines are scheduled; there is one such goroutine for each processor and announced connection (none for a StatCounter whose interval is not positive) and one checking goroutine for each Heartbeat; a goroutine is never stuck, and once its connection is closed it ends, after at most one more message.", "quantifier": "every set of these processors, every int interval, every sequence of Runs, announcements and closings, every interleaving and every passing of time", "why_tests_cant": "intervals are seconds to years, and a message after the end of the connection needs a close between two adjacent instructions; a test waits for one or two beats", "anchors": ["proc_heartbeat.go:OnEvent", "proc_heartbeat.go:Run", "proc_stat_counter.go:OnEvent", "proc_stat_counter.go:Run", "utils.go:OptionParseInt"]}
{"id": "C105", "title": "No field is accessed by two goroutines at once", "statement": "In a program that calls the library from one goroutine, no field of a stack, its decks, processors, endpoints, transports and connections is written by one goroutine while another one may read or write it (the library has no data races).", "quantifier": "every chain of Heartbeat, StatCounter, FrameDecoder and other processors, every number of endpoints, transports and connections, every order of the calls of the program before and after Run, every interleaving", "why_tests_cant": "the race detector sees only the accesses of one schedule; most of these pairs are microseconds apart and one of them happens once in a connection's life", "anchors": ["proc_upperdeck.go:acceptEndpoint", "proc_lowerdeck.go:acceptTransport", "tran_tcp.go:Run", "tran_tcp.go:Stop", "tran_tcp.go:Close", "proc_heartbeat.go:check", "proc_stat_counter.go:OnUpperData", "endp_default.go:SetDataListener", "ustack_default.go:PublishEvent"]}
{"id": "C106", "title": "Goroutines never lock each other up", "statement": "Whatever the listeners and goroutines of a program call (adding and deleting endpoints and transports, publishing events), a goroutine that waits for a mutex of the library can always get it: no goroutines wait for each other in a circle, none locks a mutex it already holds, and every mutex taken is given back.", "quantifier": "every chain of processors, every number of Heartbeats, endpoints, transports, connections and goroutines of the program, listeners that call the library to any depth, every interleaving", "why_tests_cant": "a deadlock needs two goroutines between adjacent Lock calls, or a listener that happens to be called with a mutex held; a test that hits it hangs instead of failing", "anchors": ["proc_heartbeat.go:check", "proc_heartbeat.go:OnEvent", "proc_upperdeck.go:acceptEndpoint", "proc_upperdeck.go:deleteEndpoint", "tran_tcp.go:Run", "tran_tcp.go:Stop", "tran_reference.go:Run", "tran_reference.go:Stop", "ustack_default.go:PublishEvent"]}
{"id": "C107", "title": "The chains of different stacks are separate", "statement": "Whatever processors a program appends to its stacks and in whatever order it runs them, a message sent into a stack passes the processors that stack had at its last Run, in order, and leaves through its own LowerDeck; a received one passes them in reverse and reaches its own UpperDeck; and all of them belong (ustack) to this stack.", "quantifier": "any number of stacks, every history of AppendDataProcessor and Run, including processors appended more than once or to more than one stack", "why_tests_cant": "which field is overwritten depends on which stack was run last and how often; a test uses one stack, or stacks with processors of their own", "anchors": ["ustack_default.go:build", "ustack_default.go:AppendDataProcessor", "ustack_default.go:Run", "proc_base.go:SetUpper", "proc_base.go:SetLower", "proc_base.go:SetUStack"]}
{"id": "C108", "title": "An endpoint or transport may belong to several stacks", "statement": "With an endpoint and a transport added to any stacks of a program: every message the endpoint sends is passed down once, in order, in the stack that announced its connection; every connection is announced once; everything that comes on the transport's connections reaches the endpoint; and deleting the transport from one stack closes only this stack's connections.", "quantifier": "any number of stacks with the endpoint and with the transport, any number of connections and messages, every interleaving of the goroutines of the stacks", "why_tests_cant": "which stack takes a message or a connection from the common channel is decided by the scheduler, and a test with one stack has no choice", "anchors": ["proc_upperdeck.go:acceptEndpoint", "proc_lowerdeck.go:acceptTransport", "proc_lowerdeck.go:deleteTransport", "tran_tcp.go:NextConnection", "tran_tcp.go:Stop", "ustack_default.go:AddEndPoint", "ustack_default.go:AddTransport"]}
{"id": "C109", "title": "Peers may have different MTUs", "statement": "If two stacks are built from the same processors and differ in the option MTU, every message that the sender's MTU lets it send can be delivered by the receiver: there is a way to cut the byte stream into reads with which exactly the messages sent are delivered, each once, in order and to the endpoint of its session.", "quantifier": "any two MTUs, any conversation, every cut of the stream into reads of at most the receiver's MTU", "why_tests_cant": "tests run both ends with the default MTU, and the loss needs one message of a size between the two MTUs", "anchors": ["ustack_default.go:Run", "ustack_default.go:GetMTU", "proc_lowerdeck.go:acceptTransport", "proc_frame_decoder.go:OnLowerData", "proc_frame_decoder.go:Run"]}
{"id": "C110", "title": "An endpoint may be deleted and added again", "statement": "However often an endpoint is deleted and added again, one goroutine serves it while it is registered and none while it is not, once the goroutines have taken their stop signals; what is put on its transmit channel is passed down once, in order, with the session it names or the one the endpoint had when it was added last.", "quantifier": "every schedule of any number of additions and deletions of an endpoint, messages, changes of its session number and steps of all goroutines started for it", "why_tests_cant": "tests add and delete once, and a goroutine is lost only if the deletion falls between two waits of its select", "anchors": ["proc_upperdeck.go:acceptEndpoint", "proc_upperdeck.go:deleteEndpoint", "proc_upperdeck.go:OnEvent"]}
{"id": "C111", "title": "Nothing queued waits for ever", "statement": "If the scheduler does not hold up for ever a goroutine that could go on: every message put on the transmit channel of an endpoint that is added and not deleted is passed down in the end, in order; every message delivered to an endpoint with a data listener is passed to a listener in the end, in order; every message that arrives on a connection is taken by the user of its endpoint in the end, in order, if the users of all endpoints keep taking messages; every connection a transport makes is announced to every listener, endpoint and processor in the end and gets its receive goroutine; every request to a service that answers from its data listener is answered in the end, in order, if all clients keep reading; every request to a server with an Echo comes back in the end, in order, if the client that sent it keeps reading, whatever the other clients do; and every event is passed in the end to every endpoint that stays registered, once each and in order, whatever endpoints are added and deleted meanwhile.", "quantifier": "every infinite execution, with any number of messages, endpoints, connections and transports and any calls of the program, in which the scheduler is fair to the goroutine concerned", "why_tests_cant": "a test ends after finite time, so it can only see that a message has not come yet", "anchors": ["proc_upperdeck.go:acceptEndpoint", "endp_default.go:autoReceive", "proc_lowerdeck.go:acceptTransport", "proc_upperdeck.go:OnLowerData", "ustack_default.go:PublishEvent"]}
{"id": "C112", "title": "A program that is left alone comes to a good end", "statement": "If the scheduler does not rest for ever while some goroutine can go on: a client's program that sends requests and reads answers ends with the right answers if and only if it never has more requests outstanding than the buffers on the way hold and never waits for an answer to nothing, and with a data listener every answer arrives whatever it sends; two programs that send requests to each other and answer each other's end with all requests answered if and only if one of them sends none or both together send fewer than the buffers and goroutines on both ways hold; once the program, the transport and the peers do nothing more than send data, every connection made has been announced unless it was left behind in the channel of a stopped transport, every announced one is read for as long as it is open and otherwise has been closed and its end announced, and the accept goroutines of a stopped transport have ended, and this stays so; and once a connection is closed on one side and nothing more is written, the goroutines reading from and writing to it end on both sides.", "quantifier": "every infinite execution, every number of buffers and their sizes, every program of a client, every configuration of a stream transport, any history before", "why_tests_cant": "a test sees one schedule for a finite time", "anchors": ["proc_lowerdeck.go:acceptTransport", "proc_lowerdeck.go:closeConnection", "proc_upperdeck.go:acceptEndpoint", "tran_tcp.go:NextConnection", "tran_reference.go:Write", "endp_default.go:autoReceive"]}
