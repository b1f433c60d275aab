{
 "claims": [
  {
   "property": "C01",
   "status": "proved",
   "theorems": [
    "Verif.UBuf.c01_lengths_add_up"
   ],
   "note": ""
  },
  {
   "property": "C02",
   "status": "proved",
   "theorems": [
    "Verif.UBuf.c02_deque_refinement"
   ],
   "note": "refinement of every method to a bounded byte deque"
  },
  {
   "property": "C03",
   "status": "proved",
   "theorems": [
    "Verif.UBuf.c03_alloc_panics_iff",
    "Verif.UBuf.c03_no_panic"
   ],
   "note": ""
  },
  {
   "property": "C04",
   "status": "proved",
   "theorems": [
    "Verif.UBuf.c04_int_round_trip"
   ],
   "note": ""
  },
  {
   "property": "C05",
   "status": "proved",
   "theorems": [
    "Verif.UBuf.c05_headers_lifo",
    "Verif.UBuf.c05_header_first"
   ],
   "note": ""
  },
  {
   "property": "C06",
   "status": "partial",
   "theorems": [
    "Verif.UBuf.c06_peek_pure",
    "Verif.UBuf.c06_peek_agrees_partial",
    "Verif.UBuf.c06_peek_exact",
    "Verif.UBuf.c06_empty_violated"
   ],
   "note": "violated by empty buffers: Peek fails where Read returns (0, nil); the bytes always agree, and whether the call fails agrees iff the buffer is not empty. Peeking has no later effect in any state. Errors are compared by presence (their texts differ)."
  },
  {
   "property": "C07",
   "status": "partial",
   "theorems": [
    "Verif.UBuf.c07_failure_changes_nothing_partial",
    "Verif.UBuf.c07_exact",
    "Verif.UBuf.c07_peek_violated",
    "Verif.UBuf.c07_head_violated"
   ],
   "note": "a failed call never changes anything; it fails exactly when room or data is short, with two exceptions: Peek of zero bytes of an empty buffer and WriteHeadBytes of an empty slice when the data starts at the end of the storage"
  },
  {
   "property": "C08",
   "status": "partial",
   "theorems": [
    "Verif.UBuf.c08_write_prefix_partial",
    "Verif.UBuf.c08_write_exact",
    "Verif.UBuf.c08_write_violated",
    "Verif.UBuf.c08_read_prefix",
    "Verif.UBuf.c08_fifo"
   ],
   "note": "one exception: an empty Write into a full buffer reports an error although it is not short"
  },
  {
   "property": "C09",
   "status": "partial",
   "theorems": [
    "Verif.UBuf.c09_readFrom_partial",
    "Verif.UBuf.c09_readFrom_error",
    "Verif.UBuf.c09_readFrom_loses",
    "Verif.UBuf.c09_writeTo_partial",
    "Verif.UBuf.c09_writeTo_duplicates",
    "Verif.UBuf.c09_readFrom_iff",
    "Verif.UBuf.c09_writeTo_iff"
   ],
   "note": "violated when the reader/writer returns n>0 together with an error: bytes lost (ReadFrom) or offered again (WriteTo); proved for error-free calls. Exactly which results keep the bytes is proved (iff)."
  },
  {
   "property": "C10",
   "status": "partial",
   "theorems": [
    "Verif.UBuf.c10_cow_isolation_partial",
    "Verif.UBuf.c10_cow_isolation_no_head",
    "Verif.UBuf.c10_head_write_panics",
    "Verif.UBuf.c10_violated",
    "Verif.UBuf.c10_empty_head_write_loses",
    "Verif.UBuf.c10_exact"
   ],
   "note": "violated: a head write on a shared copy-on-write buffer panics or loses the readable data; proved for every family and history in which head writes happen only on unshared buffers; c10_exact says exactly which histories keep the buffers isolated"
  },
  {
   "property": "C11",
   "status": "proved",
   "theorems": [
    "Verif.UBuf.c11_direct_equal",
    "Verif.UBuf.c11_direct_isolated"
   ],
   "note": ""
  },
  {
   "property": "C12",
   "status": "proved",
   "theorems": [
    "Verif.UBuf.c12_reference_equal",
    "Verif.UBuf.c12_positions_independent",
    "Verif.UBuf.c12_lengths_independent",
    "Verif.UBuf.c12_writes_visible",
    "Verif.UBuf.c12_reference_breaks_cow"
   ],
   "note": ""
  },
  {
   "property": "C13",
   "status": "partial",
   "theorems": [
    "Verif.UBuf.c13_refused_iff",
    "Verif.UBuf.c13_wrap_partial",
    "Verif.UBuf.c13_panics",
    "Verif.UBuf.c13_short_write",
    "Verif.UBuf.c13_iff"
   ],
   "note": "violated for slices with len < cap (panic / short write); proved for len = cap. A wrapped slice acts as a deque iff len = cap."
  },
  {
   "property": "C14",
   "status": "partial",
   "theorems": [
    "Verif.UBuf.Conc.c14_concurrent_isolation_partial",
    "Verif.UBuf.Conc.c14_exact",
    "Verif.UBuf.Conc.c14_reset_race"
   ],
   "note": "violated: the count is dropped before the copy, so Reset+write of the other goroutine can overwrite bytes being copied; proved for any number of goroutines that never Reset, and with Reset exactly (iff) when there is one snapshot, an empty message, one that fills the block, or one before the place Reset goes back to"
  },
  {
   "property": "C15",
   "status": "proved",
   "theorems": [
    "Verif.Stack.c15_bytes_round_trip",
    "Verif.Stack.c15_empty_dropped"
   ],
   "note": ""
  },
  {
   "property": "C16",
   "status": "proved",
   "theorems": [
    "Verif.Stack.c16_string_round_trip"
   ],
   "note": ""
  },
  {
   "property": "C17",
   "status": "proved",
   "theorems": [
    "Verif.Stack.c17_json_round_trip",
    "Verif.Stack.c17_generic_round_trip"
   ],
   "note": ""
  },
  {
   "property": "C18",
   "status": "partial",
   "theorems": [
    "Verif.Stack.c18_all_or_nothing_partial",
    "Verif.Stack.c18_generic_all_or_nothing_partial",
    "Verif.Stack.c18_panics",
    "Verif.Stack.c18_iff",
    "Verif.Stack.c18_panics_iff"
   ],
   "note": "violated when the overhead exceeds the MTU: sending panics; proved for 0 <= overhead <= MTU. Exact: iff the overhead fits the MTU."
  },
  {
   "property": "C19",
   "status": "proved",
   "theorems": [
    "Verif.Stack.c19_session_round_trip",
    "Verif.Stack.c19_end_to_end",
    "Verif.Stack.c19_in_range"
   ],
   "note": "head room of 4 is provided by C20"
  },
  {
   "property": "C20",
   "status": "partial",
   "theorems": [
    "Verif.Stack.c20_head_room_partial",
    "Verif.Stack.c20_on_the_wire_partial",
    "Verif.Stack.c20_exact",
    "Verif.Stack.c20_second_codec"
   ],
   "note": "proved for every order and multiplicity of processors below one codec; violated with a second enabled codec below (it re-encodes, the headers between are lost). c20_exact: whatever the chain, a send writes nothing, or exactly the headers below the LOWEST enabled codec followed by its encoding."
  },
  {
   "property": "C21",
   "status": "partial",
   "theorems": [
    "Verif.Stack.c21_end_to_end_partial",
    "Verif.Stack.c21_exact",
    "Verif.Stack.c21_header_above_codec",
    "Verif.Stack.c21_two_codecs",
    "Verif.Stack.c33_both_enabled_lose"
   ],
   "note": "proved for every chain with one enabled codec, silent processors above, any header/transparent processors below; violated for the named compositions. c21_exact: delivered iff the chain has that shape, for every chain without generic/gob codec and without user filter functions."
  },
  {
   "property": "C22",
   "status": "proved",
   "theorems": [
    "Verif.Stack.c22_coalesced",
    "Verif.Stack.frameLower_feeds"
   ],
   "note": "any list of non-empty payloads (stream shorter than 2^32 bytes), any layer above; cache idle"
  },
  {
   "property": "C23",
   "status": "partial",
   "theorems": [
    "Verif.Stack.c23_aligned_partial",
    "Verif.Stack.c23_iff",
    "Verif.Stack.c23_violated",
    "Verif.Stack.c23_truncates"
   ],
   "note": "the code violates the property for reads that end inside a frame (proved); exact characterisation for an idle decoder: the payloads arrive if and only if every read ends at a frame boundary"
  },
  {
   "property": "C24",
   "status": "partial",
   "theorems": [
    "Verif.Stack.c24_honest_partial",
    "Verif.Stack.c24_reads_partial",
    "Verif.Stack.c24_exact",
    "Verif.Stack.c24_violated"
   ],
   "note": "the code violates the property: four zero bytes panic (proved for every continuation); c24_exact: reads on any connections crash an idle decoder if and only if one of them consists of whole frames followed by four zero bytes, and no earlier read has jammed the cache; termination, conservation and 'only zero headers panic' are proved for every input"
  },
  {
   "property": "C25",
   "status": "partial",
   "theorems": [
    "Verif.Stack.c25_heartbeat",
    "Verif.Stack.c25_stat_partial",
    "Verif.Stack.c25_stat_disabled_leaks",
    "Verif.Stack.c33_both_enabled_lose",
    "Verif.Stack.c25_stat_iff"
   ],
   "note": "violated: a disabled StatCounter hands control messages up, an enabled LoadBalancer takes application messages for control messages; proved for Heartbeat and for enabled StatCounter receivers. Exact for StatCounter: iff enabled."
  },
  {
   "property": "C26",
   "status": "partial",
   "theorems": [
    "Verif.Stack.c26_counters_partial",
    "Verif.Stack.stat_send",
    "Verif.Stack.stat_recv",
    "Verif.Stack.c26_reference_not_counted",
    "Verif.Stack.c26_report_partial",
    "Verif.Stack.c26_history_iff",
    "Verif.Stack.c26_iff",
    "Verif.Stack.c26_report_exact",
    "Verif.Stack.c26_report_iff"
   ],
   "note": "violated on reference connections (not counted); proved for every history on byte connections; for histories on both kinds of connections the counters are right iff no message passed on a reference connection while enabled (c26_iff); what a report shows is proved exactly (c26_report_exact), it is complete iff the name has at most 128 bytes and fits the MTU"
  },
  {
   "property": "C27",
   "status": "partial",
   "theorems": [
    "Verif.Stack.c27_disabled_transparent_partial",
    "Verif.Stack.c27_tag_violated",
    "Verif.Stack.c27_loopback_violated",
    "Verif.Stack.c27_iff"
   ],
   "note": "violated by Heartbeat, StatCounter, LoadBalancer, Loopback; proved for all other processors. Exact: which processors are transparent when disabled."
  },
  {
   "property": "C28",
   "status": "partial",
   "theorems": [
    "Verif.Stack.c28_echo_partial",
    "Verif.Stack.c28_exact",
    "Verif.Stack.c28_never_up",
    "Verif.Stack.c28_frame_violated",
    "Verif.Stack.c28_load_balancer_violated",
    "Verif.Stack.c28_tag_violated"
   ],
   "note": "never passing up is proved for every chain; the bytes come back equal over every chain of session resolvers, counters, transparent processors; violated over FrameDecoder (the length header is lost), enabled LoadBalancer and Heartbeat/LoadBalancer tags; without FrameDecoders and enabled StatCounters below, the exact condition: a read comes back iff no LoadBalancer below is enabled and the read has the headers those processors write, with one session"
  },
  {
   "property": "C29",
   "status": "partial",
   "theorems": [
    "Verif.Stack.c29_loopback_partial",
    "Verif.Stack.c29_nothing_below",
    "Verif.Stack.c29_load_balancer_violated",
    "Verif.Stack.loopback_returns",
    "Verif.Stack.c29_exact"
   ],
   "note": "Exact condition (c29_exact, iff) on the processors above the topmost Loopback, the message and the session for the message to come back, once and equal, with nothing else observable; nothing below a Loopback is ever reached: proved for every chain; delivery proved for every order of header processors between codec and Loopback; violated with an enabled LoadBalancer above the Loopback"
  },
  {
   "property": "C30",
   "status": "proved",
   "theorems": [
    "Verif.Stack.c30_discarder"
   ],
   "note": "at chain level: nothing entering below an enabled Discarder is delivered, in any chain"
  },
  {
   "property": "C31",
   "status": "partial",
   "theorems": [
    "Verif.Stack.c31_filter_partial",
    "Verif.Stack.accept_pure",
    "Verif.Stack.c31_violated",
    "Verif.Stack.c31_panics_iff"
   ],
   "note": "violated: NewFilter puts a nil function first, so every enabled Filter panics; the decision logic is proved for lists without it. Exact: when it panics."
  },
  {
   "property": "C32",
   "status": "partial",
   "theorems": [
    "Verif.Stack.c32_forwarder_partial",
    "Verif.Stack.accept_pure",
    "Verif.Stack.c32_violated",
    "Verif.Stack.c32_panics_iff"
   ],
   "note": "violated: NewForwarder puts a nil function first; the decision logic is proved for lists without it. Exact: when it panics."
  },
  {
   "property": "C33",
   "status": "partial",
   "theorems": [
    "Verif.Stack.c33_load_balancer_partial",
    "Verif.Stack.c33_both_enabled_lose",
    "Verif.Stack.c33_iff"
   ],
   "note": "violated: with both sides enabled everything is lost; proved delivered in all other settings. Exact: delivered iff not both enabled."
  },
  {
   "property": "C34",
   "status": "partial",
   "theorems": [
    "Verif.Stack.c34_reference_partial",
    "Verif.Stack.c34_dropped",
    "Verif.Stack.c34_session_violated",
    "Verif.Stack.c34_frame_violated",
    "Verif.Stack.c34_send_iff",
    "Verif.Stack.c34_receive_iff",
    "Verif.Stack.c34_exact"
   ],
   "note": "exactly when a sent object is set on the connection (c34_send_iff) and a received one is handed up (c34_receive_iff), together end to end (c34_exact); proved for chains whose processors let references pass; violated: enabled codecs and SessionResolver drop references, the destination session is not carried, FrameDecoder calls the wrong neighbour"
  },
  {
   "property": "C35",
   "status": "partial",
   "theorems": [
    "Verif.Stack.c35_terminates_partial",
    "Verif.Stack.c35_send_terminates_partial",
    "Verif.Stack.c35_echo_over_loopback",
    "Verif.Stack.c35_send_never_returns",
    "Verif.Stack.c35_frame_on_reference",
    "Verif.Stack.c35_swing_exact",
    "Verif.Stack.c35_send_swing_exact",
    "Verif.Stack.call_mono"
   ],
   "note": "the code violates the property (Echo above Loopback, FrameDecoder on reference connections). Without an enabled Echo above a Loopback, with byte connections or without FrameDecoder, and (if a StatCounter stands above a Loopback) without FrameDecoder or user function between the two, every history of events is proved to be processed with bounded nesting. For an Echo, processors that open their own header, and a Loopback: a message never returns iff no LoadBalancer between them is enabled (c35_swing_exact, c35_send_swing_exact). Not covered: an enabled FrameDecoder or a user function between a StatCounter and a Loopback."
  },
  {
   "property": "C36",
   "status": "proved",
   "theorems": [
    "Verif.Stack.c36_routing"
   ],
   "note": "for distinct served sessions (C37)"
  },
  {
   "property": "C37",
   "status": "partial",
   "theorems": [
    "Verif.Reg.c37_partial",
    "Verif.Reg.c37_one_deck_partial",
    "Verif.Reg.c37_exact",
    "Verif.Reg.c37_renumbering_violated",
    "Verif.Reg.c37_run_twice_violated",
    "Verif.Reg.c37_setSession_violated",
    "Verif.Reg.Race.c37_serial_partial",
    "Verif.Reg.Race.c37_race_violated"
   ],
   "note": "Exact condition (c37_exact): as long as session numbers are changed only while an endpoint is not served, the sessions served differ after every call iff every Run finds no service goroutine alive; every renumbering of a served endpoint can be continued to a violation (c37_renumbering_violated). For every history of calls with fixed session numbers and at most one Run, the live service goroutines (read off the observable log) are for different endpoints and sessions; for one deck also with any number of Runs. The code violates the full statement: a second Run serves every endpoint twice, and SetSession on a served endpoint lets another endpoint in under the number its goroutine still uses; and the test and the registration in UpperDeck are not atomic, so concurrent additions of endpoints with one session can all be served."
  },
  {
   "property": "C38",
   "status": "partial",
   "theorems": [
    "Verif.Reg.c38_partial",
    "Verif.Reg.c38_only_registered_partial",
    "Verif.Reg.c38_exact",
    "Verif.Reg.c38_same_session_violated",
    "Verif.Reg.c38_run_twice_violated"
   ],
   "note": "Exact condition (c38_exact): the endpoints served are those registered after every call from the first Run on iff the registered endpoints have different session numbers from then on and no later Run finds an endpoint registered. With one Run, fixed and different session numbers, the endpoints served are exactly those registered, in the same order, for every history; without the assumption on sessions only registered endpoints are served. Violated by the code for two endpoints with the same session and after a second Run."
  },
  {
   "property": "C39",
   "status": "proved",
   "theorems": [
    "Verif.Reg.c39_registries",
    "Verif.Reg.c39_nodup",
    "Verif.Reg.c39_noop"
   ],
   "note": "Refinement of the slice operations (with shared backing arrays) to ordered sets, for every history of all calls."
  },
  {
   "property": "C40",
   "status": "proved",
   "theorems": [
    "Verif.Reg.c40_call",
    "Verif.Reg.c40_listener",
    "Verif.Reg.c40_endpoint"
   ],
   "note": "Per call, and per listener/endpoint over whole histories. Listeners only observe."
  },
  {
   "property": "C41",
   "status": "partial",
   "theorems": [
    "Verif.Reg.Serve.c41_partial",
    "Verif.Reg.Serve.c41_violated",
    "Verif.Reg.Serve.c41_leaked_forever",
    "Verif.Reg.Serve.c41_iff"
   ],
   "note": "Violated: if the service goroutine is not waiting in its select when the endpoint is deleted (or picks the data branch), it later waits on a nil stop channel and serves the endpoint for ever; proved when the goroutine takes the stop signal before data arrives. Exact for one goroutine: it ends iff its first action after the deletion is to take the stop signal."
  },
  {
   "property": "C42",
   "status": "proved",
   "theorems": [
    "Verif.Reg.Serve.c42_in_order",
    "Verif.Reg.Serve.c42_exactly_once",
    "Verif.Reg.Serve.c42_progress",
    "Verif.Reg.Serve.c42_two_goroutines"
   ],
   "note": "Every schedule of adds, deletes, session changes, pushes and goroutine steps; exactly once for any number of goroutines, in order for one."
  },
  {
   "property": "C43",
   "status": "partial",
   "theorems": [
    "Verif.Reg.Listener.c43_ledger",
    "Verif.Reg.Listener.c43_exactly_once_partial",
    "Verif.Reg.Listener.c43_in_order_partial",
    "Verif.Reg.Listener.c43_no_listener",
    "Verif.Reg.Listener.c43_progress",
    "Verif.Reg.Listener.c43_dropped_violated",
    "Verif.Reg.Listener.c43_order_violated",
    "Verif.Reg.Listener.c43_nil_panic",
    "Verif.Reg.Listener.deaf_forever",
    "Verif.Reg.Listener.c43_lost_wakeup",
    "Verif.Reg.Listener.c43_served_iff",
    "Verif.Reg.Listener.c43_order_iff",
    "Verif.Reg.Listener.c43_kept_iff"
   ],
   "note": "Every schedule of SetDataListener, pushes and goroutine steps: nothing delivered twice, and everything accounted for; in order and exactly once while the listener stays set and one goroutine runs. Violated: an item taken after the listener was removed is dropped, two goroutines lose the order, a nil listener is called, a wake-up is lost. For each clause the exact (iff) condition on the state is proved."
  },
  {
   "property": "C44",
   "status": "partial",
   "theorems": [
    "Verif.Reg.c44_partial",
    "Verif.Reg.c44_delete",
    "Verif.Reg.c44_violated",
    "Verif.Reg.c44_step_iff",
    "Verif.Reg.c44_exact"
   ],
   "note": "Exact for whole histories: a list handed out earlier is still what it was iff no deletion shifted a part of the array it still shares (c44_exact). Stable under all calls but deletions; the exact content after a deletion; the code violates the statement for deletions (in-place append)."
  },
  {
   "property": "C45",
   "status": "partial",
   "theorems": [
    "Verif.Reg.c45_mtu",
    "Verif.Reg.c45_overhead_first_run_partial",
    "Verif.Reg.c45_before_run",
    "Verif.Reg.c45_run_again_violated",
    "Verif.Reg.c45_iff"
   ],
   "note": "MTU for any number of Runs; overhead for one Run; after k Runs the overhead is k times the sum (violation). Exact: after k Runs right iff k = 1 or the sum is 0."
  },
  {
   "property": "C46",
   "status": "proved",
   "theorems": [
    "Verif.Reg.c46_wiring",
    "Verif.Reg.c46_same_twice"
   ],
   "note": "For every history with distinct processors, any number of earlier Runs and any later calls."
  },
  {
   "property": "C47",
   "status": "proved",
   "theorems": [
    "Verif.Reg.Options.c47_last_write",
    "Verif.Reg.Options.c47_typed",
    "Verif.Reg.Options.c47_run_fixed",
    "Verif.Reg.Options.c47_run_sticky"
   ],
   "note": "Every history of SetOption/GetOption/Run."
  },
  {
   "property": "C48",
   "status": "partial",
   "theorems": [
    "Verif.Stack.c48_partial",
    "Verif.Stack.c48_reference",
    "Verif.Stack.c48_violated",
    "Verif.Stack.c48_closed_elsewhere",
    "Verif.Stack.c48_mtu_panics",
    "Verif.Stack.receive_eq_readStep",
    "Verif.Stack.c48_iff"
   ],
   "note": "Every finite sequence of read results: exactly the bytes read before the end are handed up, in order. Violated: bytes returned together with an error are dropped, and a non-positive MTU panics. Exact: which read results lose bytes."
  },
  {
   "property": "C49",
   "status": "partial",
   "theorems": [
    "Verif.Conn.Close.events_count",
    "Verif.Conn.Close.no_reports",
    "Verif.Conn.Close.c49_partial",
    "Verif.Conn.Close.c49_at_least",
    "Verif.Conn.Close.c49_at_most",
    "Verif.Conn.Close.c49_count",
    "Verif.Conn.Close.c49_exact",
    "Verif.Conn.Close.c49_violated"
   ],
   "note": "Every schedule of readers and writers: exactly one report without failing writes, in general one per failing write plus one (c49_count), so exactly one if and only if no write fails (c49_exact); violated: more than one ConnectionClosed event."
  },
  {
   "property": "C50",
   "status": "partial",
   "theorems": [
    "Verif.Stack.c50_partial",
    "Verif.Stack.c50_violated",
    "Verif.Stack.c50_reference",
    "Verif.Stack.c50_iff"
   ],
   "note": "Every outcome of the write; violated: a write on a connection closed elsewhere reports success and loses the data. Exact: when success is reported falsely."
  },
  {
   "property": "C51",
   "status": "proved",
   "theorems": [
    "Verif.Conn.Heartbeat.c51_check",
    "Verif.Conn.Heartbeat.c51_history"
   ],
   "note": ""
  },
  {
   "property": "C52",
   "status": "proved",
   "theorems": [
    "Verif.Conn.Heartbeat.c52_timely",
    "Verif.Conn.Heartbeat.c52_not_twice",
    "Verif.Conn.Heartbeat.c52_detects",
    "Verif.Conn.Heartbeat.c52_forever",
    "Verif.Conn.Heartbeat.c52_again"
   ],
   "note": "Every sequence of beats, checks and closes; c52_forever and c52_again: infinite histories."
  },
  {
   "property": "C53",
   "status": "proved",
   "theorems": [
    "Verif.Conn.Reference.c53_fifo",
    "Verif.Conn.Reference.c53_bounded"
   ],
   "note": "Every interleaving of all calls on any number of transports and connections, per channel and direction."
  },
  {
   "property": "C54",
   "status": "partial",
   "theorems": [
    "Verif.Conn.Reference.c54_body_partial",
    "Verif.Conn.Reference.c54_violated",
    "Verif.Conn.Reference.c54_witness",
    "Verif.Conn.Reference.never_running"
   ],
   "note": "Violated: Run never sets isRunning, so Stop never does anything (proved for every history); the unreachable body of Stop would be right."
  },
  {
   "property": "C55",
   "status": "partial",
   "theorems": [
    "Verif.Conn.Reference.c55_partial",
    "Verif.Conn.Reference.c55_exact",
    "Verif.Conn.Reference.c55_violated",
    "Verif.Conn.Reference.stuck_forever",
    "Verif.Conn.Reference.c55_second_connection"
   ],
   "note": "Violated: a second Run makes a second connection, or waits for ever holding the global mutex. c55_exact: it returns if and only if every connection made by the earlier Runs was taken, and when it returns there always is one more connection."
  },
  {
   "property": "C56",
   "status": "partial",
   "theorems": [
    "Verif.Conn.Stream.c56_bounded",
    "Verif.Conn.Stream.c56_ended",
    "Verif.Conn.Stream.c56_gives_up",
    "Verif.Conn.Stream.c56_progress",
    "Verif.Conn.Stream.c56_restart_violated",
    "Verif.Conn.Stream.c56_closed",
    "Verif.Conn.Stream.c56_exact"
   ],
   "note": "Every interleaving, every retry limit, every sequence of dial results: per Run at most MaxRetryCount dials and at most one connection, exactly one after a successful dial, otherwise (single Run) the transport stops and NextConnection returns nil. Violated across a restart: the goroutine of a stopped run goes on and its connection lands in the next run. Exact: no run yields more than one connection iff Run waits for earlier goroutines to end, or the transport never dials (c56_exact). The channel of a run without a successful dial is always closed in the end (c56_closed)."
  },
  {
   "property": "C57",
   "status": "partial",
   "theorems": [
    "Verif.Conn.Stream.c57_stop_partial",
    "Verif.Conn.Stream.c57_run_noop",
    "Verif.Conn.Stream.c57_run",
    "Verif.Conn.Stream.c57_unblocked_partial",
    "Verif.Conn.Stream.c57_nil_partial",
    "Verif.Conn.Stream.c57_closed_partial",
    "Verif.Conn.Stream.no_nil_saved",
    "Verif.Conn.Stream.c57_nil_listener_violated",
    "Verif.Conn.Stream.c57_send_violated",
    "Verif.Conn.Stream.c57_dial_violated",
    "Verif.Conn.Stream.c57_nil_connection_violated",
    "Verif.Conn.Stream.c57_open_after_stop_violated",
    "Verif.Conn.Stream.c57_left_over_violated",
    "Verif.Conn.Stream.c57_too_early",
    "Verif.Conn.Stream.c57_stale_stop",
    "Verif.Conn.Stream.c57_crash_exact",
    "Verif.Conn.Stream.c57_nil_iff",
    "Verif.Conn.Stream.c57_closed_exact"
   ],
   "note": "Every interleaving: Stop itself never crashes (Unix sockets; TCP if nil was not saved), closes all saved connections, unblocks callers, is idempotent; Run on a running transport is a no-op. Violated: crashes in the accept/connect goroutines and (TCP) in Stop, connections left open, left-over connections handed out after Stop. Exact: which transports cannot crash (c57_crash_exact), which calls on a stopped transport return nil (c57_nil_iff), which connections are closed (c57_closed_exact: those saved while the transport is running)."
  },
  {
   "property": "C58",
   "status": "proved",
   "theorems": [
    "Verif.Reg.Options.c58_has",
    "Verif.Reg.Options.c58_last"
   ],
   "note": "Every history of stores on a context."
  },
  {
   "property": "C59",
   "status": "partial",
   "theorems": [
    "Verif.Reg.c59_partial",
    "Verif.Reg.overhead_runs",
    "Verif.Reg.c59_exact",
    "Verif.Reg.c59_violated"
   ],
   "note": "c59_exact: exactly (iff) after which histories a further Run changes nothing: overheads summing up to zero, the option standing for the same MTU, no endpoint registered. MTU and registries are kept; overhead is added again and every endpoint is served again (violation)."
  },
  {
   "property": "C60",
   "status": "proved",
   "theorems": [
    "Verif.Stack.c60_conversation"
   ],
   "note": "cut at message boundaries; other cuts are C23 and C103"
  },
  {
   "property": "C61",
   "status": "proved",
   "theorems": [
    "Verif.Stack.call_evolves"
   ],
   "note": ""
  },
  {
   "property": "C62",
   "status": "partial",
   "theorems": [
    "Verif.Conn.Heartbeat.c62_closed_partial",
    "Verif.Conn.Heartbeat.c62_violated",
    "Verif.Conn.Heartbeat.c62_exact"
   ],
   "note": "Exactly which histories declare a closed connection lost (c62_exact). Holds for every history in which no heartbeat of the connection arrives after its end; violated in general: a late heartbeat starts monitoring again and the connection is declared lost once more."
  },
  {
   "property": "C63",
   "status": "partial",
   "theorems": [
    "Verif.Conn.Counter.c63_bounds",
    "Verif.Conn.Counter.c63_serial_partial",
    "Verif.Conn.Counter.c63_single_partial",
    "Verif.Conn.Counter.c63_violated",
    "Verif.Conn.Counter.c63_backwards",
    "Verif.Conn.Counter.c63_iff"
   ],
   "note": "Every interleaving: never more than the messages counted, never 0 after one; exact if increments do not overlap, in particular with one goroutine. Violated: k goroutines, one message each, counter 1, for every k; the counter goes back by any amount. Exact: the counter is right iff no store falls between load and store of another increment."
  },
  {
   "property": "C64",
   "status": "partial",
   "theorems": [
    "Verif.Conn.Backpressure.c64_order",
    "Verif.Conn.Backpressure.c64_bounded",
    "Verif.Conn.Backpressure.c64_capacity",
    "Verif.Conn.Backpressure.c64_progress",
    "Verif.Conn.Backpressure.c64_drains",
    "Verif.Conn.Backpressure.c64_independent_partial",
    "Verif.Conn.Backpressure.c64_exact",
    "Verif.Conn.Backpressure.c64_violated",
    "Verif.Conn.Backpressure.c64_blocks_other"
   ],
   "note": "Every interleaving: exactly once, in order, bounded, no deadlock, drained as long as the users concerned take messages. Violated: a full channel of one endpoint keeps the later messages of the same connection from all other endpoints. c64_exact: exactly (iff) which users must take messages for the first k messages to be delivered."
  },
  {
   "property": "C65",
   "status": "partial",
   "theorems": [
    "Verif.Conn.SocketFile.c65_exact",
    "Verif.Conn.SocketFile.c65_guarded_partial",
    "Verif.Conn.SocketFile.c65_violated",
    "Verif.Conn.SocketFile.c65_fatal",
    "Verif.Conn.SocketFile.c65_nil"
   ],
   "note": "Exact: the file leads to a listener iff nobody has removed it since it was made. Holds for every interleaving if Run is called again only after the earlier accept goroutine has returned. Violated: the old goroutine's deferred os.Remove deletes the new run's file; Run, Stop, Run can end the process in log.Fatal; Stop between two Accepts dereferences nil."
  },
  {
   "property": "C66",
   "status": "partial",
   "theorems": [
    "Verif.Conn.Accept.c66_exact",
    "Verif.Conn.Accept.c66_announced_once",
    "Verif.Conn.Accept.c66_data",
    "Verif.Conn.Accept.c66_same_order",
    "Verif.Conn.Accept.c66_closed_partial",
    "Verif.Conn.Accept.c66_closed_count",
    "Verif.Conn.Accept.c66_closed_violated",
    "Verif.Conn.Accept.c66_order_violated",
    "Verif.Conn.Accept.c66_twice"
   ],
   "note": "Every interleaving: announced once to every observer, data only after the announcement; c66_exact: exactly which targets see the end after the beginning (those not called after a Heartbeat), at most once (no Heartbeat), and all events in one order (a single target). Violated: observers see events of different goroutines in different orders, the end may be seen before the announcement and more than once."
  },
  {
   "property": "C67",
   "status": "partial",
   "theorems": [
    "Verif.Reg.MapRace.c67_iff",
    "Verif.Reg.MapRace.c67_violated",
    "Verif.Reg.MapRace.c67_locked_partial",
    "Verif.Reg.MapRace.c67_static_partial"
   ],
   "note": "Exact characterisation: a conflicting access is possible iff there is a service goroutine and somebody adds or deletes an endpoint."
  },
  {
   "property": "C68",
   "status": "partial",
   "theorems": [
    "Verif.Reg.Reentrant.c68_exact",
    "Verif.Reg.Reentrant.c68_transport_partial",
    "Verif.Reg.Reentrant.c68_add_partial",
    "Verif.Reg.Reentrant.c68_delete_partial",
    "Verif.Reg.Reentrant.c68_readd_violated",
    "Verif.Reg.Reentrant.c68_twice_violated",
    "Verif.Reg.Reentrant.c68_wrong_violated",
    "Verif.Reg.Reentrant.c68_panic_violated",
    "Verif.Reg.Reentrant.c68_keep_lost",
    "Verif.Reg.Reentrant.call_depth"
   ],
   "note": "Exact, for all listeners: every call and every call nested in it does what it should iff the listeners, when told, neither register what is being added nor move what is being deleted (c68_exact). Holds for deletion of transports with listeners deleting transports, for adding endpoints with listeners adding endpoints of lower rank, for deleting an endpoint with listeners only adding. Violated otherwise: infinite recursion, double registration, wrong endpoint removed, panic."
  },
  {
   "property": "C69",
   "status": "partial",
   "theorems": [
    "Verif.Reg.Fluent.c69_processor_partial",
    "Verif.Reg.Fluent.c69_base_exact",
    "Verif.Reg.Fluent.c69_base_violated",
    "Verif.Reg.Fluent.c69_feature_violated"
   ],
   "note": "Holds for every chain on the processors (their constructors call SetWhere). On NewProcBase and NewFeatBase it holds exactly for the empty chain. Violated, with the exact effect of every chain, for NewProcBase and NewFeatBase: where points to the constructor's local variable, so the chain continues on a hidden copy."
  },
  {
   "property": "C70",
   "status": "partial",
   "theorems": [
    "Verif.Reg.Publish.c70_add_partial",
    "Verif.Reg.Publish.c70_delete",
    "Verif.Reg.Publish.c70_delete_iff",
    "Verif.Reg.Publish.c70_violated"
   ],
   "note": "Holds if listeners only add. Exactly when it holds for one deletion, and the exact sequence of receivers for one deletion at any position; violated: an endpoint that deletes itself makes the next one miss the event and the last one get it twice."
  },
  {
   "property": "C71",
   "status": "partial",
   "theorems": [
    "Verif.Stack.c71_bytes_partial",
    "Verif.Stack.c71_reference_iff",
    "Verif.Stack.c71_control_violated"
   ],
   "note": "Proved for byte connections on every chain. On reference connections sending closes iff the object is nil, but the control messages of Heartbeat and StatCounter carry no object, so the first one closes a healthy reference connection (proved for every such chain)."
  },
  {
   "property": "C72",
   "status": "proved",
   "theorems": [
    "Verif.Stack.c72_one_event",
    "Verif.Stack.c72_events"
   ],
   "note": ""
  },
  {
   "property": "C73",
   "status": "partial",
   "theorems": [
    "Verif.Stack.c73_own_bytes",
    "Verif.Stack.c73_aligned_partial",
    "Verif.Stack.c73_exact",
    "Verif.Stack.c73_violated"
   ],
   "note": "No bytes of one connection are ever handed up for another, for any reads. Not affected holds for reads at frame boundaries; violated otherwise: one connection can fill the shared cache with an incomplete frame, then nothing is handed up for any connection any more. c73_exact: a later frame is handed up if and only if no read so far ended in the beginning of a frame at least as long as the cache."
  },
  {
   "property": "C74",
   "status": "partial",
   "theorems": [
    "Verif.Stack.c74_network_partial",
    "Verif.Stack.c74_drained_partial",
    "Verif.Stack.c74_exact",
    "Verif.Stack.statless_unanswered",
    "Verif.Stack.c74_violated"
   ],
   "note": "For reads that return whole packets (several at once with a FrameDecoder at the bottom). Violated for reads that cut packets: in every network with a FrameDecoder at the bottom, whatever is sent and then read one to three bytes at a time is taken from the connection and nothing of it is ever seen. Exact for networks whose stacks have the codec for byte slices or strings and one FrameDecoder, at the bottom, or none, in executions in which no read is answered (always so without StatCounter, statless_unanswered): if everything was read, all packets are seen, in order and on their connections, if and only if every read took whole packets, without FrameDecoder exactly one (c74_exact)."
  },
  {
   "property": "C75",
   "status": "partial",
   "theorems": [
    "Verif.Program.c75_data_path",
    "Verif.Program.c75_runs_iff",
    "Verif.Program.c75_programs_deliver_partial",
    "Verif.Program.c75_network_partial",
    "Verif.Program.c75_network_exact"
   ],
   "note": "The data path of a program and when Run gets through: exact. Delivery under the restrictions of C21 and C74 (one enabled codec, messages that fit, reads of whole packets), each shown to be needed there. For networks of programs with the codec for byte slices or strings and one FrameDecoder, at the bottom, or none the condition on reads is exact (c75_network_exact)."
  },
  {
   "property": "C76",
   "status": "partial",
   "theorems": [
    "Verif.Examples.c76_session",
    "Verif.Examples.c76_dynamic_endpoint",
    "Verif.Examples.c76_dynamic_endpoint_deleted",
    "Verif.Examples.c76_microservices",
    "Verif.Examples.c76_tcp",
    "Verif.Examples.c76_speedtest",
    "Verif.Examples.c76_codec_alone",
    "Verif.Examples.c76_transports",
    "Verif.Examples.c76_echo",
    "Verif.Examples.c76_discard",
    "Verif.Examples.c76_loopback",
    "Verif.Examples.c76_reference",
    "Verif.Examples.c76_session_clients_partial",
    "Verif.Examples.c76_clients_partial",
    "Verif.Examples.c76_clients_exact",
    "Verif.Examples.framed_examples",
    "Verif.Examples.unframed_examples",
    "Verif.Examples.two_sided_examples",
    "Verif.Examples.c76_merged"
   ],
   "note": "Each example for one message at a time; all examples with an endpoint on each side for any number of clients and whole runs (c76_clients_partial), reads of whole packets; for the examples with the codec for byte slices or strings everything arrives if and only if the reads are whole packets, without FrameDecoder one packet each (c76_clients_exact). The full claim fails for the examples without a FrameDecoder: two messages in one read arrive as one (c76_merged). heartbeat is in C78, statcounter in C77."
  },
  {
   "property": "C77",
   "status": "partial",
   "theorems": [
    "Verif.Stack.c77_report_partial",
    "Verif.Stack.c77_shown",
    "Verif.Stack.c77_iff",
    "Verif.Stack.c77_violated",
    "Verif.Stack.c77_counted",
    "Verif.Examples.c77_statcounter"
   ],
   "note": "For byte connections. What is shown is proved for every MTU that allows the answer to be built; it is right iff the counters and the printed part of the name fit (violated by small MTUs, where counters are shown as 0). With the default MTU right for every name. Reference connections are not counted (C26) and control messages close them (C71)."
  },
  {
   "property": "C78",
   "status": "proved",
   "theorems": [
    "Verif.Conn.Heartbeat.c78_never_lost",
    "Verif.Conn.Heartbeat.c78_can_be_lost",
    "Verif.Conn.Heartbeat.c78_exact",
    "Verif.Conn.Heartbeat.c78_detected",
    "Verif.Conn.Heartbeat.c78_always_lost",
    "Verif.Conn.Heartbeat.c78_defaults",
    "Verif.Conn.Heartbeat.c78_example_loses"
   ],
   "note": "Timed executions with explicit bounds for jitter, delay and check slack; the bound is exact. The configuration of examples/heartbeat (interval 10 s, timeouts 3 s and 5 s) is proved to lose every connection."
  },
  {
   "property": "C79",
   "status": "proved",
   "theorems": [
    "Verif.Conn.Pipeline.c79_ends",
    "Verif.Conn.Pipeline.c79_answers",
    "Verif.Conn.Pipeline.c79_fits",
    "Verif.Conn.Pipeline.c79_only_if",
    "Verif.Conn.Pipeline.c79_exact",
    "Verif.Conn.Pipeline.c79_listener",
    "Verif.Conn.Pipeline.c79_burst",
    "Verif.Conn.Pipeline.c79_burst_echo",
    "Verif.Conn.Pipeline.c79_one_by_one"
   ],
   "note": "Exact for any row of buffers with positive capacities; the numbers are for message queues (Reference transport). One client, one answer per request."
  },
  {
   "property": "C80",
   "status": "partial",
   "theorems": [
    "Verif.Conn.Service.c80_may_exact",
    "Verif.Conn.Service.c80_must_exact",
    "Verif.Conn.Service.c80_answers",
    "Verif.Conn.Service.c80_blocked_by",
    "Verif.Conn.Service.c80_reading_partial",
    "Verif.Conn.Service.c80_violated",
    "Verif.Conn.Service.c80_echo_partial",
    "Verif.Conn.Service.c80_echo_answers",
    "Verif.Conn.Service.c80_echo_exact",
    "Verif.Conn.Service.c80_echo_all"
   ],
   "note": "Exact: from every reachable state, whether a reading client can still get (c80_may_exact) or is sure to get (c80_must_exact) all its answers while given other clients do not read. Each client gets its own answers in order; nobody waits while all clients read; with an Echo the clients are independent. Violated for servers that answer from an endpoint: one client that does not read stops the endpoint's only service goroutine, then nobody gets an answer any more."
  },
  {
   "property": "C81",
   "status": "partial",
   "theorems": [
    "Verif.Conn.LostLock.c81_partial",
    "Verif.Conn.LostLock.c81_iff",
    "Verif.Conn.LostLock.c81_stuck_forever",
    "Verif.Conn.LostLock.c81_violated",
    "Verif.Conn.LostLock.c81_or",
    "Verif.Conn.LostLock.c81_forever_partial",
    "Verif.Conn.LostLock.c81_never"
   ],
   "note": "Listeners that return without waiting: the check always comes to its end. Violated: a HeartbeatLost listener that waits for a message which has arrived behind a heartbeat never returns, and no heartbeat, no new connection and no check is processed any more; exactly when (iff). In infinite executions, the scheduler being fair: with any listeners the mutex is given back again and again unless a listener waits for ever for a message that is never there (c81_or); with listeners that do not wait everything that arrives is processed (c81_forever_partial); a stuck listener stays so however fair the scheduler is (c81_never)."
  },
  {
   "property": "C82",
   "status": "partial",
   "theorems": [
    "Verif.Conn.Dynamic.c82_count",
    "Verif.Conn.Dynamic.c82_partial",
    "Verif.Conn.Dynamic.c82_iff",
    "Verif.Conn.Dynamic.c82_violated"
   ],
   "note": "Without failing writes: the program exits exactly when every connection is closed and reported. The counter is always announced minus reported. Violated: a connection whose write fails is reported twice, and the program exits while another connection is open; at exit some connection is unreported if and only if another was reported twice or more (iff)."
  },
  {
   "property": "C83",
   "status": "partial",
   "theorems": [
    "Verif.Conn.AppSession.c83_connected",
    "Verif.Conn.AppSession.c83_in_order",
    "Verif.Conn.AppSession.c83_single_partial",
    "Verif.Conn.AppSession.c83_at_most_two",
    "Verif.Conn.AppSession.c83_served_iff",
    "Verif.Conn.AppSession.c83_third_never",
    "Verif.Conn.AppSession.c83_answer_iff",
    "Verif.Conn.AppSession.c83_violated"
   ],
   "note": "Every Write goes to an accepted connection, and messages are read in order, for every schedule; with one connection (a client's session) the claim holds. Violated: a connection accepted between a Read and the answer gets the answer (iff), only the first two connections are ever served (iff), the third blocks the accept goroutine for ever."
  },
  {
   "property": "C84",
   "status": "partial",
   "theorems": [
    "Verif.Conn.Startup.c84_iff",
    "Verif.Conn.Startup.c84_before_partial",
    "Verif.Conn.Startup.c84_late_partial",
    "Verif.Conn.Startup.c84_after_all",
    "Verif.Conn.Startup.c84_violated"
   ],
   "note": "The program panics exactly if a connection is announced before the variable is assigned (iff), which the examples allow; with the assignment before Run no schedule panics."
  },
  {
   "property": "C85",
   "status": "partial",
   "theorems": [
    "Verif.Stack.FrameRace.c85_isolated_partial",
    "Verif.Stack.FrameRace.c85_complete_partial",
    "Verif.Stack.FrameRace.c85_finishes_partial",
    "Verif.Stack.FrameRace.c85_default",
    "Verif.Stack.FrameRace.c85_iff",
    "Verif.Stack.FrameRace.c85_silenced",
    "Verif.Stack.FrameRace.c85_jammed",
    "Verif.Stack.FrameRace.c85_mixed",
    "Verif.Stack.FrameRace.c85_crashed",
    "Verif.Stack.FrameRace.decodeCurrent_parse"
   ],
   "note": "Holds in every interleaving if the incomplete frame at the end of each chunk is shorter than the cache (always, with the default capacity of twice the MTU) and no frame has length 0. Exactly then (iff, for two or more connections). Violated otherwise: one connection silences all others for ever; by a data race bytes of one connection are handed up as a message of another; by a data race the process panics."
  },
  {
   "property": "C86",
   "status": "partial",
   "theorems": [
    "Verif.Stack.c86_alike_partial",
    "Verif.Stack.c86_goes_on_partial",
    "Verif.Stack.c86_deliveries_partial",
    "Verif.Stack.c86_all_partial",
    "Verif.Stack.c86_ends_partial",
    "Verif.Stack.c86_plain",
    "Verif.Stack.c86_one_receiver",
    "Verif.Stack.c86_receivers_alike",
    "Verif.Stack.c86_receivers",
    "Verif.Stack.c86_caches_empty",
    "Verif.Stack.c86_sure_partial",
    "Verif.Stack.c86_mixed",
    "Verif.Stack.c86_counted",
    "Verif.Stack.onUpper_hop",
    "Verif.Stack.onLower_hop",
    "Verif.Stack.currentLoop_hop",
    "Verif.Stack.handleCached_hop",
    "Verif.Stack.upperDeck_hop",
    "Verif.Stack.lowerDeck_hop",
    "Verif.Stack.solo_job",
    "Verif.Stack.solo_jobs"
   ],
   "note": "Holds for every interleaving if no StatCounter is asked for its statistics and no two goroutines use the cache of the same FrameDecoder: in particular for any goroutines without FrameDecoder (c86_plain), for one receiving connection and any senders in a stack without Loopback (c86_one_receiver), and for any number of receiving connections and senders if every FrameDecoder's cache has more room than the MTU and is empty at the start (c86_receivers: every cache is empty again between two goroutines' uses, c86_caches_empty). If writes succeed and the runs one by one close nothing, no interleaving closes anything (c86_sure_partial). Violated otherwise: an answer to a statistics request depends on the other goroutines (c86_counted); two connections behind one FrameDecoder whose cache a read can fill lose each other's messages (c86_mixed). The decomposition of the handlers into hops is proved equal to the handlers of the model."
  },
  {
   "property": "C87",
   "status": "proved",
   "theorems": [
    "Verif.Stack.c87_server",
    "Verif.Stack.c87_in_order",
    "Verif.Stack.c87_whole_packets",
    "Verif.Stack.c87_end_to_end",
    "Verif.Stack.fair_unasked",
    "Verif.Stack.c86_sure_partial"
   ],
   "note": "For the schedules of the hop machine of C86. The hypotheses (Serves, Task.Ok) are met by the stack and tasks of the examples; a complete schedule exists (server_run)."
  },
  {
   "property": "C88",
   "status": "proved",
   "theorems": [
    "Verif.Conn.Peers.c88_ends",
    "Verif.Conn.Peers.c88_answers",
    "Verif.Conn.Peers.c88_exact",
    "Verif.Conn.Peers.c88_reference"
   ],
   "note": "Exact for any two rows of buffers with positive capacities. One endpoint on each side, one answer per request, the connection stays open."
  },
  {
   "property": "C89",
   "status": "partial",
   "theorems": [
    "Verif.Conn.Shut.c89_iff",
    "Verif.Conn.Shut.c89_stream_partial",
    "Verif.Conn.Shut.c89_silent",
    "Verif.Conn.Shut.c89_told",
    "Verif.Conn.Shut.c89_rests",
    "Verif.Conn.Shut.c89_one_more",
    "Verif.Conn.Shut.c89_not_told",
    "Verif.Conn.Shut.c89_lost",
    "Verif.Conn.Shut.c89_blocks_exact",
    "Verif.Conn.Shut.c89_reader_exact",
    "Verif.Conn.Shut.c89_stuck"
   ],
   "note": "Holds for stream connections; exactly for those (c89_iff). Violated by Reference connections, whose Close only sets a flag on the local side: the other side is never told (c89_not_told), what it sends is lost and, once the channel is full, its senders wait for ever (c89_lost, c89_blocks_exact, c89_stuck); the local receive goroutine waits for ever if nothing is to come (c89_reader_exact); at most one object is still handed up (c89_one_more)."
  },
  {
   "property": "C90",
   "status": "partial",
   "theorems": [
    "Verif.Stack.c90_switch_partial",
    "Verif.Stack.c90_one_sided",
    "Verif.Stack.c90_iff",
    "Verif.Stack.c90_jammed",
    "Verif.Stack.c90_lost",
    "Verif.Stack.c90_panic"
   ],
   "note": "Holds for histories in which both ends switch while nothing is under way (c90_switch_partial), and for one end alone if the processor is a StatCounter, Heartbeat or FlowController (c90_one_sided). For the processor right below a BytesCodec switched at the receiver alone: all messages arrive if and only if it is not a SessionResolver or FrameDecoder (c90_iff). Violated otherwise: a FrameDecoder at the bottom, switched on while a message without a frame is under way, loses the message (c90_lost), loses everything that follows (c90_jammed) or panics (c90_panic), depending on the first four bytes and the length. Not modelled: SetEnable in another goroutine in the middle of a call (an unsynchronised write)."
  },
  {
   "property": "C91",
   "status": "partial",
   "theorems": [
    "Verif.Conn.Retire.c91_exact",
    "Verif.Conn.Retire.c91_partial",
    "Verif.Conn.Retire.c91_loops",
    "Verif.Conn.Retire.c92_settles",
    "Verif.Conn.Retire.c91_violated"
   ],
   "note": "Holds if nothing is between the transport and LowerDeck whenever the transport stops (c91_partial). Exactly: a connection that an accept goroutine took, and nobody else closed, is closed and told about if and only if the transport was still running when NextConnection returned it (c91_exact). Violated: otherwise it is announced after the deletion, stays open and is read for ever (c91_violated). LowerDeck always comes to rest (c92_settles), and its accept goroutines always end (c91_loops). Crashes of the transport are the subject of C57."
  },
  {
   "property": "C92",
   "status": "partial",
   "theorems": [
    "Verif.Conn.Retire.c92_life",
    "Verif.Conn.Retire.c92_one_reader",
    "Verif.Conn.Retire.c92_exact",
    "Verif.Conn.Retire.c92_read",
    "Verif.Conn.Retire.c92_settles",
    "Verif.Conn.Retire.c92_bounded",
    "Verif.Conn.Retire.c92_lost",
    "Verif.Conn.Retire.c92_violated"
   ],
   "note": "Order and uniqueness hold in every execution (c92_life, c92_one_reader). At rest, a connection that was made has been announced if and only if it was not left behind in a channel of the transport that is closed (c92_exact), and every announced one is being read or is closed and told about (c92_read). Violated: a connection waiting while the accept goroutine is busy and the transport is deleted and added again is never announced (c92_lost, c92_violated)."
  },
  {
   "property": "C93",
   "status": "partial",
   "theorems": [
    "Verif.Reg.Callers.c93_iff",
    "Verif.Reg.Callers.c93_partial",
    "Verif.Reg.Callers.c93_violated",
    "Verif.Reg.Callers.c93_wrong",
    "Verif.Reg.Callers.c93_panics",
    "Verif.Reg.Callers.c93_twice",
    "Verif.Reg.Callers.c93_returns",
    "Verif.Reg.Callers.c93_always_returns"
   ],
   "note": "Exact: for callers with different items every schedule is right if and only if at most one of the calls has something to do and, should that be a deletion, nobody adds what is registered behind it and is not the last (c93_iff). Violated otherwise: an added item is lost (c93_violated), the wrong item is deleted (c93_wrong), DeleteEndPoint panics (c93_panics), an item is registered twice (c93_twice). Every call returns, alone (c93_returns) and in every infinite execution whose scheduler does not forget it (c93_always_returns), unless the program panics."
  },
  {
   "property": "C94",
   "status": "partial",
   "theorems": [
    "Verif.Conn.Rejoin.c94_iff",
    "Verif.Conn.Rejoin.c94_once",
    "Verif.Conn.Rejoin.c94_partial",
    "Verif.Conn.Rejoin.c94_violated"
   ],
   "note": "Exactly once holds in every execution: what was sent is passed up, or with a goroutine that passes it up next, or in the channel, as a multiset (c94_once). The order, exactly: with each transport t added up to n t times, the order is kept in every execution if and only if no address with both sides in use has two transports at one side or one that is added twice (c94_iff). Violated otherwise, for every such set of transports (c94_violated)."
  },
  {
   "property": "C95",
   "status": "partial",
   "theorems": [
    "Verif.Conn.Rejoin.c95_partial",
    "Verif.Conn.Rejoin.c95_announced",
    "Verif.Conn.Rejoin.c95_rest",
    "Verif.Conn.Rejoin.c95_delete",
    "Verif.Conn.Rejoin.c95_violated",
    "Verif.Conn.Rejoin.c95_late"
   ],
   "note": "After its end was closed at most one more object is passed up from a connection (c95_partial); its end is announced once by its reader and once per failing send, exactly (c95_announced); at rest every reader has ended, with its end closed, or waits at an empty channel (c95_rest). Violated: deletions have no effect at all (c95_delete); a reader never notices that the other end was closed (c95_violated, every execution); the reader of a closed end waits until the next object comes and passes it up (c95_late)."
  },
  {
   "property": "C96",
   "status": "partial",
   "theorems": [
    "Verif.Reg.Broadcast.c96_iff",
    "Verif.Reg.Broadcast.c96_partial",
    "Verif.Reg.Broadcast.c96_known",
    "Verif.Reg.Broadcast.c96_moment",
    "Verif.Reg.Broadcast.c96_lost",
    "Verif.Reg.Broadcast.c96_twice",
    "Verif.Reg.Broadcast.c96_add",
    "Verif.Reg.Broadcast.c96_ends"
   ],
   "note": "Exact: all events reach the right endpoints in every interleaving if and only if every endpoint deleted is the one registered last at that time (c96_iff); for one deletion also exactly when, depending on how many endpoints have been told (c96_moment). That nobody is told who was not registered meanwhile holds always (c96_known). Violated otherwise: an endpoint that stays is never told (c96_lost) or told twice (c96_twice)."
  },
  {
   "property": "C97",
   "status": "partial",
   "theorems": [
    "Verif.Stack.c97_partial",
    "Verif.Stack.c97_exact",
    "Verif.Stack.c97_default",
    "Verif.Stack.c97_violated",
    "Verif.Stack.c97_unaddressed",
    "Verif.Program.c97_program",
    "Verif.Program.c97_program_default",
    "Verif.Program.c97_examples",
    "Verif.Program.c97_tcp"
   ],
   "note": "Holds for every chain without a FrameDecoder enabled on byte connections and every history of addressed messages (c97_partial). Exact with the FrameDecoder as the lowest processor: a history crashes the stack if and only if some read is whole frames followed by four zero bytes and no earlier read jammed the cache (c97_exact); with the default cache, if and only if some read is of that kind (c97_default); the same for programs, whose data path and cache are read off their calls and options (c97_program, c97_program_default), among them those in examples/ (c97_examples, c97_tcp). Violated: four zero bytes crash every such stack (c97_violated); a message without a connection panics in FrameDecoder, StatCounter, Heartbeat and LoadBalancer, enabled or not (c97_unaddressed)."
  },
  {
   "property": "C98",
   "status": "partial",
   "theorems": [
    "Verif.Conn.Retire.c98_exact",
    "Verif.Conn.Retire.c98_iff",
    "Verif.Conn.Retire.c98_restart_partial",
    "Verif.Conn.Retire.c98_violated",
    "Verif.Conn.Heartbeat.c98_heartbeat_exact",
    "Verif.Conn.Heartbeat.c98_heartbeat_partial",
    "Verif.Conn.Heartbeat.c98_heartbeat_eventually",
    "Verif.Conn.Heartbeat.c98_heartbeat_violated"
   ],
   "note": "Violated without bound: for every n, n clients of a TCP or Unix server have come and gone, nothing is open or going on, and the transport holds all n connections (c98_violated). Exact: a transport holds, once each, the connections handed out since it was last started, closed or not (c98_exact), hence no closed one if and only if none of these has come to its end (c98_iff); a new start forgets all earlier ones (c98_restart_partial). The Heartbeat holds a closed connection exactly if it is refreshed after the sender goroutine has seen its end, until the next check that comes the timeout later (c98_heartbeat_exact, c98_heartbeat_violated); otherwise, and eventually, it forgets it (c98_heartbeat_partial, c98_heartbeat_eventually)."
  },
  {
   "property": "C99",
   "status": "partial",
   "theorems": [
    "Verif.UBuf.c99_mixed_partial",
    "Verif.UBuf.c99_isolated",
    "Verif.UBuf.c99_shared",
    "Verif.UBuf.c99_violated"
   ],
   "note": "Holds for every history in which no buffer takes part in both a reference and a copy-on-write snapshot and no buffer of the latter is written at its head: results and contents are those of a specification with shared stores (c99_mixed_partial), so a call is seen through exactly the buffers of the same store (c99_isolated, c99_shared). Violated for every non-empty buffer otherwise: with a reference and a copy-on-write snapshot of it, in either order, bytes written through the reference change the copy-on-write snapshot, and the source no longer shares with its reference once it is written (c99_violated)."
  },
  {
   "property": "C100",
   "status": "partial",
   "theorems": [
    "Verif.UBuf.c100_readFull_exact",
    "Verif.UBuf.c100_readAll_exact",
    "Verif.UBuf.c100_readAll_never_succeeds",
    "Verif.UBuf.c100_gob_exact",
    "Verif.UBuf.c100_gob_yields",
    "Verif.Stack.c100_exact",
    "Verif.Stack.c100_exact_above",
    "Verif.Stack.c100_finished_partial",
    "Verif.Stack.c100_never_finished",
    "Verif.Stack.c100_violated"
   ],
   "note": "Violated: Read on an empty buffer returns no bytes and no error, so io.ReadFull runs forever exactly if it wants bytes and there are none (c100_readFull_exact), io.ReadAll exactly if the content is empty or fills its slice, and it never succeeds (c100_readAll_exact, c100_readAll_never_succeeds). A gob decoder runs forever exactly if the content ends where a message, the digits of a count or a message body should begin (c100_gob_exact); a stack with a GOBCodec finishes a read exactly if its payload is not of that kind (c100_exact with silent processors above the codec, c100_exact_above with an Echo, Filter, Forwarder, Discarder or further codecs there, c100_finished_partial; c100_never_finished for anything above the codec); one byte of payload hangs every such stack (c100_violated). A complete gob is decoded (c100_gob_yields). Missing: what gob does with a complete message is an arbitrary function; the positive half for chains with an enabled FrameDecoder above the codec, or where a Loopback turns around what is sent from above it."
  },
  {
   "property": "C101",
   "status": "partial",
   "theorems": [
    "Verif.Reg.Reuse.c101_iff",
    "Verif.Reg.Reuse.c101_partial",
    "Verif.Reg.Reuse.c101_ring",
    "Verif.Reg.Reuse.c101_violated"
   ],
   "note": "Exact: with a channel of capacity K every message is passed down as it was handed over in every execution if and only if at all times the last K+1 objects handed over are unchanged (c101_iff); so a program that uses n buffers in turn is right for all data if and only if n is at least K+2, 514 with the channel of the endpoint (c101_ring). Violated otherwise: any write that changes an object handed over can change the message (c101_violated). Objects that are never changed afterwards are passed down as they were (c101_partial)."
  },
  {
   "property": "C102",
   "status": "partial",
   "theorems": [
    "Verif.Reg.Foreign.c102_iff",
    "Verif.Reg.Foreign.c102_served",
    "Verif.Reg.Foreign.c102_own_partial",
    "Verif.Reg.Foreign.c102_foreign",
    "Verif.Reg.Foreign.c102_nil"
   ],
   "note": "Exact: a sequence of calls panics if and only if one of its calls is of the kinds listed in `Bad` (c102_iff), and an endpoint is served if and only if it was started and not ended since by Run, by an effective addition or deletion, or by an event of the program (c102_served, endpoints with different sessions). Holds for programs that publish no events about endpoints (c102_own_partial). Violated: an announced endpoint is served without being registered and DeleteEndPoint does not end it, and conversely (c102_foreign); a nil endpoint is accepted and makes every later event, Run and its own deletion panic (c102_nil). Listeners only observe; a panic ends the program; the goroutines started are not modelled."
  },
  {
   "property": "C103",
   "status": "partial",
   "theorems": [
    "Verif.Stack.c103_iff",
    "Verif.Stack.c103_server",
    "Verif.Stack.c103_server_beats",
    "Verif.Stack.c103_bare",
    "Verif.Stack.c103_server_bare",
    "Verif.Stack.c103_paid"
   ],
   "note": "Exact for stacks with one codec (Bytes or String): with an enabled FrameDecoder at the bottom and nowhere else below the codec, exactly the messages sent are delivered if and only if every read ends where a message ends (c103_iff); without an enabled FrameDecoder, if and only if every read is exactly one message (c103_bare). Both also hold for a server: one stack, its FrameDecoder (if any) shared by any number of connections, with the stack's own sends, control messages and closings between the reads (c103_server, c103_server_bare), with FrameDecoder also for a stream of messages and heartbeats (c103_server_beats). So the code violates the statement for all other cuts. Whatever bytes are read, by honest or other peers, the payloads delivered and their headers never exceed the bytes read (c103_paid). Missing: several enabled FrameDecoders in one stack; codecs whose decoding is not injective."
  },
  {
   "property": "C104",
   "status": "partial",
   "theorems": [
    "Verif.Conn.Rate.c104_rate_partial",
    "Verif.Conn.Rate.c104_pause",
    "Verif.Conn.Rate.c104_exact",
    "Verif.Conn.Rate.c104_bounded",
    "Verif.Conn.Rate.c104_violated",
    "Verif.Conn.Rate.c104_stop",
    "Verif.Conn.Rate.c104_live",
    "Verif.Conn.Rate.c104_count",
    "Verif.Conn.Rate.c104_checker",
    "Verif.Conn.Rate.c104_checkers_violated",
    "Verif.Conn.Rate.c104_quiet",
    "Verif.Conn.Rate.c104_configured",
    "Verif.Conn.Rate.c104_collects",
    "Verif.Conn.Rate.c104_forever",
    "Verif.Conn.Rate.c104_over"
   ],
   "note": "Holds for the pause the goroutine really sleeps (c104_rate_partial), which is the interval exactly up to 9223372036 seconds (c104_pause). Exact: a Heartbeat keeps its interval in every execution if and only if it is at most 9223372036 seconds (c104_exact), and what it sends in a given time is bounded if and only if the wrapped product is positive (c104_bounded): violated by an interval of 0 or less, with which it sends without end while no time passes (c104_violated). At most one message after the end, and at most four more steps (c104_stop); never stuck (c104_live). In infinite executions in which time goes on and the scheduler is fair to the goroutine, it sends again and again while its connection is open (c104_forever) and ends for good once it is closed (c104_over). Number of goroutines: exact (c104_count), none for a StatCounter with an interval that is not positive (c104_quiet), one for every announcement made while it is positive (c104_collects). Every goroutine sleeps as long as its processor was configured to by the last Run before the announcement, a checker one second (c104_configured). Violated: every further Run of a Heartbeat adds one more checker that never ends (c104_checker, c104_checkers_violated)."
  },
  {
   "property": "C105",
   "status": "partial",
   "theorems": [
    "Verif.Access.c105_iff",
    "Verif.Access.c105_static_partial",
    "Verif.Access.c105_violated",
    "Verif.Access.c105_rerun",
    "Verif.Access.c105_concurrent"
   ],
   "note": "Exact: for every set of features of a program (its processors, what it changes after Run) and every field, two goroutines may come to access the field at once, one of them writing, if and only if the field is in the table `conflicts` (c105_iff). Holds for programs that only set up, run, send and receive, except for the UpperDeck's map, `closed` of connections, the counters of StatCounter and the cache of FrameDecoder (c105_static_partial). Violated in every program for the UpperDeck's map (its goroutines read it without the mutex while the next endpoint is entered) and for `closed` (c105_violated), and for nearly all fields of the stack when Run is called again (c105_rerun). The same, exactly, for programs that call the library from any number of goroutines and from event listeners to any depth (c105_concurrent): more fields conflict, among them the list of transports and the intervals."
  },
  {
   "property": "C106",
   "status": "partial",
   "theorems": [
    "Verif.Access.c106_finish_partial",
    "Verif.Access.c106_circle_partial",
    "Verif.Access.c106_violated",
    "Verif.Access.c106_served_partial",
    "Verif.Access.c106_never"
   ],
   "note": "For every program without a Heartbeat or whose listeners publish no NewConnection events: in every state all goroutines can be brought to their end, after which no mutex is held (c106_finish_partial), and no goroutines wait for each other in a circle (c106_circle_partial), with any number of mutexes of each kind, listeners that call the library to any depth and goroutines of the program. Violated if a listener publishes a NewConnection event when a heartbeat is lost: the checking goroutine waits for ever for the mutex it holds (c106_violated, c106_never). In infinite executions, under strong fairness: every mutex is given back again and again and every goroutine does all it has to do (c106_served_partial). Missing: channel operations (C55, C81)."
  },
  {
   "property": "C107",
   "status": "partial",
   "theorems": [
    "Verif.Reg.Several.c107_iff",
    "Verif.Reg.Several.c107_separate_partial",
    "Verif.Reg.Several.c107_down_ends",
    "Verif.Reg.Several.c107_up_ends_iff",
    "Verif.Reg.Several.c107_violated"
   ],
   "note": "Exact for every history of any number of stacks (c107_iff): the ways down and up are right if and only if the processors are distinct and no stack run later has one of them; the processors belong to the stack if and only if no stack run later has one of them. Holds for stacks whose processors are distinct and not shared (c107_separate_partial). Violated for a processor of two stacks (what the first stack sends leaves through the second one's connections) and for one appended twice (received messages go round for ever) (c107_violated). Going down always comes to an end (c107_down_ends); going up does if and only if the processors are distinct (c107_up_ends_iff). Nothing missing for the fields upper, lower and ustack."
  },
  {
   "property": "C108",
   "status": "partial",
   "theorems": [
    "Verif.Reg.SeveralIO.c108_once",
    "Verif.Reg.SeveralIO.c108_sent_iff",
    "Verif.Reg.SeveralIO.c108_received_iff",
    "Verif.Reg.SeveralIO.c108_order_iff",
    "Verif.Reg.SeveralIO.c108_delete_iff",
    "Verif.Reg.SeveralIO.c108_delete_all",
    "Verif.Reg.SeveralIO.c108_one_stack_partial",
    "Verif.Reg.SeveralIO.c108_violated"
   ],
   "note": "Every message is passed down once and every connection announced once, in order, in every execution (c108_once). The rest is exact for every choice of the stacks: messages are passed down in the stack that announced their connection if and only if no stack with the endpoint is another one than a stack with the transport (c108_sent_iff), in order if and only if at most one stack has the endpoint or none the transport (c108_order_iff), everything received arrives if and only if every stack with the transport has the endpoint (c108_received_iff), a deletion closes only connections of the deleting stack if and only if no other stack has the transport (c108_delete_iff, c108_delete_all). Holds for one stack (c108_one_stack_partial), violated for an endpoint of two stacks (c108_violated). Nothing is added meanwhile; channels are unbounded."
  },
  {
   "property": "C109",
   "status": "partial",
   "theorems": [
    "Verif.Stack.c109_lost",
    "Verif.Stack.c109_exact",
    "Verif.Stack.c109_iff",
    "Verif.Stack.c109_delivered_partial",
    "Verif.Stack.c109_bare",
    "Verif.Stack.c109_bare_lost",
    "Verif.Stack.c109_violated"
   ],
   "note": "Violated: a message that is longer on the wire than the receiver's MTU is not delivered, however the stream is cut (c109_lost, c109_violated), although the cache of the receiver's FrameDecoder has twice that size by default. Exact for stacks with one codec (Bytes or String), a FrameDecoder at the bottom and nowhere else below the codec, whose head room is all used: everything can be delivered if and only if every message with its headers fits the receiver's MTU (c109_iff), and a cut delivers it if and only if every read ends at the end of a message (c109_exact, C103 for different MTUs). With disabled processors that reserve head room, the latter for messages that fit the receiver with all its head room (c109_delivered_partial). Without a FrameDecoder, if and only if every read is one message, and a message longer than the receiver's MTU is lost (c109_bare, c109_bare_lost). Missing: messages that fit the receiver's MTU only because such processors are disabled."
  },
  {
   "property": "C110",
   "status": "partial",
   "theorems": [
    "Verif.Reg.Serve.c110_count",
    "Verif.Reg.Serve.c110_iff",
    "Verif.Reg.Serve.c110_forever",
    "Verif.Reg.Serve.c110_in_order_partial",
    "Verif.Reg.Serve.c110_order_iff",
    "Verif.Reg.Serve.c110_session_partial",
    "Verif.Reg.Serve.c110_violated"
   ],
   "note": "Exact: besides the goroutine a registered endpoint is to have, as many serve it as there are stop signals nobody has taken (c110_count), and the right number can still be reached, whatever happens, if and only if some goroutine waits for every signal (c110_iff); a signal nobody waits for is never taken, also if the endpoint is added again (c110_forever). Messages are passed down once and in order in every continuation without additions if and only if at most one goroutine serves the endpoint (c110_order_iff), and in every execution in which that holds throughout, also with the session of the last addition (c110_in_order_partial, c110_session_partial). Violated without bound: for every n, n goroutines serve a deleted endpoint for ever (c110_violated)."
  },
  {
   "property": "C111",
   "status": "partial",
   "theorems": [
    "Verif.Reg.Serve.c111_passed",
    "Verif.Reg.Serve.c111_unfair",
    "Verif.Reg.Listener.c111_heard_partial",
    "Verif.Reg.Listener.c111_heard_any_partial",
    "Verif.Reg.Listener.c111_heard_violated",
    "Verif.Conn.Backpressure.c111_taken",
    "Verif.Conn.Accept.c111_announced",
    "Verif.Conn.Service.c111_answered",
    "Verif.Conn.Service.c111_starved",
    "Verif.Conn.Service.c111_echo",
    "Verif.Reg.Broadcast.c111_told_partial",
    "Verif.Reg.Broadcast.c111_told_violated"
   ],
   "note": "Infinite executions under weak fairness (strong fairness for the receive goroutine, which competes with others for a place in a channel). Proved: transmit channels, arriving messages, connections, answers of a service and of an Echo. The clause about listeners is violated: in a fair execution a listener that is removed and set again may never be called (c111_heard_violated); proved for non-nil listeners, with the order for one receive goroutine (c111_heard_partial) and without it for any number (c111_heard_any_partial). c111_unfair: without fairness the first clause fails; c111_starved: weak fairness for the receive goroutines is not enough for the last. Events published while endpoints come and go: the loop always ends, and those that stay are told if only the last endpoint is ever deleted (c111_told_partial); otherwise false (c111_told_violated). Missing: nil listeners and other deletions, for which the clauses are false."
  },
  {
   "property": "C112",
   "status": "partial",
   "theorems": [
    "Verif.Conn.Pipeline.c112_program",
    "Verif.Conn.Pipeline.c112_listener",
    "Verif.Conn.Pipeline.fair_run",
    "Verif.Conn.Peers.c112_peers",
    "Verif.Conn.Peers.fair_run",
    "Verif.Conn.Retire.c112_connections",
    "Verif.Conn.Shut.c112_closed_partial",
    "Verif.Conn.Shut.c112_closed_violated"
   ],
   "note": "Infinite executions of the models of C79, C88, C89, C91 and C92, under the weakest fairness. Proved: clients, two programs that answer each other (exactly, c112_peers), connections of stream transports, closing of stream connections. The last clause is violated for Reference connections: the receive goroutines of both sides wait for ever (c112_closed_violated)."
  }
 ]
}