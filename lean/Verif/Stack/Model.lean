import Verif.UBuf.Model

/-!
# Model of the data path: contexts, processors, decks

A built stack is a chain: position `0` is the UpperDeck, position `i + 1` is `processors[i]`,
position `n + 1` is the LowerDeck (ustack_default.go:120-140).  Every processor handler is written
against its neighbours (`Nb`), the knot is tied by `call`, which carries a budget: `.running` means
that the call has not returned within the budget.

Simplifications: a context is passed by value and handed back (in the code it is a pointer; nobody
keeps it after the call); every buffer of the data path is referenced by one context or processor
only, so it is a value with a heap of its own; a `GetRxChannel() <-` never blocks (the endpoint's
user keeps receiving); user functions (filters, encoders) are total Go functions that return.
-/

namespace Verif.Stack
open UBuf (St Err Heap WriteRes ReadRes)

abbrev ConnId := Nat
abbrev EpId := Nat

/-- An `interface{}` value: its dynamic type and value.  `obj` stands for any other object. -/
inductive Val where
  | nil
  | bytes (b : List Byte)
  | str (b : List Byte)
  | int (i : Int)
  | bool (b : Bool)
  | byte (b : Byte)
  | obj (n : Nat)
  deriving Repr, DecidableEq, Inhabited

/-- `OptionParseInt` (utils.go:17-25). -/
def optionParseInt (v : Val) (default : Int) : Int × Bool :=
  match v with
  | .int i => (i, true)
  | _ => (default, false)

/-- `OptionParseByte` (utils.go:7-15). -/
def optionParseByte (v : Val) (default : Byte) : Byte × Bool :=
  match v with
  | .byte i => (i, true)
  | _ => (default, false)

/-- `OptionParseBool` (utils.go:27-35). -/
def optionParseBool (v : Val) (default : Bool) : Bool × Bool :=
  match v with
  | .bool i => (i, true)
  | _ => (default, false)

/-- `OptionParseByteSlice` (utils.go:37-45): `none` is the nil slice. -/
def optionParseByteSlice (v : Val) : Option (List Byte) × Bool :=
  match v with
  | .bytes b => (some b, true)
  | _ => (none, false)

/-- `DefaultUStackContext` (ustack_default.go:14-76).  The option map yields nil for absent keys. -/
structure Ctx where
  conn : Option ConnId
  buf : Option St
  msg : Val
  opts : String → Val

/-- `NewUStackContext` (ustack_default.go:22-29). -/
def Ctx.new : Ctx := { conn := none, buf := none, msg := .nil, opts := fun _ => .nil }

/-- `SetOption` (ustack_default.go:43-46). -/
def Ctx.setOption (c : Ctx) (name : String) (v : Val) : Ctx :=
  { c with opts := fun x => if x = name then v else c.opts x }

/-- A user function of a Filter/Forwarder (proc_filter.go:7): may change the context. -/
abbrev Fn := Ctx → Bool → Bool × Ctx

/-- The processors of `proc_*.go` with their own state. -/
inductive Kind where
  /-- proc_base.go: the no-op processor -/
  | base
  | bytesCodec
  | stringCodec
  /-- `json.Marshal` / `json.Unmarshal` into the object type; `none` is an error -/
  | jsonCodec (marshal : Val → Option (List Byte)) (unmarshal : List Byte → Option Val)
  /-- the user's functions, which may be nil -/
  | genericCodec (enc : Option (Val → GoM St (Option Err))) (dec : Option (GoM St (Val × Option Err)))
  /-- `gob` encoding to / decoding from the buffer -/
  | gobCodec (enc : Val → GoM St (Option Err)) (dec : GoM St (Val × Option Err))
  | session
  /-- `cache`, nil before `Run` -/
  | frame (cache : Option St)
  | stat (tx rx : UInt64)
  | heartbeat
  | loadBalancer
  /-- `filterFn`, whose entries may be nil -/
  | filter (fns : List (Option Fn)) (tx rx : UInt64)
  | forwarder (fns : List (Option Fn)) (tx rx : UInt64)
  | echo
  | loopback
  | discarder
  | flow

instance : Inhabited Kind := ⟨.base⟩

/-- A processor: `ProcBase.enable` and the rest. -/
structure Proc where
  enable : Bool
  kind : Kind
  deriving Inhabited

/-- `GetOverhead` of every processor (proc_base.go:59, proc_session_resolver.go:23,
proc_frame_decoder.go:32, proc_stat_counter.go:38, proc_heartbeat.go:90, proc_load_balancer.go:33). -/
def Kind.overhead : Kind → Int
  | .session => 4
  | .frame _ => 4
  | .stat _ _ => 1
  | .heartbeat => 1
  | .loadBalancer => 1
  | _ => 0

/-- A transport connection as seen by the stack. -/
structure Conn where
  useRef : Bool
  closed : Bool
  deriving Repr, DecidableEq, Inhabited

/-- Observable effects. -/
inductive Obs where
  /-- `conn.Write(p)` on the underlying connection and its result -/
  | wire (c : ConnId) (p : List Byte) (r : WriteRes)
  /-- an object put on a reference connection -/
  | ref (c : ConnId) (v : Val)
  /-- data put on the receive channel of an endpoint -/
  | rx (ep : EpId) (conn : Option ConnId) (v : Val)
  /-- `ConnectionClosed` published -/
  | closed (c : ConnId)
  /-- the heartbeat monitor of a connection refreshed by the processor at a position -/
  | beat (pos : Nat) (c : Option ConnId)
  /-- `StatCounter.show` printed these numbers and this name -/
  | shown (tx rx : Nat) (name : List Byte)
  deriving Repr, DecidableEq

/-- A running stack.  `write` is the environment: what the underlying connection answers to a
`Write`, given everything that happened before. -/
structure World where
  mtu : Int
  overhead : Int
  name : List Byte
  n : Nat
  procs : Nat → Proc
  /-- endpoints in the UpperDeck's map with their session -/
  served : List (EpId × Int)
  conns : ConnId → Conn
  write : List Obs → ConnId → List Byte → WriteRes
  trace : List Obs

/-- A handler: takes the context, returns it as mutated. -/
abbrev Handler := Ctx → GoM World Ctx

/-- The neighbours of a processor. -/
structure Nb where
  /-- `upper.OnLowerData` -/
  upLower : Handler
  /-- `lower.OnUpperData` -/
  downUpper : Handler
  /-- `upper.OnUpperData` (only called by FrameDecoder) -/
  upUpper : Handler

/-- Run a buffer method on a buffer owned by the caller. -/
def onBuf (s : St) (m : GoM St α) : GoM World (α × St) := fun w =>
  match m s with
  | (.ok a, s') => (.ok (a, s'), w)
  | (.panic, _) => (.panic, w)
  | (.running, _) => (.running, w)

/-- `UBufAllocWithHeadReserved`. -/
def allocBuf (capacity reserved : Int) : GoM World St := fun w => (UBuf.alloc capacity reserved Heap.empty, w)

/-- Record an effect. -/
def observe (o : Obs) : GoM World Unit := GoM.modify fun w => { w with trace := w.trace ++ [o] }

/-- Change the state of `processors[i]`. -/
def setKind (i : Nat) (k : Kind) : GoM World Unit :=
  GoM.modify fun w => { w with procs := fun j => if j = i then { w.procs j with kind := k } else w.procs j }

/-- `context.GetConnection().UseReference()`: a nil connection panics. -/
def useReference (c : Option ConnId) : GoM World Bool := fun w =>
  match c with
  | none => (.panic, w)
  | some c => (.ok (w.conns c).useRef, w)

/-! ## Codecs -/

/-- The common tail of the bytes, string and JSON codecs: a fresh buffer, one `Write`, on success
down (proc_codec_bytes.go:34-46, proc_codec_string.go:34-46, proc_codec_json.go:42-54). -/
def encodeDown (nb : Nb) (ctx : Ctx) (bytes : List Byte) : GoM World Ctx := do
  let w ← GoM.get
  let ub ← allocBuf w.mtu w.overhead
  let r ← onBuf ub (UBuf.write bytes)
  if r.1.1 = 0 ∨ r.1.2.isSome then return ctx
  nb.downUpper { ctx with buf := some r.2 }

/-- `BytesCodec.OnUpperData` (proc_codec_bytes.go:21-47). -/
def bytesUpper (en : Bool) (nb : Nb) : Handler := fun ctx =>
  if en then
    match ctx.msg with
    | .bytes b => encodeDown nb ctx b
    | _ => pure ctx
  else nb.downUpper ctx

/-- `StringCodec.OnUpperData` (proc_codec_string.go:21-47). -/
def stringUpper (en : Bool) (nb : Nb) : Handler := fun ctx =>
  if en then
    match ctx.msg with
    | .str b => encodeDown nb ctx b
    | _ => pure ctx
  else nb.downUpper ctx

/-- `JSONCodec.OnUpperData` (proc_codec_json.go:29-55). -/
def jsonUpper (en : Bool) (marshal : Val → Option (List Byte)) (nb : Nb) : Handler := fun ctx =>
  if en then
    if ctx.msg = .nil then pure ctx
    else match marshal ctx.msg with
      | some b => encodeDown nb ctx b
      | none => pure ctx
  else nb.downUpper ctx

/-- `GenericCodec.OnUpperData` (proc_codec_generic.go:44-71). -/
def genericUpper (en : Bool) (enc : Option (Val → GoM St (Option Err))) (nb : Nb) : Handler := fun ctx =>
  if en then
    match enc with
    | none => pure ctx
    | some enc =>
      if ctx.msg = .nil then pure ctx
      else do
        let w ← GoM.get
        let ub ← allocBuf w.mtu w.overhead
        let r ← onBuf ub (enc ctx.msg)
        if r.1.isSome then return ctx
        nb.downUpper { ctx with buf := some r.2 }
  else nb.downUpper ctx

/-- Read all of a received buffer: `make([]byte, ub.ReadableLength())`, `ub.Read`, drop if nothing
was read (proc_codec_bytes.go:52-62, proc_codec_string.go:52-62, proc_codec_json.go:60-70). -/
def decodeUp (ctx : Ctx) (k : Ctx → List Byte → GoM World Ctx) : GoM World Ctx :=
  match ctx.buf with
  | none => pure ctx
  | some ub => do
    GoM.check (decide (0 ≤ UBuf.readableLength ub))   -- make([]byte, negative) panics
    let r ← onBuf ub (UBuf.read (UBuf.readableLength ub).toNat)
    let ctx := { ctx with buf := some r.2 }
    if r.1.1.length = 0 ∨ r.1.2.isSome then return ctx
    k ctx r.1.1

/-- `BytesCodec.OnLowerData` (proc_codec_bytes.go:50-68). -/
def bytesLower (en : Bool) (nb : Nb) : Handler := fun ctx =>
  if en then decodeUp ctx fun ctx b => nb.upLower { ctx with msg := .bytes b }
  else nb.upLower ctx

/-- `StringCodec.OnLowerData` (proc_codec_string.go:50-68). -/
def stringLower (en : Bool) (nb : Nb) : Handler := fun ctx =>
  if en then decodeUp ctx fun ctx b => nb.upLower { ctx with msg := .str b }
  else nb.upLower ctx

/-- `JSONCodec.OnLowerData` (proc_codec_json.go:58-83). -/
def jsonLower (en : Bool) (unmarshal : List Byte → Option Val) (nb : Nb) : Handler := fun ctx =>
  if en then decodeUp ctx fun ctx b =>
    match unmarshal b with
    | some v => nb.upLower { ctx with msg := v }
    | none => pure ctx
  else nb.upLower ctx

/-- `GenericCodec.OnLowerData` (proc_codec_generic.go:74-96). -/
def genericLower (en : Bool) (dec : Option (GoM St (Val × Option Err))) (nb : Nb) : Handler := fun ctx =>
  if en then
    match dec with
    | none => pure ctx
    | some dec =>
      match ctx.buf with
      | none => pure ctx
      | some ub => do
        let r ← onBuf ub dec
        let ctx := { ctx with buf := some r.2 }
        if r.1.2.isSome then return ctx
        nb.upLower { ctx with msg := r.1.1 }
  else nb.upLower ctx

/-! ## SessionResolver -/

/-- `uint32(x)` of a Go int (two's complement). -/
def toU32 (i : Int) : Nat := (i % 4294967296).toNat

/-- `SessionResolver.OnUpperData` (proc_session_resolver.go:29-45). -/
def sessionUpper (en : Bool) (nb : Nb) : Handler := fun ctx =>
  if en then
    match ctx.buf with
    | none => pure ctx
    | some ub => do
      let session := (optionParseInt (ctx.opts "session") 0).1
      let r ← onBuf ub (UBuf.writeHeadU .u32 .be (toU32 session))
      let ctx := { ctx with buf := some r.2 }
      if r.1.isSome then return ctx
      nb.downUpper ctx
  else nb.downUpper ctx

/-- `SessionResolver.OnLowerData` (proc_session_resolver.go:48-64). -/
def sessionLower (en : Bool) (nb : Nb) : Handler := fun ctx =>
  if en then
    match ctx.buf with
    | none => pure ctx
    | some ub => do
      let r ← onBuf ub (UBuf.readU .u32 .be)
      let ctx := { ctx with buf := some r.2 }
      if r.1.2.isSome then return ctx
      nb.upLower (ctx.setOption "session" (.int r.1.1))
  else nb.upLower ctx

/-! ## FrameDecoder -/

/-- `FrameDecoder.OnUpperData` (proc_frame_decoder.go:37-54).  The error of `WriteHeadU32BE` is
ignored by the code. -/
def frameUpper (en : Bool) (nb : Nb) : Handler := fun ctx => do
  if (← useReference ctx.conn) then nb.upUpper ctx
  else if en then
    match ctx.buf with
    | none => return ctx
    | some ub => do
      let r ← onBuf ub (UBuf.writeHeadU .u32 .be (toU32 (UBuf.readableLength ub)))
      nb.downUpper { ctx with buf := some r.2 }
  else nb.downUpper ctx

/-- The cache of `processors[i]`; using a nil cache panics. -/
def frameCache (i : Nat) : GoM World St := do
  let w ← GoM.get
  match (w.procs i).kind with
  | .frame (some c) => return c
  | _ => GoM.panic

/-- `dst.ReadFrom(src)` where both are buffers: one `src.Read` of the free space of `dst`
(ubuf.go:467-482 with ubuf.go:446-464).  Returns the new `dst` and `src`. -/
def readFromBuf (dst src : St) : GoM World ((Nat × Option Err) × St × St) := fun w =>
  let free := dst.block.len - dst.ub.writer
  match UBuf.read free src with
  | (.ok (bs, e), src') =>
    match UBuf.readFrom (fun _ => ⟨bs, bs.length, e⟩) dst with
    | (.ok r, dst') => (.ok (r, dst', if UBuf.tailWritableLength dst ≤ 0 then src else src'), w)
    | (_, _) => (.panic, w)
  | (_, _) => (.panic, w)

/-- `io.CopyN(newUbuf, src, n)` with a fresh `newUbuf` of capacity `n`: `newUbuf.ReadFrom` on a
limited reader, i.e. one `src.Read` of `n` bytes; a short read or no data is an error. -/
def copyN (dst src : St) (n : Nat) : GoM World (Bool × St × St) := do
  let r ← readFromBuf dst src
  return (decide (r.1.2 = none ∧ r.1.1 = n), r.2.1, r.2.2)

/-- `frm.cache.ReadFrom(ub)` (proc_frame_decoder.go:60,69,84). -/
def cacheReadFrom (i : Nat) (ub : St) : GoM World St := do
  let c ← frameCache i
  let r ← readFromBuf c ub
  setKind i (.frame (some r.2.1))
  return r.2.2

/-- `frm.cache.Reset()`. -/
def cacheReset (i : Nat) : GoM World Unit := do
  let c ← frameCache i
  let r ← onBuf c UBuf.reset
  setKind i (.frame (some r.2))

/-- The loop of `handleCurrentData` (proc_frame_decoder.go:66-117).  `first` records that the
context's buffer is still `ub` itself. -/
def currentLoop (i : Nat) (nb : Nb) : Nat → Bool → Ctx → St → GoM World Ctx
  | 0, _, _, _ => fun w => (.running, w)
  | fuel + 1, first, ctx, ub =>
    let keep (ub : St) : Ctx := if first then { ctx with buf := some ub } else ctx
    if UBuf.readableLength ub < 4 then do
      let ub ← cacheReadFrom i ub
      return keep ub
    else do
      let p ← onBuf ub (UBuf.peekU .u32 .be)
      if p.1.2.isSome then
        cacheReset i
        return keep ub
      else
        let expected := p.1.1
        let actually := toU32 (UBuf.readableLength ub)
        if expected > actually then do
          let ub ← cacheReadFrom i ub
          return keep ub
        else if expected = actually then do
          let r ← onBuf ub (UBuf.readU .u32 .be)
          nb.upLower { ctx with buf := some r.2 }
        else do
          let newUbuf ← allocBuf expected 0
          let r ← onBuf ub (UBuf.readU .u32 .be)
          let q ← copyN newUbuf r.2 expected
          if q.1 = false then
            cacheReset i
            return keep q.2.2
          else do
            let ctx ← nb.upLower { ctx with buf := some q.2.1 }
            currentLoop i nb fuel false ctx q.2.2

/-- `handleCurrentData` (proc_frame_decoder.go:57-118). -/
def handleCurrent (fuel i : Nat) (nb : Nb) (ctx : Ctx) (ub : St) : GoM World Ctx := do
  let c ← frameCache i
  if UBuf.readableLength c > 0 then do
    let ub ← cacheReadFrom i ub
    return { ctx with buf := some ub }
  else currentLoop i nb fuel true ctx ub

/-- `handleCachedData` (proc_frame_decoder.go:121-167). -/
def handleCached (i : Nat) (nb : Nb) : Nat → Ctx → GoM World Ctx
  | 0, _ => fun w => (.running, w)
  | fuel + 1, ctx => do
    let c ← frameCache i
    let cached := UBuf.readableLength c
    if cached = 0 then
      cacheReset i
      return ctx
    else if cached < 4 then return ctx
    else do
      let p ← onBuf c (UBuf.peekU .u32 .be)
      if p.1.2.isSome then
        cacheReset i
        return ctx
      else
        let expected := p.1.1
        if cached < expected then return ctx
        else do
          let newUbuf ← allocBuf expected 0
          let r ← onBuf c (UBuf.readU .u32 .be)
          let q ← copyN newUbuf r.2 expected
          setKind i (.frame (some q.2.2))
          if q.1 = false then
            cacheReset i
            return ctx
          else do
            let ctx ← nb.upLower { ctx with buf := some q.2.1 }
            handleCached i nb fuel ctx

/-- `FrameDecoder.OnLowerData` (proc_frame_decoder.go:170-190). -/
def frameLower (fuel i : Nat) (en : Bool) (nb : Nb) : Handler := fun ctx => do
  if (← useReference ctx.conn) then nb.upLower ctx
  else match ctx.buf with
    | none => return ctx
    | some ub =>
      if en then do
        let ctx ← handleCurrent fuel i nb ctx ub
        handleCached i nb fuel ctx
      else nb.upLower ctx

/-! ## Tagging processors -/

/-- Prepend a tag and go down: the common shape of StatCounter, Heartbeat and LoadBalancer.  The
error of `WriteHeadByte` is ignored by the code. -/
def tagDown (tag : Byte) (nb : Nb) (ctx : Ctx) (ub : St) : GoM World Ctx := do
  let r ← onBuf ub (UBuf.writeHeadByte tag)
  nb.downUpper { ctx with buf := some r.2 }

/-- `StatCounter.OnUpperData` (proc_stat_counter.go:43-62). -/
def statUpper (i : Nat) (en : Bool) (tx rx : UInt64) (nb : Nb) : Handler := fun ctx => do
  if (← useReference ctx.conn) then nb.downUpper ctx
  else match ctx.buf with
    | none => return ctx
    | some ub => do
      if en then setKind i (.stat (tx + 1) rx)
      tagDown 0x00 nb ctx ub

/-- `StatCounter.response` (proc_stat_counter.go:79-93).  Errors of the writes are ignored. -/
def statResponse (tx rx : UInt64) (nb : Nb) : Handler := fun ctx => do
  let w ← GoM.get
  let ub ← allocBuf w.mtu w.overhead
  let r ← onBuf ub (UBuf.writeHeadByte 0x23)
  let r ← onBuf r.2 (UBuf.writeU .u64 .be tx.toNat)
  let r ← onBuf r.2 (UBuf.writeU .u64 .be rx.toNat)
  let r ← onBuf r.2 (UBuf.write w.name)
  nb.downUpper { ctx with buf := some r.2 }

/-- `StatCounter.show` (proc_stat_counter.go:96-106): the printed name is the whole 128-byte buffer,
the bytes read followed by zeros. -/
def statShow : Handler := fun ctx =>
  match ctx.buf with
  | none => GoM.panic
  | some ub => do
    let t ← onBuf ub (UBuf.readU .u64 .be)
    let r ← onBuf t.2 (UBuf.readU .u64 .be)
    let nm ← onBuf r.2 (UBuf.read 128)
    observe (.shown t.1.1 r.1.1 (nm.1.1 ++ List.replicate (128 - nm.1.1.length) 0))
    return { ctx with buf := some nm.2 }

/-- `StatCounter.OnLowerData` (proc_stat_counter.go:109-143). -/
def statLower (i : Nat) (en : Bool) (tx rx : UInt64) (nb : Nb) : Handler := fun ctx => do
  if (← useReference ctx.conn) then nb.upLower ctx
  else match ctx.buf with
    | none => return ctx
    | some ub => do
      let r ← onBuf ub UBuf.readByte
      let ctx := { ctx with buf := some r.2 }
      if r.1.2.isSome then return ctx
      else if en then
        if r.1.1 = 0x10 then statResponse tx rx nb ctx
        else if r.1.1 = 0x23 then statShow ctx
        else do
          setKind i (.stat tx (rx + 1))
          nb.upLower ctx
      else nb.upLower ctx

/-- `Heartbeat.OnUpperData` (proc_heartbeat.go:95-109). -/
def heartbeatUpper (nb : Nb) : Handler := fun ctx => do
  if (← useReference ctx.conn) then nb.downUpper ctx
  else match ctx.buf with
    | none => return ctx
    | some ub => tagDown 0x00 nb ctx ub

/-- `Heartbeat.OnLowerData` (proc_heartbeat.go:112-136). -/
def heartbeatLower (i : Nat) (nb : Nb) : Handler := fun ctx => do
  if (← useReference ctx.conn) then nb.upLower ctx
  else match ctx.buf with
    | none => return ctx
    | some ub => do
      let r ← onBuf ub UBuf.readByte
      let ctx := { ctx with buf := some r.2 }
      if r.1.2.isSome then return ctx
      else if r.1.1 = 0x83 then do
        observe (.beat i ctx.conn)
        return ctx
      else nb.upLower ctx

/-- `LoadBalancer.OnUpperData` (proc_load_balancer.go:39-58). -/
def loadBalancerUpper (en : Bool) (nb : Nb) : Handler := fun ctx => do
  if (← useReference ctx.conn) then nb.downUpper ctx
  else match ctx.buf with
    | none => return ctx
    | some ub => tagDown (if en then 0x11 else 0x00) nb ctx ub

/-- `LoadBalancer.OnLowerData` (proc_load_balancer.go:61-85). -/
def loadBalancerLower (en : Bool) (nb : Nb) : Handler := fun ctx => do
  if (← useReference ctx.conn) then nb.upLower ctx
  else match ctx.buf with
    | none => return ctx
    | some ub => do
      let r ← onBuf ub UBuf.readByte
      let ctx := { ctx with buf := some r.2 }
      if r.1.2.isSome then return ctx
      else if en ∧ r.1.1 ≠ 0x00 then return ctx
      else nb.upLower ctx

/-! ## Filter and Forwarder -/

/-- `doFilter` / `doForward` (proc_filter.go:32-39, proc_forwarder.go:32-39): calling a nil function
panics. -/
def doFns (toUpper : Bool) : List (Option Fn) → Ctx → GoM World (Bool × Ctx)
  | [], ctx => pure (false, ctx)
  | none :: _, _ => GoM.panic
  | some fn :: fns, ctx =>
    if (fn ctx toUpper).1 then pure (true, (fn ctx toUpper).2)
    else doFns toUpper fns (fn ctx toUpper).2

/-- `NewFilter` (proc_filter.go:18-29): `make([]FilterFn, 1)` holds one nil function, the arguments
are appended behind it. -/
def newFilter (fns : List Fn) : Proc :=
  { enable := true, kind := .filter (none :: fns.map some) 0 0 }

/-- `NewForwarder` (proc_forwarder.go:18-29), same construction. -/
def newForwarder (fns : List Fn) : Proc :=
  { enable := true, kind := .forwarder (none :: fns.map some) 0 0 }

/-- `Filter.OnUpperData` (proc_filter.go:42-51). -/
def filterUpper (i : Nat) (en : Bool) (fns : List (Option Fn)) (tx rx : UInt64) (nb : Nb) : Handler := fun ctx =>
  if en then do
    let r ← doFns false fns ctx
    if r.1 = false then
      setKind i (.filter fns (tx + 1) rx)
      return r.2
    else nb.downUpper r.2
  else nb.downUpper ctx

/-- `Filter.OnLowerData` (proc_filter.go:54-63). -/
def filterLower (i : Nat) (en : Bool) (fns : List (Option Fn)) (tx rx : UInt64) (nb : Nb) : Handler := fun ctx =>
  if en then do
    let r ← doFns true fns ctx
    if r.1 = false then
      setKind i (.filter fns tx (rx + 1))
      return r.2
    else nb.upLower r.2
  else nb.upLower ctx

/-- `Forwarder.OnUpperData` (proc_forwarder.go:42-51). -/
def forwarderUpper (i : Nat) (en : Bool) (fns : List (Option Fn)) (tx rx : UInt64) (nb : Nb) : Handler := fun ctx =>
  if en then do
    let r ← doFns false fns ctx
    if r.1 = true then
      setKind i (.forwarder fns (tx + 1) rx)
      return r.2
    else nb.downUpper r.2
  else nb.downUpper ctx

/-- `Forwarder.OnLowerData` (proc_forwarder.go:54-63). -/
def forwarderLower (i : Nat) (en : Bool) (fns : List (Option Fn)) (tx rx : UInt64) (nb : Nb) : Handler := fun ctx =>
  if en then do
    let r ← doFns true fns ctx
    if r.1 = true then
      setKind i (.forwarder fns tx (rx + 1))
      return r.2
    else nb.upLower r.2
  else nb.upLower ctx

/-! ## Dispatch -/

/-- `OnUpperData` of `processors[i]`.  Echo (proc_echo.go:23), Discarder (proc_discarder.go:23) and
FlowController (proc_flow_controller.go:23) pass everything down; Loopback (proc_loopback.go:23)
sends it up; ProcBase (proc_base.go:111) does nothing. -/
def onUpper (i : Nat) (p : Proc) (nb : Nb) : Handler :=
  match p.kind with
  | .base => fun ctx => pure ctx
  | .bytesCodec => bytesUpper p.enable nb
  | .stringCodec => stringUpper p.enable nb
  | .jsonCodec m _ => jsonUpper p.enable m nb
  | .genericCodec e _ => genericUpper p.enable e nb
  | .gobCodec e _ => genericUpper p.enable (some e) nb
  | .session => sessionUpper p.enable nb
  | .frame _ => frameUpper p.enable nb
  | .stat tx rx => statUpper i p.enable tx rx nb
  | .heartbeat => heartbeatUpper nb
  | .loadBalancer => loadBalancerUpper p.enable nb
  | .filter fns tx rx => filterUpper i p.enable fns tx rx nb
  | .forwarder fns tx rx => forwarderUpper i p.enable fns tx rx nb
  | .echo => nb.downUpper
  | .loopback => nb.upLower
  | .discarder => nb.downUpper
  | .flow => nb.downUpper

/-- `OnLowerData` of `processors[i]`.  Echo (proc_echo.go:28), Discarder (proc_discarder.go:28),
FlowController (proc_flow_controller.go:32); Loopback inherits ProcBase's no-op
(proc_base.go:115).  `GOBCodec` (proc_codec_gob.go) has the shape of GenericCodec. -/
def onLower (fuel i : Nat) (p : Proc) (nb : Nb) : Handler :=
  match p.kind with
  | .base => fun ctx => pure ctx
  | .bytesCodec => bytesLower p.enable nb
  | .stringCodec => stringLower p.enable nb
  | .jsonCodec _ u => jsonLower p.enable u nb
  | .genericCodec _ d => genericLower p.enable d nb
  | .gobCodec _ d => genericLower p.enable (some d) nb
  | .session => sessionLower p.enable nb
  | .frame _ => frameLower fuel i p.enable nb
  | .stat tx rx => statLower i p.enable tx rx nb
  | .heartbeat => heartbeatLower i nb
  | .loadBalancer => loadBalancerLower p.enable nb
  | .filter fns tx rx => filterLower i p.enable fns tx rx nb
  | .forwarder fns tx rx => forwarderLower i p.enable fns tx rx nb
  | .echo => if p.enable then nb.downUpper else nb.upLower
  | .loopback => fun ctx => pure ctx
  | .discarder => if p.enable then fun ctx => pure ctx else nb.upLower
  | .flow => nb.upLower

/-! ## Decks -/

/-- `findEndPoint` (proc_upperdeck.go:83-93); the map is iterated in an unspecified order, here the
list's. -/
def findEndPoint (served : List (EpId × Int)) (session : Int) : Option EpId :=
  (served.find? fun e => e.2 == session).map Prod.fst

/-- `UpperDeck.OnLowerData` (proc_upperdeck.go:105-120). -/
def upperDeckLower : Handler := fun ctx =>
  if ctx.msg = .nil then pure ctx
  else do
    let session := (optionParseInt (ctx.opts "session") 0).1
    let w ← GoM.get
    match findEndPoint w.served session with
    | none => return ctx
    | some ep =>
      observe (.rx ep ctx.conn ctx.msg)
      return ctx

/-- `closeConnection` (proc_lowerdeck.go:22-32).  The processors and decks ignore this event, so
publishing it is one observation. -/
def closeConnection (c : ConnId) : GoM World Unit := do
  GoM.modify fun w => { w with conns := fun x => if x = c then { w.conns x with closed := true } else w.conns x }
  observe (.closed c)

/-- `TCPTransportConnection.Write` (tran_tcp.go:56-63, same in tran_unix.go): a closed connection
swallows the data and reports `(0, nil)`. -/
def connWrite (c : ConnId) (p : List Byte) : GoM World WriteRes := do
  let w ← GoM.get
  if (w.conns c).closed then return ⟨0, none⟩
  else
    let r := w.write w.trace c p
    observe (.wire c p r)
    return r

/-- `ReferenceTransportConnection.SetReference` (tran_reference.go:120-137): `true` is success. -/
def setReference (c : ConnId) (v : Val) : GoM World Bool := do
  let w ← GoM.get
  if (w.conns c).closed then return false
  else if v = .nil then return false
  else
    observe (.ref c v)
    return true

/-- `ub.WriteTo(connection)` (ubuf.go:349-362): the connection is called with the readable bytes if
there are any. -/
def writeToConn (c : ConnId) (ub : St) : GoM World (Option Err × St) := do
  if UBuf.readableLength ub ≤ 0 then return (none, ub)
  else
    let p ← onBuf ub (UBuf.bytesRange ub.ub.reader ub.ub.writer)
    let r ← connWrite c p.1
    let q ← onBuf ub (UBuf.writeTo fun _ => r)
    return (q.1.2.2, q.2)

/-- `LowerDeck.OnUpperData` (proc_lowerdeck.go:98-120). -/
def lowerDeckUpper : Handler := fun ctx =>
  match ctx.conn with
  | none => pure ctx
  | some c => do
    if (← useReference (some c)) then do
      let ok ← setReference c ctx.msg
      if ok = false then closeConnection c
      return ctx
    else match ctx.buf with
      | none => return ctx
      | some ub => do
        let r ← writeToConn c ub
        if r.1.isSome then closeConnection c
        return { ctx with buf := some r.2 }

/-! ## The chain -/

/-- Which of the two entry points is called. -/
inductive Dir where
  /-- `OnUpperData`, data moving down -/
  | down
  /-- `OnLowerData`, data moving up -/
  | up
  deriving Repr, DecidableEq

/-- Call an entry point of the element at a position of the chain.  The decks inherit ProcBase's
no-op for the other direction. -/
def call : Nat → Dir → Nat → Handler
  | 0, _, _ => fun _ w => (.running, w)
  | fuel + 1, dir, pos => fun ctx => do
    let w ← GoM.get
    if pos = 0 then
      match dir with
      | .up => upperDeckLower ctx
      | .down => return ctx
    else if pos > w.n then
      match dir with
      | .down => lowerDeckUpper ctx
      | .up => return ctx
    else
      let nb : Nb :=
        { upLower := call fuel .up (pos - 1)
          downUpper := call fuel .down (pos + 1)
          upUpper := call fuel .down (pos - 1) }
      match dir with
      | .down => onUpper (pos - 1) (w.procs (pos - 1)) nb ctx
      | .up => onLower fuel (pos - 1) (w.procs (pos - 1)) nb ctx

/-! ## Entry points of the data path -/

/-- One message of an endpoint: the body of the service goroutine (proc_upperdeck.go:54-65). -/
def send (fuel : Nat) (conn : Option ConnId) (data : Val) (session : Int) : GoM World Unit := do
  let _ ← call fuel .down 1 ({ Ctx.new with conn := conn, msg := data }.setOption "session" (.int session))
  return ()

/-- One read of the receive loop that delivered `bs` (proc_lowerdeck.go:73-84): the free space of the
buffer is the MTU, the connection fills at most that. -/
def receive (fuel : Nat) (c : ConnId) (bs : List Byte) : GoM World Unit := do
  let w ← GoM.get
  let ub ← allocBuf w.mtu 0
  let r ← onBuf ub (UBuf.readFrom fun m => ⟨bs.take m, min m bs.length, none⟩)
  if r.1.1 = 0 ∨ r.1.2.isSome then closeConnection c
  else
    let _ ← call fuel .up w.n { Ctx.new with conn := some c, buf := some r.2 }
    return ()

/-- One object received on a reference connection (proc_lowerdeck.go:61-71). -/
def receiveRef (fuel : Nat) (c : ConnId) (v : Val) : GoM World Unit := do
  let w ← GoM.get
  if v = .nil then closeConnection c
  else
    let _ ← call fuel .up w.n { Ctx.new with conn := some c, msg := v }
    return ()

/-- A control message created by the Heartbeat (`tag = 0x83`, proc_heartbeat.go:154-163) or
StatCounter (`tag = 0x10`, proc_stat_counter.go:65-76) at `processors[i]`. -/
def sendControl (fuel i : Nat) (c : ConnId) (tag : Byte) : GoM World Unit := do
  let w ← GoM.get
  let ub ← allocBuf w.mtu w.overhead
  let r ← onBuf ub (UBuf.writeByte tag)
  let _ ← call fuel .down (i + 2) { Ctx.new with conn := some c, buf := some r.2 }
  return ()

end Verif.Stack
