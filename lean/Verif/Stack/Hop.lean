import Verif.Stack.Model

/-!
# One hop at a time

The handlers of `Stack.Model` call their neighbours; all of them but `FrameDecoder.OnLowerData` do so at most
once, as the last thing they do.  Here each handler is split at these calls: the hop runs up to the
call of a neighbour and says which one is called (`Next`).  The theorems
`onUpper_hop`, `onLower_hop`, `handleCurrent_hop`, `handleCached_hop`, `upperDeck_hop` and `lowerDeck_hop` show that hops,
put together again, are the handlers of the model, so they are code of the repository as well (the same
lines as cited there).
-/

namespace Verif.Stack
open UBuf (St Err Heap WriteRes ReadRes)

/-- What a hop does to the outside. -/
inductive Act where
  /-- `GetRxChannel() <-` (proc_upperdeck.go:117) -/
  | deliver (ep : EpId) (conn : Option ConnId) (v : Val)
  /-- the LowerDeck asks the connection to write these bytes (proc_lowerdeck.go:113) -/
  | write (c : ConnId) (p : List Byte)
  /-- the LowerDeck puts this object on the connection (proc_lowerdeck.go:107) -/
  | ref (c : ConnId) (v : Val)
  deriving DecidableEq

/-- A context without its buffer. -/
def Ctx.noBuf (c : Ctx) : Ctx := { c with buf := none }

/-- How a hop ends. -/
inductive Next where
  /-- the handler returns -/
  | stop (ctx : Ctx)
  /-- `upper.OnLowerData(ctx)` -/
  | up (ctx : Ctx)
  /-- `lower.OnUpperData(ctx)` -/
  | down (ctx : Ctx)
  /-- `upper.OnUpperData(ctx)` -/
  | upDown (ctx : Ctx)

/-- Call the neighbour. -/
def dispatch (nb : Nb) : Next → GoM World Ctx
  | .stop c => pure c
  | .up c => nb.upLower c
  | .down c => nb.downUpper c
  | .upDown c => nb.upUpper c

/-! ## Hops going down -/

def encodeDownN (ctx : Ctx) (bytes : List Byte) : GoM World Next := do
  let w ← GoM.get
  let ub ← allocBuf w.mtu w.overhead
  let r ← onBuf ub (UBuf.write bytes)
  if r.1.1 = 0 ∨ r.1.2.isSome then return .stop ctx
  return .down { ctx with buf := some r.2 }

def bytesUpperN (en : Bool) (ctx : Ctx) : GoM World Next :=
  if en then
    match ctx.msg with
    | .bytes b => encodeDownN ctx b
    | _ => pure (.stop ctx)
  else pure (.down ctx)

def stringUpperN (en : Bool) (ctx : Ctx) : GoM World Next :=
  if en then
    match ctx.msg with
    | .str b => encodeDownN ctx b
    | _ => pure (.stop ctx)
  else pure (.down ctx)

def jsonUpperN (en : Bool) (marshal : Val → Option (List Byte)) (ctx : Ctx) : GoM World Next :=
  if en then
    if ctx.msg = .nil then pure (.stop ctx)
    else match marshal ctx.msg with
      | some b => encodeDownN ctx b
      | none => pure (.stop ctx)
  else pure (.down ctx)

def genericUpperN (en : Bool) (enc : Option (Val → GoM St (Option Err))) (ctx : Ctx) : GoM World Next :=
  if en then
    match enc with
    | none => pure (.stop ctx)
    | some enc =>
      if ctx.msg = .nil then pure (.stop ctx)
      else do
        let w ← GoM.get
        let ub ← allocBuf w.mtu w.overhead
        let r ← onBuf ub (enc ctx.msg)
        if r.1.isSome then return .stop ctx
        return .down { ctx with buf := some r.2 }
  else pure (.down ctx)

def sessionUpperN (en : Bool) (ctx : Ctx) : GoM World Next :=
  if en then
    match ctx.buf with
    | none => pure (.stop ctx)
    | some ub => do
      let session := (optionParseInt (ctx.opts "session") 0).1
      let r ← onBuf ub (UBuf.writeHeadU .u32 .be (toU32 session))
      let ctx := { ctx with buf := some r.2 }
      if r.1.isSome then return .stop ctx
      return .down ctx
  else pure (.down ctx)

def frameUpperN (en : Bool) (ctx : Ctx) : GoM World Next := do
  if (← useReference ctx.conn) then return .upDown ctx
  else if en then
    match ctx.buf with
    | none => return .stop ctx
    | some ub => do
      let r ← onBuf ub (UBuf.writeHeadU .u32 .be (toU32 (UBuf.readableLength ub)))
      return .down { ctx with buf := some r.2 }
  else return .down ctx

def tagDownN (tag : Byte) (ctx : Ctx) (ub : St) : GoM World Next := do
  let r ← onBuf ub (UBuf.writeHeadByte tag)
  return .down { ctx with buf := some r.2 }

def statUpperN (i : Nat) (en : Bool) (tx rx : UInt64) (ctx : Ctx) : GoM World Next := do
  if (← useReference ctx.conn) then return .down ctx
  else match ctx.buf with
    | none => return .stop ctx
    | some ub => do
      if en then setKind i (.stat (tx + 1) rx)
      tagDownN 0x00 ctx ub

def heartbeatUpperN (ctx : Ctx) : GoM World Next := do
  if (← useReference ctx.conn) then return .down ctx
  else match ctx.buf with
    | none => return .stop ctx
    | some ub => tagDownN 0x00 ctx ub

def loadBalancerUpperN (en : Bool) (ctx : Ctx) : GoM World Next := do
  if (← useReference ctx.conn) then return .down ctx
  else match ctx.buf with
    | none => return .stop ctx
    | some ub => tagDownN (if en then 0x11 else 0x00) ctx ub

def filterUpperN (i : Nat) (en : Bool) (fns : List (Option Fn)) (tx rx : UInt64) (ctx : Ctx) : GoM World Next :=
  if en then do
    let r ← doFns false fns ctx
    if r.1 = false then
      setKind i (.filter fns (tx + 1) rx)
      return .stop r.2
    else return .down r.2
  else pure (.down ctx)

def forwarderUpperN (i : Nat) (en : Bool) (fns : List (Option Fn)) (tx rx : UInt64) (ctx : Ctx) : GoM World Next :=
  if en then do
    let r ← doFns false fns ctx
    if r.1 = true then
      setKind i (.forwarder fns (tx + 1) rx)
      return .stop r.2
    else return .down r.2
  else pure (.down ctx)

/-- `OnUpperData` of `processors[i]` up to the call of a neighbour. -/
def onUpperN (i : Nat) (p : Proc) (ctx : Ctx) : GoM World Next :=
  match p.kind with
  | .base => pure (.stop ctx)
  | .bytesCodec => bytesUpperN p.enable ctx
  | .stringCodec => stringUpperN p.enable ctx
  | .jsonCodec m _ => jsonUpperN p.enable m ctx
  | .genericCodec e _ => genericUpperN p.enable e ctx
  | .gobCodec e _ => genericUpperN p.enable (some e) ctx
  | .session => sessionUpperN p.enable ctx
  | .frame _ => frameUpperN p.enable ctx
  | .stat tx rx => statUpperN i p.enable tx rx ctx
  | .heartbeat => heartbeatUpperN ctx
  | .loadBalancer => loadBalancerUpperN p.enable ctx
  | .filter fns tx rx => filterUpperN i p.enable fns tx rx ctx
  | .forwarder fns tx rx => forwarderUpperN i p.enable fns tx rx ctx
  | .echo => pure (.down ctx)
  | .loopback => pure (.up ctx)
  | .discarder => pure (.down ctx)
  | .flow => pure (.down ctx)

/-! ## Hops going up -/

def decodeUpN (ctx : Ctx) (k : Ctx → List Byte → GoM World Next) : GoM World Next :=
  match ctx.buf with
  | none => pure (.stop ctx)
  | some ub => do
    GoM.check (decide (0 ≤ UBuf.readableLength ub))
    let r ← onBuf ub (UBuf.read (UBuf.readableLength ub).toNat)
    let ctx := { ctx with buf := some r.2 }
    if r.1.1.length = 0 ∨ r.1.2.isSome then return .stop ctx
    k ctx r.1.1

def bytesLowerN (en : Bool) (ctx : Ctx) : GoM World Next :=
  if en then decodeUpN ctx fun ctx b => pure (.up { ctx with msg := .bytes b })
  else pure (.up ctx)

def stringLowerN (en : Bool) (ctx : Ctx) : GoM World Next :=
  if en then decodeUpN ctx fun ctx b => pure (.up { ctx with msg := .str b })
  else pure (.up ctx)

def jsonLowerN (en : Bool) (unmarshal : List Byte → Option Val) (ctx : Ctx) : GoM World Next :=
  if en then decodeUpN ctx fun ctx b =>
    match unmarshal b with
    | some v => pure (.up { ctx with msg := v })
    | none => pure (.stop ctx)
  else pure (.up ctx)

def genericLowerN (en : Bool) (dec : Option (GoM St (Val × Option Err))) (ctx : Ctx) : GoM World Next :=
  if en then
    match dec with
    | none => pure (.stop ctx)
    | some dec =>
      match ctx.buf with
      | none => pure (.stop ctx)
      | some ub => do
        let r ← onBuf ub dec
        let ctx := { ctx with buf := some r.2 }
        if r.1.2.isSome then return .stop ctx
        return .up { ctx with msg := r.1.1 }
  else pure (.up ctx)

def sessionLowerN (en : Bool) (ctx : Ctx) : GoM World Next :=
  if en then
    match ctx.buf with
    | none => pure (.stop ctx)
    | some ub => do
      let r ← onBuf ub (UBuf.readU .u32 .be)
      let ctx := { ctx with buf := some r.2 }
      if r.1.2.isSome then return .stop ctx
      return .up (ctx.setOption "session" (.int r.1.1))
  else pure (.up ctx)

def statResponseN (tx rx : UInt64) (ctx : Ctx) : GoM World Next := do
  let w ← GoM.get
  let ub ← allocBuf w.mtu w.overhead
  let r ← onBuf ub (UBuf.writeHeadByte 0x23)
  let r ← onBuf r.2 (UBuf.writeU .u64 .be tx.toNat)
  let r ← onBuf r.2 (UBuf.writeU .u64 .be rx.toNat)
  let r ← onBuf r.2 (UBuf.write w.name)
  return .down { ctx with buf := some r.2 }

def statShowN (ctx : Ctx) : GoM World Next :=
  match ctx.buf with
  | none => GoM.panic
  | some ub => do
    let t ← onBuf ub (UBuf.readU .u64 .be)
    let r ← onBuf t.2 (UBuf.readU .u64 .be)
    let nm ← onBuf r.2 (UBuf.read 128)
    observe (.shown t.1.1 r.1.1 (nm.1.1 ++ List.replicate (128 - nm.1.1.length) 0))
    return .stop { ctx with buf := some nm.2 }

def statLowerN (i : Nat) (en : Bool) (tx rx : UInt64) (ctx : Ctx) : GoM World Next := do
  if (← useReference ctx.conn) then return .up ctx
  else match ctx.buf with
    | none => return .stop ctx
    | some ub => do
      let r ← onBuf ub UBuf.readByte
      let ctx := { ctx with buf := some r.2 }
      if r.1.2.isSome then return .stop ctx
      else if en then
        if r.1.1 = 0x10 then statResponseN tx rx ctx
        else if r.1.1 = 0x23 then statShowN ctx
        else do
          setKind i (.stat tx (rx + 1))
          return .up ctx
      else return .up ctx

def heartbeatLowerN (i : Nat) (ctx : Ctx) : GoM World Next := do
  if (← useReference ctx.conn) then return .up ctx
  else match ctx.buf with
    | none => return .stop ctx
    | some ub => do
      let r ← onBuf ub UBuf.readByte
      let ctx := { ctx with buf := some r.2 }
      if r.1.2.isSome then return .stop ctx
      else if r.1.1 = 0x83 then do
        observe (.beat i ctx.conn)
        return .stop ctx
      else return .up ctx

def loadBalancerLowerN (en : Bool) (ctx : Ctx) : GoM World Next := do
  if (← useReference ctx.conn) then return .up ctx
  else match ctx.buf with
    | none => return .stop ctx
    | some ub => do
      let r ← onBuf ub UBuf.readByte
      let ctx := { ctx with buf := some r.2 }
      if r.1.2.isSome then return .stop ctx
      else if en ∧ r.1.1 ≠ 0x00 then return .stop ctx
      else return .up ctx

def filterLowerN (i : Nat) (en : Bool) (fns : List (Option Fn)) (tx rx : UInt64) (ctx : Ctx) : GoM World Next :=
  if en then do
    let r ← doFns true fns ctx
    if r.1 = false then
      setKind i (.filter fns tx (rx + 1))
      return .stop r.2
    else return .up r.2
  else pure (.up ctx)

def forwarderLowerN (i : Nat) (en : Bool) (fns : List (Option Fn)) (tx rx : UInt64) (ctx : Ctx) : GoM World Next :=
  if en then do
    let r ← doFns true fns ctx
    if r.1 = true then
      setKind i (.forwarder fns tx (rx + 1))
      return .stop r.2
    else return .up r.2
  else pure (.up ctx)

/-- `OnLowerData` of `processors[i]` up to the call of a neighbour; the FrameDecoder is treated below. -/
def onLowerN (i : Nat) (p : Proc) (ctx : Ctx) : GoM World Next :=
  match p.kind with
  | .base => pure (.stop ctx)
  | .bytesCodec => bytesLowerN p.enable ctx
  | .stringCodec => stringLowerN p.enable ctx
  | .jsonCodec _ u => jsonLowerN p.enable u ctx
  | .genericCodec _ d => genericLowerN p.enable d ctx
  | .gobCodec _ d => genericLowerN p.enable (some d) ctx
  | .session => sessionLowerN p.enable ctx
  | .frame _ => pure (.stop ctx)
  | .stat tx rx => statLowerN i p.enable tx rx ctx
  | .heartbeat => heartbeatLowerN i ctx
  | .loadBalancer => loadBalancerLowerN p.enable ctx
  | .filter fns tx rx => filterLowerN i p.enable fns tx rx ctx
  | .forwarder fns tx rx => forwarderLowerN i p.enable fns tx rx ctx
  | .echo => if p.enable then pure (.down ctx) else pure (.up ctx)
  | .loopback => pure (.stop ctx)
  | .discarder => if p.enable then pure (.stop ctx) else pure (.up ctx)
  | .flow => pure (.up ctx)

/-! ## The FrameDecoder, receiving -/

/-- How one round of the loop of `handleCurrentData` ends. -/
inductive Seg where
  /-- the loop is left without a further call -/
  | fin (ctx : Ctx)
  /-- the last frame goes up, then the loop is left -/
  | tail (ctx : Ctx)
  /-- a frame goes up, then the loop continues with the rest -/
  | more (ctx : Ctx) (rest : St)

/-- One round of the loop of `handleCurrentData` (proc_frame_decoder.go:66-117). -/
def curIter (i : Nat) (first : Bool) (ctx : Ctx) (ub : St) : GoM World Seg :=
  let keep (ub : St) : Ctx := if first then { ctx with buf := some ub } else ctx
  if UBuf.readableLength ub < 4 then do
    let ub ← cacheReadFrom i ub
    return .fin (keep ub)
  else do
    let p ← onBuf ub (UBuf.peekU .u32 .be)
    if p.1.2.isSome then
      cacheReset i
      return .fin (keep ub)
    else
      let expected := p.1.1
      let actually := toU32 (UBuf.readableLength ub)
      if expected > actually then do
        let ub ← cacheReadFrom i ub
        return .fin (keep ub)
      else if expected = actually then do
        let r ← onBuf ub (UBuf.readU .u32 .be)
        return .tail { ctx with buf := some r.2 }
      else do
        let newUbuf ← allocBuf expected 0
        let r ← onBuf ub (UBuf.readU .u32 .be)
        let q ← copyN newUbuf r.2 expected
        if q.1 = false then
          cacheReset i
          return .fin (keep q.2.2)
        else return .more { ctx with buf := some q.2.1 } q.2.2

/-- `handleCurrentData` up to its first call (proc_frame_decoder.go:57-118). -/
def currentN (i : Nat) (ctx : Ctx) (ub : St) : GoM World Seg := do
  let c ← frameCache i
  if UBuf.readableLength c > 0 then do
    let ub ← cacheReadFrom i ub
    return .fin { ctx with buf := some ub }
  else curIter i true ctx ub

/-- How one round of `handleCachedData` ends. -/
inductive CSeg where
  | fin (ctx : Ctx)
  | up (ctx : Ctx)

/-- One round of `handleCachedData` (proc_frame_decoder.go:121-167). -/
def cachedIter (i : Nat) (ctx : Ctx) : GoM World CSeg := do
  let c ← frameCache i
  let cached := UBuf.readableLength c
  if cached = 0 then
    cacheReset i
    return .fin ctx
  else if cached < 4 then return .fin ctx
  else do
    let p ← onBuf c (UBuf.peekU .u32 .be)
    if p.1.2.isSome then
      cacheReset i
      return .fin ctx
    else
      let expected := p.1.1
      if cached < expected then return .fin ctx
      else do
        let newUbuf ← allocBuf expected 0
        let r ← onBuf c (UBuf.readU .u32 .be)
        let q ← copyN newUbuf r.2 expected
        setKind i (.frame (some q.2.2))
        if q.1 = false then
          cacheReset i
          return .fin ctx
        else return .up { ctx with buf := some q.2.1 }

/-! ## The decks -/

/-- `UpperDeck.OnLowerData`. -/
def upperDeckN (ctx : Ctx) : GoM World (Option Act) :=
  if ctx.msg = .nil then pure none
  else do
    let session := (optionParseInt (ctx.opts "session") 0).1
    let w ← GoM.get
    match findEndPoint w.served session with
    | none => return none
    | some ep =>
      observe (.rx ep ctx.conn ctx.msg)
      return some (.deliver ep ctx.conn ctx.msg)

/-- What the LowerDeck asks a connection to write. -/
def writeAct (c : ConnId) (ub : St) : Option Act :=
  if UBuf.readableLength ub ≤ 0 then none
  else match UBuf.bytesRange ub.ub.reader ub.ub.writer ub with
    | (.ok p, _) => some (.write c p)
    | _ => none

/-- `LowerDeck.OnUpperData`. -/
def lowerDeckN (ctx : Ctx) : GoM World (Option Act) :=
  match ctx.conn with
  | none => pure none
  | some c => do
    if (← useReference (some c)) then do
      let ok ← setReference c ctx.msg
      if ok = false then closeConnection c
      return some (.ref c ctx.msg)
    else match ctx.buf with
      | none => return none
      | some ub => do
        let r ← writeToConn c ub
        if r.1.isSome then closeConnection c
        return writeAct c ub

/-! ## Putting hops together -/

theorem _root_.Verif.GoM.pure_bind' {σ α β : Type _} (a : α) (f : α → GoM σ β) : (pure a >>= f) = f a := rfl

theorem _root_.Verif.GoM.bind_assoc' {σ α β γ : Type _} (m : GoM σ α) (f : α → GoM σ β) (g : β → GoM σ γ) :
    ((m >>= f) >>= g) = (m >>= fun a => f a >>= g) := by
  funext s
  simp only [GoM.bind_apply]
  rcases m s with ⟨r, s'⟩
  cases r <;> rfl

theorem _root_.Verif.GoM.ite_bind {σ α β : Type _} (c : Prop) [Decidable c] (m n : GoM σ α) (f : α → GoM σ β) :
    ((if c then m else n) >>= f) = if c then m >>= f else n >>= f := by split <;> rfl

theorem _root_.Verif.GoM.panic_bind {σ α β : Type _} (f : α → GoM σ β) : ((GoM.panic : GoM σ α) >>= f) = GoM.panic := rfl

theorem _root_.Verif.GoM.bind_congr' {σ α β : Type _} {m : GoM σ α} {f g : α → GoM σ β} (h : ∀ a, f a = g a) : (m >>= f) = (m >>= g) := by
  have : f = g := funext h
  rw [this]

section
open GoM

theorem encodeDown_hop (nb : Nb) (ctx : Ctx) (b : List Byte) : encodeDown nb ctx b = (encodeDownN ctx b >>= dispatch nb) := by
  simp only [encodeDown, encodeDownN, bind_assoc', ite_bind, pure_bind', dispatch]

theorem onUpper_hop (i : Nat) (p : Proc) (nb : Nb) (ctx : Ctx) : onUpper i p nb ctx = (onUpperN i p ctx >>= dispatch nb) := by
  obtain ⟨en, k⟩ := p
  cases k with
  | bytesCodec =>
    simp only [onUpper, onUpperN, bytesUpper, bytesUpperN]
    cases en
    · rfl
    · simp only [if_true]
      cases ctx.msg <;> first | rfl | exact encodeDown_hop _ _ _
  | stringCodec =>
    simp only [onUpper, onUpperN, stringUpper, stringUpperN]
    cases en
    · rfl
    · simp only [if_true]
      cases ctx.msg <;> first | rfl | exact encodeDown_hop _ _ _
  | jsonCodec m u =>
    simp only [onUpper, onUpperN, jsonUpper, jsonUpperN]
    cases en
    · rfl
    · simp only [if_true]
      split
      · rfl
      · cases m ctx.msg with
        | none => rfl
        | some b => exact encodeDown_hop _ _ _
  | genericCodec e d =>
    simp only [onUpper, onUpperN, genericUpper, genericUpperN]
    cases en
    · rfl
    · simp only [if_true]
      cases e with
      | none => rfl
      | some e => simp only [bind_assoc', ite_bind, pure_bind', dispatch]
  | gobCodec e d =>
    simp only [onUpper, onUpperN, genericUpper, genericUpperN]
    cases en
    · rfl
    · simp only [if_true, bind_assoc', ite_bind, pure_bind', dispatch]
  | session =>
    simp only [onUpper, onUpperN, sessionUpper, sessionUpperN]
    cases en
    · rfl
    · simp only [if_true]
      cases ctx.buf with
      | none => rfl
      | some ub => simp only [bind_assoc', ite_bind, pure_bind', dispatch]
  | frame c =>
    simp only [onUpper, onUpperN, frameUpper, frameUpperN, bind_assoc', ite_bind, pure_bind', dispatch]
    refine bind_congr' fun a => ?_
    split
    · rfl
    · split
      · cases ctx.buf with
        | none => rfl
        | some ub => simp only [bind_assoc', pure_bind', dispatch]
      · rfl
  | stat tx rx =>
    simp only [onUpper, onUpperN, statUpper, statUpperN, tagDown, tagDownN, bind_assoc', ite_bind, pure_bind', dispatch]
    refine bind_congr' fun a => ?_
    split
    · rfl
    · cases ctx.buf with
      | none => rfl
      | some ub => cases en <;> simp only [bind_assoc', pure_bind', dispatch, if_true, Bool.false_eq_true, if_false]
  | heartbeat =>
    simp only [onUpper, onUpperN, heartbeatUpper, heartbeatUpperN, tagDown, tagDownN, bind_assoc', ite_bind, pure_bind', dispatch]
    refine bind_congr' fun a => ?_
    split
    · rfl
    · cases ctx.buf with
      | none => rfl
      | some ub => simp only [bind_assoc', pure_bind', dispatch]
  | loadBalancer =>
    simp only [onUpper, onUpperN, loadBalancerUpper, loadBalancerUpperN, tagDown, tagDownN, bind_assoc', ite_bind, pure_bind', dispatch]
    refine bind_congr' fun a => ?_
    split
    · rfl
    · cases ctx.buf with
      | none => rfl
      | some ub => simp only [bind_assoc', pure_bind', dispatch]
  | filter fns tx rx =>
    simp only [onUpper, onUpperN, filterUpper, filterUpperN]
    cases en
    · rfl
    · simp only [if_true, bind_assoc', ite_bind, pure_bind', dispatch]
  | forwarder fns tx rx =>
    simp only [onUpper, onUpperN, forwarderUpper, forwarderUpperN]
    cases en
    · rfl
    · simp only [if_true, bind_assoc', ite_bind, pure_bind', dispatch]
  | _ => rfl

theorem decodeUp_hop (nb : Nb) (ctx : Ctx) (k : Ctx → List Byte → GoM World Ctx) (kN : Ctx → List Byte → GoM World Next)
    (h : ∀ c b, k c b = (kN c b >>= dispatch nb)) : decodeUp ctx k = (decodeUpN ctx kN >>= dispatch nb) := by
  simp only [decodeUp, decodeUpN]
  cases ctx.buf with
  | none => rfl
  | some ub => simp only [bind_assoc', ite_bind, pure_bind', dispatch, h]

def Kind.isFrame : Kind → Bool
  | .frame _ => true
  | _ => false

theorem onLower_hop (fuel i : Nat) (p : Proc) (nb : Nb) (ctx : Ctx) (hk : p.kind.isFrame = false) :
    onLower fuel i p nb ctx = (onLowerN i p ctx >>= dispatch nb) := by
  obtain ⟨en, k⟩ := p
  cases k with
  | frame c => simp [Kind.isFrame] at hk
  | bytesCodec =>
    simp only [onLower, onLowerN, bytesLower, bytesLowerN]
    cases en
    · rfl
    · simp only [if_true]
      exact decodeUp_hop _ _ _ _ fun _ _ => rfl
  | stringCodec =>
    simp only [onLower, onLowerN, stringLower, stringLowerN]
    cases en
    · rfl
    · simp only [if_true]
      exact decodeUp_hop _ _ _ _ fun _ _ => rfl
  | jsonCodec m u =>
    simp only [onLower, onLowerN, jsonLower, jsonLowerN]
    cases en
    · rfl
    · simp only [if_true]
      exact decodeUp_hop _ _ _ _ fun _ b => by cases u b <;> rfl
  | genericCodec e d =>
    simp only [onLower, onLowerN, genericLower, genericLowerN]
    cases en
    · rfl
    · simp only [if_true]
      cases d with
      | none => rfl
      | some d =>
        cases ctx.buf with
        | none => rfl
        | some ub => simp only [bind_assoc', ite_bind, pure_bind', dispatch]
  | gobCodec e d =>
    simp only [onLower, onLowerN, genericLower, genericLowerN]
    cases en
    · rfl
    · cases ctx.buf with
      | none => rfl
      | some ub => simp only [if_true, bind_assoc', ite_bind, pure_bind', dispatch]
  | session =>
    simp only [onLower, onLowerN, sessionLower, sessionLowerN]
    cases en
    · rfl
    · cases ctx.buf with
      | none => rfl
      | some ub => simp only [if_true, bind_assoc', ite_bind, pure_bind', dispatch]
  | stat tx rx =>
    simp only [onLower, onLowerN, statLower, statLowerN, bind_assoc', ite_bind, pure_bind', dispatch]
    refine bind_congr' fun a => ?_
    split
    · rfl
    · cases ctx.buf with
      | none => rfl
      | some ub =>
        simp only [bind_assoc', ite_bind, pure_bind', dispatch, statResponse, statResponseN, statShow, statShowN]
  | heartbeat =>
    simp only [onLower, onLowerN, heartbeatLower, heartbeatLowerN, bind_assoc', ite_bind, pure_bind', dispatch]
    refine bind_congr' fun a => ?_
    split
    · rfl
    · cases ctx.buf with
      | none => rfl
      | some ub => simp only [bind_assoc', ite_bind, pure_bind', dispatch]
  | loadBalancer =>
    simp only [onLower, onLowerN, loadBalancerLower, loadBalancerLowerN, bind_assoc', ite_bind, pure_bind', dispatch]
    refine bind_congr' fun a => ?_
    split
    · rfl
    · cases ctx.buf with
      | none => rfl
      | some ub => simp only [bind_assoc', ite_bind, pure_bind', dispatch]
  | filter fns tx rx =>
    simp only [onLower, onLowerN, filterLower, filterLowerN]
    cases en
    · rfl
    · simp only [if_true, bind_assoc', ite_bind, pure_bind', dispatch]
  | forwarder fns tx rx =>
    simp only [onLower, onLowerN, forwarderLower, forwarderLowerN]
    cases en
    · rfl
    · simp only [if_true, bind_assoc', ite_bind, pure_bind', dispatch]
  | echo => cases en <;> rfl
  | discarder => cases en <;> rfl
  | _ => rfl

theorem upperDeck_hop (ctx : Ctx) : upperDeckLower ctx = (upperDeckN ctx >>= fun _ => Pure.pure ctx) := by
  simp only [upperDeckLower, upperDeckN]
  split
  · rfl
  · simp only [bind_assoc']
    refine bind_congr' fun w => ?_
    cases findEndPoint w.served (optionParseInt (ctx.opts "session") 0).1 <;> rfl

/-- The LowerDeck, up to the buffer of the returned context. -/
theorem lowerDeck_hop (ctx : Ctx) :
    (lowerDeckUpper ctx >>= fun c => Pure.pure c.noBuf) = (lowerDeckN ctx >>= fun _ => Pure.pure ctx.noBuf) := by
  simp only [lowerDeckUpper, lowerDeckN]
  cases hc : ctx.conn with
  | none => rfl
  | some c =>
    simp only [bind_assoc', ite_bind]
    refine bind_congr' fun a => ?_
    split
    · simp only [pure_bind']
    · cases ctx.buf with
      | none => rfl
      | some ub => simp only [bind_assoc', ite_bind, pure_bind', Ctx.noBuf, hc]

/-! ## The FrameDecoder's rounds -/

theorem currentLoop_hop (i : Nat) (nb : Nb) (fuel : Nat) (first : Bool) (ctx : Ctx) (ub : St) :
    currentLoop i nb (fuel + 1) first ctx ub = (curIter i first ctx ub >>= fun s => match s with
      | .fin c => Pure.pure c
      | .tail c => nb.upLower c
      | .more c rest => nb.upLower c >>= fun c => currentLoop i nb fuel false c rest) := by
  simp only [currentLoop, curIter, bind_assoc', ite_bind, pure_bind']

theorem handleCurrent_hop (i : Nat) (nb : Nb) (fuel : Nat) (ctx : Ctx) (ub : St) :
    handleCurrent (fuel + 1) i nb ctx ub = (currentN i ctx ub >>= fun s => match s with
      | .fin c => Pure.pure c
      | .tail c => nb.upLower c
      | .more c rest => nb.upLower c >>= fun c => currentLoop i nb fuel false c rest) := by
  simp only [handleCurrent, currentN, currentLoop_hop, bind_assoc', ite_bind, pure_bind']

theorem handleCached_hop (i : Nat) (nb : Nb) (fuel : Nat) (ctx : Ctx) :
    handleCached i nb (fuel + 1) ctx = (cachedIter i ctx >>= fun s => match s with
      | .fin c => Pure.pure c
      | .up c => nb.upLower c >>= fun c => handleCached i nb fuel c) := by
  simp only [handleCached, cachedIter, bind_assoc', ite_bind, pure_bind']

end

end Verif.Stack
