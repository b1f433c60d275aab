import Verif.Stack.Codec
import Verif.Stack.Keeps

/-!
# C19, C25 - C27, C30 - C33, C36: single processors

A handler is a function of its neighbours, so "hands the context down / up / to nobody" is a statement
about all neighbourhoods.
-/

namespace Verif.Stack
open GoM UBuf

/-- The call hands `ctx` to the layer below, in world `w`. -/
def Down (run : Nb → Res Ctx × World) (ctx : Ctx) (w : World) : Prop := ∀ nb, run nb = nb.downUpper ctx w

/-- The call hands `ctx` to the layer above, in world `w`. -/
def Up (run : Nb → Res Ctx × World) (ctx : Ctx) (w : World) : Prop := ∀ nb, run nb = nb.upLower ctx w

/-- The call ends here: no neighbour is called. -/
def Stops (run : Nb → Res Ctx × World) (r : Res Ctx × World) : Prop := ∀ nb, run nb = r

/-- The context belongs to a connection that carries bytes. -/
def OnBytes (ctx : Ctx) (w : World) : Prop := ∃ c, ctx.conn = some c ∧ (w.conns c).useRef = false

/-- The context carries this buffer content, with this much head room. -/
def Carries (ctx : Ctx) (bs : List Byte) : Prop := ∃ s, ctx.buf = some s ∧ Good s ∧ data s = bs

def HeadRoom (ctx : Ctx) (n : Nat) : Prop := ∃ s, ctx.buf = some s ∧ (n : Int) ≤ headWritableLength s

theorem Buf.carries {s : St} {d : Deque} (h : Buf s d) (ctx : Ctx) : Carries { ctx with buf := some s } d.content :=
  ⟨s, rfl, h.1, h.data⟩

theorem Carries.buf {ctx : Ctx} {bs : List Byte} (h : Carries ctx bs) :
    ∃ s d, ctx.buf = some s ∧ Buf s d ∧ d.content = bs := by
  obtain ⟨s, h1, h2, h3⟩ := h
  exact ⟨s, view s, h1, .of_good h2, h3⟩

theorem HeadRoom.le {ctx : Ctx} {n : Nat} {s : St} {d : Deque} (h : HeadRoom ctx n) (hb : ctx.buf = some s) (hs : Buf s d) :
    n ≤ d.head := by
  obtain ⟨s', h1, h2⟩ := h
  rw [hb] at h1
  cases h1
  rw [hs.headW] at h2
  omega

/-- A demo context: connection 0, the given received bytes. -/
def demoRx (bs : List Byte) : Ctx := { Ctx.new with conn := some 0, buf := some (rxBuf bs) }

theorem demoRx_carries {bs : List Byte} (h1 : bs ≠ []) (h2 : bs.length ≤ 16) : Carries (demoRx bs) bs :=
  ⟨_, rfl, (rxBuf_good h1 h2).1, (rxBuf_good h1 h2).data⟩

theorem demoRx_onBytes (bs : List Byte) : OnBytes (demoRx bs) quiet := ⟨0, rfl, rfl⟩

/-- A demo context going down: 8 bytes of head room, content `[5]`. -/
def demoTx : Ctx := { Ctx.new with conn := some 0, buf := some (UBuf.writeByte 5 UBuf.demo).2 }

theorem demoTx_ok : Carries demoTx [5] ∧ HeadRoom demoTx 8 := by
  have h0 : Buf UBuf.demo (Deque.fresh 16 8) := by
    obtain ⟨s, hs, hb⟩ := alloc_buf 16 8 Heap.empty (by decide) (by decide) (by decide)
    rw [demo_alloc] at hs
    cases hs
    exact hb
  obtain ⟨s, h1, h2⟩ := h0.writeByte 5 (by decide)
  have e : demoTx = { Ctx.new with conn := some 0, buf := some s } := by rw [demoTx, h1]
  rw [e]
  refine ⟨⟨s, rfl, h2.1, by rw [h2.data]; rfl⟩, ⟨s, rfl, ?_⟩⟩
  rw [h2.headW]; decide

/-! ## C19: SessionResolver -/

theorem c19_session_round_trip (i j fuel : Nat) (ctx : Ctx) (w : World) (sess : Int) (payload : List Byte)
    (hc : Carries ctx payload) (hroom : HeadRoom ctx 4) (hs : ctx.opts "session" = .int sess) :
    ∃ hdr : List Byte,
      -- the sender prepends a header, everything else stays
      (∃ s, Good s ∧ data s = hdr ++ payload ∧
        Down (fun nb => onUpper i ⟨true, .session⟩ nb ctx w) { ctx with buf := some s } w) ∧
      -- whatever buffer the peer gets with these bytes, it hands up the payload and the session
      (∀ ctx' w', Carries ctx' (hdr ++ payload) →
        ∃ s', Good s' ∧ data s' = payload ∧
          Up (fun nb => onLower fuel j ⟨true, .session⟩ nb ctx' w')
            { ctx' with buf := some s', opts := fun x => if x = "session" then .int (sess % 4294967296) else ctx'.opts x } w') := by
  obtain ⟨s, d, h1, h2, h3⟩ := hc.buf
  refine ⟨encBE 4 (toU32 sess), ?_, ?_⟩
  · obtain ⟨s', h4, h5⟩ := sessionUpper_ok (w := w) h1 h2 (hroom.le h1 h2)
    rw [hs] at h4
    refine ⟨s', h4.1, ?_, h5⟩
    rw [h4.data, ← h3]; rfl
  · intro ctx' w' hc'
    obtain ⟨r, e, k1, k2, k3⟩ := hc'.buf
    have hl : (encBE 4 (toU32 sess)).length = 4 := length_encBE 4 _
    obtain ⟨s', k4, k5⟩ := sessionLower_ok (w := w') k1 k2 (by rw [k3]; simp [hl])
    refine ⟨s', k4.1, ?_, ?_⟩
    · rw [k4.data, Deque.pop, k3]
      simp only
      rw [List.drop_append_of_le_length (by omega), List.drop_of_length_le (by omega), List.nil_append]
    · have : (decBE (e.content.take 4) : Int) = sess % 2 ^ 32 := by
        rw [k3, List.take_append_of_le_length (by omega), List.take_of_length_le (by omega), decBE_encBE_mod]
        simp only [toU32]
        omega
      rw [this] at k5
      exact k5

/-- For sessions of the 32-bit range this is the session itself. -/
theorem c19_session_in_range (sess : Int) (h : 0 ≤ sess) (h2 : sess < 2 ^ 32) : sess % 2 ^ 32 = sess :=
  Int.emod_eq_of_lt h h2

example : Carries { demoTx with opts := fun _ => .int 70000 } [5] ∧ HeadRoom { demoTx with opts := fun _ => .int 70000 } 4 := by
  obtain ⟨⟨s, h1, h2⟩, ⟨s', h3, h4⟩⟩ := demoTx_ok
  exact ⟨⟨s, h1, h2⟩, ⟨s', h3, by omega⟩⟩

/-! ## C25: control messages -/

/-- Heartbeat, enabled or not: an application message is tagged on the way down and handed up with
exactly its payload; a control message ends at the Heartbeat and refreshes the monitor. -/
theorem c25_heartbeat (i j fuel : Nat) (en en' : Bool) (payload : List Byte) :
    (∀ ctx w, OnBytes ctx w → Carries ctx payload → HeadRoom ctx 1 →
      ∃ s, Good s ∧ data s = 0x00 :: payload ∧
        Down (fun nb => onUpper i ⟨en, .heartbeat⟩ nb ctx w) { ctx with buf := some s } w) ∧
    (∀ ctx w, OnBytes ctx w → Carries ctx (0x00 :: payload) →
      ∃ s, Good s ∧ data s = payload ∧
        Up (fun nb => onLower fuel j ⟨en', .heartbeat⟩ nb ctx w) { ctx with buf := some s } w) ∧
    (∀ ctx w, OnBytes ctx w → Carries ctx (0x83 :: payload) →
      ∃ ctx', Stops (fun nb => onLower fuel j ⟨en', .heartbeat⟩ nb ctx w)
        (.ok ctx', { w with trace := w.trace ++ [.beat j ctx.conn] })) := by
  refine ⟨fun ctx w ⟨c, hc, hr⟩ hcar hroom => ?_, fun ctx w ⟨c, hc, hr⟩ hcar => ?_, fun ctx w ⟨c, hc, hr⟩ hcar => ?_⟩
  · obtain ⟨s, d, h1, h2, h3⟩ := hcar.buf
    obtain ⟨s', h4, h5⟩ := heartbeatUpper_ok (w := w) hc hr h1 h2 (hroom.le h1 h2)
    exact ⟨s', h4.1, by rw [h4.data, ← h3]; rfl, h5⟩
  · obtain ⟨s, d, h1, h2, h3⟩ := hcar.buf
    obtain ⟨s', h4, h5⟩ := heartbeatLower_pass (w := w) j hc hr h1 h2 h3 (by decide)
    exact ⟨s', h4.1, by rw [h4.data, Deque.pop, h3]; rfl, h5⟩
  · obtain ⟨s, d, h1, h2, h3⟩ := hcar.buf
    obtain ⟨s', h4, h5⟩ := heartbeatLower_beat (w := w) j hc hr h1 h2 h3
    exact ⟨_, by rw [hc]; exact h5⟩

example : OnBytes (demoRx [0x83]) quiet ∧ Carries (demoRx [0x83]) [0x83] ∧
    (onLower 0 2 ⟨false, .heartbeat⟩ probe (demoRx [0x83]) quiet).2.trace = [.beat 2 (some 0)] := by
  refine ⟨demoRx_onBytes _, demoRx_carries (by decide) (by decide), ?_⟩
  obtain ⟨c, h⟩ := (c25_heartbeat 0 2 0 true false []).2.2 (demoRx [0x83]) quiet (demoRx_onBytes _)
    (demoRx_carries (by decide) (by decide))
  exact congrArg (fun r => r.2.trace) (h probe)

/-- StatCounter.  Missing from the full claim: a *disabled* receiver, which hands control messages up
(`c25_stat_disabled_leaks`). -/
theorem c25_stat_partial (i j fuel : Nat) (en : Bool) (tx rx tx' rx' : UInt64) (payload : List Byte) :
    (∀ ctx w, OnBytes ctx w → Carries ctx payload → HeadRoom ctx 1 →
      ∃ s w', Good s ∧ data s = 0x00 :: payload ∧
        Down (fun nb => onUpper i ⟨en, .stat tx rx⟩ nb ctx w) { ctx with buf := some s } w') ∧
    (∀ ctx w, OnBytes ctx w → Carries ctx (0x00 :: payload) →
      ∃ s w', Good s ∧ data s = payload ∧
        Up (fun nb => onLower fuel j ⟨en, .stat tx' rx'⟩ nb ctx w) { ctx with buf := some s } w') ∧
    (∀ ctx w tag, OnBytes ctx w → (tag = 0x10 ∨ tag = 0x23) → Carries ctx (tag :: payload) →
      ∀ nb nb' : Nb, nb'.downUpper = nb.downUpper →
        onLower fuel j ⟨true, .stat tx' rx'⟩ nb ctx w = onLower fuel j ⟨true, .stat tx' rx'⟩ nb' ctx w) := by
  refine ⟨fun ctx w ⟨c, hc, hr⟩ hcar hroom => ?_, fun ctx w ⟨c, hc, hr⟩ hcar => ?_,
    fun ctx w tag ⟨c, hc, hr⟩ ht hcar nb nb' hnb => ?_⟩
  · obtain ⟨s, d, h1, h2, h3⟩ := hcar.buf
    obtain ⟨s', h4, h5⟩ := statUpper_ok (w := w) i en tx rx hc hr h1 h2 (hroom.le h1 h2)
    exact ⟨s', _, h4.1, by rw [h4.data, ← h3]; rfl, h5⟩
  · obtain ⟨s, d, h1, h2, h3⟩ := hcar.buf
    obtain ⟨s', h4, h5⟩ := statLower_pass (w := w) j en tx' rx' hc hr h1 h2 h3 (fun _ => by decide)
    exact ⟨s', _, h4.1, by rw [h4.data, Deque.pop, h3]; rfl, h5⟩
  · obtain ⟨s, d, h1, h2, h3⟩ := hcar.buf
    obtain ⟨s', h4, h5⟩ := h2.readByte_cons h3
    simp only [onLower, statLower]
    rw [bind_of_ok (by rw [hc, useReference_some, hr]), bind_of_ok (by rw [hc, useReference_some, hr])]
    simp only [Bool.false_eq_true, if_false, h1]
    rw [bind_onBuf h4, bind_onBuf h4]
    rcases ht with rfl | rfl
    · simp [statResponse, hnb]
    · simp

example : ∃ tag : Byte, (tag = 0x10 ∨ tag = 0x23) ∧ Carries (demoRx [tag]) [tag] :=
  ⟨0x10, .inl rfl, demoRx_carries (by decide) (by decide)⟩

/-- A disabled StatCounter hands the numbers of a peer's response to the application as if they were a
message. -/
theorem c25_stat_disabled_leaks :
    ∃ ctx s, Carries ctx [0x23, 7] ∧ OnBytes ctx quiet ∧ data s = [7] ∧
      Up (fun nb => onLower 0 0 ⟨false, .stat 0 0⟩ nb ctx quiet) { ctx with buf := some s } quiet := by
  have hg := rxBuf_good (bs := [0x23, 7]) (by decide) (by decide)
  obtain ⟨s, h1, h2⟩ := statLower_pass (w := quiet) (ctx := demoRx [0x23, 7]) (c := 0) 0 false 0 0 rfl rfl rfl hg
    (t := 0x23) (bs := [7]) rfl (by simp)
  exact ⟨demoRx [0x23, 7], s, demoRx_carries (by decide) (by decide), demoRx_onBytes _, h1.data, h2⟩

/-! ## C33: LoadBalancer -/

/-- With which tag a LoadBalancer sends, and which it accepts: the message gets through unless both sides
are enabled, and then it is always lost.  (Missing from the full claim: exactly that case.) -/
theorem c33_load_balancer_partial (i j fuel : Nat) (en en' : Bool) (payload : List Byte) :
    ∃ tag : Byte,
      (∀ ctx w, OnBytes ctx w → Carries ctx payload → HeadRoom ctx 1 →
        ∃ s, Good s ∧ data s = tag :: payload ∧
          Down (fun nb => onUpper i ⟨en, .loadBalancer⟩ nb ctx w) { ctx with buf := some s } w) ∧
      (∀ ctx w, OnBytes ctx w → Carries ctx (tag :: payload) →
        (¬ (en = true ∧ en' = true) → ∃ s, Good s ∧ data s = payload ∧
          Up (fun nb => onLower fuel j ⟨en', .loadBalancer⟩ nb ctx w) { ctx with buf := some s } w) ∧
        ((en = true ∧ en' = true) → ∃ ctx', Stops (fun nb => onLower fuel j ⟨en', .loadBalancer⟩ nb ctx w) (.ok ctx', w))) := by
  refine ⟨if en then 0x11 else 0, fun ctx w ⟨c, hc, hr⟩ hcar hroom => ?_, fun ctx w ⟨c, hc, hr⟩ hcar => ⟨fun hen => ?_, fun hen => ?_⟩⟩
  · obtain ⟨s, d, h1, h2, h3⟩ := hcar.buf
    obtain ⟨s', h4, h5⟩ := loadBalancerUpper_ok (w := w) en hc hr h1 h2 (hroom.le h1 h2)
    exact ⟨s', h4.1, by rw [h4.data, ← h3]; rfl, h5⟩
  · obtain ⟨s, d, h1, h2, h3⟩ := hcar.buf
    obtain ⟨s', h4, h5⟩ := loadBalancerLower_pass (w := w) en' hc hr h1 h2 h3 (by
      intro he; cases en <;> simp_all)
    exact ⟨s', h4.1, by rw [h4.data, Deque.pop, h3]; rfl, h5⟩
  · obtain ⟨rfl, rfl⟩ := hen
    obtain ⟨s, d, h1, h2, h3⟩ := hcar.buf
    obtain ⟨s', h4, h5⟩ := loadBalancerLower_drop (w := w) hc hr h1 h2 h3 (by decide)
    exact ⟨_, h5⟩

/-- The default configuration (both enabled) loses every application message: the bytes that an enabled
LoadBalancer sends for the payload `[5]` are dropped by an enabled LoadBalancer. -/
theorem c33_both_enabled_lose :
    (∃ s, data s = [0x11, 5] ∧ Down (fun nb => onUpper 0 ⟨true, .loadBalancer⟩ nb demoTx quiet) { demoTx with buf := some s } quiet) ∧
    (∃ ctx', Stops (fun nb => onLower 0 0 ⟨true, .loadBalancer⟩ nb (demoRx [0x11, 5]) quiet) (.ok ctx', quiet)) := by
  constructor
  · obtain ⟨s, d, h1, h2, h3⟩ := demoTx_ok.1.buf
    obtain ⟨s', h4, h5⟩ := loadBalancerUpper_ok (w := quiet) (ctx := demoTx) (c := 0) true rfl rfl h1 h2
      (by have := demoTx_ok.2.le h1 h2; omega)
    exact ⟨s', by rw [h4.data, Deque.prepend, h3]; rfl, h5⟩
  · obtain ⟨s', h4, h5⟩ := loadBalancerLower_drop (w := quiet) (ctx := demoRx [0x11, 5]) (c := 0) rfl rfl rfl
      (rxBuf_good (by decide) (by decide)) (t := 0x11) (bs := [5]) rfl (by decide)
    exact ⟨_, h5⟩

/-! ## C27: disabled processors -/

/-- The processors that look at `enable` before anything else. -/
def Kind.switchable : Kind → Prop
  | .bytesCodec | .stringCodec | .jsonCodec _ _ | .genericCodec _ _ | .gobCodec _ _ | .session
  | .filter _ _ _ | .forwarder _ _ _ | .echo | .discarder | .flow => True
  | _ => False

/-- Missing from the full claim: Heartbeat, StatCounter, LoadBalancer, Loopback and ProcBase, which are
not transparent (`c27_*_violated`); and FrameDecoder for contexts without a buffer or on reference
connections. -/
theorem c27_disabled_transparent_partial (i fuel : Nat) (k : Kind) (ctx : Ctx) (w : World)
    (h : k.switchable ∨ (∃ c, k = .frame c) ∧ OnBytes ctx w ∧ ctx.buf ≠ none) :
    Down (fun nb => onUpper i ⟨false, k⟩ nb ctx w) ctx w ∧ Up (fun nb => onLower fuel i ⟨false, k⟩ nb ctx w) ctx w := by
  rcases h with h | ⟨⟨c, rfl⟩, ⟨c', hc, hr⟩, hb⟩
  · cases k <;> first | exact h.elim | exact ⟨fun nb => rfl, fun nb => rfl⟩
  · refine ⟨fun nb => frameUpper_disabled hc hr, fun nb => ?_⟩
    simp only [onLower, frameLower]
    rw [bind_of_ok (by rw [hc, useReference_some, hr])]
    cases hbuf : ctx.buf with
    | none => exact absurd hbuf hb
    | some ub => simp

example : Kind.session.switchable ∧ OnBytes (demoRx [1]) quiet ∧ (demoRx [1]).buf ≠ none :=
  ⟨trivial, demoRx_onBytes _, by simp [demoRx]⟩

/-- A disabled Heartbeat, StatCounter or LoadBalancer still tags what it passes down. -/
theorem c27_tag_violated (k : Kind) (hk : k = .heartbeat ∨ k = .stat 0 0 ∨ k = .loadBalancer) :
    ∃ s, data s = [0, 5] ∧ Down (fun nb => onUpper 0 ⟨false, k⟩ nb demoTx quiet) { demoTx with buf := some s } quiet := by
  obtain ⟨s, d, h1, h2, h3⟩ := demoTx_ok.1.buf
  have hh : 1 ≤ d.head := by have := demoTx_ok.2.le h1 h2; omega
  rcases hk with rfl | rfl | rfl
  · obtain ⟨s', h4, h5⟩ := heartbeatUpper_ok (w := quiet) (ctx := demoTx) (c := 0) rfl rfl h1 h2 hh
    exact ⟨s', by rw [h4.data, Deque.prepend, h3]; rfl, h5⟩
  · obtain ⟨s', h4, h5⟩ := statUpper_ok (w := quiet) (ctx := demoTx) (c := 0) 0 false 0 0 rfl rfl h1 h2 hh
    exact ⟨s', by rw [h4.data, Deque.prepend, h3]; rfl, h5⟩
  · obtain ⟨s', h4, h5⟩ := loadBalancerUpper_ok (w := quiet) (ctx := demoTx) (c := 0) false rfl rfl h1 h2 hh
    exact ⟨s', by rw [h4.data, Deque.prepend, h3]; rfl, h5⟩

/-- A disabled Loopback still sends data back up and drops what comes from below. -/
theorem c27_loopback_violated (i fuel : Nat) (ctx : Ctx) (w : World) :
    Up (fun nb => onUpper i ⟨false, .loopback⟩ nb ctx w) ctx w ∧
    Stops (fun nb => onLower fuel i ⟨false, .loopback⟩ nb ctx w) (.ok ctx, w) := ⟨fun _ => rfl, fun _ => rfl⟩

/-! ## C30: Discarder -/

/-- Nothing was delivered between the two worlds. -/
def NoDelivery (w w' : World) : Prop := ∃ t, w'.trace = w.trace ++ t ∧ ∀ o ∈ t, ∀ ep c v, o ≠ .rx ep c v

theorem NoDelivery.refl (w : World) : NoDelivery w w := ⟨[], by simp, by simp⟩

theorem NoDelivery.trans {a b c : World} (h1 : NoDelivery a b) (h2 : NoDelivery b c) : NoDelivery a c := by
  obtain ⟨t1, e1, f1⟩ := h1
  obtain ⟨t2, e2, f2⟩ := h2
  refine ⟨t1 ++ t2, by rw [e2, e1, List.append_assoc], fun o ho => ?_⟩
  rcases List.mem_append.mp ho with h | h
  · exact f1 o h
  · exact f2 o h

theorem NoDelivery.one {w : World} {o : Obs} (h : ∀ ep c v, o ≠ .rx ep c v) : NoDelivery w { w with trace := w.trace ++ [o] } :=
  ⟨[o], rfl, by intro o' ho'; simp at ho'; subst ho'; exact h⟩

/-- Above `p` nothing is touched, nothing is delivered. -/
def Shielded (p : Nat) (w w' : World) : Prop :=
  (p < w.n ∧ Blocks (w.procs p)) →
    (p < w'.n ∧ Blocks (w'.procs p)) ∧
      NoDelivery w w' ∧ ∀ j < p, w'.procs j = w.procs j

theorem Shielded.of_same {p : Nat} {w w' : World} (h1 : w'.n = w.n) (h2 : w'.procs = w.procs) (h3 : NoDelivery w w') :
    Shielded p w w' := fun h => ⟨by rw [h1, h2]; exact h, h3, fun j _ => by rw [h2]⟩

theorem Shielded.allows (p : Nat) : Allows (Shielded p) fun i => p ≤ i := by
  refine ⟨fun w => .of_same rfl rfl (.refl w), fun h1 h2 h => ?_, fun w i k hi hk h => ?_, fun w i c _ => ?_, fun w i t r n _ => ?_⟩
  · obtain ⟨a1, a2, a3⟩ := h1 h
    obtain ⟨b1, b2, b3⟩ := h2 a1
    exact ⟨b1, a2.trans b2, fun j hj => (b3 j hj).trans (a3 j hj)⟩
  · refine ⟨?_, ⟨[], by simp [World.setKind], by simp⟩, fun j hj => ?_⟩
    · refine ⟨h.1, ?_⟩
      by_cases hpi : p = i
      · subst hpi
        simp only [World.setKind, if_true]
        refine ⟨h.2.1, ?_⟩
        rcases h.2.2 with e | e <;> rw [e] at hk <;> cases k <;> simp_all [Kind.Same]
      · simp only [World.setKind, if_neg hpi]; exact h.2
    · simp only [World.setKind]
      rw [if_neg (by omega)]
  · exact .of_same rfl rfl (.one (by simp))
  · exact .of_same rfl rfl (.one (by simp))

theorem Shielded.lowerDeck (p : Nat) : KpH (Shielded p) lowerDeckUpper := by
  have H := Shielded.allows p
  have hclose : ∀ c, Kp (Shielded p) (closeConnection c) := fun c w => .of_same rfl rfl (.one (by simp))
  intro ctx
  simp only [lowerDeckUpper]
  split
  · exact .pure H _
  · refine .bind H (.useReference H _) fun r => .ite (.bind H ?_ fun ok => ?_) ?_
    · refine .bind H (.get H) fun w => .ite (.pure H _) (.ite (.pure H _) (.bind H (fun w => ?_) fun _ => .pure H _))
      exact .of_same rfl rfl (.one (by simp))
    · cases ok with
      | true => exact .pure H _
      | false => exact .bind H (hclose _) fun _ => .pure H _
    · split
      · exact .pure H _
      · refine .bind H ?_ fun r => ?_
        · refine .ite (.pure H _) (.bind H (.onBuf H _ _) fun _ => .bind H ?_ fun _ => .bind H (.onBuf H _ _) fun _ => .pure H _)
          refine .bind H (.get H) fun w => .ite (.pure H _) (.bind H (fun w => ?_) fun _ => .pure H _)
          exact .of_same rfl rfl (.one (by simp))
        · obtain ⟨e, ub⟩ := r
          cases e with
          | none => exact .pure H _
          | some e => exact .bind H (hclose _) fun _ => .pure H _

/-- Data entering anywhere at or below a blocking processor is delivered to nobody and does not touch the
processors above. -/
theorem blocked (p : Nat) (w : World) (hn : p < w.n) (hb : Blocks (w.procs p)) :
    (∀ fuel dir pos ctx, p < pos → NoDelivery w (call fuel dir pos ctx w).2 ∧
      ∀ j < p, (call fuel dir pos ctx w).2.procs j = w.procs j) ∧
    (∀ fuel c bs, NoDelivery w (receive fuel c bs w).2) ∧
    (∀ fuel c v, NoDelivery w (receiveRef fuel c v w).2) := by
  have H := Shielded.allows p
  have key : ∀ fuel dir pos, p < pos → KpH (Shielded p) (call fuel dir pos) := by
    intro fuel dir pos hpos
    refine call_keeps (R := fun x => p < x) H (fun i hi => by omega) (fun w => ?_) (fun h => by omega)
      (fun w ctx _ => Shielded.lowerDeck p ctx w) fuel dir pos hpos
    by_cases hw : p < w.n ∧ Blocks (w.procs p)
    · left
      refine ⟨fun i h1 h2 _ => ?_, fun i h1 h2 _ => by omega⟩
      have : i = p := by omega
      subst this; exact hw.2
    · exact .inr fun w' h => absurd h hw
  have hclose : ∀ c, Kp (Shielded p) (closeConnection c) := fun c w => .of_same rfl rfl (.one (by simp))
  refine ⟨fun fuel dir pos ctx hpos => ?_, fun fuel c bs => ?_, fun fuel c v => ?_⟩
  · exact (key fuel dir pos hpos ctx w ⟨hn, hb⟩).2
  · have : Shielded p w (receive fuel c bs w).2 := by
      simp only [receive]
      rw [bind_of_ok (get_apply w)]
      exact Kp.bind H (.allocBuf H _ _) (fun ub => .bind H (.onBuf H _ _) fun r =>
        .ite (hclose _) (.bind H (key fuel .up w.n hn _) fun _ => .pure H _)) w
    exact (this ⟨hn, hb⟩).2.1
  · have : Shielded p w (receiveRef fuel c v w).2 := by
      simp only [receiveRef]
      rw [bind_of_ok (get_apply w)]
      exact Kp.ite (hclose _) (.bind H (key fuel .up w.n hn _) fun _ => .pure H _) w
    exact (this ⟨hn, hb⟩).2.1

/-- Data entering anywhere at or below an enabled Discarder is delivered to nobody and does not touch the
processors above, in any chain; data going down passes. -/
theorem c30_discarder (p : Nat) (w : World) (hn : p < w.n) (he : (w.procs p).enable = true)
    (hk : (w.procs p).kind = .discarder) :
    (∀ fuel dir pos ctx, p < pos → NoDelivery w (call fuel dir pos ctx w).2 ∧
      ∀ j < p, (call fuel dir pos ctx w).2.procs j = w.procs j) ∧
    (∀ fuel c bs, NoDelivery w (receive fuel c bs w).2) ∧
    (∀ fuel c v, NoDelivery w (receiveRef fuel c v w).2) ∧
    (∀ en ctx, Down (fun nb => onUpper p ⟨en, .discarder⟩ nb ctx w) ctx w) := by
  obtain ⟨h1, h2, h3⟩ := blocked p w hn ⟨he, .inl hk⟩
  exact ⟨h1, h2, h3, fun en ctx nb => rfl⟩

/-- A stack where, without the Discarder, a received byte string is delivered. -/
def discardDemo (en : Bool) : World :=
  { quiet with n := 2, served := [(7, 0)], procs := fun i => if i = 0 then ⟨true, .bytesCodec⟩ else ⟨en, .discarder⟩ }

example : (receive 5 0 [9] (discardDemo false)).2.trace = [.rx 7 (some 0) (.bytes [9])] ∧
    1 < (discardDemo true).n ∧ ((discardDemo true).procs 1).enable = true := by
  refine ⟨by rfl, by decide, rfl⟩

/-! ## C31, C32: Filter and Forwarder -/

/-- The decision of a list of functions, asked in order until one says true; each may change the
context. -/
def accept : List Fn → Bool → Ctx → Bool × Ctx
  | [], _, ctx => (false, ctx)
  | f :: fs, up, ctx => if (f ctx up).1 then (true, (f ctx up).2) else accept fs up (f ctx up).2

theorem doFns_some (fns : List Fn) (up : Bool) (ctx : Ctx) (w : World) :
    doFns up (fns.map some) ctx w = (.ok (accept fns up ctx), w) := by
  induction fns generalizing ctx with
  | nil => rfl
  | cons f fns ih =>
    simp only [List.map_cons, doFns, accept, ite_apply]
    split
    · rfl
    · exact ih _

/-- For functions that leave the context alone, the decision is "some function accepts". -/
theorem accept_pure (fns : List Fn) (up : Bool) (ctx : Ctx) (h : ∀ f ∈ fns, (f ctx up).2 = ctx) :
    accept fns up ctx = (fns.any fun f => (f ctx up).1, ctx) := by
  induction fns with
  | nil => rfl
  | cons f fns ih =>
    have h1 := h f List.mem_cons_self
    simp only [accept, h1, List.any_cons]
    cases hf : (f ctx up).1 with
    | true => simp
    | false => simpa using ih fun g hg => h g (List.mem_cons_of_mem _ hg)

/-- The Filter's decision logic, for a function list without the nil entry.  Missing from the full claim:
NewFilter always puts a nil function in front (`c31_violated`). -/
theorem c31_filter_partial (i fuel : Nat) (fns : List Fn) (tx rx : UInt64) (ctx : Ctx) (w : World) :
    ((accept fns false ctx).1 = true →
      Down (fun nb => onUpper i ⟨true, .filter (fns.map some) tx rx⟩ nb ctx w) (accept fns false ctx).2 w) ∧
    ((accept fns false ctx).1 = false →
      Stops (fun nb => onUpper i ⟨true, .filter (fns.map some) tx rx⟩ nb ctx w)
        (.ok (accept fns false ctx).2, w.setKind i (.filter (fns.map some) (tx + 1) rx))) ∧
    ((accept fns true ctx).1 = true →
      Up (fun nb => onLower fuel i ⟨true, .filter (fns.map some) tx rx⟩ nb ctx w) (accept fns true ctx).2 w) ∧
    ((accept fns true ctx).1 = false →
      Stops (fun nb => onLower fuel i ⟨true, .filter (fns.map some) tx rx⟩ nb ctx w)
        (.ok (accept fns true ctx).2, w.setKind i (.filter (fns.map some) tx (rx + 1)))) := by
  refine ⟨fun h nb => ?_, fun h nb => ?_, fun h nb => ?_, fun h nb => ?_⟩
  all_goals
    simp only [onUpper, onLower, filterUpper, filterLower, if_true]
    rw [bind_of_ok (doFns_some _ _ _ _), h]
    simp [bind_apply, setKind_apply]

example : (accept [fun c _ => (false, c), fun c up => (up, c)] true Ctx.new).1 = true ∧
    (accept [fun c _ => (false, c), fun c up => (up, c)] false Ctx.new).1 = false := ⟨rfl, rfl⟩

/-- Every enabled Filter made by NewFilter crashes on the first data in either direction. -/
theorem c31_violated (fns : List Fn) (i fuel : Nat) (ctx : Ctx) (w : World) :
    Stops (fun nb => onUpper i (newFilter fns) nb ctx w) (.panic, w) ∧
    Stops (fun nb => onLower fuel i (newFilter fns) nb ctx w) (.panic, w) := ⟨fun _ => rfl, fun _ => rfl⟩

/-- The Forwarder's decision logic, for a function list without the nil entry.  Missing from the full
claim: NewForwarder always puts a nil function in front (`c32_violated`). -/
theorem c32_forwarder_partial (i fuel : Nat) (fns : List Fn) (tx rx : UInt64) (ctx : Ctx) (w : World) :
    ((accept fns false ctx).1 = false →
      Down (fun nb => onUpper i ⟨true, .forwarder (fns.map some) tx rx⟩ nb ctx w) (accept fns false ctx).2 w) ∧
    ((accept fns false ctx).1 = true →
      Stops (fun nb => onUpper i ⟨true, .forwarder (fns.map some) tx rx⟩ nb ctx w)
        (.ok (accept fns false ctx).2, w.setKind i (.forwarder (fns.map some) (tx + 1) rx))) ∧
    ((accept fns true ctx).1 = false →
      Up (fun nb => onLower fuel i ⟨true, .forwarder (fns.map some) tx rx⟩ nb ctx w) (accept fns true ctx).2 w) ∧
    ((accept fns true ctx).1 = true →
      Stops (fun nb => onLower fuel i ⟨true, .forwarder (fns.map some) tx rx⟩ nb ctx w)
        (.ok (accept fns true ctx).2, w.setKind i (.forwarder (fns.map some) tx (rx + 1)))) := by
  refine ⟨fun h nb => ?_, fun h nb => ?_, fun h nb => ?_, fun h nb => ?_⟩
  all_goals
    simp only [onUpper, onLower, forwarderUpper, forwarderLower, if_true]
    rw [bind_of_ok (doFns_some _ _ _ _), h]
    simp [bind_apply, setKind_apply]

example : (accept [fun c _ => (true, c), fun _ _ => (false, demoTx)] true Ctx.new) = (true, Ctx.new) := rfl

theorem c32_violated (fns : List Fn) (i fuel : Nat) (ctx : Ctx) (w : World) :
    Stops (fun nb => onUpper i (newForwarder fns) nb ctx w) (.panic, w) ∧
    Stops (fun nb => onLower fuel i (newForwarder fns) nb ctx w) (.panic, w) := ⟨fun _ => rfl, fun _ => rfl⟩

/-! ## C36: routing to the endpoint -/

/-- The session a context arrived with: 0 without a SessionResolver. -/
def sessionOf (ctx : Ctx) : Int :=
  match ctx.opts "session" with
  | .int s => s
  | _ => 0

theorem sessionOf_eq (ctx : Ctx) : (optionParseInt (ctx.opts "session") 0).1 = sessionOf ctx := by
  simp only [sessionOf, optionParseInt]
  cases ctx.opts "session" <;> rfl

theorem find_unique {served : List (EpId × Int)} (hd : (served.map Prod.snd).Nodup) {ep : EpId} {s : Int}
    (h : (ep, s) ∈ served) : findEndPoint served s = some ep := by
  induction served with
  | nil => cases h
  | cons e es ih =>
    obtain ⟨e1, e2⟩ := e
    simp only [List.map_cons, List.nodup_cons] at hd
    simp only [findEndPoint, List.find?_cons]
    rcases List.mem_cons.mp h with h | h
    · simp only [Prod.mk.injEq] at h
      rw [h.1, h.2]; simp
    · have : e2 ≠ s := fun he => hd.1 (he ▸ List.mem_map_of_mem (f := Prod.snd) h)
      rw [beq_false_of_ne this]
      exact ih hd.2 h

theorem find_none {served : List (EpId × Int)} {s : Int} (h : ∀ ep, (ep, s) ∉ served) : findEndPoint served s = none := by
  simp only [findEndPoint, Option.map_eq_none_iff, List.find?_eq_none]
  intro e he hs
  exact h e.1 (by rw [← eq_of_beq hs]; exact he)

theorem c36_routing (ctx : Ctx) (w : World) (hd : (w.served.map Prod.snd).Nodup) :
    (ctx.msg = .nil → upperDeckLower ctx w = (.ok ctx, w)) ∧
    (ctx.msg ≠ .nil → ∀ ep, (ep, sessionOf ctx) ∈ w.served →
      upperDeckLower ctx w = (.ok ctx, { w with trace := w.trace ++ [.rx ep ctx.conn ctx.msg] })) ∧
    (ctx.msg ≠ .nil → (∀ ep, (ep, sessionOf ctx) ∉ w.served) → upperDeckLower ctx w = (.ok ctx, w)) := by
  refine ⟨fun h => ?_, fun h ep he => ?_, fun h he => ?_⟩
  · simp [upperDeckLower, h]
  · exact upperDeckLower_rx h (by rw [sessionOf_eq]; exact find_unique hd he)
  · exact upperDeckLower_none h (by rw [sessionOf_eq]; exact find_none he)

example : ((quiet.served.map Prod.snd).Nodup) ∧
    (7, sessionOf (Ctx.new.setOption "session" (.int 3))) ∈ quiet.served := by
  refine ⟨by simp [quiet], ?_⟩
  simp [sessionOf, Ctx.setOption, quiet]

end Verif.Stack
