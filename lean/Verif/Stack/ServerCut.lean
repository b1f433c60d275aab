import Verif.Stack.CutExact
import Verif.Stack.Net

/-!
# C103 for a whole server

`c103_iff` is about one connection and a stack that does nothing else.  A stack has one FrameDecoder for all its connections, and it sends and
closes connections between the reads.  Here: any sequence of reads on any connections, sends, control messages of the processors and closings.
-/

namespace Verif.Stack
open GoM UBuf

/-- What a running stack does, one after the other (the receive goroutines of its connections, the endpoints, the timers of its processors).
Reads at the same time are the subject of C85. -/
inductive SrvEv where
  /-- A read of the receive loop of a connection returned these bytes (proc_lowerdeck.go:73-84). -/
  | read (c : ConnId) (bs : List Byte)
  /-- An endpoint sent `v` to session `s` (proc_upperdeck.go:31-69). -/
  | send (c : ConnId) (v : Val) (s : Int)
  /-- The timer of the processor at `h` (proc_heartbeat.go:154-163, proc_stat_counter.go:65-76). -/
  | control (h : Nat) (c : ConnId) (tag : Byte)
  /-- A connection is closed (proc_lowerdeck.go:22-33). -/
  | close (c : ConnId)

def SrvEv.run (fuel : Nat) : SrvEv → GoM World Unit
  | .read c bs => receive fuel c bs
  | .send c v s => Stack.send fuel (some c) v s
  | .control h c tag => sendControl fuel h c tag
  | .close c => closeConnection c

def runAll (fuel : Nat) : List SrvEv → GoM World Unit
  | [] => Pure.pure ()
  | e :: es => do e.run fuel; runAll fuel es

def SrvEv.conn : SrvEv → ConnId
  | .read c _ => c
  | .send c _ _ => c
  | .control _ c _ => c
  | .close c => c

/-- The reads of all connections. -/
def allReads : List SrvEv → List (ConnId × List Byte)
  | [] => []
  | .read c bs :: es => (c, bs) :: allReads es
  | _ :: es => allReads es

/-- The reads of one connection. -/
def readsOn (c : ConnId) (es : List SrvEv) : List (List Byte) := ((allReads es).filter (·.1 == c)).map (·.2)

/-- A delivery for connection `c`. -/
def rxFor (c : ConnId) : Obs → Bool
  | .rx _ (some c') _ => c' == c
  | _ => false

/-- The deliveries for connection `c`. -/
def arrivalsOn (c : ConnId) (t : List Obs) : List Obs := t.filter (rxFor c)

theorem arrivalsOn_append (c : ConnId) (a b : List Obs) : arrivalsOn c (a ++ b) = arrivalsOn c a ++ arrivalsOn c b := List.filter_append ..

theorem arrivalsOn_arrivals (c : ConnId) (t : List Obs) : arrivalsOn c (arrivals t) = arrivalsOn c t := by
  rw [arrivalsOn, arrivals, List.filter_filter]
  congr 1
  funext o
  cases o <;> simp [rxFor, isRx]

theorem arrivalsOn_rxs (c c' : ConnId) (xs : List Item) : arrivalsOn c (rxs c' xs) = if c' = c then rxs c' xs else [] := by
  by_cases h : c' = c
  · rw [if_pos h, arrivalsOn, List.filter_eq_self]
    intro o ho
    obtain ⟨x, _, rfl⟩ := List.mem_map.mp ho
    simp [rxFor, h]
  · rw [if_neg h, arrivalsOn, List.filter_eq_nil_iff]
    intro o ho
    obtain ⟨x, _, rfl⟩ := List.mem_map.mp ho
    simp [rxFor, h]

/-- A delivery or a sign of life on connection `c`. -/
def signFor (c : ConnId) : Obs → Bool
  | .rx _ (some c') _ => c' == c
  | .beat _ (some c') => c' == c
  | _ => false

theorem Sign.signFor {c : ConnId} {o : Obs} (h : Sign c o) (c' : ConnId) : Stack.signFor c' o = (c == c') := by
  rcases h with ⟨ep, v, rfl⟩ | ⟨h, rfl⟩ <;> rfl

/-- The connection of a delivery or sign of life. -/
def signConn : Obs → Nat
  | .rx _ (some c) _ => c
  | .beat _ (some c) => c
  | _ => 0

theorem Sign.signConn {c : ConnId} {o : Obs} (h : Sign c o) : Stack.signConn o = c := by
  rcases h with ⟨ep, v, rfl⟩ | ⟨h, rfl⟩ <;> rfl

/-- Those of a kind `q`. -/
def signsOn (q : Obs → Bool) (c : ConnId) (t : List Obs) : List Obs := t.filter fun o => q o && signFor c o

theorem signsOn_append (q : Obs → Bool) (c : ConnId) (a b : List Obs) : signsOn q c (a ++ b) = signsOn q c a ++ signsOn q c b := List.filter_append ..

theorem signsOn_sight (q : Obs → Bool) (c : ConnId) (t : List Obs) : signsOn q c (sight q t) = signsOn q c t := by
  rw [signsOn, sight, List.filter_filter]
  congr 1
  funext o
  cases q o <;> simp

theorem signsOn_arrivals (c : ConnId) (t : List Obs) : signsOn isRx c t = arrivalsOn c t := by
  rw [signsOn, arrivalsOn]
  congr 1
  funext o
  cases o with
  | rx ep c' v => cases c' <;> rfl
  | _ => rfl

theorem arrives_sign (c : ConnId) (p : Packet) : Sign c (p.arrives c) := by
  cases p with
  | msg x => exact .inl ⟨_, _, rfl⟩
  | beat h => exact .inr ⟨_, rfl⟩

theorem signsOn_arrives {q : Obs → Bool} (c c' : ConnId) (ps : List Packet) (h : ∀ p ∈ ps, q (p.arrives c') = true) :
    signsOn q c (ps.map (Packet.arrives c')) = if c' = c then ps.map (Packet.arrives c') else [] := by
  by_cases e : c' = c
  · rw [if_pos e, signsOn, List.filter_eq_self]
    intro o ho
    obtain ⟨p, hp, rfl⟩ := List.mem_map.mp ho
    rw [h p hp, (arrives_sign c' p).signFor]
    simp [e]
  · rw [if_neg e, signsOn, List.filter_eq_nil_iff]
    intro o ho
    obtain ⟨p, hp, rfl⟩ := List.mem_map.mp ho
    rw [(arrives_sign c' p).signFor]
    simp [e]

/-! ## Packets as frames -/

/-- What the FrameDecoder at the bottom is to hand up for a packet. -/
def parcel (w : World) (k : Nat) (p : Packet) : List Byte := p.at w k (w.n - (k + 2))

theorem Packet.Ok.above {w : World} {k : Nat} {p : Packet} (h : p.Ok w w k) (hfr : Frames (w.procs (w.n - 1))) : ∀ x, p = .beat x → k < x ∧ x < w.n - 1 := by
  intro x e
  subst e
  obtain ⟨h1, h2, h3, _⟩ := h
  have : x ≠ w.n - 1 := by
    intro e
    subst e
    obtain ⟨⟨c0, hk⟩, _⟩ := hfr
    rw [hk] at h3
    cases h3
  exact ⟨h1, by omega⟩

theorem packet_frame {w : World} {k : Nat} (hk : k + 1 < w.n) (hfr : Frames (w.procs (w.n - 1))) {p : Packet} (hp : p.Ok w w k) :
    p.bytes w k = frameOf (parcel w k p) := by
  obtain ⟨m, hm⟩ : ∃ m, w.n = k + 2 + m := ⟨w.n - (k + 2), by omega⟩
  have hab := hp.above hfr
  rw [show w.n - 1 = k + 1 + m by omega] at hfr
  rw [parcel, show w.n - (k + 2) = m by omega]
  cases p with
  | msg x =>
    simp only [Packet.bytes, Packet.at, wire]
    rw [show w.n - (k + 1) = m + 1 by omega, seg_snoc, wrap_snoc, frames_hdr hfr]
    simp [stream]
  | beat x =>
    have := hab x rfl
    simp only [Packet.bytes, Packet.at]
    rw [show w.n - (x + 1) = k + m - x + 1 by omega, seg_snoc, show x + 1 + (k + m - x) = k + 1 + m by omega, wrap_snoc, frames_hdr hfr]
    simp [stream]

theorem packets_stream {w : World} {k : Nat} (hk : k + 1 < w.n) (hfr : Frames (w.procs (w.n - 1))) {ps : List Packet} (hp : ∀ p ∈ ps, p.Ok w w k) :
    packets w k ps = stream (ps.map (parcel w k)) := by
  rw [packets, stream, List.map_map]
  congr 1
  exact List.map_congr_left fun p h => packet_frame hk hfr (hp p h)

theorem parcel_evolves {w w' : World} (he : Evolves w w') (k : Nat) : parcel w' k = parcel w k := by
  funext p
  rw [parcel, parcel, he.n, Packet.at_same he.sameProc]

theorem packets_evolves {w w' : World} (he : Evolves w w') (k : Nat) (ps : List Packet) : packets w' k ps = packets w k ps := by
  rw [packets, packets]
  congr 1
  refine List.map_congr_left fun p _ => ?_
  have hn : w'.n = w.n := he.n
  cases p <;> simp only [Packet.bytes, wire, hn, wrap_same he.sameProc]

theorem parcel_ne {w : World} {k : Nat} {p : Packet} (hp : p.Ok w w k) : parcel w k p ≠ [] := by
  cases p with
  | msg x => exact wrap_ne _ _ hp.1.ne
  | beat x => exact wrap_ne _ _ (by simp)

theorem hlen_heartbeat {p : Proc} (h : p.kind = .heartbeat) : hlen p = 1 := by
  simp only [hlen, hdr, h]
  rfl

/-- What arrives needs all of it. -/
theorem needs_arrives {w : World} {k : Nat} (hk : k + 1 < w.n) (hcodec : w.procs k = ⟨true, .bytesCodec⟩ ∨ w.procs k = ⟨true, .stringCodec⟩)
    (hfr : Frames (w.procs (w.n - 1))) {p : Packet} (hp : p.Ok w w k) (c : ConnId) :
    needs w k (p.arrives c) = (parcel w k p).length := by
  have hab := hp.above hfr
  cases p with
  | msg x =>
    have h1 := hp.1.codec
    simp only [Packet.arrives, needs_rx, parcel, Packet.at, wrap_weight, inner]
    have h3 : bulk (.rx x.ep (some c) x.v) = x.b.length := by
      obtain ⟨v, b, s, e⟩ := x
      simp only at h1 ⊢
      rcases hcodec with e | e <;> rw [e] at h1 <;> cases h1 <;> rfl
    omega
  | beat x =>
    have := hab x rfl
    simp only [Packet.arrives, needs, need, parcel, Packet.at, wrap_weight]
    rw [show k + 1 + (w.n - (k + 2)) - x = k + (w.n - (k + 2)) - x + 1 by omega, seg_succ]
    simp only [hlens, List.map_cons, List.sum_cons, hlen_heartbeat hp.2.2.1, List.length_cons, List.length_nil]
    omega

theorem weight_arrives {w : World} {k : Nat} (hk : k + 1 < w.n) (hcodec : w.procs k = ⟨true, .bytesCodec⟩ ∨ w.procs k = ⟨true, .stringCodec⟩)
    (hfr : Frames (w.procs (w.n - 1))) (ps : List Packet) (hp : ∀ p ∈ ps, p.Ok w w k) (c : ConnId) :
    weight (needs w k) (ps.map (Packet.arrives c)) = framed (ps.map (parcel w k)) ∧
    (ps.map (Packet.arrives c)).map (needs w k) = (ps.map (parcel w k)).map List.length := by
  induction ps with
  | nil => exact ⟨rfl, rfl⟩
  | cons p ps ih =>
    obtain ⟨h1, h2⟩ := ih fun q hq => hp q (by simp [hq])
    have h3 := needs_arrives hk hcodec hfr (hp p (by simp)) c
    simp only [List.map_cons, weight, List.sum_cons, framed_cons] at h1 h2 ⊢
    rw [h1, h2, h3]
    exact ⟨rfl, rfl⟩

/-! ## Sums by key -/

theorem sum_below {α : Type} (ka : α → Nat) (fa : α → Nat) (as : List α) (K : Nat) :
    ((as.filter fun a => decide (ka a < K + 1)).map fa).sum =
      ((as.filter fun a => decide (ka a < K)).map fa).sum + ((as.filter fun a => ka a == K).map fa).sum := by
  induction as with
  | nil => simp
  | cons a as ih =>
    rcases Nat.lt_trichotomy (ka a) K with h | h | h
    · have e1 : ¬ ka a = K := by omega
      have e2 : ka a < K + 1 := by omega
      simp only [List.filter_cons, h, e1, e2, decide_true, if_true, List.map_cons, List.sum_cons, ih, beq_iff_eq, if_false]
      omega
    · subst h
      simp only [List.filter_cons, Nat.lt_irrefl, Nat.lt_succ_self, decide_true, decide_false, if_true, List.map_cons, List.sum_cons, ih, beq_self_eq_true,
        Bool.false_eq_true, if_false]
      omega
    · have e1 : ¬ ka a = K := by omega
      have e2 : ¬ ka a < K + 1 := by omega
      have e3 : ¬ ka a < K := by omega
      simp only [List.filter_cons, e1, e2, e3, decide_false, ih, beq_iff_eq, if_false, Bool.false_eq_true]

theorem keys_below {α : Type} (ka : α → Nat) : ∀ as : List α, ∃ K, ∀ a ∈ as, ka a < K
  | [] => ⟨0, by simp⟩
  | a :: as => by
    obtain ⟨K, h⟩ := keys_below ka as
    refine ⟨max K (ka a + 1), fun b hb => ?_⟩
    rcases List.mem_cons.mp hb with rfl | hb
    · omega
    · have := h b hb; omega

/-- Two lists with the same sum for every key have the same sum. -/
theorem sum_by_key {α β : Type} (ka fa : α → Nat) (kb fb : β → Nat) (as : List α) (bs : List β)
    (h : ∀ c, ((as.filter fun a => ka a == c).map fa).sum = ((bs.filter fun b => kb b == c).map fb).sum) :
    (as.map fa).sum = (bs.map fb).sum := by
  have key : ∀ K, ((as.filter fun a => decide (ka a < K)).map fa).sum = ((bs.filter fun b => decide (kb b < K)).map fb).sum := by
    intro K
    induction K with
    | zero => rw [List.filter_eq_nil_iff.mpr (by simp), List.filter_eq_nil_iff.mpr (by simp)]; rfl
    | succ K ih => rw [sum_below, sum_below, ih, h]
  obtain ⟨K1, h1⟩ := keys_below ka as
  obtain ⟨K2, h2⟩ := keys_below kb bs
  have := key (max K1 K2)
  rwa [List.filter_eq_self.mpr (fun a ha => by have := h1 a ha; simp; omega), List.filter_eq_self.mpr (fun b hb => by have := h2 b hb; simp; omega)] at this

/-! ## Everything but the reads is silent -/

/-- A running stack with the codec for byte slices or strings at `k`. -/
structure Stand (k : Nat) (w : World) : Prop where
  pos : k < w.n
  quiet : ∀ j, j < k → Quiet (w.procs j)
  codec : w.procs k = ⟨true, .bytesCodec⟩ ∨ w.procs k = ⟨true, .stringCodec⟩
  opens : ∀ j, k < j → j < w.n → Opens (w.procs j)

theorem Stand.evolves {k : Nat} {w w' : World} (h : Stand k w) (he : Evolves w w') : Stand k w' := by
  have hn := he.n
  have hc : w'.procs k = ⟨true, .bytesCodec⟩ ∨ w'.procs k = ⟨true, .stringCodec⟩ := by
    obtain ⟨h1, h2⟩ := he.sameProc k
    rcases h.codec with e | e <;> rw [e] at h1 h2 <;> generalize w'.procs k = p at h1 h2 <;> obtain ⟨en, kd⟩ := p <;>
      simp only at h1 <;> subst h1 <;> cases kd <;> simp_all [Kind.Same]
  exact ⟨by rw [hn]; exact h.pos, fun j hj => (he.sameProc j).quiet (h.quiet j hj), hc,
    fun j h1 h2 => (he.sameProc j).opens (h.opens j h1 (by rw [← hn]; exact h2))⟩

/-- A running stack with the codec for byte slices or strings at `k` and a FrameDecoder, the only one, at the bottom. -/
structure Hall (k : Nat) (w : World) : Prop where
  pos : k + 1 < w.n
  quiet : ∀ j, j < k → Quiet (w.procs j)
  codec : w.procs k = ⟨true, .bytesCodec⟩ ∨ w.procs k = ⟨true, .stringCodec⟩
  opens : ∀ j, k < j → j < w.n → Opens (w.procs j)
  only : ∀ j, k < j → j < w.n - 1 → ¬ Frames (w.procs j)
  frames : Frames (w.procs (w.n - 1))

theorem Hall.sole {k : Nat} {w : World} {c : ConnId} (h : Hall k w) (hb : (w.conns c).useRef = false) : Sole c k w :=
  ⟨⟨by have := h.pos; omega, by omega, h.quiet, h.codec, h.opens, h.only, hb⟩, h.frames⟩

theorem Hall.stand {k : Nat} {w : World} (h : Hall k w) : Stand k w := ⟨by have := h.pos; omega, h.quiet, h.codec, h.opens⟩

theorem Hall.evolves {k : Nat} {w w' : World} (h : Hall k w) (he : Evolves w w') : Hall k w' := by
  have hn := he.n
  have hs := h.stand.evolves he
  exact ⟨by rw [hn]; exact h.pos, hs.quiet, hs.codec, hs.opens,
    fun j h1 h2 h3 => h.only j h1 (by rw [← hn]; exact h2) ((he.sameProc j).frames h3),
    by rw [hn]; exact SameProc.frames ⟨(he.sameProc _).1.symm, (he.sameProc _).2.symm⟩ h.frames⟩

theorem emits_quiet {q : Obs → Bool} (hq : Deaf q) {c : ConnId} {R : List Obs → Prop} {k : Nat} (fuel : Nat) : ∀ (pos : Nat) (ctx : Ctx) (w : World), 1 ≤ pos → Stand k w → ctx.conn = some c →
    (w.conns c).useRef = false → R (sight q w.trace) → Emits q c R (call fuel .down pos ctx) w := by
  induction fuel with
  | zero => intro pos ctx w _ _ _ _ h0; exact ⟨h0, fun x e => by cases e⟩
  | succ fuel ih =>
    intro pos ctx w hp hs hc hby h0
    have hpos := hs.pos
    by_cases hk : k + 1 < pos
    · exact emits_down hq k (fuel + 1) pos ctx w hs.opens hk hc hby h0
    simp only [call]
    refine .get ?_
    rw [if_neg (by omega), if_neg (by omega)]
    by_cases hk1 : pos = k + 1
    · subst hk1
      simp only [Nat.add_sub_cancel]
      have key : ∀ b, Emits q c R (encodeDown ⟨call fuel .up k, call fuel .down (k + 1 + 1), call fuel .down k⟩ ctx b) w := by
        intro b
        simp only [encodeDown]
        exact .get (.alloc h0 fun ub => .onBuf h0 fun r s' _ => .ite (.pure h0 hc) (emits_down hq k fuel _ _ w hs.opens (by omega) hc hby h0))
      rcases hs.codec with e | e <;> rw [e] <;> simp only [onUpper, bytesUpper, stringUpper, if_true] <;> cases ctx.msg <;>
        first | exact key _ | exact .pure h0 hc
    · have hqt := hs.quiet (pos - 1) (by omega)
      have := hqt.down (pos - 1) (ctx := ctx) (w := w) ⟨c, hc, hby⟩
      have hih := ih (pos + 1) ctx w (by omega) hs hc hby h0
      have := this ⟨call fuel .up (pos - 1), call fuel .down (pos + 1), call fuel .down (pos - 1)⟩
      simp only [Emits] at hih ⊢
      simp only at this
      rw [this]
      exact hih

/-- A computation that delivers nothing and leaves the FrameDecoder alone. -/
structure Mute (w w' : World) : Prop where
  ev : Evolves w w'
  silent : ∀ q, Deaf q → sight q w'.trace = sight q w.trace
  bottom : w'.procs (w.n - 1) = w.procs (w.n - 1)

theorem mute_down {k : Nat} {w : World} (hs : Hall k w) (c : ConnId) (hby : (w.conns c).useRef = false) (fuel pos : Nat) (hp : 1 ≤ pos) (ctx : Ctx)
    (hc : ctx.conn = some c) : Mute w (call fuel .down pos ctx w).2 := by
  refine ⟨call_evolves fuel .down pos ctx w, fun q hq => (emits_quiet hq (R := fun t => t = sight q w.trace) fuel pos ctx w hp hs.stand hc hby rfl).1, ?_⟩
  obtain ⟨⟨x, hk⟩, _⟩ := hs.frames
  exact (call_sealed (w.n - 1) fuel .down pos (by simp) ctx w ⟨⟨x, hk⟩, fun j h1 h2 => by omega⟩).2

/-- An event that is not a read is a call downwards or the closing of a connection. -/
theorem ev_by {M : World → World → Prop} {fuel : Nat} {w : World} (e : SrvEv) (hne : ∀ c bs, e ≠ .read c bs) (hrefl : M w w)
    (hdown : ∀ pos ctx, 1 ≤ pos → ctx.conn = some e.conn → M w (call fuel .down pos ctx w).2) (hclose : M w (w.close e.conn)) : M w (e.run fuel w).2 := by
  cases e with
  | read c bs => exact absurd rfl (hne c bs)
  | send c v s =>
    have := hdown 1 (({ Ctx.new with conn := some c, msg := v } : Ctx).setOption "session" (.int s)) (by omega) rfl
    simp only [SrvEv.run, Stack.send]
    rw [bind_apply]
    rcases h : call fuel .down 1 (({ Ctx.new with conn := some c, msg := v } : Ctx).setOption "session" (.int s)) w with ⟨r, w'⟩
    rw [h] at this
    cases r <;> exact this
  | control i c tag =>
    simp only [SrvEv.run, sendControl]
    rw [bind_of_ok (get_apply w), bind_apply]
    have ha : (allocBuf w.mtu w.overhead w).2 = w := rfl
    rcases h1 : allocBuf w.mtu w.overhead w with ⟨r, w'⟩
    rw [h1] at ha
    simp only at ha
    subst ha
    cases r with
    | panic => exact hrefl
    | running => exact hrefl
    | ok ub =>
      simp only
      rw [bind_apply]
      have hb : (onBuf ub (UBuf.writeByte tag) w').2 = w' := by simp only [onBuf]; split <;> rfl
      rcases h2 : onBuf ub (UBuf.writeByte tag) w' with ⟨r, w2⟩
      rw [h2] at hb
      simp only at hb
      subst hb
      cases r with
      | panic => exact hrefl
      | running => exact hrefl
      | ok x =>
        have := hdown (i + 2) { Ctx.new with conn := some c, buf := some x.2 } (by omega) rfl
        simp only
        rw [bind_apply]
        rcases h : call fuel .down (i + 2) { Ctx.new with conn := some c, buf := some x.2 } w2 with ⟨r, w'⟩
        rw [h] at this
        cases r <;> exact this
  | close c => exact hclose

theorem mute_ev {k fuel : Nat} {w : World} (hs : Hall k w) (e : SrvEv) (hby : (w.conns e.conn).useRef = false) (hne : ∀ c bs, e ≠ .read c bs) :
    Mute w (e.run fuel w).2 :=
  ev_by (M := Mute) e hne ⟨.refl w, fun _ _ => rfl, rfl⟩ (fun pos ctx hp hc => mute_down hs _ hby fuel pos hp ctx hc)
    ⟨Evolves.close w _, fun q hq => mute_close hq _, rfl⟩

/-! ## Any sequence of events -/

theorem readsOn_read (c c' : ConnId) (bs : List Byte) (es : List SrvEv) :
    readsOn c' (.read c bs :: es) = if c = c' then bs :: readsOn c' es else readsOn c' es := by
  simp only [readsOn, allReads, List.filter_cons, beq_iff_eq]
  split <;> rfl

theorem allReads_other {e : SrvEv} (hne : ∀ c bs, e ≠ .read c bs) (es : List SrvEv) : allReads (e :: es) = allReads es := by
  cases e with
  | read c bs => exact absurd rfl (hne c bs)
  | _ => rfl

/-- The number of bytes read on all connections. -/
def volume (es : List SrvEv) : Nat := ((allReads es).map fun r => r.2.length).sum

/-- The reads are those of a receive loop: never empty, at most the MTU. -/
def Reads (w : World) (es : List SrvEv) : Prop := ∀ c bs, SrvEv.read c bs ∈ es → bs ≠ [] ∧ (bs.length : Int) ≤ w.mtu

/-- Only byte connections. -/
def ByteConns (w : World) (es : List SrvEv) : Prop := ∀ e ∈ es, (w.conns e.conn).useRef = false

theorem runAll_cons (fuel : Nat) (e : SrvEv) (es : List SrvEv) (w : World) :
    (runAll fuel (e :: es) w).2 = match e.run fuel w with
      | (.ok _, w1) => (runAll fuel es w1).2
      | (_, w1) => w1 := by
  simp only [runAll]
  rw [bind_apply]
  rcases e.run fuel w with ⟨r, w1⟩
  cases r <;> rfl

/-- The bytes read, on whatever connections, bound the deliveries; with a full cache there are none. -/
theorem server_below {q : Obs → Bool} (hq : Deaf q) {k f : Nat} (es : List SrvEv) : ∀ (w : World) (d : Deque), Hall k w → Caches (w.n - 1) w d → Reads w es → ByteConns w es →
    ∃ os, sight q (runAll (f + 2) es w).2.trace = sight q w.trace ++ os ∧ weight (needs w k) os ≤ d.content.length + volume es ∧
      (Full d → os = []) ∧ ∀ o ∈ os, ∃ c, Sign c o ∧ readsOn c es ≠ [] := by
  induction es with
  | nil => intro w d _ _ _ _; exact ⟨[], by simp [runAll], by simp [weight], fun _ => rfl, by simp⟩
  | cons e es ih =>
    intro w d hs hd hr hb
    rw [runAll_cons]
    have hrest : ∀ {w1 : World}, Evolves w w1 → Reads w1 es ∧ ByteConns w1 es := fun he =>
      ⟨fun c bs h => by rw [he.mtu]; exact hr c bs (by simp [h]), fun e h => by rw [he.useRef]; exact hb e (by simp [h])⟩
    by_cases hne : ∀ c bs, e ≠ .read c bs
    · have hm := mute_ev (fuel := f + 2) hs e (hb e (by simp)) hne
      have hv : volume (e :: es) = volume es := by rw [volume, allReads_other hne, volume]
      rcases hrun : e.run (f + 2) w with ⟨r, w1⟩
      rw [hrun] at hm
      have hc1 : Caches (w1.n - 1) w1 d := by
        obtain ⟨cache, h1, h2⟩ := hd
        refine ⟨cache, ?_, h2⟩
        rw [hm.ev.n, hm.bottom]; exact h1
      cases r with
      | ok x =>
        obtain ⟨os, a1, a2, a3, a4⟩ := ih w1 d (hs.evolves hm.ev) hc1 (hrest hm.ev).1 (hrest hm.ev).2
        exact ⟨os, by simp only; rw [a1, hm.silent q hq], by rw [hv, ← needs_evolves hm.ev]; exact a2, a3, fun o ho => by
          obtain ⟨c, h1, h2⟩ := a4 o ho
          exact ⟨c, h1, by rw [readsOn, allReads_other hne]; exact h2⟩⟩
      | panic => exact ⟨[], by simp only; rw [hm.silent q hq]; simp, by simp [weight], fun _ => rfl, by simp⟩
      | running => exact ⟨[], by simp only; rw [hm.silent q hq]; simp, by simp [weight], fun _ => rfl, by simp⟩
    · obtain ⟨c, bs, rfl⟩ : ∃ c bs, e = .read c bs := by
        apply Classical.byContradiction
        intro h
        exact hne fun c bs e => h ⟨c, bs, e⟩
      have hs1 := hs.sole (c := c) (hb _ (List.mem_cons_self ..))
      obtain ⟨hbs, hfit⟩ := hr c bs (by simp)
      rcases hrun : (SrvEv.read c bs).run (f + 2) w with ⟨r, w1⟩
      obtain ⟨ds, h1, h2, ⟨os, h3, h4⟩, h5⟩ := read_below (q := q) (.inl hq) hs1 hd hbs hfit r w1 hrun
      have hh := (honest_read (f + 1) d ds).count
      rw [h1, List.length_append] at hh
      have hw := h4.weight_le
      have hv : volume (.read c bs :: es) = bs.length + volume es := by simp [volume, allReads]
      have hfull : Full d → decodeRead (f + 1) d ds = ⟨[], .ok (), d⟩ := by
        intro hfull
        have : (Deque.readFromDeque d ds).2.2.1 = d := by simp only [Deque.readFromDeque]; rw [if_pos hfull.full]
        simp only [decodeRead, if_pos hfull.some, this, hfull.waits f, List.nil_append]
      have hnil : Full d → os = [] := by
        intro h
        rw [hfull h] at h4
        cases h4; rfl
      have hconn : ∀ o ∈ os, ∃ c', Sign c' o ∧ readsOn c' (.read c bs :: es) ≠ [] := fun o ho => ⟨c, h4.conn o ho, by rw [readsOn_read, if_pos rfl]; simp⟩
      cases r with
      | ok x =>
        obtain ⟨os', a1, a2, a3, a4⟩ := ih w1 _ (hs.evolves h2) (by rw [h2.n]; exact h5 x rfl) (hrest h2).1 (hrest h2).2
        refine ⟨os ++ os', by simp only; rw [a1, h3, List.append_assoc], ?_, ?_, ?_⟩
        · rw [needs_evolves h2] at a2
          have : weight (needs w k) (os ++ os') = weight (needs w k) os + weight (needs w k) os' := by simp [weight]
          omega
        · intro h
          rw [hnil h, List.nil_append]
          rw [hfull h] at a3
          exact a3 h
        · intro o ho
          rcases List.mem_append.mp ho with h | h
          · exact hconn o h
          · obtain ⟨c', e1, e2⟩ := a4 o h
            refine ⟨c', e1, ?_⟩
            rw [readsOn_read]
            split
            · simp
            · exact e2
      | panic => exact ⟨os, h3, by omega, hnil, hconn⟩
      | running => exact ⟨os, h3, by omega, hnil, hconn⟩

/-! ## What the silent events keep -/

theorem Carrier.mute {k : Nat} {w w' : World} (h : Carrier w k) (hh : Hall k w) (hm : Mute w w') : Carrier w' k := by
  have hn := hm.ev.n
  have hh' := hh.evolves hm.ev
  refine ⟨by rw [hn]; exact h.pos, hh'.quiet, by rw [hm.ev.enable]; exact h.codecOn, hh'.opens, fun j h1 h2 h3 => ?_, ?_, by rw [hm.ev.mtu]; exact h.mtu⟩
  · have hj : j = w.n - 1 := by
      apply Classical.byContradiction
      intro hne
      exact hh'.only j h1 (by omega) h3
    subst hj
    obtain ⟨cache, e1, e2⟩ := h.idle (w.n - 1) h1 (by omega) hh.frames
    exact ⟨cache, by rw [hm.bottom]; exact e1, e2⟩
  · rw [Built, hm.ev.overhead, hn, room_same hm.ev.sameProc]
    exact h.built

theorem Message.evolves {w w' : World} {k : Nat} {v : Val} {b : List Byte} {s : Int} (h : Message w k v b s) (he : Evolves w w') : Message w' k v b s := by
  refine ⟨?_, h.ne, by rw [he.overhead, he.mtu]; exact h.fit, h.lo, h.hi, ?_⟩
  · rw [he.mtu, he.overhead]; exact h.codec.same (he.sameProc k).2
  · rcases h.session with ⟨j, h1, h2, h3⟩ | h
    · exact .inl ⟨j, h1, by rw [he.n]; exact h2, (he.sameProc j).resolves h3⟩
    · exact .inr h

theorem Packet.Ok.evolves {w w' : World} {k : Nat} {p : Packet} (h : p.Ok w w k) (he : Evolves w w') : p.Ok w' w' k := by
  cases p with
  | msg x => exact ⟨h.1.evolves he, by rw [he.served]; exact h.2⟩
  | beat x =>
    obtain ⟨h1, h2, h3, h4⟩ := h
    exact ⟨h1, by rw [he.n]; exact h2, heartbeat_same (he.sameProc x) h3, by rw [he.overhead, he.mtu]; exact h4⟩

theorem Moved.evolves {o : List Obs} {w w' : World} (a2 : Moved o w w') : Evolves w w' :=
  ⟨a2.mtu, a2.overhead, a2.name, a2.n, a2.served, a2.write, fun j => (a2.same j).1, fun j => (a2.same j).2,
    fun c => by rw [a2.conns], fun c hc => by rw [a2.conns]; exact hc, _, a2.trace⟩

/-- What was sent to the stack on each connection. -/
structure Brings (q : Obs → Bool) (w : World) (k : Nat) (ps : ConnId → List Packet) (es : List SrvEv) : Prop where
  ok : ∀ c, ∀ p ∈ ps c, p.Ok w w k ∧ q (p.arrives c) = true
  cut : ∀ c, (readsOn c es).flatten = packets w k (ps c)

/-- All of it arrived, for each connection in order and once. -/
def Seen (q : Obs → Bool) (w w' : World) (ps : ConnId → List Packet) : Prop := ∀ c, signsOn q c w'.trace = signsOn q c w.trace ++ (ps c).map (Packet.arrives c)

theorem signsOn_of {q : Obs → Bool} {w w' : World} (h : sight q w'.trace = sight q w.trace) (c : ConnId) : signsOn q c w'.trace = signsOn q c w.trace := by
  rw [← signsOn_sight, h, signsOn_sight]

theorem boundaries_nil {bss : List (List Byte)} (h : bss.flatten = []) : AtBoundaries [] bss := by
  intro j
  refine ⟨0, ?_⟩
  have : (bss.take j).flatten ++ (bss.drop j).flatten = [] := by rw [← List.flatten_append, List.take_append_drop]; exact h
  simpa [stream] using (List.append_eq_nil_iff.mp this).1

/-- Fuel for what one read can bring. -/
def Fueled (fuel : Nat) (w : World) (ps : ConnId → List Packet) : Prop := ∀ c, w.n + (ps c).length + 1 < fuel ∨ w.n + w.mtu.toNat + 1 < fuel

/-- If the read of `c` ends inside a packet, something is missing in the end. -/
theorem bad_read {q : Obs → Bool} (hq : Deaf q) {k f : Nat} {c : ConnId} {bs : List Byte} {es : List SrvEv} {w : World} (xs : ConnId → List Packet) (hcar : Carrier w k) (hs : Hall k w)
    (hx : Brings q w k xs (.read c bs :: es)) (hf : Fueled (f + 2) w xs) (hr : Reads w (.read c bs :: es)) (hb : ByteConns w (.read c bs :: es))
    {qs qs' : List (List Byte)} {p rr : List Byte} (hps : (xs c).map (parcel w k) = qs ++ p :: qs') (hbs : bs = stream qs ++ rr) (hrr : rr ≠ [])
    (hrl : rr.length < p.length + 4) (hrp : rr = (frameOf p).take rr.length) : ¬ Seen q w (runAll (f + 2) (.read c bs :: es) w).2 xs := by
  intro harr
  have hn := hs.pos
  have hs1 : Sole c k w := hs.sole (hb _ (List.mem_cons_self ..))
  have hpne : ∀ p ∈ (xs c).map (parcel w k), p ≠ [] := by
    intro p hp
    obtain ⟨x, hxm, rfl⟩ := List.mem_map.mp hp
    exact parcel_ne (hx.ok c x hxm).1
  have hidle := hcar.idle (w.n - 1) (by omega) (by omega) hs.frames
  obtain ⟨d, hd, hd0⟩ := hidle.caches
  obtain ⟨hb0, hbl⟩ := hr c bs (by simp)
  have hm32 := hcar.mtu
  have hp32 : p.length < 2 ^ 32 := by
    have : p ∈ (xs c).map (parcel w k) := by rw [hps]; simp
    obtain ⟨x, hxm, rfl⟩ := List.mem_map.mp this
    have hok := (hx.ok c x hxm).1
    exact (hcar.takes hok (by omega) (fun y e => by have := hok.above hs.frames y e; omega)).small
  have hlen : ((xs c).map (parcel w k)).length = (xs c).length := by simp
  rw [hps] at hlen
  simp only [List.length_append, List.length_cons] at hlen
  have hfq : qs.length < f + 1 := by
    rcases hf c with h | h
    · omega
    · have h1 := stream_count qs
      have h2 : bs.length = (stream qs).length + rr.length := by rw [hbs, List.length_append]
      omega
  have hv : volume (.read c bs :: es) = bs.length + volume es := by simp [volume, allReads]
  have hrest : ∀ {w1 : World}, Evolves w w1 → Reads w1 es ∧ ByteConns w1 es := fun he =>
    ⟨fun c bs h => by rw [he.mtu]; exact hr c bs (by simp [h]), fun e h => by rw [he.useRef]; exact hb e (by simp [h])⟩
  -- all that is seen in the end
  have hall : ∃ ds os os', ds.content = bs ∧ sight q (runAll (f + 2) (.read c bs :: es) w).2.trace = sight q w.trace ++ (os ++ os') ∧
      Below c (needs w k) os (decodeRead (f + 1) d ds).out ∧
      weight (needs w k) os' ≤ (decodeRead (f + 1) d ds).cache.content.length + volume es ∧ (Full (decodeRead (f + 1) d ds).cache → os' = []) ∧
      ∀ o ∈ os', ∃ c, Sign c o := by
    rw [runAll_cons]
    rcases hrun : (SrvEv.read c bs).run (f + 2) w with ⟨r, w1⟩
    obtain ⟨ds, h1, h2, ⟨os, h3, h4⟩, h5⟩ := read_below (q := q) (.inl hq) hs1 hd hb0 hbl r w1 hrun
    cases r with
    | ok x =>
      obtain ⟨os', b1, b2, b3, b4⟩ := server_below hq (f := f) es w1 _ (hs.evolves h2) (by rw [h2.n]; exact h5 x rfl) (hrest h2).1 (hrest h2).2
      rw [needs_evolves h2] at b2
      exact ⟨ds, os, os', h1, by simp only; rw [b1, h3, List.append_assoc], h4, b2, b3, fun o ho => ⟨_, (b4 o ho).choose_spec.1⟩⟩
    | panic => exact ⟨ds, os, [], h1, by simpa using h3, h4, by simp [weight], fun _ => rfl, by simp⟩
    | running => exact ⟨ds, os, [], h1, by simpa using h3, h4, by simp [weight], fun _ => rfl, by simp⟩
  obtain ⟨ds, os, os', h1, h2, h3, h4, h5, h6⟩ := hall
  have hon : ∀ c, signsOn q c (os ++ os') = (xs c).map (Packet.arrives c) := by
    intro c'
    have := harr c'
    rw [← signsOn_sight, h2, signsOn_append, signsOn_sight] at this
    exact List.append_cancel_left this
  have hallq : ∀ o ∈ os ++ os', q o = true := by
    intro o ho
    have : o ∈ sight q (runAll (f + 2) (.read c bs :: es) w).2.trace := by rw [h2]; exact List.mem_append_right _ ho
    exact (List.mem_filter.mp this).2
  have hallrx : ∀ o ∈ os ++ os', ∃ c, Sign c o := by
    intro o ho
    rcases List.mem_append.mp ho with h | h
    · exact ⟨c, h3.conn o h⟩
    · exact h6 o h
  -- the bytes read and what was seen have the same total
  have hkey : ∀ c, (os ++ os').filter (fun o => signConn o == c) = signsOn q c (os ++ os') := by
    intro c'
    refine List.filter_congr fun o ho => ?_
    obtain ⟨c1, h⟩ := hallrx o ho
    rw [hallq o ho, h.signConn, h.signFor]
    rfl
  have hframed : ∀ c, weight (needs w k) ((xs c).map (Packet.arrives c)) = framed ((xs c).map (parcel w k)) := fun c' =>
    (weight_arrives hs.pos hs.codec hs.frames (xs c') (fun x hxm => (hx.ok c' x hxm).1) c').1
  have htot : weight (needs w k) (os ++ os') = bs.length + volume es := by
    rw [← hv]
    refine sum_by_key signConn (fun o => needs w k o + 4) (fun r : ConnId × List Byte => r.1) (fun r => r.2.length) (os ++ os') _ fun c' => ?_
    rw [hkey, hon]
    have e1 := hframed c'
    rw [weight] at e1
    rw [e1, framed_eq_stream, ← packets_stream hs.pos hs.frames (fun p h => (hx.ok c' p h).1), ← hx.cut c', readsOn, List.length_flatten, List.map_map]
    rfl
  have hwsum : weight (needs w k) (os ++ os') = weight (needs w k) os + weight (needs w k) os' := by simp [weight]
  have hw := h3.weight_le
  have hpiece := decodeRead_piece qs p rr (fun q hq => hpne q (by rw [hps]; simp [hq])) (hpne p (by rw [hps]; simp)) hp32 hrr hrl
    (by rw [← hbs]; omega) hrp (f + 1) (by omega) d ds hd0 (by rw [h1, hbs])
  rw [← hbs] at hpiece
  have hcount := (honest_read (f + 1) d ds).count
  rw [h1, hd0, List.nil_append] at hcount
  have hrpos := List.length_pos_iff.mpr hrr
  rcases hpiece with hlost | ⟨hout, hfull⟩ | ⟨q', more, hout, hq'⟩
  · omega
  · have e0 : weight (needs w k) os' = 0 := by rw [h5 hfull]; rfl
    have e1 : bs.length = framed qs + rr.length := by rw [hbs, List.length_append, framed_eq_stream]
    rw [hout] at hw
    omega
  · have he := h3.exact (by omega)
    have hc := hon c
    have hcos : signsOn q c os = os := by
      rw [signsOn, List.filter_eq_self]
      intro o ho
      rw [hallq o (by simp [ho]), (h3.conn o ho).signFor]
      simp
    rw [signsOn_append, hcos] at hc
    have q2 := (weight_arrives hs.pos hs.codec hs.frames (xs c) (fun x hxm => (hx.ok c x hxm).1) c).2
    rw [← hc, List.map_append, ← he, hout, hps] at q2
    simp only [List.map_append, List.append_assoc] at q2
    have := List.append_cancel_left q2
    simp only [List.cons_append, List.map_cons, List.cons.injEq] at this
    omega

theorem server_exact {q : Obs → Bool} (hq : Deaf q) {k fuel : Nat} (hfu : 2 ≤ fuel) (es : List SrvEv) : ∀ (w : World) (xs : ConnId → List Packet), Carrier w k → Hall k w →
    Brings q w k xs es → Fueled fuel w xs → Reads w es → ByteConns w es →
    (Seen q w (runAll fuel es w).2 xs → ∀ c, AtBoundaries ((xs c).map (parcel w k)) (readsOn c es)) ∧
    ((∀ c, AtBoundaries ((xs c).map (parcel w k)) (readsOn c es)) → (runAll fuel es w).1 = .ok () → Seen q w (runAll fuel es w).2 xs) := by
  induction es with
  | nil =>
    intro w xs hcar hs hx _ _ _
    have hn := hs.pos
    have hnil : ∀ c, xs c = [] := by
      intro c
      have h := hx.cut c
      have h1 := packets_length (w := w) (k := k) (ps := xs c) fun p hp => (hx.ok c p hp).1.bytes_ne
      rw [← h] at h1
      exact List.length_eq_zero_iff.mp (by simpa [readsOn, allReads] using h1)
    refine ⟨fun _ c => ?_, fun _ _ c => ?_⟩
    · rw [hnil c]; exact boundaries_nil rfl
    · rw [hnil c]; simp [runAll]
  | cons e es ih =>
    intro w xs hcar hs hx hf hr hb
    have hn := hs.pos
    have hrest : ∀ {w1 : World}, Evolves w w1 → Reads w1 es ∧ ByteConns w1 es := fun he =>
      ⟨fun c bs h => by rw [he.mtu]; exact hr c bs (by simp [h]), fun e h => by rw [he.useRef]; exact hb e (by simp [h])⟩
    by_cases hne : ∀ c bs, e ≠ .read c bs
    · have hm := mute_ev (fuel := fuel) hs e (hb e (by simp)) hne
      have hro : ∀ c, readsOn c (e :: es) = readsOn c es := fun c => by rw [readsOn, allReads_other hne, readsOn]
      rcases hrun : e.run fuel w with ⟨r, w1⟩
      rw [hrun] at hm
      have hstop : Seen q w w1 xs → ∀ c, AtBoundaries ((xs c).map (parcel w k)) (readsOn c (e :: es)) := by
        intro h c
        have h1 := h c
        rw [signsOn_of (hm.silent q hq)] at h1
        have h2 := List.map_eq_nil_iff.mp (List.append_cancel_left (as := signsOn q c w.trace) (bs := (xs c).map (Packet.arrives c)) (cs := []) (by rw [← h1]; simp))
        have h3 := hx.cut c
        rw [h2] at h3 ⊢
        exact boundaries_nil h3
      cases r with
      | ok x =>
        obtain ⟨i1, i2⟩ := ih w1 xs (hcar.mute hs hm) (hs.evolves hm.ev)
          ⟨fun c p h => ⟨(hx.ok c p h).1.evolves hm.ev, (hx.ok c p h).2⟩, fun c => by
            rw [packets_evolves hm.ev, ← hx.cut c, hro]⟩
          (fun c => by rw [hm.ev.n, hm.ev.mtu]; exact hf c) (hrest hm.ev).1 (hrest hm.ev).2
        rw [parcel_evolves hm.ev] at i1 i2
        have hrun1 : runAll fuel (e :: es) w = runAll fuel es w1 := by simp only [runAll]; rw [bind_of_ok hrun]
        have harr : Seen q w1 (runAll fuel es w1).2 xs ↔ Seen q w (runAll fuel es w1).2 xs := by
          simp only [Seen, signsOn_of (hm.silent q hq)]
        rw [hrun1]
        simp only [hro]
        rw [← harr]
        exact ⟨i1, i2⟩
      | panic =>
        have hrun1 : runAll fuel (e :: es) w = (.panic, w1) := by simp only [runAll]; rw [bind_of_panic hrun]
        rw [hrun1]
        exact ⟨hstop, fun _ h => by cases h⟩
      | running =>
        have hrun1 : runAll fuel (e :: es) w = (.running, w1) := by simp only [runAll]; rw [bind_apply, hrun]
        rw [hrun1]
        exact ⟨hstop, fun _ h => by cases h⟩
    · obtain ⟨c, bs, rfl⟩ : ∃ c bs, e = .read c bs := by
        apply Classical.byContradiction
        intro h
        exact hne fun c bs e => h ⟨c, bs, e⟩
      have hs1 : Sole c k w := hs.sole (hb _ (List.mem_cons_self ..))
      obtain ⟨hb0, hbl⟩ := hr c bs (by simp)
      have hcut := hx.cut c
      rw [packets_stream hs.pos hs.frames fun p h => (hx.ok c p h).1, readsOn_read, if_pos rfl, List.flatten_cons] at hcut
      rcases prefix_cases _ bs (readsOn c es).flatten hcut with ⟨j, hj, hbs, hrs⟩ | ⟨qs, p, qs', rr, hps, hbs, hrr, hrl, hrp⟩
      · -- a read that ends at the end of a packet
        have hokt : ∀ p ∈ (xs c).take j, p.Ok w w k := fun p h => (hx.ok c p (List.mem_of_mem_take h)).1
        have hbw : bs = packets w k ((xs c).take j) := by rw [packets_stream hs.pos hs.frames hokt, hbs, List.map_take]
        have hx0 : (xs c).take j ≠ [] := by
          intro e
          rw [e] at hbw
          exact hb0 hbw
        have hcnt := packets_length (w := w) (k := k) (ps := (xs c).take j) fun p hp => (hokt p hp).bytes_ne
        rw [← hbw] at hcnt
        obtain ⟨w1, a1, a2⟩ := receive_packets w k hcar hs.pos hs.frames ((xs c).take j) hx0 hokt c hs1.bytes
          (by rw [← hbw]; exact hbl) fuel (by
            rcases hf c with h | h
            · rw [List.length_take]; omega
            · omega)
        rw [← hbw] at a1
        have hev := a2.evolves
        let ys : ConnId → List Packet := fun c' => if c' = c then (xs c).drop j else xs c'
        have hys : ys c = (xs c).drop j := if_pos rfl
        have hys' : ∀ c', c' ≠ c → ys c' = xs c' := fun c' h => if_neg h
        have hsub : ∀ c', ∀ x ∈ ys c', x ∈ xs c' := by
          intro c' x hxm
          by_cases h : c' = c
          · subst h; rw [hys] at hxm; exact List.mem_of_mem_drop hxm
          · rw [hys' c' h] at hxm; exact hxm
        obtain ⟨i1, i2⟩ := ih w1 ys (hcar.moved a2) (hs.evolves hev)
          ⟨fun c' x h => ⟨(hx.ok c' x (hsub c' x h)).1.evolves hev, (hx.ok c' x (hsub c' x h)).2⟩, fun c' => by
            rw [packets_evolves hev, packets_stream hs.pos hs.frames fun p h => (hx.ok c' p (hsub c' p h)).1]
            by_cases h : c' = c
            · subst h; rw [hys, hrs, List.map_drop]
            · have := hx.cut c'
              rw [readsOn_read, if_neg (fun e => h e.symm), packets_stream hs.pos hs.frames fun p h => (hx.ok c' p h).1] at this
              rw [hys' c' h, this]⟩
          (fun c' => by
            have := hf c'
            rw [a2.n, a2.mtu]
            by_cases h : c' = c
            · subst h; rw [hys, List.length_drop]; omega
            · rw [hys' c' h]; exact this) (hrest hev).1 (hrest hev).2
        rw [parcel_evolves hev] at i1 i2
        have hrun1 : runAll fuel (.read c bs :: es) w = runAll fuel es w1 := by simp only [runAll, SrvEv.run]; rw [bind_of_ok a1]
        have harr : Seen q w1 (runAll fuel es w1).2 ys ↔ Seen q w (runAll fuel es w1).2 xs := by
          refine forall_congr' fun c' => ?_
          rw [a2.trace, signsOn_append, signsOn_arrives _ _ _ fun p hp => (hx.ok c p (List.mem_of_mem_take hp)).2]
          by_cases h : c' = c
          · subst h
            rw [if_pos rfl, hys, List.append_assoc]
            have : ((xs c').take j).map (Packet.arrives c') ++ ((xs c').drop j).map (Packet.arrives c') = (xs c').map (Packet.arrives c') := by
              rw [← List.map_append, List.take_append_drop]
            rw [this]
          · rw [if_neg (fun e => h e.symm), hys' c' h, List.append_nil]
        have hbd : (∀ c', AtBoundaries ((ys c').map (parcel w k)) (readsOn c' es)) ↔
            ∀ c', AtBoundaries ((xs c').map (parcel w k)) (readsOn c' (.read c bs :: es)) := by
          refine forall_congr' fun c' => ?_
          rw [readsOn_read]
          by_cases h : c' = c
          · subst h
            rw [if_pos rfl, boundaries_cons hbs, hys, List.map_drop]
          · rw [if_neg (fun e => h e.symm), hys' c' h]
        rw [hrun1, ← harr, ← hbd]
        exact ⟨i1, i2⟩
      · -- a read that ends inside a packet
        have hno : ¬ AtBoundaries ((xs c).map (parcel w k)) (readsOn c (.read c bs :: es)) := by
          intro h
          obtain ⟨j, hj⟩ := h 1
          rw [readsOn_read, if_pos rfl, List.take_succ_cons, List.take_zero, List.flatten_cons, List.flatten_nil, List.append_nil, hbs, hps] at hj
          exact not_boundary hrr hrl j hj
        obtain ⟨f, rfl⟩ : ∃ f, fuel = f + 2 := ⟨fuel - 2, by omega⟩
        exact ⟨fun h => absurd h (bad_read hq xs hcar hs hx hf hr hb hps hbs hrr hrl hrp), fun h => absurd (h c) hno⟩

/-- `server_exact` in terms of the bytes on the wire. -/
theorem server_packets {q : Obs → Bool} {k fuel : Nat} {w : World} (hs : Hall k w) (hcar : Carrier w k) (hq : Deaf q) (es : List SrvEv) (xs : ConnId → List Packet)
    (hx : Brings q w k xs es) (hf : Fueled fuel w xs) (hr : Reads w es) (hb : ByteConns w es) :
    (Seen q w (runAll fuel es w).2 xs → ∀ c j, ∃ i, ((readsOn c es).take j).flatten = packets w k ((xs c).take i)) ∧
    ((∀ c j, ∃ i, ((readsOn c es).take j).flatten = packets w k ((xs c).take i)) → (runAll fuel es w).1 = .ok () → Seen q w (runAll fuel es w).2 xs) := by
  have hn := hs.pos
  have := server_exact hq (by have := hf 0; omega) es w xs hcar hs hx hf hr hb
  have hw : ∀ c i, packets w k ((xs c).take i) = stream (((xs c).map (parcel w k)).take i) := by
    intro c i
    rw [packets_stream hn hs.frames fun p h => (hx.ok c p (List.mem_of_mem_take h)).1, List.map_take]
  simp only [hw]
  exact this

/-- C103 for a server: one stack, one FrameDecoder, any number of connections, and between the reads the stack sends, its timers fire and connections
are closed, in any order.  If everything that was sent on every connection is delivered, each message once, in order and for its connection,
then every read ended at the end of a message; and if every read does and nothing crashed, everything is delivered. -/
theorem c103_server (w : World) (k : Nat) (hcar : Carrier w k) (hk : k + 1 < w.n)
    (hcodec : (w.procs k).kind = .bytesCodec ∨ (w.procs k).kind = .stringCodec)
    (hfr : Frames (w.procs (w.n - 1))) (honly : ∀ j, k < j → j < w.n - 1 → ¬ Frames (w.procs j))
    (es : List SrvEv) (hb : ∀ e ∈ es, (w.conns e.conn).useRef = false) (hr : ∀ c bs, SrvEv.read c bs ∈ es → bs ≠ [] ∧ (bs.length : Int) ≤ w.mtu)
    (xs : ConnId → List Item) (hx : ∀ c, ∀ x ∈ xs c, Message w k x.v x.b x.s ∧ findEndPoint w.served x.s = some x.ep)
    (hcut : ∀ c, (readsOn c es).flatten = wires w k (xs c)) (fuel : Nat) (hf : ∀ c, w.n + (xs c).length + 1 < fuel)
    (r : Res Unit) (w' : World) (hrun : runAll fuel es w = (r, w')) :
    ((∀ c, arrivalsOn c w'.trace = arrivalsOn c w.trace ++ rxs c (xs c)) → ∀ c j, ∃ i, ((readsOn c es).take j).flatten = wires w k ((xs c).take i)) ∧
    ((∀ c j, ∃ i, ((readsOn c es).take j).flatten = wires w k ((xs c).take i)) → r = .ok () →
      ∀ c, arrivalsOn c w'.trace = arrivalsOn c w.trace ++ rxs c (xs c)) := by
  have hh : Hall k w := ⟨hk, hcar.quiet, by
    have := hcar.codecOn
    generalize w.procs k = p at hcodec this ⊢
    obtain ⟨en, kd⟩ := p
    simp only at this hcodec
    subst this
    rcases hcodec with h | h <;> rw [h] <;> simp, hcar.opens, honly, hfr⟩
  have hw : ∀ ys : List Item, packets w k (ys.map .msg) = wires w k ys := by
    intro ys
    simp only [packets, wires, List.map_map]
    rfl
  have har : ∀ (c : ConnId) (ys : List Item), (ys.map Packet.msg).map (Packet.arrives c) = rxs c ys := by
    intro c ys
    simp only [rxs, List.map_map]
    rfl
  obtain ⟨h1, h2⟩ := server_packets hh hcar deaf_isRx es (fun c => (xs c).map .msg)
    ⟨fun c p hp => by
      obtain ⟨x, hxm, rfl⟩ := List.mem_map.mp hp
      exact ⟨hx c x hxm, rfl⟩, fun c => by rw [hw]; exact hcut c⟩
    (fun c => .inl (by rw [List.length_map]; exact hf c)) hr hb
  rw [hrun] at h1 h2
  simp only [Seen, signsOn_arrivals, har, ← List.map_take, hw] at h1 h2
  exact ⟨h1, h2⟩

/-! ### Examples: the stack `five` with two connections -/

/-- On connection 0 two messages were sent, on connection 1 one. -/
def twoClients : ConnId → List Item := fun c => if c = 0 then fiveItems else if c = 1 then [⟨.bytes [5], [5], 3, 7⟩] else []

theorem twoClients_ok : ∀ c, ∀ x ∈ twoClients c, Message five 0 x.v x.b x.s ∧ findEndPoint five.served x.s = some x.ep := by
  intro c x hx
  simp only [twoClients] at hx
  split at hx
  · exact fiveItems_ok x hx
  · split at hx
    · simp only [List.mem_cons, List.not_mem_nil, or_false] at hx
      subst hx
      exact ⟨five_message _ (by simp) (by simp), rfl⟩
    · cases hx

/-- The reads of the two connections interleaved, with a send, a control message and a closing in between. -/
def goodDay : List SrvEv := [.read 0 [0, 0, 0, 7, 0, 0, 0, 0, 0, 3, 9], .send 1 (.bytes [1, 2]) 3, .read 1 [0, 0, 0, 7, 0, 0, 0, 0, 0, 3, 5], .control 3 0 0x83,
  .close 1, .read 0 [0, 0, 0, 8, 0, 0, 0, 0, 0, 3, 8, 8]]

/-- The same bytes, but the first read of connection 0 ends inside its second message. -/
def badDay : List SrvEv := [.read 0 [0, 0, 0, 7, 0, 0, 0, 0, 0, 3, 9, 0, 0], .send 1 (.bytes [1, 2]) 3, .read 1 [0, 0, 0, 7, 0, 0, 0, 0, 0, 3, 5],
  .read 0 [0, 8, 0, 0, 0, 0, 0, 3, 8, 8]]

theorem twoClients_fuel : ∀ c, five.n + (twoClients c).length + 1 < 20 := by
  intro c
  simp only [twoClients]
  split
  · decide
  · split <;> decide

theorem goodDay_cut : ∀ c, (readsOn c goodDay).flatten = wires five 0 (twoClients c) := by
  intro c
  match c with
  | 0 => decide
  | 1 => decide
  | c + 2 => simp [readsOn, goodDay, allReads, twoClients, wires]

theorem badDay_cut : ∀ c, (readsOn c badDay).flatten = wires five 0 (twoClients c) := by
  intro c
  match c with
  | 0 => decide
  | 1 => decide
  | c + 2 => simp [readsOn, badDay, allReads, twoClients, wires]

theorem run_pair {α β : Type} (p : α × β) : p = (p.1, p.2) := rfl

theorem goodDay_runs : (runAll 20 goodDay five).1 = .ok () := by decide +kernel

/-- Everything arrives, each message for its own connection. -/
example : ∀ c, arrivalsOn c (runAll 20 goodDay five).2.trace = arrivalsOn c five.trace ++ rxs c (twoClients c) := by
  refine (c103_server five 0 five_carrier (by decide) (.inl rfl) five_sole.frames five_sole.only goodDay (fun _ _ => rfl) (by
    intro c bs h
    simp only [goodDay, List.mem_cons, SrvEv.read.injEq, List.not_mem_nil, or_false, reduceCtorEq, false_or] at h
    rcases h with ⟨_, rfl⟩ | ⟨_, rfl⟩ | ⟨_, rfl⟩ <;> decide) twoClients twoClients_ok goodDay_cut 20 twoClients_fuel (runAll 20 goodDay five).1 (runAll 20 goodDay five).2 (run_pair _)).2 ?_ goodDay_runs
  intro c j
  match c, j with
  | 0, 0 => exact ⟨0, by decide⟩
  | 0, 1 => exact ⟨1, by decide⟩
  | 0, j + 2 => exact ⟨2, by simp [readsOn, goodDay, allReads]; decide⟩
  | 1, 0 => exact ⟨0, by decide⟩
  | 1, j + 1 => exact ⟨1, by simp [readsOn, goodDay, allReads]; decide⟩
  | c + 2, j => exact ⟨0, by simp [readsOn, goodDay, allReads, wires]⟩

/-- Cut elsewhere: something is missing on some connection. -/
example : ¬ ∀ c, arrivalsOn c (runAll 20 badDay five).2.trace = arrivalsOn c five.trace ++ rxs c (twoClients c) := by
  intro h
  obtain ⟨i, hi⟩ := (c103_server five 0 five_carrier (by decide) (.inl rfl) five_sole.frames five_sole.only badDay (fun _ _ => rfl) (by
    intro c bs h
    simp only [badDay, List.mem_cons, SrvEv.read.injEq, List.not_mem_nil, or_false, reduceCtorEq, false_or] at h
    rcases h with ⟨_, rfl⟩ | ⟨_, rfl⟩ | ⟨_, rfl⟩ <;> decide) twoClients twoClients_ok badDay_cut 20 twoClients_fuel (runAll 20 badDay five).1 (runAll 20 badDay five).2 (run_pair _)).1 h 0 1
  match i, hi with
  | 0, hi => revert hi; decide
  | 1, hi => revert hi; decide
  | i + 2, hi =>
    rw [show (twoClients 0).take (i + 2) = fiveItems by simp [twoClients, fiveItems]] at hi
    revert hi; decide

end Verif.Stack
