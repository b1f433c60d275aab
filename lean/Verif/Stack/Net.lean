import Verif.Trace
import Verif.Stack.Turn

/-!
# A network of stacks (C74)

Any number of running stacks whose byte connections are joined in pairs.  Each stack sends application
messages and heartbeats on its connections and reads what arrives on them, in any interleaving.

A connection is a queue of bytes: what a stack writes is appended (ordered and lossless, as TCP and Unix
sockets give it), a read takes any number of bytes from the front.
-/

namespace Verif.Stack
open UBuf GoM Trace

/-! ## What travels -/

/-- An application message, or the heartbeat of the Heartbeat processor at position `h`. -/
inductive Packet where
  | msg (x : Item)
  | beat (h : Nat)

/-- The call that sends it (`send` is the endpoint's, `sendControl` the goroutine of proc_heartbeat.go:139-170). -/
def Packet.send (fuel : Nat) (c : ConnId) : Packet → GoM World Unit
  | .msg x => Stack.send fuel (some c) x.v x.s
  | .beat h => sendControl fuel h c 0x83

/-- Its bytes on the wire: every processor below its origin has put its header in front. -/
def Packet.bytes (w : World) (k : Nat) : Packet → List Byte
  | .msg x => wire w k x.s x.b
  | .beat h => wrap (seg w (h + 1) (w.n - (h + 1))) 0 [0x83]

/-- What its arrival on connection `c` means: a delivery to the endpoint, or a sign of life for the monitor. -/
def Packet.arrives (c : ConnId) : Packet → Obs
  | .msg x => .rx x.ep (some c) x.v
  | .beat h => .beat h (some c)

/-- What stack `a` may send to stack `b`: a message `a` can carry for a session `b` serves; a heartbeat if there
is a Heartbeat processor, and room for one byte. -/
def Packet.Ok (a b : World) (k : Nat) : Packet → Prop
  | .msg x => Message a k x.v x.b x.s ∧ findEndPoint b.served x.s = some x.ep
  | .beat h => k < h ∧ h < a.n ∧ (a.procs h).kind = .heartbeat ∧ a.overhead < a.mtu

def packets (w : World) (k : Nat) (ps : List Packet) : List Byte := (ps.map (Packet.bytes w k)).flatten

theorem packets_append (w : World) (k : Nat) (ps qs : List Packet) : packets w k (ps ++ qs) = packets w k ps ++ packets w k qs := by
  simp [packets]

theorem Packet.bytes_moved {w w' : World} {o : List Obs} (hm : Moved o w w') (k : Nat) (p : Packet) : p.bytes w' k = p.bytes w k := by
  cases p with
  | msg x => exact wire_moved hm k x.s x.b
  | beat h => simp only [Packet.bytes, hm.n, wrap_same hm.same]

theorem packets_moved {w w' : World} {o : List Obs} (hm : Moved o w w') (k : Nat) (ps : List Packet) : packets w' k ps = packets w k ps := by
  simp only [packets]
  congr 1
  exact List.map_congr_left fun p _ => p.bytes_moved hm k

theorem Packet.bytes_matching {a b : World} (h : Matching a b) {k : Nat} (hk : k < a.n) (p : Packet) (hp : ∀ x, p = .beat x → x < a.n) :
    p.bytes b k = p.bytes a k := by
  cases p with
  | msg x => exact h.wire hk x.s x.b
  | beat x =>
    have := hp x rfl
    simp only [Packet.bytes, h.n]
    exact wrap_same_below _ _ (fun j h1 h2 => h.same j (by omega)) 0 [0x83]

theorem Packet.Ok.bytes_ne {a b : World} {k : Nat} {p : Packet} (h : p.Ok a b k) : p.bytes a k ≠ [] := by
  cases p with
  | msg x => exact wrap_ne _ _ h.1.ne
  | beat x => exact wrap_ne _ _ (by simp)

theorem Packet.Ok.lt {a b : World} {k : Nat} {p : Packet} (h : p.Ok a b k) : ∀ x, p = .beat x → x < a.n := by
  intro x e; subst e; exact h.2.1

theorem heartbeat_same {p q : Proc} (h : SameProc p q) (hp : p.kind = .heartbeat) : q.kind = .heartbeat := by
  have h2 := h.2
  rw [hp] at h2
  cases hk : q.kind <;> rw [hk] at h2 <;> simp_all [Kind.Same]

theorem Packet.Ok.moved {a b a' b' : World} {k : Nat} {p : Packet} {o o' : List Obs} (h : p.Ok a b k) (ha : Moved o a a')
    (hb : Moved o' b b') : p.Ok a' b' k := by
  cases p with
  | msg x => exact ⟨h.1.moved ha, by rw [hb.served]; exact h.2⟩
  | beat x =>
    obtain ⟨h1, h2, h3, h4⟩ := h
    exact ⟨h1, by rw [ha.n]; exact h2, heartbeat_same (ha.same x) h3, by rw [ha.overhead, ha.mtu]; exact h4⟩

/-- The receiver's view of a packet the sender may send. -/
theorem Packet.Ok.received {a b : World} {k : Nat} {p : Packet} (h : p.Ok a b k) (hmat : Matching a b) (ha : Carrier a k) (hb : Carrier b k) :
    p.Ok b b k := by
  cases p with
  | msg x => exact ⟨hmat.message ha.pos ha.built hb.built h.1, h.2⟩
  | beat x =>
    obtain ⟨h1, h2, h3, h4⟩ := h
    exact ⟨h1, by rw [hmat.n]; exact h2, heartbeat_same (hmat.same x h2) h3, by rw [hmat.overhead ha.built hb.built, hmat.mtu]; exact h4⟩

/-! ## Sending -/

theorem room_heartbeat {w : World} {h m : Nat} (hk : (w.procs h).kind = .heartbeat) :
    room (seg w h (m + 1)) = 1 + room (seg w (h + 1) m) := by
  rw [seg_succ, room, hk]; rfl

theorem beat_shape (w : World) (k h : Nat) (hopens : ∀ j, k < j → j < w.n → Opens (w.procs j)) (hbuilt : Built w) (h1 : k < h) (h2 : h < w.n) (hk : (w.procs h).kind = .heartbeat)
    (hroom : w.overhead < w.mtu) (c : ConnId) (hbytes : (w.conns c).useRef = false) (hopen : (w.conns c).closed = false)
    (hw : ∀ t p, (w.write t c p).err = none ∧ (w.write t c p).n ≤ p.length) (fuel : Nat) (hf : w.n < fuel) :
    ∃ w', sendControl fuel h c 0x83 w = (.ok (), w') ∧
      Moved [.wire c (Packet.bytes w k (.beat h)) (w.write w.trace c (Packet.bytes w k (.beat h)))] w w' := by
  have hov := hbuilt.ov
  obtain ⟨s0, a1, a2⟩ := allocBuf_ok w.mtu w.overhead w (by omega) (by omega) (by omega)
  obtain ⟨s1, a3, a4⟩ := a2.writeByte 0x83 (by simp [Deque.tail, Deque.fresh]; omega)
  obtain ⟨f, rfl⟩ : ∃ f, fuel = f + 1 + (w.n - (h + 1)) := ⟨fuel - 1 - (w.n - (h + 1)), by omega⟩
  have hrm := hbuilt.room_le (a := h) (m := w.n - (h + 1) + 1) (by omega)
  rw [room_heartbeat hk] at hrm
  have hwl := wrap_length (seg w (h + 1) (w.n - (h + 1))) 0 [0x83]
  have hhead : ((Deque.fresh w.mtu.toNat w.overhead.toNat).push [0x83]).head = w.overhead.toNat := rfl
  have hcont : ((Deque.fresh w.mtu.toNat w.overhead.toNat).push [0x83]).content = [0x83] := rfl
  obtain ⟨s2, w1, m1, g1, e1, d1⟩ := segment_down (w.n - (h + 1)) (h + 1) (f + 1) { Ctx.new with conn := some c, buf := some s1 } w s1 _
    (by omega) (fun j j1 j2 => (hopens j (by omega) (by omega)).passes) ⟨c, rfl, hbytes⟩ rfl a4 (by
      rw [hhead, hcont]
      have : sessionOf ({ Ctx.new with conn := some c, buf := some s1 } : Ctx) = 0 := rfl
      rw [this]
      simp only [List.length_cons, List.length_nil] at hwl ⊢
      omega)
  have e1' : data s2 = Packet.bytes w k (.beat h) := e1
  have hb2 := Buf.of_good g1
  have hc2 : (view s2).content = Packet.bytes w k (.beat h) := e1'
  obtain ⟨s3, r3⟩ := lowerDeckUpper_ok (w := w1) (ctx := { Ctx.new with conn := some c, buf := some s2 }) (c := c) rfl
    (by rw [m1.conns]; exact hbytes) (by rw [m1.conns]; exact hopen) rfl hb2 (by rw [hc2]; exact wrap_ne _ _ (by simp))
    (by rw [m1.write]; exact (hw _ _).1) (by rw [m1.write]; exact (hw _ _).2)
  rw [show h + 1 + (w.n - (h + 1)) + 1 = w1.n + 1 by rw [m1.n]; omega, call_bottom] at d1
  have d2 := d1.trans r3
  refine ⟨w1.wrote c (view s2).content, ?_, ?_⟩
  · simp only [sendControl]
    rw [bind_of_ok (get_apply w), bind_of_ok a1, bind_onBuf a3, bind_of_ok d2]
    rfl
  · have m2 := m1.trans (Moved.obs w1 [.wire c (view s2).content (w1.write w1.trace c (view s2).content)])
    simp only [List.nil_append, hc2, m1.write, m1.trace, List.append_nil] at m2
    simp only [World.wrote, hc2, m1.write, m1.trace, List.append_nil]
    exact m2

/-- A heartbeat goes out in one write. -/
theorem beat_on_the_wire (w : World) (k h : Nat) (hcar : Carrier w k) (h1 : k < h) (h2 : h < w.n) (hk : (w.procs h).kind = .heartbeat)
    (hroom : w.overhead < w.mtu) (c : ConnId) (hbytes : (w.conns c).useRef = false) (hopen : (w.conns c).closed = false)
    (hw : ∀ t p, (w.write t c p).err = none ∧ (w.write t c p).n ≤ p.length) (fuel : Nat) (hf : w.n < fuel) :
    ∃ w', sendControl fuel h c 0x83 w = (.ok (), w') ∧
      Moved [.wire c (Packet.bytes w k (.beat h)) (w.write w.trace c (Packet.bytes w k (.beat h)))] w w' :=
  beat_shape w k h hcar.opens hcar.built h1 h2 hk hroom c hbytes hopen hw fuel hf

/-- Every packet goes out in one write of its bytes. -/
theorem packet_on_the_wire (w b : World) (k : Nat) (hcar : Carrier w k) (p : Packet) (hp : p.Ok w b k)
    (c : ConnId) (hbytes : (w.conns c).useRef = false) (hopen : (w.conns c).closed = false)
    (hw : ∀ t q, (w.write t c q).err = none ∧ (w.write t c q).n ≤ q.length) (fuel : Nat) (hf : w.n < fuel) :
    ∃ w', p.send fuel c w = (.ok (), w') ∧ Moved [.wire c (p.bytes w k) (w.write w.trace c (p.bytes w k))] w w' := by
  cases p with
  | msg x => exact c20_on_the_wire_partial w k hcar x.v x.b x.s hp.1 c hbytes hopen (hw _ _).1 (hw _ _).2 fuel hf
  | beat h => exact beat_on_the_wire w k h hcar hp.1 hp.2.1 hp.2.2.1 hp.2.2.2 c hbytes hopen hw fuel hf

/-! ## Receiving -/

/-- What is needed to receive a packet from position `k + 1 + m` upwards. -/
structure Takes (w : World) (k m : Nat) (p : Packet) : Prop where
  n : k + 1 + m ≤ w.n
  quiet : ∀ j, j < k → Quiet (w.procs j)
  codecOn : (w.procs k).enable = true
  opens : ∀ j, k < j → j < w.n → Opens (w.procs j)
  idle : ∀ j, k < j → j < k + 1 + m → Frames (w.procs j) → Idle j w
  built : Built w
  mtu : w.mtu < 2 ^ 32
  ok : p.Ok w w k
  beat : ∀ h, p = .beat h → h < k + 1 + m

/-- Its bytes at that position. -/
def Packet.at (w : World) (k m : Nat) : Packet → List Byte
  | .msg x => wrap (seg w (k + 1) m) x.s x.b
  | .beat h => wrap (seg w (h + 1) (k + m - h)) 0 [0x83]

theorem Takes.moved {w w' : World} {k m : Nat} {p : Packet} {o : List Obs} (h : Takes w k m p) (hm : Moved o w w') : Takes w' k m p := by
  refine ⟨by rw [hm.n]; exact h.n, fun j hj => (hm.same j).quiet (h.quiet j hj), by rw [(hm.same k).1]; exact h.codecOn,
    fun j h1 h2 => (hm.same j).opens (h.opens j h1 (by rw [← hm.n]; exact h2)),
    fun j h1 h2 h3 => hm.idle j (h.idle j h1 h2 ((hm.same j).frames h3)), ?_, by rw [hm.mtu]; exact h.mtu, h.ok.moved hm hm, h.beat⟩
  rw [Built, hm.overhead, hm.n, room_same hm.same]
  exact h.built

theorem setKind_same_proc {w : World} {i : Nat} {c0 : Option St} (hk : (w.procs i).kind = .frame c0) (c : Option St) (j : Nat) :
    SameProc (w.procs j) ((w.setKind i (.frame c)).procs j) := by
  by_cases e : j = i
  · subst e; rw [setKind_self]; exact ⟨rfl, by rw [hk]; trivial⟩
  · simp only [World.setKind, if_neg e]; exact .refl _

theorem Takes.setCache {w : World} {k m : Nat} {p : Packet} {c0 : Option St} (h : Takes w k m p)
    (hk : (w.procs (k + 1 + m)).kind = .frame c0) (c : Option St) : Takes (w.setKind (k + 1 + m) (.frame c)) k m p := by
  have hne : ∀ j, j < k + 1 + m → (w.setKind (k + 1 + m) (.frame c)).procs j = w.procs j := by
    intro j hj; simp only [World.setKind, if_neg (show j ≠ k + 1 + m by omega)]
  have hsame := setKind_same_proc hk c
  refine ⟨h.n, fun j hj => (hsame j).quiet (h.quiet j hj), by rw [(hsame k).1]; exact h.codecOn,
    fun j h1 h2 => (hsame j).opens (h.opens j h1 h2), fun j h1 h2 h3 => ?_, ?_, h.mtu, ?_, h.beat⟩
  · obtain ⟨cc, h4, h5⟩ := h.idle j h1 h2 ((hsame j).frames h3)
    exact ⟨cc, by rw [hne j h2]; exact h4, h5⟩
  · show w.overhead = room (seg (w.setKind (k + 1 + m) (.frame c)) 0 w.n)
    rw [room_same hsame]; exact h.built
  · cases p with
    | msg x =>
      obtain ⟨⟨h1, h2, h3, h4, h5, h6⟩, h7⟩ := h.ok
      refine ⟨⟨by rw [hne k (by omega)]; exact h1, h2, h3, h4, h5, ?_⟩, h7⟩
      rcases h6 with ⟨j, j1, j2, j3⟩ | h6
      · exact .inl ⟨j, j1, j2, (hsame j).resolves j3⟩
      · exact .inr h6
    | beat x =>
      obtain ⟨h1, h2, h3, h4⟩ := h.ok
      exact ⟨h1, h2, heartbeat_same (hsame x) h3, h4⟩

theorem Packet.at_same {w w' : World} (h : ∀ j, SameProc (w.procs j) (w'.procs j)) (k m : Nat) (p : Packet) : p.at w' k m = p.at w k m := by
  cases p <;> simp only [Packet.at, wrap_same h]

theorem Takes.small {w : World} {k m : Nat} {p : Packet} (h : Takes w k m p) : (p.at w k m).length < 2 ^ 32 := by
  have hn := h.n
  have hmtu := h.mtu
  cases p with
  | msg x =>
    have h1 := wrap_length (seg w (k + 1) m) x.s x.b
    have h2 := h.built.room_le (a := k + 1) (m := m) hn
    have h3 := h.ok.1.fit
    simp only [Packet.at]; omega
  | beat x =>
    have hx := h.beat x rfl
    have h1 := wrap_length (seg w (x + 1) (k + m - x)) 0 [0x83]
    have h2 := h.built.room_le (a := x) (m := k + m - x + 1) (by omega)
    rw [room_heartbeat h.ok.2.2.1] at h2
    have h3 := h.ok.2.2.2
    simp only [Packet.at, List.length_cons, List.length_nil] at h1 ⊢; omega

/-- A packet on its way up from position `k + 1 + m` arrives. -/
theorem packet_up (k m : Nat) (p : Packet) (fuel : Nat) (ctx : Ctx) (w : World) (ht : Takes w k m p) (c : ConnId)
    (hc : ctx.conn = some c) (hby : (w.conns c).useRef = false) (hcar : Carries ctx (p.at w k m))
    (hsess : (∃ j, k < j ∧ j < k + 1 + m ∧ Resolves (w.procs j)) ∨ (sessionOf ctx = 0 ∧ ∀ x, p = .msg x → x.s = 0))
    (hf : k + m + 2 < fuel) :
    ∃ ctx' w', call fuel .up (k + 1 + m) ctx w = (.ok ctx', w') ∧ Moved [p.arrives c] w w' ∧ ctx'.conn = some c ∧
      ((∃ j, k < j ∧ j < k + 1 + m ∧ Resolves (w.procs j)) ∨ sessionOf ctx' = 0) := by
  have hn := ht.n
  have hsm := ht.small
  cases p with
  | msg x =>
    obtain ⟨hm, hep⟩ := ht.ok
    obtain ⟨ctx', w', a1, a2, a3, a4, _⟩ := segment_up k x.v x.b x.s x.ep hm.ne m fuel ctx w
      ⟨hn, ht.quiet, ht.codecOn, hm.codec, ht.opens, ht.idle, ht.built.ov, hm.fit, hsm, hep⟩ ⟨c, hc, hby⟩ hcar hm.lo hm.hi
      (by rcases hsess with h | ⟨h, h'⟩
          · exact .inl h
          · exact .inr (by rw [h' x rfl]; exact h)) hf
    refine ⟨ctx', w', a1, by rw [hc] at a2; exact a2, a3.trans hc, ?_⟩
    rcases hsess with h | ⟨h, h'⟩
    · exact .inl h
    · exact .inr (by rw [a4]; exact h' x rfl)
  | beat h =>
    have hlt := ht.beat h rfl
    obtain ⟨hkh, hhn, hk, hov⟩ := ht.ok
    obtain ⟨m', hm'⟩ : ∃ m', m' = k + m - h := ⟨_, rfl⟩
    simp only [Packet.at, ← hm'] at hcar hsm
    have hpos : h + 1 + m' = k + 1 + m := by omega
    obtain ⟨f, rfl⟩ : ∃ f, fuel = f + 2 + m' := ⟨fuel - 2 - m', by omega⟩
    obtain ⟨ctx1, w1, m1, car1, conn1, ses1, _, up1⟩ := segment_open 0 [0x83] (by simp) (h + 1) m' (f + 2) ctx w (by omega)
      (by omega) (fun j h1 h2 => ht.opens j (by omega) (by omega)) (fun j h1 h2 => ht.idle j (by omega) (by omega)) ⟨c, hc, hby⟩ hcar hsm
    obtain ⟨s1, d1, b1, b2, b3⟩ := car1.buf
    obtain ⟨s2, _, r2⟩ := heartbeatLower_beat (ctx := ctx1) (w := w1) h (c := c) (conn1.trans hc) (by rw [m1.conns]; exact hby) b1 b2 b3
    have hk1 : (w1.procs h).kind = .heartbeat := heartbeat_same (m1.same h) hk
    have hcall : call (f + 2) .up (h + 1) ctx1 w1 = (.ok { ctx1 with buf := some s2 }, { w1 with trace := w1.trace ++ [.beat h (some c)] }) := by
      rw [call_up (by rw [m1.n]; omega)]
      have : w1.procs h = ⟨(w1.procs h).enable, .heartbeat⟩ := by rw [← hk1]
      rw [this]
      exact r2 _
    obtain ⟨w2, u1, u2⟩ := up1 [.beat h (some c)] _ _ hcall (Moved.obs w1 _)
    rw [hpos] at u1
    refine ⟨_, w2, u1, u2, conn1.trans hc, ?_⟩
    rcases ses1 with ⟨⟨j, j1, j2, j3⟩, _⟩ | ⟨_, hs⟩
    · exact .inl ⟨j, by omega, by omega, j3⟩
    · rcases hsess with h | ⟨h, _⟩
      · exact .inl h
      · exact .inr (hs.trans h)

theorem feeds_packets (k m fuel : Nat) (c : ConnId) (cc : St) (hg : Good cc) (hd : data cc = []) (hf : k + m + 2 < fuel)
    (pay : Packet → List Byte) (ps : List Packet) :
    ∀ (ctx : Ctx) (w w' : World) (r : Res Ctx), Feeds (call fuel .up (k + 1 + m)) (k + 1 + m) (.ok ()) (ps.map pay) ctx w r w' →
    (∃ c0, (w.procs (k + 1 + m)).kind = .frame c0) → (∀ p ∈ ps, Takes w k m p ∧ pay p = p.at w k m) →
    ctx.conn = some c → (w.conns c).useRef = false →
    ((∃ j, k < j ∧ j < k + 1 + m ∧ Resolves (w.procs j)) ∨ (sessionOf ctx = 0 ∧ ∀ p ∈ ps, ∀ x, p = .msg x → x.s = 0)) →
    (∃ ctx', r = .ok ctx') ∧
      Moved (ps.map (Packet.arrives c)) (w.setKind (k + 1 + m) (.frame (some cc))) (w'.setKind (k + 1 + m) (.frame (some cc))) := by
  induction ps with
  | nil =>
    intro ctx w w' r h ⟨c0, hk⟩ _ _ _ _
    cases h with
    | done _ _ b c1 _ => exact ⟨⟨_, rfl⟩, by rw [setKind_setKind]; exact .refl _⟩
    | panic _ _ _ he => cases he
    | running _ _ _ he => cases he
  | cons x xs ih =>
    intro ctx w w' r h ⟨c0, hk⟩ hall hc hby hsess
    obtain ⟨htx, hpay⟩ := hall x (by simp)
    have hsame := fun c1 => setKind_same_proc hk c1
    have one : ∀ s c1, Good s → data s = pay x → ∃ ctx1 w1,
        call fuel .up (k + 1 + m) { ctx with buf := some s } (w.setKind (k + 1 + m) (.frame c1)) = (.ok ctx1, w1) ∧
        Moved [x.arrives c] (w.setKind (k + 1 + m) (.frame c1)) w1 ∧ ctx1.conn = some c ∧
        ((∃ j, k < j ∧ j < k + 1 + m ∧ Resolves (w.procs j)) ∨ sessionOf ctx1 = 0) := by
      intro s c1 h1 h2
      obtain ⟨ctx1, w1, a1, a2, a3, a4⟩ := packet_up k m x fuel { ctx with buf := some s } _ (htx.setCache hk c1) c hc hby
        ⟨s, rfl, h1, by rw [h2, hpay, Packet.at_same (hsame c1)]⟩ (by
          rcases hsess with ⟨j, j1, j2, j3⟩ | ⟨h, h'⟩
          · exact .inl ⟨j, j1, j2, (hsame c1 j).resolves j3⟩
          · exact .inr ⟨h, h' x (by simp)⟩) hf
      refine ⟨ctx1, w1, a1, a2, a3, ?_⟩
      rcases hsess with h | _
      · exact .inl h
      · rcases a4 with ⟨j, j1, j2, j3⟩ | h
        · exact .inl ⟨j, j1, j2, SameProc.resolves ⟨(hsame c1 j).1.symm, (hsame c1 j).2.symm⟩ j3⟩
        · exact .inr h
    cases h with
    | @step _ _ _ _ s c1 ctx1 w1 _ _ h1 h2 h3 h4 =>
      obtain ⟨ctx1', w1', a1, a2, a3, a4⟩ := one s c1 h1 h2
      rw [h3] at a1
      cases a1
      have hsame1 : ∀ j, SameProc (w.procs j) (w1.procs j) := fun j => (hsame c1 j).trans (a2.same j)
      have hk1 : ∃ c0, (w1.procs (k + 1 + m)).kind = .frame c0 := by
        have := (hsame1 (k + 1 + m)).2
        rw [hk] at this
        cases hkk : (w1.procs (k + 1 + m)).kind <;> rw [hkk] at this <;> simp_all [Kind.Same]
      obtain ⟨b1, b2⟩ := ih ctx1 w1 w' r h4 hk1 (fun y hy => by
          obtain ⟨y1, y2⟩ := hall y (by simp [hy])
          exact ⟨(y1.setCache hk c1).moved a2, by rw [y2, Packet.at_same hsame1]⟩) a3
        (by rw [a2.conns]; exact hby) (by
          rcases hsess with ⟨j, j1, j2, j3⟩ | ⟨h, h'⟩
          · exact .inl ⟨j, j1, j2, (hsame1 j).resolves j3⟩
          · rcases a4 with ⟨j, j1, j2, j3⟩ | h0
            · exact .inl ⟨j, j1, j2, (hsame1 j).resolves j3⟩
            · exact .inr ⟨h0, fun y hy => h' y (by simp [hy])⟩)
      exact ⟨b1, (a2.renorm hk hg hd).trans b2⟩
    | @stepPanic _ _ _ _ s c1 w1 h1 h2 h3 =>
      obtain ⟨ctx1', w1', a1, _⟩ := one s c1 h1 h2
      rw [h3] at a1; cases a1
    | @stepRunning _ _ _ _ s c1 w1 h1 h2 h3 =>
      obtain ⟨ctx1', w1', a1, _⟩ := one s c1 h1 h2
      rw [h3] at a1; cases a1

theorem Carrier.takes {w : World} {k m : Nat} (h : Carrier w k) {p : Packet} (hp : p.Ok w w k) (hm : k + 1 + m ≤ w.n)
    (hb : ∀ x, p = .beat x → x < k + 1 + m) : Takes w k m p :=
  ⟨hm, h.quiet, h.codecOn, h.opens, fun j h1 h2 => h.idle j h1 (by omega), h.built, h.mtu, hp, hb⟩

theorem Packet.at_bottom {w : World} {k : Nat} (hk : k < w.n) (p : Packet) (hb : ∀ x, p = .beat x → x < w.n) :
    p.at w k (w.n - (k + 1)) = p.bytes w k := by
  cases p with
  | msg x => rfl
  | beat x =>
    have := hb x rfl
    simp only [Packet.at, Packet.bytes]
    rw [show k + (w.n - (k + 1)) - x = w.n - (x + 1) by omega]

theorem Packet.session_zero {w : World} {k : Nat} (h : ¬ ∃ j, k < j ∧ j < w.n ∧ Resolves (w.procs j)) {p : Packet} (hp : p.Ok w w k) :
    ∀ x, p = .msg x → x.s = 0 := by
  intro x e
  subst e
  rcases hp.1.session with h' | h'
  · exact absurd h' h
  · exact h'

/-- One packet in one read. -/
theorem receive_packet (w : World) (k : Nat) (hcar : Carrier w k) (p : Packet) (hp : p.Ok w w k) (c : ConnId)
    (hbytes : (w.conns c).useRef = false) (hfit : ((p.bytes w k).length : Int) ≤ w.mtu) (fuel : Nat) (hf : w.n + 1 < fuel) :
    ∃ w', receive fuel c (p.bytes w k) w = (.ok (), w') ∧ Moved [p.arrives c] w w' := by
  have hk := hcar.pos
  obtain ⟨ub, h1, h2⟩ := receive_ok (c := c) (w := w) hp.bytes_ne hfit
  have hn : k + 1 + (w.n - (k + 1)) = w.n := by omega
  obtain ⟨ctx', w', a1, a2, _⟩ := packet_up k (w.n - (k + 1)) p fuel { Ctx.new with conn := some c, buf := some ub } w
    (hcar.takes hp (by omega) (by rw [hn]; exact hp.lt)) c rfl hbytes ⟨ub, rfl, h1.1, by rw [h1.data, Packet.at_bottom hk p hp.lt]⟩ (by
      by_cases hres : ∃ j, k < j ∧ j < k + 1 + (w.n - (k + 1)) ∧ Resolves (w.procs j)
      · exact .inl hres
      · exact .inr ⟨rfl, Packet.session_zero (by rw [hn] at hres; exact hres) hp⟩) (by omega)
  rw [hn] at a1
  refine ⟨w', ?_, a2⟩
  rw [h2, bind_of_ok a1]
  rfl

/-- Any number of packets in one read, if the lowest processor is a FrameDecoder. -/
theorem receive_packets (w : World) (k : Nat) (hcar : Carrier w k) (hk1 : k + 1 < w.n) (hfr : Frames (w.procs (w.n - 1)))
    (ps : List Packet) (hps : ps ≠ []) (hok : ∀ p ∈ ps, p.Ok w w k) (c : ConnId) (hbytes : (w.conns c).useRef = false)
    (hfit : ((packets w k ps).length : Int) ≤ w.mtu) (fuel : Nat) (hf : w.n + ps.length + 1 < fuel) :
    ∃ w', receive fuel c (packets w k ps) w = (.ok (), w') ∧ Moved (ps.map (Packet.arrives c)) w w' := by
  obtain ⟨m, hn⟩ : ∃ m, w.n = k + 1 + m + 1 := ⟨w.n - k - 2, by omega⟩
  have hlast : w.n - 1 = k + 1 + m := by omega
  rw [hlast] at hfr
  have hp : w.procs (k + 1 + m) = ⟨true, (w.procs (k + 1 + m)).kind⟩ := by rw [← hfr.2]
  obtain ⟨c0, hk0⟩ := hfr.1
  have hbeat : ∀ p ∈ ps, ∀ x, p = .beat x → x < k + 1 + m := by
    intro p hp x e
    have h1 := (hok p hp).lt x e
    have h2 := hok p hp
    subst e
    have : x ≠ k + 1 + m := by intro e; subst e; have h3 := h2.2.2.1; rw [hk0] at h3; exact absurd h3 (by simp)
    omega
  have hframe : ∀ p ∈ ps, p.bytes w k = frameOf (p.at w k m) := by
    intro p hp
    cases p with
    | msg x =>
      simp only [Packet.bytes, Packet.at, wire]
      rw [show w.n - (k + 1) = m + 1 by omega, seg_snoc, wrap_snoc, frames_hdr hfr]
      simp [stream]
    | beat x =>
      have := hbeat _ hp x rfl
      simp only [Packet.bytes, Packet.at]
      rw [show w.n - (x + 1) = k + m - x + 1 by omega, seg_snoc, show x + 1 + (k + m - x) = k + 1 + m by omega, wrap_snoc, frames_hdr hfr]
      simp [stream]
  have hstream : packets w k ps = stream (ps.map (Packet.at w k m)) := by
    rw [packets, stream, List.map_map]
    congr 1
    exact List.map_congr_left fun x hx => hframe x hx
  have hne : packets w k ps ≠ [] := by
    cases ps with
    | nil => exact absurd rfl hps
    | cons p ps =>
      intro h
      simp only [packets, List.map_cons, List.flatten_cons, List.append_eq_nil_iff] at h
      exact (hok p (by simp)).bytes_ne h.1
  have hat : ∀ p ∈ ps, p.at w k m ≠ [] := by
    intro p hp
    have := hok p hp
    cases p with
    | msg x => exact wrap_ne _ _ this.1.ne
    | beat x => exact wrap_ne _ _ (by simp)
  obtain ⟨ub, h1, h2⟩ := receive_ok (c := c) (w := w) hne hfit
  obtain ⟨f, rfl⟩ : ∃ f, fuel = f + 1 := ⟨fuel - 1, by omega⟩
  have how : OneWay (k + 1 + m) w := by
    refine ⟨⟨c0, hk0⟩, fun j h1 h2 e => ?_⟩
    have := hcar.opens j (by omega) h2
    simp [Opens, e] at this
  have hidle := hcar.idle (k + 1 + m) (by omega) (by omega) hfr
  have hsmall : (packets w k ps).length < 2 ^ 32 := by have := hcar.mtu; omega
  obtain ⟨r, w', a1, a2, a3⟩ := c22_coalesced (k + 1 + m) f (nbAt f (k + 1 + m + 1)) (OneWay (k + 1 + m))
    (by exact calm_above (k + 1 + m) f) { Ctx.new with conn := some c, buf := some ub } w how (ps.map (Packet.at w k m))
    (by intro p hp; simp only [List.mem_map] at hp; obtain ⟨x, hx, rfl⟩ := hp; exact hat x hx)
    ⟨c, rfl, hbytes⟩ ⟨ub, rfl, h1.1, by rw [h1.data, ← hstream]⟩ (by rw [← hstream]; exact hsmall) hidle (by simp; omega)
  have hidle0 := hidle
  obtain ⟨cc, g1, g2, g3⟩ := hidle0
  obtain ⟨⟨ctx', b1⟩, b2⟩ := feeds_packets k m f c cc g2 g3 (by omega) (Packet.at w k m) ps _ w w' r a2 ⟨c0, hk0⟩
    (fun p hp => ⟨hcar.takes (hok p hp) (by omega) (hbeat p hp), rfl⟩) rfl hbytes (by
      by_cases hres : ∃ j, k < j ∧ j < k + 1 + m ∧ Resolves (w.procs j)
      · exact .inl hres
      · refine .inr ⟨rfl, fun p hp => Packet.session_zero ?_ (hok p hp)⟩
        rintro ⟨j, j1, j2, j3⟩
        have : j ≠ k + 1 + m := by
          intro e; subst e; rw [Resolves, hk0] at j3; exact absurd j3.1 (by simp)
        exact hres ⟨j, j1, by omega, j3⟩)
  obtain ⟨hinv, hidle'⟩ := a3 ctx' b1
  obtain ⟨⟨c2, hk2⟩, _⟩ := hinv
  refine ⟨w', ?_, b2.denorm hk0 hk2 hidle'⟩
  have hcall : call (f + 1) .up w.n { Ctx.new with conn := some c, buf := some ub } w = (.ok ctx', w') := by
    rw [hn, call_up (by omega), hp, a1, b1]
  rw [h2, bind_of_ok hcall]
  rfl

/-! ## The network -/

/-- The stacks, and for every connection of every stack the bytes it has written that the other end has not read. -/
structure Net where
  world : Nat → World
  stream : Nat → ConnId → List Byte

/-- What can happen: stack `i` sends a packet on its connection `c`; the other end of connection `c` of stack `i` reads `n` bytes. -/
inductive NetLabel where
  | put (i : Nat) (c : ConnId) (p : Packet)
  | read (i : Nat) (c : ConnId) (n : Nat)

/-- Stack `i` has become `w`; what it wrote meanwhile is on its way. -/
def Net.after (s : Net) (i : Nat) (w : World) : Net where
  world := fun j => if j = i then w else s.world j
  stream := fun j c => if j = i then s.stream j c ++ sentBytes c (w.trace.drop (s.world i).trace.length) else s.stream j c

/-- The first `n` bytes have been read. -/
def Net.took (s : Net) (i : Nat) (c : ConnId) (n : Nat) : Net where
  world := s.world
  stream := fun i' c' => if i' = i ∧ c' = c then (s.stream i c).drop n else s.stream i' c'

/-- One action.  A call that does not return normally (a panic ends the process) has no successor. -/
def netStep (fuel : Nat) (peer : Nat → ConnId → Option (Nat × ConnId)) (s : Net) : NetLabel → Option Net
  | .put i c p =>
    match p.send fuel c (s.world i) with
    | (.ok _, w) => some (s.after i w)
    | _ => none
  | .read i c n =>
    match peer i c with
    | none => none
    | some (j, d) =>
      match receive fuel d ((s.stream i c).take n) (s.world j) with
      | (.ok _, w) => some ((s.took i c n).after j w)
      | _ => none

/-- The packets sent on a connection, in order. -/
def putOn (i : Nat) (c : ConnId) (ls : List NetLabel) : List Packet :=
  ls.filterMap fun l => match l with
    | .put i' c' p => if i' = i ∧ c' = c then some p else none
    | .read .. => none

/-- What a stack has observed on a connection apart from its own writes. -/
def seenOn (c : ConnId) (t : List Obs) : List Obs :=
  t.filter fun o => match o with
    | .rx _ (some c') _ => c' == c
    | .beat _ (some c') => c' == c
    | .closed c' => c' == c
    | .ref c' _ => c' == c
    | _ => false

/-- The network at the start: matching stacks at both ends of every connection, nothing on the way. -/
structure NetReady (fuel : Nat) (peer : Nat → ConnId → Option (Nat × ConnId)) (k : Nat → Nat) (s : Net) : Prop where
  quiet : ∀ i, (s.world i).trace = []
  empty : ∀ i c, s.stream i c = []
  inj : ∀ i c i' c' e, peer i c = some e → peer i' c' = some e → i = i' ∧ c = c'
  sender : ∀ i c e, peer i c = some e → Carrier (s.world i) (k i)
  receiver : ∀ i c j d, peer i c = some (j, d) → Carrier (s.world j) (k j) ∧ k j = k i ∧ Matching (s.world i) (s.world j) ∧
    ((s.world j).conns d).useRef = false
  open_ : ∀ i c e, peer i c = some e → ((s.world i).conns c).useRef = false ∧ ((s.world i).conns c).closed = false
  writes : ∀ i c e, peer i c = some e → ∀ t p, (s.world i).write t c p = ⟨p.length, none⟩
  fuel : ∀ i, (s.world i).n + (s.world i).mtu.toNat + 1 < fuel

/-- What the environment may do after `pre`: send packets the stacks can carry, and read whole packets: as many bytes
as some of the packets on the way take, at most a buffer full; more than one at a time only if the lowest processor
is a FrameDecoder. -/
def NetAllowed (peer : Nat → ConnId → Option (Nat × ConnId)) (k : Nat → Nat) (s0 : Net) (pre : List NetLabel) (s : Net) : NetLabel → Prop
  | .put i c p => ∃ j d, peer i c = some (j, d) ∧ p.Ok (s0.world i) (s0.world j) (k i)
  | .read i c n => ∃ j d past now later, peer i c = some (j, d) ∧ putOn i c pre = past ++ now ++ later ∧
      (s.stream i c).take n = packets (s0.world i) (k i) now ∧ (s.stream i c).drop n = packets (s0.world i) (k i) later ∧
      now ≠ [] ∧ (n : Int) ≤ (s0.world j).mtu ∧ (now.length = 1 ∨ (k j + 1 < (s0.world j).n ∧ Frames ((s0.world j).procs ((s0.world j).n - 1))))

/-- How things stand after `ls`. -/
structure NetInv (peer : Nat → ConnId → Option (Nat × ConnId)) (k : Nat → Nat) (s0 : Net) (ls : List NetLabel) (s : Net) : Prop where
  moved : ∀ i, ∃ o, Moved o (s0.world i) (s.world i)
  ok : ∀ i c j d, peer i c = some (j, d) → ∀ p ∈ putOn i c ls, p.Ok (s0.world i) (s0.world j) (k i)
  link : ∀ i c j d, peer i c = some (j, d) → ∃ got way, putOn i c ls = got ++ way ∧
    s.stream i c = packets (s0.world i) (k i) way ∧ seenOn d (s.world j).trace = got.map (Packet.arrives d)

theorem frames_same {p q : Proc} (h : SameProc p q) (hp : Frames p) : Frames q := by
  obtain ⟨⟨c, h1⟩, h2⟩ := hp
  have h3 := h.2
  rw [h1] at h3
  refine ⟨?_, by rw [h.1, h2]⟩
  cases hk : q.kind <;> rw [hk] at h3 <;> simp_all [Kind.Same]

theorem putOn_snoc_put (i : Nat) (c : ConnId) (ls : List NetLabel) (i' : Nat) (c' : ConnId) (p : Packet) :
    putOn i c (ls ++ [.put i' c' p]) = if i' = i ∧ c' = c then putOn i c ls ++ [p] else putOn i c ls := by
  simp only [putOn, List.filterMap_append, List.filterMap_cons, List.filterMap_nil]
  by_cases h : i' = i ∧ c' = c <;> simp [h]

theorem putOn_snoc_read (i : Nat) (c : ConnId) (ls : List NetLabel) (i' : Nat) (c' : ConnId) (n : Nat) :
    putOn i c (ls ++ [.read i' c' n]) = putOn i c ls := by
  simp [putOn, List.filterMap_append]

theorem seenOn_append (c : ConnId) (a b : List Obs) : seenOn c (a ++ b) = seenOn c a ++ seenOn c b := by
  simp [seenOn]

theorem seenOn_arrives (d d' : ConnId) (ps : List Packet) :
    seenOn d (ps.map (Packet.arrives d')) = if d' = d then ps.map (Packet.arrives d) else [] := by
  induction ps with
  | nil => simp [seenOn]
  | cons p ps ih =>
    by_cases h : d' = d
    · subst h
      simp only [seenOn, List.map_cons, List.filter_cons, ite_true] at ih ⊢
      cases p <;> simp [Packet.arrives, ih]
    · simp only [seenOn, List.map_cons, List.filter_cons, if_neg h] at ih ⊢
      cases p <;> simp [Packet.arrives, ih, h]

theorem sentBytes_arrives (c d : ConnId) (ps : List Packet) : sentBytes c (ps.map (Packet.arrives d)) = [] := by
  induction ps with
  | nil => rfl
  | cons p ps ih => cases p <;> simpa [sentBytes, Packet.arrives] using ih

/-- Each packet takes at least one byte. -/
theorem packets_length {w : World} {k : Nat} {ps : List Packet} (h : ∀ p ∈ ps, p.bytes w k ≠ []) : ps.length ≤ (packets w k ps).length := by
  induction ps with
  | nil => simp
  | cons p ps ih =>
    have h1 := ih fun q hq => h q (by simp [hq])
    have h2 : 0 < (p.bytes w k).length := List.length_pos_iff.mpr (h p (by simp))
    simp only [packets, List.map_cons, List.flatten_cons, List.length_append, List.length_cons] at h1 ⊢
    omega

/-- Suffixes of one sequence of packets that take the same number of bytes are the same. -/
theorem suffix_unique {w : World} {k : Nat} {a b c d : List Packet} (h : a ++ b = c ++ d) (hne : ∀ p ∈ a ++ b, p.bytes w k ≠ [])
    (hl : packets w k b = packets w k d) : a = c ∧ b = d := by
  rcases List.append_eq_append_iff.mp h with ⟨e, h1, h2⟩ | ⟨e, h1, h2⟩
  · subst h2
    rw [packets_append] at hl
    have h3 := packets_length (w := w) (k := k) (ps := e) fun p hp => hne p (by simp [hp])
    have h4 := congrArg List.length hl
    simp only [List.length_append] at h4
    have : e = [] := List.length_eq_zero_iff.mp (by omega)
    subst this
    simp at h1
    simp [h1]
  · subst h2
    rw [packets_append] at hl
    have h3 := packets_length (w := w) (k := k) (ps := e) fun p hp => hne p (by simp [h1, hp])
    have h4 := congrArg List.length hl
    simp only [List.length_append] at h4
    have : e = [] := List.length_eq_zero_iff.mp (by omega)
    subst this
    simp at h1
    simp [h1]

theorem Net.after_world_self (s : Net) (i : Nat) (w : World) : (s.after i w).world i = w := by simp [Net.after]
theorem Net.after_world_ne (s : Net) {i j : Nat} (w : World) (h : j ≠ i) : (s.after i w).world j = s.world j := by simp [Net.after, h]

theorem Net.after_stream (s : Net) (i : Nat) (w : World) (o : List Obs) (h : Moved o (s.world i) w) (j : Nat) (c : ConnId) :
    (s.after i w).stream j c = if j = i then s.stream j c ++ sentBytes c o else s.stream j c := by
  simp only [Net.after, h.trace, List.drop_left]

theorem NetInv.init {fuel : Nat} {peer : Nat → ConnId → Option (Nat × ConnId)} {k : Nat → Nat} {s0 : Net} (hr : NetReady fuel peer k s0) :
    NetInv peer k s0 [] s0 where
  moved := fun i => ⟨[], .refl _⟩
  ok := fun i c j d _ p hp => by simp [putOn] at hp
  link := fun i c j d _ => ⟨[], [], by simp [putOn], by simp [hr.empty, packets], by simp [hr.quiet, seenOn]⟩

theorem NetInv.step {fuel : Nat} {peer : Nat → ConnId → Option (Nat × ConnId)} {k : Nat → Nat} {s0 : Net} (hr : NetReady fuel peer k s0)
    {pre : List NetLabel} {s : Net} (inv : NetInv peer k s0 pre s) {l : NetLabel} (hl : NetAllowed peer k s0 pre s l) :
    ∃ s', netStep fuel peer s l = some s' ∧ NetInv peer k s0 (pre ++ [l]) s' := by
  cases l with
  | put i c p =>
    obtain ⟨j, d, hpeer, hok⟩ := hl
    obtain ⟨o, ho⟩ := inv.moved i
    have hopen := hr.open_ i c _ hpeer
    have hwr : ∀ t q, (s.world i).write t c q = ⟨q.length, none⟩ := fun t q => by rw [ho.write]; exact hr.writes i c _ hpeer t q
    have hfu := hr.fuel i
    obtain ⟨w', h1, h2⟩ := packet_on_the_wire (s.world i) (s0.world j) (k i) ((hr.sender i c _ hpeer).moved ho) p (hok.moved ho (.refl _)) c
      (by rw [ho.conns]; exact hopen.1) (by rw [ho.conns]; exact hopen.2) (fun t q => by rw [hwr]; exact ⟨rfl, Nat.le_refl _⟩) fuel
      (by rw [ho.n]; omega)
    rw [hwr, p.bytes_moved ho] at h2
    refine ⟨s.after i w', by simp only [netStep, h1], ?_, ?_, ?_⟩
    · intro i'
      by_cases e : i' = i
      · subst e; rw [Net.after_world_self]; exact ⟨_, ho.trans h2⟩
      · rw [Net.after_world_ne _ _ e]; exact inv.moved i'
    · intro i' c' j' d' hp' q hq
      rw [putOn_snoc_put] at hq
      split at hq
      · rename_i e
        obtain ⟨rfl, rfl⟩ := e
        rw [hpeer] at hp'
        injection hp' with hp'
        injection hp' with e1 e2
        subst e1; subst e2
        rcases List.mem_append.mp hq with hq | hq
        · exact inv.ok i c j d hpeer q hq
        · simp only [List.mem_cons, List.not_mem_nil, or_false] at hq
          subst hq; exact hok
      · exact inv.ok i' c' j' d' hp' q hq
    · intro i' c' j' d' hp'
      obtain ⟨got, way, a1, a2, a3⟩ := inv.link i' c' j' d' hp'
      have hseen : seenOn d' ((s.after i w').world j').trace = got.map (Packet.arrives d') := by
        by_cases e : j' = i
        · subst e; rw [Net.after_world_self, h2.trace, seenOn_append, a3]; simp [seenOn]
        · rw [Net.after_world_ne _ _ e, a3]
      rw [putOn_snoc_put, Net.after_stream _ _ _ _ h2]
      by_cases e : i = i' ∧ c = c'
      · obtain ⟨rfl, rfl⟩ := e
        refine ⟨got, way ++ [p], by simp [a1], ?_, hseen⟩
        simp [a2, packets, sentBytes]
      · refine ⟨got, way, by rw [if_neg e, a1], ?_, hseen⟩
        by_cases e' : i' = i
        · subst e'
          have : c ≠ c' := fun h => e ⟨rfl, h⟩
          simp [a2, sentBytes, this]
        · simp [e', a2]
  | read i c n =>
    obtain ⟨j, d, past, now, later, hpeer, hput, htake, hdrop, hnow, hn, hone⟩ := hl
    obtain ⟨hcj, hkj, hmat, huse⟩ := hr.receiver i c j d hpeer
    have hci := hr.sender i c _ hpeer
    obtain ⟨o, ho⟩ := inv.moved j
    obtain ⟨got, way, a1, a2, a3⟩ := inv.link i c j d hpeer
    have hok := inv.ok i c j d hpeer
    have hway : way = now ++ later ∧ got = past := by
      have := suffix_unique (w := s0.world i) (k := k i) (a := got) (b := way) (c := past) (d := now ++ later)
        (by rw [← a1, hput, List.append_assoc]) (fun p hp => (hok p (by rw [a1]; exact hp)).bytes_ne)
        (by rw [← a2, packets_append, ← htake, ← hdrop, List.take_append_drop])
      exact ⟨this.2, this.1⟩
    obtain ⟨rfl, rfl⟩ := hway
    have hoknow : ∀ p ∈ now, p.Ok (s0.world i) (s0.world j) (k i) := fun p hp => hok p (by rw [a1]; simp [hp])
    have hrec : ∀ p ∈ now, p.Ok (s.world j) (s.world j) (k j) := fun p hp => by
      have h := (hoknow p hp).received hmat hci (hkj ▸ hcj)
      rw [← hkj] at h
      exact h.moved ho ho
    have hbytes : packets (s.world j) (k j) now = (s.stream i c).take n := by
      rw [htake, packets_moved ho, packets, packets, hkj]
      congr 1
      exact List.map_congr_left fun p hp => p.bytes_matching hmat hci.pos (hoknow p hp).lt
    have hfit : ((packets (s.world j) (k j) now).length : Int) ≤ (s.world j).mtu := by
      rw [hbytes, ho.mtu, List.length_take]; omega
    have hlen := packets_length (w := s.world j) (k := k j) (ps := now) fun p hp => (hrec p hp).bytes_ne
    have hfu := hr.fuel j
    have hfuel : (s.world j).n + now.length + 1 < fuel := by rw [ho.n]; rw [ho.mtu] at hfit; omega
    have huse' : ((s.world j).conns d).useRef = false := by rw [ho.conns]; exact huse
    obtain ⟨w', h1, h2⟩ : ∃ w', receive fuel d ((s.stream i c).take n) (s.world j) = (.ok (), w') ∧
        Moved (now.map (Packet.arrives d)) (s.world j) w' := by
      rw [← hbytes]
      rcases hone with h | ⟨h, hf⟩
      · obtain ⟨p, rfl⟩ := List.length_eq_one_iff.mp h
        simp only [packets, List.map_cons, List.map_nil, List.flatten_cons, List.flatten_nil, List.append_nil] at hfit ⊢
        exact receive_packet (s.world j) (k j) (hcj.moved ho) p (hrec p (by simp)) d huse' hfit fuel (by omega)
      · exact receive_packets (s.world j) (k j) (hcj.moved ho) (by rw [ho.n]; exact h)
          (by rw [ho.n]; exact frames_same (ho.same _) hf) now hnow hrec d huse' hfit fuel hfuel
    refine ⟨(s.took i c n).after j w', by simp only [netStep, hpeer, h1], ?_, ?_, ?_⟩
    · intro i'
      by_cases e : i' = j
      · subst e; rw [Net.after_world_self]; exact ⟨_, ho.trans h2⟩
      · rw [Net.after_world_ne _ _ e]; exact inv.moved i'
    · intro i' c' j' d' hp' q hq
      rw [putOn_snoc_read] at hq
      exact inv.ok i' c' j' d' hp' q hq
    · intro i' c' j' d' hp'
      rw [putOn_snoc_read, Net.after_stream (s.took i c n) _ _ (now.map (Packet.arrives d)) h2, sentBytes_arrives]
      simp only [List.append_nil, ite_self]
      by_cases e : i' = i ∧ c' = c
      · obtain ⟨rfl, rfl⟩ := e
        rw [hpeer] at hp'
        injection hp' with hp'
        injection hp' with e1 e2
        subst e1; subst e2
        refine ⟨got ++ now, later, by rw [a1, List.append_assoc], by simp [Net.took, hdrop], ?_⟩
        rw [Net.after_world_self, h2.trace, seenOn_append, a3, seenOn_arrives]
        simp
      · obtain ⟨got', way', b1, b2, b3⟩ := inv.link i' c' j' d' hp'
        refine ⟨got', way', b1, by simp [Net.took, e, b2], ?_⟩
        by_cases e' : j' = j
        · subst e'
          have : d ≠ d' := fun h => by
            subst h
            exact e (hr.inj i' c' i c _ hp' hpeer)
          rw [Net.after_world_self, h2.trace, seenOn_append, b3, seenOn_arrives]
          simp [this]
        · rw [Net.after_world_ne _ _ e']; exact b3

/-- Every sequence of allowed actions. -/
def NetRun (fuel : Nat) (peer : Nat → ConnId → Option (Nat × ConnId)) (k : Nat → Nat) (s0 : Net) (ls : List NetLabel) : Prop :=
  ∀ pre l post s, ls = pre ++ l :: post → exec (netStep fuel peer) s0 pre = some s → NetAllowed peer k s0 pre s l

theorem net_inv {fuel : Nat} {peer : Nat → ConnId → Option (Nat × ConnId)} {k : Nat → Nat} {s0 : Net} (hr : NetReady fuel peer k s0) :
    ∀ ls, NetRun fuel peer k s0 ls → ∃ s, exec (netStep fuel peer) s0 ls = some s ∧ NetInv peer k s0 ls s := by
  refine snoc_induction (fun _ => ⟨s0, rfl, .init hr⟩) fun ls l ih hall => ?_
  obtain ⟨s, h1, h2⟩ := ih fun pre l' post s e h => hall pre l' (post ++ [l]) s (by rw [e]; simp) h
  obtain ⟨s', h3, h4⟩ := h2.step hr (hall ls l [] s rfl h1)
  exact ⟨s', by rw [exec_append, h1]; simp [Trace.exec, h3], h4⟩

/-- C74: whatever the interleaving, no call panics; what has been seen at the receiving end of a connection is
the packets sent into it, in order, without loss, duplication or invention, up to those still on the way; and
exactly these are still on the way.  Missing: reads that cut packets (`NetAllowed`); the code does not meet the claim
for those (C23, C24, `Split`). -/
theorem c74_network_partial {fuel : Nat} {peer : Nat → ConnId → Option (Nat × ConnId)} {k : Nat → Nat} {s0 : Net} (hr : NetReady fuel peer k s0)
    (ls : List NetLabel) (hall : NetRun fuel peer k s0 ls) :
    ∃ s, exec (netStep fuel peer) s0 ls = some s ∧
      ∀ i c j d, peer i c = some (j, d) → ∃ got way, putOn i c ls = got ++ way ∧
        s.stream i c = packets (s0.world i) (k i) way ∧ seenOn d (s.world j).trace = got.map (Packet.arrives d) := by
  obtain ⟨s, h1, h2⟩ := net_inv hr ls hall
  exact ⟨s, h1, h2.link⟩

/-- When nothing is on the way, everything sent has arrived. -/
theorem c74_drained_partial {fuel : Nat} {peer : Nat → ConnId → Option (Nat × ConnId)} {k : Nat → Nat} {s0 : Net} (hr : NetReady fuel peer k s0)
    (ls : List NetLabel) (hall : NetRun fuel peer k s0 ls) (s : Net) (hs : exec (netStep fuel peer) s0 ls = some s)
    (i : Nat) (c : ConnId) (j : Nat) (d : ConnId) (hp : peer i c = some (j, d)) (hempty : s.stream i c = []) :
    seenOn d (s.world j).trace = (putOn i c ls).map (Packet.arrives d) := by
  obtain ⟨s', h1, h2⟩ := net_inv hr ls hall
  rw [hs] at h1
  injection h1 with h1
  subst h1
  obtain ⟨got, way, a1, a2, a3⟩ := h2.link i c j d hp
  have := packets_length (w := s0.world i) (k := k i) (ps := way) fun p hq =>
    (h2.ok i c j d hp p (by rw [a1]; simp [hq])).bytes_ne
  rw [← a2, hempty] at this
  have : way = [] := List.length_eq_zero_iff.mp (by simpa using this)
  subst this
  rw [a3, a1, List.append_nil]

/-! ## Example: two stacks of five processors, joined by one connection -/

def pairPeer (i : Nat) (c : ConnId) : Option (Nat × ConnId) := if i < 2 ∧ c = 0 then some (1 - i, 0) else none

def pairNet : Net := ⟨fun _ => five, fun _ _ => []⟩

theorem pair_ready : NetReady 80 pairPeer (fun _ => 0) pairNet where
  quiet := fun _ => rfl
  empty := fun _ _ => rfl
  inj := by
    intro i c i' c' e h1 h2
    simp only [pairPeer] at h1 h2
    split at h1 <;> simp only [Option.some.injEq, reduceCtorEq] at h1
    split at h2 <;> simp only [Option.some.injEq, reduceCtorEq] at h2
    rename_i a b
    have := congrArg Prod.fst (h1.trans h2.symm)
    simp only at this
    exact ⟨by omega, a.2.trans b.2.symm⟩
  sender := fun _ _ _ _ => five_carrier
  receiver := fun _ _ _ _ _ => ⟨five_carrier, rfl, five_matching, rfl⟩
  open_ := fun _ _ _ _ => ⟨rfl, rfl⟩
  writes := fun _ _ _ _ _ _ => rfl
  fuel := fun _ => (by decide : five.n + five.mtu.toNat + 1 < 80)

def pairMsg : Packet := .msg ⟨.bytes [9], [9], 3, 7⟩

theorem NetRun.snoc {fuel : Nat} {peer : Nat → ConnId → Option (Nat × ConnId)} {k : Nat → Nat} {s0 : Net} {ls : List NetLabel} {l : NetLabel}
    (h : NetRun fuel peer k s0 ls) (hl : ∀ s, exec (netStep fuel peer) s0 ls = some s → NetAllowed peer k s0 ls s l) :
    NetRun fuel peer k s0 (ls ++ [l]) := by
  intro pre l' post s e he
  rcases List.eq_nil_or_concat post with rfl | ⟨post', x, rfl⟩
  · obtain ⟨rfl, e1⟩ := List.append_inj' e rfl
    injection e1 with e1
    subst e1
    exact hl s he
  · simp only [List.concat_eq_append, ← List.cons_append, ← List.append_assoc] at e
    obtain ⟨e, -⟩ := List.append_inj' e rfl
    exact h pre l' post' s e he

/-- One stack sends a message and a heartbeat, the other reads both at once. -/
theorem pair_run : NetRun 80 pairPeer (fun _ => 0) pairNet [.put 0 0 pairMsg, .put 0 0 (.beat 3), .read 0 0 16] := by
  have h0 : NetRun 80 pairPeer (fun _ => 0) pairNet [] := by
    intro pre l post s e
    simp at e
  have h1 := h0.snoc (l := .put 0 0 pairMsg) fun s _ => ⟨1, 0, rfl, five_message _ (by simp) (by simp), rfl⟩
  have h2 := h1.snoc (l := .put 0 0 (.beat 3)) fun s _ => ⟨1, 0, rfl, by decide, by decide, rfl, by decide⟩
  refine h2.snoc (l := .read 0 0 16) fun s hs => ?_
  have hb : (exec (netStep 80 pairPeer) pairNet [.put 0 0 pairMsg, .put 0 0 (.beat 3)]).map (fun s => s.stream 0 0) =
      some [0, 0, 0, 7, 0, 0, 0, 0, 0, 3, 9, 0, 0, 0, 1, 0x83] := by decide +kernel
  simp only [List.nil_append, List.cons_append] at hs
  rw [hs] at hb
  simp only [Option.map_some, Option.some.injEq] at hb
  refine ⟨1, 0, [], [pairMsg, .beat 3], [], rfl, rfl, ?_, ?_, by simp, by decide, .inr ⟨by decide, ⟨_, rfl⟩, rfl⟩⟩
  · rw [hb]; decide
  · rw [hb]; decide

example : ∃ s, exec (netStep 80 pairPeer) pairNet [.put 0 0 pairMsg, .put 0 0 (.beat 3), .read 0 0 16] = some s ∧
    ∃ got way, [pairMsg, .beat 3] = got ++ way ∧ s.stream 0 0 = packets five 0 way ∧ seenOn 0 (s.world 1).trace = got.map (Packet.arrives 0) := by
  obtain ⟨s, h1, h2⟩ := c74_network_partial pair_ready _ pair_run
  exact ⟨s, h1, h2 0 0 1 0 rfl⟩

end Verif.Stack
