import Verif.Stack.Net

/-!
# Reads that cut packets (C74)

`c74_network_partial` asks that every read takes whole packets.  Here: what happens otherwise.  If the receiver's
lowest processor is a FrameDecoder, a read of one to three bytes is forgotten: the bytes are taken from the connection
and the receiving stack is as it was before.  So in every network, for every connection and every packet, there is a
run after which the packet is neither received nor on its way.
-/

namespace Verif.Stack
open UBuf GoM Trace

/-- A piece too short for a length field: nothing is handed up, nothing is kept. -/
theorem decodeRead_short {fuel : Nat} {c src : Deque} (hc : c.content = []) (h1 : src.content ≠ []) (h3 : src.content.length ≤ 3)
    (hroom : src.content.length < c.tail) : decodeRead (fuel + 1) c src = ⟨[], .ok (), Deque.clear c⟩ := by
  have hl := List.length_pos_iff.mpr h1
  have h4 : (Deque.readFromDeque c src).2.2.1 = c := by
    simp only [Deque.readFromDeque]
    rw [if_neg (by omega)]
    split <;> rfl
  simp [decodeRead, hc, decodeCurrent, h4, decodeCached, show src.content.length < 4 by omega]

/-- A read of one to three bytes: the stack is as it was before. -/
theorem receive_piece (w : World) (k : Nat) (hcar : Carrier w k) (hk1 : k + 1 < w.n) (hfr : Frames (w.procs (w.n - 1)))
    (bs : List Byte) (h1 : bs ≠ []) (h3 : bs.length ≤ 3) (d : Deque) (hd : Caches (w.n - 1) w d) (hd0 : d.content = [])
    (hroom : bs.length < d.tail) (c : ConnId) (hbytes : (w.conns c).useRef = false) (hfit : (bs.length : Int) ≤ w.mtu)
    (fuel : Nat) (hf : 1 < fuel) : ∃ w', receive fuel c bs w = (.ok (), w') ∧ Moved [] w w' ∧ Caches (w.n - 1) w' (Deque.clear d) := by
  obtain ⟨i, hn⟩ : ∃ i, w.n = i + 1 := ⟨w.n - 1, by omega⟩
  have hlast : w.n - 1 = i := by omega
  rw [hlast] at hfr hd
  obtain ⟨c0, hk0⟩ := hfr.1
  have hp : w.procs i = ⟨true, (w.procs i).kind⟩ := by rw [← hfr.2]
  obtain ⟨ub, a1, a2⟩ := receive_ok (c := c) (w := w) h1 hfit
  obtain ⟨f, rfl⟩ : ∃ f, fuel = f + 1 + 1 := ⟨fuel - 2, by omega⟩
  have how : OneWay i w := by
    refine ⟨⟨c0, hk0⟩, fun j h1 h2 e => ?_⟩
    have := hcar.opens j (by omega) h2
    simp [Opens, e] at this
  obtain ⟨ca, hk, hca⟩ := hd
  have := frameLower_feeds (nb := nbAt (f + 1) (i + 1)) (calm_above i (f + 1)) (f + 1) how
    (ctx := { Ctx.new with conn := some c, buf := some ub }) ⟨c, rfl, hbytes⟩ rfl hk hca a1
  rw [decodeRead_short hd0 h1 h3 hroom] at this
  obtain ⟨b1, b2⟩ := this
  have hon : onLower (f + 1) i ⟨true, (w.procs i).kind⟩ (nbAt (f + 1) (i + 1)) { Ctx.new with conn := some c, buf := some ub } w =
      frameLower (f + 1) i true (nbAt (f + 1) (i + 1)) { Ctx.new with conn := some c, buf := some ub } w := by rw [hk]; rfl
  generalize hrun : frameLower (f + 1) i true (nbAt (f + 1) (i + 1)) { Ctx.new with conn := some c, buf := some ub } w = run at b1 b2
  obtain ⟨r, w'⟩ := run
  have hcall : ∀ r', r = r' → call (f + 1 + 1) .up w.n { Ctx.new with conn := some c, buf := some ub } w = (r', w') := by
    intro r' e
    subst e
    rw [hn, call_up (by omega), hp, hon, hrun]
  cases b1 with
  | done _ _ b c1 _ =>
    refine ⟨_, by rw [a2, bind_of_ok (hcall _ rfl)]; rfl, ?_⟩
    obtain ⟨_, ca', k1, k2⟩ := b2 _ rfl
    have hm : Moved [] w (w.setKind i (.frame c1)) := Moved.denorm (c2 := c1) (cc := ca) hk (by rw [setKind_self])
      (by rw [setKind_setKind]; exact .refl _) (Caches.idle ⟨ca', k1, k2⟩ rfl)
    exact ⟨hm, ca', by rw [hlast]; exact k1, k2⟩
  | panic _ _ _ he => cases he
  | running _ _ _ he => cases he

/-- The FrameDecoder at the bottom waits for data, with room for a length field. -/
def Waiting (w : World) : Prop :=
  Frames (w.procs (w.n - 1)) ∧ ∃ d, Caches (w.n - 1) w d ∧ d.content = [] ∧ 3 < d.tail ∧ d.reserved + 3 < d.cap

/-- Reading in pieces of one to three bytes. -/
theorem pieces {fuel : Nat} {peer : Nat → ConnId → Option (Nat × ConnId)} {i j : Nat} {c d : ConnId} (hpeer : peer i c = some (j, d))
    (hij : i ≠ j) (ns : List Nat) : ∀ (s : Net) (k : Nat), Carrier (s.world j) k → k + 1 < (s.world j).n → Waiting (s.world j) →
    ((s.world j).conns d).useRef = false → 3 ≤ (s.world j).mtu → 1 < fuel → (∀ n ∈ ns, 1 ≤ n ∧ n ≤ 3) → ns.sum = (s.stream i c).length →
    ∃ s', exec (netStep fuel peer) s (ns.map (.read i c)) = some s' ∧ s'.stream i c = [] ∧ Moved [] (s.world j) (s'.world j) := by
  induction ns with
  | nil => intro s k _ _ _ _ _ _ _ hsum; exact ⟨s, rfl, List.length_eq_zero_iff.mp (by simpa using hsum.symm), .refl _⟩
  | cons n ns ih =>
    intro s k hcar hk hwait hby hmtu hf hns hsum
    obtain ⟨hfr, q, hq, hq0, hq1, hq2⟩ := hwait
    obtain ⟨hn1, hn3⟩ := hns n (by simp)
    simp only [List.sum_cons] at hsum
    have hlen : ((s.stream i c).take n).length = n := by rw [List.length_take]; omega
    obtain ⟨w', a1, a2, a3⟩ := receive_piece (s.world j) k hcar hk hfr ((s.stream i c).take n)
      (fun e => by rw [e] at hlen; simp at hlen; omega) (by omega) q hq hq0 (by omega) d hby (by rw [hlen]; omega) fuel hf
    have hstep : netStep fuel peer s (.read i c n) = some ((s.took i c n).after j w') := by simp only [netStep, hpeer, a1]
    have hw : ((s.took i c n).after j w').world j = w' := Net.after_world_self _ _ _
    have hst : ((s.took i c n).after j w').stream i c = (s.stream i c).drop n := by simp [Net.after, hij, Net.took]
    obtain ⟨s', b1, b2, b3⟩ := ih ((s.took i c n).after j w') k (by rw [hw]; exact hcar.moved a2) (by rw [hw, a2.n]; exact hk)
      (by
        rw [hw]
        refine ⟨by rw [a2.n]; exact frames_same (a2.same _) hfr, Deque.clear q, by rw [a2.n]; exact a3, rfl, ?_, hq2⟩
        simp only [Deque.clear, Deque.tail, List.length_nil]; omega)
      (by rw [hw, a2.conns]; exact hby) (by rw [hw, a2.mtu]; exact hmtu) hf (fun m hm => hns m (by simp [hm]))
      (by rw [hst, List.length_drop]; omega)
    refine ⟨s', ?_, b2, ?_⟩
    · simp only [List.map_cons, Trace.exec, hstep]; exact b1
    · rw [hw] at b3; exact a2.trans b3

/-- What a stack sends does not concern another one. -/
theorem puts_elsewhere {fuel : Nat} {peer : Nat → ConnId → Option (Nat × ConnId)} {i j : Nat} (hij : i ≠ j) {c : ConnId} (ps : List Packet) :
    ∀ s s', exec (netStep fuel peer) s (ps.map (.put i c)) = some s' → s'.world j = s.world j := by
  induction ps with
  | nil => intro s s' h; cases h; rfl
  | cons p ps ih =>
    intro s s' h
    obtain ⟨m, h0, h⟩ := exec_cons h
    simp only [netStep] at h0
    generalize Packet.send fuel c p (s.world i) = r at h0
    obtain ⟨r, w⟩ := r
    cases r with
    | ok u => cases h0; rw [ih _ _ h]; exact Net.after_world_ne _ _ (Ne.symm hij)
    | panic => cases h0
    | running => cases h0

/-- C74 does not hold without the condition on reads: in every network, whatever packets are sent on a connection to a
stack whose lowest processor is a FrameDecoder, if they are read one to three bytes at a time then all bytes are
taken, no call panics, and nothing is ever seen of any of the packets. -/
theorem c74_violated {fuel : Nat} {peer : Nat → ConnId → Option (Nat × ConnId)} {k : Nat → Nat} {s0 : Net} (hr : NetReady fuel peer k s0)
    (i : Nat) (c : ConnId) (j : Nat) (d : ConnId) (hpeer : peer i c = some (j, d)) (hij : i ≠ j) (hk : k j + 1 < (s0.world j).n)
    (hwait : Waiting (s0.world j)) (hmtu : 3 ≤ (s0.world j).mtu) (ps : List Packet) (hps : ∀ p ∈ ps, p.Ok (s0.world i) (s0.world j) (k i))
    (ns : List Nat) (hns : ∀ n ∈ ns, 1 ≤ n ∧ n ≤ 3) (hsum : ns.sum = (packets (s0.world i) (k i) ps).length) :
    ∃ s, exec (netStep fuel peer) s0 (ps.map (.put i c) ++ ns.map (.read i c)) = some s ∧ s.stream i c = [] ∧ seenOn d (s.world j).trace = [] := by
  have hrun : NetRun fuel peer k s0 (ps.map (.put i c)) := by
    intro pre l post s e _
    have : l ∈ ps.map (NetLabel.put i c) := by rw [e]; simp
    obtain ⟨p, hp, rfl⟩ := List.mem_map.mp this
    exact ⟨j, d, hpeer, hps p hp⟩
  obtain ⟨s, h1, h2⟩ := c74_network_partial hr _ hrun
  obtain ⟨got, way, g1, g2, g3⟩ := h2 i c j d hpeer
  have hput : putOn i c (ps.map (.put i c)) = ps := by simp [putOn, List.filterMap_map, Function.comp_def]
  have hw := puts_elsewhere hij ps s0 s h1
  rw [hw, hr.quiet] at g3
  have hgot : got = [] := by cases got with
    | nil => rfl
    | cons x xs => simp [seenOn] at g3
  subst hgot
  rw [hput, List.nil_append] at g1
  subst g1
  obtain ⟨hcar, hkk, _, hby⟩ := hr.receiver i c j d hpeer
  obtain ⟨s', a1, a2, a3⟩ := pieces (fuel := fuel) hpeer hij ns s (k j) (by rw [hw]; exact hcar) (by rw [hw]; exact hk) (by rw [hw]; exact hwait)
    (by rw [hw]; exact hby) (by rw [hw]; exact hmtu) (by have := hr.fuel j; omega) hns (by rw [g2]; exact hsum)
  refine ⟨s', by rw [exec_append, h1]; exact a1, a2, ?_⟩
  rw [a3.trace, hw, hr.quiet]
  rfl

/-- Two stacks of five processors: a message and a heartbeat, read two bytes at a time. -/
example : ∃ s, exec (netStep 80 pairPeer) pairNet ([pairMsg, .beat 3].map (.put 0 0) ++ (List.replicate 8 2).map (.read 0 0)) = some s ∧
    s.stream 0 0 = [] ∧ seenOn 0 (s.world 1).trace = [] :=
  c74_violated pair_ready 0 0 1 0 rfl (by decide) (by decide) ⟨⟨⟨_, rfl⟩, rfl⟩, _, ⟨UBuf.demo, rfl, demo_buf⟩, rfl, by decide, by decide⟩ (by decide) [pairMsg, .beat 3]
    (by
      intro p hp
      simp only [List.mem_cons, List.not_mem_nil, or_false] at hp
      rcases hp with rfl | rfl
      · exact ⟨five_message _ (by simp) (by simp), rfl⟩
      · exact ⟨by decide, by decide, rfl, by decide⟩)
    _ (by decide) (by decide)

end Verif.Stack
