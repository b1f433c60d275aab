import Verif.Stack.Net

/-!
# Collecting statistics through whole stacks (C77)

A StatCounter with "Collect.IntervalInSecond" asks the other side of each new connection for its counters
(proc_stat_counter.go:65-76, 146-169); the StatCounter there answers (79-93), and the answer is printed (96-106).
-/

namespace Verif.Stack
open UBuf GoM Trace

/-- The bytes of an answer above the processors below the StatCounter: tag, two counters, name
(proc_stat_counter.go:79-93). -/
def answer (tx rx : UInt64) (name : List Byte) : List Byte :=
  0x23 :: (encBE 8 tx.toNat ++ (encBE 8 rx.toNat ++ name))

/-- What is printed of a name: the first 128 bytes, filled up with zero bytes (proc_stat_counter.go:102-105). -/
def printed (name : List Byte) : List Byte := (name ++ List.replicate 128 0).take 128

/-- A StatCounter that can talk: enabled, with processors below it that open what they close. -/
structure Reports (w : World) (i : Nat) (tx rx : UInt64) : Prop where
  pos : i < w.n
  stat : w.procs i = ⟨true, .stat tx rx⟩
  opens : ∀ j, i < j → j < w.n → Opens (w.procs j)
  idle : ∀ j, i < j → j < w.n → Frames (w.procs j) → Idle j w
  built : Built w
  mtu : w.mtu < 2 ^ 32

/-- What a message of the StatCounter at `i` looks like on the wire. -/
def below (w : World) (i : Nat) (b : List Byte) : List Byte := wrap (seg w (i + 1) (w.n - (i + 1))) 0 b

theorem Reports.room {w : World} {i : Nat} {tx rx : UInt64} (h : Reports w i tx rx) : 1 + room (seg w (i + 1) (w.n - (i + 1))) ≤ w.overhead := by
  have hn := h.pos
  have hrm := h.built.room_le (a := i) (m := w.n - (i + 1) + 1) (by omega)
  rw [seg_succ, Stack.room, h.stat] at hrm
  exact hrm

theorem Reports.length {w : World} {i : Nat} {tx rx : UInt64} (h : Reports w i tx rx) (b : List Byte) :
    ((below w i b).length : Int) + 1 ≤ w.overhead + b.length := by
  have h1 := h.room
  have h2 := wrap_length (seg w (i + 1) (w.n - (i + 1))) 0 b
  simp only [below]
  omega

/-- From the StatCounter's position down to one write. -/
theorem below_written {w : World} {i : Nat} {tx rx : UInt64} (h : Reports w i tx rx) {ctx : Ctx} {s : St} {d : Deque} (c : ConnId) (hc : ctx.conn = some c)
    (hbuf : ctx.buf = some s) (hs : Buf s d) (hses : sessionOf ctx = 0) (hne : d.content ≠ []) (hhead : w.overhead ≤ 1 + (d.head : Int))
    (hbytes : (w.conns c).useRef = false) (hopen : (w.conns c).closed = false)
    (hw : ∀ t p, (w.write t c p).err = none ∧ (w.write t c p).n ≤ p.length) (fuel : Nat) (hf : w.n < fuel + i + 1) :
    ∃ ctx' w', call fuel .down (i + 2) ctx w = (.ok ctx', w') ∧
      Moved [.wire c (below w i d.content) (w.write w.trace c (below w i d.content))] w w' ∧ ∀ j, j ≤ i → w'.procs j = w.procs j := by
  have hn := h.pos
  have hroom := h.room
  obtain ⟨f, rfl⟩ : ∃ f, fuel = f + 1 + (w.n - (i + 1)) := ⟨fuel - 1 - (w.n - (i + 1)), by omega⟩
  have hwl := wrap_length (seg w (i + 1) (w.n - (i + 1))) 0 d.content
  obtain ⟨s2, w1, ⟨m1, k1, _⟩, g1, e1, d1⟩ := segment_down_above (w.n - (i + 1)) (i + 1) (f + 1) ctx w s d
    (by omega) (fun j j1 j2 => (h.opens j (by omega) (by omega)).passes) ⟨c, hc, hbytes⟩ hbuf hs (by rw [hses]; omega)
  rw [hses] at e1
  have hc2 : (view s2).content = below w i d.content := e1
  obtain ⟨s3, r3⟩ := lowerDeckUpper_ok (w := w1) (ctx := { ctx with buf := some s2 }) (c := c) hc
    (by rw [m1.conns]; exact hbytes) (by rw [m1.conns]; exact hopen) rfl (Buf.of_good g1) (by rw [hc2]; exact wrap_ne _ _ hne)
    (by rw [m1.write]; exact (hw _ _).1) (by rw [m1.write]; exact (hw _ _).2)
  rw [show i + 1 + (w.n - (i + 1)) + 1 = w1.n + 1 by rw [m1.n]; omega, call_bottom] at d1
  refine ⟨_, _, d1.trans r3, ?_, fun j hj => k1 j (by omega)⟩
  have m2 := m1.trans (Moved.obs w1 [.wire c (view s2).content (w1.write w1.trace c (view s2).content)])
  simp only [List.nil_append, hc2, m1.write, m1.trace, List.append_nil] at m2
  simp only [World.wrote, hc2, m1.write, m1.trace, List.append_nil]
  exact m2

/-- Asking: one write. -/
theorem stat_asks (w : World) (i : Nat) (tx rx : UInt64) (h : Reports w i tx rx) (hroom : w.overhead < w.mtu) (c : ConnId)
    (hbytes : (w.conns c).useRef = false) (hopen : (w.conns c).closed = false)
    (hw : ∀ t p, (w.write t c p).err = none ∧ (w.write t c p).n ≤ p.length) (fuel : Nat) (hf : w.n < fuel) :
    ∃ w', sendControl fuel i c 0x10 w = (.ok (), w') ∧
      Moved [.wire c (below w i [0x10]) (w.write w.trace c (below w i [0x10]))] w w' ∧ ∀ j, j ≤ i → w'.procs j = w.procs j := by
  have hov := h.built.ov
  obtain ⟨s0, a1, a2⟩ := allocBuf_ok w.mtu w.overhead w (by omega) (by omega) (by omega)
  obtain ⟨s1, a3, a4⟩ := a2.writeByte 0x10 (by simp [Deque.tail, Deque.fresh]; omega)
  obtain ⟨ctx', w', b1, b2, b3⟩ := below_written h (ctx := { Ctx.new with conn := some c, buf := some s1 }) c rfl rfl a4 rfl
    (by simp [Deque.push, Deque.fresh]) (by simp [Deque.push, Deque.fresh]; omega) hbytes hopen hw fuel (by omega)
  refine ⟨w', ?_, b2, b3⟩
  simp only [sendControl]
  rw [bind_of_ok (get_apply w), bind_of_ok a1, bind_onBuf a3, bind_of_ok b1]
  rfl

/-- What is written after the tag of an answer if there is room for `r` bytes: the counters as far as each fits, and as much of the
name as fits behind them (proc_stat_counter.go:86-89, errors ignored). -/
def fitted (r : Nat) (tx rx : UInt64) (name : List Byte) : List Byte :=
  if r < 8 then name.take r
  else encBE 8 tx.toNat ++ (if r < 16 then name.take (r - 8) else encBE 8 rx.toNat ++ name.take (r - 16))

/-- What is shown of such an answer. -/
def shownFor (r : Nat) (tx rx : UInt64) (name : List Byte) : Obs :=
  if r < 8 then .shown 0 0 (printed (name.take r))
  else if r < 16 then .shown tx.toNat 0 (printed (name.take (r - 8)))
  else .shown tx.toNat rx.toNat (printed (name.take (r - 16)))

theorem fitted_length (r : Nat) (tx rx : UInt64) (name : List Byte) : (fitted r tx rx name).length ≤ r := by
  unfold fitted
  split
  · rw [List.length_take]; omega
  · split <;> simp only [List.length_append, length_encBE, List.length_take] <;> omega

/-- The processor's part of an answer. -/
theorem stat_answer (fuel i : Nat) (tx rx : UInt64) (ctx : Ctx) (w : World) (rest : List Byte)
    (hb : OnBytes ctx w) (hreq : Carries ctx (0x10 :: rest)) (hov : 1 ≤ w.overhead) (hfit : w.overhead ≤ w.mtu) :
    ∃ s d, Buf s d ∧ d.content = 0x23 :: fitted (w.mtu - w.overhead).toNat tx rx w.name ∧ (d.head : Int) = w.overhead - 1 ∧
      Down (fun nb => onLower fuel i ⟨true, .stat tx rx⟩ nb ctx w) { ctx with buf := some s } w := by
  obtain ⟨c, hc, hr⟩ := hb
  obtain ⟨s, d, k1, k2, k3⟩ := hreq.buf
  obtain ⟨s1, m1, _⟩ := k2.readByte_cons k3
  obtain ⟨a0, b0, e0⟩ := allocBuf_ok w.mtu w.overhead w (by omega) (by omega) (by omega)
  obtain ⟨a1, b1, e1⟩ := e0.writeHeadByte 0x23
  rw [prependAll_ok (by simp [Deque.fresh]; omega)] at b1 e1
  have t1 : ((Deque.fresh w.mtu.toNat w.overhead.toNat).prepend [0x23]).tail = (w.mtu - w.overhead).toNat := by
    simp [Deque.tail, Deque.fresh, Deque.prepend]; omega
  have finish : ∀ a2 r2 a3 r3 a4 r4, UBuf.writeU .u64 .be tx.toNat a1 = (.ok r2, a2) → UBuf.writeU .u64 .be rx.toNat a2 = (.ok r3, a3) →
      UBuf.write w.name a3 = (.ok r4, a4) →
      Down (fun nb => onLower fuel i ⟨true, .stat tx rx⟩ nb ctx w) { ctx with buf := some a4 } w := by
    intro a2 r2 a3 r3 a4 r4 b2 b3 b4 nb
    simp only [onLower, statLower]
    rw [bind_of_ok (by rw [hc, useReference_some, hr])]
    simp only [Bool.false_eq_true, if_false, k1, if_true]
    rw [bind_onBuf m1]
    simp only [Option.isSome_none, Bool.false_eq_true, if_false, if_true, statResponse]
    rw [bind_of_ok (get_apply w), bind_of_ok b0, bind_onBuf b1, bind_onBuf b2, bind_onBuf b3, bind_onBuf b4]
  by_cases h8 : (w.mtu - w.overhead).toNat < 8
  · obtain ⟨a2, r2, b2, e2⟩ := e1.writeU_short .u64 .be tx.toNat (by rw [t1]; exact h8)
    obtain ⟨a3, r3, b3, e3⟩ := e2.writeU_short .u64 .be rx.toNat (by rw [t1]; exact h8)
    obtain ⟨a4, r4, b4, e4⟩ := e3.write_any w.name
    rw [t1] at e4
    exact ⟨a4, _, e4, by simp [fitted, h8, Deque.push, Deque.prepend, Deque.fresh],
      by simp [Deque.push, Deque.prepend, Deque.fresh]; omega, finish _ _ _ _ _ _ b2 b3 b4⟩
  · obtain ⟨a2, b2, e2⟩ := e1.writeU .u64 .be tx.toNat (by rw [t1]; simp [Width.size]; omega)
    have t2 : (((Deque.fresh w.mtu.toNat w.overhead.toNat).prepend [0x23]).push (encode .u64 .be tx.toNat)).tail =
        (w.mtu - w.overhead).toNat - 8 := by
      simp [Deque.tail, Deque.fresh, Deque.prepend, Deque.push, length_encode, Width.size]; omega
    by_cases h16 : (w.mtu - w.overhead).toNat < 16
    · obtain ⟨a3, r3, b3, e3⟩ := e2.writeU_short .u64 .be rx.toNat (by rw [t2]; simp [Width.size]; omega)
      obtain ⟨a4, r4, b4, e4⟩ := e3.write_any w.name
      rw [t2] at e4
      exact ⟨a4, _, e4, by simp [fitted, h8, h16, encode, Width.size, Deque.push, Deque.prepend, Deque.fresh],
        by simp [Deque.push, Deque.prepend, Deque.fresh]; omega, finish _ _ _ _ _ _ b2 b3 b4⟩
    · obtain ⟨a3, b3, e3⟩ := e2.writeU .u64 .be rx.toNat (by rw [t2]; simp [Width.size]; omega)
      have t3 : ((((Deque.fresh w.mtu.toNat w.overhead.toNat).prepend [0x23]).push (encode .u64 .be tx.toNat)).push
          (encode .u64 .be rx.toNat)).tail = (w.mtu - w.overhead).toNat - 16 := by
        simp [Deque.tail, Deque.fresh, Deque.prepend, Deque.push, length_encode, Width.size]; omega
      obtain ⟨a4, r4, b4, e4⟩ := e3.write_any w.name
      rw [t3] at e4
      exact ⟨a4, _, e4, by simp [fitted, h8, h16, encode, Width.size, Deque.push, Deque.prepend, Deque.fresh],
        by simp [Deque.push, Deque.prepend, Deque.fresh]; omega, finish _ _ _ _ _ _ b2 b3 b4⟩

theorem Reports.moved {w w' : World} {i : Nat} {tx rx : UInt64} {o : List Obs} (h : Reports w i tx rx) (hm : Moved o w w')
    (hi : w'.procs i = w.procs i) : Reports w' i tx rx := by
  refine ⟨by rw [hm.n]; exact h.pos, by rw [hi]; exact h.stat, fun j h1 h2 => (hm.same j).opens (h.opens j h1 (by rw [← hm.n]; exact h2)),
    fun j h1 h2 h3 => hm.idle j (h.idle j h1 (by rw [← hm.n]; exact h2) ((hm.same j).frames h3)), ?_, by rw [hm.mtu]; exact h.mtu⟩
  rw [Built, hm.overhead, hm.n, room_same hm.same]
  exact h.built

theorem below_moved {w w' : World} {o : List Obs} (hm : Moved o w w') (i : Nat) (b : List Byte) : below w' i b = below w i b := by
  simp only [below, hm.n, wrap_same hm.same]

/-- What the StatCounter of `w` answers. -/
def World.reply (w : World) (tx rx : UInt64) : List Byte := 0x23 :: fitted (w.mtu - w.overhead).toNat tx rx w.name

/-- Being asked: one write of the answer, which carries the two counters as they are and the name of the stack, as far as they fit;
nothing is delivered, and nothing from the StatCounter up changes. -/
theorem stat_answers (w : World) (i : Nat) (tx rx : UInt64) (h : Reports w i tx rx)
    (hfit : w.overhead ≤ w.mtu) (c : ConnId)
    (hbytes : (w.conns c).useRef = false) (hopen : (w.conns c).closed = false)
    (hw : ∀ t p, (w.write t c p).err = none ∧ (w.write t c p).n ≤ p.length) (fuel : Nat) (hf : 2 * w.n + 4 ≤ fuel) :
    ∃ w', receive fuel c (below w i [0x10]) w = (.ok (), w') ∧
      Moved [.wire c (below w i (w.reply tx rx)) (w.write w.trace c (below w i (w.reply tx rx)))] w w' ∧
      ∀ j, j ≤ i → w'.procs j = w.procs j := by
  have hn := h.pos
  have hsum : i + 1 + (w.n - (i + 1)) = w.n := by omega
  have hlen := h.length [0x10]
  have hmtu := h.mtu
  simp only [List.length_cons, List.length_nil] at hlen
  have hov := h.room
  have hrn := room_nonneg (seg w (i + 1) (w.n - (i + 1)))
  obtain ⟨ub, r1, r2⟩ := receive_ok (c := c) (w := w) (bs := below w i [0x10]) (wrap_ne _ _ (by simp)) (by omega)
  obtain ⟨f, rfl⟩ : ∃ f, fuel = f + 2 + (w.n - (i + 1)) := ⟨fuel - 2 - (w.n - (i + 1)), by omega⟩
  obtain ⟨ctx1, w1, ⟨m1, k1⟩, car1, conn1, ses1, _, up1⟩ := segment_open_above 0 [0x10] (by simp) (i + 1) (w.n - (i + 1)) (f + 2)
    { Ctx.new with conn := some c, buf := some ub } w (by omega) (by omega) (fun j h1 h2 => h.opens j (by omega) (by omega))
    (fun j h1 h2 h3 => h.idle j (by omega) (by omega) h3) ⟨c, rfl, hbytes⟩ ⟨ub, rfl, r1.1, by rw [r1.data]; rfl⟩
    (by have : (wrap (seg w (i + 1) (w.n - (i + 1))) 0 [0x10]) = below w i [0x10] := rfl
        rw [this]; omega)
  have hses : sessionOf ctx1 = 0 := by
    rcases ses1 with ⟨_, h⟩ | ⟨_, h⟩
    · rw [h]; rfl
    · rw [h]; rfl
  have hi : w1.procs i = ⟨true, .stat tx rx⟩ := by rw [k1 i (by omega), h.stat]
  have hr1 : Reports w1 i tx rx := h.moved m1 (by rw [hi, h.stat])
  obtain ⟨s2, d2, b1, b2, b3, b4⟩ := stat_answer (f + 1) i tx rx ctx1 w1 [] ⟨c, conn1, by rw [m1.conns]; exact hbytes⟩ car1
    (by rw [m1.overhead]; omega) (by rw [m1.overhead, m1.mtu]; exact hfit)
  obtain ⟨ctx3, w3, c1, c2, c3⟩ := below_written hr1 (ctx := { ctx1 with buf := some s2 }) c conn1 rfl b1 hses (by rw [b2]; simp)
    (by rw [b3]; omega) (by rw [m1.conns]; exact hbytes) (by rw [m1.conns]; exact hopen) (by rw [m1.write]; exact hw) (f + 1) (by rw [m1.n]; omega)
  have hcall : call (f + 2) .up (i + 1) ctx1 w1 = (.ok ctx3, w3) := by
    rw [call_up (by rw [m1.n]; omega), hi]
    exact (b4 _).trans c1
  obtain ⟨w2, u1, u2, u3⟩ := up1 _ _ _ hcall c2
  rw [b2, below_moved m1, m1.name, m1.mtu, m1.overhead, m1.write, m1.trace, List.append_nil] at u2
  refine ⟨w2, ?_, u2, fun j hj => ?_⟩
  · rw [hsum] at u1
    rw [r2, bind_of_ok u1]
    rfl
  · rw [u3 j (by omega), c3 j hj, k1 j (by omega)]

/-- The processor's part of showing an answer. -/
theorem stat_show (fuel j : Nat) (tx rx tx' rx' : UInt64) (name : List Byte) (ctx : Ctx) (w : World)
    (hb : OnBytes ctx w) (hcar : Carries ctx (answer tx rx name)) :
    ∃ ctx', Stops (fun nb => onLower fuel j ⟨true, .stat tx' rx'⟩ nb ctx w)
      (.ok ctx', { w with trace := w.trace ++ [.shown tx.toNat rx.toNat (printed name)] }) := by
  obtain ⟨c', hc', hr'⟩ := hb
  obtain ⟨r, q, n1, n2, n3⟩ := hcar.buf
  simp only [answer] at n3
  have le8 : ∀ v, (encBE 8 v).length = 8 := fun v => length_encBE _ _
  obtain ⟨r1, p1, q1⟩ := n2.readByte_cons n3
  have c1 : (q.pop 1).content = encBE 8 tx.toNat ++ (encBE 8 rx.toNat ++ name) := by
    simp [Deque.pop, n3]
  obtain ⟨r2, p2, q2⟩ := q1.readU .u64 .be (by rw [c1]; simp [le8, Width.size])
  have c2 : ((q.pop 1).pop 8).content = encBE 8 rx.toNat ++ name := by
    simp only [Deque.pop] at c1 ⊢
    rw [c1, List.drop_append_of_le_length (by rw [le8]; omega), List.drop_of_length_le (by rw [le8]; omega), List.nil_append]
  obtain ⟨r3, p3, q3⟩ := q2.readU .u64 .be (by show 8 ≤ ((q.pop 1).pop 8).content.length; rw [c2]; simp [le8])
  have c3 : (((q.pop 1).pop 8).pop 8).content = name := by
    rw [Deque.pop]; simp only; rw [c2, List.drop_append_of_le_length (by rw [le8]; omega), List.drop_of_length_le (by rw [le8]; omega), List.nil_append]
  obtain ⟨r4, p4, _⟩ := q3.read 128
  have dec : ∀ v : UInt64, ∀ rest, decode .be ((encBE 8 v.toNat ++ rest).take 8) = v.toNat := by
    intro v rest
    rw [List.take_append_of_le_length (by rw [le8]; omega), List.take_of_length_le (by rw [le8]; omega)]
    simp only [decode]
    rw [decBE_encBE_mod]
    exact Nat.mod_eq_of_lt v.toNat_lt
  refine ⟨{ ctx with buf := some r4 }, fun nb => ?_⟩
  simp only [onLower, statLower]
  rw [bind_of_ok (by rw [hc', useReference_some, hr'])]
  simp only [Bool.false_eq_true, if_false, n1, if_true]
  rw [bind_onBuf p1]
  simp only [Option.isSome_none, Bool.false_eq_true, if_false, if_true, statShow]
  rw [if_neg (by decide)]
  rw [bind_onBuf p2, bind_onBuf p3, bind_onBuf p4]
  have c1' : (q.pop 1).content.take (Width.size .u64) = (encBE 8 tx.toNat ++ (encBE 8 rx.toNat ++ name)).take 8 := by
    rw [c1]; rfl
  have c2' : ((q.pop 1).pop (Width.size .u64)).content.take (Width.size .u64) = (encBE 8 rx.toNat ++ name).take 8 := by
    show ((q.pop 1).pop 8).content.take 8 = _
    rw [c2]
  have c3' : (Deque.readRes (((q.pop 1).pop (Width.size .u64)).pop (Width.size .u64)) 128).1 = name.take 128 := by
    show (Deque.readRes (((q.pop 1).pop 8).pop 8) 128).1 = name.take 128
    simp only [Deque.readRes, c3]
    split
    · rename_i h; rw [h]; rfl
    · rfl
  have hpr : name.take 128 ++ List.replicate (128 - (name.take 128).length) 0 = printed name := by
    rw [printed, List.take_append, List.length_take]
    congr 1
    rw [List.take_replicate]
    congr 1
    omega
  simp only [c1', c2', c3', dec, hpr]
  rfl

theorem printed_pad (name : List Byte) : name.take 128 ++ List.replicate (128 - (name.take 128).length) 0 = printed name := by
  rw [printed, List.take_append, List.length_take]
  congr 1
  rw [List.take_replicate]
  congr 1
  omega

/-- The same for every answer, complete or not. -/
theorem stat_show_any (fuel j : Nat) (r : Nat) (tx rx tx' rx' : UInt64) (name : List Byte) (ctx : Ctx) (w : World)
    (hb : OnBytes ctx w) (hcar : Carries ctx (0x23 :: fitted r tx rx name)) :
    ∃ ctx', Stops (fun nb => onLower fuel j ⟨true, .stat tx' rx'⟩ nb ctx w) (.ok ctx', { w with trace := w.trace ++ [shownFor r tx rx name] }) := by
  by_cases h16 : r < 16
  · obtain ⟨c', hc', hr'⟩ := hb
    obtain ⟨s, q, n1, n2, n3⟩ := hcar.buf
    have le8 : ∀ v, (encBE 8 v).length = 8 := fun v => length_encBE _ _
    obtain ⟨r1, p1, q1⟩ := n2.readByte_cons n3
    have c1 : (q.pop 1).content = fitted r tx rx name := by simp [Deque.pop, n3]
    have finish : ∀ x r2 y r3 z r4, UBuf.readU .u64 .be r1 = (.ok x, r2) → UBuf.readU .u64 .be r2 = (.ok y, r3) → UBuf.read 128 r3 = (.ok z, r4) →
        Stops (fun nb => onLower fuel j ⟨true, .stat tx' rx'⟩ nb ctx w)
          (.ok { ctx with buf := some r4 }, { w with trace := w.trace ++ [.shown x.1 y.1 (z.1 ++ List.replicate (128 - z.1.length) 0)] }) := by
      intro x r2 y r3 z r4 p2 p3 p4 nb
      simp only [onLower, statLower]
      rw [bind_of_ok (by rw [hc', useReference_some, hr'])]
      simp only [Bool.false_eq_true, if_false, n1, if_true]
      rw [bind_onBuf p1]
      simp only [Option.isSome_none, Bool.false_eq_true, if_false, if_true, statShow]
      rw [if_neg (by decide)]
      rw [bind_onBuf p2, bind_onBuf p3, bind_onBuf p4]
      rfl
    have hres : ∀ d : Deque, (Deque.readRes d 128).1 = d.content.take 128 := by
      intro d
      simp only [Deque.readRes]
      split
      · rename_i h; rw [h]; rfl
      · rfl
    by_cases h8 : r < 8
    · have hlen : (q.pop 1).content.length < 8 := by
        rw [c1, fitted, if_pos h8, List.length_take]; omega
      obtain ⟨r2, p2, q2⟩ := q1.readU_short .u64 .be hlen
      obtain ⟨r3, p3, q3⟩ := q2.readU_short .u64 .be hlen
      obtain ⟨r4, p4, _⟩ := q3.read 128
      have := finish _ _ _ _ _ _ p2 p3 p4
      rw [hres, printed_pad, c1, fitted, if_pos h8] at this
      exact ⟨_, by rw [shownFor, if_pos h8]; exact this⟩
    · have c1' : (q.pop 1).content = encBE 8 tx.toNat ++ name.take (r - 8) := by rw [c1, fitted, if_neg h8, if_pos h16]
      obtain ⟨r2, p2, q2⟩ := q1.readU .u64 .be (by rw [c1']; simp [le8, Width.size])
      have c2 : ((q.pop 1).pop (Width.size .u64)).content = name.take (r - 8) := by
        show (q.pop 1).content.drop 8 = _
        rw [c1', List.drop_append_of_le_length (by rw [le8]; omega), List.drop_of_length_le (by rw [le8]; omega), List.nil_append]
      obtain ⟨r3, p3, q3⟩ := q2.readU_short .u64 .be (by rw [c2, List.length_take]; show _ < 8; omega)
      obtain ⟨r4, p4, _⟩ := q3.read 128
      have := finish _ _ _ _ _ _ p2 p3 p4
      have dec : decode .be ((q.pop 1).content.take (Width.size .u64)) = tx.toNat := by
        rw [c1']
        show decode .be ((encBE 8 tx.toNat ++ name.take (r - 8)).take 8) = _
        rw [List.take_append_of_le_length (by rw [le8]; omega), List.take_of_length_le (by rw [le8]; omega)]
        simp only [decode]
        rw [decBE_encBE_mod]
        exact Nat.mod_eq_of_lt tx.toNat_lt
      rw [hres, printed_pad, c2, dec] at this
      exact ⟨_, by rw [shownFor, if_neg h8, if_pos h16]; exact this⟩
  · have h8 : ¬ r < 8 := by omega
    rw [shownFor, if_neg h8, if_neg h16]
    refine stat_show fuel j tx rx tx' rx' (name.take (r - 16)) ctx w hb ?_
    rw [fitted, if_neg h8, if_neg h16] at hcar
    exact hcar

/-- Getting an answer: exactly its numbers and its name are printed. -/
theorem stat_shows (w : World) (i r : Nat) (tx rx tx' rx' : UInt64) (h : Reports w i tx' rx') (name : List Byte)
    (hfit : ((below w i (0x23 :: fitted r tx rx name)).length : Int) ≤ w.mtu) (c : ConnId)
    (hbytes : (w.conns c).useRef = false) (fuel : Nat) (hf : w.n + 2 ≤ fuel) :
    ∃ w', receive fuel c (below w i (0x23 :: fitted r tx rx name)) w = (.ok (), w') ∧ Moved [shownFor r tx rx name] w w' ∧
      ∀ j, j ≤ i → w'.procs j = w.procs j := by
  have hn := h.pos
  have hsum : i + 1 + (w.n - (i + 1)) = w.n := by omega
  have hmtu := h.mtu
  obtain ⟨ub, r1, r2⟩ := receive_ok (c := c) (w := w) (bs := below w i (0x23 :: fitted r tx rx name)) (wrap_ne _ _ (by simp)) hfit
  obtain ⟨f, rfl⟩ : ∃ f, fuel = f + 2 + (w.n - (i + 1)) := ⟨fuel - 2 - (w.n - (i + 1)), by omega⟩
  obtain ⟨ctx1, w1, ⟨m1, k1⟩, car1, conn1, _, _, up1⟩ := segment_open_above 0 (0x23 :: fitted r tx rx name) (by simp) (i + 1) (w.n - (i + 1)) (f + 2)
    { Ctx.new with conn := some c, buf := some ub } w (by omega) (by omega) (fun j h1 h2 => h.opens j (by omega) (by omega))
    (fun j h1 h2 h3 => h.idle j (by omega) (by omega) h3) ⟨c, rfl, hbytes⟩ ⟨ub, rfl, r1.1, by rw [r1.data]; rfl⟩
    (by have : (wrap (seg w (i + 1) (w.n - (i + 1))) 0 (0x23 :: fitted r tx rx name)) = below w i (0x23 :: fitted r tx rx name) := rfl
        rw [this]; omega)
  have hi : w1.procs i = ⟨true, .stat tx' rx'⟩ := by rw [k1 i (by omega), h.stat]
  obtain ⟨ctx2, b1⟩ := stat_show_any (f + 1) i r tx rx tx' rx' name ctx1 w1 ⟨c, conn1, by rw [m1.conns]; exact hbytes⟩ car1
  have hcall : call (f + 2) .up (i + 1) ctx1 w1 = (.ok ctx2, { w1 with trace := w1.trace ++ [shownFor r tx rx name] }) := by
    rw [call_up (by rw [m1.n]; omega), hi]
    exact b1 _
  obtain ⟨w2, u1, u2, u3⟩ := up1 _ _ _ hcall (Moved.obs w1 _)
  refine ⟨w2, ?_, u2, fun j hj => ?_⟩
  · rw [hsum] at u1
    rw [r2, bind_of_ok u1]
    rfl
  · rw [u3 j (by omega)]
    exact k1 j (by omega)

/-- The processors below the two StatCounters are the same (those above may be different). -/
structure SameBelow (a b : World) (i j : Nat) : Prop where
  n : b.n - (j + 1) = a.n - (i + 1)
  same : ∀ q, q < a.n - (i + 1) → SameProc (a.procs (i + 1 + q)) (b.procs (j + 1 + q))

theorem SameBelow.below {a b : World} {i j : Nat} (h : SameBelow a b i j) (bs : List Byte) : Stack.below b j bs = Stack.below a i bs := by
  simp only [Stack.below, h.n]
  have key : ∀ (m x y : Nat), (∀ q, q < m → SameProc (a.procs (x + q)) (b.procs (y + q))) → ∀ bs, wrap (seg b y m) 0 bs = wrap (seg a x m) 0 bs := by
    intro m
    induction m with
    | zero => intro x y _ bs; rfl
    | succ m ih =>
      intro x y h bs
      rw [seg_succ, seg_succ, wrap, wrap]
      have h0 : SameProc (a.procs x) (b.procs y) := h 0 (by omega)
      rw [h0.hdr_eq]
      refine ih (x + 1) (y + 1) (fun q hq => ?_) _
      have := h (q + 1) (by omega)
      rwa [show x + (q + 1) = x + 1 + q by omega, show y + (q + 1) = y + 1 + q by omega] at this
  exact key _ _ _ h.same bs

/-- A collector asks, the stack asked answers, and the collector prints what `shownFor` says for the room that stack's MTU leaves;
nobody else notices: no endpoint gets anything on either side, and neither StatCounter's counters change.  The
processors above the two StatCounters may differ. -/
theorem c77_shown (a b : World) (i j : Nat) (ta ra tb rb : UInt64) (ha : Reports a i ta ra) (hb : Reports b j tb rb)
    (hsame : SameBelow a b i j) (hmtu : b.mtu ≤ a.mtu) (hfa : a.overhead < a.mtu) (hfit : b.overhead ≤ b.mtu)
    (c d : ConnId) (hc : a.conns c = ⟨false, false⟩) (hd : b.conns d = ⟨false, false⟩)
    (hwa : ∀ t p, a.write t c p = ⟨p.length, none⟩) (hwb : ∀ t p, b.write t d p = ⟨p.length, none⟩)
    (fuel : Nat) (hfuel : 2 * b.n + 4 ≤ fuel) (hfuel' : a.n + 2 ≤ fuel) :
    ∃ req ans a1 b1 a2,
      sendControl fuel i c 0x10 a = (.ok (), a1) ∧ Moved [.wire c req ⟨req.length, none⟩] a a1 ∧
      receive fuel d req b = (.ok (), b1) ∧ Moved [.wire d ans ⟨ans.length, none⟩] b b1 ∧
      receive fuel c ans a1 = (.ok (), a2) ∧ Moved [shownFor (b.mtu - b.overhead).toNat tb rb b.name] a1 a2 ∧
      a2.procs i = a.procs i ∧ b1.procs j = b.procs j := by
  obtain ⟨a1, h1, h2, h3⟩ := stat_asks a i ta ra ha hfa c (by rw [hc]) (by rw [hc]) (fun t p => by rw [hwa]; exact ⟨rfl, Nat.le_refl _⟩) fuel (by omega)
  obtain ⟨b1, k1, k2, k3⟩ := stat_answers b j tb rb hb hfit d (by rw [hd]) (by rw [hd]) (fun t p => by rw [hwb]; exact ⟨rfl, Nat.le_refl _⟩) fuel hfuel
  have hlen := hb.length (b.reply tb rb)
  have hal : (b.reply tb rb).length ≤ 1 + (b.mtu - b.overhead).toNat := by
    have := fitted_length (b.mtu - b.overhead).toNat tb rb b.name
    simp only [World.reply, List.length_cons]; omega
  obtain ⟨a2, l1, l2, l3⟩ := stat_shows a1 i (b.mtu - b.overhead).toNat tb rb ta ra (ha.moved h2 (h3 i (Nat.le_refl _))) b.name
    (by rw [below_moved h2, ← hsame.below, h2.mtu]; simp only [World.reply] at hlen hal; omega) c (by rw [h2.conns, hc]) fuel (by rw [h2.n]; omega)
  rw [hwa] at h2
  rw [hwb] at k2
  rw [hsame.below] at k1
  rw [hsame.below] at k2
  rw [below_moved h2] at l1
  exact ⟨_, _, a1, b1, a2, h1, h2, k1, k2, l1, l2, by rw [l3 i (Nat.le_refl _), h3 i (Nat.le_refl _)], k3 j (Nat.le_refl _)⟩

/-- A cut name is printed like the name iff only zero bytes are missing in the first 128. -/
theorem printed_take (name : List Byte) (r : Nat) : printed (name.take r) = printed name ↔ ∀ i, r ≤ i → i < 128 → name.getD i 0 = 0 := by
  have key : ∀ (l : List Byte) i, i < 128 → (printed l)[i]? = some (l.getD i 0) := by
    intro l i hi
    rw [printed, List.getElem?_take_of_lt hi, List.getElem?_append]
    split
    · rename_i h; rw [List.getD_eq_getElem?_getD, List.getElem?_eq_getElem h]; rfl
    · rename_i h
      rw [List.getElem?_replicate, if_pos (by omega), List.getD_eq_getElem?_getD, List.getElem?_eq_none (by omega)]; rfl
  have klen : ∀ l : List Byte, (printed l).length = 128 := by intro l; simp [printed]
  have kt : ∀ i, (name.take r).getD i 0 = if i < r then name.getD i 0 else 0 := by
    intro i
    rw [List.getD_eq_getElem?_getD, List.getElem?_take]
    split
    · rw [List.getD_eq_getElem?_getD]
    · rfl
  constructor
  · intro h i h1 h2
    have := key (name.take r) i h2
    rw [h, key name i h2, kt, if_neg (by omega)] at this
    injection this
  · intro h
    apply List.ext_getElem?
    intro i
    by_cases hi : i < 128
    · rw [key _ _ hi, key _ _ hi, kt]
      split
      · rfl
      · rw [h i (by omega) hi]
    · rw [List.getElem?_eq_none (by rw [klen]; omega), List.getElem?_eq_none (by rw [klen]; omega)]

/-- C77, exactly: with room for `r` bytes, the two counters and the name are shown iff both counters fit (or one that does not fit is 0) and nothing
but zero bytes are missing in the first 128 of the name. -/
theorem c77_exact (r : Nat) (tx rx : UInt64) (name : List Byte) :
    shownFor r tx rx name = .shown tx.toNat rx.toNat (printed name) ↔
      (8 ≤ r ∨ tx = 0) ∧ (16 ≤ r ∨ rx = 0) ∧ ∀ i, (if r < 8 then r else if r < 16 then r - 8 else r - 16) ≤ i → i < 128 → name.getD i 0 = 0 := by
  have z : ∀ v : UInt64, (0 : Nat) = v.toNat ↔ v = 0 := fun v => ⟨fun h => UInt64.toNat_inj.mp h.symm, fun h => by rw [h]; rfl⟩
  unfold shownFor
  by_cases h8 : r < 8
  · have h16 : ¬ 16 ≤ r := by omega
    simp only [if_pos h8, Obs.shown.injEq, z, printed_take, Nat.not_le.mpr h8, h16, false_or]
  · have h8' : 8 ≤ r := by omega
    by_cases h16 : r < 16
    · simp only [if_neg h8, if_pos h16, Obs.shown.injEq, z, printed_take, h8', Nat.not_le.mpr h16, false_or, true_or, true_and]
    · have h16' : 16 ≤ r := by omega
      simp only [if_neg h8, if_neg h16, Obs.shown.injEq, printed_take, h8', h16', true_or, true_and]

/-- C77 (partial: the MTU has room for the counters and the printed part of the name): the collector prints the other stack's two counters and its
name.  Missing: an MTU with less room, for which `c77_exact` says what is lost, see `c77_violated`. -/
theorem c77_report_partial (a b : World) (i j : Nat) (ta ra tb rb : UInt64) (ha : Reports a i ta ra) (hb : Reports b j tb rb)
    (hsame : SameBelow a b i j) (hmtu : b.mtu ≤ a.mtu) (hfa : a.overhead < a.mtu)
    (hfit : b.overhead + 16 + (min b.name.length 128 : Nat) ≤ b.mtu)
    (c d : ConnId) (hc : a.conns c = ⟨false, false⟩) (hd : b.conns d = ⟨false, false⟩)
    (hwa : ∀ t p, a.write t c p = ⟨p.length, none⟩) (hwb : ∀ t p, b.write t d p = ⟨p.length, none⟩)
    (fuel : Nat) (hfuel : 2 * b.n + 4 ≤ fuel) (hfuel' : a.n + 2 ≤ fuel) :
    ∃ req ans a1 b1 a2,
      sendControl fuel i c 0x10 a = (.ok (), a1) ∧ Moved [.wire c req ⟨req.length, none⟩] a a1 ∧
      receive fuel d req b = (.ok (), b1) ∧ Moved [.wire d ans ⟨ans.length, none⟩] b b1 ∧
      receive fuel c ans a1 = (.ok (), a2) ∧ Moved [.shown tb.toNat rb.toNat (printed b.name)] a1 a2 ∧
      a2.procs i = a.procs i ∧ b1.procs j = b.procs j := by
  have := c77_shown a b i j ta ra tb rb ha hb hsame hmtu hfa (by omega) c d hc hd hwa hwb fuel hfuel hfuel'
  rwa [(c77_exact (b.mtu - b.overhead).toNat tb rb b.name).mpr ⟨.inl (by omega), .inl (by omega), fun i h1 h2 => ?_⟩] at this
  rw [if_neg (by omega), if_neg (by omega)] at h1
  rw [List.getD_eq_getElem?_getD, List.getElem?_eq_none (by omega)]
  rfl

/-- C77, exactly, on the run: the collector prints the other stack's two counters and its name if and only if the room
the other stack's MTU leaves holds each counter that is not 0, and only zero bytes of the first 128 of the name are
cut off. -/
theorem c77_iff (a b : World) (i j : Nat) (ta ra tb rb : UInt64) (ha : Reports a i ta ra) (hb : Reports b j tb rb)
    (hsame : SameBelow a b i j) (hmtu : b.mtu ≤ a.mtu) (hfa : a.overhead < a.mtu) (hfit : b.overhead ≤ b.mtu)
    (c d : ConnId) (hc : a.conns c = ⟨false, false⟩) (hd : b.conns d = ⟨false, false⟩)
    (hwa : ∀ t p, a.write t c p = ⟨p.length, none⟩) (hwb : ∀ t p, b.write t d p = ⟨p.length, none⟩)
    (fuel : Nat) (hfuel : 2 * b.n + 4 ≤ fuel) (hfuel' : a.n + 2 ≤ fuel) :
    ∃ req ans a1 b1 a2,
      sendControl fuel i c 0x10 a = (.ok (), a1) ∧ a1.trace = a.trace ++ [.wire c req ⟨req.length, none⟩] ∧
      receive fuel d req b = (.ok (), b1) ∧ b1.trace = b.trace ++ [.wire d ans ⟨ans.length, none⟩] ∧
      receive fuel c ans a1 = (.ok (), a2) ∧
      (a2.trace = a1.trace ++ [.shown tb.toNat rb.toNat (printed b.name)] ↔
        (8 ≤ (b.mtu - b.overhead).toNat ∨ tb = 0) ∧ (16 ≤ (b.mtu - b.overhead).toNat ∨ rb = 0) ∧
          ∀ x, (if (b.mtu - b.overhead).toNat < 8 then (b.mtu - b.overhead).toNat else if (b.mtu - b.overhead).toNat < 16 then
            (b.mtu - b.overhead).toNat - 8 else (b.mtu - b.overhead).toNat - 16) ≤ x → x < 128 → b.name.getD x 0 = 0) := by
  obtain ⟨req, ans, a1, b1, a2, h1, h2, h3, h4, h5, h6, _⟩ := c77_shown a b i j ta ra tb rb ha hb hsame hmtu hfa hfit c d hc hd hwa hwb fuel hfuel hfuel'
  refine ⟨req, ans, a1, b1, a2, h1, h2.trace, h3, h4.trace, h5, ?_⟩
  rw [h6.trace, ← c77_exact]
  simp

/-- What the counters are: after any conversation (`c60_conversation`) of `N` messages, every enabled StatCounter below the
codec has counted `N` more messages — sent on one side, received on the other — and is ready to report them. -/
theorem c77_counted (ws wr : World) (k : Nat) (hs : Carrier ws k) (hr : Carrier wr k) (hmat : Matching ws wr)
    (groups : List (List Item)) (bound : Nat)
    (hg : ∀ g ∈ groups, g ≠ [] ∧ g.length ≤ bound ∧ ((wires ws k g).length : Int) ≤ ws.mtu ∧
      ∀ x ∈ g, Message ws k x.v x.b x.s ∧ findEndPoint wr.served x.s = some x.ep)
    (hcase : (∀ g ∈ groups, g.length = 1) ∨ (k + 1 < wr.n ∧ Frames (wr.procs (wr.n - 1))))
    (cs : ConnId) (hs1 : (ws.conns cs).useRef = false) (hs2 : (ws.conns cs).closed = false)
    (hw : ∀ t p, (ws.write t cs p).err = none ∧ (ws.write t cs p).n ≤ p.length)
    (cr : ConnId) (hr1 : (wr.conns cr).useRef = false) (fuel : Nat) (hf : ws.n + bound + 1 < fuel)
    (j : Nat) (h1 : k < j) (h2 : j < ws.n) (ts rs tr rr : UInt64) (hts : ws.procs j = ⟨true, .stat ts rs⟩) (htr : wr.procs j = ⟨true, .stat tr rr⟩) :
    ∃ reads t ws' wr', sendAll fuel cs groups.flatten ws = (.ok (), ws') ∧ Moved t ws ws' ∧ sentBytes cs t = reads.flatten ∧
      receiveAll fuel cr reads wr = (.ok (), wr') ∧ Moved (rxs cr groups.flatten) wr wr' ∧
      Reports ws' j (ts + UInt64.ofNat groups.flatten.length) rs ∧ Reports wr' j tr (rr + UInt64.ofNat groups.flatten.length) := by
  obtain ⟨reads, t, ws', wr', a1, a2, a3, _, a5, a6, a7, a8⟩ := conversation_counted ws wr k hs hr hmat groups bound hg hcase cs hs1 hs2 hw cr hr1 fuel hf
  have hrep : ∀ (w w' : World) (o : List Obs) (x y : UInt64), Carrier w k → w.n = ws.n → Moved o w w' → w'.procs j = ⟨true, .stat x y⟩ → Reports w' j x y := by
    intro w w' o x y hc hn hm hp
    have hc' := hc.moved hm
    exact ⟨by rw [hm.n, hn]; exact h2, hp, fun i i1 i2 => hc'.opens i (by omega) i2, fun i i1 i2 => hc'.idle i (by omega) i2, hc'.built, hc'.mtu⟩
  refine ⟨reads, t, ws', wr', a1, a2, a3, a5, a6, hrep ws ws' _ _ _ hs rfl a2 ?_, hrep wr wr' _ _ _ hr hmat.n a6 ?_⟩
  · rw [a7 j h1 h2, hts, Proc.sent_stat]
  · rw [a8 j h1 (by rw [hmat.n]; exact h2) (by rw [htr]; rintro ⟨⟨c, hc⟩, _⟩; cases hc), htr, Proc.got_stat]

/-! ## Examples -/

/-- A collector: a StatCounter above a FrameDecoder, nothing else. -/
def collector : World :=
  { quiet with
    mtu := 64
    overhead := 5
    n := 2
    procs := fun j => match j with
      | 0 => ⟨true, .stat 0 0⟩
      | _ => ⟨true, .frame (some UBuf.demo)⟩ }

/-- The stack asked: a codec, a StatCounter that has counted 7 and 300, a FrameDecoder. -/
def asked : World :=
  { quiet with
    mtu := 64
    overhead := 5
    n := 3
    name := [65, 66]
    procs := fun j => match j with
      | 0 => ⟨true, .bytesCodec⟩
      | 1 => ⟨true, .stat 7 300⟩
      | _ => ⟨true, .frame (some UBuf.demo)⟩ }

theorem collector_reports : Reports collector 0 0 0 := by
  refine ⟨by decide, rfl, fun j h1 h2 => ?_, fun j h1 h2 _ => ?_, rfl, by decide⟩
  · have : j = 1 := by simp only [collector] at h2; omega
    subst this; trivial
  · have : j = 1 := by simp only [collector] at h2; omega
    subst this; exact ⟨UBuf.demo, rfl, demo_buf.1, demo_buf.data⟩

theorem asked_reports : Reports asked 1 7 300 := by
  refine ⟨by decide, rfl, fun j h1 h2 => ?_, fun j h1 h2 _ => ?_, rfl, by decide⟩
  · have : j = 2 := by simp only [asked] at h2; omega
    subst this; trivial
  · have : j = 2 := by simp only [asked] at h2; omega
    subst this; exact ⟨UBuf.demo, rfl, demo_buf.1, demo_buf.data⟩

example : ∃ req ans a1 b1 a2,
    sendControl 20 0 0 0x10 collector = (.ok (), a1) ∧ Moved [.wire 0 req ⟨req.length, none⟩] collector a1 ∧
    receive 20 0 req asked = (.ok (), b1) ∧ Moved [.wire 0 ans ⟨ans.length, none⟩] asked b1 ∧
    receive 20 0 ans a1 = (.ok (), a2) ∧ Moved [.shown 7 300 (65 :: 66 :: List.replicate 126 0)] a1 a2 ∧
    a2.procs 0 = collector.procs 0 ∧ b1.procs 1 = asked.procs 1 :=
  c77_report_partial collector asked 0 1 0 0 7 300 collector_reports asked_reports
    ⟨rfl, fun q hq => by have : q = 0 := by (simp only [collector] at hq; omega)
                         subst this; exact ⟨rfl, .refl _⟩⟩ (by decide) (by decide) (by decide) 0 0 rfl rfl
    (fun _ _ => rfl) (fun _ _ => rfl) 20 (by decide) (by decide)

/-- The same stack with an MTU of 20: there is no room for the second counter, and the name is taken for a part of it. -/
def tight : World := { asked with mtu := 20 }

theorem tight_reports : Reports tight 1 7 300 :=
  ⟨asked_reports.pos, rfl, asked_reports.opens, asked_reports.idle, rfl, by decide⟩

/-- C77 is violated if the MTU is small: a stack that has counted 7 and 300 messages is shown with 7 and 0. -/
theorem c77_violated : ∃ req ans a1 b1 a2,
    sendControl 20 0 0 0x10 collector = (.ok (), a1) ∧ Moved [.wire 0 req ⟨req.length, none⟩] collector a1 ∧
    receive 20 0 req tight = (.ok (), b1) ∧ Moved [.wire 0 ans ⟨ans.length, none⟩] tight b1 ∧
    receive 20 0 ans a1 = (.ok (), a2) ∧ Moved [.shown 7 0 (65 :: 66 :: List.replicate 126 0)] a1 a2 ∧
    a2.procs 0 = collector.procs 0 ∧ b1.procs 1 = tight.procs 1 :=
  c77_shown collector tight 0 1 0 0 7 300 collector_reports tight_reports
    ⟨rfl, fun q hq => by have : q = 0 := by (simp only [collector] at hq; omega)
                         subst this; exact ⟨rfl, .refl _⟩⟩ (by decide) (by decide) (by decide) 0 0 rfl rfl
    (fun _ _ => rfl) (fun _ _ => rfl) 20 (by decide) (by decide)

/-- A conversation of three messages in two reads: both StatCounters count three. -/
example : ∃ reads t ws' wr', sendAll 20 0 [⟨.bytes [9], [9], 3, 7⟩, ⟨.bytes [8, 8], [8, 8], 3, 7⟩, ⟨.bytes [7], [7], 3, 7⟩] five = (.ok (), ws') ∧
    Moved t five ws' ∧ sentBytes 0 t = reads.flatten ∧ receiveAll 20 0 reads five = (.ok (), wr') ∧
    Moved [.rx 7 (some 0) (.bytes [9]), .rx 7 (some 0) (.bytes [8, 8]), .rx 7 (some 0) (.bytes [7])] five wr' ∧
    Reports ws' 2 3 0 ∧ Reports wr' 2 0 3 :=
  c77_counted five five 0 five_carrier five_carrier five_matching
    [[⟨.bytes [9], [9], 3, 7⟩, ⟨.bytes [8, 8], [8, 8], 3, 7⟩], [⟨.bytes [7], [7], 3, 7⟩]] 2
    (by
      intro g hg
      simp only [List.mem_cons, List.not_mem_nil, or_false] at hg
      rcases hg with rfl | rfl
      · refine ⟨by simp, by simp, by decide, fun x hx => ?_⟩
        simp only [List.mem_cons, List.not_mem_nil, or_false] at hx
        rcases hx with rfl | rfl
        · exact ⟨five_message _ (by simp) (by simp), rfl⟩
        · exact ⟨five_message _ (by simp) (by simp), rfl⟩
      · refine ⟨by simp, by simp, by decide, fun x hx => ?_⟩
        simp only [List.mem_cons, List.not_mem_nil, or_false] at hx
        subst hx
        exact ⟨five_message _ (by simp) (by simp), rfl⟩)
    (.inr ⟨by decide, ⟨_, rfl⟩, rfl⟩) 0 rfl rfl (fun _ p => ⟨rfl, Nat.le_refl _⟩) 0 rfl 20 (by decide)
    2 (by decide) (by decide) 0 0 0 0 rfl rfl

end Verif.Stack
