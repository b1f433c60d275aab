import Verif.Stack.Buf

/-!
# What each handler does, in terms of its neighbours

Each lemma rewrites a handler call to the call of a neighbour on an updated context.
-/

namespace Verif.Stack
open GoM UBuf

variable {ctx : Ctx} {w : World} {s : St} {d : Deque}

theorem useReference_some (c : ConnId) (w : World) : useReference (some c) w = (.ok (w.conns c).useRef, w) := rfl
theorem useReference_none (w : World) : useReference none w = (.panic, w) := rfl

theorem prependAll_ok {d : Deque} {bs : List Byte} (h : bs.length ≤ d.head) :
    d.prependAll bs = (none, d.prepend bs) := by
  simp only [Deque.prependAll]; rw [if_neg (by omega)]

theorem prependAll_fail {d : Deque} {bs : List Byte} (h : d.head < bs.length) :
    d.prependAll bs = (some .headRoom, d) := by
  simp only [Deque.prependAll]; rw [if_pos h]

theorem toU32_lt (i : Int) : toU32 i < 2 ^ 32 := by
  simp only [toU32]; omega

theorem toU32_of_nat (n : Nat) (h : n < 2 ^ 32) : toU32 n = n := by
  simp only [toU32]; omega

/-! ## Codecs -/

theorem encodeDown_ok {nb : Nb} (bs : List Byte) (hb : bs ≠ []) (hov : 0 ≤ w.overhead)
    (hfit : w.overhead + bs.length ≤ w.mtu) :
    ∃ s, Buf s ⟨w.mtu.toNat, w.overhead.toNat, w.overhead.toNat, bs⟩ ∧
      encodeDown nb ctx bs w = nb.downUpper { ctx with buf := some s } w := by
  have hl : 0 < bs.length := List.length_pos_iff.mpr hb
  obtain ⟨s0, h1, h2⟩ := allocBuf_ok w.mtu w.overhead w (by omega) hov (by omega)
  have ht : (Deque.fresh w.mtu.toNat w.overhead.toNat).tail = w.mtu.toNat - w.overhead.toNat := by
    simp [Deque.tail, Deque.fresh]
  obtain ⟨s1, h3, h4⟩ := h2.write bs (by rw [ht]; omega) (by rw [ht]; omega)
  refine ⟨s1, by simpa [Deque.fresh, Deque.push] using h4, ?_⟩
  simp only [encodeDown]
  rw [bind_of_ok (get_apply w), bind_of_ok h1, bind_onBuf h3]
  rw [if_neg (by simp; exact hb)]

theorem encodeDown_drop {nb : Nb} (bs : List Byte) (hm : 0 < w.mtu) (hov : 0 ≤ w.overhead) (hov2 : w.overhead ≤ w.mtu)
    (hbad : bs = [] ∨ w.mtu < w.overhead + bs.length) :
    encodeDown nb ctx bs w = (.ok ctx, w) := by
  obtain ⟨s0, h1, h2⟩ := allocBuf_ok w.mtu w.overhead w hm hov hov2
  have ht : (Deque.fresh w.mtu.toNat w.overhead.toNat).tail = w.mtu.toNat - w.overhead.toNat := by
    simp [Deque.tail, Deque.fresh]
  simp only [encodeDown]
  rw [bind_of_ok (get_apply w), bind_of_ok h1]
  rcases hbad with rfl | hbad
  · obtain ⟨s1, e, h3, h4⟩ := h2.write_nil
    rw [bind_onBuf h3, if_pos (Or.inl rfl)]
    rfl
  · obtain ⟨s1, n, e, h3, h4⟩ := h2.write_short bs (by rw [ht]; omega)
    rw [bind_onBuf h3]
    simp

theorem encodeDown_panic {nb : Nb} (bs : List Byte) (hbad : w.mtu ≤ 0 ∨ w.overhead < 0 ∨ w.mtu < w.overhead) :
    encodeDown nb ctx bs w = (.panic, w) := by
  simp only [encodeDown]
  rw [bind_of_ok (get_apply w), bind_of_panic (allocBuf_panic _ _ w (by omega))]

theorem decodeUp_ok {k : Ctx → List Byte → GoM World Ctx} (hb : ctx.buf = some s) (hs : Buf s d) (hd : d.content ≠ []) :
    ∃ s', Buf s' (d.pop d.content.length) ∧
      decodeUp ctx k w = k { ctx with buf := some s' } d.content w := by
  obtain ⟨s', h1, h2⟩ := hs.read d.content.length
  refine ⟨s', by simpa using h2, ?_⟩
  have hr := hs.readable
  simp only [decodeUp, hb]
  rw [bind_of_ok (s' := w) (a := ()) (by simp [hr])]
  rw [hr, Int.toNat_natCast, bind_onBuf h1]
  simp only [Deque.readRes, if_neg hd, List.take_length]
  rw [if_neg (by simp [hd])]

theorem decodeUp_empty {k : Ctx → List Byte → GoM World Ctx} (hb : ctx.buf = some s) (hs : Buf s d) (hd : d.content = []) :
    ∃ s', Buf s' d ∧ decodeUp ctx k w = (.ok { ctx with buf := some s' }, w) := by
  obtain ⟨s', h1, h2⟩ := hs.read 0
  have e : d.pop 0 = d := by simp [Deque.pop]
  rw [Nat.zero_min, e] at h2
  refine ⟨s', h2, ?_⟩
  have hr := hs.readable
  simp only [decodeUp, hb]
  rw [bind_of_ok (s' := w) (a := ()) (by simp [hr])]
  rw [hr, hd]
  simp only [List.length_nil, Int.ofNat_zero, Int.toNat_zero]
  rw [bind_onBuf h1]
  simp [Deque.readRes, hd]

/-! ## SessionResolver -/

theorem sessionUpper_ok (hb : ctx.buf = some s) (hs : Buf s d) (hh : 4 ≤ d.head) :
    ∃ s', Buf s' (d.prepend (encBE 4 (toU32 (optionParseInt (ctx.opts "session") 0).1))) ∧ ∀ nb : Nb,
      sessionUpper true nb ctx w = nb.downUpper { ctx with buf := some s' } w := by
  obtain ⟨s', h1, h2⟩ := hs.writeHeadU .u32 .be (toU32 (optionParseInt (ctx.opts "session") 0).1)
  rw [prependAll_ok (by rw [length_encode]; exact hh)] at h1 h2
  refine ⟨s', h2, ?_⟩
  intro nb
  simp only [sessionUpper, if_true, hb]
  rw [bind_onBuf h1]
  rfl

theorem sessionUpper_fail (hb : ctx.buf = some s) (hs : Buf s d) (hh : d.head < 4) :
    ∃ s', Buf s' d ∧ ∀ nb : Nb, sessionUpper true nb ctx w = (.ok { ctx with buf := some s' }, w) := by
  obtain ⟨s', h1, h2⟩ := hs.writeHeadU .u32 .be (toU32 (optionParseInt (ctx.opts "session") 0).1)
  rw [prependAll_fail (by rw [length_encode]; exact hh)] at h1 h2
  refine ⟨s', h2, ?_⟩
  intro nb
  simp only [sessionUpper, if_true, hb]
  rw [bind_onBuf h1]
  rfl

theorem sessionLower_ok (hb : ctx.buf = some s) (hs : Buf s d) (hl : 4 ≤ d.content.length) :
    ∃ s', Buf s' (d.pop 4) ∧ ∀ nb : Nb,
      sessionLower true nb ctx w =
        nb.upLower ({ ctx with buf := some s' }.setOption "session" (.int (decBE (d.content.take 4)))) w := by
  obtain ⟨s', h1, h2⟩ := hs.readU .u32 .be hl
  refine ⟨s', h2, ?_⟩
  intro nb
  simp only [sessionLower, if_true, hb]
  rw [bind_onBuf h1]
  rfl

theorem sessionLower_short (hb : ctx.buf = some s) (hs : Buf s d) (hl : d.content.length < 4) :
    ∃ s', Buf s' d ∧ ∀ nb : Nb, sessionLower true nb ctx w = (.ok { ctx with buf := some s' }, w) := by
  obtain ⟨s', h1, h2⟩ := hs.readU_short .u32 .be hl
  refine ⟨s', h2, ?_⟩
  intro nb
  simp only [sessionLower, if_true, hb]
  rw [bind_onBuf h1]
  rfl

/-! ## FrameDecoder, sending -/

theorem frameUpper_ok {c : ConnId} (hc : ctx.conn = some c) (hr : (w.conns c).useRef = false)
    (hb : ctx.buf = some s) (hs : Buf s d) (hh : 4 ≤ d.head) :
    ∃ s', Buf s' (d.prepend (encBE 4 (toU32 d.content.length))) ∧ ∀ nb : Nb,
      frameUpper true nb ctx w = nb.downUpper { ctx with buf := some s' } w := by
  obtain ⟨s', h1, h2⟩ := hs.writeHeadU .u32 .be (toU32 (readableLength s))
  rw [prependAll_ok (by rw [length_encode]; exact hh)] at h1 h2
  rw [hs.readable] at h2
  refine ⟨s', h2, ?_⟩
  intro nb
  simp only [frameUpper]
  rw [bind_of_ok (by rw [hc, useReference_some, hr])]
  simp only [Bool.false_eq_true, if_false, if_true, hb]
  rw [bind_onBuf h1]

theorem frameUpper_fail {c : ConnId} (hc : ctx.conn = some c) (hr : (w.conns c).useRef = false)
    (hb : ctx.buf = some s) (hs : Buf s d) (hh : d.head < 4) :
    ∃ s', Buf s' d ∧ ∀ nb : Nb, frameUpper true nb ctx w = nb.downUpper { ctx with buf := some s' } w := by
  obtain ⟨s', h1, h2⟩ := hs.writeHeadU .u32 .be (toU32 (readableLength s))
  rw [prependAll_fail (by rw [length_encode]; exact hh)] at h1 h2
  refine ⟨s', h2, ?_⟩
  intro nb
  simp only [frameUpper]
  rw [bind_of_ok (by rw [hc, useReference_some, hr])]
  simp only [Bool.false_eq_true, if_false, if_true, hb]
  rw [bind_onBuf h1]

theorem frameUpper_disabled {nb : Nb} {c : ConnId} (hc : ctx.conn = some c) (hr : (w.conns c).useRef = false) :
    frameUpper false nb ctx w = nb.downUpper ctx w := by
  simp only [frameUpper]
  rw [bind_of_ok (by rw [hc, useReference_some, hr])]
  simp

/-! ## Tags -/

theorem tagDown_ok (tag : Byte) (hs : Buf s d) (hh : 1 ≤ d.head) :
    ∃ s', Buf s' (d.prepend [tag]) ∧ ∀ nb : Nb, tagDown tag nb ctx s w = nb.downUpper { ctx with buf := some s' } w := by
  obtain ⟨s', h1, h2⟩ := hs.writeHeadByte tag
  rw [prependAll_ok (by simpa using hh)] at h1 h2
  refine ⟨s', h2, ?_⟩
  intro nb
  simp only [tagDown]
  rw [bind_onBuf h1]

theorem tagDown_fail (tag : Byte) (hs : Buf s d) (hh : d.head = 0) :
    ∃ s', Buf s' d ∧ ∀ nb : Nb, tagDown tag nb ctx s w = nb.downUpper { ctx with buf := some s' } w := by
  obtain ⟨s', h1, h2⟩ := hs.writeHeadByte tag
  rw [prependAll_fail (by simp [hh])] at h1 h2
  refine ⟨s', h2, ?_⟩
  intro nb
  simp only [tagDown]
  rw [bind_onBuf h1]

theorem heartbeatUpper_ok {c : ConnId} (hc : ctx.conn = some c) (hr : (w.conns c).useRef = false)
    (hb : ctx.buf = some s) (hs : Buf s d) (hh : 1 ≤ d.head) :
    ∃ s', Buf s' (d.prepend [0]) ∧ ∀ nb : Nb, heartbeatUpper nb ctx w = nb.downUpper { ctx with buf := some s' } w := by
  obtain ⟨s', h1, h2⟩ := tagDown_ok (ctx := ctx) (w := w) 0x00 hs hh
  refine ⟨s', h1, ?_⟩
  intro nb
  simp only [heartbeatUpper]
  rw [bind_of_ok (by rw [hc, useReference_some, hr])]
  simp only [Bool.false_eq_true, if_false, hb]
  exact h2 nb

/-- The world with the state of one processor replaced. -/
def World.setKind (w : World) (i : Nat) (k : Kind) : World :=
  { w with procs := fun j => if j = i then { w.procs j with kind := k } else w.procs j }

theorem setKind_self (w : World) (i : Nat) (k : Kind) : (w.setKind i k).procs i = { w.procs i with kind := k } := by
  simp [World.setKind]

theorem setKind_apply (i : Nat) (k : Kind) (w : World) : setKind i k w = (.ok (), w.setKind i k) := rfl

theorem statUpper_ok {c : ConnId} (i : Nat) (en : Bool) (tx rx : UInt64) (hc : ctx.conn = some c)
    (hr : (w.conns c).useRef = false) (hb : ctx.buf = some s) (hs : Buf s d) (hh : 1 ≤ d.head) :
    ∃ s', Buf s' (d.prepend [0]) ∧ ∀ nb : Nb, statUpper i en tx rx nb ctx w =
      nb.downUpper { ctx with buf := some s' } (if en then w.setKind i (.stat (tx + 1) rx) else w) := by
  obtain ⟨s', h1, h2⟩ := tagDown_ok (ctx := ctx)
    (w := if en then w.setKind i (.stat (tx + 1) rx) else w) 0x00 hs hh
  refine ⟨s', h1, ?_⟩
  intro nb
  simp only [statUpper]
  rw [bind_of_ok (by rw [hc, useReference_some, hr])]
  simp only [Bool.false_eq_true, if_false, hb]
  cases en with
  | true =>
    simp only [if_true] at h2 ⊢
    rw [bind_of_ok (setKind_apply i _ w)]
    exact h2 nb
  | false => simpa using h2 nb

theorem loadBalancerUpper_ok {c : ConnId} (en : Bool) (hc : ctx.conn = some c)
    (hr : (w.conns c).useRef = false) (hb : ctx.buf = some s) (hs : Buf s d) (hh : 1 ≤ d.head) :
    ∃ s', Buf s' (d.prepend [if en then 0x11 else 0]) ∧ ∀ nb : Nb, loadBalancerUpper en nb ctx w =
      nb.downUpper { ctx with buf := some s' } w := by
  obtain ⟨s', h1, h2⟩ := tagDown_ok (ctx := ctx) (w := w) (if en then 0x11 else 0x00) hs hh
  refine ⟨s', h1, ?_⟩
  intro nb
  simp only [loadBalancerUpper]
  rw [bind_of_ok (by rw [hc, useReference_some, hr])]
  simp only [Bool.false_eq_true, if_false, hb]
  exact h2 nb

theorem heartbeatLower_pass {c : ConnId} (i : Nat) (hc : ctx.conn = some c) (hr : (w.conns c).useRef = false)
    (hb : ctx.buf = some s) (hs : Buf s d) {t : Byte} {bs : List Byte} (hd : d.content = t :: bs) (ht : t ≠ 0x83) :
    ∃ s', Buf s' (d.pop 1) ∧ ∀ nb : Nb, heartbeatLower i nb ctx w = nb.upLower { ctx with buf := some s' } w := by
  obtain ⟨s', h1, h2⟩ := hs.readByte_cons hd
  refine ⟨s', h2, ?_⟩
  intro nb
  simp only [heartbeatLower]
  rw [bind_of_ok (by rw [hc, useReference_some, hr])]
  simp only [Bool.false_eq_true, if_false, hb]
  rw [bind_onBuf h1]
  simp [ht]

theorem heartbeatLower_beat {c : ConnId} (i : Nat) (hc : ctx.conn = some c) (hr : (w.conns c).useRef = false)
    (hb : ctx.buf = some s) (hs : Buf s d) {bs : List Byte} (hd : d.content = 0x83 :: bs) :
    ∃ s', Buf s' (d.pop 1) ∧ ∀ nb : Nb, heartbeatLower i nb ctx w =
      (.ok { ctx with buf := some s' }, { w with trace := w.trace ++ [.beat i (some c)] }) := by
  obtain ⟨s', h1, h2⟩ := hs.readByte_cons hd
  refine ⟨s', h2, ?_⟩
  intro nb
  simp only [heartbeatLower]
  rw [bind_of_ok (by rw [hc, useReference_some, hr])]
  simp only [Bool.false_eq_true, if_false, hb]
  rw [bind_onBuf h1]
  simp [observe, bind_apply, hc]

theorem heartbeatLower_empty {c : ConnId} (i : Nat) (hc : ctx.conn = some c) (hr : (w.conns c).useRef = false)
    (hb : ctx.buf = some s) (hs : Buf s d) (hd : d.content = []) :
    ∃ s', Buf s' d ∧ ∀ nb : Nb, heartbeatLower i nb ctx w = (.ok { ctx with buf := some s' }, w) := by
  obtain ⟨s', h1, h2⟩ := hs.readByte_nil hd
  refine ⟨s', h2, ?_⟩
  intro nb
  simp only [heartbeatLower]
  rw [bind_of_ok (by rw [hc, useReference_some, hr])]
  simp only [Bool.false_eq_true, if_false, hb]
  rw [bind_onBuf h1]
  rfl

theorem statLower_pass {c : ConnId} (i : Nat) (en : Bool) (tx rx : UInt64) (hc : ctx.conn = some c)
    (hr : (w.conns c).useRef = false) (hb : ctx.buf = some s) (hs : Buf s d) {t : Byte} {bs : List Byte}
    (hd : d.content = t :: bs) (ht : en = true → t ≠ 0x10 ∧ t ≠ 0x23) :
    ∃ s', Buf s' (d.pop 1) ∧ ∀ nb : Nb, statLower i en tx rx nb ctx w = nb.upLower { ctx with buf := some s' }
      (if en then w.setKind i (.stat tx (rx + 1)) else w) := by
  obtain ⟨s', h1, h2⟩ := hs.readByte_cons hd
  refine ⟨s', h2, ?_⟩
  intro nb
  simp only [statLower]
  rw [bind_of_ok (by rw [hc, useReference_some, hr])]
  simp only [Bool.false_eq_true, if_false, hb]
  rw [bind_onBuf h1]
  cases en with
  | true =>
    obtain ⟨ht1, ht2⟩ := ht rfl
    simp [ht1, ht2, bind_apply, setKind_apply]
  | false => simp

theorem loadBalancerLower_pass {c : ConnId} (en : Bool) (hc : ctx.conn = some c)
    (hr : (w.conns c).useRef = false) (hb : ctx.buf = some s) (hs : Buf s d) {t : Byte} {bs : List Byte}
    (hd : d.content = t :: bs) (ht : en = true → t = 0) :
    ∃ s', Buf s' (d.pop 1) ∧ ∀ nb : Nb, loadBalancerLower en nb ctx w = nb.upLower { ctx with buf := some s' } w := by
  obtain ⟨s', h1, h2⟩ := hs.readByte_cons hd
  refine ⟨s', h2, ?_⟩
  intro nb
  simp only [loadBalancerLower]
  rw [bind_of_ok (by rw [hc, useReference_some, hr])]
  simp only [Bool.false_eq_true, if_false, hb]
  rw [bind_onBuf h1]
  cases en with
  | true => simp [ht rfl]
  | false => simp

theorem loadBalancerLower_drop {c : ConnId} (hc : ctx.conn = some c)
    (hr : (w.conns c).useRef = false) (hb : ctx.buf = some s) (hs : Buf s d) {t : Byte} {bs : List Byte}
    (hd : d.content = t :: bs) (ht : t ≠ 0) :
    ∃ s', Buf s' (d.pop 1) ∧ ∀ nb : Nb, loadBalancerLower true nb ctx w = (.ok { ctx with buf := some s' }, w) := by
  obtain ⟨s', h1, h2⟩ := hs.readByte_cons hd
  refine ⟨s', h2, ?_⟩
  intro nb
  simp only [loadBalancerLower]
  rw [bind_of_ok (by rw [hc, useReference_some, hr])]
  simp only [Bool.false_eq_true, if_false, hb]
  rw [bind_onBuf h1]
  simp [ht]

/-! ## Decks -/

theorem upperDeckLower_rx (hm : ctx.msg ≠ .nil) {ep : EpId}
    (hf : findEndPoint w.served (optionParseInt (ctx.opts "session") 0).1 = some ep) :
    upperDeckLower ctx w = (.ok ctx, { w with trace := w.trace ++ [.rx ep ctx.conn ctx.msg] }) := by
  simp only [upperDeckLower, if_neg hm]
  rw [bind_of_ok (get_apply w)]
  simp [hf, observe, bind_apply]

theorem upperDeckLower_none (hm : ctx.msg ≠ .nil)
    (hf : findEndPoint w.served (optionParseInt (ctx.opts "session") 0).1 = none) :
    upperDeckLower ctx w = (.ok ctx, w) := by
  simp only [upperDeckLower, if_neg hm]
  rw [bind_of_ok (get_apply w)]
  simp [hf]

theorem writeTo_const {s : St} {d : Deque} (hs : Buf s d) (r : WriteRes) (hd : d.content ≠ []) (hn : r.n ≤ d.content.length) :
    ∃ s', UBuf.writeTo (fun _ => r) s = (.ok (some d.content, r.n, r.err), s') ∧
      Buf s' (if r.err.isSome then d else d.pop r.n) := by
  obtain ⟨s', h1, h2⟩ := hs.step (.writeTo fun p => ⟨min r.n p.length, r.err⟩) (by intro p; simp; omega)
  obtain ⟨q, h3, h4⟩ := map_ok h1
  have hlen : ¬ readableLength s ≤ 0 := by
    rw [hs.readable]
    have : 0 < d.content.length := List.length_pos_iff.mpr hd
    omega
  have hbr : bytesRange s.ub.reader s.ub.writer s = (.ok d.content, s) := by
    have h1 := hs.rel.content
    have h2 := hs.rel.rd
    have h3 := hs.rel.wr
    have h4 := hs.rel.le
    have h5 := hs.rel.cap
    have h6 : s.cap = s.block.arr.length := rfl
    simp only [bytesRange]
    rw [if_pos (by omega), h1]
  have hsame : UBuf.writeTo (fun _ => r) s = (.ok q, s') := by
    rw [← h3]
    simp only [UBuf.writeTo, bind_apply, get_apply, if_neg hlen, hbr, Nat.min_eq_left hn]
  obtain ⟨q1, q2, q3⟩ := q
  simp only [Deque.step, if_neg hd] at h2 h4
  refine ⟨s', ?_, ?_⟩
  · rw [hsame]
    cases he : r.err with
    | none =>
      rw [he] at h4; simp only [Nat.min_eq_left hn, Out.sent.injEq] at h4
      rw [h4.1, h4.2.1, h4.2.2]
    | some e =>
      rw [he] at h4; simp only [Nat.min_eq_left hn, Out.sent.injEq] at h4
      rw [h4.1, h4.2.1, h4.2.2]
  · cases he : r.err with
    | none => rw [he] at h2; simpa [Nat.min_eq_left hn] using h2
    | some e => rw [he] at h2; simpa using h2

theorem bytesRange_all {s : St} {d : Deque} (hs : Buf s d) :
    bytesRange s.ub.reader s.ub.writer s = (.ok d.content, s) := by
  have h1 := hs.rel.content
  have h2 := hs.rel.rd
  have h3 := hs.rel.wr
  have h4 := hs.rel.le
  have h5 := hs.rel.cap
  have h6 : s.cap = s.block.arr.length := rfl
  simp only [bytesRange]
  rw [if_pos (by omega), h1]

theorem readable_pos {s : St} {d : Deque} (hs : Buf s d) (hd : d.content ≠ []) : ¬ readableLength s ≤ 0 := by
  rw [hs.readable]
  have : 0 < d.content.length := List.length_pos_iff.mpr hd
  omega

/-- The world after the underlying connection answered a write. -/
def World.wrote (w : World) (c : ConnId) (p : List Byte) : World :=
  { w with trace := w.trace ++ [.wire c p (w.write w.trace c p)] }

/-- The world after a connection was closed and that was published. -/
def World.close (w : World) (c : ConnId) : World :=
  { w with
    conns := fun x => if x = c then { w.conns x with closed := true } else w.conns x
    trace := w.trace ++ [.closed c] }

theorem closeConnection_apply (c : ConnId) (w : World) : closeConnection c w = (.ok (), w.close c) := rfl

theorem writeToConn_open {c : ConnId} (hs : Buf s d) (hd : d.content ≠ [])
    (hopen : (w.conns c).closed = false) (hn : (w.write w.trace c d.content).n ≤ d.content.length) :
    ∃ s', writeToConn c s w = (.ok ((w.write w.trace c d.content).err, s'), w.wrote c d.content) ∧
      Buf s' (if (w.write w.trace c d.content).err.isSome then d else d.pop (w.write w.trace c d.content).n) := by
  obtain ⟨s', h1, h2⟩ := writeTo_const hs (w.write w.trace c d.content) hd hn
  refine ⟨s', ?_, h2⟩
  simp only [writeToConn, if_neg (readable_pos hs hd)]
  rw [bind_onBuf (bytesRange_all hs)]
  rw [bind_of_ok (s' := w.wrote c d.content) (a := w.write w.trace c d.content)
    (by simp [connWrite, bind_apply, hopen, observe, World.wrote])]
  rw [bind_onBuf h1]
  rfl

theorem writeToConn_closed {c : ConnId} (hs : Buf s d) (hclosed : (w.conns c).closed = true) :
    ∃ s', writeToConn c s w = (.ok (none, s'), w) ∧ Buf s' d := by
  by_cases hd : d.content = []
  · have : readableLength s ≤ 0 := by rw [hs.readable, hd]; simp
    exact ⟨s, by simp only [writeToConn, if_pos this]; rfl, hs⟩
  · obtain ⟨s', h1, h2⟩ := writeTo_const hs ⟨0, none⟩ hd (Nat.zero_le _)
    refine ⟨s', ?_, by simpa [Deque.pop] using h2⟩
    simp only [writeToConn, if_neg (readable_pos hs hd)]
    rw [bind_onBuf (bytesRange_all hs)]
    rw [bind_of_ok (s' := w) (a := ⟨0, none⟩) (by simp [connWrite, bind_apply, hclosed])]
    rw [bind_onBuf h1]
    rfl

theorem writeToConn_empty {c : ConnId} (hs : Buf s d) (hd : d.content = []) :
    writeToConn c s w = (.ok (none, s), w) := by
  have : readableLength s ≤ 0 := by rw [hs.readable, hd]; simp
  simp only [writeToConn, if_pos this]; rfl

/-- A write on an open connection that reports no error. -/
theorem lowerDeckUpper_ok {c : ConnId} (hc : ctx.conn = some c) (hr : (w.conns c).useRef = false)
    (hopen : (w.conns c).closed = false) (hb : ctx.buf = some s) (hs : Buf s d) (hd : d.content ≠ [])
    (hw : (w.write w.trace c d.content).err = none) (hle : (w.write w.trace c d.content).n ≤ d.content.length) :
    ∃ s', lowerDeckUpper ctx w = (.ok { ctx with buf := some s' }, w.wrote c d.content) := by
  obtain ⟨s', h1, _⟩ := writeToConn_open hs hd hopen hle
  refine ⟨s', ?_⟩
  simp only [lowerDeckUpper, hc]
  rw [bind_of_ok (by rw [useReference_some, hr])]
  simp only [Bool.false_eq_true, if_false, hb]
  rw [bind_of_ok h1, hw]
  rfl

/-- A write that reports an error. -/
theorem lowerDeckUpper_err {c : ConnId} {e : Err} (hc : ctx.conn = some c) (hr : (w.conns c).useRef = false)
    (hopen : (w.conns c).closed = false) (hb : ctx.buf = some s) (hs : Buf s d) (hd : d.content ≠ [])
    (hw : (w.write w.trace c d.content).err = some e) (hle : (w.write w.trace c d.content).n ≤ d.content.length) :
    ∃ s', lowerDeckUpper ctx w = (.ok { ctx with buf := some s' }, (w.wrote c d.content).close c) := by
  obtain ⟨s', h1, _⟩ := writeToConn_open hs hd hopen hle
  refine ⟨s', ?_⟩
  simp only [lowerDeckUpper, hc]
  rw [bind_of_ok (by rw [useReference_some, hr])]
  simp only [Bool.false_eq_true, if_false, hb]
  rw [bind_of_ok h1, hw]
  rfl

/-- A write on a connection that is closed is swallowed. -/
theorem lowerDeckUpper_closed {c : ConnId} (hc : ctx.conn = some c) (hr : (w.conns c).useRef = false)
    (hclosed : (w.conns c).closed = true) (hb : ctx.buf = some s) (hs : Buf s d) :
    ∃ s', lowerDeckUpper ctx w = (.ok { ctx with buf := some s' }, w) := by
  obtain ⟨s', h1, _⟩ := writeToConn_closed hs hclosed
  refine ⟨s', ?_⟩
  simp only [lowerDeckUpper, hc]
  rw [bind_of_ok (by rw [useReference_some, hr])]
  simp only [Bool.false_eq_true, if_false, hb]
  rw [bind_of_ok h1]
  rfl

theorem lowerDeckUpper_ref {c : ConnId} (hc : ctx.conn = some c) (hr : (w.conns c).useRef = true)
    (hopen : (w.conns c).closed = false) (hm : ctx.msg ≠ .nil) :
    lowerDeckUpper ctx w = (.ok ctx, { w with trace := w.trace ++ [.ref c ctx.msg] }) := by
  simp only [lowerDeckUpper, hc]
  rw [bind_of_ok (by rw [useReference_some, hr])]
  simp [setReference, bind_apply, hopen, hm, observe]

theorem lowerDeckUpper_ref_fail {c : ConnId} (hc : ctx.conn = some c) (hr : (w.conns c).useRef = true)
    (hbad : (w.conns c).closed = true ∨ ctx.msg = .nil) :
    lowerDeckUpper ctx w = (.ok ctx, w.close c) := by
  simp only [lowerDeckUpper, hc]
  rw [bind_of_ok (by rw [useReference_some, hr])]
  simp only [if_true]
  rw [bind_of_ok (s' := w) (a := false) (by
    simp only [setReference, bind_apply, get_apply]
    by_cases h : (w.conns c).closed = true
    · simp [h]
    · simp [h, hbad.resolve_left h])]
  rfl

end Verif.Stack
