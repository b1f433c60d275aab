import Verif.UBuf.Refine

/-!
# Properties of a single buffer (C01-C09, C13)

`Reachable s`: `s` is the state of a buffer obtained from `UBufAllocWithHeadReserved` after some
history of method calls (no snapshot taken).  `view s` is what the buffer's user can observe.
-/

namespace Verif.UBuf
open GoM

/-- What a user can observe of a buffer: capacity, head room, readable data (and the reservation,
observable through `Reset`). -/
def view (s : St) : Deque :=
  { cap := s.cap, reserved := s.ub.reserved, head := s.ub.reader
    content := (s.block.arr.take s.ub.writer).drop s.ub.reader }

/-- The readable bytes. -/
def data (s : St) : List Byte := (view s).content

theorem Rel.view_eq {s : St} {d : Deque} (h : Rel s d) : view s = d := by
  have h1 := h.cap
  have h2 := h.res
  have h3 := h.rd
  have h4 := h.content
  cases d
  simp only [view, St.cap]
  simp only at h1 h2 h3 h4
  rw [h1, h2, h4, h3]

/-- Refinement plus the absence of pending copy-on-write. -/
structure Good (s : St) : Prop where
  rel : Rel s (view s)
  cow : s.ub.cow = false

theorem Frame.cow_false {s s' : St} (h : Frame s s') (hc : s.ub.cow = false) : s'.ub.cow = false := by
  cases h with
  | pure _ h _ => rw [h, hc]
  | inplace _ _ h _ _ => exact h
  | copied _ _ _ h _ _ _ => exact h

/-- One method call on a good buffer. -/
theorem Good.step {s : St} (h : Good s) (op : Op) (hok : Deque.OpOk op) :
    ∃ s', exec op s = (.ok ((view s).step op).1, s') ∧ view s' = ((view s).step op).2 ∧ Good s' := by
  obtain ⟨s', h1, h2, h3⟩ := exec_refines op h.rel hok (fun _ => Or.inl h.cow)
  refine ⟨s', h1, h2.view_eq, ?_, h3.cow_false h.cow⟩
  rw [h2.view_eq]; exact h2

/-- Any history of method calls on a good buffer. -/
theorem Good.run {s : St} (h : Good s) (ops : List Op) (hok : ∀ op ∈ ops, Deque.OpOk op) :
    ∃ s', run s ops = (.ok ((view s).run ops).1, s') ∧ view s' = ((view s).run ops).2 ∧ Good s' := by
  induction ops generalizing s with
  | nil => exact ⟨s, rfl, rfl, h⟩
  | cons op ops ih =>
    obtain ⟨s1, h1, h2, h3⟩ := h.step op (hok op (by simp))
    obtain ⟨s2, h4, h5, h6⟩ := ih h3 (fun o ho => hok o (by simp [ho]))
    refine ⟨s2, ?_, ?_, h6⟩
    · simp only [UBuf.run, h1, h4, h2, Deque.run]
    · rw [h5, h2]; rfl

theorem alloc_ok {capacity reserved : Int} {h : Heap} {s : St} (ha : alloc capacity reserved h = .ok s) :
    0 < capacity ∧ 0 ≤ reserved ∧ reserved ≤ capacity ∧ Good s ∧
      view s = Deque.fresh capacity.toNat reserved.toNat := by
  simp only [alloc] at ha
  split at ha
  · cases ha
  · next hc =>
    have ha := (Res.ok.inj ha).symm
    have hr : Rel s (Deque.fresh capacity.toNat reserved.toNat) := by
      refine ⟨?_, ?_, ?_, ?_, ?_, ?_, ?_, ?_⟩ <;>
        simp [ha, St.block, Deque.fresh] <;> omega
    refine ⟨by omega, by omega, by omega, ⟨?_, by rw [ha]⟩, hr.view_eq⟩
    rw [hr.view_eq]; exact hr

/-- Reachable by method calls on an allocated buffer. -/
def Reachable (s : St) : Prop :=
  ∃ capacity reserved h s0 ops outs, alloc capacity reserved h = .ok s0 ∧
    (∀ op ∈ ops, Deque.OpOk op) ∧ run s0 ops = (.ok outs, s)

theorem Reachable.good {s : St} (h : Reachable s) : Good s := by
  obtain ⟨c, r, hp, s0, ops, outs, ha, hok, hr⟩ := h
  obtain ⟨s', h1, _, h3⟩ := (alloc_ok ha).2.2.2.1.run ops hok
  rw [hr] at h1
  cases h1
  exact h3

/-- A buffer of capacity 16 with 8 reserved bytes, used in the examples. -/
def demo : St :=
  { ub := ⟨8, 8, 8, 0, false⟩
    heap := Heap.empty.alloc { refCount := 1, arr := List.replicate 16 0, len := 16 } }

theorem demo_alloc : alloc 16 8 Heap.empty = .ok demo := rfl

theorem demo_reachable : Reachable demo :=
  ⟨16, 8, Heap.empty, demo, [], [], rfl, by simp, rfl⟩

/-! ## C01 -/

/-- C01: after any history the three lengths add up to the capacity asked for and none is
negative. -/
theorem c01_lengths_add_up (capacity reserved : Int) (h : Heap) (s0 : St) (ops : List Op)
    (ha : alloc capacity reserved h = .ok s0) (hok : ∀ op ∈ ops, Deque.OpOk op) :
    let s := (run s0 ops).2
    UBuf.capacity s = capacity ∧
    headWritableLength s + readableLength s + tailWritableLength s = capacity ∧
    0 ≤ headWritableLength s ∧ 0 ≤ readableLength s ∧ 0 ≤ tailWritableLength s := by
  obtain ⟨hc0, hr0, hrc, hg, hv⟩ := alloc_ok ha
  obtain ⟨s', h1, h2, h3⟩ := hg.run ops hok
  have hcap : ∀ (ops : List Op) (d : Deque), (d.run ops).2.cap = d.cap := by
    intro ops
    induction ops with
    | nil => intro d; rfl
    | cons op ops ih =>
      intro d
      simp only [Deque.run, ih]
      cases op <;> simp only [Deque.step, Deque.prependAll] <;> repeat' split
      all_goals rfl
  have hcs : (view s').cap = capacity.toNat := by rw [h2, hcap, hv]; rfl
  have hcs' : s'.cap = capacity.toNat := hcs
  have hR := h3.rel.readable
  have hT := h3.rel.tailW
  have hH : s'.ub.reader = (view s').head := rfl
  have hL := h3.rel.le
  simp only [h1]
  simp only [UBuf.capacity, hR, hT, headWritableLength, hH, Deque.tail]
  omega

example : ∃ s0, alloc 16 8 Heap.empty = .ok s0 ∧
    (run s0 [.write [1, 2, 3], .writeHeadU .u32 .be 7, .read 5]).1 =
      .ok [.count 3 none, .err none, .data [0, 0, 0, 7, 1] none] :=
  ⟨_, rfl, rfl⟩

/-! ## C02 -/

/-- C02: every history of calls returns exactly what a bounded byte deque returns, and ends with the
deque's content. -/
theorem c02_deque_refinement (capacity reserved : Int) (h : Heap) (s0 : St) (ops : List Op)
    (ha : alloc capacity reserved h = .ok s0) (hok : ∀ op ∈ ops, Deque.OpOk op) :
    ∃ s, run s0 ops = (.ok ((Deque.fresh capacity.toNat reserved.toNat).run ops).1, s) ∧
      view s = ((Deque.fresh capacity.toNat reserved.toNat).run ops).2 := by
  obtain ⟨hc0, hr0, hrc, hg, hv⟩ := alloc_ok ha
  obtain ⟨s', h1, h2, h3⟩ := hg.run ops hok
  rw [hv] at h1 h2
  exact ⟨s', h1, h2⟩

example : (Deque.fresh 4 1).run
    [.write [1, 2, 3, 4], .writeHeadByte 9, .read 2, .tailWritableLength, .peekByte] =
    ([.count 3 (some .partialWrite), .err none, .data [9, 1] none, .int 0, .num 2 none],
      ⟨4, 1, 2, [2, 3]⟩) := by decide

/-! ## C03 -/

/-- C03 (allocation): it panics exactly on a non-positive capacity or a reservation outside
`[0, capacity]`. -/
theorem c03_alloc_panics_iff (capacity reserved : Int) (h : Heap) :
    alloc capacity reserved h = .panic ↔ capacity ≤ 0 ∨ reserved < 0 ∨ capacity < reserved := by
  simp only [alloc]
  split
  · next hc => exact ⟨fun _ => hc, fun _ => rfl⟩
  · next hc => exact ⟨fun e => (by cases e), fun e => absurd e hc⟩

/-- C03 (use): no history of method calls on an allocated buffer panics (or hangs). -/
theorem c03_no_panic (capacity reserved : Int) (h : Heap) (s0 : St) (ops : List Op)
    (ha : alloc capacity reserved h = .ok s0) (hok : ∀ op ∈ ops, Deque.OpOk op) :
    ∃ outs, (run s0 ops).1 = .ok outs ∧ outs.length = ops.length := by
  obtain ⟨s', h1, -⟩ := (alloc_ok ha).2.2.2.1.run ops hok
  refine ⟨_, by rw [h1], ?_⟩
  clear h1
  generalize view s0 = d
  clear hok
  induction ops generalizing d with
  | nil => rfl
  | cons op ops ih => simp [Deque.run, ih]

example : alloc 0 0 Heap.empty = .panic ∧ alloc 4 5 Heap.empty = .panic ∧
    ∃ s, alloc 4 4 Heap.empty = .ok s := ⟨rfl, rfl, _, rfl⟩

/-! ## C04 -/

/-- How many bytes the integer types of Go take, written down again so that the statements below do
not rest on the `size` the model computes with. -/
def Width.bytes : Width → Nat
  | .u16 => 16 / 8
  | .u32 => 32 / 8
  | .u64 => 64 / 8

theorem Width.bytes_eq (w : Width) : w.bytes = w.size := by cases w <;> rfl

/-- The `i`-th byte of a value as written by the methods with the given suffix, from the definition
of the byte orders; no suffix means big-endian. -/
def byteOf (sf : Suffix) (w : Width) (v i : Nat) : Nat :=
  match sf with
  | .none | .be => v / 256 ^ (w.bytes - 1 - i) % 256
  | .le => v / 256 ^ i % 256

theorem encLE_get (k v i : Nat) (hi : i < k) :
    ((encLE k v)[i]?).map UInt8.toNat = some (v / 256 ^ i % 256) := by
  induction k generalizing v i with
  | zero => omega
  | succ k ih =>
    cases i with
    | zero => simp [encLE]
    | succ i =>
      simp only [encLE, List.getElem?_cons_succ]
      rw [ih _ _ (by omega), Nat.pow_succ, Nat.mul_comm, ← Nat.div_div_eq_div_mul]

theorem encBE_get (k v i : Nat) (hi : i < k) :
    ((encBE k v)[i]?).map UInt8.toNat = some (v / 256 ^ (k - 1 - i) % 256) := by
  induction k generalizing v i with
  | zero => omega
  | succ k ih =>
    cases i with
    | zero => simp [encBE]
    | succ i =>
      simp only [encBE, List.getElem?_cons_succ]
      rw [ih _ _ (by omega)]
      have : k - 1 - i = k + 1 - 1 - (i + 1) := by omega
      rw [this]

/-- The encoders produce the standard byte order. -/
theorem encode_get (w : Width) (sf : Suffix) (v i : Nat) (hi : i < w.size) :
    ((encode w sf.order v)[i]?).map UInt8.toNat = some (byteOf sf w v i) := by
  cases sf <;> simp only [byteOf, Width.bytes_eq]
  · exact encBE_get _ _ _ hi
  · exact encBE_get _ _ _ hi
  · exact encLE_get _ _ _ hi

theorem decode_encode (w : Width) (o : Order) (v : Nat) :
    decode o (encode w o v) = v % 256 ^ w.size := by
  cases o <;> simp [decode, encode, decBE_encBE_mod, decLE_encLE_mod]

/-- The calls that only look. -/
def Op.isPeek : Op → Bool
  | .peek _ | .peekByte | .peekU _ _ => true
  | _ => false

theorem exec_peek_state (op : Op) (hp : op.isPeek = true) (s : St) : (exec op s).2 = s := by
  cases op <;> simp only [Op.isPeek, Bool.false_eq_true] at hp
  · next n =>
    simp only [exec, peek, bind_apply, get_apply, ite_apply, bytesFrom, pure_apply]
    by_cases h1 : readableLength s ≤ 0
    · simp [h1]
    · by_cases h2 : s.ub.reader ≤ s.block.len
      · simp only [h1, h2, if_true, if_false]
        split <;> split at * <;> simp_all
      · simp [h1, h2]
  · simp only [exec, peekByte, bind_apply, get_apply, ite_apply, byteAt, pure_apply]
    by_cases h1 : readableLength s < 1
    · simp [h1]
    · by_cases h2 : s.ub.reader < s.block.len <;> simp [h1, h2]
  · next w o =>
    simp only [exec, peekU, bind_apply, get_apply, ite_apply, bytesRange, pure_apply]
    by_cases h1 : readableLength s < w.size
    · simp [h1]
    · by_cases h2 : s.ub.reader + w.size ≤ s.cap <;> simp [h1, h2]

/-- C04: a value written into a buffer with room lies behind the old data as the standard bytes, and
after reading the old data it is what `PeekUxx` and then `ReadUxx` return. -/
theorem c04_int_round_trip (s : St) (hs : Reachable s) (w : Width) (sf : Suffix) (v : Nat)
    (hv : v < 256 ^ w.bytes) (hroom : (w.bytes : Int) ≤ tailWritableLength s) :
    ∃ s1 s2 s3 bs, exec (.writeU w sf.order v) s = (.ok (.err none), s1) ∧ data s1 = data s ++ bs ∧
      bs.length = w.bytes ∧ (∀ i < w.bytes, (bs[i]?).map UInt8.toNat = some (byteOf sf w v i)) ∧
      exec (.read (data s).length) s1 = (.ok (.data (data s) none), s2) ∧
      exec (.peekU w sf.order) s2 = (.ok (.num v none), s2) ∧
      exec (.readU w sf.order) s2 = (.ok (.num v none), s3) ∧ data s3 = [] := by
  rw [Width.bytes_eq] at hv hroom ⊢
  have hg := hs.good
  have hT := hg.rel.tailW
  have hsz := w.size_pos
  have hlen := length_encode w sf.order v
  obtain ⟨s1, h1, v1, g1⟩ := hg.step (.writeU w sf.order v) trivial
  have hn : ¬ (view s).tail < w.size := by omega
  simp only [Deque.step, hn, if_false] at h1 v1
  obtain ⟨s2, h2, v2, g2⟩ := g1.step (.read (data s).length) trivial
  have hne : (view s).content ++ encode w sf.order v ≠ [] := by
    intro e; rw [List.append_eq_nil_iff] at e; rw [e.2] at hlen; simp at hlen; omega
  simp only [Deque.step, v1, Deque.push, hne, if_false, data, List.length_append] at h2 v2
  have hnl : ¬ (view s).content.length + (encode w sf.order v).length < (view s).content.length := by omega
  have hmin : min (view s).content.length ((view s).content.length + (encode w sf.order v).length)
      = (view s).content.length := by omega
  simp only [hnl, if_false, List.take_left, hmin, Deque.pop, List.drop_left] at h2 v2
  have hnl2 : ¬ (encode w sf.order v).length < w.size := by omega
  have htk : (encode w sf.order v).take w.size = encode w sf.order v := List.take_of_length_le (by omega)
  have hdv : decode sf.order (encode w sf.order v) = v := by rw [decode_encode, Nat.mod_eq_of_lt hv]
  obtain ⟨s2', h3, v3, g3⟩ := g2.step (.peekU w sf.order) trivial
  obtain ⟨s3, h4, v4, g4⟩ := g2.step (.readU w sf.order) trivial
  simp only [Deque.step, v2, hnl2, if_false, htk, hdv] at h3 h4 v3 v4
  have hpk : s2' = s2 := by
    have := exec_peek_state (.peekU w sf.order) rfl s2
    rw [h3] at this; exact this
  subst hpk
  refine ⟨s1, s2', s3, encode w sf.order v, h1, ?_, hlen, fun i hi => encode_get w sf v i hi, h2, h3, h4, ?_⟩
  · simp [data, v1, Deque.push]
  · simp [data, v4, Deque.pop, hlen]

example : Reachable demo ∧ (0x1234 : Nat) < 256 ^ Width.u16.bytes ∧
    ((Width.u16.bytes : Int) ≤ tailWritableLength demo) ∧
    byteOf .none .u16 0x1234 0 = 0x12 ∧ byteOf .le .u16 0x1234 0 = 0x34 :=
  ⟨demo_reachable, by decide, by decide, by decide, by decide⟩

/-! ## C05 -/

/-- Something that can be written at the head. -/
inductive Hdr where
  | byte (c : Byte) | bytes (p : List Byte) | num (w : Width) (o : Order) (v : Nat)

namespace Hdr
def size : Hdr → Nat
  | .byte _ => 1
  | .bytes p => p.length
  | .num w _ _ => w.bytes
/-- The call that writes it. -/
def writeOp : Hdr → Op
  | .byte c => .writeHeadByte c
  | .bytes p => .writeHeadBytes p
  | .num w o v => .writeHeadU w o v
/-- The call that reads it back. -/
def readOp : Hdr → Op
  | .byte _ => .readByte
  | .bytes p => .read p.length
  | .num w o _ => .readU w o
/-- The result it should then give. -/
def result : Hdr → Out
  | .byte c => .num c.toNat none
  | .bytes p => .data p none
  | .num _ _ v => .num v none
/-- A value of that kind: integers fit their width, byte strings are not empty. -/
def Ok : Hdr → Prop
  | .byte _ => True
  | .bytes p => p ≠ []
  | .num w _ v => v < 256 ^ w.bytes
def enc : Hdr → List Byte
  | .byte c => [c]
  | .bytes p => p
  | .num w o v => encode w o v
theorem length_enc (h : Hdr) : h.enc.length = h.size := by
  cases h <;> simp [enc, size, length_encode, Width.bytes_eq]
theorem size_pos (h : Hdr) (hk : h.Ok) : 0 < h.size := by
  cases h with
  | byte c => simp [size]
  | bytes p => exact List.length_pos_iff.2 hk
  | num w o v => rw [size, Width.bytes_eq]; exact w.size_pos
end Hdr

theorem Deque.write_hdr (d : Deque) (h : Hdr) (hk : h.Ok) (hr : h.size ≤ d.head) :
    d.step h.writeOp = (.err none, d.prepend h.enc) := by
  have := h.length_enc
  have hn : ¬ d.head < h.enc.length := by omega
  cases h with
  | byte c => simp only [Hdr.writeOp, Deque.step, Deque.prependAll, Hdr.enc] at *; rw [if_neg hn]
  | bytes p =>
    have h0 : ¬ (p = [] ∧ d.head = d.cap) := fun e => hk e.1
    simp only [Hdr.writeOp, Deque.step, Deque.prependAll, Hdr.enc] at *
    rw [if_neg h0, if_neg hn]
  | num w o v => simp only [Hdr.writeOp, Deque.step, Deque.prependAll, Hdr.enc] at *; rw [if_neg hn]

theorem Deque.read_hdr (d : Deque) (h : Hdr) (hk : h.Ok) (rest : List Byte)
    (hc : d.content = h.enc ++ rest) :
    d.step h.readOp = (h.result, { d with head := d.head + h.size, content := rest }) := by
  cases h with
  | byte c => simp [Hdr.readOp, Deque.step, hc, Hdr.enc, Hdr.result, Deque.pop, Hdr.size]
  | bytes p =>
    have hk : p ≠ [] := hk
    have h2 : ¬ (p.length + rest.length < p.length) := by omega
    have h3 : min p.length (p.length + rest.length) = p.length := by omega
    simp [Hdr.readOp, Deque.step, hc, Hdr.enc, Hdr.result, Deque.pop, Hdr.size, hk, h3]
  | num w o v =>
    have hl := length_encode w o v
    have hk : v < 256 ^ w.size := by rw [← Width.bytes_eq]; exact hk
    have h2 : ¬ ((encode w o v).length + rest.length < w.size) := by omega
    have hdv : decode o (encode w o v) = v := by rw [decode_encode, Nat.mod_eq_of_lt hk]
    have h3 : (encode w o v ++ rest).take w.size = encode w o v := by
      rw [← hl]; exact List.take_left
    have h4 : (encode w o v ++ rest).drop w.size = rest := by
      rw [← hl]; exact List.drop_left
    simp only [Hdr.readOp, Deque.step, hc, Hdr.enc, Hdr.result, Deque.pop, Hdr.size,
      Width.bytes_eq, List.length_append, h2, if_false, h3, h4, hdv]

theorem Deque.run_append (d : Deque) (a b : List Op) :
    d.run (a ++ b) = ((d.run a).1 ++ ((d.run a).2.run b).1, ((d.run a).2.run b).2) := by
  induction a generalizing d with
  | nil => simp [Deque.run]
  | cons op a ih => simp [Deque.run, ih]

theorem Hdr.writeOp_ok (h : Hdr) : Deque.OpOk h.writeOp := by cases h <;> exact trivial
theorem Hdr.readOp_ok (h : Hdr) : Deque.OpOk h.readOp := by cases h <;> exact trivial

theorem Deque.headers (hdrs : List Hdr) (d : Deque) (hk : ∀ h ∈ hdrs, h.Ok)
    (hroom : (hdrs.map Hdr.size).sum ≤ d.head) :
    (d.run (hdrs.map Hdr.writeOp)).1 = hdrs.map (fun _ => .err none) ∧
    (d.run (hdrs.map Hdr.writeOp)).2.run (hdrs.reverse.map Hdr.readOp) =
      (hdrs.reverse.map Hdr.result, d) := by
  induction hdrs generalizing d with
  | nil => exact ⟨rfl, rfl⟩
  | cons h t ih =>
    simp only [List.map_cons, List.sum_cons] at hroom
    have hkh := hk h (by simp)
    have hw := d.write_hdr h hkh (by omega)
    have hl := h.length_enc
    have := ih (d.prepend h.enc) (fun x hx => hk x (by simp [hx])) (by simp [Deque.prepend]; omega)
    simp only [List.map_cons, Deque.run, hw, List.reverse_cons, List.map_append, List.map_nil,
      Deque.run_append, this, true_and]
    rw [Deque.read_hdr _ h hkh d.content rfl]
    simp only [Deque.prepend, hl]
    rw [show d.head - h.size + h.size = d.head by omega]

/-- C05: headers nest last-in first-out.  Writing the headers `hdrs` at the head of a buffer with
enough head room succeeds, reading them in reverse order gives them back, and then everything is as
before. -/
theorem c05_headers_lifo (s : St) (hs : Reachable s) (hdrs : List Hdr) (hk : ∀ h ∈ hdrs, h.Ok)
    (hroom : ((hdrs.map Hdr.size).sum : Int) ≤ headWritableLength s) :
    ∃ s1 s2, run s (hdrs.map Hdr.writeOp) = (.ok (hdrs.map fun _ => .err none), s1) ∧
      run s1 (hdrs.reverse.map Hdr.readOp) = (.ok (hdrs.reverse.map Hdr.result), s2) ∧
      view s2 = view s := by
  have hg := hs.good
  have hh : ((hdrs.map Hdr.size).sum) ≤ (view s).head := by
    simp only [headWritableLength] at hroom; simp only [view]; omega
  obtain ⟨e1, e2⟩ := Deque.headers hdrs (view s) hk hh
  obtain ⟨s1, h1, v1, g1⟩ := hg.run (hdrs.map Hdr.writeOp)
    (by intro op hop; obtain ⟨h, _, rfl⟩ := List.mem_map.1 hop; exact h.writeOp_ok)
  obtain ⟨s2, h2, v2, g2⟩ := g1.run (hdrs.reverse.map Hdr.readOp)
    (by intro op hop; obtain ⟨h, _, rfl⟩ := List.mem_map.1 hop; exact h.readOp_ok)
  rw [v1, e2] at h2 v2
  rw [e1] at h1
  exact ⟨s1, s2, h1, h2, v2⟩

/-- C05: a single header is the next thing read and the old data lies untouched behind it. -/
theorem c05_header_first (s : St) (hs : Reachable s) (h : Hdr) (hk : h.Ok)
    (hroom : (h.size : Int) ≤ headWritableLength s) :
    ∃ s1 s2 bs, exec h.writeOp s = (.ok (.err none), s1) ∧ bs.length = h.size ∧
      data s1 = bs ++ data s ∧ tailWritableLength s1 = tailWritableLength s ∧
      headWritableLength s1 = headWritableLength s - h.size ∧
      exec h.readOp s1 = (.ok h.result, s2) ∧ data s2 = data s := by
  have hg := hs.good
  have hh : h.size ≤ (view s).head := by
    simp only [headWritableLength] at hroom; simp only [view]; omega
  have hl := h.length_enc
  have hle := hg.rel.le
  obtain ⟨s1, h1, v1, g1⟩ := hg.step h.writeOp h.writeOp_ok
  rw [Deque.write_hdr _ h hk hh] at h1 v1
  obtain ⟨s2, h2, v2, g2⟩ := g1.step h.readOp h.readOp_ok
  rw [Deque.read_hdr _ h hk (view s).content (by rw [v1]; rfl)] at h2 v2
  refine ⟨s1, s2, h.enc, h1, hl, by simp [data, v1, Deque.prepend], ?_, ?_, h2, by simp [data, v2]⟩
  · rw [g1.rel.tailW, hg.rel.tailW, v1]; simp [Deque.tail, Deque.prepend]; omega
  · have : headWritableLength s1 = (view s1).head := rfl
    rw [this, v1]
    have : headWritableLength s = (view s).head := rfl
    rw [this]; simp [Deque.prepend]; omega

example : ∃ s1 s2, run demo [.write [5], .writeHeadU .u32 .le 0x01020304, .writeHeadBytes [8, 9]] = 
      (.ok [.count 1 none, .err none, .err none], s1) ∧
    run s1 [.read 2, .readU .u32 .le, .readByte] =
      (.ok [.data [8, 9] none, .num 0x01020304 none, .num 5 none], s2) := ⟨_, _, rfl, rfl⟩

/-! ## C06 -/

/-- C06: peeking does not influence anything that happens later (any state, even one with pending
copy-on-write). -/
theorem c06_peek_pure (op : Op) (hp : op.isPeek = true) (s : St) (ops : List Op) (o : Out)
    (h : (exec op s).1 = .ok o) :
    run s (op :: ops) = match run s ops with
      | (.ok os, s') => (.ok (o :: os), s')
      | r => r := by
  have := exec_peek_state op hp s
  rcases he : exec op s with ⟨r, s'⟩
  rw [he] at this h
  simp only at this h
  subst this h
  simp only [run, he]
  rcases run s' ops with ⟨r, s2⟩
  cases r <;> rfl

/-- C06 (partial): a peek returns the bytes (number) the corresponding read returns, and fails for lack of
data whenever the read does.  Missing: `Peek` fails on an empty buffer, where `Read` returns `(0, nil)`, see
`c06_empty_violated`. -/
theorem c06_peek_agrees_partial (s : St) (hs : Reachable s) :
    (∀ n, ∃ bs e e', (exec (.peek n) s).1 = .ok (.data bs e) ∧ (exec (.read n) s).1 = .ok (.data bs e') ∧
      (e'.isSome → e.isSome) ∧ (data s ≠ [] → e.isSome = e'.isSome)) ∧
    (∃ v e e', (exec .peekByte s).1 = .ok (.num v e) ∧ (exec .readByte s).1 = .ok (.num v e') ∧
      e.isSome = e'.isSome) ∧
    (∀ w o, ∃ v e e', (exec (.peekU w o) s).1 = .ok (.num v e) ∧ (exec (.readU w o) s).1 = .ok (.num v e') ∧
      e.isSome = e'.isSome) := by
  have hg := hs.good
  refine ⟨fun n => ?_, ?_, fun w o => ?_⟩
  · obtain ⟨s1, h1, _⟩ := hg.step (.peek n) trivial
    obtain ⟨s2, h2, _⟩ := hg.step (.read n) trivial
    simp only [Deque.step] at h1 h2
    by_cases hc : (view s).content = []
    · simp only [hc, if_true] at h1 h2
      exact ⟨[], _, _, congrArg Prod.fst h1, congrArg Prod.fst h2, by simp, by simp [data, hc]⟩
    · simp only [hc, if_false] at h1 h2
      refine ⟨_, _, _, congrArg Prod.fst h1, congrArg Prod.fst h2, ?_, ?_⟩ <;>
        by_cases hl : (view s).content.length < n <;> simp [hl]
  · obtain ⟨s1, h1, _⟩ := hg.step .peekByte trivial
    obtain ⟨s2, h2, _⟩ := hg.step .readByte trivial
    cases hc : (view s).content <;> simp only [Deque.step, hc] at h1 h2 <;>
      exact ⟨_, _, _, congrArg Prod.fst h1, congrArg Prod.fst h2, rfl⟩
  · obtain ⟨s1, h1, _⟩ := hg.step (.peekU w o) trivial
    obtain ⟨s2, h2, _⟩ := hg.step (.readU w o) trivial
    by_cases hl : (view s).content.length < w.size <;>
      simp only [Deque.step, hl, if_true, if_false] at h1 h2 <;>
      exact ⟨_, _, _, congrArg Prod.fst h1, congrArg Prod.fst h2, rfl⟩

example : ∃ s, (run demo [.write [1, 2], .peekByte, .peekU .u16 .be, .readU .u16 .be]) =
    (.ok [.count 2 none, .num 1 none, .num 258 none, .num 258 none], s) := ⟨_, rfl⟩

/-! ## C07 -/

/-- The fixed-size calls. -/
def Op.isFixed : Op → Bool
  | .writeByte _ | .writeU _ _ _ | .writeHeadByte _ | .writeHeadBytes _ | .writeHeadU _ _ _
  | .readByte | .readU _ _ | .peek _ | .peekByte | .peekU _ _ => true
  | _ => false

/-- The call reported an error. -/
def Out.failed : Out → Bool
  | .unit | .int _ => false
  | .err e | .num _ e | .data _ e | .count _ e | .sent _ _ e => e.isSome

/-- Room or data is short for the call.  Two corner cases of the code are included: `Peek` of zero
bytes of an empty buffer, and `WriteHeadBytes` of an empty slice when the data starts at the very
end of the storage, report an error. -/
def Deque.short (d : Deque) : Op → Prop
  | .writeByte _ => d.tail < 1
  | .writeU w _ _ => d.tail < w.size
  | .writeHeadByte _ => d.head < 1
  | .writeHeadBytes p => d.head < p.length ∨ (p = [] ∧ d.head = d.cap)
  | .writeHeadU w _ _ => d.head < w.size
  | .readByte | .peekByte => d.content.length < 1
  | .readU w _ | .peekU w _ => d.content.length < w.size
  | .peek n => d.content.length < n ∨ d.content = []
  | _ => False

/-- C07 (partial): a fixed-size call fails exactly when room or data is short, and then nothing observable
changes.  Missing: `short` includes two cases in which nothing is short, see `c07_peek_violated` and
`c07_head_violated`. -/
theorem c07_failure_changes_nothing_partial (s : St) (hs : Reachable s) (op : Op) (hf : op.isFixed = true) :
    ∃ out s', exec op s = (.ok out, s') ∧ (out.failed = true ↔ (view s).short op) ∧
      (out.failed = true → view s' = view s) := by
  have hok : Deque.OpOk op := by cases op <;> simp_all [Op.isFixed, Deque.OpOk]
  obtain ⟨s', h1, v1, g1⟩ := hs.good.step op hok
  refine ⟨_, s', h1, ?_, ?_⟩
  · generalize view s = d
    cases op <;> simp only [Op.isFixed, Bool.false_eq_true] at hf
    · next n =>
      by_cases hc : d.content = []
      · simp [Deque.step, Deque.short, Out.failed, hc]
      · by_cases hl : d.content.length < n <;> simp [Deque.step, Deque.short, Out.failed, hc, hl]
    · cases hc : d.content <;> simp [Deque.step, Deque.short, Out.failed, hc]
    · next w o => by_cases hl : d.content.length < w.size <;> simp [Deque.step, Deque.short, Out.failed, hl]
    · by_cases hl : d.tail = 0 <;> simp [Deque.step, Deque.short, Out.failed, hl]
    · next w o v => by_cases hl : d.tail < w.size <;> simp [Deque.step, Deque.short, Out.failed, hl]
    · by_cases hl : d.head = 0 <;>
        simp [Deque.step, Deque.short, Out.failed, Deque.prependAll, hl]
    · next p =>
      by_cases hp : p = [] ∧ d.head = d.cap
      · simp [Deque.step, Deque.short, Out.failed, hp]
      · by_cases hl : d.head < p.length <;>
          simp [Deque.step, Deque.short, Out.failed, Deque.prependAll, hp, hl]
    · next w o v =>
      have := length_encode w o v
      by_cases hl : d.head < w.size <;>
        simp [Deque.step, Deque.short, Out.failed, Deque.prependAll, hl, this]
    · cases hc : d.content <;> simp [Deque.step, Deque.short, Out.failed, hc]
    · next w o => by_cases hl : d.content.length < w.size <;> simp [Deque.step, Deque.short, Out.failed, hl]
  · rw [v1]
    generalize view s = d
    cases op <;> simp only [Op.isFixed, Bool.false_eq_true] at hf <;> 
      simp only [Deque.step, Deque.prependAll] <;> repeat' split
    all_goals simp_all [Out.failed]

example : Reachable demo ∧ (view demo).short (.readU .u32 .be) ∧ ¬ (view demo).short (.writeU .u64 .be 5) :=
  ⟨demo_reachable, (by decide : 0 < 4), (by decide : ¬ 8 < 8)⟩

/-! ## C08 -/

/-- C08 (partial): `Write(p)` appends the longest prefix that fits.  Missing: the empty `Write` into a full buffer
reports an error although it is not short, see `c08_write_violated`. -/
theorem c08_write_prefix_partial (s : St) (hs : Reachable s) (p : List Byte) :
    ∃ n e s', exec (.write p) s = (.ok (.count n e), s') ∧ n = min p.length (tailWritableLength s).toNat ∧
      data s' = data s ++ p.take n ∧ headWritableLength s' = headWritableLength s ∧
      (e.isSome = true ↔ n < p.length ∨ tailWritableLength s = 0) := by
  have hg := hs.good
  obtain ⟨s', h1, v1, g1⟩ := hg.step (.write p) trivial
  have hT := hg.rel.tailW
  have hH : headWritableLength s' = (view s').head := rfl
  have hH0 : headWritableLength s = (view s).head := rfl
  by_cases ht : (view s).tail = 0
  · simp only [Deque.step, ht, if_true] at h1 v1
    refine ⟨0, _, s', h1, ?_, ?_, ?_, ?_⟩
    · simp [hT, ht]
    · simp [data, v1]
    · rw [hH, v1, hH0]
    · simp [hT, ht]
  · simp only [Deque.step, ht, if_false] at h1 v1
    refine ⟨_, _, s', h1, ?_, ?_, ?_, ?_⟩
    · rw [hT]; simp; omega
    · simp only [data, v1, Deque.push]
      congr 1; rw [List.take_eq_take_iff]; omega
    · rw [hH, v1, hH0]; rfl
    · rw [hT]
      by_cases hl : (view s).tail < p.length
      · simp [hl]; omega
      · simp [hl]; omega

/-- C08: `Read(p)` removes the longest prefix available. -/
theorem c08_read_prefix (s : St) (hs : Reachable s) (n : Nat) :
    ∃ got e s', exec (.read n) s = (.ok (.data got e), s') ∧ got = (data s).take n ∧
      data s' = (data s).drop n ∧ tailWritableLength s' = tailWritableLength s ∧
      (e.isSome = true ↔ got.length < n ∧ data s ≠ []) := by
  have hg := hs.good
  obtain ⟨s', h1, v1, g1⟩ := hg.step (.read n) trivial
  have hT := hg.rel.tailW
  have hT' := g1.rel.tailW
  have hle := hg.rel.le
  by_cases hc : (view s).content = []
  · simp only [Deque.step, hc, if_true] at h1 v1
    refine ⟨_, _, s', h1, ?_, ?_, ?_, ?_⟩
    · simp [data, hc]
    · simp [data, v1, hc]
    · rw [hT, hT', v1]
    · simp [data, hc]
  · simp only [Deque.step, hc, if_false] at h1 v1
    refine ⟨_, _, s', h1, rfl, ?_, ?_, ?_⟩
    · simp only [data, v1, Deque.pop]
      by_cases hl : n ≤ (view s).content.length
      · rw [Nat.min_eq_left hl]
      · rw [Nat.min_eq_right (by omega), List.drop_of_length_le (by omega),
          List.drop_of_length_le (by omega)]
    · rw [hT, hT', v1]; simp [Deque.pop, Deque.tail]; omega
    · by_cases hl : (view s).content.length < n
      · simp [hl, data, hc]; omega
      · simp [hl, data]; omega

/-- The bytes a call put into the buffer, judging only from its arguments and result. -/
def accepted : Op → Out → List Byte
  | .write p, .count n _ => p.take n
  | .writeByte c, .err none => [c]
  | .writeU w o v, .err none => encode w o v
  | _, _ => []

/-- The bytes a call took out of the buffer, judging only from its arguments and result. -/
def consumed : Op → Out → List Byte
  | .read _, .data bs _ => bs
  | .readByte, .num v none => [UInt8.ofNat v]
  | .readU w o, .num v none => encode w o v
  | _, _ => []

/-- Calls of a producer/consumer history. -/
def Op.isStream : Op → Bool
  | .write _ | .writeByte _ | .writeU _ _ _ | .read _ | .readByte | .readU _ _
  | .peek _ | .peekByte | .peekU _ _ | .capacity | .readableLength
  | .headWritableLength | .tailWritableLength => true
  | _ => false

def flow (f : Op → Out → List Byte) (ops : List Op) (outs : List Out) : List Byte :=
  (List.zipWith f ops outs).flatten

theorem encode_decode (w : Width) (o : Order) (bs : List Byte) (h : bs.length = w.size) :
    encode w o (decode o bs) = bs := by
  cases o
  · simp only [encode, decode]; rw [← h]; exact encBE_decBE bs
  · simp only [encode, decode]; rw [← h]; exact encLE_decLE bs

/-- C08: over any interleaving of writes and reads, the bytes written are the bytes read followed by
what is still in the buffer: nothing lost, duplicated or reordered. -/
theorem c08_fifo (s : St) (hs : Reachable s) (ops : List Op) (hops : ∀ op ∈ ops, op.isStream = true) :
    ∃ outs s', run s ops = (.ok outs, s') ∧
      data s ++ flow accepted ops outs = flow consumed ops outs ++ data s' := by
  have hok : ∀ op ∈ ops, Deque.OpOk op := by
    intro op ho; have := hops op ho; cases op <;> simp_all [Op.isStream, Deque.OpOk]
  obtain ⟨s', h1, v1, g1⟩ := hs.good.run ops hok
  refine ⟨_, s', h1, ?_⟩
  simp only [data, v1]
  clear v1 h1 g1 hs
  generalize view s = d
  clear hok
  induction ops generalizing d with
  | nil => simp [flow, Deque.run]
  | cons op ops ih =>
    have ih := ih (fun o ho => hops o (by simp [ho])) (d.step op).2
    have hop := hops op (by simp)
    have key : d.content ++ accepted op (d.step op).1
        = consumed op (d.step op).1 ++ (d.step op).2.content := by
      cases op <;> simp only [Op.isStream, Bool.false_eq_true] at hop
      all_goals simp only [Deque.step]
      · simp [accepted, consumed]
      · simp [accepted, consumed]
      · simp [accepted, consumed]
      · simp [accepted, consumed]
      · split <;> simp [accepted, consumed]
      · split <;> simp [accepted, consumed]
      · split <;> simp [accepted, consumed]
      · split <;> simp [accepted, consumed, Deque.push]
      · next p =>
        split
        · simp [accepted, consumed]
        · simp only [accepted, consumed, Deque.push, List.nil_append]
          congr 1; rw [List.take_eq_take_iff]; omega
      · split <;> simp [accepted, consumed, Deque.push]
      · split <;> simp_all [accepted, consumed, Deque.pop]
      · next n =>
        split
        · simp [accepted, consumed]
        · simp only [accepted, consumed, Deque.pop, List.append_nil]
          rw [show d.content.take n = d.content.take (min n d.content.length) by
            rw [List.take_eq_take_iff]; omega, List.take_append_drop]
      · next w o =>
        split
        · simp [accepted, consumed]
        · simp only [accepted, consumed, Deque.pop, List.append_nil]
          rw [encode_decode _ _ _ (by simp; omega), List.take_append_drop]
    simp only [flow, Deque.run, List.zipWith_cons_cons, List.flatten_cons] at ih ⊢
    rw [← List.append_assoc, key, List.append_assoc, ih, List.append_assoc]

example : ∃ s', run demo [.write [1, 2, 3], .readByte, .writeU .u16 .be 0x0405, .read 3] =
    (.ok [.count 3 none, .num 1 none, .err none, .data [2, 3, 4] none], s') ∧ data s' = [5] :=
  ⟨_, rfl, rfl⟩

/-! ## C09 -/

/-- C09 (partial: the reader reports no error): exactly the bytes the reader produced become
readable.  Missing: with an error and a positive count the produced bytes are lost, see
`c09_readFrom_loses`. -/
theorem c09_readFrom_partial (s : St) (hs : Reachable s) (rd : Nat → ReadRes) (hrd : Deque.Reader.Ok rd)
    (hroom : 0 < tailWritableLength s) (hne : (rd (tailWritableLength s).toNat).err = none) :
    ∃ s', exec (.readFrom rd) s = (.ok (.count (rd (tailWritableLength s).toNat).n none), s') ∧
      data s' = data s ++ (rd (tailWritableLength s).toNat).filled.take (rd (tailWritableLength s).toNat).n := by
  have hg := hs.good
  have hT := hg.rel.tailW
  obtain ⟨s', h1, v1, g1⟩ := hg.step (.readFrom rd) hrd
  rw [hT] at hne ⊢
  have ht : (view s).tail ≠ 0 := by omega
  simp only [Int.toNat_natCast] at hne ⊢
  simp only [Deque.step, ht, if_false, hne] at h1 v1
  exact ⟨s', h1, by simp [data, v1, Deque.push]⟩

/-- C09: whatever the reader does, no byte it did not produce becomes readable, and if it reports an
error the readable data does not change. -/
theorem c09_readFrom_error (s : St) (hs : Reachable s) (rd : Nat → ReadRes) (hrd : Deque.Reader.Ok rd)
    (e : Err) (hroom : 0 < tailWritableLength s) (he : (rd (tailWritableLength s).toNat).err = some e) :
    ∃ s', exec (.readFrom rd) s = (.ok (.count 0 (some e)), s') ∧ view s' = view s := by
  have hg := hs.good
  have hT := hg.rel.tailW
  obtain ⟨s', h1, v1, g1⟩ := hg.step (.readFrom rd) hrd
  rw [hT] at he
  have ht : (view s).tail ≠ 0 := by omega
  simp only [Int.toNat_natCast] at he
  simp only [Deque.step, ht, if_false, he] at h1 v1
  exact ⟨s', h1, v1⟩

/-- C09 is violated: a reader that produces two bytes together with `io.EOF`, as the io contract
allows, has them silently discarded. -/
theorem c09_readFrom_loses :
    ∃ rd, Deque.Reader.Ok rd ∧ (rd 8).filled.take (rd 8).n = [1, 2] ∧
      ∃ s', exec (.readFrom rd) demo = (.ok (.count 0 (some .eof)), s') ∧ data s' = [] := by
  refine ⟨fun m => ⟨[1, 2].take m, min 2 m, some .eof⟩, ?_, rfl, _, rfl, rfl⟩
  intro m
  simp
  omega

/-- C09 (partial: the writer reports no error): the writer gets the whole readable data and exactly
what it did not accept stays readable.  Missing: with an error the accepted bytes stay readable too,
see `c09_writeTo_duplicates`. -/
theorem c09_writeTo_partial (s : St) (hs : Reachable s) (wr : List Byte → WriteRes)
    (hwr : Deque.Writer.Ok wr) (hne : (wr (data s)).err = none) (hd : data s ≠ []) :
    ∃ s', exec (.writeTo wr) s = (.ok (.sent (some (data s)) (wr (data s)).n none), s') ∧
      data s' = (data s).drop (wr (data s)).n := by
  have hg := hs.good
  obtain ⟨s', h1, v1, g1⟩ := hg.step (.writeTo wr) hwr
  simp only [data] at hne hd ⊢
  simp only [Deque.step, hd, if_false, hne] at h1 v1
  exact ⟨s', h1, by simp [v1, Deque.pop]⟩

/-- C09 is violated: a writer that accepts two bytes and then fails sees the same bytes again. -/
theorem c09_writeTo_duplicates :
    ∃ wr s, Deque.Writer.Ok wr ∧ Reachable s ∧ data s = [1, 2, 3] ∧ (wr [1, 2, 3]).n = 2 ∧
      ∃ s', exec (.writeTo wr) s = (.ok (.sent (some [1, 2, 3]) 2 (some (.ext 0))), s') ∧
        data s' = [1, 2, 3] := by
  refine ⟨fun p => ⟨min 2 p.length, some (.ext 0)⟩, (run demo [.write [1, 2, 3]]).2, ?_, ?_, rfl, rfl,
    _, rfl, rfl⟩
  · intro p; simp; omega
  · exact ⟨16, 8, Heap.empty, demo, [.write [1, 2, 3]], _, rfl, by simp [Deque.OpOk], rfl⟩

example : ∃ s', exec (.readFrom fun m => ⟨[7, 8].take m, min 2 m, none⟩) demo =
    (.ok (.count 2 none), s') ∧ data s' = [7, 8] := ⟨_, rfl, rfl⟩

/-! ## C13 -/

/-- C13: nil, zero-capacity slices and out-of-range reservations are refused, everything else is
accepted. -/
theorem c13_refused_iff (d : Option Slice) (reserved : Int) (h : Heap) :
    fromSlice d reserved h = none ↔
      d = none ∨ ∃ sl, d = some sl ∧ (sl.arr.length = 0 ∨ reserved < 0 ∨ (sl.arr.length : Int) < reserved) := by
  cases d with
  | none => simp [fromSlice]
  | some sl =>
    simp only [fromSlice]
    split
    · next hc =>
      refine ⟨fun _ => Or.inr ⟨sl, rfl, by omega⟩, fun _ => rfl⟩
    · next hc =>
      refine ⟨fun e => (by cases e), fun e => ?_⟩
      rcases e with e | ⟨sl', e, h'⟩
      · cases e
      · cases e; omega

/-- C13 (partial: the slice has `len = cap`): the buffer starts empty over the user's storage and
every history behaves as a bounded deque of capacity `cap`.  Missing: `len < cap`, see
`c13_panics`. -/
theorem c13_wrap_partial (sl : Slice) (reserved : Int) (h : Heap) (s : St) (hfull : sl.len = sl.arr.length)
    (hs : fromSlice (some sl) reserved h = some s) (ops : List Op) (hok : ∀ op ∈ ops, Deque.OpOk op) :
    s.block.arr = sl.arr ∧
    ∃ s', run s ops = (.ok ((Deque.fresh sl.arr.length reserved.toNat).run ops).1, s') ∧
      view s' = ((Deque.fresh sl.arr.length reserved.toNat).run ops).2 := by
  simp only [fromSlice] at hs
  split at hs
  · cases hs
  · next hc =>
    have hs := (Option.some.inj hs).symm
    have hr : Rel s (Deque.fresh sl.arr.length reserved.toNat) := by
      refine ⟨?_, ?_, ?_, ?_, ?_, ?_, ?_, ?_⟩ <;>
        simp [hs, St.block, Deque.fresh] <;> omega
    refine ⟨by simp [hs, St.block], ?_⟩
    have hg : Good s := ⟨by rw [hr.view_eq]; exact hr, by rw [hs]⟩
    obtain ⟨s', h1, v1, g1⟩ := hg.run ops hok
    rw [hr.view_eq] at h1 v1
    exact ⟨s', h1, v1⟩

/-- C13 is violated for slices with `len < cap`: `make([]byte, 1, 4)` wrapped, the second
`WriteByte` panics although three bytes are reported writable. -/
theorem c13_panics :
    ∃ sl s s1, fromSlice (some sl) 0 Heap.empty = some s ∧
      exec (.writeByte 7) s = (.ok (.err none), s1) ∧ tailWritableLength s1 = 3 ∧
      (exec (.writeByte 7) s1).1 = .panic :=
  ⟨⟨[0, 0, 0, 0], 1, by decide⟩, _, _, rfl, rfl, rfl, rfl⟩

/-- C13 is violated for slices with `len < cap`: `Write` reports a partial write although there is
room for everything. -/
theorem c13_short_write :
    ∃ sl s, fromSlice (some sl) 0 Heap.empty = some s ∧ tailWritableLength s = 4 ∧
      (exec (.write [7, 8]) s).1 = .ok (.count 1 (some .partialWrite)) :=
  ⟨⟨[0, 0, 0, 0], 1, by decide⟩, _, rfl, rfl, rfl⟩

example : ∃ s, fromSlice (some ⟨[1, 2, 3], 3, by decide⟩) 1 Heap.empty = some s ∧
    (run s [.write [9], .headWritableLength]).1 = .ok [.count 1 none, .int 1] := ⟨_, rfl, rfl⟩

end Verif.UBuf
