import Verif.UBuf.Spec

/-! # Helper lemmas: the model refines the deque (proof machinery, no property statements) -/

namespace Verif.UBuf

open GoM

/-! ## Lists -/

theorem take_overwrite_ge (arr bs : List Byte) (i n : Nat) (hi : i ≤ arr.length) (hn : n ≤ bs.length) :
    (overwrite arr i bs).take (i + n) = arr.take i ++ bs.take n := by
  unfold overwrite
  rw [List.take_append_of_le_length (by simp; omega)]
  rw [List.take_append]
  have h1 : (arr.take i).length = i := by simp; omega
  rw [List.take_of_length_le (by omega), h1]
  congr 2
  omega

theorem window_push (arr bs : List Byte) (r w n : Nat) (hr : r ≤ w) (hw : w ≤ arr.length)
    (hn : n ≤ bs.length) :
    ((overwrite arr w bs).take (w + n)).drop r = (arr.take w).drop r ++ bs.take n := by
  rw [take_overwrite_ge _ _ _ _ hw hn, List.drop_append_of_le_length]
  simp; omega

theorem window_prepend (arr bs : List Byte) (r w : Nat) (hb : bs.length ≤ r) (hr : r ≤ w)
    (hw : w ≤ arr.length) :
    ((overwrite arr (r - bs.length) bs).take w).drop (r - bs.length)
      = bs ++ (arr.take w).drop r := by
  unfold overwrite
  have h1 : r - bs.length + bs.length = r := by omega
  have h2 : (arr.take (r - bs.length)).length = r - bs.length := by simp; omega
  rw [h1, List.append_assoc, List.take_append, List.drop_append]
  simp only [h2]
  have e1 : List.take w (List.take (r - bs.length) arr) = List.take (r - bs.length) arr := by
    rw [List.take_take]; congr 1; omega
  rw [e1]
  rw [List.drop_of_length_le (by omega), h2, Nat.sub_self, List.drop_zero, List.nil_append]
  rw [List.take_append, List.take_of_length_le (by omega), List.drop_take]
  congr 2
  omega

theorem window_copy (z arr : List Byte) (r w : Nat) (hz : z.length = arr.length) (hr : r ≤ w)
    (hw : w ≤ arr.length) :
    ((overwrite z r ((arr.take w).drop r)).take w).drop r = (arr.take w).drop r := by
  have hl : ((arr.take w).drop r).length = w - r := by
    rw [List.length_drop, List.length_take]; omega
  have := window_push z ((arr.take w).drop r) r r (w - r) (Nat.le_refl _) (by omega) (by omega)
  rw [show r + (w - r) = w by omega] at this
  have e1 : List.drop r (List.take r z) = [] := by
    apply List.drop_of_length_le; rw [List.length_take]; omega
  have e2 : List.take (w - r) ((arr.take w).drop r) = (arr.take w).drop r :=
    List.take_of_length_le (by omega)
  rw [this, e1, e2, List.nil_append]

/-! ## Heap frame lemmas -/

@[simp] theorem put_same (h : Heap) (a : Nat) (b : Block) : (h.put a b).blk a = b := by
  simp [Heap.put]
@[simp] theorem put_next (h : Heap) (a : Nat) (b : Block) : (h.put a b).next = h.next := rfl
theorem put_other (h : Heap) (a x : Nat) (b : Block) (hx : x ≠ a) : (h.put a b).blk x = h.blk x := by
  simp [Heap.put, hx]
@[simp] theorem put_put (h : Heap) (a : Nat) (b c : Block) : (h.put a b).put a c = h.put a c := by
  simp only [Heap.put]; congr 1; funext x; split <;> rfl
theorem put_self (h : Heap) (a : Nat) : h.put a (h.blk a) = h := by
  cases h; simp only [Heap.put]; congr 1; funext x; split <;> simp_all
@[simp] theorem alloc_new (h : Heap) (b : Block) : (h.alloc b).blk h.next = b := by
  simp [Heap.alloc]
theorem alloc_other (h : Heap) (x : Nat) (b : Block) (hx : x ≠ h.next) :
    (h.alloc b).blk x = h.blk x := by simp [Heap.alloc, hx]
@[simp] theorem alloc_next (h : Heap) (b : Block) : (h.alloc b).next = h.next + 1 := rfl
@[simp] theorem alloc_put_new (h : Heap) (b c : Block) :
    (h.alloc b).put h.next c = h.alloc c := by
  simp only [Heap.put, Heap.alloc]; congr 1; funext x; split <;> simp_all

/-- The buffer owns its block: no copy will be made by the next write. -/
def Owned (s : St) : Prop := s.ub.cow = false ∨ s.block.refCount = 1

/-- How a method call may change the heap and the receiver's pointer. -/
inductive Frame (s s' : St) : Prop where
  /-- only positions moved -/
  | pure (hd : s'.ub.data = s.ub.data) (hc : s'.ub.cow = s.ub.cow) (hh : s'.heap = s.heap)
  /-- the receiver's own block was written in place -/
  | inplace (own : Owned s) (hd : s'.ub.data = s.ub.data) (hc : s'.ub.cow = false)
      (arr : List Byte) (hh : s'.heap = s.heap.put s.ub.data { s.block with arr := arr })
  /-- the receiver left a shared block and got a fresh one -/
  | copied (hcow : s.ub.cow = true) (hrc : s.block.refCount ≠ 1) (hd : s'.ub.data = s.heap.next)
      (hc : s'.ub.cow = false) (arr : List Byte) (len : Nat)
      (hh : s'.heap = (s.heap.put s.ub.data { s.block with refCount := s.block.refCount - 1 }).alloc
        { refCount := 1, arr := arr, len := len })

/-- The abstraction relation between a buffer state and a deque. -/
structure Rel (s : St) (d : Deque) : Prop where
  cap : s.block.arr.length = d.cap
  len : s.block.len = d.cap
  res : s.ub.reserved = d.reserved
  resle : d.reserved ≤ d.cap
  rd : s.ub.reader = d.head
  wr : s.ub.writer = d.head + d.content.length
  le : d.head + d.content.length ≤ d.cap
  content : (s.block.arr.take s.ub.writer).drop s.ub.reader = d.content

theorem Rel.wf {s : St} {d : Deque} (h : Rel s d) : d.WF := ⟨h.resle, h.le⟩

theorem Rel.readable {s : St} {d : Deque} (h : Rel s d) :
    readableLength s = d.content.length := by
  simp [readableLength, h.rd, h.wr]; omega

theorem Rel.tailW {s : St} {d : Deque} (h : Rel s d) : tailWritableLength s = d.tail := by
  have := h.le
  simp [tailWritableLength, St.cap, h.cap, h.wr, Deque.tail]; omega

theorem Rel.from_reader {s : St} {d : Deque} (h : Rel s d) (n : Nat) (hn : n ≤ d.content.length) :
    ((s.block.arr.take s.block.len).drop s.ub.reader).take n = d.content.take n := by
  have hl := h.le
  rw [← h.content, List.take_drop, List.take_drop]
  rw [List.take_take, List.take_take, h.wr, h.len, h.rd]
  congr 2
  omega

theorem content_ne_nil_iff (d : Deque) : d.content ≠ [] ↔ 0 < d.content.length := by
  rw [List.length_pos_iff]

/-- Moving only the reader forward inside the readable data. -/
theorem Rel.pop {s : St} {d : Deque} (h : Rel s d) (n : Nat) (hn : n ≤ d.content.length) :
    Rel { s with ub := { s.ub with reader := s.ub.reader + n } } (d.pop n) := by
  have hle := h.le
  constructor
  · exact h.cap
  · exact h.len
  · exact h.res
  · exact h.resle
  · simp [Deque.pop, h.rd]
  · simp [Deque.pop, h.wr]; omega
  · simp [Deque.pop]; omega
  · have := h.content
    simp only [Deque.pop, St.block] at this ⊢
    rw [← this, List.drop_drop]

/-! ## Resolving copy-on-write -/

theorem resolveCow_owned {s : St} (h : Owned s) :
    resolveCow s = (.ok (), { s with ub := { s.ub with cow := false } }) := by
  rcases s with ⟨ub, heap⟩
  rcases ub with ⟨res, rd, wr, data, cow⟩
  unfold Owned at h
  cases cow
  · simp [resolveCow]
  · simp only [Bool.true_eq_false, false_or, St.block] at h
    simp [resolveCow, St.block, h]

/-- The state after leaving a shared block. -/
def leave (s : St) : St :=
  { ub := { s.ub with cow := false, data := s.heap.next }
    heap := (s.heap.put s.ub.data { s.block with refCount := s.block.refCount - 1 }).alloc
      { refCount := 1
        arr := overwrite (List.replicate s.cap 0) s.ub.reader
          ((s.block.arr.take s.ub.writer).drop s.ub.reader)
        len := s.cap } }

theorem leave_block (s : St) : (leave s).block =
    { refCount := 1
      arr := overwrite (List.replicate s.cap 0) s.ub.reader
        ((s.block.arr.take s.ub.writer).drop s.ub.reader)
      len := s.cap } := by
  simp only [leave, St.block]
  exact alloc_new _ _

theorem resolveCow_shared {s : St} (h : ¬ Owned s) (hr : s.ub.reader ≤ s.ub.writer)
    (hw : s.ub.writer ≤ s.cap) : resolveCow s = (.ok (), leave s) := by
  rcases s with ⟨ub, heap⟩
  rcases ub with ⟨res, rd, wr, data, cow⟩
  simp only [Owned, St.block, not_or] at h
  simp only [St.cap, St.block] at hr hw
  simp [resolveCow, leave, St.block, St.putBlock, St.cap, h, hr, hw]

theorem resolveCow_shared_panic {s : St} (h : ¬ Owned s)
    (hr : ¬ (s.ub.reader ≤ s.ub.writer ∧ s.ub.writer ≤ s.cap)) :
    resolveCow s = (.panic, { ub := { s.ub with cow := false }
                              heap := s.heap.put s.ub.data { s.block with refCount := s.block.refCount - 1 } }) := by
  rcases s with ⟨ub, heap⟩
  rcases ub with ⟨res, rd, wr, data, cow⟩
  simp only [Owned, St.block, not_or] at h
  simp only [St.cap, St.block] at hr
  simp [resolveCow, St.block, St.putBlock, St.cap, h, hr]

theorem resolveCow_ok {s : St} {d : Deque} (h : Rel s d) :
    ∃ s1, resolveCow s = (.ok (), s1) ∧ Rel s1 d ∧ s1.ub.cow = false ∧ Frame s s1 ∧
      s1.ub.writer = s.ub.writer ∧ s1.ub.reader = s.ub.reader := by
  by_cases ho : Owned s
  · refine ⟨_, resolveCow_owned ho, ?_, rfl, ?_, rfl, rfl⟩
    · exact ⟨h.cap, h.len, h.res, h.resle, h.rd, h.wr, h.le, h.content⟩
    · exact .inplace ho rfl rfl s.block.arr (put_self s.heap s.ub.data).symm
  · have hcow : s.ub.cow = true := by
      cases hc : s.ub.cow
      · exact absurd (Or.inl hc) ho
      · rfl
    have hrc : s.block.refCount ≠ 1 := fun e => ho (Or.inr e)
    have hcap := h.cap
    have hwr := h.wr
    have hrd := h.rd
    have hle := h.le
    refine ⟨_, resolveCow_shared ho (by omega) (by simp only [St.cap]; omega), ?_, rfl, ?_, rfl, rfl⟩
    · refine ⟨?_, ?_, h.res, h.resle, h.rd, h.wr, h.le, ?_⟩
      · rw [leave_block]; simp only [St.cap]
        rw [length_overwrite] <;> simp <;> omega
      · rw [leave_block]; exact hcap
      · rw [leave_block]
        simp only [leave, St.cap]
        rw [window_copy _ s.block.arr _ _ (by simp) (by omega) (by omega)]
        exact h.content
    · exact .copied hcow hrc rfl rfl _ _ rfl

theorem resolveCow_noop {s : St} (h : s.ub.cow = false) : resolveCow s = (.ok (), s) := by
  simp [resolveCow, h]

/-! ## Writes on an owned buffer -/

/-- The state after storing `bs` in place at position `i` (flag cleared). -/
def stored (s : St) (i : Nat) (bs : List Byte) : St :=
  { ub := { s.ub with cow := false }
    heap := s.heap.put s.ub.data { s.block with arr := overwrite s.block.arr i bs } }

/-- Set the writer position. -/
def setW (s : St) (w : Nat) : St := { s with ub := { s.ub with writer := w } }
/-- Set the reader position. -/
def setR (s : St) (r : Nat) : St := { s with ub := { s.ub with reader := r } }

@[simp] theorem setW_block (s : St) (w : Nat) : (setW s w).block = s.block := rfl
@[simp] theorem setR_block (s : St) (w : Nat) : (setR s w).block = s.block := rfl
@[simp] theorem stored_block (s : St) (i : Nat) (bs : List Byte) :
    (stored s i bs).block = { s.block with arr := overwrite s.block.arr i bs } := by
  simp [stored, St.block]

theorem writeByte_owned {s : St} (c : Byte) (ho : Owned s) (hl : s.block.len = s.cap)
    (hw : s.ub.writer < s.cap) :
    writeByte c s = (.ok none, setW (stored s s.ub.writer [c]) (s.ub.writer + 1)) := by
  have h0 : ¬ (tailWritableLength s ≤ 0) := by simp only [tailWritableLength]; omega
  have hl' : s.ub.writer < s.block.len := by omega
  simp only [writeByte, bind_apply, get_apply, h0, if_false, resolveCow_owned ho, check_apply]
  simp only [St.block] at hl' ⊢
  simp [hl', storeAt, modify_apply, St.putBlock, setW, stored, St.block]

theorem write_owned {s : St} (p : List Byte) (ho : Owned s) (hl : s.block.len = s.cap)
    (hw : s.ub.writer < s.cap) :
    write p s = (.ok (min (s.cap - s.ub.writer) p.length,
        if s.cap - s.ub.writer < p.length then some .partialWrite else none),
      setW (stored s s.ub.writer (p.take (s.cap - s.ub.writer)))
        (s.ub.writer + min (s.cap - s.ub.writer) p.length)) := by
  have h0 : ¬ (tailWritableLength s ≤ 0) := by simp only [tailWritableLength]; omega
  have hl' : s.ub.writer ≤ s.block.len := by omega
  have ht : (tailWritableLength s).toNat = s.cap - s.ub.writer := by
    simp only [tailWritableLength]; omega
  have hlen : ((s.block.arr.take s.block.len).drop s.ub.writer).length = s.cap - s.ub.writer := by
    rw [hl]; simp [St.cap]
  have hmin : min (s.cap - s.ub.writer) (min (s.cap - s.ub.writer) p.length)
      = min (s.cap - s.ub.writer) p.length := by omega
  have htake : p.take (min (s.cap - s.ub.writer) p.length) = p.take (s.cap - s.ub.writer) := by
    rw [List.take_eq_take_iff]; omega
  simp only [write, bind_apply, get_apply, h0, if_false, resolveCow_owned ho, ht]
  have hb : bytesFrom s.ub.writer { s with ub := { s.ub with cow := false } }
      = (.ok ((s.block.arr.take s.block.len).drop s.ub.writer), { s with ub := { s.ub with cow := false } }) := by
    simp only [bytesFrom, St.block] at hl' ⊢
    simp [hl']
  rw [hb]
  simp only [hlen, hmin, htake]
  have hlt : (min (s.cap - s.ub.writer) p.length < p.length) ↔ (s.cap - s.ub.writer < p.length) := by
    omega
  by_cases hp : s.cap - s.ub.writer < p.length
  · have h2 := hlt.2 hp
    simp only [storeAt, modify_apply, St.putBlock, setW, stored, St.block, if_pos h2, if_pos hp, pure_apply]
  · have h2 := fun x => hp (hlt.1 x)
    simp only [storeAt, modify_apply, St.putBlock, setW, stored, St.block, if_neg h2, if_neg hp, pure_apply]

/-! ## Frames compose -/

theorem Frame.then_store {s s1 s2 : St} (h : Frame s s1) (hc1 : s1.ub.cow = false)
    (hd : s2.ub.data = s1.ub.data) (hc : s2.ub.cow = false) (arr : List Byte)
    (hh : s2.heap = s1.heap.put s1.ub.data { s1.block with arr := arr }) : Frame s s2 := by
  cases h with
  | pure hd' hc' hh' =>
    refine .inplace (Or.inl (by rw [← hc', hc1])) (by rw [hd, hd']) hc arr ?_
    simp only [hh, hh', hd', St.block]
  | inplace own hd' hc' arr' hh' =>
    refine .inplace own (by rw [hd, hd']) hc arr ?_
    simp only [hh, hh', hd', St.block, put_same, put_put]
  | copied hcow hrc hd' hc' arr' len hh' =>
    refine .copied hcow hrc (by rw [hd, hd']) hc arr len ?_
    have e := alloc_put_new (s.heap.put s.ub.data { s.block with refCount := s.block.refCount - 1 })
      { refCount := 1, arr := arr', len := len } { refCount := 1, arr := arr, len := len }
    have e2 := alloc_new (s.heap.put s.ub.data { s.block with refCount := s.block.refCount - 1 })
      { refCount := 1, arr := arr', len := len }
    rw [put_next] at e e2
    simp only [hh, hh', hd', St.block] at *
    rw [e2, e]

theorem Frame.refl (s : St) : Frame s s := .pure rfl rfl rfl

theorem Frame.then_pos {s s1 s2 : St} (h : Frame s s1) (hd : s2.ub.data = s1.ub.data)
    (hc : s2.ub.cow = s1.ub.cow) (hh : s2.heap = s1.heap) : Frame s s2 := by
  cases h with
  | pure hd' hc' hh' => exact .pure (by rw [hd, hd']) (by rw [hc, hc']) (by rw [hh, hh'])
  | inplace own hd' hc' arr' hh' =>
    exact .inplace own (by rw [hd, hd']) (by rw [hc, hc']) arr' (by rw [hh, hh'])
  | copied hcow hrc hd' hc' arr' len hh' =>
    exact .copied hcow hrc (by rw [hd, hd']) (by rw [hc, hc']) arr' len (by rw [hh, hh'])

/-! ## Appending and prepending preserve the relation -/

theorem Rel.store_push {s : St} {d : Deque} (h : Rel s d) (bs : List Byte) (n : Nat)
    (hn : n ≤ bs.length) (hb : bs.length ≤ d.tail) :
    Rel (setW (stored s s.ub.writer bs) (s.ub.writer + n)) (d.push (bs.take n)) := by
  have hle := h.le
  have hcap := h.cap
  have hwr := h.wr
  have hrd := h.rd
  simp only [Deque.tail] at hb
  refine ⟨?_, ?_, h.res, h.resle, h.rd, ?_, ?_, ?_⟩
  · simp only [setW_block, stored_block]; rw [length_overwrite _ _ _ (by omega)]; exact h.cap
  · simp only [setW_block, stored_block]; exact h.len
  · simp [setW, Deque.push, hwr]; omega
  · simp [Deque.push]; omega
  · simp only [setW_block, stored_block]
    have := window_push s.block.arr bs s.ub.reader s.ub.writer n (by omega) (by omega) hn
    simp only [setW, stored, Deque.push]
    rw [this, h.content]

theorem Rel.store_prepend {s : St} {d : Deque} (h : Rel s d) (bs : List Byte)
    (hb : bs.length ≤ d.head) :
    Rel (setW (setR (stored s (s.ub.reader - bs.length) bs) (s.ub.reader - bs.length)) s.ub.writer)
      (d.prepend bs) := by
  have hle := h.le
  have hcap := h.cap
  have hwr := h.wr
  have hrd := h.rd
  refine ⟨?_, ?_, h.res, h.resle, ?_, ?_, ?_, ?_⟩
  · simp only [setW_block, setR_block, stored_block]; rw [length_overwrite _ _ _ (by omega)]; exact h.cap
  · simp only [setW_block, setR_block, stored_block]; exact h.len
  · simp [setW, setR, Deque.prepend, hrd]
  · simp [setW, setR, Deque.prepend, hwr]; omega
  · simp [Deque.prepend]; omega
  · simp only [setW_block, setR_block, stored_block]
    have := window_prepend s.block.arr bs s.ub.reader s.ub.writer (by omega) (by omega) (by omega)
    simp only [setW, setR, stored, Deque.prepend]
    rw [this, h.content]

theorem tailW_congr {s s1 : St} {d : Deque} (h : Rel s d) (h1 : Rel s1 d) :
    tailWritableLength s = tailWritableLength s1 := by rw [h.tailW, h1.tailW]

theorem writeByte_resolve {s s1 : St} {d : Deque} (c : Byte) (h : Rel s d) (h1 : Rel s1 d)
    (hr : resolveCow s = (.ok (), s1)) (hc : s1.ub.cow = false) (ht : d.tail ≠ 0) :
    writeByte c s = writeByte c s1 := by
  have h0 : ¬ (tailWritableLength s ≤ 0) := by rw [h.tailW]; omega
  have h0' : ¬ (tailWritableLength s1 ≤ 0) := by rw [h1.tailW]; omega
  simp only [writeByte, bind_apply, get_apply, h0, h0', if_false, hr, resolveCow_noop hc]

theorem write_resolve {s s1 : St} {d : Deque} (p : List Byte) (h : Rel s d) (h1 : Rel s1 d)
    (hr : resolveCow s = (.ok (), s1)) (hc : s1.ub.cow = false) (ht : d.tail ≠ 0) :
    write p s = write p s1 := by
  have h0 : ¬ (tailWritableLength s ≤ 0) := by rw [h.tailW]; omega
  have h0' : ¬ (tailWritableLength s1 ≤ 0) := by rw [h1.tailW]; omega
  have h2 := tailW_congr h h1
  simp only [write, bind_apply, get_apply, h0, h0', if_false, hr, resolveCow_noop hc]
  rw [h2]

theorem Rel.cap_sub {s : St} {d : Deque} (h : Rel s d) : s.cap - s.ub.writer = d.tail := by
  simp only [St.cap, h.cap, h.wr, Deque.tail]; omega

theorem Rel.lencap {s : St} {d : Deque} (h : Rel s d) : s.block.len = s.cap := by
  simp only [St.cap, h.cap, h.len]

theorem Rel.writer_lt {s : St} {d : Deque} (h : Rel s d) (ht : d.tail ≠ 0) : s.ub.writer < s.cap := by
  have := h.cap_sub; omega

/-- `WriteByte` refines the deque. -/
theorem writeByte_refines {s : St} {d : Deque} (c : Byte) (h : Rel s d) :
    ∃ s', writeByte c s = (.ok (if d.tail = 0 then some .full else none), s') ∧
      Rel s' (if d.tail = 0 then d else d.push [c]) ∧ Frame s s' := by
  by_cases ht : d.tail = 0
  · refine ⟨s, ?_, by simpa [ht] using h, Frame.refl s⟩
    have h0 : tailWritableLength s ≤ 0 := by rw [h.tailW]; omega
    simp [writeByte, bind_apply, h0, ht]
  · obtain ⟨s1, hr, h1, hc, hf, hw, hrd⟩ := resolveCow_ok h
    refine ⟨setW (stored s1 s1.ub.writer [c]) (s1.ub.writer + 1), ?_, ?_, ?_⟩
    · rw [writeByte_resolve c h h1 hr hc ht,
        writeByte_owned c (Or.inl hc) h1.lencap (h1.writer_lt ht)]
      simp [ht]
    · simp only [ht, if_false]
      exact h1.store_push [c] 1 (by simp) (by simp; omega)
    · exact hf.then_store hc rfl rfl _ rfl

/-- `Write` refines the deque. -/
theorem write_refines {s : St} {d : Deque} (p : List Byte) (h : Rel s d) :
    ∃ s', write p s = (.ok (if d.tail = 0 then (0, some .full)
        else (min d.tail p.length, if d.tail < p.length then some .partialWrite else none)), s') ∧
      Rel s' (if d.tail = 0 then d else d.push (p.take d.tail)) ∧ Frame s s' := by
  by_cases ht : d.tail = 0
  · refine ⟨s, ?_, by simpa [ht] using h, Frame.refl s⟩
    have h0 : tailWritableLength s ≤ 0 := by rw [h.tailW]; omega
    simp [write, bind_apply, h0, ht]
  · obtain ⟨s1, hr, h1, hc, hf, hw, hrd⟩ := resolveCow_ok h
    refine ⟨setW (stored s1 s1.ub.writer (p.take d.tail)) (s1.ub.writer + min d.tail p.length),
      ?_, ?_, ?_⟩
    · rw [write_resolve p h h1 hr hc ht, write_owned p (Or.inl hc) h1.lencap (h1.writer_lt ht)]
      rw [h1.cap_sub]
      simp only [ht, if_false]
    · simp only [ht, if_false]
      have hl : (p.take d.tail).length = min d.tail p.length := by simp
      have := h1.store_push (p.take d.tail) (min d.tail p.length) (by omega) (by simp; omega)
      rwa [List.take_take, show min (min d.tail p.length) d.tail = min d.tail p.length by omega,
        show p.take (min d.tail p.length) = p.take d.tail by rw [List.take_eq_take_iff]; omega] at this
    · exact hf.then_store hc rfl rfl _ rfl

/-- `WriteHeadXxx` on an owned buffer, for an inner write that stores `bs` at the writer. -/
theorem writeHead_refines {s : St} {d : Deque} (bs : List Byte) (fn : GoM St (Option Err))
    (h : Rel s d) (ho : Owned s) (hne : bs ≠ [] ∨ d.head < d.cap)
    (hfn : ∀ t : St, Owned t → t.block.len = t.cap → t.ub.writer < t.cap →
      bs.length ≤ t.cap - t.ub.writer →
      fn t = (.ok none, setW (stored t t.ub.writer bs) (t.ub.writer + bs.length))) :
    ∃ s', writeHead bs.length fn s = (.ok (d.prependAll bs).1, s') ∧
      Rel s' (d.prependAll bs).2 ∧ Frame s s' := by
  have hle := h.le
  have hcap := h.cap
  by_cases hh : d.head < bs.length
  · refine ⟨s, ?_, by simpa [Deque.prependAll, hh] using h, Frame.refl s⟩
    have h0 : s.ub.reader < bs.length := by rw [h.rd]; exact hh
    simp [writeHead, bind_apply, h0, Deque.prependAll, hh]
  · have h0 : ¬ s.ub.reader < bs.length := by rw [h.rd]; exact hh
    have hpos : d.head - bs.length < d.cap := by
      rcases hne with hne | hne
      · have := List.length_pos_iff.2 hne; omega
      · omega
    have hstep := hfn (setW s (s.ub.reader - bs.length)) ho
      h.lencap
      (by simp only [St.cap, setW_block, hcap]; simp only [setW, h.rd]; exact hpos)
      (by simp only [St.cap, setW_block, hcap]; simp only [setW, h.rd]; omega)
    have hrel := h.store_prepend bs (by omega)
    refine ⟨setW (setR (stored s (s.ub.reader - bs.length) bs) (s.ub.reader - bs.length)) s.ub.writer,
      ?_, ?_, ?_⟩
    · simp only [writeHead, bind_apply, get_apply, h0, if_false, modify_apply]
      simp only [setW] at hstep
      rw [hstep]
      simp [Deque.prependAll, hh, setR, setW, stored, St.block, bind_apply]
    · simp only [Deque.prependAll, hh, if_false]
      exact hrel
    · exact .inplace ho rfl rfl _ rfl

/-! ## Every operation -/

/-- The operations that write at the head. -/
def Op.isHead : Op → Bool
  | .writeHeadByte _ | .writeHeadBytes _ | .writeHeadU _ _ _ => true
  | _ => false

theorem length_encode (w : Width) (o : Order) (v : Nat) : (encode w o v).length = w.size := by
  cases o <;> simp [encode, length_encBE, length_encLE]

theorem Width.size_pos (w : Width) : 0 < w.size := by cases w <;> decide

theorem read_refines {s : St} {d : Deque} (n : Nat) (h : Rel s d) :
    ∃ s', read n s = (.ok (if d.content = [] then ([], none)
        else (d.content.take n, if d.content.length < n then some .noMoreRead else none)), s') ∧
      Rel s' (if d.content = [] then d else d.pop (min n d.content.length)) ∧ Frame s s' := by
  have hle := h.le
  by_cases hc : d.content = []
  · refine ⟨s, ?_, by simpa [hc] using h, Frame.refl s⟩
    have h0 : readableLength s ≤ 0 := by rw [h.readable]; simp [hc]
    simp [read, bind_apply, h0, hc]
  · have hpos := List.length_pos_iff.2 hc
    have h0 : ¬ readableLength s ≤ 0 := by rw [h.readable]; omega
    have hn : (readableLength s).toNat = d.content.length := by rw [h.readable]; simp
    have hb : s.ub.reader ≤ s.block.len := by rw [h.rd, h.len]; omega
    have htk := h.from_reader (min d.content.length n) (by omega)
    have htk2 : d.content.take (min d.content.length n) = d.content.take n := by
      rw [List.take_eq_take_iff]; omega
    have hlen : (d.content.take n).length = min n d.content.length := by simp
    refine ⟨{ s with ub := { s.ub with reader := s.ub.reader + min n d.content.length } }, ?_, ?_, ?_⟩
    · simp only [read, bind_apply, get_apply, h0, if_false, bytesFrom, hb, if_true, hn, htk, htk2,
        modify_apply, hlen, hc]
      have : (min n d.content.length < n) ↔ d.content.length < n := by omega
      by_cases hlt : d.content.length < n
      · simp [this.2 hlt, hlt]
      · have h2 := fun x => hlt (this.1 x)
        rw [if_neg h2, if_neg hlt]; simp
    · simp only [hc, if_false]; exact h.pop _ (by omega)
    · exact .pure rfl rfl rfl

theorem readFrom_refines {s : St} {d : Deque} (rd : Nat → ReadRes) (h : Rel s d)
    (hok : Deque.Reader.Ok rd) :
    ∃ s', readFrom rd s = (.ok (if d.tail = 0 then (0, none) else
        match (rd d.tail).err with
        | some e => (0, some e)
        | none => ((rd d.tail).n, none)), s') ∧
      Rel s' (if d.tail = 0 then d else
        match (rd d.tail).err with
        | some _ => d
        | none => d.push ((rd d.tail).filled.take (rd d.tail).n)) ∧ Frame s s' := by
  by_cases ht : d.tail = 0
  · refine ⟨s, ?_, by simpa [ht] using h, Frame.refl s⟩
    have h0 : tailWritableLength s ≤ 0 := by rw [h.tailW]; omega
    simp [readFrom, bind_apply, h0, ht]
  · obtain ⟨s1, hr, h1, hc, hf, hw, hrd⟩ := resolveCow_ok h
    have h0 : ¬ (tailWritableLength s ≤ 0) := by rw [h.tailW]; omega
    have hb : s1.ub.writer ≤ s1.block.len := by rw [h1.wr, h1.len]; exact h1.le
    have hlen : ((s1.block.arr.take s1.block.len).drop s1.ub.writer).length = d.tail := by
      rw [h1.lencap, ← h1.cap_sub]; simp [St.cap]
    have hn := (hok d.tail).1
    have hfl := (hok d.tail).2
    have htk : (rd d.tail).filled.take d.tail = (rd d.tail).filled :=
      List.take_of_length_le hfl
    have hstore : ∀ k, storeAt s1.ub.writer k s1 = (.ok (), stored s1 s1.ub.writer k) := by
      intro k
      rcases s1 with ⟨⟨a, b, c, e, cow⟩, hp⟩
      simp only at hc
      subst hc
      rfl
    cases he : (rd d.tail).err with
    | some e =>
      refine ⟨stored s1 s1.ub.writer (rd d.tail).filled, ?_, ?_, ?_⟩
      · simp only [readFrom, bind_apply, get_apply, h0, if_false, hr, bytesFrom, hb, if_true, hlen,
          htk, hstore, ht, he]
        simp
      · simp only [ht, if_false]
        have := h1.store_push (rd d.tail).filled 0 (by omega) hfl
        simpa [setW, Deque.push, stored] using this
      · exact hf.then_store hc rfl rfl _ rfl
    | none =>
      refine ⟨setW (stored s1 s1.ub.writer (rd d.tail).filled) (s1.ub.writer + (rd d.tail).n), ?_, ?_, ?_⟩
      · simp only [readFrom, bind_apply, get_apply, h0, if_false, hr, bytesFrom, hb, if_true, hlen,
          htk, hstore, ht, he]
        simp [bind_apply, setW, stored]
      · simp only [ht, if_false]
        exact h1.store_push (rd d.tail).filled _ hn hfl
      · exact hf.then_store hc rfl rfl _ rfl

theorem writeTo_refines {s : St} {d : Deque} (wr : List Byte → WriteRes) (h : Rel s d)
    (hok : Deque.Writer.Ok wr) :
    ∃ s', writeTo wr s = (.ok (if d.content = [] then (none, 0, none) else
        (some d.content, (wr d.content).n, (wr d.content).err)), s') ∧
      Rel s' (if d.content = [] then d else
        match (wr d.content).err with
        | some _ => d
        | none => d.pop (wr d.content).n) ∧ Frame s s' := by
  have hle := h.le
  by_cases hc : d.content = []
  · refine ⟨s, ?_, by simpa [hc] using h, Frame.refl s⟩
    have h0 : readableLength s ≤ 0 := by rw [h.readable]; simp [hc]
    simp [writeTo, bind_apply, h0, hc]
  · have hpos := List.length_pos_iff.2 hc
    have h0 : ¬ readableLength s ≤ 0 := by rw [h.readable]; omega
    have hb : s.ub.reader ≤ s.ub.writer ∧ s.ub.writer ≤ s.cap := by
      simp only [St.cap, h.rd, h.wr, h.cap]; omega
    have hcont := h.content
    cases he : (wr d.content).err with
    | some e =>
      refine ⟨s, ?_, ?_, Frame.refl s⟩
      · simp only [writeTo, bind_apply, get_apply, h0, if_false, bytesRange, hb, and_self, if_true,
          hcont, he, hc]
        simp
      · simpa [hc] using h
    | none =>
      refine ⟨{ s with ub := { s.ub with reader := s.ub.reader + (wr d.content).n } }, ?_, ?_,
        .pure rfl rfl rfl⟩
      · simp only [writeTo, bind_apply, get_apply, h0, if_false, bytesRange, hb, and_self, if_true,
          hcont, he, hc]
        simp [bind_apply]
      · simp only [hc, if_false]
        exact h.pop _ (hok _)

theorem byteAt_reader {s : St} {d : Deque} (h : Rel s d) (b : Byte) (tl : List Byte)
    (hc : d.content = b :: tl) : byteAt s.ub.reader s = (.ok b, s) := by
  have hle := h.le
  have hlt : s.ub.reader < s.block.len := by
    rw [h.rd, h.len]; rw [hc] at hle; simp at hle; omega
  have h2 : s.block.arr.getD s.ub.reader 0 = b := by
    have hcont := h.content
    rw [hc] at hcont
    have h3 : ((s.block.arr.take s.ub.writer).drop s.ub.reader)[0]? = some b := by rw [hcont]; rfl
    rw [List.getElem?_drop, List.getElem?_take] at h3
    split at h3
    · simp at h3; simp [List.getD_eq_getElem?_getD, h3]
    · simp at h3
  simp only [byteAt, hlt, if_true, h2]

/-- Every method call that is not a head write on a shared copy-on-write buffer behaves as the deque
says. -/
theorem exec_refines {s : St} {d : Deque} (op : Op) (h : Rel s d) (hok : Deque.OpOk op)
    (ho : op.isHead = true → Owned s) :
    ∃ s', exec op s = (.ok (d.step op).1, s') ∧ Rel s' (d.step op).2 ∧ Frame s s' := by
  have hle := h.le
  cases op with
  | reset =>
    refine ⟨_, rfl, ?_, .pure rfl rfl rfl⟩
    refine ⟨h.cap, h.len, h.res, h.resle, h.res, ?_, ?_, ?_⟩
    · simp [Deque.step, h.res]
    · simp [Deque.step]; exact h.resle
    · simp only [Deque.step]
      apply List.drop_of_length_le
      simp; omega
  | capacity =>
    refine ⟨s, ?_, h, Frame.refl s⟩
    simp [exec, bind_apply, capacity, St.cap, h.cap, Deque.step]
  | readableLength =>
    refine ⟨s, ?_, h, Frame.refl s⟩
    simp [exec, bind_apply, h.readable, Deque.step]
  | headWritableLength =>
    refine ⟨s, ?_, h, Frame.refl s⟩
    simp [exec, bind_apply, headWritableLength, h.rd, Deque.step]
  | tailWritableLength =>
    refine ⟨s, ?_, h, Frame.refl s⟩
    simp [exec, bind_apply, h.tailW, Deque.step]
  | peek n =>
    refine ⟨s, ?_, ?_, Frame.refl s⟩
    · by_cases hc : d.content = []
      · have h0 : readableLength s ≤ 0 := by rw [h.readable]; simp [hc]
        simp [exec, peek, bind_apply, h0, hc, Deque.step]
      · have hpos := List.length_pos_iff.2 hc
        have h0 : ¬ readableLength s ≤ 0 := by rw [h.readable]; omega
        have hn : (readableLength s).toNat = d.content.length := by rw [h.readable]; simp
        have hb : s.ub.reader ≤ s.block.len := by rw [h.rd, h.len]; omega
        have htk := h.from_reader (min d.content.length n) (by omega)
        have htk2 : d.content.take (min d.content.length n) = d.content.take n := by
          rw [List.take_eq_take_iff]; omega
        have hlen : (d.content.take n).length = min n d.content.length := by simp
        simp only [exec, peek, bind_apply, get_apply, h0, if_false, bytesFrom, hb, if_true, hn, htk,
          htk2, hlen, Deque.step, hc]
        have : (min n d.content.length < n) ↔ d.content.length < n := by omega
        by_cases hlt : d.content.length < n
        · simp [this.2 hlt, hlt]
        · have h2 := fun x => hlt (this.1 x)
          rw [if_neg h2, if_neg hlt]; simp
    · simp only [Deque.step]; split <;> exact h
  | peekByte =>
    refine ⟨s, ?_, ?_, Frame.refl s⟩
    · cases hc : d.content with
      | nil =>
        have h0 : readableLength s < 1 := by rw [h.readable]; simp [hc]
        simp [exec, peekByte, bind_apply, h0, hc, Deque.step]
      | cons b tl =>
        have h0 : ¬ readableLength s < 1 := by rw [h.readable, hc]; simp; omega
        simp only [exec, peekByte, bind_apply, get_apply, h0, if_false, byteAt_reader h b tl hc, hc,
          Deque.step, pure_apply]
    · simp only [Deque.step]; split <;> exact h
  | peekU w o =>
    refine ⟨s, ?_, ?_, Frame.refl s⟩
    · by_cases hc : d.content.length < w.size
      · have h0 : readableLength s < w.size := by rw [h.readable]; omega
        simp [exec, peekU, bind_apply, h0, hc, Deque.step]
      · have h0 : ¬ readableLength s < w.size := by rw [h.readable]; omega
        have hb : s.ub.reader ≤ s.ub.reader + w.size ∧ s.ub.reader + w.size ≤ s.cap := by
          simp only [St.cap, h.cap, h.rd]; omega
        have hr : (s.block.arr.take (s.ub.reader + w.size)).drop s.ub.reader
            = d.content.take w.size := by
          rw [← h.content, List.take_drop, List.take_take, h.wr, h.rd]
          congr 2; omega
        simp only [exec, peekU, bind_apply, get_apply, h0, if_false, bytesRange, hb, and_self, if_true, hr,
          Deque.step, hc, pure_apply]
    · simp only [Deque.step]; split <;> exact h
  | writeByte c =>
    obtain ⟨s', h1, h2, h3⟩ := writeByte_refines c h
    refine ⟨s', ?_, ?_, h3⟩
    · simp only [exec, bind_apply, h1, Deque.step]; split <;> rfl
    · simp only [Deque.step]; split at h2 <;> simp_all
  | write p =>
    obtain ⟨s', h1, h2, h3⟩ := write_refines p h
    refine ⟨s', ?_, ?_, h3⟩
    · simp only [exec, bind_apply, h1, Deque.step]; split <;> rfl
    · simp only [Deque.step]; split at h2 <;> simp_all
  | writeU w o v =>
    by_cases hc : d.tail < w.size
    · refine ⟨s, ?_, by simpa [Deque.step, hc] using h, Frame.refl s⟩
      have h0 : tailWritableLength s < w.size := by rw [h.tailW]; omega
      simp [exec, writeU, bind_apply, h0, hc, Deque.step]
    · obtain ⟨s', h1, h2, h3⟩ := write_refines (encode w o v) h
      have hl := length_encode w o v
      have hsz := w.size_pos
      have h0 : ¬ tailWritableLength s < w.size := by rw [h.tailW]; omega
      have ht : d.tail ≠ 0 := by omega
      have htk : (encode w o v).take d.tail = encode w o v := List.take_of_length_le (by omega)
      have hnl : ¬ d.tail < (encode w o v).length := by omega
      simp only [ht, if_false, hnl, htk] at h1 h2
      refine ⟨s', ?_, ?_, h3⟩
      · simp only [exec, writeU, bind_apply, get_apply, h0, if_false, h1, pure_apply, Deque.step, hc]
      · simpa [Deque.step, hc] using h2
  | writeHeadByte c =>
    obtain ⟨s', h1, h2, h3⟩ := writeHead_refines [c] (writeByte c) h (ho rfl) (Or.inl (by simp))
      (fun t h1 h2 h3 _ => writeByte_owned c h1 h2 h3)
    refine ⟨s', ?_, ?_, h3⟩
    · have : writeHead 1 (writeByte c) s = _ := h1
      simp only [exec, writeHeadByte, bind_apply, this, Deque.step, pure_apply]
    · simpa [Deque.step] using h2
  | writeHeadBytes p =>
    by_cases hp : p = [] ∧ d.head = d.cap
    · obtain ⟨hp1, hp2⟩ := hp
      subst hp1
      refine ⟨s, ?_, by simpa [Deque.step, hp2] using h, Frame.refl s⟩
      have h0 : tailWritableLength (setW s s.ub.reader) ≤ 0 := by
        simp only [tailWritableLength, St.cap, setW_block, h.cap]; simp [setW, h.rd, hp2]
      have e : ({ s with ub := { s.ub with writer := s.ub.reader } } : St) = setW s s.ub.reader := rfl
      simp only [exec, writeHeadBytes, writeHead, List.length_nil, bind_apply, get_apply, Nat.not_lt_zero, if_false,
        modify_apply, Nat.sub_zero, write, e, h0, if_true, pure_apply, Deque.step, hp2, and_self]
      rfl
    · obtain ⟨s', h1, h2, h3⟩ := writeHead_refines p (do let r ← write p; return r.2) h (ho rfl)
        (by by_cases hp1 : p = []
            · right; have : d.head ≠ d.cap := fun x => hp ⟨hp1, x⟩
              omega
            · exact Or.inl hp1)
        (fun t ht1 ht2 ht3 ht4 => by
          have hnl : ¬ t.cap - t.ub.writer < p.length := by omega
          have hmin : min (t.cap - t.ub.writer) p.length = p.length := by omega
          rw [bind_of_ok (write_owned p ht1 ht2 ht3)]
          simp only [hnl, if_false, pure_apply, hmin, List.take_of_length_le ht4])
      refine ⟨s', ?_, ?_, h3⟩
      · simp only [exec, writeHeadBytes, Deque.step, hp, if_false]
        rw [bind_of_ok h1]; rfl
      · simpa [Deque.step, hp] using h2
  | writeHeadU w o v =>
    have hl := length_encode w o v
    have hsz := w.size_pos
    obtain ⟨s', h1, h2, h3⟩ := writeHead_refines (encode w o v) (writeU w o v) h (ho rfl)
        (Or.inl (by intro e; rw [e] at hl; simp at hl; omega))
        (fun t ht1 ht2 ht3 ht4 => by
          have h0 : ¬ tailWritableLength t < w.size := by simp only [tailWritableLength]; omega
          have hnl : ¬ t.cap - t.ub.writer < (encode w o v).length := by omega
          have hmin : min (t.cap - t.ub.writer) (encode w o v).length = (encode w o v).length := by omega
          simp only [writeU, bind_apply, get_apply, h0, if_false, write_owned _ ht1 ht2 ht3, hnl,
            pure_apply, hmin, List.take_of_length_le ht4])
    refine ⟨s', ?_, ?_, h3⟩
    · rw [hl] at h1
      simp only [exec, writeHeadU, bind_apply, h1, Deque.step, pure_apply]
    · simpa [Deque.step] using h2
  | readByte =>
    cases hc : d.content with
    | nil =>
      refine ⟨s, ?_, by simpa [Deque.step, hc] using h, Frame.refl s⟩
      have h0 : readableLength s ≤ 0 := by rw [h.readable]; simp [hc]
      simp [exec, readByte, bind_apply, h0, hc, Deque.step]
    | cons b tl =>
      refine ⟨{ s with ub := { s.ub with reader := s.ub.reader + 1 } }, ?_, ?_, .pure rfl rfl rfl⟩
      · have h0 : ¬ readableLength s ≤ 0 := by rw [h.readable, hc]; simp
        simp only [exec, readByte, bind_apply, get_apply, h0, if_false, byteAt_reader h b tl hc, hc,
          Deque.step, pure_apply, modify_apply]
      · simp only [Deque.step, hc]
        exact h.pop 1 (by simp [hc])
  | read n =>
    obtain ⟨s', h1, h2, h3⟩ := read_refines n h
    refine ⟨s', ?_, ?_, h3⟩
    · simp only [exec, bind_apply, h1, Deque.step]; split <;> rfl
    · simp only [Deque.step]; split at h2 <;> simp_all
  | readU w o =>
    have hsz := w.size_pos
    by_cases hc : d.content.length < w.size
    · refine ⟨s, ?_, by simpa [Deque.step, hc] using h, Frame.refl s⟩
      have h0 : readableLength s < w.size := by rw [h.readable]; omega
      simp [exec, readU, bind_apply, h0, hc, Deque.step]
    · obtain ⟨s', h1, h2, h3⟩ := read_refines w.size h
      have hne : d.content ≠ [] := by
        intro e; rw [e] at hc; simp at hc; omega
      have h0 : ¬ readableLength s < w.size := by rw [h.readable]; omega
      have hlen : (d.content.take w.size).length = w.size := by simp; omega
      have hmin : min w.size d.content.length = w.size := by omega
      simp only [hne, if_false, hc, hmin] at h1 h2
      refine ⟨s', ?_, by simpa [Deque.step, hc] using h2, h3⟩
      simp only [exec, readU, readFull, bind_apply, get_apply, h0, if_false, h1, hlen, ge_iff_le, Nat.le_refl,
        if_true, pure_apply, Deque.step, hc]
  | readFrom rd =>
    obtain ⟨s', h1, h2, h3⟩ := readFrom_refines rd h hok
    refine ⟨s', ?_, ?_, h3⟩
    · simp only [exec, bind_apply, h1, Deque.step]
      by_cases ht : d.tail = 0
      · simp [ht]
      · simp only [ht, if_false]; cases (rd d.tail).err <;> rfl
    · simp only [Deque.step]
      by_cases ht : d.tail = 0
      · simpa [ht] using h2
      · simp only [ht, if_false] at h2 ⊢
        cases he : (rd d.tail).err <;> simpa [he] using h2
  | writeTo wr =>
    obtain ⟨s', h1, h2, h3⟩ := writeTo_refines wr h hok
    refine ⟨s', ?_, ?_, h3⟩
    · simp only [exec, bind_apply, h1, Deque.step]
      by_cases ht : d.content = []
      · simp [ht]
      · simp only [ht, if_false]; cases (wr d.content).err <;> rfl
    · simp only [Deque.step]
      by_cases ht : d.content = []
      · simpa [ht] using h2
      · simp only [ht, if_false] at h2 ⊢
        cases he : (wr d.content).err <;> simpa [he] using h2

end Verif.UBuf
