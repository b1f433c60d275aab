import Verif.Stack.Model
import Verif.UBuf.Props

/-!
# Buffers of the data path behave as deques

`Buf s d`: the buffer `s` is well-formed, not shared, and shows the deque `d`.
-/

namespace Verif.Stack
open GoM UBuf

def Buf (s : St) (d : Deque) : Prop := Good s ∧ view s = d

theorem Buf.wf {s : St} {d : Deque} (h : Buf s d) : d.WF := by
  have := h.1.rel.wf
  rwa [h.2] at this

theorem Buf.rel {s : St} {d : Deque} (h : Buf s d) : Rel s d := by
  have := h.1.rel
  rwa [h.2] at this

theorem Buf.data {s : St} {d : Deque} (h : Buf s d) : UBuf.data s = d.content := by
  simp [UBuf.data, h.2]

theorem Buf.readable {s : St} {d : Deque} (h : Buf s d) : readableLength s = d.content.length := h.rel.readable

theorem Buf.tail {s : St} {d : Deque} (h : Buf s d) : tailWritableLength s = d.tail := h.rel.tailW

theorem map_ok {m : GoM σ α} {f : α → β} {s s' : σ} {o : β}
    (h : (do let r ← m; return f r) s = (.ok o, s')) : ∃ r, m s = (.ok r, s') ∧ f r = o := by
  rw [bind_apply] at h
  rcases hm : m s with ⟨r, s1⟩
  rw [hm] at h
  cases r with
  | ok a =>
    simp only [pure_apply, Prod.mk.injEq, Res.ok.injEq] at h
    exact ⟨a, by rw [h.2], h.1⟩
  | panic => simp at h
  | running => simp at h

theorem Buf.step {s : St} {d : Deque} (h : Buf s d) (op : Op) (hok : Deque.OpOk op) :
    ∃ s', exec op s = (.ok (d.step op).1, s') ∧ Buf s' (d.step op).2 := by
  obtain ⟨s', h1, h2, h3⟩ := h.1.step op hok
  rw [h.2] at h1 h2
  exact ⟨s', h1, h3, h2⟩

theorem Buf.writeHeadByte {s : St} {d : Deque} (h : Buf s d) (c : Byte) :
    ∃ s', UBuf.writeHeadByte c s = (.ok (d.prependAll [c]).1, s') ∧ Buf s' (d.prependAll [c]).2 := by
  obtain ⟨s', h1, h2⟩ := h.step (.writeHeadByte c) trivial
  obtain ⟨r, h3, h4⟩ := map_ok h1
  simp only [Deque.step, Out.err.injEq] at h4
  exact ⟨s', by rw [h3, h4], h2⟩

theorem Buf.writeHeadU {s : St} {d : Deque} (h : Buf s d) (w : Width) (o : Order) (v : Nat) :
    ∃ s', UBuf.writeHeadU w o v s = (.ok (d.prependAll (encode w o v)).1, s') ∧
      Buf s' (d.prependAll (encode w o v)).2 := by
  obtain ⟨s', h1, h2⟩ := h.step (.writeHeadU w o v) trivial
  obtain ⟨r, h3, h4⟩ := map_ok h1
  simp only [Deque.step, Out.err.injEq] at h4
  exact ⟨s', by rw [h3, h4], h2⟩

theorem Buf.readByte_cons {s : St} {d : Deque} {b : Byte} {bs : List Byte} (h : Buf s d) (hc : d.content = b :: bs) :
    ∃ s', UBuf.readByte s = (.ok (b, none), s') ∧ Buf s' (d.pop 1) := by
  obtain ⟨s', h1, h2⟩ := h.step .readByte trivial
  obtain ⟨r, h3, h4⟩ := map_ok h1
  simp only [Deque.step, hc] at h2 h4
  simp only [Out.num.injEq] at h4
  refine ⟨s', ?_, h2⟩
  rw [h3]
  obtain ⟨r1, r2⟩ := r
  simp only at h4
  rw [h4.2, UInt8.toNat_inj.mp h4.1]

theorem Buf.readByte_nil {s : St} {d : Deque} (h : Buf s d) (hc : d.content = []) :
    ∃ s', UBuf.readByte s = (.ok (0, some .empty), s') ∧ Buf s' d := by
  obtain ⟨s', h1, h2⟩ := h.step .readByte trivial
  obtain ⟨r, h3, h4⟩ := map_ok h1
  simp only [Deque.step, hc] at h2 h4
  simp only [Out.num.injEq] at h4
  refine ⟨s', ?_, h2⟩
  rw [h3]
  obtain ⟨r1, r2⟩ := r
  simp only at h4
  rw [h4.2, UInt8.toNat_inj.mp (show r1.toNat = (0 : UInt8).toNat from h4.1)]

theorem Buf.readU {s : St} {d : Deque} (h : Buf s d) (w : Width) (o : Order) (hl : w.size ≤ d.content.length) :
    ∃ s', UBuf.readU w o s = (.ok (decode o (d.content.take w.size), none), s') ∧ Buf s' (d.pop w.size) := by
  obtain ⟨s', h1, h2⟩ := h.step (.readU w o) trivial
  obtain ⟨r, h3, h4⟩ := map_ok h1
  have hl' : ¬ d.content.length < w.size := by omega
  simp only [Deque.step, if_neg hl'] at h2 h4
  simp only [Out.num.injEq] at h4
  refine ⟨s', ?_, h2⟩
  rw [h3, ← h4.1, ← h4.2]

theorem Buf.readU_short {s : St} {d : Deque} (h : Buf s d) (w : Width) (o : Order) (hl : d.content.length < w.size) :
    ∃ s', UBuf.readU w o s = (.ok (0, some .noMoreData), s') ∧ Buf s' d := by
  obtain ⟨s', h1, h2⟩ := h.step (.readU w o) trivial
  obtain ⟨r, h3, h4⟩ := map_ok h1
  simp only [Deque.step, if_pos hl] at h2 h4
  simp only [Out.num.injEq] at h4
  refine ⟨s', ?_, h2⟩
  obtain ⟨r1, r2⟩ := r
  simp only at h4
  rw [h3, h4.1, h4.2]

theorem Buf.peekU {s : St} {d : Deque} (h : Buf s d) (w : Width) (o : Order) (hl : w.size ≤ d.content.length) :
    ∃ s', UBuf.peekU w o s = (.ok (decode o (d.content.take w.size), none), s') ∧ Buf s' d := by
  obtain ⟨s', h1, h2⟩ := h.step (.peekU w o) trivial
  obtain ⟨r, h3, h4⟩ := map_ok h1
  have hl' : ¬ d.content.length < w.size := by omega
  simp only [Deque.step, if_neg hl'] at h2 h4
  simp only [Out.num.injEq] at h4
  refine ⟨s', ?_, h2⟩
  rw [h3, ← h4.1, ← h4.2]

/-- The outcome of `Read` on a deque. -/
def Deque.readRes (d : Deque) (n : Nat) : List Byte × Option Err :=
  if d.content = [] then ([], none)
  else (d.content.take n, if d.content.length < n then some .noMoreRead else none)

theorem Buf.read {s : St} {d : Deque} (h : Buf s d) (n : Nat) :
    ∃ s', UBuf.read n s = (.ok (Deque.readRes d n), s') ∧ Buf s' (d.pop (min n d.content.length)) := by
  obtain ⟨s', h1, h2⟩ := h.step (.read n) trivial
  obtain ⟨r, h3, h4⟩ := map_ok h1
  by_cases hc : d.content = []
  · simp only [Deque.step, if_pos hc] at h2 h4
    simp only [Out.data.injEq] at h4
    refine ⟨s', ?_, ?_⟩
    · rw [h3, Deque.readRes, if_pos hc, ← h4.1, ← h4.2]
    · have : d.pop (min n d.content.length) = d := by
        obtain ⟨_, _, _, c⟩ := d
        simp only at hc
        subst hc
        simp [Deque.pop]
      rw [this]; exact h2
  · simp only [Deque.step, if_neg hc] at h2 h4
    simp only [Out.data.injEq] at h4
    refine ⟨s', ?_, h2⟩
    rw [h3, Deque.readRes, if_neg hc, ← h4.1, ← h4.2]

theorem Buf.write {s : St} {d : Deque} (h : Buf s d) (p : List Byte) (hl : p.length ≤ d.tail) (ht : 0 < d.tail) :
    ∃ s', UBuf.write p s = (.ok (p.length, none), s') ∧ Buf s' (d.push p) := by
  obtain ⟨s', h1, h2⟩ := h.step (.write p) trivial
  obtain ⟨r, h3, h4⟩ := map_ok h1
  have e1 : ¬ d.tail = 0 := by omega
  have e2 : ¬ d.tail < p.length := by omega
  simp only [Deque.step, if_neg e1, if_neg e2] at h2 h4
  simp only [Out.count.injEq] at h4
  rw [List.take_of_length_le hl] at h2
  refine ⟨s', ?_, h2⟩
  rw [Nat.min_eq_right hl] at h4
  rw [h3, ← h4.1, ← h4.2]

/-- `Write` with too little room. -/
theorem Buf.write_short {s : St} {d : Deque} (h : Buf s d) (p : List Byte) (hl : d.tail < p.length) :
    ∃ s' n e, UBuf.write p s = (.ok (n, some e), s') ∧ Buf s' (d.push (p.take d.tail)) := by
  obtain ⟨s', h1, h2⟩ := h.step (.write p) trivial
  obtain ⟨r, h3, h4⟩ := map_ok h1
  by_cases e1 : d.tail = 0
  · simp only [Deque.step, if_pos e1] at h2 h4
    simp only [Out.count.injEq] at h4
    refine ⟨s', 0, .full, ?_, ?_⟩
    · rw [h3, ← h4.1, ← h4.2]
    · rw [e1]; simpa [Deque.push] using h2
  · simp only [Deque.step, if_neg e1, if_pos hl] at h2 h4
    simp only [Out.count.injEq] at h4
    exact ⟨s', min d.tail p.length, .partialWrite, by rw [h3, ← h4.1, ← h4.2], h2⟩

theorem Buf.write_nil {s : St} {d : Deque} (h : Buf s d) :
    ∃ s' e, UBuf.write [] s = (.ok (0, e), s') ∧ Buf s' d := by
  obtain ⟨s', h1, h2⟩ := h.step (.write []) trivial
  obtain ⟨r, h3, h4⟩ := map_ok h1
  by_cases e1 : d.tail = 0
  · simp only [Deque.step, if_pos e1] at h2 h4
    simp only [Out.count.injEq] at h4
    exact ⟨s', some .full, by rw [h3, ← h4.1, ← h4.2], h2⟩
  · simp only [Deque.step, if_neg e1] at h2 h4
    simp at h4
    refine ⟨s', none, by rw [h3, ← h4.1, ← h4.2], ?_⟩
    simpa [Deque.push] using h2

/-- `Write` in any case: what fits. -/
theorem Buf.write_any {s : St} {d : Deque} (h : Buf s d) (p : List Byte) :
    ∃ s' r, UBuf.write p s = (.ok r, s') ∧ Buf s' (d.push (p.take d.tail)) := by
  by_cases hl : d.tail < p.length
  · obtain ⟨s', n, e, h1, h2⟩ := h.write_short p hl
    exact ⟨s', _, h1, h2⟩
  · by_cases ht : d.tail = 0
    · have hp : p = [] := List.eq_nil_of_length_eq_zero (by omega)
      subst hp
      obtain ⟨s', e, h1, h2⟩ := h.write_nil
      exact ⟨s', _, h1, by simpa [Deque.push] using h2⟩
    · obtain ⟨s', h1, h2⟩ := h.write p (by omega) (by omega)
      exact ⟨s', _, h1, by rw [List.take_of_length_le (by omega)]; exact h2⟩

theorem Buf.writeByte {s : St} {d : Deque} (h : Buf s d) (c : Byte) (ht : 0 < d.tail) :
    ∃ s', UBuf.writeByte c s = (.ok none, s') ∧ Buf s' (d.push [c]) := by
  obtain ⟨s', h1, h2⟩ := h.step (.writeByte c) trivial
  obtain ⟨r, h3, h4⟩ := map_ok h1
  have e1 : ¬ d.tail = 0 := by omega
  simp only [Deque.step, if_neg e1] at h2 h4
  simp only [Out.err.injEq] at h4
  exact ⟨s', by rw [h3, h4], h2⟩

theorem Buf.writeU {s : St} {d : Deque} (h : Buf s d) (w : Width) (o : Order) (v : Nat) (ht : w.size ≤ d.tail) :
    ∃ s', UBuf.writeU w o v s = (.ok none, s') ∧ Buf s' (d.push (encode w o v)) := by
  obtain ⟨s', h1, h2⟩ := h.step (.writeU w o v) trivial
  obtain ⟨r, h3, h4⟩ := map_ok h1
  have e1 : ¬ d.tail < w.size := by omega
  simp only [Deque.step, if_neg e1] at h2 h4
  simp only [Out.err.injEq] at h4
  exact ⟨s', by rw [h3, h4], h2⟩

theorem Buf.writeU_short {s : St} {d : Deque} (h : Buf s d) (w : Width) (o : Order) (v : Nat) (ht : d.tail < w.size) :
    ∃ s' e, UBuf.writeU w o v s = (.ok e, s') ∧ Buf s' d := by
  obtain ⟨s', h1, h2⟩ := h.step (.writeU w o v) trivial
  obtain ⟨r, h3, h4⟩ := map_ok h1
  simp only [Deque.step, if_pos ht] at h2
  exact ⟨s', r, h3, h2⟩

theorem Buf.reset {s : St} {d : Deque} (h : Buf s d) :
    ∃ s', UBuf.reset s = (.ok (), s') ∧ Buf s' { d with head := d.reserved, content := [] } := by
  obtain ⟨s', h1, h2⟩ := h.step .reset trivial
  obtain ⟨r, h3, h4⟩ := map_ok h1
  exact ⟨s', h3, h2⟩

theorem Buf.readFrom {s : St} {d : Deque} (h : Buf s d) (rd : Nat → ReadRes) (hok : Deque.Reader.Ok rd) :
    ∃ s' r, UBuf.readFrom rd s = (.ok r, s') ∧ Out.count r.1 r.2 = (d.step (.readFrom rd)).1 ∧
      Buf s' (d.step (.readFrom rd)).2 := by
  obtain ⟨s', h1, h2⟩ := h.step (.readFrom rd) hok
  obtain ⟨r, h3, h4⟩ := map_ok h1
  exact ⟨s', r, h3, h4, h2⟩

/-! ## Lifting to the data path -/

theorem onBuf_ok {m : GoM St α} {s s' : St} {a : α} (h : m s = (.ok a, s')) (w : World) :
    onBuf s m w = (.ok (a, s'), w) := by simp [onBuf, h]

theorem bind_onBuf {m : GoM St α} {s s' : St} {a : α} (h : m s = (.ok a, s')) (f : α × St → GoM World β)
    (w : World) : (onBuf s m >>= f) w = f (a, s') w := bind_of_ok (onBuf_ok h w)

theorem alloc_buf (capacity reserved : Int) (h : Heap) (hc : 0 < capacity) (hr : 0 ≤ reserved) (hrc : reserved ≤ capacity) :
    ∃ s, UBuf.alloc capacity reserved h = .ok s ∧ Buf s (Deque.fresh capacity.toNat reserved.toNat) := by
  have : ∃ s, UBuf.alloc capacity reserved h = .ok s := by
    simp only [UBuf.alloc]
    rw [if_neg (by omega)]
    exact ⟨_, rfl⟩
  obtain ⟨s, hs⟩ := this
  obtain ⟨_, _, _, h1, h2⟩ := alloc_ok hs
  exact ⟨s, hs, h1, h2⟩

theorem allocBuf_ok (capacity reserved : Int) (w : World) (hc : 0 < capacity) (hr : 0 ≤ reserved)
    (hrc : reserved ≤ capacity) :
    ∃ s, allocBuf capacity reserved w = (.ok s, w) ∧ Buf s (Deque.fresh capacity.toNat reserved.toNat) := by
  obtain ⟨s, h1, h2⟩ := alloc_buf capacity reserved Heap.empty hc hr hrc
  exact ⟨s, by simp [allocBuf, h1], h2⟩

theorem allocBuf_panic (capacity reserved : Int) (w : World)
    (h : capacity ≤ 0 ∨ reserved < 0 ∨ reserved > capacity) : allocBuf capacity reserved w = (.panic, w) := by
  simp only [allocBuf, UBuf.alloc, if_pos h]

/-- What `dst.ReadFrom(src)` does on deques. -/
def Deque.readFromDeque (dst src : Deque) : Nat × Option Err × Deque × Deque :=
  if dst.tail = 0 then (0, none, dst, src)
  else if src.content = [] then (0, none, dst, src)
  else if src.content.length < dst.tail then (0, some .noMoreRead, dst, src.pop src.content.length)
  else (dst.tail, none, dst.push (src.content.take dst.tail), src.pop dst.tail)

theorem readFromBuf_ok {dst src : St} {dd ds : Deque} (hd : Buf dst dd) (hs : Buf src ds) (w : World) :
    ∃ dst' src', readFromBuf dst src w =
        (.ok (((Deque.readFromDeque dd ds).1, (Deque.readFromDeque dd ds).2.1), dst', src'), w) ∧
      Buf dst' (Deque.readFromDeque dd ds).2.2.1 ∧ Buf src' (Deque.readFromDeque dd ds).2.2.2 := by
  have hfree : dst.block.len - dst.ub.writer = dd.tail := by
    have h1 := hd.rel.cap_sub
    have h2 := hd.rel.lencap
    omega
  obtain ⟨src', hr1, hr2⟩ := hs.read dd.tail
  have hfill : (Deque.readRes ds dd.tail).1.length ≤ dd.tail := by
    simp only [Deque.readRes]; split <;> simp <;> omega
  obtain ⟨dst', r, h1, h2, h3⟩ := hd.readFrom (fun m =>
      ⟨(Deque.readRes ds dd.tail).1.take m, min m (Deque.readRes ds dd.tail).1.length, (Deque.readRes ds dd.tail).2⟩)
      (by intro m; simp; omega)
  -- the reader is only asked for `dd.tail` bytes
  have hsame : UBuf.readFrom (fun _ => ⟨(Deque.readRes ds dd.tail).1, (Deque.readRes ds dd.tail).1.length,
      (Deque.readRes ds dd.tail).2⟩) dst = (.ok r, dst') := by
    rw [← h1]
    by_cases ht : dd.tail = 0
    · have : tailWritableLength dst ≤ 0 := by rw [hd.tail]; omega
      simp only [UBuf.readFrom, bind_apply, get_apply, ite_apply, if_pos this]
    · have hcow := hd.1.cow
      have hres : resolveCow dst = (.ok (), dst) := by simp [resolveCow, hcow]
      have hbf : bytesFrom dst.ub.writer dst = (.ok ((dst.block.arr.take dst.block.len).drop dst.ub.writer), dst) := by
        have := hd.rel.lencap
        have := hd.rel.writer_lt ht
        simp only [bytesFrom]
        rw [if_pos (by omega)]
      have hlen : ((dst.block.arr.take dst.block.len).drop dst.ub.writer).length = dd.tail := by
        have := hd.rel.lencap
        have h4 : dst.cap = dst.block.arr.length := rfl
        simp; omega
      have e : ¬ tailWritableLength dst ≤ 0 := by rw [hd.tail]; omega
      simp only [UBuf.readFrom, bind_apply, get_apply, ite_apply, if_neg e, hres, hbf, hlen]
      simp only [List.take_of_length_le hfill, Nat.min_eq_right hfill, List.take_take, Nat.min_self]
  refine ⟨dst', if tailWritableLength dst ≤ 0 then src else src', ?_, ?_, ?_⟩
  · simp only [readFromBuf, hfree, hr1, hsame]
    congr 2
    obtain ⟨r1, r2⟩ := r
    simp only [Deque.step] at h2
    simp only [Deque.readFromDeque, Prod.mk.injEq]
    refine ⟨?_, trivial⟩
    by_cases ht : dd.tail = 0
    · simp only [if_pos ht, Out.count.injEq] at h2 ⊢
      exact h2
    · simp only [if_neg ht] at h2 ⊢
      by_cases hc : ds.content = []
      · simp [Deque.readRes, hc] at h2 ⊢
        exact h2
      · by_cases hl : ds.content.length < dd.tail
        · simp [Deque.readRes, hc, hl] at h2 ⊢
          exact h2
        · simp [Deque.readRes, hc, hl] at h2 ⊢
          refine ⟨?_, h2.2⟩
          rw [h2.1]; omega
  · simp only [Deque.step] at h3
    simp only [Deque.readFromDeque]
    by_cases ht : dd.tail = 0
    · simp only [if_pos ht] at h3 ⊢; exact h3
    · simp only [if_neg ht] at h3 ⊢
      by_cases hc : ds.content = []
      · simp [Deque.readRes, hc, Deque.push] at h3 ⊢
        exact h3
      · by_cases hl : ds.content.length < dd.tail
        · simp [Deque.readRes, hc, hl] at h3 ⊢
          exact h3
        · simp [Deque.readRes, hc, hl] at h3 ⊢
          have hm : min dd.tail ds.content.length = dd.tail := by omega
          simp only [hm, List.take_take, Nat.min_self] at h3
          exact h3
  · simp only [Deque.readFromDeque]
    by_cases ht : dd.tail = 0
    · have : tailWritableLength dst ≤ 0 := by rw [hd.tail]; omega
      simp only [if_pos ht, if_pos this]; exact hs
    · have : ¬ tailWritableLength dst ≤ 0 := by rw [hd.tail]; omega
      simp only [if_neg ht, if_neg this]
      by_cases hc : ds.content = []
      · simp [hc] at hr2 ⊢
        have e : ds.pop 0 = ds := by simp [Deque.pop]
        rw [e] at hr2; exact hr2
      · by_cases hl : ds.content.length < dd.tail
        · simp only [if_neg hc, if_pos hl]
          rwa [Nat.min_eq_right (by omega)] at hr2
        · simp only [if_neg hc, if_neg hl]
          rwa [Nat.min_eq_left (by omega)] at hr2

end Verif.Stack
