import Verif.UBuf.Snapshot

/-!
# Families that mix the three snapshot types (C99)

`c10_cow_isolation_partial` excludes reference snapshots and C12 looks at one buffer and its
references.  Here all three types occur in one history.  The specification has *stores*: an
allocation, a copy-on-write and a direct snapshot start a store of their own, a reference joins the
store of its source.  Buffers of one store see each other's bytes, buffers of different stores never
do.
-/

namespace Verif.UBuf
open GoM

/-! ## Specification -/

/-- The bytes a method call stores, and at which position. -/
def Deque.stores (d : Deque) : Op → Option (Nat × List Byte)
  | .writeByte c => if d.tail = 0 then none else some (d.head + d.content.length, [c])
  | .write p => if d.tail = 0 then none else some (d.head + d.content.length, p.take d.tail)
  | .writeU w o v =>
    if d.tail < w.size then none else some (d.head + d.content.length, encode w o v)
  | .writeHeadByte c => if d.head < 1 then none else some (d.head - 1, [c])
  | .writeHeadBytes p => if d.head < p.length then none else some (d.head - p.length, p)
  | .writeHeadU w o v => if d.head < w.size then none else some (d.head - w.size, encode w o v)
  -- the reader may use the free room as scratch space, whatever it reports
  | .readFrom rd =>
    if d.tail = 0 then none else some (d.head + d.content.length, (rd d.tail).filled)
  | _ => none

/-- The store after a method call. -/
def Deque.put (d : Deque) (op : Op) (store : List Byte) : List Byte :=
  match d.stores op with
  | none => store
  | some (i, bs) => overwrite store i bs

/-- In which kind of snapshot a buffer took part, as source or as result. -/
inductive Use where
  | none | reference | copyOnWrite
  deriving DecidableEq, Repr

/-- A buffer: its store, its positions, its use. -/
structure ABuf where
  store : Nat
  reserved : Nat
  head : Nat
  len : Nat
  use : Use
  deriving DecidableEq, Repr

/-- Stores and buffers. -/
structure AW where
  stores : Nat → List Byte
  n : Nat
  bufs : List ABuf

/-- What the users of a buffer observe. -/
def AW.view (a : AW) (b : ABuf) : Deque :=
  ⟨(a.stores b.store).length, b.reserved, b.head, ((a.stores b.store).take (b.head + b.len)).drop b.head⟩

def AW.views (a : AW) : List Deque := a.bufs.map a.view

/-- A new store. -/
def AW.new (a : AW) (bs : List Byte) : AW :=
  { a with stores := fun x => if x = a.n then bs else a.stores x, n := a.n + 1 }

/-- Change a store. -/
def AW.set (a : AW) (k : Nat) (bs : List Byte) : AW :=
  { a with stores := fun x => if x = k then bs else a.stores x }

/-- The intended behaviour. -/
def AW.step (a : AW) : WOp → WOut × AW
  | .alloc c r =>
    (.made a.bufs.length,
     { a.new (List.replicate c.toNat 0) with bufs := a.bufs ++ [⟨a.n, r.toNat, r.toNat, 0, .none⟩] })
  | .snap i t =>
    match a.bufs[i]? with
    | none => (.nil, a)
    | some b =>
      match t with
      | .reference =>
        (.made a.bufs.length,
         { a with bufs := a.bufs.set i { b with use := .reference } ++ [{ b with use := .reference }] })
      | .copyOnWrite =>
        (.made a.bufs.length,
         { a.new (a.stores b.store) with
           bufs := a.bufs.set i { b with use := .copyOnWrite } ++
             [{ b with store := a.n, use := .copyOnWrite }] })
      | .copyDirectly =>
        (.made a.bufs.length,
         { a.new (overwrite (List.replicate (a.stores b.store).length 0) b.head (a.view b).content) with
           bufs := a.bufs ++ [{ b with store := a.n, use := .none }] })
      | .other => (.nil, a)
  | .call i op =>
    match a.bufs[i]? with
    | none => (.nil, a)
    | some b =>
      let d := a.view b
      let d' := (d.step op).2
      (.out (d.step op).1,
       { a.set b.store (d.put op (a.stores b.store)) with
         bufs := a.bufs.set i { b with head := d'.head, len := d'.content.length } })

def AW.run (a : AW) : List WOp → List WOut × AW
  | [] => ([], a)
  | op :: ops => ((a.step op).1 :: ((a.step op).2.run ops).1, ((a.step op).2.run ops).2)

/-- No buffer takes part in both a reference and a copy-on-write snapshot, and none of the latter is
written at its head. -/
def AW.Apart (a : AW) : WOp → Prop
  | .snap i .reference => ∀ b, a.bufs[i]? = some b → b.use ≠ .copyOnWrite
  | .snap i .copyOnWrite => ∀ b, a.bufs[i]? = some b → b.use ≠ .reference
  | .call i op => op.isHead = true → ∀ b, a.bufs[i]? = some b → b.use ≠ .copyOnWrite
  | _ => True

/-- The same along a history. -/
def AW.ApartAll (a : AW) : List WOp → Prop
  | [] => True
  | op :: ops => a.Apart op ∧ (a.step op).2.ApartAll ops

/-- No buffers. -/
def AW.init : AW := ⟨fun _ => [], 0, []⟩

/-- Valid allocations and io arguments within their contracts. -/
def WOp.Valid : WOp → Prop
  | .alloc c r => 0 < c ∧ 0 ≤ r ∧ r ≤ c
  | .snap _ _ => True
  | .call _ op => Deque.OpOk op

/-! ## What a call stores -/

theorem put_self' (s : St) : s.heap.put s.ub.data { s.block with arr := s.block.arr } = s.heap :=
  put_self _ _

/-- `writeHead` on a buffer without the flag stores `bs` in front of the data. -/
theorem writeHead_heap {s : St} {d : Deque} (bs : List Byte) (fn : GoM St (Option Err))
    (h : Rel s d) (ho : Owned s) (hne : bs ≠ [] ∨ d.head < d.cap)
    (hfn : ∀ t : St, Owned t → t.block.len = t.cap → t.ub.writer < t.cap →
      bs.length ≤ t.cap - t.ub.writer →
      fn t = (.ok none, setW (stored t t.ub.writer bs) (t.ub.writer + bs.length))) :
    (writeHead bs.length fn s).2.heap = s.heap.put s.ub.data { s.block with
      arr := if d.head < bs.length then s.block.arr else overwrite s.block.arr (d.head - bs.length) bs } := by
  have hle := h.le
  have hcap := h.cap
  by_cases hh : d.head < bs.length
  · have h0 : s.ub.reader < bs.length := by rw [h.rd]; exact hh
    simp only [writeHead, bind_apply, get_apply, h0, if_true, pure_apply, hh]
    exact (put_self' s).symm
  · have h0 : ¬ s.ub.reader < bs.length := by rw [h.rd]; exact hh
    have hpos : d.head - bs.length < d.cap := by
      rcases hne with hne | hne
      · have := List.length_pos_iff.2 hne; omega
      · omega
    have hstep := hfn (setW s (s.ub.reader - bs.length)) ho
      h.lencap
      (by simp only [St.cap, setW_block, hcap]; simp only [setW, h.rd]; exact hpos)
      (by simp only [St.cap, setW_block, hcap]; simp only [setW, h.rd]; omega)
    simp only [writeHead, bind_apply, get_apply, h0, if_false, modify_apply]
    simp only [setW] at hstep
    rw [hstep]
    simp [hh, stored, St.block, bind_apply, h.rd]

/-- A method call on a buffer without the copy-on-write flag stores exactly the bytes the
specification says, in place. -/
theorem exec_heap {s : St} {d : Deque} (op : Op) (h : Rel s d) (hok : Deque.OpOk op)
    (hc : s.ub.cow = false) :
    (exec op s).2.heap = s.heap.put s.ub.data { s.block with arr := d.put op s.block.arr } := by
  have hle := h.le
  have ho : Owned s := Or.inl hc
  by_cases hp : op.isPosition = true
  · rw [exec_position_heap op hp]
    have : d.put op s.block.arr = s.block.arr := by
      cases op <;> simp [Op.isPosition] at hp <;> rfl
    rw [this]; exact (put_self' s).symm
  cases op <;> simp only [Op.isPosition, not_true_eq_false] at hp
  case writeByte c =>
    by_cases ht : d.tail = 0
    · have h0 : tailWritableLength s ≤ 0 := by rw [h.tailW]; omega
      simp only [exec, writeByte, bind_apply, get_apply, h0, if_true, pure_apply, Deque.put, Deque.stores, ht]
      exact (put_self' s).symm
    · simp only [exec, bind_apply, writeByte_owned c ho h.lencap (h.writer_lt ht), pure_apply,
        Deque.put, Deque.stores, ht, if_false, ← h.wr]
      rfl
  case write p =>
    by_cases ht : d.tail = 0
    · have h0 : tailWritableLength s ≤ 0 := by rw [h.tailW]; omega
      simp only [exec, write, bind_apply, get_apply, h0, if_true, pure_apply, Deque.put, Deque.stores, ht]
      exact (put_self' s).symm
    · simp only [exec, bind_apply, write_owned p ho h.lencap (h.writer_lt ht), pure_apply,
        Deque.put, Deque.stores, ht, if_false, ← h.wr, h.cap_sub]
      rfl
  case writeU w o v =>
    have hl := length_encode w o v
    have hsz := w.size_pos
    by_cases ht : d.tail < w.size
    · have h0 : tailWritableLength s < w.size := by rw [h.tailW]; omega
      simp only [exec, writeU, bind_apply, get_apply, h0, if_true, pure_apply, Deque.put, Deque.stores, ht]
      exact (put_self' s).symm
    · have h0 : ¬ tailWritableLength s < w.size := by rw [h.tailW]; omega
      have ht2 : d.tail ≠ 0 := by omega
      have htk : (encode w o v).take d.tail = encode w o v := List.take_of_length_le (by omega)
      simp only [exec, writeU, bind_apply, get_apply, h0, if_false,
        write_owned (encode w o v) ho h.lencap (h.writer_lt ht2), pure_apply,
        Deque.put, Deque.stores, ht, ← h.wr, h.cap_sub, htk]
      rfl
  case writeHeadByte c =>
    have := writeHead_heap [c] (writeByte c) h ho (Or.inl (by simp))
      (fun t h1 h2 h3 _ => writeByte_owned c h1 h2 h3)
    have e : (exec (.writeHeadByte c) s).2 = (writeHead 1 (writeByte c) s).2 := by
      simp only [exec, writeHeadByte, bind_apply]
      split <;> simp_all
    rw [e, show (1 : Nat) = [c].length from rfl, this]
    simp only [Deque.put, Deque.stores, List.length_singleton]
    by_cases h1 : d.head < 1 <;> simp only [h1, if_true, if_false]
  case writeHeadBytes p =>
    have e : (exec (.writeHeadBytes p) s).2 = (writeHead p.length (do let r ← write p; return r.2) s).2 := by
      simp only [exec, writeHeadBytes, bind_apply]
      split <;> simp_all
    by_cases hp : p = [] ∧ d.head = d.cap
    · obtain ⟨hp1, hp2⟩ := hp
      subst hp1
      have h0 : tailWritableLength (setW s s.ub.reader) ≤ 0 := by
        simp only [tailWritableLength, St.cap, setW_block, h.cap]; simp [setW, h.rd, hp2]
      have e2 : ({ s with ub := { s.ub with writer := s.ub.reader } } : St) = setW s s.ub.reader := rfl
      rw [e]
      simp only [writeHead, List.length_nil, bind_apply, get_apply, Nat.not_lt_zero, if_false,
        modify_apply, Nat.sub_zero, write, e2, h0, if_true, pure_apply, Deque.put, Deque.stores]
      have : overwrite s.block.arr d.head [] = s.block.arr := by simp [overwrite]
      rw [this]
      exact (put_self' s).symm
    · have := writeHead_heap p (do let r ← write p; return r.2) h ho
        (by by_cases hp1 : p = []
            · right; have : d.head ≠ d.cap := fun x => hp ⟨hp1, x⟩
              omega
            · exact Or.inl hp1)
        (fun t ht1 ht2 ht3 ht4 => by
          have hnl : ¬ t.cap - t.ub.writer < p.length := by omega
          have hmin : min (t.cap - t.ub.writer) p.length = p.length := by omega
          rw [bind_of_ok (write_owned p ht1 ht2 ht3)]
          simp only [hnl, if_false, pure_apply, hmin, List.take_of_length_le ht4])
      rw [e, this]
      simp only [Deque.put, Deque.stores]
      by_cases h1 : d.head < p.length <;> simp only [h1, if_true, if_false]
  case writeHeadU w o v =>
    have hl := length_encode w o v
    have hsz := w.size_pos
    have := writeHead_heap (encode w o v) (writeU w o v) h ho
        (Or.inl (by intro e; rw [e] at hl; simp at hl; omega))
        (fun t ht1 ht2 ht3 ht4 => by
          have h0 : ¬ tailWritableLength t < w.size := by simp only [tailWritableLength]; omega
          have hnl : ¬ t.cap - t.ub.writer < (encode w o v).length := by omega
          have hmin : min (t.cap - t.ub.writer) (encode w o v).length = (encode w o v).length := by omega
          simp only [writeU, bind_apply, get_apply, h0, if_false, write_owned _ ht1 ht2 ht3, hnl,
            pure_apply, hmin, List.take_of_length_le ht4])
    have e : (exec (.writeHeadU w o v) s).2 = (writeHead w.size (writeU w o v) s).2 := by
      simp only [exec, writeHeadU, bind_apply]
      split <;> simp_all
    rw [hl] at this
    rw [e, this]
    simp only [Deque.put, Deque.stores]
    by_cases h1 : d.head < w.size <;> simp only [h1, if_true, if_false]
  case readFrom rd =>
    by_cases ht : d.tail = 0
    · have h0 : tailWritableLength s ≤ 0 := by rw [h.tailW]; omega
      simp only [exec, readFrom, bind_apply, get_apply, h0, if_true, pure_apply, Deque.put, Deque.stores, ht]
      exact (put_self' s).symm
    · have h0 : ¬ (tailWritableLength s ≤ 0) := by rw [h.tailW]; omega
      have hb : s.ub.writer ≤ s.block.len := by rw [h.wr, h.len]; exact h.le
      have hlen : ((s.block.arr.take s.block.len).drop s.ub.writer).length = d.tail := by
        rw [h.lencap, ← h.cap_sub]; simp [St.cap]
      have hfl := (hok d.tail).2
      have htk : (rd d.tail).filled.take d.tail = (rd d.tail).filled :=
        List.take_of_length_le hfl
      simp only [exec, readFrom, bind_apply, get_apply, h0, if_false, resolveCow_noop hc, bytesFrom, hb,
        if_true, hlen, htk, storeAt, modify_apply, Deque.put, Deque.stores, ht, ← h.wr]
      cases he : (rd d.tail).err <;> simp [bind_apply, St.putBlock]

/-- A call keeps capacity and reservation. -/
theorem step_shape (d : Deque) (op : Op) :
    (d.step op).2.cap = d.cap ∧ (d.step op).2.reserved = d.reserved := by
  cases op <;> simp only [Deque.step, Deque.prependAll] <;> (repeat' split) <;>
    first | exact ⟨rfl, rfl⟩ | exact ⟨trivial, trivial⟩

/-- After a call the window over the store shows what the deque holds. -/
theorem put_window (arr : List Byte) (d : Deque) (op : Op) (hcap : arr.length = d.cap) (hwf : d.WF)
    (hw : (arr.take (d.head + d.content.length)).drop d.head = d.content) (hok : Deque.OpOk op) :
    (d.put op arr).length = d.cap ∧
    (d.step op).2.head + (d.step op).2.content.length ≤ d.cap ∧
    ((d.put op arr).take ((d.step op).2.head + (d.step op).2.content.length)).drop (d.step op).2.head
      = (d.step op).2.content := by
  let s : St := ⟨⟨d.reserved, d.head, d.head + d.content.length, 0, false⟩,
    Heap.empty.put 0 ⟨1, arr, arr.length⟩⟩
  have hb : s.block = ⟨1, arr, arr.length⟩ := by simp [s, St.block]
  have hr : Rel s d := ⟨by rw [hb]; exact hcap, by rw [hb]; exact hcap, rfl, hwf.1, rfl, rfl, hwf.2,
    by rw [hb]; exact hw⟩
  obtain ⟨s', h1, h2, h3⟩ := exec_refines op hr hok (fun _ => Or.inl rfl)
  have h4 := exec_heap op hr hok rfl
  rw [h1] at h4
  have hd : s'.ub.data = 0 := by
    cases h3 with
    | pure hd _ _ => exact hd
    | inplace _ hd _ _ _ => exact hd
    | copied hc _ _ _ _ _ _ => cases hc
  have ha : s'.block.arr = d.put op arr := by
    have h5 : s'.heap = s.heap.put 0 { s.block with arr := d.put op s.block.arr } := h4
    simp only [St.block, hd, h5, put_same]
    exact congrArg (fun k => d.put op k.arr) hb
  have hsh := step_shape d op
  refine ⟨?_, ?_, ?_⟩
  · rw [← ha, h2.cap, hsh.1]
  · rw [← hsh.1]; exact h2.le
  · rw [← ha, ← h2.wr, ← h2.rd]; exact h2.content

/-! ## Invariant -/

structure MInv (w : W) (a : AW) : Prop where
  len : w.bufs.length = a.bufs.length
  lt : ∀ (i : Nat) ub, w.bufs[i]? = some ub → ub.data < w.heap.next
  slt : ∀ (i : Nat) b, a.bufs[i]? = some b → b.store < a.n
  fits : ∀ (i : Nat) b, a.bufs[i]? = some b → b.head + b.len ≤ (a.stores b.store).length
  rel : ∀ (i : Nat) ub b, w.bufs[i]? = some ub → a.bufs[i]? = some b → Rel ⟨ub, w.heap⟩ (a.view b)
  plain : ∀ (i : Nat) ub b, w.bufs[i]? = some ub → a.bufs[i]? = some b → b.use ≠ .copyOnWrite →
    ub.cow = false ∧ (w.heap.blk ub.data).arr = a.stores b.store
  rc : ∀ (i : Nat) ub b, w.bufs[i]? = some ub → a.bufs[i]? = some b → b.use ≠ .reference →
    (w.heap.blk ub.data).refCount = handles w.bufs ub.data
  blocks : ∀ (i j : Nat) u v b c, i ≠ j → w.bufs[i]? = some u → w.bufs[j]? = some v →
    a.bufs[i]? = some b → a.bufs[j]? = some c → u.data = v.data →
    (b.use = .copyOnWrite ∧ u.cow = true) ∨ (b.use = .reference ∧ c.use = .reference ∧ b.store = c.store)
  stores : ∀ (i j : Nat) u v b c, i ≠ j → w.bufs[i]? = some u → w.bufs[j]? = some v →
    a.bufs[i]? = some b → a.bufs[j]? = some c → b.store = c.store →
    u.data = v.data ∧ b.use = .reference ∧ c.use = .reference

theorem MInv.init : MInv W.init AW.init := by
  refine ⟨rfl, ?_, ?_, ?_, ?_, ?_, ?_, ?_, ?_⟩ <;> intro i <;> intros <;> simp_all [W.init, AW.init]

theorem MInv.get {w : W} {a : AW} (h : MInv w a) {i : Nat} {b : ABuf} (hb : a.bufs[i]? = some b) :
    ∃ ub, w.bufs[i]? = some ub := by
  have hil := (List.getElem?_eq_some_iff.1 hb).1
  exact ⟨w.bufs[i]'(by rw [h.len]; exact hil), List.getElem?_eq_getElem _⟩

theorem MInv.get' {w : W} {a : AW} (h : MInv w a) {i : Nat} {ub : UBuf} (hb : w.bufs[i]? = some ub) :
    ∃ b, a.bufs[i]? = some b := by
  have hil := (List.getElem?_eq_some_iff.1 hb).1
  exact ⟨a.bufs[i]'(by rw [← h.len]; exact hil), List.getElem?_eq_getElem _⟩

theorem AW.view_len (a : AW) (b : ABuf) (h : b.head + b.len ≤ (a.stores b.store).length) :
    (a.view b).content.length = b.len := by
  simp [AW.view]; omega

theorem MInv.views {w : W} {a : AW} (h : MInv w a) : w.views = a.views := by
  apply List.ext_getElem?
  intro i
  simp only [W.views, AW.views, List.getElem?_map]
  cases hb : a.bufs[i]? with
  | none =>
    have : w.bufs[i]? = none := by
      rw [List.getElem?_eq_none_iff] at hb ⊢; rw [h.len]; exact hb
    rw [this]; rfl
  | some b =>
    obtain ⟨ub, hu⟩ := h.get hb
    rw [hu]
    have hr := h.rel i ub b hu hb
    simp only [Option.map_some, Option.some.injEq]
    have hcap := hr.cap
    have hres := hr.res
    have hrd := hr.rd
    have hc := hr.content
    simp only [St.block, AW.view] at hcap hres hrd hc
    simp only [Verif.UBuf.view, St.cap, St.block, AW.view, hcap, hres, hc]
    simp only [hrd]

theorem get_append_one {α} {l : List α} {x y : α} {j : Nat} (h : (l ++ [x])[j]? = some y) :
    (l[j]? = some y ∧ j < l.length) ∨ (j = l.length ∧ y = x) := by
  rw [List.getElem?_append] at h
  split at h
  · next hl => exact Or.inl ⟨h, hl⟩
  · right
    have hj : j - l.length = 0 := by
      rcases hk : j - l.length with _ | k
      · rfl
      · rw [hk] at h; simp at h
    rw [hj] at h; simp at h
    exact ⟨by omega, h.symm⟩

/-- A new buffer over a new block and a new store. -/
theorem MInv.add {w : W} {a : AW} (h : MInv w a) (ub : UBuf) (b : ABuf) (k : Block)
    (hd : ub.data = w.heap.next) (hs : b.store = a.n) (hrc : k.refCount = 1) (hc : ub.cow = false)
    (hu : b.use = .none) (hfit : b.head + b.len ≤ k.arr.length)
    (hr : Rel ⟨ub, w.heap.alloc k⟩ ((a.new k.arr).view b)) :
    MInv { bufs := w.bufs ++ [ub], heap := w.heap.alloc k }
      { a.new k.arr with bufs := a.bufs ++ [b] } := by
  have hnone : handles w.bufs w.heap.next = 0 := by
    rw [handles, List.countP_eq_zero]
    intro x hx
    obtain ⟨j, hj, rfl⟩ := List.getElem_of_mem hx
    have := h.lt j _ (List.getElem?_eq_getElem hj)
    simp; omega
  have hcnt : ∀ x, handles (w.bufs ++ [ub]) x = handles w.bufs x + if w.heap.next = x then 1 else 0 := by
    intro x; simp [handles, List.countP_append, List.countP_cons, hd]
  have hst : ∀ (j : Nat) (c : ABuf), a.bufs[j]? = some c → (a.new k.arr).stores c.store = a.stores c.store := by
    intro j c hj
    have := h.slt j c hj
    simp only [AW.new]; rw [if_neg (by omega)]
  have hvw : ∀ (j : Nat) (c : ABuf), a.bufs[j]? = some c → (a.new k.arr).view c = a.view c := by
    intro j c hj
    simp only [AW.view, hst j c hj]
  have hnew : (a.new k.arr).stores b.store = k.arr := by simp [AW.new, hs]
  have hpair : ∀ (j : Nat) u c, (w.bufs ++ [ub])[j]? = some u → (a.bufs ++ [b])[j]? = some c →
      (w.bufs[j]? = some u ∧ a.bufs[j]? = some c) ∨ (j = w.bufs.length ∧ u = ub ∧ c = b) := by
    intro j u c h1 h2
    rcases get_append_one h1 with ⟨h1, h1'⟩ | ⟨h1, h1'⟩ <;> rcases get_append_one h2 with ⟨h2, h2'⟩ | ⟨h2, h2'⟩
    · exact Or.inl ⟨h1, h2⟩
    · have := h.len; omega
    · have := h.len; omega
    · exact Or.inr ⟨h1, h1', h2'⟩
  refine ⟨by simp [h.len, AW.new], ?_, ?_, ?_, ?_, ?_, ?_, ?_, ?_⟩
  · intro j u hj
    simp only [alloc_next]
    rcases get_append_one hj with ⟨h1, _⟩ | ⟨h1, h2⟩
    · have := h.lt j u h1; omega
    · rw [h2]; omega
  · intro j c hj
    simp only [AW.new]
    rcases get_append_one hj with ⟨h1, _⟩ | ⟨h1, h2⟩
    · have := h.slt j c h1; omega
    · rw [h2]; omega
  · intro j c hj
    rcases get_append_one hj with ⟨h1, _⟩ | ⟨h1, h2⟩
    · have := h.fits j c h1
      rw [← hst j c h1] at this; exact this
    · rw [h2]; show _ ≤ ((a.new k.arr).stores b.store).length
      rw [hnew]; exact hfit
  · intro j u c h1 h2
    rcases hpair j u c h1 h2 with ⟨h1, h2⟩ | ⟨_, h1, h2⟩
    · have hl := h.lt j u h1
      have := h.rel j u c h1 h2
      rw [← hvw j c h2] at this
      refine this.congr ?_ ?_ <;> simp only <;> rw [alloc_other _ _ _ (by omega)]
    · rw [h1, h2]; exact hr
  · intro j u c h1 h2 h3
    rcases hpair j u c h1 h2 with ⟨h1, h2⟩ | ⟨_, h1, h2⟩
    · have hl := h.lt j u h1
      have := h.plain j u c h1 h2 h3
      refine ⟨this.1, ?_⟩
      simp only
      rw [alloc_other _ _ _ (by omega), this.2]
      exact (hst j c h2).symm
    · rw [h1, h2]
      refine ⟨hc, ?_⟩
      show ((w.heap.alloc k).blk ub.data).arr = (a.new k.arr).stores b.store
      rw [hd, alloc_new, hnew]
  · intro j u c h1 h2 h3
    simp only [hcnt]
    rcases hpair j u c h1 h2 with ⟨h1, h2⟩ | ⟨_, h1, h2⟩
    · have hl := h.lt j u h1
      rw [alloc_other _ _ _ (by omega), if_neg (by omega), h.rc j u c h1 h2 h3]
      simp
    · rw [h1, hd, alloc_new, hrc, hnone]; simp
  · intro j l u v c e hjl h1 h2 h3 h4 huv
    rcases hpair j u c h1 h3 with ⟨h1, h3⟩ | ⟨h5, h1, h3⟩ <;>
      rcases hpair l v e h2 h4 with ⟨h2, h4⟩ | ⟨h6, h2, h4⟩
    · exact h.blocks j l u v c e hjl h1 h2 h3 h4 huv
    · have := h.lt j u h1; rw [huv, h2] at this; omega
    · have := h.lt l v h2; rw [← huv, h1] at this; omega
    · omega
  · intro j l u v c e hjl h1 h2 h3 h4 hce
    rcases hpair j u c h1 h3 with ⟨h1, h3⟩ | ⟨h5, h1, h3⟩ <;>
      rcases hpair l v e h2 h4 with ⟨h2, h4⟩ | ⟨h6, h2, h4⟩
    · exact h.stores j l u v c e hjl h1 h2 h3 h4 hce
    · have := h.slt j c h3; rw [hce, h4] at this; omega
    · have := h.slt l e h4; rw [← hce, h3] at this; omega
    · omega

/-- The pairs after a snapshot: an old pair, the source, or the new buffer. -/
theorem snap_pair {w : W} {a : AW} (h : MInv w a) (i : Nat) (ub ub' nub : UBuf) (b b' nb : ABuf)
    (hi : w.bufs[i]? = some ub) (hb : a.bufs[i]? = some b) (j : Nat) (u : UBuf) (c : ABuf)
    (h1 : (w.bufs.set i ub' ++ [nub])[j]? = some u) (h2 : (a.bufs.set i b' ++ [nb])[j]? = some c) :
    (j ≠ i ∧ w.bufs[j]? = some u ∧ a.bufs[j]? = some c) ∨ (j = i ∧ u = ub' ∧ c = b') ∨
      (j = w.bufs.length ∧ u = nub ∧ c = nb) := by
  have hl := h.len
  rcases get_append_one h1 with ⟨h1, h1'⟩ | ⟨h1, h1'⟩ <;> rcases get_append_one h2 with ⟨h2, h2'⟩ | ⟨h2, h2'⟩
  · rcases get_set_cases h1 with ⟨h3, h4, _⟩ | ⟨h3, h4⟩ <;> rcases get_set_cases h2 with ⟨h5, h6, _⟩ | ⟨h5, h6⟩
    · exact Or.inr (Or.inl ⟨h3, h4, h6⟩)
    · exact absurd h3 h5
    · exact absurd h5 h3
    · exact Or.inl ⟨h3, h4, h6⟩
  · simp at h1' h2; omega
  · simp at h1 h2'; omega
  · simp only [List.length_set] at h1
    exact Or.inr (Or.inr ⟨h1, h1', h2'⟩)

theorem snap_one {α} {l : List α} {i j : Nat} {x y z : α} (h : (l.set i x ++ [y])[j]? = some z) :
    l[j]? = some z ∨ z = x ∨ z = y := by
  rcases get_append_one h with ⟨h1, _⟩ | ⟨_, h1⟩
  · rcases get_set_cases h1 with ⟨_, h2, _⟩ | ⟨_, h2⟩
    · exact Or.inr (Or.inl h2)
    · exact Or.inl h2
  · exact Or.inr (Or.inr h1)

theorem MInv.apart {w : W} {a : AW} (h : MInv w a) {i j : Nat} {u v : UBuf} {b c : ABuf} (hij : i ≠ j)
    (hi : w.bufs[i]? = some u) (hj : w.bufs[j]? = some v) (hb : a.bufs[i]? = some b)
    (hc : a.bufs[j]? = some c) (hu : b.use ≠ c.use ∨ b.use = .none) :
    u.data ≠ v.data ∧ b.store ≠ c.store := by
  constructor
  · intro e
    rcases h.blocks i j u v b c hij hi hj hb hc e with h1 | h1 <;>
      rcases h.blocks j i v u c b (Ne.symm hij) hj hi hc hb e.symm with h2 | h2
    · rcases hu with hu | hu
      · exact hu (h1.1.trans h2.1.symm)
      · rw [h1.1] at hu; cases hu
    · rcases hu with hu | hu
      · exact hu (h2.2.1.trans h2.1.symm)
      · rw [h1.1] at hu; cases hu
    · rcases hu with hu | hu
      · exact hu (h1.1.trans h1.2.1.symm)
      · rw [h1.1] at hu; cases hu
    · rcases hu with hu | hu
      · exact hu (h1.1.trans h1.2.1.symm)
      · rw [h1.1] at hu; cases hu
  · intro e
    have h1 := h.stores i j u v b c hij hi hj hb hc e
    rcases hu with hu | hu
    · exact hu (h1.2.1.trans h1.2.2.symm)
    · rw [h1.2.1] at hu; cases hu

/-- A reference snapshot keeps the invariant. -/
theorem MInv.snapRef {w : W} {a : AW} (h : MInv w a) (i : Nat) (ub : UBuf) (b : ABuf)
    (hi : w.bufs[i]? = some ub) (hb : a.bufs[i]? = some b) (hu : b.use ≠ .copyOnWrite) :
    MInv { bufs := w.bufs.set i ub ++ [{ ub with cow := false }], heap := w.heap }
      { a with bufs := a.bufs.set i { b with use := .reference } ++ [{ b with use := .reference }] } := by
  have hpl := h.plain i ub b hi hb hu
  have hub : ({ ub with cow := false } : UBuf) = ub := by rw [← hpl.1]
  rw [hub]
  have hpair := fun j u c => snap_pair h i ub ub ub b { b with use := .reference }
    { b with use := .reference } hi hb j u c
  -- the buffers of the other uses share nothing with buffer `i`
  have hoth : ∀ (j : Nat) v c, j ≠ i → w.bufs[j]? = some v → a.bufs[j]? = some c →
      c.use ≠ .reference → v.data ≠ ub.data ∧ c.store ≠ b.store := by
    intro j v c hne hv hc hcu
    by_cases e : c.use = .none
    · exact h.apart hne hv hi hc hb (Or.inr e)
    · by_cases e2 : b.use = .none
      · have := h.apart (Ne.symm hne) hi hv hb hc (Or.inr e2)
        exact ⟨Ne.symm this.1, Ne.symm this.2⟩
      · refine h.apart hne hv hi hc hb (Or.inl ?_)
        revert hu hcu e e2
        cases b.use <;> cases c.use <;> simp
  refine ⟨by simp [h.len], ?_, ?_, ?_, ?_, ?_, ?_, ?_, ?_⟩
  · intro j u hj
    rcases snap_one hj with h1 | h1 | h1
    · exact h.lt j u h1
    · rw [h1]; exact h.lt i ub hi
    · rw [h1]; exact h.lt i ub hi
  · intro j c hj
    rcases snap_one hj with h1 | h1 | h1
    · exact h.slt j c h1
    · rw [h1]; exact h.slt i b hb
    · rw [h1]; exact h.slt i b hb
  · intro j c hj
    rcases snap_one hj with h1 | h1 | h1
    · exact h.fits j c h1
    · rw [h1]; exact h.fits i b hb
    · rw [h1]; exact h.fits i b hb
  · intro j u c h1 h2
    rcases hpair j u c h1 h2 with ⟨_, h3, h4⟩ | ⟨_, h3, h4⟩ | ⟨_, h3, h4⟩
    · exact h.rel j u c h3 h4
    · rw [h3, h4]; exact h.rel i ub b hi hb
    · rw [h3, h4]; exact h.rel i ub b hi hb
  · intro j u c h1 h2 h3
    rcases hpair j u c h1 h2 with ⟨_, h3', h4⟩ | ⟨_, h3', h4⟩ | ⟨_, h3', h4⟩
    · exact h.plain j u c h3' h4 h3
    · rw [h3', h4]; exact hpl
    · rw [h3', h4]; exact hpl
  · intro j u c h1 h2 h3
    rcases hpair j u c h1 h2 with ⟨hne, h3', h4⟩ | ⟨_, h3', h4⟩ | ⟨_, h3', h4⟩
    · have hx := (hoth j u c hne h3' h4 h3).1
      have := h.rc j u c h3' h4 h3
      have hc := countP_set (fun x => x.data == u.data) w.bufs i ub ub hi
      simp only [handles, List.countP_append, List.countP_cons, List.countP_nil] at this hc ⊢
      simp only [beq_iff_eq, Ne.symm hx, if_false] at hc ⊢
      rw [this]; omega
    · rw [h4] at h3; exact absurd rfl h3
    · rw [h4] at h3; exact absurd rfl h3
  · intro j l u v c e hjl h1 h2 h3 h4 huv
    have key : ∀ (j : Nat) u c, j ≠ i → w.bufs[j]? = some u → a.bufs[j]? = some c → u.data = ub.data →
        c.use = .reference ∧ c.store = b.store := by
      intro j u c hne h5 h6 h7
      have hcr : c.use = .reference := by
        apply Decidable.byContradiction
        intro hn
        exact (hoth j u c hne h5 h6 hn).1 h7
      refine ⟨hcr, ?_⟩
      rcases h.blocks j i u ub c b hne h5 hi h6 hb h7 with h8 | h8
      · rw [hcr] at h8; cases h8.1
      · exact h8.2.2
    rcases hpair j u c h1 h3 with ⟨hn1, h1, h3⟩ | ⟨h5, h1, h3⟩ | ⟨h5, h1, h3⟩ <;>
      rcases hpair l v e h2 h4 with ⟨hn2, h2, h4⟩ | ⟨h6, h2, h4⟩ | ⟨h6, h2, h4⟩
    · exact h.blocks j l u v c e hjl h1 h2 h3 h4 huv
    · have := key j u c hn1 h1 h3 (by rw [huv, h2])
      right; rw [h4]; exact ⟨this.1, rfl, this.2⟩
    · have := key j u c hn1 h1 h3 (by rw [huv, h2])
      right; rw [h4]; exact ⟨this.1, rfl, this.2⟩
    · have := key l v e hn2 h2 h4 (by rw [← huv, h1])
      right; rw [h3]; exact ⟨rfl, this.1, this.2.symm⟩
    · omega
    · right; rw [h3, h4]; exact ⟨rfl, rfl, rfl⟩
    · have := key l v e hn2 h2 h4 (by rw [← huv, h1])
      right; rw [h3]; exact ⟨rfl, this.1, this.2.symm⟩
    · right; rw [h3, h4]; exact ⟨rfl, rfl, rfl⟩
    · omega
  · intro j l u v c e hjl h1 h2 h3 h4 hce
    rcases hpair j u c h1 h3 with ⟨hn1, h1, h3⟩ | ⟨h5, h1, h3⟩ | ⟨h5, h1, h3⟩ <;>
      rcases hpair l v e h2 h4 with ⟨hn2, h2, h4⟩ | ⟨h6, h2, h4⟩ | ⟨h6, h2, h4⟩
    · exact h.stores j l u v c e hjl h1 h2 h3 h4 hce
    · have := h.stores j i u ub c b hn1 h1 hi h3 hb (by rw [hce, h4])
      rw [h2, h4]; exact ⟨this.1, this.2.1, rfl⟩
    · have := h.stores j i u ub c b hn1 h1 hi h3 hb (by rw [hce, h4])
      rw [h2, h4]; exact ⟨this.1, this.2.1, rfl⟩
    · have := h.stores l i v ub e b hn2 h2 hi h4 hb (by rw [← hce, h3])
      rw [h1, h3]; exact ⟨this.1.symm, rfl, this.2.1⟩
    · omega
    · rw [h1, h2, h3, h4]; exact ⟨rfl, rfl, rfl⟩
    · have := h.stores l i v ub e b hn2 h2 hi h4 hb (by rw [← hce, h3])
      rw [h1, h3]; exact ⟨this.1.symm, rfl, this.2.1⟩
    · rw [h1, h2, h3, h4]; exact ⟨rfl, rfl, rfl⟩
    · omega

/-- A copy-on-write snapshot keeps the invariant. -/
theorem MInv.snapCow {w : W} {a : AW} (h : MInv w a) (i : Nat) (ub : UBuf) (b : ABuf)
    (hi : w.bufs[i]? = some ub) (hb : a.bufs[i]? = some b) (hu : b.use ≠ .reference) :
    MInv { bufs := w.bufs.set i { ub with cow := true } ++ [{ ub with cow := true }]
           heap := w.heap.put ub.data { w.heap.blk ub.data with
             refCount := (w.heap.blk ub.data).refCount + 1 } }
      { a.new (a.stores b.store) with
        bufs := a.bufs.set i { b with use := .copyOnWrite } ++
          [{ b with store := a.n, use := .copyOnWrite }] } := by
  have hil := (List.getElem?_eq_some_iff.1 hi).1
  have hpair := fun j u c => snap_pair h i ub { ub with cow := true } { ub with cow := true } b
    { b with use := .copyOnWrite } { b with store := a.n, use := .copyOnWrite } hi hb j u c
  have hblk : ∀ x, ((w.heap.put ub.data { w.heap.blk ub.data with
      refCount := (w.heap.blk ub.data).refCount + 1 }).blk x).arr = (w.heap.blk x).arr ∧
      ((w.heap.put ub.data { w.heap.blk ub.data with
      refCount := (w.heap.blk ub.data).refCount + 1 }).blk x).len = (w.heap.blk x).len ∧
      ((w.heap.put ub.data { w.heap.blk ub.data with
      refCount := (w.heap.blk ub.data).refCount + 1 }).blk x).refCount = (w.heap.blk x).refCount +
        if ub.data = x then 1 else 0 := by
    intro x
    by_cases e : x = ub.data
    · subst e; simp
    · simp [put_other _ _ _ _ e, Ne.symm e]
  have hcnt : ∀ x, handles (w.bufs.set i { ub with cow := true } ++ [{ ub with cow := true }]) x
      = handles w.bufs x + if ub.data = x then 1 else 0 := by
    intro x
    have := countP_set (fun u => u.data == x) w.bufs i { ub with cow := true } ub hi
    simp only at this
    simp only [handles, List.countP_append, List.countP_cons, List.countP_nil, beq_iff_eq] at this ⊢
    omega
  have hst : ∀ (j : Nat) (c : ABuf), a.bufs[j]? = some c →
      (a.new (a.stores b.store)).stores c.store = a.stores c.store := by
    intro j c hj
    have := h.slt j c hj
    simp only [AW.new]; rw [if_neg (by omega)]
  have hnew : (a.new (a.stores b.store)).stores a.n = a.stores b.store := by simp [AW.new]
  have hvw : ∀ (j : Nat) (c : ABuf), a.bufs[j]? = some c →
      (a.new (a.stores b.store)).view c = a.view c := by
    intro j c hj
    simp only [AW.view, hst j c hj]
  have hri : Rel ⟨{ ub with cow := true }, w.heap.put ub.data { w.heap.blk ub.data with
      refCount := (w.heap.blk ub.data).refCount + 1 }⟩ (a.view b) := by
    have hr2 := (h.rel i ub b hi hb).congr (h' := w.heap.put ub.data { w.heap.blk ub.data with
          refCount := (w.heap.blk ub.data).refCount + 1 }) (hblk _).1 (hblk _).2.1
    exact ⟨hr2.cap, hr2.len, hr2.res, hr2.resle, hr2.rd, hr2.wr, hr2.le, hr2.content⟩
  -- the buffers that share the block are copy-on-write buffers
  have hoth : ∀ (j : Nat) v c, j ≠ i → w.bufs[j]? = some v → a.bufs[j]? = some c →
      v.data = ub.data → c.use = .copyOnWrite ∧ v.cow = true := by
    intro j v c hne hv hc hd
    rcases h.blocks j i v ub c b hne hv hi hc hb hd with h1 | h1
    · exact h1
    · exact absurd h1.2.1 hu
  refine ⟨by simp [h.len], ?_, ?_, ?_, ?_, ?_, ?_, ?_, ?_⟩
  · intro j u hj
    simp only [put_next]
    rcases snap_one hj with h1 | h1 | h1
    · exact h.lt j u h1
    · rw [h1]; exact h.lt i ub hi
    · rw [h1]; exact h.lt i ub hi
  · intro j c hj
    simp only [AW.new]
    rcases snap_one hj with h1 | h1 | h1
    · have := h.slt j c h1; omega
    · rw [h1]; have := h.slt i b hb; simp only; omega
    · rw [h1]; simp only; omega
  · intro j c hj
    rcases snap_one hj with h1 | h1 | h1
    · show _ ≤ ((a.new (a.stores b.store)).stores c.store).length
      rw [hst j c h1]; exact h.fits j c h1
    · rw [h1]
      show _ ≤ ((a.new (a.stores b.store)).stores b.store).length
      rw [hst i b hb]; exact h.fits i b hb
    · rw [h1]
      show _ ≤ ((a.new (a.stores b.store)).stores a.n).length
      rw [hnew]; exact h.fits i b hb
  · intro j u c h1 h2
    rcases hpair j u c h1 h2 with ⟨_, h3, h4⟩ | ⟨_, h3, h4⟩ | ⟨_, h3, h4⟩
    · show Rel _ ((a.new (a.stores b.store)).view c)
      rw [hvw j c h4]
      exact (h.rel j u c h3 h4).congr (hblk _).1 (hblk _).2.1
    · rw [h3, h4]
      show Rel _ ((a.new (a.stores b.store)).view b)
      rw [hvw i b hb]
      exact hri
    · rw [h3, h4]
      have e : (a.new (a.stores b.store)).view { b with store := a.n, use := .copyOnWrite } = a.view b := by
        simp only [AW.view, hnew]
      show Rel _ ((a.new (a.stores b.store)).view _)
      rw [e]
      exact hri
  · intro j u c h1 h2 h3
    rcases hpair j u c h1 h2 with ⟨_, h3', h4⟩ | ⟨_, h3', h4⟩ | ⟨_, h3', h4⟩
    · have := h.plain j u c h3' h4 h3
      refine ⟨this.1, ?_⟩
      rw [(hblk _).1, this.2]
      exact (hst j c h4).symm
    · rw [h4] at h3; exact absurd rfl h3
    · rw [h4] at h3; exact absurd rfl h3
  · intro j u c h1 h2 h3
    simp only [hcnt, (hblk _).2.2]
    have key : (w.heap.blk u.data).refCount = handles w.bufs u.data := by
      rcases hpair j u c h1 h2 with ⟨_, h3', h4⟩ | ⟨_, h3', h4⟩ | ⟨_, h3', h4⟩
      · exact h.rc j u c h3' h4 h3
      · rw [h3']; exact h.rc i ub b hi hb hu
      · rw [h3']; exact h.rc i ub b hi hb hu
    rw [key]; split <;> simp
  · intro j l u v c e hjl h1 h2 h3 h4 huv
    rcases hpair j u c h1 h3 with ⟨hn1, h1, h3⟩ | ⟨h5, h1, h3⟩ | ⟨h5, h1, h3⟩
    · rcases hpair l v e h2 h4 with ⟨hn2, h2, h4⟩ | ⟨h6, h2, h4⟩ | ⟨h6, h2, h4⟩
      · exact h.blocks j l u v c e hjl h1 h2 h3 h4 huv
      · exact Or.inl (hoth j u c hn1 h1 h3 (by rw [huv, h2]))
      · exact Or.inl (hoth j u c hn1 h1 h3 (by rw [huv, h2]))
    · left; rw [h1, h3]; exact ⟨rfl, rfl⟩
    · left; rw [h1, h3]; exact ⟨rfl, rfl⟩
  · intro j l u v c e hjl h1 h2 h3 h4 hce
    have hold : ∀ (j : Nat) c, a.bufs[j]? = some c → c.store ≠ a.n := by
      intro j c hj; have := h.slt j c hj; omega
    rcases hpair j u c h1 h3 with ⟨hn1, h1, h3⟩ | ⟨h5, h1, h3⟩ | ⟨h5, h1, h3⟩ <;>
      rcases hpair l v e h2 h4 with ⟨hn2, h2, h4⟩ | ⟨h6, h2, h4⟩ | ⟨h6, h2, h4⟩
    · exact h.stores j l u v c e hjl h1 h2 h3 h4 hce
    · have := h.stores j i u ub c b hn1 h1 hi h3 hb (by rw [hce, h4])
      exact absurd this.2.2 hu
    · rw [h4] at hce; exact absurd hce (hold j c h3)
    · have := h.stores l i v ub e b hn2 h2 hi h4 hb (by rw [← hce, h3])
      exact absurd this.2.2 hu
    · omega
    · rw [h3, h4] at hce; exact absurd hce (hold i b hb)
    · rw [h3] at hce; exact absurd hce.symm (hold l e h4)
    · rw [h3, h4] at hce; exact absurd hce.symm (hold i b hb)
    · omega

/-- The pairs after a call. -/
theorem call_pair {w : W} {a : AW} (i : Nat) (ub' : UBuf) (b' : ABuf) (j : Nat) (u : UBuf) (c : ABuf)
    (h1 : (w.bufs.set i ub')[j]? = some u) (h2 : (a.bufs.set i b')[j]? = some c) :
    (j ≠ i ∧ w.bufs[j]? = some u ∧ a.bufs[j]? = some c) ∨ (j = i ∧ u = ub' ∧ c = b') := by
  rcases get_set_cases h1 with ⟨h3, h4, _⟩ | ⟨h3, h4⟩ <;> rcases get_set_cases h2 with ⟨h5, h6, _⟩ | ⟨h5, h6⟩
  · exact Or.inr ⟨h3, h4, h6⟩
  · exact absurd h3 h5
  · exact absurd h5 h3
  · exact Or.inl ⟨h3, h4, h6⟩

/-- A copy-on-write buffer that owns its block shares it with no other buffer. -/
theorem MInv.owned_alone {w : W} {a : AW} (h : MInv w a) (i : Nat) (ub : UBuf) (b : ABuf)
    (hi : w.bufs[i]? = some ub) (hb : a.bufs[i]? = some b) (hu : b.use = .copyOnWrite)
    (ho : Owned ⟨ub, w.heap⟩) (j : Nat) (v : UBuf) (hne : j ≠ i) (hj : w.bufs[j]? = some v) :
    v.data ≠ ub.data := by
  intro e
  obtain ⟨c, hc⟩ := h.get' hj
  rcases ho with ho | ho
  · rcases h.blocks i j ub v b c (Ne.symm hne) hi hj hb hc e.symm with h1 | h1
    · rw [show ub.cow = false from ho] at h1; cases h1.2
    · rw [hu] at h1; cases h1.1
  · have h1 := h.rc i ub b hi hb (by rw [hu]; simp)
    have h2 := countP_two (fun x => x.data == ub.data) w.bufs i j ub v (Ne.symm hne) hi hj (by simp) (by simp [e])
    simp only [St.block] at ho
    rw [ho] at h1
    simp only [handles] at h1
    omega

/-- A method call keeps the invariant. -/
theorem MInv.call {w : W} {a : AW} (h : MInv w a) (i : Nat) (ub : UBuf) (b : ABuf) (op : Op)
    (hi : w.bufs[i]? = some ub) (hb : a.bufs[i]? = some b) (hok : Deque.OpOk op)
    (hh : op.isHead = true → b.use ≠ .copyOnWrite) :
    ∃ s', exec op ⟨ub, w.heap⟩ = (.ok ((a.view b).step op).1, s') ∧
      MInv { bufs := w.bufs.set i s'.ub, heap := s'.heap }
        { a.set b.store ((a.view b).put op (a.stores b.store)) with
          bufs := a.bufs.set i { b with head := ((a.view b).step op).2.head,
                                        len := ((a.view b).step op).2.content.length } } := by
  have hil := (List.getElem?_eq_some_iff.1 hi).1
  have hfit := h.fits i b hb
  have hlen := a.view_len b hfit
  have hr := h.rel i ub b hi hb
  obtain ⟨s', h1, h2, h3⟩ := exec_refines op hr hok
    (fun x => Or.inl (h.plain i ub b hi hb (hh x)).1)
  refine ⟨s', h1, ?_⟩
  have hsh := step_shape (a.view b) op
  have hpw := put_window (a.stores b.store) (a.view b) op rfl hr.wf
    (by rw [hlen]; rfl) hok
  generalize hd' : ((a.view b).step op).2 = d' at *
  generalize hst' : (a.view b).put op (a.stores b.store) = st' at *
  have hcap : (a.view b).cap = (a.stores b.store).length := rfl
  have hres : (a.view b).reserved = b.reserved := rfl
  let b' : ABuf := { b with head := d'.head, len := d'.content.length }
  have hset : ∀ x, (a.set b.store st').stores x = if x = b.store then st' else a.stores x := fun _ => rfl
  have hlens : ∀ x, ((a.set b.store st').stores x).length = (a.stores x).length := by
    intro x
    rw [hset]
    split
    · next e => rw [e, hpw.1, hcap]
    · rfl
  have hvb : (a.set b.store st').view b' = d' := by
    have e1 : (a.set b.store st').stores b.store = st' := by rw [hset, if_pos rfl]
    have : (a.set b.store st').view b' = ⟨st'.length, b.reserved, d'.head,
        (st'.take (d'.head + d'.content.length)).drop d'.head⟩ := by
      simp only [AW.view, b', e1]
    rw [this, hpw.2.2, hpw.1, ← hsh.1, ← hres, ← hsh.2]
  have hpair := fun j u c => call_pair (w := w) (a := a) i s'.ub b' j u c
  have hself : ∀ (j : Nat) (c : ABuf), (a.bufs.set i b')[j]? = some c →
      (j ≠ i ∧ a.bufs[j]? = some c) ∨ (j = i ∧ c = b') := by
    intro j c hj
    rcases get_set_cases hj with ⟨h3, h4, _⟩ | ⟨h3, h4⟩
    · exact Or.inr ⟨h3, h4⟩
    · exact Or.inl ⟨h3, h4⟩
  -- the specification side
  have hslt : ∀ (j : Nat) c, (a.bufs.set i b')[j]? = some c → c.store < a.n := by
    intro j c hj
    rcases hself j c hj with ⟨_, h5⟩ | ⟨_, h5⟩
    · exact h.slt j c h5
    · rw [h5]; exact h.slt i b hb
  have hfits : ∀ (j : Nat) c, (a.bufs.set i b')[j]? = some c →
      c.head + c.len ≤ ((a.set b.store st').stores c.store).length := by
    intro j c hj
    rw [hlens]
    rcases hself j c hj with ⟨_, h5⟩ | ⟨_, h5⟩
    · exact h.fits j c h5
    · rw [h5]; exact hcap ▸ hpw.2.1
  have hsame : ∀ (j : Nat) u c, j ≠ i → w.bufs[j]? = some u → a.bufs[j]? = some c →
      (b.use = .copyOnWrite ∨ c.use = .copyOnWrite) → c.store ≠ b.store := by
    intro j u c hne hu hc hor e
    have := h.stores j i u ub c b hne hu hi hc hb e
    rcases hor with hor | hor
    · rw [hor] at this; cases this.2.2
    · rw [hor] at this; cases this.2.1
  have hsto : ∀ (j l : Nat) u v c e, j ≠ l → (w.bufs.set i s'.ub)[j]? = some u →
      (w.bufs.set i s'.ub)[l]? = some v → (a.bufs.set i b')[j]? = some c → (a.bufs.set i b')[l]? = some e →
      c.store = e.store → s'.ub.data = ub.data ∨ b.use = .copyOnWrite →
      u.data = v.data ∧ c.use = .reference ∧ e.use = .reference := by
    intro j l u v c e hjl h4 h5 h6 h7 hce hor
    rcases hpair j u c h4 h6 with ⟨hn1, h4, h6⟩ | ⟨hj1, h4, h6⟩ <;>
      rcases hpair l v e h5 h7 with ⟨hn2, h5, h7⟩ | ⟨hj2, h5, h7⟩
    · exact h.stores j l u v c e hjl h4 h5 h6 h7 hce
    · have := h.stores j i u ub c b hn1 h4 hi h6 hb (by rw [hce, h7])
      rcases hor with hor | hor
      · rw [h5, h7]; exact ⟨this.1.trans hor.symm, this.2⟩
      · rw [hor] at this; cases this.2.2
    · have := h.stores l i v ub e b hn2 h5 hi h7 hb (by rw [← hce, h6])
      rcases hor with hor | hor
      · rw [h4, h6]; exact ⟨(this.1.trans hor.symm).symm, this.2.2, this.2.1⟩
      · rw [hor] at this; cases this.2.2
    · omega
  have hblo : ∀ (j l : Nat) u v c e, j ≠ l → (w.bufs.set i s'.ub)[j]? = some u →
      (w.bufs.set i s'.ub)[l]? = some v → (a.bufs.set i b')[j]? = some c → (a.bufs.set i b')[l]? = some e →
      u.data = v.data → s'.ub.data = ub.data → s'.ub.cow = ub.cow →
      (c.use = .copyOnWrite ∧ u.cow = true) ∨
        (c.use = .reference ∧ e.use = .reference ∧ c.store = e.store) := by
    intro j l u v c e hjl h4 h5 h6 h7 huv hor hco
    rcases hpair j u c h4 h6 with ⟨hn1, h4, h6⟩ | ⟨hj1, h4, h6⟩ <;>
      rcases hpair l v e h5 h7 with ⟨hn2, h5, h7⟩ | ⟨hj2, h5, h7⟩
    · exact h.blocks j l u v c e hjl h4 h5 h6 h7 huv
    · rw [h7]
      exact h.blocks j i u ub c b hn1 h4 hi h6 hb (by rw [huv, h5, hor])
    · rw [h4, h6, hco]
      exact h.blocks i l ub v b e (Ne.symm hn2) hi h5 hb h7 (by rw [← huv, h4, hor])
    · omega
  have hcntsame : s'.ub.data = ub.data → ∀ x, handles (w.bufs.set i s'.ub) x = handles w.bufs x := by
    intro hda x
    have := countP_set (fun u => u.data == x) w.bufs i s'.ub ub hi
    simp only [hda] at this
    simp only [handles]; omega
  by_cases hu : b.use = .copyOnWrite
  · -- a copy-on-write buffer: the stores of the others are not touched
    have hvo : ∀ (j : Nat) u c, j ≠ i → w.bufs[j]? = some u → a.bufs[j]? = some c →
        (a.set b.store st').stores c.store = a.stores c.store := by
      intro j u c hne hju hjc
      rw [hset, if_neg (hsame j u c hne hju hjc (Or.inl hu))]
    have hvv : ∀ (j : Nat) u c, j ≠ i → w.bufs[j]? = some u → a.bufs[j]? = some c →
        (a.set b.store st').view c = a.view c := by
      intro j u c hne hju hjc
      simp only [AW.view, hvo j u c hne hju hjc]
    cases h3 with
    | pure hda hc hhp =>
      simp only at hda hc hhp
      refine ⟨by simp [h.len], ?_, hslt, hfits, ?_, ?_, ?_,
        fun j l u v c e a1 a2 a3 a4 a5 a6 => hblo j l u v c e a1 a2 a3 a4 a5 a6 hda hc,
        fun j l u v c e a1 a2 a3 a4 a5 a6 => hsto j l u v c e a1 a2 a3 a4 a5 a6 (Or.inl hda)⟩
      · intro j u hj
        simp only [hhp]
        rcases get_set_cases hj with ⟨_, h5, _⟩ | ⟨_, h5⟩
        · rw [h5, hda]; exact h.lt i ub hi
        · exact h.lt j u h5
      · intro j u c h4 h5
        rcases hpair j u c h4 h5 with ⟨hne, h4, h5⟩ | ⟨hj, h4, h5⟩
        · show Rel _ ((a.set b.store st').view c)
          rw [hvv j u c hne h4 h5, hhp]
          exact h.rel j u c h4 h5
        · show Rel _ ((a.set b.store st').view c)
          rw [h4, h5, hvb]; exact h2
      · intro j u c h4 h5 h6
        rcases hpair j u c h4 h5 with ⟨hne, h4, h5⟩ | ⟨hj, h4, h5⟩
        · have := h.plain j u c h4 h5 h6
          simp only [hhp]
          exact ⟨this.1, this.2.trans (hvo j u c hne h4 h5).symm⟩
        · rw [h5] at h6; exact absurd hu h6
      · intro j u c h4 h5 h6
        simp only [hcntsame hda, hhp]
        rcases hpair j u c h4 h5 with ⟨hne, h4, h5⟩ | ⟨hj, h4, h5⟩
        · exact h.rc j u c h4 h5 h6
        · rw [h4, hda]; exact h.rc i ub b hi hb (by rw [hu]; simp)
    | inplace own hda hc arr hhp =>
      simp only at hda hhp
      have halone := h.owned_alone i ub b hi hb hu own
      refine ⟨by simp [h.len], ?_, hslt, hfits, ?_, ?_, ?_, ?_,
        fun j l u v c e a1 a2 a3 a4 a5 a6 => hsto j l u v c e a1 a2 a3 a4 a5 a6 (Or.inl hda)⟩
      · intro j u hj
        simp only [hhp, put_next]
        rcases get_set_cases hj with ⟨_, h5, _⟩ | ⟨_, h5⟩
        · rw [h5, hda]; exact h.lt i ub hi
        · exact h.lt j u h5
      · intro j u c h4 h5
        rcases hpair j u c h4 h5 with ⟨hne, h4, h5⟩ | ⟨hj, h4, h5⟩
        · show Rel _ ((a.set b.store st').view c)
          rw [hvv j u c hne h4 h5]
          have hn := halone j u hne h4
          refine (h.rel j u c h4 h5).congr ?_ ?_ <;> simp only [hhp] <;> rw [put_other _ _ _ _ hn]
        · show Rel _ ((a.set b.store st').view c)
          rw [h4, h5, hvb]; exact h2
      · intro j u c h4 h5 h6
        rcases hpair j u c h4 h5 with ⟨hne, h4, h5⟩ | ⟨hj, h4, h5⟩
        · have := h.plain j u c h4 h5 h6
          have hn := halone j u hne h4
          simp only [hhp]
          rw [put_other _ _ _ _ hn]
          exact ⟨this.1, this.2.trans (hvo j u c hne h4 h5).symm⟩
        · rw [h5] at h6; exact absurd hu h6
      · intro j u c h4 h5 h6
        simp only [hcntsame hda, hhp]
        rcases hpair j u c h4 h5 with ⟨hne, h4, h5⟩ | ⟨hj, h4, h5⟩
        · rw [put_other _ _ _ _ (halone j u hne h4)]
          exact h.rc j u c h4 h5 h6
        · rw [h4, hda, put_same]
          exact h.rc i ub b hi hb (by rw [hu]; simp)
      · intro j l u v c e hjl h4 h5 h6 h7 huv
        rcases hpair j u c h4 h6 with ⟨hn1, h4, h6⟩ | ⟨hj1, h4, h6⟩ <;>
          rcases hpair l v e h5 h7 with ⟨hn2, h5, h7⟩ | ⟨hj2, h5, h7⟩
        · exact h.blocks j l u v c e hjl h4 h5 h6 h7 huv
        · exact absurd (by rw [huv, h5, hda]) (halone j u hn1 h4)
        · exact absurd (by rw [← huv, h4, hda]) (halone l v hn2 h5)
        · omega
    | copied hcow hrc hda hc arr len hhp =>
      simp only at hda hcow hhp
      have hub := h.lt i ub hi
      have hblk : ∀ x, x < w.heap.next → (s'.heap.blk x).arr = (w.heap.blk x).arr ∧
          (s'.heap.blk x).len = (w.heap.blk x).len ∧
          (s'.heap.blk x).refCount = (w.heap.blk x).refCount - if ub.data = x then 1 else 0 := by
        intro x hx
        rw [hhp, alloc_other _ _ _ (by rw [put_next]; omega)]
        by_cases e : x = ub.data
        · subst e; simp [St.block]
        · simp [put_other _ _ _ _ e, Ne.symm e]
      have hnx : s'.heap.next = w.heap.next + 1 := by rw [hhp]; simp
      have hnb : (s'.heap.blk w.heap.next).refCount = 1 := by
        have := alloc_new (w.heap.put ub.data { (⟨ub, w.heap⟩ : St).block with
          refCount := (⟨ub, w.heap⟩ : St).block.refCount - 1 }) { refCount := 1, arr := arr, len := len }
        rw [put_next] at this
        rw [hhp, this]
      have hnone : handles w.bufs w.heap.next = 0 := by
        rw [handles, List.countP_eq_zero]
        intro x hx
        obtain ⟨j, hj, rfl⟩ := List.getElem_of_mem hx
        have := h.lt j _ (List.getElem?_eq_getElem hj)
        simp; omega
      have hcnt : ∀ x, handles (w.bufs.set i s'.ub) x + (if ub.data = x then 1 else 0)
          = handles w.bufs x + if w.heap.next = x then 1 else 0 := by
        intro x
        have := countP_set (fun u => u.data == x) w.bufs i s'.ub ub hi
        simp only [hda, beq_iff_eq] at this
        simp only [handles]; omega
      have hrci := h.rc i ub b hi hb (by rw [hu]; simp)
      refine ⟨by simp [h.len], ?_, hslt, hfits, ?_, ?_, ?_, ?_,
        fun j l u v c e a1 a2 a3 a4 a5 a6 => hsto j l u v c e a1 a2 a3 a4 a5 a6 (Or.inr hu)⟩
      · intro j u hj
        simp only [hnx]
        rcases get_set_cases hj with ⟨_, h5, _⟩ | ⟨_, h5⟩
        · rw [h5, hda]; omega
        · have := h.lt j u h5; omega
      · intro j u c h4 h5
        rcases hpair j u c h4 h5 with ⟨hne, h4, h5⟩ | ⟨hj, h4, h5⟩
        · show Rel _ ((a.set b.store st').view c)
          rw [hvv j u c hne h4 h5]
          have hl := h.lt j u h4
          exact (h.rel j u c h4 h5).congr (hblk _ hl).1 (hblk _ hl).2.1
        · show Rel _ ((a.set b.store st').view c)
          rw [h4, h5, hvb]; exact h2
      · intro j u c h4 h5 h6
        rcases hpair j u c h4 h5 with ⟨hne, h4, h5⟩ | ⟨hj, h4, h5⟩
        · have := h.plain j u c h4 h5 h6
          have hl := h.lt j u h4
          simp only
          rw [(hblk _ hl).1]
          exact ⟨this.1, this.2.trans (hvo j u c hne h4 h5).symm⟩
        · rw [h5] at h6; exact absurd hu h6
      · intro j u c h4 h5 h6
        simp only
        rcases hpair j u c h4 h5 with ⟨hne, h4, h5⟩ | ⟨hj, h4, h5⟩
        · have hl := h.lt j u h4
          have hcx := hcnt u.data
          have hrj := h.rc j u c h4 h5 h6
          rw [(hblk _ hl).2.2, hrj]
          rw [if_neg (show ¬ w.heap.next = u.data by omega)] at hcx
          split at hcx <;> rename_i hx
          · rw [if_pos hx]; omega
          · rw [if_neg hx]; omega
        · have hcx := hcnt w.heap.next
          rw [if_neg (show ¬ ub.data = w.heap.next by omega), hnone, if_pos rfl] at hcx
          rw [h4, hda, hnb]; omega
      · intro j l u v c e hjl h4 h5 h6 h7 huv
        rcases hpair j u c h4 h6 with ⟨hn1, h4, h6⟩ | ⟨hj1, h4, h6⟩ <;>
          rcases hpair l v e h5 h7 with ⟨hn2, h5, h7⟩ | ⟨hj2, h5, h7⟩
        · exact h.blocks j l u v c e hjl h4 h5 h6 h7 huv
        · have := h.lt j u h4; rw [huv, h5, hda] at this; omega
        · have := h.lt l v h5; rw [← huv, h4, hda] at this; omega
        · omega
  · -- no copy-on-write: the bytes go to the store in place
    have hpl := h.plain i ub b hi hb hu
    have hheap := exec_heap op hr hok hpl.1
    rw [h1] at hheap
    simp only [St.block] at hheap
    rw [hpl.2, hst'] at hheap
    have hda : s'.ub.data = ub.data ∧ s'.ub.cow = ub.cow := by
      cases h3 with
      | pure hda hc _ => exact ⟨hda, hc⟩
      | inplace _ hda hc _ _ => exact ⟨hda, hc.trans hpl.1.symm⟩
      | copied hcow _ _ _ _ _ _ => rw [show ub.cow = false from hpl.1] at hcow; cases hcow
    obtain ⟨hda, hco⟩ := hda
    have hsame2 : ∀ (j : Nat) u c, j ≠ i → w.bufs[j]? = some u → a.bufs[j]? = some c →
        (u.data = ub.data ↔ c.store = b.store) := by
      intro j u c hne hju hjc
      constructor
      · intro e
        rcases h.blocks i j ub u b c (Ne.symm hne) hi hju hb hjc e.symm with h4 | h4
        · exact absurd h4.1 hu
        · exact h4.2.2.symm
      · intro e
        exact (h.stores j i u ub c b hne hju hi hjc hb e).1
    have harr : ∀ (j : Nat) u c, j ≠ i → w.bufs[j]? = some u → a.bufs[j]? = some c →
        (w.heap.blk u.data).arr = a.stores c.store →
        (s'.heap.blk u.data).arr = (a.set b.store st').stores c.store := by
      intro j u c hne hju hjc hold
      rw [hheap, hset]
      by_cases e : c.store = b.store
      · rw [if_pos e, (hsame2 j u c hne hju hjc).2 e, put_same]
      · rw [if_neg e, put_other _ _ _ _ (fun x => e ((hsame2 j u c hne hju hjc).1 x))]
        exact hold
    have hlenrc : ∀ x, (s'.heap.blk x).len = (w.heap.blk x).len ∧
        (s'.heap.blk x).refCount = (w.heap.blk x).refCount := by
      intro x
      rw [hheap]
      by_cases e : x = ub.data
      · subst e; simp
      · rw [put_other _ _ _ _ e]; exact ⟨rfl, rfl⟩
    refine ⟨by simp [h.len], ?_, hslt, hfits, ?_, ?_, ?_,
      fun j l u v c e a1 a2 a3 a4 a5 a6 => hblo j l u v c e a1 a2 a3 a4 a5 a6 hda hco,
      fun j l u v c e a1 a2 a3 a4 a5 a6 => hsto j l u v c e a1 a2 a3 a4 a5 a6 (Or.inl hda)⟩
    · intro j u hj
      simp only [hheap, put_next]
      rcases get_set_cases hj with ⟨_, h5, _⟩ | ⟨_, h5⟩
      · rw [h5, hda]; exact h.lt i ub hi
      · exact h.lt j u h5
    · intro j u c h4 h5
      show Rel _ ((a.set b.store st').view c)
      rcases hpair j u c h4 h5 with ⟨hne, h4, h5⟩ | ⟨hj, h4, h5⟩
      · have hrj := h.rel j u c h4 h5
        by_cases hcu : c.use = .copyOnWrite
        · have hn := hsame j u c hne h4 h5 (Or.inr hcu)
          have hv : (a.set b.store st').view c = a.view c := by
            simp only [AW.view, hset, if_neg hn]
          rw [hv]
          refine hrj.congr ?_ (hlenrc _).1
          rw [hheap, put_other _ _ _ _ (fun x => hn ((hsame2 j u c hne h4 h5).1 x))]
        · have hp := h.plain j u c h4 h5 hcu
          have ha := harr j u c hne h4 h5 hp.2
          have hl := hlens c.store
          have hfj := h.fits j c h5
          have hvl := a.view_len c hfj
          have hvl' := (a.set b.store st').view_len c (by rw [hl]; exact hfj)
          have e1 : u.writer = c.head + c.len := by rw [← hvl]; exact hrj.wr
          have e2 : u.reader = c.head := hrj.rd
          refine ⟨?_, ?_, hrj.res, ?_, hrj.rd, ?_, ?_, ?_⟩
          · exact congrArg List.length ha
          · simp only [St.block, (hlenrc _).1, AW.view, hl]; exact hrj.len
          · simp only [AW.view, hl]; exact hrj.resle
          · rw [hvl']; exact e1
          · rw [hvl']; simp only [AW.view, hl]; exact hfj
          · simp only [St.block, ha, AW.view, e1, e2]
      · rw [h4, h5, hvb]; exact h2
    · intro j u c h4 h5 h6
      rcases hpair j u c h4 h5 with ⟨hne, h4, h5⟩ | ⟨hj, h4, h5⟩
      · have := h.plain j u c h4 h5 h6
        exact ⟨this.1, harr j u c hne h4 h5 this.2⟩
      · rw [h4, h5]
        refine ⟨hco.trans hpl.1, ?_⟩
        simp only [hda, hheap, put_same]
        show st' = (a.set b.store st').stores b.store
        rw [hset, if_pos rfl]
    · intro j u c h4 h5 h6
      simp only [hcntsame hda, (hlenrc _).2]
      rcases hpair j u c h4 h5 with ⟨hne, h4, h5⟩ | ⟨hj, h4, h5⟩
      · exact h.rc j u c h4 h5 h6
      · rw [h4, hda]
        exact h.rc i ub b hi hb (by rw [h5] at h6; exact h6)

theorem set_get_self {α} {l : List α} {i : Nat} {x : α} (h : l[i]? = some x) : l.set i x = l := by
  apply List.ext_getElem?
  intro j
  rw [List.getElem?_set]
  split
  · next e => subst e; simp only [(List.getElem?_eq_some_iff.1 h).1, if_true, h]
  · rfl

/-- One call of the world. -/
theorem MInv.step {w : W} {a : AW} (h : MInv w a) (op : WOp) (hok : op.Valid) (hs : a.Apart op) :
    ∃ w', wexec op w = (.ok (a.step op).1, w') ∧ MInv w' (a.step op).2 := by
  cases op with
  | alloc c r =>
    obtain ⟨h1, h2, h3⟩ := hok
    have hc : ¬ (c ≤ 0 ∨ r < 0 ∨ r > c) := by omega
    have ha : ∃ s, alloc c r w.heap = .ok s := by simp only [alloc, hc, if_false]; exact ⟨_, rfl⟩
    obtain ⟨s, ha⟩ := ha
    have hg := (alloc_ok ha).2.2.2
    have hrel := hg.1.rel
    rw [hg.2] at hrel
    simp only [alloc, hc, if_false, Res.ok.injEq] at ha
    refine ⟨{ bufs := w.bufs ++ [s.ub], heap := s.heap }, ?_, ?_⟩
    · simp only [wexec, alloc, hc, if_false, AW.step, h.len, ← ha]
    · simp only [AW.step]
      subst ha
      refine h.add _ _ ⟨1, List.replicate c.toNat 0, c.toNat⟩ rfl rfl rfl rfl rfl (by simp; omega) ?_
      have e : (a.new (List.replicate c.toNat 0)).view ⟨a.n, r.toNat, r.toNat, 0, .none⟩
          = Deque.fresh c.toNat r.toNat := by
        simp [AW.view, AW.new, Deque.fresh]
        omega
      rw [e]
      exact hrel
  | snap i t =>
    cases hi : w.bufs[i]? with
    | none =>
      have hd : a.bufs[i]? = none := by
        rw [List.getElem?_eq_none_iff] at hi ⊢; rw [← h.len]; exact hi
      exact ⟨w, by simp only [wexec, hi, AW.step, hd], by simpa only [AW.step, hd] using h⟩
    | some ub =>
      obtain ⟨b, hb⟩ := h.get' hi
      have hr := h.rel i ub b hi hb
      cases t with
      | reference =>
        refine ⟨⟨w.bufs.set i ub ++ [{ ub with cow := false }], w.heap⟩, ?_, ?_⟩
        · simp only [wexec, hi, makeSnapshot, AW.step, hb, h.len]
        · simp only [AW.step, hb]
          exact h.snapRef i ub b hi hb (hs b hb)
      | other =>
        refine ⟨w, ?_, by simpa only [AW.step, hb] using h⟩
        simp only [wexec, hi, makeSnapshot, AW.step, hb, set_get_self hi]
      | copyOnWrite =>
        refine ⟨{ bufs := w.bufs.set i { ub with cow := true } ++ [{ ub with cow := true }]
                  heap := w.heap.put ub.data { w.heap.blk ub.data with
                    refCount := (w.heap.blk ub.data).refCount + 1 } },
          by simp only [wexec, hi, makeSnapshot, St.putBlock, St.block, AW.step, hb, h.len], ?_⟩
        simp only [AW.step, hb]
        exact h.snapCow i ub b hi hb (hs b hb)
      | copyDirectly =>
        have hle := hr.le
        have hfit := h.fits i b hb
        have hlen := a.view_len b hfit
        have h1 := hr.rd
        have h2 := hr.wr
        have hcap := hr.cap
        have hcont := hr.content
        have hbb : ub.reader ≤ ub.writer ∧ ub.writer ≤ (⟨ub, w.heap⟩ : St).cap := by
          simp only [St.cap] at *
          omega
        have hca : (⟨ub, w.heap⟩ : St).cap = (a.stores b.store).length := hcap
        have hrd : ub.reader = b.head := h1
        refine ⟨⟨w.bufs ++ [{ ub with data := w.heap.next, cow := false }], w.heap.alloc
            { refCount := 1
              arr := overwrite (List.replicate (a.stores b.store).length 0) b.head (a.view b).content
              len := (⟨ub, w.heap⟩ : St).cap }⟩, ?_, ?_⟩
        · simp only [wexec, hi, makeSnapshot, hbb, and_self, if_true, AW.step, hb, h.len, set_get_self hi]
          rw [hcont, hca, hrd]
        · simp only [AW.step, hb]
          have hlo : (overwrite (List.replicate (a.stores b.store).length 0) b.head (a.view b).content).length
              = (a.stores b.store).length := by
            rw [length_overwrite _ _ _ (by rw [hlen]; simpa using hfit)]; simp
          refine h.add _ _ { refCount := 1
                             arr := overwrite (List.replicate (a.stores b.store).length 0) b.head
                               (a.view b).content
                             len := (⟨ub, w.heap⟩ : St).cap } rfl rfl rfl rfl rfl
            (by simp only [hlo]; exact hfit) ?_
          have hwin : ((overwrite (List.replicate (a.stores b.store).length 0) b.head (a.view b).content).take
              (b.head + b.len)).drop b.head = (a.view b).content := by
            have := window_copy (List.replicate (a.stores b.store).length 0) (a.stores b.store) b.head
              (b.head + b.len) (by simp) (by omega) hfit
            exact this
          have e : (a.new (overwrite (List.replicate (a.stores b.store).length 0) b.head
              (a.view b).content)).view { b with store := a.n, use := .none } = a.view b := by
            have e1 : (a.new (overwrite (List.replicate (a.stores b.store).length 0) b.head
              (a.view b).content)).stores a.n = overwrite (List.replicate (a.stores b.store).length 0) b.head
              (a.view b).content := by simp [AW.new]
            have e2 : (a.new (overwrite (List.replicate (a.stores b.store).length 0) b.head
              (a.view b).content)).view { b with store := a.n, use := .none } =
              ⟨(a.stores b.store).length, b.reserved, b.head, (a.view b).content⟩ := by
              simp only [AW.view]
              rw [show (List.drop b.head (List.take (b.head + b.len) (a.stores b.store)))
                = (a.view b).content from rfl, e1, hwin, hlo]
            rw [e2]; rfl
          rw [e]
          refine ⟨?_, ?_, hr.res, hr.resle, hr.rd, hr.wr, hr.le, ?_⟩
          · simp only [St.block, alloc_new, hlo]; rfl
          · simp only [St.block, alloc_new]; exact hca
          · simp only [St.block, alloc_new]
            rw [h2, h1, hlen]
            exact hwin
  | call i op =>
    cases hi : w.bufs[i]? with
    | none =>
      have hd : a.bufs[i]? = none := by
        rw [List.getElem?_eq_none_iff] at hi ⊢; rw [← h.len]; exact hi
      exact ⟨w, by simp only [wexec, hi, AW.step, hd], by simpa only [AW.step, hd] using h⟩
    | some ub =>
      obtain ⟨b, hb⟩ := h.get' hi
      obtain ⟨s', h1, h2⟩ := h.call i ub b op hi hb hok (fun hh => hs hh b hb)
      refine ⟨⟨w.bufs.set i s'.ub, s'.heap⟩, ?_, ?_⟩
      · simp only [wexec, hi, h1, AW.step, hb]
      · simp only [AW.step, hb]
        exact h2

theorem MInv.run {w : W} {a : AW} (h : MInv w a) (ops : List WOp) (hok : ∀ op ∈ ops, op.Valid)
    (hs : a.ApartAll ops) :
    ∃ w', wrun w ops = (.ok (a.run ops).1, w') ∧ MInv w' (a.run ops).2 := by
  induction ops generalizing w a with
  | nil => exact ⟨w, rfl, h⟩
  | cons op ops ih =>
    obtain ⟨w1, h1, h2⟩ := h.step op (hok op (by simp)) hs.1
    obtain ⟨w2, h3, h4⟩ := ih h2 (fun o ho => hok o (by simp [ho])) hs.2
    exact ⟨w2, by simp only [wrun, h1, h3, AW.run], h4⟩

/-! ## C99 -/

/-- C99 for histories in which no buffer takes part in both a reference and a copy-on-write snapshot
(and no buffer of a copy-on-write snapshot is written at its head, see `c10_violated`): every history
of allocations, snapshots of all types and method calls runs without a panic, returns what the
specification returns and leaves every buffer with what the specification shows.  Missing: the other
histories, where it is wrong (`c99_violated`). -/
theorem c99_mixed_partial (ops : List WOp) (hok : ∀ op ∈ ops, op.Valid) (hs : AW.init.ApartAll ops) :
    ∃ w, wrun W.init ops = (.ok (AW.init.run ops).1, w) ∧ w.views = (AW.init.run ops).2.views := by
  obtain ⟨w, h1, h2⟩ := MInv.init.run ops hok hs
  exact ⟨w, h1, h2.views⟩

/-- Worlds such histories lead to. -/
def Mixed (w : W) (a : AW) : Prop :=
  ∃ ops, (∀ op ∈ ops, op.Valid) ∧ AW.init.ApartAll ops ∧ a = (AW.init.run ops).2 ∧
    wrun W.init ops = (.ok (AW.init.run ops).1, w)

theorem Mixed.inv {w : W} {a : AW} (h : Mixed w a) : MInv w a := by
  obtain ⟨ops, h1, h2, rfl, h4⟩ := h
  obtain ⟨w', h5, h6⟩ := MInv.init.run ops h1 h2
  rw [h4] at h5
  cases h5
  exact h6

/-- C99, isolation: in such a world a method call on one buffer changes what another one shows only
if they have one store, i.e. only along reference snapshots. -/
theorem c99_isolated (w : W) (a : AW) (h : Mixed w a) (i j : Nat) (b c : ABuf) (op : Op)
    (hb : a.bufs[i]? = some b) (hc : a.bufs[j]? = some c) (hne : b.store ≠ c.store)
    (hok : Deque.OpOk op) (hh : op.isHead = true → b.use ≠ .copyOnWrite) :
    ∃ o w', wexec (.call i op) w = (.ok (.out o), w') ∧ w'.views[j]? = w.views[j]? := by
  have hij : i ≠ j := by
    intro e; subst e; rw [hb] at hc; cases hc; exact hne rfl
  obtain ⟨w', h1, h2⟩ := h.inv.step (.call i op) hok (fun x b' hb' => by
    rw [hb] at hb'; cases hb'; exact hh x)
  refine ⟨_, w', by rw [h1]; simp only [AW.step, hb]; rfl, ?_⟩
  rw [h2.views, h.inv.views]
  simp only [AW.step, hb, AW.views, List.getElem?_map, List.getElem?_set_ne hij, hc, Option.map_some]
  simp only [AW.view, AW.set, if_neg (Ne.symm hne)]

/-- C99, sharing: a call through one buffer stores bytes where every buffer of the store sees them,
and moves no position of another. -/
theorem c99_shared (w : W) (a : AW) (h : Mixed w a) (i j : Nat) (b c : ABuf) (op : Op)
    (hb : a.bufs[i]? = some b) (hc : a.bufs[j]? = some c) (hne : i ≠ j) (hst : c.store = b.store)
    (hok : Deque.OpOk op) (hh : op.isHead = true → b.use ≠ .copyOnWrite) :
    ∃ o w', wexec (.call i op) w = (.ok (.out o), w') ∧
      w'.views[j]? = some { a.view c with
        content := (((a.view b).put op (a.stores b.store)).take (c.head + c.len)).drop c.head } := by
  obtain ⟨w', h1, h2⟩ := h.inv.step (.call i op) hok (fun x b' hb' => by
    rw [hb] at hb'; cases hb'; exact hh x)
  refine ⟨_, w', by rw [h1]; simp only [AW.step, hb]; rfl, ?_⟩
  have hr := h.inv
  obtain ⟨ub, hu⟩ := hr.get hb
  have hlen := a.view_len b (hr.fits i b hb)
  have hpw := put_window (a.stores b.store) (a.view b) op rfl (hr.rel i ub b hu hb).wf
    (by rw [hlen]; rfl) hok
  rw [h2.views]
  simp only [AW.step, hb, AW.views, List.getElem?_map, List.getElem?_set_ne hne, hc, Option.map_some]
  simp only [AW.view, AW.set, hst, if_true]
  have e : ((a.view b).put op (a.stores b.store)).length = (a.stores b.store).length := hpw.1
  simp only [AW.view] at e
  rw [e]

/-! ### The other histories -/

theorem wexec_call {w : W} {i : Nat} {ub : UBuf} {op : Op} {o : Out} {s : St} (hi : w.bufs[i]? = some ub)
    (he : exec op ⟨ub, w.heap⟩ = (.ok o, s)) :
    wexec (.call i op) w = (.ok (.out o), ⟨w.bufs.set i s.ub, s.heap⟩) := by
  simp only [wexec, hi, he]

theorem window_front (arr : List Byte) (h n : Nat) (x y : Byte) (xs : List Byte)
    (hw : (arr.take (h + n)).drop h = x :: xs) :
    ((overwrite arr h [y]).take (h + n)).drop h = y :: xs := by
  have hl : h < arr.length := by
    have := congrArg List.length hw
    simp at this; omega
  have hn : 0 < n := by
    have := congrArg List.length hw
    simp at this; omega
  rw [List.drop_take, show h + n - h = n by omega] at hw
  have e : (overwrite arr h [y]).drop h = y :: arr.drop (h + 1) := by
    simp only [overwrite, List.append_assoc]
    rw [List.drop_append_of_le_length (by simp; omega), List.drop_of_length_le (by simp; omega)]
    simp
  rw [List.drop_take, e, show h + n - h = n by omega]
  obtain ⟨m, rfl⟩ : ∃ m, n = m + 1 := ⟨n - 1, by omega⟩
  rw [List.drop_eq_getElem_cons hl] at hw
  simp only [List.take_succ_cons, List.cons.injEq] at hw ⊢
  exact ⟨trivial, hw.2⟩

theorem write_one (e : Deque) (y : Byte) (ht : e.tail ≠ 0) :
    (e.step (.write [y])).1 = .count 1 none := by
  simp only [Deque.step]
  rw [if_neg ht, if_neg (by simp; omega)]
  simp; omega

/-- Rewinding a buffer and writing one byte: without the flag the byte replaces the first byte of the
store's message; with the flag on a block counted more than once the block keeps its bytes. -/
theorem front_write (ub : UBuf) (hp : Heap) (d : Deque) (hr : Rel ⟨ub, hp⟩ d) (hh : d.head = d.reserved)
    (hne : d.content ≠ []) (y : Byte) :
    ∃ s1 s2, exec .reset ⟨ub, hp⟩ = (.ok .unit, s1) ∧ s1.heap = hp ∧
      exec (.write [y]) s1 = (.ok (.count 1 none), s2) ∧
      (ub.cow = false → s2.ub.data = ub.data ∧ (s2.heap.blk ub.data).arr = overwrite (hp.blk ub.data).arr d.head [y]) ∧
      (ub.cow = true → (hp.blk ub.data).refCount ≠ 1 → ub.data < hp.next →
        (s2.heap.blk ub.data).arr = (hp.blk ub.data).arr) := by
  obtain ⟨s1, h1, h2, h3⟩ := exec_refines .reset hr trivial (by simp [Op.isHead])
  have hheap : s1.heap = hp := by
    have := exec_position_heap .reset rfl ⟨ub, hp⟩
    rw [h1] at this; exact this
  have hs1 : s1.ub.data = ub.data ∧ s1.ub.cow = ub.cow := by
    have : s1 = (exec .reset ⟨ub, hp⟩).2 := by rw [h1]
    rw [this]; exact ⟨rfl, rfl⟩
  have hlen := List.length_pos_iff.2 hne
  have hle := hr.le
  obtain ⟨s2, h4, h5, h6⟩ := exec_refines (.write [y]) h2 trivial (by simp [Op.isHead])
  have ht : ((d.step .reset).2).tail ≠ 0 := by simp [Deque.step, Deque.tail]; omega
  have hout : ((d.step .reset).2.step (.write [y])).1 = .count 1 none := write_one _ _ ht
  refine ⟨s1, s2, h1, hheap, by rw [h4, hout], ?_, ?_⟩
  · intro hc
    have hc1 : s1.ub.cow = false := hs1.2.trans hc
    have h7 := exec_heap (.write [y]) h2 trivial hc1
    rw [h4] at h7
    have hst : (d.step .reset).2.put (.write [y]) s1.block.arr = overwrite s1.block.arr d.head [y] := by
      simp only [Deque.put, Deque.stores]
      rw [if_neg ht]
      simp only [Deque.step, List.length_nil, Nat.add_zero] at ht ⊢
      rw [List.take_of_length_le (by simp; omega), hh]
    have hd2 : s2.ub.data = s1.ub.data := by
      cases h6 with
      | pure hd _ _ => exact hd
      | inplace _ hd _ _ _ => exact hd
      | copied hx _ _ _ _ _ _ => rw [hc1] at hx; cases hx
    refine ⟨hd2.trans hs1.1, ?_⟩
    rw [h7, hst, hs1.1, put_same]
    simp only [St.block, hheap, hs1.1]
  · intro hc hrc hlt
    have hb1 : s1.block = hp.blk ub.data := by simp only [St.block, hheap, hs1.1]
    cases h6 with
    | pure hd hc' hx => rw [hx, hheap]
    | inplace own hd hc' arr hx =>
      rcases own with own | own
      · rw [hs1.2, hc] at own; cases own
      · rw [hb1] at own; exact absurd own hrc
    | copied hx1 hx2 hd hc' arr len hx =>
      rw [hx, hheap]
      rw [alloc_other _ _ _ (by rw [put_next]; omega), hs1.1, put_same, hb1]

/-- A reference and a copy-on-write snapshot of one buffer, the reference written. -/
def mixWrite (i n : Nat) (y : Byte) : List WOp :=
  [.snap i .reference, .snap i .copyOnWrite, .call n .reset, .call n (.write [y])]

/-- The same with the source written. -/
def mixSplit (i : Nat) (y : Byte) : List WOp :=
  [.snap i .reference, .snap i .copyOnWrite, .call i .reset, .call i (.write [y])]

/-- A copy-on-write snapshot first, then a reference, the reference written. -/
def mixAfter (i n : Nat) (y : Byte) : List WOp :=
  [.snap i .copyOnWrite, .snap i .reference, .call (n + 1) .reset, .call (n + 1) (.write [y])]

/-- What the specification says for the three histories. -/
theorem mix_spec (a : AW) (i : Nat) (b : ABuf) (hb : a.bufs[i]? = some b) (hlt : b.store < a.n)
    (hh : b.head = b.reserved) (x y : Byte) (xs : List Byte) (hx : (a.view b).content = x :: xs) :
    let n := a.bufs.length
    ((a.run (mixWrite i n y)).2.views[n + 1]?.map Deque.content = some (x :: xs)) ∧
    ((a.run (mixSplit i y)).2.views[n]?.map Deque.content = some (y :: xs)) ∧
    ((a.run (mixAfter i n y)).2.views[n]?.map Deque.content = some (x :: xs)) := by
  obtain ⟨hil, hbi⟩ := List.getElem?_eq_some_iff.1 hb
  have hlen : 0 < (a.view b).content.length := by rw [hx]; simp
  simp only [AW.view] at hx hlen
  have hl2 : b.reserved < (a.stores b.store).length := by
    simp at hlen; omega
  have hwf := window_front _ _ _ x y xs hx
  rw [hh] at hwf hx
  have hn : ¬ a.n = b.store := by omega
  have hn2 : ¬ b.store = a.n := by omega
  have ht : ¬ (a.stores b.store).length - b.reserved = 0 := by omega
  have hy : [y].take ((a.stores b.store).length - b.reserved) = [y] :=
    List.take_of_length_le (by simp; omega)
  refine ⟨?_, ?_, ?_⟩
  · simp [mixWrite, AW.run, AW.step, AW.views, AW.view, AW.new, AW.set, hb, hbi, List.getElem?_append,
      List.getElem?_set, hil, Deque.step, hh, hx, hn, hn2]
  · simp [mixSplit, AW.run, AW.step, AW.views, AW.view, AW.new, AW.set, hb, hbi, List.getElem?_append,
      List.getElem?_set, hil, Deque.step, hh, hn, hn2, Deque.put, Deque.stores, Deque.tail, ht, hy, hwf]
  · simp [mixAfter, AW.run, AW.step, AW.views, AW.view, AW.new, AW.set, hb, hbi, List.getElem?_append,
      List.getElem?_set, hil, Deque.step, hh, hx, hn, hn2]

theorem wrun_two {w : W} {i : Nat} {ub : UBuf} {op1 op2 : Op} {o1 o2 : Out} {s1 s2 : St}
    (hi : w.bufs[i]? = some ub) (h1 : exec op1 ⟨ub, w.heap⟩ = (.ok o1, s1)) (h2 : exec op2 s1 = (.ok o2, s2)) :
    wrun w [.call i op1, .call i op2] = (.ok [.out o1, .out o2], ⟨w.bufs.set i s2.ub, s2.heap⟩) := by
  have hil := (List.getElem?_eq_some_iff.1 hi).1
  have e2 : wexec (.call i op2) ⟨w.bufs.set i s1.ub, s1.heap⟩ =
      (.ok (.out o2), ⟨(w.bufs.set i s1.ub).set i s2.ub, s2.heap⟩) :=
    wexec_call (by rw [List.getElem?_set_self hil]) h2
  simp only [wrun, wexec_call hi h1, e2, List.set_set]

/-- C99 is violated for every buffer that was not snapshotted before and is not empty (its reader at
the reservation, so that `Reset` rewinds to the message).  After a reference and a copy-on-write
snapshot of it, in either order, a byte written through the reference changes what the copy-on-write
snapshot reads; and a byte written through the source is no longer seen by the reference. -/
theorem c99_violated (w : W) (a : AW) (h : Mixed w a) (i : Nat) (b : ABuf) (hb : a.bufs[i]? = some b)
    (hu : b.use = .none) (hh : b.head = b.reserved) (x y : Byte) (xs : List Byte) (hxy : x ≠ y)
    (hx : (a.view b).content = x :: xs) :
    let n := w.bufs.length
    (∃ os w', wrun w (mixWrite i n y) = (.ok os, w') ∧
      w'.views[n + 1]?.map Deque.content = some (y :: xs) ∧
      (a.run (mixWrite i n y)).2.views[n + 1]?.map Deque.content = some (x :: xs) ∧
      w'.views ≠ (a.run (mixWrite i n y)).2.views) ∧
    (∃ os w', wrun w (mixSplit i y) = (.ok os, w') ∧
      w'.views[n]?.map Deque.content = some (x :: xs) ∧
      (a.run (mixSplit i y)).2.views[n]?.map Deque.content = some (y :: xs) ∧
      w'.views ≠ (a.run (mixSplit i y)).2.views) ∧
    (∃ os w', wrun w (mixAfter i n y) = (.ok os, w') ∧
      w'.views[n]?.map Deque.content = some (y :: xs) ∧
      (a.run (mixAfter i n y)).2.views[n]?.map Deque.content = some (x :: xs) ∧
      w'.views ≠ (a.run (mixAfter i n y)).2.views) := by
  intro n
  have hm := h.inv
  obtain ⟨ub, hi⟩ := hm.get hb
  have hil := (List.getElem?_eq_some_iff.1 hi).1
  have hr := hm.rel i ub b hi hb
  have hpl := hm.plain i ub b hi hb (by rw [hu]; simp)
  have hsp := mix_spec a i b hb (hm.slt i b hb) hh x y xs hx
  simp only [← hm.len] at hsp
  have hlt := hm.lt i ub hi
  have hvl := a.view_len b (hm.fits i b hb)
  have hne : (a.view b).content ≠ [] := by rw [hx]; simp
  have hcw := hr.content
  have hrd : ub.reader = b.head := hr.rd
  have hwr : ub.writer = b.head + b.len := by rw [← hvl]; exact hr.wr
  have hrc : (w.heap.blk ub.data).refCount = 1 := by
    have h1 := hm.rc i ub b hi hb (by rw [hu]; simp)
    have h2 : handles w.bufs ub.data = 1 := by
      have hs := countP_set (fun u => u.data == ub.data) w.bufs i { ub with data := ub.data + 1 } ub hi
      have hz : (w.bufs.set i { ub with data := ub.data + 1 }).countP (fun u => u.data == ub.data) = 0 := by
        rw [List.countP_eq_zero]
        intro z hz
        obtain ⟨j, hj, rfl⟩ := List.getElem_of_mem hz
        rw [List.getElem_set]
        split
        · simp
        · next hne =>
          have hjl : j < w.bufs.length := by simpa using hj
          obtain ⟨c, hc⟩ := hm.get' (List.getElem?_eq_getElem hjl)
          have := (hm.apart hne hi (List.getElem?_eq_getElem hjl) hb hc (Or.inr hu)).1
          simpa using Ne.symm this
      simp only [handles]
      simp at hs
      rw [hz] at hs
      omega
    omega
  -- the block after the copy-on-write snapshot
  let ubc : UBuf := { ub with cow := true }
  let hp : Heap := w.heap.put ub.data { w.heap.blk ub.data with refCount := (w.heap.blk ub.data).refCount + 1 }
  have hpa : (hp.blk ub.data).arr = (w.heap.blk ub.data).arr := by simp [hp]
  have hpr : (hp.blk ub.data).refCount = 2 := by simp [hp, hrc]
  have hrel : Rel ⟨ub, hp⟩ (a.view b) := hr.congr hpa (by simp [hp])
  have hrelc : Rel ⟨ubc, hp⟩ (a.view b) :=
    ⟨hrel.cap, hrel.len, hrel.res, hrel.resle, hrel.rd, hrel.wr, hrel.le, hrel.content⟩
  have hubf : ({ ub with cow := false } : UBuf) = ub := by rw [← hpl.1]
  have hwin : ∀ g : Heap, (g.blk ub.data).arr = overwrite (w.heap.blk ub.data).arr b.head [y] →
      (view ⟨ubc, g⟩).content = y :: xs := by
    intro g hg
    simp only [view, St.block, ubc, hg, hrd, hwr]
    exact window_front _ _ _ x y xs (by
      have := hcw
      simp only [St.block, hrd, hwr] at this
      rw [this]; exact hx)
  have hold : ∀ g : Heap, (g.blk ub.data).arr = (w.heap.blk ub.data).arr →
      (view ⟨ub, g⟩).content = x :: xs := by
    intro g hg
    simp only [view, St.block, hg]
    exact hcw.trans hx
  have hdiff : ∀ (w' : W) (a' : AW) (k : Nat) (p q : Byte), p ≠ q →
      w'.views[k]?.map Deque.content = some (p :: xs) → a'.views[k]?.map Deque.content = some (q :: xs) →
      w'.views ≠ a'.views := by
    intro w' a' k p q hpq h1 h2 e
    rw [e, h2] at h1
    simp at h1
    exact hpq h1.symm
  -- the two snapshots, reference first
  have hnn : n = w.bufs.length := rfl
  have hs1 : wexec (.snap i .reference) w = (.ok (.made n), ⟨w.bufs ++ [ub], w.heap⟩) := by
    simp only [wexec, hi, makeSnapshot, set_get_self hi, hubf, hnn]
  have hi1 : (w.bufs ++ [ub])[i]? = some ub := by rw [List.getElem?_append_left hil]; exact hi
  have hs2 : wexec (.snap i .copyOnWrite) ⟨w.bufs ++ [ub], w.heap⟩ =
      (.ok (.made (n + 1)), ⟨(w.bufs ++ [ub]).set i ubc ++ [ubc], hp⟩) := by
    simp only [wexec, hi1, makeSnapshot, St.putBlock, St.block, ubc, hp, hnn]
    simp
  -- copy-on-write first
  have ht1 : wexec (.snap i .copyOnWrite) w = (.ok (.made n), ⟨w.bufs.set i ubc ++ [ubc], hp⟩) := by
    simp only [wexec, hi, makeSnapshot, St.putBlock, St.block, ubc, hp, hnn]
  have hi2 : (w.bufs.set i ubc ++ [ubc])[i]? = some ubc := by
    rw [List.getElem?_append_left (by simpa using hil), List.getElem?_set_self hil]
  have ht2 : wexec (.snap i .reference) ⟨w.bufs.set i ubc ++ [ubc], hp⟩ =
      (.ok (.made (n + 1)), ⟨w.bufs.set i ubc ++ [ubc] ++ [ub], hp⟩) := by
    simp only [wexec, hi2, makeSnapshot, hnn, set_get_self hi2]
    simp [ubc, hubf]
  refine ⟨?_, ?_, ?_⟩
  · obtain ⟨s1, s2, e1, _, e2, e3, _⟩ := front_write ub hp (a.view b) hrel hh hne y
    have hget : ((w.bufs ++ [ub]).set i ubc ++ [ubc])[n]? = some ub := by
      rw [List.getElem?_append_left (by simp [hnn]), List.getElem?_set_ne (by omega)]
      simp [hnn]
    have hrun := wrun_two (w := ⟨(w.bufs ++ [ub]).set i ubc ++ [ubc], hp⟩) hget e1 e2
    refine ⟨_, _, by simp only [mixWrite, wrun, hs1, hs2] at hrun ⊢; rw [hrun], ?_⟩
    have hv : (W.views ⟨((w.bufs ++ [ub]).set i ubc ++ [ubc]).set n s2.ub, s2.heap⟩)[n + 1]?.map
        Deque.content = some (y :: xs) := by
      simp only [W.views, List.getElem?_map, List.getElem?_set_ne (show n ≠ n + 1 by omega)]
      rw [List.getElem?_append_right (by simp [hnn])]
      simp only [List.length_set, List.length_append, List.length_singleton, hnn, Nat.sub_self,
        List.getElem?_cons_zero, Option.map_some, Option.some.injEq]
      exact hwin _ (by rw [(e3 hpl.1).2, hpa]; rfl)
    exact ⟨hv, hsp.1, hdiff _ _ _ _ _ (Ne.symm hxy) hv hsp.1⟩
  · obtain ⟨s1, s2, e1, _, e2, _, e3⟩ := front_write ubc hp (a.view b) hrelc hh hne y
    have hget : ((w.bufs ++ [ub]).set i ubc ++ [ubc])[i]? = some ubc := by
      rw [List.getElem?_append_left (by simp; omega), List.getElem?_set_self (by simp; omega)]
    have hrun := wrun_two (w := ⟨(w.bufs ++ [ub]).set i ubc ++ [ubc], hp⟩) hget e1 e2
    refine ⟨_, _, by simp only [mixSplit, wrun, hs1, hs2] at hrun ⊢; rw [hrun], ?_⟩
    have hv : (W.views ⟨((w.bufs ++ [ub]).set i ubc ++ [ubc]).set i s2.ub, s2.heap⟩)[n]?.map
        Deque.content = some (x :: xs) := by
      simp only [W.views, List.getElem?_map, List.getElem?_set_ne (show i ≠ n by omega)]
      rw [List.getElem?_append_left (by simp [hnn]), List.getElem?_set_ne (by omega)]
      simp only [hnn, List.getElem?_append_right (Nat.le_refl _), Nat.sub_self,
        List.getElem?_cons_zero, Option.map_some, Option.some.injEq]
      exact hold _ (by
        have := e3 rfl (by show (hp.blk ub.data).refCount ≠ 1; rw [hpr]; decide) hlt
        exact this.trans hpa)
    exact ⟨hv, hsp.2.1, hdiff _ _ _ _ _ hxy hv hsp.2.1⟩
  · obtain ⟨s1, s2, e1, _, e2, e3, _⟩ := front_write ub hp (a.view b) hrel hh hne y
    have hget : (w.bufs.set i ubc ++ [ubc] ++ [ub])[n + 1]? = some ub := by
      rw [List.getElem?_append_right (by simp [hnn])]
      simp [hnn]
    have hrun := wrun_two (w := ⟨w.bufs.set i ubc ++ [ubc] ++ [ub], hp⟩) hget e1 e2
    refine ⟨_, _, by simp only [mixAfter, wrun, ht1, ht2] at hrun ⊢; rw [hrun], ?_⟩
    have hv : (W.views ⟨(w.bufs.set i ubc ++ [ubc] ++ [ub]).set (n + 1) s2.ub, s2.heap⟩)[n]?.map
        Deque.content = some (y :: xs) := by
      simp only [W.views, List.getElem?_map, List.getElem?_set_ne (show n + 1 ≠ n by omega)]
      rw [List.getElem?_append_left (by simp [hnn]), List.getElem?_append_right (by simp [hnn])]
      simp only [List.length_set, hnn, Nat.sub_self, List.getElem?_cons_zero, Option.map_some,
        Option.some.injEq]
      exact hwin _ (by rw [(e3 hpl.1).2, hpa]; rfl)
    exact ⟨hv, hsp.2.2, hdiff _ _ _ _ _ (Ne.symm hxy) hv hsp.2.2⟩

/-- A history with all three types: buffers 0 and 1 share by reference, 2 and 3 by copy-on-write,
4 is a direct copy of 0 taken before the byte 9 was stored through the reference. -/
def mixedHistory : List WOp :=
  [.alloc 8 2, .call 0 (.write [1, 2, 3]), .snap 0 .reference, .alloc 6 0, .call 2 (.write [7]),
   .snap 2 .copyOnWrite, .snap 0 .copyDirectly, .call 1 .reset, .call 1 (.write [9]),
   .call 3 (.write [8]), .call 4 (.write [5]), .call 0 (.writeHeadByte 6)]

theorem mixedHistory_ok : (∀ op ∈ mixedHistory, op.Valid) ∧ AW.init.ApartAll mixedHistory := by
  constructor
  · intro op hop
    simp [mixedHistory] at hop
    rcases hop with rfl | rfl | rfl | rfl | rfl | rfl | rfl | rfl | rfl | rfl | rfl | rfl <;>
      simp [WOp.Valid, Deque.OpOk]
  · simp [mixedHistory, AW.ApartAll, AW.Apart, AW.step, AW.init, AW.new, AW.set, Op.isHead]

example : (∀ op ∈ mixedHistory, op.Valid) ∧ AW.init.ApartAll mixedHistory ∧
    (AW.init.run mixedHistory).2.views.map Deque.content =
      [[6, 9, 2, 3], [9], [7], [7, 8], [1, 2, 3, 5]] ∧
    ∃ w, wrun W.init mixedHistory = (.ok (AW.init.run mixedHistory).1, w) ∧
      w.views.map Deque.content = [[6, 9, 2, 3], [9], [7], [7, 8], [1, 2, 3, 5]] :=
  ⟨mixedHistory_ok.1, mixedHistory_ok.2, rfl, _, rfl, rfl⟩

/-- `c99_violated` is about this buffer, too. -/
example : ∃ w a b, Mixed w a ∧ a.bufs[4]? = some b ∧ b.use = .none ∧ b.head = b.reserved ∧
    (a.view b).content = [1, 2, 3, 5] :=
  ⟨_, _, _, ⟨mixedHistory, mixedHistory_ok.1, mixedHistory_ok.2, rfl, rfl⟩, rfl, rfl, rfl, rfl⟩

end Verif.UBuf
