import Verif.UBuf.Props

/-!
# Families of buffers that share storage (C10, C11, C12)

A world holds all buffers ever made (by allocation or `UBufMakeSnapshot`) over one heap.  The
specification world is a list of independent deques.
-/

namespace Verif.UBuf
open GoM

/-- All buffers and the heap. -/
structure W where
  bufs : List UBuf
  heap : Heap

/-- The calls: allocate, take a snapshot of buffer `i`, call a method on buffer `i`. -/
inductive WOp where
  | alloc (capacity reserved : Int)
  | snap (i : Nat) (t : SnapType)
  | call (i : Nat) (op : Op)

/-- Results: a method result, the number of the new buffer, or nil (no such buffer). -/
inductive WOut where
  | out (o : Out)
  | made (i : Nat)
  | nil
  deriving DecidableEq, Repr

/-- One call: `UBufAllocWithHeadReserved` (ubuf.go:68), `UBufMakeSnapshot` (ubuf.go:121), or a
method. -/
def wexec : WOp → GoM W WOut
  | .alloc c r => fun w =>
    match alloc c r w.heap with
    | .ok s => (.ok (.made w.bufs.length), { bufs := w.bufs ++ [s.ub], heap := s.heap })
    | .panic => (.panic, w)
    | .running => (.running, w)
  | .snap i t => fun w =>
    match w.bufs[i]? with
    | none => (.ok .nil, w)
    | some ub =>
      match makeSnapshot t ⟨ub, w.heap⟩ with
      | (.ok (some nub), s) =>
        (.ok (.made w.bufs.length), { bufs := w.bufs.set i s.ub ++ [nub], heap := s.heap })
      | (.ok none, s) => (.ok .nil, { bufs := w.bufs.set i s.ub, heap := s.heap })
      | (.panic, s) => (.panic, { bufs := w.bufs.set i s.ub, heap := s.heap })
      | (.running, s) => (.running, { bufs := w.bufs.set i s.ub, heap := s.heap })
  | .call i op => fun w =>
    match w.bufs[i]? with
    | none => (.ok .nil, w)
    | some ub =>
      match exec op ⟨ub, w.heap⟩ with
      | (.ok o, s) => (.ok (.out o), { bufs := w.bufs.set i s.ub, heap := s.heap })
      | (.panic, s) => (.panic, { bufs := w.bufs.set i s.ub, heap := s.heap })
      | (.running, s) => (.running, { bufs := w.bufs.set i s.ub, heap := s.heap })

/-- A history, stopping at the first panic. -/
def wrun (w : W) : List WOp → Res (List WOut) × W
  | [] => (.ok [], w)
  | op :: ops =>
    match wexec op w with
    | (.ok o, w') =>
      match wrun w' ops with
      | (.ok os, w'') => (.ok (o :: os), w'')
      | (r, w'') => (r, w'')
    | (.panic, w') => (.panic, w')
    | (.running, w') => (.running, w')

/-! ## Specification: independent copies -/

/-- Every buffer is its own deque; a snapshot is a copy. -/
def Spec.step (ds : List Deque) : WOp → WOut × List Deque
  | .alloc c r => (.made ds.length, ds ++ [Deque.fresh c.toNat r.toNat])
  | .snap i t =>
    match ds[i]? with
    | none => (.nil, ds)
    | some d => if t = .other then (.nil, ds) else (.made ds.length, ds ++ [d])
  | .call i op =>
    match ds[i]? with
    | none => (.nil, ds)
    | some d => (.out (d.step op).1, ds.set i (d.step op).2)

def Spec.run (ds : List Deque) : List WOp → List WOut × List Deque
  | [] => ([], ds)
  | op :: ops =>
    ((Spec.step ds op).1 :: (Spec.run (Spec.step ds op).2 ops).1, (Spec.run (Spec.step ds op).2 ops).2)

/-- What the users of the buffers observe. -/
def W.views (w : W) : List Deque := w.bufs.map fun ub => view ⟨ub, w.heap⟩

/-- Valid allocations, io arguments within their contracts, no reference snapshots. -/
def WOp.Ok : WOp → Prop
  | .alloc c r => 0 < c ∧ 0 ≤ r ∧ r ≤ c
  | .snap _ t => t ≠ .reference
  | .call _ op => Deque.OpOk op

/-- Buffer `i` shares its storage with no other buffer. -/
def W.Alone (w : W) (i : Nat) : Prop :=
  ∀ j, j ≠ i → ∀ a b, w.bufs[i]? = some a → w.bufs[j]? = some b → a.data ≠ b.data

/-- A head write is done on buffers that share their storage with no other buffer only. -/
def WOp.HeadSafe (w : W) : WOp → Prop
  | .call i op => op.isHead = true → w.Alone i
  | _ => True

/-- The same along a whole history. -/
def HeadSafe (w : W) : List WOp → Prop
  | [] => True
  | op :: ops => op.HeadSafe w ∧ ∀ o w', wexec op w = (.ok o, w') → HeadSafe w' ops

/-! ## Invariant -/

/-- Number of buffers pointing to a block. -/
def handles (bufs : List UBuf) (b : Nat) : Nat := bufs.countP fun u => u.data == b

structure WInv (w : W) (ds : List Deque) : Prop where
  len : w.bufs.length = ds.length
  rel : ∀ (i : Nat) ub d, w.bufs[i]? = some ub → ds[i]? = some d → Rel ⟨ub, w.heap⟩ d
  lt : ∀ (i : Nat) ub, w.bufs[i]? = some ub → ub.data < w.heap.next
  rc : ∀ (i : Nat) ub, w.bufs[i]? = some ub → (w.heap.blk ub.data).refCount = handles w.bufs ub.data
  own : ∀ (i j : Nat) a b, i ≠ j → w.bufs[i]? = some a → w.bufs[j]? = some b → a.data = b.data → a.cow = true

theorem countP_set (p : UBuf → Bool) (l : List UBuf) (i : Nat) (x y : UBuf) (h : l[i]? = some y) :
    (l.set i x).countP p + (if p y then 1 else 0) = l.countP p + (if p x then 1 else 0) := by
  induction l generalizing i with
  | nil => simp at h
  | cons a l ih =>
    cases i with
    | zero =>
      simp only [List.getElem?_cons_zero, Option.some.injEq] at h
      subst h
      simp only [List.set_cons_zero, List.countP_cons]
      omega
    | succ i =>
      simp only [List.getElem?_cons_succ] at h
      have := ih i h
      simp only [List.set_cons_succ, List.countP_cons]
      omega

theorem countP_pos_get (p : UBuf → Bool) (l : List UBuf) (i : Nat) (a : UBuf) (ha : l[i]? = some a)
    (pa : p a = true) : 1 ≤ l.countP p := by
  induction l generalizing i with
  | nil => simp at ha
  | cons x l ih =>
    cases i with
    | zero => simp at ha; subst ha; simp [List.countP_cons, pa]
    | succ i => simp at ha; have := ih i ha; simp only [List.countP_cons]; omega

theorem countP_two (p : UBuf → Bool) (l : List UBuf) (i j : Nat) (a b : UBuf) (hij : i ≠ j)
    (ha : l[i]? = some a) (hb : l[j]? = some b) (pa : p a = true) (pb : p b = true) :
    2 ≤ l.countP p := by
  induction l generalizing i j with
  | nil => simp at ha
  | cons x l ih =>
    cases i with
    | zero =>
      cases j with
      | zero => omega
      | succ j =>
        simp at ha hb
        subst ha
        have := countP_pos_get p l j b hb pb
        simp only [List.countP_cons, pa, if_true]; omega
    | succ i =>
      cases j with
      | zero =>
        simp at ha hb
        subst hb
        have := countP_pos_get p l i a ha pa
        simp only [List.countP_cons, pb, if_true]; omega
      | succ j =>
        simp at ha hb
        have := ih i j (by omega) ha hb
        simp only [List.countP_cons]; omega

/-- Sharing with nobody is owning. -/
theorem WInv.owned_iff_alone {w : W} {ds : List Deque} (h : WInv w ds) (i : Nat) (ub : UBuf)
    (hi : w.bufs[i]? = some ub) : Owned ⟨ub, w.heap⟩ ↔ w.Alone i := by
  constructor
  · intro ho j hj a b ha hb hab
    rw [hi] at ha
    cases ha
    rcases ho with ho | ho
    · have := h.own i j ub b (Ne.symm hj) hi hb hab
      simp [this] at ho
    · have h2 := countP_two (fun u => u.data == ub.data) w.bufs i j ub b (Ne.symm hj) hi hb (by simp)
        (by simp [hab])
      have h3 := h.rc i ub hi
      simp only [St.block] at ho
      simp only [handles] at h3
      omega
  · intro ha
    right
    simp only [St.block]
    rw [h.rc i ub hi]
    have : handles w.bufs ub.data = 1 := by
      have hs := countP_set (fun u => u.data == ub.data) w.bufs i
        { ub with data := ub.data + 1 } ub hi
      have hz : (w.bufs.set i { ub with data := ub.data + 1 }).countP (fun u => u.data == ub.data) = 0 := by
        rw [List.countP_eq_zero]
        intro x hx
        obtain ⟨j, hj, rfl⟩ := List.getElem_of_mem hx
        rw [List.getElem_set]
        split
        · simp
        · next hne =>
          have := ha j (Ne.symm hne) ub _ hi (List.getElem?_eq_getElem (by simpa using hj))
          simpa using Ne.symm this
      simp only [handles]
      simp at hs
      rw [hz] at hs
      omega
    simp [this]

/-- The relation looks only at the block's bytes. -/
theorem Rel.congr {ub : UBuf} {h h' : Heap} {d : Deque} (hr : Rel ⟨ub, h⟩ d)
    (ha : (h'.blk ub.data).arr = (h.blk ub.data).arr) (hl : (h'.blk ub.data).len = (h.blk ub.data).len) :
    Rel ⟨ub, h'⟩ d := by
  obtain ⟨a, b, c, e, f, g, i, j⟩ := hr
  simp only [St.block] at a b j
  exact ⟨by simpa [St.block, ha] using a, by simpa [St.block, hl] using b, c, e, f, g, i,
    by simpa [St.block, ha] using j⟩

theorem get_set_cases {α} {l : List α} {i j : Nat} {x y : α} (h : (l.set i x)[j]? = some y) :
    (j = i ∧ y = x ∧ i < l.length) ∨ (j ≠ i ∧ l[j]? = some y) := by
  rw [List.getElem?_set] at h
  split at h
  · next e =>
    subst e
    split at h
    · left; simp at h; exact ⟨rfl, h.symm, by assumption⟩
    · simp at h
  · next e => right; exact ⟨Ne.symm e, h⟩

/-- The invariant survives a method call. -/
theorem WInv.call {w : W} {ds : List Deque} (h : WInv w ds) (i : Nat) (ub : UBuf) (d d' : Deque) (s' : St)
    (hi : w.bufs[i]? = some ub) (hd : ds[i]? = some d) (hr : Rel s' d')
    (hf : Frame ⟨ub, w.heap⟩ s') :
    WInv { bufs := w.bufs.set i s'.ub, heap := s'.heap } (ds.set i d') := by
  have hil : i < w.bufs.length := (List.getElem?_eq_some_iff.1 hi).1
  have hub := h.lt i ub hi
  have hid : i < ds.length := by have := h.len; omega
  have hlen : (w.bufs.set i s'.ub).length = (ds.set i d').length := by simp [h.len]
  cases hf with
  | pure hda hc hh =>
    simp only at hda hc hh
    have hcount : ∀ b, handles (w.bufs.set i s'.ub) b = handles w.bufs b := by
      intro b
      have := countP_set (fun u => u.data == b) w.bufs i s'.ub ub hi
      simp only [hda] at this
      simp only [handles]; omega
    refine ⟨hlen, ?_, ?_, ?_, ?_⟩
    · intro j u e hu he
      rcases get_set_cases hu with ⟨rfl, rfl, _⟩ | ⟨hne, hu⟩
      · rw [List.getElem?_set_self hid] at he
        cases he; exact hr
      · rw [List.getElem?_set_ne (Ne.symm hne)] at he
        rw [hh]; exact h.rel j u e hu he
    · intro j u hu
      rcases get_set_cases hu with ⟨rfl, rfl, _⟩ | ⟨hne, hu⟩
      · rw [hda, hh]; exact hub
      · rw [hh]; exact h.lt j u hu
    · intro j u hu
      simp only [hcount, hh]
      rcases get_set_cases hu with ⟨rfl, rfl, _⟩ | ⟨hne, hu⟩
      · rw [hda]; exact h.rc j ub hi
      · exact h.rc j u hu
    · intro j k a b hjk ha hb hab
      rcases get_set_cases ha with ⟨rfl, rfl, _⟩ | ⟨hne, ha'⟩
      · rcases get_set_cases hb with ⟨rfl, rfl, _⟩ | ⟨hne2, hb'⟩
        · omega
        · rw [hc]; exact h.own j k ub b hjk hi hb' (by rw [← hda]; exact hab)
      · rcases get_set_cases hb with ⟨rfl, rfl, _⟩ | ⟨hne2, hb'⟩
        · exact h.own j k a ub hjk ha' hi (by rw [← hda]; exact hab)
        · exact h.own j k a b hjk ha' hb' hab
  | inplace own hda hc arr hh =>
    simp only at hda hh
    have halone := (h.owned_iff_alone i ub hi).1 own
    have hcount : ∀ b, handles (w.bufs.set i s'.ub) b = handles w.bufs b := by
      intro b
      have := countP_set (fun u => u.data == b) w.bufs i s'.ub ub hi
      simp only [hda] at this
      simp only [handles]; omega
    refine ⟨hlen, ?_, ?_, ?_, ?_⟩
    · intro j u e hu he
      rcases get_set_cases hu with ⟨rfl, rfl, _⟩ | ⟨hne, hu⟩
      · rw [List.getElem?_set_self hid] at he
        cases he; exact hr
      · rw [List.getElem?_set_ne (Ne.symm hne)] at he
        have hn := halone j hne ub u hi hu
        refine (h.rel j u e hu he).congr ?_ ?_ <;> simp only [hh] <;> rw [put_other _ _ _ _ (Ne.symm hn)]
    · intro j u hu
      simp only [hh, put_next]
      rcases get_set_cases hu with ⟨rfl, rfl, _⟩ | ⟨hne, hu⟩
      · rw [hda]; exact hub
      · exact h.lt j u hu
    · intro j u hu
      simp only [hcount, hh]
      rcases get_set_cases hu with ⟨rfl, rfl, _⟩ | ⟨hne, hu⟩
      · rw [hda]; simp [St.block]; exact h.rc j ub hi
      · have hn := halone j hne ub u hi hu
        rw [put_other _ _ _ _ (Ne.symm hn)]
        exact h.rc j u hu
    · intro j k a b hjk ha hb hab
      rcases get_set_cases ha with ⟨rfl, rfl, _⟩ | ⟨hne, ha'⟩
      · rcases get_set_cases hb with ⟨rfl, rfl, _⟩ | ⟨hne2, hb'⟩
        · omega
        · exact absurd (by rw [← hda]; exact hab) (halone k (Ne.symm hjk) ub b hi hb')
      · rcases get_set_cases hb with ⟨rfl, rfl, _⟩ | ⟨hne2, hb'⟩
        · exact absurd (by rw [hab, hda]) (halone j hjk ub a hi ha')
        · exact h.own j k a b hjk ha' hb' hab
  | copied hcow hrc hda hc arr len hh =>
    simp only [St.block] at hda hh hrc
    have hcnt : ∀ b, handles (w.bufs.set i s'.ub) b + (if ub.data = b then 1 else 0)
        = handles w.bufs b + (if w.heap.next = b then 1 else 0) := by
      intro b
      have := countP_set (fun u => u.data == b) w.bufs i s'.ub ub hi
      simp only [hda, beq_iff_eq] at this
      simp only [handles]; exact this
    have hnone : handles w.bufs w.heap.next = 0 := by
      rw [handles, List.countP_eq_zero]
      intro x hx
      obtain ⟨j, hj, rfl⟩ := List.getElem_of_mem hx
      have := h.lt j _ (List.getElem?_eq_getElem hj)
      simp; omega
    -- blocks of the other buffers
    have hblk : ∀ a, a < w.heap.next → (s'.heap.blk a) =
        if a = ub.data then { w.heap.blk ub.data with refCount := (w.heap.blk ub.data).refCount - 1 }
        else w.heap.blk a := by
      intro a ha
      rw [hh, alloc_other _ _ _ (by simp; omega)]
      split
      · next e => subst e; simp
      · next e => rw [put_other _ _ _ _ e]
    refine ⟨hlen, ?_, ?_, ?_, ?_⟩
    · intro j u e hu he
      rcases get_set_cases hu with ⟨rfl, rfl, _⟩ | ⟨hne, hu⟩
      · rw [List.getElem?_set_self hid] at he
        cases he; exact hr
      · rw [List.getElem?_set_ne (Ne.symm hne)] at he
        refine (h.rel j u e hu he).congr ?_ ?_ <;> simp only <;> rw [hblk _ (h.lt j u hu)] <;>
          split <;> simp_all
    · intro j u hu
      simp only [hh, alloc_next, put_next]
      rcases get_set_cases hu with ⟨rfl, rfl, _⟩ | ⟨hne, hu⟩
      · rw [hda]; omega
      · have := h.lt j u hu; omega
    · intro j u hu
      rcases get_set_cases hu with ⟨rfl, rfl, _⟩ | ⟨hne, hu⟩
      · have e : (s'.heap.blk s'.ub.data).refCount = 1 := by
          rw [hda, hh]
          have := alloc_new (w.heap.put ub.data { w.heap.blk ub.data with refCount := (w.heap.blk ub.data).refCount - 1 })
            { refCount := 1, arr := arr, len := len }
          rw [put_next] at this
          rw [this]
        simp only [e, hda]
        have := hcnt w.heap.next
        rw [if_neg (by omega), if_pos rfl, hnone] at this
        rw [hda] at e
        rw [e]; omega
      · have hl := h.lt j u hu
        simp only [hblk _ hl]
        have := hcnt u.data
        rw [if_neg (by omega : ¬ w.heap.next = u.data)] at this
        split
        · next e =>
          rw [if_pos e.symm] at this
          have h3 := h.rc j u hu
          rw [e] at h3 this
          rw [e]
          simp only
          omega
        · next e =>
          rw [if_neg (Ne.symm e)] at this
          have h3 := h.rc j u hu
          omega
    · intro j k a b hjk ha hb hab
      rcases get_set_cases ha with ⟨rfl, rfl, _⟩ | ⟨hne, ha'⟩
      · rcases get_set_cases hb with ⟨rfl, rfl, _⟩ | ⟨hne2, hb'⟩
        · omega
        · have := h.lt k b hb'; omega
      · rcases get_set_cases hb with ⟨rfl, rfl, _⟩ | ⟨hne2, hb'⟩
        · have := h.lt j a ha'; omega
        · exact h.own j k a b hjk ha' hb' hab

/-- Adding a buffer with a block of its own. -/
theorem WInv.add {w : W} {ds : List Deque} (h : WInv w ds) (ub : UBuf) (d : Deque) (b : Block)
    (hd : ub.data = w.heap.next) (hrc : b.refCount = 1) (hr : Rel ⟨ub, w.heap.alloc b⟩ d) :
    WInv { bufs := w.bufs ++ [ub], heap := w.heap.alloc b } (ds ++ [d]) := by
  have hnone : handles w.bufs w.heap.next = 0 := by
    rw [handles, List.countP_eq_zero]
    intro x hx
    obtain ⟨j, hj, rfl⟩ := List.getElem_of_mem hx
    have := h.lt j _ (List.getElem?_eq_getElem hj)
    simp; omega
  have hget : ∀ (j : Nat) u, (w.bufs ++ [ub])[j]? = some u →
      w.bufs[j]? = some u ∨ (j = w.bufs.length ∧ u = ub) := by
    intro j u hu
    rw [List.getElem?_append] at hu
    split at hu
    · left; exact hu
    · right
      have hj : j - w.bufs.length = 0 := by
        rcases hk : j - w.bufs.length with _ | k
        · rfl
        · rw [hk] at hu; simp at hu
      rw [hj] at hu; simp at hu
      exact ⟨by omega, hu.symm⟩
  have hcnt : ∀ a, handles (w.bufs ++ [ub]) a = handles w.bufs a + if w.heap.next = a then 1 else 0 := by
    intro a; simp [handles, List.countP_append, List.countP_cons, hd]
  refine ⟨by simp [h.len], ?_, ?_, ?_, ?_⟩
  · intro j u e hu he
    rcases hget j u hu with hu' | ⟨rfl, rfl⟩
    · have hj := (List.getElem?_eq_some_iff.1 hu').1
      rw [List.getElem?_append_left (by rw [← h.len]; exact hj)] at he
      have hl := h.lt j u hu'
      refine (h.rel j u e hu' he).congr ?_ ?_ <;> simp only <;> rw [alloc_other _ _ _ (by omega)]
    · rw [h.len, List.getElem?_append_right (by omega)] at he
      simp at he
      subst he; exact hr
  · intro j u hu
    simp only [alloc_next]
    rcases hget j u hu with hu' | ⟨rfl, rfl⟩
    · have := h.lt j u hu'; omega
    · omega
  · intro j u hu
    simp only [hcnt]
    rcases hget j u hu with hu' | ⟨rfl, rfl⟩
    · have hl := h.lt j u hu'
      rw [alloc_other _ _ _ (by omega), if_neg (by omega)]
      exact h.rc j u hu'
    · rw [hd, alloc_new, hrc, hnone]; simp
  · intro j k a c hjk ha hc hac
    rcases hget j a ha with ha' | ⟨h1, h2⟩
    · rcases hget k c hc with hc' | ⟨h3, h4⟩
      · exact h.own j k a c hjk ha' hc' hac
      · have := h.lt j a ha'; rw [h4] at hac; omega
    · rcases hget k c hc with hc' | ⟨h3, h4⟩
      · have := h.lt k c hc'; rw [h2] at hac; omega
      · omega

/-- A copy-on-write snapshot keeps the invariant. -/
theorem WInv.snapCow {w : W} {ds : List Deque} (h : WInv w ds) (i : Nat) (ub : UBuf) (d : Deque)
    (hi : w.bufs[i]? = some ub) (hd : ds[i]? = some d) :
    WInv { bufs := w.bufs.set i { ub with cow := true } ++ [{ ub with cow := true }]
           heap := w.heap.put ub.data { w.heap.blk ub.data with
             refCount := (w.heap.blk ub.data).refCount + 1 } } (ds ++ [d]) := by
  have hil := (List.getElem?_eq_some_iff.1 hi).1
  have hid := (List.getElem?_eq_some_iff.1 hd).1
  have hub := h.lt i ub hi
  -- every buffer of the new world is an old one up to the flag, or the new one
  have hget : ∀ (j : Nat) u, (w.bufs.set i { ub with cow := true } ++ [{ ub with cow := true }])[j]? = some u →
      (∃ u0, w.bufs[j]? = some u0 ∧ ((j ≠ i ∧ u = u0) ∨ (j = i ∧ u = { ub with cow := true }))) ∨
      (j = w.bufs.length ∧ u = { ub with cow := true }) := by
    intro j u hu
    rw [List.getElem?_append] at hu
    split at hu
    · left
      rcases get_set_cases hu with ⟨h1, h2, _⟩ | ⟨hne, hu'⟩
      · exact ⟨ub, by rw [h1]; exact hi, Or.inr ⟨h1, h2⟩⟩
      · exact ⟨u, hu', Or.inl ⟨hne, rfl⟩⟩
    · right
      next hnl =>
      simp only [List.length_set] at hnl hu
      have hj : j - w.bufs.length = 0 := by
        rcases hk : j - w.bufs.length with _ | k
        · rfl
        · rw [hk] at hu; simp at hu
      rw [hj] at hu; simp at hu
      exact ⟨by omega, hu.symm⟩
  have hblk : ∀ a, ((w.heap.put ub.data { w.heap.blk ub.data with
      refCount := (w.heap.blk ub.data).refCount + 1 }).blk a).arr = (w.heap.blk a).arr ∧
      ((w.heap.put ub.data { w.heap.blk ub.data with
      refCount := (w.heap.blk ub.data).refCount + 1 }).blk a).len = (w.heap.blk a).len ∧
      ((w.heap.put ub.data { w.heap.blk ub.data with
      refCount := (w.heap.blk ub.data).refCount + 1 }).blk a).refCount = (w.heap.blk a).refCount +
        if ub.data = a then 1 else 0 := by
    intro a
    by_cases e : a = ub.data
    · subst e; simp
    · simp [put_other _ _ _ _ e, Ne.symm e]
  have hcnt : ∀ a, handles (w.bufs.set i { ub with cow := true } ++ [{ ub with cow := true }]) a
      = handles w.bufs a + if ub.data = a then 1 else 0 := by
    intro a
    have := countP_set (fun u => u.data == a) w.bufs i { ub with cow := true } ub hi
    simp only at this
    simp only [handles, List.countP_append, List.countP_cons, List.countP_nil, beq_iff_eq] at this ⊢
    omega
  refine ⟨by simp [h.len], ?_, ?_, ?_, ?_⟩
  · intro j u e hu he
    rcases hget j u hu with ⟨u0, hu0, hc⟩ | ⟨h1, h2⟩
    · have hj := (List.getElem?_eq_some_iff.1 hu0).1
      rw [List.getElem?_append_left (by rw [← h.len]; exact hj)] at he
      have hr := h.rel j u0 e hu0 he
      rcases hc with ⟨_, rfl⟩ | ⟨rfl, rfl⟩
      · exact hr.congr (hblk _).1 (hblk _).2.1
      · rw [hi] at hu0; cases hu0
        have hr2 := hr.congr (h' := w.heap.put ub.data { w.heap.blk ub.data with
          refCount := (w.heap.blk ub.data).refCount + 1 }) (hblk _).1 (hblk _).2.1
        exact ⟨hr2.cap, hr2.len, hr2.res, hr2.resle, hr2.rd, hr2.wr, hr2.le, hr2.content⟩
    · rw [h1, h.len, List.getElem?_append_right (by omega)] at he
      simp at he
      subst he
      have hr := h.rel i ub d hi hd
      have hr2 := hr.congr (h' := w.heap.put ub.data { w.heap.blk ub.data with
          refCount := (w.heap.blk ub.data).refCount + 1 }) (hblk _).1 (hblk _).2.1
      subst h2
      exact ⟨hr2.cap, hr2.len, hr2.res, hr2.resle, hr2.rd, hr2.wr, hr2.le, hr2.content⟩
  · intro j u hu
    simp only [put_next]
    rcases hget j u hu with ⟨u0, hu0, ⟨_, rfl⟩ | ⟨rfl, rfl⟩⟩ | ⟨h1, h2⟩
    · exact h.lt j u hu0
    · exact hub
    · rw [h2]; exact hub
  · intro j u hu
    simp only [hcnt, (hblk _).2.2]
    have key : (w.heap.blk u.data).refCount = handles w.bufs u.data := by
      rcases hget j u hu with ⟨u0, hu0, ⟨_, rfl⟩ | ⟨rfl, rfl⟩⟩ | ⟨h1, h2⟩
      · exact h.rc j u hu0
      · exact h.rc j ub hi
      · rw [h2]; exact h.rc i ub hi
    rw [key]; split <;> simp
  · intro j k a c hjk ha hc hac
    rcases hget j a ha with ⟨a0, ha0, ⟨hne, h2⟩ | ⟨h1, h2⟩⟩ | ⟨h1, h2⟩
    · subst h2
      rcases hget k c hc with ⟨c0, hc0, ⟨hne2, h4⟩ | ⟨h3, h4⟩⟩ | ⟨h3, h4⟩
      · subst h4; exact h.own j k a c hjk ha0 hc0 hac
      · exact h.own j i a ub hne ha0 hi (by rw [h4] at hac; exact hac)
      · exact h.own j i a ub hne ha0 hi (by rw [h4] at hac; exact hac)
    · rw [h2]
    · rw [h2]

theorem WInv.spec_get {w : W} {ds : List Deque} (h : WInv w ds) {i : Nat} {ub : UBuf}
    (hi : w.bufs[i]? = some ub) : ∃ d, ds[i]? = some d := by
  have hil := (List.getElem?_eq_some_iff.1 hi).1
  exact ⟨ds[i]'(by rw [← h.len]; exact hil), List.getElem?_eq_getElem _⟩

/-- One call of the world. -/
theorem WInv.step {w : W} {ds : List Deque} (h : WInv w ds) (op : WOp) (hok : op.Ok) (hs : op.HeadSafe w) :
    ∃ w', wexec op w = (.ok (Spec.step ds op).1, w') ∧ WInv w' (Spec.step ds op).2 := by
  cases op with
  | alloc c r =>
    obtain ⟨h1, h2, h3⟩ := hok
    have hc : ¬ (c ≤ 0 ∨ r < 0 ∨ r > c) := by omega
    have ha : ∃ s, alloc c r w.heap = .ok s := by simp only [alloc, hc, if_false]; exact ⟨_, rfl⟩
    obtain ⟨s, ha⟩ := ha
    have hg := (alloc_ok ha).2.2.2
    have hrel := hg.1.rel
    rw [hg.2] at hrel
    simp only [alloc, hc, if_false, Res.ok.injEq] at ha
    refine ⟨{ bufs := w.bufs ++ [s.ub], heap := s.heap }, ?_, ?_⟩
    · simp only [wexec, alloc, hc, if_false, Spec.step, h.len, ← ha]
    · simp only [Spec.step]
      subst ha
      exact h.add _ _ _ rfl rfl hrel
  | snap i t =>
    cases hi : w.bufs[i]? with
    | none =>
      have hd : ds[i]? = none := by
        rw [List.getElem?_eq_none_iff] at hi ⊢; rw [← h.len]; exact hi
      exact ⟨w, by simp only [wexec, hi, Spec.step, hd], by simpa only [Spec.step, hd] using h⟩
    | some ub =>
      have hil := (List.getElem?_eq_some_iff.1 hi).1
      obtain ⟨d, hd⟩ := h.spec_get hi
      have hself : w.bufs.set i ub = w.bufs := by
        apply List.ext_getElem? ; intro j
        rw [List.getElem?_set]
        split
        · next e => subst e; simp only [hil, if_true, hi]
        · rfl
      have hr := h.rel i ub _ hi hd
      cases t with
      | reference => exact absurd rfl hok
      | other =>
        refine ⟨w, ?_, by simpa only [Spec.step, hd, if_true] using h⟩
        simp only [wexec, hi, makeSnapshot, Spec.step, hd, if_true, hself]
      | copyOnWrite =>
        have hspec : Spec.step ds (.snap i .copyOnWrite) = (.made ds.length, ds ++ [d]) := by
          simp only [Spec.step, hd]; rw [if_neg (by simp)]
        rw [hspec]
        exact ⟨_, by simp only [wexec, hi, makeSnapshot, St.putBlock, St.block, h.len],
          h.snapCow i ub _ hi hd⟩
      | copyDirectly =>
        have hle := hr.le
        have hb : ub.reader ≤ ub.writer ∧ ub.writer ≤ (⟨ub, w.heap⟩ : St).cap := by
          have h1 := hr.rd
          have h2 := hr.wr
          have h3 := hr.cap
          simp only [St.cap] at *
          omega
        have hspec : Spec.step ds (.snap i .copyDirectly) = (.made ds.length, ds ++ [d]) := by
          simp only [Spec.step, hd]; rw [if_neg (by simp)]
        rw [hspec]
        refine ⟨⟨w.bufs ++ [{ ub with data := w.heap.next, cow := false }], w.heap.alloc
            { refCount := 1
              arr := overwrite (List.replicate (⟨ub, w.heap⟩ : St).cap 0) ub.reader
                ((((⟨ub, w.heap⟩ : St).block.arr).take ub.writer).drop ub.reader)
              len := (⟨ub, w.heap⟩ : St).cap }⟩,
          by simp only [wexec, hi, makeSnapshot, hb, and_self, if_true, h.len, hself],
          h.add _ _ _ rfl rfl ?_⟩
        have hcap := hr.cap
        simp only [St.block, St.cap] at hcap hb
        refine ⟨?_, ?_, hr.res, hr.resle, hr.rd, hr.wr, hr.le, ?_⟩
        · simp only [St.block, alloc_new, St.cap]
          rw [length_overwrite] <;> simp <;> omega
        · simp only [St.block, alloc_new, St.cap]; exact hcap
        · simp only [St.block, alloc_new, St.cap]
          rw [window_copy _ _ _ _ (by simp) hb.1 hb.2]
          exact hr.content
  | call i op =>
    cases hi : w.bufs[i]? with
    | none =>
      have hd : ds[i]? = none := by
        rw [List.getElem?_eq_none_iff] at hi ⊢; rw [← h.len]; exact hi
      exact ⟨w, by simp only [wexec, hi, Spec.step, hd], by simpa only [Spec.step, hd] using h⟩
    | some ub =>
      have hil := (List.getElem?_eq_some_iff.1 hi).1
      obtain ⟨d, hd⟩ := h.spec_get hi
      have hr := h.rel i ub _ hi hd
      obtain ⟨s', h1, h2, h3⟩ := exec_refines op hr hok
        (fun hh => (h.owned_iff_alone i ub hi).2 (hs hh))
      refine ⟨⟨w.bufs.set i s'.ub, s'.heap⟩, ?_, ?_⟩
      · simp only [wexec, hi, h1, Spec.step, hd]
      · simp only [Spec.step, hd]
        exact h.call i ub _ _ s' hi hd h2 h3

theorem WInv.run {w : W} {ds : List Deque} (h : WInv w ds) (ops : List WOp) (hok : ∀ op ∈ ops, op.Ok)
    (hs : HeadSafe w ops) :
    ∃ w', wrun w ops = (.ok (Spec.run ds ops).1, w') ∧ WInv w' (Spec.run ds ops).2 := by
  induction ops generalizing w ds with
  | nil => exact ⟨w, rfl, h⟩
  | cons op ops ih =>
    obtain ⟨w1, h1, h2⟩ := h.step op (hok op (by simp)) hs.1
    obtain ⟨w2, h3, h4⟩ := ih h2 (fun o ho => hok o (by simp [ho])) (hs.2 _ _ h1)
    exact ⟨w2, by simp only [wrun, h1, h3, Spec.run], h4⟩

theorem WInv.views_eq {w : W} {ds : List Deque} (h : WInv w ds) : w.views = ds := by
  apply List.ext_getElem?
  intro i
  simp only [W.views, List.getElem?_map]
  cases hi : w.bufs[i]? with
  | none =>
    have : ds[i]? = none := by
      rw [List.getElem?_eq_none_iff] at hi ⊢; rw [← h.len]; exact hi
    simp [this]
  | some ub =>
    have hil := (List.getElem?_eq_some_iff.1 hi).1
    obtain ⟨d, hd⟩ := h.spec_get hi
    rw [hd]
    simp [(h.rel i ub _ hi hd).view_eq]

/-- No buffers yet. -/
def W.init : W := { bufs := [], heap := Heap.empty }

theorem WInv.init : WInv W.init [] := by
  refine ⟨rfl, ?_, ?_, ?_, ?_⟩ <;> simp [W.init]

/-! ## C10, C11 -/

/-- C10 (partial: head writes only on buffers that share storage with no other): any history of
allocations, copy-on-write and direct snapshots and method calls behaves as if all buffers were
independent copies, and nothing panics.  Missing: head writes on a buffer whose storage is shared,
see `c10_head_write_panics` and `c10_empty_head_write_loses`. -/
theorem c10_cow_isolation_partial (ops : List WOp) (hok : ∀ op ∈ ops, op.Ok) (hs : HeadSafe W.init ops) :
    ∃ w, wrun W.init ops = (.ok (Spec.run [] ops).1, w) ∧ w.views = (Spec.run [] ops).2 := by
  obtain ⟨w, h1, h2⟩ := WInv.init.run ops hok hs
  exact ⟨w, h1, h2.views_eq⟩

/-- A history without head writes is always within the hypotheses. -/
theorem headSafe_of_no_head (ops : List WOp)
    (h : ∀ op ∈ ops, ∀ i o, op = .call i o → o.isHead = false) (w : W) : HeadSafe w ops := by
  induction ops generalizing w with
  | nil => trivial
  | cons op ops ih =>
    refine ⟨?_, fun o w' _ => ih (fun x hx => h x (by simp [hx])) w'⟩
    cases op with
    | call i o => intro hh; rw [h _ (by simp) i o rfl] at hh; cases hh
    | alloc _ _ => trivial
    | snap _ _ => trivial

/-- C10: without head writes the isolation is unconditional. -/
theorem c10_cow_isolation_no_head (ops : List WOp) (hok : ∀ op ∈ ops, op.Ok)
    (hh : ∀ op ∈ ops, ∀ i o, op = .call i o → o.isHead = false) :
    ∃ w, wrun W.init ops = (.ok (Spec.run [] ops).1, w) ∧ w.views = (Spec.run [] ops).2 :=
  c10_cow_isolation_partial ops hok (headSafe_of_no_head ops hh _)

/-- The world after a well-behaved history. -/
def WReachable (w : W) : Prop :=
  ∃ ops outs, (∀ op ∈ ops, WOp.Ok op) ∧ HeadSafe W.init ops ∧ wrun W.init ops = (.ok outs, w)

theorem WReachable.inv {w : W} (h : WReachable w) : WInv w w.views := by
  obtain ⟨ops, outs, hok, hs, hr⟩ := h
  obtain ⟨w', h1, h2⟩ := WInv.init.run ops hok hs
  rw [hr] at h1
  cases h1
  rw [h2.views_eq]; exact h2

theorem WInv.head_write_panics {w : W} {ds : List Deque} (hinv : WInv w ds) (i : Nat) (ub : UBuf)
    (hi : w.bufs[i]? = some ub) (hshared : ¬ w.Alone i) (h : Hdr) (hsz : 0 < h.size)
    (hroom : h.size ≤ ub.reader) :
    (wexec (.call i h.writeOp) w).1 = .panic := by
  have hil := (List.getElem?_eq_some_iff.1 hi).1
  obtain ⟨d, hd⟩ := hinv.spec_get hi
  have hr := hinv.rel i ub _ hi hd
  have hno : ¬ Owned ⟨ub, w.heap⟩ := fun e => hshared ((hinv.owned_iff_alone i ub hi).1 e)
  have hcap : ub.reader ≤ (⟨ub, w.heap⟩ : St).cap := by
    have h1 := hr.rd
    have h3 := hr.cap
    have h4 := hr.le
    simp only [St.cap] at *
    omega
  -- the inner write resolves copy-on-write with the writer in front of the reader
  have hres : resolveCow (setW ⟨ub, w.heap⟩ (ub.reader - h.size)) =
      (.panic, { ub := { ub with writer := ub.reader - h.size, cow := false }
                 heap := w.heap.put ub.data { w.heap.blk ub.data with
                   refCount := (w.heap.blk ub.data).refCount - 1 } }) := by
    rw [resolveCow_shared_panic (s := setW ⟨ub, w.heap⟩ (ub.reader - h.size)) hno]
    · rfl
    · simp only [setW]; omega
  have hn : ¬ ub.reader < h.size := by omega
  have hcap' : ub.reader ≤ (w.heap.blk ub.data).arr.length := hcap
  have ht : ¬ tailWritableLength (setW ⟨ub, w.heap⟩ (ub.reader - h.size)) ≤ 0 := by
    simp only [tailWritableLength, St.cap, setW_block, St.block]; simp only [setW]; omega
  have hpan : ∀ p, (write p (setW ⟨ub, w.heap⟩ (ub.reader - h.size))).1 = .panic := by
    intro p
    simp only [write, bind_apply, get_apply, ht, if_false, hres]
  have hsetW : ({ ub := { ub with writer := ub.reader - h.size }, heap := w.heap } : St)
      = setW ⟨ub, w.heap⟩ (ub.reader - h.size) := rfl
  have hexec : (exec h.writeOp ⟨ub, w.heap⟩).1 = .panic := by
    cases h with
    | byte c =>
      simp only [Hdr.size] at *
      simp only [Hdr.writeOp, exec, writeHeadByte, writeHead, bind_apply, get_apply, hn, if_false,
        modify_apply, hsetW, writeByte, ht, hres]
    | bytes p =>
      simp only [Hdr.size] at *
      have := hpan p
      rcases hwr : write p (setW ⟨ub, w.heap⟩ (ub.reader - p.length)) with ⟨r, s⟩
      rw [hwr] at this; simp only at this; subst this
      simp only [Hdr.writeOp, exec, writeHeadBytes, writeHead, bind_apply, get_apply, hn, if_false,
        modify_apply, hsetW, hwr]
    | num wd o v =>
      simp only [Hdr.size, Width.bytes_eq] at *
      have := hpan (encode wd o v)
      rcases hwr : write (encode wd o v) (setW ⟨ub, w.heap⟩ (ub.reader - wd.size)) with ⟨r, s⟩
      rw [hwr] at this; simp only at this; subst this
      have ht2 : ¬ tailWritableLength (setW ⟨ub, w.heap⟩ (ub.reader - wd.size)) < wd.size := by
        simp only [tailWritableLength, St.cap, setW_block, St.block]; simp only [setW]; omega
      simp only [Hdr.writeOp, exec, writeHeadU, writeHead, bind_apply, get_apply, hn, if_false,
        modify_apply, hsetW, writeU, ht2, hwr]
  simp only [wexec, hi]
  rcases he : exec h.writeOp ⟨ub, w.heap⟩ with ⟨r, s⟩
  rw [he] at hexec; simp only at hexec; subst hexec
  rfl

/-- C10 is violated by head writes: in every reachable world, a head write of at least one byte that
fits the head room of a buffer whose storage is shared panics. -/
theorem c10_head_write_panics (w : W) (hw : WReachable w) (i : Nat) (ub : UBuf)
    (hi : w.bufs[i]? = some ub) (hshared : ¬ w.Alone i) (h : Hdr) (hsz : 0 < h.size)
    (hroom : h.size ≤ ub.reader) :
    (wexec (.call i h.writeOp) w).1 = .panic :=
  hw.inv.head_write_panics i ub hi hshared h hsz hroom

/-- The history of the README: write a message, take a snapshot. -/
def sharedHistory : List WOp := [.alloc 8 4, .call 0 (.write [1, 2]), .snap 0 .copyOnWrite]

/-- The hypotheses of `c10_head_write_panics` are met: prepending a 2-byte header to a buffer with
an outstanding snapshot panics. -/
theorem c10_violated : (wrun W.init (sharedHistory ++ [.call 1 (.writeHeadU .u16 .be 7)])).1 = .panic := rfl

/-- C10 is violated by empty head writes: `WriteHeadBytes(nil)` on a shared buffer succeeds and
replaces its readable data by zeros. -/
theorem c10_empty_head_write_loses :
    ∃ w, wrun W.init (sharedHistory ++ [.call 1 (.writeHeadBytes [])]) =
        (.ok [.made 0, .out (.count 2 none), .made 1, .out (.err none)], w) ∧
      w.views.map Deque.content = [[1, 2], [0, 0]] := ⟨_, rfl, rfl⟩

example : (∀ op ∈ sharedHistory ++ [.call 1 (.write [3]), .call 0 (.write [4]), .snap 1 .copyDirectly,
      .call 2 .readByte], WOp.Ok op) ∧
    (Spec.run [] (sharedHistory ++ [.call 1 (.write [3]), .call 0 (.write [4]), .snap 1 .copyDirectly,
      .call 2 .readByte])).2.map Deque.content = [[1, 2, 4], [1, 2, 3], [2, 3]] := by
  refine ⟨?_, by decide⟩
  intro op hop
  simp [sharedHistory] at hop
  rcases hop with rfl | rfl | rfl | rfl | rfl | rfl | rfl <;> simp [WOp.Ok, Deque.OpOk]

/-- C11: a direct snapshot reads what the source read, and afterwards a call on either of the two
leaves the other's observations unchanged, in every reachable world. -/
theorem c11_direct_equal (w : W) (hw : WReachable w) (i : Nat) (d : Deque) (hi : w.views[i]? = some d) :
    ∃ w', wexec (.snap i .copyDirectly) w = (.ok (.made w.bufs.length), w') ∧
      w'.views = w.views ++ [d] := by
  obtain ⟨w', h1, h2⟩ := hw.inv.step (.snap i .copyDirectly) (by simp [WOp.Ok]) trivial
  refine ⟨w', ?_, ?_⟩
  · rw [h1]; simp only [Spec.step, hi]; simp [W.views]
  · rw [h2.views_eq]; simp only [Spec.step, hi]; rw [if_neg (by simp)]

/-- No buffer of the world is flagged copy-on-write. -/
def W.NoCow (w : W) : Prop := ∀ (i : Nat) ub, w.bufs[i]? = some ub → ub.cow = false

theorem headSafe_of_no_cow (ops : List WOp) (hok : ∀ op ∈ ops, op.Ok)
    (hnc : ∀ op ∈ ops, ∀ i, op ≠ .snap i .copyOnWrite) (w : W) (ds : List Deque) (h : WInv w ds)
    (hw : w.NoCow) : HeadSafe w ops := by
  induction ops generalizing w ds with
  | nil => trivial
  | cons op ops ih =>
    have halone : ∀ i, w.Alone i := by
      intro i j hj a b ha hb hab
      have := h.own i j a b (Ne.symm hj) ha hb hab
      rw [hw i a ha] at this
      cases this
    have hs : op.HeadSafe w := by
      cases op with
      | call i o => exact fun _ => halone i
      | alloc _ _ => trivial
      | snap _ _ => trivial
    refine ⟨hs, fun o w' he => ?_⟩
    obtain ⟨w1, h1, h2⟩ := h.step op (hok op (by simp)) hs
    have e : w1 = w' := by rw [h1] at he; cases he; rfl
    subst e
    refine ih (fun x hx => hok x (by simp [hx])) (fun x hx => hnc x (by simp [hx])) w1 _ h2 ?_
    have happ : ∀ (bufs : List UBuf) (u : UBuf), (∀ (i : Nat) ub, bufs[i]? = some ub → ub.cow = false) →
        u.cow = false → ∀ (i : Nat) ub, (bufs ++ [u])[i]? = some ub → ub.cow = false := by
      intro bufs u hb hu i ub hi
      rw [List.getElem?_append] at hi
      split at hi
      · exact hb i ub hi
      · rcases hk : i - bufs.length with _ | k
        · rw [hk] at hi; simp at hi; rw [← hi]; exact hu
        · rw [hk] at hi; simp at hi
    have hset : ∀ (i : Nat) (u : UBuf), u.cow = false →
        ∀ (j : Nat) ub, (w.bufs.set i u)[j]? = some ub → ub.cow = false := by
      intro i u hu j ub hj
      rcases get_set_cases hj with ⟨_, rfl, _⟩ | ⟨_, hj⟩
      · exact hu
      · exact hw j ub hj
    have hw1 : (wexec op w).2 = w1 := by rw [h1]
    clear h1 he
    cases op with
    | alloc c r =>
      obtain ⟨c1, c2, c3⟩ := hok (.alloc c r) (by simp)
      have hc : ¬ (c ≤ 0 ∨ r < 0 ∨ r > c) := by omega
      simp only [wexec, alloc, hc, if_false] at hw1
      subst hw1
      exact happ _ _ hw rfl
    | snap i t =>
      simp only [wexec] at hw1
      cases hi : w.bufs[i]? with
      | none => simp only [hi] at hw1; subst hw1; exact hw
      | some ub =>
        simp only [hi] at hw1
        have hub := hw i ub hi
        cases t with
        | reference => exact absurd rfl (hok (.snap i .reference) (by simp))
        | copyOnWrite => exact absurd rfl (hnc _ (by simp) i)
        | other => simp only [makeSnapshot] at hw1; subst hw1; exact hset i ub hub
        | copyDirectly =>
          simp only [makeSnapshot] at hw1
          by_cases hb : ub.reader ≤ ub.writer ∧ ub.writer ≤ (⟨ub, w.heap⟩ : St).cap
          · simp only [hb, and_self, if_true] at hw1
            subst hw1
            exact happ _ _ (hset i ub hub) rfl
          · simp only [hb, if_false] at hw1
            subst hw1
            exact hset i ub hub
    | call i op =>
      simp only [wexec] at hw1
      cases hi : w.bufs[i]? with
      | none => simp only [hi] at hw1; subst hw1; exact hw
      | some ub =>
        simp only [hi] at hw1
        have hub := hw i ub hi
        obtain ⟨d, hd⟩ := h.spec_get hi
        obtain ⟨s', e1, e2, e3⟩ := exec_refines op (h.rel i ub d hi hd) (hok (.call i op) (by simp))
          (fun _ => Or.inl hub)
        rw [e1] at hw1
        subst hw1
        exact hset i _ (e3.cow_false hub)

/-- C11: any history of allocations, direct snapshots (of any buffer, in any nesting) and method
calls, head writes included, gives the results of separate deques. -/
theorem c11_direct_isolated (ops : List WOp) (hok : ∀ op ∈ ops, op.Ok)
    (hnc : ∀ op ∈ ops, ∀ i, op ≠ .snap i .copyOnWrite) :
    ∃ w, wrun W.init ops = (.ok (Spec.run [] ops).1, w) ∧ w.views = (Spec.run [] ops).2 :=
  c10_cow_isolation_partial ops hok
    (headSafe_of_no_cow ops hok hnc _ _ WInv.init (by intro i ub hi; simp [W.init] at hi))

example : (Spec.run [] [.alloc 8 4, .call 0 (.write [1, 2]), .snap 0 .copyDirectly,
      .call 1 (.writeHeadByte 9), .call 0 .readByte]).2.map Deque.content = [[2], [9, 1, 2]] := by decide

/-! ## C12 -/

/-- C12: a reference snapshot starts with the same observations (a plain buffer, any history). -/
theorem c12_reference_equal (s : St) :
    ∃ r, makeSnapshot .reference s = (.ok (some r), s) ∧ view ⟨r, s.heap⟩ = view s :=
  ⟨_, rfl, rfl⟩

/-- The calls that only move positions or look. -/
def Op.isPosition : Op → Bool
  | .reset | .capacity | .readableLength | .headWritableLength | .tailWritableLength
  | .peek _ | .peekByte | .peekU _ _ | .readByte | .read _ | .readU _ _ | .writeTo _ => true
  | _ => false

/-- A computation that leaves the heap alone. -/
def Keeps {α} (m : GoM St α) : Prop := ∀ s, (m s).2.heap = s.heap

theorem Keeps.pure {α} (a : α) : Keeps (Pure.pure a : GoM St α) := fun _ => rfl
theorem Keeps.get : Keeps (GoM.get : GoM St St) := fun _ => rfl
theorem Keeps.modify (f : UBuf → UBuf) : Keeps (GoM.modify fun s => { s with ub := f s.ub }) :=
  fun _ => rfl
theorem Keeps.bind {α β} {m : GoM St α} {f : α → GoM St β} (h1 : Keeps m) (h2 : ∀ a, Keeps (f a)) :
    Keeps (m >>= f) := by
  intro s
  have e1 := h1 s
  rw [bind_apply]
  rcases hm : m s with ⟨r, s'⟩
  rw [hm] at e1
  cases r with
  | ok a => simp only; rw [h2 a s']; exact e1
  | panic => exact e1
  | running => exact e1
theorem Keeps.ite {α} {c : Prop} [Decidable c] {m n : GoM St α} (h1 : Keeps m) (h2 : Keeps n) :
    Keeps (if c then m else n) := by split <;> assumption
theorem Keeps.bytesFrom (i : Nat) : Keeps (bytesFrom i) := by
  intro s; simp only [UBuf.bytesFrom]; split <;> rfl
theorem Keeps.bytesRange (i j : Nat) : Keeps (bytesRange i j) := by
  intro s; simp only [UBuf.bytesRange]; split <;> rfl
theorem Keeps.byteAt (i : Nat) : Keeps (byteAt i) := by
  intro s; simp only [UBuf.byteAt]; split <;> rfl

theorem Keeps.read (n : Nat) : Keeps (read n) := by
  refine .bind .get fun s => .ite (.pure _) (.bind (.bytesFrom _) fun src => ?_)
  exact .bind (.modify fun u => { u with reader := u.reader + (src.take _).length })
    fun _ => .ite (.pure _) (.pure _)

theorem exec_position_heap (op : Op) (hp : op.isPosition = true) : Keeps (exec op) := by
  have hk := exec_peek_state op
  cases op <;> simp only [Op.isPosition, Bool.false_eq_true] at hp
  · exact fun _ => rfl
  · exact fun _ => rfl
  · exact fun _ => rfl
  · exact fun _ => rfl
  · exact fun _ => rfl
  · exact fun s => by rw [hk rfl]
  · exact fun s => by rw [hk rfl]
  · exact fun s => by rw [hk rfl]
  · refine .bind (.bind .get fun s => .ite (.pure _) (.bind (.byteAt _) fun b => ?_)) fun _ => .pure _
    exact .bind (.modify fun u => { u with reader := u.reader + 1 }) fun _ => .pure _
  · exact .bind (.read _) fun _ => .pure _
  · refine .bind (.bind .get fun s => .ite (.pure _) (.bind ?_ fun r => ?_)) fun _ => .pure _
    · exact .bind (.read _) fun _ => .ite (.pure _) (.pure _)
    · rcases r with ⟨bs, e⟩
      cases e <;> exact .pure _
  · next wr =>
    refine .bind (.bind .get fun s => .ite (.pure _) (.bind (.bytesRange _ _) fun p => .ite (.pure _) ?_))
      fun _ => .pure _
    exact .bind (.modify fun u => { u with reader := u.reader + (wr p).n }) fun _ => .pure _

/-- C12: consuming or moving positions through one buffer changes nothing for a reference to the
same storage (whatever `r` is). -/
theorem c12_positions_independent (s : St) (r : UBuf) (op : Op) (hp : op.isPosition = true) :
    view ⟨r, (exec op s).2.heap⟩ = view ⟨r, s.heap⟩ := by
  rw [exec_position_heap op hp]

/-- C12: no call on one buffer changes the lengths a reference to the same storage reports. -/
theorem c12_lengths_independent (s : St) (hs : Reachable s) (r : UBuf) (hr : r.data = s.ub.data)
    (op : Op) (hok : Deque.OpOk op) :
    let h' := (exec op s).2.heap
    capacity ⟨r, h'⟩ = capacity ⟨r, s.heap⟩ ∧
    headWritableLength ⟨r, h'⟩ = headWritableLength ⟨r, s.heap⟩ ∧
    readableLength ⟨r, h'⟩ = readableLength ⟨r, s.heap⟩ ∧
    tailWritableLength ⟨r, h'⟩ = tailWritableLength ⟨r, s.heap⟩ := by
  have hg := hs.good
  obtain ⟨s', h1, h2, h3⟩ := exec_refines op hg.rel hok (fun _ => Or.inl hg.cow)
  have hlen : (s'.heap.blk r.data).arr.length = (s.heap.blk r.data).arr.length := by
    have e1 : s'.ub.data = s.ub.data := by
      cases h3 with
      | pure hd _ _ => exact hd
      | inplace _ hd _ _ _ => exact hd
      | copied hc _ _ _ _ _ _ => rw [hg.cow] at hc; cases hc
    have a1 := h2.cap
    have a2 := hg.rel.cap
    have a3 : ((view s).step op).2.cap = (view s).cap := by
      cases op <;> simp only [Deque.step, Deque.prependAll] <;> repeat' split
      all_goals rfl
    simp only [St.block, e1] at a1
    simp only [St.block] at a2
    rw [hr, a1, a2, a3]
  simp only [h1, capacity, headWritableLength, readableLength, tailWritableLength, St.cap, St.block, hlen,
    and_self]

/-- C12: bytes written in place through one buffer are visible through the other: rewind the source
and overwrite the first bytes of the message, then the snapshot reads the new bytes. -/
theorem c12_writes_visible (s : St) (hs : Reachable s) (p : List Byte) (hrw : s.ub.reader = s.ub.reserved)
    (hp : p ≠ []) (hl : p.length ≤ (data s).length) :
    ∃ r s1 s2, makeSnapshot .reference s = (.ok (some r), s) ∧
      exec .reset s = (.ok .unit, s1) ∧ exec (.write p) s1 = (.ok (.count p.length none), s2) ∧
      data ⟨r, s2.heap⟩ = p ++ (data s).drop p.length := by
  have hg := hs.good
  have hrel := hg.rel
  have hle := hrel.le
  have hcap := hrel.cap
  have hwr := hrel.wr
  have hrd := hrel.rd
  have hcont := hrel.content
  have hpos := List.length_pos_iff.2 hp
  simp only [data] at hl
  -- after reset
  let s1 : St := { s with ub := { s.ub with reader := s.ub.reserved, writer := s.ub.reserved } }
  have ho : Owned s1 := Or.inl hg.cow
  have hlc : s1.block.len = s1.cap := by
    have := hrel.len
    simp only [s1, St.block, St.cap] at *; omega
  have hw1 : s1.ub.writer < s1.cap := by simp only [s1, St.cap, St.block] at *; omega
  have hn : p.length ≤ s1.cap - s1.ub.writer := by simp only [s1, St.cap, St.block] at *; omega
  have hwrite := write_owned p ho hlc hw1
  rw [if_neg (by omega), Nat.min_eq_right hn, List.take_of_length_le hn] at hwrite
  refine ⟨{ s.ub with cow := false }, s1, setW (stored s1 s1.ub.writer p) (s1.ub.writer + p.length),
    rfl, rfl, ?_, ?_⟩
  · simp only [exec]
    rw [bind_of_ok hwrite]; rfl
  · have hblk : (setW (stored s1 s1.ub.writer p) (s1.ub.writer + p.length)).heap.blk s.ub.data
        = { s.block with arr := overwrite s.block.arr s.ub.reader p } := by
      simp [setW, stored, s1, St.block, hrw]
    simp only [data, view, St.block, hblk]
    have hwl : s.ub.writer = s.ub.reader + (view s).content.length := by rw [hwr, hrd]
    have e : (List.take s.ub.writer (overwrite s.block.arr s.ub.reader p)).drop s.ub.reader
        = p ++ ((s.block.arr.take s.ub.writer).drop s.ub.reader).drop p.length := by
      have hlen1 : (s.block.arr.take s.ub.reader).length = s.ub.reader := by
        simp; omega
      simp only [overwrite]
      rw [List.append_assoc, List.take_append, hlen1, List.take_of_length_le (by omega)]
      rw [List.drop_append, hlen1, Nat.sub_self, List.drop_zero, List.drop_of_length_le (by omega),
        List.nil_append]
      rw [List.take_append, List.take_of_length_le (by omega), List.drop_drop, List.drop_take]
      congr 2; omega
    exact e

/-- A reference snapshot of a buffer that has a copy-on-write snapshot writes into the shared
storage: the copy-on-write snapshot (buffer 1) sees it. -/
theorem c12_reference_breaks_cow :
    ∃ w, wrun W.init (sharedHistory ++ [.snap 0 .reference, .call 2 .reset, .call 2 (.write [9])]) =
        (.ok [.made 0, .out (.count 2 none), .made 1, .made 2, .out .unit, .out (.count 1 none)], w) ∧
      w.views.map Deque.content = [[9, 2], [9, 2], [9]] := ⟨_, rfl, rfl⟩

example : ∃ s, run demo [.write [1, 2, 3]] = (.ok [.count 3 none], s) ∧ s.ub.reader = s.ub.reserved ∧
    data s = [1, 2, 3] := ⟨_, rfl, rfl, rfl⟩

end Verif.UBuf
