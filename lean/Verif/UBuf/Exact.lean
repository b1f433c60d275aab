import Verif.UBuf.Props
import Verif.UBuf.Snapshot

/-!
# Exactly when the partial properties of the buffer hold

`c09_*_partial` and `c13_wrap_partial` prove C09 and C13 under a restriction; here the restriction is
shown to be the weakest possible one.
-/

namespace Verif.UBuf

open GoM

/-! ## C09 -/

/-- C09, exact: for every reader that keeps the `io.Reader` contract, the bytes it produced become
readable iff it reported no error or produced nothing. -/
theorem c09_readFrom_iff (s : St) (hs : Reachable s) (rd : Nat → ReadRes) (hrd : Deque.Reader.Ok rd)
    (hroom : 0 < tailWritableLength s) :
    ∃ o s', exec (.readFrom rd) s = (.ok o, s') ∧
      (data s' = data s ++ (rd (tailWritableLength s).toNat).filled.take (rd (tailWritableLength s).toNat).n ↔
        (rd (tailWritableLength s).toNat).err = none ∨ (rd (tailWritableLength s).toNat).n = 0) := by
  cases he : (rd (tailWritableLength s).toNat).err with
  | none =>
    obtain ⟨s', h1, h2⟩ := c09_readFrom_partial s hs rd hrd hroom he
    exact ⟨_, s', h1, fun _ => Or.inl rfl, fun _ => h2⟩
  | some e =>
    obtain ⟨s', h1, h2⟩ := c09_readFrom_error s hs rd hrd e hroom he
    have hd : data s' = data s := by rw [data, h2]; rfl
    refine ⟨_, s', h1, fun h => Or.inr ?_, fun h => ?_⟩
    · rw [hd] at h
      have hl := congrArg List.length h
      have hb := (hrd (tailWritableLength s).toNat).1
      simp only [List.length_append, List.length_take] at hl
      omega
    · rcases h with h | h
      · cases h
      · rw [hd, h]; simp

/-- C09, exact: for every writer that keeps the `io.Writer` contract, what it did not accept (and only
that) stays readable iff it reported no error or accepted nothing. -/
theorem c09_writeTo_iff (s : St) (hs : Reachable s) (wr : List Byte → WriteRes) (hwr : Deque.Writer.Ok wr)
    (hd : data s ≠ []) :
    ∃ o s', exec (.writeTo wr) s = (.ok o, s') ∧
      (data s' = (data s).drop (wr (data s)).n ↔ (wr (data s)).err = none ∨ (wr (data s)).n = 0) := by
  cases he : (wr (data s)).err with
  | none =>
    obtain ⟨s', h1, h2⟩ := c09_writeTo_partial s hs wr hwr he hd
    exact ⟨_, s', h1, fun _ => Or.inl rfl, fun _ => h2⟩
  | some e =>
    obtain ⟨s', h1, v1, _⟩ := hs.good.step (.writeTo wr) hwr
    simp only [data] at he hd ⊢
    simp only [Deque.step, hd, if_false, he] at h1 v1
    refine ⟨_, s', h1, fun h => Or.inr ?_, fun h => ?_⟩
    · rw [v1] at h
      have hl := congrArg List.length h
      have hb := hwr (view s).content
      have hp := List.length_pos_iff.2 hd
      simp only [List.length_drop] at hl
      omega
    · rcases h with h | h
      · cases h
      · rw [v1, h]; rfl

/-- A reader and a writer for each side of the two characterisations. -/
example : (fun m => (⟨[1, 2].take m, min 2 m, none⟩ : ReadRes)) 8 = ⟨[1, 2], 2, none⟩ ∧
    0 < tailWritableLength demo ∧ Reachable demo :=
  ⟨rfl, by decide, 16, 8, Heap.empty, demo, [], [], rfl, by simp, rfl⟩

/-! ## C13 -/

/-- Every history on `s` gives the results of a bounded deque of that capacity and reserved head room. -/
def ActsAsDeque (s : St) (cap reserved : Nat) : Prop :=
  ∀ ops, (∀ op ∈ ops, Deque.OpOk op) → ∃ s', run s ops = (.ok ((Deque.fresh cap reserved).run ops).1, s')

/-- C13, exact: a wrapped slice acts as a buffer of the reported capacity iff its length is its
capacity, whatever the reservation. -/
theorem c13_iff (sl : Slice) (reserved : Int) (h : Heap) (s : St) (hs : fromSlice (some sl) reserved h = some s) :
    ActsAsDeque s sl.arr.length reserved.toNat ↔ sl.len = sl.arr.length := by
  refine ⟨fun hall => ?_, fun hfull ops hok => ?_⟩
  · by_cases hlt : sl.len = sl.arr.length
    · exact hlt
    · exfalso
      have hlt : sl.len < sl.arr.length := by have := sl.le; omega
      simp only [fromSlice] at hs
      split at hs
      · cases hs
      next hc =>
      have hs := (Option.some.inj hs).symm
      by_cases hr : reserved.toNat = sl.arr.length
      · -- no room behind the data: write at the head
        obtain ⟨s', hrun⟩ := hall [.writeHeadByte 0] (by simp [Deque.OpOk])
        have hne : ¬ (sl.arr.length - 1 < sl.len) := by omega
        have hpos : sl.arr ≠ [] := by intro h0; rw [h0] at hlt; exact absurd hlt (by simp)
        have htl : ¬ ((sl.arr.length : Int) - ((sl.arr.length - 1 : Nat) : Int) ≤ 0) := by omega
        have : (run s [.writeHeadByte 0]).1 = .panic := by
          rw [hs]
          simp [ite_apply, run, exec, writeHeadByte, writeHead, writeByte, bind_apply, GoM.get, GoM.modify, GoM.check, hr, hpos,
            tailWritableLength, St.cap, St.block, Heap.alloc, htl, resolveCow, hne, GoM.panic]
        rw [hrun] at this
        cases this
      · obtain ⟨s', hrun⟩ := hall [.write (List.replicate (sl.arr.length - reserved.toNat) 0)] (by simp [Deque.OpOk])
        have htl : ¬ ((sl.arr.length : Int) - max reserved 0 ≤ 0) := by omega
        have hspec : ((Deque.fresh sl.arr.length reserved.toNat).run
            [.write (List.replicate (sl.arr.length - reserved.toNat) 0)]).1 =
            [.count (sl.arr.length - reserved.toNat) none] := by
          have : ¬ (sl.arr.length - reserved.toNat = 0) := by omega
          simp [Deque.run, Deque.step, Deque.fresh, Deque.tail, this]
        rw [hspec] at hrun
        rw [hs] at hrun
        by_cases hle : reserved.toNat ≤ sl.len
        · have hm : min (sl.len - reserved.toNat) (sl.arr.length - reserved.toNat) = sl.len - reserved.toNat := by omega
          have hm2 : sl.len - reserved.toNat < sl.arr.length - reserved.toNat := by omega
          have hl2 : min sl.len sl.arr.length = sl.len := by omega
          simp [ite_apply, run, exec, write, bind_apply, GoM.get, GoM.modify, tailWritableLength, St.cap, St.block, Heap.alloc, htl,
            resolveCow, bytesFrom, hle, storeAt, hl2, hm, hm2, St.putBlock, Heap.put] at hrun
        · simp [ite_apply, run, exec, write, bind_apply, GoM.get, GoM.modify, tailWritableLength, St.cap, St.block, Heap.alloc, htl,
            resolveCow, bytesFrom, hle] at hrun
  · obtain ⟨_, s', h1, _⟩ := c13_wrap_partial sl reserved h s hfull hs ops hok
    exact ⟨s', h1⟩

/-- Both sides occur: `[]byte{1, 2, 3}` and `make([]byte, 1, 4)`. -/
example : (∃ s, fromSlice (some ⟨[1, 2, 3], 3, by decide⟩) 1 Heap.empty = some s ∧ ActsAsDeque s 3 1) ∧
    (∃ s, fromSlice (some ⟨[0, 0, 0, 0], 1, by decide⟩) 0 Heap.empty = some s ∧ ¬ ActsAsDeque s 4 0) :=
  ⟨⟨_, rfl, (c13_iff ⟨[1, 2, 3], 3, by decide⟩ 1 Heap.empty _ rfl).2 rfl⟩,
    ⟨_, rfl, fun h => absurd ((c13_iff ⟨[0, 0, 0, 0], 1, by decide⟩ 0 Heap.empty _ rfl).1 h) (by decide)⟩⟩

/-! ## C10 -/

/-- The head write a call is, if it is one. -/
def Op.hdr? : Op → Option Hdr
  | .writeHeadByte c => some (.byte c)
  | .writeHeadBytes p => some (.bytes p)
  | .writeHeadU w o v => some (.num w o v)
  | _ => none

theorem Op.hdr?_some {op : Op} {h : Hdr} (e : op.hdr? = some h) : op = h.writeOp := by
  cases op <;> simp only [Op.hdr?] at e <;> (try cases e) <;> rfl

theorem Op.hdr?_none {op : Op} (e : op.hdr? = none) : op.isHead = false := by
  cases op <;> simp only [Op.hdr?] at e <;> (try cases e) <;> rfl

/-- A head write that does no harm: the storage is not shared, or it does not fit and is refused, or it is empty and the buffer shows
nothing but zeros anyway. -/
def WOp.Harmless (w : W) : WOp → Prop
  | .call i op => ∀ h ub, op.hdr? = some h → w.bufs[i]? = some ub →
      w.Alone i ∨ ub.reader < h.size ∨ (h.size = 0 ∧ ∀ b ∈ data ⟨ub, w.heap⟩, b = 0)
  | _ => True

/-- A head write that does not fit is refused and changes nothing, shared or not. -/
theorem head_refused {s : St} {d : Deque} (hr : Rel s d) (h : Hdr) (hroom : s.ub.reader < h.size) :
    exec h.writeOp s = (.ok (Deque.step d h.writeOp).1, s) ∧ (Deque.step d h.writeOp).2 = d := by
  have hd := hr.rd
  cases h with
  | byte c =>
    simp only [Hdr.size] at hroom
    have h1 : d.head < [c].length := by simp only [List.length_singleton]; omega
    simp only [Hdr.writeOp, exec, writeHeadByte, writeHead, bind_apply, get_apply, hroom, if_true, pure_apply, Deque.step, Deque.prependAll, h1,
      and_self]
  | bytes p =>
    simp only [Hdr.size] at hroom
    have h0 : p ≠ [] := by intro e; subst e; simp at hroom
    have h1 : d.head < p.length := by omega
    simp only [Hdr.writeOp, exec, writeHeadBytes, writeHead, bind_apply, get_apply, hroom, if_true, pure_apply, Deque.step, Deque.prependAll, h1, h0,
      false_and, if_false, and_self]
  | num w o v =>
    simp only [Hdr.size, Width.bytes_eq] at hroom
    have h1 : d.head < (encode w o v).length := by rw [length_encode]; omega
    simp only [Hdr.writeOp, exec, writeHeadU, writeHead, bind_apply, get_apply, hroom, if_true, pure_apply, Deque.step, Deque.prependAll, h1, and_self]

theorem stored_nil {s : St} {i : Nat} (hc : s.ub.cow = false) (hi : i ≤ s.block.arr.length) : stored s i [] = s := by
  have h1 : overwrite s.block.arr i [] = s.block.arr := by simp [overwrite]
  have h2 : s.heap.put s.ub.data s.block = s.heap := put_self _ _
  rcases s with ⟨⟨res, rd, wr, dt, cow⟩, heap⟩
  simp only at hc
  subst hc
  simp only [stored, h1]
  exact congrArg _ h2

/-- An empty head write on a shared buffer: refused if the data start at the very end of the buffer, else it leaves zeros. -/
theorem empty_head_shared {s : St} {d : Deque} (hr : Rel s d) (hno : ¬ Owned s) :
    ∃ s', exec (.writeHeadBytes []) s = (.ok (Deque.step d (.writeHeadBytes [])).1, s') ∧ Frame s s' ∧
      Rel s' { d with content := List.replicate d.content.length 0 } := by
  have hle := hr.le
  by_cases hp : d.head = d.cap
  · have hnil : d.content = [] := List.length_eq_zero_iff.mp (by omega)
    refine ⟨s, ?_, Frame.refl s, ?_⟩
    · have h0 : tailWritableLength (setW s s.ub.reader) ≤ 0 := by
        simp only [tailWritableLength, St.cap, setW_block, hr.cap]; simp [setW, hr.rd, hp]
      have e : ({ s with ub := { s.ub with writer := s.ub.reader } } : St) = setW s s.ub.reader := rfl
      simp only [exec, writeHeadBytes, writeHead, List.length_nil, bind_apply, get_apply, Nat.not_lt_zero, if_false,
        modify_apply, Nat.sub_zero, write, e, h0, if_true, pure_apply, Deque.step, hp, and_self]
      rfl
    · have : ({ d with content := List.replicate d.content.length 0 } : Deque) = d := by
        rw [hnil]; cases d; simp_all
      rw [this]; exact hr
  · have hcap : s.cap = d.cap := hr.cap
    have ht : ¬ tailWritableLength (setW s s.ub.reader) ≤ 0 := by
      simp only [tailWritableLength, St.cap, setW_block]; simp only [setW, hr.cap, hr.rd]; omega
    have e : ({ s with ub := { s.ub with writer := s.ub.reader } } : St) = setW s s.ub.reader := rfl
    have hcow : s.ub.cow = true ∧ s.block.refCount ≠ 1 := by
      unfold Owned at hno
      exact ⟨by simpa using fun h => hno (.inl h), fun h => hno (.inr h)⟩
    have hres := resolveCow_shared (s := setW s s.ub.reader) (fun h => hno h) (Nat.le_refl _)
      (by show s.ub.reader ≤ s.cap; rw [hcap, hr.rd]; omega)
    have hblk := leave_block (setW s s.ub.reader)
    have hnil : ((setW s s.ub.reader).block.arr.take (setW s s.ub.reader).ub.writer).drop (setW s s.ub.reader).ub.reader = [] := by
      apply List.drop_of_length_le
      rw [List.length_take]
      exact Nat.min_le_left _ _
    rw [hnil] at hblk
    have hzero : overwrite (List.replicate (setW s s.ub.reader).cap 0) (setW s s.ub.reader).ub.reader [] = List.replicate d.cap 0 := by
      have : (setW s s.ub.reader).cap = d.cap := hcap
      rw [this]; simp [overwrite]; omega
    rw [hzero] at hblk
    have hcapT : (leave (setW s s.ub.reader)).cap = d.cap := by
      show (leave (setW s s.ub.reader)).block.arr.length = _
      rw [hblk]; simp
    have hsame : write [] (setW s s.ub.reader) = write [] (leave (setW s s.ub.reader)) := by
      have htail : tailWritableLength (leave (setW s s.ub.reader)) = tailWritableLength (setW s s.ub.reader) := by
        simp only [tailWritableLength, hcapT]
        show _ = ((s.cap : Int) - s.ub.reader)
        rw [hcap]; rfl
      simp only [write, bind_apply, get_apply, htail, ht, if_false, hres, resolveCow_noop (s := leave (setW s s.ub.reader)) rfl]
    have hwr := write_owned (s := leave (setW s s.ub.reader)) [] (.inl rfl) (by rw [hblk, hcapT]; exact hcap)
      (by rw [hcapT]; show s.ub.reader < d.cap; rw [hr.rd]; omega)
    have hne : ¬ (leave (setW s s.ub.reader)).cap - (leave (setW s s.ub.reader)).ub.writer < ([] : List Byte).length := by simp
    rw [if_neg hne, List.take_nil, stored_nil rfl (by
      show s.ub.reader ≤ (leave (setW s s.ub.reader)).cap
      rw [hcapT, hr.rd]; omega), List.length_nil, Nat.min_zero] at hwr
    have hex : exec (.writeHeadBytes []) s = (.ok (.err none),
        setW (leave (setW s s.ub.reader)) s.ub.writer) := by
      simp only [exec, writeHeadBytes, writeHead, List.length_nil, bind_apply, get_apply, Nat.not_lt_zero, if_false,
        modify_apply, Nat.sub_zero, e, hsame, hwr, if_true, pure_apply]
      rfl
    refine ⟨setW (leave (setW s s.ub.reader)) s.ub.writer, hex.trans ?_, ?_, ?_⟩
    · simp only [Deque.step, hp, and_false, if_false, Deque.prependAll, List.length_nil, Nat.not_lt_zero]
    · refine .copied hcow.1 hcow.2 rfl rfl (overwrite (List.replicate (setW s s.ub.reader).cap 0) (setW s s.ub.reader).ub.reader
        (((setW s s.ub.reader).block.arr.take (setW s s.ub.reader).ub.writer).drop (setW s s.ub.reader).ub.reader)) s.cap rfl
    · refine ⟨?_, ?_, hr.res, hr.resle, hr.rd, ?_, ?_, ?_⟩
      · rw [setW_block, hblk]; simp
      · rw [setW_block, hblk]; exact hcap
      · simp only [List.length_replicate]; exact hr.wr
      · simp only [List.length_replicate]; exact hle
      · rw [setW_block, hblk]
        show ((List.replicate d.cap 0).take s.ub.writer).drop s.ub.reader = _
        rw [List.take_replicate, List.drop_replicate, hr.wr, hr.rd]
        congr 1
        omega

/-- What the independent copies would do, done by the shared buffers. -/
def WOp.Isolated (w : W) (ds : List Deque) (op : WOp) : Prop :=
  ∃ w', wexec op w = (.ok (Spec.step ds op).1, w') ∧ w'.views = (Spec.step ds op).2

theorem WInv.harmless {w : W} {ds : List Deque} (h : WInv w ds) (op : WOp) (hok : op.Ok) (hs : op.Harmless w) :
    ∃ w', wexec op w = (.ok (Spec.step ds op).1, w') ∧ WInv w' (Spec.step ds op).2 := by
  cases op with
  | alloc c r => exact h.step _ hok trivial
  | snap i t => exact h.step _ hok trivial
  | call i op =>
    cases hh : op.hdr? with
    | none => exact h.step _ hok fun he => by rw [Op.hdr?_none hh] at he; cases he
    | some hd =>
      cases hi : w.bufs[i]? with
      | none =>
        have hd' : ds[i]? = none := by
          rw [List.getElem?_eq_none_iff] at hi ⊢; rw [← h.len]; exact hi
        exact ⟨w, by simp only [wexec, hi, Spec.step, hd'], by simpa only [Spec.step, hd'] using h⟩
      | some ub =>
        rcases hs hd ub hh hi with ha | hroom | ⟨h0, hz⟩
        · exact h.step _ hok fun _ => ha
        · obtain ⟨d, hd'⟩ := h.spec_get hi
          have hr := h.rel i ub _ hi hd'
          obtain ⟨e1, e2⟩ := head_refused hr hd hroom
          obtain rfl := Op.hdr?_some hh
          refine ⟨⟨w.bufs.set i ub, w.heap⟩, by simp only [wexec, hi, e1, Spec.step, hd'], ?_⟩
          simp only [Spec.step, hd', e2]
          exact h.call i ub d d ⟨ub, w.heap⟩ hi hd' hr (Frame.refl _)
        · by_cases ha : w.Alone i
          · exact h.step _ hok fun _ => ha
          · obtain ⟨d, hd'⟩ := h.spec_get hi
            have hr := h.rel i ub _ hi hd'
            have hno : ¬ Owned ⟨ub, w.heap⟩ := fun e => ha ((h.owned_iff_alone i ub hi).1 e)
            obtain rfl := Op.hdr?_some hh
            have hnil : hd.writeOp = .writeHeadBytes [] := by
              cases hd with
              | byte c => cases h0
              | bytes p => rw [List.length_eq_zero_iff.mp (show p.length = 0 from h0)]; rfl
              | num wd o v => have := wd.size_pos; simp only [Hdr.size, Width.bytes_eq] at h0; omega
            rw [hnil]
            obtain ⟨s', e1, e2, e3⟩ := empty_head_shared hr hno
            have hcontent : List.replicate d.content.length 0 = d.content := by
              refine (List.eq_replicate_iff.mpr ⟨rfl, fun b hb => hz b ?_⟩).symm
              rw [data, hr.view_eq]; exact hb
            have hd2 : ({ d with content := List.replicate d.content.length 0 } : Deque) = d := by rw [hcontent]
            have hst : (Deque.step d (.writeHeadBytes [])).2 = d := by
              simp only [Deque.step]
              split
              · rfl
              · simp [Deque.prependAll, Deque.prepend]
            rw [hd2] at e3
            refine ⟨⟨w.bufs.set i s'.ub, s'.heap⟩, by simp only [wexec, hi, e1, Spec.step, hd'], ?_⟩
            simp only [Spec.step, hd', hst]
            exact h.call i ub d d s' hi hd' e3 e2

/-- **C10, exactly, for one call**: in every world with a well-behaved past, a call behaves as if all buffers were independent copies iff it
is no head write, or a harmless one. -/
theorem WInv.isolated_iff {w : W} {ds : List Deque} (h : WInv w ds) (op : WOp) (hok : op.Ok) : op.Isolated w ds ↔ op.Harmless w := by
  constructor
  · rintro ⟨w', h1, h2⟩
    cases op with
    | alloc c r => trivial
    | snap i t => trivial
    | call i op =>
      intro hd ub hh hi
      obtain rfl := Op.hdr?_some hh
      apply Classical.byContradiction
      intro hno
      simp only [not_or, Nat.not_lt] at hno
      obtain ⟨ha, hroom, hz⟩ := hno
      by_cases h0 : 0 < hd.size
      · have := h.head_write_panics i ub hi ha hd h0 hroom
        rw [h1] at this
        cases this
      · have h0 : hd.size = 0 := by omega
        refine hz ⟨h0, ?_⟩
        obtain ⟨d, hd'⟩ := h.spec_get hi
        have hr := h.rel i ub _ hi hd'
        have hno : ¬ Owned ⟨ub, w.heap⟩ := fun e => ha ((h.owned_iff_alone i ub hi).1 e)
        have hnil : hd.writeOp = .writeHeadBytes [] := by
          cases hd with
          | byte c => cases h0
          | bytes p => rw [List.length_eq_zero_iff.mp (show p.length = 0 from h0)]; rfl
          | num wd o v => have := wd.size_pos; simp only [Hdr.size, Width.bytes_eq] at h0; omega
        rw [hnil] at h1 h2
        obtain ⟨s', e1, e2, e3⟩ := empty_head_shared hr hno
        have hst : (Deque.step d (.writeHeadBytes [])).2 = d := by
          simp only [Deque.step]
          split
          · rfl
          · simp [Deque.prependAll, Deque.prepend]
        have hex : wexec (.call i (.writeHeadBytes [])) w = (.ok (.out (Deque.step d (.writeHeadBytes [])).1), ⟨w.bufs.set i s'.ub, s'.heap⟩) := by
          simp only [wexec, hi, e1]
        rw [hex] at h1
        injection h1 with _ h1
        subst h1
        have hv := (h.call i ub d _ s' hi hd' e3 e2).views_eq
        rw [hv] at h2
        simp only [Spec.step, hd', hst] at h2
        have hlt : i < ds.length := (List.getElem?_eq_some_iff.1 hd').1
        have hi2 := congrArg (fun l => l[i]?) h2
        simp only [List.getElem?_set_self hlt, Option.some.injEq] at hi2
        rw [data, hr.view_eq]
        intro b hb
        rw [← hi2] at hb
        exact List.eq_of_mem_replicate hb
  · intro hs
    obtain ⟨w', h1, h2⟩ := h.harmless op hok hs
    exact ⟨w', h1, h2.views_eq⟩

/-- Every call of a history is harmless when it is made. -/
def Harmless (w : W) : List WOp → Prop
  | [] => True
  | op :: ops => op.Harmless w ∧ ∀ o w', wexec op w = (.ok o, w') → Harmless w' ops

/-- **C10, exactly, for whole histories**: after every call the buffers show what independent copies would, and return the same, iff all
head writes are done on buffers that share their storage with no other one, or are refused for want of room, or are empty and the
buffer shows nothing but zeros. -/
theorem c10_exact (ops : List WOp) (hok : ∀ op ∈ ops, op.Ok) :
    (∀ n, ∃ w, wrun W.init (ops.take n) = (.ok (Spec.run [] (ops.take n)).1, w) ∧ w.views = (Spec.run [] (ops.take n)).2) ↔ Harmless W.init ops := by
  have gen : ∀ (ops : List WOp) (w : W) (ds : List Deque), (∀ op ∈ ops, op.Ok) → WInv w ds →
      ((∀ n, ∃ w', wrun w (ops.take n) = (.ok (Spec.run ds (ops.take n)).1, w') ∧ w'.views = (Spec.run ds (ops.take n)).2) ↔ Harmless w ops) := by
    intro ops
    induction ops with
    | nil =>
      intro w ds _ h
      refine ⟨fun _ => trivial, fun _ n => ⟨w, ?_, ?_⟩⟩
      · rw [List.take_nil]; rfl
      · rw [List.take_nil]; exact h.views_eq
    | cons op ops ih =>
      intro w ds hok h
      have hop := hok op List.mem_cons_self
      have hok' : ∀ o ∈ ops, WOp.Ok o := fun o ho => hok o (List.mem_cons_of_mem _ ho)
      constructor
      · intro hall
        have hiso : op.Isolated w ds := by
          obtain ⟨w', h1, h2⟩ := hall 1
          simp only [List.take_succ_cons, List.take_zero, wrun, Spec.run] at h1 h2
          rcases hx : wexec op w with ⟨r, w1⟩
          rw [hx] at h1
          cases r with
          | ok o =>
            simp only [Prod.mk.injEq, Res.ok.injEq, List.cons.injEq, and_true] at h1
            obtain ⟨rfl, rfl⟩ := h1
            exact ⟨w1, hx, h2⟩
          | panic => simp at h1
          | running => simp at h1
        have hharm := (h.isolated_iff op hop).mp hiso
        refine ⟨hharm, fun o w1 hx => ?_⟩
        obtain ⟨w1', h1, h2⟩ := h.harmless op hop hharm
        rw [h1] at hx
        injection hx with _ hx
        subst hx
        refine (ih w1' _ hok' h2).mp fun n => ?_
        obtain ⟨w2, h3, h4⟩ := hall (n + 1)
        simp only [List.take_succ_cons, wrun, h1, Spec.run] at h3 h4
        rcases hy : wrun w1' (ops.take n) with ⟨r, w3⟩
        rw [hy] at h3
        cases r with
        | ok os =>
          simp only [Prod.mk.injEq, Res.ok.injEq, List.cons.injEq, true_and] at h3
          obtain ⟨rfl, rfl⟩ := h3
          exact ⟨w3, rfl, h4⟩
        | panic => simp at h3
        | running => simp at h3
      · rintro ⟨hharm, hrest⟩ n
        cases n with
        | zero => exact ⟨w, rfl, h.views_eq⟩
        | succ n =>
          obtain ⟨w1, h1, h2⟩ := h.harmless op hop hharm
          obtain ⟨w2, h3, h4⟩ := (ih w1 _ hok' h2).mpr (hrest _ _ h1) n
          exact ⟨w2, by simp only [List.take_succ_cons, wrun, h1, h3, Spec.run], by simpa only [List.take_succ_cons, Spec.run] using h4⟩
  exact gen ops W.init [] hok WInv.init

/-- A head write that is refused on a shared buffer, one on a buffer that has left the others: harmless; the one of `c10_violated` is not. -/
example : Harmless W.init (sharedHistory ++ [.call 1 (.writeHeadBytes [1, 2, 3, 4, 5]), .call 1 (.writeByte 9), .call 1 (.writeHeadU .u16 .be 7)]) ∧
    ¬ Harmless W.init (sharedHistory ++ [.call 1 (.writeHeadU .u16 .be 7)]) := by
  have ok : ∀ ops : List WOp, (∀ op ∈ ops, ∃ i p, op = .call i (.writeHeadBytes p) ∨ op = .call i (.writeByte 9) ∨ op = .call i (.writeHeadU .u16 .be 7)) →
      ∀ op ∈ sharedHistory ++ ops, WOp.Ok op := by
    intro ops h op hop
    rcases List.mem_append.mp hop with hop | hop
    · simp [sharedHistory] at hop
      rcases hop with rfl | rfl | rfl <;> simp [WOp.Ok, Deque.OpOk]
    · obtain ⟨i, p, rfl | rfl | rfl⟩ := h op hop <;> simp [WOp.Ok, Deque.OpOk]
  constructor
  · refine (c10_exact _ (ok _ ?_)).mp fun n => ?_
    · intro op hop
      simp at hop
      rcases hop with rfl | rfl | rfl
      · exact ⟨1, _, .inl rfl⟩
      · exact ⟨1, [], .inr (.inl rfl)⟩
      · exact ⟨1, [], .inr (.inr rfl)⟩
    · match n with
      | 0 => exact ⟨_, rfl, rfl⟩
      | 1 => exact ⟨_, rfl, rfl⟩
      | 2 => exact ⟨_, rfl, rfl⟩
      | 3 => exact ⟨_, rfl, rfl⟩
      | 4 => exact ⟨_, rfl, rfl⟩
      | 5 => exact ⟨_, rfl, rfl⟩
      | n + 6 => rw [List.take_of_length_le (by simp [sharedHistory])]; exact ⟨_, rfl, rfl⟩
  · intro h
    obtain ⟨w, h1, _⟩ := (c10_exact _ (ok _ (by
      intro op hop
      simp at hop
      exact ⟨1, [], .inr (.inr hop)⟩))).mpr h 4
    have := c10_violated.symm.trans (congrArg Prod.fst h1)
    cases this

end Verif.UBuf
