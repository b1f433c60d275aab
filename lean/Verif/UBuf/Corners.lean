import Verif.UBuf.Props

/-!
# Corner cases of C06, C07 and C08

Three calls about zero bytes or an empty buffer deviate from the plain statements. Here the statements are taken literally:
the deviations are shown, and that there are no others.
-/

namespace Verif.UBuf

open GoM

/-! ## C06 -/

/-- C06, exactly: `Peek` and `Read` return the same bytes, and agree about failing iff the buffer is not empty. -/
theorem c06_peek_exact (s : St) (hs : Reachable s) (n : Nat) :
    ∃ bs e e', (exec (.peek n) s).1 = .ok (.data bs e) ∧ (exec (.read n) s).1 = .ok (.data bs e') ∧
      (e.isSome = e'.isSome ↔ data s ≠ []) := by
  obtain ⟨s1, h1, _⟩ := hs.good.step (.peek n) trivial
  obtain ⟨s2, h2, _⟩ := hs.good.step (.read n) trivial
  simp only [Deque.step] at h1 h2
  by_cases hc : (view s).content = []
  · simp only [hc, if_true] at h1 h2
    exact ⟨[], _, _, congrArg Prod.fst h1, congrArg Prod.fst h2, by simp [data, hc]⟩
  · simp only [hc, if_false] at h1 h2
    refine ⟨_, _, _, congrArg Prod.fst h1, congrArg Prod.fst h2, ?_⟩
    by_cases hl : (view s).content.length < n <;> simp [hl, data, hc]

/-- C06 is violated by every empty buffer: `Peek` fails, whatever is asked for, and `Read` does not. -/
theorem c06_empty_violated (s : St) (hs : Reachable s) (he : data s = []) (n : Nat) :
    (exec (.peek n) s).1 = .ok (.data [] (some .notEnoughPeek)) ∧ (exec (.read n) s).1 = .ok (.data [] none) := by
  obtain ⟨s1, h1, _⟩ := hs.good.step (.peek n) trivial
  obtain ⟨s2, h2, _⟩ := hs.good.step (.read n) trivial
  have hc : (view s).content = [] := he
  simp only [Deque.step, hc, if_true] at h1 h2
  exact ⟨congrArg Prod.fst h1, congrArg Prod.fst h2⟩

example : Reachable demo ∧ data demo = [] := ⟨demo_reachable, rfl⟩

/-! ## C07 -/

/-- The bytes of room at the tail, room at the head, and data that a fixed-size call needs. -/
def Op.needs : Op → Nat × Nat × Nat
  | .writeByte _ => (1, 0, 0)
  | .writeU w _ _ => (w.bytes, 0, 0)
  | .writeHeadByte _ => (0, 1, 0)
  | .writeHeadBytes p => (0, p.length, 0)
  | .writeHeadU w _ _ => (0, w.bytes, 0)
  | .readByte | .peekByte => (0, 0, 1)
  | .readU w _ | .peekU w _ => (0, 0, w.bytes)
  | .peek n => (0, 0, n)
  | _ => (0, 0, 0)

/-- The buffer has less room or data than the call needs. -/
def Lacks (s : St) (op : Op) : Prop :=
  tailWritableLength s < op.needs.1 ∨ headWritableLength s < op.needs.2.1 ∨ readableLength s < op.needs.2.2

/-- The two calls about nothing that fail. -/
def Futile (s : St) (op : Op) : Prop :=
  (op = .peek 0 ∧ readableLength s = 0) ∨ (op = .writeHeadBytes [] ∧ headWritableLength s = capacity s)

theorem short_iff (s : St) (hs : Reachable s) (op : Op) (hf : op.isFixed = true) : (view s).short op ↔ Lacks s op ∨ Futile s op := by
  have hg := hs.good
  have hT := hg.rel.tailW
  have hH : headWritableLength s = (view s).head := rfl
  have hR : readableLength s = (view s).content.length := hg.rel.readable
  have hC : capacity s = (view s).cap := rfl
  have hw : ∀ w : Width, w.size = w.bytes := fun w => by cases w <;> rfl
  unfold Lacks Futile
  rw [hT, hH, hR, hC]
  have hnil : ∀ l : List Byte, l = [] ↔ l.length = 0 := by simp
  cases op <;> simp only [Op.isFixed, Bool.false_eq_true] at hf <;>
    simp only [Deque.short, Op.needs, hnil, hw, reduceCtorEq, false_and, or_false, false_or, Op.peek.injEq, Op.writeHeadBytes.injEq] <;> omega

/-- C07, exactly: a fixed-size call fails iff room or data is short, or it is one of the two futile calls; so the claim holds for
a call iff it is not futile. In any case a failed call changes nothing. -/
theorem c07_exact (s : St) (hs : Reachable s) (op : Op) (hf : op.isFixed = true) :
    ∃ out s', exec op s = (.ok out, s') ∧ ((out.failed = true ↔ Lacks s op) ↔ ¬ Futile s op) ∧ (out.failed = true → view s' = view s) := by
  obtain ⟨out, s', h1, h2, h3⟩ := c07_failure_changes_nothing_partial s hs op hf
  refine ⟨out, s', h1, ?_, h3⟩
  rw [h2, short_iff s hs op hf]
  have hnot : Futile s op → ¬ Lacks s op := by
    have hT := hs.good.rel.tailW
    rintro (⟨rfl, h⟩ | ⟨rfl, h⟩) hl <;> simp only [Lacks, Op.needs, List.length_nil] at hl
    · have hR := hs.good.rel.readable
      have hH : headWritableLength s = (view s).head := rfl
      omega
    · have hR := hs.good.rel.readable
      have hH : headWritableLength s = (view s).head := rfl
      omega
  constructor
  · exact fun h hfu => hnot hfu (h.mp (.inr hfu))
  · exact fun h => ⟨fun h' => h'.resolve_right h, .inl⟩

/-- C07 is violated: peeking at zero bytes of an empty buffer fails. -/
theorem c07_peek_violated : ∃ s, Reachable s ∧ ¬ Lacks s (.peek 0) ∧ ∃ out, (exec (.peek 0) s).1 = .ok out ∧ out.failed = true :=
  ⟨demo, demo_reachable, by simp only [Lacks, Op.needs]; decide, _, rfl, rfl⟩

/-- C07 is violated: writing an empty header fails if everything is reserved for headers. -/
theorem c07_head_violated : ∃ s, Reachable s ∧ ¬ Lacks s (.writeHeadBytes []) ∧
    ∃ out, (exec (.writeHeadBytes []) s).1 = .ok out ∧ out.failed = true :=
  ⟨_, ⟨4, 4, Heap.empty, _, [], [], rfl, by simp, rfl⟩, by simp only [Lacks, Op.needs]; decide, _, rfl, rfl⟩

example : ¬ Futile demo (.writeU .u64 .be 5) ∧ Lacks demo (.readU .u32 .be) ∧ Futile demo (.peek 0) := by
  refine ⟨by simp [Futile], ?_, .inl ⟨rfl, rfl⟩⟩
  simp only [Lacks, Op.needs]; decide

/-! ## C08 -/

/-- C08, exactly: `Write(p)` reports an error iff it is short, unless `p` is empty and the buffer is full. -/
theorem c08_write_exact (s : St) (hs : Reachable s) (p : List Byte) :
    ∃ n e s', exec (.write p) s = (.ok (.count n e), s') ∧ n = min p.length (tailWritableLength s).toNat ∧
      data s' = data s ++ p.take n ∧ ((e.isSome = true ↔ n < p.length) ↔ ¬ (p = [] ∧ tailWritableLength s = 0)) := by
  obtain ⟨n, e, s', h1, h2, h3, _, h5⟩ := c08_write_prefix_partial s hs p
  refine ⟨n, e, s', h1, h2, h3, ?_⟩
  have hp : p = [] ↔ p.length = 0 := by simp
  rw [h5, hp]
  omega

/-- C08 is violated: an empty `Write` into a full buffer reports that the buffer is full, although nothing is missing. -/
theorem c08_write_violated : ∃ s, Reachable s ∧ (exec (.write []) s).1 = .ok (.count 0 (some .full)) :=
  ⟨_, ⟨4, 4, Heap.empty, _, [], [], rfl, by simp, rfl⟩, rfl⟩

end Verif.UBuf
