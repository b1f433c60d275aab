/-!
# Go slices that share backing arrays

What `append` and re-slicing do to the arrays behind slices, as far as ustack_default.go uses them.
A slice is a backing array and a length (all slices used start at index 0); reading another slice of the same
array sees the writes.
-/

namespace Verif.Reg

/-- A slice: its backing array and its length. -/
structure Slice where
  arr : Nat
  len : Nat
  deriving Repr, DecidableEq

/-- The arrays allocated so far; the length of an array is the capacity of the slices starting at its beginning.
Array 0 has no elements: it is behind the nil slice. -/
structure Mem (α : Type) where
  arrs : Nat → List α
  next : Nat

def Mem.init : Mem α := ⟨fun _ => [], 1⟩

/-- The nil slice. -/
def Slice.nil : Slice := ⟨0, 0⟩

/-- The elements of a slice. -/
def Mem.read (m : Mem α) (s : Slice) : List α := (m.arrs s.arr).take s.len

def Mem.put (m : Mem α) (a : Nat) (l : List α) : Mem α := { m with arrs := fun b => if b = a then l else m.arrs b }

/-- `append(s, x)`: in place if the capacity allows, else into a new array; `spare` is the extra capacity the run-time
chooses (its elements are zero values, `z`). -/
def Mem.append (m : Mem α) (z : α) (spare : Nat) (s : Slice) (x : α) : Mem α × Slice :=
  if s.len < (m.arrs s.arr).length then
    (m.put s.arr ((m.arrs s.arr).set s.len x), ⟨s.arr, s.len + 1⟩)
  else
    ({ (m.put m.next (m.read s ++ [x] ++ List.replicate spare z)) with next := m.next + 1 }, ⟨m.next, s.len + 1⟩)

/-- `append(s[:i], s[i+1:]...)` with `i < len(s)`: the tail is moved down in place. -/
def Mem.deleteAt (m : Mem α) (s : Slice) (i : Nat) : Mem α × Slice :=
  let a := m.arrs s.arr
  (m.put s.arr (a.take i ++ (a.take s.len).drop (i + 1) ++ a.drop (s.len - 1)), ⟨s.arr, s.len - 1⟩)

/-- The slice fits its array, which is allocated. -/
structure Mem.Ok (m : Mem α) (s : Slice) : Prop where
  len : s.len ≤ (m.arrs s.arr).length
  old : s.arr < m.next

variable {m : Mem α} {s : Slice} {z x : α} {spare i : Nat}

theorem Mem.ok_nil : (Mem.init : Mem α).Ok .nil := ⟨by simp [Slice.nil], by simp [Mem.init, Slice.nil]⟩

theorem Mem.read_length (h : m.Ok s) : (m.read s).length = s.len := by
  simp [Mem.read, List.length_take, Nat.min_eq_left h.len]

theorem Mem.read_append (h : m.Ok s) : (m.append z spare s x).1.read (m.append z spare s x).2 = m.read s ++ [x] := by
  simp only [Mem.append]
  split
  · rename_i hlt
    simp only [Mem.read, Mem.put, if_pos]
    rw [List.take_add_one, List.take_set_of_le (Nat.le_refl _)]
    simp [List.getElem?_set, hlt]
  · simp only [Mem.read, Mem.put, if_pos]
    have := Mem.read_length h
    simp only [Mem.read] at this
    rw [List.take_append_of_le_length (by rw [List.length_append, this]; simp),
      List.take_of_length_le (by rw [List.length_append, this]; simp)]

theorem Mem.ok_append (h : m.Ok s) : (m.append z spare s x).1.Ok (m.append z spare s x).2 := by
  simp only [Mem.append]
  split
  · rename_i hlt
    exact ⟨by simp [Mem.put]; omega, h.old⟩
  · have := Mem.read_length h
    exact ⟨by simp [Mem.put]; omega, by simp⟩

theorem Mem.read_deleteAt (h : m.Ok s) (hi : i < s.len) : (m.deleteAt s i).1.read (m.deleteAt s i).2 = (m.read s).eraseIdx i := by
  have hl := h.len
  simp only [Mem.deleteAt, Mem.read, Mem.put, if_pos]
  rw [List.eraseIdx_eq_take_drop_succ, List.take_take, Nat.min_eq_left (by omega)]
  have : (List.take i (m.arrs s.arr) ++ List.drop (i + 1) (List.take s.len (m.arrs s.arr))).length = s.len - 1 := by
    simp only [List.length_append, List.length_take, List.length_drop]; omega
  rw [← this, List.take_left]

theorem Mem.deleteAt_length (h : m.Ok s) (hi : i < s.len) : ((m.deleteAt s i).1.arrs s.arr).length = (m.arrs s.arr).length := by
  have hl := h.len
  simp only [Mem.deleteAt, Mem.put, if_pos]
  simp only [List.length_append, List.length_take, List.length_drop]; omega

theorem Mem.ok_deleteAt (h : m.Ok s) (hi : i < s.len) : (m.deleteAt s i).1.Ok (m.deleteAt s i).2 := by
  refine ⟨?_, h.old⟩
  have := Mem.deleteAt_length h hi
  have hl := h.len
  show s.len - 1 ≤ ((m.deleteAt s i).1.arrs s.arr).length
  omega

/-- A slice taken before: `append` to `s` does not change it if it is not longer than `s` or lives elsewhere. -/
theorem Mem.append_other {t : Slice} (ht : t.arr < m.next) (h : t.arr = s.arr → t.len ≤ s.len) :
    (m.append z spare s x).1.read t = m.read t := by
  simp only [Mem.append]
  split
  · simp only [Mem.read, Mem.put]
    split
    · rename_i e
      rw [List.take_set_of_le (h e), e]
    · rfl
  · simp only [Mem.read, Mem.put]
    rw [if_neg (by omega)]

/-- What a slice taken before shows after a deletion in place: from the deleted element on, its elements are those one
further, and the last one is doubled. -/
theorem Mem.deleteAt_same (h : m.Ok s) (hi : i < s.len) :
    (m.deleteAt s i).1.read s = (m.read s).eraseIdx i ++ (m.read s).drop (s.len - 1) := by
  have hl := h.len
  have hr : (m.deleteAt s i).1.read s = (List.take i (m.arrs s.arr) ++ List.drop (i + 1) (List.take s.len (m.arrs s.arr)) ++ List.drop (s.len - 1) (m.arrs s.arr)).take s.len := by
    simp only [Mem.deleteAt, Mem.read, Mem.put, if_pos]
  have h1 : (List.take i (m.arrs s.arr) ++ List.drop (i + 1) (List.take s.len (m.arrs s.arr))).length = s.len - 1 := by
    simp only [List.length_append, List.length_take, List.length_drop]; omega
  rw [hr, List.take_append, h1, List.take_of_length_le (by omega), show s.len - (s.len - 1) = 1 by omega]
  simp only [Mem.read]
  rw [List.eraseIdx_eq_take_drop_succ, List.take_take, Nat.min_eq_left (by omega : i ≤ s.len)]
  congr 1
  rw [List.drop_take, show s.len - (s.len - 1) = 1 by omega]

theorem Mem.deleteAt_other {t : Slice} (h : t.arr ≠ s.arr) : (m.deleteAt s i).1.read t = m.read t := by
  simp [Mem.deleteAt, Mem.read, Mem.put, h]

end Verif.Reg
