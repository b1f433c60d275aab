import Verif.UBuf.Snapshot

/-!
# Copy-on-write used by several goroutines (C14)

`n` goroutines, each with its own copy-on-write snapshot of the same block.  One step of a goroutine
is one atomic action of `resolveCopyOnWriteIfNeed` (ubuf.go:162-192): the load of the count, the
decrement, the copy of one byte; or the store of one byte (`WriteByte`, ubuf.go:312-323; a `Write`
is a sequence of such stores, its private writer index is not visible to the others); or a whole
`Read` (ubuf.go:446), which touches only private positions and, while the block is shared, only
bytes nobody stores to.  The flag `copyOnWrite` is private to the goroutine, so clearing it is part
of the load step.  Accesses are interleaved atomically; weaker memory behaviour is not modelled.
-/

namespace Verif.UBuf.Conc

/-- Where a goroutine is. -/
inductive PC where
  /-- idle, buffer flagged copy-on-write -/
  | flagged
  /-- in WriteByte(c): loaded a count other than one (ubuf.go:172) -/
  | loaded (c : Byte)
  /-- decremented (ubuf.go:179), copied the first bytes of the window -/
  | copying (c : Byte) (got : List Byte)
  /-- in WriteByte(c): loaded one, will store in place -/
  | ownerStore (c : Byte)
  /-- idle, writes in place -/
  | owner
  /-- idle, with a block of its own -/
  | own (arr : List Byte)

/-- A goroutine: the positions of its buffer. -/
structure Th where
  rd : Nat
  wr : Nat
  pc : PC

/-- The shared block and the goroutines. -/
structure Sys where
  arr : List Byte
  rc : Int
  th : Nat → Th

def Sys.upd (s : Sys) (i : Nat) (t : Th) : Sys :=
  { s with th := fun j => if j = i then t else s.th j }

/-- What a goroutine does as seen by its user. -/
inductive Act where
  | tau
  | write (c : Byte)
  | read (m : Nat) (out : List Byte)
  | reset
  deriving DecidableEq, Repr

/-- The window of a block. -/
def window (arr : List Byte) (t : Th) : List Byte := (arr.take t.wr).drop t.rd

/-- The block an idle goroutine uses. -/
def block (s : Sys) : PC → List Byte
  | .own a => a
  | _ => s.arr

/-- Atomic steps of goroutine `i` among `n`; `res` is the reservation. -/
inductive Step (n res : Nat) : Sys → Nat → Act → Sys → Prop where
  | loadOne (s : Sys) (i : Nat) (c : Byte) (hi : i < n) (hp : (s.th i).pc = .flagged)
      (hw : (s.th i).wr < s.arr.length) (hrc : s.rc = 1) :
      Step n res s i .tau (s.upd i { s.th i with pc := .ownerStore c })
  | loadMany (s : Sys) (i : Nat) (c : Byte) (hi : i < n) (hp : (s.th i).pc = .flagged)
      (hw : (s.th i).wr < s.arr.length) (hrc : s.rc ≠ 1) :
      Step n res s i .tau (s.upd i { s.th i with pc := .loaded c })
  | dec (s : Sys) (i : Nat) (c : Byte) (hi : i < n) (hp : (s.th i).pc = .loaded c) :
      Step n res s i .tau ({ s with rc := s.rc - 1 }.upd i { s.th i with pc := .copying c [] })
  | copy (s : Sys) (i : Nat) (c : Byte) (got : List Byte) (hi : i < n)
      (hp : (s.th i).pc = .copying c got) (hl : got.length < (s.th i).wr - (s.th i).rd) :
      Step n res s i .tau (s.upd i { s.th i with
        pc := .copying c (got ++ [s.arr.getD ((s.th i).rd + got.length) 0]) })
  | finish (s : Sys) (i : Nat) (c : Byte) (got : List Byte) (hi : i < n)
      (hp : (s.th i).pc = .copying c got) (hl : got.length = (s.th i).wr - (s.th i).rd) :
      Step n res s i (.write c) (s.upd i
        { rd := (s.th i).rd, wr := (s.th i).wr + 1,
          pc := .own (overwrite (overwrite (List.replicate s.arr.length 0) (s.th i).rd got) (s.th i).wr [c]) })
  | storeFirst (s : Sys) (i : Nat) (c : Byte) (hi : i < n) (hp : (s.th i).pc = .ownerStore c) :
      Step n res s i (.write c) ({ s with arr := overwrite s.arr (s.th i).wr [c] }.upd i
        { rd := (s.th i).rd, wr := (s.th i).wr + 1, pc := .owner })
  | storeShared (s : Sys) (i : Nat) (c : Byte) (hi : i < n) (hp : (s.th i).pc = .owner)
      (hw : (s.th i).wr < s.arr.length) :
      Step n res s i (.write c) ({ s with arr := overwrite s.arr (s.th i).wr [c] }.upd i
        { rd := (s.th i).rd, wr := (s.th i).wr + 1, pc := .owner })
  | storeOwn (s : Sys) (i : Nat) (c : Byte) (a : List Byte) (hi : i < n) (hp : (s.th i).pc = .own a)
      (hw : (s.th i).wr < a.length) :
      Step n res s i (.write c) (s.upd i
        { rd := (s.th i).rd, wr := (s.th i).wr + 1, pc := .own (overwrite a (s.th i).wr [c]) })
  | read (s : Sys) (i m : Nat) (hi : i < n)
      (hp : (s.th i).pc = .flagged ∨ (s.th i).pc = .owner ∨ ∃ a, (s.th i).pc = .own a) :
      Step n res s i (.read m ((window (block s (s.th i).pc) (s.th i)).take m))
        (s.upd i { s.th i with
          rd := (s.th i).rd + ((window (block s (s.th i).pc) (s.th i)).take m).length })
  | reset (s : Sys) (i : Nat) (hi : i < n)
      (hp : (s.th i).pc = .flagged ∨ (s.th i).pc = .owner ∨ ∃ a, (s.th i).pc = .own a) :
      Step n res s i .reset (s.upd i { s.th i with rd := res, wr := res })

/-- Executions with their visible history. -/
inductive Exec (n res : Nat) : Sys → List (Nat × Act) → Sys → Prop where
  | nil (s : Sys) : Exec n res s [] s
  | cons {s s' s'' : Sys} {i : Nat} {a : Act} {tr : List (Nat × Act)} :
      Step n res s i a s' → Exec n res s' tr s'' → Exec n res s ((i, a) :: tr) s''

/-- Specification: every goroutine has a private byte queue. -/
def SpecStep (g : List Byte) : Act → List Byte → Prop
  | .tau, g' => g' = g
  | .write c, g' => g' = g ++ [c]
  | .read m out, g' => out = g.take m ∧ g' = g.drop m
  | .reset, g' => g' = []

/-- A history is what independent queues would produce. -/
inductive SpecTrace : (Nat → List Byte) → List (Nat × Act) → Prop where
  | nil (g : Nat → List Byte) : SpecTrace g []
  | cons {g : Nat → List Byte} {i : Nat} {a : Act} {x : List Byte} {tr : List (Nat × Act)} :
      SpecStep (g i) a x → SpecTrace (fun j => if j = i then x else g j) tr → SpecTrace g ((i, a) :: tr)

/-- `n` snapshots of a block with bytes `arr`, all with the window `[r, w)`, count `n`. -/
def init (n : Nat) (arr : List Byte) (r w : Nat) : Sys :=
  { arr := arr, rc := n, th := fun _ => ⟨r, w, .flagged⟩ }

/-! ## Invariant -/

/-- Has not decremented. -/
def holds : PC → Bool
  | .copying _ _ | .own _ => false
  | _ => true

def holders (n : Nat) (th : Nat → Th) : Nat := (List.range n).countP fun i => holds (th i).pc

/-- Private part of the invariant: `W` is the writer at snapshot time, `arr0` the block then. -/
def ThOk (arr0 arr : List Byte) (W : Nat) (t : Th) (g : List Byte) : Prop :=
  match t.pc with
  | .flagged | .loaded _ | .ownerStore _ => t.rd ≤ t.wr ∧ t.wr = W ∧ g = window arr0 t ∧
      (∀ c, t.pc = .loaded c ∨ t.pc = .ownerStore c → W < arr0.length)
  | .copying _ got => t.rd ≤ t.wr ∧ t.wr = W ∧ g = window arr0 t ∧ W < arr0.length ∧
      got = (window arr0 t).take got.length
  | .owner => t.rd ≤ t.wr ∧ W ≤ t.wr ∧ t.wr ≤ arr.length ∧ g = window arr t
  | .own a => t.rd ≤ t.wr ∧ t.wr ≤ a.length ∧ g = window a t

structure Inv (n : Nat) (arr0 : List Byte) (W : Nat) (s : Sys) (g : Nat → List Byte) : Prop where
  len : s.arr.length = arr0.length
  hW : W ≤ arr0.length
  pre : s.arr.take W = arr0.take W
  rc : s.rc = holders n s.th
  own : ∀ i j, i < n → j < n → i ≠ j →
    ((s.th i).pc = .owner ∨ ∃ c, (s.th i).pc = .ownerStore c) → holds (s.th j).pc = false
  th : ∀ i, i < n → ThOk arr0 s.arr W (s.th i) (g i)

theorem range_countP_upd (n i : Nat) (hi : i < n) (p : Nat → Bool) (b : Bool) :
    (List.range n).countP (fun j => if j = i then b else p j) + (if p i then 1 else 0)
      = (List.range n).countP p + (if b then 1 else 0) := by
  induction n with
  | zero => omega
  | succ n ih =>
    rw [List.range_succ, List.countP_append, List.countP_append]
    simp only [List.countP_cons, List.countP_nil, Nat.zero_add]
    by_cases h : i = n
    · subst h
      have : (List.range i).countP (fun j => if j = i then b else p j) = (List.range i).countP p := by
        apply List.countP_congr
        intro x hx
        have : x < i := by simpa using hx
        rw [if_neg (by omega)]
      rw [this]
      simp
      omega
    · have := ih (by omega)
      rw [if_neg (Ne.symm h)]
      omega

theorem holders_upd (n i : Nat) (hi : i < n) (s : Sys) (t : Th) :
    holders n (s.upd i t).th + (if holds (s.th i).pc then 1 else 0)
      = holders n s.th + (if holds t.pc then 1 else 0) := by
  have := range_countP_upd n i hi (fun j => holds (s.th j).pc) (holds t.pc)
  simp only [holders]
  rw [← this]
  congr 2
  funext j
  simp only [Sys.upd]
  split <;> rfl

theorem holders_one (n i j : Nat) (hi : i < n) (hj : j < n) (hij : i ≠ j) (s : Sys)
    (h1 : holders n s.th = 1) (hh : holds (s.th i).pc = true) : holds (s.th j).pc = false := by
  cases hc : holds (s.th j).pc with
  | false => rfl
  | true =>
    have e1 := range_countP_upd n i hi (fun j => holds (s.th j).pc) false
    simp only [hh, if_true] at e1
    simp only [holders] at h1
    rw [h1] at e1
    have e2 : (List.range n).countP (fun k => if k = i then false else holds (s.th k).pc) = 0 := by
      simpa using e1
    rw [List.countP_eq_zero] at e2
    have := e2 j (by simpa using hj)
    rw [if_neg (Ne.symm hij), hc] at this
    exact absurd rfl this

theorem upd_same (s : Sys) (i : Nat) (t : Th) : (s.upd i t).th i = t := by simp [Sys.upd]
theorem upd_other (s : Sys) (i j : Nat) (t : Th) (h : j ≠ i) : (s.upd i t).th j = s.th j := by
  simp [Sys.upd, h]

/-- A step that changes neither the block nor who holds it. -/
theorem Inv.private {n : Nat} {arr0 : List Byte} {W : Nat} {s : Sys} {g : Nat → List Byte} (h : Inv n arr0 W s g)
    (i : Nat) (hi : i < n) (t : Th) (x : List Byte) (hh : holds t.pc = holds (s.th i).pc)
    (ho : (t.pc = .owner ∨ ∃ c, t.pc = .ownerStore c) → ∀ j, j < n → j ≠ i → holds (s.th j).pc = false)
    (hx : ThOk arr0 s.arr W t x) :
    Inv n arr0 W (s.upd i t) (fun j => if j = i then x else g j) := by
  refine ⟨h.len, h.hW, h.pre, ?_, ?_, ?_⟩
  · have := holders_upd n i hi s t
    rw [hh] at this
    have h2 := h.rc
    simp only [Sys.upd] at *
    omega
  · intro a b ha hb hab hown
    by_cases hbi : b = i
    · subst hbi
      rw [upd_other _ _ _ _ hab] at hown
      rw [upd_same, hh]
      exact h.own a b ha hb hab hown
    · rw [upd_other _ _ _ _ hbi]
      by_cases hai : a = i
      · subst hai
        rw [upd_same] at hown
        exact ho hown b hb hbi
      · rw [upd_other _ _ _ _ hai] at hown
        exact h.own a b ha hb hab hown
  · intro j hj
    by_cases hji : j = i
    · subst hji; rw [upd_same]; simpa [Sys.upd] using hx
    · rw [upd_other _ _ _ _ hji]
      simp only [hji, if_false]
      exact h.th j hj

theorem window_push (arr : List Byte) (rd wr : Nat) (c : Byte) (pc pc' : PC) (hr : rd ≤ wr) (hw : wr < arr.length) :
    window (overwrite arr wr [c]) ⟨rd, wr + 1, pc⟩ = window arr ⟨rd, wr, pc'⟩ ++ [c] := by
  simp only [window, overwrite, List.length_singleton]
  have hl : (arr.take wr).length = wr := by simp; omega
  rw [List.append_assoc, List.take_append, hl, List.take_of_length_le (by omega)]
  rw [show wr + 1 - wr = 1 by omega, List.singleton_append, List.take_succ_cons, List.take_zero,
    List.drop_append, hl, show rd - wr = 0 by omega, List.drop_zero]

theorem window_congr {arr arr0 : List Byte} {W : Nat} (h : arr.take W = arr0.take W) (t : Th) (hw : t.wr ≤ W) :
    window arr t = window arr0 t := by
  simp only [window]
  have e : ∀ l : List Byte, l.take t.wr = (l.take W).take t.wr := by
    intro l; rw [List.take_take, Nat.min_eq_left hw]
  rw [e arr, e arr0, h]

theorem length_window (arr : List Byte) (t : Th) (hw : t.wr ≤ arr.length) :
    (window arr t).length = t.wr - t.rd := by
  simp [window]; omega

/-- The in-place store of the only holder. -/
theorem Inv.store {n : Nat} {arr0 : List Byte} {W : Nat} {s : Sys} {g : Nat → List Byte} (h : Inv n arr0 W s g)
    (i : Nat) (hi : i < n) (c : Byte) (x : List Byte) (hhold : holds (s.th i).pc = true)
    (ho : ∀ j, j < n → j ≠ i → holds (s.th j).pc = false)
    (hW : W ≤ (s.th i).wr) (hl : (s.th i).wr < s.arr.length)
    (hx : (s.th i).rd ≤ (s.th i).wr ∧ x = window s.arr (s.th i)) :
    Inv n arr0 W ({ s with arr := overwrite s.arr (s.th i).wr [c] }.upd i
        { rd := (s.th i).rd, wr := (s.th i).wr + 1, pc := .owner })
      (fun j => if j = i then x ++ [c] else g j) := by
  have hlen : (overwrite s.arr (s.th i).wr [c]).length = s.arr.length :=
    length_overwrite _ _ _ (by simp; omega)
  refine ⟨by simp only [Sys.upd]; rw [hlen, h.len], h.hW, ?_, ?_, ?_, ?_⟩
  · simp only [Sys.upd, overwrite]
    rw [← h.pre]
    rw [List.append_assoc, List.take_append_of_le_length (by simp; omega), List.take_take,
      Nat.min_eq_left hW]
  · have := holders_upd n i hi s { rd := (s.th i).rd, wr := (s.th i).wr + 1, pc := .owner }
    have h2 := h.rc
    have hown : holds PC.owner = true := rfl
    simp only [hhold, hown, if_true] at this
    simp only [Sys.upd] at this ⊢
    omega
  · intro a b ha hb hab hown
    by_cases hbi : b = i
    · subst hbi
      have : holds (s.th a).pc = false := ho a ha hab
      simp only [Sys.upd, hab, if_false] at hown
      rcases hown with hown | ⟨c', hown⟩ <;> rw [hown] at this <;> cases this
    · simp only [Sys.upd, hbi, if_false]
      exact ho b hb hbi
  · intro j hj
    by_cases hji : j = i
    · subst hji
      simp only [Sys.upd, if_true]
      refine ⟨by simp; omega, by simp; omega, by simp only [hlen]; omega, ?_⟩
      rw [hx.2]
      exact (window_push s.arr _ _ c _ _ hx.1 hl).symm
    · simp only [Sys.upd, hji, if_false]
      have hnh := ho j hj hji
      have := h.th j hj
      simp only [ThOk] at this ⊢
      split at this
      · simp_all [holds]
      · simp_all [holds]
      · simp_all [holds]
      · exact this
      · simp_all [holds]
      · exact this

/-- Simulation: every step except `Reset` is a step of independent queues. -/
theorem Inv.step {n res : Nat} {arr0 : List Byte} {W : Nat} {s s' : Sys} {g : Nat → List Byte} {i : Nat} {a : Act}
    (h : Inv n arr0 W s g) (hs : Step n res s i a s') (hr : a ≠ .reset) :
    ∃ x, SpecStep (g i) a x ∧ Inv n arr0 W s' (fun j => if j = i then x else g j) := by
  cases hs with
  | loadOne c hi hp hw hrc =>
    have ht := h.th i hi
    simp only [ThOk, hp] at ht
    refine ⟨g i, rfl, h.private i hi _ _ (by simp [hp, holds]) ?_ ?_⟩
    · intro _ j hj hji
      have := h.rc
      exact holders_one n i j hi hj (Ne.symm hji) s (by omega) (by simp [hp, holds])
    · have := h.len
      have e := ht.2.1
      refine ⟨ht.1, ht.2.1, ht.2.2.1, fun c' _ => by omega⟩
  | loadMany c hi hp hw hrc =>
    have ht := h.th i hi
    simp only [ThOk, hp] at ht
    refine ⟨g i, rfl, h.private i hi _ _ (by simp [hp, holds]) ?_ ?_⟩
    · rintro (e | ⟨c', e⟩) <;> simp at e
    · have := h.len
      have e := ht.2.1
      refine ⟨ht.1, ht.2.1, ht.2.2.1, fun c' _ => by omega⟩
  | dec c hi hp =>
    have ht := h.th i hi
    simp only [ThOk, hp] at ht
    refine ⟨g i, rfl, ?_⟩
    refine ⟨h.len, h.hW, h.pre, ?_, ?_, ?_⟩
    · have := holders_upd n i hi s { s.th i with pc := .copying c [] }
      have h2 := h.rc
      simp only [Sys.upd, hp, holds] at *
      simp only [if_true] at this
      simp at this
      omega
    · intro a b ha hb hab hown
      by_cases hai : a = i
      · subst hai
        simp [Sys.upd] at hown
      · simp only [Sys.upd, hai, if_false] at hown
        by_cases hbi : b = i
        · subst hbi; simp [Sys.upd, holds]
        · simp only [Sys.upd, hbi, if_false]
          exact h.own a b ha hb hab hown
    · intro j hj
      by_cases hji : j = i
      · subst hji
        simp only [Sys.upd, if_true]
        exact ⟨ht.1, ht.2.1, ht.2.2.1, ht.2.2.2 c (Or.inl rfl), by simp⟩
      · simp only [Sys.upd, hji, if_false]
        exact h.th j hj
  | copy c got hi hp hl =>
    have ht := h.th i hi
    simp only [ThOk, hp] at ht
    obtain ⟨h1, h2, h3, h4, h5⟩ := ht
    refine ⟨g i, rfl, h.private i hi _ _ (by simp [hp, holds]) ?_ ?_⟩
    · rintro (e | ⟨c', e⟩) <;> simp at e
    · refine ⟨h1, h2, h3, h4, ?_⟩
      have hb : s.arr.getD ((s.th i).rd + got.length) 0 = (window arr0 (s.th i)).getD got.length 0 := by
        have e1 : s.arr[(s.th i).rd + got.length]? = (s.arr.take W)[(s.th i).rd + got.length]? := by
          rw [List.getElem?_take, if_pos (by omega)]
        rw [List.getD_eq_getElem?_getD, e1, h.pre, List.getD_eq_getElem?_getD]
        simp only [window]
        rw [List.getElem?_drop, h2]
      have hwl : (window arr0 (s.th i)).length = (s.th i).wr - (s.th i).rd :=
        length_window _ _ (by have := h.hW; omega)
      rw [hb]
      simp only [List.length_append, List.length_singleton]
      have e2 : window arr0 ⟨(s.th i).rd, (s.th i).wr, .copying c (got ++ [(window arr0 (s.th i)).getD got.length 0])⟩
          = window arr0 (s.th i) := rfl
      rw [e2, List.take_succ, ← h5]
      rw [List.getD_eq_getElem?_getD, List.getElem?_eq_getElem (by omega)]
      simp
  | finish c got hi hp hl =>
    have ht := h.th i hi
    simp only [ThOk, hp] at ht
    obtain ⟨h1, h2, h3, h4, h5⟩ := ht
    have hlen := h.len
    have hwl : (window arr0 (s.th i)).length = (s.th i).wr - (s.th i).rd :=
        length_window _ _ (by have := h.hW; omega)
    have hgot : got = window arr0 (s.th i) := by
      rw [h5, List.take_of_length_le (by omega)]
    refine ⟨g i ++ [c], rfl, h.private i hi _ _ (by simp [hp, holds]) ?_ ?_⟩
    · rintro (e | ⟨c', e⟩) <;> simp at e
    · have hl1 : (overwrite (List.replicate s.arr.length 0) (s.th i).rd got).length = s.arr.length := by
        rw [length_overwrite] <;> simp; omega
      have hl2 : (overwrite (overwrite (List.replicate s.arr.length 0) (s.th i).rd got) (s.th i).wr [c]).length
          = s.arr.length := by
        rw [length_overwrite, hl1]
        simp; omega
      refine ⟨by simp; omega, by simp only [hl2]; omega, ?_⟩
      rw [window_push _ _ _ _ _ PC.flagged h1 (by omega)]
      congr 1
      rw [h3, hgot]
      simp only [window]
      exact (window_copy _ _ _ _ (by simp; omega) h1 (by omega)).symm
  | storeFirst c hi hp =>
    have ht := h.th i hi
    simp only [ThOk, hp] at ht
    obtain ⟨h1, h2, h3, h4⟩ := ht
    have h4 := h4 c (Or.inr rfl)
    have hlen := h.len
    refine ⟨g i ++ [c], rfl, h.store i hi c (g i) (by simp [hp, holds]) ?_ (by omega) (by omega) ⟨h1, ?_⟩⟩
    · intro j hj hji
      exact h.own i j hi hj (Ne.symm hji) (Or.inr ⟨c, hp⟩)
    · rw [h3, window_congr h.pre _ (by omega)]
  | storeShared c hi hp hw =>
    have ht := h.th i hi
    simp only [ThOk, hp] at ht
    obtain ⟨h1, h2, h3, h4⟩ := ht
    refine ⟨g i ++ [c], rfl, h.store i hi c (g i) (by simp [hp, holds]) ?_ h2 hw ⟨h1, h4⟩⟩
    intro j hj hji
    exact h.own i j hi hj (Ne.symm hji) (Or.inl hp)
  | storeOwn c a hi hp hw =>
    have ht := h.th i hi
    simp only [ThOk, hp] at ht
    obtain ⟨h1, h2, h3⟩ := ht
    refine ⟨g i ++ [c], rfl, h.private i hi _ _ (by simp [hp, holds]) ?_ ?_⟩
    · rintro (e | ⟨c', e⟩) <;> simp at e
    · have hl : (overwrite a (s.th i).wr [c]).length = a.length := length_overwrite _ _ _ (by simp; omega)
      refine ⟨by simp; omega, by simp only [hl]; omega, ?_⟩
      rw [h3]
      exact (window_push a _ _ c _ _ h1 hw).symm
  | read m hi hp =>
    have ht := h.th i hi
    -- the window is the ghost content
    have key : g i = window (block s (s.th i).pc) (s.th i) ∧ (s.th i).rd ≤ (s.th i).wr ∧
        (s.th i).wr ≤ (block s (s.th i).pc).length := by
      rcases hp with hp | hp | ⟨a, hp⟩
      · simp only [ThOk, hp] at ht
        simp only [hp, block]
        have := h.len
        have := h.hW
        refine ⟨?_, ht.1, by omega⟩
        rw [ht.2.2.1, window_congr h.pre _ (by omega)]
      · simp only [ThOk, hp] at ht
        simp only [hp, block]
        exact ⟨ht.2.2.2, ht.1, ht.2.2.1⟩
      · simp only [ThOk, hp] at ht
        simp only [hp, block]
        exact ⟨ht.2.2, ht.1, ht.2.1⟩
    obtain ⟨k1, k2, k3⟩ := key
    have hwl := length_window _ _ k3
    refine ⟨(g i).drop m, ⟨by rw [k1], rfl⟩, ?_⟩
    have hdrop : ∀ (arr : List Byte) (k : Nat), k = min m (window arr (s.th i)).length →
        (window arr (s.th i)).drop m = window arr { s.th i with rd := (s.th i).rd + k } := by
      intro arr k hk
      simp only [window, List.drop_drop]
      rw [← List.drop_drop, ← List.drop_drop]
      subst hk
      by_cases hm : m ≤ (window arr (s.th i)).length
      · rw [Nat.min_eq_left hm]
      · rw [Nat.min_eq_right (by omega)]
        simp only [window] at hm ⊢
        rw [List.drop_of_length_le (by omega), List.drop_of_length_le (by omega)]
    have hlen1 : ((window (block s (s.th i).pc) (s.th i)).take m).length
        = min m (window (block s (s.th i).pc) (s.th i)).length := by simp
    have hle : (s.th i).rd + ((window (block s (s.th i).pc) (s.th i)).take m).length ≤ (s.th i).wr := by
      rw [hlen1]; omega
    refine h.private i hi _ _ rfl ?_ ?_
    · intro ho j hj hji
      exact h.own i j hi hj (Ne.symm hji) ho
    · rcases hp with hp | hp | ⟨a, hp⟩
      · simp only [ThOk, hp] at ht ⊢
        simp only [hp, block] at hle k1 hlen1
        refine ⟨hle, ht.2.1, ?_, by simp⟩
        have e : window s.arr (s.th i) = window arr0 (s.th i) := window_congr h.pre _ (by omega)
        simp only [block]
        rw [k1, e]
        have := hdrop arr0 ((window arr0 (s.th i)).take m).length (by rw [List.length_take])
        rw [this]; simp only [window]
      · simp only [ThOk, hp] at ht ⊢
        simp only [hp, block] at hle k1 hlen1
        refine ⟨hle, ht.2.1, ht.2.2.1, ?_⟩
        simp only [block]
        rw [k1]
        have := hdrop s.arr _ hlen1
        rw [this]; simp only [window]
      · simp only [ThOk, hp] at ht ⊢
        simp only [hp, block] at hle k1 hlen1
        refine ⟨hle, ht.2.1, ?_⟩
        simp only [block]
        rw [k1]
        have := hdrop a _ hlen1
        rw [this]; simp only [window]
  | reset hi hp => exact absurd rfl hr

theorem Inv.exec {n res : Nat} {arr0 : List Byte} {W : Nat} {s s' : Sys} {tr : List (Nat × Act)}
    (he : Exec n res s tr s') (g : Nat → List Byte) (h : Inv n arr0 W s g)
    (hr : ∀ x ∈ tr, x.2 ≠ .reset) : SpecTrace g tr := by
  induction he generalizing g with
  | nil s => exact .nil g
  | cons hs _ ih =>
    obtain ⟨x, h1, h2⟩ := h.step hs (hr _ List.mem_cons_self)
    exact .cons h1 (ih _ h2 (fun y hy => hr y (by simp [hy])))

theorem Inv.init (n : Nat) (arr : List Byte) (r w : Nat) (hr : r ≤ w) (hw : w ≤ arr.length) :
    Inv n arr w (Conc.init n arr r w) (fun _ => (arr.take w).drop r) := by
  refine ⟨rfl, hw, rfl, ?_, ?_, ?_⟩
  · simp [Conc.init, holders, holds]
  · intro i j _ _ _ h
    simp [Conc.init] at h
  · intro i _
    simp [Conc.init, ThOk, hr, window]

/-- C14 (partial: no goroutine calls `Reset`): for any number of goroutines, any program of each and
any interleaving of their atomic steps, what they observe is what independent copies would show.
Missing: `Reset`, see `c14_reset_race`. -/
theorem c14_concurrent_isolation_partial (n res : Nat) (arr : List Byte) (r w : Nat) (hr : r ≤ w)
    (hw : w ≤ arr.length) (tr : List (Nat × Act)) (s : Sys) (he : Exec n res (init n arr r w) tr s)
    (hnr : ∀ x ∈ tr, x.2 ≠ .reset) :
    SpecTrace (fun _ => (arr.take w).drop r) tr :=
  (Inv.init n arr r w hr hw).exec he _ hnr

/-- An execution with this history exists. -/
theorem Can.cons {n res : Nat} {s s' : Sys} {i : Nat} {a : Act} {tr : List (Nat × Act)}
    (h : Step n res s i a s') (t : ∃ s'', Exec n res s' tr s'') :
    ∃ s'', Exec n res s ((i, a) :: tr) s'' := by
  obtain ⟨s'', t⟩ := t
  exact ⟨s'', .cons h t⟩

/-- The racing schedule: goroutine 0 decrements the count; goroutine 1 resets its buffer, sees the
count one and stores in place before goroutine 0 has copied. -/
def raceTrace : List (Nat × Act) :=
  [(0, .tau), (0, .tau), (1, .reset), (1, .tau), (1, .write 7), (0, .tau), (0, .write 9), (0, .read 2 [7, 9])]

/-- C14 is violated: the schedule `raceTrace` is possible, and it is not what independent copies of
the message `[1]` would show. -/
theorem c14_reset_race :
    (∃ s, Exec 2 0 (init 2 [1, 0] 0 1) raceTrace s) ∧
    ¬ SpecTrace (fun _ => ([1, 0].take 1).drop 0) raceTrace := by
  constructor
  · refine Can.cons (.loadMany _ 0 9 (by omega) rfl (by decide) (by decide)) ?_
    refine Can.cons (.dec _ 0 9 (by omega) rfl) ?_
    refine Can.cons (.reset _ 1 (by omega) (Or.inl rfl)) ?_
    refine Can.cons (.loadOne _ 1 7 (by omega) rfl (by decide) (by decide)) ?_
    refine Can.cons (.storeFirst _ 1 7 (by omega) rfl) ?_
    refine Can.cons (.copy _ 0 9 [] (by omega) rfl (by decide)) ?_
    refine Can.cons (.finish _ 0 9 [7] (by omega) rfl (by decide)) ?_
    exact Can.cons (.read _ 0 2 (by omega) (Or.inr (Or.inr ⟨_, rfl⟩))) ⟨_, .nil _⟩
  · intro h
    unfold raceTrace at h
    cases h with | cons a1 h =>
    cases h with | cons a2 h =>
    cases h with | cons a3 h =>
    cases h with | cons a4 h =>
    cases h with | cons a5 h =>
    cases h with | cons a6 h =>
    cases h with | cons a7 h =>
    cases h with | cons a8 h =>
    simp [SpecStep] at a1 a2 a3 a4 a5 a6 a7 a8
    subst a1 a2 a3 a4 a5 a6 a7
    simp at a8

/-- Without the reset the race of copy and in-place store is harmless: a concrete execution. -/
example : ∃ s, Exec 2 0 (init 2 [1, 0, 0] 0 1)
    [(0, .tau), (0, .tau), (1, .tau), (1, .write 7), (0, .tau), (0, .write 9), (0, .read 2 [1, 9]),
     (1, .read 2 [1, 7])] s := by
  refine Can.cons (.loadMany _ 0 9 (by omega) rfl (by decide) (by decide)) ?_
  refine Can.cons (.dec _ 0 9 (by omega) rfl) ?_
  refine Can.cons (.loadOne _ 1 7 (by omega) rfl (by decide) (by decide)) ?_
  refine Can.cons (.storeFirst _ 1 7 (by omega) rfl) ?_
  refine Can.cons (.copy _ 0 9 [] (by omega) rfl (by decide)) ?_
  refine Can.cons (.finish _ 0 9 [1] (by omega) rfl (by decide)) ?_
  refine Can.cons (.read _ 0 2 (by omega) (Or.inr (Or.inr ⟨_, rfl⟩))) ?_
  exact Can.cons (.read _ 1 2 (by omega) (Or.inr (Or.inl rfl))) ⟨_, .nil _⟩

end Verif.UBuf.Conc
