import Verif.Trace
import Verif.Reg.Slice

/-!
# Adding and deleting from several goroutines at the same time (C93)

`AddEndPoint`, `DeleteEndPoint`, `AddTransport` and `DeleteTransport` (ustack_default.go:195-233, 257-295) look through a slice,
publish an event, and assign the slice again, without a lock. Programs call them from event listeners, and events are published by the
goroutines that accept connections and by those that read them (proc_lowerdeck.go:22-90): so by several goroutines at the same time.

One registry, with any number of goroutines that make one call each. An atomic action is: taking the slice to range over; looking at one
element of it; publishing the event; taking the slice for `append`; the writing `append` does; assigning the result. Simplifications:
`append(s[:i], s[i+1:]...)` takes the field twice in Go and once here, and moves all elements in one action; listeners only observe.
-/

namespace Verif.Reg.Callers

open Verif

inductive Call
  | add (x : Nat)
  | delete (x : Nat)
  deriving DecidableEq, Repr

def Call.item : Call → Nat
  | .add x => x
  | .delete x => x

/-- Where a caller is. -/
inductive Pc
  /-- not called yet -/
  | idle
  /-- ranging over `h`, the next element is the `i`-th -/
  | scan (h : Slice) (i : Nat)
  /-- about to publish; `i` is where the element was found (deletion) -/
  | publish (i : Nat)
  /-- about to take the slice -/
  | load (i : Nat)
  /-- about to append -/
  | write (i : Nat) (h : Slice)
  /-- about to assign -/
  | store (h : Slice)
  /-- about to publish after the assignment -/
  | tell
  /-- returned -/
  | done
  deriving DecidableEq, Repr

/-- What differs: a deletion is published before it is made (endpoints) or afterwards (transports); and the capacity the run-time gives to a
new array. -/
structure Conf where
  early : Bool
  spare : Nat → Nat

structure Sys where
  mem : Mem Nat
  /-- the field `endpoints` (or `transports`) -/
  reg : Slice
  ths : List (Call × Pc)
  /-- the callers whose event has been published -/
  out : List Nat
  panicked : Bool

/-- What `GetEndPoint` (`GetTransport`) shows. -/
def Sys.items (s : Sys) : List Nat := s.mem.read s.reg

def Sys.at (s : Sys) (i : Nat) (c : Call) (pc : Pc) : Sys := { s with ths := s.ths.set i (c, pc) }

/-- ustack_default.go:199 and :261 (return); :220 (endpoints) and :283 (transports). -/
def found (k : Conf) (i : Nat) : Call → Pc
  | .add _ => .done
  | .delete _ => if k.early then .publish i else .load i

/-- The end of the range loop: ustack_default.go:203 and :265, :232 and :294. -/
def missed : Call → Pc
  | .add _ => .publish 0
  | .delete _ => .done

/-- After the assignment: ustack_default.go:210, :272, :229; for transports :285 comes now. -/
def stored (k : Conf) : Call → Pc
  | .add _ => .done
  | .delete _ => if k.early then .done else .tell

def act (k : Conf) (s : Sys) (i : Nat) (c : Call) : Pc → Option Sys
  | .idle => some (s.at i c (.scan s.reg 0))
  | .scan h j =>
    match (s.mem.read h)[j]? with
    | some x => if x = c.item then some (s.at i c (found k j c)) else some (s.at i c (.scan h (j + 1)))
    | none => some (s.at i c (missed c))
  | .publish j => some { s.at i c (.load j) with out := s.out ++ [i] }
  | .load j => some (s.at i c (.write j s.reg))
  | .write j h =>
    match c with
    | .add x =>
      let r := s.mem.append 0 (k.spare h.len) h x
      some { s.at i c (.store r.2) with mem := r.1 }
    | .delete _ =>
      -- h[j+1:] panics if j + 1 > len(h)
      if j < h.len then
        let r := s.mem.deleteAt h j
        some { s.at i c (.store r.2) with mem := r.1 }
      else some { s with panicked := true }
  | .store h => some { s.at i c (stored k c) with reg := h }
  | .tell => some { s.at i c .done with out := s.out ++ [i] }
  | .done => none

/-- The `i`-th caller takes its next step. -/
def step (k : Conf) (s : Sys) (i : Nat) : Option Sys :=
  if s.panicked then none else
  match s.ths[i]? with
  | some (c, pc) => act k s i c pc
  | none => none

abbrev exec (k : Conf) := Trace.exec (step k)

/-! ## The claim -/

/-- Nobody is inside a call. -/
def AtRest (s : Sys) : Prop := ∀ (i : Nat) c pc, s.ths[i]? = some (c, pc) → pc = .idle ∨ pc = .done

/-- The call changes something if the registered items are `l`. -/
def Effective (l : List Nat) : Call → Prop
  | .add x => x ∉ l
  | .delete x => x ∈ l

/-- The `i`-th caller has made its call `c` between `s` and `s'`. -/
def Made (s s' : Sys) (i : Nat) (c : Call) : Prop := s.ths[i]? = some (c, .idle) ∧ s'.ths[i]? = some (c, .done)

/-- What the calls made between two states of rest were to do: each item is registered once, those added are registered, those deleted are not,
all others are as they were and in the same order, and each call that had something to do published one event, the other calls none. -/
structure Right (s s' : Sys) : Prop where
  once : s'.items.Nodup
  added : ∀ i x, Made s s' i (.add x) → x ∈ s'.items
  deleted : ∀ i x, Made s s' i (.delete x) → x ∉ s'.items
  others : ∀ p : Nat → Bool, (∀ i c, Made s s' i c → p c.item = false) → s'.items.filter p = s.items.filter p
  told : ∀ i c, Made s s' i c → Effective s.items c → s'.out.count i = s.out.count i + 1
  silent : ∀ i c, Made s s' i c → ¬ Effective s.items c → s'.out.count i = s.out.count i

/-- `y` is registered, after it `z`, and after `z` something more. -/
def Between (l : List Nat) (y z : Nat) : Prop := ∃ a b c, l = a ++ y :: b ++ z :: c ∧ c ≠ []

/-- At most one of the calls has something to do; and if that is a deletion, nobody adds what is registered behind it, except at the end. -/
structure Apart (s : Sys) (as : List Nat) : Prop where
  one : ∀ i ∈ as, ∀ j ∈ as, ∀ c d pc pd, s.ths[i]? = some (c, pc) → s.ths[j]? = some (d, pd) → Effective s.items c → Effective s.items d → i = j
  far : ∀ i ∈ as, ∀ j ∈ as, ∀ y z pc pd, s.ths[i]? = some (.delete y, pc) → s.ths[j]? = some (.add z, pd) → ¬ Between s.items y z

/-- The callers `as` have not begun, and their calls are for different items. -/
structure Ready (s : Sys) (as : List Nat) : Prop where
  idle : ∀ i ∈ as, ∃ c, s.ths[i]? = some (c, .idle)
  distinct : ∀ i ∈ as, ∀ j ∈ as, ∀ c d pc pd, s.ths[i]? = some (c, pc) → s.ths[j]? = some (d, pd) → c.item = d.item → i = j

/-- A registry in order, with nobody inside a call. -/
structure Sound (s : Sys) : Prop where
  alive : s.panicked = false
  ok : s.mem.Ok s.reg
  once : s.items.Nodup
  rest : AtRest s

/-! ## What the only effective call does -/

section Keep

variable (k : Conf) (s0 : Sys) (as : List Nat)

/-- Memory and slice after the call alone. -/
def result : Call → Mem Nat × Slice
  | .add x => s0.mem.append 0 (k.spare s0.reg.len) s0.reg x
  | .delete x => s0.mem.deleteAt s0.reg (s0.items.idxOf x)

inductive Phase
  | before
  | mid (i : Nat) (c : Call)
  | after (i : Nat) (c : Call)

def Phase.mem : Phase → Mem Nat
  | .before => s0.mem
  | .mid _ c => (result k s0 c).1
  | .after _ c => (result k s0 c).1

def Phase.reg : Phase → Slice
  | .before => s0.reg
  | .mid _ _ => s0.reg
  | .after _ c => (result k s0 c).2

/-- A caller at the `j`-th element of `h` will find what it looks for, if the call has nothing to do because the item is there, and will not
find it, if it has nothing to do because it is not there. -/
def Sees (m : Mem Nat) (c : Call) (h : Slice) (j : Nat) : Prop :=
  match c with
  | .add x => ∃ q, j ≤ q ∧ (m.read h)[q]? = some x
  | .delete x => x ∉ m.read h

inductive Idler (ph : Phase) (c : Call) : Pc → Prop
  | idle : Idler ph c .idle
  | scan (h j) (hh : h = s0.reg ∨ ∃ i d, ph = .after i d ∧ h = (result k s0 d).2) (hs : Sees (ph.mem k s0) c h j) : Idler ph c (.scan h j)
  | done : Idler ph c .done

/-- Whether a deletion is published late. -/
def Late : Call → Prop
  | .add _ => False
  | .delete _ => k.early = false

def Place (c : Call) (j : Nat) : Prop := ∀ x, c = .delete x → j = s0.items.idxOf x

inductive Worker : Phase → Nat → Call → Pc → Nat → Prop
  | idle (i c) : Worker .before i c .idle 0
  | scan (i c j) (hj : ∀ x, c = .delete x → j ≤ s0.items.idxOf x) : Worker .before i c (.scan s0.reg j) 0
  | publish (i c j) (hp : Place s0 c j) (hl : ¬ Late k c) : Worker .before i c (.publish j) 0
  | load (i c j n) (hp : Place s0 c j) (hn : (Late k c ∧ n = 0) ∨ (¬ Late k c ∧ n = 1)) : Worker .before i c (.load j) n
  | write (i c j n) (hp : Place s0 c j) (hn : (Late k c ∧ n = 0) ∨ (¬ Late k c ∧ n = 1)) : Worker .before i c (.write j s0.reg) n
  | store (i c n) (hn : (Late k c ∧ n = 0) ∨ (¬ Late k c ∧ n = 1)) : Worker (.mid i c) i c (.store (result k s0 c).2) n
  | tell (i c) (hl : Late k c) : Worker (.after i c) i c .tell 0
  | done (i c) : Worker (.after i c) i c .done 1

def Part (ph : Phase) (i : Nat) (c : Call) (pc : Pc) (n : Nat) : Prop :=
  (Effective s0.items c ∧ Worker k s0 ph i c pc n) ∨ (¬ Effective s0.items c ∧ n = 0 ∧ Idler k s0 ph c pc)

structure Inv (ph : Phase) (s : Sys) : Prop where
  alive : s.panicked = false
  mem : s.mem = ph.mem k s0
  reg : s.reg = ph.reg k s0
  frame : ∀ i, i ∉ as → s.ths[i]? = s0.ths[i]? ∧ s.out.count i = s0.out.count i
  own : ∀ i ∈ as, ∀ c, s0.ths[i]? = some (c, .idle) → ∃ pc n, s.ths[i]? = some (c, pc) ∧ s.out.count i = s0.out.count i + n ∧
    Part k s0 ph i c pc n
  who : ∀ i c, ph = .mid i c ∨ ph = .after i c → i ∈ as ∧ s0.ths[i]? = some (c, .idle) ∧ Effective s0.items c

variable {k s0 as}

theorem result_ok (ok : s0.mem.Ok s0.reg) {c : Call} (he : Effective s0.items c) : (result k s0 c).1.Ok (result k s0 c).2 := by
  cases c with
  | add x => exact Mem.ok_append ok
  | delete x => exact Mem.ok_deleteAt ok (by have := List.idxOf_lt_length_of_mem he; rwa [Sys.items, Mem.read_length ok] at this)

theorem result_items_add (ok : s0.mem.Ok s0.reg) (x : Nat) : (result k s0 (.add x)).1.read (result k s0 (.add x)).2 = s0.items ++ [x] :=
  Mem.read_append ok

theorem idx_lt (ok : s0.mem.Ok s0.reg) {x : Nat} (he : x ∈ s0.items) : s0.items.idxOf x < s0.reg.len := by
  have := List.idxOf_lt_length_of_mem he
  rwa [Sys.items, Mem.read_length ok] at this

theorem result_items_delete (ok : s0.mem.Ok s0.reg) {x : Nat} (he : x ∈ s0.items) :
    (result k s0 (.delete x)).1.read (result k s0 (.delete x)).2 = s0.items.eraseIdx (s0.items.idxOf x) :=
  Mem.read_deleteAt ok (idx_lt ok he)

theorem result_old_add (ok : s0.mem.Ok s0.reg) (x : Nat) : (result k s0 (.add x)).1.read s0.reg = s0.items :=
  Mem.append_other ok.old (fun _ => Nat.le_refl _)

theorem result_old_delete (ok : s0.mem.Ok s0.reg) {x : Nat} (he : x ∈ s0.items) :
    (result k s0 (.delete x)).1.read s0.reg = s0.items.eraseIdx (s0.items.idxOf x) ++ s0.items.drop (s0.reg.len - 1) :=
  Mem.deleteAt_same ok (idx_lt ok he)

theorem mem_eraseIdx_idxOf {l : List Nat} (hn : l.Nodup) {x y : Nat} : y ∈ l.eraseIdx (l.idxOf x) ↔ y ∈ l ∧ y ≠ x := by
  rw [← List.erase_eq_eraseIdx_of_idxOf rfl, hn.mem_erase_iff]; exact And.comm

/-- The writing of the effective call does not lead the others astray. -/
theorem sees_keep (ok : s0.mem.Ok s0.reg) (hn : s0.items.Nodup) {c d : Call} (hc : Effective s0.items c) (hd : ¬ Effective s0.items d)
    (hne : c.item ≠ d.item) (hb : ∀ y z, c = .delete y → d = .add z → ¬ Between s0.items y z) {j : Nat} (hs : Sees s0.mem d s0.reg j) :
    Sees (result k s0 c).1 d s0.reg j := by
  cases c with
  | add x =>
    have e : (result k s0 (.add x)).1.read s0.reg = s0.mem.read s0.reg := result_old_add ok x
    cases d <;> simp only [Sees] at hs ⊢ <;> rw [e] <;> exact hs
  | delete y =>
    have hy : y ∈ s0.items := hc
    have e := result_old_delete (k := k) ok hy
    have hl : s0.items.length = s0.reg.len := Mem.read_length ok
    cases d with
    | delete z =>
      simp only [Sees] at hs ⊢
      rw [e]
      intro hz
      rcases List.mem_append.1 hz with hz | hz
      · exact hs (List.mem_of_mem_eraseIdx hz)
      · exact hs (List.mem_of_mem_drop hz)
    | add z =>
      simp only [Sees] at hs ⊢
      obtain ⟨q, hq, hz⟩ := hs
      change s0.items[q]? = some z at hz
      refine ⟨q, hq, ?_⟩
      rw [e]
      have hlt : s0.items.idxOf y < s0.items.length := List.idxOf_lt_length_of_mem hy
      have hqlt : q < s0.items.length := (List.getElem?_eq_some_iff.1 hz).1
      have hlen : (s0.items.eraseIdx (s0.items.idxOf y)).length = s0.items.length - 1 := by rw [List.length_eraseIdx, if_pos hlt]
      by_cases h1 : q < s0.items.idxOf y
      · rw [List.getElem?_append_left (by omega), List.getElem?_eraseIdx, if_pos h1]; exact hz
      · by_cases h2 : q = s0.items.length - 1
        · rw [List.getElem?_append_right (by omega), List.getElem?_drop, hlen, ← hl, h2, show s0.items.length - 1 + (s0.items.length - 1 - (s0.items.length - 1)) = s0.items.length - 1 by omega, ← h2]
          exact hz
        · exfalso
          have h3 : q ≠ s0.items.idxOf y := by
            intro h3
            have := List.getElem_idxOf hlt
            have hz' := (List.getElem?_eq_some_iff.1 hz).2
            apply hne
            simp only [Call.item]
            rw [← this, ← hz']; simp only [h3]
          refine hb y z rfl rfl ⟨s0.items.take (s0.items.idxOf y), (s0.items.take q).drop (s0.items.idxOf y + 1), s0.items.drop (q + 1), ?_, ?_⟩
          · have e1 : s0.items.take q = s0.items.take (s0.items.idxOf y) ++ y :: (s0.items.take q).drop (s0.items.idxOf y + 1) := by
              have hlt' : s0.items.idxOf y < (s0.items.take q).length := by rw [List.length_take]; omega
              have hy' : (s0.items.take q)[s0.items.idxOf y] = y := by rw [List.getElem_take]; exact List.getElem_idxOf hlt
              conv => lhs; rw [← List.take_append_drop (s0.items.idxOf y) (s0.items.take q), List.drop_eq_getElem_cons hlt', hy', List.take_take, Nat.min_eq_left (by omega)]
            have e2 : s0.items.drop q = z :: s0.items.drop (q + 1) := by
              rw [List.drop_eq_getElem_cons hqlt, (List.getElem?_eq_some_iff.1 hz).2]
            rw [← e1, ← e2, List.take_append_drop]
          · intro h; rw [List.drop_eq_nil_iff] at h; omega

theorem Inv.move {ph ph' : Phase} {s s' : Sys} (h : Inv k s0 as ph s) {i : Nat} (hia : i ∈ as) {c : Call} (hc : s0.ths[i]? = some (c, .idle))
    {pc : Pc} {n : Nat} (halive : s'.panicked = false) (hmem : s'.mem = ph'.mem k s0) (hreg : s'.reg = ph'.reg k s0)
    (hths : s'.ths = s.ths.set i (c, pc)) (hout : ∀ j, j ≠ i → s'.out.count j = s.out.count j) (hcount : s'.out.count i = s0.out.count i + n)
    (hp : Part k s0 ph' i c pc n)
    (hoth : ∀ j ∈ as, j ≠ i → ∀ d pd m, s0.ths[j]? = some (d, .idle) → Part k s0 ph j d pd m → Part k s0 ph' j d pd m)
    (hwho : ∀ j d, ph' = .mid j d ∨ ph' = .after j d → j ∈ as ∧ s0.ths[j]? = some (d, .idle) ∧ Effective s0.items d) : Inv k s0 as ph' s' := by
  refine ⟨halive, hmem, hreg, ?_, ?_, hwho⟩
  · intro j hj
    have hji : j ≠ i := fun e => hj (e ▸ hia)
    rw [hths, List.getElem?_set_ne (Ne.symm hji), hout j hji]
    exact h.frame j hj
  · intro j hj d hd
    by_cases hji : j = i
    · subst hji
      rw [hc] at hd
      injection hd with hd; injection hd with hd _; subst hd
      obtain ⟨pc0, n0, h0, _⟩ := h.own j hj c hc
      refine ⟨pc, n, ?_, hcount, hp⟩
      rw [hths, List.getElem?_set_self (List.getElem?_eq_some_iff.1 h0).1]
    · obtain ⟨pd, m, h1, h2, h3⟩ := h.own j hj d hd
      exact ⟨pd, m, by rw [hths, List.getElem?_set_ne (Ne.symm hji)]; exact h1, by rw [hout j hji]; exact h2, hoth j hj hji d pd m hd h3⟩

theorem count_snoc_ne {l : List Nat} {i j : Nat} (h : j ≠ i) : (l ++ [i]).count j = l.count j := by
  rw [List.count_append, List.count_singleton]; simp [Ne.symm h]

theorem count_snoc_self {l : List Nat} {i : Nat} : (l ++ [i]).count i = l.count i + 1 := by
  rw [List.count_append, List.count_singleton]; simp

theorem getElem?_idxOf_mem {l : List Nat} {x : Nat} (h : x ∈ l) : l[l.idxOf x]? = some x := by
  rw [List.getElem?_eq_getElem (List.idxOf_lt_length_of_mem h), List.getElem_idxOf]

/-- Before the first element, a call that has nothing to do sees that. -/
theorem sees_start (hs : Sound s0) (hr : Ready s0 as) (ha : Apart s0 as) {ph : Phase} {s : Sys} (h : Inv k s0 as ph s) {i : Nat} (hia : i ∈ as)
    {c : Call} (hc : s0.ths[i]? = some (c, .idle)) (hne : ¬ Effective s0.items c) : Sees (ph.mem k s0) c (ph.reg k s0) 0 := by
  have base : Sees s0.mem c s0.reg 0 := by
    cases c with
    | add x =>
      have : x ∈ s0.items := Classical.not_not.1 hne
      exact ⟨s0.items.idxOf x, Nat.zero_le _, getElem?_idxOf_mem this⟩
    | delete x => exact hne
  cases ph with
  | before => exact base
  | mid j d =>
    obtain ⟨hj, hd, he⟩ := h.who j d (.inl rfl)
    refine sees_keep hs.ok hs.once he hne ?_ ?_ base
    · intro e; have := hr.distinct j hj i hia d c _ _ hd hc e; subst this; rw [hc] at hd; injection hd with hd; injection hd with hd _; subst hd; exact hne he
    · rintro y z rfl rfl; exact ha.far j hj i hia y z _ _ hd hc
  | after j d =>
    obtain ⟨hj, hd, he⟩ := h.who j d (.inr rfl)
    have hdiff : d.item ≠ c.item := by
      intro e; have := hr.distinct j hj i hia d c _ _ hd hc e; subst this; rw [hc] at hd; injection hd with hd; injection hd with hd _; subst hd; exact hne he
    show Sees (result k s0 d).1 c (result k s0 d).2 0
    have hread : ∀ x, x ≠ d.item → (x ∈ (result k s0 d).1.read (result k s0 d).2 ↔ x ∈ s0.items) := by
      intro x hx
      cases d with
      | add y => rw [result_items_add hs.ok]; simp only [Call.item] at hx; simp [hx]
      | delete y => rw [result_items_delete hs.ok he, mem_eraseIdx_idxOf hs.once]; simp only [Call.item] at hx; simp [hx]
    cases c with
    | add x =>
      have hx : x ∈ s0.items := Classical.not_not.1 hne
      exact ⟨_, Nat.zero_le _, getElem?_idxOf_mem ((hread x (Ne.symm hdiff)).2 hx)⟩
    | delete x => exact fun hx => hne ((hread x (Ne.symm hdiff)).1 hx)

theorem step_act {s s' : Sys} {i : Nat} (h : step k s i = some s') {c : Call} {pc : Pc} (hp : s.ths[i]? = some (c, pc)) :
    s.panicked = false ∧ act k s i c pc = some s' := by
  simp only [step] at h
  split at h
  · simp at h
  · rename_i hf; rw [hp] at h; exact ⟨by simpa using hf, h⟩

theorem not_late_add (x : Nat) : ¬ Late k (.add x) := id

theorem inv_step (hs : Sound s0) (hr : Ready s0 as) (ha : Apart s0 as) {ph : Phase} {s s' : Sys} (h : Inv k s0 as ph s) {i : Nat} (hia : i ∈ as)
    (hst : step k s i = some s') : ∃ ph', Inv k s0 as ph' s' := by
  obtain ⟨c, hc⟩ := hr.idle i hia
  obtain ⟨pc, n, hpc, hn, hpart⟩ := h.own i hia c hc
  obtain ⟨_, hact⟩ := step_act hst hpc
  have same : ∀ j ∈ as, j ≠ i → ∀ d pd m, s0.ths[j]? = some (d, .idle) → Part k s0 ph j d pd m → Part k s0 ph j d pd m := fun _ _ _ _ _ _ _ h => h
  rcases hpart with ⟨he, hw⟩ | ⟨hne, hn0, hw⟩
  · -- the effective call
    have others : ∀ j ∈ as, j ≠ i → ∀ d, s0.ths[j]? = some (d, .idle) → ¬ Effective s0.items d ∧ c.item ≠ d.item ∧ ∀ y z, c = .delete y → d = .add z → ¬ Between s0.items y z := by
      intro j hj hji d hd
      refine ⟨fun hed => hji (ha.one j hj i hia d c _ _ hd hc hed he), fun e => hji (hr.distinct i hia j hj c d _ _ hc hd e).symm, ?_⟩
      rintro y z rfl rfl
      exact ha.far i hia j hj y z _ _ hc hd
    cases hw with
    | idle =>
      simp only [act] at hact
      injection hact with hact; subst hact
      refine ⟨.before, h.move (pc := .scan s.reg 0) hia hc h.alive h.mem h.reg rfl (fun _ _ => rfl) hn (.inl ⟨he, ?_⟩) same h.who⟩
      have : s.reg = s0.reg := h.reg
      rw [this]; exact .scan i c 0 (fun _ _ => Nat.zero_le _)
    | scan _ _ j hj =>
      have hm : s.mem.read s0.reg = s0.items := by rw [h.mem]; rfl
      simp only [act, hm] at hact
      cases hx : s0.items[j]? with
      | none =>
        rw [hx] at hact
        injection hact with hact; subst hact
        refine ⟨.before, h.move (pc := missed c) (n := 0) hia hc h.alive h.mem h.reg rfl (fun _ _ => rfl) hn (.inl ⟨he, ?_⟩) same h.who⟩
        cases c with
        | add x => exact .publish i _ 0 (fun _ e => by cases e) (not_late_add x)
        | delete x =>
          exfalso
          have := hj x rfl
          have h2 := List.idxOf_lt_length_of_mem (show x ∈ s0.items from he)
          rw [List.getElem?_eq_none_iff] at hx; omega
      | some v =>
        rw [hx] at hact
        simp only at hact
        split at hact
        · rename_i hv
          injection hact with hact; subst hact
          refine ⟨.before, h.move (pc := found k j c) (n := 0) hia hc h.alive h.mem h.reg rfl (fun _ _ => rfl) hn (.inl ⟨he, ?_⟩) same h.who⟩
          cases c with
          | add x => exact absurd (by rw [hv] at hx; exact List.mem_of_getElem? hx) he
          | delete x =>
            simp only [Call.item] at hv
            subst hv
            have hpl : Place s0 (.delete v) j := by
              intro x hxe
              injection hxe with hxe; subst hxe
              have h1 := hj v rfl
              obtain ⟨hlt, hxv⟩ := List.getElem?_eq_some_iff.1 hx
              have := hs.once.idxOf_getElem j hlt
              rw [hxv] at this; exact this.symm
            simp only [found]
            split
            · rename_i hearly; exact .publish i _ j hpl (by simp [Late, hearly])
            · rename_i hearly; exact .load i _ j 0 hpl (.inl ⟨by simpa [Late] using hearly, rfl⟩)
        · rename_i hv
          injection hact with hact; subst hact
          refine ⟨.before, h.move (pc := .scan s0.reg (j + 1)) (n := 0) hia hc h.alive h.mem h.reg rfl (fun _ _ => rfl) hn (.inl ⟨he, .scan i c _ ?_⟩) same h.who⟩
          rintro x rfl
          have h1 := hj x rfl
          have : j ≠ s0.items.idxOf x := by
            rintro rfl
            rw [getElem?_idxOf_mem he] at hx
            injection hx with hx; exact hv hx.symm
          omega
    | publish _ _ j hp hl =>
      simp only [act] at hact
      injection hact with hact; subst hact
      exact ⟨.before, h.move (pc := .load j) (n := 1) hia hc h.alive h.mem h.reg rfl (fun _ hj => count_snoc_ne hj)
        (by show (s.out ++ [i]).count i = _; rw [count_snoc_self, hn]) (.inl ⟨he, .load i c j 1 hp (.inr ⟨hl, rfl⟩)⟩) same h.who⟩
    | load _ _ j _ hp hl =>
      simp only [act] at hact
      injection hact with hact; subst hact
      refine ⟨.before, h.move (pc := .write j s.reg) (n := n) hia hc h.alive h.mem h.reg rfl (fun _ _ => rfl) hn (.inl ⟨he, ?_⟩) same h.who⟩
      have : s.reg = s0.reg := h.reg
      rw [this]; exact .write i c j n hp hl
    | write _ _ j _ hp hl =>
      have hm : s.mem = s0.mem := h.mem
      have hres : s'.panicked = false ∧ s'.mem = (result k s0 c).1 ∧ s'.reg = s.reg ∧ s'.ths = s.ths.set i (c, .store (result k s0 c).2) ∧ s'.out = s.out := by
        cases c with
        | add x =>
          simp only [act, hm] at hact
          injection hact with hact; subst hact
          exact ⟨h.alive, rfl, rfl, rfl, rfl⟩
        | delete x =>
          have := hp x rfl
          subst this
          simp only [act, hm, if_pos (idx_lt hs.ok he)] at hact
          injection hact with hact; subst hact
          exact ⟨h.alive, rfl, rfl, rfl, rfl⟩
      obtain ⟨h1, h2, h3, h4, h5⟩ := hres
      refine ⟨.mid i c, h.move (pc := .store (result k s0 c).2) (n := n) hia hc h1 h2 (h3.trans h.reg) h4 (fun _ _ => by rw [h5]) (by rw [h5]; exact hn)
        (.inl ⟨he, .store i c n hl⟩) ?_ ?_⟩
      · intro j hj hji d pd m hd hpart
        obtain ⟨o1, o2, o3⟩ := others j hj hji d hd
        rcases hpart with ⟨hed, _⟩ | ⟨_, hm0, hid⟩
        · exact absurd hed o1
        · refine .inr ⟨o1, hm0, ?_⟩
          cases hid with
          | idle => exact .idle
          | done => exact .done
          | scan hh jj hhh hsees =>
            rcases hhh with rfl | ⟨_, _, e, _⟩
            · exact .scan _ _ (.inl rfl) (sees_keep hs.ok hs.once he o1 o2 o3 hsees)
            · cases e
      · rintro j d (e | e) <;> cases e
        exact ⟨hia, hc, he⟩
    | store _ _ _ hl =>
      simp only [act] at hact
      injection hact with hact; subst hact
      refine ⟨.after i c, h.move (ph' := .after i c) (pc := stored k c) (n := n) hia hc h.alive h.mem rfl rfl (fun _ _ => rfl) hn (.inl ⟨he, ?_⟩) ?_ ?_⟩
      · rcases hl with ⟨hl, rfl⟩ | ⟨hl, rfl⟩
        · cases c with
          | add x => exact absurd hl (not_late_add x)
          | delete x =>
            have : k.early = false := hl
            simp only [stored, this]; exact .tell i _ hl
        · have : stored k c = .done := by
            cases c with
            | add x => rfl
            | delete x => simp only [stored]; rw [if_pos (by simpa [Late] using hl)]
          rw [this]; exact .done i c
      · intro j hj hji d pd m hd hpart
        obtain ⟨o1, _, _⟩ := others j hj hji d hd
        rcases hpart with ⟨hed, _⟩ | ⟨_, hm0, hid⟩
        · exact absurd hed o1
        · refine .inr ⟨o1, hm0, ?_⟩
          cases hid with
          | idle => exact .idle
          | done => exact .done
          | scan hh jj hhh hsees =>
            rcases hhh with rfl | ⟨_, _, e, _⟩
            · exact .scan _ _ (.inl rfl) hsees
            · cases e
      · rintro j d (e | e) <;> cases e
        exact ⟨hia, hc, he⟩
    | tell _ _ hl =>
      simp only [act] at hact
      injection hact with hact; subst hact
      exact ⟨.after i c, h.move (pc := .done) (n := 1) hia hc h.alive h.mem h.reg rfl (fun _ hj => count_snoc_ne hj)
        (by show (s.out ++ [i]).count i = _; rw [count_snoc_self, hn]) (.inl ⟨he, .done i c⟩) same h.who⟩
    | done => simp [act] at hact
  · -- a call that has nothing to do
    subst hn0
    cases hw with
    | idle =>
      simp only [act] at hact
      injection hact with hact; subst hact
      refine ⟨ph, h.move (pc := .scan s.reg 0) hia hc h.alive h.mem h.reg rfl (fun _ _ => rfl) hn (.inr ⟨hne, rfl, ?_⟩) same h.who⟩
      rw [h.reg]
      refine .scan _ _ ?_ (sees_start hs hr ha h hia hc hne)
      cases ph with
      | before => exact .inl rfl
      | mid j d => exact .inl rfl
      | after j d => exact .inr ⟨j, d, rfl, rfl⟩
    | done => simp [act] at hact
    | scan hh j hhh hsees =>
      simp only [act] at hact
      rw [h.mem] at hact
      cases hx : ((ph.mem k s0).read hh)[j]? with
      | none =>
        rw [hx] at hact
        injection hact with hact; subst hact
        refine ⟨ph, h.move (pc := missed c) (n := 0) hia hc h.alive h.mem h.reg rfl (fun _ _ => rfl) hn (.inr ⟨hne, rfl, ?_⟩) same h.who⟩
        cases c with
        | add x =>
          exfalso
          obtain ⟨q, hq, hqx⟩ := hsees
          have := (List.getElem?_eq_some_iff.1 hqx).1
          rw [List.getElem?_eq_none_iff] at hx; omega
        | delete x => exact .done
      | some v =>
        rw [hx] at hact
        simp only at hact
        split at hact
        · rename_i hv
          injection hact with hact; subst hact
          refine ⟨ph, h.move (pc := found k j c) (n := 0) hia hc h.alive h.mem h.reg rfl (fun _ _ => rfl) hn (.inr ⟨hne, rfl, ?_⟩) same h.who⟩
          cases c with
          | add x => exact .done
          | delete x => exact absurd (by rw [hv] at hx; exact List.mem_of_getElem? hx) hsees
        · rename_i hv
          injection hact with hact; subst hact
          refine ⟨ph, h.move (pc := .scan hh (j + 1)) (n := 0) hia hc h.alive h.mem h.reg rfl (fun _ _ => rfl) hn (.inr ⟨hne, rfl, .scan _ _ hhh ?_⟩) same h.who⟩
          cases c with
          | add x =>
            obtain ⟨q, hq, hqx⟩ := hsees
            refine ⟨q, ?_, hqx⟩
            have : j ≠ q := by
              rintro rfl
              rw [hx] at hqx
              injection hqx with hqx; exact hv hqx
            omega
          | delete x => exact hsees

theorem inv_init (hs : Sound s0) : Inv k s0 as .before s0 := by
  refine ⟨hs.alive, rfl, rfl, fun _ _ => ⟨rfl, rfl⟩, ?_, ?_⟩
  · intro i _ c hc
    refine ⟨.idle, 0, hc, rfl, ?_⟩
    by_cases he : Effective s0.items c
    · exact .inl ⟨he, .idle i c⟩
    · exact .inr ⟨he, rfl, .idle⟩
  · rintro _ _ (e | e) <;> cases e

theorem inv_exec (hs : Sound s0) (hr : Ready s0 as) (ha : Apart s0 as) (ls : List Nat) : (∀ i ∈ ls, i ∈ as) → ∀ s, exec k s0 ls = some s → ∃ ph, Inv k s0 as ph s := by
  induction ls using Trace.snoc_induction with
  | h0 => intro _ s h; injection h with h; subst h; exact ⟨.before, inv_init hs⟩
  | h1 ls l ih =>
    intro hl s h
    obtain ⟨m, hm, hst⟩ := Trace.exec_snoc h
    obtain ⟨ph, hi⟩ := ih (fun i hi => hl i (List.mem_append_left _ hi)) m hm
    exact inv_step hs hr ha hi (hl l (by simp)) hst

theorem filter_eraseIdx_of {l : List Nat} {p : Nat → Bool} {j : Nat} (h : ∀ x, l[j]? = some x → p x = false) : (l.eraseIdx j).filter p = l.filter p := by
  induction l generalizing j with
  | nil => rfl
  | cons a l ih =>
    cases j with
    | zero => have := h a rfl; simp [this]
    | succ j => simp only [List.eraseIdx_cons_succ, List.filter_cons]; rw [ih (fun x hx => h x (by simpa using hx))]

theorem Inv.right (hs : Sound s0) (hr : Ready s0 as) {ph : Phase} {s : Sys} (h : Inv k s0 as ph s) (hrest : AtRest s) : Right s0 s := by
  -- who made a call is one of `as`
  have hmade : ∀ i c, Made s0 s i c → i ∈ as := by
    intro i c ⟨h1, h2⟩
    apply Classical.byContradiction
    intro hi
    rw [(h.frame i hi).1, h1] at h2
    injection h2 with h2; injection h2 with _ h2; cases h2
  have hpart : ∀ i c, Made s0 s i c → ∃ n, s.out.count i = s0.out.count i + n ∧
      ((Effective s0.items c ∧ n = 1 ∧ ph = .after i c) ∨ (¬ Effective s0.items c ∧ n = 0)) := by
    intro i c hm
    obtain ⟨pc, n, h1, h2, h3⟩ := h.own i (hmade i c hm) c hm.1
    rw [hm.2] at h1
    injection h1 with h1; injection h1 with _ h1; subst h1
    refine ⟨n, h2, ?_⟩
    rcases h3 with ⟨he, hw⟩ | ⟨he, hn, _⟩
    · cases hw; exact .inl ⟨he, rfl, rfl⟩
    · exact .inr ⟨he, hn⟩
  have htold : (∀ i c, Made s0 s i c → Effective s0.items c → s.out.count i = s0.out.count i + 1) ∧
      (∀ i c, Made s0 s i c → ¬ Effective s0.items c → s.out.count i = s0.out.count i) := by
    refine ⟨fun i c hm he => ?_, fun i c hm he => ?_⟩
    · obtain ⟨n, h1, ⟨_, rfl, _⟩ | ⟨h2, _⟩⟩ := hpart i c hm
      · exact h1
      · exact absurd he h2
    · obtain ⟨n, h1, ⟨h2, _⟩ | ⟨_, rfl⟩⟩ := hpart i c hm
      · exact absurd h2 he
      · exact h1
  cases ph with
  | before =>
    have hit : s.items = s0.items := by simp only [Sys.items, h.mem, h.reg, Phase.mem, Phase.reg]
    have hineff : ∀ i c, Made s0 s i c → ¬ Effective s0.items c := by
      intro i c hm
      obtain ⟨n, _, ⟨_, _, e⟩ | ⟨h2, _⟩⟩ := hpart i c hm
      · cases e
      · exact h2
    refine ⟨hit ▸ hs.once, ?_, ?_, fun p _ => by rw [hit], htold.1, htold.2⟩
    · intro i x hm; rw [hit]; exact Classical.not_not.1 (hineff i _ hm)
    · intro i x hm; rw [hit]; exact hineff i _ hm
  | mid i c =>
    exfalso
    obtain ⟨hia, hc, he⟩ := h.who i c (.inl rfl)
    obtain ⟨pc, n, h1, _, h3⟩ := h.own i hia c hc
    rcases h3 with ⟨_, hw⟩ | ⟨hne, _⟩
    · cases hw
      rcases hrest i c _ h1 with e | e <;> cases e
    · exact hne he
  | after i c =>
    obtain ⟨hia, hc, he⟩ := h.who i c (.inr rfl)
    have hdone : s.ths[i]? = some (c, .done) := by
      obtain ⟨pc, n, h1, _, h3⟩ := h.own i hia c hc
      rcases h3 with ⟨_, hw⟩ | ⟨hne, _⟩
      · cases hw
        · rcases hrest i c _ h1 with e | e <;> cases e
        · exact h1
      · exact absurd he hne
    have hit : s.items = (result k s0 c).1.read (result k s0 c).2 := by simp only [Sys.items, h.mem, h.reg, Phase.mem, Phase.reg]
    have hspec : (∃ x, c = .add x ∧ x ∉ s0.items ∧ s.items = s0.items ++ [x]) ∨ (∃ x, c = .delete x ∧ x ∈ s0.items ∧ s.items = s0.items.eraseIdx (s0.items.idxOf x)) := by
      cases c with
      | add x => exact .inl ⟨x, rfl, he, by rw [hit, result_items_add hs.ok]⟩
      | delete x => exact .inr ⟨x, rfl, he, by rw [hit, result_items_delete hs.ok he]⟩
    have hother : ∀ j d, Made s0 s j d → j ≠ i → ¬ Effective s0.items d ∧ d.item ≠ c.item := by
      intro j d hm hji
      refine ⟨?_, fun e => hji (hr.distinct j (hmade j d hm) i hia d c _ _ hm.1 hc e)⟩
      obtain ⟨n, _, ⟨_, _, e⟩ | ⟨h2, _⟩⟩ := hpart j d hm
      · injection e with e; exact absurd e.symm hji
      · exact h2
    have hmine : ∀ d, Made s0 s i d → d = c := by
      intro d hm
      have := hm.1
      rw [hc] at this
      injection this with this; injection this with this _; exact this.symm
    rcases hspec with ⟨x, rfl, hx, hi⟩ | ⟨x, rfl, hx, hi⟩
    · refine ⟨?_, ?_, ?_, ?_, htold.1, htold.2⟩
      · rw [hi, List.nodup_append]
        exact ⟨hs.once, by simp, by simp; intro a ha e; exact hx (e ▸ ha)⟩
      · intro j y hm
        rw [hi]
        by_cases hji : j = i
        · subst hji; cases hmine _ hm; simp
        · exact List.mem_append_left _ (Classical.not_not.1 (hother j _ hm hji).1)
      · intro j y hm
        rw [hi]
        by_cases hji : j = i
        · subst hji; cases hmine _ hm
        · have ⟨o1, o2⟩ := hother j _ hm hji
          intro hy
          rcases List.mem_append.1 hy with hy | hy
          · exact o1 hy
          · simp only [List.mem_singleton] at hy; exact o2 hy
      · intro p hp
        rw [hi, List.filter_append, List.filter_cons_of_neg (by have := hp i _ ⟨hc, hdone⟩; simp only [Call.item] at this; simp [this])]
        simp
    · refine ⟨?_, ?_, ?_, ?_, htold.1, htold.2⟩
      · rw [hi]; exact hs.once.sublist (List.eraseIdx_sublist _ _)
      · intro j y hm
        rw [hi, mem_eraseIdx_idxOf hs.once]
        by_cases hji : j = i
        · subst hji; cases hmine _ hm
        · have ⟨o1, o2⟩ := hother j _ hm hji
          exact ⟨Classical.not_not.1 o1, o2⟩
      · intro j y hm
        rw [hi, mem_eraseIdx_idxOf hs.once]
        by_cases hji : j = i
        · subst hji; cases hmine _ hm; simp
        · have ⟨o1, o2⟩ := hother j _ hm hji
          exact fun h => o1 h.1
      · intro p hp
        rw [hi]
        refine filter_eraseIdx_of fun y hy => ?_
        rw [getElem?_idxOf_mem hx] at hy
        injection hy with hy; subst hy
        exact hp i _ ⟨hc, hdone⟩

end Keep

/-- C93, part: if at most one of the calls has something to do, and, should that be a deletion, nobody adds what is registered behind it and not
last, then no schedule panics, and whenever nobody is inside a call the registry is right.  What is missing: all other calls (`c93_iff`). -/
theorem c93_partial (k : Conf) (s : Sys) (hs : Sound s) (as : List Nat) (hr : Ready s as) (ha : Apart s as) (ls : List Nat) (hl : ∀ i ∈ ls, i ∈ as)
    (s' : Sys) (h : exec k s ls = some s') : s'.panicked = false ∧ (AtRest s' → Right s s') := by
  obtain ⟨ph, hi⟩ := inv_exec hs hr ha ls hl s' h
  exact ⟨hi.alive, hi.right hs hr⟩

/-! ## Two calls that have something to do -/

theorem at_ths (s : Sys) {i : Nat} {c d : Call} {p q : Pc} (h : s.ths[i]? = some (d, p)) : (s.at i c q).ths[i]? = some (c, q) :=
  List.getElem?_set_self (List.getElem?_eq_some_iff.1 h).1

theorem at_at (s : Sys) (i : Nat) (c : Call) (p q : Pc) : (s.at i c p).at i c q = s.at i c q := by
  simp only [Sys.at, List.set_set]

theorem step_of {k : Conf} {s s' : Sys} {i : Nat} {c : Call} {pc : Pc} (h : s.ths[i]? = some (c, pc)) (hp : s.panicked = false) (ha : act k s i c pc = some s') :
    step k s i = some s' := by
  simp only [step, hp, h]; simpa using ha

theorem exec_one {k : Conf} {s s' s'' : Sys} {i : Nat} {ls : List Nat} (h : step k s i = some s') (h' : exec k s' ls = some s'') : exec k s (i :: ls) = some s'' := by
  show (step k s i).bind _ = _
  rw [h]; exact h'

theorem exec_then {k : Conf} {s s' s'' : Sys} {a b : List Nat} (h : exec k s a = some s') (h' : exec k s' b = some s'') : exec k s (a ++ b) = some s'' := by
  show Trace.exec (step k) s (a ++ b) = _
  rw [Trace.exec_append]
  show (exec k s a).bind _ = _
  rw [h]; exact h'

/-- Only the caller `i` moves. -/
def Only (i : Nat) (ls : List Nat) : Prop := ∀ l ∈ ls, l = i

theorem Only.nil {i : Nat} : Only i [] := by intro l h; simp at h
theorem Only.cons {i : Nat} {ls : List Nat} (h : Only i ls) : Only i (i :: ls) := by
  intro l hl
  rcases List.mem_cons.1 hl with e | hl
  · exact e
  · exact h l hl
theorem Only.append {i : Nat} {a b : List Nat} (h : Only i a) (h' : Only i b) : Only i (a ++ b) := by
  intro l hl
  rcases List.mem_append.1 hl with hl | hl
  · exact h l hl
  · exact h' l hl

theorem scan_to (k : Conf) (n : Nat) : ∀ (s : Sys) {i : Nat} {c : Call} {h : Slice} {j : Nat}, s.panicked = false → s.ths[i]? = some (c, .scan h j) →
    (∀ q, j ≤ q → q < j + n → ∃ v, (s.mem.read h)[q]? = some v ∧ v ≠ c.item) →
    ∃ ls, Only i ls ∧ exec k s ls = some (s.at i c (.scan h (j + n))) := by
  induction n with
  | zero =>
    intro s i c h j _ ht _
    refine ⟨[], .nil, ?_⟩
    have : s.at i c (.scan h (j + 0)) = s := by
      simp only [Sys.at, Nat.add_zero]
      rw [List.getElem?_eq_some_iff] at ht
      obtain ⟨hlt, he⟩ := ht
      rw [← he, List.set_getElem_self]
    rw [this]; rfl
  | succ n ih =>
    intro s i c h j hp ht hq
    obtain ⟨v, hv, hne⟩ := hq j (Nat.le_refl _) (by omega)
    have h1 : step k s i = some (s.at i c (.scan h (j + 1))) := by
      apply step_of ht hp
      simp only [act, hv, if_neg hne]
    obtain ⟨ls, ho, h2⟩ := ih (s.at i c (.scan h (j + 1))) (i := i) (c := c) (h := h) (j := j + 1) hp (at_ths s ht) (fun q h1 h2 => hq q (by omega) (by omega))
    refine ⟨i :: ls, ho.cons, exec_one h1 ?_⟩
    rw [h2, at_at, show j + 1 + n = j + (n + 1) by omega]

/-- Where a call that has something to do finds its item. -/
def place (s : Sys) : Call → Nat
  | .add _ => 0
  | .delete x => s.items.idxOf x

theorem publish_on (k : Conf) (s : Sys) {i : Nat} {c : Call} {j : Nat} (hp : s.panicked = false) (ht : s.ths[i]? = some (c, .publish j)) :
    ∃ ls o, Only i ls ∧ exec k s ls = some { s.at i c (.load j) with out := o } :=
  ⟨[i], s.out ++ [i], Only.nil.cons, exec_one (s' := { s.at i c (.load j) with out := s.out ++ [i] }) (step_of ht hp rfl) rfl⟩

theorem idxOf_before {l : List Nat} {x q : Nat} (h : q < l.idxOf x) : l[q]? ≠ some x := by
  induction l generalizing q with
  | nil => simp
  | cons a l ih =>
    rw [List.idxOf_cons] at h
    cases e : a == x with
    | true => simp [e] at h
    | false =>
      simp only [e, cond_false] at h
      cases q with
      | zero => simpa using e
      | succ q => rw [List.getElem?_cons_succ]; exact ih (by omega)

theorem reach_load (k : Conf) (s : Sys) {i : Nat} {c : Call} (hp : s.panicked = false) (ht : s.ths[i]? = some (c, .idle)) (he : Effective s.items c) :
    ∃ ls o, Only i ls ∧ exec k s ls = some { s.at i c (.load (place s c)) with out := o } := by
  have h0 : step k s i = some (s.at i c (.scan s.reg 0)) := step_of ht hp rfl
  have t0 := at_ths s (c := c) (q := .scan s.reg 0) ht
  cases c with
  | add x =>
    obtain ⟨l1, o1, e1⟩ := scan_to k s.items.length (s.at i (.add x) (.scan s.reg 0)) hp t0 (by
      intro q _ hq
      have hq' : q < s.items.length := by omega
      exact ⟨s.items[q], List.getElem?_eq_getElem hq', fun e => he (by have h := List.getElem_mem hq'; rw [e] at h; exact h)⟩)
    rw [at_at] at e1
    have t1 := at_ths s (c := .add x) (q := .scan s.reg (0 + s.items.length)) ht
    have e2 : step k (s.at i (.add x) (.scan s.reg (0 + s.items.length))) i = some (s.at i (.add x) (.publish 0)) := by
      apply step_of t1 hp
      have : ((s.at i (.add x) (.scan s.reg (0 + s.items.length))).mem.read s.reg)[0 + s.items.length]? = none := by
        show s.items[0 + s.items.length]? = none
        simp
      simp only [act, this, at_at, missed]
    obtain ⟨l3, o, o3, e3⟩ := publish_on k (s.at i (.add x) (.publish 0)) hp (at_ths s ht)
    refine ⟨i :: (l1 ++ i :: l3), o, (o1.append o3.cons).cons, exec_one h0 (exec_then e1 (exec_one e2 ?_))⟩
    rw [e3, at_at]; rfl
  | delete x =>
    have hx : x ∈ s.items := he
    have hlt := List.idxOf_lt_length_of_mem hx
    obtain ⟨l1, o1, e1⟩ := scan_to k (s.items.idxOf x) (s.at i (.delete x) (.scan s.reg 0)) hp t0 (by
      intro q _ hq
      have hq' : q < s.items.idxOf x := by omega
      have hq2 : q < s.items.length := by omega
      refine ⟨s.items[q], List.getElem?_eq_getElem hq2, fun e => ?_⟩
      exact idxOf_before hq' (by rw [List.getElem?_eq_getElem hq2, e]; rfl))
    rw [at_at, Nat.zero_add] at e1
    have t1 := at_ths s (c := .delete x) (q := .scan s.reg (s.items.idxOf x)) ht
    have e2 : step k (s.at i (.delete x) (.scan s.reg (s.items.idxOf x))) i = some (s.at i (.delete x) (found k (s.items.idxOf x) (.delete x))) := by
      apply step_of t1 hp
      have : ((s.at i (.delete x) (.scan s.reg (s.items.idxOf x))).mem.read s.reg)[s.items.idxOf x]? = some x := getElem?_idxOf_mem hx
      simp only [act, this, at_at, Call.item, if_pos]
    have t2 := at_ths s (c := .delete x) (q := found k (s.items.idxOf x) (.delete x)) ht
    by_cases hk : k.early = true
    · simp only [found, hk, if_pos] at e2 t2
      obtain ⟨l3, o, o3, e3⟩ := publish_on k (s.at i (.delete x) (.publish (s.items.idxOf x))) hp t2
      refine ⟨i :: (l1 ++ i :: l3), o, (o1.append o3.cons).cons, exec_one h0 (exec_then e1 (exec_one e2 ?_))⟩
      rw [e3, at_at]; rfl
    · simp only [found, if_neg hk] at e2 t2
      exact ⟨i :: (l1 ++ i :: []), s.out, (o1.append Only.nil.cons).cons, exec_one h0 (exec_then e1 (exec_one e2 rfl))⟩

theorem reach_write (k : Conf) (s : Sys) {i : Nat} {c : Call} (hp : s.panicked = false) (ht : s.ths[i]? = some (c, .idle)) (he : Effective s.items c) :
    ∃ ls o, Only i ls ∧ exec k s ls = some { s.at i c (.write (place s c) s.reg) with out := o } := by
  obtain ⟨ls, o, ho, e⟩ := reach_load k s hp ht he
  refine ⟨ls ++ [i], o, ho.append Only.nil.cons, exec_then e (exec_one (step_of (s := { s.at i c (.load (place s c)) with out := o }) (at_ths s ht) hp rfl) ?_)⟩
  show some _ = some _
  simp only [Sys.at, List.set_set]

/-- What `append` makes of memory and slice. -/
def write (k : Conf) (m : Mem Nat) (h : Slice) (j : Nat) : Call → Mem Nat × Slice
  | .add x => m.append 0 (k.spare h.len) h x
  | .delete _ => m.deleteAt h j

theorem finish (k : Conf) (s : Sys) {i : Nat} {c : Call} {j : Nat} {h : Slice} (hp : s.panicked = false) (ht : s.ths[i]? = some (c, .write j h))
    (hj : ∀ x, c = .delete x → j < h.len) :
    ∃ ls o, Only i ls ∧ exec k s ls = some { s.at i c .done with mem := (write k s.mem h j c).1, reg := (write k s.mem h j c).2, out := o } := by
  have h1 : step k s i = some { s.at i c (.store (write k s.mem h j c).2) with mem := (write k s.mem h j c).1 } := by
    apply step_of ht hp
    cases c with
    | add x => rfl
    | delete x => simp only [act, if_pos (hj x rfl), write]
  have t1 := at_ths s (c := c) (q := .store (write k s.mem h j c).2) ht
  have h2 : step k { s.at i c (.store (write k s.mem h j c).2) with mem := (write k s.mem h j c).1 } i =
      some { s.at i c (stored k c) with mem := (write k s.mem h j c).1, reg := (write k s.mem h j c).2 } := by
    refine step_of (s := { s.at i c (.store (write k s.mem h j c).2) with mem := (write k s.mem h j c).1 }) t1 hp ?_
    simp only [act, Sys.at, List.set_set]
  by_cases hd : stored k c = .done
  · rw [hd] at h2
    exact ⟨[i, i], s.out, Only.nil.cons.cons, exec_one h1 (exec_one h2 rfl)⟩
  · have hd : stored k c = .tell := by
      cases c with
      | add x => exact absurd rfl hd
      | delete x => simp only [stored] at hd ⊢; split at hd <;> simp_all
    rw [hd] at h2
    refine ⟨[i, i, i], s.out ++ [i], Only.nil.cons.cons.cons, exec_one h1 (exec_one h2 (exec_one (step_of (at_ths s ht) hp rfl) ?_))⟩
    show some _ = some _
    simp only [Sys.at, List.set_set]

theorem place_lt {s : Sys} (ok : s.mem.Ok s.reg) {c : Call} (he : Effective s.items c) : ∀ x, c = .delete x → place s c < s.reg.len := by
  rintro x rfl; exact idx_lt ok he

/-- Both callers take the slice before either writes: the first finishes, then the second. -/
theorem both (k : Conf) (s : Sys) (hs : Sound s) {i j : Nat} (hij : i ≠ j) {c d : Call} (hc : s.ths[i]? = some (c, .idle)) (hd : s.ths[j]? = some (d, .idle))
    (ec : Effective s.items c) (ed : Effective s.items d) :
    ∃ ls s', (∀ l ∈ ls, l = i ∨ l = j) ∧ exec k s ls = some s' ∧ AtRest s' ∧ Made s s' i c ∧ Made s s' j d ∧
      s'.items = (write k (write k s.mem s.reg (place s c) c).1 s.reg (place s d) d).1.read (write k (write k s.mem s.reg (place s c) c).1 s.reg (place s d) d).2 := by
  obtain ⟨l1, o1, w1, e1⟩ := reach_write k s hs.alive hc ec
  have hd1 : ({ s.at i c (.write (place s c) s.reg) with out := o1 } : Sys).ths[j]? = some (d, .idle) := by
    show (s.ths.set i _)[j]? = _; rw [List.getElem?_set_ne hij]; exact hd
  obtain ⟨l2, o2, w2, e2⟩ := reach_write k { s.at i c (.write (place s c) s.reg) with out := o1 } hs.alive hd1 ed
  have hpl : place { s.at i c (.write (place s c) s.reg) with out := o1 } d = place s d := by cases d <;> rfl
  rw [hpl] at e2
  change exec k _ l2 = some { ({ s.at i c (.write (place s c) s.reg) with out := o1 } : Sys).at j d (.write (place s d) s.reg) with out := o2 } at e2
  generalize hs2 : ({ ({ s.at i c (.write (place s c) s.reg) with out := o1 } : Sys).at j d (.write (place s d) s.reg) with out := o2 } : Sys) = s2 at e2
  have t2i : s2.ths[i]? = some (c, .write (place s c) s.reg) := by
    subst hs2
    show ((s.ths.set i _).set j _)[i]? = _
    rw [List.getElem?_set_ne (Ne.symm hij), List.getElem?_set_self (List.getElem?_eq_some_iff.1 hc).1]
  have t2j : s2.ths[j]? = some (d, .write (place s d) s.reg) := by
    subst hs2
    show ((s.ths.set i _).set j _)[j]? = _
    rw [List.getElem?_set_self]
    rw [List.length_set]; exact (List.getElem?_eq_some_iff.1 hd).1
  have m2 : s2.mem = s.mem := by subst hs2; rfl
  have p2 : s2.panicked = false := by subst hs2; exact hs.alive
  have f2 : ∀ l, l ≠ i → l ≠ j → s2.ths[l]? = s.ths[l]? := by
    intro l h1 h2; subst hs2
    show ((s.ths.set i _).set j _)[l]? = _
    rw [List.getElem?_set_ne (Ne.symm h2), List.getElem?_set_ne (Ne.symm h1)]
  obtain ⟨l3, o3, w3, e3⟩ := finish k s2 p2 t2i (place_lt hs.ok ec)
  rw [m2] at e3
  generalize hs3 : ({ s2.at i c .done with mem := (write k s.mem s.reg (place s c) c).1, reg := (write k s.mem s.reg (place s c) c).2, out := o3 } : Sys) = s3 at e3
  have t3i : s3.ths[i]? = some (c, .done) := by subst hs3; exact at_ths s2 t2i
  have t3j : s3.ths[j]? = some (d, .write (place s d) s.reg) := by
    subst hs3; show (s2.ths.set i _)[j]? = _; rw [List.getElem?_set_ne hij]; exact t2j
  have m3 : s3.mem = (write k s.mem s.reg (place s c) c).1 := by subst hs3; rfl
  have p3 : s3.panicked = false := by subst hs3; exact p2
  have f3 : ∀ l, l ≠ i → l ≠ j → s3.ths[l]? = s.ths[l]? := by
    intro l h1 h2; rw [← f2 l h1 h2]; subst hs3
    show (s2.ths.set i _)[l]? = _; rw [List.getElem?_set_ne (Ne.symm h1)]
  obtain ⟨l4, o4, w4, e4⟩ := finish k s3 p3 t3j (place_lt hs.ok ed)
  rw [m3] at e4
  generalize hs4 : ({ s3.at j d .done with mem := (write k (write k s.mem s.reg (place s c) c).1 s.reg (place s d) d).1, reg := (write k (write k s.mem s.reg (place s c) c).1 s.reg (place s d) d).2, out := o4 } : Sys) = s4 at e4
  have t4i : s4.ths[i]? = some (c, .done) := by
    subst hs4; show (s3.ths.set j _)[i]? = _; rw [List.getElem?_set_ne (Ne.symm hij)]; exact t3i
  have t4j : s4.ths[j]? = some (d, .done) := by subst hs4; exact at_ths s3 t3j
  refine ⟨l1 ++ (l2 ++ (l3 ++ l4)), s4, ?_, exec_then e1 (exec_then e2 (exec_then e3 e4)), ?_, ⟨hc, t4i⟩, ⟨hd, t4j⟩, by subst hs4; rfl⟩
  · intro l hl
    simp only [List.mem_append] at hl
    rcases hl with h | h | h | h
    · exact .inl (w1 l h)
    · exact .inr (w2 l h)
    · exact .inl (w3 l h)
    · exact .inr (w4 l h)
  · intro l c' pc hl
    by_cases h1 : l = i
    · subst h1; rw [t4i] at hl; injection hl with hl; injection hl with _ hl; exact .inr hl.symm
    · by_cases h2 : l = j
      · subst h2; rw [t4j] at hl; injection hl with hl; injection hl with _ hl; exact .inr hl.symm
      · refine hs.rest l c' pc ?_
        rw [← f3 l h1 h2, ← hl]
        subst hs4
        show _ = (s3.ths.set j _)[l]?
        rw [List.getElem?_set_ne (Ne.symm h2)]

theorem write_ok {k : Conf} {s : Sys} (ok : s.mem.Ok s.reg) {c : Call} (he : Effective s.items c) : (write k s.mem s.reg (place s c) c).1.Ok s.reg := by
  cases c with
  | add x =>
    simp only [write, Mem.append]
    split
    · exact ⟨by simp only [Mem.put, if_pos, List.length_set]; exact ok.len, ok.old⟩
    · have := ok.old
      refine ⟨?_, by simp only; omega⟩
      simp only [Mem.put]
      rw [if_neg (by omega)]; exact ok.len
  | delete x =>
    have hlt := idx_lt ok he
    exact ⟨by show s.reg.len ≤ ((s.mem.deleteAt s.reg _).1.arrs s.reg.arr).length; rw [place, Mem.deleteAt_length ok hlt]; exact ok.len, ok.old⟩

/-- Two calls that have something to do, for different items: if the first one adds, it is lost; of two deletions the one further back
is lost. -/
theorem clash (k : Conf) (s : Sys) (hs : Sound s) {i j : Nat} (hij : i ≠ j) {c d : Call} (hc : s.ths[i]? = some (c, .idle)) (hd : s.ths[j]? = some (d, .idle))
    (ec : Effective s.items c) (ed : Effective s.items d) (hne : c.item ≠ d.item)
    (hord : (∃ x, c = .add x) ∨ ∃ x y, c = .delete x ∧ d = .delete y ∧ s.items.idxOf x < s.items.idxOf y) :
    ∃ ls s', (∀ l ∈ ls, l = i ∨ l = j) ∧ exec k s ls = some s' ∧ AtRest s' ∧
      ((∃ x, c = .add x ∧ Made s s' i c ∧ x ∉ s'.items) ∨ ∃ y, d = .delete y ∧ Made s s' j d ∧ y ∈ s'.items) := by
  obtain ⟨ls, s', hl, he, hrest, hmi, hmj, hitems⟩ := both k s hs hij hc hd ec ed
  refine ⟨ls, s', hl, he, hrest, ?_⟩
  have ok1 := write_ok (k := k) hs.ok ec
  rcases hord with ⟨x, rfl⟩ | ⟨x, y, rfl, rfl, hlt⟩
  · refine .inl ⟨x, rfl, hmi, ?_⟩
    have hold : (write k s.mem s.reg (place s (.add x)) (.add x)).1.read s.reg = s.items := result_old_add (k := k) hs.ok x
    rw [hitems]
    cases d with
    | add y =>
      show x ∉ (((write k s.mem s.reg (place s (.add x)) (.add x)).1.append 0 (k.spare s.reg.len) s.reg y).1).read _
      simp only [write] at ok1 hold ⊢
      rw [Mem.read_append ok1, hold]
      simp only [List.mem_append, List.mem_singleton, not_or]
      exact ⟨ec, hne⟩
    | delete y =>
      simp only [write] at ok1 hold ⊢
      rw [show place s (.delete y) = s.items.idxOf y from rfl, Mem.read_deleteAt ok1 (idx_lt hs.ok ed), hold]
      exact fun h => ec (List.mem_of_mem_eraseIdx h)
  · refine .inr ⟨y, rfl, hmj, ?_⟩
    have hold := result_old_delete (k := k) hs.ok (x := x) ec
    have hlen : s.items.length = s.reg.len := Mem.read_length hs.ok
    have hlx := idx_lt hs.ok ec
    have hly := idx_lt hs.ok ed
    rw [hitems]
    simp only [write, place] at ok1 ⊢
    rw [Mem.read_deleteAt ok1 hly]
    simp only [result] at hold
    rw [hold]
    refine List.mem_of_getElem? (i := s.items.idxOf y - 1) ?_
    rw [List.getElem?_eraseIdx, if_pos (by omega), List.getElem?_append_left (by rw [List.length_eraseIdx, if_pos (by omega)]; omega),
      List.getElem?_eraseIdx, if_neg (by omega), show s.items.idxOf y - 1 + 1 = s.items.idxOf y by omega]
    exact getElem?_idxOf_mem ed

/-- A caller that adds looks at the place of `z` after `y` was deleted in front of it, and does not find it. -/
theorem overlooked (k : Conf) (s : Sys) (hs : Sound s) {i j : Nat} (hij : i ≠ j) {y z : Nat} (hc : s.ths[i]? = some (.delete y, .idle))
    (hd : s.ths[j]? = some (.add z, .idle)) (hb : Between s.items y z) :
    ∃ ls s', (∀ l ∈ ls, l = i ∨ l = j) ∧ exec k s ls = some s' ∧ AtRest s' ∧ Made s s' j (.add z) ∧ 2 ≤ s'.items.count z := by
  obtain ⟨a, b, c, hl, hcne⟩ := hb
  have hn := hs.once
  have hlen : s.items.length = s.reg.len := Mem.read_length hs.ok
  have hy : y ∈ s.items := by rw [hl]; simp
  have hz : z ∈ s.items := by rw [hl]; simp
  have hyz : y ≠ z := by
    rintro rfl
    rw [hl, List.append_assoc, List.nodup_append] at hn
    have := hn.2.1
    simp at this
  -- the place of `z` is behind that of `y` and not the last
  have hz' : s.items[(a ++ y :: b).length]? = some z := by rw [hl, List.getElem?_append_right (Nat.le_refl _)]; simp
  have hy' : s.items[a.length]? = some y := by rw [hl, List.append_assoc, List.getElem?_append_right (Nat.le_refl _)]; simp
  have hiz : s.items.idxOf z = (a ++ y :: b).length := by
    obtain ⟨h1, h2⟩ := List.getElem?_eq_some_iff.1 hz'
    rw [← h2]; exact hn.idxOf_getElem _ h1
  have hiy : s.items.idxOf y = a.length := by
    obtain ⟨h1, h2⟩ := List.getElem?_eq_some_iff.1 hy'
    have := hn.idxOf_getElem _ h1
    rw [h2] at this; exact this
  have hlt : s.items.idxOf y < s.items.idxOf z := by rw [hiy, hiz]; simp
  have hlast : s.items.idxOf z + 1 < s.items.length := by
    rw [hiz, hl]
    cases c with
    | nil => exact absurd rfl hcne
    | cons w c => simp only [List.length_append, List.length_cons]; omega
  -- the caller that adds looks at all places before
  have h0 : step k s j = some (s.at j (.add z) (.scan s.reg 0)) := step_of hd hs.alive rfl
  obtain ⟨l1, w1, e1⟩ := scan_to k (s.items.idxOf z) (s.at j (.add z) (.scan s.reg 0)) hs.alive (at_ths s hd) (by
    intro q _ hq
    have hq' : q < s.items.idxOf z := by omega
    have hq2 : q < s.items.length := by omega
    refine ⟨s.items[q], List.getElem?_eq_getElem hq2, fun e => ?_⟩
    exact idxOf_before hq' (by rw [List.getElem?_eq_getElem hq2, e]; rfl))
  rw [at_at, Nat.zero_add] at e1
  generalize hs1 : s.at j (.add z) (.scan s.reg (s.items.idxOf z)) = s1 at e1
  have t1i : s1.ths[i]? = some (.delete y, .idle) := by
    subst hs1; show (s.ths.set j _)[i]? = _; rw [List.getElem?_set_ne (Ne.symm hij)]; exact hc
  have t1j : s1.ths[j]? = some (.add z, .scan s.reg (s.items.idxOf z)) := by subst hs1; exact at_ths s hd
  have p1 : s1.panicked = false := by subst hs1; exact hs.alive
  have i1 : s1.items = s.items := by subst hs1; rfl
  have m1 : s1.mem = s.mem := by subst hs1; rfl
  have r1 : s1.reg = s.reg := by subst hs1; rfl
  have f1 : ∀ l, l ≠ j → s1.ths[l]? = s.ths[l]? := by
    intro l h1; subst hs1; show (s.ths.set j _)[l]? = _; rw [List.getElem?_set_ne (Ne.symm h1)]
  -- the deletion
  obtain ⟨l2, o2, w2, e2⟩ := reach_write k s1 p1 t1i (show y ∈ s1.items by rw [i1]; exact hy)
  generalize hs2 : ({ s1.at i (.delete y) (.write (place s1 (.delete y)) s1.reg) with out := o2 } : Sys) = s2 at e2
  have t2i : s2.ths[i]? = some (.delete y, .write (s.items.idxOf y) s.reg) := by
    subst hs2
    have := at_ths s1 (c := .delete y) (q := .write (place s1 (.delete y)) s1.reg) t1i
    rw [place, i1, r1] at this; rw [place, i1, r1]; exact this
  have t2j : s2.ths[j]? = some (.add z, .scan s.reg (s.items.idxOf z)) := by
    subst hs2; show (s1.ths.set i _)[j]? = _; rw [List.getElem?_set_ne hij]; exact t1j
  have p2 : s2.panicked = false := by subst hs2; exact p1
  have m2 : s2.mem = s.mem := by subst hs2; exact m1
  have f2 : ∀ l, l ≠ i → l ≠ j → s2.ths[l]? = s.ths[l]? := by
    intro l h1 h2; rw [← f1 l h2]; subst hs2; show (s1.ths.set i _)[l]? = _; rw [List.getElem?_set_ne (Ne.symm h1)]
  obtain ⟨l3, o3, w3, e3⟩ := finish k s2 p2 t2i (fun _ _ => idx_lt hs.ok hy)
  rw [m2] at e3
  generalize hs3 : ({ s2.at i (.delete y) .done with mem := (write k s.mem s.reg (s.items.idxOf y) (.delete y)).1, reg := (write k s.mem s.reg (s.items.idxOf y) (.delete y)).2, out := o3 } : Sys) = s3 at e3
  have t3i : s3.ths[i]? = some (.delete y, .done) := by subst hs3; exact at_ths s2 t2i
  have t3j : s3.ths[j]? = some (.add z, .scan s.reg (s.items.idxOf z)) := by
    subst hs3; show (s2.ths.set i _)[j]? = _; rw [List.getElem?_set_ne hij]; exact t2j
  have p3 : s3.panicked = false := by subst hs3; exact p2
  have f3 : ∀ l, l ≠ i → l ≠ j → s3.ths[l]? = s.ths[l]? := by
    intro l h1 h2; rw [← f2 l h1 h2]; subst hs3; show (s2.ths.set i _)[l]? = _; rw [List.getElem?_set_ne (Ne.symm h1)]
  have old3 : s3.mem.read s.reg = s.items.eraseIdx (s.items.idxOf y) ++ s.items.drop (s.reg.len - 1) := by
    subst hs3; exact Mem.deleteAt_same hs.ok (idx_lt hs.ok hy)
  have new3 : s3.items = s.items.eraseIdx (s.items.idxOf y) := by subst hs3; exact Mem.read_deleteAt hs.ok (idx_lt hs.ok hy)
  have ok3 : s3.mem.Ok s3.reg := by subst hs3; exact Mem.ok_deleteAt hs.ok (idx_lt hs.ok hy)
  have hel : (s.items.eraseIdx (s.items.idxOf y)).length = s.items.length - 1 := by rw [List.length_eraseIdx, if_pos (by omega)]
  have hlen3 : (s3.mem.read s.reg).length = s.items.length := by
    rw [old3, List.length_append, hel, List.length_drop]; omega
  -- from the place of `z` on, `z` is not there any more
  have hafter : ∀ q, s.items.idxOf z ≤ q → (s3.mem.read s.reg)[q]? ≠ some z := by
    intro q hq h
    have key : ∀ p, s.items[p]? = some z → p = s.items.idxOf z := by
      intro p hp
      obtain ⟨h1, h2⟩ := List.getElem?_eq_some_iff.1 hp
      have := hn.idxOf_getElem _ h1
      rw [h2] at this; exact this.symm
    rw [old3] at h
    by_cases h1 : q < s.items.length - 1
    · rw [List.getElem?_append_left (by omega), List.getElem?_eraseIdx, if_neg (by omega)] at h
      have := key _ h; omega
    · rw [List.getElem?_append_right (by omega), List.getElem?_drop] at h
      have := key _ h; omega
  obtain ⟨l4, w4, e4⟩ := scan_to k (s.items.length - s.items.idxOf z) s3 p3 t3j (by
    intro q h1 h2
    have hq : q < (s3.mem.read s.reg).length := by omega
    refine ⟨(s3.mem.read s.reg)[q], List.getElem?_eq_getElem hq, fun e => hafter q h1 ?_⟩
    rw [List.getElem?_eq_getElem hq, e]; rfl)
  rw [show s.items.idxOf z + (s.items.length - s.items.idxOf z) = s.items.length by omega] at e4
  have e5 : step k (s3.at j (.add z) (.scan s.reg s.items.length)) j = some (s3.at j (.add z) (.publish 0)) := by
    refine step_of (at_ths s3 t3j) p3 ?_
    have : ((s3.at j (.add z) (.scan s.reg s.items.length)).mem.read s.reg)[s.items.length]? = none := by
      rw [List.getElem?_eq_none_iff]; exact Nat.le_of_eq hlen3
    simp only [act, this, at_at, missed]
  obtain ⟨l6, o6, w6, e6⟩ := publish_on k (s3.at j (.add z) (.publish 0)) p3 (at_ths s3 t3j)
  rw [at_at] at e6
  generalize hs6 : ({ s3.at j (.add z) (.load 0) with out := o6 } : Sys) = s6 at e6
  have t6j : s6.ths[j]? = some (.add z, .load 0) := by subst hs6; exact at_ths s3 t3j
  have p6 : s6.panicked = false := by subst hs6; exact p3
  have m6 : s6.mem = s3.mem := by subst hs6; rfl
  have r6 : s6.reg = s3.reg := by subst hs6; rfl
  have t6i : s6.ths[i]? = some (.delete y, .done) := by
    subst hs6; show (s3.ths.set j _)[i]? = _; rw [List.getElem?_set_ne (Ne.symm hij)]; exact t3i
  have f6 : ∀ l, l ≠ i → l ≠ j → s6.ths[l]? = s.ths[l]? := by
    intro l h1 h2; rw [← f3 l h1 h2]; subst hs6; show (s3.ths.set j _)[l]? = _; rw [List.getElem?_set_ne (Ne.symm h2)]
  have e7 : step k s6 j = some (s6.at j (.add z) (.write 0 s6.reg)) := step_of t6j p6 rfl
  obtain ⟨l8, o8, w8, e8⟩ := finish k (s6.at j (.add z) (.write 0 s6.reg)) p6 (at_ths s6 t6j) (fun _ e => by cases e)
  rw [at_at] at e8
  refine ⟨j :: (l1 ++ (l2 ++ (l3 ++ (l4 ++ j :: (l6 ++ j :: l8))))), _, ?_,
    exec_one h0 (exec_then e1 (exec_then e2 (exec_then e3 (exec_then e4 (exec_one e5 (exec_then e6 (exec_one e7 e8))))))), ?_, ⟨hd, at_ths s6 t6j⟩, ?_⟩
  · intro l hl
    simp only [List.mem_append, List.mem_cons] at hl
    rcases hl with h | h | h | h | h | h | h | h | h
    · exact .inr h
    · exact .inr (w1 l h)
    · exact .inl (w2 l h)
    · exact .inl (w3 l h)
    · exact .inr (w4 l h)
    · exact .inr h
    · exact .inr (w6 l h)
    · exact .inr h
    · exact .inr (w8 l h)
  · intro l c' pc hl'
    change (s6.ths.set j _)[l]? = _ at hl'
    by_cases h2 : l = j
    · subst h2
      rw [List.getElem?_set_self (List.getElem?_eq_some_iff.1 t6j).1] at hl'
      injection hl' with hl'; injection hl' with _ hl'; exact .inr hl'.symm
    · rw [List.getElem?_set_ne (Ne.symm h2)] at hl'
      by_cases h1 : l = i
      · subst h1; rw [t6i] at hl'; injection hl' with hl'; injection hl' with _ hl'; exact .inr hl'.symm
      · rw [f6 l h1 h2] at hl'; exact hs.rest l c' pc hl'
  · show 2 ≤ ((write k s6.mem s6.reg 0 (.add z)).1.read (write k s6.mem s6.reg 0 (.add z)).2).count z
    rw [m6, r6]
    simp only [write]
    rw [Mem.read_append ok3]
    show 2 ≤ (s3.items ++ [z]).count z
    rw [count_snoc_self, new3]
    have : z ∈ s.items.eraseIdx (s.items.idxOf y) := (mem_eraseIdx_idxOf hn).2 ⟨hz, Ne.symm hyz⟩
    have := List.count_pos_iff.2 this
    omega

/-- C93, exactly.  For callers that have not begun and call for different items: in no schedule does anybody panic and whenever nobody is inside a
call the registry is right, if and only if at most one of them has something to do, and, should that be a deletion, nobody adds what
is registered behind it and is not the last. -/
theorem c93_iff (k : Conf) (s : Sys) (hs : Sound s) (as : List Nat) (hr : Ready s as) :
    (∀ ls, (∀ i ∈ ls, i ∈ as) → ∀ s', exec k s ls = some s' → s'.panicked = false ∧ (AtRest s' → Right s s')) ↔ Apart s as := by
  refine ⟨fun h => ⟨?_, ?_⟩, fun ha ls hl s' => c93_partial k s hs as hr ha ls hl s'⟩
  · intro i hi j hj c d pc pd hc hd ec ed
    apply Classical.byContradiction
    intro hij
    obtain ⟨c', hc'⟩ := hr.idle i hi
    obtain ⟨d', hd'⟩ := hr.idle j hj
    rw [hc] at hc'; injection hc' with hc'; injection hc' with e1 e2; subst e1; subst e2
    rw [hd] at hd'; injection hd' with hd'; injection hd' with e1 e2; subst e1; subst e2
    have hne : c.item ≠ d.item := fun e => hij (hr.distinct i hi j hj c d _ _ hc hd e)
    have hin : ∀ {ls : List Nat}, (∀ l ∈ ls, l = i ∨ l = j) → ∀ l ∈ ls, l ∈ as := by
      intro ls h l hl
      rcases h l hl with rfl | rfl
      · exact hi
      · exact hj
    have hin' : ∀ {ls : List Nat}, (∀ l ∈ ls, l = j ∨ l = i) → ∀ l ∈ ls, l ∈ as := fun h => hin fun l hl => (h l hl).symm
    have fin : ∀ {ls : List Nat} {s' : Sys} {i j : Nat} {c d : Call}, (∀ l ∈ ls, l ∈ as) → exec k s ls = some s' → AtRest s' →
        ((∃ x, c = .add x ∧ Made s s' i c ∧ x ∉ s'.items) ∨ ∃ y, d = .delete y ∧ Made s s' j d ∧ y ∈ s'.items) → False := by
      intro ls s' i j c d hl he hrest hbad
      have hright := (h ls hl s' he).2 hrest
      rcases hbad with ⟨x, rfl, hm, hx⟩ | ⟨y, rfl, hm, hy⟩
      · exact hx (hright.added i x hm)
      · exact hright.deleted j y hm hy
    have close : ∀ {i j : Nat} {c d : Call}, i ≠ j → s.ths[i]? = some (c, .idle) → s.ths[j]? = some (d, .idle) → Effective s.items c → Effective s.items d →
        c.item ≠ d.item → ((∃ x, c = .add x) ∨ ∃ x y, c = .delete x ∧ d = .delete y ∧ s.items.idxOf x < s.items.idxOf y) →
        (∀ {ls : List Nat}, (∀ l ∈ ls, l = i ∨ l = j) → ∀ l ∈ ls, l ∈ as) → False := by
      intro i j c d hij hc hd ec ed hne hord hin
      obtain ⟨ls, s', hl, he, hrest, hbad⟩ := clash k s hs hij hc hd ec ed hne hord
      exact fin (hin hl) he hrest hbad
    cases c with
    | add x => exact close hij hc hd ec ed hne (.inl ⟨x, rfl⟩) hin
    | delete x =>
      cases d with
      | add y => exact close (Ne.symm hij) hd hc ed ec (Ne.symm hne) (.inl ⟨y, rfl⟩) hin'
      | delete y =>
        have hdiff : s.items.idxOf x ≠ s.items.idxOf y := by
          intro e
          have h1 := getElem?_idxOf_mem (l := s.items) (x := x) ec
          have h2 := getElem?_idxOf_mem (l := s.items) (x := y) ed
          rw [e, h2] at h1
          injection h1 with h1; exact hne h1.symm
        by_cases hlt : s.items.idxOf x < s.items.idxOf y
        · exact close hij hc hd ec ed hne (.inr ⟨x, y, rfl, rfl, hlt⟩) hin
        · exact close (Ne.symm hij) hd hc ed ec (Ne.symm hne) (.inr ⟨y, x, rfl, rfl, by omega⟩) hin'
  · intro i hi j hj y z pc pd hc hd hb
    obtain ⟨c', hc'⟩ := hr.idle i hi
    obtain ⟨d', hd'⟩ := hr.idle j hj
    rw [hc] at hc'; injection hc' with hc'; injection hc' with e1 e2; subst e1; subst e2
    rw [hd] at hd'; injection hd' with hd'; injection hd' with e1 e2; subst e1; subst e2
    have hij : i ≠ j := by rintro rfl; rw [hc] at hd; injection hd with hd; injection hd with hd _; cases hd
    obtain ⟨ls, s', hl, he, hrest, _, hcount⟩ := overlooked k s hs hij hc hd hb
    have hright := (h ls (fun l h' => by rcases hl l h' with rfl | rfl <;> assumption) s' he).2 hrest
    have := List.nodup_iff_count.1 hright.once z
    omega

/-! ## Further consequences of two calls at the same time -/

/-- The second caller has found its item when the first one deletes another. -/
theorem found_then_deleted (k : Conf) (s : Sys) (hs : Sound s) {i j : Nat} (hij : i ≠ j) {x : Nat} {d : Call} (hc : s.ths[i]? = some (.delete x, .idle))
    (hd : s.ths[j]? = some (d, .idle)) (hx : x ∈ s.items) (ed : Effective s.items d) :
    ∃ ls s', (∀ l ∈ ls, l = i ∨ l = j) ∧ exec k s ls = some s' ∧ s'.panicked = false ∧ s'.ths[i]? = some (.delete x, .done) ∧
      s'.ths[j]? = some (d, .load (place s d)) ∧ (∀ l, l ≠ i → l ≠ j → s'.ths[l]? = s.ths[l]?) ∧
      s'.items = s.items.eraseIdx (s.items.idxOf x) ∧ s'.mem.Ok s'.reg ∧ s'.reg.len = s.reg.len - 1 := by
  obtain ⟨l1, o1, w1, e1⟩ := reach_load k s hs.alive hd ed
  generalize hs1 : ({ s.at j d (.load (place s d)) with out := o1 } : Sys) = s1 at e1
  have t1i : s1.ths[i]? = some (.delete x, .idle) := by
    subst hs1; show (s.ths.set j _)[i]? = _; rw [List.getElem?_set_ne (Ne.symm hij)]; exact hc
  have t1j : s1.ths[j]? = some (d, .load (place s d)) := by subst hs1; exact at_ths s hd
  have p1 : s1.panicked = false := by subst hs1; exact hs.alive
  have i1 : s1.items = s.items := by subst hs1; rfl
  have m1 : s1.mem = s.mem := by subst hs1; rfl
  have r1 : s1.reg = s.reg := by subst hs1; rfl
  have f1 : ∀ l, l ≠ j → s1.ths[l]? = s.ths[l]? := by
    intro l h1; subst hs1; show (s.ths.set j _)[l]? = _; rw [List.getElem?_set_ne (Ne.symm h1)]
  obtain ⟨l2, o2, w2, e2⟩ := reach_write k s1 p1 t1i (show x ∈ s1.items by rw [i1]; exact hx)
  generalize hs2 : ({ s1.at i (.delete x) (.write (place s1 (.delete x)) s1.reg) with out := o2 } : Sys) = s2 at e2
  have t2i : s2.ths[i]? = some (.delete x, .write (s.items.idxOf x) s.reg) := by
    subst hs2
    have := at_ths s1 (c := .delete x) (q := .write (place s1 (.delete x)) s1.reg) t1i
    rw [place, i1, r1] at this; rw [place, i1, r1]; exact this
  have t2j : s2.ths[j]? = some (d, .load (place s d)) := by
    subst hs2; show (s1.ths.set i _)[j]? = _; rw [List.getElem?_set_ne hij]; exact t1j
  have p2 : s2.panicked = false := by subst hs2; exact p1
  have m2 : s2.mem = s.mem := by subst hs2; exact m1
  have f2 : ∀ l, l ≠ i → l ≠ j → s2.ths[l]? = s.ths[l]? := by
    intro l h1 h2; rw [← f1 l h2]; subst hs2; show (s1.ths.set i _)[l]? = _; rw [List.getElem?_set_ne (Ne.symm h1)]
  obtain ⟨l3, o3, w3, e3⟩ := finish k s2 p2 t2i (fun _ _ => idx_lt hs.ok hx)
  rw [m2] at e3
  refine ⟨l1 ++ (l2 ++ l3), _, ?_, exec_then e1 (exec_then e2 e3), p2, at_ths s2 t2i, ?_, ?_, Mem.read_deleteAt hs.ok (idx_lt hs.ok hx),
    Mem.ok_deleteAt hs.ok (idx_lt hs.ok hx), rfl⟩
  · intro l hl
    simp only [List.mem_append] at hl
    rcases hl with h | h | h
    · exact .inr (w1 l h)
    · exact .inl (w2 l h)
    · exact .inl (w3 l h)
  · show (s2.ths.set i _)[j]? = _; rw [List.getElem?_set_ne hij]; exact t2j
  · intro l h1 h2
    show (s2.ths.set i _)[l]? = _; rw [List.getElem?_set_ne (Ne.symm h1)]; exact f2 l h1 h2

/-- C93 fails: while the last item is being deleted, the deletion of any item, also of the same, can make the call panic. -/
theorem c93_panics (k : Conf) (s : Sys) (hs : Sound s) {i j : Nat} (hij : i ≠ j) {x y : Nat} (hc : s.ths[i]? = some (.delete x, .idle))
    (hd : s.ths[j]? = some (.delete y, .idle)) (hx : x ∈ s.items) (hy : s.items.getLast? = some y) :
    ∃ ls s', (∀ l ∈ ls, l = i ∨ l = j) ∧ exec k s ls = some s' ∧ s'.panicked = true := by
  have hym : y ∈ s.items := List.mem_of_getLast? hy
  obtain ⟨ls, s1, hl, e1, p1, _, t1, _, _, _, hlen⟩ := found_then_deleted k s hs hij hc hd hx (d := .delete y) hym
  have hidx : s.items.idxOf y = s.reg.len - 1 := by
    have hl : s.items.length = s.reg.len := Mem.read_length hs.ok
    rw [List.getLast?_eq_getElem?] at hy
    obtain ⟨h1, h2⟩ := List.getElem?_eq_some_iff.1 hy
    have := hs.once.idxOf_getElem _ h1
    rw [h2] at this; omega
  have e2 : step k s1 j = some (s1.at j (.delete y) (.write (s.items.idxOf y) s1.reg)) := step_of t1 p1 rfl
  have e3 : step k (s1.at j (.delete y) (.write (s.items.idxOf y) s1.reg)) j = some { s1.at j (.delete y) (.write (s.items.idxOf y) s1.reg) with panicked := true } := by
    refine step_of (at_ths s1 t1) p1 ?_
    simp only [act]; rw [if_neg (by omega)]
  refine ⟨ls ++ [j, j], _, ?_, exec_then e1 (exec_one e2 (exec_one e3 rfl)), rfl⟩
  intro l h
  simp only [List.mem_append, List.mem_cons, List.not_mem_nil, or_false] at h
  rcases h with h | rfl | rfl
  · exact hl l h
  · exact .inr rfl
  · exact .inr rfl

/-- C93 fails: two deletions at the same time can remove an item that nobody deletes, and leave one that was to be deleted: `z`
goes instead of `y`, in front of it. -/
theorem c93_wrong (k : Conf) (s : Sys) (hs : Sound s) {i j : Nat} (hij : i ≠ j) {x y z : Nat} (hc : s.ths[i]? = some (.delete x, .idle))
    (hd : s.ths[j]? = some (.delete y, .idle)) {a b c : List Nat} (hl : s.items = a ++ x :: b ++ y :: z :: c) :
    ∃ ls s', (∀ l ∈ ls, l = i ∨ l = j) ∧ exec k s ls = some s' ∧ AtRest s' ∧ Made s s' i (.delete x) ∧ Made s s' j (.delete y) ∧
      s'.items = a ++ b ++ y :: c := by
  have hx : x ∈ s.items := by rw [hl]; simp
  have hy : y ∈ s.items := by rw [hl]; simp
  obtain ⟨ls, s1, hls, e1, p1, t1i, t1, f1, hit, hok, hlen⟩ := found_then_deleted k s hs hij hc hd hx (d := .delete y) hy
  have hn := hs.once
  have key : ∀ q v, s.items[q]? = some v → s.items.idxOf v = q := by
    intro q v h
    obtain ⟨h1, h2⟩ := List.getElem?_eq_some_iff.1 h
    have := hn.idxOf_getElem _ h1
    rw [h2] at this; exact this
  have hix : s.items.idxOf x = a.length := key _ _ (by rw [hl, List.append_assoc, List.getElem?_append_right (Nat.le_refl _)]; simp)
  have hiy : s.items.idxOf y = (a ++ x :: b).length := key _ _ (by rw [hl, List.getElem?_append_right (Nat.le_refl _)]; simp)
  have hit1 : s1.items = (a ++ b ++ [y]) ++ z :: c := by
    rw [hit, hix, hl, List.append_assoc, List.eraseIdx_append_of_length_le (Nat.le_refl _)]; simp
  have hl1 : s1.items.length = s1.reg.len := Mem.read_length hok
  have hlt : s.items.idxOf y < s1.reg.len := by
    rw [← hl1, hit1, hiy]; simp only [List.length_append, List.length_cons, List.length_nil]; omega
  have e2 : step k s1 j = some (s1.at j (.delete y) (.write (s.items.idxOf y) s1.reg)) := step_of t1 p1 rfl
  obtain ⟨l3, o3, w3, e3⟩ := finish k (s1.at j (.delete y) (.write (s.items.idxOf y) s1.reg)) p1 (at_ths s1 t1) (fun _ _ => hlt)
  rw [at_at] at e3
  refine ⟨ls ++ j :: l3, _, ?_, exec_then e1 (exec_one e2 e3), ?_, ⟨hc, ?_⟩, ⟨hd, at_ths s1 t1⟩, ?_⟩
  · intro l h
    simp only [List.mem_append, List.mem_cons] at h
    rcases h with h | h | h
    · exact hls l h
    · exact .inr h
    · exact .inr (w3 l h)
  · intro l c' pc hl'
    change (s1.ths.set j _)[l]? = _ at hl'
    by_cases h2 : l = j
    · subst h2
      rw [List.getElem?_set_self (List.getElem?_eq_some_iff.1 t1).1] at hl'
      injection hl' with hl'; injection hl' with _ hl'; exact .inr hl'.symm
    · rw [List.getElem?_set_ne (Ne.symm h2)] at hl'
      by_cases h1 : l = i
      · subst h1; rw [t1i] at hl'; injection hl' with hl'; injection hl' with _ hl'; exact .inr hl'.symm
      · rw [f1 l h1 h2] at hl'; exact hs.rest l c' pc hl'
  · show (s1.ths.set j _)[i]? = _; rw [List.getElem?_set_ne (Ne.symm hij)]; exact t1i
  · show (s1.mem.deleteAt s1.reg (s.items.idxOf y)).1.read (s1.mem.deleteAt s1.reg (s.items.idxOf y)).2 = _
    rw [Mem.read_deleteAt hok hlt]
    show s1.items.eraseIdx _ = _
    have e4 : s.items.idxOf y = (a ++ b ++ [y]).length := by
      rw [hiy]; simp only [List.length_append, List.length_cons, List.length_nil]; omega
    rw [hit1, e4, List.eraseIdx_append_of_length_le (Nat.le_refl _)]; simp

/-- C93 fails also for one item: two callers that add it at the same time register it twice. -/
theorem c93_twice (k : Conf) (s : Sys) (hs : Sound s) {i j : Nat} (hij : i ≠ j) {x : Nat} (hc : s.ths[i]? = some (.add x, .idle))
    (hd : s.ths[j]? = some (.add x, .idle)) (hx : x ∉ s.items) :
    ∃ ls s', (∀ l ∈ ls, l = i ∨ l = j) ∧ exec k s ls = some s' ∧ AtRest s' ∧ Made s s' i (.add x) ∧ Made s s' j (.add x) ∧ s'.items = s.items ++ [x, x] := by
  obtain ⟨l1, o1, w1, e1⟩ := reach_load k s hs.alive hd (c := .add x) hx
  generalize hs1 : ({ s.at j (.add x) (.load (place s (.add x))) with out := o1 } : Sys) = s1 at e1
  have t1i : s1.ths[i]? = some (.add x, .idle) := by
    subst hs1; show (s.ths.set j _)[i]? = _; rw [List.getElem?_set_ne (Ne.symm hij)]; exact hc
  have t1j : s1.ths[j]? = some (.add x, .load 0) := by subst hs1; exact at_ths s hd
  have p1 : s1.panicked = false := by subst hs1; exact hs.alive
  have i1 : s1.items = s.items := by subst hs1; rfl
  have ok1 : s1.mem.Ok s1.reg := by subst hs1; exact hs.ok
  have f1 : ∀ l, l ≠ j → s1.ths[l]? = s.ths[l]? := by
    intro l h1; subst hs1; show (s.ths.set j _)[l]? = _; rw [List.getElem?_set_ne (Ne.symm h1)]
  obtain ⟨l2, o2, w2, e2⟩ := reach_write k s1 p1 t1i (show x ∉ s1.items by rw [i1]; exact hx)
  generalize hs2 : ({ s1.at i (.add x) (.write (place s1 (.add x)) s1.reg) with out := o2 } : Sys) = s2 at e2
  have t2i : s2.ths[i]? = some (.add x, .write 0 s1.reg) := by subst hs2; exact at_ths s1 t1i
  have t2j : s2.ths[j]? = some (.add x, .load 0) := by
    subst hs2; show (s1.ths.set i _)[j]? = _; rw [List.getElem?_set_ne hij]; exact t1j
  have p2 : s2.panicked = false := by subst hs2; exact p1
  have m2 : s2.mem = s1.mem := by subst hs2; rfl
  have f2 : ∀ l, l ≠ i → s2.ths[l]? = s1.ths[l]? := by
    intro l h1; subst hs2; show (s1.ths.set i _)[l]? = _; rw [List.getElem?_set_ne (Ne.symm h1)]
  obtain ⟨l3, o3, w3, e3⟩ := finish k s2 p2 t2i (fun _ e => by cases e)
  rw [m2] at e3
  generalize hs3 : ({ s2.at i (.add x) .done with mem := (write k s1.mem s1.reg 0 (.add x)).1, reg := (write k s1.mem s1.reg 0 (.add x)).2, out := o3 } : Sys) = s3 at e3
  have t3i : s3.ths[i]? = some (.add x, .done) := by subst hs3; exact at_ths s2 t2i
  have t3j : s3.ths[j]? = some (.add x, .load 0) := by
    subst hs3; show (s2.ths.set i _)[j]? = _; rw [List.getElem?_set_ne hij]; exact t2j
  have p3 : s3.panicked = false := by subst hs3; exact p2
  have i3 : s3.items = s.items ++ [x] := by rw [← i1]; subst hs3; exact Mem.read_append ok1
  have ok3 : s3.mem.Ok s3.reg := by subst hs3; exact Mem.ok_append ok1
  have f3 : ∀ l, l ≠ i → s3.ths[l]? = s2.ths[l]? := by
    intro l h1; subst hs3; show (s2.ths.set i _)[l]? = _; rw [List.getElem?_set_ne (Ne.symm h1)]
  have e4 : step k s3 j = some (s3.at j (.add x) (.write 0 s3.reg)) := step_of t3j p3 rfl
  obtain ⟨l5, o5, w5, e5⟩ := finish k (s3.at j (.add x) (.write 0 s3.reg)) p3 (at_ths s3 t3j) (fun _ e => by cases e)
  rw [at_at] at e5
  refine ⟨l1 ++ (l2 ++ (l3 ++ j :: l5)), _, ?_, exec_then e1 (exec_then e2 (exec_then e3 (exec_one e4 e5))), ?_, ⟨hc, ?_⟩, ⟨hd, at_ths s3 t3j⟩, ?_⟩
  · intro l h
    simp only [List.mem_append, List.mem_cons] at h
    rcases h with h | h | h | h | h
    · exact .inr (w1 l h)
    · exact .inl (w2 l h)
    · exact .inl (w3 l h)
    · exact .inr h
    · exact .inr (w5 l h)
  · intro l c' pc hl'
    change (s3.ths.set j _)[l]? = _ at hl'
    by_cases h2 : l = j
    · subst h2
      rw [List.getElem?_set_self (List.getElem?_eq_some_iff.1 t3j).1] at hl'
      injection hl' with hl'; injection hl' with _ hl'; exact .inr hl'.symm
    · rw [List.getElem?_set_ne (Ne.symm h2)] at hl'
      by_cases h1 : l = i
      · subst h1; rw [t3i] at hl'; injection hl' with hl'; injection hl' with _ hl'; exact .inr hl'.symm
      · rw [f3 l h1, f2 l h1, f1 l h2] at hl'; exact hs.rest l c' pc hl'
  · show (s3.ths.set j _)[i]? = _; rw [List.getElem?_set_ne (Ne.symm hij)]; exact t3i
  · show (s3.mem.append 0 (k.spare s3.reg.len) s3.reg x).1.read (s3.mem.append 0 (k.spare s3.reg.len) s3.reg x).2 = _
    rw [Mem.read_append ok3]
    show s3.items ++ [x] = _
    rw [i3]; simp

/-! ## Calls return -/

/-- However the others stand, a caller that goes on alone returns or panics. -/
theorem c93_returns (k : Conf) (s : Sys) (hp : s.panicked = false) {i : Nat} {c : Call} {pc : Pc} (ht : s.ths[i]? = some (c, pc)) :
    ∃ ls s', Only i ls ∧ exec k s ls = some s' ∧ (s'.panicked = true ∨ s'.ths[i]? = some (c, .done)) := by
  have fin : ∀ (s : Sys) (h : Slice), s.panicked = false → s.ths[i]? = some (c, .store h) →
      ∃ ls s', Only i ls ∧ exec k s ls = some s' ∧ (s'.panicked = true ∨ s'.ths[i]? = some (c, .done)) := by
    intro s h hp ht
    have h1 : step k s i = some { s.at i c (stored k c) with reg := h } := step_of ht hp rfl
    have t1 := at_ths s (c := c) (q := stored k c) ht
    by_cases hd : stored k c = .done
    · rw [hd] at t1
      exact ⟨[i], _, Only.nil.cons, exec_one h1 rfl, .inr (by rw [hd]; exact t1)⟩
    · have hd : stored k c = .tell := by
        cases c with
        | add x => exact absurd rfl hd
        | delete x => simp only [stored] at hd ⊢; split at hd <;> simp_all
      rw [hd] at t1
      rw [hd] at h1
      exact ⟨[i, i], _, Only.nil.cons.cons, exec_one h1 (exec_one (step_of (s := { s.at i c .tell with reg := h }) t1 hp rfl) rfl), .inr (at_ths (s.at i c .tell) t1)⟩
  have wr : ∀ (s : Sys) (j : Nat) (h : Slice), s.panicked = false → s.ths[i]? = some (c, .write j h) →
      ∃ ls s', Only i ls ∧ exec k s ls = some s' ∧ (s'.panicked = true ∨ s'.ths[i]? = some (c, .done)) := by
    intro s j h hp ht
    by_cases hj : ∀ x, c = .delete x → j < h.len
    · obtain ⟨ls, o, ho, e⟩ := finish k s hp ht hj
      exact ⟨ls, _, ho, e, .inr (at_ths s ht)⟩
    · cases c with
      | add x => exact absurd (fun _ e => by cases e) hj
      | delete x =>
        have hj' : ¬ j < h.len := fun h' => hj fun _ _ => h'
        exact ⟨[i], _, Only.nil.cons, exec_one (step_of ht hp (by simp only [act, if_neg hj']; rfl)) rfl, .inl rfl⟩
  have ld : ∀ (s : Sys) (j : Nat), s.panicked = false → s.ths[i]? = some (c, .load j) →
      ∃ ls s', Only i ls ∧ exec k s ls = some s' ∧ (s'.panicked = true ∨ s'.ths[i]? = some (c, .done)) := by
    intro s j hp ht
    obtain ⟨ls, s', ho, e, h⟩ := wr (s.at i c (.write j s.reg)) j s.reg hp (at_ths s ht)
    exact ⟨i :: ls, s', ho.cons, exec_one (step_of ht hp rfl) e, h⟩
  have pb : ∀ (s : Sys) (j : Nat), s.panicked = false → s.ths[i]? = some (c, .publish j) →
      ∃ ls s', Only i ls ∧ exec k s ls = some s' ∧ (s'.panicked = true ∨ s'.ths[i]? = some (c, .done)) := by
    intro s j hp ht
    obtain ⟨ls, s', ho, e, h⟩ := ld { s.at i c (.load j) with out := s.out ++ [i] } j hp (at_ths s ht)
    exact ⟨i :: ls, s', ho.cons, exec_one (step_of ht hp rfl) e, h⟩
  have dn : ∀ (s : Sys), s.ths[i]? = some (c, .done) →
      ∃ ls s', Only i ls ∧ exec k s ls = some s' ∧ (s'.panicked = true ∨ s'.ths[i]? = some (c, .done)) :=
    fun s ht => ⟨[], s, .nil, rfl, .inr ht⟩
  have nx : ∀ (s : Sys) (pc : Pc), s.panicked = false → s.ths[i]? = some (c, pc) → (pc = .done ∨ (∃ j, pc = .publish j) ∨ ∃ j, pc = .load j) →
      ∃ ls s', Only i ls ∧ exec k s ls = some s' ∧ (s'.panicked = true ∨ s'.ths[i]? = some (c, .done)) := by
    rintro s pc hp ht (rfl | ⟨j, rfl⟩ | ⟨j, rfl⟩)
    · exact dn s ht
    · exact pb s j hp ht
    · exact ld s j hp ht
  have sc : ∀ (n : Nat) (s : Sys) (h : Slice) (j : Nat), (s.mem.read h).length - j = n → s.panicked = false → s.ths[i]? = some (c, .scan h j) →
      ∃ ls s', Only i ls ∧ exec k s ls = some s' ∧ (s'.panicked = true ∨ s'.ths[i]? = some (c, .done)) := by
    intro n
    induction n with
    | zero =>
      intro s h j hn hp ht
      have hx : (s.mem.read h)[j]? = none := by rw [List.getElem?_eq_none_iff]; omega
      obtain ⟨ls, s', ho, e, h'⟩ := nx (s.at i c (missed c)) (missed c) hp (at_ths s ht) (by cases c <;> simp [missed])
      exact ⟨i :: ls, s', ho.cons, exec_one (step_of ht hp (by simp only [act, hx])) e, h'⟩
    | succ n ih =>
      intro s h j hn hp ht
      have hlt : j < (s.mem.read h).length := by omega
      have hx : (s.mem.read h)[j]? = some (s.mem.read h)[j] := List.getElem?_eq_getElem hlt
      by_cases hv : (s.mem.read h)[j] = c.item
      · obtain ⟨ls, s', ho, e, h'⟩ := nx (s.at i c (found k j c)) (found k j c) hp (at_ths s ht) (by
          cases c with
          | add x => exact .inl rfl
          | delete x => simp only [found]; split <;> simp)
        exact ⟨i :: ls, s', ho.cons, exec_one (step_of ht hp (by simp only [act, hx, if_pos hv])) e, h'⟩
      · obtain ⟨ls, s', ho, e, h'⟩ := ih (s.at i c (.scan h (j + 1))) h (j + 1) (by show (s.mem.read h).length - (j + 1) = n; omega) hp (at_ths s ht)
        exact ⟨i :: ls, s', ho.cons, exec_one (step_of ht hp (by simp only [act, hx, if_neg hv])) e, h'⟩
  cases pc with
  | idle =>
    obtain ⟨ls, s', ho, e, h⟩ := sc _ (s.at i c (.scan s.reg 0)) s.reg 0 rfl hp (at_ths s ht)
    exact ⟨i :: ls, s', ho.cons, exec_one (step_of ht hp rfl) e, h⟩
  | scan h j => exact sc _ s h j rfl hp ht
  | publish j => exact pb s j hp ht
  | load j => exact ld s j hp ht
  | write j h => exact wr s j h hp ht
  | store h => exact fin s h hp ht
  | tell => exact ⟨[i], _, Only.nil.cons, exec_one (step_of ht hp rfl) rfl, .inr (at_ths s ht)⟩
  | done => exact dn s ht

/-! ## Examples -/

/-- A registry that shows `l`, in an array without room, and callers that have not begun. -/
def start (l : List Nat) (calls : List Call) : Sys := ⟨⟨fun a => if a = 1 then l else [], 2⟩, ⟨1, l.length⟩, calls.map (·, .idle), [], false⟩

theorem start_items (l : List Nat) (calls : List Call) : (start l calls).items = l := by simp [start, Sys.items, Mem.read]

theorem start_sound (l : List Nat) (calls : List Call) (h : l.Nodup) : Sound (start l calls) := by
  refine ⟨rfl, ⟨by simp [start], by simp [start]⟩, by rw [start_items]; exact h, ?_⟩
  intro i c pc hi
  simp only [start, List.getElem?_map, Option.map_eq_some_iff] at hi
  obtain ⟨d, _, hd⟩ := hi
  injection hd with _ hd; exact .inl hd.symm

theorem start_ths (l : List Nat) (calls : List Call) (i : Nat) (c : Call) (pc : Pc) : (start l calls).ths[i]? = some (c, pc) ↔ calls[i]? = some c ∧ pc = .idle := by
  simp only [start, List.getElem?_map, Option.map_eq_some_iff]
  constructor
  · rintro ⟨d, hd, e⟩; injection e with e1 e2; subst e1; exact ⟨hd, e2.symm⟩
  · rintro ⟨h, rfl⟩; exact ⟨c, h, rfl⟩

/-- C93 fails: whatever is registered, if two goroutines add two new items at the same time one of them may be lost. -/
theorem c93_violated (k : Conf) (l : List Nat) (hl : l.Nodup) (x y : Nat) (hxy : x ≠ y) (hx : x ∉ l) (hy : y ∉ l) :
    ∃ ls s', exec k (start l [.add x, .add y]) ls = some s' ∧ AtRest s' ∧ Made (start l [.add x, .add y]) s' 0 (.add x) ∧ x ∉ s'.items := by
  obtain ⟨ls, s', _, e, hr, h | ⟨_, h, _⟩⟩ := clash k (start l [.add x, .add y]) (start_sound _ _ hl) (i := 0) (j := 1) (by omega) (c := .add x) (d := .add y)
    rfl rfl (by rw [start_items]; exact hx) (by rw [start_items]; exact hy) hxy (.inl ⟨x, rfl⟩)
  · obtain ⟨_, e', hm, h⟩ := h
    cases e'
    exact ⟨ls, s', e, hr, hm, h⟩
  · cases h

-- endpoints 1, 2, 3; one goroutine deletes 2, others add 1, 3 (registered) and delete 9 (not registered): all of them apart
example : Sound (start [1, 2, 3] [.delete 2, .add 1, .add 3, .delete 9]) ∧ Ready (start [1, 2, 3] [.delete 2, .add 1, .add 3, .delete 9]) [0, 1, 2, 3] ∧
    Apart (start [1, 2, 3] [.delete 2, .add 1, .add 3, .delete 9]) [0, 1, 2, 3] := by
  refine ⟨start_sound _ _ (by decide), ⟨?_, ?_⟩, ⟨?_, ?_⟩⟩
  · intro i hi; simp only [List.mem_cons, List.not_mem_nil, or_false] at hi; rcases hi with rfl | rfl | rfl | rfl <;> exact ⟨_, rfl⟩
  · intro i hi j hj c d pc pd hc hd e
    rw [start_ths] at hc hd
    simp only [List.mem_cons, List.not_mem_nil, or_false] at hi hj
    rcases hi with rfl | rfl | rfl | rfl <;> rcases hj with rfl | rfl | rfl | rfl <;> simp at hc hd <;> obtain ⟨rfl, _⟩ := hc <;> obtain ⟨rfl, _⟩ := hd <;> first | rfl | simp [Call.item] at e
  · intro i hi j hj c d pc pd hc hd e e'
    rw [start_items] at e e'
    rw [start_ths] at hc hd
    simp only [List.mem_cons, List.not_mem_nil, or_false] at hi hj
    rcases hi with rfl | rfl | rfl | rfl <;> rcases hj with rfl | rfl | rfl | rfl <;> simp at hc hd <;> obtain ⟨rfl, _⟩ := hc <;> obtain ⟨rfl, _⟩ := hd <;> first | rfl | (simp [Effective] at e e')
  · intro i hi j hj y z pc pd hc hd
    rw [start_items]
    rw [start_ths] at hc hd
    rintro ⟨a, b, c, h, hne⟩
    simp only [List.mem_cons, List.not_mem_nil, or_false] at hi hj
    rcases hi with rfl | rfl | rfl | rfl <;> rcases hj with rfl | rfl | rfl | rfl <;> simp at hc hd <;> obtain ⟨rfl, _⟩ := hc <;> obtain ⟨rfl, _⟩ := hd <;>
      (have hlen := congrArg List.length h
       match a, b, c with
       | [], [], [] => simp at hne
       | [], [], [_] => simp at h
       | [_], [], [] => simp at hne
       | [], [_], [] => simp at hne
       | _ :: _ :: _, _, _ => simp at hlen; try omega
       | [], _ :: _ :: _, _ => simp at hlen; try omega
       | [], [], _ :: _ :: _ => simp at hlen; try omega
       | [_], _ :: _, _ => simp at hlen; try omega
       | [_], _, _ :: _ => simp at hlen; try omega
       | [], _ :: _, _ :: _ => simp at hlen; try omega)

-- two goroutines delete 1 and 2 of the endpoints 1, 2, 3, 4: 3 is removed, 2 stays
example : ∃ ls s', exec ⟨true, fun n => n⟩ (start [1, 2, 3, 4] [.delete 1, .delete 2]) ls = some s' ∧ s'.items = [2, 4] := by
  obtain ⟨ls, s', _, e, _, _, _, h⟩ := c93_wrong ⟨true, fun n => n⟩ (start [1, 2, 3, 4] [.delete 1, .delete 2]) (start_sound _ _ (by decide)) (i := 0) (j := 1)
    (by omega) (x := 1) (y := 2) (z := 3) (a := []) (b := []) (c := [4]) rfl rfl (by rw [start_items]; rfl)
  exact ⟨ls, s', e, h⟩

-- ... and 2 of the endpoints 1, 2: a panic; the same schedule step by step
example : ∃ ls s', exec ⟨true, fun n => n⟩ (start [1, 2] [.delete 1, .delete 2]) ls = some s' ∧ s'.panicked = true := by
  obtain ⟨ls, s', _, e, h⟩ := c93_panics ⟨true, fun n => n⟩ (start [1, 2] [.delete 1, .delete 2]) (start_sound _ _ (by decide)) (i := 0) (j := 1)
    (by omega) (x := 1) (y := 2) rfl rfl (by rw [start_items]; decide) (by rw [start_items]; rfl)
  exact ⟨ls, s', e, h⟩

example : (exec ⟨true, fun n => n⟩ (start [1, 2] [.delete 1, .delete 2]) [1, 1, 1, 1, 0, 0, 0, 0, 0, 0, 1, 1]).map (·.panicked) = some true := by decide

-- one goroutine deletes 1 of the endpoints 1, 2, 3 while another adds 2, which is registered: afterwards 2 is registered twice
example : (exec ⟨true, fun n => n⟩ (start [1, 2, 3] [.delete 1, .add 2]) [1, 1, 0, 0, 0, 0, 0, 0, 1, 1, 1, 1, 1, 1, 1]).map (fun s => (s.items, s.ths.map (·.2), s.out)) =
    some ([2, 3, 2], [.done, .done], [0, 1]) := by decide

end Verif.Reg.Callers
