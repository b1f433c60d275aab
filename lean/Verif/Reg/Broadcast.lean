import Verif.Trace
import Verif.Reg.Publish

/-!
# Events published by some goroutines while another one adds and deletes endpoints (C96)

`PublishEvent` (ustack_default.go:309-326) runs over `u.endpoints` with `range`: the slice is taken once and its elements are read from the
array one by one. Connections are accepted and read by goroutines of their own, each publishing events (proc_lowerdeck.go:22-90), while the
program adds and deletes endpoints (ustack_default.go:195-233): nothing is locked. In contrast to C70 the changes come at any moment, not from a
listener; in contrast to C93 it is the events that are followed, not the registry.

Any number of goroutines publish, each at any moment; one goroutine (or several that take turns) makes the additions and deletions `todo` one
after the other. Atomic are: taking the slice, telling one endpoint, one addition or deletion (`Publish.op`, ustack_default.go:195-233).
Simplifications: the events the additions and deletions publish are not followed separately (a `begin` at any moment stands for them); the
deck events and the processors, told after the endpoints, are left out; an endpoint's listener only observes.
-/

namespace Verif.Reg.Broadcast

open Verif Publish

/-- An event on its way. -/
structure Pub where
  /-- the slice the loop runs over, and the next index -/
  h : Slice
  next : Nat
  /-- the endpoints told so far -/
  told : List Nat
  /-- for the claim only: the registry as it was when the loop began, and after each change while the loop was running -/
  during : List (List Nat)
  deriving DecidableEq, Repr

structure Sys where
  mem : Mem Nat
  reg : Slice
  /-- the additions and deletions to come -/
  todo : List Op
  pubs : List Pub

/-- What `GetEndPoint` shows (ustack_default.go:236-238). -/
def Sys.items (s : Sys) : List Nat := s.mem.read s.reg

inductive Label
  /-- the next addition or deletion -/
  | call
  /-- a goroutine begins to publish -/
  | begin
  /-- the `i`-th publisher tells the next endpoint -/
  | tell (i : Nat)
  deriving DecidableEq, Repr

/-- The loop has not come to its end. -/
def Pub.Busy (p : Pub) : Prop := p.next < p.h.len

instance (p : Pub) : Decidable p.Busy := inferInstanceAs (Decidable (_ < _))

def Pub.note (l : List Nat) (p : Pub) : Pub := if p.Busy then { p with during := p.during ++ [l] } else p

def step (s : Sys) : Label → Option Sys
  | .call =>
    match s.todo with
    | [] => none
    | o :: rest =>
      -- ustack_default.go:195-233
      let r := op ⟨s.mem, s.reg, []⟩ o
      some ⟨r.mem, r.eps, rest, s.pubs.map (Pub.note r.list)⟩
  -- ustack_default.go:313, the range expression
  | .begin => some { s with pubs := s.pubs ++ [⟨s.reg, 0, [], [s.items]⟩] }
  | .tell i =>
    match s.pubs[i]? with
    | none => none
    | some p =>
      -- ustack_default.go:313-315
      match (s.mem.read p.h)[p.next]? with
      | none => none
      | some e => some { s with pubs := s.pubs.set i { p with next := p.next + 1, told := p.told ++ [e] } }

abbrev exec := Trace.exec step

/-! ## The claim -/

/-- Registered when the event was published and ever since. -/
def Pub.stays (p : Pub) (e : Nat) : Bool := p.during.all (fun l => decide (e ∈ l))

/-- Those that stay have been told once each, in the order of registration; nobody else has been told but endpoints registered at some time
meanwhile. -/
structure Pub.Right (p : Pub) : Prop where
  once : p.told.filter p.stays = (p.during.headD []).filter p.stays
  known : ∀ e ∈ p.told, ∃ l ∈ p.during, e ∈ l

/-- Whatever the interleaving, every event whose loop has ended has reached the right endpoints. -/
def AllRight (s : Sys) : Prop := ∀ ls s', exec s ls = some s' → ∀ p ∈ s'.pubs, ¬ p.Busy → p.Right

/-- Every endpoint deleted is the one registered last at that time. -/
def Tidy : List Nat → List Op → Prop
  | _, [] => True
  | l, .add e _ :: ops => Tidy (if e ∈ l then l else l ++ [e]) ops
  | l, .delete e :: ops => (e ∈ l → l.getLast? = some e) ∧ Tidy (l.erase e) ops

/-- A registry at rest. -/
structure Sound (s : Sys) : Prop where
  ok : s.mem.Ok s.reg
  nodup : s.items.Nodup
  quiet : s.pubs = []

/-! ## The registry -/

theorem op_add_in {m : Mem Nat} {r : Slice} {e spare : Nat} (he : e ∈ m.read r) : op ⟨m, r, []⟩ (.add e spare) = ⟨m, r, []⟩ := by
  show (if e ∈ m.read r then _ else _) = _
  rw [if_pos he]

theorem op_add_out {m : Mem Nat} {r : Slice} {e spare : Nat} (he : e ∉ m.read r) :
    op ⟨m, r, []⟩ (.add e spare) = ⟨(m.append 0 spare r e).1, (m.append 0 spare r e).2, []⟩ := by
  show (if e ∈ m.read r then _ else _) = _
  rw [if_neg he]

theorem op_items_add (m : Mem Nat) (r : Slice) (h : m.Ok r) (e spare : Nat) :
    (op ⟨m, r, []⟩ (.add e spare)).list = if e ∈ m.read r then m.read r else m.read r ++ [e] := by
  by_cases he : e ∈ m.read r
  · rw [if_pos he, op_add_in he]; rfl
  · rw [if_neg he, op_add_out he]; exact Mem.read_append h

theorem idxOf?_of_mem {l : List Nat} {e : Nat} (h : e ∈ l) : l.idxOf? e = some (l.idxOf e) := by
  induction l with
  | nil => simp at h
  | cons a l ih =>
    rw [List.idxOf?_cons, List.idxOf_cons]
    by_cases hb : a == e
    · simp [hb]
    · have : e ∈ l := by
        rcases List.mem_cons.mp h with h | h
        · subst h; simp at hb
        · exact h
      simp [hb, ih this]

theorem idxOf?_of_not_mem {l : List Nat} {e : Nat} (h : e ∉ l) : l.idxOf? e = none := by
  rw [List.idxOf?_eq_none_iff]; simpa using h

theorem erase_eq_eraseIdx_idxOf (l : List Nat) (e : Nat) : l.erase e = l.eraseIdx (l.idxOf e) := by
  induction l with
  | nil => rfl
  | cons a l ih =>
    rw [List.erase_cons, List.idxOf_cons]
    by_cases hb : a == e <;> simp [hb, ih]

theorem op_delete_in {m : Mem Nat} {r : Slice} {e : Nat} (he : e ∈ m.read r) :
    op ⟨m, r, []⟩ (.delete e) = ⟨(m.deleteAt r ((m.read r).idxOf e)).1, (m.deleteAt r ((m.read r).idxOf e)).2, []⟩ := by
  have := idxOf?_of_mem he
  simp only [op, St.list, this]

theorem op_delete_out {m : Mem Nat} {r : Slice} {e : Nat} (he : e ∉ m.read r) : op ⟨m, r, []⟩ (.delete e) = ⟨m, r, []⟩ := by
  have := idxOf?_of_not_mem he
  simp only [op, St.list, this]

theorem idx_lt_len {m : Mem Nat} {r : Slice} (h : m.Ok r) {e : Nat} (he : e ∈ m.read r) : (m.read r).idxOf e < r.len := by
  have := List.idxOf_lt_length_of_mem he
  rw [Mem.read_length h] at this
  exact this

theorem op_items_delete (m : Mem Nat) (r : Slice) (h : m.Ok r) (e : Nat) : (op ⟨m, r, []⟩ (.delete e)).list = (m.read r).erase e := by
  by_cases he : e ∈ m.read r
  · rw [op_delete_in he, erase_eq_eraseIdx_idxOf]
    exact Mem.read_deleteAt h (idx_lt_len h he)
  · rw [op_delete_out he, List.erase_of_not_mem he]; rfl

theorem op_ok (m : Mem Nat) (r : Slice) (h : m.Ok r) (o : Op) : (op ⟨m, r, []⟩ o).mem.Ok (op ⟨m, r, []⟩ o).eps := by
  cases o with
  | add e spare =>
    simp only [op]
    split
    · exact h
    · exact Mem.ok_append h
  | delete e =>
    by_cases he : e ∈ m.read r
    · rw [op_delete_in he]; exact Mem.ok_deleteAt h (idx_lt_len h he)
    · rw [op_delete_out he]; exact h

/-- What the registry is after a call. -/
def after (l : List Nat) : Op → List Nat
  | .add e _ => if e ∈ l then l else l ++ [e]
  | .delete e => l.erase e

theorem op_items (m : Mem Nat) (r : Slice) (h : m.Ok r) (o : Op) : (op ⟨m, r, []⟩ o).list = after (m.read r) o := by
  cases o with
  | add e spare => exact op_items_add m r h e spare
  | delete e => exact op_items_delete m r h e

theorem after_nodup {l : List Nat} (h : l.Nodup) (o : Op) : (after l o).Nodup := by
  cases o with
  | add e spare =>
    simp only [after]
    split
    · exact h
    · rename_i he
      rw [List.nodup_append]
      refine ⟨h, by simp, ?_⟩
      intro a ha b hb
      simp only [List.mem_singleton] at hb
      subst hb
      intro hab; subst hab; exact he ha
  | delete e => exact h.erase e

theorem tidy_cons {l : List Nat} {o : Op} {ops : List Op} : Tidy l (o :: ops) ↔ (∀ e, o = .delete e → e ∈ l → l.getLast? = some e) ∧ Tidy (after l o) ops := by
  cases o with
  | add e spare => simp [Tidy, after]
  | delete e => simp [Tidy, after]

/-- An older slice still fits its array after a call. -/
theorem op_fits {m : Mem Nat} {r t : Slice} (h : m.Ok r) (ht : m.Ok t) (o : Op) : (op ⟨m, r, []⟩ o).mem.Ok t := by
  cases o with
  | add e spare =>
    simp only [op]
    split
    · exact ht
    · simp only [Mem.append]
      split
      · refine ⟨?_, ht.old⟩
        simp only [Mem.put]
        split
        · rename_i e'; rw [List.length_set, ← e']; exact ht.len
        · exact ht.len
      · refine ⟨?_, Nat.lt_succ_of_lt ht.old⟩
        simp only [Mem.put]
        rw [if_neg (by have := ht.old; omega)]
        exact ht.len
  | delete e =>
    by_cases he : e ∈ m.read r
    · rw [op_delete_in he]
      refine ⟨?_, ht.old⟩
      by_cases ha : t.arr = r.arr
      · show t.len ≤ ((m.deleteAt r _).1.arrs t.arr).length
        rw [ha, Mem.deleteAt_length h (idx_lt_len h he), ← ha]; exact ht.len
      · simp only [Mem.deleteAt, Mem.put, if_neg ha]; exact ht.len
    · rw [op_delete_out he]; exact ht

/-- What an older slice shows after an addition: the same, but the slot behind the registered endpoints may hold the new one. -/
theorem view_add {m : Mem Nat} {r t : Slice} {e spare : Nat} (he : e ∉ m.read r) {j x : Nat} (ht : m.Ok t)
    (hx : ((op ⟨m, r, []⟩ (.add e spare)).mem.read t)[j]? = some x) : (m.read t)[j]? = some x ∨ (t.arr = r.arr ∧ j = r.len ∧ x = e) := by
  rw [op_add_out he] at hx
  simp only [Mem.append] at hx
  split at hx
  · rename_i hlt
    simp only [Mem.read, Mem.put] at hx ⊢
    split at hx
    · rename_i ha
      rw [List.getElem?_take] at hx ⊢
      split at hx
      · rename_i hj
        rw [List.getElem?_set] at hx
        split at hx
        · rename_i hjr
          exact Or.inr ⟨ha, hjr.symm, by injection hx with hx; exact hx.symm⟩
        · rw [if_pos hj, ha]; exact Or.inl hx
      · cases hx
    · exact Or.inl hx
  · simp only [Mem.read, Mem.put] at hx ⊢
    rw [if_neg (by have := ht.old; omega)] at hx
    exact Or.inl hx

/-- What an older slice shows after a deletion: each slot shows what it showed, or one of the endpoints registered. -/
theorem view_delete {m : Mem Nat} {r t : Slice} (h : m.Ok r) {e : Nat} {j x : Nat}
    (hx : ((op ⟨m, r, []⟩ (.delete e)).mem.read t)[j]? = some x) : (m.read t)[j]? = some x ∨ x ∈ m.read r := by
  by_cases he : e ∈ m.read r
  · rw [op_delete_in he] at hx
    have hi := idx_lt_len h he
    generalize (m.read r).idxOf e = i at hx hi
    by_cases ha : t.arr = r.arr
    · simp only [Mem.deleteAt, Mem.read, Mem.put, if_pos ha] at hx
      rw [List.getElem?_take] at hx
      split at hx
      · rename_i hj
        have hl := h.len
        rw [List.getElem?_append] at hx
        split at hx
        · rw [List.getElem?_append] at hx
          split at hx
          · rename_i hji
            rw [List.getElem?_take] at hx
            split at hx
            · left
              rw [Mem.read, ha, List.getElem?_take, if_pos hj]; exact hx
            · cases hx
          · right
            have := List.mem_of_getElem? hx
            exact List.mem_of_mem_drop this
        · rename_i hlong
          have hlen : (List.take i (m.arrs r.arr) ++ List.drop (i + 1) (List.take r.len (m.arrs r.arr))).length = r.len - 1 := by
            simp only [List.length_append, List.length_take, List.length_drop]; omega
          rw [hlen] at hx hlong
          rw [List.getElem?_drop, show r.len - 1 + (j - (r.len - 1)) = j by omega] at hx
          left
          rw [Mem.read, ha, List.getElem?_take, if_pos hj]; exact hx
      · cases hx
    · rw [Mem.deleteAt_other ha] at hx
      exact Or.inl hx
  · rw [op_delete_out he] at hx
    exact Or.inl hx

/-- Deleting the last endpoint moves nothing. -/
theorem view_delete_last {m : Mem Nat} {r t : Slice} (h : m.Ok r) (hn : (m.read r).Nodup) {e : Nat} (hl : e ∈ m.read r → (m.read r).getLast? = some e) :
    (op ⟨m, r, []⟩ (.delete e)).mem.read t = m.read t := by
  by_cases he : e ∈ m.read r
  · rw [op_delete_in he]
    have hlen := Mem.read_length h
    have hi : (m.read r).idxOf e = r.len - 1 := by
      have hl := hl he
      rw [List.getLast?_eq_getElem?] at hl
      obtain ⟨hb, hg⟩ := List.getElem?_eq_some_iff.mp hl
      rw [← hg, hn.idxOf_getElem, hlen]
    have hlt := idx_lt_len h he
    rw [hi] at hlt ⊢
    by_cases ha : t.arr = r.arr
    · have hsame : List.take (r.len - 1) (m.arrs r.arr) ++ List.drop (r.len - 1 + 1) (List.take r.len (m.arrs r.arr)) ++ List.drop (r.len - 1) (m.arrs r.arr) = m.arrs r.arr := by
        rw [List.drop_of_length_le (l := List.take r.len (m.arrs r.arr)) (by simp only [List.length_take]; omega), List.append_nil, List.take_append_drop]
      simp only [Mem.deleteAt, Mem.read, Mem.put, if_pos ha, hsame]
      rw [ha]
    · exact Mem.deleteAt_other ha
  · rw [op_delete_out he]

/-! ## Nobody is told who was not registered -/

structure Known (s : Sys) (p : Pub) : Prop where
  told : ∀ e ∈ p.told, ∃ l ∈ p.during, e ∈ l
  ok : p.Busy → s.mem.Ok p.h
  view : p.Busy → ∀ e ∈ s.mem.read p.h, ∃ l ∈ p.during, e ∈ l
  now : p.Busy → s.items ∈ p.during

theorem note_busy {l : List Nat} {p : Pub} (h : (p.note l).Busy) : p.Busy := by
  unfold Pub.note at h
  split at h
  · assumption
  · exact h

theorem note_busy' {l : List Nat} {p : Pub} (h : p.Busy) : (p.note l).Busy := by
  unfold Pub.note
  rw [if_pos h]; exact h

theorem known_step (s s' : Sys) (l : Label) (h : s.mem.Ok s.reg ∧ ∀ p ∈ s.pubs, Known s p) (hs : step s l = some s') :
    s'.mem.Ok s'.reg ∧ ∀ p ∈ s'.pubs, Known s' p := by
  obtain ⟨ok, h⟩ := h
  cases l with
  | call =>
    simp only [step] at hs
    split at hs
    · cases hs
    · rename_i o rest _
      injection hs with hs; subst hs
      refine ⟨op_ok _ _ ok o, ?_⟩
      intro q hq
      obtain ⟨p, hp, rfl⟩ := List.mem_map.mp hq
      have hk := h p hp
      by_cases hb : p.Busy
      · have hnote : p.note (op ⟨s.mem, s.reg, []⟩ o).list = { p with during := p.during ++ [(op ⟨s.mem, s.reg, []⟩ o).list] } := by
          unfold Pub.note; rw [if_pos hb]
        rw [hnote]
        have grow : ∀ e, (∃ l ∈ p.during, e ∈ l) → ∃ l ∈ p.during ++ [(op ⟨s.mem, s.reg, []⟩ o).list], e ∈ l := by
          rintro e ⟨l, hl, he⟩
          exact ⟨l, List.mem_append_left _ hl, he⟩
        refine ⟨fun e he => grow e (hk.told e he), fun _ => op_fits ok (hk.ok hb) o, ?_, fun _ => ?_⟩
        · intro _ e he
          obtain ⟨j, hj⟩ := List.mem_iff_getElem?.mp he
          cases o with
          | add x spare =>
            by_cases hx : x ∈ s.mem.read s.reg
            · rw [op_add_in hx] at hj
              exact grow e (hk.view hb e (List.mem_of_getElem? hj))
            · rcases view_add hx (hk.ok hb) hj with hj | ⟨_, _, rfl⟩
              · exact grow e (hk.view hb e (List.mem_of_getElem? hj))
              · refine ⟨_, List.mem_append_right _ List.mem_cons_self, ?_⟩
                rw [op_items_add _ _ ok, if_neg hx]; simp
          | delete x =>
            rcases view_delete ok hj with hj | hj
            · exact grow e (hk.view hb e (List.mem_of_getElem? hj))
            · exact grow e ⟨_, hk.now hb, hj⟩
        · show (op ⟨s.mem, s.reg, []⟩ o).list ∈ _
          simp
      · have hnote : p.note (op ⟨s.mem, s.reg, []⟩ o).list = p := by unfold Pub.note; rw [if_neg hb]
        rw [hnote]
        exact ⟨hk.told, fun b => absurd b hb, fun b => absurd b hb, fun b => absurd b hb⟩
  | begin =>
    injection hs with hs; subst hs
    refine ⟨ok, ?_⟩
    intro p hp
    rcases List.mem_append.mp hp with hp | hp
    · exact ⟨(h p hp).told, (h p hp).ok, (h p hp).view, (h p hp).now⟩
    · simp only [List.mem_singleton] at hp
      subst hp
      exact ⟨by simp, fun _ => ok, fun _ e he => ⟨s.items, by simp, he⟩, fun _ => by simp [Sys.items]⟩
  | tell i =>
    simp only [step] at hs
    split at hs
    · cases hs
    · rename_i p hp
      split at hs
      · cases hs
      · rename_i e he
        injection hs with hs; subst hs
        refine ⟨ok, ?_⟩
        intro q hq
        rcases List.mem_or_eq_of_mem_set hq with hq | rfl
        · exact ⟨(h q hq).told, (h q hq).ok, (h q hq).view, (h q hq).now⟩
        · have hk := h p (List.mem_of_getElem? hp)
          have hlt : p.next < p.h.len := by
            have := (List.getElem?_eq_some_iff.mp he).1
            simp only [Mem.read, List.length_take] at this
            omega
          refine ⟨?_, fun _ => hk.ok hlt, fun _ => hk.view hlt, fun _ => hk.now hlt⟩
          intro x hx
          rcases List.mem_append.mp hx with hx | hx
          · exact hk.told x hx
          · simp only [List.mem_singleton] at hx
            subst hx
            exact hk.view hlt x (List.mem_of_getElem? he)

/-- C96, the second half, for every program: only endpoints registered at some time between the beginning and the end of the loop are told. -/
theorem c96_known (s s' : Sys) (hs : Sound s) (ls : List Label) (he : exec s ls = some s') : ∀ p ∈ s'.pubs, ∀ e ∈ p.told, ∃ l ∈ p.during, e ∈ l := by
  have := Trace.invariant (step := step) (P := fun s => s.mem.Ok s.reg ∧ ∀ p ∈ s.pubs, Known s p) (Q := fun _ => True)
    (fun s l s' h _ hst => known_step s s' l h hst) ls s s' ⟨hs.ok, by rw [hs.quiet]; simp⟩ (by simp) he
  exact fun p hp => (this.2 p hp).told

/-! ## Deletions of the last endpoint only -/

/-- `w` shows the first `m` endpoints of `l0` at their places and none of them elsewhere. -/
def Fits (m : Nat) (l0 w : List Nat) : Prop := ∀ j x, w[j]? = some x → (j < m → l0[j]? = some x) ∧ (m ≤ j → x ∉ l0.take m)

theorem not_mem_take {l : List Nat} (hn : l.Nodup) {j m x : Nat} (hj : l[j]? = some x) (h : m ≤ j) : x ∉ l.take m := by
  intro hx
  obtain ⟨i, hi⟩ := List.mem_iff_getElem?.mp hx
  rw [List.getElem?_take] at hi
  split at hi
  · have h1 := (List.getElem?_eq_some_iff.mp hi)
    have h2 := (List.getElem?_eq_some_iff.mp hj)
    obtain ⟨b1, e1⟩ := h1
    obtain ⟨b2, e2⟩ := h2
    have := (List.getElem_inj hn (h₀ := b1) (h₁ := b2)).mp (by rw [e1, e2])
    omega
  · cases hi

theorem mem_take_mono {l : List Nat} {m m' x : Nat} (h : m' ≤ m) (hx : x ∈ l.take m') : x ∈ l.take m := by
  rw [← Nat.min_eq_left h, ← List.take_take] at hx
  exact List.mem_of_mem_take hx

theorem Fits.mono {m m' : Nat} {l0 w : List Nat} (hn : l0.Nodup) (h : Fits m l0 w) (hm : m' ≤ m) : Fits m' l0 w := by
  intro j x hj
  obtain ⟨h1, h2⟩ := h j x hj
  refine ⟨fun hlt => h1 (by omega), fun hle => ?_⟩
  by_cases hjm : j < m
  · exact not_mem_take hn (h1 hjm) hle
  · exact fun hx => h2 (by omega) (mem_take_mono hm hx)

theorem Fits.filter {m : Nat} {l0 w : List Nat} (hn : l0.Nodup) (hm : m ≤ l0.length) (h : Fits m l0 w) (hlen : w.length = l0.length) {f : Nat → Bool}
    (hf : ∀ e, f e = true ↔ e ∈ l0.take m) : w.filter f = l0.filter f := by
  have hl0 : Fits m l0 l0 := fun j x hj => ⟨fun _ => hj, fun hle => not_mem_take hn hj hle⟩
  have hall : ∀ v : List Nat, Fits m l0 v → v.length = l0.length → v.filter f = l0.take m := by
    intro v hv hvl
    have ht : v.take m = l0.take m := by
      apply List.ext_getElem?
      intro j
      rw [List.getElem?_take, List.getElem?_take]
      split
      · rename_i hj
        have hb : j < v.length := by omega
        rw [List.getElem?_eq_getElem hb]
        exact ((hv j _ (List.getElem?_eq_getElem hb)).1 hj).symm
      · rfl
    rw [← List.take_append_drop m v, List.filter_append, ht]
    rw [List.filter_eq_self.mpr (fun a ha => (hf a).mpr ha)]
    rw [List.filter_eq_nil_iff.mpr, List.append_nil]
    intro a ha hfa
    obtain ⟨j, hj⟩ := List.mem_iff_getElem?.mp ha
    rw [List.getElem?_drop] at hj
    exact (hv _ a hj).2 (by omega) ((hf a).mp hfa)
  rw [hall w h hlen, hall l0 hl0 rfl]

theorem Fits.snoc {m : Nat} {l0 v w : List Nat} (h : Fits m l0 w) (hv : Fits m l0 v) {x : Nat} (hx : v[w.length]? = some x) : Fits m l0 (w ++ [x]) := by
  intro j y hj
  rw [List.getElem?_append] at hj
  split at hj
  · exact h j y hj
  · rename_i hlt
    have : j = w.length := by
      have := (List.getElem?_eq_some_iff.mp hj).1
      simp only [List.length_singleton] at this
      omega
    subst this
    simp only [Nat.sub_self, List.getElem?_cons_zero] at hj
    injection hj with hj
    subst hj
    exact hv _ _ hx

/-- A loop under way: `m` of the endpoints it began with are still registered, the first ones. -/
structure Live (s : Sys) (p : Pub) (l0 : List Nat) (m : Nat) : Prop where
  ok : s.mem.Ok p.h
  head : p.during.headD [] = l0
  nodup : l0.Nodup
  len : p.h.len = l0.length
  short : m ≤ l0.length
  pre : l0.take m <+: s.items
  stay : ∀ e, p.stays e = true ↔ e ∈ l0.take m
  view : Fits m l0 (s.mem.read p.h)
  told : Fits m l0 p.told
  count : p.told.length = p.next
  nonempty : p.during ≠ []

structure Good (s : Sys) : Prop where
  ok : s.mem.Ok s.reg
  nodup : s.items.Nodup
  tidy : Tidy s.items s.todo
  busy : ∀ p ∈ s.pubs, p.Busy → ∃ l0 m, Live s p l0 m
  ended : ∀ p ∈ s.pubs, ¬ p.Busy → p.told.filter p.stays = (p.during.headD []).filter p.stays

theorem stays_snoc (p : Pub) (l : List Nat) (e : Nat) : Pub.stays { p with during := p.during ++ [l] } e = (p.stays e && decide (e ∈ l)) := by
  simp [Pub.stays, List.all_append]

theorem live_call {s : Sys} (ok : s.mem.Ok s.reg) (hn : s.items.Nodup) {o : Op} (hd : ∀ e, o = .delete e → e ∈ s.items → s.items.getLast? = some e)
    {p : Pub} {l0 : List Nat} {m : Nat} (h : Live s p l0 m) {rest : List Op} {ps : List Pub} :
    ∃ m', Live ⟨(op ⟨s.mem, s.reg, []⟩ o).mem, (op ⟨s.mem, s.reg, []⟩ o).eps, rest, ps⟩
      { p with during := p.during ++ [(op ⟨s.mem, s.reg, []⟩ o).list] } l0 m' := by
  have hhead : (p.during ++ [(op ⟨s.mem, s.reg, []⟩ o).list]).headD [] = l0 := by
    rw [← h.head]
    have := h.nonempty
    cases hd : p.during with
    | nil => exact absurd hd this
    | cons a t => rfl
  cases o with
  | add e spare =>
    by_cases he : e ∈ s.mem.read s.reg
    · have hop : op ⟨s.mem, s.reg, []⟩ (.add e spare) = ⟨s.mem, s.reg, []⟩ := op_add_in he
      rw [hop] at hhead ⊢
      refine ⟨m, h.ok, hhead, h.nodup, h.len, h.short, h.pre, ?_, h.view, h.told, h.count, by simp⟩
      intro x
      rw [stays_snoc, Bool.and_eq_true, h.stay, decide_eq_true_iff]
      exact ⟨And.left, fun hx => ⟨hx, h.pre.subset hx⟩⟩
    · have hit : (op ⟨s.mem, s.reg, []⟩ (.add e spare)).list = s.items ++ [e] := by rw [op_items_add _ _ ok, if_neg he]; rfl
      refine ⟨m, op_fits ok h.ok _, hhead, h.nodup, h.len, h.short, ?_, ?_, ?_, h.told, h.count, by simp⟩
      · show l0.take m <+: (op ⟨s.mem, s.reg, []⟩ (.add e spare)).list
        rw [hit]
        exact h.pre.trans (List.prefix_append _ _)
      · intro x
        rw [stays_snoc, Bool.and_eq_true, h.stay, decide_eq_true_iff, hit]
        exact ⟨And.left, fun hx => ⟨hx, List.mem_append_left _ (h.pre.subset hx)⟩⟩
      · intro j x hj
        rcases view_add he h.ok hj with hj | ⟨_, rfl, rfl⟩
        · exact h.view j x hj
        · refine ⟨fun hlt => ?_, fun _ hx => he (h.pre.subset hx)⟩
          have := h.pre.length_le
          rw [List.length_take, Nat.min_eq_left h.short, Sys.items, Mem.read_length ok] at this
          omega
  | delete e =>
    have hd := hd e rfl
    have hv : (op ⟨s.mem, s.reg, []⟩ (.delete e)).mem.read p.h = s.mem.read p.h := view_delete_last ok hn hd
    have hit : (op ⟨s.mem, s.reg, []⟩ (.delete e)).list = s.items.erase e := op_items_delete _ _ ok e
    by_cases he : e ∈ s.items
    · have hdl : s.items.erase e = s.items.dropLast := by
        have hl := hd he
        have hb := List.getLast?_eq_getElem? ▸ hl
        obtain ⟨hb, hg⟩ := List.getElem?_eq_some_iff.mp hb
        rw [erase_eq_eraseIdx_idxOf, ← hg, hn.idxOf_getElem, List.eraseIdx_length_sub_one]
      have hpl := h.pre.length_le
      rw [List.length_take, Nat.min_eq_left h.short] at hpl
      have htake : l0.take m = s.items.take m := by
        have := List.prefix_iff_eq_take.mp h.pre
        rw [List.length_take, Nat.min_eq_left h.short] at this
        exact this
      by_cases hm : m ≤ s.items.length - 1
      · have hpre : l0.take m <+: s.items.dropLast := by
          rw [htake, List.dropLast_eq_take]
          rw [← Nat.min_eq_left hm, ← List.take_take]
          exact List.take_prefix _ _
        refine ⟨m, op_fits ok h.ok _, hhead, h.nodup, h.len, h.short, ?_, ?_, ?_, h.told, h.count, by simp⟩
        · show l0.take m <+: (op ⟨s.mem, s.reg, []⟩ (.delete e)).list
          rw [hit, hdl]; exact hpre
        · intro x
          rw [stays_snoc, Bool.and_eq_true, h.stay, decide_eq_true_iff, hit, hdl]
          exact ⟨And.left, fun hx => ⟨hx, hpre.subset hx⟩⟩
        · show Fits m l0 ((op ⟨s.mem, s.reg, []⟩ (.delete e)).mem.read p.h)
          rw [hv]; exact h.view
      · have hm' : m = s.items.length := by omega
        have hall : l0.take m = s.items := by rw [htake, hm', List.take_length]
        have hsub : l0.take (m - 1) = s.items.dropLast := by
          rw [List.dropLast_eq_take, ← hall, List.take_take, List.length_take, Nat.min_eq_left h.short, Nat.min_eq_left (by omega)]
        refine ⟨m - 1, op_fits ok h.ok _, hhead, h.nodup, h.len, by have := h.short; omega, ?_, ?_, ?_, h.told.mono h.nodup (by omega), h.count, by simp⟩
        · show l0.take (m - 1) <+: (op ⟨s.mem, s.reg, []⟩ (.delete e)).list
          rw [hit, hdl, hsub]; exact List.prefix_refl _
        · intro x
          rw [stays_snoc, Bool.and_eq_true, h.stay, decide_eq_true_iff, hit, hdl, ← hsub]
          exact ⟨And.right, fun hx => ⟨mem_take_mono (by omega) hx, hx⟩⟩
        · show Fits (m - 1) l0 ((op ⟨s.mem, s.reg, []⟩ (.delete e)).mem.read p.h)
          rw [hv]; exact h.view.mono h.nodup (by omega)
    · have hop : op ⟨s.mem, s.reg, []⟩ (.delete e) = ⟨s.mem, s.reg, []⟩ := op_delete_out he
      rw [hop] at hhead ⊢
      refine ⟨m, h.ok, hhead, h.nodup, h.len, h.short, h.pre, ?_, h.view, h.told, h.count, by simp⟩
      intro x
      rw [stays_snoc, Bool.and_eq_true, h.stay, decide_eq_true_iff]
      exact ⟨And.left, fun hx => ⟨hx, h.pre.subset hx⟩⟩

theorem good_step (s s' : Sys) (l : Label) (h : Good s) (hs : step s l = some s') : Good s' := by
  cases l with
  | call =>
    simp only [step] at hs
    split at hs
    · cases hs
    · rename_i o rest ht
      injection hs with hs; subst hs
      have hti := h.tidy
      rw [ht, tidy_cons] at hti
      have hit : (op ⟨s.mem, s.reg, []⟩ o).list = after s.items o := op_items _ _ h.ok o
      refine ⟨op_ok _ _ h.ok o, ?_, ?_, ?_, ?_⟩
      · show (op ⟨s.mem, s.reg, []⟩ o).list.Nodup
        rw [hit]; exact after_nodup h.nodup o
      · show Tidy (op ⟨s.mem, s.reg, []⟩ o).list rest
        rw [hit]; exact hti.2
      · intro q hq hb
        obtain ⟨p, hp, rfl⟩ := List.mem_map.mp hq
        have hpb := note_busy hb
        obtain ⟨l0, m, hl⟩ := h.busy p hp hpb
        obtain ⟨m', hl'⟩ := live_call h.ok h.nodup hti.1 hl
        refine ⟨l0, m', ?_⟩
        rw [show p.note (op ⟨s.mem, s.reg, []⟩ o).list = { p with during := p.during ++ [(op ⟨s.mem, s.reg, []⟩ o).list] } by
          unfold Pub.note; rw [if_pos hpb]]
        exact hl'
      · intro q hq hb
        obtain ⟨p, hp, rfl⟩ := List.mem_map.mp hq
        have hpb : ¬ p.Busy := fun hpb => hb (note_busy' hpb)
        rw [show p.note (op ⟨s.mem, s.reg, []⟩ o).list = p by unfold Pub.note; rw [if_neg hpb]]
        exact h.ended p hp hpb
  | begin =>
    injection hs with hs; subst hs
    refine ⟨h.ok, h.nodup, h.tidy, ?_, ?_⟩
    · intro p hp hb
      rcases List.mem_append.mp hp with hp | hp
      · obtain ⟨l0, m, hl⟩ := h.busy p hp hb
        exact ⟨l0, m, hl.ok, hl.head, hl.nodup, hl.len, hl.short, hl.pre, hl.stay, hl.view, hl.told, hl.count, hl.nonempty⟩
      · simp only [List.mem_singleton] at hp
        subst hp
        refine ⟨s.items, s.items.length, h.ok, rfl, h.nodup, (Mem.read_length h.ok).symm, Nat.le_refl _, ?_, ?_, ?_, ?_, rfl, by simp⟩
        · rw [List.take_length]; exact List.prefix_refl _
        · intro e; simp [Pub.stays, List.take_length]
        · intro j x hj
          exact ⟨fun _ => hj, fun hle => not_mem_take h.nodup hj hle⟩
        · intro j x hj; simp at hj
    · intro p hp hb
      rcases List.mem_append.mp hp with hp | hp
      · exact h.ended p hp hb
      · simp only [List.mem_singleton] at hp
        subst hp
        have : s.items = [] := by
          have hl := Mem.read_length h.ok
          simp only [Pub.Busy] at hb
          exact List.length_eq_zero_iff.mp (by show (s.mem.read s.reg).length = 0; omega)
        simp [this]
  | tell i =>
    simp only [step] at hs
    split at hs
    · cases hs
    · rename_i p hp
      split at hs
      · cases hs
      · rename_i e he
        injection hs with hs; subst hs
        have hpm := List.mem_of_getElem? hp
        have hlt : p.Busy := by
          have := (List.getElem?_eq_some_iff.mp he).1
          simp only [Mem.read, List.length_take] at this
          show p.next < p.h.len
          omega
        obtain ⟨l0, m, hl⟩ := h.busy p hpm hlt
        have ht : Fits m l0 (p.told ++ [e]) := hl.told.snoc hl.view (by rw [hl.count]; exact he)
        refine ⟨h.ok, h.nodup, h.tidy, ?_, ?_⟩
        · intro q hq hb
          rcases List.mem_or_eq_of_mem_set hq with hq | rfl
          · obtain ⟨l0, m, hl⟩ := h.busy q hq hb
            exact ⟨l0, m, hl.ok, hl.head, hl.nodup, hl.len, hl.short, hl.pre, hl.stay, hl.view, hl.told, hl.count, hl.nonempty⟩
          · exact ⟨l0, m, hl.ok, hl.head, hl.nodup, hl.len, hl.short, hl.pre, hl.stay, hl.view, ht, by simp [hl.count], hl.nonempty⟩
        · intro q hq hb
          rcases List.mem_or_eq_of_mem_set hq with hq | rfl
          · exact h.ended q hq hb
          · show (p.told ++ [e]).filter p.stays = (p.during.headD []).filter p.stays
            rw [hl.head]
            refine ht.filter hl.nodup hl.short ?_ hl.stay
            simp only [Pub.Busy] at hb hlt
            rw [List.length_append, List.length_singleton, hl.count, ← hl.len]
            omega

/-- C96, restricted to programs that delete only the endpoint registered last: whatever the interleaving, every event reaches exactly once, and in
the order of registration, the endpoints registered all the time, and no endpoint that was not registered meanwhile. -/
theorem c96_partial (s : Sys) (hs : Sound s) (ht : Tidy s.items s.todo) : AllRight s := by
  intro ls s' he p hp hb
  have := Trace.invariant (step := step) (P := Good) (Q := fun _ => True) (fun s l s' h _ hst => good_step s s' l h hst) ls s s'
    ⟨hs.ok, hs.nodup, ht, by rw [hs.quiet]; simp, by rw [hs.quiet]; simp⟩ (by simp) he
  exact ⟨this.ended p hp hb, c96_known s s' hs ls he p hp⟩

/-! ## A deletion in the middle -/

/-- A publisher left alone tells all that its slice shows. -/
theorem tells (i n : Nat) : ∀ (s : Sys) (p : Pub), s.pubs[i]? = some p → s.mem.Ok p.h → p.next + n ≤ p.h.len →
    exec s (List.replicate n (.tell i)) = some { s with pubs := s.pubs.set i { p with next := p.next + n, told := p.told ++ ((s.mem.read p.h).drop p.next).take n } } := by
  induction n with
  | zero =>
    intro s p hp _ _
    have hself : s.pubs.set i p = s.pubs := by
      apply List.ext_getElem?
      intro j
      rw [List.getElem?_set]
      split
      · rename_i e; subst e
        rw [if_pos (List.getElem?_eq_some_iff.mp hp).1, hp]
      · rfl
    simp only [List.replicate_zero, List.take_zero, List.append_nil, Nat.add_zero]
    show some s = _
    rw [show ({ h := p.h, next := p.next, told := p.told, during := p.during } : Pub) = p from rfl, hself]
  | succ n ih =>
    intro s p hp ok hn
    have hlen := Mem.read_length ok
    have hlt : p.next < (s.mem.read p.h).length := by omega
    have hb := (List.getElem?_eq_some_iff.mp hp).1
    rw [List.replicate_succ]
    show Trace.exec step s (_ :: _) = _
    simp only [Trace.exec, step, hp, List.getElem?_eq_getElem hlt, Option.bind_some]
    have := ih { s with pubs := s.pubs.set i { p with next := p.next + 1, told := p.told ++ [(s.mem.read p.h)[p.next]] } }
      { p with next := p.next + 1, told := p.told ++ [(s.mem.read p.h)[p.next]] } (by simp [hb]) ok (by show p.next + 1 + n ≤ p.h.len; omega)
    refine Eq.trans this ?_
    congr 2
    rw [List.set_set, ← List.getElem_cons_drop hlt, List.take_succ_cons]
    simp only [List.append_assoc, List.singleton_append, Nat.add_assoc, Nat.add_comm 1 n]

/-- The interleaving: an event is published, `q` endpoints are told, the next call is made, and the others are told. -/
def schedule (k q n : Nat) : List Label := .begin :: List.replicate q (.tell k) ++ .call :: List.replicate (n - q) (.tell k)

/-- What is told then: the first `q` endpoints, and what the slice shows behind them after the deletion. -/
def heard (l : List Nat) (e q : Nat) : List Nat := l.take q ++ (l.erase e ++ l.drop (l.length - 1)).drop q

theorem run_delete {s : Sys} (ok : s.mem.Ok s.reg) {e : Nat} {rest : List Op} (ht : s.todo = .delete e :: rest) (he : e ∈ s.items) {q : Nat} (hq : q < s.items.length) :
    ∃ s', exec s (schedule s.pubs.length q s.items.length) = some s' ∧
      s'.pubs = s.pubs.map (Pub.note (s.items.erase e)) ++ [⟨s.reg, s.items.length, heard s.items e q, [s.items, s.items.erase e]⟩] := by
  have hlen : s.items.length = s.reg.len := Mem.read_length ok
  have hi := idx_lt_len ok he
  let p0 : Pub := ⟨s.reg, 0, [], [s.items]⟩
  let s1 : Sys := { s with pubs := s.pubs ++ [p0] }
  have e1 : step s .begin = some s1 := rfl
  let p1 : Pub := ⟨s.reg, q, s.items.take q, [s.items]⟩
  let s2 : Sys := { s with pubs := s.pubs ++ [p1] }
  have e2 : exec s1 (List.replicate q (.tell s.pubs.length)) = some s2 := by
    have := tells s.pubs.length q s1 p0 (by simp [s1]) ok (by show 0 + q ≤ s.reg.len; omega)
    refine Eq.trans this ?_
    simp only [s1, s2, p0, p1, List.drop_zero, List.nil_append, Nat.zero_add]
    rw [List.set_append, if_neg (by omega), Nat.sub_self]
    rfl
  have hop := op_delete_in (m := s.mem) (r := s.reg) he
  have hit : (op ⟨s.mem, s.reg, []⟩ (.delete e)).list = s.items.erase e := op_items_delete _ _ ok e
  let p2 : Pub := ⟨s.reg, q, s.items.take q, [s.items, s.items.erase e]⟩
  let s3 : Sys := ⟨(op ⟨s.mem, s.reg, []⟩ (.delete e)).mem, (op ⟨s.mem, s.reg, []⟩ (.delete e)).eps, rest, s.pubs.map (Pub.note (s.items.erase e)) ++ [p2]⟩
  have e3 : step s2 .call = some s3 := by
    simp only [step, s2, ht, s3, hit, List.map_append, List.map_cons, List.map_nil]
    have : Pub.note (s.items.erase e) p1 = p2 := by
      unfold Pub.note
      rw [if_pos (show p1.Busy from (show q < s.reg.len by omega))]
      rfl
    rw [this]
  have hv : s3.mem.read s.reg = s.items.erase e ++ s.items.drop (s.items.length - 1) := by
    show (op ⟨s.mem, s.reg, []⟩ (.delete e)).mem.read s.reg = _
    rw [hop, erase_eq_eraseIdx_idxOf, hlen]
    exact Mem.deleteAt_same ok hi
  have ok3 : s3.mem.Ok s.reg := op_fits ok ok _
  have e4 := tells s.pubs.length (s.items.length - q) s3 p2 (by simp [s3]) ok3 (by show q + (s.items.length - q) ≤ s.reg.len; omega)
  refine ⟨_, Eq.trans ?_ e4, ?_⟩
  · show Trace.exec step s (schedule s.pubs.length q s.items.length) = _
    unfold schedule
    rw [List.cons_append]
    simp only [Trace.exec, e1, Option.bind_some]
    rw [Trace.exec_append, show Trace.exec step s1 (List.replicate q (.tell s.pubs.length)) = some s2 from e2]
    simp only [Option.bind_some, Trace.exec, e3]
  · have hl3 : (s3.mem.read s.reg).length = s.reg.len := Mem.read_length ok3
    show (s.pubs.map (Pub.note (s.items.erase e)) ++ [p2]).set s.pubs.length
      ⟨s.reg, q + (s.items.length - q), s.items.take q ++ ((s3.mem.read s.reg).drop q).take (s.items.length - q), [s.items, s.items.erase e]⟩ = _
    rw [List.take_of_length_le (l := (s3.mem.read s.reg).drop q) (by rw [List.length_drop, hl3]; omega), hv, show q + (s.items.length - q) = s.items.length by omega,
      List.set_append, List.length_map, if_neg (by omega), Nat.sub_self]
    rfl

/-- Registered before and after the deletion. -/
theorem stays_two (r : Slice) (n : Nat) (t l l' : List Nat) (x : Nat) : Pub.stays ⟨r, n, t, [l, l']⟩ x = (decide (x ∈ l) && decide (x ∈ l')) := by
  simp [Pub.stays]

theorem last_split {l : List Nat} {e : Nat} (hn : l.Nodup) (he : e ∈ l) (hl : l.getLast? ≠ some e) :
    ∃ a b z, l = a ++ e :: b ++ [z] ∧ e ∉ a ∧ e ∉ b ∧ z ≠ e ∧ l.erase e = a ++ b ++ [z] := by
  obtain ⟨a, t, rfl, hea⟩ := List.append_of_mem he |>.elim fun a h => h.elim fun t h => (⟨a, t, h, by
    subst h; intro ha
    exact (List.nodup_append.mp hn).2.2 e ha e (by simp) rfl⟩ : ∃ a t, l = a ++ e :: t ∧ e ∉ a)
  cases hz : t.getLast? with
  | none =>
    rw [List.getLast?_eq_none_iff] at hz
    subst hz
    simp at hl
  | some z =>
    obtain ⟨b, rfl⟩ := List.getLast?_eq_some_iff.mp hz
    have hnt := (List.nodup_append.mp hn).2.1
    rw [List.nodup_cons] at hnt
    have hne : e ∉ b ++ [z] := hnt.1
    simp only [List.mem_append, List.mem_singleton, not_or] at hne
    refine ⟨a, b, z, by simp, hea, hne.1, Ne.symm hne.2, ?_⟩
    rw [List.erase_append_right _ hea, List.erase_cons_head, List.append_assoc]

theorem heard_iff {l : List Nat} {e : Nat} (hn : l.Nodup) (he : e ∈ l) {q : Nat} (hq : q < l.length) :
    (heard l e q).filter (fun x => decide (x ∈ l) && decide (x ∈ l.erase e)) = l.filter (fun x => decide (x ∈ l) && decide (x ∈ l.erase e)) ↔
      l.getLast? = some e ∨ q = l.length - 1 := by
  have hel := List.length_erase_of_mem he
  constructor
  · intro h
    apply Classical.byContradiction
    intro hno
    simp only [not_or] at hno
    obtain ⟨hl, hqn⟩ := hno
    obtain ⟨a, b, z, e1, ha, hb, hz, e2⟩ := last_split hn he hl
    have hdrop : l.drop (l.length - 1) = [z] := by
      rw [e1, List.drop_append_of_le_length (by simp), List.drop_of_length_le (by simp)]; rfl
    have hd : (l.erase e ++ l.drop (l.length - 1)).drop q = (a ++ b).drop q ++ [z, z] := by
      have hab : q ≤ (a ++ b).length := by
        rw [e1] at hq hqn; simp only [List.length_append, List.length_cons, List.length_singleton, List.length_nil] at hq hqn ⊢; omega
      rw [hdrop, e2, List.append_assoc, List.drop_append_of_le_length hab]; rfl
    have hc := congrArg (List.count z) h
    rw [List.count_filter (by rw [e2]; rw [e1]; simp), List.count_filter (by rw [e2]; rw [e1]; simp)] at hc
    simp only [heard, hd, List.count_append] at hc
    have h1 := (List.nodup_iff_count.mp hn) z
    rw [show List.count z [z, z] = 2 by simp] at hc
    omega
  · rintro (h | h)
    · have hdl : l.erase e = l.dropLast := by
        have hb := List.getLast?_eq_getElem? ▸ h
        obtain ⟨hb, hg⟩ := List.getElem?_eq_some_iff.mp hb
        rw [erase_eq_eraseIdx_idxOf, ← hg, hn.idxOf_getElem, List.eraseIdx_length_sub_one]
      have : heard l e q = l := by
        unfold heard
        rw [hdl, List.dropLast_eq_take, List.take_append_drop, List.take_append_drop]
      rw [this]
    · have : heard l e q = l := by
        unfold heard
        rw [h, List.drop_append_of_le_length (by omega), List.drop_of_length_le (by omega), List.nil_append, List.take_append_drop]
      rw [this]

/-- C96, exactly when: if `q` of the endpoints have been told when the deletion is made (`q` less than all), the event reaches the endpoints that stay once
each if and only if the deleted one was registered last, or all but the last had been told. -/
theorem c96_moment (s : Sys) (hs : Sound s) (e : Nat) (rest : List Op) (ht : s.todo = .delete e :: rest) (he : e ∈ s.items) (q : Nat) (hq : q < s.items.length) :
    ∃ s', exec s (schedule 0 q s.items.length) = some s' ∧ ∃ p, s'.pubs = [p] ∧ ¬ p.Busy ∧ (p.Right ↔ s.items.getLast? = some e ∨ q = s.items.length - 1) := by
  obtain ⟨s', h1, h2⟩ := run_delete hs.ok ht he hq
  rw [hs.quiet] at h1 h2
  refine ⟨s', h1, _, h2, ?_, ?_⟩
  · show ¬ s.items.length < s.reg.len
    have : s.items.length = s.reg.len := Mem.read_length hs.ok
    omega
  · rw [← heard_iff hs.nodup he hq]
    have hst : Pub.stays ⟨s.reg, s.items.length, heard s.items e q, [s.items, s.items.erase e]⟩ = fun x => decide (x ∈ s.items) && decide (x ∈ s.items.erase e) :=
      funext (stays_two _ _ _ _ _)
    constructor
    · intro h
      have := h.once
      rw [hst] at this
      exact this
    · intro h
      refine ⟨by rw [hst]; exact h, ?_⟩
      exact c96_known s s' hs _ h1 _ (by rw [h2]; exact List.mem_cons_self)

theorem not_tidy_wrong (ops : List Op) : ∀ s : Sys, s.todo = ops → s.mem.Ok s.reg → s.items.Nodup → ¬ Tidy s.items ops →
    ∃ ls s', exec s ls = some s' ∧ ∃ p ∈ s'.pubs, ¬ p.Busy ∧ ¬ p.Right := by
  induction ops with
  | nil => intro s _ _ _ h; exact absurd trivial h
  | cons o rest ih =>
    intro s ht ok hn h
    rw [tidy_cons] at h
    by_cases hd : ∀ e, o = .delete e → e ∈ s.items → s.items.getLast? = some e
    · have hit : (op ⟨s.mem, s.reg, []⟩ o).list = after s.items o := op_items _ _ ok o
      obtain ⟨ls, s', he, hp⟩ := ih ⟨(op ⟨s.mem, s.reg, []⟩ o).mem, (op ⟨s.mem, s.reg, []⟩ o).eps, rest, s.pubs.map (Pub.note (op ⟨s.mem, s.reg, []⟩ o).list)⟩ rfl (op_ok _ _ ok o)
        (by show (op ⟨s.mem, s.reg, []⟩ o).list.Nodup; rw [hit]; exact after_nodup hn o)
        (by show ¬ Tidy (op ⟨s.mem, s.reg, []⟩ o).list rest; rw [hit]; exact fun hr => h ⟨hd, hr⟩)
      refine ⟨.call :: ls, s', ?_, hp⟩
      show Trace.exec step s (_ :: _) = _
      simp only [Trace.exec, step, ht, Option.bind_some]
      exact he
    · simp only [Classical.not_forall] at hd
      obtain ⟨e, rfl, he, hl⟩ := hd
      obtain ⟨a, b, z, e1, _⟩ := last_split hn he hl
      have hlong : 2 ≤ s.items.length := by rw [e1]; simp; omega
      obtain ⟨s', h1, h2⟩ := run_delete ok ht he (q := 0) (by omega)
      refine ⟨_, s', h1, _, by rw [h2]; exact List.mem_append_right _ List.mem_cons_self, ?_, ?_⟩
      · show ¬ s.items.length < s.reg.len
        have : s.items.length = s.reg.len := Mem.read_length ok
        omega
      · intro hr
        have := hr.once
        rw [show Pub.stays ⟨s.reg, s.items.length, heard s.items e 0, [s.items, s.items.erase e]⟩ = fun x => decide (x ∈ s.items) && decide (x ∈ s.items.erase e) from
          funext (stays_two _ _ _ _ _)] at this
        rcases (heard_iff hn he (q := 0) (by omega)).mp this with h | h
        · exact hl h
        · omega

/-- C96, exactly: every event reaches the right endpoints in every interleaving if and only if every endpoint deleted is, at that time, the one registered last. -/
theorem c96_iff (s : Sys) (hs : Sound s) : AllRight s ↔ Tidy s.items s.todo := by
  refine ⟨fun h => ?_, c96_partial s hs⟩
  apply Classical.byContradiction
  intro hno
  obtain ⟨ls, s', he, p, hp, hb, hr⟩ := not_tidy_wrong s.todo s rfl hs.ok hs.nodup hno
  exact hr (h ls s' he p hp hb)

/-- C96 is violated: an endpoint that stays may never be told, namely if the one registered just before it is deleted after it has been told, and
at least one more is registered behind. -/
theorem c96_lost (s : Sys) (hs : Sound s) (a b : List Nat) (x y : Nat) (rest : List Op) (hi : s.items = a ++ x :: y :: b) (hb : b ≠ []) (ht : s.todo = .delete x :: rest) :
    ∃ s', exec s (schedule 0 (a.length + 1) s.items.length) = some s' ∧ ∃ p, s'.pubs = [p] ∧ ¬ p.Busy ∧ p.stays y = true ∧ y ∉ p.told := by
  have hn := hs.nodup
  have hx : x ∈ s.items := by rw [hi]; simp
  have hlen : s.items.length = a.length + b.length + 2 := by rw [hi]; simp; omega
  have hbl : 0 < b.length := List.length_pos_iff.mpr hb
  obtain ⟨s', h1, h2⟩ := run_delete hs.ok ht hx (q := a.length + 1) (by omega)
  rw [hs.quiet] at h1 h2
  have hn' := hn
  rw [hi, List.nodup_append] at hn'
  obtain ⟨_, hxyb, hdis⟩ := hn'
  rw [List.nodup_cons, List.nodup_cons] at hxyb
  obtain ⟨hxt, hyb, _⟩ := hxyb
  have hxa : x ∉ a := fun h => hdis x h x (by simp) rfl
  have hya : y ∉ a := fun h => hdis y h y (by simp) rfl
  have hxy : y ≠ x := fun h => hxt (by simp [h])
  have her : s.items.erase x = a ++ y :: b := by rw [hi, List.erase_append_right _ hxa, List.erase_cons_head]
  have hdr : s.items.drop (s.items.length - 1) = b.drop (b.length - 1) := by
    rw [hlen, hi, List.drop_append, List.drop_of_length_le (by omega), List.nil_append,
      show a.length + b.length + 2 - 1 - a.length = (b.length - 1) + 1 + 1 by omega, List.drop_succ_cons, List.drop_succ_cons]
  refine ⟨s', h1, _, h2, ?_, ?_, ?_⟩
  · show ¬ s.items.length < s.reg.len
    have : s.items.length = s.reg.len := Mem.read_length hs.ok
    omega
  · rw [stays_two, her, hi]; simp
  · show y ∉ heard s.items x (a.length + 1)
    unfold heard
    rw [hdr, her, hi]
    rw [List.append_assoc, List.drop_append, List.drop_of_length_le (by omega), List.nil_append, show a.length + 1 - a.length = 0 + 1 by omega,
      List.cons_append, List.drop_succ_cons, List.drop_zero, List.take_append, List.take_of_length_le (by omega), show a.length + 1 - a.length = 0 + 1 by omega,
      List.take_succ_cons, List.take_zero]
    simp only [List.mem_append, List.mem_singleton, not_or]
    exact ⟨⟨hya, hxy⟩, hyb, fun h => hyb (List.mem_of_mem_drop h)⟩

/-- And the endpoint registered last may be told twice: the event is published, and before anybody is told another endpoint than the last is deleted. -/
theorem c96_twice (s : Sys) (hs : Sound s) (a b : List Nat) (x z : Nat) (rest : List Op) (hi : s.items = a ++ x :: b ++ [z]) (ht : s.todo = .delete x :: rest) :
    ∃ s', exec s (schedule 0 0 s.items.length) = some s' ∧ ∃ p, s'.pubs = [p] ∧ ¬ p.Busy ∧ p.stays z = true ∧ p.told = a ++ b ++ [z, z] := by
  have hn := hs.nodup
  have hx : x ∈ s.items := by rw [hi]; simp
  obtain ⟨s', h1, h2⟩ := run_delete hs.ok ht hx (q := 0) (by rw [hi]; simp; omega)
  rw [hs.quiet] at h1 h2
  have hxa : x ∉ a := by
    intro h
    rw [hi, List.append_assoc, List.nodup_append] at hn
    exact hn.2.2 x h x (by simp) rfl
  have her : s.items.erase x = a ++ b ++ [z] := by rw [hi, List.append_assoc, List.erase_append_right _ hxa, List.cons_append, List.erase_cons_head, List.append_assoc]
  have hdr : s.items.drop (s.items.length - 1) = [z] := by
    rw [hi, List.drop_append_of_le_length (by simp), List.drop_of_length_le (by simp)]; rfl
  refine ⟨s', h1, _, h2, ?_, ?_, ?_⟩
  · show ¬ s.items.length < s.reg.len
    have : s.items.length = s.reg.len := Mem.read_length hs.ok
    omega
  · rw [stays_two, her, hi]; simp
  · show heard s.items x 0 = _
    unfold heard
    rw [hdr, her]; simp

/-- C96, additions only: nothing goes wrong. -/
theorem tidy_adds (ops : List Op) (h : ∀ o ∈ ops, ∃ e spare, o = .add e spare) : ∀ l, Tidy l ops := by
  induction ops with
  | nil => intro l; trivial
  | cons o ops ih =>
    intro l
    obtain ⟨e, spare, rfl⟩ := h o List.mem_cons_self
    exact ih (fun o ho => h o (List.mem_cons_of_mem _ ho)) _

/-- C96, programs that only add: every event reaches the endpoints registered when it was published. -/
theorem c96_add (s : Sys) (hs : Sound s) (h : ∀ o ∈ s.todo, ∃ e spare, o = .add e spare) : AllRight s :=
  c96_partial s hs (tidy_adds _ h _)

theorem known_exec {s s' : Sys} (hs : Sound s) {ls : List Label} (he : exec s ls = some s') : s'.mem.Ok s'.reg ∧ ∀ p ∈ s'.pubs, Known s' p :=
  Trace.invariant (step := step) (P := fun s => s.mem.Ok s.reg ∧ ∀ p ∈ s.pubs, Known s p) (Q := fun _ => True)
    (fun s l s' h _ hst => known_step s s' l h hst) ls s s' ⟨hs.ok, by rw [hs.quiet]; simp⟩ (by simp) he

/-- C96, the loop ends: it tells as many endpoints as were registered when it began, and whatever has happened it can go on to its end. -/
theorem c96_ends (s s' : Sys) (hs : Sound s) (ls : List Label) (he : exec s ls = some s') (i : Nat) (p : Pub) (hp : s'.pubs[i]? = some p) (hb : p.Busy) :
    ∃ s'' p', exec s' (List.replicate (p.h.len - p.next) (.tell i)) = some s'' ∧ s''.pubs[i]? = some p' ∧ ¬ p'.Busy ∧ p'.during = p.during := by
  have hk := (known_exec hs he).2 p (List.mem_of_getElem? hp)
  have hlt : p.next < p.h.len := hb
  refine ⟨_, { p with next := p.next + (p.h.len - p.next), told := p.told ++ ((s'.mem.read p.h).drop p.next).take (p.h.len - p.next) },
    tells i (p.h.len - p.next) s' p hp (hk.ok hb) (by omega), ?_, ?_, rfl⟩
  · simp [(List.getElem?_eq_some_iff.mp hp).1]
  · show ¬ p.next + (p.h.len - p.next) < p.h.len
    omega

/-! ## Concrete cases -/

/-- Endpoints `l`, with `spare` slots behind them. -/
def start (l : List Nat) (spare : Nat) (ops : List Op) : Sys := ⟨⟨fun a => if a = 1 then l ++ List.replicate spare 0 else [], 2⟩, ⟨1, l.length⟩, ops, []⟩

theorem broadcast_start_items (l : List Nat) (spare : Nat) (ops : List Op) : (start l spare ops).items = l := by simp [start, Sys.items, Mem.read]

theorem broadcast_start_sound (l : List Nat) (spare : Nat) (ops : List Op) (h : l.Nodup) : Sound (start l spare ops) :=
  ⟨⟨by simp [start], by simp [start]⟩, by rw [broadcast_start_items]; exact h, rfl⟩

/-- The last endpoint is deleted and others are added in its place while two events are on their way: 1 and 2 are told once by both. -/
example : AllRight (start [1, 2, 3] 1 [.delete 3, .add 4 0, .add 5 2, .delete 5]) :=
  c96_partial _ (broadcast_start_sound _ _ _ (by decide)) (by rw [broadcast_start_items]; simp [start, Tidy])

example : (exec (start [1, 2, 3] 1 [.delete 3, .add 4 0, .add 5 2, .delete 5])
    [.begin, .tell 0, .call, .begin, .call, .tell 0, .call, .tell 0, .tell 1, .call, .tell 1]).map (fun s => (s.items, s.pubs.map (·.told), s.pubs.map (·.during))) =
    some ([1, 2, 4], [[1, 2, 4], [1, 2]], [[[1, 2, 3], [1, 2], [1, 2, 4], [1, 2, 4, 5]], [[1, 2], [1, 2, 4], [1, 2, 4, 5], [1, 2, 4]]]) := by decide

/-- 2 is deleted after 1 and 2 have been told: 3 is never told, 4 twice. -/
example : (exec (start [1, 2, 3, 4] 0 [.delete 2]) (schedule 0 2 4)).map (fun s => (s.items, s.pubs.map (·.told))) = some ([1, 3, 4], [[1, 2, 4, 4]]) := by decide

example : ¬ AllRight (start [1, 2, 3, 4] 0 [.add 7 0, .delete 2]) := by
  rw [c96_iff _ (broadcast_start_sound _ _ _ (by decide)), broadcast_start_items]
  simp [start, Tidy]

example : ∃ s', exec (start [1, 2, 3, 4] 0 [.delete 2]) (schedule 0 2 4) = some s' ∧ ∃ p, s'.pubs = [p] ∧ ¬ p.Busy ∧ p.stays 3 = true ∧ 3 ∉ p.told := by
  have := c96_lost (start [1, 2, 3, 4] 0 [.delete 2]) (broadcast_start_sound _ _ _ (by decide)) [1] [4] 2 3 [] (broadcast_start_items _ _ _) (by simp) rfl
  rw [broadcast_start_items] at this
  exact this

end Verif.Reg.Broadcast
