import Verif.Trace

/-!
# Counting from several goroutines (C63)

`sc.txCounter++`, `sc.rxCounter++` (proc_stat_counter.go:55, 137; likewise proc_filter.go:45, 57 and proc_forwarder.go:45, 57) take
no lock: the field is loaded and stored back.  `OnUpperData` is called by one service goroutine per endpoint
(proc_upperdeck.go:47-67), `OnLowerData` by one receive goroutine per connection (proc_lowerdeck.go:59-87).

Simplifications: a load and a store are single steps, seen by the other goroutines at once; the counter does not reach 2^64.
-/

namespace Verif.Conn.Counter

open Verif.Trace

structure Sys where
  value : Nat
  /-- the goroutines; `some v`: has loaded `v`, not stored yet -/
  ths : List (Option Nat)
  /-- messages counted: stores done -/
  stored : Nat
  deriving Repr, DecidableEq

inductive Label where
  | load (i : Nat)
  | store (i : Nat)
  deriving Repr, DecidableEq

def step (s : Sys) : Label → Option Sys
  | .load i =>
    match s.ths[i]? with
    | some none => some { s with ths := s.ths.set i (some s.value) }
    | _ => none
  | .store i =>
    match s.ths[i]? with
    | some (some v) => some { value := v + 1, ths := s.ths.set i none, stored := s.stored + 1 }
    | _ => none

abbrev exec := Trace.exec step

/-- `k` goroutines. -/
def init (k : Nat) : Sys := ⟨0, List.replicate k none, 0⟩

def Label.thread : Label → Nat
  | .load i => i
  | .store i => i

/-- The counter never exceeds the number of messages counted, and is positive as soon as one was. -/
structure Bound (s : Sys) : Prop where
  le : s.value ≤ s.stored
  loaded : ∀ v : Nat, some v ∈ s.ths → v ≤ s.stored
  pos : 0 < s.stored → 0 < s.value

theorem bound_step {s s' : Sys} {l : Label} (hb : Bound s) (hs : step s l = some s') : Bound s' := by
  cases l with
  | load i =>
    simp only [step] at hs
    split at hs
    · injection hs with hs; subst hs
      refine ⟨hb.le, ?_, hb.pos⟩
      intro v hv
      rcases List.mem_or_eq_of_mem_set hv with hv | hv
      · exact hb.loaded v hv
      · injection hv with hv; subst hv; exact hb.le
    · simp at hs
  | store i =>
    simp only [step] at hs
    split at hs
    · rename_i v hv
      injection hs with hs; subst hs
      have := hb.loaded v (List.mem_of_getElem? hv)
      refine ⟨Nat.succ_le_succ this, ?_, fun _ => Nat.succ_pos _⟩
      intro u hu
      rcases List.mem_or_eq_of_mem_set hu with hu | hu
      · have := hb.loaded u hu; simp only; omega
      · simp at hu
    · simp at hs

/-- C63: for every schedule the counter is at most the number of messages, and not 0 if there was one. -/
theorem c63_bounds (k : Nat) (ls : List Label) (s : Sys) (he : exec (init k) ls = some s) :
    s.value ≤ s.stored ∧ (0 < s.stored → 0 < s.value) := by
  have := invariant (step := step) (P := Bound) (Q := fun _ => True) (fun _ _ _ hb _ hs => bound_step hb hs) ls _ _
    (⟨Nat.le_refl _, fun v hv => by have := List.eq_of_mem_replicate hv; simp at this, fun h => absurd h (Nat.lt_irrefl _)⟩ : Bound (init k)) (by simp) he
  exact ⟨this.le, this.pos⟩

/-- No goroutine loads while another one is between its load and its store. -/
def execSerial : Sys → List Label → Option Sys
  | s, [] => some s
  | s, .load i :: ls => if s.ths.all Option.isNone then (step s (.load i)).bind fun s => execSerial s ls else none
  | s, .store i :: ls => (step s (.store i)).bind fun s => execSerial s ls

/-- Nobody is between load and store, or one goroutine, with the current value. -/
def Fresh (s : Sys) : Prop := s.value = s.stored ∧ ∀ v : Nat, some v ∈ s.ths → v = s.value

theorem serial_fresh (ls : List Label) : ∀ s s' : Sys, Fresh s → (s.ths.countP Option.isSome ≤ 1) → execSerial s ls = some s' → s'.value = s'.stored := by
  induction ls with
  | nil => intro s s' hf _ he; injection he with he; subst he; exact hf.1
  | cons l ls ih =>
    intro s s' hf hc he
    cases l with
    | load i =>
      simp only [execSerial] at he
      split at he
      · rename_i hall
        cases hm : step s (.load i) with
        | none => rw [hm] at he; simp at he
        | some m =>
          rw [hm] at he
          simp only [step] at hm
          split at hm
          · rename_i hi
            injection hm with hm; subst hm
            rw [Option.bind_some] at he
            refine ih _ s' ?_ ?_ he
            · refine ⟨hf.1, ?_⟩
              intro v hv
              rcases List.mem_or_eq_of_mem_set hv with hv | hv
              · exact hf.2 v hv
              · injection hv
            · obtain ⟨hlt, hget⟩ := List.getElem?_eq_some_iff.mp hi
              have h0 : s.ths.countP Option.isSome = 0 := by
                rw [List.countP_eq_zero]
                intro x hx
                have := List.all_eq_true.mp hall x hx
                cases x <;> simp_all
              simp only
              rw [List.countP_set hlt, h0]
              simp
          · simp at hm
      · simp at he
    | store i =>
      simp only [execSerial] at he
      cases hm : step s (.store i) with
      | none => rw [hm] at he; simp at he
      | some m =>
        rw [hm] at he
        simp only [step] at hm
        split at hm
        · rename_i v hi
          injection hm with hm; subst hm
          rw [Option.bind_some] at he
          obtain ⟨hlt, hget⟩ := List.getElem?_eq_some_iff.mp hi
          have hv := hf.2 v (List.mem_of_getElem? hi)
          have hcount : (s.ths.set i none).countP Option.isSome = 0 := by
            have hpos : 0 < s.ths.countP Option.isSome := by
              rw [List.countP_pos_iff]; exact ⟨_, List.mem_of_getElem? hi, rfl⟩
            rw [List.countP_set hlt, hget]
            simp only [Option.isSome_some, if_true, Option.isSome_none]
            simp; omega
          refine ih _ s' ⟨by simp only; rw [hv, hf.1], ?_⟩ (by simp only; omega) he
          intro u hu
          exfalso
          have := List.countP_eq_zero.mp hcount (some u) hu
          simp at this
        · simp at hm

/-- C63, restricted to schedules where the increments do not overlap: the counter is the number of messages. -/
theorem c63_serial_partial (k : Nat) (ls : List Label) (s : Sys) (he : execSerial (init k) ls = some s) : s.value = s.stored := by
  refine serial_fresh ls (init k) s ⟨rfl, fun v hv => by have := List.eq_of_mem_replicate hv; simp at this⟩ ?_ he
  have : (init k).ths.countP Option.isSome = 0 := by
    rw [List.countP_eq_zero]
    intro x hx
    rw [List.eq_of_mem_replicate hx]; simp
  omega

/-- Steps of one goroutine do not overlap. -/
theorem serial_of_single (i : Nat) (ls : List Label) : ∀ s : Sys, (∀ l ∈ ls, l.thread = i) →
    (∀ (j : Nat) (v : Nat), s.ths[j]? = some (some v) → j = i) → ∀ s', exec s ls = some s' → execSerial s ls = some s' := by
  induction ls with
  | nil => intro s _ _ s' he; exact he
  | cons l ls ih =>
    intro s hl hj s' he
    obtain ⟨m, hm, he⟩ := exec_cons he
    have hl' : ∀ l ∈ ls, l.thread = i := fun l h => hl l (List.mem_cons_of_mem _ h)
    have hli := hl l List.mem_cons_self
    have hkeep : ∀ (j : Nat) (v : Nat), m.ths[j]? = some (some v) → j = i := by
      intro j v hv
      cases l with
      | load k =>
        simp only [Label.thread] at hli
        subst hli
        simp only [step] at hm
        split at hm
        · injection hm with hm; subst hm
          simp only [List.getElem?_set] at hv
          by_cases e : k = j
          · exact e.symm
          · rw [if_neg e] at hv; exact hj j v hv
        · simp at hm
      | store k =>
        simp only [Label.thread] at hli
        subst hli
        simp only [step] at hm
        split at hm
        · injection hm with hm; subst hm
          simp only [List.getElem?_set] at hv
          by_cases e : k = j
          · exact e.symm
          · rw [if_neg e] at hv; exact hj j v hv
        · simp at hm
    have hrest := ih m hl' hkeep s' he
    cases l with
    | load k =>
      simp only [Label.thread] at hli
      subst hli
      simp only [execSerial]
      have hnone : s.ths.all Option.isNone = true := by
        rw [List.all_eq_true]
        intro x hx
        obtain ⟨j, hjx⟩ := List.mem_iff_getElem?.mp hx
        cases x with
        | none => rfl
        | some v =>
          have := hj j v hjx
          subst this
          simp [step, hjx] at hm
      rw [if_pos hnone, hm]
      exact hrest
    | store k =>
      simp only [execSerial, hm]
      exact hrest

/-- C63, restricted to one goroutine (one endpoint sending, or one connection receiving). -/
theorem c63_single_partial (k i : Nat) (ls : List Label) (s : Sys) (he : exec (init k) ls = some s) (hl : ∀ l ∈ ls, l.thread = i) : s.value = s.stored := by
  refine c63_serial_partial k ls s (serial_of_single i ls _ hl ?_ s he)
  intro j v hv
  have := List.eq_of_mem_replicate (List.mem_of_getElem? hv)
  simp at this

example : execSerial (init 2) [.load 0, .store 0, .load 1, .store 1, .load 0, .store 0] = some ⟨3, [none, none], 3⟩ ∧
    exec (init 2) [.load 1, .store 1, .load 1, .store 1] = some ⟨2, [none, none], 2⟩ := by decide

theorem exec_loads (k : Nat) : ∀ (j : Nat) (pre : List (Option Nat)), pre.length = j →
    exec ⟨0, pre ++ List.replicate k none, 0⟩ ((List.range' j k).map .load) = some ⟨0, pre ++ List.replicate k (some 0), 0⟩ := by
  induction k with
  | zero => intro j pre _; simp [Trace.exec]
  | succ k ih =>
    intro j pre hj
    rw [List.range'_succ, List.map_cons]
    simp only [exec, Trace.exec]
    have : (pre ++ List.replicate (k + 1) (none : Option Nat))[j]? = some none := by
      rw [List.getElem?_append_right (by omega), hj, Nat.sub_self]; simp [List.replicate_succ]
    simp only [step, this, Option.bind_some]
    have hset : (pre ++ List.replicate (k + 1) (none : Option Nat)).set j (some 0) = (pre ++ [some 0]) ++ List.replicate k none := by
      rw [List.set_append_right _ _ (by omega), hj, Nat.sub_self]; simp [List.replicate_succ]
    rw [hset, show Trace.exec step _ _ = _ from ih (j + 1) (pre ++ [some 0]) (by simp [hj])]
    simp [List.replicate_succ]

theorem exec_stores (k : Nat) : ∀ (j v d : Nat) (pre : List (Option Nat)), pre.length = j →
    exec ⟨v, pre ++ List.replicate k (some 0), d⟩ ((List.range' j k).map .store) = some ⟨if k = 0 then v else 1, pre ++ List.replicate k none, d + k⟩ := by
  induction k with
  | zero => intro j v d pre _; simp [Trace.exec]
  | succ k ih =>
    intro j v d pre hj
    rw [List.range'_succ, List.map_cons]
    simp only [exec, Trace.exec]
    have : (pre ++ List.replicate (k + 1) (some 0 : Option Nat))[j]? = some (some 0) := by
      rw [List.getElem?_append_right (by omega), hj, Nat.sub_self]; simp [List.replicate_succ]
    simp only [step, this, Option.bind_some]
    have hset : (pre ++ List.replicate (k + 1) (some 0 : Option Nat)).set j none = (pre ++ [none]) ++ List.replicate k (some 0) := by
      rw [List.set_append_right _ _ (by omega), hj, Nat.sub_self]; simp [List.replicate_succ]
    rw [hset, show Trace.exec step _ _ = _ from ih (j + 1) 1 (d + 1) (pre ++ [none]) (by simp [hj])]
    simp [List.replicate_succ]
    omega

/-- C63 does not hold: with `k > 0` goroutines passing one message each, the counter may end up at 1. -/
theorem c63_violated (k : Nat) (hk : 0 < k) : exec (init k) ((List.range k).map .load ++ (List.range k).map .store) = some ⟨1, List.replicate k none, k⟩ := by
  have h1 := exec_loads k 0 [] rfl
  have h2 := exec_stores k 0 0 0 [] rfl
  simp only [List.nil_append, Nat.zero_add] at h1 h2
  rw [List.range_eq_range']
  show Trace.exec step _ _ = _
  rw [exec_append, show Trace.exec step (init k) _ = _ from h1, Option.bind_some, show Trace.exec step _ _ = _ from h2, if_neg (by omega)]

/-- The counter may go back: goroutine 1 counts `m` messages while goroutine 0 is between load and store. -/
theorem c63_backwards (m : Nat) : ∃ s s', exec (init 2) (.load 0 :: (List.replicate m [Label.load 1, .store 1]).flatten) = some s ∧ s.value = m ∧
    exec s [.store 0] = some s' ∧ s'.value = 1 ∧ s'.stored = m + 1 := by
  have key : ∀ m v : Nat, exec ⟨v, [some 0, none], v⟩ (List.replicate m [Label.load 1, .store 1]).flatten = some ⟨v + m, [some 0, none], v + m⟩ := by
    intro m
    induction m with
    | zero => intro v; rfl
    | succ m ih =>
      intro v
      rw [List.replicate_succ, List.flatten_cons]
      show Trace.exec step _ _ = _
      rw [exec_append]
      simp only [Trace.exec, step, List.getElem?_cons_succ, List.getElem?_cons_zero, Option.bind_some, List.set_cons_succ, List.set_cons_zero]
      have := ih (v + 1)
      rw [show Trace.exec step _ _ = _ from this]
      simp; omega
  refine ⟨⟨m, [some 0, none], m⟩, ⟨1, [none, none], m + 1⟩, ?_, rfl, rfl, rfl, rfl⟩
  have := key m 0
  simp only [Nat.zero_add] at this
  exact this

/-! ## Exactly when the counter is right -/

def Label.isStore : Label → Bool
  | .store _ => true
  | .load _ => false

/-- No message is counted between the load and the store of the same increment. -/
def Clean (ls : List Label) : Prop :=
  ∀ (a : List Label) (i : Nat) (b c : List Label), ls = a ++ .load i :: (b ++ .store i :: c) → Label.store i ∉ b → ∀ j, Label.store j ∉ b

theorem stored_count (k : Nat) (ls : List Label) (s : Sys) (he : exec (init k) ls = some s) : s.stored = ls.countP Label.isStore := by
  induction ls using snoc_induction generalizing s with
  | h0 => injection he with he; subst he; rfl
  | h1 ls l ih =>
    obtain ⟨m, hm, hs⟩ := exec_snoc he
    rw [List.countP_append, ← ih m hm]
    cases l <;> simp only [step] at hs <;> split at hs <;> first | (injection hs with hs; subst hs; simp [Label.isStore]) | simp at hs

/-- A goroutine between load and store holds the value at its last load. -/
theorem pending_since (k : Nat) (ls : List Label) (s : Sys) (he : exec (init k) ls = some s) (i v : Nat) (hi : s.ths[i]? = some (some v)) :
    ∃ (a b : List Label) (sa : Sys), ls = a ++ .load i :: b ∧ Label.store i ∉ b ∧ exec (init k) a = some sa ∧ v = sa.value := by
  induction ls using snoc_induction generalizing s with
  | h0 =>
    injection he with he; subst he
    have := List.eq_of_mem_replicate (List.mem_of_getElem? hi)
    simp at this
  | h1 ls l ih =>
    obtain ⟨m, hm, hs⟩ := exec_snoc he
    have old : m.ths[i]? = some (some v) → l ≠ .store i →
        ∃ (a b : List Label) (sa : Sys), ls ++ [l] = a ++ .load i :: b ∧ Label.store i ∉ b ∧ exec (init k) a = some sa ∧ v = sa.value := by
      intro h hl
      obtain ⟨a, b, sa, h1, h2, h3, h4⟩ := ih m hm h
      refine ⟨a, b ++ [l], sa, by rw [h1]; simp, ?_, h3, h4⟩
      intro hmem
      rcases List.mem_append.mp hmem with h | h
      · exact h2 h
      · exact hl (List.mem_singleton.mp h).symm
    cases l with
    | load j =>
      simp only [step] at hs
      split at hs
      · rename_i hj
        injection hs with hs; subst hs
        simp only [List.getElem?_set] at hi
        by_cases e : j = i
        · subst e
          rw [if_pos rfl] at hi
          split at hi
          · injection hi with hi; injection hi with hi
            exact ⟨ls, [], m, rfl, by simp, hm, hi.symm⟩
          · simp at hi
        · rw [if_neg e] at hi
          exact old hi (by simp)
      · simp at hs
    | store j =>
      simp only [step] at hs
      split at hs
      · injection hs with hs; subst hs
        simp only [List.getElem?_set] at hi
        by_cases e : j = i
        · subst e
          rw [if_pos rfl] at hi
          split at hi <;> simp at hi
        · rw [if_neg e] at hi
          exact old hi (by simp [e])
      · simp at hs

/-- A goroutine that has loaded loads again only after its store. -/
theorem holds_on (i v : Nat) (ls : List Label) : ∀ s s' : Sys, s.ths[i]? = some (some v) → Label.store i ∉ ls → exec s ls = some s' →
    s'.ths[i]? = some (some v) ∧ Label.load i ∉ ls := by
  induction ls with
  | nil => intro s s' h _ he; injection he with he; subst he; exact ⟨h, by simp⟩
  | cons l ls ih =>
    intro s s' h hn he
    obtain ⟨m, hm, he⟩ := exec_cons he
    have hl : l ≠ .store i := fun e => hn (by rw [e]; exact List.mem_cons_self)
    have key : m.ths[i]? = some (some v) ∧ l ≠ .load i := by
      cases l with
      | load j =>
        by_cases e : j = i
        · subst e; simp [step, h] at hm
        · simp only [step] at hm
          split at hm
          · injection hm with hm; subst hm
            refine ⟨?_, by simp [e]⟩
            simp only
            rw [List.getElem?_set_ne e]; exact h
          · simp at hm
      | store j =>
        have e : j ≠ i := fun e => hl (by rw [e])
        simp only [step] at hm
        split at hm
        · injection hm with hm; subst hm
          refine ⟨?_, by simp⟩
          simp only
          rw [List.getElem?_set_ne e]; exact h
        · simp at hm
    obtain ⟨h1, h2⟩ := ih m s' key.1 (fun h => hn (List.mem_cons_of_mem _ h)) he
    refine ⟨h1, fun hmem => ?_⟩
    rcases List.mem_cons.mp hmem with h | h
    · exact key.2 h.symm
    · exact h2 h

theorem no_double_load (k : Nat) (x t b : List Label) (i : Nat) (s : Sys) (ht : Label.store i ∉ t)
    (he : exec (init k) (x ++ .load i :: (t ++ .load i :: b)) = some s) : False := by
  rw [show x ++ Label.load i :: (t ++ .load i :: b) = (x ++ [.load i]) ++ (t ++ [.load i] ++ b) by simp] at he
  rw [show exec _ _ = _ from exec_append _ _ _] at he
  cases h1 : Trace.exec step (init k) (x ++ [.load i]) with
  | none => rw [h1] at he; simp at he
  | some m =>
    rw [h1, Option.bind_some, exec_append] at he
    cases h2 : Trace.exec step m (t ++ [.load i]) with
    | none => rw [h2] at he; simp at he
    | some m2 =>
      obtain ⟨m0, _, hs⟩ := exec_snoc h1
      have hi : ∃ v, m.ths[i]? = some (some v) := by
        simp only [step] at hs
        split at hs
        · rename_i hj
          injection hs with hs; subst hs
          obtain ⟨hlt, _⟩ := List.getElem?_eq_some_iff.mp hj
          exact ⟨m0.value, by simp [hlt]⟩
        · simp at hs
      obtain ⟨v, hv⟩ := hi
      have := (holds_on i v (t ++ [.load i]) m m2 hv (by simp [ht]) h2).2
      exact this (by simp)

theorem clean_load {ls : List Label} {i : Nat} : Clean (ls ++ [.load i]) ↔ Clean ls := by
  constructor
  · intro h a j b c e
    exact h a j b (c ++ [.load i]) (by rw [e]; simp)
  · intro h a j b c e
    rcases List.eq_nil_or_concat c with rfl | ⟨c', l, rfl⟩
    · have e' : ls ++ [Label.load i] = (a ++ .load j :: b) ++ [.store j] := by rw [e]; simp
      have := (List.append_inj' e' rfl).2
      simp at this
    · have e' : ls ++ [Label.load i] = (a ++ .load j :: (b ++ .store j :: c')) ++ [l] := by rw [e]; simp
      exact h a j b c' (List.append_inj' e' rfl).1

theorem clean_prefix {a b : List Label} (h : Clean (a ++ b)) : Clean a := by
  intro x i y z e
  exact h x i y (z ++ b) (by rw [e]; simp)

/-- Extending by loads only. -/
theorem clean_loads {a : List Label} (ha : Clean a) : ∀ b : List Label, (∀ j, Label.store j ∉ b) → Clean (a ++ b) := by
  intro b
  induction b using snoc_induction with
  | h0 => intro _; simpa using ha
  | h1 b l ih =>
    intro hb
    cases l with
    | load i =>
      rw [← List.append_assoc]
      exact clean_load.2 (ih fun j hj => hb j (List.mem_append_left _ hj))
    | store i => exact absurd (List.mem_append_right _ List.mem_cons_self) (hb i)

theorem value_iff_clean (k : Nat) : ∀ (n : Nat) (ls : List Label) (s : Sys), ls.length = n → exec (init k) ls = some s → (s.value = s.stored ↔ Clean ls) := by
  intro n
  induction n using Nat.strongRecOn with
  | _ n ih =>
    intro ls s hn he
    rcases List.eq_nil_or_concat ls with rfl | ⟨ls, l, rfl⟩
    · injection he with he; subst he
      refine ⟨fun _ a i b c e => ?_, fun _ => rfl⟩
      have := congrArg List.length e
      simp at this
    · rw [List.concat_eq_append] at *
      obtain ⟨m, hm, hs⟩ := exec_snoc he
      have ihl := ih ls.length (by rw [← hn]; simp) ls m rfl hm
      cases l with
      | load i =>
        rw [clean_load, ← ihl]
        simp only [step] at hs
        split at hs
        · injection hs with hs; subst hs; rfl
        · simp at hs
      | store i =>
        simp only [step] at hs
        split at hs
        · rename_i v hi
          injection hs with hs; subst hs
          obtain ⟨a, b, sa, h1, h2, h3, h4⟩ := pending_since k ls m hm i v hi
          have iha := ih a.length (by rw [← hn, h1]; simp) a sa rfl h3
          have hca := stored_count k a sa h3
          have hcm := stored_count k ls m hm
          have hle := (c63_bounds k a sa h3).1
          rw [h1, List.countP_append, ← hca, List.countP_cons] at hcm
          simp only [Label.isStore, Bool.false_eq_true, if_false, Nat.add_zero] at hcm
          simp only [h4]
          constructor
          · intro h
            have hb0 : b.countP Label.isStore = 0 := by omega
            have hno : ∀ j, Label.store j ∉ b := fun j hj => (List.countP_eq_zero.mp hb0 _ hj) rfl
            have hca' : Clean ls := by
              rw [h1]
              refine clean_loads (iha.1 (by omega)) _ ?_
              intro j hj
              rcases List.mem_cons.mp hj with hj | hj
              · cases hj
              · exact hno j hj
            intro x j y z e hy
            rcases List.eq_nil_or_concat z with rfl | ⟨z', l, rfl⟩
            · have e' : ls ++ [Label.store i] = (x ++ .load j :: y) ++ [.store j] := by rw [e]; simp
              obtain ⟨e1, e2⟩ := List.append_inj' e' rfl
              injection e2 with e2 _
              injection e2 with e2
              subst e2
              -- the last load of `i` is the one pending
              rw [h1] at e1
              intro q hq
              rcases List.append_eq_append_iff.mp e1 with ⟨t, ht1, ht2⟩ | ⟨t, ht1, ht2⟩
              · cases t with
                | nil =>
                  simp only [List.nil_append, List.cons.injEq] at ht2
                  rw [← ht2.2] at hq
                  exact hno q hq
                | cons u t =>
                  simp only [List.cons_append, List.cons.injEq] at ht2
                  rw [ht2.2] at hno
                  exact hno q (List.mem_append_right _ (List.mem_cons_of_mem _ hq))
              · cases t with
                | nil =>
                  simp only [List.nil_append, List.cons.injEq] at ht2
                  rw [ht2.2] at hq
                  exact hno q hq
                | cons u t =>
                  -- an earlier load of `i` without a store in between: not executable
                  simp only [List.cons_append, List.cons.injEq] at ht2
                  exfalso
                  rw [h1] at hm
                  rw [ht1, ← ht2.1] at hm
                  refine no_double_load k x t b i m ?_ (by simpa using hm)
                  intro hmem
                  rw [ht2.2] at hy
                  exact hy (List.mem_append_left _ hmem)
            · have e' : ls ++ [Label.store i] = (x ++ .load j :: (y ++ .store j :: z')) ++ [l] := by rw [e]; simp
              exact hca' x j y z' (List.append_inj' e' rfl).1 hy
          · intro h
            have hno : ∀ j, Label.store j ∉ b := h a i b [] (by rw [h1]; simp) h2
            have hb0 : b.countP Label.isStore = 0 := by
              rw [List.countP_eq_zero]
              intro l hl
              cases l with
              | load j => simp [Label.isStore]
              | store j => exact absurd hl (hno j)
            have hcl : Clean a := by
              rw [h1, List.append_assoc] at h
              exact clean_prefix h
            have := iha.2 hcl
            omega
        · simp at hs

/-- C63, exact: for every schedule the counter is the number of messages counted iff no message was counted between the
load and the store of another one. -/
theorem c63_iff (k : Nat) (ls : List Label) (s : Sys) (he : exec (init k) ls = some s) : s.value = s.stored ↔ Clean ls :=
  value_iff_clean k _ ls s rfl he

/-- Loads may overlap as long as nobody stores in between: here goroutine 1 has loaded and not stored yet. -/
example : Clean [.load 0, .load 1, .store 0] ∧ ¬ Clean [.load 0, .load 1, .store 0, .store 1] :=
  ⟨(c63_iff 2 _ ⟨1, [none, some 0], 1⟩ rfl).1 rfl, fun h => absurd ((c63_iff 2 _ ⟨1, [none, none], 2⟩ rfl).2 h) (by decide)⟩

end Verif.Conn.Counter
