import Verif.Trace

/-!
# Who touches the endpoint map when (C67)

`UpperDeck.endpoints` is a Go map: a read and a write, or two writes, at the same time end the process ("concurrent map read and map
write").  `existsEndpoint` (proc_upperdeck.go:18-28), `acceptEndpoint` (31-68), `deleteEndpoint` (71-81) and `findEndPoint` (83-93) touch it
with the mutex held; the service goroutines read it, `<-ud.endpoints[ep]` (50), without.

Simplifications: an access is a beginning and an end; `acceptEndpoint`'s two critical sections are two callers.
-/

namespace Verif.Reg.MapRace

open Verif.Trace

/-- Who accesses the map. -/
inductive Kind where
  | existsEndpoint | acceptEndpoint | deleteEndpoint | findEndPoint | service
  deriving Repr, DecidableEq

/-- Lines 39 and 78. -/
def Kind.writes : Kind → Bool
  | .acceptEndpoint | .deleteEndpoint => true
  | _ => false

def Kind.locks : Kind → Bool
  | .service => false
  | _ => true

inductive Phase where
  | idle | locked | accessing | accessed
  deriving Repr, DecidableEq

structure Sys where
  lock : Option Nat
  ths : List (Kind × Phase)
  deriving Repr, DecidableEq

/-- Goroutine `i` goes on. -/
def step (s : Sys) (i : Nat) : Option Sys :=
  match s.ths[i]? with
  | none => none
  | some (k, .idle) =>
    if k.locks then
      if s.lock = none then some ⟨some i, s.ths.set i (k, .locked)⟩ else none
    else some { s with ths := s.ths.set i (k, .accessing) }
  | some (k, .locked) => some { s with ths := s.ths.set i (k, .accessing) }
  | some (k, .accessing) => some { s with ths := s.ths.set i (k, if k.locks then .accessed else .idle) }
  | some (k, .accessed) => some ⟨none, s.ths.set i (k, .idle)⟩

abbrev exec := Trace.exec step

def init (ks : List Kind) : Sys := ⟨none, ks.map (·, .idle)⟩

/-- Two accesses at the same time, one of them a write: the runtime ends the process. -/
def Conflict (s : Sys) : Prop :=
  ∃ (i j : Nat) (ki kj : Kind), i ≠ j ∧ s.ths[i]? = some (ki, .accessing) ∧ s.ths[j]? = some (kj, .accessing) ∧ ki.writes = true

structure Inv (ks : List Kind) (s : Sys) : Prop where
  kinds : s.ths.map (·.1) = ks
  held : ∀ (i : Nat) (k : Kind) (p : Phase), s.ths[i]? = some (k, p) → k.locks = true → p ≠ .idle → s.lock = some i
  free : ∀ (i : Nat) (k : Kind) (p : Phase), s.ths[i]? = some (k, p) → k.locks = false → p = .idle ∨ p = .accessing

theorem set_kinds {ths : List (Kind × Phase)} {i : Nat} {k : Kind} {p q : Phase} (h : ths[i]? = some (k, p)) : (ths.set i (k, q)).map (·.1) = ths.map (·.1) := by
  rw [List.map_set]
  apply List.ext_getElem?
  intro j
  rw [List.getElem?_set]
  by_cases e : i = j
  · subst e
    obtain ⟨hlt, hget⟩ := List.getElem?_eq_some_iff.mp h
    simp [hlt, hget]
  · rw [if_neg e]

theorem inv_step {ks : List Kind} {s s' : Sys} {i : Nat} (h : Inv ks s) (hs : step s i = some s') : Inv ks s' := by
  have other : ∀ {q : Kind × Phase} {j : Nat} {k : Kind} {p : Phase}, j ≠ i → (s.ths.set i q)[j]? = some (k, p) → s.ths[j]? = some (k, p) := by
    intro q j k p hj hg; rwa [List.getElem?_set_ne (Ne.symm hj)] at hg
  have same : ∀ {q : Kind × Phase} {k : Kind} {p : Phase}, (s.ths.set i q)[i]? = some (k, p) → q = (k, p) := by
    intro q k p hg
    rw [List.getElem?_set_self'] at hg
    cases hi : s.ths[i]? with
    | none => rw [hi] at hg; simp at hg
    | some x => rw [hi] at hg; simpa using hg
  have free : ∀ {k : Kind} {q : Phase}, s.ths[i]? = some (k, q) → ∀ q', (k.locks = false → q' = .idle ∨ q' = .accessing) →
      ∀ (j : Nat) (k' : Kind) (p : Phase), (s.ths.set i (k, q'))[j]? = some (k', p) → k'.locks = false → p = .idle ∨ p = .accessing := by
    intro k q _ q' hq' j k' p hj hk'
    by_cases e : j = i
    · subst e; have := same hj; injection this with h1 h2; subst h1; subst h2; exact hq' hk'
    · exact h.free j k' p (other e hj) hk'
  unfold step at hs
  split at hs
  · simp at hs
  · rename_i k hi
    split at hs
    · split at hs
      · rename_i hk hl
        injection hs with hs; subst hs
        refine ⟨by rw [set_kinds hi]; exact h.kinds, ?_, free hi _ (by rw [hk]; simp)⟩
        intro j k' p hj hk' hp
        by_cases e : j = i
        · rw [e]
        · have := h.held j k' p (other e hj) hk' hp
          rw [hl] at this; simp at this
      · simp at hs
    · rename_i hk
      injection hs with hs; subst hs
      refine ⟨by rw [set_kinds hi]; exact h.kinds, ?_, free hi _ (by simp)⟩
      intro j k' p hj hk' hp
      by_cases e : j = i
      · subst e; have := same hj; injection this with h1 h2; subst h1; exact absurd hk' hk
      · exact h.held j k' p (other e hj) hk' hp
  · rename_i k hi
    injection hs with hs; subst hs
    refine ⟨by rw [set_kinds hi]; exact h.kinds, ?_, free hi _ (by simp)⟩
    intro j k' p hj hk' hp
    by_cases e : j = i
    · subst e; have := same hj; injection this with h1 h2; subst h1; exact h.held j _ _ hi hk' (by simp)
    · exact h.held j k' p (other e hj) hk' hp
  · rename_i k hi
    injection hs with hs; subst hs
    refine ⟨by rw [set_kinds hi]; exact h.kinds, ?_, free hi _ (by intro hk; simp [hk])⟩
    intro j k' p hj hk' hp
    by_cases e : j = i
    · subst e; have := same hj; injection this with h1 h2; subst h1; exact h.held j _ _ hi hk' (by simp)
    · exact h.held j k' p (other e hj) hk' hp
  · rename_i k hi
    injection hs with hs; subst hs
    refine ⟨by rw [set_kinds hi]; exact h.kinds, ?_, free hi _ (by simp)⟩
    intro j k' p hj hk' hp
    by_cases e : j = i
    · subst e; have := same hj; injection this with h1 h2; exact absurd h2.symm hp
    · cases hkl : k.locks with
      | true =>
        have h1 := h.held j k' p (other e hj) hk' hp
        have h2 := h.held i k .accessed hi hkl (by simp)
        rw [h1] at h2; injection h2 with h2; exact absurd h2 e
      | false => have := h.free i k .accessed hi hkl; simp at this

theorem inv_exec {ks : List Kind} {ls : List Nat} {s : Sys} (he : exec (init ks) ls = some s) : Inv ks s := by
  refine invariant (step := step) (P := Inv ks) (Q := fun _ => True) (fun _ _ _ h _ hs => inv_step h hs) ls _ _ ⟨?_, ?_, ?_⟩ (by simp) he
  · simp [init, Function.comp_def]
  · intro i k p h _ hp
    simp only [init, List.getElem?_map, Option.map_eq_some_iff] at h
    obtain ⟨_, _, h⟩ := h
    injection h with _ h; exact absurd h.symm hp
  · intro i k p h _
    simp only [init, List.getElem?_map, Option.map_eq_some_iff] at h
    obtain ⟨_, _, h⟩ := h
    injection h with _ h; exact .inl h.symm

/-- C67, exactly: concurrent access ends the process in some schedule if and only if there is a service goroutine and somebody adds or
deletes an endpoint. -/
theorem c67_iff (ks : List Kind) : (∃ ls s, exec (init ks) ls = some s ∧ Conflict s) ↔ Kind.service ∈ ks ∧ ∃ k ∈ ks, k.writes = true := by
  constructor
  · rintro ⟨ls, s, he, i, j, ki, kj, hne, hi, hj, hw⟩
    have h := inv_exec he
    have mem : ∀ {n : Nat} {k : Kind} {p : Phase}, s.ths[n]? = some (k, p) → k ∈ ks := by
      intro n k p hn
      rw [← h.kinds]; exact List.mem_map.mpr ⟨_, List.mem_of_getElem? hn, rfl⟩
    refine ⟨?_, ki, mem hi, hw⟩
    have hli : ki.locks = true := by cases ki <;> simp_all [Kind.writes, Kind.locks]
    have hlj : kj.locks = false := by
      cases hk : kj.locks with
      | false => rfl
      | true =>
        have h1 := h.held i ki _ hi hli (by simp)
        have h2 := h.held j kj _ hj hk (by simp)
        rw [h1] at h2; injection h2 with h2; exact absurd h2 hne
    have : kj = .service := by cases kj <;> simp_all [Kind.locks]
    exact this ▸ mem hj
  · rintro ⟨hs, k, hk, hw⟩
    obtain ⟨j, hj⟩ := List.mem_iff_getElem?.mp hs
    obtain ⟨i, hi⟩ := List.mem_iff_getElem?.mp hk
    have hl : k.locks = true := by cases k <;> simp_all [Kind.writes, Kind.locks]
    have hne : i ≠ j := by
      rintro rfl; rw [hi] at hj; injection hj with hj; subst hj; simp [Kind.locks] at hl
    have hi0 : (init ks).ths[i]? = some (k, .idle) := by simp [init, hi]
    have hj0 : (init ks).ths[j]? = some (.service, .idle) := by simp [init, hj]
    have hil : i < (init ks).ths.length := (List.getElem?_eq_some_iff.mp hi0).1
    have hjl : j < (init ks).ths.length := (List.getElem?_eq_some_iff.mp hj0).1
    have e1 : step (init ks) i = some ⟨some i, (init ks).ths.set i (k, .locked)⟩ := by
      simp only [step, hi0, hl, if_true]; rfl
    have e2 : step ⟨some i, (init ks).ths.set i (k, .locked)⟩ i = some ⟨some i, (init ks).ths.set i (k, .accessing)⟩ := by
      simp [step, hil]
    have e3 : step ⟨some i, (init ks).ths.set i (k, .accessing)⟩ j = some ⟨some i, ((init ks).ths.set i (k, .accessing)).set j (.service, .accessing)⟩ := by
      simp [step, List.getElem?_set_ne hne, hj0, Kind.locks]
    refine ⟨[i, i, j], _, by simp only [exec, Trace.exec, e1, e2, e3, Option.bind_some]; rfl, i, j, k, .service, hne, ?_, ?_, hw⟩
    · rw [List.getElem?_set_ne (Ne.symm hne), List.getElem?_set_self hil]
    · rw [List.getElem?_set_self (by rw [List.length_set]; exact hjl)]

/-- C67 does not hold: an endpoint in service, another one added or deleted. -/
theorem c67_violated (k : Kind) (hk : k = .acceptEndpoint ∨ k = .deleteEndpoint) : ∃ ls s, exec (init [.service, k]) ls = some s ∧ Conflict s := by
  rw [c67_iff]
  refine ⟨by simp, k, by simp, ?_⟩
  rcases hk with rfl | rfl <;> rfl

/-- C67, restricted to the callers that lock: never. -/
theorem c67_locked_partial (ks : List Kind) (hk : Kind.service ∉ ks) (ls : List Nat) (s : Sys) (he : exec (init ks) ls = some s) : ¬ Conflict s :=
  fun hc => hk ((c67_iff ks).mp ⟨ls, s, he, hc⟩).1

/-- C67, restricted to stacks whose endpoints are not added or deleted any more. -/
theorem c67_static_partial (ks : List Kind) (hk : ∀ k ∈ ks, k.writes = false) (ls : List Nat) (s : Sys) (he : exec (init ks) ls = some s) : ¬ Conflict s := by
  intro hc
  obtain ⟨_, k, hm, hw⟩ := (c67_iff ks).mp ⟨ls, s, he, hc⟩
  rw [hk k hm] at hw; simp at hw

example : exec (init [.acceptEndpoint, .findEndPoint, .deleteEndpoint]) [0, 0, 0, 0, 2, 2, 2, 2, 1, 1] =
    some ⟨some 1, [(.acceptEndpoint, .idle), (.findEndPoint, .accessing), (.deleteEndpoint, .idle)]⟩ ∧
    exec (init [.service, .service, .findEndPoint]) [0, 1, 2, 2] = some ⟨some 2, [(.service, .accessing), (.service, .accessing), (.findEndPoint, .accessing)]⟩ := by decide

end Verif.Reg.MapRace
