import Verif.Trace

/-!
# Listeners that use the variable the stack is assigned to (C84)

`u = ustack.NewUStack(). … .Run()` (examples/dynamic_transport/main.go:33-83, 88-121; dynamic_endpoint/main.go:62-122, 127-163): the
variable gets its value when `Run` has returned.  `Run` ends with `LowerDeck.Run` (ustack_default.go:342, proc_lowerdeck.go:138-144), which starts the
accept goroutine of every transport; from then on the endpoint's event listener may be called.  On the first `NewConnection` it
calls `u.AddTransport` (dynamic_transport/main.go:45-48, 100-103; in dynamic_endpoint/main.go:74-78, 139-143 also `u.AddEndPoint`), and a method call on a nil interface panics.

The main goroutine and the accept goroutines; `n` transports are configured before `Run`.  `Order.before` is the other way to write it, as in
examples/microservices/main.go:115, 145: the variable is assigned first, then `u.Run()` is called.
Simplification: the listener and everything `AddTransport` does are one step (listeners that interleave are C63, C66, C68).
-/

namespace Verif.Conn.Startup

open Verif.Trace

inductive Order where
  /-- `u = NewUStack()….Run()` -/
  | after
  /-- `u = NewUStack()…; u.Run()` -/
  | before
  deriving Repr, DecidableEq

structure Sys where
  /-- transports whose accept goroutine was started -/
  started : Nat
  /-- is `u` assigned -/
  assigned : Bool
  /-- the program's counter of connections -/
  conn : Nat
  /-- calls of `u.AddTransport` that were done -/
  added : Nat
  panicked : Bool
  deriving Repr, DecidableEq

inductive Label where
  /-- the loop of `LowerDeck.Run` starts the next accept goroutine -/
  | start
  /-- `u = …` -/
  | assign
  /-- the accept goroutine of transport `t` announces a connection -/
  | announce (t : Nat)
  deriving Repr, DecidableEq

def step (o : Order) (n : Nat) (s : Sys) (l : Label) : Option Sys :=
  if s.panicked then none else
  match l with
  | .start => if s.started < n ∧ (o = .before → s.assigned = true) then some { s with started := s.started + 1 } else none
  | .assign => if s.assigned = false ∧ (o = .after → s.started = n) then some { s with assigned := true } else none
  | .announce t =>
    if t < s.started + s.added then
      if s.conn = 0 then
        if s.assigned then some { s with conn := 1, added := s.added + 1 } else some { s with conn := 1, panicked := true }
      else some { s with conn := s.conn + 1 }
    else none

abbrev exec (o : Order) (n : Nat) := Trace.exec (step o n)

def init : Sys := ⟨0, false, 0, 0, false⟩

/-! ## Specification -/

/-- Some connection is announced before the assignment. -/
def Early (ls : List Label) : Prop := ∃ a t b, ls = a ++ .announce t :: b ∧ .assign ∉ a

def isAnnounce : Label → Bool
  | .announce _ => true
  | _ => false

/-- How many connections were announced. -/
def announced (ls : List Label) : Nat := ls.countP isAnnounce

theorem early_append {ls : List Label} (h : Early ls) (l : Label) : Early (ls ++ [l]) := by
  obtain ⟨a, t, b, rfl, hn⟩ := h
  exact ⟨a, t, b ++ [l], by simp, hn⟩

theorem early_snoc {ls : List Label} {l : Label} (h : Early (ls ++ [l])) : Early ls ∨ (.assign ∉ ls ∧ isAnnounce l = true) := by
  obtain ⟨a, t, b, hab, hn⟩ := h
  rcases List.eq_nil_or_concat b with rfl | ⟨b, x, rfl⟩
  · have := List.append_inj' hab rfl
    injection this.2 with h2
    subst h2
    rw [this.1]
    exact .inr ⟨hn, rfl⟩
  · have : ls ++ [l] = (a ++ .announce t :: b) ++ [x] := by simp [hab]
    have := List.append_inj' this rfl
    exact .inl ⟨a, t, b, this.1, hn⟩

structure Inv (o : Order) (n : Nat) (ls : List Label) (s : Sys) : Prop where
  assigned : s.assigned = true ↔ .assign ∈ ls
  conn : s.conn = announced ls
  early : s.panicked = true ↔ Early ls
  added : ¬ Early ls → s.added = if 0 < announced ls then 1 else 0
  le : s.started ≤ n
  order : o = .before → 0 < s.started + s.added → s.assigned = true

theorem inv (o : Order) (n : Nat) (ls : List Label) : ∀ s, exec o n init ls = some s → Inv o n ls s := by
  induction ls using snoc_induction with
  | h0 =>
    intro s h
    injection h with h; subst h
    have : ¬ Early [] := by rintro ⟨a, t, b, h, _⟩; simp at h
    exact ⟨by simp [init], rfl, by simp [init, this], by simp [init, announced], Nat.zero_le _, by simp [init]⟩
  | h1 ls l ih =>
    intro s' h
    obtain ⟨s, h, hs⟩ := exec_snoc h
    have hi := ih s h
    simp only [step] at hs
    split at hs
    · cases hs
    rename_i hp
    have hne : ¬ Early ls := fun he => hp (hi.early.mpr he)
    have hadd := hi.added hne
    have hann : ∀ b, isAnnounce l = b → announced (ls ++ [l]) = announced ls + (if b then 1 else 0) := by
      intro b hb
      simp [announced, List.countP_append, List.countP_cons, hb]
    cases l with
    | start =>
      simp only at hs
      split at hs
      rotate_left
      · cases hs
      rename_i hc
      injection hs with hs; subst hs
      have he : ¬ Early (ls ++ [.start]) := fun he => by
        rcases early_snoc he with he | he
        · exact hne he
        · simp [isAnnounce] at he
      refine ⟨by simpa using hi.assigned, by rw [hann false rfl]; exact hi.conn, by simp [he, hp], ?_, hc.1, fun ho _ => hc.2 ho⟩
      intro _
      rw [hann false rfl]
      exact hadd
    | assign =>
      simp only at hs
      split at hs
      rotate_left
      · cases hs
      rename_i hc
      injection hs with hs; subst hs
      have he : ¬ Early (ls ++ [.assign]) := fun he => by
        rcases early_snoc he with he | he
        · exact hne he
        · simp [isAnnounce] at he
      refine ⟨by simp, by rw [hann false rfl]; exact hi.conn, by simp [he, hp], ?_, hi.le, fun _ _ => rfl⟩
      intro _
      rw [hann false rfl]
      exact hadd
    | announce t =>
      simp only at hs
      split at hs
      rotate_left
      · cases hs
      rename_i hc
      have hmem : .assign ∈ ls ++ [.announce t] ↔ .assign ∈ ls := by simp
      split at hs
      · rename_i h0
        have hz : announced ls = 0 := by rw [← hi.conn]; exact h0
        have hadd0 : s.added = 0 := by simpa [hz] using hadd
        split at hs
        · rename_i ha
          injection hs with hs; subst hs
          have he : ¬ Early (ls ++ [.announce t]) := fun he => by
            rcases early_snoc he with he | he
            · exact hne he
            · exact he.1 (hi.assigned.mp ha)
          refine ⟨by rw [hmem]; exact hi.assigned, by rw [hann true rfl, hz]; rfl, by simp [he, hp], ?_, hi.le, fun _ _ => ha⟩
          intro _
          rw [hann true rfl]
          simp [hadd0]
        · rename_i ha
          injection hs with hs; subst hs
          have he : Early (ls ++ [.announce t]) := ⟨ls, t, [], rfl, fun hm => ha (hi.assigned.mpr hm)⟩
          refine ⟨by rw [hmem]; exact hi.assigned, by rw [hann true rfl, hz]; rfl, by simp [he], fun hn => absurd he hn, hi.le, hi.order⟩
      · rename_i h0
        injection hs with hs; subst hs
        have hz : 0 < announced ls := by rw [← hi.conn]; omega
        -- the first announcement was not early, so the variable is assigned
        have ha : .assign ∈ ls := by
          apply Classical.byContradiction
          intro hna
          apply hne
          obtain ⟨x, hx, hxa⟩ := List.countP_pos_iff.mp hz
          cases x with
          | announce t' =>
            obtain ⟨a, b, rfl⟩ := List.append_of_mem hx
            exact ⟨a, t', b, rfl, fun hm => hna (List.mem_append_left _ hm)⟩
          | start => simp [isAnnounce] at hxa
          | assign => simp [isAnnounce] at hxa
        have he : ¬ Early (ls ++ [.announce t]) := fun he => by
          rcases early_snoc he with he | he
          · exact hne he
          · exact he.1 ha
        refine ⟨by rw [hmem]; exact hi.assigned, by rw [hann true rfl, hi.conn]; rfl, by simp [he, hp], ?_, hi.le, hi.order⟩
        intro _
        rw [hann true rfl]
        simpa [hz] using hadd

/-- C84, exactly: the program panics if and only if a connection is announced before the variable is assigned. -/
theorem c84_iff (o : Order) (n : Nat) (ls : List Label) (s : Sys) (h : exec o n init ls = some s) : s.panicked = true ↔ Early ls :=
  (inv o n ls s h).early

/-- C84 if the variable is assigned before `Run` is called: no schedule panics, and the first connection adds the transport, once.
Missing for the full claim: the order in the examples (`c84_violated`). -/
theorem c84_before_partial (n : Nat) (ls : List Label) (s : Sys) (h : exec .before n init ls = some s) :
    s.panicked = false ∧ s.added = if 0 < announced ls then 1 else 0 := by
  have hi := inv .before n ls s h
  have hp : s.panicked = false := by
    -- up to the panic the order was kept
    induction ls using snoc_induction generalizing s with
    | h0 => injection h with h; subst h; rfl
    | h1 ls l ih =>
      obtain ⟨m, hm, hs⟩ := exec_snoc h
      have him := inv .before n ls m hm
      have := ih m hm him
      simp only [step, this] at hs
      cases l with
      | start =>
        simp only [Bool.false_eq_true, if_false] at hs
        split at hs
        rotate_left
        · cases hs
        injection hs with hs; subst hs; rfl
      | assign =>
        simp only [Bool.false_eq_true, if_false] at hs
        split at hs
        rotate_left
        · cases hs
        injection hs with hs; subst hs; rfl
      | announce t =>
        simp only [Bool.false_eq_true, if_false] at hs
        split at hs
        rotate_left
        · cases hs
        rename_i hc
        split at hs
        · rw [if_pos (him.order rfl (by omega))] at hs
          injection hs with hs; subst hs; rfl
        · injection hs with hs; subst hs; rfl
  refine ⟨hp, ?_⟩
  have hne : ¬ Early ls := fun he => by rw [hi.early.mpr he] at hp; cases hp
  exact hi.added hne

/-- C84 does not hold: with the examples' order, for every number of transports there is a schedule that panics. -/
theorem c84_violated (n : Nat) (hn : 0 < n) : ∃ ls s, exec .after n init ls = some s ∧ s.panicked = true := by
  refine ⟨[.start, .announce 0], ⟨1, false, 1, 0, true⟩, ?_, rfl⟩
  simp [Trace.exec, step, init, hn]

/-- C84: without the accident, the first connection adds the transport also with the examples' order. -/
theorem c84_late_partial (o : Order) (n : Nat) (ls : List Label) (s : Sys) (h : exec o n init ls = some s) (hl : ¬ Early ls) :
    s.panicked = false ∧ s.added = if 0 < announced ls then 1 else 0 := by
  have hi := inv o n ls s h
  refine ⟨?_, hi.added hl⟩
  cases hp : s.panicked with
  | false => rfl
  | true => exact absurd (hi.early.mp hp) hl

/-- C84: with the examples' order the listener gets through only after every transport of the stack was started: any connection
before that ends the program. -/
theorem c84_after_all {n : Nat} {ls : List Label} {s : Sys} (h : exec .after n init ls = some s) :
    (s.assigned = true → s.started = n) ∧ (0 < announced ls → s.panicked = false → s.started = n ∧ s.assigned = true) := by
  have ha : s.assigned = true → s.started = n := by
    refine Trace.invariant (step := step .after n) (P := fun s => s.assigned = true → s.started = n) (Q := fun _ => True) ?_ ls _ _
      (by simp [init]) (by simp) h
    intro a l b hp _ hs
    simp only [step] at hs
    split at hs
    · cases hs
    cases l with
    | start =>
      simp only at hs
      split at hs
      · rename_i hc
        injection hs with hs; subst hs
        intro hb
        have := hp hb
        omega
      · cases hs
    | assign =>
      simp only at hs
      split at hs
      · rename_i hc
        injection hs with hs; subst hs
        exact fun _ => hc.2 trivial
      · cases hs
    | announce t =>
      simp only at hs
      repeat' split at hs
      all_goals first | cases hs; done | (injection hs with hs; subst hs; exact hp)
  refine ⟨ha, fun h0 hp => ?_⟩
  have hi := inv .after n ls s h
  have hass : s.assigned = true := by
    rw [hi.assigned]
    refine Classical.byContradiction fun hn => ?_
    have he : Early ls := by
      simp only [announced, List.countP_pos_iff] at h0
      obtain ⟨x, hx, hxa⟩ := h0
      obtain ⟨a, b, rfl⟩ := List.append_of_mem hx
      cases x with
      | announce t => exact ⟨a, t, b, rfl, fun hm => hn (by simp [hm])⟩
      | _ => simp [isAnnounce] at hxa
    have := hi.early.mpr he
    rw [hp] at this; cases this
  exact ⟨ha hass, hass⟩

/-- Non-trivial: two transports, connections on both and on the added one. -/
example : exec .after 2 init [.start, .start, .assign, .announce 1, .announce 2, .announce 0] = some ⟨2, true, 3, 1, false⟩ := rfl
example : exec .before 2 init [.assign, .start, .announce 0, .announce 1, .start, .announce 2] = some ⟨2, true, 3, 1, false⟩ := rfl

end Verif.Conn.Startup
