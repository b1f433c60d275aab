import Verif.Trace

/-!
# The data listener of an endpoint (C43)

`SetDataListener` and `autoReceive` (endp_default.go:82-93, 115-121) as threads over the shared fields `dataListener`,
`inAutoReceive` and the receive channel.  None of the fields is protected by a lock, so every read and write is a step
of its own.  Simplifications: memory is sequentially consistent; calling the listener is one step; the receive channel is never closed
(nothing in the repository closes it).  Listeners and data are numbers.
-/

namespace Verif.Reg.Listener

open Verif.Trace

/-- Where an `autoReceive` goroutine is. -/
inductive PC where
  /-- before `if ep.dataListener != nil` (endp_default.go:83) -/
  | start
  /-- before `ep.inAutoReceive = true` -/
  | flag
  /-- waiting for the channel -/
  | recv
  /-- before `if ep.dataListener == nil` (endp_default.go:86) -/
  | look (m : Nat)
  /-- before `ep.inAutoReceive = false`: the message is dropped -/
  | clear
  /-- before `ep.dataListener(ep, epd)` (endp_default.go:90) -/
  | call (m : Nat)
  | done
  /-- called a nil function: the program ends -/
  | panicked
  deriving Repr, DecidableEq

structure Sys where
  rx : List Nat
  listener : Option Nat
  /-- `inAutoReceive` -/
  flag : Bool
  /-- callers of `SetDataListener` before `if !ep.inAutoReceive` -/
  callers : Nat
  gs : List PC
  /-- calls of listeners: which one, with what -/
  out : List (Nat × Nat)
  /-- messages taken from the channel and never passed on -/
  dropped : List Nat
  deriving Repr, DecidableEq

inductive Label where
  /-- the UpperDeck delivers a message (proc_upperdeck.go:116) -/
  | deliver (m : Nat)
  /-- `ep.dataListener = listener` (endp_default.go:116) -/
  | set (l : Option Nat)
  /-- `if !ep.inAutoReceive { go … }` (endp_default.go:117-119) -/
  | spawn
  /-- goroutine `i` takes its next step -/
  | run (i : Nat)
  deriving Repr, DecidableEq

def Sys.init : Sys := ⟨[], none, false, 0, [], [], []⟩

def Sys.setPC (s : Sys) (i : Nat) (pc : PC) : Sys := { s with gs := s.gs.set i pc }

/-- The next step of goroutine `i` at `pc`; `none`: it waits. -/
def advance (s : Sys) (i : Nat) : PC → Option Sys
  | .start => if s.listener = none then some (s.setPC i .done) else some (s.setPC i .flag)
  | .flag => some { (s.setPC i .recv) with flag := true }
  | .recv =>
    match s.rx with
    | m :: rest => some { (s.setPC i (.look m)) with rx := rest }
    | [] => none
  | .look m =>
    if s.listener = none then some { (s.setPC i .clear) with dropped := s.dropped ++ [m] }
    else some (s.setPC i (.call m))
  | .clear => some { (s.setPC i .done) with flag := false }
  | .call m =>
    match s.listener with
    | some l => some { (s.setPC i .recv) with out := s.out ++ [(l, m)] }
    | none => some { (s.setPC i .panicked) with dropped := s.dropped ++ [m] }
  | .done => none
  | .panicked => none

/-- The receive channel holds 512 items (endp_default.go:101). -/
def step (s : Sys) : Label → Option Sys
  | .deliver m => if s.rx.length < 512 then some { s with rx := s.rx ++ [m] } else none
  | .set l => some { s with listener := l, callers := s.callers + 1 }
  | .spawn =>
    if s.callers = 0 then none
    else if s.flag then some { s with callers := s.callers - 1 }
    else some { s with callers := s.callers - 1, gs := s.gs ++ [.start] }
  | .run i =>
    match s.gs[i]? with
    | some pc => advance s i pc
    | none => none

abbrev exec := Trace.exec step

/-- The messages delivered to the endpoint. -/
def delivered (ls : List Label) : List Nat := ls.filterMap fun | .deliver m => some m | _ => none

theorem delivered_append (a b : List Label) : delivered (a ++ b) = delivered a ++ delivered b := List.filterMap_append

/-- Taken from the channel, not passed on yet. -/
def PC.held : PC → List Nat
  | .look m => [m]
  | .call m => [m]
  | _ => []

def Sys.inflight (s : Sys) : List Nat := s.gs.flatMap PC.held

/-- What a goroutine step does to the messages: it moves at most one, and keeps their order at the ends. -/
theorem advance_moves {s s' : Sys} {i : Nat} {pc : PC} (h : advance s i pc = some s') :
    ∃ pc', s'.gs = s.gs.set i pc' ∧ ∃ o d r, s'.out = s.out ++ o ∧ s'.dropped = s.dropped ++ d ∧ s.rx = r ++ s'.rx ∧
      pc.held ++ r = o.map Prod.snd ++ d ++ pc'.held := by
  cases pc with
  | start =>
    simp only [advance] at h
    split at h <;> injection h with h <;> subst h
    · exact ⟨.done, rfl, [], [], [], by simp [Sys.setPC, PC.held]⟩
    · exact ⟨.flag, rfl, [], [], [], by simp [Sys.setPC, PC.held]⟩
  | flag => injection h with h; subst h; exact ⟨.recv, rfl, [], [], [], by simp [Sys.setPC, PC.held]⟩
  | recv =>
    simp only [advance] at h
    split at h
    · rename_i m rest hrx
      injection h with h; subst h; exact ⟨.look m, rfl, [], [], [m], by simp [hrx, Sys.setPC, PC.held]⟩
    · simp at h
  | look m =>
    simp only [advance] at h
    split at h <;> injection h with h <;> subst h
    · exact ⟨.clear, rfl, [], [m], [], by simp [Sys.setPC, PC.held]⟩
    · exact ⟨.call m, rfl, [], [], [], by simp [Sys.setPC, PC.held]⟩
  | clear => injection h with h; subst h; exact ⟨.done, rfl, [], [], [], by simp [Sys.setPC, PC.held]⟩
  | call m =>
    simp only [advance] at h
    split at h <;> injection h with h <;> subst h
    · rename_i l hl; exact ⟨.recv, rfl, [(l, m)], [], [], by simp [Sys.setPC, PC.held]⟩
    · exact ⟨.panicked, rfl, [], [m], [], by simp [Sys.setPC, PC.held]⟩
  | done => simp [advance] at h
  | panicked => simp [advance] at h

/-- C43, for every schedule: no message is passed on twice or invented; every message delivered was passed to a listener, was
dropped, is held by a goroutine, or is still on the channel. -/
theorem c43_ledger (ls : List Label) : ∀ s, exec .init ls = some s →
    (s.out.map Prod.snd ++ s.dropped ++ s.inflight ++ s.rx).Perm (delivered ls) := by
  induction ls using snoc_induction with
  | h0 => intro s h; injection h with h; subst h; exact List.Perm.refl _
  | h1 ls l ih =>
    intro s h
    obtain ⟨m, hm, hs⟩ := exec_snoc h
    have ih := ih m hm
    rw [delivered_append]
    cases l with
    | deliver x =>
      simp only [step] at hs
      split at hs
      · injection hs with hs
        subst hs
        show (m.out.map Prod.snd ++ m.dropped ++ m.inflight ++ (m.rx ++ [x])).Perm (delivered ls ++ [x])
        rw [← List.append_assoc]
        exact ih.append_right _
      · simp at hs
    | set l => injection hs with hs; subst hs; simpa [delivered, Sys.inflight] using ih
    | spawn =>
      simp only [step] at hs
      split at hs
      · simp at hs
      · split at hs <;> injection hs with hs <;> subst hs
        · simpa [delivered, Sys.inflight] using ih
        · simpa [delivered, Sys.inflight, PC.held] using ih
    | run i =>
      simp only [step] at hs
      split at hs
      · rename_i pc hpc
        obtain ⟨pc', hgs, o, d, r, ho, hd, hr, hbal⟩ := advance_moves hs
        obtain ⟨p1, p2⟩ := flatMap_set_perm PC.held m.gs i pc pc' hpc
        simp only [delivered, List.filterMap_cons, List.filterMap_nil, List.append_nil]
        refine List.Perm.trans ?_ ih
        rw [ho, hd, hr, Sys.inflight, hgs, Sys.inflight]
        simp only [List.map_append, List.append_assoc]
        refine List.Perm.append_left _ ?_
        -- compare as multisets
        rw [List.perm_iff_count]
        intro a
        have hb := congrArg (List.count a) hbal
        have c1 := (List.perm_iff_count.mp p1) a
        have c2 := (List.perm_iff_count.mp p2) a
        simp only [List.count_append] at hb c1 c2 ⊢
        omega
      · simp at hs

/-- C43, part: as long as no caller passes nil, nothing is dropped and no goroutine panics: every message delivered is passed to a
listener exactly once, apart from those on their way.  Missing: nil listeners (`c43_dropped_violated`, `c43_nil_panic`). -/
theorem c43_exactly_once_partial (ls : List Label) (s : Sys) (h : exec .init ls = some s) (hn : .set none ∉ ls) :
    s.dropped = [] ∧ (∀ pc ∈ s.gs, pc ≠ .panicked ∧ pc ≠ .clear) ∧
    (s.out.map Prod.snd ++ s.inflight ++ s.rx).Perm (delivered ls) := by
  have inv : s.dropped = [] ∧ (∀ pc ∈ s.gs, pc ≠ .panicked ∧ pc ≠ .clear) ∧ ((s.callers ≠ 0 ∨ s.gs ≠ []) → s.listener ≠ none) := by
    refine invariant (step := step) (Q := fun l => l ≠ .set none)
      (P := fun s => s.dropped = [] ∧ (∀ pc ∈ s.gs, pc ≠ .panicked ∧ pc ≠ .clear) ∧ ((s.callers ≠ 0 ∨ s.gs ≠ []) → s.listener ≠ none))
      ?_ ls .init s (by simp [Sys.init]) (fun l hl he => hn (he ▸ hl)) h
    rintro s l s' ⟨h1, h2, h3⟩ hq hs
    cases l with
    | deliver x =>
      simp only [step] at hs
      split at hs
      · injection hs with hs; subst hs; exact ⟨h1, h2, h3⟩
      · simp at hs
    | set l =>
      injection hs with hs; subst hs
      refine ⟨h1, h2, fun _ => ?_⟩
      intro hl
      exact hq (by rw [show l = none from hl])
    | spawn =>
      simp only [step] at hs
      split at hs
      · simp at hs
      · rename_i hc
        have hl := h3 (Or.inl hc)
        split at hs <;> injection hs with hs <;> subst hs
        · exact ⟨h1, h2, fun _ => hl⟩
        · refine ⟨h1, ?_, fun _ => hl⟩
          intro pc hpc
          rcases List.mem_append.mp hpc with hpc | hpc
          · exact h2 pc hpc
          · rw [List.mem_singleton] at hpc; subst hpc; simp
    | run i =>
      simp only [step] at hs
      split at hs
      · rename_i pc hpc
        have hmem := List.mem_of_getElem? hpc
        have hl := h3 (Or.inr (List.ne_nil_of_mem hmem))
        have fin : ∀ (pc' : PC), pc' ≠ .panicked ∧ pc' ≠ .clear → ∀ p ∈ s.gs.set i pc', p ≠ .panicked ∧ p ≠ .clear := by
          intro pc' hpc' p hp
          rcases List.mem_or_eq_of_mem_set hp with hp | hp
          · exact h2 p hp
          · exact hp ▸ hpc'
        cases pc with
        | start =>
          simp only [advance, if_neg hl] at hs
          injection hs with hs; subst hs
          exact ⟨h1, fin .flag (by simp), fun _ => hl⟩
        | flag =>
          injection hs with hs; subst hs
          exact ⟨h1, fin .recv (by simp), fun _ => hl⟩
        | recv =>
          simp only [advance] at hs
          split at hs
          · injection hs with hs; subst hs
            exact ⟨h1, fin (.look _) (by simp), fun _ => hl⟩
          · simp at hs
        | look m =>
          simp only [advance, if_neg hl] at hs
          injection hs with hs; subst hs
          exact ⟨h1, fin (.call _) (by simp), fun _ => hl⟩
        | clear => exact absurd rfl (h2 _ hmem).2
        | call m =>
          simp only [advance] at hs
          split at hs
          · injection hs with hs; subst hs
            exact ⟨h1, fin .recv (by simp), fun _ => hl⟩
          · rename_i hnone; exact absurd hnone hl
        | done => simp [advance] at hs
        | panicked => simp [advance] at hs
      · simp at hs
  obtain ⟨i1, i2, _⟩ := inv
  have led := c43_ledger ls s h
  rw [i1, List.append_nil] at led
  exact ⟨i1, i2, led⟩

/-- C43, part: with one goroutine the order is kept: what the listeners got, then what the goroutine holds, then the channel, is
what was delivered, up to dropped messages. With non-nil listeners nothing is dropped.  Missing: two
goroutines (`c43_order_violated`). -/
theorem c43_in_order_partial (ls : List Label) (s : Sys) (h : exec .init ls = some s) (h1 : s.gs.length ≤ 1) (hn : .set none ∉ ls) :
    s.out.map Prod.snd ++ s.inflight ++ s.rx = delivered ls := by
  have key : ∀ ls : List Label, ∀ s, exec .init ls = some s → s.gs.length ≤ 1 → .set none ∉ ls →
      s.out.map Prod.snd ++ s.inflight ++ s.rx = delivered ls := by
    intro ls
    induction ls using snoc_induction with
    | h0 => intro s h _ _; injection h with h; subst h; rfl
    | h1 ls l ih =>
      intro s h hlen hn
      obtain ⟨m, hm, hs⟩ := exec_snoc h
      have hn' : .set none ∉ ls := fun hx => hn (List.mem_append.mpr (Or.inl hx))
      have ih := ih m hm
      rw [delivered_append]
      cases l with
      | deliver x =>
        simp only [step] at hs
        split at hs
        · injection hs with hs
          subst hs
          show m.out.map Prod.snd ++ m.inflight ++ (m.rx ++ [x]) = delivered ls ++ [x]
          rw [← List.append_assoc, ih hlen hn']
        · simp at hs
      | set l => injection hs with hs; subst hs; simpa [delivered, Sys.inflight] using ih hlen hn'
      | spawn =>
        simp only [step] at hs
        split at hs
        · simp at hs
        · split at hs <;> injection hs with hs <;> subst hs
          · simpa [delivered, Sys.inflight] using ih hlen hn'
          · simp only [List.length_append, List.length_cons, List.length_nil] at hlen
            simpa [delivered, Sys.inflight, PC.held] using ih (by omega) hn'
      | run i =>
        have hdr : s.dropped = [] := (c43_exactly_once_partial _ s h hn).1
        simp only [step] at hs
        split at hs
        · rename_i pc hpc
          obtain ⟨pc', hgs, o, d, r, ho, hd, hr, hbal⟩ := advance_moves hs
          have hd' : d = [] := by
            rw [hdr] at hd
            have := congrArg List.length hd
            simp only [List.length_append, List.length_nil] at this
            exact List.eq_nil_of_length_eq_zero (by omega)
          rw [hgs, List.length_set] at hlen
          have hgs1 : m.gs = [pc] ∧ i = 0 := by
            cases hg : m.gs with
            | nil => rw [hg] at hpc; simp at hpc
            | cons p rest =>
              rw [hg] at hlen hpc
              have : rest = [] := by
                cases rest with
                | nil => rfl
                | cons a b => simp at hlen
              subst this
              cases i with
              | zero => simp only [List.getElem?_cons_zero, Option.some.injEq] at hpc; exact ⟨by rw [hpc], rfl⟩
              | succ i => simp at hpc
          have ih := ih hlen hn'
          simp only [Sys.inflight, hgs1.1, List.flatMap_cons, List.flatMap_nil, List.append_nil] at ih
          rw [hgs1.1, hgs1.2] at hgs
          simp only [delivered, List.filterMap_cons, List.filterMap_nil, List.append_nil] at ih ⊢
          rw [← ih, Sys.inflight, hgs, ho, hr]
          simp only [List.set_cons_zero, List.flatMap_cons, List.flatMap_nil, List.append_nil, List.map_append, List.append_assoc]
          rw [← List.append_assoc pc.held, hbal, hd']
          simp
        · simp at hs
  exact key ls s h h1 hn

/-- C43, last clause: before the first `SetDataListener` every message stays on the channel, in order. -/
theorem c43_no_listener (ls : List Label) (s : Sys) (h : exec .init ls = some s) (hn : ∀ l, .set l ∉ ls) :
    s.out = [] ∧ s.rx = delivered ls := by
  have key : ∀ ls : List Label, ∀ s, exec .init ls = some s → (∀ l, .set l ∉ ls) → s.callers = 0 ∧ s.gs = [] ∧ s.out = [] ∧ s.rx = delivered ls := by
    intro ls
    induction ls using snoc_induction with
    | h0 => intro s h _; injection h with h; subst h; exact ⟨rfl, rfl, rfl, rfl⟩
    | h1 ls l ih =>
      intro s h hn
      obtain ⟨m, hm, hs⟩ := exec_snoc h
      obtain ⟨i1, i2, i3, i4⟩ := ih m hm (fun l hl => hn l (List.mem_append.mpr (Or.inl hl)))
      cases l with
      | deliver x =>
        simp only [step] at hs
        split at hs
        · injection hs with hs; subst hs
          exact ⟨i1, i2, i3, by rw [delivered_append]; show m.rx ++ [x] = _ ++ [x]; rw [i4]⟩
        · simp at hs
      | set l => exact absurd (by simp) (hn l)
      | spawn => simp [step, i1] at hs
      | run i => simp [step, i2] at hs
  exact (key ls s h hn).2.2

/-- One listener, replaced while running by another one; four messages. -/
example : exec .init [.deliver 1, .set (some 7), .spawn, .run 0, .run 0, .deliver 2, .run 0, .run 0, .run 0, .set (some 8), .spawn, .deliver 3,
    .run 0, .run 0, .run 0, .deliver 4, .run 0] = some ⟨[4], some 8, true, 0, [.look 3], [(7, 1), (8, 2)], []⟩ := by decide

/-- C43, progress: a goroutine waiting on the channel with a listener set passes on everything on the channel by its own
steps: three for every message. -/
theorem c43_progress (l : Nat) (rx : List Nat) : ∀ s : Sys, s.gs = [.recv] → s.listener = some l → s.rx = rx →
    exec s (List.replicate (3 * rx.length) (.run 0)) = some { s with rx := [], out := s.out ++ rx.map fun m => (l, m) } := by
  induction rx with
  | nil =>
    intro s _ _ h
    cases s
    simp only at h
    subst h
    simp [exec, Trace.exec]
  | cons m rx ih =>
    intro s hg hl hr
    have h3 : exec s [.run 0, .run 0, .run 0] = some { s with rx := rx, out := s.out ++ [(l, m)] } := by
      simp [exec, Trace.exec, step, advance, hg, hl, hr, Sys.setPC]
    have hsplit : List.replicate (3 * (m :: rx).length) (Label.run 0) = [.run 0, .run 0, .run 0] ++ List.replicate (3 * rx.length) (.run 0) := by
      rw [List.length_cons, Nat.mul_add, Nat.add_comm, ← List.replicate_append_replicate]; rfl
    rw [hsplit, exec, exec_append]
    show (exec s [.run 0, .run 0, .run 0]).bind _ = _
    rw [h3, Option.bind_some]
    exact (ih { s with rx := rx, out := s.out ++ [(l, m)] } hg hl rfl).trans (by simp)

/-! ## Violations -/

/-- The part of C43 about messages that arrive while no listener is set fails: after `SetDataListener(nil)` the goroutine still
takes one message from the channel and drops it. -/
theorem c43_dropped_violated (m : Nat) : ∃ s, exec .init [.set (some 7), .spawn, .run 0, .run 0, .set none, .spawn, .deliver m, .run 0, .run 0]
    = some s ∧ s.rx = [] ∧ s.out = [] ∧ s.inflight = [] ∧ s.dropped = [m] := ⟨_, rfl, rfl, rfl, rfl, rfl⟩

/-- Two calls of `SetDataListener` in a row start two goroutines (the first one has not set the flag yet), and the order of
messages is lost. -/
theorem c43_order_violated (a b : Nat) : ∃ s, exec .init [.set (some 7), .spawn, .set (some 8), .spawn, .run 0, .run 0, .run 1, .run 1,
    .deliver a, .deliver b, .run 0, .run 1, .run 1, .run 1, .run 0, .run 0] = some s ∧ s.out = [(8, b), (8, a)] := ⟨_, rfl, rfl⟩

/-- Removing the listener between the test and the call makes the goroutine call a nil function. -/
theorem c43_nil_panic (m : Nat) : ∃ s, exec .init [.set (some 7), .spawn, .run 0, .run 0, .deliver m, .run 0, .run 0, .set none, .run 0] = some s ∧
    s.gs = [.panicked] := ⟨_, rfl, rfl⟩

/-- A listener with no goroutine, and the flag clear. -/
def Deaf (s : Sys) : Prop := s.callers = 0 ∧ (∀ pc ∈ s.gs, pc = .done) ∧ s.listener ≠ none

/-- Without a further call of `SetDataListener` this stays so: nothing is ever passed to the listener. -/
theorem deaf_forever (ls : List Label) (s s' : Sys) (h : Deaf s) (hn : ∀ l, .set l ∉ ls) (he : exec s ls = some s') :
    Deaf s' ∧ s'.out = s.out := by
  refine invariant (step := step) (Q := fun l => ∀ x, l ≠ .set x) (P := fun t => Deaf t ∧ t.out = s.out) ?_ ls s s' ⟨h, rfl⟩
    (fun l hl x hx => hn x (hx ▸ hl)) he
  rintro t l t' ⟨⟨d1, d2, d3⟩, ho⟩ hq hs
  cases l with
  | deliver x =>
    simp only [step] at hs
    split at hs
    · injection hs with hs; subst hs; exact ⟨⟨d1, d2, d3⟩, ho⟩
    · simp at hs
  | set x => exact absurd rfl (hq x)
  | spawn => simp [step, d1] at hs
  | run i =>
    simp only [step] at hs
    split at hs
    · rename_i pc hpc
      rw [d2 pc (List.mem_of_getElem? hpc)] at hs
      simp [advance] at hs
    · simp at hs

/-- The first clause of C43 fails: a listener set while the goroutine is about to end is never called, whatever is
delivered later. -/
theorem c43_lost_wakeup : ∃ ls s, exec .init ls = some s ∧ s.listener = some 8 ∧
    ∀ ls' s', (∀ l, .set l ∉ ls') → exec s ls' = some s' → s'.out = [] := by
  refine ⟨[.set (some 7), .spawn, .run 0, .run 0, .set none, .spawn, .deliver 1, .run 0, .run 0, .set (some 8), .spawn, .run 0],
    ⟨[], some 8, false, 0, [.done], [], [1]⟩, by decide, rfl, ?_⟩
  intro ls' s' hn he
  exact (deaf_forever ls' _ s' ⟨rfl, by simp, by simp⟩ hn he).2

end Verif.Reg.Listener
