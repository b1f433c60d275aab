import Verif.Conn.LostLock
import Verif.Fair

/-!
# The Heartbeat's mutex in infinite executions (C81)

Infinite executions of `Conn/LostLock.lean`.  The check goroutine and the listeners it calls are never forgotten by the scheduler
(weak fairness).  A receive goroutine may have to wait for the mutex, which others take and give back meanwhile; `sync.Mutex` lets no
one wait for ever in that case (its starvation mode), which is strong fairness.
-/

namespace Verif.Conn.LostLock

open Verif.Trace

variable {need : Need} {s0 : Sys} (r : Run (step need) s0)

/-- What is left of the round of checks. -/
def Chk.todo : Chk → Nat
  | .idle => 0
  | .loop rest => 2 * rest.length + 1
  | .listening _ rest => 2 * rest.length + 2

theorem chk_other {s s' : Sys} {l : Label} (hs : step need s l = some s') (hl : l.own = false) (hi : s.chk ≠ .idle) :
    s'.chk = s.chk ∧ ∀ p ∈ s.app, p ∈ s'.app := by
  cases l with
  | arrive e it => injection hs with hs; subst hs; exact ⟨rfl, fun _ h => h⟩
  | take e =>
    simp only [step] at hs
    split at hs
    · injection hs with hs; subst hs; exact ⟨rfl, fun _ h => List.mem_append_left _ h⟩
    · rw [if_neg hi] at hs; cases hs
    · cases hs
  | announce e => simp only [step] at hs; rw [if_neg hi] at hs; cases hs
  | begin cs => simp only [step] at hs; rw [if_neg hi] at hs; cases hs
  | next => cases hl
  | ret => cases hl

theorem chk_own {s s' : Sys} {l : Label} (hs : step need s l = some s') (hl : l.own = true) : s'.chk.todo < s.chk.todo := by
  cases l with
  | next =>
    simp only [step] at hs
    split at hs
    · rename_i h; injection hs with hs; subst hs; rw [h]; simp only [Chk.todo, List.length_cons]; omega
    · rename_i h; injection hs with hs; subst hs; rw [h]; simp [Chk.todo]
    · cases hs
  | ret =>
    simp only [step] at hs
    split at hs
    · rename_i c rest h
      split at hs
      · injection hs with hs; subst hs; rw [h]; simp [Chk.todo]
      · cases ht : takeMsg _ s.app with
        | none => rw [ht] at hs; cases hs
        | some app => rw [ht] at hs; injection hs with hs; subst hs; rw [h]; simp [Chk.todo]
    · cases hs
  | arrive => cases hl
  | take => cases hl
  | announce => cases hl
  | begin => cases hl

/-- From `m` on a listener waits for a message of `d`, of which there is none. -/
def WaitsFrom (m d : Nat) : Prop := ∃ c rest, need c = some d ∧ ∀ k, m ≤ k → (r.state k).chk = .listening c rest ∧ ∀ v, (d, v) ∉ (r.state k).app

/-- C81, for ever: with any listeners, the mutex is given back again and again, unless a listener waits for ever for a message that is never there. -/
theorem c81_or (hf : r.Fair (·.own = true)) (n : Nat) : (∃ m, n ≤ m ∧ (r.state m).chk = .idle) ∨ ∃ m d, n ≤ m ∧ WaitsFrom r m d := by
  suffices h : ∀ v n, (r.state n).chk.todo ≤ v → (∃ m, n ≤ m ∧ (r.state m).chk = .idle) ∨ ∃ m d, n ≤ m ∧ WaitsFrom r m d from h _ n (Nat.le_refl _)
  intro v
  induction v with
  | zero =>
    intro n hv
    refine .inl ⟨n, Nat.le_refl _, ?_⟩
    cases h : (r.state n).chk <;> rw [h] at hv <;> simp [Chk.todo] at hv ⊢
  | succ v ih =>
    intro n hv
    by_cases hi : (r.state n).chk = .idle
    · exact .inl ⟨n, Nat.le_refl _, hi⟩
    by_cases hex : ∃ m l, n ≤ m ∧ (r.state m).chk = (r.state n).chk ∧ l.own = true ∧ step need (r.state m) l = some (r.state (m + 1))
    · obtain ⟨m, l, h1, h2, h3, h4⟩ := hex
      have := chk_own h4 h3
      rw [h2] at this
      rcases ih (m + 1) (by omega) with ⟨j, a, b⟩ | ⟨j, d, a, b⟩
      · exact .inl ⟨j, by omega, b⟩
      · exact .inr ⟨j, d, by omega, b⟩
    · have stay : ∀ k, n ≤ k → ∀ m, k ≤ m → (r.state k).chk = (r.state n).chk → (r.state m).chk = (r.state n).chk ∧ ∀ p ∈ (r.state k).app, p ∈ (r.state m).app := by
        intro k hk m hm h0
        refine r.keeps (fun s => s.chk = (r.state n).chk ∧ ∀ p ∈ (r.state k).app, p ∈ s.app) k ⟨h0, fun _ h => h⟩ (fun m l hm _ hq hs => ?_) m hm
        cases hl : l.own with
        | true => exact absurd ⟨m, l, by omega, hq.1, hl, hs⟩ hex
        | false =>
          obtain ⟨a, b⟩ := chk_other hs hl (by rw [hq.1]; exact hi)
          exact ⟨a.trans hq.1, fun p hp => b p (hq.2 p hp)⟩
      have same := fun m hm => (stay n (Nat.le_refl _) m hm rfl).1
      have dull : ∀ k, n ≤ k → ¬ ∀ m, k ≤ m → Ready (step need) (·.own = true) (r.state m) := by
        intro k hk hr
        obtain ⟨m, l, h1, h2, h3⟩ := hf k hr
        rcases r.next m with ⟨e, _⟩ | ⟨l', e, hs⟩
        · rw [e] at h2; cases h2
        · rw [e] at h2; injection h2 with h2; subst h2
          exact hex ⟨m, l', by omega, same m (by omega), h3, hs⟩
      cases hc : (r.state n).chk with
      | idle => exact absurd hc hi
      | loop rest =>
        refine absurd (fun m hm => ⟨.next, rfl, ?_⟩) (dull n (Nat.le_refl _))
        have := (same m hm).trans hc
        cases rest <;> simp [step, this]
      | listening c rest =>
        cases hn : need c with
        | none =>
          refine absurd (fun m hm => ⟨.ret, rfl, ?_⟩) (dull n (Nat.le_refl _))
          simp [step, (same m hm).trans hc, hn]
        | some d =>
          refine .inr ⟨n, d, Nat.le_refl _, c, rest, hn, fun k hk => ⟨(same k hk).trans hc, fun v hv => dull k hk fun m hm => ⟨.ret, rfl, ?_⟩⟩⟩
          have hv' := (stay k hk m hm (same k hk)).2 _ hv
          have := (takeMsg_iff d (r.state m).app).2 ⟨v, hv'⟩
          simpa [step, (same m (by omega)).trans hc, hn] using this

/-- What has been processed of connection `c`. -/
def handled (c : Nat) (s : Sys) : Nat := s.counted.count c + (msgsOf c s.app).length

theorem handled_step (hn : ∀ c, need c = none) (c : Nat) {s s' : Sys} {l : Label} (hs : step need s l = some s') :
    handled c s ≤ handled c s' ∧ (l = .take c → handled c s < handled c s') ∧ handled c s + (s.streams c).length ≤ handled c s' + (s'.streams c).length := by
  cases l with
  | arrive e it =>
    injection hs with hs; subst hs
    refine ⟨Nat.le_refl _, by simp, ?_⟩
    simp only [handled, setStream]
    split
    · rename_i h; subst h; simp
    · exact Nat.le_refl _
  | take e =>
    simp only [step] at hs
    split at hs
    · rename_i v rest h
      injection hs with hs; subst hs
      simp only [handled, setStream, msgsOf_append]
      by_cases e' : c = e
      · subst e'; simp [h, msgsOf]; omega
      · simp [msgsOf, e', Ne.symm e']
    · rename_i rest h
      split at hs
      · injection hs with hs; subst hs
        simp only [handled, setStream]
        by_cases e' : c = e
        · subst e'; simp [h]; omega
        · simp [e', Ne.symm e']
      · cases hs
    · cases hs
  | announce e =>
    simp only [step] at hs; split at hs
    · injection hs with hs; subst hs; simp [handled]
    · cases hs
  | begin cs =>
    simp only [step] at hs; split at hs
    · injection hs with hs; subst hs; simp [handled]
    · cases hs
  | next =>
    simp only [step] at hs; split at hs
    · injection hs with hs; subst hs; simp [handled]
    · injection hs with hs; subst hs; simp [handled]
    · cases hs
  | ret =>
    simp only [step] at hs; split at hs
    · rw [hn] at hs; injection hs with hs; subst hs; simp [handled]
    · cases hs

/-- C81, for ever, for listeners that do not wait: the mutex is given back again and again, and everything that has arrived on a connection is
processed.  Missing: listeners that wait for a message (`c81_or`, `c81_never`). -/
theorem c81_forever_partial (hn : ∀ c, need c = none) (hf : r.Fair (·.own = true)) (n : Nat) :
    (∃ m, n ≤ m ∧ (r.state m).chk = .idle) ∧
    ∀ c, r.StrongFair (· = .take c) → ∃ m, n ≤ m ∧ handled c (r.state n) + ((r.state n).streams c).length ≤ handled c (r.state m) := by
  have free : ∀ n, ∃ m, n ≤ m ∧ (r.state m).chk = .idle := by
    intro n
    rcases c81_or r hf n with h | ⟨_, _, _, c, _, h, _⟩
    · exact h
    · rw [hn] at h; cases h
  refine ⟨free n, fun c hs => ?_⟩
  have all : ∀ m, n ≤ m → handled c (r.state n) + ((r.state n).streams c).length ≤ handled c (r.state m) + ((r.state m).streams c).length :=
    r.keeps (fun s => handled c (r.state n) + ((r.state n).streams c).length ≤ handled c s + (s.streams c).length) n (Nat.le_refl _)
      fun m l _ _ hk hst => Nat.le_trans hk (handled_step hn c hst).2.2
  obtain ⟨m, h1, h2⟩ := r.leads_strong (· = .take c) hs (handled c) (fun m => handled c (r.state n) + ((r.state n).streams c).length ≤ handled c (r.state m)) n
    (fun m l _ _ hst => ⟨(handled_step hn c hst).1, (handled_step hn c hst).2.1⟩)
    (fun m hm hng => by
      obtain ⟨k, h1, h2⟩ := free m
      refine ⟨k, h1, .take c, rfl, ?_⟩
      have h3 := all k (by omega)
      have h4 := hng k h1
      cases h : (r.state k).streams c with
      | nil => rw [h] at h3; exact absurd h3 h4
      | cons it rest => cases it <;> simp [step, h, h2]) (handled c (r.state n) + ((r.state n).streams c).length)
  exact ⟨m, h1, h2.elim id id⟩

/-- C81 fails for ever, however fair the scheduler is: a listener that is stuck stays so, and no heartbeat is counted and no connection announced any more. -/
theorem c81_never (n d : Nat) (h : Stuck need (r.state n) d) : ∀ m, n ≤ m →
    Stuck need (r.state m) d ∧ (r.state m).chk = (r.state n).chk ∧ (r.state m).counted = (r.state n).counted ∧ (r.state m).announced = (r.state n).announced :=
  r.keeps (fun s => Stuck need s d ∧ s.chk = (r.state n).chk ∧ s.counted = (r.state n).counted ∧ s.announced = (r.state n).announced) n ⟨h, rfl, rfl, rfl⟩
    fun _ _ _ _ hk hs => by
      obtain ⟨a, b, c, d, _⟩ := stuck_step hk.1 hs
      exact ⟨a, b.trans hk.2.1, c.trans hk.2.2.1, d.trans hk.2.2.2⟩

/-- `c81_forever_partial`: a heartbeat arrives before, a message while the listener is called. -/
def freedRun : Run (step fun _ => none) init :=
  demo [.arrive 2 .beat, .begin [1], .next, .arrive 2 (.msg 7), .ret, .next, .take 2, .take 2] _ rfl

example : (freedRun.state 4).streams 2 = [.beat, .msg 7] ∧ ∃ m, 4 ≤ m ∧ 2 ≤ handled 2 (freedRun.state m) := by
  refine ⟨rfl, ?_⟩
  have hf : freedRun.Fair (·.own = true) := demo_fair _ _ _ _ (by
    rintro ⟨l, h1, h2⟩
    cases l <;> first | (cases h1; done) | (cases h2; done))
  have hs : freedRun.StrongFair (· = .take 2) := demo_strong _ _ _ _ (by
    rintro ⟨l, h1, h2⟩
    subst h1; cases h2)
  exact (c81_forever_partial freedRun (fun _ => rfl) hf 4).2 2 hs

/-- `c81_or`, `c81_never`: an execution fair to everyone in which the listener never returns, although the message has arrived. -/
def stuckRun : Run (step askTwo) init := demo [.begin [1], .next, .arrive 2 .beat, .arrive 2 (.msg 7)] _ rfl

example : stuckRun.Fair (·.own = true) ∧ stuckRun.StrongFair (· = .take 2) ∧ (∀ m, 4 ≤ m → (stuckRun.state m).streams 2 = [.beat, .msg 7]) ∧
    ∀ m, 4 ≤ m → Stuck askTwo (stuckRun.state m) 2 := by
  refine ⟨demo_fair _ _ _ _ ?_, demo_strong _ _ _ _ ?_, fun m hm => ?_, fun m hm => (c81_never stuckRun 4 2 ⟨⟨1, [], rfl, rfl⟩, ?_, rfl⟩ m hm).1⟩
  · rintro ⟨l, h1, h2⟩
    cases l <;> first | (cases h1; done) | (cases h2; done)
  · rintro ⟨l, h1, h2⟩
    subst h1; cases h2
  · rw [show stuckRun.state m = _ from demo_rest _ _ _ m hm]; rfl
  · intro v h; cases h

end Verif.Conn.LostLock
