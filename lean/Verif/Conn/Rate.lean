import Verif.Trace
import Verif.Reg.Options

/-!
# The timers of Heartbeat and StatCounter (C104)

Every announced connection gets a goroutine of every Heartbeat (proc_heartbeat.go:139-170) and of every StatCounter with a positive
interval (proc_stat_counter.go:146-169), and every Run of a Heartbeat starts one more goroutine that checks once a second
(proc_heartbeat.go:193-198).  Here all of them under one clock, in nanoseconds, for any number of processors and
connections.  A goroutine may be late by any amount (scheduling, a slow write); `time.Sleep` returns not before its time.

`Duration` is an `int64`: `time.Second * time.Duration(interval)` (proc_heartbeat.go:167, proc_stat_counter.go:166) wraps around, and
`time.Sleep` of a duration that is not positive returns at once.  `int` has 64 bits, as on the usual platforms.

Not modelled: what the message does further down (C20, C25), what `check` does (C51, C78), who closes the connection (C71, C91).
-/

namespace Verif.Conn.Rate
open Verif.Trace Verif.Reg.Options

/-- One second, in nanoseconds. -/
abbrev second : Nat := 1000000000

/-- How long `time.Sleep(time.Second * time.Duration(interval))` sleeps at least. -/
def pause (interval : Int) : Nat := (Int.bmod (interval * second) (2 ^ 64)).toNat

/-- The processors with timers, with the field `intervalInSecond`. -/
inductive Timer where
  | heartbeat (interval : Int)
  | stat (interval : Int)
  deriving Repr, DecidableEq

/-- `Run` with the value of the option (proc_heartbeat.go:174-178, proc_stat_counter.go:172-177). -/
def Timer.run (o : Any) : Timer → Timer
  | .heartbeat i => .heartbeat (parseInt o i).1
  | .stat i => .stat (parseInt o i).1

inductive PC where
  /-- before `connection.Closed()` -/
  | check
  /-- before the message is sent (a checker: before `check()`) -/
  | fire
  /-- the message is being sent -/
  | busy
  /-- in `time.Sleep` until then -/
  | asleep (till : Nat)
  | ended
  deriving Repr, DecidableEq

structure G where
  /-- the processor it belongs to -/
  proc : Nat
  /-- the connection it was started for; `none`: the checking goroutine of a Heartbeat -/
  conn : Option Nat
  /-- `interval` is read once, when the goroutine is started -/
  pause : Nat
  pc : PC
  deriving Repr, DecidableEq

structure S where
  now : Nat
  procs : List Timer
  closed : List Nat
  gs : List G
  /-- Which goroutine sent a message (or checked), and when. -/
  log : List (Nat × Nat)
  deriving Repr, DecidableEq

inductive L where
  /-- time passes -/
  | tick (d : Nat)
  /-- Run of the `i`-th of these processors, whose interval option has this value -/
  | run (i : Nat) (o : Any)
  /-- a `NewConnection` event -/
  | announce (c : Nat)
  | close (c : Nat)
  /-- goroutine `g` goes on -/
  | step (g : Nat)
  deriving Repr, DecidableEq

/-- `OnEvent`: the goroutine for a new connection. -/
def Timer.start (c i : Nat) : Timer → Option G
  | .heartbeat v => some ⟨i, some c, Rate.pause v, .check⟩
  | .stat v => if v ≤ 0 then none else some ⟨i, some c, Rate.pause v, .check⟩

/-- The goroutines for a new connection, processor by processor. -/
def starts (c : Nat) : Nat → List Timer → List G
  | _, [] => []
  | i, t :: ts => (t.start c i).toList ++ starts c (i + 1) ts

/-- One step of a goroutine: its next program counter, and whether it has sent. -/
def G.next (g : G) (now : Nat) (closed : List Nat) : Option (PC × Bool) :=
  match g.pc with
  | .check => some (if (match g.conn with | some c => closed.contains c | none => false) then .ended else .fire, false)
  | .fire => some (.busy, true)
  | .busy => some (.asleep (now + g.pause), false)
  | .asleep u => if now < u then none else some (.check, false)
  | .ended => none

def step (s : S) : L → Option S
  | .tick d => some { s with now := s.now + d }
  | .run i o => match s.procs[i]? with
    | some t => some { s with
        procs := s.procs.set i (t.run o)
        gs := match t with
          | .heartbeat _ => s.gs ++ [⟨i, none, second, .fire⟩]
          | .stat _ => s.gs }
    | none => none
  | .announce c => some { s with gs := s.gs ++ starts c 0 s.procs }
  | .close c => some { s with closed := c :: s.closed }
  | .step i => match s.gs[i]? with
    | some g => match g.next s.now s.closed with
      | some (pc, sent) => some { s with
          gs := s.gs.set i { g with pc := pc }
          log := if sent then s.log ++ [(i, s.now)] else s.log }
      | none => none
    | none => none

/-- A stack with these processors before its first Run. -/
def start (procs : List Timer) : S := ⟨0, procs, [], [], []⟩

/-- When goroutine `g` has sent. -/
def fires (g : Nat) (log : List (Nat × Nat)) : List Nat := (log.filter fun e => e.1 == g).map (·.2)

theorem fires_append (g : Nat) (a b : List (Nat × Nat)) : fires g (a ++ b) = fires g a ++ fires g b := by simp [fires]

theorem fires_self (g t : Nat) (l : List (Nat × Nat)) : fires g (l ++ [(g, t)]) = fires g l ++ [t] := by simp [fires]

theorem fires_other {g i : Nat} (h : i ≠ g) (t : Nat) (l : List (Nat × Nat)) : fires g (l ++ [(i, t)]) = fires g l := by
  simp [fires, h]

/-! ## What a step changes -/

theorem step_step {s s' : S} {i : Nat} (h : step s (.step i) = some s') :
    ∃ g pc sent, s.gs[i]? = some g ∧ g.next s.now s.closed = some (pc, sent) ∧
      s' = { s with gs := s.gs.set i { g with pc := pc }, log := if sent then s.log ++ [(i, s.now)] else s.log } := by
  simp only [step] at h
  split at h
  · rename_i g hg
    split at h
    · rename_i pc sent hn
      injection h with h
      exact ⟨g, pc, sent, hg, hn, h.symm⟩
    · cases h
  · cases h

/-- All that a goroutine has to do with. -/
structure Seen (s s' : S) (i : Nat) : Prop where
  gs : s'.gs[i]? = s.gs[i]?
  log : fires i s'.log = fires i s.log
  now : s.now ≤ s'.now
  closed : ∀ c ∈ s.closed, c ∈ s'.closed

/-- A goroutine moves only in its own steps. -/
theorem seen_other {s s' : S} {l : L} {i : Nat} (h : step s l = some s') (hl : l ≠ .step i) (hi : i < s.gs.length) : Seen s s' i := by
  cases l with
  | tick d => cases h; exact ⟨rfl, rfl, by simp, fun _ h => h⟩
  | run j o =>
    simp only [step] at h
    split at h
    · injection h with h
      subst h
      refine ⟨?_, rfl, Nat.le_refl _, fun _ h => h⟩
      simp only
      split
      · rw [List.getElem?_append_left hi]
      · rfl
    · cases h
  | announce c => cases h; exact ⟨List.getElem?_append_left hi, rfl, Nat.le_refl _, fun _ h => h⟩
  | close c => cases h; exact ⟨rfl, rfl, Nat.le_refl _, fun _ h => by simp [h]⟩
  | step j =>
    have hj : j ≠ i := fun e => hl (by rw [e])
    obtain ⟨g, pc, sent, h1, h2, rfl⟩ := step_step h
    refine ⟨by simp only; rw [List.getElem?_set_ne hj], ?_, Nat.le_refl _, fun _ h => h⟩
    simp only
    split
    · exact fires_other hj _ _
    · rfl

/-- Its own step. -/
theorem seen_self {s s' : S} {i : Nat} {g : G} (h : step s (.step i) = some s') (hg : s.gs[i]? = some g) :
    ∃ pc sent, g.next s.now s.closed = some (pc, sent) ∧ s'.gs[i]? = some { g with pc := pc } ∧
      fires i s'.log = (if sent then fires i s.log ++ [s.now] else fires i s.log) ∧ s'.now = s.now ∧ s'.closed = s.closed := by
  obtain ⟨g', pc, sent, h1, h2, rfl⟩ := step_step h
  rw [hg] at h1
  injection h1 with h1
  subst h1
  have hlt : i < s.gs.length := (List.getElem?_eq_some_iff.mp hg).1
  refine ⟨pc, sent, h2, by simp [hlt], ?_, rfl, rfl⟩
  simp only
  split
  · exact fires_self _ _ _
  · rfl

theorem gs_grow {s s' : S} {l : L} (h : step s l = some s') : s.gs.length ≤ s'.gs.length := by
  cases l with
  | tick d => cases h; exact Nat.le_refl _
  | run j o =>
    simp only [step] at h
    split at h
    · injection h with h
      subst h
      simp only
      split <;> simp
    · cases h
  | announce c => cases h; simp
  | close c => cases h; exact Nat.le_refl _
  | step j => obtain ⟨g, pc, sent, h1, h2, rfl⟩ := step_step h; simp

/-- New goroutines have not begun. -/
theorem fresh_goroutine {s s' : S} {l : L} {i : Nat} {g : G} (h : step s l = some s') (hi : s.gs.length ≤ i) (hg : s'.gs[i]? = some g) :
    (g.pc = .check ∨ g.pc = .fire) ∧ (∀ c, g.conn = some c → l = .announce c) ∧ s'.log = s.log := by
  have hlt := (List.getElem?_eq_some_iff.mp hg).1
  cases l with
  | tick d => cases h; exact absurd hlt (by simp only; omega)
  | run j o =>
    simp only [step] at h
    split at h
    · injection h with h
      subst h
      simp only at hg hlt
      split at hg
      · simp only [List.length_append, List.length_cons, List.length_nil] at hlt
        rw [List.getElem?_append_right hi, show i - s.gs.length = 0 by omega] at hg
        simp only [List.getElem?_cons_zero, Option.some.injEq] at hg
        subst hg
        exact ⟨.inr rfl, by simp, rfl⟩
      · simp only at hlt; omega
    · cases h
  | announce c =>
    cases h
    simp only at hg hlt
    rw [List.getElem?_append_right hi] at hg
    have hm : g ∈ starts c 0 s.procs := List.mem_of_getElem? hg
    have key : ∀ (ts : List Timer) k, g ∈ starts c k ts → g.pc = .check ∧ g.conn = some c := by
      intro ts
      induction ts with
      | nil => intro k h; cases h
      | cons t ts ih =>
        intro k h
        simp only [starts, List.mem_append, Option.mem_toList] at h
        rcases h with h | h
        · cases t with
          | heartbeat v => simp only [Timer.start, Option.some.injEq] at h; subst h; exact ⟨rfl, rfl⟩
          | stat v =>
            simp only [Timer.start] at h
            split at h
            · cases h
            · injection h with h; subst h; exact ⟨rfl, rfl⟩
        · exact ih _ h
    obtain ⟨k1, k2⟩ := key _ _ hm
    refine ⟨.inl k1, fun c' hc => ?_, rfl⟩
    rw [k2] at hc
    injection hc with hc
    rw [hc]
  | close c => cases h; exact absurd hlt (by simp only; omega)
  | step j =>
    obtain ⟨g', pc, sent, h1, h2, rfl⟩ := step_step h
    exact absurd hlt (by simp only [List.length_set]; omega)

/-- Only goroutines that exist are in the log. -/
theorem log_known {procs : List Timer} (ls : List L) (s : S) (h : exec step (start procs) ls = some s) : ∀ e ∈ s.log, e.1 < s.gs.length := by
  refine invariant (P := fun s => ∀ e ∈ s.log, e.1 < s.gs.length) (Q := fun _ => True) ?_ ls (start procs) s (by simp [start]) (fun _ _ => trivial) h
  intro s l s' hp _ hs e he
  have hgrow := gs_grow hs
  by_cases hl : ∃ j, l = .step j
  · obtain ⟨j, rfl⟩ := hl
    obtain ⟨g, pc, sent, h1, h2, rfl⟩ := step_step hs
    simp only [List.length_set] at he ⊢
    split at he
    · rcases List.mem_append.mp he with he | he
      · exact hp e he
      · simp only [List.mem_cons, List.not_mem_nil, or_false] at he
        subst he
        exact (List.getElem?_eq_some_iff.mp h1).1
    · exact hp e he
  · have : s'.log = s.log := by
      cases l with
      | tick d => cases hs; rfl
      | run j o =>
        simp only [step] at hs
        split at hs
        · injection hs with hs; subst hs; rfl
        · cases hs
      | announce c => cases hs; rfl
      | close c => cases hs; rfl
      | step j => exact absurd ⟨j, rfl⟩ hl
    rw [this] at he
    have := hp e he
    omega

/-! ## The rate -/

/-- Each one at least `d` after all earlier ones. -/
def Apart (d : Nat) (ts : List Nat) : Prop := ts.Pairwise fun a b => a + d ≤ b

/-- Where the goroutine is, compared with what it has sent. -/
def Paced (s : S) (i : Nat) (g : G) : Prop :=
  Apart g.pause (fires i s.log) ∧
  match g.pc with
  | .check => ∀ t ∈ fires i s.log, t + g.pause ≤ s.now
  | .fire => ∀ t ∈ fires i s.log, t + g.pause ≤ s.now
  | .busy => ∀ t ∈ fires i s.log, t ≤ s.now
  | .asleep u => (∀ t ∈ fires i s.log, t + g.pause ≤ u) ∧ u ≤ s.now + g.pause
  | .ended => True

theorem paced {procs : List Timer} (ls : List L) (s : S) (h : exec step (start procs) ls = some s) :
    ∀ i g, s.gs[i]? = some g → Paced s i g := by
  refine (snoc_induction (P := fun ls => ∀ s, exec step (start procs) ls = some s → ∀ i g, s.gs[i]? = some g → Paced s i g) ?_ ?_ ls) s h
  · intro s h i g hg
    injection h with h
    subst h
    simp [start] at hg
  · intro ls l ih s' h i g hg
    obtain ⟨s, hs, hst⟩ := exec_snoc h
    have hknown := log_known ls s hs
    have ih := ih s hs
    by_cases hi : i < s.gs.length
    · by_cases hl : l = .step i
      · subst hl
        obtain ⟨g0, hg0⟩ : ∃ g0, s.gs[i]? = some g0 := ⟨_, List.getElem?_eq_getElem hi⟩
        obtain ⟨pc, sent, h1, h2, h3, h4, _⟩ := seen_self hst hg0
        rw [hg] at h2
        injection h2 with h2
        subst h2
        obtain ⟨a, b⟩ := ih i g0 hg0
        simp only [G.next] at h1
        cases hpc : g0.pc with
        | check =>
          rw [hpc] at h1 b
          simp only [Option.some.injEq, Prod.mk.injEq] at h1
          obtain ⟨h1, rfl⟩ := h1
          subst h1
          simp only [Bool.false_eq_true, if_false] at h3
          refine ⟨by rw [h3]; exact a, ?_⟩
          rw [h3, h4]
          generalize (match g0.conn with | some c => s.closed.contains c | none => false) = b'
          cases b' with
          | true => trivial
          | false => exact b
        | fire =>
          rw [hpc] at h1 b
          simp only [Option.some.injEq, Prod.mk.injEq] at h1
          obtain ⟨h1, rfl⟩ := h1
          subst h1
          simp only [if_true] at h3
          refine ⟨?_, ?_⟩
          · rw [h3]
            refine List.pairwise_append.mpr ⟨a, List.pairwise_singleton _ _, fun x hx y hy => ?_⟩
            simp only [List.mem_cons, List.not_mem_nil, or_false] at hy
            subst hy
            exact b x hx
          · simp only [h3, h4]
            intro t ht
            rcases List.mem_append.mp ht with ht | ht
            · have := b t ht; omega
            · simp only [List.mem_cons, List.not_mem_nil, or_false] at ht
              omega
        | busy =>
          rw [hpc] at h1 b
          simp only [Option.some.injEq, Prod.mk.injEq] at h1
          obtain ⟨h1, rfl⟩ := h1
          subst h1
          simp only [Bool.false_eq_true, if_false] at h3
          refine ⟨by rw [h3]; exact a, ?_⟩
          simp only [h3, h4]
          exact ⟨fun t ht => by have := b t ht; omega, Nat.le_refl _⟩
        | asleep u =>
          rw [hpc] at h1 b
          simp only at h1
          split at h1
          · cases h1
          · simp only [Option.some.injEq, Prod.mk.injEq] at h1
            obtain ⟨h1, rfl⟩ := h1
            subst h1
            simp only [Bool.false_eq_true, if_false] at h3
            refine ⟨by rw [h3]; exact a, ?_⟩
            simp only [h3, h4]
            intro t ht
            have := b.1 t ht; omega
        | ended => rw [hpc] at h1; cases h1
      · obtain ⟨e1, e2, e3, _⟩ := seen_other hst hl hi
        rw [e1] at hg
        obtain ⟨a, b⟩ := ih i g hg
        refine ⟨by rw [e2]; exact a, ?_⟩
        rw [e2]
        cases hpc : g.pc with
        | check => rw [hpc] at b; intro t ht; have := b t ht; omega
        | fire => rw [hpc] at b; intro t ht; have := b t ht; omega
        | busy => rw [hpc] at b; intro t ht; have := b t ht; omega
        | asleep u => rw [hpc] at b; exact ⟨b.1, by have := b.2; omega⟩
        | ended => trivial
    · obtain ⟨hp, _, hlog⟩ := fresh_goroutine hst (by omega) hg
      have hnone : fires i s'.log = [] := by
        rw [hlog, fires, List.map_eq_nil_iff, List.filter_eq_nil_iff]
        intro e he
        have := hknown e he
        simp; omega
      rw [Paced, hnone]
      refine ⟨List.Pairwise.nil, ?_⟩
      rcases hp with hp | hp <;> rw [hp] <;> simp

theorem apart_span (d B : Nat) : ∀ (us : List Nat) (x : Nat), Apart d (x :: us) → (∀ u ∈ x :: us, u ≤ B) → x + us.length * d ≤ B := by
  intro us
  induction us with
  | nil => intro x _ h; simpa using h x (by simp)
  | cons y us ih =>
    intro x h hb
    obtain ⟨h1, h2⟩ := List.pairwise_cons.mp h
    have := ih y h2 (fun u hu => hb u (by simp [hu]))
    have := h1 y (by simp)
    simp only [List.length_cons, Nat.succ_mul]
    omega

/-- C104: whatever the scheduling, in `T` nanoseconds a timer sends at most `T / pause + 1` messages. -/
theorem c104_rate_partial (procs : List Timer) (ls : List L) (s : S) (h : exec step (start procs) ls = some s) (i : Nat) (g : G) (hg : s.gs[i]? = some g)
    (hp : 0 < g.pause) (a T : Nat) : ((fires i s.log).filter fun t => decide (a ≤ t ∧ t ≤ a + T)).length ≤ T / g.pause + 1 := by
  obtain ⟨h1, _⟩ := paced ls s h i g hg
  have h2 : Apart g.pause ((fires i s.log).filter fun t => decide (a ≤ t ∧ t ≤ a + T)) := List.Pairwise.filter _ h1
  have h3 : ∀ u ∈ (fires i s.log).filter (fun t => decide (a ≤ t ∧ t ≤ a + T)), a ≤ u ∧ u ≤ a + T := by
    intro u hu
    simpa using (List.mem_filter.mp hu).2
  generalize (fires i s.log).filter (fun t => decide (a ≤ t ∧ t ≤ a + T)) = us at h2 h3
  cases us with
  | nil => simp
  | cons x us =>
    have h4 := apart_span g.pause (a + T) us x h2 fun u hu => (h3 u hu).2
    have h5 := (h3 x (by simp)).1
    have : us.length ≤ T / g.pause := (Nat.le_div_iff_mul_le hp).mpr (by omega)
    simp only [List.length_cons]
    omega

/-! ## The pause -/

theorem pause_eq {interval : Int} (h0 : 0 ≤ interval) (h1 : interval ≤ 9223372036) : pause interval = (interval * second).toNat := by
  rw [pause, Int.bmod_eq_of_le (by simp only [second]; omega) (by simp only [second]; omega)]

/-- C104: the pause is the interval asked for exactly up to 9223372036 seconds (about 292 years). -/
theorem c104_pause (interval : Int) (h0 : 0 ≤ interval) (h1 : interval < 2 ^ 63) :
    (pause interval : Int) = interval * second ↔ interval ≤ 9223372036 := by
  constructor
  · intro h
    have h2 : Int.bmod (interval * second) (2 ^ 64) < 2 ^ 63 := by
      have := @Int.bmod_lt (interval * second) (2 ^ 64) (by decide)
      omega
    rw [pause] at h
    simp only [second] at *
    omega
  · intro h
    rw [pause_eq h0 h]
    simp only [second]
    omega

/-! ## Too fast -/

theorem step_at {s : S} {i : Nat} {g : G} {pc : PC} {sent : Bool} (hg : s.gs[i]? = some g) (hn : g.next s.now s.closed = some (pc, sent)) :
    step s (.step i) = some { s with gs := s.gs.set i { g with pc := pc }, log := if sent then s.log ++ [(i, s.now)] else s.log } := by
  simp only [step, hg, hn]

theorem exec_of {s m s' : S} {l : L} {ls : List L} (h : step s l = some m) (h' : exec step m ls = some s') : exec step s (l :: ls) = some s' := by
  simp only [exec, h]
  exact h'

/-- One round of a goroutine: sent, and slept for `d`. -/
theorem round_of {s : S} {i c : Nat} {g : G} (hg : s.gs[i]? = some g) (hc : g.conn = some c) (hcl : s.closed.contains c = false) (hpc : g.pc = .check)
    (d : Nat) (hd : g.pause ≤ d) : ∃ s', exec step s [.step i, .step i, .step i, .tick d, .step i] = some s' ∧ s'.gs[i]? = some g ∧ s'.closed = s.closed ∧
      fires i s'.log = fires i s.log ++ [s.now] ∧ s'.now = s.now + d := by
  have hlt : i < s.gs.length := (List.getElem?_eq_some_iff.mp hg).1
  obtain ⟨proc, conn, pause, pc⟩ := g
  simp only at hc hpc hd
  subst hc hpc
  have e1 := step_at (pc := .fire) (sent := false) hg (by simp only [G.next, hcl]; rfl)
  have e2 := step_at (s := { s with gs := s.gs.set i ⟨proc, some c, pause, .fire⟩ }) (i := i) (pc := .busy) (sent := true) (List.getElem?_set_self hlt) rfl
  have e3 := step_at (s := { s with gs := (s.gs.set i ⟨proc, some c, pause, .fire⟩).set i ⟨proc, some c, pause, .busy⟩, log := s.log ++ [(i, s.now)] }) (i := i)
    (pc := .asleep (s.now + pause)) (sent := false) (List.getElem?_set_self (by simpa using hlt)) rfl
  have e4 := step_at (s := { s with
      now := s.now + d
      gs := ((s.gs.set i ⟨proc, some c, pause, .fire⟩).set i ⟨proc, some c, pause, .busy⟩).set i ⟨proc, some c, pause, .asleep (s.now + pause)⟩
      log := s.log ++ [(i, s.now)] }) (i := i) (pc := .check) (sent := false) (List.getElem?_set_self (by simpa using hlt))
    (by simp only [G.next]; rw [if_neg (by omega)])
  refine ⟨{ s with
      now := s.now + d
      gs := (((s.gs.set i ⟨proc, some c, pause, .fire⟩).set i ⟨proc, some c, pause, .busy⟩).set i ⟨proc, some c, pause, .asleep (s.now + pause)⟩).set i ⟨proc, some c, pause, .check⟩
      log := s.log ++ [(i, s.now)] }, ?_, ?_, rfl, fires_self _ _ _, rfl⟩
  · refine exec_of e1 (exec_of e2 (exec_of e3 (exec_of rfl (exec_of e4 rfl))))
  · exact List.getElem?_set_self (by simpa using hlt)

theorem flood {s : S} {i c : Nat} {g : G} (hg : s.gs[i]? = some g) (hc : g.conn = some c) (hcl : s.closed.contains c = false) (hpc : g.pc = .check)
    (hp : g.pause = 0) (N : Nat) : ∃ ls s', exec step s ls = some s' ∧ (∀ l ∈ ls, l = .step i ∨ l = .tick 0) ∧ s'.gs[i]? = some g ∧ s'.now = s.now ∧
      fires i s'.log = fires i s.log ++ List.replicate N s.now := by
  induction N generalizing s with
  | zero => exact ⟨[], s, rfl, by simp, hg, rfl, by simp⟩
  | succ N ih =>
    obtain ⟨s1, a1, a2, a3, a4, a5⟩ := round_of hg hc hcl hpc 0 (by omega)
    obtain ⟨ls, s', b1, b2, b5, b3, b4⟩ := ih a2 (by rw [a3]; exact hcl)
    refine ⟨[.step i, .step i, .step i, .tick 0, .step i] ++ ls, s', by rw [exec_append, a1]; exact b1, ?_, b5, by rw [b3, a5]; rfl, ?_⟩
    · intro l hl
      rcases List.mem_append.mp hl with hl | hl
      · simp only [List.mem_cons, List.not_mem_nil, or_false] at hl
        rcases hl with hl | hl | hl | hl | hl <;> simp [hl]
      · exact b2 l hl
    · rw [b4, a4, a5, List.append_assoc]
      simp [List.replicate_succ]

/-- C104 is violated: a Heartbeat whose pause is 0 (an interval of 0 or less, or too many seconds) sends any number of heartbeats on a new connection
before any time has passed. -/
theorem c104_violated (interval : Int) (hp : pause interval = 0) (N : Nat) :
    ∃ ls s, exec step (start [.heartbeat interval]) (.announce 0 :: ls) = some s ∧ (∀ l ∈ ls, l = .step 0 ∨ l = .tick 0) ∧
      s.gs[0]? = some ⟨0, some 0, 0, .check⟩ ∧ s.now = 0 ∧ fires 0 s.log = List.replicate N 0 := by
  obtain ⟨ls, s, h1, h2, h5, h3, h4⟩ := flood (s := { start [.heartbeat interval] with gs := [⟨0, some 0, pause interval, .check⟩] }) (i := 0) (c := 0) rfl rfl rfl rfl hp N
  exact ⟨ls, s, h1, h2, hp ▸ h5, h3, h4⟩

example : pause 0 = 0 ∧ pause (-5) = 0 ∧ pause 9223372037 = 0 ∧ pause 18446744074 = 290448384 ∧ pause 10 = 10 * second := by decide

/-- Every Run finds this interval, in its option or from before. -/
def Says (interval : Int) (ls : List L) : Prop := ∀ j o, L.run j o ∈ ls → (parseInt o interval).1 = interval

theorem pauses {interval : Int} (ls : List L) (s : S) (h : exec step (start [.heartbeat interval]) ls = some s) (hr : Says interval ls) :
    s.procs = [.heartbeat interval] ∧ ∀ (i : Nat) (g : G), s.gs[i]? = some g → g.conn.isSome → g.pause = pause interval := by
  refine (snoc_induction (P := fun ls => ∀ s, exec step (start [.heartbeat interval]) ls = some s → Says interval ls →
    s.procs = [.heartbeat interval] ∧ ∀ (i : Nat) (g : G), s.gs[i]? = some g → g.conn.isSome → g.pause = pause interval) ?_ ?_ ls) s h hr
  · intro s h _
    injection h with h
    subst h
    exact ⟨rfl, fun i g hg => by simp [start] at hg⟩
  · intro ls l ih s' h hr
    obtain ⟨s, hs, hst⟩ := exec_snoc h
    obtain ⟨hp, ih⟩ := ih s hs fun j o h => hr j o (by simp [h])
    cases l with
    | tick d => cases hst; exact ⟨hp, ih⟩
    | close c => cases hst; exact ⟨hp, ih⟩
    | run j o =>
      have ho := hr j o (by simp)
      simp only [step, hp] at hst
      cases j with
      | succ j => simp at hst
      | zero =>
        simp only [List.getElem?_cons_zero, Option.some.injEq] at hst
        subst hst
        refine ⟨by simp [Timer.run, ho], fun i g hg hc => ?_⟩
        rcases Nat.lt_or_ge i s.gs.length with hi | hi
        · simp only [List.getElem?_append_left hi] at hg
          exact ih i g hg hc
        · simp only [List.getElem?_append_right hi] at hg
          have := List.mem_of_getElem? hg
          simp only [List.mem_cons, List.not_mem_nil, or_false] at this
          subst this
          cases hc
    | announce c =>
      cases hst
      refine ⟨hp, fun i g hg hc => ?_⟩
      rcases Nat.lt_or_ge i s.gs.length with hi | hi
      · simp only [List.getElem?_append_left hi] at hg
        exact ih i g hg hc
      · simp only [List.getElem?_append_right hi, hp, starts, Timer.start, Option.toList_some, List.append_nil] at hg
        have := List.mem_of_getElem? hg
        simp only [List.mem_cons, List.not_mem_nil, or_false] at this
        rw [this]
    | step j =>
      obtain ⟨g', pc, sent, h1, h2, rfl⟩ := step_step hst
      refine ⟨hp, fun i g hg hc => ?_⟩
      simp only at hg
      by_cases hj : j = i
      · subst hj
        rw [List.getElem?_set_self (List.getElem?_eq_some_iff.mp h1).1] at hg
        injection hg with hg
        subst hg
        exact ih j g' h1 hc
      · rw [List.getElem?_set_ne hj] at hg
        exact ih i g hg hc

/-- C104, exactly: a Heartbeat keeps its interval — every message on a connection at least that many seconds after the last one, in every execution — if and only
if the interval is at most 9223372036 seconds. -/
theorem c104_exact (interval : Int) (hhi : interval < 2 ^ 63) :
    (∀ ls s i g, exec step (start [.heartbeat interval]) ls = some s → Says interval ls → s.gs[i]? = some g → g.conn.isSome →
        (fires i s.log).Pairwise fun (a b : Nat) => (a : Int) + interval * second ≤ b) ↔ interval ≤ 9223372036 := by
  refine ⟨fun h => ?_, fun hle ls s i g he hr hg hc => ?_⟩
  · let s0 : S := { start [.heartbeat interval] with gs := [⟨0, some 0, pause interval, .check⟩] }
    obtain ⟨s1, a1, a2, a3, a4, a5⟩ := round_of (s := s0) (i := 0) (c := 0) rfl rfl rfl rfl (pause interval) (Nat.le_refl _)
    obtain ⟨s2, b1, b2, b3, b4, b5⟩ := round_of a2 rfl (by rw [a3]; rfl) rfl (pause interval) (Nat.le_refl _)
    have h5 := h (.announce 0 :: ([.step 0, .step 0, .step 0, .tick (pause interval), .step 0] ++ [.step 0, .step 0, .step 0, .tick (pause interval), .step 0]))
      s2 0 _ (show exec step s0 _ = _ by rw [exec_append, a1]; exact b1) (by simp [Says]) b2 rfl
    have h8 : fires 0 s2.log = [0, pause interval] := by rw [b4, a4, a5]; simp [s0, start, fires]
    rw [h8] at h5
    have h6 := (List.pairwise_cons.mp h5).1 (pause interval) (by simp)
    have h7 : Int.bmod (interval * second) (2 ^ 64) < 2 ^ 63 := by
      have := @Int.bmod_lt (interval * second) (2 ^ 64) (by decide)
      omega
    rw [pause] at h6
    simp only [second] at *
    omega
  · have h1 := (paced ls s he i g hg).1
    rw [Apart, (pauses ls s he hr).2 i g hg hc] at h1
    refine h1.imp fun {a b} hab => ?_
    by_cases h0 : 0 ≤ interval
    · have := (c104_pause interval h0 hhi).mpr hle
      omega
    · simp only [second]
      omega

theorem fires_past {procs : List Timer} (ls : List L) (s : S) (h : exec step (start procs) ls = some s) : ∀ e ∈ s.log, e.2 ≤ s.now := by
  refine invariant (P := fun s : S => ∀ e ∈ s.log, e.2 ≤ s.now) (Q := fun _ => True) ?_ ls _ s (by simp [start]) (fun _ _ => trivial) h
  intro s l s' hp _ hst e he
  cases l with
  | tick d => cases hst; have := hp e he; simp only; omega
  | run j o =>
    simp only [step] at hst
    split at hst
    · injection hst with hst; subst hst; exact hp e he
    · cases hst
  | announce c => cases hst; exact hp e he
  | close c => cases hst; exact hp e he
  | step j =>
    obtain ⟨g, pc, sent, h1, h2, rfl⟩ := step_step hst
    simp only at he
    split at he
    · rcases List.mem_append.mp he with he | he
      · exact hp e he
      · simp only [List.mem_cons, List.not_mem_nil, or_false] at he
        subst he
        exact Nat.le_refl _
    · exact hp e he

/-- C104, exactly: what a Heartbeat sends on a connection in a given time is bounded if and only if its pause is not 0. -/
theorem c104_bounded (interval : Int) :
    (∀ T, ∃ B, ∀ ls s i g, exec step (start [.heartbeat interval]) ls = some s → Says interval ls → s.gs[i]? = some g → g.conn.isSome → s.now ≤ T →
        (fires i s.log).length ≤ B) ↔ 0 < pause interval := by
  refine ⟨fun h => ?_, fun hp T => ⟨T / pause interval + 1, fun ls s i g he hr hg hc hn => ?_⟩⟩
  · obtain ⟨B, h⟩ := h 0
    apply Nat.pos_of_ne_zero
    intro hz
    obtain ⟨ls, s, h1, h2, h5, h3, h4⟩ := c104_violated interval hz (B + 1)
    have := h _ s 0 _ h1 ?_ h5 rfl (by omega)
    · rw [h4, List.length_replicate] at this
      omega
    · intro j o ho
      simp only [List.mem_cons, reduceCtorEq, false_or] at ho
      rcases h2 _ ho with h | h <;> cases h
  · have hpz := (pauses ls s he hr).2 i g hg hc
    have h1 := c104_rate_partial [.heartbeat interval] ls s he i g hg (by omega) 0 T
    rw [List.filter_eq_self.mpr, hpz] at h1
    · exact h1
    · intro t ht
      simp only [fires, List.mem_map, List.mem_filter] at ht
      obtain ⟨e, ⟨he', _⟩, rfl⟩ := ht
      have := fires_past ls s he e he'
      simp; omega

/-! ## The end -/

/-- How many steps a goroutine has left once its connection is closed. -/
def PC.left : PC → Nat
  | .check => 1
  | .fire => 4
  | .busy => 3
  | .asleep _ => 2
  | .ended => 0

/-- C104: once a connection is closed a timer sends on it at most once more, and only if it had just looked; and it takes at most four more steps. -/
theorem c104_stop {c : Nat} (i : Nat) (ls : List L) (s s' : S) (g : G) (h : exec step s ls = some s') (hc : c ∈ s.closed) (hg : s.gs[i]? = some g)
    (hgc : g.conn = some c) :
    (fires i s'.log = fires i s.log ∨ (g.pc = .fire ∧ ∃ t, fires i s'.log = fires i s.log ++ [t])) ∧ ls.count (.step i) ≤ g.pc.left := by
  induction ls generalizing s g with
  | nil => injection h with h; subst h; exact ⟨.inl rfl, by simp⟩
  | cons l ls ih =>
    obtain ⟨s1, hst, he⟩ := exec_cons h
    by_cases hl : l = .step i
    · subst hl
      obtain ⟨pc, sent, h1, h2, h3, h4, h5⟩ := seen_self hst hg
      obtain ⟨a, b⟩ := ih s1 { g with pc := pc } he (by rw [h5]; exact hc) h2 hgc
      simp only [G.next, hgc] at h1
      rw [List.count_cons_self]
      cases hpc : g.pc with
      | check =>
        rw [hpc] at h1
        simp only [List.contains_iff_mem.mpr hc, if_true, Option.some.injEq, Prod.mk.injEq] at h1
        obtain ⟨rfl, rfl⟩ := h1
        simp only [Bool.false_eq_true, if_false] at h3
        simp only [reduceCtorEq, false_and, or_false] at a ⊢
        simp only [PC.left] at b ⊢
        exact ⟨by rw [a, h3], by omega⟩
      | fire =>
        rw [hpc] at h1
        simp only [Option.some.injEq, Prod.mk.injEq] at h1
        obtain ⟨rfl, rfl⟩ := h1
        simp only [if_true] at h3
        simp only [reduceCtorEq, false_and, or_false] at a
        simp only [PC.left] at b ⊢
        exact ⟨.inr ⟨trivial, _, by rw [a, h3]⟩, by omega⟩
      | busy =>
        rw [hpc] at h1
        simp only [Option.some.injEq, Prod.mk.injEq] at h1
        obtain ⟨rfl, rfl⟩ := h1
        simp only [Bool.false_eq_true, if_false] at h3
        simp only [reduceCtorEq, false_and, or_false] at a ⊢
        simp only [PC.left] at b ⊢
        exact ⟨by rw [a, h3], by omega⟩
      | asleep u =>
        rw [hpc] at h1
        simp only at h1
        split at h1
        · cases h1
        · simp only [Option.some.injEq, Prod.mk.injEq] at h1
          obtain ⟨rfl, rfl⟩ := h1
          simp only [Bool.false_eq_true, if_false] at h3
          simp only [reduceCtorEq, false_and, or_false] at a ⊢
          simp only [PC.left] at b ⊢
          exact ⟨by rw [a, h3], by omega⟩
      | ended => rw [hpc] at h1; cases h1
    · obtain ⟨e1, e2, _, e4⟩ := seen_other hst hl (List.getElem?_eq_some_iff.mp hg).1
      obtain ⟨a, b⟩ := ih s1 g he (e4 c hc) (by rw [e1]; exact hg) hgc
      rw [e2] at a
      rw [List.count_cons_of_ne hl]
      exact ⟨a, b⟩

/-- C104: a timer is never stuck: unless it has ended it can go on, at the latest after its pause. -/
theorem c104_live {procs : List Timer} (ls : List L) (s : S) (h : exec step (start procs) ls = some s) (i : Nat) (g : G) (hg : s.gs[i]? = some g)
    (hpc : g.pc ≠ .ended) : (exec step s [.tick g.pause, .step i]).isSome := by
  obtain ⟨_, b⟩ := paced ls s h i g hg
  have : ∃ r, g.next (s.now + g.pause) s.closed = some r := by
    cases h : g.pc with
    | check => exact ⟨_, by simp only [G.next, h]; rfl⟩
    | fire => exact ⟨_, by simp only [G.next, h]; rfl⟩
    | busy => exact ⟨_, by simp only [G.next, h]; rfl⟩
    | asleep u =>
      rw [h] at b
      exact ⟨_, by simp only [G.next, h]; rw [if_neg (by have := b.2; omega)]⟩
    | ended => exact absurd h hpc
  obtain ⟨⟨pc, sent⟩, hn⟩ := this
  have := step_at (s := { s with now := s.now + g.pause }) hg hn
  simp only [exec, step] at this ⊢
  simp [hg, hn]

/-! ## How many -/

/-- The goroutines of processor `p` for this connection (or its checkers). -/
def count (p : Nat) (c : Option Nat) (gs : List G) : Nat := gs.countP fun g => g.proc == p && g.conn == c

def Timer.beats : Timer → Bool
  | .heartbeat _ => true
  | .stat _ => false

theorem starts_low (c : Nat) (ts : List Timer) : ∀ k p, p < k → ∀ c', count p c' (starts c k ts) = 0 := by
  induction ts with
  | nil => intro k p _ c'; rfl
  | cons t ts ih =>
    intro k p hp c'
    have := ih (k + 1) p (by omega) c'
    simp only [count, starts, List.countP_append] at this ⊢
    rw [this]
    cases t with
    | heartbeat v => simp [Timer.start]; omega
    | stat v =>
      simp only [Timer.start]
      split <;> simp
      omega

theorem starts_none (c : Nat) (ts : List Timer) : ∀ k p, count p none (starts c k ts) = 0 := by
  induction ts with
  | nil => intro k p; rfl
  | cons t ts ih =>
    intro k p
    have := ih (k + 1) p
    simp only [count, starts, List.countP_append] at this ⊢
    rw [this]
    cases t with
    | heartbeat v => simp [Timer.start]
    | stat v => simp only [Timer.start]; split <;> simp

theorem starts_count (c c' : Nat) (ts : List Timer) : ∀ k j, count (k + j) (some c') (starts c k ts) =
    if c = c' then (match ts[j]? with | some (.heartbeat _) => 1 | some (.stat v) => if v ≤ 0 then 0 else 1 | none => 0) else 0 := by
  induction ts with
  | nil => intro k j; simp [count, starts]
  | cons t ts ih =>
    intro k j
    cases j with
    | zero =>
      have := starts_low c ts (k + 1) k (by omega) (some c')
      simp only [count, starts, List.countP_append, Nat.add_zero] at this ⊢
      rw [this]
      cases t with
      | heartbeat v => by_cases h : c = c' <;> simp [Timer.start, h]
      | stat v => by_cases h : c = c' <;> by_cases hv : v ≤ 0 <;> simp [Timer.start, h, hv]
    | succ j =>
      have := ih (k + 1) j
      simp only [count, starts, List.countP_append] at this ⊢
      rw [show k + 1 + j = k + (j + 1) by omega] at this
      rw [this, List.getElem?_cons_succ]
      cases t with
      | heartbeat v => simp [Timer.start]
      | stat v => simp only [Timer.start]; split <;> simp

/-- How often this processor was Run. -/
def runs (p : Nat) (ls : List L) : Nat := ls.countP fun l => match l with | .run j _ => j == p | _ => false

theorem count_set {s : S} {i : Nat} {g : G} (hg : s.gs[i]? = some g) (pc : PC) (p : Nat) (c : Option Nat) :
    count p c (s.gs.set i { g with pc := pc }) = count p c s.gs := by
  obtain ⟨hlt, rfl⟩ := List.getElem?_eq_some_iff.mp hg
  rw [count, count, List.countP_set hlt]
  have := List.countP_pos_iff (p := fun g : G => g.proc == p && g.conn == c) (l := s.gs)
  split
  · rename_i h
    have : 0 < s.gs.countP (fun g => g.proc == p && g.conn == c) := this.mpr ⟨_, List.getElem_mem hlt, h⟩
    omega
  · omega

/-- C104: every announcement of a connection starts one goroutine of each Heartbeat, every Run of it one checker, and nothing else does; a StatCounter
has at most one for each announcement and no checkers. -/
theorem c104_count {procs : List Timer} (p : Nat) (ls : List L) (s : S) (h : exec step (start procs) ls = some s) :
    (∀ v, procs[p]? = some (.heartbeat v) → (∀ c, count p (some c) s.gs = ls.count (.announce c)) ∧ count p none s.gs = runs p ls) ∧
    (∀ v, procs[p]? = some (.stat v) → (∀ c, count p (some c) s.gs ≤ ls.count (.announce c)) ∧ count p none s.gs = 0) := by
  suffices hs : s.procs[p]?.map Timer.beats = procs[p]?.map Timer.beats ∧
      (procs[p]?.map Timer.beats = some true → (∀ c, count p (some c) s.gs = ls.count (.announce c)) ∧ count p none s.gs = runs p ls) ∧
      (procs[p]?.map Timer.beats = some false → (∀ c, count p (some c) s.gs ≤ ls.count (.announce c)) ∧ count p none s.gs = 0) from
    ⟨fun v hv => hs.2.1 (by rw [hv]; rfl), fun v hv => hs.2.2 (by rw [hv]; rfl)⟩
  refine (snoc_induction (P := fun ls => ∀ s, exec step (start procs) ls = some s → s.procs[p]?.map Timer.beats = procs[p]?.map Timer.beats ∧
      (procs[p]?.map Timer.beats = some true → (∀ c, count p (some c) s.gs = ls.count (.announce c)) ∧ count p none s.gs = runs p ls) ∧
      (procs[p]?.map Timer.beats = some false → (∀ c, count p (some c) s.gs ≤ ls.count (.announce c)) ∧ count p none s.gs = 0)) ?_ ?_ ls) s h
  · intro s h
    injection h with h
    subst h
    simp [start, count, runs]
  · intro ls l ih s' h
    obtain ⟨s, hs, hst⟩ := exec_snoc h
    obtain ⟨hp, ih1, ih2⟩ := ih s hs
    simp only [runs, List.count_append, List.countP_append] at ih1 ⊢
    cases l with
    | tick d => have := And.intro hp (And.intro ih1 ih2); cases hst; simpa using this
    | close c => have := And.intro hp (And.intro ih1 ih2); cases hst; simpa using this
    | run j o =>
      simp only [step] at hst
      split at hst
      · rename_i t ht
        injection hst with hst
        subst hst
        by_cases hj : j = p
        · subst hj
          have hlt := (List.getElem?_eq_some_iff.mp ht).1
          rw [ht] at hp
          simp only [List.getElem?_set_self hlt]
          rw [← hp] at ih1 ih2 ⊢
          cases t with
          | heartbeat v => simpa [Timer.run, Timer.beats, count] using ih1 rfl
          | stat v => simpa [Timer.run, Timer.beats, count] using ih2 rfl
        · simp only [List.getElem?_set_ne hj]
          refine ⟨hp, ?_, ?_⟩
          · cases t with
            | heartbeat v => simpa [count, hj] using ih1
            | stat v => simpa [count, hj] using ih1
          · cases t with
            | heartbeat v => simpa [count, hj] using ih2
            | stat v => simpa [count, hj] using ih2
      · cases hst
    | announce c =>
      cases hst
      have hn := starts_none c s.procs 0 p
      have hc := fun c' => starts_count c c' s.procs 0 p
      simp only [Nat.zero_add] at hc
      refine ⟨hp, fun hb => ?_, fun hb => ?_⟩
      · obtain ⟨a, b⟩ := ih1 hb
        rw [hb] at hp
        obtain ⟨t, ht, htb⟩ := Option.map_eq_some_iff.mp hp
        cases t with
        | stat v => cases htb
        | heartbeat v =>
          refine ⟨fun c' => ?_, ?_⟩
          · have := hc c'
            rw [ht] at this
            simp only [count, List.countP_append] at a this ⊢
            rw [a c', this]
            by_cases h : c = c' <;> simp [h]
          · simp only [count, List.countP_append] at b hn ⊢
            rw [b, hn]
            simp
      · obtain ⟨a, b⟩ := ih2 hb
        rw [hb] at hp
        obtain ⟨t, ht, htb⟩ := Option.map_eq_some_iff.mp hp
        cases t with
        | heartbeat v => cases htb
        | stat v =>
          refine ⟨fun c' => ?_, ?_⟩
          · have := hc c'
            rw [ht] at this
            simp only [count, List.countP_append] at a this ⊢
            have := a c'
            rw [‹List.countP _ (starts c 0 s.procs) = _›]
            by_cases h : c = c' <;> simp [h]
            · subst h; split <;> omega
            · omega
          · simp only [count, List.countP_append] at b hn ⊢
            rw [b, hn]
    | step j =>
      obtain ⟨g, pc, sent, h1, h2, rfl⟩ := step_step hst
      simp only [count_set h1]
      have := And.intro hp (And.intro ih1 ih2)
      simpa using this

/-! ## The configuration -/

/-- The interval a processor is configured with: the last `int` its option had in a Run, else the one it came with. -/
def configured (dflt : Int) (p : Nat) (ls : List L) : Int :=
  ((ls.filterMap fun | .run q (.int v) => if q = p then some v else none | _ => none).getLast?).getD dflt

def Timer.interval : Timer → Int
  | .heartbeat v => v
  | .stat v => v

theorem configured_snoc (dflt : Int) (p : Nat) (ls : List L) (l : L) : configured dflt p (ls ++ [l]) =
    match l with | .run q (.int v) => if q = p then v else configured dflt p ls | _ => configured dflt p ls := by
  unfold configured
  rw [List.filterMap_append]
  split
  · rename_i q v
    by_cases h : q = p <;> simp [h]
  · rename_i h
    have : List.filterMap (fun | L.run q (.int v) => if q = p then some v else none | _ => none) [l] = [] := by
      cases l with
      | run q o =>
        cases o with
        | int v => exact absurd rfl (h q v)
        | _ => rfl
      | _ => rfl
    rw [this, List.append_nil]

theorem procs_configured {procs : List Timer} (ls : List L) (s : S) (h : exec step (start procs) ls = some s) (p : Nat) :
    s.procs[p]? = procs[p]?.map fun | .heartbeat v => .heartbeat (configured v p ls) | .stat v => .stat (configured v p ls) := by
  refine (snoc_induction (P := fun ls => ∀ s, exec step (start procs) ls = some s →
    s.procs[p]? = procs[p]?.map fun | .heartbeat v => .heartbeat (configured v p ls) | .stat v => .stat (configured v p ls)) ?_ ?_ ls) s h
  · intro s h
    injection h with h
    subst h
    simp only [start, configured, List.filterMap_nil, List.getLast?_nil, Option.getD_none]
    cases procs[p]? with
    | none => rfl
    | some t => cases t <;> rfl
  · intro ls l ih s' h
    obtain ⟨s, hs, hst⟩ := exec_snoc h
    have ih := ih s hs
    simp only [configured_snoc]
    cases l with
    | tick d => cases hst; exact ih
    | close c => cases hst; exact ih
    | announce c => cases hst; exact ih
    | step j => obtain ⟨g, pc, sent, h1, h2, rfl⟩ := step_step hst; exact ih
    | run j o =>
      simp only [step] at hst
      split at hst
      · rename_i t ht
        injection hst with hst
        subst hst
        simp only
        by_cases hj : j = p
        · subst hj
          rw [List.getElem?_set_self (List.getElem?_eq_some_iff.mp ht).1]
          rw [ht] at ih
          cases hp : procs[j]? with
          | none => rw [hp] at ih; cases ih
          | some u =>
            rw [hp] at ih
            simp only [Option.map_some, Option.some.injEq] at ih ⊢
            subst ih
            cases o <;> cases u <;> simp [Timer.run, parseInt]
        · rw [List.getElem?_set_ne hj, ih]
          cases o <;> simp [hj]
      · cases hst

/-- `g` was started for connection `c` by processor `p`, which had interval `v`. -/
theorem mem_starts {c : Nat} {g : G} (ts : List Timer) : ∀ k, g ∈ starts c k ts → ∃ j t, ts[j]? = some t ∧ g = ⟨k + j, some c, Rate.pause t.interval, .check⟩ := by
  induction ts with
  | nil => intro k h; cases h
  | cons t ts ih =>
    intro k h
    simp only [starts, List.mem_append, Option.mem_toList] at h
    rcases h with h | h
    · refine ⟨0, t, rfl, ?_⟩
      cases t with
      | heartbeat v => simp only [Timer.start, Option.some.injEq] at h; rw [← h]; rfl
      | stat v =>
        simp only [Timer.start] at h
        split at h
        · cases h
        · simp only [Option.some.injEq] at h; rw [← h]; rfl
    · obtain ⟨j, u, hj, rfl⟩ := ih (k + 1) h
      exact ⟨j + 1, u, by simpa using hj, by rw [show k + 1 + j = k + (j + 1) by omega]⟩

/-- C104: a goroutine for a connection sleeps as long as its processor was configured to when the connection was announced; a checker sleeps one second. -/
theorem c104_configured {procs : List Timer} (ls : List L) (s : S) (h : exec step (start procs) ls = some s) : ∀ g ∈ s.gs,
    match g.conn with
    | some c => ∃ t pre post, procs[g.proc]? = some t ∧ ls = pre ++ .announce c :: post ∧ g.pause = pause (configured t.interval g.proc pre)
    | none => g.pause = second := by
  refine (snoc_induction (P := fun ls => ∀ s, exec step (start procs) ls = some s → ∀ g ∈ s.gs,
    match g.conn with
    | some c => ∃ t pre post, procs[g.proc]? = some t ∧ ls = pre ++ .announce c :: post ∧ g.pause = pause (configured t.interval g.proc pre)
    | none => g.pause = second) ?_ ?_ ls) s h
  · intro s h g hg
    injection h with h
    subst h
    cases hg
  · intro ls l ih s' h
    obtain ⟨s, hs, hst⟩ := exec_snoc h
    have old : ∀ g ∈ s.gs, match g.conn with
        | some c => ∃ t pre post, procs[g.proc]? = some t ∧ ls ++ [l] = pre ++ .announce c :: post ∧ g.pause = pause (configured t.interval g.proc pre)
        | none => g.pause = second := by
      intro g hg
      have := ih s hs g hg
      split
      · rename_i c hc
        rw [hc] at this
        obtain ⟨t, pre, post, h1, h2, h3⟩ := this
        exact ⟨t, pre, post ++ [l], h1, by rw [h2]; simp, h3⟩
      · rename_i hc
        rw [hc] at this
        exact this
    cases l with
    | tick d => cases hst; exact old
    | close c => cases hst; exact old
    | run j o =>
      simp only [step] at hst
      split at hst
      · injection hst with hst
        subst hst
        intro g hg
        simp only at hg
        split at hg
        · rcases List.mem_append.mp hg with hg | hg
          · exact old g hg
          · rw [List.mem_singleton.mp hg]
        · exact old g hg
      · cases hst
    | announce c =>
      cases hst
      intro g hg
      rcases List.mem_append.mp hg with hg | hg
      · exact old g hg
      · obtain ⟨j, t, hj, rfl⟩ := mem_starts _ _ hg
        have hp := procs_configured ls s hs j
        rw [hj] at hp
        cases hq : procs[j]? with
        | none => rw [hq] at hp; cases hp
        | some u =>
          rw [hq] at hp
          simp only [Option.map_some, Option.some.injEq] at hp
          refine ⟨u, ls, [], by simpa using hq, rfl, ?_⟩
          simp only [Nat.zero_add]
          rw [hp]
          cases u <;> rfl
    | step j =>
      obtain ⟨g', pc, sent, h1, h2, rfl⟩ := step_step hst
      intro g hg
      rcases List.mem_or_eq_of_mem_set hg with hg | hg
      · exact old g hg
      · subst hg
        exact old g' (List.mem_of_getElem? h1)

/-- How often connection `c` was announced while the interval was positive. -/
def announced (dflt : Int) (p c : Nat) (ls : List L) : Nat :=
  (List.range ls.length).countP fun i => ls[i]? == some (.announce c) && decide (0 < configured dflt p (ls.take i))

theorem announced_snoc (dflt : Int) (p c : Nat) (ls : List L) (l : L) : announced dflt p c (ls ++ [l]) =
    announced dflt p c ls + if l == .announce c && decide (0 < configured dflt p ls) then 1 else 0 := by
  unfold announced
  rw [List.length_append, List.length_singleton, List.range_succ, List.countP_append]
  congr 1
  · refine List.countP_congr fun i hi => ?_
    have hi := List.mem_range.mp hi
    rw [List.getElem?_append_left hi, List.take_append_of_le_length (by omega)]
  · simp [List.countP_cons]

/-- C104: a StatCounter has one goroutine for every announcement made while its interval was positive, and no others. -/
theorem c104_collects {procs : List Timer} {p : Nat} {v : Int} (hv : procs[p]? = some (.stat v)) (ls : List L) (s : S) (h : exec step (start procs) ls = some s)
    (c : Nat) : count p (some c) s.gs = announced v p c ls := by
  refine (snoc_induction (P := fun ls => ∀ s, exec step (start procs) ls = some s → count p (some c) s.gs = announced v p c ls) ?_ ?_ ls) s h
  · intro s h
    injection h with h
    subst h
    rfl
  · intro ls l ih s' h
    obtain ⟨s, hs, hst⟩ := exec_snoc h
    have ih := ih s hs
    rw [announced_snoc]
    cases l with
    | tick d => cases hst; simpa using ih
    | close c => cases hst; simpa using ih
    | run j o =>
      simp only [step] at hst
      split at hst
      · injection hst with hst
        subst hst
        simp only
        split
        · simpa [count, List.countP_append] using ih
        · simpa using ih
      · cases hst
    | announce c' =>
      cases hst
      have hp := procs_configured ls s hs p
      rw [hv] at hp
      have := starts_count c' c s.procs 0 p
      rw [Nat.zero_add] at this
      simp only [count, List.countP_append] at ih this ⊢
      rw [ih, this, hp]
      by_cases hc : c' = c
      · by_cases hpos : 0 < configured v p ls <;> simp [hc, hpos, Timer.start] <;> omega
      · simp [hc]
    | step j =>
      obtain ⟨g', pc, sent, h1, h2, rfl⟩ := step_step hst
      simpa [count_set h1] using ih

/-- C104: a checker never ends. -/
theorem c104_checker {procs : List Timer} (ls : List L) (s : S) (h : exec step (start procs) ls = some s) : ∀ g ∈ s.gs, g.conn = none → g.pc ≠ .ended := by
  refine invariant (P := fun s : S => ∀ g ∈ s.gs, g.conn = none → g.pc ≠ .ended) (Q := fun _ => True) ?_ ls _ s (by simp [start]) (fun _ _ => trivial) h
  intro s l s' hp _ hst g hg hc
  obtain ⟨i, hi⟩ := List.getElem?_of_mem hg
  by_cases hlt : i < s.gs.length
  · by_cases hl : l = .step i
    · subst hl
      obtain ⟨pc, sent, h1, h2, _⟩ := seen_self hst (List.getElem?_eq_getElem hlt)
      rw [hi] at h2
      injection h2 with h2
      subst h2
      simp only at hc
      simp only [G.next, hc] at h1
      split at h1 <;> try cases h1
      all_goals (try simp)
      split at h1
      · cases h1
      · simp only [Option.some.injEq, Prod.mk.injEq] at h1
        simp [← h1.1]
    · rw [(seen_other hst hl hlt).gs] at hi
      exact hp g (List.mem_of_getElem? hi) hc
  · rcases (fresh_goroutine hst (by omega) hi).1 with h | h <;> rw [h] <;> simp

/-- C104 is violated: after `n` Runs a Heartbeat has `n` checkers, all of them for good. -/
theorem c104_checkers_violated (v : Int) (n : Nat) (more : List L) (s : S)
    (h : exec step (start [.heartbeat v]) (List.replicate n (.run 0 .nil) ++ more) = some s) :
    n ≤ s.gs.countP fun g => g.conn == none && g.pc != .ended := by
  have h1 := ((c104_count 0 _ s h).1 v rfl).2
  have h2 := c104_checker _ s h
  have h3 : runs 0 (List.replicate n (.run 0 .nil) ++ more) = n + runs 0 more := by
    simp [runs, List.countP_replicate]
  have h4 : count 0 none s.gs ≤ s.gs.countP fun g => g.conn == none && g.pc != .ended := by
    refine List.countP_mono_left fun g hg hgp => ?_
    simp only [Bool.and_eq_true, beq_iff_eq] at hgp
    simp [hgp.2, h2 g hg hgp.2]
  omega

/-- C104: a StatCounter whose interval is not positive starts nothing. -/
theorem c104_quiet {v : Int} (hv : v ≤ 0) (ls : List L) (s : S) (h : exec step (start [.stat v]) ls = some s) (hr : Says v ls) : s.gs = [] ∧ s.log = [] := by
  have := invariant (step := step) (P := fun s : S => s.gs = [] ∧ s.log = [] ∧ s.procs = [.stat v]) (Q := fun l => ∀ j o, l = .run j o → (parseInt o v).1 = v)
    ?_ ls _ s ⟨rfl, rfl, rfl⟩ (fun l hl j o e => hr j o (e ▸ hl)) h
  · exact ⟨this.1, this.2.1⟩
  · intro s l s' ⟨h1, h2, h3⟩ hq hst
    cases l with
    | tick d => cases hst; exact ⟨h1, h2, h3⟩
    | close c => cases hst; exact ⟨h1, h2, h3⟩
    | run j o =>
      have ho := hq j o rfl
      cases j with
      | zero =>
        simp only [step, h3, List.getElem?_cons_zero, Option.some.injEq] at hst
        subst hst
        exact ⟨h1, h2, by simp [Timer.run, ho]⟩
      | succ j => simp [step, h3] at hst
    | announce c =>
      cases hst
      refine ⟨?_, h2, h3⟩
      simp [h1, h3, starts, Timer.start, hv]
    | step j => simp [step, h1] at hst

/-! ## Instances -/

/-- Two processors, two connections, one of them closed between the look and the message. -/
def day : List L :=
  [.run 0 (.int 2), .run 1 .nil, .announce 7, .announce 8, .step 1, .step 1, .step 1, .tick 1999999999, .step 0, .step 2, .step 3, .close 8, .step 3,
   .tick 1, .step 1, .step 1, .step 1, .step 3, .tick 5000000000, .step 3, .step 3]

def dayEnd : S := ⟨7000000000, [.heartbeat 2, .stat 5], [8],
  [⟨0, none, second, .busy⟩, ⟨0, some 7, 2 * second, .busy⟩, ⟨1, some 7, 5 * second, .fire⟩, ⟨0, some 8, 2 * second, .ended⟩, ⟨1, some 8, 5 * second, .check⟩],
  [(1, 0), (0, 1999999999), (3, 1999999999), (1, 2000000000)]⟩

theorem day_run : exec step (start [.heartbeat 10, .stat 5]) day = some dayEnd := by decide

example : ((fires 1 dayEnd.log).filter fun t => decide (0 ≤ t ∧ t ≤ 0 + 2000000000)).length ≤ 2000000000 / (2 * second) + 1 :=
  c104_rate_partial _ day dayEnd day_run 1 ⟨0, some 7, 2 * second, .busy⟩ rfl (by decide) 0 2000000000
example : fires 1 dayEnd.log = [0, 2000000000] := by decide
example : ((∀ c, count 0 (some c) dayEnd.gs = day.count (.announce c)) ∧ count 0 none dayEnd.gs = runs 0 day) := (c104_count 0 day dayEnd day_run).1 10 rfl
example : count 0 (some 8) dayEnd.gs = 1 ∧ count 1 (some 8) dayEnd.gs = 1 ∧ count 0 none dayEnd.gs = 1 := by decide
/-- The state in which connection 8 is closed: its Heartbeat has just looked, and sends once more. -/
example : ∃ s, exec step (start [.heartbeat 10, .stat 5]) (day.take 12) = some s ∧ (8 : Nat) ∈ s.closed ∧ s.gs[3]? = some ⟨0, some 8, 2 * second, .fire⟩ ∧
    exec step s (day.drop 12) = some dayEnd ∧ fires 3 s.log = [] ∧ fires 3 dayEnd.log = [1999999999] ∧ (day.drop 12).count (.step 3) = 4 :=
  ⟨⟨1999999999, [.heartbeat 2, .stat 5], [8],
    [⟨0, none, second, .busy⟩, ⟨0, some 7, 2 * second, .asleep 2000000000⟩, ⟨1, some 7, 5 * second, .fire⟩, ⟨0, some 8, 2 * second, .fire⟩, ⟨1, some 8, 5 * second, .check⟩],
    [(1, 0), (0, 1999999999)]⟩, by decide⟩
example : (exec step dayEnd [.tick (5 * second), .step 2]).isSome := c104_live day dayEnd day_run 2 ⟨1, some 7, 5 * second, .fire⟩ rfl (by simp)
example : pause 0 = 0 ∧ ∃ ls s, exec step (start [.heartbeat 0]) (.announce 0 :: ls) = some s ∧ s.now = 0 ∧ (fires 0 s.log).length = 1000000 := by
  refine ⟨rfl, ?_⟩
  obtain ⟨ls, s, h1, _, _, h3, h4⟩ := c104_violated 0 rfl 1000000
  exact ⟨ls, s, h1, h3, by rw [h4, List.length_replicate]⟩
/-- Three Runs, three checkers. -/
example : ∃ s, exec step (start [.heartbeat 10]) (List.replicate 3 (.run 0 .nil) ++ [.step 0, .step 1, .step 2]) = some s ∧ fires 2 s.log = [0] ∧
    (s.gs.countP fun g => g.conn == none && g.pc != .ended) = 3 :=
  ⟨⟨0, [.heartbeat 10], [], [⟨0, none, second, .busy⟩, ⟨0, none, second, .busy⟩, ⟨0, none, second, .busy⟩], [(0, 0), (1, 0), (2, 0)]⟩, by decide⟩
/-- More than 292 years: no pause at all. -/
example : ¬ ∀ ls s i g, exec step (start [.heartbeat 9223372037]) ls = some s → Says 9223372037 ls → s.gs[i]? = some g → g.conn.isSome →
    (fires i s.log).Pairwise fun (a b : Nat) => (a : Int) + 9223372037 * second ≤ b := fun h => by
  have := (c104_exact 9223372037 (by decide)).mp h
  omega
example : exec step (start [.stat (-1)]) [.announce 3, .run 0 .nil, .announce 4] = some ⟨0, [.stat (-1)], [], [], []⟩ := by decide
example : configured 10 0 [.run 0 (.int 2), .announce 7, .run 1 (.int 9), .run 0 .nil] = 2 ∧ configured 10 0 [.run 0 (.bool true)] = 10 := by decide
example : ∃ t pre post, [Timer.heartbeat 10, .stat 5][0]? = some t ∧ day = pre ++ .announce 8 :: post ∧ 2 * second = pause (configured t.interval 0 pre) :=
  c104_configured day dayEnd day_run ⟨0, some 8, 2 * second, .ended⟩ (by decide)
/-- An interval that is set to zero and back. -/
def onOff : List L := [.announce 4, .run 0 (.int 0), .announce 4, .run 0 (.int 3), .announce 4]

example : ∃ s, exec step (start [.stat 5]) onOff = some s ∧ count 0 (some 4) s.gs = 2 := by
  obtain ⟨s, hs⟩ := Option.isSome_iff_exists.mp (show (exec step (start [.stat 5]) onOff).isSome by decide)
  exact ⟨s, hs, by rw [c104_collects (v := 5) rfl onOff s hs]; decide⟩

end Verif.Conn.Rate
