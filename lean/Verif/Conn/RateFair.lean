import Verif.Conn.Rate
import Verif.Fair

/-!
# Timers go on for ever, or end (C104)

Infinite executions of `Conn/Rate.lean`, in which time goes on without bound.
-/

namespace Verif.Conn.Rate

open Verif.Trace

variable {procs : List Timer} (r : Run step (start procs))

/-- Time goes on without bound. -/
def Flows : Prop := ∀ T, ∃ m, T ≤ (r.state m).now

theorem now_mono {n m : Nat} (h : n ≤ m) : (r.state n).now ≤ (r.state m).now :=
  r.keeps (fun s => (r.state n).now ≤ s.now) n (Nat.le_refl _) (fun m l _ _ hk hs => by
    refine Nat.le_trans hk ?_
    generalize r.state (m + 1) = s' at *
    cases l <;> simp only [step] at hs <;> (repeat' split at hs) <;> first | (cases hs; done) | (injection hs with hs; subst hs; simp)) m h

/-- A goroutine that has not ended goes on; until then it and what it has sent stay as they are. -/
theorem moves (ht : Flows r) (i : Nat) (hf : r.Fair (· = .step i)) (n : Nat) (g : G) (hg : (r.state n).gs[i]? = some g) (hp : g.pc ≠ .ended) :
    ∃ m, n ≤ m ∧ (r.state m).gs[i]? = some g ∧ fires i (r.state m).log = fires i (r.state n).log ∧ (∀ c ∈ (r.state n).closed, c ∈ (r.state m).closed) ∧
      step (r.state m) (.step i) = some (r.state (m + 1)) := by
  refine Classical.byContradiction fun hno => ?_
  have stay : ∀ m, n ≤ m → (r.state m).gs[i]? = some g ∧ fires i (r.state m).log = fires i (r.state n).log ∧ ∀ c ∈ (r.state n).closed, c ∈ (r.state m).closed := by
    refine r.keeps (fun s => s.gs[i]? = some g ∧ fires i s.log = fires i (r.state n).log ∧ ∀ c ∈ (r.state n).closed, c ∈ s.closed) n ⟨hg, rfl, fun _ h => h⟩ fun m l hm hl hk hs => ?_
    by_cases e : l = .step i
    · subst e; exact absurd ⟨m, hm, hk.1, hk.2.1, hk.2.2, hs⟩ hno
    · obtain ⟨a, b, _, d⟩ := seen_other hs e (List.getElem?_eq_some_iff.1 hk.1).1
      exact ⟨a.trans hk.1, b.trans hk.2.1, fun c hc => d c (hk.2.2 c hc)⟩
  have never : ∀ m, n ≤ m → r.label m ≠ some (.step i) := by
    intro m hm e
    rcases r.next m with ⟨h, _⟩ | ⟨l, h, hs⟩
    · rw [h] at e; cases e
    · rw [h] at e; injection e with e; subst e
      exact hno ⟨m, hm, (stay m hm).1, (stay m hm).2.1, (stay m hm).2.2, hs⟩
  obtain ⟨k, hk⟩ : ∃ k, ∀ now closed, k ≤ now → (g.next now closed).isSome = true := by
    cases h : g.pc with
    | check => exact ⟨0, fun _ _ _ => by simp [G.next, h]⟩
    | fire => exact ⟨0, fun _ _ _ => by simp [G.next, h]⟩
    | busy => exact ⟨0, fun _ _ _ => by simp [G.next, h]⟩
    | asleep u => exact ⟨u, fun now _ hn => by simp [G.next, h, Nat.not_lt.2 hn]⟩
    | ended => exact absurd h hp
  obtain ⟨j, hj⟩ := ht k
  obtain ⟨m, l, hm, hl, rfl⟩ := hf (max n j) fun m hm => ⟨.step i, rfl, by
    have h1 := now_mono r (show j ≤ m by omega)
    obtain ⟨⟨pc, sent⟩, e⟩ := Option.isSome_iff_exists.1 (hk (r.state m).now (r.state m).closed (by omega))
    simp [step, (stay m (by omega)).1, e]⟩
  exact never m (by omega) hl

theorem fires_mono (i : Nat) {n m : Nat} (h : n ≤ m) (hi : i < (r.state n).gs.length) : (fires i (r.state n).log).length ≤ (fires i (r.state m).log).length :=
  (r.keeps (fun s => i < s.gs.length ∧ (fires i (r.state n).log).length ≤ (fires i s.log).length) n ⟨hi, Nat.le_refl _⟩ (fun m l _ _ hk hs => by
    by_cases e : l = .step i
    · subst e
      obtain ⟨g, pc, sent, _, _, e⟩ := step_step hs
      rw [e]
      refine ⟨by simpa using hk.1, Nat.le_trans hk.2 ?_⟩
      cases sent <;> simp [fires_self]
    · obtain ⟨a, b, _, _⟩ := seen_other hs e hk.1
      refine ⟨?_, by rw [b]; exact hk.2⟩
      rw [List.getElem?_eq_getElem hk.1] at a
      exact (List.getElem?_eq_some_iff.1 a).1) m h).2

/-- How far a goroutine is from sending. -/
def PC.before : PC → Nat
  | .fire => 0
  | .check => 1
  | .asleep _ => 2
  | .busy => 3
  | .ended => 0

/-- A goroutine whose connection stays open sends once more. -/
theorem once_more (ht : Flows r) (i : Nat) (hf : r.Fair (· = .step i)) (v : Nat) : ∀ (n : Nat) (g : G), (r.state n).gs[i]? = some g → g.pc ≠ .ended →
    (∀ c, g.conn = some c → ∀ m, c ∉ (r.state m).closed) → g.pc.before ≤ v →
    ∃ m g', n ≤ m ∧ (r.state m).gs[i]? = some g' ∧ g'.pc ≠ .ended ∧ g'.conn = g.conn ∧ (fires i (r.state n).log).length < (fires i (r.state m).log).length := by
  induction v with
  | zero =>
    intro n g hg hp _ hv
    obtain ⟨m, hm, h1, h2, _, hs⟩ := moves r ht i hf n g hg hp
    obtain ⟨g', pc, sent, e1, e2, e3⟩ := step_step hs
    rw [h1] at e1; injection e1 with e1; subst e1
    have hi := (List.getElem?_eq_some_iff.1 h1).1
    cases h : g.pc with
    | fire =>
      simp only [G.next, h] at e2
      injection e2 with e2; injection e2 with e2 e4; subst e2; subst e4
      refine ⟨m + 1, { g with pc := .busy }, by omega, by rw [e3]; simp [hi], by simp, rfl, ?_⟩
      rw [e3, ← h2]; simp [fires_self]
    | ended => exact absurd h hp
    | check => rw [h] at hv; simp [PC.before] at hv
    | asleep u => rw [h] at hv; simp [PC.before] at hv
    | busy => rw [h] at hv; simp [PC.before] at hv
  | succ v ih =>
    intro n g hg hp hc hv
    obtain ⟨m, hm, h1, h2, _, hs⟩ := moves r ht i hf n g hg hp
    obtain ⟨g', pc, sent, e1, e2, e3⟩ := step_step hs
    rw [h1] at e1; injection e1 with e1; subst e1
    have hi := (List.getElem?_eq_some_iff.1 h1).1
    have hat : (r.state (m + 1)).gs[i]? = some { g with pc := pc } := by rw [e3]; simp [hi]
    have hmono := fires_mono r i (show m ≤ m + 1 by omega) hi
    have go : pc ≠ .ended → pc.before ≤ v → ∃ m g', n ≤ m ∧ (r.state m).gs[i]? = some g' ∧ g'.pc ≠ .ended ∧ g'.conn = g.conn ∧
        (fires i (r.state n).log).length < (fires i (r.state m).log).length := by
      intro h3 h4
      obtain ⟨j, g', a, b, c, d, e⟩ := ih (m + 1) { g with pc := pc } hat h3 hc h4
      exact ⟨j, g', by omega, b, c, d, by rw [h2] at hmono; omega⟩
    cases h : g.pc with
    | fire =>
      simp only [G.next, h] at e2
      injection e2 with e2; injection e2 with e2 e4; subst e2; subst e4
      refine ⟨m + 1, { g with pc := .busy }, by omega, hat, by simp, rfl, ?_⟩
      rw [e3, ← h2]; simp [fires_self]
    | check =>
      have hopen : (match g.conn with | some c => (r.state m).closed.contains c | none => false) = false := by
        split
        · rename_i c hcon; simpa using hc c hcon m
        · rfl
      simp only [G.next, h] at e2
      injection e2 with e2; injection e2 with e2 e4
      have e5 : pc = .fire := e2.symm.trans (if_neg fun e => absurd (hopen.symm.trans e) (by decide))
      subst e5
      exact go (by simp) (by simp [PC.before])
    | asleep u =>
      rw [h] at hv
      simp only [PC.before] at hv
      simp only [G.next, h] at e2
      split at e2
      · cases e2
      · injection e2 with e2; injection e2 with e2 e4; subst e2
        exact go (by simp) (by simp only [PC.before]; omega)
    | busy =>
      rw [h] at hv
      simp only [PC.before] at hv
      simp only [G.next, h] at e2
      injection e2 with e2; injection e2 with e2 e4; subst e2
      exact go (by simp) (by simp only [PC.before]; omega)
    | ended => exact absurd h hp

/-- C104, for ever: if time goes on and the scheduler is fair to it, a timer whose connection stays open sends (a checker: checks) again and again. -/
theorem c104_forever (ht : Flows r) (i : Nat) (hf : r.Fair (· = .step i)) (n : Nat) (g : G) (hg : (r.state n).gs[i]? = some g) (hp : g.pc ≠ .ended)
    (hc : ∀ c, g.conn = some c → ∀ m, c ∉ (r.state m).closed) (K : Nat) : ∃ m, n ≤ m ∧ K ≤ (fires i (r.state m).log).length := by
  suffices h : ∃ m g', n ≤ m ∧ (r.state m).gs[i]? = some g' ∧ g'.pc ≠ .ended ∧ g'.conn = g.conn ∧ K ≤ (fires i (r.state m).log).length from
    let ⟨m, _, h1, _, _, _, h2⟩ := h
    ⟨m, h1, h2⟩
  induction K with
  | zero => exact ⟨n, g, Nat.le_refl _, hg, hp, rfl, Nat.zero_le _⟩
  | succ K ih =>
    obtain ⟨m, g1, a, b, c, d, e⟩ := ih
    obtain ⟨j, g2, a', b', c', d', e'⟩ := once_more r ht i hf _ m g1 b c (fun x hx => hc x (d ▸ hx)) (Nat.le_refl _)
    exact ⟨j, g2, by omega, b', c', d'.trans d, by omega⟩

theorem ended_stays (i n : Nat) (g : G) (hg : (r.state n).gs[i]? = some g) (hp : g.pc = .ended) : ∀ m, n ≤ m → (r.state m).gs[i]? = some g :=
  r.keeps (fun s => s.gs[i]? = some g) n hg fun m l _ _ hk hs => by
    by_cases e : l = .step i
    · subst e
      obtain ⟨g', pc, sent, e1, e2, _⟩ := step_step hs
      rw [hk] at e1; injection e1 with e1; subst e1
      simp [G.next, hp] at e2
    · exact (seen_other hs e (List.getElem?_eq_some_iff.1 hk).1).gs.trans hk

/-- C104, for ever: the timers of a connection that is closed end. -/
theorem c104_over (ht : Flows r) (i : Nat) (hf : r.Fair (· = .step i)) (n : Nat) (g : G) (c : Nat) (hg : (r.state n).gs[i]? = some g) (hgc : g.conn = some c)
    (hc : c ∈ (r.state n).closed) : ∃ m, n ≤ m ∧ ∀ j, m ≤ j → ∃ g', (r.state j).gs[i]? = some g' ∧ g'.pc = .ended := by
  suffices h : ∀ v n g, (r.state n).gs[i]? = some g → g.conn = some c → c ∈ (r.state n).closed → g.pc.left ≤ v →
      ∃ m g', n ≤ m ∧ (r.state m).gs[i]? = some g' ∧ g'.pc = .ended by
    obtain ⟨m, g', h1, h2, h3⟩ := h _ n g hg hgc hc (Nat.le_refl _)
    exact ⟨m, h1, fun j hj => ⟨g', ended_stays r i m g' h2 h3 j hj, h3⟩⟩
  intro v
  induction v with
  | zero =>
    intro n g hg _ _ hv
    refine ⟨n, g, Nat.le_refl _, hg, ?_⟩
    cases h : g.pc <;> rw [h] at hv <;> simp [PC.left] at hv ⊢
  | succ v ih =>
    intro n g hg hgc hc hv
    by_cases hp : g.pc = .ended
    · exact ⟨n, g, Nat.le_refl _, hg, hp⟩
    · obtain ⟨m, hm, h1, _, h3, hs⟩ := moves r ht i hf n g hg hp
      obtain ⟨g', pc, sent, e1, e2, e3⟩ := step_step hs
      rw [h1] at e1; injection e1 with e1; subst e1
      have hi := (List.getElem?_eq_some_iff.1 h1).1
      have hat : (r.state (m + 1)).gs[i]? = some { g with pc := pc } := by rw [e3]; simp [hi]
      have hcl : c ∈ (r.state (m + 1)).closed := by rw [e3]; exact h3 c hc
      have less : pc.left < g.pc.left := by
        cases h : g.pc with
        | check =>
          simp only [G.next, h, hgc] at e2
          injection e2 with e2; injection e2 with e2 _
          rw [if_pos (by simpa using h3 c hc)] at e2
          subst e2; decide
        | fire => simp only [G.next, h] at e2; injection e2 with e2; injection e2 with e2 _; subst e2; decide
        | busy => simp only [G.next, h] at e2; injection e2 with e2; injection e2 with e2 _; subst e2; simp [PC.left]
        | asleep u =>
          simp only [G.next, h] at e2
          split at e2
          · cases e2
          · injection e2 with e2; injection e2 with e2 _; subst e2; simp [PC.left]
        | ended => exact absurd h hp
      obtain ⟨j, g', a, b, d⟩ := ih (m + 1) { g with pc := pc } hat hgc hcl (by show pc.left ≤ v; omega)
      exact ⟨j, g', by omega, b, d⟩

/-! ### Example: a Heartbeat with an interval of one second, on one connection -/

def beatLabel : Nat → L
  | 0 => .announce 0
  | n + 1 => if n % 5 = 3 then .tick second else .step 0

def beatState : Nat → S
  | 0 => start [.heartbeat 1]
  | n + 1 => (step (beatState n) (beatLabel n)).getD (beatState n)

/-- The state before step `i` of a round. -/
def Beat (i : Nat) (s : S) : Prop := s.closed = [] ∧ ∃ pc, s.gs = [⟨0, some 0, second, pc⟩] ∧
  (i = 0 → pc = .check) ∧ (i = 1 → pc = .fire) ∧ (i = 2 → pc = .busy) ∧ (i = 3 → pc = .asleep (s.now + second)) ∧ (i = 4 → pc = .asleep s.now)

theorem beat_step {i : Nat} (hi : i < 5) {s : S} (h : Beat i s) :
    ∃ s', step s (if i = 3 then .tick second else .step 0) = some s' ∧ Beat ((i + 1) % 5) s' ∧ s'.now = s.now + if i = 3 then second else 0 := by
  obtain ⟨h1, pc, h2, a0, a1, a2, a3, a4⟩ := h
  match i, hi with
  | 0, _ =>
    rw [a0 rfl] at h2
    exact ⟨{ s with gs := [⟨0, some 0, second, .fire⟩] }, by simp [step, h2, h1, G.next], ⟨h1, _, rfl, by simp⟩, rfl⟩
  | 1, _ =>
    rw [a1 rfl] at h2
    exact ⟨{ s with gs := [⟨0, some 0, second, .busy⟩], log := s.log ++ [(0, s.now)] }, by simp [step, h2, h1, G.next], ⟨h1, _, rfl, by simp⟩, rfl⟩
  | 2, _ =>
    rw [a2 rfl] at h2
    exact ⟨{ s with gs := [⟨0, some 0, second, .asleep (s.now + second)⟩] }, by simp [step, h2, h1, G.next], ⟨h1, _, rfl, by simp⟩, rfl⟩
  | 3, _ => rw [a3 rfl] at h2; exact ⟨{ s with now := s.now + second }, rfl, ⟨h1, _, h2, by simp⟩, rfl⟩
  | 4, _ =>
    rw [a4 rfl] at h2
    exact ⟨{ s with gs := [⟨0, some 0, second, .check⟩] }, by simp [step, h2, h1, G.next], ⟨h1, _, rfl, by simp⟩, rfl⟩

theorem beat_phase (n : Nat) : Beat (n % 5) (beatState (n + 1)) ∧ step (beatState (n + 1)) (beatLabel (n + 1)) = some (beatState (n + 2)) ∧ n / 5 ≤ (beatState (n + 1)).now := by
  have hgo : ∀ n, Beat (n % 5) (beatState (n + 1)) → step (beatState (n + 1)) (beatLabel (n + 1)) = some (beatState (n + 2)) ∧ Beat ((n + 1) % 5) (beatState (n + 2)) ∧
      (beatState (n + 2)).now = (beatState (n + 1)).now + if n % 5 = 3 then second else 0 := by
    intro n h
    obtain ⟨s', h1, h2, h3⟩ := beat_step (Nat.mod_lt n (by decide)) h
    have e : beatState (n + 2) = s' := by
      show (step (beatState (n + 1)) (if n % 5 = 3 then .tick second else .step 0)).getD _ = s'
      rw [h1]; rfl
    rw [e]
    exact ⟨h1, by rwa [Nat.mod_add_mod] at h2, h3⟩
  have hp : Beat (n % 5) (beatState (n + 1)) ∧ (n + 1) / 5 ≤ (beatState (n + 1)).now := by
    induction n with
    | zero => exact ⟨⟨rfl, .check, by decide, by simp⟩, by decide⟩
    | succ n ih =>
      obtain ⟨_, h2, h3⟩ := hgo n ih.1
      refine ⟨h2, ?_⟩
      have := ih.2
      have hs : 1 ≤ second := by decide
      rw [h3]
      split <;> omega
  exact ⟨hp.1, (hgo n hp.1).1, by have := hp.2; omega⟩

def beatRun : Run step (start [.heartbeat 1]) where
  state := beatState
  label n := some (beatLabel n)
  start := rfl
  next n := .inr ⟨_, rfl, by
    match n with
    | 0 => rfl
    | n + 1 => exact (beat_phase n).2.1⟩

example (K : Nat) : ∃ m, 1 ≤ m ∧ K ≤ (fires 0 (beatRun.state m).log).length := by
  refine c104_forever beatRun (fun T => ⟨5 * T + 1, ?_⟩) 0 (fun n _ => ⟨5 * n + 1, .step 0, by omega, ?_, rfl⟩) 1 ⟨0, some 0, second, .check⟩ (by decide) (by decide) ?_ K
  · have := (beat_phase (5 * T)).2.2
    simp at this
    exact this
  · show some (if (5 * n) % 5 = 3 then L.tick second else .step 0) = _
    rw [if_neg (by omega)]
  · intro c _ m
    match m with
    | 0 => exact List.not_mem_nil
    | m + 1 => rw [show (beatRun.state (m + 1)).closed = [] from (beat_phase m).1.1]; exact List.not_mem_nil

/-- The connection is closed while the timer sleeps, the timer is left to run, and time goes on. -/
def overLabel (n : Nat) : L := ([.announce 0, .step 0, .step 0, .step 0, .close 0, .tick second, .step 0, .step 0] : List L)[n]?.getD (.tick 1)

def overState : Nat → S
  | 0 => start [.heartbeat 1]
  | n + 1 => (step (overState n) (overLabel n)).getD (overState n)

theorem over_late (n : Nat) : overLabel (n + 8) = .tick 1 := by
  simp [overLabel]

theorem over_rest (n : Nat) : overState (n + 8) = ⟨second + n, [.heartbeat 1], [0], [⟨0, some 0, second, .ended⟩], [(0, 0)]⟩ := by
  induction n with
  | zero => decide
  | succ n ih =>
    show (step (overState (n + 8)) (overLabel (n + 8))).getD _ = _
    rw [over_late, ih]; rfl

def overRun : Run step (start [.heartbeat 1]) where
  state := overState
  label n := some (overLabel n)
  start := rfl
  next n := .inr ⟨_, rfl, by
    by_cases h : n < 8
    · match n, h with
      | 0, _ | 1, _ | 2, _ | 3, _ | 4, _ | 5, _ | 6, _ | 7, _ => decide
    · obtain ⟨k, rfl⟩ : ∃ k, n = k + 8 := ⟨n - 8, by omega⟩
      rw [over_late, over_rest, show k + 8 + 1 = (k + 1) + 8 by omega, over_rest]; rfl⟩

example : ∃ m, 5 ≤ m ∧ ∀ j, m ≤ j → ∃ g', (overRun.state j).gs[0]? = some g' ∧ g'.pc = .ended := by
  refine c104_over overRun (fun T => ⟨T + 8, ?_⟩) 0 (fun n hn => ?_) 5 ⟨0, some 0, second, .asleep second⟩ 0 (by decide) rfl (by decide)
  · rw [show overRun.state (T + 8) = _ from over_rest T]
    exact Nat.le_add_left _ _
  · obtain ⟨l, e, h⟩ := hn (n + 8) (by omega)
    subst e
    rw [show overRun.state (n + 8) = _ from over_rest n] at h
    simp [step, G.next] at h

end Verif.Conn.Rate
