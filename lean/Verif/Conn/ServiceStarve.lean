import Verif.Conn.ServiceFair

/-!
# Why the receive goroutines need strong fairness (C111)

With a scheduler that is only weakly fair to the receive goroutines a client can wait for ever: another client's requests take the one place in the receive channel again and again,
always when the goroutine of the first would be scheduled.  (Go's channels serve the goroutines that wait in the order of their arrival, which is stronger than strong fairness.)
-/

namespace Verif.Conn.Service

open Verif.Trace

def starveConf : Conf := ⟨(· + 100), 1, fun _ => 1⟩

/-- What client 0 and the server do over and over again. -/
def starveRound : Nat → Label
  | 0 => .ask 0 5
  | 1 => .read 0
  | 2 => .deliver 0
  | 3 => .listen
  | 4 => .answer
  | 5 => .serve
  | 6 => .write
  | _ => .take 0

/-- Client 1 makes a request, which is read; then the rounds of client 0. -/
def starveLabel : Nat → Label
  | 0 => .ask 1 7
  | 1 => .read 1
  | n + 2 => starveRound (n % 8)

def starveState : Nat → Sys
  | 0 => init
  | n + 1 => (step starveConf (starveState n) (starveLabel n)).getD (starveState n)

/-- The state before step `i` of a round. -/
structure Phase (i : Nat) (s : Sys) : Prop where
  asked : ∀ c, s.asked c = if i = 1 ∧ c = 0 then [5] else []
  hand : ∀ c, s.hand c = if c = 1 then some 7 else if i = 2 ∧ c = 0 then some 5 else none
  rx : s.rx = if i = 3 then [(0, 5)] else []
  lis : s.lis = if i = 4 then some (0, 5) else none
  tx : s.tx = if i = 5 then [(0, 105)] else []
  srv : s.srv = if i = 6 then some (0, 105) else none
  back : ∀ c, s.back c = if i = 7 ∧ c = 0 then [105] else []
  got : s.got 1 = []

theorem phase_step {i : Nat} (hi : i < 8) {s : Sys} (h : Phase i s) : ∃ s', step starveConf s (starveRound i) = some s' ∧ Phase ((i + 1) % 8) s' := by
  obtain ⟨h1, h2, h3, h4, h5, h6, h7, h8⟩ := h
  match i, hi with
  | 0, _ =>
    refine ⟨_, rfl, ?_, h2, h3, h4, h5, h6, h7, h8⟩
    intro c; by_cases hc : c = 0 <;> simp [upd, hc, h1]
  | 1, _ =>
    refine ⟨{ s with asked := upd s.asked 0 [], hand := upd s.hand 0 (some 5) }, by simp [step, starveRound, h1, h2], ?_, ?_, h3, h4, h5, h6, h7, h8⟩
    · intro c; by_cases hc : c = 0 <;> simp [upd, hc, h1]
    · intro c; by_cases hc : c = 0 <;> simp [upd, hc, h2]
  | 2, _ =>
    refine ⟨{ s with hand := upd s.hand 0 none, rx := s.rx ++ [(0, 5)] }, by simp [step, starveRound, h2, h3, starveConf], h1, ?_, ?_, h4, h5, h6, h7, h8⟩
    · intro c; by_cases hc : c = 0 <;> simp [upd, hc, h2]
    · simp [h3]
  | 3, _ => exact ⟨{ s with rx := [], lis := some (0, 5) }, by simp [step, starveRound, h3, h4], h1, h2, rfl, rfl, h5, h6, h7, h8⟩
  | 4, _ =>
    refine ⟨{ s with lis := none, tx := s.tx ++ [(0, 105)] }, by simp [step, starveRound, h4, h5, starveConf], h1, h2, h3, rfl, ?_, h6, h7, h8⟩
    simp [h5]
  | 5, _ => exact ⟨{ s with tx := [], srv := some (0, 105) }, by simp [step, starveRound, h5, h6], h1, h2, h3, h4, rfl, rfl, h7, h8⟩
  | 6, _ =>
    refine ⟨{ s with srv := none, back := upd s.back 0 (s.back 0 ++ [105]) }, by simp [step, starveRound, h6, h7, starveConf], h1, h2, h3, h4, h5, rfl, ?_, h8⟩
    intro c; by_cases hc : c = 0 <;> simp [upd, hc, h7]
  | 7, _ =>
    refine ⟨{ s with back := upd s.back 0 [], got := upd s.got 0 (s.got 0 ++ [105]) }, by simp [step, starveRound, h7], h1, h2, h3, h4, h5, h6, ?_, ?_⟩
    · intro c; by_cases hc : c = 0 <;> simp [upd, hc, h7]
    · simpa [upd] using h8

theorem starve_phase (n : Nat) : Phase (n % 8) (starveState (n + 2)) ∧ step starveConf (starveState (n + 2)) (starveLabel (n + 2)) = some (starveState (n + 3)) := by
  have hgo : ∀ n, Phase (n % 8) (starveState (n + 2)) → step starveConf (starveState (n + 2)) (starveLabel (n + 2)) = some (starveState (n + 3)) ∧
      Phase ((n + 1) % 8) (starveState (n + 3)) := by
    intro n h
    obtain ⟨s', h1, h2⟩ := phase_step (Nat.mod_lt n (by decide)) h
    have e : starveState (n + 3) = s' := by
      show (step starveConf (starveState (n + 2)) (starveRound (n % 8))).getD _ = s'
      rw [h1]; rfl
    rw [e]
    exact ⟨h1, by rwa [Nat.mod_add_mod] at h2⟩
  have hp : Phase (n % 8) (starveState (n + 2)) := by
    induction n with
    | zero =>
      refine ⟨?_, ?_, rfl, rfl, rfl, rfl, ?_, rfl⟩
      · intro c; match c with
        | 0 => rfl
        | 1 => rfl
        | c + 2 => rfl
      · intro c; match c with
        | 0 => rfl
        | 1 => rfl
        | c + 2 => rfl
      · intro c; simp; rfl
    | succ n ih => exact (hgo n ih).2
  exact ⟨hp, (hgo n hp).1⟩

def starveRun : Run (step starveConf) init where
  state := starveState
  label n := some (starveLabel n)
  start := rfl
  next n := .inr ⟨_, rfl, by
    match n with
    | 0 => rfl
    | 1 => rfl
    | n + 2 => exact (starve_phase n).2⟩

/-- Everything in the round happens again and again. -/
theorem again (i : Nat) (hi : i < 8) (n : Nat) : ∃ m, n ≤ m ∧ starveRun.label m = some (starveRound i) ∧ Phase i (starveRun.state m) := by
  have e : (8 * n + i) % 8 = i := by omega
  refine ⟨8 * n + i + 2, by omega, ?_, ?_⟩
  · show some (starveRound ((8 * n + i) % 8)) = _
    rw [e]
  · have := (starve_phase (8 * n + i)).1
    rwa [e] at this

/-- Without strong fairness: in this run every goroutine and every client is treated with weak fairness, the receive goroutine of client 1 too, and client 1, whose request was made at the
start, is never answered. -/
theorem c111_starved : ∃ r : Run (step starveConf) init,
    r.Fair (· = .listen) ∧ r.Fair (· = .answer) ∧ r.Fair (· = .serve) ∧ r.Fair (· = .write) ∧ (∀ c, r.Fair (· = .take c)) ∧ (∀ c, r.Fair (· = .read c)) ∧
    (∀ c, r.Fair (· = .deliver c)) ∧ requests 1 (r.past 1) = [7] ∧ ∀ m, (r.state m).got 1 = [] := by
  have yes : ∀ i, i < 8 → starveRun.Fair (· = starveRound i) := fun i hi n _ => by
    obtain ⟨m, h1, h2, _⟩ := again i hi n
    exact ⟨m, _, h1, h2, rfl⟩
  have no : ∀ i, i < 8 → ∀ l, (∀ s, Phase i s → step starveConf s l = none) → starveRun.Fair (· = l) := fun i hi l hl n hn => by
    obtain ⟨m, h1, _, h3⟩ := again i hi n
    obtain ⟨l', rfl, h4⟩ := hn m h1
    rw [hl _ h3] at h4
    cases h4
  refine ⟨starveRun, yes 3 (by decide), yes 4 (by decide), yes 5 (by decide), yes 6 (by decide), ?_, ?_, ?_, rfl, ?_⟩
  · exact fun c => no 0 (by decide) _ fun s h => by simp [step, h.back]
  · exact fun c => no 0 (by decide) _ fun s h => by simp [step, h.asked]
  · exact fun c => no 3 (by decide) _ fun s h => by
      simp only [step, h.rx]
      split <;> simp [starveConf]
  · intro m
    match m with
    | 0 => rfl
    | 1 => rfl
    | m + 2 => exact (starve_phase m).1.got

end Verif.Conn.Service
