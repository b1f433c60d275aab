import Verif.Conn.Peers
import Verif.Fair

/-!
# Two programs that answer each other, left alone (C112)

Infinite executions of `Conn/Peers.lean`.  Of the scheduler is asked only that it does not rest for ever as long as some goroutine can go on.
-/

namespace Verif.Conn.Peers

open Verif.Trace

/-- Every execution comes to a point where nobody can go on, and stays there. -/
theorem comes_to_rest {c : Conf} (hok : c.Ok) {reqs : Bool → List Nat} (r : Run (step c) (init c reqs)) (hr : r.Fair fun _ => True) :
    ∃ n, Stuck c (r.state n) ∧ ∀ m, n ≤ m → r.state m = r.state n := by
  obtain ⟨n, _, hn⟩ := r.descends (fun _ => True) hr (work c) (fun m => Stuck c (r.state m)) 0
    (fun m l _ _ _ _ hs => by have := work_step hok (inv_exec c reqs _ _ (r.exec_past m)) hs; exact ⟨by omega, fun _ => by omega⟩)
    (fun m _ hm => Classical.byContradiction fun h => hm fun l => Option.not_isSome_iff_eq_none.1 fun e => h ⟨l, trivial, e⟩)
  refine ⟨n, hn, r.keeps (fun s => s = r.state n) n rfl fun m l _ _ hk hs => ?_⟩
  rw [hk, hn l] at hs
  cases hs

/-- C112, two programs that send requests to each other and answer each other's: in every fair execution all requests are answered in the end, if and only if one of them sends no
requests, or they send together fewer than the buffers and goroutines on both ways hold. -/
theorem c112_peers (c : Conf) (hok : c.Ok) (reqs : Bool → List Nat) :
    (∀ r : Run (step c) (init c reqs), (r.Fair fun _ => True) → ∃ n, ∀ m, n ≤ m → ∀ d, (r.state m).prog d = [] ∧ (r.state m).got d = (reqs d).map (c.answer d)) ↔
    (∃ d, reqs d = []) ∨ (reqs false).length + (reqs true).length < c.total := by
  rw [← c88_exact c hok reqs]
  constructor
  · intro h ls s he hs
    obtain ⟨n, hn⟩ := h (demo ls s he) (demo_fair _ _ _ _ fun ⟨l, _, e⟩ => by rw [hs l] at e; cases e)
    have := hn (max n ls.length) (Nat.le_max_left _ _)
    rw [demo_rest ls s he _ (Nat.le_max_right _ _)] at this
    exact this
  · intro h r hr
    obtain ⟨n, hn, hk⟩ := comes_to_rest hok r hr
    refine ⟨n, fun m hm => ?_⟩
    rw [hk m hm]
    exact h _ _ (r.exec_past n) hn

/-- There are such executions, for all requests. -/
theorem fair_run (c : Conf) (hok : c.Ok) (reqs : Bool → List Nat) : ∃ r : Run (step c) (init c reqs), r.Fair fun _ => True := by
  obtain ⟨ls, s, h, hs⟩ := (c88_ends c hok reqs [] (init c reqs) rfl).2
  exact ⟨demo _ s h, demo_fair _ _ _ _ fun ⟨l, _, e⟩ => by rw [hs l] at e; cases e⟩

/-- Through two rows of two buffers for one message each: three requests are answered in every fair execution, four not in all. -/
example : (∃ r : Run (step ⟨fun _ => [1, 1], fun _ v => v + 1⟩) (init ⟨fun _ => [1, 1], fun _ v => v + 1⟩ fun d => if d then [7, 8] else [1]),
      (r.Fair fun _ => True) ∧ ∃ n, ∀ m, n ≤ m → (r.state m).got true = [8, 9] ∧ (r.state m).got false = [2]) ∧
    ∃ r : Run (step ⟨fun _ => [1, 1], fun _ v => v + 1⟩) (init ⟨fun _ => [1, 1], fun _ v => v + 1⟩ fun d => if d then [7, 8] else [1, 2]),
      (r.Fair fun _ => True) ∧ ¬ ∃ n, ∀ m, n ≤ m → ∀ d, (r.state m).prog d = [] ∧ (r.state m).got d = (if d then [7, 8] else [1, 2]).map (· + 1) := by
  have hok : Conf.Ok ⟨fun _ => [1, 1], fun _ v => v + 1⟩ := fun _ => ⟨by simp, by simp⟩
  constructor
  · obtain ⟨r, hr⟩ := fair_run _ hok fun d => if d then [7, 8] else [1]
    obtain ⟨n, hn⟩ := (c112_peers _ hok _).2 (.inr (by decide)) r hr
    exact ⟨r, hr, n, fun m hm => ⟨(hn m hm true).2, (hn m hm false).2⟩⟩
  · refine Classical.byContradiction fun hno => ?_
    have := (c112_peers ⟨fun _ => [1, 1], fun _ v => v + 1⟩ hok fun d => if d then [7, 8] else [1, 2]).1 fun r hr =>
      Classical.byContradiction fun h => hno ⟨r, hr, h⟩
    rcases this with ⟨d, hd⟩ | h
    · cases d <;> cases hd
    · exact absurd h (by decide)

end Verif.Conn.Peers
