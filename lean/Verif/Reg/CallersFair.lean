import Verif.Reg.Callers
import Verif.Fair

/-!
# Calls from several goroutines return (C93)

Infinite executions of `Reg/Callers.lean`, in which a caller that can go on is not forgotten for ever (weak fairness).
-/

namespace Verif.Reg.Callers

open Verif.Trace

/-- A bound for the steps to the end of the call. -/
def Pc.togo : Pc → Nat
  | .idle => 0
  | .scan h j => 6 + (h.len - j)
  | .publish _ => 5
  | .load _ => 4
  | .write _ _ => 3
  | .store _ => 2
  | .tell => 1
  | .done => 0

theorem at_self {s : Sys} {i : Nat} {c : Call} {pc : Pc} {q : Pc} (h : s.ths[i]? = some (c, pc)) : (s.at i c q).ths[i]? = some (c, q) := by
  have := (List.getElem?_eq_some_iff.1 h).1
  simp [Sys.at, this]

theorem step_other {k : Conf} {s s' : Sys} {i j : Nat} (hs : step k s j = some s') (hne : j ≠ i) : s'.ths[i]? = s.ths[i]? := by
  have hat : ∀ c q, (s.at j c q).ths[i]? = s.ths[i]? := fun c q => by simp [Sys.at, List.getElem?_set_ne hne]
  simp only [step] at hs
  split at hs
  · cases hs
  · split at hs
    · rename_i c pc _
      cases pc <;> simp only [act] at hs <;> (repeat' split at hs) <;> first | (cases hs; done) | (injection hs with hs; subst hs; first | rfl | exact hat _ _)
    · cases hs

theorem step_self {k : Conf} {s s' : Sys} {i : Nat} {c : Call} {pc : Pc} (hs : step k s i = some s') (h : s.ths[i]? = some (c, pc)) :
    s'.panicked = true ∨ ∃ q, s'.ths[i]? = some (c, q) ∧ q ≠ .idle ∧ (pc ≠ .idle → q.togo < pc.togo) := by
  simp only [step] at hs
  split at hs
  · cases hs
  · rw [h] at hs
    simp only at hs
    cases pc with
    | idle => injection hs with hs; subst hs; exact .inr ⟨_, at_self h, by simp, by simp⟩
    | scan hd j =>
      simp only [act] at hs
      split at hs
      · rename_i x hx
        have hlt : j < hd.len := by
          have := (List.getElem?_eq_some_iff.1 hx).1
          simp only [Mem.read, List.length_take] at this
          omega
        split at hs
        · injection hs with hs; subst hs
          refine .inr ⟨_, at_self h, ?_, fun _ => ?_⟩ <;> cases c <;> simp only [found] <;> (try split) <;> simp [Pc.togo] <;> omega
        · injection hs with hs; subst hs; exact .inr ⟨_, at_self h, by simp, fun _ => by simp only [Pc.togo]; omega⟩
      · injection hs with hs; subst hs
        refine .inr ⟨_, at_self h, ?_, fun _ => ?_⟩ <;> cases c <;> simp [missed, Pc.togo] <;> omega
    | publish j => injection hs with hs; subst hs; exact .inr ⟨_, at_self h, by simp, by simp [Pc.togo]⟩
    | load j => injection hs with hs; subst hs; exact .inr ⟨_, at_self h, by simp, by simp [Pc.togo]⟩
    | write j hd =>
      cases c with
      | add x => injection hs with hs; subst hs; exact .inr ⟨_, at_self h, by simp, by simp [Pc.togo]⟩
      | delete x =>
        simp only [act] at hs
        split at hs
        · injection hs with hs; subst hs; exact .inr ⟨_, at_self h, by simp, by simp [Pc.togo]⟩
        · injection hs with hs; subst hs; exact .inl rfl
    | store hd =>
      injection hs with hs; subst hs
      refine .inr ⟨_, at_self h, ?_, fun _ => ?_⟩ <;> cases c <;> simp only [stored] <;> (try split) <;> simp [Pc.togo]
    | tell => injection hs with hs; subst hs; exact .inr ⟨_, at_self h, by simp, by simp [Pc.togo]⟩
    | done => cases hs

variable {k : Conf} {s0 : Sys} (r : Run (step k) s0)

theorem act_some (k : Conf) (s : Sys) (i : Nat) (c : Call) (pc : Pc) (h : pc ≠ .done) : (act k s i c pc).isSome = true := by
  cases pc <;> simp only [act] <;> (repeat' split) <;> first | rfl | exact absurd rfl h

/-- C93 in infinite executions: whatever the others do, a call returns, or the program panics; and so it stays. -/
theorem c93_always_returns (i : Nat) (hf : r.Fair (· = i)) (n : Nat) (c : Call) (pc : Pc) (h : (r.state n).ths[i]? = some (c, pc)) :
    ∃ m, n ≤ m ∧ ((∀ j, m ≤ j → (r.state j).panicked = true) ∨ ∀ j, m ≤ j → (r.state j).ths[i]? = some (c, .done)) := by
  have panic_stays : ∀ m, (r.state m).panicked = true → ∀ j, m ≤ j → (r.state j).panicked = true := fun m hp =>
    r.keeps (fun s => s.panicked = true) m hp fun _ _ _ _ hk hs => by simp [step, hk] at hs
  have done_stays : ∀ m, (r.state m).ths[i]? = some (c, .done) → ∀ j, m ≤ j → (r.state j).ths[i]? = some (c, .done) := fun m hd =>
    r.keeps (fun s => s.ths[i]? = some (c, .done)) m hd fun j l _ _ hk hs => by
      by_cases e : l = i
      · subst e; simp [step, hk, act] at hs
      · rw [step_other hs e]; exact hk
  -- as long as the caller is neither done nor panicked it makes a step at some time
  have one : ∀ n pc, (r.state n).ths[i]? = some (c, pc) → pc ≠ .done → ∃ m, n ≤ m ∧ ((r.state m).panicked = true ∨ ∃ q, (r.state m).ths[i]? = some (c, q) ∧ q ≠ .idle ∧
      (pc ≠ .idle → q.togo < pc.togo)) := by
    intro n pc h hd
    refine Classical.byContradiction fun hno => ?_
    have stay : ∀ m, n ≤ m → (r.state m).ths[i]? = some (c, pc) := r.keeps (fun s => s.ths[i]? = some (c, pc)) n h fun m l hm _ hk hs => by
      by_cases e : l = i
      · subst e; exact absurd ⟨m + 1, by omega, step_self hs hk⟩ hno
      · rw [step_other hs e]; exact hk
    obtain ⟨m, l, h1, h2, h3⟩ := hf n fun m hm => ⟨i, rfl, by
      have hp : ¬ (r.state m).panicked = true := fun e => hno ⟨m, hm, .inl e⟩
      simp only [step, if_neg hp, stay m hm]
      exact act_some _ _ _ _ _ hd⟩
    subst h3
    rcases r.next m with ⟨e, _⟩ | ⟨l', e, hs⟩
    · rw [e] at h2; cases h2
    · rw [e] at h2; injection h2 with h2; subst h2
      exact hno ⟨m + 1, by omega, step_self hs (stay m h1)⟩
  have busy : ∀ v n pc, (r.state n).ths[i]? = some (c, pc) → pc ≠ .idle → pc.togo ≤ v →
      ∃ m, n ≤ m ∧ ((∀ j, m ≤ j → (r.state j).panicked = true) ∨ ∀ j, m ≤ j → (r.state j).ths[i]? = some (c, .done)) := by
    intro v
    induction v with
    | zero =>
      intro n pc h hi hv
      have : pc = .done := by cases pc <;> simp [Pc.togo] at hv hi ⊢
      subst this
      exact ⟨n, Nat.le_refl _, .inr (done_stays n h)⟩
    | succ v ih =>
      intro n pc h hi hv
      by_cases hd : pc = .done
      · subst hd; exact ⟨n, Nat.le_refl _, .inr (done_stays n h)⟩
      · obtain ⟨m, h1, h2 | ⟨q, h2, h3, h4⟩⟩ := one n pc h hd
        · exact ⟨m, h1, .inl (panic_stays m h2)⟩
        · obtain ⟨j, a, b⟩ := ih m q h2 h3 (by have := h4 hi; omega)
          exact ⟨j, by omega, b⟩
  by_cases hi : pc = .idle
  · subst hi
    obtain ⟨m, h1, h2 | ⟨q, h2, h3, _⟩⟩ := one n .idle h (by simp)
    · exact ⟨m, h1, .inl (panic_stays m h2)⟩
    · obtain ⟨j, a, b⟩ := busy _ m q h2 h3 (Nat.le_refl _)
      exact ⟨j, by omega, b⟩
  · exact busy _ n pc h hi (Nat.le_refl _)

/-- Two callers, step by step in turn: both return. -/
def turnsRun : Run (step ⟨true, fun n => n + 1⟩) (start [1, 2] [.add 3, .delete 1]) := demo [0, 1, 0, 1, 0, 1, 0, 1, 0, 1, 0, 1, 0, 0] _ rfl

example : ∃ m, 3 ≤ m ∧ ((∀ j, m ≤ j → (turnsRun.state j).panicked = true) ∨ ∀ j, m ≤ j → (turnsRun.state j).ths[0]? = some (.add 3, .done)) :=
  c93_always_returns turnsRun 0 (demo_fair _ _ _ _ (by rintro ⟨l, h1, h2⟩; subst h1; cases h2)) 3 (.add 3) (.scan ⟨1, 2⟩ 1) rfl

example : (turnsRun.state 14).ths = [(.add 3, .done), (.delete 1, .done)] ∧ (turnsRun.state 14).panicked = false := ⟨rfl, rfl⟩

end Verif.Reg.Callers
