import Verif.Reg.Broadcast
import Verif.Fair

/-!
# Every event reaches the end of its loop (C111)

Infinite executions of the model of events published while endpoints are added and deleted (`Reg/Broadcast.lean`).
-/

namespace Verif.Reg.Broadcast

open Verif Publish Trace

/-- What the loop of publisher `i` still has to do. -/
def left (i : Nat) (s : Sys) : Nat := (s.pubs[i]?.map fun p => p.h.len - p.next).getD 0

theorem note_next (l : List Nat) (p : Pub) : (p.note l).h = p.h ∧ (p.note l).next = p.next := by
  unfold Pub.note
  split <;> exact ⟨rfl, rfl⟩

/-- A publisher is never forgotten, and nobody but itself moves it. -/
theorem left_step {s s' : Sys} {l : Label} {i : Nat} {p : Pub} (hp : s.pubs[i]? = some p) (hs : step s l = some s') :
    (∃ p', s'.pubs[i]? = some p') ∧ left i s' ≤ left i s ∧ (l = .tell i → p.Busy → left i s' < left i s) := by
  have hlt := (List.getElem?_eq_some_iff.mp hp).1
  cases l with
  | call =>
    simp only [step] at hs
    split at hs
    · cases hs
    · injection hs with hs
      subst hs
      refine ⟨⟨p.note _, by simp [hp]; rfl⟩, ?_, fun h => by cases h⟩
      simp [left, hp, note_next]
  | begin =>
    simp only [step] at hs
    injection hs with hs
    subst hs
    have e : (s.pubs ++ [⟨s.reg, 0, [], [s.items]⟩])[i]? = some p := by rw [List.getElem?_append_left hlt]; exact hp
    exact ⟨⟨p, e⟩, by simp only [left, e, hp]; exact Nat.le_refl _, fun h => by cases h⟩
  | tell j =>
    simp only [step] at hs
    split at hs
    · cases hs
    · rename_i q hq
      split at hs
      · cases hs
      · rename_i e he
        injection hs with hs
        subst hs
        by_cases hj : j = i
        · subst hj
          rw [hp] at hq
          injection hq with hq
          subst hq
          have e' : (s.pubs.set j { p with next := p.next + 1, told := p.told ++ [e] })[j]? = some { p with next := p.next + 1, told := p.told ++ [e] } := by
            simp [hlt]
          refine ⟨⟨_, e'⟩, ?_, fun _ hb => ?_⟩
          · simp only [left, e', hp, Option.map_some, Option.getD_some]; omega
          · have hb : p.next < p.h.len := hb
            simp only [left, e', hp, Option.map_some, Option.getD_some]; omega
        · have e' : (s.pubs.set j { q with next := q.next + 1, told := q.told ++ [e] })[i]? = some p := by rw [List.getElem?_set_ne hj]; exact hp
          refine ⟨⟨p, e'⟩, by simp only [left, e', hp]; exact Nat.le_refl _, fun h => ?_⟩
          injection h with h
          exact absurd h hj

/-- C111, events: if the goroutine that publishes it is scheduled fairly, the loop of an event comes to its end, whatever endpoints are added and deleted meanwhile and whatever other events are
published; and if every endpoint that is deleted is the last one at that time, those that stay registered have then been told once each, in order.
Missing: other deletions, for which the second part is false (`c111_told_violated`). -/
theorem c111_told_partial {s : Sys} (hs : Sound s) (r : Run step s) (i : Nat) (hf : r.Fair (· = .tell i)) (n : Nat) (p : Pub) (hp : (r.state n).pubs[i]? = some p) :
    ∃ m, n ≤ m ∧ ∃ p', (r.state m).pubs[i]? = some p' ∧ ¬ p'.Busy ∧ (Tidy s.items s.todo → p'.Right) := by
  have hin : ∀ m, n ≤ m → ∃ p', (r.state m).pubs[i]? = some p' :=
    r.keeps (fun s => ∃ p', s.pubs[i]? = some p') n ⟨p, hp⟩ fun m l _ _ ⟨q, hq⟩ hst => (left_step hq hst).1
  obtain ⟨m, hm, p', h1, h2⟩ := r.descends (· = .tell i) hf (left i) (fun m => ∃ p', (r.state m).pubs[i]? = some p' ∧ ¬ p'.Busy) n
    (fun m l hm hng _ _ hst => by
      obtain ⟨q, hq⟩ := hin m hm
      have hb : q.Busy := Classical.byContradiction fun hb => hng ⟨q, hq, hb⟩
      exact ⟨(left_step hq hst).2.1, fun e => (left_step hq hst).2.2 e hb⟩)
    (fun m hm hng => by
      obtain ⟨q, hq⟩ := hin m hm
      have hb : q.Busy := Classical.byContradiction fun hb => hng ⟨q, hq, hb⟩
      have hok := ((known_exec hs (r.exec_past m)).2 q (List.mem_of_getElem? hq)).ok hb
      have hlen : q.next < ((r.state m).mem.read q.h).length := by rw [Mem.read_length hok]; exact hb
      exact ⟨.tell i, rfl, by simp [step, hq, List.getElem?_eq_getElem hlen]⟩)
  exact ⟨m, hm, p', h1, h2, fun ht => c96_partial s hs ht _ _ (r.exec_past m) p' (List.mem_of_getElem? h1) h2⟩

/-- An endpoint in the middle is deleted while an event is on its way: the scheduler is fair, the loop ends, and endpoint 3, which is registered all the time, is never told. -/
theorem c111_told_violated : ∃ s, Sound s ∧ ∃ r : Run step s, (∀ i, r.Fair (· = .tell i)) ∧ ∃ n p, (r.state n).pubs = [p] ∧ p.stays 3 = true ∧ 3 ∈ s.items ∧
    ∀ m, n ≤ m → (r.state m).pubs = [p] ∧ 3 ∉ p.told ∧ ¬ p.Busy := by
  refine ⟨start [1, 2, 3, 4] 0 [.delete 2], broadcast_start_sound _ _ _ (by decide), ?_⟩
  have h : (exec (start [1, 2, 3, 4] 0 [.delete 2]) (schedule 0 2 4)).map (·.pubs) = some [⟨⟨1, 4⟩, 4, [1, 2, 4, 4], [[1, 2, 3, 4], [1, 3, 4]]⟩] := by decide
  obtain ⟨s', hs', hp⟩ := Option.map_eq_some_iff.1 h
  have hend := demo_rest _ _ hs'
  refine ⟨Trace.demo _ _ hs', fun i => ?_, (schedule 0 2 4).length, ⟨⟨1, 4⟩, 4, [1, 2, 4, 4], [[1, 2, 3, 4], [1, 3, 4]]⟩, ?_, by decide, by rw [broadcast_start_items]; decide, ?_⟩
  · refine demo_fair _ _ _ _ ?_
    rintro ⟨l, rfl, e⟩
    obtain ⟨s'', e⟩ := Option.isSome_iff_exists.1 e
    simp only [step, hp] at e
    match i with
    | 0 =>
      simp only [List.getElem?_cons_zero] at e
      split at e
      · cases e
      · rename_i x hx
        have h1 := (List.getElem?_eq_some_iff.1 hx).1
        have h2 : (s'.mem.read ⟨1, 4⟩).length ≤ 4 := by simp [Mem.read]; omega
        have h3 : 4 < (s'.mem.read ⟨1, 4⟩).length := h1
        omega
    | i + 1 => simp at e
  · rw [hend _ (Nat.le_refl _)]; exact hp
  · intro m hm
    rw [hend m hm]
    exact ⟨hp, by decide, by decide⟩

/-- Two events are on their way while endpoints are deleted at the end and added. -/
example : ∃ r : Run step (start [1, 2, 3] 1 [.delete 3, .add 4 0]), r.Fair (· = .tell 0) ∧ ∃ p, (r.state 1).pubs[0]? = some p ∧
    ∃ m, 1 ≤ m ∧ ∃ p', (r.state m).pubs[0]? = some p' ∧ ¬ p'.Busy ∧ p'.Right := by
  have h : (exec (start [1, 2, 3] 1 [.delete 3, .add 4 0]) [.begin, .tell 0, .call, .begin, .call, .tell 0, .tell 0]).map (·.pubs) =
      some [⟨⟨1, 3⟩, 3, [1, 2, 4], [[1, 2, 3], [1, 2], [1, 2, 4]]⟩, ⟨⟨1, 2⟩, 0, [], [[1, 2], [1, 2, 4]]⟩] := by decide
  obtain ⟨s', hs', hp⟩ := Option.map_eq_some_iff.1 h
  have hf : (Trace.demo _ _ hs').Fair (· = .tell 0) := by
    refine demo_fair _ _ _ _ ?_
    rintro ⟨l, rfl, e⟩
    obtain ⟨s'', e⟩ := Option.isSome_iff_exists.1 e
    simp only [step, hp, List.getElem?_cons_zero] at e
    split at e
    · cases e
    · rename_i x hx
      have h1 : 3 < (s'.mem.read ⟨1, 3⟩).length := (List.getElem?_eq_some_iff.1 hx).1
      have h2 : (s'.mem.read ⟨1, 3⟩).length ≤ 3 := by simp [Mem.read]; omega
      omega
  obtain ⟨m, h1, p', h2, h3, h4⟩ := c111_told_partial (broadcast_start_sound _ _ _ (by decide)) _ 0 hf 1 _ (show _ = some ⟨⟨1, 3⟩, 0, [], [_]⟩ from rfl)
  exact ⟨_, hf, _, rfl, m, h1, p', h2, h3, h4 (by rw [broadcast_start_items]; simp [start, Tidy])⟩

end Verif.Reg.Broadcast
