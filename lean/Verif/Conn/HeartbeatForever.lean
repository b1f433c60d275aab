import Verif.Conn.Heartbeat

/-!
# A connection that falls silent, in a monitor that runs for ever (C52)

Infinite histories of `Conn/Heartbeat.lean`: the goroutine that calls `check` (proc_heartbeat.go:193-198) goes on for ever.
-/

namespace Verif.Conn.Heartbeat

/-- An infinite history. -/
structure Forever where
  ev : Nat → Nat × Ev
  hb : Nat → HB
  empty : (hb 0).monitors = []
  next : ∀ n, hb (n + 1) = (step (hb n) (ev n).1 (ev n).2).1
  /-- the orders are orders of the monitors at that moment -/
  valid : ∀ n order, (ev n).2 = .check order → order.Perm (hb n).monitors
  /-- there is always a check to come, and time goes on -/
  checks : ∀ n t, ∃ m order, n ≤ m ∧ t ≤ (ev m).1 ∧ (ev m).2 = .check order

/-- What is done at time `n`. -/
def Forever.effects (w : Forever) (n : Nat) : List Eff := (step (w.hb n) (w.ev n).1 (w.ev n).2).2

theorem Forever.keys (w : Forever) (n : Nat) : Keys (w.hb n).monitors := by
  induction n with
  | zero => rw [w.empty]; exact List.nodup_nil
  | succ n ih => rw [w.next]; exact keys_step ih _ _

theorem Forever.timeout (w : Forever) (n : Nat) : (w.hb n).timeout = (w.hb 0).timeout := by
  induction n with
  | zero => rfl
  | succ n ih => rw [w.next, (conf_step _ _ _).1, ih]

/-- What an event that does not name connection `c` does to its entry. -/
theorem Forever.entry (w : Forever) (c n : Nat) (h1 : (w.ev n).2.touches c = false) (h2 : (w.ev n).2 ≠ .gone c) :
    last (w.hb (n + 1)).monitors c = if Eff.lost c ∈ w.effects n then none else last (w.hb n).monitors c := by
  rw [w.next, Forever.effects]
  have hv := w.valid n
  generalize (w.ev n).2 = e at *
  cases e with
  | connected d =>
    have : d ≠ c := by simpa [Ev.touches] using h1
    simp [step, last_update, this]
  | beat d =>
    have : d ≠ c := by simpa [Ev.touches] using h1
    simp [step, last_update, this]
  | gone d =>
    have : d ≠ c := fun e => h2 (by rw [e])
    simp [step, last_remove, this]
  | check order => exact (c51_check (w.hb n) (w.keys n) _ order (hv order rfl)).2.2.2 c

theorem Forever.lost_entry (w : Forever) (c n : Nat) (h : Eff.lost c ∈ w.effects n) : last (w.hb n).monitors c ≠ none ∧ (w.effects n).count (.lost c) = 1 := by
  rw [Forever.effects] at h ⊢
  have hv := w.valid n
  generalize (w.ev n).2 = e at *
  cases e with
  | connected d => simp [step] at h
  | beat d => simp [step] at h
  | gone d => simp [step] at h
  | check order =>
    obtain ⟨a, b, _, _⟩ := c51_check (w.hb n) (w.keys n) (w.ev n).1 order (hv order rfl)
    obtain ⟨t, e, _⟩ := (a c).1 h
    have := b c
    have := List.count_pos_iff.2 h
    exact ⟨by rw [e]; simp, by omega⟩

/-- C52, for ever: a connection from which nothing is heard any more after a heartbeat (or after it was made), and whose end nobody notices, is declared lost exactly once,
whatever the other connections do. -/
theorem c52_forever (w : Forever) (c n : Nat) (h0 : (w.ev n).2.touches c = true) (h1 : ∀ m, n < m → (w.ev m).2.touches c = false ∧ (w.ev m).2 ≠ .gone c) :
    ∃ m, n < m ∧ (w.effects m).count (.lost c) = 1 ∧ ∀ j, n < j → j ≠ m → Eff.lost c ∉ w.effects j := by
  have hstart : last (w.hb (n + 1)).monitors c = some (w.ev n).1 := by
    rw [w.next]
    generalize (w.ev n).2 = e at *
    cases e with
    | connected d =>
      have : d = c := by simpa [Ev.touches] using h0
      simp [step, last_update, this]
    | beat d =>
      have : d = c := by simpa [Ev.touches] using h0
      simp [step, last_update, this]
    | gone d => simp [Ev.touches] at h0
    | check order => simp [Ev.touches] at h0
  have hone : ∀ i j, n < i → i < j → Eff.lost c ∈ w.effects i → Eff.lost c ∉ w.effects j := by
    intro i j hi hj hl hl'
    have : ∀ k, last (w.hb (i + 1 + k)).monitors c = none := by
      intro k
      induction k with
      | zero => rw [Nat.add_zero, w.entry c i (h1 i hi).1 (h1 i hi).2, if_pos hl]
      | succ k ih =>
        have := h1 (i + 1 + k) (by omega)
        rw [← Nat.add_assoc, w.entry c _ this.1 this.2, ih]
        exact ite_self _
    obtain ⟨k, rfl⟩ : ∃ k, j = i + 1 + k := ⟨j - (i + 1), by omega⟩
    exact (w.lost_entry c _ hl').1 (this k)
  have hsome : ∃ m, n < m ∧ Eff.lost c ∈ w.effects m := by
    refine Classical.byContradiction fun hno => ?_
    have : ∀ k, last (w.hb (n + 1 + k)).monitors c = some (w.ev n).1 := by
      intro k
      induction k with
      | zero => exact hstart
      | succ k ih =>
        have := h1 (n + 1 + k) (by omega)
        rw [← Nat.add_assoc, w.entry c _ this.1 this.2, if_neg fun h => hno ⟨_, by omega, h⟩, ih]
    obtain ⟨m, order, hm, ht, he⟩ := w.checks (n + 1) ((w.ev n).1 + (w.hb 0).timeout.toNat * 1000000000)
    obtain ⟨k, rfl⟩ : ∃ k, m = n + 1 + k := ⟨m - (n + 1), by omega⟩
    refine hno ⟨n + 1 + k, by omega, ?_⟩
    rw [Forever.effects, he]
    refine c52_detects _ (w.keys _) c _ _ order (w.valid _ order he) (this k) ?_
    rw [w.timeout]
    omega
  obtain ⟨m, hm, hl⟩ := hsome
  refine ⟨m, hm, (w.lost_entry c m hl).2, fun j hj hne hl' => ?_⟩
  rcases Nat.lt_or_gt_of_ne hne with h | h
  · exact hone j m hj h hl' hl
  · exact hone m j hm h hl hl'

/-- C52, for ever: a connection that is declared lost again and again is heard from again and again. -/
theorem c52_again (w : Forever) (c : Nat) (h : ∀ n, ∃ m, n ≤ m ∧ Eff.lost c ∈ w.effects m) : ∀ n, ∃ m, n ≤ m ∧ (w.ev m).2.touches c = true := by
  intro n
  refine Classical.byContradiction fun hno => ?_
  have ht : ∀ m, n ≤ m → (w.ev m).2.touches c = false := fun m hm => Bool.eq_false_iff.2 fun e => hno ⟨m, hm, e⟩
  obtain ⟨i, hi, hl⟩ := h n
  have hn : ∀ k, last (w.hb (i + 1 + k)).monitors c = none := by
    intro k
    induction k with
    | zero =>
      by_cases hg : (w.ev i).2 = .gone c
      · rw [Nat.add_zero, w.next, hg]; simp [step, last_remove]
      · rw [Nat.add_zero, w.entry c i (ht i hi) hg, if_pos hl]
    | succ k ih =>
      by_cases hg : (w.ev (i + 1 + k)).2 = .gone c
      · rw [← Nat.add_assoc, w.next, hg]; simp [step, last_remove]
      · rw [← Nat.add_assoc, w.entry c _ (ht _ (by omega)) hg, ih]
        exact ite_self _
  obtain ⟨j, hj, hl'⟩ := h (i + 1)
  obtain ⟨k, rfl⟩ : ∃ k, j = i + 1 + k := ⟨j - (i + 1), by omega⟩
  exact (w.lost_entry c _ hl').1 (hn k)

/-! ### Example: one connection, one heartbeat, and then a check every second -/

def quietEv : Nat → Nat × Ev
  | 0 => (0, .connected 4)
  | 1 => (500000000, .beat 4)
  | n + 2 => ((n + 1) * 1000000000, .check (if n ≤ 3 then [(4, 500000000)] else []))

def quietHB : Nat → HB
  | 0 => ⟨3, true, []⟩
  | 1 => ⟨3, true, [(4, 0)]⟩
  | n + 2 => ⟨3, true, if n ≤ 3 then [(4, 500000000)] else []⟩

def quietForever : Forever where
  ev := quietEv
  hb := quietHB
  empty := rfl
  next n := by
    match n with
    | 0 => rfl
    | 1 => rfl
    | 2 => decide
    | 3 => decide
    | 4 => decide
    | 5 => decide
    | n + 6 => rfl
  valid n order h := by
    match n with
    | 0 => cases h
    | 1 => cases h
    | n + 2 => injection h with h; subst h; exact List.Perm.refl _
  checks n t := ⟨n + t + 2, _, by omega, by simp only [quietEv]; omega, rfl⟩

example : ∃ m, 1 < m ∧ (quietForever.effects m).count (.lost 4) = 1 ∧ ∀ j, 1 < j → j ≠ m → Eff.lost 4 ∉ quietForever.effects j :=
  c52_forever quietForever 4 1 rfl fun m hm => by
    match m, hm with
    | m + 2, _ => exact ⟨rfl, fun h => by cases h⟩

example : quietForever.effects 5 = [.close 4, .lost 4] := by decide

/-! ### Example: a heartbeat every twenty seconds, always too late -/

def lateForever : Forever where
  ev n := (n * 10000000000, if n % 2 = 0 then .beat 4 else .check [(4, (n - 1) * 10000000000)])
  hb n := ⟨3, false, if n % 2 = 0 then [] else [(4, (n - 1) * 10000000000)]⟩
  empty := rfl
  next n := by
    rcases Nat.mod_two_eq_zero_or_one n with h | h
    · simp [h, show (n + 1) % 2 = 1 by omega, step, update]
    · have : (n * 10000000000 - (n - 1) * 10000000000) / 1000000000 = 10 := by omega
      simp [h, show (n + 1) % 2 = 0 by omega, step, checkLoop, expired, this, remove]
  valid n order h := by
    rcases Nat.mod_two_eq_zero_or_one n with e | e
    · simp [e] at h
    · simp [e] at h ⊢; rw [h]
  checks n t := ⟨2 * (n + t) + 1, _, by omega, by simp only; omega, by simp [show (2 * (n + t) + 1) % 2 = 1 by omega]; rfl⟩

example : ∀ n, ∃ m, n ≤ m ∧ (lateForever.ev m).2.touches 4 = true :=
  c52_again lateForever 4 fun n => ⟨2 * n + 1, by omega, by
    have : ((2 * n + 1) * 10000000000 - (2 * n) * 10000000000) / 1000000000 = 10 := by omega
    simp [Forever.effects, lateForever, show (2 * n + 1) % 2 = 1 by omega, step, checkLoop, expired, this]⟩

end Verif.Conn.Heartbeat
