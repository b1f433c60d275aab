import Verif.Trace

/-!
# Infinite executions and fair schedulers

Used for the liveness theorems (C111).  A run may rest for a while or for ever; a scheduler is fair to a set of actions (those of one goroutine) if it does not
rest, or run others, for ever while some action of the set can be taken all the time (weak fairness); strong fairness asks the same when some action of the set can
be taken again and again.
-/

namespace Verif.Trace

variable {σ L : Type} {step : σ → L → Option σ} {init : σ}

/-- An infinite execution; nothing happens at a time without a label. -/
structure Run (step : σ → L → Option σ) (init : σ) where
  state : Nat → σ
  label : Nat → Option L
  start : state 0 = init
  next : ∀ n, (label n = none ∧ state (n + 1) = state n) ∨ ∃ l, label n = some l ∧ step (state n) l = some (state (n + 1))

/-- What happened before time `n`. -/
def Run.past (r : Run step init) : Nat → List L
  | 0 => []
  | n + 1 => r.past n ++ (r.label n).toList

/-- Every moment of a run is the end of a finite execution. -/
theorem Run.exec_past (r : Run step init) (n : Nat) : exec step init (r.past n) = some (r.state n) := by
  induction n with
  | zero => rw [r.start]; rfl
  | succ n ih =>
    rw [Run.past, exec_append, ih, Option.bind_some]
    rcases r.next n with ⟨h1, h2⟩ | ⟨l, h1, h2⟩
    · rw [h1, h2]; rfl
    · rw [h1]; simp only [Option.toList, exec, h2, Option.bind_some]

theorem Run.past_pre (r : Run step init) {n m : Nat} (h : n ≤ m) : r.past n <+: r.past m := by
  induction m with
  | zero => rw [Nat.le_zero.1 h]; exact List.prefix_refl _
  | succ m ih =>
    rcases Nat.lt_or_ge n (m + 1) with h' | h'
    · exact (ih (by omega)).trans ⟨_, rfl⟩
    · rw [show n = m + 1 by omega]; exact List.prefix_refl _

theorem Run.mem_past (r : Run step init) {n : Nat} {l : L} (h : l ∈ r.past n) : ∃ m, m < n ∧ r.label m = some l := by
  induction n with
  | zero => cases h
  | succ n ih =>
    rcases List.mem_append.1 h with h | h
    · obtain ⟨m, h1, h2⟩ := ih h; exact ⟨m, by omega, h2⟩
    · exact ⟨n, by omega, by simpa using h⟩

/-- Some action of the set can be taken. -/
def Ready (step : σ → L → Option σ) (acts : L → Prop) (s : σ) : Prop := ∃ l, acts l ∧ (step s l).isSome = true

/-- If some action of the set can be taken at all times from `n` on, one is taken at some time. -/
def Run.Fair (r : Run step init) (acts : L → Prop) : Prop :=
  ∀ n, (∀ m, n ≤ m → Ready step acts (r.state m)) → ∃ m l, n ≤ m ∧ r.label m = some l ∧ acts l

/-- If some action of the set can be taken again and again, one is taken again and again. -/
def Run.StrongFair (r : Run step init) (acts : L → Prop) : Prop :=
  (∀ n, ∃ m, n ≤ m ∧ Ready step acts (r.state m)) → ∀ n, ∃ m l, n ≤ m ∧ r.label m = some l ∧ acts l

/-- A run that comes to rest where nothing of the set can be done is fair. -/
theorem Run.fair_of_rest (r : Run step init) (acts : L → Prop) (k : Nat) (h : ∀ m, k ≤ m → ¬ Ready step acts (r.state m)) : r.Fair acts :=
  fun n hn => absurd (hn (n + k) (by omega)) (h (n + k) (by omega))

/-- A property kept by every label of the run. -/
theorem Run.keeps (r : Run step init) (P : σ → Prop) (n : Nat) (h0 : P (r.state n))
    (hstep : ∀ m l, n ≤ m → r.label m = some l → P (r.state m) → step (r.state m) l = some (r.state (m + 1)) → P (r.state (m + 1))) :
    ∀ m, n ≤ m → P (r.state m) := by
  intro m
  induction m with
  | zero => intro h; rw [show n = 0 by omega] at h0; exact h0
  | succ m ih =>
    intro h
    rcases Nat.lt_or_ge n (m + 1) with h' | h'
    · rcases r.next m with ⟨_, h2⟩ | ⟨l, h1, h2⟩
      · rw [h2]; exact ih (by omega)
      · exact hstep m l (by omega) h1 (ih (by omega)) h2
    · rw [show m + 1 = n by omega]; exact h0

/-- If the set acts again and again as long as the goal is not reached, and each of its actions makes progress that nothing undoes, then the progress
exceeds every bound or the goal is reached. -/
theorem Run.climbs (r : Run step init) (acts : L → Prop) (work : σ → Nat) (goal : Nat → Prop) (n : Nat)
    (hstep : ∀ m l, n ≤ m → r.label m = some l → step (r.state m) l = some (r.state (m + 1)) →
      work (r.state m) ≤ work (r.state (m + 1)) ∧ (acts l → work (r.state m) < work (r.state (m + 1))))
    (hact : (∀ m, n ≤ m → ¬ goal m) → ∀ k, n ≤ k → ∃ m l, k ≤ m ∧ r.label m = some l ∧ acts l) (w : Nat) :
    ∃ m, n ≤ m ∧ (goal m ∨ w ≤ work (r.state m)) := by
  refine Classical.byContradiction fun hno => ?_
  have hng : ∀ m, n ≤ m → ¬ goal m := fun m hm hg => hno ⟨m, hm, .inl hg⟩
  have mono : ∀ k m, n ≤ k → k ≤ m → work (r.state k) ≤ work (r.state m) := by
    intro k m hk
    induction m with
    | zero => intro h; rw [show k = 0 by omega]; exact Nat.le_refl _
    | succ m ih =>
      intro h
      rcases Nat.lt_or_ge k (m + 1) with h' | h'
      · refine Nat.le_trans (ih (by omega)) ?_
        rcases r.next m with ⟨_, h2⟩ | ⟨l, h1, h2⟩
        · rw [h2]; exact Nat.le_refl _
        · exact (hstep m l (by omega) h1 h2).1
      · rw [show k = m + 1 by omega]; exact Nat.le_refl _
  have grow : ∀ v, ∃ k, n ≤ k ∧ v ≤ work (r.state k) := by
    intro v
    induction v with
    | zero => exact ⟨n, Nat.le_refl _, Nat.zero_le _⟩
    | succ v ih =>
      obtain ⟨k, hk, hv⟩ := ih
      obtain ⟨m, l, hm, hl, ha⟩ := hact hng k hk
      refine ⟨m + 1, by omega, ?_⟩
      have h1 := mono k m hk hm
      rcases r.next m with ⟨h2, _⟩ | ⟨l', h2, h3⟩
      · rw [h2] at hl; cases hl
      · rw [h2] at hl
        injection hl with hl
        subst hl
        have := (hstep m l' (by omega) h2 h3).2 ha
        omega
  obtain ⟨k, hk, hw⟩ := grow w
  exact hno ⟨k, hk, .inr hw⟩

/-- Leads-to under weak fairness: the set can act as long as the goal is not reached. -/
theorem Run.leads (r : Run step init) (acts : L → Prop) (hf : r.Fair acts) (work : σ → Nat) (goal : Nat → Prop) (n : Nat)
    (hstep : ∀ m l, n ≤ m → r.label m = some l → step (r.state m) l = some (r.state (m + 1)) →
      work (r.state m) ≤ work (r.state (m + 1)) ∧ (acts l → work (r.state m) < work (r.state (m + 1))))
    (hready : ∀ m, n ≤ m → ¬ goal m → Ready step acts (r.state m)) (w : Nat) :
    ∃ m, n ≤ m ∧ (goal m ∨ w ≤ work (r.state m)) :=
  r.climbs acts work goal n hstep (fun hng k hk => hf k fun m hm => hready m (by omega) (hng m (by omega))) w

/-- Leads-to under strong fairness: the set can act again and again as long as the goal is not reached. -/
theorem Run.leads_strong (r : Run step init) (acts : L → Prop) (hf : r.StrongFair acts) (work : σ → Nat) (goal : Nat → Prop) (n : Nat)
    (hstep : ∀ m l, n ≤ m → r.label m = some l → step (r.state m) l = some (r.state (m + 1)) →
      work (r.state m) ≤ work (r.state (m + 1)) ∧ (acts l → work (r.state m) < work (r.state (m + 1))))
    (hready : ∀ m, n ≤ m → (∀ k, m ≤ k → ¬ goal k) → ∃ k, m ≤ k ∧ Ready step acts (r.state k)) (w : Nat) :
    ∃ m, n ≤ m ∧ (goal m ∨ w ≤ work (r.state m)) :=
  r.climbs acts work goal n hstep (fun hng k _ => hf (fun m => by
    obtain ⟨j, h1, h2⟩ := hready (max m n) (by omega) fun i hi => hng i (by omega)
    exact ⟨j, by omega, h2⟩) k) w

/-- Under weak fairness the goal is reached if each action of the set brings it nearer and nothing moves it away. -/
theorem Run.descends (r : Run step init) (acts : L → Prop) (hf : r.Fair acts) (rem : σ → Nat) (goal : Nat → Prop) (n : Nat)
    (hstep : ∀ m l, n ≤ m → ¬ goal m → ¬ goal (m + 1) → r.label m = some l → step (r.state m) l = some (r.state (m + 1)) →
      rem (r.state (m + 1)) ≤ rem (r.state m) ∧ (acts l → rem (r.state (m + 1)) < rem (r.state m)))
    (hready : ∀ m, n ≤ m → ¬ goal m → Ready step acts (r.state m)) : ∃ m, n ≤ m ∧ goal m := by
  refine Classical.byContradiction fun hno => ?_
  have hng : ∀ m, n ≤ m → ¬ goal m := fun m hm hg => hno ⟨m, hm, hg⟩
  have mono : ∀ k m, n ≤ k → k ≤ m → rem (r.state m) ≤ rem (r.state k) := by
    intro k m hk
    induction m with
    | zero => intro h; rw [show k = 0 by omega]; exact Nat.le_refl _
    | succ m ih =>
      intro h
      rcases Nat.lt_or_ge k (m + 1) with h' | h'
      · refine Nat.le_trans ?_ (ih (by omega))
        rcases r.next m with ⟨_, h2⟩ | ⟨l, h1, h2⟩
        · rw [h2]; exact Nat.le_refl _
        · exact (hstep m l (by omega) (hng m (by omega)) (hng _ (by omega)) h1 h2).1
      · rw [show k = m + 1 by omega]; exact Nat.le_refl _
  have down : ∀ v k, n ≤ k → rem (r.state k) ≤ v → False := by
    intro v
    induction v with
    | zero =>
      intro k hk hv
      obtain ⟨m, l, hm, hl, ha⟩ := hf k fun m hm => hready m (by omega) (hng m (by omega))
      rcases r.next m with ⟨h2, _⟩ | ⟨l', h2, h3⟩
      · rw [h2] at hl; cases hl
      · rw [h2] at hl; injection hl with hl; subst hl
        have h4 := (hstep m l' (by omega) (hng m (by omega)) (hng _ (by omega)) h2 h3).2 ha
        have := mono k m hk hm
        omega
    | succ v ih =>
      intro k hk hv
      obtain ⟨m, l, hm, hl, ha⟩ := hf k fun m hm => hready m (by omega) (hng m (by omega))
      rcases r.next m with ⟨h2, _⟩ | ⟨l', h2, h3⟩
      · rw [h2] at hl; cases hl
      · rw [h2] at hl; injection hl with hl; subst hl
        have h4 := (hstep m l' (by omega) (hng m (by omega)) (hng _ (by omega)) h2 h3).2 ha
        have := mono k m hk hm
        exact ih (m + 1) (by omega) (by omega)
  exact down _ n (Nat.le_refl _) (Nat.le_refl _)

/-- A finite execution, and then nothing. -/
def demo (ls : List L) (s : σ) (h : exec step init ls = some s) : Run step init where
  state n := (exec step init (ls.take n)).getD init
  label n := ls[n]?
  start := rfl
  next n := by
    have pre : ∀ k, ∃ t, exec step init (ls.take k) = some t := by
      intro k
      rw [← List.take_append_drop k ls, exec_append] at h
      cases ht : exec step init (ls.take k) with
      | none => rw [ht] at h; cases h
      | some t => exact ⟨t, rfl⟩
    rcases Nat.lt_or_ge n ls.length with hn | hn
    · refine .inr ⟨ls[n], List.getElem?_eq_getElem hn, ?_⟩
      obtain ⟨t, ht⟩ := pre (n + 1)
      have ht' := ht
      rw [List.take_succ_eq_append_getElem hn] at ht'
      obtain ⟨m, h1, h2⟩ := exec_snoc ht'
      rw [h1, ht]
      exact h2
    · exact .inl ⟨List.getElem?_eq_none hn, by rw [List.take_of_length_le hn, List.take_of_length_le (by omega)]⟩

theorem demo_rest (ls : List L) (s : σ) (h : exec step init ls = some s) (n : Nat) (hn : ls.length ≤ n) : (demo ls s h).state n = s := by
  show (exec step init (ls.take n)).getD init = s
  rw [List.take_of_length_le hn, h]; rfl

theorem demo_fair (ls : List L) (s : σ) (h : exec step init ls = some s) (acts : L → Prop) (hr : ¬ Ready step acts s) : (demo ls s h).Fair acts :=
  Run.fair_of_rest _ acts ls.length fun m hm => by rw [demo_rest ls s h m hm]; exact hr

theorem demo_strong (ls : List L) (s : σ) (h : exec step init ls = some s) (acts : L → Prop) (hr : ¬ Ready step acts s) : (demo ls s h).StrongFair acts :=
  fun hn => by
    obtain ⟨m, h1, h2⟩ := hn ls.length
    rw [demo_rest ls s h m h1] at h2
    exact absurd h2 hr

end Verif.Trace
