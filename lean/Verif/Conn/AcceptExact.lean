import Verif.Conn.Accept

/-!
# Which observers see the life of a connection in order (C66)

For every number of targets `n`, every place `h` of a Heartbeat and every number `t` of transports: the clauses of C66 that
do not always hold, and exactly when they do.
-/

namespace Verif.Conn.Accept

open Verif.Trace

/-- The events a target has seen, in order. -/
def events (k : Nat) (log : List Obs) : List Event := log.filterMap fun | .seen k' e => if k' = k then some e else none | _ => none

/-- No target is told about the end of a connection before its beginning. -/
def EndsLater (log : List Obs) (k : Nat) : Prop := ∀ pre post c, log = pre ++ .seen k (.closed c) :: post → .seen k (.new c) ∈ pre

/-- The targets see the events in the same order; some may have seen more than others. -/
def OneOrder (n : Nat) (log : List Obs) : Prop := ∀ k k', k < n → k' < n → events k log <+: events k' log ∨ events k' log <+: events k log

theorem exec_then {σ L : Type} {step : σ → L → Option σ} {s s' : σ} {as bs : List L} (h : Trace.exec step s as = some s') :
    Trace.exec step s (as ++ bs) = Trace.exec step s' bs := by
  rw [Trace.exec_append, h]
  rfl

section
variable {n : Nat} {h : Option Nat}

/-- `NewConnection` for the next `m` targets. -/
theorem announces (q : List Nat) (st : Bool) (c : Nat) (rest : List Acc) (ow : List Nat) (m : Nat) : ∀ (k : Nat) (ws : List Worker) (log : List Obs),
    k + m ≤ n → exec n h ⟨⟨q, st, .announcing c k⟩ :: rest, ws, ow, log⟩ (List.replicate m (.accept 0)) =
      some ⟨⟨q, st, .announcing c (k + m)⟩ :: rest, ws ++ (if ∃ b, h = some b ∧ k ≤ b ∧ b < k + m then [⟨false, c, .running⟩] else []), ow,
        log ++ (List.range' k m).map fun j => .seen j (.new c)⟩ := by
  induction m with
  | zero =>
    intro k ws log _
    rw [if_neg (by rintro ⟨b, _, h1, h2⟩; omega)]
    simp [Trace.exec]
  | succ m ih =>
    intro k ws log hk
    have hs : step n h ⟨⟨q, st, .announcing c k⟩ :: rest, ws, ow, log⟩ (.accept 0) =
        some ⟨⟨q, st, .announcing c (k + 1)⟩ :: rest, if h = some k then ws ++ [⟨false, c, .running⟩] else ws, ow, log ++ [.seen k (.new c)]⟩ := by
      simp only [step, List.getElem?_cons_zero, Sys.setAcc, List.set_cons_zero]
      rw [if_pos (by omega)]
    simp only [exec, List.replicate_succ, Trace.exec, hs]
    refine (ih (k + 1) _ _ (by omega)).trans ?_
    rw [show k + 1 + m = k + (m + 1) by omega, List.range'_succ]
    congr 2
    · by_cases hh : h = some k
      · rw [if_pos hh, if_neg (by rintro ⟨b, h0, h1, h2⟩; rw [hh] at h0; injection h0; omega), if_pos ⟨k, hh, by omega, by omega⟩]
        simp
      · rw [if_neg hh]
        congr 1
        have : (∃ b, h = some b ∧ k + 1 ≤ b ∧ b < k + (m + 1)) = ∃ b, h = some b ∧ k ≤ b ∧ b < k + (m + 1) := by
          apply propext
          constructor
          · rintro ⟨b, h0, h1, h2⟩; exact ⟨b, h0, by omega, by omega⟩
          · rintro ⟨b, h0, h1, h2⟩
            have : b ≠ k := fun e => hh (e ▸ h0)
            exact ⟨b, h0, by omega, by omega⟩
        simp only [this]
    · simp

/-- `ConnectionClosed` for the next `m` targets. -/
theorem publishes (accs : List Acc) (ow : List Nat) (i : Nat) (r : Bool) (c : Nat) (m : Nat) : ∀ (k : Nat) (ws : List Worker) (log : List Obs),
    k + m ≤ n → ws[i]? = some ⟨r, c, .closing k⟩ → exec n h ⟨accs, ws, ow, log⟩ (List.replicate m (.publish i)) =
      some ⟨accs, ws.set i ⟨r, c, .closing (k + m)⟩, ow, log ++ (List.range' k m).map fun j => .seen j (.closed c)⟩ := by
  induction m with
  | zero =>
    intro k ws log _ hi
    have : ws.set i ⟨r, c, .closing k⟩ = ws := by
      apply List.ext_getElem?
      intro j
      rw [List.getElem?_set]
      by_cases e : i = j
      · subst e
        rw [if_pos rfl, hi]
        split
        · rfl
        · rename_i hl
          rw [List.getElem?_eq_none (by omega)] at hi
          cases hi
      · rw [if_neg e]
    simp [Trace.exec, this]
  | succ m ih =>
    intro k ws log hk hi
    have hs : step n h ⟨accs, ws, ow, log⟩ (.publish i) =
        some ⟨accs, ws.set i ⟨r, c, .closing (k + 1)⟩, ow, log ++ [.seen k (.closed c)]⟩ := by
      simp only [step, hi, Sys.setWorker]
      rw [if_pos (by omega)]
    simp only [exec, List.replicate_succ, Trace.exec, hs]
    have hl : i < ws.length := by
      apply Classical.byContradiction
      intro hl
      rw [List.getElem?_eq_none (by omega)] at hi
      cases hi
    refine (ih (k + 1) _ _ (by omega) (by simp [hl])).trans ?_
    rw [show k + 1 + m = k + (m + 1) by omega, List.range'_succ]
    simp

theorem events_seen (k : Nat) (c : Event) (m : Nat) : ∀ a, events k ((List.range' a m).map fun j => .seen j c) = if a ≤ k ∧ k < a + m then [c] else [] := by
  induction m with
  | zero => intro a; rw [if_neg (by omega)]; rfl
  | succ m ih =>
    intro a
    rw [List.range'_succ, List.map_cons, events, List.filterMap_cons]
    have := ih (a + 1)
    rw [events] at this
    rw [this]
    by_cases e : a = k
    · subst e; simp; omega
    · simp only [if_neg e]
      by_cases h : a + 1 ≤ k ∧ k < a + 1 + m
      · rw [if_pos h, if_pos (by omega)]
      · rw [if_neg h, if_neg (by omega)]

theorem events_append (k : Nat) (a b : List Obs) : events k (a ++ b) = events k a ++ events k b := by simp [events]

/-- A transport has made a connection and its accept goroutine taken it. -/
theorem takes (t : Nat) : exec n h (init (t + 1)) [.arrive 0, .accept 0] =
    some ⟨⟨[], false, .announcing 0 0⟩ :: List.replicate t ⟨[], false, .waiting⟩, [], [0], []⟩ := rfl

/-- The end is seen before the beginning, below a Heartbeat. -/
theorem early_end (t b k : Nat) (hb : h = some b) (hbk : b < k) (hk : k < n) : ∃ ls s, exec n h (init (t + 1)) ls = some s ∧ ¬ EndsLater s.log k := by
  have e1 := (exec_then (takes (n := n) (h := h) t)).trans
    (announces (n := n) (h := h) [] false 0 (List.replicate t ⟨[], false, .waiting⟩) [0] (b + 1) 0 [] [] (by omega))
  rw [if_pos ⟨b, hb, by omega, by omega⟩] at e1
  have e2 := exec_then (bs := [.fail 0]) e1
  have e3 := (exec_then e2).trans (publishes (n := n) (h := h) _ [0] 0 false 0 (k + 1) 0 [⟨false, 0, .closing 0⟩] _ (by omega) rfl)
  refine ⟨_, _, e3, fun hl => ?_⟩
  have := hl (([] ++ (List.range' 0 (b + 1)).map fun j => Obs.seen j (.new 0)) ++ (List.range' 0 k).map fun j => .seen j (.closed 0)) [] 0
    (by simp [List.range'_concat])
  simp at this
  omega

/-- The end is seen twice, if there is a Heartbeat. -/
theorem two_ends (t b k : Nat) (hb : h = some b) (hbn : b < n) (hk : k < n) :
    ∃ ls s, exec n h (init (t + 1)) ls = some s ∧ s.log.count (.seen k (.closed 0)) = 2 := by
  have e1 := (exec_then (takes (n := n) (h := h) t)).trans
    (announces (n := n) (h := h) [] false 0 (List.replicate t ⟨[], false, .waiting⟩) [0] n 0 [] [] (by omega))
  rw [if_pos ⟨b, hb, by omega, by omega⟩] at e1
  have e2 := exec_then (bs := [.accept 0, .fail 0]) e1
  have hs : exec n h ⟨⟨[], false, .announcing 0 (0 + n)⟩ :: List.replicate t ⟨[], false, .waiting⟩, [] ++ [⟨false, 0, .running⟩], [0],
      [] ++ (List.range' 0 n).map fun j => .seen j (.new 0)⟩ [.accept 0, .fail 0] =
      some ⟨⟨[], false, .waiting⟩ :: List.replicate t ⟨[], false, .waiting⟩, [⟨false, 0, .closing 0⟩, ⟨true, 0, .running⟩], [0],
      [] ++ (List.range' 0 n).map fun j => .seen j (.new 0)⟩ := by
    simp [exec, Trace.exec, step, Sys.setAcc, Sys.setWorker]
  replace e2 := e2.trans hs
  have e3 := (exec_then e2).trans (publishes (n := n) (h := h) _ [0] 0 false 0 (k + 1) 0 _ _ (by omega) rfl)
  have e4 := exec_then (bs := [.fail 1]) e3
  have e5 := (exec_then e4).trans (publishes (n := n) (h := h) _ [0] 1 true 0 (k + 1) 0 [⟨false, 0, .closing (0 + (k + 1))⟩, ⟨true, 0, .closing 0⟩] _ (by omega) rfl)
  refine ⟨_, _, e5, ?_⟩
  have c1 : ((List.range' 0 n).map fun j => Obs.seen j (.new 0)).count (.seen k (.closed 0)) = 0 := by
    rw [List.count_eq_zero]; simp
  have c2 : ((List.range' 0 (k + 1)).map fun j => Obs.seen j (.closed 0)).count (.seen k (.closed 0)) = 1 := by
    rw [List.range'_concat, List.map_append, List.count_append, List.count_eq_zero.mpr (by simp)]
    simp
  simp only [List.nil_append, List.count_append, c1, c2]

/-- Two targets see two events in different orders. -/
theorem two_orders (t : Nat) (hn : 2 ≤ n) : ∃ ls s, exec n h (init (t + 1)) ls = some s ∧ ¬ OneOrder n s.log := by
  have e1 := (exec_then (takes (n := n) (h := h) t)).trans
    (announces (n := n) (h := h) [] false 0 (List.replicate t ⟨[], false, .waiting⟩) [0] n 0 [] [] (by omega))
  generalize [] ++ (if ∃ b, h = some b ∧ 0 ≤ b ∧ b < 0 + n then [(⟨false, 0, .running⟩ : Worker)] else []) = W at e1
  have e2 := exec_then (bs := [.accept 0, .arrive 0, .accept 0]) e1
  have hs : exec n h ⟨⟨[], false, .announcing 0 (0 + n)⟩ :: List.replicate t ⟨[], false, .waiting⟩, W, [0],
      [] ++ (List.range' 0 n).map fun j => .seen j (.new 0)⟩ [.accept 0, .arrive 0, .accept 0] =
      some ⟨⟨[], false, .announcing 1 0⟩ :: List.replicate t ⟨[], false, .waiting⟩, W ++ [⟨true, 0, .running⟩], [0, 0],
      [] ++ (List.range' 0 n).map fun j => .seen j (.new 0)⟩ := by
    simp [exec, Trace.exec, step, Sys.setAcc]
  replace e2 := e2.trans hs
  have e3 := (exec_then e2).trans (announces (n := n) (h := h) [] false 1 (List.replicate t ⟨[], false, .waiting⟩) [0, 0] 1 0 _ _ (by omega))
  generalize (if ∃ b, h = some b ∧ 0 ≤ b ∧ b < 0 + 1 then [(⟨false, 1, .running⟩ : Worker)] else []) = X at e3
  have e4 := exec_then (bs := [.fail W.length]) e3
  have hs2 : ∀ accs ow log, exec n h ⟨accs, W ++ [⟨true, 0, .running⟩] ++ X, ow, log⟩ [.fail W.length] =
      some ⟨accs, (W ++ [(⟨true, 0, .running⟩ : Worker)] ++ X).set W.length ⟨true, 0, .closing 0⟩, ow, log⟩ := by
    intro accs ow log
    simp [exec, Trace.exec, step, Sys.setWorker]
  replace e4 := e4.trans (hs2 _ _ _)
  have e5 := (exec_then e4).trans (publishes (n := n) (h := h) _ _ W.length true 0 2 0 _ _ (by omega) (by simp))
  have e6 := (exec_then e5).trans (announces (n := n) (h := h) [] false 1 (List.replicate t ⟨[], false, .waiting⟩) [0, 0] 1 1 _ _ (by omega))
  refine ⟨_, _, e6, fun ho => ?_⟩
  have := ho 0 1 (by omega) (by omega)
  simp only [events_append, events_seen] at this
  have n0 : 0 < n := by omega
  have n1 : 1 < n := by omega
  simp [events, n0, n1] at this

/-- **C66, exactly**, for stacks with at least one transport.  In every execution the end of a connection is seen by the target
`k` after its beginning, iff `k` is not called after a Heartbeat; it is seen at most once, iff there is no Heartbeat; all targets see
all events in the same order, iff there is at most one target.  (The other clauses always hold: `c66_announced_once`, `c66_data`.) -/
theorem c66_exact (t : Nat) :
    (∀ k, k < n → ((∀ ls s, exec n h (init (t + 1)) ls = some s → EndsLater s.log k) ↔ ∀ b, h = some b → k ≤ b)) ∧
    (∀ k, k < n → ((∀ ls s, exec n h (init (t + 1)) ls = some s → ∀ c, s.log.count (.seen k (.closed c)) ≤ 1) ↔ ∀ b, h = some b → n ≤ b)) ∧
    ((∀ ls s, exec n h (init (t + 1)) ls = some s → OneOrder n s.log) ↔ n ≤ 1) := by
  refine ⟨fun k hk => ⟨fun hall b hb => ?_, fun hb ls s he pre post c hl => c66_closed_partial _ ls he pre post k c hl hb⟩,
    fun k hk => ⟨fun hall b hb => ?_, fun hb ls s he c => ?_⟩, fun hall => ?_, fun hn ls s he k k' hk hk' => ?_⟩
  · apply Classical.byContradiction
    intro hlt
    obtain ⟨ls, s, h1, h2⟩ := early_end (n := n) (h := h) t b k hb (by omega) hk
    exact h2 (hall ls s h1)
  · apply Classical.byContradiction
    intro hlt
    obtain ⟨ls, s, h1, h2⟩ := two_ends (n := n) (h := h) t b k hb (by omega) hk
    have := hall ls s h1 0
    omega
  · cases h with
    | none => simpa using (c66_closed_count (t + 1) ls he k c hk).1
    | some b =>
      have hstep : ∀ s l, step n (some b) s l = step n none s l := by
        intro s l
        cases l <;> try rfl
        simp only [step]
        split
        · rfl
        · split <;> try rfl
          split
          · rename_i k' _ hk'
            have : b ≠ k' := by have := hb b rfl; omega
            simp [this]
          · rfl
      have hexec : ∀ ls s, Trace.exec (step n (some b)) s ls = Trace.exec (step n none) s ls := by
        intro ls
        induction ls with
        | nil => intro s; rfl
        | cons l ls ih => intro s; simp only [Trace.exec, hstep, ih]
      have he' : exec n none (init (t + 1)) ls = some s := (hexec _ _).symm.trans he
      simpa using (c66_closed_count (t + 1) ls he' k c hk).1
  · apply Classical.byContradiction
    intro hlt
    obtain ⟨ls, s, h1, h2⟩ := two_orders (n := n) (h := h) t (by omega)
    exact h2 (hall ls s h1)
  · have : k = k' := by omega
    subst this
    exact .inl (List.prefix_refl _)

end

/-- A stack with two targets, and a Heartbeat in front of the second. -/
example : ∃ ls s, exec 2 (some 0) (init 1) ls = some s ∧ ¬ EndsLater s.log 1 := early_end 0 0 1 rfl (by decide) (by decide)

end Verif.Conn.Accept
