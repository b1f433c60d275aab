import Verif.Conn.Accept
import Verif.Fair

/-!
# Every connection is announced in the end (C111)

Infinite executions of the model of the accept goroutines (`Conn/Accept.lean`).
-/

namespace Verif.Conn.Accept

open Verif.Trace

variable {n : Nat} {h : Option Nat} {s s' : Sys}

/-- The connection has its receive goroutine. -/
def Sys.Reading (s : Sys) (c : Nat) : Prop := ∃ w ∈ s.workers, w.reader = true ∧ w.conn = c

/-- A connection waits for its accept goroutine until it has a receive goroutine. -/
structure Kept (s : Sys) : Prop where
  acc : ∀ c a : Nat, s.owner[c]? = some a → ∃ x, s.accs[a]? = some x ∧ (c ∈ x.pending ∨ s.Reading c)
  done : ∀ (a : Nat) (x : Acc), s.accs[a]? = some x → x.pc = .done → x.queue = [] ∧ x.stopped = true

theorem reading_set {i : Nat} {w : Worker} {pc : WPC} {log : List Obs} {c : Nat} (hw : s.workers[i]? = some w) (hr : s.Reading c) :
    Sys.Reading { s with workers := s.workers.set i { w with pc := pc }, log := log } c := by
  obtain ⟨v, hv, h1, h2⟩ := hr
  obtain ⟨j, hj⟩ := List.mem_iff_getElem?.1 hv
  by_cases e : j = i
  · subst e
    rw [hw] at hj; injection hj with hj; subst hj
    exact ⟨{ w with pc := pc }, List.mem_iff_getElem?.2 ⟨j, set_self hw⟩, h1, h2⟩
  · exact ⟨v, List.mem_iff_getElem?.2 ⟨j, by rw [set_other e]; exact hj⟩, h1, h2⟩

/-- The state changes in one accept goroutine and in more workers. -/
theorem Kept.change (hk : Kept s) {a : Nat} {x y : Acc} {ws : List Worker} {log : List Obs} (ha : s.accs[a]? = some x)
    (hp : ∀ c ∈ x.pending, c ∈ y.pending ∨ ∃ w ∈ ws, w.reader = true ∧ w.conn = c) (hw : s.workers ⊆ ws)
    (hd : y.pc = .done → y.queue = [] ∧ y.stopped = true) : Kept { s with accs := s.accs.set a y, workers := ws, log := log } := by
  constructor
  · intro c b hb
    obtain ⟨z, h1, h2⟩ := hk.acc c b hb
    have old : s.Reading c → ∃ w ∈ ws, w.reader = true ∧ w.conn = c := fun ⟨w, e1, e2⟩ => ⟨w, hw e1, e2⟩
    by_cases e : b = a
    · subst e
      rw [ha] at h1; injection h1 with h1; subst h1
      refine ⟨y, set_self ha, ?_⟩
      rcases h2 with h2 | h2
      · exact hp c h2
      · exact .inr (old h2)
    · exact ⟨z, by show (s.accs.set a y)[b]? = _; rw [set_other e]; exact h1, h2.imp id old⟩
  · intro b z hz hpc
    rcases set_cases hz with ⟨_, rfl⟩ | ⟨_, e⟩
    · exact hd hpc
    · exact hk.done b z e hpc

theorem Kept.step (hk : Kept s) {l : Label} (hs : step n h s l = some s') : Kept s' := by
  cases l with
  | arrive a =>
    simp only [Accept.step] at hs
    split at hs
    · simp at hs
    · rename_i x ha
      split at hs
      · simp at hs
      · rename_i hst
        injection hs with hs; subst hs
        constructor
        · intro c b hb
          have hb : (s.owner ++ [a])[c]? = some b := hb
          rcases Nat.lt_or_ge c s.owner.length with hc | hc
          · rw [List.getElem?_append_left hc] at hb
            obtain ⟨z, h1, h2⟩ := hk.acc c b hb
            by_cases e : b = a
            · subst e
              rw [ha] at h1; injection h1 with h1; subst h1
              refine ⟨_, set_self ha, h2.imp (fun h2 => ?_) id⟩
              rw [Acc.pending, List.mem_append] at h2 ⊢
              exact h2.imp id fun h => List.mem_append_left _ h
            · exact ⟨z, by show (s.accs.set a _)[b]? = _; rw [set_other e]; exact h1, h2⟩
          · have hc' : c = s.owner.length := by
              have := lt_of_some hb
              simp at this; omega
            subst hc'
            simp at hb
            subst hb
            exact ⟨_, set_self ha, .inl (by simp [Acc.pending])⟩
        · intro b z hz hpc
          rcases set_cases hz with ⟨_, rfl⟩ | ⟨_, e⟩
          · exact absurd (hk.done a x ha hpc).2 hst
          · exact hk.done b z e hpc
  | stop a =>
    simp only [Accept.step] at hs
    split at hs
    · simp at hs
    · rename_i x ha
      injection hs with hs; subst hs
      exact hk.change ha (fun c hc => .inl hc) (fun _ h => h) fun hpc => ⟨(hk.done a x ha hpc).1, rfl⟩
  | accept a =>
    simp only [Accept.step] at hs
    split at hs
    · simp at hs
    · rename_i x ha
      split at hs
      · rename_i hpc
        split at hs
        · rename_i c rest hq
          injection hs with hs; subst hs
          exact hk.change ha (fun d hd => .inl (by simpa [Acc.pending, hpc, hq] using hd)) (fun _ h => h) fun e => by cases e
        · rename_i hq
          split at hs
          · rename_i hst
            injection hs with hs; subst hs
            exact hk.change ha (fun d hd => by simp [Acc.pending, hpc, hq] at hd) (fun _ h => h) fun _ => ⟨hq, hst⟩
          · simp at hs
      · rename_i c k hpc
        split at hs
        · injection hs with hs; subst hs
          refine hk.change ha (fun d hd => .inl (by simpa [Acc.pending, hpc] using hd)) (fun w hw => ?_) fun e => by cases e
          split
          · exact List.mem_append_left _ hw
          · exact hw
        · injection hs with hs; subst hs
          refine hk.change ha (fun d hd => ?_) (fun w hw => List.mem_append_left _ hw) fun e => by cases e
          simp only [Acc.pending, hpc, List.cons_append, List.nil_append, List.mem_cons] at hd ⊢
          rcases hd with rfl | hd
          · exact .inr ⟨⟨true, d, .running⟩, by simp, rfl, rfl⟩
          · exact .inl hd
      · simp at hs
  | read i v =>
    simp only [Accept.step] at hs
    split at hs
    · simp at hs
    · split at hs
      · injection hs with hs; subst hs; exact ⟨hk.acc, hk.done⟩
      · simp at hs
  | fail i =>
    simp only [Accept.step] at hs
    split at hs
    · simp at hs
    · rename_i w hw
      split at hs
      · injection hs with hs; subst hs
        refine ⟨fun c a hc => ?_, hk.done⟩
        obtain ⟨x, h1, h2⟩ := hk.acc c a hc
        exact ⟨x, h1, h2.imp id fun h2 => reading_set hw h2⟩
      · simp at hs
  | publish i =>
    simp only [Accept.step] at hs
    split at hs
    · simp at hs
    · rename_i w hw
      split at hs
      · split at hs <;> injection hs with hs <;> subst hs
        all_goals
          refine ⟨fun c a hc => ?_, hk.done⟩
          obtain ⟨x, h1, h2⟩ := hk.acc c a hc
          exact ⟨x, h1, h2.imp id fun h2 => reading_set hw h2⟩
      · simp at hs

theorem kept_init (t : Nat) : Kept (init t) :=
  ⟨fun c a hc => by simp [init] at hc, fun a x hx hpc => by rw [List.eq_of_mem_replicate (List.mem_of_getElem? hx)] at hpc; cases hpc⟩

/-- How far the accept goroutine is with a connection. -/
def APC.phase : APC → Nat
  | .announcing _ k => k + 1
  | _ => 0

/-- The steps the accept goroutine of transport `a` has to make before connection `c` has a receive goroutine. -/
def Sys.rem (n a c : Nat) (s : Sys) : Nat :=
  match s.accs[a]? with
  | some x => (n + 2) * (x.pending.idxOf c + 1) - x.pc.phase
  | none => 0

theorem rem_of {a c : Nat} {x : Acc} (ha : s.accs[a]? = some x) : s.rem n a c = (n + 2) * (x.pending.idxOf c + 1) - x.pc.phase := by rw [Sys.rem, ha]

theorem rem_other {a c : Nat} (e : s'.accs[a]? = s.accs[a]?) : s'.rem n a c = s.rem n a c := by rw [Sys.rem, e]; rfl

theorem idxOf_append_mem {c : Nat} {p q : List Nat} (hc : c ∈ p) : (p ++ q).idxOf c = p.idxOf c := by
  rw [List.idxOf_append, if_pos hc]

/-- Only the accept goroutine's own steps count, and each of them does. -/
theorem rem_step (hi : Inv n h s) {a c : Nat} {x : Acc} (ha : s.accs[a]? = some x) (hc : c ∈ x.pending) {l : Label} (hs : step n h s l = some s')
    (hnr : ¬ s'.Reading c) : s'.rem n a c ≤ s.rem n a c ∧ (l = .accept a → s'.rem n a c < s.rem n a c) := by
  have hphase : x.pc.phase ≤ n + 1 := by
    cases hp : x.pc with
    | announcing d k => have := (hi.ann a x d k ha hp).1; simp only [APC.phase]; omega
    | _ => simp [APC.phase]
  have hmul : n + 2 ≤ (n + 2) * (x.pending.idxOf c + 1) := Nat.le_mul_of_pos_right _ (by omega)
  cases l with
  | arrive b =>
    refine ⟨?_, fun e => by cases e⟩
    simp only [Accept.step] at hs
    split at hs
    · simp at hs
    · rename_i y hb
      split at hs
      · simp at hs
      · injection hs with hs; subst hs
        by_cases e : a = b
        · subst e
          rw [ha] at hb; injection hb with hb; subst hb
          rw [rem_of ha, rem_of (show (s.accs.set a _)[a]? = _ from set_self ha)]
          have : ({ x with queue := x.queue ++ [s.owner.length] } : Acc).pending = x.pending ++ [s.owner.length] := by simp [Acc.pending]
          rw [this, idxOf_append_mem hc]
          exact Nat.le_refl _
        · exact Nat.le_of_eq (rem_other (show (s.accs.set b _)[a]? = _ from set_other e))
  | stop b =>
    refine ⟨?_, fun e => by cases e⟩
    simp only [Accept.step] at hs
    split at hs
    · simp at hs
    · rename_i y hb
      injection hs with hs; subst hs
      by_cases e : a = b
      · subst e
        rw [ha] at hb; injection hb with hb; subst hb
        rw [rem_of ha, rem_of (show (s.accs.set a _)[a]? = _ from set_self ha)]
        exact Nat.le_refl _
      · exact Nat.le_of_eq (rem_other (show (s.accs.set b _)[a]? = _ from set_other e))
  | accept b =>
    simp only [Accept.step] at hs
    by_cases e : a = b
    · subst e
      simp only [ha] at hs
      suffices hlt : s'.rem n a c < s.rem n a c from ⟨Nat.le_of_lt hlt, fun _ => hlt⟩
      split at hs
      · rename_i hpc
        split at hs
        · rename_i d rest hq
          injection hs with hs; subst hs
          rw [rem_of ha, rem_of (show (s.accs.set a _)[a]? = _ from set_self ha)]
          have : ({ x with queue := rest, pc := .announcing d 0 } : Acc).pending = x.pending := by simp [Acc.pending, hpc, hq]
          rw [this, hpc]
          simp only [APC.phase]
          omega
        · rename_i hq
          simp [Acc.pending, hpc, hq] at hc
      · rename_i d k hpc
        have hk : k ≤ n := (hi.ann a x d k ha hpc).1
        split at hs
        · injection hs with hs; subst hs
          rw [rem_of ha, rem_of (show (s.accs.set a _)[a]? = _ from set_self ha)]
          have : ({ x with pc := .announcing d (k + 1) } : Acc).pending = x.pending := by simp [Acc.pending, hpc]
          rw [this, hpc]
          simp only [APC.phase]
          omega
        · rename_i hkn
          injection hs with hs; subst hs
          have hdc : d ≠ c := fun e => hnr ⟨⟨true, d, .running⟩, by simp, rfl, e⟩
          rw [rem_of ha, rem_of (show (s.accs.set a _)[a]? = _ from set_self ha)]
          have e1 : ({ x with pc := .waiting } : Acc).pending = x.queue := by simp [Acc.pending]
          have e2 : x.pending = d :: x.queue := by simp [Acc.pending, hpc]
          have e3 : (d :: x.queue).idxOf c = x.queue.idxOf c + 1 := by
            rw [List.idxOf_cons, show (d == c) = false by simpa using hdc]; rfl
          rw [e1, e2, e3, hpc]
          simp only [APC.phase, Nat.mul_add]
          omega
      · simp at hs
    · refine ⟨?_, fun h => by injection h with h; exact absurd h.symm e⟩
      have : ∀ t : Sys, t.accs[a]? = s.accs[a]? → t.rem n a c ≤ s.rem n a c := fun t ht => Nat.le_of_eq (rem_other ht)
      split at hs
      · simp at hs
      · split at hs
        · split at hs
          · injection hs with hs; subst hs; exact this _ (set_other e)
          · split at hs
            · injection hs with hs; subst hs; exact this _ (set_other e)
            · simp at hs
        · split at hs <;> injection hs with hs <;> subst hs <;> exact this _ (set_other e)
        · simp at hs
  | read i v =>
    refine ⟨?_, fun e => by cases e⟩
    simp only [Accept.step] at hs
    split at hs
    · simp at hs
    · split at hs
      · injection hs with hs; subst hs; exact Nat.le_refl _
      · simp at hs
  | fail i =>
    refine ⟨?_, fun e => by cases e⟩
    simp only [Accept.step] at hs
    split at hs
    · simp at hs
    · split at hs
      · injection hs with hs; subst hs; exact Nat.le_refl _
      · simp at hs
  | publish i =>
    refine ⟨?_, fun e => by cases e⟩
    simp only [Accept.step] at hs
    split at hs
    · simp at hs
    · split at hs
      · split at hs <;> injection hs with hs <;> subst hs <;> exact Nat.le_refl _
      · simp at hs

/-- C111, connections: if the scheduler is fair to the accept goroutine of a transport, every connection the transport makes is announced to all targets in the end
and gets its receive goroutine; whatever else arrives, is closed or is stopped, the transport itself included. -/
theorem c111_announced (t : Nat) (r : Run (step n h) (init t)) (a : Nat) (hf : r.Fair (· = .accept a)) (m c : Nat) (hc : (r.state m).owner[c]? = some a) :
    ∃ m', m ≤ m' ∧ (∀ k, k < n → Obs.seen k (.new c) ∈ (r.state m').log) ∧ ∃ w ∈ (r.state m').workers, w.reader = true ∧ w.conn = c := by
  have hkept : ∀ k, Kept (r.state k) := fun k =>
    r.keeps Kept 0 (by rw [r.start]; exact kept_init t) (fun _ _ _ _ hk hs => hk.step hs) k (Nat.zero_le _)
  have hinv : ∀ k, Inv n h (r.state k) := fun k => inv_exec t (r.past k) (r.exec_past k)
  have howner : ∀ k, m ≤ k → (r.state k).owner[c]? = some a := by
    refine r.keeps (fun s => s.owner[c]? = some a) m hc fun k l _ _ hk hs => ?_
    cases l with
    | arrive b =>
      simp only [step] at hs
      split at hs
      · simp at hs
      · split at hs
        · simp at hs
        · injection hs with hs; rw [← hs]; exact owner_mono hk
    | stop b =>
      simp only [step] at hs
      split at hs
      · simp at hs
      · injection hs with hs; rw [← hs]; exact hk
    | accept b =>
      simp only [step] at hs
      split at hs
      · simp at hs
      · split at hs
        · split at hs
          · injection hs with hs; rw [← hs]; exact hk
          · split at hs
            · injection hs with hs; rw [← hs]; exact hk
            · simp at hs
        · split at hs <;> injection hs with hs <;> rw [← hs] <;> exact hk
        · simp at hs
    | read i v =>
      simp only [step] at hs
      split at hs
      · simp at hs
      · split at hs
        · injection hs with hs; rw [← hs]; exact hk
        · simp at hs
    | fail i =>
      simp only [step] at hs
      split at hs
      · simp at hs
      · split at hs
        · injection hs with hs; rw [← hs]; exact hk
        · simp at hs
    | publish i =>
      simp only [step] at hs
      split at hs
      · simp at hs
      · split at hs
        · split at hs <;> injection hs with hs <;> rw [← hs] <;> exact hk
        · simp at hs
  obtain ⟨k, hk, hr⟩ := r.descends (· = .accept a) hf (Sys.rem n a c) (fun k => (r.state k).Reading c) m
    (by
      intro k l hk h1 h2 _ hs
      obtain ⟨x, ha, hx⟩ := (hkept k).acc c a (howner k hk)
      exact rem_step (hinv k) ha (hx.resolve_right h1) hs h2)
    (by
      intro k hk h1
      obtain ⟨x, ha, hx⟩ := (hkept k).acc c a (howner k hk)
      have hx := hx.resolve_right h1
      refine ⟨.accept a, rfl, ?_⟩
      simp only [step, ha]
      cases hpc : x.pc with
      | waiting =>
        cases hq : x.queue with
        | nil => simp [Acc.pending, hpc, hq] at hx
        | cons d rest => rfl
      | announcing d j => simp only; split <;> rfl
      | done => simp [Acc.pending, hpc, ((hkept k).done a x ha hpc).1] at hx)
  obtain ⟨w, hw, h1, h2⟩ := hr
  refine ⟨k, hk, fun j hj => ?_, w, hw, h1, h2⟩
  have := ((hinv k).rd w hw h1).1 j hj
  rwa [h2] at this

/-! ### Example: two connections of a transport that is stopped before they are accepted -/

def demoLabels : List Label := [.arrive 0, .arrive 0, .stop 0] ++ List.replicate 9 (.accept 0)

def demoEnd : Sys := ⟨[⟨[], true, .done⟩], [⟨true, 0, .running⟩, ⟨true, 1, .running⟩], [0, 0],
  [.seen 0 (.new 0), .seen 1 (.new 0), .seen 0 (.new 1), .seen 1 (.new 1)]⟩

example : ∃ r : Run (step 2 none) (init 1), r.Fair (· = .accept 0) ∧ (r.state 3).owner[1]? = some 0 ∧ (r.state 3).log = [] ∧
    ∃ m', 3 ≤ m' ∧ (∀ k, k < 2 → Obs.seen k (.new 1) ∈ (r.state m').log) ∧ ∃ w ∈ (r.state m').workers, w.reader = true ∧ w.conn = 1 := by
  have hf : (Trace.demo demoLabels demoEnd (by decide) : Run (step 2 none) (init 1)).Fair (· = .accept 0) := demo_fair _ _ _ _ (by
    rintro ⟨l, rfl, hs⟩
    simp [step, demoEnd] at hs)
  exact ⟨_, hf, rfl, rfl, c111_announced 1 _ 0 hf 3 1 rfl⟩

end Verif.Conn.Accept
