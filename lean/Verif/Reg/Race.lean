import Verif.Trace

/-!
# Concurrent calls of `acceptEndpoint` (C37)

`acceptEndpoint` (proc_upperdeck.go:31-68) asks `existsEndpoint` (proc_upperdeck.go:18-28), which takes and releases the
lock, and only then takes the lock again and inserts.  Here every caller is a thread with these two steps.  Endpoints are
numbers; `session ep` is `ep.GetSession()`.
-/

namespace Verif.Reg.Race

open Verif.Trace

inductive Th where
  /-- called `acceptEndpoint`, before the check -/
  | called (ep : Nat)
  /-- the check said "not there" -/
  | checked (ep : Nat)
  | returned
  deriving Repr, DecidableEq

/-- between check and insertion -/
def Th.isChecked : Th → Bool
  | .checked _ => true
  | _ => false

structure Sys where
  /-- keys of `ud.endpoints`, in order of insertion -/
  keys : List Nat
  /-- endpoints of the goroutines started -/
  gs : List Nat
  ths : List Th
  deriving Repr, DecidableEq

inductive Label where
  /-- a thread calls `acceptEndpoint(ep)` -/
  | call (ep : Nat)
  /-- thread `i` does `existsEndpoint` -/
  | check (i : Nat)
  /-- thread `i` inserts and starts the goroutine (proc_upperdeck.go:36-47) -/
  | insert (i : Nat)
  deriving Repr, DecidableEq

/-- `ud.endpoints[ep] = …` -/
def put (keys : List Nat) (ep : Nat) : List Nat := if ep ∈ keys then keys else keys ++ [ep]

/-- proc_upperdeck.go:18-28: the endpoint or one with the same session is a key. -/
def exists_ (session : Nat → Int) (keys : List Nat) (ep : Nat) : Bool :=
  keys.any fun k => k == ep || session k == session ep

def step (session : Nat → Int) (s : Sys) : Label → Option Sys
  | .call ep => some { s with ths := s.ths ++ [.called ep] }
  | .check i =>
    match s.ths[i]? with
    | some (.called ep) =>
      if exists_ session s.keys ep then some { s with ths := s.ths.set i .returned }
      else some { s with ths := s.ths.set i (.checked ep) }
    | _ => none
  | .insert i =>
    match s.ths[i]? with
    | some (.checked ep) => some { keys := put s.keys ep, gs := s.gs ++ [ep], ths := s.ths.set i .returned }
    | _ => none

/-- Every caller that passed the check would pass it still. -/
structure Ok (session : Nat → Int) (s : Sys) : Prop where
  keys : s.gs = s.keys
  fresh : ∀ (i a : Nat), s.ths[i]? = some (.checked a) → ∀ k ∈ s.keys, k ≠ a ∧ session k ≠ session a
  distinct : s.gs.Pairwise fun a b => a ≠ b ∧ session a ≠ session b

/-- States in which no two callers are between check and insertion: an execution through such states only. -/
def execSerial (session : Nat → Int) : Sys → List Label → Option Sys
  | s, [] => some s
  | s, l :: ls =>
    match step session s l with
    | some s' => if s'.ths.countP Th.isChecked ≤ 1 then execSerial session s' ls else none
    | none => none

theorem count_le_one {ths : List Th} (h : ths.countP Th.isChecked ≤ 1) :
    ∀ (i j a b : Nat), ths[i]? = some (.checked a) → ths[j]? = some (.checked b) → i = j := by
  induction ths with
  | nil => intro i j a b h; simp at h
  | cons t ths ih =>
    have tail0 : t.isChecked = true → ∀ (i a : Nat), ths[i]? ≠ some (.checked a) := by
      intro ht i a hi
      rw [List.countP_cons_of_pos ht] at h
      have h0 : ths.countP Th.isChecked = 0 := by omega
      have := List.countP_eq_zero.mp h0 _ (List.mem_of_getElem? hi)
      simp [Th.isChecked] at this
    intro i j a b hi hj
    cases i with
    | zero =>
      simp only [List.getElem?_cons_zero, Option.some.injEq] at hi
      cases j with
      | zero => rfl
      | succ j => rw [List.getElem?_cons_succ] at hj; exact absurd hj (tail0 (by rw [hi]; rfl) j b)
    | succ i =>
      rw [List.getElem?_cons_succ] at hi
      cases j with
      | zero =>
        simp only [List.getElem?_cons_zero, Option.some.injEq] at hj
        exact absurd hi (tail0 (by rw [hj]; rfl) i a)
      | succ j =>
        rw [List.getElem?_cons_succ] at hj
        have hc : ths.countP Th.isChecked ≤ 1 := by
          rw [List.countP_cons] at h; omega
        rw [ih hc i j a b hi hj]

theorem ok_step {session : Nat → Int} {s s' : Sys} {l : Label} (h : Ok session s) (hc : s.ths.countP Th.isChecked ≤ 1)
    (hs : step session s l = some s') : Ok session s' := by
  cases l with
  | call ep =>
    injection hs with hs
    subst hs
    refine ⟨h.keys, ?_, h.distinct⟩
    intro i a hi
    by_cases hlt : i < s.ths.length
    · rw [List.getElem?_append_left hlt] at hi; exact h.fresh i a hi
    · rw [List.getElem?_append_right (Nat.le_of_not_lt hlt)] at hi
      cases hk : i - s.ths.length with
      | zero => rw [hk] at hi; simp at hi
      | succ k => rw [hk] at hi; simp at hi
  | check i =>
    simp only [step] at hs
    split at hs
    · rename_i ep hep
      split at hs
      · injection hs with hs; subst hs
        refine ⟨h.keys, ?_, h.distinct⟩
        intro j a hj
        rw [List.getElem?_set] at hj
        split at hj
        · split at hj <;> simp at hj
        · exact h.fresh j a hj
      · rename_i hex
        injection hs with hs; subst hs
        refine ⟨h.keys, ?_, h.distinct⟩
        intro j a hj
        rw [List.getElem?_set] at hj
        split at hj
        · split at hj
          · simp only [Option.some.injEq, Th.checked.injEq] at hj
            subst hj
            intro k hk
            have hex' : ¬ exists_ session s.keys ep = true := hex
            rw [exists_, List.any_eq_true] at hex'
            constructor
            · intro he; exact hex' ⟨k, hk, by simp [he]⟩
            · intro he; exact hex' ⟨k, hk, by simp [he]⟩
          · simp at hj
        · exact h.fresh j a hj
    · simp at hs
  | insert i =>
    simp only [step] at hs
    split at hs
    · rename_i ep hep
      injection hs with hs; subst hs
      have hfr := h.fresh i ep hep
      have hput : put s.keys ep = s.keys ++ [ep] := by
        rw [put, if_neg]
        intro hm; exact (hfr ep hm).1 rfl
      refine ⟨by rw [hput, h.keys], ?_, ?_⟩
      · intro j a hj
        rw [List.getElem?_set] at hj
        split at hj
        · split at hj <;> simp at hj
        · rename_i hne
          exact absurd (count_le_one hc i j ep a hep hj) hne
      · show (s.gs ++ [ep]).Pairwise _
        rw [List.pairwise_append]
        refine ⟨h.distinct, by simp, ?_⟩
        intro a ha b hb
        rw [List.mem_singleton] at hb
        subst hb
        rw [h.keys] at ha
        exact hfr a ha
    · simp at hs

/-- C37, part, for concurrent callers: if callers never overlap between check and insertion, the goroutines serve
different endpoints with different sessions.  Missing: overlapping callers, for which it fails
(`c37_race_violated`). -/
theorem c37_serial_partial (session : Nat → Int) (ls : List Label) : ∀ (s s' : Sys), Ok session s →
    s.ths.countP Th.isChecked ≤ 1 → execSerial session s ls = some s' →
    s'.gs.Pairwise fun a b => a ≠ b ∧ session a ≠ session b := by
  induction ls with
  | nil => intro s s' h _ he; injection he with he; subst he; exact h.distinct
  | cons l ls ih =>
    intro s s' h hc he
    simp only [execSerial] at he
    split at he
    · rename_i m hm
      split at he
      · rename_i hc'
        exact ih m s' (ok_step h hc hm) hc' he
      · simp at he
    · simp at he

theorem ok_init (session : Nat → Int) : Ok session ⟨[], [], []⟩ := ⟨rfl, by simp, by simp⟩

/-- Three callers one after the other, two of them with the same session. -/
example : execSerial (fun ep => if ep = 3 then 2 else 1) ⟨[], [], []⟩ [.call 1, .call 2, .check 0, .insert 0, .check 1, .call 3, .check 2, .insert 2]
    = some ⟨[1, 3], [1, 3], [.returned, .returned, .returned]⟩ := by decide

/-! ## Overlapping callers -/

/-- All call, all check, all insert. -/
def raceLabels (eps : List Nat) : List Label :=
  eps.map .call ++ (List.range eps.length).map .check ++ (List.range eps.length).map .insert

theorem exec_calls (session : Nat → Int) (eps : List Nat) : ∀ s : Sys, exec (step session) s (eps.map .call) =
    some { s with ths := s.ths ++ eps.map .called } := by
  induction eps with
  | nil => intro s; simp [exec]
  | cons e eps ih => intro s; simp only [List.map_cons, exec, step, Option.bind_some]; rw [ih]; simp

theorem exec_checks (session : Nat → Int) (eps : List Nat) : ∀ (n : Nat) (pre : List Th), pre.length = n →
    exec (step session) ⟨[], [], pre ++ eps.map .called⟩ ((List.range' n eps.length).map .check) = some ⟨[], [], pre ++ eps.map .checked⟩ := by
  induction eps with
  | nil => intro n pre _; rfl
  | cons e eps ih =>
    intro n pre hn
    have h1 : step session ⟨[], [], pre ++ (e :: eps).map .called⟩ (.check n) = some ⟨[], [], (pre ++ [.checked e]) ++ eps.map .called⟩ := by
      subst hn
      simp [step, exists_]
    simp only [List.length_cons, List.range'_succ, List.map_cons, exec]
    rw [← List.map_cons, h1, Option.bind_some, ih (n + 1) (pre ++ [Th.checked e]) (by simp [hn])]
    simp

theorem exec_inserts (session : Nat → Int) (eps : List Nat) : ∀ (n : Nat) (pre : List Th) (keys gs : List Nat), pre.length = n →
    ∃ keys' ths', exec (step session) ⟨keys, gs, pre ++ eps.map .checked⟩ ((List.range' n eps.length).map .insert) = some ⟨keys', gs ++ eps, ths'⟩ := by
  induction eps with
  | nil => intro n pre keys gs _; exact ⟨keys, pre, by simp [exec]⟩
  | cons e eps ih =>
    intro n pre keys gs hn
    have h1 : step session ⟨keys, gs, pre ++ (e :: eps).map .checked⟩ (.insert n) =
        some ⟨put keys e, gs ++ [e], (pre ++ [.returned]) ++ eps.map .checked⟩ := by
      subst hn
      simp [step]
    obtain ⟨k, t, h2⟩ := ih (n + 1) (pre ++ [.returned]) (put keys e) (gs ++ [e]) (by simp [hn])
    refine ⟨k, t, ?_⟩
    simp only [List.length_cons, List.range'_succ, List.map_cons, exec]
    rw [← List.map_cons, h1, Option.bind_some, h2]
    simp

/-- C37 fails for concurrent callers: for every list of endpoints (whatever their sessions, repetitions allowed) there is a
schedule of concurrent calls after which each of them is served, repeated ones repeatedly. -/
theorem c37_race_violated (session : Nat → Int) (eps : List Nat) : ∃ ls s, exec (step session) ⟨[], [], []⟩ ls = some s ∧ s.gs = eps := by
  obtain ⟨k, t, h⟩ := exec_inserts session eps 0 [] [] [] rfl
  refine ⟨raceLabels eps, ⟨k, eps, t⟩, ?_, rfl⟩
  rw [raceLabels, exec_append, exec_append, exec_calls, Option.bind_some, List.range_eq_range']
  rw [exec_checks session eps 0 [] rfl, Option.bind_some]
  rw [h]
  simp

end Verif.Reg.Race
