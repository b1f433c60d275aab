import Verif.Trace

/-!
# TCP and Unix socket transports (C56, C57)

tran_tcp.go and tran_unix.go have the same code but for `saveConnection`, which ignores nil only in tran_unix.go:143-145 (`guard`), and for
the removal of the socket file, which is not modelled.

One transport with fixed options; any number of calls of `Run`, `Stop` and `NextConnection` by any number of goroutines, together with
the goroutines `accept`/`connect` started by `Run`.  `Run`, `Stop` and `saveConnection` hold the lock of the transport and are one step each.
`accept`/`connect` read `t.listener` and `t.next` without the lock; each such access is a step of its own.  Results of the
network (`listen`, `Accept`, `Dial`) are chosen by the label.  A step that is not possible (`none`) is a call that waits.  After a crash nothing happens any more.
-/

namespace Verif.Conn.Stream

open Verif.Trace

inductive Crash where
  /-- `t.next <- …` after `close(t.next)` -/
  | sendOnClosed
  /-- `t.listener.Accept()` with `t.listener == nil` -/
  | nilListener
  /-- `c.Close()` with a nil connection -/
  | nilConnection
  /-- `close` of a nil or closed channel -/
  | badClose
  /-- `log.Fatal` -/
  | fatal
  deriving Repr, DecidableEq

/-- Where an `accept` (tran_tcp.go:161-183) or `connect` (tran_tcp.go:186-207) goroutine is. -/
inductive Go where
  | listen
  | loop
  | accepting (l : Nat)
  /-- has a connection, about to evaluate `t.next`; `again`: this is `accept` -/
  | prep (c : Nat) (again : Bool)
  /-- sending on channel `k` -/
  | push (k c : Nat) (again : Bool)
  | dial (i : Nat)
  | stopping
  | done
  deriving Repr, DecidableEq

/-- Where a call of `NextConnection` (tran_tcp.go:246-250) is. -/
inductive Caller where
  | waiting (k : Option Nat)
  | got (r : Option Nat)
  | returned (r : Option Nat)
  deriving Repr, DecidableEq

structure Chan where
  buf : List Nat
  closed : Bool
  deriving Repr, DecidableEq

/-- What can be observed. -/
inductive Ev where
  | dial (j : Nat) (ok : Bool)
  | sent (j : Nat) (c : Nat)
  | returned (r : Option Nat)
  deriving Repr, DecidableEq

structure Conf where
  guard : Bool
  forServer : Bool
  maxRetryCount : Int

structure Sys where
  conf : Conf
  isRunning : Bool
  /-- `t.next`, an index into `chans` -/
  next : Option Nat
  chans : List Chan
  /-- `t.connections` -/
  saved : List (Option Nat)
  /-- number of connections made so far -/
  cons : Nat
  closedCons : List Nat
  listener : Option Nat
  listeners : Nat
  closedListeners : List Nat
  gos : List Go
  callers : List Caller
  log : List Ev
  crash : Option Crash

/-- `Stop` (tran_tcp.go:275-295) -/
def stop (s : Sys) : Sys :=
  if s.isRunning = false then s
  else
    let s := match s.listener with
      | some l => { s with closedListeners := s.closedListeners ++ [l], listener := none }
      | none => s
    match s.next.bind fun k => s.chans[k]?.map fun ch => (k, ch) with
    | none => { s with crash := some .badClose }
    | some (k, ch) =>
      if ch.closed then { s with crash := some .badClose }
      else
        let s := { s with chans := s.chans.set k { ch with closed := true } }
        -- dropConnections (tran_tcp.go:154-158)
        if none ∈ s.saved then { s with crash := some .nilConnection }
        else { s with closedCons := s.closedCons ++ s.saved.filterMap id, isRunning := false }

/-- `Run` (tran_tcp.go:253-272) -/
def run (s : Sys) : Sys :=
  if s.isRunning then s
  else
    { s with
      isRunning := true
      saved := []
      next := some s.chans.length
      chans := s.chans ++ [⟨[], false⟩]
      gos := s.gos ++ [if s.conf.forServer then .listen else .dial 0] }

/-- `saveConnection` (tran_tcp.go:141-151, tran_unix.go:142-156) -/
def save (s : Sys) (r : Option Nat) : Sys :=
  if s.conf.guard ∧ r = none then s
  else if r ∈ s.saved then s
  else { s with saved := s.saved ++ [r] }

def Sys.setGo (s : Sys) (j : Nat) (g : Go) : Sys := { s with gos := s.gos.set j g }

/-- The capacity of `next` (tran_tcp.go:137). -/
def nextCap : Nat := 16

/-- One step of goroutine `j`; `ok` is the result of the network call, if there is one. -/
def goStep (s : Sys) (j : Nat) (ok : Bool) : Option Sys :=
  match s.gos[j]? with
  | none => none
  | some .listen =>
    if ok then some { s.setGo j .loop with listener := some s.listeners, listeners := s.listeners + 1 }
    else some { s with crash := some .fatal }
  | some .loop =>
    match s.listener with
    | none => some { s with crash := some .nilListener }
    | some l => some (s.setGo j (.accepting l))
  | some (.accepting l) =>
    if ok then
      if l ∈ s.closedListeners then none
      else some { s.setGo j (.prep s.cons true) with cons := s.cons + 1 }
    else some (s.setGo j .stopping)
  | some (.prep c again) =>
    match s.next with
    | none => none
    | some k => some (s.setGo j (.push k c again))
  | some (.push k c again) =>
    match s.chans[k]? with
    | none => none
    | some ch =>
      if ch.closed then some { s with crash := some .sendOnClosed }
      else if ch.buf.length < nextCap then
        some { s.setGo j (if again then .loop else .done) with
          chans := s.chans.set k { ch with buf := ch.buf ++ [c] }
          log := s.log ++ [.sent j c] }
      else none
  | some (.dial i) =>
    if (i : Int) < s.conf.maxRetryCount then
      if ok then some { s.setGo j (.prep s.cons false) with cons := s.cons + 1, log := s.log ++ [.dial j true] }
      else some { s.setGo j (.dial (i + 1)) with log := s.log ++ [.dial j false] }
    else some (s.setGo j .stopping)
  | some .stopping => some (stop (s.setGo j .done))
  | some .done => none

inductive Label where
  | run
  | stop
  /-- a call of `NextConnection` -/
  | call
  /-- call `i` receives from its channel -/
  | recv (i : Nat)
  /-- call `i` saves and returns -/
  | save (i : Nat)
  /-- somebody closes a connection -/
  | close (c : Nat)
  | go (j : Nat) (ok : Bool)
  deriving Repr, DecidableEq

def act (s : Sys) : Label → Option Sys
  | .run => some (run s)
  | .stop => some (stop s)
  | .call => some { s with callers := s.callers ++ [.waiting s.next] }
  | .recv i =>
    match s.callers[i]? with
    | some (.waiting (some k)) =>
      match s.chans[k]? with
      | none => none
      | some ch =>
        match ch.buf with
        | c :: rest => some { s with chans := s.chans.set k { ch with buf := rest }, callers := s.callers.set i (.got (some c)) }
        | [] => if ch.closed then some { s with callers := s.callers.set i (.got none) } else none
    | _ => none
  | .save i =>
    match s.callers[i]? with
    | some (.got r) => some { save s r with callers := s.callers.set i (.returned r), log := s.log ++ [.returned r] }
    | _ => none
  | .close c => some { s with closedCons := s.closedCons ++ [c] }
  | .go j ok => goStep s j ok

def step (s : Sys) (l : Label) : Option Sys := if s.crash = none then act s l else none

abbrev exec := Trace.exec step

def init (conf : Conf) : Sys := ⟨conf, false, none, [], [], 0, [], none, 0, [], [], [], [], none⟩

/-! ## Channels -/

/-- While the transport runs, `t.next` is the last channel made and is open; every other channel is closed. -/
structure Wf (s : Sys) : Prop where
  last : s.next = if s.chans.length = 0 then none else some (s.chans.length - 1)
  running : s.isRunning = true → 0 < s.chans.length
  closed : ∀ k ch, s.chans[k]? = some ch → ch.closed = !(s.isRunning && (k + 1 == s.chans.length))

/-- Only the channels, `t.next` and the flag matter. -/
theorem Wf.same {s s' : Sys} (h : Wf s) (h1 : s'.next = s.next) (h2 : s'.chans = s.chans) (h3 : s'.isRunning = s.isRunning) : Wf s' :=
  ⟨by rw [h1, h2]; exact h.last, by rw [h2, h3]; exact h.running, by rw [h2, h3]; exact h.closed⟩

/-- Changing the content of a channel. -/
theorem Wf.buf {s s' : Sys} (h : Wf s) (k : Nat) (ch : Chan) (b : List Nat) (hk : s.chans[k]? = some ch) (h1 : s'.next = s.next)
    (h2 : s'.chans = s.chans.set k { ch with buf := b }) (h3 : s'.isRunning = s.isRunning) : Wf s' := by
  constructor
  · rw [h1, h2, List.length_set]; exact h.last
  · rw [h2, h3, List.length_set]; exact h.running
  · intro j x hj
    rw [h3, h2, List.length_set]
    rw [h2, List.getElem?_set] at hj
    split at hj
    · rename_i e
      subst e
      split at hj
      · injection hj with hj; subst hj; exact h.closed k ch hk
      · simp at hj
    · exact h.closed j x hj

/-- `Stop` of a running transport, if it does not crash. -/
theorem stop_running {s : Sys} (h : Wf s) (hr : s.isRunning = true) : ∃ ch, s.chans[s.chans.length - 1]? = some ch ∧ ch.closed = false ∧
    stop s =
      let s := match s.listener with
        | some l => { s with closedListeners := s.closedListeners ++ [l], listener := none }
        | none => s
      let s := { s with chans := s.chans.set (s.chans.length - 1) { ch with closed := true } }
      if none ∈ s.saved then { s with crash := some .nilConnection }
      else { s with closedCons := s.closedCons ++ s.saved.filterMap id, isRunning := false } := by
  have hlen := h.running hr
  have hlt : s.chans.length - 1 < s.chans.length := by omega
  have hk : s.chans[s.chans.length - 1]? = some s.chans[s.chans.length - 1] := by simp [hlt]
  have hc : s.chans[s.chans.length - 1].closed = false := by
    rw [h.closed _ _ hk, hr]
    simp only [Bool.true_and, Bool.not_eq_false']
    rw [beq_iff_eq]
    omega
  refine ⟨_, hk, hc, ?_⟩
  have hn : s.next = some (s.chans.length - 1) := by rw [h.last, if_neg (by omega)]
  unfold stop
  rw [if_neg (by rw [hr]; simp)]
  cases hl : s.listener <;> simp only [hn, hk, Option.bind_some, Option.map_some, hc, Bool.false_eq_true, if_false]

theorem wf_stop {s : Sys} (h : Wf s) (hn : (stop s).crash = none) : Wf (stop s) := by
  by_cases hr : s.isRunning = true
  · obtain ⟨ch, hk, hc, he⟩ := stop_running h hr
    have hlen := h.running hr
    rw [he] at hn ⊢
    cases hl : s.listener <;> simp only [hl] at hn ⊢ <;>
    · split at hn
      · simp at hn
      · rename_i hs
        rw [if_neg hs]
        constructor
        · simp only [List.length_set]; exact h.last
        · simp
        · intro j x hj
          simp only [List.length_set, List.getElem?_set, Bool.false_and, Bool.not_false] at hj ⊢
          split at hj
          · split at hj
            · injection hj with hj; subst hj; rfl
            · simp at hj
          · rename_i hne
            have hlt := (List.getElem?_eq_some_iff.mp hj).1
            rw [h.closed j x hj, hr]
            simp only [Bool.true_and, Bool.not_eq_true']
            rw [beq_eq_false_iff_ne]
            omega
  · rw [stop, if_pos (by simpa using hr)]
    exact h

theorem wf_run {s : Sys} (h : Wf s) : Wf (run s) := by
  unfold run
  by_cases hr : s.isRunning = true
  · rw [if_pos hr]; exact h
  · rw [if_neg hr]
    constructor
    · simp
    · simp
    · intro j x hj
      simp only [Bool.true_and, List.length_append, List.length_cons, List.length_nil] at hj ⊢
      by_cases hlt : j < s.chans.length
      · rw [List.getElem?_append_left hlt] at hj
        rw [h.closed j x hj]
        simp only [Bool.not_eq_true] at hr
        rw [hr]
        simp only [Bool.false_and, Bool.not_false]
        rw [eq_comm, Bool.not_eq_true', beq_eq_false_iff_ne]
        omega
      · rw [List.getElem?_append_right (Nat.le_of_not_lt hlt)] at hj
        have hj0 : j - s.chans.length = 0 := by
          cases hz : j - s.chans.length with
          | zero => rfl
          | succ z => rw [hz] at hj; simp at hj
        rw [hj0] at hj
        simp only [List.getElem?_cons_zero, Option.some.injEq] at hj
        subst hj
        have : j = s.chans.length := by omega
        subst this
        simp

theorem save_next (s : Sys) (r : Option Nat) : (save s r).next = s.next ∧ (save s r).chans = s.chans ∧ (save s r).isRunning = s.isRunning ∧
    (save s r).conf = s.conf ∧ (save s r).closedCons = s.closedCons ∧ (save s r).gos = s.gos ∧ (save s r).log = s.log ∧ (save s r).crash = s.crash := by
  unfold save
  split
  · exact ⟨rfl, rfl, rfl, rfl, rfl, rfl, rfl, rfl⟩
  · split <;> exact ⟨rfl, rfl, rfl, rfl, rfl, rfl, rfl, rfl⟩

/-- A goroutine's step leaves the channels well-formed. -/
theorem wf_go {s s' : Sys} {j : Nat} {ok : Bool} (h : Wf s) (hs : goStep s j ok = some s') (hn : s'.crash = none) : Wf s' := by
  simp only [goStep] at hs
  split at hs
  · simp at hs
  · split at hs <;> injection hs with hs <;> subst hs <;> exact h.same rfl rfl rfl
  · split at hs <;> injection hs with hs <;> subst hs <;> exact h.same rfl rfl rfl
  · split at hs
    · split at hs
      · simp at hs
      · injection hs with hs; subst hs; exact h.same rfl rfl rfl
    · injection hs with hs; subst hs; exact h.same rfl rfl rfl
  · split at hs
    · simp at hs
    · injection hs with hs; subst hs; exact h.same rfl rfl rfl
  · split at hs
    · simp at hs
    · rename_i ch hk
      split at hs
      · injection hs with hs; subst hs; exact h.same rfl rfl rfl
      · split at hs
        · injection hs with hs; subst hs; exact h.buf _ ch _ hk rfl rfl rfl
        · simp at hs
  · split at hs
    · split at hs <;> injection hs with hs <;> subst hs <;> exact h.same rfl rfl rfl
    · injection hs with hs; subst hs; exact h.same rfl rfl rfl
  · injection hs with hs; subst hs
    exact wf_stop (h.same rfl rfl rfl) hn
  · simp at hs

/-- Every reachable state that has not crashed is well-formed. -/
theorem wf_step {s s' : Sys} {l : Label} (h : Wf s) (hs : step s l = some s') (hn : s'.crash = none) : Wf s' := by
  simp only [step] at hs
  split at hs
  · cases l with
    | run => injection hs with hs; subst hs; exact wf_run h
    | stop => injection hs with hs; subst hs; exact wf_stop h hn
    | call => injection hs with hs; subst hs; exact h.same rfl rfl rfl
    | recv i =>
      simp only [act] at hs
      split at hs
      · split at hs
        · simp at hs
        · rename_i ch hk
          split at hs
          · injection hs with hs; subst hs; exact h.buf _ ch _ hk rfl rfl rfl
          · split at hs
            · injection hs with hs; subst hs; exact h.same rfl rfl rfl
            · simp at hs
      · simp at hs
    | save i =>
      simp only [act] at hs
      split at hs
      · rename_i r _
        injection hs with hs; subst hs
        obtain ⟨h1, h2, h3, _⟩ := save_next s r
        exact h.same h1 h2 h3
      · simp at hs
    | close c => injection hs with hs; subst hs; exact h.same rfl rfl rfl
    | go j ok => exact wf_go h hs hn
  · simp at hs

theorem wf_init (conf : Conf) : Wf (init conf) := ⟨rfl, by simp [init], by intro k ch hk; simp [init] at hk⟩

theorem wf_exec (conf : Conf) (ls : List Label) (s : Sys) (h : exec (init conf) ls = some s) (hn : s.crash = none) : Wf s := by
  have : s.crash = none → Wf s := by
    refine invariant (step := step) (Q := fun _ => True) (P := fun s => s.crash = none → Wf s) ?_ ls (init conf) s (fun _ => wf_init conf) (fun _ _ => trivial) h
    intro s l s' hp _ hs hn
    refine wf_step (hp ?_) hs hn
    simp only [step] at hs
    split at hs
    · rename_i e; exact e
    · simp at hs
  exact this hn

/-! ## C57 -/

theorem conf_step {s s' : Sys} {l : Label} (hs : step s l = some s') : s'.conf = s.conf := by
  have hstop : ∀ x : Sys, (stop x).conf = x.conf := by
    intro x
    unfold stop
    split
    · rfl
    · cases x.listener <;> simp only <;> repeat' split
      all_goals rfl
  simp only [step] at hs
  split at hs
  · cases l with
    | run => injection hs with hs; subst hs; unfold run; split <;> rfl
    | stop => injection hs with hs; subst hs; exact hstop s
    | call => injection hs with hs; subst hs; rfl
    | recv i =>
      simp only [act] at hs
      repeat' split at hs
      all_goals first | (injection hs with hs; subst hs; rfl) | simp at hs
    | save i =>
      simp only [act] at hs
      split at hs
      · injection hs with hs; subst hs; exact (save_next _ _).2.2.2.1
      · simp at hs
    | close c => injection hs with hs; subst hs; rfl
    | go j ok =>
      simp only [act, goStep] at hs
      repeat' split at hs
      all_goals first | (injection hs with hs; subst hs; first | rfl | exact hstop _) | simp at hs
  · simp at hs

theorem saved_stop (s : Sys) : (stop s).saved = s.saved := by
  unfold stop
  split
  · rfl
  · cases s.listener <;> simp only <;> repeat' split
    all_goals rfl

/-- With the test of tran_unix.go:143-145, nil is never saved. -/
theorem no_nil_saved (conf : Conf) (hg : conf.guard = true) (ls : List Label) (s : Sys) (h : exec (init conf) ls = some s) : none ∉ s.saved := by
  have key : s.conf.guard = true ∧ none ∉ s.saved := by
    refine invariant (step := step) (Q := fun _ => True) (P := fun s => s.conf.guard = true ∧ none ∉ s.saved) ?_ ls (init conf) s ⟨hg, by simp [init]⟩
      (fun _ _ => trivial) h
    rintro s l s' ⟨hg, hn⟩ _ hs
    refine ⟨by rw [conf_step hs]; exact hg, ?_⟩
    simp only [step] at hs
    split at hs
    · cases l with
      | run =>
        injection hs with hs; subst hs
        unfold run
        split
        · exact hn
        · simp
      | stop => injection hs with hs; subst hs; rw [saved_stop]; exact hn
      | call => injection hs with hs; subst hs; exact hn
      | recv i =>
        simp only [act] at hs
        repeat' split at hs
        all_goals first | (injection hs with hs; subst hs; exact hn) | simp at hs
      | save i =>
        simp only [act] at hs
        split at hs
        · rename_i r _
          injection hs with hs; subst hs
          simp only [save]
          split
          · exact hn
          · split
            · exact hn
            · rename_i h1 _
              simp only [List.mem_append, List.mem_singleton]
              rintro (h | h)
              · exact hn h
              · exact h1 ⟨hg, h.symm⟩
        · simp at hs
      | close c => injection hs with hs; subst hs; exact hn
      | go j ok =>
        simp only [act, goStep] at hs
        repeat' split at hs
        all_goals first | (injection hs with hs; subst hs; first | exact hn | (rw [saved_stop]; exact hn)) | simp at hs
    · simp at hs
  exact key.2

/-- What `Stop` does, independently of how: the transport is not running, its channel is closed, the listener is closed and forgotten, every saved
connection is closed; nothing else changes. -/
theorem c57_stop_partial (conf : Conf) (ls : List Label) (s : Sys) (h : exec (init conf) ls = some s) (hc : s.crash = none)
    (hnil : conf.guard = true ∨ none ∉ s.saved) :
    ∃ s' : Sys, step s .stop = some s' ∧ s'.crash = none ∧ s'.isRunning = false ∧ (∀ (k : Nat) (ch : Chan), s'.chans[k]? = some ch → ch.closed = true) ∧
      (s.isRunning = true → (∀ c, some c ∈ s.saved → c ∈ s'.closedCons) ∧ s'.listener = none ∧ ∀ l, s.listener = some l → l ∈ s'.closedListeners) ∧
      (∀ c, c ∈ s'.closedCons → c ∈ s.closedCons ∨ some c ∈ s.saved) ∧ s'.gos = s.gos ∧ s'.callers = s.callers ∧ s'.log = s.log ∧
      step s' .stop = some s' := by
  have hw := wf_exec conf ls s h hc
  have hns : none ∉ s.saved := hnil.elim (fun hg => no_nil_saved conf hg ls s h) id
  have hst : step s .stop = some (stop s) := by simp [step, hc, act]
  by_cases hr : s.isRunning = true
  · have hfin : ∃ s', stop s = s' ∧ s'.crash = none ∧ s'.isRunning = false ∧
        ((∀ c, some c ∈ s.saved → c ∈ s'.closedCons) ∧ s'.listener = none ∧ ∀ l, s.listener = some l → l ∈ s'.closedListeners) ∧
        (∀ c, c ∈ s'.closedCons → c ∈ s.closedCons ∨ some c ∈ s.saved) ∧ s'.gos = s.gos ∧ s'.callers = s.callers ∧ s'.log = s.log := by
      obtain ⟨ch, hk, hcl, he⟩ := stop_running hw hr
      rw [he]
      cases hl : s.listener <;> simp only [if_neg hns] <;>
        refine ⟨_, rfl, hc, rfl, ⟨?_, ?_, ?_⟩, ?_, rfl, rfl, rfl⟩ <;> simp_all
    obtain ⟨s', he, h1, h2, h3, h4, h5, h6, h7⟩ := hfin
    have hw' : Wf s' := by rw [← he]; exact wf_stop hw (by rw [he]; exact h1)
    refine ⟨s', by rw [hst, he], h1, h2, ?_, fun _ => h3, h4, h5, h6, h7, ?_⟩
    · intro k ch hk
      rw [hw'.closed k ch hk, h2]
      rfl
    · simp [step, h1, act, stop, h2]
  · have he : stop s = s := by rw [stop, if_pos (by simpa using hr)]
    rw [he] at hst
    refine ⟨s, hst, hc, by simpa using hr, ?_, fun h => absurd h hr, fun c h => Or.inl h, rfl, rfl, rfl, hst⟩
    intro k ch hk
    rw [hw.closed k ch hk]
    simp [hr]

/-- `Run` on a running transport is a no-op. -/
theorem c57_run_noop (s : Sys) (hc : s.crash = none) (hr : s.isRunning = true) : step s .run = some s := by simp [step, hc, act, run, hr]

/-- `Run` on a transport that is not running makes it run, with a fresh open channel and one more goroutine. -/
theorem c57_run (s : Sys) (hc : s.crash = none) (hr : s.isRunning = false) : ∃ s', step s .run = some s' ∧ s'.crash = none ∧ s'.isRunning = true ∧
    (∃ k, s'.next = some k ∧ s'.chans[k]? = some ⟨[], false⟩ ∧ s.chans.length = k) ∧ s'.gos.length = s.gos.length + 1 := by
  simp only [step, hc, if_true, act, run, hr, Bool.false_eq_true, if_false]
  exact ⟨_, rfl, rfl, rfl, ⟨_, rfl, by simp, rfl⟩, by simp⟩

/-- On a stopped transport nobody waits for ever in `NextConnection`, unless the call was made before the first `Run`: it gets a connection that was left in
the channel, or else nil. -/
theorem c57_unblocked_partial (conf : Conf) (ls : List Label) (s : Sys) (h : exec (init conf) ls = some s) (hc : s.crash = none) (hr : s.isRunning = false)
    (i k : Nat) (hi : s.callers[i]? = some (.waiting (some k))) (hk : k < s.chans.length) :
    ∃ s', step s (.recv i) = some s' ∧
      ((∃ c ch, s.chans[k]? = some ch ∧ ch.buf.head? = some c ∧ s'.callers[i]? = some (.got (some c))) ∨
       (∃ ch, s.chans[k]? = some ch ∧ ch.buf = [] ∧ s'.callers[i]? = some (.got none))) := by
  have hw := wf_exec conf ls s h hc
  have hil := (List.getElem?_eq_some_iff.mp hi).1
  have hkk : s.chans[k]? = some s.chans[k] := by simp [hk]
  have hcl := hw.closed k _ hkk
  rw [hr] at hcl
  simp only [Bool.false_and, Bool.not_false] at hcl
  simp only [step, hc, if_true, act, hi, hkk]
  cases hb : s.chans[k].buf with
  | nil =>
    simp only [hcl, if_true]
    exact ⟨_, rfl, .inr ⟨_, rfl, hb, by simp [List.getElem?_set_self hil]⟩⟩
  | cons c rest =>
    exact ⟨_, rfl, .inl ⟨c, _, rfl, by rw [hb]; rfl, by simp [List.getElem?_set_self hil]⟩⟩

/-- `NextConnection` called on a stopped transport returns nil at once if no connection was left in the channel. -/
theorem c57_nil_partial (conf : Conf) (ls : List Label) (s : Sys) (h : exec (init conf) ls = some s) (hc : s.crash = none) (hr : s.isRunning = false)
    (k : Nat) (ch : Chan) (hn : s.next = some k) (hk : s.chans[k]? = some ch) (hb : ch.buf = []) :
    ∃ s', exec s [.call, .recv s.callers.length, .save s.callers.length] = some s' ∧ s'.log = s.log ++ [.returned none] ∧ s'.crash = none := by
  have hw := wf_exec conf ls s h hc
  have hcl := hw.closed k _ hk
  rw [hr] at hcl
  simp only [Bool.false_and, Bool.not_false] at hcl
  simp only [exec, Trace.exec, step, hc, if_true, act, Option.bind_some, hn, hk, hb, hcl, List.getElem?_append_right (Nat.le_refl _), Nat.sub_self,
    List.getElem?_cons_zero]
  rw [List.getElem?_set_self (by simp)]
  exact ⟨_, rfl, rfl, (save_next _ _).2.2.2.2.2.2.2⟩

/-- The step without the race of `c57_open_after_stop_violated`: no connection is saved while the transport is stopped. -/
def calmStep (s : Sys) (l : Label) : Option Sys :=
  match l with
  | .save i =>
    match s.callers[i]? with
    | some (.got (some _)) => if s.isRunning then step s l else none
    | _ => step s l
  | _ => step s l

theorem calm_step {s s' : Sys} {l : Label} (h : calmStep s l = some s') : step s l = some s' := by
  unfold calmStep at h
  split at h
  · split at h
    · split at h
      · exact h
      · simp at h
    · exact h
  · exact h

/-- All connections handed out are closed, or saved in a running transport. -/
def Kept (s : Sys) : Prop := ∀ c, .returned (some c) ∈ s.log → c ∈ s.closedCons ∨ (s.isRunning = true ∧ some c ∈ s.saved)

theorem kept_stop {s : Sys} (h : Kept s) (hw : Wf s) (hn : (stop s).crash = none) : Kept (stop s) := by
  by_cases hr : s.isRunning = true
  · obtain ⟨ch, hk, hcl, he⟩ := stop_running hw hr
    rw [he] at hn ⊢
    intro c hcl
    cases hl : s.listener <;> simp only [hl] at hn hcl ⊢ <;>
    · split at hn
      · simp at hn
      · rename_i hs
        rw [if_neg hs] at hcl ⊢
        rcases h c hcl with h | ⟨_, h⟩
        · exact .inl (List.mem_append_left _ h)
        · refine .inl (List.mem_append_right _ ?_)
          simp only [List.mem_filterMap]
          exact ⟨some c, h, rfl⟩
  · rw [stop, if_pos (by simpa using hr)]
    exact h

theorem Kept.same {s s' : Sys} (h : Kept s) (h1 : s'.log = s.log) (h2 : s'.isRunning = s.isRunning) (h3 : s'.saved = s.saved) (h4 : s'.closedCons = s.closedCons) :
    Kept s' := by
  intro c hc
  rw [h1] at hc
  rw [h2, h3, h4]
  exact h c hc

theorem Kept.more {s s' : Sys} (h : Kept s) (es : List Ev) (hes : ∀ c, Ev.returned (some c) ∉ es) (h1 : s'.log = s.log ++ es) (h2 : s'.isRunning = s.isRunning)
    (h3 : s'.saved = s.saved) (h4 : s'.closedCons = s.closedCons) : Kept s' := by
  intro c hc
  rw [h1, List.mem_append] at hc
  rw [h2, h3, h4]
  exact hc.elim (h c) (fun hc => absurd hc (hes c))

theorem kept_step {s s' : Sys} {l : Label} (hw : Wf s) (h : Kept s) (hs : calmStep s l = some s') (hn : s'.crash = none) : Kept s' := by
  have hst := calm_step hs
  simp only [step] at hst
  split at hst
  · cases l with
    | run =>
      injection hst with hst; subst hst
      unfold run
      split
      · exact h
      · rename_i hr
        intro c hc
        exact (h c hc).elim .inl (fun h => absurd h.1 hr)
    | stop => injection hst with hst; subst hst; exact kept_stop h hw hn
    | call => injection hst with hst; subst hst; exact h.same rfl rfl rfl rfl
    | recv i =>
      simp only [act] at hst
      repeat' split at hst
      all_goals first | (injection hst with hst; subst hst; exact h.same rfl rfl rfl rfl) | simp at hst
    | save i =>
      simp only [act] at hst
      split at hst
      · rename_i r hi
        injection hst with hst; subst hst
        obtain ⟨_, _, e3, _, e5, _, _, _⟩ := save_next s r
        intro c hc
        simp only [List.mem_append, List.mem_singleton] at hc ⊢
        have hsub : ∀ x ∈ s.saved, x ∈ (save s r).saved := by
          intro x hx
          unfold save
          split
          · exact hx
          · split
            · exact hx
            · exact List.mem_append_left _ hx
        rw [e3, e5]
        rcases hc with hc | hc
        · exact (h c hc).elim .inl (fun h => .inr ⟨h.1, hsub _ h.2⟩)
        · injection hc with hc
          subst hc
          simp only [calmStep, hi] at hs
          split at hs
          · rename_i hr
            refine .inr ⟨hr, ?_⟩
            unfold save
            rw [if_neg (by simp)]
            split
            · rename_i hm; exact hm
            · simp
          · simp at hs
      · simp at hst
    | close c =>
      injection hst with hst; subst hst
      intro d hd
      exact (h d hd).elim (fun h => .inl (List.mem_append_left _ h)) .inr
    | go j ok =>
      simp only [act, goStep] at hst
      repeat' split at hst
      all_goals first
        | (injection hst with hst; subst hst
           first
           | exact h.same rfl rfl rfl rfl
           | exact h.more [_] (by simp) rfl rfl rfl rfl
           | exact kept_stop (h.same rfl rfl rfl rfl) (hw.same rfl rfl rfl) hn)
        | simp at hst
  · simp at hst

/-- C57, part: after `Stop` every connection that was ever handed out is closed — provided no call of `NextConnection` was between receiving and saving a
connection when `Stop` was executed, nor received a left-over connection after it. -/
theorem c57_closed_partial (conf : Conf) (ls : List Label) (s : Sys) (h : Trace.exec calmStep (init conf) ls = some s) (hc : s.crash = none)
    (hr : s.isRunning = false) (c : Nat) (hret : .returned (some c) ∈ s.log) : c ∈ s.closedCons := by
  have key : s.crash = none → Wf s ∧ Kept s := by
    refine invariant (step := calmStep) (Q := fun _ => True) (P := fun s => s.crash = none → Wf s ∧ Kept s) ?_ ls (init conf) s
      (fun _ => ⟨wf_init conf, by intro c hc; simp [init] at hc⟩) (fun _ _ => trivial) h
    intro s l s' hp _ hs hn
    have hc0 : s.crash = none := by
      have := calm_step hs
      simp only [step] at this
      split at this
      · rename_i e; exact e
      · simp at this
    exact ⟨wf_step (hp hc0).1 (calm_step hs) hn, kept_step (hp hc0).1 (hp hc0).2 hs hn⟩
  rcases (key hc).2 c hret with h | ⟨h, _⟩
  · exact h
  · rw [hr] at h; simp at h

def tcpServer : Conf := ⟨false, true, 0⟩
def udsServer : Conf := ⟨true, true, 0⟩

/-- Two clients served and then stopped: the situation of the theorems above. -/
example : ∃ s, Trace.exec calmStep (init tcpServer) [.run, .call, .go 0 true, .go 0 true, .go 0 true, .go 0 true, .go 0 true, .recv 0, .save 0, .call, .go 0 true,
      .go 0 true, .go 0 true, .go 0 true, .recv 1, .save 1, .call, .go 0 true, .stop, .recv 2, .save 2, .go 0 false, .go 0 true] = some s ∧
      s.crash = none ∧ s.isRunning = false ∧ s.closedCons = [0, 1] ∧ s.gos = [.done] ∧
      s.log = [.sent 0 0, .returned (some 0), .sent 0 1, .returned (some 1), .returned none] := ⟨_, rfl, rfl, rfl, rfl, rfl, rfl⟩

/-- C57 fails: `Stop` just after the goroutine began to listen (or between two `Accept`s) crashes the process: `t.listener` is nil. -/
theorem c57_nil_listener_violated (conf : Conf) (hf : conf.forServer = true) :
    ∃ s, exec (init conf) [.run, .go 0 true, .stop, .go 0 true] = some s ∧ s.crash = some .nilListener := by
  obtain ⟨g, f, m⟩ := conf
  simp only at hf
  subst hf
  exact ⟨_, rfl, rfl⟩

/-- C57 fails: a client accepted after `Stop` crashes the process: `Stop` came before the goroutine had stored its listener, which is never closed. -/
theorem c57_send_violated (conf : Conf) (hf : conf.forServer = true) :
    ∃ s, exec (init conf) [.run, .stop, .go 0 true, .go 0 true, .go 0 true, .go 0 true, .go 0 true] = some s ∧ s.crash = some .sendOnClosed := by
  obtain ⟨g, f, m⟩ := conf
  simp only at hf
  subst hf
  exact ⟨_, rfl, rfl⟩

/-- C57 fails for clients: `Stop` while a dial that will succeed is under way crashes the process. -/
theorem c57_dial_violated (conf : Conf) (hf : conf.forServer = false) (hm : 0 < conf.maxRetryCount) :
    ∃ s, exec (init conf) [.run, .go 0 true, .stop, .go 0 true, .go 0 true] = some s ∧ s.crash = some .sendOnClosed := by
  obtain ⟨g, f, m⟩ := conf
  simp only at hf hm
  subst hf
  have h0 : ((0 : Nat) : Int) < m := hm
  simp only [exec, Trace.exec, step, act, init, run, goStep, stop, Sys.setGo, if_true, Bool.false_eq_true, if_false, List.nil_append, List.length_nil,
    List.getElem?_cons_zero, Option.bind_some, h0, List.set_cons_zero, List.not_mem_nil, Option.map_some, reduceCtorEq]
  exact ⟨_, rfl, rfl⟩

/-- C57 fails for TCP: nil received after a `Stop` and saved after the next `Run` crashes the next `Stop`. -/
theorem c57_nil_connection_violated : ∃ s, exec (init tcpServer) [.run, .stop, .call, .recv 0, .run, .save 0, .stop] = some s ∧ s.crash = some .nilConnection :=
  ⟨_, rfl, rfl⟩

example : ∃ s, exec (init udsServer) [.run, .stop, .call, .recv 0, .run, .save 0, .stop] = some s ∧ s.crash = none := ⟨_, rfl, rfl⟩

/-- C57 fails: a connection received before `Stop` and returned after it stays open, and nobody closes it later: the next `Run` forgets it. -/
theorem c57_open_after_stop_violated (conf : Conf) (hf : conf.forServer = true) :
    ∃ s, exec (init conf) [.run, .go 0 true, .go 0 true, .go 0 true, .go 0 true, .go 0 true, .call, .recv 0, .stop, .save 0] = some s ∧
      s.crash = none ∧ s.isRunning = false ∧ s.log = [.sent 0 0, .returned (some 0)] ∧ s.closedCons = [] := by
  obtain ⟨g, f, m⟩ := conf
  simp only at hf
  subst hf
  cases g <;> exact ⟨_, rfl, rfl, rfl, rfl, rfl⟩

/-- C57 fails: connections accepted but not yet fetched are handed out, open, after `Stop`, instead of nil. -/
theorem c57_left_over_violated (conf : Conf) (hf : conf.forServer = true) :
    ∃ s, exec (init conf) [.run, .go 0 true, .go 0 true, .go 0 true, .go 0 true, .go 0 true, .stop, .call, .recv 0, .save 0] = some s ∧
      s.crash = none ∧ s.log = [.sent 0 0, .returned (some 0)] ∧ s.closedCons = [] := by
  obtain ⟨g, f, m⟩ := conf
  simp only at hf
  subst hf
  cases g <;> exact ⟨_, rfl, rfl, rfl, rfl⟩

/-- A call of `NextConnection` made before the first `Run` waits on a nil channel for ever, whatever happens. -/
theorem c57_too_early (conf : Conf) (ls : List Label) (s : Sys) (h : exec (init conf) (.call :: ls) = some s) : s.callers[0]? = some (.waiting none) := by
  obtain ⟨m, hm, he⟩ := exec_cons h
  have hm' : m.callers[0]? = some (.waiting none) := by
    have : m = { init conf with callers := [.waiting none] } := by
      have : some { init conf with callers := [.waiting none] } = some m := hm
      injection this with this
      exact this.symm
    rw [this]; rfl
  refine invariant (step := step) (Q := fun _ => True) (P := fun s => s.callers[0]? = some (.waiting none)) ?_ ls m s hm' (fun _ _ => trivial) he
  intro s l s' hp _ hs
  have hstop : ∀ x : Sys, (stop x).callers = x.callers := by
    intro x
    unfold stop
    split
    · rfl
    · cases x.listener <;> simp only <;> repeat' split
      all_goals rfl
  have hset : ∀ (i : Nat) (c : Caller) (d : Caller), s.callers[i]? = some d → d ≠ .waiting none → (s.callers.set i c)[0]? = some (.waiting none) := by
    intro i c d hi hd
    rw [List.getElem?_set_ne]
    · exact hp
    · rintro rfl
      rw [hp] at hi
      injection hi with hi
      exact hd hi.symm
  simp only [step] at hs
  split at hs
  · cases l with
    | run => injection hs with hs; subst hs; unfold run; split <;> exact hp
    | stop => injection hs with hs; subst hs; rw [hstop]; exact hp
    | call =>
      injection hs with hs; subst hs
      have hlt := (List.getElem?_eq_some_iff.mp hp).1
      simp only
      rw [List.getElem?_append_left hlt]; exact hp
    | recv i =>
      simp only [act] at hs
      split at hs
      · rename_i k hi
        repeat' split at hs
        all_goals first | (injection hs with hs; subst hs; exact hset _ _ _ hi (by simp)) | simp at hs
      · simp at hs
    | save i =>
      simp only [act] at hs
      split at hs
      · rename_i r hi
        injection hs with hs; subst hs
        exact hset _ _ _ hi (by simp)
      · simp at hs
    | close c => injection hs with hs; subst hs; exact hp
    | go j ok =>
      simp only [act, goStep] at hs
      repeat' split at hs
      all_goals first | (injection hs with hs; subst hs; first | exact hp | (rw [hstop]; exact hp)) | simp at hs
  · simp at hs

/-- Nobody stopped the second run, but the goroutine of the first one did. -/
theorem c57_stale_stop : ∃ s, exec (init ⟨true, false, 1⟩) [.run, .go 0 false, .stop, .run, .go 0 false, .go 0 false] = some s ∧ s.isRunning = false ∧
    s.crash = none := ⟨_, rfl, rfl, rfl⟩

/-! ## C56 -/

def dialsOf (j : Nat) (log : List Ev) : Nat := log.countP fun | .dial j' _ => j' == j | _ => false

def okDialsOf (j : Nat) (log : List Ev) : Nat := log.countP fun | .dial j' ok => j' == j && ok | _ => false

def sentBy (j : Nat) (log : List Ev) : Nat := log.countP fun | .sent j' _ => j' == j | _ => false

/-- What the position of a `connect` goroutine says about its past. -/
def Past (s : Sys) (j : Nat) : Go → Prop
  | .dial i => dialsOf j s.log = i ∧ okDialsOf j s.log = 0 ∧ sentBy j s.log = 0 ∧ i ≤ s.conf.maxRetryCount.toNat
  | .prep _ again | .push _ _ again => again = false ∧ okDialsOf j s.log = 1 ∧ sentBy j s.log = 0 ∧ dialsOf j s.log ≤ s.conf.maxRetryCount.toNat
  | .stopping => okDialsOf j s.log = 0 ∧ sentBy j s.log = 0 ∧ dialsOf j s.log = s.conf.maxRetryCount.toNat
  | .done => (okDialsOf j s.log = 1 ∧ sentBy j s.log = 1 ∧ dialsOf j s.log ≤ s.conf.maxRetryCount.toNat) ∨
      (okDialsOf j s.log = 0 ∧ sentBy j s.log = 0 ∧ dialsOf j s.log = s.conf.maxRetryCount.toNat)
  | .listen | .loop | .accepting _ => False

structure Client (s : Sys) : Prop where
  client : s.conf.forServer = false
  past : ∀ j g, s.gos[j]? = some g → Past s j g
  none : ∀ j, s.gos.length ≤ j → dialsOf j s.log = 0 ∧ okDialsOf j s.log = 0 ∧ sentBy j s.log = 0

theorem past_log {s s' : Sys} {j : Nat} {g : Go} (h : Past s j g) (hc : s'.conf = s.conf) (h1 : dialsOf j s'.log = dialsOf j s.log)
    (h2 : okDialsOf j s'.log = okDialsOf j s.log) (h3 : sentBy j s'.log = sentBy j s.log) : Past s' j g := by
  cases g <;> simp only [Past, hc, h1, h2, h3] at h ⊢ <;> exact h

/-- A step of goroutine `j` that only writes about `j`. -/
theorem Client.move {s s' : Sys} (h : Client s) (j : Nat) (g g' : Go) (hj : s.gos[j]? = some g) (hc : s'.conf = s.conf) (hg : s'.gos = s.gos.set j g')
    (es : List Ev) (hl : s'.log = s.log ++ es) (hes : ∀ i, i ≠ j → dialsOf i es = 0 ∧ okDialsOf i es = 0 ∧ sentBy i es = 0) (hp : Past s' j g') : Client s' := by
  have hlt := (List.getElem?_eq_some_iff.mp hj).1
  have happ : ∀ i, dialsOf i s'.log = dialsOf i s.log + dialsOf i es ∧ okDialsOf i s'.log = okDialsOf i s.log + okDialsOf i es ∧
      sentBy i s'.log = sentBy i s.log + sentBy i es := by
    intro i
    rw [hl]
    exact ⟨List.countP_append, List.countP_append, List.countP_append⟩
  constructor
  · rw [hc]; exact h.client
  · intro i x hx
    rw [hg, List.getElem?_set] at hx
    split at hx
    · rename_i e
      subst e
      injection hx with hx; subst hx; exact hp
    · rename_i hne
      obtain ⟨a1, a2, a3⟩ := happ i
      obtain ⟨b1, b2, b3⟩ := hes i (Ne.symm hne)
      exact past_log (h.past i x hx) hc (by omega) (by omega) (by omega)
  · intro i hi
    rw [hg, List.length_set] at hi
    obtain ⟨a1, a2, a3⟩ := happ i
    obtain ⟨b1, b2, b3⟩ := hes i (by omega)
    obtain ⟨c1, c2, c3⟩ := h.none i hi
    omega

theorem Client.same {s s' : Sys} (h : Client s) (hc : s'.conf = s.conf) (hg : s'.gos = s.gos) (hl : s'.log = s.log) : Client s' := by
  constructor
  · rw [hc]; exact h.client
  · intro j g hj
    rw [hg] at hj
    exact past_log (h.past j g hj) hc (by rw [hl]) (by rw [hl]) (by rw [hl])
  · intro j hj
    rw [hg] at hj
    rw [hl]
    exact h.none j hj

theorem stop_same (s : Sys) : (stop s).conf = s.conf ∧ (stop s).gos = s.gos ∧ (stop s).log = s.log := by
  unfold stop
  split
  · exact ⟨rfl, rfl, rfl⟩
  · cases s.listener <;> simp only <;> repeat' split
    all_goals exact ⟨rfl, rfl, rfl⟩

theorem client_step {s s' : Sys} {l : Label} (h : Client s) (hs : step s l = some s') : Client s' := by
  simp only [step] at hs
  split at hs
  · cases l with
    | run =>
      injection hs with hs; subst hs
      unfold run
      split
      · exact h
      · constructor
        · exact h.client
        · intro j g hj
          simp only at hj
          by_cases hlt : j < s.gos.length
          · rw [List.getElem?_append_left hlt] at hj
            exact past_log (h.past j g hj) rfl rfl rfl rfl
          · rw [List.getElem?_append_right (Nat.le_of_not_lt hlt)] at hj
            have hj0 : j - s.gos.length = 0 := by
              cases hz : j - s.gos.length with
              | zero => rfl
              | succ z => rw [hz] at hj; simp at hj
            rw [hj0] at hj
            simp only [List.getElem?_cons_zero, Option.some.injEq, h.client, Bool.false_eq_true, if_false] at hj
            subst hj
            obtain ⟨c1, c2, c3⟩ := h.none j (Nat.le_of_not_lt hlt)
            exact ⟨c1, c2, c3, Nat.zero_le _⟩
        · intro j hj
          simp only [List.length_append, List.length_cons, List.length_nil] at hj
          exact h.none j (by omega)
    | stop =>
      injection hs with hs; subst hs
      obtain ⟨a, b, c⟩ := stop_same s
      exact h.same a b c
    | call => injection hs with hs; subst hs; exact h.same rfl rfl rfl
    | recv i =>
      simp only [act] at hs
      repeat' split at hs
      all_goals first | (injection hs with hs; subst hs; exact h.same rfl rfl rfl) | simp at hs
    | save i =>
      simp only [act] at hs
      split at hs
      · rename_i r hi
        injection hs with hs; subst hs
        obtain ⟨_, _, _, e4, _, e6, _, _⟩ := save_next s r
        have hx : ∀ j, dialsOf j (s.log ++ [Ev.returned r]) = dialsOf j s.log ∧ okDialsOf j (s.log ++ [Ev.returned r]) = okDialsOf j s.log ∧
            sentBy j (s.log ++ [Ev.returned r]) = sentBy j s.log := by
          intro j; simp [dialsOf, okDialsOf, sentBy]
        constructor
        · simp only [e4]; exact h.client
        · intro j g hj
          simp only [e6] at hj
          exact past_log (h.past j g hj) e4 (hx j).1 (hx j).2.1 (hx j).2.2
        · intro j hj
          simp only [e6] at hj
          obtain ⟨c1, c2, c3⟩ := h.none j hj
          obtain ⟨d1, d2, d3⟩ := hx j
          simp only
          omega
      · simp at hs
    | close c => injection hs with hs; subst hs; exact h.same rfl rfl rfl
    | go j ok =>
      simp only [act, goStep] at hs
      split at hs
      · simp at hs
      · rename_i hj; exact absurd (h.past j _ hj) id
      · rename_i hj; exact absurd (h.past j _ hj) id
      · rename_i hj; exact absurd (h.past j _ hj) id
      · rename_i c again hj
        split at hs
        · simp at hs
        · injection hs with hs; subst hs
          exact h.move j _ _ hj rfl rfl [] (by simp [Sys.setGo]) (by intro i _; exact ⟨rfl, rfl, rfl⟩) (h.past j _ hj)
      · rename_i k c again hj
        split at hs
        · simp at hs
        · split at hs
          · injection hs with hs; subst hs; exact h.same rfl rfl rfl
          · split at hs
            · injection hs with hs; subst hs
              obtain ⟨p1, p2, p3, p4⟩ := h.past j _ hj
              subst p1
              refine h.move j _ _ hj rfl rfl [.sent j c] rfl (by intro i hi; simp [dialsOf, okDialsOf, sentBy, Ne.symm hi]) (.inl ?_)
              simp [dialsOf, okDialsOf, sentBy, Sys.setGo] at p2 p3 p4 ⊢
              exact ⟨p2, p3, p4⟩
            · simp at hs
      · rename_i i hj
        obtain ⟨p1, p2, p3, p4⟩ := h.past j _ hj
        split at hs
        · rename_i hlt
          split at hs <;> injection hs with hs <;> subst hs
          · refine h.move j _ _ hj rfl rfl [.dial j true] rfl (by intro i hi; simp [dialsOf, okDialsOf, sentBy, Ne.symm hi]) ?_
            simp [Past, dialsOf, okDialsOf, sentBy, Sys.setGo] at p1 p2 p3 p4 ⊢
            exact ⟨p2, p3, by omega⟩
          · refine h.move j _ _ hj rfl rfl [.dial j false] rfl (by intro i hi; simp [dialsOf, okDialsOf, sentBy, Ne.symm hi]) ?_
            simp [Past, dialsOf, okDialsOf, sentBy, Sys.setGo] at p1 p2 p3 p4 ⊢
            exact ⟨p1, p2, p3, by omega⟩
        · rename_i hge
          injection hs with hs; subst hs
          exact h.move j _ _ hj rfl rfl [] (by simp [Sys.setGo]) (by intro i _; exact ⟨rfl, rfl, rfl⟩) ⟨p2, p3, by simp only [Sys.setGo]; omega⟩
      · rename_i hj
        injection hs with hs; subst hs
        obtain ⟨a, b, c⟩ := stop_same (s.setGo j .done)
        exact (h.move j _ .done hj (s' := s.setGo j .done) rfl rfl [] (by simp [Sys.setGo]) (by intro i _; exact ⟨rfl, rfl, rfl⟩) (.inr (h.past j _ hj))).same a b c
      · simp at hs
  · simp at hs

theorem client_exec (conf : Conf) (hf : conf.forServer = false) (ls : List Label) (s : Sys) (h : exec (init conf) ls = some s) : Client s ∧ s.conf = conf := by
  refine invariant (step := step) (Q := fun _ => True) (P := fun s => Client s ∧ s.conf = conf) ?_ ls (init conf) s ?_ (fun _ _ => trivial) h
  · rintro s l s' ⟨hp, hc⟩ _ hs
    exact ⟨client_step hp hs, by rw [conf_step hs, hc]⟩
  · exact ⟨⟨hf, by intro j g hj; simp [init] at hj, fun j _ => ⟨rfl, rfl, rfl⟩⟩, rfl⟩

/-- C56: for every interleaving of everything, each `Run` in client mode leads to at most `MaxRetryCount` dials, at most one of them successful, and at most one
connection is put out, and only after a successful dial. -/
theorem c56_bounded (conf : Conf) (hf : conf.forServer = false) (ls : List Label) (s : Sys) (h : exec (init conf) ls = some s) (j : Nat) :
    dialsOf j s.log ≤ conf.maxRetryCount.toNat ∧ okDialsOf j s.log ≤ 1 ∧ sentBy j s.log ≤ okDialsOf j s.log := by
  obtain ⟨hc, he⟩ := client_exec conf hf ls s h
  rw [← he]
  by_cases hlt : j < s.gos.length
  · have hj : s.gos[j]? = some s.gos[j] := by simp [hlt]
    have hp := hc.past j _ hj
    cases hg : s.gos[j] <;> rw [hg] at hp <;> simp only [Past] at hp
    all_goals first | exact absurd hp id | omega
  · obtain ⟨c1, c2, c3⟩ := hc.none j (Nat.le_of_not_lt hlt)
    omega

/-- C56: a `connect` goroutine that has ended put out exactly one connection if a dial succeeded, and none, after exactly `MaxRetryCount` dials, otherwise. -/
theorem c56_ended (conf : Conf) (hf : conf.forServer = false) (ls : List Label) (s : Sys) (h : exec (init conf) ls = some s) (j : Nat)
    (hj : s.gos[j]? = some .done) :
    (okDialsOf j s.log = 1 ∧ sentBy j s.log = 1) ∨ (okDialsOf j s.log = 0 ∧ sentBy j s.log = 0 ∧ dialsOf j s.log = conf.maxRetryCount.toNat) := by
  obtain ⟨hc, he⟩ := client_exec conf hf ls s h
  rw [← he]
  rcases hc.past j _ hj with ⟨h1, h2, _⟩ | ⟨h1, h2, h3⟩
  · exact .inl ⟨h1, h2⟩
  · exact .inr ⟨h1, h2, h3⟩

theorem stop_off {s : Sys} (hc : (stop s).crash = none) : (stop s).isRunning = false := by
  unfold stop at hc ⊢
  split
  · rename_i h; exact h
  · rename_i h
    rw [if_neg h] at hc
    cases hl : s.listener <;> simp only [hl] at hc ⊢ <;>
    · split at hc
      · simp at hc
      · rename_i hk
        split at hc
        · simp at hc
        · rename_i hcl
          split at hc
          · simp at hc
          · rename_i hs
            simp only [hk, if_neg hcl, if_neg hs]

/-- What `Stop` may do to the channels. -/
theorem stop_chans (s : Sys) : (stop s).next = s.next ∧ (stop s).chans.map Chan.buf = s.chans.map Chan.buf := by
  unfold stop
  split
  · exact ⟨rfl, rfl⟩
  · cases hl : s.listener <;> simp only <;>
    · split
      · exact ⟨rfl, rfl⟩
      · rename_i k ch hk
        have hch : s.chans[k]? = some ch := by
          cases hn : s.next with
          | none => rw [hn] at hk; simp at hk
          | some n =>
            rw [hn] at hk
            simp only [Option.bind_some, Option.map_eq_some_iff, Prod.mk.injEq] at hk
            obtain ⟨a, h1, h2, h3⟩ := hk
            rw [← h2, ← h3]; exact h1
        have hset : (s.chans.set k { ch with closed := true }).map Chan.buf = s.chans.map Chan.buf := by
          rw [List.map_set]
          apply List.ext_getElem?
          intro j
          rw [List.getElem?_set]
          split
          · rename_i e
            subst e
            obtain ⟨hlt, hg⟩ := List.getElem?_eq_some_iff.mp hch
            simp [hlt, hg]
          · rfl
        split
        · exact ⟨rfl, rfl⟩
        · split <;> exact ⟨rfl, hset⟩

/-- A history with a single `Run`, which has happened. -/
structure One (s : Sys) : Prop where
  gos : s.gos.length = 1
  next : s.next = some 0
  chans : ∃ ch, s.chans = [ch]
  empty : sentBy 0 s.log = 0 → s.chans.map Chan.buf = [[]]
  off : s.gos[0]? = some .done → okDialsOf 0 s.log = 0 → s.isRunning = false

theorem One.stop {s : Sys} (h : One s) (hc : (stop s).crash = none) : One (stop s) := by
  obtain ⟨_, hg, hl⟩ := stop_same s
  obtain ⟨hn, hb⟩ := stop_chans s
  constructor
  · rw [hg]; exact h.gos
  · rw [hn]; exact h.next
  · obtain ⟨ch, hch⟩ := h.chans
    rw [hch] at hb
    have := congrArg List.length hb
    simp only [List.length_map, List.length_cons, List.length_nil, Nat.zero_add] at this
    exact List.length_eq_one_iff.mp this
  · rw [hl, hb]; exact h.empty
  · intro _ _; exact stop_off hc

theorem One.same {s s' : Sys} (h : One s) (h1 : s'.gos = s.gos) (h2 : s'.next = s.next) (h3 : s'.chans = s.chans) (h4 : s'.log = s.log)
    (h5 : s'.isRunning = s.isRunning) : One s' :=
  ⟨by rw [h1]; exact h.gos, by rw [h2]; exact h.next, by rw [h3]; exact h.chans, by rw [h3, h4]; exact h.empty, by rw [h1, h4, h5]; exact h.off⟩

theorem one_step {s s' : Sys} {l : Label} (h : One s) (hcl : Client s) (hl : l ≠ .run) (hs : step s l = some s') (hn : s'.crash = none) : One s' := by
  obtain ⟨ch0, hch0⟩ := h.chans
  have hcl' := client_step hcl hs
  simp only [step] at hs
  split at hs
  · cases l with
    | run => exact absurd rfl hl
    | stop => injection hs with hs; subst hs; exact h.stop hn
    | call => injection hs with hs; subst hs; exact h.same rfl rfl rfl rfl rfl
    | recv i =>
      simp only [act] at hs
      split at hs
      · rename_i k _
        split at hs
        · simp at hs
        · rename_i ch hk
          split at hs
          · rename_i c rest hb
            injection hs with hs; subst hs
            have hk0 : k = 0 := by
              rw [hch0] at hk
              cases k with
              | zero => rfl
              | succ k => simp at hk
            subst hk0
            rw [hch0] at hk
            simp only [List.getElem?_cons_zero, Option.some.injEq] at hk
            subst hk
            refine ⟨h.gos, h.next, ⟨{ ch0 with buf := rest }, by simp [hch0]⟩, ?_, h.off⟩
            intro h0
            have := h.empty h0
            rw [hch0] at this
            simp [hb] at this
          · split at hs
            · injection hs with hs; subst hs; exact h.same rfl rfl rfl rfl rfl
            · simp at hs
      · simp at hs
    | save i =>
      simp only [act] at hs
      split at hs
      · rename_i r hi
        injection hs with hs; subst hs
        obtain ⟨e1, e2, e3, _, _, e6, _, _⟩ := save_next s r
        refine ⟨?_, ?_, ?_, ?_, ?_⟩
        · simp only [e6]; exact h.gos
        · simp only [e1]; exact h.next
        · simp only [e2]; exact h.chans
        · simp only [e2]
          intro h0
          exact h.empty (by simpa [sentBy] using h0)
        · simp only [e6, e3]
          intro a b
          exact h.off a (by simpa [okDialsOf] using b)
      · simp at hs
    | close c => injection hs with hs; subst hs; exact h.same rfl rfl rfl rfl rfl
    | go j ok =>
      simp only [act, goStep] at hs
      split at hs
      · simp at hs
      · rename_i hj; exact absurd (hcl.past j _ hj) id
      · rename_i hj; exact absurd (hcl.past j _ hj) id
      · rename_i hj; exact absurd (hcl.past j _ hj) id
      · rename_i c again hj
        split at hs
        · simp at hs
        · injection hs with hs; subst hs
          have hj0 : j = 0 := by have := (List.getElem?_eq_some_iff.mp hj).1; have := h.gos; omega
          subst hj0
          have hg := h.gos
          refine ⟨by simpa [Sys.setGo] using h.gos, h.next, h.chans, h.empty, ?_⟩
          intro hd
          simp [Sys.setGo, hg] at hd
      · rename_i k c again hj
        have hj0 : j = 0 := by have := (List.getElem?_eq_some_iff.mp hj).1; have := h.gos; omega
        subst hj0
        obtain ⟨p1, p2, p3, p4⟩ := hcl.past 0 _ hj
        subst p1
        split at hs
        · simp at hs
        · rename_i ch hk
          split at hs
          · injection hs with hs; subst hs; simp at hn
          · split at hs
            · injection hs with hs; subst hs
              have hk0 : k = 0 := by
                rw [hch0] at hk
                cases k with
                | zero => rfl
                | succ k => simp at hk
              subst hk0
              refine ⟨by simpa [Sys.setGo] using h.gos, h.next, ⟨_, by simp [hch0]; rfl⟩, ?_, ?_⟩
              · intro h0
                simp [sentBy] at h0
              · intro _ hok
                simp only [okDialsOf, List.countP_append, List.countP_cons, List.countP_nil] at hok p2
                omega
            · simp at hs
      · rename_i i hj
        have hj0 : j = 0 := by have := (List.getElem?_eq_some_iff.mp hj).1; have := h.gos; omega
        subst hj0
        have hg := h.gos
        have hgo : ∀ g : Go, g ≠ .done → (s.gos.set 0 g)[0]? ≠ some .done := by
          intro g hne he
          rw [List.getElem?_set_self (by omega)] at he
          injection he with he
          exact hne he
        split at hs
        · split at hs <;> injection hs with hs <;> subst hs
          · refine ⟨by simpa [Sys.setGo] using h.gos, h.next, h.chans, ?_, fun hd => absurd hd (hgo _ (by simp))⟩
            intro h0
            exact h.empty (by simpa [sentBy] using h0)
          · refine ⟨by simpa [Sys.setGo] using h.gos, h.next, h.chans, ?_, fun hd => absurd hd (hgo _ (by simp))⟩
            intro h0
            exact h.empty (by simpa [sentBy] using h0)
        · injection hs with hs; subst hs
          exact ⟨by simpa [Sys.setGo] using h.gos, h.next, h.chans, h.empty, fun hd => absurd hd (hgo _ (by simp))⟩
      · rename_i hj
        injection hs with hs; subst hs
        obtain ⟨_, hg, hl⟩ := stop_same (s.setGo j .done)
        obtain ⟨hnx, hb⟩ := stop_chans (s.setGo j .done)
        refine ⟨?_, ?_, ?_, ?_, fun _ _ => stop_off hn⟩
        · rw [hg]; simpa [Sys.setGo] using h.gos
        · rw [hnx]; exact h.next
        · have hb' : (stop (s.setGo j .done)).chans.map Chan.buf = [ch0.buf] := by rw [hb]; simp [Sys.setGo, hch0]
          have := congrArg List.length hb'
          simp only [List.length_map, List.length_cons, List.length_nil, Nat.zero_add] at this
          exact List.length_eq_one_iff.mp this
        · rw [hl, hb]; exact h.empty
      · simp at hs
  · simp at hs

/-- Nothing has been run yet. -/
def Fresh (s : Sys) : Prop := s.isRunning = false ∧ s.gos = [] ∧ s.chans = [] ∧ s.next = none ∧ sentBy 0 s.log = 0

theorem fresh_step {s s' : Sys} {l : Label} (h : Fresh s) (hl : l ≠ .run) (hs : step s l = some s') : Fresh s' := by
  obtain ⟨h1, h2, h3, h4, h5⟩ := h
  simp only [step] at hs
  split at hs
  · cases l with
    | run => exact absurd rfl hl
    | stop => injection hs with hs; subst hs; rw [stop, if_pos h1]; exact ⟨h1, h2, h3, h4, h5⟩
    | call => injection hs with hs; subst hs; exact ⟨h1, h2, h3, h4, h5⟩
    | recv i => simp only [act, h3] at hs; split at hs <;> simp at hs
    | save i =>
      simp only [act] at hs
      split at hs
      · rename_i r hi
        injection hs with hs; subst hs
        obtain ⟨e1, e2, e3, _, _, e6, _, _⟩ := save_next s r
        refine ⟨e3.trans h1, e6.trans h2, e2.trans h3, e1.trans h4, ?_⟩
        simpa [sentBy] using h5
      · simp at hs
    | close c => injection hs with hs; subst hs; exact ⟨h1, h2, h3, h4, h5⟩
    | go j ok => simp [act, goStep, h2] at hs
  · simp at hs

/-- C56, when all dials fail: for every history with a single `Run`, when the goroutine has ended without a successful dial, the transport is stopped, its channel
is closed and empty — so by `c57_nil_partial` and `c57_unblocked_partial` every `NextConnection`, waiting or future, returns nil. -/
theorem c56_gives_up (conf : Conf) (hf : conf.forServer = false) (pre ls : List Label) (hpre : .run ∉ pre) (hls : .run ∉ ls)
    (s : Sys) (h : exec (init conf) (pre ++ .run :: ls) = some s) (hd : s.gos[0]? = some .done) (hok : okDialsOf 0 s.log = 0) (hcr : s.crash = none) :
    s.isRunning = false ∧ s.next = some 0 ∧ s.chans = [⟨[], true⟩] := by
  obtain ⟨hcl, _⟩ := client_exec conf hf _ s h
  have hw := wf_exec conf _ s h hcr
  have h' := h
  rw [exec, exec_append] at h'
  cases hm : exec (init conf) pre with
  | none => rw [show Trace.exec step (init conf) pre = none from hm] at h'; simp at h'
  | some m =>
    rw [show Trace.exec step (init conf) pre = some m from hm] at h'
    simp only [Option.bind_some] at h'
    have hfr : Fresh m := invariant (step := step) (Q := fun l => l ≠ .run) (P := Fresh) (fun _ _ _ hp hq hs => fresh_step hp hq hs) pre (init conf) m
      ⟨rfl, rfl, rfl, rfl, rfl⟩ (fun l hl e => hpre (e ▸ hl)) hm
    obtain ⟨hclm, _⟩ := client_exec conf hf pre m hm
    obtain ⟨m', hm', he⟩ := exec_cons h'
    have hcm' : Client m' := client_step hclm hm'
    have h1 : One m' := by
      obtain ⟨f1, f2, f3, f4, f5⟩ := hfr
      simp only [step] at hm'
      split at hm'
      · injection hm' with hm'
        subst hm'
        simp only [run, f1, Bool.false_eq_true, if_false]
        refine ⟨by simp [f2], by simp [f3], ⟨⟨[], false⟩, by simp [f3]⟩, by simp [f3], ?_⟩
        intro hd
        simp [f2, hclm.client] at hd
      · simp at hm'
    have key : s.crash = none → One s := by
      have : Client s ∧ (s.crash = none → One s) := by
        refine invariant (step := step) (Q := fun l => l ≠ .run) (P := fun s => Client s ∧ (s.crash = none → One s)) ?_ ls m' s ⟨hcm', fun _ => h1⟩
          (fun l hl e => hls (e ▸ hl)) he
        rintro a l b ⟨hc, hp⟩ hq hs
        refine ⟨client_step hc hs, fun hn => ?_⟩
        refine one_step (hp ?_) hc hq hs hn
        simp only [step] at hs
        split at hs
        · rename_i e; exact e
        · simp at hs
      exact this.2
    have ho := key hcr
    have hoff := ho.off hd hok
    refine ⟨hoff, ho.next, ?_⟩
    have hsent : sentBy 0 s.log = 0 := by
      have := c56_bounded conf hf _ s h 0
      omega
    obtain ⟨ch, hch⟩ := ho.chans
    have hb := ho.empty hsent
    have hc := hw.closed 0 ch (by simp [hch])
    rw [hoff] at hc
    rw [hch] at hb ⊢
    obtain ⟨b, c⟩ := ch
    simp at hb hc
    rw [hb, hc]

/-- Three failing dials: the transport stops, and a caller that was waiting gets nil. -/
example : ∃ s, exec (init ⟨false, false, 3⟩) [.run, .call, .go 0 false, .go 0 false, .go 0 false, .go 0 false, .go 0 false, .recv 0, .save 0] = some s ∧
    s.gos[0]? = some .done ∧ okDialsOf 0 s.log = 0 ∧ dialsOf 0 s.log = 3 ∧ s.crash = none ∧ s.log.getLast? = some (.returned none) :=
  ⟨_, rfl, rfl, rfl, rfl, rfl, rfl⟩

/-- The second dial succeeds: one connection, and it is returned. -/
example : ∃ s, exec (init ⟨false, false, 3⟩) [.run, .call, .go 0 false, .go 0 true, .go 0 true, .go 0 true, .recv 0, .save 0] = some s ∧
    s.gos[0]? = some .done ∧ okDialsOf 0 s.log = 1 ∧ dialsOf 0 s.log = 2 ∧ sentBy 0 s.log = 1 ∧ s.log.getLast? = some (.returned (some 0)) :=
  ⟨_, rfl, rfl, rfl, rfl, rfl, rfl⟩

/-- Progress: a dialling goroutine can always make its next step, so it ends after at most `MaxRetryCount` dials. -/
theorem c56_progress (s : Sys) (j i : Nat) (ok : Bool) (hc : s.crash = none) (hj : s.gos[j]? = some (.dial i)) : ∃ s', step s (.go j ok) = some s' := by
  simp only [step, hc, if_true, act, goStep, hj]
  split
  · split <;> exact ⟨_, rfl⟩
  · exact ⟨_, rfl⟩

/-- Across a restart the statement fails for the transport as a whole: the goroutine of the first run goes on dialling, and the second run gets two connections. -/
theorem c56_restart_violated : ∃ s, exec (init ⟨true, false, 3⟩) [.run, .go 0 false, .stop, .run, .go 0 true, .go 0 true, .go 0 true, .go 1 true, .go 1 true, .go 1 true] = some s ∧
    s.crash = none ∧ s.next = some 1 ∧ s.chans = [⟨[], true⟩, ⟨[0, 1], false⟩] := ⟨_, rfl, rfl, rfl, rfl⟩

end Verif.Conn.Stream
