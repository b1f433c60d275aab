import Verif.Trace

/-!
# ConnectionClosed events (C49)

One byte connection announced by `NewConnection`: its receive goroutine (proc_lowerdeck.go:59-87), any number of calls of
`LowerDeck.OnUpperData` by other goroutines (proc_lowerdeck.go:98-120) and closes without an event
(`Heartbeat.check`, proc_heartbeat.go:77-79; `Stop`, tran_tcp.go:154-158, 290).  `closeConnection` (proc_lowerdeck.go:22-32) is two
steps: closing, publishing.  The test of `c.closed` in `Write` (tran_tcp.go:57) and the write on the socket are two steps.
-/

namespace Verif.Conn.Close

open Verif.Trace

inductive RPC where
  /-- in `Read` or in the layers above -/
  | reading
  | closing
  | publishing
  | ended
  deriving Repr, DecidableEq

inductive WPC where
  /-- found the connection open -/
  | checked
  | closing
  | publishing
  /-- returned without reporting anything -/
  | silent
  /-- returned after reporting -/
  | reported
  deriving Repr, DecidableEq

structure Sys where
  closed : Bool
  reader : RPC
  writers : List WPC
  /-- `ConnectionClosed` events -/
  events : Nat
  deriving Repr, DecidableEq

inductive Label where
  /-- a read with data -/
  | readOk
  /-- a read without data or with an error: end of stream, network error, or the connection is closed -/
  | readFail
  | readerClose
  | readerPublish
  /-- somebody calls `OnUpperData` -/
  | write
  | writeOk (i : Nat)
  | writeFail (i : Nat)
  | writerClose (i : Nat)
  | writerPublish (i : Nat)
  /-- close without event -/
  | close
  deriving Repr, DecidableEq

def init : Sys := ⟨false, .reading, [], 0⟩

def moveWriter (s : Sys) (i : Nat) (src dst : WPC) : Option Sys :=
  if s.writers[i]? = some src then some { s with writers := s.writers.set i dst } else none

def step (s : Sys) : Label → Option Sys
  | .readOk => if s.reader = .reading ∧ s.closed = false then some s else none
  | .readFail => if s.reader = .reading then some { s with reader := .closing } else none
  | .readerClose => if s.reader = .closing then some { s with reader := .publishing, closed := true } else none
  | .readerPublish => if s.reader = .publishing then some { s with reader := .ended, events := s.events + 1 } else none
  | .write => some { s with writers := s.writers ++ [if s.closed then .silent else .checked] }
  | .writeOk i => moveWriter s i .checked .silent
  | .writeFail i => moveWriter s i .checked .closing
  | .writerClose i => (moveWriter s i .closing .publishing).map fun s => { s with closed := true }
  | .writerPublish i => (moveWriter s i .publishing .reported).map fun s => { s with events := s.events + 1 }
  | .close => some { s with closed := true }

abbrev exec := Trace.exec step

def RPC.reports : RPC → Nat
  | .ended => 1
  | _ => 0

theorem moveWriter_count {s s' : Sys} {i : Nat} {a b : WPC} (h : moveWriter s i a b = some s') :
    s'.closed = s.closed ∧ s'.reader = s.reader ∧ s'.events = s.events ∧
    s'.writers.countP (· = .reported) + (if a = .reported then 1 else 0) = s.writers.countP (· = .reported) + (if b = .reported then 1 else 0) := by
  simp only [moveWriter] at h
  split at h
  · rename_i hi
    injection h with h
    subst h
    refine ⟨rfl, rfl, rfl, ?_⟩
    simp only
    obtain ⟨hlt, hget⟩ := List.getElem?_eq_some_iff.mp hi
    rw [List.countP_set hlt, hget]
    have hpos : a = .reported → 0 < s.writers.countP (· = .reported) := by
      intro ha
      rw [List.countP_pos_iff]
      exact ⟨a, hget ▸ List.getElem_mem hlt, by simp [ha]⟩
    by_cases ha : a = .reported
    · have := hpos ha
      simp [ha]
      omega
    · simp [ha]
  · simp at h

/-- For every schedule: the events are one per ended reader and one per writer that reported. -/
theorem events_count (ls : List Label) (s s' : Sys) (h : exec s ls = some s')
    (h0 : s.events = s.reader.reports + s.writers.countP (· = .reported)) :
    s'.events = s'.reader.reports + s'.writers.countP (· = .reported) := by
  refine invariant (step := step) (Q := fun _ => True) (P := fun s => s.events = s.reader.reports + s.writers.countP (· = .reported))
    ?_ ls s s' h0 (fun _ _ => trivial) h
  intro s l s' hi _ hs
  cases l with
  | readOk => simp only [step] at hs; split at hs <;> simp at hs; subst hs; exact hi
  | readFail =>
    simp only [step] at hs
    split at hs <;> simp at hs
    rename_i hr
    subst hs
    simpa [hr, RPC.reports] using hi
  | readerClose =>
    simp only [step] at hs
    split at hs <;> simp at hs
    rename_i hr
    subst hs
    simpa [hr, RPC.reports] using hi
  | readerPublish =>
    simp only [step] at hs
    split at hs <;> simp at hs
    rename_i hr
    subst hs
    simp [hr, RPC.reports] at hi ⊢
    omega
  | write =>
    injection hs with hs
    subst hs
    simp only [List.countP_append]
    cases s.closed <;> simpa using hi
  | writeOk i => obtain ⟨_, h2, h3, h4⟩ := moveWriter_count hs; simp at h4; rw [h3, h2, h4]; exact hi
  | writeFail i => obtain ⟨_, h2, h3, h4⟩ := moveWriter_count hs; simp at h4; rw [h3, h2, h4]; exact hi
  | writerClose i =>
    simp only [step, Option.map_eq_some_iff] at hs
    obtain ⟨t, ht, rfl⟩ := hs
    obtain ⟨_, h2, h3, h4⟩ := moveWriter_count ht; simp at h4; simp only [h3, h2, h4]; exact hi
  | writerPublish i =>
    simp only [step, Option.map_eq_some_iff] at hs
    obtain ⟨t, ht, rfl⟩ := hs
    obtain ⟨_, h2, h3, h4⟩ := moveWriter_count ht; simp at h4; simp only [h3, h2, h4]; omega
  | close => injection hs with hs; subst hs; exact hi

/-- No writer reports unless a write fails. -/
theorem no_reports (ls : List Label) (s : Sys) (h : exec init ls = some s) (hf : ∀ i, .writeFail i ∉ ls) :
    ∀ w ∈ s.writers, w = .checked ∨ w = .silent := by
  refine invariant (step := step) (Q := fun l => ∀ i, l ≠ .writeFail i) (P := fun s => ∀ w ∈ s.writers, w = .checked ∨ w = .silent)
    ?_ ls init s (by simp [init]) (fun l hl i he => hf i (he ▸ hl)) h
  intro s l s' hi hq hs
  have nomove : ∀ (i : Nat) (a b : WPC) (t : Sys), a ≠ .checked → a ≠ .silent → moveWriter s i a b ≠ some t := by
    intro i a b t h1 h2 hm
    simp only [moveWriter] at hm
    split at hm
    · rename_i hg
      rcases hi _ (List.mem_of_getElem? hg) with h | h
      · exact h1 h
      · exact h2 h
    · simp at hm
  cases l with
  | readOk => simp only [step] at hs; split at hs <;> simp at hs; subst hs; exact hi
  | readFail => simp only [step] at hs; split at hs <;> simp at hs; subst hs; exact hi
  | readerClose => simp only [step] at hs; split at hs <;> simp at hs; subst hs; exact hi
  | readerPublish => simp only [step] at hs; split at hs <;> simp at hs; subst hs; exact hi
  | write =>
    injection hs with hs
    subst hs
    intro w hw
    rcases List.mem_append.mp hw with hw | hw
    · exact hi w hw
    · rw [List.mem_singleton] at hw
      rw [hw]
      split <;> simp
  | writeOk i =>
    simp only [step, moveWriter] at hs
    split at hs
    · injection hs with hs
      subst hs
      intro w hw
      rcases List.mem_or_eq_of_mem_set hw with hw | hw
      · exact hi w hw
      · exact Or.inr hw
    · simp at hs
  | writeFail i => exact absurd rfl (hq i)
  | writerClose i =>
    simp only [step, Option.map_eq_some_iff] at hs
    obtain ⟨t, ht, _⟩ := hs
    exact absurd ht (nomove i _ _ t (by simp) (by simp))
  | writerPublish i =>
    simp only [step, Option.map_eq_some_iff] at hs
    obtain ⟨t, ht, _⟩ := hs
    exact absurd ht (nomove i _ _ t (by simp) (by simp))
  | close => injection hs with hs; subst hs; exact hi

/-- C49, part: as long as no write fails, exactly one event once the receive goroutine ended, and none before, for every schedule of reads, writes and
closes.  Missing: failing writes (`c49_violated`). -/
theorem c49_partial (ls : List Label) (s : Sys) (h : exec init ls = some s) (hf : ∀ i, .writeFail i ∉ ls) :
    s.events = if s.reader = .ended then 1 else 0 := by
  have h1 := events_count ls init s h rfl
  have h2 : s.writers.countP (· = .reported) = 0 := by
    rw [List.countP_eq_zero]
    intro w hw
    rcases no_reports ls s h hf w hw with rfl | rfl <;> simp
  rw [h1, h2]
  cases s.reader <;> simp [RPC.reports]

/-- C49, part: once closed, by whom ever, the connection cannot deliver data; the receive goroutine gets to its event by its own steps,
so there is at least one event. -/
theorem c49_at_least (ls : List Label) (s : Sys) (h : exec init ls = some s) (hc : s.closed = true) :
    step s .readOk = none ∧
    ∃ own s', (∀ l ∈ own, l = .readFail ∨ l = .readerClose ∨ l = .readerPublish) ∧ exec s own = some s' ∧ s'.reader = .ended ∧ 1 ≤ s'.events := by
  refine ⟨by simp [step, hc], ?_⟩
  have fin : ∀ own s', exec s own = some s' → s'.reader = .ended → 1 ≤ s'.events := by
    intro own s' he hr
    have : exec init (ls ++ own) = some s' := by rw [exec, exec_append]; show (exec init ls).bind _ = _; rw [h]; exact he
    have := events_count _ init s' this rfl
    rw [this, hr]
    simp [RPC.reports]
  cases hr : s.reader with
  | reading =>
    refine ⟨[.readFail, .readerClose, .readerPublish], { s with reader := .ended, closed := true, events := s.events + 1 }, by simp, ?_, rfl, by simp⟩
    simp [exec, Trace.exec, step, hr]
  | closing =>
    refine ⟨[.readerClose, .readerPublish], { s with reader := .ended, closed := true, events := s.events + 1 }, by simp, ?_, rfl, by simp⟩
    simp [exec, Trace.exec, step, hr]
  | publishing =>
    refine ⟨[.readerPublish], { s with reader := .ended, events := s.events + 1 }, by simp, ?_, rfl, by simp⟩
    simp [exec, Trace.exec, step, hr]
  | ended => exact ⟨[], s, by simp, rfl, hr, fin [] s rfl hr⟩

/-- Writers past a failed write. -/
def WPC.failed : WPC → Bool
  | .closing | .publishing | .reported => true
  | _ => false

theorem moveWriter_failed {s s' : Sys} {i : Nat} {a b : WPC} (h : moveWriter s i a b = some s') :
    s'.writers.countP WPC.failed + (if a.failed then 1 else 0) = s.writers.countP WPC.failed + (if b.failed then 1 else 0) := by
  simp only [moveWriter] at h
  split at h
  · rename_i hi
    injection h with h
    subst h
    simp only
    obtain ⟨hlt, hget⟩ := List.getElem?_eq_some_iff.mp hi
    rw [List.countP_set hlt, hget]
    have hpos : a.failed = true → 0 < s.writers.countP WPC.failed := by
      intro ha
      rw [List.countP_pos_iff]
      exact ⟨a, hget ▸ List.getElem_mem hlt, ha⟩
    by_cases ha : a.failed = true
    · have := hpos ha
      simp only [ha, if_true]
      omega
    · simp [ha]
  · simp at h

/-- The writes that failed, read off the schedule. -/
def failures (ls : List Label) : Nat := ls.countP fun | .writeFail _ => true | _ => false

/-- Every failed write leaves a writer that reports, did so, or will. -/
theorem failed_count (ls : List Label) : ∀ s, exec init ls = some s → s.writers.countP WPC.failed = failures ls := by
  induction ls using snoc_induction with
  | h0 => intro s h; injection h with h; subst h; rfl
  | h1 ls l ih =>
    intro s h
    obtain ⟨m, hm, hs⟩ := exec_snoc h
    have ih := ih m hm
    rw [failures, List.countP_append, show List.countP _ ls = _ from ih.symm]
    cases l with
    | readOk => simp only [step] at hs; split at hs <;> simp at hs; subst hs; simp
    | readFail => simp only [step] at hs; split at hs <;> simp at hs; subst hs; simp
    | readerClose => simp only [step] at hs; split at hs <;> simp at hs; subst hs; simp
    | readerPublish => simp only [step] at hs; split at hs <;> simp at hs; subst hs; simp
    | write =>
      injection hs with hs
      subst hs
      simp only [List.countP_append]
      cases m.closed <;> simp [WPC.failed]
    | writeOk i => have := moveWriter_failed hs; simp [WPC.failed] at this ⊢; omega
    | writeFail i => have := moveWriter_failed hs; simp [WPC.failed] at this ⊢; omega
    | writerClose i =>
      simp only [step, Option.map_eq_some_iff] at hs
      obtain ⟨t, ht, rfl⟩ := hs
      have := moveWriter_failed ht; simp [WPC.failed] at this ⊢; omega
    | writerPublish i =>
      simp only [step, Option.map_eq_some_iff] at hs
      obtain ⟨t, ht, rfl⟩ := hs
      have := moveWriter_failed ht; simp [WPC.failed] at this ⊢; omega
    | close => injection hs with hs; subst hs; simp

/-- C49, upper bound for every schedule: at most one event more than failed writes. -/
theorem c49_at_most (ls : List Label) (s : Sys) (h : exec init ls = some s) :
    s.events ≤ 1 + failures ls := by
  have h1 := events_count ls init s h rfl
  have h2 : s.writers.countP (· = .reported) ≤ s.writers.countP WPC.failed :=
    List.countP_mono_left (by intro w _ hw; simp only [decide_eq_true_eq] at hw; subst hw; rfl)
  have h3 : s.reader.reports ≤ 1 := by cases s.reader <;> simp [RPC.reports]
  rw [← failed_count ls s h]
  omega

/-- **C49, exactly.**  When the receive goroutine has ended and nobody is on the way to closing or publishing, there are as many events as
failed writes and one more. -/
theorem c49_count (ls : List Label) (s : Sys) (h : exec init ls = some s) (hr : s.reader = .ended)
    (hw : ∀ w ∈ s.writers, w ≠ .closing ∧ w ≠ .publishing) : s.events = 1 + failures ls := by
  have h1 := events_count ls init s h rfl
  have h2 : s.writers.countP (· = .reported) = s.writers.countP WPC.failed := by
    apply List.countP_congr
    intro w hm
    have := hw w hm
    cases w <;> simp_all [WPC.failed]
  rw [h1, hr, h2, failed_count ls s h]
  rfl

/-- Exactly one event, then, if and only if no write failed. -/
theorem c49_exact (ls : List Label) (s : Sys) (h : exec init ls = some s) (hr : s.reader = .ended)
    (hw : ∀ w ∈ s.writers, w ≠ .closing ∧ w ≠ .publishing) : s.events = 1 ↔ ∀ i, .writeFail i ∉ ls := by
  rw [c49_count ls s h hr hw, failures]
  have : (1 + ls.countP (fun | .writeFail _ => true | _ => false) = 1) ↔ ls.countP (fun | .writeFail _ => true | _ => false) = 0 := by omega
  rw [this, List.countP_eq_zero]
  constructor
  · intro h i hi; exact h _ hi rfl
  · intro h l hl he
    cases l with
    | writeFail i => exact h i hl
    | _ => simp at he

/-- One write fails, the next finds the connection closed: two events. -/
def failedOnce : List Label := [.write, .writeFail 0, .writerClose 0, .writerPublish 0, .write, .readFail, .readerClose, .readerPublish]

example (s : Sys) (h : exec init failedOnce = some s) : s.events = 2 := by
  have he : s = ⟨true, .ended, [.reported, .silent], 2⟩ := (Option.some.inj (h.symm.trans (by decide)))
  exact c49_count failedOnce s h (by rw [he]) (by rw [he]; decide)

/-- Data arrives, the heartbeat closes the connection, a late write is swallowed, the receive goroutine ends: one event. -/
example : exec init [.readOk, .write, .writeOk 0, .close, .write, .readFail, .readerClose, .readerPublish] =
    some ⟨true, .ended, [.silent, .silent], 1⟩ := by decide

/-! ## Failing writes -/

/-- `k` writers find the connection open, all their writes fail, all report. -/
def storm (k : Nat) : List Label :=
  List.replicate k .write ++ ((List.range k).map .writeFail ++ ((List.range k).map .writerClose ++ (List.range k).map .writerPublish))

theorem exec_writes (k : Nat) : ∀ ws, exec ⟨false, .reading, ws, 0⟩ (List.replicate k .write) =
    some ⟨false, .reading, ws ++ List.replicate k .checked, 0⟩ := by
  induction k with
  | zero => intro ws; simp [exec, Trace.exec]
  | succ k ih =>
    intro ws
    rw [List.replicate_succ]
    show (step _ .write).bind (fun s => exec s (List.replicate k .write)) = _
    simp only [step, Bool.false_eq_true, if_false, Option.bind_some]
    rw [ih]
    simp [List.replicate_succ]

/-- Moving all writers from one place to the next. -/
theorem exec_all (lab : Nat → Label) (a b : WPC) (cl : Bool) (ev : Nat)
    (hstep : ∀ (s : Sys) (i : Nat), s.writers[i]? = some a → step s (lab i) =
      some { s with writers := s.writers.set i b, closed := s.closed || cl, events := s.events + ev }) (k : Nat) :
    ∀ (n : Nat) (pre : List WPC) (c : Bool) (r : RPC) (e : Nat), pre.length = n →
      exec ⟨c, r, pre ++ List.replicate k a, e⟩ ((List.range' n k).map lab) = some ⟨if k = 0 then c else c || cl, r, pre ++ List.replicate k b, e + k * ev⟩ := by
  induction k with
  | zero => intro n pre c r e _; simp [exec, Trace.exec]
  | succ k ih =>
    intro n pre c r e hn
    subst hn
    rw [List.range'_succ, List.map_cons]
    show (step _ (lab pre.length)).bind (fun s => exec s _) = _
    rw [hstep _ _ (by simp [List.replicate_succ]), Option.bind_some]
    have hset : (pre ++ List.replicate (k + 1) a).set pre.length b = (pre ++ [b]) ++ List.replicate k a := by
      simp [List.replicate_succ]
    simp only [hset]
    rw [ih (pre.length + 1) (pre ++ [b]) (c || cl) r (e + ev) (by simp)]
    have : e + ev + k * ev = e + (k + 1) * ev := by rw [Nat.add_mul]; omega
    rw [this]
    cases k with
    | zero => simp
    | succ k => simp [List.replicate_succ, Bool.or_assoc]

/-- C49 fails: with `k` concurrent failing writes there are `k + 1` events for one connection. -/
theorem c49_violated (k : Nat) : ∃ ls s, exec init ls = some s ∧ s.events = k + 1 := by
  cases k with
  | zero => exact ⟨[.readFail, .readerClose, .readerPublish], _, rfl, rfl⟩
  | succ k =>
    refine ⟨storm (k + 1) ++ [.readFail, .readerClose, .readerPublish], ⟨true, .ended, List.replicate (k + 1) .reported, k + 1 + 1⟩, ?_, rfl⟩
    have h1 := exec_writes (k + 1) []
    have h2 := exec_all .writeFail .checked .closing false 0 (by intro s i h; simp [step, moveWriter, h]) (k + 1) 0 [] false .reading 0 rfl
    have h3 := exec_all .writerClose .closing .publishing true 0 (by intro s i h; simp [step, moveWriter, h]) (k + 1) 0 [] false .reading 0 rfl
    have h4 := exec_all .writerPublish .publishing .reported false 1 (by intro s i h; simp [step, moveWriter, h]) (k + 1) 0 [] true .reading 0 rfl
    simp only [List.nil_append, Nat.mul_zero, Nat.add_zero, Nat.zero_add, Nat.mul_one, Bool.or_false, Bool.false_or, if_neg (Nat.succ_ne_zero k)] at h1 h2 h3 h4
    simp only [exec] at h1 h2 h3 h4 ⊢
    rw [storm, List.range_eq_range', exec_append, exec_append, init, h1, Option.bind_some, exec_append, h2,
      Option.bind_some, exec_append, h3, Option.bind_some, h4]
    simp [Trace.exec, step]

end Verif.Conn.Close
