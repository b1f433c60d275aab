import Verif.Trace

/-!
# Listeners of HeartbeatLost run under the Heartbeat's mutex (C81)

`Heartbeat.check` (proc_heartbeat.go:60-87) publishes `HeartbeatLost` while it holds `hb.mutex`; `PublishEvent`
(ustack_default.go:309-326) calls the listeners of the user synchronously.  The same mutex is taken by the receive goroutine of
every connection for every heartbeat received (`updateMonitor`, proc_heartbeat.go:41-46, called at 128-129) and by the accept goroutine
for every new connection (`OnEvent`, proc_heartbeat.go:139-144), before the connection's receive goroutine is started
(proc_lowerdeck.go:51-59).

Modelled: the check goroutine, one receive goroutine per connection, the announcement of new connections, and a listener that
may wait for a message of a given connection (a common way to write a reconnect or a question to another peer).
Simplifications: a critical section other than `check` is one step; `check` may find any connections expired; the channel from
the stack to the user does not fill up (that is C64).
-/

namespace Verif.Conn.LostLock

open Verif.Trace

/-- What arrives on a connection. -/
inductive Item where
  | beat
  | msg (v : Nat)
  deriving Repr, DecidableEq

/-- Where the check goroutine is.  Everywhere but in `idle` it holds the mutex. -/
inductive Chk where
  | idle
  /-- in the loop, with the expired connections still to be reported -/
  | loop (rest : List Nat)
  /-- in the user's listener for a connection -/
  | listening (c : Nat) (rest : List Nat)
  deriving Repr, DecidableEq

structure Sys where
  /-- received bytes not yet processed, per connection -/
  streams : Nat → List Item
  /-- messages handed to the user and not taken yet, with their connection -/
  app : List (Nat × Nat)
  chk : Chk
  /-- heartbeats that were counted, by connection -/
  counted : List Nat
  /-- connections that were announced -/
  announced : List Nat

inductive Label where
  | arrive (c : Nat) (it : Item)
  /-- the receive goroutine of `c` processes the next item -/
  | take (c : Nat)
  | announce (c : Nat)
  /-- `check` locks and finds these connections expired -/
  | begin (cs : List Nat)
  /-- the loop goes on: the next listener is called, or the mutex is released -/
  | next
  /-- the listener returns -/
  | ret
  deriving Repr, DecidableEq

/-- The user's listener: for which connection's message does it wait when it is told that `c` is lost? -/
abbrev Need := Nat → Option Nat

/-- Take the first message of connection `d`. -/
def takeMsg (d : Nat) : List (Nat × Nat) → Option (List (Nat × Nat))
  | [] => none
  | p :: ps => if p.1 = d then some ps else (takeMsg d ps).map (p :: ·)

def setStream (s : Sys) (c : Nat) (l : List Item) : Sys := { s with streams := fun x => if x = c then l else s.streams x }

def step (need : Need) (s : Sys) : Label → Option Sys
  | .arrive c it => some (setStream s c (s.streams c ++ [it]))
  | .take c =>
    match s.streams c with
    | .msg v :: r => some { setStream s c r with app := s.app ++ [(c, v)] }
    | .beat :: r => if s.chk = .idle then some { setStream s c r with counted := s.counted ++ [c] } else none
    | [] => none
  | .announce c => if s.chk = .idle then some { s with announced := s.announced ++ [c] } else none
  | .begin cs => if s.chk = .idle then some { s with chk := .loop cs } else none
  | .next =>
    match s.chk with
    | .loop (c :: rest) => some { s with chk := .listening c rest }
    | .loop [] => some { s with chk := .idle }
    | _ => none
  | .ret =>
    match s.chk with
    | .listening c rest =>
      match need c with
      | none => some { s with chk := .loop rest }
      | some d => (takeMsg d s.app).map fun app => { s with chk := .loop rest, app := app }
    | _ => none

abbrev exec (need : Need) := Trace.exec (step need)

def init : Sys := ⟨fun _ => [], [], .idle, [], []⟩

theorem takeMsg_iff (d : Nat) (ps : List (Nat × Nat)) : (takeMsg d ps).isSome ↔ ∃ v, (d, v) ∈ ps := by
  induction ps with
  | nil => simp [takeMsg]
  | cons p ps ih =>
    simp only [takeMsg]
    split
    · rename_i h
      subst h
      simp only [Option.isSome_some, true_iff]
      exact ⟨p.2, List.mem_cons_self⟩
    · rename_i h
      rw [Option.isSome_map, ih]
      constructor
      · rintro ⟨v, hv⟩; exact ⟨v, List.mem_cons_of_mem _ hv⟩
      · rintro ⟨v, hv⟩
        rcases List.mem_cons.mp hv with hv | hv
        · exact absurd (by rw [← hv]) h
        · exact ⟨v, hv⟩

/-! ## Specification -/

/-- The listener waits for a message of `d`, none is there, and the next thing to process on that connection is a
heartbeat. -/
structure Stuck (need : Need) (s : Sys) (d : Nat) : Prop where
  waits : ∃ c rest, s.chk = .listening c rest ∧ need c = some d
  none : ∀ v, (d, v) ∉ s.app
  beat : (s.streams d).head? = some .beat

/-- The messages before the first heartbeat. -/
def beforeBeat : List Item → List Nat
  | .msg v :: r => v :: beforeBeat r
  | _ => []

/-- What arrives on a connection in a schedule. -/
def arrivals (c : Nat) (ls : List Label) : List Item := ls.filterMap fun
  | .arrive e it => if e = c then some it else none
  | _ => none

/-- Messages of connection `e`. -/
def msgsOf (e : Nat) (ps : List (Nat × Nat)) : List Nat := (ps.filter fun p => p.1 == e).map Prod.snd

theorem msgsOf_append (e : Nat) (a b : List (Nat × Nat)) : msgsOf e (a ++ b) = msgsOf e a ++ msgsOf e b := by simp [msgsOf]

theorem prefix_beforeBeat (new : List Nat) (r : List Item) : new <+: beforeBeat (new.map Item.msg ++ r) := by
  induction new with
  | nil => exact List.nil_prefix
  | cons v new ih =>
    obtain ⟨t, ht⟩ := ih
    exact ⟨t, by simp only [List.map_cons, List.cons_append, beforeBeat, ht]⟩

theorem arrivals_append (c : Nat) (a b : List Label) : arrivals c (a ++ b) = arrivals c a ++ arrivals c b := List.filterMap_append

theorem stuck_step {need : Need} {s s' : Sys} {d : Nat} {l : Label} (h : Stuck need s d) (hs : step need s l = some s') :
    Stuck need s' d ∧ s'.chk = s.chk ∧ s'.counted = s.counted ∧ s'.announced = s.announced ∧
      (∀ e, ∃ new, msgsOf e s'.app = msgsOf e s.app ++ new ∧ s.streams e ++ arrivals e [l] = new.map Item.msg ++ s'.streams e) := by
  obtain ⟨⟨c, rest, hc, hn⟩, hno, hb⟩ := h
  cases l with
  | arrive e it =>
    injection hs with hs; subst hs
    refine ⟨⟨⟨c, rest, hc, hn⟩, hno, ?_⟩, rfl, rfl, rfl, ?_⟩
    · simp only [setStream]
      split
      · rename_i h; subst h; rw [List.head?_append, hb]; rfl
      · exact hb
    · intro x
      refine ⟨[], by simp [setStream], ?_⟩
      simp only [setStream, arrivals, List.filterMap_cons, List.filterMap_nil]
      by_cases h : x = e
      · subst h; simp
      · rw [if_neg h, if_neg (Ne.symm h)]; simp
  | take e =>
    simp only [step] at hs
    split at hs
    · rename_i v r hst
      injection hs with hs; subst hs
      have hne : d ≠ e := by rintro rfl; rw [hst] at hb; simp at hb
      refine ⟨⟨⟨c, rest, hc, hn⟩, ?_, ?_⟩, rfl, rfl, rfl, ?_⟩
      · intro u hu
        simp only [List.mem_append, List.mem_singleton, Prod.mk.injEq] at hu
        rcases hu with hu | hu
        · exact hno u hu
        · exact hne hu.1
      · simp only [setStream, if_neg hne]; exact hb
      · intro x
        by_cases h : x = e
        · subst h
          refine ⟨[v], ?_, ?_⟩
          · simp only [msgsOf_append]; simp [msgsOf]
          · simp [setStream, arrivals, hst]
        · refine ⟨[], ?_, ?_⟩
          · simp only [msgsOf_append]; simp [msgsOf, Ne.symm h]
          · simp [setStream, arrivals, h]
    · rw [if_neg (by rw [hc]; simp)] at hs; cases hs
    · cases hs
  | announce e => simp only [step] at hs; rw [if_neg (by rw [hc]; simp)] at hs; cases hs
  | begin cs => simp only [step] at hs; rw [if_neg (by rw [hc]; simp)] at hs; cases hs
  | next => simp only [step, hc] at hs; cases hs
  | ret =>
    simp only [step, hc, hn] at hs
    cases ht : takeMsg d s.app with
    | none => rw [ht] at hs; cases hs
    | some app =>
      have := (takeMsg_iff d s.app).1 (by rw [ht]; rfl)
      obtain ⟨v, hv⟩ := this
      exact absurd hv (hno v)

/-- C81 fails for good: once stuck, the listener never returns, no heartbeat is counted, no new connection announced, nothing is
checked any more, whatever else happens; and on every connection exactly the messages before the next heartbeat can still
get through, never a later one. -/
theorem c81_stuck_forever (need : Need) (d : Nat) (ls : List Label) : ∀ (s s' : Sys), Stuck need s d → exec need s ls = some s' →
    Stuck need s' d ∧ s'.chk = s.chk ∧ s'.counted = s.counted ∧ s'.announced = s.announced ∧
      (∀ e, ∃ new, msgsOf e s'.app = msgsOf e s.app ++ new ∧ new <+: beforeBeat (s.streams e ++ arrivals e ls)) := by
  -- keep what is still to come, too
  suffices H : ∀ (s s' : Sys), Stuck need s d → exec need s ls = some s' →
      Stuck need s' d ∧ s'.chk = s.chk ∧ s'.counted = s.counted ∧ s'.announced = s.announced ∧
      (∀ e, ∃ new, msgsOf e s'.app = msgsOf e s.app ++ new ∧ s.streams e ++ arrivals e ls = new.map Item.msg ++ s'.streams e) by
    intro s s' h he
    obtain ⟨h1, h2, h3, h4, h5⟩ := H s s' h he
    refine ⟨h1, h2, h3, h4, fun e => ?_⟩
    obtain ⟨new, n1, n2⟩ := h5 e
    exact ⟨new, n1, by rw [n2]; exact prefix_beforeBeat _ _⟩
  induction ls using snoc_induction with
  | h0 =>
    intro s s' h he
    injection he with he; subst he
    exact ⟨h, rfl, rfl, rfl, fun e => ⟨[], by simp, by simp [arrivals]⟩⟩
  | h1 ls l ih =>
    intro s s' h he
    obtain ⟨m, hm, hs⟩ := exec_snoc he
    obtain ⟨a1, a2, a3, a4, a5⟩ := ih s m h hm
    obtain ⟨b1, b2, b3, b4, b5⟩ := stuck_step a1 hs
    refine ⟨b1, b2.trans a2, b3.trans a3, b4.trans a4, fun e => ?_⟩
    obtain ⟨n1, c1, c2⟩ := a5 e
    obtain ⟨n2, d1, d2⟩ := b5 e
    refine ⟨n1 ++ n2, by rw [d1, c1, List.append_assoc], ?_⟩
    rw [arrivals_append, ← List.append_assoc, c2, List.append_assoc, d2, List.map_append, List.append_assoc]

/-- Exactly when a listener that waits for a message of `d` can still return: a message of `d` is there, or the next thing to be
processed on `d` is not a heartbeat. -/
theorem c81_iff (need : Need) (s : Sys) (c d : Nat) (rest : List Nat) (hc : s.chk = .listening c rest) (hn : need c = some d) :
    (∃ ls s', exec need s ls = some s' ∧ s'.chk ≠ s.chk) ↔ (∃ v, (d, v) ∈ s.app) ∨ (s.streams d).head? ≠ some .beat := by
  constructor
  · rintro ⟨ls, s', he, hne⟩
    apply Classical.byContradiction
    intro h
    rw [not_or] at h
    refine hne (c81_stuck_forever need d ls s s' ⟨⟨c, rest, hc, hn⟩, fun v hv => h.1 ⟨v, hv⟩, ?_⟩ he).2.1
    exact Classical.not_not.mp h.2
  · -- a message of `d` that is there lets the listener return
    have fin : ∀ m : Sys, m.chk = s.chk → (∃ v, (d, v) ∈ m.app) → ∃ s', step need m .ret = some s' ∧ s'.chk ≠ s.chk := by
      intro m hm hv
      obtain ⟨app, ha⟩ := Option.isSome_iff_exists.mp ((takeMsg_iff d m.app).2 hv)
      refine ⟨{ m with chk := .loop rest, app := app }, ?_, by rw [hc]; simp⟩
      simp only [step, hm, hc, hn, ha, Option.map_some]
    rintro (hv | hb)
    · obtain ⟨s', h1, h2⟩ := fin s rfl hv
      exact ⟨[.ret], s', by simp [Trace.exec, h1], h2⟩
    · cases hst : s.streams d with
      | nil =>
        obtain ⟨s', h1, h2⟩ := fin { setStream (setStream s d [.msg 0]) d [] with app := s.app ++ [(d, 0)] } rfl ⟨0, by simp⟩
        refine ⟨[.arrive d (.msg 0), .take d, .ret], s', ?_, h2⟩
        have ha : step need s (.arrive d (.msg 0)) = some (setStream s d [.msg 0]) := by simp only [step, hst, List.nil_append]
        have ht : step need (setStream s d [.msg 0]) (.take d) =
            some { setStream (setStream s d [.msg 0]) d [] with app := s.app ++ [(d, 0)] } := by simp [step, setStream]
        simp [Trace.exec, ha, ht, h1]
      | cons it r =>
        cases it with
        | beat => rw [hst] at hb; exact absurd rfl hb
        | msg v =>
          obtain ⟨s', h1, h2⟩ := fin { setStream s d r with app := s.app ++ [(d, v)] } rfl ⟨v, by simp⟩
          refine ⟨[.take d, .ret], s', ?_, h2⟩
          have ht : step need s (.take d) = some { setStream s d r with app := s.app ++ [(d, v)] } := by simp only [step, hst]
          simp [Trace.exec, ht, h1]

/-- What the check goroutine does by itself. -/
def Label.own : Label → Bool
  | .next | .ret => true
  | _ => false

/-- C81 for listeners that return without waiting: whatever has happened, the check goroutine by itself comes to the end of its
round and releases the mutex.  Missing: listeners that wait for a message (`c81_violated`, `c81_iff`). -/
theorem c81_partial (need : Need) (hn : ∀ c, need c = none) (s : Sys) :
    ∃ ls s', ls.all Label.own = true ∧ exec need s ls = some s' ∧ s'.chk = .idle ∧ s'.app = s.app ∧ s'.streams = s.streams := by
  have loop : ∀ (rest : List Nat) (s : Sys), s.chk = .loop rest →
      ∃ ls s', ls.all Label.own = true ∧ exec need s ls = some s' ∧ s'.chk = .idle ∧ s'.app = s.app ∧ s'.streams = s.streams := by
    intro rest
    induction rest with
    | nil => intro s h; exact ⟨[.next], { s with chk := .idle }, rfl, by simp [Trace.exec, step, h], rfl, rfl, rfl⟩
    | cons c rest ih =>
      intro s h
      obtain ⟨ls, s', h1, h2, h3, h4, h5⟩ := ih { s with chk := .loop rest } rfl
      refine ⟨.next :: .ret :: ls, s', by simpa [Label.own] using h1, ?_, h3, h4, h5⟩
      simp only [Trace.exec, step, h, hn]
      simpa using h2
  cases hc : s.chk with
  | idle => exact ⟨[], s, rfl, rfl, hc, rfl, rfl⟩
  | loop rest => exact loop rest s hc
  | listening c rest =>
    obtain ⟨ls, s', h1, h2, h3, h4, h5⟩ := loop rest { s with chk := .loop rest } rfl
    refine ⟨.ret :: ls, s', by simpa [Label.own] using h1, ?_, h3, h4, h5⟩
    simp only [Trace.exec, step, hc, hn]
    simpa using h2

/-- The claim: a listener whose answer has arrived on the connection can return. -/
def Claim (need : Need) : Prop := ∀ ls s c d rest v, exec need init ls = some s → s.chk = .listening c rest → need c = some d →
  Item.msg v ∈ s.streams d → ∃ ls' s', exec need s ls' = some s' ∧ s'.chk ≠ s.chk

/-- When connection 1 is lost, wait for a message of connection 2. -/
def askTwo : Need := fun c => if c = 1 then some 2 else none

/-- C81 is violated: the listener waits for an answer of connection 2, which has arrived, but behind a heartbeat. -/
theorem c81_violated : ¬ Claim askTwo := by
  intro h
  obtain ⟨ls, s', he, hne⟩ := h [.begin [1], .next, .arrive 2 .beat, .arrive 2 (.msg 7)] _ 1 2 [] 7 rfl rfl rfl (by simp [setStream])
  exact hne (c81_stuck_forever askTwo 2 ls _ s' ⟨⟨1, [], rfl, rfl⟩, by simp [setStream, init], by simp [setStream, init]⟩ he).2.1

/-- Non-trivial: the same answer before the heartbeat lets the listener return, and the heartbeat is counted afterwards. -/
example : (exec askTwo init [.begin [1], .next, .arrive 2 (.msg 7), .arrive 2 .beat, .take 2, .ret, .next, .take 2]).map
    (fun s => (s.chk, s.app, s.counted)) = some (.idle, [], [2]) := by decide

/-- `c81_partial` on a round that reports two connections. -/
example : ∃ s, exec (fun _ => none) init [.begin [1, 2], .next] = some s ∧ s.chk = .listening 1 [2] := ⟨_, rfl, rfl⟩

/-- `c81_stuck_forever`: connection 3 still delivers the message before its heartbeat, not the one behind it. -/
example : (exec askTwo init [.begin [1], .next, .arrive 2 .beat, .arrive 3 (.msg 5), .arrive 3 .beat, .arrive 3 (.msg 6), .take 3]).map
    (fun s => s.app) = some [(3, 5)] ∧
    (exec askTwo init [.begin [1], .next, .arrive 2 .beat, .arrive 3 (.msg 5), .arrive 3 .beat, .arrive 3 (.msg 6), .take 3, .take 3]).isNone := by
  decide

end Verif.Conn.LostLock
