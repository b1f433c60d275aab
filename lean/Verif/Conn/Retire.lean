import Verif.Conn.StreamExact

/-!
# Transports of a running stack, added and deleted (C91, C92)

`Stream` (C56, C57) has the TCP and Unix transports by themselves, `Accept` (C66) the goroutines of `LowerDeck` on transports that always have a further
connection.  Here both run together: one stream transport of a running stack, added and deleted any number of times, with the goroutines that
`LowerDeck.acceptTransport` (proc_lowerdeck.go:35-90) starts: one per `AddTransport`, which asks for connections, and one per connection, which reads it.

* `PublishEvent` is one step (the order of the observers is the subject of C66).
* What is read is passed up in the same step (`data`).  Whether there are data, and whether the peer has closed, is chosen by the label.
* `Read` of a connection that is closed at this side fails at once; if the peer has closed it may fail, after some more data.
* Writing, which closes the connection when it fails (proc_lowerdeck.go:118-121), is not modelled; a program may close a connection (`close`).
-/

namespace Verif.Conn.Retire

open Verif.Trace
open Verif.Conn (Stream.Sys Stream.Conf)

/-- Where a goroutine that waits for connections (proc_lowerdeck.go:40-88) is. -/
inductive Loop where
  | top
  /-- in the call `i` of `NextConnection` -/
  | within (i : Nat)
  /-- before `PublishEvent` -/
  | announce (c : Nat)
  /-- before the `go` statement -/
  | spawn (c : Nat)
  | over
  deriving Repr, DecidableEq

/-- Where a goroutine that reads a connection (proc_lowerdeck.go:59-86) is. -/
inductive Stage where
  | reading
  /-- in `closeConnection`, before `c.Close()` -/
  | closing
  /-- in `closeConnection`, before `PublishEvent` -/
  | telling
  | over
  deriving Repr, DecidableEq

/-- What the rest of the stack sees. -/
inductive Pub where
  /-- `UStackEventNewConnection` -/
  | opened (c : Nat)
  /-- data of the connection, passed to `upper.OnLowerData` -/
  | data (c : Nat)
  /-- `UStackEventConnectionClosed` -/
  | closed (c : Nat)
  deriving Repr, DecidableEq

def Pub.con : Pub → Nat
  | .opened c => c
  | .data c => c
  | .closed c => c

structure Sys where
  tr : Stream.Sys
  loops : List Loop
  readers : List (Nat × Stage)
  /-- connections closed by the peer -/
  ended : List Nat
  out : List Pub

inductive Label where
  /-- `AddTransport` of the transport, or `LowerDeck.Run` with the transport in the list -/
  | add
  /-- `DeleteTransport` -/
  | del
  /-- a goroutine of the transport -/
  | transport (j : Nat) (ok : Bool)
  | loop (a : Nat)
  /-- reader `r` reads something -/
  | data (r : Nat)
  /-- `Read` of reader `r` fails -/
  | fail (r : Nat)
  /-- reader `r` proceeds in `closeConnection` -/
  | finish (r : Nat)
  | peer (c : Nat)
  /-- the program closes a connection -/
  | close (c : Nat)
  deriving Repr, DecidableEq

/-- One step of an accept goroutine. -/
def loopStep (s : Sys) (a : Nat) : Option Sys :=
  match s.loops[a]? with
  | some .top => (Stream.step s.tr .call).map fun t => { s with tr := t, loops := s.loops.set a (.within s.tr.callers.length) }
  | some (.within i) =>
    match s.tr.callers[i]? with
    | some (.waiting _) => (Stream.step s.tr (.recv i)).map fun t => { s with tr := t }
    | some (.got none) => (Stream.step s.tr (.save i)).map fun t => { s with tr := t, loops := s.loops.set a .over }
    | some (.got (some c)) => (Stream.step s.tr (.save i)).map fun t => { s with tr := t, loops := s.loops.set a (.announce c) }
    | _ => none
  | some (.announce c) => some { s with loops := s.loops.set a (.spawn c), out := s.out ++ [.opened c] }
  | some (.spawn c) => some { s with loops := s.loops.set a .top, readers := s.readers ++ [(c, .reading)] }
  | _ => none

def act (s : Sys) : Label → Option Sys
  -- proc_lowerdeck.go:37 and :40
  | .add => (Stream.step s.tr .run).map fun t => { s with tr := t, loops := s.loops ++ [.top] }
  -- proc_lowerdeck.go:94
  | .del => (Stream.step s.tr .stop).map fun t => { s with tr := t }
  | .transport j ok => (Stream.step s.tr (.go j ok)).map fun t => { s with tr := t }
  | .loop a => loopStep s a
  -- proc_lowerdeck.go:73-84
  | .data r =>
    match s.readers[r]? with
    | some (c, .reading) => if c ∈ s.tr.closedCons then none else some { s with out := s.out ++ [.data c] }
    | _ => none
  | .fail r =>
    match s.readers[r]? with
    | some (c, .reading) => if c ∈ s.tr.closedCons ∨ c ∈ s.ended then some { s with readers := s.readers.set r (c, .closing) } else none
    | _ => none
  -- closeConnection (proc_lowerdeck.go:22-32)
  | .finish r =>
    match s.readers[r]? with
    | some (c, .closing) => (Stream.step s.tr (.close c)).map fun t => { s with tr := t, readers := s.readers.set r (c, .telling) }
    | some (c, .telling) => some { s with readers := s.readers.set r (c, .over), out := s.out ++ [.closed c] }
    | _ => none
  | .peer c => some { s with ended := s.ended ++ [c] }
  | .close c => (Stream.step s.tr (.close c)).map fun t => { s with tr := t }

def step (s : Sys) (l : Label) : Option Sys := if s.tr.crash = none then act s l else none

abbrev exec := Trace.exec step

def init (conf : Stream.Conf) : Sys := ⟨Stream.init conf, [], [], [], []⟩

/-- A goroutine of `LowerDeck` that does not wait for something to happen outside of it can take a step with one of these. -/
def Inner : Label → Prop
  | .loop _ => True
  | .fail _ => True
  | .finish _ => True
  | _ => False

/-- All goroutines of `LowerDeck` have ended, or wait: for a connection, or for data. -/
def Rest (s : Sys) : Prop := ∀ l, Inner l → step s l = none

theorem alive {s s' : Sys} {l : Label} (h : step s l = some s') : s.tr.crash = none ∧ act s l = some s' := by
  simp only [step] at h
  split at h
  · rename_i e; exact ⟨e, h⟩
  · simp at h

/-! ## The transport alone -/

theorem map_some {α β : Type} {o : Option α} {f : α → β} {b : β} (h : o.map f = some b) : ∃ a, o = some a ∧ f a = b := by
  cases o with
  | none => simp at h
  | some a => exact ⟨a, rfl, by simpa using h⟩

/-- Every step is a step of the transport or leaves it alone. -/
theorem tr_step {s s' : Sys} {l : Label} (h : step s l = some s') : s'.tr = s.tr ∨ ∃ k, Stream.step s.tr k = some s'.tr := by
  obtain ⟨_, ha⟩ := alive h
  cases l with
  | add => obtain ⟨t, ht, rfl⟩ := map_some ha; exact .inr ⟨_, ht⟩
  | del => obtain ⟨t, ht, rfl⟩ := map_some ha; exact .inr ⟨_, ht⟩
  | transport j ok => obtain ⟨t, ht, rfl⟩ := map_some ha; exact .inr ⟨_, ht⟩
  | loop a =>
    simp only [act, loopStep] at ha
    repeat' split at ha
    all_goals first
      | (obtain ⟨t, ht, rfl⟩ := map_some ha; exact .inr ⟨_, ht⟩)
      | (injection ha with ha; subst ha; exact .inl rfl)
      | simp at ha
  | data r =>
    simp only [act] at ha
    repeat' split at ha
    all_goals first
      | (injection ha with ha; subst ha; exact .inl rfl)
      | simp at ha
  | fail r =>
    simp only [act] at ha
    repeat' split at ha
    all_goals first
      | (injection ha with ha; subst ha; exact .inl rfl)
      | simp at ha
  | finish r =>
    simp only [act] at ha
    repeat' split at ha
    all_goals first
      | (obtain ⟨t, ht, rfl⟩ := map_some ha; exact .inr ⟨_, ht⟩)
      | (injection ha with ha; subst ha; exact .inl rfl)
      | simp at ha
  | peer c => injection ha with ha; subst ha; exact .inl rfl
  | close c => obtain ⟨t, ht, rfl⟩ := map_some ha; exact .inr ⟨_, ht⟩

/-- What holds for the transport in every execution of `Stream` holds here. -/
theorem tr_exec (conf : Stream.Conf) (ls : List Label) (s : Sys) (h : exec (init conf) ls = some s) :
    ∃ ks, Stream.exec (Stream.init conf) ks = some s.tr := by
  refine invariant (step := step) (Q := fun _ => True) (P := fun s => ∃ ks, Stream.exec (Stream.init conf) ks = some s.tr) ?_ ls (init conf) s
    ⟨[], rfl⟩ (fun _ _ => trivial) h
  intro s l s' ⟨ks, hk⟩ _ hs
  rcases tr_step hs with e | ⟨k, e⟩
  · rw [e]; exact ⟨ks, hk⟩
  · refine ⟨ks ++ [k], ?_⟩
    show Trace.exec Stream.step _ _ = _
    rw [exec_append, show Trace.exec Stream.step _ _ = _ from hk]
    simp [Trace.exec, e]

/-- The log of the transport grows. -/
theorem log_step {s s' : Stream.Sys} {l : Stream.Label} (h : Stream.step s l = some s') : ∃ es, s'.log = s.log ++ es := by
  obtain ⟨_, ha⟩ := Stream.not_crashed h
  cases l with
  | run => injection ha with ha; subst ha; unfold Stream.run; split <;> exact ⟨[], by simp⟩
  | stop => injection ha with ha; subst ha; exact ⟨[], by simp [(Stream.stop_same s).2.2]⟩
  | call => injection ha with ha; subst ha; exact ⟨[], by simp⟩
  | recv i =>
    simp only [Stream.act] at ha
    repeat' split at ha
    all_goals first | (injection ha with ha; subst ha; exact ⟨[], by simp⟩) | simp at ha
  | save i =>
    simp only [Stream.act] at ha
    split at ha
    · injection ha with ha; subst ha; exact ⟨_, rfl⟩
    · simp at ha
  | close c => injection ha with ha; subst ha; exact ⟨[], by simp⟩
  | go j ok =>
    simp only [Stream.act, Stream.goStep] at ha
    repeat' split at ha
    all_goals first
      | (injection ha with ha; subst ha; exact ⟨_, rfl⟩)
      | (injection ha with ha; subst ha; exact ⟨[], (List.append_nil _).symm⟩)
      | (injection ha with ha; subst ha; exact ⟨[], (Stream.stop_same _).2.2.trans (List.append_nil _).symm⟩)
      | simp at ha

/-- Made, on the way to a caller, or handed out: every connection is in one place. -/
def ledger (c : Nat) (s : Stream.Sys) : Nat := Stream.onTheWay c s + s.log.count (.returned (some c))

open Stream (weigh weigh_set weigh_append inGo inChan inCaller onTheWay stop_way stop_same save_next not_crashed Go Caller Chan Ev) in
theorem ledger_step {s s' : Stream.Sys} {l : Stream.Label} (hs : Stream.step s l = some s') (c : Nat) :
    ledger c s' = ledger c s + (if s.cons ≤ c ∧ c < s'.cons then 1 else 0) := by
  obtain ⟨_, ha⟩ := not_crashed hs
  have no : ∀ n : Nat, (if n ≤ c ∧ c < n then 1 else 0) = 0 := fun n => if_neg (by omega)
  cases l with
  | run =>
    injection ha with ha; subst ha
    unfold Stream.run
    split
    · simp [no]
    · simp only [ledger, onTheWay, weigh_append, no]
      have : weigh (inGo c) [if s.conf.forServer then .listen else .dial 0] = 0 := by split <;> rfl
      have : weigh (inChan c) [⟨[], false⟩] = 0 := rfl
      omega
  | stop =>
    injection ha with ha; subst ha
    obtain ⟨h1, h2⟩ := stop_way c s
    simp only [ledger, h1, h2, (stop_same s).2.2, no]
    omega
  | call =>
    injection ha with ha; subst ha
    simp only [ledger, onTheWay, weigh_append, no]
    have : weigh (inCaller c) [.waiting s.next] = 0 := rfl
    omega
  | recv i =>
    simp only [Stream.act] at ha
    split at ha
    · rename_i k hi
      split at ha
      · simp at ha
      · rename_i ch hk
        split at ha
        · rename_i d rest hb
          injection ha with ha; subst ha
          simp only [ledger, onTheWay, no]
          have e1 := weigh_set (inChan c) s.chans k { ch with buf := rest } ch hk
          have e2 := weigh_set (inCaller c) s.callers i (.got (some d)) _ hi
          have e3 : inChan c ch = inChan c { ch with buf := rest } + inCaller c (.got (some d)) := by
            simp only [inChan, hb, inCaller, List.count_cons, Option.some.injEq, beq_iff_eq]
          have e4 : inCaller c (.waiting (some k)) = 0 := rfl
          omega
        · split at ha
          · injection ha with ha; subst ha
            simp only [ledger, onTheWay, no]
            have e2 := weigh_set (inCaller c) s.callers i (.got none) _ hi
            have e3 : inCaller c (.got none) = 0 := by simp [inCaller]
            have e4 : inCaller c (.waiting (some k)) = 0 := rfl
            omega
          · simp at ha
    · simp at ha
  | save i =>
    simp only [Stream.act] at ha
    split at ha
    · rename_i r hi
      injection ha with ha; subst ha
      have hx : (Stream.save s r).cons = s.cons := by unfold Stream.save; split; rfl; split <;> rfl
      simp only [ledger, onTheWay, (save_next s r).2.2.2.2.2.1, (save_next s r).2.1, hx, List.count_append, no]
      have e2 := weigh_set (inCaller c) s.callers i (.returned r) _ hi
      have e3 : inCaller c (.returned r) = 0 := rfl
      have e4 : inCaller c (.got r) = List.count (Ev.returned (some c)) [.returned r] := by
        simp only [inCaller, List.count_singleton, beq_iff_eq, Ev.returned.injEq]
      omega
    · simp at ha
  | close d => injection ha with ha; subst ha; simp only [ledger, onTheWay, no]; omega
  | go j ok =>
    have mv : ∀ (s'' : Stream.Sys) (g g' : Go) (es : List Ev), s.gos[j]? = some g → s''.gos = s.gos.set j g' → s''.callers = s.callers →
        s''.log = s.log ++ es → List.count (Ev.returned (some c)) es = 0 →
        (∃ n, (if s.cons ≤ c ∧ c < s''.cons then 1 else 0) = n ∧ weigh (inChan c) s''.chans + inGo c g' = weigh (inChan c) s.chans + inGo c g + n) →
        ledger c s'' = ledger c s + (if s.cons ≤ c ∧ c < s''.cons then 1 else 0) := by
      intro s'' g g' es hj h1 h2 h4 h5 ⟨n, h6, h3⟩
      rw [h6]
      have := weigh_set (inGo c) s.gos j g' g hj
      simp only [ledger, onTheWay, h1, h2, h4, List.count_append, h5]
      omega
    cases hj : s.gos[j]? with
    | none => simp [Stream.act, Stream.goStep, hj] at ha
    | some g =>
      cases g with
      | listen =>
        simp only [Stream.act, Stream.goStep, hj] at ha
        split at ha <;> injection ha with ha <;> subst ha
        · exact mv _ _ .loop [] hj rfl rfl (by simp [Stream.Sys.setGo]) rfl ⟨0, no s.cons, rfl⟩
        · simp only [ledger, onTheWay, no]; omega
      | loop =>
        simp only [Stream.act, Stream.goStep, hj] at ha
        split at ha <;> injection ha with ha <;> subst ha
        · simp only [ledger, onTheWay, no]; omega
        · exact mv _ _ _ [] hj rfl rfl (by simp [Stream.Sys.setGo]) rfl ⟨0, no s.cons, rfl⟩
      | accepting l =>
        simp only [Stream.act, Stream.goStep, hj] at ha
        split at ha
        · split at ha
          · simp at ha
          · injection ha with ha; subst ha
            refine mv _ _ (.prep s.cons true) [] hj rfl rfl (by simp [Stream.Sys.setGo]) rfl ?_
            refine ⟨_, rfl, ?_⟩
            simp only [inGo, Stream.Sys.setGo]
            split <;> split <;> omega
        · injection ha with ha; subst ha
          exact mv _ _ .stopping [] hj rfl rfl (by simp [Stream.Sys.setGo]) rfl ⟨0, no s.cons, rfl⟩
      | prep d again =>
        simp only [Stream.act, Stream.goStep, hj] at ha
        split at ha
        · simp at ha
        · injection ha with ha; subst ha
          exact mv _ _ _ [] hj rfl rfl (by simp [Stream.Sys.setGo]) rfl ⟨0, no s.cons, rfl⟩
      | push k d again =>
        simp only [Stream.act, Stream.goStep, hj] at ha
        split at ha
        · simp at ha
        · rename_i ch hk
          split at ha
          · injection ha with ha; subst ha
            simp only [ledger, onTheWay, no]; omega
          · split at ha
            · injection ha with ha; subst ha
              refine mv _ _ _ [.sent j d] hj rfl rfl rfl rfl ?_
              have e1 := weigh_set (inChan c) s.chans k { ch with buf := ch.buf ++ [d] } ch hk
              have e2 : inChan c { ch with buf := ch.buf ++ [d] } = inChan c ch + inGo c (.push k d again) := by
                simp only [inChan, inGo, List.count_append, List.count_singleton, beq_iff_eq]
              have e3 : inGo c (if again then .loop else .done) = 0 := by cases again <;> rfl
              refine ⟨0, no s.cons, ?_⟩
              simp only [Stream.Sys.setGo]
              omega
            · simp at ha
      | dial i =>
        simp only [Stream.act, Stream.goStep, hj] at ha
        split at ha
        · split at ha <;> injection ha with ha <;> subst ha
          · refine mv _ _ (.prep s.cons false) [.dial j true] hj rfl rfl rfl rfl ?_
            refine ⟨_, rfl, ?_⟩
            simp only [inGo, Stream.Sys.setGo]
            split <;> split <;> omega
          · exact mv _ _ (.dial (i + 1)) [.dial j false] hj rfl rfl rfl rfl ⟨0, no s.cons, rfl⟩
        · injection ha with ha; subst ha
          exact mv _ _ .stopping [] hj rfl rfl (by simp [Stream.Sys.setGo]) rfl ⟨0, no s.cons, rfl⟩
      | stopping =>
        simp only [Stream.act, Stream.goStep, hj] at ha
        injection ha with ha; subst ha
        obtain ⟨h1, h2⟩ := stop_way c (s.setGo j .done)
        have h3 := (stop_same (s.setGo j .done)).2.2
        have := mv (s.setGo j .done) _ .done [] hj rfl rfl (by simp [Stream.Sys.setGo]) rfl ⟨0, no s.cons, rfl⟩
        simp only [ledger] at this ⊢
        rw [h1, h2, h3]
        exact this
      | done => simp [Stream.act, Stream.goStep, hj] at ha

theorem ledger_exec (conf : Stream.Conf) (ks : List Stream.Label) (s : Stream.Sys) (h : Stream.exec (Stream.init conf) ks = some s) (c : Nat) :
    ledger c s = if c < s.cons then 1 else 0 := by
  refine invariant (step := Stream.step) (Q := fun _ => True) (P := fun s => ledger c s = if c < s.cons then 1 else 0) ?_ ks (Stream.init conf) s ?_
    (fun _ _ => trivial) h
  · intro s l s' hp _ hs
    have h1 := (Stream.way_step hs c).1
    rw [ledger_step hs c, hp]
    split <;> split <;> split <;> omega
  · simp [Stream.init, ledger, Stream.onTheWay, Stream.weigh]

/-! ## What the steps of the transport's own goroutines, of `Run`, `Stop` and `Close` leave alone -/

structure Frame (t t' : Stream.Sys) : Prop where
  callers : t'.callers = t.callers
  length : t.chans.length ≤ t'.chans.length
  log : ∀ c, t'.log.count (.returned (some c)) = t.log.count (.returned (some c))
  closed : ∀ c, c ∈ t.closedCons → c ∈ t'.closedCons

/-- `Frame`, and a transport that runs afterwards ran before, with the same channel. -/
structure Quiet (t t' : Stream.Sys) : Prop extends Frame t t' where
  running : t'.isRunning = true → t.isRunning = true ∧ t'.chans.length = t.chans.length

theorem stop_quiet (t : Stream.Sys) : Quiet t (Stream.stop t) := by
  refine ⟨⟨(Stream.stop_callers t).1, Nat.le_of_eq (Stream.stop_callers t).2.symm, fun c => by rw [(Stream.stop_same t).2.2], ?_⟩, fun h => ⟨?_, (Stream.stop_callers t).2⟩⟩
  · intro c hc
    unfold Stream.stop
    split
    · exact hc
    · cases t.listener <;> simp only <;> repeat' split
      all_goals first | exact hc | exact List.mem_append_left _ hc
  · by_cases e : t.isRunning = true
    · exact e
    · rw [Stream.stop, if_pos (by simpa using e)] at h
      exact h

theorem close_quiet {t t' : Stream.Sys} {c : Nat} (h : Stream.step t (.close c) = some t') : Quiet t t' := by
  obtain ⟨_, ha⟩ := Stream.not_crashed h
  injection ha with ha; subst ha
  exact ⟨⟨rfl, Nat.le_refl _, fun _ => rfl, fun _ hc => List.mem_append_left _ hc⟩, fun h => ⟨h, rfl⟩⟩

theorem close_closed {t t' : Stream.Sys} {c : Nat} (h : Stream.step t (.close c) = some t') : c ∈ t'.closedCons := by
  obtain ⟨_, ha⟩ := Stream.not_crashed h
  injection ha with ha; subst ha
  simp

theorem run_frame {t t' : Stream.Sys} (h : Stream.step t .run = some t') : Frame t t' := by
  obtain ⟨_, ha⟩ := Stream.not_crashed h
  injection ha with ha; subst ha
  unfold Stream.run
  split
  · exact ⟨rfl, Nat.le_refl _, fun _ => rfl, fun _ hc => hc⟩
  · exact ⟨rfl, by simp, fun _ => rfl, fun _ hc => hc⟩

theorem go_quiet {t t' : Stream.Sys} {j : Nat} {ok : Bool} (h : Stream.step t (.go j ok) = some t') : Quiet t t' := by
  obtain ⟨_, ha⟩ := Stream.not_crashed h
  have base : ∀ (g : Stream.Go), Quiet t (t.setGo j g) := fun g =>
    ⟨⟨rfl, Nat.le_refl _, fun _ => rfl, fun _ hc => hc⟩, fun h => ⟨h, rfl⟩⟩
  simp only [Stream.act, Stream.goStep] at ha
  split at ha
  · simp at ha
  · split at ha <;> injection ha with ha <;> subst ha <;>
      exact ⟨⟨rfl, Nat.le_refl _, fun _ => rfl, fun _ hc => hc⟩, fun h => ⟨h, rfl⟩⟩
  · split at ha <;> injection ha with ha <;> subst ha <;>
      exact ⟨⟨rfl, Nat.le_refl _, fun _ => rfl, fun _ hc => hc⟩, fun h => ⟨h, rfl⟩⟩
  · split at ha
    · split at ha
      · simp at ha
      · injection ha with ha; subst ha
        exact ⟨⟨rfl, Nat.le_refl _, fun _ => rfl, fun _ hc => hc⟩, fun h => ⟨h, rfl⟩⟩
    · injection ha with ha; subst ha; exact base _
  · split at ha
    · simp at ha
    · injection ha with ha; subst ha; exact base _
  · split at ha
    · simp at ha
    · split at ha
      · injection ha with ha; subst ha
        exact ⟨⟨rfl, Nat.le_refl _, fun _ => rfl, fun _ hc => hc⟩, fun h => ⟨h, rfl⟩⟩
      · split at ha
        · injection ha with ha; subst ha
          exact ⟨⟨rfl, by simp [Stream.Sys.setGo], fun _ => by simp [List.count_append, List.count_singleton], fun _ hc => hc⟩,
            fun h => ⟨h, by simp [Stream.Sys.setGo]⟩⟩
        · simp at ha
  · split at ha
    · split at ha <;> injection ha with ha <;> subst ha <;>
        exact ⟨⟨rfl, Nat.le_refl _, fun _ => by simp [List.count_append, List.count_singleton], fun _ hc => hc⟩, fun h => ⟨h, rfl⟩⟩
    · injection ha with ha; subst ha; exact base _
  · injection ha with ha; subst ha
    have h1 := base .done
    have h2 := stop_quiet (t.setGo j .done)
    exact ⟨⟨h2.callers.trans h1.callers, Nat.le_trans h1.length h2.length, fun c => (h2.log c).trans (h1.log c), fun c hc => h2.closed c (h1.closed c hc)⟩,
      fun h => ⟨(h2.running h).1, (h2.running h).2⟩⟩
  · simp at ha

/-! ## The accept goroutines and their calls -/

/-- A goroutine at this place will look at the current channel, or does already. -/
def Attends (t : Stream.Sys) : Loop → Prop
  | .top => True
  | .announce _ => True
  | .spawn _ => True
  | .within i => t.callers[i]? = some (.waiting (some (t.chans.length - 1))) ∨ ∃ c, t.callers[i]? = some (.got (some c))
  | .over => False

structure Calls (s : Sys) : Prop where
  /-- whoever is in a call is in a call that has not returned -/
  calls : ∀ (a i : Nat), s.loops[a]? = some (.within i) → ∃ x, s.tr.callers[i]? = some x ∧ ∀ r, x ≠ .returned r
  inj : ∀ (a b i : Nat), s.loops[a]? = some (.within i) → s.loops[b]? = some (.within i) → a = b
  /-- there are no other calls -/
  owned : ∀ (i : Nat) (x : Stream.Caller), s.tr.callers[i]? = some x → (∃ r, x = .returned r) ∨ ∃ a : Nat, s.loops[a]? = some (.within i)
  chan : ∀ (i : Nat) (o : Option Nat), s.tr.callers[i]? = some (.waiting o) → ∃ k, o = some k ∧ k < s.tr.chans.length
  begun : s.loops ≠ [] → 0 < s.tr.chans.length
  /-- a running transport is attended -/
  live : s.tr.isRunning = true → ∃ (a : Nat) (p : Loop), s.loops[a]? = some p ∧ Attends s.tr p

theorem Calls.quiet {s : Sys} (h : Calls s) {t : Stream.Sys} (q : Quiet s.tr t) (rs : List (Nat × Stage)) (e : List Nat) (o : List Pub) :
    Calls ⟨t, s.loops, rs, e, o⟩ := by
  have hc := q.callers
  refine ⟨fun a i hi => ?_, h.inj, fun i x hi => ?_, fun i x hi => ?_, fun hl => Nat.lt_of_lt_of_le (h.begun hl) q.length, fun hr => ?_⟩
  · rw [hc]; exact h.calls a i hi
  · rw [hc] at hi; exact h.owned i x hi
  · rw [hc] at hi
    obtain ⟨k, rfl, hk⟩ := h.chan i x hi
    exact ⟨k, rfl, Nat.lt_of_lt_of_le hk q.length⟩
  · obtain ⟨hr, hl⟩ := q.running hr
    obtain ⟨a, p, hp, ha⟩ := h.live hr
    refine ⟨a, p, hp, ?_⟩
    cases p with
    | within i => simp only [Attends, hc, hl]; exact ha
    | _ => exact ha

theorem Calls.same {s : Sys} (h : Calls s) (rs : List (Nat × Stage)) (e : List Nat) (o : List Pub) : Calls ⟨s.tr, s.loops, rs, e, o⟩ :=
  ⟨h.calls, h.inj, h.owned, h.chan, h.begun, h.live⟩

/-- A goroutine that is in no call goes on to another place outside of the calls, where it attends. -/
theorem Calls.move {s : Sys} (h : Calls s) (a : Nat) (p q : Loop) (hp : s.loops[a]? = some p) (hq : ∀ i, q ≠ .within i) (hp' : ∀ i, p ≠ .within i)
    (ha : q ≠ .over) (rs : List (Nat × Stage)) (e : List Nat) (o : List Pub) : Calls ⟨s.tr, s.loops.set a q, rs, e, o⟩ := by
  have hlt := (List.getElem?_eq_some_iff.mp hp).1
  have key : ∀ b i, (s.loops.set a q)[b]? = some (.within i) → b ≠ a ∧ s.loops[b]? = some (.within i) := by
    intro b i hb
    rw [List.getElem?_set] at hb
    split at hb
    · injection hb with hb
      exact absurd hb (hq i)
    · rename_i e
      exact ⟨fun e' => e e'.symm, hb⟩
  refine ⟨fun b i hb => h.calls b i (key b i hb).2, fun b b' i hb hb' => h.inj b b' i (key b i hb).2 (key b' i hb').2, fun i x hx => ?_, h.chan,
    fun _ => h.begun (fun e => by simp [e] at hp), fun _ => ⟨a, q, by simp [List.getElem?_set, hlt], ?_⟩⟩
  · rcases h.owned i x hx with hr | ⟨b, hb⟩
    · exact .inl hr
    · refine .inr ⟨b, ?_⟩
      have : a ≠ b := by
        rintro rfl
        rw [hp] at hb
        injection hb with hb
        exact hp' i hb
      simp only [List.getElem?_set, if_neg this]
      exact hb
  · cases q with
    | within i => exact absurd rfl (hq i)
    | over => exact absurd rfl ha
    | _ => trivial

/-- A goroutine in a call makes a step of it. -/
theorem Calls.inside {s : Sys} (h : Calls s) (a i : Nat) (x y : Stream.Caller) (t : Stream.Sys) (hp : s.loops[a]? = some (.within i))
    (hx : s.tr.callers[i]? = some x) (h1 : t.callers = s.tr.callers.set i y) (h2 : t.chans.length = s.tr.chans.length)
    (h3 : t.isRunning = s.tr.isRunning) (hy : ∀ r, y ≠ .returned r) (hw : ∀ o, y ≠ .waiting o)
    (hl : s.tr.isRunning = true → (x = .waiting (some (s.tr.chans.length - 1)) ∨ ∃ c, x = .got (some c)) → ∃ c, y = .got (some c)) :
    Calls ⟨t, s.loops, s.readers, s.ended, s.out⟩ := by
  have hlt := (List.getElem?_eq_some_iff.mp hx).1
  have ht : ∀ m, t.callers[m]? = if i = m then some y else s.tr.callers[m]? := by
    intro m
    rw [h1, List.getElem?_set]
    split
    · rename_i e; subst e; simp [hlt]
    · rfl
  refine ⟨fun b m hb => ?_, h.inj, fun m z hz => ?_, fun m o ho => ?_, fun e => by rw [h2]; exact h.begun e, fun hr => ?_⟩
  · simp only [ht]
    split
    · exact ⟨y, rfl, hy⟩
    · exact h.calls b m hb
  · simp only [ht] at hz
    split at hz
    · rename_i e; subst e; exact .inr ⟨a, hp⟩
    · exact h.owned m z hz
  · simp only [ht] at ho
    split at ho
    · injection ho with ho; exact absurd ho (hw o)
    · rw [h2]; exact h.chan m o ho
  · rw [h3] at hr
    obtain ⟨b, p, hb, hat⟩ := h.live hr
    refine ⟨b, p, hb, ?_⟩
    cases p with
    | within m =>
      simp only [Attends, ht, h2]
      by_cases e : i = m
      · subst e
        rw [if_pos rfl]
        simp only [Attends, hx] at hat
        obtain ⟨c, rfl⟩ := hl hr (by
          rcases hat with hat | ⟨c, hat⟩
          · injection hat with hat; exact .inl hat
          · injection hat with hat; exact .inr ⟨c, hat⟩)
        exact .inr ⟨c, rfl⟩
      · rw [if_neg e]; exact hat
    | _ => exact hat

/-- A call returns, and the goroutine goes on outside of it. -/
theorem Calls.leave {s : Sys} (h : Calls s) (a i : Nat) (r : Option Nat) (q : Loop) (t : Stream.Sys) (hp : s.loops[a]? = some (.within i))
    (hx : s.tr.callers[i]? = some (.got r)) (h1 : t.callers = s.tr.callers.set i (.returned r)) (h2 : t.chans = s.tr.chans)
    (h3 : t.isRunning = s.tr.isRunning) (hq : q = match r with | none => .over | some c => .announce c) :
    Calls ⟨t, s.loops.set a q, s.readers, s.ended, s.out⟩ := by
  have hlt := (List.getElem?_eq_some_iff.mp hx).1
  have hla := (List.getElem?_eq_some_iff.mp hp).1
  have hqw : ∀ m, q ≠ .within m := by intro m; subst hq; cases r <;> simp
  have ht : ∀ m, t.callers[m]? = if i = m then some (.returned r) else s.tr.callers[m]? := by
    intro m
    rw [h1, List.getElem?_set]
    split
    · rename_i e; subst e; simp [hlt]
    · rfl
  have hs : ∀ b, (s.loops.set a q)[b]? = if a = b then some q else s.loops[b]? := by
    intro b
    rw [List.getElem?_set]
    split
    · rename_i e; subst e; simp [hla]
    · rfl
  have key : ∀ b m : Nat, (s.loops.set a q)[b]? = some (.within m) → a ≠ b ∧ i ≠ m ∧ s.loops[b]? = some (.within m) := by
    intro b m hb
    rw [hs] at hb
    split at hb
    · injection hb with hb; exact absurd hb (hqw m)
    · rename_i e
      exact ⟨e, fun e' => e (h.inj a b m (by rw [hp, e']) hb), hb⟩
  refine ⟨fun b m hb => ?_, fun b b' m hb hb' => h.inj b b' m (key b m hb).2.2 (key b' m hb').2.2, fun m z hz => ?_, fun m o ho => ?_, fun _ => ?_, fun hr => ?_⟩
  · obtain ⟨_, e2, e3⟩ := key b m hb
    simp only [ht, if_neg e2]
    exact h.calls b m e3
  · simp only [ht] at hz
    split at hz
    · injection hz with hz; exact .inl ⟨r, hz.symm⟩
    · rename_i e
      rcases h.owned m z hz with hh | ⟨b, hb⟩
      · exact .inl hh
      · refine .inr ⟨b, ?_⟩
        rw [hs, if_neg]
        · exact hb
        · rintro rfl
          rw [hp] at hb
          injection hb with hb
          injection hb with hb
          exact e hb
  · simp only [ht] at ho
    split at ho
    · injection ho with ho; cases ho
    · show ∃ k, o = some k ∧ k < t.chans.length
      rw [h2]; exact h.chan m o ho
  · show 0 < t.chans.length
    rw [h2]; exact h.begun (fun e => by simp [e] at hp)
  · cases r with
    | some c => subst hq; exact ⟨a, .announce c, by rw [hs, if_pos rfl], trivial⟩
    | none =>
      subst hq
      have hr' : s.tr.isRunning = true := h3 ▸ hr
      obtain ⟨b, p, hb, hat⟩ := h.live hr'
      have hab : a ≠ b := by
        rintro rfl
        rw [hp] at hb
        injection hb with hb
        subst hb
        simp only [Attends, hx] at hat
        rcases hat with hat | ⟨c, hat⟩ <;> injection hat with hat <;> cases hat
      refine ⟨b, p, by rw [hs, if_neg hab]; exact hb, ?_⟩
      cases p with
      | within m =>
        have him : i ≠ m := fun e => hab (h.inj a b m (by rw [hp, e]) hb)
        simp only [Attends, ht, if_neg him, h2]
        exact hat
      | _ => exact hat

/-- A goroutine calls `NextConnection`. -/
theorem Calls.enter {s : Sys} (h : Calls s) (a : Nat) (t : Stream.Sys) (hp : s.loops[a]? = some .top) (hw : Stream.Wf s.tr)
    (h1 : t.callers = s.tr.callers ++ [.waiting s.tr.next]) (h2 : t.chans = s.tr.chans) (h3 : t.isRunning = s.tr.isRunning) :
    Calls ⟨t, s.loops.set a (.within s.tr.callers.length), s.readers, s.ended, s.out⟩ := by
  have hla := (List.getElem?_eq_some_iff.mp hp).1
  have hpos := h.begun (fun e => by simp [e] at hp)
  have hnext : s.tr.next = some (s.tr.chans.length - 1) := by rw [hw.last, if_neg (by omega)]
  rw [hnext] at h1
  have ht : ∀ m, t.callers[m]? = if m = s.tr.callers.length then some (.waiting (some (s.tr.chans.length - 1))) else s.tr.callers[m]? := by
    intro m
    rw [h1, List.getElem?_append]
    split
    · rw [if_neg (by omega)]
    · split
      · rename_i e; subst e; simp
      · rw [List.getElem?_eq_none (by simp; omega), List.getElem?_eq_none (by omega)]
  have hs : ∀ b, (s.loops.set a (Loop.within s.tr.callers.length))[b]? = if a = b then some (.within s.tr.callers.length) else s.loops[b]? := by
    intro b
    rw [List.getElem?_set]
    split
    · rename_i e; subst e; simp [hla]
    · rfl
  have old : ∀ b m : Nat, s.loops[b]? = some (.within m) → m < s.tr.callers.length := by
    intro b m hb
    obtain ⟨x, hx, _⟩ := h.calls b m hb
    exact (List.getElem?_eq_some_iff.mp hx).1
  have key : ∀ b m : Nat, (s.loops.set a (Loop.within s.tr.callers.length))[b]? = some (.within m) →
      (a = b ∧ m = s.tr.callers.length) ∨ (a ≠ b ∧ m < s.tr.callers.length ∧ s.loops[b]? = some (.within m)) := by
    intro b m hb
    rw [hs] at hb
    split at hb
    · rename_i e; injection hb with hb; injection hb with hb; exact .inl ⟨e, hb.symm⟩
    · rename_i e; exact .inr ⟨e, old b m hb, hb⟩
  refine ⟨fun b m hb => ?_, fun b b' m hb hb' => ?_, fun m z hz => ?_, fun m o ho => ?_, fun _ => ?_, fun hr => ⟨a, .within s.tr.callers.length, ?_, .inl ?_⟩⟩
  · show ∃ x, t.callers[m]? = some x ∧ _
    rcases key b m hb with ⟨_, rfl⟩ | ⟨_, hm, hb⟩
    · exact ⟨_, by rw [ht, if_pos rfl], by simp⟩
    · rw [ht, if_neg (by omega)]; exact h.calls b m hb
  · rcases key b m hb with ⟨e, rfl⟩ | ⟨_, hm, hb⟩ <;> rcases key b' _ hb' with ⟨e', e''⟩ | ⟨_, hm', hb'⟩
    · omega
    · omega
    · omega
    · exact h.inj b b' m hb hb'
  · have hz : t.callers[m]? = some z := hz
    rw [ht] at hz
    split at hz
    · rename_i e; subst e; exact .inr ⟨a, by rw [hs, if_pos rfl]⟩
    · rcases h.owned m z hz with hh | ⟨b, hb⟩
      · exact .inl hh
      · refine .inr ⟨b, ?_⟩
        rw [hs, if_neg]
        · exact hb
        · rintro rfl; rw [hp] at hb; injection hb with hb; cases hb
  · have ho : t.callers[m]? = some (.waiting o) := ho
    show ∃ k, o = some k ∧ k < t.chans.length
    rw [h2]
    rw [ht] at ho
    split at ho
    · injection ho with ho; injection ho with ho; exact ⟨_, ho.symm, by omega⟩
    · exact h.chan m o ho
  · show 0 < t.chans.length
    rw [h2]; exact hpos
  · rw [hs, if_pos rfl]
  · show t.callers[s.tr.callers.length]? = some (.waiting (some (t.chans.length - 1)))
    rw [ht, if_pos rfl, h2]

theorem calls_step {s s' : Sys} {l : Label} (h : Calls s) (hw : Stream.Wf s.tr) (hs : step s l = some s') : Calls s' := by
  obtain ⟨hc, ha⟩ := alive hs
  cases l with
  | add =>
    obtain ⟨t, ht, rfl⟩ := map_some ha
    have f := run_frame ht
    have hpos : 0 < t.chans.length := by
      obtain ⟨_, hb⟩ := Stream.not_crashed ht
      injection hb with hb; subst hb
      unfold Stream.run
      split
      · rename_i e; exact hw.running e
      · simp
    have key : ∀ b m : Nat, (s.loops ++ [Loop.top])[b]? = some (.within m) → s.loops[b]? = some (.within m) := by
      intro b m hb
      rw [List.getElem?_append] at hb
      split at hb
      · exact hb
      · cases hz : b - s.loops.length <;> rw [hz] at hb <;> simp at hb
    refine ⟨fun b m hb => ?_, fun b b' m hb hb' => h.inj b b' m (key b m hb) (key b' m hb'), fun m z hz => ?_, fun m o ho => ?_, fun _ => hpos,
      fun hr => ⟨s.loops.length, .top, by simp, trivial⟩⟩
    · show ∃ x, t.callers[m]? = some x ∧ _
      rw [f.callers]; exact h.calls b m (key b m hb)
    · have hz : t.callers[m]? = some z := hz
      rw [f.callers] at hz
      rcases h.owned m z hz with hh | ⟨b, hb⟩
      · exact .inl hh
      · refine .inr ⟨b, ?_⟩
        show (s.loops ++ [Loop.top])[b]? = _
        rw [List.getElem?_append_left (List.getElem?_eq_some_iff.mp hb).1]
        exact hb
    · have ho : t.callers[m]? = some (.waiting o) := ho
      rw [f.callers] at ho
      obtain ⟨k, hk, hlt⟩ := h.chan m o ho
      exact ⟨k, hk, Nat.lt_of_lt_of_le hlt f.length⟩
  | del =>
    obtain ⟨t, ht, rfl⟩ := map_some ha
    obtain ⟨_, hb⟩ := Stream.not_crashed ht
    injection hb with hb; subst hb
    exact h.quiet (stop_quiet s.tr) _ _ _
  | transport j ok =>
    obtain ⟨t, ht, rfl⟩ := map_some ha
    exact h.quiet (go_quiet ht) _ _ _
  | loop a =>
    simp only [act, loopStep] at ha
    split at ha
    · rename_i hp
      obtain ⟨t, ht, rfl⟩ := map_some ha
      obtain ⟨_, hb⟩ := Stream.not_crashed ht
      injection hb with hb; subst hb
      exact h.enter a _ hp hw rfl rfl rfl
    · rename_i i hp
      split at ha
      · rename_i o hx
        obtain ⟨t, ht, rfl⟩ := map_some ha
        obtain ⟨_, hb⟩ := Stream.not_crashed ht
        simp only [Stream.act, hx] at hb
        split at hb
        · rename_i o' k hk
          injection hk with hk; injection hk with hk; subst hk
          split at hb
          · simp at hb
          · rename_i ch hch
            split at hb
            · rename_i c rest hbuf
              injection hb with hb; subst hb
              exact h.inside a i _ (.got (some c)) _ hp hx rfl (by simp) rfl (by simp) (by simp) (fun _ _ => ⟨c, rfl⟩)
            · rename_i hbuf
              split at hb
              · rename_i hcl
                injection hb with hb; subst hb
                refine h.inside a i _ (.got none) _ hp hx rfl rfl rfl (by simp) (by simp) (fun hr hat => ?_)
                exfalso
                have hk := hw.closed _ _ hch
                rw [hcl, hr] at hk
                rcases hat with hat | ⟨c, hat⟩
                · injection hat with hat
                  injection hat with hat
                  subst hat
                  have hpos := h.begun (fun e => by simp [e] at hp)
                  have : s.tr.chans.length - 1 + 1 = s.tr.chans.length := by omega
                  rw [this] at hk
                  simp at hk
                · cases hat
              · simp at hb
        · simp at hb
      · rename_i hx
        obtain ⟨t, ht, rfl⟩ := map_some ha
        obtain ⟨_, hb⟩ := Stream.not_crashed ht
        simp only [Stream.act, hx] at hb
        injection hb with hb; subst hb
        obtain ⟨_, e2, e3, _⟩ := Stream.save_next s.tr none
        exact h.leave a i none .over _ hp hx rfl e2 e3 rfl
      · rename_i c hx
        obtain ⟨t, ht, rfl⟩ := map_some ha
        obtain ⟨_, hb⟩ := Stream.not_crashed ht
        simp only [Stream.act, hx] at hb
        injection hb with hb; subst hb
        obtain ⟨_, e2, e3, _⟩ := Stream.save_next s.tr (some c)
        exact h.leave a i (some c) (.announce c) _ hp hx rfl e2 e3 rfl
      · simp at ha
    · rename_i c hp
      injection ha with ha; subst ha
      exact h.move a _ (.spawn c) hp (by simp) (by simp) (by simp) _ _ _
    · rename_i c hp
      injection ha with ha; subst ha
      exact h.move a _ .top hp (by simp) (by simp) (by simp) _ _ _
    · simp at ha
  | data r =>
    simp only [act] at ha
    repeat' split at ha
    all_goals first | (injection ha with ha; subst ha; exact h.same _ _ _) | simp at ha
  | fail r =>
    simp only [act] at ha
    repeat' split at ha
    all_goals first | (injection ha with ha; subst ha; exact h.same _ _ _) | simp at ha
  | finish r =>
    simp only [act] at ha
    split at ha
    · obtain ⟨t, ht, rfl⟩ := map_some ha
      exact h.quiet (close_quiet ht) _ _ _
    · injection ha with ha; subst ha; exact h.same _ _ _
    · simp at ha
  | peer c => injection ha with ha; subst ha; exact h.same _ _ _
  | close c =>
    obtain ⟨t, ht, rfl⟩ := map_some ha
    exact h.quiet (close_quiet ht) _ _ _

theorem calls_init (conf : Stream.Conf) : Calls (init conf) :=
  ⟨by simp [init], by simp [init], by simp [init, Stream.init], by simp [init, Stream.init], by simp [init], by simp [init, Stream.init]⟩

/-! ## What is published about a connection -/

open Stream (weigh weigh_set weigh_append weigh_le)

def announcing (c : Nat) : Loop → Nat
  | .announce d => if d = c then 1 else 0
  | _ => 0

def spawning (c : Nat) : Loop → Nat
  | .spawn d => if d = c then 1 else 0
  | _ => 0

def reads (c : Nat) (x : Nat × Stage) : Nat := if x.1 = c then 1 else 0

def ends (c : Nat) (x : Nat × Stage) : Nat := if x.1 = c ∧ x.2 = .over then 1 else 0

/-- announced -/
def known (c : Nat) (s : Sys) : Nat := weigh (spawning c) s.loops + weigh (reads c) s.readers

/-- its goroutine has ended -/
def gone (c : Nat) (s : Sys) : Nat := weigh (ends c) s.readers

/-- What is to be seen of a connection: its beginning, some data, its end; so far. -/
def Life (c : Nat) (begun over : Bool) (l : List Pub) : Prop :=
  ∃ n, l = (if begun then .opened c :: List.replicate n (.data c) else []) ++ (if over then [.closed c] else [])

structure Told (s : Sys) : Prop where
  told : ∀ c, s.tr.log.count (.returned (some c)) = weigh (announcing c) s.loops + known c s
  life : ∀ c, Life c (known c s != 0) (gone c s != 0) (s.out.filter (·.con == c))
  why : ∀ (r c : Nat) (st : Stage), s.readers[r]? = some (c, st) →
    (st ≠ .reading → c ∈ s.tr.closedCons ∨ c ∈ s.ended) ∧ (st = .telling ∨ st = .over → c ∈ s.tr.closedCons)

theorem ends_le (c : Nat) (l : List (Nat × Stage)) : weigh (ends c) l ≤ weigh (reads c) l := by
  induction l with
  | nil => simp [weigh]
  | cons x l ih =>
    have : ends c x ≤ reads c x := by
      simp only [ends, reads]
      split
      · rename_i e; rw [if_pos e.1]; exact Nat.le_refl _
      · omega
    simp only [weigh, List.map_cons, List.sum_cons] at ih ⊢
    omega

/-- A goroutine that has not ended is not counted among the ended ones. -/
theorem ends_lt (c r : Nat) (st : Stage) (l : List (Nat × Stage)) (h : l[r]? = some (c, st)) (hs : st ≠ .over) : weigh (ends c) l + 1 ≤ weigh (reads c) l := by
  have h1 := weigh_set (ends c) l r (c, .over) _ h
  have h2 := weigh_set (reads c) l r (c, .over) _ h
  have h3 := ends_le c (l.set r (c, .over))
  have e1 : ends c (c, Stage.over) = 1 := by simp [ends]
  have e2 : ends c (c, st) = 0 := by simp [ends, hs]
  have e3 : reads c (c, Stage.over) = reads c (c, st) := rfl
  omega

theorem Told.frame {s : Sys} (h : Told s) {t : Stream.Sys} (f : Frame s.tr t) : Told { s with tr := t } :=
  ⟨fun c => (f.log c).trans (h.told c), h.life, fun r c st hr =>
    ⟨fun hs => ((h.why r c st hr).1 hs).imp (f.closed c) id, fun hs => f.closed c ((h.why r c st hr).2 hs)⟩⟩

/-- Accept goroutines that move without being about to announce or to start a reader. -/
theorem Told.loops {s : Sys} (h : Told s) (ps : List Loop) (t : Stream.Sys) (hc : ∀ c, c ∈ s.tr.closedCons → c ∈ t.closedCons)
    (h1 : ∀ c, t.log.count (.returned (some c)) + weigh (announcing c) s.loops = s.tr.log.count (.returned (some c)) + weigh (announcing c) ps)
    (h2 : ∀ c, weigh (spawning c) ps = weigh (spawning c) s.loops) : Told { s with tr := t, loops := ps } := by
  have hk : ∀ c, known c { s with tr := t, loops := ps } = known c s := fun c => by simp only [known, h2]
  refine ⟨fun c => ?_, fun c => by rw [hk]; exact h.life c, fun r c st hr =>
    ⟨fun hs => ((h.why r c st hr).1 hs).imp (hc c) id, fun hs => hc c ((h.why r c st hr).2 hs)⟩⟩
  rw [hk]
  have := h1 c
  have := h.told c
  simp only
  omega

/-- A reader moves on to a stage that is not the last one. -/
theorem Told.stage {s : Sys} (h : Told s) (r c : Nat) (st st' : Stage) (t : Stream.Sys) (hr : s.readers[r]? = some (c, st)) (f : Frame s.tr t)
    (h1 : st ≠ .over) (h2 : st' ≠ .over) (h3 : c ∈ t.closedCons ∨ c ∈ s.ended) (h4 : st' = .telling → c ∈ t.closedCons) :
    Told { s with tr := t, readers := s.readers.set r (c, st') } := by
  have e1 : ∀ d, weigh (reads d) (s.readers.set r (c, st')) = weigh (reads d) s.readers := by
    intro d
    have := weigh_set (reads d) s.readers r (c, st') _ hr
    have : reads d (c, st') = reads d (c, st) := rfl
    omega
  have e2 : ∀ d, weigh (ends d) (s.readers.set r (c, st')) = weigh (ends d) s.readers := by
    intro d
    have := weigh_set (ends d) s.readers r (c, st') _ hr
    have : ends d (c, st') = 0 := by simp [ends, h2]
    have : ends d (c, st) = 0 := by simp [ends, h1]
    omega
  refine ⟨fun d => ?_, fun d => ?_, fun q d st2 hq => ?_⟩
  · simp only [known, e1]; exact (f.log d).trans (h.told d)
  · simp only [known, gone, e1, e2]; exact h.life d
  · simp only [List.getElem?_set] at hq
    split at hq
    · split at hq
      · injection hq with hq; injection hq with e3 e4
        subst e3 e4
        exact ⟨fun _ => h3, fun hh => hh.elim h4 fun e => absurd e h2⟩
      · simp at hq
    · exact ⟨fun hs => ((h.why q d st2 hq).1 hs).imp (f.closed d) id, fun hs => f.closed d ((h.why q d st2 hq).2 hs)⟩

theorem frame_refl (t : Stream.Sys) : Frame t t := ⟨rfl, Nat.le_refl _, fun _ => rfl, fun _ h => h⟩

theorem told_step {s s' : Sys} {l : Label} (h : Told s) (hone : ∀ c, s.tr.log.count (.returned (some c)) ≤ 1) (hs : step s l = some s') : Told s' := by
  obtain ⟨hc, ha⟩ := alive hs
  cases l with
  | add =>
    obtain ⟨t, ht, rfl⟩ := map_some ha
    have f := run_frame ht
    refine h.loops _ _ f.closed (fun c => ?_) (fun c => ?_)
    · rw [f.log c, weigh_append]
      have : weigh (announcing c) [Loop.top] = 0 := rfl
      omega
    · rw [weigh_append]
      have : weigh (spawning c) [Loop.top] = 0 := rfl
      omega
  | del =>
    obtain ⟨t, ht, rfl⟩ := map_some ha
    obtain ⟨_, hb⟩ := Stream.not_crashed ht
    injection hb with hb; subst hb
    exact h.frame (stop_quiet s.tr).toFrame
  | transport j ok =>
    obtain ⟨t, ht, rfl⟩ := map_some ha
    exact h.frame (go_quiet ht).toFrame
  | loop a =>
    simp only [act, loopStep] at ha
    split at ha
    · rename_i hp
      obtain ⟨t, ht, rfl⟩ := map_some ha
      obtain ⟨_, hb⟩ := Stream.not_crashed ht
      injection hb with hb; subst hb
      refine h.loops _ _ (fun _ hh => hh) (fun c => ?_) (fun c => ?_)
      · have := weigh_set (announcing c) s.loops a (.within s.tr.callers.length) _ hp
        have : announcing c .top = 0 := rfl
        have : announcing c (.within s.tr.callers.length) = 0 := rfl
        simp only
        omega
      · have := weigh_set (spawning c) s.loops a (.within s.tr.callers.length) _ hp
        have : spawning c .top = 0 := rfl
        have : spawning c (.within s.tr.callers.length) = 0 := rfl
        omega
    · rename_i i hp
      split at ha
      · rename_i o hx
        obtain ⟨t, ht, rfl⟩ := map_some ha
        obtain ⟨_, hb⟩ := Stream.not_crashed ht
        simp only [Stream.act, hx] at hb
        repeat' split at hb
        all_goals first
          | (injection hb with hb; subst hb
             exact h.loops s.loops _ (fun _ hh => hh) (fun _ => rfl) (fun _ => rfl))
          | simp at hb
      · rename_i hx
        obtain ⟨t, ht, rfl⟩ := map_some ha
        obtain ⟨_, hb⟩ := Stream.not_crashed ht
        simp only [Stream.act, hx] at hb
        injection hb with hb; subst hb
        obtain ⟨_, _, _, _, e5, _, e7, _⟩ := Stream.save_next s.tr none
        refine h.loops _ _ (fun _ hh => by rw [e5]; exact hh) (fun c => ?_) (fun c => ?_)
        · have := weigh_set (announcing c) s.loops a .over _ hp
          have : announcing c .over = 0 := rfl
          have : announcing c (.within i) = 0 := rfl
          have : List.count (Stream.Ev.returned (some c)) [.returned none] = 0 := rfl
          simp only [List.count_append]
          omega
        · have := weigh_set (spawning c) s.loops a .over _ hp
          have : spawning c .over = 0 := rfl
          have : spawning c (.within i) = 0 := rfl
          omega
      · rename_i d hx
        obtain ⟨t, ht, rfl⟩ := map_some ha
        obtain ⟨_, hb⟩ := Stream.not_crashed ht
        simp only [Stream.act, hx] at hb
        injection hb with hb; subst hb
        obtain ⟨_, _, _, _, e5, _, e7, _⟩ := Stream.save_next s.tr (some d)
        refine h.loops _ _ (fun _ hh => by rw [e5]; exact hh) (fun c => ?_) (fun c => ?_)
        · have := weigh_set (announcing c) s.loops a (.announce d) _ hp
          have : announcing c (.announce d) = List.count (Stream.Ev.returned (some c)) [.returned (some d)] := by
            simp only [announcing, List.count_singleton, beq_iff_eq, Stream.Ev.returned.injEq, Option.some.injEq]
          have : announcing c (.within i) = 0 := rfl
          simp only [List.count_append]
          omega
        · have := weigh_set (spawning c) s.loops a (.announce d) _ hp
          have : spawning c (.announce d) = 0 := rfl
          have : spawning c (.within i) = 0 := rfl
          omega
      · simp at ha
    · rename_i d hp
      injection ha with ha; subst ha
      have a1 : ∀ c, weigh (announcing c) (s.loops.set a (.spawn d)) + (if d = c then 1 else 0) = weigh (announcing c) s.loops :=
        fun c => weigh_set (announcing c) s.loops a (.spawn d) _ hp
      have a2 : ∀ c, weigh (spawning c) (s.loops.set a (.spawn d)) = weigh (spawning c) s.loops + (if d = c then 1 else 0) :=
        fun c => weigh_set (spawning c) s.loops a (.spawn d) _ hp
      refine ⟨fun c => ?_, fun c => ?_, h.why⟩
      · have := h.told c
        have := a1 c
        have := a2 c
        simp only [known] at this ⊢
        simp only [known] at *
        omega
      · by_cases e : d = c
        · subst e
          have h1 := h.told d
          have h2 := hone d
          have h3 := a1 d
          rw [if_pos rfl] at h3
          have h4 : known d s = 0 := by omega
          have h5 : gone d s = 0 := by
            have := ends_le d s.readers
            simp only [known] at h4
            simp only [gone]
            omega
          obtain ⟨n, hn⟩ := h.life d
          rw [h4, h5] at hn
          have h6 : known d ⟨s.tr, s.loops.set a (.spawn d), s.readers, s.ended, s.out ++ [.opened d]⟩ = 1 := by
            have := a2 d
            rw [if_pos rfl] at this
            simp only [known] at h4 ⊢
            omega
          have h7 : gone d ⟨s.tr, s.loops.set a (.spawn d), s.readers, s.ended, s.out ++ [.opened d]⟩ = 0 := h5
          rw [h6, h7]
          refine ⟨0, ?_⟩
          rw [List.filter_append, hn]
          simp [Pub.con]
        · obtain ⟨n, hn⟩ := h.life c
          have h6 : known c ⟨s.tr, s.loops.set a (.spawn d), s.readers, s.ended, s.out ++ [.opened d]⟩ = known c s := by
            simp only [known, a2 c, if_neg e, Nat.add_zero]
          rw [h6]
          refine ⟨n, ?_⟩
          rw [List.filter_append, hn]
          simp [Pub.con, e, gone]
    · rename_i d hp
      injection ha with ha; subst ha
      have a1 : ∀ c, weigh (announcing c) (s.loops.set a .top) = weigh (announcing c) s.loops :=
        fun c => weigh_set (announcing c) s.loops a .top _ hp
      have a2 : ∀ c, weigh (spawning c) (s.loops.set a .top) + (if d = c then 1 else 0) = weigh (spawning c) s.loops :=
        fun c => weigh_set (spawning c) s.loops a .top _ hp
      have a3 : ∀ c, weigh (reads c) (s.readers ++ [(d, Stage.reading)]) = weigh (reads c) s.readers + (if d = c then 1 else 0) :=
        fun c => by rw [weigh_append]; simp [weigh, reads]
      have a4 : ∀ c, weigh (ends c) (s.readers ++ [(d, Stage.reading)]) = weigh (ends c) s.readers :=
        fun c => by rw [weigh_append]; simp [weigh, ends]
      have a5 : ∀ c, known c ⟨s.tr, s.loops.set a .top, s.readers ++ [(d, .reading)], s.ended, s.out⟩ = known c s := by
        intro c
        have := a2 c
        simp only [known, a3]
        omega
      refine ⟨fun c => ?_, fun c => ?_, fun r c st hr => ?_⟩
      · rw [a5]; simp only [a1]; exact h.told c
      · rw [a5]; simp only [gone, a4]; exact h.life c
      · simp only [List.getElem?_append] at hr
        split at hr
        · exact h.why r c st hr
        · cases hz : r - s.readers.length with
          | zero =>
            rw [hz] at hr
            simp only [List.getElem?_cons_zero, Option.some.injEq, Prod.mk.injEq] at hr
            obtain ⟨rfl, rfl⟩ := hr
            exact ⟨fun e => absurd rfl e, fun e => by rcases e with e | e <;> cases e⟩
          | succ z => rw [hz] at hr; simp at hr
    · simp at ha
  | data r =>
    simp only [act] at ha
    split at ha
    · rename_i d hr
      split at ha
      · simp at ha
      · injection ha with ha; subst ha
        refine ⟨h.told, fun c => ?_, h.why⟩
        obtain ⟨n, hn⟩ := h.life c
        by_cases e : d = c
        · subst e
          have h1 := ends_lt d r _ s.readers hr (by simp)
          have h2 := h.told d
          have h3 := hone d
          have h4 : gone d s = 0 := by simp only [known] at h2; simp only [gone]; omega
          have h5 : known d s ≠ 0 := by simp only [known]; omega
          have h5' : (known d s != 0) = true := by simpa using h5
          show Life d (known d s != 0) (gone d s != 0) (List.filter _ (s.out ++ [Pub.data d]))
          rw [h4, h5'] at hn ⊢
          refine ⟨n + 1, ?_⟩
          rw [List.filter_append, hn, List.replicate_succ']
          simp [Pub.con]
        · refine ⟨n, ?_⟩
          show List.filter _ (s.out ++ [Pub.data d]) = _
          rw [List.filter_append, hn]
          simp [Pub.con, e, known, gone]
    · simp at ha
  | fail r =>
    simp only [act] at ha
    split at ha
    · rename_i d hr
      split at ha
      · rename_i hcl
        injection ha with ha; subst ha
        exact h.stage r d _ .closing s.tr hr (frame_refl _) (by simp) (by simp) hcl (by simp)
      · simp at ha
    · simp at ha
  | finish r =>
    simp only [act] at ha
    split at ha
    · rename_i d hr
      obtain ⟨t, ht, rfl⟩ := map_some ha
      exact h.stage r d _ .telling t hr (close_quiet ht).toFrame (by simp) (by simp) (.inl (close_closed ht)) (fun _ => close_closed ht)
    · rename_i d hr
      injection ha with ha; subst ha
      have e1 : ∀ c, weigh (reads c) (s.readers.set r (d, .over)) = weigh (reads c) s.readers := by
        intro c
        have := weigh_set (reads c) s.readers r (d, .over) _ hr
        have : reads c (d, .over) = reads c (d, .telling) := rfl
        omega
      have e2 : ∀ c, weigh (ends c) (s.readers.set r (d, .over)) = weigh (ends c) s.readers + (if d = c then 1 else 0) := by
        intro c
        have := weigh_set (ends c) s.readers r (d, .over) _ hr
        have : ends c (d, .over) = if d = c then 1 else 0 := by simp [ends]
        have : ends c (d, .telling) = 0 := by simp [ends]
        omega
      refine ⟨fun c => ?_, fun c => ?_, fun q c st hq => ?_⟩
      · simp only [known, e1]; exact h.told c
      · obtain ⟨n, hn⟩ := h.life c
        have k1 : known c ⟨s.tr, s.loops, s.readers.set r (d, .over), s.ended, s.out ++ [.closed d]⟩ = known c s := by simp only [known, e1]
        have k2 : gone c ⟨s.tr, s.loops, s.readers.set r (d, .over), s.ended, s.out ++ [.closed d]⟩ = gone c s + (if d = c then 1 else 0) := e2 c
        rw [k1, k2]
        by_cases e : d = c
        · subst e
          have h1 := ends_lt d r _ s.readers hr (by simp)
          have h2 := h.told d
          have h3 := hone d
          have h4 : gone d s = 0 := by simp only [known] at h2; simp only [gone]; omega
          rw [h4] at hn ⊢
          refine ⟨n, ?_⟩
          show List.filter _ (s.out ++ [Pub.closed d]) = _
          rw [List.filter_append, hn]
          simp [Pub.con]
        · rw [if_neg e]
          refine ⟨n, ?_⟩
          show List.filter _ (s.out ++ [Pub.closed d]) = _
          rw [List.filter_append, hn]
          simp [Pub.con, e]
      · simp only [List.getElem?_set] at hq
        split at hq
        · split at hq
          · injection hq with hq; injection hq with e3 e4
            subst e3 e4
            have := (h.why r d _ hr).2 (.inl rfl)
            exact ⟨fun _ => .inl this, fun _ => this⟩
          · simp at hq
        · exact h.why q c st hq
    · simp at ha
  | peer d =>
    injection ha with ha; subst ha
    exact ⟨h.told, h.life, fun r c st hr => ⟨fun hs => ((h.why r c st hr).1 hs).imp id (List.mem_append_left _), (h.why r c st hr).2⟩⟩
  | close d =>
    obtain ⟨t, ht, rfl⟩ := map_some ha
    exact h.frame (close_quiet ht).toFrame

theorem told_init (conf : Stream.Conf) : Told (init conf) :=
  ⟨fun c => by simp [init, Stream.init, weigh, known], fun c => ⟨0, by simp [init, weigh, known, gone]⟩, by simp [init]⟩

/-- Everything that holds in every execution. -/
structure Inv (s : Sys) : Prop where
  wf : s.tr.crash = none → Stream.Wf s.tr
  ledger : ∀ c, ledger c s.tr = if c < s.tr.cons then 1 else 0
  calls : s.tr.crash = none → Calls s
  told : Told s

theorem inv_exec (conf : Stream.Conf) : ∀ (ls : List Label) (s : Sys), exec (init conf) ls = some s → Inv s := by
  refine snoc_induction ?_ ?_
  · intro s h
    injection h with h; subst h
    exact ⟨fun _ => Stream.wf_init conf, fun c => by simp [init, Stream.init, Retire.ledger, Stream.onTheWay, weigh], fun _ => calls_init conf, told_init conf⟩
  · intro ls l ih s' h
    obtain ⟨s, hs, hl⟩ := exec_snoc (step := step) h
    have hi := ih s hs
    obtain ⟨hc, _⟩ := alive hl
    obtain ⟨ks, hk⟩ := tr_exec conf _ _ h
    refine ⟨fun hn => Stream.wf_exec conf ks _ hk hn, fun c => ledger_exec conf ks _ hk c, fun _ => calls_step (hi.calls hc) (hi.wf hc) hl,
      told_step hi.told (fun c => ?_) hl⟩
    have := hi.ledger c
    simp only [Retire.ledger] at this
    split at this <;> omega

theorem weigh_pos {α : Type} (f : α → Nat) (l : List α) : weigh f l ≠ 0 ↔ ∃ (i : Nat) (x : α), l[i]? = some x ∧ f x ≠ 0 := by
  constructor
  · induction l with
    | nil => simp [weigh]
    | cons y l ih =>
      intro h
      by_cases e : f y = 0
      · obtain ⟨i, x, hi, hx⟩ := ih (by simp only [weigh, List.map_cons, List.sum_cons] at h ⊢; omega)
        exact ⟨i + 1, x, by simpa using hi, hx⟩
      · exact ⟨0, y, by simp, e⟩
  · rintro ⟨i, x, hi, hx⟩
    have := weigh_le f l i x hi
    omega

/-! ## C92: every connection is announced once and read until it is closed -/

/-- **C92.**  In every execution, what is published about a connection is: nothing; or its beginning and then data; or its beginning, data, and its end. -/
theorem c92_life (conf : Stream.Conf) (ls : List Label) (s : Sys) (h : exec (init conf) ls = some s) (c : Nat) :
    s.out.filter (·.con == c) = [] ∨ (∃ n, s.out.filter (·.con == c) = .opened c :: List.replicate n (.data c)) ∨
    ∃ n, s.out.filter (·.con == c) = .opened c :: List.replicate n (.data c) ++ [.closed c] := by
  have hi := (inv_exec conf ls s h).told
  obtain ⟨n, hn⟩ := hi.life c
  by_cases e1 : known c s = 0
  · have e2 : gone c s = 0 := by
      have := ends_le c s.readers
      simp only [known] at e1
      simp only [gone]
      omega
    simp only [e1, e2, bne_self_eq_false, Bool.false_eq_true, if_false, List.append_nil] at hn
    exact .inl hn
  · have e1' : (known c s != 0) = true := by simpa using e1
    by_cases e2 : gone c s = 0
    · simp only [e1', e2, bne_self_eq_false, Bool.false_eq_true, if_false, if_true, List.append_nil] at hn
      exact .inr (.inl ⟨n, hn⟩)
    · have e2' : (gone c s != 0) = true := by simpa using e2
      simp only [e1', e2', if_true] at hn
      exact .inr (.inr ⟨n, hn⟩)

theorem Inv.one {s : Sys} (h : Inv s) (c : Nat) : weigh (announcing c) s.loops + known c s ≤ 1 := by
  have h1 := h.told.told c
  have h2 := h.ledger c
  simp only [Retire.ledger] at h2
  split at h2 <;> omega

/-- **C92.**  A connection is read by one goroutine at most. -/
theorem c92_one_reader (conf : Stream.Conf) (ls : List Label) (s : Sys) (h : exec (init conf) ls = some s) (r q c : Nat) (st st' : Stage)
    (hr : s.readers[r]? = some (c, st)) (hq : s.readers[q]? = some (c, st')) : r = q := by
  have h1 := (inv_exec conf ls s h).one c
  simp only [known] at h1
  by_cases e : r = q
  · exact e
  · exfalso
    have e1 := weigh_set (reads c) s.readers r (c + 1, st) _ hr
    have e2 := weigh_le (reads c) (s.readers.set r (c + 1, st)) q (c, st') (by rw [List.getElem?_set, if_neg e]; exact hq)
    have e3 : ∀ st, reads c (c, st) = 1 := fun _ => by simp [reads]
    have e4 : reads c (c + 1, st) = 0 := by simp [reads]
    rw [e3] at e1 e2
    omega

theorem Inv.opened {s : Sys} (h : Inv s) (c : Nat) : .opened c ∈ s.out ↔ known c s ≠ 0 := by
  obtain ⟨n, hn⟩ := h.told.life c
  have : .opened c ∈ s.out ↔ .opened c ∈ s.out.filter (·.con == c) := by simp [Pub.con]
  rw [this, hn]
  by_cases e : known c s = 0
  · simp only [e, bne_self_eq_false, Bool.false_eq_true, if_false, List.nil_append, ne_eq, not_true, iff_false]
    split <;> simp
  · have e' : (known c s != 0) = true := by simpa using e
    simp [e]

theorem Inv.closed {s : Sys} (h : Inv s) (c : Nat) : .closed c ∈ s.out ↔ gone c s ≠ 0 := by
  obtain ⟨n, hn⟩ := h.told.life c
  have : .closed c ∈ s.out ↔ .closed c ∈ s.out.filter (·.con == c) := by simp [Pub.con]
  rw [this, hn]
  by_cases e : gone c s = 0
  · simp only [e, bne_self_eq_false, Bool.false_eq_true, if_false, List.append_nil, ne_eq, not_true, iff_false]
    split <;> simp
  · simp [e]

/-- At rest an accept goroutine has ended or waits on the open channel of a running transport, and there is nothing in it. -/
theorem rest_loops {s : Sys} (h : Inv s) (hc : s.tr.crash = none) (hrest : Rest s) (a : Nat) (p : Loop) (hp : s.loops[a]? = some p) :
    p = .over ∨ ∃ i ch, p = .within i ∧ s.tr.callers[i]? = some (.waiting (some (s.tr.chans.length - 1))) ∧ s.tr.chans[s.tr.chans.length - 1]? = some ch ∧
      ch.buf = [] ∧ s.tr.isRunning = true := by
  have hr := hrest (.loop a) trivial
  simp only [step, hc, if_true, act, loopStep, hp] at hr
  have hcalls := h.calls hc
  have hw := h.wf hc
  cases p with
  | over => exact .inl rfl
  | top => simp [Stream.step, hc, Stream.act] at hr
  | announce c => simp at hr
  | spawn c => simp at hr
  | within i =>
    right
    obtain ⟨x, hx, hret⟩ := hcalls.calls a i hp
    cases x with
    | returned r => exact absurd rfl (hret r)
    | got r => cases r <;> simp [hx, Stream.step, hc, Stream.act] at hr
    | waiting o =>
      obtain ⟨k, rfl, hk⟩ := hcalls.chan i o hx
      have hch : s.tr.chans[k]? = some s.tr.chans[k] := by simp [hk]
      simp only [hx, Stream.step, hc, if_true, Stream.act, hch] at hr
      cases hb : s.tr.chans[k].buf with
      | cons d rest => simp [hb] at hr
      | nil =>
        have hcl := hw.closed k _ hch
        cases hcv : s.tr.chans[k].closed with
        | true => simp [hb, hcv] at hr
        | false =>
          rw [hcv] at hcl
          have hcl : (s.tr.isRunning && (k + 1 == s.tr.chans.length)) = true := by simpa using hcl.symm
          simp only [Bool.and_eq_true, beq_iff_eq] at hcl
          have hk' : k = s.tr.chans.length - 1 := by omega
          subst hk'
          exact ⟨i, _, rfl, hx, hch, hb, hcl.1⟩

/-- At rest a reader has ended or reads an open connection. -/
theorem rest_readers {s : Sys} (hc : s.tr.crash = none) (hrest : Rest s) (r c : Nat) (st : Stage) (hr : s.readers[r]? = some (c, st)) :
    st = .over ∨ st = .reading ∧ c ∉ s.tr.closedCons ∧ c ∉ s.ended := by
  cases st with
  | over => exact .inl rfl
  | reading =>
    have h1 := hrest (.fail r) trivial
    simp only [step, hc, if_true, act, hr] at h1
    split at h1
    · simp at h1
    · rename_i e; exact .inr ⟨rfl, fun h => e (.inl h), fun h => e (.inr h)⟩
  | closing =>
    have h1 := hrest (.finish r) trivial
    simp [step, hc, act, hr, Stream.step, Stream.act] at h1
  | telling =>
    have h1 := hrest (.finish r) trivial
    simp [step, hc, act, hr] at h1

/-- Nobody of `LowerDeck` is about to announce anything at rest. -/
theorem rest_hands {s : Sys} (h : Inv s) (hc : s.tr.crash = none) (hrest : Rest s) (c : Nat) :
    weigh (announcing c) s.loops = 0 ∧ weigh (spawning c) s.loops = 0 ∧ weigh (Stream.inCaller c) s.tr.callers = 0 := by
  refine ⟨?_, ?_, ?_⟩
  · by_cases e : weigh (announcing c) s.loops = 0
    · exact e
    · obtain ⟨a, p, hp, hn⟩ := (weigh_pos _ _).mp e
      rcases rest_loops h hc hrest a p hp with rfl | ⟨i, _, rfl, _⟩ <;> exact absurd rfl hn
  · by_cases e : weigh (spawning c) s.loops = 0
    · exact e
    · obtain ⟨a, p, hp, hn⟩ := (weigh_pos _ _).mp e
      rcases rest_loops h hc hrest a p hp with rfl | ⟨i, _, rfl, _⟩ <;> exact absurd rfl hn
  · by_cases e : weigh (Stream.inCaller c) s.tr.callers = 0
    · exact e
    · obtain ⟨i, x, hx, hn⟩ := (weigh_pos _ _).mp e
      rcases (h.calls hc).owned i x hx with ⟨r, rfl⟩ | ⟨a, ha⟩
      · exact absurd rfl hn
      · rcases rest_loops h hc hrest a _ ha with e | ⟨j, _, e, hj, _⟩
        · cases e
        · injection e with e; subst e
          rw [hx] at hj
          injection hj with hj; subst hj
          exact absurd rfl hn

/-- A goroutine of the transport has the connection in its hands. -/
def Holds (c : Nat) (g : Stream.Go) : Prop := (∃ again, g = .prep c again) ∨ ∃ k again, g = .push k c again

theorem inGo_holds (c : Nat) (g : Stream.Go) : Stream.inGo c g ≠ 0 ↔ Holds c g := by
  cases g <;> simp [Stream.inGo, Holds]
  all_goals exact ⟨fun e => e ▸ trivial, fun e => e⟩

/-- A connection that was made, and was left in a channel that is closed. -/
def Behind (c : Nat) (s : Sys) : Prop := ∃ (k : Nat) (ch : Stream.Chan), s.tr.chans[k]? = some ch ∧ ch.closed = true ∧ c ∈ ch.buf

/-- **C92, exactly.**  When the goroutines of `LowerDeck` are at rest, and the transport's goroutines do not have it in their hands, a connection the
transport made has been announced if and only if it was not left behind in a closed channel. -/
theorem c92_exact (conf : Stream.Conf) (ls : List Label) (s : Sys) (h : exec (init conf) ls = some s) (hc : s.tr.crash = none) (hrest : Rest s)
    (c : Nat) (hm : c < s.tr.cons) (hg : ∀ g ∈ s.tr.gos, ¬ Holds c g) : .opened c ∈ s.out ↔ ¬ Behind c s := by
  have hi := inv_exec conf ls s h
  have hw := hi.wf hc
  obtain ⟨h1, h2, h3⟩ := rest_hands hi hc hrest c
  have h4 := hi.ledger c
  rw [if_pos hm] at h4
  simp only [ledger, Stream.onTheWay, hi.told.told c] at h4
  have h5 : weigh (Stream.inGo c) s.tr.gos = 0 := by
    by_cases e : weigh (Stream.inGo c) s.tr.gos = 0
    · exact e
    · obtain ⟨j, g, hj, hn⟩ := (weigh_pos _ _).mp e
      exact absurd ((inGo_holds c g).mp hn) (hg g (List.mem_of_getElem? hj))
  have h6 : Behind c s ↔ weigh (Stream.inChan c) s.tr.chans ≠ 0 := by
    rw [weigh_pos]
    constructor
    · rintro ⟨k, ch, hk, _, hb⟩
      refine ⟨k, ch, hk, ?_⟩
      simp only [Stream.inChan]
      have := List.count_pos_iff.mpr hb
      omega
    · rintro ⟨k, ch, hk, hn⟩
      have hb : c ∈ ch.buf := List.count_pos_iff.mp (by simp only [Stream.inChan] at hn; omega)
      refine ⟨k, ch, hk, ?_, hb⟩
      cases hcl : ch.closed with
      | true => rfl
      | false =>
        exfalso
        have h7 := hw.closed k ch hk
        rw [hcl] at h7
        have h7 : (s.tr.isRunning && (k + 1 == s.tr.chans.length)) = true := by simpa using h7.symm
        simp only [Bool.and_eq_true, beq_iff_eq] at h7
        obtain ⟨a, p, hp, hat⟩ := (hi.calls hc).live h7.1
        rcases rest_loops hi hc hrest a p hp with rfl | ⟨i, ch', rfl, _, hch', hbuf, _⟩
        · exact hat
        · have : k = s.tr.chans.length - 1 := by omega
          subst this
          rw [hk] at hch'
          injection hch' with hch'
          subst hch'
          rw [hbuf] at hb
          cases hb
  rw [hi.opened, h6]
  omega

/-- **C92.**  At rest every connection that was announced is still being read, if it is open at both ends, or else has been closed and its end announced. -/
theorem c92_read (conf : Stream.Conf) (ls : List Label) (s : Sys) (h : exec (init conf) ls = some s) (hc : s.tr.crash = none) (hrest : Rest s)
    (c : Nat) (ho : .opened c ∈ s.out) :
    (c ∉ s.tr.closedCons ∧ c ∉ s.ended ∧ .closed c ∉ s.out ∧ ∃ r : Nat, s.readers[r]? = some (c, .reading)) ∨
    (c ∈ s.tr.closedCons ∧ .closed c ∈ s.out ∧ ∃ r : Nat, s.readers[r]? = some (c, .over)) := by
  have hi := inv_exec conf ls s h
  obtain ⟨h1, h2, _⟩ := rest_hands hi hc hrest c
  have hk := (hi.opened c).mp ho
  have hone := hi.one c
  have hrd : weigh (reads c) s.readers ≠ 0 := by simp only [known] at hk; omega
  obtain ⟨r, ⟨d, st⟩, hr, hd⟩ := (weigh_pos _ _).mp hrd
  have : d = c := by simpa [reads] using hd
  subst this
  rcases rest_readers hc hrest r d st hr with rfl | ⟨rfl, h3, h4⟩
  · refine .inr ⟨(hi.told.why r d _ hr).2 (.inr rfl), (hi.closed d).mpr ((weigh_pos _ _).mpr ⟨r, _, hr, by simp [ends]⟩), r, hr⟩
  · refine .inl ⟨h3, h4, fun hcl => ?_, r, hr⟩
    have h5 := (hi.closed d).mp hcl
    have h6 := ends_lt d r _ s.readers hr (by simp)
    simp only [known] at hone
    simp only [gone] at h5
    omega

/-! ## C91: deleting a transport ends the service of its connections -/

/-- **C91.**  When the transport is stopped and `LowerDeck` is at rest, all its accept goroutines have ended. -/
theorem c91_loops (conf : Stream.Conf) (ls : List Label) (s : Sys) (h : exec (init conf) ls = some s) (hc : s.tr.crash = none) (hrest : Rest s)
    (hr : s.tr.isRunning = false) : ∀ p ∈ s.loops, p = .over := by
  intro p hp
  obtain ⟨a, ha⟩ := List.getElem?_of_mem hp
  rcases rest_loops (inv_exec conf ls s h) hc hrest a p ha with e | ⟨_, _, _, _, _, _, e⟩
  · exact e
  · rw [hr] at e; cases e

/-- The transport has forgotten connection `c`, its peer is there, and its reader reads. -/
structure Spared (c : Nat) (s : Sys) : Prop where
  left : Stream.Left c s.tr
  peer : c ∉ s.ended
  reader : ∀ (r : Nat) (st : Stage), s.readers[r]? = some (c, st) → st = .reading

theorem spared_step {c : Nat} {s s' : Sys} {l : Label} (h : Spared c s) (hw : Stream.Wf s.tr) (h1 : l ≠ .close c) (h2 : l ≠ .peer c)
    (hs : step s l = some s') : Spared c s' := by
  obtain ⟨hc, ha⟩ := alive hs
  cases l with
  | add => obtain ⟨t, ht, rfl⟩ := map_some ha; exact ⟨Stream.left_step h.left hw (by simp) ht, h.peer, h.reader⟩
  | del => obtain ⟨t, ht, rfl⟩ := map_some ha; exact ⟨Stream.left_step h.left hw (by simp) ht, h.peer, h.reader⟩
  | transport j ok => obtain ⟨t, ht, rfl⟩ := map_some ha; exact ⟨Stream.left_step h.left hw (by simp) ht, h.peer, h.reader⟩
  | loop a =>
    simp only [act, loopStep] at ha
    split at ha
    · obtain ⟨t, ht, rfl⟩ := map_some ha; exact ⟨Stream.left_step h.left hw (by simp) ht, h.peer, h.reader⟩
    · split at ha
      · obtain ⟨t, ht, rfl⟩ := map_some ha; exact ⟨Stream.left_step h.left hw (by simp) ht, h.peer, h.reader⟩
      · obtain ⟨t, ht, rfl⟩ := map_some ha; exact ⟨Stream.left_step h.left hw (by simp) ht, h.peer, h.reader⟩
      · obtain ⟨t, ht, rfl⟩ := map_some ha; exact ⟨Stream.left_step h.left hw (by simp) ht, h.peer, h.reader⟩
      · simp at ha
    · injection ha with ha; subst ha; exact ⟨h.left, h.peer, h.reader⟩
    · injection ha with ha; subst ha
      refine ⟨h.left, h.peer, fun r st hr => ?_⟩
      simp only [List.getElem?_append] at hr
      split at hr
      · exact h.reader r st hr
      · cases hz : r - s.readers.length with
        | zero => rw [hz] at hr; simp at hr; exact hr.2.symm
        | succ z => rw [hz] at hr; simp at hr
    · simp at ha
  | data r =>
    simp only [act] at ha
    repeat' split at ha
    all_goals first | (injection ha with ha; subst ha; exact ⟨h.left, h.peer, h.reader⟩) | simp at ha
  | fail r =>
    simp only [act] at ha
    split at ha
    · rename_i d hr
      split at ha
      · rename_i hcl
        injection ha with ha; subst ha
        have hd : d ≠ c := by
          rintro rfl
          exact hcl.elim h.left.open_ h.peer
        refine ⟨h.left, h.peer, fun q st hq => ?_⟩
        simp only [List.getElem?_set] at hq
        split at hq
        · split at hq
          · injection hq with hq; injection hq with e1 _; exact absurd e1 hd
          · simp at hq
        · exact h.reader q st hq
      · simp at ha
    · simp at ha
  | finish r =>
    simp only [act] at ha
    have key : ∀ (d : Nat) (st st' : Stage), s.readers[r]? = some (d, st) → st ≠ .reading → d ≠ c ∧
        ∀ (q : Nat) (x : Stage), (s.readers.set r (d, st'))[q]? = some (c, x) → x = .reading := by
      intro d st st' hr hst
      have hd : d ≠ c := by
        rintro rfl
        exact hst (h.reader r st hr)
      refine ⟨hd, fun q x hq => ?_⟩
      simp only [List.getElem?_set] at hq
      split at hq
      · split at hq
        · injection hq with hq; injection hq with e1 _; exact absurd e1 hd
        · simp at hq
      · exact h.reader q x hq
    split at ha
    · rename_i d hr
      obtain ⟨t, ht, rfl⟩ := map_some ha
      obtain ⟨hd, hk⟩ := key d _ .telling hr (by simp)
      exact ⟨Stream.left_step h.left hw (by simpa using hd) ht, h.peer, hk⟩
    · rename_i d hr
      injection ha with ha; subst ha
      exact ⟨h.left, h.peer, (key d _ .over hr (by simp)).2⟩
    · simp at ha
  | peer d =>
    injection ha with ha; subst ha
    refine ⟨h.left, fun hm => ?_, h.reader⟩
    simp only [List.mem_append, List.mem_singleton] at hm
    rcases hm with hm | rfl
    · exact h.peer hm
    · exact h2 rfl
  | close d =>
    obtain ⟨t, ht, rfl⟩ := map_some ha
    have hd : d ≠ c := fun e => h1 (by rw [e])
    exact ⟨Stream.left_step h.left hw (by simpa using hd) ht, h.peer, h.reader⟩

theorem crash_mono {s s' : Sys} {ls : List Label} (h : exec s ls = some s') (hc : s'.tr.crash = none) : s.tr.crash = none := by
  cases ls with
  | nil => injection h with h; subst h; exact hc
  | cons l ls => obtain ⟨m, hm, _⟩ := exec_cons (step := step) h; exact (alive hm).1

theorem spared_exec {c : Nat} (conf : Stream.Conf) (post : List Label) : ∀ (pre : List Label) (s1 s : Sys), exec (init conf) pre = some s1 → Spared c s1 →
    .close c ∉ post → .peer c ∉ post → exec s1 post = some s → Spared c s := by
  induction post with
  | nil => intro pre s1 s _ h _ _ he; injection he with he; subst he; exact h
  | cons l post ih =>
    intro pre s1 s hpre h hcl hpe he
    obtain ⟨m, hm, he⟩ := exec_cons (step := step) he
    simp only [List.mem_cons, not_or] at hcl hpe
    refine ih (pre ++ [l]) m s ?_ (spared_step h ((inv_exec conf pre s1 hpre).wf (alive hm).1) (fun e => hcl.1 e.symm) (fun e => hpe.1 e.symm) hm) hcl.2 hpe.2 he
    show Trace.exec step _ _ = _
    rw [exec_append, show Trace.exec step _ _ = _ from hpre]
    simp [Trace.exec, hm]

theorem minded_exec {c : Nat} (conf : Stream.Conf) (post : List Label) : ∀ (pre : List Label) (s1 s : Sys), exec (init conf) pre = some s1 → Stream.Minded c s1.tr →
    exec s1 post = some s → s.tr.crash = none → Stream.Minded c s.tr := by
  induction post with
  | nil => intro pre s1 s _ h he _; injection he with he; subst he; exact h
  | cons l post ih =>
    intro pre s1 s hpre h he hn
    obtain ⟨m, hm, he⟩ := exec_cons (step := step) he
    have hmid : Stream.Minded c m.tr := by
      rcases tr_step hm with e | ⟨k, e⟩
      · rw [e]; exact h
      · exact Stream.minded_step h ((inv_exec conf pre s1 hpre).wf (alive hm).1) e (crash_mono he hn)
    refine ih (pre ++ [l]) m s ?_ hmid he hn
    show Trace.exec step _ _ = _
    rw [exec_append, show Trace.exec step _ _ = _ from hpre]
    simp [Trace.exec, hm]

/-- **C91, exactly.**  The transport has been deleted (or has stopped by itself) and `LowerDeck` is at rest.  A connection that an accept
goroutine took, and that neither the peer nor the program closed, is not served any more if and only if the transport was still running when
`NextConnection` returned it: then it is closed, its reader has ended, and its end has been announced.  Otherwise it has been announced, it is open, and is read for ever. -/
theorem c91_exact (conf : Stream.Conf) (pre post : List Label) (a i c : Nat) (s1 s : Sys) (h1 : exec (init conf) pre = some s1)
    (hp : s1.loops[a]? = some (.within i)) (hi : s1.tr.callers[i]? = some (.got (some c))) (hopen : c ∉ s1.tr.closedCons) (hpeer : c ∉ s1.ended)
    (h : exec s1 (.loop a :: post) = some s) (hcl : .close c ∉ post) (hpe : .peer c ∉ post)
    (hc : s.tr.crash = none) (hrest : Rest s) (hr : s.tr.isRunning = false) :
    (s1.tr.isRunning = true → c ∈ s.tr.closedCons ∧ .closed c ∈ s.out ∧ ∃ r : Nat, s.readers[r]? = some (c, .over)) ∧
    (s1.tr.isRunning = false → c ∉ s.tr.closedCons ∧ .opened c ∈ s.out ∧ .closed c ∉ s.out ∧ ∃ r : Nat, s.readers[r]? = some (c, .reading)) := by
  obtain ⟨s2, h2, h3⟩ := exec_cons (step := step) h
  obtain ⟨hc1, ha⟩ := alive h2
  have hinv1 := inv_exec conf pre s1 h1
  have hpre2 : exec (init conf) (pre ++ [.loop a]) = some s2 := by
    show Trace.exec step _ _ = _
    rw [exec_append, show Trace.exec step _ _ = _ from h1]
    simp [Trace.exec, h2]
  have hall : exec (init conf) (pre ++ .loop a :: post) = some s := by
    show Trace.exec step _ _ = _
    rw [exec_append, show Trace.exec step _ _ = _ from h1]
    exact h
  have hinv := inv_exec conf _ s hall
  simp only [act, loopStep, hp, hi] at ha
  obtain ⟨t, ht, rfl⟩ := map_some ha
  obtain ⟨_, hb⟩ := Stream.not_crashed ht
  simp only [Stream.act, hi] at hb
  injection hb with hb
  obtain ⟨e1, e2, e3, e4, e5, e6, e7, e8⟩ := Stream.save_next s1.tr (some c)
  -- it is in the hands of the caller and nowhere else
  have hway : Stream.inCaller c (.got (some c)) = 1 := by simp [Stream.inCaller]
  have hle := weigh_le (Stream.inCaller c) s1.tr.callers i _ hi
  have hled := hinv1.ledger c
  simp only [ledger, Stream.onTheWay] at hled
  have hmade : c < s1.tr.cons := by
    by_cases e : c < s1.tr.cons
    · exact e
    · rw [if_neg e] at hled; omega
  rw [if_pos hmade] at hled
  have hled2 := (inv_exec conf _ _ hpre2).ledger c
  have htold := (inv_exec conf _ _ hpre2).told.told c
  have hcons : t.cons = s1.tr.cons := by
    subst hb
    show (Stream.save s1.tr (some c)).cons = _
    unfold Stream.save; split; rfl; split <;> rfl
  have hlog : t.log.count (.returned (some c)) = 1 := by
    have : t.log.count (.returned (some c)) = s1.tr.log.count (.returned (some c)) + 1 := by
      subst hb
      simp [List.count_append]
    have h5 := hled2
    simp only [ledger, hcons, if_pos hmade] at h5
    omega
  have hnow : Stream.onTheWay c t = 0 := by
    have h5 := hled2
    simp only [ledger, hcons, if_pos hmade, hlog] at h5
    omega
  have hone1 := hinv1.one c
  have hann : weigh (announcing c) (s1.loops.set a (.announce c)) = 1 ∧ known c s1 = 0 := by
    have h5 := weigh_set (announcing c) s1.loops a (.announce c) _ hp
    have h6 : announcing c (.announce c) = 1 := by simp [announcing]
    have h7 : announcing c (.within i) = 0 := rfl
    have h8 := hinv1.told.told c
    omega
  have hreaders : ∀ (r : Nat) (st : Stage), s1.readers[r]? ≠ some (c, st) := by
    intro r st hr
    have := weigh_le (reads c) s1.readers r _ hr
    have e : reads c (c, st) = 1 := by simp [reads]
    have := hann.2
    simp only [known] at this
    omega
  -- announced in the end
  have hopened : .opened c ∈ s.out := by
    have h5 := hinv.told.told c
    obtain ⟨h6, _, _⟩ := rest_hands hinv hc hrest c
    have h7 : 1 ≤ s.tr.log.count (.returned (some c)) := by
      have mono : ∀ (l : List Label) (x y : Sys), exec x l = some y → x.tr.log.count (.returned (some c)) ≤ y.tr.log.count (.returned (some c)) := by
        intro l
        induction l with
        | nil => intro x y hxy; injection hxy with hxy; subst hxy; exact Nat.le_refl _
        | cons l ls ih =>
          intro x y hxy
          obtain ⟨m, hm, hxy⟩ := exec_cons (step := step) hxy
          refine Nat.le_trans ?_ (ih m y hxy)
          rcases tr_step hm with e | ⟨k, e⟩
          · rw [e]; exact Nat.le_refl _
          · obtain ⟨es, hes⟩ := log_step e
            rw [hes, List.count_append]; omega
      have := mono post _ s h3
      simp only at this
      omega
    exact (hinv.opened c).mpr (by omega)
  constructor
  · intro hrun
    have hmind : Stream.Minded c t := by
      subst hb
      refine .inr ⟨e3.trans hrun, ?_⟩
      show some c ∈ (Stream.save s1.tr (some c)).saved
      unfold Stream.save
      rw [if_neg (by simp)]
      split
      · assumption
      · simp
    have hc2 : c ∈ s.tr.closedCons := by
      rcases minded_exec conf post _ _ s hpre2 hmind h3 hc with e | ⟨e, _⟩
      · exact e
      · rw [hr] at e; cases e
    rcases c92_read conf _ s hall hc hrest c hopened with ⟨e, _⟩ | ⟨e1, e2, e3⟩
    · exact absurd hc2 e
    · exact ⟨e1, e2, e3⟩
  · intro hrun
    have hsp : Spared c ⟨t, s1.loops.set a (.announce c), s1.readers, s1.ended, s1.out⟩ := by
      refine ⟨⟨?_, hnow, ?_, ?_⟩, hpeer, fun r st hr => absurd hr (hreaders r st)⟩
      · rw [hcons]; exact hmade
      · intro e
        have : t.isRunning = false := by subst hb; exact e3.trans hrun
        rw [show t.isRunning = true from e] at this; cases this
      · subst hb
        show c ∉ (Stream.save s1.tr (some c)).closedCons
        rw [e5]; exact hopen
    have hs := spared_exec conf post _ _ s hpre2 hsp hcl hpe h3
    rcases c92_read conf _ s hall hc hrest c hopened with ⟨e, _, e2, e3⟩ | ⟨e, _⟩
    · exact ⟨e, hopened, e2, e3⟩
    · exact absurd e hs.left.open_

/-! ### Orderly deletion -/

/-- Nothing is between the transport and the accept goroutines. -/
def Idle (t : Stream.Sys) : Prop := (∀ ch ∈ t.chans, ch.buf = []) ∧ ∀ c, .got (some c) ∉ t.callers

/-- Whenever the transport stops, nothing is between it and the accept goroutines. -/
def Orderly (conf : Stream.Conf) (ls : List Label) : Prop :=
  ∀ pre l post s1 s2, ls = pre ++ l :: post → exec (init conf) pre = some s1 → step s1 l = some s2 → s1.tr.isRunning = true → s2.tr.isRunning = false → Idle s1.tr

/-- Closed channels are empty, and nothing is taken from a stopped transport. -/
structure Drained (t : Stream.Sys) : Prop where
  empty : ∀ (k : Nat) (ch : Stream.Chan), t.chans[k]? = some ch → ch.closed = true → ch.buf = []
  none_ : t.isRunning = false → ∀ (i c : Nat), t.callers[i]? ≠ some (.got (some c))

theorem Drained.idle {t t' : Stream.Sys} (h : Idle t) (h1 : t'.chans.map Stream.Chan.buf = t.chans.map Stream.Chan.buf) (h2 : t'.callers = t.callers) : Drained t' := by
  refine ⟨fun k ch hk _ => ?_, fun _ i c hi => h.2 c ?_⟩
  · have e : (t'.chans.map Stream.Chan.buf)[k]? = some ch.buf := by simp [hk]
    rw [h1] at e
    simp only [List.getElem?_map, Option.map_eq_some_iff] at e
    obtain ⟨x, hx, hb⟩ := e
    rw [← hb]; exact h.1 x (List.mem_of_getElem? hx)
  · rw [h2] at hi; exact List.mem_of_getElem? hi

theorem Drained.stop {t : Stream.Sys} (h : Drained t) (hi : t.isRunning = true → Idle t) : Drained (Stream.stop t) := by
  by_cases e : t.isRunning = true
  · exact .idle (hi e) (Stream.stop_chans t).2 (Stream.stop_callers t).1
  · rw [Stream.stop, if_pos (by simpa using e)]; exact h

theorem Drained.same {t t' : Stream.Sys} (h : Drained t) (h1 : t'.chans = t.chans) (h2 : t'.callers = t.callers) (h3 : t'.isRunning = t.isRunning) : Drained t' :=
  ⟨by rw [h1]; exact h.empty, by rw [h2, h3]; exact h.none_⟩

theorem drained_step {t t' : Stream.Sys} {l : Stream.Label} (h : Drained t) (hw : Stream.Wf t) (hs : Stream.step t l = some t') (hn : t'.crash = none)
    (hi : t.isRunning = true → t'.isRunning = false → Idle t) : Drained t' := by
  obtain ⟨hc, ha⟩ := Stream.not_crashed hs
  cases l with
  | run =>
    injection ha with ha; subst ha
    unfold Stream.run
    split
    · exact h
    · refine ⟨fun k ch hk hcl => ?_, fun e => by simp at e⟩
      simp only [List.getElem?_append] at hk
      split at hk
      · exact h.empty k ch hk hcl
      · cases hz : k - t.chans.length with
        | zero => rw [hz] at hk; simp at hk; subst hk; rfl
        | succ z => rw [hz] at hk; simp at hk
  | stop =>
    injection ha with ha; subst ha
    exact h.stop fun e => hi e (Stream.stop_off hn)
  | call =>
    injection ha with ha; subst ha
    refine ⟨h.empty, fun e i c hx => ?_⟩
    simp only [List.getElem?_append] at hx
    split at hx
    · exact h.none_ e i c hx
    · cases hz : i - t.callers.length <;> rw [hz] at hx <;> simp at hx
  | recv i =>
    simp only [Stream.act] at ha
    split at ha
    · rename_i k hx
      split at ha
      · simp at ha
      · rename_i ch hk
        split at ha
        · rename_i d rest hb
          injection ha with ha; subst ha
          have hopen : ch.closed = false := by
            cases e : ch.closed with
            | false => rfl
            | true => rw [h.empty k ch hk e] at hb; cases hb
          refine ⟨fun m x hm hcl => ?_, fun e => ?_⟩
          · simp only [List.getElem?_set] at hm
            split at hm
            · split at hm
              · injection hm with hm; subst hm
                rw [hopen] at hcl; cases hcl
              · simp at hm
            · exact h.empty m x hm hcl
          · have := hw.closed k ch hk
            rw [hopen, e] at this
            simp at this
        · split at ha
          · injection ha with ha; subst ha
            refine ⟨h.empty, fun e m c hm => ?_⟩
            simp only [List.getElem?_set] at hm
            split at hm
            · split at hm <;> simp at hm
            · exact h.none_ e m c hm
          · simp at ha
    · simp at ha
  | save i =>
    simp only [Stream.act] at ha
    split at ha
    · rename_i r hx
      injection ha with ha; subst ha
      obtain ⟨_, e2, e3, _⟩ := Stream.save_next t r
      refine ⟨by simp only [e2]; exact h.empty, fun e m c hm => ?_⟩
      simp only [e3] at e
      simp only [List.getElem?_set] at hm
      split at hm
      · split at hm <;> simp at hm
      · exact h.none_ e m c hm
    · simp at ha
  | close c => injection ha with ha; subst ha; exact h.same rfl rfl rfl
  | go j ok =>
    simp only [Stream.act, Stream.goStep] at ha
    split at ha
    · simp at ha
    · split at ha <;> injection ha with ha <;> subst ha <;> exact h.same rfl rfl rfl
    · split at ha <;> injection ha with ha <;> subst ha <;> exact h.same rfl rfl rfl
    · split at ha
      · split at ha
        · simp at ha
        · injection ha with ha; subst ha; exact h.same rfl rfl rfl
      · injection ha with ha; subst ha; exact h.same rfl rfl rfl
    · split at ha
      · simp at ha
      · injection ha with ha; subst ha; exact h.same rfl rfl rfl
    · split at ha
      · simp at ha
      · rename_i k d again hj _ ch hk
        split at ha
        · injection ha with ha; subst ha; simp at hn
        · rename_i hopen
          split at ha
          · injection ha with ha; subst ha
            refine ⟨fun m x hm hcl => ?_, h.none_⟩
            simp only [List.getElem?_set] at hm
            split at hm
            · split at hm
              · injection hm with hm; subst hm
                exact absurd hcl hopen
              · simp at hm
            · exact h.empty m x hm hcl
          · simp at ha
    · split at ha
      · split at ha <;> injection ha with ha <;> subst ha <;> exact h.same rfl rfl rfl
      · injection ha with ha; subst ha; exact h.same rfl rfl rfl
    · injection ha with ha; subst ha
      have h1 : Drained (t.setGo j .done) := h.same rfl rfl rfl
      exact h1.stop fun e => hi e (Stream.stop_off hn)
    · simp at ha

theorem orderly_exec (conf : Stream.Conf) : ∀ (ls : List Label) (s : Sys), Orderly conf ls → exec (init conf) ls = some s → s.tr.crash = none →
    Drained s.tr ∧ Stream.Kept s.tr := by
  refine snoc_induction ?_ ?_
  · intro s _ h _
    injection h with h; subst h
    exact ⟨⟨by simp [init, Stream.init], by simp [init, Stream.init]⟩, fun c hc => by simp [init, Stream.init] at hc⟩
  · intro ls l ih s' ho h hn
    obtain ⟨s, hs, hl⟩ := exec_snoc (step := step) h
    have hc := (alive hl).1
    obtain ⟨hd, hk⟩ := ih s (fun pre l' post s1 s2 e => ho pre l' (post ++ [l]) s1 s2 (by rw [e]; simp)) hs hc
    have hw := (inv_exec conf ls s hs).wf hc
    have hi : s.tr.isRunning = true → s'.tr.isRunning = false → Idle s.tr := ho ls l [] s s' rfl hs hl
    rcases tr_step hl with e | ⟨k, e⟩
    · rw [e]; exact ⟨hd, hk⟩
    · refine ⟨drained_step hd hw e hn hi, Stream.kept_step (l := k) hw hk ?_ hn⟩
      unfold Stream.calmStep
      split
      · split
        · rename_i c hx
          rw [if_pos]
          · exact e
          · cases hr : s.tr.isRunning with
            | true => rfl
            | false => exact absurd hx (hd.none_ hr _ _)
        · exact e
      · exact e

/-- **C91**, part: the transport is stopped only while nothing is between it and `LowerDeck`.  Then, when it is stopped and `LowerDeck` is at rest, every
connection the transport ever made (and that its goroutines do not have in their hands) has been announced, is closed, is not read any more, and its end was announced.
Missing: connections on the way when the transport is stopped (`c91_exact`, `c91_violated`). -/
theorem c91_partial (conf : Stream.Conf) (ls : List Label) (s : Sys) (ho : Orderly conf ls) (h : exec (init conf) ls = some s) (hc : s.tr.crash = none)
    (hrest : Rest s) (hr : s.tr.isRunning = false) :
    (∀ p ∈ s.loops, p = .over) ∧ (∀ x ∈ s.readers, x.2 = .over) ∧
    ∀ c, c < s.tr.cons → (∀ g ∈ s.tr.gos, ¬ Holds c g) →
      c ∈ s.tr.closedCons ∧ ∃ n, s.out.filter (·.con == c) = .opened c :: List.replicate n (.data c) ++ [.closed c] := by
  have hi := inv_exec conf ls s h
  obtain ⟨hd, hk⟩ := orderly_exec conf ls s ho h hc
  have main : ∀ c, .opened c ∈ s.out → c ∈ s.tr.closedCons := by
    intro c hop
    have h1 := (hi.opened c).mp hop
    have h2 := hi.told.told c
    have h3 : Stream.Ev.returned (some c) ∈ s.tr.log := List.count_pos_iff.mp (by omega)
    rcases hk c h3 with e | ⟨e, _⟩
    · exact e
    · rw [hr] at e; cases e
  refine ⟨c91_loops conf ls s h hc hrest hr, ?_, fun c hm hg => ?_⟩
  · rintro ⟨c, st⟩ hx
    obtain ⟨r, hx⟩ := List.getElem?_of_mem hx
    rcases rest_readers hc hrest r c st hx with e | ⟨_, e, _⟩
    · exact e
    · refine absurd (main c ?_) e
      rw [hi.opened]
      have := weigh_le (reads c) s.readers r _ hx
      have e : reads c (c, st) = 1 := by simp [reads]
      simp only [known]
      omega
  · have hop : .opened c ∈ s.out := by
      refine (c92_exact conf ls s h hc hrest c hm hg).mpr ?_
      rintro ⟨k, ch, hch, hcl, hb⟩
      rw [hd.empty k ch hch hcl] at hb
      cases hb
    refine ⟨main c hop, ?_⟩
    rcases c92_read conf ls s h hc hrest c hop with ⟨e, _⟩ | ⟨_, e, _⟩
    · exact absurd (main c hop) e
    · rcases c92_life conf ls s h c with e1 | ⟨n, e1⟩ | ⟨n, e1⟩
      · have : .opened c ∈ s.out.filter (·.con == c) := by simp [Pub.con, hop]
        rw [e1] at this; cases this
      · have : Pub.closed c ∈ s.out.filter (·.con == c) := by simp [Pub.con, e]
        rw [e1] at this
        simp at this
      · exact ⟨n, e1⟩

/-! ## `LowerDeck` comes to rest -/

def loopWork : Loop → Nat
  | .top => 3
  | .announce _ => 8
  | .spawn _ => 7
  | _ => 0

def callWork : Stream.Caller → Nat
  | .waiting _ => 2
  | .got none => 1
  | .got (some _) => 9
  | .returned _ => 0

def readWork (x : Nat × Stage) : Nat :=
  match x.2 with
  | .reading => 3
  | .closing => 2
  | .telling => 1
  | .over => 0

def chanWork (ch : Stream.Chan) : Nat := 8 * ch.buf.length

/-- What `LowerDeck` can still do by itself. -/
def work (s : Sys) : Nat := weigh loopWork s.loops + weigh callWork s.tr.callers + weigh readWork s.readers + weigh chanWork s.tr.chans

theorem work_step {s s' : Sys} {l : Label} (hl : Inner l) (hs : step s l = some s') : work s' < work s ∧ s'.tr.crash = none := by
  obtain ⟨hc, ha⟩ := alive hs
  cases l with
  | loop a =>
    simp only [act, loopStep] at ha
    split at ha
    · rename_i hp
      obtain ⟨t, ht, rfl⟩ := map_some ha
      obtain ⟨_, hb⟩ := Stream.not_crashed ht
      injection hb with hb; subst hb
      refine ⟨?_, hc⟩
      have h1 := weigh_set loopWork s.loops a (.within s.tr.callers.length) _ hp
      have h2 : loopWork .top = 3 := rfl
      have h3 : loopWork (.within s.tr.callers.length) = 0 := rfl
      have h4 : weigh callWork [.waiting s.tr.next] = 2 := rfl
      simp only [work, weigh_append]
      omega
    · rename_i i hp
      split at ha
      · rename_i o hx
        obtain ⟨t, ht, rfl⟩ := map_some ha
        obtain ⟨_, hb⟩ := Stream.not_crashed ht
        simp only [Stream.act, hx] at hb
        split at hb
        · split at hb
          · simp at hb
          · rename_i k _ ch hk
            split at hb
            · rename_i c rest hbuf
              injection hb with hb; subst hb
              refine ⟨?_, hc⟩
              have h1 := weigh_set callWork s.tr.callers i (.got (some c)) _ hx
              have h2 := weigh_set chanWork s.tr.chans _ { ch with buf := rest } _ hk
              have h3 : callWork (.waiting o) = 2 := rfl
              have h4 : callWork (.got (some c)) = 9 := rfl
              have h5 : chanWork ch = chanWork { ch with buf := rest } + 8 := by simp only [chanWork, hbuf, List.length_cons]; omega
              simp only [work]
              omega
            · split at hb
              · injection hb with hb; subst hb
                refine ⟨?_, hc⟩
                have h1 := weigh_set callWork s.tr.callers i (.got none) _ hx
                have h3 : callWork (.waiting o) = 2 := rfl
                have h4 : callWork (.got none) = 1 := rfl
                simp only [work]
                omega
              · simp at hb
        · simp at hb
      · rename_i hx
        obtain ⟨t, ht, rfl⟩ := map_some ha
        obtain ⟨_, hb⟩ := Stream.not_crashed ht
        simp only [Stream.act, hx] at hb
        injection hb with hb; subst hb
        obtain ⟨_, e2, _, _, _, _, _, e8⟩ := Stream.save_next s.tr none
        refine ⟨?_, e8.trans hc⟩
        have h1 := weigh_set loopWork s.loops a .over _ hp
        have h2 := weigh_set callWork s.tr.callers i (.returned none) _ hx
        have h3 : callWork (.got none) = 1 := rfl
        have h4 : callWork (.returned none) = 0 := rfl
        have h5 : loopWork .over = 0 := rfl
        have h6 : loopWork (.within i) = 0 := rfl
        simp only [work, e2]
        omega
      · rename_i c hx
        obtain ⟨t, ht, rfl⟩ := map_some ha
        obtain ⟨_, hb⟩ := Stream.not_crashed ht
        simp only [Stream.act, hx] at hb
        injection hb with hb; subst hb
        obtain ⟨_, e2, _, _, _, _, _, e8⟩ := Stream.save_next s.tr (some c)
        refine ⟨?_, e8.trans hc⟩
        have h1 := weigh_set loopWork s.loops a (.announce c) _ hp
        have h2 := weigh_set callWork s.tr.callers i (.returned (some c)) _ hx
        have h3 : callWork (.got (some c)) = 9 := rfl
        have h4 : callWork (.returned (some c)) = 0 := rfl
        have h5 : loopWork (.announce c) = 8 := rfl
        have h6 : loopWork (.within i) = 0 := rfl
        simp only [work, e2]
        omega
      · simp at ha
    · rename_i c hp
      injection ha with ha; subst ha
      refine ⟨?_, hc⟩
      have h1 := weigh_set loopWork s.loops a (.spawn c) _ hp
      have h5 : loopWork (.announce c) = 8 := rfl
      have h6 : loopWork (.spawn c) = 7 := rfl
      simp only [work]
      omega
    · rename_i c hp
      injection ha with ha; subst ha
      refine ⟨?_, hc⟩
      have h1 := weigh_set loopWork s.loops a .top _ hp
      have h5 : loopWork .top = 3 := rfl
      have h6 : loopWork (.spawn c) = 7 := rfl
      have h7 : weigh readWork [(c, Stage.reading)] = 3 := rfl
      simp only [work, weigh_append]
      omega
    · simp at ha
  | fail r =>
    simp only [act] at ha
    split at ha
    · rename_i c hr
      split at ha
      · injection ha with ha; subst ha
        refine ⟨?_, hc⟩
        have h1 := weigh_set readWork s.readers r (c, .closing) _ hr
        have h5 : readWork (c, .closing) = 2 := rfl
        have h6 : readWork (c, .reading) = 3 := rfl
        simp only [work]
        omega
      · simp at ha
    · simp at ha
  | finish r =>
    simp only [act] at ha
    split at ha
    · rename_i c hr
      obtain ⟨t, ht, rfl⟩ := map_some ha
      obtain ⟨_, hb⟩ := Stream.not_crashed ht
      injection hb with hb; subst hb
      refine ⟨?_, hc⟩
      have h1 := weigh_set readWork s.readers r (c, .telling) _ hr
      have h5 : readWork (c, .closing) = 2 := rfl
      have h6 : readWork (c, .telling) = 1 := rfl
      simp only [work]
      omega
    · rename_i c hr
      injection ha with ha; subst ha
      refine ⟨?_, hc⟩
      have h1 := weigh_set readWork s.readers r (c, .over) _ hr
      have h5 : readWork (c, .over) = 0 := rfl
      have h6 : readWork (c, .telling) = 1 := rfl
      simp only [work]
      omega
    · simp at ha
  | _ => exact absurd hl (by simp [Inner])

/-- The goroutines of `LowerDeck` by themselves take only finitely many steps, whatever the order. -/
theorem c92_bounded (ls : List Label) : ∀ (s s' : Sys), (∀ l ∈ ls, Inner l) → exec s ls = some s' → ls.length ≤ work s := by
  induction ls with
  | nil => intro s s' _ _; simp
  | cons l ls ih =>
    intro s s' hl he
    obtain ⟨m, hm, he⟩ := exec_cons (step := step) he
    have h1 := (work_step (hl l List.mem_cons_self) hm).1
    have h2 := ih m s' (fun k hk => hl k (List.mem_cons_of_mem _ hk)) he
    simp only [List.length_cons]
    omega

/-- **C91/C92, that rest is reached.**  From every state in which the process has not crashed, the goroutines of `LowerDeck` come to rest by themselves, without crashing. -/
theorem c92_settles (s : Sys) (hc : s.tr.crash = none) : ∃ ls s', (∀ l ∈ ls, Inner l) ∧ exec s ls = some s' ∧ Rest s' ∧ s'.tr.crash = none := by
  generalize hn : work s = n
  induction n using Nat.strongRecOn generalizing s with
  | ind n ih =>
    by_cases hr : Rest s
    · exact ⟨[], s, by simp, rfl, hr, hc⟩
    · have : ∃ l, Inner l ∧ step s l ≠ none := by
        refine Classical.byContradiction fun h => hr fun l hl => Classical.byContradiction fun e => h ⟨l, hl, e⟩
      obtain ⟨l, hl, he⟩ := this
      obtain ⟨m, hm⟩ := Option.ne_none_iff_exists'.mp he
      obtain ⟨h1, h2⟩ := work_step hl hm
      obtain ⟨ls, s', h3, h4, h5, h6⟩ := ih (work m) (by omega) m h2 rfl
      refine ⟨l :: ls, s', ?_, ?_, h5, h6⟩
      · intro k hk
        rcases List.mem_cons.mp hk with rfl | hk
        · exact hl
        · exact h3 k hk
      · show Trace.exec step s (l :: ls) = _
        simp only [Trace.exec, hm, Option.bind_some]
        exact h4

/-! ## Violations -/

set_option synthInstance.maxSize 2000

/-- A connection accepted, and the transport deleted before the accept goroutine takes it; then `LowerDeck` comes to rest, and so does the transport. -/
def late : List Label :=
  [.add, .transport 0 true, .transport 0 true, .transport 0 true, .transport 0 true, .transport 0 true, .transport 0 true, .loop 0, .del, .transport 0 false, .transport 0 true,
   .loop 0, .loop 0, .loop 0, .loop 0, .loop 0, .loop 0, .loop 0]

/-- `Rest`, checked. -/
def restB (s : Sys) : Bool :=
  (List.range s.loops.length).all (fun a => (step s (.loop a)).isNone) &&
  (List.range s.readers.length).all fun r => (step s (.fail r)).isNone && (step s (.finish r)).isNone

theorem rest_of {s : Sys} (h : restB s = true) : Rest s := by
  simp only [restB, Bool.and_eq_true, List.all_eq_true, List.mem_range, Option.isNone_iff_eq_none] at h
  intro l hl
  cases l with
  | loop a =>
    by_cases e : a < s.loops.length
    · exact h.1 a e
    · simp only [step, act, loopStep, List.getElem?_eq_none (Nat.le_of_not_lt e), ite_self]
  | fail r =>
    by_cases e : r < s.readers.length
    · exact (h.2 r e).1
    · simp only [step, act, List.getElem?_eq_none (Nat.le_of_not_lt e), ite_self]
  | finish r =>
    by_cases e : r < s.readers.length
    · exact (h.2 r e).2
    · simp only [step, act, List.getElem?_eq_none (Nat.le_of_not_lt e), ite_self]
  | _ => exact absurd hl (by simp [Inner])

/-- C91 fails, for TCP and Unix servers: after `DeleteTransport` a connection is announced, stays open, and its data are delivered. -/
theorem c91_violated (guard : Bool) :
    ∃ s s', exec (init ⟨guard, true, 0⟩) late = some s ∧ s.tr.crash = none ∧ s.tr.isRunning = false ∧ Rest s ∧ s.tr.gos = [.done] ∧ s.loops = [.over] ∧
      s.tr.closedCons = [] ∧ s.out = [.opened 0] ∧ step s (.data 0) = some s' ∧ s'.out = [.opened 0, .data 0] := by
  have h : (exec (init ⟨guard, true, 0⟩) late).map (fun s => (s.tr.crash, s.tr.isRunning, restB s, s.tr.gos, s.loops, s.tr.closedCons, s.out, (step s (.data 0)).map Sys.out)) =
      some (none, false, true, [.done], [.over], [], [.opened 0], some [.opened 0, .data 0]) := by cases guard <;> decide +kernel
  obtain ⟨s, hs, h⟩ := map_some h
  simp only [Prod.mk.injEq] at h
  obtain ⟨h1, h2, h3, h4, h5, h6, h7, h8⟩ := h
  obtain ⟨s', h9, h10⟩ := map_some h8
  exact ⟨s, s', hs, h1, h2, rest_of h3, h4, h5, h6, h7, h9, h10⟩

/-- The transport is deleted while one connection is being announced and another one waits, and is then added again. -/
def mislaid : List Label :=
  [.add, .transport 0 true, .transport 0 true, .transport 0 true, .transport 0 true, .transport 0 true, .transport 0 true, .loop 0, .loop 0, .loop 0,
   .transport 0 true, .transport 0 true, .transport 0 true, .transport 0 true, .del, .transport 0 false, .transport 0 true, .add,
   .loop 0, .loop 0, .loop 0, .loop 1, .fail 0, .finish 0, .finish 0]

/-- A connection that is in an old channel on which nobody waits. -/
structure Mislaid (c : Nat) (t : Stream.Sys) : Prop where
  there : ∃ (k : Nat) (ch : Stream.Chan), t.chans[k]? = some ch ∧ c ∈ ch.buf ∧ k + 1 < t.chans.length ∧ ∀ i : Nat, t.callers[i]? ≠ some (.waiting (some k))

theorem mislaid_step {c : Nat} {t t' : Stream.Sys} {l : Stream.Label} (h : Mislaid c t) (hw : Stream.Wf t) (hs : Stream.step t l = some t') : Mislaid c t' := by
  obtain ⟨k, ch, hk, hb, hlt, hno⟩ := h.there
  obtain ⟨hc, ha⟩ := Stream.not_crashed hs
  have viaStop : ∀ u : Stream.Sys, u.chans = t.chans → u.callers = t.callers → Mislaid c (Stream.stop u) := by
    intro u h1 h2
    have e := (Stream.stop_chans u).2
    have e1 : ((Stream.stop u).chans.map Stream.Chan.buf)[k]? = some ch.buf := by rw [e, h1]; simp [hk]
    simp only [List.getElem?_map, Option.map_eq_some_iff] at e1
    obtain ⟨x, hx, hxb⟩ := e1
    refine ⟨k, x, hx, by rw [hxb]; exact hb, by rw [(Stream.stop_callers u).2, h1]; exact hlt, fun i => ?_⟩
    rw [(Stream.stop_callers u).1, h2]; exact hno i
  cases l with
  | run =>
    injection ha with ha; subst ha
    unfold Stream.run
    split
    · exact h
    · exact ⟨k, ch, by rw [List.getElem?_append_left (by omega)]; exact hk, hb, by simp; omega, hno⟩
  | stop => injection ha with ha; subst ha; exact viaStop t rfl rfl
  | call =>
    injection ha with ha; subst ha
    refine ⟨k, ch, hk, hb, hlt, fun i hi => ?_⟩
    simp only [List.getElem?_append] at hi
    split at hi
    · exact hno i hi
    · cases hz : i - t.callers.length with
      | zero =>
        rw [hz, hw.last, if_neg (by omega)] at hi
        simp only [List.getElem?_cons_zero, Option.some.injEq, Stream.Caller.waiting.injEq] at hi
        omega
      | succ z => rw [hz] at hi; simp at hi
  | recv i =>
    simp only [Stream.act] at ha
    split at ha
    · rename_i m hi
      have hmk : m ≠ k := fun e => hno i (by rw [hi, e])
      split at ha
      · simp at ha
      · split at ha
        · injection ha with ha; subst ha
          refine ⟨k, ch, by simp only [List.getElem?_set, if_neg hmk]; exact hk, hb, by simpa using hlt, fun j hj => ?_⟩
          simp only [List.getElem?_set] at hj
          split at hj
          · split at hj <;> simp at hj
          · exact hno j hj
        · split at ha
          · injection ha with ha; subst ha
            refine ⟨k, ch, hk, hb, hlt, fun j hj => ?_⟩
            simp only [List.getElem?_set] at hj
            split at hj
            · split at hj <;> simp at hj
            · exact hno j hj
          · simp at ha
    · simp at ha
  | save i =>
    simp only [Stream.act] at ha
    split at ha
    · rename_i r hx
      injection ha with ha; subst ha
      obtain ⟨_, e2, _⟩ := Stream.save_next t r
      refine ⟨k, ch, by simp only [e2]; exact hk, hb, by simp only [e2]; exact hlt, fun j hj => ?_⟩
      simp only [List.getElem?_set] at hj
      split at hj
      · split at hj <;> simp at hj
      · exact hno j hj
    · simp at ha
  | close d => injection ha with ha; subst ha; exact ⟨k, ch, hk, hb, hlt, hno⟩
  | go j ok =>
    simp only [Stream.act, Stream.goStep] at ha
    split at ha
    · simp at ha
    · split at ha <;> injection ha with ha <;> subst ha <;> exact ⟨k, ch, hk, hb, hlt, hno⟩
    · split at ha <;> injection ha with ha <;> subst ha <;> exact ⟨k, ch, hk, hb, hlt, hno⟩
    · split at ha
      · split at ha
        · simp at ha
        · injection ha with ha; subst ha; exact ⟨k, ch, hk, hb, hlt, hno⟩
      · injection ha with ha; subst ha; exact ⟨k, ch, hk, hb, hlt, hno⟩
    · split at ha
      · simp at ha
      · injection ha with ha; subst ha; exact ⟨k, ch, hk, hb, hlt, hno⟩
    · split at ha
      · simp at ha
      · rename_i m d again hj _ ch' hm
        split at ha
        · injection ha with ha; subst ha; exact ⟨k, ch, hk, hb, hlt, hno⟩
        · split at ha
          · injection ha with ha; subst ha
            by_cases e : m = k
            · subst e
              rw [hk] at hm
              injection hm with hm; subst hm
              exact ⟨m, { ch with buf := ch.buf ++ [d] }, by simp [(List.getElem?_eq_some_iff.mp hk).1], by simp [hb], by simpa using hlt, hno⟩
            · exact ⟨k, ch, by simp only [List.getElem?_set, if_neg e]; exact hk, hb, by simpa using hlt, hno⟩
          · simp at ha
    · split at ha
      · split at ha <;> injection ha with ha <;> subst ha <;> exact ⟨k, ch, hk, hb, hlt, hno⟩
      · injection ha with ha; subst ha; exact ⟨k, ch, hk, hb, hlt, hno⟩
    · injection ha with ha; subst ha; exact viaStop _ rfl rfl
    · simp at ha

/-- **C92, what is lost.**  Once a connection is in a channel that is not the transport's any more, with nobody waiting there, it is never announced, whatever happens afterwards. -/
theorem c92_lost (conf : Stream.Conf) (pre : List Label) (s : Sys) (h : exec (init conf) pre = some s) (c : Nat) (hm : Mislaid c s.tr) :
    ∀ (ls : List Label) (s' : Sys), exec s ls = some s' → .opened c ∉ s'.out := by
  have key : ∀ (ls : List Label) (s' : Sys), exec s ls = some s' → Mislaid c s'.tr ∧ exec (init conf) (pre ++ ls) = some s' := by
    refine snoc_induction ?_ ?_
    · intro s' e
      injection e with e; subst e
      exact ⟨hm, by rw [List.append_nil]; exact h⟩
    · intro ls l ih s' e
      obtain ⟨m, h1, h2⟩ := exec_snoc (step := step) e
      obtain ⟨h3, h4⟩ := ih m h1
      refine ⟨?_, ?_⟩
      · rcases tr_step h2 with e | ⟨k, e⟩
        · rw [e]; exact h3
        · exact mislaid_step h3 ((inv_exec conf _ m h4).wf (alive h2).1) e
      · show Trace.exec step _ _ = _
        rw [← List.append_assoc, exec_append, show Trace.exec step _ _ = _ from h4]
        simp [Trace.exec, h2]
  intro ls s' e
  obtain ⟨h1, h2⟩ := key ls s' e
  have hi := inv_exec conf _ s' h2
  rw [hi.opened]
  obtain ⟨k, ch, hk, hb, _⟩ := h1.there
  have h3 := weigh_le (Stream.inChan c) s'.tr.chans k ch hk
  have h4 : 0 < Stream.inChan c ch := List.count_pos_iff.mpr hb
  have h5 := hi.ledger c
  have h6 := hi.told.told c
  simp only [ledger, Stream.onTheWay] at h5
  split at h5 <;> omega

/-- C92 fails, for TCP and Unix servers: of the two connections one is never announced, though the transport has been added again and runs. -/
theorem c92_violated (guard : Bool) :
    ∃ s, exec (init ⟨guard, true, 0⟩) mislaid = some s ∧ s.tr.crash = none ∧ s.tr.isRunning = true ∧ Rest s ∧ s.tr.cons = 2 ∧ s.out = [.opened 0, .closed 0] ∧
      s.tr.closedCons = [0, 0] ∧ ∀ (ls : List Label) (s' : Sys), exec s ls = some s' → .opened 1 ∉ s'.out := by
  have h : (exec (init ⟨guard, true, 0⟩) mislaid).map (fun s => (s.tr.crash, s.tr.isRunning, restB s, s.tr.cons, s.out, s.tr.closedCons, s.tr.chans, s.tr.callers)) =
      some (none, true, true, 2, [.opened 0, .closed 0], [0, 0], [⟨[1], true⟩, ⟨[], false⟩], [.returned (some 0), .waiting (some 1), .waiting (some 1)]) := by
    cases guard <;> decide +kernel
  obtain ⟨s, hs, h⟩ := map_some h
  simp only [Prod.mk.injEq] at h
  obtain ⟨h1, h2, h3, h4, h5, h6, h7, h8⟩ := h
  refine ⟨s, hs, h1, h2, rest_of h3, h4, h5, h6, c92_lost _ mislaid s hs 1 ⟨0, ⟨[1], true⟩, by simp [h7], by simp, by simp [h7], fun i hi => ?_⟩⟩
  rw [h8] at hi
  rcases i with _ | _ | _ | i <;> simp at hi

/-! ## Examples -/

/-- Two connections, served; then the transport is deleted in an orderly way. -/
def serve : List Label :=
  [.add, .transport 0 true, .transport 0 true, .transport 0 true, .transport 0 true, .transport 0 true, .transport 0 true, .loop 0, .loop 0, .loop 0, .loop 0, .loop 0, .loop 0,
   .data 0, .transport 0 true, .transport 0 true, .transport 0 true, .transport 0 true, .loop 0, .loop 0, .loop 0, .loop 0, .loop 0, .data 1, .data 0]

def retire : List Label := [.del, .transport 0 false, .transport 0 true, .loop 0, .loop 0, .fail 0, .fail 1, .finish 0, .finish 0, .finish 1, .finish 1]

/-- `Orderly`, checked along an execution. -/
def orderlyFrom : Sys → List Label → Bool
  | _, [] => true
  | s, l :: ls =>
    match step s l with
    | none => true
    | some s' => (!(s.tr.isRunning && !s'.tr.isRunning) || (s.tr.chans.all (·.buf.isEmpty) && s.tr.callers.all fun | .got (some _) => false | _ => true)) && orderlyFrom s' ls

theorem orderly_of (conf : Stream.Conf) (ls : List Label) (h : orderlyFrom (init conf) ls = true) : Orderly conf ls := by
  have key : ∀ (pre : List Label) (s : Sys) (l : Label) (post : List Label) (s1 s2 : Sys), orderlyFrom s (pre ++ l :: post) = true → exec s pre = some s1 → step s1 l = some s2 →
      s1.tr.isRunning = true → s2.tr.isRunning = false → Idle s1.tr := by
    intro pre
    induction pre with
    | nil =>
      intro s l post s1 s2 h h1 h2 h3 h4
      injection h1 with h1; subst h1
      simp only [List.nil_append, orderlyFrom, h2, h3, h4, Bool.not_false, Bool.and_self, Bool.not_true, Bool.false_or, Bool.and_eq_true, List.all_eq_true] at h
      refine ⟨fun ch hch => by simpa using h.1.1 ch hch, fun c hm => by simpa using h.1.2 _ hm⟩
    | cons x pre ih =>
      intro s l post s1 s2 h h1 h2 h3 h4
      obtain ⟨m, hm, h1⟩ := exec_cons (step := step) h1
      simp only [List.cons_append, orderlyFrom, hm, Bool.and_eq_true] at h
      exact ih m l post s1 s2 h.2 h1 h2 h3 h4
  intro pre l post s1 s2 e h1 h2 h3 h4
  subst e
  exact key pre (init conf) l post s1 s2 h h1 h2 h3 h4

/-- The hypotheses of `c91_partial` are met by a session with two connections, and this is what it says of it. -/
example : ∃ s, Orderly Stream.tcpServer (serve ++ retire) ∧ exec (init Stream.tcpServer) (serve ++ retire) = some s ∧ s.tr.crash = none ∧ Rest s ∧
    s.tr.isRunning = false ∧ s.tr.cons = 2 ∧ s.loops = [.over] ∧ s.out = [.opened 0, .data 0, .opened 1, .data 1, .data 0, .closed 0, .closed 1] := by
  have h : (exec (init Stream.tcpServer) (serve ++ retire)).map (fun s => (s.tr.crash, restB s, s.tr.isRunning, s.tr.cons, s.loops, s.out)) =
      some (none, true, false, 2, [.over], [.opened 0, .data 0, .opened 1, .data 1, .data 0, .closed 0, .closed 1]) := by decide +kernel
  obtain ⟨s, hs, h⟩ := map_some h
  simp only [Prod.mk.injEq] at h
  exact ⟨s, orderly_of _ _ (by decide +kernel), hs, h.1, rest_of h.2.1, h.2.2⟩

/-- `c92_exact` and `c92_read` in the middle of that session: at rest, while the transport runs. -/
example : ∃ s, exec (init Stream.udsServer) serve = some s ∧ s.tr.crash = none ∧ Rest s ∧ s.tr.isRunning = true ∧ s.tr.cons = 2 ∧
    s.readers = [(0, .reading), (1, .reading)] := by
  have h : (exec (init Stream.udsServer) serve).map (fun s => (s.tr.crash, restB s, s.tr.isRunning, s.tr.cons, s.readers)) =
      some (none, true, true, 2, [(0, .reading), (1, .reading)]) := by decide +kernel
  obtain ⟨s, hs, h⟩ := map_some h
  simp only [Prod.mk.injEq] at h
  exact ⟨s, hs, h.1, rest_of h.2.1, h.2.2⟩

/-- Both cases of `c91_exact` occur: the connection is received, and saved while the transport runs, or only after it was deleted. -/
example : (exec (init Stream.tcpServer) (serve.take 9)).map (fun s => (s.loops, s.tr.callers, s.tr.isRunning)) = some ([.within 0], [.got (some 0)], true) ∧
    (exec (init Stream.tcpServer) (late.take 12)).map (fun s => (s.loops, s.tr.callers, s.tr.isRunning)) = some ([.within 0], [.got (some 0)], false) := by
  decide +kernel

end Verif.Conn.Retire
