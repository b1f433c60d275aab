import Verif.Trace

/-!
# The reference transport (C53, C54, C55)

tran_reference.go.  Any number of transports (fixed address, side and `MaxQueueSize`), the global map from addresses to channels, and
connections.  `Run` (tran_reference.go:234-261) is two steps, since it sends on `next` (capacity 1) while it holds the global mutex;
every other call is one step.  A step that is not possible (`none`) is a call that waits.  After a panic nothing happens any more.
`SetReference` and `GetReference` test `closed` and then wait for the channel; the connection may be closed in between, which is the flag
`late` of the labels: the test was made earlier and succeeded.  Objects are numbers; nil is refused by `SetReference` and is not sent.
-/

namespace Verif.Conn.Reference

open Verif.Trace

/-- Fixed properties of a transport. -/
structure Conf where
  address : Nat
  forServer : Bool
  queueSize : Int

structure Tp where
  conf : Conf
  isRunning : Bool
  /-- the channel `next` of capacity 1 holds this connection -/
  next : Option Nat
  /-- `sm.connection` -/
  connection : Option Nat

/-- `referenceChannel` (tran_reference.go:36-40) -/
structure Chan where
  refCount : Int
  cap : Nat
  /-- `serverTxClientRx` -/
  down : List Nat
  /-- `serverRxClientTx` -/
  up : List Nat
  closed : Bool

/-- `ReferenceTransportConnection` (tran_reference.go:60-65) -/
structure Con where
  forServer : Bool
  closed : Bool
  chan : Nat

/-- Objects put on and taken from channels. -/
inductive Ev where
  | set (chan : Nat) (byServer : Bool) (v : Nat)
  | got (chan : Nat) (byServer : Bool) (v : Nat)
  deriving Repr, DecidableEq

structure Sys where
  tps : List Tp
  addr : Nat → Option Nat
  chans : List Chan
  cons : List Con
  /-- the transport whose `Run` holds the global mutex (and its own), waiting to send this connection -/
  holder : Option (Nat × Nat)
  log : List Ev
  panicked : Bool

inductive Label where
  /-- `Run` up to the send (tran_reference.go:235-256) -/
  | run (t : Nat)
  /-- the send and the unlock -/
  | runSend
  /-- `NextConnection` returns (tran_reference.go:221-225) -/
  | nextConnection (t : Nat)
  /-- `SetReference(v)` with `v ≠ nil` puts the object on the channel (tran_reference.go:120-137) -/
  | set (c : Nat) (v : Nat) (late : Bool)
  /-- `GetReference` takes an object from the channel (tran_reference.go:102-117) -/
  | get (c : Nat) (late : Bool)
  /-- a send and a receive on a channel without buffer -/
  | handOver (cs cg : Nat) (v : Nat)
  /-- `Close` of a connection (tran_reference.go:140-142) -/
  | close (c : Nat)
  | stop (t : Nat)
  deriving Repr, DecidableEq

def Chan.queue (ch : Chan) (byServer : Bool) : List Nat := if byServer then ch.down else ch.up

def Chan.setQueue (ch : Chan) (byServer : Bool) (q : List Nat) : Chan := if byServer then { ch with down := q } else { ch with up := q }

/-- The body of `Stop` behind the test (tran_reference.go:272-289). -/
def stopBody (s : Sys) (tp : Tp) : Option Sys :=
  match tp.connection with
  | none => some { s with panicked := true }
  | some c =>
    match s.cons[c]? with
    | none => none
    | some con =>
      let s := { s with cons := s.cons.set c { con with closed := true } }
      match s.addr tp.conf.address with
      | none => some s
      | some k =>
        match s.chans[k]? with
        | none => none
        | some ch =>
          let ch := { ch with refCount := ch.refCount - 1 }
          if ch.refCount = 0 then
            some { s with addr := fun a => if a = tp.conf.address then none else s.addr a, chans := s.chans.set k { ch with closed := true } }
          else some { s with chans := s.chans.set k ch }

/-- A transport in the middle of `Run` holds its own lock. -/
def Sys.locked (s : Sys) (t : Nat) : Prop := s.holder.map Prod.fst = some t

instance (s : Sys) (t : Nat) : Decidable (s.locked t) := by unfold Sys.locked; infer_instance

/-- `make(chan interface{}, size)` panics for a negative size (tran_reference.go:43-49). -/
def act (s : Sys) : Label → Option Sys
  | .run t =>
    match s.tps[t]? with
    | none => none
    | some tp =>
      if s.locked t then none
      else if tp.isRunning then some s
      else if s.holder ≠ none then none
      else
        match s.addr tp.conf.address with
        | some k =>
          match s.chans[k]? with
          | none => none
          | some ch =>
            some { s with
              chans := s.chans.set k { ch with refCount := ch.refCount + 1 }
              cons := s.cons ++ [⟨tp.conf.forServer, false, k⟩]
              holder := some (t, s.cons.length) }
        | none =>
          if tp.conf.queueSize < 0 then some { s with panicked := true }
          else
            some { s with
              addr := fun a => if a = tp.conf.address then some s.chans.length else s.addr a
              chans := s.chans ++ [⟨1, tp.conf.queueSize.toNat, [], [], false⟩]
              cons := s.cons ++ [⟨tp.conf.forServer, false, s.chans.length⟩]
              holder := some (t, s.cons.length) }
  | .runSend =>
    match s.holder with
    | none => none
    | some (t, c) =>
      match s.tps[t]? with
      | none => none
      | some tp => if tp.next = none then some { s with tps := s.tps.set t { tp with next := some c }, holder := none } else none
  | .nextConnection t =>
    match s.tps[t]? with
    | none => none
    | some tp =>
      match tp.next with
      | none => none
      | some c => some { s with tps := s.tps.set t { tp with next := none, connection := some c } }
  | .set c v late =>
    match s.cons[c]? with
    | none => none
    | some con =>
      if con.closed ∧ late = false then some s
      else
        match s.chans[con.chan]? with
        | none => none
        | some ch =>
          if ch.closed then some { s with panicked := true }
          else if (ch.queue con.forServer).length < ch.cap then
            some { s with
              chans := s.chans.set con.chan (ch.setQueue con.forServer (ch.queue con.forServer ++ [v]))
              log := s.log ++ [.set con.chan con.forServer v] }
          else none
  | .get c late =>
    match s.cons[c]? with
    | none => none
    | some con =>
      if con.closed ∧ late = false then some s
      else
        match s.chans[con.chan]? with
        | none => none
        | some ch =>
          match ch.queue (!con.forServer) with
          | v :: rest =>
            some { s with
              chans := s.chans.set con.chan (ch.setQueue (!con.forServer) rest)
              log := s.log ++ [.got con.chan (!con.forServer) v] }
          | [] => if ch.closed then some s else none
  | .handOver cs cg v =>
    match s.cons[cs]?, s.cons[cg]? with
    | some a, some b =>
      if a.chan = b.chan ∧ b.forServer = !a.forServer then
        match s.chans[a.chan]? with
        | none => none
        | some ch =>
          if ch.closed = false ∧ ch.cap = 0 then some { s with log := s.log ++ [.set a.chan a.forServer v, .got a.chan a.forServer v] }
          else none
      else none
    | _, _ => none
  | .close c =>
    match s.cons[c]? with
    | none => none
    | some con => some { s with cons := s.cons.set c { con with closed := true } }
  | .stop t =>
    match s.tps[t]? with
    | none => none
    | some tp =>
      if s.locked t then none
      else if tp.isRunning = false then some s
      else if s.holder ≠ none then none
      else stopBody s tp

def step (s : Sys) (l : Label) : Option Sys := if s.panicked then none else act s l

abbrev exec := Trace.exec step

def init (confs : List Conf) : Sys := ⟨confs.map fun c => ⟨c, false, none, none⟩, fun _ => none, [], [], none, [], false⟩

/-! ## C53 -/

def setOn (k : Nat) (d : Bool) (log : List Ev) : List Nat := log.filterMap fun | .set k' d' v => if k' = k ∧ d' = d then some v else none | _ => none

def gotOn (k : Nat) (d : Bool) (log : List Ev) : List Nat := log.filterMap fun | .got k' d' v => if k' = k ∧ d' = d then some v else none | _ => none

theorem setOn_append (k : Nat) (d : Bool) (a b : List Ev) : setOn k d (a ++ b) = setOn k d a ++ setOn k d b := List.filterMap_append
theorem gotOn_append (k : Nat) (d : Bool) (a b : List Ev) : gotOn k d (a ++ b) = gotOn k d a ++ gotOn k d b := List.filterMap_append

/-- The queues hold what was set and not taken, in order, and never more than the capacity. -/
def Fifo (s : Sys) : Prop :=
  (∀ k ch d, s.chans[k]? = some ch → setOn k d s.log = gotOn k d s.log ++ ch.queue d ∧ (ch.queue d).length ≤ ch.cap) ∧
  (∀ k d, s.chans.length ≤ k → setOn k d s.log = [] ∧ gotOn k d s.log = [])

theorem queue_setQueue (ch : Chan) (d e : Bool) (q : List Nat) : (ch.setQueue d q).queue e = if d = e then q else ch.queue e := by
  cases d <;> cases e <;> rfl

theorem setQueue_cap (ch : Chan) (d : Bool) (q : List Nat) : (ch.setQueue d q).cap = ch.cap := by cases d <;> rfl

/-- Changing a channel without touching its queues. -/
theorem Fifo.touch {s s' : Sys} (h : Fifo s) (k : Nat) (ch ch' : Chan) (hk : s.chans[k]? = some ch) (hc : s'.chans = s.chans.set k ch')
    (hl : s'.log = s.log) (hd : ch'.down = ch.down) (hu : ch'.up = ch.up) (hcap : ch'.cap = ch.cap) : Fifo s' := by
  have hq : ∀ d, ch'.queue d = ch.queue d := by intro d; cases d <;> simp [Chan.queue, hd, hu]
  constructor
  · intro j x d hj
    rw [hc, List.getElem?_set] at hj
    rw [hl]
    split at hj
    · rename_i hkj
      split at hj
      · injection hj with hj
        subst hj
        subst hkj
        rw [hq, hcap]
        exact h.1 k ch d hk
      · simp at hj
    · exact h.1 j x d hj
  · intro j d hj
    rw [hc, List.length_set] at hj
    rw [hl]
    exact h.2 j d hj

theorem Fifo.same {s s' : Sys} (h : Fifo s) (hc : s'.chans = s.chans) (hl : s'.log = s.log) : Fifo s' := by
  constructor
  · rw [hc, hl]; exact h.1
  · rw [hc, hl]; exact h.2

theorem fifo_stop {s s' : Sys} {tp : Tp} (h : Fifo s) (hs : stopBody s tp = some s') : Fifo s' := by
  simp only [stopBody] at hs
  split at hs
  · injection hs with hs; subst hs; exact h.same rfl rfl
  · split at hs
    · simp at hs
    · split at hs
      · injection hs with hs; subst hs; exact h.same rfl rfl
      · split at hs
        · simp at hs
        · rename_i _ ch hch
          split at hs <;> injection hs with hs <;> subst hs
          · exact h.touch _ ch _ hch rfl rfl rfl rfl rfl
          · exact h.touch _ ch _ hch rfl rfl rfl rfl rfl

theorem fifo_step {s s' : Sys} {l : Label} (h : Fifo s) (hs : step s l = some s') : Fifo s' := by
  simp only [step] at hs
  split at hs
  · simp at hs
  cases l with
  | run t =>
    simp only [act] at hs
    split at hs
    · simp at hs
    · split at hs
      · simp at hs
      · split at hs
        · injection hs with hs; subst hs; exact h
        · split at hs
          · simp at hs
          · split at hs
            · split at hs
              · simp at hs
              · rename_i k hk _ ch hch
                injection hs with hs; subst hs
                exact h.touch k ch _ hch rfl rfl rfl rfl rfl
            · split at hs
              · injection hs with hs; subst hs; exact h.same rfl rfl
              · injection hs with hs; subst hs
                constructor
                · intro j x d hj
                  simp only at hj ⊢
                  by_cases hlt : j < s.chans.length
                  · rw [List.getElem?_append_left hlt] at hj; exact h.1 j x d hj
                  · rw [List.getElem?_append_right (Nat.le_of_not_lt hlt)] at hj
                    have hj0 : j - s.chans.length = 0 := by
                      cases hz : j - s.chans.length with
                      | zero => rfl
                      | succ z => rw [hz] at hj; simp at hj
                    rw [hj0] at hj
                    simp only [List.getElem?_cons_zero, Option.some.injEq] at hj
                    subst hj
                    obtain ⟨e1, e2⟩ := h.2 j d (Nat.le_of_not_lt hlt)
                    rw [e1, e2]
                    cases d <;> simp [Chan.queue]
                · intro j d hj
                  simp only [List.length_append, List.length_cons, List.length_nil] at hj ⊢
                  exact h.2 j d (by omega)
  | runSend =>
    simp only [act] at hs
    split at hs
    · simp at hs
    · split at hs
      · simp at hs
      · split at hs
        · injection hs with hs; subst hs; exact h.same rfl rfl
        · simp at hs
  | nextConnection t =>
    simp only [act] at hs
    split at hs
    · simp at hs
    · split at hs
      · simp at hs
      · injection hs with hs; subst hs; exact h.same rfl rfl
  | set c v late =>
    simp only [act] at hs
    split at hs
    · simp at hs
    · rename_i con hcon
      split at hs
      · injection hs with hs; subst hs; exact h
      · split at hs
        · simp at hs
        · rename_i ch hch
          split at hs
          · injection hs with hs; subst hs; exact h.same rfl rfl
          · split at hs
            · rename_i hlt
              injection hs with hs; subst hs
              constructor
              · intro j x d hj
                simp only at hj ⊢
                rw [List.getElem?_set] at hj
                rw [setOn_append, gotOn_append]
                split at hj
                · rename_i hkj
                  subst hkj
                  split at hj
                  · injection hj with hj
                    subst hj
                    obtain ⟨e1, e2⟩ := h.1 con.chan ch d hch
                    rw [queue_setQueue, setQueue_cap]
                    by_cases hd : con.forServer = d
                    · subst hd
                      simp only [setOn, gotOn, List.filterMap_cons, and_self, if_true, List.filterMap_nil, List.append_nil] at *
                      rw [e1]
                      refine ⟨by simp, by simp; omega⟩
                    · rw [if_neg hd]
                      simp only [setOn, gotOn, List.filterMap_cons, hd, and_false, if_false, List.filterMap_nil, List.append_nil] at *
                      exact ⟨e1, e2⟩
                  · simp at hj
                · rename_i hkj
                  obtain ⟨e1, e2⟩ := h.1 j x d hj
                  simp only [setOn, gotOn, List.filterMap_cons, hkj, false_and, if_false, List.filterMap_nil, List.append_nil] at *
                  exact ⟨e1, e2⟩
              · intro j d hj
                simp only [List.length_set] at hj ⊢
                have hne : con.chan ≠ j := by
                  have := (List.getElem?_eq_some_iff.mp hch).1
                  omega
                obtain ⟨e1, e2⟩ := h.2 j d hj
                rw [setOn_append, gotOn_append, e1, e2]
                simp [setOn, gotOn, hne]
            · simp at hs
  | get c late =>
    simp only [act] at hs
    split at hs
    · simp at hs
    · rename_i con hcon
      split at hs
      · injection hs with hs; subst hs; exact h
      · split at hs
        · simp at hs
        · rename_i ch hch
          split at hs
          · rename_i v rest hq
            injection hs with hs; subst hs
            constructor
            · intro j x d hj
              simp only at hj ⊢
              rw [List.getElem?_set] at hj
              rw [setOn_append, gotOn_append]
              split at hj
              · rename_i hkj
                subst hkj
                split at hj
                · injection hj with hj
                  subst hj
                  obtain ⟨e1, e2⟩ := h.1 con.chan ch d hch
                  rw [queue_setQueue, setQueue_cap]
                  by_cases hd : (!con.forServer) = d
                  · subst hd
                    rw [if_pos rfl]
                    rw [hq] at e1 e2
                    simp only [setOn, gotOn, List.filterMap_cons, and_self, if_true, List.filterMap_nil, List.append_nil] at *
                    rw [e1]
                    simp only [List.length_cons] at e2
                    refine ⟨by simp, by omega⟩
                  · rw [if_neg hd]
                    simp only [setOn, gotOn, List.filterMap_cons, hd, and_false, if_false, List.filterMap_nil, List.append_nil] at *
                    exact ⟨e1, e2⟩
                · simp at hj
              · rename_i hkj
                obtain ⟨e1, e2⟩ := h.1 j x d hj
                simp only [setOn, gotOn, List.filterMap_cons, hkj, false_and, if_false, List.filterMap_nil, List.append_nil] at *
                exact ⟨e1, e2⟩
            · intro j d hj
              simp only [List.length_set] at hj ⊢
              have hne : con.chan ≠ j := by
                have := (List.getElem?_eq_some_iff.mp hch).1
                omega
              obtain ⟨e1, e2⟩ := h.2 j d hj
              rw [setOn_append, gotOn_append, e1, e2]
              simp [setOn, gotOn, hne]
          · split at hs
            · injection hs with hs; subst hs; exact h
            · simp at hs
  | handOver cs cg v =>
    simp only [act] at hs
    split at hs
    · rename_i a b ha hb
      split at hs
      · split at hs
        · simp at hs
        · rename_i ch hch
          split at hs
          · rename_i hcap
            injection hs with hs; subst hs
            constructor
            · intro j x d hj
              simp only at hj ⊢
              obtain ⟨e1, e2⟩ := h.1 j x d hj
              rw [setOn_append, gotOn_append]
              by_cases hjd : a.chan = j ∧ a.forServer = d
              · obtain ⟨rfl, rfl⟩ := hjd
                rw [hch] at hj
                injection hj with hj
                subst hj
                have hq : ch.queue a.forServer = [] := List.eq_nil_of_length_eq_zero (by omega)
                rw [hq] at e1 ⊢
                simp only [List.append_nil] at e1 ⊢
                refine ⟨?_, by simp⟩
                rw [e1]
                simp [setOn, gotOn]
              · simp only [setOn, gotOn, List.filterMap_cons, hjd, if_false, List.filterMap_nil, List.append_nil] at *
                exact ⟨e1, e2⟩
            · intro j d hj
              simp only at hj ⊢
              have hne : a.chan ≠ j := by
                have := (List.getElem?_eq_some_iff.mp hch).1
                omega
              obtain ⟨e1, e2⟩ := h.2 j d hj
              rw [setOn_append, gotOn_append, e1, e2]
              simp [setOn, gotOn, hne]
          · simp at hs
      · simp at hs
    · simp at hs
  | close c =>
    simp only [act] at hs
    split at hs
    · simp at hs
    · injection hs with hs; subst hs; exact h.same rfl rfl
  | stop t =>
    simp only [act] at hs
    split at hs
    · simp at hs
    · split at hs
      · simp at hs
      · split at hs
        · injection hs with hs; subst hs; exact h
        · split at hs
          · simp at hs
          · exact fifo_stop h hs

theorem fifo_exec (confs : List Conf) (ls : List Label) (s : Sys) (h : exec (init confs) ls = some s) : Fifo s :=
  invariant (step := step) (Q := fun _ => True) (P := Fifo) (fun _ _ _ hp _ hs => fifo_step hp hs) ls (init confs) s
    ⟨by intro k ch d hk; simp [init] at hk, by intro k d _; exact ⟨rfl, rfl⟩⟩ (fun _ _ => trivial) h

/-- Every channel has the capacity asked for by some transport. -/
theorem cap_exec (confs : List Conf) (ls : List Label) (s : Sys) (h : exec (init confs) ls = some s) :
    ∀ ch ∈ s.chans, ∃ c ∈ confs, 0 ≤ c.queueSize ∧ ch.cap = c.queueSize.toNat := by
  let R : Sys → Prop := fun s => s.tps.map Tp.conf = confs ∧ ∀ ch ∈ s.chans, ∃ c ∈ confs, 0 ≤ c.queueSize ∧ ch.cap = c.queueSize.toNat
  have key : R s := by
    refine invariant (step := step) (Q := fun _ => True) (P := R) ?_ ls (init confs) s ?_ (fun _ _ => trivial) h
    · rintro s l s' ⟨ht, hc⟩ _ hs
      have hset : ∀ (t : Nat) (tp tp' : Tp), s.tps[t]? = some tp → tp'.conf = tp.conf → (s.tps.set t tp').map Tp.conf = confs := by
        intro t tp tp' h1 h2
        rw [List.map_set, h2, ht.symm]
        apply List.ext_getElem?
        intro j
        rw [List.getElem?_set]
        split
        · rename_i hj
          subst hj
          have hlt := (List.getElem?_eq_some_iff.mp h1).1
          obtain ⟨_, hg⟩ := List.getElem?_eq_some_iff.mp h1
          simp [hlt, hg]
        · rfl
      have hch : ∀ (k : Nat) (ch ch' : Chan), s.chans[k]? = some ch → ch'.cap = ch.cap →
          ∀ x ∈ s.chans.set k ch', ∃ c ∈ confs, 0 ≤ c.queueSize ∧ x.cap = c.queueSize.toNat := by
        intro k ch ch' h1 h2 x hx
        rcases List.mem_or_eq_of_mem_set hx with hx | hx
        · exact hc x hx
        · rw [hx, h2]; exact hc ch (List.mem_of_getElem? h1)
      simp only [step] at hs
      split at hs
      · simp at hs
      cases l with
      | run t =>
        simp only [act] at hs
        split at hs
        · simp at hs
        · rename_i tp htp
          split at hs
          · simp at hs
          · split at hs
            · injection hs with hs; subst hs; exact ⟨ht, hc⟩
            · split at hs
              · simp at hs
              · split at hs
                · split at hs
                  · simp at hs
                  · rename_i k hk _ ch hk'
                    injection hs with hs; subst hs
                    exact ⟨ht, hch k ch _ hk' rfl⟩
                · split at hs
                  · injection hs with hs; subst hs; exact ⟨ht, hc⟩
                  · rename_i hq
                    injection hs with hs; subst hs
                    refine ⟨ht, ?_⟩
                    intro x hx
                    rw [List.mem_append, List.mem_singleton] at hx
                    rcases hx with hx | hx
                    · exact hc x hx
                    · refine ⟨tp.conf, ?_, by omega, by rw [hx]⟩
                      rw [← ht]
                      exact List.mem_map_of_mem (List.mem_of_getElem? htp)
      | runSend =>
        simp only [act] at hs
        split at hs
        · simp at hs
        · split at hs
          · simp at hs
          · rename_i tp htp
            split at hs
            · injection hs with hs; subst hs; exact ⟨hset _ tp _ htp rfl, hc⟩
            · simp at hs
      | nextConnection t =>
        simp only [act] at hs
        split at hs
        · simp at hs
        · rename_i tp htp
          split at hs
          · simp at hs
          · injection hs with hs; subst hs; exact ⟨hset _ tp _ htp rfl, hc⟩
      | set c v late =>
        simp only [act] at hs
        split at hs
        · simp at hs
        · split at hs
          · injection hs with hs; subst hs; exact ⟨ht, hc⟩
          · split at hs
            · simp at hs
            · rename_i ch hk
              split at hs
              · injection hs with hs; subst hs; exact ⟨ht, hc⟩
              · split at hs
                · injection hs with hs; subst hs; exact ⟨ht, hch _ ch _ hk (setQueue_cap ..)⟩
                · simp at hs
      | get c late =>
        simp only [act] at hs
        split at hs
        · simp at hs
        · split at hs
          · injection hs with hs; subst hs; exact ⟨ht, hc⟩
          · split at hs
            · simp at hs
            · rename_i ch hk
              split at hs
              · injection hs with hs; subst hs; exact ⟨ht, hch _ ch _ hk (setQueue_cap ..)⟩
              · split at hs
                · injection hs with hs; subst hs; exact ⟨ht, hc⟩
                · simp at hs
      | handOver a b v =>
        simp only [act] at hs
        repeat' split at hs
        all_goals first | (injection hs with hs; subst hs; exact ⟨ht, hc⟩) | simp at hs
      | close c =>
        simp only [act] at hs
        split at hs
        · simp at hs
        · injection hs with hs; subst hs; exact ⟨ht, hc⟩
      | stop t =>
        simp only [act] at hs
        split at hs
        · simp at hs
        · split at hs
          · simp at hs
          · split at hs
            · injection hs with hs; subst hs; exact ⟨ht, hc⟩
            · split at hs
              · simp at hs
              · simp only [stopBody] at hs
                split at hs
                · injection hs with hs; subst hs; exact ⟨ht, hc⟩
                · split at hs
                  · simp at hs
                  · split at hs
                    · injection hs with hs; subst hs; exact ⟨ht, hc⟩
                    · split at hs
                      · simp at hs
                      · rename_i _ ch hk
                        split at hs <;> injection hs with hs <;> subst hs
                        · exact ⟨ht, hch _ ch _ hk rfl⟩
                        · exact ⟨ht, hch _ ch _ hk rfl⟩
    · refine ⟨?_, by simp [init]⟩
      simp only [init, List.map_map]
      exact List.map_id'' (fun _ => rfl) _
  exact key.2

/-- C53: at most `MaxQueueSize` objects are pending in either direction, if all transports have the same setting. -/
theorem c53_bounded (confs : List Conf) (n : Nat) (hn : ∀ c ∈ confs, c.queueSize = n) (ls : List Label) (s : Sys) (h : exec (init confs) ls = some s) :
    ∀ ch ∈ s.chans, ch.down.length ≤ n ∧ ch.up.length ≤ n := by
  intro ch hch
  obtain ⟨c, hc, _, hcap⟩ := cap_exec confs ls s h ch hch
  rw [hn c hc] at hcap
  obtain ⟨k, hk⟩ := List.mem_iff_getElem?.mp hch
  have h1 := ((fifo_exec confs ls s h).1 k ch true hk).2
  have h2 := ((fifo_exec confs ls s h).1 k ch false hk).2
  simp [Chan.queue] at h1 h2
  omega

/-- C53: for every interleaving of all calls on any number of transports and connections: on each channel and in each direction what was set by one side
is, in order, exactly what was received by the other side followed by what is pending, and at most the capacity is pending. -/
theorem c53_fifo (confs : List Conf) (ls : List Label) (s : Sys) (h : exec (init confs) ls = some s) (k : Nat) (ch : Chan) (hk : s.chans[k]? = some ch) :
    (setOn k true s.log = gotOn k true s.log ++ ch.down ∧ ch.down.length ≤ ch.cap) ∧
    (setOn k false s.log = gotOn k false s.log ++ ch.up ∧ ch.up.length ≤ ch.cap) :=
  ⟨(fifo_exec confs ls s h).1 k ch true hk, (fifo_exec confs ls s h).1 k ch false hk⟩

/-- Two transports, three objects one way and one the other way; queue size 2. -/
def pair : List Conf := [⟨7, true, 2⟩, ⟨7, false, 512⟩]

example : ∃ s, exec (init pair) [.run 0, .runSend, .run 1, .runSend, .nextConnection 1, .nextConnection 0, .set 0 10 false, .set 0 11 false, .get 1 false, .set 1 20 false, .set 0 12 false,
      .get 1 false, .get 0 false] = some s ∧ setOn 0 true s.log = [10, 11, 12] ∧ gotOn 0 true s.log = [10, 11] ∧ gotOn 0 false s.log = [20] ∧
      s.chans.map (fun c => (c.refCount, c.cap, c.down, c.up)) = [(2, 2, [12], [])] :=
  ⟨_, rfl, rfl, rfl, rfl, rfl⟩

/-! ## C54 -/

/-- `isRunning` is never set. -/
theorem never_running (confs : List Conf) (ls : List Label) (s : Sys) (h : exec (init confs) ls = some s) : ∀ tp ∈ s.tps, tp.isRunning = false := by
  refine invariant (step := step) (Q := fun _ => True) (P := fun s => ∀ tp ∈ s.tps, tp.isRunning = false) ?_ ls (init confs) s ?_ (fun _ _ => trivial) h
  · intro s l s' hp _ hs
    have hset : ∀ (t : Nat) (tp tp' : Tp), s.tps[t]? = some tp → tp'.isRunning = tp.isRunning → ∀ x ∈ s.tps.set t tp', x.isRunning = false := by
      intro t tp tp' ht he x hx
      rcases List.mem_or_eq_of_mem_set hx with hx | hx
      · exact hp x hx
      · rw [hx, he]; exact hp tp (List.mem_of_getElem? ht)
    simp only [step] at hs
    split at hs
    · simp at hs
    cases l with
    | run t =>
      simp only [act] at hs
      repeat' split at hs
      all_goals first | (injection hs with hs; subst hs; exact hp) | simp at hs
    | runSend =>
      simp only [act] at hs
      split at hs
      · simp at hs
      · split at hs
        · simp at hs
        · rename_i tp htp
          split at hs
          · injection hs with hs; subst hs; exact hset _ tp _ htp rfl
          · simp at hs
    | nextConnection t =>
      simp only [act] at hs
      split at hs
      · simp at hs
      · rename_i tp htp
        split at hs
        · simp at hs
        · injection hs with hs; subst hs; exact hset _ tp _ htp rfl
    | set c v late =>
      simp only [act] at hs
      repeat' split at hs
      all_goals first | (injection hs with hs; subst hs; exact hp) | simp at hs
    | get c late =>
      simp only [act] at hs
      repeat' split at hs
      all_goals first | (injection hs with hs; subst hs; exact hp) | simp at hs
    | handOver a b v =>
      simp only [act] at hs
      repeat' split at hs
      all_goals first | (injection hs with hs; subst hs; exact hp) | simp at hs
    | close c =>
      simp only [act] at hs
      split at hs
      · simp at hs
      · injection hs with hs; subst hs; exact hp
    | stop t =>
      simp only [act] at hs
      split at hs
      · simp at hs
      · rename_i tp htp
        split at hs
        · simp at hs
        · split at hs
          · injection hs with hs; subst hs; exact hp
          · rename_i hr
            exact absurd (hp tp (List.mem_of_getElem? htp)) hr
  · intro tp htp
    simp only [init, List.mem_map] at htp
    obtain ⟨c, _, rfl⟩ := htp
    rfl

/-- C54 fails: after every history whatsoever, `Stop` of any transport does nothing at all. -/
theorem c54_violated (confs : List Conf) (ls : List Label) (s s' : Sys) (h : exec (init confs) ls = some s) (t : Nat) (hs : step s (.stop t) = some s') : s' = s := by
  have hp := never_running confs ls s h
  simp only [step] at hs
  split at hs
  · simp at hs
  simp only [act] at hs
  split at hs
  · simp at hs
  · rename_i tp htp
    split at hs
    · simp at hs
    · rw [if_pos (hp tp (List.mem_of_getElem? htp))] at hs
      injection hs with hs
      exact hs.symm

/-- The situation of C54: both sides run, take their connections, and stop; the connections are open, the address still has its old
channel, with the objects left in it. -/
theorem c54_witness : ∃ s, exec (init pair) [.run 0, .runSend, .run 1, .runSend, .nextConnection 0, .nextConnection 1, .set 0 10 false, .stop 0, .stop 1] = some s ∧
    s.cons.map (fun c => c.closed) = [false, false] ∧ s.addr 7 = some 0 ∧ s.chans.map (fun c => (c.refCount, c.down)) = [(2, [10])] :=
  ⟨_, rfl, rfl, rfl, rfl⟩

/-- C54, part: the body of `Stop` does what is asked, if only the transport counted as running: the connection is closed and, for the last reference, the
address is released and the channel closed.  Missing: it is never executed (`c54_violated`). -/
theorem c54_body_partial (s : Sys) (tp : Tp) (c k : Nat) (con : Con) (ch : Chan) (hcon : tp.connection = some c) (hc : s.cons[c]? = some con)
    (ha : s.addr tp.conf.address = some k) (hk : s.chans[k]? = some ch) :
    ∃ s', stopBody s tp = some s' ∧ s'.panicked = s.panicked ∧ (s'.cons[c]?).map Con.closed = some true ∧
      (ch.refCount = 1 → s'.addr tp.conf.address = none ∧ (s'.chans[k]?).map Chan.closed = some true) ∧
      (ch.refCount ≠ 1 → s'.addr = s.addr ∧ (s'.chans[k]?).map Chan.refCount = some (ch.refCount - 1)) := by
  have hlt := (List.getElem?_eq_some_iff.mp hc).1
  have hlk := (List.getElem?_eq_some_iff.mp hk).1
  simp only [stopBody, hcon, hc, ha, hk]
  by_cases h1 : ch.refCount = 1
  · rw [if_pos (by omega)]
    refine ⟨_, rfl, rfl, ?_, fun _ => ⟨by simp, ?_⟩, fun h => absurd h1 h⟩
    · simp [List.getElem?_set_self hlt]
    · simp [List.getElem?_set_self hlk]
  · rw [if_neg (by omega)]
    refine ⟨_, rfl, rfl, ?_, fun h => absurd h h1, fun _ => ⟨rfl, ?_⟩⟩
    · simp [List.getElem?_set_self hlt]
    · simp [List.getElem?_set_self hlk]

/-! ## C55 -/

/-- C55, part: `Run` of a transport whose connections were all taken returns as soon as the global mutex is free, by its own two steps. -/
theorem c55_partial (s : Sys) (t : Nat) (tp : Tp) (ht : s.tps[t]? = some tp) (hn : tp.next = none) (hh : s.holder = none) (hp : s.panicked = false)
    (hr : tp.isRunning = false) (hq : 0 ≤ tp.conf.queueSize) (hk : ∀ k, s.addr tp.conf.address = some k → k < s.chans.length) :
    ∃ s', exec s [.run t, .runSend] = some s' ∧ s'.holder = none ∧ (s'.tps[t]?).map Tp.next = some (some s.cons.length) ∧ s'.panicked = false := by
  have hlt := (List.getElem?_eq_some_iff.mp ht).1
  have hnl : ¬ s.locked t := by simp [Sys.locked, hh]
  cases ha : s.addr tp.conf.address with
  | some k =>
    have hkl := hk k ha
    have hch : s.chans[k]? = some s.chans[k] := by simp [hkl]
    simp only [exec, Trace.exec, step, hp, Bool.false_eq_true, if_false, act, ht, hnl, hr, hh, ne_eq, not_true_eq_false, ha, hch, Option.bind_some, hn, if_true]
    exact ⟨_, rfl, rfl, by simp [List.getElem?_set_self hlt], rfl⟩
  | none =>
    have hq' : ¬ tp.conf.queueSize < 0 := by omega
    simp only [exec, Trace.exec, step, hp, Bool.false_eq_true, if_false, act, ht, hnl, hr, hh, ne_eq, not_true_eq_false, ha, hq', Option.bind_some, hn, if_true]
    exact ⟨_, rfl, rfl, by simp [List.getElem?_set_self hlt], rfl⟩

/-- The global mutex is held by a `Run` of `t` whose `next` is full. -/
def Stuck (t : Nat) (s : Sys) : Prop :=
  (∃ c, s.holder = some (t, c)) ∧ ∃ tp c, s.tps[t]? = some tp ∧ tp.next = some c

/-- As long as nobody takes the connection of `t`, the mutex stays held: no `Run` of a transport that is not running gets anywhere. -/
theorem stuck_forever (confs : List Conf) (before : List Label) (s : Sys) (hb : exec (init confs) before = some s) (t : Nat) (h : Stuck t s) (ls : List Label)
    (s' : Sys) (hn : .nextConnection t ∉ ls) (he : exec s ls = some s') : Stuck t s' ∧ s'.addr = s.addr ∧ ∀ u, act s' (.run u) = none := by
  have hnr : ∀ tp ∈ s'.tps, tp.isRunning = false := never_running confs (before ++ ls) s' (by
    rw [exec, exec_append]; show (exec (init confs) before).bind _ = _; rw [hb]; exact he)
  have key : Stuck t s' ∧ s'.addr = s.addr ∧ (∀ tp ∈ s'.tps, tp.isRunning = false) := by
    refine invariant (step := step) (Q := fun l => l ≠ .nextConnection t)
      (P := fun x => Stuck t x ∧ x.addr = s.addr ∧ (∀ tp ∈ x.tps, tp.isRunning = false)) ?_ ls s s' ⟨h, rfl, never_running confs before s hb⟩
      (fun l hl he => hn (he ▸ hl)) he
    rintro x l x' ⟨⟨⟨c, hh⟩, tp, d, htp, hnx⟩, ha, hr⟩ hq hs
    have hpres : ∀ y : Sys, y.holder = x.holder → y.tps = x.tps → y.addr = x.addr → Stuck t y ∧ y.addr = s.addr ∧ (∀ tp ∈ y.tps, tp.isRunning = false) := by
      intro y h1 h2 h3
      exact ⟨⟨⟨c, by rw [h1, hh]⟩, tp, d, by rw [h2]; exact htp, hnx⟩, by rw [h3, ha], by rw [h2]; exact hr⟩
    simp only [step] at hs
    split at hs
    · simp at hs
    cases l with
    | run u =>
      simp only [act] at hs
      split at hs
      · simp at hs
      · split at hs
        · simp at hs
        · split at hs
          · injection hs with hs; subst hs; exact hpres _ rfl rfl rfl
          · rw [if_pos (by rw [hh]; simp)] at hs; simp at hs
    | runSend => simp [act, hh, htp, hnx] at hs
    | nextConnection u =>
      simp only [act] at hs
      split at hs
      · simp at hs
      · rename_i tp' htp'
        split at hs
        · simp at hs
        · injection hs with hs; subst hs
          have hne : u ≠ t := fun e => hq (by rw [e])
          refine ⟨⟨⟨c, hh⟩, tp, d, ?_, hnx⟩, ha, ?_⟩
          · simp only; rw [List.getElem?_set_ne hne]; exact htp
          · intro y hy
            rcases List.mem_or_eq_of_mem_set hy with hy | hy
            · exact hr y hy
            · rw [hy]; exact hr tp' (List.mem_of_getElem? htp')
    | set c v late =>
      simp only [act] at hs
      repeat' split at hs
      all_goals first | (injection hs with hs; subst hs; exact hpres _ rfl rfl rfl) | simp at hs
    | get c late =>
      simp only [act] at hs
      repeat' split at hs
      all_goals first | (injection hs with hs; subst hs; exact hpres _ rfl rfl rfl) | simp at hs
    | handOver a b v =>
      simp only [act] at hs
      repeat' split at hs
      all_goals first | (injection hs with hs; subst hs; exact hpres _ rfl rfl rfl) | simp at hs
    | close c =>
      simp only [act] at hs
      split at hs
      · simp at hs
      · injection hs with hs; subst hs; exact hpres _ rfl rfl rfl
    | stop u =>
      simp only [act] at hs
      split at hs
      · simp at hs
      · rename_i tp' htp'
        split at hs
        · simp at hs
        · rw [if_pos (hr tp' (List.mem_of_getElem? htp'))] at hs
          injection hs with hs; subst hs; exact hpres _ rfl rfl rfl
  refine ⟨key.1, key.2.1, ?_⟩
  intro u
  obtain ⟨⟨c, hh⟩, _⟩ := key.1
  simp only [act]
  split
  · rfl
  · rename_i tp htp
    split
    · rfl
    · rw [if_neg (by rw [hnr tp (List.mem_of_getElem? htp)]; simp), if_pos (by rw [hh]; simp)]

/-- C55 fails: a second `Run` before the first connection was taken waits, and with it every `Run` of every other transport in the process. -/
theorem c55_violated (confs : List Conf) (c : Conf) (hq : 0 ≤ c.queueSize) : ∃ s, exec (init (c :: confs)) [.run 0, .runSend, .run 0] = some s ∧ Stuck 0 s := by
  have hq' : ¬ c.queueSize < 0 := by omega
  simp only [exec, Trace.exec, step, init, act, Sys.locked, List.map_cons, List.getElem?_cons_zero, Bool.false_eq_true, if_false, Option.map_none, reduceCtorEq,
    ne_eq, not_true_eq_false, hq', Option.bind_some, if_true, List.set_cons_zero]
  simp only [List.length_nil, List.nil_append, List.getElem?_cons_zero, List.length_cons, Option.bind_some]
  exact ⟨_, rfl, ⟨_, rfl⟩, _, _, rfl, rfl⟩

/-- And if the first connection was taken, the second `Run` is not without effect: it makes a second connection to the same channel. -/
theorem c55_second_connection : ∃ s, exec (init pair) [.run 0, .runSend, .nextConnection 0, .run 0, .runSend, .nextConnection 0] = some s ∧
    s.cons.map (fun c => (c.forServer, c.chan)) = [(true, 0), (true, 0)] ∧ s.chans.map (fun c => c.refCount) = [2] := ⟨_, rfl, rfl, rfl⟩

end Verif.Conn.Reference
