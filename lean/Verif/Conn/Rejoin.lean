import Verif.Conn.Reference
import Verif.Conn.StreamExact

/-!
# Reference transports below running stacks (C94, C95)

`Reference` (C53, C54, C55) has the reference transports by themselves.  Here they lie below `LowerDeck`: every `acceptTransport`
(proc_lowerdeck.go:35-90) calls `Run` and starts a goroutine that asks for connections, and for every connection another one that takes objects from
it and passes them up.  Any number of transports, of any number of stacks in the process (the map of channels is global), each of them added and
deleted any number of times.

* `PublishEvent` is one step, and so is passing an object up.
* The failing `SetReference` of `LowerDeck.OnUpperData` (proc_lowerdeck.go:105-122: the message is nil, or the connection is closed) closes the
  connection and announces that in one step.
-/

namespace Verif.Conn.Rejoin

open Verif.Trace
open Verif.Conn.Reference (Conf Con setOn gotOn)
open Verif.Conn.Stream (weigh weigh_append weigh_set weigh_le)

/-- Where a goroutine that waits for connections (proc_lowerdeck.go:40-88) is.  It ends when `NextConnection` returns nil; the reference transport
never closes `next` (tran_reference.go:221-225), so it does not. -/
inductive Loop where
  | top
  /-- before `PublishEvent` -/
  | announce (c : Nat)
  /-- before the `go` statement -/
  | spawn (c : Nat)
  deriving Repr, DecidableEq

/-- Where a goroutine that reads a connection (proc_lowerdeck.go:59-72) is. -/
inductive Stage where
  /-- before `GetReference` -/
  | top
  /-- in `GetReference`, after the test of `closed` (tran_reference.go:103-106) -/
  | waiting
  /-- before `upper.OnLowerData` -/
  | holding (v : Nat)
  /-- in `closeConnection`, before `c.Close()` -/
  | closing
  /-- in `closeConnection`, before `PublishEvent` -/
  | telling
  | over
  deriving Repr, DecidableEq

/-- What the rest of the stack sees. -/
inductive Pub where
  /-- `UStackEventNewConnection` -/
  | opened (c : Nat)
  /-- an object of the connection, passed to `upper.OnLowerData` -/
  | data (c : Nat) (v : Nat)
  /-- `UStackEventConnectionClosed` -/
  | closed (c : Nat)
  deriving Repr, DecidableEq

structure Sys where
  ref : Reference.Sys
  /-- with the transport -/
  loops : List (Nat × Loop)
  /-- with the connection -/
  readers : List (Nat × Stage)
  out : List Pub

inductive Label where
  /-- `AddTransport`, or `LowerDeck.Run` with the transport in the list: `tp.Run()` up to its send on `next` -/
  | add (t : Nat)
  /-- `tp.Run()` returns, and the goroutine is started -/
  | added
  /-- `DeleteTransport` -/
  | del (t : Nat)
  | loop (a : Nat)
  /-- reader `r` tests `closed` -/
  | test (r : Nat)
  /-- reader `r` takes an object from the channel -/
  | take (r : Nat)
  /-- reader `r` takes an object from the writer of connection `c` (a channel without buffer) -/
  | meet (c : Nat) (r : Nat) (v : Nat)
  /-- reader `r` passes its object up -/
  | hand (r : Nat)
  /-- reader `r` proceeds in `closeConnection` -/
  | finish (r : Nat)
  /-- `SetReference` by the program -/
  | send (c : Nat) (v : Nat) (late : Bool)
  /-- a failing `SetReference` by `OnUpperData` -/
  | refuse (c : Nat)
  /-- the program closes a connection -/
  | close (c : Nat)
  deriving Repr, DecidableEq

/-- The object that `GetReference` of the connection takes next. -/
def first (s : Reference.Sys) (c : Nat) : Option Nat :=
  (s.cons[c]?).bind fun con => (s.chans[con.chan]?).bind fun ch => (ch.queue (!con.forServer)).head?

/-- One step of an accept goroutine (proc_lowerdeck.go:41-58). -/
def loopStep (s : Sys) (a : Nat) : Option Sys :=
  match s.loops[a]? with
  | some (t, .top) =>
    match (s.ref.tps[t]?).bind (·.next) with
    | some c => (Reference.step s.ref (.nextConnection t)).map fun x => { s with ref := x, loops := s.loops.set a (t, .announce c) }
    | none => none
  | some (t, .announce c) => some { s with loops := s.loops.set a (t, .spawn c), out := s.out ++ [.opened c] }
  | some (t, .spawn c) => some { s with loops := s.loops.set a (t, .top), readers := s.readers ++ [(c, .top)] }
  | none => none

def act (s : Sys) : Label → Option Sys
  -- proc_lowerdeck.go:37; `Run` returns at once if the transport is running
  | .add t => (Reference.step s.ref (.run t)).map fun x => { s with ref := x, loops := if x.holder = none then s.loops ++ [(t, .top)] else s.loops }
  -- proc_lowerdeck.go:40
  | .added =>
    match s.ref.holder with
    | none => none
    | some (t, _) => (Reference.step s.ref .runSend).map fun x => { s with ref := x, loops := s.loops ++ [(t, .top)] }
  -- proc_lowerdeck.go:94
  | .del t => (Reference.step s.ref (.stop t)).map fun x => { s with ref := x }
  | .loop a => loopStep s a
  -- tran_reference.go:103-106, proc_lowerdeck.go:63-66
  | .test r =>
    match s.readers[r]? with
    | some (c, .top) =>
      match s.ref.cons[c]? with
      | none => none
      | some con => some { s with readers := s.readers.set r (c, if con.closed then .closing else .waiting) }
    | _ => none
  -- tran_reference.go:110-114; a closed channel gives nil (proc_lowerdeck.go:63-66)
  | .take r =>
    match s.readers[r]? with
    | some (c, .waiting) =>
      (Reference.step s.ref (.get c true)).map fun x => { s with ref := x, readers := s.readers.set r (c, match first s.ref c with | some v => .holding v | none => .closing) }
    | _ => none
  | .meet a r v =>
    match s.readers[r]? with
    | some (c, .waiting) => (Reference.step s.ref (.handOver a c v)).map fun x => { s with ref := x, readers := s.readers.set r (c, .holding v) }
    | _ => none
  -- proc_lowerdeck.go:68-71
  | .hand r =>
    match s.readers[r]? with
    | some (c, .holding v) => some { s with readers := s.readers.set r (c, .top), out := s.out ++ [.data c v] }
    | _ => none
  -- closeConnection (proc_lowerdeck.go:22-32)
  | .finish r =>
    match s.readers[r]? with
    | some (c, .closing) => (Reference.step s.ref (.close c)).map fun x => { s with ref := x, readers := s.readers.set r (c, .telling) }
    | some (c, .telling) => some { s with readers := s.readers.set r (c, .over), out := s.out ++ [.closed c] }
    | _ => none
  -- proc_lowerdeck.go:106-107
  | .send c v late => (Reference.step s.ref (.set c v late)).map fun x => { s with ref := x }
  -- proc_lowerdeck.go:118-121
  | .refuse c => (Reference.step s.ref (.close c)).map fun x => { s with ref := x, out := s.out ++ [.closed c] }
  | .close c => (Reference.step s.ref (.close c)).map fun x => { s with ref := x }

def step (s : Sys) (l : Label) : Option Sys := if s.ref.panicked then none else act s l

abbrev exec := Trace.exec step

def init (confs : List Conf) : Sys := ⟨Reference.init confs, [], [], []⟩

/-! ## What is asked for -/

/-- Channel and side of a connection. -/
def place (cons : List Con) (c : Nat) : Option (Nat × Bool) := (cons[c]?).map fun x => (x.chan, x.forServer)

/-- The objects sent by side `d` of channel `k` that were passed up at the other side, in the order in which that happened. -/
def handed (k : Nat) (d : Bool) (s : Sys) : List Nat :=
  s.out.filterMap fun
    | .data c v => if place s.ref.cons c = some (k, !d) then some v else none
    | _ => none

/-- In each direction of each channel, what was passed up is what was sent first, in this order. -/
def InOrder (s : Sys) : Prop := ∀ k d, handed k d s <+: setOn k d s.ref.log

/-- The transports added, in order. -/
def adds (ls : List Label) : List Nat := ls.filterMap fun | .add t => some t | _ => none

/-- Transport `t` is added `n t` times at most. -/
def Within (n : Nat → Nat) (ls : List Label) : Prop := ∀ t, (adds ls).count t ≤ n t

/-- An address at which both sides may be used has one transport at each side, and that is added once. -/
def Private (confs : List Conf) (n : Nat → Nat) : Prop :=
  ∀ t₁ t₂ t₃ c₁ c₂ c₃, confs[t₁]? = some c₁ → confs[t₂]? = some c₂ → confs[t₃]? = some c₃ →
    c₁.address = c₂.address → c₃.address = c₁.address → c₁.forServer = c₂.forServer → c₃.forServer = !c₁.forServer →
    1 ≤ n t₁ → 1 ≤ n t₂ → 1 ≤ n t₃ → t₁ = t₂ ∧ n t₁ = 1

/-! ## The transports alone -/

theorem alive {s s' : Sys} {l : Label} (h : step s l = some s') : s.ref.panicked = false ∧ act s l = some s' := by
  simp only [step] at h
  split at h
  · simp at h
  · rename_i e; exact ⟨by simpa using e, h⟩

theorem map_some {α β : Type} {o : Option α} {f : α → β} {b : β} (h : o.map f = some b) : ∃ a, o = some a ∧ f a = b := by
  cases o with
  | none => simp at h
  | some a => exact ⟨a, rfl, by simpa using h⟩

/-- Every step is a step of the transports or leaves them alone. -/
theorem ref_step {s s' : Sys} {l : Label} (h : step s l = some s') : s'.ref = s.ref ∨ ∃ k, Reference.step s.ref k = some s'.ref := by
  obtain ⟨_, ha⟩ := alive h
  cases l <;> simp only [act, loopStep] at ha <;> repeat' split at ha
  all_goals first
    | (obtain ⟨t, ht, rfl⟩ := map_some ha; exact .inr ⟨_, ht⟩)
    | (injection ha with ha; subst ha; exact .inl rfl)
    | simp at ha

theorem ref_exec (confs : List Conf) (ls : List Label) (s : Sys) (h : exec (init confs) ls = some s) :
    ∃ ks, Reference.exec (Reference.init confs) ks = some s.ref := by
  refine invariant (step := step) (Q := fun _ => True) (P := fun s => ∃ ks, Reference.exec (Reference.init confs) ks = some s.ref) ?_ ls (init confs) s
    ⟨[], rfl⟩ (fun _ _ => trivial) h
  intro s l s' ⟨ks, hk⟩ _ hs
  rcases ref_step hs with e | ⟨k, e⟩
  · rw [e]; exact ⟨ks, hk⟩
  · refine ⟨ks ++ [k], ?_⟩
    show Trace.exec Reference.step _ _ = _
    rw [exec_append, show Trace.exec Reference.step _ _ = _ from hk]
    simp [Trace.exec, e]

theorem ref_alive {s s' : Reference.Sys} {l : Reference.Label} (h : Reference.step s l = some s') : Reference.act s l = some s' := by
  simp only [Reference.step] at h
  split at h
  · simp at h
  · exact h

theorem place_append {cons : List Con} {c : Nat} {p : Nat × Bool} (x : Con) (h : place cons c = some p) : place (cons ++ [x]) c = some p := by
  simp only [place, Option.map_eq_some_iff] at h ⊢
  obtain ⟨con, h, e⟩ := h
  exact ⟨con, by rw [List.getElem?_append_left (List.getElem?_eq_some_iff.1 h).1]; exact h, e⟩

theorem place_close {cons : List Con} (a : Nat) (x : Con) (hx : cons[a]? = some x) (b : Bool) (c : Nat) :
    place (cons.set a { x with closed := b }) c = place cons c := by
  simp only [place, List.getElem?_set]
  split
  · rename_i e
    subst e
    split
    · simp [hx]
    · rename_i e; rw [List.getElem?_eq_none (by omega)]
  · rfl

/-- A connection keeps its channel and its side. -/
theorem place_step {s s' : Reference.Sys} {l : Reference.Label} (h : Reference.step s l = some s') (c : Nat) (p : Nat × Bool)
    (hp : place s.cons c = some p) : place s'.cons c = some p := by
  have ha := ref_alive h
  cases l <;> simp only [Reference.act, Reference.stopBody] at ha <;> repeat' split at ha
  all_goals first
    | (injection ha with ha; subst ha; exact hp)
    | (injection ha with ha; subst ha; exact place_append _ hp)
    | (injection ha with ha; subst ha; exact (place_close _ _ (by assumption) _ _).trans hp)
    | simp at ha

/-- Only `GetReference` takes objects. -/
theorem got_step {s s' : Reference.Sys} {l : Reference.Label} (h : Reference.step s l = some s') (h1 : ∀ c b, l ≠ .get c b) (h2 : ∀ a c v, l ≠ .handOver a c v)
    (k : Nat) (d : Bool) : gotOn k d s'.log = gotOn k d s.log := by
  have ha := ref_alive h
  cases l with
  | get c b => exact absurd rfl (h1 c b)
  | handOver a c v => exact absurd rfl (h2 a c v)
  | set c v b =>
    simp only [Reference.act] at ha
    repeat' split at ha
    all_goals first
      | (injection ha with ha; subst ha; rfl)
      | (injection ha with ha; subst ha; simp [Reference.gotOn_append, gotOn])
      | simp at ha
  | _ =>
    simp only [Reference.act, Reference.stopBody] at ha
    repeat' split at ha
    all_goals first
      | (injection ha with ha; subst ha; rfl)
      | simp at ha

/-- What `GetReference` takes is `first`, and it is taken from the channel of the connection. -/
theorem get_step {s s' : Reference.Sys} {c : Nat} (h : Reference.step s (.get c true) = some s') :
    s'.cons = s.cons ∧ ((∃ k d v, place s.cons c = some (k, !d) ∧ first s c = some v ∧ s'.log = s.log ++ [.got k d v]) ∨ first s c = none ∧ s' = s) := by
  have ha := ref_alive h
  simp only [Reference.act] at ha
  split at ha
  · simp at ha
  · rename_i con hc
    split at ha
    · rename_i e; simp at e
    · split at ha
      · simp at ha
      · rename_i ch hch
        split at ha
        · rename_i v rest hq
          injection ha with ha; subst ha
          exact ⟨rfl, .inl ⟨con.chan, !con.forServer, v, by simp [place, hc], by simp [first, hc, hch, hq], rfl⟩⟩
        · rename_i hq
          split at ha
          · injection ha with ha; subst ha
            exact ⟨rfl, .inr ⟨by simp [first, hc, hch, hq], rfl⟩⟩
          · simp at ha

theorem meet_step {s s' : Reference.Sys} {a c v : Nat} (h : Reference.step s (.handOver a c v) = some s') :
    s'.cons = s.cons ∧ ∃ k d, place s.cons c = some (k, !d) ∧ s'.log = s.log ++ [.set k d v, .got k d v] := by
  have ha := ref_alive h
  simp only [Reference.act] at ha
  split at ha
  · rename_i x y hx hy
    split at ha
    · rename_i e
      split at ha
      · simp at ha
      · split at ha
        · injection ha with ha; subst ha
          exact ⟨rfl, x.chan, x.forServer, by simp [place, hy, e.1, e.2], rfl⟩
        · simp at ha
    · simp at ha
  · simp at ha

theorem calm_step {s s' : Reference.Sys} {l : Reference.Label} (h : Reference.step s l = some s')
    (hl : (∃ c v b, l = .set c v b) ∨ (∃ c b, l = .get c b) ∨ (∃ a c v, l = .handOver a c v) ∨ ∃ c, l = .close c) :
    s'.tps = s.tps ∧ s'.holder = s.holder ∧ s'.cons.length = s.cons.length ∧ s'.addr = s.addr ∧ s'.chans.length = s.chans.length := by
  have ha := ref_alive h
  rcases hl with ⟨c, v, b, rfl⟩ | ⟨c, b, rfl⟩ | ⟨a, c, v, rfl⟩ | ⟨c, rfl⟩ <;> simp only [Reference.act] at ha <;> repeat' split at ha
  all_goals first
    | (injection ha with ha; subst ha; simp)
    | simp at ha

/-! ## Every connection is in one place -/

def inTp (c : Nat) (tp : Reference.Tp) : Nat := if tp.next = some c then 1 else 0

def inHolder (c : Nat) (h : Option (Nat × Nat)) : Nat := if h.map Prod.snd = some c then 1 else 0

def inLoop (c : Nat) : Nat × Loop → Nat
  | (_, .top) => 0
  | (_, .announce d) => if d = c then 1 else 0
  | (_, .spawn d) => if d = c then 1 else 0

def inReader (c : Nat) (x : Nat × Stage) : Nat := if x.1 = c then 1 else 0

def total (c : Nat) (s : Sys) : Nat :=
  weigh (inTp c) s.ref.tps + inHolder c s.ref.holder + weigh (inLoop c) s.loops + weigh (inReader c) s.readers

theorem weigh_nil {α : Type} (f : α → Nat) : weigh f [] = 0 := rfl

theorem weigh_one {α : Type} (f : α → Nat) (a : α) : weigh f [a] = f a := by simp [weigh]

theorem weigh_same {α : Type} (f : α → Nat) (l : List α) (i : Nat) (a b : α) (h : l[i]? = some b) (e : f a = f b) : weigh f (l.set i a) = weigh f l := by
  have := weigh_set f l i a b h
  omega

/-- `Stop` does nothing (C54), so deleting does nothing. -/
theorem del_same {confs : List Conf} {ls : List Label} {s s' : Sys} {t : Nat} (hr : exec (init confs) ls = some s) (hs : step s (.del t) = some s') : s' = s := by
  obtain ⟨_, ha⟩ := alive hs
  obtain ⟨x, hx, rfl⟩ := map_some ha
  obtain ⟨ks, hk⟩ := ref_exec confs ls s hr
  rw [Reference.c54_violated confs ks s.ref x hk t hx]

theorem total_step {confs : List Conf} {ls : List Label} {s s' : Sys} {l : Label} (hr : exec (init confs) ls = some s) (hs : step s l = some s')
    (ih : ∀ c, total c s = if c < s.ref.cons.length then 1 else 0) (c : Nat) : total c s' = if c < s'.ref.cons.length then 1 else 0 := by
  have hc := ih c
  have calm : ∀ (x : Reference.Sys) (rs : List (Nat × Stage)) (o : List Pub), x.tps = s.ref.tps → x.holder = s.ref.holder → x.cons.length = s.ref.cons.length →
      weigh (inReader c) rs = weigh (inReader c) s.readers → total c { s with ref := x, readers := rs, out := o } = if c < x.cons.length then 1 else 0 := by
    intro x rs o h1 h2 h3 h4
    rw [h3, ← hc]
    simp only [total, h1, h2, h4]
  obtain ⟨_, ha⟩ := alive hs
  cases l with
  | del t => rw [del_same hr hs]; exact hc
  | add t =>
    obtain ⟨x, hx, rfl⟩ := map_some ha
    have hl : weigh (inLoop c) (if x.holder = none then s.loops ++ [(t, .top)] else s.loops) = weigh (inLoop c) s.loops := by
      split
      · simp [weigh_append, weigh_one, inLoop]
      · rfl
    simp only [total, hl] at hc ⊢
    have hx' := ref_alive hx
    have fin : ∀ (n : Nat) (h : Option (Nat × Nat)) (k : Nat), h = none → weigh (inTp c) s.ref.tps + inHolder c h + weigh (inLoop c) s.loops + weigh (inReader c) s.readers =
        (if c < n then 1 else 0) → weigh (inTp c) s.ref.tps + inHolder c (some (k, n)) + weigh (inLoop c) s.loops + weigh (inReader c) s.readers =
        (if c < n + 1 then 1 else 0) := by
      intro n h k e hc
      subst e
      simp only [inHolder, Option.map_none, Option.map_some, Option.some.injEq, reduceCtorEq, if_false] at hc ⊢
      split at hc <;> split <;> split <;> omega
    simp only [Reference.act] at hx'
    repeat' split at hx'
    all_goals first
      | (injection hx' with hx'; subst hx'; exact hc)
      | (injection hx' with hx'; subst hx'
         simp only [List.length_append, List.length_cons, List.length_nil]
         exact fin _ _ _ (by simp_all) hc)
      | simp at hx'
  | added =>
    simp only [act] at ha
    split at ha
    · simp at ha
    · rename_i t c0 hh
      obtain ⟨x, hx, rfl⟩ := map_some ha
      have hx' := ref_alive hx
      simp only [Reference.act, hh] at hx'
      split at hx'
      · simp at hx'
      · rename_i tp htp
        split at hx'
        · rename_i hn
          injection hx' with hx'; subst hx'
          have e := weigh_set (inTp c) s.ref.tps t { tp with next := some c0 } tp htp
          have e1 : inTp c tp = 0 := by simp [inTp, hn]
          have e2 : inTp c { tp with next := some c0 } = inHolder c (some (t, c0)) := rfl
          have e3 : inHolder c none = 0 := by simp [inHolder]
          have e4 : inLoop c (t, .top) = 0 := rfl
          simp only [total, weigh_append, weigh_one, hh] at hc ⊢
          omega
        · simp at hx'
  | loop a =>
    simp only [act, loopStep] at ha
    split at ha
    · rename_i t hl
      split at ha
      · rename_i c0 hn
        obtain ⟨x, hx, rfl⟩ := map_some ha
        have hx' := ref_alive hx
        simp only [Reference.act] at hx'
        split at hx'
        · simp at hx'
        · rename_i tp htp
          have hn' : tp.next = some c0 := by simpa [htp] using hn
          rw [hn'] at hx'
          injection hx' with hx'; subst hx'
          have e := weigh_set (inTp c) s.ref.tps t { tp with next := none, connection := some c0 } tp htp
          have e1 : inTp c tp = inLoop c (t, .announce c0) := by simp [inTp, hn', inLoop]
          have e2 : inTp c { tp with next := none, connection := some c0 } = 0 := by simp [inTp]
          have e3 := weigh_set (inLoop c) s.loops a (t, .announce c0) _ hl
          have e4 : inLoop c (t, .top) = 0 := rfl
          simp only [total] at hc ⊢
          omega
      · simp at ha
    · rename_i t c0 hl
      injection ha with ha; subst ha
      simp only [total] at hc ⊢
      rw [weigh_same (inLoop c) s.loops a (t, .spawn c0) _ hl rfl]
      exact hc
    · rename_i t c0 hl
      injection ha with ha; subst ha
      have e := weigh_set (inLoop c) s.loops a (t, .top) _ hl
      have e1 : inLoop c (t, .spawn c0) = inReader c (c0, .top) := rfl
      have e2 : inLoop c (t, .top) = 0 := rfl
      simp only [total, weigh_append, weigh_one] at hc ⊢
      omega
    · simp at ha
  | test r =>
    simp only [act] at ha
    split at ha
    · rename_i c0 hr
      split at ha
      · simp at ha
      · injection ha with ha; subst ha
        exact calm s.ref _ _ rfl rfl rfl (weigh_same _ _ _ _ _ hr rfl)
    · simp at ha
  | take r =>
    simp only [act] at ha
    split at ha
    · rename_i c0 hr
      obtain ⟨x, hx, rfl⟩ := map_some ha
      obtain ⟨h1, h2, h3, _⟩ := calm_step hx (.inr (.inl ⟨_, _, rfl⟩))
      exact calm x _ _ h1 h2 h3 (weigh_same _ _ _ _ _ hr rfl)
    · simp at ha
  | meet a r v =>
    simp only [act] at ha
    split at ha
    · rename_i c0 hr
      obtain ⟨x, hx, rfl⟩ := map_some ha
      obtain ⟨h1, h2, h3, _⟩ := calm_step hx (.inr (.inr (.inl ⟨_, _, _, rfl⟩)))
      exact calm x _ _ h1 h2 h3 (weigh_same _ _ _ _ _ hr rfl)
    · simp at ha
  | hand r =>
    simp only [act] at ha
    split at ha
    · rename_i c0 v hr
      injection ha with ha; subst ha
      exact calm s.ref _ _ rfl rfl rfl (weigh_same _ _ _ _ _ hr rfl)
    · simp at ha
  | finish r =>
    simp only [act] at ha
    split at ha
    · rename_i c0 hr
      obtain ⟨x, hx, rfl⟩ := map_some ha
      obtain ⟨h1, h2, h3, _⟩ := calm_step hx (.inr (.inr (.inr ⟨_, rfl⟩)))
      exact calm x _ _ h1 h2 h3 (weigh_same _ _ _ _ _ hr rfl)
    · rename_i c0 hr
      injection ha with ha; subst ha
      exact calm s.ref _ _ rfl rfl rfl (weigh_same _ _ _ _ _ hr rfl)
    · simp at ha
  | send c0 v b =>
    obtain ⟨x, hx, rfl⟩ := map_some ha
    obtain ⟨h1, h2, h3, _⟩ := calm_step hx (.inl ⟨_, _, _, rfl⟩)
    exact calm x _ _ h1 h2 h3 rfl
  | refuse c0 =>
    obtain ⟨x, hx, rfl⟩ := map_some ha
    obtain ⟨h1, h2, h3, _⟩ := calm_step hx (.inr (.inr (.inr ⟨_, rfl⟩)))
    exact calm x _ _ h1 h2 h3 rfl
  | close c0 =>
    obtain ⟨x, hx, rfl⟩ := map_some ha
    obtain ⟨h1, h2, h3, _⟩ := calm_step hx (.inr (.inr (.inr ⟨_, rfl⟩)))
    exact calm x _ _ h1 h2 h3 rfl

/-- A property kept by the steps of reachable states. -/
theorem reach_invariant {confs : List Conf} {P : List Label → Sys → Prop} (h0 : P [] (init confs))
    (h1 : ∀ ls s l s', exec (init confs) ls = some s → P ls s → step s l = some s' → P (ls ++ [l]) s') :
    ∀ ls s, exec (init confs) ls = some s → P ls s := by
  intro ls
  refine snoc_induction (P := fun ls => ∀ s, exec (init confs) ls = some s → P ls s) ?_ ?_ ls
  · intro s hs; injection hs with hs; subst hs; exact h0
  · intro ls l ih s hs
    obtain ⟨m, hm, hs⟩ := exec_snoc hs
    exact h1 ls m l s hm (ih m hm) hs

theorem total_exec (confs : List Conf) (ls : List Label) (s : Sys) (h : exec (init confs) ls = some s) (c : Nat) :
    total c s = if c < s.ref.cons.length then 1 else 0 := by
  refine reach_invariant (P := fun _ s => ∀ c, total c s = if c < s.ref.cons.length then 1 else 0) ?_ ?_ ls s h c
  · intro c
    have : ∀ cs : List Conf, weigh (inTp c) (cs.map fun x => (⟨x, false, none, none⟩ : Reference.Tp)) = 0 := by
      intro cs
      induction cs with
      | nil => rfl
      | cons x cs ih => simpa [weigh, inTp] using ih
    simp [total, init, Reference.init, this, inHolder, weigh_nil]
  · intro ls s l s' hr ih hs c
    exact total_step hr hs ih c

theorem reader_valid {confs : List Conf} {ls : List Label} {s : Sys} (h : exec (init confs) ls = some s) {r c : Nat} {st : Stage} (hr : s.readers[r]? = some (c, st)) :
    c < s.ref.cons.length := by
  have h1 := total_exec confs ls s h c
  have h2 := weigh_le (inReader c) s.readers r _ hr
  simp only [total] at h1
  have : inReader c (c, st) = 1 := by simp [inReader]
  split at h1
  · assumption
  · omega

/-! ## What a step does to the objects -/

def holds : Stage → Option Nat
  | .holding v => some v
  | _ => none

/-- Readers start, and change their place, but the objects they have stay. -/
def Moves (rs rs' : List (Nat × Stage)) : Prop :=
  rs' = rs ∨ (∃ c, rs' = rs ++ [(c, .top)]) ∨
  ∃ (r : Nat) (c : Nat) (st st' : Stage), rs[r]? = some (c, st) ∧ holds st = none ∧ holds st' = none ∧ rs' = rs.set r (c, st')

structure Quiet (s s' : Sys) : Prop where
  got : ∀ k d, gotOn k d s'.ref.log = gotOn k d s.ref.log
  out : ∃ es, s'.out = s.out ++ es ∧ ∀ c v, Pub.data c v ∉ es
  readers : Moves s.readers s'.readers

structure Taken (s s' : Sys) (r c v k : Nat) (d : Bool) : Prop where
  before : s.readers[r]? = some (c, .waiting)
  after : s'.readers = s.readers.set r (c, .holding v)
  place : place s.ref.cons c = some (k, !d)
  got : ∀ k' d', gotOn k' d' s'.ref.log = gotOn k' d' s.ref.log ++ if k = k' ∧ d = d' then [v] else []
  out : s'.out = s.out
  cons : s'.ref.cons = s.ref.cons

structure Handed (s s' : Sys) (r c v : Nat) : Prop where
  before : s.readers[r]? = some (c, .holding v)
  after : s'.readers = s.readers.set r (c, .top)
  out : s'.out = s.out ++ [.data c v]
  ref : s'.ref = s.ref

theorem kinds {s s' : Sys} {l : Label} (hs : step s l = some s') :
    Quiet s s' ∨ (∃ r c v k d, Taken s s' r c v k d) ∨ ∃ r c v, Handed s s' r c v := by
  obtain ⟨_, ha⟩ := alive hs
  have nil : ∀ o : List Pub, ∃ es, o = o ++ es ∧ ∀ c v, Pub.data c v ∉ es := fun o => ⟨[], by simp, by simp⟩
  cases l with
  | add t =>
    obtain ⟨x, hx, rfl⟩ := map_some ha
    exact .inl ⟨got_step hx (by simp) (by simp), nil _, .inl rfl⟩
  | added =>
    simp only [act] at ha
    split at ha
    · simp at ha
    · obtain ⟨x, hx, rfl⟩ := map_some ha
      exact .inl ⟨got_step hx (by simp) (by simp), nil _, .inl rfl⟩
  | del t =>
    obtain ⟨x, hx, rfl⟩ := map_some ha
    exact .inl ⟨got_step hx (by simp) (by simp), nil _, .inl rfl⟩
  | loop a =>
    simp only [act, loopStep] at ha
    split at ha
    · split at ha
      · obtain ⟨x, hx, rfl⟩ := map_some ha
        exact .inl ⟨got_step hx (by simp) (by simp), nil _, .inl rfl⟩
      · simp at ha
    · injection ha with ha; subst ha
      exact .inl ⟨fun _ _ => rfl, ⟨_, rfl, by simp⟩, .inl rfl⟩
    · injection ha with ha; subst ha
      exact .inl ⟨fun _ _ => rfl, nil _, .inr (.inl ⟨_, rfl⟩)⟩
    · simp at ha
  | test r =>
    simp only [act] at ha
    split at ha
    · rename_i c hr
      split at ha
      · simp at ha
      · injection ha with ha; subst ha
        refine .inl ⟨fun _ _ => rfl, nil _, .inr (.inr ⟨r, c, _, _, hr, rfl, ?_, rfl⟩)⟩
        split <;> rfl
    · simp at ha
  | take r =>
    simp only [act] at ha
    split at ha
    · rename_i c hr
      obtain ⟨x, hx, rfl⟩ := map_some ha
      obtain ⟨h1, ⟨k, d, v, hp, hf, hl⟩ | ⟨hf, rfl⟩⟩ := get_step hx
      · refine .inr (.inl ⟨r, c, v, k, d, hr, by simp only [hf], hp, ?_, rfl, h1⟩)
        intro k' d'
        simp only [hl, Reference.gotOn_append, gotOn, List.filterMap_cons, List.filterMap_nil]
        split <;> simp_all
      · refine .inl ⟨fun _ _ => rfl, nil _, .inr (.inr ⟨r, c, _, .closing, hr, rfl, rfl, by simp only [hf]⟩)⟩
    · simp at ha
  | meet a r v =>
    simp only [act] at ha
    split at ha
    · rename_i c hr
      obtain ⟨x, hx, rfl⟩ := map_some ha
      obtain ⟨h1, k, d, hp, hl⟩ := meet_step hx
      refine .inr (.inl ⟨r, c, v, k, d, hr, rfl, hp, ?_, rfl, h1⟩)
      intro k' d'
      simp only [hl, Reference.gotOn_append, gotOn, List.filterMap_cons, List.filterMap_nil]
      split <;> simp_all
    · simp at ha
  | hand r =>
    simp only [act] at ha
    split at ha
    · rename_i c v hr
      injection ha with ha; subst ha
      exact .inr (.inr ⟨r, c, v, hr, rfl, rfl, rfl⟩)
    · simp at ha
  | finish r =>
    simp only [act] at ha
    split at ha
    · rename_i c hr
      obtain ⟨x, hx, rfl⟩ := map_some ha
      exact .inl ⟨got_step hx (by simp) (by simp), nil _, .inr (.inr ⟨r, c, _, _, hr, rfl, rfl, rfl⟩)⟩
    · rename_i c hr
      injection ha with ha; subst ha
      exact .inl ⟨fun _ _ => rfl, ⟨_, rfl, by simp⟩, .inr (.inr ⟨r, c, _, _, hr, rfl, rfl, rfl⟩)⟩
    · simp at ha
  | send c v b =>
    obtain ⟨x, hx, rfl⟩ := map_some ha
    exact .inl ⟨got_step hx (by simp) (by simp), nil _, .inl rfl⟩
  | refuse c =>
    obtain ⟨x, hx, rfl⟩ := map_some ha
    exact .inl ⟨got_step hx (by simp) (by simp), ⟨_, rfl, by simp⟩, .inl rfl⟩
  | close c =>
    obtain ⟨x, hx, rfl⟩ := map_some ha
    exact .inl ⟨got_step hx (by simp) (by simp), nil _, .inl rfl⟩

/-- Connections keep their places. -/
theorem place_kept {s s' : Sys} {l : Label} (hs : step s l = some s') (c : Nat) (hc : c < s.ref.cons.length) : place s'.ref.cons c = place s.ref.cons c := by
  have hp : place s.ref.cons c = some (s.ref.cons[c].chan, s.ref.cons[c].forServer) := by simp [place, hc]
  rcases ref_step hs with e | ⟨k, e⟩
  · rw [e]
  · rw [hp]; exact place_step e c _ hp

/-- What is passed up belongs to connections. -/
theorem out_valid (confs : List Conf) (ls : List Label) (s : Sys) (h : exec (init confs) ls = some s) : ∀ c v, Pub.data c v ∈ s.out → c < s.ref.cons.length := by
  refine reach_invariant (P := fun _ s => ∀ c v, Pub.data c v ∈ s.out → c < s.ref.cons.length) (by simp [init]) ?_ ls s h
  intro ls s l s' hr ih hs c v hm
  have grow : ∀ c, c < s.ref.cons.length → c < s'.ref.cons.length := by
    intro c hc
    have := place_kept hs c hc
    simp only [place, List.getElem?_eq_getElem hc, Option.map_some] at this
    apply Classical.byContradiction
    intro hn
    rw [List.getElem?_eq_none (by omega)] at this
    simp at this
  rcases kinds hs with q | ⟨r, c', v', k, d, t⟩ | ⟨r, c', v', t⟩
  · obtain ⟨es, e, hes⟩ := q.out
    rw [e, List.mem_append] at hm
    rcases hm with hm | hm
    · exact grow _ (ih c v hm)
    · exact absurd hm (hes c v)
  · rw [t.out] at hm; exact grow _ (ih c v hm)
  · rw [t.out, List.mem_append, List.mem_singleton] at hm
    rcases hm with hm | hm
    · exact grow _ (ih c v hm)
    · injection hm with e1 e2; subst e1; exact grow _ (reader_valid hr t.before)

/-- The objects at the readers. -/
def held (k : Nat) (d : Bool) (s : Sys) : List Nat := s.readers.filterMap fun x => if place s.ref.cons x.1 = some (k, !d) then holds x.2 else none

theorem fm_congr {α β : Type} {f g : α → Option β} {l : List α} (h : ∀ a ∈ l, f a = g a) : l.filterMap f = l.filterMap g := by
  induction l with
  | nil => rfl
  | cons a l ih => rw [List.filterMap_cons, List.filterMap_cons, h a List.mem_cons_self, ih fun b hb => h b (List.mem_cons_of_mem _ hb)]

theorem handed_kept {confs : List Conf} {ls : List Label} {s s' : Sys} {l : Label} (hr : exec (init confs) ls = some s) (hs : step s l = some s')
    (es : List Pub) (ho : s'.out = s.out ++ es) (k : Nat) (d : Bool) : handed k d s' = handed k d s ++ es.filterMap fun
      | .data c v => if place s'.ref.cons c = some (k, !d) then some v else none
      | _ => none := by
  simp only [handed, ho, List.filterMap_append]
  congr 1
  refine fm_congr ?_
  intro p hp
  cases p with
  | data c v => simp only [place_kept hs c (out_valid confs ls s hr c v hp)]
  | opened c => rfl
  | closed c => rfl

theorem filterMap_none {α β : Type} (f : α → Option β) (l : List α) (h : ∀ a ∈ l, f a = none) : l.filterMap f = [] := by
  rw [List.filterMap_eq_nil_iff]; exact h

theorem handed_quiet {confs : List Conf} {ls : List Label} {s s' : Sys} {l : Label} (hr : exec (init confs) ls = some s) (hs : step s l = some s')
    (ho : ∃ es, s'.out = s.out ++ es ∧ ∀ c v, Pub.data c v ∉ es) (k : Nat) (d : Bool) : handed k d s' = handed k d s := by
  obtain ⟨es, ho, hes⟩ := ho
  rw [handed_kept hr hs es ho, filterMap_none, List.append_nil]
  intro p hp
  cases p with
  | data c v => exact absurd hp (hes c v)
  | _ => rfl

theorem filterMap_set_perm {α β : Type} (f : α → Option β) (l : List α) (i : Nat) (a b : α) (h : l[i]? = some b) :
    ((l.set i a).filterMap f ++ (f b).toList).Perm (l.filterMap f ++ (f a).toList) := by
  induction l generalizing i with
  | nil => simp at h
  | cons x l ih =>
    cases i with
    | zero =>
      simp only [List.getElem?_cons_zero, Option.some.injEq] at h
      subst h
      have e : ∀ y, (y :: l).filterMap f = (f y).toList ++ l.filterMap f := by
        intro y; rw [List.filterMap_cons]; cases f y <;> rfl
      rw [List.set_cons_zero, e, e, List.append_assoc, List.append_assoc]
      refine (List.Perm.append_left _ List.perm_append_comm).trans ?_
      rw [← List.append_assoc, ← List.append_assoc]
      refine (List.Perm.append_right _ List.perm_append_comm).trans ?_
      rw [List.append_assoc, List.append_assoc]
      exact List.Perm.append_left _ List.perm_append_comm
    | succ i =>
      simp only [List.getElem?_cons_succ] at h
      simp only [List.set_cons_succ, List.filterMap_cons]
      cases f x with
      | none => exact ih i h
      | some u => exact List.Perm.cons u (ih i h)

/-- The readers of the reachable states keep their places, too. -/
theorem held_kept {confs : List Conf} {ls : List Label} {s s' : Sys} {l : Label} (hr : exec (init confs) ls = some s) (hs : step s l = some s') (k : Nat) (d : Bool) :
    held k d s = s.readers.filterMap fun x => if place s'.ref.cons x.1 = some (k, !d) then holds x.2 else none := by
  refine fm_congr ?_
  intro x hx
  obtain ⟨r, hx⟩ := List.getElem?_of_mem hx
  rw [place_kept hs x.1 (reader_valid hr hx)]

theorem held_moves {confs : List Conf} {ls : List Label} {s s' : Sys} {l : Label} (hr : exec (init confs) ls = some s) (hs : step s l = some s')
    (hm : Moves s.readers s'.readers) (k : Nat) (d : Bool) : (held k d s').Perm (held k d s) := by
  rw [held_kept hr hs]
  rcases hm with e | ⟨c, e⟩ | ⟨r, c, st, st', h1, h2, h3, e⟩
  · simp only [held, e]; exact .refl _
  · simp [held, e, holds]
  · have := filterMap_set_perm (fun x : Nat × Stage => if place s'.ref.cons x.1 = some (k, !d) then holds x.2 else none) s.readers r (c, st') _ h1
    simpa [held, e, h2, h3] using this

/-- **C94, exactly once**: whatever transports are added how often, every object that was sent is passed up once, or is with a goroutine that will
pass it up next, or is in the channel. -/
theorem got_perm (confs : List Conf) (ls : List Label) (s : Sys) (h : exec (init confs) ls = some s) (k : Nat) (d : Bool) :
    (gotOn k d s.ref.log).Perm (handed k d s ++ held k d s) := by
  refine reach_invariant (P := fun _ s => (gotOn k d s.ref.log).Perm (handed k d s ++ held k d s)) ?_ ?_ ls s h
  · exact .refl _
  · intro ls s l s' hr ih hs
    rcases kinds hs with q | ⟨r, c, v, k', d', t⟩ | ⟨r, c, v, t⟩
    · rw [q.got, handed_quiet hr hs q.out]
      exact ih.trans (List.Perm.append_left _ (held_moves hr hs q.readers k d).symm)
    · rw [t.got, handed_quiet hr hs ⟨[], by simp [t.out], by simp⟩]
      refine (List.Perm.append_right _ ih).trans ?_
      rw [List.append_assoc]
      refine List.Perm.append_left _ ?_
      have := filterMap_set_perm (fun x : Nat × Stage => if place s.ref.cons x.1 = some (k, !d) then holds x.2 else none) s.readers r (c, .holding v) _ t.before
      have hw : holds Stage.waiting = none := rfl
      have hv : holds (Stage.holding v) = some v := rfl
      simp only [t.place, hw, hv, ite_self, Option.toList_none, List.append_nil, Option.some.injEq, Prod.mk.injEq] at this
      simp only [held, t.after, t.cons]
      refine List.Perm.trans ?_ this.symm
      refine List.Perm.append_left _ ?_
      by_cases e : k' = k ∧ d' = d
      · obtain ⟨rfl, rfl⟩ := e; simp
      · have e' : ¬ (k' = k ∧ (!d') = !d) := by simpa using e
        rw [if_neg e, if_neg e']; exact .refl _
    · rw [t.ref, handed_kept hr hs _ t.out]
      refine ih.trans ?_
      rw [List.append_assoc]
      refine List.Perm.append_left _ ?_
      have := filterMap_set_perm (fun x : Nat × Stage => if place s.ref.cons x.1 = some (k, !d) then holds x.2 else none) s.readers r (c, .top) _ t.before
      have ht : holds Stage.top = none := rfl
      have hv : holds (Stage.holding v) = some v := rfl
      simp only [ht, hv, ite_self, Option.toList_none, List.append_nil] at this
      simp only [held, t.after, t.ref, List.filterMap_cons, List.filterMap_nil]
      refine this.symm.trans (List.perm_append_comm.trans ?_)
      split <;> simp_all

/-- **C94, exactly once**: whatever transports are added how often, every object that was sent is passed up once, or it is with a goroutine that
passes it up next, or it is in the channel. -/
theorem c94_once (confs : List Conf) (ls : List Label) (s : Sys) (h : exec (init confs) ls = some s) (k : Nat) (ch : Reference.Chan)
    (hk : s.ref.chans[k]? = some ch) (d : Bool) : (setOn k d s.ref.log).Perm (handed k d s ++ held k d s ++ ch.queue d) := by
  obtain ⟨ks, hks⟩ := ref_exec confs ls s h
  rw [((Reference.fifo_exec confs ks s.ref hks).1 k ch d hk).1]
  exact List.Perm.append_right _ (got_perm confs ls s h k d)

/-! ## One reader -/

/-- The readers at the side that receives what side `d` of channel `k` sends. -/
def on (k : Nat) (d : Bool) (s : Sys) : List (Nat × Stage) := s.readers.filter fun x => place s.ref.cons x.1 = some (k, !d)

theorem held_on (k : Nat) (d : Bool) (s : Sys) : held k d s = (on k d s).filterMap fun x => holds x.2 := by
  simp only [held, on, List.filterMap_filter, decide_eq_true_eq]

theorem on_kept {confs : List Conf} {ls : List Label} {s s' : Sys} {l : Label} (hr : exec (init confs) ls = some s) (hs : step s l = some s') (k : Nat) (d : Bool) :
    on k d s = s.readers.filter fun x => place s'.ref.cons x.1 = some (k, !d) := by
  refine List.filter_congr ?_
  intro x hx
  obtain ⟨r, hx⟩ := List.getElem?_of_mem hx
  rw [place_kept hs x.1 (reader_valid hr hx)]

theorem filter_set_length {α : Type} (p : α → Bool) (l : List α) (i : Nat) (a b : α) (h : l[i]? = some b) (e : p a = p b) :
    ((l.set i a).filter p).length = (l.filter p).length := by
  induction l generalizing i with
  | nil => rfl
  | cons x l ih =>
    cases i with
    | zero =>
      simp only [List.getElem?_cons_zero, Option.some.injEq] at h
      subst h
      simp only [List.set_cons_zero, List.filter_cons, e]
      split <;> rfl
    | succ i =>
      simp only [List.getElem?_cons_succ] at h
      simp only [List.set_cons_succ, List.filter_cons]
      split <;> simp [ih i h]

theorem on_grows {confs : List Conf} {ls : List Label} {s s' : Sys} {l : Label} (hr : exec (init confs) ls = some s) (hs : step s l = some s') (k : Nat) (d : Bool) :
    (on k d s).length ≤ (on k d s').length := by
  rw [on_kept hr hs]
  have set : ∀ (r c : Nat) (st st' : Stage), s.readers[r]? = some (c, st) → s'.readers = s.readers.set r (c, st') →
      (s.readers.filter fun x => place s'.ref.cons x.1 = some (k, !d)).length ≤ (on k d s').length := by
    intro r c st st' h1 h2
    simp only [on, h2]
    rw [filter_set_length _ _ _ (c, st') _ h1 rfl]
    exact Nat.le_refl _
  rcases kinds hs with q | ⟨r, c, v, k', d', t⟩ | ⟨r, c, v, t⟩
  · rcases q.readers with e | ⟨c, e⟩ | ⟨r, c, st, st', h1, _, _, e⟩
    · simp only [on, e]; exact Nat.le_refl _
    · simp only [on, e, List.filter_append, List.length_append]; omega
    · exact set r c st st' h1 e
  · exact set r c _ _ t.before t.after
  · exact set r c _ _ t.before t.after

theorem one_of {α : Type} (l : List α) (a : α) (hl : l.length ≤ 1) (ha : a ∈ l) : l = [a] := by
  match l with
  | [] => simp at ha
  | [b] => simp at ha; rw [ha]
  | _ :: _ :: _ => simp at hl

theorem perm_one {α : Type} (l m : List α) (hl : l.length ≤ 1) (h : l.Perm m) : m = l := by
  match l with
  | [] => exact h.nil_eq.symm
  | [a] => exact List.perm_singleton.1 h.symm
  | _ :: _ :: _ => simp at hl

/-- With one reader, what was taken from the channel is what was passed up and then what the reader has. -/
theorem got_order (confs : List Conf) (ls : List Label) (s : Sys) (h : exec (init confs) ls = some s) (k : Nat) (d : Bool) (h1 : (on k d s).length ≤ 1) :
    gotOn k d s.ref.log = handed k d s ++ held k d s := by
  refine reach_invariant (P := fun _ s => (on k d s).length ≤ 1 → gotOn k d s.ref.log = handed k d s ++ held k d s) (fun _ => rfl) ?_ ls s h h1
  intro ls s l s' hr ih hs h1
  have h0 := Nat.le_trans (on_grows hr hs k d) h1
  have ih := ih h0
  have hle : (held k d s).length ≤ 1 := by
    rw [held_on]
    exact Nat.le_trans (List.length_filterMap_le _ _) h0
  -- the reader that changes is the one reader, or its objects are not counted
  have other : ∀ (r c : Nat) (st st' : Stage), s.readers[r]? = some (c, st) → s'.readers = s.readers.set r (c, st') → place s'.ref.cons c ≠ some (k, !d) →
      held k d s' = held k d s := by
    intro r c st st' e1 e2 e3
    refine perm_one _ _ hle ?_
    rw [held_kept hr hs]
    have := filterMap_set_perm (fun x : Nat × Stage => if place s'.ref.cons x.1 = some (k, !d) then holds x.2 else none) s.readers r (c, st') _ e1
    simp only [if_neg e3, Option.toList_none, List.append_nil] at this
    simp only [held, e2]
    exact this.symm
  have this' : ∀ (r c : Nat) (st st' : Stage), s.readers[r]? = some (c, st) → s'.readers = s.readers.set r (c, st') → place s'.ref.cons c = some (k, !d) →
      held k d s = (holds st).toList ∧ held k d s' = (holds st').toList := by
    intro r c st st' e1 e2 e3
    have hr' : r < s.readers.length := (List.getElem?_eq_some_iff.1 e1).1
    constructor
    · have hm : (c, st) ∈ on k d s := by
        rw [on_kept hr hs]
        exact List.mem_filter.2 ⟨List.mem_of_getElem? e1, by simpa using e3⟩
      rw [held_on, one_of _ _ h0 hm]
      cases hst : holds st <;> simp [hst]
    · have hm : (c, st') ∈ on k d s' := by
        refine List.mem_filter.2 ⟨?_, by simpa using e3⟩
        rw [e2]
        exact List.mem_of_getElem? (i := r) (by rw [List.getElem?_set_self hr'])
      rw [held_on, one_of _ _ h1 hm]
      cases hst : holds st' <;> simp [hst]
  rcases kinds hs with q | ⟨r, c, v, k', d', t⟩ | ⟨r, c, v, t⟩
  · rw [q.got, handed_quiet hr hs q.out, perm_one _ _ hle (held_moves hr hs q.readers k d).symm]
    exact ih
  · rw [t.got, handed_quiet hr hs ⟨[], by simp [t.out], by simp⟩]
    by_cases e : k' = k ∧ d' = d
    · obtain ⟨rfl, rfl⟩ := e
      obtain ⟨e1, e2⟩ := this' r c _ _ t.before t.after (by rw [t.cons]; exact t.place)
      rw [ih, e1, e2]
      simp [holds]
    · have e' : place s'.ref.cons c ≠ some (k, !d) := by
        rw [t.cons, t.place]
        simpa using e
      rw [if_neg e, List.append_nil, other r c _ _ t.before t.after e']
      exact ih
  · rw [t.ref, handed_kept hr hs _ t.out]
    by_cases e : place s'.ref.cons c = some (k, !d)
    · obtain ⟨e1, e2⟩ := this' r c _ _ t.before t.after e
      rw [ih, e1, e2]
      simp [holds, e]
    · rw [other r c _ _ t.before t.after e, ih]
      simp [e]

/-- With one reader the order is kept. -/
theorem order_one (confs : List Conf) (ls : List Label) (s : Sys) (h : exec (init confs) ls = some s) (k : Nat) (d : Bool) (h1 : (on k d s).length ≤ 1) :
    handed k d s <+: setOn k d s.ref.log := by
  obtain ⟨ks, hks⟩ := ref_exec confs ls s h
  have hf := Reference.fifo_exec confs ks s.ref hks
  have hg : gotOn k d s.ref.log <+: setOn k d s.ref.log := by
    cases hk : s.ref.chans[k]? with
    | some ch => rw [(hf.1 k ch d hk).1]; exact List.prefix_append _ _
    | none =>
      obtain ⟨e1, e2⟩ := hf.2 k d (List.getElem?_eq_none_iff.1 hk)
      rw [e1, e2]
      exact List.prefix_refl _
  refine List.IsPrefix.trans ?_ hg
  rw [got_order confs ls s h k d h1]
  exact List.prefix_append _ _

/-! ## Where connections come from -/

/-- All steps but `Run` leave the map of channels, the connections and the configuration alone. -/
theorem ref_still {confs : List Conf} {ks : List Reference.Label} {s s' : Reference.Sys} {l : Reference.Label} (hr : Reference.exec (Reference.init confs) ks = some s)
    (h : Reference.step s l = some s') (hl : ∀ t, l ≠ .run t) :
    s'.addr = s.addr ∧ s'.chans.length = s.chans.length ∧ (∀ c, place s'.cons c = place s.cons c) ∧ s'.cons.length = s.cons.length ∧
    ∀ t : Nat, (s'.tps[t]?).map Reference.Tp.conf = (s.tps[t]?).map Reference.Tp.conf := by
  have tp : ∀ (t : Nat) (tp tp' : Reference.Tp), s.tps[t]? = some tp → tp'.conf = tp.conf → ∀ u : Nat, ((s.tps.set t tp')[u]?).map Reference.Tp.conf = (s.tps[u]?).map Reference.Tp.conf := by
    intro t tp tp' h1 h2 u
    rw [List.getElem?_set]
    split
    · rename_i e; subst e
      split
      · simp [h1, h2]
      · rw [List.getElem?_eq_none (by omega)]
    · rfl
  have ha := ref_alive h
  cases l with
  | run t => exact absurd rfl (hl t)
  | stop t => rw [Reference.c54_violated confs ks s s' hr t h]; exact ⟨rfl, rfl, fun _ => rfl, rfl, fun _ => rfl⟩
  | runSend =>
    simp only [Reference.act] at ha
    split at ha
    · simp at ha
    · split at ha
      · simp at ha
      · rename_i x hx
        split at ha
        · injection ha with ha; subst ha
          refine ⟨rfl, rfl, fun _ => rfl, rfl, fun u => ?_⟩
          refine tp _ x _ hx ?_ u
          rfl
        · simp at ha
  | nextConnection t =>
    simp only [Reference.act] at ha
    split at ha
    · simp at ha
    · rename_i x hx
      split at ha
      · simp at ha
      · injection ha with ha; subst ha
        refine ⟨rfl, rfl, fun _ => rfl, rfl, fun u => ?_⟩
        refine tp _ x _ hx ?_ u
        rfl
  | close c =>
    simp only [Reference.act] at ha
    split at ha
    · simp at ha
    · rename_i con hc
      injection ha with ha; subst ha
      exact ⟨rfl, rfl, place_close _ _ hc _, by simp, fun _ => rfl⟩
  | _ =>
    simp only [Reference.act] at ha
    repeat' split at ha
    all_goals first
      | (injection ha with ha; subst ha; refine ⟨rfl, ?_, fun _ => rfl, rfl, fun _ => rfl⟩; first | rfl | exact List.length_set)
      | simp at ha

/-- A step that is not `add` is no `Run`. -/
theorem ref_step_add {s s' : Sys} {l : Label} (h : step s l = some s') (hl : ∀ t, l ≠ .add t) :
    s'.ref = s.ref ∨ ∃ k, (∀ t, k ≠ .run t) ∧ Reference.step s.ref k = some s'.ref := by
  obtain ⟨_, ha⟩ := alive h
  cases l with
  | add t => exact absurd rfl (hl t)
  | _ =>
    simp only [act, loopStep] at ha
    repeat' split at ha
    all_goals first
      | (obtain ⟨t, ht, rfl⟩ := map_some ha; exact .inr ⟨_, by simp, ht⟩)
      | (injection ha with ha; subst ha; exact .inl rfl)
      | simp at ha

structure Origin (confs : List Conf) (ls : List Label) (s : Reference.Sys) (org : List Nat) : Prop where
  len : org.length = s.cons.length
  sub : org.Sublist (adds ls)
  con : ∀ c k b, place s.cons c = some (k, b) → ∃ t cf, org[c]? = some t ∧ confs[t]? = some cf ∧ cf.forServer = b ∧ s.addr cf.address = some k
  inj : ∀ a b k, s.addr a = some k → s.addr b = some k → a = b
  bound : ∀ a k, s.addr a = some k → k < s.chans.length
  tps : ∀ t : Nat, (s.tps[t]?).map Reference.Tp.conf = confs[t]?

theorem adds_snoc (ls : List Label) (l : Label) : adds (ls ++ [l]) = adds ls ++ (match l with | .add t => [t] | _ => []) := by
  cases l <;> simp [adds]

theorem origin_exec (confs : List Conf) (ls : List Label) (s : Sys) (h : exec (init confs) ls = some s) : ∃ org, Origin confs ls s.ref org := by
  refine reach_invariant (P := fun ls s => ∃ org, Origin confs ls s.ref org) ?_ ?_ ls s h
  · refine ⟨[], rfl, List.nil_sublist _, ?_, ?_, ?_, ?_⟩
    · intro c k b hc; simp [init, Reference.init, place] at hc
    · intro a b k ha; simp [init, Reference.init] at ha
    · intro a k ha; simp [init, Reference.init] at ha
    · intro t; simp only [init, Reference.init, List.getElem?_map]; cases confs[t]? <;> rfl
  · intro ls s l s' hr ⟨org, o⟩ hs
    by_cases hl : ∃ t, l = .add t
    · obtain ⟨t, rfl⟩ := hl
      obtain ⟨_, ha⟩ := alive hs
      obtain ⟨x, hx, rfl⟩ := map_some ha
      have hx' := ref_alive hx
      -- what a new connection of transport `t` at channel `k` does
      have new : ∀ (tp : Reference.Tp) (k : Nat) (f : Nat → Option Nat) (n : Nat), s.ref.tps[t]? = some tp → f tp.conf.address = some k →
          (∀ a j, s.ref.addr a = some j → f a = some j) → (∀ a b j, f a = some j → f b = some j → a = b) → (∀ a j, f a = some j → j < n) →
          ∀ y : Reference.Sys, y.tps = s.ref.tps → y.addr = f → y.chans.length = n → y.cons = s.ref.cons ++ [⟨tp.conf.forServer, false, k⟩] →
          ∃ org, Origin confs (ls ++ [.add t]) y org := by
        intro tp k f n h1 h2 h3 h4 h5 y e1 e2 e3 e4
        refine ⟨org ++ [t], ?_, ?_, ?_, by rw [e2]; exact h4, by rw [e2, e3]; exact h5, by rw [e1]; exact o.tps⟩
        · simp [o.len, e4]
        · rw [adds_snoc]; exact o.sub.append (List.Sublist.refl _)
        · intro c j b hc
          rw [e4] at hc
          by_cases hlt : c < s.ref.cons.length
          · have : place s.ref.cons c = some (j, b) := by
              simpa [place, List.getElem?_append_left hlt] using hc
            obtain ⟨u, cf, g1, g2, g3, g4⟩ := o.con c j b this
            exact ⟨u, cf, by rw [List.getElem?_append_left (by rw [o.len]; exact hlt)]; exact g1, g2, g3, by rw [e2]; exact h3 _ _ g4⟩
          · by_cases he : c = s.ref.cons.length
            · subst he
              simp only [place, List.getElem?_append_right (Nat.le_refl _), Nat.sub_self, List.getElem?_cons_zero, Option.map_some, Option.some.injEq,
                Prod.mk.injEq] at hc
              obtain ⟨rfl, rfl⟩ := hc
              refine ⟨t, tp.conf, ?_, ?_, rfl, by rw [e2]; exact h2⟩
              · rw [List.getElem?_append_right (by rw [o.len]; exact Nat.le_refl _), o.len]; simp
              · rw [← o.tps t, h1]; rfl
            · exfalso
              simp only [place] at hc
              rw [List.getElem?_eq_none (by simp; omega)] at hc
              simp at hc
      have old : ∃ org, Origin confs (ls ++ [.add t]) s.ref org :=
        ⟨org, o.len, by rw [adds_snoc]; exact o.sub.trans (List.sublist_append_left _ _), o.con, o.inj, o.bound, o.tps⟩
      simp only [Reference.act] at hx'
      split at hx'
      · simp at hx'
      · rename_i tp htp
        split at hx'
        · simp at hx'
        · split at hx'
          · injection hx' with hx'; subst hx'; exact old
          · split at hx'
            · simp at hx'
            · split at hx'
              · rename_i k hk
                split at hx'
                · simp at hx'
                · injection hx' with hx'; subst hx'
                  exact new tp k s.ref.addr s.ref.chans.length htp hk (fun _ _ h => h) o.inj o.bound _ rfl rfl (by simp) rfl
              · rename_i hk
                split at hx'
                · injection hx' with hx'; subst hx'
                  obtain ⟨org, o⟩ := old
                  exact ⟨org, o.len, o.sub, o.con, o.inj, o.bound, o.tps⟩
                · injection hx' with hx'; subst hx'
                  refine new tp s.ref.chans.length (fun a => if a = tp.conf.address then some s.ref.chans.length else s.ref.addr a) (s.ref.chans.length + 1) htp (if_pos rfl) ?_ ?_ ?_ _ rfl rfl (by simp) rfl
                  · intro a j ha
                    have e : a ≠ tp.conf.address := by intro e; rw [e, hk] at ha; simp at ha
                    simp only [if_neg e]
                    exact ha
                  · intro a b j ha hb
                    split at ha <;> split at hb
                    · rename_i e1 e2; rw [e1, e2]
                    · injection ha with ha; have := o.bound _ _ hb; omega
                    · injection hb with hb; have := o.bound _ _ ha; omega
                    · exact o.inj a b j ha hb
                  · intro a j ha
                    split at ha
                    · injection ha with ha; omega
                    · have := o.bound _ _ ha; omega
    · have hl' : ∀ t, l ≠ .add t := fun t e => hl ⟨t, e⟩
      have hsub : org.Sublist (adds (ls ++ [l])) := by rw [adds_snoc]; exact o.sub.trans (List.sublist_append_left _ _)
      rcases ref_step_add hs hl' with e | ⟨k, hk, e⟩
      · rw [e]; exact ⟨org, o.len, hsub, o.con, o.inj, o.bound, o.tps⟩
      · obtain ⟨ks, hks⟩ := ref_exec confs ls s hr
        obtain ⟨h1, h2, h3, h4, h5⟩ := ref_still hks e hk
        refine ⟨org, by rw [o.len, h4], hsub, ?_, by rw [h1]; exact o.inj, by rw [h1, h2]; exact o.bound, fun t => by rw [h5]; exact o.tps t⟩
        intro c k b hc
        rw [h3] at hc
        rw [h1]
        exact o.con c k b hc

/-- What is sent from a side is sent by a connection of that side. -/
theorem set_from {s s' : Reference.Sys} {l : Reference.Label} (h : Reference.step s l = some s') (k : Nat) (d : Bool)
    (hn : ∀ c, place s.cons c ≠ some (k, d)) : setOn k d s'.log = setOn k d s.log := by
  have ha := ref_alive h
  cases l with
  | set c v b =>
    simp only [Reference.act] at ha
    split at ha
    · simp at ha
    · rename_i con hc
      have hk : ¬ (con.chan = k ∧ con.forServer = d) := by
        intro e; exact hn c (by simp [place, hc, e.1, e.2])
      repeat' split at ha
      all_goals first
        | (injection ha with ha; subst ha; rfl)
        | (injection ha with ha; subst ha; simp only [setOn, List.filterMap_append, List.filterMap_cons, List.filterMap_nil, if_neg hk, List.append_nil])
        | simp at ha
  | handOver a c v =>
    simp only [Reference.act] at ha
    split at ha
    · rename_i x y hx hy
      have hk : ¬ (x.chan = k ∧ x.forServer = d) := by
        intro e; exact hn a (by simp [place, hx, e.1, e.2])
      repeat' split at ha
      all_goals first
        | (injection ha with ha; subst ha; simp only [setOn, List.filterMap_append, List.filterMap_cons, List.filterMap_nil, if_neg hk, List.append_nil])
        | simp at ha
    · simp at ha
  | get c b =>
    simp only [Reference.act] at ha
    repeat' split at ha
    all_goals first
      | (injection ha with ha; subst ha; rfl)
      | (injection ha with ha; subst ha; simp only [setOn, List.filterMap_append, List.filterMap_cons, List.filterMap_nil, List.append_nil])
      | simp at ha
  | _ =>
    simp only [Reference.act, Reference.stopBody] at ha
    repeat' split at ha
    all_goals first
      | (injection ha with ha; subst ha; rfl)
      | simp at ha

theorem none_set (confs : List Conf) (ls : List Label) (s : Sys) (h : exec (init confs) ls = some s) (k : Nat) (d : Bool)
    (hn : ∀ c, place s.ref.cons c ≠ some (k, d)) : setOn k d s.ref.log = [] := by
  refine reach_invariant (P := fun _ s => (∀ c, place s.ref.cons c ≠ some (k, d)) → setOn k d s.ref.log = []) (fun _ => rfl) ?_ ls s h hn
  intro ls s l s' hr ih hs hn
  have hn0 : ∀ c, place s.ref.cons c ≠ some (k, d) := by
    intro c hc
    rcases ref_step hs with e | ⟨j, e⟩
    · rw [← e] at hc; exact hn c hc
    · exact hn c (place_step e c _ hc)
  rcases ref_step hs with e | ⟨j, e⟩
  · rw [e]; exact ih hn0
  · rw [set_from e k d hn0]; exact ih hn0

theorem count_two {l : List Nat} {i j : Nat} {a : Nat} (hi : l[i]? = some a) (hj : l[j]? = some a) (hne : i ≠ j) : 2 ≤ l.count a := by
  induction l generalizing i j with
  | nil => simp at hi
  | cons x l ih =>
    cases i with
    | zero =>
      cases j with
      | zero => exact absurd rfl hne
      | succ j =>
        simp at hi hj
        have := List.count_pos_iff.2 (List.mem_of_getElem? hj)
        subst hi
        simp only [List.count_cons_self]; omega
    | succ i =>
      cases j with
      | zero =>
        simp at hi hj
        have := List.count_pos_iff.2 (List.mem_of_getElem? hi)
        subst hj
        simp only [List.count_cons_self]; omega
      | succ j =>
        simp at hi hj
        have := ih hi hj (by omega)
        rw [List.count_cons]; omega

theorem weigh_two {α : Type} (f : α → Nat) : ∀ (l : List α) (i j : Nat) (a b : α), l[i]? = some a → l[j]? = some b → i ≠ j → f a + f b ≤ weigh f l := by
  intro l i j a b hi hj hne
  have h1 := weigh_set f l i b a hi
  have hj' : (l.set i b)[j]? = some b := by rw [List.getElem?_set, if_neg hne]; exact hj
  induction l generalizing i j with
  | nil => simp at hi
  | cons x l ih =>
    cases i with
    | zero =>
      cases j with
      | zero => exact absurd rfl hne
      | succ j =>
        simp at hi hj
        subst hi
        have := weigh_le f l j b hj
        simp only [weigh, List.map_cons, List.sum_cons] at this ⊢; omega
    | succ i =>
      cases j with
      | zero =>
        simp at hi hj
        subst hj
        have := weigh_le f l i a hi
        simp only [weigh, List.map_cons, List.sum_cons] at this ⊢; omega
      | succ j =>
        simp at hi hj
        have := ih i j hi hj (by omega) (weigh_set f l i b a hi) (by rw [List.getElem?_set, if_neg (by omega)]; exact hj)
        simp only [weigh, List.map_cons, List.sum_cons] at this ⊢; omega

/-- A connection has one reader. -/
theorem one_reader {confs : List Conf} {ls : List Label} {s : Sys} (h : exec (init confs) ls = some s) {r r' c : Nat} {st st' : Stage}
    (hr : s.readers[r]? = some (c, st)) (hr' : s.readers[r']? = some (c, st')) : r = r' := by
  apply Classical.byContradiction
  intro hne
  have h1 := total_exec confs ls s h c
  have h2 := weigh_two (inReader c) s.readers r r' _ _ hr hr' hne
  simp only [total] at h1
  have e1 : inReader c (c, st) = 1 := by simp [inReader]
  have e2 : inReader c (c, st') = 1 := by simp [inReader]
  split at h1 <;> omega

/-- Two of the readers of a side. -/
theorem filter_two {α : Type} (p : α → Bool) (l : List α) (h : 2 ≤ (l.filter p).length) : ∃ (i j : Nat) (a b : α), i ≠ j ∧ l[i]? = some a ∧ l[j]? = some b ∧ p a ∧ p b := by
  induction l with
  | nil => simp at h
  | cons x l ih =>
    rw [List.filter_cons] at h
    split at h
    · rename_i hx
      have : 0 < (l.filter p).length := by simp at h; omega
      obtain ⟨b, hb⟩ := List.exists_mem_of_length_pos this
      obtain ⟨hb, hpb⟩ := List.mem_filter.1 hb
      obtain ⟨j, hj⟩ := List.getElem?_of_mem hb
      exact ⟨0, j + 1, x, b, by omega, rfl, hj, hx, hpb⟩
    · obtain ⟨i, j, a, b, h1, h2, h3, h4, h5⟩ := ih h
      exact ⟨i + 1, j + 1, a, b, by omega, h2, h3, h4, h5⟩

/-- **C94, order**: if no address at which both sides are used has more than one connection at a side, every side gets the objects in order. -/
theorem c94_partial (confs : List Conf) (n : Nat → Nat) (hp : Private confs n) (ls : List Label) (hw : Within n ls) (s : Sys)
    (h : exec (init confs) ls = some s) : InOrder s := by
  intro k d
  obtain ⟨org, o⟩ := origin_exec confs ls s h
  -- somebody used transport `t`
  have used : ∀ (c t : Nat), org[c]? = some t → 1 ≤ n t := by
    intro c t ht
    have h1 := List.count_pos_iff.2 (o.sub.subset (List.mem_of_getElem? ht))
    have h2 := hw t
    omega
  by_cases hsend : ∃ c, place s.ref.cons c = some (k, d)
  · obtain ⟨c₃, hc₃⟩ := hsend
    obtain ⟨t₃, f₃, g₃, e₃, b₃, a₃⟩ := o.con c₃ k d hc₃
    refine order_one confs ls s h k d ?_
    apply Classical.byContradiction
    intro hgt
    have hgt' : 2 ≤ (on k d s).length := by omega
    obtain ⟨i, j, ⟨c₁, st₁⟩, ⟨c₂, st₂⟩, hij, hi, hj, p₁, p₂⟩ := filter_two _ _ hgt'
    simp only [decide_eq_true_eq] at p₁ p₂
    have hc : c₁ ≠ c₂ := by
      intro e; subst e; exact hij (one_reader h hi hj)
    obtain ⟨t₁, f₁, g₁, e₁, b₁, a₁⟩ := o.con c₁ k (!d) p₁
    obtain ⟨t₂, f₂, g₂, e₂, b₂, a₂⟩ := o.con c₂ k (!d) p₂
    obtain ⟨ht, hn⟩ := hp t₁ t₂ t₃ f₁ f₂ f₃ e₁ e₂ e₃ (o.inj _ _ _ a₁ a₂) (o.inj _ _ _ a₃ a₁) (b₁.trans b₂.symm) (by rw [b₁, b₃]; simp)
      (used _ _ g₁) (used _ _ g₂) (used _ _ g₃)
    subst ht
    have h1 := count_two g₁ g₂ hc
    have h2 := hw t₁
    have h3 := o.sub.count_le t₁
    omega
  · have h0 := none_set confs ls s h k d fun c hc => hsend ⟨c, hc⟩
    rw [h0]
    obtain ⟨ks, hks⟩ := ref_exec confs ls s h
    have hf := Reference.fifo_exec confs ks s.ref hks
    have hg : gotOn k d s.ref.log = [] := by
      cases hk : s.ref.chans[k]? with
      | some ch =>
        have := (hf.1 k ch d hk).1
        rw [h0] at this
        exact (List.append_eq_nil_iff.1 this.symm).1
      | none => exact (hf.2 k d (List.getElem?_eq_none_iff.1 hk)).2
    have := got_perm confs ls s h k d
    rw [hg] at this
    rw [(List.append_eq_nil_iff.1 this.nil_eq.symm).1]
    exact List.prefix_refl _

/-! ## Two readers -/

/-- No `Run` is going on, and no connection waits to be taken. -/
structure Calm (confs : List Conf) (s : Sys) : Prop where
  holder : s.ref.holder = none
  fine : s.ref.panicked = false
  tps : ∀ (t : Nat) (cf : Conf), confs[t]? = some cf → ∃ conn, s.ref.tps[t]? = some ⟨cf, false, none, conn⟩

theorem step_eq {s s' : Sys} {l : Label} (hp : s.ref.panicked = false) (h : act s l = some s') : step s l = some s' := by
  simp [step, hp, h]

/-- The transport's `Run` returns, and its connection is announced and gets its reader. -/
theorem join_rest (s : Sys) (t c : Nat) (cf : Conf) (conn : Option Nat) (hp : s.ref.panicked = false) (hh : s.ref.holder = some (t, c))
    (ht : s.ref.tps[t]? = some ⟨cf, false, none, conn⟩) :
    exec s [.added, .loop s.loops.length, .loop s.loops.length, .loop s.loops.length] =
      some { ref := { s.ref with tps := s.ref.tps.set t ⟨cf, false, none, some c⟩, holder := none }
             loops := s.loops ++ [(t, .top)], readers := s.readers ++ [(c, .top)], out := s.out ++ [.opened c] } := by
  have hlt : t < s.ref.tps.length := (List.getElem?_eq_some_iff.1 ht).1
  have h1 : step s .added = some { s with ref := { s.ref with tps := s.ref.tps.set t ⟨cf, false, some c, conn⟩, holder := none }, loops := s.loops ++ [(t, .top)] } := by
    simp [step, act, Reference.step, Reference.act, hp, hh, ht]
  show Trace.exec step _ _ = _
  simp only [Trace.exec, h1, Option.bind_some]
  simp [step, act, loopStep, Reference.step, Reference.act, hp, hlt]

theorem calm_set {confs : List Conf} {s : Sys} {t : Nat} {cf : Conf} (h : Calm confs s) (hc : confs[t]? = some cf) (c : Nat) (u : Nat) (cg : Conf) (hu : confs[u]? = some cg) :
    ∃ conn, (s.ref.tps.set t ⟨cf, false, none, some c⟩)[u]? = some ⟨cg, false, none, conn⟩ := by
  rw [List.getElem?_set]
  split
  · rename_i e
    subst e
    obtain ⟨x, hx⟩ := h.tps _ _ hc
    rw [if_pos (List.getElem?_eq_some_iff.1 hx).1]
    rw [hc] at hu
    injection hu with hu
    subst hu
    exact ⟨_, rfl⟩
  · exact h.tps u cg hu

/-- What adding a transport does. -/
structure Joined (confs : List Conf) (s s' : Sys) (cf : Conf) (k : Nat) (ch : Reference.Chan) : Prop where
  calm : Calm confs s'
  readers : s'.readers = s.readers ++ [(s.ref.cons.length, .top)]
  cons : s'.ref.cons = s.ref.cons ++ [⟨cf.forServer, false, k⟩]
  addr : s'.ref.addr cf.address = some k
  chan : ∃ rc, s'.ref.chans[k]? = some { ch with refCount := rc }
  log : s'.ref.log = s.ref.log
  out : s'.out = s.out ++ [.opened s.ref.cons.length]

def joining (t a : Nat) : List Label := [.add t, .added, .loop a, .loop a, .loop a]

theorem join_old {confs : List Conf} {s : Sys} (h : Calm confs s) {t k : Nat} {cf : Conf} {ch : Reference.Chan} (hc : confs[t]? = some cf)
    (ha : s.ref.addr cf.address = some k) (hk : s.ref.chans[k]? = some ch) : ∃ s', exec s (joining t s.loops.length) = some s' ∧ Joined confs s s' cf k ch := by
  obtain ⟨conn, ht⟩ := h.tps t cf hc
  have h1 : step s (.add t) = some { s with ref := { s.ref with chans := s.ref.chans.set k { ch with refCount := ch.refCount + 1 }
                                                                cons := s.ref.cons ++ [⟨cf.forServer, false, k⟩]
                                                                holder := some (t, s.ref.cons.length) } } := by
    simp [step, act, Reference.step, Reference.act, h.holder, h.fine, ht, ha, hk, Reference.Sys.locked]
  have h2 := join_rest (t := t) (c := s.ref.cons.length) (cf := cf) (conn := conn) (s := { s with ref := { s.ref with
    chans := s.ref.chans.set k { ch with refCount := ch.refCount + 1 }, cons := s.ref.cons ++ [⟨cf.forServer, false, k⟩], holder := some (t, s.ref.cons.length) } })
    h.fine rfl ht
  refine ⟨{ ref := { s.ref with chans := s.ref.chans.set k { ch with refCount := ch.refCount + 1 }, cons := s.ref.cons ++ [⟨cf.forServer, false, k⟩]
                                tps := s.ref.tps.set t ⟨cf, false, none, some s.ref.cons.length⟩, holder := none }
            loops := s.loops ++ [(t, .top)], readers := s.readers ++ [(s.ref.cons.length, .top)], out := s.out ++ [.opened s.ref.cons.length] }, ?_, ?_⟩
  · show Trace.exec step s (.add t :: _) = _
    simp only [Trace.exec, h1, Option.bind_some]
    exact h2
  · exact ⟨⟨rfl, h.fine, fun u cg hu => calm_set h hc _ u cg hu⟩, rfl, rfl, ha, ⟨ch.refCount + 1, by simp [(List.getElem?_eq_some_iff.1 hk).1]⟩, rfl, rfl⟩

theorem join_new {confs : List Conf} {s : Sys} (h : Calm confs s) {t : Nat} {cf : Conf} (hc : confs[t]? = some cf) (hq : 0 ≤ cf.queueSize)
    (ha : s.ref.addr cf.address = none) :
    ∃ s', exec s (joining t s.loops.length) = some s' ∧ Joined confs s s' cf s.ref.chans.length ⟨1, cf.queueSize.toNat, [], [], false⟩ := by
  obtain ⟨conn, ht⟩ := h.tps t cf hc
  have hq' : ¬ cf.queueSize < 0 := by omega
  have h1 : step s (.add t) = some { s with ref := { s.ref with addr := fun a => if a = cf.address then some s.ref.chans.length else s.ref.addr a
                                                                chans := s.ref.chans ++ [⟨1, cf.queueSize.toNat, [], [], false⟩]
                                                                cons := s.ref.cons ++ [⟨cf.forServer, false, s.ref.chans.length⟩]
                                                                holder := some (t, s.ref.cons.length) } } := by
    simp [step, act, Reference.step, Reference.act, h.holder, h.fine, ht, ha, hq', Reference.Sys.locked]
  have h2 := join_rest (s := { s with ref := { s.ref with addr := fun a => if a = cf.address then some s.ref.chans.length else s.ref.addr a
                                                          chans := s.ref.chans ++ [⟨1, cf.queueSize.toNat, [], [], false⟩]
                                                          cons := s.ref.cons ++ [⟨cf.forServer, false, s.ref.chans.length⟩]
                                                          holder := some (t, s.ref.cons.length) } }) t s.ref.cons.length cf conn h.fine rfl ht
  refine ⟨{ ref := { s.ref with addr := fun a => if a = cf.address then some s.ref.chans.length else s.ref.addr a
                                chans := s.ref.chans ++ [⟨1, cf.queueSize.toNat, [], [], false⟩], cons := s.ref.cons ++ [⟨cf.forServer, false, s.ref.chans.length⟩]
                                tps := s.ref.tps.set t ⟨cf, false, none, some s.ref.cons.length⟩, holder := none }
            loops := s.loops ++ [(t, .top)], readers := s.readers ++ [(s.ref.cons.length, .top)], out := s.out ++ [.opened s.ref.cons.length] }, ?_, ?_⟩
  · show Trace.exec step s (.add t :: _) = _
    simp only [Trace.exec, h1, Option.bind_some]
    exact h2
  · exact ⟨⟨rfl, h.fine, fun u cg hu => calm_set h hc _ u cg hu⟩, rfl, rfl, if_pos rfl, ⟨1, by simp⟩, rfl, rfl⟩

/-- Two readers of one side pass two objects up in the wrong order. -/
theorem mix (s : Sys) (b : Bool) (rc : Int) (cap : Nat) (hp : s.ref.panicked = false) (hr : s.readers = [(0, .top), (1, .top), (2, .top)])
    (hc : s.ref.cons = [⟨!b, false, 0⟩, ⟨b, false, 0⟩, ⟨b, false, 0⟩]) (hch : s.ref.chans[0]? = some ⟨rc, cap, [], [], false⟩) (hl : s.ref.log = [])
    (ho : s.out = [.opened 0, .opened 1, .opened 2]) : ∃ ls s', adds ls = [] ∧ exec s ls = some s' ∧ ¬ InOrder s' := by
  obtain ⟨⟨tps, addr, chans, cons, holder, log, panicked⟩, loops, readers, out⟩ := s
  simp only at hp hr hc hch hl ho
  subst hp hr hc hl ho
  cases chans with
  | nil => simp at hch
  | cons ch chans =>
    simp only [List.getElem?_cons_zero, Option.some.injEq] at hch
    subst hch
    have bad : ∀ (t : Sys) (ls : List Label), (exec t ls).map (fun s' => (handed 0 (!b) s', setOn 0 (!b) s'.ref.log)) = some ([6, 5], [5, 6]) →
        ∃ s', exec t ls = some s' ∧ ¬ InOrder s' := by
      intro t ls h
      obtain ⟨s', h1, h2⟩ := map_some h
      refine ⟨s', h1, fun h => ?_⟩
      have := h 0 (!b)
      simp only [Prod.mk.injEq] at h2
      rw [h2.1, h2.2] at this
      exact absurd this (by decide)
    by_cases h0 : cap = 0
    · subst h0
      exact ⟨[.test 1, .test 2, .meet 0 1 5, .meet 0 2 6, .hand 2, .hand 1], (bad _ _ (by cases b <;> rfl)).imp fun _ h => ⟨rfl, h⟩⟩
    · obtain ⟨cap, rfl⟩ : ∃ n, cap = n + 1 := ⟨cap - 1, by omega⟩
      exact ⟨[.test 1, .test 2, .send 0 5 false, .take 1, .send 0 6 false, .take 2, .hand 2, .hand 1], (bad _ _ (by cases b <;> rfl)).imp fun _ h => ⟨rfl, h⟩⟩

theorem calm_init (confs : List Conf) : Calm confs (init confs) := by
  refine ⟨rfl, rfl, fun t cf h => ⟨none, ?_⟩⟩
  simp [init, Reference.init, h]

theorem exec_join {s m s' : Sys} {ls ks : List Label} (h1 : exec s ls = some m) (h2 : exec m ks = some s') : exec s (ls ++ ks) = some s' := by
  show Trace.exec step _ _ = _
  rw [exec_append, show Trace.exec step _ _ = _ from h1]
  exact h2

theorem adds_append (a b : List Label) : adds (a ++ b) = adds a ++ adds b := List.filterMap_append

theorem adds_joining (t a : Nat) : adds (joining t a) = [t] := rfl

/-- C94 fails, whatever the transports are: when two connections have been made at one side of an address, by two transports or by one that was
added twice, and one at the other side, then objects are passed up in the wrong order. -/
theorem c94_violated (confs : List Conf) (t₁ t₂ t₃ : Nat) (c₁ c₂ c₃ : Conf) (h₁ : confs[t₁]? = some c₁) (h₂ : confs[t₂]? = some c₂) (h₃ : confs[t₃]? = some c₃)
    (ha : c₁.address = c₂.address) (ha' : c₃.address = c₁.address) (hb : c₁.forServer = c₂.forServer) (hb' : c₃.forServer = !c₁.forServer)
    (hq : 0 ≤ c₃.queueSize) : ∃ ls s, adds ls = [t₃, t₁, t₂] ∧ exec (init confs) ls = some s ∧ ¬ InOrder s := by
  obtain ⟨s₃, x₃, j₃⟩ := join_new (calm_init confs) h₃ hq rfl
  obtain ⟨r₃, k₃⟩ := j₃.chan
  obtain ⟨s₁, x₁, j₁⟩ := join_old j₃.calm h₁ (by rw [← ha']; exact j₃.addr) k₃
  obtain ⟨r₁, k₁⟩ := j₁.chan
  obtain ⟨s₂, x₂, j₂⟩ := join_old j₁.calm h₂ (by rw [← ha]; exact j₁.addr) k₁
  obtain ⟨r₂, k₂⟩ := j₂.chan
  have e₃ : s₃.ref.cons = [⟨c₃.forServer, false, 0⟩] := j₃.cons
  have e₁ : s₁.ref.cons = [⟨c₃.forServer, false, 0⟩, ⟨c₁.forServer, false, 0⟩] := by rw [j₁.cons, e₃]; rfl
  have e₂ : s₂.ref.cons = [⟨!c₁.forServer, false, 0⟩, ⟨c₁.forServer, false, 0⟩, ⟨c₁.forServer, false, 0⟩] := by rw [j₂.cons, e₁, ← hb, hb']; rfl
  obtain ⟨ls, s, hl, hs, hn⟩ := mix s₂ c₁.forServer r₂ c₃.queueSize.toNat j₂.calm.fine
    (by rw [j₂.readers, e₁, j₁.readers, e₃, j₃.readers]; rfl) e₂ k₂ (by rw [j₂.log, j₁.log, j₃.log]; rfl) (by rw [j₂.out, e₁, j₁.out, e₃, j₃.out]; rfl)
  refine ⟨_, s, ?_, exec_join x₃ (exec_join x₁ (exec_join x₂ hs)), hn⟩
  simp only [adds_append, adds_joining, hl]
  rfl

/-- **C94, exactly**: when each transport `t` is added up to `n t` times, all objects are passed up in order in every execution, if and only if no
address at which both sides are used has two transports at one side, or one that is added twice. -/
theorem c94_iff (confs : List Conf) (hq : ∀ c ∈ confs, 0 ≤ c.queueSize) (n : Nat → Nat) :
    (∀ ls s, Within n ls → exec (init confs) ls = some s → InOrder s) ↔ Private confs n := by
  constructor
  · intro h t₁ t₂ t₃ c₁ c₂ c₃ h₁ h₂ h₃ ha ha' hb hb' n₁ n₂ n₃
    apply Classical.byContradiction
    intro hn
    obtain ⟨ls, s, hl, hs, hbad⟩ := c94_violated confs t₁ t₂ t₃ c₁ c₂ c₃ h₁ h₂ h₃ ha ha' hb hb' (hq _ (List.mem_of_getElem? h₃))
    refine hbad (h ls s ?_ hs)
    have side : ∀ t c, confs[t]? = some c → c.forServer = c₁.forServer → t ≠ t₃ := by
      intro t c ht hc e
      subst e
      rw [ht] at h₃
      injection h₃ with h₃
      subst h₃
      rw [hc] at hb'
      cases hx : c₁.forServer <;> simp [hx] at hb'
    have d₁ := side t₁ c₁ h₁ rfl
    have d₂ := side t₂ c₂ h₂ hb.symm
    intro t
    rw [hl]
    simp only [List.count_cons, List.count_nil, beq_iff_eq]
    by_cases e₁ : t₁ = t
    · subst e₁
      rw [if_neg (Ne.symm d₁), if_pos rfl]
      by_cases e₂ : t₂ = t₁
      · subst e₂
        rw [if_pos rfl]
        have : n t₂ ≠ 1 := fun e => hn ⟨rfl, e⟩
        omega
      · rw [if_neg e₂]; omega
    · rw [if_neg e₁]
      by_cases e₂ : t₂ = t
      · subst e₂
        rw [if_pos rfl, if_neg (Ne.symm d₂)]; omega
      · rw [if_neg e₂]
        split
        · rename_i e; subst e; omega
        · omega
  · intro hp ls s hw hs
    exact c94_partial confs n hp ls hw s hs

/-! ## C95: the end of a connection -/

def isDel : Label → Bool
  | .del _ => true
  | _ => false

/-- **C95 fails**: deleting a transport does nothing.  What can be reached with deletions can be reached by the same steps without them. -/
theorem c95_delete (confs : List Conf) (ls : List Label) (s : Sys) (h : exec (init confs) ls = some s) :
    exec (init confs) (ls.filter fun l => !isDel l) = some s := by
  refine reach_invariant (P := fun ls s => exec (init confs) (ls.filter fun l => !isDel l) = some s) rfl ?_ ls s h
  intro ls s l s' hr ih hs
  rw [List.filter_append]
  by_cases hl : ∃ t, l = .del t
  · obtain ⟨t, rfl⟩ := hl
    rw [del_same hr hs]
    simpa [isDel] using ih
  · have : [l].filter (fun l => !isDel l) = [l] := by
      cases l with
      | del t => exact absurd ⟨t, rfl⟩ hl
      | _ => rfl
    rw [this]
    refine exec_join ih ?_
    show Trace.exec step _ _ = _
    simp [Trace.exec, hs]

/-- The connection is closed at its own side. -/
def shut (cons : List Con) (c : Nat) : Prop := (cons[c]?).map Con.closed = some true

theorem shut_step {s s' : Reference.Sys} {l : Reference.Label} (h : Reference.step s l = some s') (c : Nat) (hc : shut s.cons c) : shut s'.cons c := by
  have set : ∀ (a : Nat) (x : Con), shut (s.cons.set a { x with closed := true }) c := by
    intro a x
    unfold shut at hc ⊢
    rw [List.getElem?_set]
    split
    · rename_i e
      subst e
      split
      · rfl
      · rename_i e; rw [List.getElem?_eq_none (by omega)] at hc; exact hc
    · exact hc
  have app : ∀ x : Con, shut (s.cons ++ [x]) c := by
    intro x
    unfold shut at hc ⊢
    by_cases hlt : c < s.cons.length
    · rw [List.getElem?_append_left hlt]; exact hc
    · rw [List.getElem?_eq_none (by omega)] at hc; simp at hc
  have ha := ref_alive h
  cases l <;> simp only [Reference.act, Reference.stopBody] at ha <;> repeat' split at ha
  all_goals first
    | (injection ha with ha; subst ha; exact hc)
    | (injection ha with ha; subst ha; exact app _)
    | (injection ha with ha; subst ha; exact set _ _)
    | simp at ha

/-- Only `Close` closes (as `Stop` does nothing). -/
theorem shut_from {confs : List Conf} {ks : List Reference.Label} {s s' : Reference.Sys} {l : Reference.Label} (hr : Reference.exec (Reference.init confs) ks = some s)
    (h : Reference.step s l = some s') (c : Nat) (hc : shut s'.cons c) : shut s.cons c ∨ l = .close c := by
  have ha := ref_alive h
  cases l with
  | stop t => rw [Reference.c54_violated confs ks s s' hr t h] at hc; exact .inl hc
  | close d =>
    simp only [Reference.act] at ha
    split at ha
    · simp at ha
    · injection ha with ha; subst ha
      by_cases e : d = c
      · subst e; exact .inr rfl
      · left
        unfold shut at hc ⊢
        rw [List.getElem?_set, if_neg e] at hc
        exact hc
  | run t =>
    have app : ∀ x : Con, x.closed = false → shut (s.cons ++ [x]) c → shut s.cons c := by
      intro x hx h
      unfold shut at h ⊢
      by_cases hlt : c < s.cons.length
      · rwa [List.getElem?_append_left hlt] at h
      · rw [List.getElem?_append_right (by omega)] at h
        cases hz : c - s.cons.length with
        | zero => rw [hz] at h; simp [hx] at h
        | succ z => rw [hz] at h; simp at h
    simp only [Reference.act] at ha
    repeat' split at ha
    all_goals first
      | (injection ha with ha; subst ha; exact .inl hc)
      | (injection ha with ha; subst ha; exact .inl (app _ rfl hc))
      | simp at ha
  | _ =>
    simp only [Reference.act] at ha
    repeat' split at ha
    all_goals first
      | (injection ha with ha; subst ha; exact .inl hc)
      | simp at ha

/-- No channel is ever closed. -/
theorem chan_open (confs : List Conf) (ks : List Reference.Label) (s : Reference.Sys) (h : Reference.exec (Reference.init confs) ks = some s) :
    ∀ (k : Nat) (ch : Reference.Chan), s.chans[k]? = some ch → ch.closed = false := by
  revert s
  refine snoc_induction (P := fun ks => ∀ s, Reference.exec (Reference.init confs) ks = some s →
    ∀ (k : Nat) (ch : Reference.Chan), s.chans[k]? = some ch → ch.closed = false) ?_ ?_ ks
  · intro s hs; injection hs with hs; subst hs; simp [Reference.init]
  · intro ks l ih s' hs
    obtain ⟨s, hm, hs⟩ := exec_snoc hs
    have ih := ih s hm
    have set : ∀ (j : Nat) (x y : Reference.Chan), s.chans[j]? = some x → y.closed = x.closed → ∀ (k : Nat) (ch : Reference.Chan), (s.chans.set j y)[k]? = some ch → ch.closed = false := by
      intro j x y hx hy k ch hk
      rw [List.getElem?_set] at hk
      split at hk
      · split at hk
        · injection hk with hk; subst hk; rw [hy]; exact ih j x hx
        · simp at hk
      · exact ih k ch hk
    have sq : ∀ (x : Reference.Chan) (d : Bool) (q : List Nat), (x.setQueue d q).closed = x.closed := by intro x d q; cases d <;> rfl
    have ha := ref_alive hs
    cases l with
    | stop t => rw [Reference.c54_violated confs ks s s' hm t hs]; exact ih
    | run t =>
      simp only [Reference.act] at ha
      split at ha
      · simp at ha
      · split at ha
        · simp at ha
        · split at ha
          · injection ha with ha; subst ha; exact ih
          · split at ha
            · simp at ha
            · split at ha
              · split at ha
                · simp at ha
                · rename_i ch hch
                  injection ha with ha; subst ha
                  exact set _ ch _ hch rfl
              · split at ha
                · injection ha with ha; subst ha; exact ih
                · injection ha with ha; subst ha
                  intro k ch hk
                  simp only at hk
                  by_cases hlt : k < s.chans.length
                  · rw [List.getElem?_append_left hlt] at hk; exact ih k ch hk
                  · rw [List.getElem?_append_right (by omega)] at hk
                    cases hz : k - s.chans.length with
                    | zero => rw [hz] at hk; simp at hk; subst hk; rfl
                    | succ z => rw [hz] at hk; simp at hk
    | set c v b =>
      simp only [Reference.act] at ha
      split at ha
      · simp at ha
      · split at ha
        · injection ha with ha; subst ha; exact ih
        · split at ha
          · simp at ha
          · rename_i ch hch
            split at ha
            · injection ha with ha; subst ha; exact ih
            · split at ha
              · injection ha with ha; subst ha; exact set _ ch _ hch (sq _ _ _)
              · simp at ha
    | get c b =>
      simp only [Reference.act] at ha
      split at ha
      · simp at ha
      · split at ha
        · injection ha with ha; subst ha; exact ih
        · split at ha
          · simp at ha
          · rename_i ch hch
            split at ha
            · injection ha with ha; subst ha; exact set _ ch _ hch (sq _ _ _)
            · split at ha
              · injection ha with ha; subst ha; exact ih
              · simp at ha
    | _ =>
      simp only [Reference.act] at ha
      repeat' split at ha
      all_goals first
        | (injection ha with ha; subst ha; exact ih)
        | simp at ha

/-- The reader has left its loop. -/
def ended : Stage → Prop
  | .closing => True
  | .telling => True
  | .over => True
  | _ => False

/-- The steps of the readers, with what they need. -/
theorem reader_step {confs : List Conf} {ls : List Label} {s s' : Sys} {l : Label} (hr : exec (init confs) ls = some s) (hs : step s l = some s') :
    ((s'.readers = s.readers ∨ ∃ c, s'.readers = s.readers ++ [(c, .top)]) ∧
      ∃ es, s'.out = s.out ++ es ∧ (∀ c v, Pub.data c v ∉ es) ∧ ∀ c, es.count (.closed c) = [l].count (.refuse c)) ∨
    ∃ (r c : Nat) (st st' : Stage), s.readers[r]? = some (c, st) ∧ s'.readers = s.readers.set r (c, st') ∧ (∀ d, l ≠ .refuse d) ∧
      (st = .top ∧ ((shut s.ref.cons c ∧ st' = .closing) ∨ (¬ shut s.ref.cons c ∧ st' = .waiting)) ∧ s'.ref = s.ref ∧ s'.out = s.out ∨
       st = .waiting ∧ (∃ v, st' = .holding v) ∧ s'.out = s.out ∨
       (∃ v, st = .holding v ∧ s'.out = s.out ++ [.data c v]) ∧ st' = .top ∨
       st = .closing ∧ st' = .telling ∧ s'.out = s.out ∧ Reference.step s.ref (.close c) = some s'.ref ∨
       st = .telling ∧ st' = .over ∧ s'.out = s.out ++ [.closed c]) := by
  obtain ⟨_, ha⟩ := alive hs
  have nil : (∀ d, l ≠ .refuse d) → ∃ es, s.out = s.out ++ es ∧ (∀ c v, Pub.data c v ∉ es) ∧ ∀ c, es.count (.closed c) = [l].count (.refuse c) := by
    intro h
    refine ⟨[], by simp, by simp, fun c => ?_⟩
    rw [List.count_nil, List.count_singleton, if_neg (by simpa using h c)]
  cases l with
  | loop a =>
    simp only [act, loopStep] at ha
    repeat' split at ha
    all_goals first
      | (obtain ⟨x, hx, rfl⟩ := map_some ha; exact .inl ⟨.inl rfl, nil (by simp)⟩)
      | (injection ha with ha; subst ha; exact .inl ⟨.inl rfl, _, rfl, by simp, by simp⟩)
      | (injection ha with ha; subst ha; exact .inl ⟨.inr ⟨_, rfl⟩, nil (by simp)⟩)
      | simp at ha
  | test r =>
    simp only [act] at ha
    split at ha
    · rename_i c hr
      split at ha
      · simp at ha
      · rename_i con hc
        injection ha with ha; subst ha
        refine .inr ⟨r, c, _, _, hr, rfl, by simp, .inl ⟨rfl, ?_, rfl, rfl⟩⟩
        cases hx : con.closed
        · exact .inr ⟨by simp [shut, hc, hx], rfl⟩
        · exact .inl ⟨by simp [shut, hc, hx], rfl⟩
    · simp at ha
  | take r =>
    simp only [act] at ha
    split at ha
    · rename_i c hrd
      obtain ⟨x, hx, rfl⟩ := map_some ha
      obtain ⟨h1, ⟨k, d, v, hp, hf, hl⟩ | ⟨hf, rfl⟩⟩ := get_step hx
      · exact .inr ⟨r, c, _, _, hrd, rfl, by simp, .inr (.inl ⟨rfl, ⟨v, by simp only [hf]⟩, rfl⟩)⟩
      · exfalso
        obtain ⟨ks, hks⟩ := ref_exec confs ls s hr
        have hx' := ref_alive hx
        simp only [Reference.act] at hx'
        split at hx'
        · simp at hx'
        · rename_i con hc
          split at hx'
          · rename_i e; simp at e
          · split at hx'
            · simp at hx'
            · rename_i ch hch
              split at hx'
              · rename_i hq; simp [first, hc, hch, hq] at hf
              · rw [chan_open confs ks s.ref hks _ _ hch] at hx'
                simp at hx'
    · simp at ha
  | meet a r v =>
    simp only [act] at ha
    split at ha
    · rename_i c hr
      obtain ⟨x, hx, rfl⟩ := map_some ha
      exact .inr ⟨r, c, _, _, hr, rfl, by simp, .inr (.inl ⟨rfl, ⟨v, rfl⟩, rfl⟩)⟩
    · simp at ha
  | hand r =>
    simp only [act] at ha
    split at ha
    · rename_i c v hr
      injection ha with ha; subst ha
      exact .inr ⟨r, c, _, _, hr, rfl, by simp, .inr (.inr (.inl ⟨⟨v, rfl, rfl⟩, rfl⟩))⟩
    · simp at ha
  | finish r =>
    simp only [act] at ha
    split at ha
    · rename_i c hr
      obtain ⟨x, hx, rfl⟩ := map_some ha
      exact .inr ⟨r, c, _, _, hr, rfl, by simp, .inr (.inr (.inr (.inl ⟨rfl, rfl, rfl, hx⟩)))⟩
    · rename_i c hr
      injection ha with ha; subst ha
      exact .inr ⟨r, c, _, _, hr, rfl, by simp, .inr (.inr (.inr (.inr ⟨rfl, rfl, rfl⟩)))⟩
    · simp at ha
  | added =>
    simp only [act] at ha
    split at ha
    · simp at ha
    · obtain ⟨x, hx, rfl⟩ := map_some ha; exact .inl ⟨.inl rfl, nil (by simp)⟩
  | refuse d =>
    obtain ⟨x, hx, rfl⟩ := map_some ha
    refine .inl ⟨.inl rfl, _, rfl, by simp, fun c => ?_⟩
    simp [List.count_singleton]
  | _ => obtain ⟨x, hx, rfl⟩ := map_some ha; exact .inl ⟨.inl rfl, nil (by simp)⟩

/-- A reader ends only when its own end has been closed. -/
theorem ended_shut (confs : List Conf) (ls : List Label) (s : Sys) (h : exec (init confs) ls = some s) :
    ∀ (r c : Nat) (st : Stage), s.readers[r]? = some (c, st) → ended st → shut s.ref.cons c := by
  refine reach_invariant (P := fun _ s => ∀ (r c : Nat) (st : Stage), s.readers[r]? = some (c, st) → ended st → shut s.ref.cons c) (by simp [init]) ?_ ls s h
  intro ls s l s' hr ih hs r c st hrd hst
  have keep : ∀ c, shut s.ref.cons c → shut s'.ref.cons c := by
    intro c hc
    rcases ref_step hs with e | ⟨k, e⟩
    · rw [e]; exact hc
    · exact shut_step e c hc
  rcases reader_step hr hs with ⟨e | ⟨c', e⟩, _⟩ | ⟨r', c', st₀, st₁, h1, e, _, h2⟩
  · rw [e] at hrd; exact keep _ (ih r c st hrd hst)
  · rw [e] at hrd
    by_cases hlt : r < s.readers.length
    · rw [List.getElem?_append_left hlt] at hrd; exact keep _ (ih r c st hrd hst)
    · rw [List.getElem?_append_right (by omega)] at hrd
      cases hz : r - s.readers.length with
      | zero => rw [hz] at hrd; simp at hrd; obtain ⟨rfl, rfl⟩ := hrd; exact hst.elim
      | succ z => rw [hz] at hrd; simp at hrd
  · rw [e, List.getElem?_set] at hrd
    split at hrd
    · split at hrd
      · simp only [Option.some.injEq, Prod.mk.injEq] at hrd
        obtain ⟨rfl, rfl⟩ := hrd
        rcases h2 with ⟨_, ⟨h3, _⟩ | ⟨_, h3⟩, _⟩ | ⟨_, ⟨v, h3⟩, _⟩ | ⟨_, h3⟩ | ⟨h3, _⟩ | ⟨h3, _⟩
        · exact keep _ h3
        · subst h3; exact hst.elim
        · subst h3; exact hst.elim
        · subst h3; exact hst.elim
        · subst h3; exact keep _ (ih _ _ _ h1 trivial)
        · subst h3; exact keep _ (ih _ _ _ h1 trivial)
      · simp at hrd
    · exact keep _ (ih r c st hrd hst)

/-- The program, or a failing send, has closed this end. -/
def closedBy (ls : List Label) (c : Nat) : Prop := .close c ∈ ls ∨ .refuse c ∈ ls

theorem shut_by (confs : List Conf) (ls : List Label) (s : Sys) (h : exec (init confs) ls = some s) (c : Nat) (hc : shut s.ref.cons c) : closedBy ls c := by
  refine reach_invariant (P := fun ls s => shut s.ref.cons c → closedBy ls c) (by simp [init, Reference.init, shut]) ?_ ls s h hc
  intro ls s l s' hr ih hs hc
  obtain ⟨ks, hks⟩ := ref_exec confs ls s hr
  have up : closedBy ls c → closedBy (ls ++ [l]) c := fun h => h.imp (fun h => List.mem_append_left _ h) (fun h => List.mem_append_left _ h)
  by_cases h0 : shut s.ref.cons c
  · exact up (ih h0)
  · -- this step closed it
    have hk : ∀ k, Reference.step s.ref k = some s'.ref → k = .close c := fun k e => (shut_from hks e c hc).resolve_left h0
    have none' : s'.ref = s.ref → closedBy (ls ++ [l]) c := fun e => absurd (e ▸ hc) h0
    obtain ⟨_, ha⟩ := alive hs
    cases l with
    | refuse d =>
      obtain ⟨x, hx, rfl⟩ := map_some ha
      have := hk _ hx
      injection this with this
      subst this
      exact .inr (by simp)
    | close d =>
      obtain ⟨x, hx, rfl⟩ := map_some ha
      have := hk _ hx
      injection this with this
      subst this
      exact .inl (by simp)
    | finish r =>
      simp only [act] at ha
      split at ha
      · rename_i d hrd
        obtain ⟨x, hx, rfl⟩ := map_some ha
        have := hk _ hx
        injection this with this
        subst this
        exact absurd (ended_shut confs ls s hr r d _ hrd trivial) h0
      · injection ha with ha; subst ha; exact none' rfl
      · simp at ha
    | _ =>
      simp only [act, loopStep] at ha
      repeat' split at ha
      all_goals first
        | (obtain ⟨x, hx, rfl⟩ := map_some ha; exact absurd (hk _ hx) (by simp))
        | (injection ha with ha; subst ha; exact none' rfl)
        | simp at ha

/-- **C95 fails at the other side, always**: as long as an end has not been closed at its own side, its reader goes on, whatever happens to the other
end: that the other end was closed is never noticed and never announced. -/
theorem c95_violated (confs : List Conf) (ls : List Label) (s : Sys) (h : exec (init confs) ls = some s) (c : Nat) (hc : ¬ closedBy ls c) :
    ¬ shut s.ref.cons c ∧ (∀ (r : Nat) (st : Stage), s.readers[r]? = some (c, st) → ¬ ended st) :=
  ⟨fun h' => hc (shut_by confs ls s h c h'), fun r st hr hst => hc (shut_by confs ls s h c (ended_shut confs ls s h r c st hr hst))⟩

/-- The objects passed up from a connection. -/
def fromCon (c : Nat) : Pub → Nat
  | .data d _ => if d = c then 1 else 0
  | _ => 0

/-- What the reader of a closed connection may still pass up. -/
def allow (c : Nat) : Nat × Stage → Nat
  | (d, .waiting) => if d = c then 1 else 0
  | (d, .holding _) => if d = c then 1 else 0
  | _ => 0

theorem weigh_zero {α : Type} (f : α → Nat) (l : List α) (h : ∀ a ∈ l, f a = 0) : weigh f l = 0 := by
  induction l with
  | nil => rfl
  | cons a l ih =>
    have h1 := h a List.mem_cons_self
    have h2 := ih fun b hb => h b (List.mem_cons_of_mem _ hb)
    simp only [weigh, List.map_cons, List.sum_cons] at h2 ⊢
    omega

theorem weigh_mono {α : Type} (f g : α → Nat) (l : List α) (h : ∀ a, f a ≤ g a) : weigh f l ≤ weigh g l := by
  induction l with
  | nil => exact Nat.le_refl _
  | cons a l ih =>
    have := h a
    simp only [weigh, List.map_cons, List.sum_cons] at ih ⊢
    omega

theorem after_step {confs : List Conf} {ls : List Label} {s s' : Sys} {l : Label} (hr : exec (init confs) ls = some s) (hs : step s l = some s')
    (c : Nat) (hc : shut s.ref.cons c) :
    weigh (fromCon c) s'.out + weigh (allow c) s'.readers ≤ weigh (fromCon c) s.out + weigh (allow c) s.readers := by
  rcases reader_step hr hs with ⟨hrs, es, ho, hd, _⟩ | ⟨r, d, st, st', h1, e, _, h2⟩
  · have h0 : weigh (fromCon c) es = 0 := by
      refine weigh_zero _ _ fun p hp => ?_
      cases p with
      | data a v => exact absurd hp (hd a v)
      | _ => rfl
    have h3 : weigh (allow c) s'.readers = weigh (allow c) s.readers := by
      rcases hrs with e | ⟨d, e⟩
      · rw [e]
      · rw [e, weigh_append, weigh_one]; simp [allow]
    rw [ho, weigh_append, h0, h3]
    omega
  · have hw := weigh_set (allow c) s.readers r (d, st') _ h1
    rw [e]
    rcases h2 with ⟨rfl, h3, _, ho⟩ | ⟨rfl, ⟨v, rfl⟩, ho⟩ | ⟨⟨v, rfl, ho⟩, rfl⟩ | ⟨rfl, rfl, ho, _⟩ | ⟨rfl, rfl, ho⟩
    · rw [ho]
      have e1 : allow c (d, .top) = 0 := rfl
      have e2 : allow c (d, st') = 0 := by
        rcases h3 with ⟨_, rfl⟩ | ⟨h3, rfl⟩
        · rfl
        · have : d ≠ c := by intro e; subst e; exact h3 hc
          simp [allow, this]
      omega
    · rw [ho]
      have : allow c (d, .waiting) = allow c (d, .holding v) := rfl
      omega
    · rw [ho, weigh_append, weigh_one]
      have e1 : allow c (d, .top) = 0 := rfl
      have e2 : allow c (d, .holding v) = fromCon c (.data d v) := rfl
      omega
    · rw [ho]
      have e1 : allow c (d, .closing) = 0 := rfl
      have e2 : allow c (d, .telling) = 0 := rfl
      omega
    · rw [ho, weigh_append, weigh_one]
      have e1 : allow c (d, .over) = 0 := rfl
      have e2 : allow c (d, .telling) = 0 := rfl
      have e3 : fromCon c (.closed d) = 0 := rfl
      omega

/-- **C95, partly**: after its end was closed, at most one more object is passed up from a connection. -/
theorem c95_partial (confs : List Conf) (ls ms : List Label) (s s' : Sys) (h : exec (init confs) ls = some s) (hm : exec s ms = some s') (c : Nat)
    (hc : shut s.ref.cons c) : weigh (fromCon c) s'.out ≤ weigh (fromCon c) s.out + 1 := by
  have main : ∀ (ms ls : List Label) (s : Sys), exec (init confs) ls = some s → exec s ms = some s' → shut s.ref.cons c →
      weigh (fromCon c) s'.out + weigh (allow c) s'.readers ≤ weigh (fromCon c) s.out + weigh (allow c) s.readers := by
    intro ms
    induction ms with
    | nil => intro ls s _ hm _; injection hm with hm; subst hm; exact Nat.le_refl _
    | cons l ms ih =>
      intro ls s h hm hc
      obtain ⟨m, h1, h2⟩ := exec_cons hm
      have h3 : shut m.ref.cons c := by
        rcases ref_step h1 with e | ⟨k, e⟩
        · rw [e]; exact hc
        · exact shut_step e c hc
      have h4 := ih (ls ++ [l]) m (exec_join h (by show Trace.exec step _ _ = _; simp [Trace.exec, h1])) h2 h3
      exact Nat.le_trans h4 (after_step h h1 c hc)
  have h1 := main ms ls s h hm hc
  have h2 : weigh (allow c) s.readers ≤ weigh (inReader c) s.readers := by
    refine weigh_mono _ _ _ fun x => ?_
    obtain ⟨d, st⟩ := x
    cases st <;> simp [allow, inReader] <;> split <;> omega
  have h3 := total_exec confs ls s h c
  simp only [total] at h3
  split at h3 <;> omega

def isOver (c : Nat) : Nat × Stage → Nat
  | (d, .over) => if d = c then 1 else 0
  | _ => 0

/-- **C95, announcements exactly**: the end of a connection is announced once for every failing send, and once when its reader ends. -/
theorem c95_announced (confs : List Conf) (ls : List Label) (s : Sys) (h : exec (init confs) ls = some s) (c : Nat) :
    s.out.count (.closed c) = ls.count (.refuse c) + weigh (isOver c) s.readers := by
  refine reach_invariant (P := fun ls s => s.out.count (.closed c) = ls.count (.refuse c) + weigh (isOver c) s.readers) rfl ?_ ls s h
  intro ls s l s' hr ih hs
  rw [List.count_append]
  rcases reader_step hr hs with ⟨hrs, es, ho, _, hd⟩ | ⟨r, d, st, st', h1, e, hn, h2⟩
  · have h3 : weigh (isOver c) s'.readers = weigh (isOver c) s.readers := by
      rcases hrs with e | ⟨d, e⟩
      · rw [e]
      · rw [e, weigh_append, weigh_one]; simp [isOver]
    rw [ho, List.count_append, hd c, h3]
    omega
  · have hw := weigh_set (isOver c) s.readers r (d, st') _ h1
    have h0 : [l].count (.refuse c) = 0 := by rw [List.count_singleton, if_neg (by simpa using hn c)]
    rw [e, h0]
    have z : ∀ st, st ≠ .over → isOver c (d, st) = 0 := by intro st h; cases st <;> first | rfl | exact absurd rfl h
    rcases h2 with ⟨rfl, h3, _, ho⟩ | ⟨rfl, ⟨v, rfl⟩, ho⟩ | ⟨⟨v, rfl, ho⟩, rfl⟩ | ⟨rfl, rfl, ho, _⟩ | ⟨rfl, rfl, ho⟩
    · rw [ho]
      have e1 := z .top (by simp)
      have e2 := z st' (by rcases h3 with ⟨_, rfl⟩ | ⟨_, rfl⟩ <;> simp)
      omega
    · rw [ho]
      have e1 := z .waiting (by simp)
      have e2 := z (.holding v) (by simp)
      omega
    · rw [ho, List.count_append]
      have e1 := z .top (by simp)
      have e2 := z (.holding v) (by simp)
      have e3 : [Pub.data d v].count (.closed c) = 0 := by simp [List.count_singleton]
      omega
    · rw [ho]
      have e1 := z .closing (by simp)
      have e2 := z .telling (by simp)
      omega
    · rw [ho, List.count_append]
      have e1 := z .telling (by simp)
      have e2 : isOver c (d, .over) = [Pub.closed d].count (.closed c) := by simp [isOver, List.count_singleton]
      omega

/-- No reader can take a step by itself. -/
def Rest (s : Sys) : Prop := ∀ r, step s (.test r) = none ∧ step s (.take r) = none ∧ step s (.hand r) = none ∧ step s (.finish r) = none

/-- **C95, at rest**: a reader has ended, and then its end is closed, or it waits for an object, and its channel is empty.  A closed connection whose
reader waits is not left by the reader before the next object comes. -/
theorem c95_rest (confs : List Conf) (ls : List Label) (s : Sys) (h : exec (init confs) ls = some s) (hp : s.ref.panicked = false) (hrest : Rest s)
    (r c : Nat) (st : Stage) (hr : s.readers[r]? = some (c, st)) : st = .over ∧ shut s.ref.cons c ∨ st = .waiting ∧ first s.ref c = none := by
  have hc := reader_valid h hr
  obtain ⟨h1, h2, h3, h4⟩ := hrest r
  have hcon : s.ref.cons[c]? = some s.ref.cons[c] := List.getElem?_eq_getElem hc
  cases st with
  | top => simp [step, act, hp, hr, hcon] at h1
  | holding v => simp [step, act, hp, hr] at h3
  | closing => simp [step, act, hp, hr, Reference.step, Reference.act, hcon] at h4
  | telling => simp [step, act, hp, hr] at h4
  | over => exact .inl ⟨rfl, ended_shut confs ls s h r c _ hr trivial⟩
  | waiting =>
    right
    refine ⟨rfl, ?_⟩
    cases hf : first s.ref c with
    | none => rfl
    | some v =>
      exfalso
      simp only [first, hcon, Option.bind_some] at hf
      cases hch : s.ref.chans[s.ref.cons[c].chan]? with
      | none => rw [hch] at hf; simp at hf
      | some ch =>
        rw [hch] at hf
        simp only [Option.bind_some] at hf
        cases hq : ch.queue (!s.ref.cons[c].forServer) with
        | nil => rw [hq] at hf; simp at hf
        | cons w rest => simp [step, act, hp, hr, Reference.step, Reference.act, hcon, hch, hq] at h2

/-! ## Examples -/

/-- A server and a client at address 7. -/
def pair : List Conf := [⟨7, true, 2⟩, ⟨7, false, 512⟩]

def up : List Label := joining 0 0 ++ joining 1 1 ++ [.test 0, .test 1]

/-- Each of them added once: private. -/
example : Private pair (fun _ => 1) := by
  intro t₁ t₂ t₃ c₁ c₂ c₃ h₁ h₂ h₃ ha ha' hb hb' n₁ n₂ n₃
  match t₁, t₂ with
  | 0, 0 => exact ⟨rfl, rfl⟩
  | 1, 1 => exact ⟨rfl, rfl⟩
  | 0, 1 => simp [pair] at h₁ h₂; subst h₁ h₂; simp at hb
  | 1, 0 => simp [pair] at h₁ h₂; subst h₁ h₂; simp at hb
  | _ + 2, _ => simp [pair] at h₁
  | _, _ + 2 => simp [pair] at h₂

/-- The client sends 5 and 6, the server 9, and all are passed up. -/
example : (exec (init pair) (up ++ [.send 1 5 false, .send 1 6 false, .send 0 9 false, .take 0, .hand 0, .test 0, .take 0, .hand 0, .take 1, .hand 1])).map
    (fun s => (handed 0 false s, handed 0 true s, setOn 0 false s.ref.log, setOn 0 true s.ref.log, s.out)) =
    some ([5, 6], [9], [5, 6], [9], [.opened 0, .opened 1, .data 0 5, .data 0 6, .data 1 9]) := by decide

/-- The server is deleted and added again: two goroutines read what the client sends, and the order is lost.  (`c94_violated` is not vacuous, and
`c95_delete` says that the deletion does not matter.) -/
example : (exec (init pair) (up ++ [.del 0] ++ joining 0 2 ++ [.test 2, .send 1 5 false, .take 0, .send 1 6 false, .take 2, .hand 2, .hand 0])).map
    (fun s => (handed 0 false s, setOn 0 false s.ref.log, s.readers)) = some ([6, 5], [5, 6], [(0, .top), (1, .waiting), (2, .top)]) := by decide

/-- The server's end is closed.  Neither reader notices: both wait, nothing is announced; the object that the client sends then is still passed up, and
only then the end is announced.  The client never learns. -/
theorem c95_late :
    (exec (init pair) (up ++ [.close 0])).map (fun s => (s.readers, s.out)) = some ([(0, .waiting), (1, .waiting)], [.opened 0, .opened 1]) ∧
    (exec (init pair) (up ++ [.close 0, .send 1 5 false, .take 0, .hand 0, .test 0, .finish 0, .finish 0])).map (fun s => (s.readers, s.out)) =
      some ([(0, .over), (1, .waiting)], [.opened 0, .opened 1, .data 0 5, .closed 0]) := by decide

/-- And what the client sends after that is accepted and lost. -/
example : (exec (init pair) (up ++ [.close 0, .send 1 5 false, .take 0, .hand 0, .test 0, .finish 0, .finish 0, .send 1 6 false, .send 1 7 false])).map
    (fun s => (handed 0 false s, setOn 0 false s.ref.log)) = some ([5], [5, 6, 7]) := by decide

/-- A failing send and the reader both announce the end. -/
example : (exec (init pair) (up ++ [.send 1 5 false, .take 0, .hand 0, .refuse 0, .test 0, .finish 0, .finish 0])).map (fun s => s.out.count (.closed 0)) = some 2 := by
  decide

end Verif.Conn.Rejoin
