import Verif.Conn.Heartbeat
import Verif.Trace

/-!
# Heartbeats in real time (C78)

The sender goroutines of the peers (proc_heartbeat.go:146-169), the connections, the Heartbeat of one stack (`HB`) and its check goroutine
(proc_heartbeat.go:193-198) under one clock, in nanoseconds.  Any number of connections; each peer has its own interval, and
the runtime its own delays: a goroutine that sleeps wakes up not before the time asked for and at most `jitter` after it (including
the time to send); a heartbeat is received at most `delay` after it was sent; a check begins at most `slack` after
its time.  Time can pass only as far as these bounds allow.  A peer may die (or its network be cut): then nothing is owed any more.

Simplifications: heartbeats are taken one by one, in the order sent (C60, C74 are about the bytes); the remote clock runs like the local
one; a heartbeat already sent when the connection is accepted counts as sent on accepting.
-/

namespace Verif.Conn.Heartbeat

/-- One second, in nanoseconds. -/
abbrev sec : Nat := 1000000000

structure Peer where
  /-- `intervalInSecond` of the peer, in nanoseconds -/
  interval : Nat
  jitter : Nat
  delay : Nat
  /-- The sender goroutine sleeps until then; `none`: dead. -/
  wake : Option Nat
  /-- Times at which the heartbeats on the way were sent, oldest first. -/
  wire : List Nat
  /-- `Closed()` of the local connection object. -/
  closed : Bool := false
  deriving Repr, DecidableEq

structure Clocked where
  now : Nat
  hb : HB
  /-- The check goroutine sleeps until then. -/
  checkAt : Nat
  slack : Nat
  /-- Connection `i` is the `i`-th. -/
  peers : List Peer
  /-- What `check` did, and when. -/
  log : List (Nat × Eff)
  deriving Repr, DecidableEq

inductive Act where
  /-- `d` nanoseconds pass. -/
  | tick (d : Nat)
  /-- A connection is accepted (`NewConnection`, proc_heartbeat.go:140-144); its peer's sender goroutine will first be ready at `first`. -/
  | accept (interval jitter delay first : Nat)
  /-- The sender goroutine of peer `i` sends and goes to sleep (proc_heartbeat.go:154-167). -/
  | send (i : Nat)
  /-- The oldest heartbeat on the way from `i` is received (proc_heartbeat.go:128-133). -/
  | receive (i : Nat)
  /-- Peer `i` dies or its network is cut. -/
  | die (i : Nat)
  /-- Somebody closes the local connection object. -/
  | close (i : Nat)
  /-- The local sender goroutine of connection `i` sees it closed (proc_heartbeat.go:148-152). -/
  | gone (i : Nat)
  /-- The check goroutine runs `check` (proc_heartbeat.go:193-198). -/
  | check (order : List (Nat × Nat))
  deriving Repr, DecidableEq

/-- Time `t` is not later than what is owed by this peer. -/
def Peer.due (p : Peer) (t : Nat) : Bool :=
  (match p.wake with
    | some w => decide (t ≤ w + p.jitter)
    | none => true) &&
  (match p.wire with
    | s :: _ => decide (t ≤ s + p.delay)
    | [] => true)

/-- `connection.Close()` of `check` (proc_heartbeat.go:77-79). -/
def closeAll (ps : List Peer) (effs : List Eff) : List Peer :=
  ps.mapIdx fun i p => if Eff.close i ∈ effs then { p with closed := true } else p

def Clocked.step (s : Clocked) : Act → Option Clocked
  | .tick d =>
    if s.now + d ≤ s.checkAt + s.slack ∧ s.peers.all (fun p => p.due (s.now + d)) then some { s with now := s.now + d } else none
  | .accept interval jitter delay first =>
    if first ≤ s.now + interval ∧ s.now ≤ first + jitter then
      some { s with
        hb := (Heartbeat.step s.hb s.now (.connected s.peers.length)).1
        peers := s.peers ++ [{ interval, jitter, delay, wake := some first, wire := [] }] }
    else none
  | .send i => do
    let p ← s.peers[i]?
    let w ← p.wake
    if w ≤ s.now then some { s with peers := s.peers.set i { p with wake := some (s.now + p.interval), wire := p.wire ++ [s.now] } } else none
  | .receive i => do
    let p ← s.peers[i]?
    match p.wire with
    | [] => none
    | _ :: rest => some { s with hb := (Heartbeat.step s.hb s.now (.beat i)).1, peers := s.peers.set i { p with wire := rest } }
  | .die i => do
    let p ← s.peers[i]?
    some { s with peers := s.peers.set i { p with wake := none, wire := [] } }
  | .close i => do
    let p ← s.peers[i]?
    some { s with peers := s.peers.set i { p with closed := true } }
  | .gone i => do
    let p ← s.peers[i]?
    if p.closed then some { s with hb := (Heartbeat.step s.hb s.now (.gone i)).1 } else none
  | .check order =>
    if s.checkAt ≤ s.now ∧ order.isPerm s.hb.monitors then
      let r := Heartbeat.step s.hb s.now (.check order)
      some { s with hb := r.1, checkAt := s.now + sec, peers := closeAll s.peers r.2, log := s.log ++ r.2.map fun e => (s.now, e) }
    else none

/-- After `Run` at time `now` (proc_heartbeat.go:174-201). -/
def Clocked.start (now : Nat) (timeout : Int) (closeOnLost : Bool) (slack : Nat) : Clocked :=
  ⟨now, ⟨timeout, closeOnLost, []⟩, now, slack, [], []⟩

open Trace

/-! ## What every step keeps -/

theorem step_conf {s s' : Clocked} {a : Act} (h : s.step a = some s') :
    s'.hb.timeout = s.hb.timeout ∧ s'.hb.closeOnLost = s.hb.closeOnLost ∧ s'.slack = s.slack ∧ s.now ≤ s'.now := by
  cases a with
  | tick d =>
    simp only [Clocked.step] at h
    split at h
    · injection h with h; subst h; exact ⟨rfl, rfl, rfl, Nat.le_add_right _ _⟩
    · cases h
  | accept interval jitter delay first =>
    simp only [Clocked.step] at h
    split at h
    · injection h with h; subst h; exact ⟨rfl, rfl, rfl, Nat.le_refl _⟩
    · cases h
  | send i =>
    simp only [Clocked.step, Option.bind_eq_bind, Option.bind_eq_some_iff] at h
    obtain ⟨p, _, w, _, h⟩ := h
    split at h
    · injection h with h; subst h; exact ⟨rfl, rfl, rfl, Nat.le_refl _⟩
    · cases h
  | receive i =>
    simp only [Clocked.step, Option.bind_eq_bind, Option.bind_eq_some_iff] at h
    obtain ⟨p, _, h⟩ := h
    split at h
    · cases h
    · injection h with h; subst h; exact ⟨rfl, rfl, rfl, Nat.le_refl _⟩
  | die i =>
    simp only [Clocked.step, Option.bind_eq_bind, Option.bind_eq_some_iff] at h
    obtain ⟨p, _, h⟩ := h
    injection h with h; subst h; exact ⟨rfl, rfl, rfl, Nat.le_refl _⟩
  | close i =>
    simp only [Clocked.step, Option.bind_eq_bind, Option.bind_eq_some_iff] at h
    obtain ⟨p, _, h⟩ := h
    injection h with h; subst h; exact ⟨rfl, rfl, rfl, Nat.le_refl _⟩
  | gone i =>
    simp only [Clocked.step, Option.bind_eq_bind, Option.bind_eq_some_iff] at h
    obtain ⟨p, _, h⟩ := h
    split at h
    · injection h with h; subst h; exact ⟨rfl, rfl, rfl, Nat.le_refl _⟩
    · cases h
  | check order =>
    simp only [Clocked.step] at h
    split at h
    · injection h with h; subst h
      obtain ⟨a, b⟩ := conf_step s.hb s.now (.check order)
      exact ⟨a, b, rfl, Nat.le_refl _⟩
    · cases h

theorem step_keys {s s' : Clocked} {a : Act} (hk : Keys s.hb.monitors) (h : s.step a = some s') : Keys s'.hb.monitors := by
  cases a with
  | tick d =>
    simp only [Clocked.step] at h
    split at h
    · injection h with h; subst h; exact hk
    · cases h
  | accept interval jitter delay first =>
    simp only [Clocked.step] at h
    split at h
    · injection h with h; subst h; exact keys_step hk s.now (.connected s.peers.length)
    · cases h
  | send i =>
    simp only [Clocked.step, Option.bind_eq_bind, Option.bind_eq_some_iff] at h
    obtain ⟨p, _, w, _, h⟩ := h
    split at h
    · injection h with h; subst h; exact hk
    · cases h
  | receive i =>
    simp only [Clocked.step, Option.bind_eq_bind, Option.bind_eq_some_iff] at h
    obtain ⟨p, _, h⟩ := h
    split at h
    · cases h
    · injection h with h; subst h; exact keys_step hk s.now (.beat i)
  | die i =>
    simp only [Clocked.step, Option.bind_eq_bind, Option.bind_eq_some_iff] at h
    obtain ⟨p, _, h⟩ := h
    injection h with h; subst h; exact hk
  | close i =>
    simp only [Clocked.step, Option.bind_eq_bind, Option.bind_eq_some_iff] at h
    obtain ⟨p, _, h⟩ := h
    injection h with h; subst h; exact hk
  | gone i =>
    simp only [Clocked.step, Option.bind_eq_bind, Option.bind_eq_some_iff] at h
    obtain ⟨p, _, h⟩ := h
    split at h
    · injection h with h; subst h; exact keys_step hk s.now (.gone i)
    · cases h
  | check order =>
    simp only [Clocked.step] at h
    split at h
    · injection h with h; subst h; exact keys_step hk s.now (.check order)
    · cases h

theorem step_log {s s' : Clocked} {a : Act} (h : s.step a = some s') : ∃ l, s'.log = s.log ++ l := by
  cases a with
  | tick d =>
    simp only [Clocked.step] at h
    split at h
    · injection h with h; subst h; exact ⟨[], by simp⟩
    · cases h
  | accept interval jitter delay first =>
    simp only [Clocked.step] at h
    split at h
    · injection h with h; subst h; exact ⟨[], by simp⟩
    · cases h
  | send i =>
    simp only [Clocked.step, Option.bind_eq_bind, Option.bind_eq_some_iff] at h
    obtain ⟨p, _, w, _, h⟩ := h
    split at h
    · injection h with h; subst h; exact ⟨[], by simp⟩
    · cases h
  | receive i =>
    simp only [Clocked.step, Option.bind_eq_bind, Option.bind_eq_some_iff] at h
    obtain ⟨p, _, h⟩ := h
    split at h
    · cases h
    · injection h with h; subst h; exact ⟨[], by simp⟩
  | die i =>
    simp only [Clocked.step, Option.bind_eq_bind, Option.bind_eq_some_iff] at h
    obtain ⟨p, _, h⟩ := h
    injection h with h; subst h; exact ⟨[], by simp⟩
  | close i =>
    simp only [Clocked.step, Option.bind_eq_bind, Option.bind_eq_some_iff] at h
    obtain ⟨p, _, h⟩ := h
    injection h with h; subst h; exact ⟨[], by simp⟩
  | gone i =>
    simp only [Clocked.step, Option.bind_eq_bind, Option.bind_eq_some_iff] at h
    obtain ⟨p, _, h⟩ := h
    split at h
    · injection h with h; subst h; exact ⟨[], by simp⟩
    · cases h
  | check order =>
    simp only [Clocked.step] at h
    split at h
    · injection h with h; subst h; exact ⟨_, rfl⟩
    · cases h

/-! ## One connection -/

/-- What there is to see of one connection: its peer and since when it is silent, if it is watched. -/
structure View where
  now : Nat
  checkAt : Nat
  peer : Peer
  silent : Option Nat

/-- The timeout has passed, in whole seconds. -/
def Late (timeout : Int) (now u : Nat) : Prop := timeout ≤ (((now - u) / sec : Nat) : Int)

/-- Nothing that concerns connection `i`. -/
def Act.elsewhere (i : Nat) : Act → Bool
  | .accept _ _ _ _ => true
  | .send k | .receive k | .die k | .close k | .gone k => k ≠ i
  | .tick _ | .check _ => false

/-- How one step looks from connection `i`; the last argument says whether the connection is declared lost. -/
inductive Local (timeout : Int) (closeOnLost : Bool) (slack i : Nat) (v : View) : Act → View → Bool → Prop
  | tick (d : Nat) : v.now + d ≤ v.checkAt + slack → v.peer.due (v.now + d) = true → Local timeout closeOnLost slack i v (.tick d) { v with now := v.now + d } false
  | send (w : Nat) : v.peer.wake = some w → w ≤ v.now →
      Local timeout closeOnLost slack i v (.send i) { v with peer := { v.peer with wake := some (v.now + v.peer.interval), wire := v.peer.wire ++ [v.now] } } false
  | receive (t : Nat) (rest : List Nat) : v.peer.wire = t :: rest →
      Local timeout closeOnLost slack i v (.receive i) { v with peer := { v.peer with wire := rest }, silent := some v.now } false
  | die : Local timeout closeOnLost slack i v (.die i) { v with peer := { v.peer with wake := none, wire := [] } } false
  | close : Local timeout closeOnLost slack i v (.close i) { v with peer := { v.peer with closed := true } } false
  | gone : v.peer.closed = true → Local timeout closeOnLost slack i v (.gone i) { v with silent := none } false
  | lost (order : List (Nat × Nat)) (u : Nat) : v.checkAt ≤ v.now → v.silent = some u → Late timeout v.now u →
      Local timeout closeOnLost slack i v (.check order)
        { v with checkAt := v.now + sec, silent := none, peer := { v.peer with closed := v.peer.closed || closeOnLost } } true
  | checked (order : List (Nat × Nat)) : v.checkAt ≤ v.now → (∀ u, v.silent = some u → ¬ Late timeout v.now u) →
      Local timeout closeOnLost slack i v (.check order) { v with checkAt := v.now + sec } false
  | other (a : Act) : a.elsewhere i = true → Local timeout closeOnLost slack i v a v false

/-- Connection `i` of a state. -/
def Clocked.view (s : Clocked) (i : Nat) (p : Peer) : View := ⟨s.now, s.checkAt, p, last s.hb.monitors i⟩

theorem getElem?_closeAll (ps : List Peer) (effs : List Eff) (i : Nat) (p : Peer) (h : ps[i]? = some p) :
    (closeAll ps effs)[i]? = some { p with closed := p.closed || decide (Eff.close i ∈ effs) } := by
  rw [closeAll, List.getElem?_mapIdx, h, Option.map_some]
  by_cases hc : Eff.close i ∈ effs
  · simp [hc]
  · simp [hc]

theorem getElem?_set' {α : Type} (ps : List α) (i j : Nat) (p q : α) (hi : ps[i]? = some p) : (ps.set j q)[i]? = some (if j = i then q else p) := by
  rw [List.getElem?_set]
  obtain ⟨hlt, _⟩ := List.getElem?_eq_some_iff.mp hi
  by_cases h : j = i
  · subst h; simp [hlt]
  · simp [h, hi]

/-- Every step looks like one of the above from every connection. -/
theorem step_local {s s' : Clocked} {a : Act} (hk : Keys s.hb.monitors) (h : s.step a = some s') (i : Nat) (p : Peer) (hp : s.peers[i]? = some p) :
    ∃ p' b, s'.peers[i]? = some p' ∧ Local s.hb.timeout s.hb.closeOnLost s.slack i (s.view i p) a (s'.view i p') b ∧
      (∀ t, (t, Eff.lost i) ∈ s'.log ↔ (t, Eff.lost i) ∈ s.log ∨ b = true ∧ t = s.now) ∧
      (∀ t, (t, Eff.close i) ∈ s'.log ↔ (t, Eff.close i) ∈ s.log ∨ b = true ∧ s.hb.closeOnLost = true ∧ t = s.now) := by
  cases a with
  | tick d =>
    simp only [Clocked.step] at h
    split at h
    · rename_i hd
      injection h with h; subst h
      refine ⟨p, false, hp, ?_, by simp, by simp⟩
      exact Local.tick (v := s.view i p) d hd.1 (by
        have := List.all_eq_true.mp hd.2 p (List.mem_of_getElem? hp)
        exact this)
    · cases h
  | accept interval jitter delay first =>
    simp only [Clocked.step] at h
    split at h
    · injection h with h; subst h
      obtain ⟨hlt, _⟩ := List.getElem?_eq_some_iff.mp hp
      refine ⟨p, false, ?_, ?_, by simp, by simp⟩
      · simp only; rw [List.getElem?_append_left hlt]; exact hp
      · have : ∀ hb : HB, last hb.monitors i = last s.hb.monitors i →
            Clocked.view { s with hb := hb, peers := s.peers ++ [⟨interval, jitter, delay, some first, [], false⟩] } i p = s.view i p := by
          intro hb hl; simp [Clocked.view, hl]
        rw [this _ (by simp only [Heartbeat.step]; rw [last_update, if_neg (by omega)])]
        exact Local.other _ rfl
    · cases h
  | send k =>
    simp only [Clocked.step, Option.bind_eq_bind, Option.bind_eq_some_iff] at h
    obtain ⟨q, hq, w, hw, h⟩ := h
    split at h
    · rename_i hwn
      injection h with h; subst h
      refine ⟨_, false, getElem?_set' _ _ _ _ _ hp, ?_, by simp, by simp⟩
      by_cases hki : k = i
      · subst hki
        rw [hq] at hp; injection hp with hp; subst hp
        rw [if_pos rfl]
        exact Local.send (v := s.view k q) w hw hwn
      · rw [if_neg hki]
        exact Local.other (v := s.view i p) _ (by simpa [Act.elsewhere] using hki)
    · cases h
  | receive k =>
    simp only [Clocked.step, Option.bind_eq_bind, Option.bind_eq_some_iff] at h
    obtain ⟨q, hq, h⟩ := h
    split at h
    · cases h
    · rename_i t rest hwire
      injection h with h; subst h
      refine ⟨_, false, getElem?_set' _ _ _ _ _ hp, ?_, by simp, by simp⟩
      by_cases hki : k = i
      · subst hki
        rw [hq] at hp; injection hp with hp; subst hp
        rw [if_pos rfl]
        have := Local.receive (timeout := s.hb.timeout) (closeOnLost := s.hb.closeOnLost) (slack := s.slack) (i := k) (v := s.view k q) t rest hwire
        simpa [Clocked.view, Heartbeat.step, last_update] using this
      · rw [if_neg hki]
        have := Local.other (timeout := s.hb.timeout) (closeOnLost := s.hb.closeOnLost) (slack := s.slack) (i := i) (v := s.view i p) (.receive k) (by simpa [Act.elsewhere] using hki)
        simpa [Clocked.view, Heartbeat.step, last_update, hki] using this
  | die k =>
    simp only [Clocked.step, Option.bind_eq_bind, Option.bind_eq_some_iff] at h
    obtain ⟨q, hq, h⟩ := h
    injection h with h; subst h
    refine ⟨_, false, getElem?_set' _ _ _ _ _ hp, ?_, by simp, by simp⟩
    by_cases hki : k = i
    · subst hki
      rw [hq] at hp; injection hp with hp; subst hp
      rw [if_pos rfl]
      exact Local.die (v := s.view k q)
    · rw [if_neg hki]
      exact Local.other (v := s.view i p) _ (by simpa [Act.elsewhere] using hki)
  | close k =>
    simp only [Clocked.step, Option.bind_eq_bind, Option.bind_eq_some_iff] at h
    obtain ⟨q, hq, h⟩ := h
    injection h with h; subst h
    refine ⟨_, false, getElem?_set' _ _ _ _ _ hp, ?_, by simp, by simp⟩
    by_cases hki : k = i
    · subst hki
      rw [hq] at hp; injection hp with hp; subst hp
      rw [if_pos rfl]
      exact Local.close (v := s.view k q)
    · rw [if_neg hki]
      exact Local.other (v := s.view i p) _ (by simpa [Act.elsewhere] using hki)
  | gone k =>
    simp only [Clocked.step, Option.bind_eq_bind, Option.bind_eq_some_iff] at h
    obtain ⟨q, hq, h⟩ := h
    split at h
    · rename_i hc
      injection h with h; subst h
      refine ⟨p, false, hp, ?_, by simp, by simp⟩
      by_cases hki : k = i
      · subst hki
        rw [hq] at hp; injection hp with hp; subst hp
        have := Local.gone (timeout := s.hb.timeout) (closeOnLost := s.hb.closeOnLost) (slack := s.slack) (i := k) (v := s.view k q) hc
        simpa [Clocked.view, Heartbeat.step, last_remove] using this
      · have := Local.other (timeout := s.hb.timeout) (closeOnLost := s.hb.closeOnLost) (slack := s.slack) (i := i) (v := s.view i p) (.gone k) (by simpa [Act.elsewhere] using hki)
        simpa [Clocked.view, Heartbeat.step, last_remove, hki] using this
    · cases h
  | check order =>
    simp only [Clocked.step] at h
    split at h
    · rename_i hc
      injection h with h; subst h
      obtain ⟨c1, _, c3, c4⟩ := c51_check s.hb hk s.now order (List.isPerm_iff.mp hc.2)
      have hclose : Eff.close i ∈ (Heartbeat.step s.hb s.now (.check order)).2 ↔ s.hb.closeOnLost = true ∧ Eff.lost i ∈ (Heartbeat.step s.hb s.now (.check order)).2 := by
        rw [← List.count_pos_iff, ← List.count_pos_iff, c3 i]
        by_cases hcl : s.hb.closeOnLost = true
        · simp [hcl]
        · simp [hcl]
      by_cases hl : Eff.lost i ∈ (Heartbeat.step s.hb s.now (.check order)).2
      · obtain ⟨u, hu, hlate⟩ := (c1 i).mp hl
        refine ⟨_, true, getElem?_closeAll _ _ _ _ hp, ?_, ?_, ?_⟩
        · have := Local.lost (timeout := s.hb.timeout) (closeOnLost := s.hb.closeOnLost) (slack := s.slack) (i := i) (v := s.view i p) order u hc.1 hu hlate
          have hd : decide (Eff.close i ∈ (Heartbeat.step s.hb s.now (.check order)).2) = s.hb.closeOnLost := by
            by_cases hcl : s.hb.closeOnLost = true
            · rw [hcl, decide_eq_true (hclose.mpr ⟨hcl, hl⟩)]
            · rw [Bool.not_eq_true] at hcl
              rw [hcl]
              exact decide_eq_false (fun hm => by have := (hclose.mp hm).1; rw [hcl] at this; cases this)
          have hlast := c4 i
          rw [if_pos hl] at hlast
          simpa [Clocked.view, hd, hlast] using this
        · intro t
          simp only [List.mem_append, List.mem_map, Prod.mk.injEq, true_and]
          constructor
          · rintro (h | ⟨e, _, rfl, rfl⟩)
            · exact Or.inl h
            · exact Or.inr rfl
          · rintro (h | rfl)
            · exact Or.inl h
            · exact Or.inr ⟨_, hl, rfl, rfl⟩
        · intro t
          simp only [List.mem_append, List.mem_map, Prod.mk.injEq, true_and]
          constructor
          · rintro (h | ⟨e, he, rfl, rfl⟩)
            · exact Or.inl h
            · exact Or.inr ⟨(hclose.mp he).1, rfl⟩
          · rintro (h | ⟨h, rfl⟩)
            · exact Or.inl h
            · exact Or.inr ⟨_, hclose.mpr ⟨h, hl⟩, rfl, rfl⟩
      · have hnc : ¬ Eff.close i ∈ (Heartbeat.step s.hb s.now (.check order)).2 := fun hm => hl (hclose.mp hm).2
        refine ⟨_, false, getElem?_closeAll _ _ _ _ hp, ?_, ?_, ?_⟩
        · have := Local.checked (timeout := s.hb.timeout) (closeOnLost := s.hb.closeOnLost) (slack := s.slack) (i := i) (v := s.view i p) order hc.1
            (fun u hu hlate => hl ((c1 i).mpr ⟨u, hu, hlate⟩))
          have hlast := c4 i
          rw [if_neg hl] at hlast
          simpa [Clocked.view, hnc, hlast] using this
        · intro t
          simp [hl]
        · intro t
          simp [hnc]
    · cases h

/-- What holds in every state. -/
structure Sound (s : Clocked) : Prop where
  keys : Keys s.hb.monitors
  slack : s.now ≤ s.checkAt + s.slack
  period : s.checkAt ≤ s.now + sec
  future : ∀ i, s.peers.length ≤ i → last s.hb.monitors i = none ∧ ∀ t, (t, Eff.lost i) ∉ s.log ∧ (t, Eff.close i) ∉ s.log

theorem length_closeAll (ps : List Peer) (effs : List Eff) : (closeAll ps effs).length = ps.length := by simp [closeAll]

theorem Sound.start (now : Nat) (timeout : Int) (closeOnLost : Bool) (slack : Nat) : Sound (Clocked.start now timeout closeOnLost slack) :=
  ⟨by simp [Clocked.start, Keys], by simp [Clocked.start], by simp [Clocked.start], by simp [Clocked.start, last]⟩

theorem Sound.step {s s' : Clocked} {a : Act} (hs : Sound s) (h : s.step a = some s') : Sound s' := by
  have hk' := step_keys hs.keys h
  obtain ⟨h1, h2, h3, h4⟩ := hs
  cases a with
  | tick d =>
    simp only [Clocked.step] at h
    split at h
    · rename_i hd
      injection h with h; subst h; exact ⟨hk', hd.1, by simp only; omega, h4⟩
    · cases h
  | accept interval jitter delay first =>
    simp only [Clocked.step] at h
    split at h
    · injection h with h; subst h
      refine ⟨hk', h2, h3, ?_⟩
      intro i hi
      simp only [List.length_append, List.length_singleton] at hi
      refine ⟨?_, (h4 i (by omega)).2⟩
      simp only [Heartbeat.step]
      rw [last_update, if_neg (by omega)]
      exact (h4 i (by omega)).1
    · cases h
  | send k =>
    simp only [Clocked.step, Option.bind_eq_bind, Option.bind_eq_some_iff] at h
    obtain ⟨q, hq, w, hw, h⟩ := h
    split at h
    · injection h with h; subst h
      exact ⟨hk', h2, h3, by simpa using h4⟩
    · cases h
  | receive k =>
    simp only [Clocked.step, Option.bind_eq_bind, Option.bind_eq_some_iff] at h
    obtain ⟨q, hq, h⟩ := h
    obtain ⟨hlt, _⟩ := List.getElem?_eq_some_iff.mp hq
    split at h
    · cases h
    · injection h with h; subst h
      refine ⟨hk', h2, h3, ?_⟩
      intro i hi
      simp only [List.length_set] at hi
      refine ⟨?_, (h4 i hi).2⟩
      simp only [Heartbeat.step]
      rw [last_update, if_neg (by omega)]
      exact (h4 i hi).1
  | die k =>
    simp only [Clocked.step, Option.bind_eq_bind, Option.bind_eq_some_iff] at h
    obtain ⟨q, hq, h⟩ := h
    injection h with h; subst h
    exact ⟨hk', h2, h3, by simpa using h4⟩
  | close k =>
    simp only [Clocked.step, Option.bind_eq_bind, Option.bind_eq_some_iff] at h
    obtain ⟨q, hq, h⟩ := h
    injection h with h; subst h
    exact ⟨hk', h2, h3, by simpa using h4⟩
  | gone k =>
    simp only [Clocked.step, Option.bind_eq_bind, Option.bind_eq_some_iff] at h
    obtain ⟨q, hq, h⟩ := h
    split at h
    · injection h with h; subst h
      refine ⟨hk', h2, h3, ?_⟩
      intro i hi
      refine ⟨?_, (h4 i hi).2⟩
      simp only [Heartbeat.step]
      rw [last_remove]
      split
      · rfl
      · exact (h4 i hi).1
    · cases h
  | check order =>
    simp only [Clocked.step] at h
    split at h
    · rename_i hc
      injection h with h; subst h
      obtain ⟨c1, _, c3, c4⟩ := c51_check s.hb h1 s.now order (List.isPerm_iff.mp hc.2)
      refine ⟨hk', by simp only [sec]; omega, by simp only [sec]; omega, ?_⟩
      intro i hi
      simp only [length_closeAll] at hi
      obtain ⟨f1, f2⟩ := h4 i hi
      have hnl : Eff.lost i ∉ (Heartbeat.step s.hb s.now (.check order)).2 := by
        rw [c1]; rintro ⟨u, hu, _⟩; rw [f1] at hu; cases hu
      have hnc : Eff.close i ∉ (Heartbeat.step s.hb s.now (.check order)).2 := by
        rw [← List.count_eq_zero, c3 i, List.count_eq_zero.mpr hnl]; simp
      refine ⟨by rw [c4, if_neg hnl]; exact f1, ?_⟩
      intro t
      simp [f2, hnl, hnc]
    · cases h

/-- The connection just accepted. -/
theorem accept_view {s s' : Clocked} {interval jitter delay first : Nat} (h : s.step (.accept interval jitter delay first) = some s') :
    s'.peers.length = s.peers.length + 1 ∧ s'.peers[s.peers.length]? = some ⟨interval, jitter, delay, some first, [], false⟩ ∧
    last s'.hb.monitors s.peers.length = some s.now ∧ s'.now = s.now ∧ s'.checkAt = s.checkAt ∧ first ≤ s.now + interval ∧ s.now ≤ first + jitter := by
  simp only [Clocked.step] at h
  split at h
  · rename_i hc
    injection h with h; subst h
    exact ⟨by simp, by simp, by simp [Heartbeat.step, last_update], rfl, rfl, hc.1, hc.2⟩
  · cases h

theorem step_length {s s' : Clocked} {a : Act} (h : s.step a = some s') (ha : ∀ w x y z, a ≠ .accept w x y z) : s'.peers.length = s.peers.length := by
  cases a with
  | tick d =>
    simp only [Clocked.step] at h
    split at h
    · injection h with h; subst h; rfl
    · cases h
  | accept interval jitter delay first => exact absurd rfl (ha _ _ _ _)
  | send i =>
    simp only [Clocked.step, Option.bind_eq_bind, Option.bind_eq_some_iff] at h
    obtain ⟨p, _, w, _, h⟩ := h
    split at h
    · injection h with h; subst h; simp
    · cases h
  | receive i =>
    simp only [Clocked.step, Option.bind_eq_bind, Option.bind_eq_some_iff] at h
    obtain ⟨p, _, h⟩ := h
    split at h
    · cases h
    · injection h with h; subst h; simp
  | die i =>
    simp only [Clocked.step, Option.bind_eq_bind, Option.bind_eq_some_iff] at h
    obtain ⟨p, _, h⟩ := h
    injection h with h; subst h; simp
  | close i =>
    simp only [Clocked.step, Option.bind_eq_bind, Option.bind_eq_some_iff] at h
    obtain ⟨p, _, h⟩ := h
    injection h with h; subst h; simp
  | gone i =>
    simp only [Clocked.step, Option.bind_eq_bind, Option.bind_eq_some_iff] at h
    obtain ⟨p, _, h⟩ := h
    split at h
    · injection h with h; subst h; rfl
    · cases h
  | check order =>
    simp only [Clocked.step] at h
    split at h
    · injection h with h; subst h; exact length_closeAll _ _
    · cases h

/-- An invariant of one connection, from what accepting establishes and every local step keeps. -/
theorem conn_invariant (timeout : Int) (closeOnLost : Bool) (slack i : Nat) (Inv : View → Prop) (ok : Act → Prop)
    (hacc : ∀ now checkAt interval jitter delay first, now ≤ checkAt + slack → checkAt ≤ now + sec → first ≤ now + interval → now ≤ first + jitter →
      Inv ⟨now, checkAt, ⟨interval, jitter, delay, some first, [], false⟩, some now⟩)
    (hstep : ∀ v a v' b, Inv v → ok a → Local timeout closeOnLost slack i v a v' b → Inv v')
    (start : Nat) (ls : List Act) : ∀ s, exec Clocked.step (Clocked.start start timeout closeOnLost slack) ls = some s → (∀ a ∈ ls, ok a) →
    Sound s ∧ s.hb.timeout = timeout ∧ s.hb.closeOnLost = closeOnLost ∧ s.slack = slack ∧ ∀ p, s.peers[i]? = some p → Inv (s.view i p) := by
  refine snoc_induction (P := fun ls => ∀ s, exec Clocked.step (Clocked.start start timeout closeOnLost slack) ls = some s → (∀ a ∈ ls, ok a) →
    Sound s ∧ s.hb.timeout = timeout ∧ s.hb.closeOnLost = closeOnLost ∧ s.slack = slack ∧ ∀ p, s.peers[i]? = some p → Inv (s.view i p)) ?_ ?_ ls
  · intro s h _
    injection h with h; subst h
    exact ⟨Sound.start _ _ _ _, rfl, rfl, rfl, by simp [Clocked.start]⟩
  · intro ls a ih s h hok
    obtain ⟨m, hm, hms⟩ := exec_snoc h
    obtain ⟨hS, h1, h2, h3, hI⟩ := ih m hm (fun a ha => hok a (List.mem_append_left _ ha))
    obtain ⟨c1, c2, c3, c4⟩ := step_conf hms
    refine ⟨hS.step hms, c1.trans h1, c2.trans h2, c3.trans h3, ?_⟩
    intro p hp
    cases hmi : m.peers[i]? with
    | some q =>
      obtain ⟨p', b, hp', hL, _⟩ := step_local hS.keys hms i q hmi
      rw [hp] at hp'; injection hp' with hp'; subst hp'
      rw [h1, h2, h3] at hL
      exact hstep _ _ _ _ (hI q hmi) (hok a (by simp)) hL
    | none =>
      rw [List.getElem?_eq_none_iff] at hmi
      obtain ⟨hlt, _⟩ := List.getElem?_eq_some_iff.mp hp
      cases a with
      | accept interval jitter delay first =>
        obtain ⟨a1, a2, a3, a4, a5, a6, a7⟩ := accept_view hms
        have hi : i = m.peers.length := by omega
        subst hi
        rw [hp] at a2; injection a2 with a2; subst a2
        have := hacc m.now m.checkAt interval jitter delay first (by have := hS.slack; omega) hS.period a6 a7
        simpa [Clocked.view, a3, a4, a5] using this
      | _ => exact absurd (step_length hms (by intros; simp)) (by omega)

/-! ## Timely heartbeats -/

/-- Counting from time `h`, the heartbeats on the way were sent at most `g` apart, and the next will be ready at `w`. -/
def Chained (interval g : Nat) (h : Nat) : List Nat → Nat → Prop
  | [], w => w ≤ h + interval
  | t :: ts, w => t ≤ h + g ∧ Chained interval g t ts w

theorem Chained.mono {interval g h h' : Nat} {ts : List Nat} {w : Nat} (hle : h ≤ h') (hc : Chained interval g h ts w) : Chained interval g h' ts w := by
  cases ts with
  | nil => simp only [Chained] at *; omega
  | cons t ts => exact ⟨by have := hc.1; omega, hc.2⟩

theorem Chained.snoc {interval jitter n : Nat} (ts : List Nat) : ∀ {h w : Nat}, Chained interval (interval + jitter) h ts w → n ≤ w + jitter →
    Chained interval (interval + jitter) h (ts ++ [n]) (n + interval) := by
  induction ts with
  | nil => intro h w hc hn; simp only [Chained, List.nil_append] at *; omega
  | cons t ts ih => intro h w hc hn; exact ⟨hc.1, ih hc.2 hn⟩

/-- Well-formed views. -/
structure View.Sane (v : View) : Prop where
  due : v.peer.due v.now = true
  sent : ∀ t ∈ v.peer.wire, t ≤ v.now
  order : v.peer.wire.Pairwise (· ≤ ·)
  heard : ∀ u, v.silent = some u → u ≤ v.now

theorem Peer.due_wake {p : Peer} {t w : Nat} (h : p.due t = true) (hw : p.wake = some w) : t ≤ w + p.jitter := by
  simp only [Peer.due, hw, Bool.and_eq_true, decide_eq_true_eq] at h
  exact h.1

theorem Peer.due_wire {p : Peer} {t x : Nat} {xs : List Nat} (h : p.due t = true) (hw : p.wire = x :: xs) : t ≤ x + p.delay := by
  simp only [Peer.due, hw, Bool.and_eq_true, decide_eq_true_eq] at h
  exact h.2

theorem Peer.due_of {p : Peer} {t : Nat} (h1 : ∀ w, p.wake = some w → t ≤ w + p.jitter) (h2 : ∀ x xs, p.wire = x :: xs → t ≤ x + p.delay) : p.due t = true := by
  rw [Peer.due, Bool.and_eq_true]
  constructor
  · cases hw : p.wake with
    | none => rfl
    | some w => simpa using h1 w hw
  · cases hw : p.wire with
    | nil => rfl
    | cons x xs => simpa using h2 x xs hw

theorem Sane.local {timeout : Int} {closeOnLost : Bool} {slack i : Nat} {v v' : View} {a : Act} {b : Bool} (h : v.Sane) (hl : Local timeout closeOnLost slack i v a v' b) :
    v'.Sane := by
  obtain ⟨h1, h2, h3, h4⟩ := h
  cases hl with
  | tick d hd hdue => exact ⟨hdue, fun t ht => Nat.le_trans (h2 t ht) (Nat.le_add_right _ _), h3, fun u hu => Nat.le_trans (h4 u hu) (Nat.le_add_right _ _)⟩
  | send w hw hn =>
    refine ⟨?_, ?_, ?_, h4⟩
    · refine Peer.due_of ?_ ?_
      · intro w hw; simp only [Option.some.injEq] at hw; subst hw; simp only; omega
      · intro x xs hx
        simp only at hx ⊢
        cases hwire : v.peer.wire with
        | nil => rw [hwire] at hx; injection hx with hx; omega
        | cons y ys =>
          rw [hwire] at hx; injection hx with hx; subst hx
          exact Peer.due_wire h1 hwire
    · intro t ht
      simp only [List.mem_append, List.mem_singleton] at ht
      rcases ht with ht | rfl
      · exact h2 t ht
      · exact Nat.le_refl _
    · simp only
      rw [List.pairwise_append]
      exact ⟨h3, by simp, by intro x hx y hy; rw [List.mem_singleton] at hy; subst hy; exact h2 x hx⟩
  | receive t rest hw =>
    refine ⟨?_, ?_, ?_, ?_⟩
    · refine Peer.due_of (fun w hw => Peer.due_wake (p := v.peer) h1 hw) ?_
      intro x xs hx
      simp only at hx ⊢
      have := Peer.due_wire h1 hw
      rw [hw, List.pairwise_cons] at h3
      have := h3.1 x (by rw [hx]; simp)
      omega
    · intro x hx; exact h2 x (by rw [hw]; exact List.mem_cons_of_mem _ hx)
    · rw [hw, List.pairwise_cons] at h3; exact h3.2
    · intro u hu; injection hu with hu; subst hu; exact Nat.le_refl _
  | die => exact ⟨Peer.due_of (fun w hw => by cases hw) (fun x xs hx => by cases hx), by simp, by simp, h4⟩
  | close => exact ⟨h1, h2, h3, h4⟩
  | gone hc => exact ⟨h1, h2, h3, by simp⟩
  | lost order u hc hu hlate => exact ⟨h1, h2, h3, by simp⟩
  | checked order hc hn => exact ⟨h1, h2, h3, h4⟩
  | other a ha => exact ⟨h1, h2, h3, h4⟩

theorem Sane.accept (now checkAt interval jitter delay first : Nat) (h : now ≤ first + jitter) :
    View.Sane ⟨now, checkAt, ⟨interval, jitter, delay, some first, [], false⟩, some now⟩ :=
  ⟨Peer.due_of (fun w hw => by injection hw with hw; subst hw; exact h) (fun x xs hx => by cases hx), by simp, by simp,
    fun u hu => by injection hu with hu; subst hu; exact Nat.le_refl _⟩

/-- Some heartbeat (or the beginning) was at `h`; the rest follows in time; if the connection is watched, then since `h`. -/
def Alive (v : View) : Prop :=
  v.Sane ∧ ∃ h w, h ≤ v.now ∧ v.peer.wake = some w ∧ Chained v.peer.interval (v.peer.interval + v.peer.jitter) h v.peer.wire w ∧ ∀ u, v.silent = some u → u = h

theorem Alive.accept (now checkAt interval jitter delay first : Nat) (h : now ≤ first + jitter) (h' : first ≤ now + interval) :
    Alive ⟨now, checkAt, ⟨interval, jitter, delay, some first, [], false⟩, some now⟩ :=
  ⟨Sane.accept _ _ _ _ _ _ h, now, first, Nat.le_refl _, rfl, h', fun u hu => by injection hu with hu; exact hu.symm⟩

theorem Alive.local {timeout : Int} {closeOnLost : Bool} {slack i : Nat} {v v' : View} {a : Act} {b : Bool} (h : Alive v) (ha : a ≠ .die i)
    (hl : Local timeout closeOnLost slack i v a v' b) : Alive v' := by
  obtain ⟨hs, h0, w, hle, hw, hc, hu⟩ := h
  refine ⟨Sane.local hs hl, ?_⟩
  cases hl with
  | tick d hd hdue => exact ⟨h0, w, Nat.le_trans hle (Nat.le_add_right _ _), hw, hc, hu⟩
  | send w' hw' hn =>
    rw [hw] at hw'; injection hw' with hw'; subst hw'
    exact ⟨h0, _, hle, rfl, Chained.snoc _ hc (Peer.due_wake (p := v.peer) hs.due hw), hu⟩
  | receive t rest hwire =>
    rw [hwire] at hc
    have := hs.sent t (by rw [hwire]; simp)
    exact ⟨v.now, w, Nat.le_refl _, hw, hc.2.mono this, fun u hu => by injection hu with hu; exact hu.symm⟩
  | die => exact absurd rfl ha
  | close => exact ⟨h0, w, hle, hw, hc, hu⟩
  | gone hcl => exact ⟨h0, w, hle, hw, hc, by simp⟩
  | lost order u hck hu hlate => exact ⟨h0, w, hle, hw, hc, by simp⟩
  | checked order hck hn => exact ⟨h0, w, hle, hw, hc, hu⟩
  | other a ha => exact ⟨h0, w, hle, hw, hc, hu⟩

/-- A peer that is alive has been silent at most for interval, jitter and delay together. -/
theorem Alive.bound {v : View} (h : Alive v) (u : Nat) (hu : v.silent = some u) : v.now ≤ u + (v.peer.interval + v.peer.jitter + v.peer.delay) := by
  obtain ⟨hs, h0, w, hle, hw, hc, hl⟩ := h
  rw [hl u hu]
  cases hwire : v.peer.wire with
  | nil =>
    rw [hwire] at hc
    have := Peer.due_wake hs.due hw
    simp only [Chained] at hc
    omega
  | cons t ts =>
    rw [hwire] at hc
    have := Peer.due_wire hs.due hwire
    have := hc.1
    omega

theorem late_iff (timeout : Int) (now u : Nat) : Late timeout now u ↔ timeout * (sec : Int) ≤ ((now - u : Nat) : Int) := by
  rw [Late, sec, Int.natCast_ediv, Int.le_ediv_iff_mul_le (by decide)]

theorem Local.conf {timeout : Int} {closeOnLost : Bool} {slack i : Nat} {v v' : View} {a : Act} {b : Bool} (hl : Local timeout closeOnLost slack i v a v' b) :
    v'.peer.interval = v.peer.interval ∧ v'.peer.jitter = v.peer.jitter ∧ v'.peer.delay = v.peer.delay := by
  cases hl <;> exact ⟨rfl, rfl, rfl⟩

/-- C78: if interval, jitter and delay of a peer together are less than the timeout, then the peer is never declared lost and its connection
never closed by the Heartbeat as long as it lives, in every execution, whatever the other peers do. -/
theorem c78_never_lost (start : Nat) (timeout : Int) (closeOnLost : Bool) (slack : Nat) (ls : List Act) (s : Clocked)
    (h : exec Clocked.step (Clocked.start start timeout closeOnLost slack) ls = some s) (i : Nat) (p : Peer) (hp : s.peers[i]? = some p)
    (hlive : .die i ∉ ls) (hin : ((p.interval + p.jitter + p.delay : Nat) : Int) < timeout * (sec : Int)) :
    ∀ t, (t, Eff.lost i) ∉ s.log ∧ (t, Eff.close i) ∉ s.log := by
  refine (snoc_induction (P := fun ls => .die i ∉ ls → ∀ s, exec Clocked.step (Clocked.start start timeout closeOnLost slack) ls = some s → ∀ p, s.peers[i]? = some p →
    ((p.interval + p.jitter + p.delay : Nat) : Int) < timeout * (sec : Int) → ∀ t, (t, Eff.lost i) ∉ s.log ∧ (t, Eff.close i) ∉ s.log) ?_ ?_ ls) hlive s h p hp hin
  · intro _ s h p hp _
    injection h with h; subst h
    simp [Clocked.start] at hp
  · intro ls a ih hd s h p hp hin
    obtain ⟨m, hm, hms⟩ := exec_snoc h
    have hd' : .die i ∉ ls := fun hx => hd (List.mem_append_left _ hx)
    obtain ⟨hS, h1, h2, h3, hI⟩ := conn_invariant timeout closeOnLost slack i Alive (fun a => a ≠ .die i)
      (fun now ck iv j d f _ _ h5 h6 => Alive.accept now ck iv j d f h6 h5) (fun v a v' b hv ha hl => Alive.local hv ha hl) start ls m hm
      (fun a ha e => hd' (e ▸ ha))
    cases hmi : m.peers[i]? with
    | none =>
      rw [List.getElem?_eq_none_iff] at hmi
      obtain ⟨hlt, _⟩ := List.getElem?_eq_some_iff.mp hp
      cases a with
      | accept interval jitter delay first =>
        simp only [Clocked.step] at hms
        split at hms
        · injection hms with hms; subst hms
          exact (hS.future i hmi).2
        · cases hms
      | _ => exact absurd (step_length hms (by intros; simp)) (by omega)
    | some q =>
      obtain ⟨p', b, hp', hL, hlost, hclose⟩ := step_local hS.keys hms i q hmi
      rw [hp] at hp'; injection hp' with hp'; subst hp'
      obtain ⟨e1, e2, e3⟩ := hL.conf
      simp only [Clocked.view] at e1 e2 e3
      have hb : b = false := by
        rw [h1, h2, h3] at hL
        have hA := hI q hmi
        have f1 : (m.view i q).peer = q := rfl
        generalize m.view i q = v at hL hA f1
        generalize s.view i p = v' at hL
        cases hL with
        | lost order u hck hu hlate =>
          have := hA.bound u hu
          rw [late_iff] at hlate
          rw [f1] at this
          omega
        | _ => rfl
      subst hb
      intro t
      obtain ⟨i1, i2⟩ := ih hd' m hm q hmi (by rw [← e1, ← e2, ← e3]; exact hin) t
      refine ⟨?_, ?_⟩
      · rw [hlost]; simpa using i1
      · rw [hclose]; simpa using i2

/-! ## Detection -/

/-- At the last check (one second before the next) the connection was not late, or it was heard of after that. -/
def Watched (timeout : Int) (slack : Nat) (v : View) : Prop :=
  v.now ≤ v.checkAt + slack ∧ v.checkAt ≤ v.now + sec ∧ ∀ u, v.silent = some u → u ≤ v.now ∧ (v.checkAt ≤ u + sec ∨ ((v.checkAt : Int) < u + sec + timeout * (sec : Int)))

theorem Watched.local {timeout : Int} {closeOnLost : Bool} {slack i : Nat} {v v' : View} {a : Act} {b : Bool} (h : Watched timeout slack v)
    (hl : Local timeout closeOnLost slack i v a v' b) : Watched timeout slack v' := by
  obtain ⟨h1, h2, h3⟩ := h
  cases hl with
  | tick d hd hdue => exact ⟨hd, by simp only; omega, fun u hu => by have := h3 u hu; simp only; omega⟩
  | send w' hw' hn => exact ⟨h1, h2, h3⟩
  | receive t rest hwire =>
    refine ⟨h1, h2, ?_⟩
    intro u hu
    injection hu with hu; subst hu
    exact ⟨Nat.le_refl _, Or.inl h2⟩
  | die => exact ⟨h1, h2, h3⟩
  | close => exact ⟨h1, h2, h3⟩
  | gone hcl => exact ⟨h1, h2, by simp⟩
  | lost order u hck hu hlate => exact ⟨by simp only [sec]; omega, by simp only; omega, by simp⟩
  | checked order hck hn =>
    refine ⟨by simp only [sec]; omega, by simp only; omega, ?_⟩
    intro u hu
    have := h3 u hu
    have hn := hn u hu
    rw [late_iff] at hn
    simp only [sec] at *
    omega
  | other a ha => exact ⟨h1, h2, h3⟩

/-- No connection is watched for longer than the timeout, a second and the slack of the checks after its last heartbeat. -/
theorem Watched.bound {timeout : Int} {slack : Nat} {v : View} (h : Watched timeout slack v) (u : Nat) (hu : v.silent = some u) (ht : 0 ≤ timeout) :
    (v.now : Int) ≤ u + timeout * (sec : Int) + sec + slack := by
  obtain ⟨h1, h2, h3⟩ := h
  have := h3 u hu
  have : 0 ≤ timeout * (sec : Int) := Int.mul_nonneg ht (by decide)
  simp only [sec] at *
  omega

theorem Watched.accept (timeout : Int) (slack now checkAt interval jitter delay first : Nat) (h1 : now ≤ checkAt + slack) (h2 : checkAt ≤ now + sec) :
    Watched timeout slack ⟨now, checkAt, ⟨interval, jitter, delay, some first, [], false⟩, some now⟩ :=
  ⟨h1, h2, fun u hu => by injection hu with hu; subst hu; exact ⟨Nat.le_refl _, Or.inl h2⟩⟩

/-- From here on: watched since `u`, or declared lost in time. -/
theorem detect_step {s s' : Clocked} {a : Act} (hS : Sound s) (h : s.step a = some s') (i : Nat) (p : Peer) (hp : s.peers[i]? = some p)
    (u : Nat) (ht : 0 ≤ s.hb.timeout) (hW : Watched s.hb.timeout s.slack (s.view i p)) (hu : last s.hb.monitors i = some u)
    (h1 : a ≠ .receive i) (h2 : a ≠ .gone i) :
    last s'.hb.monitors i = some u ∨
    (s.now, Eff.lost i) ∈ s'.log ∧ u + s.hb.timeout * (sec : Int) ≤ s.now ∧ (s.now : Int) ≤ u + s.hb.timeout * (sec : Int) + sec + s.slack := by
  obtain ⟨p', b, hp', hL, hlost, hclose⟩ := step_local hS.keys h i p hp
  have hb := hW.bound u hu ht
  have hle := (hW.2.2 u hu).1
  simp only [Clocked.view] at hb hle
  generalize hv : s.view i p = v at hL
  generalize hv' : s'.view i p' = v' at hL
  have e1 : last s.hb.monitors i = v.silent := by rw [← hv]; rfl
  have e2 : last s'.hb.monitors i = v'.silent := by rw [← hv']; rfl
  have e3 : v.now = s.now := by rw [← hv]; rfl
  cases hL with
  | receive t rest hw => exact absurd rfl h1
  | gone hc => exact absurd rfl h2
  | lost order u' hck hu' hlate =>
    right
    rw [← e1, hu] at hu'
    injection hu' with hu'; subst hu'
    refine ⟨(hlost _).mpr (Or.inr ⟨rfl, rfl⟩), ?_, hb⟩
    rw [late_iff, e3] at hlate
    omega
  | _ => left; rw [e2]; exact e1.symm.trans hu

/-- C78: a watched connection from which nothing more is received is declared lost between the timeout and a second (and the slack
of the check goroutine) later, unless somebody else closes it.  Every execution. -/
theorem c78_detected (start : Nat) (timeout : Int) (closeOnLost : Bool) (slack : Nat) (ht : 0 ≤ timeout) (pre post : List Act) (m s : Clocked)
    (hm : exec Clocked.step (Clocked.start start timeout closeOnLost slack) pre = some m) (hs : exec Clocked.step m post = some s) (i u : Nat)
    (hu : last m.hb.monitors i = some u) (hr : .receive i ∉ post) (hg : .gone i ∉ post)
    (hnow : u + timeout * (sec : Int) + sec + slack < s.now) :
    ∃ t, (t, Eff.lost i) ∈ s.log ∧ u + timeout * (sec : Int) ≤ t ∧ (t : Int) ≤ u + timeout * (sec : Int) + sec + slack := by
  have inv : ∀ ls s, exec Clocked.step (Clocked.start start timeout closeOnLost slack) ls = some s →
      Sound s ∧ s.hb.timeout = timeout ∧ s.hb.closeOnLost = closeOnLost ∧ s.slack = slack ∧ ∀ p, s.peers[i]? = some p → Watched timeout slack (s.view i p) := by
    intro ls s h
    exact conn_invariant timeout closeOnLost slack i (Watched timeout slack) (fun _ => True)
      (fun now ck iv j d f h1 h2 _ _ => Watched.accept timeout slack now ck iv j d f h1 h2) (fun v a v' b hv _ hl => hv.local hl) start ls s h (fun _ _ => trivial)
  have key : last s.hb.monitors i = some u ∨
      ∃ t, (t, Eff.lost i) ∈ s.log ∧ u + timeout * (sec : Int) ≤ t ∧ (t : Int) ≤ u + timeout * (sec : Int) + sec + slack := by
    clear hnow
    refine snoc_induction (P := fun post => .receive i ∉ post → .gone i ∉ post → ∀ s, exec Clocked.step m post = some s → last s.hb.monitors i = some u ∨
      ∃ t, (t, Eff.lost i) ∈ s.log ∧ u + timeout * (sec : Int) ≤ t ∧ (t : Int) ≤ u + timeout * (sec : Int) + sec + slack) ?_ ?_ post hr hg s hs
    · intro _ _ s h; injection h with h; subst h; exact Or.inl hu
    · intro post a ih hr hg s h
      obtain ⟨k, hk, hks⟩ := exec_snoc h
      rcases ih (fun hx => hr (List.mem_append_left _ hx)) (fun hx => hg (List.mem_append_left _ hx)) k hk with hl | ⟨t, ht1, ht2⟩
      · obtain ⟨hS, e1, e2, e3, hW⟩ := inv (pre ++ post) k (by rw [exec_append, hm]; exact hk)
        have hlt : i < k.peers.length := by
          rcases Nat.lt_or_ge i k.peers.length with h | h
          · exact h
          · have := (hS.future i h).1; rw [hl] at this; cases this
        have hp : k.peers[i]? = some k.peers[i] := List.getElem?_eq_getElem hlt
        rcases detect_step hS hks i _ hp u (by rw [e1]; exact ht) (by rw [e1, e3]; exact hW _ hp) hl
          (fun e => hr (by rw [e]; simp)) (fun e => hg (by rw [e]; simp)) with h | ⟨h1, h2, h3⟩
        · exact Or.inl h
        · rw [e1] at h2 h3; rw [e3] at h3; exact Or.inr ⟨_, h1, h2, h3⟩
      · obtain ⟨l, hl⟩ := step_log hks
        exact Or.inr ⟨t, by rw [hl]; exact List.mem_append_left _ ht1, ht2⟩
  rcases key with hl | h
  · exfalso
    obtain ⟨hS, e1, e2, e3, hW⟩ := inv (pre ++ post) s (by rw [exec_append, hm]; exact hs)
    have hlt : i < s.peers.length := by
      rcases Nat.lt_or_ge i s.peers.length with h | h
      · exact h
      · have := (hS.future i h).1; rw [hl] at this; cases this
    have := (hW _ (List.getElem?_eq_getElem hlt)).bound u hl ht
    simp only [Clocked.view] at this
    omega
  · exact h

/-! ## Heartbeats too far apart -/

/-- With a delay shorter than the interval there is at most one heartbeat on the way, and the next is ready an interval after it. -/
def Sparse (v : View) : Prop :=
  v.Sane ∧ (v.peer.delay < v.peer.interval → v.peer.wire = [] ∨ ∃ t, v.peer.wire = [t] ∧ ∀ w, v.peer.wake = some w → w = t + v.peer.interval)

theorem Sparse.local {timeout : Int} {closeOnLost : Bool} {slack i : Nat} {v v' : View} {a : Act} {b : Bool} (h : Sparse v)
    (hl : Local timeout closeOnLost slack i v a v' b) : Sparse v' := by
  refine ⟨Sane.local h.1 hl, ?_⟩
  have hs := h.1
  have h2 := h.2
  clear h
  cases hl with
  | tick d hd hdue => exact h2
  | send w hw hn =>
    intro hd
    rcases h2 hd with he | ⟨t, ht, hwt⟩
    · exact Or.inr ⟨v.now, by simp [he], fun w hw => by injection hw with hw; exact hw.symm⟩
    · exfalso
      have h1 := hwt w hw
      have h3 := Peer.due_wire hs.due ht
      simp only at hd
      omega
  | receive t rest hw =>
    intro hd
    rcases h2 hd with he | ⟨t', ht, hwt⟩
    · rw [hw] at he; cases he
    · rw [hw] at ht; injection ht with _ ht; exact Or.inl ht
  | die => intro _; exact Or.inl rfl
  | close => exact h2
  | gone hc => exact h2
  | lost order u hc hu hlate => exact h2
  | checked order hc hn => exact h2
  | other a ha => exact h2

/-- C78: if a peer's interval exceeds timeout, check period, slack and delay together, then after every heartbeat received on an open connection
the connection is declared lost before the next, although the peer is alive and punctual.  Every execution. -/
theorem c78_always_lost (start : Nat) (timeout : Int) (closeOnLost : Bool) (slack : Nat) (ht : 0 ≤ timeout) (pre post : List Act) (m s : Clocked)
    (hm : exec Clocked.step (Clocked.start start timeout closeOnLost slack) pre = some m) (i : Nat) (p : Peer) (hp : m.peers[i]? = some p)
    (hopen : p.closed = false) (hs : exec Clocked.step m (.receive i :: post) = some s) (hc : .close i ∉ post)
    (hfar : timeout * (sec : Int) + sec + slack + p.delay < p.interval)
    (hnow : m.now + timeout * (sec : Int) + sec + slack < s.now) :
    ∃ t, (t, Eff.lost i) ∈ s.log ∧ m.now + timeout * (sec : Int) ≤ t ∧ (t : Int) ≤ m.now + timeout * (sec : Int) + sec + slack := by
  have hT : 0 ≤ timeout * (sec : Int) := Int.mul_nonneg ht (by decide)
  have inv : ∀ ls s, exec Clocked.step (Clocked.start start timeout closeOnLost slack) ls = some s →
      Sound s ∧ s.hb.timeout = timeout ∧ s.hb.closeOnLost = closeOnLost ∧ s.slack = slack ∧
      ∀ p, s.peers[i]? = some p → Watched timeout slack (s.view i p) ∧ Sparse (s.view i p) := by
    intro ls s h
    exact conn_invariant timeout closeOnLost slack i (fun v => Watched timeout slack v ∧ Sparse v) (fun _ => True)
      (fun now ck iv j d f h1 h2 h3 h4 => ⟨Watched.accept timeout slack now ck iv j d f h1 h2, Sane.accept _ _ _ _ _ _ h4, fun _ => Or.inl rfl⟩)
      (fun v a v' b hv _ hl => ⟨hv.1.local hl, hv.2.local hl⟩) start ls s h (fun _ _ => trivial)
  obtain ⟨m1, hm1, hs⟩ := exec_cons hs
  obtain ⟨hSm, a1, a2, a3, hIm⟩ := inv pre m hm
  have hd : p.delay < p.interval := by simp only [sec] at hfar; omega
  -- just after the heartbeat
  have hstart : ∃ p1, m1.peers[i]? = some p1 ∧ p1.closed = false ∧ p1.interval = p.interval ∧ p1.delay = p.delay ∧ last m1.hb.monitors i = some m.now ∧
      p1.wire = [] ∧ ∀ w, p1.wake = some w → m.now + p.interval ≤ w + p.delay := by
    obtain ⟨p1, b, hp1, hL, _⟩ := step_local hSm.keys hm1 i p hp
    obtain ⟨_, hsane, hsp⟩ := hIm p hp
    generalize hv : m.view i p = v at hL hsane hsp
    generalize hv' : m1.view i p1 = v' at hL
    have e1 : v.peer = p := by rw [← hv]; rfl
    have e2 : v'.peer = p1 := by rw [← hv']; rfl
    have e3 : v.now = m.now := by rw [← hv]; rfl
    have e4 : v'.silent = last m1.hb.monitors i := by rw [← hv']; rfl
    cases hL with
    | receive t rest hw =>
      refine ⟨p1, hp1, ?_⟩
      rw [← e2, ← e4, ← e3]
      rcases hsp (by rw [e1]; exact hd) with he | ⟨t', ht', hwt⟩
      · rw [hw] at he; cases he
      · rw [hw] at ht'
        injection ht' with h5 h6
        subst h5; subst h6
        refine ⟨by simp only [e1]; exact hopen, by simp only [e1], by simp only [e1], rfl, rfl, ?_⟩
        intro w hw'
        have h7 := hwt w hw'
        have h8 := Peer.due_wire hsane.due hw
        rw [e1] at h7 h8
        omega
    | other a ha => simp [Act.elsewhere] at ha
  -- as long as it is not declared lost
  have key : (∃ q, s.peers[i]? = some q ∧ q.closed = false ∧ q.interval = p.interval ∧ q.delay = p.delay ∧ last s.hb.monitors i = some m.now ∧
      q.wire = [] ∧ ∀ w, q.wake = some w → m.now + p.interval ≤ w + p.delay) ∨
      ∃ t, (t, Eff.lost i) ∈ s.log ∧ m.now + timeout * (sec : Int) ≤ t ∧ (t : Int) ≤ m.now + timeout * (sec : Int) + sec + slack := by
    clear hnow
    refine snoc_induction (P := fun post => .close i ∉ post → ∀ s, exec Clocked.step m1 post = some s → (∃ q, s.peers[i]? = some q ∧ q.closed = false ∧
      q.interval = p.interval ∧ q.delay = p.delay ∧ last s.hb.monitors i = some m.now ∧ q.wire = [] ∧ ∀ w, q.wake = some w → m.now + p.interval ≤ w + p.delay) ∨
      ∃ t, (t, Eff.lost i) ∈ s.log ∧ m.now + timeout * (sec : Int) ≤ t ∧ (t : Int) ≤ m.now + timeout * (sec : Int) + sec + slack) ?_ ?_ post hc s hs
    · intro _ s h; injection h with h; subst h; exact Or.inl hstart
    · intro post a ih hc s h
      obtain ⟨k, hk, hks⟩ := exec_snoc h
      rcases ih (fun hx => hc (List.mem_append_left _ hx)) k hk with ⟨q, hq, hqc, hqi, hqd, hl, hwire, hwake⟩ | ⟨t, ht1, ht2⟩
      · obtain ⟨hS, e1, e2, e3, hI⟩ := inv (pre ++ .receive i :: post) k (by
          rw [exec_append, hm]; show exec Clocked.step m (.receive i :: post) = some k
          simp only [exec, hm1]; exact hk)
        obtain ⟨hW, hsane, _⟩ := hI q hq
        have hb := hW.bound m.now hl ht
        have hn1 : a ≠ .receive i := by
          intro e
          subst e
          simp [Clocked.step, hq, hwire] at hks
        have hn2 : a ≠ .gone i := by
          intro e
          subst e
          simp [Clocked.step, hq, hqc] at hks
        rcases detect_step hS hks i q hq m.now (by rw [e1]; exact ht) (by rw [e1, e3]; exact hW) hl hn1 hn2 with h | ⟨h1, h2, h3⟩
        · left
          obtain ⟨q', b, hq', hL, _⟩ := step_local hS.keys hks i q hq
          refine ⟨q', hq', ?_⟩
          rw [h]
          generalize hv : k.view i q = v at hL hb
          generalize hv' : s.view i q' = v' at hL
          have f1 : v.peer = q := by rw [← hv]; rfl
          have f2 : v'.peer = q' := by rw [← hv']; rfl
          have f3 : v.silent = some m.now := by rw [← hv]; exact hl
          have f4 : v'.silent = some m.now := by rw [← hv']; exact h
          rw [← f2]
          rw [← f1] at hqc hqi hqd hwire hwake
          cases hL with
          | tick d hd hdue => exact ⟨hqc, hqi, hqd, rfl, hwire, hwake⟩
          | send w hw hn =>
            exfalso
            have := hwake w hw
            simp only [sec] at *
            omega
          | receive t rest hw => rw [hwire] at hw; cases hw
          | die => exact ⟨hqc, hqi, hqd, rfl, rfl, fun w hw => by cases hw⟩
          | close => exact absurd (by simp) hc
          | gone hcl => rw [hqc] at hcl; cases hcl
          | lost order u hck hu hlate => cases f4
          | checked order hck hn => exact ⟨hqc, hqi, hqd, rfl, hwire, hwake⟩
          | other a ha => exact ⟨hqc, hqi, hqd, rfl, hwire, hwake⟩
        · rw [e1] at h2 h3; rw [e3] at h3; exact Or.inr ⟨_, h1, h2, h3⟩
      · obtain ⟨l, hl⟩ := step_log hks
        exact Or.inr ⟨t, by rw [hl]; exact List.mem_append_left _ ht1, ht2⟩
  rcases key with ⟨q, hq, _, _, _, hl, _⟩ | h
  · exfalso
    obtain ⟨hS, e1, e2, e3, hI⟩ := inv (pre ++ .receive i :: post) s (by
      rw [exec_append, hm]; show exec Clocked.step m (.receive i :: post) = some s
      simp only [exec, hm1]; exact hs)
    have := (hI q hq).1.bound m.now hl ht
    simp only [Clocked.view] at this
    omega
  · exact h

/-! ## Just too far apart -/

/-- One connection, watched since `u`: time passes up to `x`, with a check every second; either the connection is declared lost on the way or
nothing else has changed. -/
theorem advance (n : Nat) : ∀ (s : Clocked) (p : Peer) (u x : Nat), s.peers = [p] → s.hb.monitors = [(0, u)] → s.now ≤ s.checkAt → s.now ≤ x →
    p.due x = true → x ≤ s.checkAt + n * sec → s.checkAt < x + sec →
    (∃ ls s' t q, exec Clocked.step s ls = some s' ∧ (t, Eff.lost 0) ∈ s'.log ∧ s'.peers = [q] ∧ q.interval = p.interval ∧ q.jitter = p.jitter ∧ q.delay = p.delay ∧
      ∀ j, .die j ∉ ls ∧ .close j ∉ ls) ∨
    ∃ ls ck, exec Clocked.step s ls = some { s with now := x, checkAt := ck } ∧ x ≤ ck ∧ ck < x + sec ∧ ck % sec = s.checkAt % sec ∧ ∀ j, .die j ∉ ls ∧ .close j ∉ ls := by
  induction n with
  | zero =>
    intro s p u x hp hm h1 h2 hd h3 h4
    right
    rw [Nat.zero_mul, Nat.add_zero] at h3
    refine ⟨[.tick (x - s.now)], s.checkAt, ?_, by omega, h4, rfl, by simp⟩
    have e : s.now + (x - s.now) = x := by omega
    simp only [exec, Clocked.step, e, hp, List.all_cons, hd, List.all_nil, Bool.and_true, and_true]
    rw [if_pos (by omega)]
    rfl
  | succ n ih =>
    intro s p u x hp hm h1 h2 hd h3 h4
    by_cases hx : x ≤ s.checkAt
    · right
      refine ⟨[.tick (x - s.now)], s.checkAt, ?_, by omega, h4, rfl, by simp⟩
      have e : s.now + (x - s.now) = x := by omega
      simp only [exec, Clocked.step, e, hp, List.all_cons, hd, List.all_nil, Bool.and_true, and_true]
      rw [if_pos (by omega)]
      rfl
    · have hdue : p.due s.checkAt = true := by
        refine Peer.due_of (fun w hw => ?_) (fun y ys hy => ?_)
        · have := Peer.due_wake hd hw; omega
        · have := Peer.due_wire hd hy; omega
      have htick : s.step (.tick (s.checkAt - s.now)) = some { s with now := s.checkAt } := by
        have e : s.now + (s.checkAt - s.now) = s.checkAt := by omega
        simp only [Clocked.step, e, hp, List.all_cons, hdue, List.all_nil, Bool.and_true, and_true]
        rw [if_pos (by omega)]
      have hcheck : ({ s with now := s.checkAt } : Clocked).step (.check [(0, u)]) = some { s with
          now := s.checkAt
          hb := (checkLoop s.hb s.checkAt [(0, u)]).1
          checkAt := s.checkAt + sec
          peers := closeAll [p] (checkLoop s.hb s.checkAt [(0, u)]).2
          log := s.log ++ (checkLoop s.hb s.checkAt [(0, u)]).2.map fun e => (s.checkAt, e) } := by
        simp only [Clocked.step, Heartbeat.step]
        rw [if_pos ⟨Nat.le_refl _, by rw [hm]; exact List.isPerm_iff.mpr (List.Perm.refl _)⟩, hp]
      by_cases he : expired s.hb s.checkAt u = true
      · left
        refine ⟨[.tick (s.checkAt - s.now), .check [(0, u)]], _, s.checkAt, { p with closed := p.closed || s.hb.closeOnLost },
          by simp only [exec, htick, Option.bind_some, hcheck]; rfl, ?_, ?_, rfl, rfl, rfl, by simp⟩
        · simp [checkLoop, he]
        · cases hc : s.hb.closeOnLost <;> simp [closeAll, checkLoop, he, hc]
      · have hsame : checkLoop s.hb s.checkAt [(0, u)] = (s.hb, []) := by
          simp only [checkLoop]; rw [if_neg he]
        rw [hsame] at hcheck
        have hca : closeAll [p] [] = [p] := by simp [closeAll]
        simp only [hca, List.map_nil, List.append_nil] at hcheck
        rw [← hp] at hcheck
        rcases ih { s with now := s.checkAt, checkAt := s.checkAt + sec } p u x hp hm (by simp only; omega) (by simp only; omega) hd
          (by simp only [sec] at *; omega) (by simp only [sec] at *; omega) with ⟨ls, s', t, q, r1, r2, r3, r4, r5, r6, r7⟩ | ⟨ls, ck, r1, r2, r3, r4, r5⟩
        · left
          refine ⟨.tick (s.checkAt - s.now) :: .check [(0, u)] :: ls, s', t, q, ?_, r2, r3, r4, r5, r6, ?_⟩
          · simp only [exec, htick, Option.bind_some, hcheck]; exact r1
          · intro j; simpa using r7 j
        · right
          refine ⟨.tick (s.checkAt - s.now) :: .check [(0, u)] :: ls, ck, ?_, r2, r3, ?_, ?_⟩
          · simp only [exec, htick, Option.bind_some, hcheck]; exact r1
          · rw [r4]; simp [sec]
          · intro j; simpa using r5 j

/-- The same with the peer sending as late as it may, and nothing received. -/
theorem advance_sending (m : Nat) : ∀ (s : Clocked) (p : Peer) (u w x : Nat), s.peers = [p] → s.hb.monitors = [(0, u)] → s.now ≤ s.checkAt → s.now ≤ x → p.wake = some w →
    s.now ≤ w + p.jitter → 1 ≤ p.interval + p.jitter → (∀ t ts, p.wire = t :: ts → x ≤ t + p.delay) → (p.wire = [] → x ≤ w + p.jitter + p.delay) →
    x ≤ w + p.jitter + m → s.checkAt < s.now + sec →
    (∃ ls s' t q, exec Clocked.step s ls = some s' ∧ (t, Eff.lost 0) ∈ s'.log ∧ s'.peers = [q] ∧ q.interval = p.interval ∧ q.jitter = p.jitter ∧ q.delay = p.delay ∧
      ∀ j, .die j ∉ ls ∧ .close j ∉ ls) ∨
    ∃ ls ck q, exec Clocked.step s ls = some { s with now := x, checkAt := ck, peers := [q] } ∧ q.interval = p.interval ∧ q.jitter = p.jitter ∧ q.delay = p.delay ∧
      x ≤ ck ∧ ck < x + sec ∧ ck % sec = s.checkAt % sec ∧ ∀ j, .die j ∉ ls ∧ .close j ∉ ls := by
  have hbig : ∀ a k : Nat, a ≤ k + a * sec := by intro a k; simp only [sec]; omega
  have direct : ∀ (s : Clocked) (p : Peer) (u w x : Nat), s.peers = [p] → s.hb.monitors = [(0, u)] → s.now ≤ s.checkAt → s.now ≤ x → p.wake = some w →
      (∀ t ts, p.wire = t :: ts → x ≤ t + p.delay) → x ≤ w + p.jitter → s.checkAt < s.now + sec →
      (∃ ls s' t q, exec Clocked.step s ls = some s' ∧ (t, Eff.lost 0) ∈ s'.log ∧ s'.peers = [q] ∧ q.interval = p.interval ∧ q.jitter = p.jitter ∧ q.delay = p.delay ∧
        ∀ j, .die j ∉ ls ∧ .close j ∉ ls) ∨
      ∃ ls ck, exec Clocked.step s ls = some { s with now := x, checkAt := ck } ∧ x ≤ ck ∧ ck < x + sec ∧ ck % sec = s.checkAt % sec ∧ ∀ j, .die j ∉ ls ∧ .close j ∉ ls := by
    intro s p u w x hp hm h1 h2 hw h5 h7 h8
    exact advance x s p u x hp hm h1 h2 (Peer.due_of (fun w' hw' => by rw [hw] at hw'; injection hw' with hw'; subst hw'; exact h7) h5) (hbig _ _) (by omega)
  induction m with
  | zero =>
    intro s p u w x hp hm h1 h2 hw h3 h4 h5 h6 h7 h8
    rcases direct s p u w x hp hm h1 h2 hw h5 h7 h8 with h | ⟨ls, ck, r1, r2, r3, r4, r5⟩
    · exact Or.inl h
    · exact Or.inr ⟨ls, ck, p, by rw [r1, ← hp], rfl, rfl, rfl, r2, r3, r4, r5⟩
  | succ m ih =>
    intro s p u w x hp hm h1 h2 hw h3 h4 h5 h6 h7 h8
    by_cases hx : x ≤ w + p.jitter
    · rcases direct s p u w x hp hm h1 h2 hw h5 hx h8 with h | ⟨ls, ck, r1, r2, r3, r4, r5⟩
      · exact Or.inl h
      · exact Or.inr ⟨ls, ck, p, by rw [r1, ← hp], rfl, rfl, rfl, r2, r3, r4, r5⟩
    · rcases direct s p u w (w + p.jitter) hp hm h1 h3 hw (fun t ts ht => by have := h5 t ts ht; omega) (Nat.le_refl _) h8 with h | ⟨ls, ck, r1, r2, r3, r4, r5⟩
      · exact Or.inl h
      · let p1 : Peer := { p with wake := some (w + p.jitter + p.interval), wire := p.wire ++ [w + p.jitter] }
        have hsend : ({ s with now := w + p.jitter, checkAt := ck } : Clocked).step (.send 0) = some { s with now := w + p.jitter, checkAt := ck, peers := [p1] } := by
          simp only [Clocked.step, hp, List.getElem?_cons_zero, Option.bind_eq_bind, Option.bind_some, hw]
          rw [if_pos (by omega)]
          rfl
        rcases ih { s with now := w + p.jitter, checkAt := ck, peers := [p1] } p1 u (w + p.jitter + p.interval) x rfl hm r2 (by simp only; omega) rfl
            (by simp only [p1]; omega) h4
            (by
              intro t ts ht
              cases hwire : p.wire with
              | nil =>
                simp only [p1, hwire, List.nil_append] at ht
                injection ht with ht; subst ht
                exact h6 hwire
              | cons y ys =>
                simp only [p1, hwire, List.cons_append] at ht
                injection ht with ht; subst ht
                exact h5 y ys hwire)
            (by intro hn; simp [p1] at hn) (by simp only [p1]; omega) r3
          with ⟨ls', s', t, q, q1, q2, q3, q4, q5, q6, q7⟩ | ⟨ls', ck', q, q1, q2, q3, q4, q5, q6, q7, q8⟩
        · left
          refine ⟨ls ++ .send 0 :: ls', s', t, q, ?_, q2, q3, q4, q5, q6, ?_⟩
          · rw [exec_append, r1]
            simp only [Option.bind_some, exec, hsend]
            exact q1
          · intro j; simpa using ⟨⟨(r5 j).1, (q7 j).1⟩, (r5 j).2, (q7 j).2⟩
        · right
          refine ⟨ls ++ .send 0 :: ls', ck', q, ?_, q2, q3, q4, q5, q6, by rw [q7]; exact r4, ?_⟩
          · rw [exec_append, r1]
            simp only [Option.bind_some, exec, hsend]
            exact q1
          · intro j; simpa using ⟨⟨(r5 j).1, (q8 j).1⟩, (r5 j).2, (q8 j).2⟩

/-- C78: the bound of `c78_never_lost` is exact: if interval, jitter and delay together reach the timeout, a peer that is alive and punctual can be
declared lost.  (A peer with neither interval nor jitter would have to send infinitely often before the clock moves.) -/
theorem c78_can_be_lost (timeout : Int) (closeOnLost : Bool) (slack interval jitter delay : Nat) (hpos : 1 ≤ interval + jitter)
    (h : timeout * (sec : Int) ≤ ((interval + jitter + delay : Nat) : Int)) :
    ∃ ls s t p, exec Clocked.step (Clocked.start 0 timeout closeOnLost slack) ls = some s ∧ (∀ j, .die j ∉ ls ∧ .close j ∉ ls) ∧ s.peers = [p] ∧
      p.interval = interval ∧ p.jitter = jitter ∧ p.delay = delay ∧ (t, Eff.lost 0) ∈ s.log := by
  generalize hg : interval + jitter + delay = g at h
  -- the connection is accepted at `a`, and a check will come `g` later
  let n := g / sec + 1
  have hn : g < n * sec ∧ n * sec ≤ g + sec := by
    simp only [n, sec]
    omega
  obtain ⟨a, ha⟩ : ∃ a, a + g = n * sec := ⟨n * sec - g, by omega⟩
  have ha0 : 0 < a := by omega
  have ha1 : a ≤ sec := by omega
  let p0 : Peer := { interval, jitter, delay, wake := some (a + interval), wire := [] }
  let s0 : Clocked := ⟨a, ⟨timeout, closeOnLost, [(0, a)]⟩, sec, slack, [p0], []⟩
  have hpre : exec Clocked.step (Clocked.start 0 timeout closeOnLost slack) [.check [], .tick a, .accept interval jitter delay a, .send 0, .receive 0] = some s0 := by
    have k1 : (Clocked.start 0 timeout closeOnLost slack).step (.check []) = some ⟨0, ⟨timeout, closeOnLost, []⟩, sec, slack, [], []⟩ := by
      simp [Clocked.step, Clocked.start, Heartbeat.step, checkLoop, closeAll, List.isPerm]
    have k2 : (⟨0, ⟨timeout, closeOnLost, []⟩, sec, slack, [], []⟩ : Clocked).step (.tick a) = some ⟨a, ⟨timeout, closeOnLost, []⟩, sec, slack, [], []⟩ := by
      simp only [Clocked.step, Nat.zero_add, List.all_nil, and_true]
      rw [if_pos (by omega)]
    have k3 : (⟨a, ⟨timeout, closeOnLost, []⟩, sec, slack, [], []⟩ : Clocked).step (.accept interval jitter delay a) =
        some ⟨a, ⟨timeout, closeOnLost, [(0, a)]⟩, sec, slack, [⟨interval, jitter, delay, some a, [], false⟩], []⟩ := by
      simp only [Clocked.step]
      rw [if_pos (by omega)]
      rfl
    have k4 : (⟨a, ⟨timeout, closeOnLost, [(0, a)]⟩, sec, slack, [⟨interval, jitter, delay, some a, [], false⟩], []⟩ : Clocked).step (.send 0) =
        some ⟨a, ⟨timeout, closeOnLost, [(0, a)]⟩, sec, slack, [⟨interval, jitter, delay, some (a + interval), [a], false⟩], []⟩ := by
      simp [Clocked.step]
    have k5 : (⟨a, ⟨timeout, closeOnLost, [(0, a)]⟩, sec, slack, [⟨interval, jitter, delay, some (a + interval), [a], false⟩], []⟩ : Clocked).step (.receive 0) =
        some s0 := by
      simp [Clocked.step, Heartbeat.step, update, s0, p0]
    simp only [exec, k1, k2, k3, k4, k5, Option.bind_some]
  have hfin : ∀ (s : Clocked) (p : Peer), s.peers = [p] → s.hb = ⟨timeout, closeOnLost, [(0, a)]⟩ → s.now = n * sec → s.checkAt = n * sec →
      ∃ s' q, s.step (.check [(0, a)]) = some s' ∧ (n * sec, Eff.lost 0) ∈ s'.log ∧ s'.peers = [q] ∧ q.interval = p.interval ∧ q.jitter = p.jitter ∧ q.delay = p.delay := by
    intro s p hp hh h1 h2
    have he : expired s.hb s.now a = true := by
      have := (late_iff timeout s.now a).mpr (by omega)
      simp only [expired, hh, Bool.not_eq_true', decide_eq_false_iff_not, Int.not_lt]
      exact this
    refine ⟨_, { p with closed := p.closed || closeOnLost }, by
      simp only [Clocked.step]
      rw [if_pos ⟨by omega, by rw [hh]; exact List.isPerm_iff.mpr (List.Perm.refl _)⟩], ?_, ?_, rfl, rfl, rfl⟩
    · simp [Heartbeat.step, checkLoop, he, ← h1]
    · have hc : s.hb.closeOnLost = closeOnLost := by rw [hh]
      cases closeOnLost <;> simp [closeAll, Heartbeat.step, checkLoop, he, hc, hp]
  -- the next heartbeat is sent as late and delayed as long as possible
  rcases advance_sending (n * sec) s0 p0 a (a + interval) (n * sec) rfl rfl ha1 (by simp only [s0]; omega) rfl (by simp only [s0, p0]; omega) hpos
    (fun t ts ht => by cases ht) (fun _ => by simp only [p0]; omega) (by simp only [p0]; omega) (by simp only [s0]; omega)
    with ⟨ls, s', t, q, r1, r2, r3, r4, r5, r6, r7⟩ | ⟨ls, ck, q, r1, r2, r3, r4, r5, r6, r7, r8⟩
  · refine ⟨_ ++ ls, s', t, q, by rw [exec_append, hpre]; exact r1, ?_, r3, r4, r5, r6, r2⟩
    intro j; simpa using r7 j
  · have hck : ck = n * sec := by
      simp only [s0] at r7
      simp only [sec] at *
      omega
    obtain ⟨s', q', f1, f2, f3, f4, f5, f6⟩ := hfin { s0 with now := n * sec, checkAt := ck, peers := [q] } q rfl rfl rfl hck
    refine ⟨[.check [], .tick a, .accept interval jitter delay a, .send 0, .receive 0] ++ (ls ++ [.check [(0, a)]]), s', n * sec, q', ?_, ?_, f3, f4.trans r2, f5.trans r3, f6.trans r4, f2⟩
    · rw [exec_append, hpre]
      show exec Clocked.step s0 (ls ++ [.check [(0, a)]]) = some s'
      rw [exec_append, r1]
      simp only [Option.bind_some, exec, f1]
    · intro j; simpa using r8 j

/-- C78, exactly: peers with this interval, jitter and delay can be declared lost while they are alive if and only if these together reach the timeout. -/
theorem c78_exact (timeout : Int) (closeOnLost : Bool) (slack interval jitter delay : Nat) (hpos : 1 ≤ interval + jitter) :
    (∃ start ls s t i p, exec Clocked.step (Clocked.start start timeout closeOnLost slack) ls = some s ∧ .die i ∉ ls ∧ s.peers[i]? = some p ∧
      p.interval = interval ∧ p.jitter = jitter ∧ p.delay = delay ∧ (t, Eff.lost i) ∈ s.log) ↔
    timeout * (sec : Int) ≤ ((interval + jitter + delay : Nat) : Int) := by
  constructor
  · rintro ⟨start, ls, s, t, i, p, h, hd, hp, rfl, rfl, rfl, hl⟩
    rcases Int.lt_or_le ((p.interval + p.jitter + p.delay : Nat) : Int) (timeout * (sec : Int)) with hlt | hle
    · exact absurd hl (c78_never_lost start timeout closeOnLost slack ls s h i p hp hd hlt t).1
    · exact hle
  · intro h
    obtain ⟨ls, s, t, p, h1, h2, h3, h4, h5, h6, h7⟩ := c78_can_be_lost timeout closeOnLost slack interval jitter delay hpos h
    exact ⟨0, ls, s, t, 0, p, h1, (h2 0).1, by rw [h3]; rfl, h4, h5, h6, h7⟩

/-- C78: the defaults (interval 1 s, timeout 30 s, proc_heartbeat.go:32-33) keep every peer that is at most 28 seconds late. -/
theorem c78_defaults (start : Nat) (closeOnLost : Bool) (slack : Nat) (ls : List Act) (s : Clocked)
    (h : exec Clocked.step (Clocked.start start 30 closeOnLost slack) ls = some s) (i : Nat) (p : Peer) (hp : s.peers[i]? = some p) (hlive : .die i ∉ ls)
    (h1 : p.interval = sec) (h2 : p.jitter + p.delay ≤ 28 * sec) : ∀ t, (t, Eff.lost i) ∉ s.log ∧ (t, Eff.close i) ∉ s.log :=
  c78_never_lost start 30 closeOnLost slack ls s h i p hp hlive (by simp only [sec] at *; omega)

/-- C78: the heartbeat example (examples/heartbeat/main.go:22-24, 44-46: interval 10 s on both sides, timeout 3 s at the client, 5 s at the server) declares
every open connection lost after every heartbeat it receives, if delay and slack together are less than 4 seconds. -/
theorem c78_example_loses (timeout : Int) (hto : timeout = 3 ∨ timeout = 5) (start : Nat) (closeOnLost : Bool) (slack : Nat) (pre post : List Act) (m s : Clocked)
    (hm : exec Clocked.step (Clocked.start start timeout closeOnLost slack) pre = some m) (i : Nat) (p : Peer) (hp : m.peers[i]? = some p)
    (hopen : p.closed = false) (hs : exec Clocked.step m (.receive i :: post) = some s) (hc : .close i ∉ post)
    (h1 : p.interval = 10 * sec) (h2 : p.delay + slack < 4 * sec) (hnow : m.now + timeout * (sec : Int) + sec + slack < s.now) :
    ∃ t, (t, Eff.lost i) ∈ s.log ∧ m.now + timeout * (sec : Int) ≤ t ∧ (t : Int) ≤ m.now + timeout * (sec : Int) + sec + slack :=
  c78_always_lost start timeout closeOnLost slack (by omega) pre post m s hm i p hp hopen hs hc (by simp only [sec] at *; omega) hnow

/-! ## Cases -/

/-- Two connections, both peers with interval 1 s, timeout 3 s; the second one dies after its first heartbeat. -/
def mixed : List Act :=
  [.check [], .tick 400000000, .accept sec 5 100 400000000, .accept sec 5 100 400000000, .send 0, .send 1, .tick 50, .receive 1, .receive 0, .die 1,
   .tick 599999950, .check [(0, 400000050), (1, 400000050)], .tick 400000003, .send 0, .receive 0, .tick 599999997, .check [(1, 400000050), (0, 1400000003)],
   .tick 400000003, .send 0, .receive 0, .tick 599999997, .check [(1, 400000050), (0, 2400000003)], .tick 400000003, .send 0, .receive 0, .tick 599999997,
   .check [(1, 400000050), (0, 3400000003)], .tick 400000000]

example : (exec Clocked.step (Clocked.start 0 3 true 0) mixed).map (fun s => (s.log, s.peers)) =
    some ([(4 * sec, .close 1), (4 * sec, .lost 1)], [⟨sec, 5, 100, some 4400000003, [], false⟩, ⟨sec, 5, 100, none, [], true⟩]) ∧ .die 0 ∉ mixed := by
  decide +kernel

/-- The server of the example: the heartbeat of the client at 0.5 s, loss at 6 s, before the next heartbeat at 10.5 s. -/
def served : List Act :=
  [.check [], .tick 500000000, .accept (10 * sec) 0 0 500000000, .send 0]

def servedMore : List Act :=
  [.tick 500000000, .check [(0, 500000000)], .tick sec, .check [(0, 500000000)], .tick sec, .check [(0, 500000000)], .tick sec, .check [(0, 500000000)], .tick sec,
   .check [(0, 500000000)], .tick sec, .check [(0, 500000000)], .tick sec]

example : (exec Clocked.step (Clocked.start 0 5 true 0) served).map (fun m => (m.now, m.peers)) =
      some (500000000, [⟨10 * sec, 0, 0, some 10500000000, [500000000], false⟩]) ∧
    (exec Clocked.step (Clocked.start 0 5 true 0) (served ++ .receive 0 :: servedMore)).map (fun s => (s.now, s.log)) =
      some (7 * sec, [(6 * sec, .close 0), (6 * sec, .lost 0)]) ∧ .close 0 ∉ servedMore := by
  decide +kernel

end Verif.Conn.Heartbeat
