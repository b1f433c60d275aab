import Verif.Trace

/-!
# The session object of the microservices example (C83)

`AppSession` (examples/microservices/main.go:93-148) wraps a stack with one endpoint.  The endpoint's event listener, called by the
accept goroutine of the transport (proc_lowerdeck.go:40-89), stores every new connection in `s.c` and sends on `ready`, a channel
for one item; `Run` starts the stack and takes one item out of `ready` before the user's function starts.  `Read` takes a message from the
endpoint's receive channel and stores its connection in `s.c`; `Write` sends on `s.c`.

Goroutines: the accept goroutine (which starts the receive goroutine of a connection after its listeners have returned), one
receive goroutine per connection, the user.  Every access to `s.c` is a step of its own.  Connections are numbered in the order in which
they are accepted; messages may arrive on a connection before it is accepted.
Simplifications: one transport, so one accept goroutine; one user goroutine; connections do not break; a `Write` does not wait (C79 is about
that).
-/

namespace Verif.Conn.AppSession

open Verif.Trace

/-- The accept goroutine. -/
inductive Acc where
  /-- waits for the next connection -/
  | idle
  /-- between `session.c = …` and the end of `session.ready <- 1` (main.go:110-111) -/
  | signalling
  deriving Repr, DecidableEq

/-- The user's goroutine. -/
inductive User where
  /-- in `WaitReady` (main.go:129) -/
  | waiting
  | running
  /-- in `Read`, between taking message `v` of connection `k` and `s.c = …` (main.go:133-134) -/
  | reading (k v : Nat)
  deriving Repr, DecidableEq

structure Sys where
  acc : Acc
  /-- items in `ready` -/
  ready : Nat
  /-- connections 0, …, `served - 1` have a receive goroutine -/
  served : Nat
  /-- `s.c` -/
  c : Option Nat
  user : User
  /-- arrived and not yet processed, per connection -/
  wire : Nat → List Nat
  /-- the endpoint's receive channel: connection and message -/
  rx : List (Nat × Nat)
  /-- results of `Read` -/
  reads : List (Nat × Nat)
  /-- calls of `Write`: connection and message -/
  writes : List (Option Nat × Nat)

inductive Label where
  /-- the next connection is accepted: `session.c = event.Data…` -/
  | accept
  /-- `session.ready <- 1`; the listener returns, the receive goroutine starts -/
  | signal
  /-- `<-s.ready` -/
  | ready
  /-- message `v` arrives on connection `k` -/
  | arrive (k v : Nat)
  /-- the receive goroutine of `k` puts the next message into the receive channel -/
  | recv (k : Nat)
  /-- `epd := <-s.ep.GetRxChannel()` -/
  | take
  /-- `s.c = epd.GetConnection()`; `Read` returns -/
  | store
  | write (v : Nat)
  deriving Repr, DecidableEq

def setWire (w : Nat → List Nat) (k : Nat) (l : List Nat) : Nat → List Nat := fun x => if x = k then l else w x

/-- The capacity of the receive channel (endp_default.go:101). -/
def capacity : Nat := 512

def step (s : Sys) : Label → Option Sys
  | .accept => if s.acc = .idle then some { s with acc := .signalling, c := some s.served } else none
  | .signal => if s.acc = .signalling ∧ s.ready = 0 then some { s with acc := .idle, ready := 1, served := s.served + 1 } else none
  | .ready => if s.user = .waiting ∧ s.ready = 1 then some { s with user := .running, ready := 0 } else none
  | .arrive k v => some { s with wire := setWire s.wire k (s.wire k ++ [v]) }
  | .recv k =>
    if k < s.served ∧ s.rx.length < capacity then
      match s.wire k with
      | v :: r => some { s with wire := setWire s.wire k r, rx := s.rx ++ [(k, v)] }
      | [] => none
    else none
  | .take =>
    if s.user = .running then
      match s.rx with
      | (k, v) :: r => some { s with user := .reading k v, rx := r }
      | [] => none
    else none
  | .store =>
    match s.user with
    | .reading k v => some { s with user := .running, c := some k, reads := s.reads ++ [(k, v)] }
    | _ => none
  | .write v => if s.user = .running then some { s with writes := s.writes ++ [(s.c, v)] } else none

abbrev exec := Trace.exec step

def init : Sys := ⟨.idle, 0, 0, none, .waiting, fun _ => [], [], [], []⟩

/-! ## Specification -/

/-- Messages of connection `k`. -/
def msgsOf (k : Nat) (ps : List (Nat × Nat)) : List Nat := (ps.filter fun p => p.1 == k).map Prod.snd

/-- What arrives on a connection in a schedule. -/
def arrivals (k : Nat) (ls : List Label) : List Nat := ls.filterMap fun
  | .arrive e v => if e = k then some v else none
  | _ => none

theorem msgsOf_append (k : Nat) (a b : List (Nat × Nat)) : msgsOf k (a ++ b) = msgsOf k a ++ msgsOf k b := by simp [msgsOf]

theorem arrivals_append (k : Nat) (a b : List Label) : arrivals k (a ++ b) = arrivals k a ++ arrivals k b := List.filterMap_append

/-! ## Which connections are in use -/

structure Inv (s : Sys) : Prop where
  ready : s.ready ≤ 1
  /-- every served connection has sent an item; at most one of these was taken -/
  count : s.served = s.ready + (if s.user = .waiting then 0 else 1)
  have_c : s.acc = .signalling ∨ 0 < s.served → ∃ k, s.c = some k
  bound : ∀ k, s.c = some k → k < s.served ∨ (s.acc = .signalling ∧ k = s.served)
  rx : ∀ p ∈ s.rx, p.1 < s.served
  reading : ∀ k v, s.user = .reading k v → k < s.served
  reads : ∀ p ∈ s.reads, p.1 < s.served
  writes : ∀ p ∈ s.writes, ∃ k, p.1 = some k ∧ k < s.served + (if s.acc = .signalling then 1 else 0)

theorem inv_init : Inv init := ⟨by decide, by decide, by simp [init], by simp [init], by simp [init], by simp [init], by simp [init], by simp [init]⟩

theorem inv_step (s : Sys) (l : Label) (s' : Sys) (h : Inv s) (hs : step s l = some s') : Inv s' := by
  cases l with
  | accept =>
    simp only [step] at hs
    split at hs
    rotate_left
    · cases hs
    rename_i ha
    injection hs with hs; subst hs
    refine ⟨h.ready, h.count, fun _ => ⟨_, rfl⟩, fun k hk => by injection hk with hk; exact .inr ⟨rfl, hk.symm⟩, h.rx, h.reading, h.reads, ?_⟩
    intro p hp
    obtain ⟨k, hk, hlt⟩ := h.writes p hp
    refine ⟨k, hk, ?_⟩
    rw [ha] at hlt
    simp only [reduceCtorEq, if_false, if_true] at hlt ⊢
    omega
  | signal =>
    simp only [step] at hs
    split at hs
    rotate_left
    · cases hs
    rename_i hc
    injection hs with hs; subst hs
    have hcount := h.count
    refine ⟨Nat.le_refl _, by simp only [hc.2] at hcount ⊢; omega, fun _ => h.have_c (.inl hc.1), ?_, ?_, ?_, ?_, ?_⟩
    · intro k hk
      rcases h.bound k hk with hb | ⟨_, hb⟩
      · exact .inl (Nat.lt_succ_of_lt hb)
      · exact .inl (by simp only; omega)
    · intro p hp; exact Nat.lt_succ_of_lt (h.rx p hp)
    · intro k v hk; exact Nat.lt_succ_of_lt (h.reading k v hk)
    · intro p hp; exact Nat.lt_succ_of_lt (h.reads p hp)
    · intro p hp
      obtain ⟨k, hk, hlt⟩ := h.writes p hp
      rw [hc.1] at hlt
      exact ⟨k, hk, by simpa using hlt⟩
  | ready =>
    simp only [step] at hs
    split at hs
    rotate_left
    · cases hs
    rename_i hc
    injection hs with hs; subst hs
    have hcount := h.count
    rw [if_pos hc.1] at hcount
    exact ⟨Nat.zero_le _, by simp only [hc.2] at hcount ⊢; simpa using hcount, h.have_c, h.bound, h.rx, by simp, h.reads, h.writes⟩
  | arrive k v =>
    injection hs with hs; subst hs
    exact ⟨h.ready, h.count, h.have_c, h.bound, h.rx, h.reading, h.reads, h.writes⟩
  | recv k =>
    simp only [step] at hs
    split at hs
    rotate_left
    · cases hs
    rename_i hc
    split at hs
    rotate_left
    · cases hs
    injection hs with hs; subst hs
    refine ⟨h.ready, h.count, h.have_c, h.bound, ?_, h.reading, h.reads, h.writes⟩
    intro p hp
    rcases List.mem_append.mp hp with hp | hp
    · exact h.rx p hp
    · rw [List.mem_singleton.mp hp]; exact hc.1
  | take =>
    simp only [step] at hs
    split at hs
    rotate_left
    · cases hs
    rename_i hc
    split at hs
    rotate_left
    · cases hs
    rename_i k v r hr
    injection hs with hs; subst hs
    have hcount := h.count
    refine ⟨h.ready, by rw [hc] at hcount; simpa using hcount, h.have_c, h.bound, ?_, ?_, h.reads, h.writes⟩
    · intro p hp; exact h.rx p (by rw [hr]; exact List.mem_cons_of_mem _ hp)
    · intro k' v' hk
      injection hk with hk _
      subst hk
      exact h.rx (k, v) (by rw [hr]; exact List.mem_cons_self)
  | store =>
    simp only [step] at hs
    split at hs
    rotate_left
    · cases hs
    rename_i k v hu
    injection hs with hs; subst hs
    have hcount := h.count
    have hk := h.reading k v hu
    refine ⟨h.ready, by rw [hu] at hcount; simpa using hcount, fun _ => ⟨_, rfl⟩, ?_, h.rx, by simp, ?_, h.writes⟩
    · intro k' hk'; injection hk' with hk'; subst hk'; exact .inl hk
    · intro p hp
      rcases List.mem_append.mp hp with hp | hp
      · exact h.reads p hp
      · rw [List.mem_singleton.mp hp]; exact hk
  | write v =>
    simp only [step] at hs
    split at hs
    rotate_left
    · cases hs
    rename_i hc
    injection hs with hs; subst hs
    refine ⟨h.ready, h.count, h.have_c, h.bound, h.rx, h.reading, h.reads, ?_⟩
    intro p hp
    rcases List.mem_append.mp hp with hp | hp
    · exact h.writes p hp
    · rw [List.mem_singleton.mp hp]
      have hcount := h.count
      rw [hc] at hcount
      simp only [reduceCtorEq, if_false] at hcount
      obtain ⟨k, hk⟩ := h.have_c (.inr (by omega))
      refine ⟨k, hk, ?_⟩
      show k < s.served + (if s.acc = .signalling then 1 else 0)
      rcases h.bound k hk with hb | ⟨ha, hb⟩
      · omega
      · rw [if_pos ha]; omega

theorem inv_exec (ls : List Label) (s : Sys) (h : exec init ls = some s) : Inv s :=
  invariant (step := step) (P := Inv) (Q := fun _ => True) (fun s l s' hi _ hs => inv_step s l s' hi hs) ls init s inv_init (fun _ _ => trivial) h

/-- How many connections were accepted. -/
theorem accepted (ls : List Label) : ∀ s, exec init ls = some s →
    ls.count .accept = s.served + (if s.acc = .signalling then 1 else 0) := by
  induction ls using snoc_induction with
  | h0 => intro s h; injection h with h; subst h; rfl
  | h1 ls l ih =>
    intro s' h
    obtain ⟨s, h, hs⟩ := exec_snoc h
    have hc := ih s h
    rw [List.count_append, hc]
    cases l with
    | accept =>
      simp only [step] at hs
      split at hs
      rotate_left
      · cases hs
      rename_i ha
      injection hs with hs; subst hs
      simp [ha]
    | signal =>
      simp only [step] at hs
      split at hs
      rotate_left
      · cases hs
      rename_i ha
      injection hs with hs; subst hs
      simp [ha.1]
    | ready =>
      simp only [step] at hs
      split at hs
      rotate_left
      · cases hs
      injection hs with hs; subst hs
      simp
    | arrive k v =>
      injection hs with hs; subst hs
      simp
    | recv k =>
      simp only [step] at hs
      split at hs
      rotate_left
      · cases hs
      split at hs
      rotate_left
      · cases hs
      injection hs with hs; subst hs
      simp
    | take =>
      simp only [step] at hs
      split at hs
      rotate_left
      · cases hs
      split at hs
      rotate_left
      · cases hs
      injection hs with hs; subst hs
      simp
    | store =>
      simp only [step] at hs
      split at hs
      rotate_left
      · cases hs
      injection hs with hs; subst hs
      simp
    | write v =>
      simp only [step] at hs
      split at hs
      rotate_left
      · cases hs
      injection hs with hs; subst hs
      simp

/-- C83: no `Write` comes before there is a connection: each one goes to a connection that was accepted. -/
theorem c83_connected (ls : List Label) (s : Sys) (h : exec init ls = some s) :
    ∀ p ∈ s.writes, ∃ k, p.1 = some k ∧ k < ls.count .accept := by
  rw [accepted ls s h]
  exact (inv_exec ls s h).writes

/-! ## What is read -/

/-- The message the user has taken. -/
def held : User → List (Nat × Nat)
  | .reading k v => [(k, v)]
  | _ => []

theorem flow (ls : List Label) : ∀ s, exec init ls = some s → ∀ k,
    arrivals k ls = msgsOf k s.reads ++ msgsOf k (held s.user) ++ msgsOf k s.rx ++ s.wire k := by
  induction ls using snoc_induction with
  | h0 => intro s h k; injection h with h; subst h; rfl
  | h1 ls l ih =>
    intro s' h k
    obtain ⟨s, h, hs⟩ := exec_snoc h
    have hk := ih s h k
    rw [arrivals_append, hk]
    cases l with
    | accept =>
      simp only [step] at hs
      split at hs
      rotate_left
      · cases hs
      injection hs with hs; subst hs
      simp [arrivals]
    | signal =>
      simp only [step] at hs
      split at hs
      rotate_left
      · cases hs
      injection hs with hs; subst hs
      simp [arrivals]
    | ready =>
      simp only [step] at hs
      split at hs
      rotate_left
      · cases hs
      rename_i hu
      injection hs with hs; subst hs
      simp [arrivals, held, hu.1]
    | arrive e v =>
      injection hs with hs; subst hs
      simp only [setWire]
      by_cases he : e = k
      · subst he
        simp [arrivals]
      · have : ¬ k = e := fun h => he h.symm
        simp [arrivals, he, this]
    | recv e =>
      simp only [step] at hs
      split at hs
      rotate_left
      · cases hs
      split at hs
      rotate_left
      · cases hs
      rename_i v r hw
      injection hs with hs; subst hs
      simp only [setWire, msgsOf_append]
      by_cases he : k = e
      · subst he
        simp [arrivals, hw, msgsOf]
      · have : (e == k) = false := by simp; exact fun h => he h.symm
        simp [arrivals, he, msgsOf, this]
    | take =>
      simp only [step] at hs
      split at hs
      rotate_left
      · cases hs
      rename_i hu
      split at hs
      rotate_left
      · cases hs
      rename_i e v r hr
      injection hs with hs; subst hs
      simp only [hu, hr, held]
      by_cases he : e = k
      · subst he; simp [arrivals, msgsOf]
      · simp [arrivals, msgsOf, he]
    | store =>
      simp only [step] at hs
      split at hs
      rotate_left
      · cases hs
      rename_i e v hu
      injection hs with hs; subst hs
      simp only [hu, held, msgsOf_append]
      simp [arrivals, msgsOf]
    | write v =>
      simp only [step] at hs
      split at hs
      rotate_left
      · cases hs
      injection hs with hs; subst hs
      simp [arrivals]

/-- C83: what is read from a connection is what arrived on it, in order. -/
theorem c83_in_order (ls : List Label) (s : Sys) (h : exec init ls = some s) (k : Nat) : msgsOf k s.reads <+: arrivals k ls := by
  rw [flow ls s h k, List.append_assoc, List.append_assoc]
  exact List.prefix_append _ _

theorem all_zero {ps : List (Nat × Nat)} (h : ∀ p ∈ ps, p.1 = 0) : msgsOf 0 ps = ps.map Prod.snd := by
  rw [msgsOf, List.filter_eq_self.mpr]
  intro p hp
  simp [h p hp]

/-- C83 for one connection (a client's session, as in `startApp`): every `Write` goes to it, and what is read are its messages in order.
Missing for the full claim: sessions with more connections (`c83_answer_iff`, `c83_third_never`). -/
theorem c83_single_partial (ls : List Label) (s : Sys) (h : exec init ls = some s) (h1 : ls.count .accept ≤ 1) :
    (∀ p ∈ s.writes, p.1 = some 0) ∧ s.reads.map Prod.snd <+: arrivals 0 ls := by
  have hi := inv_exec ls s h
  have hserved : s.served ≤ 1 := by
    have := accepted ls s h
    omega
  constructor
  · intro p hp
    obtain ⟨k, hk, hlt⟩ := c83_connected ls s h p hp
    rw [hk, show k = 0 by omega]
  · have := c83_in_order ls s h 0
    rwa [all_zero (fun p hp => by have := hi.reads p hp; omega)] at this

/-! ## More than one connection -/

/-- C83: at most two connections are ever served, whatever the schedule, and at most three accepted. -/
theorem c83_at_most_two (ls : List Label) (s : Sys) (h : exec init ls = some s) :
    s.served ≤ 2 ∧ ls.count .accept ≤ 3 ∧ (∀ p ∈ s.reads, p.1 < 2) := by
  have hi := inv_exec ls s h
  have hc := hi.count
  have hr := hi.ready
  have ha := accepted ls s h
  have hs : s.served ≤ 2 := by split at hc <;> omega
  refine ⟨hs, ?_, ?_⟩
  · split at ha <;> omega
  · intro p hp
    have := hi.reads p hp
    omega

/-- C83, exactly: connection `k` is served in some execution if and only if `k` is 0 or 1. -/
theorem c83_served_iff (k : Nat) : (∃ ls s, exec init ls = some s ∧ k < s.served) ↔ k < 2 := by
  constructor
  · rintro ⟨ls, s, h, hk⟩
    have := (c83_at_most_two ls s h).1
    omega
  · intro hk
    exact ⟨[.accept, .signal, .ready, .accept, .signal], ⟨.idle, 1, 2, some 1, .running, fun _ => [], [], [], []⟩, rfl, hk⟩

/-- C83 does not hold: the third connection is accepted, its first message arrives, and from then on the accept goroutine waits for ever: whatever
happens, no message of that connection is ever read, and no further connection is accepted. -/
theorem c83_third_never : ∃ pre s, exec init pre = some s ∧ pre.count .accept = 3 ∧ arrivals 2 pre ≠ [] ∧
    ∀ post s', exec s post = some s' → (∀ p ∈ s'.reads, p.1 ≠ 2) ∧ s'.acc = .signalling ∧ .accept ∉ post ∧ .signal ∉ post := by
  refine ⟨[.accept, .signal, .ready, .accept, .signal, .accept, .arrive 2 7],
    ⟨.signalling, 1, 2, some 2, .running, setWire (fun _ => []) 2 [7], [], [], []⟩, rfl, by decide, by decide, ?_⟩
  intro post s' h
  have h' : exec init ([.accept, .signal, .ready, .accept, .signal, .accept, .arrive 2 7] ++ post) = some s' := by
    show Trace.exec _ _ _ = _
    rw [exec_append]
    exact h
  have h2 := c83_at_most_two _ _ h'
  have ha := accepted _ _ h'
  have hcnt : List.count Label.accept [.accept, .signal, .ready, .accept, .signal, .accept, .arrive 2 7] = 3 := by decide
  rw [List.count_append, hcnt] at ha
  have hle := h2.2.1
  rw [List.count_append, hcnt] at hle
  have hsig : s'.acc = .signalling := by
    apply Classical.byContradiction
    intro hn
    rw [if_neg hn] at ha
    omega
  refine ⟨fun p hp => by have := h2.2.2 p hp; omega, hsig, ?_, ?_⟩
  · intro hm
    have := List.count_pos_iff.mpr hm
    omega
  · intro hm
    -- from a state with two connections served there is no signal any more
    obtain ⟨a, b, rfl⟩ := List.append_of_mem hm
    obtain ⟨m, hm1, hm2⟩ : ∃ m, exec init ([.accept, .signal, .ready, .accept, .signal, .accept, .arrive 2 7] ++ a) = some m ∧ exec m (.signal :: b) = some s' := by
      rw [← List.append_assoc] at h'
      have h'' : (exec init ([.accept, .signal, .ready, .accept, .signal, .accept, .arrive 2 7] ++ a)).bind (fun s => exec s (.signal :: b)) = some s' := by
        rw [← h']
        exact (exec_append _ _ _).symm
      cases hx : exec init ([.accept, .signal, .ready, .accept, .signal, .accept, .arrive 2 7] ++ a) with
      | none => rw [hx] at h''; cases h''
      | some m => rw [hx] at h''; exact ⟨m, rfl, h''⟩
    obtain ⟨m', hs, _⟩ := exec_cons hm2
    have h3 := accepted _ _ hm1
    rw [List.count_append, hcnt] at h3
    have h4 := c83_at_most_two _ _ hm1
    simp only [step] at hs
    split at hs
    rotate_left
    · cases hs
    rename_i hc
    have hi := inv_exec _ _ hm1
    have hcount := hi.count
    rw [hc.2] at hcount
    rw [hc.1] at h3
    simp only [if_true] at h3
    split at hcount <;> omega

/-! ## Answering -/

theorem c_kept (mid : List Label) : ∀ s s' : Sys, exec s mid = some s' → .store ∉ mid →
    (.accept ∉ mid → s'.c = s.c) ∧ (.accept ∈ mid → ∃ k, s'.c = some k ∧ s.served ≤ k) ∧ s.served ≤ s'.served := by
  induction mid with
  | nil => intro s s' h _; injection h with h; subst h; exact ⟨fun _ => rfl, by simp, Nat.le_refl _⟩
  | cons l mid ih =>
    intro s s' h hns
    obtain ⟨m, hs, h⟩ := exec_cons h
    obtain ⟨i1, i2, i3⟩ := ih m s' h (fun hm => hns (List.mem_cons_of_mem _ hm))
    have other : (m.c = s.c ∧ s.served ≤ m.served) → l ≠ .accept →
        ((.accept ∉ l :: mid → s'.c = s.c) ∧ (.accept ∈ l :: mid → ∃ k, s'.c = some k ∧ s.served ≤ k) ∧ s.served ≤ s'.served) := by
      rintro ⟨hc, hle⟩ hl
      refine ⟨fun hn => by rw [i1 (fun hm => hn (List.mem_cons_of_mem _ hm)), hc], ?_, by omega⟩
      intro hm
      rcases List.mem_cons.mp hm with hm | hm
      · exact absurd hm.symm hl
      · obtain ⟨k, hk, hk'⟩ := i2 hm
        exact ⟨k, hk, by omega⟩
    cases l with
    | accept =>
      simp only [step] at hs
      split at hs
      rotate_left
      · cases hs
      injection hs with hs; subst hs
      refine ⟨fun hn => absurd List.mem_cons_self hn, fun _ => ?_, i3⟩
      by_cases hm : Label.accept ∈ mid
      · exact i2 hm
      · exact ⟨s.served, i1 hm, Nat.le_refl _⟩
    | signal =>
      simp only [step] at hs
      split at hs
      rotate_left
      · cases hs
      injection hs with hs; subst hs
      exact other ⟨rfl, Nat.le_succ _⟩ (by simp)
    | ready =>
      simp only [step] at hs
      split at hs
      rotate_left
      · cases hs
      injection hs with hs; subst hs
      exact other ⟨rfl, Nat.le_refl _⟩ (by simp)
    | arrive k v =>
      injection hs with hs; subst hs
      exact other ⟨rfl, Nat.le_refl _⟩ (by simp)
    | recv k =>
      simp only [step] at hs
      split at hs
      rotate_left
      · cases hs
      split at hs
      rotate_left
      · cases hs
      injection hs with hs; subst hs
      exact other ⟨rfl, Nat.le_refl _⟩ (by simp)
    | take =>
      simp only [step] at hs
      split at hs
      rotate_left
      · cases hs
      split at hs
      rotate_left
      · cases hs
      injection hs with hs; subst hs
      exact other ⟨rfl, Nat.le_refl _⟩ (by simp)
    | store => exact absurd List.mem_cons_self hns
    | write v =>
      simp only [step] at hs
      split at hs
      rotate_left
      · cases hs
      injection hs with hs; subst hs
      exact other ⟨rfl, Nat.le_refl _⟩ (by simp)

/-- C83, exactly: after a `Read` that returned message `v` of connection `k`, and before the next one, a `Write` goes to `k` if and only if no
connection was accepted in between. -/
theorem c83_answer_iff (pre mid : List Label) (s s1 s2 s3 : Sys) (k v w : Nat) (h : exec init pre = some s)
    (h1 : step s .store = some s1) (hr : s1.reads = s.reads ++ [(k, v)]) (h2 : exec s1 mid = some s2) (hm : .store ∉ mid)
    (h3 : step s2 (.write w) = some s3) :
    s3.writes = s2.writes ++ [(some k, w)] ↔ .accept ∉ mid := by
  have hi := inv_exec pre s h
  simp only [step] at h1
  split at h1
  rotate_left
  · cases h1
  rename_i k' v' hu
  injection h1 with h1; subst h1
  have hkv : (k', v') = (k, v) := by simpa using List.append_cancel_left hr
  injection hkv with hk hv
  subst hk; subst hv
  have hk := hi.reading k' v' hu
  obtain ⟨c1, c2, _⟩ := c_kept mid _ s2 h2 hm
  simp only [step] at h3
  split at h3
  rotate_left
  · cases h3
  injection h3 with h3; subst h3
  have : s2.writes ++ [(s2.c, w)] = s2.writes ++ [(some k', w)] ↔ s2.c = some k' := by
    constructor
    · intro h; simpa using List.append_cancel_left h
    · intro h; rw [h]
  rw [this]
  constructor
  · intro hc hacc
    obtain ⟨j, hj, hle⟩ := c2 hacc
    rw [hc] at hj
    injection hj with hj
    simp only at hle
    omega
  · intro hn
    exact c1 hn

/-- C83 does not hold: a server's session reads a message of the first connection, the second connection is accepted, and the answer goes there. -/
theorem c83_violated : ∃ ls s, exec init ls = some s ∧ s.reads = [(0, 5)] ∧ s.writes = [(some 1, 6)] ∧
    ls.getLast? = some (.write 6) :=
  ⟨[.accept, .signal, .ready, .arrive 0 5, .recv 0, .take, .store, .accept, .write 6],
   ⟨.signalling, 0, 1, some 1, .running, setWire (setWire (fun _ => []) 0 [5]) 0 [], [], [(0, 5)], [(some 1, 6)]⟩, rfl, rfl, rfl, rfl⟩

/-- Non-trivial for `c83_single_partial`: two requests and their answers on one connection. -/
example : ∃ s, exec init [.accept, .arrive 0 1, .signal, .ready, .write 8, .recv 0, .take, .store, .write 9, .arrive 0 2, .recv 0, .take, .store] = some s ∧
    s.reads = [(0, 1), (0, 2)] ∧ s.writes = [(some 0, 8), (some 0, 9)] :=
  ⟨_, rfl, rfl, rfl⟩

/-- Non-trivial for `c83_answer_iff`: with nothing in between, the answer goes to the connection read from. -/
example : ∃ s, exec init [.accept, .signal, .ready, .accept, .signal, .arrive 0 5, .recv 0, .take, .store, .arrive 1 4, .recv 1, .write 6] = some s ∧
    s.writes = [(some 0, 6)] :=
  ⟨_, rfl, rfl⟩

end Verif.Conn.AppSession
