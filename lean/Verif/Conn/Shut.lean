import Verif.Trace

/-!
# Closing a connection (C89)

Both ends of one connection.  On each side a receive goroutine (proc_lowerdeck.go:59-87) and any number of calls of `LowerDeck.OnUpperData`
(proc_lowerdeck.go:98-120) by other goroutines; anybody may call `Close` (proc_lowerdeck.go:22-32, proc_heartbeat.go:77-79, the application).

* Stream connections (tran_tcp.go:39-88, tran_unix.go likewise): `Close` sets a flag and closes the socket, two steps.  A `Read` or `Write` that waits returns
  with an error when the socket is closed on either side; data on the way may then be lost; a `Write` after the other side has closed may still report success.
* Reference connections (tran_reference.go:60-148): `Close` sets a flag of the local object, nothing else.  `GetReference` and `SetReference` test the flag and then wait
  for the channel.

Simplifications: chunks and objects are numbers; what the layers above do with a received one (`handUp`) comes to an end; the network fails only by a side being closed;
the channel of a Reference connection is not closed (`Stop` never gets there, C54).
-/

namespace Verif.Conn.Shut

open Verif.Trace

inductive RPC where
  /-- before the test of `closed` -/
  | top
  /-- in `Read` on the socket, or waiting for the channel -/
  | waiting
  /-- handing up -/
  | up (v : Nat)
  /-- `closeConnection` -/
  | closing
  /-- `c.conn.Close()` -/
  | shutting
  | publishing
  | ended
  deriving Repr, DecidableEq

inductive WPC where
  /-- found the connection open -/
  | checked (v : Nat)
  | closing
  | shutting
  | publishing
  | done
  deriving Repr, DecidableEq

structure Side where
  /-- the flag of the connection object -/
  closed : Bool
  /-- the socket is closed -/
  shut : Bool
  reader : RPC
  /-- what is on the way to this side, oldest first -/
  inq : List Nat
  /-- handed up -/
  got : List Nat
  writers : List WPC
  /-- `ConnectionClosed` events -/
  events : Nat
  deriving Repr, DecidableEq

structure Conf where
  /-- a Reference connection -/
  ref : Bool
  /-- what fits on the way to side `d` -/
  cap : Bool → Nat

abbrev Sys := Bool → Side

def Sys.set (s : Sys) (d : Bool) (x : Side) : Sys := fun e => if e = d then x else s e

inductive Label where
  | check (d : Bool)
  | take (d : Bool)
  | readFail (d : Bool)
  | handUp (d : Bool)
  | readerClose (d : Bool)
  | readerShut (d : Bool)
  | readerPublish (d : Bool)
  /-- somebody calls `OnUpperData` -/
  | write (d : Bool) (v : Nat)
  /-- the same without an object (a control message, C71) -/
  | writeNil (d : Bool)
  | put (d : Bool) (i : Nat)
  /-- a write to a socket whose other end is closed -/
  | lost (d : Bool) (i : Nat)
  /-- a channel without buffer -/
  | handOver (d : Bool) (i : Nat)
  | writeFail (d : Bool) (i : Nat)
  | writerClose (d : Bool) (i : Nat)
  | writerShut (d : Bool) (i : Nat)
  | writerPublish (d : Bool) (i : Nat)
  /-- somebody calls `Close` -/
  | close (d : Bool)
  | shut (d : Bool)
  deriving Repr, DecidableEq

def start : Side := ⟨false, false, .top, [], [], [], 0⟩

def init : Sys := fun _ => start

def Side.setWriter (x : Side) (i : Nat) (w : WPC) : Side := { x with writers := x.writers.set i w }

def step (c : Conf) (s : Sys) : Label → Option Sys
  | .check d => if (s d).reader = .top then some (s.set d { s d with reader := if (s d).closed then .closing else .waiting }) else none
  | .take d =>
    match (s d).reader, (s d).inq with
    | .waiting, v :: q => if c.ref = true ∨ (s d).shut = false then some (s.set d { s d with reader := .up v, inq := q }) else none
    | _, _ => none
  | .readFail d =>
    if (s d).reader = .waiting ∧ c.ref = false ∧ ((s d).shut = true ∨ (s !d).shut = true) then some (s.set d { s d with reader := .closing }) else none
  | .handUp d =>
    match (s d).reader with
    | .up v => some (s.set d { s d with reader := .top, got := (s d).got ++ [v] })
    | _ => none
  | .readerClose d =>
    if (s d).reader = .closing then some (s.set d { s d with closed := true, reader := if c.ref then .publishing else .shutting }) else none
  | .readerShut d => if (s d).reader = .shutting then some (s.set d { s d with shut := true, reader := .publishing }) else none
  | .readerPublish d => if (s d).reader = .publishing then some (s.set d { s d with reader := .ended, events := (s d).events + 1 }) else none
  | .write d v =>
    some (s.set d { s d with writers := (s d).writers ++ [if (s d).closed then (if c.ref then .closing else .done) else .checked v] })
  | .writeNil d => if c.ref then some (s.set d { s d with writers := (s d).writers ++ [.closing] }) else none
  | .put d i =>
    match (s d).writers[i]? with
    | some (.checked v) =>
      if (s !d).inq.length < c.cap (!d) ∧ (c.ref = true ∨ (s d).shut = false ∧ (s !d).shut = false) then
        some ((s.set d ((s d).setWriter i .done)).set (!d) { s !d with inq := (s !d).inq ++ [v] })
      else none
    | _ => none
  | .lost d i =>
    match (s d).writers[i]? with
    | some (.checked _) => if c.ref = false ∧ (s !d).shut = true then some (s.set d ((s d).setWriter i .done)) else none
    | _ => none
  | .handOver d i =>
    match (s d).writers[i]? with
    | some (.checked v) =>
      if c.ref = true ∧ c.cap (!d) = 0 ∧ (s !d).reader = .waiting then
        some ((s.set d ((s d).setWriter i .done)).set (!d) { s !d with reader := .up v })
      else none
    | _ => none
  | .writeFail d i =>
    match (s d).writers[i]? with
    | some (.checked _) => if c.ref = false ∧ ((s d).shut = true ∨ (s !d).shut = true) then some (s.set d ((s d).setWriter i .closing)) else none
    | _ => none
  | .writerClose d i =>
    if (s d).writers[i]? = some .closing then some (s.set d { (s d).setWriter i (if c.ref then .publishing else .shutting) with closed := true }) else none
  | .writerShut d i => if (s d).writers[i]? = some .shutting then some (s.set d { (s d).setWriter i .publishing with shut := true }) else none
  | .writerPublish d i =>
    if (s d).writers[i]? = some .publishing then some (s.set d { (s d).setWriter i .done with events := (s d).events + 1 }) else none
  | .close d => some (s.set d { s d with closed := true })
  | .shut d => if c.ref = false ∧ (s d).closed = true then some (s.set d { s d with shut := true }) else none

abbrev exec (c : Conf) := Trace.exec (step c)

/-! ## Specification -/

/-- What the goroutines do by themselves: no new writes, no further closing. -/
def Label.inner : Label → Bool
  | .write _ _ | .writeNil _ | .close _ | .shut _ => false
  | _ => true

/-- `Close` has been called and has returned. -/
def Gone (c : Conf) (x : Side) : Prop := x.closed = true ∧ (c.ref = true ∨ x.shut = true)

/-- No goroutine can go on. -/
def AtRest (c : Conf) (s : Sys) : Prop := ∀ l, l.inner = true → step c s l = none

/-- The goroutines of a side have come to their ends. -/
def Over (x : Side) : Prop := x.reader = .ended ∧ ∀ w ∈ x.writers, w = .done

/-! ## It always comes to rest -/

@[simp] theorem set_same (s : Sys) (d : Bool) (x : Side) : s.set d x d = x := by simp [Sys.set]
@[simp] theorem set_not (s : Sys) (d : Bool) (x : Side) : s.set d x (!d) = s (!d) := by cases d <;> simp [Sys.set]
@[simp] theorem set_not' (s : Sys) (d : Bool) (x : Side) : s.set (!d) x d = s d := by cases d <;> simp [Sys.set]

def RPC.weight : RPC → Nat
  | .ended => 0
  | .publishing => 1
  | .shutting => 2
  | .closing => 3
  | .waiting => 4
  | .top => 5
  | .up _ => 6

def WPC.weight : WPC → Nat
  | .done => 0
  | .publishing => 1
  | .shutting => 2
  | .closing => 3
  | .checked _ => 4

def Side.weight (x : Side) : Nat := x.reader.weight + 3 * x.inq.length + (x.writers.map WPC.weight).sum

def weight (s : Sys) : Nat := (s false).weight + (s true).weight

theorem weight_eq (s : Sys) (d : Bool) : weight s = (s d).weight + (s !d).weight := by cases d <;> simp [weight] <;> omega

theorem sum_set : ∀ (ws : List WPC) (i : Nat) (w w' : WPC), ws[i]? = some w →
    ((ws.set i w').map WPC.weight).sum + w.weight = (ws.map WPC.weight).sum + w'.weight
  | [], i, w, w', h => by simp at h
  | a :: ws, 0, w, w', h => by
    simp only [List.getElem?_cons_zero, Option.some.injEq] at h
    subst h
    simp only [List.set_cons_zero, List.map_cons, List.sum_cons]
    omega
  | a :: ws, i + 1, w, w', h => by
    simp only [List.getElem?_cons_succ] at h
    have := sum_set ws i w w' h
    simp only [List.set_cons_succ, List.map_cons, List.sum_cons]
    omega

/-- Whatever a goroutine does by itself brings the system closer to rest. -/
theorem inner_less {c : Conf} {s s' : Sys} {l : Label} (hl : l.inner = true) (h : step c s l = some s') : weight s' < weight s := by
  cases l with
  | check d =>
    simp only [step] at h
    split at h
    · rename_i hr
      injection h with h; subst h
      rw [weight_eq _ d, weight_eq s d]
      simp only [set_same, set_not, Side.weight, hr]
      split <;> simp only [RPC.weight] <;> omega
    · simp at h
  | take d =>
    simp only [step] at h
    split at h
    · rename_i v q hr hq
      split at h
      · injection h with h; subst h
        rw [weight_eq _ d, weight_eq s d]
        simp only [set_same, set_not, Side.weight, hr, hq, RPC.weight, List.length_cons]
        omega
      · simp at h
    · simp at h
  | readFail d =>
    simp only [step] at h
    split at h
    · rename_i hr
      injection h with h; subst h
      rw [weight_eq _ d, weight_eq s d]
      simp only [set_same, set_not, Side.weight, hr.1, RPC.weight]
      omega
    · simp at h
  | handUp d =>
    simp only [step] at h
    split at h
    · rename_i v hr
      injection h with h; subst h
      rw [weight_eq _ d, weight_eq s d]
      simp only [set_same, set_not, Side.weight, hr, RPC.weight]
      omega
    · simp at h
  | readerClose d =>
    simp only [step] at h
    split at h
    · rename_i hr
      injection h with h; subst h
      rw [weight_eq _ d, weight_eq s d]
      simp only [set_same, set_not, Side.weight, hr]
      split <;> simp only [RPC.weight] <;> omega
    · simp at h
  | readerShut d =>
    simp only [step] at h
    split at h
    · rename_i hr
      injection h with h; subst h
      rw [weight_eq _ d, weight_eq s d]
      simp only [set_same, set_not, Side.weight, hr, RPC.weight]
      omega
    · simp at h
  | readerPublish d =>
    simp only [step] at h
    split at h
    · rename_i hr
      injection h with h; subst h
      rw [weight_eq _ d, weight_eq s d]
      simp only [set_same, set_not, Side.weight, hr, RPC.weight]
      omega
    · simp at h
  | write d v => simp [Label.inner] at hl
  | writeNil d => simp [Label.inner] at hl
  | close d => simp [Label.inner] at hl
  | shut d => simp [Label.inner] at hl
  | put d i =>
    simp only [step] at h
    split at h
    · rename_i v hw
      split at h
      · injection h with h; subst h
        have := sum_set _ _ _ .done hw
        rw [weight_eq _ d, weight_eq s d]
        simp only [set_same, set_not', Side.weight, Side.setWriter, List.length_append, List.length_cons, List.length_nil, WPC.weight] at this ⊢
        omega
      · simp at h
    · simp at h
  | lost d i =>
    simp only [step] at h
    split at h
    · rename_i v hw
      split at h
      · injection h with h; subst h
        have := sum_set _ _ _ .done hw
        rw [weight_eq _ d, weight_eq s d]
        simp only [set_same, set_not, Side.weight, Side.setWriter, WPC.weight] at this ⊢
        omega
      · simp at h
    · simp at h
  | handOver d i =>
    simp only [step] at h
    split at h
    · rename_i v hw
      split at h
      · rename_i hc
        injection h with h; subst h
        have := sum_set _ _ _ .done hw
        rw [weight_eq _ d, weight_eq s d]
        simp only [set_same, set_not', Side.weight, Side.setWriter, WPC.weight, hc.2.2, RPC.weight] at this ⊢
        omega
      · simp at h
    · simp at h
  | writeFail d i =>
    simp only [step] at h
    split at h
    · rename_i v hw
      split at h
      · injection h with h; subst h
        have := sum_set _ _ _ .closing hw
        rw [weight_eq _ d, weight_eq s d]
        simp only [set_same, set_not, Side.weight, Side.setWriter, WPC.weight] at this ⊢
        omega
      · simp at h
    · simp at h
  | writerClose d i =>
    simp only [step] at h
    split at h
    · rename_i hw
      injection h with h; subst h
      have := sum_set _ _ _ (if c.ref then .publishing else .shutting) hw
      rw [weight_eq _ d, weight_eq s d]
      have h2 : (if c.ref then WPC.publishing else .shutting).weight ≤ 2 := by split <;> simp [WPC.weight]
      have h3 : WPC.closing.weight = 3 := rfl
      simp only [set_same, set_not, Side.weight, Side.setWriter]
      omega
    · simp at h
  | writerShut d i =>
    simp only [step] at h
    split at h
    · rename_i hw
      injection h with h; subst h
      have := sum_set _ _ _ .publishing hw
      rw [weight_eq _ d, weight_eq s d]
      simp only [set_same, set_not, Side.weight, Side.setWriter, WPC.weight] at this ⊢
      omega
    · simp at h
  | writerPublish d i =>
    simp only [step] at h
    split at h
    · rename_i hw
      injection h with h; subst h
      have := sum_set _ _ _ .done hw
      rw [weight_eq _ d, weight_eq s d]
      simp only [set_same, set_not, Side.weight, Side.setWriter, WPC.weight] at this ⊢
      omega
    · simp at h

theorem weights_le : ∀ ws : List WPC, (ws.map WPC.weight).sum ≤ 4 * ws.length
  | [] => by simp
  | w :: ws => by
    have := weights_le ws
    have : w.weight ≤ 4 := by cases w <;> simp [WPC.weight]
    simp only [List.map_cons, List.sum_cons, List.length_cons]
    omega

theorem rests (c : Conf) (n : Nat) : ∀ s, weight s ≤ n → ∃ ls s', (∀ l ∈ ls, Label.inner l = true) ∧ exec c s ls = some s' ∧ AtRest c s' := by
  induction n with
  | zero =>
    intro s hs
    refine ⟨[], s, by simp, rfl, fun l hl => ?_⟩
    cases h : step c s l with
    | none => rfl
    | some s' => have := inner_less hl h; omega
  | succ n ih =>
    intro s hs
    by_cases hr : AtRest c s
    · exact ⟨[], s, by simp, rfl, hr⟩
    · obtain ⟨l, hl, hne⟩ : ∃ l, Label.inner l = true ∧ step c s l ≠ none :=
        Classical.byContradiction fun h => hr fun l hl => Classical.byContradiction fun h' => h ⟨l, hl, h'⟩
      obtain ⟨s1, h1⟩ := Option.ne_none_iff_exists'.mp hne
      have := inner_less hl h1
      obtain ⟨ls, s', a, b, e⟩ := ih s1 (by omega)
      refine ⟨l :: ls, s', ?_, by simp only [exec, Trace.exec, h1]; exact b, e⟩
      intro k hk
      rcases List.mem_cons.mp hk with rfl | hk
      · exact hl
      · exact a k hk

/-- C89: left to themselves the goroutines of both sides come to rest after a bounded number of steps, from every state. -/
theorem c89_rests (c : Conf) (s : Sys) :
    (∀ ls s', (∀ l ∈ ls, Label.inner l = true) → exec c s ls = some s' →
      ls.length ≤ 12 + 3 * ((s false).inq.length + (s true).inq.length) + 4 * ((s false).writers.length + (s true).writers.length)) ∧
    ∃ ls s', (∀ l ∈ ls, Label.inner l = true) ∧ exec c s ls = some s' ∧ AtRest c s' := by
  refine ⟨fun ls s' hi he => ?_, rests c _ s (Nat.le_refl _)⟩
  have h : ∀ (ls : List Label) (s s' : Sys), (∀ l ∈ ls, Label.inner l = true) → exec c s ls = some s' → ls.length + weight s' ≤ weight s := by
    intro ls
    induction ls with
    | nil => intro s s' _ he; injection he with he; subst he; simp
    | cons l ls ih =>
      intro s s' hi he
      obtain ⟨m, h1, h2⟩ := exec_cons (step := step c) he
      have := ih m s' (fun k hk => hi k (List.mem_cons_of_mem _ hk)) h2
      have := inner_less (hi l List.mem_cons_self) h1
      simp only [List.length_cons]
      omega
  have h1 := h ls s s' hi he
  have r : ∀ d, (s d).weight ≤ 6 + 3 * (s d).inq.length + 4 * (s d).writers.length := by
    intro d
    have := weights_le (s d).writers
    have : (s d).reader.weight ≤ 6 := by cases (s d).reader <;> simp [RPC.weight]
    simp only [Side.weight]
    omega
  have := r false
  have := r true
  simp only [weight] at h1
  omega

/-! ## One side -/

/-- How a step looks from one side. -/
inductive View (c : Conf) (d : Bool) (peerShut : Bool) (l : Label) (x x' : Side) : Prop
  /-- nothing that concerns the reader -/
  | other (hr : x'.reader = x.reader) (hq : x'.inq = x.inq) (hg : x'.got = x.got) (hc : x.closed = true → x'.closed = true) (hs : x.shut = true → x'.shut = true)
    (he : x.events ≤ x'.events)
  | arrive (v : Nat) (hl : ∃ i, l = .put (!d) i) (hlt : x.inq.length < c.cap d) (h : x' = { x with inq := x.inq ++ [v] })
  | handed (v : Nat) (hl : ∃ i, l = .handOver (!d) i) (hc : c.ref = true ∧ c.cap d = 0) (hr : x.reader = .waiting) (h : x' = { x with reader := .up v })
  | check (hr : x.reader = .top) (h : x' = { x with reader := if x.closed then .closing else .waiting })
  | take (v : Nat) (q : List Nat) (hr : x.reader = .waiting) (hq : x.inq = v :: q) (ho : c.ref = true ∨ x.shut = false) (h : x' = { x with reader := .up v, inq := q })
  | fail (hc : c.ref = false) (hp : x.shut = true ∨ peerShut = true) (hr : x.reader = .waiting) (h : x' = { x with reader := .closing })
  | handUp (v : Nat) (hr : x.reader = .up v) (h : x' = { x with reader := .top, got := x.got ++ [v] })
  | rclose (hr : x.reader = .closing) (h : x' = { x with closed := true, reader := if c.ref then .publishing else .shutting })
  | rshut (hr : x.reader = .shutting) (h : x' = { x with shut := true, reader := .publishing })
  | rpublish (hr : x.reader = .publishing) (h : x' = { x with reader := .ended, events := x.events + 1 })

theorem both {P : Bool → Prop} (d : Bool) (h1 : P d) (h2 : P (!d)) : ∀ e, P e := by
  intro e
  cases d <;> cases e <;> assumption

theorem view {c : Conf} {s s' : Sys} {l : Label} (h : step c s l = some s') : ∀ e, View c e (s !e).shut l (s e) (s' e) := by
  have keep : ∀ (e d : Bool) (x : Side), View c e (s !e).shut l (s e) (s.set d x e) ∨ e = d := by
    intro e d x
    by_cases hed : e = d
    · exact .inr hed
    · exact .inl (by simp only [Sys.set, if_neg hed]; exact .other rfl rfl rfl id id (Nat.le_refl _))
  cases l with
  | check d =>
    simp only [step] at h
    split at h
    · rename_i hr
      injection h with h; subst h
      refine fun e => (keep e d _).elim id fun he => ?_
      subst he; rw [set_same]
      exact .check hr rfl
    · simp at h
  | take d =>
    simp only [step] at h
    split at h
    · rename_i v q hr hq
      split at h
      · rename_i ho
        injection h with h; subst h
        refine fun e => (keep e d _).elim id fun he => ?_
        subst he; rw [set_same]
        exact .take v q hr hq ho rfl
      · simp at h
    · simp at h
  | readFail d =>
    simp only [step] at h
    split at h
    · rename_i hr
      injection h with h; subst h
      refine fun e => (keep e d _).elim id fun he => ?_
      subst he; rw [set_same]
      exact .fail hr.2.1 hr.2.2 hr.1 rfl
    · simp at h
  | handUp d =>
    simp only [step] at h
    split at h
    · rename_i v hr
      injection h with h; subst h
      refine fun e => (keep e d _).elim id fun he => ?_
      subst he; rw [set_same]
      exact .handUp v hr rfl
    · simp at h
  | readerClose d =>
    simp only [step] at h
    split at h
    · rename_i hr
      injection h with h; subst h
      refine fun e => (keep e d _).elim id fun he => ?_
      subst he; rw [set_same]
      exact .rclose hr rfl
    · simp at h
  | readerShut d =>
    simp only [step] at h
    split at h
    · rename_i hr
      injection h with h; subst h
      refine fun e => (keep e d _).elim id fun he => ?_
      subst he; rw [set_same]
      exact .rshut hr rfl
    · simp at h
  | readerPublish d =>
    simp only [step] at h
    split at h
    · rename_i hr
      injection h with h; subst h
      refine fun e => (keep e d _).elim id fun he => ?_
      subst he; rw [set_same]
      exact .rpublish hr rfl
    · simp at h
  | write d v =>
    injection h with h; subst h
    refine fun e => (keep e d _).elim id fun he => ?_
    subst he; rw [set_same]
    exact .other rfl rfl rfl id id (Nat.le_refl _)
  | writeNil d =>
    simp only [step] at h
    split at h
    · injection h with h; subst h
      refine fun e => (keep e d _).elim id fun he => ?_
      subst he; rw [set_same]
      exact .other rfl rfl rfl id id (Nat.le_refl _)
    · simp at h
  | close d =>
    injection h with h; subst h
    refine fun e => (keep e d _).elim id fun he => ?_
    subst he; rw [set_same]
    exact .other rfl rfl rfl (fun _ => rfl) id (Nat.le_refl _)
  | shut d =>
    simp only [step] at h
    split at h
    · injection h with h; subst h
      refine fun e => (keep e d _).elim id fun he => ?_
      subst he; rw [set_same]
      exact .other rfl rfl rfl id (fun _ => rfl) (Nat.le_refl _)
    · simp at h
  | put d i =>
    simp only [step] at h
    split at h
    · rename_i v hw
      split at h
      · rename_i hc
        injection h with h; subst h
        refine both d ?_ ?_
        · rw [set_not', set_same]; exact .other rfl rfl rfl id id (Nat.le_refl _)
        · rw [set_same]
          exact .arrive v ⟨i, by rw [Bool.not_not]⟩ hc.1 rfl
      · simp at h
    · simp at h
  | handOver d i =>
    simp only [step] at h
    split at h
    · rename_i v hw
      split at h
      · rename_i hc
        injection h with h; subst h
        refine both d ?_ ?_
        · rw [set_not', set_same]; exact .other rfl rfl rfl id id (Nat.le_refl _)
        · rw [set_same]
          exact .handed v ⟨i, by rw [Bool.not_not]⟩ ⟨hc.1, hc.2.1⟩ hc.2.2 rfl
      · simp at h
    · simp at h
  | lost d i =>
    simp only [step] at h
    split at h
    · split at h
      · injection h with h; subst h
        refine fun e => (keep e d _).elim id fun he => ?_
        subst he; rw [set_same]
        exact .other rfl rfl rfl id id (Nat.le_refl _)
      · simp at h
    · simp at h
  | writeFail d i =>
    simp only [step] at h
    split at h
    · split at h
      · injection h with h; subst h
        refine fun e => (keep e d _).elim id fun he => ?_
        subst he; rw [set_same]
        exact .other rfl rfl rfl id id (Nat.le_refl _)
      · simp at h
    · simp at h
  | writerClose d i =>
    simp only [step] at h
    split at h
    · injection h with h; subst h
      refine fun e => (keep e d _).elim id fun he => ?_
      subst he; rw [set_same]
      exact .other rfl rfl rfl (fun _ => rfl) id (Nat.le_refl _)
    · simp at h
  | writerShut d i =>
    simp only [step] at h
    split at h
    · injection h with h; subst h
      refine fun e => (keep e d _).elim id fun he => ?_
      subst he; rw [set_same]
      exact .other rfl rfl rfl id (fun _ => rfl) (Nat.le_refl _)
    · simp at h
  | writerPublish d i =>
    simp only [step] at h
    split at h
    · injection h with h; subst h
      refine fun e => (keep e d _).elim id fun he => ?_
      subst he; rw [set_same]
      exact .other rfl rfl rfl id id (Nat.le_succ _)
    · simp at h

/-! ## Stream connections -/

/-- C89 for stream connections: once either side is closed, the goroutines of both sides that read from or write to the connection come to their ends: when nobody can go on, all
have ended.
Missing: Reference connections (`c89_iff`). -/
theorem c89_stream_partial (c : Conf) (hc : c.ref = false) (s : Sys) (d : Bool) (hg : Gone c (s d)) (hr : AtRest c s) : ∀ e, Over (s e) := by
  have hshut : (s d).shut = true := by
    rcases hg.2 with h | h
    · rw [hc] at h; cases h
    · exact h
  have hany : ∀ e, (s e).shut = true ∨ (s !e).shut = true := both d (.inl hshut) (.inr (by rw [Bool.not_not]; exact hshut))
  intro e
  constructor
  · cases hp : (s e).reader with
    | top => have := hr (.check e) rfl; simp [step, hp] at this
    | waiting => have := hr (.readFail e) rfl; simp [step, hp, hc] at this; have h2 := hany e; simp [this] at h2
    | up v => have := hr (.handUp e) rfl; simp [step, hp] at this
    | closing => have := hr (.readerClose e) rfl; simp [step, hp] at this
    | shutting => have := hr (.readerShut e) rfl; simp [step, hp] at this
    | publishing => have := hr (.readerPublish e) rfl; simp [step, hp] at this
    | ended => rfl
  · intro w hw
    obtain ⟨i, hi, hg⟩ := List.getElem_of_mem hw
    have hw' : (s e).writers[i]? = some w := by rw [List.getElem?_eq_getElem hi, hg]
    cases w with
    | checked v => have := hr (.writeFail e i) rfl; simp [step, hw', hc] at this; have h2 := hany e; simp [this] at h2
    | closing => have := hr (.writerClose e i) rfl; simp [step, hw'] at this
    | shutting => have := hr (.writerShut e i) rfl; simp [step, hw'] at this
    | publishing => have := hr (.writerPublish e i) rfl; simp [step, hw'] at this
    | done => rfl

/-- C89 for stream connections: after `Close` has returned nothing more is received on this side; only what had been received before may still be handed up. -/
theorem c89_silent (c : Conf) (hc : c.ref = false) (d : Bool) (s : Sys) (hg : Gone c (s d)) (ls : List Label) (s' : Sys) (h : exec c s ls = some s') :
    (s' d).got = (s d).got ∨ ∃ v, (s d).reader = .up v ∧ (s' d).got = (s d).got ++ [v] := by
  have hshut : (s d).shut = true := by
    rcases hg.2 with h | h
    · rw [hc] at h; cases h
    · exact h
  have key := invariant (step := step c) (Q := fun _ => True)
    (P := fun t => (t d).shut = true ∧ (((t d).got = (s d).got ∧ ∀ v, (t d).reader = .up v → (s d).reader = .up v) ∨
      (∃ v, (s d).reader = .up v ∧ (t d).got = (s d).got ++ [v]) ∧ ∀ v, (t d).reader ≠ .up v)) ?_ ls s s' ⟨hshut, .inl ⟨rfl, fun _ => id⟩⟩ (fun _ _ => trivial) h
  · rcases key.2 with h | h
    · exact .inl h.1
    · exact .inr h.1
  · rintro t l t' ⟨p1, p2⟩ - ht
    have no : ∀ {r : RPC} {u : Side}, u.reader = r → (∀ v, r ≠ .up v) → u.got = (t d).got → 
        ((u.got = (s d).got ∧ ∀ v, u.reader = .up v → (s d).reader = .up v) ∨
        (∃ v, (s d).reader = .up v ∧ u.got = (s d).got ++ [v]) ∧ ∀ v, u.reader ≠ .up v) := by
      intro r u h1 h2 h3
      rcases p2 with ⟨g, _⟩ | ⟨g, _⟩
      · exact .inl ⟨by rw [h3, g], fun v hv => absurd (h1 ▸ hv) (h2 v)⟩
      · exact .inr ⟨by rw [h3]; exact g, fun v hv => h2 v (h1 ▸ hv)⟩
    cases view ht d with
    | other hr hq hgo hcl hs _ => exact ⟨hs p1, by rw [hr, hgo]; exact p2⟩
    | arrive v hl hlt h => rw [h]; exact ⟨p1, p2⟩
    | handed v hl hcr hr h => rw [hc] at hcr; cases hcr.1
    | check hr h => rw [h]; exact ⟨p1, no rfl (by intro v; split <;> simp) rfl⟩
    | take v q hr hq ho h => rw [hc, p1] at ho; rcases ho with ho | ho <;> cases ho
    | fail hcr hp hr h => rw [h]; exact ⟨p1, no rfl (by simp) rfl⟩
    | handUp v hr h =>
      rw [h]
      refine ⟨p1, .inr ⟨?_, by simp⟩⟩
      rcases p2 with ⟨g, g2⟩ | ⟨_, g2⟩
      · exact ⟨v, g2 v hr, by simp only [g]⟩
      · exact absurd hr (g2 v)
    | rclose hr h => rw [h]; exact ⟨p1, no rfl (by intro v; split <;> simp) rfl⟩
    | rshut hr h => rw [h]; exact ⟨rfl, no rfl (by simp) rfl⟩
    | rpublish hr h => rw [h]; exact ⟨p1, no rfl (by simp) rfl⟩

/-- C89: a receive goroutine that has ended has closed the connection and told the stack. -/
theorem c89_told (c : Conf) (ls : List Label) (s : Sys) (h : exec c init ls = some s) (d : Bool) (he : (s d).reader = .ended) :
    1 ≤ (s d).events ∧ (s d).closed = true := by
  have key := invariant (step := step c) (Q := fun _ => True)
    (P := fun t => ((t d).reader = .ended → 1 ≤ (t d).events) ∧ ((t d).reader ∈ [.shutting, .publishing, .ended] → (t d).closed = true)) ?_ ls init s
    ⟨by simp [init, start], by simp [init, start]⟩ (fun _ _ => trivial) h
  · exact ⟨key.1 he, key.2 (by simp [he])⟩
  · rintro t l t' ⟨p1, p2⟩ - ht
    cases view ht d with
    | other hr hq hgo hcl hs hev => exact ⟨fun h => Nat.le_trans (p1 (hr ▸ h)) hev, fun h => hcl (p2 (hr ▸ h))⟩
    | arrive v hl hlt h => rw [h]; exact ⟨p1, p2⟩
    | handed v hl hcr hr h => rw [h]; exact ⟨by simp, by simp⟩
    | check hr h =>
      rw [h]
      constructor
      · simp only; split <;> simp
      · simp only; split <;> simp
    | take v q hr hq ho h => rw [h]; exact ⟨by simp, by simp⟩
    | fail hcr hp hr h => rw [h]; exact ⟨by simp, by simp⟩
    | handUp v hr h => rw [h]; exact ⟨by simp, by simp⟩
    | rclose hr h => rw [h]; exact ⟨by simp only; split <;> simp, fun _ => rfl⟩
    | rshut hr h => rw [h]; exact ⟨by simp, fun _ => p2 (by simp [hr])⟩
    | rpublish hr h => rw [h]; exact ⟨fun _ => Nat.succ_le_succ (Nat.zero_le _), fun _ => p2 (by simp [hr])⟩

/-! ## Reference connections -/

/-- How many objects a receive goroutine may still hand up after its connection is closed. -/
def RPC.allow : RPC → Nat
  | .waiting | .up _ => 1
  | _ => 0

/-- C89 for Reference connections: after `Close` at most one more object is handed up. -/
theorem c89_one_more (c : Conf) (d : Bool) (s : Sys) (hg : (s d).closed = true) (ls : List Label) (s' : Sys) (h : exec c s ls = some s') :
    ∃ l, (s' d).got = (s d).got ++ l ∧ l.length ≤ 1 := by
  have key := invariant (step := step c) (Q := fun _ => True)
    (P := fun t => (t d).closed = true ∧ ∃ l, (t d).got = (s d).got ++ l ∧ l.length + (t d).reader.allow ≤ 1) ?_ ls s s'
    ⟨hg, [], by simp, by cases (s d).reader <;> simp [RPC.allow]⟩ (fun _ _ => trivial) h
  · obtain ⟨_, l, h1, h2⟩ := key
    exact ⟨l, h1, by omega⟩
  · rintro t l t' ⟨p1, k, p2, p3⟩ - ht
    cases view ht d with
    | other hr hq hgo hcl hs hev => exact ⟨hcl p1, k, by rw [hgo]; exact p2, by rw [hr]; exact p3⟩
    | arrive v hl hlt h => rw [h]; exact ⟨p1, k, p2, p3⟩
    | handed v hl hcr hr h => rw [h]; exact ⟨p1, k, p2, by rw [hr] at p3; exact p3⟩
    | check hr h => rw [h]; exact ⟨p1, k, p2, by simp only [p1, if_true]; simp only [RPC.allow]; omega⟩
    | take v q hr hq ho h => rw [h]; exact ⟨p1, k, p2, by rw [hr] at p3; exact p3⟩
    | fail hcr hp hr h => rw [h]; exact ⟨p1, k, p2, by simp only [RPC.allow]; omega⟩
    | handUp v hr h =>
      rw [h]
      refine ⟨p1, k ++ [v], by simp only [p2, List.append_assoc], ?_⟩
      rw [hr] at p3
      simp only [RPC.allow, List.length_append, List.length_cons, List.length_nil] at p3 ⊢
      omega
    | rclose hr h => rw [h]; exact ⟨rfl, k, p2, by simp only; split <;> simp only [RPC.allow] <;> omega⟩
    | rshut hr h => rw [h]; exact ⟨p1, k, p2, by simp only [RPC.allow]; omega⟩
    | rpublish hr h => rw [h]; exact ⟨p1, k, p2, by simp only [RPC.allow]; omega⟩

def WPC.isChecked : WPC → Bool
  | .checked _ => true
  | _ => false

/-- Calls of `SetReference` that have found the connection open and not returned yet. -/
def Side.pending (x : Side) : Nat := x.writers.countP WPC.isChecked

theorem count_set : ∀ (ws : List WPC) (i : Nat) (w w' : WPC), ws[i]? = some w →
    (ws.set i w').countP WPC.isChecked + (if w.isChecked then 1 else 0) = ws.countP WPC.isChecked + (if w'.isChecked then 1 else 0)
  | [], i, w, w', h => by simp at h
  | a :: ws, 0, w, w', h => by
    simp only [List.getElem?_cons_zero, Option.some.injEq] at h
    subst h
    simp only [List.set_cons_zero, List.countP_cons]
    omega
  | a :: ws, i + 1, w, w', h => by
    simp only [List.getElem?_cons_succ] at h
    have := count_set ws i w w' h
    simp only [List.set_cons_succ, List.countP_cons]
    omega

/-- How a step by the goroutines themselves looks to the writers of one side of a Reference connection. -/
inductive Writers (c : Conf) (d : Bool) (l : Label) (x x' : Side) : Prop
  | other (hw : x'.writers = x.writers) (hc : x'.closed = x.closed ∨ x.reader = .closing) (he : x'.events = x.events ∨ x.reader = .publishing)
  /-- a new call -/
  | new (w : WPC) (hl : (∃ v, l = .write d v ∧ w = if x.closed then .closing else .checked v) ∨ l = .writeNil d ∧ w = .closing)
      (h : x' = { x with writers := x.writers ++ [w] })
  /-- a call gets through -/
  | through (i : Nat) (v : Nat) (hl : l = .put d i ∨ l = .handOver d i) (hw : x.writers[i]? = some (.checked v)) (h : x' = x.setWriter i .done)
  /-- a call closes the connection -/
  | closes (i : Nat) (hw : x.writers[i]? = some .closing) (h : x' = { x.setWriter i .publishing with closed := true })
  | tells (i : Nat) (w : WPC) (hw : x.writers[i]? = some w) (hne : w = .publishing ∨ w = .shutting) (w' : WPC) (hn' : w'.isChecked = false)
      (h : x'.writers = x.writers.set i w') (hc : x'.closed = x.closed)
  | close (hl : l = .close d) (hw : x'.writers = x.writers)

theorem writers_view {c : Conf} (hc : c.ref = true) {s s' : Sys} {l : Label} (h : step c s l = some s') : ∀ e, Writers c e l (s e) (s' e) := by
  have keep : ∀ (e d : Bool) (x : Side), Writers c e l (s e) (s.set d x e) ∨ e = d := by
    intro e d x
    by_cases hed : e = d
    · exact .inr hed
    · exact .inl (by simp only [Sys.set, if_neg hed]; exact .other rfl (.inl rfl) (.inl rfl))
  cases l with
  | check d =>
    simp only [step] at h
    split at h
    · injection h with h; subst h
      refine fun e => (keep e d _).elim id fun he => ?_
      subst he; rw [set_same]
      exact .other rfl (.inl rfl) (.inl rfl)
    · simp at h
  | take d =>
    simp only [step] at h
    split at h
    · split at h
      · injection h with h; subst h
        refine fun e => (keep e d _).elim id fun he => ?_
        subst he; rw [set_same]
        exact .other rfl (.inl rfl) (.inl rfl)
      · simp at h
    · simp at h
  | readFail d => simp [step, hc] at h
  | handUp d =>
    simp only [step] at h
    split at h
    · injection h with h; subst h
      refine fun e => (keep e d _).elim id fun he => ?_
      subst he; rw [set_same]
      exact .other rfl (.inl rfl) (.inl rfl)
    · simp at h
  | readerClose d =>
    simp only [step] at h
    split at h
    · rename_i hr
      injection h with h; subst h
      refine fun e => (keep e d _).elim id fun he => ?_
      subst he; rw [set_same]
      exact .other rfl (.inr hr) (.inl rfl)
    · simp at h
  | readerShut d =>
    simp only [step] at h
    split at h
    · injection h with h; subst h
      refine fun e => (keep e d _).elim id fun he => ?_
      subst he; rw [set_same]
      exact .other rfl (.inl rfl) (.inl rfl)
    · simp at h
  | readerPublish d =>
    simp only [step] at h
    split at h
    · rename_i hr
      injection h with h; subst h
      refine fun e => (keep e d _).elim id fun he => ?_
      subst he; rw [set_same]
      exact .other rfl (.inl rfl) (.inr hr)
    · simp at h
  | write d v =>
    injection h with h; subst h
    refine fun e => (keep e d _).elim id fun he => ?_
    subst he; rw [set_same]
    exact .new _ (.inl ⟨v, rfl, by simp [hc]⟩) rfl
  | writeNil d =>
    simp only [step, hc, if_true] at h
    injection h with h; subst h
    refine fun e => (keep e d _).elim id fun he => ?_
    subst he; rw [set_same]
    exact .new _ (.inr ⟨rfl, rfl⟩) rfl
  | close d =>
    injection h with h; subst h
    refine fun e => (keep e d _).elim id fun he => ?_
    subst he; rw [set_same]
    exact .close rfl rfl
  | shut d => simp [step, hc] at h
  | put d i =>
    simp only [step] at h
    split at h
    · rename_i v hw
      split at h
      · injection h with h; subst h
        refine both d ?_ ?_
        · rw [set_not', set_same]; exact .through i v (.inl rfl) hw rfl
        · rw [set_same]; exact .other rfl (.inl rfl) (.inl rfl)
      · simp at h
    · simp at h
  | handOver d i =>
    simp only [step] at h
    split at h
    · rename_i v hw
      split at h
      · injection h with h; subst h
        refine both d ?_ ?_
        · rw [set_not', set_same]; exact .through i v (.inr rfl) hw rfl
        · rw [set_same]; exact .other rfl (.inl rfl) (.inl rfl)
      · simp at h
    · simp at h
  | lost d i =>
    simp only [step] at h
    split at h
    · simp [hc] at h
    · simp at h
  | writeFail d i =>
    simp only [step] at h
    split at h
    · simp [hc] at h
    · simp at h
  | writerClose d i =>
    simp only [step] at h
    split at h
    · rename_i hw
      injection h with h; subst h
      refine fun e => (keep e d _).elim id fun he => ?_
      subst he; rw [set_same]
      exact .closes i hw (by simp)
    · simp at h
  | writerShut d i =>
    simp only [step] at h
    split at h
    · rename_i hw
      injection h with h; subst h
      refine fun e => (keep e d _).elim id fun he => ?_
      subst he; rw [set_same]
      exact .tells i _ hw (.inr rfl) .publishing rfl rfl rfl
    · simp at h
  | writerPublish d i =>
    simp only [step] at h
    split at h
    · rename_i hw
      injection h with h; subst h
      refine fun e => (keep e d _).elim id fun he => ?_
      subst he; rw [set_same]
      exact .tells i _ hw (.inl rfl) .done rfl rfl rfl
    · simp at h

theorem mem_set_or {ws : List WPC} {i : Nat} {w a : WPC} (h : a ∈ ws.set i w) : a ∈ ws ∨ a = w := List.mem_or_eq_of_mem_set h

/-- C89 fails for Reference connections: the other side is not told. Whatever happens on side `d`, as long as nobody closes the connection on the other side, the goroutine that
receives there goes on waiting and no event is published there. -/
theorem c89_not_told (c : Conf) (hc : c.ref = true) (d : Bool) (ls : List Label) (s : Sys) (h : exec c init ls = some s)
    (hno : ∀ l ∈ ls, l ≠ .close (!d) ∧ l ≠ .writeNil (!d)) :
    (s !d).closed = false ∧ (s !d).events = 0 ∧ ((s !d).reader = .top ∨ (s !d).reader = .waiting ∨ ∃ v, (s !d).reader = .up v) := by
  have key := invariant (step := step c) (Q := fun l => l ≠ .close (!d) ∧ l ≠ .writeNil (!d))
    (P := fun t => (t !d).closed = false ∧ (t !d).events = 0 ∧ ((t !d).reader = .top ∨ (t !d).reader = .waiting ∨ ∃ v, (t !d).reader = .up v) ∧
      ∀ w ∈ (t !d).writers, w = .done ∨ ∃ v, w = .checked v) ?_ ls init s
    ⟨rfl, rfl, .inl rfl, by simp [init, start]⟩ hno h
  · exact ⟨key.1, key.2.1, key.2.2.1⟩
  · rintro t l t' ⟨p1, p2, p3, p4⟩ ⟨q1, q2⟩ ht
    have nr : (t !d).reader ≠ .closing ∧ (t !d).reader ≠ .publishing := by
      rcases p3 with h | h | ⟨v, h⟩ <;> rw [h] <;> simp
    have hreader : (t' !d).reader = .top ∨ (t' !d).reader = .waiting ∨ ∃ v, (t' !d).reader = .up v := by
      cases view ht (!d) with
      | other hr hq hgo hcl hs hev => rw [hr]; exact p3
      | arrive v hl hlt h => rw [h]; exact p3
      | handed v hl hcr hr h => rw [h]; exact .inr (.inr ⟨v, rfl⟩)
      | check hr h => rw [h, p1]; exact .inr (.inl rfl)
      | take v q hr hq ho h => rw [h]; exact .inr (.inr ⟨v, rfl⟩)
      | fail hcr hp hr h => rw [hc] at hcr; cases hcr
      | handUp v hr h => rw [h]; exact .inl rfl
      | rclose hr h => exact absurd hr nr.1
      | rshut hr h => rw [hr] at p3; simp at p3
      | rpublish hr h => exact absurd hr nr.2
    have hnot : ∀ {i : Nat} {w : WPC}, (t !d).writers[i]? = some w → w = .done ∨ ∃ v, w = .checked v := fun h => p4 _ (List.mem_of_getElem? h)
    cases writers_view hc ht (!d) with
    | other hw hcl hev =>
      refine ⟨?_, ?_, hreader, by rw [hw]; exact p4⟩
      · rcases hcl with h | h
        · rw [h]; exact p1
        · exact absurd h nr.1
      · rcases hev with h | h
        · rw [h]; exact p2
        · exact absurd h nr.2
    | new w hl h =>
      refine ⟨by rw [h]; exact p1, by rw [h]; exact p2, hreader, ?_⟩
      rw [h]
      intro a ha
      rcases List.mem_append.mp ha with ha | ha
      · exact p4 a ha
      · rw [List.mem_singleton] at ha
        subst ha
        rcases hl with ⟨v, _, hw⟩ | ⟨hl, _⟩
        · rw [p1] at hw; exact .inr ⟨v, hw⟩
        · exact absurd hl q2
    | through i v hl hw h =>
      refine ⟨by rw [h]; exact p1, by rw [h]; exact p2, hreader, ?_⟩
      rw [h]
      intro a ha
      rcases mem_set_or ha with ha | ha
      · exact p4 a ha
      · exact .inl ha
    | closes i hw h => rcases hnot hw with h | ⟨v, h⟩ <;> cases h
    | tells i w hw hne w' hn' h hcl =>
      rcases hnot hw with h | ⟨v, h⟩ <;> rw [h] at hne <;> rcases hne with hne | hne <;> cases hne
    | close hl hw => exact absurd hl q1

/-- C89 fails for Reference connections: once the receive goroutine of side `d` has ended, what the other side sends is lost without an error. It is never handed up; it fills the
channel; and a call that finds the channel full never returns, whatever happens, even if the connection is closed on its own side as well. -/
theorem c89_lost (c : Conf) (hc : c.ref = true) (d : Bool) (s : Sys) (he : (s d).reader = .ended) (ls : List Label) (s' : Sys) (h : exec c s ls = some s') :
    (s' d).reader = .ended ∧ (s' d).got = (s d).got ∧ (∃ l, (s' d).inq = (s d).inq ++ l) ∧
    ((s d).inq.length ≤ c.cap d → (s' d).inq.length ≤ c.cap d) ∧
    (c.cap d ≤ (s d).inq.length → ∀ (i v : Nat), (s !d).writers[i]? = some (WPC.checked v) → (s' !d).writers[i]? = some (WPC.checked v)) := by
  refine invariant (step := step c) (Q := fun _ => True)
    (P := fun t => (t d).reader = .ended ∧ (t d).got = (s d).got ∧ (∃ l, (t d).inq = (s d).inq ++ l) ∧
    ((s d).inq.length ≤ c.cap d → (t d).inq.length ≤ c.cap d) ∧
    (c.cap d ≤ (s d).inq.length → ∀ (i v : Nat), (s !d).writers[i]? = some (WPC.checked v) → (t !d).writers[i]? = some (WPC.checked v))) ?_ ls s s'
    ⟨he, rfl, ⟨[], by simp⟩, id, fun _ _ _ => id⟩ (fun _ _ => trivial) h
  rintro t l t' ⟨p1, p2, ⟨k, p3⟩, p4, p5⟩ - ht
  have hstay : c.cap d ≤ (s d).inq.length → ∀ (i v : Nat), (s !d).writers[i]? = some (WPC.checked v) → (t' !d).writers[i]? = some (WPC.checked v) := by
    intro hf i v hi
    have hi' := p5 hf i v hi
    have hfull : c.cap d ≤ (t d).inq.length := by rw [p3, List.length_append]; omega
    have other : ∀ {j : Nat} {w w' : WPC}, (t !d).writers[j]? = some w → w.isChecked = false → ((t !d).writers.set j w')[i]? = some (.checked v) := by
      intro j w w' hj hw
      have : j ≠ i := by
        intro e
        subst e
        rw [hi'] at hj
        injection hj with hj
        subst hj
        simp [WPC.isChecked] at hw
      rw [List.getElem?_set_ne this]
      exact hi'
    cases writers_view hc ht (!d) with
    | other hw hcl hev => rw [hw]; exact hi'
    | new w hl h => rw [h]; exact List.getElem?_append_left (List.getElem?_eq_some_iff.mp hi').1 ▸ hi'
    | through j w hl hw h =>
      exfalso
      cases view ht d with
      | arrive u hl' hlt h' => omega
      | handed u hl' hcr hr h' => rw [p1] at hr; cases hr
      | other hr hq hgo hcl hs hev =>
        rcases hl with hl | hl
        · subst hl
          simp only [step, hw, Bool.not_not] at ht
          split at ht
          · omega
          · simp at ht
        · subst hl
          simp only [step, hw, Bool.not_not, p1] at ht
          simp at ht
      | check hr h' => rw [p1] at hr; cases hr
      | take u q hr hq ho h' => rw [p1] at hr; cases hr
      | fail hcr hp hr h' => rw [p1] at hr; cases hr
      | handUp u hr h' => rw [p1] at hr; cases hr
      | rclose hr h' => rw [p1] at hr; cases hr
      | rshut hr h' => rw [p1] at hr; cases hr
      | rpublish hr h' => rw [p1] at hr; cases hr
    | closes j hw h => rw [h]; exact other hw rfl
    | tells j w hw hne w' hn' h hcl => rw [h]; exact other hw (by rcases hne with rfl | rfl <;> rfl)
    | close hl hw => rw [hw]; exact hi'
  cases view ht d with
  | other hr hq hgo hcl hs hev => exact ⟨by rw [hr]; exact p1, by rw [hgo]; exact p2, ⟨k, by rw [hq]; exact p3⟩, by rw [hq]; exact p4, hstay⟩
  | arrive v hl hlt h =>
    refine ⟨by rw [h]; exact p1, by rw [h]; exact p2, ⟨k ++ [v], by rw [h]; simp [p3]⟩, fun _ => ?_, hstay⟩
    rw [h]
    simp only [List.length_append, List.length_cons, List.length_nil]
    omega
  | handed v hl hcr hr h => rw [p1] at hr; cases hr
  | check hr h => rw [p1] at hr; cases hr
  | take v q hr hq ho h => rw [p1] at hr; cases hr
  | fail hcr hp hr h => rw [p1] at hr; cases hr
  | handUp v hr h => rw [p1] at hr; cases hr
  | rclose hr h => rw [p1] at hr; cases hr
  | rshut hr h => rw [p1] at hr; cases hr
  | rpublish hr h => rw [p1] at hr; cases hr

/-- How a step by the goroutines themselves looks to the way from the other side to side `d` of a Reference connection. -/
theorem pend_step {c : Conf} (hc : c.ref = true) {s s' : Sys} {l : Label} (hl : l.inner = true) (h : step c s l = some s') (d : Bool) :
    ((s' !d).pending = (s !d).pending ∧ ((s' d).inq = (s d).inq ∧ ((s' d).reader = .waiting → (s d).reader = .waiting ∨ (s d).closed = false) ∨
      (s d).reader = .waiting ∧ ∃ v, (s' d).reader = .up v)) ∨
    (s' !d).pending + 1 = (s !d).pending ∧
      ((∃ v, s' d = { s d with inq := (s d).inq ++ [v] } ∧ (s d).inq.length < c.cap d) ∨ ∃ v, s' d = { s d with reader := .up v } ∧ (s d).reader = .waiting) := by
  have done : ∀ {i v : Nat}, (s !d).writers[i]? = some (WPC.checked v) → ((s !d).setWriter i .done).pending + 1 = (s !d).pending := by
    intro i v hw
    have := count_set _ _ _ .done hw
    simp only [WPC.isChecked, if_true] at this
    simp only [Side.pending, Side.setWriter]
    simpa using this
  by_cases hput : ∃ i, l = .put (!d) i
  · obtain ⟨i, rfl⟩ := hput
    simp only [step, Bool.not_not] at h
    split at h
    · rename_i v hw
      split at h
      · rename_i hlt
        injection h with h; subst h
        refine .inr ⟨?_, .inl ⟨v, by rw [set_same], hlt.1⟩⟩
        rw [set_not, set_same]
        exact done hw
      · simp at h
    · simp at h
  by_cases hover : ∃ i, l = .handOver (!d) i
  · obtain ⟨i, rfl⟩ := hover
    simp only [step, Bool.not_not] at h
    split at h
    · rename_i v hw
      split at h
      · rename_i hlt
        injection h with h; subst h
        refine .inr ⟨?_, .inr ⟨v, by rw [set_same], hlt.2.2⟩⟩
        rw [set_not, set_same]
        exact done hw
      · simp at h
    · simp at h
  refine .inl ⟨?_, ?_⟩
  · cases writers_view hc h (!d) with
    | other hw hcl hev => simp only [Side.pending, hw]
    | new w hl' h' =>
      rcases hl' with ⟨v, rfl, _⟩ | ⟨rfl, _⟩ <;> simp [Label.inner] at hl
    | through i v hl' hw h' =>
      rcases hl' with h | h
      · exact absurd ⟨i, h⟩ hput
      · exact absurd ⟨i, h⟩ hover
    | closes i hw h' =>
      have := count_set _ _ _ .publishing hw
      rw [h']
      simp only [Side.pending, Side.setWriter]
      simpa [WPC.isChecked] using this
    | tells i w hw hne w' hn' h' hcl =>
      have := count_set _ _ _ w' hw
      have hw0 : w.isChecked = false := by rcases hne with rfl | rfl <;> rfl
      simp only [hw0, hn'] at this
      simp only [Side.pending, h']
      simpa using this
    | close hl' hw => simp only [Side.pending, hw]
  · cases view h d with
    | other hr hq hgo hcl hs hev => exact .inl ⟨hq, fun h => .inl (hr ▸ h)⟩
    | arrive v hl' hlt h' => exact absurd hl' hput
    | handed v hl' hcr hr h' => exact absurd hl' hover
    | check hr h' =>
      rw [h']
      refine .inl ⟨rfl, fun h => .inr ?_⟩
      cases hcl : (s d).closed with
      | false => rfl
      | true => rw [hcl] at h; simp at h
    | take v q hr hq ho h' => exact .inr ⟨hr, v, by rw [h']⟩
    | fail hcr hp hr h' => rw [h']; exact .inl ⟨rfl, by simp⟩
    | handUp v hr h' => rw [h']; exact .inl ⟨rfl, by simp⟩
    | rclose hr h' => rw [h']; exact .inl ⟨rfl, by simp only; split <;> simp⟩
    | rshut hr h' => rw [h']; exact .inl ⟨rfl, by simp⟩
    | rpublish hr h' => rw [h']; exact .inl ⟨rfl, by simp⟩

theorem pending_pos {x : Side} (h : 0 < x.pending) : ∃ (i v : Nat), x.writers[i]? = some (WPC.checked v) := by
  obtain ⟨w, hw, hc⟩ := List.countP_pos_iff.mp h
  obtain ⟨i, hi, hg⟩ := List.getElem_of_mem hw
  cases w with
  | checked v => exact ⟨i, v, by rw [List.getElem?_eq_getElem hi, hg]⟩
  | _ => simp [WPC.isChecked] at hc

/-- C89, exactly when nobody waits for ever to send to a closed side of a Reference connection: the receive goroutine of side `d` having ended, all calls of the other side that have
found the connection open return if and only if what they send fits into what is left of the channel. -/
theorem c89_blocks_exact (c : Conf) (hc : c.ref = true) (d : Bool) (s : Sys) (he : (s d).reader = .ended) (hle : (s d).inq.length ≤ c.cap d) :
    (∀ ls s', (∀ l ∈ ls, Label.inner l = true) → exec c s ls = some s' → AtRest c s' → (s' !d).pending = 0) ↔
      (s d).inq.length + (s !d).pending ≤ c.cap d := by
  have inv : ∀ ls s', (∀ l ∈ ls, Label.inner l = true) → exec c s ls = some s' →
      (s' d).reader = .ended ∧ (s' d).inq.length ≤ c.cap d ∧ (s' d).inq.length + (s' !d).pending = (s d).inq.length + (s !d).pending := by
    intro ls s' hi h
    refine invariant (step := step c) (Q := fun l => Label.inner l = true)
      (P := fun t => (t d).reader = .ended ∧ (t d).inq.length ≤ c.cap d ∧ (t d).inq.length + (t !d).pending = (s d).inq.length + (s !d).pending) ?_ ls s s'
      ⟨he, hle, rfl⟩ hi h
    rintro t l t' ⟨p1, p2, p3⟩ hl ht
    have hend := (c89_lost c hc d t p1 [l] t' (by simp only [exec, Trace.exec, ht]; rfl)).1
    rcases pend_step hc hl ht d with ⟨h1, h2⟩ | ⟨h1, h2⟩
    · rcases h2 with ⟨h2, _⟩ | ⟨h2, _⟩
      · exact ⟨hend, by rw [h2]; exact p2, by rw [h1, h2]; exact p3⟩
      · rw [p1] at h2; cases h2
    · rcases h2 with ⟨v, h2, h3⟩ | ⟨v, _, h3⟩
      · refine ⟨hend, ?_, ?_⟩ <;> rw [h2] <;> simp only [List.length_append, List.length_cons, List.length_nil] <;> omega
      · rw [p1] at h3; cases h3
  constructor
  · intro H
    obtain ⟨ls, s', hi, h, hr⟩ := rests c _ s (Nat.le_refl _)
    obtain ⟨_, h2, h3⟩ := inv ls s' hi h
    have := H ls s' hi h hr
    omega
  · intro hroom ls s' hi h hr
    obtain ⟨_, h2, h3⟩ := inv ls s' hi h
    refine Classical.byContradiction fun hp => ?_
    obtain ⟨i, v, hw⟩ := pending_pos (Nat.pos_of_ne_zero hp)
    have := hr (.put (!d) i) rfl
    simp only [step, hw, Bool.not_not, hc, true_or, and_true] at this
    split at this
    · cases this
    · omega

/-- C89, exactly when the receive goroutine of a closed side of a Reference connection ends: unless it is already waiting for the channel, the channel is empty and no call of the
other side is about to send; nobody wakes it up then. -/
theorem c89_reader_exact (c : Conf) (hc : c.ref = true) (d : Bool) (s : Sys) (hcl : (s d).closed = true) :
    (∀ ls s', (∀ l ∈ ls, Label.inner l = true) → exec c s ls = some s' → AtRest c s' → (s' d).reader = .ended) ↔
      ¬ ((s d).reader = .waiting ∧ (s d).inq = [] ∧ (s !d).pending = 0) := by
  constructor
  · rintro H ⟨h1, h2, h3⟩
    obtain ⟨ls, s', hi, h, hr⟩ := rests c _ s (Nat.le_refl _)
    have := invariant (step := step c) (Q := fun l => Label.inner l = true)
      (P := fun t => (t d).reader = .waiting ∧ (t d).inq = [] ∧ (t !d).pending = 0) ?_ ls s s' ⟨h1, h2, h3⟩ hi h
    · rw [H ls s' hi h hr] at this
      cases this.1
    · rintro t l t' ⟨p1, p2, p3⟩ hl ht
      rcases pend_step hc hl ht d with ⟨g1, g2⟩ | ⟨g1, _⟩
      · cases view ht d with
        | other hr hq hgo hcl hs hev => exact ⟨by rw [hr]; exact p1, by rw [hq]; exact p2, by rw [g1]; exact p3⟩
        | arrive v hl' hlt h' => rw [h', p2] at g2; simp [p1] at g2
        | handed v hl' hcr hr h' =>
          obtain ⟨i, rfl⟩ := hl'
          exfalso
          simp only [step, Bool.not_not] at ht
          split at ht
          · rename_i u hw
            have : 0 < (t !d).pending := List.countP_pos_iff.mpr ⟨_, List.mem_of_getElem? hw, rfl⟩
            omega
          · simp at ht
        | take v q hr hq ho h' => rw [p2] at hq; cases hq
        | check hr h' => rw [p1] at hr; cases hr
        | fail hcr hp hr h' => rw [hc] at hcr; cases hcr
        | handUp u hr h' => rw [p1] at hr; cases hr
        | rclose hr h' => rw [p1] at hr; cases hr
        | rshut hr h' => rw [p1] at hr; cases hr
        | rpublish hr h' => rw [p1] at hr; cases hr
      · omega
  · intro hne ls s' hi h hr
    have key := invariant (step := step c) (Q := fun l => Label.inner l = true)
      (P := fun t => (t d).closed = true ∧ ¬ ((t d).reader = .waiting ∧ (t d).inq = [] ∧ (t !d).pending = 0)) ?_ ls s s' ⟨hcl, hne⟩ hi h
    · obtain ⟨_, key⟩ := key
      cases hp : (s' d).reader with
      | top => have := hr (.check d) rfl; simp [step, hp] at this
      | waiting =>
        exfalso
        cases hq : (s' d).inq with
        | cons v q => have := hr (.take d) rfl; simp [step, hp, hq, hc] at this
        | nil =>
          have hpos : 0 < (s' !d).pending := Nat.pos_of_ne_zero fun h0 => key ⟨hp, hq, h0⟩
          obtain ⟨i, v, hw⟩ := pending_pos hpos
          by_cases hcap : c.cap d = 0
          · have := hr (.handOver (!d) i) rfl
            simp [step, hw, hc, hcap, hp] at this
          · have := hr (.put (!d) i) rfl
            simp [step, hw, hc, hq] at this
            omega
      | up v => have := hr (.handUp d) rfl; simp [step, hp] at this
      | closing => have := hr (.readerClose d) rfl; simp [step, hp] at this
      | shutting => have := hr (.readerShut d) rfl; simp [step, hp] at this
      | publishing => have := hr (.readerPublish d) rfl; simp [step, hp] at this
      | ended => rfl
    · rintro t l t' ⟨p1, p2⟩ hl ht
      have hcl' : (t' d).closed = true := by
        cases view ht d with
        | other hr hq hgo hcl hs hev => exact hcl p1
        | arrive v hl' hlt h' => rw [h']; exact p1
        | handed v hl' hcr hr h' => rw [h']; exact p1
        | check hr h' => rw [h']; exact p1
        | take v q hr hq ho h' => rw [h']; exact p1
        | fail hcr hp hr h' => rw [h']; exact p1
        | handUp v hr h' => rw [h']; exact p1
        | rclose hr h' => rw [h']
        | rshut hr h' => rw [h']; exact p1
        | rpublish hr h' => rw [h']; exact p1
      refine ⟨hcl', ?_⟩
      rintro ⟨q1, q2, q3⟩
      rcases pend_step hc hl ht d with ⟨g1, g2⟩ | ⟨_, g2⟩
      · rcases g2 with ⟨g2, g3⟩ | ⟨_, v, g2⟩
        · rcases g3 q1 with g3 | g3
          · exact p2 ⟨g3, g2 ▸ q2, g1 ▸ q3⟩
          · rw [p1] at g3; cases g3
        · rw [q1] at g2; cases g2
      · rcases g2 with ⟨v, g2, _⟩ | ⟨v, g2, _⟩
        · rw [g2] at q2; simp at q2
        · rw [g2] at q1; cases q1

/-! ## Both kinds -/

/-- Both receive goroutines wait, then side `false` is closed. -/
def quiet : Sys := fun d => if d then { start with reader := .waiting } else { start with reader := .waiting, closed := true }

theorem quiet_reached (c : Conf) : exec c init [.check false, .check true, .close false] = some quiet := by
  have h : exec c init [.check false, .check true, .close false] =
      some (((init.set false { start with reader := .waiting }).set true { start with reader := .waiting }).set false { start with reader := .waiting, closed := true }) := rfl
  rw [h]
  congr 1
  funext d
  cases d <;> rfl

theorem quiet_rests (c : Conf) (hc : c.ref = true) : AtRest c quiet := by
  intro l hl
  cases l with
  | write d v => simp [Label.inner] at hl
  | writeNil d => simp [Label.inner] at hl
  | close d => simp [Label.inner] at hl
  | shut d => simp [Label.inner] at hl
  | _ d => cases d <;> simp [step, quiet, start, hc]

/-- C89: closing a connection on one side ends the goroutines that read from it and write to it, on both sides and in every run, if and only if the connection is not a Reference
connection. -/
theorem c89_iff (c : Conf) :
    (∀ ls s, exec c init ls = some s → (∃ d, Gone c (s d)) → AtRest c s → ∀ e, Over (s e)) ↔ c.ref = false := by
  constructor
  · intro H
    cases hc : c.ref with
    | false => rfl
    | true =>
      have := H _ _ (quiet_reached c) ⟨false, rfl, .inl hc⟩ (quiet_rests c hc) false
      cases this.1
  · rintro hc ls s - ⟨d, hg⟩ hr
    exact c89_stream_partial c hc s d hg hr

/-! ## Examples -/

section Examples

def tcp : Conf := ⟨false, fun _ => 4⟩
def chan1 : Conf := ⟨true, fun _ => 1⟩

/-- Both sides of a connection after a run. -/
def show2 (c : Conf) (ls : List Label) : Option (Side × Side) := (exec c init ls).map fun s => (s false, s true)

/-- A stream connection in use, then closed on side `false` while the other side waits for data and a call there is about to write. -/
def tcpRun : List Label :=
  [.check false, .check true, .write false 7, .put false 0, .take true, .handUp true, .check true, .write true 8, .close false, .shut false]

/-- Side `false` is gone; both receive goroutines wait and one call is in `Write`: the hypotheses of `c89_stream_partial` are met once the goroutines have come to rest. -/
example : show2 tcp tcpRun = some (⟨true, true, .waiting, [], [], [.done], 0⟩, ⟨false, false, .waiting, [], [7], [.checked 8], 0⟩) := rfl

example : show2 tcp (tcpRun ++ [.readFail false, .readerClose false, .readerShut false, .readerPublish false, .readFail true, .readerClose true, .writeFail true 0, .writerClose true 0,
      .readerShut true, .readerPublish true, .writerShut true 0, .writerPublish true 0]) =
    some (⟨true, true, .ended, [], [], [.done], 1⟩, ⟨true, true, .ended, [], [7], [.done], 2⟩) := rfl

/-- `c89_one_more` is sharp: an object arrives after `Close` and is handed up. -/
example : show2 chan1 [.check false, .close false, .write true 5, .put true 0, .take false, .handUp false] =
    some (⟨true, false, .top, [], [5], [], 0⟩, ⟨false, false, .top, [], [], [.done], 0⟩) := rfl

/-- Side `false` of a Reference connection is closed and its receive goroutine has ended; the other side goes on sending: the first object fills the channel, the second call waits. -/
def stuckRun : List Label :=
  [.check true, .close false, .check false, .readerClose false, .readerPublish false, .write true 5, .put true 0, .write true 6]

example : show2 chan1 stuckRun = some (⟨true, false, .ended, [5], [], [], 1⟩, ⟨false, false, .waiting, [], [], [.done, .checked 6], 0⟩) := rfl

/-- … whatever happens from here, even when the connection is closed on the sending side too. -/
theorem c89_stuck (s s' : Sys) (hs : exec chan1 init stuckRun = some s) (ls : List Label) (h : exec chan1 s ls = some s') : (s' true).writers[1]? = some (.checked 6) := by
  have h2 : show2 chan1 stuckRun = some (⟨true, false, .ended, [5], [], [], 1⟩, ⟨false, false, .waiting, [], [], [.done, .checked 6], 0⟩) := rfl
  simp only [show2, hs, Option.map_some, Option.some.injEq, Prod.mk.injEq] at h2
  exact (c89_lost chan1 rfl false s (by rw [h2.1]) ls s' h).2.2.2.2 (by rw [h2.1]; decide) 1 6 (by rw [Bool.not_false, h2.2]; rfl)

/-- … and at the same time nothing on the sending side has been told (`c89_not_told` with `d = false`). -/
example : ∀ l ∈ stuckRun, l ≠ .close true ∧ l ≠ .writeNil true := by decide

/-- `c89_blocks_exact`: what is in the channel and what is about to be sent do not fit. -/
example : ¬ ([5].length + (⟨false, false, .waiting, [], [], [.done, .checked 6], 0⟩ : Side).pending ≤ chan1.cap false) := by decide

/-- `c89_reader_exact` applies to `quiet`: closed, waiting, nothing to come. -/
example : (quiet false).closed = true ∧ (quiet false).reader = .waiting ∧ (quiet false).inq = [] ∧ (quiet !false).pending = 0 := ⟨rfl, rfl, rfl, rfl⟩

end Examples

end Verif.Conn.Shut
