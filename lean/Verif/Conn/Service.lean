import Verif.Trace

/-!
# Clients that stop reading (C80)

A server with many clients.  Its answers come from the data listener of an endpoint, as in examples/microservices and
examples/speedtest: the receive goroutines (one per connection, proc_lowerdeck.go:59-87) put the requests into the endpoint's receive
channel, the listener's goroutine (endp_default.go:82-93) answers on the transmit channel, and the one service goroutine of the endpoint
(proc_upperdeck.go:47-67) writes every answer to its connection, where it waits while the connection is full.  Or they come from an Echo
(proc_echo.go:28-35): then the receive goroutine of the connection writes the answer itself.

A connection holds up to `cap` answers, for TCP or Unix sockets what the buffers of the operating systems take, for a Reference transport
the size of its queue (tran_reference.go:43-49).

Simplifications: every request is answered by one answer; connections are not closed; requests wait for the server in a queue without bound
(so that a client can always make one).
-/

namespace Verif.Conn.Service

open Verif.Trace

def upd {α : Type} (f : Nat → α) (i : Nat) (x : α) : Nat → α := fun j => if j = i then x else f j

@[simp] theorem upd_same {α : Type} (f : Nat → α) (i : Nat) (x : α) : upd f i x i = x := by simp [upd]
theorem upd_other {α : Type} (f : Nat → α) {i j : Nat} (x : α) (h : j ≠ i) : upd f i x j = f j := by simp [upd, h]

/-- What the server's side of the endpoint is like. -/
structure Conf where
  /-- what the listener answers -/
  answer : Nat → Nat
  /-- capacity of the receive and transmit channels (endp_default.go:100-101) -/
  chan : Nat
  /-- capacity of the connection back to each client -/
  cap : Nat → Nat

structure Sys where
  /-- per client: requests not read by the server yet -/
  asked : Nat → List Nat
  /-- per client: in the hands of the receive goroutine -/
  hand : Nat → Option Nat
  /-- receive channel, (client, request) -/
  rx : List (Nat × Nat)
  /-- in the hands of the listener, (client, request) -/
  lis : Option (Nat × Nat)
  /-- transmit channel, (client, answer) -/
  tx : List (Nat × Nat)
  /-- in the hands of the service goroutine, (client, answer) -/
  srv : Option (Nat × Nat)
  /-- per client: answers the client has not read yet -/
  back : Nat → List Nat
  /-- per client: answers it has read -/
  got : Nat → List Nat

inductive Label where
  /-- client `c` makes a request -/
  | ask (c v : Nat)
  /-- the receive goroutine of `c` reads -/
  | read (c : Nat)
  /-- … and puts the request into the receive channel -/
  | deliver (c : Nat)
  /-- the listener's goroutine takes a request -/
  | listen
  /-- … and answers it -/
  | answer
  /-- the service goroutine takes an answer -/
  | serve
  /-- … and writes it -/
  | write
  /-- client `c` reads an answer -/
  | take (c : Nat)
  deriving Repr, DecidableEq

def step (k : Conf) (s : Sys) : Label → Option Sys
  | .ask c v => some { s with asked := upd s.asked c (s.asked c ++ [v]) }
  | .read c =>
    match s.asked c, s.hand c with
    | v :: rest, none => some { s with asked := upd s.asked c rest, hand := upd s.hand c (some v) }
    | _, _ => none
  | .deliver c =>
    match s.hand c with
    | some v => if s.rx.length < k.chan then some { s with hand := upd s.hand c none, rx := s.rx ++ [(c, v)] } else none
    | none => none
  | .listen =>
    match s.rx, s.lis with
    | m :: rest, none => some { s with rx := rest, lis := some m }
    | _, _ => none
  | .answer =>
    match s.lis with
    | some (c, v) => if s.tx.length < k.chan then some { s with lis := none, tx := s.tx ++ [(c, k.answer v)] } else none
    | none => none
  | .serve =>
    match s.tx, s.srv with
    | m :: rest, none => some { s with tx := rest, srv := some m }
    | _, _ => none
  | .write =>
    match s.srv with
    | some (c, v) => if (s.back c).length < k.cap c then some { s with srv := none, back := upd s.back c (s.back c ++ [v]) } else none
    | none => none
  | .take c =>
    match s.back c with
    | v :: rest => some { s with back := upd s.back c rest, got := upd s.got c (s.got c ++ [v]) }
    | [] => none

abbrev exec (k : Conf) := Trace.exec (step k)

def init : Sys := ⟨fun _ => [], fun _ => none, [], none, [], none, fun _ => [], fun _ => []⟩

/-! ## Specification -/

/-- The requests client `c` has made, read off the schedule. -/
def requests (c : Nat) (ls : List Label) : List Nat :=
  ls.filterMap fun | .ask c' v => if c' = c then some v else none | _ => none

/-- Somebody who works for the server can go on. -/
def CanGoOn (k : Conf) (s : Sys) : Prop :=
  ∃ l, (step k s l).isSome ∧ (∀ c v, l ≠ .ask c v) ∧ ∀ c, l ≠ .take c

/-! ## Proofs -/

/-- What of a list is for client `c`. -/
def of (c : Nat) (ms : List (Nat × Nat)) : List Nat := ms.filterMap fun m => if m.1 = c then some m.2 else none

theorem of_append (c : Nat) (a b : List (Nat × Nat)) : of c (a ++ b) = of c a ++ of c b := by simp [of]
theorem of_cons (c : Nat) (m : Nat × Nat) (b : List (Nat × Nat)) : of c (m :: b) = (if m.1 = c then [m.2] else []) ++ of c b := by
  by_cases h : m.1 = c <;> simp [of, h]
theorem of_nil (c : Nat) : of c [] = [] := rfl

/-- Everything on the way for client `c`, as it will arrive, oldest first. -/
def way (k : Conf) (s : Sys) (c : Nat) : List Nat :=
  s.back c ++ of c s.srv.toList ++ of c s.tx ++ (of c s.lis.toList).map k.answer ++ (of c s.rx).map k.answer ++
    ((s.hand c).toList).map k.answer ++ (s.asked c).map k.answer

theorem order_step {k : Conf} {s s' : Sys} {l : Label} (h : step k s l = some s') (c : Nat) :
    s'.got c ++ way k s' c = s.got c ++ way k s c ++ (requests c [l]).map k.answer := by
  cases l with
  | ask d v =>
    simp only [step] at h
    injection h with h; subst h
    by_cases e : d = c
    · subst e; simp [way, requests]
    · simp [way, requests, e, upd_other _ _ (Ne.symm e)]
  | read d =>
    simp only [step] at h
    split at h
    · rename_i v rest h1 h2
      injection h with h; subst h
      by_cases e : d = c
      · subst e; simp [way, requests, h1, h2]
      · simp [way, requests, upd_other _ _ (Ne.symm e)]
    · cases h
  | deliver d =>
    simp only [step] at h
    split at h
    · rename_i v h1
      split at h
      · injection h with h; subst h
        by_cases e : d = c
        · subst e; simp [way, requests, h1, of_append, of_cons, of_nil]
        · simp [way, requests, upd_other _ _ (Ne.symm e), of_append, of_cons, of_nil, e]
      · cases h
    · cases h
  | listen =>
    simp only [step] at h
    split at h
    · rename_i m rest h1 h2
      injection h with h; subst h
      by_cases e : m.1 = c <;> simp [way, requests, h1, h2, of_cons, of_nil, e]
    · cases h
  | answer =>
    simp only [step] at h
    split at h
    · rename_i d v h1
      split at h
      · injection h with h; subst h
        by_cases e : d = c <;> simp [way, requests, h1, of_append, of_cons, of_nil, e]
      · cases h
    · cases h
  | serve =>
    simp only [step] at h
    split at h
    · rename_i m rest h1 h2
      injection h with h; subst h
      by_cases e : m.1 = c <;> simp [way, requests, h1, h2, of_cons, of_nil, e]
    · cases h
  | write =>
    simp only [step] at h
    split at h
    · rename_i d v h1
      split at h
      · injection h with h; subst h
        by_cases e : d = c
        · subst e; simp [way, requests, h1, of_cons, of_nil]
        · simp [way, requests, h1, of_cons, of_nil, e, upd_other _ _ (Ne.symm e)]
      · cases h
    · cases h
  | take d =>
    simp only [step] at h
    split at h
    · rename_i v rest h1
      injection h with h; subst h
      by_cases e : d = c
      · subst e; simp [way, requests, h1]
      · simp [way, requests, upd_other _ _ (Ne.symm e)]
    · cases h

theorem order {k : Conf} {ls : List Label} : ∀ {s : Sys}, exec k init ls = some s → ∀ c,
    s.got c ++ way k s c = (requests c ls).map k.answer := by
  induction ls using snoc_induction with
  | h0 => intro s h c; injection h with h; subst h; simp [init, way, requests, of]
  | h1 ls l ih =>
    intro s h c
    obtain ⟨m, h1, h2⟩ := exec_snoc h
    rw [order_step h2, ih h1]
    simp [requests]

/-- **C80** Every client gets the answers to its own requests, in order and nothing else. -/
theorem c80_answers (k : Conf) (ls : List Label) (s : Sys) (h : exec k init ls = some s) (c : Nat) :
    s.got c = ((requests c ls).map k.answer).take (s.got c).length := by
  rw [← order h c, List.take_left' rfl]

/-- **C80** While nobody who works for the server can go on, a client that is still owed an answer can read one, or some client has let its
connection fill up: the service goroutine holds an answer for it. -/
theorem c80_blocked_by (k : Conf) (hk : 0 < k.chan) (ls : List Label) (s : Sys) (h : exec k init ls = some s)
    (hs : ¬ CanGoOn k s) (c : Nat) (hc : (s.got c).length < (requests c ls).length) :
    s.back c ≠ [] ∨ ∃ d v, s.srv = some (d, v) ∧ k.cap d ≤ (s.back d).length := by
  have no : ∀ l, (∀ c v, l ≠ .ask c v) → (∀ c, l ≠ .take c) → step k s l = none := by
    intro l h1 h2
    cases hl : step k s l with
    | none => rfl
    | some s' => exact absurd ⟨l, by rw [hl]; rfl, h1, h2⟩ hs
  have hlen := congrArg List.length (order h c)
  rw [List.length_append, List.length_map] at hlen
  have hw : way k s c ≠ [] := by intro e; rw [e] at hlen; simp at hlen; omega
  cases hsrv : s.srv with
  | some m =>
    right
    obtain ⟨d, v⟩ := m
    have hn := no .write (by simp) (by simp)
    simp only [step, hsrv] at hn
    split at hn
    · cases hn
    · exact ⟨d, v, rfl, by omega⟩
  | none =>
    left
    have htx : s.tx = [] := by
      have hn := no .serve (by simp) (by simp)
      simp only [step, hsrv] at hn
      cases ht : s.tx with
      | nil => rfl
      | cons m r => rw [ht] at hn; simp at hn
    have hlis : s.lis = none := by
      have hn := no .answer (by simp) (by simp)
      simp only [step, htx] at hn
      cases hl : s.lis with
      | none => rfl
      | some m => rw [hl] at hn; simp [hk] at hn
    have hrx : s.rx = [] := by
      have hn := no .listen (by simp) (by simp)
      simp only [step, hlis] at hn
      cases hr : s.rx with
      | nil => rfl
      | cons m r => rw [hr] at hn; simp at hn
    have hhand : s.hand c = none := by
      have hn := no (.deliver c) (by simp) (by simp)
      simp only [step, hrx] at hn
      cases hh : s.hand c with
      | none => rfl
      | some v => rw [hh] at hn; simp [hk] at hn
    have hask : s.asked c = [] := by
      have hn := no (.read c) (by simp) (by simp)
      simp only [step, hhand] at hn
      cases ha : s.asked c with
      | nil => rfl
      | cons v r => rw [ha] at hn; simp at hn
    intro hb
    apply hw
    simp [way, hsrv, htx, hlis, hrx, hhand, hask, hb, of]

/-- **C80** So if nobody leaves an answer unread, everybody is answered: when nobody can go on, nothing is owed. -/
theorem c80_reading_partial (k : Conf) (hk : 0 < k.chan) (hcap : ∀ c, 0 < k.cap c) (ls : List Label) (s : Sys) (h : exec k init ls = some s)
    (hs : ¬ CanGoOn k s) (hread : ∀ c, s.back c = []) (c : Nat) : s.got c = (requests c ls).map k.answer := by
  have h1 := c80_answers k ls s h c
  have h2 := congrArg List.length h1
  rw [List.length_take, List.length_map] at h2
  by_cases hlt : (s.got c).length < (requests c ls).length
  · rcases c80_blocked_by k hk ls s h hs c hlt with hb | ⟨d, v, _, hd⟩
    · exact absurd (hread c) hb
    · have := hcap d; rw [hread d] at hd; simp at hd; omega
  · rw [List.take_of_length_le (by rw [List.length_map]; omega)] at h1
    exact h1

/-- The service goroutine waits for client `d`. -/
def Waiting (k : Conf) (d : Nat) (s : Sys) : Prop := (∃ v, s.srv = some (d, v)) ∧ (s.back d).length = k.cap d

theorem waiting_step {k : Conf} {d : Nat} {s s' : Sys} {l : Label} (hw : Waiting k d s) (hl : l ≠ .take d) (h : step k s l = some s') :
    Waiting k d s' ∧ ∀ c, c ≠ d → (s'.got c).length + (s'.back c).length = (s.got c).length + (s.back c).length := by
  obtain ⟨⟨v, hv⟩, hb⟩ := hw
  cases l with
  | ask c x => simp only [step] at h; injection h with h; subst h; exact ⟨⟨⟨v, hv⟩, hb⟩, fun _ _ => rfl⟩
  | read c =>
    simp only [step] at h
    split at h
    · injection h with h; subst h; exact ⟨⟨⟨v, hv⟩, hb⟩, fun _ _ => rfl⟩
    · cases h
  | deliver c =>
    simp only [step] at h
    split at h
    · split at h
      · injection h with h; subst h; exact ⟨⟨⟨v, hv⟩, hb⟩, fun _ _ => rfl⟩
      · cases h
    · cases h
  | listen =>
    simp only [step] at h
    split at h
    · injection h with h; subst h; exact ⟨⟨⟨v, hv⟩, hb⟩, fun _ _ => rfl⟩
    · cases h
  | answer =>
    simp only [step] at h
    split at h
    · split at h
      · injection h with h; subst h; exact ⟨⟨⟨v, hv⟩, hb⟩, fun _ _ => rfl⟩
      · cases h
    · cases h
  | serve =>
    simp only [step] at h
    split at h
    · rename_i h1 h2; rw [hv] at h2; cases h2
    · cases h
  | write =>
    simp only [step, hv] at h
    split at h
    · omega
    · cases h
  | take c =>
    have hne : d ≠ c := by intro e; subst e; exact hl rfl
    simp only [step] at h
    split at h
    · rename_i x rest h1
      injection h with h; subst h
      refine ⟨⟨⟨v, hv⟩, by simp only [upd_other _ _ hne]; exact hb⟩, fun j _ => ?_⟩
      by_cases e : j = c
      · subst e; simp only [upd_same, h1, List.length_append, List.length_cons, List.length_nil]; omega
      · simp only [upd_other _ _ e]
    · cases h

theorem waiting_exec {k : Conf} {d : Nat} {ls : List Label} : ∀ {s s' : Sys}, Waiting k d s → .take d ∉ ls → exec k s ls = some s' →
    ∀ c, c ≠ d → (s'.got c).length + (s'.back c).length = (s.got c).length + (s.back c).length := by
  induction ls with
  | nil => intro s s' _ _ h c _; injection h with h; subst h; rfl
  | cons l ls ih =>
    intro s s' hw hl h c hc
    obtain ⟨m, h1, h2⟩ := exec_cons h
    obtain ⟨a, b⟩ := waiting_step hw (by intro e; subst e; exact hl (List.mem_cons_self ..)) h1
    rw [ih a (fun hm => hl (List.mem_cons_of_mem _ hm)) h2 c hc, b c hc]

/-- Once through. -/
def round (d v : Nat) : List Label := [.ask d v, .read d, .deliver d, .listen, .answer, .serve]

/-- `n` requests of client `d`, all answered, none of the answers read. -/
def fill (d : Nat) : Nat → List Label
  | 0 => []
  | n + 1 => fill d n ++ (round d 0 ++ [.write])

theorem run_round (k : Conf) (hk : 0 < k.chan) (d v : Nat) (b g : Nat → List Nat) :
    exec k ⟨fun _ => [], fun _ => none, [], none, [], none, b, g⟩ (round d v) =
      some ⟨fun _ => [], fun _ => none, [], none, [], some (d, k.answer v), b, g⟩ := by
  have e1 : upd (upd (fun _ => ([] : List Nat)) d [v]) d [] = fun _ => [] := by funext j; simp only [upd]; split <;> simp_all
  have e2 : upd (upd (fun _ => (none : Option Nat)) d (some v)) d none = fun _ => none := by funext j; simp only [upd]; split <;> simp_all
  simp [round, Trace.exec, step, hk, e1, e2]

theorem run_fill (k : Conf) (hk : 0 < k.chan) (d : Nat) : ∀ n, n ≤ k.cap d →
    exec k init (fill d n) =
      some ⟨fun _ => [], fun _ => none, [], none, [], none, upd (fun _ => []) d (List.replicate n (k.answer 0)), fun _ => []⟩
  | 0, _ => by
    have : upd (fun _ => ([] : List Nat)) d [] = fun _ => [] := by funext j; simp [upd]
    simp [fill, Trace.exec, init, this]
  | n + 1, h => by
    have ih := run_fill k hk d n (by omega)
    have e : upd (upd (fun _ => ([] : List Nat)) d (List.replicate n (k.answer 0))) d (List.replicate n (k.answer 0) ++ [k.answer 0]) =
        upd (fun _ => []) d (List.replicate (n + 1) (k.answer 0)) := by
      funext j
      simp only [upd]
      split
      · rw [List.replicate_succ']
      · rfl
    show Trace.exec _ _ _ = _
    rw [fill, exec_append, show Trace.exec (step k) init (fill d n) = _ from ih]
    simp only [Option.bind_some]
    rw [exec_append, show Trace.exec (step k) _ (round d 0) = _ from run_round k hk d 0 _ _]
    simp only [Option.bind_some, Trace.exec, step, upd_same, List.length_replicate, if_pos (show n < k.cap d by omega), e]

/-- **C80** (violated) One client that does not read stops the server for all the others: after `cap + 1` requests of client `d` whose answers it
does not read, whatever the other clients ask and whoever else goes on, no other client ever gets an answer, until `d` reads. -/
theorem c80_violated (k : Conf) (hk : 0 < k.chan) (d : Nat) : ∃ pre, requests d pre = List.replicate (k.cap d + 1) 0 ∧
    (∀ c, c ≠ d → requests c pre = []) ∧ (∃ s, exec k init pre = some s) ∧
    ∀ post s, .take d ∉ post → exec k init (pre ++ post) = some s → ∀ c, c ≠ d → s.got c = [] := by
  have hr : ∀ c n, requests c (fill d n) = if c = d then List.replicate n 0 else [] := by
    intro c n
    induction n with
    | zero => simp [fill, requests]
    | succ n ih =>
      have : requests c (fill d (n + 1)) = requests c (fill d n) ++ requests c (round d 0 ++ [.write]) := by simp [fill, requests]
      rw [this, ih]
      by_cases e : c = d
      · subst e; simp [requests, round, List.replicate_succ']
      · simp [requests, round, e, Ne.symm e]
  have hr2 : ∀ c, requests c (fill d (k.cap d) ++ round d 0) = if c = d then List.replicate (k.cap d + 1) 0 else [] := by
    intro c
    have : requests c (fill d (k.cap d) ++ round d 0) = requests c (fill d (k.cap d)) ++ requests c (round d 0) := by simp [requests]
    rw [this, hr]
    by_cases e : c = d
    · subst e; simp [requests, round, List.replicate_succ']
    · simp [requests, round, e, Ne.symm e]
  have he : exec k init (fill d (k.cap d) ++ round d 0) =
      some ⟨fun _ => [], fun _ => none, [], none, [], some (d, k.answer 0), upd (fun _ => []) d (List.replicate (k.cap d) (k.answer 0)), fun _ => []⟩ := by
    show Trace.exec _ _ _ = _
    rw [exec_append, show Trace.exec (step k) init (fill d (k.cap d)) = _ from run_fill k hk d _ (Nat.le_refl _)]
    simp only [Option.bind_some]
    exact run_round k hk d 0 _ _
  refine ⟨fill d (k.cap d) ++ round d 0, by rw [hr2, if_pos rfl], fun c hc => by rw [hr2, if_neg hc], ⟨_, he⟩, fun post s hp h c hc => ?_⟩
  have h' := (exec_append (step := step k) init (fill d (k.cap d) ++ round d 0) post).symm.trans h
  rw [show Trace.exec (step k) init (fill d (k.cap d) ++ round d 0) = _ from he, Option.bind_some] at h'
  have := waiting_exec (d := d) ⟨⟨_, rfl⟩, by simp only [upd_same, List.length_replicate]⟩ hp h' c hc
  simp only [upd_other _ _ hc, List.length_nil] at this
  exact List.eq_nil_of_length_eq_zero (by omega)

/-- Two clients, connections for one answer.  Client 0 asks twice and does not read; client 1 asks: its answer stays in the transmit
channel. -/
example : (exec ⟨(· + 100), 2, fun _ => 1⟩ init
    [.ask 0 1, .read 0, .deliver 0, .listen, .answer, .serve, .write, .ask 0 2, .read 0, .deliver 0, .listen, .answer, .serve,
      .ask 1 3, .read 1, .deliver 1, .listen, .answer]).map (fun s => (s.tx, s.srv, s.back 0, s.back 1)) =
    some ([(1, 103)], some (0, 102), [101], []) := by decide

/-- Client 0 reads: client 1 is answered, and nothing is owed any more. -/
example : (exec ⟨(· + 100), 2, fun _ => 1⟩ init
    [.ask 0 1, .read 0, .deliver 0, .listen, .answer, .serve, .write, .ask 0 2, .read 0, .deliver 0, .listen, .answer, .serve,
      .ask 1 3, .read 1, .deliver 1, .listen, .answer, .take 0, .write, .serve, .write, .take 1, .take 0]).map
      (fun s => (s.tx, s.srv, s.got 0, s.got 1)) =
    some ([], none, [101, 102], [103]) := by decide

/-! ## An Echo instead -/

/-- One client of a server with an Echo. -/
structure Line where
  asked : List Nat
  hand : Option Nat
  back : List Nat
  got : List Nat
  deriving Repr, DecidableEq

inductive EchoAct where
  | ask (v : Nat)
  | read
  /-- proc_echo.go:28-35: the receive goroutine writes the message back -/
  | write
  | take
  deriving Repr, DecidableEq

def lineStep (cap : Nat) (s : Line) : EchoAct → Option Line
  | .ask v => some { s with asked := s.asked ++ [v] }
  | .read =>
    match s.asked, s.hand with
    | v :: rest, none => some { s with asked := rest, hand := some v }
    | _, _ => none
  | .write =>
    match s.hand with
    | some v => if s.back.length < cap then some { s with hand := none, back := s.back ++ [v] } else none
    | none => none
  | .take =>
    match s.back with
    | v :: rest => some { s with back := rest, got := s.got ++ [v] }
    | [] => none

/-- All clients: every step is one of client `c`. -/
def echoStep (cap : Nat → Nat) (s : Nat → Line) (l : Nat × EchoAct) : Option (Nat → Line) :=
  (lineStep (cap l.1) (s l.1) l.2).map fun x => upd s l.1 x

def Line.init : Line := ⟨[], none, [], []⟩

/-- What client `c` and its receive goroutine do. -/
def mine (c : Nat) (ls : List (Nat × EchoAct)) : List EchoAct := ls.filterMap fun l => if l.1 = c then some l.2 else none

/-- **C80** With an Echo the clients have nothing to do with each other: what a client sees depends on what it and its own receive goroutine do,
and on nothing else. -/
theorem c80_echo_partial (cap : Nat → Nat) (s s' : Nat → Line) (ls : List (Nat × EchoAct)) (c : Nat)
    (h : Trace.exec (echoStep cap) s ls = some s') : Trace.exec (lineStep (cap c)) (s c) (mine c ls) = some (s' c) := by
  induction ls generalizing s with
  | nil => injection h with h; subst h; rfl
  | cons l ls ih =>
    obtain ⟨m, h1, h2⟩ := exec_cons h
    have := ih m h2
    simp only [echoStep, Option.map_eq_some_iff] at h1
    obtain ⟨x, hx, rfl⟩ := h1
    by_cases e : l.1 = c
    · subst e
      rw [upd_same] at this
      simp only [mine, List.filterMap_cons, if_true]
      simp only [Trace.exec, hx, Option.bind_some]
      exact this
    · rw [upd_other _ _ (Ne.symm e)] at this
      simp only [mine, List.filterMap_cons, if_neg e]
      exact this

/-- What of a line is not read. -/
def Line.way (s : Line) : List Nat := s.back ++ s.hand.toList ++ s.asked

/-- **C80** With an Echo, a client that reads gets all its answers, whatever state the others have left the server in: it takes no step of
anybody else. -/
theorem c80_echo_answers (cap : Nat) (hcap : 0 < cap) : ∀ (n : Nat) (s : Line), 3 * s.asked.length + 2 * s.hand.toList.length + s.back.length ≤ n →
    ∃ ls s', (∀ v, .ask v ∉ ls) ∧ Trace.exec (lineStep cap) s ls = some s' ∧ s'.got = s.got ++ s.way ∧ s'.way = []
  | n, s, hn => by
    obtain ⟨asked, hand, back, got⟩ := s
    cases back with
    | cons v rest =>
      cases n with
      | zero => simp at hn
      | succ n =>
        obtain ⟨ls, s', h1, h2, h3, h4⟩ := c80_echo_answers cap hcap n ⟨asked, hand, rest, got ++ [v]⟩ (by simp only [List.length_cons] at hn ⊢; omega)
        exact ⟨.take :: ls, s', by simp [h1], by simp only [Trace.exec, lineStep, Option.bind_some]; exact h2,
          by rw [h3]; simp [Line.way], h4⟩
    | nil =>
      cases hand with
      | some v =>
        cases n with
        | zero => simp at hn
        | succ n =>
          obtain ⟨ls, s', h1, h2, h3, h4⟩ := c80_echo_answers cap hcap n ⟨asked, none, [v], got⟩ (by
            simp only [Option.toList_some, Option.toList_none, List.length_cons, List.length_nil] at hn ⊢; omega)
          exact ⟨.write :: ls, s', by simp [h1], by simp [Trace.exec, lineStep, hcap]; exact h2, by rw [h3]; simp [Line.way], h4⟩
      | none =>
        cases asked with
        | nil => exact ⟨[], _, by simp, rfl, by simp [Line.way], rfl⟩
        | cons v rest =>
          cases n with
          | zero => simp at hn
          | succ n =>
            obtain ⟨ls, s', h1, h2, h3, h4⟩ := c80_echo_answers cap hcap n ⟨rest, some v, [], got⟩ (by
              simp only [Option.toList_some, Option.toList_none, List.length_cons, List.length_nil] at hn ⊢; omega)
            exact ⟨.read :: ls, s', by simp [h1], by simp only [Trace.exec, lineStep, Option.bind_some]; exact h2,
              by rw [h3]; simp [Line.way], h4⟩

/-- The requests of client `c`, read off the schedule of an Echo server. -/
def echoRequests (c : Nat) (ls : List (Nat × EchoAct)) : List Nat :=
  ls.filterMap fun | (c', .ask v) => if c' = c then some v else none | _ => none

theorem line_order {cap : Nat} : ∀ (ls : List EchoAct) (s s' : Line), Trace.exec (lineStep cap) s ls = some s' →
    s'.got ++ s'.way = s.got ++ s.way ++ ls.filterMap fun | .ask v => some v | _ => none
  | [], s, s', h => by injection h with h; subst h; simp
  | l :: ls, s, s', h => by
    obtain ⟨m, h1, h2⟩ := exec_cons h
    have ih := line_order ls m s' h2
    rw [ih]
    obtain ⟨asked, hand, back, got⟩ := s
    cases l with
    | ask v => simp only [lineStep] at h1; injection h1 with h1; subst h1; simp [Line.way]
    | read =>
      simp only [lineStep] at h1
      split at h1
      · injection h1 with h1; subst h1; simp_all [Line.way]
      · cases h1
    | write =>
      simp only [lineStep] at h1
      split at h1
      · split at h1
        · injection h1 with h1; subst h1; simp_all [Line.way]
        · cases h1
      · cases h1
    | take =>
      simp only [lineStep] at h1
      split at h1
      · injection h1 with h1; subst h1; simp_all [Line.way]
      · cases h1

theorem mine_requests (c : Nat) (ls : List (Nat × EchoAct)) :
    (mine c ls).filterMap (fun | .ask v => some v | _ => none) = echoRequests c ls := by
  induction ls with
  | nil => rfl
  | cons l ls ih =>
    obtain ⟨d, a⟩ := l
    simp only [mine, echoRequests, List.filterMap_cons] at ih ⊢
    by_cases e : d = c
    · subst e
      cases a <;> simp [ih]
    · cases a <;> simp [e, ih]

/-- **C80** With an Echo, in every execution of all clients: every client gets its own requests back, each once and in order, and the receive
goroutine of a client waits if and only if it has written back all that was asked, or the client has let its connection fill up. -/
theorem c80_echo_exact (cap : Nat → Nat) (ls : List (Nat × EchoAct)) (s : Nat → Line)
    (h : Trace.exec (echoStep cap) (fun _ => Line.init) ls = some s) (c : Nat) :
    (∃ rest, echoRequests c ls = (s c).got ++ (s c).back ++ rest ∧
      ((echoStep cap s (c, .read) = none ∧ echoStep cap s (c, .write) = none) ↔ rest = [] ∨ ((s c).hand ≠ none ∧ cap c ≤ (s c).back.length))) := by
  have h1 := line_order _ _ _ (c80_echo_partial cap _ s ls c h)
  rw [mine_requests] at h1
  simp only [Line.init, Line.way, List.nil_append, List.append_nil, Option.toList_none] at h1
  refine ⟨(s c).hand.toList ++ (s c).asked, by rw [← h1]; simp, ?_⟩
  simp only [echoStep, Option.map_eq_none_iff]
  generalize s c = x
  obtain ⟨asked, hand, back, got⟩ := x
  cases hand with
  | none => cases asked <;> simp [lineStep]
  | some v => simp [lineStep]

/-- So a client that has taken all that was written back, while its receive goroutine waits, has all its answers. -/
theorem c80_echo_all (cap : Nat → Nat) (hcap : ∀ c, 0 < cap c) (ls : List (Nat × EchoAct)) (s : Nat → Line)
    (h : Trace.exec (echoStep cap) (fun _ => Line.init) ls = some s) (c : Nat)
    (hr : echoStep cap s (c, .read) = none) (hw : echoStep cap s (c, .write) = none) (ht : echoStep cap s (c, .take) = none) :
    (s c).got = echoRequests c ls := by
  obtain ⟨rest, h1, h2⟩ := c80_echo_exact cap ls s h c
  have hb : (s c).back = [] := by
    simp only [echoStep, Option.map_eq_none_iff, lineStep] at ht
    split at ht
    · cases ht
    · assumption
  rw [hb, List.append_nil] at h1
  rcases h2.mp ⟨hr, hw⟩ with e | ⟨_, e⟩
  · rw [h1, e, List.append_nil]
  · rw [hb] at e
    exact absurd (hcap c) (by simp at e; omega)

/-- Client 0 lets its connection fill up; client 1 is answered all the same. -/
example : (Trace.exec (echoStep fun _ => 1) (fun _ => Line.init)
    [(0, .ask 1), (0, .read), (0, .write), (0, .ask 2), (0, .read), (1, .ask 3), (1, .read), (1, .write), (1, .take)]).map
      (fun s => (s 0, s 1)) = some (⟨[], some 2, [1], []⟩, ⟨[], none, [], [3]⟩) := by decide

example (s : Nat → Line) (h : Trace.exec (echoStep fun _ => 1) (fun _ => Line.init) [(0, .ask 1), (0, .read), (0, .write), (0, .take)] = some s) :
    (s 0).got = [1] := by
  injection h with h
  subst h
  exact c80_echo_all (fun _ => 1) (by simp) [(0, .ask 1), (0, .read), (0, .write), (0, .take)] _ rfl 0 rfl rfl rfl

end Verif.Conn.Service
