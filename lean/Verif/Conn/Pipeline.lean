import Verif.Trace

/-!
# Requests and answers through bounded channels (C79)

Between a client's `GetTxChannel() <- …` and its `<-GetRxChannel()` a request and its answer pass a row of bounded buffers, each
emptied into the next by one goroutine: the transmit channel of the client's endpoint (endp_default.go:100, 512 messages), its service
goroutine (proc_upperdeck.go:47-67, one message in its hands), the channel of the connection (tran_reference.go:43-49), the receive
goroutine of the other side (proc_lowerdeck.go:59-87, one), the receive channel of its endpoint (endp_default.go:101), the data listener
(endp_default.go:82-93, one), which answers on the transmit channel, and the same way back.

A goroutine with a message in its hands is a buffer for one message.  Buffer `i` holds at most `cap i` messages; on its way into
buffer `i` a message is changed by `f i` (the listener computes the answer, the processors are in `Stack`).

Simplifications: one client, one endpoint on each side; every request is answered by one answer; nobody closes the connection.
Over a byte connection a buffer is measured in bytes and a receive goroutine may hold several messages; the capacities are then those of
the connection at hand.
-/

namespace Verif.Conn.Pipeline

open Verif.Trace

/-- What the client's goroutine does next. -/
inductive Cmd where
  /-- `GetTxChannel() <- v` -/
  | send (v : Nat)
  /-- `<-GetRxChannel()` -/
  | recv
  deriving Repr, DecidableEq

/-- `last + 1` buffers. -/
structure Conf where
  last : Nat
  cap : Nat → Nat
  f : Nat → Nat → Nat
  /-- the client's endpoint has a data listener, which takes the answers in a goroutine of its own -/
  listener : Bool

structure Sys where
  q : Nat → List Nat
  prog : List Cmd
  /-- the answers the client has got -/
  got : List Nat

inductive Label where
  /-- the client's goroutine -/
  | client
  /-- the goroutine between buffers `i` and `i + 1` -/
  | move (i : Nat)
  /-- the client's data listener -/
  | listen
  deriving Repr, DecidableEq

def upd (q : Nat → List Nat) (i : Nat) (x : List Nat) : Nat → List Nat := fun j => if j = i then x else q j

def step (c : Conf) (s : Sys) : Label → Option Sys
  | .client =>
    match s.prog with
    | [] => none
    | .send v :: p => if (s.q 0).length < c.cap 0 then some { s with q := upd s.q 0 (s.q 0 ++ [v]), prog := p } else none
    | .recv :: p =>
      match s.q c.last with
      | [] => none
      | m :: rest => some { q := upd s.q c.last rest, prog := p, got := s.got ++ [m] }
  | .move i =>
    if i < c.last then
      match s.q i with
      | [] => none
      | m :: rest =>
        if (s.q (i + 1)).length < c.cap (i + 1) then
          some { s with q := upd (upd s.q i rest) (i + 1) (s.q (i + 1) ++ [c.f (i + 1) m]) }
        else none
    else none
  | .listen =>
    if c.listener then
      match s.q c.last with
      | [] => none
      | m :: rest => some { s with q := upd s.q c.last rest, got := s.got ++ [m] }
    else none

abbrev exec (c : Conf) := Trace.exec (step c)

def init (p : List Cmd) : Sys := ⟨fun _ => [], p, []⟩

/-! ## Specification -/

def sends (p : List Cmd) : List Nat := p.filterMap fun | .send v => some v | .recv => none

def recvs (p : List Cmd) : Nat := p.countP fun | .recv => true | .send _ => false

/-- How many messages are under way at most. -/
def Conf.total (c : Conf) : Nat := ((List.range (c.last + 1)).map c.cap).sum

/-- What becomes of a request. -/
def Conf.answer (c : Conf) (v : Nat) : Nat := (List.range c.last).foldl (fun v i => c.f (i + 1) v) v

/-- At no point has the client asked for more answers than it has made requests, nor are more than `n` requests outstanding. -/
def Fits (n : Nat) (p : List Cmd) : Prop :=
  ∀ pre post, p = pre ++ post → recvs pre ≤ (sends pre).length ∧ (sends pre).length ≤ recvs pre + n

/-- Nobody can go on. -/
def Stuck (c : Conf) (s : Sys) : Prop := ∀ l, step c s l = none

/-! ## Proofs -/

theorem upd_same (q : Nat → List Nat) (i : Nat) (x : List Nat) : upd q i x i = x := by simp [upd]
theorem upd_other (q : Nat → List Nat) {i j : Nat} (x : List Nat) (h : j ≠ i) : upd q i x j = q j := by simp [upd, h]

/-- What will have become of a message that is in buffer `i`. -/
def Conf.rest (c : Conf) (i : Nat) (v : Nat) : Nat := ((List.range c.last).drop i).foldl (fun v i => c.f (i + 1) v) v

theorem rest_zero (c : Conf) (v : Nat) : c.rest 0 v = c.answer v := rfl

theorem rest_last (c : Conf) (v : Nat) : c.rest c.last v = v := by
  have : (List.range c.last).drop c.last = [] := List.drop_eq_nil_of_le (by simp)
  simp [Conf.rest, this]

theorem rest_succ (c : Conf) {i : Nat} (h : i < c.last) (v : Nat) : c.rest i v = c.rest (i + 1) (c.f (i + 1) v) := by
  have : (List.range c.last).drop i = i :: (List.range c.last).drop (i + 1) := by
    rw [List.drop_eq_getElem_cons (by simpa using h)]; simp
  simp [Conf.rest, this]

/-- The messages in buffers `i` and later, as they will arrive, oldest first. -/
def tail (c : Conf) (q : Nat → List Nat) : Nat → List Nat
  | 0 => (q c.last).map (c.rest c.last)
  | k + 1 => tail c q k ++ (q (c.last - (k + 1))).map (c.rest (c.last - (k + 1)))

def flow (c : Conf) (q : Nat → List Nat) : List Nat := tail c q c.last

theorem tail_other (c : Conf) (q : Nat → List Nat) (i : Nat) (x : List Nat) : ∀ k, i + k < c.last → tail c (upd q i x) k = tail c q k
  | 0, h => by simp only [tail]; rw [upd_other]; omega
  | k + 1, h => by
    simp only [tail]
    rw [tail_other c q i x k (by omega), upd_other]
    omega

/-- A message put into buffer 0 is the youngest. -/
theorem flow_put (c : Conf) (q : Nat → List Nat) (v : Nat) : flow c (upd q 0 (q 0 ++ [v])) = flow c q ++ [c.answer v] := by
  unfold flow
  cases h : c.last with
  | zero => simp [tail, h, upd_same, ← rest_zero]
  | succ n =>
    simp only [tail]
    rw [tail_other c q 0 _ n (by omega)]
    rw [h, Nat.sub_self, upd_same, List.map_append, List.append_assoc]
    simp [rest_zero]

theorem tail_take (c : Conf) (q : Nat → List Nat) (m : Nat) (rest : List Nat) (h : q c.last = m :: rest) :
    ∀ k, k ≤ c.last → m :: tail c (upd q c.last rest) k = tail c q k
  | 0, _ => by simp [tail, h, upd_same, rest_last]
  | k + 1, hk => by
    simp only [tail]
    rw [upd_other _ _ (by omega), ← tail_take c q m rest h k (by omega)]
    rfl

theorem flow_take (c : Conf) (q : Nat → List Nat) (m : Nat) (rest : List Nat) (h : q c.last = m :: rest) :
    m :: flow c (upd q c.last rest) = flow c q := tail_take c q m rest h _ (Nat.le_refl _)

theorem tail_move (c : Conf) (q : Nat → List Nat) (i m : Nat) (rest : List Nat) (hi : i < c.last) (h : q i = m :: rest) :
    ∀ k, c.last - i ≤ k → k ≤ c.last → tail c (upd (upd q i rest) (i + 1) (q (i + 1) ++ [c.f (i + 1) m])) k = tail c q k := by
  intro k hk hk2
  induction k with
  | zero => omega
  | succ k ih =>
    simp only [tail]
    by_cases e : c.last - i = k + 1
    · have e1 : c.last - (k + 1) = i := by omega
      rw [e1, upd_other _ _ (by omega), upd_same, h]
      cases k with
      | zero =>
        have e2 : c.last = i + 1 := by omega
        simp only [tail]
        rw [e2, upd_same, List.map_append, List.append_assoc]
        have := rest_succ c hi m
        simp [this]
      | succ k =>
        have e2 : c.last - (k + 1) = i + 1 := by omega
        simp only [tail]
        rw [e2, upd_same, tail_other _ _ _ _ k (by omega), tail_other _ _ _ _ k (by omega), List.map_append]
        simp [rest_succ c hi m]
    · rw [ih (by omega) (by omega), upd_other _ _ (by omega), upd_other _ _ (by omega)]

theorem flow_move (c : Conf) (q : Nat → List Nat) (i m : Nat) (rest : List Nat) (hi : i < c.last) (h : q i = m :: rest) :
    flow c (upd (upd q i rest) (i + 1) (q (i + 1) ++ [c.f (i + 1) m])) = flow c q :=
  tail_move c q i m rest hi h _ (by omega) (Nat.le_refl _)

theorem sends_cons_send (v : Nat) (p : List Cmd) : sends (.send v :: p) = v :: sends p := rfl
theorem sends_cons_recv (p : List Cmd) : sends (.recv :: p) = sends p := rfl
theorem sends_append (a b : List Cmd) : sends (a ++ b) = sends a ++ sends b := by simp [sends]
theorem recvs_append (a b : List Cmd) : recvs (a ++ b) = recvs a + recvs b := by simp [recvs]
theorem recvs_send (v : Nat) : recvs [.send v] = 0 := rfl
theorem recvs_recv : recvs [.recv] = 1 := rfl
theorem sends_send (v : Nat) : sends [.send v] = [v] := rfl
theorem sends_recv : sends [.recv] = [] := rfl

/-- How things stand; `p` is the client's whole program. -/
structure Inv (c : Conf) (p : List Cmd) (s : Sys) : Prop where
  bound : ∀ i, i ≤ c.last → (s.q i).length ≤ c.cap i
  flow : ∃ done, p = done ++ s.prog ∧ s.got ++ flow c s.q = (sends done).map c.answer ∧ (c.listener = false → s.got.length = recvs done)

theorem inv_init (c : Conf) (p : List Cmd) : Inv c p (init p) := by
  refine ⟨fun i _ => Nat.zero_le _, [], rfl, ?_, fun _ => rfl⟩
  have : ∀ k, tail c (fun _ => []) k = [] := by intro k; induction k with | zero => rfl | succ k ih => simp [tail, ih]
  simp [init, flow, this, sends]

theorem inv_step {c : Conf} {p : List Cmd} {s s' : Sys} {l : Label} (hi : Inv c p s) (h : step c s l = some s') : Inv c p s' := by
  obtain ⟨hb, done, e1, e2, e3⟩ := hi
  cases l with
  | client =>
    simp only [step] at h
    split at h
    · cases h
    · rename_i v r hp
      split at h
      · rename_i hlt
        injection h with h; subst h
        refine ⟨fun i hi => ?_, done ++ [.send v], by simp [e1, hp], ?_, fun hl => ?_⟩
        · by_cases e : i = 0
          · subst e; simp only [upd_same, List.length_append, List.length_cons, List.length_nil]; omega
          · simp only [upd_other _ _ e]; exact hb i hi
        · simp only [flow_put, ← List.append_assoc, e2, sends_append, sends_send, List.map_append, List.map_cons, List.map_nil]
        · simp only [recvs_append, recvs_send, Nat.add_zero]; exact e3 hl
      · cases h
    · rename_i r hp
      split at h
      · cases h
      · rename_i m rest hq
        injection h with h; subst h
        refine ⟨fun i hi => ?_, done ++ [.recv], by simp [e1, hp], ?_, fun hl => ?_⟩
        · have hbi := hb i hi
          by_cases e : i = c.last
          · subst e; rw [hq] at hbi; simp only [upd_same, List.length_cons] at hbi ⊢; omega
          · simp only [upd_other _ _ e]; exact hbi
        · simp only [List.append_assoc, List.cons_append, List.nil_append, flow_take c s.q m rest hq, e2, sends_append, sends_recv, List.append_nil]
        · simp only [recvs_append, recvs_recv, List.length_append, List.length_cons, List.length_nil, e3 hl]
  | move i =>
    simp only [step] at h
    split at h
    · rename_i hil
      split at h
      · cases h
      · rename_i m rest hq
        split at h
        · rename_i hlt
          injection h with h; subst h
          refine ⟨fun j hj => ?_, done, e1, ?_, e3⟩
          · have hbj := hb j hj
            by_cases e : j = i + 1
            · subst e; simp only [upd_same, List.length_append, List.length_cons, List.length_nil]; omega
            · simp only [upd_other _ _ e]
              by_cases e' : j = i
              · subst e'; rw [hq] at hbj; simp only [upd_same, List.length_cons] at hbj ⊢; omega
              · simp only [upd_other _ _ e']; exact hbj
          · simp only [flow_move c s.q i m rest hil hq]; exact e2
        · cases h
    · cases h
  | listen =>
    simp only [step] at h
    split at h
    · rename_i hl
      split at h
      · cases h
      · rename_i m rest hq
        injection h with h; subst h
        refine ⟨fun i hi => ?_, done, e1, ?_, fun h' => by rw [hl] at h'; cases h'⟩
        · have hbi := hb i hi
          by_cases e : i = c.last
          · subst e; rw [hq] at hbi; simp only [upd_same, List.length_cons] at hbi ⊢; omega
          · simp only [upd_other _ _ e]; exact hbi
        · simp only [List.append_assoc, List.cons_append, List.nil_append, flow_take c s.q m rest hq, e2]
    · cases h

theorem inv_exec {c : Conf} {p : List Cmd} {ls : List Label} {s : Sys} (h : exec c (init p) ls = some s) : Inv c p s :=
  invariant (P := Inv c p) (Q := fun _ => True) (fun _ _ _ hi _ hs => inv_step hi hs) ls _ _ (inv_init c p) (fun _ _ => trivial) h

/-! ### Counting -/

theorem sum_le : ∀ (l : List Nat) (f g : Nat → Nat), (∀ i ∈ l, f i ≤ g i) → (l.map f).sum ≤ (l.map g).sum
  | [], _, _, _ => Nat.le_refl _
  | x :: l, f, g, h => by
    have := sum_le l f g fun i hi => h i (List.mem_cons_of_mem _ hi)
    have := h x (List.mem_cons_self ..)
    simp only [List.map_cons, List.sum_cons]; omega

theorem sum_congr (l : List Nat) (f g : Nat → Nat) (h : ∀ i ∈ l, f i = g i) : (l.map f).sum = (l.map g).sum := by
  rw [List.map_congr_left h]

theorem sum_zero : ∀ l : List Nat, (l.map fun _ => 0).sum = 0
  | [] => rfl
  | _ :: l => by simp only [List.map_cons, List.sum_cons, sum_zero l]

/-- Everything under way. -/
def amount (c : Conf) (q : Nat → List Nat) : Nat := ((List.range (c.last + 1)).map fun i => (q i).length).sum

theorem tail_length (c : Conf) (q : Nat → List Nat) : ∀ k, k ≤ c.last →
    (tail c q k).length + ((List.range (c.last - k)).map fun i => (q i).length).sum = amount c q
  | 0, _ => by
    simp only [tail, amount, List.range_succ, Nat.sub_zero]
    simp; omega
  | k + 1, h => by
    have ih := tail_length c q k (by omega)
    have e : c.last - k = (c.last - (k + 1)) + 1 := by omega
    rw [e, List.range_succ] at ih
    simp only [tail, List.length_append, List.length_map]
    simp only [List.map_append, List.map_cons, List.map_nil, List.sum_append, List.sum_cons, List.sum_nil] at ih
    omega

theorem flow_length (c : Conf) (q : Nat → List Nat) : (flow c q).length = amount c q := by
  have := tail_length c q c.last (Nat.le_refl _)
  simpa [flow] using this

theorem Inv.amount_le {c : Conf} {p : List Cmd} {s : Sys} (h : Inv c p s) : amount c s.q ≤ c.total :=
  sum_le _ _ _ fun i hi => h.bound i (by simp at hi; omega)

/-! ### When nobody can go on -/

/-- If no goroutine inside can go on, a message in a buffer means that all later buffers are full. -/
theorem blocked {c : Conf} {s : Sys} (hc : ∀ i, i ≤ c.last → 0 < c.cap i) (hb : ∀ i, i ≤ c.last → (s.q i).length ≤ c.cap i)
    (hs : ∀ i, step c s (.move i) = none) {i : Nat} (hi : s.q i ≠ []) : ∀ k, i + k + 1 ≤ c.last → (s.q (i + k + 1)).length = c.cap (i + k + 1) := by
  intro k
  have key : ∀ j, j < c.last → s.q j ≠ [] → (s.q (j + 1)).length = c.cap (j + 1) := by
    intro j hj hne
    have h := hs j
    simp only [step, hj, if_true] at h
    cases hq : s.q j with
    | nil => exact absurd hq hne
    | cons m rest =>
      rw [hq] at h
      simp only at h
      split at h
      · cases h
      · have := hb (j + 1) (by omega); omega
  induction k with
  | zero => intro h; exact key i (by omega) hi
  | succ k ih =>
    intro h
    refine key (i + k + 1) (by omega) fun e => ?_
    have h1 := ih (by omega)
    have h2 := hc (i + k + 1) (by omega)
    rw [e] at h1
    simp only [List.length_nil] at h1
    omega

/-- If no goroutine inside can go on and the first buffer is full, all are. -/
theorem full {c : Conf} {s : Sys} (hc : ∀ i, i ≤ c.last → 0 < c.cap i) (hb : ∀ i, i ≤ c.last → (s.q i).length ≤ c.cap i)
    (hs : ∀ i, step c s (.move i) = none) (h0 : c.cap 0 ≤ (s.q 0).length) : amount c s.q = c.total := by
  refine sum_congr _ _ _ fun i hi => ?_
  simp at hi
  cases i with
  | zero => have := hb 0 (by omega); omega
  | succ i =>
    have := blocked hc hb hs (i := 0) (by intro e; have := hc 0 (by omega); rw [e] at h0; simp at h0; omega) i (by omega)
    simpa using this

/-- If no goroutine inside can go on and the last buffer is empty, all are. -/
theorem empty {c : Conf} {s : Sys} (hc : ∀ i, i ≤ c.last → 0 < c.cap i) (hb : ∀ i, i ≤ c.last → (s.q i).length ≤ c.cap i)
    (hs : ∀ i, step c s (.move i) = none) (h0 : s.q c.last = []) : amount c s.q = 0 := by
  have : ∀ i ∈ List.range (c.last + 1), (s.q i).length = 0 := by
    intro i hi
    simp at hi
    by_cases e : i = c.last
    · subst e; simp [h0]
    · cases hq : s.q i with
      | nil => rfl
      | cons m rest =>
        have h1 := blocked hc hb hs (i := i) (by rw [hq]; simp) (c.last - i - 1) (by omega)
        have h2 := hc c.last (Nat.le_refl _)
        have e2 : i + (c.last - i - 1) + 1 = c.last := by omega
        rw [e2, h0] at h1
        simp at h1; omega
  show ((List.range (c.last + 1)).map fun i => (s.q i).length).sum = 0
  rw [sum_congr _ _ (fun _ => 0) this]
  exact sum_zero _

/-! ### Executions end -/

theorem sum_change (n i : Nat) (f g : Nat → Nat) (hi : i < n) (h : ∀ j, j ≠ i → f j = g j) :
    ((List.range n).map f).sum + g i = ((List.range n).map g).sum + f i := by
  induction n with
  | zero => omega
  | succ n ih =>
    simp only [List.range_succ, List.map_append, List.map_cons, List.map_nil, List.sum_append, List.sum_cons, List.sum_nil]
    by_cases e : i = n
    · subst e
      rw [sum_congr _ f g fun j hj => h j (by simp at hj; omega)]
      omega
    · have := ih (by omega)
      have := h n (by omega)
      omega

def weight (c : Conf) (q : Nat → List Nat) : Nat := ((List.range (c.last + 1)).map fun i => (q i).length * (c.last + 1 - i)).sum

theorem weight_upd (c : Conf) (q : Nat → List Nat) (i : Nat) (x : List Nat) (hi : i ≤ c.last) :
    weight c (upd q i x) + (q i).length * (c.last + 1 - i) = weight c q + x.length * (c.last + 1 - i) := by
  have h := sum_change (c.last + 1) i (fun j => (upd q i x j).length * (c.last + 1 - j)) (fun j => (q j).length * (c.last + 1 - j))
    (by omega) (fun j hj => by simp only [upd_other _ _ hj])
  simp only [upd_same] at h
  exact h

/-- How many steps there are still to come at most. -/
def work (c : Conf) (s : Sys) : Nat := weight c s.q + (sends s.prog).length * (c.last + 2)

theorem work_step {c : Conf} {s s' : Sys} {l : Label} (h : step c s l = some s') : work c s' + 1 = work c s := by
  cases l with
  | client =>
    simp only [step] at h
    split at h
    · cases h
    · rename_i v r hp
      split at h
      · injection h with h; subst h
        have := weight_upd c s.q 0 (s.q 0 ++ [v]) (Nat.zero_le _)
        simp only [List.length_append, List.length_cons, List.length_nil, Nat.sub_zero, Nat.add_mul, Nat.one_mul] at this
        simp only [work, hp, sends_cons_send, List.length_cons, Nat.add_mul, Nat.one_mul]
        omega
      · cases h
    · rename_i r hp
      split at h
      · cases h
      · rename_i m rest hq
        injection h with h; subst h
        have := weight_upd c s.q c.last rest (Nat.le_refl _)
        have e : c.last + 1 - c.last = 1 := by omega
        rw [hq, e] at this
        simp only [List.length_cons, Nat.mul_one] at this
        simp only [work, hp, sends_cons_recv]
        omega
  | move i =>
    simp only [step] at h
    split at h
    · rename_i hil
      split at h
      · cases h
      · rename_i m rest hq
        split at h
        · injection h with h; subst h
          have h1 := weight_upd c s.q i rest (by omega)
          have h2 := weight_upd c (upd s.q i rest) (i + 1) (s.q (i + 1) ++ [c.f (i + 1) m]) (by omega)
          rw [upd_other _ _ (by omega)] at h2
          have e : c.last + 1 - i = c.last + 1 - (i + 1) + 1 := by omega
          rw [hq, e] at h1
          simp only [List.length_cons, List.length_append, List.length_nil, Nat.add_mul, Nat.one_mul] at h1 h2
          simp only [work]
          rw [show c.last + 1 - (i + 1) = c.last - i by omega] at h1 h2
          rw [Nat.mul_add] at h1
          omega
        · cases h
    · cases h
  | listen =>
    simp only [step] at h
    split at h
    · split at h
      · cases h
      · rename_i m rest hq
        injection h with h; subst h
        have := weight_upd c s.q c.last rest (Nat.le_refl _)
        have e : c.last + 1 - c.last = 1 := by omega
        rw [hq, e] at this
        simp only [List.length_cons, Nat.mul_one] at this
        simp only [work]
        omega
    · cases h

theorem work_exec {c : Conf} {ls : List Label} : ∀ {s s' : Sys}, exec c s ls = some s' → work c s' + ls.length = work c s := by
  induction ls with
  | nil => intro s s' h; injection h with h; subst h; rfl
  | cons l ls ih =>
    intro s s' h
    obtain ⟨m, h1, h2⟩ := exec_cons h
    have := ih h2
    have := work_step h1
    simp only [List.length_cons]; omega

theorem run_out (c : Conf) : ∀ (n : Nat) (s : Sys), work c s ≤ n → ∃ ls s', exec c s ls = some s' ∧ Stuck c s'
  | n, s, hn => by
    by_cases h : Stuck c s
    · exact ⟨[], s, rfl, h⟩
    · simp only [Stuck, Classical.not_forall] at h
      obtain ⟨l, hl⟩ := h
      cases hm : step c s l with
      | none => exact absurd hm hl
      | some m =>
        have hw := work_step hm
        cases n with
        | zero => omega
        | succ n =>
          obtain ⟨ls, s', h1, h2⟩ := run_out c n m (by omega)
          exact ⟨l :: ls, s', by simp only [Trace.exec, hm]; exact h1, h2⟩

/-- **C79** However the goroutines are scheduled, they come to rest after at most `last + 2` steps per request, and from every point they
can get there. -/
theorem c79_ends (c : Conf) (p : List Cmd) (ls : List Label) (s : Sys) (h : exec c (init p) ls = some s) :
    ls.length ≤ (sends p).length * (c.last + 2) ∧ ∃ ls' s', exec c (init p) (ls ++ ls') = some s' ∧ Stuck c s' := by
  have hw := work_exec h
  have h0 : weight c (init p).q = 0 := by
    simp only [weight, init, List.length_nil, Nat.zero_mul]
    exact sum_zero _
  have e : work c (init p) = (sends p).length * (c.last + 2) := by simp only [work, h0]; simp [init]
  refine ⟨by omega, ?_⟩
  obtain ⟨ls', s', h1, h2⟩ := run_out c _ s (Nat.le_refl _)
  exact ⟨ls', s', (exec_append _ ls ls').trans (by rw [show Trace.exec (step c) (init p) ls = some s from h]; exact h1), h2⟩

/-- **C79** The answers the client has got are those to its first requests, complete and in order. -/
theorem c79_answers (c : Conf) (p : List Cmd) (ls : List Label) (s : Sys) (h : exec c (init p) ls = some s) :
    s.got = ((sends p).map c.answer).take s.got.length := by
  obtain ⟨_, done, e1, e2, _⟩ := inv_exec h
  rw [e1, sends_append, List.map_append, ← e2, List.append_assoc, List.take_left']
  rfl

/-- Where an execution is: what is under way are the requests made less the answers got. -/
theorem balance {c : Conf} {p : List Cmd} {s : Sys} (hl : c.listener = false) (h : Inv c p s) :
    ∃ done, p = done ++ s.prog ∧ recvs done + amount c s.q = (sends done).length := by
  obtain ⟨_, done, e1, e2, e3⟩ := h
  refine ⟨done, e1, ?_⟩
  have := congrArg List.length e2
  rw [List.length_append, flow_length, List.length_map, e3 hl] at this
  exact this

/-- **C79** A client that never has more requests outstanding than the buffers hold together, nor waits for an answer to nothing, never
blocks for ever: wherever nobody can go on, its program is finished. -/
theorem c79_fits (c : Conf) (hc : ∀ i, i ≤ c.last → 0 < c.cap i) (hl : c.listener = false) (p : List Cmd) (hf : Fits c.total p)
    (ls : List Label) (s : Sys) (h : exec c (init p) ls = some s) (hs : Stuck c s) :
    s.prog = [] ∧ s.got = ((sends p).map c.answer).take (recvs p) := by
  have hi := inv_exec h
  obtain ⟨done, e1, e2⟩ := balance hl hi
  have hp : s.prog = [] := by
    cases hp : s.prog with
    | nil => rfl
    | cons x rest =>
      have hcl := hs .client
      have hmv := fun i => hs (.move i)
      obtain ⟨h1, h2⟩ := hf (done ++ [x]) rest (by simp [e1, hp])
      cases x with
      | send v =>
        simp only [step, hp] at hcl
        split at hcl
        · cases hcl
        · have := full hc hi.bound hmv (by omega)
          rw [sends_append, sends_send, recvs_append, recvs_send, List.length_append] at h2
          simp only [List.length_cons, List.length_nil] at h2
          omega
      | recv =>
        simp only [step, hp] at hcl
        split at hcl
        · rename_i hq
          have := empty hc hi.bound hmv hq
          rw [sends_append, sends_recv, recvs_append, recvs_recv, List.append_nil] at h1
          omega
        · cases hcl
  refine ⟨hp, ?_⟩
  have h1 := c79_answers c p ls s h
  obtain ⟨_, done', d1, d2, d3⟩ := hi
  rw [hp, List.append_nil] at d1
  subst d1
  rw [d3 hl] at h1
  exact h1

/-- **C79** Conversely: if in some execution the client's program is finished, it never had more requests outstanding than that. -/
theorem c79_only_if (c : Conf) (hl : c.listener = false) (p : List Cmd) (ls : List Label) (s : Sys)
    (h : exec c (init p) ls = some s) (hp : s.prog = []) : Fits c.total p := by
  -- the client has been at every point of its program
  have key : ∀ ls s, exec c (init p) ls = some s → ∀ pre post, p = pre ++ post → s.prog.length ≤ post.length →
      recvs pre ≤ (sends pre).length ∧ (sends pre).length ≤ recvs pre + c.total := by
    intro ls
    induction ls using snoc_induction with
    | h0 =>
      intro s h pre post e hlen
      injection h with h; subst h
      have : pre = [] := by
        have := congrArg List.length e
        simp only [init, List.length_append] at this hlen
        exact List.eq_nil_of_length_eq_zero (by omega)
      subst this
      exact ⟨Nat.zero_le _, Nat.zero_le _⟩
    | h1 ls l ih =>
      intro s h pre post e hlen
      have hi := inv_exec h
      obtain ⟨m, hm, hst⟩ := exec_snoc h
      by_cases hlt : m.prog.length ≤ post.length
      · exact ih m hm pre post e hlt
      · have hlen2 : m.prog.length ≤ s.prog.length + 1 := by
          cases l with
          | client =>
            simp only [step] at hst
            split at hst
            · cases hst
            · rename_i hpr
              split at hst
              · injection hst with hst; subst hst; rw [hpr]; simp
              · cases hst
            · rename_i hpr
              split at hst
              · cases hst
              · injection hst with hst; subst hst; rw [hpr]; simp
          | move i =>
            simp only [step] at hst
            split at hst
            · split at hst
              · cases hst
              · split at hst
                · injection hst with hst; subst hst; simp
                · cases hst
            · cases hst
          | listen =>
            simp only [step] at hst
            rw [hl] at hst
            cases hst
        obtain ⟨done, e1, e2⟩ := balance hl hi
        have hle := hi.amount_le
        have : pre = done := by
          rw [e] at e1
          exact (List.append_inj' e1 (by omega)).1
        subst this
        omega
  intro pre post e
  exact key ls s h pre post e (by rw [hp]; exact Nat.zero_le _)

/-- **C79** Exactly: the client's program is finished wherever nobody can go on, iff it is finished in some execution, iff it
never has more requests outstanding than the buffers hold together. -/
theorem c79_exact (c : Conf) (hc : ∀ i, i ≤ c.last → 0 < c.cap i) (hl : c.listener = false) (p : List Cmd) :
    ((∀ ls s, exec c (init p) ls = some s → Stuck c s → s.prog = []) ↔ Fits c.total p) ∧
    ((∃ ls s, exec c (init p) ls = some s ∧ s.prog = []) ↔ Fits c.total p) := by
  have h1 : Fits c.total p → ∀ ls s, exec c (init p) ls = some s → Stuck c s → s.prog = [] :=
    fun hf ls s h hs => (c79_fits c hc hl p hf ls s h hs).1
  have h2 : (∀ ls s, exec c (init p) ls = some s → Stuck c s → s.prog = []) → ∃ ls s, exec c (init p) ls = some s ∧ s.prog = [] := by
    intro h
    obtain ⟨ls, s, e, hs⟩ := (c79_ends c p [] (init p) rfl).2
    exact ⟨_, s, e, h _ s e hs⟩
  have h3 : (∃ ls s, exec c (init p) ls = some s ∧ s.prog = []) → Fits c.total p := fun ⟨ls, s, h, hp⟩ => c79_only_if c hl p ls s h hp
  exact ⟨⟨fun h => h3 (h2 h), h1⟩, ⟨h3, fun h => h2 (h1 h)⟩⟩

/-- **C79** If a data listener takes the answers, the client may send as much as it likes: wherever nobody can go on, everything has
been sent and every answer has been handed to the listener, in order. -/
theorem c79_listener (c : Conf) (hc : ∀ i, i ≤ c.last → 0 < c.cap i) (hl : c.listener = true) (p : List Cmd) (hp : recvs p = 0)
    (ls : List Label) (s : Sys) (h : exec c (init p) ls = some s) (hs : Stuck c s) :
    s.prog = [] ∧ s.got = (sends p).map c.answer := by
  have hi := inv_exec h
  have hq : s.q c.last = [] := by
    have := hs .listen
    simp only [step, hl, if_true] at this
    split at this
    · assumption
    · cases this
  have h0 := empty hc hi.bound (fun i => hs (.move i)) hq
  obtain ⟨hb, done, e1, e2, _⟩ := hi
  have hpr : s.prog = [] := by
    cases hpr : s.prog with
    | nil => rfl
    | cons x rest =>
      cases x with
      | send v =>
        have hcl := hs .client
        simp only [step, hpr] at hcl
        split at hcl
        · cases hcl
        · have h1 := full hc hb (fun i => hs (.move i)) (by omega)
          have h2 : c.cap 0 ≤ c.total := by
            simp only [Conf.total, List.range_succ_eq_map, List.map_cons, List.sum_cons]; omega
          have := hc 0 (Nat.zero_le _)
          omega
      | recv =>
        rw [e1, hpr, recvs_append] at hp
        simp only [recvs, List.countP_cons, if_true] at hp
        omega
  refine ⟨hpr, ?_⟩
  rw [hpr, List.append_nil] at e1
  have : flow c s.q = [] := List.eq_nil_of_length_eq_zero (by rw [flow_length, h0])
  rw [this, List.append_nil] at e2
  rw [e1, e2]

/-! ## The stacks -/

def ofList (caps : List Nat) (f : Nat → Nat → Nat) (listener : Bool) : Conf := ⟨caps.length - 1, fun i => caps.getD i 0, f, listener⟩

/-- Two stacks joined by a Reference transport with queues for `size` objects (tran_reference.go:176-182, default 512), the server's
endpoint has a data listener that answers every request by `answer` (for example examples/microservices/main.go:68-79): client's transmit
channel, service goroutine, queue, receive goroutine, server's receive channel, listener, transmit channel, service goroutine, queue,
receive goroutine, client's receive channel. -/
def viaListener (size : Nat) (answer : Nat → Nat) (listener : Bool) : Conf :=
  ofList [512, 1, size, 1, 512, 1, 512, 1, size, 1, 512] (fun i v => if i = 5 then answer v else v) listener

/-- The server is an Echo (proc_echo.go:28-35): the receive goroutine itself puts the message into the queue back. -/
def viaEcho (size : Nat) (listener : Bool) : Conf :=
  ofList [512, 1, size, 1, size, 1, 512] (fun _ v => v) listener

theorem total_ofList (caps : List Nat) (f : Nat → Nat → Nat) (b : Bool) (h : caps ≠ []) : (ofList caps f b).total = caps.sum := by
  have hl : caps.length - 1 + 1 = caps.length := by have := List.length_pos_iff.2 h; omega
  have : (List.range caps.length).map (fun i => caps.getD i 0) = caps := by
    apply List.ext_getElem
    · simp
    · intro i h1 h2
      simp [List.getD_eq_getElem?_getD, List.getElem?_eq_getElem h2]
  simp only [Conf.total, ofList, hl]
  rw [this]

theorem sends_burst (vs : List Nat) (k : Nat) : sends (vs.map Cmd.send ++ List.replicate k Cmd.recv) = vs := by
  rw [sends_append]
  have h1 : ∀ vs : List Nat, sends (vs.map Cmd.send) = vs := by
    intro vs; induction vs with | nil => rfl | cons v vs ih => rw [List.map_cons, sends_cons_send, ih]
  have h2 : ∀ k, sends (List.replicate k Cmd.recv) = [] := by
    intro k; induction k with | zero => rfl | succ k ih => rw [List.replicate_succ, sends_cons_recv, ih]
  rw [h1, h2, List.append_nil]

theorem recvs_replicate (k : Nat) : recvs (List.replicate k Cmd.recv) = k := by
  induction k with
  | zero => rfl
  | succ k ih =>
    rw [List.replicate_succ, show Cmd.recv :: List.replicate k Cmd.recv = [Cmd.recv] ++ List.replicate k Cmd.recv from rfl, recvs_append, ih,
      recvs_recv]
    omega

/-- Sending a number of requests first and then reading as many answers. -/
theorem fits_burst (n : Nat) (vs : List Nat) : Fits n (vs.map Cmd.send ++ List.replicate vs.length Cmd.recv) ↔ vs.length ≤ n := by
  have hr : ∀ vs : List Nat, recvs (vs.map Cmd.send) = 0 := by
    intro vs; induction vs with | nil => rfl | cons v vs ih => simpa [recvs] using ih
  have hs : ∀ vs : List Nat, sends (vs.map Cmd.send) = vs := fun vs => by have := sends_burst vs 0; rwa [List.replicate_zero, List.append_nil] at this
  constructor
  · intro h
    have := (h (vs.map .send) (List.replicate vs.length .recv) rfl).2
    rw [hs, hr] at this
    omega
  · intro h pre post e
    rcases List.append_eq_append_iff.1 e with ⟨x, e1, e2⟩ | ⟨x, e1, e2⟩
    · obtain ⟨k, hk⟩ : ∃ k, x = List.replicate k Cmd.recv ∧ k ≤ vs.length := by
        have hx := List.eq_replicate_iff.1 e2.symm
        refine ⟨x.length, ?_, ?_⟩
        · exact List.eq_replicate_iff.2 ⟨rfl, fun b hb => hx.2 b (List.mem_append_left _ hb)⟩
        · have := hx.1; simp only [List.length_append] at this; omega
      obtain ⟨rfl, hk⟩ := hk
      rw [e1, recvs_append, recvs_replicate, hr, sends_burst]
      omega
    · have e3 : pre = (vs.take pre.length).map .send := by
        have := congrArg (List.take pre.length) e1
        rw [List.take_left', ← List.map_take] at this
        · exact this.symm
        · rfl
      rw [e3, hs, hr, List.length_take]
      omega

/-- Requests made one at a time (examples/microservices/main.go:162-167). -/
theorem fits_one_by_one (n : Nat) (hn : 0 < n) (vs : List Nat) : Fits n (vs.flatMap fun v => [.send v, .recv]) := by
  induction vs with
  | nil =>
    intro pre post e
    have := (List.append_eq_nil_iff.1 e.symm).1
    subst this
    exact ⟨Nat.zero_le _, Nat.zero_le _⟩
  | cons v vs ih =>
    intro pre post e
    rw [List.flatMap_cons] at e
    match pre, e with
    | [], _ => exact ⟨Nat.zero_le _, Nat.zero_le _⟩
    | [x], e =>
      simp only [List.cons_append, List.nil_append, List.cons.injEq] at e
      rw [← e.1, sends_send, recvs_send]
      simp only [List.length_cons, List.length_nil]
      omega
    | x :: y :: pre, e =>
      simp only [List.cons_append, List.nil_append, List.cons.injEq] at e
      obtain ⟨rfl, rfl, e⟩ := e
      have := ih pre post e
      rw [show Cmd.send v :: Cmd.recv :: pre = [Cmd.send v] ++ ([Cmd.recv] ++ pre) from rfl]
      simp only [sends_append, recvs_append, sends_send, sends_recv, recvs_send, recvs_recv, List.length_append, List.length_cons, List.length_nil]
      omega

theorem positive_ofList (caps : List Nat) (f : Nat → Nat → Nat) (b : Bool) (h : ∀ x ∈ caps, 0 < x) (hne : caps ≠ []) :
    ∀ i, i ≤ (ofList caps f b).last → 0 < (ofList caps f b).cap i := by
  intro i hi
  have hp := List.length_pos_iff.2 hne
  simp only [ofList] at hi ⊢
  have hlt : i < caps.length := by omega
  rw [List.getD_eq_getElem?_getD, List.getElem?_eq_getElem hlt]
  exact h _ (List.getElem_mem hlt)

/-- **C79** A client of a server with a data listener that sends all its requests and then reads the answers: with queues for `size`
objects it gets all the answers, in order, if there are at most 2053 + 2 · `size` requests, and blocks for ever, in every execution,
if there are more. -/
theorem c79_burst (size : Nat) (hsize : 0 < size) (answer : Nat → Nat) (vs : List Nat) :
    let c := viaListener size answer false
    let p := vs.map Cmd.send ++ List.replicate vs.length Cmd.recv
    (vs.length ≤ 2053 + 2 * size → ∀ ls s, exec c (init p) ls = some s → Stuck c s → s.prog = [] ∧ s.got = vs.map answer) ∧
    (2053 + 2 * size < vs.length → ∀ ls s, exec c (init p) ls = some s → s.prog ≠ []) := by
  intro c p
  have hc := positive_ofList [512, 1, size, 1, 512, 1, 512, 1, size, 1, 512] (fun i v => if i = 5 then answer v else v) false
    (by simp; omega) (by simp)
  have ht : c.total = 2053 + 2 * size := by
    rw [show c = ofList _ _ _ from rfl, total_ofList _ _ _ (by simp)]
    simp only [List.sum_cons, List.sum_nil]
    omega
  have ha : c.answer = answer := by
    funext v
    simp [Conf.answer, c, viaListener, ofList, List.range_succ]
  constructor
  · intro h ls s he hs
    obtain ⟨h1, h2⟩ := c79_fits c hc rfl p ((fits_burst _ vs).2 (by omega)) ls s he hs
    refine ⟨h1, ?_⟩
    rw [sends_burst, recvs_append, recvs_replicate, ha] at h2
    rw [h2, List.take_of_length_le (by rw [List.length_map]; omega)]
  · intro h ls s he hp
    have := (fits_burst _ vs).1 (c79_only_if c rfl p ls s he hp)
    omega

/-- **C79** The same with an Echo on the other side: at most 1027 + 2 · `size`. -/
theorem c79_burst_echo (size : Nat) (hsize : 0 < size) (vs : List Nat) :
    let c := viaEcho size false
    let p := vs.map Cmd.send ++ List.replicate vs.length Cmd.recv
    (vs.length ≤ 1027 + 2 * size → ∀ ls s, exec c (init p) ls = some s → Stuck c s → s.prog = [] ∧ s.got = vs) ∧
    (1027 + 2 * size < vs.length → ∀ ls s, exec c (init p) ls = some s → s.prog ≠ []) := by
  intro c p
  have hc := positive_ofList [512, 1, size, 1, size, 1, 512] (fun _ v => v) false (by simp; omega) (by simp)
  have ht : c.total = 1027 + 2 * size := by
    rw [show c = ofList _ _ _ from rfl, total_ofList _ _ _ (by simp)]
    simp only [List.sum_cons, List.sum_nil]
    omega
  have ha : c.answer = id := by
    funext v
    simp [Conf.answer, c, viaEcho, ofList, List.range_succ]
  constructor
  · intro h ls s he hs
    obtain ⟨h1, h2⟩ := c79_fits c hc rfl p ((fits_burst _ vs).2 (by omega)) ls s he hs
    refine ⟨h1, ?_⟩
    rw [sends_burst, recvs_append, recvs_replicate, ha, List.map_id] at h2
    rw [h2, List.take_of_length_le (by omega)]
  · intro h ls s he hp
    have := (fits_burst _ vs).1 (c79_only_if c rfl p ls s he hp)
    omega

/-- **C79** The client of examples/microservices (one request at a time) always gets its answers. -/
theorem c79_one_by_one (size : Nat) (hsize : 0 < size) (answer : Nat → Nat) (vs : List Nat) (ls : List Label) (s : Sys)
    (h : exec (viaListener size answer false) (init (vs.flatMap fun v => [.send v, .recv])) ls = some s)
    (hs : Stuck (viaListener size answer false) s) : s.prog = [] := by
  have hc := positive_ofList [512, 1, size, 1, 512, 1, 512, 1, size, 1, 512] (fun i v => if i = 5 then answer v else v) false
    (by simp; omega) (by simp)
  refine (c79_fits _ hc rfl _ (fits_one_by_one _ ?_ vs) ls s h hs).1
  rw [total_ofList _ _ _ (by simp)]
  simp only [List.sum_cons]
  omega

/-! ## Examples -/

/-- Three buffers for one message each. -/
def tiny (listener : Bool) : Conf := ofList [1, 1, 1] (fun i v => if i = 1 then v + 100 else v) listener

/-- Three requests at once: answered. -/
example : (exec (tiny false) (init [.send 1, .send 2, .send 3, .recv, .recv, .recv])
    [.client, .move 0, .move 1, .client, .move 0, .client, .client, .move 1, .move 0, .client, .move 1, .client]).map (fun s => (s.prog, s.got)) =
    some ([], [101, 102, 103]) := by decide

/-- Four: everybody waits. -/
example : (exec (tiny false) (init [.send 1, .send 2, .send 3, .send 4, .recv])
    [.client, .move 0, .move 1, .client, .move 0, .client]).map (fun s => (s.prog, s.got, step (tiny false) s .client |>.isNone,
      step (tiny false) s (.move 0) |>.isNone, step (tiny false) s (.move 1) |>.isNone)) =
    some ([.send 4, .recv], [], true, true, true) := by decide

/-- With a listener they are answered. -/
example : (exec (tiny true) (init [.send 1, .send 2, .send 3, .send 4])
    [.client, .move 0, .move 1, .client, .move 0, .client, .listen, .move 1, .move 0, .client, .listen, .move 1, .listen, .move 0, .move 1,
      .listen]).map (fun s => (s.prog, s.got)) = some ([], [101, 102, 103, 104]) := by decide

example : (tiny false).total = 3 := by decide

end Verif.Conn.Pipeline
