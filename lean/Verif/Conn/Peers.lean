import Verif.Trace

/-!
# Two programs that answer each other's requests (C88)

Both sides send requests over one connection and both have a data listener that answers the other side's requests through the transmit channel of the same endpoint.
From side `d` to the other side messages pass a row of bounded buffers, each emptied into the next by one goroutine, as in `Conn.Pipeline`: the transmit channel of the
endpoint (endp_default.go:100), its service goroutine (proc_upperdeck.go:47-67, one message in its hands), the channel of the connection (tran_reference.go:43-49), the
receive goroutine (proc_lowerdeck.go:59-87, one), the receive channel (endp_default.go:101) and the data listener (endp_default.go:76-87, one).
A listener that holds an answer hands it to its program; one that holds a request has to send the answer on the transmit channel of its own side before it can go on.

The row from side `d` is a list of buffers, the listener's hands first, the transmit channel last.

Simplifications: one endpoint on each side; each request gets one answer, answers get none; nobody closes the connection.
-/

namespace Verif.Conn.Peers

open Verif.Trace

inductive Msg where
  | req (v : Nat)
  | ans (v : Nat)
  deriving Repr, DecidableEq

structure Conf where
  /-- capacities of the buffers from side `d` to the other -/
  caps : Bool → List Nat
  /-- what the other side answers to a request of side `d` -/
  answer : Bool → Nat → Nat

structure Sys where
  row : Bool → List (List Msg)
  /-- the requests side `d` has yet to send -/
  prog : Bool → List Nat
  /-- the answers side `d` has got -/
  got : Bool → List Nat

def upd {α : Type} (f : Bool → α) (d : Bool) (x : α) : Bool → α := fun e => if e = d then x else f e

/-- Sending on the transmit channel, the last buffer of the row. -/
def put : List Nat → List (List Msg) → Msg → Option (List (List Msg))
  | [c], [b], m => if b.length < c then some [b ++ [m]] else none
  | _ :: cs, b :: bs, m => (put cs bs m).map (b :: ·)
  | _, _, _ => none

/-- The goroutine between buffers `i + 1` and `i`. -/
def move : List Nat → List (List Msg) → Nat → Option (List (List Msg))
  | c :: _, b :: (m :: r) :: bs, 0 => if b.length < c then some ((b ++ [m]) :: r :: bs) else none
  | _ :: cs, b :: bs, i + 1 => (move cs bs i).map (b :: ·)
  | _, _, _ => none

inductive Label where
  /-- the program of side `d` sends its next request -/
  | send (d : Bool)
  | move (d : Bool) (i : Nat)
  /-- the data listener at the end of the row from `d` -/
  | listen (d : Bool)
  deriving Repr, DecidableEq

def step (c : Conf) (s : Sys) : Label → Option Sys
  | .send d =>
    match s.prog d with
    | [] => none
    | v :: p => (put (c.caps d) (s.row d) (.req v)).map fun r => { s with row := upd s.row d r, prog := upd s.prog d p }
  | .move d i => (move (c.caps d) (s.row d) i).map fun r => { s with row := upd s.row d r }
  | .listen d =>
    match s.row d with
    | (.ans v :: r) :: bs => some { s with row := upd s.row d (r :: bs), got := upd s.got (!d) (s.got (!d) ++ [v]) }
    | (.req v :: r) :: bs =>
      (put (c.caps (!d)) (s.row (!d)) (.ans (c.answer d v))).map fun o => { s with row := upd (upd s.row d (r :: bs)) (!d) o }
    | _ => none

abbrev exec (c : Conf) := Trace.exec (step c)

def init (c : Conf) (reqs : Bool → List Nat) : Sys := ⟨fun d => (c.caps d).map fun _ => [], reqs, fun _ => []⟩

/-! ## Specification -/

/-- Nobody can go on. -/
def Stuck (c : Conf) (s : Sys) : Prop := ∀ l, step c s l = none

/-- Every request was sent and answered, and the answers are in order. -/
def Finished (c : Conf) (reqs : Bool → List Nat) (s : Sys) : Prop := ∀ d, s.prog d = [] ∧ s.got d = (reqs d).map (c.answer d)

/-- What all buffers and goroutines together hold. -/
def Conf.total (c : Conf) : Nat := (c.caps false).sum + (c.caps true).sum

/-- Every row has a buffer, every buffer has room for a message. -/
def Conf.Ok (c : Conf) : Prop := ∀ d, c.caps d ≠ [] ∧ ∀ n ∈ c.caps d, 0 < n

/-! ## Rows -/

/-- No buffer holds more than it can. -/
def Fit : List Nat → List (List Msg) → Prop
  | [], [] => True
  | c :: cs, b :: bs => b.length ≤ c ∧ Fit cs bs
  | _, _ => False

theorem len_flat (b : List Msg) (bs : List (List Msg)) : (b :: bs).flatten.length = b.length + bs.flatten.length := by
  rw [List.flatten_cons, List.length_append]

theorem fit_empty : ∀ cs : List Nat, Fit cs (cs.map fun _ => [])
  | [] => trivial
  | _ :: cs => ⟨Nat.zero_le _, fit_empty cs⟩

theorem fit_le : ∀ (cs : List Nat) (bs : List (List Msg)), Fit cs bs → bs.flatten.length ≤ cs.sum
  | [], [], _ => Nat.le_refl _
  | c :: cs, b :: bs, h => by
    have := fit_le cs bs h.2
    have := h.1
    simp only [List.flatten_cons, List.length_append, List.sum_cons]
    omega
  | [], _ :: _, h => h.elim
  | _ :: _, [], h => h.elim

theorem put_spec : ∀ (cs : List Nat) (bs : List (List Msg)) (m : Msg) (o : List (List Msg)), Fit cs bs → put cs bs m = some o →
    Fit cs o ∧ o.flatten = bs.flatten ++ [m]
  | [], [], _, _, _, h => by simp [put] at h
  | [c], [b], m, o, hf, h => by
    simp only [put] at h
    split at h
    · injection h with h; subst h
      exact ⟨⟨by simp; omega, trivial⟩, by simp⟩
    · simp at h
  | c :: c' :: cs, b :: b' :: bs, m, o, hf, h => by
    simp only [put, Option.map_eq_some_iff] at h
    obtain ⟨x, hx, rfl⟩ := h
    obtain ⟨h1, h2⟩ := put_spec (c' :: cs) (b' :: bs) m x hf.2 hx
    exact ⟨⟨hf.1, h1⟩, by simp only [List.flatten_cons] at h2 ⊢; rw [h2]; simp⟩
  | [], _ :: _, _, _, hf, _ => hf.elim
  | _ :: _, [], _, _, hf, _ => hf.elim
  | [_], _ :: _ :: _, _, _, hf, _ => hf.2.elim
  | _ :: _ :: _, [_], _, _, hf, _ => hf.2.elim

theorem move_spec : ∀ (cs : List Nat) (bs : List (List Msg)) (i : Nat) (o : List (List Msg)), Fit cs bs → move cs bs i = some o →
    Fit cs o ∧ o.flatten = bs.flatten
  | [], [], _, _, _, h => by simp [move] at h
  | [_], [_], 0, _, _, h => by simp [move] at h
  | [_], [_], _ + 1, _, _, h => by simp [move] at h
  | c :: c' :: cs, b :: [] :: bs, 0, o, hf, h => by simp [move] at h
  | c :: c' :: cs, b :: (m :: r) :: bs, 0, o, hf, h => by
    simp only [move] at h
    split at h
    · injection h with h; subst h
      have := hf.2.1
      simp at this
      exact ⟨⟨by simp; omega, by omega, hf.2.2⟩, by simp⟩
    · simp at h
  | c :: c' :: cs, b :: b' :: bs, i + 1, o, hf, h => by
    simp only [move, Option.map_eq_some_iff] at h
    obtain ⟨x, hx, rfl⟩ := h
    obtain ⟨h1, h2⟩ := move_spec (c' :: cs) (b' :: bs) i x hf.2 hx
    exact ⟨⟨hf.1, h1⟩, by simp only [List.flatten_cons] at h2 ⊢; rw [h2]⟩
  | [], _ :: _, _, _, hf, _ => hf.elim
  | _ :: _, [], _, _, hf, _ => hf.elim
  | [_], _ :: _ :: _, _, _, hf, _ => hf.2.elim
  | _ :: _ :: _, [_], _, _, hf, _ => hf.2.elim

/-- A row in which nothing can move and whose listener's hands are empty is empty. -/
theorem still_empty : ∀ (cs : List Nat) (bs : List (List Msg)), Fit cs ([] :: bs) → (∀ n ∈ cs, 0 < n) → (∀ i, move cs ([] :: bs) i = none) → bs.flatten = []
  | [], _, hf, _, _ => hf.elim
  | _ :: _, [], _, _, _ => rfl
  | _ :: [], _ :: _, hf, _, _ => hf.2.elim
  | c :: c' :: cs, b :: bs, hf, hp, hm => by
    cases b with
    | cons m r =>
      have := hm 0
      simp [move, hp c (by simp)] at this
    | nil =>
      have := still_empty (c' :: cs) bs hf.2 (fun n h => hp n (by simp [h])) (fun i => by have := hm (i + 1); simpa [move] using this)
      simpa using this

/-- A row in which nothing can move and whose transmit channel is full is full. -/
theorem still_full : ∀ (cs : List Nat) (bs : List (List Msg)) (m : Msg), Fit cs bs → cs ≠ [] → (∀ n ∈ cs, 0 < n) → (∀ i, move cs bs i = none) → put cs bs m = none →
    bs.flatten.length = cs.sum
  | [], _, _, _, h, _, _, _ => absurd rfl h
  | _ :: _, [], _, hf, _, _, _, _ => hf.elim
  | [c], [b], m, hf, _, _, _, h => by
    simp only [put] at h
    split at h
    · simp at h
    · have := hf.1; simp; omega
  | [_], _ :: _ :: _, _, hf, _, _, _, _ => hf.2.elim
  | _ :: _ :: _, [_], _, hf, _, _, _, _ => hf.2.elim
  | c :: c' :: cs, b :: b' :: bs, m, hf, _, hp, hm, h => by
    have ih := still_full (c' :: cs) (b' :: bs) m hf.2 (by simp) (fun n h => hp n (by simp [h])) (fun i => by have := hm (i + 1); simpa [move] using this)
      (by simpa [put] using h)
    have hb' : b' ≠ [] := by
      intro e
      subst e
      have := fit_le cs bs hf.2.2
      have := hp c' (by simp)
      simp only [len_flat, List.sum_cons, List.length_nil] at ih
      omega
    obtain ⟨x, r, rfl⟩ := List.exists_cons_of_ne_nil hb'
    have h0 := hm 0
    simp only [move] at h0
    split at h0
    · simp at h0
    · have := hf.1
      simp only [len_flat, List.sum_cons] at ih ⊢
      omega

/-- A full row: every buffer is full, nothing can be put in, nothing moves, and the listener holds the oldest message. -/
theorem full_still : ∀ (cs : List Nat) (bs : List (List Msg)), Fit cs bs → bs.flatten.length = cs.sum → (∀ m, put cs bs m = none) ∧ ∀ i, move cs bs i = none
  | [], [], _, _ => ⟨fun _ => rfl, fun _ => by simp [move]⟩
  | [], _ :: _, hf, _ => hf.elim
  | _ :: _, [], hf, _ => hf.elim
  | [c], [b], hf, h => by
    refine ⟨fun m => ?_, fun i => by cases i <;> simp [move]⟩
    simp at h
    simp [put]; omega
  | [_], _ :: _ :: _, hf, _ => hf.2.elim
  | _ :: _ :: _, [_], hf, _ => hf.2.elim
  | c :: c' :: cs, b :: b' :: bs, hf, h => by
    have h1 := fit_le _ _ hf.2
    have h2 := hf.1
    simp only [len_flat, List.sum_cons] at h h1
    obtain ⟨i1, i2⟩ := full_still (c' :: cs) (b' :: bs) hf.2 (by simp only [len_flat, List.sum_cons]; omega)
    refine ⟨fun m => by simp [put, i1 m], fun i => ?_⟩
    cases i with
    | zero =>
      cases b' with
      | nil => simp [move]
      | cons x r => simp only [move]; rw [if_neg (by omega)]
    | succ i => simp [move, i2 i]

/-- Moves within a row. -/
def moves (cs : List Nat) : List (List Msg) → List Nat → Option (List (List Msg))
  | bs, [] => some bs
  | bs, i :: is => (move cs bs i).bind fun bs => moves cs bs is

theorem moves_lift (c : Nat) (cs : List Nat) (b : List Msg) : ∀ (is : List Nat) (bs o : List (List Msg)), moves cs bs is = some o →
    moves (c :: cs) (b :: bs) (is.map (· + 1)) = some (b :: o)
  | [], bs, o, h => by simp only [moves] at h; injection h with h; subst h; rfl
  | i :: is, bs, o, h => by
    simp only [moves, Option.bind_eq_some_iff] at h
    obtain ⟨x, h1, h2⟩ := h
    simp only [List.map_cons, moves, move, h1, Option.map_some, Option.bind_some]
    exact moves_lift c cs b is x o h2

/-- In a row that is not full, moves make room in the transmit channel. -/
theorem make_room : ∀ (cs : List Nat) (bs : List (List Msg)), Fit cs bs → (∀ n ∈ cs, 0 < n) → bs.flatten.length < cs.sum →
    ∃ is o, moves cs bs is = some o ∧ Fit cs o ∧ o.flatten = bs.flatten ∧ ∀ m, ∃ o', put cs o m = some o'
  | [], [], _, _, h => by simp at h
  | [], _ :: _, hf, _, _ => hf.elim
  | _ :: _, [], hf, _, _ => hf.elim
  | [c], [b], hf, _, h => by
    refine ⟨[], [b], rfl, hf, rfl, fun m => ⟨[b ++ [m]], ?_⟩⟩
    simp at h
    simp [put, h]
  | [_], _ :: _ :: _, hf, _, _ => hf.2.elim
  | _ :: _ :: _, [_], hf, _, _ => hf.2.elim
  | c :: c' :: cs, b :: b' :: bs, hf, hp, h => by
    have hp' : ∀ n ∈ c' :: cs, 0 < n := fun n h => hp n (List.mem_cons_of_mem _ h)
    by_cases hlt : (b' :: bs).flatten.length < (c' :: cs).sum
    · obtain ⟨is, o, h1, h2, h3, h4⟩ := make_room (c' :: cs) (b' :: bs) hf.2 hp' hlt
      refine ⟨_, b :: o, moves_lift c _ b is _ _ h1, ⟨hf.1, h2⟩, by simp only [List.flatten_cons] at h3 ⊢; rw [h3], fun m => ?_⟩
      obtain ⟨o', ho⟩ := h4 m
      cases o with
      | nil => exact h2.elim
      | cons x xs => exact ⟨b :: o', by simp [put, ho]⟩
    · have h1 := fit_le _ _ hf.2
      have heq : (b' :: bs).flatten.length = (c' :: cs).sum := by omega
      have hb : b.length < c := by
        simp only [len_flat, List.sum_cons] at h heq
        omega
      have hb' : b' ≠ [] := by
        intro e
        subst e
        have := fit_le cs bs hf.2.2
        have := hp c' (by simp)
        simp only [len_flat, List.sum_cons, List.length_nil] at heq
        omega
      obtain ⟨x, r, rfl⟩ := List.exists_cons_of_ne_nil hb'
      have hr := hf.2.1
      simp at hr
      have hf1 : Fit (c' :: cs) (r :: bs) := ⟨by omega, hf.2.2⟩
      obtain ⟨is, o, i1, i2, i3, i4⟩ := make_room (c' :: cs) (r :: bs) hf1 hp' (by simp only [len_flat, List.sum_cons, List.length_cons] at heq ⊢; omega)
      refine ⟨0 :: is.map (· + 1), (b ++ [x]) :: o, ?_, ⟨by simp; omega, i2⟩, by rw [List.flatten_cons, i3]; simp, fun m => ?_⟩
      · simp only [moves, move, if_pos hb, Option.bind_some]
        exact moves_lift c _ _ is _ _ i1
      · obtain ⟨o', ho⟩ := i4 m
        cases o with
        | nil => exact i2.elim
        | cons y ys => exact ⟨(b ++ [x]) :: o', by simp [put, ho]⟩

/-! ## Messages on their way -/

def flow (s : Sys) (d : Bool) : List Msg := (s.row d).flatten

def reqsIn (l : List Msg) : List Nat := l.filterMap fun | .req v => some v | .ans _ => none

def ansIn (l : List Msg) : List Nat := l.filterMap fun | .ans v => some v | .req _ => none

theorem split_len : ∀ l : List Msg, (reqsIn l).length + (ansIn l).length = l.length
  | [] => rfl
  | .req v :: l => by have := split_len l; simp [reqsIn, ansIn] at this ⊢; omega
  | .ans v :: l => by have := split_len l; simp [reqsIn, ansIn] at this ⊢; omega

theorem ansIn_reqs : ∀ l : List Nat, ansIn (l.map .req) = []
  | [] => rfl
  | _ :: l => ansIn_reqs l

theorem reqsIn_append (a b : List Msg) : reqsIn (a ++ b) = reqsIn a ++ reqsIn b := List.filterMap_append
theorem ansIn_append (a b : List Msg) : ansIn (a ++ b) = ansIn a ++ ansIn b := List.filterMap_append

@[simp] theorem upd_same {α : Type} (f : Bool → α) (d : Bool) (x : α) : upd f d x d = x := by simp [upd]
@[simp] theorem upd_not {α : Type} (f : Bool → α) (d : Bool) (x : α) : upd f d x (!d) = f (!d) := by cases d <;> simp [upd]
@[simp] theorem upd_not' {α : Type} (f : Bool → α) (d : Bool) (x : α) : upd f (!d) x d = f d := by cases d <;> simp [upd]

/-- What holds at any time: what side `d` has got, the answers on their way back, the requests on their way and those not sent yet. -/
structure Inv (c : Conf) (reqs : Bool → List Nat) (s : Sys) : Prop where
  fit : ∀ d, Fit (c.caps d) (s.row d)
  all : ∀ d, s.got d ++ ansIn (flow s (!d)) ++ (reqsIn (flow s d) ++ s.prog d).map (c.answer d) = (reqs d).map (c.answer d)

theorem inv_step {c : Conf} {reqs : Bool → List Nat} {s s' : Sys} {l : Label} (h : Inv c reqs s) (hs : step c s l = some s') : Inv c reqs s' := by
  have both : ∀ (P : Bool → Prop) (d : Bool), P d → P (!d) → ∀ e, P e := by
    intro P d h1 h2 e
    cases d <;> cases e <;> assumption
  cases l with
  | send d =>
    simp only [step] at hs
    split at hs
    · simp at hs
    · rename_i v p hp
      simp only [Option.map_eq_some_iff] at hs
      obtain ⟨r, hr, rfl⟩ := hs
      obtain ⟨h1, h2⟩ := put_spec _ _ _ _ (h.fit d) hr
      have a1 := h.all d
      have a2 := h.all (!d)
      rw [Bool.not_not] at a2
      constructor
      · exact both _ d (by simpa using h1) (by simpa using h.fit (!d))
      · refine both _ d ?_ ?_
        · simp only [flow, upd_same, upd_not, h2, reqsIn_append] at a1 ⊢
          rw [← a1, hp]
          simp [reqsIn]
        · simp only [Bool.not_not, flow, upd_same, upd_not, h2, ansIn_append] at a2 ⊢
          rw [← a2]
          simp [ansIn]
  | move d i =>
    simp only [step, Option.map_eq_some_iff] at hs
    obtain ⟨r, hr, rfl⟩ := hs
    obtain ⟨h1, h2⟩ := move_spec _ _ _ _ (h.fit d) hr
    have a1 := h.all d
    have a2 := h.all (!d)
    rw [Bool.not_not] at a2
    constructor
    · exact both _ d (by simpa using h1) (by simpa using h.fit (!d))
    · refine both _ d ?_ ?_
      · simp only [flow, upd_same, upd_not, h2] at a1 ⊢
        exact a1
      · simp only [Bool.not_not, flow, upd_same, upd_not, h2] at a2 ⊢
        exact a2
  | listen d =>
    have a1 := h.all d
    have a2 := h.all (!d)
    rw [Bool.not_not] at a2
    have hf := h.fit d
    simp only [step] at hs
    split at hs
    · rename_i v r bs hrow
      injection hs with hs; subst hs
      rw [hrow] at hf
      have hf' : Fit (c.caps d) (r :: bs) := by
        cases hcd : c.caps d with
        | nil => rw [hcd] at hf; exact hf.elim
        | cons n ns => rw [hcd] at hf; exact ⟨by have := hf.1; simp at this; omega, hf.2⟩
      constructor
      · exact both _ d (by simpa using hf') (by simpa using h.fit (!d))
      · refine both _ d ?_ ?_
        · simp only [flow, upd_same, upd_not, upd_not', hrow] at a1 ⊢
          rw [← a1]
          simp [reqsIn]
        · simp only [Bool.not_not, flow, upd_same, upd_not, hrow] at a2 ⊢
          rw [← a2]
          simp [ansIn]
    · rename_i v r bs hrow
      simp only [Option.map_eq_some_iff] at hs
      obtain ⟨o, ho, rfl⟩ := hs
      obtain ⟨h1, h2⟩ := put_spec _ _ _ _ (h.fit (!d)) ho
      rw [hrow] at hf
      have hf' : Fit (c.caps d) (r :: bs) := by
        cases hcd : c.caps d with
        | nil => rw [hcd] at hf; exact hf.elim
        | cons n ns => rw [hcd] at hf; exact ⟨by have := hf.1; simp at this; omega, hf.2⟩
      constructor
      · exact both _ d (by simpa using hf') (by simpa using h1)
      · refine both _ d ?_ ?_
        · simp only [flow, upd_same, upd_not', h2, hrow, ansIn_append] at a1 ⊢
          rw [← a1]
          simp [reqsIn, ansIn]
        · simp only [Bool.not_not, flow, upd_same, upd_not', h2, hrow, reqsIn_append] at a2 ⊢
          rw [← a2]
          simp [reqsIn, ansIn]
    · simp at hs

theorem flatten_empty : ∀ cs : List Nat, (cs.map fun _ => ([] : List Msg)).flatten = []
  | [] => rfl
  | _ :: cs => flatten_empty cs

theorem inv_exec (c : Conf) (reqs : Bool → List Nat) (ls : List Label) (s : Sys) (h : exec c (init c reqs) ls = some s) : Inv c reqs s := by
  refine invariant (step := step c) (Q := fun _ => True) (P := Inv c reqs) (fun _ _ _ hp _ hs => inv_step hp hs) ls (init c reqs) s ?_ (fun _ _ => trivial) h
  exact ⟨fun d => fit_empty _, fun d => by simp [flow, init, flatten_empty, reqsIn, ansIn]⟩

theorem Inv.count {c : Conf} {reqs : Bool → List Nat} {s : Sys} (h : Inv c reqs s) (d : Bool) :
    (s.got d).length + (ansIn (flow s (!d))).length + (reqsIn (flow s d)).length + (s.prog d).length = (reqs d).length := by
  have := congrArg List.length (h.all d)
  simp only [List.length_append, List.length_map] at this
  omega

/-- C88: the answers a side has got are those to its first requests, complete and in order. -/
theorem c88_answers (c : Conf) (reqs : Bool → List Nat) (ls : List Label) (s : Sys) (h : exec c (init c reqs) ls = some s) (d : Bool) :
    s.got d = ((reqs d).map (c.answer d)).take (s.got d).length := by
  have := (inv_exec c reqs ls s h).all d
  rw [← this, List.append_assoc, List.take_left]

/-! ## It ends -/

/-- Moves still to be made in a row. -/
def ahead : List (List Msg) → Nat
  | [] => 0
  | _ :: bs => bs.flatten.length + ahead bs

theorem put_ahead : ∀ (cs : List Nat) (bs : List (List Msg)) (m : Msg) (o : List (List Msg)), Fit cs bs → put cs bs m = some o → ahead o = ahead bs + (cs.length - 1)
  | [], [], _, _, _, h => by simp [put] at h
  | [c], [b], m, o, hf, h => by
    simp only [put] at h
    split at h
    · injection h with h; subst h; rfl
    · simp at h
  | c :: c' :: cs, b :: b' :: bs, m, o, hf, h => by
    simp only [put, Option.map_eq_some_iff] at h
    obtain ⟨x, hx, rfl⟩ := h
    have h1 := put_ahead (c' :: cs) (b' :: bs) m x hf.2 hx
    have h2 := congrArg List.length (put_spec _ _ _ _ hf.2 hx).2
    simp only [len_flat, List.length_append, List.length_cons, List.length_nil] at h1 h2
    simp only [ahead, List.length_cons, len_flat] at h1 ⊢
    omega
  | [], _ :: _, _, _, hf, _ => hf.elim
  | _ :: _, [], _, _, hf, _ => hf.elim
  | [_], _ :: _ :: _, _, _, hf, _ => hf.2.elim
  | _ :: _ :: _, [_], _, _, hf, _ => hf.2.elim

theorem move_ahead : ∀ (cs : List Nat) (bs : List (List Msg)) (i : Nat) (o : List (List Msg)), Fit cs bs → move cs bs i = some o → ahead o + 1 = ahead bs
  | [], [], _, _, _, h => by simp [move] at h
  | [_], [_], 0, _, _, h => by simp [move] at h
  | [_], [_], _ + 1, _, _, h => by simp [move] at h
  | c :: c' :: cs, b :: [] :: bs, 0, o, hf, h => by simp [move] at h
  | c :: c' :: cs, b :: (m :: r) :: bs, 0, o, hf, h => by
    simp only [move] at h
    split at h
    · injection h with h; subst h
      simp only [ahead, len_flat, List.length_cons]
      omega
    · simp at h
  | c :: c' :: cs, b :: b' :: bs, i + 1, o, hf, h => by
    simp only [move, Option.map_eq_some_iff] at h
    obtain ⟨x, hx, rfl⟩ := h
    have h1 := move_ahead (c' :: cs) (b' :: bs) i x hf.2 hx
    have h2 := (move_spec _ _ _ _ hf.2 hx).2
    simp only [ahead] at h1 ⊢
    rw [h2]
    omega
  | [], _ :: _, _, _, hf, _ => hf.elim
  | _ :: _, [], _, _, hf, _ => hf.elim
  | [_], _ :: _ :: _, _, _, hf, _ => hf.2.elim
  | _ :: _ :: _, [_], _, _, hf, _ => hf.2.elim

/-- Steps per request: sending, both ways, both listeners. -/
def Conf.steps (c : Conf) : Nat := (c.caps false).length + (c.caps true).length + 1

/-- The steps side `d`'s row and program still need. -/
def part (c : Conf) (s : Sys) (d : Bool) : Nat :=
  (s.prog d).length * c.steps + ahead (s.row d) + (reqsIn (flow s d)).length * ((c.caps (!d)).length + 1) + (ansIn (flow s d)).length

def work (c : Conf) (s : Sys) : Nat := part c s false + part c s true

theorem work_eq (c : Conf) (s : Sys) (d : Bool) : work c s = part c s d + part c s (!d) := by cases d <;> simp [work] <;> omega

theorem steps_eq (c : Conf) (d : Bool) : c.steps = (c.caps d).length + (c.caps (!d)).length + 1 := by cases d <;> simp [Conf.steps] <;> omega

/-- Every step is one step less to do. -/
theorem work_step {c : Conf} (hok : c.Ok) {reqs : Bool → List Nat} {s s' : Sys} {l : Label} (h : Inv c reqs s) (hs : step c s l = some s') : work c s' + 1 = work c s := by
  have pos : ∀ d, 0 < (c.caps d).length := fun d => List.length_pos_iff.mpr (hok d).1
  cases l with
  | send d =>
    simp only [step] at hs
    split at hs
    · simp at hs
    · rename_i v p hp
      simp only [Option.map_eq_some_iff] at hs
      obtain ⟨r, hr, rfl⟩ := hs
      obtain ⟨_, h2⟩ := put_spec _ _ _ _ (h.fit d) hr
      have h3 := put_ahead _ _ _ _ (h.fit d) hr
      rw [work_eq c _ d, work_eq c _ d]
      simp only [part, flow, upd_same, upd_not, h2, h3, reqsIn_append, ansIn_append, hp, List.length_cons, List.length_append, Nat.succ_mul, Nat.add_mul]
      have := steps_eq c d
      have := pos d
      simp only [reqsIn, ansIn, List.filterMap_cons, List.filterMap_nil, List.length_cons, List.length_nil]
      omega
  | move d i =>
    simp only [step, Option.map_eq_some_iff] at hs
    obtain ⟨r, hr, rfl⟩ := hs
    obtain ⟨_, h2⟩ := move_spec _ _ _ _ (h.fit d) hr
    have h3 := move_ahead _ _ _ _ (h.fit d) hr
    rw [work_eq c _ d, work_eq c _ d]
    simp only [part, flow, upd_same, upd_not, h2]
    omega
  | listen d =>
    simp only [step] at hs
    split at hs
    · rename_i v r bs hrow
      injection hs with hs; subst hs
      rw [work_eq c _ d, work_eq c _ d]
      simp only [part, flow, upd_same, upd_not, hrow, ahead, List.flatten_cons, List.cons_append]
      simp only [reqsIn, ansIn, List.filterMap_cons, List.length_cons]
      omega
    · rename_i v r bs hrow
      simp only [Option.map_eq_some_iff] at hs
      obtain ⟨o, ho, rfl⟩ := hs
      obtain ⟨_, h2⟩ := put_spec _ _ _ _ (h.fit (!d)) ho
      have h3 := put_ahead _ _ _ _ (h.fit (!d)) ho
      rw [work_eq c _ d, work_eq c _ d]
      simp only [part, flow, upd_same, upd_not', h2, h3, hrow, ahead, List.flatten_cons, List.cons_append, reqsIn_append, ansIn_append, List.length_append]
      have := pos (!d)
      simp only [reqsIn, ansIn, List.filterMap_cons, List.filterMap_nil, List.length_cons, List.length_nil, Nat.succ_mul, Nat.add_zero,
        List.filterMap_append, List.length_append]
      omega
    · simp at hs

theorem ahead_empty : ∀ cs : List Nat, ahead (cs.map fun _ => []) = 0
  | [] => rfl
  | _ :: cs => by have := ahead_empty cs; simp only [List.map_cons, ahead, flatten_empty, this, List.length_nil]

/-- C88: however the goroutines are scheduled, they come to rest after a bounded number of steps, and from every point they can get there. -/
theorem c88_ends (c : Conf) (hok : c.Ok) (reqs : Bool → List Nat) (ls : List Label) (s : Sys) (h : exec c (init c reqs) ls = some s) :
    ls.length ≤ ((reqs false).length + (reqs true).length) * ((c.caps false).length + (c.caps true).length + 1) ∧
    ∃ ls' s', exec c s ls' = some s' ∧ Stuck c s' := by
  constructor
  · have : ls.length + work c s = work c (init c reqs) := by
      refine snoc_induction (P := fun ls => ∀ s, exec c (init c reqs) ls = some s → ls.length + work c s = work c (init c reqs)) ?_ ?_ ls s h
      · intro s h; injection h with h; subst h; simp
      · intro ls l ih s' h
        obtain ⟨s, h1, h2⟩ := exec_snoc (step := step c) h
        have := ih s h1
        have := work_step hok (inv_exec c reqs ls s h1) h2
        simp only [List.length_append, List.length_cons, List.length_nil]
        omega
    have h0 : work c (init c reqs) = ((reqs false).length + (reqs true).length) * c.steps := by
      simp only [work, part, flow, init, flatten_empty, ahead_empty]
      simp [reqsIn, ansIn, Nat.add_mul]
    have : c.steps = (c.caps false).length + (c.caps true).length + 1 := rfl
    rw [← this, ← h0]
    omega
  · have hi := inv_exec c reqs ls s h
    generalize hn : work c s = n
    clear h
    induction n generalizing s with
    | zero =>
      refine ⟨[], s, rfl, fun l => ?_⟩
      cases hl : step c s l with
      | none => rfl
      | some s' => have := work_step hok hi hl; omega
    | succ n ih =>
      by_cases hst : Stuck c s
      · exact ⟨[], s, rfl, hst⟩
      · have : ∃ l, step c s l ≠ none := Classical.byContradiction fun h => hst fun l => Classical.byContradiction fun h' => h ⟨l, h'⟩
        obtain ⟨l, hl⟩ := this
        obtain ⟨s1, h1⟩ := Option.ne_none_iff_exists'.mp hl
        have := work_step hok hi h1
        obtain ⟨ls', s', h2, h3⟩ := ih s1 (inv_step hi h1) (by omega)
        exact ⟨l :: ls', s', by simp only [exec, Trace.exec, h1]; exact h2, h3⟩

/-! ## When nobody can go on -/

/-- If nobody can go on although not everything is answered, every buffer is full and both listeners hold requests. -/
theorem stuck_full {c : Conf} (hok : c.Ok) {reqs : Bool → List Nat} {s : Sys} (h : Inv c reqs s) (hst : Stuck c s) (hnf : ¬ Finished c reqs s) (d : Bool) :
    (flow s d).length = (c.caps d).sum ∧ 0 < (reqsIn (flow s d)).length := by
  have hmv : ∀ d i, move (c.caps d) (s.row d) i = none := fun d i => by
    have := hst (.move d i)
    simpa [step] using this
  have hpos : ∀ d, 0 < (c.caps d).sum := by
    intro d
    obtain ⟨h1, h2⟩ := hok d
    obtain ⟨x, xs, e⟩ := List.exists_cons_of_ne_nil h1
    have := h2 x (by simp [e])
    rw [e, List.sum_cons]
    omega
  have full : ∀ d m, put (c.caps d) (s.row d) m = none → (flow s d).length = (c.caps d).sum := fun d m hp =>
    still_full _ _ m (h.fit d) (hok d).1 (hok d).2 (hmv d) hp
  -- a listener with a message
  have hands : ∀ d, flow s d ≠ [] → ∃ v, put (c.caps (!d)) (s.row (!d)) (.ans v) = none ∧ 0 < (reqsIn (flow s d)).length := by
    intro d hne
    have hl := hst (.listen d)
    cases hrow : s.row d with
    | nil => simp [flow, hrow] at hne
    | cons b bs =>
      cases b with
      | nil =>
        exfalso
        have := still_empty (c.caps d) bs (by rw [← hrow]; exact h.fit d) (hok d).2 (by rw [← hrow]; exact hmv d)
        simp [flow, hrow, this] at hne
      | cons m r =>
        cases m with
        | ans v => simp [step, hrow] at hl
        | req v =>
          simp only [step, hrow, Option.map_eq_none_iff] at hl
          exact ⟨_, hl, by simp [flow, hrow, reqsIn]⟩
  have ne : ∀ d, (flow s d).length = (c.caps d).sum → flow s d ≠ [] := by
    intro d h1 h2
    have := hpos d
    rw [h2] at h1
    simp at h1
    omega
  have around : ∀ d, flow s d ≠ [] → (flow s d).length = (c.caps d).sum ∧ 0 < (reqsIn (flow s d)).length ∧
      (flow s (!d)).length = (c.caps (!d)).sum ∧ 0 < (reqsIn (flow s (!d))).length := by
    intro d hd
    obtain ⟨v, hv, hr⟩ := hands d hd
    have f1 := full (!d) _ hv
    obtain ⟨v', hv', hr'⟩ := hands (!d) (ne _ f1)
    rw [Bool.not_not] at hv'
    exact ⟨full d _ hv', hr, f1, hr'⟩
  by_cases hd : flow s d = []
  · by_cases he : flow s (!d) = []
    · exfalso
      apply hnf
      have both : ∀ e, flow s e = [] := by intro e; cases d <;> cases e <;> assumption
      intro e
      have hp : s.prog e = [] := by
        have := hst (.send e)
        cases hpe : s.prog e with
        | nil => rfl
        | cons v p =>
          simp only [step, hpe, Option.map_eq_none_iff] at this
          exact absurd (both e) (ne e (full e _ this))
      refine ⟨hp, ?_⟩
      have := h.all e
      rw [both e, both (!e), hp] at this
      simpa [reqsIn, ansIn] using this
    · obtain ⟨_, _, h3, _⟩ := around (!d) he
      rw [Bool.not_not] at h3
      exact absurd hd (ne d h3)
  · obtain ⟨h1, h2, _⟩ := around d hd
    exact ⟨h1, h2⟩

/-! ## Locking each other up -/

def Reach (c : Conf) (s s' : Sys) : Prop := ∃ ls, exec c s ls = some s'

theorem Reach.trans {c : Conf} {s t u : Sys} (h1 : Reach c s t) (h2 : Reach c t u) : Reach c s u := by
  obtain ⟨a, ha⟩ := h1
  obtain ⟨b, hb⟩ := h2
  exact ⟨a ++ b, by show Trace.exec (step c) _ _ = _; rw [exec_append, show Trace.exec (step c) s a = some t from ha]; exact hb⟩

theorem reach_moves (c : Conf) (d : Bool) : ∀ (is : List Nat) (s : Sys) (o : List (List Msg)), moves (c.caps d) (s.row d) is = some o →
    Reach c s { s with row := upd s.row d o }
  | [], s, o, h => by
    simp only [moves] at h
    injection h with h
    subst h
    refine ⟨[], ?_⟩
    have : upd s.row d (s.row d) = s.row := by funext e; simp only [upd]; split <;> simp_all
    rw [this]
    rfl
  | i :: is, s, o, h => by
    simp only [moves, Option.bind_eq_some_iff] at h
    obtain ⟨x, h1, h2⟩ := h
    have h3 := reach_moves c d is { s with row := upd s.row d x } o (by simpa using h2)
    have e : upd (upd s.row d x) d o = upd s.row d o := by funext e; simp only [upd]; split <;> rfl
    simp only [e] at h3
    exact Reach.trans ⟨[.move d i], by simp [exec, Trace.exec, step, h1]⟩ h3

/-- What sending one more request does. -/
theorem send_one {c : Conf} (hok : c.Ok) {s : Sys} (hf : ∀ d, Fit (c.caps d) (s.row d)) (d : Bool) (v : Nat) (p : List Nat) (hp : s.prog d = v :: p)
    (hlt : (flow s d).length < (c.caps d).sum) :
    ∃ s', Reach c s s' ∧ (∀ d, Fit (c.caps d) (s'.row d)) ∧ flow s' d = flow s d ++ [.req v] ∧ s'.row (!d) = s.row (!d) ∧ s'.prog d = p ∧ s'.prog (!d) = s.prog (!d) := by
  obtain ⟨is, o, h1, h2, h3, h4⟩ := make_room _ _ (hf d) (hok d).2 hlt
  obtain ⟨o', ho⟩ := h4 (.req v)
  obtain ⟨g1, g2⟩ := put_spec _ _ _ _ h2 ho
  refine ⟨{ s with row := upd (upd s.row d o) d o', prog := upd s.prog d p }, (reach_moves c d is s o h1).trans ⟨[.send d], by
    simp [exec, Trace.exec, step, hp, ho]⟩, ?_, ?_, by simp, by simp, by simp⟩
  · intro e
    by_cases he : e = d
    · subst he; simpa using g1
    · have : e = !d := by cases e <;> cases d <;> simp_all
      subst this; simpa using hf (!d)
  · simp only [flow, upd_same, g2, h3]

theorem send_many {c : Conf} (hok : c.Ok) (d : Bool) : ∀ (vs p : List Nat) (s : Sys), (∀ d, Fit (c.caps d) (s.row d)) → s.prog d = vs ++ p →
    (flow s d).length + vs.length ≤ (c.caps d).sum →
    ∃ s', Reach c s s' ∧ (∀ d, Fit (c.caps d) (s'.row d)) ∧ flow s' d = flow s d ++ vs.map .req ∧ s'.row (!d) = s.row (!d) ∧ s'.prog d = p ∧ s'.prog (!d) = s.prog (!d)
  | [], p, s, hf, hp, _ => ⟨s, ⟨[], rfl⟩, hf, by simp, rfl, by simpa using hp, rfl⟩
  | v :: vs, p, s, hf, hp, hl => by
    simp only [List.length_cons] at hl
    obtain ⟨s1, r1, f1, a1, b1, p1, q1⟩ := send_one hok hf d v (vs ++ p) (by simpa using hp) (by omega)
    obtain ⟨s2, r2, f2, a2, b2, p2, q2⟩ := send_many hok d vs p s1 f1 p1 (by rw [a1]; simp; omega)
    exact ⟨s2, r1.trans r2, f2, by rw [a2, a1]; simp, by rw [b2, b1], p2, by rw [q2, q1]⟩

/-- With the row from `d` full of requests: a request is answered and another one takes its place. -/
theorem swap_many {c : Conf} (hok : c.Ok) (d : Bool) : ∀ (vs p : List Nat) (s : Sys) (x : Nat) (rest : List Msg), (∀ d, Fit (c.caps d) (s.row d)) → s.prog d = vs ++ p →
    (flow s d).length = (c.caps d).sum → ansIn (flow s d) = [] → flow s (!d) = .req x :: rest → (flow s (!d)).length + vs.length ≤ (c.caps (!d)).sum →
    ∃ s' rest', Reach c s s' ∧ (∀ d, Fit (c.caps d) (s'.row d)) ∧ (flow s' d).length = (c.caps d).sum ∧ ansIn (flow s' d) = [] ∧ flow s' (!d) = .req x :: rest' ∧
      (flow s' (!d)).length = (flow s (!d)).length + vs.length
  | [], p, s, x, rest, hf, hp, h1, h2, h3, _ => ⟨s, rest, ⟨[], rfl⟩, hf, h1, h2, h3, by simp⟩
  | v :: vs, p, s, x, rest, hf, hp, h1, h2, h3, hl => by
    simp only [List.length_cons] at hl
    obtain ⟨n, ns, hcd⟩ := List.exists_cons_of_ne_nil (hok d).1
    have hn : 0 < n := (hok d).2 n (by simp [hcd])
    -- make room on the way back
    obtain ⟨is, o, m1, m2, m3, m4⟩ := make_room _ _ (hf (!d)) (hok (!d)).2 (by simp only [flow] at hl; omega)
    have r1 := reach_moves c (!d) is s o m1
    -- the listener holds a request
    have hfd := hf d
    cases hrow : s.row d with
    | nil => rw [hrow, hcd] at hfd; exact hfd.elim
    | cons b bs =>
      rw [hrow, hcd] at hfd
      have hb : b ≠ [] := by
        intro e
        subst e
        have := fit_le _ _ hfd.2
        simp only [flow, hrow, hcd, len_flat, List.length_nil, List.sum_cons] at h1
        omega
      obtain ⟨m, r, rfl⟩ := List.exists_cons_of_ne_nil hb
      cases m with
      | ans w => simp [flow, hrow, ansIn] at h2
      | req w =>
        obtain ⟨o', ho⟩ := m4 (.ans (c.answer d w))
        obtain ⟨g1, g2⟩ := put_spec _ _ _ _ m2 ho
        have r2 : Reach c { s with row := upd s.row (!d) o } { s with row := upd (upd (upd s.row (!d) o) d (r :: bs)) (!d) o' } :=
          ⟨[.listen d], by simp [exec, Trace.exec, step, hrow, ho]⟩
        let s2 : Sys := { s with row := upd (upd (upd s.row (!d) o) d (r :: bs)) (!d) o' }
        have e1 : flow s2 d = r ++ bs.flatten := by simp [s2, flow]
        have e2 : flow s2 (!d) = flow s (!d) ++ [.ans (c.answer d w)] := by simp [s2, flow, g2, m3]
        have hlen : (flow s2 d).length + 1 = (flow s d).length := by rw [e1]; simp [flow, hrow]
        have f2 : ∀ e, Fit (c.caps e) (s2.row e) := by
          intro e
          by_cases he : e = d
          · subst he
            simp only [s2, upd_not', upd_same]
            rw [hcd]
            exact ⟨by have := hfd.1; simp at this; omega, hfd.2⟩
          · have : e = !d := by cases e <;> cases d <;> simp_all
            subst this; simpa [s2] using g1
        obtain ⟨s3, r3, f3, a3, b3, p3, q3⟩ := send_one hok f2 d v (vs ++ p) (by simpa [s2] using hp) (by omega)
        have e3 : flow s3 (!d) = flow s (!d) ++ [.ans (c.answer d w)] := by rw [← e2]; simp only [flow, b3]
        have e4 : ansIn (flow s3 d) = [] := by
          rw [a3, ansIn_append, e1]
          simp only [flow, hrow, List.flatten_cons, List.cons_append] at h2
          have : ansIn (r ++ bs.flatten) = [] := by simpa [ansIn] using h2
          rw [this]
          rfl
        obtain ⟨s4, rest', r4, f4, a4, b4, c4, d4⟩ := swap_many hok d vs p s3 x (rest ++ [.ans (c.answer d w)]) f3 p3
          (by rw [a3]; simp; omega) e4 (by rw [e3, h3]; simp) (by rw [e3]; simp; omega)
        exact ⟨s4, rest', ((r1.trans r2).trans r3).trans r4, f4, a4, b4, c4, by rw [d4, e3]; simp; omega⟩

/-- C88, exactly: two programs that send requests to each other and answer each other's requests always come to an end with every request answered, if and only if one of
them sends no requests, or they send together fewer than the buffers and goroutines on both ways hold. -/
theorem c88_exact (c : Conf) (hok : c.Ok) (reqs : Bool → List Nat) :
    (∀ ls s, exec c (init c reqs) ls = some s → Stuck c s → Finished c reqs s) ↔
    (∃ d, reqs d = []) ∨ (reqs false).length + (reqs true).length < c.total := by
  constructor
  · intro h
    refine Classical.byContradiction fun hno => ?_
    have hne : ∀ d, 0 < (reqs d).length := fun d => List.length_pos_iff.mpr fun e => hno (.inl ⟨d, e⟩)
    have htot : c.total ≤ (reqs false).length + (reqs true).length := Nat.le_of_not_lt fun e => hno (.inr e)
    -- one side sends enough to fill its row
    have hd : ∃ d, (c.caps d).sum ≤ (reqs d).length ∧ (c.caps d).sum + (c.caps (!d)).sum ≤ (reqs d).length + (reqs (!d)).length := by
      unfold Conf.total at htot
      by_cases e : (c.caps false).sum ≤ (reqs false).length
      · exact ⟨false, e, by simpa using htot⟩
      · exact ⟨true, by omega, by simp; omega⟩
    obtain ⟨d, hd1, hd2⟩ := hd
    have hcap : 0 < (c.caps (!d)).sum := by
      obtain ⟨x, xs, e⟩ := List.exists_cons_of_ne_nil (hok (!d)).1
      have := (hok (!d)).2 x (by simp [e])
      rw [e, List.sum_cons]
      omega
    have hk := hne (!d)
    obtain ⟨m, m1⟩ : ∃ m, 1 ≤ m ∧ m ≤ (reqs (!d)).length ∧ m ≤ (c.caps (!d)).sum ∧ (c.caps d).sum + (c.caps (!d)).sum ≤ m + (reqs d).length := by
      by_cases e : (c.caps d).sum + (c.caps (!d)).sum ≤ (reqs d).length
      · exact ⟨1, by omega⟩
      · exact ⟨(c.caps d).sum + (c.caps (!d)).sum - (reqs d).length, by omega⟩
    -- the other side sends first
    obtain ⟨s1, r1, f1, a1, b1, p1, q1⟩ := send_many hok (!d) ((reqs (!d)).take m) ((reqs (!d)).drop m) (init c reqs) (fun d => fit_empty _) (by simp [init])
      (by simp only [flow, init, flatten_empty, List.length_nil, List.length_take]; omega)
    rw [Bool.not_not] at b1 q1
    have a1' : flow s1 (!d) = ((reqs (!d)).take m).map .req := by rw [a1]; simp [flow, init, flatten_empty]
    have z1 : flow s1 d = [] := by simp only [flow, b1, init, flatten_empty]
    -- then this side fills its row
    obtain ⟨s2, r2, f2, a2, b2, p2, q2⟩ := send_many hok d ((reqs d).take (c.caps d).sum) ((reqs d).drop (c.caps d).sum) s1 f1 (by rw [q1]; simp [init])
      (by rw [z1]; simp; omega)
    rw [z1, List.nil_append] at a2
    -- and goes on
    obtain ⟨x, xs, hx⟩ : ∃ x xs, (reqs (!d)).take m = x :: xs := List.exists_cons_of_ne_nil (fun e => by
      have := congrArg List.length e
      simp only [List.length_take, List.length_nil] at this
      omega)
    have b2' : flow s2 (!d) = .req x :: xs.map .req := by simp only [flow, b2]; rw [← flow, a1', hx]; rfl
    have l2 : (flow s2 (!d)).length = m := by
      have := congrArg List.length hx
      rw [b2']
      simp at this ⊢
      omega
    obtain ⟨s3, rest, r3, f3, a3, b3, c3, d3⟩ := swap_many hok d (((reqs d).drop (c.caps d).sum).take ((c.caps (!d)).sum - m))
      (((reqs d).drop (c.caps d).sum).drop ((c.caps (!d)).sum - m)) s2 x (xs.map .req) f2 (by rw [p2, List.take_append_drop])
      (by rw [a2]; simp; omega)
      (by rw [a2]; exact ansIn_reqs _) b2' (by rw [l2]; simp; omega)
    have l3 : (flow s3 (!d)).length = (c.caps (!d)).sum := by
      rw [d3, l2]
      simp
      omega
    obtain ⟨ls, hls⟩ := (r1.trans r2).trans r3
    have hst : Stuck c s3 := by
      have full : ∀ e, (∀ m, put (c.caps e) (s3.row e) m = none) ∧ ∀ i, move (c.caps e) (s3.row e) i = none := by
        intro e
        refine full_still _ _ (f3 e) ?_
        by_cases he : e = d
        · subst he; exact a3
        · have : e = !d := by cases e <;> cases d <;> simp_all
          subst this; exact l3
      have req : ∀ e w r bs, s3.row e ≠ (.ans w :: r) :: bs := by
        intro e w r bs hr
        by_cases he : e = d
        · subst he; simp [flow, hr, ansIn] at b3
        · have : e = !d := by cases e <;> cases d <;> simp_all
          subst this
          simp [flow, hr] at c3
      intro l
      cases l with
      | send e =>
        simp only [step]
        split
        · rfl
        · simp [(full e).1]
      | move e i => simp [step, (full e).2]
      | listen e =>
        simp only [step]
        split
        · rename_i w r bs hr; exact absurd hr (req e w r bs)
        · simp [(full (!e)).1]
        · rfl
    have hfin := h ls s3 hls hst (!d)
    have hcount := (inv_exec c reqs ls s3 hls).count (!d)
    have : 0 < (reqsIn (flow s3 (!d))).length := by rw [c3]; simp [reqsIn]
    rw [hfin.2] at hcount
    simp at hcount
    omega
  · intro hor ls s he hst
    refine Classical.byContradiction fun hnf => ?_
    have hi := inv_exec c reqs ls s he
    obtain ⟨a1, a2⟩ := stuck_full hok hi hst hnf false
    obtain ⟨b1, b2⟩ := stuck_full hok hi hst hnf true
    have c1 := hi.count false
    have c2 := hi.count true
    have d1 := split_len (flow s false)
    have d2 := split_len (flow s true)
    simp only [Bool.not_false, Bool.not_true] at c1 c2
    rcases hor with ⟨d, hd⟩ | hlt
    · cases d
      · rw [hd] at c1; simp only [List.length_nil] at c1; omega
      · rw [hd] at c2; simp only [List.length_nil] at c2; omega
    · unfold Conf.total at hlt
      omega

/-- Two stacks with default endpoints and a Reference connection with channels for `size` objects; an unbuffered channel hands on from goroutine to goroutine. -/
def twoStacks (size : Nat) (answer : Bool → Nat → Nat) : Conf :=
  ⟨fun _ => if size = 0 then [1, 512, 1, 1, 512] else [1, 512, 1, size, 1, 512], answer⟩

theorem twoStacks_ok (size : Nat) (answer : Bool → Nat → Nat) : (twoStacks size answer).Ok := by
  intro d
  simp only [twoStacks]
  split
  · refine ⟨by simp, fun n hn => ?_⟩
    simp only [List.mem_cons, List.not_mem_nil, or_false] at hn
    omega
  · refine ⟨by simp, fun n hn => ?_⟩
    simp only [List.mem_cons, List.not_mem_nil, or_false] at hn
    omega

/-- C88 for default endpoints over a Reference transport: no schedule locks the two programs up if and only if one of them sends no requests or both together send fewer than
2054 + 2 · `size`. -/
theorem c88_reference (size : Nat) (answer : Bool → Nat → Nat) (reqs : Bool → List Nat) :
    (∀ ls s, exec (twoStacks size answer) (init (twoStacks size answer) reqs) ls = some s → Stuck (twoStacks size answer) s →
      ∀ d, s.prog d = [] ∧ s.got d = (reqs d).map (answer d)) ↔
    (∃ d, reqs d = []) ∨ (reqs false).length + (reqs true).length < 2054 + 2 * size := by
  have ht : (twoStacks size answer).total = 2054 + 2 * size := by
    simp only [Conf.total, twoStacks]
    split <;> simp <;> omega
  rw [← ht]
  exact c88_exact _ (twoStacks_ok size answer) reqs

/-- Two rows of two buffers for one message each: with two requests on each side the listeners lock each other up. -/
example : ∃ s, exec ⟨fun _ => [1, 1], fun _ v => v + 1⟩ (init ⟨fun _ => [1, 1], fun _ v => v + 1⟩ fun d => if d then [7, 8] else [1, 2])
      [.send true, .move true 0, .send true, .send false, .move false 0, .send false] = some s ∧
    s.row = upd (fun _ => [[.req 1], [.req 2]]) true [[.req 7], [.req 8]] := by
  refine ⟨_, rfl, ?_⟩
  funext d
  cases d <;> rfl

/-- With one request less everything is answered. -/
example : ∃ s, exec ⟨fun _ => [1, 1], fun _ v => v + 1⟩ (init ⟨fun _ => [1, 1], fun _ v => v + 1⟩ fun d => if d then [7, 8] else [1])
      [.send true, .send false, .move true 0, .send true, .move false 0, .listen true, .move true 0, .listen false, .move false 0, .listen true, .move true 0, .listen true,
       .listen false, .move false 0, .listen false] = some s ∧ s.got true = [8, 9] ∧ s.got false = [2] :=
  ⟨_, rfl, rfl, rfl⟩

/-- The hypothesis of `c88_exact`, and both sides of the equivalence, for these buffers. -/
example : Conf.Ok ⟨fun _ => [1, 1], fun _ v => v + 1⟩ ∧ Conf.total ⟨fun _ => [1, 1], fun _ v => v + 1⟩ = 4 :=
  ⟨fun _ => ⟨by simp, by simp⟩, rfl⟩

end Verif.Conn.Peers
