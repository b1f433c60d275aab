import Verif.Reg.Several
import Verif.Trace

/-!
# C108: an endpoint and a transport that are added to several stacks

`AddEndPoint` and `AddTransport` (ustack_default.go:195-211, 257-274) look only at the lists of their own stack.  Every UpperDeck starts a goroutine
that takes messages from the endpoint's one `txChannel` (proc_upperdeck.go:47-68), every LowerDeck one that takes connections from the transport's one
`next` (proc_lowerdeck.go:39-58; `Run` of a running transport does nothing, tran_tcp.go:257-259), announces the connection in its own stack
and reads from it for its own stack (60-87).

`DeleteTransport` (ustack_default.go:277-299) of any of them stops the transport (proc_lowerdeck.go:93-95, tran_tcp.go:275-295).

Modelled: one endpoint, one stream transport (tran_tcp.go; tran_unix.go is the same), any stacks that have them, after all of them were run.  Not
modelled: adding meanwhile and deleting the endpoint (C41, C91, C93), what the processors do, the capacity of the channels, connections closed
by the peer or for other reasons, other endpoints with the same session (C37).
-/

namespace Verif.Reg.SeveralIO
open Verif.Trace Verif.Reg.Several

/-- `EndPointData` (endp_default.go:8-13): the data and the connection. -/
structure Msg where
  data : Nat
  conn : ConnId
  deriving Repr, DecidableEq

structure Sys where
  /-- the stacks with the endpoint (`ud.endpoints`, proc_upperdeck.go:15) -/
  served : List StackId
  /-- the goroutines of the endpoint (proc_upperdeck.go:47-68): the stack of the UpperDeck, the message in its hands -/
  gs : List (StackId × Option Msg)
  /-- the goroutines of the transport (proc_lowerdeck.go:39-89): the stack of the LowerDeck -/
  ws : List StackId
  /-- `txChannel`, `rxChannel` (endp_default.go:73-74) -/
  tx : List Msg
  rx : List Msg
  /-- `next` of the transport (tran_tcp.go:100) -/
  next : List ConnId
  /-- connections made so far -/
  made : Nat
  /-- which stack announced which connection, and reads from it -/
  announced : List (StackId × ConnId)
  /-- calls of `lower.OnUpperData` (proc_upperdeck.go:60-64) -/
  out : List (StackId × Msg)
  /-- messages that came up the chain of the stack that reads from the connection -/
  came : List Msg
  /-- `isRunning` of the transport (tran_tcp.go:97) -/
  running : Bool
  /-- the connections `Stop` closed -/
  closed : List ConnId
  deriving Repr, DecidableEq

/-- The stacks `ts` have the endpoint, the stacks `us` the transport; all have been run. -/
def Sys.init (ts us : List StackId) : Sys := ⟨ts, ts.map fun t => (t, none), us, [], [], [], 0, [], [], [], true, []⟩

inductive Label where
  /-- the transport makes a connection (tran_tcp.go:171-197) -/
  | make
  /-- a waiting goroutine gets it and publishes NewConnection in its stack (proc_lowerdeck.go:42-56) -/
  | take (i : Nat)
  /-- the program sends: it knows a connection from the event -/
  | push (m : Msg)
  /-- a goroutine of the endpoint takes a message from the channel (proc_upperdeck.go:54) -/
  | recv (i : Nat)
  /-- and passes it down its own chain (proc_upperdeck.go:60) -/
  | pass (i : Nat)
  /-- a message is read from a connection (proc_lowerdeck.go:60-87) and comes to the UpperDeck of the stack that reads
  (proc_upperdeck.go:105-121) -/
  | come (m : Msg)
  /-- `DeleteTransport` of a stack: `Stop` closes the channel and the connections that were taken from it (tran_tcp.go:275-295, 153-157) -/
  | stop (u : StackId)
  deriving Repr, DecidableEq

/-- The stack that announced a connection. -/
def Sys.reader (s : Sys) (c : ConnId) : Option StackId := (s.announced.find? fun x => x.2 = c).map Prod.fst

def step (s : Sys) : Label → Option Sys
  | .make => if s.running then some { s with next := s.next ++ [s.made], made := s.made + 1 } else none
  | .take i => match s.ws[i]?, s.next with
    | some u, c :: rest => some { s with next := rest, announced := s.announced ++ [(u, c)] }
    | _, _ => none
  | .push m => if (s.reader m.conn).isSome then some { s with tx := s.tx ++ [m] } else none
  | .recv i => match s.gs[i]?, s.tx with
    | some (t, none), m :: rest => some { s with tx := rest, gs := s.gs.set i (t, some m) }
    | _, _ => none
  | .pass i => match s.gs[i]? with
    | some (t, some m) => some { s with gs := s.gs.set i (t, none), out := s.out ++ [(t, m)] }
    | _ => none
  | .come m => match s.reader m.conn, s.closed.contains m.conn with
    | some u, false => some { s with came := s.came ++ [m], rx := if u ∈ s.served then s.rx ++ [m] else s.rx }
    | _, _ => none
  | .stop u => if u ∈ s.ws then
      some (if s.running then { s with running := false, closed := s.announced.map Prod.snd } else s)
    else none

/-! ## What is claimed -/

/-- The messages the program sent. -/
def pushes : List Label → List Msg
  | [] => []
  | .push m :: ls => m :: pushes ls
  | _ :: ls => pushes ls

/-- The messages the peers sent. -/
def comes : List Label → List Msg
  | [] => []
  | .come m :: ls => m :: comes ls
  | _ :: ls => comes ls

/-- The connections the transport made. -/
def makes : List Label → Nat
  | [] => 0
  | .make :: ls => makes ls + 1
  | _ :: ls => makes ls

/-- Messages taken from the channel and not yet passed on. -/
def Sys.held (s : Sys) : List Msg := s.gs.filterMap Prod.snd

theorem pushes_append (a b : List Label) : pushes (a ++ b) = pushes a ++ pushes b := by
  induction a with
  | nil => rfl
  | cons l a ih => cases l <;> simp [pushes, ih]

theorem comes_append (a b : List Label) : comes (a ++ b) = comes a ++ comes b := by
  induction a with
  | nil => rfl
  | cons l a ih => cases l <;> simp [comes, ih]

theorem makes_append (a b : List Label) : makes (a ++ b) = makes a + makes b := by
  induction a with
  | nil => simp [makes]
  | cons l a ih => cases l <;> simp [makes, ih] <;> omega

/-! ## Executions -/

theorem take_eq {s s' : Sys} {i : Nat} (h : step s (.take i) = some s') :
    ∃ u c rest, s.ws[i]? = some u ∧ s.next = c :: rest ∧ s' = { s with next := rest, announced := s.announced ++ [(u, c)] } := by
  simp only [step] at h
  split at h
  · rename_i u c rest h1 h2
    injection h with h
    exact ⟨u, c, rest, h1, h2, h.symm⟩
  · cases h

theorem recv_eq {s s' : Sys} {i : Nat} (h : step s (.recv i) = some s') :
    ∃ t m rest, s.gs[i]? = some (t, none) ∧ s.tx = m :: rest ∧ s' = { s with tx := rest, gs := s.gs.set i (t, some m) } := by
  simp only [step] at h
  split at h
  · rename_i t m rest h1 h2
    injection h with h
    exact ⟨t, m, rest, h1, h2, h.symm⟩
  · cases h

theorem pass_eq {s s' : Sys} {i : Nat} (h : step s (.pass i) = some s') :
    ∃ t m, s.gs[i]? = some (t, some m) ∧ s' = { s with gs := s.gs.set i (t, none), out := s.out ++ [(t, m)] } := by
  simp only [step] at h
  split at h
  · rename_i t m h1
    injection h with h
    exact ⟨t, m, h1, h.symm⟩
  · cases h

theorem push_eq {s s' : Sys} {m : Msg} (h : step s (.push m) = some s') :
    (s.reader m.conn).isSome ∧ s' = { s with tx := s.tx ++ [m] } := by
  simp only [step] at h
  split at h
  · rename_i h1
    injection h with h
    exact ⟨h1, h.symm⟩
  · cases h

theorem make_eq {s s' : Sys} (h : step s .make = some s') : s' = { s with next := s.next ++ [s.made], made := s.made + 1 } := by
  simp only [step] at h
  split at h
  · injection h with h; exact h.symm
  · cases h

theorem stop_eq {s s' : Sys} {u : StackId} (h : step s (.stop u) = some s') : ∃ r cl, s' = { s with running := r, closed := cl } := by
  simp only [step] at h
  split at h
  · injection h with h
    subst h
    split
    · exact ⟨_, _, rfl⟩
    · exact ⟨_, _, rfl⟩
  · cases h

theorem come_eq {s s' : Sys} {m : Msg} (h : step s (.come m) = some s') :
    ∃ u, s.reader m.conn = some u ∧ s' = { s with came := s.came ++ [m], rx := if u ∈ s.served then s.rx ++ [m] else s.rx } := by
  simp only [step] at h
  split at h
  · rename_i u h1 _
    injection h with h
    exact ⟨u, h1, h.symm⟩
  · cases h

theorem split_at {gs : List (StackId × Option Msg)} {i : Nat} {g : StackId × Option Msg} (h : gs[i]? = some g) :
    ∃ a b, gs = a ++ g :: b ∧ ∀ g', gs.set i g' = a ++ g' :: b := by
  obtain ⟨hi, hg⟩ := List.getElem?_eq_some_iff.mp h
  refine ⟨gs.take i, gs.drop (i + 1), ?_, fun g' => List.set_eq_take_append_cons_drop.trans (if_pos hi)⟩
  rw [← hg, ← List.drop_eq_getElem_cons hi, List.take_append_drop]

/-- C108, sending: every message the program sends is passed down exactly once, by one of the goroutines, or is still on its way; and every
connection is announced exactly once, in the order they were made, or is still waiting. -/
theorem c108_once (ts us : List StackId) (ls : List Label) : ∀ s, exec step (.init ts us) ls = some s →
    (s.out.map Prod.snd ++ s.held ++ s.tx).Perm (pushes ls) ∧
    s.announced.map Prod.snd ++ s.next = List.range (makes ls) ∧ s.came = comes ls := by
  induction ls using snoc_induction with
  | h0 =>
    intro s h
    injection h with h
    subst h
    refine ⟨?_, rfl, rfl⟩
    have : (Sys.init ts us).held = [] := by
      simp only [Sys.held, Sys.init, List.filterMap_map]
      induction ts with
      | nil => rfl
      | cons t ts ih => simpa using ih
    rw [this]
    exact List.Perm.refl _
  | h1 ls l ih =>
    intro s h
    obtain ⟨m, hm, hs⟩ := exec_snoc h
    obtain ⟨ih1, ih2, ih3⟩ := ih m hm
    have hmk : m.made = makes ls := by
      clear h hs ih1 ih2 ih3 ih l
      revert m
      induction ls using snoc_induction with
      | h0 => intro m hm; injection hm with hm; subst hm; rfl
      | h1 ls l ih =>
        intro s h
        obtain ⟨m, hm, hs⟩ := exec_snoc h
        have ih := ih m hm
        rw [makes_append]
        cases l with
        | make => have hs := make_eq hs; subst hs; simp [makes, ih]
        | take i => obtain ⟨u, c, rest, _, _, rfl⟩ := take_eq hs; simpa [makes] using ih
        | push x => obtain ⟨_, rfl⟩ := push_eq hs; simpa [makes] using ih
        | recv i => obtain ⟨t, x, rest, _, _, rfl⟩ := recv_eq hs; simpa [makes] using ih
        | pass i => obtain ⟨t, x, _, rfl⟩ := pass_eq hs; simpa [makes] using ih
        | come x => obtain ⟨u, _, rfl⟩ := come_eq hs; simpa [makes] using ih
        | stop x => obtain ⟨r, cl, rfl⟩ := stop_eq hs; simpa [makes] using ih
    rw [pushes_append, comes_append, makes_append]
    cases l with
    | make =>
      have hs := make_eq hs
      subst hs
      refine ⟨by simpa [pushes, Sys.held] using ih1, ?_, by simpa [comes] using ih3⟩
      simp only [makes, Nat.zero_add, List.range_succ]
      rw [← List.append_assoc, ih2, hmk]
    | take i =>
      obtain ⟨u, c, rest, _, h2, rfl⟩ := take_eq hs
      refine ⟨by simpa [pushes, Sys.held] using ih1, ?_, by simpa [comes] using ih3⟩
      rw [h2] at ih2
      simpa [makes] using ih2
    | push x =>
      obtain ⟨_, rfl⟩ := push_eq hs
      refine ⟨?_, by simpa [makes] using ih2, by simpa [comes] using ih3⟩
      simp only [pushes, Sys.held]
      rw [← List.append_assoc]
      exact ih1.append_right [x]
    | recv i =>
      obtain ⟨t, x, rest, h1, h2, rfl⟩ := recv_eq hs
      refine ⟨?_, by simpa [makes] using ih2, by simpa [comes] using ih3⟩
      obtain ⟨a, b, h3, h4⟩ := split_at h1
      simp only [Sys.held] at ih1
      simp only [pushes, Sys.held, h4, List.append_nil]
      rw [h3, h2] at ih1
      refine List.Perm.trans ?_ ih1
      simp only [List.filterMap_append, List.filterMap_cons, List.append_assoc]
      refine List.Perm.append_left _ (List.Perm.append_left _ ?_)
      simp only [List.cons_append]
      exact List.perm_middle.symm
    | pass i =>
      obtain ⟨t, x, h1, rfl⟩ := pass_eq hs
      refine ⟨?_, by simpa [makes] using ih2, by simpa [comes] using ih3⟩
      obtain ⟨a, b, h3, h4⟩ := split_at h1
      simp only [Sys.held] at ih1
      simp only [pushes, Sys.held, h4, List.append_nil]
      rw [h3] at ih1
      refine List.Perm.trans ?_ ih1
      simp only [List.filterMap_append, List.filterMap_cons, List.append_assoc, List.map_append, List.map_cons, List.map_nil]
      refine List.Perm.append_left _ ?_
      simp only [List.cons_append, List.nil_append]
      exact List.perm_middle.symm
    | come x =>
      obtain ⟨u, _, rfl⟩ := come_eq hs
      refine ⟨by simpa [pushes, Sys.held] using ih1, by simpa [makes] using ih2, ?_⟩
      simp [comes, ih3]
    | stop x =>
      obtain ⟨r, cl, rfl⟩ := stop_eq hs
      exact ⟨by simpa [pushes, Sys.held] using ih1, by simpa [makes] using ih2, by simpa [comes] using ih3⟩

theorem find_append_some {s : Sys} {c : ConnId} {x : StackId × ConnId} {u : StackId} (h : s.reader c = some u) :
    ((s.announced ++ [x]).find? fun y => y.2 = c).map Prod.fst = some u := by
  simp only [Sys.reader, Option.map_eq_some_iff] at h
  obtain ⟨y, h1, h2⟩ := h
  rw [List.find?_append, h1]
  simp [h2]

structure Inv (ts us : List StackId) (s : Sys) : Prop where
  served : s.served = ts
  gs : s.gs.map Prod.fst = ts
  ws : s.ws = us
  readers : ∀ x ∈ s.announced, x.1 ∈ us
  known : ∀ m, m ∈ s.tx ∨ m ∈ s.held ∨ (∃ t, (t, m) ∈ s.out) → (s.reader m.conn).isSome
  out : ∀ x ∈ s.out, x.1 ∈ ts

theorem Inv.reader {ts us : List StackId} {s : Sys} (h : Inv ts us s) {c : ConnId} {u : StackId} (hc : s.reader c = some u) : u ∈ us := by
  simp only [Sys.reader, Option.map_eq_some_iff] at hc
  obtain ⟨x, h1, h2⟩ := hc
  exact h2 ▸ h.readers x (List.mem_of_find?_eq_some h1)

theorem Inv.init (ts us : List StackId) : Inv ts us (.init ts us) := by
  refine ⟨rfl, ?_, rfl, by simp [Sys.init], ?_, by simp [Sys.init]⟩
  · simp [Sys.init, List.map_map, Function.comp_def]
  · simp [Sys.init, Sys.held]

theorem mem_of_get {gs : List (StackId × Option Msg)} {i : Nat} {g : StackId × Option Msg} (h : gs[i]? = some g) : g ∈ gs :=
  List.mem_of_getElem? h

theorem Inv.step {ts us : List StackId} {s s' : Sys} (h : Inv ts us s) (l : Label) (hs : step s l = some s') : Inv ts us s' := by
  cases l with
  | make => have hs := make_eq hs; subst hs; exact ⟨h.served, h.gs, h.ws, h.readers, h.known, h.out⟩
  | take i =>
    obtain ⟨u, c, rest, h1, h2, rfl⟩ := take_eq hs
    refine ⟨h.served, h.gs, h.ws, fun x hx => ?_, fun m hm => ?_, h.out⟩
    · rcases List.mem_append.mp hx with hx | hx
      · exact h.readers x hx
      · rw [List.mem_singleton] at hx; subst hx; exact h.ws ▸ List.mem_of_getElem? h1
    · obtain ⟨v, hv⟩ := Option.isSome_iff_exists.mp (h.known m hm)
      simp only [Sys.reader]
      rw [find_append_some hv]
      rfl
  | push x =>
    obtain ⟨h1, rfl⟩ := push_eq hs
    refine ⟨h.served, h.gs, h.ws, h.readers, fun m hm => ?_, h.out⟩
    rcases hm with hm | hm
    · rcases List.mem_append.mp hm with hm | hm
      · exact h.known m (.inl hm)
      · rw [List.mem_singleton] at hm; subst hm; exact h1
    · exact h.known m (.inr hm)
  | recv i =>
    obtain ⟨t, x, rest, h1, h2, rfl⟩ := recv_eq hs
    obtain ⟨a, b, h3, h4⟩ := split_at h1
    refine ⟨h.served, ?_, h.ws, h.readers, fun m hm => h.known m ?_, h.out⟩
    · have := h.gs; rw [h3] at this; simpa [h4] using this
    · rcases hm with hm | hm | hm
      · exact .inl (by rw [h2]; exact List.mem_cons_of_mem _ hm)
      · simp only [Sys.held, h4, List.filterMap_append, List.filterMap_cons, List.mem_append, List.mem_cons] at hm
        simp only [Sys.held, h3, List.filterMap_append, List.filterMap_cons, List.mem_append, h2, List.mem_cons]
        rcases hm with hm | rfl | hm
        · exact .inr (.inl (.inl hm))
        · exact .inl (.inl rfl)
        · exact .inr (.inl (.inr hm))
      · exact .inr (.inr hm)
  | pass i =>
    obtain ⟨t, x, h1, rfl⟩ := pass_eq hs
    obtain ⟨a, b, h3, h4⟩ := split_at h1
    refine ⟨h.served, ?_, h.ws, h.readers, fun m hm => h.known m ?_, fun y hy => ?_⟩
    · have := h.gs; rw [h3] at this; simpa [h4] using this
    · rcases hm with hm | hm | ⟨t', hm⟩
      · exact .inl hm
      · simp only [Sys.held, h4, List.filterMap_append, List.filterMap_cons, List.mem_append] at hm
        simp only [Sys.held, h3, List.filterMap_append, List.filterMap_cons, List.mem_append, List.mem_cons]
        rcases hm with hm | hm
        · exact .inr (.inl (.inl hm))
        · exact .inr (.inl (.inr (.inr hm)))
      · rcases List.mem_append.mp hm with hm | hm
        · exact .inr (.inr ⟨t', hm⟩)
        · rw [List.mem_singleton] at hm
          injection hm with _ hm
          subst hm
          refine .inr (.inl ?_)
          simp [Sys.held, h3]
    · rcases List.mem_append.mp hy with hy | hy
      · exact h.out y hy
      · rw [List.mem_singleton] at hy
        subst hy
        rw [← h.gs]
        exact List.mem_map.mpr ⟨_, mem_of_get h1, rfl⟩
  | come x =>
    obtain ⟨u, _, rfl⟩ := come_eq hs
    exact ⟨h.served, h.gs, h.ws, h.readers, h.known, h.out⟩
  | stop x =>
    obtain ⟨r, cl, rfl⟩ := stop_eq hs
    exact ⟨h.served, h.gs, h.ws, h.readers, h.known, h.out⟩

theorem inv_exec {ts us : List StackId} {ls : List Label} {s : Sys} (h : exec step (.init ts us) ls = some s) : Inv ts us s := by
  revert s
  induction ls using snoc_induction with
  | h0 => intro s h; injection h with h; subst h; exact .init ts us
  | h1 ls l ih =>
    intro s h
    obtain ⟨m, hm, hs⟩ := exec_snoc h
    exact (ih hm).step l hs

theorem get_map {ts : List StackId} {t : StackId} (h : t ∈ ts) : ∃ i : Nat, ts[i]? = some t ∧ (ts.map fun t => (t, (none : Option Msg)))[i]? = some (t, none) := by
  obtain ⟨i, hi⟩ := List.mem_iff_getElem?.mp h
  exact ⟨i, hi, by simp [hi]⟩

/-- C108, exactly: in every execution every message is passed down in the stack that announced its connection, iff no stack with the endpoint is
another one than a stack with the transport. -/
theorem c108_sent_iff (ts us : List StackId) :
    (∀ ls s, exec step (.init ts us) ls = some s → ∀ x ∈ s.out, s.reader x.2.conn = some x.1) ↔ ∀ t ∈ ts, ∀ u ∈ us, t = u := by
  constructor
  · intro h t ht u hu
    obtain ⟨i, hi, hi'⟩ := get_map ht
    obtain ⟨j, hj⟩ := List.mem_iff_getElem?.mp hu
    have hlen : i < ts.length := (List.getElem?_eq_some_iff.mp hi).1
    have := h [.make, .take j, .push ⟨7, 0⟩, .recv i, .pass i]
      { Sys.init ts us with made := 1, announced := [(u, 0)], out := [(t, ⟨7, 0⟩)] }
      (by
        have ht' : ts[i] = t := (List.getElem?_eq_some_iff.mp hi).2
        have e1 : (ts.map fun t => (t, (none : Option Msg))).set i (ts[i], none) = ts.map fun t => (t, none) := by
          apply List.ext_getElem?
          intro n
          rw [List.getElem?_set]
          split
          · rename_i hn
            subst hn
            simp [hlen]
          · rfl
        simp [exec, step, Sys.init, Sys.reader, hj, hi, hlen]
        exact ⟨e1, ht'⟩)
      (t, ⟨7, 0⟩) (by simp)
    simp [Sys.reader, Sys.init] at this
    exact this.symm
  · intro h ls s he x hx
    have hi := inv_exec he
    obtain ⟨v, hv⟩ := Option.isSome_iff_exists.mp (hi.known x.2 (.inr (.inr ⟨x.1, hx⟩)))
    rw [hv, h x.1 (hi.out x hx) v (hi.reader hv)]

/-- C108, receiving, exactly: in every execution everything that comes on the transport's connections is put on the endpoint's channel, in order, iff
every stack with the transport has the endpoint. -/
theorem c108_received_iff (ts us : List StackId) :
    (∀ ls s, exec step (.init ts us) ls = some s → s.rx = comes ls) ↔ ∀ u ∈ us, u ∈ ts := by
  constructor
  · intro h u hu
    obtain ⟨j, hj⟩ := List.mem_iff_getElem?.mp hu
    by_cases ht : u ∈ ts
    · exact ht
    · have := h [.make, .take j, .come ⟨7, 0⟩] { Sys.init ts us with made := 1, announced := [(u, 0)], came := [⟨7, 0⟩] }
        (by simp [exec, step, Sys.init, Sys.reader, hj, ht])
      simp [Sys.init, comes] at this
  · intro h ls
    induction ls using snoc_induction with
    | h0 => intro s he; injection he with he; subst he; rfl
    | h1 ls l ih =>
      intro s he
      obtain ⟨m, hm, hs⟩ := exec_snoc he
      have hi := inv_exec hm
      have ih := ih m hm
      rw [comes_append]
      cases l with
      | make => have hs := make_eq hs; subst hs; simpa [comes] using ih
      | take i => obtain ⟨u, c, rest, _, _, rfl⟩ := take_eq hs; simpa [comes] using ih
      | push x => obtain ⟨_, rfl⟩ := push_eq hs; simpa [comes] using ih
      | recv i => obtain ⟨t, x, rest, _, _, rfl⟩ := recv_eq hs; simpa [comes] using ih
      | pass i => obtain ⟨t, x, _, rfl⟩ := pass_eq hs; simpa [comes] using ih
      | come x =>
        obtain ⟨u, hu, rfl⟩ := come_eq hs
        have : u ∈ m.served := hi.served ▸ h u (hi.reader hu)
        simp [this, comes, ih]
      | stop x => obtain ⟨r, cl, rfl⟩ := stop_eq hs; simpa [comes] using ih

/-- C108, order, exactly: in every execution the messages are passed down in the order they were sent, iff there is no transport to send on or at
most one stack has the endpoint. -/
theorem c108_order_iff (ts us : List StackId) :
    (∀ ls s, exec step (.init ts us) ls = some s → s.out.map Prod.snd <+: pushes ls) ↔ us = [] ∨ ts.length ≤ 1 := by
  constructor
  · intro h
    cases us with
    | nil => exact .inl rfl
    | cons u us =>
      right
      match ts, h with
      | [], _ => simp
      | [_], _ => simp
      | t1 :: t2 :: ts, h =>
        exfalso
        have := h [.make, .take 0, .push ⟨1, 0⟩, .push ⟨2, 0⟩, .recv 0, .recv 1, .pass 1]
          { Sys.init (t1 :: t2 :: ts) (u :: us) with
            made := 1, announced := [(u, 0)], out := [(t2, ⟨2, 0⟩)]
            gs := (t1, some ⟨1, 0⟩) :: (t2, none) :: ts.map fun t => (t, none) }
          (by simp [exec, step, Sys.init, Sys.reader])
        simp [pushes] at this
  · intro h ls s he
    have hi := inv_exec he
    rcases h with rfl | h
    · have : s.out = [] := by
        cases ho : s.out with
        | nil => rfl
        | cons x xs =>
          obtain ⟨v, hv⟩ := Option.isSome_iff_exists.mp (hi.known x.2 (.inr (.inr ⟨x.1, by rw [ho]; simp⟩)))
          exact absurd (hi.reader hv) (by simp)
      rw [this]
      exact List.nil_prefix
    · have key : s.out.map Prod.snd ++ s.held ++ s.tx = pushes ls := by
        clear hi
        revert s
        induction ls using snoc_induction with
        | h0 =>
          intro s he
          injection he with he
          subst he
          match ts, h with
          | [], _ => rfl
          | [_], _ => rfl
        | h1 ls l ih =>
          intro s he
          obtain ⟨m, hm, hs⟩ := exec_snoc he
          have hi := inv_exec hm
          have ih := ih m hm
          have hgs : m.gs.length ≤ 1 := by
            have := congrArg List.length hi.gs
            rw [List.length_map] at this
            omega
          rw [pushes_append]
          cases l with
          | make => have hs := make_eq hs; subst hs; simpa [pushes, Sys.held] using ih
          | take i => obtain ⟨u, c, rest, _, _, rfl⟩ := take_eq hs; simpa [pushes, Sys.held] using ih
          | push x => obtain ⟨_, rfl⟩ := push_eq hs; simp [pushes, Sys.held, ← ih]
          | recv i =>
            obtain ⟨t, x, rest, h1, h2, rfl⟩ := recv_eq hs
            obtain ⟨a, b, h3, h4⟩ := split_at h1
            rw [h3] at hgs
            simp at hgs
            have ha : a = [] := List.eq_nil_of_length_eq_zero (by omega)
            have hb : b = [] := List.eq_nil_of_length_eq_zero (by omega)
            simp only [Sys.held, h3, h2, ha, hb] at ih
            simp only [Sys.held, h4, ha, hb, pushes]
            simpa using ih
          | pass i =>
            obtain ⟨t, x, h1, rfl⟩ := pass_eq hs
            obtain ⟨a, b, h3, h4⟩ := split_at h1
            rw [h3] at hgs
            simp at hgs
            have ha : a = [] := List.eq_nil_of_length_eq_zero (by omega)
            have hb : b = [] := List.eq_nil_of_length_eq_zero (by omega)
            simp only [Sys.held, h3, ha, hb] at ih
            simp only [Sys.held, h4, ha, hb, pushes]
            simpa using ih
          | come x => obtain ⟨u, _, rfl⟩ := come_eq hs; simpa [pushes, Sys.held] using ih
          | stop x => obtain ⟨r, cl, rfl⟩ := stop_eq hs; simpa [pushes, Sys.held] using ih
      rw [← key, List.append_assoc]
      exact List.prefix_append _ _

/-- C108, deleting, exactly: in every execution `DeleteTransport` of a stack (the first one to do it) closes only connections this stack announced, iff no
other stack has the transport. -/
theorem c108_delete_iff (ts us : List StackId) :
    (∀ ls s u s', exec step (.init ts us) ls = some s → s.running = true → step s (.stop u) = some s' →
      ∀ c, c ∈ s'.closed → s'.reader c = some u) ↔ ∀ u ∈ us, ∀ v ∈ us, u = v := by
  constructor
  · intro h u hu v hv
    obtain ⟨j, hj⟩ := List.mem_iff_getElem?.mp hv
    have := h [.make, .take j] { Sys.init ts us with made := 1, announced := [(v, 0)] } u
      { Sys.init ts us with made := 1, announced := [(v, 0)], running := false, closed := [0] }
      (by simp [exec, step, Sys.init, hj]) rfl (by simp [step, Sys.init, hu]) 0 (by simp)
    simp [Sys.reader, Sys.init] at this
    exact this.symm
  · intro h ls s u s' he hr hs c hc
    have hi := inv_exec he
    simp only [step, hr] at hs
    split at hs
    · rename_i hu
      injection hs with hs
      subst hs
      simp only [if_true, List.mem_map] at hc
      obtain ⟨x, hx, rfl⟩ := hc
      have hsome : (s.reader x.2).isSome := by
        simp only [Sys.reader, Option.isSome_map, List.find?_isSome]
        exact ⟨x, hx, by simp⟩
      obtain ⟨v, hv⟩ := Option.isSome_iff_exists.mp hsome
      show s.reader x.2 = some u
      rw [hv, h v (hi.reader hv) u (hi.ws ▸ hu)]
    · cases hs

/-- What `DeleteTransport` closes: every connection that was announced, whichever stack announced it. -/
theorem c108_delete_all (ts us : List StackId) (ls : List Label) (s s' : Sys) (u : StackId) (h : exec step (.init ts us) ls = some s)
    (hr : s.running = true) (hs : step s (.stop u) = some s') : s'.closed ++ s'.next = List.range (makes ls) ∧
    ∀ ms s'', exec step s' ms = some s'' → ∀ m, m ∈ comes ms → m.conn ∉ s'.closed := by
  have h0 := (c108_once ts us ls s h).2.1
  simp only [step, hr] at hs
  split at hs
  · injection hs with hs
    subst hs
    refine ⟨by simpa using h0, fun ms s'' he => ?_⟩
    simp only [if_true] at he ⊢
    generalize hcl : List.map Prod.snd s.announced = cl at he ⊢
    have gen : ∀ (ms : List Label) (t t' : Sys), t.running = false → t.closed = cl → exec step t ms = some t' → ∀ m ∈ comes ms, m.conn ∉ cl := by
      intro ms
      induction ms with
      | nil => intro t t' _ _ _ m hm; simp [comes] at hm
      | cons l ms ih =>
        intro t t' h1 h2 he m hm
        obtain ⟨t1, hs1, he1⟩ := exec_cons he
        cases l with
        | make => simp [step, h1] at hs1
        | take i => obtain ⟨u, c, rest, _, _, rfl⟩ := take_eq hs1; exact ih _ _ (by exact h1) (by exact h2) he1 m hm
        | push x => obtain ⟨_, rfl⟩ := push_eq hs1; exact ih _ _ (by exact h1) (by exact h2) he1 m hm
        | recv i => obtain ⟨t, x, rest, _, _, rfl⟩ := recv_eq hs1; exact ih _ _ (by exact h1) (by exact h2) he1 m hm
        | pass i => obtain ⟨t, x, _, rfl⟩ := pass_eq hs1; exact ih _ _ (by exact h1) (by exact h2) he1 m hm
        | stop x =>
          simp only [step, h1] at hs1
          split at hs1
          · injection hs1 with hs1; subst hs1; exact ih _ _ (by exact h1) (by exact h2) he1 m hm
          · cases hs1
        | come x =>
          simp only [comes, List.mem_cons] at hm
          have hx : x.conn ∉ cl := by
            intro hin
            simp only [step, h2] at hs1
            have : cl.contains x.conn = true := by simpa using hin
            rw [this] at hs1
            split at hs1
            · rename_i hh; cases hh
            · cases hs1
          rcases hm with rfl | hm
          · exact hx
          · obtain ⟨u, _, rfl⟩ := come_eq hs1
            exact ih _ _ (by exact h1) (by exact h2) he1 m hm
    exact gen ms _ s'' rfl rfl he
  · cases hs

/-- C108, part: one stack that has both. -/
theorem c108_one_stack_partial (t : StackId) (ls : List Label) (s : Sys) (h : exec step (.init [t] [t]) ls = some s) :
    (∀ x ∈ s.out, s.reader x.2.conn = some x.1) ∧ s.rx = comes ls ∧ s.out.map Prod.snd <+: pushes ls :=
  ⟨(c108_sent_iff [t] [t]).mpr (by simp) ls s h, (c108_received_iff [t] [t]).mpr (by simp) ls s h, (c108_order_iff [t] [t]).mpr (by simp) ls s h⟩

/-- C108 fails for an endpoint of two stacks, each with a transport of its own or with a common one: a message for a connection of stack 0 is
passed down the chain of stack 1. -/
theorem c108_violated : ∃ ls s, exec step (.init [0, 1] [0]) ls = some s ∧ pushes ls = [⟨7, 0⟩, ⟨8, 0⟩] ∧ s.announced = [(0, 0)] ∧
    s.out = [(1, ⟨8, 0⟩), (0, ⟨7, 0⟩)] :=
  ⟨[.make, .take 0, .push ⟨7, 0⟩, .push ⟨8, 0⟩, .recv 0, .recv 1, .pass 1, .pass 0], _, rfl, rfl, rfl, rfl⟩

/-- One stack, two connections. -/
example : ∃ s, exec step (.init [3] [3]) [.make, .make, .take 0, .push ⟨7, 0⟩, .take 0, .push ⟨8, 1⟩, .recv 0, .come ⟨5, 1⟩, .pass 0, .recv 0, .pass 0]
    = some s ∧ s.out = [(3, ⟨7, 0⟩), (3, ⟨8, 1⟩)] ∧ s.rx = [⟨5, 1⟩] := ⟨_, rfl, rfl, rfl⟩

/-- Two stacks with the transport, one with the endpoint: what comes on the second stack's connection is lost. -/
example : ∃ s, exec step (.init [0] [0, 1]) [.make, .make, .take 0, .take 1, .come ⟨5, 0⟩, .come ⟨6, 1⟩] = some s ∧ s.rx = [⟨5, 0⟩] ∧
    s.came = [⟨5, 0⟩, ⟨6, 1⟩] := ⟨_, rfl, rfl, rfl⟩

/-- Stack 1 deletes the transport: the connection of stack 0 is closed. -/
example : ∃ s s', exec step (.init [0] [0, 1]) [.make, .take 0] = some s ∧ s.running = true ∧ step s (.stop 1) = some s' ∧ s'.closed = [0] ∧
    s'.reader 0 = some 0 := ⟨_, _, rfl, rfl, rfl, rfl, rfl⟩

end Verif.Reg.SeveralIO
