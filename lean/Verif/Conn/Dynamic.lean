import Verif.Conn.Close

/-!
# Programs that count their connections (C82)

`examples/dynamic_endpoint/main.go` and `examples/dynamic_transport/main.go` count: the endpoint's event listener adds one to `conn` on
`NewConnection` and takes one off on `ConnectionClosed`; when `conn` gets to 0 by that, the process exits
(dynamic_transport/main.go:43, 75-78 and 98, 109-112; dynamic_endpoint/main.go:72, 112-115 and 137, 149-152).  Any number of connections, each as in `Conn.Close`.
Simplification: the listener's `conn++`/`conn--` and the test are one step (what happens otherwise is C63).
-/

namespace Verif.Conn.Dynamic

open Verif.Trace

structure Sys where
  conns : List Close.Sys
  /-- the program's variable -/
  conn : Int
  exited : Bool
  deriving Repr, DecidableEq

inductive Label where
  /-- `NewConnection` -/
  | open
  /-- something happens on connection `c` -/
  | act (c : Nat) (l : Close.Label)
  deriving Repr, DecidableEq

def step (s : Sys) : Label → Option Sys
  | .open => if s.exited then none else some { s with conns := s.conns ++ [Close.init], conn := s.conn + 1 }
  | .act c l =>
    if s.exited then none else
    match s.conns[c]? with
    | none => none
    | some k =>
      (Close.step k l).map fun k' =>
        if k'.events = k.events then { s with conns := s.conns.set c k' }
        else { conns := s.conns.set c k', conn := s.conn - 1, exited := decide (s.conn - 1 = 0) }

abbrev exec := Trace.exec step

def init : Sys := ⟨[], 0, false⟩

/-! ## Specification -/

/-- What happened on connection `c`. -/
def mine (c : Nat) (ls : List Label) : List Close.Label := ls.filterMap fun
  | .act e l => if e = c then some l else none
  | .open => none

/-- `ConnectionClosed` events of all connections. -/
def Sys.events (s : Sys) : Nat := (s.conns.map Close.Sys.events).sum

/-- No write fails. -/
def NoFail (ls : List Label) : Prop := ∀ c i, Label.act c (.writeFail i) ∉ ls

/-! ## Proofs -/

theorem step_events {k k' : Close.Sys} {l : Close.Label} (h : Close.step k l = some k') : k'.events = k.events ∨ k'.events = k.events + 1 := by
  have mv : ∀ (i : Nat) (a b : Close.WPC) (t : Close.Sys), Close.moveWriter k i a b = some t → t.events = k.events :=
    fun i a b t ht => (Close.moveWriter_count ht).2.2.1
  cases l with
  | readOk => simp only [Close.step] at h; split at h <;> simp at h; subst h; exact .inl rfl
  | readFail => simp only [Close.step] at h; split at h <;> simp at h; subst h; exact .inl rfl
  | readerClose => simp only [Close.step] at h; split at h <;> simp at h; subst h; exact .inl rfl
  | readerPublish => simp only [Close.step] at h; split at h <;> simp at h; subst h; exact .inr rfl
  | write => injection h with h; subst h; exact .inl rfl
  | writeOk i => exact .inl (mv i _ _ _ h)
  | writeFail i => exact .inl (mv i _ _ _ h)
  | writerClose i =>
    simp only [Close.step, Option.map_eq_some_iff] at h
    obtain ⟨t, ht, h⟩ := h; subst h; exact .inl (mv i _ _ t ht)
  | writerPublish i =>
    simp only [Close.step, Option.map_eq_some_iff] at h
    obtain ⟨t, ht, h⟩ := h; subst h; exact .inr (by simp [mv i _ _ _ ht])
  | close => injection h with h; subst h; exact .inl rfl

/-- Whoever is about to report, or has reported, has closed the connection before. -/
structure Shut (k : Close.Sys) : Prop where
  reader : k.reader = .publishing ∨ k.reader = .ended → k.closed = true
  writers : ∀ w ∈ k.writers, w = .publishing ∨ w = .reported → k.closed = true
  events : 0 < k.events → k.closed = true

theorem shut_move {k t : Close.Sys} {i : Nat} {a b : Close.WPC} (hk : Shut k) (h : Close.moveWriter k i a b = some t)
    (hb : b = .publishing ∨ b = .reported → k.closed = true) : Shut t := by
  simp only [Close.moveWriter] at h
  split at h
  · injection h with h; subst h
    refine ⟨hk.reader, ?_, hk.events⟩
    intro w hw hp
    rcases List.mem_or_eq_of_mem_set hw with hw | hw
    · exact hk.writers w hw hp
    · subst hw; exact hb hp
  · cases h

theorem shut_step {k k' : Close.Sys} {l : Close.Label} (hk : Shut k) (h : Close.step k l = some k') : Shut k' := by
  cases l with
  | readOk => simp only [Close.step] at h; split at h <;> simp at h; subst h; exact hk
  | readFail => simp only [Close.step] at h; split at h <;> simp at h; subst h; exact ⟨by simp, hk.writers, hk.events⟩
  | readerClose => simp only [Close.step] at h; split at h <;> simp at h; subst h; exact ⟨fun _ => rfl, fun _ _ _ => rfl, fun _ => rfl⟩
  | readerPublish =>
    simp only [Close.step] at h
    split at h <;> simp at h
    rename_i hr
    subst h
    have := hk.reader (.inl hr)
    exact ⟨fun _ => this, hk.writers, fun _ => this⟩
  | write =>
    injection h with h; subst h
    refine ⟨hk.reader, ?_, hk.events⟩
    intro w hw hp
    simp only [List.mem_append, List.mem_singleton] at hw
    rcases hw with hw | hw
    · exact hk.writers w hw hp
    · subst hw; split at hp <;> simp at hp
  | writeOk i => exact shut_move hk h (by simp)
  | writeFail i => exact shut_move hk h (by simp)
  | writerClose i =>
    simp only [Close.step, Option.map_eq_some_iff] at h
    obtain ⟨t, ht, h⟩ := h; subst h
    exact ⟨fun _ => rfl, fun _ _ _ => rfl, fun _ => rfl⟩
  | writerPublish i =>
    simp only [Close.step, Option.map_eq_some_iff] at h
    obtain ⟨t, ht, h⟩ := h; subst h
    have hc : k.closed = true := by
      have := ht
      simp only [Close.moveWriter] at this
      split at this
      · rename_i hi; exact hk.writers _ (List.mem_of_getElem? hi) (.inl rfl)
      · cases this
    have ht' := shut_move hk ht fun _ => hc
    exact ⟨ht'.reader, ht'.writers, fun _ => by rw [show t.closed = k.closed from (Close.moveWriter_count ht).1]; exact hc⟩
  | close => injection h with h; subst h; exact ⟨fun _ => rfl, fun _ _ _ => rfl, fun _ => rfl⟩

theorem shut_exec (ls : List Close.Label) (k : Close.Sys) (h : Close.exec Close.init ls = some k) : Shut k :=
  invariant (step := Close.step) (P := Shut) (Q := fun _ => True) (fun _ _ _ hk _ hs => shut_step hk hs) ls _ _
    ⟨by simp [Close.init], by simp [Close.init], by simp [Close.init]⟩ (fun _ _ => trivial) h

theorem sum_set (f : Close.Sys → Nat) (l : List Close.Sys) (c : Nat) (k k' : Close.Sys) (h : l[c]? = some k) :
    ((l.set c k').map f).sum + f k = (l.map f).sum + f k' := by
  induction l generalizing c with
  | nil => simp at h
  | cons x l ih =>
    cases c with
    | zero =>
      simp only [List.getElem?_cons_zero, Option.some.injEq] at h
      subst h
      simp only [List.set_cons_zero, List.map_cons, List.sum_cons]; omega
    | succ c =>
      simp only [List.getElem?_cons_succ] at h
      have := ih c h
      simp only [List.set_cons_succ, List.map_cons, List.sum_cons]; omega

/-- The variable and the flag, from the connections. -/
structure Inv (s : Sys) : Prop where
  count : s.conn = s.conns.length - s.events
  exit : s.exited = true → s.conn = 0
  /-- short of the exit the counter is positive once a connection was announced -/
  pos : s.exited = false → s.conns = [] ∨ 0 < s.conn

theorem inv_step {s s' : Sys} {l : Label} (hi : Inv s) (h : step s l = some s') : Inv s' := by
  cases l with
  | «open» =>
    simp only [step] at h
    split at h
    · cases h
    · rename_i he
      injection h with h; subst h
      have he : s.exited = false := by simpa using he
      have hc := hi.count
      simp only [Sys.events] at hc
      refine ⟨?_, fun h => absurd h (by simp [he]), fun _ => .inr ?_⟩
      · simp only [Sys.events, List.length_append, List.map_append, List.sum_append]
        simp [Close.init]; omega
      · rcases hi.pos he with h | h
        · simp only [h] at hc; simp at hc; simp only; omega
        · simp only; omega
  | act c l =>
    simp only [step] at h
    split at h
    · cases h
    · rename_i he
      have he : s.exited = false := by simpa using he
      split at h
      · cases h
      · rename_i k hk
        simp only [Option.map_eq_some_iff] at h
        obtain ⟨k', hk', h⟩ := h
        have hsum := sum_set Close.Sys.events s.conns c k k' hk
        have hc := hi.count
        have hne : s.conns ≠ [] := by rintro h; simp [h] at hk
        have hp : 0 < s.conn := (hi.pos he).resolve_left hne
        simp only [Sys.events] at hc
        split at h
        · rename_i hev
          subst h
          refine ⟨?_, fun h => absurd h (by simp [he]), fun _ => .inr hp⟩
          simp only [Sys.events, List.length_set]; omega
        · rename_i hev
          subst h
          have := (step_events hk').resolve_left hev
          refine ⟨?_, fun h => by simpa using h, fun h => .inr ?_⟩
          · simp only [Sys.events, List.length_set]; omega
          · simp only [decide_eq_false_iff_not] at h; simp only; omega

theorem inv_exec (ls : List Label) (s : Sys) (h : exec init ls = some s) : Inv s :=
  invariant (step := step) (P := Inv) (Q := fun _ => True) (fun _ _ _ hi _ hs => inv_step hi hs) ls _ _
    ⟨by simp [init, Sys.events], by simp [init], by simp [init]⟩ (fun _ _ => trivial) h

theorem mine_append (c : Nat) (a b : List Label) : mine c (a ++ b) = mine c a ++ mine c b := List.filterMap_append

/-- Every connection behaves as in `Conn.Close`. -/
theorem projects (ls : List Label) : ∀ s, exec init ls = some s →
    (∀ c k, s.conns[c]? = some k → Close.exec Close.init (mine c ls) = some k) ∧ ∀ c, s.conns.length ≤ c → mine c ls = [] := by
  induction ls using snoc_induction with
  | h0 => intro s h; injection h with h; subst h; exact ⟨by simp [init], fun _ _ => rfl⟩
  | h1 ls l ih =>
    intro s h
    obtain ⟨m, hm, hs⟩ := exec_snoc h
    obtain ⟨i1, i2⟩ := ih m hm
    cases l with
    | «open» =>
      simp only [step] at hs
      split at hs
      · cases hs
      · injection hs with hs; subst hs
        have e : ∀ c, mine c (ls ++ [.open]) = mine c ls := by intro c; rw [mine_append]; simp [mine]
        refine ⟨?_, ?_⟩
        · intro c k hk
          rw [e]
          simp only [List.getElem?_append] at hk
          split at hk
          · exact i1 c k hk
          · rename_i hc
            have h0 : k = Close.init := by
              cases hd : c - m.conns.length with
              | zero => rw [hd] at hk; simpa using hk.symm
              | succ n => rw [hd] at hk; simp at hk
            rw [i2 c (by omega), h0]; rfl
        · intro c hc
          rw [e]; simp at hc; exact i2 c (by omega)
    | act d l =>
      simp only [step] at hs
      split at hs
      · cases hs
      · split at hs
        · cases hs
        · rename_i k hk
          simp only [Option.map_eq_some_iff] at hs
          obtain ⟨k', hk', hs⟩ := hs
          have hconns : s.conns = m.conns.set d k' := by split at hs <;> subst hs <;> rfl
          have hd : d < m.conns.length := (List.getElem?_eq_some_iff.mp hk).1
          refine ⟨?_, ?_⟩
          · intro c x hx
            rw [hconns] at hx
            rw [mine_append]
            by_cases hcd : c = d
            · subst hcd
              rw [List.getElem?_set_self hd] at hx
              injection hx with hx; subst hx
              show Trace.exec _ _ _ = _
              rw [exec_append, show Trace.exec Close.step Close.init (mine c ls) = some k from i1 c k hk]
              simp [mine, Trace.exec, hk']
            · rw [List.getElem?_set_ne (Ne.symm hcd)] at hx
              simpa [mine, Ne.symm hcd] using i1 c x hx
          · intro c hc
            rw [hconns, List.length_set] at hc
            rw [mine_append, i2 c hc]
            simp [mine, show d ≠ c by omega]

theorem sum_eq_length {l : List Nat} (h1 : ∀ x ∈ l, x ≤ 1) (h : l.sum = l.length) : ∀ x ∈ l, x = 1 := by
  induction l with
  | nil => simp
  | cons a l ih =>
    have ha := h1 a List.mem_cons_self
    have hle : l.sum ≤ l.length := by
      have : ∀ l : List Nat, (∀ x ∈ l, x ≤ 1) → l.sum ≤ l.length := by
        intro l
        induction l with
        | nil => simp
        | cons b l ih =>
          intro h
          have := h b List.mem_cons_self
          have := ih fun x hx => h x (List.mem_cons_of_mem _ hx)
          simp only [List.sum_cons, List.length_cons]; omega
      exact this l fun x hx => h1 x (List.mem_cons_of_mem _ hx)
    simp only [List.sum_cons, List.length_cons] at h
    intro x hx
    rcases List.mem_cons.mp hx with rfl | hx
    · omega
    · exact ih (fun y hy => h1 y (List.mem_cons_of_mem _ hy)) (by omega) x hx

theorem sum_ge_length {l : List Nat} (h1 : ∀ x ∈ l, 1 ≤ x) : l.length ≤ l.sum := by
  induction l with
  | nil => simp
  | cons a l ih =>
    have := h1 a List.mem_cons_self
    have := ih fun x hx => h1 x (List.mem_cons_of_mem _ hx)
    simp only [List.sum_cons, List.length_cons]; omega

/-- C82: for every schedule the counter is the connections announced less the events, and the program has exited if and only if a
connection was announced and the events are as many as the connections. -/
theorem c82_count (ls : List Label) (s : Sys) (h : exec init ls = some s) :
    s.conn = s.conns.length - s.events ∧ (s.exited = true ↔ s.conns ≠ [] ∧ s.events = s.conns.length) := by
  have hi := inv_exec ls s h
  refine ⟨hi.count, ?_, ?_⟩
  · intro he
    have h0 := hi.exit he
    have hc := hi.count
    refine ⟨?_, by omega⟩
    -- the exit needs an event of a connection
    have key : ∀ ls s, exec init ls = some s → s.exited = true → s.conns ≠ [] := by
      intro ls
      induction ls using snoc_induction with
      | h0 => intro s h he; injection h with h; subst h; simp [init] at he
      | h1 ls l _ =>
        intro s h he
        obtain ⟨m, _, hs⟩ := exec_snoc h
        cases l with
        | «open» => simp only [step] at hs; split at hs <;> cases hs; simp
        | act c l =>
          simp only [step] at hs
          split at hs
          · cases hs
          · split at hs
            · cases hs
            · rename_i k hk
              simp only [Option.map_eq_some_iff] at hs
              obtain ⟨k', _, hs⟩ := hs
              have hl : s.conns.length = m.conns.length := by split at hs <;> subst hs <;> simp
              intro h0
              rw [h0] at hl
              have := (List.getElem?_eq_some_iff.mp hk).1
              simp at hl; omega
    exact key ls s h he
  · rintro ⟨hne, hev⟩
    cases he : s.exited with
    | true => rfl
    | false =>
      have := (hi.pos he).resolve_left hne
      have := hi.count
      omega

/-- C82, part: if no write fails, the program has exited if and only if every connection announced has been closed and reported;
so it never exits with an open connection and never misses the end.  Missing: failing writes (`c82_violated`). -/
theorem c82_partial (ls : List Label) (s : Sys) (h : exec init ls = some s) (hf : NoFail ls) :
    s.exited = true ↔ s.conns ≠ [] ∧ ∀ k ∈ s.conns, k.closed = true ∧ k.events = 1 := by
  have hp := projects ls s h
  have le1 : ∀ k ∈ s.conns, k.events ≤ 1 := by
    intro k hk
    obtain ⟨c, hc⟩ := List.getElem?_of_mem hk
    have := Close.c49_partial _ k (hp.1 c k hc) (by
      intro i hm
      simp only [mine, List.mem_filterMap] at hm
      obtain ⟨l, hl, he⟩ := hm
      cases l with
      | «open» => simp at he
      | act e l =>
        simp only [Option.ite_none_right_eq_some, Option.some.injEq] at he
        obtain ⟨_, he⟩ := he
        subst he
        exact hf e i hl)
    rw [this]; split <;> omega
  rw [(c82_count ls s h).2]
  constructor
  · rintro ⟨hne, hev⟩
    refine ⟨hne, fun k hk => ?_⟩
    have h1 : k.events = 1 := sum_eq_length (l := s.conns.map Close.Sys.events)
      (by intro x hx; obtain ⟨k, hk, rfl⟩ := List.mem_map.mp hx; exact le1 k hk) (by simpa [Sys.events] using hev) _ (List.mem_map_of_mem hk)
    obtain ⟨c, hc⟩ := List.getElem?_of_mem hk
    exact ⟨(shut_exec _ k (hp.1 c k hc)).events (by omega), h1⟩
  · rintro ⟨hne, hall⟩
    refine ⟨hne, ?_⟩
    have hr : s.conns.map Close.Sys.events = List.replicate s.conns.length 1 := by
      rw [List.eq_replicate_iff]
      exact ⟨by simp, fun x hx => by obtain ⟨k, hk, rfl⟩ := List.mem_map.mp hx; exact (hall k hk).2⟩
    simp [Sys.events, hr]

/-- Exactly when the exit comes too early: when the program exits, a connection is unreported if and only if another one was reported
more than once. -/
theorem c82_iff (ls : List Label) (s : Sys) (h : exec init ls = some s) (he : s.exited = true) :
    (∃ k ∈ s.conns, k.events = 0) ↔ ∃ k ∈ s.conns, 2 ≤ k.events := by
  have hev := ((c82_count ls s h).2.mp he).2
  have hlen : (s.conns.map Close.Sys.events).sum = (s.conns.map Close.Sys.events).length := by simpa [Sys.events] using hev
  constructor
  · rintro ⟨k, hk, h0⟩
    apply Classical.byContradiction
    intro hno
    have := sum_eq_length (l := s.conns.map Close.Sys.events) (by
      intro x hx
      obtain ⟨k, hk, rfl⟩ := List.mem_map.mp hx
      apply Classical.byContradiction
      intro h; exact hno ⟨k, hk, by omega⟩) hlen _ (List.mem_map_of_mem hk)
    omega
  · rintro ⟨k, hk, h2⟩
    apply Classical.byContradiction
    intro hno
    -- one at least for each, two for one: more than the length
    obtain ⟨c, hc⟩ := List.getElem?_of_mem hk
    have hs := sum_set Close.Sys.events s.conns c k { k with events := 1 } hc
    have hge := sum_ge_length (l := ((s.conns.set c { k with events := 1 }).map Close.Sys.events)) (by
      intro x hx
      obtain ⟨y, hy, rfl⟩ := List.mem_map.mp hx
      rcases List.mem_or_eq_of_mem_set hy with hy | hy
      · apply Classical.byContradiction
        intro h; exact hno ⟨y, hy, by omega⟩
      · subst hy; simp)
    simp only [List.length_map, List.length_set] at hge hlen
    simp only at hs
    omega

/-- The second connection (TCP) breaks while data is written on it: two events. -/
def breaks : List Label := [.open, .open, .act 1 .write, .act 1 (.writeFail 0), .act 1 .readFail, .act 1 .readerClose,
  .act 1 .readerPublish, .act 1 (.writerClose 0), .act 1 (.writerPublish 0)]

/-- C82 is violated: the program exits although the first connection is open and works. -/
theorem c82_violated : ∃ s, exec init breaks = some s ∧ s.exited = true ∧ ∃ k ∈ s.conns, k = Close.init :=
  ⟨⟨[Close.init, ⟨true, .ended, [.reported], 2⟩], 0, true⟩, by decide, rfl, Close.init, List.mem_cons_self, rfl⟩

/-- Non-trivial for `c82_partial`: two connections, one closed by `Stop`, one by its peer, with a write that goes well. -/
example : let ls : List Label := [.open, .open, .act 0 .write, .act 0 (.writeOk 0), .act 1 .close, .act 1 .readFail, .act 1 .readerClose, .act 1 .readerPublish,
      .act 0 .readFail, .act 0 .readerClose, .act 0 .readerPublish]
    NoFail ls ∧ (exec init ls).map Sys.exited = some true ∧ (exec init (ls.take 10)).map Sys.exited = some false := by
  refine ⟨?_, by decide, by decide⟩
  intro c i h
  simp at h

end Verif.Conn.Dynamic
