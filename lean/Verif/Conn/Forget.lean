import Verif.Conn.Retire
import Verif.Conn.Heartbeat

/-!
# A closed connection is forgotten (C98)

Two places of the library hold connections: `t.connections` of a TCP or Unix transport (tran_tcp.go:29, 141-158) and `hb.monitors` of a Heartbeat
(proc_heartbeat.go:21, 40-58).  The transport is taken from `Retire` (one transport of a running stack, with the goroutines of `LowerDeck`), the Heartbeat from
`Heartbeat`.

The transport never takes a connection off its list.  `Run` of a stopped transport makes a new list (tran_tcp.go:136).
-/

namespace Verif.Conn.Retire

open Verif.Trace

/-- This step makes the transport run: `AddTransport` while it does not. -/
def Starts (s : Sys) (l : Label) : Prop := l = .add ∧ s.tr.isRunning = false

/-- The transport is not started (again) in the course of the execution. -/
def Unbroken : Sys → List Label → Prop
  | _, [] => True
  | s, l :: ls => ¬ Starts s l ∧ ∀ s', step s l = some s' → Unbroken s' ls

/-! ## The list of the transport -/

/-- Every step is a step of the transport or leaves it alone; only `add` calls `Run`. -/
theorem tr_step_run {s s' : Sys} {l : Label} (h : step s l = some s') : s'.tr = s.tr ∨ ∃ k, Stream.step s.tr k = some s'.tr ∧ (k = .run → l = .add) := by
  obtain ⟨_, ha⟩ := alive h
  cases l with
  | add => obtain ⟨t, ht, rfl⟩ := map_some ha; exact .inr ⟨_, ht, fun _ => rfl⟩
  | del => obtain ⟨t, ht, rfl⟩ := map_some ha; exact .inr ⟨_, ht, nofun⟩
  | transport j ok => obtain ⟨t, ht, rfl⟩ := map_some ha; exact .inr ⟨_, ht, nofun⟩
  | loop a =>
    simp only [act, loopStep] at ha
    repeat' split at ha
    all_goals first
      | (obtain ⟨t, ht, rfl⟩ := map_some ha; exact .inr ⟨_, ht, nofun⟩)
      | (injection ha with ha; subst ha; exact .inl rfl)
      | simp at ha
  | data r =>
    simp only [act] at ha
    repeat' split at ha
    all_goals first
      | (injection ha with ha; subst ha; exact .inl rfl)
      | simp at ha
  | fail r =>
    simp only [act] at ha
    repeat' split at ha
    all_goals first
      | (injection ha with ha; subst ha; exact .inl rfl)
      | simp at ha
  | finish r =>
    simp only [act] at ha
    repeat' split at ha
    all_goals first
      | (obtain ⟨t, ht, rfl⟩ := map_some ha; exact .inr ⟨_, ht, nofun⟩)
      | (injection ha with ha; subst ha; exact .inl rfl)
      | simp at ha
  | peer c => injection ha with ha; subst ha; exact .inl rfl
  | close c => obtain ⟨t, ht, rfl⟩ := map_some ha; exact .inr ⟨_, ht, nofun⟩

/-- `Stop` does not touch the list. -/
theorem stop_saved (t : Stream.Sys) : (Stream.stop t).saved = t.saved := by
  unfold Stream.stop
  split
  · rfl
  · cases t.listener <;> simp only <;> repeat' split
    all_goals rfl

/-- What a step of the transport that does not start it does to the list: nothing is removed, what is returned is on it. -/
theorem saved_step {t t' : Stream.Sys} {k : Stream.Label} (h : Stream.step t k = some t') (hk : k = .run → t.isRunning = true) :
    (∃ es, t'.log = t.log ++ es ∧ ∀ c, some c ∈ t'.saved ↔ some c ∈ t.saved ∨ .returned (some c) ∈ es) ∧ (t.saved.Nodup → t'.saved.Nodup) := by
  obtain ⟨_, ha⟩ := Stream.not_crashed h
  have same : ∀ {x : Stream.Sys}, x.log = t.log → x.saved = t.saved →
      (∃ es, x.log = t.log ++ es ∧ ∀ c, some c ∈ x.saved ↔ some c ∈ t.saved ∨ .returned (some c) ∈ es) ∧ (t.saved.Nodup → x.saved.Nodup) := by
    intro x h1 h2
    exact ⟨⟨[], by rw [h1, List.append_nil], fun c => by rw [h2]; simp⟩, fun h => by rw [h2]; exact h⟩
  cases k with
  | run => injection ha with ha; subst ha; unfold Stream.run; rw [if_pos (hk rfl)]; exact same rfl rfl
  | stop => injection ha with ha; subst ha; exact same (Stream.stop_same t).2.2 (stop_saved t)
  | call => injection ha with ha; subst ha; exact same rfl rfl
  | recv i =>
    simp only [Stream.act] at ha
    repeat' split at ha
    all_goals first | (injection ha with ha; subst ha; exact same rfl rfl) | simp at ha
  | save i =>
    simp only [Stream.act] at ha
    split at ha
    · rename_i r _
      injection ha with ha; subst ha
      refine ⟨⟨_, rfl, fun c => ?_⟩, fun hn => ?_⟩
      · simp only [Stream.save]
        split
        · rename_i e; simp [e.2]
        · split
          · rename_i e
            constructor
            · exact .inl
            · rintro (h | h)
              · exact h
              · simp only [List.mem_singleton, Stream.Ev.returned.injEq] at h
                rw [h]; exact e
          · simp [eq_comm]
      · simp only [Stream.save]
        split
        · exact hn
        · split
          · exact hn
          · rename_i e
            refine List.nodup_append.mpr ⟨hn, by simp, ?_⟩
            intro a ha b hb e'
            rw [List.mem_singleton] at hb
            subst hb; subst e'
            exact e ha
    · simp at ha
  | close c => injection ha with ha; subst ha; exact same rfl rfl
  | go j ok =>
    simp only [Stream.act, Stream.goStep] at ha
    repeat' split at ha
    all_goals first
      | (injection ha with ha; subst ha; exact same rfl rfl)
      | (injection ha with ha; subst ha; exact same (Stream.stop_same _).2.2 (stop_saved _))
      | (injection ha with ha; subst ha; exact ⟨⟨_, rfl, fun c => by simp [Stream.Sys.setGo]⟩, fun h => h⟩)
      | simp at ha

theorem saved_exec (ls : List Label) : ∀ (s s' : Sys), Unbroken s ls → exec s ls = some s' →
    (∃ es, s'.tr.log = s.tr.log ++ es ∧ ∀ c, some c ∈ s'.tr.saved ↔ some c ∈ s.tr.saved ∨ .returned (some c) ∈ es) ∧ (s.tr.saved.Nodup → s'.tr.saved.Nodup) := by
  induction ls with
  | nil =>
    intro s s' _ h
    injection h with h; subst h
    exact ⟨⟨[], by simp, by simp⟩, fun h => h⟩
  | cons l ls ih =>
    intro s s' hu h
    obtain ⟨m, hm, h⟩ := exec_cons (step := step) h
    obtain ⟨⟨es2, e2, i2⟩, n2⟩ := ih m s' (hu.2 m hm) h
    rcases tr_step_run hm with e | ⟨k, hk, hr⟩
    · rw [e] at e2 i2 n2
      exact ⟨⟨es2, e2, i2⟩, n2⟩
    · have hrun : k = .run → s.tr.isRunning = true := by
        intro e
        cases hx : s.tr.isRunning with
        | true => rfl
        | false => exact absurd ⟨hr e, hx⟩ hu.1
      obtain ⟨⟨es1, e1, i1⟩, n1⟩ := saved_step hk hrun
      refine ⟨⟨es1 ++ es2, by rw [e2, e1, List.append_assoc], fun c => ?_⟩, fun h => n2 (n1 h)⟩
      rw [i2, i1, List.mem_append, or_assoc]

/-- A start empties the list and hands out nothing. -/
theorem start_saved {s s' : Sys} (h : step s .add = some s') (hr : s.tr.isRunning = false) : s'.tr.saved = [] ∧ s'.tr.log = s.tr.log := by
  obtain ⟨_, ha⟩ := alive h
  obtain ⟨t, ht, rfl⟩ := map_some ha
  obtain ⟨_, ht⟩ := Stream.not_crashed ht
  injection ht with ht; subst ht
  simp [Stream.run, hr]

/-! ## C98, transports -/

/-- **C98, exactly, for the transport.**  The transport was started in `s1` and not started again.  Then it holds, once each, the connections its accept
goroutines have received since: those that are announced, or about to be, except the ones handed out before the start.  Whether they are closed does not matter. -/
theorem c98_exact (conf : Stream.Conf) (pre post : List Label) (s1 s2 s : Sys) (h1 : exec (init conf) pre = some s1) (hr : s1.tr.isRunning = false)
    (h2 : step s1 .add = some s2) (hu : Unbroken s2 post) (h : exec s2 post = some s) :
    s.tr.saved.Nodup ∧ ∀ c, some c ∈ s.tr.saved ↔ (.opened c ∈ s.out ∨ ∃ a : Nat, s.loops[a]? = some (Loop.announce c)) ∧ .returned (some c) ∉ s1.tr.log := by
  obtain ⟨e1, e2⟩ := start_saved h2 hr
  obtain ⟨⟨es, e3, i3⟩, n3⟩ := saved_exec post s2 s hu h
  refine ⟨n3 (by rw [e1]; exact List.nodup_nil), fun c => ?_⟩
  have hall : exec (init conf) (pre ++ .add :: post) = some s := by
    show Trace.exec step _ _ = _
    rw [exec_append, show Trace.exec step _ _ = _ from h1]
    show (step s1 .add).bind _ = _
    rw [h2]; exact h
  have hi := inv_exec conf _ s hall
  have ht := hi.told.told c
  have ho := hi.opened c
  have hl := hi.ledger c
  simp only [Retire.ledger] at hl
  have hle : s.tr.log.count (.returned (some c)) ≤ 1 := by split at hl <;> omega
  have hann : Stream.weigh (announcing c) s.loops ≠ 0 ↔ ∃ a : Nat, s.loops[a]? = some (Loop.announce c) := by
    rw [weigh_pos]
    constructor
    · rintro ⟨i, x, hx, hn⟩
      refine ⟨i, ?_⟩
      cases x <;> simp only [announcing, ne_eq, not_true] at hn
      rename_i d
      by_cases e : d = c
      · rw [hx, e]
      · simp [e] at hn
    · rintro ⟨a, ha⟩
      exact ⟨a, _, ha, by simp [announcing]⟩
  rw [i3, e1, ho, ← hann]
  simp only [List.not_mem_nil, false_or]
  rw [e3, e2, List.count_append] at ht hle
  have m1 : .returned (some c) ∈ es ↔ 0 < es.count (.returned (some c)) := List.count_pos_iff.symm
  have m2 : (Stream.Ev.returned (some c)) ∈ s1.tr.log ↔ 0 < s1.tr.log.count (.returned (some c)) := List.count_pos_iff.symm
  rw [m1, m2]
  omega

/-- **C98, exactly.**  The transport holds no connection whose end was published iff none that it handed out since its last start has come to its end. -/
theorem c98_iff (conf : Stream.Conf) (pre post : List Label) (s1 s2 s : Sys) (h1 : exec (init conf) pre = some s1) (hr : s1.tr.isRunning = false)
    (h2 : step s1 .add = some s2) (hu : Unbroken s2 post) (h : exec s2 post = some s) :
    (∀ c, .closed c ∈ s.out → some c ∉ s.tr.saved) ↔ ∀ c, .closed c ∈ s.out → .returned (some c) ∈ s1.tr.log := by
  have he := (c98_exact conf pre post s1 s2 s h1 hr h2 hu h).2
  have hall : exec (init conf) (pre ++ .add :: post) = some s := by
    show Trace.exec step _ _ = _
    rw [exec_append, show Trace.exec step _ _ = _ from h1]
    show (step s1 .add).bind _ = _
    rw [h2]; exact h
  have hi := inv_exec conf _ s hall
  have hopen : ∀ c, .closed c ∈ s.out → .opened c ∈ s.out := by
    intro c hc
    rw [hi.closed] at hc
    rw [hi.opened]
    have := ends_le c s.readers
    simp only [known, gone] at hc ⊢
    omega
  constructor
  · intro hh c hc
    have := hh c hc
    rw [he] at this
    by_cases hm : .returned (some c) ∈ s1.tr.log
    · exact hm
    · exact absurd ⟨.inl (hopen c hc), hm⟩ this
  · intro hh c hc hm
    exact ((he c).mp hm).2 (hh c hc)

/-- **C98, restricted.**  A connection that was handed out before the transport was started again is never held any more. -/
theorem c98_restart_partial (conf : Stream.Conf) (pre post : List Label) (s1 s2 s : Sys) (h1 : exec (init conf) pre = some s1) (hr : s1.tr.isRunning = false)
    (h2 : step s1 .add = some s2) (hu : Unbroken s2 post) (h : exec s2 post = some s) (c : Nat) (hc : .returned (some c) ∈ s1.tr.log) : some c ∉ s.tr.saved :=
  fun hm => (((c98_exact conf pre post s1 s2 s h1 hr h2 hu h).2 c).mp hm).2 hc

/-! ## A server that leaks -/

/-- A server that has served `n` clients, one after the other. -/
def served (guard : Bool) (n : Nat) : Sys :=
  ⟨{ conf := ⟨guard, true, 0⟩, isRunning := true, next := some 0, chans := [⟨[], false⟩], saved := (List.range n).map some, cons := n,
     closedCons := List.range n, listener := some 0, listeners := 1, closedListeners := [], gos := [.loop],
     callers := (List.range n).map (fun c => .returned (some c)) ++ [.waiting (some 0)],
     log := (List.range n).flatMap fun c => [.sent 0 c, .returned (some c)], crash := none },
   [.within n], (List.range n).map fun c => (c, .over), List.range n, (List.range n).flatMap fun c => [.opened c, .data c, .closed c]⟩

/-- Client `n` connects, sends something and closes the connection. -/
def visit (n : Nat) : List Label :=
  [.transport 0 true, .transport 0 true, .transport 0 true, .transport 0 true, .loop 0, .loop 0, .loop 0, .loop 0, .loop 0, .data n, .peer n, .fail n, .finish n, .finish n]

def visits : Nat → List Label
  | 0 => [.add, .transport 0 true, .loop 0]
  | n + 1 => visits n ++ visit n

theorem visit_served (guard : Bool) (n : Nat) : exec (served guard n) (visit n) = some (served guard (n + 1)) := by
  simp [exec, Trace.exec, visit, served, step, act, loopStep, Stream.step, Stream.act, Stream.goStep, Stream.Sys.setGo, Stream.save, Stream.nextCap,
    List.range_succ, List.flatMap_append, List.set_append]

theorem served_visits (guard : Bool) : ∀ n, exec (init ⟨guard, true, 0⟩) (visits n) = some (served guard n) := by
  intro n
  induction n with
  | zero => cases guard <;> rfl
  | succ n ih =>
    show Trace.exec step _ (visits n ++ visit n) = _
    rw [exec_append, show Trace.exec step _ _ = _ from ih]
    exact visit_served guard n

theorem served_rest (guard : Bool) (n : Nat) : Rest (served guard n) := by
  intro l hl
  have hr : ∀ (r : Nat) (x : Nat × Stage), (served guard n).readers[r]? = some x → x.2 = .over := by
    intro r x hx
    have := List.mem_of_getElem? hx
    simp only [served, List.mem_map] at this
    obtain ⟨c, _, rfl⟩ := this
    rfl
  cases l with
  | loop a =>
    cases a with
    | zero => simp [step, act, loopStep, served, Stream.step, Stream.act]
    | succ a => simp [step, act, loopStep, served]
  | fail r =>
    simp only [step, act]
    split
    · split
      · rename_i h; exact absurd (hr _ _ h) (by simp)
      · rfl
    · rfl
  | finish r =>
    simp only [step, act]
    split
    · split
      · rename_i h; exact absurd (hr _ _ h) (by simp)
      · rename_i h; exact absurd (hr _ _ h) (by simp)
      · rfl
    · rfl
  | _ => exact absurd hl (by simp [Inner])

/-- **C98 fails** for TCP and Unix servers, without bound: `n` clients have come and gone, one after the other; the end of every connection was published, nothing is going
on, no connection is open.  The transport holds all of them. -/
theorem c98_violated (guard : Bool) (n : Nat) : ∃ ls s, exec (init ⟨guard, true, 0⟩) ls = some s ∧ s.tr.crash = none ∧ s.tr.isRunning = true ∧ Rest s ∧ s.tr.cons = n ∧
    (∀ c, c < n → .opened c ∈ s.out ∧ .closed c ∈ s.out ∧ c ∈ s.tr.closedCons) ∧ (∀ x ∈ s.readers, x.2 = .over) ∧ s.tr.saved = (List.range n).map some := by
  refine ⟨visits n, served guard n, served_visits guard n, rfl, rfl, served_rest guard n, rfl, fun c hc => ?_, fun x hx => ?_, rfl⟩
  · simp only [served, List.mem_flatMap, List.mem_range]
    exact ⟨⟨c, hc, by simp⟩, ⟨c, hc, by simp⟩, hc⟩
  · simp only [served, List.mem_map] at hx
    obtain ⟨c, _, rfl⟩ := hx
    rfl

set_option synthInstance.maxSize 2000
set_option synthInstance.maxHeartbeats 200000

/-- `Unbroken`, checked along an execution. -/
def unbrokenB : Sys → List Label → Bool
  | _, [] => true
  | s, l :: ls => !(l == .add && !s.tr.isRunning) && match step s l with
    | none => true
    | some s' => unbrokenB s' ls

theorem unbroken_of (ls : List Label) : ∀ s, unbrokenB s ls = true → Unbroken s ls := by
  induction ls with
  | nil => intro _ _; trivial
  | cons l ls ih =>
    intro s h
    simp only [unbrokenB, Bool.and_eq_true] at h
    refine ⟨?_, fun s' hs => ih s' (by have := h.2; rw [hs] at this; exact this)⟩
    rintro ⟨rfl, h2⟩
    simp [h2] at h

/-- Hypotheses and both sides of `c98_exact` and `c98_iff`: a Unix transport that has served two connections is deleted, added again and gets a third one.  The first two are forgotten,
the third is held. -/
example : ∃ s1 s2 s, exec (init Stream.udsServer) (serve ++ retire) = some s1 ∧ s1.tr.isRunning = false ∧ s1.tr.saved = [some 0, some 1] ∧ step s1 .add = some s2 ∧
    Unbroken s2 [.transport 1 true, .transport 1 true, .transport 1 true, .transport 1 true, .transport 1 true, .loop 1, .loop 1, .loop 1, .loop 1] ∧
    exec s2 [.transport 1 true, .transport 1 true, .transport 1 true, .transport 1 true, .transport 1 true, .loop 1, .loop 1, .loop 1, .loop 1] = some s ∧
    s.tr.saved = [some 2] ∧ s.out = [.opened 0, .data 0, .opened 1, .data 1, .data 0, .closed 0, .closed 1, .opened 2] := by
  have h : ((exec (init Stream.udsServer) (serve ++ retire)).bind fun s1 => (step s1 .add).bind fun s2 =>
      (exec s2 [.transport 1 true, .transport 1 true, .transport 1 true, .transport 1 true, .transport 1 true, .loop 1, .loop 1, .loop 1, .loop 1]).map fun s =>
        (s1.tr.isRunning, s1.tr.saved, unbrokenB s2 [.transport 1 true, .transport 1 true, .transport 1 true, .transport 1 true, .transport 1 true, .loop 1, .loop 1, .loop 1, .loop 1],
          s.tr.saved, s.out)) =
      some (false, [some 0, some 1], true, [some 2], [.opened 0, .data 0, .opened 1, .data 1, .data 0, .closed 0, .closed 1, .opened 2]) := by decide +kernel
  obtain ⟨s1, e1, h⟩ := Option.bind_eq_some_iff.mp h
  obtain ⟨s2, e2, h⟩ := Option.bind_eq_some_iff.mp h
  obtain ⟨s, e3, h⟩ := map_some h
  simp only [Prod.mk.injEq] at h
  exact ⟨s1, s2, s, e1, h.1, h.2.1, e2, unbroken_of _ _ h.2.2.1, e3, h.2.2.2⟩

end Verif.Conn.Retire

namespace Verif.Conn.Heartbeat

/-! ## C98, Heartbeat -/

/-- From `es` on nothing refreshes `c`, its end is not seen, and no check comes as late as the timeout after `u`. -/
def Stays (timeout : Int) (c u : Nat) (es : List (Nat × Ev)) : Prop :=
  ∀ p ∈ es, p.2.touches c = false ∧ p.2 ≠ .gone c ∧ ∀ o, p.2 = .check o → (((p.1 - u) / 1000000000 : Nat) : Int) < timeout

theorem stays_cons {timeout : Int} {c u : Nat} {p : Nat × Ev} {es : List (Nat × Ev)} : Stays timeout c u (p :: es) ↔
    (p.2.touches c = false ∧ p.2 ≠ .gone c ∧ ∀ o, p.2 = .check o → (((p.1 - u) / 1000000000 : Nat) : Int) < timeout) ∧ Stays timeout c u es := by
  simp [Stays]

theorem silentSince_iff (timeout : Int) (c u : Nat) (es : List (Nat × Ev)) : ∀ r : Option Nat, silentSince timeout c r es = some u ↔
    (r = some u ∧ Stays timeout c u es) ∨ ∃ a e b, es = a ++ (u, e) :: b ∧ e.touches c = true ∧ Stays timeout c u b := by
  induction es with
  | nil => intro r; simp [silentSince, Stays]
  | cons p es ih =>
    intro r
    obtain ⟨t, e⟩ := p
    simp only [silentSince]
    rw [ih, stays_cons]
    have hex : (∃ a e' b, (t, e) :: es = a ++ (u, e') :: b ∧ e'.touches c = true ∧ Stays timeout c u b) ↔
        (t = u ∧ e.touches c = true ∧ Stays timeout c u es) ∨ ∃ a e' b, es = a ++ (u, e') :: b ∧ e'.touches c = true ∧ Stays timeout c u b := by
      constructor
      · rintro ⟨a, e', b, h1, h2, h3⟩
        cases a with
        | nil =>
          simp only [List.nil_append, List.cons.injEq, Prod.mk.injEq] at h1
          obtain ⟨⟨rfl, rfl⟩, rfl⟩ := h1
          exact .inl ⟨rfl, h2, h3⟩
        | cons q a =>
          injection h1 with _ h1
          exact .inr ⟨a, e', b, h1, h2, h3⟩
      · rintro (⟨rfl, h2, h3⟩ | ⟨a, e', b, rfl, h2, h3⟩)
        · exact ⟨[], e, es, rfl, h2, h3⟩
        · exact ⟨(t, e) :: a, e', b, rfl, h2, h3⟩
    rw [hex, ← or_assoc]
    refine or_congr ?_ Iff.rfl
    cases e with
    | connected d =>
      by_cases hd : d = c
      · simp [Ev.touches, hd]
      · simp [Ev.touches, hd]
    | beat d =>
      by_cases hd : d = c
      · simp [Ev.touches, hd]
      · simp [Ev.touches, hd]
    | gone d =>
      by_cases hd : d = c
      · simp [Ev.touches, hd]
      · simp [Ev.touches, hd]
    | check o =>
      simp only [Ev.touches, ne_eq, reduceCtorEq, not_false_eq_true, true_and, Ev.check.injEq, forall_eq', Bool.false_eq_true, false_and, and_false, or_false]
      cases r with
      | none => simp
      | some v =>
        simp only [Option.filter, Option.some.injEq]
        by_cases hle : timeout ≤ (((t - v) / 1000000000 : Nat) : Int)
        · simp only [hle, decide_true, Bool.not_true]
          constructor
          · rintro ⟨h, _⟩; simp at h
          · rintro ⟨rfl, h, _⟩; omega
        · simp only [hle, decide_false, Bool.not_false, if_true, Option.some.injEq]
          constructor
          · rintro ⟨rfl, h⟩; exact ⟨rfl, by omega, h⟩
          · rintro ⟨rfl, _, h⟩; exact ⟨rfl, h⟩

/-- **C98, exactly, for the Heartbeat.**  After the sender goroutine has seen the end of connection `c`, it is held all the same iff it is refreshed later (a heartbeat that
was read before is processed late), and since then neither its end was seen nor a check came the timeout later. -/
theorem c98_heartbeat_exact (h : HB) (hk : Keys h.monitors) (t c u : Nat) (es : List (Nat × Ev)) (hv : Valid h ((t, .gone c) :: es)) :
    last (run h ((t, .gone c) :: es)).1.monitors c = some u ↔
      ∃ a e b, es = a ++ (u, e) :: b ∧ e.touches c = true ∧
        ∀ p ∈ b, p.2.touches c = false ∧ p.2 ≠ .gone c ∧ ∀ o, p.2 = .check o → (((p.1 - u) / 1000000000 : Nat) : Int) < h.timeout := by
  rw [silentSince_run c _ h hk hv]
  simp only [silentSince, if_true]
  rw [silentSince_iff]
  simp [Stays]

/-- **C98, restricted, for the Heartbeat.**  It holds a closed connection no more if nothing of it is processed after the sender goroutine has seen its end. -/
theorem c98_heartbeat_partial (h : HB) (hk : Keys h.monitors) (t c : Nat) (es : List (Nat × Ev)) (hv : Valid h ((t, .gone c) :: es))
    (hq : ∀ p ∈ es, p.2.touches c = false) : last (run h ((t, .gone c) :: es)).1.monitors c = none := by
  cases hl : last (run h ((t, .gone c) :: es)).1.monitors c with
  | none => rfl
  | some u =>
    obtain ⟨a, e, b, rfl, h2, _⟩ := (c98_heartbeat_exact h hk t c u es hv).mp hl
    have := hq (u, e) (by simp)
    rw [h2] at this
    cases this

/-- **C98 for the Heartbeat, eventually.**  Whatever happened before: once a check has come the timeout after the last thing processed of a connection, it is held no more. -/
theorem c98_heartbeat_eventually (h : HB) (hk : Keys h.monitors) (c : Nat) (es ds : List (Nat × Ev)) (t : Nat) (o : List (Nat × Nat))
    (hv : Valid h (es ++ (t, .check o) :: ds)) (h0 : ∀ u, last h.monitors c = some u → h.timeout ≤ (((t - u) / 1000000000 : Nat) : Int))
    (hes : ∀ p ∈ es, p.2.touches c = true → h.timeout ≤ (((t - p.1) / 1000000000 : Nat) : Int)) (hds : ∀ p ∈ ds, p.2.touches c = false) :
    last (run h (es ++ (t, .check o) :: ds)).1.monitors c = none := by
  cases hl : last (run h (es ++ (t, .check o) :: ds)).1.monitors c with
  | none => rfl
  | some u =>
    exfalso
    rw [silentSince_run c _ h hk hv, silentSince_iff] at hl
    rcases hl with ⟨hl, hs⟩ | ⟨a, e, b, he, ht, hs⟩
    · have h1 := h0 u hl
      have h2 := (hs (t, .check o) (by simp)).2.2 o rfl
      simp only at h2
      omega
    · have hm : (u, e) ∈ es ++ (t, .check o) :: ds := by rw [he]; simp
      rcases List.append_eq_append_iff.mp he with ⟨w, h1, h2⟩ | ⟨w, h1, h2⟩
      · cases w with
        | nil =>
          injection h2 with h2 _
          injection h2 with _ h2
          subst h2; cases ht
        | cons q w =>
          injection h2 with _ h2
          have := hds (u, e) (by rw [h2]; simp)
          simp [ht] at this
      · cases w with
        | nil =>
          injection h2 with h2 _
          injection h2 with _ h2
          subst h2; cases ht
        | cons q w =>
          injection h2 with h2 h3
          subst h2
          have h4 := hes (u, e) (by rw [h1]; simp) ht
          have h5 := (hs (t, .check o) (by rw [h3]; simp)).2.2 o rfl
          simp only at h4 h5
          omega

/-- C98 fails for the Heartbeat: with a long timeout, the closed connection is held although checks are made. -/
theorem c98_heartbeat_violated : last (run ⟨30, true, []⟩ [(0, .connected 1), (1000000000, .gone 1), (1000000001, .beat 1), (2000000000, .check [(1, 1000000001)])]).1.monitors 1 =
    some 1000000001 := by decide

/-- The hypotheses of `c98_heartbeat_eventually` (and those of the other two, from the second event on) are met by this history. -/
example : Valid ⟨30, true, []⟩ ([(0, .connected 1), (1000000000, .gone 1), (1000000001, .beat 1)] ++ (40000000000, .check [(1, 1000000001)]) :: [(50000000000, .check [])]) := by
  simp only [List.cons_append, List.nil_append, Valid, step, update, checkLoop, expired, remove]
  decide

end Verif.Conn.Heartbeat
