import Verif.Reg.Listener
import Verif.Fair

/-!
# Every message reaches the listener in the end (C111)

Infinite executions of the model of `SetDataListener` and `autoReceive` (`Reg/Listener.lean`).
-/

namespace Verif.Reg.Listener

open Verif.Trace

/-- The steps of the receive goroutines. -/
def Acts (l : Label) : Prop := ∃ i, l = .run i

def PC.phase : PC → Nat
  | .start => 0
  | .flag => 1
  | .recv => 2
  | .look _ => 3
  | .call _ => 4
  | .clear => 0
  | .done => 0
  | .panicked => 0

/-- What the goroutine has done. -/
def Sys.work (s : Sys) : Nat := 3 * s.out.length + (s.gs.map PC.phase).sum

/-- One goroutine, and a listener. -/
structure Busy (s : Sys) : Prop where
  listener : s.listener ≠ none
  one : ∃ pc, s.gs = [pc] ∧ pc ≠ .done ∧ pc ≠ .panicked ∧ pc ≠ .clear

theorem busy_step {s s' : Sys} {l : Label} (h : Busy s) (hs : step s l = some s') (hn : l ≠ .set none) (h1 : s'.gs.length ≤ 1) :
    Busy s' ∧ s.work ≤ s'.work ∧ (Acts l → s.work < s'.work) := by
  obtain ⟨hl, pc, hg, hp⟩ := h
  cases l with
  | deliver m =>
    simp only [step] at hs
    split at hs
    · injection hs with hs; subst hs; exact ⟨⟨hl, pc, hg, hp⟩, Nat.le_refl _, fun ⟨i, e⟩ => by cases e⟩
    · simp at hs
  | set x =>
    injection hs with hs; subst hs
    exact ⟨⟨fun e => hn (by rw [show x = none from e]), pc, hg, hp⟩, Nat.le_refl _, fun ⟨i, e⟩ => by cases e⟩
  | spawn =>
    simp only [step] at hs
    split at hs
    · simp at hs
    · split at hs <;> injection hs with hs <;> subst hs
      · exact ⟨⟨hl, pc, hg, hp⟩, Nat.le_refl _, fun ⟨i, e⟩ => by cases e⟩
      · simp [hg] at h1
  | run i =>
    simp only [step, hg] at hs
    cases i with
    | succ i => simp at hs
    | zero =>
      simp only [List.getElem?_cons_zero] at hs
      have fin : ∀ pc' : PC, pc' ≠ .done ∧ pc' ≠ .panicked ∧ pc' ≠ .clear → ∀ t : Sys, t.listener = s.listener → t.gs = s.gs.set 0 pc' →
          3 * s.out.length + pc.phase < 3 * t.out.length + pc'.phase → Busy t ∧ s.work ≤ t.work ∧ (Acts (.run 0) → s.work < t.work) := by
        intro pc' hp' t ht1 ht2 hlt
        have e1 : s.work = 3 * s.out.length + pc.phase := by simp [Sys.work, hg]
        have e2 : t.work = 3 * t.out.length + pc'.phase := by simp [Sys.work, ht2, hg]
        exact ⟨⟨ht1 ▸ hl, pc', by rw [ht2, hg]; rfl, hp'⟩, by omega, fun _ => by omega⟩
      cases pc with
      | start =>
        simp only [advance, if_neg hl] at hs
        injection hs with hs; subst hs
        exact fin .flag (by simp) _ rfl rfl (by simp [PC.phase, Sys.setPC])
      | flag =>
        injection hs with hs; subst hs
        exact fin .recv (by simp) _ rfl rfl (by simp [PC.phase, Sys.setPC])
      | recv =>
        simp only [advance] at hs
        split at hs
        · injection hs with hs; subst hs
          exact fin (.look _) (by simp) _ rfl rfl (by simp [PC.phase, Sys.setPC])
        · simp at hs
      | look m =>
        simp only [advance, if_neg hl] at hs
        injection hs with hs; subst hs
        exact fin (.call _) (by simp) _ rfl rfl (by simp [PC.phase, Sys.setPC])
      | call m =>
        simp only [advance] at hs
        split at hs
        · injection hs with hs; subst hs
          exact fin .recv (by simp) _ rfl rfl (by simp [PC.phase, Sys.setPC]; omega)
        · rename_i e; exact absurd e hl
      | clear => exact absurd rfl hp.2.2
      | done => exact absurd rfl hp.1
      | panicked => exact absurd rfl hp.2.1

/-- Before the first goroutine is started. -/
structure Quiet (s : Sys) : Prop where
  gs : s.gs = []
  flag : s.flag = false
  set : s.callers ≠ 0 → s.listener ≠ none

theorem quiet_step {s s' : Sys} {l : Label} (h : Quiet s) (hs : step s l = some s') (hn : l ≠ .set none) : (l ≠ .spawn → Quiet s') ∧ (l = .spawn → Busy s') := by
  obtain ⟨h1, h2, h3⟩ := h
  cases l with
  | deliver m =>
    simp only [step] at hs
    split at hs
    · injection hs with hs; subst hs; exact ⟨fun _ => ⟨h1, h2, h3⟩, fun e => by cases e⟩
    · simp at hs
  | set x =>
    injection hs with hs; subst hs
    exact ⟨fun _ => ⟨h1, h2, fun _ e => hn (by rw [show x = none from e])⟩, fun e => by cases e⟩
  | spawn =>
    simp only [step, h2] at hs
    split at hs
    · simp at hs
    · rename_i hc
      simp only [Bool.false_eq_true, if_false] at hs
      injection hs with hs; subst hs
      exact ⟨fun e => absurd rfl e, fun _ => ⟨h3 hc, .start, by simp [h1], by simp⟩⟩
  | run i => simp [step, h1] at hs

theorem run_busy (r : Run step .init) (hn : ∀ n, r.label n ≠ some (.set none)) (h1 : ∀ n, (r.state n).gs.length ≤ 1) {a : Nat} (ha : r.label a = some .spawn) :
    ∀ n, a < n → Busy (r.state n) := by
  have first : ∀ n, (Quiet (r.state n) ∧ ∀ m, m < n → r.label m ≠ some .spawn) ∨ Busy (r.state n) := by
    intro n
    induction n with
    | zero => exact .inl ⟨by rw [r.start]; exact ⟨rfl, rfl, fun h => absurd rfl h⟩, fun m h => absurd h (by omega)⟩
    | succ n ih =>
      rcases r.next n with ⟨e1, e2⟩ | ⟨l, e1, e2⟩
      · rw [e2]
        rcases ih with ⟨q, hq⟩ | b
        · refine .inl ⟨q, fun m hm => ?_⟩
          rcases Nat.lt_or_ge m n with h | h
          · exact hq m h
          · rw [show m = n by omega, e1]; simp
        · exact .inr b
      · have hl : l ≠ .set none := fun e => hn n (by rw [e1, e])
        rcases ih with ⟨q, hq⟩ | b
        · obtain ⟨q1, q2⟩ := quiet_step q e2 hl
          by_cases e : l = .spawn
          · exact .inr (q2 e)
          · refine .inl ⟨q1 e, fun m hm => ?_⟩
            rcases Nat.lt_or_ge m n with h | h
            · exact hq m h
            · rw [show m = n by omega, e1]; intro h; injection h with h; exact e h
        · exact .inr (busy_step b e2 hl (h1 _)).1
  intro n hn'
  rcases first n with ⟨_, h⟩ | h
  · exact absurd ha (h a hn')
  · exact h

theorem ready_of_left {s : Sys} (h : Busy s) (hleft : s.inflight ++ s.rx ≠ []) : Ready step Acts s := by
  obtain ⟨hl, pc, hg, hp⟩ := h
  refine ⟨.run 0, ⟨0, rfl⟩, ?_⟩
  cases pc with
  | start => simp [step, hg, advance, hl]
  | flag => simp [step, hg, advance]
  | recv =>
    cases hr : s.rx with
    | nil => exact absurd (by simp [Sys.inflight, hg, PC.held, hr]) hleft
    | cons m rest => simp [step, hg, advance, hr]
  | look m => simp [step, hg, advance, hl]
  | call m =>
    cases h : s.listener with
    | none => exact absurd h hl
    | some x => simp [step, hg, advance, h]
  | clear => exact absurd rfl hp.2.2
  | done => exact absurd rfl hp.1
  | panicked => exact absurd rfl hp.2.1

/-- C111, listeners, part: in every infinite execution in which `SetDataListener` is called, no caller passes nil, no second goroutine is started and the scheduler
is fair to the one there is: all that is delivered to the endpoint up to any time is passed to a listener in the end, in order.  Missing: nil listeners
(`c43_lost_wakeup`: the listener may never be called again) and two goroutines (`c43_order_violated`). -/
theorem c111_heard_partial (r : Run step .init) (hf : r.Fair Acts) (hn : ∀ n, r.label n ≠ some (.set none)) (h1 : ∀ n, (r.state n).gs.length ≤ 1)
    (a : Nat) (ha : r.label a = some .spawn) (n : Nat) :
    ∃ m, n ≤ m ∧ delivered (r.past n) <+: (r.state m).out.map Prod.snd := by
  have hb : ∀ k, max n (a + 1) ≤ k → Busy (r.state k) := fun k hk => run_busy r hn h1 ha k (by omega)
  have horder : ∀ k, (r.state k).out.map Prod.snd ++ (r.state k).inflight ++ (r.state k).rx = delivered (r.past k) := fun k =>
    c43_in_order_partial (r.past k) (r.state k) (r.exec_past k) (h1 k) fun h => by
      obtain ⟨m, _, hm⟩ := r.mem_past h
      exact hn m hm
  have hpre : ∀ k, n ≤ k → delivered (r.past n) <+: delivered (r.past k) := by
    intro k hk
    obtain ⟨t, ht⟩ := r.past_pre hk
    exact ⟨delivered t, by rw [← ht, delivered_append]⟩
  obtain ⟨k, hk, hl⟩ := r.leads Acts hf Sys.work (fun k => (delivered (r.past n)).length ≤ (r.state k).out.length) (max n (a + 1))
    (fun m l hm hlab hs => (busy_step (hb m hm) hs (fun e => hn m (by rw [hlab, e])) (h1 _)).2)
    (by
      intro k hk hg
      refine ready_of_left (hb k hk) fun he => hg ?_
      have h1 := horder k
      rw [List.append_assoc, he, List.append_nil] at h1
      have h2 := (hpre k (by omega)).length_le
      rwa [← h1, List.length_map] at h2)
    (3 * (delivered (r.past n)).length + 2)
  have hlen : (delivered (r.past n)).length ≤ (r.state k).out.length := by
    rcases hl with hl | hl
    · exact hl
    · obtain ⟨pc, hg, _⟩ := (hb k hk).one
      have h2 : (r.state k).work = 3 * (r.state k).out.length + pc.phase := by simp [Sys.work, hg]
      have h3 : pc.phase ≤ 4 := by cases pc <;> simp [PC.phase]
      omega
  refine ⟨k, by omega, List.prefix_of_prefix_length_le (hpre k (by omega)) ⟨(r.state k).inflight ++ (r.state k).rx, ?_⟩ (by simpa using hlen)⟩
  rw [← horder k, List.append_assoc]

/-! ### Example: a listener is replaced, three messages, and then nothing more -/

def demoLabels : List Label := [.deliver 1, .set (some 7), .spawn, .run 0, .run 0, .run 0, .deliver 2, .set (some 8), .spawn, .run 0, .run 0, .run 0, .run 0, .run 0]

def demoEnd : Sys := ⟨[], some 8, true, 0, [.recv], [(8, 1), (8, 2)], []⟩

theorem demo_idle : ¬ Ready step Acts demoEnd := by
  rintro ⟨l, ⟨i, rfl⟩, hs⟩
  cases i <;> simp [step, demoEnd, advance] at hs

def demoRun : Run step .init := Trace.demo demoLabels demoEnd rfl

theorem demo_one (n : Nat) : (demoRun.state n).gs.length ≤ 1 := by
  rcases Nat.lt_or_ge n 14 with h | h
  · have : ∀ k, k < 14 → (demoRun.state k).gs.length ≤ 1 := by decide
    exact this n h
  · have e : demoRun.state n = demoEnd := demo_rest demoLabels demoEnd rfl n h
    rw [e]; decide

example : ∃ m, 10 ≤ m ∧ [1, 2] <+: (demoRun.state m).out.map Prod.snd :=
  c111_heard_partial demoRun (demo_fair _ _ _ _ demo_idle)
    (fun n h => absurd (List.mem_of_getElem? (show demoLabels[n]? = some (.set none) from h)) (by decide)) demo_one 2 rfl 10

def deafLabels : List Label :=
  [.set (some 7), .spawn, .run 0, .run 0, .set none, .spawn, .deliver 1, .run 0, .run 0, .set (some 8), .spawn, .run 0, .deliver 2]

def deafEnd : Sys := ⟨[2], some 8, false, 0, [.done], [], [1]⟩

def deafRun : Run step .init := Trace.demo deafLabels deafEnd rfl

/-- The full claim fails: the listener is removed and set again while the goroutine is about to end; the scheduler is fair, a message is delivered after that, and
nothing is ever passed to the listener. -/
theorem c111_heard_violated : ∃ r : Run step .init, r.Fair Acts ∧ ∃ n, delivered (r.past n) = [1, 2] ∧ ∀ m, (r.state m).out = [] ∧ (n ≤ m → (r.state m).listener = some 8) := by
  refine ⟨deafRun, demo_fair _ _ _ _ ?_, 13, rfl, ?_⟩
  · rintro ⟨l, ⟨i, rfl⟩, hs⟩
    cases i <;> simp [step, deafEnd, advance] at hs
  · intro m
    rcases Nat.lt_or_ge m 13 with h | h
    · refine ⟨?_, fun h' => absurd h (by omega)⟩
      match m, h with
      | 0, _ | 1, _ | 2, _ | 3, _ | 4, _ | 5, _ | 6, _ | 7, _ | 8, _ | 9, _ | 10, _ | 11, _ | 12, _ => rfl
    · have e : deafRun.state m = deafEnd := demo_rest deafLabels deafEnd rfl m h
      rw [e]
      exact ⟨rfl, fun _ => rfl⟩

/-! ### Any number of receive goroutines -/

/-- Listeners are not nil, and no goroutine has ended. -/
structure Live (s : Sys) : Prop where
  set : s.callers ≠ 0 ∨ s.gs ≠ [] → s.listener ≠ none
  gs : ∀ pc ∈ s.gs, pc ≠ .done ∧ pc ≠ .panicked ∧ pc ≠ .clear
  flag : s.gs = [] → s.flag = false

/-- What a goroutine does while the listeners are not nil. -/
inductive Turn (s s' : Sys) (i : Nat) : PC → PC → Prop
  | mark (hr : s'.rx = s.rx) (ho : s'.out = s.out) : Turn s s' i .start .flag
  | wait (hr : s'.rx = s.rx) (ho : s'.out = s.out) : Turn s s' i .flag .recv
  | take (m : Nat) (hr : s.rx = m :: s'.rx) (ho : s'.out = s.out) : Turn s s' i .recv (.look m)
  | look (m : Nat) (hr : s'.rx = s.rx) (ho : s'.out = s.out) : Turn s s' i (.look m) (.call m)
  | call (l m : Nat) (hr : s'.rx = s.rx) (ho : s'.out = s.out ++ [(l, m)]) : Turn s s' i (.call m) .recv

theorem run_turn {s s' : Sys} {i : Nat} (h : Live s) (hs : step s (.run i) = some s') :
    ∃ pc pc', s.gs[i]? = some pc ∧ s'.gs = s.gs.set i pc' ∧ s'.listener = s.listener ∧ s'.callers = s.callers ∧ Turn s s' i pc pc' := by
  simp only [step] at hs
  split at hs
  · rename_i pc hpc
    have hmem := List.mem_of_getElem? hpc
    have hl := h.set (.inr (List.ne_nil_of_mem hmem))
    have hp := h.gs pc hmem
    cases pc with
    | start =>
      simp only [advance, if_neg hl] at hs
      injection hs with hs; subst hs
      exact ⟨_, _, hpc, rfl, rfl, rfl, .mark rfl rfl⟩
    | flag => injection hs with hs; subst hs; exact ⟨_, _, hpc, rfl, rfl, rfl, .wait rfl rfl⟩
    | recv =>
      simp only [advance] at hs
      split at hs
      · rename_i m rest hr
        injection hs with hs; subst hs
        exact ⟨_, _, hpc, rfl, rfl, rfl, .take m hr rfl⟩
      · simp at hs
    | look m =>
      simp only [advance, if_neg hl] at hs
      injection hs with hs; subst hs
      exact ⟨_, _, hpc, rfl, rfl, rfl, .look m rfl rfl⟩
    | call m =>
      simp only [advance] at hs
      split at hs
      · rename_i l _
        injection hs with hs; subst hs
        exact ⟨_, _, hpc, rfl, rfl, rfl, .call l m rfl rfl⟩
      · rename_i e; exact absurd e hl
    | clear => exact absurd rfl hp.2.2
    | done => exact absurd rfl hp.1
    | panicked => exact absurd rfl hp.2.1
  · simp at hs

theorem Live.step {s s' : Sys} {l : Label} (h : Live s) (hs : step s l = some s') (hn : l ≠ .set none) : Live s' := by
  cases l with
  | deliver m =>
    simp only [Listener.step] at hs
    split at hs
    · injection hs with hs; subst hs; exact ⟨h.set, h.gs, h.flag⟩
    · simp at hs
  | set x =>
    injection hs with hs; subst hs
    exact ⟨fun _ e => hn (by rw [show x = none from e]), h.gs, h.flag⟩
  | spawn =>
    simp only [Listener.step] at hs
    split at hs
    · simp at hs
    · rename_i hc
      have hl := h.set (.inl hc)
      split at hs <;> injection hs with hs <;> subst hs
      · exact ⟨fun _ => hl, h.gs, h.flag⟩
      · refine ⟨fun _ => hl, fun pc hpc => ?_, fun e => absurd e (by simp)⟩
        rcases List.mem_append.1 hpc with hpc | hpc
        · exact h.gs pc hpc
        · rw [List.mem_singleton] at hpc; subst hpc; simp
  | run i =>
    obtain ⟨pc, pc', h1, h2, h3, h4, ht⟩ := run_turn h hs
    have hne : s.gs ≠ [] := List.ne_nil_of_mem (List.mem_of_getElem? h1)
    refine ⟨fun _ => ?_, fun p hp => ?_, fun e => ?_⟩
    · rw [h3]; exact h.set (.inr hne)
    · rw [h2] at hp
      rcases List.mem_or_eq_of_mem_set hp with hp | rfl
      · exact h.gs p hp
      · cases ht <;> simp
    · rw [h2] at e
      exact absurd (by simpa using e) hne

/-- Steps a goroutine makes before it takes the next message. -/
def PC.dist : PC → Nat
  | .start => 2
  | .flag => 1
  | .look _ => 2
  | .call _ => 1
  | _ => 0

/-- Steps of the first goroutine after which the first `x` on the channel is taken, at the latest. -/
def Sys.rem (x : Nat) (s : Sys) : Nat := 3 * s.rx.idxOf x + (s.gs[0]?.map PC.dist).getD 0

theorem idxOf_tail {m x : Nat} {rest : List Nat} (h : m ≠ x) : (m :: rest).idxOf x = rest.idxOf x + 1 := by
  rw [List.idxOf_cons, show (m == x) = false by simpa using h]; rfl

theorem rem_step {s s' : Sys} {l : Label} {x : Nat} (h : Live s) (hg : s.gs ≠ []) (hx : x ∈ s.rx) (hs : step s l = some s') (hx' : x ∉ s'.inflight) :
    s'.rem x ≤ s.rem x ∧ (l = .run 0 → s'.rem x < s.rem x) := by
  cases l with
  | deliver m =>
    simp only [step] at hs
    split at hs
    · injection hs with hs; subst hs
      refine ⟨?_, fun e => by cases e⟩
      simp only [Sys.rem]
      rw [List.idxOf_append, if_pos hx]
      exact Nat.le_refl _
    · simp at hs
  | set y => injection hs with hs; subst hs; exact ⟨Nat.le_refl _, fun e => by cases e⟩
  | spawn =>
    simp only [step] at hs
    split at hs
    · simp at hs
    · refine ⟨?_, fun e => by cases e⟩
      split at hs <;> injection hs with hs <;> subst hs
      · exact Nat.le_refl _
      · simp only [Sys.rem]
        rw [List.getElem?_append_left (List.length_pos_iff.2 hg)]
        exact Nat.le_refl _
  | run i =>
    obtain ⟨pc, pc', h1, h2, _, _, ht⟩ := run_turn h hs
    have hi : i < s.gs.length := (List.getElem?_eq_some_iff.1 h1).1
    have hheld : ∀ m, pc' = .look m → m ≠ x := by
      rintro m rfl rfl
      exact hx' (List.mem_flatMap.2 ⟨.look m, by rw [h2]; exact List.mem_set hi _, by simp [PC.held]⟩)
    have hrx : s'.rx.idxOf x + (if pc = .recv then 1 else 0) = s.rx.idxOf x := by
      cases ht with
      | take m hr ho => rw [hr, idxOf_tail (hheld m rfl)]; rfl
      | mark hr ho => rw [hr]; rfl
      | wait hr ho => rw [hr]; rfl
      | look m hr ho => rw [hr]; rfl
      | call l m hr ho => rw [hr]; rfl
    simp only [Sys.rem]
    by_cases e : i = 0
    · subst e
      have e1 : s'.gs[0]? = some pc' := by rw [h2, List.getElem?_set_self hi]
      rw [e1, h1]
      simp only [Option.map_some, Option.getD_some]
      cases ht <;> simp [PC.dist] at hrx ⊢ <;> omega
    · have e1 : s'.gs[0]? = s.gs[0]? := by rw [h2, List.getElem?_set_ne e]
      rw [e1]
      exact ⟨by omega, fun h => by injection h with h; exact absurd h e⟩

/-- C111, listeners, part, for any number of receive goroutines: if no caller passes nil and the scheduler is fair to each of them, every message delivered to the endpoint is
passed to a listener in the end (once: `c43_exactly_once_partial`).  Missing: nil listeners (`c111_heard_violated`). -/
theorem c111_heard_any_partial (r : Run step .init) (hf : ∀ i, r.Fair (· = .run i)) (hn : ∀ n, r.label n ≠ some (.set none))
    (a : Nat) (ha : r.label a = some .spawn) (n x : Nat) (hx : x ∈ delivered (r.past n)) :
    ∃ m, n ≤ m ∧ x ∈ (r.state m).out.map Prod.snd := by
  have hlive : ∀ k, Live (r.state k) := fun k =>
    r.keeps Live 0 (by rw [r.start]; exact ⟨fun h => by simp [Sys.init] at h, fun pc h => by simp [Sys.init] at h, fun _ => rfl⟩)
      (fun m l _ hl h hs => h.step hs fun e => hn m (by rw [hl, e])) k (Nat.zero_le _)
  have hgs : ∀ k, a + 1 ≤ k → (r.state k).gs ≠ [] := by
    refine r.keeps (fun s => s.gs ≠ []) (a + 1) ?_ ?_
    · rcases r.next a with ⟨h1, _⟩ | ⟨l, h1, h2⟩
      · rw [h1] at ha; cases ha
      · rw [h1] at ha; injection ha with ha; subst ha
        simp only [step] at h2
        split at h2
        · simp at h2
        · split at h2 <;> injection h2 with h2 <;> rw [← h2]
          · rename_i hfl
            intro e
            rw [(hlive a).flag e] at hfl
            cases hfl
          · simp
    · intro m l _ _ hk hs
      cases l with
      | deliver m =>
        simp only [step] at hs
        split at hs
        · injection hs with hs; rw [← hs]; exact hk
        · simp at hs
      | set y => injection hs with hs; rw [← hs]; exact hk
      | spawn =>
        simp only [step] at hs
        split at hs
        · simp at hs
        · split at hs <;> injection hs with hs <;> rw [← hs]
          · exact hk
          · simp
      | run i =>
        obtain ⟨pc, pc', _, h2, _⟩ := run_turn (hlive m) hs
        rw [h2]; simpa using hk
  have hwhere : ∀ k, n ≤ k → x ∈ (r.state k).out.map Prod.snd ∨ x ∈ (r.state k).inflight ∨ x ∈ (r.state k).rx := by
    intro k hk
    have h1 := (c43_exactly_once_partial (r.past k) (r.state k) (r.exec_past k) fun h => by
      obtain ⟨m, _, hm⟩ := r.mem_past h
      exact hn m hm).2.2
    obtain ⟨t, ht⟩ := r.past_pre hk
    have h2 : x ∈ delivered (r.past k) := by rw [← ht, delivered_append]; exact List.mem_append_left _ hx
    have := h1.mem_iff.2 h2
    simpa [or_assoc] using this
  -- it is taken from the channel
  obtain ⟨k, hk, htaken⟩ := r.descends (· = .run 0) (hf 0) (Sys.rem x)
    (fun k => x ∈ (r.state k).out.map Prod.snd ∨ x ∈ (r.state k).inflight) (max n (a + 1))
    (by
      intro k l hk h1 h2 _ hs
      have hrx : x ∈ (r.state k).rx := ((hwhere k (by omega)).resolve_left fun h => h1 (.inl h)).resolve_left fun h => h1 (.inr h)
      exact rem_step (hlive k) (hgs k (by omega)) hrx hs fun h => h2 (.inr h))
    (by
      intro k hk h1
      have hrx : x ∈ (r.state k).rx := ((hwhere k (by omega)).resolve_left fun h => h1 (.inl h)).resolve_left fun h => h1 (.inr h)
      refine ⟨.run 0, rfl, ?_⟩
      have hne := hgs k (by omega)
      have hl := (hlive k).set (.inr hne)
      cases hg : (r.state k).gs with
      | nil => exact absurd hg hne
      | cons pc rest =>
        have hp := (hlive k).gs pc (by rw [hg]; exact List.mem_cons_self)
        cases pc with
        | start => simp [step, hg, advance, hl]
        | flag => simp [step, hg, advance]
        | recv =>
          cases hr : (r.state k).rx with
          | nil => rw [hr] at hrx; cases hrx
          | cons m rest => simp [step, hg, advance, hr]
        | look m => simp [step, hg, advance, hl]
        | call m =>
          cases h : (r.state k).listener with
          | none => exact absurd h hl
          | some y => simp [step, hg, advance, h]
        | clear => exact absurd rfl hp.2.2
        | done => exact absurd rfl hp.1
        | panicked => exact absurd rfl hp.2.1)
  rcases htaken with h | hheld
  · exact ⟨k, by omega, h⟩
  -- and passed on by the goroutine that holds it
  obtain ⟨pc, hpc, hxp⟩ := List.mem_flatMap.1 hheld
  obtain ⟨i, hi⟩ := List.mem_iff_getElem?.1 hpc
  have hstay : ∀ j, k ≤ j → x ∈ (r.state j).out.map Prod.snd ∨ (r.state j).gs[i]? = some (.look x) ∨ (r.state j).gs[i]? = some (.call x) := by
    refine r.keeps (fun s => x ∈ s.out.map Prod.snd ∨ s.gs[i]? = some (.look x) ∨ s.gs[i]? = some (.call x)) k (.inr ?_) ?_
    · cases pc with
      | look m => simp only [PC.held, List.mem_singleton] at hxp; subst hxp; exact .inl hi
      | call m => simp only [PC.held, List.mem_singleton] at hxp; subst hxp; exact .inr hi
      | _ => simp [PC.held] at hxp
    · intro j l _ _ hj hs
      cases l with
      | deliver m =>
        simp only [step] at hs
        split at hs
        · injection hs with hs; rw [← hs]; exact hj
        · simp at hs
      | set y => injection hs with hs; rw [← hs]; exact hj
      | spawn =>
        simp only [step] at hs
        split at hs
        · simp at hs
        · split at hs <;> injection hs with hs <;> rw [← hs]
          · exact hj
          · refine hj.imp id (Or.imp (fun e => ?_) fun e => ?_)
            all_goals
              show ((r.state j).gs ++ [PC.start])[i]? = _
              rw [List.getElem?_append_left (List.getElem?_eq_some_iff.1 e).1]; exact e
      | run i' =>
        obtain ⟨p, p', h1, h2, _, _, ht⟩ := run_turn (hlive j) hs
        have hi' : i' < (r.state j).gs.length := (List.getElem?_eq_some_iff.1 h1).1
        have hout : x ∈ (r.state j).out.map Prod.snd → x ∈ (r.state (j + 1)).out.map Prod.snd := by
          intro h
          cases ht with
          | call l m hr ho => rw [ho, List.map_append]; exact List.mem_append_left _ h
          | take m hr ho => rw [ho]; exact h
          | mark hr ho => rw [ho]; exact h
          | wait hr ho => rw [ho]; exact h
          | look m hr ho => rw [ho]; exact h
        rcases hj with hj | hj
        · exact .inl (hout hj)
        · by_cases e : i' = i
          · subst e
            rw [h1] at hj
            have e1 : (r.state (j + 1)).gs[i']? = some p' := by rw [h2, List.getElem?_set_self hi']
            rcases hj with hj | hj
            · injection hj with hj; subst hj
              cases ht with
              | look m hr ho => exact .inr (.inr e1)
            · injection hj with hj; subst hj
              cases ht with
              | call l m hr ho => exact .inl (by rw [ho]; simp)
          · have e1 : (r.state (j + 1)).gs[i]? = (r.state j).gs[i]? := by rw [h2, List.getElem?_set_ne e]
            rw [e1]; exact .inr hj
  obtain ⟨m, hm, hdone⟩ := r.descends (· = .run i) (hf i) (fun s => (s.gs[i]?.map PC.dist).getD 0) (fun j => x ∈ (r.state j).out.map Prod.snd) k
    (by
      intro j l hj h1 h2 _ hs
      have hold := (hstay j hj).resolve_left h1
      have hnew := (hstay (j + 1) (by omega)).resolve_left h2
      cases l with
      | run i' =>
        obtain ⟨p, p', e1, e2, _, _, ht⟩ := run_turn (hlive j) hs
        have hi' : i' < (r.state j).gs.length := (List.getElem?_eq_some_iff.1 e1).1
        by_cases e : i' = i
        · subst e
          have e3 : (r.state (j + 1)).gs[i']? = some p' := by rw [e2, List.getElem?_set_self hi']
          rw [e3, e1]
          rw [e1] at hold
          rw [e3] at hnew
          rcases hold with hold | hold <;> injection hold with hold <;> subst hold
          · cases ht with
            | look m hr ho => simp [PC.dist]
          · cases ht with
            | call l m hr ho => rcases hnew with h | h <;> cases h
        · have e3 : (r.state (j + 1)).gs[i]? = (r.state j).gs[i]? := by rw [e2, List.getElem?_set_ne e]
          rw [e3]
          exact ⟨Nat.le_refl _, fun h => by injection h with h; exact absurd h e⟩
      | deliver m =>
        simp only [step] at hs
        split at hs
        · injection hs with hs; rw [← hs]; exact ⟨Nat.le_refl _, fun h => by cases h⟩
        · simp at hs
      | set y => injection hs with hs; rw [← hs]; exact ⟨Nat.le_refl _, fun h => by cases h⟩
      | spawn =>
        simp only [step] at hs
        split at hs
        · simp at hs
        · split at hs <;> injection hs with hs <;> rw [← hs]
          · exact ⟨Nat.le_refl _, fun h => by cases h⟩
          · refine ⟨?_, fun h => by cases h⟩
            have hlt : i < (r.state j).gs.length := by
              rcases hold with h | h
              · exact (List.getElem?_eq_some_iff.1 h).1
              · exact (List.getElem?_eq_some_iff.1 h).1
            show (((r.state j).gs ++ [PC.start])[i]?.map PC.dist).getD 0 ≤ _
            rw [List.getElem?_append_left hlt]
            exact Nat.le_refl _)
    (by
      intro j hj h1
      refine ⟨.run i, rfl, ?_⟩
      rcases (hstay j hj).resolve_left h1 with h | h
      · have hl := (hlive j).set (.inr (List.ne_nil_of_mem (List.mem_of_getElem? h)))
        simp [step, h, advance, hl]
      · have hl := (hlive j).set (.inr (List.ne_nil_of_mem (List.mem_of_getElem? h)))
        cases e : (r.state j).listener with
        | none => exact absurd e hl
        | some y => simp [step, h, advance, e])
  exact ⟨m, by omega, hdone⟩

/-- Two calls of `SetDataListener` start two goroutines; both get a message. -/
def pairLabels : List Label := [.set (some 7), .spawn, .set (some 8), .spawn, .run 0, .run 0, .run 1, .run 1, .deliver 1, .deliver 2, .run 0, .run 1, .run 1, .run 1, .run 0, .run 0]

def pairEnd : Sys := ⟨[], some 8, true, 0, [.recv, .recv], [(8, 2), (8, 1)], []⟩

def pairRun : Run step .init := Trace.demo pairLabels pairEnd rfl

example : ∃ m, 10 ≤ m ∧ 1 ∈ (pairRun.state m).out.map Prod.snd :=
  c111_heard_any_partial pairRun
    (fun i => demo_fair _ _ _ _ (by
      rintro ⟨l, rfl, hs⟩
      match i with
      | 0 => simp [step, pairEnd, advance] at hs
      | 1 => simp [step, pairEnd, advance] at hs
      | i + 2 => simp [step, pairEnd] at hs))
    (fun n h => absurd (List.mem_of_getElem? (show pairLabels[n]? = some (.set none) from h)) (by decide)) 1 rfl 10 1 (by decide)

end Verif.Reg.Listener
