import Verif.Reg.Listener

/-!
# C43, exactly

With a listener set and nobody calling `SetDataListener` any more: from which states every message is passed on in every
schedule, and from which states in order.
-/

namespace Verif.Reg.Listener

open Verif.Trace

/-- A goroutine that will take messages for the listener: it has not decided to end. -/
def PC.live : PC → Bool
  | .start | .flag | .recv | .look _ | .call _ => true
  | _ => false

theorem held_of_not_live {pc : PC} (h : pc.live = false) : pc.held = [] := by
  cases pc <;> simp_all [PC.live, PC.held]

/-- One step of a goroutine while a listener is set. -/
theorem advance_set {s s' : Sys} {i l : Nat} {pc : PC} (hl : s.listener = some l) (h : advance s i pc = some s') :
    ∃ pc', s'.gs = s.gs.set i pc' ∧ s'.listener = some l ∧ s'.callers = s.callers ∧ s'.dropped = s.dropped ∧ pc'.live = pc.live ∧
      pc' ≠ .clear ∧ (s'.flag = s.flag ∨ (s'.flag = true ∧ pc.live = true) ∨ (s'.flag = false ∧ pc = .clear)) := by
  cases pc with
  | start =>
    simp only [advance, hl] at h
    injection h with h; subst h
    exact ⟨.flag, rfl, hl, rfl, rfl, rfl, by simp, .inl rfl⟩
  | flag => injection h with h; subst h; exact ⟨.recv, rfl, hl, rfl, rfl, rfl, by simp, .inr (.inl ⟨rfl, rfl⟩)⟩
  | recv =>
    simp only [advance] at h
    split at h
    · rename_i m rest _
      injection h with h; subst h; exact ⟨.look m, rfl, hl, rfl, rfl, rfl, by simp, .inl rfl⟩
    · simp at h
  | look m =>
    simp only [advance, hl] at h
    injection h with h; subst h
    exact ⟨.call m, rfl, hl, rfl, rfl, rfl, by simp, .inl rfl⟩
  | clear => injection h with h; subst h; exact ⟨.done, rfl, hl, rfl, rfl, rfl, by simp, .inr (.inr ⟨rfl, rfl⟩)⟩
  | call m =>
    simp only [advance, hl] at h
    injection h with h; subst h
    exact ⟨.recv, rfl, hl, rfl, rfl, rfl, by simp, .inl rfl⟩
  | done => simp [advance] at h
  | panicked => simp [advance] at h

theorem exec_run {s s1 : Sys} {i : Nat} {pc : PC} (h : s.gs[i]? = some pc) (ha : advance s i pc = some s1) (ls : List Label) :
    exec s (.run i :: ls) = exec s1 ls := by
  show (step s (.run i)).bind _ = _
  simp only [step, h, ha, Option.bind_some]

theorem mv_recv {s : Sys} {i m : Nat} {rest : List Nat} (h : s.gs[i]? = some .recv) (hr : s.rx = m :: rest) (ls : List Label) :
    exec s (.run i :: ls) = exec { s with gs := s.gs.set i (.look m), rx := rest } ls :=
  exec_run h (by simp only [advance, hr]; rfl) ls

theorem mv_look {s : Sys} {i m l : Nat} (h : s.gs[i]? = some (.look m)) (hl : s.listener = some l) (ls : List Label) :
    exec s (.run i :: ls) = exec { s with gs := s.gs.set i (.call m) } ls :=
  exec_run h (by simp only [advance, hl]; cases s; simp_all [Sys.setPC]) ls

theorem mv_call {s : Sys} {i m l : Nat} (h : s.gs[i]? = some (.call m)) (hl : s.listener = some l) (ls : List Label) :
    exec s (.run i :: ls) = exec { s with gs := s.gs.set i .recv, out := s.out ++ [(l, m)] } ls :=
  exec_run h (by simp only [advance, hl]; cases s; simp_all [Sys.setPC]) ls

theorem mv_start {s : Sys} {i l : Nat} (h : s.gs[i]? = some .start) (hl : s.listener = some l) (ls : List Label) :
    exec s (.run i :: ls) = exec { s with gs := s.gs.set i .flag } ls :=
  exec_run h (by simp only [advance, hl]; cases s; simp_all [Sys.setPC]) ls

theorem mv_flag {s : Sys} {i : Nat} (h : s.gs[i]? = some .flag) (ls : List Label) :
    exec s (.run i :: ls) = exec { s with gs := s.gs.set i .recv, flag := true } ls :=
  exec_run h rfl ls

theorem set_same {gs : List PC} {i : Nat} {pc : PC} (h : gs[i]? = some pc) : gs.set i pc = gs := by
  obtain ⟨h1, h2⟩ := List.getElem?_eq_some_iff.mp h
  conv => rhs; rw [← List.set_getElem_self h1]
  rw [h2]

/-! ## Every message is passed on -/

/-- Some goroutine takes messages, or a caller is bound to start one. -/
def Secure (s : Sys) : Prop := (∃ (i : Nat) (pc : PC), s.gs[i]? = some pc ∧ pc.live = true) ∨ (s.callers ≠ 0 ∧ s.flag = false)

theorem secure_step {s s' : Sys} {l : Nat} {lb : Label} (hl : s.listener = some l) (h : Secure s) (hq : ∀ x, lb ≠ .set x)
    (hs : step s lb = some s') : s'.listener = some l ∧ Secure s' := by
  cases lb with
  | deliver x =>
    simp only [step] at hs
    split at hs
    · injection hs with hs; subst hs; exact ⟨hl, h⟩
    · simp at hs
  | set x => exact absurd rfl (hq x)
  | spawn =>
    simp only [step] at hs
    split at hs
    · simp at hs
    · split at hs <;> injection hs with hs <;> subst hs
      · rename_i hf
        refine ⟨hl, ?_⟩
        rcases h with h | ⟨_, h⟩
        · exact .inl h
        · rw [hf] at h; simp at h
      · exact ⟨hl, .inl ⟨s.gs.length, .start, by simp, rfl⟩⟩
  | run i =>
    simp only [step] at hs
    split at hs
    · rename_i pc hpc
      obtain ⟨pc', hgs, h1, h2, _, h3, _, h4⟩ := advance_set hl hs
      refine ⟨h1, ?_⟩
      have hi : i < s.gs.length := (List.getElem?_eq_some_iff.mp hpc).1
      by_cases hlive : pc.live = true
      · exact .inl ⟨i, pc', by rw [hgs, List.getElem?_set_self hi], by rw [h3, hlive]⟩
      · rcases h with ⟨j, q, hq1, hq2⟩ | ⟨ha, hb⟩
        · have hij : i ≠ j := by
            intro e; subst e; rw [hpc] at hq1; injection hq1 with e; subst e; exact hlive hq2
          exact .inl ⟨j, q, by rw [hgs, List.getElem?_set_ne hij]; exact hq1, hq2⟩
        · refine .inr ⟨by rw [h2]; exact ha, ?_⟩
          rcases h4 with h4 | ⟨_, h4⟩ | ⟨h4, _⟩
          · rw [h4, hb]
          · exact absurd h4 hlive
          · exact h4
    · simp at hs

/-- The steps of a goroutine waiting for the channel. -/
theorem run_recv (l : Nat) (rx : List Nat) : ∀ (s : Sys) (i : Nat), s.gs[i]? = some .recv → s.listener = some l → s.rx = rx →
    exec s (List.replicate (3 * rx.length) (.run i)) = some { s with rx := [], out := s.out ++ rx.map fun m => (l, m) } := by
  induction rx with
  | nil =>
    intro s i _ _ h
    cases s
    simp only at h
    subst h
    simp [exec, Trace.exec]
  | cons m rx ih =>
    intro s i hg hl hr
    have hi : i < s.gs.length := (List.getElem?_eq_some_iff.mp hg).1
    have h3 : exec s [.run i, .run i, .run i] = some { s with rx := rx, out := s.out ++ [(l, m)] } := by
      refine (mv_recv hg hr _).trans ((mv_look (l := l) (m := m) (by simp [hi]) (by exact hl) _).trans
        ((mv_call (l := l) (m := m) (by simp [hi]) (by exact hl) _).trans ?_))
      simp [exec, Trace.exec, set_same hg]
    have hsplit : List.replicate (3 * (m :: rx).length) (Label.run i) = [.run i, .run i, .run i] ++ List.replicate (3 * rx.length) (.run i) := by
      rw [List.length_cons, Nat.mul_add, Nat.add_comm, ← List.replicate_append_replicate]; rfl
    rw [hsplit, exec, exec_append]
    show (exec s [.run i, .run i, .run i]).bind _ = _
    rw [h3, Option.bind_some]
    exact (ih { s with rx := rx, out := s.out ++ [(l, m)] } i hg hl rfl).trans (by simp)

/-- A live goroutine gets to the channel, passing on what it holds. -/
theorem run_to_recv (l : Nat) (s : Sys) (i : Nat) (pc : PC) (hg : s.gs[i]? = some pc) (hlive : pc.live = true) (hl : s.listener = some l) :
    ∃ k s', exec s (List.replicate k (.run i)) = some s' ∧ s'.gs = s.gs.set i .recv ∧ s'.listener = some l ∧ s'.rx = s.rx ∧
      s'.out = s.out ++ pc.held.map fun m => (l, m) := by
  have hi : i < s.gs.length := (List.getElem?_eq_some_iff.mp hg).1
  cases pc with
  | start =>
    exact ⟨2, { s with gs := s.gs.set i .recv, flag := true }, by
      show exec s [.run i, .run i] = _
      refine (mv_start hg hl _).trans ((mv_flag (by simp [hi]) _).trans ?_)
      simp [exec, Trace.exec], rfl, hl, rfl, by simp [PC.held]⟩
  | flag => exact ⟨1, { s with gs := s.gs.set i .recv, flag := true }, mv_flag hg [], rfl, hl, rfl, by simp [PC.held]⟩
  | recv => exact ⟨0, s, rfl, (set_same hg).symm, hl, rfl, by simp [PC.held]⟩
  | look m =>
    exact ⟨2, { s with gs := s.gs.set i .recv, out := s.out ++ [(l, m)] }, by
      show exec s [.run i, .run i] = _
      refine (mv_look hg hl _).trans ((mv_call (l := l) (m := m) (by simp [hi]) (by exact hl) _).trans ?_)
      simp [exec, Trace.exec], rfl, hl, rfl, by simp [PC.held]⟩
  | call m => exact ⟨1, { s with gs := s.gs.set i .recv, out := s.out ++ [(l, m)] }, mv_call hg hl [], rfl, hl, rfl, by simp [PC.held]⟩
  | clear => cases hlive
  | done => cases hlive
  | panicked => cases hlive

/-- A live goroutine passes on everything on the channel. -/
theorem run_all (l : Nat) (s : Sys) (i : Nat) (pc : PC) (hg : s.gs[i]? = some pc) (hlive : pc.live = true) (hl : s.listener = some l) :
    ∃ k s', exec s (List.replicate k (.run i)) = some s' ∧ s'.gs = s.gs.set i .recv ∧ s'.listener = some l ∧ s'.rx = [] ∧
      s'.out = s.out ++ (pc.held ++ s.rx).map fun m => (l, m) := by
  obtain ⟨k, s1, h1, h2, h3, h4, h5⟩ := run_to_recv l s i pc hg hlive hl
  have hi : i < s.gs.length := (List.getElem?_eq_some_iff.mp hg).1
  have h6 := run_recv l s1.rx s1 i (by rw [h2, List.getElem?_set_self hi]) h3 rfl
  refine ⟨k + 3 * s1.rx.length, { s1 with rx := [], out := s1.out ++ s1.rx.map fun m => (l, m) }, ?_, ?_, ?_, ?_, ?_⟩
  · rw [← List.replicate_append_replicate, exec, exec_append, show Trace.exec step s _ = _ from h1, Option.bind_some]
    exact h6
  · exact h2
  · exact h3
  · rfl
  · simp only [h5, h4, List.map_append, List.append_assoc]

/-- No goroutine, and nobody to start one. -/
def Deserted (s : Sys) : Prop := s.callers = 0 ∧ ∀ pc ∈ s.gs, pc.live = false

theorem deserted_step {s s' : Sys} {l : Nat} {lb : Label} (hl : s.listener = some l) (h : Deserted s) (hq : ∀ x, lb ≠ .set x)
    (hs : step s lb = some s') : s'.listener = some l ∧ Deserted s' ∧ (s.rx ≠ [] → s'.rx ≠ []) := by
  obtain ⟨h1, h2⟩ := h
  cases lb with
  | deliver x =>
    simp only [step] at hs
    split at hs
    · injection hs with hs; subst hs; exact ⟨hl, ⟨h1, h2⟩, fun _ => by simp⟩
    · simp at hs
  | set x => exact absurd rfl (hq x)
  | spawn => simp [step, h1] at hs
  | run i =>
    simp only [step] at hs
    split at hs
    · rename_i pc hpc
      have hnl := h2 pc (List.mem_of_getElem? hpc)
      cases pc with
      | clear =>
        injection hs with hs; subst hs
        refine ⟨hl, ⟨h1, fun q hq => ?_⟩, id⟩
        rcases List.mem_or_eq_of_mem_set hq with hq | hq
        · exact h2 q hq
        · subst hq; rfl
      | done => simp [advance] at hs
      | panicked => simp [advance] at hs
      | _ => cases hnl
    · simp at hs

theorem spawn_flagged (n : Nat) : ∀ s : Sys, s.callers = n → s.flag = true → exec s (List.replicate n .spawn) = some { s with callers := 0 } := by
  induction n with
  | zero => intro s h _; cases s; simp only at h; subst h; rfl
  | succ n ih =>
    intro s h hf
    rw [List.replicate_succ]
    have hst : step s .spawn = some { s with callers := n } := by
      cases s; simp_all [step]
    show (step s .spawn).bind _ = _
    rw [hst]
    exact ih { s with callers := n } rfl hf

/-- C43, first clause, exactly.  With a listener set and `SetDataListener` not called again, in every schedule everything on the channel
can still be passed to the listener (by steps of the goroutines alone) if and only if some goroutine has not decided to end, or a caller
of `SetDataListener` is about to look at a flag that is clear. -/
theorem c43_served_iff (s : Sys) (l : Nat) (hl : s.listener = some l) :
    (∀ ls s', (∀ x, .set x ∉ ls) → exec s ls = some s' → ∃ ls' s'', (∀ lb ∈ ls', lb = .spawn ∨ ∃ i, lb = .run i) ∧ exec s' ls' = some s'' ∧
      s''.rx = [] ∧ ∃ h, s''.out = s'.out ++ (h ++ s'.rx).map fun m => (l, m)) ↔ Secure s := by
  constructor
  · intro h
    apply Classical.byContradiction
    intro hns
    have hnolive : ∀ pc ∈ s.gs, pc.live = false := by
      intro pc hpc
      cases hb : pc.live with
      | false => rfl
      | true =>
        obtain ⟨i, hi⟩ := List.getElem?_of_mem hpc
        exact absurd (Or.inl ⟨i, pc, hi, hb⟩) hns
    have hfl : s.callers = 0 ∨ s.flag = true := by
      cases hf : s.flag with
      | true => exact .inr rfl
      | false =>
        refine .inl (Classical.byContradiction fun hc => hns (.inr ⟨hc, hf⟩))
    -- nobody left
    obtain ⟨ls1, m1, e1, n1, d1, l1, r1⟩ : ∃ ls m, exec s ls = some m ∧ (∀ x, .set x ∉ ls) ∧ Deserted m ∧ m.listener = some l ∧ m.rx = s.rx := by
      rcases hfl with hc | hf
      · exact ⟨[], s, rfl, by simp, ⟨hc, hnolive⟩, hl, rfl⟩
      · exact ⟨_, _, spawn_flagged _ s rfl hf, fun x hx => by have := List.eq_of_mem_replicate hx; simp at this, ⟨rfl, hnolive⟩, hl, rfl⟩
    -- something on the channel
    obtain ⟨ls2, m2, e2, n2, d2, l2, r2⟩ : ∃ ls m, exec m1 ls = some m ∧ (∀ x, .set x ∉ ls) ∧ Deserted m ∧ m.listener = some l ∧ m.rx ≠ [] := by
      by_cases hr : m1.rx = []
      · exact ⟨[.deliver 0], { m1 with rx := [0] }, by simp [exec, Trace.exec, step, hr], by simp, d1, l1, by simp⟩
      · exact ⟨[], m1, rfl, by simp, d1, l1, hr⟩
    obtain ⟨ls3, s3, g1, g2, g3, _⟩ := h (ls1 ++ ls2) m2 (by
        intro x hx
        rcases List.mem_append.mp hx with hx | hx
        · exact n1 x hx
        · exact n2 x hx) (by
        show Trace.exec step _ _ = _
        rw [exec_append, show Trace.exec step s ls1 = _ from e1]; exact e2)
    have := invariant (step := step) (P := fun t => t.listener = some l ∧ Deserted t ∧ t.rx ≠ []) (Q := fun lb => ∀ x, lb ≠ .set x)
      (by
        rintro t lb t' ⟨a1, a2, a3⟩ hq hs
        obtain ⟨b1, b2, b3⟩ := deserted_step a1 a2 hq hs
        exact ⟨b1, b2, b3 a3⟩) ls3 m2 s3 ⟨l2, d2, r2⟩ (by
        intro lb hlb x hx
        rcases g1 lb hlb with g | ⟨i, g⟩ <;> rw [g] at hx <;> simp at hx) g2
    exact this.2.2 g3
  · intro h ls s' hn he
    obtain ⟨hl', hsec⟩ := invariant (step := step) (P := fun t => t.listener = some l ∧ Secure t) (Q := fun lb => ∀ x, lb ≠ .set x)
      (fun t lb t' ⟨a1, a2⟩ hq hs => secure_step a1 a2 hq hs) ls s s' ⟨hl, h⟩ (fun lb hlb x hx => hn x (hx ▸ hlb)) he
    have hrep : ∀ k i, ∀ lb ∈ List.replicate k (Label.run i), lb = .spawn ∨ ∃ i, lb = .run i :=
      fun k i lb hlb => .inr ⟨i, List.eq_of_mem_replicate hlb⟩
    rcases hsec with ⟨i, pc, hg, hlive⟩ | ⟨hc, hf⟩
    · obtain ⟨k, s'', a1, _, _, a4, a5⟩ := run_all l s' i pc hg hlive hl'
      exact ⟨_, s'', hrep k i, a1, a4, _, a5⟩
    · have hsp : step s' .spawn = some { s' with callers := s'.callers - 1, gs := s'.gs ++ [.start] } := by
        simp only [step, hf]; rw [if_neg hc]; rfl
      obtain ⟨k, s'', a1, _, _, a4, a5⟩ := run_all l { s' with callers := s'.callers - 1, gs := s'.gs ++ [.start] } s'.gs.length .start
        (by simp) rfl hl'
      refine ⟨.spawn :: List.replicate k (.run s'.gs.length), s'', ?_, ?_, a4, _, a5⟩
      · intro lb hlb
        rcases List.mem_cons.mp hlb with e | hlb
        · exact .inl e
        · exact hrep _ _ lb hlb
      · show (step s' .spawn).bind _ = _
        rw [hsp]; exact a1

/-- A listener set while the goroutine runs: served. -/
example : Secure ⟨[3], some 8, true, 0, [.done, .look 2], [(7, 1)], []⟩ := .inl ⟨1, .look 2, rfl, rfl⟩

/-- The state of `c43_lost_wakeup`: not served. -/
example : ¬ Secure ⟨[], some 8, true, 1, [.clear], [], [1]⟩ := by
  rintro (⟨i, pc, h1, h2⟩ | ⟨_, h⟩)
  · cases i with
    | zero => simp at h1; subst h1; cases h2
    | succ i => simp at h1
  · cases h

/-! ## In order -/

/-- The goroutines that can take messages at the same time: those there are, and those the callers can start. -/
def Sys.workers (s : Sys) : Nat := s.gs.countP PC.live + (if s.flag = false ∨ .clear ∈ s.gs then s.callers else 0)

/-- Since `s`, the listeners were passed the messages in the order in which they were delivered: what they got, what the goroutines hold
and what is on the channel is what was held and on the channel, and what was delivered. -/
def InOrder (s : Sys) (ls : List Label) (s' : Sys) : Prop :=
  ∃ x, s'.out.map Prod.snd = s.out.map Prod.snd ++ x ∧ x ++ s'.inflight ++ s'.rx = s.inflight ++ s.rx ++ delivered ls

theorem countP_set {p : PC → Bool} : ∀ (gs : List PC) (i : Nat) (a b : PC), gs[i]? = some a → p b = p a → (gs.set i b).countP p = gs.countP p
  | [], i, a, b, h, _ => by simp at h
  | x :: gs, 0, a, b, h, hp => by
    simp only [List.getElem?_cons_zero, Option.some.injEq] at h; subst h
    simp [List.countP_cons, hp]
  | x :: gs, i + 1, a, b, h, hp => by
    simp only [List.getElem?_cons_succ] at h
    rw [List.set_cons_succ, List.countP_cons, List.countP_cons, countP_set gs i a b h hp]

theorem workers_step {s s' : Sys} {l : Nat} {lb : Label} (hl : s.listener = some l) (hq : ∀ x, lb ≠ .set x) (hs : step s lb = some s') :
    s'.listener = some l ∧ s'.workers ≤ s.workers := by
  cases lb with
  | deliver x =>
    simp only [step] at hs
    split at hs
    · injection hs with hs; subst hs; exact ⟨hl, Nat.le_refl _⟩
    · simp at hs
  | set x => exact absurd rfl (hq x)
  | spawn =>
    simp only [step] at hs
    split at hs
    · simp at hs
    · split at hs <;> injection hs with hs <;> subst hs
      · refine ⟨hl, ?_⟩
        simp only [Sys.workers]
        split <;> omega
      · rename_i hc hf
        refine ⟨hl, ?_⟩
        have hf : s.flag = false := by simpa using hf
        simp only [Sys.workers, List.countP_append, hf, true_or, if_true, List.countP_cons, List.countP_nil, PC.live]
        omega
  | run i =>
    simp only [step] at hs
    split at hs
    · rename_i pc hpc
      obtain ⟨pc', hgs, h1, h2, _, h3, h5, h4⟩ := advance_set hl hs
      refine ⟨h1, ?_⟩
      simp only [Sys.workers, hgs, countP_set s.gs i pc pc' hpc h3, h2]
      by_cases ha : s'.flag = false ∨ .clear ∈ s.gs.set i pc'
      · rw [if_pos ha, if_pos]
        · exact Nat.le_refl _
        · rcases ha with ha | ha
          · rcases h4 with h4 | ⟨h4, _⟩ | ⟨_, h4⟩
            · exact .inl (by rw [← h4]; exact ha)
            · rw [ha] at h4; simp at h4
            · exact .inr (h4 ▸ List.mem_of_getElem? hpc)
          · rcases List.mem_or_eq_of_mem_set ha with ha | ha
            · exact .inr ha
            · exact absurd ha.symm h5
      · rw [if_neg ha]; omega
    · simp at hs

/-- With a single live goroutine, it holds everything that is on its way. -/
theorem flatMap_one : ∀ (gs : List PC) (i : Nat) (pc pc' : PC), gs[i]? = some pc → pc.live = true → gs.countP PC.live ≤ 1 →
    gs.flatMap PC.held = pc.held ∧ (gs.set i pc').flatMap PC.held = pc'.held
  | [], i, pc, pc', h, _, _ => by simp at h
  | x :: gs, 0, pc, pc', h, hlive, hc => by
    simp only [List.getElem?_cons_zero, Option.some.injEq] at h; subst h
    rw [List.countP_cons, if_pos hlive] at hc
    have h0 : gs.countP PC.live = 0 := by omega
    rw [List.countP_eq_zero] at h0
    have : gs.flatMap PC.held = [] := by
      rw [List.flatMap_eq_nil_iff]
      intro q hq
      exact held_of_not_live (by simpa using h0 q hq)
    simp [this]
  | x :: gs, i + 1, pc, pc', h, hlive, hc => by
    simp only [List.getElem?_cons_succ] at h
    have hpos : 0 < gs.countP PC.live := List.countP_pos_iff.mpr ⟨pc, List.mem_of_getElem? h, hlive⟩
    rw [List.countP_cons] at hc
    have hx : x.live = false := by
      cases hb : x.live with
      | false => rfl
      | true => rw [if_pos hb] at hc; omega
    obtain ⟨h1, h2⟩ := flatMap_one gs i pc pc' h hlive (by omega)
    simp [h1, h2, held_of_not_live hx]

theorem flatMap_dead : ∀ (gs : List PC) (i : Nat) (pc pc' : PC), gs[i]? = some pc → pc.held = [] → pc'.held = [] →
    (gs.set i pc').flatMap PC.held = gs.flatMap PC.held
  | [], i, pc, pc', h, _, _ => by simp at h
  | x :: gs, 0, pc, pc', h, h1, h2 => by
    simp only [List.getElem?_cons_zero, Option.some.injEq] at h; subst h
    simp [h1, h2]
  | x :: gs, i + 1, pc, pc', h, h1, h2 => by
    simp only [List.getElem?_cons_succ] at h
    simp [flatMap_dead gs i pc pc' h h1 h2]

theorem inOrder_step {s t t' : Sys} {l : Nat} {lb : Label} {ls : List Label} (hl : t.listener = some l) (hq : ∀ x, lb ≠ .set x)
    (hw : t.workers ≤ 1) (h : InOrder s ls t) (hs : step t lb = some t') : InOrder s (ls ++ [lb]) t' := by
  obtain ⟨x, h1, h2⟩ := h
  rw [InOrder, delivered_append]
  cases lb with
  | deliver y =>
    simp only [step] at hs
    split at hs
    · injection hs with hs; subst hs
      refine ⟨x, h1, ?_⟩
      show x ++ t.inflight ++ (t.rx ++ [y]) = s.inflight ++ s.rx ++ (delivered ls ++ [y])
      rw [← List.append_assoc, h2]; simp
    · simp at hs
  | set x => exact absurd rfl (hq x)
  | spawn =>
    have h0 : delivered [Label.spawn] = [] := rfl
    rw [h0, List.append_nil]
    simp only [step] at hs
    split at hs
    · simp at hs
    · split at hs <;> injection hs with hs <;> subst hs
      · exact ⟨x, h1, h2⟩
      · refine ⟨x, h1, ?_⟩
        have : (t.gs ++ [PC.start]).flatMap PC.held = t.gs.flatMap PC.held := by simp [PC.held]
        simp only [Sys.inflight, this]
        exact h2
  | run i =>
    have h0 : delivered [Label.run i] = [] := rfl
    rw [h0, List.append_nil]
    simp only [step] at hs
    split at hs
    · rename_i pc hpc
      obtain ⟨pc', hgs, o, d, r, ho, hd, hr, hbal⟩ := advance_moves hs
      obtain ⟨pc2, hgs2, _, _, hdd, hlv, _, _⟩ := advance_set hl hs
      have hi : i < t.gs.length := (List.getElem?_eq_some_iff.mp hpc).1
      have hpp : pc' = pc2 := by
        have e1 : t'.gs[i]? = some pc' := by rw [hgs, List.getElem?_set_self hi]
        have e2 : t'.gs[i]? = some pc2 := by rw [hgs2, List.getElem?_set_self hi]
        rw [e1] at e2; injection e2
      subst hpp
      have hd' : d = [] := by
        rw [hdd] at hd
        have := congrArg List.length hd
        rw [List.length_append] at this
        exact List.eq_nil_of_length_eq_zero (by omega)
      subst hd'
      refine ⟨x ++ o.map Prod.snd, by rw [ho, List.map_append, h1, List.append_assoc], ?_⟩
      have hinf : o.map Prod.snd ++ t'.inflight ++ t'.rx = t.inflight ++ t.rx := by
        simp only [Sys.inflight, hgs]
        by_cases hlive : pc.live = true
        · obtain ⟨f1, f2⟩ := flatMap_one t.gs i pc pc' hpc hlive (by simp only [Sys.workers] at hw; omega)
          rw [f1, f2, hr, ← List.append_assoc, hbal]
          simp
        · have hlive : pc.live = false := by simpa using hlive
          have e1 := held_of_not_live hlive
          have e2 := held_of_not_live (hlv.trans hlive)
          rw [flatMap_dead t.gs i pc pc' hpc e1 e2]
          rw [e1, e2] at hbal
          have hb : r = [] ∧ o = [] := by
            -- a goroutine that is not live takes nothing
            cases pc with
            | clear =>
              injection hs with hs
              subst hs
              have h3 : t.rx = r ++ t.rx := hr
              have := congrArg List.length h3
              rw [List.length_append] at this
              have hr0 : r = [] := List.eq_nil_of_length_eq_zero (by omega)
              subst hr0
              refine ⟨rfl, ?_⟩
              simpa using hbal.symm
            | done => simp [advance] at hs
            | panicked => simp [advance] at hs
            | _ => cases hlive
          rw [hr, hb.1, hb.2]
          simp
      rw [← h2]
      simp only [List.append_assoc] at hinf ⊢
      rw [hinf]
    · simp at hs

theorem spawn_clear (n : Nat) : ∀ s : Sys, s.callers = n → s.flag = false →
    exec s (List.replicate n .spawn) = some { s with callers := 0, gs := s.gs ++ List.replicate n .start } := by
  induction n with
  | zero => intro s h _; cases s; simp only at h; subst h; simp [exec, Trace.exec]
  | succ n ih =>
    intro s h hf
    rw [List.replicate_succ]
    have hst : step s .spawn = some { s with callers := n, gs := s.gs ++ [.start] } := by
      cases s; simp_all [step]
    show (step s .spawn).bind _ = _
    rw [hst]
    refine (ih { s with callers := n, gs := s.gs ++ [.start] } rfl hf).trans ?_
    simp [List.replicate_succ]

/-- Two live goroutines among these. -/
theorem two_live : ∀ gs : List PC, 2 ≤ gs.countP PC.live →
    ∃ (i j : Nat) (p q : PC), i ≠ j ∧ gs[i]? = some p ∧ gs[j]? = some q ∧ p.live = true ∧ q.live = true
  | [], h => by simp at h
  | x :: gs, h => by
    rw [List.countP_cons] at h
    by_cases hx : x.live = true
    · rw [if_pos hx] at h
      obtain ⟨q, hq, hql⟩ := List.countP_pos_iff.mp (show 0 < gs.countP PC.live by omega)
      obtain ⟨j, hj⟩ := List.getElem?_of_mem hq
      exact ⟨0, j + 1, x, q, by omega, rfl, by simpa using hj, hx, hql⟩
    · rw [if_neg hx] at h
      obtain ⟨i, j, p, q, h1, h2, h3, h4, h5⟩ := two_live gs (by omega)
      exact ⟨i + 1, j + 1, p, q, by omega, by simpa using h2, by simpa using h3, h4, h5⟩

/-- If two goroutines can be at work, some schedule gets there. -/
theorem reach_two {s : Sys} {l : Nat} (hl : s.listener = some l) (h : 2 ≤ s.workers) :
    ∃ ls t, (∀ x, .set x ∉ ls) ∧ exec s ls = some t ∧ t.listener = some l ∧ 2 ≤ t.gs.countP PC.live := by
  simp only [Sys.workers] at h
  by_cases h2 : 2 ≤ s.gs.countP PC.live
  · exact ⟨[], s, by simp, rfl, hl, h2⟩
  have hc : s.flag = false ∨ .clear ∈ s.gs := by
    apply Classical.byContradiction
    intro hn; rw [if_neg hn] at h; omega
  rw [if_pos hc] at h
  -- make the flag clear
  obtain ⟨ls, m, e1, e2, e3, e4, e5, e6⟩ : ∃ ls m, exec s ls = some m ∧ (∀ x, .set x ∉ ls) ∧ m.listener = some l ∧ m.flag = false ∧
      m.callers = s.callers ∧ m.gs.countP PC.live = s.gs.countP PC.live := by
    cases hf : s.flag with
    | false => exact ⟨[], s, rfl, by simp, hl, hf, rfl, rfl⟩
    | true =>
      have hm : .clear ∈ s.gs := by rcases hc with h | h; rw [hf] at h; cases h; exact h
      obtain ⟨i, hi⟩ := List.getElem?_of_mem hm
      refine ⟨[.run i], { (s.setPC i .done) with flag := false }, by simp [exec, Trace.exec, step, hi, advance], by simp, hl, rfl, rfl, ?_⟩
      exact countP_set s.gs i .clear .done hi rfl
  refine ⟨ls ++ List.replicate m.callers .spawn, { m with callers := 0, gs := m.gs ++ List.replicate m.callers .start }, ?_, ?_, e3, ?_⟩
  · intro x hx
    rcases List.mem_append.mp hx with hx | hx
    · exact e2 x hx
    · have := List.eq_of_mem_replicate hx; simp at this
  · show Trace.exec step _ _ = _
    rw [exec_append, show Trace.exec step s ls = _ from e1]
    exact spawn_clear _ m rfl e4
  · have hst : PC.live .start = true := rfl
    simp only [List.countP_append, List.countP_replicate, hst, if_true]
    omega

theorem fresh_nat : ∀ I : List Nat, ∃ b, ∀ x ∈ I, x < b
  | [] => ⟨0, by simp⟩
  | x :: I => by
    obtain ⟨b, hb⟩ := fresh_nat I
    refine ⟨x + b + 1, fun y hy => ?_⟩
    rcases List.mem_cons.mp hy with rfl | hy
    · omega
    · have := hb y hy; omega

/-- Two goroutines waiting for an empty channel can swap two messages. -/
theorem swap_two {s : Sys} {l i j a b : Nat} (hl : s.listener = some l) (hij : i ≠ j) (hi : s.gs[i]? = some .recv) (hj : s.gs[j]? = some .recv)
    (hr : s.rx = []) : ∃ s', exec s [.deliver a, .deliver b, .run i, .run j, .run j, .run j, .run i, .run i] = some s' ∧
      s'.out = s.out ++ [(l, b), (l, a)] ∧ s'.gs = s.gs ∧ s'.rx = [] := by
  have hi' := List.getElem?_eq_some_iff.mp hi
  have hj' := List.getElem?_eq_some_iff.mp hj
  obtain ⟨hi1, hi2⟩ := hi'
  obtain ⟨hj1, hj2⟩ := hj'
  refine ⟨{ s with out := s.out ++ [(l, b), (l, a)] }, ?_, rfl, rfl, hr⟩
  have d1 : exec s [.deliver a, .deliver b, .run i, .run j, .run j, .run j, .run i, .run i] =
      exec { s with rx := [a, b] } [.run i, .run j, .run j, .run j, .run i, .run i] := by
    simp [exec, Trace.exec, step, hr]
  have gij : ∀ x y : PC, ((s.gs.set i x).set j y)[i]? = some x := fun x y => by
    rw [List.getElem?_set_ne (Ne.symm hij), List.getElem?_set_self hi1]
  have gj : ∀ x y : PC, ((s.gs.set i x).set j y)[j]? = some y := fun x y => by
    rw [List.getElem?_set_self (by rw [List.length_set]; exact hj1)]
  have hfin : (s.gs.set i (.call a)).set i .recv = s.gs := by rw [List.set_set, set_same hi]
  have ej : ∀ x : PC, (s.gs.set i x).set j .recv = s.gs.set i x := fun x => by rw [List.set_comm _ _ hij, set_same hj]
  refine d1.trans ((mv_recv (m := a) (rest := [b]) (by exact hi) (by rfl) _).trans ((mv_recv (m := b) (rest := []) ?_ (by rfl) _).trans
    ((mv_look (l := l) (m := b) (by exact gj _ _) (by exact hl) _).trans ?_)))
  · show (s.gs.set i _)[j]? = _
    rw [List.getElem?_set_ne hij]; exact hj
  · simp only [List.set_set]
    refine (mv_call (l := l) (m := b) (by exact gj _ _) (by exact hl) _).trans ?_
    simp only [List.set_set, ej]
    refine (mv_look (l := l) (m := a) (by exact List.getElem?_set_self hi1) (by exact hl) _).trans ?_
    simp only [List.set_set]
    refine (mv_call (l := l) (m := a) (by exact List.getElem?_set_self hi1) (by exact hl) _).trans ?_
    simp only [hfin]
    simp [exec, Trace.exec, hr]

/-- C43, order, exactly.  With a listener set and `SetDataListener` not called again, the listener gets the messages in order in every
schedule if and only if at most one goroutine is at work or can be started by a caller that has not looked at the flag yet. -/
theorem c43_order_iff (s : Sys) (l : Nat) (hl : s.listener = some l) :
    (∀ ls s', (∀ x, .set x ∉ ls) → exec s ls = some s' → InOrder s ls s') ↔ s.workers ≤ 1 := by
  constructor
  · intro h
    apply Classical.byContradiction
    intro hw
    obtain ⟨ls, t, n1, e1, tl, h2⟩ := reach_two hl (by omega)
    obtain ⟨i, j, p, q, hij, hi, hj, hp, hq⟩ := two_live t.gs h2
    -- both goroutines to the channel
    obtain ⟨k1, t1, a1, a2, a3, a4, _⟩ := run_all l t i p hi hp tl
    have hj1 : t1.gs[j]? = some q := by rw [a2, List.getElem?_set_ne hij]; exact hj
    obtain ⟨k2, t2, b1, b2, b3, b4, _⟩ := run_all l t1 j q hj1 hq a3
    have hi1 : i < t.gs.length := (List.getElem?_eq_some_iff.mp hi).1
    have hj2 : j < t1.gs.length := (List.getElem?_eq_some_iff.mp hj1).1
    have hti : t2.gs[i]? = some .recv := by
      rw [b2, List.getElem?_set_ne (Ne.symm hij), a2, List.getElem?_set_self hi1]
    have htj : t2.gs[j]? = some .recv := by rw [b2, List.getElem?_set_self hj2]
    obtain ⟨b, hb⟩ := fresh_nat t2.inflight
    obtain ⟨t3, c1, c2, c3, c4⟩ := swap_two (a := b + 1) (b := b) b3 hij hti htj b4
    have hset : ∀ k i', ∀ x, Label.set x ∉ List.replicate k (Label.run i') := by
      intro k i' x hx; have := List.eq_of_mem_replicate hx; simp at this
    have ex : exec s (ls ++ (List.replicate k1 (.run i) ++ List.replicate k2 (.run j))) = some t2 := by
      show Trace.exec step _ _ = _
      rw [exec_append, show Trace.exec step s ls = _ from e1, Option.bind_some, exec_append, show Trace.exec step t _ = _ from a1]
      exact b1
    have nx : ∀ x, Label.set x ∉ ls ++ (List.replicate k1 (Label.run i) ++ List.replicate k2 (.run j)) := by
      intro x hx
      rcases List.mem_append.mp hx with hx | hx
      · exact n1 x hx
      · rcases List.mem_append.mp hx with hx | hx
        · exact hset _ _ x hx
        · exact hset _ _ x hx
    obtain ⟨x1, o1, o2⟩ := h _ t2 nx ex
    generalize hL : ls ++ (List.replicate k1 (Label.run i) ++ List.replicate k2 (.run j)) = L at ex nx o2
    obtain ⟨x2, o3, o4⟩ := h (L ++ [.deliver (b + 1), .deliver b, .run i, .run j, .run j, .run j, .run i, .run i]) t3 (by
        intro x hx
        rcases List.mem_append.mp hx with hx | hx
        · exact nx x hx
        · simp at hx) (by
        show Trace.exec step _ _ = _
        rw [exec_append, show Trace.exec step s L = _ from ex]; exact c1)
    have hx2 : x2 = x1 ++ [b, b + 1] := by
      rw [c2, List.map_append, o1, List.append_assoc] at o3
      exact (List.append_cancel_left o3).symm
    have hd : delivered (L ++ [.deliver (b + 1), .deliver b, .run i, .run j, .run j, .run j, .run i, .run i]) = delivered L ++ [b + 1, b] := by
      rw [delivered_append]; rfl
    rw [hd, ← List.append_assoc, ← o2, hx2, c4, b4] at o4
    have hinf : t3.inflight = t2.inflight := by simp only [Sys.inflight, c3]
    rw [hinf] at o4
    simp only [List.append_nil, List.append_assoc] at o4
    have o5 := List.append_cancel_left o4
    cases hI : t2.inflight with
    | nil => rw [hI] at o5; simp at o5
    | cons y I =>
      rw [hI] at o5
      simp only [List.cons_append, List.cons.injEq] at o5
      have := hb y (by rw [hI]; exact List.mem_cons_self)
      omega
  · intro hw ls
    suffices key : ∀ ls s', (∀ x, .set x ∉ ls) → exec s ls = some s' → s'.listener = some l ∧ s'.workers ≤ 1 ∧ InOrder s ls s' from
      fun s' hn he => (key ls s' hn he).2.2
    intro ls
    induction ls using snoc_induction with
    | h0 =>
      intro s' _ he
      injection he with he; subst he
      exact ⟨hl, hw, [], by simp, by simp [delivered]⟩
    | h1 ls lb ih =>
      intro s' hn he
      obtain ⟨m, hm, hs⟩ := exec_snoc he
      obtain ⟨i1, i2, i3⟩ := ih m (fun x hx => hn x (List.mem_append.mpr (.inl hx))) hm
      have hq : ∀ x, lb ≠ .set x := fun x hx => hn x (by rw [hx]; simp)
      obtain ⟨j1, j2⟩ := workers_step i1 hq hs
      exact ⟨j1, Nat.le_trans j2 i2, inOrder_step i1 hq i2 i3 hs⟩

/-! ## No listener -/

/-- A goroutine that will not touch the channel any more while there is no listener. -/
def PC.quiet : PC → Bool
  | .start | .clear | .done | .panicked => true
  | _ => false

theorem exec_deliver {s : Sys} {m : Nat} (h : s.rx = []) (ls : List Label) : exec s (.deliver m :: ls) = exec { s with rx := [m] } ls := by
  show (step s (.deliver m)).bind _ = _
  simp [step, h]

theorem drop_look {s : Sys} {i m : Nat} (h : s.gs[i]? = some (.look m)) (hl : s.listener = none) :
    ∃ s', exec s [.run i] = some s' ∧ s'.dropped = s.dropped ++ [m] :=
  ⟨_, (exec_run h (by simp only [advance, hl]; rfl) []).trans rfl, rfl⟩

theorem drop_recv {s : Sys} {i : Nat} (h : s.gs[i]? = some .recv) (hl : s.listener = none) :
    ∃ ls s', (∀ x, .set x ∉ ls) ∧ exec s ls = some s' ∧ s'.dropped ≠ s.dropped := by
  have hi := (List.getElem?_eq_some_iff.mp h).1
  have key : ∀ t : Sys, t.gs = s.gs → t.listener = none → t.dropped = s.dropped → t.rx ≠ [] → ∃ s', exec t [.run i, .run i] = some s' ∧ s'.dropped ≠ s.dropped := by
    intro t hg ht hd hr
    cases hx : t.rx with
    | nil => exact absurd hx hr
    | cons m rest =>
      obtain ⟨s', e1, e2⟩ := drop_look (s := { t with gs := t.gs.set i (.look m), rx := rest }) (i := i) (m := m)
        (by show (t.gs.set i _)[i]? = _; rw [hg, List.getElem?_set_self hi]) ht
      refine ⟨s', (mv_recv (by rw [hg]; exact h) hx _).trans e1, ?_⟩
      rw [e2]
      show t.dropped ++ [m] ≠ s.dropped
      rw [hd]; simp
  by_cases hr : s.rx = []
  · obtain ⟨s', e1, e2⟩ := key { s with rx := [0] } rfl hl rfl (by simp)
    exact ⟨[.deliver 0, .run i, .run i], s', by simp, (exec_deliver hr _).trans e1, e2⟩
  · obtain ⟨s', e1, e2⟩ := key s rfl hl rfl hr
    exact ⟨_, s', by simp, e1, e2⟩

/-- C43, last clause, exactly.  While no listener is set (and `SetDataListener` is not called again), in every schedule every message stays on
the channel, in order, if and only if no goroutine is past its first look at the listener, other than one that is ending. -/
theorem c43_kept_iff (s : Sys) (hl : s.listener = none) :
    (∀ ls s', (∀ x, .set x ∉ ls) → exec s ls = some s' → s'.dropped = s.dropped ∧ s'.out = s.out ∧ s'.rx = s.rx ++ delivered ls) ↔
    ∀ pc ∈ s.gs, pc.quiet = true := by
  constructor
  · intro h pc hpc
    apply Classical.byContradiction
    intro hq
    suffices hbad : ∃ ls s', (∀ x, .set x ∉ ls) ∧ exec s ls = some s' ∧ s'.dropped ≠ s.dropped by
      obtain ⟨ls, s', h1, h2, h3⟩ := hbad
      exact h3 (h ls s' h1 h2).1
    obtain ⟨i, hg⟩ := List.getElem?_of_mem hpc
    have hi := (List.getElem?_eq_some_iff.mp hg).1
    cases pc with
    | flag =>
      obtain ⟨ls, s', h1, h2, h3⟩ := drop_recv (s := { s with gs := s.gs.set i .recv, flag := true }) (i := i)
        (List.getElem?_set_self hi) hl
      refine ⟨.run i :: ls, s', ?_, (mv_flag hg _).trans h2, h3⟩
      intro x hx
      rcases List.mem_cons.mp hx with hx | hx
      · simp at hx
      · exact h1 x hx
    | recv => exact drop_recv hg hl
    | look m =>
      obtain ⟨s', e1, e2⟩ := drop_look hg hl
      exact ⟨_, s', by simp, e1, by rw [e2]; simp⟩
    | call m =>
      refine ⟨[.run i], { (s.setPC i .panicked) with dropped := s.dropped ++ [m] }, by simp, ?_, by simp⟩
      exact (exec_run hg (by simp only [advance, hl]) []).trans rfl
    | start => exact absurd rfl hq
    | clear => exact absurd rfl hq
    | done => exact absurd rfl hq
    | panicked => exact absurd rfl hq
  · intro hq ls
    suffices key : ∀ ls s', (∀ x, .set x ∉ ls) → exec s ls = some s' →
        (s'.listener = none ∧ ∀ pc ∈ s'.gs, pc.quiet = true) ∧ s'.dropped = s.dropped ∧ s'.out = s.out ∧ s'.rx = s.rx ++ delivered ls from
      fun s' hn he => (key ls s' hn he).2
    intro ls
    induction ls using snoc_induction with
    | h0 =>
      intro s' _ he
      injection he with he; subst he
      exact ⟨⟨hl, hq⟩, rfl, rfl, by simp [delivered]⟩
    | h1 ls lb ih =>
      intro s' hn he
      obtain ⟨m, hm, hs⟩ := exec_snoc he
      obtain ⟨⟨i1, i2⟩, i3, i4, i5⟩ := ih m (fun x hx => hn x (List.mem_append.mpr (.inl hx))) hm
      rw [delivered_append]
      cases lb with
      | deliver y =>
        simp only [step] at hs
        split at hs
        · injection hs with hs; subst hs
          refine ⟨⟨i1, i2⟩, i3, i4, ?_⟩
          show m.rx ++ [y] = s.rx ++ (delivered ls ++ [y])
          rw [i5, List.append_assoc]
        · simp at hs
      | set x => exact absurd (by simp) (hn x)
      | spawn =>
        have h0 : delivered [Label.spawn] = [] := rfl
        rw [h0, List.append_nil]
        simp only [step] at hs
        split at hs
        · simp at hs
        · split at hs <;> injection hs with hs <;> subst hs
          · exact ⟨⟨i1, i2⟩, i3, i4, i5⟩
          · refine ⟨⟨i1, fun pc hpc => ?_⟩, i3, i4, i5⟩
            rcases List.mem_append.mp hpc with hpc | hpc
            · exact i2 pc hpc
            · rw [List.mem_singleton] at hpc; subst hpc; rfl
      | run i =>
        have h0 : delivered [Label.run i] = [] := rfl
        rw [h0, List.append_nil]
        simp only [step] at hs
        split at hs
        · rename_i pc hpc
          have hpq := i2 pc (List.mem_of_getElem? hpc)
          have fin : ∀ q ∈ m.gs.set i .done, q.quiet = true := by
            intro q hq
            rcases List.mem_or_eq_of_mem_set hq with hq | hq
            · exact i2 q hq
            · subst hq; rfl
          cases pc with
          | start =>
            simp only [advance, i1] at hs
            injection hs with hs; subst hs
            exact ⟨⟨i1, fin⟩, i3, i4, i5⟩
          | clear =>
            injection hs with hs; subst hs
            exact ⟨⟨i1, fin⟩, i3, i4, i5⟩
          | done => simp [advance] at hs
          | panicked => simp [advance] at hs
          | _ => cases hpq
        · simp at hs

/-- The listener removed after the goroutine ended: kept. -/
example : ∀ pc ∈ (⟨[4], none, false, 1, [.done], [], [3]⟩ : Sys).gs, pc.quiet = true := by decide

/-- The listener removed while the goroutine waits: not kept. -/
example : ¬ ∀ pc ∈ (⟨[], none, true, 1, [.recv], [(7, 3)], []⟩ : Sys).gs, pc.quiet = true := by decide

/-- The usual state, one goroutine waiting: in order. -/
example : (⟨[5, 6], some 7, true, 0, [.done, .recv], [], []⟩ : Sys).workers ≤ 1 := by decide

/-- A second call of `SetDataListener` before the goroutine has set the flag: not in order. -/
example : ¬ (⟨[], some 8, false, 1, [.start], [], []⟩ : Sys).workers ≤ 1 := by decide

end Verif.Reg.Listener
