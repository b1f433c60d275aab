import Verif.Conn.Stream

/-!
# Which transports can crash (C57)

`Stream` shows several ways in which a TCP or Unix transport crashes the process.  Here: exactly which configurations
can crash, depending on whether the program may call `Stop` and whether it may call `Run` more than once.
A failure to listen ends the process on purpose (`log.Fatal`, tran_tcp.go:166-168) and is not counted.
-/

namespace Verif.Conn.Stream
open Verif.Trace

theorem not_crashed {s s' : Sys} {l : Label} (h : step s l = some s') : s.crash = none ∧ act s l = some s' := by
  simp only [step] at h
  split at h
  · rename_i e; exact ⟨e, h⟩
  · simp at h

/-- A running transport without nil among the saved connections can be stopped. -/
theorem stop_fine {s : Sys} (hw : Wf s) (hc : s.crash = none) (hn : s.isRunning = true → none ∉ s.saved) :
    (stop s).crash = none ∧ (stop s).isRunning = false := by
  by_cases hr : s.isRunning = true
  · obtain ⟨ch, _, _, he⟩ := stop_running hw hr
    rw [he]
    cases hl : s.listener <;> simp only [if_neg (hn hr)] <;> simp [hc]
  · rw [stop, if_pos (by simpa using hr)]
    exact ⟨hc, by simpa using hr⟩

theorem stop_callers (s : Sys) : (stop s).callers = s.callers ∧ (stop s).chans.length = s.chans.length := by
  unfold stop
  split
  · exact ⟨rfl, rfl⟩
  · cases s.listener <;> simp only <;> repeat' split
    all_goals simp

/-! ## Nil is not saved if there is only one `Run` -/

/-- As long as the first run lasts nobody has received nil. -/
def Unclosed (s : Sys) : Prop :=
  s.isRunning = true ∨ s.chans = [] → none ∉ s.saved ∧ ∀ i : Nat, s.callers[i]? ≠ some (Caller.got none)

theorem Unclosed.same {s s' : Sys} (h : Unclosed s) (h1 : s'.isRunning = s.isRunning) (h2 : s'.chans.length = s.chans.length)
    (h3 : s'.saved = s.saved) (h4 : s'.callers = s.callers) : Unclosed s' := by
  intro hh
  rw [h3, h4]
  refine h ?_
  rcases hh with hh | hh
  · exact .inl (by rw [← h1]; exact hh)
  · exact .inr (List.length_eq_zero_iff.mp (by rw [← h2, hh]; rfl))

theorem unclosed_stop {s : Sys} (h : Unclosed s) (hw : Wf s) (hn : (stop s).crash = none) : Unclosed (stop s) := by
  obtain ⟨h1, h2⟩ := stop_callers s
  by_cases hr : s.isRunning = true
  · intro hh
    have := hw.running hr
    rcases hh with hh | hh
    · rw [stop_off hn] at hh; cases hh
    · rw [hh] at h2; simp at h2; omega
  · rw [stop, if_pos (by simpa using hr)]
    exact h

theorem unclosed_exec (conf : Conf) : ∀ ls : List Label, ls.count .run ≤ 1 → ∀ s, exec (init conf) ls = some s → s.crash = none →
    s.chans.length ≤ ls.count .run ∧ Unclosed s := by
  refine snoc_induction ?_ ?_
  · intro _ s h _
    injection h with h
    subst h
    exact ⟨by simp [init], fun _ => ⟨by simp [init], by simp [init]⟩⟩
  · intro ls l ih hcount s' h hn
    obtain ⟨s, hs, hl⟩ := exec_snoc (step := step) h
    have hcl : ls.count .run ≤ (ls ++ [l]).count .run := by rw [List.count_append]; omega
    obtain ⟨hc0, ha⟩ := not_crashed hl
    obtain ⟨i1, i2⟩ := ih (by omega) s hs hc0
    have hw := wf_exec conf ls s hs hc0
    have hle : s.chans.length ≤ 1 := by omega
    cases l with
    | run =>
      injection ha with ha; subst ha
      unfold run
      split
      · exact ⟨by omega, i2⟩
      · have h0 : ls.count .run = 0 := by
          rw [List.count_append] at hcount
          simp at hcount; omega
        rw [h0] at i1
        have hch : s.chans = [] := List.length_eq_zero_iff.mp (by omega)
        obtain ⟨_, j2⟩ := i2 (.inr hch)
        refine ⟨by simp [hch, List.count_append], fun _ => ⟨by simp, j2⟩⟩
    | stop =>
      injection ha with ha; subst ha
      exact ⟨by rw [(stop_callers s).2]; omega, unclosed_stop i2 hw hn⟩
    | call =>
      injection ha with ha; subst ha
      refine ⟨by simp only; omega, fun hh => ?_⟩
      obtain ⟨j1, j2⟩ := i2 hh
      refine ⟨j1, fun i hi => ?_⟩
      simp only [List.getElem?_append] at hi
      split at hi
      · exact j2 i hi
      · cases hz : i - s.callers.length <;> rw [hz] at hi <;> simp at hi
    | recv i =>
      simp only [act] at ha
      split at ha
      · rename_i k hi
        split at ha
        · simp at ha
        · rename_i ch hk
          split at ha
          · injection ha with ha; subst ha
            refine ⟨by simp only [List.length_set]; omega, fun hh => ?_⟩
            obtain ⟨j1, j2⟩ := i2 (hh.imp id fun e => List.length_eq_zero_iff.mp (by simpa using congrArg List.length e))
            refine ⟨j1, fun m hm => ?_⟩
            rw [List.getElem?_set] at hm
            split at hm
            · split at hm <;> simp at hm
            · exact j2 m hm
          · split at ha
            · rename_i hcl
              injection ha with ha; subst ha
              refine ⟨by simp only; omega, fun hh => ?_⟩
              exfalso
              have hlt := (List.getElem?_eq_some_iff.mp hk).1
              rcases hh with hh | hh
              · simp only at hh
                rw [hw.closed k ch hk, hh] at hcl
                simp at hcl
                omega
              · simp only at hh
                rw [hh] at hlt
                simp at hlt
            · simp at ha
      · simp at ha
    | save i =>
      simp only [act] at ha
      split at ha
      · rename_i r hi
        injection ha with ha; subst ha
        obtain ⟨_, e2, e3, _⟩ := save_next s r
        refine ⟨by simp only; rw [e2]; omega, fun hh => ?_⟩
        simp only [e2, e3] at hh
        obtain ⟨j1, j2⟩ := i2 hh
        refine ⟨?_, fun m hm => ?_⟩
        · have hr : r ≠ none := fun e => j2 i (by rw [hi, e])
          simp only [save]
          split
          · exact j1
          · split
            · exact j1
            · simp only [List.mem_append, List.mem_singleton]
              rintro (h | h)
              · exact j1 h
              · exact hr h.symm
        · simp only [List.getElem?_set] at hm
          split at hm
          · split at hm <;> simp at hm
          · exact j2 m hm
      · simp at ha
    | close c => injection ha with ha; subst ha; exact ⟨by simp only; omega, i2⟩
    | go j ok =>
      simp only [act, goStep] at ha
      repeat' split at ha
      all_goals first
        | (injection ha with ha; subst ha
           first
           | exact ⟨by simp [Sys.setGo]; omega, i2.same rfl (by simp [Sys.setGo]) rfl rfl⟩
           | exact ⟨by rw [(stop_callers _).2]; simp only [Sys.setGo]; omega,
               unclosed_stop (i2.same rfl rfl rfl rfl) (hw.same rfl rfl rfl) hn⟩)
        | simp at ha

/-- If the transport ignores nil, or `Run` is called at most once, nil is not among the saved connections of a running transport. -/
theorem nothing_nil (conf : Conf) (ls : List Label) (s : Sys) (h : exec (init conf) ls = some s) (hc : s.crash = none)
    (hg : conf.guard = true ∨ ls.count .run ≤ 1) (hr : s.isRunning = true) : none ∉ s.saved := by
  rcases hg with hg | hg
  · exact no_nil_saved conf hg ls s h
  · exact ((unclosed_exec conf ls hg s h hc).2 (.inl hr)).1

/-! ## Without `Stop` -/

/-- What the goroutine of the current run relies on. -/
def Own (s : Sys) : Go → Prop
  | .loop => s.listener ≠ none
  | .accepting _ => s.listener ≠ none
  | .prep _ again => again = true → s.listener ≠ none
  | .push k _ again => k + 1 = s.chans.length ∧ (again = true → s.listener ≠ none)
  | _ => True

/-- All goroutines have ended, except the one of the current run. -/
def Alone (s : Sys) : Prop :=
  ∀ j g, s.gos[j]? = some g → g = .done ∨ (s.isRunning = true ∧ j + 1 = s.gos.length ∧ Own s g)

theorem Alone.same {s s' : Sys} (h : Alone s) (h1 : s'.gos = s.gos) (h2 : s'.isRunning = s.isRunning) (h3 : s'.listener = s.listener)
    (h4 : s'.chans.length = s.chans.length) : Alone s' := by
  intro j g hj
  rw [h1] at hj
  refine (h j g hj).imp id fun ⟨a, b, c⟩ => ⟨by rw [h2]; exact a, by rw [h1]; exact b, ?_⟩
  cases g <;> simp only [Own, h3, h4] at c ⊢ <;> exact c

/-- The goroutine of the current run goes on. -/
theorem Alone.move {s s' : Sys} (h : Alone s) (j : Nat) (g g' : Go) (hj : s.gos[j]? = some g) (hg : g ≠ .done) (h1 : s'.gos = s.gos.set j g')
    (h2 : s'.isRunning = s.isRunning) (h3 : Own s' g') : Alone s' := by
  intro m x hm
  obtain ⟨a, b, _⟩ := (h j g hj).resolve_left hg
  rw [h1, List.getElem?_set] at hm
  split at hm
  · rename_i e
    subst e
    split at hm
    · injection hm with hm; subst hm
      exact .inr ⟨by rw [h2]; exact a, by rw [h1, List.length_set]; exact b, h3⟩
    · simp at hm
  · rename_i hne
    have hlt := (List.getElem?_eq_some_iff.mp hm).1
    exact .inl ((h m x hm).resolve_right fun ⟨_, e, _⟩ => hne (by omega))

theorem alone_go {s s' : Sys} {j : Nat} {ok : Bool} (h : Alone s) (hw : Wf s) (hc : s.crash = none) (hn : s.isRunning = true → none ∉ s.saved)
    (hs : goStep s j ok = some s') : s'.crash = some .fatal ∨ (s'.crash = none ∧ Alone s') := by
  cases hj : s.gos[j]? with
  | none => simp [goStep, hj] at hs
  | some g =>
    by_cases hd : g = .done
    · subst hd; simp [goStep, hj] at hs
    · obtain ⟨a, b, o⟩ := (h j g hj).resolve_left hd
      have hnext : s.next = some (s.chans.length - 1) := by
        have := hw.running a
        rw [hw.last, if_neg (by omega)]
      have hlen := hw.running a
      cases g with
      | listen =>
        simp only [goStep, hj] at hs
        split at hs <;> injection hs with hs <;> subst hs
        · exact .inr ⟨hc, h.move j _ .loop hj hd rfl rfl (by simp [Own])⟩
        · exact .inl rfl
      | loop =>
        simp only [goStep, hj] at hs
        split at hs
        · rename_i hl; exact absurd hl o
        · injection hs with hs; subst hs
          exact .inr ⟨hc, h.move j _ _ hj hd rfl rfl o⟩
      | accepting l =>
        simp only [goStep, hj] at hs
        split at hs
        · split at hs
          · simp at hs
          · injection hs with hs; subst hs
            exact .inr ⟨hc, h.move j _ (.prep s.cons true) hj hd rfl rfl fun _ => o⟩
        · injection hs with hs; subst hs
          exact .inr ⟨hc, h.move j _ .stopping hj hd rfl rfl trivial⟩
      | prep c again =>
        simp only [goStep, hj, hnext] at hs
        injection hs with hs; subst hs
        exact .inr ⟨hc, h.move j _ (.push (s.chans.length - 1) c again) hj hd rfl rfl ⟨by simp only [Sys.setGo]; omega, o⟩⟩
      | push k c again =>
        obtain ⟨o1, o2⟩ := o
        simp only [goStep, hj] at hs
        split at hs
        · simp at hs
        · rename_i ch hk
          have hopen : ch.closed = false := by
            rw [hw.closed k ch hk, a, o1]; simp
          rw [hopen] at hs
          simp only [Bool.false_eq_true, if_false] at hs
          split at hs
          · injection hs with hs; subst hs
            refine .inr ⟨hc, h.move j _ (if again then .loop else .done) hj hd rfl rfl ?_⟩
            cases again with
            | true => exact o2 rfl
            | false => trivial
          · simp at hs
      | dial i =>
        simp only [goStep, hj] at hs
        split at hs
        · split at hs <;> injection hs with hs <;> subst hs
          · exact .inr ⟨hc, h.move j _ (.prep s.cons false) hj hd rfl rfl (by simp [Own])⟩
          · exact .inr ⟨hc, h.move j _ (.dial (i + 1)) hj hd rfl rfl trivial⟩
        · injection hs with hs; subst hs
          exact .inr ⟨hc, h.move j _ .stopping hj hd rfl rfl trivial⟩
      | stopping =>
        simp only [goStep, hj] at hs
        injection hs with hs; subst hs
        have hf := stop_fine (s := s.setGo j .done) (hw.same rfl rfl rfl) hc hn
        refine .inr ⟨hf.1, fun m x hm => .inl ?_⟩
        rw [(stop_same _).2.1] at hm
        simp only [Sys.setGo, List.getElem?_set] at hm
        split at hm
        · split at hm
          · injection hm with hm; exact hm.symm
          · simp at hm
        · rename_i hne
          have hlt := (List.getElem?_eq_some_iff.mp hm).1
          exact (h m x hm).resolve_right fun ⟨_, e, _⟩ => hne (by omega)
      | done => exact absurd rfl hd

/-- If the program never calls `Stop`, and nil cannot be saved, the transport does not crash. -/
theorem unstopped (conf : Conf) : ∀ ls : List Label, .stop ∉ ls → (conf.guard = true ∨ ls.count .run ≤ 1) → ∀ s, exec (init conf) ls = some s →
    s.crash = some .fatal ∨ (s.crash = none ∧ Alone s) := by
  refine snoc_induction ?_ ?_
  · intro _ _ s h
    injection h with h
    subst h
    exact .inr ⟨rfl, by intro j g hj; simp [init] at hj⟩
  · intro ls l ih hst hg s' h
    obtain ⟨s, hs, hl⟩ := exec_snoc (step := step) h
    obtain ⟨hc0, ha⟩ := not_crashed hl
    have hg' : conf.guard = true ∨ ls.count .run ≤ 1 := hg.imp id fun h => by rw [List.count_append] at h; omega
    have hal : Alone s := ((ih (fun hm => hst (by simp [hm])) hg' s hs).resolve_left (by rw [hc0]; simp)).2
    have hw := wf_exec conf ls s hs hc0
    have hnn := nothing_nil conf ls s hs hc0 hg'
    cases l with
    | run =>
      injection ha with ha; subst ha
      unfold run
      split
      · exact .inr ⟨hc0, hal⟩
      · rename_i hr
        refine .inr ⟨hc0, fun j g hj => ?_⟩
        simp only [List.getElem?_append] at hj
        split at hj
        · exact .inl ((hal j g hj).resolve_right fun h => hr h.1)
        · have hz : j - s.gos.length = 0 := by
            cases hz : j - s.gos.length with
            | zero => rfl
            | succ z => rw [hz] at hj; simp at hj
          rw [hz] at hj
          simp only [List.getElem?_cons_zero, Option.some.injEq] at hj
          subst hj
          refine .inr ⟨rfl, by simp only [List.length_append, List.length_cons, List.length_nil]; omega, ?_⟩
          split <;> trivial
    | stop => simp at hst
    | call => injection ha with ha; subst ha; exact .inr ⟨hc0, hal.same rfl rfl rfl rfl⟩
    | recv i =>
      simp only [act] at ha
      repeat' split at ha
      all_goals first | (injection ha with ha; subst ha; exact .inr ⟨hc0, hal.same rfl rfl rfl (by simp)⟩) | simp at ha
    | save i =>
      simp only [act] at ha
      split at ha
      · rename_i r _
        injection ha with ha; subst ha
        have hx : (save s r).gos = s.gos ∧ (save s r).isRunning = s.isRunning ∧ (save s r).listener = s.listener ∧ (save s r).chans = s.chans ∧
            (save s r).crash = s.crash := by
          unfold save
          split
          · exact ⟨rfl, rfl, rfl, rfl, rfl⟩
          · split <;> exact ⟨rfl, rfl, rfl, rfl, rfl⟩
        exact .inr ⟨hx.2.2.2.2.trans hc0, hal.same hx.1 hx.2.1 hx.2.2.1 (congrArg _ hx.2.2.2.1)⟩
      · simp at ha
    | close c => injection ha with ha; subst ha; exact .inr ⟨hc0, hal.same rfl rfl rfl rfl⟩
    | go j ok => exact alone_go hal hw hc0 hnn ha

/-! ## Clients that never dial -/

theorem idle_client (conf : Conf) (hf : conf.forServer = false) (hm : conf.maxRetryCount ≤ 0) : ∀ ls : List Label,
    (conf.guard = true ∨ ls.count .run ≤ 1) → ∀ s, exec (init conf) ls = some s →
    s.crash = none ∧ ∀ (j : Nat) (g : Go), s.gos[j]? = some g → g = .dial 0 ∨ g = .stopping ∨ g = .done := by
  refine snoc_induction ?_ ?_
  · intro _ s h
    injection h with h
    subst h
    exact ⟨rfl, by intro j g hj; simp [init] at hj⟩
  · intro ls l ih hg s' h
    obtain ⟨s, hs, hl⟩ := exec_snoc (step := step) h
    obtain ⟨hc0, ha⟩ := not_crashed hl
    have hg' : conf.guard = true ∨ ls.count .run ≤ 1 := hg.imp id fun h => by rw [List.count_append] at h; omega
    obtain ⟨_, hal⟩ := ih hg' s hs
    have hw := wf_exec conf ls s hs hc0
    have hnn := nothing_nil conf ls s hs hc0 hg'
    have hconf : s.conf = conf := (client_exec conf hf ls s hs).2
    have hset : ∀ (j : Nat) (g' : Go), (g' = .stopping ∨ g' = .done) → ∀ (m : Nat) (x : Go), (s.gos.set j g')[m]? = some x → x = .dial 0 ∨ x = .stopping ∨ x = .done := by
      intro j g' hg' m x hm
      rw [List.getElem?_set] at hm
      split at hm
      · split at hm
        · injection hm with hm; subst hm; exact .inr hg'
        · simp at hm
      · exact hal m x hm
    cases l with
    | run =>
      injection ha with ha; subst ha
      unfold run
      split
      · exact ⟨hc0, hal⟩
      · refine ⟨hc0, fun j g hj => ?_⟩
        simp only [List.getElem?_append] at hj
        split at hj
        · exact hal j g hj
        · have hz : j - s.gos.length = 0 := by
            cases hz : j - s.gos.length with
            | zero => rfl
            | succ z => rw [hz] at hj; simp at hj
          rw [hz, hconf, hf] at hj
          simp at hj
          exact .inl hj.symm
    | stop =>
      injection ha with ha; subst ha
      refine ⟨(stop_fine hw hc0 hnn).1, ?_⟩
      rw [(stop_same s).2.1]
      exact hal
    | call => injection ha with ha; subst ha; exact ⟨hc0, hal⟩
    | recv i =>
      simp only [act] at ha
      repeat' split at ha
      all_goals first | (injection ha with ha; subst ha; exact ⟨hc0, hal⟩) | simp at ha
    | save i =>
      simp only [act] at ha
      split at ha
      · rename_i r _
        injection ha with ha; subst ha
        obtain ⟨_, _, _, _, _, e6, _, e8⟩ := save_next s r
        exact ⟨e8.trans hc0, by simp only [e6]; exact hal⟩
      · simp at ha
    | close c => injection ha with ha; subst ha; exact ⟨hc0, hal⟩
    | go j ok =>
      cases hj : s.gos[j]? with
      | none => simp [act, goStep, hj] at ha
      | some g =>
        rcases hal j g hj with rfl | rfl | rfl
        · simp only [act, goStep, hj] at ha
          rw [if_neg (by rw [hconf]; simpa using hm)] at ha
          injection ha with ha; subst ha
          exact ⟨hc0, hset j .stopping (.inl rfl)⟩
        · simp only [act, goStep, hj] at ha
          injection ha with ha; subst ha
          refine ⟨(stop_fine (s := s.setGo j .done) (hw.same rfl rfl rfl) hc0 hnn).1, ?_⟩
          rw [(stop_same _).2.1]
          exact hset j .done (.inr rfl)
        · simp [act, goStep, hj] at ha

/-! ## How the others crash -/

/-- All dials fail. -/
theorem dials_fail (j : Nat) (n : Nat) : ∀ (i : Nat) (s : Sys), s.crash = none → s.gos[j]? = some (.dial i) → (i + n : Int) ≤ s.conf.maxRetryCount →
    ∃ log, exec s (List.replicate n (.go j false)) = some { s with gos := s.gos.set j (.dial (i + n)), log := log } := by
  induction n with
  | zero =>
    intro i s hc hj _
    obtain ⟨hlt, he⟩ := List.getElem?_eq_some_iff.mp hj
    refine ⟨s.log, ?_⟩
    show some s = _
    rw [Nat.add_zero, ← he, List.set_getElem_self]
  | succ n ih =>
    intro i s hc hj hm
    obtain ⟨hlt, _⟩ := List.getElem?_eq_some_iff.mp hj
    have hstep : step s (.go j false) = some { s.setGo j (.dial (i + 1)) with log := s.log ++ [.dial j false] } := by
      simp only [step, hc, if_true, act, goStep, hj]
      rw [if_pos (by omega)]
      rfl
    obtain ⟨log, h⟩ := ih (i + 1) { s.setGo j (.dial (i + 1)) with log := s.log ++ [.dial j false] } hc
      (by simp only [Sys.setGo]; rw [List.getElem?_set_self hlt]) (by simp only [Sys.setGo]; omega)
    refine ⟨log, ?_⟩
    rw [List.replicate_succ]
    simp only [exec, Trace.exec, hstep]
    refine Eq.trans h ?_
    simp only [Sys.setGo, List.set_set]
    rw [Nat.add_assoc, Nat.add_comm 1 n]

/-- Then `connect` stops the transport. -/
theorem gives_up (s : Sys) (j : Nat) (hc : s.crash = none) (hj : s.gos[j]? = some (.dial 0)) :
    ∃ log, exec s (List.replicate s.conf.maxRetryCount.toNat (.go j false) ++ [.go j false, .go j false]) =
      some (stop { s with gos := s.gos.set j .done, log := log }) := by
  obtain ⟨hlt, _⟩ := List.getElem?_eq_some_iff.mp hj
  have key : ∃ n log, exec s (List.replicate s.conf.maxRetryCount.toNat (.go j false)) = some { s with gos := s.gos.set j (.dial n), log := log } ∧
      ¬ (n : Int) < s.conf.maxRetryCount := by
    by_cases h : s.conf.maxRetryCount ≤ 0
    · refine ⟨0, s.log, ?_, by omega⟩
      rw [show s.conf.maxRetryCount.toNat = 0 by omega]
      obtain ⟨hlt, he⟩ := List.getElem?_eq_some_iff.mp hj
      show some s = _
      rw [← he, List.set_getElem_self]
    · obtain ⟨log, h1⟩ := dials_fail j s.conf.maxRetryCount.toNat 0 s hc hj (by omega)
      exact ⟨_, log, h1, by omega⟩
  obtain ⟨n, log, h1, h2⟩ := key
  refine ⟨log, ?_⟩
  have hrun : exec { s with gos := s.gos.set j (.dial n), log := log } [.go j false, .go j false] = some (stop { s with gos := s.gos.set j .done, log := log }) := by
    simp only [exec, Trace.exec, step, hc, if_true, act, goStep, List.getElem?_set_self hlt, if_neg h2, Sys.setGo, List.set_set, Option.bind_some]
  show Trace.exec step s _ = _
  rw [exec_append, show Trace.exec step s _ = _ from h1]
  exact hrun

/-- Nil saved by a late call of `NextConnection`, a TCP client. -/
theorem client_crashes (conf : Conf) (hf : conf.forServer = false) (hg : conf.guard = false) :
    ∃ ls s, .stop ∉ ls ∧ exec (init conf) ls = some s ∧ s.crash = some .nilConnection := by
  let s1 : Sys := { init conf with isRunning := true, next := some 0, chans := [⟨[], false⟩], gos := [.dial 0] }
  have h1 : exec (init conf) [.run] = some s1 := by
    simp [exec, Trace.exec, step, act, run, init, hf, s1]
  obtain ⟨log, h2⟩ := gives_up s1 0 rfl rfl
  let s2 : Sys := { init conf with next := some 0, chans := [⟨[], true⟩], gos := [.done], log := log }
  have e2 : stop { s1 with gos := s1.gos.set 0 .done, log := log } = s2 := by simp [stop, s1, s2, init]
  rw [e2] at h2
  let s3 : Sys := { init conf with isRunning := true, next := some 1, chans := [⟨[], true⟩, ⟨[], false⟩], saved := [none], gos := [.done, .dial 0],
                                   callers := [.returned none], log := log ++ [.returned none] }
  have h3 : exec s2 [.call, .recv 0, .run, .save 0] = some s3 := by
    simp [exec, Trace.exec, step, act, run, init, hf, hg, s2, s3, save]
  obtain ⟨log', h4⟩ := gives_up s3 1 rfl rfl
  refine ⟨[.run] ++ ((List.replicate conf.maxRetryCount.toNat (.go 0 false) ++ [.go 0 false, .go 0 false]) ++ ([.call, .recv 0, .run, .save 0] ++
    (List.replicate conf.maxRetryCount.toNat (.go 1 false) ++ [.go 1 false, .go 1 false]))), stop { s3 with gos := s3.gos.set 1 .done, log := log' }, by simp [List.mem_replicate], ?_, ?_⟩
  · show Trace.exec step _ _ = _
    rw [exec_append, show Trace.exec step _ _ = _ from h1]
    show Trace.exec step s1 _ = _
    rw [exec_append, show Trace.exec step s1 (List.replicate conf.maxRetryCount.toNat (.go 0 false) ++ [.go 0 false, .go 0 false]) = some s2 from h2]
    show Trace.exec step s2 _ = _
    rw [exec_append, show Trace.exec step _ _ = _ from h3]
    exact h4
  · simp [stop, s3, init]

/-- The same for a TCP server whose `Accept` fails twice. -/
theorem server_crashes (conf : Conf) (hf : conf.forServer = true) (hg : conf.guard = false) :
    ∃ s, exec (init conf) [.run, .go 0 true, .go 0 true, .go 0 false, .go 0 true, .call, .recv 0, .run, .save 0, .go 1 true, .go 1 true, .go 1 false, .go 1 true] =
      some s ∧ s.crash = some .nilConnection := by
  obtain ⟨g, f, m⟩ := conf
  simp only at hf hg
  subst hf hg
  exact ⟨_, rfl, rfl⟩

/-! ## The condition -/

/-- What the program may do with the transport. -/
def Permitted (mayStop mayRerun : Bool) (ls : List Label) : Prop :=
  (mayStop = false → .stop ∉ ls) ∧ (mayRerun = false → ls.count .run ≤ 1)

/-- C57, "never panics", exactly: a transport cannot crash if and only if it ignores nil (Unix sockets) or `Run` is called only once, and, if `Stop` may be
called at all, it is a client that never dials.  So every transport that ever connects or accepts can crash when stopped. -/
theorem c57_crash_exact (conf : Conf) (mayStop mayRerun : Bool) :
    (∀ ls s, Permitted mayStop mayRerun ls → exec (init conf) ls = some s → s.crash = none ∨ s.crash = some .fatal) ↔
    (conf.guard = true ∨ mayRerun = false) ∧ (mayStop = true → conf.forServer = false ∧ conf.maxRetryCount ≤ 0) := by
  constructor
  · intro h
    have no : ∀ ls s, Permitted mayStop mayRerun ls → exec (init conf) ls = some s → ∀ x, s.crash = some x → x ≠ .fatal → False := by
      intro ls s hp he x hx hf
      rcases h ls s hp he with h | h <;> rw [hx] at h
      · cases h
      · injection h with h; exact hf h
    constructor
    · cases hg : conf.guard with
      | true => exact .inl rfl
      | false =>
        right
        cases mayRerun with
        | false => rfl
        | true =>
          exfalso
          cases hf : conf.forServer with
          | true =>
            obtain ⟨s, h1, h2⟩ := server_crashes conf hf hg
            exact no _ s ⟨fun _ => by simp, by simp⟩ h1 _ h2 (by simp)
          | false =>
            obtain ⟨ls, s, h0, h1, h2⟩ := client_crashes conf hf hg
            exact no _ s ⟨fun _ => h0, by simp⟩ h1 _ h2 (by simp)
    · intro hm
      subst hm
      cases hf : conf.forServer with
      | true =>
        exfalso
        obtain ⟨s, h1, h2⟩ := c57_nil_listener_violated conf hf
        exact no _ s ⟨by simp, fun _ => by decide⟩ h1 _ h2 (by simp)
      | false =>
        refine ⟨rfl, ?_⟩
        by_cases h0 : conf.maxRetryCount ≤ 0
        · exact h0
        · exfalso
          obtain ⟨s, h1, h2⟩ := c57_dial_violated conf hf (by omega)
          exact no _ s ⟨by simp, fun _ => by decide⟩ h1 _ h2 (by simp)
  · rintro ⟨h1, h2⟩ ls s ⟨p1, p2⟩ he
    have hg : conf.guard = true ∨ ls.count .run ≤ 1 := h1.imp id p2
    cases hms : mayStop with
    | false => exact (unstopped conf ls (p1 hms) hg s he).symm.imp And.left id
    | true =>
      obtain ⟨a, b⟩ := h2 hms
      exact .inl (idle_client conf a b ls hg s he).1

/-- A Unix server that is never stopped: two clients, then `Accept` fails, the transport stops, and it is run again. -/
example : ∃ ls s, Permitted false true ls ∧ exec (init udsServer) ls = some s ∧ s.crash = none ∧ s.isRunning = true ∧ s.cons = 3 :=
  ⟨[.run, .go 0 true, .go 0 true, .go 0 true, .go 0 true, .go 0 true, .go 0 true, .go 0 true, .go 0 true, .go 0 true, .go 0 true, .go 0 false, .go 0 true, .call, .recv 0, .save 0, .call,
    .recv 1, .save 1, .call, .recv 2, .run, .save 2, .go 1 true, .go 1 true, .go 1 true], _, by unfold Permitted; decide, rfl, rfl, rfl, rfl⟩

/-- A call on a stopped transport, exactly: it returns nil if and only if no connection was left in the channel. -/
theorem c57_nil_iff (conf : Conf) (ls : List Label) (s : Sys) (h : exec (init conf) ls = some s) (hc : s.crash = none) (hr : s.isRunning = false)
    (k : Nat) (ch : Chan) (hn : s.next = some k) (hk : s.chans[k]? = some ch) :
    ∃ s' r, exec s [.call, .recv s.callers.length, .save s.callers.length] = some s' ∧ s'.log = s.log ++ [.returned r] ∧ s'.crash = none ∧
      (r = none ↔ ch.buf = []) ∧ ∀ c, r = some c → ch.buf.head? = some c ∧ (c ∈ s'.closedCons → c ∈ s.closedCons) := by
  cases hb : ch.buf with
  | nil =>
    obtain ⟨s', h1, h2, h3⟩ := c57_nil_partial conf ls s h hc hr k ch hn hk hb
    exact ⟨s', none, h1, h2, h3, by simp, by simp⟩
  | cons c rest =>
    simp only [exec, Trace.exec, step, hc, if_true, act, Option.bind_some, hn, hk, hb, List.getElem?_append_right (Nat.le_refl _), Nat.sub_self,
      List.getElem?_cons_zero]
    rw [List.getElem?_set_self (by simp)]
    refine ⟨_, some c, rfl, rfl, (save_next _ _).2.2.2.2.2.2.2, by simp, ?_⟩
    intro d hd
    injection hd with hd
    subst hd
    refine ⟨rfl, fun hm => ?_⟩
    simp only [(save_next _ _).2.2.2.2.1] at hm
    exact hm

/-! ## Which connections are closed

A connection is closed by the transport exactly if `NextConnection` saves it while the transport is running. -/

/-- How much of something a list holds. -/
def weigh {α : Type} (f : α → Nat) (l : List α) : Nat := (l.map f).sum

theorem weigh_append {α : Type} (f : α → Nat) (l m : List α) : weigh f (l ++ m) = weigh f l + weigh f m := by
  simp [weigh]

theorem weigh_set {α : Type} (f : α → Nat) : ∀ (l : List α) (i : Nat) (a b : α), l[i]? = some b → weigh f (l.set i a) + f b = weigh f l + f a := by
  intro l
  induction l with
  | nil => intro i a b h; simp at h
  | cons x l ih =>
    intro i a b h
    cases i with
    | zero => simp at h; subst h; simp [weigh]; omega
    | succ i => have := ih i a b (by simpa using h); simp [weigh] at this ⊢; omega

theorem weigh_le {α : Type} (f : α → Nat) : ∀ (l : List α) (i : Nat) (b : α), l[i]? = some b → f b ≤ weigh f l := by
  intro l
  induction l with
  | nil => intro i b h; simp at h
  | cons x l ih =>
    intro i b h
    cases i with
    | zero => simp at h; subst h; simp [weigh]
    | succ i => have := ih i b (by simpa using h); simp [weigh] at this ⊢; omega

/-- A goroutine has connection `c` in its hands. -/
def inGo (c : Nat) : Go → Nat
  | .prep d _ => if d = c then 1 else 0
  | .push _ d _ => if d = c then 1 else 0
  | _ => 0

def inChan (c : Nat) (ch : Chan) : Nat := ch.buf.count c

def inCaller (c : Nat) : Caller → Nat
  | .got r => if r = some c then 1 else 0
  | _ => 0

/-- On the way between `Accept`/`Dial` and the caller of `NextConnection`. -/
def onTheWay (c : Nat) (s : Sys) : Nat := weigh (inGo c) s.gos + weigh (inChan c) s.chans + weigh (inCaller c) s.callers

/-- Each connection is in at most one place, and those not made yet are nowhere. -/
def Single (s : Sys) : Prop := ∀ c, onTheWay c s ≤ if c < s.cons then 1 else 0

theorem stop_way (c : Nat) (s : Sys) : onTheWay c (stop s) = onTheWay c s ∧ (stop s).cons = s.cons := by
  have h1 : ∀ a b : List Chan, a.map Chan.buf = b.map Chan.buf → weigh (inChan c) a = weigh (inChan c) b := by
    intro a b h
    have := congrArg (List.map fun l : List Nat => l.count c) h
    simp only [List.map_map] at this
    exact congrArg List.sum this
  refine ⟨?_, ?_⟩
  · simp only [onTheWay, (stop_same s).2.1, (stop_callers s).1, h1 _ _ (stop_chans s).2]
  · unfold stop
    split
    · rfl
    · cases s.listener <;> simp only <;> repeat' split
      all_goals rfl

/-- What one step does to the places of a connection: at most the newly made connection appears, nothing else does. -/
theorem way_step {s s' : Sys} {l : Label} (hs : step s l = some s') (c : Nat) :
    s.cons ≤ s'.cons ∧ onTheWay c s' ≤ onTheWay c s + (if s.cons ≤ c ∧ c < s'.cons then 1 else 0) := by
  obtain ⟨_, ha⟩ := not_crashed hs
  cases l with
  | run =>
    injection ha with ha; subst ha
    unfold run
    split
    · simp
    · simp only [onTheWay, weigh_append]
      have : weigh (inGo c) [if s.conf.forServer then .listen else .dial 0] = 0 := by split <;> rfl
      have : weigh (inChan c) [⟨[], false⟩] = 0 := rfl
      exact ⟨Nat.le_refl _, by omega⟩
  | stop => injection ha with ha; subst ha; obtain ⟨h1, h2⟩ := stop_way c s; rw [h1, h2]; exact ⟨Nat.le_refl _, by omega⟩
  | call =>
    injection ha with ha; subst ha
    simp only [onTheWay, weigh_append]
    have : weigh (inCaller c) [.waiting s.next] = 0 := rfl
    exact ⟨Nat.le_refl _, by omega⟩
  | recv i =>
    simp only [act] at ha
    split at ha
    · rename_i k hi
      split at ha
      · simp at ha
      · rename_i ch hk
        split at ha
        · rename_i d rest hb
          injection ha with ha; subst ha
          simp only [onTheWay]
          have e1 := weigh_set (inChan c) s.chans k { ch with buf := rest } ch hk
          have e2 := weigh_set (inCaller c) s.callers i (.got (some d)) _ hi
          have e3 : inChan c ch = inChan c { ch with buf := rest } + inCaller c (.got (some d)) := by
            simp only [inChan, hb, inCaller, List.count_cons, Option.some.injEq, beq_iff_eq]
          have e4 : inCaller c (.waiting (some k)) = 0 := rfl
          exact ⟨Nat.le_refl _, by omega⟩
        · split at ha
          · injection ha with ha; subst ha
            simp only [onTheWay]
            have e2 := weigh_set (inCaller c) s.callers i (.got none) _ hi
            have e3 : inCaller c (.got none) = 0 := by simp [inCaller]
            have e4 : inCaller c (.waiting (some k)) = 0 := rfl
            exact ⟨Nat.le_refl _, by omega⟩
          · simp at ha
    · simp at ha
  | save i =>
    simp only [act] at ha
    split at ha
    · rename_i r hi
      injection ha with ha; subst ha
      have hx : (save s r).cons = s.cons := by unfold save; split; rfl; split <;> rfl
      simp only [onTheWay, (save_next s r).2.2.2.2.2.1, (save_next s r).2.1, hx]
      have e2 := weigh_set (inCaller c) s.callers i (.returned r) _ hi
      have e3 : inCaller c (.returned r) = 0 := rfl
      exact ⟨Nat.le_refl _, by omega⟩
    · simp at ha
  | close d => injection ha with ha; subst ha; exact ⟨Nat.le_refl _, by simp only [onTheWay]; omega⟩
  | go j ok =>
    have mv : ∀ (s'' : Sys) (g g' : Go), s.gos[j]? = some g → s''.gos = s.gos.set j g' → s''.callers = s.callers →
        weigh (inChan c) s''.chans + inGo c g' ≤ weigh (inChan c) s.chans + inGo c g + (if s.cons ≤ c ∧ c < s''.cons then 1 else 0) →
        onTheWay c s'' ≤ onTheWay c s + (if s.cons ≤ c ∧ c < s''.cons then 1 else 0) := by
      intro s'' g g' hj h1 h2 h3
      have := weigh_set (inGo c) s.gos j g' g hj
      simp only [onTheWay, h1, h2]
      omega
    cases hj : s.gos[j]? with
    | none => simp [act, goStep, hj] at ha
    | some g =>
      cases g with
      | listen =>
        simp only [act, goStep, hj] at ha
        split at ha <;> injection ha with ha <;> subst ha
        · exact ⟨Nat.le_refl _, mv _ _ .loop hj rfl rfl (by simp [inGo, Sys.setGo])⟩
        · exact ⟨Nat.le_refl _, by simp only [onTheWay]; omega⟩
      | loop =>
        simp only [act, goStep, hj] at ha
        split at ha <;> injection ha with ha <;> subst ha
        · exact ⟨Nat.le_refl _, by simp only [onTheWay]; omega⟩
        · exact ⟨Nat.le_refl _, mv _ _ _ hj rfl rfl (by simp [inGo, Sys.setGo])⟩
      | accepting l =>
        simp only [act, goStep, hj] at ha
        split at ha
        · split at ha
          · simp at ha
          · injection ha with ha; subst ha
            refine ⟨by simp, mv _ _ (.prep s.cons true) hj rfl rfl ?_⟩
            simp only [inGo, Sys.setGo]
            split <;> split <;> omega
        · injection ha with ha; subst ha
          exact ⟨Nat.le_refl _, mv _ _ .stopping hj rfl rfl (by simp [inGo, Sys.setGo])⟩
      | prep d again =>
        simp only [act, goStep, hj] at ha
        split at ha
        · simp at ha
        · injection ha with ha; subst ha
          exact ⟨Nat.le_refl _, mv _ _ _ hj rfl rfl (by simp only [inGo, Sys.setGo]; omega)⟩
      | push k d again =>
        simp only [act, goStep, hj] at ha
        split at ha
        · simp at ha
        · rename_i ch hk
          split at ha
          · injection ha with ha; subst ha
            exact ⟨Nat.le_refl _, by simp only [onTheWay]; omega⟩
          · split at ha
            · injection ha with ha; subst ha
              refine ⟨Nat.le_refl _, mv _ _ _ hj rfl rfl ?_⟩
              have e1 := weigh_set (inChan c) s.chans k { ch with buf := ch.buf ++ [d] } ch hk
              have e2 : inChan c { ch with buf := ch.buf ++ [d] } = inChan c ch + inGo c (.push k d again) := by
                simp only [inChan, inGo, List.count_append, List.count_singleton, beq_iff_eq]
              have e3 : inGo c (if again then .loop else .done) = 0 := by cases again <;> rfl
              simp only [Sys.setGo]
              omega
            · simp at ha
      | dial i =>
        simp only [act, goStep, hj] at ha
        split at ha
        · split at ha <;> injection ha with ha <;> subst ha
          · refine ⟨by simp, mv _ _ (.prep s.cons false) hj rfl rfl ?_⟩
            simp only [inGo, Sys.setGo]
            split <;> split <;> omega
          · exact ⟨Nat.le_refl _, mv _ _ (.dial (i + 1)) hj rfl rfl (by simp [inGo, Sys.setGo])⟩
        · injection ha with ha; subst ha
          exact ⟨Nat.le_refl _, mv _ _ .stopping hj rfl rfl (by simp [inGo, Sys.setGo])⟩
      | stopping =>
        simp only [act, goStep, hj] at ha
        injection ha with ha; subst ha
        obtain ⟨h1, h2⟩ := stop_way c (s.setGo j .done)
        rw [h1, h2]
        exact ⟨Nat.le_refl _, mv _ _ .done hj rfl rfl (by simp [inGo, Sys.setGo])⟩
      | done => simp [act, goStep, hj] at ha

theorem single_exec (conf : Conf) (ls : List Label) (s : Sys) (h : exec (init conf) ls = some s) : Single s := by
  refine invariant (step := step) (Q := fun _ => True) (P := Single) ?_ ls (init conf) s ?_ (fun _ _ => trivial) h
  · intro s l s' hp _ hs c
    obtain ⟨h1, h2⟩ := way_step hs c
    have := hp c
    split at this <;> split at h2 <;> split <;> omega
  · intro c; simp [init, onTheWay, weigh]

/-- Connection `c` has left, and the transport has forgotten it. -/
structure Left (c : Nat) (s : Sys) : Prop where
  made : c < s.cons
  nowhere : onTheWay c s = 0
  forgotten : s.isRunning = true → some c ∉ s.saved
  open_ : c ∉ s.closedCons

theorem left_stop {c : Nat} {s : Sys} (h : Left c s) (hw : Wf s) : Left c (stop s) := by
  obtain ⟨h1, h2⟩ := stop_way c s
  refine ⟨by rw [h2]; exact h.made, by rw [h1]; exact h.nowhere, fun hr => ?_, ?_⟩
  · rw [saved_stop]
    refine h.forgotten ?_
    by_cases e : s.isRunning = true
    · exact e
    · rw [stop, if_pos (by simpa using e)] at hr; exact hr
  · by_cases e : s.isRunning = true
    · obtain ⟨ch, _, _, he⟩ := stop_running hw e
      rw [he]
      have hf := h.forgotten e
      have ho := h.open_
      cases hl : s.listener <;> simp only <;> split <;>
      · first
        | exact ho
        | (simp only [List.mem_append, List.mem_filterMap, id]
           rintro (hm | ⟨x, hx, rfl⟩)
           · exact ho hm
           · exact hf hx)
    · rw [stop, if_pos (by simpa using e)]; exact h.open_

theorem left_step {c : Nat} {s s' : Sys} {l : Label} (h : Left c s) (hw : Wf s) (hl : l ≠ .close c) (hs : step s l = some s') : Left c s' := by
  obtain ⟨w1, w2⟩ := way_step hs c
  have hm := h.made
  have hnow : onTheWay c s' = 0 := by
    rw [h.nowhere, if_neg (by omega)] at w2
    omega
  obtain ⟨_, ha⟩ := not_crashed hs
  cases l with
  | run =>
    injection ha with ha; subst ha
    unfold run at hnow w1 ⊢
    split
    · exact h
    · rename_i e
      rw [if_neg e] at hnow w1
      exact ⟨hm, hnow, fun _ => by simp, h.open_⟩
  | stop => injection ha with ha; subst ha; exact left_stop h hw
  | call => injection ha with ha; subst ha; exact ⟨hm, hnow, h.forgotten, h.open_⟩
  | recv i =>
    simp only [act] at ha
    repeat' split at ha
    all_goals first | (injection ha with ha; subst ha; exact ⟨hm, hnow, h.forgotten, h.open_⟩) | simp at ha
  | save i =>
    simp only [act] at ha
    split at ha
    · rename_i r hi
      injection ha with ha; subst ha
      have hr : r ≠ some c := by
        intro e
        have := weigh_le (inCaller c) s.callers i _ hi
        have h0 := h.nowhere
        simp only [onTheWay] at h0
        simp only [inCaller, e, if_true] at this
        omega
      refine ⟨by omega, hnow, fun hrun => ?_, ?_⟩
      · simp only [(save_next s r).2.2.1] at hrun
        have := h.forgotten hrun
        simp only [save]
        split
        · exact this
        · split
          · exact this
          · simp only [List.mem_append, List.mem_singleton]
            rintro (e | e)
            · exact this e
            · exact hr e.symm
      · simp only [(save_next s r).2.2.2.2.1]; exact h.open_
    · simp at ha
  | close d =>
    injection ha with ha; subst ha
    refine ⟨hm, hnow, h.forgotten, ?_⟩
    simp only [List.mem_append, List.mem_singleton]
    rintro (e | e)
    · exact h.open_ e
    · exact hl (by rw [e])
  | go j ok =>
    simp only [act, goStep] at ha
    repeat' split at ha
    all_goals first
      | (injection ha with ha; subst ha
         first
         | exact ⟨by omega, hnow, h.forgotten, h.open_⟩
         | (have hh : Left c (s.setGo j .done) := ⟨hm, by
              rw [(stop_way c _).1] at hnow; exact hnow, h.forgotten, h.open_⟩
            exact left_stop hh (hw.same rfl rfl rfl)))
      | simp at ha

/-- Connection `c` is closed, or will be by `Stop`. -/
def Minded (c : Nat) (s : Sys) : Prop := c ∈ s.closedCons ∨ (s.isRunning = true ∧ some c ∈ s.saved)

theorem minded_stop {c : Nat} {s : Sys} (h : Minded c s) (hw : Wf s) (hn : (stop s).crash = none) : c ∈ (stop s).closedCons := by
  by_cases hr : s.isRunning = true
  · obtain ⟨ch, hk, hcl, he⟩ := stop_running hw hr
    rw [he] at hn ⊢
    cases hl : s.listener <;> simp only [hl] at hn ⊢ <;>
    · split at hn
      · simp at hn
      · rename_i hs
        rw [if_neg hs]
        rcases h with h | ⟨_, h⟩
        · exact List.mem_append_left _ h
        · refine List.mem_append_right _ ?_
          simp only [List.mem_filterMap]
          exact ⟨some c, h, rfl⟩
  · rw [stop, if_pos (by simpa using hr)]
    exact h.resolve_right fun h => hr h.1

theorem minded_step {c : Nat} {s s' : Sys} {l : Label} (h : Minded c s) (hw : Wf s) (hs : step s l = some s') (hn : s'.crash = none) : Minded c s' := by
  obtain ⟨_, ha⟩ := not_crashed hs
  cases l with
  | run =>
    injection ha with ha; subst ha
    unfold run
    split
    · exact h
    · rename_i e; exact .inl (h.resolve_right fun h => e h.1)
  | stop => injection ha with ha; subst ha; exact .inl (minded_stop h hw hn)
  | call => injection ha with ha; subst ha; exact h
  | recv i =>
    simp only [act] at ha
    repeat' split at ha
    all_goals first | (injection ha with ha; subst ha; exact h) | simp at ha
  | save i =>
    simp only [act] at ha
    split at ha
    · rename_i r hi
      injection ha with ha; subst ha
      obtain ⟨_, _, e3, _, e5, _⟩ := save_next s r
      simp only [Minded, e3, e5]
      refine h.imp id fun ⟨a, b⟩ => ⟨a, ?_⟩
      unfold save
      split
      · exact b
      · split
        · exact b
        · exact List.mem_append_left _ b
    · simp at ha
  | close d => injection ha with ha; subst ha; exact h.imp (List.mem_append_left _) id
  | go j ok =>
    simp only [act, goStep] at ha
    repeat' split at ha
    all_goals first
      | (injection ha with ha; subst ha
         first
         | exact h
         | exact .inl (minded_stop (s := s.setGo j .done) h (hw.same rfl rfl rfl) hn))
      | simp at ha

/-- C57, "closes every connection it handed out", exactly: a connection that `NextConnection` returns, and that nobody else closes, is closed when the
transport has been stopped afterwards if and only if the transport was running when `NextConnection` saved it. -/
theorem c57_closed_exact (conf : Conf) (pre post : List Label) (i c : Nat) (s1 s : Sys) (h1 : exec (init conf) pre = some s1)
    (hi : s1.callers[i]? = some (.got (some c))) (hopen : c ∉ s1.closedCons) (hcl : .close c ∉ post)
    (h : exec s1 (.save i :: post) = some s) (hc : s.crash = none) (hr : s.isRunning = false) :
    c ∈ s.closedCons ↔ s1.isRunning = true := by
  obtain ⟨s2, h2, h3⟩ := exec_cons (step := step) h
  obtain ⟨hc1, ha⟩ := not_crashed h2
  have hsafe : s2.crash = none := by
    simp only [act, hi] at ha
    injection ha with ha; subst ha
    exact (save_next _ _).2.2.2.2.2.2.2.trans hc1
  have hpre : exec (init conf) (pre ++ [.save i]) = some s2 := by
    show Trace.exec step _ _ = _
    rw [exec_append, show Trace.exec step _ _ = _ from h1]
    simp only [Option.bind_some, Trace.exec, h2]
  have hw2 := wf_exec conf _ s2 hpre hsafe
  constructor
  · intro hin
    refine Classical.byContradiction fun hrun => ?_
    have hrun : s1.isRunning = false := by simpa using hrun
    have hsing := single_exec conf pre s1 h1 c
    have hle := weigh_le (inCaller c) s1.callers i _ hi
    have hone : inCaller c (.got (some c)) = 1 := by simp [inCaller]
    have hmade : c < s1.cons := by
      refine Classical.byContradiction fun e => ?_
      rw [if_neg e] at hsing
      simp only [onTheWay] at hsing
      omega
    have hleft : Left c s2 := by
      simp only [act, hi] at ha
      injection ha with ha; subst ha
      have hx : (save s1 (some c)).cons = s1.cons := by unfold save; split; rfl; split <;> rfl
      refine ⟨by simp only [hx]; exact hmade, ?_, fun e => ?_, by simp only [(save_next s1 (some c)).2.2.2.2.1]; exact hopen⟩
      · have e2 := weigh_set (inCaller c) s1.callers i (.returned (some c)) _ hi
        have e3 : inCaller c (.returned (some c)) = 0 := rfl
        rw [if_pos hmade] at hsing
        simp only [onTheWay, (save_next s1 (some c)).2.2.2.2.2.1, (save_next s1 (some c)).2.1] at hsing ⊢
        omega
      · simp only [(save_next s1 (some c)).2.2.1, hrun] at e
        cases e
    have : s.crash = none → Wf s ∧ Left c s := by
      refine invariant (step := step) (Q := fun l => l ≠ .close c) (P := fun s => s.crash = none → Wf s ∧ Left c s) ?_ post s2 s
        (fun _ => ⟨hw2, hleft⟩) (fun l hl e => hcl (by rw [← e]; exact hl)) h3
      intro a l b hp hq hs hn
      obtain ⟨x, y⟩ := hp (not_crashed hs).1
      exact ⟨wf_step x hs hn, left_step y x hq hs⟩
    exact (this hc).2.open_ hin
  · intro hrun
    have hmind : Minded c s2 := by
      simp only [act, hi] at ha
      injection ha with ha; subst ha
      refine .inr ⟨by simp only [(save_next s1 (some c)).2.2.1]; exact hrun, ?_⟩
      simp only [save]
      rw [if_neg (by simp)]
      split
      · assumption
      · simp
    have : s.crash = none → Wf s ∧ Minded c s := by
      refine invariant (step := step) (Q := fun _ => True) (P := fun s => s.crash = none → Wf s ∧ Minded c s) ?_ post s2 s
        (fun _ => ⟨hw2, hmind⟩) (fun _ _ => trivial) h3
      intro a l b hp _ hs hn
      obtain ⟨x, y⟩ := hp (not_crashed hs).1
      exact ⟨wf_step x hs hn, minded_step y x hs hn⟩
    exact (this hc).2.resolve_right fun e => by rw [hr] at e; cases e.1

/-- One connection saved before `Stop`, one after it. -/
example : ∃ s1 s, exec (init udsServer) [.run, .go 0 true, .go 0 true, .go 0 true, .go 0 true, .go 0 true, .go 0 true, .go 0 true, .go 0 true, .go 0 true, .go 0 true,
      .call, .recv 0, .save 0, .call, .recv 1, .stop] = some s1 ∧ s1.callers[1]? = some (.got (some 1)) ∧ 1 ∉ s1.closedCons ∧
    exec s1 [.save 1, .run, .go 0 false, .go 0 true] = some s ∧ s.crash = none ∧ s.isRunning = false ∧ s.closedCons = [0] :=
  ⟨_, _, rfl, rfl, by decide, rfl, rfl, rfl, rfl⟩

end Verif.Conn.Stream
