import Verif.Conn.StreamExact

/-!
# When a run yields at most one connection (C56)

`c56_bounded` counts the dials and connections of each `connect` goroutine.  A user of the transport does not see goroutines but runs: between two effective calls of
`Run` there is one channel `t.next` (tran_tcp.go:260).  Here: exactly when no run yields more than one connection, and what is left behind by a run whose dials all fail.
-/

namespace Verif.Conn.Stream
open Verif.Trace

/-- Connections waiting in the channel of run `k`. -/
def amount (k : Nat) (s : Sys) : Nat := ((s.chans[k]?).map fun ch => ch.buf.length).getD 0

/-- How many connections are put into the channel of run `k` during the steps `ls`. -/
def yields (k : Nat) : Sys → List Label → Nat
  | _, [] => 0
  | s, l :: ls => match step s l with
    | none => 0
    | some s' => (if amount k s < amount k s' then 1 else 0) + yields k s' ls

theorem yields_snoc (k : Nat) : ∀ (ls : List Label) (s m s' : Sys) (l : Label), exec s ls = some m → step m l = some s' →
    yields k s (ls ++ [l]) = yields k s ls + if amount k m < amount k s' then 1 else 0 := by
  intro ls
  induction ls with
  | nil => intro s m s' l h hl; injection h with h; subst h; simp [yields, hl]
  | cons x ls ih =>
    intro s m s' l h hl
    obtain ⟨t, ht, h'⟩ := exec_cons (step := step) h
    simp only [List.cons_append, yields, ht, ih t m s' l h' hl]
    omega

/-- Only goroutines put connections into channels, and each time it is logged. -/
theorem grow_step {s s' : Sys} {l : Label} {k : Nat} (hs : step s l = some s') (hg : amount k s < amount k s') :
    ∃ j ok c again, l = .go j ok ∧ s.gos[j]? = some (.push k c again) ∧ s'.log = s.log ++ [.sent j c] := by
  have keep : ∀ t : Sys, t.chans = s.chans → ¬ amount k s < amount k t := fun t h => by simp [amount, h]
  have bufs : ∀ t : Sys, t.chans.map Chan.buf = s.chans.map Chan.buf → ¬ amount k s < amount k t := fun t h => by
    have := congrArg (fun x : List (List Nat) => (x[k]?.map List.length).getD 0) h
    simp only [List.getElem?_map, Option.map_map] at this
    have e : ∀ u : Sys, amount k u = (Option.map (List.length ∘ Chan.buf) u.chans[k]?).getD 0 := fun _ => rfl
    rw [e, e, this]; omega
  obtain ⟨_, ha⟩ := not_crashed hs
  cases l with
  | run =>
    exfalso
    injection ha with ha; subst ha
    revert hg
    unfold run
    split
    · exact keep _ rfl
    · simp only [amount, List.getElem?_append]
      split
      · omega
      · cases hz : k - s.chans.length <;> simp
  | stop => injection ha with ha; subst ha; exact absurd hg (bufs _ (stop_chans s).2)
  | call => injection ha with ha; subst ha; exact absurd hg (keep _ rfl)
  | recv i =>
    exfalso
    simp only [act] at ha
    split at ha
    · rename_i q hi
      split at ha
      · simp at ha
      · rename_i ch hk
        split at ha
        · rename_i d rest hb
          injection ha with ha; subst ha
          revert hg
          simp only [amount, List.getElem?_set]
          split
          · rename_i e; subst e
            split <;> simp [hk, hb] 
          · omega
        · split at ha
          · injection ha with ha; subst ha; exact keep _ rfl hg
          · simp at ha
    · simp at ha
  | save i =>
    simp only [act] at ha
    split at ha
    · rename_i r hi
      injection ha with ha; subst ha
      exact absurd hg (keep _ (save_next s r).2.1)
    · simp at ha
  | close d => injection ha with ha; subst ha; exact absurd hg (keep _ rfl)
  | go j ok =>
    simp only [act, goStep] at ha
    split at ha
    · simp at ha
    · split at ha <;> injection ha with ha <;> subst ha <;> exact absurd hg (keep _ rfl)
    · split at ha <;> injection ha with ha <;> subst ha <;> exact absurd hg (keep _ rfl)
    · split at ha
      · split at ha
        · simp at ha
        · injection ha with ha; subst ha; exact absurd hg (keep _ rfl)
      · injection ha with ha; subst ha; exact absurd hg (keep _ rfl)
    · split at ha
      · simp at ha
      · injection ha with ha; subst ha; exact absurd hg (keep _ rfl)
    · rename_i q c again hj
      split at ha
      · simp at ha
      · rename_i ch hk
        split at ha
        · injection ha with ha; subst ha; exact absurd hg (keep _ rfl)
        · split at ha
          · injection ha with ha; subst ha
            have : q = k := by
              refine Classical.byContradiction fun e => ?_
              revert hg
              simp only [amount, List.getElem?_set, if_neg e]
              omega
            subst this
            exact ⟨j, ok, c, again, rfl, hj, rfl⟩
          · simp at ha
    · split at ha
      · split at ha <;> injection ha with ha <;> subst ha <;> exact absurd hg (keep _ rfl)
      · injection ha with ha; subst ha; exact absurd hg (keep _ rfl)
    · injection ha with ha; subst ha
      exact absurd hg (bufs _ (stop_chans (s.setGo j .done)).2)
    · simp at ha

/-- The goroutines and how a step changes them. -/
theorem gos_step {s s' : Sys} {l : Label} (hs : step s l = some s') :
    (s'.gos = s.gos ∧ s'.chans.length = s.chans.length) ∨
    (l = .run ∧ s.isRunning = false ∧ s'.gos = s.gos ++ [if s.conf.forServer then .listen else .dial 0] ∧ s'.chans.length = s.chans.length + 1) ∨
    (∃ j ok g g', l = .go j ok ∧ s.gos[j]? = some g ∧ g ≠ .done ∧ s'.gos = s.gos.set j g' ∧ s'.chans.length = s.chans.length ∧
      (∀ k c a, g' = .push k c a → s.next = some k) ∧ (g' = .done → g = .stopping ∧ s' = stop (s.setGo j .done) ∨ ∃ k c a, g = .push k c a)) := by
  obtain ⟨_, ha⟩ := not_crashed hs
  cases l with
  | run =>
    injection ha with ha; subst ha
    unfold run
    split
    · exact .inl ⟨rfl, rfl⟩
    · rename_i e; exact .inr (.inl ⟨rfl, by simpa using e, rfl, by simp⟩)
  | stop => injection ha with ha; subst ha; exact .inl ⟨(stop_same s).2.1, (stop_callers s).2⟩
  | call => injection ha with ha; subst ha; exact .inl ⟨rfl, rfl⟩
  | recv i =>
    simp only [act] at ha
    repeat' split at ha
    all_goals first | (injection ha with ha; subst ha; exact .inl ⟨rfl, by simp⟩) | simp at ha
  | save i =>
    simp only [act] at ha
    split at ha
    · rename_i r hi
      injection ha with ha; subst ha
      exact .inl ⟨(save_next s r).2.2.2.2.2.1, by simp only [(save_next s r).2.1]⟩
    · simp at ha
  | close d => injection ha with ha; subst ha; exact .inl ⟨rfl, rfl⟩
  | go j ok =>
    simp only [act, goStep] at ha
    split at ha
    · simp at ha
    · rename_i hj
      split at ha <;> injection ha with ha <;> subst ha
      · exact .inr (.inr ⟨j, ok, _, .loop, rfl, hj, by simp, rfl, rfl, by simp, by simp⟩)
      · exact .inl ⟨rfl, rfl⟩
    · rename_i hj
      split at ha <;> injection ha with ha <;> subst ha
      · exact .inl ⟨rfl, rfl⟩
      · exact .inr (.inr ⟨j, ok, _, _, rfl, hj, by simp, rfl, rfl, by simp, by simp⟩)
    · rename_i hj
      split at ha
      · split at ha
        · simp at ha
        · injection ha with ha; subst ha
          exact .inr (.inr ⟨j, ok, _, _, rfl, hj, by simp, rfl, rfl, by simp, by simp⟩)
      · injection ha with ha; subst ha
        exact .inr (.inr ⟨j, ok, _, _, rfl, hj, by simp, rfl, rfl, by simp, by simp⟩)
    · rename_i c again hj
      split at ha
      · simp at ha
      · rename_i k hn
        injection ha with ha; subst ha
        refine .inr (.inr ⟨j, ok, _, _, rfl, hj, by simp, rfl, rfl, ?_, by simp⟩)
        intro k' c' a' e
        injection e with e
        rw [hn, e]
    · rename_i q c again hj
      split at ha
      · simp at ha
      · split at ha
        · injection ha with ha; subst ha; exact .inl ⟨rfl, rfl⟩
        · split at ha
          · injection ha with ha; subst ha
            exact .inr (.inr ⟨j, ok, _, _, rfl, hj, by simp, rfl, by simp, by cases again <;> simp, fun _ => .inr ⟨q, c, again, rfl⟩⟩)
          · simp at ha
    · rename_i hj
      split at ha
      · split at ha <;> injection ha with ha <;> subst ha
        · exact .inr (.inr ⟨j, ok, _, _, rfl, hj, by simp, rfl, rfl, by simp, by simp⟩)
        · exact .inr (.inr ⟨j, ok, _, _, rfl, hj, by simp, rfl, rfl, by simp, by simp⟩)
      · injection ha with ha; subst ha
        exact .inr (.inr ⟨j, ok, _, _, rfl, hj, by simp, rfl, rfl, by simp, by simp⟩)
    · rename_i hj
      injection ha with ha; subst ha
      exact .inr (.inr ⟨j, ok, _, .done, rfl, hj, by simp, (stop_same (s.setGo j .done)).2.1, (stop_callers (s.setGo j .done)).2, by simp, fun _ => .inl ⟨rfl, rfl⟩⟩)
    · simp at ha

/-- The log only grows. -/
theorem log_step {s s' : Sys} {l : Label} (hs : step s l = some s') : ∃ es, s'.log = s.log ++ es := by
  obtain ⟨_, ha⟩ := not_crashed hs
  cases l with
  | run => injection ha with ha; subst ha; refine ⟨[], ?_⟩; unfold run; split <;> simp
  | stop => injection ha with ha; subst ha; exact ⟨[], by rw [(stop_same s).2.2]; simp⟩
  | call => injection ha with ha; subst ha; exact ⟨[], by simp⟩
  | recv i =>
    simp only [act] at ha
    repeat' split at ha
    all_goals first | (injection ha with ha; subst ha; exact ⟨[], by simp⟩) | simp at ha
  | save i =>
    simp only [act] at ha
    split at ha
    · injection ha with ha; subst ha; exact ⟨_, rfl⟩
    · simp at ha
  | close d => injection ha with ha; subst ha; exact ⟨[], by simp⟩
  | go j ok =>
    simp only [act, goStep] at ha
    repeat' split at ha
    all_goals first
      | (injection ha with ha; subst ha
         first
         | exact ⟨[], (List.append_nil _).symm⟩
         | exact ⟨_, rfl⟩
         | exact ⟨[], by rw [(stop_same _).2.2]; simp [Sys.setGo]⟩)
      | simp at ha

/-- Only `Run` starts a transport. -/
theorem running_step {s s' : Sys} {l : Label} (hs : step s l = some s') (hn : s'.crash = none) : l = .run ∨ s'.isRunning = false ∨ s'.isRunning = s.isRunning := by
  obtain ⟨_, ha⟩ := not_crashed hs
  cases l with
  | run => exact .inl rfl
  | stop => injection ha with ha; subst ha; exact .inr (.inl (stop_off hn))
  | call => injection ha with ha; subst ha; exact .inr (.inr rfl)
  | recv i =>
    simp only [act] at ha
    repeat' split at ha
    all_goals first | (injection ha with ha; subst ha; exact .inr (.inr rfl)) | simp at ha
  | save i =>
    simp only [act] at ha
    split at ha
    · rename_i r _; injection ha with ha; subst ha; exact .inr (.inr (save_next s r).2.2.1)
    · simp at ha
  | close d => injection ha with ha; subst ha; exact .inr (.inr rfl)
  | go j ok =>
    simp only [act, goStep] at ha
    repeat' split at ha
    all_goals first
      | (injection ha with ha; subst ha
         first
         | exact .inr (.inr rfl)
         | exact .inr (.inl (stop_off hn)))
      | simp at ha

/-- Each run has its goroutine and its channel. -/
theorem lined_exec (conf : Conf) (ls : List Label) (s : Sys) (h : exec (init conf) ls = some s) : s.chans.length = s.gos.length := by
  refine invariant (step := step) (Q := fun _ => True) (P := fun s => s.chans.length = s.gos.length) ?_ ls (init conf) s rfl (fun _ _ => trivial) h
  intro s l s' hp _ hs
  rcases gos_step hs with ⟨h1, h2⟩ | ⟨_, _, h1, h2⟩ | ⟨j, ok, g, g', _, _, _, h1, h2, _⟩
  · rw [h1, h2, hp]
  · rw [h1, h2, hp]; simp
  · rw [h1, h2, hp]; simp

/-! ## Runs one after the other -/

/-- `Run` is called on a stopped transport only when the goroutines of the earlier runs have ended. -/
def Patient (conf : Conf) (ls : List Label) : Prop :=
  ∀ pre post, ls = pre ++ .run :: post → ∀ s, exec (init conf) pre = some s → s.isRunning = false → ∀ g ∈ s.gos, g = .done

/-- Only the goroutine of the last run is still at work, and it uses the channel of its own run. -/
structure Turns (s : Sys) : Prop where
  last : ∀ (j : Nat) (g : Go), s.gos[j]? = some g → g ≠ .done → j + 1 = s.gos.length
  own : ∀ (j k c : Nat) (a : Bool), s.gos[j]? = some (.push k c a) → k = j

theorem turns_exec (conf : Conf) : ∀ ls : List Label, Patient conf ls → ∀ s, exec (init conf) ls = some s →
    Turns s ∧ ∀ k, yields k (init conf) ls ≤ sentBy k s.log := by
  refine snoc_induction ?_ ?_
  · intro _ s h
    injection h with h; subst h
    exact ⟨⟨by intro j g hj; simp [init] at hj, by intro j k c a hj; simp [init] at hj⟩, fun k => Nat.zero_le _⟩
  · intro ls l ih hpat s' h
    obtain ⟨s, hs, hl⟩ := exec_snoc (step := step) h
    have hc0 := (not_crashed hl).1
    obtain ⟨ht, hy⟩ := ih (fun pre post e s h => hpat pre (post ++ [l]) (by rw [e]; simp) s h) s hs
    have hw := wf_exec conf ls s hs hc0
    have hlined := lined_exec conf ls s hs
    refine ⟨?_, fun k => ?_⟩
    · rcases gos_step hl with ⟨h1, _⟩ | ⟨e, hr, h1, _⟩ | ⟨j, ok, g, g', e, hj, hg, h1, _, hpush, _⟩
      · exact ⟨by rw [h1]; exact ht.last, by rw [h1]; exact ht.own⟩
      · subst e
        have hdone := hpat ls [] rfl s hs hr
        constructor
        · intro j g hj hg
          rw [h1] at hj ⊢
          rw [List.getElem?_append] at hj
          split at hj
          · exact absurd (hdone g (List.mem_of_getElem? hj)) hg
          · cases hz : j - s.gos.length with
            | zero => simp; omega
            | succ z => rw [hz] at hj; simp at hj
        · intro j k c a hj
          rw [h1, List.getElem?_append] at hj
          split at hj
          · exact ht.own j k c a hj
          · cases hz : j - s.gos.length with
            | zero => rw [hz] at hj; simp at hj; split at hj <;> cases hj
            | succ z => rw [hz] at hj; simp at hj
      · have hlast := ht.last j g hj hg
        constructor
        · intro i x hi hx
          rw [h1, List.length_set]
          rw [h1, List.getElem?_set] at hi
          split at hi
          · omega
          · exact ht.last i x hi hx
        · intro i k c a hi
          rw [h1, List.getElem?_set] at hi
          split at hi
          · rename_i e2
            split at hi
            · injection hi with hi
              have := hpush k c a hi
              rw [hw.last, hlined, if_neg (by omega)] at this
              injection this with this
              omega
            · simp at hi
          · exact ht.own i k c a hi
    · rw [yields_snoc k ls _ s s' l hs hl]
      have hk := hy k
      by_cases hg : amount k s < amount k s'
      · rw [if_pos hg]
        obtain ⟨j, ok, c, again, _, hj, hlog⟩ := grow_step hl hg
        have hkj := ht.own j k c again hj
        subst hkj
        have : sentBy k s'.log = sentBy k s.log + 1 := by rw [hlog]; simp [sentBy, List.countP_append]
        omega
      · rw [if_neg hg]
        obtain ⟨es, hes⟩ := log_step hl
        have : sentBy k s.log ≤ sentBy k s'.log := by rw [hes]; simp only [sentBy, List.countP_append]; omega
        omega

/-! ## A run whose dials all fail -/

/-- The channel of a run whose goroutine has ended without a connection is closed, whatever else goes on: `NextConnection` waits on it no longer. -/
theorem c56_closed (conf : Conf) (hf : conf.forServer = false) (ls : List Label) (s : Sys) (h : exec (init conf) ls = some s) (hcr : s.crash = none)
    (j : Nat) (hd : s.gos[j]? = some .done) (hok : okDialsOf j s.log = 0) : ∃ ch, s.chans[j]? = some ch ∧ ch.closed = true := by
  have key : ∀ ls : List Label, ∀ s, exec (init conf) ls = some s → s.crash = none → ∀ j, s.gos[j]? = some .done → okDialsOf j s.log = 0 →
      j + 1 = s.gos.length → s.isRunning = false := by
    refine snoc_induction ?_ ?_
    · intro s h _ j hj
      injection h with h; subst h
      simp [init] at hj
    · intro ls l ih s' h hn j hj hok hlast
      obtain ⟨s, hs, hl⟩ := exec_snoc (step := step) h
      obtain ⟨hc0, ha⟩ := not_crashed hl
      have ih := ih s hs hc0 j
      obtain ⟨hcl, _⟩ := client_exec conf hf ls s hs
      have hok0 : okDialsOf j s.log = 0 := by
        obtain ⟨es, hes⟩ := log_step hl
        rw [hes] at hok
        simp only [okDialsOf, List.countP_append] at hok ⊢
        omega
      have hrun : s.isRunning = false → l ≠ .run → s'.isRunning = false := by
        intro hr hne
        rcases running_step hl hn with e | e | e
        · exact absurd e hne
        · exact e
        · rw [e, hr]
      rcases gos_step hl with ⟨h1, _⟩ | ⟨e, hr, h1, _⟩ | ⟨i, ok, g, g', e, hi, hg, h1, _, _, hdone⟩
      · rw [h1] at hj hlast
        have hr := ih hj hok0 hlast
        by_cases e : l = .run
        · subst e
          injection ha with ha; subst ha
          unfold run at h1
          rw [if_neg (by rw [hr]; simp)] at h1
          simp at h1
        · exact hrun hr e
      · rw [h1] at hj hlast
        simp at hlast
        rw [hlast, List.getElem?_append_right (Nat.le_refl _)] at hj
        simp [hcl.client] at hj
      · rw [h1, List.getElem?_set] at hj
        split at hj
        · rename_i e2
          subst e2
          split at hj
          · injection hj with hj
            rcases hdone hj with ⟨_, e3⟩ | ⟨k, c, a, e3⟩
            · rw [e3] at hn ⊢; exact stop_off hn
            · subst e3
              have := hcl.past i _ hi
              simp only [Past] at this
              omega
          · simp at hj
        · rw [h1, List.length_set] at hlast
          exact hrun (ih hj hok0 hlast) (by rw [e]; simp)
  have hw := wf_exec conf ls s h hcr
  have hlined := lined_exec conf ls s h
  have hlt := (List.getElem?_eq_some_iff.mp hd).1
  have hch : s.chans[j]? = some s.chans[j] := by simp [hlined, hlt]
  refine ⟨_, hch, ?_⟩
  rw [hw.closed j _ hch]
  by_cases e : j + 1 = s.gos.length
  · rw [key ls s h hcr j hd hok e]; rfl
  · rw [hlined]; simp [e]

/-- Two runs, both without success: the goroutine of the first one ends last and stops the second. -/
example : ∃ s, exec (init ⟨true, false, 1⟩) [.run, .stop, .run, .go 0 false, .go 0 false, .go 0 false] = some s ∧ s.crash = none ∧ s.gos[0]? = some .done ∧
    okDialsOf 0 s.log = 0 ∧ s.chans = [⟨[], true⟩, ⟨[], true⟩] := ⟨_, rfl, rfl, rfl, rfl, rfl⟩

/-! ## The condition -/

/-- A transport that may not dial puts nothing into any channel. -/
theorem no_dials (conf : Conf) (hf : conf.forServer = false) (hm : conf.maxRetryCount ≤ 0) : ∀ ls : List Label, ∀ s, exec (init conf) ls = some s →
    ∀ k, yields k (init conf) ls = 0 := by
  refine snoc_induction ?_ ?_
  · intro s _ k; rfl
  · intro ls l ih s' h k
    obtain ⟨s, hs, hl⟩ := exec_snoc (step := step) h
    rw [yields_snoc k ls _ s s' l hs hl, ih s hs k]
    by_cases hg : amount k s < amount k s'
    · exfalso
      obtain ⟨j, ok, c, again, _, hj, hlog⟩ := grow_step hl hg
      obtain ⟨b1, b2, b3⟩ := c56_bounded conf hf _ s' h j
      obtain ⟨hcl, he⟩ := client_exec conf hf ls s hs
      have hp := hcl.past j _ hj
      simp only [Past] at hp
      have h0 : dialsOf j s.log ≤ 0 := by have := hp.2.2.2; rw [he] at this; omega
      have h1 : okDialsOf j s.log ≤ dialsOf j s.log := List.countP_mono_left fun e _ => by cases e <;> simp; intro a _; exact a
      omega
    · rw [if_neg hg]

/-- C56 for runs, exactly: no run of a client transport yields more than one connection, whatever the schedule and the results of the dials, if and only if `Run` is only
called when the goroutines of earlier runs have ended, or the transport never dials. -/
theorem c56_exact (conf : Conf) (hf : conf.forServer = false) (patient : Bool) :
    (∀ ls s, exec (init conf) ls = some s → (patient = true → Patient conf ls) → ∀ k, yields k (init conf) ls ≤ 1) ↔
    patient = true ∨ conf.maxRetryCount ≤ 0 := by
  constructor
  · intro h
    cases patient with
    | true => exact .inl rfl
    | false =>
      right
      refine Classical.byContradiction fun hm => ?_
      have hpos : 0 < conf.maxRetryCount := by omega
      obtain ⟨g, f, m⟩ := conf
      simp only at hf hpos
      subst hf
      have e : ∃ s, exec (init ⟨g, false, m⟩) [.run, .stop, .run, .go 0 true, .go 0 true, .go 0 true, .go 1 true, .go 1 true, .go 1 true] = some s ∧
          yields 1 (init ⟨g, false, m⟩) [.run, .stop, .run, .go 0 true, .go 0 true, .go 0 true, .go 1 true, .go 1 true, .go 1 true] = 2 := by
        simp [exec, Trace.exec, yields, step, act, run, stop, goStep, init, Sys.setGo, amount, nextCap, hpos]
      obtain ⟨s, h1, h2⟩ := e
      have := h _ s h1 (by simp) 1
      omega
  · rintro (hp | hm) ls s he hpat k
    · have := (turns_exec conf ls (hpat hp) s he).2 k
      have := c56_bounded conf hf ls s he k
      omega
    · rw [no_dials conf hf hm ls s he k]; omega

/-- `Patient` can be checked by going through the list. -/
def patientB : Sys → List Label → Bool
  | _, [] => true
  | s, l :: ls => (decide (l ≠ .run) || s.isRunning || s.gos.all (fun g => decide (g = .done))) && match step s l with
    | none => true
    | some s' => patientB s' ls

theorem patient_of (conf : Conf) (ls : List Label) (h : patientB (init conf) ls = true) : Patient conf ls := by
  have key : ∀ (pre post : List Label) (s s' : Sys), patientB s (pre ++ .run :: post) = true → exec s pre = some s' → s'.isRunning = false → ∀ g ∈ s'.gos, g = .done := by
    intro pre
    induction pre with
    | nil =>
      intro post s s' h he hr
      injection he with he; subst he
      simp [patientB, hr] at h
      exact h.1
    | cons l pre ih =>
      intro post s s' h he hr
      obtain ⟨m, hm, he⟩ := exec_cons (step := step) he
      simp only [List.cons_append, patientB, hm, Bool.and_eq_true] at h
      exact ih post m s' h.2 he hr
  intro pre post e s he hr
  subst e
  exact key pre post _ s h he hr

/-- Two runs one after the other, each with its connection: the second `Run` comes when the first goroutine has ended. -/
example : Patient ⟨true, false, 2⟩ [.run, .go 0 false, .go 0 true, .go 0 true, .go 0 true, .stop, .run, .go 1 true, .go 1 true, .go 1 true] ∧
    yields 0 (init ⟨true, false, 2⟩) [.run, .go 0 false, .go 0 true, .go 0 true, .go 0 true, .stop, .run, .go 1 true, .go 1 true, .go 1 true] = 1 ∧
    yields 1 (init ⟨true, false, 2⟩) [.run, .go 0 false, .go 0 true, .go 0 true, .go 0 true, .stop, .run, .go 1 true, .go 1 true, .go 1 true] = 1 := by
  exact ⟨patient_of _ _ rfl, rfl, rfl⟩

end Verif.Conn.Stream
