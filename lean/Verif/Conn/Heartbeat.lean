/-!
# Heartbeat monitoring (C51, C52)

`updateMonitor`, `deleteMonitor`, `check` and the callers of these (proc_heartbeat.go:41-87, 112-136, 139-171, 193-198).  Times are
nanoseconds; `int(time.Since(last).Seconds())` is the whole number of seconds elapsed (simplification: the code goes through a
float64, which is exact for less than 2^23 seconds).  Go's random iteration order over the map is an arbitrary order of
the list of monitors: `check` takes it as an argument.  All of these functions hold `hb.mutex`, so each is one step.
-/

namespace Verif.Conn.Heartbeat

structure HB where
  /-- `timeoutInSecond` -/
  timeout : Int
  closeOnLost : Bool
  /-- connection and time of the last heartbeat -/
  monitors : List (Nat × Nat)
  deriving Repr, DecidableEq

inductive Eff where
  /-- `connection.Close()` -/
  | close (c : Nat)
  /-- `HeartbeatLost` published -/
  | lost (c : Nat)
  deriving Repr, DecidableEq

/-- `hb.monitors[c] = now` (proc_heartbeat.go:41-46) -/
def update (ms : List (Nat × Nat)) (c now : Nat) : List (Nat × Nat) :=
  match ms with
  | [] => [(c, now)]
  | (k, t) :: ms => if k = c then (k, now) :: ms else (k, t) :: update ms c now

/-- proc_heartbeat.go:49-57 -/
def remove (ms : List (Nat × Nat)) (c : Nat) : List (Nat × Nat) := ms.filter fun p => p.1 ≠ c

/-- The test at proc_heartbeat.go:69: whole seconds elapsed. -/
def expired (h : HB) (now last : Nat) : Bool := !decide ((((now - last) / 1000000000 : Nat) : Int) < h.timeout)

/-- The loop of `check` (proc_heartbeat.go:68-86) over the monitors in some order. -/
def checkLoop (h : HB) (now : Nat) : List (Nat × Nat) → HB × List Eff
  | [] => (h, [])
  | (c, last) :: rest =>
    if expired h now last then
      let h' := { h with monitors := remove h.monitors c }
      let r := checkLoop h' now rest
      (r.1, (if h.closeOnLost then [.close c] else []) ++ .lost c :: r.2)
    else checkLoop h now rest

/-- What happens to a Heartbeat. -/
inductive Ev where
  /-- `NewConnection` event (proc_heartbeat.go:140-144) -/
  | connected (c : Nat)
  /-- a message with tag 0x83 received (proc_heartbeat.go:128-133) -/
  | beat (c : Nat)
  /-- the sender goroutine sees the connection closed (proc_heartbeat.go:148-152) -/
  | gone (c : Nat)
  /-- `check`, visiting the monitors in the order given -/
  | check (order : List (Nat × Nat))
  deriving Repr, DecidableEq

/-- One event at a time. -/
def step (h : HB) (now : Nat) : Ev → HB × List Eff
  | .connected c => ({ h with monitors := update h.monitors c now }, [])
  | .beat c => ({ h with monitors := update h.monitors c now }, [])
  | .gone c => ({ h with monitors := remove h.monitors c }, [])
  | .check order => checkLoop h now order

def run (h : HB) : List (Nat × Ev) → HB × List Eff
  | [] => (h, [])
  | (t, e) :: es =>
    let r := step h t e
    let r' := run r.1 es
    (r'.1, r.2 ++ r'.2)

/-- The orders given are orders of the monitors at that moment. -/
def Valid (h : HB) : List (Nat × Ev) → Prop
  | [] => True
  | (t, e) :: es =>
    (match e with
      | .check order => order.Perm h.monitors
      | _ => True) ∧ Valid (step h t e).1 es

/-- Keys are different. -/
def Keys (ms : List (Nat × Nat)) : Prop := (ms.map Prod.fst).Nodup

/-- The time of the last refresh of `c` if it is monitored. -/
def last (ms : List (Nat × Nat)) (c : Nat) : Option Nat := (ms.find? fun p => p.1 = c).map Prod.snd

theorem last_mem {ms : List (Nat × Nat)} (hk : Keys ms) (c t : Nat) : last ms c = some t ↔ (c, t) ∈ ms := by
  induction ms with
  | nil => simp [last]
  | cons p ms ih =>
    obtain ⟨k, u⟩ := p
    rw [Keys, List.map_cons, List.nodup_cons] at hk
    by_cases h : k = c
    · subst h
      simp only [last, List.find?_cons, decide_true, Option.map_some, Option.some.injEq, List.mem_cons, Prod.mk.injEq, true_and]
      constructor
      · intro e; exact Or.inl e.symm
      · rintro (e | hm)
        · exact e.symm
        · exact absurd (List.mem_map.mpr ⟨_, hm, rfl⟩) hk.1
    · have : last ((k, u) :: ms) c = last ms c := by simp [last, List.find?_cons, h]
      rw [this, ih hk.2]
      simp [Ne.symm h]

theorem last_none {ms : List (Nat × Nat)} (c : Nat) : last ms c = none ↔ c ∉ ms.map Prod.fst := by
  induction ms with
  | nil => simp [last]
  | cons p ms ih =>
    obtain ⟨k, u⟩ := p
    by_cases h : k = c
    · simp [last, List.find?_cons, h]
    · have : last ((k, u) :: ms) c = last ms c := by simp [last, List.find?_cons, h]
      rw [this, ih]
      simp [Ne.symm h]

theorem last_update (ms : List (Nat × Nat)) (c d now : Nat) : last (update ms c now) d = if c = d then some now else last ms d := by
  induction ms with
  | nil => by_cases h : c = d <;> simp [update, last, List.find?_cons, h]
  | cons p ms ih =>
    obtain ⟨k, u⟩ := p
    simp only [update]
    by_cases hkc : k = c
    · subst hkc
      rw [if_pos rfl]
      by_cases h : k = d <;> simp [last, List.find?_cons, h]
    · rw [if_neg hkc]
      by_cases h : k = d
      · subst h
        rw [if_neg (Ne.symm hkc)]
        simp [last, List.find?_cons]
      · have e1 : last ((k, u) :: update ms c now) d = last (update ms c now) d := by simp [last, List.find?_cons, h]
        have e2 : last ((k, u) :: ms) d = last ms d := by simp [last, List.find?_cons, h]
        rw [e1, e2, ih]

theorem keys_update (ms : List (Nat × Nat)) (c now : Nat) : (update ms c now).map Prod.fst = if c ∈ ms.map Prod.fst then ms.map Prod.fst else ms.map Prod.fst ++ [c] := by
  induction ms with
  | nil => simp [update]
  | cons p ms ih =>
    obtain ⟨k, u⟩ := p
    simp only [update]
    by_cases hkc : k = c
    · subst hkc; simp
    · rw [if_neg hkc, List.map_cons, ih, List.map_cons]
      by_cases hm : c ∈ ms.map Prod.fst
      · rw [if_pos hm, if_pos (List.mem_cons_of_mem _ hm)]
      · rw [if_neg hm, if_neg]
        · rfl
        · rw [List.mem_cons, not_or]; exact ⟨Ne.symm hkc, hm⟩

theorem Keys.update {ms : List (Nat × Nat)} (h : Keys ms) (c now : Nat) : Keys (update ms c now) := by
  rw [Keys, keys_update]
  split
  · exact h
  · rename_i hc
    rw [List.nodup_append]
    refine ⟨h, by simp, ?_⟩
    intro a ha b hb
    rw [List.mem_singleton] at hb
    subst hb
    intro e; subst e; exact hc ha

theorem Keys.filter {ms : List (Nat × Nat)} (h : Keys ms) (p : Nat × Nat → Bool) : Keys (ms.filter p) := by
  exact List.Nodup.sublist (List.Sublist.map _ List.filter_sublist) h

theorem last_remove (ms : List (Nat × Nat)) (c d : Nat) : last (remove ms c) d = if c = d then none else last ms d := by
  induction ms with
  | nil => simp [remove, last]
  | cons p ms ih =>
    obtain ⟨k, u⟩ := p
    by_cases hkc : k = c
    · have : remove ((k, u) :: ms) c = remove ms c := by simp [remove, hkc]
      rw [this, ih]
      by_cases hcd : c = d
      · rw [if_pos hcd, if_pos hcd]
      · have hkd : k ≠ d := by rw [hkc]; exact hcd
        rw [if_neg hcd, if_neg hcd]
        simp [last, List.find?_cons, hkd]
    · have : remove ((k, u) :: ms) c = (k, u) :: remove ms c := by simp [remove, hkc]
      rw [this]
      by_cases hkd : k = d
      · subst hkd
        rw [if_neg (Ne.symm hkc)]
        simp [last, List.find?_cons]
      · have e1 : last ((k, u) :: remove ms c) d = last (remove ms c) d := by simp [last, List.find?_cons, hkd]
        have e2 : last ((k, u) :: ms) d = last ms d := by simp [last, List.find?_cons, hkd]
        rw [e1, e2, ih]

/-! ## C51 -/

/-- What a loop over some of the monitors does. -/
theorem checkLoop_spec (now : Nat) (order : List (Nat × Nat)) : ∀ h : HB,
    (checkLoop h now order).1 = { h with monitors := h.monitors.filter fun p => !(order.any fun q => q.1 = p.1 && expired h now q.2) } ∧
    (checkLoop h now order).2 = (order.filter fun p => expired h now p.2).flatMap fun p =>
      (if h.closeOnLost then [.close p.1] else []) ++ [.lost p.1] := by
  induction order with
  | nil =>
    intro h
    refine ⟨?_, rfl⟩
    have : (h.monitors.filter fun _ => true) = h.monitors := List.filter_eq_self.mpr (by simp)
    simp [checkLoop, this]
  | cons p order ih =>
    intro h
    obtain ⟨c, t⟩ := p
    simp only [checkLoop]
    by_cases he : expired h now t = true
    · rw [if_pos he]
      obtain ⟨i1, i2⟩ := ih { h with monitors := remove h.monitors c }
      have hexp : ∀ u, expired { h with monitors := remove h.monitors c } now u = expired h now u := fun _ => rfl
      constructor
      · simp only
        rw [i1]
        simp only [hexp, remove, List.filter_filter]
        congr 1
        apply List.filter_congr
        intro q _
        simp only [List.any_cons, he, Bool.and_true, Bool.not_or]
        rw [Bool.and_comm]
        congr 1
        by_cases hq : q.1 = c
        · simp [hq]
        · simp [hq, Ne.symm hq]
      · simp only
        rw [i2]
        simp [hexp, he]
    · have he' : expired h now t = false := by simpa using he
      rw [if_neg he]
      obtain ⟨i1, i2⟩ := ih h
      constructor
      · rw [i1]
        simp [he']
      · rw [i2]; simp [he']

/-- C51: a check at any time, in any iteration order: the connections declared lost are exactly those whose last heartbeat is at least the
timeout old, in whole seconds; one `HeartbeatLost` each, preceded by a close iff `CloseOnLost`; exactly these are no longer
monitored and the others are monitored as before. -/
theorem c51_check (h : HB) (hk : Keys h.monitors) (now : Nat) (order : List (Nat × Nat)) (ho : order.Perm h.monitors) :
    (∀ c, Eff.lost c ∈ (step h now (.check order)).2 ↔ ∃ t, last h.monitors c = some t ∧ h.timeout ≤ (((now - t) / 1000000000 : Nat) : Int)) ∧
    (∀ c, (step h now (.check order)).2.count (.lost c) ≤ 1) ∧
    (∀ c, (step h now (.check order)).2.count (.close c) = if h.closeOnLost then (step h now (.check order)).2.count (.lost c) else 0) ∧
    (∀ c, last (step h now (.check order)).1.monitors c = if Eff.lost c ∈ (step h now (.check order)).2 then none else last h.monitors c) := by
  obtain ⟨s1, s2⟩ := checkLoop_spec now order h
  have hko : Keys order := by
    have := (ho.map Prod.fst).nodup_iff.mpr hk
    exact this
  have hexp : ∀ t, expired h now t = true ↔ h.timeout ≤ (((now - t) / 1000000000 : Nat) : Int) := by
    intro t; simp [expired]
  have hmem : ∀ c, Eff.lost c ∈ (checkLoop h now order).2 ↔ ∃ t, (c, t) ∈ order ∧ expired h now t = true := by
    intro c
    rw [s2, List.mem_flatMap]
    constructor
    · rintro ⟨p, hp, hm⟩
      rw [List.mem_filter] at hp
      rw [List.mem_append] at hm
      rcases hm with hm | hm
      · split at hm <;> simp at hm
      · simp only [List.mem_singleton, Eff.lost.injEq] at hm
        exact ⟨p.2, by rw [hm]; exact hp.1, hp.2⟩
    · rintro ⟨t, ht, he⟩
      exact ⟨(c, t), List.mem_filter.mpr ⟨ht, he⟩, by simp⟩
  have hlost : ∀ c, Eff.lost c ∈ (checkLoop h now order).2 ↔ ∃ t, last h.monitors c = some t ∧ expired h now t = true := by
    intro c
    rw [hmem]
    constructor
    · rintro ⟨t, ht, he⟩; exact ⟨t, (last_mem hk c t).mpr (ho.mem_iff.mp ht), he⟩
    · rintro ⟨t, ht, he⟩; exact ⟨t, ho.mem_iff.mpr ((last_mem hk c t).mp ht), he⟩
  have counts : ∀ (l : List (Nat × Nat)), Keys l → ∀ c,
      (l.flatMap fun p => (if h.closeOnLost then [Eff.close p.1] else []) ++ [.lost p.1]).count (.lost c) = (l.map Prod.fst).count c ∧
      (l.flatMap fun p => (if h.closeOnLost then [Eff.close p.1] else []) ++ [.lost p.1]).count (.close c) = if h.closeOnLost then (l.map Prod.fst).count c else 0 := by
    intro l
    induction l with
    | nil => intro _ c; simp
    | cons p l ih =>
      intro hl c
      rw [Keys, List.map_cons, List.nodup_cons] at hl
      obtain ⟨i1, i2⟩ := ih hl.2 c
      simp only [List.flatMap_cons, List.count_append, List.map_cons, List.count_cons, i1, i2]
      cases h.closeOnLost with
      | true =>
        by_cases hp : p.1 = c <;> simp [hp] <;> omega
      | false => by_cases hp : p.1 = c <;> simp [hp] <;> omega
  have hc := counts (order.filter fun p => expired h now p.2) (hko.filter _)
  have hst : step h now (.check order) = checkLoop h now order := rfl
  rw [hst]
  refine ⟨fun c => by rw [hlost]; simp only [hexp], ?_, ?_, ?_⟩
  · intro c
    rw [s2, (hc c).1]
    exact List.nodup_iff_count.mp (hko.filter _) c
  · intro c
    rw [s2, (hc c).1, (hc c).2]
  · intro c
    rw [s1]
    simp only
    have hkeep : Keys (h.monitors.filter fun p => !(order.any fun q => q.1 = p.1 && expired h now q.2)) := hk.filter _
    by_cases hl : Eff.lost c ∈ (checkLoop h now order).2
    · rw [if_pos hl, last_none]
      intro hm
      obtain ⟨q, hq, hqc⟩ := List.mem_map.mp hm
      rw [List.mem_filter] at hq
      obtain ⟨t, ht, he⟩ := (hmem c).mp hl
      have hany : (order.any fun r => r.1 = q.1 && expired h now r.2) = true := by
        rw [List.any_eq_true]; exact ⟨(c, t), ht, by simp [hqc, he]⟩
      rw [hany] at hq
      simp at hq
    · rw [if_neg hl]
      cases hx : last h.monitors c with
      | none =>
        rw [last_none] at hx ⊢
        intro hm
        obtain ⟨q, hq, hqc⟩ := List.mem_map.mp hm
        exact hx (List.mem_map.mpr ⟨q, (List.mem_filter.mp hq).1, hqc⟩)
      | some t =>
        rw [last_mem hkeep, List.mem_filter]
        refine ⟨(last_mem hk c t).mp hx, ?_⟩
        simp only [Bool.not_eq_true', List.any_eq_false, Bool.and_eq_true, decide_eq_true_eq, not_and]
        intro q hq hqc
        intro he
        exact hl ((hmem c).mpr ⟨q.2, by rw [← hqc]; exact hq, he⟩)

/-- Three connections, one of them silent for 31.2 seconds. -/
example : step ⟨30, true, [(1, 0), (2, 30000000000), (3, 31100000000)]⟩ 31200000000 (.check [(3, 31100000000), (1, 0), (2, 30000000000)]) =
    (⟨30, true, [(2, 30000000000), (3, 31100000000)]⟩, [.close 1, .lost 1]) := by decide

/-! ## C52 -/

/-- `c` is refreshed by this event. -/
def Ev.touches (c : Nat) : Ev → Bool
  | .connected d => d = c
  | .beat d => d = c
  | _ => false

theorem keys_step {h : HB} (hk : Keys h.monitors) (t : Nat) (e : Ev) : Keys (step h t e).1.monitors := by
  cases e with
  | connected c => exact hk.update c t
  | beat c => exact hk.update c t
  | gone c => exact hk.filter _
  | check order => simp only [step]; rw [(checkLoop_spec t order h).1]; exact hk.filter _

theorem conf_step (h : HB) (t : Nat) (e : Ev) : (step h t e).1.timeout = h.timeout ∧ (step h t e).1.closeOnLost = h.closeOnLost := by
  cases e with
  | connected c => exact ⟨rfl, rfl⟩
  | beat c => exact ⟨rfl, rfl⟩
  | gone c => exact ⟨rfl, rfl⟩
  | check order => simp only [step]; rw [(checkLoop_spec t order h).1]; exact ⟨rfl, rfl⟩

/-- Specification: at every check the last refresh of `c` before it (`r` at the start) is less than the timeout ago. -/
def Timely (timeout : Int) (c r : Nat) : List (Nat × Ev) → Prop
  | [] => True
  | (t, e) :: es =>
    match e with
    | .check _ => (((t - r) / 1000000000 : Nat) : Int) < timeout ∧ Timely timeout c r es
    | e => Timely timeout c (if e.touches c then t else r) es

/-- C52: a connection refreshed in time before every check is never declared lost, whatever else happens. -/
theorem c52_timely (c : Nat) (es : List (Nat × Ev)) : ∀ (h : HB) (r : Nat), Keys h.monitors → (∀ t, last h.monitors c = some t → t = r) →
    Valid h es → Timely h.timeout c r es → Eff.lost c ∉ (run h es).2 := by
  induction es with
  | nil => intro h r _ _ _ _; simp [run]
  | cons p es ih =>
    intro h r hk hl hv ht
    obtain ⟨t, e⟩ := p
    have hk' := keys_step hk t e
    have hto := (conf_step h t e).1
    simp only [run, List.mem_append, not_or]
    have refresh : ∀ d, last (update h.monitors d t) c = if d = c then some t else last h.monitors c := fun d => last_update _ d c t
    cases e with
    | connected d =>
      refine ⟨by simp [step], ?_⟩
      refine ih _ (if d = c then t else r) hk' ?_ hv.2 ?_
      · intro u hu
        rw [show (step h t (.connected d)).1.monitors = update h.monitors d t from rfl, refresh] at hu
        split at hu
        · rename_i hd; rw [if_pos hd]; exact (by simpa using hu.symm)
        · rename_i hd; rw [if_neg hd]; exact hl u hu
      · rw [hto]; simpa [Timely, Ev.touches] using ht
    | beat d =>
      refine ⟨by simp [step], ?_⟩
      refine ih _ (if d = c then t else r) hk' ?_ hv.2 ?_
      · intro u hu
        rw [show (step h t (.beat d)).1.monitors = update h.monitors d t from rfl, refresh] at hu
        split at hu
        · rename_i hd; rw [if_pos hd]; exact (by simpa using hu.symm)
        · rename_i hd; rw [if_neg hd]; exact hl u hu
      · rw [hto]; simpa [Timely, Ev.touches] using ht
    | gone d =>
      refine ⟨by simp [step], ?_⟩
      refine ih _ r hk' ?_ hv.2 ?_
      · intro u hu
        rw [show (step h t (.gone d)).1.monitors = remove h.monitors d from rfl, last_remove] at hu
        split at hu
        · simp at hu
        · exact hl u hu
      · rw [hto]; simpa [Timely, Ev.touches] using ht
    | check order =>
      obtain ⟨c1, _, _, c4⟩ := c51_check h hk t order hv.1
      have hnot : Eff.lost c ∉ (step h t (.check order)).2 := by
        rw [c1]
        rintro ⟨u, hu, hle⟩
        rw [hl u hu] at hle
        have := ht.1
        omega
      refine ⟨hnot, ih _ r hk' ?_ hv.2 ?_⟩
      · intro u hu
        rw [c4, if_neg hnot] at hu
        exact hl u hu
      · rw [hto]; exact ht.2

/-- A connection that is not monitored is not declared lost before it is refreshed. -/
theorem unmonitored_quiet (c : Nat) (es : List (Nat × Ev)) : ∀ h : HB, Keys h.monitors → last h.monitors c = none → Valid h es →
    (∀ p ∈ es, p.2.touches c = false) → Eff.lost c ∉ (run h es).2 := by
  induction es with
  | nil => intro h _ _ _ _; simp [run]
  | cons p es ih =>
    intro h hk hl hv ht
    obtain ⟨t, e⟩ := p
    have hk' := keys_step hk t e
    have hte := ht (t, e) List.mem_cons_self
    have ht' : ∀ p ∈ es, p.2.touches c = false := fun p hp => ht p (List.mem_cons_of_mem _ hp)
    simp only [run, List.mem_append, not_or]
    cases e with
    | connected d =>
      refine ⟨by simp [step], ih _ hk' ?_ hv.2 ht'⟩
      simp only [step, last_update]
      rw [if_neg (by simpa [Ev.touches] using hte)]; exact hl
    | beat d =>
      refine ⟨by simp [step], ih _ hk' ?_ hv.2 ht'⟩
      simp only [step, last_update]
      rw [if_neg (by simpa [Ev.touches] using hte)]; exact hl
    | gone d =>
      refine ⟨by simp [step], ih _ hk' ?_ hv.2 ht'⟩
      simp only [step, last_remove]
      split
      · rfl
      · exact hl
    | check order =>
      obtain ⟨c1, _, _, c4⟩ := c51_check h hk t order hv.1
      have hnot : Eff.lost c ∉ (step h t (.check order)).2 := by
        rw [c1]; rintro ⟨u, hu, _⟩; rw [hl] at hu; simp at hu
      refine ⟨hnot, ih _ hk' ?_ hv.2 ht'⟩
      rw [c4, if_neg hnot]; exact hl

/-- C52: after a connection was declared lost it is not declared lost again before a heartbeat or a new connection event for it. -/
theorem c52_not_twice (h : HB) (hk : Keys h.monitors) (t : Nat) (order : List (Nat × Nat)) (ho : order.Perm h.monitors) (c : Nat)
    (hl : Eff.lost c ∈ (step h t (.check order)).2) (es : List (Nat × Ev)) (hv : Valid (step h t (.check order)).1 es)
    (ht : ∀ p ∈ es, p.2.touches c = false) : Eff.lost c ∉ (run (step h t (.check order)).1 es).2 := by
  obtain ⟨_, _, _, c4⟩ := c51_check h hk t order ho
  exact unmonitored_quiet c es _ (keys_step hk _ _) (by rw [c4, if_pos hl]) hv ht

/-! ## Whole histories -/

theorem run_append (a b : List (Nat × Ev)) : ∀ h : HB, run h (a ++ b) = ((run (run h a).1 b).1, (run h a).2 ++ (run (run h a).1 b).2) := by
  induction a with
  | nil => intro h; simp [run]
  | cons p a ih => intro h; obtain ⟨t, e⟩ := p; simp only [List.cons_append, run, ih]; simp

theorem valid_append (a b : List (Nat × Ev)) : ∀ h : HB, Valid h (a ++ b) ↔ Valid h a ∧ Valid (run h a).1 b := by
  induction a with
  | nil => intro h; simp [Valid, run]
  | cons p a ih => intro h; obtain ⟨t, e⟩ := p; simp only [List.cons_append, Valid, run, ih]; exact and_assoc.symm

theorem keys_run (es : List (Nat × Ev)) : ∀ h : HB, Keys h.monitors → Keys (run h es).1.monitors := by
  induction es with
  | nil => intro h hk; exact hk
  | cons p es ih => intro h hk; obtain ⟨t, e⟩ := p; exact ih _ (keys_step hk t e)

theorem conf_run (es : List (Nat × Ev)) : ∀ h : HB, (run h es).1.timeout = h.timeout ∧ (run h es).1.closeOnLost = h.closeOnLost := by
  induction es with
  | nil => intro h; exact ⟨rfl, rfl⟩
  | cons p es ih =>
    intro h; obtain ⟨t, e⟩ := p
    obtain ⟨a, b⟩ := ih (step h t e).1
    obtain ⟨c, d⟩ := conf_step h t e
    exact ⟨a.trans c, b.trans d⟩

/-- Specification, from the history alone: since when connection `c` has been silent, if it is watched. -/
def silentSince (timeout : Int) (c : Nat) : Option Nat → List (Nat × Ev) → Option Nat
  | r, [] => r
  | r, (t, e) :: es =>
    silentSince timeout c (match e with
      | .connected d => if d = c then some t else r
      | .beat d => if d = c then some t else r
      | .gone d => if d = c then none else r
      | .check _ => r.filter fun u => !decide (timeout ≤ (((t - u) / 1000000000 : Nat) : Int))) es

theorem silentSince_run (c : Nat) (es : List (Nat × Ev)) : ∀ h : HB, Keys h.monitors → Valid h es →
    last (run h es).1.monitors c = silentSince h.timeout c (last h.monitors c) es := by
  induction es with
  | nil => intro h _ _; rfl
  | cons p es ih =>
    intro h hk hv
    obtain ⟨t, e⟩ := p
    simp only [run, silentSince]
    rw [ih _ (keys_step hk t e) hv.2, (conf_step h t e).1]
    congr 1
    cases e with
    | connected d => exact last_update _ _ _ _
    | beat d => exact last_update _ _ _ _
    | gone d => exact last_remove _ _ _
    | check order =>
      obtain ⟨c1, _, _, c4⟩ := c51_check h hk t order hv.1
      rw [c4]
      cases hl : last h.monitors c with
      | none => simp
      | some u =>
        by_cases hle : h.timeout ≤ (((t - u) / 1000000000 : Nat) : Int)
        · rw [if_pos ((c1 c).mpr ⟨u, hl, hle⟩)]
          simp only [Option.filter, hle, decide_true, Bool.not_true]; rfl
        · rw [if_neg (fun hm => by
            obtain ⟨v, hv', hle'⟩ := (c1 c).mp hm
            rw [hl] at hv'; injection hv' with hv'; subst hv'; exact hle hle')]
          simp only [Option.filter, hle, decide_false, Bool.not_false]; rfl

/-- C51 over whole histories of a new Heartbeat: a check declares lost, once each, exactly the connections that according to the
history have been silent for the timeout; it closes them iff `CloseOnLost`. -/
theorem c51_history (timeout : Int) (closeOnLost : Bool) (es : List (Nat × Ev)) (t : Nat) (order : List (Nat × Nat))
    (hv : Valid ⟨timeout, closeOnLost, []⟩ (es ++ [(t, .check order)])) (c : Nat) :
    ∃ effs, (run ⟨timeout, closeOnLost, []⟩ (es ++ [(t, .check order)])).2 = (run ⟨timeout, closeOnLost, []⟩ es).2 ++ effs ∧
      effs.count (.lost c) = (if ∃ u, silentSince timeout c none es = some u ∧ timeout ≤ (((t - u) / 1000000000 : Nat) : Int) then 1 else 0) ∧
      effs.count (.close c) = (if closeOnLost then effs.count (.lost c) else 0) := by
  obtain ⟨hv1, hv2⟩ := (valid_append _ _ _).mp hv
  have hk0 : Keys (HB.mk timeout closeOnLost []).monitors := by simp [Keys]
  obtain ⟨c1, c2, c3, _⟩ := c51_check _ (keys_run es _ hk0) t order hv2.1
  refine ⟨(step (run ⟨timeout, closeOnLost, []⟩ es).1 t (.check order)).2, by rw [run_append]; simp only [run, List.append_nil], ?_, ?_⟩
  · have hs := silentSince_run c es _ hk0 hv1
    rw [show last (HB.mk timeout closeOnLost []).monitors c = none from rfl] at hs
    rw [show (HB.mk timeout closeOnLost []).timeout = timeout from rfl] at hs
    have hc := c1 c
    rw [hs, (conf_run es _).1] at hc
    split
    · rename_i h
      have := List.count_pos_iff.mpr (hc.mpr h)
      have := c2 c
      omega
    · rename_i h
      exact List.count_eq_zero.mpr (fun hm => h (hc.mp hm))
  · have := c3 c
    rw [(conf_run es _).2] at this
    exact this

/-- C52 the other way round: a connection that stays silent is declared lost by the first check at or after the timeout. -/
theorem c52_detects (h : HB) (hk : Keys h.monitors) (c r t : Nat) (order : List (Nat × Nat)) (ho : order.Perm h.monitors)
    (hl : last h.monitors c = some r) (hlate : h.timeout ≤ (((t - r) / 1000000000 : Nat) : Int)) :
    Eff.lost c ∈ (step h t (.check order)).2 := ((c51_check h hk t order ho).1 c).mpr ⟨r, hl, hlate⟩

/-- A history meeting the hypotheses of `c52_timely` for connection 1 while connection 2 is lost, comes back and is lost again. -/
def history : List (Nat × Ev) :=
  [(0, .connected 1), (0, .connected 2), (2000000000, .beat 1), (3000000000, .check [(2, 0), (1, 2000000000)]), (3500000000, .check [(1, 2000000000)]),
   (4000000000, .beat 2), (4900000000, .beat 1), (7000000000, .check [(1, 4900000000), (2, 4000000000)])]

example : Valid ⟨3, false, []⟩ history ∧ Timely 3 1 0 history ∧ (run ⟨3, false, []⟩ history).2 = [.lost 2, .lost 2] := by
  refine ⟨?_, ?_, by decide⟩
  · simp only [history, Valid, step, update, checkLoop, expired, remove]
    decide
  · simp only [history, Timely, Ev.touches]
    decide

example : Valid ⟨3, false, []⟩ (history ++ [(7900000000, .check [(1, 4900000000)])]) ∧
    silentSince 3 1 none history = some 4900000000 ∧ silentSince 3 2 none history = none := by
  constructor
  · simp only [history, List.cons_append, List.nil_append, Valid, step, update, checkLoop, expired, remove]
    decide
  · decide

/-! ## C62 -/

/-- C62, restricted: once the sender goroutine has seen the connection closed, `HeartbeatLost` is not published for it, as long as no
heartbeat of it is processed any more. -/
theorem c62_closed_partial (h : HB) (hk : Keys h.monitors) (t c : Nat) (es : List (Nat × Ev)) (hv : Valid h ((t, .gone c) :: es))
    (ht : ∀ p ∈ es, p.2.touches c = false) : Eff.lost c ∉ (run h ((t, .gone c) :: es)).2 := by
  simp only [run, List.mem_append, not_or]
  refine ⟨by simp [step], unmonitored_quiet c es _ (keys_step hk t _) ?_ hv.2 ht⟩
  simp [step, last_remove]

/-- A connection that is gone is monitored again if a heartbeat of it is processed late, and then declared lost, although it was
closed long before. -/
theorem c62_violated : (run ⟨30, true, []⟩ [(0, .connected 1), (1000000000, .gone 1), (1000000001, .beat 1), (32000000000, .check [(1, 1000000001)])]).2 =
    [.close 1, .lost 1] := by decide

/-- `c` is not refreshed and not taken off the list by its sender goroutine. -/
def Ev.leaves (c : Nat) (e : Ev) : Prop := e.touches c = false ∧ e ≠ .gone c

/-- Events that leave `c` alone, then a check at least the timeout after `u`. -/
def Overdue (timeout : Int) (c u : Nat) (es : List (Nat × Ev)) : Prop :=
  ∃ (b : List (Nat × Ev)) (r : Nat) (o : List (Nat × Nat)) (d : List (Nat × Ev)),
    es = b ++ (r, .check o) :: d ∧ (∀ p ∈ b, p.2.leaves c) ∧ timeout ≤ (((r - u) / 1000000000 : Nat) : Int)

theorem Overdue.cons {timeout : Int} {c u : Nat} {es : List (Nat × Ev)} (h : Overdue timeout c u es) {p : Nat × Ev} (hp : p.2.leaves c) :
    Overdue timeout c u (p :: es) := by
  obtain ⟨b, r, o, d, rfl, hb, ht⟩ := h
  refine ⟨p :: b, r, o, d, rfl, fun q hq => ?_, ht⟩
  rcases List.mem_cons.mp hq with rfl | hq
  · exact hp
  · exact hb q hq

/-- An event that leaves `c` alone: it stays watched since the same time, unless it is a check that declares it lost. -/
theorem leaves_step {h : HB} (hk : Keys h.monitors) {t c : Nat} {e : Ev} (he : e.leaves c)
    {es : List (Nat × Ev)} (hv : Valid h ((t, e) :: es)) (hn : Eff.lost c ∉ (step h t e).2) :
    last (step h t e).1.monitors c = last h.monitors c := by
  obtain ⟨h1, h2⟩ := he
  cases e with
  | connected d => simp only [step, last_update]; rw [if_neg (by simpa [Ev.touches] using h1)]
  | beat d => simp only [step, last_update]; rw [if_neg (by simpa [Ev.touches] using h1)]
  | gone d => simp only [step, last_remove]; rw [if_neg (fun e => h2 (by rw [e]))]
  | check order =>
    obtain ⟨_, _, _, c4⟩ := c51_check h hk t order hv.1
    rw [c4, if_neg hn]

theorem overdue_lost (c u : Nat) : ∀ (es : List (Nat × Ev)) (h : HB), Keys h.monitors → Valid h es → last h.monitors c = some u →
    Overdue h.timeout c u es → Eff.lost c ∈ (run h es).2 := by
  intro es
  induction es with
  | nil => rintro h _ _ _ ⟨b, r, o, d, he, _⟩; cases b <;> cases he
  | cons p es ih =>
    rintro h hk hv hl ⟨b, r, o, d, he, hb, ht⟩
    obtain ⟨t, e⟩ := p
    simp only [run, List.mem_append]
    by_cases hn : Eff.lost c ∈ (step h t e).2
    · exact .inl hn
    right
    cases b with
    | nil =>
      injection he with he _
      injection he with h1 h2
      subst h1; subst h2
      exact absurd (c52_detects h hk c u t o hv.1 hl ht) hn
    | cons q b =>
      injection he with h1 h2
      subst h1
      have hle := hb (t, e) List.mem_cons_self
      have hs := leaves_step hk hle hv hn
      refine ih _ (keys_step hk t e) hv.2 (hs.trans hl) ?_
      rw [(conf_step h t e).1]
      exact ⟨b, r, o, d, h2, fun p hp => hb p (List.mem_cons_of_mem _ hp), ht⟩

theorem lost_overdue (c : Nat) : ∀ (es : List (Nat × Ev)) (h : HB), Keys h.monitors → Valid h es → Eff.lost c ∈ (run h es).2 →
    (∃ u, last h.monitors c = some u ∧ Overdue h.timeout c u es) ∨
    ∃ (a : List (Nat × Ev)) (u : Nat) (e : Ev) (es' : List (Nat × Ev)), es = a ++ (u, e) :: es' ∧ e.touches c = true ∧ Overdue h.timeout c u es' := by
  intro es
  induction es with
  | nil => intro h _ _ hm; cases hm
  | cons p es ih =>
    intro h hk hv hm
    obtain ⟨t, e⟩ := p
    simp only [run, List.mem_append] at hm
    by_cases hn : Eff.lost c ∈ (step h t e).2
    · left
      cases e with
      | check order =>
        obtain ⟨u, h1, h2⟩ := ((c51_check h hk t order hv.1).1 c).mp hn
        exact ⟨u, h1, [], t, order, es, rfl, (fun _ h => by cases h), h2⟩
      | connected d => cases hn
      | beat d => cases hn
      | gone d => cases hn
    have hm := hm.resolve_left hn
    rcases ih _ (keys_step hk t e) hv.2 hm with ⟨u, h1, h2⟩ | ⟨a, u, e', es', rfl, h1, h2⟩
    · rw [(conf_step h t e).1] at h2
      by_cases ht : e.touches c = true
      · right
        have hu : u = t := by
          cases e with
          | connected d =>
            simp only [step, last_update] at h1
            rw [if_pos (by simpa [Ev.touches] using ht)] at h1
            injection h1 with h1; exact h1.symm
          | beat d =>
            simp only [step, last_update] at h1
            rw [if_pos (by simpa [Ev.touches] using ht)] at h1
            injection h1 with h1; exact h1.symm
          | gone d => cases ht
          | check o => cases ht
        subst hu
        exact ⟨[], u, e, es, rfl, ht, h2⟩
      · have ht : e.touches c = false := by simpa using ht
        by_cases hg : e = .gone c
        · subst hg
          simp [step, last_remove] at h1
        · left
          have hs := leaves_step hk ⟨ht, hg⟩ hv hn
          exact ⟨u, hs ▸ h1, h2.cons ⟨ht, hg⟩⟩
    · rw [(conf_step h t e).1] at h2
      exact .inr ⟨(t, e) :: a, u, e', es', rfl, h1, h2⟩

/-- **C62, exactly.**  A connection whose end the sender goroutine has seen is declared lost all the same iff a heartbeat of it (or a new
connection of that number) is processed later, and then, before its end is seen once more, a check finds it silent for the timeout. -/
theorem c62_exact (h : HB) (hk : Keys h.monitors) (t c : Nat) (es : List (Nat × Ev)) (hv : Valid h ((t, .gone c) :: es)) :
    Eff.lost c ∈ (run h ((t, .gone c) :: es)).2 ↔
      ∃ (a : List (Nat × Ev)) (u : Nat) (e : Ev) (b : List (Nat × Ev)) (r : Nat) (o : List (Nat × Nat)) (d : List (Nat × Ev)),
        es = a ++ (u, e) :: (b ++ (r, .check o) :: d) ∧ e.touches c = true ∧ (∀ p ∈ b, p.2.touches c = false ∧ p.2 ≠ .gone c) ∧
        h.timeout ≤ (((r - u) / 1000000000 : Nat) : Int) := by
  have hk' := keys_step hk t (.gone c)
  have hmem : Eff.lost c ∈ (run h ((t, .gone c) :: es)).2 ↔ Eff.lost c ∈ (run (step h t (.gone c)).1 es).2 := by
    simp only [run, List.mem_append]
    exact ⟨fun h => h.resolve_left (by simp [step]), .inr⟩
  have hno : last (step h t (.gone c)).1.monitors c = none := by simp [step, last_remove]
  rw [hmem]
  constructor
  · intro hm
    rcases lost_overdue c es _ hk' hv.2 hm with ⟨u, h1, _⟩ | ⟨a, u, e, es', h1, h2, b, r, o, d, h3, h4, h5⟩
    · rw [hno] at h1; cases h1
    · exact ⟨a, u, e, b, r, o, d, by rw [h1, h3], h2, h4, h5⟩
  · rintro ⟨a, u, e, b, r, o, d, rfl, h2, h4, h5⟩
    have hsplit := valid_append a ((u, e) :: (b ++ (r, .check o) :: d)) (step h t (.gone c)).1
    obtain ⟨_, v2⟩ := hsplit.mp hv.2
    rw [run_append]
    simp only [List.mem_append]
    right
    simp only [run, List.mem_append]
    right
    have hka := keys_run a _ hk'
    refine overdue_lost c u _ _ (keys_step hka u e) v2.2 ?_ ?_
    · cases e with
      | connected x => simp only [step, last_update]; rw [if_pos (by simpa [Ev.touches] using h2)]
      | beat x => simp only [step, last_update]; rw [if_pos (by simpa [Ev.touches] using h2)]
      | gone x => cases h2
      | check x => cases h2
    · rw [(conf_step _ u e).1, (conf_run a _).1, (conf_step h t _).1]
      exact ⟨b, r, o, d, rfl, h4, h5⟩

/-- The witness of `c62_violated`, and a history in which the late heartbeat does no harm: the end is seen once more. -/
example : Valid ⟨30, true, [(1, 0)]⟩ [(1, .gone 1), (2, .beat 1), (3, .check [(1, 2)]), (4, .gone 1), (40000000000, .check [])] ∧
    (run ⟨30, true, [(1, 0)]⟩ [(1, .gone 1), (2, .beat 1), (3, .check [(1, 2)]), (4, .gone 1), (40000000000, .check [])]).2 = [] ∧
    Valid ⟨30, true, [(1, 0)]⟩ [(1, .gone 1), (2, .beat 1), (40000000000, .check [(1, 2)])] ∧
    (run ⟨30, true, [(1, 0)]⟩ [(1, .gone 1), (2, .beat 1), (40000000000, .check [(1, 2)])]).2 = [.close 1, .lost 1] := by
  refine ⟨?_, by decide, ?_, by decide⟩ <;>
  · simp only [Valid, step, update, checkLoop, expired, remove]
    decide

end Verif.Conn.Heartbeat
