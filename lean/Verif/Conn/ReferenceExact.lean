import Verif.Conn.Reference

/-!
# A second `Run` of a reference transport (C55), exactly
-/

namespace Verif.Conn.Reference

open Verif.Trace

/-- What the calls so far say about transport `t`. -/
structure Track (t : Nat) (c : Conf) (ls : List Label) (s : Sys) : Prop where
  tp : ∃ tp, s.tps[t]? = some tp ∧ tp.conf = c ∧ (s.panicked = false →
    ls.count (.run t) = ls.count (.nextConnection t) + (if tp.next = none then 0 else 1) + (if s.locked t then 1 else 0))
  addr : ∀ a k, s.addr a = some k → k < s.chans.length

theorem Track.idle {t : Nat} {c : Conf} {ls : List Label} {s s' : Sys} {l : Label} (h : Track t c ls s) (hp : s.panicked = false)
    (h1 : s'.tps = s.tps) (h2 : s'.holder = s.holder) (h3 : s'.addr = s.addr) (h4 : s'.chans.length = s.chans.length)
    (hl : l ≠ .run t) (hn : l ≠ .nextConnection t) : Track t c (ls ++ [l]) s' := by
  obtain ⟨tp, e1, e2, e3⟩ := h.tp
  refine ⟨⟨tp, by rw [h1]; exact e1, e2, fun _ => ?_⟩, fun a k hk => by rw [h4]; exact h.addr a k (h3 ▸ hk)⟩
  have hlock : s'.locked t ↔ s.locked t := by simp only [Sys.locked, h2]
  simp only [List.count_append, List.count_cons, List.count_nil, beq_iff_eq, hl, hn, if_false, hlock]
  simpa using e3 hp

theorem track_exec (confs : List Conf) (t : Nat) (c : Conf) (hc : confs[t]? = some c) (ls : List Label) :
    ∀ s, exec (init confs) ls = some s → Track t c ls s := by
  induction ls using snoc_induction with
  | h0 =>
    intro s h
    injection h with h; subst h
    exact ⟨⟨⟨c, false, none, none⟩, by simp [init, hc], rfl, fun _ => by simp [init, Sys.locked]⟩, fun a k hk => by simp [init] at hk⟩
  | h1 ls l ih =>
    intro s h
    obtain ⟨m, hm, hs⟩ := exec_snoc h
    have hi := ih m hm
    have hnr := never_running confs ls m hm
    simp only [step] at hs
    split at hs
    · simp at hs
    rename_i hp
    have hp : m.panicked = false := by simpa using hp
    obtain ⟨tp, e1, e2, e3⟩ := hi.tp
    have e3 := e3 hp
    cases l with
    | run u =>
      simp only [act] at hs
      split at hs
      · simp at hs
      rename_i tu htu
      split at hs
      · simp at hs
      rw [if_neg (by rw [hnr tu (List.mem_of_getElem? htu)]; simp)] at hs
      split at hs
      · simp at hs
      rename_i hh
      have hh : m.holder = none := by simpa using hh
      have hcount : ∀ s' : Sys, s'.holder = some (u, m.cons.length) → (ls ++ [Label.run u]).count (.run t) =
          (ls ++ [Label.run u]).count (.nextConnection t) + (if tp.next = none then 0 else 1) + (if s'.locked t then 1 else 0) := by
        intro s' hs'
        have h0 : ¬ m.locked t := by simp [Sys.locked, hh]
        rw [if_neg h0] at e3
        have h1 : s'.locked t ↔ u = t := by simp [Sys.locked, hs']
        simp only [List.count_append, List.count_cons, List.count_nil, beq_iff_eq, reduceCtorEq, if_false, Label.run.injEq, h1]
        omega
      split at hs
      · split at hs
        · simp at hs
        · injection hs with hs; subst hs
          exact ⟨⟨tp, e1, e2, fun _ => hcount _ rfl⟩, fun a k hk => by simpa using hi.addr a k hk⟩
      · split at hs
        · injection hs with hs; subst hs
          exact ⟨⟨tp, e1, e2, fun h => by simp at h⟩, hi.addr⟩
        · injection hs with hs; subst hs
          refine ⟨⟨tp, e1, e2, fun _ => hcount _ rfl⟩, fun a k hk => ?_⟩
          simp only [List.length_append, List.length_singleton] at hk ⊢
          split at hk
          · injection hk with hk; omega
          · have := hi.addr a k hk; omega
    | runSend =>
      simp only [act] at hs
      split at hs
      · simp at hs
      rename_i u d hh
      split at hs
      · simp at hs
      rename_i tu htu
      split at hs
      · rename_i hn
        injection hs with hs; subst hs
        have hlt := (List.getElem?_eq_some_iff.mp htu).1
        refine ⟨?_, hi.addr⟩
        by_cases hu : u = t
        · subst hu
          rw [e1] at htu; injection htu with htu; subst htu
          refine ⟨{ tp with next := some d }, by simp only; rw [List.getElem?_set_self hlt], e2, fun _ => ?_⟩
          rw [if_pos hn, if_pos (by simp [Sys.locked, hh])] at e3
          simp [Sys.locked, List.count_append, e3]
        · refine ⟨tp, by simp only; rw [List.getElem?_set_ne hu]; exact e1, e2, fun _ => ?_⟩
          rw [if_neg (c := m.locked t) (by simp [Sys.locked, hh, hu])] at e3
          simp [Sys.locked, List.count_append, e3]
      · simp at hs
    | nextConnection u =>
      simp only [act] at hs
      split at hs
      · simp at hs
      rename_i tu htu
      split at hs
      · simp at hs
      rename_i d hn
      injection hs with hs; subst hs
      have hlt := (List.getElem?_eq_some_iff.mp htu).1
      refine ⟨?_, hi.addr⟩
      by_cases hu : u = t
      · subst hu
        rw [e1] at htu; injection htu with htu; subst htu
        refine ⟨{ tp with next := none, connection := some d }, by simp only; rw [List.getElem?_set_self hlt], e2, fun _ => ?_⟩
        rw [if_neg (c := tp.next = none) (by rw [hn]; simp)] at e3
        simp only [List.count_append, List.count_cons, List.count_nil, beq_iff_eq, reduceCtorEq, if_false, if_true, Sys.locked] at e3 ⊢
        omega
      · refine ⟨tp, by simp only; rw [List.getElem?_set_ne hu]; exact e1, e2, fun _ => ?_⟩
        simp only [List.count_append, List.count_cons, List.count_nil, beq_iff_eq, reduceCtorEq, if_false, Label.nextConnection.injEq, hu, Sys.locked] at e3 ⊢
        omega
    | set d v late =>
      simp only [act] at hs
      repeat' split at hs
      all_goals first | (injection hs with hs; subst hs; exact hi.idle hp rfl rfl rfl (by simp) (by simp) (by simp)) | simp at hs
    | get d late =>
      simp only [act] at hs
      repeat' split at hs
      all_goals first | (injection hs with hs; subst hs; exact hi.idle hp rfl rfl rfl (by simp) (by simp) (by simp)) | simp at hs
    | handOver a b v =>
      simp only [act] at hs
      repeat' split at hs
      all_goals first | (injection hs with hs; subst hs; exact hi.idle hp rfl rfl rfl (by simp) (by simp) (by simp)) | simp at hs
    | close d =>
      simp only [act] at hs
      repeat' split at hs
      all_goals first | (injection hs with hs; subst hs; exact hi.idle hp rfl rfl rfl (by simp) (by simp) (by simp)) | simp at hs
    | stop u =>
      simp only [act] at hs
      split at hs
      · simp at hs
      rename_i tu htu
      split at hs
      · simp at hs
      rw [if_pos (hnr tu (List.mem_of_getElem? htu))] at hs
      injection hs with hs; subst hs
      exact hi.idle hp rfl rfl rfl rfl (by simp) (by simp)

/-- **C55, exactly.**  After any history in which no `Run` is under way: `Run` of `t` returns by its own steps if and only if
every connection of its earlier `Run`s was taken.  And it is never without effect: when it returns there is one more connection. -/
theorem c55_exact (confs : List Conf) (t : Nat) (c : Conf) (hc : confs[t]? = some c) (hq : 0 ≤ c.queueSize) (ls : List Label) (s : Sys)
    (h : exec (init confs) ls = some s) (hp : s.panicked = false) (hh : s.holder = none) :
    ((∃ s', exec s [.run t, .runSend] = some s') ↔ ls.count (.run t) = ls.count (.nextConnection t)) ∧
    ∀ s', exec s [.run t, .runSend] = some s' → s'.cons.length = s.cons.length + 1 := by
  have hi := track_exec confs t c hc ls s h
  obtain ⟨tp, e1, e2, e3⟩ := hi.tp
  have e3 := e3 hp
  subst e2
  have hr := never_running confs ls s h tp (List.mem_of_getElem? e1)
  have hnl : ¬ s.locked t := by simp [Sys.locked, hh]
  have hrun : ∀ s', exec s [.run t, .runSend] = some s' → tp.next = none ∧ s'.cons.length = s.cons.length + 1 := by
    intro s' he
    simp only [exec, Trace.exec, step, hp, Bool.false_eq_true, if_false, act, e1, hnl, hr, hh, ne_eq, not_true_eq_false] at he
    cases ha : s.addr tp.conf.address with
    | some k =>
      have hch : s.chans[k]? = some (s.chans[k]'(hi.addr _ _ ha)) := by simp
      simp only [ha, hch, Option.bind_some, hp, Bool.false_eq_true, if_false, e1] at he
      by_cases hn : tp.next = none
      · simp only [hn, if_true, Option.bind_some, Option.some.injEq] at he
        subst he
        exact ⟨hn, by simp⟩
      · simp [hn] at he
    | none =>
      have hq' : ¬ tp.conf.queueSize < 0 := by omega
      simp only [ha, hq', Option.bind_some, hp, Bool.false_eq_true, if_false, e1] at he
      by_cases hn : tp.next = none
      · simp only [hn, if_true, Option.bind_some, Option.some.injEq] at he
        subst he
        exact ⟨hn, by simp⟩
      · simp [hn] at he
  have hcount : ls.count (.run t) = ls.count (.nextConnection t) ↔ tp.next = none := by
    rw [e3, if_neg hnl]
    by_cases hn : tp.next = none <;> simp [hn]
  refine ⟨⟨fun ⟨s', he⟩ => hcount.2 (hrun s' he).1, fun hcnt => ?_⟩, fun s' he => (hrun s' he).2⟩
  obtain ⟨s', he, _⟩ := c55_partial s t tp e1 (hcount.1 hcnt) hh hp hr hq (fun k hk => hi.addr _ k hk)
  exact ⟨s', he⟩

/-- One connection made and taken: `Run` returns and makes another one. -/
example : ∃ s s', exec (init pair) [.run 0, .runSend, .nextConnection 0] = some s ∧ exec s [.run 0, .runSend] = some s' :=
  ⟨_, _, rfl, ((c55_exact pair 0 ⟨7, true, 2⟩ rfl (by decide) [.run 0, .runSend, .nextConnection 0] _ rfl rfl rfl).1.2 (by decide)).choose_spec⟩

/-- Made and not taken: it does not return. -/
example : ∃ s, exec (init pair) [.run 0, .runSend] = some s ∧ ¬ ∃ s', exec s [.run 0, .runSend] = some s' :=
  ⟨_, rfl, fun h => absurd ((c55_exact pair 0 ⟨7, true, 2⟩ rfl (by decide) [.run 0, .runSend] _ rfl rfl rfl).1.1 h) (by decide)⟩

end Verif.Conn.Reference
