import Verif.Reg.Serve

/-!
# C110: an endpoint may be deleted and added again

The model of `Reg/Serve.lean` (`acceptEndpoint`, `deleteEndpoint`, proc_upperdeck.go:31-81), for any number of deletions and
additions of one endpoint.  Every deletion leaves one stop signal in the channel of the goroutine started last
(proc_upperdeck.go:76); the goroutines look the channel up again in every iteration (proc_upperdeck.go:50), so a signal that no
goroutine waits for at that time is never taken.
-/

namespace Verif.Reg.Serve

/-! ## Specification -/

/-- Additions and deletions that had an effect; the endpoint is registered if they differ. -/
def tally : Nat × Nat → Label → Nat × Nat
  | (a, d), .add => if a = d then (a + 1, d) else (a, d)
  | (a, d), .delete => if a = d then (a, d) else (a, d + 1)
  | p, _ => p

def tallies (ls : List Label) : Nat × Nat := ls.foldl tally (0, 0)

/-- The goroutines that serve the endpoint. -/
def Sys.live (s : Sys) : Nat := s.gs.countP fun g => decide (g.pc ≠ .done)

/-- The stop signals nobody has taken. -/
def Sys.pending (s : Sys) : Nat := s.chans.countP (·.full)

/-- Somebody waits for the signals of channel `c`. -/
def Sys.Heard (s : Sys) (c : Nat) : Prop := ∃ g ∈ s.gs, g.pc = .sel (some c)

/-! ## The steps -/

theorem countP_set_eq {α : Type} (p : α → Bool) (a : α) : ∀ (l : List α) (i : Nat) (x : α), l[i]? = some x →
    (l.set i a).countP p + (if p x then 1 else 0) = l.countP p + if p a then 1 else 0
  | [], _, _, h => by simp at h
  | y :: l, 0, x, h => by
    simp only [List.getElem?_cons_zero, Option.some.injEq] at h
    subst h
    simp only [List.set_cons_zero, List.countP_cons]
    omega
  | y :: l, i + 1, x, h => by
    have := countP_set_eq p a l i x (by simpa using h)
    simp only [List.set_cons_succ, List.countP_cons]
    omega

/-- What a step does to the goroutines and the stop channels. -/
inductive Move (s : Sys) (l : Label) (s' : Sys) : Prop where
  | quiet (gs : s'.gs = s.gs) (chans : s'.chans = s.chans) (mapped : s'.mapped = s.mapped) (out : s'.out = s.out) (tx : s'.tx = s.tx ++ pushes [l])
      (t : ∀ p : Nat × Nat, (s.mapped = none ↔ p.1 = p.2) → tally p l = p)
  | add (h : l = .add) (m : s.mapped = none) (gs : s'.gs = s.gs ++ [⟨s.session, .top⟩]) (chans : s'.chans = s.chans ++ [⟨false, false⟩])
      (mapped : s'.mapped = some s.chans.length) (out : s'.out = s.out) (tx : s'.tx = s.tx)
  | delete (c : Nat) (h : l = .delete) (m : s.mapped = some c) (gs : s'.gs = s.gs) (chans : s'.chans = s.chans.set c ⟨true, true⟩)
      (mapped : s'.mapped = none) (out : s'.out = s.out) (tx : s'.tx = s.tx)
  | act (i : Nat) (g : G) (pc : PC) (hg : s.gs[i]? = some g) (h1 : g.pc ≠ .done) (h2 : pc ≠ .done) (gs : s'.gs = s.gs.set i { g with pc := pc })
      (chans : s'.chans = s.chans) (mapped : s'.mapped = s.mapped) (hsel : ∀ x, pc = .sel x → x = s.mapped)
      (t : ∀ p, tally p l = p) (hl : l ≠ .add ∧ pushes [l] = [])
      (flow : ∃ o, s'.out = s.out ++ o ∧ o.map Prod.fst ++ pc.held ++ s'.tx = g.pc.held ++ s.tx ∧ ∀ p ∈ o, p.2 = p.1.dest.getD g.session)
  | stop (i : Nat) (g : G) (c : Nat) (ch : Chan) (h : l = .stop i) (hg : s.gs[i]? = some g) (h1 : g.pc = .sel (some c)) (hc : s.chans[c]? = some ch) (hf : ch.full = true)
      (gs : s'.gs = s.gs.set i { g with pc := .done }) (chans : s'.chans = s.chans.set c { ch with full := false }) (mapped : s'.mapped = s.mapped)
      (out : s'.out = s.out) (tx : s'.tx = s.tx)

theorem move {s s' : Sys} {l : Label} (hs : step s l = some s') : Move s l s' := by
  cases l with
  | push m =>
    simp only [step] at hs
    split at hs
    · injection hs with hs; subst hs; exact .quiet rfl rfl rfl rfl rfl fun _ _ => rfl
    · simp at hs
  | setSession x => injection hs with hs; subst hs; exact .quiet rfl rfl rfl rfl (by simp [pushes]) fun _ _ => rfl
  | add =>
    simp only [step] at hs
    split at hs
    · rename_i c hm
      injection hs with hs; subst hs
      refine .quiet rfl rfl rfl rfl (by simp [pushes]) fun p hp => ?_
      obtain ⟨a, d⟩ := p
      simp only [hm, reduceCtorEq, false_iff] at hp
      simp [tally, hp]
    · rename_i hm
      injection hs with hs; subst hs
      exact .add rfl hm rfl rfl rfl rfl rfl
  | delete =>
    simp only [step] at hs
    split at hs
    · rename_i c hm
      injection hs with hs; subst hs
      exact .delete c rfl hm rfl rfl rfl rfl rfl
    · rename_i hm
      injection hs with hs; subst hs
      refine .quiet rfl rfl rfl rfl (by simp [pushes]) fun p hp => ?_
      obtain ⟨a, d⟩ := p
      simp only [hm, true_iff] at hp
      simp [tally, hp]
  | enter i =>
    simp only [step] at hs
    split at hs
    · rename_i g hg
      split at hs
      · rename_i hp
        injection hs with hs; subst hs
        exact .act i g _ hg (by simp [hp]) (by simp) rfl rfl rfl (by simp) (fun _ => rfl) ⟨by simp, rfl⟩ ⟨[], by simp [Sys.setPC], by simp [PC.held, hp, Sys.setPC], by simp⟩
      · simp at hs
    · simp at hs
  | stop i =>
    simp only [step] at hs
    split at hs
    · rename_i g hg
      split at hs
      · rename_i c hp
        split at hs
        · rename_i ch hc
          split at hs
          · rename_i hf
            injection hs with hs; subst hs
            exact .stop i g c ch rfl hg hp hc hf rfl rfl rfl rfl rfl
          · split at hs
            · injection hs with hs; subst hs
              exact .act i g _ hg (by simp [hp]) (by simp) rfl rfl rfl (by simp) (fun _ => rfl) ⟨by simp, rfl⟩ ⟨[], by simp [Sys.setPC], by simp [PC.held, hp, Sys.setPC], by simp⟩
            · simp at hs
        · simp at hs
      · simp at hs
    · simp at hs
  | recv i =>
    simp only [step] at hs
    split at hs
    · rename_i g m rest hg htx
      split at hs
      · rename_i x hp
        injection hs with hs; subst hs
        exact .act i g _ hg (by simp [hp]) (by simp) rfl rfl rfl (by simp) (fun _ => rfl) ⟨by simp, rfl⟩ ⟨[], by simp [Sys.setPC], by simp [PC.held, hp, htx], by simp⟩
      · simp at hs
    · simp at hs
  | pass i =>
    simp only [step] at hs
    split at hs
    · rename_i g hg
      split at hs
      · rename_i m hp
        injection hs with hs; subst hs
        exact .act i g _ hg (by simp [hp]) (by simp) rfl rfl rfl (by simp) (fun _ => rfl) ⟨by simp, rfl⟩
          ⟨[(m, m.dest.getD g.session)], rfl, by simp [PC.held, hp, Sys.setPC], by simp⟩
      · simp at hs
    · simp at hs

/-! ## The ledger -/

structure Ledger (p : Nat × Nat) (s : Sys) : Prop where
  sole : Sole s
  adds : s.gs.length = p.1
  reg : s.mapped = none ↔ p.1 = p.2
  count : s.live + p.2 = p.1 + s.pending
  le : p.2 ≤ p.1 ∧ p.1 ≤ p.2 + 1

theorem ledger_step {p : Nat × Nat} {s s' : Sys} {l : Label} (h : Ledger p s) (hs : step s l = some s') : Ledger (tally p l) s' := by
  have hsole := sole_step h.sole hs
  obtain ⟨a, d⟩ := p
  obtain ⟨hsol, hadds, hreg, hcount, hle⟩ := h
  dsimp only at hadds hreg hcount hle
  cases move hs with
  | quiet gs chans mapped _ _ t =>
    rw [t _ hreg]
    exact ⟨hsole, by rw [gs]; exact hadds, by rw [mapped]; exact hreg, by rw [Sys.live, gs, Sys.pending, chans]; exact hcount, hle⟩
  | add e m gs chans mapped _ _ =>
    subst e
    have had := hreg.1 m
    simp only [tally, had, if_true]
    refine ⟨hsole, by rw [gs]; simp [hadds, had], by rw [mapped]; simp, ?_, by omega⟩
    simp only [Sys.live, gs, Sys.pending, chans, List.countP_append] at hcount ⊢
    simp at hcount ⊢
    omega
  | delete c e m gs chans mapped _ _ =>
    subst e
    have hne : a ≠ d := fun e => by rw [hreg.2 e] at m; cases m
    simp only [tally, if_neg hne]
    refine ⟨hsole, by rw [gs]; exact hadds, by rw [mapped]; simp; omega, ?_, by omega⟩
    have h1 := countP_set_eq (·.full) (⟨true, true⟩ : Chan) s.chans c _ (hsol.last c m).2
    simp only [Sys.live, gs, Sys.pending, chans] at hcount ⊢
    simp at h1
    omega
  | act i g pc hg h1 h2 gs chans mapped _ t _ _ =>
    rw [t]
    refine ⟨hsole, by rw [gs, List.length_set]; exact hadds, by rw [mapped]; exact hreg, ?_, hle⟩
    have h3 := countP_set_eq (fun g : G => decide (g.pc ≠ .done)) { g with pc := pc } s.gs i g hg
    simp only [h1, h2, ne_eq, not_false_eq_true, decide_true, if_true] at h3
    simp only [Sys.live, Sys.pending, chans, gs] at hcount ⊢
    simp only [ne_eq] at hcount ⊢
    omega
  | stop i g c ch e hg h1 hc hf gs chans mapped _ _ =>
    subst e
    refine ⟨hsole, by rw [gs, List.length_set]; exact hadds, by rw [mapped]; exact hreg, ?_, hle⟩
    have h3 := countP_set_eq (fun g : G => decide (g.pc ≠ .done)) { g with pc := .done } s.gs i g hg
    have h4 := countP_set_eq (·.full) ({ ch with full := false } : Chan) s.chans c ch hc
    simp only [h1, ne_eq, reduceCtorEq, not_false_eq_true, decide_true, if_true, not_true_eq_false, decide_false, Bool.false_eq_true, if_false] at h3
    simp only [hf, if_true, Bool.false_eq_true, if_false] at h4
    simp only [Sys.live, Sys.pending, chans, gs, tally] at hcount ⊢
    simp only [ne_eq] at hcount ⊢
    omega

theorem ledger (session : Int) (ls : List Label) : ∀ s, exec (.init session) ls = some s → Ledger (tallies ls) s := by
  induction ls using snoc_induction with
  | h0 => intro s h; injection h with h; subst h; exact ⟨⟨rfl, by simp [Sys.init], by simp [Sys.init]⟩, rfl, by simp [Sys.init, tallies], rfl, by simp [tallies]⟩
  | h1 ls l ih =>
    intro s h
    obtain ⟨m, hm, hs⟩ := exec_snoc h
    rw [tallies, List.foldl_append]
    exact ledger_step (ih m hm) hs

/-- C110, exactly, for every execution with any number of additions and deletions: besides the goroutine a registered endpoint is to have, as many
goroutines serve it as there are stop signals nobody took. -/
theorem c110_count (session : Int) (ls : List Label) (s : Sys) (h : exec (.init session) ls = some s) :
    s.gs.length = (tallies ls).1 ∧ (s.mapped = none ↔ (tallies ls).1 = (tallies ls).2) ∧ s.live = (if s.mapped = none then 0 else 1) + s.pending := by
  obtain ⟨_, h1, h2, h3, h4⟩ := ledger session ls s h
  refine ⟨h1, h2, ?_⟩
  by_cases hm : s.mapped = none
  · have := h2.1 hm
    rw [if_pos hm]; omega
  · have : (tallies ls).1 ≠ (tallies ls).2 := fun e => hm (h2.2 e)
    rw [if_neg hm]; omega

/-! ## Signals that are never taken -/

/-- A signal nobody waits for. -/
structure Unheard (c : Nat) (ch : Chan) (s : Sys) : Prop where
  has : s.chans[c]? = some ch
  full : ch.full = true
  nobody : ¬ s.Heard c

theorem unheard_step {c : Nat} {ch : Chan} {s s' : Sys} {l : Label} (h : Unheard c ch s) (hsole : Sole s) (hs : step s l = some s') : Unheard c ch s' := by
  obtain ⟨h1, h2, h3⟩ := h
  have hm : s.mapped ≠ some c := fun e => by
    have := (hsole.last c e).2
    rw [h1] at this
    injection this with this
    rw [this] at h2
    cases h2
  have mem : ∀ {i : Nat} {g : G}, s.gs[i]? = some g → g.pc ≠ .sel (some c) := fun hg e => h3 ⟨_, List.mem_of_getElem? hg, e⟩
  cases move hs with
  | quiet gs chans mapped _ _ _ => exact ⟨by rw [chans]; exact h1, h2, by rw [Sys.Heard, gs]; exact h3⟩
  | add _ _ gs chans _ _ _ =>
    obtain ⟨hlt, _⟩ := List.getElem?_eq_some_iff.mp h1
    refine ⟨by rw [chans, List.getElem?_append_left hlt]; exact h1, h2, ?_⟩
    rintro ⟨g, hg, e⟩
    rw [gs, List.mem_append, List.mem_singleton] at hg
    rcases hg with hg | rfl
    · exact h3 ⟨g, hg, e⟩
    · cases e
  | delete d _ m gs chans _ _ _ =>
    refine ⟨by rw [chans, List.getElem?_set_ne (fun e => hm (by rw [m, e]))]; exact h1, h2, by rw [Sys.Heard, gs]; exact h3⟩
  | act i g pc hg _ _ gs chans _ hsel _ _ _ =>
    refine ⟨by rw [chans]; exact h1, h2, ?_⟩
    rintro ⟨g', hg', e⟩
    rw [gs] at hg'
    rcases List.mem_or_eq_of_mem_set hg' with hg' | rfl
    · exact h3 ⟨g', hg', e⟩
    · exact hm (hsel _ e).symm
  | stop i g d ch' _ hg e1 _ _ gs chans _ _ _ =>
    refine ⟨by rw [chans, List.getElem?_set_ne (fun e => mem hg (by rw [e1, e]))]; exact h1, h2, ?_⟩
    rintro ⟨g', hg', e⟩
    rw [gs] at hg'
    rcases List.mem_or_eq_of_mem_set hg' with hg' | rfl
    · exact h3 ⟨g', hg', e⟩
    · cases e

theorem sole_along {s s' : Sys} {ls : List Label} (h : Sole s) (he : exec s ls = some s') : Sole s' := by
  induction ls using snoc_induction generalizing s' with
  | h0 => injection he with he; subst he; exact h
  | h1 ls l ih =>
    obtain ⟨m, hm, hs⟩ := exec_snoc he
    exact sole_step (ih hm) hs

theorem unheard_along {c : Nat} {ch : Chan} {s s' : Sys} {ls : List Label} (h : Unheard c ch s) (hsole : Sole s) (he : exec s ls = some s') :
    Unheard c ch s' := by
  induction ls using snoc_induction generalizing s' with
  | h0 => injection he with he; subst he; exact h
  | h1 ls l ih =>
    obtain ⟨m, hm, hs⟩ := exec_snoc he
    exact unheard_step (ih hm) (sole_along hsole hm) hs

/-- Somebody waits for every signal: they can all be taken. -/
theorem settle (n : Nat) : ∀ s : Sys, s.pending = n → (∀ (c : Nat) (ch : Chan), s.chans[c]? = some ch → ch.full = true → s.Heard c) →
    ∃ ls s', exec s ls = some s' ∧ (∀ l ∈ ls, ∃ i, l = .stop i) ∧ s'.pending = 0 := by
  induction n with
  | zero => intro s h _; exact ⟨[], s, rfl, by simp, h⟩
  | succ n ih =>
    intro s hn hh
    obtain ⟨ch, hch, hf⟩ := List.countP_pos_iff.mp (show 0 < s.chans.countP (·.full) by rw [← Sys.pending, hn]; omega)
    obtain ⟨c, hc⟩ := List.getElem?_of_mem hch
    obtain ⟨g, hg, hp⟩ := hh c ch hc hf
    obtain ⟨i, hi⟩ := List.getElem?_of_mem hg
    have hs : step s (.stop i) = some { (s.setPC i g .done) with chans := s.chans.set c { ch with full := false } } := by
      simp only [step, hi, hp, hc, hf, if_true]
    have h4 := countP_set_eq (·.full) ({ ch with full := false } : Chan) s.chans c ch hc
    simp only [hf, if_true, Bool.false_eq_true, if_false] at h4
    obtain ⟨ls, s', e1, e2, e3⟩ := ih { (s.setPC i g .done) with chans := s.chans.set c { ch with full := false } }
      (by simp only [Sys.pending] at hn ⊢; omega) (by
        intro d ch' hd hf'
        dsimp only at hd
        by_cases e : c = d
        · subst e
          obtain ⟨hlt, _⟩ := List.getElem?_eq_some_iff.mp hc
          rw [List.getElem?_set_self hlt] at hd
          injection hd with hd
          subst hd
          cases hf'
        · rw [List.getElem?_set_ne e] at hd
          obtain ⟨x, hx, hxp⟩ := hh d ch' hd hf'
          obtain ⟨j, hj⟩ := List.getElem?_of_mem hx
          have hij : i ≠ j := by
            rintro rfl
            rw [hi] at hj
            injection hj with hj
            subst hj
            rw [hp] at hxp
            injection hxp with hxp
            injection hxp with hxp
            exact e hxp
          refine ⟨x, List.mem_of_getElem? (i := j) ?_, hxp⟩
          simp only [Sys.setPC]
          rw [List.getElem?_set_ne hij]; exact hj)
    refine ⟨.stop i :: ls, s', by rw [exec, hs]; exact e1, ?_, e3⟩
    intro l hl
    rcases List.mem_cons.mp hl with rfl | hl
    · exact ⟨i, rfl⟩
    · exact e2 l hl

/-- C110: whether the endpoint can still come to be served by the goroutine it is to have (by none, if it is deleted), whatever happens next: if and
only if some goroutine waits for every stop signal; then the goroutines that take them are enough. -/
theorem c110_iff (session : Int) (before : List Label) (s : Sys) (h : exec (.init session) before = some s) :
    (∃ ls s', exec s ls = some s' ∧ s'.live = if s'.mapped = none then 0 else 1) ↔
      ∀ (c : Nat) (ch : Chan), s.chans[c]? = some ch → ch.full = true → s.Heard c := by
  have count : ∀ ls s', exec s ls = some s' → s'.live = (if s'.mapped = none then 0 else 1) + s'.pending := fun ls s' he =>
    (c110_count session (before ++ ls) s' (by rw [exec_append, h]; exact he)).2.2
  refine ⟨fun ⟨ls, s', he, hl⟩ c ch hc hf => ?_, fun hh => ?_⟩
  · refine Classical.byContradiction fun hn => ?_
    have hu := unheard_along ⟨hc, hf, hn⟩ (ledger session before s h).sole he
    have hpos : 0 < s'.pending := List.countP_pos_iff.mpr ⟨ch, List.mem_of_getElem? hu.has, hu.full⟩
    have := count ls s' he
    omega
  · obtain ⟨ls, s', e1, _, e3⟩ := settle _ s rfl hh
    exact ⟨ls, s', e1, by rw [count ls s' e1, e3]; rfl⟩

/-- A signal nobody waits for is never taken, whatever happens next, also if the endpoint is added again. -/
theorem c110_forever (session : Int) (before ls : List Label) (s s' : Sys) (h : exec (.init session) before = some s) (he : exec s ls = some s')
    (c : Nat) (ch : Chan) (hc : s.chans[c]? = some ch) (hf : ch.full = true) (hn : ¬ s.Heard c) :
    (if s'.mapped = none then 0 else 1) < s'.live := by
  have hu := unheard_along ⟨hc, hf, hn⟩ (ledger session before s h).sole he
  have hpos : 0 < s'.pending := List.countP_pos_iff.mpr ⟨ch, List.mem_of_getElem? hu.has, hu.full⟩
  have := (c110_count session (before ++ ls) s' (by rw [exec_append, h]; exact he)).2.2
  omega

/-! ## The order of the messages -/

theorem held_none : ∀ gs : List G, gs.countP (fun g => decide (g.pc ≠ .done)) = 0 → (gs.flatMap fun g => g.pc.held) = []
  | [], _ => rfl
  | g :: gs, h => by
    rw [List.countP_cons] at h
    have hg : g.pc = .done := by
      refine Classical.byContradiction fun hn => ?_
      simp only [ne_eq, hn, not_false_eq_true, decide_true, if_true] at h
      omega
    rw [List.flatMap_cons, held_none gs (by omega), hg]; rfl

/-- What is held if only one goroutine lives. -/
theorem held_one (g' : G) : ∀ (gs : List G) (i : Nat) (g : G), gs[i]? = some g → g.pc ≠ .done → gs.countP (fun g => decide (g.pc ≠ .done)) ≤ 1 →
    (gs.flatMap fun g => g.pc.held) = g.pc.held ∧ ((gs.set i g').flatMap fun g => g.pc.held) = g'.pc.held
  | [], _, _, h, _, _ => by simp at h
  | x :: gs, 0, g, h, hp, hc => by
    simp only [List.getElem?_cons_zero, Option.some.injEq] at h
    subst h
    rw [List.countP_cons] at hc
    simp only [ne_eq, hp, not_false_eq_true, decide_true, if_true] at hc
    have := held_none gs (by simp only [ne_eq]; omega)
    simp only [List.set_cons_zero, List.flatMap_cons, this, List.append_nil, and_self]
  | x :: gs, i + 1, g, h, hp, hc => by
    simp only [List.getElem?_cons_succ] at h
    rw [List.countP_cons] at hc
    have hpos : 0 < gs.countP (fun g => decide (g.pc ≠ .done)) := List.countP_pos_iff.mpr ⟨g, List.mem_of_getElem? h, by simp [hp]⟩
    have hx : x.pc = .done := by
      refine Classical.byContradiction fun hn => ?_
      simp only [ne_eq, hn, not_false_eq_true, decide_true, if_true] at hc hpos
      omega
    obtain ⟨h1, h2⟩ := held_one g' gs i g h hp (by omega)
    rw [List.set_cons_succ, List.flatMap_cons, List.flatMap_cons, h1, h2, hx]
    exact ⟨rfl, rfl⟩

/-- While one goroutine serves the endpoint, nothing is lost, repeated or overtaken. -/
theorem flow_step {s s' : Sys} {l : Label} (h : s.live ≤ 1) (hs : step s l = some s') :
    ∃ o, s'.out = s.out ++ o ∧ o.map Prod.fst ++ s'.inflight ++ s'.tx = s.inflight ++ s.tx ++ pushes [l] := by
  cases move hs with
  | quiet gs _ _ out tx _ => exact ⟨[], by simp [out], by simp [Sys.inflight, gs, tx]⟩
  | add e _ gs _ _ out tx => subst e; exact ⟨[], by simp [out], by simp [Sys.inflight, gs, tx, PC.held, pushes]⟩
  | delete c e _ gs _ _ out tx => subst e; exact ⟨[], by simp [out], by simp [Sys.inflight, gs, tx, pushes]⟩
  | act i g pc hg h1 _ gs _ _ _ _ hl flow =>
    obtain ⟨o, f1, f2, _⟩ := flow
    obtain ⟨k1, k2⟩ := held_one { g with pc := pc } s.gs i g hg h1 h
    refine ⟨o, f1, ?_⟩
    rw [Sys.inflight, Sys.inflight, gs, k1, k2, hl.2, List.append_nil]
    exact f2
  | stop i g c ch e hg h1 _ _ gs _ _ out tx =>
    subst e
    obtain ⟨k1, k2⟩ := held_one { g with pc := .done } s.gs i g hg (by simp [h1]) h
    exact ⟨[], by simp [out], by rw [Sys.inflight, Sys.inflight, gs, k1, k2, h1, tx]; simp [PC.held, pushes]⟩

/-- The states a schedule goes through. -/
def Along (P : Sys → Prop) (s : Sys) (ls : List Label) : Prop := ∀ n m, exec s (ls.take n) = some m → P m

theorem Along.pre {P : Sys → Prop} {s : Sys} {ls : List Label} {l : Label} (h : Along P s (ls ++ [l])) : Along P s ls := by
  intro n m hm
  refine h (min n ls.length) m ?_
  rw [List.take_append_of_le_length (Nat.min_le_right _ _), ← hm]
  congr 1
  rcases Nat.le_total n ls.length with h | h
  · rw [Nat.min_eq_left h]
  · rw [Nat.min_eq_right h, List.take_of_length_le h, List.take_of_length_le (Nat.le_refl _)]

theorem Along.last {P : Sys → Prop} {s m : Sys} {ls : List Label} (h : Along P s ls) (hm : exec s ls = some m) : P m :=
  h ls.length m (by rw [List.take_length]; exact hm)

/-- C110, order: in every execution in which never two goroutines serve the endpoint, however often it is deleted and added, what is put on the channel
is passed down once and in order. -/
theorem c110_in_order_partial (s s' : Sys) (ls : List Label) (he : exec s ls = some s') (h : Along (fun m => m.live ≤ 1) s ls) :
    ∃ o, s'.out = s.out ++ o ∧ o.map Prod.fst ++ s'.inflight ++ s'.tx = s.inflight ++ s.tx ++ pushes ls := by
  induction ls using snoc_induction generalizing s' with
  | h0 => injection he with he; subst he; exact ⟨[], by simp, by simp [pushes]⟩
  | h1 ls l ih =>
    obtain ⟨m, hm, hs⟩ := exec_snoc he
    obtain ⟨o, o1, o2⟩ := ih m hm h.pre
    obtain ⟨q, q1, q2⟩ := flow_step (h.pre.last hm) hs
    refine ⟨o ++ q, by rw [q1, o1, List.append_assoc], ?_⟩
    rw [pushes_append, ← List.append_assoc, ← o2, List.map_append]
    simp only [List.append_assoc] at q2 ⊢
    rw [q2]

theorem live_step {s s' : Sys} {l : Label} (hs : step s l = some s') (hl : l ≠ .add) : s'.live ≤ s.live := by
  cases move hs with
  | quiet gs _ _ _ _ _ => rw [Sys.live, gs]; exact Nat.le_refl _
  | add e _ _ _ _ _ _ => exact absurd e hl
  | delete c e _ gs _ _ _ _ => rw [Sys.live, gs]; exact Nat.le_refl _
  | act i g pc hg h1 h2 gs _ _ _ _ _ _ =>
    have h3 := countP_set_eq (fun g : G => decide (g.pc ≠ .done)) { g with pc := pc } s.gs i g hg
    simp only [h1, h2, ne_eq, not_false_eq_true, decide_true, if_true] at h3
    simp only [Sys.live, gs, ne_eq]
    omega
  | stop i g c ch e hg h1 hc hf gs chans mapped _ _ =>
    have h3 := countP_set_eq (fun g : G => decide (g.pc ≠ .done)) { g with pc := .done } s.gs i g hg
    simp only [h1, ne_eq, reduceCtorEq, not_false_eq_true, decide_true, if_true, not_true_eq_false, decide_false, Bool.false_eq_true, if_false] at h3
    simp only [Sys.live, gs, ne_eq]
    omega

theorem live_along {s s' : Sys} {ls : List Label} (he : exec s ls = some s') (hl : .add ∉ ls) : s'.live ≤ s.live := by
  induction ls using snoc_induction generalizing s' with
  | h0 => injection he with he; subst he; exact Nat.le_refl _
  | h1 ls l ih =>
    obtain ⟨m, hm, hs⟩ := exec_snoc he
    simp only [List.mem_append, List.mem_singleton, not_or] at hl
    exact Nat.le_trans (live_step hs fun e => hl.2 e.symm) (ih hm hl.1)

/-- Labels with which a goroutine works. -/
def Label.works (i : Nat) (l : Label) : Prop := l = .pass i ∨ l = .enter i ∨ l = .recv i

theorem works_pushes {i : Nat} : ∀ {ls : List Label}, (∀ l ∈ ls, l.works i) → pushes ls = []
  | [], _ => rfl
  | l :: ls, h => by
    have := works_pushes (ls := ls) fun x hx => h x (by simp [hx])
    rw [show l :: ls = [l] ++ ls from rfl, pushes_append, this]
    rcases h l (by simp) with rfl | rfl | rfl <;> rfl

theorem works_add {i : Nat} {ls : List Label} (h : ∀ l ∈ ls, l.works i) : .add ∉ ls := fun hm => by
  rcases h _ hm with h | h | h <;> cases h

/-- Goroutine `i` waits in `select`; the others are as before. -/
def Waits (i : Nat) (s s' : Sys) : Prop :=
  (∃ g x, s'.gs[i]? = some g ∧ g.pc = .sel x) ∧ (∀ k, k ≠ i → s'.gs[k]? = s.gs[k]?) ∧ ∃ o, s'.out = s.out ++ o

theorem to_select {s : Sys} {i : Nat} {g : G} (hg : s.gs[i]? = some g) (hp : g.pc ≠ .done) :
    ∃ ls s', exec s ls = some s' ∧ (∀ l ∈ ls, l.works i) ∧ s'.tx = s.tx ∧ Waits i s s' := by
  obtain ⟨hlt, _⟩ := List.getElem?_eq_some_iff.mp hg
  cases hpc : g.pc with
  | done => exact absurd hpc hp
  | sel x => exact ⟨[], s, rfl, by simp, rfl, ⟨g, x, hg, hpc⟩, fun _ _ => rfl, [], by simp⟩
  | top =>
    refine ⟨[.enter i], s.setPC i g (.sel s.mapped), by simp [exec, step, hg, hpc], by simp [Label.works], rfl, ⟨{ g with pc := .sel s.mapped }, s.mapped, ?_, rfl⟩,
      fun k hk => ?_, [], by simp [Sys.setPC]⟩
    · simp only [Sys.setPC]; rw [List.getElem?_set_self hlt]
    · simp only [Sys.setPC]; rw [List.getElem?_set_ne (Ne.symm hk)]
  | sending m =>
    have h1 : step s (.pass i) = some { (s.setPC i g .top) with out := s.out ++ [(m, m.dest.getD g.session)] } := by simp [step, hg, hpc]
    have h2 : step { (s.setPC i g .top) with out := s.out ++ [(m, m.dest.getD g.session)] } (.enter i) =
        some { (s.setPC i g (.sel s.mapped)) with out := s.out ++ [(m, m.dest.getD g.session)] } := by
      simp [step, Sys.setPC, List.getElem?_set_self hlt]
    refine ⟨[.pass i, .enter i], { (s.setPC i g (.sel s.mapped)) with out := s.out ++ [(m, m.dest.getD g.session)] },
      by rw [exec, h1, Option.bind_some, exec, h2]; rfl, by simp [Label.works], rfl,
      ⟨{ g with pc := .sel s.mapped }, s.mapped, ?_, rfl⟩, fun k hk => ?_, _, rfl⟩
    · simp only [Sys.setPC]; rw [List.getElem?_set_self hlt]
    · simp only [Sys.setPC]; rw [List.getElem?_set_ne (Ne.symm hk)]

theorem recv_step {s : Sys} {i : Nat} {g : G} {x : Option Nat} {m : Msg} {rest : List Msg} (hg : s.gs[i]? = some g) (hp : g.pc = .sel x) (ht : s.tx = m :: rest) :
    step s (.recv i) = some { (s.setPC i g (.sending m)) with tx := rest } := by
  simp [step, hg, hp, ht]

theorem pass_step {s : Sys} {i : Nat} {g : G} {m : Msg} (hg : s.gs[i]? = some g) (hp : g.pc = .sending m) :
    step s (.pass i) = some { (s.setPC i g .top) with out := s.out ++ [(m, m.dest.getD g.session)] } := by
  simp [step, hg, hp]

/-- A goroutine alone can empty the channel. -/
theorem drain_one (n : Nat) : ∀ {s : Sys} {i : Nat} {g : G}, s.tx.length = n → s.gs[i]? = some g → g.pc ≠ .done →
    ∃ ls s', exec s ls = some s' ∧ (∀ l ∈ ls, l.works i) ∧ s'.tx = [] ∧ Waits i s s' := by
  induction n with
  | zero =>
    intro s i g hn hg hp
    obtain ⟨ls, s', e1, e2, e3, e4⟩ := to_select hg hp
    exact ⟨ls, s', e1, e2, by rw [e3]; exact List.eq_nil_of_length_eq_zero hn, e4⟩
  | succ n ih =>
    intro s i g hn hg hp
    obtain ⟨ls, s1, e1, e2, e3, ⟨g1, x, w1, w2⟩, w3, o, w4⟩ := to_select hg hp
    obtain ⟨m, rest, ht⟩ : ∃ m rest, s1.tx = m :: rest := by
      cases ht : s1.tx with
      | nil => rw [← e3, ht] at hn; simp at hn
      | cons m rest => exact ⟨m, rest, rfl⟩
    have hlt := (List.getElem?_eq_some_iff.mp w1).1
    have hr := recv_step w1 w2 ht
    obtain ⟨ls2, s2, f1, f2, f3, f4, f5, o2, f6⟩ := ih (s := { (s1.setPC i g1 (.sending m)) with tx := rest }) (i := i) (g := { g1 with pc := .sending m })
      (by rw [← e3, ht] at hn; simpa using hn) (by simp only [Sys.setPC]; rw [List.getElem?_set_self hlt]) (by simp)
    refine ⟨ls ++ .recv i :: ls2, s2, ?_, ?_, f3, f4, fun k hk => ?_, o ++ o2, ?_⟩
    · rw [exec_append, e1, Option.bind_some, exec, hr, Option.bind_some]; exact f1
    · intro l hl
      rcases List.mem_append.mp hl with hl | hl
      · exact e2 l hl
      · rcases List.mem_cons.mp hl with rfl | hl
        · exact .inr (.inr rfl)
        · exact f2 l hl
    · rw [f5 k hk]
      simp only [Sys.setPC]
      rw [List.getElem?_set_ne (Ne.symm hk)]
      exact w3 k hk
    · rw [f6]
      simp only [Sys.setPC]
      rw [w4, List.append_assoc]

theorem two_of_countP {α : Type} (p : α → Bool) : ∀ l : List α, 2 ≤ l.countP p →
    ∃ (i j : Nat) (x y : α), i ≠ j ∧ l[i]? = some x ∧ l[j]? = some y ∧ p x = true ∧ p y = true
  | [], h => by simp at h
  | a :: l, h => by
    rw [List.countP_cons] at h
    by_cases ha : p a = true
    · simp only [ha, if_true] at h
      obtain ⟨y, hy, hpy⟩ := List.countP_pos_iff.mp (show 0 < l.countP p by omega)
      obtain ⟨j, hj⟩ := List.getElem?_of_mem hy
      exact ⟨0, j + 1, a, y, by omega, rfl, by simpa using hj, ha, hpy⟩
    · simp only [ha, Bool.false_eq_true, if_false] at h
      obtain ⟨i, j, x, y, h1, h2, h3, h4, h5⟩ := two_of_countP p l (by omega)
      exact ⟨i + 1, j + 1, x, y, by omega, by simpa using h2, by simpa using h3, h4, h5⟩

/-- With two goroutines a message can be overtaken by the next one. -/
theorem overtaken {s : Sys} (h : 2 ≤ s.live) (a b : Msg) :
    ∃ ls s' o sa sb, exec s ls = some s' ∧ .add ∉ ls ∧ pushes ls = [a, b] ∧ s'.out = s.out ++ o ++ [(b, sb), (a, sa)] := by
  obtain ⟨i, j, x, y, hij, hi, hj, hx, hy⟩ := two_of_countP (fun g : G => decide (g.pc ≠ .done)) s.gs h
  obtain ⟨l1, s1, a1, a2, a3, ⟨gj, xj, a4, a5⟩, a6, o1, a7⟩ := to_select hj (by simpa using hy)
  obtain ⟨l2, s2, b1, b2, b3, ⟨gi, xi, b4, b5⟩, b6, o2, b7⟩ := drain_one _ rfl (show s1.gs[i]? = some x by rw [a6 i hij]; exact hi) (by simpa using hx)
  rw [← b6 j (Ne.symm hij)] at a4
  have hli := (List.getElem?_eq_some_iff.mp b4).1
  have hlj := (List.getElem?_eq_some_iff.mp a4).1
  have r1 := recv_step (s := { s2 with tx := [a, b] }) b4 b5 rfl
  have r2 := recv_step (s := { ({ s2 with tx := [a, b] } : Sys).setPC i gi (.sending a) with tx := [b] }) (i := j) (g := gj) (x := xj) (m := b) (rest := [])
    (by simp only [Sys.setPC]; rw [List.getElem?_set_ne hij]; exact a4) a5 rfl
  generalize ht : ({ ({ ({ s2 with tx := [a, b] } : Sys).setPC i gi (.sending a) with tx := [b] } : Sys).setPC j gj (.sending b) with tx := [] } : Sys) = t at r2
  have tgs : t.gs = (s2.gs.set i { gi with pc := .sending a }).set j { gj with pc := .sending b } := by rw [← ht]; rfl
  have tout : t.out = s2.out := by rw [← ht]; rfl
  have r3 := pass_step (s := t) (i := j) (g := { gj with pc := .sending b }) (m := b)
    (by rw [tgs, List.getElem?_set_self (by simpa using hlj)]) rfl
  generalize hu : ({ t.setPC j { gj with pc := .sending b } .top with out := t.out ++ [(b, b.dest.getD gj.session)] } : Sys) = u at r3
  have ugs : u.gs[i]? = some { gi with pc := .sending a } := by
    rw [← hu]
    simp only [Sys.setPC, tgs]
    rw [List.getElem?_set_ne (Ne.symm hij), List.getElem?_set_ne (Ne.symm hij), List.getElem?_set_self hli]
  have uout : u.out = s2.out ++ [(b, b.dest.getD gj.session)] := by rw [← hu, tout]
  have r4 := pass_step ugs rfl
  refine ⟨l1 ++ (l2 ++ [.push a, .push b, .recv i, .recv j, .pass j, .pass i]),
    { (u.setPC i { gi with pc := .sending a } .top) with out := u.out ++ [(a, a.dest.getD gi.session)] }, o1 ++ o2, a.dest.getD gi.session, b.dest.getD gj.session, ?_, ?_, ?_, ?_⟩
  · have p1 : step s2 (.push a) = some { s2 with tx := [a] } := by simp [step, b3]
    have p2 : step { s2 with tx := [a] } (.push b) = some { s2 with tx := [a, b] } := by simp [step]
    rw [exec_append, a1, Option.bind_some, exec_append, b1, Option.bind_some]
    simp only [exec, p1, p2, r1, r2, r3, r4, Option.bind_some]
  · simp only [List.mem_append, not_or]
    exact ⟨works_add a2, works_add b2, by simp⟩
  · rw [pushes_append, pushes_append, works_pushes a2, works_pushes b2]; rfl
  · rw [uout, b7, a7]; simp

theorem data_le_sum : ∀ {ms : List Msg} {m : Msg}, m ∈ ms → m.data ≤ (ms.map Msg.data).sum
  | a :: ms, m, h => by
    rw [List.map_cons, List.sum_cons]
    rcases List.mem_cons.mp h with rfl | h
    · omega
    · have := data_le_sum h; omega

/-- C110, order, exactly: in any state, everything that is on the channel or will be put on it is passed down once and in order in every continuation
in which the endpoint is not added, if and only if at most one goroutine serves it. -/
theorem c110_order_iff (s : Sys) : s.live ≤ 1 ↔ ∀ ls s', exec s ls = some s' → .add ∉ ls →
    ∃ o, s'.out = s.out ++ o ∧ o.map Prod.fst ++ s'.inflight ++ s'.tx = s.inflight ++ s.tx ++ pushes ls := by
  constructor
  · intro h ls s' he ha
    refine c110_in_order_partial s s' ls he fun n m hm => Nat.le_trans (live_along hm fun hx => ha (List.mem_of_mem_take hx)) h
  · intro h
    refine Classical.byContradiction fun hn => ?_
    let a : Msg := ⟨((s.inflight ++ s.tx).map Msg.data).sum + 2, none⟩
    let b : Msg := ⟨((s.inflight ++ s.tx).map Msg.data).sum + 1, none⟩
    obtain ⟨ls, s', o, sa, sb, e1, e2, e3, e4⟩ := overtaken (s := s) (by omega) a b
    obtain ⟨o', f1, f2⟩ := h ls s' e1 e2
    rw [e4, List.append_assoc] at f1
    have := List.append_cancel_left f1
    subst this
    have hb : b ∉ s.inflight ++ s.tx ++ [a] := by
      intro hm
      rcases List.mem_append.mp hm with hm | hm
      · have := data_le_sum hm
        simp only [b] at this
        omega
      · simp [a, b] at hm
    apply hb
    rw [e3] at f2
    have f3 := congrArg List.dropLast f2
    rw [show s.inflight ++ s.tx ++ [a, b] = s.inflight ++ s.tx ++ [a] ++ [b] by simp, List.dropLast_concat] at f3
    rw [← f3]
    simp only [List.map_append, List.map_cons, List.map_nil, List.append_assoc, List.cons_append, List.nil_append]
    rw [List.dropLast_append_of_ne_nil (by simp)]
    simp

/-! ## The session -/

/-- The session the endpoint has, whether it is registered, and the session it had when it was added last. -/
def capture : Int × Bool × Int → Label → Int × Bool × Int
  | (_, r, k), .setSession x => (x, r, k)
  | (x, r, k), .add => if r then (x, r, k) else (x, true, x)
  | (x, _, k), .delete => (x, false, k)
  | p, _ => p

def captures (session : Int) (ls : List Label) : Int × Bool × Int := ls.foldl capture (session, false, session)

structure Stamp (p : Int × Bool × Int) (s : Sys) : Prop where
  cur : s.session = p.1
  reg : s.mapped = none ↔ p.2.1 = false
  cap : ∀ g ∈ s.gs, g.pc ≠ .done → g.session = p.2.2

theorem session_step {s s' : Sys} {l : Label} (hs : step s l = some s') : s'.session = match l with | .setSession x => x | _ => s.session := by
  cases l with
  | setSession x => injection hs with hs; subst hs; rfl
  | _ => simp only [step] at hs; (repeat' split at hs) <;> first | (simp at hs; done) | (injection hs with hs; subst hs; rfl)

theorem stamp_step {p : Int × Bool × Int} {s s' : Sys} {l : Label} (h : Stamp p s) (hs : step s l = some s') (h1 : s'.live ≤ 1) : Stamp (capture p l) s' := by
  obtain ⟨x, r, k⟩ := p
  obtain ⟨hc, hr, hg⟩ := h
  dsimp only at hc hr hg
  have hses := session_step hs
  -- the goroutines that live did before, with the same session
  have keep : (∀ g ∈ s'.gs, g.pc ≠ .done → ∃ g0 ∈ s.gs, g0.pc ≠ .done ∧ g0.session = g.session) → ∀ g ∈ s'.gs, g.pc ≠ .done → g.session = k := by
    intro hk g hm hp
    obtain ⟨g0, a1, a2, a3⟩ := hk g hm hp
    rw [← a3]; exact hg g0 a1 a2
  have put : ∀ (i : Nat) (g : G) (pc : PC), s.gs[i]? = some g → g.pc ≠ .done → s'.gs = s.gs.set i { g with pc := pc } →
      ∀ g ∈ s'.gs, g.pc ≠ .done → ∃ g0 ∈ s.gs, g0.pc ≠ .done ∧ g0.session = g.session := by
    intro i g pc h1 h2 h3 y hy hp
    rw [h3] at hy
    rcases List.mem_or_eq_of_mem_set hy with hy | rfl
    · exact ⟨y, hy, hp, rfl⟩
    · exact ⟨g, List.mem_of_getElem? h1, h2, rfl⟩
  cases move hs with
  | quiet gs _ mapped _ _ t =>
    have hsame := keep (by rw [gs]; exact fun g hm hp => ⟨g, hm, hp, rfl⟩)
    cases l with
    | setSession y => exact ⟨hses, by rw [mapped]; exact hr, hsame⟩
    | add =>
      have hreg : r = true := by
        cases r with
        | true => rfl
        | false =>
          have := t (0, 0) (by simp [hr])
          simp [tally] at this
      subst hreg
      exact ⟨hses.trans hc, by rw [mapped]; exact hr, hsame⟩
    | delete =>
      have hn : s.mapped = none := by
        refine Classical.byContradiction fun hn => ?_
        have := t (1, 0) (by simp [hn])
        simp [tally] at this
      exact ⟨hses.trans hc, by rw [mapped]; simp [hn, capture], hsame⟩
    | _ => exact ⟨hses.trans hc, by rw [mapped]; exact hr, hsame⟩
  | add e m gs _ mapped _ _ =>
    subst e
    have hrf := hr.1 m
    subst hrf
    refine ⟨hses.trans hc, by rw [mapped]; simp [capture], ?_⟩
    have h0 : s.gs.countP (fun g => decide (g.pc ≠ .done)) = 0 := by
      simp only [Sys.live, gs, List.countP_append] at h1
      simp at h1 ⊢
      exact h1
    intro g hm hp
    rw [gs, List.mem_append, List.mem_singleton] at hm
    rcases hm with hm | rfl
    · exact absurd (List.countP_pos_iff (p := fun g : G => decide (g.pc ≠ .done)).mpr ⟨g, hm, by simpa using hp⟩) (by rw [h0]; omega)
    · exact hc
  | delete c e m gs _ mapped _ _ =>
    subst e
    exact ⟨hses.trans hc, by rw [mapped]; simp [capture], keep (by rw [gs]; exact fun g hm hp => ⟨g, hm, hp, rfl⟩)⟩
  | act i g pc hgi h2 _ gs _ mapped _ t hl _ =>
    have hsame := keep (put i g pc hgi h2 gs)
    cases l with
    | setSession y => exact ⟨hses, by rw [mapped]; exact hr, hsame⟩
    | add => exact absurd rfl hl.1
    | delete => have := t (1, 0); simp [tally] at this
    | _ => exact ⟨hses.trans hc, by rw [mapped]; exact hr, hsame⟩
  | stop i g c ch e hgi h2 _ _ gs _ mapped _ _ =>
    subst e
    exact ⟨hses.trans hc, by rw [mapped]; exact hr, keep (put i g .done hgi (by simp [h2]) gs)⟩

theorem stamp_along (session : Int) (ls : List Label) : ∀ s, exec (.init session) ls = some s → Along (fun m => m.live ≤ 1) (.init session) ls →
    Stamp (captures session ls) s := by
  induction ls using snoc_induction with
  | h0 => intro s h _; injection h with h; subst h; exact ⟨rfl, by simp [Sys.init, captures], by simp [Sys.init]⟩
  | h1 ls l ih =>
    intro s h ha
    obtain ⟨m, hm, hs⟩ := exec_snoc h
    rw [captures, List.foldl_append]
    exact stamp_step (ih m hm ha.pre) hs (ha.last h)

/-- C110, session: in every execution in which never two goroutines serve the endpoint, a message that names no session is passed down with the one the
endpoint had when it was added last. -/
theorem c110_session_partial (session : Int) (ls : List Label) (s s' : Sys) (i : Nat) (h : exec (.init session) ls = some s)
    (ha : Along (fun m => m.live ≤ 1) (.init session) ls) (hs : step s (.pass i) = some s') :
    ∃ m, s'.out = s.out ++ [(m, m.dest.getD (captures session ls).2.2)] := by
  have hst := stamp_along session ls s h ha
  simp only [step] at hs
  split at hs
  · rename_i g hg
    split at hs
    · rename_i m hp
      injection hs with hs; subst hs
      exact ⟨m, by rw [← hst.cap g (List.mem_of_getElem? hg) (by simp [hp])]⟩
    · simp at hs
  · simp at hs

/-! ## Violated -/

/-- Deleted before its goroutine comes to `select`, `n` times. -/
def leaks : Nat → List Label
  | 0 => []
  | n + 1 => leaks n ++ [.add, .delete]

theorem leaks_exec (session : Int) (n : Nat) :
    exec (.init session) (leaks n) = some ⟨session, none, List.replicate n ⟨true, true⟩, [], List.replicate n ⟨session, .top⟩, []⟩ := by
  induction n with
  | zero => rfl
  | succ n ih =>
    rw [leaks, exec_append, ih]
    simp [exec, step, List.replicate_succ', List.set_append]

/-- C110 is violated without bound: `n` goroutines serve an endpoint that is deleted, and never fewer, whatever happens next. -/
theorem c110_violated (session : Int) (n : Nat) : ∃ ls s, exec (.init session) ls = some s ∧ s.mapped = none ∧ s.live = n ∧
    ∀ ls' s', exec s ls' = some s' → n ≤ s'.live := by
  have hrun := leaks_exec session n
  have hled := ledger session _ _ hrun
  refine ⟨leaks n, _, hrun, rfl, by simp [Sys.live, List.countP_replicate], fun ls' s' he => ?_⟩
  have hc := (c110_count session (leaks n ++ ls') s' (by rw [exec_append, hrun]; exact he)).2.2
  have hp : n ≤ s'.pending := by
    have hget : ∀ c, c < n → s'.chans[c]? = some ⟨true, true⟩ := by
      intro c hlt
      exact (unheard_along (c := c) (ch := ⟨true, true⟩) ⟨by simp [hlt], rfl, by
        rintro ⟨g, hg, e⟩
        have := List.eq_of_mem_replicate hg
        rw [this] at e
        cases e⟩ hled.sole he).has
    have hpre : s'.chans.take n = List.replicate n ⟨true, true⟩ := by
      apply List.ext_getElem?
      intro c
      rw [List.getElem?_take]
      by_cases hlt : c < n
      · rw [if_pos hlt, hget c hlt]; simp [hlt]
      · rw [if_neg hlt]; simp; omega
    have h1 : s'.pending = (s'.chans.take n ++ s'.chans.drop n).countP (·.full) := by rw [List.take_append_drop]; rfl
    rw [h1, hpre, List.countP_append, List.countP_replicate]
    simp
  omega

/-! ## Examples -/

/-- Deleted while it waits, and added again with another session: one goroutine at a time, and the messages arrive in order. -/
def again : List Label :=
  [.add, .enter 0, .push ⟨1, none⟩, .recv 0, .pass 0, .enter 0, .delete, .stop 0, .push ⟨2, none⟩, .setSession 9, .add, .enter 1, .recv 1]

example : ∃ s, exec (.init 5) again = some s ∧ s.live = 1 ∧ s.pending = 0 ∧ tallies again = (2, 1) ∧ (captures 5 again).2.2 = 9 ∧
    (step s (.pass 1)).map (·.out) = some [(⟨1, none⟩, 5), (⟨2, none⟩, 9)] := ⟨_, rfl, by decide, by decide, by decide, by decide, by decide⟩

example : Along (fun m => m.live ≤ 1) (.init 5) again := by
  intro n m hm
  match n with
  | 0 | 1 | 2 | 3 | 4 | 5 | 6 | 7 | 8 | 9 | 10 | 11 | 12 => injection hm with hm; subst hm; decide
  | n + 13 =>
    rw [List.take_of_length_le (by simp [again])] at hm
    injection hm with hm; subst hm; decide

/-- Deleted while it sends, and added again: the first goroutine is one too many for ever. -/
example : ∃ s, exec (.init 5) [.add, .enter 0, .push ⟨1, none⟩, .recv 0, .delete, .add] = some s ∧ s.live = 2 ∧
    (∀ ls s', exec s ls = some s' → (if s'.mapped = none then 0 else 1) < s'.live) :=
  ⟨_, rfl, by decide, fun ls s' he => c110_forever 5 [.add, .enter 0, .push ⟨1, none⟩, .recv 0, .delete, .add] ls _ s' rfl he 0 ⟨true, true⟩ rfl rfl (by
    rintro ⟨g, hg, e⟩
    revert e
    revert g
    decide)⟩

end Verif.Reg.Serve
