import Verif.Reg.Serve
import Verif.Fair

/-!
# Every message is passed down in the end (C111)

`c42_progress` says that the service goroutine of an endpoint can pass everything down.  Here the executions are infinite, and all that is assumed of the
scheduler is that it does not hold up for ever a goroutine that could go on (weak fairness).
-/

namespace Verif.Reg.Serve

open Verif.Trace (Run)

theorem exec_eq (s : Sys) (ls : List Label) : exec s ls = Trace.exec step s ls := by
  induction ls generalizing s with
  | nil => rfl
  | cons l ls ih =>
    simp only [exec, Trace.exec]
    cases step s l with
    | none => rfl
    | some t => exact ih t

/-- The steps of the service goroutines. -/
def Acts (l : Label) : Prop := l.acts = true

/-- The endpoint was added and never deleted: one goroutine, which waits on its channel. -/
structure Busy (s : Sys) : Prop where
  mapped : s.mapped = some 0
  chans : s.chans = [⟨false, false⟩]
  one : ∃ g, s.gs = [g] ∧ (g.pc = .top ∨ g.pc = .sel (some 0) ∨ ∃ m, g.pc = .sending m)

def PC.phase : PC → Nat
  | .top => 0
  | .sel _ => 1
  | .sending _ => 2
  | .done => 0

/-- What the goroutine has done. -/
def Sys.work (s : Sys) : Nat := 3 * s.out.length + (s.gs.map fun g => g.pc.phase).sum

theorem busy_step {s s' : Sys} {l : Label} (h : Busy s) (hs : step s l = some s') (hd : l ≠ .delete) :
    Busy s' ∧ s'.work = s.work + (if l.acts then 1 else 0) := by
  obtain ⟨hm, hc, g, hg, hp⟩ := h
  have at0 : ∀ i x, s.gs[i]? = some x → i = 0 ∧ x = g := by
    intro i x hx
    rw [hg] at hx
    cases i with
    | zero => simp only [List.getElem?_cons_zero, Option.some.injEq] at hx; exact ⟨rfl, hx.symm⟩
    | succ i => simp at hx
  cases l with
  | push m =>
    simp only [step] at hs
    split at hs
    · injection hs with hs; subst hs; exact ⟨⟨hm, hc, g, hg, hp⟩, rfl⟩
    · simp at hs
  | setSession x => injection hs with hs; subst hs; exact ⟨⟨hm, hc, g, hg, hp⟩, rfl⟩
  | add =>
    simp only [step, hm] at hs
    injection hs with hs; subst hs; exact ⟨⟨hm, hc, g, hg, hp⟩, rfl⟩
  | delete => exact absurd rfl hd
  | enter i =>
    simp only [step] at hs
    split at hs
    · rename_i x hx
      obtain ⟨rfl, rfl⟩ := at0 i x hx
      split at hs
      · rename_i ht
        injection hs with hs; subst hs
        exact ⟨⟨hm, hc, { x with pc := .sel s.mapped }, by simp [Sys.setPC, hg], .inr (.inl (by rw [hm]))⟩,
          by simp [Sys.work, Sys.setPC, hg, ht, PC.phase, Label.acts]⟩
      · simp at hs
    · simp at hs
  | stop i =>
    simp only [step] at hs
    split at hs
    · rename_i x hx
      obtain ⟨rfl, rfl⟩ := at0 i x hx
      split at hs
      · rename_i c hsel
        rcases hp with hp | hp | ⟨m, hp⟩
        · rw [hsel] at hp; cases hp
        · rw [hsel] at hp
          injection hp with hp
          injection hp with hp
          subst hp
          simp [hc] at hs
        · rw [hsel] at hp; cases hp
      · simp at hs
    · simp at hs
  | recv i =>
    simp only [step] at hs
    split at hs
    · rename_i x m rest hx htx
      obtain ⟨rfl, rfl⟩ := at0 i x hx
      split at hs
      · rename_i y hsel
        injection hs with hs; subst hs
        exact ⟨⟨hm, hc, { x with pc := .sending m }, by simp [Sys.setPC, hg], .inr (.inr ⟨m, rfl⟩)⟩,
          by simp [Sys.work, Sys.setPC, hg, hsel, PC.phase, Label.acts]⟩
      · simp at hs
    · simp at hs
  | pass i =>
    simp only [step] at hs
    split at hs
    · rename_i x hx
      obtain ⟨rfl, rfl⟩ := at0 i x hx
      split at hs
      · rename_i m hsend
        injection hs with hs; subst hs
        refine ⟨⟨hm, hc, { x with pc := .top }, by simp [Sys.setPC, hg], .inl rfl⟩, ?_⟩
        simp [Sys.work, Sys.setPC, hg, hsend, PC.phase, Label.acts]
        omega
      · simp at hs
    · simp at hs

/-- Before the endpoint is added nothing is served. -/
structure Fresh (s : Sys) : Prop where
  mapped : s.mapped = none
  chans : s.chans = []
  gs : s.gs = []

theorem fresh_step {s s' : Sys} {l : Label} (h : Fresh s) (hs : step s l = some s') : (l ≠ .add → Fresh s') ∧ (l = .add → Busy s') := by
  obtain ⟨h1, h2, h3⟩ := h
  cases l with
  | push m =>
    simp only [step] at hs
    split at hs
    · injection hs with hs; subst hs; exact ⟨fun _ => ⟨h1, h2, h3⟩, fun e => by cases e⟩
    · simp at hs
  | setSession x => injection hs with hs; subst hs; exact ⟨fun _ => ⟨h1, h2, h3⟩, fun e => by cases e⟩
  | add =>
    simp only [step, h1] at hs
    injection hs with hs; subst hs
    exact ⟨fun e => absurd rfl e, fun _ => ⟨by simp [h2], by simp [h2], ⟨s.session, .top⟩, by simp [h3], .inl rfl⟩⟩
  | delete => simp only [step, h1] at hs; injection hs with hs; subst hs; exact ⟨fun _ => ⟨h1, h2, h3⟩, fun e => by cases e⟩
  | enter i => simp [step, h3] at hs
  | stop i => simp [step, h3] at hs
  | recv i => simp [step, h3] at hs
  | pass i => simp [step, h3] at hs

theorem run_served (r : Run step (.init session)) (hd : ∀ n, r.label n ≠ some .delete) (n : Nat) :
    (Label.add ∉ r.past n ∧ Fresh (r.state n)) ∨ Label.add ∈ r.past n ∧ Busy (r.state n) := by
  induction n with
  | zero => exact .inl ⟨by simp [Run.past], by rw [r.start]; exact ⟨rfl, rfl, rfl⟩⟩
  | succ n ih =>
    rcases r.next n with ⟨h1, h2⟩ | ⟨l, h1, h2⟩
    · rw [Run.past, h1, h2]
      simpa using ih
    · have hl : l ≠ .delete := fun e => hd n (by rw [h1, e])
      rcases ih with ⟨a1, a2⟩ | ⟨a1, a2⟩
      · obtain ⟨b1, b2⟩ := fresh_step a2 h2
        by_cases e : l = .add
        · exact .inr ⟨by rw [Run.past, h1, e]; simp, b2 e⟩
        · refine .inl ⟨?_, b1 e⟩
          rw [Run.past, h1]
          simp only [Option.toList, List.mem_append, List.mem_singleton, not_or]
          exact ⟨a1, fun e' => e e'.symm⟩
      · exact .inr ⟨by rw [Run.past]; exact List.mem_append_left _ a1, (busy_step a2 h2 hl).1⟩

theorem run_busy (r : Run step (.init session)) (hd : ∀ n, r.label n ≠ some .delete) {a : Nat} (ha : r.label a = some .add) {n : Nat} (hn : a < n) : Busy (r.state n) := by
  rcases run_served r hd n with ⟨h, _⟩ | ⟨_, h⟩
  · exfalso
    apply h
    refine (r.past_pre (show a + 1 ≤ n by omega)).subset ?_
    rw [Run.past, ha]; simp
  · exact h

/-- While something is left the goroutine can go on. -/
theorem ready_of_left {s : Sys} (h : Busy s) (hleft : s.inflight ++ s.tx ≠ []) : Trace.Ready step Acts s := by
  obtain ⟨hm, hc, g, hg, hp | hp | ⟨m, hp⟩⟩ := h
  · exact ⟨.enter 0, rfl, by simp [step, hg, hp]⟩
  · cases ht : s.tx with
    | nil => exact absurd (by simp [Sys.inflight, hg, hp, PC.held, ht]) hleft
    | cons m rest => exact ⟨.recv 0, rfl, by simp [step, hg, hp, ht]⟩
  · exact ⟨.pass 0, rfl, by simp [step, hg, hp]⟩

/-- C111, endpoints: in every infinite execution in which the endpoint is added and not deleted and the scheduler is fair to its service goroutine, whatever
else happens: all that is put on the transmit channel up to any time is passed down in the end, in order. -/
theorem c111_passed (r : Run step (.init session)) (hf : r.Fair Acts) (hd : ∀ n, r.label n ≠ some .delete) (a : Nat) (ha : r.label a = some .add) (n : Nat) :
    ∃ m, n ≤ m ∧ pushes (r.past n) <+: (r.state m).out.map Prod.fst := by
  have hb : ∀ k, max n (a + 1) ≤ k → Busy (r.state k) := fun k hk => run_busy r hd ha (by omega)
  have horder : ∀ k, max n (a + 1) ≤ k → (r.state k).out.map Prod.fst ++ (r.state k).inflight ++ (r.state k).tx = pushes (r.past k) := by
    intro k hk
    obtain ⟨g, hg, _⟩ := (hb k hk).one
    exact (c42_in_order session (r.past k) (r.state k) (by rw [exec_eq]; exact r.exec_past k) (by rw [hg]; simp)).1
  have hpre : ∀ k, n ≤ k → pushes (r.past n) <+: pushes (r.past k) := by
    intro k hk
    obtain ⟨t, ht⟩ := r.past_pre hk
    exact ⟨pushes t, by rw [← ht, pushes_append]⟩
  -- so many messages are passed down
  obtain ⟨k, hk, hl⟩ := r.leads Acts hf Sys.work (fun k => (pushes (r.past n)).length ≤ (r.state k).out.length) (max n (a + 1))
    (by
      intro m l hm hlab hs
      have := (busy_step (hb m hm) hs fun e => hd m (by rw [hlab, e])).2
      refine ⟨by omega, fun hact => ?_⟩
      rw [if_pos (show l.acts = true from hact)] at this
      omega)
    (by
      intro k hk hg
      refine ready_of_left (hb k hk) fun he => hg ?_
      have h1 := horder k hk
      rw [List.append_assoc, he, List.append_nil] at h1
      have h2 := (hpre k (by omega)).length_le
      rwa [← h1, List.length_map] at h2)
    (3 * (pushes (r.past n)).length)
  have hlen : (pushes (r.past n)).length ≤ (r.state k).out.length := by
    rcases hl with hl | hl
    · exact hl
    · obtain ⟨g, hg, _⟩ := (hb k hk).one
      have h2 : (r.state k).work = 3 * (r.state k).out.length + g.pc.phase := by simp [Sys.work, hg]
      have h3 : g.pc.phase ≤ 2 := by cases g.pc <;> simp [PC.phase]
      omega
  refine ⟨k, by omega, List.prefix_of_prefix_length_le (hpre k (by omega)) ⟨(r.state k).inflight ++ (r.state k).tx, ?_⟩ (by simpa using hlen)⟩
  rw [← horder k hk, List.append_assoc]

/-! ### Example: two messages, and then nothing more -/

def demoLabels : List Label := [.push ⟨1, none⟩, .add, .enter 0, .recv 0, .push ⟨2, some 7⟩, .pass 0, .enter 0, .recv 0, .pass 0, .enter 0]

def demoEnd : Sys :=
  { (Sys.init 5) with mapped := some 0, chans := [⟨false, false⟩], gs := [⟨5, .sel (some 0)⟩], out := [(⟨1, none⟩, 5), (⟨2, some 7⟩, 7)] }

theorem demo_idle : ¬ Trace.Ready step Acts demoEnd := by
  rintro ⟨l, ha, hs⟩
  cases l with
  | enter i => cases i <;> simp [step, Sys.init, demoEnd] at hs
  | stop i => cases i <;> simp [step, Sys.init, demoEnd] at hs
  | recv i => cases i <;> simp [step, Sys.init, demoEnd] at hs
  | pass i => cases i <;> simp [step, Sys.init, demoEnd] at hs
  | _ => simp [Acts, Label.acts] at ha

def demoRun : Run step (.init 5) := Trace.demo demoLabels demoEnd rfl

example : ∃ m, 5 ≤ m ∧ [⟨1, none⟩, ⟨2, some 7⟩] <+: (demoRun.state m).out.map Prod.fst :=
  c111_passed demoRun (Trace.demo_fair _ _ _ _ demo_idle)
    (fun n h => absurd (List.mem_of_getElem? (show demoLabels[n]? = some .delete from h)) (by decide)) 1 rfl 5

/-- Without fairness nothing is passed down: a run that rests although the goroutine could go on. -/
theorem c111_unfair (n : Nat) : ∃ r : Run step (.init 5), (∀ n, r.label n ≠ some .delete) ∧ r.label 0 = some .add ∧ pushes (r.past (n + 2)) = [⟨1, none⟩] ∧
    ∀ m, (r.state m).out = [] := by
  refine ⟨Trace.demo [.add, .push ⟨1, none⟩] { (Sys.init 5) with mapped := some 0, chans := [⟨false, false⟩], gs := [⟨5, .top⟩], tx := [⟨1, none⟩] } rfl,
    fun n h => absurd (List.mem_of_getElem? (show [Label.add, .push ⟨1, none⟩][n]? = some .delete from h)) (by decide), rfl, ?_, ?_⟩
  · induction n with
    | zero => rfl
    | succ n ih =>
      rw [Run.past, pushes_append, ih]
      rfl
  · intro m
    match m with
    | 0 => rfl
    | 1 => rfl
    | m + 2 => cases m <;> rfl

end Verif.Reg.Serve
