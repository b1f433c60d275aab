import Verif.Trace

/-!
# The socket file of the Unix transport (C65)

`UDSTransport.accept` (tran_unix.go:166-192), `Run` (261-280) and `Stop` (283-303), as far as the socket file is concerned.  `accept` runs in
a goroutine of its own, started by `Run`: it removes the file, listens (which creates the file, and fails if there is one), stores the
listener, accepts until the listener is closed, calls `Stop` and, on return, removes the file once more.

From the Go runtime: `Close` of a Unix listener made by `net.Listen` unlinks the path it was bound to, whatever is there by then;
`log.Fatal` ends the process.

Simplifications: the address is not changed between runs; the connections and the channel `next` are in `Conn.Stream`; sending on `next`
never blocks here; nobody else touches the file.
-/

namespace Verif.Conn.SocketFile

open Verif.Trace

/-- Where an accept goroutine is. -/
inductive Phase where
  /-- before `os.Remove` (167) -/
  | start
  /-- before `net.Listen` (169) -/
  | listening
  /-- has the listener, before `uds.listener = listener` (176) -/
  | saving (l : Nat)
  /-- before `uds.listener.Accept()` (181) -/
  | loop
  /-- waits in `Accept` of a listener -/
  | accepting (l : Nat)
  /-- before `uds.Stop()` (191) -/
  | stopping
  /-- before the deferred `os.Remove` (174) -/
  | removing
  | done
  deriving Repr, DecidableEq

/-- How the process ended. -/
inductive Crash where
  /-- `log.Fatal(err)` (171) -/
  | listenFailed
  /-- `uds.listener.Accept()` with `uds.listener == nil` (181) -/
  | nilListener
  deriving Repr, DecidableEq

structure Sys where
  /-- the socket file: which listener dialling it leads to -/
  file : Option Nat
  /-- `uds.listener` -/
  listener : Option Nat
  /-- the listeners that have been closed -/
  closed : List Nat
  running : Bool
  gors : List Phase
  /-- listeners made so far -/
  made : Nat
  crash : Option Crash
  deriving Repr, DecidableEq

inductive Label where
  | run
  | stop
  /-- goroutine `g` goes on -/
  | go (g : Nat)
  /-- a client connects to the listener `g` waits on -/
  | client (g : Nat)
  deriving Repr, DecidableEq

/-- tran_unix.go:283-303. -/
def stop (s : Sys) : Sys :=
  if s.running then
    match s.listener with
    | some l => { s with listener := none, closed := l :: s.closed, file := none, running := false }
    | none => { s with running := false }
  else s

def goStep (s : Sys) (g : Nat) : Option Sys :=
  match s.gors[g]? with
  | some .start => some { s with file := none, gors := s.gors.set g .listening }
  | some .listening =>
    match s.file with
    | some _ => some { s with crash := some .listenFailed }
    | none => some { s with file := some s.made, made := s.made + 1, gors := s.gors.set g (.saving s.made) }
  | some (.saving l) => some { s with listener := some l, gors := s.gors.set g .loop }
  | some .loop =>
    match s.listener with
    | some l => some { s with gors := s.gors.set g (.accepting l) }
    | none => some { s with crash := some .nilListener }
  | some (.accepting l) => if l ∈ s.closed then some { s with gors := s.gors.set g .stopping } else none
  | some .stopping => let s := stop s; some { s with gors := s.gors.set g .removing }
  | some .removing => some { s with file := none, gors := s.gors.set g .done }
  | some .done => none
  | none => none

def step (s : Sys) (l : Label) : Option Sys :=
  if s.crash.isSome then none else
  match l with
  | .run => if s.running then some s else some { s with running := true, gors := s.gors ++ [.start] }
  | .stop => some (stop s)
  | .go g => goStep s g
  | .client g =>
    match s.gors[g]? with
    | some (.accepting l) => if l ∈ s.closed then none else some { s with gors := s.gors.set g .loop }
    | _ => none

abbrev exec := Trace.exec step

def init : Sys := ⟨none, none, [], false, [], 0, none⟩

/-- Clients can reach every listener somebody waits on. -/
def Reachable (s : Sys) : Prop := ∀ l, .accepting l ∈ s.gors → l ∉ s.closed → s.file = some l

/-- Runs in which `Run` starts a goroutine only after the earlier goroutines have returned. -/
def execGuarded : Sys → List Label → Option Sys
  | s, [] => some s
  | s, .run :: ls => if s.running || s.gors.all (· == .done) then (step s .run).bind fun s => execGuarded s ls else none
  | s, l :: ls => (step s l).bind fun s => execGuarded s ls

/-- What holds while the last goroutine is at `p` and the others are done. -/
def Good (s : Sys) : Phase → Prop
  | .start => s.listener = none
  | .listening => s.listener = none ∧ s.file = none
  | .saving l => s.listener = none ∧ s.file = some l ∧ l ∉ s.closed ∧ l < s.made
  | .loop => ∀ l, s.listener = some l → s.file = some l ∧ l ∉ s.closed
  | .accepting l => (l ∉ s.closed → s.file = some l ∧ s.listener = some l) ∧ (l ∈ s.closed → s.listener = none)
  | .stopping => s.listener = none
  | .removing => s.listener = none
  | .done => s.listener = none

structure Inv (s : Sys) : Prop where
  gor : (s.gors = [] ∧ s.listener = none) ∨ ∃ olds p, s.gors = olds ++ [p] ∧ (∀ q ∈ olds, q = .done) ∧ Good s p
  closed : ∀ l ∈ s.closed, l < s.made
  cur : ∀ l, s.listener = some l → l < s.made
  crash : s.crash ≠ some .listenFailed

theorem inv_stop {s : Sys} (h : Inv s) : Inv (stop s) := by
  unfold stop
  split
  · split
    · rename_i l hl
      refine ⟨?_, ?_, by simp, h.crash⟩
      · rcases h.gor with ⟨_, h2⟩ | ⟨olds, p, hg, ho, hp⟩
        · rw [h2] at hl; simp at hl
        · refine .inr ⟨olds, p, hg, ho, ?_⟩
          cases p with
          | start => exact rfl
          | listening => exact ⟨rfl, rfl⟩
          | saving m => have := hp.1; rw [hl] at this; simp at this
          | loop => intro m hm; simp at hm
          | accepting m =>
            refine ⟨?_, fun _ => rfl⟩
            intro hm
            exfalso
            simp only [List.mem_cons, not_or] at hm
            have h1 := (hp.1 hm.2).2
            rw [hl] at h1; injection h1 with h1; exact hm.1 h1.symm
          | stopping => exact rfl
          | removing => exact rfl
          | done => exact rfl
      · intro m hm
        rcases List.mem_cons.mp hm with hm | hm
        · rw [hm]; exact h.cur l hl
        · exact h.closed m hm
    · rename_i hl
      refine ⟨?_, h.closed, h.cur, h.crash⟩
      rcases h.gor with h2 | ⟨olds, p, hg, ho, hp⟩
      · exact .inl h2
      · exact .inr ⟨olds, p, hg, ho, by cases p <;> exact hp⟩
  · exact h

theorem stop_gors (s : Sys) : (stop s).gors = s.gors := by
  unfold stop; split
  · split <;> rfl
  · rfl

theorem stop_listener (s : Sys) (h : s.listener = none) : (stop s).listener = none := by
  unfold stop; split
  · split
    · rfl
    · exact h
  · exact h

theorem inv_go {s s' : Sys} {g : Nat} (h : Inv s) (hs : goStep s g = some s') : Inv s' := by
  rcases h.gor with ⟨h1, _⟩ | ⟨olds, p, hg, ho, hp⟩
  · simp [goStep, h1] at hs
  · have hlast : s.gors[g]? = some .done ∨ s.gors[g]? = none ∨ (g = olds.length ∧ s.gors[g]? = some p) := by
      rw [hg]
      by_cases hlt : g < olds.length
      · left
        rw [List.getElem?_append_left hlt, List.getElem?_eq_getElem hlt, ho _ (List.getElem_mem hlt)]
      · by_cases he : g = olds.length
        · right; right; subst he; exact ⟨rfl, by simp⟩
        · right; left; rw [List.getElem?_eq_none_iff, List.length_append, List.length_singleton]; omega
    have hset : ∀ q, g = olds.length → s.gors.set g q = olds ++ [q] := by
      intro q he; rw [hg, he]; simp
    rcases hlast with hl | hl | ⟨he, hl⟩
    · simp [goStep, hl] at hs
    · simp [goStep, hl] at hs
    · cases p with
      | start =>
        simp only [goStep, hl] at hs
        injection hs with hs; subst hs
        exact ⟨.inr ⟨olds, .listening, hset _ he, ho, hp, rfl⟩, h.closed, h.cur, h.crash⟩
      | listening =>
        simp only [goStep, hl] at hs
        rw [hp.2] at hs
        injection hs with hs; subst hs
        refine ⟨.inr ⟨olds, .saving s.made, hset _ he, ho, hp.1, rfl, ?_, Nat.lt_succ_self _⟩, ?_, ?_, h.crash⟩
        · intro hc; exact absurd (h.closed _ hc) (Nat.lt_irrefl _)
        · intro m hm; exact Nat.lt_succ_of_lt (h.closed m hm)
        · intro m hm; exact Nat.lt_succ_of_lt (h.cur m hm)
      | saving l =>
        simp only [goStep, hl] at hs
        injection hs with hs; subst hs
        refine ⟨.inr ⟨olds, .loop, hset _ he, ho, ?_⟩, h.closed, ?_, h.crash⟩
        · intro m hm; injection hm with hm; subst hm; exact ⟨hp.2.1, hp.2.2.1⟩
        · intro m hm; injection hm with hm; subst hm; exact hp.2.2.2
      | loop =>
        simp only [goStep, hl] at hs
        split at hs
        · rename_i l hlis
          injection hs with hs; subst hs
          obtain ⟨h1, h2⟩ := hp l hlis
          exact ⟨.inr ⟨olds, .accepting l, hset _ he, ho, fun _ => ⟨h1, hlis⟩, fun hc => absurd hc h2⟩, h.closed, h.cur, h.crash⟩
        · injection hs with hs; subst hs
          exact ⟨.inr ⟨olds, .loop, hg, ho, hp⟩, h.closed, h.cur, by simp⟩
      | accepting l =>
        simp only [goStep, hl] at hs
        split at hs
        · rename_i hc
          injection hs with hs; subst hs
          exact ⟨.inr ⟨olds, .stopping, hset _ he, ho, hp.2 hc⟩, h.closed, h.cur, h.crash⟩
        · simp at hs
      | stopping =>
        simp only [goStep, hl] at hs
        injection hs with hs; subst hs
        have hi := inv_stop h
        refine ⟨.inr ⟨olds, .removing, ?_, ho, stop_listener s hp⟩, hi.closed, hi.cur, hi.crash⟩
        show (stop s).gors.set g .removing = _
        rw [stop_gors]; exact hset _ he
      | removing =>
        simp only [goStep, hl] at hs
        injection hs with hs; subst hs
        exact ⟨.inr ⟨olds, .done, hset _ he, ho, hp⟩, h.closed, h.cur, h.crash⟩
      | done => simp [goStep, hl] at hs

theorem inv_step {s s' : Sys} {l : Label} (h : Inv s) (hrun : l = .run → s.running = true ∨ s.gors.all (· == .done) = true)
    (hs : step s l = some s') : Inv s' := by
  unfold step at hs
  split at hs
  · simp at hs
  · cases l with
    | run =>
      simp only at hs
      split at hs
      · injection hs with hs; subst hs; exact h
      · rename_i hr
        injection hs with hs; subst hs
        have hall := (hrun rfl).resolve_left hr
        have hd : ∀ q ∈ s.gors, q = .done := by
          intro q hq; have := List.all_eq_true.mp hall q hq; simpa using this
        refine ⟨.inr ⟨s.gors, .start, rfl, hd, ?_⟩, h.closed, h.cur, h.crash⟩
        show s.listener = none
        rcases h.gor with h1 | ⟨olds, p, hg, _, hp⟩
        · exact h1.2
        · have : p = .done := hd p (by rw [hg]; simp)
          subst this; exact hp
    | stop => injection hs with hs; subst hs; exact inv_stop h
    | go g => exact inv_go h hs
    | client g =>
      simp only at hs
      split at hs
      · rename_i l hl
        split at hs
        · simp at hs
        · rename_i hc
          injection hs with hs; subst hs
          rcases h.gor with ⟨h1, _⟩ | ⟨olds, p, hg, ho, hp⟩
          · rw [h1] at hl; simp at hl
          · have hge : g = olds.length ∧ p = .accepting l := by
              rw [hg] at hl
              by_cases hlt : g < olds.length
              · rw [List.getElem?_append_left hlt, List.getElem?_eq_getElem hlt, ho _ (List.getElem_mem hlt)] at hl
                simp at hl
              · by_cases he : g = olds.length
                · subst he; simp at hl; exact ⟨rfl, hl⟩
                · rw [List.getElem?_eq_none (by rw [List.length_append, List.length_singleton]; omega)] at hl; simp at hl
            obtain ⟨rfl, rfl⟩ := hge
            refine ⟨.inr ⟨olds, .loop, by show s.gors.set _ _ = _; rw [hg]; simp, ho, ?_⟩, h.closed, h.cur, h.crash⟩
            intro m hm
            have := hp.1 hc
            rw [show s.listener = some m from hm] at this
            have h2 := this.2
            injection h2 with h2; subst h2
            exact ⟨this.1, hc⟩
      · simp at hs

theorem inv_guarded (ls : List Label) : ∀ s s' : Sys, Inv s → execGuarded s ls = some s' → Inv s' := by
  induction ls with
  | nil => intro s s' h he; injection he with he; subst he; exact h
  | cons l ls ih =>
    intro s s' h he
    have key : (l = .run → s.running = true ∨ s.gors.all (· == .done) = true) ∧ ∃ m, step s l = some m ∧ execGuarded m ls = some s' := by
      cases l with
      | run =>
        simp only [execGuarded] at he
        split at he
        · rename_i hc
          refine ⟨fun _ => by simpa using hc, ?_⟩
          exact Option.bind_eq_some_iff.mp he
        · simp at he
      | stop => exact ⟨by simp, Option.bind_eq_some_iff.mp he⟩
      | go g => exact ⟨by simp, Option.bind_eq_some_iff.mp he⟩
      | client g => exact ⟨by simp, Option.bind_eq_some_iff.mp he⟩
    obtain ⟨hr, m, hm, he⟩ := key
    exact ih m s' (inv_step h hr hm) he

/-- C65, restricted to users who call `Run` again only after the goroutine of the previous run has returned: as long as the transport
waits for connections the socket file leads to its listener, and listening never fails because of an old file. -/
theorem c65_guarded_partial (ls : List Label) (s : Sys) (he : execGuarded init ls = some s) : Reachable s ∧ s.crash ≠ some .listenFailed := by
  have h := inv_guarded ls init s ⟨.inl ⟨rfl, rfl⟩, by simp [init], by simp [init], by simp [init]⟩ he
  refine ⟨?_, h.crash⟩
  intro l hl hc
  rcases h.gor with ⟨h1, _⟩ | ⟨olds, p, hg, ho, hp⟩
  · rw [h1] at hl; simp at hl
  · rw [hg] at hl
    rcases List.mem_append.mp hl with hl | hl
    · have := ho _ hl; simp at this
    · rw [List.mem_singleton] at hl; subst hl; exact (hp.1 hc).1

/-- A guarded run with two `Run`s, waiting for connections at the end. -/
example : execGuarded init [.run, .go 0, .go 0, .go 0, .go 0, .client 0, .go 0, .stop, .go 0, .go 0, .go 0, .run, .go 1, .go 1, .go 1, .go 1] =
    some ⟨some 1, some 1, [0], true, [.done, .accepting 1], 2, none⟩ := by decide

/-- The file of the second run is gone. -/
def lost : Sys := ⟨none, some 1, [0], true, [.done, .accepting 1], 2, none⟩

theorem lost_reachable : exec init [.run, .go 0, .go 0, .go 0, .go 0, .stop, .go 0, .go 0, .run, .go 1, .go 1, .go 1, .go 1, .go 0] = some lost := by decide

theorem no_file_step {s s' : Sys} {l : Label} (hf : s.file = none) (hg : ∀ p ∈ s.gors, p ≠ .start ∧ p ≠ .listening) (hl : l ≠ .run) (hs : step s l = some s') :
    s'.file = none ∧ ∀ p ∈ s'.gors, p ≠ .start ∧ p ≠ .listening := by
  have hset : ∀ (g : Nat) (q : Phase), q ≠ .start → q ≠ .listening → ∀ p ∈ s.gors.set g q, p ≠ .start ∧ p ≠ .listening := by
    intro g q h1 h2 p hp
    rcases List.mem_or_eq_of_mem_set hp with hp | hp
    · exact hg p hp
    · subst hp; exact ⟨h1, h2⟩
  unfold step at hs
  split at hs
  · simp at hs
  · cases l with
    | run => exact absurd rfl hl
    | stop =>
      injection hs with hs; subst hs
      refine ⟨?_, by rw [stop_gors]; exact hg⟩
      unfold stop; split
      · split
        · rfl
        · exact hf
      · exact hf
    | client g =>
      simp only at hs
      split at hs
      · split at hs
        · simp at hs
        · injection hs with hs; subst hs; exact ⟨hf, hset g .loop (by simp) (by simp)⟩
      · simp at hs
    | go g =>
      simp only [goStep] at hs
      split at hs
      · rename_i h; exact absurd rfl (hg _ (List.mem_of_getElem? h)).1
      · rename_i h; exact absurd rfl (hg _ (List.mem_of_getElem? h)).2
      · injection hs with hs; subst hs; exact ⟨hf, hset g .loop (by simp) (by simp)⟩
      · split at hs
        · injection hs with hs; subst hs; exact ⟨hf, hset g _ (by simp) (by simp)⟩
        · injection hs with hs; subst hs; exact ⟨hf, hg⟩
      · split at hs
        · injection hs with hs; subst hs; exact ⟨hf, hset g .stopping (by simp) (by simp)⟩
        · simp at hs
      · injection hs with hs; subst hs
        refine ⟨?_, by show ∀ p ∈ (stop s).gors.set g .removing, _; rw [stop_gors]; exact hset g .removing (by simp) (by simp)⟩
        show (stop s).file = none
        unfold stop; split
        · split
          · rfl
          · exact hf
        · exact hf
      · injection hs with hs; subst hs; exact ⟨rfl, hset g .done (by simp) (by simp)⟩
      · simp at hs
      · simp at hs

/-- C65 does not hold: the goroutine of the earlier run, on its way out, removes the file of the later one; the transport is running and
waits for connections, and no client can reach it until somebody calls `Stop` and `Run`. -/
theorem c65_violated : ∃ ls s, exec init ls = some s ∧ s.running = true ∧ .accepting 1 ∈ s.gors ∧ 1 ∉ s.closed ∧
    ∀ ls' s', Label.run ∉ ls' → exec s ls' = some s' → s'.file = none := by
  refine ⟨_, lost, lost_reachable, rfl, by decide, by decide, ?_⟩
  intro ls' s' hno he
  exact (invariant (step := step) (P := fun s => s.file = none ∧ ∀ p ∈ s.gors, p ≠ .start ∧ p ≠ .listening) (Q := fun l => l ≠ .run)
    (fun _ _ _ h hl hs => no_file_step h.1 h.2 hl hs) ls' _ _ (by decide) (fun l hl h => hno (h ▸ hl)) he).1

/-- The actions that remove the socket file: an accept goroutine that starts or returns, and a `Stop` that closes a listener. -/
def Removes (s : Sys) : Label → Prop
  | .go g => s.gors[g]? = some .start ∨ s.gors[g]? = some .removing ∨ (s.gors[g]? = some .stopping ∧ s.running = true ∧ s.listener ≠ none)
  | .stop => s.running = true ∧ s.listener ≠ none
  | _ => False

theorem stop_file (s : Sys) : (s.running = true ∧ s.listener ≠ none ∧ (stop s).file = none) ∨ (¬ (s.running = true ∧ s.listener ≠ none) ∧ (stop s).file = s.file) := by
  unfold stop
  cases hr : s.running with
  | false => exact .inr ⟨by simp, rfl⟩
  | true =>
    cases hl : s.listener with
    | none => exact .inr ⟨by simp, rfl⟩
    | some l => exact .inl ⟨rfl, by simp, rfl⟩

theorem stop_made (s : Sys) : (stop s).made = s.made := by
  unfold stop; split
  · split <;> rfl
  · rfl

/-- One action: it removes the file, or keeps it if there is one; a new file leads to a new listener. -/
theorem file_step {s s' : Sys} {l : Label} (hs : step s l = some s') :
    s.made ≤ s'.made ∧ ((Removes s l ∧ s'.file = none) ∨
      (¬ Removes s l ∧ (s'.file = s.file ∨ (s.file = none ∧ s'.file = some s.made ∧ s'.made = s.made + 1)))) := by
  unfold step at hs
  split at hs
  · simp at hs
  · cases l with
    | run =>
      simp only at hs
      split at hs
      · injection hs with hs; subst hs; exact ⟨Nat.le_refl _, .inr ⟨fun h => h, .inl rfl⟩⟩
      · injection hs with hs; subst hs; exact ⟨Nat.le_refl _, .inr ⟨fun h => h, .inl rfl⟩⟩
    | stop =>
      injection hs with hs; subst hs
      refine ⟨by rw [stop_made]; exact Nat.le_refl _, ?_⟩
      rcases stop_file s with ⟨h1, h2, h3⟩ | ⟨h1, h2⟩
      · exact .inl ⟨⟨h1, h2⟩, h3⟩
      · exact .inr ⟨h1, .inl h2⟩
    | client g =>
      simp only at hs
      split at hs
      · split at hs
        · simp at hs
        · injection hs with hs; subst hs; exact ⟨Nat.le_refl _, .inr ⟨fun h => h, .inl rfl⟩⟩
      · simp at hs
    | go g =>
      simp only [goStep] at hs
      split at hs
      · rename_i h; injection hs with hs; subst hs; exact ⟨Nat.le_refl _, .inl ⟨.inl h, rfl⟩⟩
      · rename_i h
        split at hs
        · injection hs with hs; subst hs; exact ⟨Nat.le_refl _, .inr ⟨by simp [Removes, h], .inl rfl⟩⟩
        · rename_i hf
          injection hs with hs; subst hs; exact ⟨Nat.le_succ _, .inr ⟨by simp [Removes, h], .inr ⟨hf, rfl, rfl⟩⟩⟩
      · rename_i h; injection hs with hs; subst hs; exact ⟨Nat.le_refl _, .inr ⟨by simp [Removes, h], .inl rfl⟩⟩
      · rename_i h
        split at hs
        · injection hs with hs; subst hs; exact ⟨Nat.le_refl _, .inr ⟨by simp [Removes, h], .inl rfl⟩⟩
        · injection hs with hs; subst hs; exact ⟨Nat.le_refl _, .inr ⟨by simp [Removes, h], .inl rfl⟩⟩
      · rename_i h
        split at hs
        · injection hs with hs; subst hs; exact ⟨Nat.le_refl _, .inr ⟨by simp [Removes, h], .inl rfl⟩⟩
        · simp at hs
      · rename_i h
        injection hs with hs; subst hs
        refine ⟨by show s.made ≤ (stop s).made; rw [stop_made]; exact Nat.le_refl _, ?_⟩
        rcases stop_file s with ⟨h1, h2, h3⟩ | ⟨h1, h2⟩
        · exact .inl ⟨.inr (.inr ⟨h, h1, h2⟩), h3⟩
        · refine .inr ⟨?_, .inl h2⟩
          rintro (h3 | h3 | h3)
          · rw [h] at h3; simp at h3
          · rw [h] at h3; simp at h3
          · exact h1 h3.2
      · rename_i h; injection hs with hs; subst hs; exact ⟨Nat.le_refl _, .inl ⟨.inr (.inl h), rfl⟩⟩
      · simp at hs
      · simp at hs

theorem file_gone (ls : List Label) : ∀ (s s' : Sys) (l : Nat), l < s.made → s.file ≠ some l → exec s ls = some s' → s'.file ≠ some l := by
  induction ls with
  | nil => intro s s' l _ h he; injection he with he; subst he; exact h
  | cons a ls ih =>
    intro s s' l hl h he
    obtain ⟨m, hm, he⟩ := Option.bind_eq_some_iff.mp he
    obtain ⟨h1, h2⟩ := file_step hm
    refine ih m s' l (by omega) ?_ he
    rcases h2 with ⟨_, h2⟩ | ⟨_, h2 | ⟨_, h2, _⟩⟩
    · rw [h2]; simp
    · rw [h2]; exact h
    · rw [h2]; intro e; injection e with e; omega

/-- C65, exactly, without any restriction on the order of calls: dialling leads to a listener iff since it was made nobody has
removed the socket file: no accept goroutine, of this or another run, has started or returned, and no `Stop` has closed a
listener, not even that of another run. -/
theorem c65_exact (s1 : Sys) (g : Nat) (hg : s1.gors[g]? = some .listening) (hf : s1.file = none)
    (ls : List Label) (s : Sys) (hx : exec s1 (.go g :: ls) = some s) :
    s.file = some s1.made ↔ ∀ a l b m, ls = a ++ l :: b → exec s1 (.go g :: a) = some m → ¬ Removes m l := by
  obtain ⟨s2, hs2, he⟩ := Option.bind_eq_some_iff.mp hx
  have h2 : s2.file = some s1.made ∧ s1.made < s2.made := by
    have hs := hs2
    unfold step at hs
    split at hs
    · simp at hs
    · simp only [goStep, hg, hf] at hs
      injection hs with hs; subst hs; exact ⟨rfl, Nat.lt_succ_self _⟩
  have hpre : ∀ a m, exec s1 (.go g :: a) = some m ↔ exec s2 a = some m := by
    intro a m
    show (step s1 (.go g)).bind (fun x => exec x a) = some m ↔ _
    rw [hs2]; rfl
  simp only [hpre]
  generalize s1.made = n at h2
  clear hpre hs2 hf hg hx
  induction ls generalizing s2 with
  | nil =>
    injection he with he; subst he
    refine ⟨fun _ a l b m hab => ?_, fun _ => h2.1⟩
    cases a <;> cases hab
  | cons x ls ih =>
    obtain ⟨s3, hs3, he⟩ := Option.bind_eq_some_iff.mp he
    obtain ⟨f1, f2⟩ := file_step hs3
    rcases f2 with ⟨f2, f3⟩ | ⟨f2, f3⟩
    · constructor
      · intro h
        exact absurd h (file_gone ls s3 s n (by omega) (by rw [f3]; simp) he)
      · intro h
        exact absurd f2 (h [] x ls s2 rfl rfl)
    · have f4 : s3.file = some n := by
        rcases f3 with f3 | ⟨f3, _⟩
        · rw [f3]; exact h2.1
        · rw [f3] at h2; exact absurd h2.1 (by simp)
      have hi := ih s3 he ⟨f4, by omega⟩
      refine hi.trans ?_
      constructor
      · intro h a l b m hab hm
        cases a with
        | nil =>
          injection hab with e1 e2
          injection hm with hm
          subst e1; subst hm; exact f2
        | cons y a =>
          injection hab with e1 e2
          subst e1
          obtain ⟨m', hm', hm⟩ := Option.bind_eq_some_iff.mp hm
          rw [hs3] at hm'; injection hm' with hm'; subst hm'
          exact h a l b m e2 hm
      · intro h a l b m hab hm
        refine h (x :: a) l b m (by rw [hab]; rfl) ?_
        show (step s2 x).bind (fun y => exec y a) = some m
        rw [hs3]; exact hm

/-- The hypotheses are met by the run that loses the file: goroutine 1 listens, then goroutine 0 removes the file. -/
example : ∃ s1, exec init [.run, .go 0, .go 0, .go 0, .go 0, .stop, .go 0, .go 0, .run, .go 1] = some s1 ∧ s1.gors[1]? = some .listening ∧
    s1.file = none ∧ exec s1 [.go 1, .go 1, .go 1, .go 0] = some lost := ⟨_, rfl, rfl, rfl, rfl⟩

/-- `Run`, `Stop`, `Run` can end the process: both goroutines remove the file, then both listen. -/
theorem c65_fatal : ∃ s, exec init [.run, .stop, .run, .go 0, .go 1, .go 0, .go 1] = some s ∧ s.crash = some .listenFailed := ⟨_, rfl, rfl⟩

/-- `Stop` between two `Accept`s ends the process, even with a single `Run`. -/
theorem c65_nil : ∃ s, execGuarded init [.run, .go 0, .go 0, .go 0, .go 0, .client 0, .stop, .go 0] = some s ∧ s.crash = some .nilListener := ⟨_, rfl, rfl⟩

end Verif.Conn.SocketFile
