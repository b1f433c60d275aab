import Verif.Conn.Pipeline
import Verif.Conn.Retire
import Verif.Conn.Shut
import Verif.Fair

/-!
# What becomes of a program that is left alone (C112)

Infinite executions of the models of C79, C89, C91 and C92.  Of the scheduler is asked only that it does not rest for ever as long as some goroutine can go on.
-/

open Verif.Trace

/-! ## Requests and answers -/

namespace Verif.Conn.Pipeline

theorem stuck_of_not_ready {c : Conf} {s : Sys} (h : ¬ Ready (step c) (fun _ => True) s) : Stuck c s := fun l =>
  Option.not_isSome_iff_eq_none.1 fun e => h ⟨l, trivial, e⟩

/-- Every execution comes to a point where nobody can go on, and stays there. -/
theorem comes_to_rest {c : Conf} {p : List Cmd} (r : Run (step c) (init p)) (hr : r.Fair fun _ => True) :
    ∃ n, Stuck c (r.state n) ∧ ∀ m, n ≤ m → r.state m = r.state n := by
  obtain ⟨n, _, hn⟩ := r.descends (fun _ => True) hr (work c) (fun m => Stuck c (r.state m)) 0
    (fun m l _ _ _ _ hs => by have := work_step hs; exact ⟨by omega, fun _ => by omega⟩)
    (fun m _ hm => Classical.byContradiction fun h => hm (stuck_of_not_ready h))
  refine ⟨n, hn, r.keeps (fun s => s = r.state n) n rfl fun m l _ _ hk hs => ?_⟩
  rw [hk, hn l] at hs
  cases hs

/-- C112, a client that reads its answers: its program ends, and it has got the answers to its first requests, if it never has more requests outstanding than the buffers hold
together nor waits for an answer to nothing; otherwise its program never ends. -/
theorem c112_program (c : Conf) (hc : ∀ i, i ≤ c.last → 0 < c.cap i) (hl : c.listener = false) (p : List Cmd) (r : Run (step c) (init p)) (hr : r.Fair fun _ => True) :
    (Fits c.total p → ∃ n, ∀ m, n ≤ m → (r.state m).prog = [] ∧ (r.state m).got = ((sends p).map c.answer).take (recvs p)) ∧
    (¬ Fits c.total p → ∀ m, (r.state m).prog ≠ []) := by
  constructor
  · intro hf
    obtain ⟨n, hn, hk⟩ := comes_to_rest r hr
    refine ⟨n, fun m hm => ?_⟩
    rw [hk m hm]
    exact c79_fits c hc hl p hf _ _ (r.exec_past n) hn
  · exact fun hf m e => hf (c79_only_if c hl p _ _ (r.exec_past m) e)

/-- C112, a client with a data listener: all it sends is sent in the end, and every answer is handed to the listener, in order. -/
theorem c112_listener (c : Conf) (hc : ∀ i, i ≤ c.last → 0 < c.cap i) (hl : c.listener = true) (p : List Cmd) (hp : recvs p = 0) (r : Run (step c) (init p))
    (hr : r.Fair fun _ => True) : ∃ n, ∀ m, n ≤ m → (r.state m).prog = [] ∧ (r.state m).got = (sends p).map c.answer := by
  obtain ⟨n, hn, hk⟩ := comes_to_rest r hr
  refine ⟨n, fun m hm => ?_⟩
  rw [hk m hm]
  exact c79_listener c hc hl p hp _ _ (r.exec_past n) hn

/-- There are such runs, for every program. -/
theorem fair_run (c : Conf) (p : List Cmd) : ∃ r : Run (step c) (init p), r.Fair fun _ => True := by
  obtain ⟨ls, s, h, hs⟩ := (c79_ends c p [] (init p) rfl).2
  exact ⟨Trace.demo _ s h, demo_fair _ _ _ _ fun ⟨l, _, e⟩ => by rw [hs l] at e; cases e⟩

/-- Two requests and two answers through three buffers for one message each. -/
example : ∃ r : Run (step (tiny false)) (init [.send 1, .send 2, .recv, .recv]), r.Fair (fun _ => True) ∧ ∃ n, ∀ m, n ≤ m → (r.state m).got = [101, 102] := by
  obtain ⟨r, hr⟩ := fair_run (tiny false) [.send 1, .send 2, .recv, .recv]
  have cap : ∀ i, i ≤ (tiny false).last → 0 < (tiny false).cap i := fun i hi =>
    (by decide : ∀ i, i < 3 → 0 < (tiny false).cap i) i (Nat.lt_succ_of_le hi)
  have hrun : exec (tiny false) (init [.send 1, .send 2, .recv, .recv]) [.client, .move 0, .client, .move 1, .client, .move 0, .move 1, .client] = some ⟨_, [], [101, 102]⟩ := rfl
  obtain ⟨n, hn⟩ := (c112_program (tiny false) cap rfl _ r hr).1 (c79_only_if _ rfl _ _ _ hrun rfl)
  exact ⟨r, hr, n, fun m hm => (hn m hm).2⟩

end Verif.Conn.Pipeline

/-! ## Connections of a transport -/

namespace Verif.Conn.Retire

theorem rest_of_not_ready {s : Sys} (h : ¬ Ready step Inner s) : Rest s := fun l hl =>
  Option.not_isSome_iff_eq_none.1 fun e => h ⟨l, hl, e⟩

/-- Data may arrive for ever. -/
def Calm (l : Label) : Prop := Inner l ∨ ∃ r, l = .data r

theorem data_same {s s' : Sys} {q : Nat} (h : step s (.data q) = some s') : s'.tr = s.tr ∧ s'.loops = s.loops ∧ s'.readers = s.readers ∧ s'.ended = s.ended := by
  obtain ⟨_, ha⟩ := alive h
  simp only [act] at ha
  split at ha
  · split at ha
    · cases ha
    · injection ha with ha; subst ha; exact ⟨rfl, rfl, rfl, rfl⟩
  · cases ha

theorem step_none {s s' : Sys} (h1 : s'.tr = s.tr) (h2 : s'.loops = s.loops) (h3 : s'.readers = s.readers) (h4 : s'.ended = s.ended) {l : Label} (hl : Inner l)
    (h : step s l = none) : step s' l = none := by
  cases l with
  | loop a =>
    simp only [step, act, loopStep, h1, h2] at h ⊢
    split at h
    · rename_i hc
      rw [if_pos hc]
      split at h <;> simp_all
      split at h <;> simp_all
    · rename_i hc; rw [if_neg hc]
  | fail q =>
    simp only [step, act, h1, h3, h4] at h ⊢
    split at h
    · rename_i hc
      rw [if_pos hc]
      split at h <;> simp_all
    · rename_i hc; rw [if_neg hc]
  | finish q =>
    simp only [step, act, h1, h3] at h ⊢
    split at h
    · rename_i hc
      rw [if_pos hc]
      split at h <;> simp_all
    · rename_i hc; rw [if_neg hc]
  | _ => exact absurd hl (by simp [Inner])

/-- C112, connections: once the program, the transport and the peers do nothing more than to send data, the goroutines of `LowerDeck` come to rest and stay there.  Then a
connection that was made has been announced unless it was left behind in the closed channel of a stopped transport; one that was announced is being read as long as it is open at both ends, and
otherwise it has been closed and its end announced; and the accept goroutines of a stopped transport have ended. -/
theorem c112_connections (conf : Stream.Conf) (r : Run step (init conf)) (hf : r.Fair Inner) (n : Nat) (hq : ∀ m l, n ≤ m → r.label m = some l → Calm l)
    (hc : (r.state n).tr.crash = none) :
    ∃ j, n ≤ j ∧ ∀ m, j ≤ m →
      (∀ c, c < (r.state m).tr.cons → (∀ g ∈ (r.state m).tr.gos, ¬ Holds c g) → (.opened c ∈ (r.state m).out ↔ ¬ Behind c (r.state m))) ∧
      (∀ c, .opened c ∈ (r.state m).out →
        (c ∉ (r.state m).tr.closedCons ∧ c ∉ (r.state m).ended ∧ .closed c ∉ (r.state m).out ∧ ∃ q : Nat, (r.state m).readers[q]? = some (c, .reading)) ∨
        (c ∈ (r.state m).tr.closedCons ∧ .closed c ∈ (r.state m).out ∧ ∃ q : Nat, (r.state m).readers[q]? = some (c, .over))) ∧
      ((r.state m).tr.isRunning = false → ∀ p ∈ (r.state m).loops, p = .over) := by
  have hcr : ∀ m, n ≤ m → (r.state m).tr.crash = none := by
    refine r.keeps (fun s => s.tr.crash = none) n hc fun m l hm hl hk hs => ?_
    rcases hq m l hm hl with h | ⟨q, rfl⟩
    · exact (work_step h hs).2
    · rw [(data_same hs).1]; exact hk
  obtain ⟨j, hj, hrest⟩ := r.descends Inner hf work (fun m => Rest (r.state m)) n
    (fun m l hm _ _ hl hs => by
      rcases hq m l hm hl with h | ⟨q, rfl⟩
      · have := (work_step h hs).1; exact ⟨by omega, fun _ => this⟩
      · obtain ⟨e1, e2, e3, _⟩ := data_same hs
        exact ⟨by simp only [work, e1, e2, e3]; exact Nat.le_refl _, fun h => absurd h (by simp [Inner])⟩)
    (fun m _ hm => Classical.byContradiction fun h => hm (rest_of_not_ready h))
  have hstay : ∀ m, j ≤ m → Rest (r.state m) := by
    refine r.keeps Rest j hrest fun m l hm hl hk hs => ?_
    rcases hq m l (by omega) hl with h | ⟨q, rfl⟩
    · rw [hk l h] at hs; cases hs
    · obtain ⟨e1, e2, e3, e4⟩ := data_same hs
      exact fun l hl => step_none e1 e2 e3 e4 hl (hk l hl)
  refine ⟨j, hj, fun m hm => ⟨?_, ?_, ?_⟩⟩
  · exact fun c h1 h2 => c92_exact conf _ _ (r.exec_past m) (hcr m (by omega)) (hstay m hm) c h1 h2
  · exact fun c h1 => c92_read conf _ _ (r.exec_past m) (hcr m (by omega)) (hstay m hm) c h1
  · exact fun h1 => c91_loops conf _ _ (r.exec_past m) (hcr m (by omega)) (hstay m hm) h1

/-- Two connections are served, then the transport is deleted. -/
example : ∃ r : Run step (init Stream.tcpServer), r.Fair Inner ∧ ∃ n, (∀ m l, n ≤ m → r.label m = some l → Calm l) ∧ (r.state n).tr.crash = none ∧
    ∃ j, n ≤ j ∧ ∀ m, j ≤ m → (r.state m).tr.isRunning = false → ∀ p ∈ (r.state m).loops, p = .over := by
  have h : (exec (init Stream.tcpServer) (serve ++ retire)).map (fun s => (s.tr.crash, restB s)) = some (none, true) := by decide +kernel
  obtain ⟨s, hs, h⟩ := map_some h
  simp only [Prod.mk.injEq] at h
  have hf : (Trace.demo _ s hs).Fair Inner := demo_fair _ _ _ _ fun ⟨l, hl, e⟩ => by rw [rest_of h.2 l hl] at e; cases e
  have hq : ∀ m l, (serve ++ retire).length ≤ m → (Trace.demo _ s hs).label m = some l → Calm l := fun m l hm hl => by
    rw [show (Trace.demo _ s hs).label m = none from List.getElem?_eq_none hm] at hl; cases hl
  have hc : ((Trace.demo _ s hs).state (serve ++ retire).length).tr.crash = none := by rw [demo_rest _ _ _ _ (Nat.le_refl _)]; exact h.1
  obtain ⟨j, h1, h2⟩ := c112_connections _ _ hf _ hq hc
  exact ⟨_, hf, _, hq, hc, j, h1, fun m hm => (h2 m hm).2.2⟩

end Verif.Conn.Retire

/-! ## Closing a connection -/

namespace Verif.Conn.Shut

theorem rest_of_not_ready {c : Conf} {s : Sys} (h : ¬ Ready (step c) (fun l => l.inner = true) s) : AtRest c s := fun l hl =>
  Option.not_isSome_iff_eq_none.1 fun e => h ⟨l, hl, e⟩

theorem gone_step {c : Conf} {s s' : Sys} {l : Label} {d : Bool} (hg : Gone c (s d)) (h : step c s l = some s') : Gone c (s' d) := by
  obtain ⟨h1, h2⟩ := hg
  by_cases ht : ∃ e, l = .take e
  · obtain ⟨e, rfl⟩ := ht
    simp only [step] at h
    split at h
    · split at h
      · injection h with h; subst h
        by_cases hd : d = e
        · subst hd; simpa [Gone, h1] using h2
        · simpa [Gone, Sys.set, hd, h1] using h2
      · cases h
    · cases h
  cases l <;> simp only [step] at h <;> (repeat' split at h) <;> first
    | (cases h; done)
    | (injection h with h; subst h; rename_i e _; cases d <;> cases e <;> simp_all [Gone, Sys.set, Side.setWriter]; done)
    | (injection h with h; subst h; rename_i e _ _; cases d <;> cases e <;> simp_all [Gone, Sys.set, Side.setWriter]; done)
    | (injection h with h; subst h; rename_i e _ _ _; cases d <;> cases e <;> simp_all [Gone, Sys.set, Side.setWriter]; done)
    | (injection h with h; subst h; rename_i e _ _ _ _; cases d <;> cases e <;> simp_all [Gone, Sys.set, Side.setWriter]; done)
    | (injection h with h; subst h; rename_i e _ _ _ _ _; cases d <;> cases e <;> simp_all [Gone, Sys.set, Side.setWriter]; done)
    | (injection h with h; subst h; rename_i e; cases d <;> cases e <;> simp_all [Gone, Sys.set, Side.setWriter]; done)

/-- C112, stream connections: once `Close` has returned on one side and the program writes nothing more, the goroutines that read from the connection and the calls that write to it
come to their ends on both sides.
Missing: Reference connections, for which it is false (`c112_closed_violated`). -/
theorem c112_closed_partial (c : Conf) (hc : c.ref = false) (r : Run (step c) init) (hf : r.Fair fun l => l.inner = true) (n : Nat)
    (hq : ∀ m l, n ≤ m → r.label m = some l → l.inner = true) (d : Bool) (hg : Gone c (r.state n d)) : ∃ j, n ≤ j ∧ ∀ m, j ≤ m → ∀ e, Over (r.state m e) := by
  obtain ⟨j, hj, hrest⟩ := r.descends (fun l => l.inner = true) hf weight (fun m => AtRest c (r.state m)) n
    (fun m l hm _ _ hl hs => by have := inner_less (hq m l hm hl) hs; exact ⟨by omega, fun _ => this⟩)
    (fun m _ hm => Classical.byContradiction fun h => hm (rest_of_not_ready h))
  have hgone := r.keeps (fun s => Gone c (s d)) n hg fun m l _ _ hk hs => gone_step hk hs
  refine ⟨j, hj, fun m hm => ?_⟩
  have : r.state m = r.state j := r.keeps (fun s => s = r.state j) j rfl (fun i l hi hl hk hs => by
    rw [hk, hrest l (hq i l (by omega) hl)] at hs; cases hs) m hm
  rw [this]
  exact c89_stream_partial c hc _ d (hgone j hj) hrest

/-- The clause fails for Reference connections: side `false` is closed while both receive goroutines wait; nothing more can happen, and neither ends, ever. -/
theorem c112_closed_violated (c : Conf) (hc : c.ref = true) : ∃ r : Run (step c) init, (r.Fair fun l => l.inner = true) ∧ ∃ n, Gone c (r.state n false) ∧
    (∀ m l, n ≤ m → r.label m = some l → l.inner = true) ∧ ∀ m, n ≤ m → ∀ e, ¬ Over (r.state m e) := by
  refine ⟨Trace.demo _ _ (quiet_reached c), demo_fair _ _ _ _ (fun ⟨l, hl, e⟩ => by rw [quiet_rests c hc l hl] at e; cases e), 3, ?_, ?_, ?_⟩
  · rw [demo_rest _ _ (quiet_reached c) 3 (Nat.le_refl _)]; exact ⟨rfl, .inl hc⟩
  · intro m l hm hl
    rw [show (Trace.demo _ _ (quiet_reached c)).label m = none from List.getElem?_eq_none hm] at hl; cases hl
  · intro m hm e
    rw [demo_rest _ _ (quiet_reached c) m hm]
    rintro ⟨h, _⟩
    cases e <;> cases h

/-- The run of `tcpRun`, continued until nobody can go on. -/
example : ∃ r : Run (step tcp) init, (r.Fair fun l => l.inner = true) ∧ ∃ n, Gone tcp (r.state n false) ∧ ∃ j, n ≤ j ∧ ∀ m, j ≤ m → ∀ e, Over (r.state m e) := by
  have he : ∃ s, exec tcp init tcpRun = some s := ⟨_, rfl⟩
  obtain ⟨s, hs⟩ := he
  obtain ⟨ls, s', hi, h1, h2⟩ := (c89_rests tcp s).2
  have h3 : exec tcp init (tcpRun ++ ls) = some s' := (exec_append _ _ _).trans (by rw [show Trace.exec (step tcp) init tcpRun = some s from hs]; exact h1)
  have hf : (Trace.demo _ s' h3).Fair fun l => l.inner = true := demo_fair _ _ _ _ fun ⟨l, hl, e⟩ => by rw [h2 l hl] at e; cases e
  have hst : (Trace.demo _ s' h3).state 10 = s := by
    show (Trace.exec (step tcp) init ((tcpRun ++ ls).take 10)).getD init = s
    rw [show (tcpRun ++ ls).take 10 = tcpRun from rfl, show Trace.exec (step tcp) init tcpRun = some s from hs]; rfl
  have hg : Gone tcp ((Trace.demo _ s' h3).state 10 false) := by
    rw [hst]
    have : exec tcp init tcpRun = some _ := rfl
    rw [this] at hs
    injection hs with hs
    rw [← hs]
    exact ⟨rfl, .inr rfl⟩
  refine ⟨_, hf, 10, hg, c112_closed_partial tcp rfl _ hf 10 ?_ false hg⟩
  intro m l hm hl
  have hl : (tcpRun ++ ls)[m]? = some l := hl
  rw [List.getElem?_append_right hm] at hl
  exact hi l (List.mem_of_getElem? hl)

end Verif.Conn.Shut
