import Verif.Conn.ServiceExact
import Verif.Fair

/-!
# Every request is answered in the end (C111)

Infinite executions of the model of a server whose answers come from the data listener of an endpoint (`Conn/Service.lean`).
-/

namespace Verif.Conn.Service

open Verif.Trace

variable {k : Conf} {s s' : Sys} {l : Label}

/-! ## What a step leaves alone -/

theorem keep_srv (h : step k s l = some s') (h1 : l ≠ .serve) (h2 : l ≠ .write) : s'.srv = s.srv := by
  cases l <;> simp only [step] at h <;> (repeat' split at h) <;> first | (cases h; done) | (injection h with h; subst h; simp_all)

theorem keep_tx (h : step k s l = some s') (h1 : l ≠ .serve) (h2 : l ≠ .answer) : s'.tx = s.tx := by
  cases l <;> simp only [step] at h <;> (repeat' split at h) <;> first | (cases h; done) | (injection h with h; subst h; simp_all)

theorem keep_lis (h : step k s l = some s') (h1 : l ≠ .listen) (h2 : l ≠ .answer) : s'.lis = s.lis := by
  cases l <;> simp only [step] at h <;> (repeat' split at h) <;> first | (cases h; done) | (injection h with h; subst h; simp_all)

theorem keep_rx (h : step k s l = some s') (h1 : l ≠ .listen) (h2 : ∀ c, l ≠ .deliver c) : s'.rx = s.rx := by
  cases l <;> simp only [step] at h <;> (repeat' split at h) <;> first | (cases h; done) | (injection h with h; subst h; simp_all)

theorem keep_hand (h : step k s l = some s') (c : Nat) (h1 : l ≠ .read c) (h2 : l ≠ .deliver c) : s'.hand c = s.hand c := by
  cases l <;> simp only [step] at h <;> (repeat' split at h) <;> first
    | (cases h; done)
    | (injection h with h; subst h; first | rfl | (rename_i d _ _ _ _; exact upd_other _ _ fun e => (by simp_all : False)) | (simp only [upd]; split <;> simp_all))

theorem keep_back (h : step k s l = some s') (c : Nat) (h1 : l ≠ .write) (h2 : l ≠ .take c) : s'.back c = s.back c := by
  cases l <;> simp only [step] at h <;> (repeat' split at h) <;> first
    | (cases h; done)
    | (injection h with h; subst h; first | rfl | (exact absurd rfl h1) | (simp only [upd]; split <;> simp_all))

theorem keep_got (h : step k s l = some s') (c : Nat) (h1 : l ≠ .take c) : s'.got c = s.got c := by
  cases l <;> simp only [step] at h <;> (repeat' split at h) <;> first
    | (cases h; done)
    | (injection h with h; subst h; first | rfl | (simp only [upd]; split <;> simp_all))

theorem keep_asked (h : step k s l = some s') (c : Nat) (h1 : l ≠ .read c) (h2 : s.asked c ≠ []) : s'.asked c ≠ [] := by
  cases l <;> simp only [step] at h <;> (repeat' split at h) <;> first
    | (cases h; done)
    | (injection h with h; subst h; first | exact h2 | (simp only [upd]; split <;> simp_all))

/-! ## What the steps of the server do -/

theorem did_serve (h : step k s .serve = some s') : ∃ m, s.srv = none ∧ s.tx = m :: s'.tx ∧ s'.srv = some m := by
  simp only [step] at h
  split at h
  · rename_i m rest h1 h2; injection h with h; subst h; exact ⟨m, h2, h1, rfl⟩
  · cases h

theorem did_answer (h : step k s .answer = some s') : s.lis ≠ none ∧ s'.lis = none ∧ s.tx.length < k.chan ∧ ∃ m, s'.tx = s.tx ++ [m] := by
  simp only [step] at h
  split at h
  · rename_i c v h1
    split at h
    · rename_i h2; injection h with h; subst h; exact ⟨by simp [h1], rfl, h2, _, rfl⟩
    · cases h
  · cases h

theorem did_listen (h : step k s .listen = some s') : ∃ m, s.lis = none ∧ s.rx = m :: s'.rx ∧ s'.lis = some m := by
  simp only [step] at h
  split at h
  · rename_i m rest h1 h2; injection h with h; subst h; exact ⟨m, h2, h1, rfl⟩
  · cases h

theorem did_deliver {c : Nat} (h : step k s (.deliver c) = some s') : s.rx.length < k.chan ∧ ∃ v, s'.rx = s.rx ++ [(c, v)] := by
  simp only [step] at h
  split at h
  · rename_i v h1
    split at h
    · rename_i h2; injection h with h; subst h; exact ⟨h2, v, rfl⟩
    · cases h
  · cases h

theorem did_write (h : step k s .write = some s') : ∃ d v, s.srv = some (d, v) ∧ s'.srv = none ∧ line s = d :: line s' ∧ s'.back = upd s.back d (s.back d ++ [v]) := by
  simp only [step] at h
  split at h
  · rename_i d v h1
    split at h
    · injection h with h; subst h; exact ⟨d, v, h1, rfl, by simp [line, h1], rfl⟩
    · cases h
  · cases h

theorem did_take {c : Nat} (h : step k s (.take c) = some s') : ∃ v, s.back c = v :: s'.back c ∧ s'.got c = s.got c ++ [v] := by
  simp only [step] at h
  split at h
  · rename_i v rest h1; injection h with h; subst h; exact ⟨v, by simp [h1], by simp⟩
  · cases h

theorem full_step (hb : s.rx.length ≤ k.chan ∧ s.tx.length ≤ k.chan) (h : step k s l = some s') : s'.rx.length ≤ k.chan ∧ s'.tx.length ≤ k.chan := by
  constructor
  · by_cases h1 : l = .listen
    · subst h1; obtain ⟨m, _, e, _⟩ := did_listen h; have := hb.1; rw [e, List.length_cons] at this; omega
    · by_cases h2 : ∃ c, l = .deliver c
      · obtain ⟨c, rfl⟩ := h2
        obtain ⟨e, v, e'⟩ := did_deliver h
        rw [e', List.length_append]; exact e
      · rw [keep_rx h h1 fun c e => h2 ⟨c, e⟩]; exact hb.1
  · by_cases h1 : l = .serve
    · subst h1; obtain ⟨m, _, e, _⟩ := did_serve h; have := hb.2; rw [e, List.length_cons] at this; omega
    · by_cases h2 : l = .answer
      · subst h2
        obtain ⟨_, _, e, v, e'⟩ := did_answer h
        rw [e', List.length_append]; exact e
      · rw [keep_tx h h1 h2]; exact hb.2

/-! ## Infinite executions -/

/-- Everybody goes on: the listener's goroutine, the service goroutine, the clients, and the receive goroutines, which compete for the places in the receive channel. -/
structure AllFair (r : Run (step k) init) : Prop where
  listen : r.Fair (· = .listen)
  answer : r.Fair (· = .answer)
  serve : r.Fair (· = .serve)
  write : r.Fair (· = .write)
  take : ∀ c, r.Fair (· = .take c)
  read : ∀ c, r.Fair (· = .read c)
  deliver : ∀ c, r.StrongFair (· = .deliver c)

variable (r : Run (step k) init)

/-- An action that never happens cannot be possible all the time. -/
theorem not_always {r : Run (step k) init} {l : Label} (hf : r.Fair (· = l)) {n : Nat} (hn : ∀ m, n ≤ m → r.label m ≠ some l)
    (h : ∀ m, n ≤ m → (step k (r.state m) l).isSome = true) : False := by
  obtain ⟨m, l', hm, hl, rfl⟩ := hf n fun m hm => ⟨l, rfl, h m hm⟩
  exact hn m hm hl

theorem happens {r : Run (step k) init} {m : Nat} {l : Label} (h : r.label m = some l) : step k (r.state m) l = some (r.state (m + 1)) := by
  rcases r.next m with ⟨h2, _⟩ | ⟨l', h2, h3⟩
  · rw [h2] at h; cases h
  · rw [h2] at h; injection h with h; subst h; exact h3

/-- What the service goroutine holds it writes. -/
theorem writes_held (hcap : ∀ c, 0 < k.cap c) (hf : AllFair r) (n : Nat) (h : (r.state n).srv ≠ none) : ∃ m, n ≤ m ∧ r.label m = some .write := by
  refine Classical.byContradiction fun hno => ?_
  have hnw : ∀ m, n ≤ m → r.label m ≠ some .write := fun m hm e => hno ⟨m, hm, e⟩
  obtain ⟨⟨d, v⟩, hd⟩ := Option.ne_none_iff_exists'.1 h
  have hsrv : ∀ m, n ≤ m → (r.state m).srv = some (d, v) := by
    refine r.keeps (fun s => s.srv = some (d, v)) n hd fun m l hm hl hk hs => ?_
    rw [keep_srv hs ?_ fun e => hnw m hm (by rw [hl, e])]
    · exact hk
    · rintro rfl
      obtain ⟨_, e, _⟩ := did_serve hs
      rw [hk] at e; cases e
  have hfull : ∀ m, n ≤ m → k.cap d ≤ ((r.state m).back d).length := by
    intro j hj
    refine Nat.le_of_not_lt fun hlt => ?_
    have hroom : ∀ m, j ≤ m → ((r.state m).back d).length < k.cap d := by
      refine r.keeps (fun s => (s.back d).length < k.cap d) j hlt fun m l hm hl hk hs => ?_
      by_cases e : l = .take d
      · subst e
        obtain ⟨x, e, _⟩ := did_take hs
        rw [e, List.length_cons] at hk; omega
      · rw [keep_back hs d (fun e => hnw m (by omega) (by rw [hl, e])) e]; exact hk
    exact not_always hf.write (n := j) (fun m hm => hnw m (by omega)) fun m hm => by simp [step, hsrv m (by omega), hroom m hm]
  obtain ⟨m, l, hm, hl, rfl⟩ := hf.take d n fun m hm => ⟨.take d, rfl, by
    cases hb : (r.state m).back d with
    | nil => have h1 := hfull m hm; have h2 := hcap d; rw [hb] at h1; simp at h1; omega
    | cons x xs => simp [step, hb]⟩
  obtain ⟨x, e, _⟩ := did_take (happens hl)
  have h1 := hfull (m + 1) (by omega)
  have h2 := bound_exec (r.past m) (r.exec_past m) d
  rw [e, List.length_cons] at h2
  omega

/-- As long as there is something in the endpoint the service goroutine writes. -/
theorem writes (hk : 0 < k.chan) (hcap : ∀ c, 0 < k.cap c) (hf : AllFair r) (n : Nat) (h : line (r.state n) ≠ []) : ∃ m, n ≤ m ∧ r.label m = some .write := by
  refine Classical.byContradiction fun hno => ?_
  have hsrv : ∀ m, n ≤ m → (r.state m).srv = none := by
    intro m hm
    refine Classical.byContradiction fun hne => ?_
    obtain ⟨j, h1, h2⟩ := writes_held r hcap hf m hne
    exact hno ⟨j, by omega, h2⟩
  have hns : ∀ m, n ≤ m → r.label m ≠ some .serve := by
    intro m hm e
    obtain ⟨_, _, _, e'⟩ := did_serve (happens e)
    rw [hsrv (m + 1) (by omega)] at e'; cases e'
  have htx : ∀ m, n ≤ m → (r.state m).tx = [] := by
    intro j hj
    refine Classical.byContradiction fun hne => ?_
    have : ∀ m, j ≤ m → (r.state m).tx ≠ [] := by
      refine r.keeps (fun s => s.tx ≠ []) j hne fun m l hm hl hk hs => ?_
      by_cases e : l = .answer
      · subst e; obtain ⟨_, _, _, x, e⟩ := did_answer hs; rw [e]; simp
      · rw [keep_tx hs (fun e => hns m (by omega) (by rw [hl, e])) e]; exact hk
    exact not_always hf.serve (n := j) (fun m hm => hns m (by omega)) fun m hm => by
      cases ht : (r.state m).tx with
      | nil => exact absurd ht (this m hm)
      | cons x xs => simp [step, ht, hsrv m (by omega)]
  have hna : ∀ m, n ≤ m → r.label m ≠ some .answer := by
    intro m hm e
    obtain ⟨_, _, _, x, e'⟩ := did_answer (happens e)
    rw [htx (m + 1) (by omega)] at e'; simp at e'
  have hlis : ∀ m, n ≤ m → (r.state m).lis = none := by
    intro j hj
    refine Classical.byContradiction fun hne => ?_
    have : ∀ m, j ≤ m → (r.state m).lis ≠ none := by
      refine r.keeps (fun s => s.lis ≠ none) j hne fun m l hm hl hk hs => ?_
      by_cases e : l = .listen
      · subst e; obtain ⟨x, _, _, e⟩ := did_listen hs; rw [e]; simp
      · rw [keep_lis hs e fun e => hna m (by omega) (by rw [hl, e])]; exact hk
    exact not_always hf.answer (n := j) (fun m hm => hna m (by omega)) fun m hm => by
      cases ht : (r.state m).lis with
      | none => exact absurd ht (this m hm)
      | some x => simp [step, ht, htx m (by omega), hk]
  have hnl : ∀ m, n ≤ m → r.label m ≠ some .listen := by
    intro m hm e
    obtain ⟨x, _, _, e'⟩ := did_listen (happens e)
    rw [hlis (m + 1) (by omega)] at e'; cases e'
  have hrx : (r.state n).rx = [] := by
    refine Classical.byContradiction fun hne => ?_
    have : ∀ m, n ≤ m → (r.state m).rx ≠ [] := by
      refine r.keeps (fun s => s.rx ≠ []) n hne fun m l hm hl hk hs => ?_
      by_cases e : ∃ c, l = .deliver c
      · obtain ⟨c, rfl⟩ := e; obtain ⟨_, x, e⟩ := did_deliver hs; rw [e]; simp
      · rw [keep_rx hs (fun e => hnl m (by omega) (by rw [hl, e])) fun c h => e ⟨c, h⟩]; exact hk
    exact not_always hf.listen hnl fun m hm => by
      cases ht : (r.state m).rx with
      | nil => exact absurd ht (this m hm)
      | cons x xs => simp [step, ht, hlis m hm]
  exact h (by simp [line, hsrv n (Nat.le_refl _), htx n (Nat.le_refl _), hlis n (Nat.le_refl _), hrx])

/-- The receive channel has a free place again and again. -/
theorem room (hk : 0 < k.chan) (hcap : ∀ c, 0 < k.cap c) (hf : AllFair r) (n : Nat) : ∃ m, n ≤ m ∧ (r.state m).rx.length < k.chan := by
  refine Classical.byContradiction fun hno => ?_
  have hfull : ∀ m, n ≤ m → k.chan ≤ (r.state m).rx.length := fun m hm => Nat.le_of_not_lt fun h => hno ⟨m, hm, h⟩
  have hb : ∀ m, (r.state m).rx.length ≤ k.chan ∧ (r.state m).tx.length ≤ k.chan := fun m =>
    r.keeps (fun s => s.rx.length ≤ k.chan ∧ s.tx.length ≤ k.chan) 0 (by rw [r.start]; exact ⟨Nat.zero_le _, Nat.zero_le _⟩)
      (fun _ _ _ _ h hs => full_step h hs) m (Nat.zero_le _)
  have hnl : ∀ m, n ≤ m → r.label m ≠ some .listen := by
    intro m hm e
    obtain ⟨x, _, e', _⟩ := did_listen (happens e)
    have h1 := (hb m).1
    have h2 := hfull (m + 1) (by omega)
    rw [e', List.length_cons] at h1
    omega
  have hlis : ∀ m, n ≤ m → (r.state m).lis ≠ none := by
    intro j hj hne
    have : ∀ m, j ≤ m → (r.state m).lis = none := by
      refine r.keeps (fun s => s.lis = none) j hne fun m l hm hl hk hs => ?_
      by_cases e : l = .answer
      · subst e; exact (did_answer hs).2.1
      · rw [keep_lis hs (fun e => hnl m (by omega) (by rw [hl, e])) e]; exact hk
    exact not_always hf.listen (n := j) (fun m hm => hnl m (by omega)) fun m hm => by
      cases ht : (r.state m).rx with
      | nil => have := hfull m (by omega); rw [ht] at this; simp at this; omega
      | cons x xs => simp [step, ht, this m hm]
  have hna : ∀ m, n ≤ m → r.label m ≠ some .answer := fun m hm e => hlis (m + 1) (by omega) (did_answer (happens e)).2.1
  have htx : ∀ m, n ≤ m → k.chan ≤ (r.state m).tx.length := by
    intro j hj
    refine Nat.le_of_not_lt fun hlt => ?_
    have : ∀ m, j ≤ m → (r.state m).tx.length < k.chan := by
      refine r.keeps (fun s => s.tx.length < k.chan) j hlt fun m l hm hl hk hs => ?_
      by_cases e : l = .serve
      · subst e; obtain ⟨x, _, e, _⟩ := did_serve hs; rw [e, List.length_cons] at hk; omega
      · rw [keep_tx hs e fun e => hna m (by omega) (by rw [hl, e])]; exact hk
    exact not_always hf.answer (n := j) (fun m hm => hna m (by omega)) fun m hm => by
      cases ht : (r.state m).lis with
      | none => exact absurd ht (hlis m (by omega))
      | some x => simp [step, ht, this m hm]
  have hns : ∀ m, n ≤ m → r.label m ≠ some .serve := by
    intro m hm e
    obtain ⟨x, _, e', _⟩ := did_serve (happens e)
    have h1 := (hb m).2
    have h2 := htx (m + 1) (by omega)
    rw [e', List.length_cons] at h1
    omega
  have hsrv : ∀ m, n ≤ m → (r.state m).srv ≠ none := by
    intro j hj hne
    have : ∀ m, j ≤ m → (r.state m).srv = none := by
      refine r.keeps (fun s => s.srv = none) j hne fun m l hm hl hk hs => ?_
      by_cases e : l = .write
      · subst e; obtain ⟨_, _, _, e, _⟩ := did_write hs; exact e
      · rw [keep_srv hs (fun e => hns m (by omega) (by rw [hl, e])) e]; exact hk
    exact not_always hf.serve (n := j) (fun m hm => hns m (by omega)) fun m hm => by
      cases ht : (r.state m).tx with
      | nil => have := htx m (by omega); rw [ht] at this; simp at this; omega
      | cons x xs => simp [step, ht, this m hm]
  obtain ⟨m, hm, e⟩ := writes_held r hcap hf n (hsrv n (Nat.le_refl _))
  obtain ⟨_, _, _, e', _⟩ := did_write (happens e)
  exact hsrv (m + 1) (by omega) e'

/-- What a receive goroutine holds it puts into the channel. -/
theorem delivers (hk : 0 < k.chan) (hcap : ∀ c, 0 < k.cap c) (hf : AllFair r) (c n : Nat) (h : (r.state n).hand c ≠ none) :
    ∃ m, n ≤ m ∧ r.label m = some (.deliver c) := by
  refine Classical.byContradiction fun hno => ?_
  have hhand : ∀ m, n ≤ m → (r.state m).hand c ≠ none := by
    refine r.keeps (fun s => s.hand c ≠ none) n h fun m l hm hl hk hs => ?_
    rw [keep_hand hs c ?_ fun e => hno ⟨m, hm, by rw [hl, e]⟩]
    · exact hk
    · rintro rfl
      simp only [step] at hs
      split at hs
      · rename_i e; exact hk e
      · cases hs
  obtain ⟨m, l, hm, hl, rfl⟩ := hf.deliver c (fun j => by
    obtain ⟨m, hm, hr⟩ := room r hk hcap hf (max j n)
    obtain ⟨v, hv⟩ := Option.ne_none_iff_exists'.1 (hhand m (by omega))
    exact ⟨m, by omega, .deliver c, rfl, by simp [step, hv, hr]⟩) n
  exact hno ⟨m, hm, hl⟩

/-- A request that is not in the endpoint yet gets there. -/
theorem enters (hk : 0 < k.chan) (hcap : ∀ c, 0 < k.cap c) (hf : AllFair r) (c n : Nat) (h : 0 < outside (r.state n) c) :
    ∃ m, n ≤ m ∧ c ∈ line (r.state m) := by
  have hold : ∃ m, n ≤ m ∧ (r.state m).hand c ≠ none := by
    refine Classical.byContradiction fun hno => ?_
    have hnone : ∀ m, n ≤ m → (r.state m).hand c = none := fun m hm => Classical.byContradiction fun e => hno ⟨m, hm, e⟩
    have hnr : ∀ m, n ≤ m → r.label m ≠ some (.read c) := by
      intro m hm e
      have hs := happens e
      have h1 := hnone (m + 1) (by omega)
      simp only [step] at hs
      split at hs
      · injection hs with hs; rw [← hs] at h1; simp at h1
      · cases hs
    have hask : ∀ m, n ≤ m → (r.state m).asked c ≠ [] := by
      refine r.keeps (fun s => s.asked c ≠ []) n ?_ fun m l hm hl hk hs => keep_asked hs c (fun e => hnr m hm (by rw [hl, e])) hk
      intro e
      simp [outside, e, hnone n (Nat.le_refl _)] at h
    exact not_always (hf.read c) hnr fun m hm => by
      cases ha : (r.state m).asked c with
      | nil => exact absurd ha (hask m hm)
      | cons x xs => simp [step, ha, hnone m hm]
  obtain ⟨m, hm, hh⟩ := hold
  obtain ⟨j, hj, hl⟩ := delivers r hk hcap hf c m hh
  have hs := happens hl
  refine ⟨j + 1, by omega, ?_⟩
  obtain ⟨_, v, e⟩ := did_deliver hs
  simp [line, e]

theorem line_idx {x c : Nat} {rest : List Nat} (h : x ≠ c) : (x :: rest).idxOf c = rest.idxOf c + 1 := by
  rw [List.idxOf_cons, show (x == c) = false by simpa using h]; rfl

/-- A client that is owed an answer reads one. -/
theorem takes (hk : 0 < k.chan) (hcap : ∀ c, 0 < k.cap c) (hf : AllFair r) (c n : Nat) (h : way k (r.state n) c ≠ []) :
    ∃ m, n ≤ m ∧ r.label m = some (.take c) := by
  refine Classical.byContradiction fun hno => ?_
  have hnt : ∀ m, n ≤ m → r.label m ≠ some (.take c) := fun m hm e => hno ⟨m, hm, e⟩
  have hback : ∀ m, n ≤ m → (r.state m).back c = [] := by
    intro j hj
    refine Classical.byContradiction fun hne => ?_
    have : ∀ m, j ≤ m → (r.state m).back c ≠ [] := by
      refine r.keeps (fun s => s.back c ≠ []) j hne fun m l hm hl hk hs => ?_
      by_cases e : l = .write
      · subst e
        obtain ⟨d, v, _, _, _, e⟩ := did_write hs
        rw [e]
        by_cases hd : c = d
        · subst hd; simp
        · rw [upd_other _ _ hd]; exact hk
      · rw [keep_back hs c e fun e => hnt m (by omega) (by rw [hl, e])]; exact hk
    exact not_always (hf.take c) (n := j) (fun m hm => hnt m (by omega)) fun m hm => by
      cases hb : (r.state m).back c with
      | nil => exact absurd hb (this m hm)
      | cons x xs => simp [step, hb]
  have hin : ∃ m, n ≤ m ∧ c ∈ line (r.state m) := by
    have hp : Pending (r.state n) c := Classical.byContradiction fun hp => h (way_nil.2 ⟨hback n (Nat.le_refl _), hp⟩)
    rcases hp with hp | hp
    · exact enters r hk hcap hf c n hp
    · exact ⟨n, Nat.le_refl _, hp⟩
  have hwrite : ∀ m, n ≤ m → r.label m = some .write → ∃ d, d ≠ c ∧ line (r.state m) = d :: line (r.state (m + 1)) := by
    intro m hm e
    obtain ⟨d, v, _, _, h1, h2⟩ := did_write (happens e)
    refine ⟨d, ?_, h1⟩
    rintro rfl
    have := hback (m + 1) (by omega)
    rw [h2] at this
    simp at this
  have hstep : ∀ m l, n ≤ m → r.label m = some l → c ∈ line (r.state m) → step k (r.state m) l = some (r.state (m + 1)) →
      c ∈ line (r.state (m + 1)) ∧ (line (r.state (m + 1))).idxOf c ≤ (line (r.state m)).idxOf c := by
    intro m l hm hl hc hs
    by_cases hw : l = .write
    · subst hw
      obtain ⟨d, hd, e⟩ := hwrite m hm hl
      rw [e] at hc ⊢
      rw [line_idx hd]
      exact ⟨(List.mem_cons.1 hc).resolve_left (Ne.symm hd), by omega⟩
    · by_cases ha : ∃ c v, l = .ask c v
      · obtain ⟨d, v, rfl⟩ := ha
        simp only [step] at hs
        injection hs with hs
        rw [← hs]
        exact ⟨hc, Nat.le_refl _⟩
      · cases view (fun d v e => ha ⟨d, v, e⟩) hs with
        | enter e h1 =>
          rw [h1]
          exact ⟨List.mem_append_left _ hc, by rw [List.idxOf_append, if_pos hc]; exact Nat.le_refl _⟩
        | leave x h1 => exact absurd rfl hw
        | take e h1 => rw [h1]; exact ⟨hc, Nat.le_refl _⟩
        | other l h1 => rw [h1]; exact ⟨hc, Nat.le_refl _⟩
  have down : ∀ v j, n ≤ j → c ∈ line (r.state j) → (line (r.state j)).idxOf c ≤ v → False := by
    intro v
    induction v with
    | zero =>
      intro j hj hc hv
      obtain ⟨m, hm, e⟩ := writes r hk hcap hf j (List.ne_nil_of_mem hc)
      obtain ⟨h1, h2⟩ := r.keeps (fun s => c ∈ line s ∧ (line s).idxOf c ≤ 0) j ⟨hc, hv⟩
        (fun i l hi hl hp hs => by have := hstep i l (by omega) hl hp.1 hs; exact ⟨this.1, by have := this.2; have := hp.2; omega⟩) m hm
      obtain ⟨d, hd, e'⟩ := hwrite m (by omega) e
      rw [e', line_idx hd] at h2
      omega
    | succ v ih =>
      intro j hj hc hv
      obtain ⟨m, hm, e⟩ := writes r hk hcap hf j (List.ne_nil_of_mem hc)
      obtain ⟨h1, h2⟩ := r.keeps (fun s => c ∈ line s ∧ (line s).idxOf c ≤ v + 1) j ⟨hc, hv⟩
        (fun i l hi hl hp hs => by have := hstep i l (by omega) hl hp.1 hs; exact ⟨this.1, by have := this.2; have := hp.2; omega⟩) m hm
      obtain ⟨d, hd, e'⟩ := hwrite m (by omega) e
      rw [e', line_idx hd] at h2
      rw [e'] at h1
      exact ih (m + 1) (by omega) ((List.mem_cons.1 h1).resolve_left (Ne.symm hd)) (by omega)
  obtain ⟨m, hm, hc⟩ := hin
  exact down _ m hm hc (Nat.le_refl _)

/-- C111, services: if the listener's goroutine, the service goroutine and the receive goroutines are scheduled fairly and all clients keep reading, every request of every client is
answered in the end: the client has read the answers to all requests it made up to any time, in order; however many requests the others make. -/
theorem c111_answered (hk : 0 < k.chan) (hcap : ∀ c, 0 < k.cap c) (hf : AllFair r) (n c : Nat) :
    ∃ m, n ≤ m ∧ (requests c (r.past n)).map k.answer <+: (r.state m).got c := by
  have hpre : ∀ m, n ≤ m → requests c (r.past n) <+: requests c (r.past m) := by
    intro m hm
    obtain ⟨t, ht⟩ := r.past_pre hm
    exact ⟨requests c t, by rw [← ht, requests, requests, requests, List.filterMap_append]⟩
  have mono : ∀ j m, j ≤ m → ((r.state j).got c).length ≤ ((r.state m).got c).length := fun j m hm =>
    r.keeps (fun s => ((r.state j).got c).length ≤ (s.got c).length) j (Nat.le_refl _) (fun m l _ _ h hs => by
      by_cases e : l = .take c
      · subst e; obtain ⟨v, _, e⟩ := did_take hs; rw [e, List.length_append]; omega
      · rw [keep_got hs c e]; exact h) m hm
  have grow : ∀ j, j ≤ (requests c (r.past n)).length → ∃ m, n ≤ m ∧ j ≤ ((r.state m).got c).length := by
    intro j
    induction j with
    | zero => intro _; exact ⟨n, Nat.le_refl _, Nat.zero_le _⟩
    | succ j ih =>
      intro hj
      obtain ⟨m, hm, hg⟩ := ih (by omega)
      rcases Nat.lt_or_ge j ((r.state m).got c).length with hlt | hge
      · exact ⟨m, hm, hlt⟩
      · have hw : way k (r.state m) c ≠ [] := by
          intro e
          have h1 := congrArg List.length (order (r.exec_past m) c)
          rw [e, List.append_nil, List.length_map] at h1
          have h2 := (hpre m hm).length_le
          omega
        obtain ⟨i, hi, hl⟩ := takes r hk hcap hf c m hw
        obtain ⟨v, _, e⟩ := did_take (happens hl)
        have := mono m i hi
        exact ⟨i + 1, by omega, by rw [e, List.length_append, List.length_singleton]; omega⟩
  obtain ⟨m, hm, hg⟩ := grow _ (Nat.le_refl _)
  refine ⟨m, hm, List.prefix_of_prefix_length_le ((hpre m hm).map k.answer) ⟨_, order (r.exec_past m) c⟩ (by simpa using hg)⟩

/-! ### Example: two clients, three requests, and then nothing more -/

def demoConf : Conf := ⟨(· + 100), 2, fun _ => 1⟩

def demoLabels : List Label :=
  [.ask 0 1, .ask 1 2, .read 1, .read 0, .deliver 1, .deliver 0, .ask 0 3, .listen, .answer, .read 0, .listen, .serve, .write, .answer, .serve, .deliver 0, .write, .listen,
    .take 0, .answer, .serve, .write, .take 1, .take 0]

example : ∃ r : Run (step demoConf) init, AllFair r ∧ requests 0 (r.past 7) = [1, 3] ∧ ∃ m, 7 ≤ m ∧ [101, 103] <+: (r.state m).got 0 := by
  have he : ∃ s, exec demoConf init demoLabels = some s ∧ (∀ c, s.asked c = []) ∧ (∀ c, s.hand c = none) ∧ s.rx = [] ∧ s.lis = none ∧ s.tx = [] ∧ s.srv = none ∧ ∀ c, s.back c = [] := by
    refine ⟨_, rfl, fun c => ?_, fun c => ?_, rfl, rfl, rfl, rfl, fun c => ?_⟩
    all_goals
      match c with
      | 0 => rfl
      | 1 => rfl
      | c + 2 => rfl
  obtain ⟨s, h1, e1, e2, e3, e4, e5, e6, e7⟩ := he
  have hf : AllFair (Trace.demo demoLabels s h1) := by
    constructor
    · exact demo_fair _ _ _ _ (by rintro ⟨l, rfl, hs⟩; simp [step, e3] at hs)
    · exact demo_fair _ _ _ _ (by rintro ⟨l, rfl, hs⟩; simp [step, e4] at hs)
    · exact demo_fair _ _ _ _ (by rintro ⟨l, rfl, hs⟩; simp [step, e5] at hs)
    · exact demo_fair _ _ _ _ (by rintro ⟨l, rfl, hs⟩; simp [step, e6] at hs)
    · exact fun c => demo_fair _ _ _ _ (by rintro ⟨l, rfl, hs⟩; simp [step, e7] at hs)
    · exact fun c => demo_fair _ _ _ _ (by rintro ⟨l, rfl, hs⟩; simp [step, e1] at hs)
    · exact fun c => demo_strong _ _ _ _ (by rintro ⟨l, rfl, hs⟩; simp [step, e2] at hs)
  exact ⟨_, hf, rfl, c111_answered _ (by decide) (fun _ => Nat.one_pos) hf 7 0⟩

end Verif.Conn.Service
