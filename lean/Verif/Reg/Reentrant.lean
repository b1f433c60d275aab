/-!
# Listeners that add and delete (C68)

`AddEndPoint`, `DeleteEndPoint`, `AddTransport`, `DeleteTransport` (ustack_default.go:195-295) call `PublishEvent` (309-326), which calls the
listeners in the same goroutine; a listener may call these functions again.  `AddEndPoint` and `AddTransport` publish before they
register, `DeleteEndPoint` looks up the index, publishes and then removes whatever is at that index, `DeleteTransport` removes first.

What all the listeners together do is `react`: given the events before and the event, the calls made from inside the callbacks.

Simplifications: the registries are lists (the slices under them are in `Reg.Slice`); UpperDeck and LowerDeck, which make no such calls,
are left out.
-/

namespace Verif.Reg.Reentrant

inductive Event where
  | epAdded (e : Nat)
  | epDeleted (e : Nat)
  | tpAdded (t : Nat)
  | tpDeleted (t : Nat)
  deriving Repr, DecidableEq

inductive Op where
  | addEndPoint (e : Nat)
  | deleteEndPoint (e : Nat)
  | addTransport (t : Nat)
  | deleteTransport (t : Nat)
  deriving Repr, DecidableEq

structure State where
  eps : List Nat
  tps : List Nat
  /-- the events published so far -/
  trace : List Event
  deriving Repr, DecidableEq

inductive Out where
  | ok (s : State)
  | panic
  /-- has not returned within the given depth of calls -/
  | running
  deriving Repr, DecidableEq

def Out.bind : Out → (State → Out) → Out
  | .ok s, f => f s
  | .panic, _ => .panic
  | .running, _ => .running

@[simp] theorem Out.bind_ok (s : State) (f : State → Out) : (Out.ok s).bind f = f s := rfl
@[simp] theorem Out.bind_running (f : State → Out) : Out.running.bind f = .running := rfl

def runs (f : State → Op → Out) : State → List Op → Out
  | s, [] => .ok s
  | s, op :: ops => (f s op).bind fun s => runs f s ops

/-- ustack_default.go:309-326. -/
def publish (f : State → Op → Out) (react : List Event → Event → List Op) (s : State) (ev : Event) : Out :=
  runs f { s with trace := s.trace ++ [ev] } (react s.trace ev)

/-- One call; `n` is the depth of calls allowed. -/
def call (react : List Event → Event → List Op) : Nat → State → Op → Out
  | 0, _, _ => .running
  | n + 1, s, .addEndPoint e =>
    if e ∈ s.eps then .ok s else
    (publish (call react n) react s (.epAdded e)).bind fun s => .ok { s with eps := s.eps ++ [e] }
  | n + 1, s, .deleteEndPoint e =>
    match s.eps.idxOf? e with
    | none => .ok s
    | some i =>
      -- `u.endpoints[i+1:]` panics if the slice has become too short
      (publish (call react n) react s (.epDeleted e)).bind fun s => if i + 1 ≤ s.eps.length then .ok { s with eps := s.eps.eraseIdx i } else .panic
  | n + 1, s, .addTransport t =>
    if t ∈ s.tps then .ok s else
    (publish (call react n) react s (.tpAdded t)).bind fun s => .ok { s with tps := s.tps ++ [t] }
  | n + 1, s, .deleteTransport t =>
    match s.tps.idxOf? t with
    | none => .ok s
    | some i => publish (call react n) react { s with tps := s.tps.eraseIdx i } (.tpDeleted t)

theorem idxOf?_split {l : List Nat} {a i : Nat} (h : l.idxOf? a = some i) : ∃ pre post, l = pre ++ a :: post ∧ a ∉ pre ∧ i = pre.length := by
  rw [List.idxOf?_eq_some_iff] at h
  obtain ⟨hlt, hget, hmin⟩ := h
  refine ⟨l.take i, l.drop (i + 1), ?_, ?_, ?_⟩
  · rw [← hget, List.getElem_cons_drop, List.take_append_drop]
  · intro hm
    obtain ⟨j, hj, he⟩ := List.getElem_of_mem hm
    rw [List.getElem_take] at he
    rw [List.length_take] at hj
    exact hmin j (by omega) he
  · rw [List.length_take]; omega

theorem idxOf?_mid (pre post : List Nat) (a : Nat) (h : a ∉ pre) : (pre ++ a :: post).idxOf? a = some pre.length := by
  rw [List.idxOf?_eq_some_iff]
  refine ⟨by simp, by simp, ?_⟩
  intro j hj he
  rw [List.getElem_append_left hj] at he
  exact h (he ▸ List.getElem_mem hj)

theorem eraseIdx_mid (pre post : List Nat) (a : Nat) : (pre ++ a :: post).eraseIdx pre.length = pre ++ post := by
  induction pre with
  | nil => rfl
  | cons x pre ih => simp [ih]

/-! ## The depth of calls does not matter once the call has returned -/

theorem runs_mono {f g : State → Op → Out} (hfg : ∀ s op, f s op ≠ .running → g s op = f s op) (ops : List Op) :
    ∀ s, runs f s ops ≠ .running → runs g s ops = runs f s ops := by
  induction ops with
  | nil => intro s _; rfl
  | cons op ops ih =>
    intro s h
    simp only [runs] at h ⊢
    cases hf : f s op with
    | ok m => rw [hf] at h; rw [hfg s op (by rw [hf]; simp), hf]; exact ih m h
    | panic => rw [hfg s op (by rw [hf]; simp), hf]; rfl
    | running => rw [hf] at h; exact absurd rfl h

theorem bind_mono {a b : Out} {f : State → Out} (hab : a ≠ .running → b = a) (h : a.bind f ≠ .running) : b.bind f = a.bind f := by
  cases a with
  | running => exact absurd rfl h
  | ok s => rw [hab (by simp)]
  | panic => rw [hab (by simp)]

theorem call_succ (react : List Event → Event → List Op) (n : Nat) : ∀ s op, call react n s op ≠ .running → call react (n + 1) s op = call react n s op := by
  induction n with
  | zero => intro s op h; exact absurd rfl h
  | succ n ih =>
    intro s op h
    cases op with
    | addEndPoint e =>
      simp only [call] at h ⊢
      by_cases hm : e ∈ s.eps
      · simp only [if_pos hm]
      · simp only [if_neg hm] at h ⊢
        exact bind_mono (fun hr => runs_mono ih _ _ hr) h
    | addTransport t =>
      simp only [call] at h ⊢
      by_cases hm : t ∈ s.tps
      · simp only [if_pos hm]
      · simp only [if_neg hm] at h ⊢
        exact bind_mono (fun hr => runs_mono ih _ _ hr) h
    | deleteEndPoint e =>
      cases hi : s.eps.idxOf? e with
      | none => simp only [call, hi]
      | some i =>
        simp only [call, hi] at h ⊢
        exact bind_mono (fun hr => runs_mono ih _ _ hr) h
    | deleteTransport t =>
      cases hi : s.tps.idxOf? t with
      | none => simp only [call, hi]
      | some i =>
        simp only [call, hi] at h ⊢
        exact runs_mono ih _ _ h

/-- The result is the same with any greater depth of calls. -/
theorem call_depth (react : List Event → Event → List Op) {n m : Nat} (hnm : n ≤ m) {s : State} {op : Op} (h : call react n s op ≠ .running) :
    call react m s op = call react n s op := by
  induction hnm with
  | refl => rfl
  | step _ ih => rw [call_succ react _ s op (by rw [ih]; exact h), ih]

/-! ## What goes wrong -/

/-- A listener that makes sure a new endpoint is registered. -/
def readd : List Event → Event → List Op
  | _, .epAdded e => [.addEndPoint e]
  | _, _ => []

/-- C68 does not hold: it never returns, whatever depth of calls is allowed (in Go the stack overflows). -/
theorem c68_readd_violated (n : Nat) (s : State) (e : Nat) (he : e ∉ s.eps) : call readd n s (.addEndPoint e) = .running := by
  induction n generalizing s with
  | zero => rfl
  | succ n ih =>
    simp only [call, if_neg he, publish, readd, runs]
    rw [ih { s with trace := s.trace ++ [.epAdded e] } he]; rfl

/-- The same, once: the first time any endpoint is added. -/
def readdOnce : List Event → Event → List Op
  | [], .epAdded e => [.addEndPoint e]
  | _, _ => []

/-- C68 does not hold: the endpoint is registered twice. -/
theorem c68_twice_violated (n e : Nat) : call readdOnce (n + 2) ⟨[], [], []⟩ (.addEndPoint e) = .ok ⟨[e, e], [], [.epAdded e, .epAdded e]⟩ := by
  simp [call, publish, readdOnce, runs]

/-- A listener that takes endpoint 1 away when endpoint 2 goes. -/
def together : List Event → Event → List Op
  | _, .epDeleted 2 => [.deleteEndPoint 1]
  | _, _ => []

/-- C68 does not hold: deleting endpoints 2 and 1 of `[1, 2, 3]` leaves 2, not 3. -/
theorem c68_wrong_violated : call together 3 ⟨[1, 2, 3], [], []⟩ (.deleteEndPoint 2) = .ok ⟨[2], [], [.epDeleted 2, .epDeleted 1]⟩ := by decide

/-- C68 does not hold: deleting the last endpoint `b` panics if a listener then deletes another one, `a`. -/
theorem c68_panic_violated (a b : Nat) (hab : a ≠ b) (es : List Nat) (ha : a ∈ es) (hb : b ∉ es) (n : Nat) (tps : List Nat) (tr : List Event) :
    call (fun _ ev => if ev = .epDeleted b then [.deleteEndPoint a] else []) (n + 2) ⟨es ++ [b], tps, tr⟩ (.deleteEndPoint b) = .panic := by
  obtain ⟨i, hi⟩ : ∃ i, (es ++ [b]).idxOf? a = some i := by
    have : ((es ++ [b]).idxOf? a).isSome = true := by rw [List.isSome_idxOf?]; exact List.mem_append_left _ ha
    exact Option.isSome_iff_exists.mp this
  obtain ⟨pre, post, hl, _, hi2⟩ := idxOf?_split hi
  have hlen : i < es.length + 1 := by
    have := congrArg List.length hl
    simp only [List.length_append, List.length_cons, List.length_nil] at this; omega
  have hne : Event.epDeleted a ≠ .epDeleted b := by intro h; injection h with h; exact hab h
  simp only [call, idxOf?_mid es [] b hb, publish, if_true, runs, hi, if_neg hne, Out.bind_ok]
  have hlen' : i < (es ++ [b]).length := by rw [List.length_append]; exact hlen
  rw [if_pos (show i + 1 ≤ (es ++ [b]).length from hlen'), Out.bind_ok, Out.bind_ok]
  simp only
  rw [List.length_eraseIdx_of_lt hlen']
  simp

example : call together 3 ⟨[1, 2], [], []⟩ (.deleteEndPoint 2) = .panic := by decide

/-- A listener that registers an endpoint again when it is deleted. -/
def keep : List Event → Event → List Op
  | _, .epDeleted e => [.addEndPoint e]
  | _, _ => []

/-- The endpoint is still registered when the listener adds it, so adding does nothing; then it is removed. -/
theorem c68_keep_lost (n : Nat) (pre post tps : List Nat) (tr : List Event) (e : Nat) (he : e ∉ pre) :
    call keep (n + 2) ⟨pre ++ e :: post, tps, tr⟩ (.deleteEndPoint e) = .ok ⟨pre ++ post, tps, tr ++ [.epDeleted e]⟩ := by
  simp only [call, idxOf?_mid pre post e he, publish, keep, runs, List.mem_append, List.mem_cons, true_or, or_true, if_true, Out.bind_ok]
  rw [eraseIdx_mid]; simp

/-! ## What goes right -/

def deletedTps (tr : List Event) : List Nat := tr.filterMap fun | .tpDeleted t => some t | _ => none
def addedEps (tr : List Event) : List Nat := tr.filterMap fun | .epAdded e => some e | _ => none

@[simp] theorem deletedTps_append (a b : List Event) : deletedTps (a ++ b) = deletedTps a ++ deletedTps b := by simp [deletedTps]
@[simp] theorem addedEps_append (a b : List Event) : addedEps (a ++ b) = addedEps a ++ addedEps b := by simp [addedEps]

/-- From `s` to `s'` some transports were removed, and every one of them announced once. -/
structure Removed (s s' : State) (new : List Event) : Prop where
  sub : s'.tps.Sublist s.tps
  eps : s'.eps = s.eps
  trace : s'.trace = s.trace ++ new
  once : (deletedTps new ++ s'.tps).Perm s.tps
  only : ∀ ev ∈ new, ∃ t, ev = .tpDeleted t

theorem Removed.refl (s : State) : Removed s s [] := ⟨List.Sublist.refl _, rfl, by simp, List.Perm.refl _, by simp⟩

theorem Removed.trans {a b c : State} {x y : List Event} (h1 : Removed a b x) (h2 : Removed b c y) : Removed a c (x ++ y) := by
  refine ⟨h2.sub.trans h1.sub, h2.eps.trans h1.eps, by rw [h2.trace, h1.trace, List.append_assoc], ?_, ?_⟩
  · rw [deletedTps_append, List.append_assoc]
    exact (List.Perm.append_left _ h2.once).trans h1.once
  · intro ev hev
    rcases List.mem_append.mp hev with h | h
    · exact h1.only ev h
    · exact h2.only ev h

theorem del_call (react : List Event → Event → List Op) (hre : ∀ h t, ∀ op ∈ react h (.tpDeleted t), ∃ t', op = .deleteTransport t') (n : Nat) :
    ∀ s t, s.tps.length < n → s.tps.Nodup → ∃ s' new, call react n s (.deleteTransport t) = .ok s' ∧ Removed s s' new ∧ t ∉ s'.tps := by
  induction n with
  | zero => intro s t h; omega
  | succ n ih =>
    have hruns : ∀ ops : List Op, (∀ op ∈ ops, ∃ t', op = .deleteTransport t') → ∀ s : State, s.tps.length < n → s.tps.Nodup →
        ∃ s' new, runs (call react n) s ops = .ok s' ∧ Removed s s' new := by
      intro ops
      induction ops with
      | nil => intro _ s _ _; exact ⟨s, [], rfl, Removed.refl s⟩
      | cons op ops ih2 =>
        intro hops s hs hn
        obtain ⟨t', rfl⟩ := hops op List.mem_cons_self
        obtain ⟨m, n1, h1, h2, _⟩ := ih s t' hs hn
        obtain ⟨s', n2, h4, h5⟩ := ih2 (fun op h => hops op (List.mem_cons_of_mem _ h)) m (Nat.lt_of_le_of_lt h2.sub.length_le hs) (h2.sub.nodup hn)
        exact ⟨s', n1 ++ n2, by simp only [runs, h1, Out.bind_ok]; exact h4, h2.trans h5⟩
    intro s t hs hn
    simp only [call]
    cases hi : s.tps.idxOf? t with
    | none => exact ⟨s, [], rfl, Removed.refl s, List.idxOf?_eq_none_iff.mp hi⟩
    | some i =>
      obtain ⟨pre, post, hl, hpre, rfl⟩ := idxOf?_split hi
      have herase : s.tps.eraseIdx pre.length = pre ++ post := by rw [hl, eraseIdx_mid]
      have hlen : (pre ++ post).length < n := by
        rw [hl] at hs; simp only [List.length_append, List.length_cons] at hs ⊢; omega
      have hsub : (pre ++ post).Sublist s.tps := by rw [hl]; exact (List.sublist_cons_self t post).append_left pre
      simp only [herase, publish]
      obtain ⟨s', new, h1, h2⟩ := hruns (react s.trace (.tpDeleted t)) (hre _ _) ⟨s.eps, pre ++ post, s.trace ++ [.tpDeleted t]⟩ hlen (hsub.nodup hn)
      refine ⟨s', .tpDeleted t :: new, h1, ⟨h2.sub.trans hsub, h2.eps, by rw [h2.trace]; simp, ?_, ?_⟩, ?_⟩
      · have : deletedTps (.tpDeleted t :: new) = t :: deletedTps new := rfl
        rw [this, hl, List.cons_append]
        exact (List.Perm.cons t h2.once).trans List.perm_middle.symm
      · intro ev hev
        rcases List.mem_cons.mp hev with h | h
        · exact ⟨t, h⟩
        · exact h2.only ev h
      · intro hm
        have := h2.sub.subset hm
        rw [hl, List.nodup_append] at hn
        rcases List.mem_append.mp this with h | h
        · exact hpre h
        · exact (List.nodup_cons.mp hn.2.1).1 h

/-- C68, restricted to deleting transports: if the listeners react to the deletion of a transport by deleting transports, whichever and how
often, the call returns, the transport is not registered any more, the others that are gone were announced, each once, and the rest is
still there in the same order. -/
theorem c68_transport_partial (react : List Event → Event → List Op) (hre : ∀ h t, ∀ op ∈ react h (.tpDeleted t), ∃ t', op = .deleteTransport t')
    (s : State) (hn : s.tps.Nodup) (t : Nat) :
    ∃ s' new, (∀ n, s.tps.length < n → call react n s (.deleteTransport t) = .ok s') ∧ t ∉ s'.tps ∧ s'.tps.Sublist s.tps ∧ s'.eps = s.eps ∧
      s'.trace = s.trace ++ new ∧ (deletedTps new ++ s'.tps).Perm s.tps := by
  obtain ⟨s', new, h1, h2, h3⟩ := del_call react hre (s.tps.length + 1) s t (Nat.lt_succ_self _) hn
  refine ⟨s', new, ?_, h3, h2.sub, h2.eps, h2.trace, h2.once⟩
  intro n hlt
  rw [call_depth react hlt (by rw [h1]; simp), h1]

/-- Transport 3 goes with 2, and 1 with 3. -/
example : call (fun _ ev => match ev with | .tpDeleted 2 => [.deleteTransport 3] | .tpDeleted 3 => [.deleteTransport 2, .deleteTransport 1] | _ => [])
    5 ⟨[], [1, 2, 3, 4], []⟩ (.deleteTransport 2) = .ok ⟨[], [4], [.tpDeleted 2, .tpDeleted 3, .tpDeleted 1]⟩ := by decide

/-- From `s` to `s'` the endpoints `xs` were added, every one announced once. -/
structure Added (s s' : State) (xs : List Nat) (new : List Event) : Prop where
  eps : s'.eps = s.eps ++ xs
  tps : s'.tps = s.tps
  trace : s'.trace = s.trace ++ new
  once : (addedEps new).Perm xs
  nodup : s'.eps.Nodup

theorem Added.trans {a b c : State} {xs ys : List Nat} {x y : List Event} (h1 : Added a b xs x) (h2 : Added b c ys y) : Added a c (xs ++ ys) (x ++ y) :=
  ⟨by rw [h2.eps, h1.eps, List.append_assoc], h2.tps.trans h1.tps, by rw [h2.trace, h1.trace, List.append_assoc],
    by rw [addedEps_append]; exact h1.once.append h2.once, h2.nodup⟩

/-- The listeners react to a new endpoint by adding endpoints of a lower rank. -/
def Descending (react : List Event → Event → List Op) (rank : Nat → Nat) : Prop :=
  ∀ h e, ∀ op ∈ react h (.epAdded e), ∃ f, op = .addEndPoint f ∧ rank f < rank e

theorem add_runs {react : List Event → Event → List Op} {rank : Nat → Nat} {n : Nat} {k : Nat}
    (ih : ∀ s e, rank e < k → s.eps.Nodup → ∃ s' xs new, call react n s (.addEndPoint e) = .ok s' ∧ Added s s' xs new ∧ e ∈ s'.eps ∧ (∀ x ∈ xs, rank x ≤ rank e)) :
    ∀ ops : List Op, (∀ op ∈ ops, ∃ f, op = .addEndPoint f ∧ rank f < k) → ∀ s : State, s.eps.Nodup →
      ∃ s' xs new, runs (call react n) s ops = .ok s' ∧ Added s s' xs new ∧ (∀ f, .addEndPoint f ∈ ops → f ∈ s'.eps) ∧ (∀ x ∈ xs, rank x < k) := by
  intro ops
  induction ops with
  | nil => intro _ s hn; exact ⟨s, [], [], rfl, ⟨by simp, rfl, by simp, List.Perm.refl _, hn⟩, by simp, by simp⟩
  | cons op ops ih2 =>
    intro hops s hn
    obtain ⟨f, rfl, hf⟩ := hops op List.mem_cons_self
    obtain ⟨m, xs, n1, h1, h2, h3, h4⟩ := ih s f hf hn
    obtain ⟨s', ys, n2, h5, h6, h7, h8⟩ := ih2 (fun op h => hops op (List.mem_cons_of_mem _ h)) m h2.nodup
    refine ⟨s', xs ++ ys, n1 ++ n2, by simp only [runs, h1, Out.bind_ok]; exact h5, h2.trans h6, ?_, ?_⟩
    · intro g hg
      rcases List.mem_cons.mp hg with hg | hg
      · injection hg with hg; subst hg; rw [h6.eps]; exact List.mem_append_left _ h3
      · exact h7 g hg
    · intro x hx
      rcases List.mem_append.mp hx with hx | hx
      · exact Nat.lt_of_le_of_lt (h4 x hx) hf
      · exact h8 x hx

theorem add_call (react : List Event → Event → List Op) (rank : Nat → Nat) (hre : Descending react rank) (n : Nat) :
    ∀ s e, rank e < n → s.eps.Nodup →
      ∃ s' xs new, call react n s (.addEndPoint e) = .ok s' ∧ Added s s' xs new ∧ e ∈ s'.eps ∧ (∀ x ∈ xs, rank x ≤ rank e) := by
  induction n with
  | zero => intro s e h; omega
  | succ n ih =>
    intro s e he hn
    simp only [call]
    by_cases hm : e ∈ s.eps
    · rw [if_pos hm]; exact ⟨s, [], [], rfl, ⟨by simp, rfl, by simp, List.Perm.refl _, hn⟩, hm, by simp⟩
    · rw [if_neg hm]
      simp only [publish]
      obtain ⟨s', xs, new, h1, h2, _, h4⟩ := add_runs (n := n) (k := rank e) (react := react) (rank := rank) (fun s f hf hn => ih s f (by omega) hn)
        (react s.trace (.epAdded e)) (hre _ _) ⟨s.eps, s.tps, s.trace ++ [.epAdded e]⟩ hn
      rw [h1, Out.bind_ok]
      have hnew : e ∉ s'.eps := by
        rw [h2.eps]
        intro h
        rcases List.mem_append.mp h with h | h
        · exact hm h
        · exact absurd (h4 e h) (Nat.lt_irrefl _)
      refine ⟨_, xs ++ [e], .epAdded e :: new, rfl, ⟨?_, h2.tps, ?_, ?_, ?_⟩, by simp, ?_⟩
      · show s'.eps ++ [e] = _; rw [h2.eps]; simp
      · show s'.trace = _; rw [h2.trace]; simp
      · have : addedEps (.epAdded e :: new) = e :: addedEps new := rfl
        rw [this]
        exact (List.Perm.cons e h2.once).trans (List.perm_append_comm (l₁ := [e]))
      · show (s'.eps ++ [e]).Nodup
        rw [List.nodup_append]
        refine ⟨h2.nodup, by simp, ?_⟩
        intro a ha b hb
        rw [List.mem_singleton] at hb; subst hb
        intro h; subst h; exact hnew ha
      · intro x hx
        rcases List.mem_append.mp hx with hx | hx
        · exact Nat.le_of_lt (h4 x hx)
        · rw [List.mem_singleton] at hx; rw [hx]; exact Nat.le_refl _

/-- C68, restricted to adding: if the listeners react to a new endpoint by adding endpoints of a lower rank, the call returns, the endpoint
and everything the listeners added is registered once and was announced once. -/
theorem c68_add_partial (react : List Event → Event → List Op) (rank : Nat → Nat) (hre : Descending react rank) (s : State) (hn : s.eps.Nodup) (e : Nat) :
    ∃ s' xs new, (∀ n, rank e < n → call react n s (.addEndPoint e) = .ok s') ∧ e ∈ s'.eps ∧ s'.eps.Nodup ∧ s'.eps = s.eps ++ xs ∧ s'.tps = s.tps ∧
      s'.trace = s.trace ++ new ∧ (addedEps new).Perm xs := by
  obtain ⟨s', xs, new, h1, h2, h3, _⟩ := add_call react rank hre (rank e + 1) s e (Nat.lt_succ_self _) hn
  refine ⟨s', xs, new, ?_, h3, h2.nodup, h2.eps, h2.tps, h2.trace, h2.once⟩
  intro n hlt
  rw [call_depth react hlt (by rw [h1]; simp), h1]

/-- Endpoint 5 brings 3 and 4, 4 brings 3. -/
def bring : List Event → Event → List Op
  | _, .epAdded 5 => [.addEndPoint 3, .addEndPoint 4]
  | _, .epAdded 4 => [.addEndPoint 3]
  | _, _ => []

theorem bring_descending : Descending bring id := by
  intro h e op hop
  unfold bring at hop
  split at hop
  · rename_i heq; injection heq with heq; subst heq; simp at hop; rcases hop with rfl | rfl <;> exact ⟨_, rfl, by decide⟩
  · rename_i heq; injection heq with heq; subst heq; simp at hop; subst hop; exact ⟨_, rfl, by decide⟩
  · simp at hop

example : call bring 6 ⟨[1], [], []⟩ (.addEndPoint 5) = .ok ⟨[1, 3, 4, 5], [], [.epAdded 5, .epAdded 3, .epAdded 4]⟩ := by decide

/-- C68, restricted to deleting an endpoint while the listeners only add endpoints: the right one is removed, what the listeners added is
registered. -/
theorem c68_delete_partial (react : List Event → Event → List Op) (rank : Nat → Nat) (hre : Descending react rank)
    (hdel : ∀ h e, ∀ op ∈ react h (.epDeleted e), ∃ f, op = .addEndPoint f) (s : State) (hn : s.eps.Nodup) (e : Nat) (he : e ∈ s.eps) :
    ∃ s' xs new N, (∀ n, N ≤ n → call react n s (.deleteEndPoint e) = .ok s') ∧ e ∉ s'.eps ∧ s'.eps.Nodup ∧ s'.eps = s.eps.erase e ++ xs ∧ s'.tps = s.tps ∧
      s'.trace = s.trace ++ .epDeleted e :: new ∧ (addedEps new).Perm xs ∧ ∀ f, .addEndPoint f ∈ react s.trace (.epDeleted e) → f ≠ e → f ∈ s'.eps := by
  obtain ⟨i, hi⟩ : ∃ i, s.eps.idxOf? e = some i := Option.isSome_iff_exists.mp (by rw [List.isSome_idxOf?]; exact he)
  obtain ⟨pre, post, hl, hpre, rfl⟩ := idxOf?_split hi
  obtain ⟨k, hk⟩ : ∃ k, ∀ op ∈ react s.trace (.epDeleted e), ∃ f, op = .addEndPoint f ∧ rank f < k := by
    have h := hdel s.trace e
    generalize react s.trace (.epDeleted e) = ops at h
    clear hi he hl hpre
    induction ops with
    | nil => exact ⟨0, by simp⟩
    | cons op ops ih =>
      obtain ⟨k, hk⟩ := ih (fun op ho => h op (List.mem_cons_of_mem _ ho))
      obtain ⟨f, rfl⟩ := h op List.mem_cons_self
      refine ⟨max k (rank f + 1), ?_⟩
      intro op ho
      rcases List.mem_cons.mp ho with ho | ho
      · exact ⟨f, ho, by omega⟩
      · obtain ⟨g, hg, hlt⟩ := hk op ho; exact ⟨g, hg, by omega⟩
  obtain ⟨m, xs, new, h1, h2, h3, _⟩ := add_runs (n := k) (k := k) (react := react) (rank := rank) (fun s f hf hn => add_call react rank hre k s f hf hn)
    (react s.trace (.epDeleted e)) hk ⟨s.eps, s.tps, s.trace ++ [.epDeleted e]⟩ hn
  have hmeps : m.eps = pre ++ e :: (post ++ xs) := by rw [h2.eps]; show s.eps ++ xs = _; rw [hl]; simp
  have hcall : call react (k + 1) s (.deleteEndPoint e) = .ok { m with eps := pre ++ (post ++ xs) } := by
    simp only [call, hi, publish, h1, Out.bind_ok]
    rw [if_pos (by rw [hmeps]; simp)]
    rw [hmeps, eraseIdx_mid]
  have hnm := h2.nodup
  rw [hmeps] at hnm
  have hcons : (e :: (pre ++ (post ++ xs))).Nodup := (List.perm_middle.nodup_iff).mp hnm
  rw [List.nodup_cons] at hcons
  refine ⟨{ m with eps := pre ++ (post ++ xs) }, xs, new, k + 1, ?_, hcons.1, hcons.2, ?_, h2.tps, by show m.trace = _; rw [h2.trace]; simp, h2.once, ?_⟩
  · intro n hlt
    rw [call_depth react hlt (by rw [hcall]; simp), hcall]
  · show pre ++ (post ++ xs) = _
    rw [hl, List.erase_append_right _ hpre]; simp
  · intro f hf hne
    have := h3 f hf
    rw [hmeps] at this
    simp only [List.mem_append, List.mem_cons] at this ⊢
    rcases this with h | h | h
    · exact .inl h
    · exact absurd h hne
    · exact .inr h

/-- A replacement for a deleted endpoint. -/
example : call (fun _ ev => match ev with | .epDeleted e => [.addEndPoint (e + 10)] | _ => []) 4 ⟨[1, 2, 3], [], []⟩ (.deleteEndPoint 2) =
    .ok ⟨[1, 3, 12], [], [.epDeleted 2, .epAdded 12]⟩ := by decide

end Verif.Reg.Reentrant
