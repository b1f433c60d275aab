import Verif.Trace

/-!
# Accepting connections: who sees which event when (C66)

The accept goroutines of a LowerDeck, one per transport (proc_lowerdeck.go:40-89), the receive goroutine of every connection
(proc_lowerdeck.go:59-87), the goroutine a Heartbeat starts for every connection (proc_heartbeat.go:146-169), and `PublishEvent`
(ustack_default.go:309-326), which takes no lock: it calls the targets one after the other (listeners, endpoints, UpperDeck,
processors, LowerDeck), each call is a step here.  There are `n` targets, number `h` is a Heartbeat, if there is one.  The
transports hand over connections in the order they were made (a channel), connections are numbered in that order over all transports.

Simplifications: the targets do not change while events are published; a receive or heartbeat goroutine may find its connection
broken at any time (whoever closed it).
-/

namespace Verif.Conn.Accept

open Verif.Trace

inductive Event where
  /-- `NewConnection` -/
  | new (c : Nat)
  /-- `ConnectionClosed` -/
  | closed (c : Nat)
  deriving Repr, DecidableEq

inductive Obs where
  /-- target `k` is called with the event -/
  | seen (k : Nat) (e : Event)
  /-- data passed to the layer above the LowerDeck -/
  | up (c v : Nat)
  deriving Repr, DecidableEq

inductive APC where
  | waiting
  /-- publishing `NewConnection`, target `k` is next -/
  | announcing (c k : Nat)
  | done
  deriving Repr, DecidableEq

/-- An accept goroutine and the channel `next` of its transport. -/
structure Acc where
  queue : List Nat
  stopped : Bool
  pc : APC
  deriving Repr, DecidableEq

inductive WPC where
  | running
  /-- publishing `ConnectionClosed`, target `k` is next -/
  | closing (k : Nat)
  | ended
  deriving Repr, DecidableEq

/-- A receive goroutine (`reader`) or a goroutine sending heartbeats. -/
structure Worker where
  reader : Bool
  conn : Nat
  pc : WPC
  deriving Repr, DecidableEq

structure Sys where
  accs : List Acc
  workers : List Worker
  /-- the transport of every connection made so far -/
  owner : List Nat
  log : List Obs
  deriving Repr, DecidableEq

inductive Label where
  /-- transport `a` makes a connection -/
  | arrive (a : Nat)
  /-- transport `a` is stopped: `next` is closed -/
  | stop (a : Nat)
  /-- a step of the accept goroutine -/
  | accept (a : Nat)
  /-- receive goroutine `i` reads `v` and passes it up -/
  | read (i v : Nat)
  /-- goroutine `i` finds the connection broken -/
  | fail (i : Nat)
  /-- goroutine `i` publishes to the next target -/
  | publish (i : Nat)
  deriving Repr, DecidableEq

def Sys.setAcc (s : Sys) (a : Nat) (x : Acc) : Sys := { s with accs := s.accs.set a x }

def Sys.setWorker (s : Sys) (i : Nat) (x : Worker) : Sys := { s with workers := s.workers.set i x }

def step (n : Nat) (h : Option Nat) (s : Sys) : Label → Option Sys
  | .arrive a =>
    match s.accs[a]? with
    | none => none
    | some acc =>
      if acc.stopped then none
      else some { s.setAcc a { acc with queue := acc.queue ++ [s.owner.length] } with owner := s.owner ++ [a] }
  | .stop a =>
    match s.accs[a]? with
    | none => none
    | some acc => some (s.setAcc a { acc with stopped := true })
  | .accept a =>
    match s.accs[a]? with
    | none => none
    | some acc =>
      match acc.pc with
      | .waiting =>
        match acc.queue with
        | c :: rest => some (s.setAcc a { acc with queue := rest, pc := .announcing c 0 })
        | [] => if acc.stopped then some (s.setAcc a { acc with pc := .done }) else none
      | .announcing c k =>
        if k < n then
          some { s.setAcc a { acc with pc := .announcing c (k + 1) } with
            workers := if h = some k then s.workers ++ [⟨false, c, .running⟩] else s.workers
            log := s.log ++ [.seen k (.new c)] }
        else
          some { s.setAcc a { acc with pc := .waiting } with workers := s.workers ++ [⟨true, c, .running⟩] }
      | .done => none
  | .read i v =>
    match s.workers[i]? with
    | none => none
    | some w => if w.reader = true ∧ w.pc = .running then some { s with log := s.log ++ [.up w.conn v] } else none
  | .fail i =>
    match s.workers[i]? with
    | none => none
    | some w => if w.pc = .running then some (s.setWorker i { w with pc := .closing 0 }) else none
  | .publish i =>
    match s.workers[i]? with
    | none => none
    | some w =>
      match w.pc with
      | .closing k =>
        if k < n then some { s.setWorker i { w with pc := .closing (k + 1) } with log := s.log ++ [.seen k (.closed w.conn)] }
        else some (s.setWorker i { w with pc := .ended })
      | _ => none

abbrev exec (n : Nat) (h : Option Nat) := Trace.exec (step n h)

/-- `t` transports. -/
def init (t : Nat) : Sys := ⟨List.replicate t ⟨[], false, .waiting⟩, [], [], []⟩

/-! ## Specification -/

/-- What must have happened before an observation. -/
def Fine (n : Nat) (h : Option Nat) (owner : List Nat) (pre : List Obs) : Obs → Prop
  | .seen k (.new c) => .seen k (.new c) ∉ pre ∧
      ∀ c' a, .seen k (.new c') ∈ pre → owner[c]? = some a → owner[c']? = some a → c' < c
  | .seen k (.closed c) => (∀ b, h = some b → k ≤ b) → .seen k (.new c) ∈ pre
  | .up c _ => ∀ k, k < n → .seen k (.new c) ∈ pre

def AllFine (n : Nat) (h : Option Nat) (owner : List Nat) (log : List Obs) : Prop :=
  ∀ pre x post, log = pre ++ x :: post → Fine n h owner pre x

theorem AllFine.snoc {n : Nat} {h : Option Nat} {owner : List Nat} {log : List Obs} {x : Obs} (hl : AllFine n h owner log)
    (hx : Fine n h owner log x) : AllFine n h owner (log ++ [x]) := by
  intro pre y post e
  rcases List.eq_nil_or_concat post with rfl | ⟨post, z, rfl⟩
  · have h1 := List.append_inj_left' e rfl
    have h2 := List.append_inj_right' e rfl
    injection h2 with h2
    subst h1 h2
    exact hx
  · rw [List.concat_eq_append, ← List.cons_append, ← List.append_assoc] at e
    exact hl pre y post (List.append_inj_left' e rfl)

/-! ## Invariant -/

def Acc.pending (acc : Acc) : List Nat :=
  (match acc.pc with
    | .announcing c _ => [c]
    | _ => []) ++ acc.queue

/-- `ConnectionClosed` has been published to target `k`. -/
def Worker.past (k : Nat) (w : Worker) : Bool :=
  match w.pc with
  | .running => false
  | .closing j => decide (k < j)
  | .ended => true

structure Inv (n : Nat) (h : Option Nat) (s : Sys) : Prop where
  own : ∀ (a : Nat) (acc : Acc), s.accs[a]? = some acc → ∀ c ∈ acc.pending, s.owner[c]? = some a
  sorted : ∀ (a : Nat) (acc : Acc), s.accs[a]? = some acc → acc.pending.Pairwise (· < ·)
  ann : ∀ (a : Nat) (acc : Acc) (c k : Nat), s.accs[a]? = some acc → acc.pc = .announcing c k → k ≤ n ∧ ∀ j, j < k → Obs.seen j (.new c) ∈ s.log
  seen : ∀ k c, Obs.seen k (.new c) ∈ s.log → ∃ (a : Nat) (acc : Acc), s.owner[c]? = some a ∧ s.accs[a]? = some acc ∧
    ∀ c' ∈ acc.pending, c < c' ∨ (c = c' ∧ ∃ j, acc.pc = .announcing c j ∧ k < j)
  rd : ∀ w ∈ s.workers, w.reader = true → (∀ j, j < n → Obs.seen j (.new w.conn) ∈ s.log) ∧
    ∃ (a : Nat) (acc : Acc), s.owner[w.conn]? = some a ∧ s.accs[a]? = some acc ∧ ∀ c ∈ acc.pending, w.conn < c
  sd : ∀ w ∈ s.workers, w.reader = false → ∃ b, h = some b ∧ ∀ j, j ≤ b → Obs.seen j (.new w.conn) ∈ s.log
  uniq : ∀ (i j : Nat) (w w' : Worker), s.workers[i]? = some w → s.workers[j]? = some w' → w.reader = w'.reader → w.conn = w'.conn → i = j
  cnt : ∀ k c, k < n → s.log.count (.seen k (.closed c)) = s.workers.countP fun w => w.conn = c && w.past k
  past : ∀ w ∈ s.workers, ∀ k, w.pc = .closing k → k ≤ n
  fine : AllFine n h s.owner s.log

theorem inv_init (n : Nat) (h : Option Nat) (t : Nat) : Inv n h (init t) := by
  have hacc : ∀ (a : Nat) (acc : Acc), (init t).accs[a]? = some acc → acc = ⟨[], false, .waiting⟩ := by
    intro a acc e
    exact List.eq_of_mem_replicate (List.mem_of_getElem? e)
  constructor
  · intro a acc e; rw [hacc a acc e]; simp [Acc.pending]
  · intro a acc e; rw [hacc a acc e]; simp [Acc.pending]
  · intro a acc c k e hp; rw [hacc a acc e] at hp; simp at hp
  · intro k c hm; simp [init] at hm
  · intro w hw; simp [init] at hw
  · intro w hw; simp [init] at hw
  · intro i j w w' e; simp [init] at e
  · intro k c _; simp [init]
  · intro w hw; simp [init] at hw
  · intro pre x post e; simp [init] at e

theorem set_cases {α : Type} {l : List α} {i j : Nat} {x y : α} (h : (l.set i x)[j]? = some y) : (j = i ∧ y = x) ∨ (j ≠ i ∧ l[j]? = some y) := by
  rw [List.getElem?_set] at h
  split at h
  · rename_i e
    split at h
    · injection h with h; exact Or.inl ⟨e.symm, h.symm⟩
    · simp at h
  · rename_i e; exact Or.inr ⟨Ne.symm e, h⟩

theorem lt_of_some {α : Type} {l : List α} {i : Nat} {x : α} (h : l[i]? = some x) : i < l.length := (List.getElem?_eq_some_iff.mp h).1

theorem set_self {α : Type} {l : List α} {i : Nat} {x y : α} (h : l[i]? = some x) : (l.set i y)[i]? = some y := by
  rw [List.getElem?_set, if_pos rfl, if_pos (lt_of_some h)]

theorem set_other {α : Type} {l : List α} {i j : Nat} {y : α} (h : j ≠ i) : (l.set i y)[j]? = l[j]? := by
  rw [List.getElem?_set, if_neg (Ne.symm h)]

section
variable {n : Nat} {h : Option Nat} {s s' : Sys}

theorem owner_mono {l : List Nat} {c a b : Nat} (e : l[c]? = some a) : (l ++ [b])[c]? = some a := by
  rw [List.getElem?_append_left (lt_of_some e)]; exact e

/-- The transport stops or the accept goroutine moves without publishing: same connections pending. -/
theorem Inv.move (hi : Inv n h s) {a : Nat} {acc acc' : Acc} (ha : s.accs[a]? = some acc) (hp : acc'.pending = acc.pending)
    (hold : ∀ c k, acc.pc = .announcing c k → acc'.pc = .announcing c k)
    (hnew : ∀ c k, acc'.pc = .announcing c k → acc.pc = .announcing c k ∨ k = 0) : Inv n h (s.setAcc a acc') := by
  have hacc : ∀ (b : Nat) (x : Acc), (s.setAcc a acc').accs[b]? = some x → ∃ y, s.accs[b]? = some y ∧ x.pending = y.pending ∧
      ∀ c k, x.pc = .announcing c k → y.pc = .announcing c k ∨ k = 0 := by
    intro b x e
    rcases set_cases e with ⟨rfl, rfl⟩ | ⟨_, e⟩
    · exact ⟨acc, ha, hp, hnew⟩
    · exact ⟨x, e, rfl, fun _ _ h => Or.inl h⟩
  have hacc' : ∀ (b : Nat) (y : Acc), s.accs[b]? = some y → ∃ x, (s.setAcc a acc').accs[b]? = some x ∧ x.pending = y.pending ∧
      ∀ c k, y.pc = .announcing c k → x.pc = .announcing c k := by
    intro b y e
    by_cases hb : b = a
    · subst hb
      rw [ha] at e; injection e with e; subst e
      exact ⟨acc', set_self ha, hp, hold⟩
    · exact ⟨y, by rw [Sys.setAcc, set_other hb]; exact e, rfl, fun _ _ h => h⟩
  constructor
  · intro b x e c hc
    obtain ⟨y, e', hp', _⟩ := hacc b x e
    exact hi.own b y e' c (hp' ▸ hc)
  · intro b x e
    obtain ⟨y, e', hp', _⟩ := hacc b x e
    rw [hp']; exact hi.sorted b y e'
  · intro b x c k e hx
    obtain ⟨y, e', _, hn⟩ := hacc b x e
    rcases hn c k hx with h1 | rfl
    · exact hi.ann b y c k e' h1
    · exact ⟨Nat.zero_le _, fun j hj => absurd hj (Nat.not_lt_zero _)⟩
  · intro k c hm
    obtain ⟨b, y, ho, e, hq⟩ := hi.seen k c hm
    obtain ⟨x, e', hp', hpc⟩ := hacc' b y e
    refine ⟨b, x, ho, e', fun c' hc' => ?_⟩
    rcases hq c' (hp' ▸ hc') with h1 | ⟨h1, j, h2, h3⟩
    · exact Or.inl h1
    · exact Or.inr ⟨h1, j, hpc _ _ h2, h3⟩
  · intro w hw hr
    obtain ⟨h1, b, y, ho, e, hq⟩ := hi.rd w hw hr
    obtain ⟨x, e', hp', _⟩ := hacc' b y e
    exact ⟨h1, b, x, ho, e', fun c hc => hq c (hp' ▸ hc)⟩
  · exact hi.sd
  · exact hi.uniq
  · exact hi.cnt
  · exact hi.past
  · exact hi.fine

theorem Inv.arrive (hi : Inv n h s) {a : Nat} {acc : Acc} (ha : s.accs[a]? = some acc) :
    Inv n h { s.setAcc a { acc with queue := acc.queue ++ [s.owner.length] } with owner := s.owner ++ [a] } := by
  have hpend : ({ acc with queue := acc.queue ++ [s.owner.length] } : Acc).pending = acc.pending ++ [s.owner.length] := by
    simp [Acc.pending]
  have hacc' : ∀ (b : Nat) (y : Acc), s.accs[b]? = some y →
      ∃ x, (s.accs.set a { acc with queue := acc.queue ++ [s.owner.length] })[b]? = some x ∧ (∀ c ∈ x.pending, c ∈ y.pending ∨ c = s.owner.length) ∧ x.pc = y.pc := by
    intro b y e
    by_cases hb : b = a
    · subst hb
      rw [ha] at e; injection e with e; subst e
      refine ⟨_, set_self ha, ?_, rfl⟩
      intro c hc
      rw [hpend, List.mem_append, List.mem_singleton] at hc
      exact hc
    · exact ⟨y, by rw [set_other hb]; exact e, fun c hc => Or.inl hc, rfl⟩
  constructor
  · intro b x e c hc
    rcases set_cases e with ⟨rfl, rfl⟩ | ⟨_, e⟩
    · rw [hpend, List.mem_append, List.mem_singleton] at hc
      rcases hc with hc | rfl
      · exact owner_mono (hi.own _ _ ha c hc)
      · simp
    · exact owner_mono (hi.own b x e c hc)
  · intro b x e
    rcases set_cases e with ⟨rfl, rfl⟩ | ⟨_, e⟩
    · rw [hpend, List.pairwise_append]
      refine ⟨hi.sorted _ _ ha, by simp, ?_⟩
      intro c hc d hd
      rw [List.mem_singleton] at hd
      subst hd
      exact lt_of_some (hi.own _ _ ha c hc)
    · exact hi.sorted b x e
  · intro b x c k e hx
    rcases set_cases e with ⟨rfl, rfl⟩ | ⟨_, e⟩
    · exact hi.ann _ acc c k ha hx
    · exact hi.ann b x c k e hx
  · intro k c hm
    obtain ⟨b, y, ho, e, hq⟩ := hi.seen k c hm
    obtain ⟨x, e', hp', hpc⟩ := hacc' b y e
    refine ⟨b, x, owner_mono ho, e', fun c' hc' => ?_⟩
    rcases hp' c' hc' with hc' | rfl
    · rw [hpc]; exact hq c' hc'
    · exact Or.inl (lt_of_some ho)
  · intro w hw hr
    obtain ⟨h1, b, y, ho, e, hq⟩ := hi.rd w hw hr
    obtain ⟨x, e', hp', _⟩ := hacc' b y e
    refine ⟨h1, b, x, owner_mono ho, e', fun c hc => ?_⟩
    rcases hp' c hc with hc | rfl
    · exact hq c hc
    · exact lt_of_some ho
  · exact hi.sd
  · exact hi.uniq
  · exact hi.cnt
  · exact hi.past
  · intro pre x post e
    have hf := hi.fine pre x post e
    have e' : s.log = pre ++ x :: post := e
    cases x with
    | up c v => exact hf
    | seen k ev =>
      cases ev with
      | closed c => exact hf
      | new c =>
        refine ⟨hf.1, ?_⟩
        intro c' a' hm h1 h2
        obtain ⟨b, _, hb, _⟩ := hi.seen k c (by rw [e']; simp)
        obtain ⟨b', _, hb', _⟩ := hi.seen k c' (by rw [e']; simp [hm])
        rw [owner_mono hb] at h1
        rw [owner_mono hb'] at h2
        exact hf.2 c' a' hm (hb.trans h1) (hb'.trans h2)

/-- A target is told about a new connection. -/
theorem Inv.tell (hi : Inv n h s) {a c k : Nat} {acc : Acc} (ha : s.accs[a]? = some acc) (hpc : acc.pc = .announcing c k) (hk : k < n) :
    Inv n h { s.setAcc a { acc with pc := .announcing c (k + 1) } with
      workers := if h = some k then s.workers ++ [⟨false, c, .running⟩] else s.workers
      log := s.log ++ [.seen k (.new c)] } := by
  have hpend : ({ acc with pc := .announcing c (k + 1) } : Acc).pending = acc.pending := by simp [Acc.pending, hpc]
  have hcp : c ∈ acc.pending := by simp [Acc.pending, hpc]
  have hown := hi.own a acc ha c hcp
  have hlt : ∀ c' ∈ acc.pending, c' = c ∨ c < c' := by
    intro c' hc'
    have hs := hi.sorted a acc ha
    simp only [Acc.pending, hpc, List.cons_append, List.nil_append, List.pairwise_cons] at hs
    simp only [Acc.pending, hpc, List.cons_append, List.nil_append, List.mem_cons] at hc'
    rcases hc' with rfl | hc'
    · exact Or.inl rfl
    · exact Or.inr (hs.1 c' hc')
  have hearlier : ∀ c', Obs.seen k (.new c') ∈ s.log → s.owner[c']? = some a → c' < c := by
    intro c' hm ho
    obtain ⟨b, acc', ho', e, hq⟩ := hi.seen k c' hm
    rw [ho] at ho'; injection ho' with ho'; subst ho'
    rw [ha] at e; injection e with e; subst e
    rcases hq c hcp with h1 | ⟨_, j, h2, h3⟩
    · exact h1
    · rw [hpc] at h2; injection h2 with _ h2; omega
  have hnot : Obs.seen k (.new c) ∉ s.log := fun hm => absurd (hearlier c hm hown) (Nat.lt_irrefl _)
  have hacc' : ∀ (b : Nat) (y : Acc), s.accs[b]? = some y →
      ∃ x, (s.accs.set a { acc with pc := .announcing c (k + 1) })[b]? = some x ∧ x.pending = y.pending ∧
        ∀ c' j, y.pc = .announcing c' j → ∃ j', j ≤ j' ∧ x.pc = .announcing c' j' := by
    intro b y e
    by_cases hb : b = a
    · subst hb
      rw [ha] at e; injection e with e; subst e
      refine ⟨_, set_self ha, hpend, ?_⟩
      intro c' j hj
      rw [hpc] at hj; injection hj with h1 h2
      exact ⟨k + 1, by omega, by rw [h1]⟩
    · exact ⟨y, by rw [set_other hb]; exact e, rfl, fun c' j hj => ⟨j, Nat.le_refl _, hj⟩⟩
  have hw : ∀ w ∈ (if h = some k then s.workers ++ [⟨false, c, .running⟩] else s.workers), w ∈ s.workers ∨ (h = some k ∧ w = ⟨false, c, .running⟩) := by
    intro w hw
    split at hw
    · rename_i hh
      rw [List.mem_append, List.mem_singleton] at hw
      exact hw.imp_right fun e => ⟨hh, e⟩
    · exact Or.inl hw
  constructor
  · intro b x e c' hc'
    rcases set_cases e with ⟨rfl, rfl⟩ | ⟨_, e⟩
    · rw [hpend] at hc'; exact hi.own _ _ ha c' hc'
    · exact hi.own b x e c' hc'
  · intro b x e
    rcases set_cases e with ⟨rfl, rfl⟩ | ⟨_, e⟩
    · rw [hpend]; exact hi.sorted _ _ ha
    · exact hi.sorted b x e
  · intro b x c' k' e hx
    rcases set_cases e with ⟨rfl, rfl⟩ | ⟨_, e⟩
    · injection hx with h1 h2
      subst h1 h2
      refine ⟨hk, fun j hj => ?_⟩
      by_cases hjk : j = k
      · subst hjk; simp
      · exact List.mem_append.mpr (Or.inl ((hi.ann _ acc c k ha hpc).2 j (by omega)))
    · obtain ⟨h1, h2⟩ := hi.ann b x c' k' e hx
      exact ⟨h1, fun j hj => List.mem_append.mpr (Or.inl (h2 j hj))⟩
  · intro k' c' hm
    rw [List.mem_append, List.mem_singleton] at hm
    rcases hm with hm | hm
    · obtain ⟨b, y, ho, e, hq⟩ := hi.seen k' c' hm
      obtain ⟨x, e', hp', hp2⟩ := hacc' b y e
      refine ⟨b, x, ho, e', fun d hd => ?_⟩
      rcases hq d (hp' ▸ hd) with h1 | ⟨h1, j, h2, h3⟩
      · exact Or.inl h1
      · obtain ⟨j', hj', h4⟩ := hp2 _ _ h2
        exact Or.inr ⟨h1, j', h4, by omega⟩
    · injection hm with h1 h2
      injection h2 with h2
      subst h1 h2
      refine ⟨a, _, hown, set_self ha, ?_⟩
      intro d hd
      rw [hpend] at hd
      rcases hlt d hd with rfl | hd
      · exact Or.inr ⟨rfl, k' + 1, rfl, Nat.lt_succ_self _⟩
      · exact Or.inl hd
  · intro w hwm hr
    rcases hw w hwm with hwm | ⟨_, rfl⟩
    · obtain ⟨h1, b, y, ho, e, hq⟩ := hi.rd w hwm hr
      obtain ⟨x, e', hp', _⟩ := hacc' b y e
      exact ⟨fun j hj => List.mem_append.mpr (Or.inl (h1 j hj)), b, x, ho, e', fun c hc => hq c (hp' ▸ hc)⟩
    · simp at hr
  · intro w hwm hr
    rcases hw w hwm with hwm | ⟨hh, rfl⟩
    · obtain ⟨b, hb, h1⟩ := hi.sd w hwm hr
      exact ⟨b, hb, fun j hj => List.mem_append.mpr (Or.inl (h1 j hj))⟩
    · refine ⟨k, hh, fun j hj => ?_⟩
      by_cases hjk : j = k
      · subst hjk; simp
      · exact List.mem_append.mpr (Or.inl ((hi.ann _ acc c k ha hpc).2 j (by omega)))
  · show ∀ (i j : Nat) (w w' : Worker), (if h = some k then s.workers ++ [⟨false, c, .running⟩] else s.workers)[i]? = some w →
      (if h = some k then s.workers ++ [⟨false, c, .running⟩] else s.workers)[j]? = some w' → w.reader = w'.reader → w.conn = w'.conn → i = j
    intro i j w w' e e' hr hc
    split at e
    · rename_i hh
      rw [if_pos hh] at e'
      have fresh : ∀ (i : Nat) (w : Worker), s.workers[i]? = some w → w.reader = false → w.conn = c → False := by
        intro i w e hr hc
        obtain ⟨b, hb, h1⟩ := hi.sd w (List.mem_of_getElem? e) hr
        rw [hh] at hb; injection hb with hb
        subst hb hc
        exact hnot (h1 k (Nat.le_refl _))
      rw [List.getElem?_append] at e e'
      split at e <;> split at e'
      · exact hi.uniq i j w w' e e' hr hc
      · rw [List.getElem?_singleton] at e'
        split at e'
        · injection e' with e'
          subst e'
          exact (fresh i w e hr hc).elim
        · simp at e'
      · rw [List.getElem?_singleton] at e
        split at e
        · injection e with e
          subst e
          exact (fresh j w' e' hr.symm hc.symm).elim
        · simp at e
      · rw [List.getElem?_singleton] at e e'
        split at e <;> split at e'
        · omega
        · simp at e'
        · simp at e
        · simp at e
    · rename_i hh
      rw [if_neg hh] at e'
      exact hi.uniq i j w w' e e' hr hc
  · intro k' c' hk'
    have := hi.cnt k' c' hk'
    rw [show (s.log ++ [Obs.seen k (.new c)]).count (.seen k' (.closed c')) = s.log.count (.seen k' (.closed c')) by
      rw [List.count_append]; simp]
    rw [this]
    show _ = List.countP _ (if h = some k then s.workers ++ [⟨false, c, .running⟩] else s.workers)
    split
    · rw [List.countP_append]; simp [Worker.past]
    · rfl
  · intro w hwm k' hk'
    rcases hw w hwm with hwm | ⟨_, rfl⟩
    · exact hi.past w hwm k' hk'
    · simp at hk'
  · refine AllFine.snoc hi.fine ⟨hnot, ?_⟩
    intro c' a' hm h1 h2
    have h1 : s.owner[c]? = some a' := h1
    rw [hown] at h1; injection h1 with h1; subst h1
    exact hearlier c' hm h2

/-- All targets have been told; the receive goroutine starts. -/
theorem Inv.begin (hi : Inv n h s) {a c k : Nat} {acc : Acc} (ha : s.accs[a]? = some acc) (hpc : acc.pc = .announcing c k) (hk : ¬ k < n) :
    Inv n h { s.setAcc a { acc with pc := .waiting } with workers := s.workers ++ [⟨true, c, .running⟩] } := by
  have hpend : acc.pending = c :: ({ acc with pc := .waiting } : Acc).pending := by simp [Acc.pending, hpc]
  have hs := hi.sorted a acc ha
  rw [hpend, List.pairwise_cons] at hs
  have hacc' : ∀ (b : Nat) (y : Acc), s.accs[b]? = some y → ∃ x, (s.accs.set a { acc with pc := .waiting })[b]? = some x ∧
      (∀ d ∈ x.pending, d ∈ y.pending ∧ (∀ j, y.pc ≠ .announcing d j) ∨ (d ∈ y.pending ∧ x.pc = y.pc)) := by
    intro b y e
    by_cases hb : b = a
    · subst hb
      rw [ha] at e; injection e with e; subst e
      refine ⟨_, set_self ha, ?_⟩
      intro d hd
      refine Or.inl ⟨by rw [hpend]; exact List.mem_cons_of_mem _ hd, ?_⟩
      intro j hj
      rw [hpc] at hj; injection hj with hj
      subst hj
      exact absurd (hs.1 c hd) (Nat.lt_irrefl _)
    · exact ⟨y, by rw [set_other hb]; exact e, fun d hd => Or.inr ⟨hd, rfl⟩⟩
  have hw : ∀ w ∈ s.workers ++ [(⟨true, c, .running⟩ : Worker)], w ∈ s.workers ∨ w = ⟨true, c, .running⟩ := by
    intro w hw
    rw [List.mem_append, List.mem_singleton] at hw
    exact hw
  constructor
  · intro b x e c' hc'
    rcases set_cases e with ⟨rfl, rfl⟩ | ⟨_, e⟩
    · exact hi.own _ _ ha c' (by rw [hpend]; exact List.mem_cons_of_mem _ hc')
    · exact hi.own b x e c' hc'
  · intro b x e
    rcases set_cases e with ⟨rfl, rfl⟩ | ⟨_, e⟩
    · exact hs.2
    · exact hi.sorted b x e
  · intro b x c' k' e hx
    rcases set_cases e with ⟨rfl, rfl⟩ | ⟨_, e⟩
    · simp at hx
    · exact hi.ann b x c' k' e hx
  · intro k' c' hm
    obtain ⟨b, y, ho, e, hq⟩ := hi.seen k' c' hm
    obtain ⟨x, e', hp'⟩ := hacc' b y e
    refine ⟨b, x, ho, e', fun d hd => ?_⟩
    rcases hp' d hd with ⟨h1, h2⟩ | ⟨h1, h2⟩
    · rcases hq d h1 with h3 | ⟨h3, j, h4, h5⟩
      · exact Or.inl h3
      · subst h3; exact absurd h4 (h2 j)
    · rw [h2]; exact hq d h1
  · intro w hwm hr
    rcases hw w hwm with hwm | rfl
    · obtain ⟨h1, b, y, ho, e, hq⟩ := hi.rd w hwm hr
      obtain ⟨x, e', hp'⟩ := hacc' b y e
      refine ⟨h1, b, x, ho, e', fun d hd => ?_⟩
      rcases hp' d hd with ⟨h2, _⟩ | ⟨h2, _⟩ <;> exact hq d h2
    · refine ⟨fun j hj => (hi.ann a acc c k ha hpc).2 j (by omega), a, _, hi.own a acc ha c (by rw [hpend]; simp), set_self ha, ?_⟩
      intro d hd
      exact hs.1 d hd
  · intro w hwm hr
    rcases hw w hwm with hwm | rfl
    · exact hi.sd w hwm hr
    · simp at hr
  · have fresh : ∀ (i : Nat) (w : Worker), s.workers[i]? = some w → w.reader = true → w.conn = c → False := by
      intro i w e hr hc
      obtain ⟨_, b, y, ho, e', hq⟩ := hi.rd w (List.mem_of_getElem? e) hr
      rw [hc, hi.own a acc ha c (by rw [hpend]; simp)] at ho
      injection ho with ho
      subst ho
      rw [ha] at e'; injection e' with e'; subst e'
      have := hq c (by rw [hpend]; simp)
      omega
    intro i j w w' e e' hr hc
    rw [List.getElem?_append] at e e'
    split at e <;> split at e'
    · exact hi.uniq i j w w' e e' hr hc
    · rw [List.getElem?_singleton] at e'
      split at e'
      · injection e' with e'
        subst e'
        exact (fresh i w e hr hc).elim
      · simp at e'
    · rw [List.getElem?_singleton] at e
      split at e
      · injection e with e
        subst e
        exact (fresh j w' e' hr.symm hc.symm).elim
      · simp at e
    · rw [List.getElem?_singleton] at e e'
      split at e <;> split at e'
      · omega
      · simp at e'
      · simp at e
      · simp at e
  · intro k' c' hk'
    show s.log.count _ = List.countP _ (s.workers ++ [_])
    rw [List.countP_append, hi.cnt k' c' hk']
    simp [Worker.past]
  · intro w hwm k' hk'
    rcases hw w hwm with hwm | rfl
    · exact hi.past w hwm k' hk'
    · simp at hk'
  · exact hi.fine

/-- A goroutine of a connection moves; what it observes is not about new connections. -/
theorem Inv.work (hi : Inv n h s) {i : Nat} {w : Worker} {pc : WPC} (hwi : s.workers[i]? = some w) (l : List Obs)
    (hl : ∀ k c, Obs.seen k (.new c) ∉ l) (hf : AllFine n h s.owner (s.log ++ l))
    (hc : ∀ k c, k < n → l.count (.seen k (.closed c)) + (if w.conn = c ∧ w.past k = true then 1 else 0) =
      (if w.conn = c ∧ ({ w with pc := pc } : Worker).past k = true then 1 else 0))
    (hp : ∀ k, pc = .closing k → k ≤ n) : Inv n h { s.setWorker i { w with pc := pc } with log := s.log ++ l } := by
  have hmem : ∀ k c, Obs.seen k (.new c) ∈ s.log ++ l ↔ Obs.seen k (.new c) ∈ s.log := by
    intro k c
    rw [List.mem_append]
    exact ⟨fun h => h.resolve_right (hl k c), Or.inl⟩
  have hws : ∀ x ∈ s.workers.set i { w with pc := pc }, ∃ y ∈ s.workers, x.reader = y.reader ∧ x.conn = y.conn ∧ (x = y ∨ x.pc = pc) := by
    intro x hx
    obtain ⟨j, hj⟩ := List.mem_iff_getElem?.mp hx
    rcases set_cases hj with ⟨rfl, rfl⟩ | ⟨_, hj⟩
    · exact ⟨w, List.mem_of_getElem? hwi, rfl, rfl, Or.inr rfl⟩
    · exact ⟨x, List.mem_of_getElem? hj, rfl, rfl, Or.inl rfl⟩
  constructor
  · exact hi.own
  · exact hi.sorted
  · intro b x c k e hx
    obtain ⟨h1, h2⟩ := hi.ann b x c k e hx
    exact ⟨h1, fun j hj => (hmem _ _).mpr (h2 j hj)⟩
  · intro k c hm; exact hi.seen k c ((hmem _ _).mp hm)
  · intro x hx hr
    obtain ⟨y, hy, h1, h2, _⟩ := hws x hx
    obtain ⟨h3, h4⟩ := hi.rd y hy (h1 ▸ hr)
    rw [h2]
    exact ⟨fun j hj => (hmem _ _).mpr (h3 j hj), h4⟩
  · intro x hx hr
    obtain ⟨y, hy, h1, h2, _⟩ := hws x hx
    obtain ⟨b, hb, h3⟩ := hi.sd y hy (h1 ▸ hr)
    rw [h2]
    exact ⟨b, hb, fun j hj => (hmem _ _).mpr (h3 j hj)⟩
  · intro j j' x x' e e' hr hc
    have key : ∀ (j : Nat) (x : Worker), (s.workers.set i { w with pc := pc })[j]? = some x → ∃ y, s.workers[j]? = some y ∧ y.reader = x.reader ∧ y.conn = x.conn := by
      intro j x e
      rcases set_cases e with ⟨rfl, rfl⟩ | ⟨_, e⟩
      · exact ⟨w, hwi, rfl, rfl⟩
      · exact ⟨x, e, rfl, rfl⟩
    obtain ⟨y, h1, h2, h3⟩ := key j x e
    obtain ⟨y', h1', h2', h3'⟩ := key j' x' e'
    exact hi.uniq j j' y y' h1 h1' (by rw [h2, h2', hr]) (by rw [h3, h3', hc])
  · intro k c hk
    obtain ⟨hlt, hget⟩ := List.getElem?_eq_some_iff.mp hwi
    show (s.log ++ l).count _ = List.countP _ (s.workers.set i _)
    rw [List.count_append, List.countP_set hlt, hget, hi.cnt k c hk]
    have hck := hc k c hk
    have hpos : (w.conn = c ∧ w.past k = true) → 0 < s.workers.countP fun w => w.conn = c && w.past k := by
      intro hw
      rw [List.countP_pos_iff]
      exact ⟨w, List.mem_of_getElem? hwi, by simp [hw.1, hw.2]⟩
    simp only [Bool.and_eq_true, decide_eq_true_eq] at hck hpos ⊢
    by_cases h1 : w.conn = c ∧ w.past k = true
    · have := hpos h1
      rw [if_pos h1] at hck ⊢
      omega
    · rw [if_neg h1] at hck ⊢
      omega
  · intro x hx k hk
    obtain ⟨y, hy, _, _, h3⟩ := hws x hx
    rcases h3 with rfl | h3
    · exact hi.past x hy k hk
    · exact hp k (h3 ▸ hk)
  · exact hf

theorem Inv.step (hi : Inv n h s) {l : Label} (hs : step n h s l = some s') : Inv n h s' := by
  cases l with
  | arrive a =>
    simp only [Accept.step] at hs
    split at hs
    · simp at hs
    · rename_i acc ha
      split at hs
      · simp at hs
      · injection hs with hs; subst hs; exact hi.arrive ha
  | stop a =>
    simp only [Accept.step] at hs
    split at hs
    · simp at hs
    · rename_i acc ha
      injection hs with hs; subst hs
      exact hi.move ha rfl (fun _ _ h => h) (fun _ _ h => Or.inl h)
  | accept a =>
    simp only [Accept.step] at hs
    split at hs
    · simp at hs
    · rename_i acc ha
      split at hs
      · rename_i hpc
        split at hs
        · rename_i c rest hq
          injection hs with hs; subst hs
          refine hi.move ha (by simp [Acc.pending, hpc, hq]) (fun c k h => by rw [hpc] at h; simp at h) ?_
          intro c' k' h'
          injection h' with _ h'
          exact Or.inr h'.symm
        · rename_i hq
          split at hs
          · injection hs with hs; subst hs
            exact hi.move ha (by simp [Acc.pending, hpc]) (fun c k h => by rw [hpc] at h; simp at h) (fun c k h => by simp at h)
          · simp at hs
      · rename_i c k hpc
        split at hs
        · rename_i hk
          injection hs with hs; subst hs
          exact hi.tell ha hpc hk
        · rename_i hk
          injection hs with hs; subst hs
          exact hi.begin ha hpc hk
      · simp at hs
  | read i v =>
    simp only [Accept.step] at hs
    split at hs
    · simp at hs
    · rename_i w hw
      split at hs
      · rename_i hr
        injection hs with hs; subst hs
        have hset : s = s.setWorker i { w with pc := w.pc } := by
          obtain ⟨hlt, hget⟩ := List.getElem?_eq_some_iff.mp hw
          have : s.workers.set i w = s.workers := by rw [← hget]; exact List.set_getElem_self hlt
          simp [Sys.setWorker, this]
        have := hi.work (pc := w.pc) hw [.up w.conn v] (by simp)
          (AllFine.snoc hi.fine ((hi.rd w (List.mem_of_getElem? hw) hr.1).1)) (by intro k c _; simp) (hi.past w (List.mem_of_getElem? hw))
        rw [← hset] at this
        exact this
      · simp at hs
  | fail i =>
    simp only [Accept.step] at hs
    split at hs
    · simp at hs
    · rename_i w hw
      split at hs
      · rename_i hr
        injection hs with hs; subst hs
        have := hi.work (pc := .closing 0) hw [] (by simp) (by rw [List.append_nil]; exact hi.fine)
          (by intro k c _; simp [Worker.past, hr]) (by intro k e; injection e with e; omega)
        rw [List.append_nil] at this
        exact this
      · simp at hs
  | publish i =>
    simp only [Accept.step] at hs
    split at hs
    · simp at hs
    · rename_i w hw
      split at hs
      · rename_i k hpc
        split at hs
        · rename_i hk
          injection hs with hs; subst hs
          refine hi.work (pc := .closing (k + 1)) hw [.seen k (.closed w.conn)] (by simp) (AllFine.snoc hi.fine ?_) ?_
            (by intro k' e; injection e with e; omega)
          · intro hb
            by_cases hr : w.reader = true
            · exact (hi.rd w (List.mem_of_getElem? hw) hr).1 k hk
            · obtain ⟨b, hb', h1⟩ := hi.sd w (List.mem_of_getElem? hw) (by simpa using hr)
              exact h1 k (hb b hb')
          · intro k' c _
            simp only [Worker.past, hpc, List.count_singleton, decide_eq_true_eq]
            by_cases hc : w.conn = c
            · subst hc
              by_cases hkk : k = k'
              · subst hkk; simp
              · have : ¬ ((Obs.seen k (.closed w.conn)) == (Obs.seen k' (.closed w.conn))) = true := by simpa using hkk
                rw [if_neg this]
                by_cases h1 : k' < k
                · rw [if_pos ⟨rfl, h1⟩, if_pos ⟨rfl, by omega⟩]
                · rw [if_neg (by omega), if_neg (by omega)]
            · have : ¬ ((Obs.seen k (.closed w.conn)) == (Obs.seen k' (.closed c))) = true := by simpa using fun _ => hc
              rw [if_neg this, if_neg (fun h => hc h.1), if_neg (fun h => hc h.1)]
        · rename_i hk
          injection hs with hs; subst hs
          have := hi.work (pc := .ended) hw [] (by simp) (by rw [List.append_nil]; exact hi.fine)
            (by
              intro k' c hk'
              have hkk : k' < k := by omega
              simp [Worker.past, hpc, hkk]) (by intro k e; simp at e)
          rw [List.append_nil] at this
          exact this
      · simp at hs

theorem inv_exec (t : Nat) (ls : List Label) (he : exec n h (init t) ls = some s) : Inv n h s :=
  invariant (step := Accept.step n h) (P := Inv n h) (Q := fun _ => True) (fun _ _ _ hi _ hs => hi.step hs) ls _ _ (inv_init n h t) (by simp) he

/-! ## C66 -/

theorem AllFine.prefix {owner : List Nat} {a b : List Obs} (hf : AllFine n h owner (a ++ b)) : AllFine n h owner a := by
  intro pre x post e
  exact hf pre x (post ++ b) (by rw [e]; simp)

theorem new_once {owner : List Nat} (k c : Nat) (log : List Obs) : AllFine n h owner log → log.count (.seen k (.new c)) ≤ 1 := by
  refine snoc_induction (P := fun log => AllFine n h owner log → log.count (.seen k (.new c)) ≤ 1) (by simp) ?_ log
  intro log x ih hf
  have := ih hf.prefix
  rw [List.count_append, List.count_singleton]
  by_cases hx : x = .seen k (.new c)
  · subst hx
    have hn := (hf log _ [] rfl).1
    rw [List.count_eq_zero.mpr hn]
    simp
  · rw [if_neg (by simpa using hx)]
    exact this

theorem countP_le_one {α : Type} (p : α → Bool) (l : List α) :
    (∀ (i j : Nat) (x y : α), l[i]? = some x → l[j]? = some y → p x = true → p y = true → i = j) → l.countP p ≤ 1 := by
  induction l with
  | nil => intro _; simp
  | cons x l ih =>
    intro hu
    have := ih (fun i j a b ha hb pa pb => by
      have := hu (i + 1) (j + 1) a b (by simpa using ha) (by simpa using hb) pa pb
      omega)
    rw [List.countP_cons]
    by_cases hp : p x = true
    · rw [if_pos hp]
      have : l.countP p = 0 := by
        rw [List.countP_eq_zero]
        intro y hy py
        obtain ⟨j, hj⟩ := List.mem_iff_getElem?.mp hy
        have := hu 0 (j + 1) x y (by simp) (by simpa using hj) hp py
        omega
      omega
    · rw [if_neg hp]; omega

/-- C66: every target is told at most once about a connection, and exactly once when its data starts to be read; there is one receive
goroutine per connection. -/
theorem c66_announced_once (t : Nat) (ls : List Label) (he : exec n h (init t) ls = some s) :
    (∀ k c, s.log.count (.seen k (.new c)) ≤ 1) ∧
    (∀ w ∈ s.workers, w.reader = true → ∀ k, k < n → s.log.count (.seen k (.new w.conn)) = 1) ∧
    (∀ (i j : Nat) (w w' : Worker), s.workers[i]? = some w → s.workers[j]? = some w' → w.reader = true → w'.reader = true → w.conn = w'.conn → i = j) := by
  have hi := inv_exec t ls he
  refine ⟨fun k c => new_once k c _ hi.fine, ?_, fun i j w w' e e' hr hr' hc => hi.uniq i j w w' e e' (by rw [hr, hr']) hc⟩
  intro w hw hr k hk
  have h1 := new_once k w.conn _ hi.fine
  have h2 := List.count_pos_iff.mpr ((hi.rd w hw hr).1 k hk)
  omega

/-- C66: data of a connection is passed up only after every target was told about the connection. -/
theorem c66_data (t : Nat) (ls : List Label) (he : exec n h (init t) ls = some s) (pre post : List Obs) (c v : Nat)
    (hl : s.log = pre ++ .up c v :: post) (k : Nat) (hk : k < n) : .seen k (.new c) ∈ pre :=
  (inv_exec t ls he).fine pre _ post hl k hk

/-- C66: connections of one transport are announced to every target in the order they were made. -/
theorem c66_same_order (t : Nat) (ls : List Label) (he : exec n h (init t) ls = some s) (pre post : List Obs) (k c c' a : Nat)
    (hl : s.log = pre ++ .seen k (.new c) :: post) (hb : .seen k (.new c') ∈ pre) (ho : s.owner[c]? = some a) (ho' : s.owner[c']? = some a) : c' < c :=
  ((inv_exec t ls he).fine pre _ post hl).2 c' a hb ho ho'

/-- C66, restricted to targets called before any Heartbeat (and the Heartbeat itself): the end of a connection is not reported to a
target before its beginning. -/
theorem c66_closed_partial (t : Nat) (ls : List Label) (he : exec n h (init t) ls = some s) (pre post : List Obs) (k c : Nat)
    (hl : s.log = pre ++ .seen k (.closed c) :: post) (hk : ∀ b, h = some b → k ≤ b) : .seen k (.new c) ∈ pre :=
  (inv_exec t ls he).fine pre _ post hl hk

/-- C66: each target sees the end of a connection at most once, or twice if there is a Heartbeat; once its receive goroutine has ended, at
least once. -/
theorem c66_closed_count (t : Nat) (ls : List Label) (he : exec n h (init t) ls = some s) (k c : Nat) (hk : k < n) :
    s.log.count (.seen k (.closed c)) ≤ (if h = none then 1 else 2) ∧
    ((∃ w ∈ s.workers, w.conn = c ∧ w.pc = .ended) → 0 < s.log.count (.seen k (.closed c))) := by
  have hi := inv_exec t ls he
  rw [hi.cnt k c hk]
  constructor
  · have hr : s.workers.countP (fun w => w.reader && decide (w.conn = c)) ≤ 1 := by
      refine countP_le_one _ _ (fun i j x y hx hy px py => ?_)
      simp only [Bool.and_eq_true, decide_eq_true_eq] at px py
      exact hi.uniq i j x y hx hy (by rw [px.1, py.1]) (by rw [px.2, py.2])
    have hs : s.workers.countP (fun w => !w.reader && decide (w.conn = c)) ≤ (if h = none then 0 else 1) := by
      split
      · rename_i hh
        rw [Nat.le_zero_eq, List.countP_eq_zero]
        intro w hw hp
        simp only [Bool.and_eq_true, Bool.not_eq_true', decide_eq_true_eq] at hp
        obtain ⟨b, hb, _⟩ := hi.sd w hw hp.1
        rw [hh] at hb; simp at hb
      · refine countP_le_one _ _ (fun i j x y hx hy px py => ?_)
        simp only [Bool.and_eq_true, Bool.not_eq_true', decide_eq_true_eq] at px py
        exact hi.uniq i j x y hx hy (by rw [px.1, py.1]) (by rw [px.2, py.2])
    have hle : ∀ l : List Worker, l.countP (fun w => decide (w.conn = c) && w.past k) ≤
        l.countP (fun w => w.reader && decide (w.conn = c)) + l.countP (fun w => !w.reader && decide (w.conn = c)) := by
      intro l
      induction l with
      | nil => simp
      | cons w l ih =>
        simp only [List.countP_cons]
        by_cases hc : w.conn = c <;> cases w.reader <;> cases w.past k <;> simp [hc] <;> omega
    have := hle s.workers
    split <;> rename_i hh <;> simp only [hh, if_true, if_false] at hs <;> omega
  · rintro ⟨w, hw, hc, hp⟩
    rw [List.countP_pos_iff]
    exact ⟨w, hw, by simp [hc, Worker.past, hp]⟩

end

/-- One listener, a Heartbeat, another processor: the processor is told about the end of connection 0 and only then about its beginning. -/
theorem c66_closed_violated : (exec 3 (some 1) (init 1)
    [.arrive 0, .accept 0, .accept 0, .accept 0, .fail 0, .publish 0, .publish 0, .publish 0, .accept 0]).map (fun s => s.log) =
    some [.seen 0 (.new 0), .seen 1 (.new 0), .seen 0 (.closed 0), .seen 1 (.closed 0), .seen 2 (.closed 0), .seen 2 (.new 0)] := by decide

/-- Two transports, two listeners: they see the two new connections in different orders. -/
theorem c66_order_violated : (exec 2 none (init 2)
    [.arrive 0, .arrive 1, .accept 0, .accept 1, .accept 0, .accept 1, .accept 1, .accept 0]).map (fun s => s.log) =
    some [.seen 0 (.new 0), .seen 0 (.new 1), .seen 1 (.new 1), .seen 1 (.new 0)] := by decide

/-- The bound of `c66_closed_count` is reached: the heartbeat goroutine and the receive goroutine both report the end. -/
theorem c66_twice : (exec 1 (some 0) (init 1)
    [.arrive 0, .accept 0, .accept 0, .accept 0, .read 1 7, .fail 0, .publish 0, .fail 1, .publish 1, .publish 1]).map (fun s => s.log) =
    some [.seen 0 (.new 0), .up 0 7, .seen 0 (.closed 0), .seen 0 (.closed 0)] := by decide

end Verif.Conn.Accept
