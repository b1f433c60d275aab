import Verif.Stack.Concurrent
import Verif.Stack.Codec

/-!
# C86: messages worked on at the same time

The system: any number of goroutines (`Stack.Machine`) on one stack, any schedule.  The property: each goroutine does exactly what
it would do alone, so endpoints are handed, and connections are asked to write, what the goroutines one by one would hand
over and write, each in its own order.
-/

namespace Verif.Stack
open UBuf (St Err Heap WriteRes ReadRes)
open GoM

/-- The goroutines and the stack they share. -/
structure Sys where
  gs : List G
  w : World

/-- A step of goroutine `i`; `none`: it is done or it panics. -/
def Sys.step (s : Sys) (i : Nat) : Option Sys :=
  match s.gs[i]? with
  | none => none
  | some g => (soloStep (g, s.w)).map fun t => ⟨s.gs.set i t.1, t.2⟩

/-- Each goroutine has its messages. -/
def Sys.init (w : World) (jobs : List (List Job)) : Sys := ⟨jobs.map G.new, w⟩

abbrev Sys.exec (s : Sys) (sched : List Nat) : Option Sys := Trace.exec Sys.step s sched

theorem soloStep_some {g g' : G} {w w' : World} (h : soloStep (g, w) = some (g', w')) : ¬ g.Done ∧ stepG g w = (.ok g', w') := by
  simp only [soloStep] at h
  split at h
  · cases h
  · rename_i hd
    refine ⟨hd, ?_⟩
    split at h
    · rename_i a b e
      injection h with h
      injection h with h1 h2
      subst h1 h2
      exact e
    · cases h

theorem soloStep_of {g g' : G} {w w' : World} (hd : ¬ g.Done) (h : stepG g w = (.ok g', w')) : soloStep (g, w) = some (g', w') := by
  simp only [soloStep, if_neg hd, h]

/-- No step of the goroutine, left alone, answers a statistics request, and the caches it works on are its own, or empty ones that
what it has in hand cannot fill. -/
def Apart (o : Nat → Mode) (js : List Job) (w : World) : Prop :=
  ∀ k g v, solo (G.new js, w) k = some (g, v) → ¬ Asks g v ∧ (Touches g v → (o g.spot).Fine g.hand)

/-- Two goroutines and one cache: one of them does not use it, or it is empty between their steps. -/
def Mode.Compat : Mode → Mode → Prop
  | .own, .own => False
  | .own, .rest _ => False
  | .rest _, .own => False
  | .rest a, .rest b => a = b
  | _, _ => True

/-- How the goroutines stand to the caches; `start`: the shared ones are empty at the beginning. -/
structure Modes (m : Nat → Nat → Mode) (w : World) : Prop where
  compat : ∀ i j p, i ≠ j → (m i p).Compat (m j p)
  start : ∀ i p cap c, m i p = .rest cap → (w.procs p).kind = .frame c → AtRest cap c

/-- Where goroutine `i` is when it has made `n i` steps: where it would be alone. -/
def Track (w0 : World) (jobs : List (List Job)) (m : Nat → Nat → Mode) (n : Nat → Nat) (s : Sys) : Prop :=
  ∀ i js, jobs[i]? = some js → ∃ g v, s.gs[i]? = some g ∧ solo (G.new js, w0) (n i) = some (g, v) ∧ Like (m i) s.w v

theorem soloStep_alike {o : Nat → Mode} {g : G} {w v : World} (h : Like o w v) (hc : ¬ Asks g v ∧ (Touches g v → (o g.spot).Fine g.hand)) :
    (∀ g' w', soloStep (g, w) = some (g', w') → ∃ v', soloStep (g, v) = some (g', v') ∧ Like o w' v') ∧
    (soloStep (g, w) = none → soloStep (g, v) = none) := by
  have h2 := stepG_two h (fun x => hc.1 ((h.asks g).mp x)) (fun x => hc.2 ((h.touches g).mp x))
  constructor
  · intro g' w' hs
    obtain ⟨hd, hs⟩ := soloStep_some hs
    rw [hs] at h2
    rcases hv : stepG g v with ⟨r, v'⟩
    rw [hv] at h2
    simp only at h2
    obtain ⟨h1, h2⟩ := h2
    subst h1
    exact ⟨v', soloStep_of hd hv, h2⟩
  · intro hn
    by_cases hd : g.Done
    · simp [soloStep, hd]
    · rcases hw : stepG g w with ⟨r, w'⟩
      rcases hv : stepG g v with ⟨r', v'⟩
      rw [hw, hv] at h2
      simp only at h2
      obtain ⟨h1, _⟩ := h2
      subst h1
      cases r with
      | ok a => rw [soloStep_of hd hw] at hn; cases hn
      | panic => simp [soloStep, hd, hv]
      | running => simp [soloStep, hd, hv]

/-- The step of another goroutine on a shared or foreign cache. -/
theorem Like.other {o : Nat → Mode} {w w' v : World} {p : Nat} (hl : Like o w v) (h : OnlyAt p w w')
    (hp : o p = .foreign ∨ ∃ cap, o p = .rest cap ∧ ∀ c, (w'.procs p).kind = .frame c → AtRest cap c) : Like o w' v := by
  refine ⟨h.mtu.symm.trans hl.mtu, h.overhead.symm.trans hl.overhead, h.name.symm.trans hl.name, h.n.symm.trans hl.n,
    h.served.symm.trans hl.served, fun c => by rw [← h.conns]; exact hl.useRef c, fun j => ?_, fun j => ?_,
    h.write.symm.trans hl.write⟩ <;> by_cases hj : j = p
  · subst hj; rw [← h.enable]; exact hl.enable j
  · rw [← h.procs j hj]; exact hl.enable j
  · subst hj
    have h1 := h.kind
    have h2 := hl.kind j
    cases hw : (w.procs j).kind <;> rw [hw] at h1 h2 <;> cases hw' : (w'.procs j).kind <;> rw [hw'] at h1 <;> simp [Kind.Same] at h1 <;>
      cases hv : (v.procs j).kind <;> rw [hv] at h2 <;> simp_all [Kind.Sim]
    rcases hp with hp | ⟨cap, hp, hc⟩
    · rw [hp]; trivial
    · rw [hp] at h2 ⊢
      exact ⟨hc, h2.2⟩
  · rw [← h.procs j hj]; exact hl.kind j

theorem track_step {w0 : World} {jobs : List (List Job)} {m : Nat → Nat → Mode} (hm : Modes m w0)
    (apart : ∀ i js, jobs[i]? = some js → Apart (m i) js w0)
    {n : Nat → Nat} {s s' : Sys} {i : Nat} (ht : Track w0 jobs m n s) (hl : s.gs.length = jobs.length) (hs : s.step i = some s') :
    Track w0 jobs m (fun j => if j = i then n j + 1 else n j) s' ∧ s'.gs.length = jobs.length := by
  simp only [Sys.step] at hs
  cases hg : s.gs[i]? with
  | none => rw [hg] at hs; cases hs
  | some g =>
    rw [hg] at hs
    simp only [Option.map_eq_some_iff] at hs
    obtain ⟨⟨g', w'⟩, hstep, rfl⟩ := hs
    refine ⟨?_, by simp [hl]⟩
    have hi : i < jobs.length := by
      rw [← hl]
      exact (List.getElem?_eq_some_iff.mp hg).1
    obtain ⟨ji, hji⟩ : ∃ ji, jobs[i]? = some ji := ⟨jobs[i], List.getElem?_eq_getElem hi⟩
    obtain ⟨gi, vi, hgi, hsi, hli⟩ := ht i ji hji
    rw [hg] at hgi
    injection hgi with hgi
    subst hgi
    have hci := apart i ji hji (n i) g vi hsi
    obtain ⟨vi', hv', hl'⟩ := (soloStep_alike hli hci).1 g' w' hstep
    intro j js hj
    by_cases hji' : j = i
    · subst hji'
      rw [hji] at hj
      injection hj with hj
      subst hj
      refine ⟨g', vi', ?_, ?_, hl'⟩
      · exact List.getElem?_set_self (by rw [hl]; exact hi)
      · show solo _ (if j = j then n j + 1 else n j) = _
        rw [if_pos rfl, solo, hsi]
        exact hv'
    · obtain ⟨gj, vj, hgj, hsj, hlj⟩ := ht j js hj
      refine ⟨gj, vj, ?_, by simp only [if_neg hji']; exact hsj, ?_⟩
      · simp only
        rw [List.getElem?_set_ne (Ne.symm hji')]
        exact hgj
      · obtain ⟨_, hst⟩ := soloStep_some hstep
        obtain ⟨_, htrue⟩ := stepG_effect hst
        rcases htrue with htrue | ⟨htt, honly⟩
        · exact htrue.via hlj
        · have hfine := hci.2 ((hli.touches g).mp htt)
          have hcomp := hm.compat i j g.spot (Ne.symm hji')
          refine hlj.other honly ?_
          cases hmi : m i g.spot with
          | own =>
            rw [hmi] at hcomp
            cases hmj : m j g.spot with
            | own => rw [hmj] at hcomp; exact hcomp.elim
            | foreign => exact .inl rfl
            | rest cap => rw [hmj] at hcomp; exact hcomp.elim
          | foreign => rw [hmi] at hfine; exact hfine.elim
          | rest cap =>
            rw [hmi] at hcomp
            cases hmj : m j g.spot with
            | own => rw [hmj] at hcomp; exact hcomp.elim
            | foreign => exact .inl rfl
            | rest cap' =>
              rw [hmj] at hcomp
              refine .inr ⟨cap', rfl, fun c hc => ?_⟩
              have := hl'.kind g.spot
              rw [hc] at this
              cases hv : (vi'.procs g.spot).kind <;> rw [hv] at this <;> simp [Kind.Sim] at this
              rw [hmi] at this
              have hcc : cap = cap' := hcomp
              exact hcc ▸ this.1

theorem Like.start {o : Nat → Mode} {w : World} (h : ∀ p cap c, o p = .rest cap → (w.procs p).kind = .frame c → AtRest cap c) : Like o w w := by
  refine ⟨rfl, rfl, rfl, rfl, rfl, fun _ => rfl, fun _ => rfl, fun p => ?_, rfl⟩
  cases hk : (w.procs p).kind <;> simp [Kind.Sim]
  cases ho : o p with
  | own => rfl
  | foreign => trivial
  | rest cap => exact ⟨h p cap _ ho hk, h p cap _ ho hk⟩

theorem track_init {w0 : World} (jobs : List (List Job)) {m : Nat → Nat → Mode} (hm : Modes m w0) :
    Track w0 jobs m (fun _ => 0) (Sys.init w0 jobs) := by
  intro i js hj
  refine ⟨G.new js, w0, ?_, rfl, .start (hm.start i)⟩
  simp [Sys.init, hj]

theorem track_exec {w0 : World} {jobs : List (List Job)} {m : Nat → Nat → Mode} (hm : Modes m w0)
    (apart : ∀ i js, jobs[i]? = some js → Apart (m i) js w0)
    (sched : List Nat) : ∀ s, (Sys.init w0 jobs).exec sched = some s →
    Track w0 jobs m (fun i => sched.count i) s ∧ s.gs.length = jobs.length := by
  induction sched using Trace.snoc_induction with
  | h0 =>
    intro s hs
    injection hs with hs
    subst hs
    exact ⟨track_init jobs hm, by simp [Sys.init]⟩
  | h1 sched i ih =>
    intro s hs
    obtain ⟨t, htr, hs⟩ := Trace.exec_snoc hs
    obtain ⟨ht, hl⟩ := ih t htr
    obtain ⟨h1, h2⟩ := track_step hm apart ht hl hs
    refine ⟨?_, h2⟩
    intro j js hj
    obtain ⟨g, v, a, b, c⟩ := h1 j js hj
    refine ⟨g, v, a, ?_, c⟩
    rw [← b]
    congr 1
    simp only [List.count_append, List.count_singleton, beq_iff_eq]
    split
    · rename_i h; simp [h]
    · rename_i h; rw [if_neg (fun e => h e.symm)]; rfl

/-- **C86, each goroutine does what it would do alone.**  For any goroutines and any schedule: after its `n` steps a goroutine is where it
would be after `n` steps alone, and has done what it would have done.
Missing: statistics requests (they report what the others do: `c86_counted`) and a FrameDecoder used by two goroutines
whose cache a read can fill (`c86_mixed`; with more room than a read can bring, `c86_receivers`). -/
theorem c86_alike_partial {w0 : World} {jobs : List (List Job)} {m : Nat → Nat → Mode} (hm : Modes m w0)
    (apart : ∀ i js, jobs[i]? = some js → Apart (m i) js w0)
    {sched : List Nat} {s : Sys} (hs : (Sys.init w0 jobs).exec sched = some s) {i : Nat} {js : List Job} (hi : jobs[i]? = some js) :
    ∃ g v, s.gs[i]? = some g ∧ solo (G.new js, w0) (sched.count i) = some (g, v) := by
  obtain ⟨g, v, a, b, _⟩ := (track_exec hm apart sched s hs).1 i js hi
  exact ⟨g, v, a, b⟩

/-- **C86, nobody is held up and nobody is made to panic**: a goroutine can make its next step if and only if it could alone. -/
theorem c86_goes_on_partial {w0 : World} {jobs : List (List Job)} {m : Nat → Nat → Mode} (hm : Modes m w0)
    (apart : ∀ i js, jobs[i]? = some js → Apart (m i) js w0)
    {sched : List Nat} {s : Sys} (hs : (Sys.init w0 jobs).exec sched = some s) {i : Nat} {js : List Job} (hi : jobs[i]? = some js) :
    (s.step i).isSome = (solo (G.new js, w0) (sched.count i + 1)).isSome := by
  obtain ⟨g, v, a, b, c⟩ := (track_exec hm apart sched s hs).1 i js hi
  have hc := apart i js hi _ g v b
  simp only [Sys.step, a, solo, b, Option.bind_some, Option.isSome_map]
  cases hw : soloStep (g, s.w) with
  | none => rw [(soloStep_alike c hc).2 hw]
  | some t =>
    obtain ⟨v', hv, _⟩ := (soloStep_alike c hc).1 t.1 t.2 hw
    rw [hv]; rfl

/-! ## What happens to endpoints and connections -/

/-- The acts of the world are those of the goroutines, each in its order; `ok`: all connections were open at the start. -/
structure Merged (ok : Prop) (s : Sys) : Prop where
  perm : (deliveries (actsOf s.w.trace)).Perm (s.gs.flatMap fun g => deliveries g.acts)
  sub : ∀ g ∈ s.gs, (deliveries g.acts).Sublist (deliveries (actsOf s.w.trace))
  all : ok → s.w.trace.filter Obs.isClosed = [] → (actsOf s.w.trace).Perm (s.gs.flatMap fun g => g.acts) ∧
    (∀ g ∈ s.gs, g.acts.Sublist (actsOf s.w.trace)) ∧ ∀ c, (s.w.conns c).closed = false

theorem perm_grow {α β : Type} (f : α → List β) {gs : List α} {i : Nat} {g g' : α} (hg : gs[i]? = some g) {t a : List β}
    (hp : t.Perm (gs.flatMap f)) (hf : f g' = f g ++ a) : (t ++ a).Perm ((gs.set i g').flatMap f) := by
  obtain ⟨h1, h2⟩ := Trace.flatMap_set_perm f gs i g g' hg
  rw [hf] at h1
  refine ((hp.trans h2).append_right a).trans (.trans ?_ h1.symm)
  rw [List.append_assoc, List.append_assoc]
  exact List.Perm.append_left _ List.perm_append_comm

theorem sub_grow {α β : Type} (f : α → List β) {gs : List α} {i : Nat} {g g' : α} (hg : gs[i]? = some g) {t a : List β}
    (hs : ∀ g ∈ gs, (f g).Sublist t) (hf : f g' = f g ++ a) : ∀ x ∈ gs.set i g', (f x).Sublist (t ++ a) := by
  intro x hx
  rcases List.mem_or_eq_of_mem_set hx with h | h
  · exact (hs x h).trans (List.sublist_append_left t a)
  · subst h
    rw [hf]
    exact (hs g (List.mem_of_getElem? hg)).append (List.Sublist.refl a)

theorem merged_step {s s' : Sys} {i : Nat} {ok : Prop} (h : Merged ok s) (hs : s.step i = some s') : Merged ok s' := by
  simp only [Sys.step] at hs
  cases hg : s.gs[i]? with
  | none => rw [hg] at hs; cases hs
  | some g =>
    rw [hg] at hs
    simp only [Option.map_eq_some_iff] at hs
    obtain ⟨⟨g', w'⟩, hstep, rfl⟩ := hs
    obtain ⟨_, hst⟩ := soloStep_some hstep
    obtain ⟨⟨a, ha, he⟩, _⟩ := stepG_effect hst
    have hd : deliveries g'.acts = deliveries g.acts ++ deliveries a := by rw [ha]; simp [deliveries]
    refine ⟨?_, ?_, fun hok hn => ?_⟩
    · simp only
      rw [he.deliver]
      exact perm_grow _ hg h.perm hd
    · simp only
      rw [he.deliver]
      exact sub_grow _ hg h.sub hd
    · obtain ⟨t, ht⟩ := he.closed
      simp only at hn
      rw [hn] at ht
      have h0 : s.w.trace.filter Obs.isClosed = [] := (List.append_eq_nil_iff.mp ht.symm).1
      obtain ⟨h1, h2, h3⟩ := h.all hok h0
      obtain ⟨e1, e2⟩ := he.open' h3 hn
      simp only
      rw [e1]
      exact ⟨perm_grow _ hg h1 ha, sub_grow _ hg h2 ha, e2⟩

theorem merged_init {w0 : World} (h0 : w0.trace = []) (jobs : List (List Job)) :
    Merged (∀ c, (w0.conns c).closed = false) (Sys.init w0 jobs) := by
  refine ⟨?_, ?_, fun hc _ => ⟨?_, ?_, hc⟩⟩
  · simp [Sys.init, h0, actsOf, deliveries, List.flatMap_map, G.new]
  · intro g hg
    simp only [Sys.init, List.mem_map] at hg
    obtain ⟨js, _, rfl⟩ := hg
    simp [G.new, deliveries]
  · simp [Sys.init, h0, actsOf, List.flatMap_map, G.new]
  · intro g hg
    simp only [Sys.init, List.mem_map] at hg
    obtain ⟨js, _, rfl⟩ := hg
    simp [G.new]

/-- The system of one goroutine is the goroutine alone. -/
theorem solo_merged {w0 : World} (h0 : w0.trace = []) (js : List Job) (k : Nat) {g : G} {v : World}
    (h : solo (G.new js, w0) k = some (g, v)) : Merged (∀ c, (w0.conns c).closed = false) ⟨[g], v⟩ := by
  induction k generalizing g v with
  | zero =>
    injection h with h
    injection h with h1 h2
    subst h1 h2
    exact merged_init h0 [js]
  | succ k ih =>
    simp only [solo] at h
    cases hk : solo (G.new js, w0) k with
    | none => rw [hk] at h; cases h
    | some t =>
      rw [hk] at h
      obtain ⟨g1, v1⟩ := t
      have := ih hk
      refine merged_step (i := 0) this ?_
      simp only [Sys.step, List.getElem?_cons_zero]
      simp only [Option.bind_some] at h
      rw [h]
      rfl

theorem merged_exec {w0 : World} (h0 : w0.trace = []) {jobs : List (List Job)} {sched : List Nat} {s : Sys}
    (hs : (Sys.init w0 jobs).exec sched = some s) : Merged (∀ c, (w0.conns c).closed = false) s :=
  Trace.invariant (Q := fun _ => True) (fun _ _ _ h _ hstep => merged_step h hstep) sched _ s (merged_init h0 jobs) (fun _ _ => trivial) hs

/-- The goroutines at the end, and what they did: the same as in the runs of the model, one by one. -/
theorem ends {w0 : World} (h0 : w0.trace = []) {jobs : List (List Job)} {m : Nat → Nat → Mode} (hm : Modes m w0)
    (apart : ∀ i js, jobs[i]? = some js → Apart (m i) js w0) {sched : List Nat} {s : Sys} (hs : (Sys.init w0 jobs).exec sched = some s)
    (hdone : ∀ g ∈ s.gs, g.Done) {fuel : Nat} {alone : List Job → World} (ha : ∀ js ∈ jobs, runJobs fuel js w0 = (.ok (), alone js)) :
    s.gs.length = jobs.length ∧ ∀ (i : Nat) (g : G) (js : List Job), s.gs[i]? = some g → jobs[i]? = some js →
      Merged (∀ c, (w0.conns c).closed = false) ⟨[g], alone js⟩ := by
  obtain ⟨ht, hl⟩ := track_exec hm apart sched s hs
  refine ⟨hl, fun i g js hg hj => ?_⟩
  obtain ⟨g', v, hg', hsolo, _⟩ := ht i js hj
  rw [hg] at hg'
  injection hg' with hg'
  subst hg'
  obtain ⟨a, hr⟩ := solo_jobs (ha js (List.mem_of_getElem? hj))
  have he := solo_unique ⟨_, hsolo⟩ hr (hdone g (List.mem_of_getElem? hg)) (by simp [G.Done, G.new])
  injection he with _ he
  subst he
  exact solo_merged h0 js _ hsolo

theorem flatMap_congr_idx {α β γ : Type} {f : α → List γ} {h : β → List γ} : ∀ {as : List α} {bs : List β}, as.length = bs.length →
    (∀ (i : Nat) (a : α) (b : β), as[i]? = some a → bs[i]? = some b → f a = h b) → as.flatMap f = bs.flatMap h
  | [], [], _, _ => rfl
  | a :: as, b :: bs, hl, he => by
    rw [List.flatMap_cons, List.flatMap_cons, he 0 a b rfl rfl,
      flatMap_congr_idx (by simpa using hl) (fun i x y hx hy => he (i + 1) x y (by simpa using hx) (by simpa using hy))]

theorem single {α β : Type} {f : α → List β} {g : α} {t : List β} (hp : t.Perm ([g].flatMap f)) (hsub : (f g).Sublist t) : t = f g := by
  have hlen : t.length = (f g).length := by simpa using hp.length_eq
  exact (hsub.eq_of_length hlen.symm).symm

/-- **C86, deliveries.**  When all goroutines are done, the endpoints have been handed exactly what the runs of the goroutines one by one
hand over (the runs of the model: `send`, `receive`, `receiveRef`, `sendControl`), and what comes from one goroutine is in its order.
Missing: as in `c86_alike_partial`. -/
theorem c86_deliveries_partial {w0 : World} (h0 : w0.trace = []) {jobs : List (List Job)} {m : Nat → Nat → Mode} (hm : Modes m w0)
    (apart : ∀ i js, jobs[i]? = some js → Apart (m i) js w0) {sched : List Nat} {s : Sys} (hs : (Sys.init w0 jobs).exec sched = some s)
    (hdone : ∀ g ∈ s.gs, g.Done) {fuel : Nat} {alone : List Job → World} (ha : ∀ js ∈ jobs, runJobs fuel js w0 = (.ok (), alone js)) :
    (deliveries (actsOf s.w.trace)).Perm (jobs.flatMap fun js => deliveries (actsOf (alone js).trace)) ∧
    ∀ js ∈ jobs, (deliveries (actsOf (alone js).trace)).Sublist (deliveries (actsOf s.w.trace)) := by
  obtain ⟨hl, hend⟩ := ends h0 hm apart hs hdone ha
  have hm := merged_exec h0 hs
  have heq : ∀ (i : Nat) (g : G) (js : List Job), s.gs[i]? = some g → jobs[i]? = some js →
      deliveries g.acts = deliveries (actsOf (alone js).trace) := fun i g js hg hj =>
    let m := hend i g js hg hj
    (single (f := fun g : G => deliveries g.acts) m.perm (m.sub g (by simp))).symm
  refine ⟨?_, fun js hjs => ?_⟩
  · rw [← flatMap_congr_idx hl heq]
    exact hm.perm
  · obtain ⟨i, hi, rfl⟩ := List.getElem_of_mem hjs
    have hg : s.gs[i]? = some (s.gs[i]'(by rw [hl]; exact hi)) := List.getElem?_eq_getElem _
    rw [← heq i _ _ hg (List.getElem?_eq_getElem hi)]
    exact hm.sub _ (List.getElem_mem _)

/-- **C86, everything.**  The same for deliveries, writes and references together, if no connection is closed, neither in the run nor in the
runs one by one. -/
theorem c86_all_partial {w0 : World} (h0 : w0.trace = []) (hopen : ∀ c, (w0.conns c).closed = false) {jobs : List (List Job)} {m : Nat → Nat → Mode} (hm : Modes m w0)
    (apart : ∀ i js, jobs[i]? = some js → Apart (m i) js w0) {sched : List Nat} {s : Sys} (hs : (Sys.init w0 jobs).exec sched = some s)
    (hdone : ∀ g ∈ s.gs, g.Done) {fuel : Nat} {alone : List Job → World} (ha : ∀ js ∈ jobs, runJobs fuel js w0 = (.ok (), alone js))
    (hc : ∀ c, Obs.closed c ∉ s.w.trace) (hca : ∀ js ∈ jobs, ∀ c, Obs.closed c ∉ (alone js).trace) :
    (actsOf s.w.trace).Perm (jobs.flatMap fun js => actsOf (alone js).trace) ∧
    ∀ js ∈ jobs, (actsOf (alone js).trace).Sublist (actsOf s.w.trace) := by
  have nil : ∀ t : List Obs, (∀ c, Obs.closed c ∉ t) → t.filter Obs.isClosed = [] := by
    intro t h
    rw [List.filter_eq_nil_iff]
    intro o ho
    cases o <;> simp [Obs.isClosed]
    exact h _ ho
  obtain ⟨hl, hend⟩ := ends h0 hm apart hs hdone ha
  obtain ⟨m1, m2, _⟩ := (merged_exec h0 hs).all hopen (nil _ hc)
  have heq : ∀ (i : Nat) (g : G) (js : List Job), s.gs[i]? = some g → jobs[i]? = some js →
      g.acts = actsOf (alone js).trace := fun i g js hg hj =>
    let m := (hend i g js hg hj).all hopen (nil _ (hca js (List.mem_of_getElem? hj)))
    (single (f := fun g : G => g.acts) m.1 (m.2.1 g (by simp))).symm
  refine ⟨?_, fun js hjs => ?_⟩
  · rw [← flatMap_congr_idx hl heq]
    exact m1
  · obtain ⟨i, hi, rfl⟩ := List.getElem_of_mem hjs
    have hg : s.gs[i]? = some (s.gs[i]'(by rw [hl]; exact hi)) := List.getElem?_eq_getElem _
    rw [← heq i _ _ hg (List.getElem?_eq_getElem hi)]
    exact m2 _ (List.getElem_mem _)

/-! ## All runs end -/

theorem length_eq_counts (m : Nat) (l : List Nat) (h : ∀ x ∈ l, x < m) : l.length = ((List.range m).map fun i => l.count i).sum := by
  induction l with
  | nil =>
    have : ∀ r : List Nat, (r.map fun i => List.count i ([] : List Nat)).sum = 0 := by
      intro r; induction r with
      | nil => rfl
      | cons x r ih => rw [List.map_cons, List.sum_cons, ih]; rfl
    rw [this]; rfl
  | cons x l ih =>
    have hx : x < m := h x (by simp)
    have hsum : ∀ (r : List Nat), r.Nodup → (r.map fun i => (x :: l).count i).sum = (r.map fun i => l.count i).sum + if x ∈ r then 1 else 0 := by
      intro r hr
      induction r with
      | nil => simp
      | cons y r ih' =>
        obtain ⟨hy, hr⟩ := List.nodup_cons.mp hr
        rw [List.map_cons, List.sum_cons, ih' hr, List.map_cons, List.sum_cons, List.count_cons]
        by_cases hxy : x = y
        · subst hxy
          rw [if_neg hy, if_pos (by simp), if_pos (by simp)]; omega
        · rw [if_neg (by simpa using hxy)]
          by_cases hxr : x ∈ r
          · rw [if_pos hxr, if_pos (by simp [hxr])]; omega
          · rw [if_neg hxr, if_neg (by simp [hxy, hxr])]; omega
    rw [List.length_cons, ih (fun y hy => h y (by simp [hy])), hsum _ List.nodup_range, if_pos (List.mem_range.mpr hx)]

theorem solo_stops {s : G × World} {K k : Nat} {t u : G × World} (h : solo s K = some t) (hd : t.1.Done) (hu : solo s k = some u) : k ≤ K := by
  rcases Nat.lt_or_ge K k with hlt | hge
  · obtain ⟨m, rfl⟩ := Nat.exists_eq_add_of_lt hlt
    rw [Nat.add_assoc, solo_add, h] at hu
    rw [Option.bind_some, Nat.add_comm, solo_add] at hu
    simp [solo, soloStep, hd] at hu
  · exact hge

/-- **C86, all runs end.**  If the jobs of each goroutine alone come to an end, then so do they together: schedules are bounded, and
when no goroutine can make a step, all are done. -/
theorem c86_ends_partial {w0 : World} {jobs : List (List Job)} {m : Nat → Nat → Mode} (hm : Modes m w0)
    (apart : ∀ i js, jobs[i]? = some js → Apart (m i) js w0)
    {fuel : Nat} {alone : List Job → World} (ha : ∀ js ∈ jobs, runJobs fuel js w0 = (.ok (), alone js)) :
    ∃ B, ∀ sched s, (Sys.init w0 jobs).exec sched = some s →
      sched.length ≤ B ∧ ((∀ i, s.step i = none) → ∀ g ∈ s.gs, g.Done) := by
  have hK : ∀ js ∈ jobs, ∃ K t, solo (G.new js, w0) K = some t ∧ t.1.Done := by
    intro js hjs
    obtain ⟨a, K, hK⟩ := solo_jobs (ha js hjs)
    exact ⟨K, _, hK, by simp [G.Done, G.new]⟩
  have hK' : ∃ K : Nat → Nat, ∀ i js, jobs[i]? = some js → ∃ t, solo (G.new js, w0) (K i) = some t ∧ t.1.Done := by
    refine ⟨fun i => if h : i < jobs.length then Classical.choose (hK jobs[i] (List.getElem_mem h)) else 0, fun i js hj => ?_⟩
    obtain ⟨hi, rfl⟩ := List.getElem?_eq_some_iff.mp hj
    simp only [dif_pos hi]
    exact Classical.choose_spec (hK jobs[i] (List.getElem_mem hi))
  obtain ⟨K, hK⟩ := hK'
  refine ⟨((List.range jobs.length).map K).sum, fun sched s hs => ?_⟩
  obtain ⟨ht, hl⟩ := track_exec hm apart sched s hs
  constructor
  · have hlt : ∀ x ∈ sched, x < jobs.length := by
      have hinv := Trace.invariant (step := Sys.step) (P := fun s => s.gs.length = jobs.length) (Q := fun _ => True)
      intro x hx
      obtain ⟨a, b, rfl⟩ := List.append_of_mem hx
      rw [Sys.exec, Trace.exec_append] at hs
      cases ht : Trace.exec Sys.step (Sys.init w0 jobs) a with
      | none => rw [ht] at hs; cases hs
      | some t =>
        rw [ht] at hs
        obtain ⟨m', hm', _⟩ := Trace.exec_cons hs
        have hlm := (track_exec hm apart a t ht).2
        simp only [Sys.step] at hm'
        cases hg : t.gs[x]? with
        | none => rw [hg] at hm'; cases hm'
        | some g =>
          rw [← hlm]
          exact (List.getElem?_eq_some_iff.mp hg).1
    rw [length_eq_counts jobs.length sched hlt]
    have hle : ∀ i ∈ List.range jobs.length, sched.count i ≤ K i := by
      intro i hi
      have hi := List.mem_range.mp hi
      obtain ⟨t, h1, h2⟩ := hK i jobs[i] (List.getElem?_eq_getElem hi)
      obtain ⟨g, v, _, h3, _⟩ := ht i jobs[i] (List.getElem?_eq_getElem hi)
      exact solo_stops h1 h2 h3
    generalize List.range jobs.length = rng at hle ⊢
    induction rng with
    | nil => simp
    | cons x rng ih =>
      simp only [List.map_cons, List.sum_cons]
      have := hle x (by simp)
      have := ih fun i hi => hle i (by simp [hi])
      omega
  · intro hstuck g hg
    obtain ⟨i, hi, rfl⟩ := List.getElem_of_mem hg
    have hij : i < jobs.length := by rw [← hl]; exact hi
    have hj : jobs[i]? = some jobs[i] := List.getElem?_eq_getElem hij
    obtain ⟨t, h1, h2⟩ := hK i _ hj
    obtain ⟨g, v, hgi, h3, _⟩ := ht i _ hj
    rw [List.getElem?_eq_getElem hi] at hgi
    injection hgi with hgi
    have hgo := c86_goes_on_partial hm apart hs hj
    rw [hstuck i] at hgo
    change solo (G.new jobs[i], w0) (sched.count i) = some (g, v) at h3
    have hk := solo_stops h1 h2 h3
    by_cases he : sched.count i = K i
    · rw [he, h1] at h3
      injection h3 with h3
      rw [hgi, ← show t.1 = g from by rw [h3]]
      exact h2
    · obtain ⟨m, hm⟩ := Nat.exists_eq_add_of_lt (Nat.lt_of_le_of_ne hk he)
      rw [hm, show sched.count i + m + 1 = (sched.count i + 1) + m by omega, solo_add] at h1
      cases hx : solo (G.new jobs[i], w0) (sched.count i + 1) with
      | none => rw [hx] at h1; cases h1
      | some y => rw [hx] at hgo; cases hgo

/-! ## Stacks that are apart -/

theorem solo_like {w0 : World} {js : List Job} {k : Nat} {g : G} {v : World} (h : solo (G.new js, w0) k = some (g, v)) : Like stranger w0 v := by
  induction k generalizing g v with
  | zero =>
    injection h with h
    injection h with _ h2
    subst h2
    exact (Like.refl _).weaken
  | succ k ih =>
    simp only [solo] at h
    cases hk : solo (G.new js, w0) k with
    | none => rw [hk] at h; cases h
    | some t =>
      obtain ⟨g1, v1⟩ := t
      rw [hk] at h
      obtain ⟨_, hst⟩ := soloStep_some h
      obtain ⟨⟨a, _, he⟩, _⟩ := stepG_effect hst
      exact (ih hk).trans he.like

/-- No enabled FrameDecoder in the chain. -/
def NoFrames (w : World) : Prop := ∀ i, i < w.n → (w.procs i).kind.isFrame = true → (w.procs i).enable = false

/-- No enabled StatCounter in the chain. -/
def NoStats (w : World) : Prop := ∀ i, i < w.n → (∃ tx rx, (w.procs i).kind = .stat tx rx) → (w.procs i).enable = false

/-- No Loopback in the chain. -/
def NoLoopback (w : World) : Prop := ∀ i, i < w.n → (w.procs i).kind ≠ .loopback

theorem NoFrames.like {w v : World} (h : NoFrames w) (hl : Like stranger w v) : NoFrames v := fun i hi hk => by
  rw [← hl.enable]; exact h i (by rw [hl.n]; exact hi) (by rw [(hl.kind i).isFrame]; exact hk)

theorem NoStats.like {w v : World} (h : NoStats w) (hl : Like stranger w v) : NoStats v := fun i hi hk => by
  rw [← hl.enable]; exact h i (by rw [hl.n]; exact hi) ((hl.kind i).symm.stat hk)

theorem NoLoopback.like {w v : World} (h : NoLoopback w) (hl : Like stranger w v) : NoLoopback v := fun i hi hk => by
  refine h i (by rw [hl.n]; exact hi) ?_
  have := hl.kind i
  rw [hk] at this
  cases hw : (w.procs i).kind <;> rw [hw] at this <;> simp [Kind.Sim] at this

theorem no_asks {w : World} (h : NoStats w) (g : G) : ¬ Asks g w := by
  simp only [Asks]
  split
  · rintro ⟨h0, hn, hk, he, _⟩
    rw [h _ (by omega) hk] at he
    cases he
  · exact id

/-- Every result satisfies `Q`. -/
def Post (Q : α → Prop) (m : GoM World α) : Prop := ∀ w a w', m w = (.ok a, w') → Q a

namespace Post
variable {Q : α → Prop}

theorem pure {a : α} (h : Q a) : Post Q (Pure.pure a : GoM World α) := fun _ _ _ e => by
  injection e with e _; injection e with e; subst e; exact h
theorem panic : Post Q (GoM.panic : GoM World α) := fun _ _ _ e => by injection e with e _; cases e
theorem bind {m : GoM World β} {f : β → GoM World α} (h : ∀ b, Post Q (f b)) : Post Q (m >>= f) := fun w a w' e => by
  obtain ⟨b, t, _, e⟩ := ok_bind e
  exact h b t a w' e
theorem ite {c : Prop} [Decidable c] {m n : GoM World α} (h1 : Post Q m) (h2 : Post Q n) : Post Q (if c then m else n) := by
  split <;> assumption

end Post

def Next.notUp : Next → Prop
  | .up _ => False
  | _ => True

theorem encodeDownN_post (ctx : Ctx) (b : List Byte) : Post Next.notUp (encodeDownN ctx b) :=
  .bind fun _ => .bind fun _ => .bind fun _ => .ite (.pure trivial) (.pure trivial)

theorem genericUpperN_post (en : Bool) (e : Option (Val → GoM St (Option Err))) (ctx : Ctx) : Post Next.notUp (genericUpperN en e ctx) := by
  refine .ite ?_ (.pure trivial)
  cases e with
  | none => exact .pure trivial
  | some e => exact .ite (.pure trivial) (.bind fun _ => .bind fun _ => .bind fun _ => .ite (.pure trivial) (.pure trivial))

theorem onUpperN_post (i : Nat) (p : Proc) (hp : p.kind ≠ .loopback) (ctx : Ctx) : Post Next.notUp (onUpperN i p ctx) := by
  obtain ⟨en, k⟩ := p
  cases k with
  | loopback => exact absurd rfl hp
  | base => exact .pure trivial
  | bytesCodec =>
    refine .ite ?_ (.pure trivial)
    cases ctx.msg <;> first | exact .pure trivial | exact encodeDownN_post _ _
  | stringCodec =>
    refine .ite ?_ (.pure trivial)
    cases ctx.msg <;> first | exact .pure trivial | exact encodeDownN_post _ _
  | jsonCodec m u =>
    refine .ite (.ite (.pure trivial) ?_) (.pure trivial)
    cases m ctx.msg <;> first | exact .pure trivial | exact encodeDownN_post _ _
  | genericCodec e d => exact genericUpperN_post _ _ _
  | gobCodec e d => exact genericUpperN_post en (some e) ctx
  | session =>
    refine .ite ?_ (.pure trivial)
    cases ctx.buf with
    | none => exact .pure trivial
    | some ub => exact .bind fun _ => .ite (.pure trivial) (.pure trivial)
  | frame c =>
    refine .bind fun _ => .ite (.pure trivial) (.ite ?_ (.pure trivial))
    cases ctx.buf with
    | none => exact .pure trivial
    | some ub => exact .bind fun _ => .pure trivial
  | stat tx rx =>
    refine .bind fun _ => .ite (.pure trivial) ?_
    cases ctx.buf with
    | none => exact .pure trivial
    | some ub => exact .ite (.bind fun _ => .bind fun _ => .pure trivial) (.bind fun _ => .pure trivial)
  | heartbeat =>
    refine .bind fun _ => .ite (.pure trivial) ?_
    cases ctx.buf with
    | none => exact .pure trivial
    | some ub => exact .bind fun _ => .pure trivial
  | loadBalancer =>
    refine .bind fun _ => .ite (.pure trivial) ?_
    cases ctx.buf with
    | none => exact .pure trivial
    | some ub => exact .bind fun _ => .pure trivial
  | filter fns tx rx => exact .ite (.bind fun _ => .ite (.bind fun _ => .pure trivial) (.pure trivial)) (.pure trivial)
  | forwarder fns tx rx => exact .ite (.bind fun _ => .ite (.bind fun _ => .pure trivial) (.pure trivial)) (.pure trivial)
  | echo => exact .pure trivial
  | discarder => exact .pure trivial
  | flow => exact .pure trivial

theorem Next.go_stack (pos : Nat) (g : G) (n : Next) : (n.go pos g).stack = g.stack := by cases n <;> rfl
theorem Next.go_jobs (pos : Nat) (g : G) (n : Next) : (n.go pos g).jobs = g.jobs := by cases n <;> rfl

/-- A step that does not work on a cache leaves no FrameDecoder waiting. -/
theorem stepG_stack {g g' : G} {w w' : World} (h : stepG g w = (.ok g', w')) (ht : ¬ Touches g w) : g'.stack = g.stack := by
  have one : ∀ {α : Type} {m : GoM World α} {f : α → G}, (m >>= fun x => Pure.pure (f x)) w = (.ok g', w') → (∀ x, (f x).stack = g.stack) →
      g'.stack = g.stack := by
    intro α m f h hf
    obtain ⟨x, t, _, h⟩ := ok_bind h
    injection h with h1 h2; injection h1 with h1; subst h1
    exact hf x
  cases hf : g.focus with
  | idle =>
    simp only [stepG, hf, idleStep] at h
    cases hj : g.jobs with
    | nil => rw [hj] at h; injection h with h1 h2; injection h1 with h1; subst h1; rfl
    | cons j js =>
      rw [hj] at h
      obtain ⟨r, t, _, h⟩ := ok_bind h
      cases r <;> (injection h with h1 h2; injection h1 with h1; subst h1; rfl)
  | ret ctx =>
    simp only [stepG, hf, retStep] at h
    cases hs : g.stack with
    | nil => rw [hs] at h; injection h with h1 h2; injection h1 with h1; subst h1; rfl
    | cons k st => exact absurd (by simp [Touches, hf, hs]) ht
  | call dir pos ctx =>
    simp only [stepG, hf, callStep] at h
    rw [bind_of_ok (get_apply w)] at h
    have triv : ∀ {x : G}, (Pure.pure x : GoM World G) w = (.ok g', w') → x.stack = g.stack → g'.stack = g.stack := by
      intro x h hx
      injection h with h1 h2; injection h1 with h1; subst h1; exact hx
    by_cases h0 : pos = 0
    · rw [if_pos h0] at h
      cases dir with
      | up => exact one h fun _ => rfl
      | down => exact triv h rfl
    · rw [if_neg h0] at h
      by_cases hn : pos > w.n
      · rw [if_pos hn] at h
        cases dir with
        | up => exact triv h rfl
        | down => exact one h fun _ => rfl
      · rw [if_neg hn] at h
        cases dir with
        | down => exact one h fun x => Next.go_stack _ _ _
        | up =>
          simp only at h
          by_cases hfr : (w.procs (pos - 1)).kind.isFrame = true
          · rw [if_pos hfr] at h
            simp only [frameStep] at h
            cases hc : ctx.conn with
            | none =>
              rw [hc, bind_of_panic (show useReference none w = (.panic, w) from rfl)] at h
              injection h with h _; cases h
            | some c =>
              rw [hc, bind_of_ok (show useReference (some c) w = (.ok (w.conns c).useRef, w) from rfl)] at h
              by_cases hr : (w.conns c).useRef = true
              · rw [if_pos hr] at h; exact triv h rfl
              · rw [if_neg hr] at h
                cases hb : ctx.buf with
                | none => rw [hb] at h; exact triv h rfl
                | some ub =>
                  rw [hb] at h
                  simp only at h
                  by_cases hen : (w.procs (pos - 1)).enable = true
                  · refine absurd ?_ ht
                    simp only [Touches, hf]
                    refine ⟨h0, by omega, hfr, hen, by rw [hb]; rfl, fun x hx => ?_⟩
                    rw [hc] at hx
                    injection hx with hx
                    subst hx
                    simpa using hr
                  · rw [if_neg hen] at h; exact triv h rfl
          · rw [if_neg hfr] at h
            exact one h fun x => Next.go_stack _ _ _

def Job.sends : Job → Prop
  | .send .. => True
  | .control .. => True
  | _ => False

def Focus.notUp : Focus → Prop
  | .call .up _ _ => False
  | _ => True

/-- A goroutine that only sends never calls upwards in a chain without Loopback. -/
theorem stepG_down {g g' : G} {w w' : World} (h : stepG g w = (.ok g', w')) (hl : NoLoopback w) (hs : g.stack = [])
    (hj : ∀ j ∈ g.jobs, j.sends) (hf : g.focus.notUp) : g'.focus.notUp ∧ ∀ j ∈ g'.jobs, j.sends := by
  cases hfo : g.focus with
  | idle =>
    simp only [stepG, hfo, idleStep] at h
    cases hjs : g.jobs with
    | nil => rw [hjs] at h; injection h with h1 h2; injection h1 with h1; subst h1; exact ⟨hf, hj⟩
    | cons j js =>
      rw [hjs] at h hj
      obtain ⟨r, t, hr, h⟩ := ok_bind h
      have hjj := hj j (by simp)
      cases r with
      | none =>
        injection h with h1 h2; injection h1 with h1; subst h1
        exact ⟨trivial, fun x hx => hj x (by simp [show x ∈ js from hx])⟩
      | some x =>
        injection h with h1 h2; injection h1 with h1; subst h1
        refine ⟨?_, fun x hx => hj x (by simp [show x ∈ js from hx])⟩
        obtain ⟨d, p, c⟩ := x
        have : d = .down := by
          cases j with
          | send conn data session =>
            injection hr with hr _; injection hr with hr; injection hr with hr; injection hr with hr; exact hr.symm
          | recv => exact hjj.elim
          | recvRef => exact hjj.elim
          | control i c tag =>
            simp only [Job.start] at hr
            rw [bind_of_ok (get_apply w)] at hr
            obtain ⟨_, _, _, hr1⟩ := ok_bind hr
            obtain ⟨_, _, _, hr2⟩ := ok_bind hr1
            injection hr2 with hr _; injection hr with hr; injection hr with hr; injection hr with hr; exact hr.symm
        subst this
        trivial
  | ret ctx =>
    simp only [stepG, hfo, retStep, hs] at h
    injection h with h1 h2; injection h1 with h1; subst h1
    exact ⟨trivial, hj⟩
  | call dir pos ctx =>
    cases dir with
    | up => rw [hfo] at hf; exact hf.elim
    | down =>
      simp only [stepG, hfo, callStep] at h
      rw [bind_of_ok (get_apply w)] at h
      by_cases h0 : pos = 0
      · rw [if_pos h0] at h
        injection h with h1 h2; injection h1 with h1; subst h1; exact ⟨trivial, hj⟩
      · rw [if_neg h0] at h
        by_cases hn : pos > w.n
        · rw [if_pos hn] at h
          obtain ⟨x, t, _, h⟩ := ok_bind h
          injection h with h1 h2; injection h1 with h1; subst h1; exact ⟨trivial, hj⟩
        · rw [if_neg hn] at h
          obtain ⟨x, t, hx, h⟩ := ok_bind h
          injection h with h1 h2; injection h1 with h1; subst h1
          have := onUpperN_post (pos - 1) _ (hl (pos - 1) (by omega)) ctx w x t hx
          refine ⟨?_, fun j hj' => hj j (by rwa [Next.go_jobs] at hj')⟩
          cases x <;> first | exact this.elim | trivial

theorem apart_of {o : Nat → Mode} {js : List Job} {w0 : World} (P : G → Prop) (h0 : P (G.new js))
    (hstep : ∀ g w g' w', Like stranger w0 w → P g → stepG g w = (.ok g', w') → P g')
    (hapart : ∀ g w, Like stranger w0 w → P g → ¬ Asks g w ∧ (Touches g w → (o g.spot).Fine g.hand)) : Apart o js w0 := by
  have key : ∀ k g v, solo (G.new js, w0) k = some (g, v) → P g := by
    intro k
    induction k with
    | zero =>
      intro g v h
      injection h with h
      injection h with h1 _
      subst h1
      exact h0
    | succ k ih =>
      intro g v h
      simp only [solo] at h
      cases hk : solo (G.new js, w0) k with
      | none => rw [hk] at h; cases h
      | some t =>
        obtain ⟨g1, v1⟩ := t
        rw [hk] at h
        exact hstep _ _ _ _ (solo_like hk) (ih _ _ hk) (soloStep_some h).2
  intro k g v h
  exact hapart g v (solo_like h) (key k g v h)

/-- Without enabled FrameDecoders and StatCounters everybody is apart. -/
theorem apart_plain {w0 : World} (hf : NoFrames w0) (hs : NoStats w0) (o : Nat → Mode) (js : List Job) : Apart o js w0 := by
  have hnt : ∀ g w, Like stranger w0 w → g.stack = [] → ¬ Touches g w := by
    intro g w hl hst
    simp only [Touches]
    split
    · rintro ⟨h0, hn, hk, he, _⟩
      rw [hf.like hl _ (by omega) hk] at he
      cases he
    · simp [hst]
    · exact id
  refine apart_of (fun g => g.stack = []) rfl (fun g w g' w' hl hg hstep => ?_) fun g w hl hg =>
    ⟨no_asks (hs.like hl) g, fun ht => absurd ht (hnt g w hl hg)⟩
  rw [stepG_stack hstep (hnt g w hl hg), hg]

/-- Senders are apart in a chain without Loopback. -/
theorem apart_sender {w0 : World} (hl : NoLoopback w0) {o : Nat → Mode} {js : List Job} (hj : ∀ j ∈ js, j.sends) : Apart o js w0 := by
  have hnt : ∀ (g : G) w, g.stack = [] → g.focus.notUp → ¬ Touches g w := by
    intro g w hst hf
    simp only [Touches]
    split
    · rename_i h; rw [h] at hf; exact hf.elim
    · simp [hst]
    · exact id
  have hna : ∀ (g : G) w, g.focus.notUp → ¬ Asks g w := by
    intro g w hf
    simp only [Asks]
    split
    · rename_i h; rw [h] at hf; exact hf.elim
    · exact id
  refine apart_of (fun g => g.stack = [] ∧ g.focus.notUp ∧ ∀ j ∈ g.jobs, j.sends) ⟨rfl, trivial, hj⟩
    (fun g w g' w' hlk hg hstep => ?_) fun g w _ hg => ⟨hna g w hg.2.1, fun ht => absurd ht (hnt g w hg.1 hg.2.1)⟩
  obtain ⟨h1, h2, h3⟩ := hg
  obtain ⟨h4, h5⟩ := stepG_down hstep (hl.like hlk) h1 h3 h2
  exact ⟨by rw [stepG_stack hstep (hnt g w h1 h2), h1], h4, h5⟩

/-- The goroutine that owns the caches is apart without enabled StatCounters. -/
theorem apart_owner {w0 : World} (hs : NoStats w0) (js : List Job) : Apart owner js w0 :=
  apart_of (fun _ => True) trivial (fun _ _ _ _ _ _ _ => trivial) fun g _ hl _ => ⟨no_asks (hs.like hl) g, fun _ => trivial⟩

/-! ## Two stacks for the examples -/

/-- bytes codec, session resolver, FrameDecoder (CacheCapacity 16, MTU 16) -/
def sharing : World :=
  { quiet with
    overhead := 8
    n := 3
    procs := fun j => match j with
      | 0 => ⟨true, .bytesCodec⟩
      | 1 => ⟨true, .session⟩
      | _ => ⟨true, .frame (some (rxBuf []))⟩ }

/-- bytes codec, session resolver, heartbeat -/
def beating : World :=
  { quiet with
    n := 3
    procs := fun j => match j with
      | 0 => ⟨true, .bytesCodec⟩
      | 1 => ⟨true, .session⟩
      | _ => ⟨true, .heartbeat⟩ }

/-- bytes codec, StatCounter -/
def counting : World :=
  { quiet with
    mtu := 64
    overhead := 1
    n := 2
    procs := fun j => match j with
      | 0 => ⟨true, .bytesCodec⟩
      | _ => ⟨true, .stat 0 0⟩ }

/-- What has happened when the goroutines are done. -/
def outcome (w : World) (jobs : List (List Job)) (sched : List Nat) : Option (List Act) :=
  match (Sys.init w jobs).exec sched with
  | none => none
  | some s => if ∀ g ∈ s.gs, g.Done then some (actsOf s.w.trace) else none

theorem outcome_run {w : World} {jobs : List (List Job)} {sched : List Nat} {as : List Act} (h : outcome w jobs sched = some as) :
    ∃ s, (Sys.init w jobs).exec sched = some s ∧ (∀ g ∈ s.gs, g.Done) ∧ actsOf s.w.trace = as := by
  simp only [outcome] at h
  split at h
  · cases h
  · rename_i s hs
    split at h
    · rename_i hd
      injection h with h
      exact ⟨s, hs, hd, h⟩
    · cases h

/-- All jobs of all goroutines come to an end when each goroutine is left alone. -/
def finish (fuel : Nat) (w : World) (jobs : List (List Job)) : Bool := jobs.all fun js =>
  match (runJobs fuel js w).1 with
  | .ok _ => true
  | _ => false

theorem finish_alone {fuel : Nat} {w : World} {jobs : List (List Job)} (h : finish fuel w jobs = true) :
    ∀ js ∈ jobs, runJobs fuel js w = (.ok (), (runJobs fuel js w).2) := by
  intro js hjs
  have := List.all_eq_true.mp h js hjs
  rcases hr : runJobs fuel js w with ⟨r, w'⟩
  rw [hr] at this
  cases r <;> simp_all

/-- One goroutine owns all caches, the others do not use them. -/
theorem one_owner (r : Nat) (w : World) : Modes (fun i => if i = r then owner else stranger) w := by
  refine ⟨fun i j p hij => ?_, fun i p cap c h _ => ?_⟩
  · by_cases h1 : i = r
    · rw [if_pos h1, if_neg (fun h2 => hij (h1.trans h2.symm))]; trivial
    · rw [if_neg h1]
      by_cases h2 : j = r
      · rw [if_pos h2]; trivial
      · rw [if_neg h2]; trivial
  · by_cases h1 : i = r
    · rw [if_pos h1] at h; cases h
    · rw [if_neg h1] at h; cases h

/-- **C86 for stacks without FrameDecoder**: any goroutines, receiving or sending. -/
theorem c86_plain {w0 : World} (hf : NoFrames w0) (hst : NoStats w0) (h0 : w0.trace = []) {jobs : List (List Job)}
    {sched : List Nat} {s : Sys} (hs : (Sys.init w0 jobs).exec sched = some s)
    (hdone : ∀ g ∈ s.gs, g.Done) {fuel : Nat} {alone : List Job → World} (ha : ∀ js ∈ jobs, runJobs fuel js w0 = (.ok (), alone js)) :
    (deliveries (actsOf s.w.trace)).Perm (jobs.flatMap fun js => deliveries (actsOf (alone js).trace)) ∧
    ∀ js ∈ jobs, (deliveries (actsOf (alone js).trace)).Sublist (deliveries (actsOf s.w.trace)) :=
  c86_deliveries_partial h0 (one_owner 0 w0) (fun i js _ => apart_plain hf hst _ js) hs hdone ha

/-- **C86 for one connection**: one goroutine receives (whatever and however it is cut into reads), all others send. -/
theorem c86_one_receiver {w0 : World} (hlb : NoLoopback w0) (hst : NoStats w0) (h0 : w0.trace = []) {jobs : List (List Job)} {r : Nat}
    (hsend : ∀ i js, jobs[i]? = some js → i ≠ r → ∀ j ∈ js, j.sends)
    {sched : List Nat} {s : Sys} (hs : (Sys.init w0 jobs).exec sched = some s)
    (hdone : ∀ g ∈ s.gs, g.Done) {fuel : Nat} {alone : List Job → World} (ha : ∀ js ∈ jobs, runJobs fuel js w0 = (.ok (), alone js)) :
    (deliveries (actsOf s.w.trace)).Perm (jobs.flatMap fun js => deliveries (actsOf (alone js).trace)) ∧
    ∀ js ∈ jobs, (deliveries (actsOf (alone js).trace)).Sublist (deliveries (actsOf s.w.trace)) := by
  refine c86_deliveries_partial h0 (one_owner r w0) (fun i js hi => ?_) hs hdone ha
  by_cases hr : i = r
  · simp only [if_pos hr]
    exact apart_owner hst js
  · exact apart_sender hlb (hsend i js hi hr)

/-! ## Examples -/

theorem beating_plain : NoFrames beating ∧ NoStats beating := by
  constructor
  · intro i hi hk
    have : i = 0 ∨ i = 1 ∨ i = 2 := by have : i < 3 := hi; omega
    rcases this with rfl | rfl | rfl <;> cases hk
  · rintro i hi ⟨_, _, hk⟩
    have : i = 0 ∨ i = 1 ∨ i = 2 := by have : i < 3 := hi; omega
    rcases this with rfl | rfl | rfl <;> cases hk

theorem sharing_plain : NoLoopback sharing ∧ NoStats sharing := by
  constructor
  · intro i hi hk
    have : i = 0 ∨ i = 1 ∨ i = 2 := by have : i < 3 := hi; omega
    rcases this with rfl | rfl | rfl <;> cases hk
  · rintro i hi ⟨_, _, hk⟩
    have : i = 0 ∨ i = 1 ∨ i = 2 := by have : i < 3 := hi; omega
    rcases this with rfl | rfl | rfl <;> cases hk

def busy : List (List Job) :=
  [[.recv 0 [0, 0, 0, 0, 3, 9]], [.recv 1 [0, 0, 0, 0, 3, 8], .recv 1 [0x83]], [.send (some 0) (.bytes [4]) 3], [.control 2 1 0x83]]

def busySched : List Nat := [0, 1, 2, 3, 0, 1, 2, 3, 0, 1, 2, 3, 0, 1, 2, 0, 1, 2, 0, 1, 2, 1, 1, 1]

def busyActs : List Act :=
  [.write 1 [0x83], .deliver 7 (some 0) (.bytes [9]), .deliver 7 (some 1) (.bytes [8]), .write 0 [0, 0, 0, 0, 3, 4]]

/-- Two connections receive, an endpoint sends, a heartbeat goes out: step by step in turn. -/
example : ∃ s, (Sys.init beating busy).exec busySched = some s ∧ (∀ g ∈ s.gs, g.Done) ∧ actsOf s.w.trace = busyActs ∧
    (deliveries (actsOf s.w.trace)).Perm ([.deliver 7 (some 0) (.bytes [9]), .deliver 7 (some 1) (.bytes [8])]) := by
  obtain ⟨s, h1, h2, h3⟩ := outcome_run (show outcome beating busy busySched = some busyActs by decide +kernel)
  refine ⟨s, h1, h2, h3, ?_⟩
  have := (c86_plain beating_plain.1 beating_plain.2 rfl h1 h2 (fuel := 9) (finish_alone (by decide +kernel))).1
  rw [show (busy.flatMap fun js => deliveries (actsOf (runJobs 9 js beating).2.trace)) =
    [.deliver 7 (some 0) (.bytes [9]), .deliver 7 (some 1) (.bytes [8])] by decide +kernel] at this
  exact this

def crowd : List (List Job) :=
  [[.recv 0 [0, 0, 0, 5, 0, 0, 0, 3, 9]], [.send (some 0) (.bytes [4]) 3], [.send (some 0) (.bytes [5]) 3]]

def crowdSched : List Nat := [0, 1, 2, 0, 1, 2, 0, 1, 2, 0, 1, 2, 0, 1, 2, 0, 1, 2, 0, 0]

def crowdActs : List Act :=
  [.deliver 7 (some 0) (.bytes [9]), .write 0 [0, 0, 0, 5, 0, 0, 0, 3, 4], .write 0 [0, 0, 0, 5, 0, 0, 0, 3, 5]]

/-- One connection receives, two endpoints send. -/
example : ∃ s, (Sys.init sharing crowd).exec crowdSched = some s ∧ (∀ g ∈ s.gs, g.Done) ∧ actsOf s.w.trace = crowdActs ∧
    (deliveries (actsOf s.w.trace)).Perm ([.deliver 7 (some 0) (.bytes [9])]) := by
  obtain ⟨s, h1, h2, h3⟩ := outcome_run (show outcome sharing crowd crowdSched = some crowdActs by decide +kernel)
  refine ⟨s, h1, h2, h3, ?_⟩
  have := (c86_one_receiver (r := 0) sharing_plain.1 sharing_plain.2 rfl (by
    intro i js hi hr j hj
    have : i = 1 ∨ i = 2 := by
      have : i < 3 := (List.getElem?_eq_some_iff.mp hi).1
      omega
    rcases this with rfl | rfl <;> (injection hi with hi; subst hi; rcases List.mem_singleton.mp hj with rfl; trivial))
    h1 h2 (fuel := 9) (finish_alone (by decide +kernel))).1
  rw [show (crowd.flatMap fun js => deliveries (actsOf (runJobs 9 js sharing).2.trace)) = [.deliver 7 (some 0) (.bytes [9])] by
    decide +kernel] at this
  exact this

/-! ## What is missing -/

/-- **C86 fails for two connections behind one FrameDecoder** whose cache a read can fill (CacheCapacity at most the MTU): connection 0
brings the first part of a long frame, connection 1 a complete message.  Alone the message of connection 1 arrives; together it is lost. -/
theorem c86_mixed : (outcome sharing [[.recv 1 [0, 0, 0, 5, 0, 0, 0, 3, 9]]] (List.replicate 8 0) = some [.deliver 7 (some 1) (.bytes [9])]) ∧
    (outcome sharing [[.recv 0 [0, 0, 0, 20, 0, 0, 0, 3, 1, 2, 3, 4, 5, 6, 7, 8]]] (List.replicate 4 0) = some []) ∧
    outcome sharing [[.recv 0 [0, 0, 0, 20, 0, 0, 0, 3, 1, 2, 3, 4, 5, 6, 7, 8]], [.recv 1 [0, 0, 0, 5, 0, 0, 0, 3, 9]]]
      (List.replicate 2 0 ++ List.replicate 4 1 ++ List.replicate 2 0) = some [] := by
  decide +kernel

/-- **A statistics request reports what the others do**: the answer to connection 0 is a different one when another goroutine has sent. -/
theorem c86_counted : (outcome counting [[.recv 0 [0x10]]] (List.replicate 4 0) =
      some [.write 0 [0x23, 0, 0, 0, 0, 0, 0, 0, 0, 0, 0, 0, 0, 0, 0, 0, 0, 117]]) ∧
    outcome counting [[.recv 0 [0x10]], [.send (some 1) (.bytes [1]) 3]] (List.replicate 5 1 ++ List.replicate 4 0) =
      some [.write 1 [0, 1], .write 0 [0x23, 0, 0, 0, 0, 0, 0, 0, 1, 0, 0, 0, 0, 0, 0, 0, 0, 117]] := by
  decide +kernel

end Verif.Stack
