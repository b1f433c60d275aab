import Verif.Stack.Machine
import Verif.Stack.Keeps
import Verif.Stack.Buf
import Verif.Trace

/-!
# Goroutines working on messages at the same time (C86)

Any number of goroutines of `Stack.Machine` share a world; a step of the system is a step of one of them.  `Like` relates two
worlds that a goroutine cannot tell apart: the counters of StatCounter, Filter and Forwarder, closed flags, the
trace and, for all goroutines but one, the caches of the FrameDecoders are left out.

Simplification: a hop (the part of a handler between two calls) is one step.  What a hop works on is private to the
goroutine (context and buffer), never changes while the stack runs (configuration), or is a counter that no hop
reads except to answer a statistics request.
-/

namespace Verif.Stack
open UBuf (St Err Heap WriteRes ReadRes)
open GoM

/-- How a goroutine stands to the cache of a FrameDecoder. -/
inductive Mode where
  /-- nobody else uses it -/
  | own
  /-- it does not use it -/
  | foreign
  /-- everybody uses it, and it is always empty between two steps -/
  | rest (cap : Nat)

/-- A cache of this capacity that holds nothing (proc_frame_decoder.go:205). -/
def AtRest (cap : Nat) (c : Option St) : Prop := ∃ s, c = some s ∧ Buf s (UBuf.Deque.fresh cap 0)

/-- The caches in two worlds that the goroutine cannot tell apart. -/
def Mode.Rel : Mode → Option St → Option St → Prop
  | .own, c, c' => c = c'
  | .foreign, _, _ => True
  | .rest cap, c, c' => AtRest cap c ∧ AtRest cap c'

theorem Mode.Rel.symm {m : Mode} {a b : Option St} (h : m.Rel a b) : m.Rel b a := by
  cases m with
  | own => exact Eq.symm h
  | foreign => trivial
  | rest cap => exact ⟨h.2, h.1⟩

theorem Mode.Rel.trans {m : Mode} {a b c : Option St} (h : m.Rel a b) (h' : m.Rel b c) : m.Rel a c := by
  cases m with
  | own => exact Eq.trans h h'
  | foreign => trivial
  | rest cap => exact ⟨h.1, h'.2⟩

/-- The same processor up to counters and the cache. -/
def Kind.Sim (o : Mode) : Kind → Kind → Prop
  | .frame c, .frame c' => o.Rel c c'
  | .stat _ _, .stat _ _ => True
  | .filter f _ _, .filter g _ _ => f = g
  | .forwarder f _ _, .forwarder g _ _ => f = g
  | k, k' => k = k'

theorem Kind.Sim.refl (k : Kind) : k.Sim .own k := by cases k <;> simp [Kind.Sim, Mode.Rel]

theorem Kind.Sim.refl' (k : Kind) : k.Sim .foreign k := by cases k <;> simp [Kind.Sim, Mode.Rel]

theorem Kind.Sim.trans {o : Mode} {a b c : Kind} (h1 : a.Sim o b) (h2 : b.Sim o c) : a.Sim o c := by
  cases a <;> cases b <;> simp_all [Kind.Sim] <;> cases c <;> simp_all [Kind.Sim]
  exact h1.trans h2

theorem Kind.Sim.symm {o : Mode} {a b : Kind} (h : a.Sim o b) : b.Sim o a := by
  cases a <;> cases b <;> simp_all [Kind.Sim]
  exact h.symm

theorem Kind.Sim.via {o : Mode} {a b c : Kind} (h1 : a.Sim .own b) (h2 : b.Sim o c) : a.Sim o c := by
  cases a <;> cases b <;> simp_all [Kind.Sim, Mode.Rel] <;> cases c <;> simp_all [Kind.Sim]

theorem Kind.Same.sim {a b : Kind} (h : a.Same b) : a.Sim .foreign b := by
  cases a <;> cases b <;> simp_all [Kind.Sim, Kind.Same, Mode.Rel]

theorem Kind.Same.sim_of {o : Mode} {a b : Kind} (h : a.Same b) (hf : a.isFrame = false) : a.Sim o b := by
  cases a <;> cases b <;> simp_all [Kind.Sim, Kind.Same, Kind.isFrame]

theorem Kind.Sim.weaken {o : Mode} {a b : Kind} (h : a.Sim o b) : a.Sim .foreign b := by
  cases a <;> cases b <;> simp_all [Kind.Sim, Mode.Rel]

theorem Kind.Sim.isFrame {o : Mode} {a b : Kind} (h : a.Sim o b) : a.isFrame = b.isFrame := by
  cases a <;> cases b <;> simp_all [Kind.Sim, Kind.isFrame]

/-- Two worlds a goroutine cannot tell apart; `o`: how it stands to each FrameDecoder. -/
structure Like (o : Nat → Mode) (w v : World) : Prop where
  mtu : w.mtu = v.mtu
  overhead : w.overhead = v.overhead
  name : w.name = v.name
  n : w.n = v.n
  served : w.served = v.served
  useRef : ∀ c, (w.conns c).useRef = (v.conns c).useRef
  enable : ∀ i, (w.procs i).enable = (v.procs i).enable
  kind : ∀ i, (w.procs i).kind.Sim (o i) (v.procs i).kind
  write : w.write = v.write

/-- The owner of all caches, -/
abbrev owner : Nat → Mode := fun _ => .own
/-- and the one who uses none. -/
abbrev stranger : Nat → Mode := fun _ => .foreign

theorem Like.refl (w : World) : Like owner w w :=
  ⟨rfl, rfl, rfl, rfl, rfl, fun _ => rfl, fun _ => rfl, fun _ => .refl _, rfl⟩

theorem Like.trans {o : Nat → Mode} {a b c : World} (h1 : Like o a b) (h2 : Like o b c) : Like o a c :=
  ⟨h1.mtu.trans h2.mtu, h1.overhead.trans h2.overhead, h1.name.trans h2.name, h1.n.trans h2.n, h1.served.trans h2.served,
    fun x => (h1.useRef x).trans (h2.useRef x), fun x => (h1.enable x).trans (h2.enable x), fun x => (h1.kind x).trans (h2.kind x),
    h1.write.trans h2.write⟩

theorem Like.symm {o : Nat → Mode} {a b : World} (h : Like o a b) : Like o b a :=
  ⟨h.mtu.symm, h.overhead.symm, h.name.symm, h.n.symm, h.served.symm, fun x => (h.useRef x).symm, fun x => (h.enable x).symm,
    fun x => (h.kind x).symm, h.write.symm⟩

theorem Like.weaken {o : Nat → Mode} {a b : World} (h : Like o a b) : Like stranger a b :=
  ⟨h.mtu, h.overhead, h.name, h.n, h.served, h.useRef, h.enable, fun x => (h.kind x).weaken, h.write⟩

/-- Worlds with the same caches can be exchanged. -/
theorem Like.via {o : Nat → Mode} {w w' v : World} (h : Like owner w w') (hl : Like o w v) : Like o w' v :=
  ⟨h.mtu.symm.trans hl.mtu, h.overhead.symm.trans hl.overhead, h.name.symm.trans hl.name, h.n.symm.trans hl.n,
    h.served.symm.trans hl.served, fun x => (h.useRef x).symm.trans (hl.useRef x), fun x => (h.enable x).symm.trans (hl.enable x),
    fun x => (h.kind x).symm.via (hl.kind x), h.write.symm.trans hl.write⟩

theorem Like.both {o : Nat → Mode} {w w' v v' : World} (h : Like o w v) (h1 : Like owner w w') (h2 : Like owner v v') : Like o w' v' :=
  (h2.via (h1.via h).symm).symm

theorem Like.set {o : Nat → Mode} {w v : World} (h : Like o w v) (i : Nat) {k k' : Kind} (hk : k.Sim (o i) k') :
    Like o (w.setKind i k) (v.setKind i k') := by
  refine ⟨h.mtu, h.overhead, h.name, h.n, h.served, h.useRef, fun j => ?_, fun j => ?_, h.write⟩
  · simp only [World.setKind]; split <;> exact h.enable j
  · simp only [World.setKind]; split
    · rename_i hj; subst hj; exact hk
    · exact h.kind j

theorem Evolves.like {w w' : World} (h : Evolves w w') : Like stranger w w' :=
  ⟨h.mtu.symm, h.overhead.symm, h.name.symm, h.n.symm, h.served.symm, fun c => (h.useRef c).symm, fun i => (h.enable i).symm,
    fun i => (h.kind i).sim, h.write.symm⟩

/-! ## What a hop does to the world -/

/-- The act an observation stands for. -/
def Obs.act? : Obs → Option Act
  | .rx ep c v => some (.deliver ep c v)
  | .wire c p _ => some (.write c p)
  | .ref c v => some (.ref c v)
  | _ => none

def Obs.isClosed : Obs → Bool
  | .closed _ => true
  | _ => false

/-- What happened, without closings, heartbeats and printed statistics. -/
def actsOf (tr : List Obs) : List Act := tr.filterMap Obs.act?

/-- Only the state of one processor changes. -/
structure OnlyAt (i : Nat) (w w' : World) : Prop where
  mtu : w.mtu = w'.mtu
  overhead : w.overhead = w'.overhead
  name : w.name = w'.name
  n : w.n = w'.n
  served : w.served = w'.served
  conns : w.conns = w'.conns
  enable : (w.procs i).enable = (w'.procs i).enable
  kind : (w.procs i).kind.Same (w'.procs i).kind
  procs : ∀ j, j ≠ i → w.procs j = w'.procs j
  acts : actsOf w.trace = actsOf w'.trace
  closed : w.trace.filter Obs.isClosed = w'.trace.filter Obs.isClosed
  write : w.write = w'.write

theorem OnlyAt.allows (i : Nat) : Allows (OnlyAt i) (· = i) where
  refl w := ⟨rfl, rfl, rfl, rfl, rfl, rfl, rfl, .refl _, fun _ _ => rfl, rfl, rfl, rfl⟩
  trans h1 h2 := ⟨h1.mtu.trans h2.mtu, h1.overhead.trans h2.overhead, h1.name.trans h2.name, h1.n.trans h2.n,
    h1.served.trans h2.served, h1.conns.trans h2.conns, h1.enable.trans h2.enable, h1.kind.trans h2.kind,
    fun j hj => (h1.procs j hj).trans (h2.procs j hj), h1.acts.trans h2.acts, h1.closed.trans h2.closed,
    h1.write.trans h2.write⟩
  set w j k hj h := by
    subst hj
    refine ⟨rfl, rfl, rfl, rfl, rfl, rfl, ?_, ?_, fun x hx => ?_, rfl, rfl, rfl⟩ <;> simp [World.setKind]
    · exact h
    · intro h; exact absurd h hx
  beat w j c _ := ⟨rfl, rfl, rfl, rfl, rfl, rfl, rfl, .refl _, fun _ _ => rfl, by simp [actsOf, Obs.act?], by simp [Obs.isClosed], rfl⟩
  shown w j t r n _ := ⟨rfl, rfl, rfl, rfl, rfl, rfl, rfl, .refl _, fun _ _ => rfl, by simp [actsOf, Obs.act?], by simp [Obs.isClosed], rfl⟩

theorem OnlyAt.like {i : Nat} {w w' : World} (h : OnlyAt i w w') : Like stranger w w' := by
  refine ⟨h.mtu, h.overhead, h.name, h.n, h.served, fun c => by rw [h.conns], fun j => ?_, fun j => ?_, h.write⟩ <;> by_cases hj : j = i
  · subst hj; exact h.enable
  · rw [h.procs j hj]
  · subst hj; exact h.kind.sim
  · rw [h.procs j hj]; exact .refl' _

theorem OnlyAt.like_of {i : Nat} {w w' : World} (h : OnlyAt i w w') (hf : (w.procs i).kind.isFrame = false) : Like owner w w' := by
  refine ⟨h.mtu, h.overhead, h.name, h.n, h.served, fun c => by rw [h.conns], fun j => ?_, fun j => ?_, h.write⟩ <;> by_cases hj : j = i
  · subst hj; exact h.enable
  · rw [h.procs j hj]
  · subst hj; exact h.kind.sim_of hf
  · rw [h.procs j hj]; exact .refl _

/-- Neighbours that return at once. -/
def nbPure : Nb := ⟨fun c => Pure.pure c, fun c => Pure.pure c, fun c => Pure.pure c⟩

theorem dispatch_pure (n : Next) : dispatch nbPure n = Pure.pure (match n with
    | .stop c => c
    | .up c => c
    | .down c => c
    | .upDown c => c) := by cases n <;> rfl

theorem bind_world {σ α β : Type _} (m : GoM σ α) (f : α → GoM σ β) (hf : ∀ a t, (f a t).2 = t) (s : σ) : ((m >>= f) s).2 = (m s).2 := by
  rw [bind_apply]
  rcases m s with ⟨r, t⟩
  cases r with
  | ok a => exact hf a t
  | _ => rfl

theorem onUpperN_local (i : Nat) (ctx : Ctx) (w : World) : OnlyAt i w (onUpperN i (w.procs i) ctx w).2 := by
  have h := onUpper_keeps (OnlyAt.allows i) rfl (w := w) (p := w.procs i) (nb := nbPure) rfl (fun _ _ => .pure (OnlyAt.allows i) _)
    (fun _ _ => .pure (OnlyAt.allows i) _) (fun _ _ => .pure (OnlyAt.allows i) _) ctx
  rw [onUpper_hop, bind_world _ _ (fun a t => by rw [dispatch_pure]; rfl)] at h
  exact h

theorem onLowerN_local (i : Nat) (ctx : Ctx) (w : World) (hf : (w.procs i).kind.isFrame = false) :
    OnlyAt i w (onLowerN i (w.procs i) ctx w).2 := by
  have h := onLower_keeps (OnlyAt.allows i) rfl 0 (w := w) (p := w.procs i) (nb := nbPure) rfl
    (fun _ _ _ => .pure (OnlyAt.allows i) _) (fun _ _ => .pure (OnlyAt.allows i) _) ctx
  rw [onLower_hop _ _ _ _ _ hf, bind_world _ _ (fun a t => by rw [dispatch_pure]; rfl)] at h
  exact h

theorem curIter_local (i : Nat) (first : Bool) (ctx : Ctx) (ub : St) (w : World) : OnlyAt i w (curIter i first ctx ub w).2 := by
  have h := Kp.currentLoop (OnlyAt.allows i) (i := i) rfl (nb := nbPure) (fun _ => .pure (OnlyAt.allows i) _) 1 first ctx ub w
  rw [currentLoop_hop, bind_world _ _ (fun a t => by cases a <;> rfl)] at h
  exact h

theorem currentN_local (i : Nat) (ctx : Ctx) (ub : St) (w : World) : OnlyAt i w (currentN i ctx ub w).2 := by
  have h := Kp.handleCurrent (OnlyAt.allows i) (i := i) rfl (nb := nbPure) (fun _ => .pure (OnlyAt.allows i) _) 1 ctx ub w
  rw [handleCurrent_hop, bind_world _ _ (fun a t => by cases a <;> rfl)] at h
  exact h

theorem cachedIter_local (i : Nat) (ctx : Ctx) (w : World) : OnlyAt i w (cachedIter i ctx w).2 := by
  have h := Kp.handleCached (OnlyAt.allows i) (i := i) rfl (nb := nbPure) (fun _ => .pure (OnlyAt.allows i) _) 1 ctx w
  rw [handleCached_hop, bind_world _ _ (fun a t => by cases a <;> rfl)] at h
  exact h

/-! ## A hop cannot tell the two worlds apart -/

/-- Two computations with the same results on alike worlds. -/
def Two (o : Nat → Mode) (m m' : GoM World α) : Prop :=
  ∀ w v, Like o w v → (m w).1 = (m' v).1 ∧ Like o (m w).2 (m' v).2

namespace Two
variable {o : Nat → Mode}

theorem pure (a : α) : Two o (Pure.pure a : GoM World α) (Pure.pure a) := fun _ _ h => ⟨rfl, h⟩
theorem panic : Two o (GoM.panic : GoM World α) GoM.panic := fun _ _ h => ⟨rfl, h⟩

theorem bind {m m' : GoM World α} {f f' : α → GoM World β} (h : Two o m m') (hf : ∀ a, Two o (f a) (f' a)) :
    Two o (m >>= f) (m' >>= f') := by
  intro w v hl
  obtain ⟨h1, h2⟩ := h w v hl
  rw [bind_apply, bind_apply]
  rcases hm : m w with ⟨r, w'⟩
  rcases hm' : m' v with ⟨r', v'⟩
  rw [hm, hm'] at h1 h2
  simp only at h1 h2
  subst h1
  cases r with
  | ok a => exact hf a w' v' h2
  | panic => exact ⟨rfl, h2⟩
  | running => exact ⟨rfl, h2⟩

theorem get {f f' : World → GoM World α} (h : ∀ w v, Like o w v → Two o (f w) (f' v)) : Two o (GoM.get >>= f) (GoM.get >>= f') :=
  fun w v hl => h w v hl w v hl

theorem ite {c : Prop} [Decidable c] {m m' n n' : GoM World α} (h1 : Two o m m') (h2 : Two o n n') :
    Two o (if c then m else n) (if c then m' else n') := by split <;> assumption

theorem onBuf (s : St) (m : GoM St α) : Two o (Stack.onBuf s m) (Stack.onBuf s m) := by
  intro w v h
  simp only [Stack.onBuf]
  split <;> exact ⟨rfl, h⟩

theorem allocBuf (a b : Int) : Two o (Stack.allocBuf a b) (Stack.allocBuf a b) := fun _ _ h => ⟨rfl, h⟩

theorem useReference (c : Option ConnId) : Two o (Stack.useReference c) (Stack.useReference c) := by
  intro w v h
  cases c with
  | none => exact ⟨rfl, h⟩
  | some c => exact ⟨by simp [Stack.useReference, h.useRef c], h⟩

theorem setKind (i : Nat) {k k' : Kind} (h : k.Sim (o i) k') : Two o (Stack.setKind i k) (Stack.setKind i k') :=
  fun _ _ hl => ⟨rfl, hl.set i h⟩

theorem observe (b : Obs) : Two o (Stack.observe b) (Stack.observe b) :=
  fun _ _ h => ⟨rfl, h.mtu, h.overhead, h.name, h.n, h.served, h.useRef, h.enable, h.kind, h.write⟩

theorem check (b : Bool) : Two o (GoM.check b) (GoM.check b) := by
  intro w v h
  cases b <;> exact ⟨rfl, h⟩

theorem doFns (up : Bool) (fns : List (Option Fn)) (ctx : Ctx) : Two o (Stack.doFns up fns ctx) (Stack.doFns up fns ctx) := by
  induction fns generalizing ctx with
  | nil => exact .pure _
  | cons f fns ih =>
    cases f with
    | none => exact .panic
    | some f =>
      simp only [Stack.doFns]
      exact .ite (.pure _) (ih _)

theorem encodeDownN (ctx : Ctx) (b : List Byte) : Two o (Stack.encodeDownN ctx b) (Stack.encodeDownN ctx b) := by
  simp only [Stack.encodeDownN]
  refine .get fun w v h => ?_
  rw [h.mtu, h.overhead]
  exact .bind (.allocBuf _ _) fun _ => .bind (.onBuf _ _) fun _ => .ite (.pure _) (.pure _)

theorem genericUpperN (en : Bool) (e : Option (Val → GoM St (Option Err))) (ctx : Ctx) :
    Two o (Stack.genericUpperN en e ctx) (Stack.genericUpperN en e ctx) := by
  simp only [Stack.genericUpperN]
  refine .ite ?_ (.pure _)
  cases e with
  | none => exact .pure _
  | some e =>
    refine .ite (.pure _) (.get fun w v h => ?_)
    rw [h.mtu, h.overhead]
    exact .bind (.allocBuf _ _) fun _ => .bind (.onBuf _ _) fun _ => .ite (.pure _) (.pure _)

theorem tagDownN (t : Byte) (ctx : Ctx) (ub : St) : Two o (Stack.tagDownN t ctx ub) (Stack.tagDownN t ctx ub) :=
  .bind (.onBuf _ _) fun _ => .pure _

theorem onUpperN (i : Nat) (en : Bool) {k k' : Kind} (h : k.Sim (o i) k') (ctx : Ctx) :
    Two o (Stack.onUpperN i ⟨en, k⟩ ctx) (Stack.onUpperN i ⟨en, k'⟩ ctx) := by
  cases k with
  | base => cases k' <;> simp [Kind.Sim] at h; exact .pure _
  | bytesCodec =>
    cases k' <;> simp [Kind.Sim] at h
    refine .ite ?_ (.pure _)
    cases ctx.msg <;> first | exact .pure _ | exact .encodeDownN _ _
  | stringCodec =>
    cases k' <;> simp [Kind.Sim] at h
    refine .ite ?_ (.pure _)
    cases ctx.msg <;> first | exact .pure _ | exact .encodeDownN _ _
  | jsonCodec m u =>
    cases k' <;> simp [Kind.Sim] at h
    obtain ⟨rfl, rfl⟩ := h
    refine .ite (.ite (.pure _) ?_) (.pure _)
    cases m ctx.msg <;> first | exact .pure _ | exact .encodeDownN _ _
  | genericCodec e d =>
    cases k' <;> simp [Kind.Sim] at h
    obtain ⟨rfl, rfl⟩ := h
    exact .genericUpperN _ _ _
  | gobCodec e d =>
    cases k' <;> simp [Kind.Sim] at h
    obtain ⟨rfl, rfl⟩ := h
    exact .genericUpperN _ _ _
  | session =>
    cases k' <;> simp [Kind.Sim] at h
    refine .ite ?_ (.pure _)
    cases ctx.buf with
    | none => exact .pure _
    | some ub => exact .bind (.onBuf _ _) fun _ => .ite (.pure _) (.pure _)
  | frame c =>
    cases k' <;> simp [Kind.Sim] at h
    refine .bind (.useReference _) fun _ => .ite (.pure _) (.ite ?_ (.pure _))
    cases ctx.buf with
    | none => exact .pure _
    | some ub => exact .bind (.onBuf _ _) fun _ => .pure _
  | stat tx rx =>
    cases k' <;> simp [Kind.Sim] at h
    refine .bind (.useReference _) fun _ => .ite (.pure _) ?_
    cases ctx.buf with
    | none => exact .pure _
    | some ub => exact .ite (.bind (.setKind i (by simp [Kind.Sim])) fun _ => .tagDownN _ _ _) (.tagDownN _ _ _)
  | heartbeat =>
    cases k' <;> simp [Kind.Sim] at h
    refine .bind (.useReference _) fun _ => .ite (.pure _) ?_
    cases ctx.buf with
    | none => exact .pure _
    | some ub => exact .tagDownN _ _ _
  | loadBalancer =>
    cases k' <;> simp [Kind.Sim] at h
    refine .bind (.useReference _) fun _ => .ite (.pure _) ?_
    cases ctx.buf with
    | none => exact .pure _
    | some ub => exact .tagDownN _ _ _
  | filter fns tx rx =>
    cases k' <;> simp [Kind.Sim] at h
    subst h
    exact .ite (.bind (.doFns _ _ _) fun _ => .ite (.bind (.setKind i (by simp [Kind.Sim])) fun _ => .pure _) (.pure _)) (.pure _)
  | forwarder fns tx rx =>
    cases k' <;> simp [Kind.Sim] at h
    subst h
    exact .ite (.bind (.doFns _ _ _) fun _ => .ite (.bind (.setKind i (by simp [Kind.Sim])) fun _ => .pure _) (.pure _)) (.pure _)
  | echo => cases k' <;> simp [Kind.Sim] at h; exact .pure _
  | loopback => cases k' <;> simp [Kind.Sim] at h; exact .pure _
  | discarder => cases k' <;> simp [Kind.Sim] at h; exact .pure _
  | flow => cases k' <;> simp [Kind.Sim] at h; exact .pure _

theorem decodeUpN (ctx : Ctx) {k : Ctx → List Byte → GoM World Next} (hk : ∀ c b, Two o (k c b) (k c b)) :
    Two o (Stack.decodeUpN ctx k) (Stack.decodeUpN ctx k) := by
  simp only [Stack.decodeUpN]
  cases ctx.buf with
  | none => exact .pure _
  | some ub => exact .bind (.check _) fun _ => .bind (.onBuf _ _) fun _ => .ite (.pure _) (hk _ _)

theorem genericLowerN (en : Bool) (d : Option (GoM St (Val × Option Err))) (ctx : Ctx) :
    Two o (Stack.genericLowerN en d ctx) (Stack.genericLowerN en d ctx) := by
  simp only [Stack.genericLowerN]
  refine .ite ?_ (.pure _)
  cases d with
  | none => exact .pure _
  | some d =>
    cases ctx.buf with
    | none => exact .pure _
    | some ub => exact .bind (.onBuf _ _) fun _ => .ite (.pure _) (.pure _)

theorem statShowN (ctx : Ctx) : Two o (Stack.statShowN ctx) (Stack.statShowN ctx) := by
  simp only [Stack.statShowN]
  cases ctx.buf with
  | none => exact .panic
  | some ub =>
    exact .bind (.onBuf _ _) fun _ => .bind (.onBuf _ _) fun _ => .bind (.onBuf _ _) fun _ => .bind (.observe _) fun _ => .pure _

end Two

/-- The buffer starts with a statistics request (proc_stat_counter.go:128). -/
def Request (ctx : Ctx) : Prop := ∃ ub, ctx.buf = some ub ∧ (UBuf.readByte ub).1 = .ok (0x10, none)

theorem onBuf_fst {s s' : St} {α : Type} {m : GoM St α} {a : α} {w w' : World} (h : onBuf s m w = (.ok (a, s'), w')) : (m s).1 = .ok a := by
  simp only [onBuf] at h
  split at h
  · rename_i x y e
    injection h with h _
    injection h with h
    injection h with h _
    rw [e, h]
  · injection h with h _; cases h
  · injection h with h _; cases h

namespace Two
variable {o : Nat → Mode}

theorem onLowerN (i : Nat) (en : Bool) {k k' : Kind} (h : k.Sim (o i) k') (ctx : Ctx)
    (hq : ∀ tx rx, k = .stat tx rx → en = true → ¬ Request ctx) :
    Two o (Stack.onLowerN i ⟨en, k⟩ ctx) (Stack.onLowerN i ⟨en, k'⟩ ctx) := by
  cases k with
  | base => cases k' <;> simp [Kind.Sim] at h; exact .pure _
  | bytesCodec =>
    cases k' <;> simp [Kind.Sim] at h
    exact .ite (.decodeUpN _ fun _ _ => .pure _) (.pure _)
  | stringCodec =>
    cases k' <;> simp [Kind.Sim] at h
    exact .ite (.decodeUpN _ fun _ _ => .pure _) (.pure _)
  | jsonCodec m u =>
    cases k' <;> simp [Kind.Sim] at h
    obtain ⟨rfl, rfl⟩ := h
    refine .ite (.decodeUpN _ fun _ b => ?_) (.pure _)
    cases u b <;> exact .pure _
  | genericCodec e d =>
    cases k' <;> simp [Kind.Sim] at h
    obtain ⟨rfl, rfl⟩ := h
    exact .genericLowerN _ _ _
  | gobCodec e d =>
    cases k' <;> simp [Kind.Sim] at h
    obtain ⟨rfl, rfl⟩ := h
    exact .genericLowerN _ _ _
  | session =>
    cases k' <;> simp [Kind.Sim] at h
    refine .ite ?_ (.pure _)
    cases ctx.buf with
    | none => exact .pure _
    | some ub => exact .bind (.onBuf _ _) fun _ => .ite (.pure _) (.pure _)
  | frame c =>
    cases k' <;> simp [Kind.Sim] at h
    exact .pure _
  | stat tx rx =>
    cases k' <;> simp [Kind.Sim] at h
    rename_i tx' rx'
    refine .bind (.useReference _) fun _ => .ite (.pure _) ?_
    cases hb : ctx.buf with
    | none => exact .pure _
    | some ub =>
      intro w v hl
      simp only
      rcases hr : UBuf.readByte ub with ⟨r, s⟩
      cases r with
      | panic => simp only [bind_apply, Stack.onBuf, hr]; exact ⟨trivial, hl⟩
      | running => simp only [bind_apply, Stack.onBuf, hr]; exact ⟨trivial, hl⟩
      | ok r =>
        simp only [bind_apply, Stack.onBuf, hr]
        by_cases he : r.2.isSome = true
        · rw [if_pos he, if_pos he]; exact ⟨rfl, hl⟩
        · rw [if_neg he, if_neg he]
          by_cases hen : en = true
          · rw [if_pos hen, if_pos hen]
            by_cases h10 : r.1 = 0x10
            · exfalso
              refine hq tx rx rfl hen ⟨ub, hb, ?_⟩
              rw [hr]
              obtain ⟨b, e⟩ := r
              simp only at h10
              cases e with
              | none => rw [h10]
              | some e => simp at he
            · rw [if_neg h10, if_neg h10]
              exact Two.ite (.statShowN _) (.bind (.setKind i (by simp [Kind.Sim])) fun _ => .pure _) w v hl
          · rw [if_neg hen, if_neg hen]; exact ⟨rfl, hl⟩
  | heartbeat =>
    cases k' <;> simp [Kind.Sim] at h
    refine .bind (.useReference _) fun _ => .ite (.pure _) ?_
    cases ctx.buf with
    | none => exact .pure _
    | some ub => exact .bind (.onBuf _ _) fun _ => .ite (.pure _) (.ite (.bind (.observe _) fun _ => .pure _) (.pure _))
  | loadBalancer =>
    cases k' <;> simp [Kind.Sim] at h
    refine .bind (.useReference _) fun _ => .ite (.pure _) ?_
    cases ctx.buf with
    | none => exact .pure _
    | some ub => exact .bind (.onBuf _ _) fun _ => .ite (.pure _) (.ite (.pure _) (.pure _))
  | filter fns tx rx =>
    cases k' <;> simp [Kind.Sim] at h
    subst h
    exact .ite (.bind (.doFns _ _ _) fun _ => .ite (.bind (.setKind i (by simp [Kind.Sim])) fun _ => .pure _) (.pure _)) (.pure _)
  | forwarder fns tx rx =>
    cases k' <;> simp [Kind.Sim] at h
    subst h
    exact .ite (.bind (.doFns _ _ _) fun _ => .ite (.bind (.setKind i (by simp [Kind.Sim])) fun _ => .pure _) (.pure _)) (.pure _)
  | echo => cases k' <;> simp [Kind.Sim] at h; exact .ite (.pure _) (.pure _)
  | loopback => cases k' <;> simp [Kind.Sim] at h; exact .pure _
  | discarder => cases k' <;> simp [Kind.Sim] at h; exact .ite (.pure _) (.pure _)
  | flow => cases k' <;> simp [Kind.Sim] at h; exact .pure _

end Two

/-! ## The FrameDecoder -/

/-- Fewer bytes than fit into the cache. -/
def Small (cap : Nat) (ub : St) : Prop := ∃ d, Buf ub d ∧ d.content.length < cap

/-- A cache that may be used on this buffer. -/
def Mode.Fine : Mode → Option St → Prop
  | .own, _ => True
  | .foreign, _ => False
  | .rest cap, b => ∀ ub, b = some ub → Small cap ub

/-- Reading a small buffer into an empty cache: the read reports an error and the cache stays empty. -/
theorem readFromBuf_rest {cap : Nat} {c ub : St} (hc : Buf c (UBuf.Deque.fresh cap 0)) (hs : Small cap ub) (w : World) :
    ∃ r c', readFromBuf c ub w = (.ok (r, c', (UBuf.read cap ub).2), w) ∧ Buf c' (UBuf.Deque.fresh cap 0) := by
  obtain ⟨d, hd, hl⟩ := hs
  obtain ⟨c', u', h1, h2, h3⟩ := readFromBuf_ok hc hd w
  have ht : (UBuf.Deque.fresh cap 0).tail = cap := by simp [UBuf.Deque.tail, UBuf.Deque.fresh]
  have h2' : Buf c' (UBuf.Deque.fresh cap 0) := by
    have : (Deque.readFromDeque (UBuf.Deque.fresh cap 0) d).2.2.1 = UBuf.Deque.fresh cap 0 := by
      simp only [Deque.readFromDeque]
      split
      · rfl
      · split
        · rfl
        · rw [if_pos (by rw [ht]; exact hl)]
    rw [this] at h2
    exact h2
  have hfree : c.block.len - c.ub.writer = cap := by
    have h1 := hc.rel.cap_sub
    have h2 := hc.rel.lencap
    rw [ht] at h1
    omega
  have hu : u' = (UBuf.read cap ub).2 := by
    have h1' := h1
    simp only [readFromBuf, hfree] at h1'
    rcases hr : UBuf.read cap ub with ⟨r, s⟩
    rw [hr] at h1'
    cases r with
    | ok x =>
      simp only at h1'
      have htl : ¬ UBuf.tailWritableLength c ≤ 0 := by rw [hc.tail, ht]; omega
      rw [if_neg htl] at h1'
      split at h1'
      · injection h1' with h1' _; injection h1' with h1'; injection h1' with _ h1'; injection h1' with _ h1'; exact h1'.symm
      · injection h1' with h1' _; cases h1'
    | panic => injection h1' with h1' _; cases h1'
    | running => injection h1' with h1' _; cases h1'
  rw [hu] at h1
  exact ⟨_, c', h1, h2'⟩

/-- The caches of two worlds. -/
theorem Like.cache {o : Nat → Mode} {w v : World} (h : Like o w v) (i : Nat) :
    (∃ c c', (w.procs i).kind = .frame c ∧ (v.procs i).kind = .frame c' ∧ (o i).Rel c c') ∨
    ((w.procs i).kind.isFrame = false ∧ (v.procs i).kind.isFrame = false) := by
  have hk := h.kind i
  cases h1 : (w.procs i).kind <;> rw [h1] at hk <;> cases h2 : (v.procs i).kind <;> rw [h2] at hk <;> simp [Kind.Sim] at hk <;>
    first | exact .inr ⟨rfl, rfl⟩ | exact .inl ⟨_, _, rfl, rfl, hk⟩

theorem frameCache_some {i : Nat} {w : World} {c : St} (h : (w.procs i).kind = .frame (some c)) : frameCache i w = (.ok c, w) := by
  simp [frameCache, bind_apply, h]

theorem frameCache_none {i : Nat} {w : World} (h : (w.procs i).kind.isFrame = false ∨ (w.procs i).kind = .frame none) :
    frameCache i w = (.panic, w) := by
  rcases h with h | h
  · cases hk : (w.procs i).kind <;> simp [hk, Kind.isFrame] at h <;> simp [frameCache, bind_apply, hk]
  · simp [frameCache, bind_apply, h]

namespace Two
variable {o : Nat → Mode}

theorem readFromBuf (a b : St) : Two o (Stack.readFromBuf a b) (Stack.readFromBuf a b) := by
  intro w v h
  simp only [Stack.readFromBuf]
  split
  · split <;> exact ⟨rfl, h⟩
  · exact ⟨rfl, h⟩

theorem copyN (a b : St) (n : Nat) : Two o (Stack.copyN a b n) (Stack.copyN a b n) := .bind (.readFromBuf a b) fun _ => .pure _

/-- Work on the cache: the same cache, or two empty ones. -/
theorem onCache {i : Nat} {f : St → GoM World α} (ho : o i ≠ .foreign) (hsame : o i = .own → ∀ c, Two o (f c) (f c))
    (hrest : ∀ cap, o i = .rest cap → ∀ c c', Buf c (UBuf.Deque.fresh cap 0) → Buf c' (UBuf.Deque.fresh cap 0) → Two o (f c) (f c')) :
    Two o (Stack.frameCache i >>= f) (Stack.frameCache i >>= f) := by
  intro w v h
  rcases h.cache i with ⟨c, c', h1, h2, h3⟩ | ⟨h1, h2⟩
  · cases hm : o i with
    | own =>
      rw [hm] at h3
      have h3 : c = c' := h3
      subst h3
      cases c with
      | none => rw [bind_of_panic (frameCache_none (.inr h1)), bind_of_panic (frameCache_none (.inr h2))]; exact ⟨rfl, h⟩
      | some c => rw [bind_of_ok (frameCache_some h1), bind_of_ok (frameCache_some h2)]; exact hsame hm c w v h
    | foreign => exact absurd hm ho
    | rest cap =>
      rw [hm] at h3
      obtain ⟨⟨s, rfl, hs⟩, s', rfl, hs'⟩ := h3
      rw [bind_of_ok (frameCache_some h1), bind_of_ok (frameCache_some h2)]
      exact hrest cap hm s s' hs hs' w v h
  · rw [bind_of_panic (frameCache_none (.inl h1)), bind_of_panic (frameCache_none (.inl h2))]; exact ⟨rfl, h⟩

theorem setCache {i : Nat} (ho : o i = .own) (c : Option St) : Two o (Stack.setKind i (.frame c)) (Stack.setKind i (.frame c)) :=
  .setKind i (by rw [ho]; exact .refl _)

theorem setRest {i cap : Nat} (ho : o i = .rest cap) {c c' : St} (h : Buf c (UBuf.Deque.fresh cap 0)) (h' : Buf c' (UBuf.Deque.fresh cap 0)) :
    Two o (Stack.setKind i (.frame (some c))) (Stack.setKind i (.frame (some c'))) :=
  .setKind i (by rw [ho]; exact ⟨⟨c, rfl, h⟩, c', rfl, h'⟩)

theorem _root_.Verif.Stack.Mode.Fine.ne {m : Mode} {b : Option St} (h : m.Fine b) : m ≠ .foreign := by
  intro e; rw [e] at h; exact h

theorem cacheReadFrom (i : Nat) {ub : St} (ho : (o i).Fine (some ub)) : Two o (Stack.cacheReadFrom i ub) (Stack.cacheReadFrom i ub) := by
  refine .onCache ho.ne (fun hm c => .bind (.readFromBuf _ _) fun _ => .bind (.setCache hm _) fun _ => .pure _) fun cap hm c c' hc hc' => ?_
  rw [hm] at ho
  intro w v h
  obtain ⟨r, d, h1, h2⟩ := readFromBuf_rest hc (ho ub rfl) w
  obtain ⟨r', d', h1', h2'⟩ := readFromBuf_rest hc' (ho ub rfl) v
  rw [bind_of_ok h1, bind_of_ok h1']
  exact Two.bind (.setRest hm h2 h2') (fun _ => .pure _) w v h

theorem cacheReset (i : Nat) (ho : o i ≠ .foreign) : Two o (Stack.cacheReset i) (Stack.cacheReset i) := by
  refine .onCache ho (fun hm c => .bind (.onBuf _ _) fun _ => .setCache hm _) fun cap hm c c' hc hc' => ?_
  intro w v h
  obtain ⟨d, h1, h2⟩ := hc.reset
  obtain ⟨d', h1', h2'⟩ := hc'.reset
  rw [bind_onBuf h1, bind_onBuf h1']
  exact Two.setRest hm h2 h2' w v h

theorem curIter (i : Nat) (first : Bool) (ctx : Ctx) {ub : St} (ho : (o i).Fine (some ub)) :
    Two o (Stack.curIter i first ctx ub) (Stack.curIter i first ctx ub) := by
  simp only [Stack.curIter]
  refine .ite (.bind (.cacheReadFrom i ho) fun _ => .pure _) (.bind (.onBuf _ _) fun p => ?_)
  refine .ite (.bind (.cacheReset i ho.ne) fun _ => .pure _) (.ite (.bind (.cacheReadFrom i ho) fun _ => .pure _) ?_)
  refine .ite (.bind (.onBuf _ _) fun _ => .pure _) ?_
  exact .bind (.allocBuf _ _) fun _ => .bind (.onBuf _ _) fun _ => .bind (.copyN _ _ _) fun _ =>
    .ite (.bind (.cacheReset i ho.ne) fun _ => .pure _) (.pure _)

theorem currentN (i : Nat) (ctx : Ctx) {ub : St} (ho : (o i).Fine (some ub)) : Two o (Stack.currentN i ctx ub) (Stack.currentN i ctx ub) := by
  refine .onCache ho.ne (fun _ c => .ite (.bind (.cacheReadFrom i ho) fun _ => .pure _) (.curIter i true ctx ho)) fun cap hm c c' hc hc' => ?_
  have hz : ¬ UBuf.readableLength c > 0 := by rw [hc.readable]; simp [UBuf.Deque.fresh]
  have hz' : ¬ UBuf.readableLength c' > 0 := by rw [hc'.readable]; simp [UBuf.Deque.fresh]
  simp only [if_neg hz, if_neg hz']
  exact .curIter i true ctx ho

theorem cachedIter (i : Nat) (ctx : Ctx) (ho : o i ≠ .foreign) : Two o (Stack.cachedIter i ctx) (Stack.cachedIter i ctx) := by
  simp only [Stack.cachedIter]
  refine .onCache ho (fun hm c => .ite (.bind (.cacheReset i ho) fun _ => .pure _) (.ite (.pure _) (.bind (.onBuf _ _) fun p => ?_)))
    fun cap hm c c' hc hc' => ?_
  · refine .ite (.bind (.cacheReset i ho) fun _ => .pure _) (.ite (.pure _) ?_)
    exact .bind (.allocBuf _ _) fun _ => .bind (.onBuf _ _) fun _ => .bind (.copyN _ _ _) fun _ => .bind (.setCache hm _) fun _ =>
      .ite (.bind (.cacheReset i ho) fun _ => .pure _) (.pure _)
  · have hz : UBuf.readableLength c = 0 := by rw [hc.readable]; simp [UBuf.Deque.fresh]
    have hz' : UBuf.readableLength c' = 0 := by rw [hc'.readable]; simp [UBuf.Deque.fresh]
    simp only [if_pos hz, if_pos hz']
    exact .bind (.cacheReset i ho) fun _ => .pure _

theorem upperDeckN (ctx : Ctx) : Two o (Stack.upperDeckN ctx) (Stack.upperDeckN ctx) := by
  simp only [Stack.upperDeckN]
  refine .ite (.pure _) (.get fun w v h => ?_)
  rw [h.served]
  cases findEndPoint v.served (optionParseInt (ctx.opts "session") 0).1 with
  | none => exact .pure _
  | some ep => exact .bind (.observe _) fun _ => .pure _

end Two

/-! ## The LowerDeck -/

/-- The world after the LowerDeck asked a connection to write. -/
def World.asked (w : World) (c : ConnId) (p : List Byte) : World :=
  if (w.conns c).closed then w
  else if (w.write w.trace c p).err.isSome then (w.wrote c p).close c
  else w.wrote c p

/-- The world after the LowerDeck put an object on a connection. -/
def World.put (w : World) (c : ConnId) (v : Val) : World :=
  if (w.conns c).closed ∨ v = .nil then w.close c else { w with trace := w.trace ++ [.ref c v] }

/-- The LowerDeck, in closed form. -/
theorem lowerDeckN_apply (ctx : Ctx) (w : World) :
    lowerDeckN ctx w = match ctx.conn with
      | none => (.ok none, w)
      | some c =>
        if (w.conns c).useRef then (.ok (some (.ref c ctx.msg)), w.put c ctx.msg)
        else match ctx.buf with
          | none => (.ok none, w)
          | some ub =>
            if UBuf.readableLength ub ≤ 0 then (.ok none, w)
            else match UBuf.bytesRange ub.ub.reader ub.ub.writer ub with
              | (.ok p, _) => (.ok (some (.write c p)), w.asked c p)
              | (.panic, _) => (.panic, w)
              | (.running, _) => (.running, w) := by
  simp only [lowerDeckN]
  cases ctx.conn with
  | none => rfl
  | some c =>
    simp only
    rw [bind_of_ok (show useReference (some c) w = (.ok (w.conns c).useRef, w) from rfl), ite_apply]
    cases hr : (w.conns c).useRef with
    | true =>
      simp only [if_true]
      by_cases hc : (w.conns c).closed = true
      · simp [bind_apply, setReference, hc, World.put, closeConnection_apply]
      · by_cases hv : ctx.msg = .nil
        · simp [bind_apply, setReference, hc, hv, World.put, closeConnection_apply]
        · simp [bind_apply, setReference, hc, hv, World.put, observe]
    | false =>
      simp only [Bool.false_eq_true, if_false]
      cases ctx.buf with
      | none => rfl
      | some ub =>
        simp only [writeToConn, writeAct]
        by_cases hl : UBuf.readableLength ub ≤ 0
        · simp [bind_apply, hl]
        · simp only [hl, if_false]
          rcases hb : UBuf.bytesRange ub.ub.reader ub.ub.writer ub with ⟨r, s⟩
          cases r with
          | panic => simp [bind_apply, onBuf, hb]
          | running => simp [bind_apply, onBuf, hb]
          | ok p =>
            simp only [bind_apply, onBuf, hb, connWrite, get_apply]
            by_cases hc : (w.conns c).closed = true
            · simp [hc, World.asked, UBuf.writeTo, bind_apply, hl, hb]
            · by_cases he : (w.write w.trace c p).err.isSome = true
              · simp [hc, he, World.asked, UBuf.writeTo, bind_apply, ite_apply, hl, hb, observe, closeConnection_apply, World.wrote]
              · simp [hc, he, World.asked, UBuf.writeTo, bind_apply, ite_apply, hl, hb, observe, World.wrote]

theorem Like.close (w : World) (c : ConnId) : Like owner w (w.close c) := by
  refine ⟨rfl, rfl, rfl, rfl, rfl, fun x => ?_, fun _ => rfl, fun _ => .refl _, rfl⟩
  simp only [World.close]; split <;> rfl

theorem Like.obs (w : World) (t : List Obs) : Like owner w { w with trace := t } :=
  ⟨rfl, rfl, rfl, rfl, rfl, fun _ => rfl, fun _ => rfl, fun _ => .refl _, rfl⟩

theorem Like.asked (w : World) (c : ConnId) (p : List Byte) : Like owner w (w.asked c p) := by
  simp only [World.asked]
  split
  · exact .refl _
  · split
    · exact (Like.obs w _).trans (Like.close _ c)
    · exact .obs w _

theorem Like.put (w : World) (c : ConnId) (v : Val) : Like owner w (w.put c v) := by
  simp only [World.put]
  split
  · exact .close w c
  · exact .obs w _

theorem lowerDeckN_like (ctx : Ctx) (w : World) : Like owner w (lowerDeckN ctx w).2 := by
  rw [lowerDeckN_apply]
  split
  · exact .refl _
  · split
    · exact .put _ _ _
    · split
      · exact .refl _
      · split
        · exact .refl _
        · split
          · exact .asked _ _ _
          · exact .refl _
          · exact .refl _

theorem Two.lowerDeckN {o : Nat → Mode} (ctx : Ctx) : Two o (Stack.lowerDeckN ctx) (Stack.lowerDeckN ctx) := by
  intro w v h
  refine ⟨?_, h.both (lowerDeckN_like ctx w) (lowerDeckN_like ctx v)⟩
  rw [lowerDeckN_apply, lowerDeckN_apply]
  cases ctx.conn with
  | none => rfl
  | some c =>
    simp only
    rw [h.useRef c]
    split
    · rfl
    · split
      · rfl
      · split
        · rfl
        · split <;> rfl

/-! ## One step of a goroutine -/

/-- The step works on the cache of a FrameDecoder. -/
def Touches (g : G) (w : World) : Prop :=
  match g.focus with
  | .call .up pos ctx => pos ≠ 0 ∧ pos ≤ w.n ∧ (w.procs (pos - 1)).kind.isFrame = true ∧ (w.procs (pos - 1)).enable = true ∧
      ctx.buf.isSome = true ∧ ∀ c, ctx.conn = some c → (w.conns c).useRef = false
  | .ret _ => g.stack ≠ []
  | _ => False

/-- The position of the FrameDecoder whose cache it works on, -/
def G.spot (g : G) : Nat :=
  match g.focus, g.stack with
  | .call _ pos _, _ => pos - 1
  | .ret _, (pos, _) :: _ => pos - 1
  | _, _ => 0

/-- and the bytes it has in hand then. -/
def G.hand (g : G) : Option St :=
  match g.focus, g.stack with
  | .call _ _ ctx, _ => ctx.buf
  | .ret _, (_, .cur rest) :: _ => some rest
  | _, _ => none

/-- The step answers a statistics request. -/
def Asks (g : G) (w : World) : Prop :=
  match g.focus with
  | .call .up pos ctx => pos ≠ 0 ∧ pos ≤ w.n ∧ (∃ tx rx, (w.procs (pos - 1)).kind = .stat tx rx) ∧
      (w.procs (pos - 1)).enable = true ∧ Request ctx
  | _ => False

theorem Like.touches {o : Nat → Mode} {w v : World} (h : Like o w v) (g : G) : Touches g w ↔ Touches g v := by
  have key : ∀ {o} {w v : World}, Like o w v → Touches g w → Touches g v := by
    intro o w v h
    simp only [Touches]
    split
    · rintro ⟨a, b, c, d, e, f⟩
      exact ⟨a, h.n ▸ b, (h.kind _).isFrame ▸ c, (h.enable _) ▸ d, e, fun x hx => (h.useRef x) ▸ f x hx⟩
    · exact id
    · exact id
  exact ⟨key h, key h.symm⟩

theorem Kind.Sim.stat {o : Mode} {a b : Kind} (h : a.Sim o b) : (∃ tx rx, a = .stat tx rx) → ∃ tx rx, b = .stat tx rx := by
  rintro ⟨tx, rx, rfl⟩
  cases b <;> simp [Kind.Sim] at h
  exact ⟨_, _, rfl⟩

theorem Like.asks {o : Nat → Mode} {w v : World} (h : Like o w v) (g : G) : Asks g w ↔ Asks g v := by
  have key : ∀ {o} {w v : World}, Like o w v → Asks g w → Asks g v := by
    intro o w v h
    simp only [Asks]
    split
    · rintro ⟨a, b, c, d, e⟩
      exact ⟨a, h.n ▸ b, (h.kind _).stat c, (h.enable _) ▸ d, e⟩
    · exact id
  exact ⟨key h, key h.symm⟩

theorem Two.start {o : Nat → Mode} (j : Job) : Two o j.start j.start := by
  have close : ∀ c, Two o (closeConnection c) (closeConnection c) := fun c w v h =>
    ⟨rfl, h.both (Like.close w c) (Like.close v c)⟩
  cases j with
  | send conn data session => exact .pure _
  | recv c bs =>
    refine .get fun w v h => ?_
    rw [h.mtu, h.n]
    exact .bind (.allocBuf _ _) fun _ => .bind (.onBuf _ _) fun _ => .ite (.bind (close c) fun _ => .pure _) (.pure _)
  | recvRef c v =>
    refine .get fun w v h => ?_
    rw [h.n]
    exact .ite (.bind (close c) fun _ => .pure _) (.pure _)
  | control i c tag =>
    refine .get fun w v h => ?_
    rw [h.mtu, h.overhead]
    exact .bind (.allocBuf _ _) fun _ => .bind (.onBuf _ _) fun _ => .pure _

/-- **A step cannot tell alike worlds apart**, unless it answers a statistics request; a cache may be used by its owner, and by all if
what they have in hand cannot fill it. -/
theorem stepG_two {o : Nat → Mode} {g : G} {w v : World} (h : Like o w v) (ha : ¬ Asks g w) (ht : Touches g w → (o g.spot).Fine g.hand) :
    (stepG g w).1 = (stepG g v).1 ∧ Like o (stepG g w).2 (stepG g v).2 := by
  cases hf : g.focus with
  | idle =>
    simp only [stepG, hf]
    refine (show Two o _ _ from ?_) w v h
    simp only [idleStep]
    cases g.jobs with
    | nil => exact .pure _
    | cons j js =>
      refine .bind (.start j) fun r => ?_
      cases r with
      | none => exact .pure _
      | some x => exact .pure _
  | ret ctx =>
    simp only [stepG, hf, retStep]
    cases hs : g.stack with
    | nil => exact ⟨rfl, h⟩
    | cons k st =>
      have ht := ht (by simp [Touches, hf, hs])
      obtain ⟨pos, k⟩ := k
      simp only [G.spot, G.hand, hf, hs] at ht
      cases k with
      | cur rest => exact Two.bind (.curIter _ _ _ ht) (fun _ => .pure _) w v h
      | cached => exact Two.bind (.cachedIter _ _ ht.ne) (fun _ => .pure _) w v h
  | call dir pos ctx =>
    simp only [stepG, hf, callStep]
    rw [bind_of_ok (get_apply w), bind_of_ok (get_apply v), ← h.n]
    by_cases h0 : pos = 0
    · rw [if_pos h0, if_pos h0]
      cases dir with
      | up => exact Two.bind (.upperDeckN _) (fun _ => .pure _) w v h
      | down => exact ⟨rfl, h⟩
    · rw [if_neg h0, if_neg h0]
      by_cases hn : pos > w.n
      · rw [if_pos hn, if_pos hn]
        cases dir with
        | up => exact ⟨rfl, h⟩
        | down => exact Two.bind (.lowerDeckN _) (fun _ => .pure _) w v h
      · rw [if_neg hn, if_neg hn]
        have hk := h.kind (pos - 1)
        have he := h.enable (pos - 1)
        cases dir with
        | down =>
          simp only
          rcases hp : w.procs (pos - 1) with ⟨en, k⟩
          rcases hp' : v.procs (pos - 1) with ⟨en', k'⟩
          rw [hp, hp'] at hk he
          simp only at hk he
          subst he
          exact Two.bind (.onUpperN _ _ hk _) (fun _ => .pure _) w v h
        | up =>
          simp only
          rw [← hk.isFrame]
          by_cases hfr : (w.procs (pos - 1)).kind.isFrame = true
          · rw [if_pos hfr, if_pos hfr, ← he]
            simp only [frameStep]
            cases hc : ctx.conn with
            | none => exact ⟨rfl, h⟩
            | some c =>
              rw [bind_of_ok (show useReference (some c) w = (.ok (w.conns c).useRef, w) from rfl),
                bind_of_ok (show useReference (some c) v = (.ok (v.conns c).useRef, v) from rfl), ← h.useRef c]
              by_cases hr : (w.conns c).useRef = true
              · rw [if_pos hr]; exact ⟨rfl, h⟩
              · rw [if_neg hr]
                cases hb : ctx.buf with
                | none => exact ⟨rfl, h⟩
                | some ub =>
                  simp only
                  by_cases hen : (w.procs (pos - 1)).enable = true
                  · rw [if_pos hen]
                    have ht := ht (by
                      simp only [Touches, hf]
                      refine ⟨h0, by omega, hfr, hen, by rw [hb]; rfl, fun x hx => ?_⟩
                      rw [hc] at hx
                      injection hx with hx
                      subst hx
                      simpa using hr)
                    simp only [G.spot, G.hand, hf, hb] at ht
                    exact Two.bind (.currentN _ _ ht) (fun _ => .pure _) w v h
                  · rw [if_neg hen]; exact ⟨rfl, h⟩
          · rw [if_neg hfr, if_neg hfr]
            have hq : ∀ tx rx, (w.procs (pos - 1)).kind = .stat tx rx → (w.procs (pos - 1)).enable = true → ¬ Request ctx := by
              intro tx rx hk hen hreq
              exact ha (by simp only [Asks, hf]; exact ⟨h0, by omega, ⟨tx, rx, hk⟩, hen, hreq⟩)
            rcases hp : w.procs (pos - 1) with ⟨en, k⟩
            rcases hp' : v.procs (pos - 1) with ⟨en', k'⟩
            rw [hp] at hq
            rw [hp, hp'] at hk he
            simp only at hk he hq
            subst he
            exact Two.bind (.onLowerN _ _ hk _ hq) (fun _ => .pure _) w v h

/-! ## What a step does to the world -/

def Act.isDeliver : Act → Bool
  | .deliver .. => true
  | _ => false

/-- What was handed to endpoints. -/
def deliveries (as : List Act) : List Act := as.filter Act.isDeliver

/-- The step that performs these acts. -/
structure Effect (a : List Act) (w w' : World) : Prop where
  like : Like stranger w w'
  deliver : deliveries (actsOf w'.trace) = deliveries (actsOf w.trace) ++ deliveries a
  closed : ∃ t, w'.trace.filter Obs.isClosed = w.trace.filter Obs.isClosed ++ t
  open' : (∀ c, (w.conns c).closed = false) → w'.trace.filter Obs.isClosed = [] →
    actsOf w'.trace = actsOf w.trace ++ a ∧ ∀ c, (w'.conns c).closed = false

theorem Effect.refl (w : World) : Effect [] w w :=
  ⟨(Like.refl _).weaken, by simp [deliveries], ⟨[], by simp⟩, fun h _ => ⟨by simp, h⟩⟩

theorem OnlyAt.effect {i : Nat} {w w' : World} (h : OnlyAt i w w') : Effect [] w w' :=
  ⟨h.like, by simp [deliveries, h.acts], ⟨[], by simp [h.closed]⟩, fun ho _ => ⟨by simp [h.acts], by rw [← h.conns]; exact ho⟩⟩

theorem Effect.close (w : World) (c : ConnId) : Effect [] w (w.close c) := by
  refine ⟨(Like.close w c).weaken, by simp [World.close, actsOf, Obs.act?, deliveries], ⟨[.closed c], by simp [World.close, Obs.isClosed]⟩, fun _ h => ?_⟩
  simp [World.close, Obs.isClosed] at h

theorem Effect.asked (w : World) (c : ConnId) (p : List Byte) : Effect [.write c p] w (w.asked c p) := by
  refine ⟨(Like.asked w c p).weaken, ?_, ?_, fun ho hn => ?_⟩
  · simp only [World.asked]
    split
    · simp [deliveries, Act.isDeliver]
    · split <;> simp [World.close, World.wrote, actsOf, Obs.act?, deliveries, Act.isDeliver]
  · simp only [World.asked]
    split
    · exact ⟨[], by simp⟩
    · split
      · exact ⟨[.closed c], by simp [World.close, World.wrote, Obs.isClosed]⟩
      · exact ⟨[], by simp [World.wrote, Obs.isClosed]⟩
  · simp only [World.asked] at hn ⊢
    rw [if_neg (by simp [ho c])] at hn ⊢
    split at hn
    · simp [World.close, Obs.isClosed] at hn
    · rename_i he
      rw [if_neg he]
      exact ⟨by simp [World.wrote, actsOf, Obs.act?], ho⟩

theorem Effect.put (w : World) (c : ConnId) (v : Val) : Effect [.ref c v] w (w.put c v) := by
  refine ⟨(Like.put w c v).weaken, ?_, ?_, fun ho hn => ?_⟩
  · simp only [World.put]
    split <;> simp [World.close, actsOf, Obs.act?, deliveries, Act.isDeliver]
  · simp only [World.put]
    split
    · exact ⟨[.closed c], by simp [World.close, Obs.isClosed]⟩
    · exact ⟨[], by simp [Obs.isClosed]⟩
  · simp only [World.put] at hn ⊢
    split at hn
    · simp [World.close, Obs.isClosed] at hn
    · rename_i he
      rw [if_neg he]
      exact ⟨by simp [actsOf, Obs.act?], ho⟩

theorem lowerDeckN_effect {ctx : Ctx} {w w' : World} {a : Option Act} (h : lowerDeckN ctx w = (.ok a, w')) : Effect a.toList w w' := by
  rw [lowerDeckN_apply] at h
  repeat' split at h
  all_goals first | (injection h with h1 h2; injection h1 with h1; subst h1 h2) | (injection h with h1 h2; cases h1)
  · exact .refl _
  · exact .put _ _ _
  · exact .refl _
  · exact .refl _
  · exact .asked _ _ _

theorem upperDeckN_effect {ctx : Ctx} {w w' : World} {a : Option Act} (h : upperDeckN ctx w = (.ok a, w')) :
    Effect a.toList w w' ∧ Like owner w w' := by
  simp only [upperDeckN, ite_apply] at h
  split at h
  · injection h with h1 h2; injection h1 with h1; subst h1 h2; exact ⟨.refl _, .refl _⟩
  · rw [bind_of_ok (get_apply w)] at h
    cases hf : findEndPoint w.served (optionParseInt (ctx.opts "session") 0).1 <;> simp only [hf] at h
    · injection h with h1 h2; injection h1 with h1; subst h1 h2; exact ⟨.refl _, .refl _⟩
    · rw [bind_of_ok (show observe _ w = (.ok (), _) from rfl)] at h
      injection h with h1 h2; injection h1 with h1; subst h1 h2
      refine ⟨⟨(Like.obs w _).weaken, ?_, ⟨[], by simp [Obs.isClosed]⟩, fun ho _ => ⟨?_, ho⟩⟩, .obs w _⟩
      · simp [actsOf, Obs.act?, deliveries]
      · simp [actsOf, Obs.act?]

theorem start_effect {j : Job} {w w' : World} {r : Option (Dir × Nat × Ctx)} (h : j.start w = (.ok r, w')) :
    Effect [] w w' ∧ Like owner w w' := by
  cases j with
  | send conn data session =>
    injection h with _ h; subst h; exact ⟨.refl _, .refl _⟩
  | recv c bs =>
    simp only [Job.start] at h
    rw [bind_of_ok (get_apply w)] at h
    obtain ⟨ub, t, hu, h0⟩ := ok_bind h
    obtain ⟨x, t', hr, h1⟩ := ok_bind h0
    clear h h0
    have e1 : w = t := by injection hu
    have e2 := onBuf_world ub (UBuf.readFrom fun m => ⟨bs.take m, min m bs.length, none⟩) t
    rw [hr] at e2
    simp only at e2
    subst e1 e2
    rw [ite_apply] at h1
    split at h1
    · rw [bind_of_ok (closeConnection_apply c _)] at h1
      injection h1 with _ h; subst h; exact ⟨.close _ _, .close _ _⟩
    · injection h1 with _ h; subst h; exact ⟨.refl _, .refl _⟩
  | recvRef c v =>
    simp only [Job.start] at h
    rw [bind_of_ok (get_apply w), ite_apply] at h
    split at h
    · rw [bind_of_ok (closeConnection_apply c _)] at h
      injection h with _ h; subst h; exact ⟨.close _ _, .close _ _⟩
    · injection h with _ h; subst h; exact ⟨.refl _, .refl _⟩
  | control i c tag =>
    simp only [Job.start] at h
    rw [bind_of_ok (get_apply w)] at h
    obtain ⟨ub, t, hu, h0⟩ := ok_bind h
    obtain ⟨x, t', hr, h1⟩ := ok_bind h0
    clear h h0
    have e1 : w = t := by injection hu
    have e2 := onBuf_world ub (UBuf.writeByte tag) t
    rw [hr] at e2
    simp only at e2
    subst e1 e2
    injection h1 with _ h; subst h; exact ⟨.refl _, .refl _⟩

theorem Next.go_acts (pos : Nat) (g : G) (n : Next) : (n.go pos g).acts = g.acts := by
  cases n <;> simp [Next.go, G.ret, G.call]
theorem Seg.go_acts (pos : Nat) (g : G) (n : Seg) : (n.go pos g).acts = g.acts := by
  cases n <;> simp [Seg.go, G.ret, G.call]
theorem CSeg.go_acts (pos : Nat) (g : G) (n : CSeg) : (n.go pos g).acts = g.acts := by
  cases n <;> simp [CSeg.go, G.ret, G.call]

/-- The acts a goroutine remembers are those that happen to the world; nobody can tell the worlds before and after its step
apart, unless it uses a cache, and then this is all that changes. -/
theorem stepG_effect {g g' : G} {w w' : World} (h : stepG g w = (.ok g', w')) :
    (∃ a, g'.acts = g.acts ++ a ∧ Effect a w w') ∧ (Like owner w w' ∨ Touches g w ∧ OnlyAt g.spot w w') := by
  have loc : ∀ {i : Nat} {α : Type} {m : GoM World α} {f : α → G} (_ : (m >>= fun x => Pure.pure (f x)) w = (.ok g', w'))
      (_ : OnlyAt i w (m w).2) (_ : ∀ x, (f x).acts = g.acts), (∃ a, g'.acts = g.acts ++ a ∧ Effect a w w') ∧ OnlyAt i w w' := by
    intro i α m f h hl hf
    obtain ⟨x, t, hx, h⟩ := ok_bind h
    rw [hx] at hl
    injection h with h1 h2; injection h1 with h1; subst h1 h2
    exact ⟨⟨[], by simp [hf], hl.effect⟩, hl⟩
  cases hf : g.focus with
  | idle =>
    simp only [stepG, hf, idleStep] at h
    cases hj : g.jobs with
    | nil =>
      rw [hj] at h
      injection h with h1 h2; injection h1 with h1; subst h1 h2
      exact ⟨⟨[], by simp, .refl _⟩, .inl (.refl _)⟩
    | cons j js =>
      rw [hj] at h
      obtain ⟨r, t, hr, h⟩ := ok_bind h
      obtain ⟨e1, e2⟩ := start_effect hr
      cases r with
      | none =>
        injection h with h1 h2; injection h1 with h1; subst h1 h2
        exact ⟨⟨[], by simp, e1⟩, .inl e2⟩
      | some x =>
        injection h with h1 h2; injection h1 with h1; subst h1 h2
        exact ⟨⟨[], by simp [G.call], e1⟩, .inl e2⟩
  | ret ctx =>
    simp only [stepG, hf, retStep] at h
    cases hs : g.stack with
    | nil =>
      rw [hs] at h
      injection h with h1 h2; injection h1 with h1; subst h1 h2
      exact ⟨⟨[], by simp, .refl _⟩, .inl (.refl _)⟩
    | cons k st =>
      rw [hs] at h
      obtain ⟨pos, k⟩ := k
      have ht : Touches g w := by simp [Touches, hf, hs]
      have hsp : g.spot = pos - 1 := by simp [G.spot, hf, hs]
      rw [hsp]
      cases k with
      | cur rest =>
        obtain ⟨e1, e2⟩ := loc h (curIter_local _ _ _ _ w) fun x => by simp [Seg.go_acts]
        exact ⟨e1, .inr ⟨ht, e2⟩⟩
      | cached =>
        obtain ⟨e1, e2⟩ := loc h (cachedIter_local _ _ w) fun x => by simp [CSeg.go_acts]
        exact ⟨e1, .inr ⟨ht, e2⟩⟩
  | call dir pos ctx =>
    simp only [stepG, hf, callStep] at h
    rw [bind_of_ok (get_apply w)] at h
    have triv : ∀ {c : Ctx}, (Pure.pure (g.ret c none) : GoM World G) w = (.ok g', w') →
        (∃ a, g'.acts = g.acts ++ a ∧ Effect a w w') ∧ (Like owner w w' ∨ Touches g w ∧ OnlyAt g.spot w w') := by
      intro c h
      injection h with h1 h2; injection h1 with h1; subst h1 h2
      exact ⟨⟨[], by simp [G.ret], .refl _⟩, .inl (.refl _)⟩
    have triv' : ∀ {d : Dir} {p : Nat} {c : Ctx}, (Pure.pure (g.call d p c) : GoM World G) w = (.ok g', w') →
        (∃ a, g'.acts = g.acts ++ a ∧ Effect a w w') ∧ (Like owner w w' ∨ Touches g w ∧ OnlyAt g.spot w w') := by
      intro d p c h
      injection h with h1 h2; injection h1 with h1; subst h1 h2
      exact ⟨⟨[], by simp [G.call], .refl _⟩, .inl (.refl _)⟩
    by_cases h0 : pos = 0
    · rw [if_pos h0] at h
      cases dir with
      | up =>
        obtain ⟨a, t, ha, h⟩ := ok_bind h
        obtain ⟨e1, e2⟩ := upperDeckN_effect ha
        injection h with h1 h2; injection h1 with h1; subst h1 h2
        exact ⟨⟨a.toList, by simp [G.ret], e1⟩, .inl e2⟩
      | down => exact triv h
    · rw [if_neg h0] at h
      by_cases hn : pos > w.n
      · rw [if_pos hn] at h
        cases dir with
        | up => exact triv h
        | down =>
          obtain ⟨a, t, ha, h⟩ := ok_bind h
          have e1 := lowerDeckN_effect ha
          have e2 := lowerDeckN_like ctx w
          rw [ha] at e2
          injection h with h1 h2; injection h1 with h1; subst h1 h2
          exact ⟨⟨a.toList, by simp [G.ret], e1⟩, .inl e2⟩
      · rw [if_neg hn] at h
        cases dir with
        | down =>
          obtain ⟨e1, e2⟩ := loc h (onUpperN_local _ ctx w) fun x => by simp [Next.go_acts]
          refine ⟨e1, .inl ?_⟩
          by_cases hfr : (w.procs (pos - 1)).kind.isFrame = true
          · -- `FrameDecoder.OnUpperData` leaves the processor alone
            obtain ⟨x, t, hx, h⟩ := ok_bind h
            injection h with h1 h2; injection h1 with h1; subst h2
            have : t = w := by
              have := congrArg Prod.snd hx
              cases hk : (w.procs (pos - 1)).kind <;> simp [hk, Kind.isFrame] at hfr
              simp only [onUpperN, hk, frameUpperN] at this
              rw [← this]
              have H : Allows (fun a b : World => b = a) fun _ => False :=
                ⟨fun _ => rfl, fun h1 h2 => h2.trans h1, fun _ _ _ h => h.elim, fun _ _ _ h => h.elim, fun _ _ _ _ _ h => h.elim⟩
              refine Kp.bind H (.useReference H _) (fun r => .ite (.pure H _) (.ite ?_ (.pure H _))) w
              cases ctx.buf with
              | none => exact .pure H _
              | some ub => exact .bind H (.onBuf H _ _) fun _ => .pure H _
            rw [this]
            exact .refl _
          · exact e2.like_of (by simpa using hfr)
        | up =>
          simp only at h
          by_cases hfr : (w.procs (pos - 1)).kind.isFrame = true
          · rw [if_pos hfr] at h
            simp only [frameStep] at h
            cases hc : ctx.conn with
            | none =>
              rw [hc, bind_of_panic (show useReference none w = (.panic, w) from rfl)] at h
              injection h with h _; cases h
            | some c =>
              rw [hc, bind_of_ok (show useReference (some c) w = (.ok (w.conns c).useRef, w) from rfl)] at h
              by_cases hr : (w.conns c).useRef = true
              · rw [if_pos hr] at h; exact triv' h
              · rw [if_neg hr] at h
                cases hb : ctx.buf with
                | none => rw [hb] at h; exact triv h
                | some ub =>
                  rw [hb] at h
                  simp only at h
                  by_cases hen : (w.procs (pos - 1)).enable = true
                  · rw [if_pos hen] at h
                    obtain ⟨e1, e2⟩ := loc h (currentN_local _ _ _ w) fun x => by simp [Seg.go_acts]
                    have hsp : g.spot = pos - 1 := by simp [G.spot, hf]
                    rw [hsp]
                    refine ⟨e1, .inr ⟨?_, e2⟩⟩
                    simp only [Touches, hf]
                    refine ⟨h0, by omega, hfr, hen, by rw [hb]; rfl, fun x hx => ?_⟩
                    rw [hc] at hx
                    injection hx with hx
                    subst hx
                    simpa using hr
                  · rw [if_neg hen] at h; exact triv' h
          · rw [if_neg hfr] at h
            obtain ⟨e1, e2⟩ := loc h (onLowerN_local _ ctx w (by simpa using hfr)) fun x => by simp [Next.go_acts]
            exact ⟨e1, .inl (e2.like_of (by simpa using hfr))⟩

end Verif.Stack
