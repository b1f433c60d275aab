import Verif.Stack.Step

/-!
# Properties kept by every computation on the chain

`Kp P m`: whatever `m` does (return, panic, run out of budget), the worlds before and after are related
by `P`.  `Kind.Same`: two states of the same processor.
-/

namespace Verif.Stack
open GoM UBuf

/-- The same processor in a possibly different state (counters, cache). -/
def Kind.Same : Kind → Kind → Prop
  | .frame _, .frame _ => True
  | .stat _ _, .stat _ _ => True
  | .filter f _ _, .filter g _ _ => f = g
  | .forwarder f _ _, .forwarder g _ _ => f = g
  | k, k' => k = k'

theorem Kind.Same.refl (k : Kind) : k.Same k := by cases k <;> simp [Kind.Same]

theorem Kind.Same.trans {a b c : Kind} (h1 : a.Same b) (h2 : b.Same c) : a.Same c := by
  cases a <;> cases b <;> simp_all [Kind.Same] <;> cases c <;> simp_all [Kind.Same]

theorem Kind.Same.symm {a b : Kind} (h : a.Same b) : b.Same a := by
  cases a <;> cases b <;> simp_all [Kind.Same]

def Kp (P : World → World → Prop) (m : GoM World α) : Prop := ∀ w, P w (m w).2

/-- What a relation must allow: the state changes of the processors of the region `A`, and the
observations. -/
structure Allows (P : World → World → Prop) (A : Nat → Prop) : Prop where
  refl : ∀ w, P w w
  trans : ∀ {a b c}, P a b → P b c → P a c
  set : ∀ w i k, A i → (w.procs i).kind.Same k → P w (w.setKind i k)
  beat : ∀ (w : World) i c, A i → P w { w with trace := w.trace ++ [.beat i c] }
  shown : ∀ (w : World) i t r n, A i → P w { w with trace := w.trace ++ [.shown t r n] }

variable {P : World → World → Prop} {A : Nat → Prop}

theorem Kp.pure (H : Allows P A) (a : α) : Kp P (Pure.pure a : GoM World α) := fun w => H.refl w
theorem Kp.panic (H : Allows P A) : Kp P (GoM.panic : GoM World α) := fun w => H.refl w
theorem Kp.get (H : Allows P A) : Kp P (GoM.get : GoM World World) := fun w => H.refl w
theorem Kp.running (H : Allows P A) : Kp P (fun w => (.running, w) : GoM World α) := fun w => H.refl w

theorem Kp.bind (H : Allows P A) {m : GoM World α} {f : α → GoM World β} (h1 : Kp P m) (h2 : ∀ a, Kp P (f a)) :
    Kp P (m >>= f) := by
  intro w
  have h := h1 w
  rw [bind_apply]
  rcases hm : m w with ⟨r, w'⟩
  rw [hm] at h
  cases r with
  | ok a => exact H.trans h (h2 a w')
  | panic => exact h
  | running => exact h

theorem Kp.onBuf (H : Allows P A) (s : St) (m : GoM St α) : Kp P (onBuf s m) := by
  intro w
  simp only [Stack.onBuf]
  split <;> exact H.refl w

theorem Kp.allocBuf (H : Allows P A) (a b : Int) : Kp P (allocBuf a b) := fun w => H.refl w
theorem Kp.useReference (H : Allows P A) (c : Option ConnId) : Kp P (useReference c) := by
  intro w; cases c <;> exact H.refl w

theorem Kp.ite {c : Prop} [Decidable c] {m n : GoM World α} (h1 : Kp P m) (h2 : Kp P n) : Kp P (if c then m else n) := by
  split <;> assumption

theorem Kp.readFromBuf (H : Allows P A) (a b : St) : Kp P (readFromBuf a b) := by
  intro w
  simp only [Stack.readFromBuf]
  split
  · split <;> exact H.refl w
  · exact H.refl w

theorem Kp.copyN (H : Allows P A) (a b : St) (n : Nat) : Kp P (copyN a b n) :=
  .bind H (.readFromBuf H a b) fun _ => .pure H _

theorem frameCache_cases (i : Nat) (w : World) :
    (∃ c, (w.procs i).kind = .frame (some c) ∧ frameCache i w = (.ok c, w)) ∨ frameCache i w = (.panic, w) := by
  simp only [frameCache]
  rw [bind_of_ok (get_apply w)]
  cases hk : (w.procs i).kind with
  | frame c =>
    cases c with
    | some c => exact .inl ⟨c, rfl, rfl⟩
    | none => exact .inr rfl
  | _ => exact .inr rfl

theorem Kp.frameCache (H : Allows P A) (i : Nat) : Kp P (Stack.frameCache i) := by
  intro w
  rcases frameCache_cases i w with ⟨c, _, h⟩ | h <;> rw [h] <;> exact H.refl w

/-- Read the cache, compute, store it back. -/
theorem Kp.cacheUpdate (H : Allows P A) {i : Nat} (hi : A i) {m : St → GoM World α} {f : α → Option St} {g : α → β}
    (hm : ∀ c w, (m c w).2 = w) :
    Kp P (do let c ← Stack.frameCache i; let r ← m c; setKind i (.frame (f r)); return g r) := by
  intro w
  rcases frameCache_cases i w with ⟨c, hc, h⟩ | h
  · rw [bind_of_ok h, bind_apply]
    have := hm c w
    rcases hr : m c w with ⟨r, w'⟩
    rw [hr] at this
    simp only at this
    subst this
    cases r with
    | ok a =>
      show P w' (w'.setKind i _)
      exact H.set w' i _ hi (by rw [hc]; trivial)
    | panic => exact H.refl w'
    | running => exact H.refl w'
  · rw [bind_of_panic h]; exact H.refl w

theorem readFromBuf_world (a b : St) (w : World) : (readFromBuf a b w).2 = w := by
  simp only [readFromBuf]
  split
  · split <;> rfl
  · rfl

theorem onBuf_world (s : St) (m : GoM St α) (w : World) : (onBuf s m w).2 = w := by
  simp only [onBuf]; split <;> rfl

theorem copyN_world (a b : St) (n : Nat) (w : World) : (copyN a b n w).2 = w := by
  simp only [copyN, bind_apply]
  have := readFromBuf_world a b w
  rcases hq : readFromBuf a b w with ⟨q, w4⟩
  rw [hq] at this
  cases q <;> exact this

theorem at_ite {w : World} {c : Prop} [Decidable c] {m n : GoM World α} (h1 : P w (m w).2) (h2 : P w (n w).2) :
    P w ((if c then m else n) w).2 := by split <;> assumption

/-- A step that leaves the world alone. -/
theorem at_bind (H : Allows P A) {w : World} {m : GoM World α} {f : α → GoM World β} (h : (m w).2 = w)
    (hf : ∀ a, P w (f a w).2) : P w ((m >>= f) w).2 := by
  rw [bind_apply]
  rcases hm : m w with ⟨r, w'⟩
  rw [hm] at h
  simp only at h
  subst h
  cases r with
  | ok a => exact hf a
  | panic => exact H.refl _
  | running => exact H.refl _

theorem useReference_world (c : Option ConnId) (w : World) : (useReference c w).2 = w := by
  cases c <;> rfl

theorem Kp.cacheReadFrom (H : Allows P A) {i : Nat} (hi : A i) (ub : St) : Kp P (cacheReadFrom i ub) :=
  .cacheUpdate H hi (m := fun c => Stack.readFromBuf c ub) (f := fun r => some r.2.1) (g := fun r => r.2.2)
    fun c w => readFromBuf_world c ub w

theorem Kp.cacheReset (H : Allows P A) {i : Nat} (hi : A i) : Kp P (cacheReset i) :=
  .cacheUpdate H hi (m := fun c => Stack.onBuf c UBuf.reset) (f := fun r => some r.2) (g := fun _ => ())
    fun c w => onBuf_world c _ w

/-- Keep a handler. -/
abbrev KpH (P : World → World → Prop) (h : Handler) : Prop := ∀ ctx, Kp P (h ctx)

theorem Kp.currentLoop (H : Allows P A) {i : Nat} (hi : A i) {nb : Nb} (hu : KpH P nb.upLower) (fuel : Nat) (first : Bool)
    (ctx : Ctx) (ub : St) : Kp P (currentLoop i nb fuel first ctx ub) := by
  induction fuel generalizing first ctx ub with
  | zero => exact .running H
  | succ fuel ih =>
    simp only [Stack.currentLoop]
    refine .ite (.bind H (.cacheReadFrom H hi ub) fun _ => .pure H _) ?_
    refine .bind H (.onBuf H _ _) fun p => ?_
    refine .ite (.bind H (.cacheReset H hi) fun _ => .pure H _) ?_
    refine .ite (.bind H (.cacheReadFrom H hi ub) fun _ => .pure H _) ?_
    refine .ite (.bind H (.onBuf H _ _) fun _ => hu _) ?_
    refine .bind H (.allocBuf H _ _) fun nu => .bind H (.onBuf H _ _) fun r => .bind H (.copyN H _ _ _) fun q => ?_
    exact .ite (.bind H (.cacheReset H hi) fun _ => .pure H _) (.bind H (hu _) fun c => ih false c _)

theorem Kp.handleCurrent (H : Allows P A) {i : Nat} (hi : A i) {nb : Nb} (hu : KpH P nb.upLower) (fuel : Nat)
    (ctx : Ctx) (ub : St) : Kp P (handleCurrent fuel i nb ctx ub) := by
  simp only [Stack.handleCurrent]
  exact .bind H (.frameCache H i) fun c => .ite (.bind H (.cacheReadFrom H hi ub) fun _ => .pure H _)
    (.currentLoop H hi hu fuel true ctx ub)

theorem Kp.setFrame (H : Allows P A) {i : Nat} (hi : A i) {w : World} {c : Option St} (hk : (w.procs i).kind = .frame c)
    (c' : Option St) : P w (w.setKind i (.frame c')) := H.set w i _ hi (by rw [hk]; trivial)

theorem Kp.handleCached (H : Allows P A) {i : Nat} (hi : A i) {nb : Nb} (hu : KpH P nb.upLower) (fuel : Nat)
    (ctx : Ctx) : Kp P (handleCached i nb fuel ctx) := by
  induction fuel generalizing ctx with
  | zero => exact .running H
  | succ fuel ih =>
    intro w
    simp only [Stack.handleCached]
    rcases frameCache_cases i w with ⟨c, hc, h⟩ | h
    · rw [bind_of_ok h]
      refine at_ite (Kp.bind H (.cacheReset H hi) (fun _ => .pure H ctx) w) ?_
      refine at_ite (H.refl w) ?_
      refine at_bind H (onBuf_world _ _ w) fun p => ?_
      refine at_ite (Kp.bind H (.cacheReset H hi) (fun _ => .pure H ctx) w) ?_
      refine at_ite (H.refl w) ?_
      refine at_bind H rfl fun nu => at_bind H (onBuf_world _ _ w) fun r => at_bind H (copyN_world _ _ _ w) fun q => ?_
      rw [bind_of_ok (setKind_apply i _ w)]
      refine H.trans (Kp.setFrame H hi hc (some q.2.2)) ?_
      exact Kp.ite (.bind H (.cacheReset H hi) fun _ => .pure H ctx) (.bind H (hu _) fun c => ih c) _
    · rw [bind_of_panic h]; exact H.refl w

theorem Kp.frameLower (H : Allows P A) {i : Nat} (hi : A i) {nb : Nb} (hu : KpH P nb.upLower) (fuel : Nat) (en : Bool) :
    KpH P (frameLower fuel i en nb) := by
  intro ctx
  simp only [Stack.frameLower]
  refine .bind H (.useReference H _) fun r => .ite (hu _) ?_
  cases ctx.buf with
  | none => exact .pure H _
  | some ub => exact .ite (.bind H (.handleCurrent H hi hu fuel ctx ub) fun c => .handleCached H hi hu fuel c) (hu _)

theorem Kp.encodeDown (H : Allows P A) {nb : Nb} (hd : KpH P nb.downUpper) (ctx : Ctx) (b : List Byte) :
    Kp P (encodeDown nb ctx b) := by
  simp only [Stack.encodeDown]
  exact .bind H (.get H) fun w => .bind H (.allocBuf H _ _) fun ub => .bind H (.onBuf H _ _) fun r =>
    .ite (.pure H _) (hd _)

theorem Kp.decodeUp (H : Allows P A) (ctx : Ctx) {k : Ctx → List Byte → GoM World Ctx} (hk : ∀ c b, Kp P (k c b)) :
    Kp P (decodeUp ctx k) := by
  simp only [Stack.decodeUp]
  cases ctx.buf with
  | none => exact .pure H _
  | some ub =>
    refine .bind H (fun w => ?_) fun _ => .bind H (.onBuf H _ _) fun r => .ite (.pure H _) (hk _ _)
    rw [check_apply]; split <;> exact H.refl w

theorem Kp.genericUpper (H : Allows P A) {nb : Nb} (hd : KpH P nb.downUpper) (en : Bool)
    (enc : Option (Val → GoM St (Option Err))) : KpH P (genericUpper en enc nb) := by
  intro ctx
  simp only [Stack.genericUpper]
  refine .ite ?_ (hd _)
  cases enc with
  | none => exact .pure H _
  | some e =>
    exact .ite (.pure H _) (.bind H (.get H) fun w => .bind H (.allocBuf H _ _) fun ub => .bind H (.onBuf H _ _) fun r =>
      .ite (.pure H _) (hd _))

theorem Kp.genericLower (H : Allows P A) {nb : Nb} (hu : KpH P nb.upLower) (en : Bool)
    (dec : Option (GoM St (Val × Option Err))) : KpH P (genericLower en dec nb) := by
  intro ctx
  simp only [Stack.genericLower]
  refine .ite ?_ (hu _)
  cases dec with
  | none => exact .pure H _
  | some e =>
    cases hb : ctx.buf with
    | none => exact .pure H _
    | some ub => exact .bind H (.onBuf H _ _) fun r => .ite (.pure H _) (hu _)

theorem Kp.tagDown (H : Allows P A) {nb : Nb} (hd : KpH P nb.downUpper) (t : Byte) (ctx : Ctx) (ub : St) :
    Kp P (tagDown t nb ctx ub) := by
  simp only [Stack.tagDown]
  exact .bind H (.onBuf H _ _) fun r => hd _

theorem Kp.doFns (H : Allows P A) (up : Bool) (fns : List (Option Fn)) (ctx : Ctx) : Kp P (doFns up fns ctx) := by
  induction fns generalizing ctx with
  | nil => exact .pure H _
  | cons f fns ih =>
    cases f with
    | none => exact .panic H
    | some f =>
      simp only [Stack.doFns]
      exact .ite (.pure H _) (ih _)

theorem doFns_world (up : Bool) (fns : List (Option Fn)) (ctx : Ctx) (w : World) : (doFns up fns ctx w).2 = w := by
  induction fns generalizing ctx with
  | nil => rfl
  | cons f fns ih =>
    cases f with
    | none => rfl
    | some f =>
      simp only [doFns, ite_apply]
      split
      · rfl
      · exact ih _

/-- `OnUpperData` of a processor keeps what its neighbours keep. -/
theorem onUpper_keeps (H : Allows P A) {i : Nat} (hi : A i) {nb : Nb} {w : World} {p : Proc} (hp : w.procs i = p)
    (hu : p.kind = .loopback → KpH P nb.upLower)
    (hd : p.kind ≠ .loopback → KpH P nb.downUpper)
    (hx : (∃ c, p.kind = .frame c) → KpH P nb.upUpper) (ctx : Ctx) :
    P w (onUpper i p nb ctx w).2 := by
  obtain ⟨en, k⟩ := p
  have hk : (w.procs i).kind = k := by rw [hp]
  cases k with
  | base => exact H.refl w
  | bytesCodec =>
    have hd := hd (by simp)
    refine Kp.ite ?_ (hd ctx) w
    split
    · exact Kp.encodeDown H hd _ _
    · exact Kp.pure H _
  | stringCodec =>
    have hd := hd (by simp)
    refine Kp.ite ?_ (hd ctx) w
    split
    · exact Kp.encodeDown H hd _ _
    · exact Kp.pure H _
  | jsonCodec m u =>
    have hd := hd (by simp)
    refine Kp.ite (Kp.ite (Kp.pure H _) ?_) (hd ctx) w
    split
    · exact Kp.encodeDown H hd _ _
    · exact Kp.pure H _
  | genericCodec e d =>
    have hd := hd (by simp)
    exact Kp.genericUpper H hd en e ctx w
  | gobCodec e d =>
    have hd := hd (by simp)
    exact Kp.genericUpper H hd en (some e) ctx w
  | session =>
    have hd := hd (by simp)
    refine Kp.ite ?_ (hd ctx) w
    split
    · exact Kp.pure H _
    · exact Kp.bind H (.onBuf H _ _) fun r => .ite (.pure H _) (hd _)
  | frame c =>
    have hd := hd (by simp)
    refine Kp.bind H (.useReference H _) (fun r => .ite (hx ⟨c, rfl⟩ _) (.ite ?_ (hd _))) w
    split
    · exact Kp.pure H _
    · exact Kp.bind H (.onBuf H _ _) fun r => hd _
  | stat tx rx =>
    have hd1 := hd (by simp)
    refine at_bind H (useReference_world _ w) fun r => at_ite (hd1 _ w) ?_
    cases ctx.buf with
    | none => exact H.refl w
    | some ub =>
      cases en with
      | true =>
        refine H.trans (H.set w i (.stat (tx + 1) rx) hi (by rw [hk]; trivial)) ?_
        exact Kp.tagDown H hd1 _ _ _ _
      | false => exact Kp.tagDown H hd1 _ _ _ _
  | heartbeat =>
    have hd := hd (by simp)
    refine Kp.bind H (.useReference H _) (fun r => .ite (hd _) ?_) w
    split
    · exact Kp.pure H _
    · exact Kp.tagDown H hd _ _ _
  | loadBalancer =>
    have hd := hd (by simp)
    refine Kp.bind H (.useReference H _) (fun r => .ite (hd _) ?_) w
    split
    · exact Kp.pure H _
    · exact Kp.tagDown H hd _ _ _
  | filter fns tx rx =>
    have hd := hd (by simp)
    refine at_ite (at_bind H (doFns_world _ _ _ w) fun r => at_ite ?_ (hd _ w)) (hd _ w)
    exact H.set w i (.filter fns (tx + 1) rx) hi (by rw [hk]; rfl)
  | forwarder fns tx rx =>
    have hd := hd (by simp)
    refine at_ite (at_bind H (doFns_world _ _ _ w) fun r => at_ite ?_ (hd _ w)) (hd _ w)
    exact H.set w i (.forwarder fns (tx + 1) rx) hi (by rw [hk]; rfl)
  | echo =>
    have hd := hd (by simp)
    exact hd ctx w
  | loopback =>
    have hu := hu rfl
    exact hu ctx w
  | discarder =>
    have hd := hd (by simp)
    exact hd ctx w
  | flow =>
    have hd := hd (by simp)
    exact hd ctx w

theorem Kp.statResponse (H : Allows P A) {nb : Nb} (hd : KpH P nb.downUpper) (tx rx : UInt64) :
    KpH P (statResponse tx rx nb) := by
  intro ctx
  simp only [Stack.statResponse]
  exact .bind H (.get H) fun w => .bind H (.allocBuf H _ _) fun _ => .bind H (.onBuf H _ _) fun _ =>
    .bind H (.onBuf H _ _) fun _ => .bind H (.onBuf H _ _) fun _ => .bind H (.onBuf H _ _) fun _ => hd _

theorem Kp.statShow (H : Allows P A) {i : Nat} (hi : A i) : KpH P statShow := by
  intro ctx
  simp only [Stack.statShow]
  cases ctx.buf with
  | none => exact .panic H
  | some ub =>
    exact .bind H (.onBuf H _ _) fun _ => .bind H (.onBuf H _ _) fun _ => .bind H (.onBuf H _ _) fun _ =>
      .bind H (fun w => H.shown w i _ _ _ hi) fun _ => .pure H _

/-- Processors that never hand received data up: enabled Discarders and Echos. -/
def Blocks (p : Proc) : Prop := p.enable = true ∧ (p.kind = .discarder ∨ p.kind = .echo)

/-- Processors that send something down when they receive something: enabled Echos, and enabled StatCounters, which answer
requests. -/
def Bounces (p : Proc) : Prop := p.enable = true ∧ (p.kind = .echo ∨ ∃ t r, p.kind = .stat t r)

theorem Bounces.ne_loopback {p : Proc} (h : Bounces p) : p.kind ≠ .loopback := by
  rcases h.2 with h | ⟨t, r, h⟩ <;> rw [h] <;> simp

/-- `OnLowerData` of a processor keeps what its neighbours keep. -/
theorem onLower_keeps (H : Allows P A) {i : Nat} (hi : A i) {nb : Nb} (fuel : Nat) {w : World} {p : Proc}
    (hp : w.procs i = p)
    (hu : ¬ Blocks p → p.kind ≠ .loopback → KpH P nb.upLower) (hd : Bounces p → KpH P nb.downUpper) (ctx : Ctx) :
    P w (onLower fuel i p nb ctx w).2 := by
  obtain ⟨en, k⟩ := p
  have hk : (w.procs i).kind = k := by rw [hp]
  cases k with
  | discarder =>
    cases en with
    | true => exact H.refl w
    | false => exact hu (by simp [Blocks]) (by simp) ctx w
  | base => exact H.refl w
  | bytesCodec =>
    have hu := hu (by simp [Blocks]) (by simp)
    exact Kp.ite (Kp.decodeUp H _ fun c b => hu _) (hu ctx) w
  | stringCodec =>
    have hu := hu (by simp [Blocks]) (by simp)
    exact Kp.ite (Kp.decodeUp H _ fun c b => hu _) (hu ctx) w
  | jsonCodec m u =>
    have hu := hu (by simp [Blocks]) (by simp)
    refine Kp.ite (Kp.decodeUp H _ fun c b => ?_) (hu ctx) w
    split
    · exact hu _
    · exact .pure H _
  | genericCodec e d => exact Kp.genericLower H (hu (by simp [Blocks]) (by simp)) en d ctx w
  | gobCodec e d => exact Kp.genericLower H (hu (by simp [Blocks]) (by simp)) en (some d) ctx w
  | session =>
    have hu := hu (by simp [Blocks]) (by simp)
    refine Kp.ite ?_ (hu ctx) w
    split
    · exact Kp.pure H _
    · exact Kp.bind H (.onBuf H _ _) fun r => .ite (.pure H _) (hu _)
  | frame c => exact Kp.frameLower H hi (hu (by simp [Blocks]) (by simp)) fuel en ctx w
  | stat tx rx =>
    have hu2 : KpH P nb.upLower := hu (by simp [Blocks]) (by simp)
    refine at_bind H (useReference_world _ w) fun r => at_ite (hu2 _ w) ?_
    cases ctx.buf with
    | none => exact H.refl w
    | some ub =>
      cases en with
      | false => exact at_bind H (onBuf_world _ _ w) fun r => at_ite (H.refl w) (hu2 _ w)
      | true =>
      refine at_bind H (onBuf_world _ _ w) fun r => at_ite (H.refl w) (at_ite ?_ (hu2 _ w))
      refine at_ite (Kp.statResponse H (hd ⟨rfl, .inr ⟨_, _, rfl⟩⟩) tx rx _ w) (at_ite (Kp.statShow H hi _ w) ?_)
      refine H.trans (H.set w i (.stat tx (rx + 1)) hi (by rw [hk]; trivial)) ?_
      exact hu2 _ _
  | heartbeat =>
    have hu := hu (by simp [Blocks]) (by simp)
    refine Kp.bind H (.useReference H _) (fun r => .ite (hu _) ?_) w
    split
    · exact Kp.pure H _
    · exact .bind H (.onBuf H _ _) fun _ => .ite (.pure H _) (.ite (.bind H (fun w => H.beat w i _ hi) fun _ => .pure H _) (hu _))
  | loadBalancer =>
    have hu := hu (by simp [Blocks]) (by simp)
    refine Kp.bind H (.useReference H _) (fun r => .ite (hu _) ?_) w
    split
    · exact Kp.pure H _
    · exact .bind H (.onBuf H _ _) fun _ => .ite (.pure H _) (.ite (.pure H _) (hu _))
  | filter fns tx rx =>
    have hu := hu (by simp [Blocks]) (by simp)
    refine at_ite (at_bind H (doFns_world _ _ _ w) fun r => at_ite ?_ (hu _ w)) (hu _ w)
    exact H.set w i (.filter fns tx (rx + 1)) hi (by rw [hk]; rfl)
  | forwarder fns tx rx =>
    have hu := hu (by simp [Blocks]) (by simp)
    refine at_ite (at_bind H (doFns_world _ _ _ w) fun r => at_ite ?_ (hu _ w)) (hu _ w)
    exact H.set w i (.forwarder fns tx (rx + 1)) hi (by rw [hk]; rfl)
  | echo =>
    cases en with
    | true => exact hd ⟨rfl, .inl rfl⟩ ctx w
    | false => exact hu (by simp [Blocks]) (by simp) ctx w
  | loopback => exact H.refl w
  | flow => exact hu (by simp [Blocks]) (by simp) ctx w

/-! ## The whole chain -/

/-- Calls that start in a set of positions `R` stay in it (frame decoders call `upper.OnUpperData`, the
other elements the usual neighbours), except where the element at the border never calls across. -/
structure Region (R : Nat → Prop) (w : World) : Prop where
  /-- going up from `pos` -/
  up : ∀ i, R (i + 1) → ¬ R i → i < w.n → Blocks (w.procs i)
  /-- going down from `pos` -/
  down : ∀ i, R (i + 1) → ¬ R (i + 2) → i < w.n → (w.procs i).kind = .loopback

/-- The chain keeps `P` on a region. -/
theorem call_keeps (H : Allows P A) {R : Nat → Prop} (hA : ∀ i, R (i + 1) → A i)
    (hreg : ∀ w, Region R w ∨ ∀ w', P w w')
    (hup : R 0 → KpH P upperDeckLower) (hlow : ∀ w ctx, (∃ pos, R pos ∧ w.n < pos) → P w (lowerDeckUpper ctx w).2)
    (fuel : Nat) : ∀ dir pos, R pos → KpH P (call fuel dir pos) := by
  induction fuel with
  | zero => intro dir pos _ ctx; exact .running H
  | succ fuel ih =>
    intro dir pos hpos ctx w
    rcases hreg w with hw | hw
    case inr => exact hw _
    simp only [call]
    rw [bind_of_ok (get_apply w)]
    by_cases h0 : pos = 0
    · subst h0
      rw [if_pos rfl]
      cases dir with
      | up => exact hup hpos ctx w
      | down => exact H.refl w
    · rw [if_neg h0]
      by_cases hn : pos > w.n
      · rw [if_pos hn]
        cases dir with
        | down => exact hlow w ctx ⟨pos, hpos, hn⟩
        | up => exact H.refl w
      · rw [if_neg hn]
        obtain ⟨i, rfl⟩ : ∃ i, pos = i + 1 := ⟨pos - 1, by omega⟩
        simp only [Nat.add_sub_cancel]
        have hi : i < w.n := by omega
        have hU : ∀ d, ¬ Blocks (w.procs i) → KpH P (call fuel d i) := by
          intro d hnd
          by_cases hr : R i
          · exact ih d i hr
          · exact absurd (hw.up i hpos hr hi) hnd
        have hD : (w.procs i).kind ≠ .loopback → KpH P (call fuel .down (i + 2)) := by
          intro hnl
          by_cases hr : R (i + 2)
          · exact ih .down _ hr
          · exact absurd (hw.down i hpos hr hi) hnl
        cases dir with
        | down =>
          exact onUpper_keeps H (hA i hpos) rfl (fun h => hU .up (by rw [Blocks, h]; simp)) hD
            (fun ⟨c, h⟩ => hU .down (by rw [Blocks, h]; simp)) ctx
        | up => exact onLower_keeps H (hA i hpos) fuel rfl (fun h _ => hU .up h) (fun h => hD h.ne_loopback) ctx

/-- What processing data can change: processor states and connection states, and things happen; the
configuration stays. -/
structure Evolves (w w' : World) : Prop where
  mtu : w'.mtu = w.mtu
  overhead : w'.overhead = w.overhead
  name : w'.name = w.name
  n : w'.n = w.n
  served : w'.served = w.served
  write : w'.write = w.write
  enable : ∀ i, (w'.procs i).enable = (w.procs i).enable
  kind : ∀ i, (w.procs i).kind.Same (w'.procs i).kind
  useRef : ∀ c, (w'.conns c).useRef = (w.conns c).useRef
  closed : ∀ c, (w.conns c).closed = true → (w'.conns c).closed = true
  trace : ∃ t, w'.trace = w.trace ++ t

theorem Evolves.refl (w : World) : Evolves w w :=
  ⟨rfl, rfl, rfl, rfl, rfl, rfl, fun _ => rfl, fun _ => .refl _, fun _ => rfl, fun _ h => h, [], by simp⟩

theorem Evolves.trans {a b c : World} (h1 : Evolves a b) (h2 : Evolves b c) : Evolves a c := by
  obtain ⟨t1, e1⟩ := h1.trace
  obtain ⟨t2, e2⟩ := h2.trace
  exact ⟨h2.mtu.trans h1.mtu, h2.overhead.trans h1.overhead, h2.name.trans h1.name, h2.n.trans h1.n,
    h2.served.trans h1.served, h2.write.trans h1.write, fun i => (h2.enable i).trans (h1.enable i),
    fun i => (h1.kind i).trans (h2.kind i), fun c => (h2.useRef c).trans (h1.useRef c),
    fun c h => h2.closed c (h1.closed c h), t1 ++ t2, by rw [e2, e1, List.append_assoc]⟩

theorem Evolves.obs (w : World) (t : List Obs) : Evolves w { w with trace := w.trace ++ t } :=
  ⟨rfl, rfl, rfl, rfl, rfl, rfl, fun _ => rfl, fun _ => .refl _, fun _ => rfl, fun _ h => h, t, rfl⟩

theorem Evolves.setKind (w : World) (i : Nat) (k : Kind) (h : (w.procs i).kind.Same k) : Evolves w (w.setKind i k) := by
  refine ⟨rfl, rfl, rfl, rfl, rfl, rfl, fun j => ?_, fun j => ?_, fun _ => rfl, fun _ h => h, [], by simp [World.setKind]⟩
  · simp only [World.setKind]; split <;> rfl
  · simp only [World.setKind]; split
    · rename_i e; subst e; exact h
    · exact .refl _

theorem Evolves.close (w : World) (c : ConnId) : Evolves w (w.close c) := by
  refine ⟨rfl, rfl, rfl, rfl, rfl, rfl, fun _ => rfl, fun _ => .refl _, fun x => ?_, fun x h => ?_, [.closed c], rfl⟩
  · simp only [World.close]; split <;> rfl
  · simp only [World.close]; split
    · rfl
    · exact h

theorem Evolves.allows : Allows Evolves fun _ => True :=
  ⟨.refl, .trans, fun w i k _ h => .setKind w i k h, fun w i c _ => .obs w _, fun w _ t r n _ => .obs w _⟩

theorem evolves_connWrite (c : ConnId) (p : List Byte) : Kp Evolves (connWrite c p) := by
  have H := Evolves.allows
  refine .bind H (.get H) fun w => .ite (.pure H _) (.bind H (fun w => ?_) fun _ => .pure H _)
  exact .obs w _

theorem evolves_writeToConn (c : ConnId) (ub : St) : Kp Evolves (writeToConn c ub) := by
  have H := Evolves.allows
  exact .ite (.pure H _) (.bind H (.onBuf H _ _) fun _ => .bind H (evolves_connWrite _ _) fun _ =>
    .bind H (.onBuf H _ _) fun _ => .pure H _)

theorem evolves_setReference (c : ConnId) (v : Val) : Kp Evolves (setReference c v) := by
  have H := Evolves.allows
  refine .bind H (.get H) fun w => .ite (.pure H _) (.ite (.pure H _) (.bind H (fun w => ?_) fun _ => .pure H _))
  exact .obs w _

theorem evolves_lowerDeck : KpH Evolves lowerDeckUpper := by
  have H := Evolves.allows
  intro ctx
  simp only [lowerDeckUpper]
  split
  · exact .pure H _
  · refine .bind H (.useReference H _) fun r => .ite (.bind H (evolves_setReference _ _) fun ok => ?_) ?_
    · cases ok with
      | true => exact .pure H _
      | false => exact .bind H (fun w => .close w _) fun _ => .pure H _
    · split
      · exact .pure H _
      · refine .bind H (evolves_writeToConn _ _) fun r => ?_
        obtain ⟨e, ub⟩ := r
        cases e with
        | none => exact .pure H _
        | some e => exact .bind H (fun w => .close w _) fun _ => .pure H _

theorem evolves_upperDeck : KpH Evolves upperDeckLower := by
  have H := Evolves.allows
  intro ctx
  simp only [upperDeckLower]
  refine .ite (.pure H _) (.bind H (.get H) fun w => ?_)
  split
  · exact .pure H _
  · exact .bind H (fun w => .obs w _) fun _ => .pure H _

/-- Moving data never changes the configuration of the stack, on any chain, in any state, whether the
call returns or not. -/
theorem call_evolves (fuel : Nat) (dir : Dir) (pos : Nat) (ctx : Ctx) (w : World) :
    Evolves w (call fuel dir pos ctx w).2 :=
  call_keeps (R := fun _ => True) Evolves.allows (fun _ _ => trivial)
    (fun w => .inl ⟨fun _ _ h => absurd trivial h, fun _ _ h => absurd trivial h⟩) (fun _ => evolves_upperDeck)
    (fun w ctx _ => evolves_lowerDeck ctx w) fuel dir pos trivial ctx w

end Verif.Stack
