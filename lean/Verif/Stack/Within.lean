import Verif.Stack.Keeps

/-!
# Properties kept by every computation that works for one kind of context

Like `Keeps`, but the contexts are restricted to a set `Q` that the processors do not leave, and the
worlds to an invariant `G`: `Kc S m` says that from a world satisfying `G`, whatever `m` does, the
worlds before and after are related by `P`, `G` holds again, and a returned value satisfies `S`.
-/

namespace Verif.Stack
open GoM UBuf

/-- The user functions in a processor. -/
def Kind.fns : Kind → List (Option Fn)
  | .filter f _ _ => f
  | .forwarder f _ _ => f
  | _ => []

theorem Kind.Same.fns {a b : Kind} (h : a.Same b) : a.fns = b.fns := by
  cases a <;> cases b <;> simp_all [Kind.Same, Kind.fns]

structure Setting where
  P : World → World → Prop
  G : World → Prop
  Q : Ctx → Prop

/-- What a setting must allow. -/
structure Setting.Ok (X : Setting) : Prop where
  refl : ∀ w, X.P w w
  trans : ∀ {a b c}, X.P a b → X.P b c → X.P a c
  set : ∀ w i k, X.G w → (w.procs i).kind.Same k → X.P w (w.setKind i k) ∧ X.G (w.setKind i k)
  beat : ∀ (w : World) i ctx, X.G w → X.Q ctx →
    X.P w { w with trace := w.trace ++ [.beat i ctx.conn] } ∧ X.G { w with trace := w.trace ++ [.beat i ctx.conn] }
  shown : ∀ (w : World) t r n, X.G w →
    X.P w { w with trace := w.trace ++ [.shown t r n] } ∧ X.G { w with trace := w.trace ++ [.shown t r n] }
  buf : ∀ ctx b, X.Q ctx → X.Q { ctx with buf := b }
  msg : ∀ ctx v, X.Q ctx → X.Q { ctx with msg := v }
  opts : ∀ ctx o, X.Q ctx → X.Q { ctx with opts := o }
  fns : ∀ w i f ctx up, X.G w → some f ∈ (w.procs i).kind.fns → X.Q ctx → X.Q (f ctx up).2

/-- `m`, started in `w`. -/
def At' (X : Setting) (S : α → Prop) (w : World) (m : GoM World α) : Prop :=
  X.P w (m w).2 ∧ X.G (m w).2 ∧ ∀ a, (m w).1 = .ok a → S a

def Kc (X : Setting) (S : α → Prop) (m : GoM World α) : Prop := ∀ w, X.G w → At' X S w m

/-- A handler stays within the setting. -/
abbrev KcH (X : Setting) (h : Handler) : Prop := ∀ ctx, X.Q ctx → Kc X X.Q (h ctx)

variable {X : Setting}

theorem At'.ok (H : X.Ok) {S : α → Prop} {a : α} (ha : S a) {w : World} (hw : X.G w) : At' X S w (Pure.pure a : GoM World α) :=
  ⟨H.refl w, hw, fun _ e => by injection e with e; exact e ▸ ha⟩

theorem At'.stop (H : X.Ok) {S : α → Prop} {w : World} (hw : X.G w) {m : GoM World α} (h : m w = (.panic, w) ∨ m w = (.running, w)) :
    At' X S w m := by
  unfold At'
  rcases h with h | h <;> rw [h] <;> exact ⟨H.refl w, hw, fun _ e => by cases e⟩

theorem At'.bind (H : X.Ok) {S : α → Prop} {T : β → Prop} {w : World} {m : GoM World α} {f : α → GoM World β}
    (h1 : At' X S w m) (h2 : ∀ a w', S a → X.G w' → At' X T w' (f a)) : At' X T w (m >>= f) := by
  obtain ⟨hp, hg, hs⟩ := h1
  unfold At'
  rw [bind_apply]
  rcases hm : m w with ⟨r, w'⟩
  rw [hm] at hp hg hs
  cases r with
  | ok a =>
    obtain ⟨q1, q2, q3⟩ := h2 a w' (hs a rfl) hg
    exact ⟨H.trans hp q1, q2, q3⟩
  | panic => exact ⟨hp, hg, fun _ e => by cases e⟩
  | running => exact ⟨hp, hg, fun _ e => by cases e⟩

/-- A step that leaves the world alone. -/
theorem At'.still (H : X.Ok) {T : β → Prop} {w : World} (hw : X.G w) {m : GoM World α} {f : α → GoM World β}
    (hm : (m w).2 = w) (h2 : ∀ a, (m w).1 = .ok a → At' X T w (f a)) : At' X T w (m >>= f) := by
  unfold At'
  rw [bind_apply]
  rcases h : m w with ⟨r, w'⟩
  rw [h] at hm h2
  simp only at hm
  subst hm
  cases r with
  | ok a => exact h2 a rfl
  | panic => exact ⟨H.refl _, hw, fun _ e => by cases e⟩
  | running => exact ⟨H.refl _, hw, fun _ e => by cases e⟩

theorem At'.ite {S : α → Prop} {w : World} {c : Prop} [Decidable c] {m n : GoM World α} (h1 : At' X S w m)
    (h2 : At' X S w n) : At' X S w (if c then m else n) := by split <;> assumption

theorem At'.setKind (H : X.Ok) {T : β → Prop} {w : World} (hw : X.G w) {i : Nat} {k : Kind} (hk : (w.procs i).kind.Same k)
    {f : Unit → GoM World β} (h2 : X.G (w.setKind i k) → At' X T (w.setKind i k) (f ())) :
    At' X T w (Stack.setKind i k >>= f) := by
  obtain ⟨hp, hg⟩ := H.set w i k hw hk
  obtain ⟨q1, q2, q3⟩ := h2 hg
  unfold At'
  rw [bind_of_ok (setKind_apply i k w)]
  exact ⟨H.trans hp q1, q2, q3⟩

theorem allocBuf_world (a b : Int) (w : World) : (allocBuf a b w).2 = w := rfl

/-- Read the cache, compute, store it back. -/
theorem Kc.cacheUpdate (H : X.Ok) {i : Nat} {m : St → GoM World α} {f : α → Option St} {g : α → β}
    (hm : ∀ c w, (m c w).2 = w) :
    Kc X (fun _ => True) (do let c ← Stack.frameCache i; let r ← m c; Stack.setKind i (.frame (f r)); return g r) := by
  intro w hw
  rcases frameCache_cases i w with ⟨c, hc, h⟩ | h
  · refine .still H hw (by rw [h]) fun a ha => ?_
    refine .still H hw (hm a w) fun r _ => ?_
    exact .setKind H hw (by rw [hc]; trivial) fun hg => .ok H trivial hg
  · exact .stop H hw (.inl (bind_of_panic h))

theorem Kc.cacheReadFrom (H : X.Ok) {i : Nat} (ub : St) : Kc X (fun _ => True) (cacheReadFrom i ub) :=
  .cacheUpdate H (m := fun c => Stack.readFromBuf c ub) (f := fun r => some r.2.1) (g := fun r => r.2.2)
    fun c w => readFromBuf_world c ub w

theorem Kc.cacheReset (H : X.Ok) {i : Nat} : Kc X (fun _ => True) (cacheReset i) :=
  .cacheUpdate H (m := fun c => Stack.onBuf c UBuf.reset) (f := fun r => some r.2) (g := fun _ => ())
    fun c w => onBuf_world c _ w

theorem Kc.currentLoop (H : X.Ok) {i : Nat} {nb : Nb} (hu : KcH X nb.upLower) (fuel : Nat) (first : Bool)
    (ctx : Ctx) (hc : X.Q ctx) (ub : St) : Kc X X.Q (currentLoop i nb fuel first ctx ub) := by
  induction fuel generalizing first ctx ub with
  | zero => exact fun w hw => .stop H hw (.inr rfl)
  | succ fuel ih =>
    intro w hw
    simp only [Stack.currentLoop]
    have hk : ∀ ub : St, X.Q (if first then { ctx with buf := some ub } else ctx) := by
      intro ub; split
      · exact H.buf _ _ hc
      · exact hc
    refine .ite (.bind H (Kc.cacheReadFrom H ub w hw) fun _ w' _ hw' => .ok H (hk _) hw') ?_
    refine .still H hw (onBuf_world _ _ w) fun p _ => ?_
    refine .ite (.bind H (Kc.cacheReset H w hw) fun _ w' _ hw' => .ok H (hk _) hw') ?_
    refine .ite (.bind H (Kc.cacheReadFrom H ub w hw) fun _ w' _ hw' => .ok H (hk _) hw') ?_
    refine .ite (.still H hw (onBuf_world _ _ w) fun _ _ => hu _ (H.buf _ _ hc) w hw) ?_
    refine .still H hw (allocBuf_world _ _ w) fun nu _ => .still H hw (onBuf_world _ _ w) fun r _ =>
      .still H hw (copyN_world _ _ _ w) fun q _ => ?_
    exact .ite (.bind H (Kc.cacheReset H w hw) fun _ w' _ hw' => .ok H (hk _) hw')
      (.bind H (hu _ (H.buf _ _ hc) w hw) fun c w' hc' hw' => ih false c hc' _ w' hw')

theorem Kc.handleCurrent (H : X.Ok) {i : Nat} {nb : Nb} (hu : KcH X nb.upLower) (fuel : Nat)
    (ctx : Ctx) (hc : X.Q ctx) (ub : St) : Kc X X.Q (handleCurrent fuel i nb ctx ub) := by
  intro w hw
  simp only [Stack.handleCurrent]
  rcases frameCache_cases i w with ⟨c, _, h⟩ | h
  · refine .still H hw (by rw [h]) fun a ha => ?_
    exact .ite (.bind H (Kc.cacheReadFrom H ub w hw) fun _ w' _ hw' => .ok H (H.buf _ _ hc) hw')
      (Kc.currentLoop H hu fuel true ctx hc ub w hw)
  · exact .stop H hw (.inl (bind_of_panic h))

theorem Kc.handleCached (H : X.Ok) {i : Nat} {nb : Nb} (hu : KcH X nb.upLower) (fuel : Nat)
    (ctx : Ctx) (hc : X.Q ctx) : Kc X X.Q (handleCached i nb fuel ctx) := by
  induction fuel generalizing ctx with
  | zero => exact fun w hw => .stop H hw (.inr rfl)
  | succ fuel ih =>
    intro w hw
    simp only [Stack.handleCached]
    rcases frameCache_cases i w with ⟨c, hk, h⟩ | h
    · refine .still H hw (by rw [h]) fun a ha => ?_
      refine .ite (.bind H (Kc.cacheReset H w hw) fun _ w' _ hw' => .ok H hc hw') ?_
      refine .ite (.ok H hc hw) ?_
      refine .still H hw (onBuf_world _ _ w) fun p _ => ?_
      refine .ite (.bind H (Kc.cacheReset H w hw) fun _ w' _ hw' => .ok H hc hw') ?_
      refine .ite (.ok H hc hw) ?_
      refine .still H hw (allocBuf_world _ _ w) fun nu _ => .still H hw (onBuf_world _ _ w) fun r _ =>
        .still H hw (copyN_world _ _ _ w) fun q _ => ?_
      refine .setKind H hw (by rw [hk]; trivial) fun hw' => ?_
      exact .ite (.bind H (Kc.cacheReset H _ hw') fun _ w' _ hw' => .ok H hc hw')
        (.bind H (hu _ (H.buf _ _ hc) _ hw') fun c w' hc' hw' => ih c hc' w' hw')
    · exact .stop H hw (.inl (bind_of_panic h))

theorem Kc.frameLower (H : X.Ok) {i : Nat} {nb : Nb} (hu : KcH X nb.upLower) (fuel : Nat) (en : Bool) :
    KcH X (frameLower fuel i en nb) := by
  intro ctx hc w hw
  simp only [Stack.frameLower]
  refine .still H hw (useReference_world _ w) fun r _ => .ite (hu _ hc w hw) ?_
  cases ctx.buf with
  | none => exact .ok H hc hw
  | some ub =>
    exact .ite (.bind H (Kc.handleCurrent H hu fuel ctx hc ub w hw) fun c w' hc' hw' =>
      Kc.handleCached H hu fuel c hc' w' hw') (hu _ hc w hw)

theorem Kc.encodeDown (H : X.Ok) {nb : Nb} (hd : KcH X nb.downUpper) (ctx : Ctx) (hc : X.Q ctx) (b : List Byte) :
    Kc X X.Q (encodeDown nb ctx b) := by
  intro w hw
  simp only [Stack.encodeDown]
  exact .still H hw rfl fun w1 _ => .still H hw (allocBuf_world _ _ w) fun ub _ => .still H hw (onBuf_world _ _ w) fun r _ =>
    .ite (.ok H hc hw) (hd _ (H.buf _ _ hc) w hw)

theorem Kc.decodeUp (H : X.Ok) (ctx : Ctx) (hc : X.Q ctx) {k : Ctx → List Byte → GoM World Ctx}
    (hk : ∀ c b, X.Q c → Kc X X.Q (k c b)) : Kc X X.Q (decodeUp ctx k) := by
  intro w hw
  simp only [Stack.decodeUp]
  cases hb : ctx.buf with
  | none => exact .ok H hc hw
  | some ub =>
    refine .still H hw (by rw [check_apply]; split <;> rfl) fun _ _ => .still H hw (onBuf_world _ _ w) fun r _ =>
      .ite (.ok H (H.buf _ _ hc) hw) (hk _ _ (H.buf _ _ hc) w hw)

theorem Kc.genericUpper (H : X.Ok) {nb : Nb} (hd : KcH X nb.downUpper) (en : Bool)
    (enc : Option (Val → GoM St (Option Err))) : KcH X (genericUpper en enc nb) := by
  intro ctx hc w hw
  simp only [Stack.genericUpper]
  refine .ite ?_ (hd _ hc w hw)
  cases enc with
  | none => exact .ok H hc hw
  | some e =>
    exact .ite (.ok H hc hw) (.still H hw rfl fun w1 _ => .still H hw (allocBuf_world _ _ w) fun ub _ =>
      .still H hw (onBuf_world _ _ w) fun r _ => .ite (.ok H hc hw) (hd _ (H.buf _ _ hc) w hw))

theorem Kc.genericLower (H : X.Ok) {nb : Nb} (hu : KcH X nb.upLower) (en : Bool)
    (dec : Option (GoM St (Val × Option Err))) : KcH X (genericLower en dec nb) := by
  intro ctx hc w hw
  simp only [Stack.genericLower]
  refine .ite ?_ (hu _ hc w hw)
  cases dec with
  | none => exact .ok H hc hw
  | some e =>
    cases hb : ctx.buf with
    | none => exact .ok H hc hw
    | some ub =>
      exact .still H hw (onBuf_world _ _ w) fun r _ => .ite (.ok H (H.buf _ _ hc) hw)
        (hu _ (H.msg { ctx with buf := some r.2 } _ (H.buf _ (some r.2) hc)) w hw)

theorem Kc.tagDown (H : X.Ok) {nb : Nb} (hd : KcH X nb.downUpper) (t : Byte) (ctx : Ctx) (hc : X.Q ctx) (ub : St) :
    Kc X X.Q (tagDown t nb ctx ub) := by
  intro w hw
  simp only [Stack.tagDown]
  exact .still H hw (onBuf_world _ _ w) fun r _ => hd _ (H.buf _ _ hc) w hw

/-- The user functions keep the context within the setting. -/
theorem doFns_within (H : X.Ok) {w : World} (hw : X.G w) {i : Nat} (up : Bool) (fns : List (Option Fn))
    (hf : ∀ f, some f ∈ fns → some f ∈ (w.procs i).kind.fns) (ctx : Ctx) (hc : X.Q ctx) {r : Bool × Ctx}
    (h : (doFns up fns ctx w).1 = .ok r) : X.Q r.2 := by
  induction fns generalizing ctx with
  | nil => injection h with h; subst h; exact hc
  | cons f fns ih =>
    cases f with
    | none => cases h
    | some f =>
      have h1 := H.fns w i f ctx up hw (hf f (by simp)) hc
      simp only [doFns, ite_apply] at h
      split at h
      · injection h with h; subst h; exact h1
      · exact ih (fun g hg => hf g (by simp [hg])) _ h1 h

/-- `OnUpperData` of a processor stays within the setting. -/
theorem onUpper_within (H : X.Ok) {i : Nat} {nb : Nb} {w : World} (hw : X.G w) {p : Proc} (hp : w.procs i = p)
    (hu : KcH X nb.upLower) (hd : KcH X nb.downUpper) (hx : KcH X nb.upUpper) (ctx : Ctx) (hc : X.Q ctx) :
    At' X X.Q w (onUpper i p nb ctx) := by
  obtain ⟨en, k⟩ := p
  have hk : (w.procs i).kind = k := by rw [hp]
  have hdc := hd ctx hc w hw
  cases k with
  | base => exact .ok H hc hw
  | bytesCodec =>
    refine .ite ?_ hdc
    split
    · exact Kc.encodeDown H hd _ hc _ w hw
    · exact .ok H hc hw
  | stringCodec =>
    refine .ite ?_ hdc
    split
    · exact Kc.encodeDown H hd _ hc _ w hw
    · exact .ok H hc hw
  | jsonCodec m u =>
    refine .ite (.ite (.ok H hc hw) ?_) hdc
    split
    · exact Kc.encodeDown H hd _ hc _ w hw
    · exact .ok H hc hw
  | genericCodec e d => exact Kc.genericUpper H hd en e ctx hc w hw
  | gobCodec e d => exact Kc.genericUpper H hd en (some e) ctx hc w hw
  | session =>
    refine .ite ?_ hdc
    split
    · exact .ok H hc hw
    · exact .still H hw (onBuf_world _ _ w) fun r _ => .ite (.ok H (H.buf _ _ hc) hw) (hd _ (H.buf _ _ hc) w hw)
  | frame c =>
    refine .still H hw (useReference_world _ w) fun r _ => .ite (hx _ hc w hw) (.ite ?_ hdc)
    split
    · exact .ok H hc hw
    · exact .still H hw (onBuf_world _ _ w) fun r _ => hd _ (H.buf _ _ hc) w hw
  | stat tx rx =>
    refine .still H hw (useReference_world _ w) fun r _ => .ite hdc ?_
    cases ctx.buf with
    | none => exact .ok H hc hw
    | some ub =>
      cases en with
      | true => exact .setKind H hw (by rw [hk]; trivial) fun hw' => Kc.tagDown H hd _ _ hc _ _ hw'
      | false => exact Kc.tagDown H hd _ _ hc _ _ hw
  | heartbeat =>
    refine .still H hw (useReference_world _ w) fun r _ => .ite hdc ?_
    split
    · exact .ok H hc hw
    · exact Kc.tagDown H hd _ _ hc _ w hw
  | loadBalancer =>
    refine .still H hw (useReference_world _ w) fun r _ => .ite hdc ?_
    split
    · exact .ok H hc hw
    · exact Kc.tagDown H hd _ _ hc _ w hw
  | filter fns tx rx =>
    refine .ite (.still H hw (doFns_world _ _ _ w) fun r hr => ?_) hdc
    have hq := doFns_within H hw false fns (fun f h => by rw [hk]; exact h) ctx hc hr
    exact .ite (.setKind H hw (by rw [hk]; rfl) fun hw' => .ok H hq hw') (hd _ hq w hw)
  | forwarder fns tx rx =>
    refine .ite (.still H hw (doFns_world _ _ _ w) fun r hr => ?_) hdc
    have hq := doFns_within H hw false fns (fun f h => by rw [hk]; exact h) ctx hc hr
    exact .ite (.setKind H hw (by rw [hk]; rfl) fun hw' => .ok H hq hw') (hd _ hq w hw)
  | echo => exact hdc
  | loopback => exact hu ctx hc w hw
  | discarder => exact hdc
  | flow => exact hdc

theorem Kc.statResponse (H : X.Ok) {nb : Nb} (hd : KcH X nb.downUpper) (tx rx : UInt64) :
    KcH X (statResponse tx rx nb) := by
  intro ctx hc w hw
  simp only [Stack.statResponse]
  exact .still H hw rfl fun w1 _ => .still H hw (allocBuf_world _ _ w) fun _ _ => .still H hw (onBuf_world _ _ w) fun _ _ =>
    .still H hw (onBuf_world _ _ w) fun _ _ => .still H hw (onBuf_world _ _ w) fun _ _ =>
    .still H hw (onBuf_world _ _ w) fun _ _ => hd _ (H.buf _ _ hc) w hw

theorem Kc.statShow (H : X.Ok) : KcH X statShow := by
  intro ctx hc w hw
  simp only [Stack.statShow]
  cases ctx.buf with
  | none => exact .stop H hw (.inl rfl)
  | some ub =>
    refine .still H hw (onBuf_world _ _ w) fun t _ => .still H hw (onBuf_world _ _ w) fun r _ =>
      .still H hw (onBuf_world _ _ w) fun nm _ => .bind H (S := fun _ => True) ?_ fun _ w' _ hw' => .ok H (H.buf _ _ hc) hw'
    obtain ⟨h1, h2⟩ := H.shown w t.1.1 r.1.1 (nm.1.1 ++ List.replicate (128 - nm.1.1.length) 0) hw
    exact ⟨h1, h2, fun _ _ => trivial⟩

/-- `OnLowerData` of a processor stays within the setting. -/
theorem onLower_within (H : X.Ok) {i : Nat} {nb : Nb} (fuel : Nat) {w : World} (hw : X.G w) {p : Proc} (hp : w.procs i = p)
    (hu : KcH X nb.upLower) (hd : KcH X nb.downUpper) (ctx : Ctx) (hc : X.Q ctx) :
    At' X X.Q w (onLower fuel i p nb ctx) := by
  obtain ⟨en, k⟩ := p
  have hk : (w.procs i).kind = k := by rw [hp]
  have huc := hu ctx hc w hw
  cases k with
  | discarder =>
    cases en with
    | true => exact .ok H hc hw
    | false => exact huc
  | base => exact .ok H hc hw
  | bytesCodec => exact .ite (Kc.decodeUp H _ hc (fun c b hc => hu _ (H.msg _ _ hc)) w hw) huc
  | stringCodec => exact .ite (Kc.decodeUp H _ hc (fun c b hc => hu _ (H.msg _ _ hc)) w hw) huc
  | jsonCodec m u =>
    refine .ite (Kc.decodeUp H _ hc (fun c b hc w hw => ?_) w hw) huc
    split
    · exact hu _ (H.msg _ _ hc) w hw
    · exact .ok H hc hw
  | genericCodec e d => exact Kc.genericLower H hu en d ctx hc w hw
  | gobCodec e d => exact Kc.genericLower H hu en (some d) ctx hc w hw
  | session =>
    refine .ite ?_ huc
    split
    · exact .ok H hc hw
    · exact .still H hw (onBuf_world _ _ w) fun r _ => .ite (.ok H (H.buf _ _ hc) hw)
        (hu _ (H.opts { ctx with buf := some r.2 } _ (H.buf _ (some r.2) hc)) w hw)
  | frame c => exact Kc.frameLower H hu fuel en ctx hc w hw
  | stat tx rx =>
    refine .still H hw (useReference_world _ w) fun r _ => .ite huc ?_
    cases hb : ctx.buf with
    | none => exact .ok H hc hw
    | some ub =>
      refine .still H hw (onBuf_world _ _ w) fun r _ => ?_
      have hq : X.Q { ctx with buf := some r.2 } := H.buf _ _ hc
      refine .ite (.ok H hq hw) (.ite ?_ (hu _ hq w hw))
      refine .ite (Kc.statResponse H hd tx rx _ hq w hw) (.ite (Kc.statShow H _ hq w hw) ?_)
      exact .setKind H hw (by rw [hk]; trivial) fun hw' => hu _ hq _ hw'
  | heartbeat =>
    refine .still H hw (useReference_world _ w) fun r _ => .ite huc ?_
    split
    · exact .ok H hc hw
    · refine .still H hw (onBuf_world _ _ w) fun r _ => ?_
      have hq : X.Q { ctx with buf := some r.2 } := H.buf _ _ hc
      refine .ite (.ok H hq hw) (.ite (.bind H (S := fun _ => True) ?_ fun _ w' _ hw' => .ok H hq hw') (hu _ hq w hw))
      obtain ⟨h1, h2⟩ := H.beat w i _ hw hq
      exact ⟨h1, h2, fun _ _ => trivial⟩
  | loadBalancer =>
    refine .still H hw (useReference_world _ w) fun r _ => .ite huc ?_
    split
    · exact .ok H hc hw
    · refine .still H hw (onBuf_world _ _ w) fun r _ => ?_
      have hq : X.Q { ctx with buf := some r.2 } := H.buf _ _ hc
      exact .ite (.ok H hq hw) (.ite (.ok H hq hw) (hu _ hq w hw))
  | filter fns tx rx =>
    refine .ite (.still H hw (doFns_world _ _ _ w) fun r hr => ?_) huc
    have hq := doFns_within H hw true fns (fun f h => by rw [hk]; exact h) ctx hc hr
    exact .ite (.setKind H hw (by rw [hk]; rfl) fun hw' => .ok H hq hw') (hu _ hq w hw)
  | forwarder fns tx rx =>
    refine .ite (.still H hw (doFns_world _ _ _ w) fun r hr => ?_) huc
    have hq := doFns_within H hw true fns (fun f h => by rw [hk]; exact h) ctx hc hr
    exact .ite (.setKind H hw (by rw [hk]; rfl) fun hw' => .ok H hq hw') (hu _ hq w hw)
  | echo =>
    cases en with
    | true => exact hd ctx hc w hw
    | false => exact huc
  | loopback => exact .ok H hc hw
  | flow => exact huc

/-- The whole chain stays within the setting if its two ends do. -/
theorem call_within (H : X.Ok) (hup : KcH X upperDeckLower) (hlow : KcH X lowerDeckUpper) (fuel : Nat) :
    ∀ dir pos, KcH X (call fuel dir pos) := by
  induction fuel with
  | zero => intro dir pos ctx _ w hw; exact .stop H hw (.inr rfl)
  | succ fuel ih =>
    intro dir pos ctx hc w hw
    simp only [call]
    refine .still H hw rfl fun w1 h1 => ?_
    have h1 : w = w1 := by injection h1
    subst h1
    refine .ite ?_ (.ite ?_ ?_)
    · cases dir with
      | up => exact hup ctx hc w hw
      | down => exact .ok H hc hw
    · cases dir with
      | down => exact hlow ctx hc w hw
      | up => exact .ok H hc hw
    · cases dir with
      | down => exact onUpper_within H hw rfl (ih _ _) (ih _ _) (ih _ _) ctx hc
      | up => exact onLower_within H fuel hw rfl (ih _ _) (ih _ _) ctx hc

end Verif.Stack
