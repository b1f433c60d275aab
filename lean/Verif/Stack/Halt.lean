import Verif.Stack.Turn

/-!
# Passing data through the chain terminates

The positive half of C35: without an Echo above a Loopback, without a FrameDecoder between a StatCounter and a Loopback, with byte connections (or
without FrameDecoder), a call into the chain returns or panics within a number of nested calls that depends on the number of processors and the size
of the buffers only.
-/

namespace Verif.Stack
open GoM UBuf

/-! ## Computations that end -/

/-- `m` started in `w` returns with `Q` or panics. -/
def Ends (m : GoM σ α) (w : σ) (Q : α → σ → Prop) : Prop :=
  match m w with
  | (.ok a, w') => Q a w'
  | (.panic, _) => True
  | (.running, _) => False

theorem Ends.pure {Q : α → σ → Prop} {a : α} {w : σ} (h : Q a w) : Ends (Pure.pure a) w Q := h

theorem Ends.bind {m : GoM σ α} {f : α → GoM σ β} {w : σ} {Q : β → σ → Prop}
    (h : Ends m w fun a w' => Ends (f a) w' Q) : Ends (m >>= f) w Q := by
  simp only [Ends, bind_apply] at h ⊢
  rcases hm : m w with ⟨r, w'⟩
  rw [hm] at h
  cases r with
  | ok a => exact h
  | panic => trivial
  | running => exact h

theorem Ends.ite {c : Prop} [Decidable c] {m n : GoM σ α} {w : σ} {Q : α → σ → Prop} (h1 : Ends m w Q) (h2 : Ends n w Q) :
    Ends (if c then m else n) w Q := by split <;> assumption

theorem Ends.mono {m : GoM σ α} {w : σ} {Q R : α → σ → Prop} (h : Ends m w Q) (hi : ∀ a w', Q a w' → R a w') : Ends m w R := by
  simp only [Ends] at h ⊢
  rcases hm : m w with ⟨r, w'⟩
  rw [hm] at h
  cases r with
  | ok a => exact hi _ _ h
  | panic => trivial
  | running => exact h

theorem Ends.ne_running {m : GoM σ α} {w : σ} {Q : α → σ → Prop} (h : Ends m w Q) : (m w).1 ≠ .running := by
  intro e
  simp only [Ends] at h
  rcases hm : m w with ⟨r, w'⟩
  rw [hm] at e h
  simp only at e
  subst e
  exact h

theorem Ends.of_ne {m : GoM σ α} {w : σ} (h : (m w).1 ≠ .running) : Ends m w fun a w' => m w = (.ok a, w') := by
  simp only [Ends]
  rcases hm : m w with ⟨r, w'⟩
  rw [hm] at h
  cases r with
  | ok a => rfl
  | panic => trivial
  | running => exact absurd rfl h

/-- Returns or panics in every state. -/
def Halts (m : GoM σ α) : Prop := ∀ s, (m s).1 ≠ .running

theorem Halts.pure (a : α) : Halts (Pure.pure a : GoM σ α) := fun s => by simp
theorem Halts.get : Halts (GoM.get : GoM σ σ) := fun s => by simp
theorem Halts.modify (f : σ → σ) : Halts (GoM.modify f) := fun s => by simp
theorem Halts.check (c : Bool) : Halts (GoM.check c : GoM σ Unit) := fun s => by rw [check_apply]; split <;> simp
theorem Halts.bind {m : GoM σ α} {f : α → GoM σ β} (h1 : Halts m) (h2 : ∀ a, Halts (f a)) : Halts (m >>= f) := by
  intro s
  rw [bind_apply]
  rcases hm : m s with ⟨r, s'⟩
  cases r with
  | ok a => exact h2 a s'
  | panic => simp
  | running => exact absurd (by rw [hm]) (h1 s)
theorem Halts.ite {c : Prop} [Decidable c] {m n : GoM σ α} (h1 : Halts m) (h2 : Halts n) : Halts (if c then m else n) := by
  split <;> assumption

theorem Halts.ends {m : GoM σ α} (h : Halts m) (w : σ) : Ends m w fun a w' => m w = (.ok a, w') := .of_ne (h w)

/-! ## Buffer methods always end -/

theorem Halts.resolveCow : Halts resolveCow := by
  intro s
  simp only [UBuf.resolveCow]
  split
  · simp
  · split
    · simp
    · split <;> simp

theorem Halts.bytesFrom (i : Nat) : Halts (bytesFrom i) := by
  intro s; simp only [UBuf.bytesFrom]; split <;> simp
theorem Halts.bytesRange (i j : Nat) : Halts (bytesRange i j) := by
  intro s; simp only [UBuf.bytesRange]; split <;> simp
theorem Halts.byteAt (i : Nat) : Halts (byteAt i) := by
  intro s; simp only [UBuf.byteAt]; split <;> simp
theorem Halts.storeAt (i : Nat) (bs : List Byte) : Halts (storeAt i bs) := .modify _
theorem Halts.reset : Halts reset := .modify _

theorem Halts.writeByte (c : Byte) : Halts (writeByte c) :=
  .bind .get fun _ => .ite (.pure _) (.bind .resolveCow fun _ => .bind .get fun _ => .bind (.check _) fun _ =>
    .bind (.storeAt _ _) fun _ => .bind (.modify _) fun _ => .pure _)

theorem Halts.write (p : List Byte) : Halts (write p) :=
  .bind .get fun _ => .ite (.pure _) (.bind .resolveCow fun _ => .bind .get fun _ => .bind (.bytesFrom _) fun _ =>
    .bind (.storeAt _ _) fun _ => .bind (.modify _) fun _ => .ite (.pure _) (.pure _))

theorem Halts.writeU (w : Width) (o : Order) (v : Nat) : Halts (writeU w o v) :=
  .bind .get fun _ => .ite (.pure _) (.bind (.write _) fun _ => .pure _)

theorem Halts.read (n : Nat) : Halts (read n) :=
  .bind .get fun _ => .ite (.pure _) (.bind (.bytesFrom _) fun _ => .bind (.modify _) fun _ => .ite (.pure _) (.pure _))

theorem Halts.readU (w : Width) (o : Order) : Halts (readU w o) := by
  refine .bind .get fun _ => .ite (.pure _) (.bind (.bind (.read _) fun _ => .ite (.pure _) (.pure _)) fun r => ?_)
  split <;> exact .pure _

theorem Halts.writeTo (wr : List Byte → WriteRes) : Halts (writeTo wr) :=
  .bind .get fun _ => .ite (.pure _) (.bind (.bytesRange _ _) fun _ => .ite (.pure _) (.bind (.modify _) fun _ => .pure _))

theorem Halts.writeHead (n : Nat) {fn : GoM St (Option Err)} (h : Halts fn) : Halts (writeHead n fn) :=
  .bind .get fun _ => .ite (.pure _) (.bind (.modify _) fun _ => .bind h fun _ => 
    .ite (.bind (.modify _) fun _ => .bind (.modify _) fun _ => .pure _) (.bind (.modify _) fun _ => .pure _))

theorem Halts.writeHeadByte (c : Byte) : Halts (writeHeadByte c) := .writeHead 1 (.writeByte c)
theorem Halts.writeHeadU (w : Width) (o : Order) (v : Nat) : Halts (writeHeadU w o v) := .writeHead _ (.writeU w o v)

theorem Ends.onBuf {s : St} {m : GoM St α} {w : World} {Q : α × St → World → Prop}
    (h : Ends m s fun a s' => Q (a, s') w) : Ends (onBuf s m) w Q := by
  simp only [Ends, Stack.onBuf] at h ⊢
  rcases hm : m s with ⟨r, s'⟩
  rw [hm] at h
  cases r with
  | ok a => exact h
  | panic => trivial
  | running => exact h

theorem Ends.onBuf' {s : St} {m : GoM St α} (hm : Halts m) {w : World} {Q : α × St → World → Prop}
    (h : ∀ a, Q a w) : Ends (Stack.onBuf s m) w Q := .onBuf ((hm.ends s).mono fun _ _ _ => h _)

theorem Ends.allocBuf {a b : Int} {w : World} {Q : St → World → Prop} (h : ∀ s, Q s w) : Ends (allocBuf a b) w Q := by
  simp only [Ends, Stack.allocBuf, UBuf.alloc]
  by_cases hc : a ≤ 0 ∨ b < 0 ∨ b > a
  · rw [if_pos hc]; trivial
  · rw [if_neg hc]; exact h _

theorem Ends.get {w : σ} {Q : σ → σ → Prop} (h : Q w w) : Ends GoM.get w Q := h
theorem Ends.panic {w : σ} {Q : α → σ → Prop} : Ends GoM.panic w Q := trivial

theorem Ends.useReference {c : Option ConnId} {w : World} {Q : Bool → World → Prop} (h : ∀ cid, c = some cid → Q (w.conns cid).useRef w) :
    Ends (useReference c) w Q := by
  cases c with
  | none => trivial
  | some c => exact h c rfl

/-! ## What calls leave alone -/

def IsFrame (k : Kind) : Prop := ∃ c, k = .frame c

/-- The configuration and the caches of the frame decoders are as before. -/
structure Still (w w' : World) : Prop where
  ev : Evolves w w'
  frames : ∀ j, IsFrame (w.procs j).kind → w'.procs j = w.procs j

theorem Still.refl (w : World) : Still w w := ⟨.refl w, fun _ _ => rfl⟩

theorem Still.trans {a b c : World} (h1 : Still a b) (h2 : Still b c) : Still a c :=
  ⟨h1.ev.trans h2.ev, fun j hj => (h2.frames j (by rw [h1.frames j hj]; exact hj)).trans (h1.frames j hj)⟩

theorem Still.obs (w : World) (t : List Obs) : Still w { w with trace := w.trace ++ t } := ⟨.obs w t, fun _ _ => rfl⟩

theorem Still.close (w : World) (c : ConnId) : Still w (w.close c) := ⟨.close w c, fun _ _ => rfl⟩

theorem Still.set {w : World} {i : Nat} {k k0 : Kind} (h0 : (w.procs i).kind = k0) (hk : k0.Same k) (hf : ¬ IsFrame k0) :
    Still w (w.setKind i k) := by
  subst h0
  refine ⟨.setKind w i k hk, fun j hj => ?_⟩
  by_cases h : j = i
  · subst h; exact absurd hj hf
  · simp [World.setKind, h]

/-! ## The conditions -/

/-- A buffer with at most `B` readable bytes. -/
def FitsBuf (B : Nat) (s : St) : Prop := Good s ∧ (data s).length ≤ B

def Fits (B : Nat) (ctx : Ctx) : Prop := ∀ s, ctx.buf = some s → FitsBuf B s

/-- User functions return, and do not grow a received buffer beyond `B`. -/
def Tame (B : Nat) (p : Proc) : Prop :=
  match p.kind with
  | .genericCodec e d => (∀ e', e = some e' → ∀ v, Halts (e' v)) ∧
      ∀ d', d = some d' → ∀ s, FitsBuf B s → Ends d' s fun _ s' => FitsBuf B s'
  | .gobCodec e d => (∀ v, Halts (e v)) ∧ ∀ s, FitsBuf B s → Ends d s fun _ s' => FitsBuf B s'
  | .filter fns _ _ | .forwarder fns _ _ => ∀ f, some f ∈ fns → ∀ ctx up, Fits B ctx → Fits B (f ctx up).2
  | _ => True

/-- A buffer with a capacity of at most `B` bytes. -/
def CapBuf (B : Nat) (s : St) : Prop := Good s ∧ (view s).cap ≤ B

def Caps (B : Nat) (ctx : Ctx) : Prop := ∀ s, ctx.buf = some s → CapBuf B s

/-- User functions on the way down keep buffers within a capacity of `B`. -/
def TameDown (B : Nat) (p : Proc) : Prop :=
  match p.kind with
  | .genericCodec e _ => ∀ e', e = some e' → ∀ v s, CapBuf B s → Ends (e' v) s fun _ s' => CapBuf B s'
  | .gobCodec e _ => ∀ v s, CapBuf B s → Ends (e v) s fun _ s' => CapBuf B s'
  | .filter fns _ _ | .forwarder fns _ _ => ∀ f, some f ∈ fns → ∀ ctx, Caps B ctx → Caps B (f ctx false).2
  | _ => True

/-- An enabled StatCounter. -/
def Counts (p : Proc) : Prop := p.enable = true ∧ ∃ t r, p.kind = .stat t r

/-- Hands up what it handed down, or nothing. -/
def Returns (p : Proc) : Prop := (Opens p ∨ p.kind = .loadBalancer) ∧ ¬ Frames p

/-- Above a Loopback no Echo is enabled, and what an enabled StatCounter sends comes back as it was; no FrameDecoder on reference
connections; tame user functions. -/
structure Sane (B : Nat) (w : World) : Prop where
  turn : ∀ i l, i < l → l < w.n → (w.procs l).kind = .loopback → (Bounces (w.procs i) → Counts (w.procs i) ∧ Built w ∧
    (∀ j, i < j → j < l → ¬ Frames (w.procs j)) ∧
    ∃ l', i < l' ∧ l' ≤ l ∧ (w.procs l').kind = .loopback ∧ ∀ j, i < j → j < l' → Returns (w.procs j)) ∧ TameDown B (w.procs i)
  plain : (∀ c, (w.conns c).useRef = false) ∨ ∀ j, j < w.n → ¬ IsFrame (w.procs j).kind
  tame : ∀ j, j < w.n → Tame B (w.procs j)

theorem Same.frame {k k' : Kind} (h : k.Same k') : IsFrame k ↔ IsFrame k' := by
  cases k <;> cases k' <;> simp_all [Kind.Same, IsFrame]

theorem Same.tame {B : Nat} {p q : Proc} (h : p.kind.Same q.kind) (ht : Tame B p) : Tame B q := by
  obtain ⟨e, k⟩ := p
  obtain ⟨e', k'⟩ := q
  simp only at h
  cases k <;> cases k' <;> simp_all [Kind.Same, Tame]

theorem Same.tameDown {B : Nat} {p q : Proc} (h : p.kind.Same q.kind) (ht : TameDown B p) : TameDown B q := by
  obtain ⟨e, k⟩ := p
  obtain ⟨e', k'⟩ := q
  simp only at h
  cases k <;> cases k' <;> simp_all [Kind.Same, TameDown]

theorem Same.bounces {p q : Proc} (h : p.kind.Same q.kind) (he : q.enable = p.enable) (ht : Bounces q) : Bounces p := by
  obtain ⟨e, k⟩ := p
  obtain ⟨e', k'⟩ := q
  simp only at h he
  cases k <;> cases k' <;> simp_all [Kind.Same, Bounces]

theorem Same.loopback_iff {k k' : Kind} (h : k.Same k') : k = .loopback ↔ k' = .loopback := by
  cases k <;> cases k' <;> simp_all [Kind.Same]

theorem Same.counts {p q : Proc} (h : p.kind.Same q.kind) (he : q.enable = p.enable) (ht : Counts p) : Counts q := by
  obtain ⟨e, k⟩ := p
  obtain ⟨e', k'⟩ := q
  simp only at h he
  cases k <;> cases k' <;> simp_all [Kind.Same, Counts]

theorem Evolves.sameProc {w w' : World} (h : Evolves w w') (j : Nat) : SameProc (w.procs j) (w'.procs j) := ⟨h.enable j, h.kind j⟩

theorem SameProc.returns {p q : Proc} (h : SameProc p q) (hp : Returns p) : Returns q := by
  refine ⟨?_, fun hf => hp.2 (h.frames hf)⟩
  rcases hp.1 with h1 | h1
  · exact .inl (h.opens h1)
  · right
    obtain ⟨e, k⟩ := p
    obtain ⟨e', k'⟩ := q
    obtain ⟨h2, h3⟩ := h
    simp only at h1 h3
    subst h1
    cases k' <;> simp_all [Kind.Same]

theorem Built.evolves {w w' : World} (h : Built w) (he : Evolves w w') : Built w' := by
  rw [Built, he.overhead, he.n, room_same he.sameProc]
  exact h

theorem Sane.evolves {B : Nat} {w w' : World} (h : Sane B w) (he : Evolves w w') : Sane B w' := by
  refine ⟨fun j l hl hn hk => ?_, ?_, fun j hj => ?_⟩
  · obtain ⟨h1, h2⟩ := h.turn j l hl (by rw [← he.n]; exact hn) ((Same.loopback_iff (he.kind l)).mpr hk)
    refine ⟨fun hb => ?_, Same.tameDown (he.kind j) h2⟩
    obtain ⟨c1, c2, c7, l', c3, c4, c5, c6⟩ := h1 (Same.bounces (he.kind j) (he.enable j) hb)
    exact ⟨Same.counts (he.kind j) (he.enable j) c1, c2.evolves he, fun k k1 k2 hk => c7 k k1 k2 ((he.sameProc k).frames hk), l', c3, c4, (Same.loopback_iff (he.kind l')).mp c5,
      fun k k1 k2 => (he.sameProc k).returns (c6 k k1 k2)⟩
  · rcases h.plain with h1 | h1
    · exact .inl fun c => by rw [he.useRef, h1 c]
    · exact .inr fun j hj hf => h1 j (by rw [← he.n]; exact hj) ((Same.frame (he.kind j)).mpr hf)
  · exact Same.tame (he.kind j) (h.tame j (by rw [← he.n]; exact hj))

/-! ## Going down -/

theorem ends_encodeDown {nb : Nb} {w : World} {Q : Ctx → World → Prop} (ctx : Ctx) (b : List Byte) (hret : Q ctx w)
    (hd : ∀ ctx', Ends (nb.downUpper ctx') w Q) : Ends (encodeDown nb ctx b) w Q :=
  .bind (.get (.bind (.allocBuf fun _ => .bind (.onBuf' (.write b) fun _ => .ite (.pure hret) (hd _)))))

theorem ends_tagDown {nb : Nb} {w : World} {Q : Ctx → World → Prop} (t : Byte) (ctx : Ctx) (ub : St)
    (hd : ∀ ctx', Ends (nb.downUpper ctx') w Q) : Ends (tagDown t nb ctx ub) w Q :=
  .bind (.onBuf' (.writeHeadByte t) fun _ => hd _)

theorem doFns_ends {w : World} {Q : Bool × Ctx → World → Prop} (up : Bool) (fns : List (Option Fn)) (ctx : Ctx) (P : Ctx → Prop)
    (hP : ∀ f, some f ∈ fns → ∀ c, P c → P (f c up).2) (h0 : P ctx) (h : ∀ r, P r.2 → Q r w) : Ends (doFns up fns ctx) w Q := by
  induction fns generalizing ctx with
  | nil => exact h (false, ctx) h0
  | cons f fns ih =>
    cases f with
    | none => trivial
    | some f =>
      have h1 := hP f (by simp) ctx h0
      simp only [doFns]
      exact .ite (.pure (h _ h1)) (ih _ (fun g hg => hP g (by simp [hg])) h1)

/-- `OnUpperData` of a processor that is no Loopback ends if the neighbour below does. -/
theorem onUpper_ends {B i : Nat} {nb : Nb} {w : World} {Q : Ctx → World → Prop} (hl : (w.procs i).kind ≠ .loopback)
    (hplain : IsFrame (w.procs i).kind → ∀ c, (w.conns c).useRef = false) (ht : Tame B (w.procs i))
    (hret : ∀ ctx' w', Still w w' → Q ctx' w') (hd : ∀ ctx' w', Still w w' → Ends (nb.downUpper ctx') w' Q) (ctx : Ctx) :
    Ends (onUpper i (w.procs i) nb ctx) w Q := by
  have hr : ∀ ctx', Q ctx' w := fun c => hret c w (.refl w)
  have hd0 : ∀ ctx', Ends (nb.downUpper ctx') w Q := fun c => hd c w (.refl w)
  generalize hp : w.procs i = p at *
  obtain ⟨en, k⟩ := p
  have hk : (w.procs i).kind = k := by rw [hp]
  cases k with
  | base => exact hr ctx
  | bytesCodec =>
    refine .ite ?_ (hd0 _)
    split
    · exact ends_encodeDown _ _ (hr _) hd0
    · exact .pure (hr _)
  | stringCodec =>
    refine .ite ?_ (hd0 _)
    split
    · exact ends_encodeDown _ _ (hr _) hd0
    · exact .pure (hr _)
  | jsonCodec m u =>
    refine .ite (.ite (.pure (hr _)) ?_) (hd0 _)
    split
    · exact ends_encodeDown _ _ (hr _) hd0
    · exact .pure (hr _)
  | genericCodec e d =>
    refine .ite ?_ (hd0 _)
    cases e with
    | none => exact .pure (hr _)
    | some e =>
      exact .ite (.pure (hr _)) (.bind (.get (.bind (.allocBuf fun _ => .bind (.onBuf' (ht.1 e rfl _) fun _ =>
        .ite (.pure (hr _)) (hd0 _))))))
  | gobCodec e d =>
    exact .ite (.ite (.pure (hr _)) (.bind (.get (.bind (.allocBuf fun _ => .bind (.onBuf' (ht.1 _) fun _ =>
        .ite (.pure (hr _)) (hd0 _))))))) (hd0 _)
  | session =>
    refine .ite ?_ (hd0 _)
    split
    · exact .pure (hr _)
    · exact .bind (.onBuf' (.writeHeadU _ _ _) fun _ => .ite (.pure (hr _)) (hd0 _))
  | frame c =>
    refine .bind (.useReference fun cid _ => ?_)
    rw [hplain ⟨c, rfl⟩ cid]
    simp only [Bool.false_eq_true, if_false]
    refine .ite ?_ (hd0 _)
    split
    · exact .pure (hr _)
    · exact .bind (.onBuf' (.writeHeadU _ _ _) fun _ => hd0 _)
  | stat tx rx =>
    refine .bind (.useReference fun cid _ => .ite (hd0 _) ?_)
    cases ctx.buf with
    | none => exact .pure (hr _)
    | some ub =>
      cases en with
      | true =>
        have hs : Still w (w.setKind i (.stat (tx + 1) rx)) := .set hk trivial (by rintro ⟨c, h⟩; cases h)
        exact ends_tagDown (w := w.setKind i (.stat (tx + 1) rx)) _ _ _ fun c => hd c _ hs
      | false => exact ends_tagDown _ _ _ hd0
  | heartbeat =>
    refine .bind (.useReference fun cid _ => .ite (hd0 _) ?_)
    split
    · exact .pure (hr _)
    · exact ends_tagDown _ _ _ hd0
  | loadBalancer =>
    refine .bind (.useReference fun cid _ => .ite (hd0 _) ?_)
    split
    · exact .pure (hr _)
    · exact ends_tagDown _ _ _ hd0
  | filter fns tx rx =>
    have hs : Still w (w.setKind i (.filter fns (tx + 1) rx)) := .set hk rfl (by rintro ⟨c, h⟩; cases h)
    exact .ite (.bind (doFns_ends _ _ _ (fun _ => True) (fun _ _ _ _ => trivial) trivial fun r _ =>
      .ite (hret _ _ hs) (hd0 _))) (hd0 _)
  | forwarder fns tx rx =>
    have hs : Still w (w.setKind i (.forwarder fns (tx + 1) rx)) := .set hk rfl (by rintro ⟨c, h⟩; cases h)
    exact .ite (.bind (doFns_ends _ _ _ (fun _ => True) (fun _ _ _ _ => trivial) trivial fun r _ =>
      .ite (hret _ _ hs) (hd0 _))) (hd0 _)
  | echo => exact hd0 _
  | loopback => exact absurd rfl hl
  | discarder => exact hd0 _
  | flow => exact hd0 _

theorem connWrite_ends (c : ConnId) (p : List Byte) (w : World) : Ends (connWrite c p) w fun _ w' => Still w w' :=
  .bind (.get (.ite (.pure (.refl w)) (Still.obs w _)))

theorem lowerDeck_ends (ctx : Ctx) (w : World) : Ends (lowerDeckUpper ctx) w fun _ w' => Still w w' := by
  simp only [lowerDeckUpper]
  split
  · exact .pure (.refl w)
  · rename_i c _
    refine .bind (.useReference fun cid _ => .ite (.bind ?_) ?_)
    · refine Ends.mono (Q := fun _ w' => Still w w')
        (.bind (.get (.ite (.pure (.refl w)) (.ite (.pure (.refl w)) (Still.obs w _))))) fun ok w' h => ?_
      cases ok with
      | true => exact .pure h
      | false => exact h.trans (.close w' c)
    · split
      · exact .pure (.refl w)
      · refine .bind (Ends.mono (Q := fun _ w' => Still w w') ?_ fun r w' h => ?_)
        · refine .ite (.pure (.refl w)) (.bind (.onBuf' (.bytesRange _ _) fun p => .bind ((connWrite_ends c _ w).mono
            fun r w' h => .bind (.onBuf' (.writeTo _) fun _ => .pure h))))
        · obtain ⟨e, ub⟩ := r
          cases e with
          | none => exact .pure h
          | some e => exact h.trans (.close w' c)

/-- Nothing from `processors[a]` on is a Loopback. -/
def NoLoopFrom (a : Nat) (w : World) : Prop := ∀ j, a ≤ j → j < w.n → (w.procs j).kind ≠ .loopback

theorem NoLoopFrom.evolves {a : Nat} {w w' : World} (h : NoLoopFrom a w) (he : Evolves w w') : NoLoopFrom a w' :=
  fun j h1 h2 => Same.loopback (he.kind j) (h j h1 (by rw [← he.n]; exact h2))

/-- Sending down, with no Loopback below, ends after at most one call per processor below. -/
theorem down_ends {B : Nat} (fuel : Nat) : ∀ (pos : Nat) (ctx : Ctx) (w : World), Sane B w → NoLoopFrom (pos - 1) w →
    w.n + 2 ≤ fuel + pos → 0 < fuel → Ends (call fuel .down pos ctx) w fun _ w' => Still w w' := by
  induction fuel with
  | zero => intro pos ctx w _ _ _ h; omega
  | succ fuel ih =>
    intro pos ctx w hs hno hf _
    simp only [call]
    refine .bind (.get ?_)
    by_cases h0 : pos = 0
    · rw [if_pos h0]; exact .pure (.refl w)
    · rw [if_neg h0]
      by_cases hn : pos > w.n
      · rw [if_pos hn]; exact lowerDeck_ends ctx w
      · rw [if_neg hn]
        obtain ⟨i, rfl⟩ : ∃ i, pos = i + 1 := ⟨pos - 1, by omega⟩
        simp only [Nat.add_sub_cancel]
        have hi : i < w.n := by omega
        refine onUpper_ends (hno i (by omega) hi) (fun hfr => ?_) (hs.tame i hi) (fun _ _ h => h) (fun ctx' w' h => ?_) ctx
        · rcases hs.plain with h | h
          · exact h
          · exact absurd hfr (h i hi)
        · have hn' := h.ev.n
          refine (ih (i + 1 + 1) ctx' w' (hs.evolves h.ev) (fun j j1 j2 => hno.evolves h.ev j (by omega) j2) (by omega) (by omega)).mono
            fun _ _ h' => h.trans h'

/-! ## Going up -/

/-- The caches of the enabled decoders above position `q` are allocated, with capacity at most `B`. -/
def CachesFit (B q : Nat) (w : World) : Prop :=
  ∀ j, j < q → IsFrame (w.procs j).kind → (w.procs j).enable = true →
    ∃ cache d, (w.procs j).kind = .frame (some cache) ∧ Buf cache d ∧ d.cap ≤ B

theorem CachesFit.still {B q : Nat} {w w' : World} (h : CachesFit B q w) (hs : Still w w') : CachesFit B q w' := by
  intro j hj hf he
  have hf' := (Same.frame (hs.ev.kind j)).mpr hf
  have := hs.frames j hf'
  rw [this] at he ⊢
  exact h j hj hf' he

theorem CachesFit.le {B q q' : Nat} {w : World} (h : CachesFit B q w) (hq : q' ≤ q) : CachesFit B q' w :=
  fun j hj => h j (by omega)

theorem fits_step {B : Nat} {s : St} (h : FitsBuf B s) (op : Op) (hok : Deque.OpOk op)
    (hlen : ∀ d : Deque, (d.step op).2.content.length ≤ d.content.length) :
    ∃ s', exec op s = (.ok ((view s).step op).1, s') ∧ FitsBuf B s' := by
  obtain ⟨s', h1, h2, h3⟩ := h.1.step op hok
  refine ⟨s', h1, h3, ?_⟩
  have := hlen (view s)
  have hb := h.2
  simp only [data] at hb ⊢
  rw [h2]; omega

theorem Ends.map {m : GoM σ α} {f : α → β} {w w' : σ} {b : β} {Q : α → σ → Prop}
    (h : (do let r ← m; return f r) w = (.ok b, w')) (hq : ∀ a, Q a w') : Ends m w Q := by
  rw [bind_apply] at h
  simp only [Ends]
  rcases hm : m w with ⟨r, w1⟩
  rw [hm] at h
  cases r with
  | ok a =>
    simp only [pure_apply, Prod.mk.injEq] at h
    rw [h.2]; exact hq a
  | panic => trivial
  | running => cases h

theorem fits_readByte {B : Nat} {s : St} (h : FitsBuf B s) : Ends readByte s fun _ s' => FitsBuf B s' := by
  obtain ⟨s', h1, h2⟩ := fits_step h .readByte trivial fun d => by
    simp only [Deque.step]; split <;> simp_all [Deque.pop]
  exact .map h1 fun _ => h2

theorem fits_readU {B : Nat} {s : St} (h : FitsBuf B s) (w : Width) (o : Order) : Ends (readU w o) s fun _ s' => FitsBuf B s' := by
  obtain ⟨s', h1, h2⟩ := fits_step h (.readU w o) trivial fun d => by
    simp only [Deque.step]; split <;> simp_all [Deque.pop]
  exact .map h1 fun _ => h2

theorem fits_read {B : Nat} {s : St} (h : FitsBuf B s) (n : Nat) : Ends (read n) s fun _ s' => FitsBuf B s' := by
  obtain ⟨s', h1, h2⟩ := fits_step h (.read n) trivial fun d => by
    simp only [Deque.step]; split <;> simp_all [Deque.pop]
  exact .map h1 fun _ => h2

theorem Fits.of {B : Nat} {ctx : Ctx} {s : St} (h : FitsBuf B s) (hb : ctx.buf = some s) : Fits B ctx := by
  intro s' hs; rw [hb] at hs; cases hs; exact h

theorem ends_decodeUp {B : Nat} {w : World} {Q : Ctx → World → Prop} (ctx : Ctx) (hc : Fits B ctx) {k : Ctx → List Byte → GoM World Ctx}
    (hr : ∀ ctx', Q ctx' w) (hk : ∀ ctx' b, Fits B ctx' → Ends (k ctx' b) w Q) : Ends (decodeUp ctx k) w Q := by
  simp only [decodeUp]
  cases hb : ctx.buf with
  | none => exact .pure (hr _)
  | some ub =>
    refine .bind ?_
    simp only [Ends, check_apply]
    split <;> rename_i heq
    · split at heq <;> cases heq
      refine Ends.bind (.onBuf ((fits_read (hc ub hb) _).mono fun r s' h => .ite (.pure (hr _)) (hk _ _ (.of h rfl))))
    · trivial
    · split at heq <;> cases heq

/-- The answer of a StatCounter on its way down. -/
def Reply (w : World) (ctx : Ctx) : Prop :=
  OnBytes ctx w ∧ (0 < w.overhead → ∃ s d rest, ctx.buf = some s ∧ Buf s d ∧ d.content = 0x23 :: rest ∧ (d.head : Int) + 1 = w.overhead)

theorem writeU_grows {s : St} {d : Deque} (h : Buf s d) (w : Width) (o : Order) (v : Nat) :
    Ends (writeU w o v) s fun _ s' => ∃ d' t, Buf s' d' ∧ d'.content = d.content ++ t ∧ d'.head = d.head := by
  by_cases hl : d.tail < w.size
  · obtain ⟨s', e, h1, h2⟩ := h.writeU_short w o v hl
    rw [Ends, h1]
    exact ⟨d, [], h2, by simp, rfl⟩
  · obtain ⟨s', h1, h2⟩ := h.writeU w o v (by omega)
    rw [Ends, h1]
    exact ⟨_, _, h2, rfl, rfl⟩

theorem write_grows {s : St} {d : Deque} (h : Buf s d) (p : List Byte) :
    Ends (write p) s fun _ s' => ∃ d' t, Buf s' d' ∧ d'.content = d.content ++ t ∧ d'.head = d.head := by
  obtain ⟨s', r, h1, h2⟩ := h.write_any p
  rw [Ends, h1]
  exact ⟨_, _, h2, rfl, rfl⟩

theorem statResponse_ends {nb : Nb} {w : World} {Q : Ctx → World → Prop} (tx rx : UInt64) (ctx : Ctx) (hby : OnBytes ctx w)
    (hd : ∀ ctx', Reply w ctx' → Ends (nb.downUpper ctx') w Q) : Ends (statResponse tx rx nb ctx) w Q := by
  refine .bind (.get ?_)
  by_cases hov : 0 < w.overhead ∧ w.overhead ≤ w.mtu
  · obtain ⟨s, a1, a2⟩ := allocBuf_ok w.mtu w.overhead w (by omega) (by omega) (by omega)
    rw [Ends, bind_of_ok a1, ← Ends]
    obtain ⟨s1, b1, b2⟩ := a2.writeHeadByte 0x23
    rw [Ends, bind_onBuf b1, ← Ends]
    have hle : ¬ (Deque.fresh w.mtu.toNat w.overhead.toNat).head < [(0x23 : Byte)].length := by
      simp [Deque.fresh]; omega
    rw [Deque.prependAll, if_neg hle] at b2
    refine .bind (.onBuf ((writeU_grows b2 _ _ _).mono fun _ s2 ⟨d2, t2, c1, c2, c3⟩ => .bind (.onBuf ((writeU_grows c1 _ _ _).mono
      fun _ s3 ⟨d3, t3, e1, e2, e3⟩ => .bind (.onBuf ((write_grows e1 _).mono fun _ s4 ⟨d4, t4, g1, g2, g3⟩ => hd _ ?_)))))) 
    refine ⟨hby, fun _ => ⟨s4, d4, t2 ++ t3 ++ t4, rfl, g1, ?_, ?_⟩⟩
    · rw [g2, e2, c2]; simp [Deque.prepend, Deque.fresh]
    · rw [g3, e3, c3]; simp [Deque.prepend, Deque.fresh]; omega
  · by_cases hov2 : 0 < w.overhead
    · rw [Ends, bind_apply, allocBuf_panic w.mtu w.overhead w (by omega)]
      trivial
    · exact .bind (.allocBuf fun _ => .bind (.onBuf' (.writeHeadByte _) fun _ => .bind (.onBuf' (.writeU _ _ _) fun _ =>
          .bind (.onBuf' (.writeU _ _ _) fun _ => .bind (.onBuf' (.write _) fun _ => hd _ ⟨hby, fun h => absurd h hov2⟩)))))

/-- `OnLowerData` of a processor that is no enabled FrameDecoder ends if the neighbours do. -/
theorem onLower_ends {B i fuel : Nat} {nb : Nb} {w : World} {Q : Ctx → World → Prop}
    (hfr : IsFrame (w.procs i).kind → (w.procs i).enable = false) (ht : Tame B (w.procs i))
    (hret : ∀ ctx' w', Still w w' → Q ctx' w') (hd : Bounces (w.procs i) → ∀ ctx' w', Still w w' → (Counts (w.procs i) → Reply w' ctx') → Ends (nb.downUpper ctx') w' Q)
    (hu : ∀ ctx' w', Fits B ctx' → Still w w' → Ends (nb.upLower ctx') w' Q) (ctx : Ctx) (hc : Fits B ctx) :
    Ends (onLower fuel i (w.procs i) nb ctx) w Q := by
  have hr : ∀ ctx', Q ctx' w := fun c => hret c w (.refl w)
  have hd0 : Bounces (w.procs i) → ∀ ctx', (Counts (w.procs i) → Reply w ctx') → Ends (nb.downUpper ctx') w Q := fun h c => hd h c w (.refl w)
  have hu0 : ∀ ctx', Fits B ctx' → Ends (nb.upLower ctx') w Q := fun c h => hu c w h (.refl w)
  generalize hp : w.procs i = p at *
  obtain ⟨en, k⟩ := p
  have hk : (w.procs i).kind = k := by rw [hp]
  cases k with
  | base => exact hr ctx
  | bytesCodec => exact .ite (ends_decodeUp ctx hc hr fun c b h => hu0 _ h) (hu0 _ hc)
  | stringCodec => exact .ite (ends_decodeUp ctx hc hr fun c b h => hu0 _ h) (hu0 _ hc)
  | jsonCodec m u =>
    refine .ite (ends_decodeUp ctx hc hr fun c b h => ?_) (hu0 _ hc)
    split
    · exact hu0 _ h
    · exact .pure (hr _)
  | genericCodec e d =>
    refine .ite ?_ (hu0 _ hc)
    cases d with
    | none => exact .pure (hr _)
    | some d =>
      cases hb : ctx.buf with
      | none => exact .pure (hr _)
      | some ub =>
        exact .bind (.onBuf ((ht.2 d rfl ub (hc ub hb)).mono fun r s' h => .ite (.pure (hr _)) (hu0 _ (.of h rfl))))
  | gobCodec e d =>
    refine .ite ?_ (hu0 _ hc)
    cases hb : ctx.buf with
    | none => exact .pure (hr _)
    | some ub =>
      exact .bind (.onBuf ((ht.2 ub (hc ub hb)).mono fun r s' h => .ite (.pure (hr _)) (hu0 _ (.of h rfl))))
  | session =>
    refine .ite ?_ (hu0 _ hc)
    cases hb : ctx.buf with
    | none => exact .pure (hr _)
    | some ub =>
      exact .bind (.onBuf ((fits_readU (hc ub hb) _ _).mono fun r s' h => .ite (.pure (hr _)) (hu0 _ (.of h rfl))))
  | frame c =>
    have := hfr ⟨c, rfl⟩
    simp only at this
    subst this
    refine .bind (.useReference fun cid _ => .ite (hu0 _ hc) ?_)
    cases hb : ctx.buf with
    | none => exact .pure (hr _)
    | some ub => exact hu0 _ hc
  | stat tx rx =>
    refine .bind (.useReference fun cid hcid => ?_)
    cases hby : (w.conns cid).useRef with
    | true => exact hu0 _ hc
    | false =>
    rw [if_neg (by simp)]
    cases hb : ctx.buf with
    | none => exact .pure (hr _)
    | some ub =>
      refine .bind (.onBuf ((fits_readByte (hc ub hb)).mono fun r s' h => .ite (.pure (hr _)) ?_))
      cases en with
      | false => exact hu0 _ (.of h rfl)
      | true =>
      refine .ite ?_ (hu0 _ (.of h rfl))
      have hd0 := hd0 ⟨rfl, .inr ⟨_, _, rfl⟩⟩
      have hs : Still w (w.setKind i (.stat tx (rx + 1))) := .set hk trivial (by rintro ⟨c, h⟩; cases h)
      refine .ite ?_ (.ite ?_ (hu _ _ (.of h rfl) hs))
      · exact statResponse_ends _ _ _ ⟨cid, hcid, hby⟩ fun c hrep => hd0 c fun _ => hrep
      · exact .bind (.onBuf' (.readU _ _) fun _ => .bind (.onBuf' (.readU _ _) fun _ => .bind (.onBuf' (.read _) fun _ =>
          hret _ _ (.obs w _))))
  | heartbeat =>
    refine .bind (.useReference fun cid _ => .ite (hu0 _ hc) ?_)
    cases hb : ctx.buf with
    | none => exact .pure (hr _)
    | some ub =>
      exact .bind (.onBuf ((fits_readByte (hc ub hb)).mono fun r s' h => .ite (.pure (hr _)) (.ite (hret _ _ (.obs w _)) (hu0 _ (.of h rfl)))))
  | loadBalancer =>
    refine .bind (.useReference fun cid _ => .ite (hu0 _ hc) ?_)
    cases hb : ctx.buf with
    | none => exact .pure (hr _)
    | some ub =>
      exact .bind (.onBuf ((fits_readByte (hc ub hb)).mono fun r s' h => .ite (.pure (hr _)) (.ite (.pure (hr _)) (hu0 _ (.of h rfl)))))
  | filter fns tx rx =>
    have hs : Still w (w.setKind i (.filter fns tx (rx + 1))) := .set hk rfl (by rintro ⟨c, h⟩; cases h)
    exact .ite (.bind (doFns_ends _ _ _ (Fits B) (fun f hf c h => ht f hf c true h) hc fun r h =>
      .ite (hret _ _ hs) (hu0 _ h))) (hu0 _ hc)
  | forwarder fns tx rx =>
    have hs : Still w (w.setKind i (.forwarder fns tx (rx + 1))) := .set hk rfl (by rintro ⟨c, h⟩; cases h)
    exact .ite (.bind (doFns_ends _ _ _ (Fits B) (fun f hf c h => ht f hf c true h) hc fun r h =>
      .ite (hret _ _ hs) (hu0 _ h))) (hu0 _ hc)
  | echo =>
    cases en with
    | true => exact hd0 ⟨rfl, .inl rfl⟩ _ (by rintro ⟨_, t, r, h⟩; cases h)
    | false => exact hu0 _ hc
  | loopback => exact hr ctx
  | discarder =>
    cases en with
    | true => exact hr ctx
    | false => exact hu0 _ hc
  | flow => exact hu0 _ hc

/-! ### What a StatCounter sends comes back from a Loopback -/

theorem Still.of_moved {o : List Obs} {w w' : World} (h : Moved o w w') (hf : ∀ j, IsFrame (w.procs j).kind → w'.procs j = w.procs j) : Still w w' :=
  ⟨⟨h.mtu, h.overhead, h.name, h.n, h.served, h.write, fun j => (h.same j).1, fun j => (h.same j).2, fun c => by rw [h.conns],
    fun c hc => by rw [h.conns]; exact hc, o, h.trace⟩, hf⟩

theorem IsFrame.not_stat {p : Proc} (h : IsFrame p.kind) : ∀ tx rx, p ≠ ⟨true, .stat tx rx⟩ := by
  obtain ⟨c, hc⟩ := h
  intro tx rx e
  rw [e] at hc
  cases hc

theorem Returns.passes {p : Proc} (h : Returns p) : Passes p := by
  rcases h.1 with h | h
  · exact h.passes
  · simp [Passes, h]

/-- Up through processors that return what they were given. -/
theorem returns_up {a : Nat} (b : List Byte) (s : Int) (m : Nat) : ∀ (fuel : Nat) (ctx : Ctx) (w : World), a + m ≤ w.n →
    (∀ j, a ≤ j → j < a + m → Returns (w.procs j)) → OnBytes ctx w → Carries ctx (wrap (seg w a m) s b) →
    (∀ ctx' w', Carries ctx' b → OnBytes ctx' w' → Still w w' → Ends (call fuel .up a ctx') w' fun _ w'' => Still w' w'') →
    Ends (call (fuel + m) .up (a + m) ctx) w fun _ w' => Still w w' := by
  induction m with
  | zero => intro fuel ctx w _ _ hby hcar hk; exact hk ctx w hcar hby (.refl w)
  | succ m ih =>
    intro fuel ctx w hn hret hby hcar hk
    rw [seg_snoc, wrap_snoc] at hcar
    have hr := hret (a + m) (by omega) (by omega)
    by_cases hop : Opens (w.procs (a + m))
    · obtain ⟨ctx', w', ⟨h1, h2⟩, h3, h4, _, _, _, h5⟩ := opens_up (i := a + m) hop rfl hr.2 hby hcar (fuel + m)
      have hoth := up_keeps_others h5
      have hst : Still w w' := .of_moved h1 fun j hj => by
        by_cases e : j = a + m
        · subst e; rw [h2, Proc.got_other hj.not_stat]
        · exact hoth j e
      have h6 : onLower (fuel + m) (a + m) (w.procs (a + m)) (nbAt (fuel + m) (a + m + 1)) ctx w = (nbAt (fuel + m) (a + m + 1)).upLower ctx' w' := h5 _
      rw [← Nat.add_assoc, ← Nat.add_assoc, Ends, call_up (by omega), h6, ← Ends]
      obtain ⟨c, e1, e2⟩ := hby
      refine (ih fuel ctx' w' (by rw [h1.n]; omega) (fun j k1 k2 => (h1.same j).returns (hret j k1 (by omega)))
        ⟨c, h4.trans e1, by rw [h1.conns]; exact e2⟩ (by rw [wrap_same h1.same]; exact h3)
        (fun c2 w2 x1 x2 x3 => hk c2 w2 x1 x2 (hst.trans x3))).mono fun _ _ h => hst.trans h
    · have hlb : (w.procs (a + m)).kind = .loadBalancer := by
        rcases hr.1 with h | h
        · exact absurd h hop
        · exact h
      have hen : (w.procs (a + m)).enable = true := by
        cases hen : (w.procs (a + m)).enable with
        | true => rfl
        | false => exact absurd (by simp [Opens, hlb, hen]) hop
      obtain ⟨c, hc, hcr⟩ := hby
      obtain ⟨ub, d, hbuf, hs, hd⟩ := hcar.buf
      have hh : hdr (w.procs (a + m)) s (wrap (seg w a m) s b) = [0x11] := by
        simp [hdr, hlb, hen]
      rw [hh] at hd
      obtain ⟨s', _, h2⟩ := loadBalancerLower_drop (w := w) hc hcr hbuf hs (t := 0x11) (bs := wrap (seg w a m) s b) hd (by decide)
      rw [← Nat.add_assoc, ← Nat.add_assoc, Ends, call_up (by omega)]
      simp only [onLower, hlb, hen]
      rw [h2]
      exact .refl w

/-- The answer of a StatCounter comes back to it, and is shown. -/
theorem answer_ends {w : World} {i m : Nat} (hn : i + 1 + m < w.n) (hloop : (w.procs (i + 1 + m)).kind = .loopback)
    (hcnt : Counts (w.procs i)) (hret : ∀ j, i < j → j < i + 1 + m → Returns (w.procs j)) (hbuilt : Built w) (ctx : Ctx) (hrep : Reply w ctx)
    (fuel : Nat) (hf : 2 * m + 2 ≤ fuel) : Ends (call fuel .down (i + 2) ctx) w fun _ w' => Still w w' := by
  obtain ⟨hen, tx, rx, hkind⟩ := hcnt
  have hroom := hbuilt.room_le (a := i) (m := m + 1) (by omega)
  rw [seg_succ, room, hkind] at hroom
  have hnn := room_nonneg (seg w (i + 1) m)
  simp only [Kind.overhead] at hroom
  obtain ⟨hby, hrep⟩ := hrep
  obtain ⟨s, d, rest, hbuf, hs, hd, hhead⟩ := hrep (by omega)
  obtain ⟨f, rfl⟩ : ∃ f, fuel = f + 1 + m + 1 + m := ⟨fuel - (2 * m + 2), by omega⟩
  have hwl := wrap_length (seg w (i + 1) m) (sessionOf ctx) d.content
  obtain ⟨s1, w1, ⟨h1, h2, h3⟩, g1, g2, g3⟩ := segment_down_above m (i + 1) (f + 1 + m + 1) ctx w s d (by omega)
    (fun j j1 j2 => (hret j (by omega) (by omega)).passes) hby hbuf hs (by omega)
  have hst : Still w w1 := .of_moved h1 fun j hj => by
    by_cases e : i + 1 ≤ j ∧ j < i + 1 + m
    · rw [h3 j e.1 e.2, Proc.sent_other hj.not_stat]
    · exact h2 j (by omega)
  have hl1 : (w1.procs (i + 1 + m)).kind = .loopback := by rw [h2 _ (by omega)]; exact hloop
  rw [Ends, g3, call_down (by rw [h1.n]; omega), ← Ends]
  simp only [onUpper, hl1]
  refine (returns_up (a := i + 1) d.content (sessionOf ctx) m (f + 1) { ctx with buf := some s1 } w1 (by rw [h1.n]; omega)
    (fun j j1 j2 => (h1.same j).returns (hret j (by omega) (by omega))) (h1.onBytes hby) ⟨s1, rfl, g1, by rw [wrap_same h1.same]; exact g2⟩ ?_).mono
    fun _ _ h => hst.trans h
  intro ctx' w' hcar hby' hst'
  have hc2 : Counts (w'.procs i) := Same.counts ((hst.trans hst').ev.kind i) ((hst.trans hst').ev.enable i) ⟨hen, tx, rx, hkind⟩
  obtain ⟨hen', tx', rx', hk'⟩ := hc2
  obtain ⟨c, e1, e2⟩ := hby'
  obtain ⟨ub, d', hbuf', hs', hd'⟩ := hcar.buf
  rw [hd] at hd'
  obtain ⟨s2, r1, _⟩ := hs'.readByte_cons hd'
  rw [Ends, call_up (by rw [(hst.trans hst').ev.n]; omega), ← Ends]
  simp only [onLower, hk', hen', statLower]
  rw [Ends, bind_of_ok (by rw [e1, useReference_some, e2])]
  simp only [Bool.false_eq_true, if_false, hbuf']
  rw [bind_onBuf r1]
  simp only [Option.isSome, Bool.false_eq_true, if_false, if_true]
  rw [if_neg (by decide), ← Ends]
  exact .bind (.onBuf' (.readU _ _) fun _ => .bind (.onBuf' (.readU _ _) fun _ => .bind (.onBuf' (.read _) fun _ => Still.obs w' _)))

/-! ### The FrameDecoder's loops -/

theorem readFromDeque_cap (c s : Deque) : (Deque.readFromDeque c s).2.2.1.cap = c.cap ∧
    ((Deque.readFromDeque c s).2.2.1.content.length ≤ c.content.length + c.tail) := by
  simp only [Deque.readFromDeque]
  split
  · exact ⟨rfl, by simp⟩
  · split
    · exact ⟨rfl, by simp⟩
    · split
      · exact ⟨rfl, by simp⟩
      · refine ⟨rfl, ?_⟩
        simp only [Deque.push, List.length_append, List.length_take]
        omega

theorem decodeCurrent_ends (fuel : Nat) : ∀ (c src : Deque), src.content.length < fuel →
    (decodeCurrent fuel c src).res ≠ .running ∧ (∀ p ∈ (decodeCurrent fuel c src).out, p.length ≤ src.content.length) ∧
    (decodeCurrent fuel c src).cache.cap = c.cap ∧
    (decodeCurrent fuel c src).cache.content.length ≤ c.content.length + c.tail := by
  induction fuel with
  | zero => intro c src h; omega
  | succ fuel ih =>
    intro c src h
    simp only [decodeCurrent]
    split
    · exact ⟨by simp, by simp, (readFromDeque_cap _ _).1, (readFromDeque_cap _ _).2⟩
    · split
      · exact ⟨by simp, by simp, (readFromDeque_cap _ _).1, (readFromDeque_cap _ _).2⟩
      · split
        · exact ⟨by simp, by simp, rfl, by simp [Deque.clear]⟩
        · split
          · exact ⟨by simp, by simp, rfl, by simp [Deque.clear]⟩
          · split
            · exact ⟨by simp, by simp, rfl, by simp [Deque.clear]⟩
            · have hl : ((src.pop 4).pop (decBE (src.content.take 4))).content.length < fuel := by
                rw [pop_pop_content]; simp only [List.length_drop]; omega
              obtain ⟨h1, h2, h3, h4⟩ := ih c _ hl
              refine ⟨h1, fun p hp => ?_, h3, h4⟩
              simp only [List.mem_cons] at hp
              rcases hp with rfl | hp
              · simp only [List.length_take, List.length_drop]; omega
              · have := h2 p hp
                rw [pop_pop_content] at this
                simp only [List.length_drop] at this
                omega

theorem decodeCached_ends (fuel : Nat) : ∀ (c : Deque), c.content.length < fuel →
    (decodeCached fuel c).res ≠ .running ∧ (∀ p ∈ (decodeCached fuel c).out, p.length ≤ c.content.length) ∧
    (decodeCached fuel c).cache.cap = c.cap := by
  induction fuel with
  | zero => intro c h; omega
  | succ fuel ih =>
    intro c h
    simp only [decodeCached]
    split
    · exact ⟨by simp, by simp, rfl⟩
    · split
      · exact ⟨by simp, by simp, rfl⟩
      · split
        · exact ⟨by simp, by simp, rfl⟩
        · split
          · exact ⟨by simp, by simp, rfl⟩
          · split
            · exact ⟨by simp, by simp, rfl⟩
            · have hl : ((c.pop 4).pop (decBE (c.content.take 4))).content.length < fuel := by
                rw [pop_pop_content]; simp only [List.length_drop]; omega
              obtain ⟨h1, h2, h3⟩ := ih _ hl
              refine ⟨h1, fun p hp => ?_, h3⟩
              simp only [List.mem_cons] at hp
              rcases hp with rfl | hp
              · simp only [List.length_take, List.length_drop]; omega
              · have := h2 p hp
                rw [pop_pop_content] at this
                simp only [List.length_drop] at this
                omega

theorem decodeRead_ends {B fuel : Nat} {c src : Deque} (hc : c.cap ≤ B) (hcw : c.WF) (hs : src.content.length ≤ B) (hf : B < fuel) :
    (decodeRead fuel c src).res ≠ .running ∧ (∀ p ∈ (decodeRead fuel c src).out, p.length ≤ B) ∧
    (decodeRead fuel c src).cache.cap ≤ B := by
  obtain ⟨a1, a2, a3, a4⟩ := decodeCurrent_ends fuel c src (by omega)
  have hct : c.content.length + c.tail ≤ B := by
    have := hcw.2
    simp only [Deque.tail]; omega
  have key : ∀ a : Dec, (a.res ≠ .running) → (∀ p ∈ a.out, p.length ≤ B) → a.cache.cap = c.cap → a.cache.content.length ≤ B →
      (match a.res with
        | .ok () => (⟨a.out ++ (decodeCached fuel a.cache).out, (decodeCached fuel a.cache).res, (decodeCached fuel a.cache).cache⟩ : Dec)
        | _ => a).res ≠ .running ∧
      (∀ p ∈ (match a.res with
        | .ok () => (⟨a.out ++ (decodeCached fuel a.cache).out, (decodeCached fuel a.cache).res, (decodeCached fuel a.cache).cache⟩ : Dec)
        | _ => a).out, p.length ≤ B) ∧
      (match a.res with
        | .ok () => (⟨a.out ++ (decodeCached fuel a.cache).out, (decodeCached fuel a.cache).res, (decodeCached fuel a.cache).cache⟩ : Dec)
        | _ => a).cache.cap ≤ B := by
    intro a h1 h2 h3 h4
    obtain ⟨b1, b2, b3⟩ := decodeCached_ends fuel a.cache (by omega)
    split
    · refine ⟨b1, fun p hp => ?_, by show (decodeCached fuel a.cache).cache.cap ≤ B; omega⟩
      simp only [List.mem_append] at hp
      rcases hp with hp | hp
      · exact h2 p hp
      · have := b2 p hp; omega
    · exact ⟨h1, h2, by omega⟩
  simp only [decodeRead]
  by_cases he : c.content ≠ []
  · rw [if_pos he]
    exact key ⟨[], .ok (), (Deque.readFromDeque c src).2.2.1⟩ (by simp) (by simp) (readFromDeque_cap _ _).1
      (Nat.le_trans (readFromDeque_cap _ _).2 hct)
  · rw [if_neg he]
    exact key _ a1 (fun p hp => by have := a2 p hp; omega) a3 (by omega)

theorem CachesFit.setAt {B i : Nat} {w : World} (h : CachesFit B i w) (k : Kind) : CachesFit B i (w.setKind i k) := by
  intro j hj
  have : j ≠ i := by omega
  simp only [World.setKind, if_neg this]
  exact h j hj

theorem feeds_ends {B i : Nat} {up : Handler} {e : Res Unit} {ps : List (List Byte)} {ctx : Ctx} {w w2 : World} {r : Res Ctx}
    (hfd : Feeds up i e ps ctx w r w2) (he : e ≠ .running) (hps : ∀ p ∈ ps, p.length ≤ B)
    (hev : ∀ ctx' w', Evolves w' (up ctx' w').2)
    (hk : IsFrame (w.procs i).kind) (hc : CachesFit B i w)
    (hup : ∀ ctx' w', Fits B ctx' → Evolves w w' → CachesFit B i w' → Ends (up ctx') w' fun _ w'' => CachesFit B i w'') :
    r ≠ .running ∧ ∀ c, r = .ok c → CachesFit B i w2 := by
  induction hfd with
  | done ctx w b c he => exact ⟨by simp, fun _ _ => hc.setAt _⟩
  | panic ctx w c he => exact ⟨by simp, fun _ h => by cases h⟩
  | running ctx w c h => exact absurd h he
  | @step p ps ctx w s c ctx1 w1 r w2 hs hp hrun _ ih =>
    have he1 : Evolves w (w.setKind i (.frame c)) := .setKind w i _ (by obtain ⟨c0, h⟩ := hk; rw [h]; trivial)
    have h1 := hup { ctx with buf := some s } _ (.of ⟨hs, by rw [hp]; exact hps p (by simp)⟩ rfl) he1 (hc.setAt _)
    have he2 := hev { ctx with buf := some s } (w.setKind i (.frame c))
    simp only [Ends, hrun] at h1 he2
    have he3 := he1.trans he2
    exact ih (fun q hq => hps q (by simp [hq])) ((Same.frame (he3.kind i)).mp hk) h1
      fun ctx' w' a b c => hup ctx' w' a (he3.trans b) c
  | stepPanic => exact ⟨by simp, fun _ h => by cases h⟩
  | @stepRunning p ps ctx w s c w1 hs hp hrun =>
    have he1 : Evolves w (w.setKind i (.frame c)) := .setKind w i _ (by obtain ⟨c0, h⟩ := hk; rw [h]; trivial)
    have h1 := hup { ctx with buf := some s } _ (.of ⟨hs, by rw [hp]; exact hps p (by simp)⟩ rfl) he1 (hc.setAt _)
    simp only [Ends, hrun] at h1

theorem upperDeck_ends (ctx : Ctx) (w : World) : Ends (upperDeckLower ctx) w fun _ w' => Still w w' := by
  simp only [upperDeckLower]
  refine .ite (.pure (.refl w)) (.bind (.get ?_))
  split
  · exact .pure (.refl w)
  · exact Still.obs w _

/-! ### What goes up does not come back into a FrameDecoder -/

/-- A FrameDecoder at `i` and nothing above that sends down what it receives. -/
def Hushed (i : Nat) (w : World) : Prop := (∃ c, (w.procs i).kind = .frame c) ∧ ∀ j, j < i → ¬ Bounces (w.procs j)

def Spared (i : Nat) (w w' : World) : Prop := Hushed i w → Hushed i w' ∧ w'.procs i = w.procs i

theorem Spared.of_same {i : Nat} {w w' : World} (h : w'.procs = w.procs) : Spared i w w' :=
  fun h1 => ⟨by rw [Hushed, h]; exact h1, by rw [h]⟩

theorem Spared.allows (i : Nat) : Allows (Spared i) fun j => j ≠ i := by
  refine ⟨fun w => .of_same rfl, fun h1 h2 h => ?_, fun w j k hj hk h => ?_, fun w _ _ _ => .of_same rfl, fun w _ _ _ _ _ => .of_same rfl⟩
  · obtain ⟨a1, a2⟩ := h1 h
    obtain ⟨b1, b2⟩ := h2 a1
    exact ⟨b1, b2.trans a2⟩
  · have he : (w.setKind j k).procs i = w.procs i := by simp [World.setKind, Ne.symm hj]
    refine ⟨⟨by rw [he]; exact h.1, fun x h1 h2 => h.2 x h1 ?_⟩, he⟩
    by_cases hx : x = j
    · subst hx
      exact Same.bounces (by rw [setKind_self]; exact hk) (by simp [World.setKind]) h2
    · simpa only [World.setKind, if_neg hx] using h2

theorem Spared.upperDeck (i : Nat) : KpH (Spared i) upperDeckLower := by
  have H := Spared.allows i
  intro ctx
  simp only [upperDeckLower]
  refine .ite (.pure H _) (.bind H (.get H) fun w => ?_)
  split
  · exact .pure H _
  · exact .bind H (fun w => .of_same rfl) fun _ => .pure H _

theorem call_spared (i fuel : Nat) : ∀ pos, pos ≤ i → KpH (Spared i) (call fuel .up pos) := by
  have H := Spared.allows i
  induction fuel with
  | zero => intro pos _ ctx; exact .running H
  | succ fuel ih =>
    intro pos hpos ctx w
    by_cases hw : Hushed i w
    case neg => exact fun h => absurd h hw
    simp only [call]
    rw [bind_of_ok (get_apply w)]
    by_cases h0 : pos = 0
    · subst h0
      exact Spared.upperDeck i ctx w
    · rw [if_neg h0]
      by_cases hn : pos > w.n
      · rw [if_pos hn]; exact H.refl w
      · rw [if_neg hn]
        obtain ⟨j, rfl⟩ : ∃ j, pos = j + 1 := ⟨pos - 1, by omega⟩
        simp only [Nat.add_sub_cancel]
        exact onLower_keeps H (by omega) fuel rfl (fun _ _ => ih j (by omega)) (fun hb => absurd hb (hw.2 j (by omega))) ctx

/-- A FrameDecoder at `i` that what it hands up does not come back to. -/
def Guarded (i : Nat) (w : World) : Prop := Hushed i w ∨ OneWay i w

theorem call_guarded {i pos : Nat} (hpos : pos ≤ i) (fuel : Nat) (ctx : Ctx) (w : World) (h : Guarded i w) :
    Guarded i (call fuel .up pos ctx w).2 ∧ (call fuel .up pos ctx w).2.procs i = w.procs i := by
  rcases h with h | h
  · obtain ⟨h1, h2⟩ := call_spared i fuel pos hpos ctx w h
    exact ⟨.inl h1, h2⟩
  · obtain ⟨h1, h2⟩ := call_sealed i fuel .up pos (fun _ => hpos) ctx w h
    exact ⟨.inr h1, h2⟩

theorem calm_guarded (i fuel : Nat) : Calm (Guarded i) i (call fuel .up i) := by
  refine ⟨fun ctx w h => call_guarded (Nat.le_refl _) fuel ctx w h, fun w c c' hk h => ?_⟩
  rcases h with h | h
  · refine .inl ⟨⟨c', by rw [setKind_self]⟩, fun j hj => ?_⟩
    have : j ≠ i := by omega
    simp only [World.setKind, if_neg this]
    exact h.2 j hj
  · exact .inr ((calm_above i fuel).cache w c c' hk h)

theorem Sane.guarded {B i : Nat} {w : World} (h : Sane B w) (hf : IsFrame (w.procs i).kind) (hen : (w.procs i).enable = true) :
    Guarded i w := by
  by_cases hl : ∃ l, i < l ∧ l < w.n ∧ (w.procs l).kind = .loopback
  · obtain ⟨l, h1, h2, h3⟩ := hl
    obtain ⟨c, hc⟩ := hf
    refine .inl ⟨⟨c, hc⟩, fun j hj hb => ?_⟩
    exact ((h.turn j l (by omega) h2 h3).1 hb).2.2.1 i hj h1 ⟨⟨c, hc⟩, hen⟩
  · exact .inr ⟨hf, fun j j1 j2 j3 => hl ⟨j, j1, j2, j3⟩⟩

/-- Received data moving up ends: the nesting is bounded by the number of processors and the buffer size. -/
theorem up_ends {B : Nat} (fuel : Nat) : ∀ (pos : Nat) (ctx : Ctx) (w : World), Sane B w → CachesFit B pos w → Fits B ctx →
    pos ≤ w.n → pos + 2 * w.n + B + 3 ≤ fuel → Ends (call fuel .up pos ctx) w fun _ w' => CachesFit B pos w' := by
  induction fuel with
  | zero => intro pos ctx w _ _ _ _ h; omega
  | succ fuel ih =>
    intro pos ctx w hs hca hctx hpn hf
    simp only [call]
    refine .bind (.get ?_)
    by_cases h0 : pos = 0
    · rw [if_pos h0]; exact (upperDeck_ends ctx w).mono fun _ _ h => hca.still h
    · rw [if_neg h0, if_neg (by omega)]
      obtain ⟨i, rfl⟩ : ∃ i, pos = i + 1 := ⟨pos - 1, by omega⟩
      simp only [Nat.add_sub_cancel]
      have hi : i < w.n := by omega
      by_cases hfr : IsFrame (w.procs i).kind ∧ (w.procs i).enable = true
      · obtain ⟨hfr, hen⟩ := hfr
        obtain ⟨cache, dc, hk, hbuf, hcap⟩ := hca i (by omega) hfr hen
        have hplain : ∀ c, (w.conns c).useRef = false := by
          rcases hs.plain with h | h
          · exact h
          · exact absurd hfr (h i hi)
        simp only [onLower, hk, hen]
        -- nil connection or nil buffer
        cases hcn : ctx.conn with
        | none => simp [Ends, frameLower, hcn, bind_apply, useReference]
        | some cid =>
          cases hcb : ctx.buf with
          | none =>
            simp only [frameLower, hcn]
            refine .bind (.useReference fun cid' hcid => ?_)
            rw [hplain]
            simp only [Bool.false_eq_true, if_false, hcb]
            exact .pure hca
          | some ub =>
            have hub := hctx ub hcb
            have how : Guarded i w := hs.guarded hfr hen
            obtain ⟨f1, f2⟩ := frameLower_feeds (nb := { upLower := call fuel .up i, downUpper := call fuel .down (i + 1 + 1), upUpper := call fuel .down i })
              (calm_guarded i fuel) fuel (ctx := ctx) how ⟨cid, hcn, hplain cid⟩ hcb hk hbuf (.of_good hub.1)
            obtain ⟨d1, d2, d3⟩ := decodeRead_ends (fuel := fuel) (c := dc) (src := view ub) hcap hbuf.wf hub.2 (by omega)
            obtain ⟨g1, g2⟩ := feeds_ends f1 d1 d2 (fun c w' => call_evolves fuel .up i c w') hfr (hca.le (by omega))
              (fun ctx' w' a b c => ih i ctx' w' (hs.evolves b) c a (by rw [b.n]; omega) (by rw [b.n]; omega))
            simp only [Ends]
            rcases hrun : frameLower fuel i true { upLower := call fuel .up i, downUpper := call fuel .down (i + 1 + 1), upUpper := call fuel .down i } ctx w with ⟨r, w'⟩
            rw [hrun] at g1 g2 f2
            cases r with
            | panic => trivial
            | running => exact absurd rfl g1
            | ok c =>
              obtain ⟨_, cache', k1, k2⟩ := f2 c rfl
              have g3 := g2 c rfl
              intro j hj hf1 he1
              by_cases hji : j = i
              · subst hji; exact ⟨cache', _, k1, k2, d3⟩
              · exact g3 j (by omega) hf1 he1
      · refine onLower_ends (B := B) (fun h => ?_) (hs.tame i hi) (fun _ _ h => hca.still h) (fun hb ctx' w' h hrep => ?_) (fun ctx' w' hc' h => ?_) ctx hctx
        · cases hen : (w.procs i).enable with
          | false => rfl
          | true => exact absurd ⟨h, hen⟩ hfr
        · have hn := h.ev.n
          by_cases hl : ∃ l, i < l ∧ l < w.n ∧ (w.procs l).kind = .loopback
          · obtain ⟨l, l1, l2, l3⟩ := hl
            obtain ⟨c1, c2, _, l', c3, c4, c5, c6⟩ := (hs.turn i l l1 l2 l3).1 hb
            obtain ⟨m, rfl⟩ : ∃ m, l' = i + 1 + m := ⟨l' - (i + 1), by omega⟩
            exact (answer_ends (by omega) ((Same.loopback_iff (h.ev.kind _)).mp c5) (Same.counts (h.ev.kind i) (h.ev.enable i) c1)
              (fun j j1 j2 => (h.ev.sameProc j).returns (c6 j j1 j2)) (c2.evolves h.ev) ctx' (hrep c1) fuel (by omega)).mono
              fun _ _ h' => hca.still (h.trans h')
          · have hno : NoLoopFrom (i + 1 + 1 - 1) w := fun j j1 j2 j3 => hl ⟨j, by omega, j2, j3⟩
            exact (down_ends fuel (i + 1 + 1) ctx' w' (hs.evolves h.ev) (hno.evolves h.ev) (by omega) (by omega)).mono
              fun _ _ h' => hca.still (h.trans h')
        · have hn := h.ev.n
          -- the decoder at `i`, if any, is disabled, or there is none: nothing to show about it
          have hcall := ih i ctx' w' (hs.evolves h.ev) ((hca.still h).le (by omega)) hc' (by omega) (by omega)
          have hev := call_evolves fuel .up i ctx' w'
          simp only [Ends] at hcall ⊢
          rcases hrun : call fuel .up i ctx' w' with ⟨r, w''⟩
          rw [hrun] at hcall hev
          cases r with
          | panic => trivial
          | running => exact hcall
          | ok c =>
            intro j hj hf1 he1
            by_cases hji : j = i
            · subst hji
              have e1 := (Same.frame ((h.ev.trans hev).kind j)).mpr hf1
              have e2 := (h.ev.trans hev).enable j
              exact absurd ⟨e1, by rw [← e2]; exact he1⟩ hfr
            · exact hcall j (by omega) hf1 he1

theorem Ends.evolves {fuel : Nat} {dir : Dir} {pos : Nat} {ctx : Ctx} {w : World} {Q : Ctx → World → Prop}
    (h : Ends (call fuel dir pos ctx) w Q) : Ends (call fuel dir pos ctx) w fun a w' => Q a w' ∧ Evolves w w' := by
  have he := call_evolves fuel dir pos ctx w
  simp only [Ends] at h ⊢
  rcases hm : call fuel dir pos ctx w with ⟨r, w'⟩
  rw [hm] at h he
  cases r with
  | ok a => exact ⟨h, he⟩
  | panic => trivial
  | running => exact h

/-! ## Going down to a Loopback and up again -/

theorem CapBuf.fits {B : Nat} {s : St} (h : CapBuf B s) : FitsBuf B s := by
  refine ⟨h.1, ?_⟩
  have h1 := h.1.rel.wf.2
  have h2 := h.2
  simp only [data] at *
  omega

theorem Caps.fits {B : Nat} {ctx : Ctx} (h : Caps B ctx) : Fits B ctx := fun s hs => (h s hs).fits

theorem Caps.of {B : Nat} {ctx : Ctx} {s : St} (h : CapBuf B s) (hb : ctx.buf = some s) : Caps B ctx := by
  intro s' hs; rw [hb] at hs; cases hs; exact h

theorem caps_step {B : Nat} {s : St} {m : GoM St α} {f : α → Out} (h : CapBuf B s) (op : Op) (hok : Deque.OpOk op)
    (he : exec op = (do let r ← m; return f r)) : Ends m s fun _ s' => CapBuf B s' := by
  obtain ⟨s', h1, h2, h3⟩ := h.1.step op hok
  rw [he] at h1
  have hc : ∀ d : Deque, (d.step op).2.cap = d.cap := by
    intro d
    cases op <;> simp only [Deque.step, Deque.prependAll] <;> first | rfl | ((repeat' split) <;> rfl)
  exact .map h1 fun _ => ⟨h3, by rw [h2, hc]; exact h.2⟩

theorem Ends.allocCap {B : Nat} {a b : Int} {w : World} {Q : St → World → Prop} (ha : a ≤ B) (h : ∀ s, CapBuf B s → Q s w) :
    Ends (Stack.allocBuf a b) w Q := by
  by_cases hc : a ≤ 0 ∨ b < 0 ∨ b > a
  · simp only [Ends, allocBuf_panic a b w hc]
  · obtain ⟨s, h1, h2⟩ := allocBuf_ok a b w (by omega) (by omega) (by omega)
    simp only [Ends, h1]
    refine h s ⟨h2.1, ?_⟩
    rw [h2.2]
    simp only [Deque.fresh]
    omega

theorem caps_encodeDown {B : Nat} {nb : Nb} {w : World} {Q : Ctx → World → Prop} (hm : w.mtu ≤ B) (ctx : Ctx) (b : List Byte) (hret : Q ctx w)
    (hd : ∀ ctx', Caps B ctx' → Ends (nb.downUpper ctx') w Q) : Ends (encodeDown nb ctx b) w Q :=
  .bind (.get (.bind (.allocCap hm fun _ hs => .bind (.onBuf ((caps_step hs (.write b) trivial rfl).mono fun _ _ h =>
    .ite (.pure hret) (hd _ (.of h rfl)))))))

theorem caps_tagDown {B : Nat} {nb : Nb} {w : World} {Q : Ctx → World → Prop} (t : Byte) (ctx : Ctx) {ub : St} (hs : CapBuf B ub)
    (hd : ∀ ctx', Caps B ctx' → Ends (nb.downUpper ctx') w Q) : Ends (tagDown t nb ctx ub) w Q :=
  .bind (.onBuf ((caps_step hs (.writeHeadByte t) trivial rfl).mono fun _ _ h => hd _ (.of h rfl)))

/-- `OnUpperData` of a processor that is no Loopback ends if the neighbour below does, and hands down buffers of bounded
capacity. -/
theorem onUpper_caps {B i : Nat} {nb : Nb} {w : World} {Q : Ctx → World → Prop} (hl : (w.procs i).kind ≠ .loopback) (hm : w.mtu ≤ B)
    (hplain : IsFrame (w.procs i).kind → ∀ c, (w.conns c).useRef = false) (ht : TameDown B (w.procs i))
    (hret : ∀ ctx' w', Still w w' → Q ctx' w') (hd : ∀ ctx' w', Caps B ctx' → Still w w' → Ends (nb.downUpper ctx') w' Q)
    (ctx : Ctx) (hc : Caps B ctx) : Ends (onUpper i (w.procs i) nb ctx) w Q := by
  have hr : ∀ ctx', Q ctx' w := fun c => hret c w (.refl w)
  have hd0 : ∀ ctx', Caps B ctx' → Ends (nb.downUpper ctx') w Q := fun c h => hd c w h (.refl w)
  generalize hp : w.procs i = p at *
  obtain ⟨en, k⟩ := p
  have hk : (w.procs i).kind = k := by rw [hp]
  cases k with
  | base => exact hr ctx
  | bytesCodec =>
    refine .ite ?_ (hd0 _ hc)
    split
    · exact caps_encodeDown hm _ _ (hr _) hd0
    · exact .pure (hr _)
  | stringCodec =>
    refine .ite ?_ (hd0 _ hc)
    split
    · exact caps_encodeDown hm _ _ (hr _) hd0
    · exact .pure (hr _)
  | jsonCodec m u =>
    refine .ite (.ite (.pure (hr _)) ?_) (hd0 _ hc)
    split
    · exact caps_encodeDown hm _ _ (hr _) hd0
    · exact .pure (hr _)
  | genericCodec e d =>
    refine .ite ?_ (hd0 _ hc)
    cases e with
    | none => exact .pure (hr _)
    | some e =>
      exact .ite (.pure (hr _)) (.bind (.get (.bind (.allocCap hm fun s hs => .bind (.onBuf ((ht e rfl _ s hs).mono fun _ _ h =>
        .ite (.pure (hr _)) (hd0 _ (.of h rfl))))))))
  | gobCodec e d =>
    exact .ite (.ite (.pure (hr _)) (.bind (.get (.bind (.allocCap hm fun s hs => .bind (.onBuf ((ht _ s hs).mono fun _ _ h =>
        .ite (.pure (hr _)) (hd0 _ (.of h rfl))))))))) (hd0 _ hc)
  | session =>
    refine .ite ?_ (hd0 _ hc)
    cases hb : ctx.buf with
    | none => exact .pure (hr _)
    | some ub =>
      exact .bind (.onBuf ((caps_step (hc ub hb) (.writeHeadU _ _ _) trivial rfl).mono fun _ _ h => .ite (.pure (hr _)) (hd0 _ (.of h rfl))))
  | frame c =>
    refine .bind (.useReference fun cid _ => ?_)
    rw [hplain ⟨c, rfl⟩ cid]
    simp only [Bool.false_eq_true, if_false]
    refine .ite ?_ (hd0 _ hc)
    cases hb : ctx.buf with
    | none => exact .pure (hr _)
    | some ub => exact .bind (.onBuf ((caps_step (hc ub hb) (.writeHeadU _ _ _) trivial rfl).mono fun _ _ h => hd0 _ (.of h rfl)))
  | stat tx rx =>
    refine .bind (.useReference fun cid _ => .ite (hd0 _ hc) ?_)
    cases hb : ctx.buf with
    | none => exact .pure (hr _)
    | some ub =>
      cases en with
      | true =>
        have hs : Still w (w.setKind i (.stat (tx + 1) rx)) := .set hk trivial (by rintro ⟨c, h⟩; cases h)
        exact caps_tagDown (w := w.setKind i (.stat (tx + 1) rx)) _ _ (hc ub hb) fun c h => hd c _ h hs
      | false => exact caps_tagDown _ _ (hc ub hb) hd0
  | heartbeat =>
    refine .bind (.useReference fun cid _ => .ite (hd0 _ hc) ?_)
    cases hb : ctx.buf with
    | none => exact .pure (hr _)
    | some ub => exact caps_tagDown _ _ (hc ub hb) hd0
  | loadBalancer =>
    refine .bind (.useReference fun cid _ => .ite (hd0 _ hc) ?_)
    cases hb : ctx.buf with
    | none => exact .pure (hr _)
    | some ub => exact caps_tagDown _ _ (hc ub hb) hd0
  | filter fns tx rx =>
    have hs : Still w (w.setKind i (.filter fns (tx + 1) rx)) := .set hk rfl (by rintro ⟨c, h⟩; cases h)
    exact .ite (.bind (doFns_ends _ _ _ (Caps B) (fun f hf c h => ht f hf c h) hc fun r h =>
      .ite (hret _ _ hs) (hd0 _ h))) (hd0 _ hc)
  | forwarder fns tx rx =>
    have hs : Still w (w.setKind i (.forwarder fns (tx + 1) rx)) := .set hk rfl (by rintro ⟨c, h⟩; cases h)
    exact .ite (.bind (doFns_ends _ _ _ (Caps B) (fun f hf c h => ht f hf c h) hc fun r h =>
      .ite (hret _ _ hs) (hd0 _ h))) (hd0 _ hc)
  | echo => exact hd0 _ hc
  | loopback => exact absurd rfl hl
  | discarder => exact hd0 _ hc
  | flow => exact hd0 _ hc

/-- Data moving up from `pos` leaves the caches of all FrameDecoders within their bounds, also those below. -/
theorem up_ends_all {B : Nat} (fuel pos : Nat) (ctx : Ctx) (w : World) (hs : Sane B w) (hca : CachesFit B w.n w) (hctx : Fits B ctx)
    (hp : pos ≤ w.n) (hf : pos + 2 * w.n + B + 3 ≤ fuel) : Ends (call fuel .up pos ctx) w fun _ w' => CachesFit B w.n w' ∧ Evolves w w' := by
  have h1 := (up_ends fuel pos ctx w hs (hca.le hp) hctx hp hf).evolves
  have h2 : ∀ i, pos ≤ i → IsFrame (w.procs i).kind → (w.procs i).enable = true → (call fuel .up pos ctx w).2.procs i = w.procs i :=
    fun i hi hfr hen => (call_guarded hi fuel ctx w (hs.guarded hfr hen)).2
  simp only [Ends] at h1 ⊢
  rcases hrun : call fuel .up pos ctx w with ⟨r, w'⟩
  rw [hrun] at h1 h2
  cases r with
  | panic => trivial
  | running => exact h1
  | ok c =>
    refine ⟨fun j hj hf1 he1 => ?_, h1.2⟩
    by_cases hjp : j < pos
    · exact h1.1 j hjp hf1 he1
    · have hf0 := (Same.frame (h1.2.kind j)).mpr hf1
      have e := h2 j (by omega) hf0 (by rw [← h1.2.enable j]; exact he1)
      simp only at e
      rw [e] at he1 ⊢
      exact hca j hj hf0 he1

/-- Sending down ends, also if there is a Loopback on the way. -/
theorem down_ends_all {B : Nat} (fuel : Nat) : ∀ (pos : Nat) (ctx : Ctx) (w : World), Sane B w → CachesFit B w.n w → w.mtu ≤ B → Caps B ctx →
    4 * w.n + B + 5 ≤ fuel + pos → 0 < fuel →
    Ends (call fuel .down pos ctx) w fun _ w' => CachesFit B w.n w' ∧ Evolves w w' := by
  induction fuel with
  | zero => intro pos ctx w _ _ _ _ _ h; omega
  | succ fuel ih =>
    intro pos ctx w hs hca hm hc hf _
    by_cases hno : NoLoopFrom (pos - 1) w
    · exact (down_ends (fuel + 1) pos ctx w hs hno (by omega) (by omega)).mono fun _ _ h => ⟨hca.still h, h.ev⟩
    · obtain ⟨l, l1, l2, l3⟩ : ∃ l, pos - 1 ≤ l ∧ l < w.n ∧ (w.procs l).kind = .loopback := by
        by_cases h : ∃ l, pos - 1 ≤ l ∧ l < w.n ∧ (w.procs l).kind = .loopback
        · exact h
        · exact absurd (fun j j1 j2 j3 => h ⟨j, j1, j2, j3⟩) hno
      simp only [call]
      refine .bind (.get ?_)
      by_cases h0 : pos = 0
      · rw [if_pos h0]; exact .pure ⟨hca, .refl w⟩
      · rw [if_neg h0, if_neg (by omega)]
        obtain ⟨i, rfl⟩ : ∃ i, pos = i + 1 := ⟨pos - 1, by omega⟩
        simp only [Nat.add_sub_cancel] at l1 ⊢
        have hi : i < w.n := by omega
        by_cases hl : (w.procs i).kind = .loopback
        · simp only [onUpper, hl]
          exact up_ends_all fuel i ctx w hs hca hc.fits (by omega) (by omega)
        · have hil : i < l := by
            rcases Nat.lt_or_ge i l with h | h
            · exact h
            · exact absurd l3 (by rw [show l = i by omega]; exact hl)
          refine onUpper_caps hl hm (fun hfr => ?_) (hs.turn i l hil l2 l3).2 (fun _ _ h => ⟨hca.still h, h.ev⟩) (fun ctx' w' hc' h => ?_) ctx hc
          · rcases hs.plain with h | h
            · exact h
            · exact absurd hfr (h i hi)
          · have hn := h.ev.n
            have hcs : CachesFit B w'.n w' := by rw [hn]; exact hca.still h
            refine (ih (i + 1 + 1) ctx' w' (hs.evolves h.ev) hcs (by rw [h.ev.mtu]; exact hm) hc' (by omega) (by omega)).mono
              fun _ _ h' => ⟨by rw [← hn]; exact h'.1, h.ev.trans h'.2⟩

/-! ## C35 -/

/-- A stack whose computations end: `Sane`, with the decoders' caches and the MTU bounded by `B`. -/
structure Ready (B : Nat) (w : World) : Prop where
  sane : Sane B w
  caches : CachesFit B w.n w
  mtu : w.mtu ≤ B

theorem Ready.next {B : Nat} {w w' : World} (h : Ready B w) (hc : CachesFit B w.n w') (he : Evolves w w') : Ready B w' :=
  ⟨h.sane.evolves he, by rw [he.n]; exact hc, by rw [he.mtu]; exact h.mtu⟩

theorem Ready.still {B : Nat} {w w' : World} (h : Ready B w) (hs : Still w w') : Ready B w' :=
  h.next (h.caches.still hs) hs.ev

theorem send_ends {B : Nat} (w : World) (hr : Ready B w) (conn : Option ConnId) (v : Val) (s : Int) (fuel : Nat)
    (hf : 4 * w.n + B + 4 ≤ fuel) : Ends (send fuel conn v s) w fun _ w' => Ready B w' ∧ w'.n = w.n :=
  .bind ((down_ends_all fuel 1 _ w hr.sane hr.caches hr.mtu (fun _ h => by cases h) (by omega) (by omega)).mono
    fun _ _ h => .pure ⟨hr.next h.1 h.2, h.2.n⟩)

theorem receive_ends {B : Nat} (w : World) (hr : Ready B w) (c : ConnId) (bs : List Byte) (fuel : Nat)
    (hf : 3 * w.n + B + 3 ≤ fuel) : Ends (receive fuel c bs) w fun _ w' => Ready B w' ∧ w'.n = w.n := by
  simp only [receive]
  refine .bind (.get ?_)
  have hm := hr.mtu
  by_cases hmt : w.mtu ≤ 0
  · simp only [Ends, bind_apply, allocBuf_panic w.mtu 0 w (.inl hmt)]
  · obtain ⟨ub, a1, a2⟩ := allocBuf_ok w.mtu 0 w (by omega) (by omega) (by omega)
    rw [Ends, bind_of_ok a1, ← Ends]
    obtain ⟨ub', r, b1, _, b2⟩ := a2.readFrom (fun m => ⟨bs.take m, min m bs.length, none⟩) (by
      intro n; simp [List.length_take]; omega)
    have hlen : (data ub').length ≤ B := by
      have h1 := b2.wf.2
      rw [b2.data]
      have h2 : ((Deque.fresh w.mtu.toNat (Int.toNat 0)).step (.readFrom fun m => ⟨bs.take m, min m bs.length, none⟩)).2.cap = w.mtu.toNat := by
        simp only [Deque.step]
        split <;> rfl
      omega
    refine .bind (.onBuf ?_)
    rw [Ends, b1]
    refine .ite ?_ ?_
    · exact ⟨hr.still (.close w c), rfl⟩
    · exact .bind ((up_ends fuel w.n _ w hr.sane hr.caches (.of ⟨b2.1, hlen⟩ rfl) (by omega) (by omega)).evolves.mono
        fun _ _ h => .pure ⟨hr.next h.1 h.2, h.2.n⟩)

theorem receiveRef_ends {B : Nat} (w : World) (hr : Ready B w) (c : ConnId) (v : Val) (fuel : Nat)
    (hf : 3 * w.n + B + 3 ≤ fuel) : Ends (receiveRef fuel c v) w fun _ w' => Ready B w' ∧ w'.n = w.n := by
  simp only [receiveRef]
  refine .bind (.get (.ite ⟨hr.still (.close w c), rfl⟩ ?_))
  exact .bind ((up_ends fuel w.n _ w hr.sane hr.caches (fun s h => by cases h) (by omega) (by omega)).evolves.mono
    fun _ _ h => .pure ⟨hr.next h.1 h.2, h.2.n⟩)

theorem sendControl_ends {B : Nat} (w : World) (hr : Ready B w) (i : Nat) (c : ConnId) (tag : Byte) (fuel : Nat)
    (hf : 4 * w.n + B + 4 ≤ fuel) : Ends (sendControl fuel i c tag) w fun _ w' => Ready B w' ∧ w'.n = w.n := by
  simp only [sendControl]
  refine .bind (.get (.bind (.allocCap hr.mtu fun ub hub => .bind (.onBuf ((caps_step hub (.writeByte tag) trivial rfl).mono fun r s' h => ?_)))))
  exact .bind ((down_ends_all fuel (i + 2) _ w hr.sane hr.caches hr.mtu (.of h rfl) (by omega) (by omega)).mono
    fun _ _ h => .pure ⟨hr.next h.1 h.2, h.2.n⟩)

/-- What makes data move: an endpoint sends, a connection delivers bytes or an object, a processor sends a
control message. -/
inductive Event where
  | send (conn : Option ConnId) (v : Val) (session : Int)
  | receive (c : ConnId) (bs : List Byte)
  | receiveRef (c : ConnId) (v : Val)
  | control (i : Nat) (c : ConnId) (tag : Byte)

def Event.run (fuel : Nat) : Event → GoM World Unit
  | .send conn v s => Stack.send fuel conn v s
  | .receive c bs => Stack.receive fuel c bs
  | .receiveRef c v => Stack.receiveRef fuel c v
  | .control i c tag => Stack.sendControl fuel i c tag

def runEvents (fuel : Nat) : List Event → GoM World Unit
  | [] => Pure.pure ()
  | e :: es => do e.run fuel; runEvents fuel es

theorem runEvents_ends {B : Nat} (fuel : Nat) (es : List Event) (w : World) (hr : Ready B w) (hf : 4 * w.n + B + 4 ≤ fuel) :
    Ends (runEvents fuel es) w fun _ w' => Ready B w' ∧ w'.n = w.n := by
  induction es generalizing w with
  | nil => exact .pure ⟨hr, rfl⟩
  | cons e es ih =>
    have key : Ends (e.run fuel) w fun _ w' => Ready B w' ∧ w'.n = w.n := by
      cases e with
      | send conn v s => exact send_ends w hr conn v s fuel (by omega)
      | receive c bs => exact receive_ends w hr c bs fuel (by omega)
      | receiveRef c v => exact receiveRef_ends w hr c v fuel (by omega)
      | control i c tag => exact sendControl_ends w hr i c tag fuel (by omega)
    exact .bind (key.mono fun _ w' h => (ih w' h.1 (by rw [h.2]; exact hf)).mono fun _ w'' h' => ⟨h'.1, h'.2.trans h.2⟩)

/-- On a stack without enabled Echos above a Loopback, where what an enabled StatCounter above a Loopback sends comes back as it
was (no enabled FrameDecoder and no user function between them), with byte connections only or without FrameDecoder, with
user functions that return and do not grow buffers, every history of messages sent, bytes received (any bytes), objects
received and control messages is processed: each computation returns (or panics) within a nesting of calls that
depends only on the number of processors, the MTU and the capacity of the caches.

What is missing from the property: an Echo above a Loopback sends what reaches it back and forth for ever
(`c35_echo_over_loopback`, `c35_swing_exact`), and so does a FrameDecoder with its upper neighbour on a reference connection
(`c35_frame_on_reference`).  Not covered: a FrameDecoder or a function of the user between a StatCounter and a Loopback. -/
theorem c35_terminates_partial {B : Nat} (w : World) (hr : Ready B w) (es : List Event) (fuel : Nat)
    (hf : 4 * w.n + B + 4 ≤ fuel) : (runEvents fuel es w).1 ≠ .running :=
  (runEvents_ends fuel es w hr hf).ne_running

/-- Without a Loopback a single message needs one nested call per processor and one for the LowerDeck. -/
theorem c35_send_terminates_partial {B : Nat} (w : World) (hs : Sane B w) (hno : NoLoopFrom 0 w) (conn : Option ConnId) (v : Val) (s : Int)
    (fuel : Nat) (hf : w.n + 1 ≤ fuel) : (send fuel conn v s w).1 ≠ .running :=
  Ends.ne_running (Q := fun _ _ => True)
    (.bind ((down_ends fuel 1 _ w hs hno (by omega) (by omega)).mono fun _ _ _ => .pure trivial))

/-- A stack with codec, session resolver, filter, echo (disabled) and decoder, then a StatCounter and a Heartbeat, above a Loopback, and
an Echo below it. -/
def haltDemo (cache : St) : World :=
  { quiet with overhead := 10, n := 9, procs := fun
      | 0 => ⟨true, .bytesCodec⟩
      | 1 => ⟨true, .session⟩
      | 2 => ⟨true, .filter [some fun c _ => (true, c)] 0 0⟩
      | 3 => ⟨false, .echo⟩
      | 4 => ⟨true, .frame (some cache)⟩
      | 5 => ⟨true, .stat 0 0⟩
      | 6 => ⟨true, .heartbeat⟩
      | 7 => ⟨true, .loopback⟩
      | _ => ⟨true, .echo⟩ }

example : ∃ cache B, Ready B (haltDemo cache) := by
  obtain ⟨s, h1, h2⟩ := alloc_buf 512 0 Heap.empty (by omega) (by omega) (by omega)
  refine ⟨s, 512 + (haltDemo s).mtu.toNat, ⟨fun j l hj hl hk => ?_, .inl fun c => rfl, fun j hj => ?_⟩, fun j hj hf he => ?_, by omega⟩
  · have hl9 : l < 9 := hl
    have hl7 : l = 7 := by
      have : l = 0 ∨ l = 1 ∨ l = 2 ∨ l = 3 ∨ l = 4 ∨ l = 5 ∨ l = 6 ∨ l = 7 ∨ l = 8 := by omega
      rcases this with h | h | h | h | h | h | h | h | h <;> subst h <;> first | rfl | cases hk
    subst hl7
    match j, hj with
    | 0, _ | 1, _ | 3, _ | 4, _ | 6, _ => exact ⟨by simp [haltDemo, Bounces], trivial⟩
    | 2, _ =>
      refine ⟨by simp [haltDemo, Bounces], fun f hf ctx h => ?_⟩
      simp only [List.mem_singleton, Option.some.injEq] at hf
      subst hf; exact h
    | 5, _ =>
      refine ⟨fun _ => ⟨⟨rfl, 0, 0, rfl⟩, rfl, fun k k1 k2 => ?_, 7, by omega, by omega, rfl, fun k k1 k2 => ?_⟩, trivial⟩ <;>
        obtain rfl : k = 6 := by omega
      · simp [haltDemo, Frames]
      · exact ⟨.inl (by simp [haltDemo, Opens]), by simp [haltDemo, Frames]⟩
  · match j, hj with
    | 0, _ | 1, _ | 3, _ | 4, _ | 5, _ | 6, _ | 7, _ | 8, _ => trivial
    | 2, _ =>
      intro f hf ctx up h
      simp only [List.mem_singleton, Option.some.injEq] at hf
      subst hf; exact h
  · match j, hj with
    | 0, _ | 1, _ | 2, _ | 3, _ | 5, _ | 6, _ | 7, _ | 8, _ => simp [haltDemo, IsFrame] at hf
    | 4, _ => exact ⟨s, _, rfl, h2, by simp [Deque.fresh]⟩

end Verif.Stack
