import Verif.Stack.Halt
import Verif.Stack.CrashExact

/-!
# C97: which inputs crash a stack

`Safe m w Q`: `m` started in `w` does not panic, and if it returns, it returns with `Q`.  The first half shows that no
message, read, object or control message crashes a stack without an enabled FrameDecoder on byte connections, whatever else
is in the chain.  The second half takes the FrameDecoder in, as the lowest processor: exactly the reads of C24 crash the stack.
-/

namespace Verif.Stack
open GoM UBuf

/-! ## Computations that do not panic -/

def Safe (m : GoM σ α) (w : σ) (Q : α → σ → Prop) : Prop :=
  match m w with
  | (.ok a, w') => Q a w'
  | (.panic, _) => False
  | (.running, _) => True

theorem Safe.pure {Q : α → σ → Prop} {a : α} {w : σ} (h : Q a w) : Safe (Pure.pure a) w Q := h

theorem Safe.bind {m : GoM σ α} {f : α → GoM σ β} {w : σ} {Q : β → σ → Prop}
    (h : Safe m w fun a w' => Safe (f a) w' Q) : Safe (m >>= f) w Q := by
  simp only [Safe, bind_apply] at h ⊢
  rcases hm : m w with ⟨r, w'⟩
  rw [hm] at h
  cases r with
  | ok a => exact h
  | panic => exact h
  | running => trivial

theorem Safe.ite {c : Prop} [Decidable c] {m n : GoM σ α} {w : σ} {Q : α → σ → Prop} (h1 : Safe m w Q) (h2 : Safe n w Q) :
    Safe (if c then m else n) w Q := by split <;> assumption

theorem Safe.mono {m : GoM σ α} {w : σ} {Q R : α → σ → Prop} (h : Safe m w Q) (hi : ∀ a w', Q a w' → R a w') : Safe m w R := by
  simp only [Safe] at h ⊢
  rcases hm : m w with ⟨r, w'⟩
  rw [hm] at h
  cases r with
  | ok a => exact hi _ _ h
  | panic => exact h
  | running => trivial

theorem Safe.ne_panic {m : GoM σ α} {w : σ} {Q : α → σ → Prop} (h : Safe m w Q) : (m w).1 ≠ .panic := by
  intro e
  simp only [Safe] at h
  rcases hm : m w with ⟨r, w'⟩
  rw [hm] at e h
  simp only at e
  subst e
  exact h

theorem Safe.of_ok {m : GoM σ α} {w w' : σ} {a : α} {Q : α → σ → Prop} (h : m w = (.ok a, w')) (hq : Q a w') : Safe m w Q := by
  simp only [Safe, h]; exact hq

theorem Safe.get {w : σ} {Q : σ → σ → Prop} (h : Q w w) : Safe GoM.get w Q := h

theorem Safe.onBuf {s : St} {m : GoM St α} {w : World} {Q : α × St → World → Prop}
    (h : Safe m s fun a s' => Q (a, s') w) : Safe (Stack.onBuf s m) w Q := by
  simp only [Safe, Stack.onBuf] at h ⊢
  rcases hm : m s with ⟨r, s'⟩
  rw [hm] at h
  cases r with
  | ok a => exact h
  | panic => exact h
  | running => trivial

theorem Safe.useReference {c : Option ConnId} {w : World} {Q : Bool → World → Prop} (hc : c ≠ none)
    (h : ∀ cid, c = some cid → Q (w.conns cid).useRef w) : Safe (useReference c) w Q := by
  cases c with
  | none => exact absurd rfl hc
  | some c => exact h c rfl

/-- A method call on a well-formed buffer. -/
theorem safe_step {s : St} {m : GoM St α} {f : α → Out} (h : Good s) (op : Op) (hok : Deque.OpOk op)
    (he : exec op = (do let r ← m; return f r)) : Safe m s fun _ s' => Good s' := by
  obtain ⟨s', h1, h2, h3⟩ := h.step op hok
  rw [he] at h1
  obtain ⟨r, h4, _⟩ := map_ok h1
  simp only [Safe, h4]
  exact h3

/-! ## The conditions -/

/-- A context with a connection and, if any, a well-formed buffer. -/
structure Usable (ctx : Ctx) : Prop where
  conn : ctx.conn ≠ none
  buf : ∀ s, ctx.buf = some s → Good s

theorem Usable.set {ctx : Ctx} {s : St} (h : Usable ctx) (hs : Good s) : Usable { ctx with buf := some s } :=
  ⟨h.conn, fun s' e => by cases e; exact hs⟩

/-- User functions do not panic, keep buffers well-formed and leave a connection in the context; the lists of filters and
forwarders have no nil functions.  Disabled processors do not use them. -/
def Mild (p : Proc) : Prop :=
  match p.kind with
  | .genericCodec e d => p.enable = true →
      (∀ e', e = some e' → ∀ v s, Good s → Safe (e' v) s fun _ s' => Good s') ∧
      ∀ d', d = some d' → ∀ s, Good s → Safe d' s fun _ s' => Good s'
  | .gobCodec e d => p.enable = true → (∀ v s, Good s → Safe (e v) s fun _ s' => Good s') ∧ ∀ s, Good s → Safe d s fun _ s' => Good s'
  | .filter fns _ _ | .forwarder fns _ _ => p.enable = true →
      none ∉ fns ∧ ∀ f, some f ∈ fns → ∀ ctx up, Usable ctx → Usable (f ctx up).2
  | _ => True

/-- Buffers can be allocated, the user functions are `Mild`; above position `q` no FrameDecoder is enabled on byte connections,
and below it nothing turns data around. -/
structure Sturdy (q : Nat) (w : World) : Prop where
  mtu : 0 < w.mtu
  over : 0 ≤ w.overhead
  fits : w.overhead ≤ w.mtu
  mild : ∀ j, j < w.n → Mild (w.procs j)
  plain : ∀ j, j < q → j < w.n → IsFrame (w.procs j).kind → (w.procs j).enable = true → ∀ c, (w.conns c).useRef = true
  turn : ∀ j, q ≤ j → j < w.n → (w.procs j).kind ≠ .loopback

theorem Same.mild {p q : Proc} (h : p.kind.Same q.kind) (he : q.enable = p.enable) (hm : Mild p) : Mild q := by
  obtain ⟨e, k⟩ := p
  obtain ⟨e', k'⟩ := q
  simp only at h he
  cases k <;> cases k' <;> simp_all [Kind.Same, Mild]

theorem Sturdy.evolves {q : Nat} {w w' : World} (h : Sturdy q w) (he : Evolves w w') : Sturdy q w' := by
  refine ⟨by rw [he.mtu]; exact h.mtu, by rw [he.overhead]; exact h.over, by rw [he.overhead, he.mtu]; exact h.fits,
    fun j hj => Same.mild (he.kind j) (he.enable j) (h.mild j (by rw [← he.n]; exact hj)), fun j h1 h2 h3 h4 c => ?_, fun j h1 h2 => ?_⟩
  · rw [he.useRef]
    exact h.plain j h1 (by rw [← he.n]; exact h2) ((Same.frame (he.kind j)).mpr h3) (by rw [← he.enable]; exact h4) c
  · exact Same.loopback (he.kind j) (h.turn j h1 (by rw [← he.n]; exact h2))

theorem Safe.alloc {q : Nat} {w : World} {Q : St → World → Prop} (h : Sturdy q w) (hq : ∀ s, Good s → Q s w) :
    Safe (allocBuf w.mtu w.overhead) w Q := by
  obtain ⟨s, h1, h2⟩ := allocBuf_ok w.mtu w.overhead w h.mtu h.over h.fits
  simp only [Safe, h1]
  exact hq s h2.1

/-! ## Going down -/

theorem safe_encodeDown {q : Nat} {nb : Nb} {w : World} {Q : Ctx → World → Prop} (hs : Sturdy q w) (ctx : Ctx) (hc : Usable ctx) (b : List Byte)
    (hret : Q ctx w) (hd : ∀ ctx', Usable ctx' → Safe (nb.downUpper ctx') w Q) : Safe (encodeDown nb ctx b) w Q :=
  .bind (.get (.bind (.alloc hs fun _ hb => .bind (.onBuf ((safe_step hb (.write b) trivial rfl).mono fun _ _ h =>
    .ite (.pure hret) (hd _ (hc.set h)))))))

theorem safe_tagDown {nb : Nb} {w : World} {Q : Ctx → World → Prop} (t : Byte) (ctx : Ctx) (hc : Usable ctx) {ub : St} (hs : Good ub)
    (hd : ∀ ctx', Usable ctx' → Safe (nb.downUpper ctx') w Q) : Safe (tagDown t nb ctx ub) w Q :=
  .bind (.onBuf ((safe_step hs (.writeHeadByte t) trivial rfl).mono fun _ _ h => hd _ (hc.set h)))

theorem safe_doFns {w : World} {Q : Bool × Ctx → World → Prop} (up : Bool) (fns : List (Option Fn)) (hn : none ∉ fns) (ctx : Ctx)
    (hP : ∀ f, some f ∈ fns → ∀ c u, Usable c → Usable (f c u).2) (h0 : Usable ctx) (h : ∀ r, Usable r.2 → Q r w) :
    Safe (doFns up fns ctx) w Q := by
  induction fns generalizing ctx with
  | nil => exact h (false, ctx) h0
  | cons f fns ih =>
    cases f with
    | none => simp at hn
    | some f =>
      have h1 := hP f (by simp) ctx up h0
      simp only [doFns]
      exact .ite (.pure (h _ h1)) (ih (fun hx => hn (by simp [hx])) _ (fun g hg => hP g (by simp [hg])) h1)

/-- `OnUpperData` does not panic if the neighbours do not. -/
theorem onUpper_safe {q i : Nat} {nb : Nb} {w : World} {Q : Ctx → World → Prop} (hst : Sturdy q w) (hm : Mild (w.procs i))
    (hret : ∀ ctx' w', ctx'.conn ≠ none → Still w w' → Q ctx' w')
    (hd : ∀ ctx' w', Usable ctx' → Still w w' → Safe (nb.downUpper ctx') w' Q)
    (hu : (w.procs i).kind = .loopback → ∀ ctx', Usable ctx' → Safe (nb.upLower ctx') w Q)
    (huu : ∀ ctx', Usable ctx' → Safe (nb.upUpper ctx') w Q) (ctx : Ctx) (hc : Usable ctx) : Safe (onUpper i (w.procs i) nb ctx) w Q := by
  have hr : ∀ ctx', ctx'.conn ≠ none → Q ctx' w := fun c h => hret c w h (.refl w)
  have hd0 : ∀ ctx', Usable ctx' → Safe (nb.downUpper ctx') w Q := fun c h => hd c w h (.refl w)
  generalize hp : w.procs i = p at *
  obtain ⟨en, k⟩ := p
  have hk : (w.procs i).kind = k := by rw [hp]
  cases k with
  | base => exact hr ctx hc.conn
  | bytesCodec =>
    refine .ite ?_ (hd0 _ hc)
    split
    · exact safe_encodeDown hst _ hc _ (hr _ hc.conn) hd0
    · exact .pure (hr _ hc.conn)
  | stringCodec =>
    refine .ite ?_ (hd0 _ hc)
    split
    · exact safe_encodeDown hst _ hc _ (hr _ hc.conn) hd0
    · exact .pure (hr _ hc.conn)
  | jsonCodec m u =>
    refine .ite (.ite (.pure (hr _ hc.conn)) ?_) (hd0 _ hc)
    split
    · exact safe_encodeDown hst _ hc _ (hr _ hc.conn) hd0
    · exact .pure (hr _ hc.conn)
  | genericCodec e d =>
    cases en with
    | false => exact hd0 _ hc
    | true =>
      cases e with
      | none => exact .pure (hr _ hc.conn)
      | some e =>
        exact .ite (.pure (hr _ hc.conn)) (.bind (.get (.bind (.alloc hst fun s hs => .bind (.onBuf (((hm rfl).1 e rfl _ s hs).mono fun _ _ h =>
          .ite (.pure (hr _ hc.conn)) (hd0 _ (hc.set h))))))))
  | gobCodec e d =>
    cases en with
    | false => exact hd0 _ hc
    | true =>
      exact .ite (.pure (hr _ hc.conn)) (.bind (.get (.bind (.alloc hst fun s hs => .bind (.onBuf (((hm rfl).1 _ s hs).mono fun _ _ h =>
          .ite (.pure (hr _ hc.conn)) (hd0 _ (hc.set h))))))))
  | session =>
    refine .ite ?_ (hd0 _ hc)
    cases hb : ctx.buf with
    | none => exact .pure (hr _ hc.conn)
    | some ub =>
      exact .bind (.onBuf ((safe_step (hc.buf ub hb) (.writeHeadU _ _ _) trivial rfl).mono fun _ _ h =>
        .ite (.pure (hr _ hc.conn)) (hd0 _ (hc.set h))))
  | frame c =>
    refine .bind (.useReference hc.conn fun cid _ => .ite (huu _ hc) (.ite ?_ (hd0 _ hc)))
    cases hb : ctx.buf with
    | none => exact .pure (hr _ hc.conn)
    | some ub => exact .bind (.onBuf ((safe_step (hc.buf ub hb) (.writeHeadU _ _ _) trivial rfl).mono fun _ _ h => hd0 _ (hc.set h)))
  | stat tx rx =>
    refine .bind (.useReference hc.conn fun cid _ => .ite (hd0 _ hc) ?_)
    cases hb : ctx.buf with
    | none => exact .pure (hr _ hc.conn)
    | some ub =>
      cases en with
      | true =>
        have hs : Still w (w.setKind i (.stat (tx + 1) rx)) := .set hk trivial (by rintro ⟨c, h⟩; cases h)
        exact safe_tagDown (w := w.setKind i (.stat (tx + 1) rx)) _ _ hc (hc.buf ub hb) fun c h => hd c _ h hs
      | false => exact safe_tagDown _ _ hc (hc.buf ub hb) hd0
  | heartbeat =>
    refine .bind (.useReference hc.conn fun cid _ => .ite (hd0 _ hc) ?_)
    cases hb : ctx.buf with
    | none => exact .pure (hr _ hc.conn)
    | some ub => exact safe_tagDown _ _ hc (hc.buf ub hb) hd0
  | loadBalancer =>
    refine .bind (.useReference hc.conn fun cid _ => .ite (hd0 _ hc) ?_)
    cases hb : ctx.buf with
    | none => exact .pure (hr _ hc.conn)
    | some ub => exact safe_tagDown _ _ hc (hc.buf ub hb) hd0
  | filter fns tx rx =>
    have hs : Still w (w.setKind i (.filter fns (tx + 1) rx)) := .set hk rfl (by rintro ⟨c, h⟩; cases h)
    cases en with
    | false => exact hd0 _ hc
    | true =>
      exact .bind (safe_doFns _ _ (hm rfl).1 _ (hm rfl).2 hc fun r h => .ite (hret _ _ h.conn hs) (hd0 _ h))
  | forwarder fns tx rx =>
    have hs : Still w (w.setKind i (.forwarder fns (tx + 1) rx)) := .set hk rfl (by rintro ⟨c, h⟩; cases h)
    cases en with
    | false => exact hd0 _ hc
    | true =>
      exact .bind (safe_doFns _ _ (hm rfl).1 _ (hm rfl).2 hc fun r h => .ite (hret _ _ h.conn hs) (hd0 _ h))
  | echo => exact hd0 _ hc
  | loopback => exact hu rfl _ hc
  | discarder => exact hd0 _ hc
  | flow => exact hd0 _ hc

theorem lowerDeck_safe (ctx : Ctx) (hc : Usable ctx) (w : World) : Safe (lowerDeckUpper ctx) w fun ctx' w' => ctx'.conn ≠ none ∧ Still w w' := by
  have hev := lowerDeck_ends ctx w
  have key : Safe (lowerDeckUpper ctx) w fun ctx' _ => ctx'.conn ≠ none := by
    obtain ⟨conn, buf, msg, opts⟩ := ctx
    cases conn with
    | none => exact absurd rfl hc.conn
    | some c =>
      simp only [lowerDeckUpper]
      refine .bind (.useReference (by simp) fun cid _ => .ite (.bind ?_) ?_)
      · refine Safe.mono (Q := fun _ _ => True) (.bind (.get (.ite (.pure trivial) (.ite (.pure trivial) trivial)))) fun ok w' _ => ?_
        cases ok with
        | true => exact .pure (by simp)
        | false => exact (by simp : (some c : Option ConnId) ≠ none)
      · cases buf with
        | none => exact .pure (by simp)
        | some ub =>
          have hub := hc.buf ub rfl
          have hbr := bytesRange_all (s := ub) ⟨hub, rfl⟩
          refine .bind (Safe.mono (Q := fun _ _ => True) ?_ fun r w' _ => ?_)
          · simp only [writeToConn]
            refine .ite (.pure trivial) (.bind (.onBuf (.of_ok hbr ?_)))
            refine .bind (Safe.mono (Q := fun _ _ => True) (.bind (.get (.ite (.pure trivial) trivial))) fun r w' _ => .bind (.onBuf ?_))
            simp only [writeTo]
            refine .bind (.get (.ite (.pure (.pure trivial)) (.bind (.of_ok hbr ?_))))
            exact .ite (.pure (.pure trivial)) trivial
          · obtain ⟨e, ub⟩ := r
            cases e with
            | none => exact .pure (by simp)
            | some e => exact (by simp : (some c : Option ConnId) ≠ none)
  simp only [Safe, Ends] at *
  rcases hrun : lowerDeckUpper ctx w with ⟨r, w'⟩
  rw [hrun] at key hev
  cases r with
  | ok a => exact ⟨key, hev⟩
  | panic => exact key
  | running => trivial

theorem upperDeck_safe (ctx : Ctx) (hc : ctx.conn ≠ none) (w : World) :
    Safe (upperDeckLower ctx) w fun ctx' w' => ctx'.conn ≠ none ∧ Still w w' := by
  simp only [upperDeckLower]
  refine .ite (.pure ⟨hc, .refl w⟩) (.bind (.get ?_))
  split
  · exact .pure ⟨hc, .refl w⟩
  · exact ⟨hc, Still.obs w _⟩

/-! ## Going up -/

theorem safe_decodeUp {w : World} {Q : Ctx → World → Prop} (ctx : Ctx) (hc : Usable ctx) {k : Ctx → List Byte → GoM World Ctx}
    (hr : ∀ ctx', ctx'.conn ≠ none → Q ctx' w) (hk : ∀ ctx' b, Usable ctx' → Safe (k ctx' b) w Q) : Safe (decodeUp ctx k) w Q := by
  simp only [decodeUp]
  cases hb : ctx.buf with
  | none => exact .pure (hr _ hc.conn)
  | some ub =>
    have hg := hc.buf ub hb
    have hl : 0 ≤ readableLength ub := by rw [hg.rel.readable]; omega
    refine .bind ?_
    simp only [Safe, check_apply, hl, decide_true, if_true]
    exact Safe.bind (.onBuf ((safe_step hg (.read _) trivial rfl).mono fun r s' h => .ite (.pure (hr _ hc.conn)) (hk _ _ (hc.set h))))

/-- `OnLowerData` of a processor that is no FrameDecoder enabled on byte connections does not panic if the neighbours do not. -/
theorem onLower_safe {q i fuel : Nat} {nb : Nb} {w : World} {Q : Ctx → World → Prop} (hst : Sturdy q w) (hm : Mild (w.procs i))
    (hfr : IsFrame (w.procs i).kind → (w.procs i).enable = true → ∀ c, (w.conns c).useRef = true)
    (hret : ∀ ctx' w', ctx'.conn ≠ none → Still w w' → Q ctx' w')
    (hd : ∀ ctx' w', Usable ctx' → Still w w' → Safe (nb.downUpper ctx') w' Q)
    (hu : ∀ ctx' w', Usable ctx' → Still w w' → Safe (nb.upLower ctx') w' Q) (ctx : Ctx) (hc : Usable ctx) :
    Safe (onLower fuel i (w.procs i) nb ctx) w Q := by
  have hr : ∀ ctx', ctx'.conn ≠ none → Q ctx' w := fun c h => hret c w h (.refl w)
  have hd0 : ∀ ctx', Usable ctx' → Safe (nb.downUpper ctx') w Q := fun c h => hd c w h (.refl w)
  have hu0 : ∀ ctx', Usable ctx' → Safe (nb.upLower ctx') w Q := fun c h => hu c w h (.refl w)
  generalize hp : w.procs i = p at *
  obtain ⟨en, k⟩ := p
  have hk : (w.procs i).kind = k := by rw [hp]
  cases k with
  | base => exact hr ctx hc.conn
  | bytesCodec => exact .ite (safe_decodeUp ctx hc hr fun c b h => hu0 _ ⟨h.conn, h.buf⟩) (hu0 _ hc)
  | stringCodec => exact .ite (safe_decodeUp ctx hc hr fun c b h => hu0 _ ⟨h.conn, h.buf⟩) (hu0 _ hc)
  | jsonCodec m u =>
    refine .ite (safe_decodeUp ctx hc hr fun c b h => ?_) (hu0 _ hc)
    split
    · exact hu0 _ ⟨h.conn, h.buf⟩
    · exact .pure (hr _ h.conn)
  | genericCodec e d =>
    cases en with
    | false => exact hu0 _ hc
    | true =>
      cases d with
      | none => exact .pure (hr _ hc.conn)
      | some d =>
        simp only [onLower, genericLower, if_true]
        cases hb : ctx.buf with
        | none => exact .pure (hr _ hc.conn)
        | some ub =>
          exact .bind (.onBuf (((hm rfl).2 d rfl ub (hc.buf ub hb)).mono fun r s' h => .ite (.pure (hr _ hc.conn)) (hu0 _ ⟨hc.conn, (hc.set h).buf⟩)))
  | gobCodec e d =>
    cases en with
    | false => exact hu0 _ hc
    | true =>
      simp only [onLower, genericLower, if_true]
      cases hb : ctx.buf with
      | none => exact .pure (hr _ hc.conn)
      | some ub =>
        exact .bind (.onBuf (((hm rfl).2 ub (hc.buf ub hb)).mono fun r s' h => .ite (.pure (hr _ hc.conn)) (hu0 _ ⟨hc.conn, (hc.set h).buf⟩)))
  | session =>
    refine .ite ?_ (hu0 _ hc)
    cases hb : ctx.buf with
    | none => exact .pure (hr _ hc.conn)
    | some ub =>
      exact .bind (.onBuf ((safe_step (hc.buf ub hb) (.readU _ _) trivial rfl).mono fun r s' h =>
        .ite (.pure (hr _ hc.conn)) (hu0 _ ⟨hc.conn, (hc.set h).buf⟩)))
  | frame c =>
    refine .bind (.useReference hc.conn fun cid _ => ?_)
    cases hur : (w.conns cid).useRef with
    | true => exact hu0 _ hc
    | false =>
      simp only [Bool.false_eq_true, if_false]
      cases hb : ctx.buf with
      | none => exact .pure (hr _ hc.conn)
      | some ub =>
        cases en with
        | false => exact hu0 _ hc
        | true => exact absurd (hfr ⟨c, rfl⟩ rfl cid) (by simp [hur])
  | stat tx rx =>
    refine .bind (.useReference hc.conn fun cid _ => .ite (hu0 _ hc) ?_)
    cases hb : ctx.buf with
    | none => exact .pure (hr _ hc.conn)
    | some ub =>
      refine .bind (.onBuf ((safe_step (hc.buf ub hb) .readByte trivial rfl).mono fun r s' h => .ite (.pure (hr _ hc.conn)) ?_))
      refine .ite ?_ (hu0 _ (hc.set h))
      have hs : Still w (w.setKind i (.stat tx (rx + 1))) := .set hk trivial (by rintro ⟨c, h⟩; cases h)
      refine .ite ?_ (.ite ?_ (hu _ (w.setKind i (.stat tx (rx + 1))) (hc.set h) hs))
      · exact .bind (.get (.bind (.alloc hst fun _ g => .bind (.onBuf ((safe_step g (.writeHeadByte _) trivial rfl).mono fun _ _ g =>
          .bind (.onBuf ((safe_step g (.writeU _ _ _) trivial rfl).mono fun _ _ g =>
          .bind (.onBuf ((safe_step g (.writeU _ _ _) trivial rfl).mono fun _ _ g =>
          .bind (.onBuf ((safe_step g (.write _) trivial rfl).mono fun _ _ g => hd0 _ ⟨hc.conn, (hc.set g).buf⟩)))))))))))
      · exact .bind (.onBuf ((safe_step h (.readU _ _) trivial rfl).mono fun _ _ g => .bind (.onBuf ((safe_step g (.readU _ _) trivial rfl).mono fun _ _ g =>
          .bind (.onBuf ((safe_step g (.read _) trivial rfl).mono fun _ _ g => hret _ _ hc.conn (.obs w _)))))))
  | heartbeat =>
    refine .bind (.useReference hc.conn fun cid _ => .ite (hu0 _ hc) ?_)
    cases hb : ctx.buf with
    | none => exact .pure (hr _ hc.conn)
    | some ub =>
      exact .bind (.onBuf ((safe_step (hc.buf ub hb) .readByte trivial rfl).mono fun r s' h =>
        .ite (.pure (hr _ hc.conn)) (.ite (hret _ _ hc.conn (.obs w _)) (hu0 _ (hc.set h)))))
  | loadBalancer =>
    refine .bind (.useReference hc.conn fun cid _ => .ite (hu0 _ hc) ?_)
    cases hb : ctx.buf with
    | none => exact .pure (hr _ hc.conn)
    | some ub =>
      exact .bind (.onBuf ((safe_step (hc.buf ub hb) .readByte trivial rfl).mono fun r s' h =>
        .ite (.pure (hr _ hc.conn)) (.ite (.pure (hr _ hc.conn)) (hu0 _ (hc.set h)))))
  | filter fns tx rx =>
    have hs : Still w (w.setKind i (.filter fns tx (rx + 1))) := .set hk rfl (by rintro ⟨c, h⟩; cases h)
    cases en with
    | false => exact hu0 _ hc
    | true =>
      exact .bind (safe_doFns _ _ (hm rfl).1 _ (hm rfl).2 hc fun r h => .ite (hret _ _ h.conn hs) (hu0 _ h))
  | forwarder fns tx rx =>
    have hs : Still w (w.setKind i (.forwarder fns tx (rx + 1))) := .set hk rfl (by rintro ⟨c, h⟩; cases h)
    cases en with
    | false => exact hu0 _ hc
    | true =>
      exact .bind (safe_doFns _ _ (hm rfl).1 _ (hm rfl).2 hc fun r h => .ite (hret _ _ h.conn hs) (hu0 _ h))
  | echo =>
    cases en with
    | true => exact hd0 _ hc
    | false => exact hu0 _ hc
  | loopback => exact hr ctx hc.conn
  | discarder =>
    cases en with
    | true => exact hr ctx hc.conn
    | false => exact hu0 _ hc
  | flow => exact hu0 _ hc

/-- No call into the chain panics, except calls from below into the FrameDecoder at `q` and what is under it. -/
theorem call_safe {q : Nat} (fuel : Nat) : ∀ (dir : Dir) (pos : Nat) (ctx : Ctx) (w : World), (dir = .up → pos ≤ q) → Sturdy q w → Usable ctx →
    Safe (call fuel dir pos ctx) w fun ctx' w' => ctx'.conn ≠ none ∧ Evolves w w' := by
  induction fuel with
  | zero => intro dir pos ctx w _ _ _; trivial
  | succ fuel ih =>
    intro dir pos ctx w hpos hst hc
    simp only [call]
    refine .bind (.get ?_)
    by_cases h0 : pos = 0
    · rw [if_pos h0]
      cases dir with
      | up => exact (upperDeck_safe ctx hc.conn w).mono fun _ _ h => ⟨h.1, h.2.ev⟩
      | down => exact .pure ⟨hc.conn, .refl w⟩
    · rw [if_neg h0]
      by_cases hn : pos > w.n
      · rw [if_pos hn]
        cases dir with
        | up => exact .pure ⟨hc.conn, .refl w⟩
        | down => exact (lowerDeck_safe ctx hc w).mono fun _ _ h => ⟨h.1, h.2.ev⟩
      · rw [if_neg hn]
        obtain ⟨i, rfl⟩ : ∃ i, pos = i + 1 := ⟨pos - 1, by omega⟩
        simp only [Nat.add_sub_cancel]
        have hi : i < w.n := by omega
        have nbr : ∀ d p, (d = .up → p ≤ q) → ∀ ctx' w', Usable ctx' → Still w w' →
            Safe (call fuel d p ctx') w' fun c' w'' => c'.conn ≠ none ∧ Evolves w w'' := fun d p hp ctx' w' h h' =>
          (ih d p ctx' w' hp (hst.evolves h'.ev) h).mono fun _ _ h'' => ⟨h''.1, h'.ev.trans h''.2⟩
        cases dir with
        | down =>
          refine onUpper_safe hst (hst.mild i hi) (fun _ _ h h' => ⟨h, h'.ev⟩) (nbr _ _ (by simp)) (fun hl ctx' h => ?_)
            (fun ctx' h => nbr _ _ (by simp) ctx' w h (.refl w)) ctx hc
          have hiq : i < q := by
            rcases Nat.lt_or_ge i q with h | h
            · exact h
            · exact absurd hl (hst.turn i h hi)
          exact nbr .up i (fun _ => by omega) ctx' w h (.refl w)
        | up =>
          have hiq : i + 1 ≤ q := hpos rfl
          exact onLower_safe hst (hst.mild i hi) (hst.plain i (by omega) hi) (fun _ _ h h' => ⟨h, h'.ev⟩) (nbr _ _ (by simp))
            (nbr _ _ (fun _ => by omega)) ctx hc

/-! ## Without a FrameDecoder -/

/-- An endpoint's message names the connection it is for. -/
def Addressed : Event → Prop
  | .send conn _ _ => conn ≠ none
  | _ => True

/-- What one read of the receive loop delivers: the bytes, up to the size of the buffer. -/
theorem receive_read (w : World) (hm : 0 < w.mtu) (c : ConnId) (bs : List Byte) :
    ∃ s d, Buf s d ∧ d.content = bs.take w.mtu.toNat ∧ ∀ fuel, receive fuel c bs w =
      if bs = [] then closeConnection c w
      else (do let _ ← call fuel .up w.n { Ctx.new with conn := some c, buf := some s }; return ()) w := by
  obtain ⟨s0, h1, h2⟩ := allocBuf_ok w.mtu 0 w (by omega) (by omega) (by omega)
  obtain ⟨s1, r, h3, h4, h5⟩ := h2.readFrom (fun m => ⟨bs.take m, min m bs.length, none⟩) (by intro m; simp; omega)
  have hg : (Deque.fresh w.mtu.toNat (Int.toNat 0)).tail = w.mtu.toNat := by simp [Deque.fresh, Deque.tail]
  simp only [Deque.step, hg, if_neg (by omega : ¬ w.mtu.toNat = 0)] at h4 h5
  have hcont : ((Deque.fresh w.mtu.toNat (Int.toNat 0)).push ((bs.take w.mtu.toNat).take (min w.mtu.toNat bs.length))).content = bs.take w.mtu.toNat := by
    simp only [Deque.push, Deque.fresh, List.nil_append, List.take_take]
    rw [List.take_eq_take_iff]
    omega
  obtain ⟨r1, r2⟩ := r
  simp only [Out.count.injEq] at h4
  refine ⟨s1, _, h5, hcont, fun fuel => ?_⟩
  simp only [receive]
  rw [bind_of_ok (get_apply w), bind_of_ok h1, bind_onBuf h3]
  simp only [h4.1, h4.2]
  by_cases hb : bs = []
  · rw [if_pos hb, if_pos (by simp [hb])]
  · have := List.length_pos_iff.mpr hb
    have hno : ¬ (min w.mtu.toNat bs.length = 0 ∨ (none : Option Err).isSome = true) := by
      rintro (h | h)
      · omega
      · simp at h
    rw [if_neg hb, if_neg hno]

theorem event_safe {q : Nat} (fuel : Nat) (e : Event) (w : World) (hst : Sturdy q w) (ha : Addressed e)
    (hq : w.n ≤ q ∨ (∃ conn v s, e = .send conn v s) ∨ ∃ i c t, e = .control i c t) :
    Safe (e.run fuel) w fun _ w' => Evolves w w' := by
  cases e with
  | send conn v s =>
    exact .bind ((call_safe fuel .down 1 _ w (by simp) hst ⟨by exact ha, fun _ h => by cases h⟩).mono fun _ _ h => .pure h.2)
  | control i c tag =>
    exact .bind (.get (.bind (.alloc hst fun s hs => .bind (.onBuf ((safe_step hs (.writeByte tag) trivial rfl).mono fun r s' h =>
      .bind ((call_safe fuel .down (i + 2) _ w (by simp) hst ⟨by simp, fun _ e => by cases e; exact h⟩).mono fun _ _ h => .pure h.2))))))
  | receiveRef c v =>
    have hq' : w.n ≤ q := by
      rcases hq with h | ⟨_, _, _, h⟩ | ⟨_, _, _, h⟩
      · exact h
      · cases h
      · cases h
    exact .bind (.get (.ite (Evolves.close w c)
      (.bind ((call_safe fuel .up w.n _ w (fun _ => hq') hst ⟨by simp, fun _ e => by cases e⟩).mono fun _ _ h => .pure h.2))))
  | receive c bs =>
    have hq' : w.n ≤ q := by
      rcases hq with h | ⟨_, _, _, h⟩ | ⟨_, _, _, h⟩
      · exact h
      · cases h
      · cases h
    obtain ⟨s, d, h1, _, h2⟩ := receive_read w hst.mtu c bs
    show Safe (receive fuel c bs) w _
    rw [Safe, h2 fuel]
    by_cases hb : bs = []
    · rw [if_pos hb]; exact Evolves.close w c
    · rw [if_neg hb]
      exact Safe.bind (Q := fun _ w' => Evolves w w') ((call_safe fuel .up w.n _ w (fun _ => hq') hst ⟨by simp, fun _ e => by cases e; exact h1.1⟩).mono fun _ _ h => .pure h.2)

/-- Without a FrameDecoder enabled on byte connections, whatever is in the chain: no history of addressed messages, reads of any
bytes on any connections, objects received and control messages crashes the stack.

What is missing from the property: with a FrameDecoder the peer can (`c97_exact`, `c97_violated`); a message without a connection can
(`c97_unaddressed`). -/
theorem c97_partial (w : World) (hst : Sturdy w.n w) (es : List Event) (ha : ∀ e ∈ es, Addressed e) (fuel : Nat) :
    (runEvents fuel es w).1 ≠ .panic := by
  suffices h : ∀ w', Sturdy w.n w' → w'.n = w.n → Safe (runEvents fuel es) w' fun _ _ => True from (h w hst rfl).ne_panic
  induction es with
  | nil => intro w' _ _; trivial
  | cons e es ih =>
    intro w' h hn
    exact .bind ((event_safe fuel e w' h (ha e (by simp)) (.inl (by omega))).mono fun _ w'' he =>
      ih (fun x hx => ha x (by simp [hx])) w'' (h.evolves he) (by rw [he.n, hn]))

/-! ## The FrameDecoder as the lowest processor -/

/-- A stack over byte connections whose lowest processor is an enabled FrameDecoder, the only one; everything else is as in
`c97_partial` and ends (C35). -/
structure Fed (B : Nat) (w : World) : Prop where
  ready : Ready B w
  sturdy : Sturdy (w.n - 1) w
  some : 0 < w.n
  enable : (w.procs (w.n - 1)).enable = true
  bytes : ∀ c, (w.conns c).useRef = false

/-- What the stack above does with the frames neither stops nor panics. -/
theorem feeds_settled {B i : Nat} {up : Handler} {e : Res Unit} {ps : List (List Byte)} {ctx : Ctx} {w w2 : World} {r : Res Ctx}
    (hfd : Feeds up i e ps ctx w r w2) (hps : ∀ p ∈ ps, p.length ≤ B)
    (hcn : ctx.conn ≠ none) (hev : ∀ ctx' w', Evolves w' (up ctx' w').2)
    (hk : IsFrame (w.procs i).kind) (hc : CachesFit B i w)
    (hup : ∀ ctx' w', Fits B ctx' → Evolves w w' → CachesFit B i w' → Ends (up ctx') w' fun _ w'' => CachesFit B i w'')
    (hsafe : ∀ ctx' w', Usable ctx' → Evolves w w' → Safe (up ctx') w' fun c _ => c.conn ≠ none) :
    (r = .panic ↔ e = .panic) ∧ (r = .running ↔ e = .running) := by
  induction hfd with
  | done ctx w b c he => simp [he]
  | panic ctx w c he => simp [he]
  | running ctx w c h => simp [h]
  | @step p ps ctx w s c ctx1 w1 r w2 hs hp hrun _ ih =>
    have he1 : Evolves w (w.setKind i (.frame c)) := .setKind w i _ (by obtain ⟨c0, h⟩ := hk; rw [h]; trivial)
    have h1 := hup { ctx with buf := some s } _ (.of ⟨hs, by rw [hp]; exact hps p (by simp)⟩ rfl) he1 (hc.setAt _)
    have h2 := hsafe { ctx with buf := some s } _ ⟨hcn, fun _ e => by cases e; exact hs⟩ he1
    have he2 := hev { ctx with buf := some s } (w.setKind i (.frame c))
    simp only [Ends, Safe, hrun] at h1 h2 he2
    have he3 := he1.trans he2
    exact ih (fun q hq => hps q (by simp [hq])) h2 ((Same.frame (he3.kind i)).mp hk) h1
      (fun ctx' w' a b c => hup ctx' w' a (he3.trans b) c) fun ctx' w' a b => hsafe ctx' w' a (he3.trans b)
  | @stepPanic p ps ctx w s c w1 hs hp hrun =>
    have he1 : Evolves w (w.setKind i (.frame c)) := .setKind w i _ (by obtain ⟨c0, h⟩ := hk; rw [h]; trivial)
    have h2 := hsafe { ctx with buf := some s } _ ⟨hcn, fun _ e => by cases e; exact hs⟩ he1
    simp only [Safe, hrun] at h2
  | @stepRunning p ps ctx w s c w1 hs hp hrun =>
    have he1 : Evolves w (w.setKind i (.frame c)) := .setKind w i _ (by obtain ⟨c0, h⟩ := hk; rw [h]; trivial)
    have h1 := hup { ctx with buf := some s } _ (.of ⟨hs, by rw [hp]; exact hps p (by simp)⟩ rfl) he1 (hc.setAt _)
    simp only [Ends, hrun] at h1

theorem Fed.next {B : Nat} {w w' : World} (h : Fed B w) (hr : Ready B w') (he : Evolves w w') : Fed B w' :=
  ⟨hr, by rw [he.n]; exact h.sturdy.evolves he, by rw [he.n]; exact h.some, by rw [he.n, he.enable]; exact h.enable,
    fun c => by rw [he.useRef]; exact h.bytes c⟩

theorem Safe.returns {m : GoM σ α} {w : σ} {Q R : α → σ → Prop} (h : Safe m w Q) (h' : Ends m w R) :
    ∃ a w', m w = (.ok a, w') ∧ Q a w' ∧ R a w' := by
  simp only [Safe, Ends] at h h'
  rcases hm : m w with ⟨r, w'⟩
  rw [hm] at h h'
  cases r with
  | ok a => exact ⟨a, w', rfl, h, h'⟩
  | panic => exact h.elim
  | running => exact h'.elim

theorem Fed.oneWay {B : Nat} {w : World} {d : Deque} (h : Fed B w) (hd : Caches (w.n - 1) w d) : OneWay (w.n - 1) w := by
  obtain ⟨c, h1, _⟩ := hd
  exact ⟨⟨_, h1⟩, fun j h1 h2 => by omega⟩

/-- What is not a read leaves the decoder alone and returns. -/
theorem watched_other {B fuel : Nat} {w : World} {d : Deque} (h : Fed B w) (hd : Caches (w.n - 1) w d) (e : Event) (ha : Addressed e)
    (hne : ∀ c bs, e ≠ .receive c bs) (hf : 4 * w.n + B + 4 ≤ fuel) :
    ∃ w', e.run fuel w = (.ok (), w') ∧ Fed B w' ∧ Evolves w w' ∧ Caches (w.n - 1) w' d := by
  have H := Sealed.allows (w.n - 1)
  have how := h.oneWay hd
  have key : ∀ w', Sealed (w.n - 1) w w' → Caches (w.n - 1) w' d := fun w' hs => by
    obtain ⟨c, h1, h2⟩ := hd
    exact ⟨c, by rw [(hs how).2]; exact h1, h2⟩
  cases e with
  | receive c bs => exact absurd rfl (hne c bs)
  | send conn v s =>
    have h1 := event_safe fuel (.send conn v s) w h.sturdy ha (.inr (.inl ⟨_, _, _, rfl⟩))
    obtain ⟨_, w', e1, e2, e3⟩ := h1.returns (send_ends w h.ready conn v s fuel hf)
    have hs : Kp (Sealed (w.n - 1)) (send fuel conn v s) := .bind H (call_sealed _ fuel .down 1 (by simp) _) fun _ => .pure H _
    have hs := hs w
    change send fuel conn v s w = _ at e1
    rw [e1] at hs
    exact ⟨w', e1, h.next e3.1 e2, e2, key w' hs⟩
  | control i c t =>
    have h1 := event_safe fuel (.control i c t) w h.sturdy ha (.inr (.inr ⟨_, _, _, rfl⟩))
    obtain ⟨_, w', e1, e2, e3⟩ := h1.returns (sendControl_ends w h.ready i c t fuel hf)
    have hs : Kp (Sealed (w.n - 1)) (sendControl fuel i c t) := .bind H (.get H) fun _ => .bind H (.allocBuf H _ _) fun _ =>
      .bind H (.onBuf H _ _) fun _ => .bind H (call_sealed _ fuel .down (i + 2) (by simp) _) fun _ => .pure H _
    have hs := hs w
    change sendControl fuel i c t w = _ at e1
    rw [e1] at hs
    exact ⟨w', e1, h.next e3.1 e2, e2, key w' hs⟩
  | receiveRef c v =>
    obtain ⟨cache, k1, k2⟩ := hd
    by_cases hv : v = .nil
    · refine ⟨w.close c, ?_, h.next (h.ready.still (.close w c)) (.close w c), .close w c, cache, k1, k2⟩
      simp only [Event.run, receiveRef]
      rw [bind_of_ok (get_apply w), if_pos hv]
      rfl
    · refine ⟨w, ?_, h, .refl w, cache, k1, k2⟩
      obtain ⟨f, rfl⟩ : ∃ f, fuel = f + 1 := ⟨fuel - 1, by omega⟩
      have hn := h.some
      simp only [Event.run, receiveRef]
      rw [bind_of_ok (get_apply w), if_neg hv]
      have : call (f + 1) .up w.n { Ctx.new with conn := some c, msg := v } w = (.ok { Ctx.new with conn := some c, msg := v }, w) := by
        simp only [call]
        rw [bind_of_ok (get_apply w), if_neg (by omega), if_neg (by omega)]
        simp only [onLower, k1, frameLower]
        rw [bind_of_ok (useReference_some c w), h.bytes c]
        simp [Ctx.new]
      rw [bind_of_ok this]
      rfl

theorem call_into (f pos : Nat) (ctx : Ctx) (w : World) (h0 : 0 < pos) (hn : pos ≤ w.n) :
    call (f + 1) .up pos ctx w = onLower f (pos - 1) (w.procs (pos - 1))
      { upLower := call f .up (pos - 1), downUpper := call f .down (pos + 1), upUpper := call f .down (pos - 1) } ctx w := by
  simp only [call]
  rw [bind_of_ok (get_apply w), if_neg (by omega), if_neg (by omega)]

/-- One read. -/
theorem watched_read {T B fuel : Nat} {w : World} {d : Deque} (h : Fed B w) (hd : Caches (w.n - 1) w d) (hT : 0 < T) (hm : w.mtu < 2 ^ 32)
    (c : ConnId) (bs : List Byte) (hf : 4 * w.n + B + 4 ≤ fuel) :
    (Full d → ∃ w', receive fuel c bs w = (.ok (), w') ∧ Fed B w' ∧ Evolves w w' ∧ Caches (w.n - 1) w' d) ∧
    (Vacant T d → (Deadly (bs.take w.mtu.toNat) ∧ (receive fuel c bs w).1 = .panic) ∨
      (¬ Deadly (bs.take w.mtu.toNat) ∧ ∃ w' d', receive fuel c bs w = (.ok (), w') ∧ Fed B w' ∧ Evolves w w' ∧ Caches (w.n - 1) w' d' ∧
        ((¬ Chokes T (bs.take w.mtu.toNat) ∧ Vacant T d') ∨ (Chokes T (bs.take w.mtu.toNat) ∧ Full d')))) := by
  obtain ⟨ub, ds, b1, b2, b3⟩ := receive_read w h.sturdy.mtu c bs
  have hn := h.some
  have hmB := h.ready.mtu
  by_cases hb : bs = []
  · have hrun : receive fuel c bs w = (.ok (), w.close c) := by rw [b3 fuel, if_pos hb]; rfl
    have hw := h.next (h.ready.still (.close w c)) (.close w c)
    obtain ⟨cache, k1, k2⟩ := hd
    refine ⟨fun _ => ⟨_, hrun, hw, .close w c, cache, k1, k2⟩, fun hv => .inr ?_⟩
    subst hb
    simp only [List.take_nil]
    refine ⟨fun hdl => ?_, _, d, hrun, hw, .close w c, ⟨cache, k1, k2⟩, .inl ⟨fun hch => ?_, hv⟩⟩
    · have := (hdl.split (by simp)).1; simp at this
    · rcases hch.incomplete (by simp) with ⟨_, h⟩ | ⟨l, e, h3, h4, _⟩
      · simp at h; omega
      · simp at h4
  · have hrecv := b3 fuel
    rw [if_neg hb] at hrecv
    obtain ⟨f, rfl⟩ : ∃ f, fuel = f + 2 := ⟨fuel - 2, by omega⟩
    obtain ⟨cache, k1, k2⟩ := hd
    have hds : ds.content.length ≤ w.mtu.toNat := by rw [b2, List.length_take]; omega
    generalize hctx : ({ Ctx.new with conn := some c, buf := some ub } : Ctx) = ctx at hrecv
    have hconn : ctx.conn = some c := by subst hctx; rfl
    have hbuf : ctx.buf = some ub := by subst hctx; rfl
    generalize hnb : ({ upLower := call (f + 1) .up (w.n - 1), downUpper := call (f + 1) .down (w.n + 1), upUpper := call (f + 1) .down (w.n - 1) } : Nb) = nb
    have hcall : call (f + 2) .up w.n ctx w = frameLower (f + 1) (w.n - 1) true nb ctx w := by
      rw [call_into (f + 1) w.n ctx w hn (Nat.le_refl _), hnb]
      simp only [onLower, k1, h.enable]
    have hul : nb.upLower = call (f + 1) .up (w.n - 1) := by rw [← hnb]
    have hfr : IsFrame (w.procs (w.n - 1)).kind := ⟨_, k1⟩
    obtain ⟨dc, hk2, hcap⟩ : ∃ dc, Buf cache dc ∧ dc.cap ≤ B := by
      obtain ⟨cache', dc, e1, e2, e3⟩ := h.ready.caches (w.n - 1) (by omega) hfr h.enable
      rw [k1] at e1
      injection e1 with e1
      injection e1 with e1
      subst e1
      exact ⟨dc, e2, e3⟩
    have hdd : dc = d := by rw [← hk2.2, ← k2.2]
    subst hdd
    obtain ⟨f1, f2⟩ := frameLower_feeds (nb := nb) (Inv := Guarded (w.n - 1)) (by rw [hul]; exact calm_guarded (w.n - 1) (f + 1)) (f + 1)
      (h.ready.sane.guarded hfr h.enable) ⟨c, hconn, h.bytes c⟩ hbuf k1 k2 b1
    rw [← hcall] at f1 f2
    obtain ⟨d1, d2, d3⟩ := decodeRead_ends (fuel := f + 1) (c := dc) (src := ds) hcap k2.wf (by omega) (by omega)
    obtain ⟨g1, g2⟩ := feeds_settled f1 d2 (by rw [hconn]; simp) (fun c w' => by rw [hul]; exact call_evolves _ _ _ c w') hfr (h.ready.caches.le (by omega))
      (fun ctx' w' a b c => by
        rw [hul]
        exact up_ends (f + 1) (w.n - 1) ctx' w' (h.ready.sane.evolves b) c a (by rw [b.n]; omega) (by rw [b.n]; omega))
      (fun ctx' w' a b => by
        rw [hul]
        exact (call_safe (f + 1) .up (w.n - 1) ctx' w' (fun _ => Nat.le_refl _) (h.sturdy.evolves b) a).mono fun _ _ h => h.1)
    have hend := receive_ends w h.ready c bs (f + 2) (by omega)
    have hev := call_evolves (f + 2) .up w.n ctx w
    rw [Ends, hrecv] at hend
    rcases hrun : call (f + 2) .up w.n ctx w with ⟨r, w'⟩
    rw [hrun] at g1 g2 f2 hev
    simp only at g1 g2 f2 hev
    have hfin : ∀ x, r = .ok x → receive (f + 2) c bs w = (.ok (), w') ∧ Fed B w' ∧ Evolves w w' ∧ Caches (w.n - 1) w' (decodeRead (f + 1) dc ds).cache := by
      rintro x rfl
      rw [bind_of_ok hrun] at hend hrecv
      exact ⟨hrecv, h.next hend.1 hev, hev, (f2 x rfl).2⟩
    have hok : r ≠ .running := fun e => d1 (g2.1 e)
    constructor
    · intro hfull
      have hdec : decodeRead (f + 1) dc ds = ⟨[], .ok (), dc⟩ := by
        have : (Deque.readFromDeque dc ds).2.2.1 = dc := by simp only [Deque.readFromDeque]; rw [if_pos hfull.full]
        simp only [decodeRead, if_pos hfull.some, this, hfull.waits f, List.nil_append]
      rw [hdec] at g1 hfin
      cases r with
      | ok x => exact ⟨w', (hfin x rfl)⟩
      | panic => simp at g1
      | running => exact absurd rfl hok
    · intro hv
      have hlen : ds.content.length < 2 ^ 32 := by omega
      have hdl := decodeRead_deadly hT (fuel := f) hv hlen (by omega)
      rw [← g1, b2] at hdl
      cases r with
      | panic => exact .inl ⟨hdl.1 rfl, by rw [hrecv, bind_of_panic hrun]⟩
      | running => exact absurd rfl hok
      | ok x =>
        obtain ⟨r1, r2, r3, r4⟩ := hfin x rfl
        have hres : (decodeRead (f + 1) dc ds).res = .ok () := by
          cases hr : (decodeRead (f + 1) dc ds).res with
          | ok u => rfl
          | panic => exact absurd (g1.2 hr) (by simp)
          | running => exact absurd (g2.2 hr) (by simp)
        refine .inr ⟨fun hx => ?_, w', _, r1, r2, r3, r4, ?_⟩
        · have := hdl.2 hx; simp at this
        · rw [← b2]; exact decodeRead_vacant hT f hv hlen hres

/-- A read that is cut to the size of the buffer. -/
def reading (mtu : Int) : Event → Option (List Byte)
  | .receive _ bs => some (bs.take mtu.toNat)
  | _ => none

/-- **C97, exactly**, for the usual order of processors: with the FrameDecoder as the lowest one, a history of addressed messages,
reads, objects and control messages crashes the stack if and only if some read consists of whole frames followed by four zero
bytes (and anything), and no earlier read jammed the cache. -/
theorem c97_exact {T B : Nat} (w : World) (d : Deque) (h : Fed B w) (hd : Caches (w.n - 1) w d) (hv : Vacant T d) (hT : 0 < T)
    (hm : w.mtu < 2 ^ 32) (es : List Event) (ha : ∀ e ∈ es, Addressed e) (fuel : Nat) (hf : 4 * w.n + B + 4 ≤ fuel) :
    (runEvents fuel es w).1 = .panic ↔
      ∃ pre e post bs, es = pre ++ e :: post ∧ reading w.mtu e = some bs ∧ Deadly bs ∧
        ∀ e' ∈ pre, ∀ bs', reading w.mtu e' = some bs' → ¬ Chokes T bs' := by
  suffices hmain : ∀ (w : World) (d : Deque), Fed B w → Caches (w.n - 1) w d → w.mtu < 2 ^ 32 → 4 * w.n + B + 4 ≤ fuel →
      (Full d → (runEvents fuel es w).1 ≠ .panic) ∧
      (Vacant T d → ((runEvents fuel es w).1 = .panic ↔
        ∃ pre e post bs, es = pre ++ e :: post ∧ reading w.mtu e = some bs ∧ Deadly bs ∧
          ∀ e' ∈ pre, ∀ bs', reading w.mtu e' = some bs' → ¬ Chokes T bs')) from (hmain w d h hd hm hf).2 hv
  clear h hd hv hm hf w d
  induction es with
  | nil => intro w d _ _ _ _; simp [runEvents, pure_apply]
  | cons e es ih =>
    intro w d h hd hm hf
    have ih' := ih fun x hx => ha x (by simp [hx])
    -- the rest of the history, after an event that returned
    have rest : ∀ w' d', e.run fuel w = (.ok (), w') → Fed B w' → Evolves w w' → Caches (w.n - 1) w' d' →
        (runEvents fuel (e :: es) w).1 = (runEvents fuel es w').1 ∧
        (Full d' → (runEvents fuel es w').1 ≠ .panic) ∧
        (Vacant T d' → ((runEvents fuel es w').1 = .panic ↔
          ∃ pre e post bs, es = pre ++ e :: post ∧ reading w.mtu e = some bs ∧ Deadly bs ∧
            ∀ e' ∈ pre, ∀ bs', reading w.mtu e' = some bs' → ¬ Chokes T bs')) := by
      intro w' d' e1 e2 e3 e4
      have := ih' w' d' e2 (by rw [e3.n]; exact e4) (by rw [e3.mtu]; exact hm) (by rw [e3.n]; exact hf)
      rw [e3.mtu] at this
      refine ⟨?_, this⟩
      simp only [runEvents]
      rw [bind_of_ok e1]
    -- an event that neither crashes nor jams
    have calm : (∀ bs, reading w.mtu e = some bs → ¬ Deadly bs ∧ ¬ Chokes T bs) →
        ((∃ pre e post bs, es = pre ++ e :: post ∧ reading w.mtu e = some bs ∧ Deadly bs ∧
            ∀ e' ∈ pre, ∀ bs', reading w.mtu e' = some bs' → ¬ Chokes T bs') ↔
          ∃ pre e' post bs, e :: es = pre ++ e' :: post ∧ reading w.mtu e' = some bs ∧ Deadly bs ∧
            ∀ e' ∈ pre, ∀ bs', reading w.mtu e' = some bs' → ¬ Chokes T bs') := by
      intro hcalm
      constructor
      · rintro ⟨pre, x, post, bs, rfl, h1, h2, h3⟩
        refine ⟨e :: pre, x, post, bs, rfl, h1, h2, fun e' he' bs' hr => ?_⟩
        rcases List.mem_cons.1 he' with rfl | he'
        · exact (hcalm bs' hr).2
        · exact h3 e' he' bs' hr
      · rintro ⟨pre, x, post, bs, he, h1, h2, h3⟩
        cases pre with
        | nil => injection he with e1 _; subst e1; exact absurd h2 (hcalm bs h1).1
        | cons y pre =>
          injection he with _ e2
          exact ⟨pre, x, post, bs, e2, h1, h2, fun e' he' => h3 e' (by simp [he'])⟩
    by_cases hr : ∃ c bs, e = .receive c bs
    · obtain ⟨c, bs, rfl⟩ := hr
      obtain ⟨r1, r2⟩ := watched_read (T := T) (fuel := fuel) h hd hT hm c bs hf
      constructor
      · intro hfull
        obtain ⟨w', e1, e2, e3, e4⟩ := r1 hfull
        obtain ⟨q1, q2, _⟩ := rest w' d e1 e2 e3 e4
        rw [q1]; exact q2 hfull
      · intro hv
        rcases r2 hv with ⟨hdl, hp⟩ | ⟨hnd, w', d', e1, e2, e3, e4, e5⟩
        · refine ⟨fun _ => ⟨[], _, es, _, rfl, rfl, hdl, by simp⟩, fun _ => ?_⟩
          rcases hrun : receive fuel c bs w with ⟨r, w'⟩
          rw [hrun] at hp
          simp only at hp
          subst hp
          simp only [runEvents, Event.run]
          rw [bind_of_panic hrun]
        · obtain ⟨q1, q2, q3⟩ := rest w' d' e1 e2 e3 e4
          rw [q1]
          rcases e5 with ⟨c1, c2⟩ | ⟨c1, c2⟩
          · rw [q3 c2]
            exact calm fun bs' hb' => by cases hb'; exact ⟨hnd, c1⟩
          · refine ⟨fun hp => absurd hp (q2 c2), ?_⟩
            rintro ⟨pre, x, post, bs', he, h1, h2, h3⟩
            cases pre with
            | nil => injection he with e1 _; subst e1; cases h1; exact absurd h2 hnd
            | cons y pre =>
              injection he with e1 _
              subst e1
              exact absurd c1 (h3 (.receive c bs) (by simp) _ rfl)
    · obtain ⟨w', e1, e2, e3, e4⟩ := watched_other (fuel := fuel) h hd e (ha e (by simp)) (fun c bs he => hr ⟨c, bs, he⟩) hf
      obtain ⟨q1, q2, q3⟩ := rest w' d e1 e2 e3 e4
      rw [q1]
      refine ⟨q2, fun hv => ?_⟩
      rw [q3 hv]
      refine calm fun bs hb => ?_
      cases e with
      | receive c bs => exact absurd ⟨c, bs, rfl⟩ hr
      | _ => cases hb

theorem Chokes.length_le {T : Nat} {bs : List Byte} (h : Chokes T bs) : T ≤ bs.length := by
  induction h with
  | here _ h => exact h
  | next _ _ ih => simp only [List.length_append]; omega

/-- With a cache that has more room than a read can fill (by default it has twice the MTU, proc_frame_decoder.go:193-205), the order of the reads,
and everything else that happens, does not matter. -/
theorem c97_default {T B : Nat} (w : World) (d : Deque) (h : Fed B w) (hd : Caches (w.n - 1) w d) (hv : Vacant T d) (hT : w.mtu < T)
    (hm : w.mtu < 2 ^ 32) (es : List Event) (ha : ∀ e ∈ es, Addressed e) (fuel : Nat) (hf : 4 * w.n + B + 4 ≤ fuel) :
    (runEvents fuel es w).1 = .panic ↔ ∃ c bs, Event.receive c bs ∈ es ∧ Deadly (bs.take w.mtu.toNat) := by
  have h0 := h.sturdy.mtu
  rw [c97_exact w d h hd hv (by omega) hm es ha fuel hf]
  constructor
  · rintro ⟨pre, e, post, bs, rfl, h1, h2, _⟩
    cases e with
    | receive c bs' => cases h1; exact ⟨c, bs', by simp, h2⟩
    | _ => cases h1
  · rintro ⟨c, bs, h1, h2⟩
    obtain ⟨pre, post, rfl⟩ := List.append_of_mem h1
    refine ⟨pre, _, post, _, rfl, rfl, h2, fun e' _ bs' hr hch => ?_⟩
    have hl := hch.length_le
    cases e' with
    | receive c' b' => cases hr; rw [List.length_take] at hl; omega
    | _ => cases hr

/-- **C97 fails**: a peer crashes every such stack by sending four zero bytes first. -/
theorem c97_violated {T B : Nat} (w : World) (d : Deque) (h : Fed B w) (hd : Caches (w.n - 1) w d) (hv : Vacant T d) (hT : 0 < T)
    (hm4 : 4 ≤ w.mtu) (hm : w.mtu < 2 ^ 32) (c : ConnId) (es : List Event) (ha : ∀ e ∈ es, Addressed e) (fuel : Nat) (hf : 4 * w.n + B + 4 ≤ fuel) :
    (runEvents fuel (.receive c [0, 0, 0, 0] :: es) w).1 = .panic := by
  refine (c97_exact w d h hd hv hT hm _ (fun e he => ?_) fuel hf).2 ⟨[], _, es, [0, 0, 0, 0], rfl, ?_, ⟨[], [], by simp, by simp [stream]⟩, by simp⟩
  · rcases List.mem_cons.1 he with rfl | he
    · trivial
    · exact ha e he
  · simp only [reading]
    rw [List.take_of_length_le (by simp; omega)]

/-! ## Messages without a connection -/

/-- The processors that ask the connection whether it takes references. -/
def AsksConn : Kind → Prop
  | .frame _ | .stat _ _ | .heartbeat | .loadBalancer => True
  | _ => False

theorem onUpper_unaddressed (i : Nat) (p : Proc) (hk : AsksConn p.kind) (nb : Nb) (ctx : Ctx) (hc : ctx.conn = none) (w : World) :
    onUpper i p nb ctx w = (.panic, w) := by
  obtain ⟨en, k⟩ := p
  cases k <;> simp only [AsksConn] at hk <;>
    simp only [onUpper, frameUpper, statUpper, heartbeatUpper, loadBalancerUpper, hc] <;>
    exact bind_of_panic rfl

theorem call_onto (f pos : Nat) (ctx : Ctx) (w : World) (h0 : 0 < pos) (hn : pos ≤ w.n) :
    call (f + 1) .down pos ctx w = onUpper (pos - 1) (w.procs (pos - 1))
      { upLower := call f .up (pos - 1), downUpper := call f .down (pos + 1), upUpper := call f .down (pos - 1) } ctx w := by
  simp only [call]
  rw [bind_of_ok (get_apply w), if_neg (by omega), if_neg (by omega)]

/-- **C97 fails** also for a message that is published without a connection: below a BytesCodec, a FrameDecoder, StatCounter, Heartbeat or
LoadBalancer calls a method of the nil connection, enabled or not. -/
theorem c97_unaddressed (w : World) (hn : 2 ≤ w.n) (h0 : w.procs 0 = ⟨true, .bytesCodec⟩) (h1 : AsksConn (w.procs 1).kind)
    (b : List Byte) (hb : b ≠ []) (hov : 0 ≤ w.overhead) (hfit : w.overhead + b.length ≤ w.mtu) (session : Int) (fuel : Nat) :
    (send (fuel + 2) none (.bytes b) session w).1 = .panic := by
  have hcall : ∀ ctx, ctx.conn = none → call (fuel + 1) .down 2 ctx w = (.panic, w) := fun ctx hc => by
    rw [call_onto fuel 2 ctx w (by omega) hn]
    exact onUpper_unaddressed 1 _ h1 _ ctx hc w
  have htop : ∀ ctx, ctx.conn = none → ctx.msg = .bytes b → call (fuel + 2) .down 1 ctx w = (.panic, w) := fun ctx hc hm => by
    rw [call_onto (fuel + 1) 1 ctx w (by omega) (by omega)]
    simp only [Nat.sub_self, h0, onUpper, bytesUpper, hm, if_true]
    obtain ⟨s, _, h⟩ := encodeDown_ok (nb := { upLower := call (fuel + 1) .up 0, downUpper := call (fuel + 1) .down 2, upUpper := call (fuel + 1) .down 0 })
      (ctx := ctx) b hb hov hfit
    exact h.trans (hcall _ hc)
  simp only [send]
  rw [bind_of_panic (htop _ rfl rfl)]

/-! ## Examples -/

/-- BytesCodec, session resolver, a filter, a disabled FrameDecoder, a Loopback, and a Heartbeat below it. -/
def sturdyDemo : World :=
  { quiet with n := 6, procs := fun
      | 0 => ⟨true, .bytesCodec⟩
      | 1 => ⟨true, .session⟩
      | 2 => ⟨true, .filter [some fun c _ => (true, c)] 0 0⟩
      | 3 => ⟨false, .frame none⟩
      | 4 => ⟨true, .loopback⟩
      | _ => ⟨true, .heartbeat⟩ }

theorem mild_pass (i : Nat) : Mild (sturdyDemo.procs i) := by
  match i with
  | 0 | 1 | 3 | 4 | _ + 5 => trivial
  | 2 =>
    intro _
    refine ⟨by simp, fun f hf ctx up h => ?_⟩
    simp only [List.mem_singleton, Option.some.injEq] at hf
    subst hf; exact h

example : Sturdy sturdyDemo.n sturdyDemo ∧ (∀ e ∈ [Event.receive 0 [0, 0, 0, 0], .send (some 1) (.bytes [1]) 7, .control 5 0 0x81], Addressed e) := by
  refine ⟨⟨by decide, by decide, by decide, fun j _ => mild_pass j, fun j _ hj hf he => ?_, fun j h1 h2 => by omega⟩, by simp [Addressed]⟩
  match j with
  | 0 | 1 | 2 | 4 | _ + 5 => obtain ⟨c, h⟩ := hf; cases h
  | 3 => cases he

/-- The usual order: codec, session resolver, StatCounter, FrameDecoder. -/
def fedDemo (cache : St) : World :=
  { quiet with n := 4, procs := fun
      | 0 => ⟨true, .bytesCodec⟩
      | 1 => ⟨true, .session⟩
      | 2 => ⟨true, .stat 0 0⟩
      | _ => ⟨true, .frame (some cache)⟩ }

/-- A cache of twice the MTU: the hypotheses of `c97_exact`, `c97_default` and `c97_violated`. -/
example : ∃ cache B d, Fed B (fedDemo cache) ∧ Caches ((fedDemo cache).n - 1) (fedDemo cache) d ∧ Vacant 32 d ∧ (fedDemo cache).mtu < 32 ∧
    4 ≤ (fedDemo cache).mtu := by
  obtain ⟨s, h1, h2⟩ := alloc_buf 32 0 Heap.empty (by omega) (by omega) (by omega)
  refine ⟨s, 48, _, ⟨⟨⟨fun j l hj hl hk => ?_, .inl fun c => rfl, fun j hj => ?_⟩, fun j hj hf he => ?_, by simp [fedDemo, quiet]⟩, ?_, by simp [fedDemo], rfl, fun _ => rfl⟩,
    ⟨s, rfl, h2⟩, ⟨rfl, rfl, rfl⟩, by simp [fedDemo, quiet], by simp [fedDemo, quiet]⟩
  · match l with
    | 0 | 1 | 2 | _ + 3 => cases hk
  · match j with
    | 0 | 1 | 2 | _ + 3 => trivial
  · match j, hj with
    | 0, _ | 1, _ | 2, _ => simp [fedDemo, IsFrame] at hf
    | 3, _ => exact ⟨s, _, rfl, h2, by simp [Deque.fresh]⟩
  · refine ⟨by simp [fedDemo, quiet], by simp [fedDemo, quiet], by simp [fedDemo, quiet], fun j hj => ?_, fun j h1 hj hf he => ?_, fun j h1 hj => ?_⟩
    · match j with
      | 0 | 1 | 2 | _ + 3 => trivial
    · match j, h1 with
      | 0, _ | 1, _ | 2, _ => obtain ⟨c, h⟩ := hf; cases h
    · match j with
      | 0 | 1 | 2 | _ + 3 => intro h; cases h

/-- A frame in front of the zeros is delivered first, then the stack crashes. -/
example : Deadly ([0, 0, 0, 1, 5] ++ [0, 0, 0, 0, 9]) ∧ ¬ Deadly [0, 0, 0, 1, 0, 0, 0, 0] := by
  refine ⟨⟨[[5]], [9], by simp, by decide⟩, fun h => ?_⟩
  have := h.split (by decide)
  rcases this.2 with h | ⟨_, h, _⟩
  · exact absurd h (by decide)
  · exact absurd h (by decide)

/-- BytesCodec above a StatCounter that is off: `c97_unaddressed` applies to every message that fits. -/
example : ∃ w : World, 2 ≤ w.n ∧ w.procs 0 = ⟨true, .bytesCodec⟩ ∧ AsksConn (w.procs 1).kind ∧ w.overhead + ([1, 2] : List Byte).length ≤ w.mtu ∧
    (send 9 none (.bytes [1, 2]) 7 w).1 = .panic :=
  have h : ∃ w : World, 2 ≤ w.n ∧ w.procs 0 = ⟨true, .bytesCodec⟩ ∧ AsksConn (w.procs 1).kind ∧ w.overhead + ([1, 2] : List Byte).length ≤ w.mtu ∧ 0 ≤ w.overhead :=
    ⟨{ quiet with n := 2, procs := fun | 0 => ⟨true, .bytesCodec⟩ | _ => ⟨false, .stat 0 0⟩ }, by decide, rfl, trivial, by decide, by decide⟩
  let ⟨w, h1, h2, h3, h4, h5⟩ := h
  ⟨w, h1, h2, h3, h4, c97_unaddressed w h1 h2 h3 _ (by simp) h5 h4 7 7⟩

end Verif.Stack
