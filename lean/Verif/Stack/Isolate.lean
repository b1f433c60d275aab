import Verif.Stack.Within
import Verif.Stack.Turn

/-!
# Connections are kept apart (C72); a connection is closed only for a reason (C71)
-/

namespace Verif.Stack
open GoM UBuf

/-! ## What the LowerDeck does with a context -/

/-- The error of `WriteTo` is the error of the one write. -/
theorem writeTo_err (r : WriteRes) {s s' : St} {q : Option (List Byte) × Nat × Option Err}
    (h : UBuf.writeTo (fun _ => r) s = (.ok q, s')) (he : q.2.2.isSome = true) : r.err.isSome = true := by
  simp only [UBuf.writeTo] at h
  rw [bind_of_ok (get_apply s)] at h
  split at h
  · injection h with h _; injection h with h; subst h; cases he
  · rw [bind_apply] at h
    rcases hb : bytesRange s.ub.reader s.ub.writer s with ⟨b, s1⟩
    rw [hb] at h
    cases b with
    | panic => cases h
    | running => cases h
    | ok p =>
      simp only at h
      split at h
      · assumption
      · injection h with h _; injection h with h; subst h; cases he

/-- `WriteTo` the connection, for any buffer: nothing, or one write whose error is reported. -/
theorem writeToConn_cases (c : ConnId) (ub : St) (w : World) :
    ((writeToConn c ub w).2 = w ∧ ∀ e s, (writeToConn c ub w).1 = .ok (e, s) → e = none) ∨
    ((w.conns c).closed = false ∧ ∃ p, (writeToConn c ub w).2 = w.wrote c p ∧
      ∀ e s, (writeToConn c ub w).1 = .ok (e, s) → e.isSome = true → (w.write w.trace c p).err.isSome = true) := by
  simp only [writeToConn]
  split
  · exact .inl ⟨rfl, fun e s h => by injection h with h; injection h with h1 h2; exact h1.symm⟩
  rw [bind_apply]
  simp only [onBuf]
  rcases bytesRange ub.ub.reader ub.ub.writer ub with ⟨p, s1⟩
  cases p with
  | panic => exact .inl ⟨rfl, fun e s h => by cases h⟩
  | running => exact .inl ⟨rfl, fun e s h => by cases h⟩
  | ok p =>
    simp only
    by_cases hcl : (w.conns c).closed = true
    · left
      rw [bind_of_ok (s' := w) (a := ⟨0, none⟩) (by simp [connWrite, bind_apply, hcl])]
      rw [bind_apply]
      rcases hq : UBuf.writeTo (fun _ => (⟨0, none⟩ : WriteRes)) ub with ⟨q, s2⟩
      simp only [onBuf, hq]
      cases q with
      | panic => exact ⟨rfl, fun e s h => by cases h⟩
      | running => exact ⟨rfl, fun e s h => by cases h⟩
      | ok q =>
        refine ⟨rfl, fun e s h => ?_⟩
        injection h with h; injection h with h1 h2
        cases hqe : q.2.2 with
        | none => exact h1 ▸ hqe
        | some x => cases writeTo_err _ hq (by rw [hqe]; rfl)
    · right
      refine ⟨by simpa using hcl, p, ?_⟩
      rw [bind_of_ok (s' := w.wrote c p) (a := w.write w.trace c p)
        (by simp [connWrite, bind_apply, hcl, observe, World.wrote])]
      rw [bind_apply]
      rcases hq : UBuf.writeTo (fun _ => w.write w.trace c p) ub with ⟨q, s2⟩
      simp only [onBuf, hq]
      cases q with
      | panic => exact ⟨rfl, fun e s h => by cases h⟩
      | running => exact ⟨rfl, fun e s h => by cases h⟩
      | ok q =>
        refine ⟨rfl, fun e s h he => ?_⟩
        injection h with h; injection h with h1 h2
        exact writeTo_err _ hq (h1 ▸ he)

/-- Everything the LowerDeck can do with a context. -/
inductive LowerDid (ctx : Ctx) (w : World) : World → Prop where
  | nothing : LowerDid ctx w w
  | wrote (c p) (hc : ctx.conn = some c) (hr : (w.conns c).useRef = false) (ho : (w.conns c).closed = false) :
    LowerDid ctx w (w.wrote c p)
  | failed (c p) (hc : ctx.conn = some c) (hr : (w.conns c).useRef = false) (ho : (w.conns c).closed = false)
    (he : (w.write w.trace c p).err.isSome = true) : LowerDid ctx w ((w.wrote c p).close c)
  | object (c) (hc : ctx.conn = some c) (hr : (w.conns c).useRef = true) (ho : (w.conns c).closed = false)
    (hm : ctx.msg ≠ .nil) : LowerDid ctx w { w with trace := w.trace ++ [.ref c ctx.msg] }
  | refused (c) (hc : ctx.conn = some c) (hr : (w.conns c).useRef = true)
    (hb : (w.conns c).closed = true ∨ ctx.msg = .nil) : LowerDid ctx w (w.close c)

theorem lowerDeck_did (ctx : Ctx) (w : World) :
    LowerDid ctx w (lowerDeckUpper ctx w).2 ∧ ∀ c', (lowerDeckUpper ctx w).1 = .ok c' → c'.conn = ctx.conn := by
  cases hc : ctx.conn with
  | none =>
    simp only [lowerDeckUpper, hc]
    exact ⟨.nothing, fun c' h => by injection h with h; subst h; exact hc⟩
  | some c =>
    by_cases hr : (w.conns c).useRef = true
    · by_cases hb : (w.conns c).closed = true ∨ ctx.msg = .nil
      · rw [lowerDeckUpper_ref_fail hc hr hb]
        exact ⟨.refused c hc hr hb, fun c' h => by injection h with h; subst h; exact hc⟩
      · rw [not_or] at hb
        rw [lowerDeckUpper_ref hc hr (by simpa using hb.1) hb.2]
        exact ⟨.object c hc hr (by simpa using hb.1) hb.2, fun c' h => by injection h with h; subst h; exact hc⟩
    · have hr : (w.conns c).useRef = false := by simpa using hr
      simp only [lowerDeckUpper, hc]
      rw [bind_of_ok (by rw [useReference_some, hr])]
      simp only [Bool.false_eq_true, if_false]
      cases hb : ctx.buf with
      | none => exact ⟨.nothing, fun c' h => by injection h with h; subst h; exact hc⟩
      | some ub =>
        simp only
        rw [bind_apply]
        have hcase := writeToConn_cases c ub w
        rcases hw : writeToConn c ub w with ⟨r, w1⟩
        rw [hw] at hcase
        rcases hcase with ⟨h1, h2⟩ | ⟨ho, p, h1, h2⟩
        · simp only at h1
          subst h1
          cases r with
          | panic => exact ⟨.nothing, fun c' h => by cases h⟩
          | running => exact ⟨.nothing, fun c' h => by cases h⟩
          | ok r =>
            obtain ⟨e, s⟩ := r
            cases h2 e s rfl
            exact ⟨.nothing, fun c' h => by injection h with h; subst h; rfl⟩
        · simp only at h1
          subst h1
          cases r with
          | panic => exact ⟨.wrote c p hc hr ho, fun c' h => by cases h⟩
          | running => exact ⟨.wrote c p hc hr ho, fun c' h => by cases h⟩
          | ok r =>
            obtain ⟨e, s⟩ := r
            cases e with
            | none => exact ⟨.wrote c p hc hr ho, fun c' h => by injection h with h; subst h; rfl⟩
            | some e =>
              exact ⟨.failed c p hc hr ho (h2 _ s rfl rfl), fun c' h => by injection h with h; subst h; rfl⟩

/-- Everything the UpperDeck can do with a context. -/
theorem upperDeck_did (ctx : Ctx) (w : World) :
    ((upperDeckLower ctx w).2 = w ∨ ∃ ep, (upperDeckLower ctx w).2 = { w with trace := w.trace ++ [.rx ep ctx.conn ctx.msg] }) ∧
      ∀ c', (upperDeckLower ctx w).1 = .ok c' → c' = ctx := by
  simp only [upperDeckLower]
  split
  · exact ⟨.inl rfl, fun c' h => by injection h with h; exact h.symm⟩
  · rw [bind_of_ok (get_apply w)]
    cases findEndPoint w.served (optionParseInt (ctx.opts "session") 0).1 with
    | none => exact ⟨.inl rfl, fun c' h => by injection h with h; exact h.symm⟩
    | some ep => exact ⟨.inr ⟨ep, rfl⟩, fun c' h => by injection h with h; exact h.symm⟩

/-! ## C72: work for one connection -/

/-- An observation that concerns this connection (or no connection: printed statistics). -/
def Obs.About (oc : Option ConnId) : Obs → Prop
  | .wire c _ _ => oc = some c
  | .ref c _ => oc = some c
  | .rx _ conn _ => oc = conn
  | .closed c => oc = some c
  | .beat _ conn => oc = conn
  | .shown _ _ _ => True

/-- Between two worlds only things that concern this connection happened, the other connections are as before. -/
def Only (oc : Option ConnId) (w w' : World) : Prop :=
  (∃ t, w'.trace = w.trace ++ t ∧ ∀ o ∈ t, o.About oc) ∧ ∀ c, oc ≠ some c → w'.conns c = w.conns c

/-- The user's functions leave the connection of the context alone. -/
def FnsKeepConn (w : World) : Prop :=
  ∀ i f ctx up, some f ∈ (w.procs i).kind.fns → (f ctx up).2.conn = ctx.conn

theorem Only.refl (oc : Option ConnId) (w : World) : Only oc w w := ⟨⟨[], by simp, by simp⟩, fun _ _ => rfl⟩

theorem Only.trans {oc : Option ConnId} {a b c : World} (h1 : Only oc a b) (h2 : Only oc b c) : Only oc a c := by
  obtain ⟨⟨t, e, h⟩, k⟩ := h1
  obtain ⟨⟨t', e', h'⟩, k'⟩ := h2
  refine ⟨⟨t ++ t', by rw [e', e, List.append_assoc], fun o ho => ?_⟩, fun x hx => (k' x hx).trans (k x hx)⟩
  rcases List.mem_append.mp ho with ho | ho
  · exact h o ho
  · exact h' o ho

theorem Only.obs {oc : Option ConnId} (w : World) {o : Obs} (h : o.About oc) :
    Only oc w { w with trace := w.trace ++ [o] } :=
  ⟨⟨[o], rfl, fun x hx => by simp only [List.mem_singleton] at hx; exact hx ▸ h⟩, fun _ _ => rfl⟩

theorem Only.close {oc : Option ConnId} (w : World) {c : ConnId} (h : oc = some c) : Only oc w (w.close c) := by
  refine ⟨⟨[.closed c], rfl, fun x hx => by simp only [List.mem_singleton] at hx; exact hx ▸ h⟩, fun x hx => ?_⟩
  simp only [World.close]
  rw [if_neg (by rintro rfl; exact hx h)]

/-- Work for the connection `oc`. -/
def forConn (oc : Option ConnId) : Setting := ⟨Only oc, FnsKeepConn, fun ctx => ctx.conn = oc⟩

theorem fnsKeepConn_setKind {w : World} {i : Nat} {k : Kind} (hw : FnsKeepConn w) (h : (w.procs i).kind.Same k) :
    FnsKeepConn (w.setKind i k) := by
  intro j f ctx up hf
  refine hw j f ctx up ?_
  simp only [World.setKind] at hf
  split at hf
  · rename_i e; subst e; rw [h.fns]; exact hf
  · exact hf

theorem forConn_ok (oc : Option ConnId) : (forConn oc).Ok where
  refl := Only.refl oc
  trans := Only.trans
  set w i k hw h := ⟨⟨⟨[], by simp [World.setKind], by simp⟩, fun _ _ => rfl⟩, fnsKeepConn_setKind hw h⟩
  beat w i ctx hw hc := ⟨.obs w (show oc = ctx.conn from hc.symm), hw⟩
  shown w t r n hw := ⟨.obs w trivial, hw⟩
  buf _ _ h := h
  msg _ _ h := h
  opts _ _ h := h
  fns w i f ctx up hw hf hc := (hw i f ctx up hf).trans hc

theorem lowerDid_only {ctx : Ctx} {w w' : World} (h : LowerDid ctx w w') : Only ctx.conn w w' := by
  cases h with
  | nothing => exact .refl _ _
  | wrote c p hc _ _ => exact .obs w (by rw [hc]; rfl)
  | failed c p hc _ _ _ => exact .trans (.obs w (o := .wire c p _) (by rw [hc]; rfl)) (.close _ hc)
  | object c hc _ _ _ => exact .obs w (by rw [hc]; rfl)
  | refused c hc _ _ => exact .close w hc

theorem lowerDid_procs {ctx : Ctx} {w w' : World} (h : LowerDid ctx w w') : w'.procs = w.procs := by
  cases h <;> rfl

theorem call_only (oc : Option ConnId) (fuel : Nat) (dir : Dir) (pos : Nat) : KcH (forConn oc) (call fuel dir pos) := by
  refine call_within (forConn_ok oc) (fun ctx hc w hw => ?_) (fun ctx hc w hw => ?_) fuel dir pos
  · obtain ⟨h1, h2⟩ := upperDeck_did ctx w
    refine ⟨?_, ?_, fun a ha => by rw [h2 a ha]; exact hc⟩
    · rcases h1 with h1 | ⟨ep, h1⟩
      · rw [h1]; exact Only.refl _ _
      · rw [h1]; exact Only.obs w (show oc = ctx.conn from Eq.symm hc)
    · rcases h1 with h1 | ⟨ep, h1⟩ <;> rw [h1] <;> exact hw
  · obtain ⟨h1, h2⟩ := lowerDeck_did ctx w
    have hc : ctx.conn = oc := hc
    refine ⟨hc ▸ lowerDid_only h1, ?_, fun a ha => (h2 a ha).trans hc⟩
    show FnsKeepConn _
    intro i f c up hf
    rw [lowerDid_procs h1] at hf
    exact hw i f c up hf

/-- Something that happens to a running stack. -/
inductive Ev where
  /-- an endpoint sends -/
  | send (conn : Option ConnId) (data : Val) (session : Int)
  /-- bytes are read from a connection -/
  | bytes (c : ConnId) (bs : List Byte)
  /-- an object is received on a reference connection -/
  | object (c : ConnId) (v : Val)
  /-- a Heartbeat or StatCounter goroutine sends -/
  | control (i : Nat) (c : ConnId) (tag : Byte)

/-- The connection an event belongs to. -/
def Ev.conn : Ev → Option ConnId
  | .send c _ _ => c
  | .bytes c _ => some c
  | .object c _ => some c
  | .control _ c _ => some c

/-- The handling of an event. -/
def Ev.run (fuel : Nat) : Ev → GoM World Unit
  | .send c v s => Stack.send fuel c v s
  | .bytes c bs => receive fuel c bs
  | .object c v => receiveRef fuel c v
  | .control i c tag => sendControl fuel i c tag

/-- A sequence of events.  A panic ends the process. -/
def runEvs (fuel : Nat) : List Ev → GoM World Unit
  | [] => return ()
  | e :: es => do e.run fuel; runEvs fuel es

theorem ev_within (fuel : Nat) (e : Ev) : Kc (forConn e.conn) (fun _ => True) (e.run fuel) := by
  intro w hw
  have H := forConn_ok e.conn
  have hcall : ∀ dir pos ctx, ctx.conn = e.conn → ∀ w, FnsKeepConn w →
      At' (forConn e.conn) (fun _ => True) w (do let _ ← call fuel dir pos ctx; return ()) := fun dir pos ctx hc w hw =>
    .bind H (call_only e.conn fuel dir pos ctx hc w hw) fun _ w' _ hw' => .ok H trivial hw'
  have hclose : ∀ c, e.conn = some c → At' (forConn e.conn) (fun _ => True) w (closeConnection c) := fun c hc =>
    ⟨by rw [closeConnection_apply]; exact Only.close w hc, hw, fun _ _ => trivial⟩
  cases e with
  | send c v s => exact hcall _ _ _ rfl w hw
  | bytes c bs =>
    simp only [Ev.run, receive]
    exact .still H hw rfl fun w1 _ => .still H hw (allocBuf_world _ _ w) fun ub _ => .still H hw (onBuf_world _ _ w) fun r _ =>
      .ite (hclose c rfl) (hcall _ _ _ rfl w hw)
  | object c v =>
    simp only [Ev.run, receiveRef]
    exact .still H hw rfl fun w1 _ => .ite (hclose c rfl) (hcall _ _ _ rfl w hw)
  | control i c tag =>
    simp only [Ev.run, sendControl]
    exact .still H hw rfl fun w1 _ => .still H hw (allocBuf_world _ _ w) fun ub _ => .still H hw (onBuf_world _ _ w) fun r _ =>
      hcall _ _ _ rfl w hw

/-- Whatever is sent on a connection, received from it or sent periodically on it, on any chain of processors in
any state, whether the handling returns, panics or goes on: everything that happens concerns this connection,
and the other connections are left as they are. -/
theorem c72_one_event (fuel : Nat) (e : Ev) (w : World) (hw : FnsKeepConn w) :
    (∃ t, (e.run fuel w).2.trace = w.trace ++ t ∧ ∀ o ∈ t, o.About e.conn) ∧
      ∀ c, e.conn ≠ some c → (e.run fuel w).2.conns c = w.conns c := (ev_within fuel e w hw).1

/-- The same for any sequence of events: whatever happened belongs to the connection of one of the events, and
a connection without events is left alone. -/
theorem c72_events (fuel : Nat) (es : List Ev) (w : World) (hw : FnsKeepConn w) :
    (∃ t, (runEvs fuel es w).2.trace = w.trace ++ t ∧ ∀ o ∈ t, ∃ e ∈ es, o.About e.conn) ∧
      ∀ c, (∀ e ∈ es, e.conn ≠ some c) → (runEvs fuel es w).2.conns c = w.conns c := by
  induction es generalizing w with
  | nil => exact ⟨⟨[], by simp only [List.append_nil]; rfl, by simp⟩, fun _ _ => rfl⟩
  | cons e es ih =>
    obtain ⟨⟨⟨t, e1, h1⟩, k1⟩, hw', _⟩ := ev_within fuel e w hw
    simp only [runEvs]
    rw [bind_apply]
    rcases hr : e.run fuel w with ⟨r, w'⟩
    rw [hr] at e1 k1 hw'
    have hstop : (∃ t, w'.trace = w.trace ++ t ∧ ∀ o ∈ t, ∃ x ∈ e :: es, o.About x.conn) ∧
        ∀ c, (∀ x ∈ e :: es, x.conn ≠ some c) → w'.conns c = w.conns c :=
      ⟨⟨t, e1, fun o ho => ⟨e, by simp, h1 o ho⟩⟩, fun c hc => k1 c (hc e (by simp))⟩
    cases r with
    | panic => exact hstop
    | running => exact hstop
    | ok _ =>
      obtain ⟨⟨t', e2, h2⟩, k2⟩ := ih w' hw'
      refine ⟨⟨t ++ t', by rw [e2, e1, List.append_assoc], fun o ho => ?_⟩, fun c hc => ?_⟩
      · rcases List.mem_append.mp ho with ho | ho
        · exact ⟨e, by simp, h1 o ho⟩
        · obtain ⟨x, hx, h⟩ := h2 o ho
          exact ⟨x, by simp [hx], h⟩
      · exact (k2 c fun x hx => hc x (by simp [hx])).trans (k1 c (hc e (by simp)))

/-- A stack with a filter that lets everything pass. -/
example : FnsKeepConn { quiet with procs := fun _ => ⟨true, .filter [some fun ctx _ => (true, ctx)] 0 0⟩ } := by
  intro i f ctx up hf
  simp only [Kind.fns, List.mem_singleton, Option.some.injEq] at hf
  subst hf; rfl

/-! ## C71: a connection is closed only for a reason -/

/-- In this list of observations every close of a byte connection follows directly on a write on it that
failed. -/
def Caused (useRef : ConnId → Bool) (t : List Obs) : Prop :=
  ∀ t1 t2 c, t = t1 ++ .closed c :: t2 → useRef c = false →
    ∃ t0 p r, t1 = t0 ++ [.wire c p r] ∧ r.err.isSome = true

theorem Caused.append {u : ConnId → Bool} {a b : List Obs} (ha : Caused u a) (hb : Caused u b) : Caused u (a ++ b) := by
  intro t1 t2 c h hu
  rw [List.append_eq_append_iff] at h
  rcases h with ⟨x, e1, e2⟩ | ⟨x, e1, e2⟩
  · obtain ⟨t0, p, r, e3, e4⟩ := hb x t2 c e2 hu
    exact ⟨a ++ t0, p, r, by rw [e1, e3, List.append_assoc], e4⟩
  · cases x with
    | nil =>
      obtain ⟨t0, p, r, e3, e4⟩ := hb [] t2 c (by simpa using e2.symm) hu
      simp at e3
    | cons o x =>
      simp only [List.cons_append, List.cons.injEq] at e2
      obtain ⟨rfl, e2⟩ := e2
      exact ha t1 x c e1 hu

theorem Caused.other {u : ConnId → Bool} {t : List Obs} (h : ∀ c, .closed c ∈ t → u c = true) : Caused u t := by
  intro t1 t2 c e hu
  have := h c (by rw [e]; simp)
  rw [hu] at this; cases this

/-- Between two worlds: connections keep their kind, every close of a byte connection was caused, and an open
byte connection for which no close was published is still open. -/
def Reasons (w w' : World) : Prop :=
  (∀ c, (w'.conns c).useRef = (w.conns c).useRef) ∧
  ∃ t, w'.trace = w.trace ++ t ∧ Caused (fun c => (w.conns c).useRef) t ∧
    ∀ c, .closed c ∉ t → (w'.conns c).closed = (w.conns c).closed

theorem Reasons.refl (w : World) : Reasons w w :=
  ⟨fun _ => rfl, [], by simp, Caused.other (fun c h => by cases h), fun _ _ => rfl⟩

theorem Reasons.trans {a b c : World} (h1 : Reasons a b) (h2 : Reasons b c) : Reasons a c := by
  obtain ⟨u1, t1, e1, k1, o1⟩ := h1
  obtain ⟨u2, t2, e2, k2, o2⟩ := h2
  refine ⟨fun x => (u2 x).trans (u1 x), t1 ++ t2, by rw [e2, e1, List.append_assoc], k1.append ?_, fun x hx => ?_⟩
  · intro s1 s2 x e hu
    exact k2 s1 s2 x e (by show (b.conns x).useRef = false; rw [u1]; exact hu)
  · simp only [List.mem_append, not_or] at hx
    exact (o2 x hx.2).trans (o1 x hx.1)

theorem Reasons.obs (w : World) (o : Obs) (h : ∀ c, o ≠ .closed c) : Reasons w { w with trace := w.trace ++ [o] } :=
  ⟨fun _ => rfl, [o], rfl, .other fun c hc => by simp only [List.mem_singleton] at hc; exact absurd hc.symm (h c),
    fun _ _ => rfl⟩

theorem Reasons.close (w : World) {c : ConnId} (h : (w.conns c).useRef = true) : Reasons w (w.close c) := by
  refine ⟨fun x => ?_, [.closed c], rfl, .other fun x hx => ?_, fun x hx => ?_⟩
  · simp only [World.close]; split <;> rfl
  · simp only [List.mem_singleton, Obs.closed.injEq] at hx; exact hx ▸ h
  · simp only [List.mem_singleton, Obs.closed.injEq] at hx
    simp only [World.close]; rw [if_neg hx]

theorem Reasons.failed (w : World) {c : ConnId} {p : List Byte} (h : (w.write w.trace c p).err.isSome = true) :
    Reasons w ((w.wrote c p).close c) := by
  refine ⟨fun x => ?_, [.wire c p (w.write w.trace c p), .closed c], by simp [World.close, World.wrote], ?_, fun x hx => ?_⟩
  · simp only [World.close]; split <;> rfl
  · intro t1 t2 x e _
    match t1, e with
    | [], e => simp at e
    | [a], e =>
      simp only [List.cons_append, List.nil_append, List.cons.injEq, Obs.closed.injEq] at e
      obtain ⟨rfl, rfl, _⟩ := e
      exact ⟨[], p, _, rfl, h⟩
    | a :: b :: t1, e => simp at e
  · simp only [List.mem_cons, Obs.closed.injEq, List.not_mem_nil, or_false, reduceCtorEq, false_or] at hx
    simp only [World.close, World.wrote]; rw [if_neg hx]

theorem Reasons.allows : Allows Reasons fun _ => True where
  refl := .refl
  trans := .trans
  set w i k _ _ := ⟨fun _ => rfl, [], by simp [World.setKind], Caused.other (fun c h => by cases h), fun _ _ => rfl⟩
  beat w i c _ := .obs w _ fun _ => by simp
  shown w i t r n _ := .obs w _ fun _ => by simp

theorem call_reasons (fuel : Nat) (dir : Dir) (pos : Nat) (ctx : Ctx) (w : World) :
    Reasons w (call fuel dir pos ctx w).2 := by
  refine call_keeps (R := fun _ => True) Reasons.allows (fun _ _ => trivial)
    (fun w => .inl ⟨fun _ _ h => absurd trivial h, fun _ _ h => absurd trivial h⟩) (fun _ ctx w => ?_)
    (fun w ctx _ => ?_) fuel dir pos trivial ctx w
  · rcases (upperDeck_did ctx w).1 with h | ⟨ep, h⟩
    · rw [h]; exact .refl w
    · rw [h]; exact .obs w _ fun _ => by simp
  · have h := (lowerDeck_did ctx w).1
    generalize (lowerDeckUpper ctx w).2 = w' at h
    cases h with
    | nothing => exact .refl w
    | wrote c p _ _ _ => exact .obs w _ fun _ => by simp
    | failed c p _ _ _ he => exact .failed w he
    | object c _ _ _ _ => exact .obs w _ fun _ => by simp
    | refused c _ hr _ => exact .close w hr

/-- An event that the peer did not cause by ending its stream. -/
def Ev.NotEnd : Ev → Prop
  | .bytes _ bs => bs ≠ []
  | .object _ v => v ≠ .nil
  | _ => True

theorem alloc_panic {cap res : Int} {w : World} (h : cap ≤ 0) : allocBuf cap res w = (.panic, w) := by
  simp only [allocBuf, UBuf.alloc]
  rw [if_pos (.inl h)]

/-- A read that delivered something is handed up, or the buffer cannot be made. -/
theorem receive_cases (fuel : Nat) (c : ConnId) {bs : List Byte} (hb : bs ≠ []) (w : World) :
    receive fuel c bs w = (.panic, w) ∨ ∃ s, receive fuel c bs w =
      (do let _ ← call fuel .up w.n { Ctx.new with conn := some c, buf := some s }; return ()) w := by
  have hl := List.length_pos_iff.mpr hb
  by_cases hm : w.mtu ≤ 0
  · left
    simp only [receive]
    rw [bind_of_ok (get_apply w), bind_of_panic (alloc_panic hm)]
  · right
    obtain ⟨s0, h1, h2⟩ := allocBuf_ok w.mtu 0 w (by omega) (by omega) (by omega)
    obtain ⟨s1, r, h3, h4, h5⟩ := h2.readFrom (fun m => ⟨bs.take m, min m bs.length, none⟩) (by
      intro m; simp; omega)
    have ht : (Deque.fresh w.mtu.toNat (0 : Int).toNat).tail = w.mtu.toNat := by simp [Deque.tail, Deque.fresh]
    have hne : ¬ (w.mtu.toNat = 0) := by omega
    simp only [Deque.step, ht] at h4 h5
    simp only [show ¬ (w.mtu.toNat = 0) from hne, if_false] at h4 h5
    obtain ⟨r1, r2⟩ := r
    simp only [Out.count.injEq] at h4
    refine ⟨s1, ?_⟩
    simp only [receive]
    rw [bind_of_ok (get_apply w), bind_of_ok h1, bind_onBuf h3]
    simp only [h4.1, h4.2]
    rw [if_neg (by rintro (h | h)
                   · have : min w.mtu.toNat bs.length = 0 := h
                     omega
                   · cases h)]

theorem after_call {P : World → Prop} {m : GoM World Ctx} {w : World} (h : P (m w).2) :
    P ((do let _ ← m; return ()) w).2 := by
  rw [bind_apply]
  rcases hm : m w with ⟨r, w'⟩
  rw [hm] at h
  cases r <;> exact h

/-- While the peer has not ended, whatever is handled on any chain in any state: the stack publishes the close of
a byte connection only directly after a write on that connection that reported an error, and a connection
(of either kind) whose close is not published keeps its state.  Missing from the full claim: reference
connections (`c71_reference_iff`, `c71_control_violated`). -/
theorem c71_bytes_partial (fuel : Nat) (e : Ev) (he : e.NotEnd) (w : World) :
    ∃ t, (e.run fuel w).2.trace = w.trace ++ t ∧
      (∀ t1 t2 c, t = t1 ++ .closed c :: t2 → (w.conns c).useRef = false →
        ∃ t0 p r, t1 = t0 ++ [.wire c p r] ∧ r.err.isSome = true) ∧
      ∀ c, .closed c ∉ t → ((e.run fuel w).2.conns c).closed = (w.conns c).closed := by
  have key : Reasons w (e.run fuel w).2 := by
    cases e with
    | send c v s => exact after_call (call_reasons fuel _ _ _ w)
    | bytes c bs =>
      rcases receive_cases fuel c he w with h | ⟨s, h⟩
      · simp only [Ev.run, h]; exact .refl w
      · simp only [Ev.run, h]; exact after_call (call_reasons fuel _ _ _ w)
    | object c v =>
      simp only [Ev.run, receiveRef]
      rw [bind_of_ok (get_apply w), if_neg he]
      exact after_call (call_reasons fuel _ _ _ w)
    | control i c tag =>
      simp only [Ev.run, sendControl]
      have H := Reasons.allows
      exact Kp.bind H (.get H) (fun w1 => .bind H (.allocBuf H _ _) fun ub => .bind H (.onBuf H _ _) fun r =>
        .bind H (fun w => call_reasons fuel _ _ _ w) fun _ => .pure H _) w
  exact key.2

/-- On an open reference connection, through processors that hand objects on: sending closes it exactly if the
object is nil. -/
theorem c71_reference_iff (w : World) (c : ConnId) (hr : (w.conns c).useRef = true) (ho : (w.conns c).closed = false)
    (hdown : ∀ j, j < w.n → RefDown (w.procs j)) (v : Val) (s : Int) (fuel : Nat) (hf : w.n < fuel) :
    ((Stack.send fuel (some c) v s w).2.conns c).closed = true ↔ v = .nil := by
  obtain ⟨f, rfl⟩ : ∃ f, fuel = f + 1 + w.n := ⟨fuel - 1 - w.n, by omega⟩
  have h1 := ref_segment_down w.n 0 (f + 1) ({ Ctx.new with conn := some c, msg := v }.setOption "session" (.int s)) w
    (by omega) (fun j _ h => hdown j (by omega)) ⟨c, rfl, hr⟩
  rw [show 0 + w.n + 1 = w.n + 1 by omega, call_bottom] at h1
  simp only [Stack.send]
  by_cases hv : v = .nil
  · rw [lowerDeckUpper_ref_fail (c := c) rfl hr (.inr hv)] at h1
    rw [bind_of_ok h1]
    refine ⟨fun _ => hv, fun _ => ?_⟩
    show ((w.close c).conns c).closed = true
    simp [World.close]
  · rw [lowerDeckUpper_ref (c := c) rfl hr ho hv] at h1
    rw [bind_of_ok h1]
    refine ⟨fun h => ?_, fun h => absurd h hv⟩
    have h : (w.conns c).closed = true := h
    rw [ho] at h; cases h

example : (∀ j, j < (refDemo (.stat 0 0)).n → RefDown ((refDemo (.stat 0 0)).procs j)) ∧
    ((refDemo (.stat 0 0)).conns 0).useRef = true ∧ ((refDemo (.stat 0 0)).conns 0).closed = false := by
  refine ⟨fun j hj => ?_, rfl, rfl⟩
  simp only [refDemo, quiet] at hj
  obtain rfl | rfl : j = 0 ∨ j = 1 := by omega
  · trivial
  · trivial

/-- The message that a Heartbeat sends periodically (and a StatCounter, if collecting is on) has a buffer but no
object, so on a healthy reference connection it makes the LowerDeck close the connection, whatever hands it
down. -/
theorem c71_control_violated (w : World) (i : Nat) (hi : i < w.n) (c : ConnId) (hr : (w.conns c).useRef = true)
    (hm : 0 < w.mtu) (ho : 0 ≤ w.overhead) (hmo : w.overhead < w.mtu)
    (hdown : ∀ j, i < j → j < w.n → RefDown (w.procs j)) (tag : Byte) (fuel : Nat) (hf : w.n < fuel) :
    ((sendControl fuel i c tag w).2.conns c).closed = true ∧ (sendControl fuel i c tag w).2.trace = w.trace ++ [.closed c] := by
  obtain ⟨s0, h1, h2⟩ := allocBuf_ok w.mtu w.overhead w (by omega) (by omega) (by omega)
  obtain ⟨s1, h3, _⟩ := h2.writeByte tag (by simp [Deque.tail, Deque.fresh]; omega)
  obtain ⟨f, rfl⟩ : ∃ f, fuel = f + 1 + (w.n - (i + 1)) := ⟨fuel - 1 - (w.n - (i + 1)), by omega⟩
  have h4 := ref_segment_down (w.n - (i + 1)) (i + 1) (f + 1) { Ctx.new with conn := some c, buf := some s1 } w
    (by omega) (fun j h h' => hdown j (by omega) (by omega)) ⟨c, rfl, hr⟩
  rw [show i + 1 + (w.n - (i + 1)) + 1 = w.n + 1 by omega, call_bottom,
    lowerDeckUpper_ref_fail (c := c) rfl hr (.inr rfl)] at h4
  have : sendControl (f + 1 + (w.n - (i + 1))) i c tag w = (.ok (), w.close c) := by
    simp only [sendControl]
    rw [bind_of_ok (get_apply w), bind_of_ok h1, bind_onBuf h3, bind_of_ok h4]
    rfl
  rw [this]
  exact ⟨by simp [World.close], rfl⟩

/-- The first heartbeat on a reference connection, sent as soon as the connection is announced, closes it. -/
example : (sendControl 9 0 3 0x83 (refDemo (.stat 0 0))).2.trace = [.closed 3] ∧
    ((sendControl 9 0 3 0x83 (refDemo (.stat 0 0))).2.conns 3).closed = true := by
  have h := c71_control_violated (refDemo (.stat 0 0)) 0 (by decide) 3 rfl (by decide) (by decide) (by decide)
    (fun j h1 h2 => by
      simp only [refDemo, quiet] at h2
      obtain rfl : j = 1 := by omega
      trivial) 0x83 9 (by decide)
  exact ⟨h.2, h.1⟩

end Verif.Stack
