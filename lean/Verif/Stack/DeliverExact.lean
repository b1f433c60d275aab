import Verif.Stack.EchoExact

/-!
# Which stacks deliver (C20, C21)

Stacks of any processors of the library, in any order and multiplicity, enabled or not (no enabled GenericCodec or GOBCodec,
whose functions are the user's).  What `send` puts on the wire is decided by the lowest enabled codec; whether the other side
delivers it depends on every processor of the chain.
-/

namespace Verif.Stack
open GoM UBuf

/-- A processor of the library without functions of the user's: no enabled GenericCodec and GOBCodec; an enabled Filter or
Forwarder is as its constructor makes it, with a nil function in front. -/
def Plain (p : Proc) : Prop :=
  match p.kind with
  | .genericCodec _ _ | .gobCodec _ _ => p.enable = false
  | .filter fns _ _ | .forwarder fns _ _ => p.enable = true → ∃ l, fns = none :: l
  | _ => True

/-- `v` is what the codec makes of `b`. -/
def Decodes : Kind → List Byte → Val → Prop
  | .bytesCodec, b, v => v = .bytes b
  | .stringCodec, b, v => v = .str b
  | .jsonCodec _ u, b, v => u b = some v
  | _, _, _ => False

theorem Plain.same {p q : Proc} (h : SameProc p q) (hp : Plain p) : Plain q := by
  obtain ⟨en, k⟩ := p
  obtain ⟨en', k'⟩ := q
  obtain ⟨h1, h2⟩ := h
  simp only at h1
  subst h1
  cases k <;> cases k' <;> simp_all [Kind.Same, Plain]

/-! ## Down to the lowest enabled codec -/

/-- What is preserved on the way down: everything but the buffer. -/
structure SameMsg (a b : Ctx) : Prop where
  msg : b.msg = a.msg
  conn : b.conn = a.conn
  opts : b.opts = a.opts

theorem SameMsg.refl (a : Ctx) : SameMsg a a := ⟨rfl, rfl, rfl⟩
theorem SameMsg.trans {a b c : Ctx} (h1 : SameMsg a b) (h2 : SameMsg b c) : SameMsg a c :=
  ⟨h2.msg.trans h1.msg, h2.conn.trans h1.conn, h2.opts.trans h1.opts⟩
theorem SameMsg.buf (a : Ctx) (o : Option St) : SameMsg a { a with buf := o } := ⟨rfl, rfl, rfl⟩

theorem bind_onBuf_cases {α : Type} (s : St) (m : GoM St α) (w : World) :
    (∃ x, ∀ f : α × St → GoM World Ctx, (onBuf s m >>= f) w = f x w) ∨
    ∀ f : α × St → GoM World Ctx, ((onBuf s m >>= f) w).2 = w := by
  rcases h : m s with ⟨r, s'⟩
  cases r with
  | ok a => exact .inl ⟨(a, s'), fun f => bind_onBuf h f w⟩
  | panic => exact .inr fun f => by simp [bind_apply, onBuf, h]
  | running => exact .inr fun f => by simp [bind_apply, onBuf, h]

/-- An enabled Filter or Forwarder. -/
def Sieves (p : Proc) : Prop := p.enable = true ∧ ∃ f t r, p.kind = .filter f t r ∨ p.kind = .forwarder f t r

/-- Nothing is observed, or the next processor is called with the same message. -/
def Falls (run : Nb → Res Ctx × World) (ctx : Ctx) (w : World) : Prop :=
  (∀ nb, (run nb).2.trace = w.trace) ∨ ∃ ctx' w', Moved [] w w' ∧ SameMsg ctx ctx' ∧ Down run ctx' w'

theorem falls_tag {ctx : Ctx} {w w1 : World} (t : Byte) (ub : St) (hm : Moved [] w w1) :
    Falls (fun nb => tagDown t nb ctx ub w1) ctx w := by
  simp only [tagDown]
  rcases bind_onBuf_cases ub (UBuf.writeHeadByte t) w1 with ⟨x, h⟩ | h
  · exact .inr ⟨_, w1, hm, .buf ctx _, fun nb => h _⟩
  · exact .inl fun nb => by rw [h, hm.trace, List.append_nil]

/-- The buffer a codec hands down does not depend on who is below. -/
theorem encodeDown_any {ctx : Ctx} {w : World} (bs : List Byte) (hb : bs ≠ []) (hov : 0 ≤ w.overhead) (hfit : w.overhead + bs.length ≤ w.mtu) :
    ∃ s, Buf s ⟨w.mtu.toNat, w.overhead.toNat, w.overhead.toNat, bs⟩ ∧
      ∀ nb : Nb, encodeDown nb ctx bs w = nb.downUpper { ctx with buf := some s } w := by
  have hl : 0 < bs.length := List.length_pos_iff.mpr hb
  obtain ⟨s0, h1, h2⟩ := allocBuf_ok w.mtu w.overhead w (by omega) hov (by omega)
  have ht : (Deque.fresh w.mtu.toNat w.overhead.toNat).tail = w.mtu.toNat - w.overhead.toNat := by
    simp [Deque.tail, Deque.fresh]
  obtain ⟨s1, h3, h4⟩ := h2.write bs (by rw [ht]; omega) (by rw [ht]; omega)
  refine ⟨s1, by simpa [Deque.fresh, Deque.push] using h4, fun nb => ?_⟩
  simp only [encodeDown]
  rw [bind_of_ok (get_apply w), bind_of_ok h1, bind_onBuf h3]
  rw [if_neg (by simp; exact hb)]

/-- An enabled codec that is not the user's: nothing is observed and nobody is called, or the next processor is called with
the encoding, which is not empty and fits. -/
theorem encode_or_not {p : Proc} (hen : p.enable = true) (hk : p.kind.isSliceCodec)
    (i : Nat) (ctx : Ctx) (w : World) (hov : 0 ≤ w.overhead) :
    (∀ nb, (onUpper i p nb ctx w).2 = w) ∨
    ∃ b s, Encodes p.kind ctx.msg b ∧ b ≠ [] ∧ w.overhead + b.length ≤ w.mtu ∧
      Buf s ⟨w.mtu.toNat, w.overhead.toNat, w.overhead.toNat, b⟩ ∧ Down (fun nb => onUpper i p nb ctx w) { ctx with buf := some s } w := by
  have tail : ∀ b, (∀ nb : Nb, (encodeDown nb ctx b w).2 = w) ∨
      ∃ s, b ≠ [] ∧ w.overhead + b.length ≤ w.mtu ∧ Buf s ⟨w.mtu.toNat, w.overhead.toNat, w.overhead.toNat, b⟩ ∧
        Down (fun nb => encodeDown nb ctx b w) { ctx with buf := some s } w := by
    intro b
    by_cases hbad : w.mtu ≤ 0 ∨ w.overhead < 0 ∨ w.mtu < w.overhead
    · exact .inl fun nb => by rw [encodeDown_panic b hbad]
    · by_cases hb : b = [] ∨ w.mtu < w.overhead + b.length
      · exact .inl fun nb => by rw [encodeDown_drop b (by omega) (by omega) (by omega) hb]
      · have hb1 : b ≠ [] := fun e => hb (.inl e)
        have hb2 : w.overhead + b.length ≤ w.mtu := by
          have : ¬ w.mtu < w.overhead + b.length := fun e => hb (.inr e)
          omega
        obtain ⟨s, h1, h2⟩ := encodeDown_any (ctx := ctx) b hb1 hov hb2
        exact .inr ⟨s, hb1, hb2, h1, h2⟩
  obtain ⟨en, k⟩ := p
  simp only at hen hk
  subst hen
  cases k <;> simp only [Kind.isSliceCodec] at hk
  · simp only [onUpper, bytesUpper, if_true]
    cases hm : ctx.msg with
    | bytes b =>
      rcases tail b with h | ⟨s, h⟩
      · exact .inl h
      · exact .inr ⟨b, s, .bytes b, by rw [hm] at h; exact h⟩
    | _ => exact .inl fun nb => rfl
  · simp only [onUpper, stringUpper, if_true]
    cases hm : ctx.msg with
    | str b =>
      rcases tail b with h | ⟨s, h⟩
      · exact .inl h
      · exact .inr ⟨b, s, .str b, by rw [hm] at h; exact h⟩
    | _ => exact .inl fun nb => rfl
  · rename_i m u
    simp only [onUpper, jsonUpper, if_true]
    by_cases hn : ctx.msg = .nil
    · simp only [if_pos hn]; exact .inl fun nb => rfl
    · simp only [if_neg hn]
      cases hm : m ctx.msg with
      | none => exact .inl fun nb => rfl
      | some b =>
        rcases tail b with h | ⟨s, h⟩
        · exact .inl h
        · exact .inr ⟨b, s, .json m u _ b hn hm, h⟩

/-- Every processor but a Loopback, whatever is in the buffer. -/
theorem step_down {i : Nat} {p : Proc} {ctx : Ctx} {w : World} (hp : Plain p) (hl : p.kind ≠ .loopback) (hpi : w.procs i = p)
    (hov : 0 ≤ w.overhead) (hby : OnBytes ctx w) (hs : ¬ Sieves p) : Falls (fun nb => onUpper i p nb ctx w) ctx w := by
  obtain ⟨en, k⟩ := p
  obtain ⟨c, hc, hr⟩ := hby
  have hu : useReference ctx.conn w = (.ok false, w) := by rw [hc, useReference_some, hr]
  have through : (∀ nb : Nb, onUpper i ⟨en, k⟩ nb ctx w = nb.downUpper ctx w) → Falls (fun nb => onUpper i ⟨en, k⟩ nb ctx w) ctx w :=
    fun h => .inr ⟨ctx, w, .refl w, .refl ctx, h⟩
  have codec : k.isSliceCodec → (∀ nb : Nb, onUpper i ⟨false, k⟩ nb ctx w = nb.downUpper ctx w) →
      Falls (fun nb => onUpper i ⟨en, k⟩ nb ctx w) ctx w := by
    intro hk hoff
    cases en with
    | false => exact through hoff
    | true =>
      rcases encode_or_not (p := ⟨true, k⟩) rfl hk i ctx w hov with h | ⟨b, s, _, _, _, _, h⟩
      · exact .inl fun nb => by rw [h]
      · exact .inr ⟨_, w, .refl w, .buf ctx _, h⟩
  cases k with
  | base => exact .inl fun nb => rfl
  | loopback => exact absurd rfl hl
  | bytesCodec => exact codec trivial fun nb => rfl
  | stringCodec => exact codec trivial fun nb => rfl
  | jsonCodec m u => exact codec trivial fun nb => rfl
  | genericCodec e d => simp only [Plain] at hp; subst hp; exact through fun nb => rfl
  | gobCodec e d => simp only [Plain] at hp; subst hp; exact through fun nb => rfl
  | session =>
    cases en with
    | false => exact through fun nb => rfl
    | true =>
      simp only [onUpper, sessionUpper, if_true]
      cases hbuf : ctx.buf with
      | none => exact .inl fun nb => rfl
      | some ub =>
        simp only [Falls, Down]
        rcases bind_onBuf_cases ub (UBuf.writeHeadU .u32 .be (toU32 (optionParseInt (ctx.opts "session") 0).1)) w with ⟨x, h⟩ | h
        · by_cases hx : x.1.isSome
          · exact .inl fun nb => by rw [h, if_pos hx]; rfl
          · exact .inr ⟨_, w, .refl w, .buf ctx (some x.2), fun nb => by rw [h, if_neg hx]⟩
        · exact .inl fun nb => by rw [h]
  | frame cache =>
    cases en with
    | false => exact through fun nb => frameUpper_disabled hc hr
    | true =>
      simp only [onUpper, frameUpper, Falls, Down]
      cases hbuf : ctx.buf with
      | none => exact .inl fun nb => by rw [bind_of_ok hu]; rfl
      | some ub =>
        rcases bind_onBuf_cases ub (UBuf.writeHeadU .u32 .be (toU32 (UBuf.readableLength ub))) w with ⟨x, h⟩ | h
        · exact .inr ⟨_, w, .refl w, .buf ctx (some x.2), fun nb => by
            rw [bind_of_ok hu]; exact h _⟩
        · exact .inl fun nb => by rw [bind_of_ok hu]; exact congrArg World.trace (h _)
  | stat tx rx =>
    simp only [onUpper, statUpper, Falls, Down]
    cases hbuf : ctx.buf with
    | none => exact .inl fun nb => by rw [bind_of_ok hu]; rfl
    | some ub =>
      cases en with
      | false =>
        rcases falls_tag (ctx := ctx) 0x00 ub (.refl w) with h | ⟨ctx', w', h1, h2, h3⟩
        · exact .inl fun nb => by rw [bind_of_ok hu]; exact h nb
        · exact .inr ⟨ctx', w', h1, h2, fun nb => by rw [bind_of_ok hu]; exact h3 nb⟩
      | true =>
        rcases falls_tag (ctx := ctx) 0x00 ub (Moved.setStat (w := w) (i := i) (by rw [hpi]) (tx + 1) rx) with h | ⟨ctx', w', h1, h2, h3⟩
        · exact .inl fun nb => by rw [bind_of_ok hu]; exact h nb
        · exact .inr ⟨ctx', w', h1, h2, fun nb => by rw [bind_of_ok hu]; exact h3 nb⟩
  | heartbeat =>
    simp only [onUpper, heartbeatUpper, Falls, Down]
    cases hbuf : ctx.buf with
    | none => exact .inl fun nb => by rw [bind_of_ok hu]; rfl
    | some ub =>
      rcases falls_tag (ctx := ctx) 0x00 ub (.refl w) with h | ⟨ctx', w', h1, h2, h3⟩
      · exact .inl fun nb => by rw [bind_of_ok hu]; exact h nb
      · exact .inr ⟨ctx', w', h1, h2, fun nb => by rw [bind_of_ok hu]; exact h3 nb⟩
  | loadBalancer =>
    simp only [onUpper, loadBalancerUpper, Falls, Down]
    cases hbuf : ctx.buf with
    | none => exact .inl fun nb => by rw [bind_of_ok hu]; rfl
    | some ub =>
      rcases falls_tag (ctx := ctx) (if en = true then 0x11 else 0x00) ub (.refl w) with h | ⟨ctx', w', h1, h2, h3⟩
      · exact .inl fun nb => by rw [bind_of_ok hu]; exact h nb
      · exact .inr ⟨ctx', w', h1, h2, fun nb => by rw [bind_of_ok hu]; exact h3 nb⟩
  | filter f t r =>
    cases en with
    | false => exact through fun nb => rfl
    | true => exact absurd ⟨rfl, f, t, r, .inl rfl⟩ hs
  | forwarder f t r =>
    cases en with
    | false => exact through fun nb => rfl
    | true => exact absurd ⟨rfl, f, t, r, .inr rfl⟩ hs
  | echo => exact through fun nb => rfl
  | discarder => exact through fun nb => rfl
  | flow => exact through fun nb => rfl

theorem sieve_stops {p : Proc} (hp : Plain p) (hs : Sieves p) (i : Nat) (ctx : Ctx) (w : World) (nb : Nb) : onUpper i p nb ctx w = (.panic, w) := by
  obtain ⟨en, k⟩ := p
  obtain ⟨h1, f, t, r, h2 | h2⟩ := hs <;> simp only at h1 h2 <;> subst h1 h2 <;> obtain ⟨l, rfl⟩ := hp rfl <;> rfl

theorem SameProc.sieves {p q : Proc} (h : SameProc p q) (hq : Sieves q) : Sieves p := by
  obtain ⟨en, k⟩ := p
  obtain ⟨en', k'⟩ := q
  obtain ⟨h1, h2⟩ := h
  obtain ⟨g1, f, t, r, g2⟩ := hq
  simp only at h1 g1 g2
  subst h1
  refine ⟨g1, ?_⟩
  rcases g2 with g2 | g2 <;> subst g2 <;> cases k <;> simp_all [Kind.Same]

/-- The processors `a .. a+m-1`. -/
theorem fall (m : Nat) : ∀ (a fuel : Nat) (ctx : Ctx) (w : World), a + m ≤ w.n → 0 ≤ w.overhead →
    (∀ j, a ≤ j → j < a + m → Plain (w.procs j) ∧ (w.procs j).kind ≠ .loopback) → OnBytes ctx w →
    (call (fuel + m) .down (a + 1) ctx w).2.trace = w.trace ∨
    ∃ ctx' w', Moved [] w w' ∧ SameMsg ctx ctx' ∧ (∀ j, a ≤ j → j < a + m → ¬ Sieves (w.procs j)) ∧
      call (fuel + m) .down (a + 1) ctx w = call fuel .down (a + m + 1) ctx' w' := by
  induction m with
  | zero => intro a fuel ctx w _ _ _ _; exact .inr ⟨ctx, w, .refl w, .refl ctx, fun j j1 j2 => by omega, rfl⟩
  | succ m ih =>
    intro a fuel ctx w hn hov hp hby
    obtain ⟨p1, p2⟩ := hp a (by omega) (by omega)
    rw [← Nat.add_assoc, call_down (by omega)]
    by_cases hsv : Sieves (w.procs a)
    · exact .inl (by rw [sieve_stops p1 hsv])
    rcases step_down p1 p2 rfl hov hby hsv with h | ⟨ctx1, w1, h1, h2, h3⟩
    · exact .inl (h _)
    · rw [show onUpper a (w.procs a) (nbAt (fuel + m) (a + 1)) ctx w = _ from h3 _]
      have hby1 : OnBytes ctx1 w1 := by
        obtain ⟨c, e1, e2⟩ := hby
        exact ⟨c, h2.conn.trans e1, by rw [h1.conns]; exact e2⟩
      rcases ih (a + 1) fuel ctx1 w1 (by rw [h1.n]; omega) (by rw [h1.overhead]; exact hov)
          (fun j j1 j2 => by
            obtain ⟨q1, q2⟩ := hp j (by omega) (by omega)
            exact ⟨q1.same (h1.same j), Same.loopback (h1.same j).2 q2⟩) hby1 with k | ⟨ctx2, w2, k1, k2, k4, k3⟩
      · left
        have e : (nbAt (fuel + m) (a + 1)).downUpper ctx1 w1 = call (fuel + m) .down (a + 1 + 1) ctx1 w1 := rfl
        rw [e, k, h1.trace, List.append_nil]
      · refine .inr ⟨ctx2, w2, by simpa using h1.trans k1, h2.trans k2, fun j j1 j2 => ?_, ?_⟩
        · by_cases e : j = a
          · subst e; exact hsv
          · have hsame := h1.same j
            exact fun x => k4 j (by omega) (by omega) (SameProc.sieves ⟨hsame.1.symm, hsame.2.symm⟩ x)
        rw [show a + (m + 1) + 1 = a + 1 + m + 1 by omega]
        exact k3

/-- Without a buffer, processors that pass data on stop the message or hand it on as it is. -/
theorem empty_down (m : Nat) : ∀ (a fuel : Nat) (ctx : Ctx) (w : World), a + m = w.n →
    (∀ j, a ≤ j → j < a + m → Passes (w.procs j)) → OnBytes ctx w → ctx.buf = none →
    ∃ r, call (fuel + 1 + m) .down (a + 1) ctx w = (r, w) := by
  induction m with
  | zero =>
    intro a fuel ctx w hn _ hby hbuf
    obtain ⟨c, hc, hr⟩ := hby
    rw [show a + 1 = w.n + 1 by omega]
    refine ⟨.ok ctx, ?_⟩
    rw [Nat.add_zero, call_bottom]
    simp only [lowerDeckUpper, hc]
    rw [bind_of_ok (useReference_some c w), hr, hbuf]
    rfl
  | succ m ih =>
    intro a fuel ctx w hn hp hby hbuf
    have hpa := hp a (by omega) (by omega)
    obtain ⟨c, hc, hr⟩ := hby
    have hu : useReference ctx.conn w = (.ok false, w) := by rw [hc, useReference_some, hr]
    rw [← Nat.add_assoc, call_down (by omega)]
    have next : (onUpper a (w.procs a) (nbAt (fuel + 1 + m) (a + 1)) ctx w = (nbAt (fuel + 1 + m) (a + 1)).downUpper ctx w) →
        ∃ r, onUpper a (w.procs a) (nbAt (fuel + 1 + m) (a + 1)) ctx w = (r, w) := by
      intro h
      rw [h]
      exact ih (a + 1) fuel ctx w (by omega) (fun j j1 j2 => hp j (by omega) (by omega)) ⟨c, hc, hr⟩ hbuf
    generalize w.procs a = p at hpa next
    obtain ⟨en, k⟩ := p
    cases k <;> simp only [Passes] at hpa
    case session =>
      cases en with
      | false => exact next rfl
      | true => exact ⟨.ok ctx, by simp only [onUpper, sessionUpper, if_true, hbuf]; rfl⟩
    case frame cache =>
      cases en with
      | false => exact next (frameUpper_disabled hc hr)
      | true => exact ⟨.ok ctx, by simp only [onUpper, frameUpper]; rw [bind_of_ok hu]; simp only [hbuf]; rfl⟩
    case stat tx rx => exact ⟨.ok ctx, by simp only [onUpper, statUpper]; rw [bind_of_ok hu]; simp only [hbuf]; rfl⟩
    case heartbeat => exact ⟨.ok ctx, by simp only [onUpper, heartbeatUpper]; rw [bind_of_ok hu]; simp only [hbuf]; rfl⟩
    case loadBalancer => exact ⟨.ok ctx, by simp only [onUpper, loadBalancerUpper]; rw [bind_of_ok hu]; simp only [hbuf]; rfl⟩
    all_goals first | exact next rfl | (subst hpa; exact next rfl)

/-- From an enabled codec with only passing processors below: nothing is written, or the headers and the encoding. -/
theorem codec_down (w : World) (hbuilt : Built w) (k : Nat) (hk : k < w.n) (hen : (w.procs k).enable = true) (hsl : (w.procs k).kind.isSliceCodec)
    (hp : ∀ j, k < j → j < w.n → Passes (w.procs j)) (ctx : Ctx) (c : ConnId) (hc : ctx.conn = some c) (hr : (w.conns c).useRef = false)
    (hopen : (w.conns c).closed = false) (hw : ∀ q, (w.write w.trace c q).err = none ∧ (w.write w.trace c q).n ≤ q.length) (fuel : Nat) :
    (call (fuel + 1 + (w.n - (k + 1)) + 1) .down (k + 1) ctx w).2.trace = w.trace ∨
    ∃ b w' ctx', Encodes (w.procs k).kind ctx.msg b ∧ b ≠ [] ∧ w.overhead + b.length ≤ w.mtu ∧
      call (fuel + 1 + (w.n - (k + 1)) + 1) .down (k + 1) ctx w = (.ok ctx', w') ∧
      Moved [.wire c (wire w k (sessionOf ctx) b) (w.write w.trace c (wire w k (sessionOf ctx) b))] w w' := by
  generalize hm : w.n - (k + 1) = m
  have hnm : k + 1 + m = w.n := by omega
  have hwire : ∀ s b, wire w k s b = wrap (seg w (k + 1) m) s b := fun s b => by rw [wire, hm]
  have hov := hbuilt.ov
  rw [call_down hk]
  rcases encode_or_not hen hsl k ctx w hov with h | ⟨b, s, h1, h2, h3, h4, h5⟩
  · exact .inl (by rw [h])
  · rw [show onUpper k (w.procs k) (nbAt (fuel + 1 + m) (k + 1)) ctx w = _ from h5 _]
    right
    have hroom : room (seg w (k + 1) m) ≤ w.overhead := hbuilt.room_le (by omega)
    have hlen := wrap_length (seg w (k + 1) m) (sessionOf ctx) b
    obtain ⟨s2, w2, m2, g2, e2, dn⟩ := segment_down m (k + 1) (fuel + 1) { ctx with buf := some s } w s _ (by omega)
      (fun j j1 j2 => hp j (by omega) (by omega)) ⟨c, hc, hr⟩ rfl h4 (by
        simp only
        rw [show sessionOf ({ ctx with buf := some s } : Ctx) = sessionOf ctx from rfl]
        omega)
    have e2' : (view s2).content = wire w k (sessionOf ctx) b := by rw [hwire]; exact e2
    obtain ⟨s3, r3⟩ := lowerDeckUpper_ok (w := w2) (ctx := { ctx with buf := some s2 }) (c := c) hc
      (by rw [m2.conns]; exact hr) (by rw [m2.conns]; exact hopen) rfl (Buf.of_good g2)
      (by rw [e2']; exact wrap_ne _ _ h2) (by rw [e2', m2.write, m2.trace, List.append_nil]; exact (hw _).1)
      (by rw [e2', m2.write, m2.trace, List.append_nil]; exact (hw _).2)
    rw [show k + 1 + m + 1 = w2.n + 1 by rw [m2.n, hnm], call_bottom] at dn
    have dn' : (nbAt (fuel + 1 + m) (k + 1)).downUpper { ctx with buf := some s } w = _ := dn.trans r3
    refine ⟨b, w2.wrote c (view s2).content, _, h1, h2, h3, dn', ?_⟩
    have m3 := m2.trans (Moved.obs w2 [.wire c (view s2).content (w2.write w2.trace c (view s2).content)])
    simp only [List.nil_append, e2', m2.write, m2.trace, List.append_nil] at m3
    simp only [World.wrote, e2', m2.write, m2.trace, List.append_nil]
    exact m3

theorem not_passes_cases {p : Proc} (hp : ¬ Passes p) (hpl : Plain p) (hl : p.kind ≠ .loopback) :
    (∀ i nb ctx w, (onUpper i p nb ctx w).2 = w) ∨ (p.enable = true ∧ p.kind.isSliceCodec) := by
  obtain ⟨en, k⟩ := p
  cases k <;> simp only [Passes, not_true_eq_false, not_false_eq_true, Bool.not_eq_false] at hp
  case base => exact .inl fun i nb ctx w => rfl
  case loopback => exact absurd rfl hl
  case bytesCodec => exact .inr ⟨hp, trivial⟩
  case stringCodec => exact .inr ⟨hp, trivial⟩
  case jsonCodec => exact .inr ⟨hp, trivial⟩
  case genericCodec => simp only [Plain] at hpl; rw [hpl] at hp; cases hp
  case gobCodec => simp only [Plain] at hpl; rw [hpl] at hp; cases hp
  case filter f t r => obtain ⟨l, rfl⟩ := hpl hp; subst hp; exact .inl fun i nb ctx w => rfl
  case forwarder f t r => obtain ⟨l, rfl⟩ := hpl hp; subst hp; exact .inl fun i nb ctx w => rfl

/-- C20, for every stack: a `send` on an open connection writes nothing at all, or exactly once: the encoding of the message
by the lowest enabled codec of the chain, in front of it the headers of the processors below that codec, all of them. -/
theorem c20_exact (w : World) (hbuilt : Built w) (hplain : ∀ j, j < w.n → Plain (w.procs j)) (v : Val) (s : Int) (c : ConnId)
    (hr : (w.conns c).useRef = false) (hopen : (w.conns c).closed = false)
    (hw : ∀ q, (w.write w.trace c q).err = none ∧ (w.write w.trace c q).n ≤ q.length) (fuel : Nat) (hf : w.n < fuel) :
    (∀ o ∈ (send fuel (some c) v s w).2.trace.drop w.trace.length, Local o) ∨
    ∃ k b w', k < w.n ∧ (w.procs k).enable = true ∧ Encodes (w.procs k).kind v b ∧ b ≠ [] ∧ w.overhead + b.length ≤ w.mtu ∧
      (∀ j, k < j → j < w.n → Passes (w.procs j)) ∧ (∀ j, j < w.n → ¬ Sieves (w.procs j)) ∧ send fuel (some c) v s w = (.ok (), w') ∧
      Moved [.wire c (wire w k s b) (w.write w.trace c (wire w k s b))] w w' := by
  have drop : (send fuel (some c) v s w).2.trace = w.trace → ∀ o ∈ (send fuel (some c) v s w).2.trace.drop w.trace.length, Local o := by
    intro h o ho
    rw [h, List.drop_length] at ho
    cases ho
  by_cases hlb : ∃ l, l < w.n ∧ (w.procs l).kind = .loopback
  · obtain ⟨l, l1, l2⟩ := hlb
    obtain ⟨_, ⟨t, h1, h2⟩, _⟩ := c29_nothing_below l w l1 l2 fuel (some c) v s
    left
    intro o ho
    rw [h1, List.drop_left] at ho
    exact h2 o ho
  have hl : ∀ j, j < w.n → (w.procs j).kind ≠ .loopback := fun j j1 j2 => hlb ⟨j, j1, j2⟩
  generalize hctx : ({ Ctx.new with conn := some c, msg := v } : Ctx).setOption "session" (.int s) = ctx
  have hc : ctx.conn = some c := by rw [← hctx]; rfl
  have hmsg : ctx.msg = v := by rw [← hctx]; rfl
  have hs : sessionOf ctx = s := by rw [← hctx]; rfl
  have hbuf : ctx.buf = none := by rw [← hctx]; rfl
  have hsend : ∀ r w', call fuel .down 1 ctx w = (r, w') → (send fuel (some c) v s w).2 = w' := by
    intro r w' h
    simp only [send, hctx]
    rw [bind_apply, h]
    cases r <;> rfl
  have htr : (call fuel .down 1 ctx w).2.trace = w.trace → ∀ o ∈ (send fuel (some c) v s w).2.trace.drop w.trace.length, Local o := by
    intro h
    apply drop
    rw [hsend (call fuel .down 1 ctx w).1 _ rfl]
    exact h
  by_cases hall : ∃ j, j < w.n ∧ ¬ Passes (w.procs j)
  · obtain ⟨k, hk, hnp, hbelow⟩ := last_bad hall
    obtain ⟨f, rfl⟩ : ∃ f, fuel = f + 1 + (w.n - (k + 1)) + 1 + k := ⟨fuel - 1 - w.n, by omega⟩
    rcases fall k 0 (f + 1 + (w.n - (k + 1)) + 1) ctx w (by omega) hbuilt.ov (fun j _ j2 => ⟨hplain j (by omega), hl j (by omega)⟩)
        ⟨c, hc, hr⟩ with h | ⟨ctx1, w1, m1, s1, hsv, h⟩
    · exact .inl (htr h)
    · simp only [Nat.zero_add] at h
      have hs1 : sessionOf ctx1 = s := by rw [← hs]; simp only [sessionOf, s1.opts]
      have hn1 := m1.n
      have hsame := m1.same k
      have hnp1 : ¬ Passes (w1.procs k) := fun x => hnp (SameProc.passes ⟨hsame.1.symm, hsame.2.symm⟩ x)
      rcases not_passes_cases hnp1 ((hplain k hk).same hsame) (Same.loopback hsame.2 (hl k hk)) with hst | ⟨hen, hsl⟩
      · left
        apply htr
        rw [h, call_down (by omega), hst, m1.trace, List.append_nil]
      · have hbuilt1 : Built w1 := by rw [Built, m1.overhead, m1.n, room_same m1.same]; exact hbuilt
        have hw1 : ∀ q, (w1.write w1.trace c q).err = none ∧ (w1.write w1.trace c q).n ≤ q.length := by
          rw [m1.write, m1.trace, List.append_nil]; exact hw
        rcases codec_down w1 hbuilt1 k (by omega) hen hsl (fun j j1 j2 => (m1.same j).passes (hbelow j j1 (by omega))) ctx1 c
            (s1.conn.trans hc) (by rw [m1.conns]; exact hr) (by rw [m1.conns]; exact hopen) hw1 f with g | ⟨b, w', ctx', g1, g2, g3, g4, g5⟩
        · left
          apply htr
          rw [h]
          rw [hn1] at g
          rw [g, m1.trace, List.append_nil]
        · right
          rw [hs1, wire_moved m1, m1.write, m1.trace, List.append_nil] at g5
          have henc : Encodes (w.procs k).kind v b := by
            have e := hsame.2
            rw [s1.msg, hmsg] at g1
            generalize (w.procs k).kind = k1 at e
            generalize (w1.procs k).kind = k2 at e g1
            have : k1 = k2 := by cases g1 <;> cases k1 <;> simp_all [Kind.Same]
            rw [this]; exact g1
          refine ⟨k, b, w', hk, by rw [← hsame.1]; exact hen, henc, g2, by rw [← m1.overhead, ← m1.mtu]; exact g3, hbelow, fun j j1 j2 => ?_, ?_,
            by simpa using m1.trans g5⟩
          · by_cases e1 : j < k
            · exact hsv j (by omega) (by omega) j2
            · obtain ⟨e2, f, t, r, e3⟩ := j2
              by_cases e4 : j = k
              · subst e4
                rcases e3 with e3 | e3 <;> rw [e3] at henc <;> cases henc
              · have := hbelow j (by omega) j1
                rcases e3 with e3 | e3 <;> simp only [Passes, e3, e2] at this <;> cases this
          rw [hn1] at g4
          simp only [send, hctx]
          rw [bind_of_ok (h.trans g4)]
          rfl
  · have hall' : ∀ j, j < w.n → Passes (w.procs j) := fun j j1 => by
      by_cases hj : Passes (w.procs j)
      · exact hj
      · exact absurd ⟨j, j1, hj⟩ hall
    obtain ⟨f, rfl⟩ : ∃ f, fuel = f + 1 + w.n := ⟨fuel - 1 - w.n, by omega⟩
    obtain ⟨r, h⟩ := empty_down w.n 0 f ctx w (by omega) (fun j _ j2 => hall' j (by omega)) ⟨c, hc, hr⟩ hbuf
    exact .inl (htr (by rw [h]))

/-! ## Up from the lowest enabled codec -/

theorem quiet_up_to (m : Nat) : ∀ (a fuel : Nat) (ctx : Ctx) (w : World), a + m ≤ w.n →
    (∀ j, a ≤ j → j < a + m → Quiet (w.procs j)) → OnBytes ctx w → ctx.buf ≠ none →
    call (fuel + m) .up (a + m) ctx w = call fuel .up a ctx w := by
  induction m with
  | zero => intros; rfl
  | succ m ih =>
    intro a fuel ctx w hn hq hb hbuf
    rw [← Nat.add_assoc, ← Nat.add_assoc, call_up (by omega)]
    refine ((hq (a + m) (by omega) (by omega)).up (fuel + m) (a + m) hb hbuf _).trans ?_
    exact ih a fuel ctx w (by omega) (fun j h1 h2 => hq j h1 (by omega)) hb hbuf

/-- An idle FrameDecoder is given an empty buffer. -/
theorem frame_dry {i fuel : Nat} {ctx : Ctx} {w : World} (hb : OnBytes ctx w) (hcar : Carries ctx []) (hidle : Idle i w) :
    ∃ ctx' w', Moved [] w w' ∧ Stops (fun nb => frameLower (fuel + 1) i true nb ctx w) (.ok ctx', w') := by
  obtain ⟨cid, h1, h2⟩ := hb
  obtain ⟨ub, ds, hbuf, hs, hd⟩ := hcar.buf
  obtain ⟨cache, hk, hg, hcd⟩ := hidle
  have hc := Buf.of_good hg
  have hc0 : (view cache).content = [] := hcd
  obtain ⟨c', u', e1, e2, e3⟩ := cacheReadFrom_ok hk hc hs
  have hk2 : ((w.setKind i (.frame (some c'))).procs i).kind = .frame (some c') := by rw [setKind_self]
  have hem : (Deque.readFromDeque (view cache) ds).2.2.1.content = [] := by simp [Deque.readFromDeque, hd, hc0]
  obtain ⟨c'', f1, f2⟩ := cacheReset_ok hk2 e2
  refine ⟨{ ctx with buf := some u' }, (w.setKind i (.frame (some c'))).setKind i (.frame (some c'')), ?_, fun nb => ?_⟩
  · rw [setKind_setKind]
    exact Moved.setCache (c := c'') hk f2.1 (by rw [f2.data]; rfl)
  · simp only [frameLower]
    rw [h1, bind_of_ok (useReference_some cid w), h2]
    simp only [Bool.false_eq_true, if_false, hbuf, if_true]
    have hcur : handleCurrent (fuel + 1) i nb ctx ub w = (.ok { ctx with buf := some u' }, w.setKind i (.frame (some c'))) := by
      simp only [handleCurrent]
      rw [bind_of_ok (a := cache) (s' := w) (by simp [frameCache, bind_apply, hk])]
      rw [if_neg (by rw [hc.readable, hc0]; simp)]
      simp only [currentLoop, hs.readable, hd]
      rw [if_pos (by simp), bind_of_ok e1]
      rfl
    rw [h1] at hcur
    rw [bind_of_ok hcur]
    simp only [handleCached]
    rw [bind_of_ok (a := c') (by simp [frameCache, bind_apply, hk2]; rfl)]
    rw [if_pos (by rw [e2.readable, hem]; rfl), bind_of_ok f1]
    rfl

/-- Everything that is not silent stops a message that comes with an empty buffer. -/
theorem dry_up {i : Nat} {p : Proc} {ctx : Ctx} {w : World} (hq : ¬ Quiet p) (hnb : ¬ Blocks p) (hpl : Plain p) (hsv : ¬ Sieves p)
    (hby : OnBytes ctx w) (hcar : Carries ctx []) (hidle : Frames p → Idle i w) (fuel : Nat) :
    ∃ ctx' w', Moved [] w w' ∧ Stops (fun nb => onLower (fuel + 1) i p nb ctx w) (.ok ctx', w') := by
  have hby' := hby
  obtain ⟨en, k⟩ := p
  obtain ⟨c, hc, hr⟩ := hby
  obtain ⟨ub, d, hbuf, hs, hd⟩ := hcar.buf
  have hu : useReference ctx.conn w = (.ok false, w) := by rw [hc, useReference_some, hr]
  have decode : ∀ k' : Nb → Ctx → List Byte → GoM World Ctx, ∃ ctx', ∀ nb : Nb, decodeUp ctx (k' nb) w = (.ok ctx', w) := by
    intro k'
    obtain ⟨s', h1, h2⟩ := hs.read 0
    refine ⟨{ ctx with buf := some s' }, fun nb => ?_⟩
    have hrd := hs.readable
    simp only [decodeUp, hbuf]
    rw [bind_of_ok (s' := w) (a := ()) (by simp [hrd])]
    rw [hrd, hd]
    simp only [List.length_nil, Int.ofNat_zero, Int.toNat_zero]
    rw [bind_onBuf h1]
    simp [Deque.readRes, hd]
  obtain ⟨s1, r1, _⟩ := hs.readByte_nil hd
  cases k <;> simp only [Quiet, not_true_eq_false, not_false_eq_true, Bool.not_eq_false] at hq
  case base => exact ⟨ctx, w, .refl w, fun nb => rfl⟩
  case loopback => exact ⟨ctx, w, .refl w, fun nb => rfl⟩
  case bytesCodec =>
    subst hq
    obtain ⟨ctx', h⟩ := decode fun nb ctx b => nb.upLower { ctx with msg := .bytes b }
    exact ⟨ctx', w, .refl w, h⟩
  case stringCodec =>
    subst hq
    obtain ⟨ctx', h⟩ := decode fun nb ctx b => nb.upLower { ctx with msg := .str b }
    exact ⟨ctx', w, .refl w, h⟩
  case jsonCodec m u =>
    subst hq
    obtain ⟨ctx', h⟩ := decode fun nb ctx b => match u b with
      | some v => nb.upLower { ctx with msg := v }
      | none => Pure.pure ctx
    exact ⟨ctx', w, .refl w, h⟩
  case genericCodec => simp only [Plain] at hpl; rw [hpl] at hq; cases hq
  case gobCodec => simp only [Plain] at hpl; rw [hpl] at hq; cases hq
  case session =>
    subst hq
    obtain ⟨s', _, h⟩ := sessionLower_short (w := w) hbuf hs (by rw [hd]; simp)
    exact ⟨_, w, .refl w, h⟩
  case frame cache =>
    subst hq
    exact frame_dry hby' hcar (hidle ⟨⟨cache, rfl⟩, rfl⟩)
  case stat tx rx =>
    refine ⟨{ ctx with buf := some s1 }, w, .refl w, fun nb => ?_⟩
    simp only [onLower, statLower]
    rw [bind_of_ok hu]
    simp only [Bool.false_eq_true, if_false, hbuf]
    rw [bind_onBuf r1]
    rfl
  case heartbeat =>
    obtain ⟨s', _, h⟩ := heartbeatLower_empty (w := w) i hc hr hbuf hs hd
    exact ⟨_, w, .refl w, h⟩
  case loadBalancer =>
    refine ⟨{ ctx with buf := some s1 }, w, .refl w, fun nb => ?_⟩
    simp only [onLower, loadBalancerLower]
    rw [bind_of_ok hu]
    simp only [Bool.false_eq_true, if_false, hbuf]
    rw [bind_onBuf r1]
    rfl
  case filter f t r => exact absurd ⟨hq, f, t, r, .inl rfl⟩ hsv
  case forwarder f t r => exact absurd ⟨hq, f, t, r, .inr rfl⟩ hsv
  case echo => exact absurd ⟨hq, .inr rfl⟩ hnb
  case discarder => exact absurd ⟨hq, .inl rfl⟩ hnb

/-- An enabled codec is given the bytes `b`: it stops, or hands up what it makes of them, with an emptied buffer. -/
theorem decode_or_not {p : Proc} (hen : p.enable = true) (hsl : p.kind.isSliceCodec) (i fuel : Nat) {ctx : Ctx} {w : World} {b : List Byte}
    (hcar : Carries ctx b) (hb : b ≠ []) :
    (∃ ctx', Stops (fun nb => onLower fuel i p nb ctx w) (.ok ctx', w)) ∨
    ∃ v s, Decodes p.kind b v ∧ Good s ∧ data s = [] ∧ Up (fun nb => onLower fuel i p nb ctx w) { ctx with buf := some s, msg := v } w := by
  obtain ⟨ub, d, hbuf, hs, hd⟩ := hcar.buf
  subst hd
  obtain ⟨s', h1, h2⟩ := hs.read d.content.length
  have go : ∀ k : Ctx → List Byte → GoM World Ctx, decodeUp ctx k w = k { ctx with buf := some s' } d.content w := by
    intro k
    have hr := hs.readable
    simp only [decodeUp, hbuf]
    rw [bind_of_ok (s' := w) (a := ()) (by simp [hr])]
    rw [hr, Int.toNat_natCast, bind_onBuf h1]
    simp only [Deque.readRes, if_neg hb, List.take_length]
    rw [if_neg (by simp [hb])]
  have hemp : data s' = [] := by rw [h2.data]; simp [Deque.pop]
  obtain ⟨en, k⟩ := p
  simp only at hen hsl
  subst hen
  cases k <;> simp only [Kind.isSliceCodec] at hsl
  · exact .inr ⟨_, s', rfl, h2.1, hemp, fun nb => by simp only [onLower, bytesLower, if_true]; rw [go]⟩
  · exact .inr ⟨_, s', rfl, h2.1, hemp, fun nb => by simp only [onLower, stringLower, if_true]; rw [go]⟩
  · rename_i m u
    cases hv : u d.content with
    | none => exact .inl ⟨{ ctx with buf := some s' }, fun nb => by simp only [onLower, jsonLower, if_true]; rw [go]; simp only [hv]; rfl⟩
    | some v => exact .inr ⟨v, s', hv, h2.1, hemp, fun nb => by simp only [onLower, jsonLower, if_true]; rw [go]; simp only [hv]⟩

/-- Below the lowest enabled codec: what passes data down, turns nothing around and balances no load opens its header. -/
theorem opens_of {p : Proc} (h1 : Passes p) (h2 : ¬ Blocks p) (h3 : ¬ Balances p) : Opens p := by
  obtain ⟨en, k⟩ := p
  cases k <;> simp_all [Passes, Blocks, Balances, Opens]

theorem SameProc.blocks {p q : Proc} (h : SameProc p q) (hq : Blocks q) : Blocks p := by
  obtain ⟨pe, pk⟩ := p
  obtain ⟨qe, qk⟩ := q
  obtain ⟨h1, h2⟩ := h
  obtain ⟨q1, q2⟩ := hq
  simp only at h1 h2 q1 q2
  subst h1
  refine ⟨q1, ?_⟩
  rcases q2 with rfl | rfl <;> cases pk <;> simp_all [Kind.Same]

theorem wrap_append (ps qs : List Proc) (s : Int) : ∀ b, wrap (ps ++ qs) s b = wrap qs s (wrap ps s b) := by
  induction ps with
  | nil => intro b; rfl
  | cons p ps ih => intro b; simp only [List.cons_append, wrap]; exact ih _

theorem moved_nil_no_rx {w w' : World} (h : Moved [] w w') {ep : EpId} {c : Option ConnId} {v : Val} (h2 : w'.trace = w.trace ++ [.rx ep c v]) : False := by
  rw [h.trace] at h2
  have := List.append_cancel_left h2
  cases this

/-- What follows from a delivery of the bytes that an enabled codec at `k` and the processors between it and position `l` made,
when they come up at `l`. -/
theorem up_exact (w : World) (l : Nat) (hl : l ≤ w.n) (hplain : ∀ j, j < l → Plain (w.procs j)) (hsv : ∀ j, j < l → ¬ Sieves (w.procs j))
    (hidle : ∀ j, j < l → Frames (w.procs j) → Idle j w)
    (k : Nat) (hk : k < l) (hen : (w.procs k).enable = true) (hsl : (w.procs k).kind.isSliceCodec)
    (hpass : ∀ j, k < j → j < l → Passes (w.procs j)) (s : Int) (b : List Byte) (hb : b ≠ [])
    (hwl : (wrap (seg w (k + 1) (l - (k + 1))) s b).length < 2 ^ 32) (ctx : Ctx)
    (c : ConnId) (hc : ctx.conn = some c) (hr : (w.conns c).useRef = false) (hcar : Carries ctx (wrap (seg w (k + 1) (l - (k + 1))) s b))
    (fuel : Nat) (hf : l + 4 ≤ fuel) (ctx2 : Ctx) (w' : World) (ep : EpId) (v : Val)
    (hcall : call fuel .up l ctx w = (.ok ctx2, w')) (htr : w'.trace = w.trace ++ [.rx ep (some c) v]) :
    (∀ j, j < k → Quiet (w.procs j)) ∧ (∀ j, k < j → j < l → Opens (w.procs j)) ∧ Decodes (w.procs k).kind b v ∧ v ≠ .nil ∧
      (((∃ j, k < j ∧ j < l ∧ Resolves (w.procs j)) ∧ findEndPoint w.served (s % 2 ^ 32) = some ep) ∨
        ((∀ j, k < j → j < l → ¬ Resolves (w.procs j)) ∧ findEndPoint w.served (sessionOf ctx) = some ep)) := by
  have hnb : ∀ j, j < l → ¬ Blocks (w.procs j) := by
    intro j hj hbl
    obtain ⟨t, h1, h2⟩ := ((blocked j w (by omega) hbl).1 fuel .up l ctx hj).1
    rw [hcall] at h1
    rw [htr] at h1
    have := List.append_cancel_left h1
    exact h2 _ (by rw [← this]; exact List.mem_singleton.mpr rfl) ep (some c) v rfl
  have hend : ∀ ctx1 w1, call fuel .up l ctx w = (.ok ctx1, w1) → w' = w1 := by
    intro ctx1 w1 h
    rw [hcall] at h
    injection h
  have hnbal : ∀ j, k < j → j < l → ¬ Balances (w.procs j) := by
    by_cases hex : ∃ j, j < l ∧ ¬ (k < j → ¬ Balances (w.procs j))
    · obtain ⟨j, j1, j2, j3⟩ := last_bad hex
      have hkj : k < j := by
        by_cases h : k < j
        · exact h
        · exact absurd (fun x => absurd x h) j2
      have hbal : Balances (w.procs j) := by
        by_cases h : Balances (w.procs j)
        · exact h
        · exact absurd (fun _ => h) j2
      exfalso
      have hsplit : wrap (seg w (k + 1) (l - (k + 1))) s b = wrap (seg w (j + 1) (l - (j + 1))) s (wrap (seg w (k + 1) (j + 1 - (k + 1))) s b) := by
        rw [← wrap_append, show l - (k + 1) = (j + 1 - (k + 1)) + (l - (j + 1)) by omega, seg_split, show k + 1 + (j + 1 - (k + 1)) = j + 1 by omega]
      have hpay : wrap (seg w (k + 1) (j + 1 - (k + 1))) s b = 0x11 :: wrap (seg w (k + 1) (j - (k + 1))) s b := by
        rw [show j + 1 - (k + 1) = (j - (k + 1)) + 1 by omega, seg_snoc, wrap_snoc, show k + 1 + (j - (k + 1)) = j by omega]
        simp [hdr, hbal.1, hbal.2]
      rw [hsplit] at hcar hwl
      obtain ⟨f, hf2⟩ : ∃ f, fuel = f + 2 + (l - (j + 1)) := ⟨fuel - 2 - (l - (j + 1)), by omega⟩
      obtain ⟨ctx', w1, m1, h2, h3, _, _, h6⟩ := segment_open s _ (by rw [hpay]; simp) (j + 1) (l - (j + 1)) (f + 2) ctx w (by omega) (by omega)
        (fun i i1 i2 => opens_of (hpass i (by omega) (by omega)) (hnb i (by omega)) (j3 i (by omega) (by omega) (by omega)))
        (fun i i1 i2 => hidle i (by omega)) ⟨c, hc, hr⟩ hcar hwl
      rw [hpay] at h2
      obtain ⟨ub2, d2, b1, b2, b3⟩ := h2.buf
      obtain ⟨s', _, hdrop⟩ := loadBalancerLower_drop (w := w1) (h3.trans hc) (by rw [m1.conns]; exact hr) b1 b2 b3 (by decide)
      have hbal1 : w1.procs j = ⟨true, .loadBalancer⟩ := by
        obtain ⟨e1, e2⟩ := m1.same j
        rw [hbal.1] at e2
        rw [hbal.2] at e1
        rcases hp : w1.procs j with ⟨en, kd⟩
        rw [hp] at e1 e2
        simp only at e1
        subst e1
        cases kd <;> simp_all [Kind.Same]
      obtain ⟨w2, l1, l2⟩ := h6 [] _ w1 (by rw [call_up (by rw [m1.n]; omega), hbal1]; exact hdrop _) (.refl w1)
      rw [← hf2, Nat.add_sub_cancel' (Nat.succ_le_of_lt j1)] at l1
      exact moved_nil_no_rx l2 (hend _ _ l1 ▸ htr)
    · intro j h1 h2 h3
      exact hex ⟨j, h2, fun x => x h1 h3⟩
  have hopens : ∀ j, k < j → j < l → Opens (w.procs j) := fun j j1 j2 => opens_of (hpass j j1 j2) (hnb j j2) (hnbal j j1 j2)
  obtain ⟨f, hf2⟩ : ∃ f, fuel = f + 2 + k + 1 + (l - (k + 1)) := ⟨fuel - 3 - k - (l - (k + 1)), by omega⟩
  obtain ⟨ctx', w1, m1, h2, h3, h4, _, h6⟩ := segment_open s b hb (k + 1) (l - (k + 1)) (f + 2 + k + 1) ctx w (by omega) (by omega)
    (fun i i1 i2 => hopens i (by omega) (by omega)) (fun i i1 i2 => hidle i (by omega)) ⟨c, hc, hr⟩ hcar hwl
  have hfin : ∀ o ctx1 w2, call (f + 2 + k + 1) .up (k + 1) ctx' w1 = (.ok ctx1, w2) → Moved o w1 w2 → o = [.rx ep (some c) v] := by
    intro o ctx1 w2 e1 e2
    obtain ⟨w3, l1, l2⟩ := h6 o ctx1 w2 e1 e2
    rw [← hf2, Nat.add_sub_cancel' (Nat.succ_le_of_lt hk)] at l1
    have htr' := hend _ _ l1 ▸ htr
    rw [l2.trace] at htr'
    exact List.append_cancel_left htr'
  have hc1 : ctx'.conn = some c := h3.trans hc
  have hr1 : (w1.conns c).useRef = false := by rw [m1.conns]; exact hr
  have hk1 : k < w1.n := by rw [m1.n]; omega
  have hen1 : (w1.procs k).enable = true := by rw [(m1.same k).1]; exact hen
  have hkind : (w1.procs k).kind = (w.procs k).kind := by
    have e := (m1.same k).2
    generalize (w.procs k).kind = k1 at e hsl
    generalize (w1.procs k).kind = k2 at e
    cases k1 <;> simp only [Kind.isSliceCodec] at hsl <;> cases k2 <;> simp_all [Kind.Same]
  have hsl1 : (w1.procs k).kind.isSliceCodec := by rw [hkind]; exact hsl
  rw [call_up hk1] at hfin
  rcases decode_or_not hen1 hsl1 k (f + 2 + k) (w := w1) h2 hb with ⟨ctx2, g⟩ | ⟨v', s2, g1, g2, g3, g4⟩
  · have := hfin [] ctx2 w1 (g _) (.refl w1)
    cases this
  · rw [show onLower (f + 2 + k) k (w1.procs k) (nbAt (f + 2 + k) (k + 1)) ctx' w1 = _ from g4 _] at hfin
    have hnb2 : (nbAt (f + 2 + k) (k + 1)).upLower = call (f + 2 + k) .up k := rfl
    rw [hnb2] at hfin
    have hby2 : OnBytes { ctx' with buf := some s2, msg := v' } w1 := ⟨c, hc1, hr1⟩
    have hquiet : ∀ j, j < k → Quiet (w.procs j) := by
      by_cases hex : ∃ j, j < k ∧ ¬ Quiet (w.procs j)
      · exfalso
        obtain ⟨j, j1, j2, j3⟩ := last_bad hex
        have hq1 : ¬ Quiet (w1.procs j) := by
          have e := m1.same j
          exact fun x => j2 (SameProc.quiet ⟨e.1.symm, e.2.symm⟩ x)
        have hbl1 : ¬ Blocks (w1.procs j) := by
          exact fun x => hnb j (by omega) ((m1.same j).blocks x)
        obtain ⟨ctx3, w3, t1, t2⟩ := dry_up (i := j) hq1 hbl1 ((hplain j (by omega)).same (m1.same j))
          (fun x => hsv j (by omega) ((m1.same j).sieves x)) hby2 ⟨s2, rfl, g2, g3⟩
          (fun x => m1.idle j (hidle j (by omega) ((m1.same j).frames x))) (f + j + 1)
        have hup := quiet_up_to (k - (j + 1)) (j + 1) (f + j + 3) { ctx' with buf := some s2, msg := v' } w1 (by omega)
          (fun i i1 i2 => (m1.same i).quiet (j3 i (by omega) (by omega))) hby2 (by simp)
        rw [show f + j + 3 + (k - (j + 1)) = f + 2 + k by omega, show j + 1 + (k - (j + 1)) = k by omega,
          call_up (by omega)] at hup
        have := hfin [] ctx3 w3 (hup.trans (t2 _)) t1
        cases this
      · intro j hj
        by_cases hx : Quiet (w.procs j)
        · exact hx
        · exact absurd ⟨j, hj, hx⟩ hex
    have hup := quiet_up_to k 0 (f + 2) { ctx' with buf := some s2, msg := v' } w1 (by omega)
      (fun i i1 i2 => (m1.same i).quiet (hquiet i (by omega))) hby2 (by simp)
    rw [Nat.zero_add, call_top] at hup
    rw [hup] at hfin
    simp only [upperDeckLower] at hfin
    by_cases hv : v' = .nil
    · rw [if_pos hv] at hfin
      have := hfin [] _ w1 rfl (.refl w1)
      cases this
    · rw [if_neg hv, bind_of_ok (get_apply w1), sessionOf_eq] at hfin
      rw [m1.served] at hfin
      cases hfe : findEndPoint w.served (sessionOf ctx') with
      | none =>
        rw [hfe] at hfin
        have := hfin [] _ w1 rfl (.refl w1)
        cases this
      | some ep' =>
        rw [hfe] at hfin
        have := hfin [.rx ep' ctx'.conn v'] _ _ rfl (Moved.obs w1 _)
        injection this with this
        injection this with e1 e2 e3
        subst e1 e3
        refine ⟨hquiet, hopens, by rw [← hkind]; exact g1, hv, ?_⟩
        rcases h4 with ⟨⟨j, q1, q2, q3⟩, q4⟩ | ⟨q0, q4⟩
        · exact .inl ⟨⟨j, by omega, by omega, q3⟩, by rw [← q4]; exact hfe⟩
        · exact .inr ⟨fun j j1 j2 => q0 j (by omega) (by omega), by rw [← q4]; exact hfe⟩

/-- What follows from a delivery of the bytes that the lowest enabled codec and the processors below it made. -/
theorem receive_exact (w : World) (hbuilt : Built w) (hplain : ∀ j, j < w.n → Plain (w.procs j)) (hsv : ∀ j, j < w.n → ¬ Sieves (w.procs j))
    (hidle : ∀ j, j < w.n → Frames (w.procs j) → Idle j w) (hmtu : w.mtu < 2 ^ 32)
    (k : Nat) (hk : k < w.n) (hen : (w.procs k).enable = true) (hsl : (w.procs k).kind.isSliceCodec)
    (hpass : ∀ j, k < j → j < w.n → Passes (w.procs j)) (s : Int) (b : List Byte) (hb : b ≠ []) (hfit : w.overhead + b.length ≤ w.mtu)
    (c : ConnId) (hr : (w.conns c).useRef = false) (fuel : Nat) (hf : w.n + 4 ≤ fuel) (w' : World) (ep : EpId) (v : Val)
    (hrec : receive fuel c (wire w k s b) w = (.ok (), w')) (htr : w'.trace = w.trace ++ [.rx ep (some c) v]) :
    (∀ j, j < k → Quiet (w.procs j)) ∧ (∀ j, k < j → j < w.n → Opens (w.procs j)) ∧ Decodes (w.procs k).kind b v ∧ v ≠ .nil ∧
      (((∃ j, k < j ∧ j < w.n ∧ Resolves (w.procs j)) ∧ findEndPoint w.served (s % 2 ^ 32) = some ep) ∨ findEndPoint w.served 0 = some ep) := by
  have hlen := wrap_length (seg w (k + 1) (w.n - (k + 1))) s b
  have hroom := hbuilt.room_le (a := k + 1) (m := w.n - (k + 1)) (by omega)
  have hov := hbuilt.ov
  have hwl : ((wire w k s b).length : Int) ≤ w.mtu := by simp only [wire]; omega
  obtain ⟨ub, r1, r2⟩ := receive_ok (c := c) (w := w) (bs := wire w k s b) (wrap_ne _ s hb) hwl
  rw [r2] at hrec
  obtain ⟨ctx2, hcall⟩ : ∃ ctx2, call fuel .up w.n { Ctx.new with conn := some c, buf := some ub } w = (.ok ctx2, w') := by
    rw [bind_apply] at hrec
    rcases hq : call fuel .up w.n { Ctx.new with conn := some c, buf := some ub } w with ⟨r, w1⟩
    rw [hq] at hrec
    cases r with
    | ok ctx2 =>
      have hrec' : ((.ok (), w1) : Res Unit × World) = (.ok (), w') := hrec
      injection hrec' with _ h2
      exact ⟨ctx2, by rw [h2]⟩
    | _ => cases hrec
  obtain ⟨h1, h2, h3, h4, h5⟩ := up_exact w w.n (Nat.le_refl _) hplain hsv hidle k hk hen hsl hpass s b hb
    (by simp only [wire] at hwl; omega) _ c rfl hr ⟨ub, rfl, r1.1, r1.data⟩ fuel hf ctx2 w' ep v hcall htr
  exact ⟨h1, h2, h3, h4, h5.imp id fun h => h.2⟩

/-- One message from an endpoint of one stack to an endpoint of another: it is sent in one write, and reading what was written
delivers exactly this message to the endpoint. -/
def Delivers (fuel : Nat) (ws wr : World) (cs cr : ConnId) (v : Val) (s : Int) (ep : EpId) : Prop :=
  ∃ bs r ws' wr', send fuel (some cs) v s ws = (.ok (), ws') ∧ ws'.trace = ws.trace ++ [.wire cs bs r] ∧
    receive fuel cr bs wr = (.ok (), wr') ∧ wr'.trace = wr.trace ++ [.rx ep (some cr) v]

/-- C21, exactly.  Two stacks of the same processors of the library, any list of them, and any message: it is delivered to the
endpoint of its session iff there is one enabled codec with only silent processors above it and only processors that open
their own header below it (no enabled LoadBalancer, Echo, Discarder, Filter, Forwarder or second codec, no Loopback and no
bare ProcBase), this codec can encode and decode the message, the encoding is not empty and fits, and the session fits into
32 bits and has a SessionResolver below the codec or is 0. -/
theorem c21_exact (ws wr : World) (hmat : Matching ws wr) (hbs : Built ws) (hbr : Built wr) (hplain : ∀ j, j < ws.n → Plain (ws.procs j))
    (hidle : ∀ j, j < wr.n → Frames (wr.procs j) → Idle j wr) (hmtu : ws.mtu < 2 ^ 32)
    (v : Val) (s : Int) (cs : ConnId) (hs1 : (ws.conns cs).useRef = false) (hs2 : (ws.conns cs).closed = false)
    (hw : ∀ p, (ws.write ws.trace cs p).err = none ∧ (ws.write ws.trace cs p).n ≤ p.length)
    (cr : ConnId) (hr1 : (wr.conns cr).useRef = false) (ep : EpId) (hep : ∀ s', findEndPoint wr.served s' = some ep ↔ s' = s)
    (fuel : Nat) (hf : ws.n + 4 ≤ fuel) :
    Delivers fuel ws wr cs cr v s ep ↔
      ∃ k b, k < ws.n ∧ (∀ j, j < k → Quiet (ws.procs j)) ∧ (ws.procs k).enable = true ∧
        (∀ j, k < j → j < ws.n → Opens (ws.procs j)) ∧ Message ws k v b s := by
  have hback : ∀ j, j < ws.n → SameProc (wr.procs j) (ws.procs j) := fun j hj => ⟨(hmat.same j hj).1.symm, (hmat.same j hj).2.symm⟩
  constructor
  · rintro ⟨bs, r, ws', wr', h1, h2, h3, h4⟩
    rcases c20_exact ws hbs hplain v s cs hs1 hs2 hw fuel (by omega) with h | ⟨k, b, w2, k1, k2, k3, k4, k5, k6, k7, k8, k9⟩
    · rw [h1, h2, List.drop_left] at h
      exact absurd rfl ((h _ (List.mem_singleton.mpr rfl)).1 cs bs r)
    · rw [k8] at h1
      injection h1 with _ h1
      subst h1
      rw [k9.trace] at h2
      have hb := List.append_cancel_left h2
      injection hb with hb
      injection hb with _ hb
      rw [← hb, ← hmat.wire k1] at h3
      have hsl : (ws.procs k).kind.isSliceCodec := by
        generalize (ws.procs k).kind = q at k3
        cases k3 <;> trivial
      have hkind : (wr.procs k).kind = (ws.procs k).kind := by
        have e := (hmat.same k k1).2
        generalize (ws.procs k).kind = q1 at e hsl
        generalize (wr.procs k).kind = q2 at e
        cases q1 <;> simp only [Kind.isSliceCodec] at hsl <;> cases q2 <;> simp_all [Kind.Same]
      have hn := hmat.n
      obtain ⟨d1, d2, d3, d4, d5⟩ := receive_exact wr hbr (fun j hj => (hplain j (by omega)).same (hmat.same j (by omega)))
        (fun j hj x => k7 j (by omega) ((hmat.same j (by omega)).sieves x)) hidle (by rw [hmat.mtu]; exact hmtu) k (by omega)
        (by rw [(hmat.same k k1).1]; exact k2) (by rw [hkind]; exact hsl)
        (fun j j1 j2 => (hmat.same j (by omega)).passes (k6 j j1 (by omega))) s b k4 (by rw [hmat.overhead hbs hbr, hmat.mtu]; exact k5)
        cr hr1 fuel (by omega) wr' ep v h3 h4
      have hcoded : CodedBy (ws.mtu - ws.overhead).toNat (ws.procs k).kind v b := by
        rw [hkind] at d3
        generalize (ws.procs k).kind = q at k3 d3
        cases k3 with
        | bytes => exact .bytes b
        | str => exact .str b
        | json m u _ _ e1 e2 => exact .json m u v b e1 e2 d3
      have hsess : 0 ≤ s ∧ s < 2 ^ 32 ∧ ((∃ j, k < j ∧ j < ws.n ∧ Resolves (ws.procs j)) ∨ s = 0) := by
        rcases d5 with ⟨⟨j, q1, q2, q3⟩, q4⟩ | q4
        · have := (hep _).mp q4
          exact ⟨by omega, by omega, .inl ⟨j, q1, by omega, (hback j (by omega)).resolves q3⟩⟩
        · have := (hep _).mp q4
          exact ⟨by omega, by omega, .inr this.symm⟩
      exact ⟨k, b, k1, fun j hj => (hback j (by omega)).quiet (d1 j hj), k2,
        fun j j1 j2 => (hback j j2).opens (d2 j j1 (by omega)), hcoded, k4, k5, hsess.1, hsess.2.1, hsess.2.2⟩
  · rintro ⟨k, b, k1, k2, k3, k4, k5⟩
    obtain ⟨ws', h1, h2, _⟩ := on_the_wire_shape ws k k1 k2 k3 k4 hbs v b s k5.codec k5.ne k5.fit cs hs1 hs2 (hw _).1 (hw _).2 fuel (by omega)
    have hn := hmat.n
    have hr : Carrier wr k := ⟨by omega, fun j hj => (hmat.same j (by omega)).quiet (k2 j hj), by rw [(hmat.same k k1).1]; exact k3,
      fun j j1 j2 => (hmat.same j (by omega)).opens (k4 j j1 (by omega)), fun j _ j2 => hidle j j2, hbr, by rw [hmat.mtu]; exact hmtu⟩
    obtain ⟨wr', h3, h4⟩ := receive_delivers wr k hr v b s (hmat.message k1 hbs hbr k5) cr hr1 ep ((hep s).mpr rfl) fuel (by omega)
    rw [hmat.wire k1] at h3
    exact ⟨_, _, ws', wr', h1, h2.trace, h3, h4.trace⟩

/-! ## Examples -/

theorem quiet_served : ∀ s', findEndPoint quiet.served s' = some 7 ↔ s' = 3 := by
  intro s'
  by_cases h : (3 : Int) = s'
  · subst h; simp [findEndPoint, quiet]
  · have h2 : s' ≠ 3 := fun x => h x.symm
    simp [findEndPoint, quiet, h, h2]

/-- The stack of five processors, with a LoadBalancer in the place of its Heartbeat. -/
def fiveBalanced : World :=
  { five with procs := fun j => if j = 3 then ⟨true, .loadBalancer⟩ else five.procs j }

theorem five_plain : ∀ j, j < five.n → Plain (five.procs j) := by
  intro j _
  match j with
  | 0 => trivial
  | 1 => trivial
  | 2 => trivial
  | 3 => trivial
  | _ + 4 => trivial

theorem five_idle : ∀ j, j < five.n → Frames (five.procs j) → Idle j five := by
  intro j h1 h2
  by_cases h : 0 < j
  · exact five_carrier.idle j h h1 h2
  · obtain rfl : j = 0 := by omega
    obtain ⟨⟨_, h3⟩, _⟩ := h2
    cases h3

/-- `[9]` reaches session 3. -/
example : Delivers 9 five five 0 0 (.bytes [9]) 3 7 :=
  (c21_exact five five five_matching rfl rfl five_plain five_idle (by decide) _ 3 0 rfl rfl (fun _ => ⟨rfl, Nat.le_refl _⟩) 0 rfl 7 quiet_served 9
    (by decide)).mpr ⟨0, [9], by decide, fun j h => absurd h (by omega), rfl, five_opens, five_message [9] (by decide) (by decide)⟩

/-- The same message does not get through a LoadBalancer. -/
example : ¬ Delivers 9 fiveBalanced fiveBalanced 0 0 (.bytes [9]) 3 7 := by
  intro h
  obtain ⟨k, b, h1, _, h3, h4, h5⟩ := (c21_exact fiveBalanced fiveBalanced ⟨rfl, rfl, fun _ _ => .refl _⟩ rfl rfl
    (fun j hj => by
      by_cases h : j = 3
      · subst h; trivial
      · simp only [fiveBalanced, if_neg h]; exact five_plain j hj)
    (fun j hj hfr => by
      by_cases h : j = 3
      · subst h; obtain ⟨⟨_, h3⟩, _⟩ := hfr; cases h3
      · have hp : fiveBalanced.procs j = five.procs j := by simp only [fiveBalanced, if_neg h]
        rw [hp] at hfr
        obtain ⟨st, e1, e2⟩ := five_idle j hj hfr
        exact ⟨st, by rw [hp]; exact e1, e2⟩)
    (by decide) _ 3 0 rfl rfl (fun _ => ⟨rfl, Nat.le_refl _⟩) 0 rfl 7 quiet_served 9 (by decide)).mp h
  have hk : k < 5 := h1
  by_cases h : k < 3
  · exact absurd (h4 3 h (by decide)) (by simp [fiveBalanced, Opens])
  · have hc := h5.codec
    have : k = 3 ∨ k = 4 := by omega
    rcases this with rfl | rfl <;> cases hc

end Verif.Stack
