import Verif.Stack.DeliverExact

/-!
# What is set on a reference connection (C34)

Stacks of any processors of the library, in any order and multiplicity, enabled or not (`Plain`: no enabled GenericCodec or
GOBCodec, whose functions are the user's).
-/

namespace Verif.Stack
open GoM UBuf

/-- An enabled codec above the processor `j`. -/
def CodecAbove (w : World) (j : Nat) : Prop := ∃ k, k < j ∧ (w.procs k).enable = true ∧ (w.procs k).kind.isSliceCodec

/-- Processor `j` lets `v` down on a reference connection: it is not a ProcBase, Loopback or FrameDecoder, nor an enabled
Filter or Forwarder; if it is an enabled codec, it can encode `v` in the MTU; if it is an enabled SessionResolver, a codec above it
has made a buffer for it to write to. -/
def LetsDown (w : World) (v : Val) (j : Nat) : Prop :=
  match (w.procs j).kind with
  | .base | .loopback | .frame _ => False
  | .filter _ _ _ | .forwarder _ _ _ => (w.procs j).enable = false
  | .bytesCodec | .stringCodec | .jsonCodec _ _ =>
    (w.procs j).enable = true → ∃ b, Encodes (w.procs j).kind v b ∧ b ≠ [] ∧ w.overhead + b.length ≤ w.mtu
  | .session => (w.procs j).enable = true → CodecAbove w j
  | _ => True

/-- The message is still `v`, and there is a buffer iff there was a codec. -/
structure Carried (w : World) (c : ConnId) (v : Val) (a : Nat) (ctx : Ctx) : Prop where
  msg : ctx.msg = v
  conn : ctx.conn = some c
  buf : (ctx.buf = none ∧ ¬ CodecAbove w a) ∨ (CodecAbove w a ∧ ∃ s d, ctx.buf = some s ∧ Buf s d ∧ room (seg w a (w.n - a)) ≤ d.head)

theorem CodecAbove.succ {w : World} {a : Nat} (h : CodecAbove w a) : CodecAbove w (a + 1) := by
  obtain ⟨k, h1, h2⟩ := h
  exact ⟨k, by omega, h2⟩

theorem codecAbove_succ {w : World} {a : Nat} (h : ¬ ((w.procs a).enable = true ∧ (w.procs a).kind.isSliceCodec)) :
    CodecAbove w (a + 1) ↔ CodecAbove w a := by
  refine ⟨fun ⟨k, h1, h2⟩ => ⟨k, ?_, h2⟩, .succ⟩
  have : k ≠ a := fun e => h (e ▸ h2)
  omega

theorem room_next {w : World} {a : Nat} (ha : a < w.n) :
    room (seg w a (w.n - a)) = (w.procs a).kind.overhead + room (seg w (a + 1) (w.n - (a + 1))) := by
  rw [show w.n - a = w.n - (a + 1) + 1 by omega, seg_succ]
  rfl

theorem Carried.through {w : World} {c : ConnId} {v : Val} {a : Nat} {ctx : Ctx} (h : Carried w c v a ctx) (ha : a < w.n)
    (hn : ¬ ((w.procs a).enable = true ∧ (w.procs a).kind.isSliceCodec)) : Carried w c v (a + 1) ctx := by
  refine ⟨h.msg, h.conn, ?_⟩
  rw [codecAbove_succ hn]
  rcases h.buf with h | ⟨h1, s, d, h2, h3, h4⟩
  · exact .inl h
  · refine .inr ⟨h1, s, d, h2, h3, ?_⟩
    have := room_next ha
    have := overhead_nonneg (w.procs a).kind
    omega

/-- One processor that lets `v` down. -/
theorem LetsDown.step {w : World} (hbuilt : Built w) {c : ConnId} (href : (w.conns c).useRef = true) {v : Val} {a : Nat} (ha : a < w.n)
    (hp : Plain (w.procs a)) (h : LetsDown w v a) {ctx : Ctx} (hc : Carried w c v a ctx) :
    ∃ ctx', Carried w c v (a + 1) ctx' ∧ Down (fun nb => onUpper a (w.procs a) nb ctx w) ctx' w := by
  have hrd : RefDown (w.procs a) → ¬ ((w.procs a).enable = true ∧ (w.procs a).kind.isSliceCodec) →
      ∃ ctx', Carried w c v (a + 1) ctx' ∧ Down (fun nb => onUpper a (w.procs a) nb ctx w) ctx' w :=
    fun h1 h2 => ⟨ctx, hc.through ha h2, h1.down a ⟨c, hc.conn, href⟩⟩
  have codec : (w.procs a).enable = true → (w.procs a).kind.isSliceCodec → (∃ b, Encodes (w.procs a).kind v b ∧ b ≠ [] ∧ w.overhead + b.length ≤ w.mtu) →
      ∃ ctx', Carried w c v (a + 1) ctx' ∧ Down (fun nb => onUpper a (w.procs a) nb ctx w) ctx' w := by
    rintro h1 h2 ⟨b, e1, e2, e3⟩
    obtain ⟨s, k1, k2⟩ := encodeDown_any (ctx := ctx) (w := w) b e2 hbuilt.ov e3
    refine ⟨{ ctx with buf := some s }, ⟨hc.msg, hc.conn, .inr ⟨⟨a, by omega, h1, h2⟩, s, _, rfl, k1, ?_⟩⟩, fun nb => ?_⟩
    · have := hbuilt.room_le (a := a + 1) (m := w.n - (a + 1)) (by omega)
      have := hbuilt.ov
      simp only
      omega
    · rw [← k2 nb]
      have hm := hc.msg
      generalize w.procs a = p at h1 e1
      obtain ⟨en, k⟩ := p
      simp only at h1 e1
      subst h1
      cases e1 with
      | bytes => simp only [onUpper, bytesUpper, if_true, hm]
      | str => simp only [onUpper, stringUpper, if_true, hm]
      | json m u _ _ g1 g2 => simp only [onUpper, jsonUpper, if_true, hm, if_neg g1, g2]
  generalize hpa : w.procs a = p at hrd codec hp
  obtain ⟨en, k⟩ := p
  simp only [LetsDown, hpa] at h
  cases k with
  | base => exact h.elim
  | loopback => exact h.elim
  | frame => exact h.elim
  | bytesCodec => cases en with
    | false => exact hrd rfl (by simp)
    | true => exact codec rfl trivial (h rfl)
  | stringCodec => cases en with
    | false => exact hrd rfl (by simp)
    | true => exact codec rfl trivial (h rfl)
  | jsonCodec => cases en with
    | false => exact hrd rfl (by simp)
    | true => exact codec rfl trivial (h rfl)
  | session => cases en with
    | false => exact hrd rfl (by simp)
    | true =>
      rcases hc.buf with ⟨_, h1⟩ | ⟨h1, s, d, h2, h3, h4⟩
      · exact absurd (h rfl) h1
      · have hr := room_next ha
        rw [hpa] at hr
        simp only [Kind.overhead] at hr
        have := room_nonneg (seg w (a + 1) (w.n - (a + 1)))
        obtain ⟨s', k1, k2⟩ := sessionUpper_ok (w := w) h2 h3 (by omega)
        refine ⟨{ ctx with buf := some s' }, ⟨hc.msg, hc.conn, .inr ⟨h1.succ, s', _, rfl, k1, ?_⟩⟩, k2⟩
        simp only [Deque.prepend, length_encBE]
        omega
  | genericCodec => exact hrd hp (by simp [Kind.isSliceCodec])
  | gobCodec => exact hrd hp (by simp [Kind.isSliceCodec])
  | filter => exact hrd h (by simp [Kind.isSliceCodec])
  | forwarder => exact hrd h (by simp [Kind.isSliceCodec])
  | stat => exact hrd trivial (by simp [Kind.isSliceCodec])
  | heartbeat => exact hrd trivial (by simp [Kind.isSliceCodec])
  | loadBalancer => exact hrd trivial (by simp [Kind.isSliceCodec])
  | echo => exact hrd trivial (by simp [Kind.isSliceCodec])
  | discarder => exact hrd trivial (by simp [Kind.isSliceCodec])
  | flow => exact hrd trivial (by simp [Kind.isSliceCodec])

theorem lets_down (w : World) (hbuilt : Built w) (c : ConnId) (href : (w.conns c).useRef = true) (v : Val) (m : Nat) :
    ∀ (a fuel : Nat) (ctx : Ctx), a + m ≤ w.n → (∀ j, a ≤ j → j < a + m → Plain (w.procs j) ∧ LetsDown w v j) → Carried w c v a ctx →
    ∃ ctx', Carried w c v (a + m) ctx' ∧ call (fuel + m) .down (a + 1) ctx w = call fuel .down (a + m + 1) ctx' w := by
  induction m with
  | zero => intro a fuel ctx _ _ h; exact ⟨ctx, h, rfl⟩
  | succ m ih =>
    intro a fuel ctx hn hq h
    obtain ⟨p1, p2⟩ := hq a (by omega) (by omega)
    obtain ⟨ctx1, h1, h2⟩ := p2.step hbuilt href (by omega) p1 h
    rw [← Nat.add_assoc fuel, call_down (by omega), show onUpper a (w.procs a) (nbAt (fuel + m) (a + 1)) ctx w = _ from h2 _]
    obtain ⟨ctx2, k1, k2⟩ := ih (a + 1) fuel ctx1 (by omega) (fun j j1 j2 => hq j (by omega) (by omega)) h1
    rw [show a + 1 + m = a + (m + 1) by omega] at k1 k2
    exact ⟨ctx2, k1, k2⟩

/-- The world is left alone, or the next processor is called in it. -/
def Sinks (P : Ctx → Prop) (run : Nb → Res Ctx × World) (w : World) : Prop :=
  (∀ nb, (run nb).2 = w) ∨ ∃ ctx', P ctx' ∧ Down run ctx' w

/-- Above a processor that does not let the message down, or sends it up again, nothing happens. -/
theorem ref_sinks (w : World) (P : Ctx → Prop) (k : Nat) (hk : k < w.n)
    (habove : ∀ j, j < k → ∀ ctx, P ctx → Sinks P (fun nb => onUpper j (w.procs j) nb ctx w) w)
    (hat : ∀ ctx, P ctx → (∀ nb, (onUpper k (w.procs k) nb ctx w).2 = w) ∨ ∀ nb, onUpper k (w.procs k) nb ctx w = nb.upUpper ctx w) (fuel : Nat) :
    ∀ pos ctx, pos ≤ k + 1 → P ctx → (call fuel .down pos ctx w).2 = w := by
  induction fuel with
  | zero => intros; rfl
  | succ fuel ih =>
    intro pos ctx hpos hP
    cases pos with
    | zero => rfl
    | succ j =>
      rw [call_down (by omega)]
      by_cases hj : j = k
      · subst hj
        rcases hat ctx hP with h | h
        · exact h _
        · rw [h]; exact ih j ctx (by omega) hP
      · rcases habove j (by omega) ctx hP with h | ⟨ctx', h1, h2⟩
        · exact h _
        · rw [show onUpper j (w.procs j) (nbAt fuel (j + 1)) ctx w = _ from h2 _]
          exact ih (j + 2) ctx' (by omega) h1

/-- What stays true of a message below processors that let it down, even if it passes them again. -/
structure Loose (w : World) (c : ConnId) (v : Val) (k : Nat) (ctx : Ctx) : Prop where
  msg : ctx.msg = v
  conn : ctx.conn = some c
  buf : ¬ CodecAbove w k → ctx.buf = none

theorem LetsDown.sinks {w : World} (hov : 0 ≤ w.overhead) {c : ConnId} (href : (w.conns c).useRef = true) {v : Val} {a k : Nat} (hak : a < k)
    (hp : Plain (w.procs a)) (h : LetsDown w v a) {ctx : Ctx} (hc : Loose w c v k ctx) :
    Sinks (Loose w c v k) (fun nb => onUpper a (w.procs a) nb ctx w) w := by
  have hrd : RefDown (w.procs a) → Sinks (Loose w c v k) (fun nb => onUpper a (w.procs a) nb ctx w) w :=
    fun h1 => .inr ⟨ctx, hc, h1.down a ⟨c, hc.conn, href⟩⟩
  have codec : (w.procs a).enable = true → (w.procs a).kind.isSliceCodec → Sinks (Loose w c v k) (fun nb => onUpper a (w.procs a) nb ctx w) w := by
    intro h1 h2
    rcases encode_or_not h1 h2 a ctx w hov with g | ⟨b, s, _, _, _, _, g⟩
    · exact .inl g
    · exact .inr ⟨{ ctx with buf := some s }, ⟨hc.msg, hc.conn, fun g => (g ⟨a, hak, h1, h2⟩).elim⟩, g⟩
  generalize hpa : w.procs a = p at hrd codec hp
  obtain ⟨en, kd⟩ := p
  simp only [LetsDown, hpa] at h
  cases kd with
  | base => exact h.elim
  | loopback => exact h.elim
  | frame => exact h.elim
  | bytesCodec => cases en with
    | false => exact hrd rfl
    | true => exact codec rfl trivial
  | stringCodec => cases en with
    | false => exact hrd rfl
    | true => exact codec rfl trivial
  | jsonCodec => cases en with
    | false => exact hrd rfl
    | true => exact codec rfl trivial
  | session => cases en with
    | false => exact hrd rfl
    | true =>
      obtain ⟨k', h1, h2⟩ := h rfl
      simp only [onUpper, sessionUpper, if_true]
      cases hbuf : ctx.buf with
      | none => exact .inl fun nb => rfl
      | some ub =>
        simp only [Sinks, Down]
        rcases bind_onBuf_cases ub (UBuf.writeHeadU .u32 .be (toU32 (optionParseInt (ctx.opts "session") 0).1)) w with ⟨x, h⟩ | h
        · by_cases hx : x.1.isSome
          · exact .inl fun nb => by rw [h, if_pos hx]; rfl
          · exact .inr ⟨{ ctx with buf := some x.2 }, ⟨hc.msg, hc.conn, fun g => (g ⟨k', by omega, h2⟩).elim⟩, fun nb => by rw [h, if_neg hx]⟩
        · exact .inl fun nb => by rw [h]
  | genericCodec => exact hrd hp
  | gobCodec => exact hrd hp
  | filter => exact hrd h
  | forwarder => exact hrd h
  | stat => exact hrd trivial
  | heartbeat => exact hrd trivial
  | loadBalancer => exact hrd trivial
  | echo => exact hrd trivial
  | discarder => exact hrd trivial
  | flow => exact hrd trivial

/-- A processor that does not let the message down. -/
theorem not_letsDown {w : World} (hov : 0 ≤ w.overhead) {c : ConnId} (href : (w.conns c).useRef = true) {v : Val} {k : Nat}
    (hp : Plain (w.procs k)) (hl : (w.procs k).kind ≠ .loopback) (h : ¬ LetsDown w v k) {ctx : Ctx} (hc : Loose w c v k ctx) :
    (∀ nb, (onUpper k (w.procs k) nb ctx w).2 = w) ∨ ∀ nb, onUpper k (w.procs k) nb ctx w = nb.upUpper ctx w := by
  by_cases hsv : Sieves (w.procs k)
  · exact .inl fun nb => by rw [sieve_stops hp hsv]
  have codec : (w.procs k).enable = true → (w.procs k).kind.isSliceCodec →
      ¬ (∃ b, Encodes (w.procs k).kind v b ∧ b ≠ [] ∧ w.overhead + b.length ≤ w.mtu) → ∀ nb, (onUpper k (w.procs k) nb ctx w).2 = w := by
    intro h1 h2 h3
    rcases encode_or_not h1 h2 k ctx w hov with g | ⟨b, s, g1, g2, g3, _⟩
    · exact g
    · exact (h3 ⟨b, hc.msg ▸ g1, g2, g3⟩).elim
  have hur : useReference ctx.conn w = (.ok true, w) := by rw [hc.conn, useReference_some, href]
  generalize hpa : w.procs k = p at hsv codec hp hl
  obtain ⟨en, kd⟩ := p
  simp only [LetsDown, hpa] at h
  cases kd with
  | base => exact .inl fun nb => rfl
  | loopback => exact absurd rfl hl
  | frame cache =>
    right
    intro nb
    simp only [onUpper, frameUpper]
    rw [bind_of_ok hur]
    rfl
  | bytesCodec => exact .inl (codec (Classical.byContradiction fun g => h fun x => absurd x g) trivial fun g => h fun _ => g)
  | stringCodec => exact .inl (codec (Classical.byContradiction fun g => h fun x => absurd x g) trivial fun g => h fun _ => g)
  | jsonCodec => exact .inl (codec (Classical.byContradiction fun g => h fun x => absurd x g) trivial fun g => h fun _ => g)
  | session =>
    left
    have hen : en = true := Classical.byContradiction fun g => h fun x => absurd x g
    have hno : ¬ CodecAbove w k := fun g => h fun _ => g
    subst hen
    intro nb
    simp only [onUpper, sessionUpper, if_true, hc.buf hno]
    rfl
  | filter f t r => exact (hsv ⟨by cases en <;> simp_all, f, t, r, .inl rfl⟩).elim
  | forwarder f t r => exact (hsv ⟨by cases en <;> simp_all, f, t, r, .inr rfl⟩).elim
  | genericCodec => exact (h trivial).elim
  | gobCodec => exact (h trivial).elim
  | stat => exact (h trivial).elim
  | heartbeat => exact (h trivial).elim
  | loadBalancer => exact (h trivial).elim
  | echo => exact (h trivial).elim
  | discarder => exact (h trivial).elim
  | flow => exact (h trivial).elim

theorem least_bad {P : Nat → Prop} : ∀ {n : Nat}, (∃ j, j < n ∧ ¬ P j) → ∃ j, j < n ∧ ¬ P j ∧ ∀ k, k < j → P k := by
  intro n
  induction n with
  | zero => rintro ⟨j, h, _⟩; omega
  | succ n ih =>
    rintro ⟨j, h1, h2⟩
    by_cases hn : ∃ j, j < n ∧ ¬ P j
    · obtain ⟨k, k1, k2⟩ := ih hn
      exact ⟨k, by omega, k2⟩
    · exact ⟨j, h1, h2, fun k hk => Classical.byContradiction fun hb => hn ⟨k, by omega, hb⟩⟩

/-- If every processor lets `v` down: the object itself is set on an open connection, and nothing else happens; a closed
connection is closed again. -/
theorem c34_send_ok (v : Val) (c : ConnId) (w : World) (hbuilt : Built w) (href : (w.conns c).useRef = true)
    (hplain : ∀ j, j < w.n → Plain (w.procs j)) (hd : ∀ j, j < w.n → LetsDown w v j) (s : Int) (fuel : Nat) (hf : w.n + 1 ≤ fuel) :
    send fuel (some c) v s w =
      if (w.conns c).closed = false ∧ v ≠ .nil then (.ok (), { w with trace := w.trace ++ [.ref c v] })
      else (.ok (), (closeConnection c w).2) := by
  obtain ⟨f, rfl⟩ : ∃ f, fuel = f + 1 + w.n := ⟨fuel - w.n - 1, by omega⟩
  obtain ⟨ctx', h1, h2⟩ := lets_down w hbuilt c href v w.n 0 (f + 1)
    (({ Ctx.new with conn := some c, msg := v } : Ctx).setOption "session" (.int s)) (by omega)
    (fun j _ h => ⟨hplain j (by omega), hd j (by omega)⟩)
    ⟨rfl, rfl, .inl ⟨rfl, fun ⟨k, h, _⟩ => by omega⟩⟩
  rw [show 0 + w.n + 1 = w.n + 1 by omega, call_bottom, Nat.zero_add] at h2
  simp only [send]
  have hm := h1.msg
  simp only [lowerDeckUpper, h1.conn] at h2
  rw [bind_of_ok (useReference_some c w), href] at h2
  simp only [if_true] at h2
  by_cases hok : (w.conns c).closed = false ∧ v ≠ .nil
  · rw [if_pos hok]
    have hset : setReference c ctx'.msg w = (.ok true, { w with trace := w.trace ++ [.ref c v] }) := by
      simp only [setReference]
      rw [bind_of_ok (get_apply w), hok.1, hm]
      simp only [Bool.false_eq_true, if_false, if_neg hok.2]
      rfl
    rw [bind_of_ok hset] at h2
    rw [bind_of_ok h2]
    rfl
  · rw [if_neg hok]
    have hset : setReference c ctx'.msg w = (.ok false, w) := by
      simp only [setReference]
      rw [bind_of_ok (get_apply w), hm]
      cases hcl : (w.conns c).closed with
      | true => rfl
      | false =>
        have : v = .nil := Classical.byContradiction fun h => hok ⟨hcl, h⟩
        simp only [Bool.false_eq_true, if_false, if_pos this]
        rfl
    rw [bind_of_ok hset] at h2
    rw [bind_of_ok h2]
    rfl

/-- **C34, exactly, on the sending side**: the object itself is set on a reference connection iff the connection is open, there is an object
and every processor lets it down. -/
theorem c34_send_iff (v : Val) (c : ConnId) (w : World) (hbuilt : Built w) (href : (w.conns c).useRef = true)
    (hplain : ∀ j, j < w.n → Plain (w.procs j)) (s : Int) (fuel : Nat) (hf : w.n + 1 ≤ fuel) :
    (∃ w', send fuel (some c) v s w = (.ok (), w') ∧ .ref c v ∈ w'.trace.drop w.trace.length) ↔
      (w.conns c).closed = false ∧ v ≠ .nil ∧ ∀ j, j < w.n → LetsDown w v j := by
  constructor
  · rintro ⟨w', h1, h2⟩
    by_cases hloop : ∃ l, l < w.n ∧ (w.procs l).kind = .loopback
    · obtain ⟨l, l1, l2⟩ := hloop
      obtain ⟨_, ⟨t, ht, hloc⟩, _⟩ := c29_nothing_below l w l1 l2 fuel (some c) v s
      rw [h1] at ht
      have ht : w'.trace = w.trace ++ t := ht
      rw [ht, List.drop_left] at h2
      exact absurd rfl ((hloc _ h2).2.1 c v)
    by_cases hall : ∀ j, j < w.n → LetsDown w v j
    · rw [c34_send_ok v c w hbuilt href hplain hall s fuel hf] at h1
      by_cases hok : (w.conns c).closed = false ∧ v ≠ .nil
      · exact ⟨hok.1, hok.2, hall⟩
      · rw [if_neg hok] at h1
        injection h1 with _ h1
        subst h1
        rw [show (closeConnection c w).2.trace = w.trace ++ [.closed c] from rfl, List.drop_left] at h2
        simp at h2
    · exfalso
      have hbad : ∃ j, j < w.n ∧ ¬ LetsDown w v j := by
        apply Classical.byContradiction
        intro h
        exact hall fun j hj => Classical.byContradiction fun hb => h ⟨j, hj, hb⟩
      obtain ⟨k, hk, hb, hu⟩ := least_bad hbad
      have := ref_sinks w (Loose w c v k) k hk (fun j hj ctx hc => (hu j hj).sinks hbuilt.ov href hj (hplain j (by omega)) hc)
        (fun ctx hc => not_letsDown hbuilt.ov href (hplain k hk) (fun e => hloop ⟨k, hk, e⟩) hb hc) fuel 1
        (({ Ctx.new with conn := some c, msg := v } : Ctx).setOption "session" (.int s)) (by omega) ⟨rfl, rfl, fun _ => rfl⟩
      have hsame : (send fuel (some c) v s w).2 = w := by
        simp only [send, bind_apply]
        rcases hcall : call fuel .down 1 (({ Ctx.new with conn := some c, msg := v } : Ctx).setOption "session" (.int s)) w with ⟨r, w1⟩
        rw [hcall] at this
        cases r <;> exact this
      rw [h1] at hsame
      have hsame : w' = w := hsame
      subst hsame
      simp at h2
  · rintro ⟨h1, h2, h3⟩
    rw [c34_send_ok v c w hbuilt href hplain h3 s fuel hf, if_pos ⟨h1, h2⟩]
    exact ⟨_, rfl, by simp⟩

/-- **C34, exactly**: an endpoint of the stack `u` at the other end of a reference connection gets the very object that was sent in the
stack `w`, iff it is set on the connection and the other side hands it up. -/
theorem c34_exact (v : Val) (hv : v ≠ .nil) (w u : World) (c d : ConnId) (hbuilt : Built w) (hwr : (w.conns c).useRef = true)
    (hur : (u.conns d).useRef = true) (hplain : ∀ j, j < w.n → Plain (w.procs j)) (huser : ∀ j, j < u.n → ¬ UserFns (u.procs j)) (s : Int)
    (fuel : Nat) (hf : w.n + 1 ≤ fuel) (hg : u.n + 1 ≤ fuel) (ep : EpId) :
    ((∃ w', send fuel (some c) v s w = (.ok (), w') ∧ .ref c v ∈ w'.trace.drop w.trace.length) ∧
      ∃ u', receiveRef fuel d v u = (.ok (), u') ∧ .rx ep (some d) v ∈ u'.trace.drop u.trace.length) ↔
    (w.conns c).closed = false ∧ (∀ j, j < w.n → LetsDown w v j) ∧ (∀ j, j < u.n → RefUp (u.procs j)) ∧ findEndPoint u.served 0 = some ep := by
  rw [c34_send_iff v c w hbuilt hwr hplain s fuel hf, c34_receive_iff v hv d u hur huser fuel hg ep]
  exact ⟨fun ⟨⟨h1, _, h2⟩, h3, h4⟩ => ⟨h1, h2, h3, h4⟩, fun ⟨h1, h2, h3, h4⟩ => ⟨⟨h1, hv, h2⟩, h3, h4⟩⟩

/-- A codec and a SessionResolver on a reference connection. -/
def refDown (a b : Kind) : World :=
  { quiet with n := 2, overhead := 4, conns := fun _ => ⟨true, false⟩, procs := fun i => if i = 0 then ⟨true, a⟩ else ⟨true, b⟩ }

/-- The object passes an enabled codec and an enabled SessionResolver below it ... -/
example : ∃ w', send 9 (some 0) (.bytes [9]) 3 (refDown .bytesCodec .session) = (.ok (), w') ∧
    .ref 0 (.bytes [9]) ∈ w'.trace.drop (refDown .bytesCodec .session).trace.length :=
  (c34_send_iff (.bytes [9]) 0 (refDown .bytesCodec .session) rfl rfl
    (fun j h => match j, h with | 0, _ => trivial | 1, _ => trivial) 3 9 (by decide)).mpr
    ⟨rfl, by simp, fun j h => match j, h with
      | 0, _ => fun _ => ⟨[9], .bytes [9], by simp, by decide⟩
      | 1, _ => fun _ => ⟨0, by omega, rfl, trivial⟩⟩

/-- ... but not the other way round. -/
example : ¬ ∃ w', send 9 (some 0) (.bytes [9]) 3 (refDown .session .bytesCodec) = (.ok (), w') ∧
    .ref 0 (.bytes [9]) ∈ w'.trace.drop (refDown .session .bytesCodec).trace.length := fun h => by
  have := ((c34_send_iff (.bytes [9]) 0 (refDown .session .bytesCodec) rfl rfl
    (fun j h => match j, h with | 0, _ => trivial | 1, _ => trivial) 3 9 (by decide)).mp h).2.2 0 (by decide)
  obtain ⟨k, h1, _⟩ := this rfl
  omega

end Verif.Stack
