import Verif.Stack.EchoExact
import Verif.Stack.Hop

/-!
# The fuel is only a bound on the depth of calls

The model's `call` counts down the depth of nested calls, and the FrameDecoder's loops their rounds; a run that uses up the
fuel is `running`.  A run that comes to an end with some fuel has the same result with more (`call_mono`): the results do not
depend on the fuel, and a run that is `running` for every fuel is one that never returns.  With this, exactly when a message
between an Echo and a Loopback goes back and forth for ever (C35).
-/

namespace Verif.Stack
open GoM UBuf

/-- `m` is still running, or does what `n` does. -/
def LeR (m n : GoM σ α) : Prop := ∀ s, (m s).1 = .running ∨ m s = n s

theorem LeR.refl (m : GoM σ α) : LeR m m := fun _ => .inr rfl

theorem LeR.running (n : GoM σ α) : LeR (fun s => (.running, s)) n := fun _ => .inl rfl

theorem LeR.bind {m n : GoM σ α} {f g : α → GoM σ β} (h1 : LeR m n) (h2 : ∀ a, LeR (f a) (g a)) : LeR (m >>= f) (n >>= g) := by
  intro s
  rw [bind_apply, bind_apply]
  rcases h1 s with h | h
  · left
    rcases hm : m s with ⟨r, s'⟩
    rw [hm] at h
    simp only at h
    rw [h]
  · rw [← h]
    rcases m s with ⟨r, s'⟩
    cases r with
    | ok a => exact h2 a s'
    | panic => exact .inr rfl
    | running => exact .inl rfl

theorem LeR.ite {c : Prop} [Decidable c] {m n m' n' : GoM σ α} (h1 : LeR m m') (h2 : LeR n n') :
    LeR (if c then m else n) (if c then m' else n') := by split <;> assumption

/-- Neighbours that do the same or are still running. -/
structure Nb.Le (a b : Nb) : Prop where
  upLower : ∀ c, LeR (a.upLower c) (b.upLower c)
  downUpper : ∀ c, LeR (a.downUpper c) (b.downUpper c)
  upUpper : ∀ c, LeR (a.upUpper c) (b.upUpper c)

theorem Nb.Le.dispatch {a b : Nb} (h : a.Le b) (x : Next) : LeR (Stack.dispatch a x) (Stack.dispatch b x) := by
  cases x with
  | stop c => exact .refl _
  | up c => exact h.upLower c
  | down c => exact h.downUpper c
  | upDown c => exact h.upUpper c

theorem onUpper_le {a b : Nb} (h : a.Le b) (i : Nat) (p : Proc) (ctx : Ctx) : LeR (onUpper i p a ctx) (onUpper i p b ctx) := by
  rw [onUpper_hop, onUpper_hop]
  exact .bind (.refl _) h.dispatch

theorem currentLoop_le {a b : Nb} (h : a.Le b) (i : Nat) (f f' : Nat) (hf : f ≤ f') : ∀ first ctx ub,
    LeR (currentLoop i a f first ctx ub) (currentLoop i b f' first ctx ub) := by
  induction f generalizing f' with
  | zero => intro first ctx ub; exact .running _
  | succ f ih =>
    intro first ctx ub
    obtain ⟨f', rfl⟩ : ∃ g, f' = g + 1 := ⟨f' - 1, by omega⟩
    rw [currentLoop_hop, currentLoop_hop]
    refine .bind (.refl _) fun s => ?_
    cases s with
    | fin c => exact .refl _
    | tail c => exact h.upLower c
    | more c rest => exact .bind (h.upLower c) fun c => ih f' (by omega) _ _ _

theorem handleCached_le {a b : Nb} (h : a.Le b) (i : Nat) (f f' : Nat) (hf : f ≤ f') : ∀ ctx,
    LeR (handleCached i a f ctx) (handleCached i b f' ctx) := by
  induction f generalizing f' with
  | zero => intro ctx; exact .running _
  | succ f ih =>
    intro ctx
    obtain ⟨f', rfl⟩ : ∃ g, f' = g + 1 := ⟨f' - 1, by omega⟩
    rw [handleCached_hop, handleCached_hop]
    refine .bind (.refl _) fun s => ?_
    cases s with
    | fin c => exact .refl _
    | up c => exact .bind (h.upLower c) fun c => ih f' (by omega) _

theorem onLower_le {a b : Nb} (h : a.Le b) (f f' i : Nat) (hf : f ≤ f') (p : Proc) (ctx : Ctx) :
    LeR (onLower f i p a ctx) (onLower f' i p b ctx) := by
  cases hk : p.kind.isFrame with
  | false =>
    rw [onLower_hop _ _ _ _ _ hk, onLower_hop _ _ _ _ _ hk]
    exact .bind (.refl _) h.dispatch
  | true =>
    obtain ⟨en, k⟩ := p
    cases k <;> simp only [Kind.isFrame, Bool.false_eq_true] at hk
    case frame cache =>
      simp only [onLower, frameLower]
      refine .bind (.refl _) fun r => .ite (h.upLower _) ?_
      cases ctx.buf with
      | none => exact .refl _
      | some ub =>
        refine .ite (.bind ?_ fun c => handleCached_le h i f f' hf c) (h.upLower _)
        simp only [handleCurrent]
        exact .bind (.refl _) fun c => .ite (.refl _) (currentLoop_le h i f f' hf _ _ _)

theorem call_le (f : Nat) : ∀ f' dir pos ctx, f ≤ f' → LeR (call f dir pos ctx) (call f' dir pos ctx) := by
  induction f with
  | zero => intro f' dir pos ctx _; exact .running _
  | succ f ih =>
    intro f' dir pos ctx hf
    obtain ⟨f', rfl⟩ : ∃ g, f' = g + 1 := ⟨f' - 1, by omega⟩
    simp only [call]
    refine .bind (.refl _) fun w => .ite (.refl _) (.ite (.refl _) ?_)
    have hnb : Nb.Le { upLower := call f .up (pos - 1), downUpper := call f .down (pos + 1), upUpper := call f .down (pos - 1) }
        { upLower := call f' .up (pos - 1), downUpper := call f' .down (pos + 1), upUpper := call f' .down (pos - 1) } :=
      ⟨fun c => ih f' _ _ c (by omega), fun c => ih f' _ _ c (by omega), fun c => ih f' _ _ c (by omega)⟩
    cases dir with
    | down => exact onUpper_le hnb _ _ _
    | up => exact onLower_le hnb f f' _ (by omega) _ _

/-- A call that has come to an end has the same result with more fuel. -/
theorem call_mono {f f' : Nat} (hf : f ≤ f') {dir : Dir} {pos : Nat} {ctx : Ctx} {w : World} (h : (call f dir pos ctx w).1 ≠ .running) :
    call f' dir pos ctx w = call f dir pos ctx w := by
  rcases call_le f f' dir pos ctx hf w with h' | h'
  · exact absurd h' h
  · exact h'.symm

theorem send_le {f f' : Nat} (hf : f ≤ f') (conn : Option ConnId) (v : Val) (s : Int) : LeR (send f conn v s) (send f' conn v s) :=
  .bind (call_le f f' _ _ _ hf) fun _ => .refl _

theorem receive_le {f f' : Nat} (hf : f ≤ f') (c : ConnId) (bs : List Byte) : LeR (receive f c bs) (receive f' c bs) :=
  .bind (.refl _) fun w => .bind (.refl _) fun ub => .bind (.refl _) fun r => .ite (.refl _) (.bind (call_le f f' _ _ _ hf) fun _ => .refl _)

theorem receiveRef_le {f f' : Nat} (hf : f ≤ f') (c : ConnId) (v : Val) : LeR (receiveRef f c v) (receiveRef f' c v) :=
  .bind (.refl _) fun w => .ite (.refl _) (.bind (call_le f f' _ _ _ hf) fun _ => .refl _)

theorem sendControl_le {f f' : Nat} (hf : f ≤ f') (i : Nat) (c : ConnId) (tag : Byte) : LeR (sendControl f i c tag) (sendControl f' i c tag) :=
  .bind (.refl _) fun w => .bind (.refl _) fun ub => .bind (.refl _) fun r => .bind (call_le f f' _ _ _ hf) fun _ => .refl _

/-- Never returns, whatever the depth of calls. -/
def Endless (dir : Dir) (pos : Nat) (ctx : Ctx) (w : World) : Prop := ∀ fuel, (call fuel dir pos ctx w).1 = .running

/-- A call that is running for arbitrarily large fuel never returns. -/
theorem Endless.of {dir : Dir} {pos : Nat} {ctx : Ctx} {w : World} (h : ∀ n, ∃ f, n ≤ f ∧ (call f dir pos ctx w).1 = .running) :
    Endless dir pos ctx w := by
  intro f
  obtain ⟨f', h1, h2⟩ := h f
  cases hr : (call f dir pos ctx w).1 with
  | running => rfl
  | ok a => rw [call_mono h1 (by rw [hr]; simp), hr] at h2; cases h2
  | panic => rw [call_mono h1 (by rw [hr]; simp), hr] at h2; cases h2

/-! ## C35: between an Echo and a Loopback -/

/-- What is between an Echo at `e` and a Loopback below. -/
structure Swing (e m : Nat) (w : World) : Prop where
  n : e + 1 + m < w.n
  echo : w.procs e = ⟨true, .echo⟩
  loop : (w.procs (e + 1 + m)).kind = .loopback
  mirror : ∀ j, e < j → j < e + 1 + m → Mirror (w.procs j)

theorem Mirror.sent {p : Proc} (h : Mirror p) (n : Nat) : p.sent n = p := Proc.sent_other h.2.2 n

theorem mirrors_down (m : Nat) : ∀ (a fuel : Nat) (ctx : Ctx) (w : World) (s : St) (d : Deque), a + m ≤ w.n →
    (∀ j, a ≤ j → j < a + m → Mirror (w.procs j)) → OnBytes ctx w → ctx.buf = some s → Buf s d →
    (wrap (seg w a m) (sessionOf ctx) d.content).length ≤ d.head + d.content.length →
    ∃ s' d' w', (Moved [] w w' ∧ ∀ j, w'.procs j = w.procs j) ∧ Buf s' d' ∧ d'.content = wrap (seg w a m) (sessionOf ctx) d.content ∧
      d'.head + d'.content.length = d.head + d.content.length ∧
      call (fuel + m) .down (a + 1) ctx w = call fuel .down (a + m + 1) { ctx with buf := some s' } w' := by
  induction m with
  | zero =>
    intro a fuel ctx w s d _ _ _ hbuf hs hh
    refine ⟨s, d, w, ⟨.refl w, fun _ => rfl⟩, hs, rfl, rfl, ?_⟩
    rw [show ({ ctx with buf := some s } : Ctx) = ctx by rw [← hbuf]]
    rfl
  | succ m ih =>
    intro a fuel ctx w s d hn hpass hb hbuf hs hh
    rw [seg_succ, wrap] at hh
    have hge := wrap_ge (seg w (a + 1) m) (sessionOf ctx) (hdr (w.procs a) (sessionOf ctx) d.content ++ d.content)
    have hlen : (hdr (w.procs a) (sessionOf ctx) d.content ++ d.content).length =
      (hdr (w.procs a) (sessionOf ctx) d.content).length + d.content.length := List.length_append
    have hma := hpass a (by omega) (by omega)
    obtain ⟨s1, d1, w1, ⟨m1, t1⟩, b1, e1, r1, down1⟩ := passes_down hma.passes rfl hb hbuf hs (by omega)
    have hprocs : ∀ j, w1.procs j = w.procs j := by
      intro j
      by_cases e : j = a
      · subst e; rw [t1, hma.sent]
      · exact down_keeps_others down1 j e
    obtain ⟨s', d', w', ⟨m2, k2⟩, g2, e2, e3, c2⟩ := ih (a + 1) fuel { ctx with buf := some s1 } w1 s1 d1 (by rw [m1.n]; omega)
      (fun j h1 h2 => by rw [hprocs]; exact hpass j (by omega) (by omega)) (m1.onBytes hb) rfl b1
      (by rw [wrap_same m1.same, e1]; exact Nat.le_trans hh (by omega))
    rw [wrap_same m1.same, e1] at e2
    refine ⟨s', d', w', ⟨by simpa using m1.trans m2, fun j => (k2 j).trans (hprocs j)⟩, g2, ?_, ?_, ?_⟩
    · rw [seg_succ, wrap]; exact e2
    · rw [e1, hlen] at e3; omega
    · rw [← Nat.add_assoc, call_down (by omega)]
      refine (down1 _).trans ?_
      have h3 : a + 1 + m + 1 = a + (m + 1) + 1 := by omega
      rw [← h3]
      exact c2

/-- One swing: down to the Loopback and up again to the Echo. -/
theorem swing {e m : Nat} {w : World} (h : Swing e m w) (ctx : Ctx) (b : List Byte) (hby : OnBytes ctx w) (hcar : Carries ctx b)
    (hroom : (wrap (seg w (e + 1) m) (sessionOf ctx) b).length ≤ headRoom ctx + b.length) (fuel : Nat) :
    ((∃ j, e < j ∧ j < e + 1 + m ∧ Balances (w.procs j)) ∧ ∃ ctx' w', call (fuel + 1 + m + 1 + m) .down (e + 2) ctx w = (.ok ctx', w')) ∨
    ((∀ j, e < j → j < e + 1 + m → ¬ Balances (w.procs j)) ∧ ∃ ctx' w', Moved [] w w' ∧ (∀ j, w'.procs j = w.procs j) ∧ OnBytes ctx' w' ∧
      Carries ctx' b ∧ headRoom ctx' = headRoom ctx ∧ call (fuel + 1 + m + 1 + m) .down (e + 2) ctx w = call fuel .down (e + 2) ctx' w') := by
  obtain ⟨ub, d, hbuf, hs, hd⟩ := hcar.buf
  have hn := h.n
  have hhr : headRoom ctx = d.head := by simp only [headRoom, hbuf, hs.headW]
  obtain ⟨s', d', w', ⟨m1, hpr⟩, g1, e1, e2, r1⟩ := mirrors_down m (e + 1) (fuel + 1 + m + 1) ctx w ub d (by omega)
    (fun j h1 h2 => h.mirror j (by omega) (by omega)) hby hbuf hs (by rw [hd]; omega)
  rw [hd] at e1 e2
  have hn' := m1.n
  have hturn : call (fuel + 1 + m + 1) .down (e + 1 + m + 1) { ctx with buf := some s' } w' =
      call (fuel + 1 + m) .up (e + 1 + m) { ctx with buf := some s' } w' := by
    rw [call_down (by omega)]
    have : (w'.procs (e + 1 + m)).kind = .loopback := by rw [hpr]; exact h.loop
    simp only [onUpper, this]
    rfl
  have hseg : ∀ x s, wrap (seg w' (e + 1) m) s x = wrap (seg w (e + 1) m) s x := fun x s => wrap_same m1.same _ _ s x
  have hby' : OnBytes ({ ctx with buf := some s' } : Ctx) w' := m1.onBytes hby
  have heq : wrap (seg w (e + 1) m) (sessionOf ctx) b = wrap (seg w' (e + 1) m) (sessionOf ctx) b := (hseg _ _).symm
  rcases mirrors_up (w := w') (a := e + 1) m (fuel + 1) { ctx with buf := some s' } (wrap (seg w (e + 1) m) (sessionOf ctx) b) (by omega)
    (fun j j1 j2 => by rw [hpr]; exact h.mirror j (by omega) (by omega)) hby' ⟨s', rfl, g1.1, by rw [g1.data, e1]⟩ with
    ⟨ctx2, w2, o, _, _, k3, k4⟩ | ⟨ctx2, b2, k1, k2, k3, k4, k5, k6, k7⟩
  · left
    refine ⟨?_, ctx2, w2, r1.trans (hturn.trans k3)⟩
    by_cases hb : ∃ j, e < j ∧ j < e + 1 + m ∧ Balances (w.procs j)
    · exact hb
    · exact absurd heq (k4 (fun j j1 j2 j3 => hb ⟨j, by omega, by omega, by rw [← hpr]; exact j3⟩) _ _)
  · right
    refine ⟨fun j j1 j2 j3 => k6 j (by omega) (by omega) (by rw [hpr]; exact j3) _ _ heq, ctx2, w', m1, hpr, ?_, ?_, ?_, ?_⟩
    · obtain ⟨c, c1, c2⟩ := hby'
      exact ⟨c, k2.trans c1, c2⟩
    · rw [(k7 _ _ heq).1]; exact k1
    · rw [← (k7 _ _ heq).1] at k3
      have : headRoom ({ ctx with buf := some s' } : Ctx) = d'.head := by simp only [headRoom, g1.headW]
      rw [this] at k3
      rw [e1] at e2
      omega
    · refine r1.trans (hturn.trans (k5.trans ?_))
      rw [call_up (by omega), hpr, h.echo]
      rfl

/-- C35, exactly, for a message below an Echo with SessionResolvers, Heartbeats, LoadBalancers, disabled StatCounters and
transparent processors down to a Loopback, and with room for their headers: it goes back and forth for ever iff no
LoadBalancer on the way is enabled. -/
theorem c35_swing_exact (w : World) (e m : Nat) (h : Swing e m w) (ctx : Ctx) (b : List Byte) (hby : OnBytes ctx w) (hcar : Carries ctx b)
    (hroom : (wrap (seg w (e + 1) m) (sessionOf ctx) b).length ≤ headRoom ctx + b.length) :
    Endless .down (e + 2) ctx w ↔ ∀ j, e < j → j < e + 1 + m → ¬ Balances (w.procs j) := by
  constructor
  · intro hend
    rcases swing h ctx b hby hcar hroom 0 with ⟨_, ctx', w', h2⟩ | ⟨h1, _⟩
    · have := hend (0 + 1 + m + 1 + m)
      rw [h2] at this
      cases this
    · exact h1
  · intro hno
    refine Endless.of fun n => ⟨n * (1 + m + 1 + m), Nat.le_mul_of_pos_right _ (by omega), ?_⟩
    induction n generalizing ctx w with
    | zero => rw [Nat.zero_mul]; rfl
    | succ n ih =>
      rw [show (n + 1) * (1 + m + 1 + m) = n * (1 + m + 1 + m) + 1 + m + 1 + m by rw [Nat.succ_mul]; omega]
      rcases swing h ctx b hby hcar hroom (n * (1 + m + 1 + m)) with ⟨⟨j, j1, j2, j3⟩, _⟩ | ⟨_, ctx', w', h2, h3, h4, h5, h6, h7⟩
      · exact absurd j3 (hno j j1 j2)
      · rw [h7]
        have hn := h2.n
        have hn0 := h.n
        have hseg := wrap_len (seg w' (e + 1) m) (sessionOf ctx') (sessionOf ctx) b b
        rw [wrap_same h2.same, wrap_same h2.same] at hseg
        refine ih w' ⟨by omega, by rw [h3]; exact h.echo, by rw [h3]; exact h.loop, fun j j1 j2 => by rw [h3]; exact h.mirror j j1 j2⟩ ctx' h4 h5
          (by rw [wrap_same h2.same, h6]; omega) (fun j j1 j2 => by rw [h3]; exact hno j j1 j2)

theorem running_bind {m : GoM World α} {f : α → GoM World Unit} {w : World} (hf : ∀ a w, (f a w).1 ≠ .running) :
    ((m >>= f) w).1 = .running ↔ (m w).1 = .running := by
  rw [bind_apply]
  rcases m w with ⟨r, w1⟩
  cases r with
  | ok a => exact ⟨fun h => absurd h (hf a w1), fun h => by cases h⟩
  | running => exact ⟨fun _ => rfl, fun _ => rfl⟩
  | panic =>
    constructor
    · intro h; cases h
    · intro h; cases h

/-- C35, exactly, for sending on such a stack: an enabled codec that can encode the message, below it an Echo, SessionResolvers,
Heartbeats, LoadBalancers, disabled StatCounters, transparent processors and a Loopback. -/
theorem c35_send_swing_exact (w : World) (hbuilt : Built w) (k m : Nat) (h : Swing (k + 1) m w) (hquiet : ∀ j, j < k → Quiet (w.procs j))
    (hen : (w.procs k).enable = true) (v : Val) (b : List Byte) (hcode : CodedBy (w.mtu - w.overhead).toNat (w.procs k).kind v b)
    (hb : b ≠ []) (hfit : w.overhead + b.length ≤ w.mtu) (s : Int) (c : ConnId) (hbytes : (w.conns c).useRef = false) :
    (∀ fuel, (send fuel (some c) v s w).1 = .running) ↔ ∀ j, k + 1 < j → j < k + 1 + 1 + m → ¬ Balances (w.procs j) := by
  have hn := h.n
  let ctx0 : Ctx := ({ Ctx.new with conn := some c, msg := v } : Ctx).setOption "session" (.int s)
  have hby : OnBytes ctx0 w := ⟨c, rfl, hbytes⟩
  have henc : (w.procs k) = ⟨true, (w.procs k).kind⟩ := by rw [← hen]
  have hfirst : ∀ fuel, ∃ ub, Good ub ∧ data ub = b ∧ headWritableLength ub = w.overhead ∧
      call (fuel + 1 + 1 + k) .down 1 ctx0 w = call fuel .down (k + 1 + 2) { ctx0 with buf := some ub } w := by
    intro fuel
    have h1 := quiet_segment_down k 0 (fuel + 1 + 1) ctx0 w (by omega) (fun j _ h => hquiet j (by omega)) hby
    rw [Nat.zero_add, Nat.zero_add, call_down (by omega), henc] at h1
    obtain ⟨ub, g1, g2, g3, g4⟩ := hcode.down k (nbAt (fuel + 1) (k + 1)) ctx0 rfl hb hbuilt.ov hfit
    refine ⟨ub, g1, g2, g3, h1.trans (g4.trans ?_)⟩
    show call (fuel + 1) .down (k + 1 + 1) { ctx0 with buf := some ub } w = _
    rw [call_down (by omega), h.echo]
    rfl
  have hroom := hbuilt.room_le (a := k + 1 + 1) (m := m) (by omega)
  have hwl := wrap_length (seg w (k + 1 + 1) m) s b
  have hexact : ∀ ub, Good ub → data ub = b → headWritableLength ub = w.overhead →
      (Endless .down (k + 1 + 2) { ctx0 with buf := some ub } w ↔ ∀ j, k + 1 < j → j < k + 1 + 1 + m → ¬ Balances (w.procs j)) :=
    fun ub g1 g2 g3 => c35_swing_exact w (k + 1) m h { ctx0 with buf := some ub } b ⟨c, rfl, hbytes⟩ ⟨ub, rfl, g1, g2⟩ (by
      have : headRoom ({ ctx0 with buf := some ub } : Ctx) = w.overhead := by simp only [headRoom, g3]
      rw [this]
      have : sessionOf ({ ctx0 with buf := some ub } : Ctx) = s := rfl
      rw [this]; omega)
  have hsend : (∀ fuel, (send fuel (some c) v s w).1 = .running) ↔ Endless .down 1 ctx0 w := by
    constructor
    · intro hs fuel
      exact (running_bind (fun _ _ h => by cases h)).mp (hs fuel)
    · intro hs fuel
      exact (running_bind (fun _ _ h => by cases h)).mpr (hs fuel)
  rw [hsend]
  constructor
  · intro hend
    by_cases hx : ∀ j, k + 1 < j → j < k + 1 + 1 + m → ¬ Balances (w.procs j)
    · exact hx
    · have hnot : ∃ f, ∃ f0, f = f0 + 1 + 1 + k ∧ (call f .down 1 ctx0 w).1 ≠ .running := by
        refine ⟨0 + 1 + m + 1 + m + 1 + 1 + k, 0 + 1 + m + 1 + m, rfl, ?_⟩
        obtain ⟨ub, g1, g2, g3, g4⟩ := hfirst (0 + 1 + m + 1 + m)
        rw [g4]
        rcases swing h { ctx0 with buf := some ub } b ⟨c, rfl, hbytes⟩ ⟨ub, rfl, g1, g2⟩ (by
          have : headRoom ({ ctx0 with buf := some ub } : Ctx) = w.overhead := by simp only [headRoom, g3]
          rw [this]
          have : sessionOf ({ ctx0 with buf := some ub } : Ctx) = s := rfl
          rw [this]; omega) 0 with ⟨_, ctx', w', h2⟩ | ⟨h1, _⟩
        · rw [h2]; intro hh; cases hh
        · exact absurd h1 hx
      obtain ⟨f, _, _, hf⟩ := hnot
      exact absurd (hend f) hf
  · intro hx
    refine Endless.of fun n => ⟨n + 1 + 1 + k, by omega, ?_⟩
    obtain ⟨ub, g1, g2, g3, g4⟩ := hfirst n
    rw [g4]
    exact (hexact ub g1 g2 g3).mpr hx n

/-- A codec and an Echo above a SessionResolver, a Heartbeat and a Loopback; with `bal`, a LoadBalancer in between. -/
def swingDemo (bal : Bool) : World :=
  { quiet with n := 6, overhead := 6, procs := fun
      | 0 => ⟨true, .bytesCodec⟩
      | 1 => ⟨true, .echo⟩
      | 2 => ⟨true, .session⟩
      | 3 => ⟨bal, .loadBalancer⟩
      | 4 => ⟨true, .heartbeat⟩
      | _ => ⟨true, .loopback⟩ }

theorem swingDemo_swing (bal : Bool) : Swing 1 3 (swingDemo bal) := by
  refine ⟨(by decide : 1 + 1 + 3 < 6), rfl, rfl, fun j h1 h2 => ?_⟩
  have : j = 2 ∨ j = 3 ∨ j = 4 := by omega
  rcases this with rfl | rfl | rfl <;> cases bal <;> simp [Mirror, swingDemo, Opens, Frames]

/-- Sending one byte never returns ... -/
example : ∀ fuel, (send fuel (some 0) (.bytes [9]) 3 (swingDemo false)).1 = .running :=
  (c35_send_swing_exact (swingDemo false) rfl 0 3 (swingDemo_swing false) (fun j h => absurd h (by omega)) rfl (.bytes [9]) [9] (.bytes [9])
    (by decide) (by decide) 3 0 rfl).mpr fun j h1 h2 => by
      have : j = 2 ∨ j = 3 ∨ j = 4 := by omega
      rcases this with rfl | rfl | rfl <;> simp [Balances, swingDemo]

/-- ... unless the LoadBalancer is enabled. -/
example : ¬ ∀ fuel, (send fuel (some 0) (.bytes [9]) 3 (swingDemo true)).1 = .running := fun h =>
  (c35_send_swing_exact (swingDemo true) rfl 0 3 (swingDemo_swing true) (fun j h => absurd h (by omega)) rfl (.bytes [9]) [9] (.bytes [9])
    (by decide) (by decide) 3 0 rfl).mp h 3 (by omega) (by omega) ⟨rfl, rfl⟩

end Verif.Stack
