import Verif.Stack.Chain

/-!
# C21: from an endpoint of one stack to an endpoint of another
-/

namespace Verif.Stack
open GoM UBuf

/-- A processor that lets the message above the codec pass untouched, in both directions. -/
def Quiet (p : Proc) : Prop :=
  match p.kind with
  | .flow => True
  | .base | .loopback | .stat _ _ | .heartbeat | .loadBalancer => False
  | _ => p.enable = false

theorem SameProc.quiet {p q : Proc} (h : SameProc p q) (hp : Quiet p) : Quiet q := by
  obtain ⟨en, k⟩ := p
  obtain ⟨en', k'⟩ := q
  obtain ⟨h1, h2⟩ := h
  simp only at h1
  subst h1
  cases k <;> cases k' <;> simp_all [Kind.Same, Quiet]

theorem Quiet.down {p : Proc} (h : Quiet p) (i : Nat) {ctx : Ctx} {w : World} (hb : OnBytes ctx w) :
    Down (fun nb => onUpper i p nb ctx w) ctx w := by
  obtain ⟨en, k⟩ := p
  obtain ⟨c, hc, hr⟩ := hb
  cases k <;> simp only [Quiet] at h <;> first | exact h.elim | (subst h; exact fun nb => rfl) | exact fun nb => rfl | skip
  subst h
  exact fun nb => frameUpper_disabled hc hr

theorem Quiet.up {p : Proc} (h : Quiet p) (fuel i : Nat) {ctx : Ctx} {w : World} (hb : OnBytes ctx w) (hbuf : ctx.buf ≠ none) :
    Up (fun nb => onLower fuel i p nb ctx w) ctx w := by
  obtain ⟨en, k⟩ := p
  cases k <;> simp only [Quiet] at h <;> first | exact h.elim | (subst h; exact fun nb => rfl) | exact fun nb => rfl | skip
  subst h
  exact (c27_disabled_transparent_partial i fuel _ ctx w (.inr ⟨⟨_, rfl⟩, hb, hbuf⟩)).2

theorem quiet_segment_down (k : Nat) : ∀ (a fuel : Nat) (ctx : Ctx) (w : World), a + k ≤ w.n →
    (∀ j, a ≤ j → j < a + k → Quiet (w.procs j)) → OnBytes ctx w →
    call (fuel + k) .down (a + 1) ctx w = call fuel .down (a + k + 1) ctx w := by
  induction k with
  | zero => intros; rfl
  | succ k ih =>
    intro a fuel ctx w hn hq hb
    rw [← Nat.add_assoc, call_down (by omega)]
    refine ((hq a (by omega) (by omega)).down a hb _).trans ?_
    rw [show a + (k + 1) + 1 = a + 1 + k + 1 by omega]
    exact ih (a + 1) fuel ctx w (by omega) (fun j h1 h2 => hq j (by omega) (by omega)) hb

theorem quiet_segment_up (k : Nat) : ∀ (fuel : Nat) (ctx : Ctx) (w : World), k ≤ w.n →
    (∀ j, j < k → Quiet (w.procs j)) → OnBytes ctx w → ctx.buf ≠ none → k < fuel →
    call fuel .up k ctx w = upperDeckLower ctx w := by
  induction k with
  | zero =>
    intro fuel ctx w _ _ _ _ hf
    obtain ⟨f, rfl⟩ : ∃ f, fuel = f + 1 := ⟨fuel - 1, by omega⟩
    exact call_top
  | succ k ih =>
    intro fuel ctx w hn hq hb hbuf hf
    obtain ⟨f, rfl⟩ : ∃ f, fuel = f + 1 := ⟨fuel - 1, by omega⟩
    rw [call_up (by omega)]
    refine ((hq k (by omega)).up f k hb hbuf _).trans ?_
    exact ih f ctx w (by omega) (fun j h => hq j (by omega)) hb hbuf (by omega)

/-- Storing an empty cache after the layers above were called. -/
theorem Moved.around {w w2 : World} {i : Nat} {c0 c c' : Option St} {o : List Obs} (hk : (w.procs i).kind = .frame c0)
    (h : Moved o (w.setKind i (.frame c)) w2) (hi : Idle i (w2.setKind i (.frame c'))) :
    Moved o w (w2.setKind i (.frame c')) := by
  have hne : ∀ j, j ≠ i → (w.setKind i (.frame c)).procs j = w.procs j ∧ (w2.setKind i (.frame c')).procs j = w2.procs j := by
    intro j hj; simp [World.setKind, hj]
  refine ⟨h.mtu, h.overhead, h.name, h.n, h.served, h.write, h.conns, h.trace, fun j => ?_, fun j hj => ?_⟩
  · have h1 := h.same j
    by_cases e : j = i
    · subst e
      rw [setKind_self] at h1 ⊢
      exact ⟨h1.1, by rw [hk]; trivial⟩
    · rw [(hne j e).2, ← (hne j e).1]; exact h1
  · by_cases e : j = i
    · subst e; exact hi
    · obtain ⟨cc, h1, h2⟩ := hj
      obtain ⟨cc', h3, h4⟩ := h.idle j ⟨cc, by rw [(hne j e).1]; exact h1, h2⟩
      exact ⟨cc', by rw [(hne j e).2]; exact h3, h4⟩

theorem feeds_one {up : Handler} {i : Nat} {p : List Byte} {ctx : Ctx} {w w' : World} {r : Res Ctx}
    (h : Feeds up i (.ok ()) [p] ctx w r w') :
    ∃ s c, Good s ∧ data s = p ∧
      (∀ ctx1 w1, up { ctx with buf := some s } (w.setKind i (.frame c)) = (.ok ctx1, w1) →
        ∃ bf c', r = .ok { ctx1 with buf := bf } ∧ w' = w1.setKind i (.frame c')) := by
  cases h with
  | @step _ _ _ _ s c ctx1 w1 _ _ h1 h2 h3 h4 =>
    refine ⟨s, c, h1, h2, fun ctx1' w1' h => ?_⟩
    rw [h3] at h
    cases h
    cases h4 with
    | done _ _ b c' _ => exact ⟨_, c', rfl, rfl⟩
    | panic _ _ _ he => cases he
    | running _ _ _ he => cases he
  | @stepPanic _ _ _ _ s c w1 h1 h2 h3 => exact ⟨s, c, h1, h2, fun _ _ h => by rw [h3] at h; cases h⟩
  | @stepRunning _ _ _ _ s c w1 h1 h2 h3 => exact ⟨s, c, h1, h2, fun _ _ h => by rw [h3] at h; cases h⟩

/-- What is needed to receive `v` (encoded as `b`) for session `s` from position `k + 1 + m` upwards. -/
structure Receives (w : World) (k m : Nat) (v : Val) (b : List Byte) (s : Int) (ep : EpId) : Prop where
  n : k + 1 + m ≤ w.n
  quiet : ∀ j, j < k → Quiet (w.procs j)
  codecOn : (w.procs k).enable = true
  codec : CodedBy (w.mtu - w.overhead).toNat (w.procs k).kind v b
  opens : ∀ j, k < j → j < w.n → Opens (w.procs j)
  idle : ∀ j, k < j → j < k + 1 + m → Frames (w.procs j) → Idle j w
  ov : 0 ≤ w.overhead
  fit : w.overhead + b.length ≤ w.mtu
  small : (wrap (seg w (k + 1) m) s b).length < 2 ^ 32
  served : findEndPoint w.served s = some ep

theorem Receives.moved {w w' : World} {k m : Nat} {v : Val} {b : List Byte} {s : Int} {ep : EpId} {o : List Obs}
    (h : Receives w k m v b s ep) (hm : Moved o w w') : Receives w' k m v b s ep := by
  refine ⟨by rw [hm.n]; exact h.n, fun j hj => (hm.same j).quiet (h.quiet j hj), by rw [(hm.same k).1]; exact h.codecOn, ?_,
    fun j h1 h2 => (hm.same j).opens (h.opens j h1 (by rw [← hm.n]; exact h2)),
    fun j h1 h2 h3 => hm.idle j (h.idle j h1 h2 ((hm.same j).frames h3)), by rw [hm.overhead]; exact h.ov,
    by rw [hm.overhead, hm.mtu]; exact h.fit, by rw [wrap_same hm.same]; exact h.small, by rw [hm.served]; exact h.served⟩
  rw [hm.mtu, hm.overhead]
  have h1 := (hm.same k).2
  have h2 := h.codec
  generalize (w.procs k).kind = k1 at h1 h2
  generalize (w'.procs k).kind = k2 at h1
  have : k2 = k1 := by cases h2 <;> cases k2 <;> simp_all [Kind.Same]
  rw [this]
  exact h2

theorem Receives.up {w : World} {k m : Nat} {v : Val} {b : List Byte} {s : Int} {ep : EpId} (h : Receives w k (m + 1) v b s ep) :
    Receives w k m v b s ep := by
  refine ⟨by have := h.n; omega, h.quiet, h.codecOn, h.codec, h.opens, fun j h1 h2 => h.idle j h1 (by omega), h.ov, h.fit, ?_, h.served⟩
  have h1 := h.small
  rw [seg_snoc, wrap_snoc] at h1
  simp only [List.length_append] at h1
  omega

/-- Replacing the cache of the decoder at the border. -/
theorem Receives.setCache {w : World} {k m : Nat} {v : Val} {b : List Byte} {s : Int} {ep : EpId} {c0 : Option St}
    (h : Receives w k m v b s ep) (hk : (w.procs (k + 1 + m)).kind = .frame c0) (c : Option St) :
    Receives (w.setKind (k + 1 + m) (.frame c)) k m v b s ep := by
  have hne : ∀ j, j < k + 1 + m → (w.setKind (k + 1 + m) (.frame c)).procs j = w.procs j := by
    intro j hj; simp only [World.setKind, if_neg (show j ≠ k + 1 + m by omega)]
  have hsame : ∀ j, SameProc (w.procs j) ((w.setKind (k + 1 + m) (.frame c)).procs j) := by
    intro j
    by_cases e : j = k + 1 + m
    · subst e; rw [setKind_self]; exact ⟨rfl, by rw [hk]; trivial⟩
    · simp only [World.setKind, if_neg e]; exact .refl _
  refine ⟨h.n, fun j hj => (hsame j).quiet (h.quiet j hj), by rw [(hsame k).1]; exact h.codecOn,
    by rw [hne k (by omega)]; exact h.codec, fun j h1 h2 => (hsame j).opens (h.opens j h1 h2), fun j h1 h2 h3 => ?_, h.ov, h.fit,
    by rw [wrap_same hsame]; exact h.small, h.served⟩
  obtain ⟨cc, h4, h5⟩ := h.idle j h1 h2 ((hsame j).frames h3)
  exact ⟨cc, by rw [hne j h2]; exact h4, h5⟩

theorem frames_hdr {p : Proc} (h : Frames p) (s : Int) (b : List Byte) : hdr p s b ++ b = stream [b] := by
  obtain ⟨⟨c, h1⟩, h2⟩ := h
  simp [hdr, h1, h2, stream, frameOf]

theorem coded_ne {free : Nat} {k : Kind} {v : Val} {b : List Byte} (hb : b ≠ []) (_ : CodedBy free k v b) (ps : List Proc) (s : Int) :
    wrap ps s b ≠ [] := wrap_ne ps s hb

/-- The processors between the codec and position `hi` have handed `n` messages up. -/
def Got (n k hi : Nat) (w w' : World) : Prop := ∀ j, k < j → j < hi → ¬ Frames (w.procs j) → w'.procs j = (w.procs j).got n

/-- The processors below the codec have handed `n` messages down. -/
def Sent (n k : Nat) (w w' : World) : Prop := ∀ j, k < j → j < w.n → w'.procs j = (w.procs j).sent n

theorem Got.trans {a b k hi : Nat} {w w1 w2 : World} (h1 : Got a k hi w w1) (h2 : Got b k hi w1 w2) (hs : ∀ j, SameProc (w.procs j) (w1.procs j)) :
    Got (a + b) k hi w w2 := by
  intro j j1 j2 j3
  rw [h2 j j1 j2 fun h => j3 ((hs j).frames h), h1 j j1 j2 j3, Proc.got_got]

theorem Got.zero {k hi : Nat} (w : World) : Got 0 k hi w w := fun _ _ _ _ => (Proc.got_zero _).symm
theorem Sent.zero {k : Nat} (w : World) : Sent 0 k w w := fun _ _ _ => (Proc.sent_zero _).symm

theorem Sent.trans {a b k : Nat} {w w1 w2 : World} (h1 : Sent a k w w1) (h2 : Sent b k w1 w2) (hn : w1.n = w.n) : Sent (a + b) k w w2 := by
  intro j j1 j2
  rw [h2 j j1 (by rw [hn]; exact j2), h1 j j1 j2, Proc.sent_sent]

theorem segment_up (k : Nat) (v : Val) (b : List Byte) (s : Int) (ep : EpId) (hb : b ≠ []) (m : Nat) :
    ∀ (fuel : Nat) (ctx : Ctx) (w : World), Receives w k m v b s ep → OnBytes ctx w →
    Carries ctx (wrap (seg w (k + 1) m) s b) → 0 ≤ s → s < 2 ^ 32 →
    ((∃ j, k < j ∧ j < k + 1 + m ∧ Resolves (w.procs j)) ∨ sessionOf ctx = s) → k + m + 2 < fuel →
    ∃ ctx' w', call fuel .up (k + 1 + m) ctx w = (.ok ctx', w') ∧ Moved [.rx ep ctx.conn v] w w' ∧
      ctx'.conn = ctx.conn ∧ sessionOf ctx' = s ∧ (∀ j, k + 1 + m ≤ j → w'.procs j = w.procs j) ∧ Got 1 k (k + 1 + m) w w' := by
  induction m with
  | zero =>
    intro fuel ctx w hrx hby hcar _ _ hsess hf
    obtain ⟨f, rfl⟩ : ∃ f, fuel = f + 1 := ⟨fuel - 1, by omega⟩
    have hn := hrx.n
    have hses : sessionOf ctx = s := by
      rcases hsess with ⟨j, h1, h2, _⟩ | h
      · omega
      · exact h
    have hp : w.procs k = ⟨true, (w.procs k).kind⟩ := by rw [← hrx.codecOn]
    rw [Nat.add_zero, call_up (by omega), hp]
    obtain ⟨s', h1⟩ := hrx.codec.up k f (nbAt f (k + 1)) ctx hcar hb hrx.ov hrx.fit
    rw [h1]
    have h2 : call f .up k { ctx with buf := some s', msg := v } w = upperDeckLower { ctx with buf := some s', msg := v } w :=
      quiet_segment_up k f _ w (by omega) hrx.quiet hby (by simp) (by omega)
    refine ⟨_, _, h2.trans (upperDeckLower_rx hrx.codec.ne_nil (ep := ep) ?_), .obs w _, rfl, hses, fun _ _ => rfl, fun j h1 h2 => by omega⟩
    rw [sessionOf_eq]
    show findEndPoint w.served (sessionOf ctx) = some ep
    rw [hses]; exact hrx.served
  | succ m ih =>
    intro fuel ctx w hrx hby hcar h0 h32 hsess hf
    obtain ⟨f, rfl⟩ : ∃ f, fuel = f + 1 := ⟨fuel - 1, by omega⟩
    have hn := hrx.n
    have hpi : w.procs (k + 1 + m) = w.procs (k + 1 + m) := rfl
    have hopen := hrx.opens (k + 1 + m) (by omega) (by omega)
    rw [seg_snoc, wrap_snoc] at hcar
    rw [← Nat.add_assoc, call_up (by omega)]
    by_cases hfr : Frames (w.procs (k + 1 + m))
    · rw [frames_hdr hfr] at hcar
      have hp : w.procs (k + 1 + m) = ⟨true, (w.procs (k + 1 + m)).kind⟩ := by rw [← hfr.2]
      obtain ⟨c0, hk0⟩ := hfr.1
      have how : OneWay (k + 1 + m) w := by
        refine ⟨⟨c0, hk0⟩, fun j h1 h2 e => ?_⟩
        have := hrx.opens j (by omega) h2
        simp [Opens, e] at this
      have hsm := hrx.small
      rw [seg_snoc, wrap_snoc, frames_hdr hfr] at hsm
      obtain ⟨r, w', h1, h2, h3⟩ := c22_coalesced (k + 1 + m) f (nbAt f (k + 1 + m + 1)) (OneWay (k + 1 + m))
        (by exact calm_above (k + 1 + m) f) ctx w how [wrap (seg w (k + 1) m) s b] (by simpa using wrap_ne _ s hb) hby hcar hsm
        (hrx.idle _ (by omega) (by omega) hfr) (by simp; omega)
      obtain ⟨ub, c, g1, g2, g3⟩ := feeds_one h2
      have hrx' := hrx.up.setCache hk0 c
      have hsame : ∀ j, SameProc (w.procs j) ((w.setKind (k + 1 + m) (.frame c)).procs j) := by
        intro j
        by_cases e : j = k + 1 + m
        · subst e; rw [setKind_self]; exact ⟨rfl, by rw [hk0]; trivial⟩
        · simp only [World.setKind, if_neg e]; exact .refl _
      obtain ⟨ctx1, w1, a1, a2, a3, a4, a5, a6⟩ := ih f { ctx with buf := some ub } _ hrx' hby
        ⟨ub, rfl, g1, by rw [g2, wrap_same hsame]⟩ h0 h32 (by
          rcases hsess with ⟨j, j1, j2, j3⟩ | h
          · by_cases e : j = k + 1 + m
            · subst e; rw [Resolves, hk0] at j3; exact absurd j3.1 (by simp)
            · exact .inl ⟨j, j1, by omega, (hsame j).resolves j3⟩
          · exact .inr h) (by omega)
      obtain ⟨bf, c', b1, b2⟩ := g3 ctx1 w1 a1
      have hne : ∀ (x : World) (c : Option St) (j : Nat), j ≠ k + 1 + m → (x.setKind (k + 1 + m) (.frame c)).procs j = x.procs j := by
        intro x c j hj; simp [World.setKind, hj]
      refine ⟨{ ctx1 with buf := bf }, w', ?_, ?_, a3, a4, fun j hj => ?_, fun j j1 j2 j3 => ?_⟩
      · rw [hp, h1, b1]
      · subst b2
        exact .around hk0 a2 (h3 _ b1).2
      · subst b2
        rw [hne _ _ _ (by omega), a5 j (by omega), hne _ _ _ (by omega)]
      · subst b2
        have hj : j ≠ k + 1 + m := fun e => j3 (e ▸ hfr)
        rw [hne _ _ _ hj]
        have := a6 j j1 (by omega)
        rw [hne _ _ _ hj] at this
        exact this j3
    · obtain ⟨ctx1, w1, ⟨a1, t1⟩, a2, a3, a4, a5, _, a6⟩ := opens_up hopen hpi hfr hby hcar f
      rw [show onLower f (k + 1 + m) (w.procs (k + 1 + m)) (nbAt f (k + 1 + m + 1)) ctx w = _ from a6 _]
      have hby1 : OnBytes ctx1 w1 := by
        obtain ⟨c, e1, e2⟩ := hby
        exact ⟨c, a3.trans e1, by rw [a1.conns]; exact e2⟩
      obtain ⟨ctx2, w2, b1, b2, b3, b4, b5, b6⟩ := ih f ctx1 w1 (hrx.up.moved a1) hby1 (by rw [wrap_same a1.same]; exact a2) h0 h32 (by
        by_cases hres : Resolves (w.procs (k + 1 + m))
        · exact .inr ((a4 hres).trans (Int.emod_eq_of_lt h0 h32))
        · rcases hsess with ⟨j, j1, j2, j3⟩ | h
          · by_cases e : j = k + 1 + m
            · subst e; exact absurd j3 hres
            · exact .inl ⟨j, j1, by omega, (a1.same j).resolves j3⟩
          · exact .inr ((a5 hres).trans h)) (by omega)
      refine ⟨ctx2, w2, b1, ?_, b3.trans a3, b4, fun j hj => (b5 j (by omega)).trans (up_keeps_others a6 j (by omega)), fun j j1 j2 j3 => ?_⟩
      · rw [a3] at b2
        exact a1.trans b2
      · by_cases e : j = k + 1 + m
        · subst e; exact (b5 _ (Nat.le_refl _)).trans t1
        · rw [b6 j j1 (by omega) fun h => j3 ((a1.same j).frames h), up_keeps_others a6 j e]

/-! ## One read -/

theorem receive_ok {c : ConnId} {bs : List Byte} {w : World} (hb : bs ≠ []) (hfit : (bs.length : Int) ≤ w.mtu) :
    ∃ s, Buf s ⟨w.mtu.toNat, 0, 0, bs⟩ ∧ ∀ fuel, receive fuel c bs w =
      (do let _ ← call fuel .up w.n { Ctx.new with conn := some c, buf := some s }; return ()) w := by
  have hl := List.length_pos_iff.mpr hb
  obtain ⟨s0, h1, h2⟩ := allocBuf_ok w.mtu 0 w (by omega) (by omega) (by omega)
  obtain ⟨s1, r, h3, h4, h5⟩ := h2.readFrom (fun m => ⟨bs.take m, min m bs.length, none⟩) (by
    intro m; simp; omega)
  have ht : (Deque.fresh w.mtu.toNat (0 : Int).toNat).tail = w.mtu.toNat := by simp [Deque.tail, Deque.fresh]
  have hne : ¬ (w.mtu.toNat = 0) := by omega
  simp only [Deque.step, ht, Nat.min_eq_right (show bs.length ≤ w.mtu.toNat by omega),
    List.take_of_length_le (show bs.length ≤ w.mtu.toNat by omega)] at h4 h5
  simp only [show ¬ (w.mtu.toNat = 0) from hne, if_false] at h4 h5
  obtain ⟨r1, r2⟩ := r
  simp only [Out.count.injEq] at h4
  refine ⟨s1, ?_, fun fuel => ?_⟩
  · simpa [Deque.fresh, Deque.push] using h5
  · simp only [receive]
    rw [bind_of_ok (get_apply w), bind_of_ok h1, bind_onBuf h3]
    simp only [h4.1, h4.2]
    rw [if_neg (by simp; omega)]

/-! ## Whole stacks -/

/-- A running stack whose codec is `processors[k]`: only silent processors above it, below it any number of
header processors and transparent ones, in any order; the frame decoders hold no bytes. -/
structure Carrier (w : World) (k : Nat) : Prop where
  pos : k < w.n
  quiet : ∀ j, j < k → Quiet (w.procs j)
  codecOn : (w.procs k).enable = true
  opens : ∀ j, k < j → j < w.n → Opens (w.procs j)
  idle : ∀ j, k < j → j < w.n → Frames (w.procs j) → Idle j w
  built : Built w
  mtu : w.mtu < 2 ^ 32

/-- A message this stack can carry: the codec encodes and decodes it, it fits, and its destination session
can be expressed (a session other than 0 needs a SessionResolver, and 32 bits). -/
structure Message (w : World) (k : Nat) (v : Val) (b : List Byte) (s : Int) : Prop where
  codec : CodedBy (w.mtu - w.overhead).toNat (w.procs k).kind v b
  ne : b ≠ []
  fit : w.overhead + b.length ≤ w.mtu
  lo : 0 ≤ s
  hi : s < 2 ^ 32
  session : (∃ j, k < j ∧ j < w.n ∧ Resolves (w.procs j)) ∨ s = 0

/-- The bytes of a message on the wire. -/
def wire (w : World) (k : Nat) (s : Int) (b : List Byte) : List Byte := wrap (seg w (k + 1) (w.n - (k + 1))) s b

/-- Two stacks built from the same processors. -/
structure Matching (a b : World) : Prop where
  n : b.n = a.n
  mtu : b.mtu = a.mtu
  same : ∀ j, j < a.n → SameProc (a.procs j) (b.procs j)

theorem Built.ov {w : World} (h : Built w) : 0 ≤ w.overhead := by rw [h]; exact room_nonneg _

theorem Carrier.moved {w w' : World} {k : Nat} {o : List Obs} (h : Carrier w k) (hm : Moved o w w') : Carrier w' k := by
  refine ⟨by rw [hm.n]; exact h.pos, fun j hj => (hm.same j).quiet (h.quiet j hj), by rw [(hm.same k).1]; exact h.codecOn,
    fun j h1 h2 => (hm.same j).opens (h.opens j h1 (by rw [← hm.n]; exact h2)),
    fun j h1 h2 h3 => hm.idle j (h.idle j h1 (by rw [← hm.n]; exact h2) ((hm.same j).frames h3)), ?_, by rw [hm.mtu]; exact h.mtu⟩
  rw [Built, hm.overhead, hm.n, room_same hm.same]
  exact h.built

theorem CodedBy.same {free : Nat} {k1 k2 : Kind} {v : Val} {b : List Byte} (h : CodedBy free k1 v b) (hs : k1.Same k2) :
    CodedBy free k2 v b := by
  have : k2 = k1 := by cases h <;> cases k2 <;> simp_all [Kind.Same]
  rw [this]; exact h

theorem Message.moved {w w' : World} {k : Nat} {v : Val} {b : List Byte} {s : Int} {o : List Obs} (h : Message w k v b s)
    (hm : Moved o w w') : Message w' k v b s := by
  refine ⟨?_, h.ne, by rw [hm.overhead, hm.mtu]; exact h.fit, h.lo, h.hi, ?_⟩
  · rw [hm.mtu, hm.overhead]; exact h.codec.same (hm.same k).2
  · rcases h.session with ⟨j, h1, h2, h3⟩ | h
    · exact .inl ⟨j, h1, by rw [hm.n]; exact h2, (hm.same j).resolves h3⟩
    · exact .inr h

theorem wire_moved {w w' : World} {o : List Obs} (hm : Moved o w w') (k : Nat) (s : Int) (b : List Byte) :
    wire w' k s b = wire w k s b := by
  rw [wire, hm.n, wrap_same hm.same]; rfl

theorem wire_fits {w : World} {k : Nat} (h : Carrier w k) {v : Val} {b : List Byte} {s : Int} (hm : Message w k v b s) :
    ((wire w k s b).length : Int) ≤ w.mtu := by
  have h1 := wrap_length (seg w (k + 1) (w.n - (k + 1))) s b
  have h2 := h.built.room_le (a := k + 1) (m := w.n - (k + 1)) (by have := h.pos; omega)
  have h3 := hm.fit
  simp only [wire]
  omega

theorem on_the_wire_shape (w : World) (k : Nat) (hk : k < w.n) (hquiet : ∀ j, j < k → Quiet (w.procs j)) (hon : (w.procs k).enable = true)
    (hopens : ∀ j, k < j → j < w.n → Opens (w.procs j)) (hbuilt : Built w) (v : Val) (b : List Byte) (s : Int)
    (hcodec : CodedBy (w.mtu - w.overhead).toNat (w.procs k).kind v b) (hne : b ≠ []) (hfit : w.overhead + b.length ≤ w.mtu) (c : ConnId) (hbytes : (w.conns c).useRef = false) (hopen : (w.conns c).closed = false)
    (herr : (w.write w.trace c (wire w k s b)).err = none)
    (hlen : (w.write w.trace c (wire w k s b)).n ≤ (wire w k s b).length) (fuel : Nat) (hf : w.n < fuel) :
    ∃ w', send fuel (some c) v s w = (.ok (), w') ∧
      Moved [.wire c (wire w k s b) (w.write w.trace c (wire w k s b))] w w' ∧ Sent 1 k w w' := by
  obtain ⟨f, rfl⟩ : ∃ f, fuel = f + 1 + (w.n - (k + 1)) + 1 + k := ⟨fuel - w.n - 1, by omega⟩
  have hby : OnBytes (({ Ctx.new with conn := some c, msg := v } : Ctx).setOption "session" (.int s)) w := ⟨c, rfl, hbytes⟩
  have h1 := quiet_segment_down k 0 (f + 1 + (w.n - (k + 1)) + 1) _ w (by omega) (fun j _ h => hquiet j (by omega)) hby
  obtain ⟨ub, w1, ⟨m1, _, t1⟩, g1, e1, r1⟩ := head_room_sent w hbuilt k (w.n - (k + 1)) (f + 1) (by omega) v b hon hcodec hne
    hfit (fun j h1 h2 => (hopens j (by omega) (by omega)).passes) _ hby rfl
  have hs : sessionOf (({ Ctx.new with conn := some c, msg := v } : Ctx).setOption "session" (.int s)) = s := rfl
  rw [hs] at e1
  have e1' : data ub = wire w k s b := e1
  have hb1 := Buf.of_good g1
  have hc1 : (view ub).content = wire w k s b := e1'
  obtain ⟨s2, r2⟩ := lowerDeckUpper_ok (w := w1) (ctx := { (({ Ctx.new with conn := some c, msg := v } : Ctx).setOption "session" (.int s)) with buf := some ub })
    (c := c) rfl (by rw [m1.conns]; exact hbytes) (by rw [m1.conns]; exact hopen) rfl hb1
    (by rw [hc1]; exact wrap_ne _ s hne) (by rw [hc1, m1.write, m1.trace, List.append_nil]; exact herr)
    (by rw [hc1, m1.write, m1.trace, List.append_nil]; exact hlen)
  have hn1 : k + (w.n - (k + 1)) + 2 = w1.n + 1 := by rw [m1.n]; omega
  rw [hn1, call_bottom, r2] at r1
  rw [Nat.zero_add, Nat.zero_add, r1] at h1
  refine ⟨w1.wrote c (view ub).content, ?_, ?_, fun j j1 j2 => t1 j (by omega) (by omega)⟩
  · simp only [send]
    rw [bind_of_ok h1]
    rfl
  · have m2 := m1.trans (Moved.obs w1 [.wire c (view ub).content (w1.write w1.trace c (view ub).content)])
    simp only [List.nil_append, hc1, m1.write, m1.trace, List.append_nil] at m2
    simp only [World.wrote, hc1, m1.write, m1.trace, List.append_nil]
    exact m2

theorem on_the_wire_any (w : World) (k : Nat) (hcar : Carrier w k) (v : Val) (b : List Byte) (s : Int)
    (hcodec : CodedBy (w.mtu - w.overhead).toNat (w.procs k).kind v b) (hne : b ≠ []) (hfit : w.overhead + b.length ≤ w.mtu) (c : ConnId) (hbytes : (w.conns c).useRef = false) (hopen : (w.conns c).closed = false)
    (herr : (w.write w.trace c (wire w k s b)).err = none)
    (hlen : (w.write w.trace c (wire w k s b)).n ≤ (wire w k s b).length) (fuel : Nat) (hf : w.n < fuel) :
    ∃ w', send fuel (some c) v s w = (.ok (), w') ∧
      Moved [.wire c (wire w k s b) (w.write w.trace c (wire w k s b))] w w' ∧ Sent 1 k w w' :=
  on_the_wire_shape w k hcar.pos hcar.quiet hcar.codecOn hcar.opens hcar.built v b s hcodec hne hfit c hbytes hopen herr hlen fuel hf

theorem on_the_wire_sent (w : World) (k : Nat) (hcar : Carrier w k) (v : Val) (b : List Byte) (s : Int) (hm : Message w k v b s)
    (c : ConnId) (hbytes : (w.conns c).useRef = false) (hopen : (w.conns c).closed = false)
    (herr : (w.write w.trace c (wire w k s b)).err = none)
    (hlen : (w.write w.trace c (wire w k s b)).n ≤ (wire w k s b).length) (fuel : Nat) (hf : w.n < fuel) :
    ∃ w', send fuel (some c) v s w = (.ok (), w') ∧
      Moved [.wire c (wire w k s b) (w.write w.trace c (wire w k s b))] w w' ∧ Sent 1 k w w' :=
  on_the_wire_any w k hcar v b s hm.codec hm.ne hm.fit c hbytes hopen herr hlen fuel hf

/-- The sending half.  Missing from the full claim: stacks with a second enabled codec below the first
(`c20_second_codec`).  The message goes out in one write that carries the headers of all processors below the
codec, then the encoding. -/
theorem c20_on_the_wire_partial (w : World) (k : Nat) (hcar : Carrier w k) (v : Val) (b : List Byte) (s : Int) (hm : Message w k v b s)
    (c : ConnId) (hbytes : (w.conns c).useRef = false) (hopen : (w.conns c).closed = false)
    (herr : (w.write w.trace c (wire w k s b)).err = none)
    (hlen : (w.write w.trace c (wire w k s b)).n ≤ (wire w k s b).length) (fuel : Nat) (hf : w.n < fuel) :
    ∃ w', send fuel (some c) v s w = (.ok (), w') ∧
      Moved [.wire c (wire w k s b) (w.write w.trace c (wire w k s b))] w w' := by
  obtain ⟨w', h1, h2, _⟩ := on_the_wire_sent w k hcar v b s hm c hbytes hopen herr hlen fuel hf
  exact ⟨w', h1, h2⟩

theorem receive_got (w : World) (k : Nat) (hcar : Carrier w k) (v : Val) (b : List Byte) (s : Int) (hm : Message w k v b s)
    (c : ConnId) (hbytes : (w.conns c).useRef = false) (ep : EpId) (hep : findEndPoint w.served s = some ep)
    (fuel : Nat) (hf : w.n + 1 < fuel) :
    ∃ w', receive fuel c (wire w k s b) w = (.ok (), w') ∧ Moved [.rx ep (some c) v] w w' ∧ Got 1 k w.n w w' := by
  have hk := hcar.pos
  have hfits := wire_fits hcar hm
  obtain ⟨ub, h1, h2⟩ := receive_ok (c := c) (w := w) (bs := wire w k s b) (wrap_ne _ s hm.ne) hfits
  have hn : k + 1 + (w.n - (k + 1)) = w.n := by omega
  obtain ⟨ctx', w', h3, h4, _, _, _, h5⟩ := segment_up k v b s ep hm.ne (w.n - (k + 1)) fuel { Ctx.new with conn := some c, buf := some ub } w
    ⟨by omega, hcar.quiet, hcar.codecOn, hm.codec, hcar.opens, fun j h1 h2 => hcar.idle j h1 (by omega), hcar.built.ov, hm.fit,
      by have := hcar.mtu; simp only [wire] at hfits; omega, hep⟩ ⟨c, rfl, hbytes⟩ ⟨ub, rfl, h1.1, h1.data⟩ hm.lo hm.hi (by
        rcases hm.session with ⟨j, j1, j2, j3⟩ | h
        · exact .inl ⟨j, j1, by omega, j3⟩
        · exact .inr (by rw [h]; rfl)) (by omega)
  rw [hn] at h3 h5
  refine ⟨w', ?_, h4, h5⟩
  rw [h2, bind_of_ok h3]
  rfl

/-- The receiving half: the bytes of a message, arriving in one read, are delivered to the endpoint of its
session, once, equal to what was sent. -/
theorem receive_delivers (w : World) (k : Nat) (hcar : Carrier w k) (v : Val) (b : List Byte) (s : Int) (hm : Message w k v b s)
    (c : ConnId) (hbytes : (w.conns c).useRef = false) (ep : EpId) (hep : findEndPoint w.served s = some ep)
    (fuel : Nat) (hf : w.n + 1 < fuel) :
    ∃ w', receive fuel c (wire w k s b) w = (.ok (), w') ∧ Moved [.rx ep (some c) v] w w' := by
  obtain ⟨w', h1, h2, _⟩ := receive_got w k hcar v b s hm c hbytes ep hep fuel hf
  exact ⟨w', h1, h2⟩

theorem wrap_same_below {w w' : World} (m : Nat) : ∀ a, (∀ j, a ≤ j → j < a + m → SameProc (w.procs j) (w'.procs j)) →
    ∀ s b, wrap (seg w' a m) s b = wrap (seg w a m) s b := by
  induction m with
  | zero => intro a _ s b; rfl
  | succ m ih =>
    intro a h s b
    rw [seg_succ, seg_succ, wrap, wrap, (h a (by omega) (by omega)).hdr_eq, ih (a + 1) fun j h1 h2 => h j (by omega) (by omega)]

theorem room_same_below {w w' : World} (m : Nat) : ∀ a, (∀ j, a ≤ j → j < a + m → SameProc (w.procs j) (w'.procs j)) →
    room (seg w' a m) = room (seg w a m) := by
  induction m with
  | zero => intro a _; rfl
  | succ m ih =>
    intro a h
    rw [seg_succ, seg_succ, room, room, (h a (by omega) (by omega)).overhead_eq, ih (a + 1) fun j h1 h2 => h j (by omega) (by omega)]

theorem Matching.wire {a b : World} (h : Matching a b) {k : Nat} (hk : k < a.n) (s : Int) (bs : List Byte) :
    wire b k s bs = wire a k s bs := by
  simp only [Stack.wire]
  rw [h.n]
  exact wrap_same_below _ _ (fun j h1 h2 => h.same j (by omega)) s bs

theorem Matching.overhead {a b : World} (h : Matching a b) (ha : Built a) (hb : Built b) : b.overhead = a.overhead := by
  rw [ha, hb, h.n]
  exact room_same_below _ _ fun j _ h2 => h.same j (by omega)

theorem Matching.message {a b : World} (h : Matching a b) {k : Nat} (hk : k < a.n) (ha : Built a) (hb : Built b) {v : Val}
    {bs : List Byte} {s : Int} (hm : Message a k v bs s) : Message b k v bs s := by
  refine ⟨?_, hm.ne, by rw [h.overhead ha hb, h.mtu]; exact hm.fit, hm.lo, hm.hi, ?_⟩
  · rw [h.mtu, h.overhead ha hb]; exact hm.codec.same (h.same k hk).2
  · rcases hm.session with ⟨j, j1, j2, j3⟩ | h'
    · exact .inl ⟨j, j1, by rw [h.n]; exact j2, (h.same j j2).resolves j3⟩
    · exact .inr h'

/-- What one endpoint sends to session `s` reaches the endpoint of session `s` of a stack built from the same
processors: the call returns, exactly one thing is written, and reading these bytes delivers exactly one
message, the one sent.
Missing from the full claim: chains with an enabled LoadBalancer (`c33_both_enabled_lose`), with a header
processor above the codec (`c21_header_above_codec`), with two enabled codecs (`c21_two_codecs`), without a
codec; enabled filters and forwarders crash (`c31_violated`). -/
theorem c21_end_to_end_partial (ws wr : World) (k : Nat) (hs : Carrier ws k) (hr : Carrier wr k) (hmat : Matching ws wr)
    (v : Val) (b : List Byte) (s : Int) (hm : Message ws k v b s)
    (cs : ConnId) (hs1 : (ws.conns cs).useRef = false) (hs2 : (ws.conns cs).closed = false)
    (hw : ∀ p, (ws.write ws.trace cs p).err = none ∧ (ws.write ws.trace cs p).n ≤ p.length)
    (cr : ConnId) (hr1 : (wr.conns cr).useRef = false) (ep : EpId) (hep : findEndPoint wr.served s = some ep)
    (fuel : Nat) (hf : ws.n + 1 < fuel) :
    ∃ bs r ws' wr', send fuel (some cs) v s ws = (.ok (), ws') ∧ Moved [.wire cs bs r] ws ws' ∧
      receive fuel cr bs wr = (.ok (), wr') ∧ Moved [.rx ep (some cr) v] wr wr' := by
  obtain ⟨ws', h1, h2⟩ := c20_on_the_wire_partial ws k hs v b s hm cs hs1 hs2 (hw _).1 (hw _).2 fuel (by omega)
  obtain ⟨wr', h3, h4⟩ := receive_delivers wr k hr v b s (hmat.message hs.pos hs.built hr.built hm) cr hr1 ep hep fuel
    (by rw [hmat.n]; exact hf)
  rw [hmat.wire hs.pos] at h3
  exact ⟨_, _, ws', wr', h1, h2, h3, h4⟩

theorem wrap_mod (ps : List Proc) (s : Int) : ∀ b, wrap ps (s % 2 ^ 32) b = wrap ps s b := by
  induction ps with
  | nil => intro b; rfl
  | cons p ps ih =>
    intro b
    have : hdr p (s % 2 ^ 32) b = hdr p s b := by
      simp only [hdr]
      split <;> first | rfl | simp only [Int.emod_emod]
    rw [wrap, wrap, this, ih]

/-- C19 between two stacks: a message sent to any session `s` through a SessionResolver is delivered to the endpoint that serves `s` modulo 2^32, and
to no other.  (Stacks as in C21.) -/
theorem c19_end_to_end (ws wr : World) (k : Nat) (hs : Carrier ws k) (hr : Carrier wr k) (hmat : Matching ws wr)
    (v : Val) (b : List Byte) (s : Int) (hcodec : CodedBy (ws.mtu - ws.overhead).toNat (ws.procs k).kind v b) (hne : b ≠ []) (hfit : ws.overhead + b.length ≤ ws.mtu)
    (j : Nat) (hj : k < j) (hjn : j < ws.n) (hres : Resolves (ws.procs j))
    (cs : ConnId) (hs1 : (ws.conns cs).useRef = false) (hs2 : (ws.conns cs).closed = false)
    (hw : ∀ p, (ws.write ws.trace cs p).err = none ∧ (ws.write ws.trace cs p).n ≤ p.length)
    (cr : ConnId) (hr1 : (wr.conns cr).useRef = false) (ep : EpId) (hep : findEndPoint wr.served (s % 4294967296) = some ep)
    (fuel : Nat) (hf : ws.n + 1 < fuel) :
    ∃ bs r ws' wr', send fuel (some cs) v s ws = (.ok (), ws') ∧ Moved [.wire cs bs r] ws ws' ∧
      receive fuel cr bs wr = (.ok (), wr') ∧ Moved [.rx ep (some cr) v] wr wr' := by
  obtain ⟨ws', h1, h2, _⟩ := on_the_wire_any ws k hs v b s hcodec hne hfit cs hs1 hs2 (hw _).1 (hw _).2 fuel (by omega)
  have hm : Message ws k v b (s % 2 ^ 32) :=
    ⟨hcodec, hne, hfit, Int.emod_nonneg _ (by decide), Int.emod_lt_of_pos _ (by decide), .inl ⟨j, hj, hjn, hres⟩⟩
  obtain ⟨wr', h3, h4⟩ := receive_delivers wr k hr v b (s % 2 ^ 32) (hmat.message hs.pos hs.built hr.built hm) cr hr1 ep hep fuel
    (by rw [hmat.n]; exact hf)
  rw [hmat.wire hs.pos, wire, wrap_mod] at h3
  exact ⟨_, _, ws', wr', h1, h2, h3, h4⟩

/-- For a session of the 32-bit range that is the endpoint of the session itself. -/
theorem c19_in_range (ws wr : World) (k : Nat) (hs : Carrier ws k) (hr : Carrier wr k) (hmat : Matching ws wr)
    (v : Val) (b : List Byte) (s : Int) (h0 : 0 ≤ s) (h32 : s < 2 ^ 32)
    (hcodec : CodedBy (ws.mtu - ws.overhead).toNat (ws.procs k).kind v b) (hne : b ≠ []) (hfit : ws.overhead + b.length ≤ ws.mtu)
    (j : Nat) (hj : k < j) (hjn : j < ws.n) (hres : Resolves (ws.procs j))
    (cs : ConnId) (hs1 : (ws.conns cs).useRef = false) (hs2 : (ws.conns cs).closed = false)
    (hw : ∀ p, (ws.write ws.trace cs p).err = none ∧ (ws.write ws.trace cs p).n ≤ p.length)
    (cr : ConnId) (hr1 : (wr.conns cr).useRef = false) (ep : EpId) (hep : findEndPoint wr.served s = some ep)
    (fuel : Nat) (hf : ws.n + 1 < fuel) :
    ∃ bs r ws' wr', send fuel (some cs) v s ws = (.ok (), ws') ∧ Moved [.wire cs bs r] ws ws' ∧
      receive fuel cr bs wr = (.ok (), wr') ∧ Moved [.rx ep (some cr) v] wr wr' :=
  c19_end_to_end ws wr k hs hr hmat v b s hcodec hne hfit j hj hjn hres cs hs1 hs2 hw cr hr1 ep
    (by rw [show s % 4294967296 = s from c19_session_in_range s h0 h32]; exact hep) fuel hf

/-! ## Several messages -/

/-- A message with its encoding, session and receiving endpoint. -/
structure Item where
  v : Val
  b : List Byte
  s : Int
  ep : EpId

def sendAll (fuel : Nat) (c : ConnId) : List Item → GoM World Unit
  | [] => Pure.pure ()
  | x :: xs => do send fuel (some c) x.v x.s; sendAll fuel c xs

def receiveAll (fuel : Nat) (c : ConnId) : List (List Byte) → GoM World Unit
  | [] => Pure.pure ()
  | x :: xs => do receive fuel c x; receiveAll fuel c xs

/-- The byte stream that went out on a connection. -/
def sentBytes (c : ConnId) : List Obs → List Byte
  | [] => []
  | .wire c' p _ :: t => if c' = c then p ++ sentBytes c t else sentBytes c t
  | _ :: t => sentBytes c t

theorem sentBytes_append (c : ConnId) (a b : List Obs) : sentBytes c (a ++ b) = sentBytes c a ++ sentBytes c b := by
  induction a with
  | nil => rfl
  | cons o a ih =>
    cases o <;> simp only [List.cons_append, sentBytes, ih]
    split <;> simp

/-- The byte stream of a list of messages. -/
def wires (w : World) (k : Nat) (xs : List Item) : List Byte := (xs.map fun x => wire w k x.s x.b).flatten

def rxs (c : ConnId) (xs : List Item) : List Obs := xs.map fun x => .rx x.ep (some c) x.v

theorem wires_moved {w w' : World} {o : List Obs} (hm : Moved o w w') (k : Nat) (xs : List Item) : wires w' k xs = wires w k xs := by
  simp only [wires, wire_moved hm]

theorem sendAll_wires (k : Nat) (c : ConnId) (fuel : Nat) (xs : List Item) : ∀ w : World, Carrier w k →
    (∀ x ∈ xs, Message w k x.v x.b x.s) → (w.conns c).useRef = false → (w.conns c).closed = false →
    (∀ t p, (w.write t c p).err = none ∧ (w.write t c p).n ≤ p.length) → w.n < fuel →
    ∃ w' t, sendAll fuel c xs w = (.ok (), w') ∧ Moved t w w' ∧ sentBytes c t = wires w k xs ∧ Sent xs.length k w w' := by
  induction xs with
  | nil => intro w _ _ _ _ _ _; exact ⟨w, [], rfl, .refl w, rfl, .zero w⟩
  | cons x xs ih =>
    intro w hcar hm h1 h2 hw hf
    obtain ⟨w1, a1, a2, a3⟩ := on_the_wire_sent w k hcar x.v x.b x.s (hm x (by simp)) c h1 h2 (hw _ _).1 (hw _ _).2 fuel hf
    obtain ⟨w2, t, b1, b2, b3, b4⟩ := ih w1 (hcar.moved a2) (fun y hy => (hm y (by simp [hy])).moved a2) (by rw [a2.conns]; exact h1)
      (by rw [a2.conns]; exact h2) (by rw [a2.write]; exact hw) (by rw [a2.n]; exact hf)
    refine ⟨w2, _, ?_, a2.trans b2, ?_, by rw [List.length_cons, Nat.add_comm]; exact a3.trans b4 a2.n⟩
    · simp only [sendAll]; rw [bind_of_ok a1]; exact b1
    · rw [sentBytes_append, b3, wires_moved a2]
      simp [sentBytes, wires]

/-! ### Several messages in one read -/

theorem Moved.renorm {w w1 : World} {i : Nat} {c0 c : Option St} {o : List Obs} {cc : St} (hk : (w.procs i).kind = .frame c0)
    (hg : Good cc) (hd : data cc = []) (h : Moved o (w.setKind i (.frame c)) w1) :
    Moved o (w.setKind i (.frame (some cc))) (w1.setKind i (.frame (some cc))) := by
  refine Moved.around (c0 := some cc) (c := c) (by rw [setKind_self]) ?_ ⟨cc, by rw [setKind_self], hg, hd⟩
  rw [setKind_setKind]; exact h

theorem Moved.denorm {w w1 : World} {i : Nat} {c1 c2 : Option St} {o : List Obs} {cc : St} (hk : (w.procs i).kind = .frame c1)
    (hk1 : (w1.procs i).kind = .frame c2) (h : Moved o (w.setKind i (.frame (some cc))) (w1.setKind i (.frame (some cc))))
    (hi : Idle i w1) : Moved o w w1 := by
  have hne : ∀ (w : World) j, j ≠ i → (w.setKind i (.frame (some cc))).procs j = w.procs j := by
    intro w j hj; simp [World.setKind, hj]
  refine ⟨h.mtu, h.overhead, h.name, h.n, h.served, h.write, h.conns, h.trace, fun j => ?_, fun j hj => ?_⟩
  · have h1 := h.same j
    by_cases e : j = i
    · subst e
      rw [setKind_self, setKind_self] at h1
      exact ⟨h1.1, by rw [hk, hk1]; trivial⟩
    · rw [hne w j e, hne w1 j e] at h1; exact h1
  · by_cases e : j = i
    · subst e; exact hi
    · obtain ⟨c, h1, h2⟩ := hj
      obtain ⟨c', h3, h4⟩ := h.idle j ⟨c, by rw [hne w j e]; exact h1, h2⟩
      exact ⟨c', by rw [hne w1 j e] at h3; exact h3, h4⟩

theorem feeds_all (k m fuel : Nat) (c : ConnId) (cc : St) (hg : Good cc) (hd : data cc = []) (hf : k + m + 2 < fuel)
    (pay : Item → List Byte) (xs : List Item) :
    ∀ (ctx : Ctx) (w w' : World) (r : Res Ctx), Feeds (call fuel .up (k + 1 + m)) (k + 1 + m) (.ok ()) (xs.map pay) ctx w r w' →
    (∃ c0, (w.procs (k + 1 + m)).kind = .frame c0) →
    (∀ x ∈ xs, Receives w k m x.v x.b x.s x.ep ∧ x.b ≠ [] ∧ 0 ≤ x.s ∧ x.s < 2 ^ 32 ∧ pay x = wrap (seg w (k + 1) m) x.s x.b) →
    ctx.conn = some c → (w.conns c).useRef = false →
    ((∃ j, k < j ∧ j < k + 1 + m ∧ Resolves (w.procs j)) ∨ (sessionOf ctx = 0 ∧ ∀ x ∈ xs, x.s = 0)) →
    (∃ ctx', r = .ok ctx') ∧
      Moved (rxs c xs) (w.setKind (k + 1 + m) (.frame (some cc))) (w'.setKind (k + 1 + m) (.frame (some cc))) ∧
      Got xs.length k (k + 1 + m) w w' := by
  have hsk : ∀ (x : World) (c : Option St) (j : Nat), j < k + 1 + m → (x.setKind (k + 1 + m) (.frame c)).procs j = x.procs j := by
    intro x c j hj; simp only [World.setKind, if_neg (show j ≠ k + 1 + m by omega)]
  induction xs with
  | nil =>
    intro ctx w w' r h ⟨c0, hk⟩ _ _ _ _
    cases h with
    | done _ _ b c1 _ => exact ⟨⟨_, rfl⟩, by rw [setKind_setKind]; exact .refl _, fun j j1 j2 _ => by rw [hsk _ _ _ j2]; exact (Proc.got_zero _).symm⟩
    | panic _ _ _ he => cases he
    | running _ _ _ he => cases he
  | cons x xs ih =>
    intro ctx w w' r h ⟨c0, hk⟩ hall hc hby hsess
    obtain ⟨hrx, hne, hlo, hhi, hpay⟩ := hall x (by simp)
    have hsame : ∀ c1 j, SameProc (w.procs j) ((w.setKind (k + 1 + m) (.frame c1)).procs j) := by
      intro c1 j
      by_cases e : j = k + 1 + m
      · subst e; rw [setKind_self]; exact ⟨rfl, by rw [hk]; trivial⟩
      · simp only [World.setKind, if_neg e]; exact .refl _
    have one : ∀ s c1, Good s → data s = pay x → ∃ ctx1 w1,
        call fuel .up (k + 1 + m) { ctx with buf := some s } (w.setKind (k + 1 + m) (.frame c1)) = (.ok ctx1, w1) ∧
        Moved [.rx x.ep (some c) x.v] (w.setKind (k + 1 + m) (.frame c1)) w1 ∧ ctx1.conn = some c ∧ sessionOf ctx1 = x.s ∧ Got 1 k (k + 1 + m) w w1 := by
      intro s c1 h1 h2
      obtain ⟨ctx1, w1, a1, a2, a3, a4, _, a6⟩ := segment_up k x.v x.b x.s x.ep hne m fuel { ctx with buf := some s } _
        (hrx.setCache hk c1) ⟨c, hc, hby⟩ ⟨s, rfl, h1, by rw [h2, hpay, wrap_same (hsame c1)]⟩ hlo hhi (by
          rcases hsess with ⟨j, j1, j2, j3⟩ | ⟨h, h'⟩
          · exact .inl ⟨j, j1, j2, (hsame c1 j).resolves j3⟩
          · exact .inr (by rw [h' x (by simp)]; exact h)) hf
      exact ⟨ctx1, w1, a1, by rw [← hc]; exact a2, a3.trans hc, a4, fun j j1 j2 j3 => by
        have := a6 j j1 j2
        rw [hsk _ _ _ j2] at this
        exact this j3⟩
    cases h with
    | @step _ _ _ _ s c1 ctx1 w1 _ _ h1 h2 h3 h4 =>
      obtain ⟨ctx1', w1', a1, a2, a3, a4, a5⟩ := one s c1 h1 h2
      rw [h3] at a1
      cases a1
      have hsame1 : ∀ j, SameProc (w.procs j) (w1.procs j) := fun j => (hsame c1 j).trans (a2.same j)
      have hk1 : ∃ c0, (w1.procs (k + 1 + m)).kind = .frame c0 := by
        have := (hsame1 (k + 1 + m)).2
        rw [hk] at this
        cases hkk : (w1.procs (k + 1 + m)).kind <;> rw [hkk] at this <;> simp_all [Kind.Same]
      obtain ⟨b1, b2, b3⟩ := ih ctx1 w1 w' r h4 hk1 (fun y hy => by
          obtain ⟨y1, y2, y3, y4, y5⟩ := hall y (by simp [hy])
          exact ⟨(y1.setCache hk c1).moved a2, y2, y3, y4, by rw [y5, wrap_same hsame1]⟩) a3
        (by rw [a2.conns]; exact hby) (by
          rcases hsess with ⟨j, j1, j2, j3⟩ | ⟨h, h'⟩
          · exact .inl ⟨j, j1, j2, (hsame1 j).resolves j3⟩
          · exact .inr ⟨by rw [a4]; exact h' x (by simp), fun y hy => h' y (by simp [hy])⟩)
      exact ⟨b1, (a2.renorm hk hg hd).trans b2, by rw [List.length_cons, Nat.add_comm]; exact a5.trans b3 hsame1⟩
    | @stepPanic _ _ _ _ s c1 w1 h1 h2 h3 =>
      obtain ⟨ctx1', w1', a1, _⟩ := one s c1 h1 h2
      rw [h3] at a1; cases a1
    | @stepRunning _ _ _ _ s c1 w1 h1 h2 h3 =>
      obtain ⟨ctx1', w1', a1, _⟩ := one s c1 h1 h2
      rw [h3] at a1; cases a1

/-- With a FrameDecoder as the lowest processor, any number of messages that arrive in one read are all
delivered, each once, in order, to the endpoints of their sessions. -/
theorem receive_batch (w : World) (k : Nat) (hcar : Carrier w k) (hk1 : k + 1 < w.n) (hfr : Frames (w.procs (w.n - 1)))
    (xs : List Item) (hx : xs ≠ []) (hm : ∀ x ∈ xs, Message w k x.v x.b x.s ∧ findEndPoint w.served x.s = some x.ep)
    (c : ConnId) (hbytes : (w.conns c).useRef = false) (hfit : ((wires w k xs).length : Int) ≤ w.mtu)
    (fuel : Nat) (hf : w.n + xs.length + 1 < fuel) :
    ∃ w', receive fuel c (wires w k xs) w = (.ok (), w') ∧ Moved (rxs c xs) w w' ∧ Got xs.length k w.n w w' := by
  obtain ⟨m, hn⟩ : ∃ m, w.n = k + 1 + m + 1 := ⟨w.n - k - 2, by omega⟩
  have hlast : w.n - 1 = k + 1 + m := by omega
  rw [hlast] at hfr
  have hp : w.procs (k + 1 + m) = ⟨true, (w.procs (k + 1 + m)).kind⟩ := by rw [← hfr.2]
  obtain ⟨c0, hk0⟩ := hfr.1
  have hw : ∀ x : Item, wire w k x.s x.b = frameOf (wrap (seg w (k + 1) m) x.s x.b) := by
    intro x
    rw [wire, show w.n - (k + 1) = m + 1 by omega, seg_snoc, wrap_snoc, frames_hdr hfr]
    simp [stream]
  have hstream : wires w k xs = stream (xs.map fun x => wrap (seg w (k + 1) m) x.s x.b) := by
    rw [wires, stream, List.map_map]
    congr 1
    exact List.map_congr_left fun x _ => hw x
  have hne : wires w k xs ≠ [] := by
    cases xs with
    | nil => exact absurd rfl hx
    | cons x xs =>
      intro h
      have h2 : wire w k x.s x.b = [] := by
        simp only [wires, List.map_cons, List.flatten_cons, List.append_eq_nil_iff] at h
        exact h.1
      exact wrap_ne _ _ (hm x (by simp)).1.ne h2
  obtain ⟨ub, h1, h2⟩ := receive_ok (c := c) (w := w) hne hfit
  obtain ⟨f, rfl⟩ : ∃ f, fuel = f + 1 := ⟨fuel - 1, by omega⟩
  have how : OneWay (k + 1 + m) w := by
    refine ⟨⟨c0, hk0⟩, fun j h1 h2 e => ?_⟩
    have := hcar.opens j (by omega) h2
    simp [Opens, e] at this
  have hidle := hcar.idle (k + 1 + m) (by omega) (by omega) hfr
  have hsmall : (wires w k xs).length < 2 ^ 32 := by have := hcar.mtu; omega
  obtain ⟨r, w', a1, a2, a3⟩ := c22_coalesced (k + 1 + m) f (nbAt f (k + 1 + m + 1)) (OneWay (k + 1 + m))
    (by exact calm_above (k + 1 + m) f) { Ctx.new with conn := some c, buf := some ub } w how
    (xs.map fun x => wrap (seg w (k + 1) m) x.s x.b)
    (by intro p hp; simp only [List.mem_map] at hp; obtain ⟨x, hx, rfl⟩ := hp; exact wrap_ne _ _ (hm x hx).1.ne)
    ⟨c, rfl, hbytes⟩ ⟨ub, rfl, h1.1, by rw [h1.data, ← hstream]⟩ (by rw [← hstream]; exact hsmall) hidle (by simp; omega)
  have hidle0 := hidle
  obtain ⟨cc, g1, g2, g3⟩ := hidle0
  obtain ⟨⟨ctx', b1⟩, b2, b3⟩ := feeds_all k m f c cc g2 g3 (by omega) (fun x => wrap (seg w (k + 1) m) x.s x.b) xs _ w w' r a2 ⟨c0, hk0⟩
    (fun x hx => by
      obtain ⟨hmx, hep⟩ := hm x hx
      refine ⟨⟨by omega, hcar.quiet, hcar.codecOn, hmx.codec, hcar.opens, fun j j1 j2 => hcar.idle j j1 (by omega), hcar.built.ov, hmx.fit,
        ?_, hep⟩, hmx.ne, hmx.lo, hmx.hi, rfl⟩
      have h3 := wire_fits hcar hmx
      rw [hw x, frameOf_length] at h3
      have := hcar.mtu
      omega) rfl hbytes (by
      by_cases hres : ∃ j, k < j ∧ j < k + 1 + m ∧ Resolves (w.procs j)
      · exact .inl hres
      · refine .inr ⟨rfl, fun x hx => ?_⟩
        rcases (hm x hx).1.session with ⟨j, j1, j2, j3⟩ | h
        · have : j ≠ k + 1 + m := by
            intro e; subst e; rw [Resolves, hk0] at j3; exact absurd j3.1 (by simp)
          exact absurd ⟨j, j1, by omega, j3⟩ hres
        · exact h)
  obtain ⟨hinv, hidle'⟩ := a3 ctx' b1
  obtain ⟨⟨c2, hk2⟩, _⟩ := hinv
  refine ⟨w', ?_, b2.denorm hk0 hk2 hidle', fun j j1 j2 j3 => b3 j j1 (Nat.lt_of_le_of_ne (by omega) fun e => j3 (e ▸ hfr)) j3⟩
  have hcall : call (f + 1) .up w.n { Ctx.new with conn := some c, buf := some ub } w = (.ok ctx', w') := by
    rw [hn, call_up (by omega), hp, a1, b1]
  rw [h2, bind_of_ok hcall]
  rfl

theorem receiveAll_groups (k : Nat) (c : ConnId) (fuel : Nat) (bound : Nat) (groups : List (List Item)) : ∀ w : World, Carrier w k →
    (∀ g ∈ groups, g ≠ [] ∧ g.length ≤ bound ∧ ((wires w k g).length : Int) ≤ w.mtu ∧
      ∀ x ∈ g, Message w k x.v x.b x.s ∧ findEndPoint w.served x.s = some x.ep) →
    ((∀ g ∈ groups, g.length = 1) ∨ (k + 1 < w.n ∧ Frames (w.procs (w.n - 1)))) →
    (w.conns c).useRef = false → w.n + bound + 1 < fuel →
    ∃ w', receiveAll fuel c (groups.map (wires w k)) w = (.ok (), w') ∧ Moved (rxs c groups.flatten) w w' ∧
      Got groups.flatten.length k w.n w w' := by
  induction groups with
  | nil => intro w _ _ _ _ _; exact ⟨w, rfl, .refl w, .zero w⟩
  | cons g gs ih =>
    intro w hcar hg hcase hby hf
    obtain ⟨g1, g2, g3, g4⟩ := hg g (by simp)
    have one : ∃ w1, receive fuel c (wires w k g) w = (.ok (), w1) ∧ Moved (rxs c g) w w1 ∧ Got g.length k w.n w w1 := by
      rcases hcase with h | ⟨h1, h2⟩
      · have hl := h g (by simp)
        match g, hl with
        | [x], _ =>
          obtain ⟨m1, m2⟩ := g4 x (by simp)
          obtain ⟨w1, a1, a2, a3⟩ := receive_got w k hcar x.v x.b x.s m1 c hby x.ep m2 fuel (by omega)
          exact ⟨w1, by simpa [wires] using a1, a2, a3⟩
      · exact receive_batch w k hcar h1 h2 g g1 g4 c hby g3 fuel (by omega)
    obtain ⟨w1, a1, a2, a3⟩ := one
    have hw : wires w k = wires w1 k := by funext xs; rw [wires_moved a2]
    obtain ⟨w2, b1, b2, b3⟩ := ih w1 (hcar.moved a2) (fun g' hg' => by
        obtain ⟨y1, y2, y3, y4⟩ := hg g' (by simp [hg'])
        exact ⟨y1, y2, by rw [← hw, a2.mtu]; exact y3, fun x hx => ⟨(y4 x hx).1.moved a2, by rw [a2.served]; exact (y4 x hx).2⟩⟩)
      (by
        rcases hcase with h | ⟨h1, h2⟩
        · exact .inl fun g' hg' => h g' (by simp [hg'])
        · refine .inr ⟨by rw [a2.n]; exact h1, ?_⟩
          rw [a2.n]
          obtain ⟨⟨c0, e1⟩, e2⟩ := h2
          have h3 := a2.same (w.n - 1)
          refine ⟨?_, by rw [h3.1]; exact e2⟩
          have h4 := h3.2
          rw [e1] at h4
          cases hkk : (w1.procs (w.n - 1)).kind <;> rw [hkk] at h4 <;> simp_all [Kind.Same])
      (by rw [a2.conns]; exact hby) (by rw [a2.n]; exact hf)
    refine ⟨w2, ?_, ?_, ?_⟩
    · simp only [List.map_cons, receiveAll]
      rw [bind_of_ok a1, hw]
      exact b1
    · have := a2.trans b2
      simpa [rxs] using this
    · rw [a2.n] at b3
      rw [List.flatten_cons, List.length_append]
      exact a3.trans b3 a2.same

theorem conversation_counted (ws wr : World) (k : Nat) (hs : Carrier ws k) (hr : Carrier wr k) (hmat : Matching ws wr)
    (groups : List (List Item)) (bound : Nat)
    (hg : ∀ g ∈ groups, g ≠ [] ∧ g.length ≤ bound ∧ ((wires ws k g).length : Int) ≤ ws.mtu ∧
      ∀ x ∈ g, Message ws k x.v x.b x.s ∧ findEndPoint wr.served x.s = some x.ep)
    (hcase : (∀ g ∈ groups, g.length = 1) ∨ (k + 1 < wr.n ∧ Frames (wr.procs (wr.n - 1))))
    (cs : ConnId) (hs1 : (ws.conns cs).useRef = false) (hs2 : (ws.conns cs).closed = false)
    (hw : ∀ t p, (ws.write t cs p).err = none ∧ (ws.write t cs p).n ≤ p.length)
    (cr : ConnId) (hr1 : (wr.conns cr).useRef = false) (fuel : Nat) (hf : ws.n + bound + 1 < fuel) :
    ∃ reads t ws' wr', sendAll fuel cs groups.flatten ws = (.ok (), ws') ∧ Moved t ws ws' ∧
      sentBytes cs t = reads.flatten ∧ reads.length = groups.length ∧
      receiveAll fuel cr reads wr = (.ok (), wr') ∧ Moved (rxs cr groups.flatten) wr wr' ∧
      Sent groups.flatten.length k ws ws' ∧ Got groups.flatten.length k wr.n wr wr' := by
  have hwires : ∀ xs, wires wr k xs = wires ws k xs := by
    intro xs; simp only [wires, hmat.wire hs.pos]
  obtain ⟨ws', t, a1, a2, a3, a4⟩ := sendAll_wires k cs fuel groups.flatten ws hs (fun x hx => by
      obtain ⟨g, h1, h2⟩ := List.mem_flatten.mp hx
      exact ((hg g h1).2.2.2 x h2).1) hs1 hs2 hw (by omega)
  obtain ⟨wr', b1, b2, b3⟩ := receiveAll_groups k cr fuel bound groups wr hr (fun g hgm => by
      obtain ⟨y1, y2, y3, y4⟩ := hg g hgm
      exact ⟨y1, y2, by rw [hwires, hmat.mtu]; exact y3, fun x hx =>
        ⟨hmat.message hs.pos hs.built hr.built (y4 x hx).1, (y4 x hx).2⟩⟩) hcase hr1 (by rw [hmat.n]; exact hf)
  refine ⟨groups.map (wires wr k), t, ws', wr', a1, a2, ?_, by simp, b1, b2, a4, b3⟩
  rw [a3]
  have : groups.map (wires wr k) = groups.map (wires ws k) := List.map_congr_left fun g _ => hwires g
  rw [this]
  simp only [wires, List.map_flatten, List.flatten_flatten, List.map_map]
  rfl

/-- A whole conversation in one direction.  Any number of messages sent one after the other; the byte stream
arrives cut at message boundaries — one message per read, or any number per read if the lowest processor is a
FrameDecoder.  Then exactly these messages are delivered, each once, in order, to the endpoints of their
sessions.  (Reads that end inside a message are lost, `c23_violated`.) -/
theorem c60_conversation (ws wr : World) (k : Nat) (hs : Carrier ws k) (hr : Carrier wr k) (hmat : Matching ws wr)
    (groups : List (List Item)) (bound : Nat)
    (hg : ∀ g ∈ groups, g ≠ [] ∧ g.length ≤ bound ∧ ((wires ws k g).length : Int) ≤ ws.mtu ∧
      ∀ x ∈ g, Message ws k x.v x.b x.s ∧ findEndPoint wr.served x.s = some x.ep)
    (hcase : (∀ g ∈ groups, g.length = 1) ∨ (k + 1 < wr.n ∧ Frames (wr.procs (wr.n - 1))))
    (cs : ConnId) (hs1 : (ws.conns cs).useRef = false) (hs2 : (ws.conns cs).closed = false)
    (hw : ∀ t p, (ws.write t cs p).err = none ∧ (ws.write t cs p).n ≤ p.length)
    (cr : ConnId) (hr1 : (wr.conns cr).useRef = false) (fuel : Nat) (hf : ws.n + bound + 1 < fuel) :
    ∃ reads t ws' wr', sendAll fuel cs groups.flatten ws = (.ok (), ws') ∧ Moved t ws ws' ∧
      sentBytes cs t = reads.flatten ∧ reads.length = groups.length ∧
      receiveAll fuel cr reads wr = (.ok (), wr') ∧ Moved (rxs cr groups.flatten) wr wr' := by
  obtain ⟨reads, t, ws', wr', h1, h2, h3, h4, h5, h6, _⟩ := conversation_counted ws wr k hs hr hmat groups bound hg hcase cs hs1 hs2 hw cr hr1 fuel hf
  exact ⟨reads, t, ws', wr', h1, h2, h3, h4, h5, h6⟩

/-! ## Examples: a stack with five processors -/

/-- bytes codec, session resolver, stat counter, heartbeat, frame decoder -/
def five : World :=
  { quiet with
    mtu := 64
    overhead := 10
    n := 5
    procs := fun j => match j with
      | 0 => ⟨true, .bytesCodec⟩
      | 1 => ⟨true, .session⟩
      | 2 => ⟨true, .stat 0 0⟩
      | 3 => ⟨true, .heartbeat⟩
      | _ => ⟨true, .frame (some UBuf.demo)⟩ }

theorem five_opens : ∀ j, 0 < j → j < 5 → Opens (five.procs j) := by
  intro j h1 h2
  match j, h1, h2 with
  | 1, _, _ => trivial
  | 2, _, _ => trivial
  | 3, _, _ => trivial
  | 4, _, _ => trivial

theorem five_carrier : Carrier five 0 := by
  refine ⟨by decide, fun j h => absurd h (by omega), rfl, five_opens, fun j h1 h2 h3 => ?_, rfl, by decide⟩
  match j, h1, h2, h3 with
  | 1, _, _, ⟨⟨c, h⟩, _⟩ => cases h
  | 2, _, _, ⟨⟨c, h⟩, _⟩ => cases h
  | 3, _, _, ⟨⟨c, h⟩, _⟩ => cases h
  | 4, _, _, _ => exact ⟨UBuf.demo, rfl, demo_buf.1, demo_buf.data⟩

theorem five_matching : Matching five five := ⟨rfl, rfl, fun _ _ => .refl _⟩

theorem five_message (b : List Byte) (h1 : b ≠ []) (h2 : b.length ≤ 54) : Message five 0 (.bytes b) b 3 :=
  ⟨.bytes b, h1, by simp only [five]; omega, by decide, by decide, .inl ⟨1, by decide, by decide, rfl, rfl⟩⟩

example : wire five 0 3 [9] = [0, 0, 0, 7, 0, 0, 0, 0, 0, 3, 9] := by decide

example : ∃ bs r ws' wr', send 9 (some 0) (.bytes [9]) 3 five = (.ok (), ws') ∧ Moved [.wire 0 bs r] five ws' ∧
    receive 9 0 bs five = (.ok (), wr') ∧ Moved [.rx 7 (some 0) (.bytes [9])] five wr' :=
  c21_end_to_end_partial five five 0 five_carrier five_carrier five_matching _ [9] 3 (five_message [9] (by decide) (by decide))
    0 rfl rfl (fun p => ⟨rfl, Nat.le_refl _⟩) 0 rfl 7 rfl 9 (by decide)

/-- Session 2^32 + 3 arrives at session 3. -/
example : ∃ bs r ws' wr', send 9 (some 0) (.bytes [9]) 4294967299 five = (.ok (), ws') ∧ Moved [.wire 0 bs r] five ws' ∧
    receive 9 0 bs five = (.ok (), wr') ∧ Moved [.rx 7 (some 0) (.bytes [9])] five wr' :=
  c19_end_to_end five five 0 five_carrier five_carrier five_matching _ [9] 4294967299 (.bytes [9]) (by decide) (by decide) 1 (by decide) (by decide) ⟨rfl, rfl⟩
    0 rfl rfl (fun p => ⟨rfl, Nat.le_refl _⟩) 0 rfl 7 rfl 9 (by decide)

/-- two reads: the first holds two messages -/
example : ∃ reads t ws' wr', sendAll 20 0 [⟨.bytes [9], [9], 3, 7⟩, ⟨.bytes [8, 8], [8, 8], 3, 7⟩, ⟨.bytes [7], [7], 3, 7⟩] five = (.ok (), ws') ∧
    Moved t five ws' ∧ sentBytes 0 t = reads.flatten ∧ reads.length = 2 ∧ receiveAll 20 0 reads five = (.ok (), wr') ∧
    Moved [.rx 7 (some 0) (.bytes [9]), .rx 7 (some 0) (.bytes [8, 8]), .rx 7 (some 0) (.bytes [7])] five wr' :=
  c60_conversation five five 0 five_carrier five_carrier five_matching
    [[⟨.bytes [9], [9], 3, 7⟩, ⟨.bytes [8, 8], [8, 8], 3, 7⟩], [⟨.bytes [7], [7], 3, 7⟩]] 2
    (by
      intro g hg
      simp only [List.mem_cons, List.not_mem_nil, or_false] at hg
      rcases hg with rfl | rfl
      · refine ⟨by simp, by simp, by decide, fun x hx => ?_⟩
        simp only [List.mem_cons, List.not_mem_nil, or_false] at hx
        rcases hx with rfl | rfl
        · exact ⟨five_message _ (by simp) (by simp), rfl⟩
        · exact ⟨five_message _ (by simp) (by simp), rfl⟩
      · refine ⟨by simp, by simp, by decide, fun x hx => ?_⟩
        simp only [List.mem_cons, List.not_mem_nil, or_false] at hx
        subst hx
        exact ⟨five_message _ (by simp) (by simp), rfl⟩)
    (.inr ⟨by decide, ⟨_, rfl⟩, rfl⟩) 0 rfl rfl (fun _ p => ⟨rfl, Nat.le_refl _⟩) 0 rfl 20 (by decide)

/-! ## Compositions that lose messages -/

/-- A header processor as the topmost processor: no message ever leaves the stack, and nothing is reported. -/
theorem c21_header_above_codec (w : World) (hn : 0 < w.n) (c : ConnId) (hby : (w.conns c).useRef = false)
    (hp : w.procs 0 = ⟨true, .session⟩ ∨ Frames (w.procs 0) ∨ (∃ en tx rx, w.procs 0 = ⟨en, .stat tx rx⟩) ∨
      (∃ en, w.procs 0 = ⟨en, .heartbeat⟩) ∨ (∃ en, w.procs 0 = ⟨en, .loadBalancer⟩))
    (fuel : Nat) (v : Val) (s : Int) : send (fuel + 1) (some c) v s w = (.ok (), w) := by
  have hr : useReference (some c) w = (.ok false, w) := by rw [useReference_some, hby]
  have key : call (fuel + 1) .down 1 (({ Ctx.new with conn := some c, msg := v } : Ctx).setOption "session" (.int s)) w =
      (.ok (({ Ctx.new with conn := some c, msg := v } : Ctx).setOption "session" (.int s)), w) := by
    rw [call_down (j := 0) hn]
    rcases hp with h | ⟨⟨x, h⟩, h'⟩ | ⟨en, tx, rx, h⟩ | ⟨en, h⟩ | ⟨en, h⟩
    · rw [h]; rfl
    · have : w.procs 0 = ⟨true, .frame x⟩ := by rw [← h, ← h']
      rw [this]
      simp only [onUpper, frameUpper, Ctx.setOption]
      rw [bind_of_ok hr]; rfl
    · rw [h]
      simp only [onUpper, statUpper, Ctx.setOption]
      rw [bind_of_ok hr]; rfl
    · rw [h]
      simp only [onUpper, heartbeatUpper, Ctx.setOption]
      rw [bind_of_ok hr]; rfl
    · rw [h]
      simp only [onUpper, loadBalancerUpper, Ctx.setOption]
      rw [bind_of_ok hr]; rfl
  simp only [send]
  rw [bind_of_ok key]
  rfl

example : send 1 (some 0) (.bytes [9]) 3 { five with procs := fun j => five.procs (j + 1) } =
    (.ok (), { five with procs := fun j => five.procs (j + 1) }) :=
  c21_header_above_codec _ (by decide) 0 rfl (.inl rfl) 0 _ _

/-- bytes codec, session resolver, another bytes codec -/
def threeCodec : World :=
  { quiet with n := 3, overhead := 4, procs := fun j => if j = 1 then ⟨true, .session⟩ else ⟨true, .bytesCodec⟩ }

/-- The header written between two codecs never reaches the wire: the lower codec encodes the message again. -/
theorem c20_second_codec : (send 6 (some 0) (.bytes [9]) 3 threeCodec).2.trace = [.wire 0 [9] ⟨1, none⟩] ∧
    wrap [⟨true, .session⟩] 3 [9] = [0, 0, 0, 3, 9] ∧ Built threeCodec := ⟨by rfl, by rfl, rfl⟩

/-- Two bytes codecs above each other: whatever is sent arrives on the wire once, but reading it delivers
nothing. -/
theorem c21_two_codecs (w : World) (hn : w.n = 2) (h0 : w.procs 0 = ⟨true, .bytesCodec⟩) (h1 : w.procs 1 = ⟨true, .bytesCodec⟩)
    (c : ConnId) (b : List Byte) (hb : b ≠ []) (hfit : (b.length : Int) ≤ w.mtu) (fuel : Nat) :
    receive (fuel + 2) c b w = (.ok (), w) := by
  obtain ⟨ub, a1, a2⟩ := receive_ok (c := c) (w := w) hb hfit
  obtain ⟨s1, b1, b2⟩ := decodeUp_ok (w := w) (ctx := { Ctx.new with conn := some c, buf := some ub })
    (k := fun ctx b => call (fuel + 1) .up 1 { ctx with msg := .bytes b }) rfl a1 hb
  obtain ⟨s2, c1, c2⟩ := decodeUp_empty (w := w) (ctx := { Ctx.new with conn := some c, buf := some s1, msg := .bytes b })
    (k := fun ctx b => call fuel .up 0 { ctx with msg := .bytes b }) rfl b1 (by simp [Deque.pop])
  have k1 : call (fuel + 1) .up 1 { Ctx.new with conn := some c, buf := some s1, msg := .bytes b } w =
      (.ok { Ctx.new with conn := some c, buf := some s2, msg := .bytes b }, w) := by
    rw [call_up (j := 0) (by omega), h0]
    exact c2
  have k2 : call (fuel + 2) .up w.n { Ctx.new with conn := some c, buf := some ub } w =
      (.ok { Ctx.new with conn := some c, buf := some s2, msg := .bytes b }, w) := by
    rw [hn, call_up (j := 1) (by omega), h1]
    exact b2.trans k1
  rw [a2, bind_of_ok k2]
  rfl

example : receive 3 0 [9] { quiet with n := 2, procs := fun _ => ⟨true, .bytesCodec⟩ } =
    (.ok (), { quiet with n := 2, procs := fun _ => ⟨true, .bytesCodec⟩ }) :=
  c21_two_codecs _ rfl rfl rfl 0 [9] (by decide) (by decide) 1

end Verif.Stack
