import Verif.Stack.Stall

/-!
# C100, fourth part: processors above the GOBCodec

`c100_exact` has only silent processors above the codec.  Here they are arbitrary (Echo, Filter, Forwarder, Discarder, further codecs, …): with a
payload the decoder finishes, the message goes up, may be answered down through the codec's encoder (proc_codec_gob.go:31-51), and
the read is finished; with any other payload none of them is reached.
-/

namespace Verif.Stack
open GoM UBuf

/-- A GOBCodec whose encoder returns. -/
def GobEncodes (p : Proc) : Prop := ∃ e d, p.kind = .gobCodec e d ∧ ∀ v, Halts (e v)

theorem Same.gobEncodes {p q : Proc} (h : p.kind.Same q.kind) (hp : GobEncodes p) : GobEncodes q := by
  obtain ⟨e, d, h1, h2⟩ := hp
  rw [h1] at h
  refine ⟨e, d, ?_, h2⟩
  cases hq : q.kind <;> simp_all [Kind.Same]

/-- What is needed of the processors around the codec: functions of the user return and do not grow received buffers beyond `B`; nothing an
Echo or StatCounter above the codec sends is turned around by a Loopback; no enabled FrameDecoder above the codec, and none on a
reference connection. -/
structure Around (B : Nat) (w : World) (k : Nat) : Prop where
  tame : ∀ j, j < w.n → j ≠ k → Tame B (w.procs j)
  codec : GobEncodes (w.procs k)
  turn : ∀ j l, j < k → Bounces (w.procs j) → j < l → l < w.n → (w.procs l).kind ≠ .loopback
  frames : ∀ j, j < k → IsFrame (w.procs j).kind → (w.procs j).enable = false
  plain : (∀ c, (w.conns c).useRef = false) ∨ ∀ j, j < w.n → ¬ IsFrame (w.procs j).kind

theorem Around.evolves {B k : Nat} {w w' : World} (h : Around B w k) (he : Evolves w w') : Around B w' k := by
  refine ⟨fun j hj hk => Same.tame (he.kind j) (h.tame j (by rw [← he.n]; exact hj) hk), Same.gobEncodes (he.kind k) h.codec, fun j l h1 h2 h3 h4 h5 => ?_,
    fun j h1 h2 => ?_, ?_⟩
  · exact h.turn j l h1 (Same.bounces (he.kind j) (he.enable j) h2) h3 (by rw [← he.n]; exact h4) ((Same.loopback_iff (he.kind l)).mpr h5)
  · rw [he.enable]
    exact h.frames j h1 ((Same.frame (he.kind j)).mpr h2)
  · rcases h.plain with h1 | h1
    · exact .inl fun c => by rw [he.useRef, h1 c]
    · exact .inr fun j hj hf => h1 j (by rw [← he.n]; exact hj) ((Same.frame (he.kind j)).mpr hf)

/-- Sending down past the codec ends, whatever its decoder is. -/
theorem around_down {B k : Nat} (fuel : Nat) : ∀ (pos : Nat) (ctx : Ctx) (w : World), Around B w k → NoLoopFrom (pos - 1) w →
    w.n + 2 ≤ fuel + pos → 0 < fuel → Ends (call fuel .down pos ctx) w fun _ w' => Still w w' := by
  induction fuel with
  | zero => intro pos ctx w _ _ _ h; omega
  | succ fuel ih =>
    intro pos ctx w hs hno hf _
    simp only [call]
    refine .bind (.get ?_)
    by_cases h0 : pos = 0
    · rw [if_pos h0]; exact .pure (.refl w)
    · rw [if_neg h0]
      by_cases hn : pos > w.n
      · rw [if_pos hn]; exact lowerDeck_ends ctx w
      · rw [if_neg hn]
        obtain ⟨i, rfl⟩ : ∃ i, pos = i + 1 := ⟨pos - 1, by omega⟩
        simp only [Nat.add_sub_cancel]
        have hi : i < w.n := by omega
        have hnext : ∀ ctx' w', Still w w' → Ends (call fuel .down (i + 1 + 1) ctx') w' fun _ w'' => Still w w'' := by
          intro ctx' w' h
          have hn' := h.ev.n
          exact (ih (i + 1 + 1) ctx' w' (hs.evolves h.ev) (fun j j1 j2 => hno.evolves h.ev j (by omega) j2) (by omega) (by omega)).mono
            fun _ _ h' => h.trans h'
        by_cases hik : i = k
        · subst hik
          obtain ⟨e, d, hk, hh⟩ := hs.codec
          simp only [onUpper, hk]
          exact .ite (.ite (.pure (.refl w)) (.bind (.get (.bind (.allocBuf fun _ => .bind (.onBuf' (hh _) fun _ =>
            .ite (.pure (.refl w)) (hnext _ _ (.refl w)))))))) (hnext _ _ (.refl w))
        · refine onUpper_ends (hno i (by omega) hi) (fun hfr => ?_) (hs.tame i hi hik) (fun _ _ h => h) hnext ctx
          rcases hs.plain with h | h
          · exact h
          · exact absurd hfr (h i hi)

/-- What the codec hands up is finished. -/
theorem around_up {B k : Nat} (fuel : Nat) : ∀ (pos : Nat) (ctx : Ctx) (w : World), Around B w k → Fits B ctx → pos ≤ k → k < w.n →
    pos + w.n < fuel → Ends (call fuel .up pos ctx) w fun _ w' => Still w w' := by
  induction fuel with
  | zero => intro pos ctx w _ _ _ _ h; omega
  | succ fuel ih =>
    intro pos ctx w hs hctx hpk hkn hf
    simp only [call]
    refine .bind (.get ?_)
    by_cases h0 : pos = 0
    · rw [if_pos h0]; exact upperDeck_ends ctx w
    · rw [if_neg h0, if_neg (by omega)]
      obtain ⟨i, rfl⟩ : ∃ i, pos = i + 1 := ⟨pos - 1, by omega⟩
      simp only [Nat.add_sub_cancel]
      refine onLower_ends (B := B) (hs.frames i (by omega)) (hs.tame i (by omega) (by omega)) (fun _ _ h => h) (fun hb ctx' w' h _ => ?_)
        (fun ctx' w' hc' h => ?_) ctx hctx
      · have hn := h.ev.n
        have hno : NoLoopFrom (i + 1 + 1 - 1) w := fun l l1 l2 => hs.turn i l (by omega) hb (by omega) l2
        exact (around_down fuel (i + 1 + 1) ctx' w' (hs.evolves h.ev) (hno.evolves h.ev) (by omega) (by omega)).mono fun _ _ h' => h.trans h'
      · have hn := h.ev.n
        exact (ih i ctx' w' (hs.evolves h.ev) hc' (by omega) (by omega) (by omega)).mono fun _ _ h' => h.trans h'

/-- The way up from an enabled GOBCodec whose decoder returns. -/
theorem around_gob {B k f : Nat} {w : World} {e : Val → GoM St (Option Err)} {d : GoM St (Val × Option Err)} (ha : Around B w k) (hk : k < w.n)
    (hkind : w.procs k = ⟨true, .gobCodec e d⟩) {ctx : Ctx} {ub ub' : St} {r : Val × Option Err} (hbuf : ctx.buf = some ub) (hd : d ub = (.ok r, ub'))
    (hfit : FitsBuf B ub') (hf : k + w.n + 1 < f) : (call f .up (k + 1) ctx w).1 ≠ .running := by
  obtain ⟨f, rfl⟩ : ∃ g, f = g + 1 := ⟨f - 1, by omega⟩
  rw [call_up hk, hkind]
  simp only [onLower, genericLower, if_true, hbuf]
  rw [bind_apply, onBuf, hd]
  simp only
  split
  · intro h; cases h
  · exact (around_up f k { ctx with buf := some ub', msg := r.1 } w ha (fun s h => by cases h; exact hfit) (Nat.le_refl k) hk (by omega)).ne_running

section
variable {σ : Type} {T : Nat} {h : σ → List Byte → σ ⊕ (Val × Option Err)}

/-- C100, with any processors above the codec: with enough steps for everything that ends at all, a read that brings the bytes `b` to the GOBCodec is
not finished exactly if `b` stops where the decoder wants more. -/
theorem c100_exact_above {B : Nat} (w : World) (k : Nat) (hcar : Host w k) (ha : Around B w k) (s : Int) (b : List Byte) (hb : b.length ≤ B)
    (hr : Reaches w k s b) (c : ConnId) (hbytes : (w.conns c).useRef = false) (st : σ) (e : Val → GoM St (Option Err)) (N : Nat)
    (hN : b.length + 2 ≤ N) (hkind : (w.procs k).kind = .gobCodec e (gobDecode T h .nil st N)) (fuel : Nat) (hf : 2 * w.n + 2 < fuel) :
    (receive fuel c (wire w k s b) w).1 = .running ↔ Stalls T h st b := by
  refine ⟨fun hrun => ?_, fun hs => c100_never_finished w k hcar s b hr c hbytes st e N hkind hs fuel⟩
  obtain ⟨ctx', w', a1, a2, a3, a4, a5⟩ := receive_reach w k hcar s b hr c hbytes fuel (by omega)
  have hk := hcar.pos
  have hn := a3.n
  have hp : w'.procs k = ⟨true, .gobCodec e (gobDecode T h .nil st N)⟩ := by
    rw [a4 k (Nat.le_refl k), ← hkind, ← hcar.codecOn]
  obtain ⟨ub, g1, g2, g3⟩ := a1
  refine Classical.byContradiction fun hns => ?_
  obtain ⟨r, s', h1, h2, h3⟩ := gobLoop_ends (nothing := Val.nil) b.length st ub g2 (by rw [g3]; exact Nat.le_refl _) (by rw [g3]; exact hns) N N (by omega) (by omega)
  exact around_gob (ha.evolves a3) (by omega) hp g1 h1 ⟨h2, by rw [g3] at h3; omega⟩ (by omega) (a5.1 hrun)

end

/-- Echo, GOBCodec, session resolver, frame decoder -/
def gobEcho (N : Nat) : World :=
  { quiet with
    mtu := 64
    overhead := 8
    n := 4
    procs := fun j => match j with
      | 0 => ⟨true, .echo⟩
      | 1 => ⟨true, .gobCodec (fun v => match v with | .bytes b => UBuf.write b >>= fun _ => Pure.pure none | _ => Pure.pure none)
          (gobDecode 1000 toyGobVal .nil () N)⟩
      | 2 => ⟨true, .session⟩
      | _ => ⟨true, .frame (some UBuf.demo)⟩ }

theorem gobEcho_host (N : Nat) : Host (gobEcho N) 1 := by
  refine ⟨by show 1 < 4; decide, rfl, fun j h1 h2 => ?_, fun j h1 h2 h3 => ?_, by show (64 : Int) < 2 ^ 32; decide⟩
  · match j, h1, h2 with
    | 2, _, _ => trivial
    | 3, _, _ => trivial
  · match j, h1, h2, h3 with
    | 2, _, _, ⟨⟨c, h⟩, _⟩ => cases h
    | 3, _, _, _ => 
      obtain ⟨cc, g1, g2⟩ := five_carrier.idle 4 (by omega) (by decide) ⟨⟨_, rfl⟩, rfl⟩
      exact ⟨cc, g1, g2⟩

theorem gobEcho_around (N B : Nat) : Around B (gobEcho N) 1 := by
  refine ⟨fun j h1 h2 => ?_, ⟨_, _, rfl, fun v => ?_⟩, fun j l h1 _ h2 h3 => ?_, fun j h1 ⟨c, h2⟩ => ?_, .inl fun _ => rfl⟩
  · match j, h1, h2 with
    | 0, _, _ => trivial
    | 2, _, _ => trivial
    | 3, _, _ => trivial
  · cases v <;> first | exact .pure _ | exact .bind (.write _) fun _ => .pure _
  · match l, h2, h3 with
    | 1, _, _ => simp [gobEcho]
    | 2, _, _ => simp [gobEcho]
    | 3, _, _ => simp [gobEcho]
  · match j, h1 with
    | 0, _ => cases h2

theorem gobEcho_reaches (N : Nat) {b : List Byte} (hb : b ≠ []) (hl : b.length ≤ 56) : Reaches (gobEcho N) 1 3 b :=
  ⟨wrap_ne _ _ hb, by
    have h1 := wrap_length (seg (gobEcho N) 2 2) 3 b
    have h2 : room (seg (gobEcho N) 2 2) = 8 := rfl
    have h4 : (gobEcho N).mtu = 64 := rfl
    have h5 : wire (gobEcho N) 1 3 b = wrap (seg (gobEcho N) 2 2) 3 b := rfl
    rw [h5]
    omega, fun i _ _ => wrap_ne _ _ hb⟩

/-- The Echo answers a definition and a value. -/
example : (receive 12 0 (wire (gobEcho 9) 1 3 [2, 1, 5, 3, 7, 8, 9]) (gobEcho 9)).2.trace =
    [.wire 0 [0, 0, 0, 7, 0, 0, 0, 3, 7, 8, 9] ⟨11, none⟩] := by decide +kernel

/-- The same bytes without the value never get to it. -/
example (fuel : Nat) (hf : 10 < fuel) : (receive fuel 0 (wire (gobEcho 9) 1 3 [2, 1, 5]) (gobEcho 9)).1 = .running :=
  (c100_exact_above (T := 1000) (h := toyGobVal) (gobEcho 9) 1 (gobEcho_host 9) (gobEcho_around 9 64) 3 _ (by decide)
    (gobEcho_reaches 9 (by simp) (by decide)) 0 rfl () _ 9 (by decide) rfl fuel hf).2
    (.more () () [2] [1, 5] [] (.small 2 (by decide)) (by decide) rfl (.empty ()))

end Verif.Stack
