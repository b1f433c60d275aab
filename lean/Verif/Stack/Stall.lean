import Verif.Stack.Halt
import Verif.Stack.Fuel
import Verif.UBuf.Gob

/-!
# C100, third part: which reads a stack with a GOBCodec never finishes

`wire w k s b` is what a peer puts on the wire to bring the bytes `b` to `processors[k]`.  The processors below only take their
headers off; whether handling the read ends is decided by what `processors[k]` does with `b`.  With the decoder of
`UBuf/Gob.lean` in a GOBCodec (proc_codec_gob.go:53-72) the read is never finished exactly if `b` ends where the decoder wants more.
-/

namespace Verif.Stack
open GoM UBuf

/-- What the way up to position `k + 1` needs. -/
structure Clears (w : World) (k m : Nat) (s : Int) (b : List Byte) : Prop where
  n : k + 1 + m ≤ w.n
  opens : ∀ j, k < j → j < w.n → Opens (w.procs j)
  idle : ∀ j, k < j → j < k + 1 + m → Frames (w.procs j) → Idle j w
  small : (wrap (seg w (k + 1) m) s b).length < 2 ^ 32
  ne : ∀ i, i < m → Frames (w.procs (k + 1 + i)) → wrap (seg w (k + 1) i) s b ≠ []

/-- Only the processor at `i` may have changed. -/
theorem Clears.next {w w' : World} {k m : Nat} {s : Int} {b : List Byte} (h : Clears w k (m + 1) s b)
    (hn : w'.n = w.n) (hs : ∀ j, SameProc (w.procs j) (w'.procs j)) (ho : ∀ j, j ≠ k + 1 + m → w'.procs j = w.procs j) : Clears w' k m s b := by
  refine ⟨by rw [hn]; have := h.n; omega, fun j h1 h2 => (hs j).opens (h.opens j h1 (by rw [← hn]; exact h2)), fun j h1 h2 h3 => ?_, ?_, fun i h1 h2 => ?_⟩
  · obtain ⟨cc, g1, g2⟩ := h.idle j h1 (by omega) ((hs j).frames h3)
    exact ⟨cc, by rw [ho j (by omega)]; exact g1, g2⟩
  · rw [wrap_same hs]
    have h1 := h.small
    rw [seg_snoc, wrap_snoc] at h1
    simp only [List.length_append] at h1
    omega
  · rw [wrap_same hs]
    exact h.ne i (by omega) ((hs _).frames h2)

theorem feeds_one_running {up : Handler} {i : Nat} {p : List Byte} {ctx : Ctx} {w w' : World} {r : Res Ctx}
    (h : Feeds up i (.ok ()) [p] ctx w r w') :
    ∃ s c, Good s ∧ data s = p ∧ (r = .running ↔ (up { ctx with buf := some s } (w.setKind i (.frame c))).1 = .running) := by
  cases h with
  | @step _ _ _ _ s c ctx1 w1 _ _ h1 h2 h3 h4 =>
    refine ⟨s, c, h1, h2, ?_⟩
    rw [h3]
    cases h4 with
    | done _ _ b c' _ => simp
    | panic _ _ _ he => cases he
    | running _ _ _ he => cases he
  | @stepPanic _ _ _ _ s c w1 h1 h2 h3 => exact ⟨s, c, h1, h2, by rw [h3]⟩
  | @stepRunning _ _ _ _ s c w1 h1 h2 h3 => exact ⟨s, c, h1, h2, by rw [h3]⟩

/-- On the way up the headers come off, and whether the call ends is decided at position `k + 1`. -/
theorem reach (k : Nat) (b : List Byte) (s : Int) (m : Nat) : ∀ (fuel : Nat) (ctx : Ctx) (w : World), Clears w k m s b → OnBytes ctx w →
    Carries ctx (wrap (seg w (k + 1) m) s b) → m + 2 < fuel →
    ∃ ctx' w', Carries ctx' b ∧ OnBytes ctx' w' ∧ Evolves w w' ∧ (∀ j, j ≤ k → w'.procs j = w.procs j) ∧
      ((call fuel .up (k + 1 + m) ctx w).1 = .running ↔ (call (fuel - m) .up (k + 1) ctx' w').1 = .running) := by
  induction m with
  | zero => intro fuel ctx w _ hby hcar _; exact ⟨ctx, w, hcar, hby, .refl w, fun _ _ => rfl, Iff.rfl⟩
  | succ m ih =>
    intro fuel ctx w hcl hby hcar hf
    obtain ⟨f, rfl⟩ : ∃ f, fuel = f + 1 := ⟨fuel - 1, by omega⟩
    have hn := hcl.n
    have hopen := hcl.opens (k + 1 + m) (by omega) (by omega)
    rw [seg_snoc, wrap_snoc] at hcar
    rw [← Nat.add_assoc, call_up (by omega), show f + 1 - (m + 1) = f - m by omega]
    by_cases hfr : Frames (w.procs (k + 1 + m))
    · rw [frames_hdr hfr] at hcar
      have hp : w.procs (k + 1 + m) = ⟨true, (w.procs (k + 1 + m)).kind⟩ := by rw [← hfr.2]
      obtain ⟨c0, hk0⟩ := hfr.1
      have how : OneWay (k + 1 + m) w := by
        refine ⟨⟨c0, hk0⟩, fun j h1 h2 e => ?_⟩
        have := hcl.opens j (by omega) h2
        simp [Opens, e] at this
      have hsm := hcl.small
      rw [seg_snoc, wrap_snoc, frames_hdr hfr] at hsm
      obtain ⟨r, w', h1, h2, _⟩ := c22_coalesced (k + 1 + m) f (nbAt f (k + 1 + m + 1)) (OneWay (k + 1 + m))
        (by exact calm_above (k + 1 + m) f) ctx w how [wrap (seg w (k + 1) m) s b] (by simpa using hcl.ne m (by omega) hfr) hby hcar hsm
        (hcl.idle _ (by omega) (by omega) hfr) (by simp; omega)
      obtain ⟨ub, c, g1, g2, g3⟩ := feeds_one_running h2
      have hsame : ∀ j, SameProc (w.procs j) ((w.setKind (k + 1 + m) (.frame c)).procs j) := by
        intro j
        by_cases e : j = k + 1 + m
        · subst e; rw [setKind_self]; exact ⟨rfl, by rw [hk0]; trivial⟩
        · simp only [World.setKind, if_neg e]; exact .refl _
      have hne : ∀ j, j ≠ k + 1 + m → (w.setKind (k + 1 + m) (.frame c)).procs j = w.procs j := by
        intro j hj; simp only [World.setKind, if_neg hj]
      obtain ⟨ctx', w1, a1, a2, a3, a4, a5⟩ := ih f { ctx with buf := some ub } (w.setKind (k + 1 + m) (.frame c)) (hcl.next rfl hsame hne) hby
        ⟨ub, rfl, g1, by rw [g2, wrap_same hsame]⟩ (by omega)
      refine ⟨ctx', w1, a1, a2, (Evolves.setKind w _ _ (by rw [hk0]; trivial)).trans a3, fun j hj => (a4 j hj).trans (hne j (by omega)), ?_⟩
      rw [hp, h1]
      exact g3.trans a5
    · obtain ⟨ctx1, w1, ⟨a1, _⟩, a2, a3, _, _, _, a6⟩ := opens_up hopen rfl hfr hby hcar f
      rw [show onLower f (k + 1 + m) (w.procs (k + 1 + m)) (nbAt f (k + 1 + m + 1)) ctx w = _ from a6 _]
      have hby1 : OnBytes ctx1 w1 := by
        obtain ⟨c, e1, e2⟩ := hby
        exact ⟨c, a3.trans e1, by rw [a1.conns]; exact e2⟩
      have hot : ∀ j, j ≠ k + 1 + m → w1.procs j = w.procs j := fun j hj => up_keeps_others a6 j hj
      obtain ⟨ctx', w2, b1, b2, b3, b4, b5⟩ := ih f ctx1 w1 (hcl.next a1.n a1.same hot) hby1 (by rw [wrap_same a1.same]; exact a2) (by omega)
      exact ⟨ctx', w2, b1, b2, Evolves.trans ⟨a1.mtu, a1.overhead, a1.name, a1.n, a1.served, a1.write, fun j => (a1.same j).1, fun j => (a1.same j).2,
        fun c => by rw [a1.conns], fun c => by rw [a1.conns]; exact id, [], a1.trace⟩ b3, fun j hj => (b4 j hj).trans (hot j (by omega)), b5⟩

/-- Bytes for `processors[k]`: not nothing on the wire, and not nothing in a frame. -/
structure Reaches (w : World) (k : Nat) (s : Int) (b : List Byte) : Prop where
  ne : wire w k s b ≠ []
  fit : ((wire w k s b).length : Int) ≤ w.mtu
  frames : ∀ i, i < w.n - (k + 1) → Frames (w.procs (k + 1 + i)) → wrap (seg w (k + 1) i) s b ≠ []

/-- A stack whose codec is `processors[k]`, whatever is above it; below it as in `Carrier`. -/
structure Host (w : World) (k : Nat) : Prop where
  pos : k < w.n
  codecOn : (w.procs k).enable = true
  opens : ∀ j, k < j → j < w.n → Opens (w.procs j)
  idle : ∀ j, k < j → j < w.n → Frames (w.procs j) → Idle j w
  mtu : w.mtu < 2 ^ 32

theorem Carrier.host {w : World} {k : Nat} (h : Carrier w k) : Host w k := ⟨h.pos, h.codecOn, h.opens, h.idle, h.mtu⟩

/-- Handling a read ends if and only if handling its payload at position `k + 1` does. -/
theorem receive_reach (w : World) (k : Nat) (hcar : Host w k) (s : Int) (b : List Byte) (hr : Reaches w k s b) (c : ConnId)
    (hbytes : (w.conns c).useRef = false) (fuel : Nat) (hf : w.n + 2 < fuel) :
    ∃ ctx' w', Carries ctx' b ∧ OnBytes ctx' w' ∧ Evolves w w' ∧ (∀ j, j ≤ k → w'.procs j = w.procs j) ∧
      ((receive fuel c (wire w k s b) w).1 = .running ↔ (call (fuel - (w.n - (k + 1))) .up (k + 1) ctx' w').1 = .running) := by
  have hk := hcar.pos
  have hm := hcar.mtu
  have hfit := hr.fit
  obtain ⟨ub, h1, h2⟩ := receive_ok (c := c) (w := w) hr.ne hfit
  obtain ⟨ctx', w', a1, a2, a3, a4, a5⟩ := reach k b s (w.n - (k + 1)) fuel { Ctx.new with conn := some c, buf := some ub } w
    ⟨by omega, hcar.opens, fun j h1 h2 => hcar.idle j h1 (by omega), by simp only [wire] at hfit; omega, hr.frames⟩ ⟨c, rfl, hbytes⟩
    ⟨ub, rfl, h1.1, h1.data⟩ (by omega)
  refine ⟨ctx', w', a1, a2, a3, a4, ?_⟩
  rw [← a5, show k + 1 + (w.n - (k + 1)) = w.n by omega, h2 fuel, bind_apply]
  rcases call fuel .up w.n { Ctx.new with conn := some c, buf := some ub } w with ⟨r, w1⟩
  cases r <;> simp

/-- Whatever is above an enabled GOBCodec, it is not reached while the decoder runs. -/
theorem gob_up_stalls {w : World} {k f : Nat} {e : Val → GoM St (Option Err)} {d : GoM St (Val × Option Err)} (hk : k < w.n)
    (hkind : w.procs k = ⟨true, .gobCodec e d⟩) {ctx : Ctx} {ub : St} (hbuf : ctx.buf = some ub) (hd : (d ub).1 = .running) :
    (call f .up (k + 1) ctx w).1 = .running := by
  cases f with
  | zero => rfl
  | succ f =>
    rw [call_up hk, hkind]
    simp only [onLower, genericLower, if_true, hbuf]
    rw [bind_apply, onBuf]
    rcases h : d ub with ⟨r, ub'⟩
    rw [h] at hd
    simp only at hd
    subst hd
    rfl

/-- The way up from an enabled GOBCodec with only silent processors above it. -/
theorem gob_up {w : World} {k f : Nat} {e : Val → GoM St (Option Err)} {d : GoM St (Val × Option Err)} (hk : k < w.n)
    (hkind : w.procs k = ⟨true, .gobCodec e d⟩) (hq : ∀ j, j < k → Quiet (w.procs j)) {ctx : Ctx} (hby : OnBytes ctx w) {ub : St}
    (hbuf : ctx.buf = some ub) (hf : k + 1 < f) :
    (call f .up (k + 1) ctx w).1 = .running ↔ (d ub).1 = .running := by
  obtain ⟨f, rfl⟩ : ∃ g, f = g + 1 := ⟨f - 1, by omega⟩
  rw [call_up hk, hkind]
  simp only [onLower, genericLower, if_true, hbuf]
  rw [bind_apply, onBuf]
  rcases hd : d ub with ⟨r, ub'⟩
  cases r with
  | panic => simp
  | running => simp
  | ok r =>
    simp only
    refine ⟨fun h => ?_, fun h => by cases h⟩
    exfalso
    split at h
    · cases h
    · have h1 : call f .up k { ctx with buf := some ub', msg := r.1 } w = upperDeckLower { ctx with buf := some ub', msg := r.1 } w :=
        quiet_segment_up k f _ w (by omega) hq hby (by simp) (by omega)
      have h2 : (call f .up k { ctx with buf := some ub', msg := r.1 } w).1 = .running := h
      rw [h1] at h2
      exact (upperDeck_ends _ w).ne_running h2

section
variable {σ : Type} {T : Nat} {h : σ → List Byte → σ ⊕ (Val × Option Err)}

/-- C100: a stack with a GOBCodec.  With enough steps for everything that ends at all, a read that brings the bytes `b` to the codec is not
finished exactly if `b` stops where the decoder wants more. -/
theorem c100_exact (w : World) (k : Nat) (hcar : Carrier w k) (s : Int) (b : List Byte) (hr : Reaches w k s b) (c : ConnId)
    (hbytes : (w.conns c).useRef = false) (st : σ) (e : Val → GoM St (Option Err)) (N : Nat) (hN : b.length + 2 ≤ N)
    (hkind : (w.procs k).kind = .gobCodec e (gobDecode T h .nil st N)) (fuel : Nat) (hf : w.n + 2 < fuel) :
    (receive fuel c (wire w k s b) w).1 = .running ↔ Stalls T h st b := by
  obtain ⟨ctx', w', a1, a2, a3, a4, a5⟩ := receive_reach w k hcar.host s b hr c hbytes fuel hf
  have hk := hcar.pos
  have hp : w'.procs k = ⟨true, .gobCodec e (gobDecode T h .nil st N)⟩ := by
    rw [a4 k (Nat.le_refl k), ← hkind, ← hcar.codecOn]
  obtain ⟨ub, g1, g2, g3⟩ := a1
  rw [a5, gob_up (by rw [a3.n]; omega) hp (fun j hj => by rw [a4 j (by omega)]; exact hcar.quiet j hj) a2 g1 (by omega)]
  constructor
  · intro hrun
    refine Classical.byContradiction fun hn => ?_
    obtain ⟨r, s', h1, _⟩ := gobLoop_ends (nothing := Val.nil) b.length st ub g2 (by rw [g3]; exact Nat.le_refl _) (by rw [g3]; exact hn) N N (by omega) (by omega)
    rw [gobDecode, h1] at hrun
    cases hrun
  · exact fun hs => gobLoop_stalls hs ub g2 g3 N N

/-- C100 is violated: whatever the number of steps and whatever is above the codec, a read that brings such bytes to the GOBCodec is not
finished. -/
theorem c100_never_finished (w : World) (k : Nat) (hcar : Host w k) (s : Int) (b : List Byte) (hr : Reaches w k s b) (c : ConnId)
    (hbytes : (w.conns c).useRef = false) (st : σ) (e : Val → GoM St (Option Err)) (N : Nat)
    (hkind : (w.procs k).kind = .gobCodec e (gobDecode T h .nil st N)) (hs : Stalls T h st b) (fuel : Nat) :
    (receive fuel c (wire w k s b) w).1 = .running := by
  have hbig : ∀ fuel, w.n + 2 < fuel → (receive fuel c (wire w k s b) w).1 = .running := by
    intro fuel hf
    obtain ⟨ctx', w', a1, a2, a3, a4, a5⟩ := receive_reach w k hcar s b hr c hbytes fuel hf
    have hk := hcar.pos
    have hp : w'.procs k = ⟨true, .gobCodec e (gobDecode T h .nil st N)⟩ := by
      rw [a4 k (Nat.le_refl k), ← hkind, ← hcar.codecOn]
    obtain ⟨ub, g1, g2, g3⟩ := a1
    rw [a5]
    exact gob_up_stalls (by rw [a3.n]; omega) hp g1 (gobLoop_stalls hs ub g2 g3 N N)
  by_cases hf : w.n + 2 < fuel
  · exact hbig fuel hf
  · obtain ⟨ub, h1, h2⟩ := receive_ok (c := c) (w := w) hr.ne hr.fit
    have h3 := hbig (w.n + 3) (by omega)
    rw [h2] at h3 ⊢
    refine bind_running ?_
    rcases call_le fuel (w.n + 3) .up w.n { Ctx.new with conn := some c, buf := some ub } (by omega) w with h4 | h4
    · exact h4
    · rw [bind_apply] at h3
      rw [h4]
      rcases hx : call (w.n + 3) .up w.n { Ctx.new with conn := some c, buf := some ub } w with ⟨r, w1⟩
      rw [hx] at h3
      cases r with
      | ok _ => cases h3
      | panic => cases h3
      | running => rfl

/-- C100 is violated: one byte is enough.  Announcing a message of 1 to 127 bytes and sending nothing else keeps every stack with a GOBCodec busy
forever, whatever types the codec is for. -/
theorem c100_violated (w : World) (k : Nat) (hcar : Host w k) (hbuilt : Built w) (s : Int) (x : Byte) (hx : 0 < x.toNat ∧ x.toNat ≤ 127) (hT : 127 < T)
    (hfit : w.overhead + 1 ≤ w.mtu) (c : ConnId) (hbytes : (w.conns c).useRef = false) (st : σ) (e : Val → GoM St (Option Err)) (N : Nat)
    (hkind : (w.procs k).kind = .gobCodec e (gobDecode T h .nil st N)) (fuel : Nat) :
    (receive fuel c (wire w k s [x]) w).1 = .running := by
  refine c100_never_finished w k hcar s [x] ⟨wrap_ne _ s (by simp), ?_, fun i _ _ => wrap_ne _ s (by simp)⟩ c hbytes st e N hkind
    (.body st [x] x.toNat (.small x hx.2) hx.1 (by omega)) fuel
  have h1 := wrap_length (seg w (k + 1) (w.n - (k + 1))) s [x]
  have h2 := hbuilt.room_le (a := k + 1) (m := w.n - (k + 1)) (by have := hcar.pos; omega)
  simp only [wire]
  simp only [List.length_singleton] at h1
  omega

/-- The positive half of C100: every other payload is handled and the receive goroutine goes on to the next read. -/
theorem c100_finished_partial (w : World) (k : Nat) (hcar : Carrier w k) (s : Int) (b : List Byte) (hr : Reaches w k s b) (c : ConnId)
    (hbytes : (w.conns c).useRef = false) (st : σ) (e : Val → GoM St (Option Err)) (N : Nat) (hN : b.length + 2 ≤ N)
    (hkind : (w.procs k).kind = .gobCodec e (gobDecode T h .nil st N)) (hs : ¬ Stalls T h st b) (fuel : Nat) (hf : w.n + 2 < fuel) :
    (receive fuel c (wire w k s b) w).1 ≠ .running :=
  fun hrun => hs ((c100_exact w k hcar s b hr c hbytes st e N hN hkind fuel hf).1 hrun)

end

/-- A decoder for the example: messages that begin with 1 are type definitions, others are values. -/
def toyGobVal (_ : Unit) (m : List Byte) : Unit ⊕ (Val × Option Err) :=
  if m.head? = some 1 then .inl () else .inr (.bytes m, none)

/-- GOBCodec, session resolver, stat counter, heartbeat, frame decoder -/
def gobFive (N : Nat) : World := five.setKind 0 (.gobCodec (fun _ => Pure.pure none) (gobDecode 1000 toyGobVal .nil () N))

theorem gobFive_procs (N j : Nat) (h : 0 < j) : (gobFive N).procs j = five.procs j := by
  simp only [gobFive, World.setKind, if_neg (show j ≠ 0 by omega)]

theorem gobFive_carrier (N : Nat) : Carrier (gobFive N) 0 := by
  have h := five_carrier
  refine ⟨h.pos, fun j hj => absurd hj (by omega), rfl, fun j h1 h2 => ?_, fun j h1 h2 h3 => ?_, rfl, h.mtu⟩
  · rw [gobFive_procs N j h1]; exact h.opens j h1 h2
  · rw [gobFive_procs N j h1] at h3
    obtain ⟨cc, g1, g2⟩ := h.idle j h1 h2 h3
    exact ⟨cc, by rw [gobFive_procs N j h1]; exact g1, g2⟩

/-- The frame of one announcing byte, for session 3. -/
example : wire (gobFive 9) 0 3 [5] = [0, 0, 0, 7, 0, 0, 0, 0, 0, 3, 5] := by decide

example (N fuel : Nat) : (receive fuel 0 (wire (gobFive N) 0 3 [5]) (gobFive N)).1 = .running :=
  c100_violated (T := 1000) (h := toyGobVal) (gobFive N) 0 (gobFive_carrier N).host (gobFive_carrier N).built 3 5 (by decide) (by decide) (by show (10 : Int) + 1 ≤ 64; decide) 0 rfl () _ N rfl fuel

theorem gobFive_reaches (N : Nat) {b : List Byte} (hb : b ≠ []) (hl : b.length ≤ 54) : Reaches (gobFive N) 0 3 b :=
  ⟨wrap_ne _ _ hb, by
    have h1 := wrap_length (seg (gobFive N) 1 4) 3 b
    have h2 := (gobFive_carrier N).built.room_le (a := 1) (m := 4) (by show 5 ≤ 5; decide)
    have h3 : (gobFive N).overhead = 10 := rfl
    have h4 : (gobFive N).mtu = 64 := rfl
    have h5 : wire (gobFive N) 0 3 b = wrap (seg (gobFive N) 1 4) 3 b := rfl
    rw [h5]
    omega, fun i _ _ => wrap_ne _ _ hb⟩

/-- A definition and a value are decoded and delivered. -/
example : (receive 9 0 (wire (gobFive 9) 0 3 [2, 1, 5, 3, 7, 8, 9]) (gobFive 9)).2.trace = [.rx 7 (some 0) (.bytes [7, 8, 9])] := by
  decide +kernel

/-- The same bytes without the value are never finished. -/
example (N fuel : Nat) : (receive fuel 0 (wire (gobFive N) 0 3 [2, 1, 5]) (gobFive N)).1 = .running :=
  c100_never_finished (T := 1000) (h := toyGobVal) (gobFive N) 0 (gobFive_carrier N).host 3 _ (gobFive_reaches N (by simp) (by decide)) 0 rfl () _ N rfl
    (.more () () [2] [1, 5] [] (.small 2 (by decide)) (by decide) rfl (.empty ())) fuel

end Verif.Stack
