import Verif.Stack.Crash
import Verif.Stack.Split
import Verif.Stack.EchoExact

/-!
# C103: when does a conversation survive the way the stream is cut into reads

`c60_conversation` assumes that every read ends at the end of a message.  Here: for a stack over byte connections with a
FrameDecoder as lowest processor this condition is not only sufficient but necessary.  Whatever the stack above the decoder
does with a wrong payload, it can neither invent bytes nor deliver twice: every payload of length `L` handed up by the decoder
puts at most one value on a receive channel, of at most `L - H` bytes, where `H` is the length of the headers in between.
If a read ends inside a frame the decoder hands up less than was sent (`decodeRead_piece`), so something is missing.
-/

namespace Verif.Stack
open GoM UBuf

/-! ## What reaches the endpoints -/

def isRx : Obs → Bool
  | .rx _ _ _ => true
  | _ => false

/-- The deliveries of a trace. -/
def arrivals (t : List Obs) : List Obs := t.filter isRx

theorem arrivals_append (a b : List Obs) : arrivals (a ++ b) = arrivals a ++ arrivals b := List.filter_append ..

theorem arrivals_rxs (c : ConnId) (xs : List Item) : arrivals (rxs c xs) = rxs c xs := by
  simp only [arrivals, rxs, List.filter_eq_self, List.mem_map]
  rintro _ ⟨x, _, rfl⟩; rfl

/-- The number of bytes of a delivered byte slice or string. -/
def bulk : Obs → Nat
  | .rx _ _ (.bytes b) => b.length
  | .rx _ _ (.str b) => b.length
  | _ => 0

/-- The observations of a kind; the deliveries are `sight isRx`. -/
def sight (q : Obs → Bool) (t : List Obs) : List Obs := t.filter q

theorem sight_append (q : Obs → Bool) (a b : List Obs) : sight q (a ++ b) = sight q a ++ sight q b := List.filter_append ..

/-- Not what a stack does downwards or prints. -/
structure Deaf (q : Obs → Bool) : Prop where
  wire : ∀ c p r, q (.wire c p r) = false
  closed : ∀ c, q (.closed c) = false
  shown : ∀ t r s, q (.shown t r s) = false

theorem deaf_isRx : Deaf isRx := ⟨fun _ _ _ => rfl, fun _ => rfl, fun _ _ _ => rfl⟩

theorem Deaf.snoc {q : Obs → Bool} {o : Obs} (h : q o = false) (t : List Obs) : sight q (t ++ [o]) = sight q t := by simp [sight, h]

/-! ## Computations seen through the observations of a kind -/

/-- However `m` ends, the observations are then as `R` says, and if it returns the context is still that of connection `c`. -/
def Emits (q : Obs → Bool) (c : ConnId) (R : List Obs → Prop) (m : GoM World Ctx) (w : World) : Prop :=
  R (sight q (m w).2.trace) ∧ ∀ x, (m w).1 = .ok x → x.conn = some c

variable {q : Obs → Bool} {c : ConnId} {R : List Obs → Prop} {w : World}

theorem Emits.mono {S : List Obs → Prop} {m : GoM World Ctx} (h : Emits q c R m w) (hi : ∀ t, R t → S t) : Emits q c S m w := ⟨hi _ h.1, h.2⟩

theorem Emits.pure (h : R (sight q w.trace)) {ctx : Ctx} (hc : ctx.conn = some c) : Emits q c R (Pure.pure ctx) w :=
  ⟨h, fun x e => by cases e; exact hc⟩

theorem Emits.bind {m : GoM World α} {f : α → GoM World Ctx} (h0 : R (sight q (m w).2.trace))
    (h : ∀ a w', m w = (.ok a, w') → Emits q c R (f a) w') : Emits q c R (m >>= f) w := by
  simp only [Emits, bind_apply]
  rcases hm : m w with ⟨r, w'⟩
  rw [hm] at h0
  cases r with
  | ok a => exact h a w' hm
  | panic => exact ⟨h0, fun x e => by cases e⟩
  | running => exact ⟨h0, fun x e => by cases e⟩

theorem Emits.ite {p : Prop} [Decidable p] {m n : GoM World Ctx} (h1 : Emits q c R m w) (h2 : Emits q c R n w) :
    Emits q c R (if p then m else n) w := by split <;> assumption

theorem Emits.get {f : World → GoM World Ctx} (h : Emits q c R (f w) w) : Emits q c R (GoM.get >>= f) w := by
  simp only [Emits, bind_of_ok (get_apply w)]; exact h

theorem Emits.onBuf {s : St} {m : GoM St α} {f : α × St → GoM World Ctx} (h0 : R (sight q w.trace))
    (h : ∀ a s', m s = (.ok a, s') → Emits q c R (f (a, s')) w) : Emits q c R (Stack.onBuf s m >>= f) w := by
  have hw : (Stack.onBuf s m w).2 = w := by simp only [Stack.onBuf]; split <;> rfl
  refine .bind (by rw [hw]; exact h0) fun a w' e => ?_
  have : w' = w := by rw [e] at hw; exact hw
  subst this
  simp only [Stack.onBuf] at e
  split at e
  · rename_i a' s' hm
    injection e with e1 e2
    injection e1 with e1
    subst e1
    exact h _ _ hm
  · cases e
  · cases e

theorem Emits.alloc {a b : Int} {f : St → GoM World Ctx} (h0 : R (sight q w.trace)) (h : ∀ s, Emits q c R (f s) w) :
    Emits q c R (allocBuf a b >>= f) w :=
  .bind h0 fun s w' e => by
    simp only [allocBuf] at e
    injection e with _ e
    subst e
    exact h s

theorem Emits.useRef {conn : Option ConnId} {f : Bool → GoM World Ctx} (hc : conn = some c) (h : Emits q c R (f (w.conns c).useRef) w) :
    Emits q c R (useReference conn >>= f) w := by
  subst hc
  simp only [Emits, bind_of_ok (useReference_some c w)]
  exact h

theorem Emits.setKind {i : Nat} {k : Kind} {f : Unit → GoM World Ctx} (h : Emits q c R (f ()) (w.setKind i k)) :
    Emits q c R (Stack.setKind i k >>= f) w := h

theorem Emits.observe {o : Obs} {f : Unit → GoM World Ctx} (h : Emits q c R (f ()) { w with trace := w.trace ++ [o] }) :
    Emits q c R (Stack.observe o >>= f) w := h

/-! ## Going down -/

theorem mute_close (hq : Deaf q) (c' : ConnId) : sight q ((closeConnection c' w).2.trace) = sight q w.trace :=
  Deaf.snoc (hq.closed c') w.trace

theorem mute_connWrite (hq : Deaf q) (c' : ConnId) (p : List Byte) : sight q (connWrite c' p w).2.trace = sight q w.trace := by
  simp only [connWrite]
  rw [bind_of_ok (get_apply w)]
  split
  · rfl
  · exact Deaf.snoc (hq.wire _ _ _) w.trace

theorem mute_writeToConn (hq : Deaf q) (c' : ConnId) (ub : St) : sight q (writeToConn c' ub w).2.trace = sight q w.trace := by
  have hb : ∀ {α : Type} (s : St) (m : GoM St α) (w : World), (onBuf s m w).2 = w := by
    intro α s m w; simp only [onBuf]; split <;> rfl
  simp only [writeToConn]
  split
  · rfl
  · rw [bind_apply]
    have h1 := hb ub (UBuf.bytesRange ub.ub.reader ub.ub.writer) w
    rcases h : onBuf ub (UBuf.bytesRange ub.ub.reader ub.ub.writer) w with ⟨r, w1⟩
    rw [h] at h1
    simp only at h1
    subst h1
    cases r with
    | panic => rfl
    | running => rfl
    | ok a =>
      simp only
      rw [bind_apply]
      have h2 := mute_connWrite (w := w1) hq c' a.1
      rcases h' : connWrite c' a.1 w1 with ⟨r, w2⟩
      rw [h'] at h2
      cases r with
      | panic => exact h2
      | running => exact h2
      | ok b =>
        simp only
        rw [bind_apply]
        have h3 := hb ub (UBuf.writeTo fun _ => b) w2
        rcases h'' : onBuf ub (UBuf.writeTo fun _ => b) w2 with ⟨r, w3⟩
        rw [h''] at h3
        simp only at h3
        subst h3
        cases r <;> exact h2

theorem emits_lowerDeck (hq : Deaf q) {ctx : Ctx} (hc : ctx.conn = some c) (hby : (w.conns c).useRef = false) (h0 : R (sight q w.trace)) :
    Emits q c R (lowerDeckUpper ctx) w := by
  simp only [lowerDeckUpper, hc]
  refine .useRef rfl ?_
  rw [hby, if_neg (by simp)]
  split
  · exact .pure h0 hc
  · rename_i ub _
    have h1 := mute_writeToConn (w := w) hq c ub
    refine .bind (by rw [h1]; exact h0) fun a w' e => ?_
    rw [e] at h1
    simp only at h1
    split
    · exact .bind (by rw [mute_close hq, h1]; exact h0) fun _ w'' e' => by
        have := mute_close (w := w') hq c
        rw [e'] at this
        exact .pure (by rw [this, h1]; exact h0) rfl
    · exact .pure (by rw [h1]; exact h0) rfl

theorem emits_tagDown {nb : Nb} {t : Byte} {ctx : Ctx} {ub : St} (hc : ctx.conn = some c) (h0 : R (sight q w.trace))
    (hd : ∀ ctx' : Ctx, ctx'.conn = some c → Emits q c R (nb.downUpper ctx') w) : Emits q c R (tagDown t nb ctx ub) w :=
  .onBuf h0 fun _ _ _ => hd _ hc

/-- `OnUpperData` of the processors below a codec. -/
theorem emits_onUpper {i : Nat} {nb : Nb} (ho : Opens (w.procs i)) {ctx : Ctx} (hc : ctx.conn = some c) (hby : (w.conns c).useRef = false)
    (h0 : R (sight q w.trace))
    (hd : ∀ (ctx' : Ctx) (w' : World), ctx'.conn = some c → Evolves w w' → sight q w'.trace = sight q w.trace → Emits q c R (nb.downUpper ctx') w') :
    Emits q c R (onUpper i (w.procs i) nb ctx) w := by
  have hd0 : ∀ ctx' : Ctx, ctx'.conn = some c → Emits q c R (nb.downUpper ctx') w := fun x hx => hd x w hx (.refl w) rfl
  generalize hp : w.procs i = p at *
  obtain ⟨en, k⟩ := p
  have hk : (w.procs i).kind = k := by rw [hp]
  cases k with
  | base => exact ho.elim
  | loopback => exact ho.elim
  | bytesCodec => cases (show en = false from ho); exact hd0 _ hc
  | stringCodec => cases (show en = false from ho); exact hd0 _ hc
  | jsonCodec m u => cases (show en = false from ho); exact hd0 _ hc
  | genericCodec e d => cases (show en = false from ho); exact hd0 _ hc
  | gobCodec e d => cases (show en = false from ho); exact hd0 _ hc
  | filter f a b => cases (show en = false from ho); exact hd0 _ hc
  | forwarder f a b => cases (show en = false from ho); exact hd0 _ hc
  | echo => exact hd0 _ hc
  | discarder => exact hd0 _ hc
  | flow => exact hd0 _ hc
  | session =>
    refine .ite ?_ (hd0 _ hc)
    cases hb : ctx.buf with
    | none => exact .pure h0 hc
    | some ub => exact .onBuf h0 fun _ _ _ => .ite (.pure h0 hc) (hd0 _ hc)
  | frame x =>
    refine .useRef hc ?_
    rw [hby, if_neg (by simp)]
    refine .ite ?_ (hd0 _ hc)
    cases hb : ctx.buf with
    | none => exact .pure h0 hc
    | some ub => exact .onBuf h0 fun _ _ _ => hd0 _ hc
  | stat tx rx =>
    refine .useRef hc ?_
    rw [hby, if_neg (by simp)]
    cases hb : ctx.buf with
    | none => exact .pure h0 hc
    | some ub =>
      cases en with
      | false => exact emits_tagDown hc h0 hd0
      | true => exact .setKind (emits_tagDown hc h0 fun ctx' h => hd ctx' _ h (.setKind w i _ (by rw [hk]; trivial)) rfl)
  | heartbeat =>
    refine .useRef hc ?_
    rw [hby, if_neg (by simp)]
    cases hb : ctx.buf with
    | none => exact .pure h0 hc
    | some ub => exact emits_tagDown hc h0 hd0
  | loadBalancer =>
    refine .useRef hc ?_
    rw [hby, if_neg (by simp)]
    cases hb : ctx.buf with
    | none => exact .pure h0 hc
    | some ub => exact emits_tagDown hc h0 hd0

/-- Nothing that goes down arrives at an endpoint. -/
theorem emits_down (hq : Deaf q) (k : Nat) (fuel : Nat) : ∀ (pos : Nat) (ctx : Ctx) (w : World), (∀ j, k < j → j < w.n → Opens (w.procs j)) →
    k + 1 < pos → ctx.conn = some c → (w.conns c).useRef = false → R (sight q w.trace) → Emits q c R (call fuel .down pos ctx) w := by
  induction fuel with
  | zero => intro pos ctx w _ _ hc _ h0; exact ⟨h0, fun x e => by cases e⟩
  | succ fuel ih =>
    intro pos ctx w ho hp hc hby h0
    simp only [call]
    refine .get ?_
    rw [if_neg (by omega)]
    by_cases hn : pos > w.n
    · rw [if_pos hn]; exact emits_lowerDeck hq hc hby h0
    · rw [if_neg hn]
      exact emits_onUpper (ho (pos - 1) (by omega) (by omega)) hc hby h0 fun ctx' w' h1 h2 h3 =>
        ih (pos + 1) ctx' w' (fun j j1 j2 => (h2.sameProc j).opens (ho j j1 (by rw [← h2.n]; exact j2))) (by omega) h1 (by rw [h2.useRef]; exact hby)
          (by rw [h3]; exact h0)

/-! ## Going up -/

/-- The length of the header of a processor, and of those of several. -/
def hlen (p : Proc) : Nat := (hdr p 0 []).length

def hlens (ps : List Proc) : Nat := (ps.map hlen).sum

theorem wrap_weight (ps : List Proc) (s : Int) : ∀ b : List Byte, (wrap ps s b).length = hlens ps + b.length := by
  induction ps with
  | nil => intro b; simp [wrap, hlens]
  | cons p ps ih =>
    intro b
    have := hdr_len p s 0 b []
    simp only [wrap, ih, hlens, List.map_cons, List.sum_cons, List.length_append, hlen]
    omega

theorem SameProc.hlen {p q : Proc} (h : SameProc p q) : hlen q = hlen p := by rw [Stack.hlen, h.hdr_eq]; rfl

theorem shrink_readByte {L : Nat} {s s' : St} {r : Byte × Option Err} (h : FitsBuf L s) (hr : UBuf.readByte s = (.ok r, s')) :
    r.2.isSome = true ∨ (FitsBuf (L - 1) s' ∧ 1 ≤ L) := by
  have hb := Buf.of_good h.1
  have hl : (data s).length ≤ L := h.2
  cases hc : (view s).content with
  | nil =>
    obtain ⟨s1, h1, _⟩ := hb.readByte_nil hc
    rw [hr] at h1
    injection h1 with h1 _
    injection h1 with h1
    subst h1
    exact .inl rfl
  | cons b bs =>
    obtain ⟨s1, h1, h2⟩ := hb.readByte_cons hc
    rw [hr] at h1
    injection h1 with _ h1
    subst h1
    simp only [data, hc, List.length_cons] at hl
    refine .inr ⟨⟨h2.1, ?_⟩, by omega⟩
    rw [h2.data]
    simp only [Deque.pop, hc, List.drop_succ_cons, List.drop_zero]
    omega

theorem shrink_readU {L : Nat} {s s' : St} {r : Nat × Option Err} (h : FitsBuf L s) (hr : UBuf.readU .u32 .be s = (.ok r, s')) :
    r.2.isSome = true ∨ (FitsBuf (L - 4) s' ∧ 4 ≤ L) := by
  have hb := Buf.of_good h.1
  have hl : (view s).content.length ≤ L := h.2
  by_cases hc : (view s).content.length < 4
  · obtain ⟨s1, h1, _⟩ := hb.readU_short .u32 .be hc
    rw [hr] at h1
    injection h1 with h1 _
    injection h1 with h1
    subst h1
    exact .inl rfl
  · obtain ⟨s1, h1, h2⟩ := hb.readU .u32 .be (by simp only [Width.size]; omega)
    rw [hr] at h1
    injection h1 with _ h1
    subst h1
    refine .inr ⟨⟨h2.1, ?_⟩, by omega⟩
    rw [h2.data]
    simp only [Deque.pop, List.length_drop, Width.size]
    omega

theorem shrink_read {L n : Nat} {s s' : St} {r : List Byte × Option Err} (h : FitsBuf L s) (hr : UBuf.read n s = (.ok r, s')) : r.1.length ≤ L := by
  have hb := Buf.of_good h.1
  have hl : (view s).content.length ≤ L := h.2
  obtain ⟨s1, h1, _⟩ := hb.read n
  rw [hr] at h1
  injection h1 with h1 _
  injection h1 with h1
  subst h1
  simp only [Deque.readRes]
  split
  · simp
  · simp only [List.length_take]; omega

/-- `OnLowerData` of the processors below a codec other than an enabled FrameDecoder: nothing is delivered by themselves, a Heartbeat may see a sign of
life, and what is handed up is shorter by the header. -/
theorem emits_onLower {fuel i L : Nat} {nb : Nb} (hq : Deaf q ∨ ∀ tx rx, (w.procs i).kind ≠ .stat tx rx) (ho : Opens (w.procs i)) (hnf : ¬ Frames (w.procs i)) {ctx : Ctx} (hc : ctx.conn = some c)
    (hfit : Fits L ctx) (hby : (w.conns c).useRef = false) (h0 : R (sight q w.trace))
    (hb0 : hlen (w.procs i) ≤ L → R (sight q (w.trace ++ [.beat i (some c)])))
    (hd : Deaf q → ∀ ctx' : Ctx, ctx'.conn = some c → Emits q c R (nb.downUpper ctx') w)
    (hu : ∀ (ctx' : Ctx) (w' : World), ctx'.conn = some c → Fits (L - hlen (w.procs i)) ctx' → hlen (w.procs i) ≤ L → Evolves w w' →
      sight q w'.trace = sight q w.trace → Emits q c R (nb.upLower ctx') w') :
    Emits q c R (onLower fuel i (w.procs i) nb ctx) w := by
  have hu0 : ∀ ctx' : Ctx, ctx'.conn = some c → Fits (L - hlen (w.procs i)) ctx' → hlen (w.procs i) ≤ L →
    Emits q c R (nb.upLower ctx') w := fun x h1 h2 h3 => hu x w h1 h2 h3 (.refl w) rfl
  generalize hp : w.procs i = p at *
  obtain ⟨en, k⟩ := p
  have hk : (w.procs i).kind = k := by rw [hp]
  have hpass : hlen ⟨en, k⟩ = 0 → Emits q c R (nb.upLower ctx) w := fun h => hu0 _ hc (by rw [h]; exact hfit) (by omega)
  cases k with
  | base => exact ho.elim
  | loopback => exact ho.elim
  | bytesCodec => cases (show en = false from ho); exact hpass rfl
  | stringCodec => cases (show en = false from ho); exact hpass rfl
  | jsonCodec m u => cases (show en = false from ho); exact hpass rfl
  | genericCodec e d => cases (show en = false from ho); exact hpass rfl
  | gobCodec e d => cases (show en = false from ho); exact hpass rfl
  | filter f a b => cases (show en = false from ho); exact hpass rfl
  | forwarder f a b => cases (show en = false from ho); exact hpass rfl
  | echo => cases (show en = false from ho); exact hpass rfl
  | discarder => cases (show en = false from ho); exact hpass rfl
  | flow => exact hpass rfl
  | session =>
    cases en with
    | false => exact hpass rfl
    | true =>
      simp only [onLower, sessionLower, if_true]
      cases hb : ctx.buf with
      | none => exact .pure h0 hc
      | some ub =>
        refine .onBuf h0 fun r s' hr => ?_
        rcases shrink_readU (hfit ub hb) hr with he | ⟨h1, h2⟩
        · rw [if_pos he]; exact .pure h0 hc
        · exact .ite (.pure h0 hc) (hu0 _ hc (.of h1 rfl) h2)
  | frame x =>
    cases en with
    | true => exact absurd ⟨⟨x, rfl⟩, rfl⟩ hnf
    | false =>
      refine .useRef hc ?_
      rw [hby, if_neg (by simp)]
      cases hb : ctx.buf with
      | none => exact .pure h0 hc
      | some ub => exact hpass rfl
  | stat tx rx =>
    have hq : Deaf q := hq.resolve_right fun h => h tx rx rfl
    refine .useRef hc ?_
    rw [hby, if_neg (by simp)]
    cases hb : ctx.buf with
    | none => exact .pure h0 hc
    | some ub =>
      refine .onBuf h0 fun r s' hr => ?_
      rcases shrink_readByte (hfit ub hb) hr with he | ⟨h1, h2⟩
      · simp only [he, if_true]; exact .pure h0 hc
      · refine .ite (.pure h0 hc) (.ite (.ite ?_ (.ite ?_ ?_)) (hu0 _ hc (.of h1 rfl) h2))
        · exact .get (.alloc h0 fun _ => .onBuf h0 fun _ _ _ => .onBuf h0 fun _ _ _ => .onBuf h0 fun _ _ _ => .onBuf h0 fun _ _ _ => hd hq _ hc)
        · refine .onBuf h0 fun _ _ _ => .onBuf h0 fun _ _ _ => .onBuf h0 fun _ _ _ => .observe (.pure ?_ hc)
          rw [Deaf.snoc (hq.shown _ _ _)]
          exact h0
        · exact .setKind (hu _ _ hc (.of h1 rfl) h2 (.setKind w i _ (by rw [hk]; trivial)) rfl)
  | heartbeat =>
    refine .useRef hc ?_
    rw [hby, if_neg (by simp)]
    cases hb : ctx.buf with
    | none => exact .pure h0 hc
    | some ub =>
      refine .onBuf h0 fun r s' hr => ?_
      rcases shrink_readByte (hfit ub hb) hr with he | ⟨h1, h2⟩
      · simp only [he, if_true]; exact .pure h0 hc
      · refine .ite (.pure h0 hc) (.ite (.observe (.pure ?_ hc)) (hu0 _ hc (.of h1 rfl) h2))
        rw [hc]
        exact hb0 h2
  | loadBalancer =>
    refine .useRef hc ?_
    rw [hby, if_neg (by simp)]
    cases hb : ctx.buf with
    | none => exact .pure h0 hc
    | some ub =>
      refine .onBuf h0 fun r s' hr => ?_
      rcases shrink_readByte (hfit ub hb) hr with he | ⟨h1, h2⟩
      · simp only [he, if_true]; exact .pure h0 hc
      · exact .ite (.pure h0 hc) (.ite (.pure h0 hc) (hu0 _ hc (.of h1 rfl) h2))

/-- A stack over the byte connection `c` with the codec for byte slices or strings at `k`, silent processors above it, and below it header
processors and transparent ones, without enabled FrameDecoders above position `a`. -/
structure Lone (c : ConnId) (k a : Nat) (w : World) : Prop where
  pos : k < a
  le : a ≤ w.n
  quiet : ∀ j, j < k → Quiet (w.procs j)
  codec : w.procs k = ⟨true, .bytesCodec⟩ ∨ w.procs k = ⟨true, .stringCodec⟩
  opens : ∀ j, k < j → j < w.n → Opens (w.procs j)
  only : ∀ j, k < j → j < a → ¬ Frames (w.procs j)
  bytes : (w.conns c).useRef = false

theorem Lone.evolves {k a : Nat} {w' : World} (h : Lone c k a w) (he : Evolves w w') : Lone c k a w' := by
  have hn := he.n
  refine ⟨h.pos, by rw [hn]; exact h.le, fun j hj => (he.sameProc j).quiet (h.quiet j hj), ?_,
    fun j h1 h2 => (he.sameProc j).opens (h.opens j h1 (by rw [← hn]; exact h2)),
    fun j h1 h2 h3 => h.only j h1 h2 ((he.sameProc j).frames h3), by rw [he.useRef]; exact h.bytes⟩
  obtain ⟨h1, h2⟩ := he.sameProc k
  rcases h.codec with e | e <;> rw [e] at h1 h2 <;> generalize w'.procs k = p at h1 h2 <;> obtain ⟨en, kd⟩ := p <;>
    simp only at h1 <;> subst h1 <;> cases kd <;> simp_all [Kind.Same]

/-- The lowest processor is an enabled FrameDecoder, the only one. -/
structure Sole (c : ConnId) (k : Nat) (w : World) : Prop extends Lone c k (w.n - 1) w where
  frames : Frames (w.procs (w.n - 1))

theorem Sole.evolves {k : Nat} {w' : World} (h : Sole c k w) (he : Evolves w w') : Sole c k w' :=
  ⟨by rw [he.n]; exact h.toLone.evolves he, by rw [he.n]; exact SameProc.frames ⟨(he.sameProc _).1.symm, (he.sameProc _).2.symm⟩ h.frames⟩

/-- Above the codec: one delivery of the value, or none. -/
theorem emits_above {k a : Nat} (fuel : Nat) : ∀ (pos : Nat) (ctx : Ctx) (w : World), pos ≤ k → Lone c k a w → ctx.conn = some c →
    R (sight q w.trace) → (∀ ep, R (sight q (w.trace ++ [.rx ep (some c) ctx.msg]))) → Emits q c R (call fuel .up pos ctx) w := by
  induction fuel with
  | zero => intro pos ctx w _ _ _ h0 _; exact ⟨h0, fun x e => by cases e⟩
  | succ fuel ih =>
    intro pos ctx w hp hs hc h0 h1
    have hpos := hs.pos
    have hle := hs.le
    simp only [call]
    refine .get ?_
    by_cases hz : pos = 0
    · rw [if_pos hz]
      simp only [upperDeckLower]
      refine .ite (.pure h0 hc) (.get ?_)
      split
      · exact .pure h0 hc
      · rename_i ep _
        refine .observe (.pure ?_ hc)
        rw [hc]
        exact h1 ep
    · rw [if_neg hz, if_neg (by omega)]
      have hq := hs.quiet (pos - 1) (by omega)
      have hu := ih (pos - 1) ctx w (by omega) hs hc h0 h1
      generalize hpr : w.procs (pos - 1) = p at hq ⊢
      obtain ⟨en, kd⟩ := p
      cases kd with
      | base => exact hq.elim
      | loopback => exact hq.elim
      | stat _ _ => exact hq.elim
      | heartbeat => exact hq.elim
      | loadBalancer => exact hq.elim
      | flow => exact hu
      | frame x =>
        cases (show en = false from hq)
        refine .useRef hc ?_
        rw [hs.bytes, if_neg (by simp)]
        cases hb : ctx.buf with
        | none => exact .pure h0 hc
        | some ub => exact hu
      | _ => cases (show en = false from hq); exact hu

theorem hlens_append (ps qs : List Proc) : hlens (ps ++ qs) = hlens ps + hlens qs := by simp [hlens]

theorem hlens_seg {w' : World} (he : Evolves w w') (a m : Nat) : hlens (seg w' a m) = hlens (seg w a m) := by
  simp only [hlens, seg, List.map_map]
  congr 1
  exact List.map_congr_left fun j _ => (he.sameProc j).hlen

/-- A delivery for connection `c`, or a sign of life of its peer. -/
def Sign (c : ConnId) (o : Obs) : Prop := (∃ ep v, o = .rx ep (some c) v) ∨ ∃ h, o = .beat h (some c)

/-- How many bytes must have come in at position `k + 1 + m` for this: the payload and the headers above for a delivery, the headers up to the tag of the
Heartbeat for a sign of life. -/
def need (w : World) (k m : Nat) : Obs → Nat
  | .beat h _ => hlens (seg w h (k + 1 + m - h))
  | o => bulk o + hlens (seg w (k + 1) m)

theorem need_evolves {w' : World} (he : Evolves w w') (k m : Nat) : need w' k m = need w k m := by
  funext o
  cases o <;> simp only [need, hlens_seg he]

theorem need_succ (k m : Nat) (o : Obs) : need w k (m + 1) o ≤ need w k m o + hlen (w.procs (k + 1 + m)) := by
  have h1 : hlens (seg w (k + 1) (m + 1)) = hlens (seg w (k + 1) m) + hlen (w.procs (k + 1 + m)) := by
    rw [seg_snoc, hlens_append]; simp [hlens]
  cases o with
  | beat h c =>
    simp only [need]
    by_cases hle : h ≤ k + 1 + m
    · rw [show k + 1 + (m + 1) - h = k + 1 + m - h + 1 by omega, seg_snoc, hlens_append, show h + (k + 1 + m - h) = k + 1 + m by omega]
      simp [hlens]
    · rw [show k + 1 + (m + 1) - h = 0 by omega]; simp [seg, hlens]
  | _ => simp only [need]; omega

/-- No StatCounter below the codec: it answers requests and prints answers. -/
def Statless (k : Nat) (w : World) : Prop := ∀ j, k < j → j < w.n → ∀ tx rx, (w.procs j).kind ≠ .stat tx rx

theorem Statless.evolves {w' : World} {k : Nat} (h : Statless k w) (he : Evolves w w') : Statless k w' := by
  intro j h1 h2 tx rx e
  have h3 := (he.sameProc j).2
  rw [e] at h3
  cases hk : (w.procs j).kind <;> rw [hk] at h3 <;> simp [Kind.Same] at h3
  exact h j h1 (by rw [← he.n]; exact h2) _ _ hk

/-- A buffer of `L` bytes that enters the chain from below puts at most one value on a receive channel, or is a sign of life for at most one Heartbeat, and
no more bytes are needed for that. -/
theorem emits_up {k a : Nat} (fuel : Nat) : ∀ (m : Nat) (L : Nat) (ctx : Ctx) (w : World), Deaf q ∨ Statless k w → k + 1 + m ≤ a → Lone c k a w → ctx.conn = some c → Fits L ctx →
    R (sight q w.trace) →
    (∀ o, Sign c o → need w k m o ≤ L → R (sight q (w.trace ++ [o]))) → Emits q c R (call fuel .up (k + 1 + m) ctx) w := by
  induction fuel with
  | zero => intro m L ctx w _ _ _ _ _ h0 _; exact ⟨h0, fun x e => by cases e⟩
  | succ fuel ih =>
    intro m L ctx w hq hn hs hc hfit h0 h1
    have hle := hs.le
    simp only [call]
    refine .get ?_
    rw [if_neg (by omega), if_neg (by omega)]
    cases m with
    | zero =>
      simp only [Nat.add_zero, Nat.add_sub_cancel]
      have key : ∀ (mk : List Byte → Val), (∀ b ep, bulk (.rx ep (some c) (mk b)) = b.length) →
          Emits q c R (decodeUp ctx fun ctx b => call fuel .up k { ctx with msg := mk b }) w := by
        intro mk hmk
        simp only [decodeUp]
        cases hb : ctx.buf with
        | none => exact .pure h0 hc
        | some ub =>
          refine .bind (by rw [check_apply]; split <;> exact h0) fun _ w' e => ?_
          have : w' = w := by
            rw [check_apply] at e
            split at e <;> injection e with _ e <;> exact e.symm
          subst this
          refine .onBuf h0 fun r s' hr => ?_
          have hl := shrink_read (hfit ub hb) hr
          refine .ite (.pure h0 hc) (emits_above fuel k _ _ (Nat.le_refl _) hs hc h0 fun ep => h1 _ (.inl ⟨ep, _, rfl⟩) ?_)
          show bulk _ + _ ≤ L
          rw [hmk]
          simpa [seg, hlens] using hl
      rcases hs.codec with e | e <;> rw [e]
      · exact key .bytes fun _ _ => rfl
      · exact key .str fun _ _ => rfl
    | succ m =>
      rw [show k + 1 + (m + 1) - 1 = k + 1 + m by omega]
      refine emits_onLower (L := L) (hq.imp id fun h => h _ (by omega) (by omega)) (hs.opens _ (by omega) (by omega)) (hs.only _ (by omega) (by omega)) hc hfit hs.bytes h0 ?_ ?_ ?_
      · intro hl
        refine h1 _ (.inr ⟨_, rfl⟩) ?_
        have := need_succ (w := w) k m (.beat (k + 1 + m) (some c))
        simp only [need, Nat.sub_self] at this ⊢
        simp only [seg, hlens, List.range'_zero, List.map_nil, List.sum_nil] at this
        simp only [seg, hlens]
        omega
      · intro hq' ctx' hc'
        exact emits_down hq' k fuel _ ctx' w hs.opens (by omega) hc' hs.bytes h0
      · intro ctx' w' hc' hf' hl' hev har
        refine ih m (L - hlen (w.procs (k + 1 + m))) ctx' w' (hq.imp id fun h => h.evolves hev) (by omega) (hs.evolves hev) hc' hf' (by rw [har]; exact h0) fun o ho hl => ?_
        rw [sight_append, har, ← sight_append]
        rw [need_evolves hev] at hl
        refine h1 o ho ?_
        have := need_succ (w := w) k m o
        omega

/-! ## The payloads of the decoder and the deliveries -/

/-- The observations `os`, deliveries and signs of life of connection `c`, come from the payloads `ps`, in order, at most one from each, and `N` of it is
at most the length of its payload. -/
inductive Below (c : ConnId) (N : Obs → Nat) : List Obs → List (List Byte) → Prop
  | nil : Below c N [] []
  | skip {os ps} (p : List Byte) : Below c N os ps → Below c N os (p :: ps)
  | take {o : Obs} {os ps} (p : List Byte) : Sign c o → N o ≤ p.length → Below c N os ps → Below c N (o :: os) (p :: ps)

theorem Below.none {N : Obs → Nat} : ∀ ps, Below c N [] ps
  | [] => .nil
  | p :: ps => .skip p (Below.none ps)

theorem Below.append {N : Obs → Nat} {os os' : List Obs} {ps ps' : List (List Byte)} (h : Below c N os ps) (h' : Below c N os' ps') :
    Below c N (os ++ os') (ps ++ ps') := by
  induction h with
  | nil => exact h'
  | skip p _ ih => exact .skip p ih
  | take p ho hl _ ih => exact .take p ho hl ih

theorem Below.conn {N : Obs → Nat} {os : List Obs} {ps : List (List Byte)} (h : Below c N os ps) : ∀ o ∈ os, Sign c o := by
  induction h with
  | nil => simp
  | skip p _ ih => exact ih
  | take p ho _ _ ih =>
    intro o h
    rcases List.mem_cons.mp h with rfl | h
    · exact ho
    · exact ih o h

/-- What the observations need on the wire. -/
def weight (N : Obs → Nat) (os : List Obs) : Nat := (os.map fun o => N o + 4).sum

theorem Below.weight_le {N : Obs → Nat} {os : List Obs} {ps : List (List Byte)} (h : Below c N os ps) : weight N os ≤ framed ps := by
  induction h with
  | nil => simp [weight]
  | skip p _ ih => rw [framed_cons]; omega
  | take p _ hl _ ih => rw [framed_cons]; simp only [weight, List.map_cons, List.sum_cons] at ih ⊢; omega

/-- If nothing is missing, every payload gave one observation of the full length. -/
theorem Below.exact {N : Obs → Nat} {os : List Obs} {ps : List (List Byte)} (h : Below c N os ps) (he : framed ps ≤ weight N os) :
    ps.map List.length = os.map N := by
  induction h with
  | nil => rfl
  | skip p h ih => have := h.weight_le; rw [framed_cons] at he; omega
  | take p _ hl h ih =>
    have := h.weight_le
    rw [framed_cons] at he
    simp only [weight, List.map_cons, List.sum_cons] at he this ih ⊢
    rw [ih (by omega)]
    congr 1
    omega

/-! ## One read -/

/-- The length of the headers between the codec and the FrameDecoder. -/
def inner (w : World) (k : Nat) : Nat := hlens (seg w (k + 1) (w.n - (k + 2)))

theorem inner_evolves {w' : World} {k : Nat} (he : Evolves w w') : inner w' k = inner w k := by rw [inner, hlens_seg he, he.n]; rfl

/-- What must have come in at the FrameDecoder for this, its length field apart. -/
def needs (w : World) (k : Nat) : Obs → Nat := need w k (w.n - (k + 2))

theorem needs_evolves {w' : World} {k : Nat} (he : Evolves w w') : needs w' k = needs w k := by rw [needs, need_evolves he, he.n]; rfl

theorem needs_rx (k : Nat) (ep : EpId) (c' : Option ConnId) (v : Val) : needs w k (.rx ep c' v) = bulk (.rx ep c' v) + inner w k := rfl

theorem sight_setKind (i : Nat) (k : Kind) : sight q (w.setKind i k).trace = sight q w.trace := rfl

theorem one_below {k f : Nat} {p : List Byte} {ctx : Ctx} {w : World} {s : St} {c1 : Option St} (hq : Deaf q ∨ Statless k w) (hs : Sole c k w) (hc : ctx.conn = some c)
    (hg : Good s) (hp : data s = p) (run : Res Ctx × World)
    (hrun : call f .up (w.n - 1) { ctx with buf := some s } (w.setKind (w.n - 1) (.frame c1)) = run) :
    Evolves w run.2 ∧ (∃ os, sight q run.2.trace = sight q w.trace ++ os ∧ Below c (needs w k) os [p]) ∧ ∀ x, run.1 = .ok x → x.conn = some c := by
  subst hrun
  have hn := hs.pos
  have he1 : Evolves w (w.setKind (w.n - 1) (.frame c1)) := .setKind w _ _ (by obtain ⟨⟨c0, h⟩, _⟩ := hs.frames; rw [h]; trivial)
  have he2 := call_evolves f .up (w.n - 1) { ctx with buf := some s } (w.setKind (w.n - 1) (.frame c1))
  refine ⟨he1.trans he2, ?_⟩
  obtain ⟨m, hm⟩ : ∃ m, w.n = k + 2 + m := ⟨w.n - (k + 2), by omega⟩
  have hin : needs w k = need w k m := by rw [needs, show w.n - (k + 2) = m by omega]
  rw [hin]
  have := emits_up (q := q) (c := c) (R := fun t => ∃ os, t = sight q w.trace ++ os ∧ Below c (need w k m) os [p]) (k := k) (a := w.n - 1) f m p.length
    { ctx with buf := some s } (w.setKind (w.n - 1) (.frame c1)) (hq.imp id fun h => h.evolves he1) (by omega) (hs.toLone.evolves he1) hc
    (.of ⟨hg, by rw [hp]; exact Nat.le_refl _⟩ rfl) ⟨[], by rw [sight_setKind]; simp, .none _⟩
    (fun o ho hl => ⟨sight q [o], by rw [sight_append, sight_setKind], by
      rw [need_evolves he1] at hl
      cases hqo : q o with
      | true => simp only [sight, List.filter_cons, hqo, if_true, List.filter_nil]; exact .take p ho hl .nil
      | false => simp only [sight, List.filter_cons, hqo, Bool.false_eq_true, if_false, List.filter_nil]; exact .none _⟩)
  rw [show k + 1 + m = w.n - 1 by omega] at this
  exact this

theorem feeds_below {k f i : Nat} {e : Res Unit} {ps : List (List Byte)} {ctx : Ctx} {w w2 : World} {r : Res Ctx}
    (hfd : Feeds (call f .up i) i e ps ctx w r w2) (hq : Deaf q ∨ Statless k w) (hn : i = w.n - 1) (hs : Sole c k w) (hc : ctx.conn = some c) :
    ∃ os, sight q w2.trace = sight q w.trace ++ os ∧ Below c (needs w k) os ps := by
  induction hfd with
  | done ctx w b c1 he => exact ⟨[], by rw [sight_setKind]; simp, .nil⟩
  | panic ctx w c1 he => exact ⟨[], by rw [sight_setKind]; simp, .nil⟩
  | running ctx w c1 he => exact ⟨[], by rw [sight_setKind]; simp, .nil⟩
  | @step p ps ctx w s c1 ctx1 w1 r w2 hg hp hrun _ ih =>
    subst hn
    obtain ⟨he, ⟨os, h1, h2⟩, h3⟩ := one_below hq hs hc hg hp _ hrun
    obtain ⟨os', h4, h5⟩ := ih (hq.imp id fun h => h.evolves he) (by rw [he.n]) (hs.evolves he) (h3 _ rfl)
    rw [needs_evolves he] at h5
    exact ⟨os ++ os', by rw [h4, h1, List.append_assoc], h2.append h5⟩
  | @stepPanic p ps ctx w s c1 w1 hg hp hrun =>
    subst hn
    obtain ⟨he, ⟨os, h1, h2⟩, _⟩ := one_below hq hs hc hg hp _ hrun
    exact ⟨os, h1, by simpa using h2.append (.none ps)⟩
  | @stepRunning p ps ctx w s c1 w1 hg hp hrun =>
    subst hn
    obtain ⟨he, ⟨os, h1, h2⟩, _⟩ := one_below hq hs hc hg hp _ hrun
    exact ⟨os, h1, by simpa using h2.append (.none ps)⟩

/-- One read of a stack with a FrameDecoder at the bottom: the deliveries come from the payloads that the decoder computes from its cache and the
bytes read. -/
theorem read_below {k f : Nat} {w : World} {d : Deque} (hq : Deaf q ∨ Statless k w) (hs : Sole c k w) (hd : Caches (w.n - 1) w d) {bs : List Byte} (hne : bs ≠ [])
    (hfit : (bs.length : Int) ≤ w.mtu) (r : Res Unit) (w' : World) (hrun : receive (f + 1) c bs w = (r, w')) :
    ∃ ds, ds.content = bs ∧ Evolves w w' ∧ (∃ os, sight q w'.trace = sight q w.trace ++ os ∧ Below c (needs w k) os (decodeRead f d ds).out) ∧
      ∀ x, r = .ok x → Caches (w.n - 1) w' (decodeRead f d ds).cache := by
  obtain ⟨ub, h1, h2⟩ := receive_ok (c := c) (w := w) hne hfit
  obtain ⟨cache, k1, k2⟩ := hd
  have hn := hs.pos
  refine ⟨_, show (⟨w.mtu.toNat, 0, 0, bs⟩ : Deque).content = bs from rfl, ?_⟩
  generalize (⟨w.mtu.toNat, 0, 0, bs⟩ : Deque) = ds at h1
  have hp : w.procs (w.n - 1) = ⟨true, .frame (some cache)⟩ := by
    obtain ⟨_, h⟩ := hs.frames
    rw [← h, ← k1]
  have how : OneWay (w.n - 1) w := ⟨⟨_, k1⟩, fun j h1 h2 => by omega⟩
  generalize hctx : ({ Ctx.new with conn := some c, buf := some ub } : Ctx) = ctx at h2
  have hconn : ctx.conn = some c := by subst hctx; rfl
  have hbuf : ctx.buf = some ub := by subst hctx; rfl
  have hcall : call (f + 1) .up w.n ctx w = frameLower f (w.n - 1) true (nbAt f w.n) ctx w := by
    rw [call_into f w.n ctx w (by omega) (Nat.le_refl _), hp]
    rfl
  obtain ⟨f1, f2⟩ := frameLower_feeds (nb := nbAt f w.n) (i := w.n - 1) (by exact calm_above (w.n - 1) f) f how
    ⟨c, hconn, hs.bytes⟩ hbuf k1 k2 h1
  rw [← hcall] at f1 f2
  have hev := call_evolves (f + 1) .up w.n ctx w
  rw [h2] at hrun
  rcases hc : call (f + 1) .up w.n ctx w with ⟨r1, w1⟩
  rw [hc] at f1 f2 hev
  have hw : w1 = w' ∧ ∀ x, r = .ok x → ∃ y, r1 = .ok y := by
    rw [bind_apply, hc] at hrun
    cases r1 with
    | ok y => cases hrun; exact ⟨rfl, fun x _ => ⟨y, rfl⟩⟩
    | panic => cases hrun; exact ⟨rfl, fun x e => by cases e⟩
    | running => cases hrun; exact ⟨rfl, fun x e => by cases e⟩
  obtain ⟨rfl, hw⟩ := hw
  refine ⟨hev, feeds_below f1 hq rfl hs hconn, fun x hx => ?_⟩
  obtain ⟨y, hy⟩ := hw x hx
  exact (f2 y hy).2

/-! ## All reads -/

/-- The bytes at hand bound the deliveries; with a full cache there are none. -/
theorem reads_below {k f : Nat} (hq : Deaf q) (bss : List (List Byte)) : ∀ (w : World) (d : Deque), Sole c k w → Caches (w.n - 1) w d → (∀ bs ∈ bss, bs ≠ []) →
    (∀ bs ∈ bss, (bs.length : Int) ≤ w.mtu) →
    ∃ os ps, sight q (receiveAll (f + 2) c bss w).2.trace = sight q w.trace ++ os ∧ Below c (needs w k) os ps ∧
      framed ps ≤ d.content.length + bss.flatten.length ∧ (Full d → ps = []) := by
  induction bss with
  | nil => intro w d _ _ _ _; exact ⟨[], [], by simp [receiveAll], .nil, by simp [framed], fun _ => rfl⟩
  | cons bs bss ih =>
    intro w d hs hd hne hfit
    rcases hrun : receive (f + 2) c bs w with ⟨r, w1⟩
    obtain ⟨ds, h1, h2, ⟨os, h3, h4⟩, h5⟩ := read_below (q := q) (.inl hq) hs hd (hne bs (by simp)) (hfit bs (by simp)) r w1 hrun
    have hh := (honest_read (f + 1) d ds).count
    rw [h1, List.length_append] at hh
    simp only [List.flatten_cons, List.length_append]
    have hfull : Full d → decodeRead (f + 1) d ds = ⟨[], .ok (), d⟩ := by
      intro hfull
      have : (Deque.readFromDeque d ds).2.2.1 = d := by simp only [Deque.readFromDeque]; rw [if_pos hfull.full]
      simp only [decodeRead, if_pos hfull.some, this, hfull.waits f, List.nil_append]
    cases r with
    | ok x =>
      have hcc := h5 x rfl
      obtain ⟨os', ps', a1, a2, a3, a4⟩ := ih w1 _ (hs.evolves h2) (by rw [h2.n]; exact hcc) (fun b hb => hne b (by simp [hb]))
        (fun b hb => by rw [h2.mtu]; exact hfit b (by simp [hb]))
      rw [needs_evolves h2] at a2
      refine ⟨os ++ os', (decodeRead (f + 1) d ds).out ++ ps', ?_, h4.append a2, by rw [framed_append]; omega, fun hfu => ?_⟩
      · simp only [receiveAll]
        rw [bind_of_ok hrun, a1, h3, List.append_assoc]
      · rw [hfull hfu] at a4 ⊢
        simpa using a4 hfu
    | panic =>
      refine ⟨os, _, ?_, h4, by omega, fun hfu => by rw [hfull hfu]⟩
      simp only [receiveAll]
      rw [bind_of_panic hrun]; exact h3
    | running =>
      refine ⟨os, _, ?_, h4, by omega, fun hfu => by rw [hfull hfu]⟩
      simp only [receiveAll]
      rw [bind_apply, hrun]; exact h3

theorem boundaries_cons {ps bss : List (List Byte)} {bs : List Byte} {j : Nat} (hbs : bs = stream (ps.take j)) :
    AtBoundaries ps (bs :: bss) ↔ AtBoundaries (ps.drop j) bss := by
  constructor
  · intro h k
    obtain ⟨j', hj'⟩ := h (k + 1)
    rw [List.take_succ_cons, List.flatten_cons, hbs] at hj'
    by_cases hjj : j ≤ j'
    · refine ⟨j' - j, ?_⟩
      have h5 : ps.take j' = ps.take j ++ (ps.drop j).take (j' - j) := by
        rw [← List.take_add]; congr 1; omega
      rw [h5, stream_append] at hj'
      exact List.append_cancel_left hj'
    · refine ⟨0, ?_⟩
      have h5 := congrArg List.length hj'
      have h6 := stream_take_mono ps (show j' ≤ j by omega)
      rw [List.length_append] at h5
      have h7 : (bss.take k).flatten.length = 0 := by omega
      rw [List.eq_nil_of_length_eq_zero h7]; simp [stream]
  · intro h k
    cases k with
    | zero => exact ⟨0, by simp [stream]⟩
    | succ k =>
      obtain ⟨j', hj'⟩ := h k
      refine ⟨j + j', ?_⟩
      rw [List.take_succ_cons, List.flatten_cons, hj', hbs, List.take_add, stream_append]

/-- What the FrameDecoder is to hand up for a message. -/
def payload (w : World) (k : Nat) (x : Item) : List Byte := wrap (seg w (k + 1) (w.n - (k + 2))) x.s x.b

theorem wires_stream {k : Nat} (hs : Sole c k w) (xs : List Item) : wires w k xs = stream (xs.map (payload w k)) := by
  have hn := hs.pos
  obtain ⟨m, hm⟩ : ∃ m, w.n = k + 2 + m := ⟨w.n - (k + 2), by omega⟩
  rw [wires, stream, List.map_map]
  congr 1
  refine List.map_congr_left fun x _ => ?_
  have hf := hs.frames
  rw [show w.n - 1 = k + 1 + m by omega] at hf
  rw [wire, show w.n - (k + 1) = m + 1 by omega, seg_snoc, wrap_snoc, frames_hdr hf]
  simp [stream, payload, show w.n - (k + 2) = m by omega]

theorem payload_moved {w' : World} {o : List Obs} (hm : Moved o w w') (k : Nat) : payload w' k = payload w k := by
  funext x
  rw [payload, payload, hm.n, wrap_same hm.same]

/-- The messages fit what the codec makes of them. -/
theorem bulk_rx {k : Nat} (hs : Sole c k w) {x : Item} (hm : Message w k x.v x.b x.s) (ep : EpId) (c' : Option ConnId) :
    bulk (.rx ep c' x.v) = x.b.length := by
  have h := hm.codec
  obtain ⟨v, b, s, e⟩ := x
  simp only at h ⊢
  rcases hs.codec with e | e <;> rw [e] at h <;> cases h <;> rfl

theorem weight_rxs {k : Nat} (hs : Sole c k w) (xs : List Item) (hm : ∀ x ∈ xs, Message w k x.v x.b x.s) (cr : ConnId) :
    weight (needs w k) (rxs cr xs) = framed (xs.map (payload w k)) ∧
    (rxs cr xs).map (needs w k) = (xs.map (payload w k)).map List.length := by
  induction xs with
  | nil => exact ⟨rfl, rfl⟩
  | cons x xs ih =>
    obtain ⟨h1, h2⟩ := ih fun y hy => hm y (by simp [hy])
    have h3 := bulk_rx hs (hm x (by simp)) x.ep (some cr)
    have h4 : (payload w k x).length = inner w k + x.b.length := wrap_weight _ _ _
    simp only [rxs, List.map_cons, weight, List.sum_cons, framed_cons, needs_rx] at h1 h2 ⊢
    refine ⟨by rw [h1, h3, h4]; omega, by rw [h2, h3, h4, Nat.add_comm]⟩

/-- One direction of a conversation, whatever the reads: the messages are delivered — each once, in order, to the endpoints of their sessions — if and
only if every read ends at the end of a message. -/
theorem reads_exact {k fuel : Nat} (bss : List (List Byte)) : ∀ (w : World) (xs : List Item), Carrier w k → Sole c k w →
    (∀ x ∈ xs, Message w k x.v x.b x.s ∧ findEndPoint w.served x.s = some x.ep) → w.n + xs.length + 1 < fuel →
    (∀ bs ∈ bss, bs ≠ []) → (∀ bs ∈ bss, (bs.length : Int) ≤ w.mtu) → bss.flatten = wires w k xs →
    (arrivals (receiveAll fuel c bss w).2.trace = arrivals w.trace ++ rxs c xs ↔ AtBoundaries (xs.map (payload w k)) bss) := by
  induction bss with
  | nil =>
    intro w xs hcar hs hm _ _ _ hcut
    have hxs : xs = [] := by
      cases xs with
      | nil => rfl
      | cons x xs =>
        rw [wires_stream hs, List.map_cons] at hcut
        have := congrArg List.length hcut
        rw [stream_length_cons, List.flatten_nil, List.length_nil] at this; omega
    subst hxs
    exact ⟨fun _ j => ⟨0, by simp [stream]⟩, fun _ => by simp [rxs, receiveAll]⟩
  | cons bs bss ih =>
    intro w xs hcar hs hm hf hne hfit hcut
    have hn := hs.pos
    have hb0 := hne bs (by simp)
    have hcut' := hcut
    rw [wires_stream hs, List.flatten_cons] at hcut
    have hpne : ∀ p ∈ xs.map (payload w k), p ≠ [] := by
      intro p hp
      obtain ⟨x, hx, rfl⟩ := List.mem_map.mp hp
      exact wrap_ne _ _ (hm x hx).1.ne
    rcases prefix_cases _ bs bss.flatten hcut with ⟨j, hj, hbs, hrest⟩ | ⟨qs, p, qs', rr, hps, hbs, hrr, hrl, hrp⟩
    · -- a read that ends at the end of a message
      have hbw : bs = wires w k (xs.take j) := by rw [wires_stream hs, hbs, List.map_take]
      have hx : xs.take j ≠ [] := by
        intro e
        rw [e] at hbw
        exact hb0 hbw
      have hin : ∀ x ∈ xs.take j, x ∈ xs := fun x h => List.mem_of_mem_take h
      obtain ⟨w1, a1, a2, _⟩ := receive_batch w k hcar (by omega) hs.frames (xs.take j) hx (fun x h => hm x (hin x h)) c hs.bytes
        (by rw [← hbw]; exact hfit bs (by simp)) fuel (by rw [List.length_take]; omega)
      rw [← hbw] at a1
      have hev : Evolves w w1 := ⟨a2.mtu, a2.overhead, a2.name, a2.n, a2.served, a2.write, fun j => (a2.same j).1, fun j => (a2.same j).2,
        fun c => by rw [a2.conns], fun c hc => by rw [a2.conns]; exact hc, _, a2.trace⟩
      have := ih w1 (xs.drop j) (hcar.moved a2) (hs.evolves hev)
        (fun x hx => by
          obtain ⟨m1, m2⟩ := hm x (List.mem_of_mem_drop hx)
          exact ⟨m1.moved a2, by rw [a2.served]; exact m2⟩)
        (by rw [a2.n, List.length_drop]; omega) (fun b hb => hne b (by simp [hb])) (fun b hb => by rw [a2.mtu]; exact hfit b (by simp [hb]))
        (by rw [wires_stream (hs.evolves hev), hrest, payload_moved a2, List.map_drop])
      rw [boundaries_cons hbs, ← List.map_drop, ← payload_moved a2, ← this]
      simp only [receiveAll]
      rw [bind_of_ok a1, a2.trace, arrivals_append, arrivals_rxs, List.append_assoc]
      have : rxs c (xs.take j) ++ rxs c (xs.drop j) = rxs c xs := by simp only [rxs, ← List.map_append, List.take_append_drop]
      rw [this]
    · -- a read that ends inside a message
      have hno : ¬ AtBoundaries (xs.map (payload w k)) (bs :: bss) := by
        intro h
        obtain ⟨j, hj⟩ := h 1
        rw [List.take_succ_cons, List.take_zero, List.flatten_cons, List.flatten_nil, List.append_nil, hbs, hps] at hj
        exact not_boundary hrr hrl j hj
      refine ⟨fun h => absurd h ?_, fun h => absurd h hno⟩
      obtain ⟨f, rfl⟩ : ∃ f, fuel = f + 2 := ⟨fuel - 2, by omega⟩
      have hidle := hcar.idle (w.n - 1) (by omega) (by omega) hs.frames
      obtain ⟨d, hd, hd0⟩ := hidle.caches
      have hbl := hfit bs (by simp)
      have hm32 := hcar.mtu
      have hp32 : p.length < 2 ^ 32 := by
        have : p ∈ xs.map (payload w k) := by rw [hps]; simp
        obtain ⟨x, hx, rfl⟩ := List.mem_map.mp this
        have h3 := wire_fits hcar (hm x hx).1
        have h4 := wires_stream hs [x]
        simp only [wires, List.map_cons, List.map_nil, List.flatten_cons, List.flatten_nil, List.append_nil] at h4
        rw [h4, stream_length_cons] at h3
        omega
      have hlen : (xs.map (payload w k)).length = xs.length := by simp
      rw [hps] at hlen
      simp only [List.length_append, List.length_cons] at hlen
      -- all that is delivered in the end
      have hall : ∃ ds os ps, ds.content = bs ∧ arrivals (receiveAll (f + 2) c (bs :: bss) w).2.trace = arrivals w.trace ++ os ∧
          Below c (needs w k) os ((decodeRead (f + 1) d ds).out ++ ps) ∧
          framed ps ≤ (decodeRead (f + 1) d ds).cache.content.length + bss.flatten.length ∧ (Full (decodeRead (f + 1) d ds).cache → ps = []) := by
        rcases hrun : receive (f + 2) c bs w with ⟨r, w1⟩
        obtain ⟨ds, h1, h2, ⟨os, h3, h4⟩, h5⟩ := read_below (q := isRx) (.inl deaf_isRx) hs hd hb0 hbl r w1 hrun
        cases r with
        | ok x =>
          obtain ⟨os', ps', b1, b2, b3, b4⟩ := reads_below (f := f) deaf_isRx bss w1 _ (hs.evolves h2) (by rw [h2.n]; exact h5 x rfl) (fun b hb => hne b (by simp [hb]))
            (fun b hb => by rw [h2.mtu]; exact hfit b (by simp [hb]))
          rw [needs_evolves h2] at b2
          refine ⟨ds, os ++ os', ps', h1, ?_, h4.append b2, b3, b4⟩
          simp only [receiveAll]
          rw [bind_of_ok hrun, show arrivals _ = _ from b1, show sight isRx w1.trace = _ from h3, List.append_assoc]; rfl
        | panic =>
          refine ⟨ds, os, [], h1, ?_, by simpa using h4, by simp [framed], fun _ => rfl⟩
          simp only [receiveAll]
          rw [bind_of_panic hrun]; exact h3
        | running =>
          refine ⟨ds, os, [], h1, ?_, by simpa using h4, by simp [framed], fun _ => rfl⟩
          simp only [receiveAll]
          rw [bind_apply, hrun]; exact h3
      obtain ⟨ds, os, ps, h1, h2, h3, h4, h5⟩ := hall
      rw [h2]
      intro h
      have h := List.append_cancel_left h
      subst h
      obtain ⟨q1, q2⟩ := weight_rxs hs xs (fun x hx => (hm x hx).1) c
      have hw := h3.weight_le
      rw [framed_append, q1] at hw
      have htot := congrArg List.length hcut
      rw [List.length_append, ← framed_eq_stream] at htot
      have hpiece := decodeRead_piece qs p rr (fun q hq => hpne q (by rw [hps]; simp [hq])) (hpne p (by rw [hps]; simp)) hp32 hrr hrl
        (by rw [← hbs]; omega) hrp (f + 1) (by omega) d ds hd0 (by rw [h1, hbs])
      rw [← hbs] at hpiece
      have hcount := (honest_read (f + 1) d ds).count
      rw [h1, hd0, List.nil_append] at hcount
      rcases hpiece with hlost | ⟨hout, hfull⟩ | ⟨q, more, hout, hq⟩
      · omega
      · rw [h5 hfull, hout, hps, framed_append, framed_cons] at hw
        simp only [framed, List.flatten_nil, List.length_nil] at hw
        omega
      · have he := h3.exact (by rw [framed_append, q1]; omega)
        rw [q2, hout, hps, List.append_assoc] at he
        simp only [List.map_append] at he
        have := List.append_cancel_left he
        simp only [List.cons_append, List.map_cons, List.cons.injEq] at this
        omega

/-- C103: the condition of C60 is necessary, for stacks whose lowest processor is a FrameDecoder, the only enabled one, with the codec for byte slices or strings: however the stream
that was sent is cut into reads, exactly the messages sent are delivered — each once, in order, to the endpoints of their sessions — if and only if every
read ends at the end of a message. -/
theorem c103_iff (ws wr : World) (k : Nat) (hs : Carrier ws k) (hr : Carrier wr k) (hmat : Matching ws wr)
    (hk : k + 1 < wr.n) (hcodec : (wr.procs k).kind = .bytesCodec ∨ (wr.procs k).kind = .stringCodec)
    (hfr : Frames (wr.procs (wr.n - 1))) (honly : ∀ j, k < j → j < wr.n - 1 → ¬ Frames (wr.procs j))
    (xs : List Item) (hx : ∀ x ∈ xs, Message ws k x.v x.b x.s ∧ findEndPoint wr.served x.s = some x.ep)
    (cs : ConnId) (hs1 : (ws.conns cs).useRef = false) (hs2 : (ws.conns cs).closed = false)
    (hw : ∀ t p, (ws.write t cs p).err = none ∧ (ws.write t cs p).n ≤ p.length)
    (cr : ConnId) (hr1 : (wr.conns cr).useRef = false) (fuel : Nat) (hf : ws.n + xs.length + 1 < fuel) :
    ∃ ws' t, sendAll fuel cs xs ws = (.ok (), ws') ∧ ws'.trace = ws.trace ++ t ∧
      ∀ bss : List (List Byte), (∀ bs ∈ bss, bs ≠ [] ∧ (bs.length : Int) ≤ wr.mtu) → bss.flatten = sentBytes cs t →
        (arrivals (receiveAll fuel cr bss wr).2.trace = arrivals wr.trace ++ rxs cr xs ↔
          ∀ j, ∃ i, (bss.take j).flatten = wires ws k (xs.take i)) := by
  obtain ⟨ws', t, a1, a2, a3, _⟩ := sendAll_wires k cs fuel xs ws hs (fun x h => (hx x h).1) hs1 hs2 hw (by omega)
  have hwires : ∀ xs, wires wr k xs = wires ws k xs := by
    intro xs; simp only [wires, hmat.wire hs.pos]
  have hsole : Sole cr k wr := ⟨⟨by omega, by omega, hr.quiet, by
    have := hr.codecOn
    generalize wr.procs k = p at hcodec this ⊢
    obtain ⟨en, kd⟩ := p
    simp only at this hcodec
    subst this
    rcases hcodec with h | h <;> rw [h] <;> simp, hr.opens, honly, hr1⟩, hfr⟩
  refine ⟨ws', t, a1, a2.trace, fun bss hb hcut => ?_⟩
  rw [a3, ← hwires] at hcut
  rw [reads_exact bss wr xs hr hsole (fun x h => ⟨hmat.message hs.pos hs.built hr.built (hx x h).1, (hx x h).2⟩)
    (by rw [hmat.n]; exact hf) (fun bs h => (hb bs h).1) (fun bs h => (hb bs h).2) hcut]
  simp only [AtBoundaries, ← List.map_take, ← wires_stream hsole, hwires]

/-- Whatever is read, bytes of a peer or of an attacker, in whatever pieces: nothing is delivered that was not paid for.  Every delivery takes its own
bytes, the headers between codec and FrameDecoder and a length field from what was read. -/
theorem c103_paid (w : World) (k : Nat) (c : ConnId) (hs : Sole c k w) (hi : Idle (w.n - 1) w) (bss : List (List Byte)) (hne : ∀ bs ∈ bss, bs ≠ [])
    (hfit : ∀ bs ∈ bss, (bs.length : Int) ≤ w.mtu) (fuel : Nat) (hf : 2 ≤ fuel) :
    ∃ os, arrivals (receiveAll fuel c bss w).2.trace = arrivals w.trace ++ os ∧
      (os.map fun o => bulk o + (wrap (seg w (k + 1) (w.n - (k + 1))) 0 []).length).sum ≤ bss.flatten.length := by
  obtain ⟨f, rfl⟩ : ∃ f, fuel = f + 2 := ⟨fuel - 2, by omega⟩
  obtain ⟨d, hd, hd0⟩ := hi.caches
  obtain ⟨os, ps, h1, h2, h3, _⟩ := reads_below (q := isRx) (f := f) deaf_isRx bss w d hs hd hne hfit
  refine ⟨os, h1, ?_⟩
  have h4 := h2.weight_le
  have hn := hs.pos
  obtain ⟨m, hm⟩ : ∃ m, w.n = k + 2 + m := ⟨w.n - (k + 2), by omega⟩
  have hfr := hs.frames
  rw [show w.n - 1 = k + 1 + m by omega] at hfr
  have h5 : (wrap (seg w (k + 1) (w.n - (k + 1))) 0 []).length = inner w k + 4 := by
    rw [show w.n - (k + 1) = m + 1 by omega, seg_snoc, wrap_snoc, frames_hdr hfr, stream_length_cons, wrap_weight, inner, show w.n - (k + 2) = m by omega]
    simp [stream]
  rw [h5]
  rw [hd0, List.length_nil] at h3
  have h6 : (os.map fun o => bulk o + (inner w k + 4)).sum = weight (needs w k) os := by
    rw [weight]
    congr 1
    refine List.map_congr_left fun o ho => ?_
    have hrx : isRx o = true := by
      have : o ∈ arrivals (receiveAll (f + 2) c bss w).2.trace := by
        rw [show arrivals _ = _ from h1]
        exact List.mem_append_right _ ho
      exact (List.mem_filter.mp this).2
    cases o <;> simp only [isRx, Bool.false_eq_true] at hrx
    rw [needs_rx, Nat.add_assoc]
  rw [h6]
  omega

/-! ## Without a FrameDecoder -/

theorem Below.exact_bare {N : Obs → Nat} {os : List Obs} {ps : List (List Byte)} (h : Below c N os ps) (hne : ∀ p ∈ ps, p ≠ []) :
    (os.map N).sum ≤ ps.flatten.length ∧
    (ps.flatten.length ≤ (os.map N).sum → ps.map List.length = os.map N) := by
  induction h with
  | nil => exact ⟨by simp, fun _ => rfl⟩
  | skip p h ih =>
    obtain ⟨i1, i2⟩ := ih fun q hq => hne q (by simp [hq])
    have := List.length_pos_iff.mpr (hne p (by simp))
    simp only [List.flatten_cons, List.length_append]
    exact ⟨by omega, fun _ => by omega⟩
  | take p _ hl h ih =>
    obtain ⟨i1, i2⟩ := ih fun q hq => hne q (by simp [hq])
    simp only [List.flatten_cons, List.length_append, List.map_cons, List.sum_cons]
    refine ⟨by omega, fun he => ?_⟩
    rw [i2 (by omega)]
    congr 1
    omega

/-- One read: at most one delivery. -/
theorem bare_below {k f : Nat} {w : World} (hs : Lone c k w.n w) {bs : List Byte} (hne : bs ≠ []) (hfit : (bs.length : Int) ≤ w.mtu) (r : Res Unit) (w' : World)
    (hrun : receive f c bs w = (r, w')) :
    Evolves w w' ∧ ∃ os, arrivals w'.trace = arrivals w.trace ++ os ∧ Below c (need w k (w.n - (k + 1))) os [bs] := by
  obtain ⟨ub, h1, h2⟩ := receive_ok (c := c) (w := w) hne hfit
  have hn := hs.pos
  have hev := call_evolves f .up w.n { Ctx.new with conn := some c, buf := some ub } w
  have hem := emits_up (q := isRx) (c := c) (R := fun t => ∃ os, t = arrivals w.trace ++ os ∧ Below c (need w k (w.n - (k + 1))) os [bs]) (k := k) (a := w.n) f
    (w.n - (k + 1)) bs.length { Ctx.new with conn := some c, buf := some ub } w (.inl deaf_isRx) (by omega) hs rfl
    (.of ⟨h1.1, by rw [h1.data]; exact Nat.le_refl _⟩ rfl) ⟨[], by simp [sight, arrivals], .none _⟩ (fun o ho hl => ⟨sight isRx [o], by rw [sight_append]; rfl, by
      cases hqo : isRx o with
      | true => simp only [sight, List.filter_cons, hqo, if_true, List.filter_nil]; exact .take bs ho hl .nil
      | false => simp only [sight, List.filter_cons, hqo, Bool.false_eq_true, if_false, List.filter_nil]; exact .none _⟩)
  rw [show k + 1 + (w.n - (k + 1)) = w.n by omega] at hem
  have hem := hem.1
  rw [h2, bind_apply] at hrun
  rcases hc : call f .up w.n { Ctx.new with conn := some c, buf := some ub } w with ⟨r1, w1⟩
  rw [hc] at hrun hev hem
  cases r1 <;> cases hrun <;> exact ⟨hev, hem⟩

theorem bare_reads {k f : Nat} (bss : List (List Byte)) : ∀ (w : World), Lone c k w.n w → (∀ bs ∈ bss, bs ≠ []) → (∀ bs ∈ bss, (bs.length : Int) ≤ w.mtu) →
    ∃ os, arrivals (receiveAll f c bss w).2.trace = arrivals w.trace ++ os ∧ Below c (need w k (w.n - (k + 1))) os bss := by
  induction bss with
  | nil => intro w _ _ _; exact ⟨[], by simp [receiveAll], .nil⟩
  | cons bs bss ih =>
    intro w hs hne hfit
    rcases hrun : receive f c bs w with ⟨r, w1⟩
    obtain ⟨h2, os, h3, h4⟩ := bare_below hs (hne bs (by simp)) (hfit bs (by simp)) r w1 hrun
    simp only [receiveAll]
    cases r with
    | ok x =>
      obtain ⟨os', a1, a2⟩ := ih w1 (by rw [h2.n]; exact hs.evolves h2) (fun b hb => hne b (by simp [hb])) (fun b hb => by rw [h2.mtu]; exact hfit b (by simp [hb]))
      rw [need_evolves h2, h2.n] at a2
      refine ⟨os ++ os', ?_, h4.append a2⟩
      rw [bind_of_ok hrun, a1, h3, List.append_assoc]
    | panic => exact ⟨os, by rw [bind_of_panic hrun]; exact h3, by simpa using h4.append (.none bss)⟩
    | running => exact ⟨os, by rw [bind_apply, hrun]; exact h3, by simpa using h4.append (.none bss)⟩

theorem flatten_inj : ∀ {as bs : List (List Byte)}, as.map List.length = bs.map List.length → as.flatten = bs.flatten → as = bs
  | [], [], _, _ => rfl
  | [], _ :: _, h, _ => by cases h
  | _ :: _, [], h, _ => by cases h
  | a :: as, b :: bs, h, e => by
    simp only [List.map_cons, List.cons.injEq] at h
    rw [List.flatten_cons, List.flatten_cons] at e
    obtain ⟨e1, e2⟩ := List.append_inj e h.1
    rw [e1, flatten_inj h.2 e2]

theorem flatten_single {α : Type} : ∀ xs : List α, (xs.map fun x => [x]).flatten = xs
  | [] => rfl
  | x :: xs => by simp only [List.map_cons, List.flatten_cons, flatten_single xs]; rfl

/-- The same without any enabled FrameDecoder: exactly the messages sent are delivered if and only if every read is one message. -/
theorem c103_bare (ws wr : World) (k : Nat) (hs : Carrier ws k) (hr : Carrier wr k) (hmat : Matching ws wr)
    (hcodec : (wr.procs k).kind = .bytesCodec ∨ (wr.procs k).kind = .stringCodec)
    (hnone : ∀ j, k < j → j < wr.n → ¬ Frames (wr.procs j))
    (xs : List Item) (hx : ∀ x ∈ xs, Message ws k x.v x.b x.s ∧ findEndPoint wr.served x.s = some x.ep)
    (cs : ConnId) (hs1 : (ws.conns cs).useRef = false) (hs2 : (ws.conns cs).closed = false)
    (hw : ∀ t p, (ws.write t cs p).err = none ∧ (ws.write t cs p).n ≤ p.length)
    (cr : ConnId) (hr1 : (wr.conns cr).useRef = false) (fuel : Nat) (hf : ws.n + 2 < fuel) :
    ∃ ws' t, sendAll fuel cs xs ws = (.ok (), ws') ∧ ws'.trace = ws.trace ++ t ∧
      ∀ bss : List (List Byte), (∀ bs ∈ bss, bs ≠ [] ∧ (bs.length : Int) ≤ wr.mtu) → bss.flatten = sentBytes cs t →
        (arrivals (receiveAll fuel cr bss wr).2.trace = arrivals wr.trace ++ rxs cr xs ↔ bss = xs.map fun x => wire ws k x.s x.b) := by
  obtain ⟨ws', t, a1, a2, a3, _⟩ := sendAll_wires k cs fuel xs ws hs (fun x h => (hx x h).1) hs1 hs2 hw (by omega)
  have hwire : ∀ s b, wire wr k s b = wire ws k s b := fun s b => hmat.wire hs.pos s b
  have hm : ∀ x ∈ xs, Message wr k x.v x.b x.s := fun x h => hmat.message hs.pos hs.built hr.built (hx x h).1
  have hpos := hr.pos
  have hcod : wr.procs k = ⟨true, .bytesCodec⟩ ∨ wr.procs k = ⟨true, .stringCodec⟩ := by
    have := hr.codecOn
    generalize wr.procs k = p at hcodec this ⊢
    obtain ⟨en, kd⟩ := p
    simp only at this hcodec
    subst this
    rcases hcodec with h | h <;> rw [h] <;> simp
  have hlone : Lone cr k wr.n wr := ⟨hpos, Nat.le_refl _, hr.quiet, hcod, hr.opens, hnone, hr1⟩
  refine ⟨ws', t, a1, a2.trace, fun bss hb hcut => ?_⟩
  have hsame : (xs.map fun x => wire wr k x.s x.b) = xs.map fun x => wire ws k x.s x.b := List.map_congr_left fun x _ => hwire _ _
  rw [a3, wires, ← hsame] at hcut
  rw [← hsame]
  constructor
  · intro h
    obtain ⟨os, b1, b2⟩ := bare_reads (k := k) (f := fuel) bss wr hlone (fun b h => (hb b h).1) (fun b h => (hb b h).2)
    rw [b1] at h
    have h := List.append_cancel_left h
    subst h
    have hl : (rxs cr xs).map (need wr k (wr.n - (k + 1))) = (xs.map fun x => wire wr k x.s x.b).map List.length := by
      simp only [rxs, List.map_map]
      refine List.map_congr_left fun x hxm => ?_
      have h1 := (hm x hxm).codec
      have h2 : (wire wr k x.s x.b).length = hlens (seg wr (k + 1) (wr.n - (k + 1))) + x.b.length := wrap_weight _ _ _
      have h3 : bulk (.rx x.ep (some cr) x.v) = x.b.length := by
        obtain ⟨v, b, s, e⟩ := x
        simp only at h1 ⊢
        rcases hcodec with e | e <;> rw [e] at h1 <;> cases h1 <;> rfl
      simp only [Function.comp_apply, h2, need, h3]
      omega
    obtain ⟨_, e2⟩ := b2.exact_bare fun b h => (hb b h).1
    rw [hl] at e2
    exact flatten_inj (e2 (by rw [hcut, List.length_flatten]; exact Nat.le_refl _)) hcut
  · intro h
    obtain ⟨wr', b1, b2, _⟩ := receiveAll_groups k cr fuel 1 (xs.map fun x => [x]) wr hr
      (by
        intro g hg
        obtain ⟨x, hxm, rfl⟩ := List.mem_map.mp hg
        refine ⟨by simp, by simp, ?_, fun y hy => ?_⟩
        · simpa [wires] using wire_fits hr (hm x hxm)
        · simp only [List.mem_cons, List.not_mem_nil, or_false] at hy
          subst hy
          exact ⟨hm y hxm, (hx y hxm).2⟩)
      (.inl (by intro g hg; obtain ⟨x, _, rfl⟩ := List.mem_map.mp hg; rfl)) hr1 (by rw [hmat.n]; omega)
    have hmap : (xs.map fun x => [x]).map (wires wr k) = xs.map fun x => wire wr k x.s x.b := by
      rw [List.map_map]
      exact List.map_congr_left fun x _ => by simp [wires]
    rw [hmap, ← h] at b1
    rw [flatten_single] at b2
    rw [b1, b2.trace, arrivals_append, arrivals_rxs]

/-! ### Examples: bytes codec, SessionResolver, StatCounter, Heartbeat, FrameDecoder -/

def fiveItems : List Item := [⟨.bytes [9], [9], 3, 7⟩, ⟨.bytes [8, 8], [8, 8], 3, 7⟩]

theorem fiveItems_ok : ∀ x ∈ fiveItems, Message five 0 x.v x.b x.s ∧ findEndPoint five.served x.s = some x.ep := by
  intro x hx
  simp only [fiveItems, List.mem_cons, List.not_mem_nil, or_false] at hx
  rcases hx with rfl | rfl
  · exact ⟨five_message _ (by simp) (by simp), rfl⟩
  · exact ⟨five_message _ (by simp) (by simp), rfl⟩

theorem five_sole : Sole 0 0 five := by
  refine ⟨⟨by decide, by decide, fun j h => absurd h (by omega), .inl rfl, five_opens, fun j h1 h2 h3 => ?_, rfl⟩, ⟨⟨_, rfl⟩, rfl⟩⟩
  match j, h1, h2, h3 with
  | 1, _, _, ⟨⟨c, h⟩, _⟩ => cases h
  | 2, _, _, ⟨⟨c, h⟩, _⟩ => cases h
  | 3, _, _, ⟨⟨c, h⟩, _⟩ => cases h

/-- The hypotheses are met; whatever the reads, both sides of the equivalence are about the same two messages. -/
example : ∃ ws' t, sendAll 20 0 fiveItems five = (.ok (), ws') ∧ ws'.trace = five.trace ++ t ∧
    ∀ bss : List (List Byte), (∀ bs ∈ bss, bs ≠ [] ∧ (bs.length : Int) ≤ 64) → bss.flatten = sentBytes 0 t →
      (arrivals (receiveAll 20 0 bss five).2.trace = arrivals five.trace ++ [.rx 7 (some 0) (.bytes [9]), .rx 7 (some 0) (.bytes [8, 8])] ↔
        ∀ j, ∃ i, (bss.take j).flatten = wires five 0 (fiveItems.take i)) :=
  c103_iff five five 0 five_carrier five_carrier five_matching (by decide) (.inl rfl) five_sole.frames five_sole.only fiveItems fiveItems_ok
    0 rfl rfl (fun _ p => ⟨rfl, Nat.le_refl _⟩) 0 rfl 20 (by decide)

/-- Cut at the end of the first message: both arrive. -/
example : arrivals (receiveAll 20 0 [[0, 0, 0, 7, 0, 0, 0, 0, 0, 3, 9], [0, 0, 0, 8, 0, 0, 0, 0, 0, 3, 8, 8]] five).2.trace =
    arrivals five.trace ++ rxs 0 fiveItems := by
  refine (reads_exact _ five fiveItems five_carrier five_sole fiveItems_ok (by decide) (by decide) (by decide) (by decide)).mpr ?_
  intro j
  match j with
  | 0 => exact ⟨0, by decide⟩
  | 1 => exact ⟨1, by decide⟩
  | j + 2 => exact ⟨2, by simp; decide⟩

/-- Of 23 bytes with headers of 10, no more than two messages. -/
example : ∃ os, arrivals (receiveAll 20 0 [[0, 0, 0, 7, 0, 0, 0, 0, 0, 3, 9, 0, 0], [0, 8, 0, 0, 0, 0, 0, 3, 8, 8]] five).2.trace = arrivals five.trace ++ os ∧
    (os.map fun o => bulk o + 10).sum ≤ 23 :=
  c103_paid five 0 0 five_sole (five_carrier.idle 4 (by decide) (by decide) five_sole.frames) _ (by decide) (by decide) 20 (by decide)

/-- The four upper processors alone: two messages in one read. -/
theorem four_carrier : Carrier { five with n := 4, overhead := 6 } 0 := by
  refine ⟨by decide, fun j h => absurd h (by omega), rfl, fun j h1 h2 => five_opens j h1 (Nat.lt_succ_of_lt h2), fun j h1 h2 h3 => ?_, rfl, by decide⟩
  match j, h1, h2, h3 with
  | 1, _, _, ⟨⟨c, h⟩, _⟩ => cases h
  | 2, _, _, ⟨⟨c, h⟩, _⟩ => cases h
  | 3, _, _, ⟨⟨c, h⟩, _⟩ => cases h

example : ∃ ws' t, sendAll 20 0 fiveItems { five with n := 4, overhead := 6 } = (.ok (), ws') ∧ ws'.trace = five.trace ++ t ∧
    ∀ bss : List (List Byte), (∀ bs ∈ bss, bs ≠ [] ∧ (bs.length : Int) ≤ 64) → bss.flatten = sentBytes 0 t →
      (arrivals (receiveAll 20 0 bss { five with n := 4, overhead := 6 }).2.trace = arrivals five.trace ++ [.rx 7 (some 0) (.bytes [9]), .rx 7 (some 0) (.bytes [8, 8])] ↔
        bss = [[0, 0, 0, 0, 0, 3, 9], [0, 0, 0, 0, 0, 3, 8, 8]]) :=
  c103_bare { five with n := 4, overhead := 6 } { five with n := 4, overhead := 6 } 0 four_carrier four_carrier ⟨rfl, rfl, fun _ _ => .refl _⟩ (.inl rfl)
    (fun j h1 h2 h3 => by
      match j, h1, h2, h3 with
      | 1, _, _, ⟨⟨c, h⟩, _⟩ => cases h
      | 2, _, _, ⟨⟨c, h⟩, _⟩ => cases h
      | 3, _, _, ⟨⟨c, h⟩, _⟩ => cases h) fiveItems
    (fun x hx => by
      simp only [fiveItems, List.mem_cons, List.not_mem_nil, or_false] at hx
      rcases hx with rfl | rfl
      · exact ⟨⟨.bytes _, by simp, by decide, by decide, by decide, .inl ⟨1, by decide, by decide, rfl, rfl⟩⟩, rfl⟩
      · exact ⟨⟨.bytes _, by simp, by decide, by decide, by decide, .inl ⟨1, by decide, by decide, rfl, rfl⟩⟩, rfl⟩)
    0 rfl rfl (fun _ p => ⟨rfl, Nat.le_refl _⟩) 0 rfl 20 (by decide)

/-- Cut elsewhere: something is missing. -/
example : arrivals (receiveAll 20 0 [[0, 0, 0, 7, 0, 0, 0, 0, 0, 3, 9, 0, 0], [0, 8, 0, 0, 0, 0, 0, 3, 8, 8]] five).2.trace ≠
    arrivals five.trace ++ rxs 0 fiveItems := by
  intro h
  have := (reads_exact _ five fiveItems five_carrier five_sole fiveItems_ok (by decide) (by decide) (by decide) (by decide)).mp h
  obtain ⟨j, hj⟩ := this 1
  exact not_boundary (qs := [[0, 0, 0, 0, 0, 3, 9]]) (p := [0, 0, 0, 0, 0, 3, 8, 8]) (r := [0, 0]) (qs' := []) (by decide) (by decide) j hj

end Verif.Stack
