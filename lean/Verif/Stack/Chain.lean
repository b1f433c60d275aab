import Verif.Stack.FrameProps

/-!
# Whole chains: what reaches the wire, what comes back up

The wire format is specified by `hdr` and `wrap`, without reference to buffers or handlers.
-/

namespace Verif.Stack
open GoM UBuf

/-! ## The wire format (specification) -/

/-- The header a processor puts in front of a payload for destination session `s`. -/
def hdr (p : Proc) (s : Int) (payload : List Byte) : List Byte :=
  match p.kind with
  | .session => if p.enable then encBE 4 (s % 2 ^ 32).toNat else []
  | .frame _ => if p.enable then encBE 4 payload.length else []
  | .stat _ _ => [0]
  | .heartbeat => [0]
  | .loadBalancer => [if p.enable then 0x11 else 0]
  | _ => []

/-- The bytes on the wire for a payload that passes these processors, topmost first. -/
def wrap : List Proc → Int → List Byte → List Byte
  | [], _, b => b
  | p :: ps, s, b => wrap ps s (hdr p s b ++ b)

/-- The processors `a .. a+m-1` of a stack. -/
def seg (w : World) (a m : Nat) : List Proc := (List.range' a m).map w.procs

theorem seg_succ (w : World) (a m : Nat) : seg w a (m + 1) = w.procs a :: seg w (a + 1) m := by
  simp [seg, List.range'_succ]

theorem seg_snoc (w : World) (a m : Nat) : seg w a (m + 1) = seg w a m ++ [w.procs (a + m)] := by
  simp [seg, List.range'_concat]

theorem wrap_snoc (ps : List Proc) (p : Proc) (s : Int) (b : List Byte) :
    wrap (ps ++ [p]) s b = hdr p s (wrap ps s b) ++ wrap ps s b := by
  induction ps generalizing b with
  | nil => rfl
  | cons q qs ih => simp only [List.cons_append, wrap]; exact ih _

/-- Reserved head room. -/
def room : List Proc → Int
  | [] => 0
  | p :: ps => p.kind.overhead + room ps

theorem overhead_nonneg (k : Kind) : 0 ≤ k.overhead := by cases k <;> simp [Kind.overhead]

theorem room_nonneg (ps : List Proc) : 0 ≤ room ps := by
  induction ps with
  | nil => simp [room]
  | cons p ps ih => have := overhead_nonneg p.kind; simp only [room]; omega

theorem room_append (ps qs : List Proc) : room (ps ++ qs) = room ps + room qs := by
  induction ps with
  | nil => simp [room]
  | cons p ps ih => simp only [List.cons_append, room, ih]; omega

theorem hdr_length (p : Proc) (s : Int) (b : List Byte) : ((hdr p s b).length : Int) ≤ p.kind.overhead := by
  obtain ⟨en, k⟩ := p
  cases k <;> simp [hdr, Kind.overhead] <;> cases en <;> simp [length_encBE]

theorem wrap_length (ps : List Proc) (s : Int) (b : List Byte) : ((wrap ps s b).length : Int) ≤ room ps + b.length := by
  induction ps generalizing b with
  | nil => simp [wrap, room]
  | cons p ps ih =>
    have h1 := ih (hdr p s b ++ b)
    have h2 := hdr_length p s b
    simp only [wrap, room]
    simp only [List.length_append] at h1
    omega

theorem wrap_ge (ps : List Proc) (s : Int) (b : List Byte) : b.length ≤ (wrap ps s b).length := by
  induction ps generalizing b with
  | nil => simp [wrap]
  | cons p ps ih =>
    have h1 := ih (hdr p s b ++ b)
    simp only [wrap]
    simp only [List.length_append] at h1
    omega

theorem wrap_ne (ps : List Proc) (s : Int) {b : List Byte} (h : b ≠ []) : wrap ps s b ≠ [] := by
  have h1 := wrap_ge ps s b
  have h2 := List.length_pos_iff.mpr h
  exact List.length_pos_iff.mp (by omega)

/-- A built stack: the overhead is the sum over all processors (ustack_default.go:build). -/
def Built (w : World) : Prop := w.overhead = room (seg w 0 w.n)

/-- Processors that hand bytes down (with or without a header). -/
def Passes (p : Proc) : Prop :=
  match p.kind with
  | .base | .loopback => False
  | .bytesCodec | .stringCodec | .jsonCodec _ _ | .genericCodec _ _ | .gobCodec _ _ => p.enable = false
  | .filter _ _ _ | .forwarder _ _ _ => p.enable = false
  | _ => True

/-! ## The same processors in different states -/

def SameProc (p q : Proc) : Prop := q.enable = p.enable ∧ p.kind.Same q.kind

theorem SameProc.refl (p : Proc) : SameProc p p := ⟨rfl, .refl _⟩
theorem SameProc.trans {p q r : Proc} (h1 : SameProc p q) (h2 : SameProc q r) : SameProc p r :=
  ⟨h2.1.trans h1.1, h1.2.trans h2.2⟩

theorem SameProc.hdr_eq {p q : Proc} (h : SameProc p q) (s : Int) (b : List Byte) : hdr q s b = hdr p s b := by
  obtain ⟨en, k⟩ := p
  obtain ⟨en', k'⟩ := q
  obtain ⟨h1, h2⟩ := h
  simp only at h1
  subst h1
  cases k <;> cases k' <;> simp_all [Kind.Same, hdr]

theorem SameProc.overhead_eq {p q : Proc} (h : SameProc p q) : q.kind.overhead = p.kind.overhead := by
  obtain ⟨en, k⟩ := p
  obtain ⟨en', k'⟩ := q
  obtain ⟨_, h2⟩ := h
  cases k <;> cases k' <;> simp_all [Kind.Same, Kind.overhead]

theorem SameProc.passes {p q : Proc} (h : SameProc p q) (hp : Passes p) : Passes q := by
  obtain ⟨en, k⟩ := p
  obtain ⟨en', k'⟩ := q
  obtain ⟨h1, h2⟩ := h
  simp only at h1
  subst h1
  cases k <;> cases k' <;> simp_all [Kind.Same, Passes]

theorem wrap_same {w w' : World} (h : ∀ j, SameProc (w.procs j) (w'.procs j)) (m : Nat) :
    ∀ a s b, wrap (seg w' a m) s b = wrap (seg w a m) s b := by
  induction m with
  | zero => intro a s b; rfl
  | succ m ih =>
    intro a s b
    rw [seg_succ, seg_succ, wrap, wrap, (h a).hdr_eq, ih]

theorem room_same {w w' : World} (h : ∀ j, SameProc (w.procs j) (w'.procs j)) (m : Nat) :
    ∀ a, room (seg w' a m) = room (seg w a m) := by
  induction m with
  | zero => intro a; rfl
  | succ m ih =>
    intro a
    rw [seg_succ, seg_succ, room, room, (h a).overhead_eq, ih]

/-! ## What moving one message may change -/

/-- Only processor states change, idle decoders stay idle, and exactly `obs` is observed. -/
structure Moved (obs : List Obs) (w w' : World) : Prop where
  mtu : w'.mtu = w.mtu
  overhead : w'.overhead = w.overhead
  name : w'.name = w.name
  n : w'.n = w.n
  served : w'.served = w.served
  write : w'.write = w.write
  conns : w'.conns = w.conns
  trace : w'.trace = w.trace ++ obs
  same : ∀ j, SameProc (w.procs j) (w'.procs j)
  idle : ∀ j, Idle j w → Idle j w'

theorem Moved.refl (w : World) : Moved [] w w :=
  ⟨rfl, rfl, rfl, rfl, rfl, rfl, rfl, by simp, fun _ => .refl _, fun _ h => h⟩

theorem Moved.trans {a b c : World} {o1 o2 : List Obs} (h1 : Moved o1 a b) (h2 : Moved o2 b c) : Moved (o1 ++ o2) a c :=
  ⟨h2.mtu.trans h1.mtu, h2.overhead.trans h1.overhead, h2.name.trans h1.name, h2.n.trans h1.n,
    h2.served.trans h1.served, h2.write.trans h1.write, h2.conns.trans h1.conns,
    by rw [h2.trace, h1.trace, List.append_assoc], fun j => (h1.same j).trans (h2.same j),
    fun j h => h2.idle j (h1.idle j h)⟩

theorem Moved.setStat {w : World} {i : Nat} {tx rx : UInt64} (h : (w.procs i).kind = .stat tx rx) (tx' rx' : UInt64) :
    Moved [] w (w.setKind i (.stat tx' rx')) := by
  refine ⟨rfl, rfl, rfl, rfl, rfl, rfl, rfl, by simp [World.setKind], fun j => ?_, fun j ⟨c, h1, h2, h3⟩ => ?_⟩
  · by_cases hj : j = i
    · subst hj; rw [setKind_self]; exact ⟨rfl, by rw [h]; trivial⟩
    · simp only [World.setKind, if_neg hj]; exact .refl _
  · have hj : j ≠ i := by intro e; subst e; rw [h] at h1; cases h1
    exact ⟨c, by simp [World.setKind, hj, h1], h2, h3⟩

theorem Moved.setCache {w : World} {i : Nat} {c0 : Option St} (h : (w.procs i).kind = .frame c0) {c : St} (hg : Good c)
    (hd : data c = []) : Moved [] w (w.setKind i (.frame (some c))) := by
  refine ⟨rfl, rfl, rfl, rfl, rfl, rfl, rfl, by simp [World.setKind], fun j => ?_, fun j ⟨c', h1, h2, h3⟩ => ?_⟩
  · by_cases hj : j = i
    · subst hj; rw [setKind_self]; exact ⟨rfl, by rw [h]; trivial⟩
    · simp only [World.setKind, if_neg hj]; exact .refl _
  · by_cases hj : j = i
    · subst hj; exact ⟨c, by rw [setKind_self], hg, hd⟩
    · exact ⟨c', by simp [World.setKind, hj, h1], h2, h3⟩

theorem Moved.obs (w : World) (o : List Obs) : Moved o w { w with trace := w.trace ++ o } :=
  ⟨rfl, rfl, rfl, rfl, rfl, rfl, rfl, rfl, fun _ => .refl _, fun _ h => h⟩

theorem Moved.onBytes {o : List Obs} {w w' : World} {ctx : Ctx} (h : Moved o w w') (hb : OnBytes ctx w) : OnBytes ctx w' := by
  obtain ⟨c, h1, h2⟩ := hb
  exact ⟨c, h1, by rw [h.conns]; exact h2⟩

/-! ## Going down -/

/-- The neighbours of an element of the chain. -/
def nbAt (fuel pos : Nat) : Nb :=
  { upLower := call fuel .up (pos - 1), downUpper := call fuel .down (pos + 1), upUpper := call fuel .down (pos - 1) }

theorem call_down {fuel j : Nat} {ctx : Ctx} {w : World} (hj : j < w.n) :
    call (fuel + 1) .down (j + 1) ctx w = onUpper j (w.procs j) (nbAt fuel (j + 1)) ctx w := by
  simp only [call]
  rw [bind_of_ok (get_apply w), if_neg (by omega), if_neg (by omega)]
  rfl

theorem call_up {fuel j : Nat} {ctx : Ctx} {w : World} (hj : j < w.n) :
    call (fuel + 1) .up (j + 1) ctx w = onLower fuel j (w.procs j) (nbAt fuel (j + 1)) ctx w := by
  simp only [call]
  rw [bind_of_ok (get_apply w), if_neg (by omega), if_neg (by omega)]
  rfl

theorem call_bottom {fuel : Nat} {ctx : Ctx} {w : World} : call (fuel + 1) .down (w.n + 1) ctx w = lowerDeckUpper ctx w := by
  simp only [call]
  rw [bind_of_ok (get_apply w), if_neg (by omega), if_pos (by omega)]

theorem call_top {fuel : Nat} {ctx : Ctx} {w : World} : call (fuel + 1) .up 0 ctx w = upperDeckLower ctx w := by
  simp only [call]
  rw [bind_of_ok (get_apply w)]
  rfl

theorem toU32_mod (s : Int) : toU32 s = (s % 2 ^ 32).toNat := rfl

theorem encBE_mod (k v : Nat) : encBE k (v % 256 ^ k) = encBE k v := by
  have h1 := encBE_decBE (encBE k v)
  rw [length_encBE, decBE_encBE_mod] at h1
  exact h1

theorem encBE_u32 (n : Nat) : encBE 4 (toU32 n) = encBE 4 n := by
  rw [← encBE_mod 4 n]
  congr 1

/-- A processor after `n` messages have been handed down through it: an enabled StatCounter has counted them. -/
def Proc.sent (n : Nat) (p : Proc) : Proc :=
  match p.enable, p.kind with
  | true, .stat tx rx => ⟨true, .stat (tx + UInt64.ofNat n) rx⟩
  | _, _ => p

/-- The same for messages handed up. -/
def Proc.got (n : Nat) (p : Proc) : Proc :=
  match p.enable, p.kind with
  | true, .stat tx rx => ⟨true, .stat tx (rx + UInt64.ofNat n)⟩
  | _, _ => p

theorem Proc.sent_stat (n : Nat) (tx rx : UInt64) : (⟨true, .stat tx rx⟩ : Proc).sent n = ⟨true, .stat (tx + UInt64.ofNat n) rx⟩ := rfl
theorem Proc.got_stat (n : Nat) (tx rx : UInt64) : (⟨true, .stat tx rx⟩ : Proc).got n = ⟨true, .stat tx (rx + UInt64.ofNat n)⟩ := rfl

theorem Proc.sent_other {p : Proc} (h : ∀ tx rx, p ≠ ⟨true, .stat tx rx⟩) (n : Nat) : p.sent n = p := by
  obtain ⟨en, k⟩ := p
  cases en <;> cases k <;> first | rfl | exact absurd rfl (h _ _)

theorem Proc.got_other {p : Proc} (h : ∀ tx rx, p ≠ ⟨true, .stat tx rx⟩) (n : Nat) : p.got n = p := by
  obtain ⟨en, k⟩ := p
  cases en <;> cases k <;> first | rfl | exact absurd rfl (h _ _)

theorem Proc.sent_sent (p : Proc) (a b : Nat) : (p.sent a).sent b = p.sent (a + b) := by
  obtain ⟨en, k⟩ := p
  cases en <;> cases k <;> simp [Proc.sent, UInt64.ofNat_add, UInt64.add_assoc]

theorem Proc.got_got (p : Proc) (a b : Nat) : (p.got a).got b = p.got (a + b) := by
  obtain ⟨en, k⟩ := p
  cases en <;> cases k <;> simp [Proc.got, UInt64.ofNat_add, UInt64.add_assoc]

theorem Proc.sent_zero (p : Proc) : p.sent 0 = p := by
  obtain ⟨en, k⟩ := p
  cases en <;> cases k <;> simp [Proc.sent]

theorem Proc.got_zero (p : Proc) : p.got 0 = p := by
  obtain ⟨en, k⟩ := p
  cases en <;> cases k <;> simp [Proc.got]

/-- One passing processor writes its header. -/
theorem passes_down {i : Nat} {p : Proc} {ctx : Ctx} {w : World} {s : St} {d : Deque} (hp : Passes p) (hpi : w.procs i = p)
    (hb : OnBytes ctx w) (hbuf : ctx.buf = some s) (hs : Buf s d) (hh : (hdr p (sessionOf ctx) d.content).length ≤ d.head) :
    ∃ s' d' w', (Moved [] w w' ∧ w'.procs i = p.sent 1) ∧ Buf s' d' ∧ d'.content = hdr p (sessionOf ctx) d.content ++ d.content ∧
      d'.head + (hdr p (sessionOf ctx) d.content).length = d.head ∧
      Down (fun nb => onUpper i p nb ctx w) { ctx with buf := some s' } w' := by
  obtain ⟨en, k⟩ := p
  obtain ⟨c, hc, hr⟩ := hb
  have trivially : (∀ tx rx, (⟨en, k⟩ : Proc) ≠ ⟨true, .stat tx rx⟩) → hdr ⟨en, k⟩ (sessionOf ctx) d.content = [] →
      (∀ nb : Nb, onUpper i ⟨en, k⟩ nb ctx w = nb.downUpper ctx w) →
      ∃ s' d' w', (Moved [] w w' ∧ w'.procs i = (⟨en, k⟩ : Proc).sent 1) ∧ Buf s' d' ∧ d'.content = hdr ⟨en, k⟩ (sessionOf ctx) d.content ++ d.content ∧
      d'.head + (hdr ⟨en, k⟩ (sessionOf ctx) d.content).length = d.head ∧
      Down (fun nb => onUpper i ⟨en, k⟩ nb ctx w) { ctx with buf := some s' } w' := by
    intro h0 h1 h2
    refine ⟨s, d, w, ⟨.refl w, by rw [hpi, Proc.sent_other h0]⟩, hs, by rw [h1]; rfl, by rw [h1]; rfl, fun nb => ?_⟩
    rw [show ({ ctx with buf := some s } : Ctx) = ctx by rw [← hbuf]]
    exact h2 nb
  cases k with
  | base => exact hp.elim
  | loopback => exact hp.elim
  | session =>
    cases en with
    | false => exact trivially (by simp) rfl fun nb => rfl
    | true =>
      simp [hdr, length_encBE] at hh
      obtain ⟨s', h1, h2⟩ := sessionUpper_ok (w := w) hbuf hs (by omega)
      rw [sessionOf_eq] at h1
      refine ⟨s', _, w, ⟨.refl w, by rw [hpi]; first | rfl | (cases en <;> rfl)⟩, h1, rfl, ?_, h2⟩
      simp only [Deque.prepend, length_encBE, hdr, if_true]; omega
  | frame cache =>
    cases en with
    | false => exact trivially (by simp) rfl fun nb => frameUpper_disabled hc hr
    | true =>
      simp [hdr, length_encBE] at hh
      obtain ⟨s', h1, h2⟩ := frameUpper_ok (w := w) hc hr hbuf hs (by omega)
      rw [encBE_u32] at h1
      refine ⟨s', _, w, ⟨.refl w, by rw [hpi]; first | rfl | (cases en <;> rfl)⟩, h1, rfl, ?_, h2⟩
      simp only [Deque.prepend, length_encBE, hdr, if_true]; omega
  | stat tx rx =>
    simp [hdr, length_encBE] at hh
    obtain ⟨s', h1, h2⟩ := statUpper_ok (w := w) i en tx rx hc hr hbuf hs (by omega)
    refine ⟨s', _, _, ?_, h1, rfl, ?_, h2⟩
    · cases en with
      | true => exact ⟨.setStat (by rw [hpi]) _ _, by rw [if_pos rfl, setKind_self, hpi]; rfl⟩
      | false => exact ⟨.refl w, hpi⟩
    · simp only [Deque.prepend, List.length_cons, List.length_nil, hdr]; omega
  | heartbeat =>
    simp [hdr, length_encBE] at hh
    obtain ⟨s', h1, h2⟩ := heartbeatUpper_ok (w := w) hc hr hbuf hs (by omega)
    refine ⟨s', _, w, ⟨.refl w, by rw [hpi]; first | rfl | (cases en <;> rfl)⟩, h1, rfl, ?_, h2⟩
    simp only [Deque.prepend, List.length_cons, List.length_nil, hdr]; omega
  | loadBalancer =>
    simp [hdr, length_encBE] at hh
    obtain ⟨s', h1, h2⟩ := loadBalancerUpper_ok (w := w) en hc hr hbuf hs (by omega)
    refine ⟨s', _, w, ⟨.refl w, by rw [hpi]; first | rfl | (cases en <;> rfl)⟩, h1, rfl, ?_, h2⟩
    simp only [Deque.prepend, List.length_cons, List.length_nil, hdr]; omega
  | bytesCodec => simp only [Passes] at hp; subst hp; exact trivially (by simp) rfl fun nb => rfl
  | stringCodec => simp only [Passes] at hp; subst hp; exact trivially (by simp) rfl fun nb => rfl
  | jsonCodec m u => simp only [Passes] at hp; subst hp; exact trivially (by simp) rfl fun nb => rfl
  | genericCodec e d => simp only [Passes] at hp; subst hp; exact trivially (by simp) rfl fun nb => rfl
  | gobCodec e d => simp only [Passes] at hp; subst hp; exact trivially (by simp) rfl fun nb => rfl
  | filter f t r => simp only [Passes] at hp; subst hp; exact trivially (by simp) rfl fun nb => rfl
  | forwarder f t r => simp only [Passes] at hp; subst hp; exact trivially (by simp) rfl fun nb => rfl
  | echo => exact trivially (by simp) rfl fun nb => rfl
  | discarder => exact trivially (by simp) rfl fun nb => rfl
  | flow => exact trivially (by simp) rfl fun nb => rfl

/-- Handing data down, a processor changes nothing but its own state. -/
theorem down_keeps_others {i : Nat} {ctx ctx1 : Ctx} {w w1 : World} (h : Down (fun nb => onUpper i (w.procs i) nb ctx w) ctx1 w1) (j : Nat)
    (hj : j ≠ i) : w1.procs j = w.procs j := by
  let nb : Nb := { upLower := fun ctx w => (.ok ctx, w), downUpper := fun ctx w => (.ok ctx, w), upUpper := fun ctx w => (.ok ctx, w) }
  have H : Allows (fun a b : World => b.procs j = a.procs j) (fun x => x ≠ j) :=
    ⟨fun _ => rfl, fun h1 h2 => h2.trans h1, fun w i k hi _ => by simp only [World.setKind]; rw [if_neg (Ne.symm hi)], fun _ _ _ _ => rfl, fun _ _ _ _ _ _ => rfl⟩
  have h1 := onUpper_keeps H (i := i) (Ne.symm hj) (nb := nb) (w := w) rfl (fun _ _ _ => rfl) (fun _ _ _ => rfl) (fun _ _ _ => rfl) ctx
  have h2 := h nb
  simp only at h2
  rw [h2] at h1
  exact h1

/-- A run of passing processors. -/
theorem segment_down_above (m : Nat) : ∀ (a fuel : Nat) (ctx : Ctx) (w : World) (s : St) (d : Deque), a + m ≤ w.n →
    (∀ j, a ≤ j → j < a + m → Passes (w.procs j)) → OnBytes ctx w → ctx.buf = some s → Buf s d →
    (wrap (seg w a m) (sessionOf ctx) d.content).length ≤ d.head + d.content.length →
    ∃ s' w', (Moved [] w w' ∧ (∀ j, j < a ∨ a + m ≤ j → w'.procs j = w.procs j) ∧ ∀ j, a ≤ j → j < a + m → w'.procs j = (w.procs j).sent 1) ∧ Good s' ∧ data s' = wrap (seg w a m) (sessionOf ctx) d.content ∧
      call (fuel + m) .down (a + 1) ctx w = call fuel .down (a + m + 1) { ctx with buf := some s' } w' := by
  induction m with
  | zero =>
    intro a fuel ctx w s d _ _ _ hbuf hs hh
    refine ⟨s, w, ⟨.refl w, fun _ _ => rfl, fun j h1 h2 => by omega⟩, hs.1, by rw [hs.data]; rfl, ?_⟩
    rw [show ({ ctx with buf := some s } : Ctx) = ctx by rw [← hbuf]]
    rfl
  | succ m ih =>
    intro a fuel ctx w s d hn hpass hb hbuf hs hh
    rw [seg_succ, wrap] at hh
    have hge := wrap_ge (seg w (a + 1) m) (sessionOf ctx) (hdr (w.procs a) (sessionOf ctx) d.content ++ d.content)
    have hlen : (hdr (w.procs a) (sessionOf ctx) d.content ++ d.content).length =
      (hdr (w.procs a) (sessionOf ctx) d.content).length + d.content.length := List.length_append
    obtain ⟨s1, d1, w1, ⟨m1, t1⟩, b1, e1, r1, down1⟩ := passes_down (hpass a (by omega) (by omega)) rfl hb hbuf hs (by omega)
    obtain ⟨s', w', ⟨m2, k2, t2⟩, g2, e2, c2⟩ := ih (a + 1) fuel { ctx with buf := some s1 } w1 s1 d1 (by rw [m1.n]; omega)
      (fun j h1 h2 => (m1.same j).passes (hpass j (by omega) (by omega))) (m1.onBytes hb) rfl b1
      (by rw [wrap_same m1.same, e1]; exact Nat.le_trans hh (by omega))
    rw [wrap_same m1.same, e1] at e2
    refine ⟨s', w', ⟨by simpa using m1.trans m2, fun j hj => (k2 j (by omega)).trans (down_keeps_others down1 j (by omega)), fun j h1 h2 => ?_⟩, g2, ?_, ?_⟩
    · by_cases e : j = a
      · subst e; exact (k2 j (by omega)).trans t1
      · rw [t2 j (by omega) (by omega), down_keeps_others down1 j e]
    · rw [seg_succ, wrap]; exact e2
    · rw [← Nat.add_assoc, call_down (by omega)]
      refine (down1 _).trans ?_
      have h3 : a + 1 + m + 1 = a + (m + 1) + 1 := by omega
      rw [← h3]
      exact c2

theorem segment_down (m : Nat) (a fuel : Nat) (ctx : Ctx) (w : World) (s : St) (d : Deque) (hn : a + m ≤ w.n)
    (hp : ∀ j, a ≤ j → j < a + m → Passes (w.procs j)) (hby : OnBytes ctx w) (hb : ctx.buf = some s) (hs : Buf s d)
    (hh : (wrap (seg w a m) (sessionOf ctx) d.content).length ≤ d.head + d.content.length) :
    ∃ s' w', Moved [] w w' ∧ Good s' ∧ data s' = wrap (seg w a m) (sessionOf ctx) d.content ∧
      call (fuel + m) .down (a + 1) ctx w = call fuel .down (a + m + 1) { ctx with buf := some s' } w' := by
  obtain ⟨s', w', h1, h2⟩ := segment_down_above m a fuel ctx w s d hn hp hby hb hs hh
  exact ⟨s', w', h1.1, h2⟩

/-! ## C20 -/

/-- `b` is the encoding of `v` for a codec that can also decode it, in a stack with `room` bytes for payload. -/
inductive CodedBy (free : Nat) : Kind → Val → List Byte → Prop
  | bytes (b) : CodedBy free .bytesCodec (.bytes b) b
  | str (b) : CodedBy free .stringCodec (.str b) b
  | json (m u v b) : v ≠ .nil → m v = some b → u b = some v → CodedBy free (.jsonCodec m u) v b
  | generic (e d v b) : v ≠ .nil → RoundTrip e d v b free → CodedBy free (.genericCodec (some e) (some d)) v b
  | gob (e d v b) : v ≠ .nil → RoundTrip e d v b free → CodedBy free (.gobCodec e d) v b

theorem CodedBy.ne_nil {free : Nat} {k : Kind} {v : Val} {b : List Byte} (h : CodedBy free k v b) : v ≠ .nil := by
  cases h <;> first | assumption | (intro e; cases e)

theorem CodedBy.down {k : Kind} {w : World} {v : Val} {b : List Byte} (h : CodedBy (w.mtu - w.overhead).toNat k v b)
    (i : Nat) (nb : Nb) (ctx : Ctx) (hm : ctx.msg = v) (hb : b ≠ []) (hov : 0 ≤ w.overhead)
    (hfit : w.overhead + b.length ≤ w.mtu) : SentAs nb ctx w b (onUpper i ⟨true, k⟩ nb ctx w) := by
  have hl := List.length_pos_iff.mpr hb
  cases h with
  | bytes => exact (c15_bytes_round_trip i 0 nb ctx w b hb hov hfit).1 hm
  | str => exact (c16_string_round_trip i 0 nb ctx w b hb hov hfit).1 hm
  | json mf uf _ _ h1 h2 h3 => exact (c17_json_round_trip i 0 nb ctx w mf uf v h1 b h2 h3 hb hov hfit).1 hm
  | generic e d _ _ h1 h2 =>
    exact (c17_generic_round_trip i 0 nb ctx w e d v h1 b (by omega) hov (by omega) h2 _ (.inl rfl)).1 hm
  | gob e d _ _ h1 h2 =>
    exact (c17_generic_round_trip i 0 nb ctx w e d v h1 b (by omega) hov (by omega) h2 _ (.inr rfl)).1 hm

theorem CodedBy.up {k : Kind} {w : World} {v : Val} {b : List Byte} (h : CodedBy (w.mtu - w.overhead).toNat k v b)
    (i fuel : Nat) (nb : Nb) (ctx : Ctx) (hcar : Carries ctx b) (hb : b ≠ []) (hov : 0 ≤ w.overhead)
    (hfit : w.overhead + b.length ≤ w.mtu) :
    ∃ s', onLower fuel i ⟨true, k⟩ nb ctx w = nb.upLower { ctx with buf := some s', msg := v } w := by
  have hl := List.length_pos_iff.mpr hb
  obtain ⟨s, h1, h2, h3⟩ := hcar
  cases h with
  | bytes =>
    obtain ⟨s', _, _, h4⟩ := (c15_bytes_round_trip i fuel nb ctx w b hb hov hfit).2 s h1 h2 h3
    exact ⟨s', h4⟩
  | str =>
    obtain ⟨s', _, _, h4⟩ := (c16_string_round_trip i fuel nb ctx w b hb hov hfit).2 s h1 h2 h3
    exact ⟨s', h4⟩
  | json mf uf _ _ g1 g2 g3 => exact (c17_json_round_trip i fuel nb ctx w mf uf v g1 b g2 g3 hb hov hfit).2 s h1 h2 h3
  | generic e d _ _ g1 g2 =>
    exact (c17_generic_round_trip i fuel nb ctx w e d v g1 b (by omega) hov (by omega) g2 _ (.inl rfl)).2 s h1 h2 h3
  | gob e d _ _ g1 g2 =>
    exact (c17_generic_round_trip i fuel nb ctx w e d v g1 b (by omega) hov (by omega) g2 _ (.inr rfl)).2 s h1 h2 h3

theorem seg_split (w : World) (a m k : Nat) : seg w a (m + k) = seg w a m ++ seg w (a + m) k := by
  induction m generalizing a with
  | zero => simp [seg]
  | succ m ih =>
    rw [show m + 1 + k = (m + k) + 1 by omega, seg_succ, seg_succ, ih, List.cons_append]
    rw [show a + (m + 1) = a + 1 + m by omega]

theorem Built.room_le {w : World} (h : Built w) {a m : Nat} (hm : a + m ≤ w.n) : room (seg w a m) ≤ w.overhead := by
  rw [h, show w.n = a + (m + (w.n - a - m)) by omega, seg_split, seg_split, room_append, room_append]
  have h1 := room_nonneg (seg w 0 a)
  have h2 := room_nonneg (seg w (0 + a + m) (w.n - a - m))
  simp only [Nat.zero_add] at *
  omega

theorem head_room_sent (w : World) (hbuilt : Built w) (k m fuel : Nat) (hn : k + 1 + m ≤ w.n) (v : Val) (b : List Byte)
    (hen : (w.procs k).enable = true) (hcode : CodedBy (w.mtu - w.overhead).toNat (w.procs k).kind v b)
    (hb : b ≠ []) (hfit : w.overhead + b.length ≤ w.mtu)
    (hpass : ∀ j, k + 1 ≤ j → j < k + 1 + m → Passes (w.procs j))
    (ctx : Ctx) (hby : OnBytes ctx w) (hmsg : ctx.msg = v) :
    ∃ s w', (Moved [] w w' ∧ (∀ j, j < k + 1 ∨ k + 1 + m ≤ j → w'.procs j = w.procs j) ∧ ∀ j, k + 1 ≤ j → j < k + 1 + m → w'.procs j = (w.procs j).sent 1) ∧
      Good s ∧ data s = wrap (seg w (k + 1) m) (sessionOf ctx) b ∧
      call (fuel + m + 1) .down (k + 1) ctx w = call fuel .down (k + m + 2) { ctx with buf := some s } w' := by
  have hov : 0 ≤ w.overhead := by rw [hbuilt]; exact room_nonneg _
  have hp : w.procs k = ⟨true, (w.procs k).kind⟩ := by rw [← hen]
  obtain ⟨s0, g0, d0, h0, run0⟩ := hcode.down k (nbAt (fuel + m) (k + 1)) ctx hmsg hb hov hfit
  have hb0 : Buf s0 (view s0) := .of_good g0
  have hd0 : (view s0).content = b := d0
  have hroom : room (seg w (k + 1) m) ≤ (view s0).head := by
    have h1 := hbuilt.room_le hn
    have h2 := hb0.headW
    omega
  have hlen := wrap_length (seg w (k + 1) m) (sessionOf { ctx with buf := some s0 }) (view s0).content
  obtain ⟨s', w', m2, g2, e2, c2⟩ := segment_down_above m (k + 1) fuel { ctx with buf := some s0 } w s0 _ hn hpass hby rfl hb0 (by omega)
  refine ⟨s', w', m2, g2, by rw [e2, hd0]; rfl, ?_⟩
  rw [call_down (by omega), hp, run0]
  rw [show k + m + 2 = k + 1 + m + 1 by omega]
  exact c2

/-- In a built stack, from a codec down through any number of passing processors, in any order and
multiplicity: the next element is called with exactly the headers and the encoding.  No header is lost for lack
of head room.  Missing from the full claim: a second enabled codec below encodes again and drops what is in the
buffer (`c20_second_codec`). -/
theorem c20_head_room_partial (w : World) (hbuilt : Built w) (k m fuel : Nat) (hn : k + 1 + m ≤ w.n) (v : Val) (b : List Byte)
    (hen : (w.procs k).enable = true) (hcode : CodedBy (w.mtu - w.overhead).toNat (w.procs k).kind v b)
    (hb : b ≠ []) (hfit : w.overhead + b.length ≤ w.mtu)
    (hpass : ∀ j, k + 1 ≤ j → j < k + 1 + m → Passes (w.procs j))
    (ctx : Ctx) (hby : OnBytes ctx w) (hmsg : ctx.msg = v) :
    ∃ s w', Moved [] w w' ∧ Good s ∧ data s = wrap (seg w (k + 1) m) (sessionOf ctx) b ∧
      call (fuel + m + 1) .down (k + 1) ctx w = call fuel .down (k + m + 2) { ctx with buf := some s } w' := by
  obtain ⟨s, w', h1, h2⟩ := head_room_sent w hbuilt k m fuel hn v b hen hcode hb hfit hpass ctx hby hmsg
  exact ⟨s, w', h1.1, h2⟩

/-! ## A call into the layers above a frame decoder does not come back into it -/

/-- A frame decoder at `i` and nothing below that turns data around. -/
def OneWay (i : Nat) (w : World) : Prop :=
  (∃ c, (w.procs i).kind = .frame c) ∧ ∀ j, i < j → j < w.n → (w.procs j).kind ≠ .loopback

def Sealed (i : Nat) (w w' : World) : Prop := OneWay i w → OneWay i w' ∧ w'.procs i = w.procs i

theorem Sealed.of_same {i : Nat} {w w' : World} (h1 : w'.n = w.n) (h2 : w'.procs = w.procs) : Sealed i w w' :=
  fun h => ⟨by rw [OneWay, h1, h2]; exact h, by rw [h2]⟩

theorem Same.loopback {k k' : Kind} (h : k.Same k') (hn : k ≠ .loopback) : k' ≠ .loopback := by
  intro e; subst e
  cases k <;> simp_all [Kind.Same]

theorem Sealed.allows (i : Nat) : Allows (Sealed i) fun j => j ≠ i := by
  refine ⟨fun w => .of_same rfl rfl, fun h1 h2 h => ?_, fun w j k hj hk h => ?_, fun w _ _ _ => .of_same rfl rfl,
    fun w _ _ _ _ _ => .of_same rfl rfl⟩
  · obtain ⟨a1, a2⟩ := h1 h
    obtain ⟨b1, b2⟩ := h2 a1
    exact ⟨b1, b2.trans a2⟩
  · have he : (w.setKind j k).procs i = w.procs i := by simp [World.setKind, Ne.symm hj]
    refine ⟨⟨by rw [he]; exact h.1, fun x h1 h2 => ?_⟩, he⟩
    by_cases hx : x = j
    · subst hx; rw [setKind_self]; exact Same.loopback hk (h.2 x h1 h2)
    · simp only [World.setKind, if_neg hx]; exact h.2 x h1 h2

theorem Sealed.lowerDeck (i : Nat) : KpH (Sealed i) lowerDeckUpper := by
  have H := Sealed.allows i
  have hclose : ∀ c, Kp (Sealed i) (closeConnection c) := fun c w => .of_same rfl rfl
  intro ctx
  simp only [lowerDeckUpper]
  split
  · exact .pure H _
  · refine .bind H (.useReference H _) fun r => .ite (.bind H ?_ fun ok => ?_) ?_
    · refine .bind H (.get H) fun w => .ite (.pure H _) (.ite (.pure H _) (.bind H (fun w => ?_) fun _ => .pure H _))
      exact .of_same rfl rfl
    · cases ok with
      | true => exact .pure H _
      | false => exact .bind H (hclose _) fun _ => .pure H _
    · split
      · exact .pure H _
      · refine .bind H ?_ fun r => ?_
        · refine .ite (.pure H _) (.bind H (.onBuf H _ _) fun _ => .bind H ?_ fun _ => .bind H (.onBuf H _ _) fun _ => .pure H _)
          refine .bind H (.get H) fun w => .ite (.pure H _) (.bind H (fun w => ?_) fun _ => .pure H _)
          exact .of_same rfl rfl
        · obtain ⟨e, ub⟩ := r
          cases e with
          | none => exact .pure H _
          | some e => exact .bind H (hclose _) fun _ => .pure H _

theorem Sealed.upperDeck (i : Nat) : KpH (Sealed i) upperDeckLower := by
  have H := Sealed.allows i
  intro ctx
  simp only [upperDeckLower]
  refine .ite (.pure H _) (.bind H (.get H) fun w => ?_)
  split
  · exact .pure H _
  · exact .bind H (fun w => .of_same rfl rfl) fun _ => .pure H _

theorem call_sealed (i fuel : Nat) : ∀ dir pos, (dir = .up → pos ≤ i) → KpH (Sealed i) (call fuel dir pos) := by
  have H := Sealed.allows i
  induction fuel with
  | zero => intro dir pos _ ctx; exact .running H
  | succ fuel ih =>
    intro dir pos hpos ctx w
    by_cases hw : OneWay i w
    case neg => exact fun h => absurd h hw
    simp only [call]
    rw [bind_of_ok (get_apply w)]
    by_cases h0 : pos = 0
    · subst h0
      rw [if_pos rfl]
      cases dir with
      | up => exact Sealed.upperDeck i ctx w
      | down => exact H.refl w
    · rw [if_neg h0]
      by_cases hn : pos > w.n
      · rw [if_pos hn]
        cases dir with
        | down => exact Sealed.lowerDeck i ctx w
        | up => exact H.refl w
      · rw [if_neg hn]
        obtain ⟨j, rfl⟩ : ∃ j, pos = j + 1 := ⟨pos - 1, by omega⟩
        simp only [Nat.add_sub_cancel]
        have hdn : ∀ q, KpH (Sealed i) (call fuel .down q) := fun q => ih .down q (by simp)
        cases dir with
        | down =>
          by_cases hji : j = i
          · subst hji
            obtain ⟨c, hc⟩ := hw.1
            simp only [onUpper, hc]
            refine Kp.bind H (.useReference H _) (fun r => .ite (hdn _ _) (.ite ?_ (hdn _ _))) w
            split
            · exact .pure H _
            · exact .bind H (.onBuf H _ _) fun _ => hdn _ _
          · refine onUpper_keeps H hji rfl (fun h => ih .up j fun _ => ?_) (fun _ => hdn _) (fun _ => hdn _) ctx
            by_cases hlt : j ≤ i
            · exact hlt
            · exact absurd h (hw.2 j (by omega) (by omega))
        | up =>
          have := hpos rfl
          exact onLower_keeps H (by omega) fuel rfl (fun _ _ => ih .up j fun _ => by omega) (fun _ => hdn _) ctx

theorem calm_above (i fuel : Nat) : Calm (OneWay i) i (call fuel .up i) := by
  refine ⟨fun ctx w h => call_sealed i fuel .up i (fun _ => Nat.le_refl _) ctx w h, fun w c c' hk h => ⟨⟨c', ?_⟩, fun j h1 h2 => ?_⟩⟩
  · rw [setKind_self]
  · have : j ≠ i := by omega
    simp only [World.setKind, if_neg this]
    exact h.2 j h1 h2

/-! ## Going up -/

/-- A processor that strips its header and hands the rest up. -/
def Opens (p : Proc) : Prop :=
  match p.kind with
  | .base | .loopback => False
  | .bytesCodec | .stringCodec | .jsonCodec _ _ | .genericCodec _ _ | .gobCodec _ _ => p.enable = false
  | .filter _ _ _ | .forwarder _ _ _ | .echo | .discarder | .loadBalancer => p.enable = false
  | _ => True

/-- An enabled SessionResolver. -/
def Resolves (p : Proc) : Prop := p.kind = .session ∧ p.enable = true

/-- An enabled FrameDecoder. -/
def Frames (p : Proc) : Prop := (∃ c, p.kind = .frame c) ∧ p.enable = true

theorem SameProc.opens {p q : Proc} (h : SameProc p q) (hp : Opens p) : Opens q := by
  obtain ⟨en, k⟩ := p
  obtain ⟨en', k'⟩ := q
  obtain ⟨h1, h2⟩ := h
  simp only at h1
  subst h1
  cases k <;> cases k' <;> simp_all [Kind.Same, Opens]

theorem Opens.passes {p : Proc} (h : Opens p) : Passes p := by
  obtain ⟨en, k⟩ := p
  cases k <;> simp_all [Opens, Passes]

theorem SameProc.resolves {p q : Proc} (h : SameProc p q) (hp : Resolves p) : Resolves q := by
  obtain ⟨en, k⟩ := p
  obtain ⟨en', k'⟩ := q
  obtain ⟨h1, h2⟩ := h
  obtain ⟨h3, h4⟩ := hp
  simp only at h1 h3 h4
  subst h1 h3 h4
  cases k' <;> simp_all [Kind.Same, Resolves]

theorem SameProc.frames {p q : Proc} (h : SameProc p q) (hp : Frames q) : Frames p := by
  obtain ⟨en, k⟩ := p
  obtain ⟨en', k'⟩ := q
  obtain ⟨h1, h2⟩ := h
  obtain ⟨⟨c, h3⟩, h4⟩ := hp
  simp only at h1 h3 h4
  subst h1 h3 h4
  cases k <;> simp_all [Kind.Same, Frames]

theorem pop_append {d : Deque} {a b : List Byte} (h : d.content = a ++ b) : (d.pop a.length).content = b := by
  simp [Deque.pop, h]

/-- Free space in front of the payload. -/
def headRoom (ctx : Ctx) : Int :=
  match ctx.buf with
  | some s => headWritableLength s
  | none => 0

theorem headRoom_pop {ctx ctx' : Ctx} {s s' : St} {d : Deque} {k : Nat} (h1 : ctx.buf = some s) (h2 : Buf s d)
    (h3 : ctx'.buf = some s') (h4 : Buf s' (d.pop k)) : headRoom ctx' = headRoom ctx + k := by
  simp only [headRoom, h1, h3, h2.headW, h4.headW, Deque.pop]
  omega

/-- Handing data up, a processor changes nothing but its own state. -/
theorem up_keeps_others {i fuel : Nat} {ctx ctx1 : Ctx} {w w1 : World} (h : Up (fun nb => onLower fuel i (w.procs i) nb ctx w) ctx1 w1) (j : Nat)
    (hj : j ≠ i) : w1.procs j = w.procs j := by
  let nb : Nb := { upLower := fun ctx w => (.ok ctx, w), downUpper := fun ctx w => (.ok ctx, w), upUpper := fun ctx w => (.ok ctx, w) }
  have H : Allows (fun a b : World => b.procs j = a.procs j) (fun x => x ≠ j) :=
    ⟨fun _ => rfl, fun h1 h2 => h2.trans h1, fun w i k hi _ => by simp only [World.setKind]; rw [if_neg (Ne.symm hi)], fun _ _ _ _ => rfl, fun _ _ _ _ _ _ => rfl⟩
  have h1 := onLower_keeps H (i := i) (Ne.symm hj) (nb := nb) fuel (w := w) rfl (fun _ _ _ _ => rfl) (fun _ _ _ => rfl) ctx
  have h2 := h nb
  simp only at h2
  rw [h2] at h1
  exact h1

theorem opens_up {i : Nat} {p : Proc} {ctx : Ctx} {w : World} {s : Int} {b : List Byte} (hp : Opens p) (hpi : w.procs i = p)
    (hnf : ¬ Frames p) (hb : OnBytes ctx w) (hcar : Carries ctx (hdr p s b ++ b)) (fuel : Nat) :
    ∃ ctx' w', (Moved [] w w' ∧ w'.procs i = p.got 1) ∧ Carries ctx' b ∧ ctx'.conn = ctx.conn ∧ (Resolves p → sessionOf ctx' = s % 2 ^ 32) ∧
      (¬ Resolves p → sessionOf ctx' = sessionOf ctx) ∧
      headRoom ctx' = headRoom ctx + (hdr p s b).length ∧ Up (fun nb => onLower fuel i p nb ctx w) ctx' w' := by
  obtain ⟨en, k⟩ := p
  obtain ⟨c, hc, hr⟩ := hb
  obtain ⟨ub, d, hbuf, hs, hd⟩ := hcar.buf
  have trivially : (∀ tx rx, (⟨en, k⟩ : Proc) ≠ ⟨true, .stat tx rx⟩) → hdr ⟨en, k⟩ s b = [] → ¬ Resolves ⟨en, k⟩ → (∀ nb : Nb, onLower fuel i ⟨en, k⟩ nb ctx w = nb.upLower ctx w) →
      ∃ ctx' w', (Moved [] w w' ∧ w'.procs i = (⟨en, k⟩ : Proc).got 1) ∧ Carries ctx' b ∧ ctx'.conn = ctx.conn ∧ (Resolves ⟨en, k⟩ → sessionOf ctx' = s % 2 ^ 32) ∧
      (¬ Resolves ⟨en, k⟩ → sessionOf ctx' = sessionOf ctx) ∧
      headRoom ctx' = headRoom ctx + (hdr ⟨en, k⟩ s b).length ∧ Up (fun nb => onLower fuel i ⟨en, k⟩ nb ctx w) ctx' w' := by
    intro h0 h1 h2 h3
    rw [h1] at hcar
    exact ⟨ctx, w, ⟨.refl w, by rw [hpi, Proc.got_other h0]⟩, hcar, rfl, fun h => absurd h h2, fun _ => rfl, by rw [h1]; simp, h3⟩
  cases k with
  | base => exact hp.elim
  | loopback => exact hp.elim
  | session =>
    cases en with
    | false => exact trivially (by simp) rfl (by simp [Resolves]) fun nb => rfl
    | true =>
      simp only [hdr, if_true] at hd
      obtain ⟨s', h1, h2⟩ := sessionLower_ok (w := w) hbuf hs (by rw [hd]; simp [length_encBE])
      have hv : decBE (d.content.take 4) = (s % 2 ^ 32).toNat := by
        have h3 : d.content.take 4 = encBE 4 (s % 2 ^ 32).toNat := by
          rw [hd, List.take_append_of_le_length (by simp [length_encBE]), List.take_of_length_le (by simp [length_encBE])]
        rw [h3, decBE_encBE_mod]
        omega
      refine ⟨({ ctx with buf := some s' } : Ctx).setOption "session" (.int (decBE (d.content.take 4))), w, ⟨.refl w, by rw [hpi]; first | rfl | (cases en <;> rfl)⟩,
        ⟨s', rfl, h1.1, ?_⟩, rfl, fun _ => ?_, fun h => absurd ⟨rfl, rfl⟩ h, ?_, h2⟩
      · rw [h1.data]
        have h4 := pop_append hd
        rw [length_encBE] at h4
        exact h4
      · simp only [sessionOf, Ctx.setOption, if_true, hv]
        omega
      · rw [headRoom_pop hbuf hs rfl h1]; simp [hdr, length_encBE]
  | frame cache =>
    cases en with
    | true => exact absurd ⟨⟨cache, rfl⟩, rfl⟩ hnf
    | false =>
      refine trivially (by simp) rfl (by simp [Resolves]) fun nb => ?_
      exact (c27_disabled_transparent_partial i fuel (.frame cache) ctx w
        (.inr ⟨⟨cache, rfl⟩, ⟨c, hc, hr⟩, by rw [hbuf]; simp⟩)).2 nb
  | stat tx rx =>
    obtain ⟨s', h1, h2⟩ := statLower_pass (w := w) i en tx rx hc hr hbuf hs (t := 0) (bs := b) hd (by intro _; decide)
    refine ⟨{ ctx with buf := some s' }, _, ?_, ⟨s', rfl, h1.1, by rw [h1.data]; exact pop_append (a := [0]) hd⟩, rfl, fun h => by simp [Resolves] at h, fun _ => rfl,
      by rw [headRoom_pop hbuf hs rfl h1]; simp [hdr], h2⟩
    cases en with
    | true => exact ⟨.setStat (by rw [hpi]) _ _, by rw [if_pos rfl, setKind_self, hpi]; rfl⟩
    | false => exact ⟨.refl w, hpi⟩
  | heartbeat =>
    obtain ⟨s', h1, h2⟩ := heartbeatLower_pass (w := w) i hc hr hbuf hs (t := 0) (bs := b) hd (by decide)
    exact ⟨{ ctx with buf := some s' }, w, ⟨.refl w, by rw [hpi]; first | rfl | (cases en <;> rfl)⟩, ⟨s', rfl, h1.1, by rw [h1.data]; exact pop_append (a := [0]) hd⟩, rfl, fun h => by simp [Resolves] at h, fun _ => rfl,
      by rw [headRoom_pop hbuf hs rfl h1]; simp [hdr], h2⟩
  | loadBalancer =>
    simp only [Opens] at hp
    subst hp
    obtain ⟨s', h1, h2⟩ := loadBalancerLower_pass (w := w) false hc hr hbuf hs (t := 0) (bs := b) hd (by simp)
    exact ⟨{ ctx with buf := some s' }, w, ⟨.refl w, by rw [hpi]; first | rfl | (cases en <;> rfl)⟩, ⟨s', rfl, h1.1, by rw [h1.data]; exact pop_append (a := [0]) hd⟩, rfl, fun h => by simp [Resolves] at h, fun _ => rfl,
      by rw [headRoom_pop hbuf hs rfl h1]; simp [hdr], h2⟩
  | bytesCodec => simp only [Opens] at hp; subst hp; exact trivially (by simp) rfl (by simp [Resolves]) fun nb => rfl
  | stringCodec => simp only [Opens] at hp; subst hp; exact trivially (by simp) rfl (by simp [Resolves]) fun nb => rfl
  | jsonCodec m u => simp only [Opens] at hp; subst hp; exact trivially (by simp) rfl (by simp [Resolves]) fun nb => rfl
  | genericCodec e d => simp only [Opens] at hp; subst hp; exact trivially (by simp) rfl (by simp [Resolves]) fun nb => rfl
  | gobCodec e d => simp only [Opens] at hp; subst hp; exact trivially (by simp) rfl (by simp [Resolves]) fun nb => rfl
  | filter f t r => simp only [Opens] at hp; subst hp; exact trivially (by simp) rfl (by simp [Resolves]) fun nb => rfl
  | forwarder f t r => simp only [Opens] at hp; subst hp; exact trivially (by simp) rfl (by simp [Resolves]) fun nb => rfl
  | echo => simp only [Opens] at hp; subst hp; exact trivially (by simp) rfl (by simp [Resolves]) fun nb => rfl
  | discarder => simp only [Opens] at hp; subst hp; exact trivially (by simp) rfl (by simp [Resolves]) fun nb => rfl
  | flow => exact trivially (by simp) rfl (by simp [Resolves]) fun nb => rfl

end Verif.Stack
