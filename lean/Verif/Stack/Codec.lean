import Verif.Stack.Step

/-!
# C15 - C18: codecs

The neighbours are arbitrary: the theorems say what a codec hands to the layer below or above.
`Good s` is a well-formed unshared buffer, `data s` its readable bytes.
-/

namespace Verif.Stack
open GoM UBuf

/-- A good buffer is a `Buf` of its view. -/
theorem Buf.of_good {s : St} (h : Good s) : Buf s (view s) := ⟨h, rfl⟩

theorem data_eq {s : St} : (view s).content = data s := rfl

/-! ## Demo objects for the examples -/

/-- A recording neighbourhood: what is handed down/up appears in the trace. -/
def probe : Nb :=
  { upLower := fun ctx w => (.ok ctx, { w with trace := w.trace ++ [.rx 0 ctx.conn ctx.msg] })
    downUpper := fun ctx w => (.ok ctx, { w with trace := w.trace ++ [.wire 0 (match ctx.buf with | some s => data s | none => []) ⟨0, none⟩] })
    upUpper := fun ctx w => (.ok ctx, w) }

/-- A quiet stack. -/
def quiet : World :=
  { mtu := 16, overhead := 5, name := [117], n := 0, procs := fun _ => default, served := [(7, 3)],
    conns := fun _ => ⟨false, false⟩, write := fun _ _ p => ⟨p.length, none⟩, trace := [] }

/-- A received buffer holding the given bytes. -/
def rxBuf (bs : List Byte) : St :=
  match UBuf.alloc 16 0 Heap.empty with
  | .ok s => (UBuf.write bs s).2
  | _ => UBuf.demo

theorem rxBuf_good {bs : List Byte} (h1 : bs ≠ []) (h2 : bs.length ≤ 16) : Buf (rxBuf bs) ⟨16, 0, 0, bs⟩ := by
  obtain ⟨s, hs, hb⟩ := alloc_buf 16 0 Heap.empty (by decide) (by decide) (by decide)
  obtain ⟨s', h3, h4⟩ := hb.write bs (by simpa [Deque.tail, Deque.fresh] using h2) (by simp [Deque.tail, Deque.fresh])
  simp only [rxBuf, hs, h3]
  simpa [Deque.push, Deque.fresh] using h4

/-! ## C15, C16 -/

/-- What goes down: a buffer with exactly the bytes, all head room in front. -/
def SentAs (nb : Nb) (ctx : Ctx) (w : World) (bs : List Byte) (run : Res Ctx × World) : Prop :=
  ∃ s, Good s ∧ data s = bs ∧ headWritableLength s = w.overhead ∧
    run = nb.downUpper { ctx with buf := some s } w

theorem Buf.headW {s : St} {d : Deque} (h : Buf s d) : headWritableLength s = d.head := by
  simp [headWritableLength, h.rel.rd]

theorem encodeDown_sent {nb : Nb} {ctx : Ctx} {w : World} {bs : List Byte} (hb : bs ≠ []) (hov : 0 ≤ w.overhead)
    (hfit : w.overhead + bs.length ≤ w.mtu) : SentAs nb ctx w bs (encodeDown nb ctx bs w) := by
  obtain ⟨s, h1, h2⟩ := encodeDown_ok (nb := nb) (ctx := ctx) bs hb hov hfit
  refine ⟨s, h1.1, h1.data, ?_, h2⟩
  rw [h1.headW]; simp only; omega

theorem c15_bytes_round_trip (i fuel : Nat) (nb : Nb) (ctx : Ctx) (w : World) (b : List Byte) (hb : b ≠ [])
    (hov : 0 ≤ w.overhead) (hfit : w.overhead + b.length ≤ w.mtu) :
    (ctx.msg = .bytes b → SentAs nb ctx w b (onUpper i ⟨true, .bytesCodec⟩ nb ctx w)) ∧
    (∀ s, ctx.buf = some s → Good s → data s = b →
      ∃ s', Good s' ∧ data s' = [] ∧
        onLower fuel i ⟨true, .bytesCodec⟩ nb ctx w = nb.upLower { ctx with buf := some s', msg := .bytes b } w) := by
  refine ⟨fun hm => ?_, fun s hs hg hd => ?_⟩
  · simp only [onUpper, bytesUpper, if_true, hm]
    exact encodeDown_sent hb hov hfit
  · have hb' : Buf s (view s) := .of_good hg
    obtain ⟨s', h1, h2⟩ := decodeUp_ok (w := w) (k := fun ctx b => nb.upLower { ctx with msg := .bytes b }) hs hb'
      (by rw [data_eq, hd]; exact hb)
    refine ⟨s', h1.1, ?_, ?_⟩
    · rw [h1.data]; simp [Deque.pop]
    · simp only [onLower, bytesLower, if_true]
      rw [h2, data_eq, hd]

example : (onUpper 0 ⟨true, .bytesCodec⟩ probe { Ctx.new with msg := .bytes [1, 2] } quiet).2.trace =
    [.wire 0 [1, 2] ⟨0, none⟩] := by
  obtain ⟨s, _, h2, _, h4⟩ := (c15_bytes_round_trip 0 0 probe { Ctx.new with msg := .bytes [1, 2] } quiet [1, 2] (by decide)
    (by decide) (by decide)).1 rfl
  rw [h4]; simp [probe, h2, quiet]

theorem c16_string_round_trip (i fuel : Nat) (nb : Nb) (ctx : Ctx) (w : World) (b : List Byte) (hb : b ≠ [])
    (hov : 0 ≤ w.overhead) (hfit : w.overhead + b.length ≤ w.mtu) :
    (ctx.msg = .str b → SentAs nb ctx w b (onUpper i ⟨true, .stringCodec⟩ nb ctx w)) ∧
    (∀ s, ctx.buf = some s → Good s → data s = b →
      ∃ s', Good s' ∧ data s' = [] ∧
        onLower fuel i ⟨true, .stringCodec⟩ nb ctx w = nb.upLower { ctx with buf := some s', msg := .str b } w) := by
  refine ⟨fun hm => ?_, fun s hs hg hd => ?_⟩
  · simp only [onUpper, stringUpper, if_true, hm]
    exact encodeDown_sent hb hov hfit
  · have hb' : Buf s (view s) := .of_good hg
    obtain ⟨s', h1, h2⟩ := decodeUp_ok (w := w) (k := fun ctx b => nb.upLower { ctx with msg := .str b }) hs hb'
      (by rw [data_eq, hd]; exact hb)
    refine ⟨s', h1.1, ?_, ?_⟩
    · rw [h1.data]; simp [Deque.pop]
    · simp only [onLower, stringLower, if_true]
      rw [h2, data_eq, hd]

/-- invalid UTF-8 comes out as it went in -/
example : (onLower 0 0 ⟨true, .stringCodec⟩ probe { Ctx.new with buf := some (rxBuf [0xff, 0]) } quiet).2.trace =
    [.rx 0 none (.str [0xff, 0])] := by
  have hg := rxBuf_good (bs := [0xff, 0]) (by decide) (by decide)
  obtain ⟨s', _, _, h3⟩ := (c16_string_round_trip 0 0 probe { Ctx.new with buf := some (rxBuf [0xff, 0]) } quiet [0xff, 0]
    (by decide) (by decide) (by decide)).2 _ rfl hg.1 hg.data
  rw [h3]; simp [probe, quiet, Ctx.new]

/-- C15, C16 for the empty message: a received buffer without data ends at the codec, nothing is handed up. -/
theorem c15_empty_dropped (i fuel : Nat) (nb : Nb) (ctx : Ctx) (w : World) (kind : Kind) (hk : kind = .bytesCodec ∨ kind = .stringCodec) (s : St) (hs : ctx.buf = some s)
    (hg : Good s) (hd : data s = []) : ∃ s', Good s' ∧ data s' = [] ∧ onLower fuel i ⟨true, kind⟩ nb ctx w = (.ok { ctx with buf := some s' }, w) := by
  have hb' : Buf s (view s) := .of_good hg
  have hv : (view s).content = [] := by rw [data_eq, hd]
  rcases hk with rfl | rfl
  · obtain ⟨s', h1, h2⟩ := decodeUp_empty (w := w) (k := fun ctx b => nb.upLower { ctx with msg := .bytes b }) hs hb' hv
    exact ⟨s', h1.1, by rw [h1.data, hv], by simp only [onLower, bytesLower, if_true]; exact h2⟩
  · obtain ⟨s', h1, h2⟩ := decodeUp_empty (w := w) (k := fun ctx b => nb.upLower { ctx with msg := .str b }) hs hb' hv
    exact ⟨s', h1.1, by rw [h1.data, hv], by simp only [onLower, stringLower, if_true]; exact h2⟩

example : ∃ s : St, Good s ∧ data s = [] := by
  obtain ⟨s, _, hb⟩ := alloc_buf 16 0 Heap.empty (by decide) (by decide) (by decide)
  exact ⟨s, hb.1, by rw [hb.data]; rfl⟩

/-! ## C17 -/

/-- The JSON functions are a round trip on `v`. -/
theorem c17_json_round_trip (i fuel : Nat) (nb : Nb) (ctx : Ctx) (w : World)
    (marshal : Val → Option (List Byte)) (unmarshal : List Byte → Option Val) (v : Val) (hv : v ≠ .nil)
    (b : List Byte) (hm : marshal v = some b) (hu : unmarshal b = some v) (hb : b ≠ [])
    (hov : 0 ≤ w.overhead) (hfit : w.overhead + b.length ≤ w.mtu) :
    (ctx.msg = v → SentAs nb ctx w b (onUpper i ⟨true, .jsonCodec marshal unmarshal⟩ nb ctx w)) ∧
    (∀ s, ctx.buf = some s → Good s → data s = b →
      ∃ s', onLower fuel i ⟨true, .jsonCodec marshal unmarshal⟩ nb ctx w =
        nb.upLower { ctx with buf := some s', msg := v } w) := by
  refine ⟨fun hmsg => ?_, fun s hs hg hd => ?_⟩
  · simp only [onUpper, jsonUpper, if_true, hmsg, if_neg hv, hm]
    exact encodeDown_sent hb hov hfit
  · have hb' : Buf s (view s) := .of_good hg
    obtain ⟨s', h1, h2⟩ := decodeUp_ok (w := w) (k := fun ctx b => match unmarshal b with
      | some v => nb.upLower { ctx with msg := v }
      | none => Pure.pure ctx) hs hb' (by rw [data_eq, hd]; exact hb)
    refine ⟨s', ?_⟩
    simp only [onLower, jsonLower, if_true]
    refine Eq.trans h2 ?_
    rw [data_eq, hd, hu]

/-- An encoder/decoder working on the buffer (the user's functions, or gob) is a round trip on `v` for
an encoding `b`: into a fresh buffer with `room` bytes left it appends `b`; from any buffer holding `b`
it gets `v` back. -/
structure RoundTrip (enc : Val → GoM St (Option Err)) (dec : GoM St (Val × Option Err)) (v : Val) (b : List Byte)
    (room : Nat) : Prop where
  enc : ∀ s, Good s → data s = [] → tailWritableLength s = room →
    ∃ s', enc v s = (.ok none, s') ∧ Good s' ∧ data s' = b ∧ headWritableLength s' = headWritableLength s
  dec : ∀ s, Good s → data s = b → ∃ s', dec s = (.ok (v, none), s')

theorem c17_generic_round_trip (i fuel : Nat) (nb : Nb) (ctx : Ctx) (w : World)
    (enc : Val → GoM St (Option Err)) (dec : GoM St (Val × Option Err)) (v : Val) (hv : v ≠ .nil) (b : List Byte)
    (hm : 0 < w.mtu) (hov : 0 ≤ w.overhead) (hfit : w.overhead ≤ w.mtu)
    (hrt : RoundTrip enc dec v b (w.mtu - w.overhead).toNat)
    (k : Kind) (hk : k = .genericCodec (some enc) (some dec) ∨ k = .gobCodec enc dec) :
    (ctx.msg = v → SentAs nb ctx w b (onUpper i ⟨true, k⟩ nb ctx w)) ∧
    (∀ s, ctx.buf = some s → Good s → data s = b →
      ∃ s', onLower fuel i ⟨true, k⟩ nb ctx w = nb.upLower { ctx with buf := some s', msg := v } w) := by
  have hup : onUpper i ⟨true, k⟩ nb = genericUpper true (some enc) nb := by
    rcases hk with rfl | rfl <;> rfl
  have hlo : onLower fuel i ⟨true, k⟩ nb = genericLower true (some dec) nb := by
    rcases hk with rfl | rfl <;> rfl
  refine ⟨fun hmsg => ?_, fun s hs hg hd => ?_⟩
  · rw [hup]
    obtain ⟨s0, h1, h2⟩ := allocBuf_ok w.mtu w.overhead w hm hov hfit
    obtain ⟨s1, h3, h4, h5, h6⟩ := hrt.enc s0 h2.1 (by rw [h2.data]; rfl) (by
      rw [h2.tail]; simp [Deque.tail, Deque.fresh]; omega)
    refine ⟨s1, h4, h5, ?_, ?_⟩
    · rw [h6, h2.headW]; simp only [Deque.fresh]; omega
    · simp only [genericUpper, if_true, hmsg, if_neg hv]
      rw [bind_of_ok (get_apply w), bind_of_ok h1, bind_onBuf h3]
      rfl
  · rw [hlo]
    obtain ⟨s', h1⟩ := hrt.dec s hg hd
    refine ⟨s', ?_⟩
    simp only [genericLower, if_true, hs]
    rw [bind_onBuf h1]
    rfl

/-- A round-trip pair: an int as 8 big-endian bytes. -/
example : RoundTrip
    (fun v => match v with | .int i => UBuf.writeU .u64 .be i.toNat | _ => fun s => (.ok (some .full), s))
    (do let r ← UBuf.readU .u64 .be; return (.int r.1, r.2)) (.int 77) (encode .u64 .be 77) 11 := by
  constructor
  · intro s hg hd ht
    have hb : Buf s (view s) := .of_good hg
    rw [hb.tail] at ht
    obtain ⟨s', h1, h2⟩ := hb.writeU .u64 .be 77 (by simp [Width.size]; omega)
    refine ⟨s', h1, h2.1, ?_, ?_⟩
    · rw [h2.data]; simp only [Deque.push, data_eq, hd, List.nil_append]
    · rw [h2.headW, hb.headW]; rfl
  · intro s hg hd
    obtain ⟨s', h1, _⟩ := (Buf.of_good hg).readU .u64 .be (by rw [data_eq, hd]; decide)
    refine ⟨s', ?_⟩
    rw [bind_of_ok h1, data_eq, hd]
    simp [encode, decode, encBE, decBE, Width.size]

/-! ## C18 -/

/-- What it means for a byte string to be the encoding of a message for a codec with a byte-slice
encoder. -/
inductive Encodes : Kind → Val → List Byte → Prop
  | bytes (b) : Encodes .bytesCodec (.bytes b) b
  | str (b) : Encodes .stringCodec (.str b) b
  | json (m u v b) : v ≠ .nil → m v = some b → Encodes (.jsonCodec m u) v b

/-- The codecs that write a byte slice. -/
def Kind.isSliceCodec : Kind → Prop
  | .bytesCodec | .stringCodec | .jsonCodec _ _ => True
  | _ => False

/-- A message can be sent: it has a non-empty encoding that fits. -/
def Sendable (k : Kind) (w : World) (v : Val) : Prop :=
  ∃ b, Encodes k v b ∧ b ≠ [] ∧ w.overhead + b.length ≤ w.mtu

/-- All or nothing.  Missing from the full claim: configurations with `GetOverhead() > GetMTU()` (or a
non-positive MTU), where sending panics (`c18_panics`). -/
theorem c18_all_or_nothing_partial (i : Nat) (k : Kind) (hk : k.isSliceCodec) (nb : Nb) (ctx : Ctx) (w : World)
    (hm : 0 < w.mtu) (hov : 0 ≤ w.overhead) (hov2 : w.overhead ≤ w.mtu) :
    (∃ b, Encodes k ctx.msg b ∧ b ≠ [] ∧ w.overhead + b.length ≤ w.mtu ∧
      SentAs nb ctx w b (onUpper i ⟨true, k⟩ nb ctx w)) ∨
    (¬ Sendable k w ctx.msg ∧ onUpper i ⟨true, k⟩ nb ctx w = (.ok ctx, w)) := by
  have key : ∀ b, Encodes k ctx.msg b → (∀ b', Encodes k ctx.msg b' → b' = b) →
      onUpper i ⟨true, k⟩ nb ctx w = encodeDown nb ctx b w →
      (∃ b, Encodes k ctx.msg b ∧ b ≠ [] ∧ w.overhead + b.length ≤ w.mtu ∧
        SentAs nb ctx w b (onUpper i ⟨true, k⟩ nb ctx w)) ∨
      (¬ Sendable k w ctx.msg ∧ onUpper i ⟨true, k⟩ nb ctx w = (.ok ctx, w)) := by
    intro b he hu hrun
    by_cases h : b ≠ [] ∧ w.overhead + b.length ≤ w.mtu
    · left
      exact ⟨b, he, h.1, h.2, by rw [hrun]; exact encodeDown_sent h.1 hov h.2⟩
    · right
      refine ⟨fun ⟨b', h1, h2, h3⟩ => h (by rw [← hu b' h1]; exact ⟨h2, h3⟩), ?_⟩
      rw [hrun, encodeDown_drop b hm hov hov2]
      by_cases hb : b = []
      · exact Or.inl hb
      · right
        have : ¬ w.overhead + b.length ≤ w.mtu := fun hh => h ⟨hb, hh⟩
        omega
  have none_ : (∀ b, ¬ Encodes k ctx.msg b) → onUpper i ⟨true, k⟩ nb ctx w = (.ok ctx, w) →
      (∃ b, Encodes k ctx.msg b ∧ b ≠ [] ∧ w.overhead + b.length ≤ w.mtu ∧
        SentAs nb ctx w b (onUpper i ⟨true, k⟩ nb ctx w)) ∨
      (¬ Sendable k w ctx.msg ∧ onUpper i ⟨true, k⟩ nb ctx w = (.ok ctx, w)) :=
    fun h1 h2 => .inr ⟨fun ⟨b, h, _⟩ => h1 b h, h2⟩
  cases k with
  | bytesCodec =>
    cases hmsg : ctx.msg with
    | bytes b =>
      rw [← hmsg]
      refine key b (by rw [hmsg]; exact .bytes b) (fun b' h => by rw [hmsg] at h; cases h; rfl) ?_
      simp [onUpper, bytesUpper, hmsg]
    | _ =>
      rw [← hmsg]
      refine none_ (fun b h => by rw [hmsg] at h; cases h) ?_
      simp [onUpper, bytesUpper, hmsg]
  | stringCodec =>
    cases hmsg : ctx.msg with
    | str b =>
      rw [← hmsg]
      refine key b (by rw [hmsg]; exact .str b) (fun b' h => by rw [hmsg] at h; cases h; rfl) ?_
      simp [onUpper, stringUpper, hmsg]
    | _ =>
      rw [← hmsg]
      refine none_ (fun b h => by rw [hmsg] at h; cases h) ?_
      simp [onUpper, stringUpper, hmsg]
  | jsonCodec m u =>
    by_cases hn : ctx.msg = .nil
    · refine none_ (fun b h => by cases h; contradiction) ?_
      simp [onUpper, jsonUpper, hn]
    · cases hmar : m ctx.msg with
      | none =>
        refine none_ (fun b h => by cases h with | json _ _ _ _ h1 h2 => rw [hmar] at h2; cases h2) ?_
        simp [onUpper, jsonUpper, hn, hmar]
      | some b =>
        refine key b (.json m u _ b hn hmar) (fun b' h => by
          cases h with | json _ _ _ _ h1 h2 => rw [hmar] at h2; exact (Option.some.inj h2).symm) ?_
        simp [onUpper, jsonUpper, hn, hmar]
  | _ => exact hk.elim

/-- For the codecs with user-supplied encoders: what goes down is exactly the buffer for which the
encoder reported success; an error, a nil message or a missing encoder sends nothing. -/
theorem c18_generic_all_or_nothing_partial (i : Nat) (enc : Option (Val → GoM St (Option Err)))
    (dec : Option (GoM St (Val × Option Err))) (nb : Nb) (ctx : Ctx) (w : World)
    (hm : 0 < w.mtu) (hov : 0 ≤ w.overhead) (hov2 : w.overhead ≤ w.mtu)
    (hret : ∀ e, enc = some e → ∀ s, ∃ r s', e ctx.msg s = (.ok r, s')) :
    (∃ e s0 s, enc = some e ∧ ctx.msg ≠ .nil ∧ Good s0 ∧ data s0 = [] ∧ headWritableLength s0 = w.overhead ∧
      e ctx.msg s0 = (.ok none, s) ∧
      onUpper i ⟨true, .genericCodec enc dec⟩ nb ctx w = nb.downUpper { ctx with buf := some s } w) ∨
    onUpper i ⟨true, .genericCodec enc dec⟩ nb ctx w = (.ok ctx, w) := by
  simp only [onUpper, genericUpper, if_true]
  cases enc with
  | none => exact .inr rfl
  | some e =>
    by_cases hn : ctx.msg = .nil
    · simp [hn]
    · obtain ⟨s0, h1, h2⟩ := allocBuf_ok w.mtu w.overhead w hm hov hov2
      obtain ⟨r, s, h3⟩ := hret e rfl s0
      simp only [if_neg hn]
      rw [bind_of_ok (get_apply w), bind_of_ok h1, bind_onBuf h3]
      cases r with
      | some er => right; rfl
      | none =>
        left
        refine ⟨e, s0, s, rfl, hn, h2.1, by rw [h2.data]; rfl, ?_, h3, rfl⟩
        rw [h2.headW]; simp only [Deque.fresh]; omega

/-- Oversize is dropped, a fitting message of the same codec is sent. -/
example : Sendable .bytesCodec quiet (.bytes [1]) ∧ ¬ Sendable .bytesCodec quiet (.bytes (List.replicate 12 1)) ∧
    ¬ Sendable .bytesCodec quiet (.str [1]) := by
  refine ⟨⟨[1], .bytes _, by decide, by decide⟩, ?_, ?_⟩
  · rintro ⟨b, h, _, h2⟩
    cases h
    exact absurd h2 (by decide)
  · rintro ⟨b, h, _⟩; cases h

/-- The code crashes instead of dropping when the overhead exceeds the MTU: e.g. a single SessionResolver
with the option MTU = 3. -/
theorem c18_panics : ∃ (w : World) (ctx : Ctx), w.mtu = 3 ∧ w.overhead = Kind.session.overhead ∧
    ∀ nb, onUpper 0 ⟨true, .bytesCodec⟩ nb ctx w = (.panic, w) := by
  refine ⟨{ quiet with mtu := 3, overhead := 4 }, { Ctx.new with msg := .bytes [1] }, rfl, rfl, fun nb => ?_⟩
  simp only [onUpper, bytesUpper, if_true]
  exact encodeDown_panic _ (by decide)

end Verif.Stack
