import Verif.Stack.Loop

/-!
# Exactly when the partial properties of the processors hold

For several claims that the code violates, the theorems named `_partial` give a sufficient condition.  Here the condition
is shown to be necessary too, or the behaviour in the remaining cases is determined.
-/

namespace Verif.Stack

open Verif.UBuf GoM

/-- Neighbours that return, with the context and world they were given. -/
def still : Nb := ⟨fun ctx w => (.ok ctx, w), fun ctx w => (.ok ctx, w), fun ctx w => (.ok ctx, w)⟩

/-- Neighbours that return, except that the layer above crashes. -/
def upCrash : Nb := { still with upLower := fun _ w => (.panic, w) }

theorem not_up_of_stops {run : Nb → Res Ctx × World} {r : Ctx} {w' : World} (hs : Stops run (.ok r, w')) (ctx : Ctx) (w : World) : ¬ Up run ctx w := by
  intro hu
  have h := (hu upCrash).symm.trans (hs upCrash)
  cases h

/-! ## C18 -/

/-- Nothing, or exactly the encoded message, goes down. -/
def AllOrNothing (i : Nat) (k : Kind) (nb : Nb) (ctx : Ctx) (w : World) : Prop :=
  (∃ b, Encodes k ctx.msg b ∧ b ≠ [] ∧ w.overhead + b.length ≤ w.mtu ∧ SentAs nb ctx w b (onUpper i ⟨true, k⟩ nb ctx w)) ∨
  (¬ Sendable k w ctx.msg ∧ onUpper i ⟨true, k⟩ nb ctx w = (.ok ctx, w))

theorem encodes_run {k : Kind} (hk : k.isSliceCodec) {ctx : Ctx} {b : List Byte} (h : Encodes k ctx.msg b) (i : Nat) (nb : Nb) (w : World) :
    onUpper i ⟨true, k⟩ nb ctx w = encodeDown nb ctx b w := by
  generalize hm : ctx.msg = v at h
  cases h with
  | bytes => simp [onUpper, bytesUpper, hm]
  | str => simp [onUpper, stringUpper, hm]
  | json m u _ _ h1 h2 => simp [onUpper, jsonUpper, hm, h1, h2]

/-- C18, exact: a codec with a byte-slice encoder keeps the claim in a world iff the MTU is positive and leaves room for
the overhead (or the codec cannot encode anything at all). -/
theorem c18_iff (k : Kind) (hk : k.isSliceCodec) (w : World) :
    (∀ i nb ctx, AllOrNothing i k nb ctx w) ↔
      (0 < w.mtu ∧ 0 ≤ w.overhead ∧ w.overhead ≤ w.mtu) ∨ ∀ v b, ¬ Encodes k v b := by
  refine ⟨fun h => ?_, fun h i nb ctx => ?_⟩
  · by_cases hc : 0 < w.mtu ∧ 0 ≤ w.overhead ∧ w.overhead ≤ w.mtu
    · exact Or.inl hc
    · refine Or.inr fun v b he => ?_
      have hrun : onUpper 0 ⟨true, k⟩ still { Ctx.new with msg := v } w = (.panic, w) := by
        rw [encodes_run hk (ctx := { Ctx.new with msg := v }) he]
        exact encodeDown_panic _ (by omega)
      rcases h 0 still { Ctx.new with msg := v } with ⟨_, _, _, _, _, _, _, _, h5⟩ | ⟨_, h2⟩
      · rw [hrun] at h5; cases h5
      · rw [hrun] at h2; cases h2
  · rcases h with ⟨h1, h2, h3⟩ | h
    · exact c18_all_or_nothing_partial i k hk nb ctx w h1 h2 h3
    · refine Or.inr ⟨fun ⟨b, hb, _⟩ => h _ _ hb, ?_⟩
      cases k with
      | bytesCodec => exact absurd (.bytes []) (h _ _)
      | stringCodec => exact absurd (.str []) (h _ _)
      | jsonCodec m u =>
        by_cases hn : ctx.msg = .nil
        · simp [onUpper, jsonUpper, hn]
        · cases hm : m ctx.msg with
          | none => simp [onUpper, jsonUpper, hn, hm]
          | some b => exact absurd (.json m u _ _ hn hm) (h _ _)
      | _ => exact hk.elim

/-- In every other world each message that has an encoding crashes the sender. -/
theorem c18_panics_iff (k : Kind) (hk : k.isSliceCodec) (w : World) (v : Val) (b : List Byte) (he : Encodes k v b) (i : Nat) :
    (onUpper i ⟨true, k⟩ still { Ctx.new with msg := v } w).1 = .panic ↔ w.mtu ≤ 0 ∨ w.overhead < 0 ∨ w.mtu < w.overhead := by
  constructor
  · intro h
    by_cases hc : w.mtu ≤ 0 ∨ w.overhead < 0 ∨ w.mtu < w.overhead
    · exact hc
    · exfalso
      rcases c18_all_or_nothing_partial i k hk still { Ctx.new with msg := v } w (by omega) (by omega) (by omega) with
        ⟨_, _, _, _, _, _, _, _, h5⟩ | ⟨_, h2⟩
      · rw [h5] at h; cases h
      · rw [h2] at h; cases h
  · intro hc
    rw [encodes_run hk (ctx := { Ctx.new with msg := v }) he, encodeDown_panic _ hc]

example : (∀ i nb ctx, AllOrNothing i .bytesCodec nb ctx quiet) ∧
    ¬ ∀ i nb ctx, AllOrNothing i .stringCodec nb ctx { quiet with mtu := 3, overhead := 4 } := by
  refine ⟨(c18_iff .bytesCodec trivial _).2 (Or.inl (by decide)), fun h => ?_⟩
  rcases (c18_iff .stringCodec trivial _).1 h with h | h
  · exact absurd h (by decide)
  · exact h _ _ (.str [1])

/-! ## C25 -/

/-- C25, exact for StatCounter: a control message reaches the layer above iff the receiver is disabled. -/
theorem c25_stat_iff (j fuel : Nat) (en : Bool) (tx rx : UInt64) (payload : List Byte) (tag : Byte) (ht : tag = 0x10 ∨ tag = 0x23)
    (ctx : Ctx) (w : World) (hb : OnBytes ctx w) (hc : Carries ctx (tag :: payload)) :
    (∃ ctx' w', Up (fun nb => onLower fuel j ⟨en, .stat tx rx⟩ nb ctx w) ctx' w') ↔ en = false := by
  constructor
  · rintro ⟨ctx', w', hu⟩
    cases en with
    | false => rfl
    | true =>
      have h := (c25_stat_partial 0 j fuel true 0 0 tx rx payload).2.2 ctx w tag hb ht hc still upCrash rfl
      have h := (hu still).symm.trans (h.trans (hu upCrash))
      cases h
  · rintro rfl
    obtain ⟨c, h1, h2⟩ := hb
    obtain ⟨s, d, h3, h4, h5⟩ := hc.buf
    obtain ⟨s', _, h7⟩ := statLower_pass (w := w) j false tx rx h1 h2 h3 h4 h5 (by simp)
    exact ⟨_, _, h7⟩

example : OnBytes (demoRx [0x23, 7]) quiet ∧ Carries (demoRx [0x23, 7]) [0x23, 7] :=
  ⟨demoRx_onBytes _, demoRx_carries (by decide) (by decide)⟩

/-! ## C33 -/

/-- C33, exact: what a LoadBalancer sends gets through a LoadBalancer iff not both of them are enabled. -/
theorem c33_iff (i j fuel : Nat) (en en' : Bool) (payload : List Byte) :
    ∃ tag : Byte,
      (∀ ctx w, OnBytes ctx w → Carries ctx payload → HeadRoom ctx 1 →
        ∃ s, Good s ∧ data s = tag :: payload ∧
          Down (fun nb => onUpper i ⟨en, .loadBalancer⟩ nb ctx w) { ctx with buf := some s } w) ∧
      (∀ ctx w, OnBytes ctx w → Carries ctx (tag :: payload) →
        ((∃ ctx' w', Up (fun nb => onLower fuel j ⟨en', .loadBalancer⟩ nb ctx w) ctx' w') ↔ ¬ (en = true ∧ en' = true))) := by
  obtain ⟨tag, h1, h2⟩ := c33_load_balancer_partial i j fuel en en' payload
  refine ⟨tag, h1, fun ctx w hb hc => ⟨fun ⟨ctx', w', hu⟩ hen => ?_, fun hen => ?_⟩⟩
  · obtain ⟨c', hs⟩ := (h2 ctx w hb hc).2 hen
    exact not_up_of_stops hs ctx' w' hu
  · obtain ⟨s, _, _, hu⟩ := (h2 ctx w hb hc).1 hen
    exact ⟨_, _, hu⟩

/-! ## C27 -/

/-- Disabled, the processor hands every context with a buffer on a byte connection on unchanged, both ways. -/
def TransparentOff (k : Kind) : Prop :=
  ∀ i fuel ctx w, OnBytes ctx w → ctx.buf ≠ none →
    Down (fun nb => onUpper i ⟨false, k⟩ nb ctx w) ctx w ∧ Up (fun nb => onLower fuel i ⟨false, k⟩ nb ctx w) ctx w

/-- The processors that are not transparent when disabled. -/
def Kind.neverOff : Kind → Prop
  | .heartbeat | .stat _ _ | .loadBalancer | .loopback | .base => True
  | _ => False

theorem down_ctx {run : Nb → Res Ctx × World} {ctx ctx' : Ctx} {w w' : World} (h : Down run ctx w) (h' : Down run ctx' w') : ctx = ctx' := by
  have := (h still).symm.trans (h' still)
  injection this with h1 _
  injection h1

/-- C27, exact: a disabled processor is transparent iff it is none of Heartbeat, StatCounter, LoadBalancer, Loopback and
ProcBase. -/
theorem c27_iff (k : Kind) : TransparentOff k ↔ ¬ k.neverOff := by
  constructor
  · intro h hk
    have hb : OnBytes demoTx quiet := ⟨0, rfl, rfl⟩
    have hd := (h 0 0 demoTx quiet hb (by simp [demoTx])).1
    obtain ⟨s, d, h1, h2, h3⟩ := demoTx_ok.1.buf
    have hh : 1 ≤ d.head := by have := demoTx_ok.2.le h1 h2; omega
    have tag : ∀ s' : St, data s' = [0, 5] → Down (fun nb => onUpper 0 ⟨false, k⟩ nb demoTx quiet) { demoTx with buf := some s' } quiet → False := by
      intro s' hs' hd'
      have e := congrArg Ctx.buf (down_ctx hd hd')
      rw [h1] at e
      injection e with e
      subst e
      have := h2.data
      rw [h3] at this
      rw [this] at hs'
      simp at hs'
    cases k with
    | heartbeat =>
      obtain ⟨s', h4, h5⟩ := heartbeatUpper_ok (w := quiet) (ctx := demoTx) (c := 0) rfl rfl h1 h2 hh
      exact tag s' (by rw [h4.data, Deque.prepend, h3]; rfl) h5
    | stat tx rx =>
      obtain ⟨s', h4, h5⟩ := statUpper_ok (w := quiet) (ctx := demoTx) (c := 0) 0 false tx rx rfl rfl h1 h2 hh
      exact tag s' (by rw [h4.data, Deque.prepend, h3]; rfl) h5
    | loadBalancer =>
      obtain ⟨s', h4, h5⟩ := loadBalancerUpper_ok (w := quiet) (ctx := demoTx) (c := 0) false rfl rfl h1 h2 hh
      exact tag s' (by rw [h4.data, Deque.prepend, h3]; rfl) h5
    | loopback =>
      have := hd upCrash
      cases this
    | base =>
      have := hd { still with downUpper := fun _ w => (.panic, w) }
      cases this
    | _ => exact hk
  · intro hk i fuel ctx w hb hbuf
    refine c27_disabled_transparent_partial i fuel k ctx w ?_
    cases k <;> first | exact Or.inl trivial | exact Or.inr ⟨⟨_, rfl⟩, hb, hbuf⟩ | exact absurd trivial hk

/-! ## C31, C32 -/

/-- Asking the functions crashes iff a nil function is reached: all functions before it said false. -/
theorem doFns_panics_iff (up : Bool) (fns : List (Option Fn)) (ctx : Ctx) (w : World) :
    (doFns up fns ctx w).1 = .panic ↔ ∃ pre post, fns = pre.map some ++ none :: post ∧ (accept pre up ctx).1 = false := by
  induction fns generalizing ctx with
  | nil => simp [doFns]
  | cons f fns ih =>
    cases f with
    | none => exact ⟨fun _ => ⟨[], fns, rfl, rfl⟩, fun _ => rfl⟩
    | some f =>
      simp only [doFns, ite_apply]
      cases hf : (f ctx up).1 with
      | true =>
        simp only [if_true]
        constructor
        · intro h; cases h
        rintro ⟨pre, post, h1, h2⟩
        cases pre with
        | nil => simp at h1
        | cons g pre =>
          simp only [List.map_cons, List.cons_append, List.cons.injEq, Option.some.injEq] at h1
          rw [← h1.1] at h2
          simp [accept, hf] at h2
      | false =>
        simp only [Bool.false_eq_true, if_false]
        rw [ih]
        constructor
        · rintro ⟨pre, post, h1, h2⟩
          exact ⟨f :: pre, post, by rw [h1]; rfl, by simp [accept, hf, h2]⟩
        · rintro ⟨pre, post, h1, h2⟩
          cases pre with
          | nil => simp at h1
          | cons g pre =>
            simp only [List.map_cons, List.cons_append, List.cons.injEq, Option.some.injEq] at h1
            refine ⟨pre, post, h1.2, ?_⟩
            rw [← h1.1] at h2
            simpa [accept, hf] using h2

theorem doFns_cases (up : Bool) (fns : List (Option Fn)) (ctx : Ctx) (w : World) :
    doFns up fns ctx w = (.panic, w) ∨ ∃ r, doFns up fns ctx w = (.ok r, w) := by
  induction fns generalizing ctx with
  | nil => exact Or.inr ⟨_, rfl⟩
  | cons f fns ih =>
    cases f with
    | none => exact Or.inl rfl
    | some f =>
      simp only [doFns, ite_apply]
      split
      · exact Or.inr ⟨_, rfl⟩
      · exact ih _

/-- C31, exact: an enabled Filter, whatever its list of functions, crashes iff a nil function is reached. -/
theorem c31_panics_iff (i fuel : Nat) (fns : List (Option Fn)) (tx rx : UInt64) (ctx : Ctx) (w : World) :
    ((onUpper i ⟨true, .filter fns tx rx⟩ still ctx w).1 = .panic ↔
      ∃ pre post, fns = pre.map some ++ none :: post ∧ (accept pre false ctx).1 = false) ∧
    ((onLower fuel i ⟨true, .filter fns tx rx⟩ still ctx w).1 = .panic ↔
      ∃ pre post, fns = pre.map some ++ none :: post ∧ (accept pre true ctx).1 = false) := by
  constructor
  · rw [← doFns_panics_iff false fns ctx w]
    simp only [onUpper, filterUpper, if_true]
    rcases doFns_cases false fns ctx w with h | ⟨r, h⟩
    · rw [bind_of_panic h, h]; exact ⟨fun _ => rfl, fun _ => rfl⟩
    · rw [bind_of_ok h, h]
      cases r.1 <;> simp [still, bind_apply, setKind_apply]
  · rw [← doFns_panics_iff true fns ctx w]
    simp only [onLower, filterLower, if_true]
    rcases doFns_cases true fns ctx w with h | ⟨r, h⟩
    · rw [bind_of_panic h, h]; exact ⟨fun _ => rfl, fun _ => rfl⟩
    · rw [bind_of_ok h, h]
      cases r.1 <;> simp [still, bind_apply, setKind_apply]

/-- C32, exact: the same for the Forwarder. -/
theorem c32_panics_iff (i fuel : Nat) (fns : List (Option Fn)) (tx rx : UInt64) (ctx : Ctx) (w : World) :
    ((onUpper i ⟨true, .forwarder fns tx rx⟩ still ctx w).1 = .panic ↔
      ∃ pre post, fns = pre.map some ++ none :: post ∧ (accept pre false ctx).1 = false) ∧
    ((onLower fuel i ⟨true, .forwarder fns tx rx⟩ still ctx w).1 = .panic ↔
      ∃ pre post, fns = pre.map some ++ none :: post ∧ (accept pre true ctx).1 = false) := by
  constructor
  · rw [← doFns_panics_iff false fns ctx w]
    simp only [onUpper, forwarderUpper, if_true]
    rcases doFns_cases false fns ctx w with h | ⟨r, h⟩
    · rw [bind_of_panic h, h]; exact ⟨fun _ => rfl, fun _ => rfl⟩
    · rw [bind_of_ok h, h]
      cases r.1 <;> simp [still, bind_apply, setKind_apply]
  · rw [← doFns_panics_iff true fns ctx w]
    simp only [onLower, forwarderLower, if_true]
    rcases doFns_cases true fns ctx w with h | ⟨r, h⟩
    · rw [bind_of_panic h, h]; exact ⟨fun _ => rfl, fun _ => rfl⟩
    · rw [bind_of_ok h, h]
      cases r.1 <;> simp [still, bind_apply, setKind_apply]

/-- A nil function behind one that accepts is not reached. -/
example : (accept [fun c _ => (true, c)] false Ctx.new).1 = true ∧
    (onUpper 0 ⟨true, .filter [some fun c _ => (true, c), none] 0 0⟩ still Ctx.new quiet).1 ≠ .panic := by
  refine ⟨rfl, ?_⟩
  simp [onUpper, filterUpper, doFns, still, bind_apply]

/-! ## C48 -/

/-- The first read result that ends the loop, if there is one. -/
def firstBad (m : Nat) (rds : List (Nat → ReadRes)) : Option ReadRes :=
  (rds.map fun rd => rd m).find? fun r => !(decide (r.n ≠ 0) && r.err.isNone)

/-- All bytes the connection returned, up to and including the read that ended the loop. -/
def returned (m : Nat) (rds : List (Nat → ReadRes)) : List Byte :=
  ((goodReads m rds).map fun r => r.filled.take r.n).flatten ++
    match firstBad m rds with
    | some r => r.filled.take r.n
    | none => []

/-- C48, exact: the contexts passed up hold all bytes the connection returned iff the read that ended the loop (if any)
returned none. -/
theorem c48_iff (up : Handler) (c : ConnId) (m : Int) (Inv : World → Prop) (hm : 0 < m)
    (hinv : ∀ w, Inv w → w.mtu = m ∧ (w.conns c).closed = false)
    (hup : ∀ ctx w, Inv w → ∃ ctx' w', up ctx w = (.ok ctx', w') ∧ Inv w')
    (rds : List (Nat → ReadRes)) (hok : ∀ rd ∈ rds, Deque.Reader.Ok rd) (w : World) (hw : Inv w) :
    ∃ (ctxs : List Ctx) (bytes : List (List Byte)) (w' : World), ctxs.length = bytes.length ∧
      (∀ p ∈ ctxs.zip bytes, Chunk c m.toNat p.1 p.2) ∧
      passAll up ctxs w = (.ok (), w') ∧
      (readLoop up c rds w = (.ok true, w') ∨ readLoop up c rds w = (.ok false, w'.close c)) ∧
      (bytes.flatten = returned m.toNat rds ↔ ∀ r, firstBad m.toNat rds = some r → r.n = 0) := by
  obtain ⟨ctxs, w', h1, h2, h3, _, h5⟩ := c48_partial up c m Inv hm hinv hup rds hok w hw
  refine ⟨ctxs, (goodReads m.toNat rds).map fun r => r.filled.take r.n, w', by simp [h1], ?_, h3, ?_, ?_⟩
  · intro p hp
    rw [List.zip_map_right] at hp
    obtain ⟨q, hq, rfl⟩ := List.mem_map.mp hp
    exact h2 q hq
  · rw [h5]
    split
    · exact Or.inl rfl
    · exact Or.inr rfl
  · simp only [returned]
    cases hb : firstBad m.toNat rds with
    | none => simp
    | some r =>
      have hmem : r ∈ rds.map fun rd => rd m.toNat := List.mem_of_find?_eq_some hb
      obtain ⟨rd, hrd, rfl⟩ := List.mem_map.mp hmem
      have hle := (hok rd hrd m.toNat).1
      constructor
      · intro h r hr
        injection hr with hr
        subst hr
        have := congrArg List.length h
        simp only [List.length_append, List.length_take] at this
        omega
      · intro h
        simp [h _ rfl]

example : firstBad 4 [fun _ => ⟨[1], 1, none⟩, fun _ => ⟨[], 0, some .eof⟩] = some ⟨[], 0, some .eof⟩ ∧
    returned 4 [fun _ => ⟨[1], 1, none⟩, fun _ => ⟨[2], 1, some .eof⟩, fun _ => ⟨[3], 1, none⟩] = [1, 2] := ⟨rfl, rfl⟩

/-! ## C50 -/

/-- C50, exact: on a byte connection the data is offered to the connection, and an error reported, iff the connection was
not closed before. -/
theorem c50_iff (ctx : Ctx) (w : World) (c : ConnId) (s : St) (hc : ctx.conn = some c) (hr : (w.conns c).useRef = false)
    (hb : ctx.buf = some s) (hs : Good s) (hd : data s ≠ []) (hle : (w.write w.trace c (data s)).n ≤ (data s).length) :
    ∃ ctx' w', lowerDeckUpper ctx w = (.ok ctx', w') ∧
      ((w'.trace = w.trace ++ .wire c (data s) (w.write w.trace c (data s)) ::
        (if (w.write w.trace c (data s)).err = none then [] else [.closed c])) ↔ (w.conns c).closed = false) := by
  cases hcl : (w.conns c).closed with
  | false =>
    obtain ⟨ctx', w', h1, h2, _⟩ := c50_partial ctx w c s hc hr hcl hb hs hd hle
    exact ⟨ctx', w', h1, fun _ => rfl, fun _ => h2⟩
  | true =>
    obtain ⟨ctx', h1⟩ := c50_violated ctx w c s hc hr hcl hb hs
    refine ⟨ctx', w, h1, fun h => ?_, fun h => by cases h⟩
    have := congrArg List.length h
    simp at this

end Verif.Stack
