import Verif.Stack.DeliverExact

/-!
# Which messages a Loopback returns (C29), exactly
-/

namespace Verif.Stack
open UBuf GoM

/-- Silent, also for messages without a buffer: a FrameDecoder, even a disabled one, drops those on the way up
(proc_frame_decoder.go:176-179). -/
def Bare (p : Proc) : Prop := Quiet p ∧ ¬ ∃ c, p.kind = .frame c

theorem Bare.up {p : Proc} (h : Bare p) (fuel i : Nat) {ctx : Ctx} {w : World} : Up (fun nb => onLower fuel i p nb ctx w) ctx w := by
  obtain ⟨en, k⟩ := p
  obtain ⟨h1, h2⟩ := h
  cases k <;> simp only [Quiet] at h1 <;> first | exact h1.elim | (subst h1; exact fun nb => rfl) | exact fun nb => rfl | skip
  exact absurd ⟨_, rfl⟩ h2

theorem bare_up_to (m : Nat) : ∀ (a fuel : Nat) (ctx : Ctx) (w : World), a + m ≤ w.n →
    (∀ j, a ≤ j → j < a + m → Bare (w.procs j)) → call (fuel + m) .up (a + m) ctx w = call fuel .up a ctx w := by
  induction m with
  | zero => intros; rfl
  | succ m ih =>
    intro a fuel ctx w hn hq
    rw [← Nat.add_assoc, ← Nat.add_assoc, call_up (by omega)]
    refine ((hq (a + m) (by omega) (by omega)).up (fuel + m) (a + m) _).trans ?_
    exact ih a fuel ctx w (by omega) (fun j h1 h2 => hq j h1 (by omega))

/-- Without a buffer: nothing happens, or everything passed is silent, turns messages around or is a disabled FrameDecoder. -/
theorem empty_fall (m : Nat) : ∀ (a fuel : Nat) (ctx : Ctx) (w : World), a + m ≤ w.n →
    (∀ j, a ≤ j → j < a + m → Passes (w.procs j)) → OnBytes ctx w → ctx.buf = none →
    (∃ r, call (fuel + m) .down (a + 1) ctx w = (r, w)) ∨
    (call (fuel + m) .down (a + 1) ctx w = call fuel .down (a + m + 1) ctx w ∧
      ∀ j, a ≤ j → j < a + m → Bare (w.procs j) ∨ Blocks (w.procs j) ∨ ∃ c, w.procs j = ⟨false, .frame c⟩) := by
  induction m with
  | zero => intro a fuel ctx w _ _ _ _; exact .inr ⟨rfl, fun j j1 j2 => by omega⟩
  | succ m ih =>
    intro a fuel ctx w hn hp hby hbuf
    have hpa := hp a (by omega) (by omega)
    have hby' := hby
    obtain ⟨c, hc, hr⟩ := hby
    have hu : useReference ctx.conn w = (.ok false, w) := by rw [hc, useReference_some, hr]
    rw [← Nat.add_assoc, call_down (by omega)]
    have next : (onUpper a (w.procs a) (nbAt (fuel + m) (a + 1)) ctx w = (nbAt (fuel + m) (a + 1)).downUpper ctx w) →
        (Bare (w.procs a) ∨ Blocks (w.procs a) ∨ ∃ c, w.procs a = ⟨false, .frame c⟩) →
        (∃ r, onUpper a (w.procs a) (nbAt (fuel + m) (a + 1)) ctx w = (r, w)) ∨
        (onUpper a (w.procs a) (nbAt (fuel + m) (a + 1)) ctx w = call fuel .down (a + (m + 1) + 1) ctx w ∧
          ∀ j, a ≤ j → j < a + (m + 1) → Bare (w.procs j) ∨ Blocks (w.procs j) ∨ ∃ c, w.procs j = ⟨false, .frame c⟩) := by
      intro h hkind
      rw [h]
      rcases ih (a + 1) fuel ctx w (by omega) (fun j j1 j2 => hp j (by omega) (by omega)) hby' hbuf with k | ⟨k1, k2⟩
      · exact .inl k
      · refine .inr ⟨?_, fun j j1 j2 => ?_⟩
        · rw [show a + (m + 1) + 1 = a + 1 + m + 1 by omega]; exact k1
        · by_cases e : j = a
          · subst e; exact hkind
          · exact k2 j (by omega) (by omega)
    generalize w.procs a = p at hpa next
    obtain ⟨en, k⟩ := p
    cases k <;> simp only [Passes] at hpa
    case session =>
      cases en with
      | false => exact next rfl (.inl ⟨rfl, by simp⟩)
      | true => exact .inl ⟨.ok ctx, by simp only [onUpper, sessionUpper, if_true, hbuf]; rfl⟩
    case frame cache =>
      cases en with
      | false => exact next (frameUpper_disabled hc hr) (.inr (.inr ⟨_, rfl⟩))
      | true => exact .inl ⟨.ok ctx, by simp only [onUpper, frameUpper]; rw [bind_of_ok hu]; simp only [hbuf]; rfl⟩
    case stat tx rx => exact .inl ⟨.ok ctx, by simp only [onUpper, statUpper]; rw [bind_of_ok hu]; simp only [hbuf]; rfl⟩
    case heartbeat => exact .inl ⟨.ok ctx, by simp only [onUpper, heartbeatUpper]; rw [bind_of_ok hu]; simp only [hbuf]; rfl⟩
    case loadBalancer => exact .inl ⟨.ok ctx, by simp only [onUpper, loadBalancerUpper]; rw [bind_of_ok hu]; simp only [hbuf]; rfl⟩
    case echo =>
      cases en with
      | false => exact next rfl (.inl ⟨rfl, by simp⟩)
      | true => exact next rfl (.inr (.inl ⟨rfl, .inr rfl⟩))
    case discarder =>
      cases en with
      | false => exact next rfl (.inl ⟨rfl, by simp⟩)
      | true => exact next rfl (.inr (.inl ⟨rfl, .inl rfl⟩))
    case flow => exact next rfl (.inl ⟨trivial, by simp⟩)
    all_goals (subst hpa; exact next rfl (.inl ⟨rfl, by simp⟩))

/-- At the topmost Loopback a message turns around. -/
theorem loopback_turn {fuel l : Nat} {ctx : Ctx} {w : World} (hl : l < w.n) (hk : (w.procs l).kind = .loopback) :
    call (fuel + 1) .down (l + 1) ctx w = call fuel .up l ctx w := by
  rw [call_down hl]
  simp only [onUpper, hk]
  rfl

theorem loopback_same {p q : Proc} (h : SameProc p q) (hp : p.kind = .loopback) : q.kind = .loopback := by
  have h2 := h.2
  rw [hp] at h2
  generalize q.kind = k at h2
  cases k <;> simp_all [Kind.Same]

theorem rx_appended {w w' : World} {o : Obs} (h : w'.trace = w.trace) (h2 : w'.trace = w.trace ++ [o]) : False := by
  rw [h] at h2
  have := congrArg List.length h2
  simp at this

/-- C29, exactly.  A Loopback below any list of processors of the library, any message to any session, on a byte connection: it
comes back to the endpoint `ep`, once and equal, and nothing else is observable, iff
* there is one enabled codec above the Loopback, only silent processors above the codec and only processors that open their own
  header between it and the Loopback, the codec can encode and decode the message, the encoding is not empty and fits, and `ep`
  is the endpoint of the session (modulo 2^32 if there is a SessionResolver in between), or
* everything above the Loopback is silent and `ep` is the endpoint of the session: then the message object itself comes back. -/
theorem c29_exact (w : World) (hbuilt : Built w) (l : Nat) (hl : l < w.n) (hloop : (w.procs l).kind = .loopback)
    (htop : ∀ j, j < l → (w.procs j).kind ≠ .loopback) (hplain : ∀ j, j < l → Plain (w.procs j))
    (hidle : ∀ j, j < l → Frames (w.procs j) → Idle j w) (hmtu : w.mtu < 2 ^ 32) (v : Val) (s : Int)
    (c : ConnId) (hbytes : (w.conns c).useRef = false) (ep : EpId) (fuel : Nat) (hf : 2 * w.n + 8 ≤ fuel) :
    (∃ w', send fuel (some c) v s w = (.ok (), w') ∧ w'.trace = w.trace ++ [.rx ep (some c) v]) ↔
      (∃ k b, k < l ∧ (∀ j, j < k → Quiet (w.procs j)) ∧ (w.procs k).enable = true ∧ (∀ j, k < j → j < l → Opens (w.procs j)) ∧
        CodedBy (w.mtu - w.overhead).toNat (w.procs k).kind v b ∧ b ≠ [] ∧ w.overhead + b.length ≤ w.mtu ∧
        (((∃ j, k < j ∧ j < l ∧ Resolves (w.procs j)) ∧ findEndPoint w.served (s % 2 ^ 32) = some ep) ∨
          ((∀ j, k < j → j < l → ¬ Resolves (w.procs j)) ∧ findEndPoint w.served s = some ep))) ∨
      ((∀ j, j < l → Bare (w.procs j)) ∧ v ≠ .nil ∧ findEndPoint w.served s = some ep) := by
  have hov := hbuilt.ov
  constructor
  · rintro ⟨w', hsend, htr⟩
    generalize hctx : ({ Ctx.new with conn := some c, msg := v } : Ctx).setOption "session" (.int s) = ctx
    have hc : ctx.conn = some c := by rw [← hctx]; rfl
    have hmsg : ctx.msg = v := by rw [← hctx]; rfl
    have hs : sessionOf ctx = s := by rw [← hctx]; rfl
    have hbuf : ctx.buf = none := by rw [← hctx]; rfl
    obtain ⟨ctx2, hcall⟩ : ∃ ctx2, call fuel .down 1 ctx w = (.ok ctx2, w') := by
      simp only [send, hctx] at hsend
      rw [bind_apply] at hsend
      rcases hq : call fuel .down 1 ctx w with ⟨r, w1⟩
      rw [hq] at hsend
      cases r with
      | ok ctx2 =>
        have hrec' : ((.ok (), w1) : Res Unit × World) = (.ok (), w') := hsend
        injection hrec' with _ h2
        exact ⟨ctx2, by rw [h2]⟩
      | _ => cases hsend
    by_cases hall : ∃ j, j < l ∧ ¬ Passes (w.procs j)
    · left
      obtain ⟨k, hk, hnp, hbelow⟩ := last_bad hall
      obtain ⟨f, hf2⟩ : ∃ f, fuel = f + l + 4 + 1 + (l - (k + 1)) + 1 + k := ⟨fuel - (l + 6 + (l - (k + 1)) + k), by omega⟩
      rw [hf2] at hcall
      rcases fall k 0 (f + l + 4 + 1 + (l - (k + 1)) + 1) ctx w (by omega) hov (fun j _ j2 => ⟨hplain j (by omega), htop j (by omega)⟩)
          ⟨c, hc, hbytes⟩ with h | ⟨ctx1, w1, m1, s1, hsv, h⟩
      · rw [Nat.zero_add, hcall] at h
        exact absurd htr (fun x => rx_appended h x)
      · simp only [Nat.zero_add] at h
        rw [hcall] at h
        have hs1 : sessionOf ctx1 = s := by rw [← hs]; simp only [sessionOf, s1.opts]
        have hsame := m1.same k
        have hnp1 : ¬ Passes (w1.procs k) := fun x => hnp (SameProc.passes ⟨hsame.1.symm, hsame.2.symm⟩ x)
        have hn1 := m1.n
        rw [call_down (by omega)] at h
        rcases not_passes_cases hnp1 ((hplain k hk).same hsame) (Same.loopback hsame.2 (htop k hk)) with hst | ⟨hen, hsl⟩
        · have hw' : w' = w1 := by rw [← hst k (nbAt (f + l + 4 + 1 + (l - (k + 1))) (k + 1)) ctx1 w1, ← h]
          exact absurd htr (fun x => rx_appended (by rw [hw', m1.trace, List.append_nil]) x)
        · rcases encode_or_not hen hsl k ctx1 w1 (by rw [m1.overhead]; exact hov) with hst | ⟨b, st, h1, h2, h3, h4, h5⟩
          · have hw' : w' = w1 := by rw [← hst (nbAt (f + l + 4 + 1 + (l - (k + 1))) (k + 1)), ← h]
            exact absurd htr (fun x => rx_appended (by rw [hw', m1.trace, List.append_nil]) x)
          · rw [show onUpper k (w1.procs k) (nbAt (f + l + 4 + 1 + (l - (k + 1))) (k + 1)) ctx1 w1 = _ from h5 _] at h
            generalize hm : l - (k + 1) = m at h
            have hlm : k + 1 + m = l := by omega
            rw [m1.overhead, m1.mtu] at h3
            have hroom : room (seg w (k + 1) m) ≤ w.overhead := hbuilt.room_le (by omega)
            have hlen := wrap_length (seg w (k + 1) m) s b
            obtain ⟨s2, w2, m2, g2, e2, dn⟩ := segment_down m (k + 1) (f + l + 4 + 1) { ctx1 with buf := some st } w1 st _ (by omega)
              (fun j j1 j2 => (m1.same j).passes (hbelow j (by omega) (by omega))) ⟨c, s1.conn.trans hc, by rw [m1.conns]; exact hbytes⟩ rfl h4 (by
                simp only
                rw [show sessionOf ({ ctx1 with buf := some st } : Ctx) = s from hs1, wrap_same m1.same, m1.overhead]
                omega)
            have e2' : data s2 = wrap (seg w (k + 1) m) s b := by
              rw [e2, show sessionOf ({ ctx1 with buf := some st } : Ctx) = s from hs1, wrap_same m1.same]
            have m12 : Moved [] w w2 := by simpa using m1.trans m2
            have hn2 := m12.n
            rw [hlm, loopback_turn (by omega) (loopback_same (m12.same l) hloop)] at dn
            have h' : (.ok ctx2, w') = call (f + l + 4) .up l { ctx1 with buf := some s2 } w2 := h.trans dn
            have henc : Encodes (w.procs k).kind v b := by
              have e := hsame.2
              rw [s1.msg, hmsg] at h1
              generalize (w.procs k).kind = k1 at e
              generalize (w1.procs k).kind = k2 at e h1
              have : k1 = k2 := by cases h1 <;> cases k1 <;> simp_all [Kind.Same]
              rw [this]; exact h1
            have hslw : (w.procs k).kind.isSliceCodec := by
              generalize (w.procs k).kind = q at henc
              cases henc <;> trivial
            have henw : (w.procs k).enable = true := by rw [← hsame.1]; exact hen
            have hkind : (w2.procs k).kind = (w.procs k).kind := by
              have e := (m12.same k).2
              generalize (w.procs k).kind = q1 at e hslw
              generalize (w2.procs k).kind = q2 at e
              cases q1 <;> simp only [Kind.isSliceCodec] at hslw <;> cases q2 <;> simp_all [Kind.Same]
            have hnsv : ∀ j, j < l → ¬ Sieves (w.procs j) := by
              intro j j1 j2
              by_cases e1 : j < k
              · exact hsv j (by omega) (by omega) j2
              · obtain ⟨e2, f, t, r, e3⟩ := j2
                by_cases e4 : j = k
                · subst e4
                  rcases e3 with e3 | e3 <;> rw [e3] at henc <;> cases henc
                · have := hbelow j (by omega) j1
                  rcases e3 with e3 | e3 <;> simp only [Passes, e3, e2] at this <;> cases this
            have hback : ∀ j, SameProc (w2.procs j) (w.procs j) := fun j => ⟨(m12.same j).1.symm, (m12.same j).2.symm⟩
            obtain ⟨d1, d2, d3, d4, d5⟩ := up_exact w2 l (by omega) (fun j hj => (hplain j hj).same (m12.same j))
              (fun j hj x => hnsv j hj ((m12.same j).sieves x)) (fun j hj x => m12.idle j (hidle j hj ((m12.same j).frames x))) k hk
              (by rw [(m12.same k).1]; exact henw) (by rw [hkind]; exact hslw) (fun j j1 j2 => (m12.same j).passes (hbelow j j1 j2)) s b h2
              (by rw [hm, wrap_same m12.same]; omega) { ctx1 with buf := some s2 } c (s1.conn.trans hc) (by rw [m12.conns]; exact hbytes)
              ⟨s2, rfl, g2, by rw [hm, wrap_same m12.same, e2']⟩ (f + l + 4) (by omega) ctx2 w' ep v h'.symm
              (by rw [m12.trace, List.append_nil]; exact htr)
            have hcoded : CodedBy (w.mtu - w.overhead).toNat (w.procs k).kind v b := by
              rw [hkind] at d3
              generalize (w.procs k).kind = q at henc d3
              cases henc with
              | bytes => exact .bytes b
              | str => exact .str b
              | json m u _ _ e1 e2 => exact .json m u v b e1 e2 d3
            rw [m12.served, show sessionOf ({ ctx1 with buf := some s2 } : Ctx) = s from hs1] at d5
            refine ⟨k, b, hk, fun j hj => (hback j).quiet (d1 j hj), henw, fun j j1 j2 => (hback j).opens (d2 j j1 j2), hcoded, h2, h3, ?_⟩
            rcases d5 with ⟨⟨j, j1, j2, j3⟩, d5⟩ | ⟨d5, d6⟩
            · exact .inl ⟨⟨j, j1, j2, (hback j).resolves j3⟩, d5⟩
            · exact .inr ⟨fun j j1 j2 j3 => d5 j j1 j2 ((m12.same j).resolves j3), d6⟩
    · right
      have hall' : ∀ j, j < l → Passes (w.procs j) := fun j j1 => by
        by_cases hj : Passes (w.procs j)
        · exact hj
        · exact absurd ⟨j, j1, hj⟩ hall
      obtain ⟨f, hf2⟩ : ∃ f, fuel = f + l + 2 + 1 + l := ⟨fuel - (l + 3 + l), by omega⟩
      rw [hf2] at hcall
      rcases empty_fall l 0 (f + l + 2 + 1) ctx w (by omega) (fun j _ j2 => hall' j (by omega)) ⟨c, hc, hbytes⟩ hbuf with ⟨r, h⟩ | ⟨h, hkinds⟩
      · rw [Nat.zero_add, hcall] at h
        injection h with _ h
        exact absurd htr (fun x => rx_appended (by rw [h]) x)
      · rw [Nat.zero_add, Nat.zero_add, hcall, loopback_turn hl hloop] at h
        have hnb : ∀ j, j < l → ¬ Blocks (w.procs j) := by
          intro j hj hbl
          obtain ⟨t, h1, h2⟩ := ((blocked j w (by omega) hbl).1 (f + l + 2) .up l ctx hj).1
          rw [← h, htr] at h1
          have := List.append_cancel_left h1
          exact h2 _ (by rw [← this]; exact List.mem_singleton.mpr rfl) ep (some c) v rfl
        have hbare : ∀ j, j < l → Bare (w.procs j) := by
          by_cases hex : ∃ j, j < l ∧ ¬ Bare (w.procs j)
          · exfalso
            obtain ⟨j, j1, j2, j3⟩ := last_bad hex
            rcases hkinds j (by omega) (by omega) with e | e | ⟨cache, e⟩
            · exact j2 e
            · exact hnb j j1 e
            · have hup := bare_up_to (l - (j + 1)) (j + 1) (f + j + 3) ctx w (by omega) (fun i i1 i2 => j3 i (by omega) (by omega))
              rw [show f + j + 3 + (l - (j + 1)) = f + l + 2 by omega, show j + 1 + (l - (j + 1)) = l by omega, ← h, call_up (by omega), e] at hup
              have hst : onLower (f + j + 2) j ⟨false, .frame cache⟩ (nbAt (f + j + 2) (j + 1)) ctx w = (.ok ctx, w) := by
                simp only [onLower, frameLower]
                rw [hc, bind_of_ok (useReference_some c w), hbytes]
                simp only [hbuf]
                rfl
              rw [hst] at hup
              injection hup with _ hup
              exact rx_appended (by rw [hup]) htr
          · intro j hj
            by_cases hx : Bare (w.procs j)
            · exact hx
            · exact absurd ⟨j, hj, hx⟩ hex
        have hup := bare_up_to l 0 (f + 2) ctx w (by omega) (fun j _ j2 => hbare j (by omega))
        rw [Nat.zero_add, show f + 2 + l = f + l + 2 by omega, ← h, call_top] at hup
        simp only [upperDeckLower, hmsg] at hup
        by_cases hv : v = .nil
        · rw [if_pos hv] at hup
          injection hup with _ hup
          exact absurd htr (fun x => rx_appended (by rw [hup]) x)
        · rw [if_neg hv, bind_of_ok (get_apply w), sessionOf_eq, hs] at hup
          refine ⟨hbare, hv, ?_⟩
          cases hfe : findEndPoint w.served s with
          | none =>
            rw [hfe] at hup
            injection hup with _ hup
            exact absurd htr (fun x => rx_appended (by rw [hup]) x)
          | some ep' =>
            rw [hfe] at hup
            have hup' : ((.ok ctx2, w') : Res Ctx × World) = (.ok ctx, { w with trace := w.trace ++ [.rx ep' ctx.conn v] }) := hup
            injection hup' with _ hup'
            rw [hup'] at htr
            have := List.append_cancel_left htr
            injection this with this
            injection this with e1
            rw [e1]
  · rintro (⟨k, b, hk, h1, h2, h3, h4, h5, h6, h7⟩ | ⟨h1, h2, h3⟩)
    · obtain ⟨m, rfl⟩ : ∃ m, l = k + 1 + m := ⟨l - (k + 1), by omega⟩
      obtain ⟨w', e1, e2⟩ := loopback_returns w hbuilt k m hl hloop h1 h2 h3 (fun j j1 j2 => hidle j (by omega)) v b h4 h5 h6 hmtu s c hbytes ep h7 fuel (by omega)
      exact ⟨w', e1, e2.trace⟩
    · obtain ⟨f, hf2⟩ : ∃ f, fuel = f + l + 2 + 1 + l := ⟨fuel - (l + 3 + l), by omega⟩
      let ctx : Ctx := ({ Ctx.new with conn := some c, msg := v } : Ctx).setOption "session" (.int s)
      have hd := quiet_segment_down l 0 (f + l + 2 + 1) ctx w (by omega) (fun j _ h => (h1 j (by omega)).1) ⟨c, rfl, hbytes⟩
      have hup := bare_up_to l 0 (f + 2) ctx w (by omega) (fun j _ j2 => h1 j (by omega))
      rw [Nat.zero_add, Nat.zero_add, loopback_turn hl hloop] at hd
      rw [Nat.zero_add, show f + 2 + l = f + l + 2 by omega, call_top,
        upperDeckLower_rx h2 (ep := ep) h3] at hup
      refine ⟨{ w with trace := w.trace ++ [.rx ep (some c) v] }, ?_, rfl⟩
      simp only [send]
      rw [hf2, bind_of_ok (hd.trans hup)]
      rfl

theorem loopDemo_plain : ∀ j, j < 3 → Plain (loopDemo.procs j) := by
  intro j hj
  match j, hj with
  | 0, _ => trivial
  | 1, _ => trivial
  | 2, _ => trivial

theorem loopDemo_idle : ∀ j, j < 3 → Frames (loopDemo.procs j) → Idle j loopDemo := by
  intro j hj hfr
  match j, hj, hfr with
  | 0, _, ⟨⟨_, h⟩, _⟩ => cases h
  | 1, _, ⟨⟨_, h⟩, _⟩ => cases h
  | 2, _, _ => exact ⟨UBuf.demo, rfl, demo_buf.1, demo_buf.data⟩

theorem loopDemo_top : ∀ j, j < 3 → (loopDemo.procs j).kind ≠ .loopback := by
  intro j hj
  match j, hj with
  | 0, _ => exact fun h => by cases h
  | 1, _ => exact fun h => by cases h
  | 2, _ => exact fun h => by cases h

/-- A codec, a SessionResolver and a FrameDecoder above a Loopback: the message comes back ... -/
example : ∃ w', send 20 (some 0) (.bytes [9]) 3 loopDemo = (.ok (), w') ∧ w'.trace = loopDemo.trace ++ [.rx 7 (some 0) (.bytes [9])] := by
  refine (c29_exact loopDemo rfl 3 (by decide) rfl loopDemo_top loopDemo_plain loopDemo_idle (by decide) _ 3 0 rfl 7 20 (by decide)).mpr
    (.inl ⟨0, [9], by decide, fun j h => absurd h (by omega), rfl, fun j h1 h2 => ?_, .bytes [9], by decide, by decide,
      .inl ⟨⟨1, by decide, by decide, rfl, rfl⟩, rfl⟩⟩)
  match j, h1, h2 with
  | 1, _, _ => trivial
  | 2, _, _ => trivial

/-- ... but not one without an encoding, whatever the endpoint. -/
example (ep : EpId) : ¬ ∃ w', send 20 (some 0) (.bytes []) 3 loopDemo = (.ok (), w') ∧
    w'.trace = loopDemo.trace ++ [.rx ep (some 0) (.bytes [])] := by
  intro h
  rcases (c29_exact loopDemo rfl 3 (by decide) rfl loopDemo_top loopDemo_plain loopDemo_idle (by decide) _ 3 0 rfl ep 20 (by decide)).mp h with
    ⟨k, b, h1, _, _, _, h5, h6, _⟩ | ⟨h1, _⟩
  · have hb : ∀ q, CodedBy (loopDemo.mtu - loopDemo.overhead).toNat q (.bytes []) b → q = .bytesCodec → b = [] := by
      intro q hq e
      subst e
      cases hq
      rfl
    have hk : k = 0 ∨ k = 1 ∨ k = 2 := by omega
    rcases hk with rfl | rfl | rfl
    · exact h6 (hb _ h5 rfl)
    · cases h5
    · cases h5
  · exact absurd (h1 0 (by decide)).1 (by simp [loopDemo, Quiet])

/-- Only a disabled SessionResolver above the Loopback: the object itself comes back, without a codec. -/
example : ∃ w', send 20 (some 0) (.bytes [9]) 3 { loopDemo with procs := fun j => if j = 0 then ⟨false, .session⟩ else ⟨true, .loopback⟩ } = (.ok (), w') ∧
    w'.trace = loopDemo.trace ++ [.rx 7 (some 0) (.bytes [9])] := by
  exact ⟨_, rfl, rfl⟩

end Verif.Stack
