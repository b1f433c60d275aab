import Verif.Stack.Turn

/-!
# When an Echo returns what it received (C28)

Below the Echo any number of SessionResolvers, Heartbeats, LoadBalancers, disabled StatCounters and transparent processors.
For every read: it comes back byte for byte iff no LoadBalancer below is enabled and the read consists of the headers that
the processors would write themselves (one session in all of them) and any payload, the empty one included.
-/

namespace Verif.Stack
open GoM UBuf

/-- An enabled LoadBalancer. -/
def Balances (p : Proc) : Prop := p.kind = .loadBalancer ∧ p.enable = true

/-- Processors that hand data up in the buffer they got and keep no counts. -/
def Mirror (p : Proc) : Prop := (Opens p ∨ p.kind = .loadBalancer) ∧ ¬ Frames p ∧ ∀ tx rx, p ≠ ⟨true, .stat tx rx⟩

theorem Mirror.passes {p : Proc} (h : Mirror p) : Passes p := by
  rcases h.1 with h | h
  · exact h.passes
  · simp [Passes, h]

theorem hdr_len (p : Proc) (s s' : Int) (b b' : List Byte) : (hdr p s b).length = (hdr p s' b').length := by
  obtain ⟨en, k⟩ := p
  cases k <;> cases en <;> simp [hdr, length_encBE]

theorem wrap_len (ps : List Proc) (s s' : Int) : ∀ b b' : List Byte,
    (wrap ps s b).length + b'.length = (wrap ps s' b').length + b.length := by
  induction ps with
  | nil => intro b b'; simp [wrap]; omega
  | cons p ps ih =>
    intro b b'
    have := ih (hdr p s b ++ b) (hdr p s' b' ++ b')
    have h2 := hdr_len p s s' b b'
    simp only [wrap, List.length_append] at this ⊢
    omega

/-- One processor below the Echo, any read: it stops there, or goes up without its header. -/
theorem mirror_up {i : Nat} {p : Proc} {ctx : Ctx} {w : World} {bs : List Byte} (hp : Mirror p)
    (hby : OnBytes ctx w) (hcar : Carries ctx bs) (fuel : Nat) :
    (∃ ctx' w' o, Moved o w w' ∧ (∀ x ∈ o, ∃ i c, x = .beat i c) ∧ Stops (fun nb => onLower fuel i p nb ctx w) (.ok ctx', w') ∧
      (¬ Balances p → ∀ s b, bs ≠ hdr p s b ++ b)) ∨
    (∃ ctx' b pre, Carries ctx' b ∧ bs = pre ++ b ∧ (∀ s x, pre.length = (hdr p s x).length) ∧ ctx'.conn = ctx.conn ∧
      (Resolves p → ∀ s x, pre = hdr p s x → sessionOf ctx' = s % 2 ^ 32) ∧ (¬ Resolves p → sessionOf ctx' = sessionOf ctx) ∧
      (Balances p → pre = [0]) ∧ headRoom ctx' = headRoom ctx + pre.length ∧ Up (fun nb => onLower fuel i p nb ctx w) ctx' w) := by
  obtain ⟨en, k⟩ := p
  obtain ⟨c, hc, hr⟩ := hby
  obtain ⟨ub, d, hbuf, hs, hd⟩ := hcar.buf
  obtain ⟨hop, hnf, hst⟩ := hp
  have trivially : (∀ s x, hdr ⟨en, k⟩ s x = []) → ¬ Resolves ⟨en, k⟩ → ¬ Balances ⟨en, k⟩ →
      (∀ nb : Nb, onLower fuel i ⟨en, k⟩ nb ctx w = nb.upLower ctx w) →
      ∃ ctx' b pre, Carries ctx' b ∧ bs = pre ++ b ∧ (∀ s x, pre.length = (hdr ⟨en, k⟩ s x).length) ∧ ctx'.conn = ctx.conn ∧
      (Resolves ⟨en, k⟩ → ∀ s x, pre = hdr ⟨en, k⟩ s x → sessionOf ctx' = s % 2 ^ 32) ∧ (¬ Resolves ⟨en, k⟩ → sessionOf ctx' = sessionOf ctx) ∧
      (Balances ⟨en, k⟩ → pre = [0]) ∧ headRoom ctx' = headRoom ctx + pre.length ∧ Up (fun nb => onLower fuel i ⟨en, k⟩ nb ctx w) ctx' w := by
    intro h1 h2 h3 h4
    exact ⟨ctx, bs, [], hcar, rfl, fun s x => by rw [h1], rfl, fun h => absurd h h2, fun _ => rfl, fun h => absurd h h3, by simp, h4⟩
  cases k with
  | base => simp [Opens] at hop
  | loopback => simp [Opens] at hop
  | session =>
    cases en with
    | false => exact .inr (trivially (fun _ _ => rfl) (by simp [Resolves]) (by simp [Balances]) fun nb => rfl)
    | true =>
      by_cases hl : 4 ≤ bs.length
      · obtain ⟨s', h1, h2⟩ := sessionLower_ok (w := w) hbuf hs (by rw [hd]; exact hl)
        refine .inr ⟨({ ctx with buf := some s' } : Ctx).setOption "session" (.int (decBE (d.content.take 4))), bs.drop 4, bs.take 4,
          ⟨s', rfl, h1.1, by rw [h1.data]; simp [Deque.pop, hd]⟩, (List.take_append_drop 4 bs).symm, ?_, rfl, fun _ s x hpre => ?_,
          fun h => absurd ⟨rfl, rfl⟩ h, fun h => by simp [Balances] at h, ?_, h2⟩
        · intro s x; simp only [hdr, if_true, length_encBE, List.length_take]; omega
        · simp only [sessionOf, Ctx.setOption, if_true, hd, hpre, hdr]
          rw [decBE_encBE_mod]
          omega
        · rw [headRoom_pop hbuf hs rfl h1, List.length_take, Nat.min_eq_left hl]
      · obtain ⟨s', h1, h2⟩ := sessionLower_short (w := w) hbuf hs (by rw [hd]; omega)
        refine .inl ⟨_, w, [], .refl w, by simp, h2, fun _ s b he => ?_⟩
        rw [he] at hl
        simp [hdr, length_encBE] at hl
  | frame cache =>
    cases en with
    | true => exact absurd ⟨⟨cache, rfl⟩, rfl⟩ hnf
    | false =>
      refine .inr (trivially (fun _ _ => rfl) (by simp [Resolves]) (by simp [Balances]) fun nb => ?_)
      exact (c27_disabled_transparent_partial i fuel (.frame cache) ctx w
        (.inr ⟨⟨cache, rfl⟩, ⟨c, hc, hr⟩, by rw [hbuf]; simp⟩)).2 nb
  | stat tx rx =>
    cases en with
    | true => exact absurd rfl (hst tx rx)
    | false =>
      cases bs with
      | nil =>
        obtain ⟨s', h1, _⟩ := hs.readByte_nil hd
        refine .inl ⟨{ ctx with buf := some s' }, w, [], .refl w, by simp, fun nb => ?_, fun _ s b he => by simp [hdr] at he⟩
        simp only [onLower, statLower]
        rw [bind_of_ok (by rw [hc, useReference_some, hr])]
        simp only [Bool.false_eq_true, if_false, hbuf]
        rw [bind_onBuf h1]
        rfl
      | cons t b =>
        obtain ⟨s', h1, h2⟩ := statLower_pass (w := w) i false tx rx hc hr hbuf hs hd (by simp)
        exact .inr ⟨{ ctx with buf := some s' }, b, [t], ⟨s', rfl, h1.1, by rw [h1.data]; exact pop_append (a := [t]) hd⟩, rfl,
          fun _ _ => rfl, rfl, fun h => by simp [Resolves] at h, fun _ => rfl, fun h => by simp [Balances] at h,
          headRoom_pop hbuf hs rfl h1, h2⟩
  | heartbeat =>
    cases bs with
    | nil =>
      obtain ⟨s', h1, h2⟩ := heartbeatLower_empty (w := w) i hc hr hbuf hs hd
      exact .inl ⟨_, w, [], .refl w, by simp, h2, fun _ s b he => by simp [hdr] at he⟩
    | cons t b =>
      by_cases ht : t = 0x83
      · subst ht
        obtain ⟨s', h1, h2⟩ := heartbeatLower_beat (w := w) i hc hr hbuf hs hd
        refine .inl ⟨_, _, _, Moved.obs w [.beat i (some c)], by simp, h2, fun _ s b he => ?_⟩
        simp [hdr] at he
      · obtain ⟨s', h1, h2⟩ := heartbeatLower_pass (w := w) i hc hr hbuf hs hd ht
        exact .inr ⟨{ ctx with buf := some s' }, b, [t], ⟨s', rfl, h1.1, by rw [h1.data]; exact pop_append (a := [t]) hd⟩, rfl,
          fun _ _ => rfl, rfl, fun h => by simp [Resolves] at h, fun _ => rfl, fun h => by simp [Balances] at h,
          headRoom_pop hbuf hs rfl h1, h2⟩
  | loadBalancer =>
    cases bs with
    | nil =>
      obtain ⟨s', h1, _⟩ := hs.readByte_nil hd
      refine .inl ⟨{ ctx with buf := some s' }, w, [], .refl w, by simp, fun nb => ?_, fun _ s b he => by simp [hdr] at he⟩
      simp only [onLower, loadBalancerLower]
      rw [bind_of_ok (by rw [hc, useReference_some, hr])]
      simp only [Bool.false_eq_true, if_false, hbuf]
      rw [bind_onBuf h1]
      rfl
    | cons t b =>
      by_cases ht : en = true → t = 0
      · obtain ⟨s', h1, h2⟩ := loadBalancerLower_pass (w := w) en hc hr hbuf hs hd ht
        exact .inr ⟨{ ctx with buf := some s' }, b, [t], ⟨s', rfl, h1.1, by rw [h1.data]; exact pop_append (a := [t]) hd⟩, rfl,
          fun _ _ => rfl, rfl, fun h => by simp [Resolves] at h, fun _ => rfl, fun h => by rw [ht h.2],
          headRoom_pop hbuf hs rfl h1, h2⟩
      · cases en with
        | false => exact absurd (fun h => by simp at h) ht
        | true =>
          obtain ⟨s', h1, h2⟩ := loadBalancerLower_drop (w := w) hc hr hbuf hs hd (fun h => ht fun _ => h)
          exact .inl ⟨_, w, [], .refl w, by simp, h2, fun h => absurd ⟨rfl, rfl⟩ h⟩
  | flow => exact .inr (trivially (fun _ _ => rfl) (by simp [Resolves]) (by simp [Balances]) fun nb => rfl)
  | bytesCodec => simp [Opens] at hop; subst hop; exact .inr (trivially (fun _ _ => rfl) (by simp [Resolves]) (by simp [Balances]) fun nb => rfl)
  | stringCodec => simp [Opens] at hop; subst hop; exact .inr (trivially (fun _ _ => rfl) (by simp [Resolves]) (by simp [Balances]) fun nb => rfl)
  | jsonCodec m u => simp [Opens] at hop; subst hop; exact .inr (trivially (fun _ _ => rfl) (by simp [Resolves]) (by simp [Balances]) fun nb => rfl)
  | genericCodec e d => simp [Opens] at hop; subst hop; exact .inr (trivially (fun _ _ => rfl) (by simp [Resolves]) (by simp [Balances]) fun nb => rfl)
  | gobCodec e d => simp [Opens] at hop; subst hop; exact .inr (trivially (fun _ _ => rfl) (by simp [Resolves]) (by simp [Balances]) fun nb => rfl)
  | filter f t r => simp [Opens] at hop; subst hop; exact .inr (trivially (fun _ _ => rfl) (by simp [Resolves]) (by simp [Balances]) fun nb => rfl)
  | forwarder f t r => simp [Opens] at hop; subst hop; exact .inr (trivially (fun _ _ => rfl) (by simp [Resolves]) (by simp [Balances]) fun nb => rfl)
  | echo => simp [Opens] at hop; subst hop; exact .inr (trivially (fun _ _ => rfl) (by simp [Resolves]) (by simp [Balances]) fun nb => rfl)
  | discarder => simp [Opens] at hop; subst hop; exact .inr (trivially (fun _ _ => rfl) (by simp [Resolves]) (by simp [Balances]) fun nb => rfl)

/-- The processors `a .. a+m-1`, any read. -/
theorem mirrors_up {w : World} {a : Nat} (m : Nat) : ∀ (fuel : Nat) (ctx : Ctx) (bs : List Byte), a + m ≤ w.n →
    (∀ j, a ≤ j → j < a + m → Mirror (w.procs j)) → OnBytes ctx w → Carries ctx bs →
    (∃ ctx' w' o, Moved o w w' ∧ (∀ x ∈ o, ∃ i c, x = .beat i c) ∧ call (fuel + m) .up (a + m) ctx w = (.ok ctx', w') ∧
      ((∀ j, a ≤ j → j < a + m → ¬ Balances (w.procs j)) → ∀ s x, bs ≠ wrap (seg w a m) s x)) ∨
    (∃ ctx' b, Carries ctx' b ∧ ctx'.conn = ctx.conn ∧ headRoom ctx' + b.length = headRoom ctx + bs.length ∧
      (∀ s, (wrap (seg w a m) s b).length = bs.length) ∧ call (fuel + m) .up (a + m) ctx w = call fuel .up a ctx' w ∧
      (∀ j, a ≤ j → j < a + m → Balances (w.procs j) → ∀ s x, bs ≠ wrap (seg w a m) s x) ∧
      ∀ s x, bs = wrap (seg w a m) s x → x = b ∧
        (sessionOf ctx' = s % 2 ^ 32 ∨ ((∀ j, a ≤ j → j < a + m → ¬ Resolves (w.procs j)) ∧ sessionOf ctx' = sessionOf ctx))) := by
  induction m with
  | zero =>
    intro fuel ctx bs _ _ _ hcar
    exact .inr ⟨ctx, bs, hcar, rfl, rfl, fun _ => rfl, rfl, fun j h1 h2 => by omega,
      fun s x he => ⟨he.symm, .inr ⟨fun j h1 h2 => by omega, rfl⟩⟩⟩
  | succ m ih =>
    intro fuel ctx bs hn hm hby hcar
    rw [← Nat.add_assoc, ← Nat.add_assoc, call_up (by omega)]
    have hshape : ∀ s x, wrap (seg w a (m + 1)) s x = hdr (w.procs (a + m)) s (wrap (seg w a m) s x) ++ wrap (seg w a m) s x := by
      intro s x; rw [seg_snoc, wrap_snoc]
    rcases mirror_up (i := a + m) (hm (a + m) (by omega) (by omega)) hby hcar (fuel + m) with
      ⟨ctx', w', o, h1, h2, h3, h4⟩ | ⟨ctx1, b1, pre, h1, h2, h3, h4, h5, h6, h7, h8, h9⟩
    · refine .inl ⟨ctx', w', o, h1, h2, h3 _, fun hb s x he => ?_⟩
      rw [hshape] at he
      exact h4 (hb _ (by omega) (by omega)) _ _ he
    · have hby1 : OnBytes ctx1 w := by obtain ⟨c, e1, e2⟩ := hby; exact ⟨c, h4.trans e1, e2⟩
      have hsplit : ∀ s x, bs = wrap (seg w a (m + 1)) s x → pre = hdr (w.procs (a + m)) s (wrap (seg w a m) s x) ∧ b1 = wrap (seg w a m) s x := by
        intro s x he
        rw [hshape, h2] at he
        exact List.append_inj he (h3 _ _)
      rw [show onLower (fuel + m) (a + m) (w.procs (a + m)) (nbAt (fuel + m) (a + m + 1)) ctx w = _ from h9 _]
      rcases ih fuel ctx1 b1 (by omega) (fun j k1 k2 => hm j k1 (by omega)) hby1 h1 with
        ⟨ctx', w', o, k1, k2, k3, k4⟩ | ⟨ctx', b, k1, k2, k3, k4, k5, k6, k7⟩
      · refine .inl ⟨ctx', w', o, k1, k2, k3, fun hb s x he => ?_⟩
        exact k4 (fun j j1 j2 => hb j j1 (by omega)) s x (hsplit s x he).2
      · refine .inr ⟨ctx', b, k1, k2.trans h4, ?_, ?_, k5, ?_, ?_⟩
        · rw [h2, List.length_append]; rw [h8] at k3; omega
        · intro s
          rw [hshape, List.length_append, k4 s, ← h3, h2, List.length_append]
        · intro j j1 j2 hb s x he
          obtain ⟨e1, e2⟩ := hsplit s x he
          by_cases hj : j = a + m
          · subst hj
            rw [h7 hb] at e1
            simp [hdr, hb.1, hb.2] at e1
          · exact k6 j j1 (by omega) hb s x e2
        · intro s x he
          obtain ⟨e1, e2⟩ := hsplit s x he
          obtain ⟨f1, f2⟩ := k7 s x e2
          refine ⟨f1, ?_⟩
          rcases f2 with f2 | ⟨f2, f3⟩
          · exact .inl f2
          · by_cases hres : Resolves (w.procs (a + m))
            · exact .inl (f3.trans (h5 hres s _ e1))
            · refine .inr ⟨fun j j1 j2 => ?_, f3.trans (h6 hres)⟩
              by_cases hj : j = a + m
              · subst hj; exact hres
              · exact f2 j j1 (by omega)

/-- C28, exactly, without FrameDecoders and StatCounters that count below the Echo: a read comes back byte for byte, in one
write and with nothing else to see, iff no LoadBalancer below the Echo is enabled and the read is made of the headers of the
processors below, with one session, and a payload. -/
theorem c28_exact (w : World) (e : Nat) (he : e < w.n) (hen : (w.procs e).enable = true) (hk : (w.procs e).kind = .echo)
    (hm : ∀ j, e < j → j < w.n → Mirror (w.procs j)) (bs : List Byte) (hne : bs ≠ []) (hfit : (bs.length : Int) ≤ w.mtu)
    (c : ConnId) (hbytes : (w.conns c).useRef = false) (hconn : (w.conns c).closed = false)
    (hw : ∀ q, (w.write w.trace c q).err = none ∧ (w.write w.trace c q).n ≤ q.length)
    (fuel : Nat) (hf : 2 * w.n + 4 ≤ fuel) :
    (∃ w', receive fuel c bs w = (.ok (), w') ∧ w'.trace = w.trace ++ [.wire c bs (w.write w.trace c bs)]) ↔
      (∀ j, e < j → j < w.n → ¬ Balances (w.procs j)) ∧ ∃ s p, bs = wrap (seg w (e + 1) (w.n - (e + 1))) s p := by
  generalize hmm : w.n - (e + 1) = m
  have hnm : e + 1 + m = w.n := by omega
  obtain ⟨ub, r1, r2⟩ := receive_ok (c := c) (w := w) hne hfit
  obtain ⟨f, rfl⟩ : ∃ f, fuel = f + 1 + m + 1 + m := ⟨fuel - 2 - 2 * m, by omega⟩
  rw [r2]
  rcases mirrors_up (w := w) (a := e + 1) m (f + 1 + m + 1) { Ctx.new with conn := some c, buf := some ub } bs (by omega)
      (fun j h1 h2 => hm j (by omega) (by omega)) ⟨c, rfl, hbytes⟩ ⟨ub, rfl, r1.1, r1.data⟩ with
    ⟨ctx', w', o, h1, h2, h3, h4⟩ | ⟨ctx', b, h1, h2, h3, h4, h5, h6, h7⟩
  · rw [hnm] at h3
    rw [bind_of_ok h3]
    constructor
    · rintro ⟨w2, e1, e2⟩
      have e1' : ((.ok (), w') : Res Unit × World) = (.ok (), w2) := e1
      injection e1' with _ e1'
      subst e1'
      rw [h1.trace] at e2
      have := List.append_cancel_left e2
      obtain ⟨i, c', hx⟩ := h2 _ (by rw [this]; exact List.mem_singleton.mpr rfl)
      cases hx
    · rintro ⟨hb, s, p, hs⟩
      exact absurd hs (h4 (fun j j1 j2 => hb j (by omega) (by omega)) s p)
  · have hby1 : OnBytes ctx' w := ⟨c, h2, hbytes⟩
    obtain ⟨s1, d1, b1, b2, b3⟩ := h1.buf
    have h0 : headRoom { Ctx.new with conn := some c, buf := some ub } = 0 := by
      simp only [headRoom, r1.headW]; rfl
    have hh : headRoom ctx' = d1.head := by simp only [headRoom, b1, b2.headW]
    obtain ⟨s2, w2, m2, g2, e2, dn⟩ := segment_down m (e + 1) (f + 1) ctx' w s1 d1 (by omega)
      (fun j h1 h2 => (hm j (by omega) (by omega)).passes) hby1 b1 b2 (by rw [b3, h4]; omega)
    rw [b3] at e2
    have hb2 := Buf.of_good g2
    have hc2 : (view s2).content = wrap (seg w (e + 1) m) (sessionOf ctx') b := e2
    have hlen := h4 (sessionOf ctx')
    have hne2 : wrap (seg w (e + 1) m) (sessionOf ctx') b ≠ [] := by
      intro hz
      rw [hz] at hlen
      exact hne (List.eq_nil_of_length_eq_zero hlen.symm)
    obtain ⟨s3, r3⟩ := lowerDeckUpper_ok (w := w2) (ctx := { ctx' with buf := some s2 }) (c := c) h2
      (by rw [m2.conns]; exact hbytes) (by rw [m2.conns]; exact hconn) rfl hb2
      (by rw [hc2]; exact hne2) (by rw [hc2, m2.write, m2.trace, List.append_nil]; exact (hw _).1)
      (by rw [hc2, m2.write, m2.trace, List.append_nil]; exact (hw _).2)
    rw [show e + 1 + m + 1 = w2.n + 1 by rw [m2.n, hnm], call_bottom, r3] at dn
    have hecho : call (f + 1 + m + 1) .up (e + 1) ctx' w = call (f + 1 + m) .down (e + 1 + 1) ctx' w := by
      rw [call_up (by omega)]
      simp only [onLower, hk, hen, if_true]
      rfl
    rw [hecho, dn, hnm] at h5
    rw [bind_of_ok h5]
    have htr : (w2.wrote c (view s2).content).trace = w.trace ++ [.wire c (wrap (seg w (e + 1) m) (sessionOf ctx') b)
        (w.write w.trace c (wrap (seg w (e + 1) m) (sessionOf ctx') b))] := by
      simp only [World.wrote, hc2, m2.write, m2.trace, List.append_nil]
    constructor
    · rintro ⟨w3, e3, e4⟩
      have e3' : ((.ok (), w2.wrote c (view s2).content) : Res Unit × World) = (.ok (), w3) := e3
      injection e3' with _ e3'
      subst e3'
      rw [htr] at e4
      have := List.append_cancel_left e4
      injection this with this
      injection this with _ hq
      refine ⟨fun j j1 j2 hbal => ?_, _, _, hq.symm⟩
      exact h6 j (by omega) (by omega) hbal _ _ hq.symm
    · rintro ⟨hb, s, p, hs⟩
      obtain ⟨f1, f2⟩ := h7 s p hs
      subst f1
      have hback : wrap (seg w (e + 1) m) (sessionOf ctx') p = bs := by
        rw [hs]
        apply wrap_session
        rcases f2 with f2 | ⟨f2, _⟩
        · exact .inl (by rw [f2]; exact Int.emod_emod_of_dvd s (Int.dvd_refl _))
        · exact .inr f2
      exact ⟨_, rfl, by rw [htr, hback]⟩

/-- Over a SessionResolver and a Heartbeat: which reads come back. -/
def echoDemo : World :=
  { quiet with n := 4, served := [(7, 0)], procs := fun i => if i = 0 then ⟨true, .bytesCodec⟩ else if i = 1 then ⟨true, .echo⟩
      else if i = 2 then ⟨true, .session⟩ else ⟨true, .heartbeat⟩ }

theorem echoDemo_mirror : ∀ j, 1 < j → j < echoDemo.n → Mirror (echoDemo.procs j) := by
  intro j h1 h2
  have : j = 2 ∨ j = 3 := by simp only [echoDemo] at h2; omega
  rcases this with rfl | rfl <;> simp [Mirror, Opens, Frames, echoDemo]

example : ∃ w', receive 20 0 [0, 0, 0, 0, 9] echoDemo = (.ok (), w') ∧ w'.trace = echoDemo.trace ++ [.wire 0 [0, 0, 0, 0, 9] ⟨5, none⟩] :=
  (c28_exact echoDemo 1 (by decide) rfl rfl echoDemo_mirror [0, 0, 0, 0, 9] (by decide) (by decide) 0 rfl rfl (fun q => ⟨rfl, by simp [echoDemo, quiet]⟩) 20
    (by decide)).mpr ⟨fun j h1 h2 => by
      have : j = 2 ∨ j = 3 := by simp only [echoDemo] at h2; omega
      rcases this with rfl | rfl <;> simp [Balances, echoDemo], 9, [], rfl⟩

example : ¬ ∃ w', receive 20 0 [5, 0, 0, 0, 9, 1] echoDemo = (.ok (), w') ∧ w'.trace = echoDemo.trace ++ [.wire 0 [5, 0, 0, 0, 9, 1] ⟨6, none⟩] := by
  intro h
  obtain ⟨_, s, p, hs⟩ := (c28_exact echoDemo 1 (by decide) rfl rfl echoDemo_mirror [5, 0, 0, 0, 9, 1] (by decide) (by decide) 0 rfl rfl (fun q => ⟨rfl, by simp [echoDemo, quiet]⟩) 20
    (by decide)).mp h
  have := congrArg List.head? hs
  have h2 : (wrap (seg echoDemo (1 + 1) (echoDemo.n - (1 + 1))) s p).head? = some 0 := rfl
  rw [h2] at this
  exact absurd this (by decide)

end Verif.Stack
