import Verif.Stack.Deliver

/-!
# Turning data around: Echo, Loopback; reference connections; termination
-/

namespace Verif.Stack
open GoM UBuf

/-- A frame decoder that holds nothing and reads exactly one frame: one call up, whatever that call does
elsewhere (it may come back into the decoder), provided it leaves the decoder idle. -/
theorem frame_single {i fuel : Nat} {ctx : Ctx} {w : World} {p : List Byte} (hp : p ≠ [])
    (hsm : (stream [p]).length < 2 ^ 32) (hb : OnBytes ctx w) (hcar : Carries ctx (stream [p])) (hidle : Idle i w) :
    ∃ ub, Good ub ∧ data ub = p ∧ headWritableLength ub = 0 ∧ ∀ (nb : Nb) ctx1 w1, nb.upLower { ctx with buf := some ub } w = (.ok ctx1, w1) → Idle i w1 →
      ∃ w2, (Moved [] w1 w2 ∧ ∀ j, j ≠ i → w2.procs j = w1.procs j) ∧ frameLower (fuel + 2) i true nb ctx w = (.ok ctx1, w2) := by
  obtain ⟨cid, h1, h2⟩ := hb
  obtain ⟨ub, ds, hbuf, hs, hd⟩ := hcar.buf
  obtain ⟨cache, hk, hg, hcd⟩ := hidle
  have hc := Buf.of_good hg
  have hc0 : (view cache).content = [] := hcd
  have hlen : 0 < p.length := List.length_pos_iff.mpr hp
  have hd' : ds.content = encBE 4 p.length ++ p := by simpa [stream, frameOf] using hd
  have hl : ds.content.length = 4 + p.length := by rw [hd']; simp [length_encBE]
  have hsm' : 4 + p.length < 2 ^ 32 := by rw [← hd, hl] at hsm; exact hsm
  have htake : ds.content.take 4 = encBE 4 p.length := by
    rw [hd', List.take_append_of_le_length (by simp [length_encBE]), List.take_of_length_le (by simp [length_encBE])]
  have hdrop : ds.content.drop 4 = p := by
    rw [hd', List.drop_append_of_le_length (by simp [length_encBE]), List.drop_of_length_le (by simp [length_encBE])]; rfl
  have hv : decBE (ds.content.take 4) = p.length := by rw [htake, decBE_encBE_mod]; omega
  obtain ⟨ub1, p1, _⟩ := hs.peekU .u32 .be (by simp [Width.size]; omega)
  have p3 : peekU .u32 .be ub = (.ok (decBE (ds.content.take 4), none), ub1) := p1
  obtain ⟨ub2, q1, q2⟩ := hs.readU .u32 .be (by simp [Width.size]; omega)
  obtain ⟨nu, a1, a2⟩ := allocBuf_ok p.length 0 w (by omega) (by omega) (by omega)
  simp only [Int.toNat_natCast, Int.toNat_zero] at a2
  obtain ⟨nu', src', c1, c2, ds', _, _⟩ := copyN_ok (w := w) (by omega) a2 q2
  have hpop : (ds.pop (Width.size .u32)).content = p := hdrop
  rw [hpop] at c1 c2
  obtain ⟨d1, d2⟩ := c2 (Nat.le_refl _)
  refine ⟨nu', d1.1, by rw [d1.data]; exact List.take_of_length_le (Nat.le_refl _), by rw [d1.headW]; rfl,
    fun nb ctx1 w1 hup hidle1 => ?_⟩
  obtain ⟨cache1, hk1, hg1, hcd1⟩ := hidle1
  have hcc1 := Buf.of_good hg1
  have hc10 : (view cache1).content = [] := hcd1
  obtain ⟨c', u', e1, e2, e3⟩ := cacheReadFrom_ok hk1 hcc1 d2
  have hk2 : ((w1.setKind i (.frame (some c'))).procs i).kind = .frame (some c') := by rw [setKind_self]
  have hem : (Deque.readFromDeque (view cache1) ((ds.pop (Width.size .u32)).pop p.length)).2.2.1.content = [] := by
    have hz : ((ds.pop (Width.size .u32)).pop p.length).content = [] := by
      rw [show ((ds.pop (Width.size .u32)).pop p.length).content = (ds.pop (Width.size .u32)).content.drop p.length from rfl, hpop]
      simp
    simp [Deque.readFromDeque, hz, hc10]
  obtain ⟨c'', f1, f2⟩ := cacheReset_ok hk2 e2
  refine ⟨(w1.setKind i (.frame (some c'))).setKind i (.frame (some c'')), ?_, ?_⟩
  · have m1 := Moved.setCache (c := c'') hk1 f2.1 (by rw [f2.data]; rfl)
    rw [setKind_setKind]
    exact ⟨m1, fun j hj => by simp only [World.setKind, if_neg hj]⟩
  · simp only [frameLower]
    rw [h1, bind_of_ok (useReference_some cid w), h2]
    simp only [Bool.false_eq_true, if_false, hbuf, if_true]
    have hcur : handleCurrent (fuel + 2) i nb ctx ub w = (.ok ctx1, w1.setKind i (.frame (some c'))) := by
      simp only [handleCurrent]
      rw [bind_of_ok (a := cache) (s' := w) (by simp [frameCache, bind_apply, hk])]
      rw [if_neg (by rw [hc.readable, hc0]; simp)]
      simp only [currentLoop, hs.readable, hl]
      rw [if_neg (by omega), bind_onBuf p3]
      simp only [Option.isSome_none, Bool.false_eq_true, if_false, hv]
      have ht : toU32 ((4 + p.length : Nat) : Int) = 4 + p.length := toU32_of_nat _ hsm'
      rw [ht, if_neg (by omega), if_neg (by omega), bind_of_ok a1, bind_onBuf q1, bind_of_ok c1]
      simp only [Nat.le_refl, decide_true, Bool.true_eq_false, if_false]
      rw [bind_of_ok hup]
      have hr : readableLength src' = 0 := by
        rw [d2.readable, show ((ds.pop (Width.size .u32)).pop p.length).content = (ds.pop (Width.size .u32)).content.drop p.length from rfl, hpop]
        simp
      rw [hr, if_pos (by omega), bind_of_ok e1]
      rfl
    rw [bind_of_ok hcur]
    simp only [handleCached]
    rw [bind_of_ok (a := c') (by simp [frameCache, bind_apply, hk2]; rfl)]
    rw [if_pos (by rw [e2.readable, hem]; rfl), bind_of_ok f1]
    rfl

/-- Received data on its way up through processors that open their headers: the element above the segment sees
the payload and the session; what it returns is returned. -/
theorem segment_open_above (s : Int) (b : List Byte) (hb : b ≠ []) (a m : Nat) : ∀ (fuel : Nat) (ctx : Ctx) (w : World), 2 ≤ fuel →
    a + m ≤ w.n → (∀ j, a ≤ j → j < a + m → Opens (w.procs j)) → (∀ j, a ≤ j → j < a + m → Frames (w.procs j) → Idle j w) →
    OnBytes ctx w → Carries ctx (wrap (seg w a m) s b) → (wrap (seg w a m) s b).length < 2 ^ 32 →
    ∃ ctx' w', (Moved [] w w' ∧ ∀ j, j < a → w'.procs j = w.procs j) ∧ Carries ctx' b ∧ ctx'.conn = ctx.conn ∧
      (((∃ j, a ≤ j ∧ j < a + m ∧ Resolves (w.procs j)) ∧ sessionOf ctx' = s % 2 ^ 32) ∨
        ((∀ j, a ≤ j → j < a + m → ¬ Resolves (w.procs j)) ∧ sessionOf ctx' = sessionOf ctx)) ∧
      ((∀ j, a ≤ j → j < a + m → ¬ Frames (w.procs j)) →
        headRoom ctx' + b.length = headRoom ctx + (wrap (seg w a m) s b).length) ∧
      ∀ o ctx1 w1, call fuel .up a ctx' w' = (.ok ctx1, w1) → Moved o w' w1 →
        ∃ w2, call (fuel + m) .up (a + m) ctx w = (.ok ctx1, w2) ∧ Moved o w w2 ∧ ∀ j, j < a → w2.procs j = w1.procs j := by
  induction m with
  | zero =>
    intro fuel ctx w _ _ _ _ _ hcar _
    exact ⟨ctx, w, ⟨.refl w, fun _ _ => rfl⟩, hcar, rfl, .inr ⟨fun j h1 h2 => by omega, rfl⟩, fun _ => rfl, fun o ctx1 w1 h1 h2 => ⟨w1, h1, h2, fun _ _ => rfl⟩⟩
  | succ m ih =>
    intro fuel ctx w hf hn hopen hidle hby hcar hsm
    rw [seg_snoc, wrap_snoc] at hcar hsm
    rw [← Nat.add_assoc, ← Nat.add_assoc, call_up (by omega)]
    by_cases hfr : Frames (w.procs (a + m))
    · rw [frames_hdr hfr] at hcar hsm
      have hid := hidle _ (by omega) (by omega) hfr
      obtain ⟨f, hf2⟩ : ∃ f, fuel + m = f + 2 := ⟨fuel + m - 2, by omega⟩
      obtain ⟨ub, g1, g2, _, g3⟩ := frame_single (fuel := f) (wrap_ne (seg w a m) s hb) hsm hby hcar hid
      obtain ⟨ctx', w', h1, h2, h3, h4, h5, h6⟩ := ih fuel { ctx with buf := some ub } w hf (by omega)
        (fun j h1 h2 => hopen j h1 (by omega)) (fun j h1 h2 => hidle j h1 (by omega)) hby ⟨ub, rfl, g1, g2⟩
        (by simp [stream, frameOf, length_encBE] at hsm; omega)
      have hnr : ¬ Resolves (w.procs (a + m)) := by
        obtain ⟨⟨c, hc⟩, _⟩ := hfr
        rw [Resolves, hc]; simp
      refine ⟨ctx', w', h1, h2, h3, ?_, fun h => absurd hfr (h _ (by omega) (by omega)), fun o ctx1 w1 k1 k2 => ?_⟩
      · rcases h4 with ⟨⟨j, j1, j2, j3⟩, h4⟩ | ⟨h4, h4'⟩
        · exact .inl ⟨⟨j, j1, by omega, j3⟩, h4⟩
        · refine .inr ⟨fun j j1 j2 => ?_, h4'⟩
          by_cases e : j = a + m
          · subst e; exact hnr
          · exact h4 j j1 (by omega)
      · obtain ⟨w2, l1, l2, l3⟩ := h6 o ctx1 w1 k1 k2
        obtain ⟨w3, m1, m2⟩ := g3 (nbAt (fuel + m) (a + m + 1)) ctx1 w2 l1 (l2.idle _ hid)
        refine ⟨w3, ?_, by simpa using l2.trans m1.1, fun j hj => (m1.2 j (by omega)).trans (l3 j hj)⟩
        have hp : w.procs (a + m) = ⟨true, (w.procs (a + m)).kind⟩ := by rw [← hfr.2]
        obtain ⟨c, hc⟩ := hfr.1
        rw [hp, hc]
        rw [← hf2] at m2
        exact m2
    · obtain ⟨ctx1, w1, ⟨a1, _⟩, a2, a3, a4, a5, a6, a7⟩ := opens_up (hopen (a + m) (by omega) (by omega)) rfl hfr hby hcar (fuel + m)
      have hby1 : OnBytes ctx1 w1 := by
        obtain ⟨c, e1, e2⟩ := hby
        exact ⟨c, a3.trans e1, by rw [a1.conns]; exact e2⟩
      obtain ⟨ctx', w', h1, h2, h3, h4, h5, h6⟩ := ih fuel ctx1 w1 hf (by rw [a1.n]; omega)
        (fun j h1 h2 => (a1.same j).opens (hopen j h1 (by omega)))
        (fun j h1 h2 h3 => a1.idle j (hidle j h1 (by omega) ((a1.same j).frames h3))) hby1
        (by rw [wrap_same a1.same]; exact a2)
        (by rw [wrap_same a1.same]; simp only [List.length_append] at hsm; omega)
      refine ⟨ctx', w', ⟨by simpa using a1.trans h1.1, fun j hj => (h1.2 j hj).trans (up_keeps_others a7 j (by omega))⟩, h2, h3.trans a3, ?_, fun hnf => ?_, fun o ctx2 w2 k1 k2 => ?_⟩
      · rcases h4 with ⟨⟨j, j1, j2, j3⟩, h4⟩ | ⟨h4, h4'⟩
        · refine .inl ⟨⟨j, j1, by omega, ?_⟩, h4⟩
          have := a1.same j
          exact SameProc.resolves ⟨this.1.symm, this.2.symm⟩ j3
        · by_cases hres : Resolves (w.procs (a + m))
          · exact .inl ⟨⟨_, by omega, by omega, hres⟩, h4'.trans (a4 hres)⟩
          · refine .inr ⟨fun j j1 j2 => ?_, h4'.trans (a5 hres)⟩
            by_cases e : j = a + m
            · subst e; exact hres
            · exact fun h => h4 j j1 (by omega) ((a1.same j).resolves h)
      · have := h5 fun j j1 j2 h => hnf j j1 (by omega) ((a1.same j).frames h)
        rw [wrap_same a1.same] at this
        rw [seg_snoc, wrap_snoc, List.length_append]
        omega
      · obtain ⟨w3, l1, l2, l3⟩ := h6 o ctx2 w2 k1 k2
        refine ⟨w3, ?_, by simpa using a1.trans l2, l3⟩
        rw [show onLower (fuel + m) (a + m) (w.procs (a + m)) (nbAt (fuel + m) (a + m + 1)) ctx w = _ from a7 _]
        exact l1

theorem segment_open (s : Int) (b : List Byte) (hb : b ≠ []) (a m : Nat) (fuel : Nat) (ctx : Ctx) (w : World) (hf : 2 ≤ fuel) (hn : a + m ≤ w.n)
    (hopen : ∀ j, a ≤ j → j < a + m → Opens (w.procs j)) (hidle : ∀ j, a ≤ j → j < a + m → Frames (w.procs j) → Idle j w)
    (hby : OnBytes ctx w) (hcar : Carries ctx (wrap (seg w a m) s b)) (hsm : (wrap (seg w a m) s b).length < 2 ^ 32) :
    ∃ ctx' w', Moved [] w w' ∧ Carries ctx' b ∧ ctx'.conn = ctx.conn ∧
      (((∃ j, a ≤ j ∧ j < a + m ∧ Resolves (w.procs j)) ∧ sessionOf ctx' = s % 2 ^ 32) ∨
        ((∀ j, a ≤ j → j < a + m → ¬ Resolves (w.procs j)) ∧ sessionOf ctx' = sessionOf ctx)) ∧
      ((∀ j, a ≤ j → j < a + m → ¬ Frames (w.procs j)) →
        headRoom ctx' + b.length = headRoom ctx + (wrap (seg w a m) s b).length) ∧
      ∀ o ctx1 w1, call fuel .up a ctx' w' = (.ok ctx1, w1) → Moved o w' w1 →
        ∃ w2, call (fuel + m) .up (a + m) ctx w = (.ok ctx1, w2) ∧ Moved o w w2 := by
  obtain ⟨ctx', w', h1, h2, h3, h4, h5, h6⟩ := segment_open_above s b hb a m fuel ctx w hf hn hopen hidle hby hcar hsm
  refine ⟨ctx', w', h1.1, h2, h3, h4, h5, fun o ctx1 w1 k1 k2 => ?_⟩
  obtain ⟨w2, l1, l2, _⟩ := h6 o ctx1 w1 k1 k2
  exact ⟨w2, l1, l2⟩

/-! ## C28: Echo -/

theorem hdr_session {p : Proc} (h : ¬ Resolves p) (s s' : Int) (b : List Byte) : hdr p s b = hdr p s' b := by
  obtain ⟨en, k⟩ := p
  cases k <;> try rfl
  cases en with
  | true => exact absurd ⟨rfl, rfl⟩ h
  | false => rfl

theorem wrap_session {w : World} (m : Nat) : ∀ (a : Nat) (s s' : Int) (b : List Byte),
    (s % 2 ^ 32 = s' % 2 ^ 32 ∨ ∀ j, a ≤ j → j < a + m → ¬ Resolves (w.procs j)) →
    wrap (seg w a m) s b = wrap (seg w a m) s' b := by
  induction m with
  | zero => intros; rfl
  | succ m ih =>
    intro a s s' b h
    have h1 : hdr (w.procs a) s b = hdr (w.procs a) s' b := by
      rcases h with h | h
      · by_cases hr : Resolves (w.procs a)
        · simp only [hdr, hr.1, hr.2, if_true, h]
        · exact hdr_session hr s s' b
      · exact hdr_session (h a (by omega) (by omega)) s s' b
    rw [seg_succ, wrap, wrap, h1]
    exact ih _ _ _ _ (h.imp_right fun h j h1 h2 => h j (by omega) (by omega))

/-- A read made of the headers of the processors below an enabled Echo and a payload is written back, byte for
byte, to the connection it came from, in one write, and nothing else is observable.  Below the Echo may be any
number of processors that open their headers, except enabled FrameDecoders.  Missing from the full claim:
FrameDecoders (`c28_frame_violated`), enabled LoadBalancers (`c28_load_balancer_violated`), reads that are not of
this shape, e.g. with other tags (`c28_tag_violated`). -/
theorem c28_echo_partial (w : World) (e : Nat) (he : e < w.n) (hen : (w.procs e).enable = true) (hk : (w.procs e).kind = .echo)
    (hopen : ∀ j, e < j → j < w.n → Opens (w.procs j)) (hnf : ∀ j, e < j → j < w.n → ¬ Frames (w.procs j))
    (s : Int) (p : List Byte) (hp : p ≠ []) (bs : List Byte) (hbs : bs = wrap (seg w (e + 1) (w.n - (e + 1))) s p)
    (hfit : (bs.length : Int) ≤ w.mtu) (h32 : bs.length < 2 ^ 32)
    (c : ConnId) (hbytes : (w.conns c).useRef = false) (hconn : (w.conns c).closed = false)
    (herr : (w.write w.trace c bs).err = none) (hlen : (w.write w.trace c bs).n ≤ bs.length)
    (fuel : Nat) (hf : 2 * w.n + 4 ≤ fuel) :
    ∃ w', receive fuel c bs w = (.ok (), w') ∧ Moved [.wire c bs (w.write w.trace c bs)] w w' := by
  generalize hm : w.n - (e + 1) = m at hbs
  have hne : bs ≠ [] := by rw [hbs]; exact wrap_ne _ s hp
  have hnm : e + 1 + m = w.n := by omega
  obtain ⟨ub, r1, r2⟩ := receive_ok (c := c) (w := w) hne hfit
  obtain ⟨f, rfl⟩ : ∃ f, fuel = f + 1 + m + 1 + m := ⟨fuel - 2 - 2 * m, by omega⟩
  obtain ⟨ctx', w1, m1, car1, conn1, ses1, room1, up1⟩ := segment_open s p hp (e + 1) m (f + 1 + m + 1)
    { Ctx.new with conn := some c, buf := some ub } w (by omega) (by omega) (fun j h1 h2 => hopen j (by omega) (by omega))
    (fun j h1 h2 h3 => absurd h3 (hnf j (by omega) (by omega))) ⟨c, rfl, hbytes⟩ ⟨ub, rfl, r1.1, by rw [r1.data, hbs]⟩ (by rw [← hbs]; exact h32)
  have hroom := room1 fun j h1 h2 => hnf j (by omega) (by omega)
  have h0 : headRoom { Ctx.new with conn := some c, buf := some ub } = 0 := by
    simp only [headRoom, r1.headW]; rfl
  rw [h0] at hroom
  obtain ⟨s1, d1, b1, b2, b3⟩ := car1.buf
  have hh : headRoom ctx' = d1.head := by simp only [headRoom, b1, b2.headW]
  have hby1 : OnBytes ctx' w1 := ⟨c, conn1, by rw [m1.conns]; exact hbytes⟩
  have hback : wrap (seg w1 (e + 1) m) (sessionOf ctx') d1.content = bs := by
    rw [wrap_same m1.same, b3, hbs]
    apply wrap_session
    rcases ses1 with ⟨_, h⟩ | ⟨h, _⟩
    · exact .inl (by rw [h]; exact Int.emod_emod_of_dvd s (Int.dvd_refl _))
    · exact .inr h
  obtain ⟨s2, w2, m2, g2, e2, dn⟩ := segment_down m (e + 1) (f + 1) ctx' w1 s1 d1 (by rw [m1.n]; omega)
    (fun j h1 h2 => (m1.same j).passes (hopen j (by omega) (by omega)).passes) hby1 b1 b2 (by rw [hback, b3]; rw [← hbs] at hroom; omega)
  rw [hback] at e2
  have hb2 := Buf.of_good g2
  have hc2 : (view s2).content = bs := e2
  have m12 : Moved [] w w2 := by simpa using m1.trans m2
  obtain ⟨s3, r3⟩ := lowerDeckUpper_ok (w := w2) (ctx := { ctx' with buf := some s2 }) (c := c) conn1
    (by rw [m12.conns]; exact hbytes) (by rw [m12.conns]; exact hconn) rfl hb2
    (by rw [hc2]; exact hne) (by rw [hc2, m12.write, m12.trace, List.append_nil]; exact herr)
    (by rw [hc2, m12.write, m12.trace, List.append_nil]; exact hlen)
  rw [show e + 1 + m + 1 = w2.n + 1 by rw [m12.n, hnm], call_bottom, r3] at dn
  have hecho : call (f + 1 + m + 1) .up (e + 1) ctx' w1 = call (f + 1 + m) .down (e + 1 + 1) ctx' w1 := by
    rw [call_up (by rw [m1.n]; omega)]
    have h1 := (m1.same e).1
    have h2 := (m1.same e).2
    rw [hk] at h2
    have h3 : (w1.procs e).kind = .echo := by
      generalize (w1.procs e).kind = k at h2
      cases k <;> simp_all [Kind.Same]
    simp only [onLower, h3, h1, hen, if_true]
    rfl
  obtain ⟨w3, t1, t2⟩ := up1 [.wire c bs (w.write w.trace c bs)] _ _ (hecho.trans dn) (by
    have := m2.trans (Moved.obs w2 [.wire c (view s2).content (w2.write w2.trace c (view s2).content)])
    simp only [List.nil_append, hc2, m12.write, m12.trace, List.append_nil] at this
    simp only [World.wrote, hc2, m12.write, m12.trace, List.append_nil]
    exact this)
  refine ⟨w3, ?_, t2⟩
  rw [hnm] at t1
  rw [r2, bind_of_ok t1]
  rfl

/-- Echo above any chain: whatever is received, nothing is delivered to an endpoint and the processors above
the Echo are not touched. -/
theorem c28_never_up (e : Nat) (w : World) (hn : e < w.n) (hen : (w.procs e).enable = true) (hk : (w.procs e).kind = .echo) :
    (∀ fuel dir pos ctx, e < pos → NoDelivery w (call fuel dir pos ctx w).2 ∧
      ∀ j < e, (call fuel dir pos ctx w).2.procs j = w.procs j) ∧
    (∀ fuel c bs, NoDelivery w (receive fuel c bs w).2) ∧
    (∀ fuel c v, NoDelivery w (receiveRef fuel c v w).2) :=
  blocked e w hn ⟨hen, .inr hk⟩

/-- Endpoint, BytesCodec, Echo, `k`. -/
def echoOver (k : Kind) : World :=
  { quiet with n := 3, served := [(7, 0)], procs := fun i => if i = 0 then ⟨true, .bytesCodec⟩ else if i = 1 then ⟨true, .echo⟩ else ⟨true, k⟩ }

example : ∃ w', receive 20 0 [0, 0, 0, 9, 1, 2] (echoOver .session) = (.ok (), w') ∧ Moved [.wire 0 [0, 0, 0, 9, 1, 2] ⟨6, none⟩] (echoOver .session) w' := by
  have hw : (echoOver .session).write (echoOver .session).trace 0 [0, 0, 0, 9, 1, 2] = ⟨6, none⟩ := rfl
  rw [← hw]
  have h : ∀ j, 1 < j → j < (echoOver .session).n → (echoOver .session).procs j = ⟨true, .session⟩ := by
    intro j h1 h2
    have : j = 2 := by simp only [echoOver] at h2; omega
    subst this; rfl
  refine c28_echo_partial (echoOver .session) 1 ?_ rfl rfl (fun j h1 h2 => ?_) (fun j h1 h2 => ?_) 9 [1, 2] ?_ [0, 0, 0, 9, 1, 2] ?_
    ?_ ?_ 0 rfl rfl rfl ?_ 20 ?_
  · decide
  · rw [h j h1 h2]; simp [Opens]
  · rw [h j h1 h2]; simp [Frames]
  · decide
  · rfl
  · decide
  · decide
  · decide
  · decide

/-- Echo directly above a FrameDecoder answers every framed payload without its frame header: the decoder hands
up a fresh buffer without head room. -/
theorem c28_frame_violated (w : World) (e : Nat) (he : e + 2 = w.n) (hen : (w.procs e).enable = true) (hk : (w.procs e).kind = .echo)
    (hfr : Frames (w.procs (e + 1))) (hid : Idle (e + 1) w) (p : List Byte) (hp : p ≠ [])
    (hfit : ((frameOf p).length : Int) ≤ w.mtu) (h32 : (frameOf p).length < 2 ^ 32)
    (c : ConnId) (hbytes : (w.conns c).useRef = false) (hconn : (w.conns c).closed = false)
    (herr : (w.write w.trace c p).err = none) (hlen : (w.write w.trace c p).n ≤ p.length) (fuel : Nat) :
    (∃ w', receive (fuel + 5) c (frameOf p) w = (.ok (), w') ∧ Moved [.wire c p (w.write w.trace c p)] w w') ∧ p ≠ frameOf p := by
  have hst : stream [p] = frameOf p := by simp [stream]
  have hl : (frameOf p).length = 4 + p.length := by simp [frameOf, length_encBE]
  refine ⟨?_, fun h => by have := congrArg List.length h; omega⟩
  obtain ⟨ub, r1, r2⟩ := receive_ok (c := c) (w := w) (bs := frameOf p) (by intro h; rw [h] at hl; simp at hl; omega) hfit
  have hpr : w.procs (e + 1) = ⟨true, (w.procs (e + 1)).kind⟩ := by rw [← hfr.2]
  have hpe : w.procs e = ⟨true, .echo⟩ := by rw [← hen, ← hk]
  obtain ⟨s1, g1, g2, g3, g4⟩ := frame_single (fuel := fuel + 2) (ctx := { Ctx.new with conn := some c, buf := some ub }) hp
    (by rw [hst]; exact h32) ⟨c, rfl, hbytes⟩ ⟨ub, rfl, r1.1, by rw [r1.data, hst]⟩ hid
  obtain ⟨cc, hcc⟩ := hfr.1
  have hb1 := Buf.of_good g1
  have hc1 : (view s1).content = p := g2
  have hh1 : (view s1).head = 0 := by have := hb1.headW; omega
  obtain ⟨s2, b2, dn⟩ := frameUpper_fail (w := w) (ctx := { Ctx.new with conn := some c, buf := some s1 }) (c := c) rfl hbytes rfl hb1 (by omega)
  obtain ⟨s3, r3⟩ := lowerDeckUpper_ok (w := w) (ctx := { Ctx.new with conn := some c, buf := some s2 }) (c := c) rfl hbytes hconn rfl b2
    (by rw [hc1]; exact hp) (by rw [hc1]; exact herr) (by rw [hc1]; exact hlen)
  have hrun : call (fuel + 4) .up (e + 1) { Ctx.new with conn := some c, buf := some s1 } w =
      (.ok { Ctx.new with conn := some c, buf := some s3 }, w.wrote c (view s1).content) := by
    rw [call_up (by omega), hpe]
    show call (fuel + 3) .down (e + 1 + 1) _ w = _
    rw [call_down (by omega), hpr, hcc]
    refine (dn _).trans ?_
    show call (fuel + 2) .down (e + 1 + 1 + 1) _ w = _
    rw [show e + 1 + 1 + 1 = w.n + 1 by omega, call_bottom]
    exact r3
  have mv : Moved [.wire c p (w.write w.trace c p)] w (w.wrote c (view s1).content) := by
    rw [hc1]; exact Moved.obs w _
  obtain ⟨w2, m2, run2⟩ := g4 (nbAt (fuel + 4) (e + 2)) _ _ hrun (mv.idle _ hid)
  refine ⟨w2, ?_, by simpa using mv.trans m2.1⟩
  have hup : call (fuel + 5) .up w.n { Ctx.new with conn := some c, buf := some ub } w = (.ok { Ctx.new with conn := some c, buf := some s3 }, w2) := by
    rw [← he, call_up (by omega), hpr, hcc]
    exact run2
  rw [r2, bind_of_ok hup]
  rfl

example : ∃ w', receive 5 0 [0, 0, 0, 1, 9] (echoOver (.frame (some UBuf.demo))) = (.ok (), w') ∧
    Moved [.wire 0 [9] ⟨1, none⟩] (echoOver (.frame (some UBuf.demo))) w' :=
  (c28_frame_violated (echoOver (.frame (some UBuf.demo))) 1 rfl rfl rfl ⟨⟨_, rfl⟩, rfl⟩ ⟨UBuf.demo, rfl, demo_buf.1, demo_buf.data⟩
    [9] (by decide) (by decide) (by decide) 0 rfl rfl rfl (by decide) 0).1

/-- The LoadBalancer answers with another tag. -/
theorem c28_load_balancer_violated : (receive 20 0 [0, 9] (echoOver .loadBalancer)).2.trace = [.wire 0 [0x11, 9] ⟨2, none⟩] := by
  rfl

/-- The Heartbeat processor passes data with an unknown tag and answers with tag 0. -/
theorem c28_tag_violated : (receive 20 0 [5, 9] (echoOver .heartbeat)).2.trace = [.wire 0 [0, 9] ⟨2, none⟩] := by
  rfl

/-! ## C29: Loopback -/

/-- What comes back at a Loopback, with the session that arrives. -/
theorem loopback_returns (w : World) (hbuilt : Built w) (k m : Nat) (hl : k + 1 + m < w.n) (hk : (w.procs (k + 1 + m)).kind = .loopback)
    (hquiet : ∀ j, j < k → Quiet (w.procs j)) (hen : (w.procs k).enable = true)
    (hopen : ∀ j, k < j → j < k + 1 + m → Opens (w.procs j)) (hidle : ∀ j, k < j → j < k + 1 + m → Frames (w.procs j) → Idle j w)
    (v : Val) (b : List Byte) (hcode : CodedBy (w.mtu - w.overhead).toNat (w.procs k).kind v b) (hb : b ≠ [])
    (hfit : w.overhead + b.length ≤ w.mtu) (hmtu : w.mtu < 2 ^ 32)
    (s : Int) (c : ConnId) (hbytes : (w.conns c).useRef = false) (ep : EpId)
    (hep : ((∃ j, k < j ∧ j < k + 1 + m ∧ Resolves (w.procs j)) ∧ findEndPoint w.served (s % 2 ^ 32) = some ep) ∨
      ((∀ j, k < j → j < k + 1 + m → ¬ Resolves (w.procs j)) ∧ findEndPoint w.served s = some ep))
    (fuel : Nat) (hf : 2 * w.n + 4 ≤ fuel) :
    ∃ w', send fuel (some c) v s w = (.ok (), w') ∧ Moved [.rx ep (some c) v] w w' := by
  obtain ⟨f, rfl⟩ : ∃ f, fuel = f + 3 + k + 1 + m + 1 + m + 1 + k := ⟨fuel - (2 * k + 2 * m + 6), by omega⟩
  let ctx0 : Ctx := ({ Ctx.new with conn := some c, msg := v } : Ctx).setOption "session" (.int s)
  have hby : OnBytes ctx0 w := ⟨c, rfl, hbytes⟩
  have h1 := quiet_segment_down k 0 (f + 3 + k + 1 + m + 1 + m + 1) ctx0 w (by omega) (fun j _ h => hquiet j (by omega)) hby
  obtain ⟨ub, w1, m1, g1, e1, r1⟩ := c20_head_room_partial w hbuilt k m (f + 3 + k + 1 + m + 1) (by omega) v b hen hcode hb
    hfit (fun j h1 h2 => (hopen j (by omega) (by omega)).passes) ctx0 hby rfl
  have hs0 : sessionOf ctx0 = s := rfl
  rw [hs0] at e1
  have hturn : call (f + 3 + k + 1 + m + 1) .down (k + m + 2) { ctx0 with buf := some ub } w1 =
      call (f + 3 + k + 1 + m) .up (k + 1 + m) { ctx0 with buf := some ub } w1 := by
    rw [show k + m + 2 = k + 1 + m + 1 by omega, call_down (by rw [m1.n]; exact hl)]
    have h2 := (m1.same (k + 1 + m)).2
    rw [hk] at h2
    have h3 : (w1.procs (k + 1 + m)).kind = .loopback := by
      generalize (w1.procs (k + 1 + m)).kind = k at h2
      cases k <;> simp_all [Kind.Same]
    simp only [onUpper, h3]
    rfl
  have hwl := wrap_length (seg w (k + 1) m) s b
  have hrl := hbuilt.room_le (a := k + 1) (m := m) (by omega)
  obtain ⟨ctx', w2, m2, car2, conn2, ses2, _, up2⟩ := segment_open s b hb (k + 1) m (f + 3 + k + 1) { ctx0 with buf := some ub } w1
    (by omega) (by rw [m1.n]; omega) (fun j h1 h2 => (m1.same j).opens (hopen j (by omega) (by omega)))
    (fun j h1 h2 h3 => m1.idle j (hidle j (by omega) (by omega) ((m1.same j).frames h3))) ⟨c, rfl, by rw [m1.conns]; exact hbytes⟩
    ⟨ub, rfl, g1, by rw [wrap_same m1.same, e1]⟩ (by rw [wrap_same m1.same]; omega)
  have m12 : Moved [] w w2 := by simpa using m1.trans m2
  have hses : findEndPoint w.served (sessionOf ctx') = some ep := by
    rcases ses2 with ⟨⟨j, j1, j2, j3⟩, h⟩ | ⟨hno, h⟩
    · rcases hep with ⟨_, hep⟩ | ⟨hno, _⟩
      · rw [h]; exact hep
      · exact absurd (SameProc.resolves ⟨(m1.same j).1.symm, (m1.same j).2.symm⟩ j3) (hno j (by omega) (by omega))
    · rcases hep with ⟨⟨j, j1, j2, j3⟩, _⟩ | ⟨_, hep⟩
      · exact absurd ((m1.same j).resolves j3) (hno j (by omega) (by omega))
      · rw [h]; exact hep
  have hcode2 : CodedBy (w2.mtu - w2.overhead).toNat (w2.procs k).kind v b := by
    rw [m12.mtu, m12.overhead]; exact hcode.same (m12.same k).2
  obtain ⟨s', up3⟩ := hcode2.up k (f + 3 + k) (nbAt (f + 3 + k) (k + 1)) ctx' car2 hb (by rw [m12.overhead]; exact hbuilt.ov)
    (by rw [m12.overhead, m12.mtu]; exact hfit)
  have hcall : call (f + 3 + k + 1) .up (k + 1) ctx' w2 = (.ok { ctx' with buf := some s', msg := v }, { w2 with trace := w2.trace ++ [.rx ep (some c) v] }) := by
    have hen2 : (w2.procs k).enable = true := (m12.same k).1.trans hen
    have hp : w2.procs k = ⟨true, (w2.procs k).kind⟩ := by rw [← hen2]
    rw [call_up (by rw [m12.n]; omega), hp, up3]
    refine (quiet_segment_up k (f + 3 + k) { ctx' with buf := some s', msg := v } w2 (by rw [m12.n]; omega) (fun j hj => (m12.same j).quiet (hquiet j hj))
      ⟨c, conn2, by rw [m12.conns]; exact hbytes⟩ (by simp) (by omega)).trans ?_
    rw [upperDeckLower_rx hcode.ne_nil (ep := ep) (by
      rw [sessionOf_eq]
      show findEndPoint w2.served (sessionOf ctx') = some ep
      rw [m12.served]; exact hses)]
    have hc : ctx'.conn = some c := conn2
    show (Res.ok _, ({ w2 with trace := w2.trace ++ [.rx ep ctx'.conn v] } : World)) = _
    rw [hc]
  obtain ⟨w3, t1, t2⟩ := up2 _ _ _ hcall (Moved.obs w2 _)
  refine ⟨w3, ?_, by simpa using m1.trans t2⟩
  simp only [send]
  rw [Nat.zero_add, Nat.zero_add, r1, hturn, t1] at h1
  rw [bind_of_ok h1]
  rfl

/-- With a Loopback at `k + 1 + m`, an enabled codec at `k`, silent processors above and header processors in between,
a message comes back to the endpoint of its destination session, once and equal; nothing else is observable, so
nothing is written.  Missing from the full claim: other processors above the Loopback (a second enabled codec, an
enabled LoadBalancer or Echo: `c29_load_balancer_violated`, `c35_echo_over_loopback`), sessions that do not fit in
the header. -/
theorem c29_loopback_partial (w : World) (hbuilt : Built w) (k m : Nat) (hl : k + 1 + m < w.n) (hk : (w.procs (k + 1 + m)).kind = .loopback)
    (hquiet : ∀ j, j < k → Quiet (w.procs j)) (hen : (w.procs k).enable = true)
    (hopen : ∀ j, k < j → j < k + 1 + m → Opens (w.procs j)) (hidle : ∀ j, k < j → j < k + 1 + m → Frames (w.procs j) → Idle j w)
    (v : Val) (b : List Byte) (hcode : CodedBy (w.mtu - w.overhead).toNat (w.procs k).kind v b) (hb : b ≠ [])
    (hfit : w.overhead + b.length ≤ w.mtu) (hmtu : w.mtu < 2 ^ 32)
    (s : Int) (hs : (∃ j, k < j ∧ j < k + 1 + m ∧ Resolves (w.procs j)) → 0 ≤ s ∧ s < 2 ^ 32)
    (c : ConnId) (hbytes : (w.conns c).useRef = false) (ep : EpId) (hep : findEndPoint w.served s = some ep)
    (fuel : Nat) (hf : 2 * w.n + 4 ≤ fuel) :
    ∃ w', send fuel (some c) v s w = (.ok (), w') ∧ Moved [.rx ep (some c) v] w w' := by
  refine loopback_returns w hbuilt k m hl hk hquiet hen hopen hidle v b hcode hb hfit hmtu s c hbytes ep ?_ fuel hf
  by_cases h : ∃ j, k < j ∧ j < k + 1 + m ∧ Resolves (w.procs j)
  · obtain ⟨b1, b2⟩ := hs h
    exact .inl ⟨h, by rw [Int.emod_eq_of_lt b1 b2]; exact hep⟩
  · exact .inr ⟨fun j j1 j2 j3 => h ⟨j, j1, j2, j3⟩, hep⟩

/-- Bytes, session and frame above a Loopback; a stat counter below it. -/
def loopDemo : World :=
  { five with overhead := 9, procs := fun i => match i with
    | 0 => ⟨true, .bytesCodec⟩ | 1 => ⟨true, .session⟩ | 2 => ⟨true, .frame (some UBuf.demo)⟩ | 3 => ⟨true, .loopback⟩
    | _ => ⟨true, .stat 0 0⟩ }

example : ∃ w', send 20 (some 0) (.bytes [9]) 3 loopDemo = (.ok (), w') ∧ Moved [.rx 7 (some 0) (.bytes [9])] loopDemo w' := by
  refine c29_loopback_partial loopDemo rfl 0 2 (by decide) rfl (fun j h => absurd h (by omega)) rfl (fun j h1 h2 => ?_)
    (fun j h1 h2 h3 => ?_) _ [9] (.bytes [9]) (by decide) (by decide) (by decide) 3 (fun _ => ⟨by decide, by decide⟩) 0 rfl 7 rfl 20 (by decide)
  · match j, h1, h2 with
    | 1, _, _ => trivial
    | 2, _, _ => trivial
  · match j, h1, h2, h3 with
    | 1, _, _, ⟨⟨c, h⟩, _⟩ => cases h
    | 2, _, _, _ => exact ⟨UBuf.demo, rfl, demo_buf.1, demo_buf.data⟩

/-- Not visible to a peer. -/
def Local (o : Obs) : Prop := (∀ c p r, o ≠ .wire c p r) ∧ (∀ c v, o ≠ .ref c v) ∧ ∀ c, o ≠ .closed c

/-- A Loopback at `l` stays, and everything below it is left alone. -/
def Inside (l : Nat) (w w' : World) : Prop :=
  (l < w.n ∧ (w.procs l).kind = .loopback) → (l < w'.n ∧ (w'.procs l).kind = .loopback) ∧ w'.conns = w.conns ∧
    (∃ t, w'.trace = w.trace ++ t ∧ ∀ o ∈ t, Local o) ∧ ∀ j, l ≤ j → w'.procs j = w.procs j

theorem Inside.refl (l : Nat) (w : World) : Inside l w w := fun h => ⟨h, rfl, ⟨[], by simp, by simp⟩, fun _ _ => rfl⟩

theorem Inside.one {l : Nat} {w : World} {o : Obs} (h : Local o) : Inside l w { w with trace := w.trace ++ [o] } :=
  fun hl => ⟨hl, rfl, ⟨[o], rfl, by simpa using h⟩, fun _ _ => rfl⟩

theorem Inside.allows (l : Nat) : Allows (Inside l) fun i => i ≤ l := by
  refine ⟨.refl l, fun h1 h2 h => ?_, fun w i k hi hk h => ?_, fun w i c _ => .one (by simp [Local]), fun w i t r n _ => .one (by simp [Local])⟩
  · obtain ⟨a1, a2, ⟨t1, a3, a4⟩, a5⟩ := h1 h
    obtain ⟨b1, b2, ⟨t2, b3, b4⟩, b5⟩ := h2 a1
    refine ⟨b1, b2.trans a2, ⟨t1 ++ t2, by rw [b3, a3, List.append_assoc], fun o ho => ?_⟩, fun j hj => (b5 j hj).trans (a5 j hj)⟩
    rcases List.mem_append.mp ho with h | h
    · exact a4 o h
    · exact b4 o h
  · have hsame : ∀ j, l ≤ j → (w.setKind i k).procs j = w.procs j := by
      intro j hj
      by_cases e : j = i
      · have : i = l := by omega
        subst this
        subst e
        rw [setKind_self]
        rw [h.2] at hk
        have : k = .loopback := by cases k <;> simp_all [Kind.Same]
        rw [this, ← h.2]
      · simp only [World.setKind, if_neg e]
    exact ⟨⟨h.1, by rw [hsame l (Nat.le_refl _)]; exact h.2⟩, rfl, ⟨[], by simp [World.setKind], by simp⟩, hsame⟩

/-- With a Loopback anywhere in the stack, whatever else is in it and whatever an endpoint sends: nothing is
written to a connection, no connection is closed and no processor below the Loopback is touched. -/
theorem c29_nothing_below (l : Nat) (w : World) (hn : l < w.n) (hk : (w.procs l).kind = .loopback) (fuel : Nat) (conn : Option ConnId)
    (v : Val) (s : Int) :
    (send fuel conn v s w).2.conns = w.conns ∧ (∃ t, (send fuel conn v s w).2.trace = w.trace ++ t ∧ ∀ o ∈ t, Local o) ∧
      ∀ j, l ≤ j → (send fuel conn v s w).2.procs j = w.procs j := by
  have H := Inside.allows l
  have key : ∀ fuel dir pos, pos ≤ l + 1 → KpH (Inside l) (call fuel dir pos) := by
    intro fuel dir pos hpos
    refine call_keeps (R := fun x => x ≤ l + 1) H (fun i hi => by omega) (fun w => ?_) (fun _ ctx => ?_)
      (fun w ctx ⟨pos, h1, h2⟩ => fun h => by omega) fuel dir pos hpos
    · by_cases hw : l < w.n ∧ (w.procs l).kind = .loopback
      · left
        refine ⟨fun i h1 h2 _ => by omega, fun i h1 h2 _ => ?_⟩
        have : i = l := by omega
        subst this; exact hw.2
      · exact .inr fun w' h => absurd h hw
    · simp only [upperDeckLower]
      refine .ite (.pure H _) (.bind H (.get H) fun w => ?_)
      split
      · exact .pure H _
      · exact .bind H (fun w => .one (by simp [Local])) fun _ => .pure H _
  have : Inside l w (send fuel conn v s w).2 := by
    simp only [send]
    exact Kp.bind H (key fuel .down 1 (by omega) _) (fun _ => .pure H _) w
  exact (this ⟨hn, hk⟩).2

example : 3 < loopDemo.n ∧ (loopDemo.procs 3).kind = .loopback := ⟨by decide, rfl⟩

/-- An enabled LoadBalancer above a Loopback drops what comes back: its own tag is not 0. -/
theorem c29_load_balancer_violated :
    (send 20 (some 0) (.bytes [9]) 0 { quiet with n := 3, served := [(7, 0)], procs := fun i =>
      if i = 0 then ⟨true, .bytesCodec⟩ else if i = 1 then ⟨true, .loadBalancer⟩ else ⟨true, .loopback⟩ }) =
    (.ok (), { quiet with n := 3, served := [(7, 0)], procs := fun i =>
      if i = 0 then ⟨true, .bytesCodec⟩ else if i = 1 then ⟨true, .loadBalancer⟩ else ⟨true, .loopback⟩ }) := by
  rfl

/-! ## C34: reference connections -/

def OnRef (ctx : Ctx) (w : World) : Prop := ∃ c, ctx.conn = some c ∧ (w.conns c).useRef = true

/-- Processors that hand an object down on a reference connection. -/
def RefDown (p : Proc) : Prop :=
  match p.kind with
  | .base | .loopback | .frame _ => False
  | .bytesCodec | .stringCodec | .jsonCodec _ _ | .genericCodec _ _ | .gobCodec _ _ | .session => p.enable = false
  | .filter _ _ _ | .forwarder _ _ _ => p.enable = false
  | _ => True

/-- Processors that hand an object up on a reference connection. -/
def RefUp (p : Proc) : Prop :=
  match p.kind with
  | .base | .loopback => False
  | .bytesCodec | .stringCodec | .jsonCodec _ _ | .genericCodec _ _ | .gobCodec _ _ | .session => p.enable = false
  | .filter _ _ _ | .forwarder _ _ _ | .echo | .discarder => p.enable = false
  | _ => True

theorem RefDown.down {p : Proc} (h : RefDown p) (i : Nat) {ctx : Ctx} {w : World} (hr : OnRef ctx w) :
    Down (fun nb => onUpper i p nb ctx w) ctx w := by
  obtain ⟨en, k⟩ := p
  obtain ⟨c, hc, hu⟩ := hr
  have hur : useReference ctx.conn w = (.ok true, w) := by rw [hc, useReference_some, hu]
  cases k <;> simp only [RefDown] at h <;> first | exact h.elim | (subst h; exact fun nb => rfl) | exact fun nb => rfl | skip
  · intro nb; simp only [onUpper, statUpper]; rw [bind_of_ok hur]; rfl
  · intro nb; simp only [onUpper, heartbeatUpper]; rw [bind_of_ok hur]; rfl
  · intro nb; simp only [onUpper, loadBalancerUpper]; rw [bind_of_ok hur]; rfl

theorem RefUp.up {p : Proc} (h : RefUp p) (fuel i : Nat) {ctx : Ctx} {w : World} (hr : OnRef ctx w) :
    Up (fun nb => onLower fuel i p nb ctx w) ctx w := by
  obtain ⟨en, k⟩ := p
  obtain ⟨c, hc, hu⟩ := hr
  have hur : useReference ctx.conn w = (.ok true, w) := by rw [hc, useReference_some, hu]
  cases k <;> simp only [RefUp] at h <;> first | exact h.elim | (subst h; exact fun nb => rfl) | exact fun nb => rfl | skip
  · intro nb; simp only [onLower, frameLower]; rw [bind_of_ok hur]; rfl
  · intro nb; simp only [onLower, statLower]; rw [bind_of_ok hur]; rfl
  · intro nb; simp only [onLower, heartbeatLower]; rw [bind_of_ok hur]; rfl
  · intro nb; simp only [onLower, loadBalancerLower]; rw [bind_of_ok hur]; rfl

theorem ref_segment_down (m : Nat) : ∀ (a fuel : Nat) (ctx : Ctx) (w : World), a + m ≤ w.n →
    (∀ j, a ≤ j → j < a + m → RefDown (w.procs j)) → OnRef ctx w →
    call (fuel + m) .down (a + 1) ctx w = call fuel .down (a + m + 1) ctx w := by
  induction m with
  | zero => intros; rfl
  | succ m ih =>
    intro a fuel ctx w hn hq hb
    rw [← Nat.add_assoc, call_down (by omega)]
    refine ((hq a (by omega) (by omega)).down a hb _).trans ?_
    rw [show a + (m + 1) + 1 = a + 1 + m + 1 by omega]
    exact ih (a + 1) fuel ctx w (by omega) (fun j h1 h2 => hq j (by omega) (by omega)) hb

theorem ref_segment_up (a m : Nat) : ∀ (fuel : Nat) (ctx : Ctx) (w : World), a + m ≤ w.n →
    (∀ j, a ≤ j → j < a + m → RefUp (w.procs j)) → OnRef ctx w →
    call (fuel + m) .up (a + m) ctx w = call fuel .up a ctx w := by
  induction m with
  | zero => intros; rfl
  | succ m ih =>
    intro fuel ctx w hn hq hb
    rw [← Nat.add_assoc, ← Nat.add_assoc, call_up (by omega)]
    refine ((hq (a + m) (by omega) (by omega)).up (fuel + m) (a + m) hb _).trans ?_
    exact ih fuel ctx w (by omega) (fun j h1 h2 => hq j h1 (by omega)) hb

/-- On a reference connection, through processors that are transparent there: the object itself is set on the
connection, and an object received is delivered to the endpoint of session 0, itself; nothing else changes.  Missing
from the full claim: enabled codecs and SessionResolvers drop received objects (`c34_dropped`), the destination
session is not carried (`c34_session_violated`), FrameDecoders do not pass objects down (`c34_frame_violated`,
`c35_frame_on_reference`). -/
theorem c34_reference_partial (v : Val) (hv : v ≠ .nil) (c : ConnId) (w : World) (href : (w.conns c).useRef = true) (fuel : Nat)
    (hf : w.n + 1 ≤ fuel) :
    ((∀ j, j < w.n → RefDown (w.procs j)) → (w.conns c).closed = false → ∀ s,
      send fuel (some c) v s w = (.ok (), { w with trace := w.trace ++ [.ref c v] })) ∧
    ((∀ j, j < w.n → RefUp (w.procs j)) → ∀ ep, findEndPoint w.served 0 = some ep →
      receiveRef fuel c v w = (.ok (), { w with trace := w.trace ++ [.rx ep (some c) v] })) := by
  obtain ⟨f, rfl⟩ : ∃ f, fuel = f + 1 + w.n := ⟨fuel - w.n - 1, by omega⟩
  refine ⟨fun hd hopen s => ?_, fun hu ep hep => ?_⟩
  · have h1 := ref_segment_down w.n 0 (f + 1) (({ Ctx.new with conn := some c, msg := v } : Ctx).setOption "session" (.int s)) w
      (by omega) (fun j _ h => hd j (by omega)) ⟨c, rfl, href⟩
    rw [show 0 + w.n + 1 = w.n + 1 by omega, call_bottom] at h1
    simp only [send]
    rw [Nat.zero_add] at h1
    have hset : setReference c v w = (.ok true, { w with trace := w.trace ++ [.ref c v] }) := by
      simp only [setReference]
      rw [bind_of_ok (get_apply w), hopen]
      simp only [Bool.false_eq_true, if_false, if_neg hv]
      rfl
    have h2 : lowerDeckUpper (({ Ctx.new with conn := some c, msg := v } : Ctx).setOption "session" (.int s)) w =
        (.ok (({ Ctx.new with conn := some c, msg := v } : Ctx).setOption "session" (.int s)), { w with trace := w.trace ++ [.ref c v] }) := by
      simp only [lowerDeckUpper, Ctx.setOption]
      rw [bind_of_ok (useReference_some c w), href]
      simp only [if_true]
      rw [bind_of_ok hset]
      rfl
    rw [h2] at h1
    rw [bind_of_ok h1]
    rfl
  · have h1 := ref_segment_up 0 w.n (f + 1) { Ctx.new with conn := some c, msg := v } w (by omega)
      (fun j _ h => hu j (by omega)) ⟨c, rfl, href⟩
    rw [Nat.zero_add, call_top] at h1
    simp only [receiveRef]
    rw [bind_of_ok (get_apply w), if_neg hv]
    rw [bind_of_ok (h1.trans (upperDeckLower_rx hv (ep := ep) (by exact hep)))]
    rfl

/-- A stack on reference connections. -/
def refDemo (k : Kind) : World :=
  { quiet with n := 2, served := [(7, 0)], conns := fun _ => ⟨true, false⟩, procs := fun i => if i = 0 then ⟨true, .heartbeat⟩ else ⟨true, k⟩ }

example : (∀ j, j < (refDemo (.stat 0 0)).n → RefDown ((refDemo (.stat 0 0)).procs j)) ∧
    (∀ j, j < (refDemo (.stat 0 0)).n → RefUp ((refDemo (.stat 0 0)).procs j)) ∧ findEndPoint (refDemo (.stat 0 0)).served 0 = some 7 := by
  refine ⟨fun j h => ?_, fun j h => ?_, rfl⟩ <;> match j, h with | 0, _ => trivial | 1, _ => trivial

/-- Codecs and the SessionResolver. -/
def NeedsBuf (k : Kind) : Prop :=
  match k with
  | .bytesCodec | .stringCodec | .jsonCodec _ _ | .genericCodec _ _ | .gobCodec _ _ | .session => True
  | _ => False

/-- An object received on a reference connection is dropped by an enabled codec or SessionResolver anywhere in the
stack, if it gets that far: nothing happens. -/
theorem c34_dropped (v : Val) (hv : v ≠ .nil) (c : ConnId) (w : World) (href : (w.conns c).useRef = true) (k : Nat) (hk : k < w.n)
    (hen : (w.procs k).enable = true) (hneed : NeedsBuf (w.procs k).kind) (hu : ∀ j, k < j → j < w.n → RefUp (w.procs j))
    (fuel : Nat) (hf : w.n + 1 ≤ fuel) : receiveRef fuel c v w = (.ok (), w) := by
  obtain ⟨f, rfl⟩ : ∃ f, fuel = f + 1 + (w.n - (k + 1)) := ⟨fuel - (w.n - (k + 1)) - 1, by omega⟩
  have h1 := ref_segment_up (k + 1) (w.n - (k + 1)) (f + 1) { Ctx.new with conn := some c, msg := v } w (by omega)
    (fun j h1 h2 => hu j (by omega) (by omega)) ⟨c, rfl, href⟩
  rw [show k + 1 + (w.n - (k + 1)) = w.n by omega, call_up hk] at h1
  have h2 : onLower f k (w.procs k) (nbAt f (k + 1)) { Ctx.new with conn := some c, msg := v } w = (.ok { Ctx.new with conn := some c, msg := v }, w) := by
    have hp : w.procs k = ⟨true, (w.procs k).kind⟩ := by rw [← hen]
    rw [hp]
    generalize (w.procs k).kind = kd at hneed
    cases kd <;> simp only [NeedsBuf] at hneed
    · rfl
    · rfl
    · rfl
    · rename_i e d; cases d <;> rfl
    · rfl
    · rfl
  simp only [receiveRef]
  rw [bind_of_ok (get_apply w), if_neg hv, bind_of_ok (h1.trans h2)]
  rfl

example : NeedsBuf ((refDemo .session).procs 1).kind ∧ ∀ j, 1 < j → j < (refDemo .session).n → RefUp ((refDemo .session).procs j) :=
  ⟨trivial, fun j h1 h2 => by simp only [refDemo] at h2; omega⟩

/-- The session an object was sent to does not reach the peer: without an endpoint of session 0 nothing is
delivered, whatever the other sessions. -/
theorem c34_session_violated (v : Val) (hv : v ≠ .nil) (c : ConnId) (w : World) (href : (w.conns c).useRef = true)
    (hu : ∀ j, j < w.n → RefUp (w.procs j)) (hep : findEndPoint w.served 0 = none) (fuel : Nat) (hf : w.n + 1 ≤ fuel) :
    receiveRef fuel c v w = (.ok (), w) := by
  obtain ⟨f, rfl⟩ : ∃ f, fuel = f + 1 + w.n := ⟨fuel - w.n - 1, by omega⟩
  have h1 := ref_segment_up 0 w.n (f + 1) { Ctx.new with conn := some c, msg := v } w (by omega)
    (fun j _ h => hu j (by omega)) ⟨c, rfl, href⟩
  rw [Nat.zero_add, call_top] at h1
  simp only [receiveRef]
  rw [bind_of_ok (get_apply w), if_neg hv, bind_of_ok (h1.trans (upperDeckLower_none hv (by exact hep)))]
  rfl

example : findEndPoint ({ refDemo (.stat 0 0) with served := [(7, 3), (8, 4)] }).served 0 = none := rfl

/-- A FrameDecoder as the topmost processor swallows objects sent on a reference connection, whether it is enabled or
not and whatever is below it. -/
theorem c34_frame_violated (v : Val) (s : Int) (c : ConnId) (w : World) (href : (w.conns c).useRef = true) (hn : 0 < w.n)
    (hk : ∃ cache, (w.procs 0).kind = .frame cache) (fuel : Nat) : send (fuel + 2) (some c) v s w = (.ok (), w) := by
  obtain ⟨cache, hk⟩ := hk
  simp only [send]
  have h1 : call (fuel + 2) .down 1 (({ Ctx.new with conn := some c, msg := v } : Ctx).setOption "session" (.int s)) w =
      (.ok (({ Ctx.new with conn := some c, msg := v } : Ctx).setOption "session" (.int s)), w) := by
    rw [show (1 : Nat) = 0 + 1 from rfl, call_down hn]
    simp only [onUpper, hk, frameUpper, Ctx.setOption]
    rw [bind_of_ok (useReference_some c w), href]
    rfl
  rw [bind_of_ok h1]
  rfl

/-! ## C35: termination -/

/-- An Echo directly above a Loopback: whatever reaches the Loopback goes back and forth forever. -/
theorem c35_echo_over_loopback (w : World) (i : Nat) (hn : i + 1 < w.n) (hen : (w.procs i).enable = true) (hk : (w.procs i).kind = .echo)
    (hl : (w.procs (i + 1)).kind = .loopback) (ctx : Ctx) (fuel : Nat) :
    call fuel .down (i + 2) ctx w = (.running, w) ∧ call fuel .up (i + 1) ctx w = (.running, w) := by
  induction fuel with
  | zero => exact ⟨rfl, rfl⟩
  | succ fuel ih =>
    constructor
    · rw [call_down (j := i + 1) hn]
      simp only [onUpper, hl]
      exact ih.2
    · rw [call_up (by omega)]
      simp only [onLower, hk, hen, if_true]
      exact ih.1

/-- A stack of Echo over Loopback never finishes sending anything. -/
theorem c35_send_never_returns (w : World) (hn : 1 < w.n) (hen : (w.procs 0).enable = true) (hk : (w.procs 0).kind = .echo)
    (hl : (w.procs 1).kind = .loopback) (conn : Option ConnId) (v : Val) (s : Int) (fuel : Nat) :
    send fuel conn v s w = (.running, w) := by
  have h : ∀ ctx, call fuel .down 1 ctx w = (.running, w) := by
    intro ctx
    cases fuel with
    | zero => rfl
    | succ fuel =>
      rw [show (1 : Nat) = 0 + 1 from rfl, call_down (by omega)]
      simp only [onUpper, hk]
      exact (c35_echo_over_loopback w 0 hn hen hk hl ctx fuel).1
  simp only [send, bind_apply]
  rw [h]

example : (0 + 1 < ({ quiet with n := 2, procs := fun i => if i = 0 then ⟨true, .echo⟩ else ⟨true, .loopback⟩ } : World).n) := by decide

/-- A FrameDecoder directly below a tagging processor calls it back on a reference connection, forever. -/
theorem c35_frame_on_reference (w : World) (i : Nat) (hn : i + 1 < w.n)
    (hk : (w.procs i).kind = .heartbeat ∨ (w.procs i).kind = .loadBalancer ∨ (∃ t r, (w.procs i).kind = .stat t r) ∨
      (w.procs i).kind = .echo ∨ (w.procs i).kind = .discarder ∨ (w.procs i).kind = .flow)
    (hl : ∃ cache, (w.procs (i + 1)).kind = .frame cache) (ctx : Ctx) (hr : OnRef ctx w) (fuel : Nat) :
    call fuel .down (i + 2) ctx w = (.running, w) ∧ call fuel .down (i + 1) ctx w = (.running, w) := by
  have hd : RefDown (w.procs i) := by
    rcases hk with h | h | ⟨t, r, h⟩ | h | h | h <;> simp [RefDown, h]
  obtain ⟨cache, hl⟩ := hl
  obtain ⟨c, hc, hu⟩ := id hr
  induction fuel with
  | zero => exact ⟨rfl, rfl⟩
  | succ fuel ih =>
    constructor
    · rw [call_down (j := i + 1) hn]
      simp only [onUpper, hl, frameUpper]
      rw [hc, bind_of_ok (useReference_some c w), hu]
      exact ih.2
    · rw [call_down (by omega)]
      exact (hd.down i hr _).trans ih.1

example : ∃ cache, ((refDemo (.frame none)).procs 1).kind = .frame cache ∧ ((refDemo (.frame none)).procs 0).kind = .heartbeat ∧
    OnRef { Ctx.new with conn := some 0 } (refDemo (.frame none)) := ⟨none, rfl, rfl, 0, rfl, rfl⟩

/-! ## C34, exactly -/

theorem RefUp.refDown {p : Proc} (h : RefUp p) (hf : ∀ c, p.kind ≠ .frame c) : RefDown p := by
  obtain ⟨en, k⟩ := p
  cases k <;> simp only [RefUp, RefDown] at h hf ⊢ <;> first | exact h | exact (hf _ rfl)

theorem frame_spins (w : World) (i : Nat) (hn : i + 1 < w.n) (hd : RefDown (w.procs i)) (hl : ∃ cache, (w.procs (i + 1)).kind = .frame cache)
    (ctx : Ctx) (hr : OnRef ctx w) (fuel : Nat) :
    call fuel .down (i + 2) ctx w = (.running, w) ∧ call fuel .down (i + 1) ctx w = (.running, w) := by
  obtain ⟨cache, hl⟩ := hl
  obtain ⟨c, hc, hu⟩ := id hr
  induction fuel with
  | zero => exact ⟨rfl, rfl⟩
  | succ fuel ih =>
    constructor
    · rw [call_down (j := i + 1) hn]
      simp only [onUpper, hl, frameUpper]
      rw [hc, bind_of_ok (useReference_some c w), hu]
      exact ih.2
    · rw [call_down (by omega)]
      exact (hd.down i hr _).trans ih.1

/-- An object on its way down below a processor that lets it pass, through processors that would let it up: it ends in the lower deck, or
spins at a FrameDecoder. -/
theorem ref_falls (w : World) (ctx : Ctx) (hr : OnRef ctx w) (m : Nat) : ∀ (i fuel : Nat), i + 1 + m = w.n → RefDown (w.procs i) →
    (∀ j, i < j → j < w.n → RefUp (w.procs j)) →
    call fuel .down (i + 2) ctx w = (.running, w) ∨ call fuel .down (i + 2) ctx w = lowerDeckUpper ctx w := by
  induction m with
  | zero =>
    intro i fuel hn _ _
    cases fuel with
    | zero => exact .inl rfl
    | succ f =>
      right
      rw [show i + 2 = w.n + 1 by omega]
      exact call_bottom
  | succ m ih =>
    intro i fuel hn hd hu
    by_cases hf : ∃ c, (w.procs (i + 1)).kind = .frame c
    · exact .inl (frame_spins w i (by omega) hd hf ctx hr fuel).1
    · have hd' : RefDown (w.procs (i + 1)) := (hu (i + 1) (by omega) (by omega)).refDown fun c h => hf ⟨c, h⟩
      cases fuel with
      | zero => exact .inl rfl
      | succ f =>
        rw [call_down (j := i + 1) (by omega), show onUpper (i + 1) (w.procs (i + 1)) (nbAt f (i + 1 + 1)) ctx w = call f .down (i + 1 + 2) ctx w from
          hd'.down (i + 1) hr _]
        exact ih (i + 1) f (by omega) hd' fun j h1 h2 => hu j (by omega) h2

theorem last_bad {P : Nat → Prop} : ∀ {n : Nat}, (∃ j, j < n ∧ ¬ P j) → ∃ j, j < n ∧ ¬ P j ∧ ∀ k, j < k → k < n → P k := by
  intro n
  induction n with
  | zero => rintro ⟨j, h, _⟩; omega
  | succ n ih =>
    rintro ⟨j, h1, h2⟩
    by_cases hn : P n
    · have : j ≠ n := fun e => h2 (e ▸ hn)
      obtain ⟨k, k1, k2, k3⟩ := ih ⟨j, by omega, h2⟩
      refine ⟨k, by omega, k2, fun x h1 h2 => ?_⟩
      by_cases hx : x = n
      · exact hx ▸ hn
      · exact k3 x h1 (by omega)
    · exact ⟨n, by omega, hn, fun k h1 h2 => by omega⟩

/-- Filters and Forwarders that are enabled: what they do is up to the user's functions. -/
def UserFns (p : Proc) : Prop :=
  p.enable = true ∧ match p.kind with
    | .filter _ _ _ | .forwarder _ _ _ => True
    | _ => False

/-- **C34, exactly, on the receiving side** (no enabled Filter or Forwarder): an object received is handed to an endpoint iff every processor
lets objects pass and an endpoint of session 0 is served, and it is this endpoint then. -/
theorem c34_receive_iff (v : Val) (hv : v ≠ .nil) (c : ConnId) (w : World) (href : (w.conns c).useRef = true)
    (huser : ∀ j, j < w.n → ¬ UserFns (w.procs j)) (fuel : Nat) (hf : w.n + 1 ≤ fuel) (ep : EpId) :
    (∃ w', receiveRef fuel c v w = (.ok (), w') ∧ .rx ep (some c) v ∈ w'.trace.drop w.trace.length) ↔
      (∀ j, j < w.n → RefUp (w.procs j)) ∧ findEndPoint w.served 0 = some ep := by
  constructor
  · rintro ⟨w', h1, h2⟩
    have quiet : receiveRef fuel c v w = (.ok (), w) → False := by
      intro h
      rw [h] at h1
      injection h1 with _ h1
      subst h1
      simp at h2
    by_cases hall : ∀ j, j < w.n → RefUp (w.procs j)
    · refine ⟨hall, ?_⟩
      cases hep : findEndPoint w.served 0 with
      | none => exact (quiet (c34_session_violated v hv c w href hall hep fuel hf)).elim
      | some e =>
        rw [(c34_reference_partial v hv c w href fuel hf).2 hall e hep] at h1
        injection h1 with _ h1
        subst h1
        simp at h2
        rw [h2]
    · exfalso
      have hbad : ∃ j, j < w.n ∧ ¬ RefUp (w.procs j) := by
        apply Classical.byContradiction
        intro h
        exact hall fun j hj => Classical.byContradiction fun hb => h ⟨j, hj, hb⟩
      obtain ⟨k, hk, hb, hu⟩ := last_bad hbad
      obtain ⟨f, rfl⟩ : ∃ f, fuel = f + 1 + (w.n - (k + 1)) := ⟨fuel - (w.n - (k + 1)) - 1, by omega⟩
      have e1 := ref_segment_up (k + 1) (w.n - (k + 1)) (f + 1) { Ctx.new with conn := some c, msg := v } w (by omega)
        (fun j h1 h2 => hu j (by omega) (by omega)) ⟨c, rfl, href⟩
      rw [show k + 1 + (w.n - (k + 1)) = w.n by omega, call_up hk] at e1
      have hstop : onLower f k (w.procs k) (nbAt f (k + 1)) { Ctx.new with conn := some c, msg := v } w = (.ok { Ctx.new with conn := some c, msg := v }, w) →
          False := by
        intro h
        apply quiet
        simp only [receiveRef]
        rw [bind_of_ok (get_apply w), if_neg hv, bind_of_ok (e1.trans h)]
        rfl
      have hk' := huser k hk
      by_cases hecho : (w.procs k).kind = .echo ∧ (w.procs k).enable = true
      · have hd : RefDown (w.procs k) := by simp [RefDown, hecho.1]
        have e2 : onLower f k (w.procs k) (nbAt f (k + 1)) { Ctx.new with conn := some c, msg := v } w =
            call f .down (k + 2) { Ctx.new with conn := some c, msg := v } w := by
          simp only [onLower, hecho.1, hecho.2, if_true]; rfl
        rw [e2] at e1
        simp only [receiveRef] at h1
        rw [bind_of_ok (get_apply w), if_neg hv] at h1
        rcases ref_falls w { Ctx.new with conn := some c, msg := v } ⟨c, rfl, href⟩ (w.n - (k + 1)) k f (by omega) hd hu with h | h
        · rw [h] at e1
          rw [bind_apply, e1] at h1
          cases h1
        · rw [h] at e1
          cases hcl : (w.conns c).closed with
          | false =>
            have hset : setReference c v w = (.ok true, { w with trace := w.trace ++ [.ref c v] }) := by
              simp only [setReference]
              rw [bind_of_ok (get_apply w), hcl]
              simp only [Bool.false_eq_true, if_false, if_neg hv]
              rfl
            have h3 : lowerDeckUpper { Ctx.new with conn := some c, msg := v } w =
                (.ok { Ctx.new with conn := some c, msg := v }, { w with trace := w.trace ++ [.ref c v] }) := by
              simp only [lowerDeckUpper]
              rw [bind_of_ok (useReference_some c w), href]
              simp only [if_true]
              rw [bind_of_ok hset]
              rfl
            rw [bind_of_ok (e1.trans h3)] at h1
            injection h1 with _ h1
            subst h1
            simp at h2
          | true =>
            have hset : setReference c v w = (.ok false, w) := by
              simp only [setReference]
              rw [bind_of_ok (get_apply w), hcl]
              rfl
            have h3 : ∃ w2, lowerDeckUpper { Ctx.new with conn := some c, msg := v } w = (.ok { Ctx.new with conn := some c, msg := v }, w2) ∧
                w2.trace = w.trace ++ [.closed c] := by
              simp only [lowerDeckUpper]
              rw [bind_of_ok (useReference_some c w), href]
              simp only [if_true]
              rw [bind_of_ok hset]
              exact ⟨_, rfl, rfl⟩
            obtain ⟨w2, h3, h4⟩ := h3
            rw [bind_of_ok (e1.trans h3)] at h1
            injection h1 with _ h1
            have h1 : w2 = w' := h1
            subst h1
            rw [h4] at h2
            simp at h2
      · apply hstop
        generalize w.procs k = p at hb hk' hecho
        obtain ⟨en, kd⟩ := p
        cases en <;> cases kd <;> simp only [RefUp, UserFns, true_and, not_true_eq_false, Bool.false_eq_true, false_and] at hb hk' hecho <;>
          first | rfl | (rename_i e d; cases d <;> rfl) | (simp at hecho; done) | (exact absurd trivial hb)
  · rintro ⟨h1, h2⟩
    refine ⟨_, (c34_reference_partial v hv c w href fuel hf).2 h1 ep h2, ?_⟩
    simp

/-- Two stacks: the object is handed up in the first and not in the second. -/
example : (∀ j, j < (refDemo (.stat 0 0)).n → ¬ UserFns ((refDemo (.stat 0 0)).procs j)) ∧
    (∀ j, j < (refDemo (.stat 0 0)).n → RefUp ((refDemo (.stat 0 0)).procs j)) ∧
    (∀ j, j < (refDemo .echo).n → ¬ UserFns ((refDemo .echo).procs j)) ∧ ¬ RefUp ((refDemo .echo).procs 1) := by
  refine ⟨fun j h => ?_, fun j h => ?_, fun j h => ?_, by simp [RefUp, refDemo]⟩ <;>
    match j, h with
    | 0, _ => simp [UserFns, RefUp, refDemo]
    | 1, _ => simp [UserFns, RefUp, refDemo]

end Verif.Stack
