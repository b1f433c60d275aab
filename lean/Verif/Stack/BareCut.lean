import Verif.Stack.ServerCut

/-!
# C103 for a whole server without a FrameDecoder

The counterpart of `Stack/ServerCut`: without an enabled FrameDecoder below the codec every read is one packet for the stack.
-/

namespace Verif.Stack
open GoM UBuf

/-- A running stack with the codec for byte slices or strings at `k` and no enabled FrameDecoder below it. -/
structure Unframed (k : Nat) (w : World) : Prop extends Stand k w where
  unframed : ∀ j, k < j → j < w.n → ¬ Frames (w.procs j)

theorem Unframed.evolves {k : Nat} {w w' : World} (h : Unframed k w) (he : Evolves w w') : Unframed k w' :=
  ⟨h.toStand.evolves he, fun j h1 h2 h3 => h.unframed j h1 (by rw [← he.n]; exact h2) ((he.sameProc j).frames h3)⟩

theorem Unframed.lone {k : Nat} {w : World} {c : ConnId} (h : Unframed k w) (hb : (w.conns c).useRef = false) : Lone c k w.n w :=
  ⟨h.pos, Nat.le_refl _, h.quiet, h.codec, h.opens, h.unframed, hb⟩

/-- A computation that delivers nothing. -/
structure Hush (w w' : World) : Prop where
  ev : Evolves w w'
  silent : ∀ q, Deaf q → sight q w'.trace = sight q w.trace

theorem hush_ev {k fuel : Nat} {w : World} (hs : Stand k w) (e : SrvEv) (hby : (w.conns e.conn).useRef = false) (hne : ∀ c bs, e ≠ .read c bs) :
    Hush w (e.run fuel w).2 :=
  ev_by (M := Hush) e hne ⟨.refl w, fun _ _ => rfl⟩
    (fun pos ctx hp hc => ⟨call_evolves fuel .down pos ctx w,
      fun q hq => (emits_quiet hq (R := fun t => t = sight q w.trace) fuel pos ctx w hp hs hc hby rfl).1⟩)
    ⟨Evolves.close w _, fun q hq => mute_close hq _⟩

/-- One read: at most one delivery or sign of life, and not for less than it takes. -/
theorem bare_read {q : Obs → Bool} {c : ConnId} {k f : Nat} {w : World} (hq : Deaf q ∨ Statless k w) (hs : Unframed k w) (hby : (w.conns c).useRef = false)
    {bs : List Byte} (hne : bs ≠ []) (hfit : (bs.length : Int) ≤ w.mtu) (r : Res Unit) (w' : World) (hrun : receive f c bs w = (r, w')) :
    Evolves w w' ∧ ∃ os, sight q w'.trace = sight q w.trace ++ os ∧ Below c (need w k (w.n - (k + 1))) os [bs] := by
  obtain ⟨ub, h1, h2⟩ := receive_ok (c := c) (w := w) hne hfit
  have hn := hs.pos
  have hev := call_evolves f .up w.n { Ctx.new with conn := some c, buf := some ub } w
  have hem := emits_up (q := q) (c := c) (R := fun t => ∃ os, t = sight q w.trace ++ os ∧ Below c (need w k (w.n - (k + 1))) os [bs]) (k := k) (a := w.n) f
    (w.n - (k + 1)) bs.length { Ctx.new with conn := some c, buf := some ub } w hq (by omega) (hs.lone hby) rfl
    (.of ⟨h1.1, by rw [h1.data]; exact Nat.le_refl _⟩ rfl) ⟨[], by simp, .none _⟩ (fun o ho hl => ⟨sight q [o], by rw [sight_append], by
      cases hqo : q o with
      | true => simp only [sight, List.filter_cons, hqo, if_true, List.filter_nil]; exact .take bs ho hl .nil
      | false => simp only [sight, List.filter_cons, hqo, Bool.false_eq_true, if_false, List.filter_nil]; exact .none _⟩)
  rw [show k + 1 + (w.n - (k + 1)) = w.n by omega] at hem
  have hem := hem.1
  rw [h2, bind_apply] at hrun
  rcases hc : call f .up w.n { Ctx.new with conn := some c, buf := some ub } w with ⟨r1, w1⟩
  rw [hc] at hrun hev hem
  cases r1 <;> cases hrun <;> exact ⟨hev, hem⟩

theorem Below.filter {c : ConnId} {N : Obs → Nat} {os : List Obs} {ps : List (List Byte)} (f : Obs → Bool) (h : Below c N os ps) : Below c N (os.filter f) ps := by
  induction h with
  | nil => exact .nil
  | skip p _ ih => exact .skip p ih
  | @take o _ _ p ho hl _ ih =>
    rw [List.filter_cons]
    split
    · exact .take p ho hl ih
    · exact .skip p ih

/-- On each connection every read gives at most one delivery or sign of life, in this order. -/
theorem bare_server_below {q : Obs → Bool} (hq : Deaf q) {k fuel : Nat} (es : List SrvEv) : ∀ (w : World), Unframed k w → Reads w es → ByteConns w es →
    ∃ os, sight q (runAll fuel es w).2.trace = sight q w.trace ++ os ∧
      ∀ c, Below c (need w k (w.n - (k + 1))) (signsOn q c os) (readsOn c es) := by
  induction es with
  | nil => intro w _ _ _; exact ⟨[], by simp [runAll], fun c => .nil⟩
  | cons e es ih =>
    intro w hs hr hb
    rw [runAll_cons]
    have hrest : ∀ {w1 : World}, Evolves w w1 → Reads w1 es ∧ ByteConns w1 es := fun he =>
      ⟨fun c bs h => by rw [he.mtu]; exact hr c bs (by simp [h]), fun e h => by rw [he.useRef]; exact hb e (by simp [h])⟩
    by_cases hne : ∀ c bs, e ≠ .read c bs
    · have hm := hush_ev (fuel := fuel) hs.toStand e (hb e (by simp)) hne
      rcases hrun : e.run fuel w with ⟨r, w1⟩
      rw [hrun] at hm
      have hro : ∀ c, readsOn c (e :: es) = readsOn c es := fun c => by rw [readsOn, allReads_other hne, readsOn]
      cases r with
      | ok x =>
        obtain ⟨os, a1, a2⟩ := ih w1 (hs.evolves hm.ev) (hrest hm.ev).1 (hrest hm.ev).2
        rw [need_evolves hm.ev, hm.ev.n] at a2
        exact ⟨os, by simp only; rw [a1, hm.silent q hq], fun c => by rw [hro]; exact a2 c⟩
      | panic => exact ⟨[], by simp only; rw [hm.silent q hq]; simp, fun c => .none _⟩
      | running => exact ⟨[], by simp only; rw [hm.silent q hq]; simp, fun c => .none _⟩
    · obtain ⟨c, bs, rfl⟩ : ∃ c bs, e = .read c bs := by
        apply Classical.byContradiction
        intro h
        exact hne fun c bs e => h ⟨c, bs, e⟩
      obtain ⟨hbs, hfit⟩ := hr c bs (by simp)
      rcases hrun : (SrvEv.read c bs).run fuel w with ⟨r, w1⟩
      obtain ⟨h2, os, h3, h4⟩ := bare_read (q := q) (c := c) (.inl hq) hs (hb _ (List.mem_cons_self ..)) hbs hfit r w1 hrun
      have hhead : ∀ {ps : List (List Byte)} {os' : List Obs} (c' : ConnId), Below c' (need w k (w.n - (k + 1))) (signsOn q c' os') ps →
          Below c' (need w k (w.n - (k + 1))) (signsOn q c' (os ++ os')) (if c = c' then bs :: ps else ps) := by
        intro ps os' c' h
        rw [signsOn_append]
        by_cases e : c = c'
        · subst e
          rw [if_pos rfl]
          exact (h4.filter _).append h
        · have : signsOn q c' os = [] := by
            rw [signsOn, List.filter_eq_nil_iff]
            intro o ho
            rw [(h4.conn o ho).signFor]
            simp [e]
          rw [if_neg e, this]
          exact h
      have hstop : ∀ c', Below c' (need w k (w.n - (k + 1))) (signsOn q c' os) (readsOn c' (.read c bs :: es)) := by
        intro c'
        rw [readsOn_read]
        simpa using hhead (os' := []) c' (.none (readsOn c' es))
      cases r with
      | ok x =>
        obtain ⟨os', a1, a2⟩ := ih w1 (hs.evolves h2) (hrest h2).1 (hrest h2).2
        rw [need_evolves h2, h2.n] at a2
        refine ⟨os ++ os', by simp only; rw [a1, h3, List.append_assoc], fun c' => ?_⟩
        rw [readsOn_read]
        exact hhead c' (a2 c')
      | panic => exact ⟨os, h3, hstop⟩
      | running => exact ⟨os, h3, hstop⟩

/-- What arrives needs all of it. -/
theorem need_arrives {w : World} {k : Nat} (hs : Stand k w) {p : Packet} (hp : p.Ok w w k) (c : ConnId) :
    need w k (w.n - (k + 1)) (p.arrives c) = (p.bytes w k).length := by
  have hk := hs.pos
  have hlt := hp.lt
  cases p with
  | msg x =>
    have h1 := hp.1.codec
    have h3 : bulk (.rx x.ep (some c) x.v) = x.b.length := by
      obtain ⟨v, b, s, e⟩ := x
      simp only at h1 ⊢
      rcases hs.codec with e | e <;> rw [e] at h1 <;> cases h1 <;> rfl
    have h2 : (wire w k x.s x.b).length = hlens (seg w (k + 1) (w.n - (k + 1))) + x.b.length := wrap_weight _ _ _
    simp only [Packet.arrives, Packet.bytes, need, h2, h3]
    omega
  | beat x =>
    have := hlt x rfl
    have h1 := hp.1
    simp only [Packet.arrives, need, Packet.bytes, wrap_weight]
    rw [show k + 1 + (w.n - (k + 1)) - x = w.n - (x + 1) + 1 by omega, seg_succ]
    simp only [hlens, List.map_cons, List.sum_cons, hlen_heartbeat hp.2.2.1, List.length_cons, List.length_nil]
    omega

theorem Carrier.bare {k : Nat} {w w' : World} (h : Carrier w k) (hs : Unframed k w) (he : Evolves w w') : Carrier w' k := by
  have hs' := hs.evolves he
  refine ⟨hs'.pos, hs'.quiet, by rw [he.enable]; exact h.codecOn, hs'.opens, fun j h1 h2 h3 => absurd h3 (hs'.unframed j h1 h2), ?_, by rw [he.mtu]; exact h.mtu⟩
  rw [Built, he.overhead, he.n, room_same he.sameProc]
  exact h.built

theorem bytes_evolves {w w' : World} (he : Evolves w w') (k : Nat) : Packet.bytes w' k = Packet.bytes w k := by
  funext p
  have hn : w'.n = w.n := he.n
  cases p <;> simp only [Packet.bytes, wire, hn, wrap_same he.sameProc]

/-- If everything is seen then every read was one packet. -/
theorem bare_only {q : Obs → Bool} (hq : Deaf q) {k fuel : Nat} {es : List SrvEv} {w : World} {xs : ConnId → List Packet} (hs : Unframed k w) (hx : Brings q w k xs es)
    (hr : Reads w es) (hb : ByteConns w es) (hseen : Seen q w (runAll fuel es w).2 xs) (c : ConnId) : readsOn c es = (xs c).map (Packet.bytes w k) := by
  obtain ⟨os, h1, h2⟩ := bare_server_below hq (fuel := fuel) es w hs hr hb
  have h3 := hseen c
  rw [← signsOn_sight, h1, signsOn_append, signsOn_sight] at h3
  have h3 := List.append_cancel_left h3
  have h4 := h2 c
  rw [h3] at h4
  have hne : ∀ p ∈ readsOn c es, p ≠ [] := by
    intro p hp
    simp only [readsOn, List.mem_map, List.mem_filter] at hp
    obtain ⟨⟨c', p'⟩, ⟨hm, _⟩, rfl⟩ := hp
    have : ∀ es : List SrvEv, (c', p') ∈ allReads es → SrvEv.read c' p' ∈ es := by
      intro es
      induction es with
      | nil => intro h; cases h
      | cons e es ih =>
        intro h
        cases e with
        | read d bs =>
          rcases List.mem_cons.mp h with h | h
          · cases h; exact List.mem_cons_self ..
          · exact List.mem_cons_of_mem _ (ih h)
        | _ => exact List.mem_cons_of_mem _ (ih h)
    exact (hr c' p' (this es hm)).1
  have hl : ((xs c).map (Packet.arrives c)).map (need w k (w.n - (k + 1))) = ((xs c).map (Packet.bytes w k)).map List.length := by
    simp only [List.map_map]
    exact List.map_congr_left fun p hp => need_arrives hs.toStand (hx.ok c p hp).1 c
  obtain ⟨_, e2⟩ := h4.exact_bare hne
  rw [hl] at e2
  have hcut := hx.cut c
  exact flatten_inj (e2 (by rw [hcut, packets, List.length_flatten]; exact Nat.le_refl _)) hcut

/-- If every read is one packet, and nothing crashes, everything is seen. -/
theorem bare_suffices {q : Obs → Bool} (hq : Deaf q) {k fuel : Nat} (es : List SrvEv) : ∀ (w : World) (xs : ConnId → List Packet), Carrier w k → Unframed k w →
    (∀ c, ∀ p ∈ xs c, p.Ok w w k ∧ q (p.arrives c) = true) → w.n + 1 < fuel → Reads w es → ByteConns w es →
    (∀ c, readsOn c es = (xs c).map (Packet.bytes w k)) → (runAll fuel es w).1 = .ok () → Seen q w (runAll fuel es w).2 xs := by
  induction es with
  | nil =>
    intro w xs _ _ _ _ _ _ hcut _ c
    have h := hcut c
    rw [show readsOn c [] = [] from rfl] at h
    rw [List.map_eq_nil_iff.mp h.symm]
    simp [runAll]
  | cons e es ih =>
    intro w xs hcar hs hok hf hr hb hcut hrun
    have hrest : ∀ {w1 : World}, Evolves w w1 → Reads w1 es ∧ ByteConns w1 es := fun he =>
      ⟨fun c bs h => by rw [he.mtu]; exact hr c bs (by simp [h]), fun e h => by rw [he.useRef]; exact hb e (by simp [h])⟩
    have hstep : ∀ {w1 : World}, e.run fuel w = (.ok (), w1) → runAll fuel (e :: es) w = runAll fuel es w1 := fun h => by simp only [runAll]; rw [bind_of_ok h]
    by_cases hne : ∀ c bs, e ≠ .read c bs
    · have hm := hush_ev (fuel := fuel) hs.toStand e (hb e (by simp)) hne
      have hro : ∀ c, readsOn c (e :: es) = readsOn c es := fun c => by rw [readsOn, allReads_other hne, readsOn]
      rcases he : e.run fuel w with ⟨r, w1⟩
      rw [he] at hm
      cases r with
      | ok x =>
        rw [hstep he] at hrun ⊢
        have := ih w1 xs (hcar.bare hs hm.ev) (hs.evolves hm.ev) (fun c p h => ⟨(hok c p h).1.evolves hm.ev, (hok c p h).2⟩) (by rw [hm.ev.n]; exact hf)
          (hrest hm.ev).1 (hrest hm.ev).2 (fun c => by rw [bytes_evolves hm.ev, ← hro]; exact hcut c) hrun
        intro c
        rw [this c, signsOn_of (hm.silent q hq)]
      | panic => simp only [runAll] at hrun; rw [bind_of_panic he] at hrun; cases hrun
      | running => simp only [runAll] at hrun; rw [bind_apply, he] at hrun; cases hrun
    · obtain ⟨c, bs, rfl⟩ : ∃ c bs, e = .read c bs := by
        apply Classical.byContradiction
        intro h
        exact hne fun c bs e => h ⟨c, bs, e⟩
      obtain ⟨hbs, hfit⟩ := hr c bs (by simp)
      have hc := hcut c
      rw [readsOn_read, if_pos rfl] at hc
      cases hxc : xs c with
      | nil => rw [hxc] at hc; cases hc
      | cons p rest =>
        rw [hxc] at hc
        simp only [List.map_cons, List.cons.injEq] at hc
        obtain ⟨hp, hrs⟩ := hc
        have hpm : p ∈ xs c := by rw [hxc]; exact List.mem_cons_self ..
        obtain ⟨w1, a1, a2⟩ := receive_packet w k hcar p (hok c p hpm).1 c (hb _ (List.mem_cons_self ..)) (by rw [← hp]; exact hfit) fuel hf
        rw [← hp] at a1
        have hev := a2.evolves
        let ys : ConnId → List Packet := fun c' => if c' = c then rest else xs c'
        have hys : ys c = rest := if_pos rfl
        have hys' : ∀ c', c' ≠ c → ys c' = xs c' := fun c' h => if_neg h
        have hsub : ∀ c', ∀ x ∈ ys c', x ∈ xs c' := by
          intro c' x hxm
          by_cases h : c' = c
          · subst h; rw [hys] at hxm; rw [hxc]; exact List.mem_cons_of_mem _ hxm
          · rw [hys' c' h] at hxm; exact hxm
        rw [hstep a1] at hrun ⊢
        have := ih w1 ys (hcar.moved a2) (hs.evolves hev) (fun c' x h => ⟨(hok c' x (hsub c' x h)).1.evolves hev, (hok c' x (hsub c' x h)).2⟩)
          (by rw [hev.n]; exact hf) (hrest hev).1 (hrest hev).2 (fun c' => by
            rw [bytes_evolves hev]
            by_cases h : c' = c
            · subst h; rw [hys]; exact hrs
            · have := hcut c'
              rw [readsOn_read, if_neg (fun e => h e.symm)] at this
              rw [hys' c' h]; exact this) hrun
        intro c'
        rw [this c', a2.trace, signsOn_append, List.append_assoc]
        congr 1
        rw [show [p.arrives c] = [p].map (Packet.arrives c) from rfl, signsOn_arrives c' c [p] (by
          intro p' hp'
          rw [List.mem_singleton] at hp'
          subst hp'
          exact (hok c _ hpm).2)]
        by_cases h : c = c'
        · subst h; rw [if_pos rfl, hys, hxc]; rfl
        · rw [if_neg h, hys' c' (fun e => h e.symm)]; rfl

/-- C103 for a server without FrameDecoder: any number of connections, and between the reads the stack sends, its timers fire and connections are closed,
in any order.  If everything that was sent on every connection is delivered, each message once, in order and for its connection, then every read was exactly
one message; and if every read was and nothing crashed, everything is delivered. -/
theorem c103_server_bare (w : World) (k : Nat) (hcar : Carrier w k) (hcodec : (w.procs k).kind = .bytesCodec ∨ (w.procs k).kind = .stringCodec)
    (hnone : ∀ j, k < j → j < w.n → ¬ Frames (w.procs j))
    (es : List SrvEv) (hb : ∀ e ∈ es, (w.conns e.conn).useRef = false) (hr : ∀ c bs, SrvEv.read c bs ∈ es → bs ≠ [] ∧ (bs.length : Int) ≤ w.mtu)
    (xs : ConnId → List Item) (hx : ∀ c, ∀ x ∈ xs c, Message w k x.v x.b x.s ∧ findEndPoint w.served x.s = some x.ep)
    (hcut : ∀ c, (readsOn c es).flatten = wires w k (xs c)) (fuel : Nat) (hf : w.n + 1 < fuel)
    (r : Res Unit) (w' : World) (hrun : runAll fuel es w = (r, w')) :
    ((∀ c, arrivalsOn c w'.trace = arrivalsOn c w.trace ++ rxs c (xs c)) → ∀ c, readsOn c es = (xs c).map fun x => wire w k x.s x.b) ∧
    ((∀ c, readsOn c es = (xs c).map fun x => wire w k x.s x.b) → r = .ok () →
      ∀ c, arrivalsOn c w'.trace = arrivalsOn c w.trace ++ rxs c (xs c)) := by
  have hs : Unframed k w := ⟨⟨hcar.pos, hcar.quiet, by
    have := hcar.codecOn
    generalize w.procs k = p at hcodec this ⊢
    obtain ⟨en, kd⟩ := p
    simp only at this hcodec
    subst this
    rcases hcodec with h | h <;> rw [h] <;> simp, hcar.opens⟩, hnone⟩
  have hok : ∀ c, ∀ p ∈ (xs c).map Packet.msg, p.Ok w w k ∧ isRx (p.arrives c) = true := by
    intro c p hp
    obtain ⟨x, hxm, rfl⟩ := List.mem_map.mp hp
    exact ⟨hx c x hxm, rfl⟩
  have har : ∀ (c : ConnId) (ys : List Item), (ys.map Packet.msg).map (Packet.arrives c) = rxs c ys := by
    intro c ys
    simp only [rxs, List.map_map]
    rfl
  have hby : ∀ ys : List Item, (ys.map Packet.msg).map (Packet.bytes w k) = ys.map fun x => wire w k x.s x.b := by
    intro ys
    simp only [List.map_map]
    rfl
  have h1 := bare_only deaf_isRx (fuel := fuel) (es := es) (xs := fun c => (xs c).map .msg) hs ⟨hok, fun c => by rw [packets, hby]; exact hcut c⟩ hr hb
  have h2 := bare_suffices deaf_isRx (fuel := fuel) es w (fun c => (xs c).map .msg) hcar hs hok hf hr hb
  rw [hrun] at h1 h2
  simp only [Seen, signsOn_arrivals, har, hby] at h1 h2
  exact ⟨h1, h2⟩

/-! ### Example: bytes codec, SessionResolver and StatCounter with two connections -/

def short : World := { five with overhead := 5, n := 3 }

theorem short_unframed : ∀ j, 0 < j → j < 3 → ¬ Frames (short.procs j) := by
  intro j h1 h2 h3
  match j, h1, h2, h3 with
  | 1, _, _, ⟨⟨c, h⟩, _⟩ => cases h
  | 2, _, _, ⟨⟨c, h⟩, _⟩ => cases h

theorem short_carrier : Carrier short 0 :=
  ⟨by decide, fun j h => absurd h (by omega), rfl, fun j h1 h2 => five_opens j h1 (Nat.lt_of_lt_of_le h2 (by decide)),
    fun j h1 h2 h3 => absurd h3 (short_unframed j h1 h2), rfl, by decide⟩

theorem short_clients : ∀ c, ∀ x ∈ twoClients c, Message short 0 x.v x.b x.s ∧ findEndPoint short.served x.s = some x.ep := by
  intro c x hx
  obtain ⟨h1, h2⟩ := twoClients_ok c x hx
  obtain ⟨v, b, s, ep⟩ := x
  have h3 : CodedBy _ .bytesCodec v b := h1.codec
  cases h3
  exact ⟨⟨.bytes _, h1.ne, by have := h1.fit; simp only [five, short] at this ⊢; omega, h1.lo, h1.hi, .inl ⟨1, by decide, by decide, rfl, rfl⟩⟩, h2⟩

/-- The reads of the two connections interleaved, with a send and a closing in between. -/
def shortDay : List SrvEv := [.read 0 [0, 0, 0, 0, 3, 9], .send 1 (.bytes [1, 2]) 3, .read 1 [0, 0, 0, 0, 3, 5], .close 1, .read 0 [0, 0, 0, 0, 3, 8, 8]]

/-- The same bytes, but connection 0 is read once. -/
def mergedDay : List SrvEv := [.send 1 (.bytes [1, 2]) 3, .read 1 [0, 0, 0, 0, 3, 5], .close 1, .read 0 [0, 0, 0, 0, 3, 9, 0, 0, 0, 0, 3, 8, 8]]

example : ∀ c, arrivalsOn c (runAll 20 shortDay short).2.trace = arrivalsOn c short.trace ++ rxs c (twoClients c) := by
  have hcut : ∀ c, readsOn c shortDay = (twoClients c).map fun x => wire short 0 x.s x.b := by
    intro c
    match c with
    | 0 => decide
    | 1 => decide
    | c + 2 => simp [readsOn, shortDay, allReads, twoClients]
  refine (c103_server_bare short 0 short_carrier (.inl rfl) short_unframed shortDay (fun _ _ => rfl) (by
    intro c bs h
    simp only [shortDay, List.mem_cons, SrvEv.read.injEq, List.not_mem_nil, or_false, reduceCtorEq, false_or] at h
    rcases h with ⟨_, rfl⟩ | ⟨_, rfl⟩ | ⟨_, rfl⟩ <;> decide) twoClients short_clients (fun c => by rw [hcut]; rfl) 20 (by decide)
    (runAll 20 shortDay short).1 (runAll 20 shortDay short).2 (run_pair _)).2 hcut (by decide +kernel)

example : ¬ ∀ c, arrivalsOn c (runAll 20 mergedDay short).2.trace = arrivalsOn c short.trace ++ rxs c (twoClients c) := by
  intro h
  have := (c103_server_bare short 0 short_carrier (.inl rfl) short_unframed mergedDay (fun _ _ => rfl) (by
    intro c bs h
    simp only [mergedDay, List.mem_cons, SrvEv.read.injEq, List.not_mem_nil, or_false, reduceCtorEq, false_or] at h
    rcases h with ⟨_, rfl⟩ | ⟨_, rfl⟩ <;> decide) twoClients short_clients (by
      intro c
      match c with
      | 0 => decide
      | 1 => decide
      | c + 2 => simp [readsOn, mergedDay, allReads, twoClients, wires]) 20 (by decide)
    (runAll 20 mergedDay short).1 (runAll 20 mergedDay short).2 (run_pair _)).1 h 0
  revert this
  decide

end Verif.Stack
