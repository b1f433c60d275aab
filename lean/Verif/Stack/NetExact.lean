import Verif.Stack.BareCut

/-!
# Which cuts a network survives (C74)

`c74_drained_partial`: if every read takes whole packets (without a FrameDecoder: one packet) then everything arrives.  Here the converse, for networks of stacks
with the codec for byte slices or strings and below it one FrameDecoder, at the bottom, or none, in executions in which no read makes a stack write (`Unanswered`; a StatCounter might answer to garbage, without
one this is always so): if in the end nothing is on its way and everything that was sent has been seen, then every read took whole packets.  So the condition of
C74 on reads is the weakest possible.
-/

namespace Verif.Stack
open UBuf GoM Trace

/-! ## A closed connection leaves a trace -/

/-- Whatever is closed afterwards was closed before or `Close` was called on it meanwhile. -/
def Told (w w' : World) : Prop := ∃ t, w'.trace = w.trace ++ t ∧ ∀ c, (w'.conns c).closed = true → (w.conns c).closed = true ∨ Obs.closed c ∈ t

theorem Told.refl (w : World) : Told w w := ⟨[], by simp, fun _ h => .inl h⟩

theorem Told.trans {a b c : World} (h1 : Told a b) (h2 : Told b c) : Told a c := by
  obtain ⟨t1, e1, f1⟩ := h1
  obtain ⟨t2, e2, f2⟩ := h2
  refine ⟨t1 ++ t2, by rw [e2, e1, List.append_assoc], fun x hx => ?_⟩
  rcases f2 x hx with h | h
  · rcases f1 x h with h | h
    · exact .inl h
    · exact .inr (List.mem_append_left _ h)
  · exact .inr (List.mem_append_right _ h)

theorem Told.obs (w : World) (t : List Obs) : Told w { w with trace := w.trace ++ t } := ⟨t, rfl, fun _ h => .inl h⟩

theorem Told.close (w : World) (c : ConnId) : Told w (w.close c) := by
  refine ⟨[.closed c], rfl, fun x hx => ?_⟩
  simp only [World.close] at hx
  split at hx
  · rename_i e; subst e; exact .inr (by simp)
  · exact .inl hx

theorem Told.allows : Allows Told fun _ => True :=
  ⟨.refl, .trans, fun w i k _ _ => ⟨[], by simp [World.setKind], fun _ h => .inl h⟩, fun w i c _ => .obs w _, fun w _ t r n _ => .obs w _⟩

theorem told_lowerDeck : KpH Told lowerDeckUpper := by
  have H := Told.allows
  intro ctx
  simp only [lowerDeckUpper]
  split
  · exact .pure H _
  · refine .bind H (.useReference H _) fun r => .ite (.bind H ?_ fun ok => ?_) ?_
    · exact .bind H (.get H) fun w => .ite (.pure H _) (.ite (.pure H _) (.bind H (fun w => .obs w _) fun _ => .pure H _))
    · cases ok with
      | true => exact .pure H _
      | false => exact .bind H (fun w => .close w _) fun _ => .pure H _
    · split
      · exact .pure H _
      · refine .bind H (.ite (.pure H _) (.bind H (.onBuf H _ _) fun _ => .bind H (.bind H (.get H) fun w => .ite (.pure H _)
          (.bind H (fun w => .obs w _) fun _ => .pure H _)) fun _ => .bind H (.onBuf H _ _) fun _ => .pure H _)) fun r => ?_
        obtain ⟨e, ub⟩ := r
        cases e with
        | none => exact .pure H _
        | some e => exact .bind H (fun w => .close w _) fun _ => .pure H _

theorem told_upperDeck : KpH Told upperDeckLower := by
  have H := Told.allows
  intro ctx
  simp only [upperDeckLower]
  refine .ite (.pure H _) (.bind H (.get H) fun w => ?_)
  split
  · exact .pure H _
  · exact .bind H (fun w => .obs w _) fun _ => .pure H _

theorem call_told (fuel : Nat) (dir : Dir) (pos : Nat) (ctx : Ctx) (w : World) : Told w (call fuel dir pos ctx w).2 :=
  call_keeps (R := fun _ => True) Told.allows (fun _ _ => trivial)
    (fun w => .inl ⟨fun _ _ h => absurd trivial h, fun _ _ h => absurd trivial h⟩) (fun _ => told_upperDeck)
    (fun w ctx _ => told_lowerDeck ctx w) fuel dir pos trivial ctx w

theorem receive_told {fuel : Nat} {c : ConnId} {bs : List Byte} {w : World} (hne : bs ≠ []) (hfit : (bs.length : Int) ≤ w.mtu) : Told w (receive fuel c bs w).2 := by
  obtain ⟨ub, h1, h2⟩ := receive_ok (c := c) (w := w) hne hfit
  have := call_told fuel .up w.n { Ctx.new with conn := some c, buf := some ub } w
  rw [h2, bind_apply]
  rcases h : call fuel .up w.n { Ctx.new with conn := some c, buf := some ub } w with ⟨r, w'⟩
  rw [h] at this
  cases r <;> exact this

/-! ## Sending, whatever the FrameDecoder keeps -/

/-- One FrameDecoder, at the bottom, or none. -/
def Single (k : Nat) (w : World) : Prop := Hall k w ∨ Unframed k w

theorem Single.stand {k : Nat} {w : World} : Single k w → Stand k w
  | .inl h => h.stand
  | .inr h => h.toStand

theorem Single.evolves {k : Nat} {w w' : World} (h : Single k w) (he : Evolves w w') : Single k w' := h.imp (·.evolves he) (·.evolves he)

theorem packet_ships (w b : World) (k : Nat) (hs : Stand k w) (hbuilt : Built w) (p : Packet) (hp : p.Ok w b k)
    (c : ConnId) (hbytes : (w.conns c).useRef = false) (hopen : (w.conns c).closed = false)
    (hw : ∀ t q, (w.write t c q).err = none ∧ (w.write t c q).n ≤ q.length) (fuel : Nat) (hf : w.n < fuel) :
    ∃ w', p.send fuel c w = (.ok (), w') ∧ Moved [.wire c (p.bytes w k) (w.write w.trace c (p.bytes w k))] w w' := by
  have hn := hs.pos
  cases p with
  | msg x =>
    obtain ⟨w', h1, h2, _⟩ := on_the_wire_shape w k hs.pos hs.quiet (by rcases hs.codec with e | e <;> rw [e]) hs.opens hbuilt x.v x.b x.s hp.1.codec hp.1.ne hp.1.fit c
      hbytes hopen (hw _ _).1 (hw _ _).2 fuel hf
    exact ⟨w', h1, h2⟩
  | beat h => exact beat_shape w k h hs.opens hbuilt hp.1 hp.2.1 hp.2.2.1 hp.2.2.2 c hbytes hopen hw fuel hf

/-- The event it is for its stack. -/
def Packet.ev (c : ConnId) : Packet → SrvEv
  | .msg x => .send c x.v x.s
  | .beat h => .control h c 0x83

theorem Packet.ev_run (fuel : Nat) (c : ConnId) (p : Packet) : (p.ev c).run fuel = p.send fuel c := by cases p <;> rfl

theorem Packet.ev_conn (c : ConnId) (p : Packet) : (p.ev c).conn = c := by cases p <;> rfl

theorem Packet.ev_ne (c : ConnId) (p : Packet) : ∀ d bs, p.ev c ≠ .read d bs := by cases p <;> intro d bs h <;> cases h

/-! ## A read that makes its stack write nothing -/

/-- A write to a connection or the closing of one. -/
def Obs.outward : Obs → Bool
  | .wire .. => true
  | .closed .. => true
  | _ => false

theorem sentBytes_inward (c : ConnId) {os : List Obs} (h : ∀ o ∈ os, o.outward = false) : sentBytes c os = [] := by
  induction os with
  | nil => rfl
  | cons o os ih =>
    have h1 := ih fun o ho => h o (by simp [ho])
    have h2 := h o (by simp)
    cases o with
    | wire => cases h2
    | closed => cases h2
    | _ => simpa [sentBytes] using h1

theorem sight_all (t : List Obs) : sight (fun _ => true) t = t := by simp [sight]

/-- A delivery or a sign of life. -/
def isSign : Obs → Bool
  | .rx .. => true
  | .beat .. => true
  | _ => false

theorem deaf_isSign : Deaf isSign := ⟨fun _ _ _ => rfl, fun _ => rfl, fun _ _ _ => rfl⟩

/-- What the FrameDecoder keeps, if there is one. -/
def Keeps (k : Nat) (w : World) : Prop := Hall k w → ∃ d, Caches (w.n - 1) w d

/-- If it writes and closes nothing then no connection is closed afterwards that was not before. -/
theorem read_mute {k f : Nat} {c : ConnId} {w w' : World} (hs : Single k w) (hby : (w.conns c).useRef = false) (hd : Keeps k w)
    {bs : List Byte} (hne : bs ≠ []) (hfit : (bs.length : Int) ≤ w.mtu) (x : Unit) (hrun : receive (f + 1) c bs w = (.ok x, w'))
    (hu : ∀ o ∈ w'.trace.drop w.trace.length, o.outward = false) :
    Evolves w w' ∧ (∃ os, w'.trace = w.trace ++ os ∧ ∀ o ∈ os, o.outward = false) ∧ Keeps k w' ∧
      ∀ c', (w'.conns c').closed = true → (w.conns c').closed = true := by
  have key : Evolves w w' ∧ Keeps k w' := by
    rcases hs with hs | hs
    · obtain ⟨d, hd⟩ := hd hs
      obtain ⟨ds, _, h2, _, h5⟩ := read_below (.inl deaf_isSign) (hs.sole hby) hd hne hfit _ w' hrun
      exact ⟨h2, fun _ => ⟨_, by rw [h2.n]; exact h5 x rfl⟩⟩
    · have h2 := (bare_read (.inl deaf_isSign) hs hby hne hfit _ w' hrun).1
      have hb := hs.evolves h2
      exact ⟨h2, fun h => absurd h.frames (hb.unframed _ (by have := h.pos; omega) (by have := h.pos; omega))⟩
  have ht := receive_told (fuel := f + 1) (c := c) hne hfit
  rw [hrun] at ht
  obtain ⟨t, e1, e2⟩ := ht
  simp only at e1
  rw [e1, List.drop_left] at hu
  refine ⟨key.1, ⟨t, e1, hu⟩, key.2, fun c' hc => ?_⟩
  rcases e2 c' hc with h | h
  · exact h
  · exact absurd (hu _ h) (by simp [Obs.outward])

/-- Without a StatCounter no read writes or closes anything. -/
theorem read_statless {k f : Nat} {c : ConnId} {w w' : World} (hs : Single k w) (hst : Statless k w) (hby : (w.conns c).useRef = false) (hd : Keeps k w)
    {bs : List Byte} (hne : bs ≠ []) (hfit : (bs.length : Int) ≤ w.mtu) (x : Unit) (hrun : receive (f + 1) c bs w = (.ok x, w')) :
    ∀ o ∈ w'.trace.drop w.trace.length, o.outward = false := by
  have key : ∃ os, w'.trace = w.trace ++ os ∧ ∀ o ∈ os, Sign c o := by
    rcases hs with hs | hs
    · obtain ⟨d, hd⟩ := hd hs
      obtain ⟨ds, _, h2, ⟨os, h3, h4⟩, h5⟩ := read_below (q := fun _ => true) (.inr hst) (hs.sole hby) hd hne hfit _ w' hrun
      rw [sight_all, sight_all] at h3
      exact ⟨os, h3, h4.conn⟩
    · obtain ⟨_, os, h3, h4⟩ := bare_read (q := fun _ => true) (.inr hst) hs hby hne hfit _ w' hrun
      rw [sight_all, sight_all] at h3
      exact ⟨os, h3, h4.conn⟩
  obtain ⟨os, h3, h4⟩ := key
  rw [h3, List.drop_left]
  intro o ho
  rcases h4 _ ho with ⟨_, _, rfl⟩ | ⟨_, rfl⟩ <;> rfl

/-! ## The network, however the streams are cut -/

/-- A stack with connections. -/
def Joined (peer : Nat → ConnId → Option (Nat × ConnId)) (i : Nat) : Prop := (∃ c e, peer i c = some e) ∨ ∃ i' c d, peer i' c = some (i, d)

/-- Every stack with connections has the codec for byte slices or strings at its position, and below it one FrameDecoder, at the bottom, or none. -/
def NetSingle (peer : Nat → ConnId → Option (Nat × ConnId)) (k : Nat → Nat) (s0 : Net) : Prop :=
  ∀ i, Joined peer i → Single (k i) (s0.world i)

/-- The action writes nothing to and closes no connection unless it sends a packet. -/
def Inward (s s' : Net) : NetLabel → Prop
  | .put .. => True
  | .read .. => ∀ j, ∀ o ∈ (s'.world j).trace.drop (s.world j).trace.length, o.outward = false

/-- No read of the execution makes a stack write to or close a connection. -/
def Unanswered (fuel : Nat) (peer : Nat → ConnId → Option (Nat × ConnId)) (s0 : Net) (ls : List NetLabel) : Prop :=
  ∀ pre l post m m', ls = pre ++ l :: post → exec (netStep fuel peer) s0 pre = some m → netStep fuel peer m l = some m' → Inward m m' l

/-- Packets the stacks can carry are sent, and reads return at least one byte, at most what is on its way and at most a buffer full; they may end anywhere. -/
def NetTries (peer : Nat → ConnId → Option (Nat × ConnId)) (k : Nat → Nat) (s0 s : Net) : NetLabel → Prop
  | .put i c p => ∃ j d, peer i c = some (j, d) ∧ p.Ok (s0.world i) (s0.world j) (k i)
  | .read i c n => ∃ j d, peer i c = some (j, d) ∧ 0 < n ∧ n ≤ (s.stream i c).length ∧ (n : Int) ≤ (s0.world j).mtu

/-- Every sequence of such actions. -/
def NetTry (fuel : Nat) (peer : Nat → ConnId → Option (Nat × ConnId)) (k : Nat → Nat) (s0 s : Net) (ls : List NetLabel) : Prop :=
  ∀ pre l post m, ls = pre ++ l :: post → exec (netStep fuel peer) s pre = some m → NetTries peer k s0 m l

variable {fuel : Nat} {peer : Nat → ConnId → Option (Nat × ConnId)} {k : Nat → Nat} {s0 : Net}

theorem NetTry.head {s : Net} {l : NetLabel} {ls : List NetLabel} (h : NetTry fuel peer k s0 s (l :: ls)) : NetTries peer k s0 s l := h [] l ls s rfl rfl

theorem NetTry.tail {s s' : Net} {l : NetLabel} {ls : List NetLabel} (h : NetTry fuel peer k s0 s (l :: ls)) (hs : netStep fuel peer s l = some s') :
    NetTry fuel peer k s0 s' ls := by
  intro pre l' post m e he
  refine h (l :: pre) l' post m (by rw [e]; rfl) ?_
  simp only [Trace.exec, hs]
  exact he

theorem Unanswered.tail {s s' : Net} {l : NetLabel} {ls : List NetLabel} (h : Unanswered fuel peer s (l :: ls)) (hs : netStep fuel peer s l = some s') :
    Unanswered fuel peer s' ls := by
  intro pre l' post m m' e he hm
  refine h (l :: pre) l' post m m' (by rw [e]; rfl) ?_ hm
  simp only [Trace.exec, hs]
  exact he

/-- What stays true. -/
structure NetFlow (peer : Nat → ConnId → Option (Nat × ConnId)) (k : Nat → Nat) (s0 s : Net) : Prop where
  ev : ∀ i, Evolves (s0.world i) (s.world i)
  caches : ∀ i, Joined peer i → Keeps (k i) (s.world i)
  shut : ∀ i c, ((s.world i).conns c).closed = true → ((s0.world i).conns c).closed = true

theorem NetFlow.init (hr : NetReady fuel peer k s0) (hn : NetSingle peer k s0) : NetFlow peer k s0 s0 where
  ev := fun _ => .refl _
  caches := fun i hi hh => by
    have hp := hh.pos
    have hcar : Carrier (s0.world i) (k i) := by
      rcases hi with ⟨c, e, h⟩ | ⟨i', c, d, h⟩
      · exact hr.sender i c e h
      · exact (hr.receiver i' c i d h).1
    obtain ⟨d, hd, _⟩ := (hcar.idle _ (by omega) (by omega) hh.frames).caches
    exact ⟨d, hd⟩
  shut := fun _ _ h => h

theorem Packet.Ok.evolves_both {a b a' b' : World} {k : Nat} {p : Packet} (h : p.Ok a b k) (ha : Evolves a a') (hb : Evolves b b') : p.Ok a' b' k := by
  cases p with
  | msg x => exact ⟨h.1.evolves ha, by rw [hb.served]; exact h.2⟩
  | beat x =>
    obtain ⟨h1, h2, h3, h4⟩ := h
    exact ⟨h1, by rw [ha.n]; exact h2, heartbeat_same (ha.sameProc x) h3, by rw [ha.overhead, ha.mtu]; exact h4⟩

theorem Packet.bytes_evolves {w w' : World} (he : Evolves w w') (k : Nat) (p : Packet) : p.bytes w' k = p.bytes w k := by
  have hn : w'.n = w.n := he.n
  cases p <;> simp only [Packet.bytes, wire, hn, wrap_same he.sameProc]

/-- What a step brings onto a connection and takes from it. -/
theorem net_flow (hr : NetReady fuel peer k s0) (hn : NetSingle peer k s0) {s s' : Net} (inv : NetFlow peer k s0 s) {l : NetLabel}
    (hl : NetTries peer k s0 s l) (hs : netStep fuel peer s l = some s') (hu : Inward s s' l) :
    NetFlow peer k s0 s' ∧ ∀ i c, s'.stream i c = match l with
      | .put i' c' p => if i' = i ∧ c' = c then s.stream i c ++ p.bytes (s0.world i) (k i) else s.stream i c
      | .read i' c' n => if i' = i ∧ c' = c then (s.stream i c).drop n else s.stream i c := by
  cases l with
  | put i c p =>
    obtain ⟨j, d, hpeer, hok⟩ := hl
    have hh := hn i (.inl ⟨c, _, hpeer⟩)
    have hev := inv.ev i
    have hopen := hr.open_ i c _ hpeer
    have hwr : ∀ t q, (s.world i).write t c q = ⟨q.length, none⟩ := fun t q => by rw [hev.write]; exact hr.writes i c _ hpeer t q
    have hfu := hr.fuel i
    obtain ⟨w', h1, h2⟩ := packet_ships (s.world i) (s0.world j) (k i) (hh.evolves hev).stand ((hr.sender i c _ hpeer).built.evolves hev) p (hok.evolves_both hev (.refl _)) c
      (by rw [hev.useRef]; exact hopen.1) (by
        cases hc : ((s.world i).conns c).closed with
        | false => rfl
        | true => rw [inv.shut i c hc] at hopen; cases hopen.2) (fun t q => by rw [hwr]; exact ⟨rfl, Nat.le_refl _⟩) fuel (by rw [hev.n]; omega)
    have hm : Hall (k i) (s.world i) → Mute (s.world i) w' := fun h => by
      have hm := mute_ev (fuel := fuel) h (p.ev c) (by rw [Packet.ev_conn, hev.useRef]; exact hopen.1) (p.ev_ne c)
      rw [Packet.ev_run, h1] at hm
      exact hm
    rw [hwr, p.bytes_evolves hev] at h2
    simp only [netStep, h1, Option.some.injEq] at hs
    subst hs
    refine ⟨⟨fun i' => ?_, fun i' hi' => ?_, fun i' c' hc => ?_⟩, fun i' c' => ?_⟩
    · by_cases e : i' = i
      · subst e; rw [Net.after_world_self]; exact hev.trans h2.evolves
      · rw [Net.after_world_ne _ _ e]; exact inv.ev i'
    · by_cases e : i' = i
      · subst e
        rw [Net.after_world_self]
        intro hall
        have hs1 : Hall (k i') (s.world i') := by
          rcases hh.evolves hev with h | h
          · exact h
          · have := h.evolves h2.evolves
            exact absurd hall.frames (this.unframed _ (by have := hall.pos; omega) (by have := hall.pos; omega))
        have hm := hm hs1
        obtain ⟨q, ca, e1, e2⟩ := inv.caches i' hi' hs1
        exact ⟨q, ca, by rw [hm.ev.n, hm.bottom]; exact e1, e2⟩
      · rw [Net.after_world_ne _ _ e]; exact inv.caches i' hi'
    · by_cases e : i' = i
      · subst e; rw [Net.after_world_self, h2.conns] at hc; exact inv.shut i' c' hc
      · rw [Net.after_world_ne _ _ e] at hc; exact inv.shut i' c' hc
    · rw [Net.after_stream _ _ _ _ h2]
      by_cases e : i = i'
      · subst e
        by_cases e' : c = c'
        · subst e'; simp [sentBytes]
        · simp [sentBytes, e']
      · have : ¬ i' = i := fun h => e h.symm
        simp [e, this]
  | read i c n =>
    obtain ⟨j, d, hpeer, hn0, hnl, hmtu⟩ := hl
    have hh := hn j (.inr ⟨i, c, d, hpeer⟩)
    have hev := inv.ev j
    have huse := (hr.receiver i c j d hpeer).2.2.2
    have hlen : ((s.stream i c).take n).length = n := by rw [List.length_take]; omega
    have hne : (s.stream i c).take n ≠ [] := fun e => by rw [e] at hlen; simp at hlen; omega
    have hfu := hr.fuel j
    obtain ⟨f, rfl⟩ : ∃ f, fuel = f + 1 := ⟨fuel - 1, by omega⟩
    simp only [netStep, hpeer] at hs
    have hq := inv.caches j (.inr ⟨i, c, d, hpeer⟩)
    rcases hrun : receive (f + 1) d ((s.stream i c).take n) (s.world j) with ⟨r, w'⟩
    rw [hrun] at hs
    cases r with
    | panic => cases hs
    | running => cases hs
    | ok x =>
      simp only [Option.some.injEq] at hs
      subst hs
      obtain ⟨h1, ⟨os, h2, h3⟩, h4, h5⟩ := read_mute (hh.evolves hev) (by rw [hev.useRef]; exact huse) hq hne (by rw [hlen, hev.mtu]; exact hmtu) x hrun (by
        have := hu j
        rw [Net.after_world_self] at this
        exact this)
      refine ⟨⟨fun i' => ?_, fun i' hi' => ?_, fun i' c' hc => ?_⟩, fun i' c' => ?_⟩
      · by_cases e : i' = j
        · subst e; rw [Net.after_world_self]; exact hev.trans h1
        · rw [Net.after_world_ne _ _ e]; exact inv.ev i'
      · by_cases e : i' = j
        · subst e; rw [Net.after_world_self]; exact h4
        · rw [Net.after_world_ne _ _ e]; exact inv.caches i' hi'
      · by_cases e : i' = j
        · subst e; rw [Net.after_world_self] at hc; exact inv.shut i' c' (h5 c' hc)
        · rw [Net.after_world_ne _ _ e] at hc; exact inv.shut i' c' hc
      · have h6 : ((s.took i c n).after j w').stream i' c' = (s.took i c n).stream i' c' := by
          simp only [Net.after]
          split
          · rename_i e
            have : w'.trace.drop ((s.took i c n).world j).trace.length = os := by
              show w'.trace.drop (s.world j).trace.length = os
              rw [h2, List.drop_left]
            rw [this, sentBytes_inward c' h3, List.append_nil]
          · rfl
        rw [h6]
        simp only [Net.took]
        by_cases e : i' = i ∧ c' = c
        · obtain ⟨rfl, rfl⟩ := e; simp
        · rw [if_neg e, if_neg fun h => e ⟨h.1.symm, h.2.symm⟩]

/-! ## What one stack does in it -/

/-- The event of an action for stack `j`. -/
def evAt (peer : Nat → ConnId → Option (Nat × ConnId)) (j : Nat) (s : Net) : NetLabel → List SrvEv
  | .put i c p => if i = j then [p.ev c] else []
  | .read i c n => match peer i c with
    | some (j', d) => if j' = j then [.read d ((s.stream i c).take n)] else []
    | none => []

/-- The events of an execution for stack `j`. -/
def evsAt (fuel : Nat) (peer : Nat → ConnId → Option (Nat × ConnId)) (j : Nat) : Net → List NetLabel → List SrvEv
  | _, [] => []
  | s, l :: ls => evAt peer j s l ++ match netStep fuel peer s l with
    | some s' => evsAt fuel peer j s' ls
    | none => []

theorem evsAt_cons {j : Nat} {s s' : Net} {l : NetLabel} (h : netStep fuel peer s l = some s') (ls : List NetLabel) :
    evsAt fuel peer j s (l :: ls) = evAt peer j s l ++ evsAt fuel peer j s' ls := by simp only [evsAt, h]

theorem evsAt_append {j : Nat} (a b : List NetLabel) : ∀ {s m : Net}, exec (netStep fuel peer) s a = some m →
    evsAt fuel peer j s (a ++ b) = evsAt fuel peer j s a ++ evsAt fuel peer j m b := by
  induction a with
  | nil => intro s m h; cases h; rfl
  | cons l a ih =>
    intro s m h
    obtain ⟨s1, h1, h2⟩ := exec_cons h
    rw [List.cons_append, evsAt_cons h1, evsAt_cons h1, ih h2, List.append_assoc]

theorem runAll_append (fuel : Nat) (a b : List SrvEv) {w w1 : World} (h : runAll fuel a w = (.ok (), w1)) : runAll fuel (a ++ b) w = runAll fuel b w1 := by
  induction a generalizing w with
  | nil => cases h; rfl
  | cons e a ih =>
    simp only [runAll, List.cons_append] at h ⊢
    rw [bind_apply] at h ⊢
    rcases he : e.run fuel w with ⟨r, w2⟩
    rw [he] at h
    cases r with
    | ok x => exact ih h
    | panic => cases h
    | running => cases h

theorem evAt_run {j : Nat} {s s' : Net} {l : NetLabel} (h : netStep fuel peer s l = some s') : runAll fuel (evAt peer j s l) (s.world j) = (.ok (), s'.world j) := by
  cases l with
  | put i c p =>
    simp only [netStep] at h
    rcases hr : p.send fuel c (s.world i) with ⟨r, w⟩
    rw [hr] at h
    cases r with
    | panic => cases h
    | running => cases h
    | ok x =>
      cases h
      simp only [evAt]
      by_cases e : i = j
      · subst e
        rw [if_pos rfl, Net.after_world_self]
        simp only [runAll, Packet.ev_run]
        rw [bind_of_ok hr]; rfl
      · rw [if_neg e, Net.after_world_ne _ _ fun h => e h.symm]; rfl
  | read i c n =>
    simp only [netStep] at h
    cases hp : peer i c with
    | none => rw [hp] at h; cases h
    | some e =>
      obtain ⟨j', d⟩ := e
      rw [hp] at h
      simp only at h
      rcases hr : receive fuel d ((s.stream i c).take n) (s.world j') with ⟨r, w⟩
      rw [hr] at h
      cases r with
      | panic => cases h
      | running => cases h
      | ok x =>
        cases h
        simp only [evAt, hp]
        by_cases e : j' = j
        · subst e
          rw [if_pos rfl, Net.after_world_self]
          simp only [runAll, SrvEv.run]
          rw [bind_of_ok hr]; rfl
        · rw [if_neg e, Net.after_world_ne _ _ fun h => e h.symm]; rfl

theorem evsAt_run {j : Nat} (ls : List NetLabel) : ∀ {s s' : Net}, exec (netStep fuel peer) s ls = some s' →
    runAll fuel (evsAt fuel peer j s ls) (s.world j) = (.ok (), s'.world j) := by
  induction ls with
  | nil => intro s s' h; cases h; rfl
  | cons l ls ih =>
    intro s s' h
    obtain ⟨s1, h1, h2⟩ := exec_cons h
    rw [evsAt_cons h1, runAll_append fuel _ _ (evAt_run h1)]
    exact ih h2

theorem allReads_append (a b : List SrvEv) : allReads (a ++ b) = allReads a ++ allReads b := by
  induction a with
  | nil => rfl
  | cons e a ih => cases e <;> simp only [List.cons_append, allReads, ih]

theorem readsOn_append (c : ConnId) (a b : List SrvEv) : readsOn c (a ++ b) = readsOn c a ++ readsOn c b := by
  simp [readsOn, allReads_append]

/-- Bytes are neither lost nor invented between the stacks. -/
theorem flow_total (hr : NetReady fuel peer k s0) (hn : NetSingle peer k s0) {i j : Nat} {c d : ConnId} (hpeer : peer i c = some (j, d)) (ls : List NetLabel) :
    ∀ {s s' : Net}, NetFlow peer k s0 s → NetTry fuel peer k s0 s ls → Unanswered fuel peer s ls → exec (netStep fuel peer) s ls = some s' →
    NetFlow peer k s0 s' ∧ (readsOn d (evsAt fuel peer j s ls)).flatten ++ s'.stream i c = s.stream i c ++ packets (s0.world i) (k i) (putOn i c ls) := by
  induction ls with
  | nil => intro s s' inv _ _ h; cases h; exact ⟨inv, by simp [evsAt, readsOn, allReads, putOn, packets]⟩
  | cons l ls ih =>
    intro s s' inv ht hu h
    obtain ⟨s1, h1, h2⟩ := exec_cons h
    obtain ⟨a1, a2⟩ := net_flow hr hn inv ht.head h1 (hu [] l ls s s1 rfl rfl h1)
    obtain ⟨b1, b2⟩ := ih a1 (ht.tail h1) (hu.tail h1) h2
    refine ⟨b1, ?_⟩
    rw [evsAt_cons h1, readsOn_append, List.flatten_append, List.append_assoc, b2, a2 i c]
    cases l with
    | put i' c' p =>
      have hro : readsOn d (evAt peer j s (.put i' c' p)) = [] := by
        simp only [evAt]
        split
        · rw [readsOn, allReads_other (p.ev_ne c')]; rfl
        · rfl
      rw [hro]
      simp only [putOn, List.filterMap_cons]
      by_cases e : i' = i ∧ c' = c
      · obtain ⟨rfl, rfl⟩ := e
        simp [packets]
      · simp [e]
    | read i' c' n =>
      obtain ⟨j', d', hp', hn0, hnl, hmtu⟩ := ht.head
      simp only [putOn, List.filterMap_cons, evAt, hp']
      by_cases e : i' = i ∧ c' = c
      · obtain ⟨rfl, rfl⟩ := e
        rw [hpeer] at hp'
        injection hp' with hp'
        injection hp' with e1 e2
        subst e1; subst e2
        simp only [if_true, and_self, readsOn_read]
        simp only [readsOn, allReads, List.filter_nil, List.map_nil, List.flatten_cons, List.flatten_nil, List.append_nil]
        rw [← List.append_assoc, List.take_append_drop]
      · rw [if_neg e]
        have : readsOn d (if j' = j then [SrvEv.read d' ((s.stream i' c').take n)] else []) = [] := by
          split
          · rename_i ej
            subst ej
            rw [readsOn_read]
            rw [if_neg fun ed => by
              subst ed
              exact e (hr.inj i' c' i c _ hp' hpeer)]
            rfl
          · rfl
        rw [this]
        rfl

/-! ## The exact condition -/

theorem arrives_isSign (c : ConnId) (p : Packet) : isSign (p.arrives c) = true := by cases p <;> rfl

theorem signsOn_seenOn (c : ConnId) (t : List Obs) : signsOn isSign c (seenOn c t) = signsOn isSign c t := by
  rw [signsOn, seenOn, List.filter_filter]
  congr 1
  funext o
  cases o with
  | rx ep c' v => cases c' <;> simp [isSign, signFor]
  | beat h c' => cases c' <;> simp [isSign, signFor]
  | _ => simp [isSign]

/-- On a connection without reads nothing is seen. -/
theorem unread {q : Obs → Bool} (hq : Deaf q) {k f : Nat} {es : List SrvEv} {w : World} (hs : Single k w) (hd : Keeps k w) (hr : Reads w es)
    (hb : ByteConns w es) {c : ConnId} (hc : readsOn c es = []) : signsOn q c (runAll (f + 2) es w).2.trace = signsOn q c w.trace := by
  rcases hs with hs | hs
  · obtain ⟨d, hd⟩ := hd hs
    obtain ⟨os, h1, _, _, h2⟩ := server_below hq (f := f) es w d hs hd hr hb
    rw [← signsOn_sight, h1, signsOn_append, signsOn_sight]
    suffices signsOn q c os = [] by rw [this, List.append_nil]
    rw [signsOn, List.filter_eq_nil_iff]
    intro o ho
    obtain ⟨c', e1, e2⟩ := h2 o ho
    rw [e1.signFor]
    have : c' ≠ c := fun e => by subst e; exact e2 hc
    simp [this]
  · obtain ⟨os, h1, h2⟩ := bare_server_below hq (fuel := f + 2) es w hs hr hb
    have h3 := h2 c
    rw [hc] at h3
    rw [← signsOn_sight, h1, signsOn_append, signsOn_sight]
    generalize signsOn q c os = os' at h3
    cases h3
    simp

/-- Where the reads of a stack come from. -/
theorem mem_evsAt {j : Nat} (ls : List NetLabel) : ∀ {s s' : Net}, exec (netStep fuel peer) s ls = some s' → ∀ e ∈ evsAt fuel peer j s ls,
    (∃ pre i c n post m d, ls = pre ++ .read i c n :: post ∧ exec (netStep fuel peer) s pre = some m ∧ peer i c = some (j, d) ∧ e = .read d ((m.stream i c).take n)) ∨
    ∃ pre c p post m, ls = pre ++ .put j c p :: post ∧ exec (netStep fuel peer) s pre = some m ∧ e = p.ev c := by
  induction ls with
  | nil => intro s s' _ e he; cases he
  | cons l ls ih =>
    intro s s' h e he
    obtain ⟨s1, h1, h2⟩ := exec_cons h
    rw [evsAt_cons h1] at he
    rcases List.mem_append.mp he with hx | hx
    · clear he
      cases l with
      | put i c p =>
        simp only [evAt] at hx
        split at hx
        · rename_i e1
          subst e1
          exact .inr ⟨[], c, p, ls, s, rfl, rfl, List.mem_singleton.mp hx⟩
        · cases hx
      | read i c n =>
        simp only [evAt] at hx
        split at hx
        · rename_i j' d hp
          split at hx
          · rename_i e1
            subst e1
            exact .inl ⟨[], i, c, n, ls, s, d, rfl, rfl, hp, List.mem_singleton.mp hx⟩
          · cases hx
        · cases hx
    · have hex : ∀ pre m, exec (netStep fuel peer) s1 pre = some m → exec (netStep fuel peer) s (l :: pre) = some m := by
        intro pre m h
        simp only [Trace.exec, h1]
        exact h
      rcases ih h2 e hx with ⟨pre, i, c, n, post, m, d, a1, a2, a3, a4⟩ | ⟨pre, c, p, post, m, a1, a2, a3⟩
      · exact .inl ⟨l :: pre, i, c, n, post, m, d, by rw [a1]; rfl, hex _ _ a2, a3, a4⟩
      · exact .inr ⟨l :: pre, c, p, post, m, by rw [a1]; rfl, hex _ _ a2, a3⟩

theorem mem_readsOn {c : ConnId} {es : List SrvEv} {bs : List Byte} (h : bs ∈ readsOn c es) : SrvEv.read c bs ∈ es := by
  induction es with
  | nil => simp [readsOn, allReads] at h
  | cons e es ih =>
    by_cases hne : ∀ c bs, e ≠ .read c bs
    · rw [readsOn, allReads_other hne] at h
      exact List.mem_cons_of_mem _ (ih h)
    · obtain ⟨c', bs', rfl⟩ : ∃ c bs, e = .read c bs := by
        apply Classical.byContradiction
        intro h
        exact hne fun c bs e => h ⟨c, bs, e⟩
      rw [readsOn_read] at h
      split at h
      · rename_i e
        subst e
        rcases List.mem_cons.mp h with rfl | h
        · exact List.mem_cons_self ..
        · exact List.mem_cons_of_mem _ (ih h)
      · exact List.mem_cons_of_mem _ (ih h)

/-- Packets that take the bytes of a prefix are a prefix. -/
theorem packets_prefix {w : World} {k : Nat} {P U V T : List Packet} {r : List Byte} (hU : ∃ S, P = U ++ S) (hV : P = V ++ T) (hne : ∀ p ∈ P, p.bytes w k ≠ [])
    (h : packets w k U ++ r = packets w k V) : ∃ now, V = U ++ now ∧ r = packets w k now := by
  obtain ⟨S, hS⟩ := hU
  rcases List.append_eq_append_iff.mp (hS.symm.trans hV) with ⟨e, h1, h2⟩ | ⟨e, h1, h2⟩
  · refine ⟨e, h1, ?_⟩
    rw [h1, packets_append] at h
    exact List.append_cancel_left h
  · have h3 := packets_length (w := w) (k := k) (ps := e) fun p hp => hne p (by rw [hS, h1]; simp [hp])
    have h4 := congrArg List.length h
    rw [h1, packets_append] at h4
    simp only [List.length_append] at h4
    have he : e = [] := List.length_eq_zero_iff.mp (by omega)
    have hr : r = [] := List.length_eq_zero_iff.mp (by omega)
    subst he
    exact ⟨[], by simpa using h1.symm, by simp [hr, packets]⟩

theorem putOn_append (i : Nat) (c : ConnId) (a b : List NetLabel) : putOn i c (a ++ b) = putOn i c a ++ putOn i c b := by
  simp [putOn, List.filterMap_append]

theorem mem_putOn {i : Nat} {c : ConnId} {ls : List NetLabel} {p : Packet} (h : p ∈ putOn i c ls) : NetLabel.put i c p ∈ ls := by
  simp only [putOn, List.mem_filterMap] at h
  obtain ⟨l, h1, h2⟩ := h
  cases l with
  | read => cases h2
  | put i' c' p' =>
    simp only at h2
    split at h2
    · rename_i e
      obtain ⟨rfl, rfl⟩ := e
      cases h2
      exact h1
    · cases h2

/-- C74 exactly, for networks of stacks with one FrameDecoder, at the bottom, or none, and executions in which no read makes a stack write: let packets be sent in
any order and read back in any pieces.  When nothing is on its way any more, everything that was sent has been seen at the other end of its connection, once and
in order, exactly if every read took whole packets, and by a stack without FrameDecoder exactly one. -/
theorem c74_exact (hr : NetReady fuel peer k s0) (hn : NetSingle peer k s0) (ls : List NetLabel) (ht : NetTry fuel peer k s0 s0 ls)
    (hu : Unanswered fuel peer s0 ls) (s : Net) (hs : exec (netStep fuel peer) s0 ls = some s) (hdry : ∀ i c e, peer i c = some e → s.stream i c = []) :
    (∀ i c j d, peer i c = some (j, d) → seenOn d (s.world j).trace = (putOn i c ls).map (Packet.arrives d)) ↔ NetRun fuel peer k s0 ls := by
  constructor
  · intro hseen pre l post m hls hm
    have hl := ht pre l post m hls hm
    cases l with
    | put i c p => exact hl
    | read i c n =>
      obtain ⟨j, d, hpeer, hn0, hnl, hmtu⟩ := hl
      have hflow0 := NetFlow.init hr hn
      have hh := hn j (.inr ⟨i, c, d, hpeer⟩)
      have hcarj := (hr.receiver i c j d hpeer).1
      let es := evsAt fuel peer j s0 ls
      have hokAll : ∀ i' c' d', peer i' c' = some (j, d') → ∀ p ∈ putOn i' c' ls, p.Ok (s0.world i') (s0.world j) (k i') := by
        intro i' c' d' hp' p hp
        obtain ⟨a, b, hab⟩ := List.append_of_mem (mem_putOn hp)
        cases ha : exec (netStep fuel peer) s0 a with
        | none => rw [hab, exec_append, ha] at hs; cases hs
        | some m' =>
          obtain ⟨j', d'', e1, e2⟩ := ht a _ b m' hab ha
          rw [hp'] at e1
          injection e1 with e1
          injection e1 with e1 _
          subst e1
          exact e2
      have hconv : ∀ i' c' d', peer i' c' = some (j, d') → ∀ ps, (∀ p ∈ ps, p ∈ putOn i' c' ls) → packets (s0.world j) (k j) ps = packets (s0.world i') (k i') ps := by
        intro i' c' d' hp' ps hps
        obtain ⟨_, hkj, hmat, _⟩ := hr.receiver i' c' j d' hp'
        rw [packets, packets, hkj]
        congr 1
        exact List.map_congr_left fun p hp => p.bytes_matching hmat (hr.sender i' c' _ hp').pos (hokAll i' c' d' hp' p (hps p hp)).lt
      -- what was sent to each connection of stack `j`
      have hps : ∃ ps : ConnId → List Packet, (∀ i' c' d', peer i' c' = some (j, d') → ps d' = putOn i' c' ls) ∧
          ∀ d', (∀ i' c', peer i' c' ≠ some (j, d')) → ps d' = [] := by
        classical
        refine ⟨fun d' => if h : ∃ e : Nat × ConnId, peer e.1 e.2 = some (j, d') then putOn h.choose.1 h.choose.2 ls else [], fun i' c' d' hp' => ?_, fun d' hno => ?_⟩
        · have h : ∃ e : Nat × ConnId, peer e.1 e.2 = some (j, d') := ⟨(i', c'), hp'⟩
          simp only [dif_pos h]
          obtain ⟨e1, e2⟩ := hr.inj _ _ i' c' _ h.choose_spec hp'
          rw [e1, e2]
        · simp only
          rw [dif_neg]
          rintro ⟨e, he⟩
          exact hno _ _ he
      obtain ⟨ps, hps1, hps2⟩ := hps
      have hreads : Reads (s0.world j) es := by
        intro d' bs hmem
        rcases mem_evsAt ls hs _ hmem with ⟨pre', i', c', n', post', m', d'', a1, a2, a3, a4⟩ | ⟨pre', c', p', post', m', a1, a2, a3⟩
        · obtain ⟨j', d3, b1, b2, b3, b4⟩ := ht pre' _ post' m' a1 a2
          rw [a3] at b1
          injection b1 with b1
          injection b1 with b1 _
          subst b1
          injection a4 with _ a4
          subst a4
          have hlen : ((m'.stream i' c').take n').length = n' := by rw [List.length_take]; omega
          exact ⟨fun e => by rw [e] at hlen; simp at hlen; omega, by rw [hlen]; exact b4⟩
        · exact absurd a3.symm (Packet.ev_ne c' p' _ _)
      have hbytes : ByteConns (s0.world j) es := by
        intro e hmem
        rcases mem_evsAt ls hs _ hmem with ⟨pre', i', c', n', post', m', d'', a1, a2, a3, a4⟩ | ⟨pre', c', p', post', m', a1, a2, a3⟩
        · subst a4
          exact (hr.receiver i' c' j d'' a3).2.2.2
        · obtain ⟨j', d3, b1, _⟩ := ht pre' _ post' m' a1 a2
          rw [a3, Packet.ev_conn]
          exact (hr.open_ j c' _ b1).1
      have hnoread : ∀ d', (∀ i' c', peer i' c' ≠ some (j, d')) → readsOn d' es = [] := by
        intro d' hno
        cases hro : readsOn d' es with
        | nil => rfl
        | cons bs bss =>
          have hmem := mem_readsOn (c := d') (es := es) (bs := bs) (by rw [hro]; simp)
          rcases mem_evsAt ls hs _ hmem with ⟨pre', i', c', n', post', m', d'', a1, a2, a3, a4⟩ | ⟨pre', c', p', post', m', a1, a2, a3⟩
          · injection a4 with a4 _
            subst a4
            exact absurd a3 (hno i' c')
          · exact absurd a3.symm (Packet.ev_ne c' p' _ _)
      have hbrings : Brings isSign (s0.world j) (k j) ps es := by
        refine ⟨fun d' p hp => ⟨?_, arrives_isSign _ _⟩, fun d' => ?_⟩
        · by_cases hex : ∃ i' c', peer i' c' = some (j, d')
          · obtain ⟨i', c', hp'⟩ := hex
            rw [hps1 i' c' d' hp'] at hp
            obtain ⟨_, hkj, hmat, _⟩ := hr.receiver i' c' j d' hp'
            have := (hokAll i' c' d' hp' p hp).received hmat (hr.sender i' c' _ hp') (hkj ▸ hcarj)
            rw [← hkj] at this
            exact this
          · rw [hps2 d' fun i' c' h => hex ⟨i', c', h⟩] at hp
            cases hp
        · by_cases hex : ∃ i' c', peer i' c' = some (j, d')
          · obtain ⟨i', c', hp'⟩ := hex
            have := (flow_total hr hn hp' ls hflow0 ht hu hs).2
            rw [hdry i' c' _ hp', hr.empty, List.append_nil, List.nil_append] at this
            rw [hps1 i' c' d' hp', hconv i' c' d' hp' _ fun _ h => h]
            exact this
          · have hno : ∀ i' c', peer i' c' ≠ some (j, d') := fun i' c' h => hex ⟨i', c', h⟩
            rw [hnoread d' hno, hps2 d' hno]
            rfl
      have hfu := hr.fuel j
      have hrunj : runAll fuel es (s0.world j) = (.ok (), s.world j) := evsAt_run ls hs
      have hseen' : Seen isSign (s0.world j) (runAll fuel es (s0.world j)).2 ps := by
        intro d'
        have hq0 : signsOn isSign d' (s0.world j).trace = [] := by rw [hr.quiet]; rfl
        by_cases hex : ∃ i' c', peer i' c' = some (j, d')
        · obtain ⟨i', c', hp'⟩ := hex
          rw [hrunj, hq0, List.nil_append, hps1 i' c' d' hp', ← signsOn_seenOn]
          simp only
          rw [hseen i' c' j d' hp', signsOn_arrives _ _ _ fun p _ => arrives_isSign d' p, if_pos rfl]
        · have hno : ∀ i' c', peer i' c' ≠ some (j, d') := fun i' c' h => hex ⟨i', c', h⟩
          have hq := hflow0.caches j (.inr ⟨i, c, d, hpeer⟩)
          obtain ⟨f, rfl⟩ : ∃ f, fuel = f + 2 := ⟨fuel - 2, by have := hh.stand.pos; omega⟩
          rw [unread deaf_isSign hh hq hreads hbytes (hnoread d' hno), hps2 d' hno, hq0]
          rfl
      -- the read in question
      have hsplit : ∃ rest, readsOn d es = readsOn d (evsAt fuel peer j s0 pre) ++ (m.stream i c).take n :: rest := by
        have hexm : exec (netStep fuel peer) m (.read i c n :: post) = some s := by
          rw [hls, exec_append, hm] at hs
          exact hs
        obtain ⟨m1, e1, e2⟩ := exec_cons hexm
        refine ⟨readsOn d (evsAt fuel peer j m1 post), ?_⟩
        show readsOn d (evsAt fuel peer j s0 ls) = _
        rw [hls, evsAt_append pre _ hm, readsOn_append, evsAt_cons e1, readsOn_append]
        congr 1
        simp only [evAt, hpeer, if_true, readsOn_read]
        rfl
      obtain ⟨rest, hsplit⟩ := hsplit
      have hflow := (flow_total hr hn hpeer pre hflow0 (fun a l b m' e he => ht a l (b ++ .read i c n :: post) m' (by rw [hls, e]; simp) he)
        (fun a l b m' m'' e he => hu a l (b ++ .read i c n :: post) m' m'' (by rw [hls, e]; simp) he) hm).2
      rw [hr.empty, List.nil_append] at hflow
      have hput : putOn i c ls = putOn i c pre ++ putOn i c post := by
        rw [hls, putOn_append]
        congr 1
      have hpd : ps d = putOn i c ls := hps1 i c d hpeer
      have hne : ∀ p ∈ putOn i c ls, p.bytes (s0.world i) (k i) ≠ [] := fun p hp => (hokAll i c d hpeer p hp).bytes_ne
      have hread : ∃ past now T, putOn i c ls = past ++ now ++ T ∧ (readsOn d (evsAt fuel peer j s0 pre)).flatten = packets (s0.world i) (k i) past ∧
          (m.stream i c).take n = packets (s0.world i) (k i) now ∧
          (now.length = 1 ∨ k j + 1 < (s0.world j).n ∧ Frames ((s0.world j).procs ((s0.world j).n - 1))) := by
        rcases hh with hh | hh
        · have hcuts := (server_packets hh hcarj deaf_isSign es ps hbrings (fun _ => .inr hfu) hreads hbytes).1 hseen' d
          obtain ⟨a, ha⟩ := hcuts (readsOn d (evsAt fuel peer j s0 pre)).length
          obtain ⟨b, hb⟩ := hcuts ((readsOn d (evsAt fuel peer j s0 pre)).length + 1)
          rw [hsplit, List.take_left, hpd, hconv i c d hpeer _ fun p hp => List.mem_of_mem_take hp] at ha
          have htk : ∀ (A : List (List Byte)) (x : List Byte) (B : List (List Byte)), (A ++ x :: B).take (A.length + 1) = A ++ [x] := by
            intro A x B
            rw [List.take_append, List.take_of_length_le (by omega)]
            simp
          rw [hsplit, htk, hpd, hconv i c d hpeer _ fun p hp => List.mem_of_mem_take hp, List.flatten_append, ha] at hb
          simp only [List.flatten_cons, List.flatten_nil, List.append_nil] at hb
          obtain ⟨now, g1, g2⟩ := packets_prefix (P := putOn i c ls) (T := (putOn i c ls).drop b) ⟨(putOn i c ls).drop a, (List.take_append_drop ..).symm⟩
            (List.take_append_drop ..).symm hne hb
          exact ⟨_, now, (putOn i c ls).drop b, by rw [← g1, List.take_append_drop], ha, g2, .inr ⟨hh.pos, hh.frames⟩⟩
        · have hcuts := bare_only deaf_isSign (fuel := fuel) hh hbrings hreads hbytes hseen' d
          rw [hsplit, hpd] at hcuts
          obtain ⟨past, l2, e1, e2, e3⟩ := List.map_eq_append_iff.mp hcuts.symm
          obtain ⟨p, T, rfl, e4, _⟩ := List.map_eq_cons_iff.mp e3
          refine ⟨past, [p], T, by rw [e1]; simp, ?_, ?_, .inl rfl⟩
          · rw [← hconv i c d hpeer past fun q hq => by rw [e1]; simp [hq], packets, e2]
          · rw [← hconv i c d hpeer [p] fun q hq => by rw [e1, List.mem_singleton.mp hq]; simp, ← e4]
            simp [packets]
      obtain ⟨past, now, T, hP, ha, g2, hfin⟩ := hread
      rw [ha] at hflow
      have hflow' : packets (s0.world i) (k i) (past ++ now) ++ (m.stream i c).drop n = packets (s0.world i) (k i) (putOn i c pre) := by
        rw [packets_append, ← g2, List.append_assoc, List.take_append_drop]
        exact hflow
      obtain ⟨later, g3, g4⟩ := packets_prefix (P := putOn i c ls) (T := putOn i c post) ⟨T, hP⟩ hput hne hflow'
      refine ⟨j, d, past, now, later, hpeer, g3, g2, g4, ?_, hmtu, hfin⟩
      intro e
      rw [e] at g2
      have hlen : ((m.stream i c).take n).length = n := by rw [List.length_take]; omega
      rw [g2] at hlen
      simp [packets] at hlen
      omega
  · intro hrun i c j d hpeer
    exact c74_drained_partial hr ls hrun s hs i c j d hpeer (hdry i c _ hpeer)

/-- Without StatCounters nothing is ever answered. -/
theorem statless_unanswered (hr : NetReady fuel peer k s0) (hn : NetSingle peer k s0) (hst : ∀ i, Joined peer i → Statless (k i) (s0.world i))
    (ls : List NetLabel) (ht : NetTry fuel peer k s0 s0 ls) : Unanswered fuel peer s0 ls := by
  have step : ∀ {s s' : Net} (_ : NetFlow peer k s0 s) {l : NetLabel} (_ : NetTries peer k s0 s l) (_ : netStep fuel peer s l = some s'), Inward s s' l := by
    intro s s' inv l hl hs
    cases l with
    | put => trivial
    | read i c n =>
      obtain ⟨j, d, hpeer, hn0, hnl, hmtu⟩ := hl
      have hJ : Joined peer j := .inr ⟨i, c, d, hpeer⟩
      have hev := inv.ev j
      have hlen : ((s.stream i c).take n).length = n := by rw [List.length_take]; omega
      have hne : (s.stream i c).take n ≠ [] := fun e => by rw [e] at hlen; simp at hlen; omega
      obtain ⟨f, rfl⟩ : ∃ f, fuel = f + 1 := ⟨fuel - 1, by have := hr.fuel j; omega⟩
      simp only [netStep, hpeer] at hs
      have hq := inv.caches j hJ
      rcases hrun : receive (f + 1) d ((s.stream i c).take n) (s.world j) with ⟨r, w'⟩
      rw [hrun] at hs
      cases r with
      | panic => cases hs
      | running => cases hs
      | ok x =>
        simp only [Option.some.injEq] at hs
        subst hs
        have := read_statless ((hn j hJ).evolves hev) ((hst j hJ).evolves hev) (by rw [hev.useRef]; exact (hr.receiver i c j d hpeer).2.2.2) hq hne
          (by rw [hlen, hev.mtu]; exact hmtu) x hrun
        intro j'
        by_cases e : j' = j
        · subst e; rw [Net.after_world_self]; exact this
        · rw [Net.after_world_ne _ _ e]
          show ∀ o ∈ (s.world j').trace.drop (s.world j').trace.length, _
          simp
  have walk : ∀ (ls : List NetLabel) (s : Net), NetFlow peer k s0 s → NetTry fuel peer k s0 s ls → Unanswered fuel peer s ls := by
    intro ls
    induction ls with
    | nil => intro s _ _ pre l post m m' e; simp at e
    | cons l ls ih =>
      intro s inv ht pre l' post m m' e he hm
      cases pre with
      | nil =>
        injection e with e1 e2
        subst e1
        cases he
        exact step inv ht.head hm
      | cons x pre =>
        injection e with e1 e2
        subst e1
        obtain ⟨s1, h1, h2⟩ := exec_cons he
        exact ih s1 (net_flow hr hn inv ht.head h1 (step inv ht.head h1)).1 (ht.tail h1) pre l' post m m' e2 h2 hm
  exact walk ls s0 (.init hr hn) ht

/-- C103 for a server that also receives heartbeats: if all messages and all heartbeats that were sent are seen, each once, in order and for its connection,
then every read ended at the end of one; and if every read does and nothing crashed, all are seen. -/
theorem c103_server_beats (w : World) (k : Nat) (hcar : Carrier w k) (hk : k + 1 < w.n)
    (hcodec : (w.procs k).kind = .bytesCodec ∨ (w.procs k).kind = .stringCodec)
    (hfr : Frames (w.procs (w.n - 1))) (honly : ∀ j, k < j → j < w.n - 1 → ¬ Frames (w.procs j))
    (es : List SrvEv) (hb : ∀ e ∈ es, (w.conns e.conn).useRef = false) (hr : ∀ c bs, SrvEv.read c bs ∈ es → bs ≠ [] ∧ (bs.length : Int) ≤ w.mtu)
    (ps : ConnId → List Packet) (hp : ∀ c, ∀ p ∈ ps c, p.Ok w w k)
    (hcut : ∀ c, (readsOn c es).flatten = packets w k (ps c)) (fuel : Nat) (hf : w.n + w.mtu.toNat + 1 < fuel)
    (r : Res Unit) (w' : World) (hrun : runAll fuel es w = (r, w')) :
    ((∀ c, w'.trace.filter (signFor c) = w.trace.filter (signFor c) ++ (ps c).map (Packet.arrives c)) →
      ∀ c j, ∃ i, ((readsOn c es).take j).flatten = packets w k ((ps c).take i)) ∧
    ((∀ c j, ∃ i, ((readsOn c es).take j).flatten = packets w k ((ps c).take i)) → r = .ok () →
      ∀ c, w'.trace.filter (signFor c) = w.trace.filter (signFor c) ++ (ps c).map (Packet.arrives c)) := by
  have hh : Hall k w := ⟨hk, hcar.quiet, by
    have := hcar.codecOn
    generalize w.procs k = p at hcodec this ⊢
    obtain ⟨en, kd⟩ := p
    simp only at this hcodec
    subst this
    rcases hcodec with h | h <;> rw [h] <;> simp, hcar.opens, honly, hfr⟩
  have hsg : ∀ c t, signsOn isSign c t = t.filter (signFor c) := by
    intro c t
    rw [signsOn]
    congr 1
    funext o
    cases o with
    | rx ep c' v => cases c' <;> simp [isSign]
    | beat h c' => cases c' <;> simp [isSign]
    | _ => simp [isSign, signFor]
  obtain ⟨h1, h2⟩ := server_packets hh hcar deaf_isSign es ps ⟨fun c p h => ⟨hp c p h, arrives_isSign _ _⟩, hcut⟩ (fun _ => .inr hf) hr hb
  rw [hrun] at h1 h2
  simp only [Seen, hsg] at h1 h2
  exact ⟨h1, h2⟩

/-! ### Examples: two stacks with bytes codec, SessionResolver, Heartbeat and FrameDecoder -/

def quad : World :=
  { quiet with
    mtu := 64
    overhead := 9
    n := 4
    procs := fun j => match j with
      | 0 => ⟨true, .bytesCodec⟩
      | 1 => ⟨true, .session⟩
      | 2 => ⟨true, .heartbeat⟩
      | _ => ⟨true, .frame (some UBuf.demo)⟩ }

theorem quad_opens : ∀ j, 0 < j → j < 4 → Opens (quad.procs j) := by
  intro j h1 h2
  match j, h1, h2 with
  | 1, _, _ => trivial
  | 2, _, _ => trivial
  | 3, _, _ => trivial

theorem quad_carrier : Carrier quad 0 := by
  refine ⟨by decide, fun j h => absurd h (by omega), rfl, quad_opens, fun j h1 h2 h3 => ?_, rfl, by decide⟩
  match j, h1, h2, h3 with
  | 1, _, _, ⟨⟨c, h⟩, _⟩ => cases h
  | 2, _, _, ⟨⟨c, h⟩, _⟩ => cases h
  | 3, _, _, _ => exact ⟨UBuf.demo, rfl, demo_buf.1, demo_buf.data⟩

theorem quad_message (b : List Byte) (h1 : b ≠ []) (h2 : b.length ≤ 54) : Message quad 0 (.bytes b) b 3 :=
  ⟨.bytes b, h1, by simp only [quad]; omega, by decide, by decide, .inl ⟨1, by decide, by decide, rfl, rfl⟩⟩

theorem quad_hall : Hall 0 quad := by
  refine ⟨by decide, fun j h => absurd h (by omega), .inl rfl, quad_opens, fun j h1 h2 h3 => ?_, ⟨⟨_, rfl⟩, rfl⟩⟩
  match j, h1, h2, h3 with
  | 1, _, _, ⟨⟨c, h⟩, _⟩ => cases h
  | 2, _, _, ⟨⟨c, h⟩, _⟩ => cases h

theorem quad_statless : Statless 0 quad := by
  intro j h1 h2 tx rx e
  match j, h1, h2, e with
  | 1, _, _, e => cases e
  | 2, _, _, e => cases e
  | 3, _, _, e => cases e

def quadNet : Net := ⟨fun _ => quad, fun _ _ => []⟩

theorem quad_ready : NetReady 80 pairPeer (fun _ => 0) quadNet where
  quiet := fun _ => rfl
  empty := fun _ _ => rfl
  inj := pair_ready.inj
  sender := fun _ _ _ _ => quad_carrier
  receiver := fun _ _ _ _ _ => ⟨quad_carrier, rfl, ⟨rfl, rfl, fun _ _ => .refl _⟩, rfl⟩
  open_ := fun _ _ _ _ => ⟨rfl, rfl⟩
  writes := fun _ _ _ _ _ _ => rfl
  fuel := fun _ => (by decide : quad.n + quad.mtu.toNat + 1 < 80)

theorem quad_single : NetSingle pairPeer (fun _ => 0) quadNet := fun _ _ => .inl quad_hall

theorem quad_unanswered {ls : List NetLabel} (ht : NetTry 80 pairPeer (fun _ => 0) quadNet quadNet ls) : Unanswered 80 pairPeer quadNet ls :=
  statless_unanswered quad_ready quad_single (fun _ _ => quad_statless) ls ht

/-- A message and a heartbeat one way, a message the other way; the first read ends inside the heartbeat. -/
def quadBad : List NetLabel := [.put 0 0 pairMsg, .put 0 0 (.beat 2), .read 0 0 12, .put 1 0 pairMsg, .read 1 0 10, .read 0 0 3]

/-- The same with reads that end at the ends of packets. -/
def quadGood : List NetLabel := [.put 0 0 pairMsg, .put 0 0 (.beat 2), .read 0 0 10, .put 1 0 pairMsg, .read 1 0 10, .read 0 0 5]

theorem NetTry.snoc {ls : List NetLabel} {l : NetLabel} (h : NetTry fuel peer k s0 s0 ls) (hl : ∀ s, exec (netStep fuel peer) s0 ls = some s → NetTries peer k s0 s l) :
    NetTry fuel peer k s0 s0 (ls ++ [l]) := by
  intro pre l' post s e he
  rcases List.eq_nil_or_concat post with rfl | ⟨post', x, rfl⟩
  · obtain ⟨rfl, e1⟩ := List.append_inj' e rfl
    injection e1 with e1
    subst e1
    exact hl s he
  · simp only [List.concat_eq_append, ← List.cons_append, ← List.append_assoc] at e
    obtain ⟨e, -⟩ := List.append_inj' e rfl
    exact h pre l' post' s e he

theorem tries_read {ls : List NetLabel} {i j n : Nat} {c d : ConnId} (hp : peer i c = some (j, d)) (hn : 0 < n) (hm : (n : Int) ≤ (s0.world j).mtu)
    (h : (exec (netStep fuel peer) s0 ls).all (fun s => decide (n ≤ (s.stream i c).length)) = true) :
    ∀ s, exec (netStep fuel peer) s0 ls = some s → NetTries peer k s0 s (.read i c n) := by
  intro s hs
  rw [hs] at h
  simp only [Option.all_some, decide_eq_true_eq] at h
  exact ⟨j, d, hp, hn, h, hm⟩

theorem quadBad_try : NetTry 80 pairPeer (fun _ => 0) quadNet quadNet quadBad := by
  have h0 : NetTry 80 pairPeer (fun _ => 0) quadNet quadNet [] := by
    intro pre l post s e
    simp at e
  have h1 := h0.snoc (l := .put 0 0 pairMsg) fun s _ => ⟨1, 0, rfl, quad_message _ (by simp) (by simp), rfl⟩
  have h2 := h1.snoc (l := .put 0 0 (.beat 2)) fun s _ => ⟨1, 0, rfl, by decide, by decide, rfl, by decide⟩
  have h3 := h2.snoc (l := .read 0 0 12) (tries_read (j := 1) (d := 0) rfl (by decide) (by decide) (by decide +kernel))
  have h4 := h3.snoc (l := .put 1 0 pairMsg) fun s _ => ⟨0, 0, rfl, quad_message _ (by simp) (by simp), rfl⟩
  have h5 := h4.snoc (l := .read 1 0 10) (tries_read (j := 0) (d := 0) rfl (by decide) (by decide) (by decide +kernel))
  exact h5.snoc (l := .read 0 0 3) (tries_read (j := 1) (d := 0) rfl (by decide) (by decide) (by decide +kernel))

theorem quadGood_try : NetTry 80 pairPeer (fun _ => 0) quadNet quadNet quadGood := by
  have h0 : NetTry 80 pairPeer (fun _ => 0) quadNet quadNet [] := by
    intro pre l post s e
    simp at e
  have h1 := h0.snoc (l := .put 0 0 pairMsg) fun s _ => ⟨1, 0, rfl, quad_message _ (by simp) (by simp), rfl⟩
  have h2 := h1.snoc (l := .put 0 0 (.beat 2)) fun s _ => ⟨1, 0, rfl, by decide, by decide, rfl, by decide⟩
  have h3 := h2.snoc (l := .read 0 0 10) (tries_read (j := 1) (d := 0) rfl (by decide) (by decide) (by decide +kernel))
  have h4 := h3.snoc (l := .put 1 0 pairMsg) fun s _ => ⟨0, 0, rfl, quad_message _ (by simp) (by simp), rfl⟩
  have h5 := h4.snoc (l := .read 1 0 10) (tries_read (j := 0) (d := 0) rfl (by decide) (by decide) (by decide +kernel))
  exact h5.snoc (l := .read 0 0 5) (tries_read (j := 1) (d := 0) rfl (by decide) (by decide) (by decide +kernel))

theorem quad_dry {ls : List NetLabel} (h : (exec (netStep 80 pairPeer) quadNet ls).all (fun s => s.stream 0 0 == [] && s.stream 1 0 == []) = true) (s : Net)
    (hs : exec (netStep 80 pairPeer) quadNet ls = some s) : ∀ i c e, pairPeer i c = some e → s.stream i c = [] := by
  intro i c e hp
  rw [hs] at h
  simp only [Option.all_some, Bool.and_eq_true, beq_iff_eq] at h
  simp only [pairPeer] at hp
  split at hp
  · rename_i h'
    obtain ⟨hi, rfl⟩ := h'
    match i, hi with
    | 0, _ => exact h.1
    | 1, _ => exact h.2
  · cases hp

/-- Both executions exist and are drained; the first does not deliver everything, hence some read ended inside a packet. -/
example : ¬ NetRun 80 pairPeer (fun _ => 0) quadNet quadBad := by
  cases h : exec (netStep 80 pairPeer) quadNet quadBad with
  | none =>
    have : (exec (netStep 80 pairPeer) quadNet quadBad).isSome = true := by decide +kernel
    rw [h] at this; cases this
  | some s =>
    intro hrun
    have hall := (c74_exact quad_ready quad_single quadBad quadBad_try (quad_unanswered quadBad_try) s h (quad_dry (by decide +kernel) s h)).2 hrun 0 0 1 0 rfl
    have : (exec (netStep 80 pairPeer) quadNet quadBad).all (fun s => seenOn 0 (s.world 1).trace != (putOn 0 0 quadBad).map (Packet.arrives 0)) = true := by decide +kernel
    rw [h] at this
    simp only [Option.all_some, bne_iff_ne] at this
    exact this hall

example : ∃ s, exec (netStep 80 pairPeer) quadNet quadGood = some s ∧
    ((∀ i c j d, pairPeer i c = some (j, d) → seenOn d (s.world j).trace = (putOn i c quadGood).map (Packet.arrives d)) ↔
      NetRun 80 pairPeer (fun _ => 0) quadNet quadGood) ∧ seenOn 0 (s.world 1).trace = [pairMsg.arrives 0, (Packet.beat 2).arrives 0] := by
  cases h : exec (netStep 80 pairPeer) quadNet quadGood with
  | none =>
    have : (exec (netStep 80 pairPeer) quadNet quadGood).isSome = true := by decide +kernel
    rw [h] at this; cases this
  | some s =>
    refine ⟨s, rfl, c74_exact quad_ready quad_single quadGood quadGood_try (quad_unanswered quadGood_try) s h (quad_dry (by decide +kernel) s h), ?_⟩
    have : (exec (netStep 80 pairPeer) quadNet quadGood).all (fun s => seenOn 0 (s.world 1).trace == [pairMsg.arrives 0, (Packet.beat 2).arrives 0]) = true := by decide +kernel
    rw [h] at this
    simpa using this

/-! The same stacks without FrameDecoder. -/

def trio : World := { quad with overhead := 5, n := 3 }

theorem trio_opens : ∀ j, 0 < j → j < 3 → Opens (trio.procs j) := fun j h1 h2 => quad_opens j h1 (by omega)

theorem trio_unframed : ∀ j, 0 < j → j < 3 → ¬ Frames (trio.procs j) := by
  intro j h1 h2 h3
  match j, h1, h2, h3 with
  | 1, _, _, ⟨⟨c, h⟩, _⟩ => cases h
  | 2, _, _, ⟨⟨c, h⟩, _⟩ => cases h

theorem trio_carrier : Carrier trio 0 :=
  ⟨by decide, fun j h => absurd h (by omega), rfl, trio_opens, fun j h1 h2 h3 => absurd h3 (trio_unframed j h1 h2), rfl, by decide⟩

theorem trio_bare : Unframed 0 trio := ⟨⟨by decide, fun j h => absurd h (by omega), .inl rfl, trio_opens⟩, trio_unframed⟩

theorem trio_message (b : List Byte) (h1 : b ≠ []) (h2 : b.length ≤ 58) : Message trio 0 (.bytes b) b 3 :=
  ⟨.bytes b, h1, by simp only [trio, quad]; omega, by decide, by decide, .inl ⟨1, by decide, by decide, rfl, rfl⟩⟩

def trioNet : Net := ⟨fun _ => trio, fun _ _ => []⟩

theorem trio_ready : NetReady 80 pairPeer (fun _ => 0) trioNet where
  quiet := fun _ => rfl
  empty := fun _ _ => rfl
  inj := pair_ready.inj
  sender := fun _ _ _ _ => trio_carrier
  receiver := fun _ _ _ _ _ => ⟨trio_carrier, rfl, ⟨rfl, rfl, fun _ _ => .refl _⟩, rfl⟩
  open_ := fun _ _ _ _ => ⟨rfl, rfl⟩
  writes := fun _ _ _ _ _ _ => rfl
  fuel := fun _ => (by decide : trio.n + trio.mtu.toNat + 1 < 80)

theorem trio_single : NetSingle pairPeer (fun _ => 0) trioNet := fun _ _ => .inr trio_bare

theorem trio_unanswered {ls : List NetLabel} (ht : NetTry 80 pairPeer (fun _ => 0) trioNet trioNet ls) : Unanswered 80 pairPeer trioNet ls :=
  statless_unanswered trio_ready trio_single (fun _ _ j h1 h2 => quad_statless j h1 (Nat.lt_succ_of_lt h2)) ls ht

/-- Two messages in one read. -/
def trioBad : List NetLabel := [.put 0 0 pairMsg, .put 0 0 pairMsg, .read 0 0 12]

/-- A read for each. -/
def trioGood : List NetLabel := [.put 0 0 pairMsg, .put 0 0 pairMsg, .read 0 0 6, .read 0 0 6]

theorem trio_try : NetTry 80 pairPeer (fun _ => 0) trioNet trioNet trioBad ∧ NetTry 80 pairPeer (fun _ => 0) trioNet trioNet trioGood := by
  have h0 : NetTry 80 pairPeer (fun _ => 0) trioNet trioNet [] := by
    intro pre l post s e
    simp at e
  have h1 := h0.snoc (l := .put 0 0 pairMsg) fun s _ => ⟨1, 0, rfl, trio_message _ (by simp) (by simp), rfl⟩
  have h2 := h1.snoc (l := .put 0 0 pairMsg) fun s _ => ⟨1, 0, rfl, trio_message _ (by simp) (by simp), rfl⟩
  have h3 := h2.snoc (l := .read 0 0 6) (tries_read (j := 1) (d := 0) rfl (by decide) (by decide) (by decide +kernel))
  exact ⟨h2.snoc (l := .read 0 0 12) (tries_read (j := 1) (d := 0) rfl (by decide) (by decide) (by decide +kernel)),
    h3.snoc (l := .read 0 0 6) (tries_read (j := 1) (d := 0) rfl (by decide) (by decide) (by decide +kernel))⟩

theorem trio_dry {ls : List NetLabel} (h : (exec (netStep 80 pairPeer) trioNet ls).all (fun s => s.stream 0 0 == [] && s.stream 1 0 == []) = true) (s : Net)
    (hs : exec (netStep 80 pairPeer) trioNet ls = some s) : ∀ i c e, pairPeer i c = some e → s.stream i c = [] := by
  intro i c e hp
  rw [hs] at h
  simp only [Option.all_some, Bool.and_eq_true, beq_iff_eq] at h
  simp only [pairPeer] at hp
  split at hp
  · rename_i h'
    obtain ⟨hi, rfl⟩ := h'
    match i, hi with
    | 0, _ => exact h.1
    | 1, _ => exact h.2
  · cases hp

/-- Two whole messages in one read are too many: they are not seen as sent. -/
example : ∃ s, exec (netStep 80 pairPeer) trioNet trioBad = some s ∧ seenOn 0 (s.world 1).trace ≠ [pairMsg.arrives 0, pairMsg.arrives 0] ∧
    ¬ NetRun 80 pairPeer (fun _ => 0) trioNet trioBad := by
  cases h : exec (netStep 80 pairPeer) trioNet trioBad with
  | none =>
    have : (exec (netStep 80 pairPeer) trioNet trioBad).isSome = true := by decide +kernel
    rw [h] at this; cases this
  | some s =>
    have : (exec (netStep 80 pairPeer) trioNet trioBad).all (fun s => seenOn 0 (s.world 1).trace != (putOn 0 0 trioBad).map (Packet.arrives 0)) = true := by decide +kernel
    rw [h] at this
    simp only [Option.all_some, bne_iff_ne] at this
    exact ⟨s, rfl, this, fun hrun => this
      ((c74_exact trio_ready trio_single trioBad trio_try.1 (trio_unanswered trio_try.1) s h (trio_dry (by decide +kernel) s h)).2 hrun 0 0 1 0 rfl)⟩

example : ∃ s, exec (netStep 80 pairPeer) trioNet trioGood = some s ∧ seenOn 0 (s.world 1).trace = [pairMsg.arrives 0, pairMsg.arrives 0] ∧
    ((∀ i c j d, pairPeer i c = some (j, d) → seenOn d (s.world j).trace = (putOn i c trioGood).map (Packet.arrives d)) ↔
      NetRun 80 pairPeer (fun _ => 0) trioNet trioGood) := by
  cases h : exec (netStep 80 pairPeer) trioNet trioGood with
  | none =>
    have : (exec (netStep 80 pairPeer) trioNet trioGood).isSome = true := by decide +kernel
    rw [h] at this; cases this
  | some s =>
    have : (exec (netStep 80 pairPeer) trioNet trioGood).all (fun s => seenOn 0 (s.world 1).trace == [pairMsg.arrives 0, pairMsg.arrives 0]) = true := by decide +kernel
    rw [h] at this
    exact ⟨s, rfl, by simpa using this, c74_exact trio_ready trio_single trioGood trio_try.2 (trio_unanswered trio_try.2) s h (trio_dry (by decide +kernel) s h)⟩

/-- Connection 0 brings a message and a heartbeat, and the stack answers between the reads. -/
example (fuel : Nat) (hf : 69 < fuel) (r : Res Unit) (w' : World)
    (hrun : runAll fuel [.read 0 (packets quad 0 [pairMsg]), .send 0 (.bytes [1]) 3, .read 0 (packets quad 0 [.beat 2])] quad = (r, w')) (hok : r = .ok ()) :
    w'.trace.filter (signFor 0) = [pairMsg.arrives 0, (Packet.beat 2).arrives 0] := by
  have := (c103_server_beats quad 0 quad_carrier (by decide) (.inl rfl) quad_hall.frames quad_hall.only _ (fun _ _ => rfl) (by
    intro c bs h
    simp only [List.mem_cons, SrvEv.read.injEq, List.not_mem_nil, or_false, reduceCtorEq, false_or] at h
    rcases h with ⟨_, rfl⟩ | ⟨_, rfl⟩ <;> decide) (fun c => if c = 0 then [pairMsg, .beat 2] else []) (by
      intro c p hp
      split at hp
      · simp only [List.mem_cons, List.not_mem_nil, or_false] at hp
        rcases hp with rfl | rfl
        · exact ⟨quad_message _ (by simp) (by simp), rfl⟩
        · exact ⟨by decide, by decide, rfl, by decide⟩
      · cases hp) (by
      intro c
      match c with
      | 0 => decide
      | c + 1 => simp [readsOn, allReads, packets]) fuel hf r w' hrun).2 (by
      intro c j
      match c, j with
      | 0, 0 => exact ⟨0, by decide⟩
      | 0, 1 => exact ⟨1, by decide⟩
      | 0, j + 2 => exact ⟨2, by simp [readsOn, allReads]; decide⟩
      | c + 1, j => exact ⟨0, by simp [readsOn, allReads, packets]⟩) hok 0
  simpa [quad, quiet] using this

end Verif.Stack
