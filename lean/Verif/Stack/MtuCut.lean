import Verif.Stack.CutExact

/-!
# C109: peers with different MTUs

The receive buffer of a stack has the size of its own MTU (proc_lowerdeck.go:86-93), so a read never brings more than that, and the FrameDecoder
(proc_frame_decoder.go:58-176) delivers everything only if every read ends at the end of a message.  `reads_need` is the necessary half of C103
without the assumption that the messages fit the receiver.
-/

namespace Verif.Stack
open GoM UBuf

variable {c : ConnId} {w : World}

/-- What the receiver needs to know of the messages: not empty, their values have the length of their bytes, and a length field can hold them. -/
def Sized (w : World) (k : Nat) (xs : List Item) : Prop :=
  ∀ x ∈ xs, x.b ≠ [] ∧ (∀ ep c', bulk (.rx ep c' x.v) = x.b.length) ∧ (payload w k x).length < 2 ^ 32

theorem payload_evolves {w' : World} (he : Evolves w w') (k : Nat) : payload w' k = payload w k := by
  funext x
  rw [payload, payload, he.n, wrap_same he.sameProc]

theorem Sized.evolves {w' : World} {k : Nat} {xs : List Item} (h : Sized w k xs) (he : Evolves w w') : Sized w' k xs :=
  fun x hx => by rw [payload_evolves he]; exact h x hx

theorem weight_sized {k : Nat} (xs : List Item) (hm : Sized w k xs) (cr : ConnId) :
    weight (needs w k) (rxs cr xs) = framed (xs.map (payload w k)) ∧
    (rxs cr xs).map (needs w k) = (xs.map (payload w k)).map List.length := by
  induction xs with
  | nil => exact ⟨rfl, rfl⟩
  | cons x xs ih =>
    obtain ⟨h1, h2⟩ := ih fun y hy => hm y (by simp [hy])
    have h3 := (hm x (by simp)).2.1 x.ep (some cr)
    have h4 : (payload w k x).length = inner w k + x.b.length := wrap_weight _ _ _
    simp only [rxs, List.map_cons, weight, List.sum_cons, framed_cons, needs_rx] at h1 h2 ⊢
    refine ⟨by rw [h1, h3, h4]; omega, by rw [h2, h3, h4, Nat.add_comm]⟩

theorem weight_append (N : Obs → Nat) (a b : List Obs) : weight N (a ++ b) = weight N a + weight N b := by simp [weight]

theorem boundaries_of_flatten_nil (ps : List (List Byte)) {bss : List (List Byte)} (h : bss.flatten = []) : AtBoundaries ps bss := by
  intro j
  refine ⟨0, ?_⟩
  have : bss.flatten = (bss.take j).flatten ++ (bss.drop j).flatten := by rw [← List.flatten_append, List.take_append_drop]
  rw [h] at this
  simpa [stream] using (List.append_eq_nil_iff.1 this.symm).1

/-- Whatever the sizes: if exactly the messages sent are delivered, every read ended at the end of a message. -/
theorem reads_need {k fuel : Nat} (bss : List (List Byte)) : ∀ (w : World) (xs : List Item), Sole c k w → Idle (w.n - 1) w → w.mtu < 2 ^ 32 → Sized w k xs →
    xs.length + 2 < fuel → (∀ bs ∈ bss, bs ≠ []) → (∀ bs ∈ bss, (bs.length : Int) ≤ w.mtu) → bss.flatten = wires w k xs →
    arrivals (receiveAll fuel c bss w).2.trace = arrivals w.trace ++ rxs c xs → AtBoundaries (xs.map (payload w k)) bss := by
  induction bss with
  | nil => intro w xs _ _ _ _ _ _ _ _ _; exact boundaries_of_flatten_nil _ rfl
  | cons bs bss ih =>
    intro w xs hs hidle hm32 hm hf hne hfit hcut harr
    have hb0 := hne bs (by simp)
    have hbl := hfit bs (by simp)
    rw [wires_stream hs, List.flatten_cons] at hcut
    have hpne : ∀ p ∈ xs.map (payload w k), p ≠ [] := by
      intro p hp
      obtain ⟨x, hx, rfl⟩ := List.mem_map.mp hp
      exact wrap_ne _ _ (hm x hx).1
    obtain ⟨f, rfl⟩ : ∃ f, fuel = f + 2 := ⟨fuel - 2, by omega⟩
    obtain ⟨d, hd, hd0⟩ := hidle.caches
    obtain ⟨q1, q2⟩ := weight_sized xs hm c
    have htot := congrArg List.length hcut
    rw [List.length_append, ← framed_eq_stream] at htot
    -- all that is delivered in the end
    rcases hrun : receive (f + 2) c bs w with ⟨r, w1⟩
    obtain ⟨ds, h1, h2, ⟨os, h3, h4⟩, h5⟩ := read_below (q := isRx) (.inl deaf_isRx) hs hd hb0 hbl r w1 hrun
    have hall : ∃ os' ps, arrivals (receiveAll (f + 2) c (bs :: bss) w).2.trace = arrivals w.trace ++ (os ++ os') ∧ Below c (needs w k) os' ps ∧
        framed ps ≤ (decodeRead (f + 1) d ds).cache.content.length + bss.flatten.length ∧ (Full (decodeRead (f + 1) d ds).cache → ps = []) ∧
        (os' ≠ [] → ∃ x, r = .ok x) := by
      cases r with
      | ok x =>
        obtain ⟨os', ps', b1, b2, b3, b4⟩ := reads_below (f := f) deaf_isRx bss w1 _ (hs.evolves h2) (by rw [h2.n]; exact h5 x rfl) (fun b hb => hne b (by simp [hb]))
          (fun b hb => by rw [h2.mtu]; exact hfit b (by simp [hb]))
        rw [needs_evolves h2] at b2
        refine ⟨os', ps', ?_, b2, b3, b4, fun _ => ⟨x, rfl⟩⟩
        simp only [receiveAll]
        rw [bind_of_ok hrun, show arrivals _ = _ from b1, show sight isRx w1.trace = _ from h3, List.append_assoc]; rfl
      | panic =>
        refine ⟨[], [], ?_, .nil, by simp [framed], fun _ => rfl, fun h => absurd rfl h⟩
        simp only [receiveAll]
        rw [bind_of_panic hrun, List.append_nil]; exact h3
      | running =>
        refine ⟨[], [], ?_, .nil, by simp [framed], fun _ => rfl, fun h => absurd rfl h⟩
        simp only [receiveAll]
        rw [bind_apply, hrun, List.append_nil]; exact h3
    obtain ⟨os', ps, g1, g2, g3, g4, g5⟩ := hall
    have hsum : os ++ os' = rxs c xs := by
      rw [g1] at harr
      exact List.append_cancel_left harr
    have hw1 := h4.weight_le
    have hw2 := g2.weight_le
    have hw := weight_append (needs w k) os os'
    rw [hsum, q1] at hw
    rcases prefix_cases _ bs bss.flatten hcut with ⟨j, hj, hbs, hrest⟩ | ⟨qs, p, qs', rr, hps, hbs, hrr, hrl, hrp⟩
    · -- a read that ends at the end of a message
      have hstream : decodeRead (f + 1) d ds = _ := decodeRead_stream (fun p hp => hpne p (List.mem_of_mem_take hp)) hd0 (by rw [h1, hbs]) (by rw [← hbs]; omega)
        (by simp only [List.length_take, List.length_map]; omega)
      rw [hstream] at h4 h5 g3 hw1
      dsimp only at h4 h5 g3 hw1
      have hl1 := congrArg List.length hbs
      have hl2 := congrArg List.length hrest
      rw [← framed_eq_stream] at hl1 hl2
      simp only [Deque.clear, List.length_nil, Nat.zero_add] at g3
      have he := h4.exact (by omega)
      have hlen : os.length = j := by
        have := congrArg List.length he
        simp only [List.length_map, List.length_take] at this hj
        omega
      have hos' : os' = rxs c (xs.drop j) := by
        have h6 := congrArg (List.drop j) hsum
        rw [List.drop_left' hlen] at h6
        rw [h6]; simp [rxs, List.map_drop]
      rw [boundaries_cons hbs]
      by_cases hnil : os' = []
      · refine boundaries_of_flatten_nil _ ?_
        have : weight (needs w k) os' = 0 := by rw [hnil]; rfl
        exact List.eq_nil_of_length_eq_zero (by omega)
      · obtain ⟨x, rfl⟩ := g5 hnil
        rw [← List.map_drop, ← payload_evolves h2]
        refine ih w1 (xs.drop j) (hs.evolves h2) (by rw [h2.n]; exact Caches.idle (h5 x rfl) rfl) (by rw [h2.mtu]; exact hm32)
          (Sized.evolves (fun y hy => hm y (List.mem_of_mem_drop hy)) h2) (by rw [List.length_drop]; omega) (fun b hb => hne b (by simp [hb]))
          (fun b hb => by rw [h2.mtu]; exact hfit b (by simp [hb])) (by rw [wires_stream (hs.evolves h2), hrest, payload_evolves h2, List.map_drop]) ?_
        have : arrivals w1.trace = arrivals w.trace ++ os := h3
        rw [this, List.append_assoc, ← hos', ← g1]
        simp only [receiveAll]
        rw [bind_of_ok hrun]
    · -- a read that ends inside a message
      exfalso
      have hp32 : p.length < 2 ^ 32 := by
        have : p ∈ xs.map (payload w k) := by rw [hps]; simp
        obtain ⟨x, hx, rfl⟩ := List.mem_map.mp this
        exact (hm x hx).2.2
      have hlen : (xs.map (payload w k)).length = xs.length := by simp
      rw [hps] at hlen
      simp only [List.length_append, List.length_cons] at hlen
      have hpiece := decodeRead_piece qs p rr (fun q hq => hpne q (by rw [hps]; simp [hq])) (hpne p (by rw [hps]; simp)) hp32 hrr hrl
        (by rw [← hbs]; omega) hrp (f + 1) (by omega) d ds hd0 (by rw [h1, hbs])
      rw [← hbs] at hpiece
      have hcount := (honest_read (f + 1) d ds).count
      rw [h1, hd0, List.nil_append] at hcount
      have h6 := h4.append g2
      rw [hsum] at h6
      have hw6 := h6.weight_le
      rw [framed_append, q1] at hw6
      rcases hpiece with hlost | ⟨hout, hfull⟩ | ⟨q, more, hout, hq⟩
      · omega
      · rw [g4 hfull, hout, hps, framed_append, framed_cons] at hw6
        simp only [framed, List.flatten_nil, List.length_nil] at hw6
        omega
      · have he := h6.exact (by rw [framed_append, q1]; omega)
        rw [q2, hout, hps, List.append_assoc] at he
        simp only [List.map_append] at he
        have := List.append_cancel_left he
        simp only [List.cons_append, List.map_cons, List.cons.injEq] at this
        omega

theorem length_le_framed {p : List Byte} {ps : List (List Byte)} (h : p ∈ ps) : p.length + 4 ≤ framed ps := by
  induction ps with
  | nil => cases h
  | cons q ps ih =>
    rw [framed_cons]
    rcases List.mem_cons.1 h with rfl | h
    · omega
    · have := ih h; omega

/-- If every read ends at the end of a frame, every frame fits a read. -/
theorem boundaries_fit {M : Int} (bss : List (List Byte)) : ∀ ps : List (List Byte), bss.flatten = stream ps → AtBoundaries ps bss →
    (∀ bs ∈ bss, (bs.length : Int) ≤ M) → ∀ p ∈ ps, ((p.length + 4 : Nat) : Int) ≤ M := by
  induction bss with
  | nil =>
    intro ps h _ _ p hp
    have h1 := congrArg List.length h
    rw [← framed_eq_stream, List.flatten_nil, List.length_nil] at h1
    have := length_le_framed hp
    omega
  | cons bs bss ih =>
    intro ps h hat hfit p hp
    obtain ⟨j, hj⟩ := hat 1
    simp only [List.take_succ_cons, List.take_zero, List.flatten_cons, List.flatten_nil, List.append_nil] at hj
    rw [List.flatten_cons, hj, stream_split ps j] at h
    have hrest := List.append_cancel_left h
    rw [boundaries_cons hj] at hat
    rw [← List.take_append_drop j ps] at hp
    rcases List.mem_append.1 hp with hp | hp
    · have h1 := length_le_framed hp
      have h2 := congrArg List.length hj
      rw [← framed_eq_stream] at h2
      have h3 := hfit bs (by simp)
      omega
    · exact ih _ hrest hat (fun b hb => hfit b (by simp [hb])) p hp

/-- Two stacks built from the same processors; their MTUs may differ. -/
structure Akin (a b : World) : Prop where
  n : b.n = a.n
  same : ∀ j, j < a.n → SameProc (a.procs j) (b.procs j)

theorem Akin.wire {a b : World} (h : Akin a b) {k : Nat} (hk : k < a.n) (s : Int) (bs : List Byte) : wire b k s bs = wire a k s bs :=
  Matching.wire (a := a) (b := { b with mtu := a.mtu }) ⟨h.n, rfl, h.same⟩ hk s bs

theorem Akin.overhead {a b : World} (h : Akin a b) (ha : Built a) (hb : Built b) : b.overhead = a.overhead :=
  Matching.overhead (a := a) (b := { b with mtu := a.mtu }) ⟨h.n, rfl, h.same⟩ ha hb

/-- Both stacks, over byte connections, with a FrameDecoder at the bottom and nowhere else below the codec for byte slices or strings. -/
structure Ends2 (ws wr : World) (k : Nat) (cr : ConnId) : Prop where
  sender : Carrier ws k
  receiver : Carrier wr k
  akin : Akin ws wr
  pos : k + 1 < wr.n
  codec : (wr.procs k).kind = .bytesCodec ∨ (wr.procs k).kind = .stringCodec
  frames : Frames (wr.procs (wr.n - 1))
  only : ∀ j, k < j → j < wr.n - 1 → ¬ Frames (wr.procs j)
  bytes : (wr.conns cr).useRef = false

theorem Ends2.sole {ws wr : World} {k : Nat} {cr : ConnId} (h : Ends2 ws wr k cr) : Sole cr k wr :=
  ⟨⟨by have := h.pos; omega, by omega, h.receiver.quiet, by
    have := h.receiver.codecOn
    have hcodec := h.codec
    generalize wr.procs k = p at hcodec this ⊢
    obtain ⟨en, kd⟩ := p
    simp only at this hcodec
    subst this
    rcases hcodec with h | h <;> rw [h] <;> simp, h.receiver.opens, h.only, h.bytes⟩, h.frames⟩

theorem Ends2.wires {ws wr : World} {k : Nat} {cr : ConnId} (h : Ends2 ws wr k cr) (xs : List Item) : wires wr k xs = wires ws k xs := by
  simp only [Stack.wires, h.akin.wire h.sender.pos]

theorem Ends2.sized {ws wr : World} {k : Nat} {cr : ConnId} (h : Ends2 ws wr k cr) {xs : List Item} (hm : ∀ x ∈ xs, Message ws k x.v x.b x.s) :
    Sized wr k xs := by
  intro x hx
  have hs := h.sole
  have h1 := hm x hx
  refine ⟨h1.ne, fun ep c' => ?_, ?_⟩
  · have h2 := h1.codec.same (h.akin.same k h.sender.pos).2
    rcases hs.codec with e | e <;> rw [e] at h2 <;> obtain ⟨v, b, s, ep⟩ := x <;> simp only at h2 ⊢ <;> cases h2 <;> rfl
  · have h3 := wire_fits h.sender h1
    have h4 := wires_stream hs [x]
    rw [h.wires] at h4
    simp only [Stack.wires, List.map_cons, List.map_nil, List.flatten_cons, List.flatten_nil, List.append_nil] at h4
    rw [h4, stream_length_cons] at h3
    have := h.sender.mtu
    omega

theorem Ends2.wire_length {ws wr : World} {k : Nat} {cr : ConnId} (h : Ends2 ws wr k cr) (x : Item) :
    (wire ws k x.s x.b).length = (payload wr k x).length + 4 := by
  have h4 := wires_stream h.sole [x]
  rw [h.wires] at h4
  simp only [Stack.wires, List.map_cons, List.map_nil, List.flatten_cons, List.flatten_nil, List.append_nil] at h4
  rw [h4, stream_length_cons]; simp [stream]

/-- C109 is violated: a message that is longer on the wire than the receiver's MTU is not delivered, however the stream is cut. -/
theorem c109_lost (ws wr : World) (k : Nat) (cr : ConnId) (he : Ends2 ws wr k cr) (xs : List Item) (hx : ∀ x ∈ xs, Message ws k x.v x.b x.s)
    (bss : List (List Byte)) (hb : ∀ bs ∈ bss, bs ≠ [] ∧ (bs.length : Int) ≤ wr.mtu) (hcut : bss.flatten = wires ws k xs)
    (fuel : Nat) (hf : xs.length + 2 < fuel) (hbig : ∃ x ∈ xs, wr.mtu < (wire ws k x.s x.b).length) :
    arrivals (receiveAll fuel cr bss wr).2.trace ≠ arrivals wr.trace ++ rxs cr xs := by
  intro harr
  have hs := he.sole
  have hpos := he.pos
  rw [← he.wires] at hcut
  have hat := reads_need bss wr xs hs (he.receiver.idle _ (by omega) (by omega) he.frames) he.receiver.mtu (he.sized hx) hf
    (fun bs h => (hb bs h).1) (fun bs h => (hb bs h).2) hcut harr
  obtain ⟨x, h1, h2⟩ := hbig
  have := boundaries_fit bss _ (hcut.trans (wires_stream hs xs)) hat (fun bs h => (hb bs h).2) (payload wr k x) (List.mem_map.2 ⟨x, h1, rfl⟩)
  rw [he.wire_length] at h2
  omega

/-- A message of the sender that fits the receiver. -/
theorem Ends2.message {ws wr : World} {k : Nat} {cr : ConnId} (h : Ends2 ws wr k cr) {v : Val} {b : List Byte} {s : Int} (hm : Message ws k v b s)
    (hfit : wr.overhead + b.length ≤ wr.mtu) : Message wr k v b s := by
  refine ⟨?_, hm.ne, hfit, hm.lo, hm.hi, ?_⟩
  · have h2 := hm.codec.same (h.akin.same k h.sender.pos).2
    rcases h.codec with e | e <;> rw [e] at h2 ⊢ <;> cases h2 <;> constructor
  · rcases hm.session with ⟨j, j1, j2, j3⟩ | h'
    · exact .inl ⟨j, j1, by rw [h.akin.n]; exact j2, (h.akin.same j j2).resolves j3⟩
    · exact .inr h'

/-- C109, exactly, where every processor that reserves head room below the codec uses it: whatever the two MTUs, and however the stream is cut into reads
of at most the receiver's MTU, exactly the messages sent are delivered if and only if every read ends at the end of a message. -/
theorem c109_exact (ws wr : World) (k : Nat) (cr : ConnId) (he : Ends2 ws wr k cr) (hfull : ((wire wr k 0 []).length : Int) = wr.overhead)
    (xs : List Item) (hx : ∀ x ∈ xs, Message ws k x.v x.b x.s ∧ findEndPoint wr.served x.s = some x.ep)
    (bss : List (List Byte)) (hb : ∀ bs ∈ bss, bs ≠ [] ∧ (bs.length : Int) ≤ wr.mtu) (hcut : bss.flatten = wires ws k xs)
    (fuel : Nat) (hf : wr.n + xs.length + 1 < fuel) :
    arrivals (receiveAll fuel cr bss wr).2.trace = arrivals wr.trace ++ rxs cr xs ↔ ∀ j, ∃ i, (bss.take j).flatten = wires ws k (xs.take i) := by
  have hs := he.sole
  have hpos := he.pos
  rw [← he.wires] at hcut
  have hbound : AtBoundaries (xs.map (payload wr k)) bss ↔ ∀ j, ∃ i, (bss.take j).flatten = wires ws k (xs.take i) := by
    simp only [AtBoundaries, ← List.map_take, ← wires_stream hs, he.wires]
  rw [← hbound]
  refine ⟨reads_need bss wr xs hs (he.receiver.idle _ (by omega) (by omega) he.frames) he.receiver.mtu (he.sized fun x h => (hx x h).1) (by omega)
    (fun bs h => (hb bs h).1) (fun bs h => (hb bs h).2) hcut, fun hat => ?_⟩
  refine (reads_exact bss wr xs he.receiver hs (fun x h => ⟨he.message (hx x h).1 ?_, (hx x h).2⟩) hf (fun bs h => (hb bs h).1)
    (fun bs h => (hb bs h).2) hcut).2 hat
  have h1 := boundaries_fit bss _ (hcut.trans (wires_stream hs xs)) hat (fun bs h => (hb bs h).2) (payload wr k x) (List.mem_map.2 ⟨x, h, rfl⟩)
  rw [← he.wire_length, ← he.akin.wire he.sender.pos] at h1
  simp only [wire, wrap_weight, List.length_nil] at h1 hfull
  omega

theorem wires_pieces {ws : World} {k : Nat} (xs : List Item) (j : Nat) :
    ((xs.map fun x => wire ws k x.s x.b).take j).flatten = wires ws k (xs.take j) := by
  rw [← List.map_take]; rfl

/-- C109: for stacks built from the same processors, all that is sent can be delivered — by some cut of the stream into reads — if and only if
every message, with its headers, fits the receiver's MTU. -/
theorem c109_iff (ws wr : World) (k : Nat) (cr : ConnId) (he : Ends2 ws wr k cr) (hfull : ((wire wr k 0 []).length : Int) = wr.overhead)
    (xs : List Item) (hx : ∀ x ∈ xs, Message ws k x.v x.b x.s ∧ findEndPoint wr.served x.s = some x.ep)
    (cs : ConnId) (hs1 : (ws.conns cs).useRef = false) (hs2 : (ws.conns cs).closed = false)
    (hw : ∀ t p, (ws.write t cs p).err = none ∧ (ws.write t cs p).n ≤ p.length) (fuel : Nat) (hf : wr.n + xs.length + 1 < fuel) :
    ∃ ws' t, sendAll fuel cs xs ws = (.ok (), ws') ∧ ws'.trace = ws.trace ++ t ∧
      ((∃ bss : List (List Byte), (∀ bs ∈ bss, bs ≠ [] ∧ (bs.length : Int) ≤ wr.mtu) ∧ bss.flatten = sentBytes cs t ∧
        arrivals (receiveAll fuel cr bss wr).2.trace = arrivals wr.trace ++ rxs cr xs) ↔
        ∀ x ∈ xs, ((wire ws k x.s x.b).length : Int) ≤ wr.mtu) := by
  obtain ⟨ws', t, a1, a2, a3, _⟩ := sendAll_wires k cs fuel xs ws he.sender (fun x h => (hx x h).1) hs1 hs2 hw (by rw [← he.akin.n]; omega)
  refine ⟨ws', t, a1, a2.trace, ?_, fun h => ?_⟩
  · rintro ⟨bss, h1, h2, h3⟩
    rw [a3] at h2
    intro x hxx
    refine Classical.byContradiction fun hn => ?_
    have hpos := he.pos
    exact c109_lost ws wr k cr he xs (fun x h => (hx x h).1) bss h1 h2 fuel (by omega) ⟨x, hxx, by omega⟩ h3
  · have h1 : ∀ bs ∈ xs.map (fun x => wire ws k x.s x.b), bs ≠ [] ∧ (bs.length : Int) ≤ wr.mtu := by
      intro bs hbs
      obtain ⟨x, hxx, rfl⟩ := List.mem_map.1 hbs
      exact ⟨wrap_ne _ _ (hx x hxx).1.ne, h x hxx⟩
    refine ⟨xs.map fun x => wire ws k x.s x.b, h1, by rw [a3]; rfl, ?_⟩
    exact (c109_exact ws wr k cr he hfull xs hx _ h1 rfl fuel hf).2 fun j => ⟨j, wires_pieces xs j⟩

/-- The positive half of C109 for every such pair of stacks, also with disabled processors that reserve head room: messages that fit the receiver's MTU
with all its head room are delivered if and only if every read ends at the end of a message. -/
theorem c109_delivered_partial (ws wr : World) (k : Nat) (cr : ConnId) (he : Ends2 ws wr k cr)
    (xs : List Item) (hx : ∀ x ∈ xs, Message ws k x.v x.b x.s ∧ findEndPoint wr.served x.s = some x.ep) (hfit : ∀ x ∈ xs, wr.overhead + x.b.length ≤ wr.mtu)
    (bss : List (List Byte)) (hb : ∀ bs ∈ bss, bs ≠ [] ∧ (bs.length : Int) ≤ wr.mtu) (hcut : bss.flatten = wires ws k xs)
    (fuel : Nat) (hf : wr.n + xs.length + 1 < fuel) :
    arrivals (receiveAll fuel cr bss wr).2.trace = arrivals wr.trace ++ rxs cr xs ↔ ∀ j, ∃ i, (bss.take j).flatten = wires ws k (xs.take i) := by
  have hs := he.sole
  rw [← he.wires] at hcut
  rw [reads_exact bss wr xs he.receiver hs (fun x h => ⟨he.message (hx x h).1 (hfit x h), (hx x h).2⟩) hf (fun bs h => (hb bs h).1)
    (fun bs h => (hb bs h).2) hcut]
  simp only [AtBoundaries, ← List.map_take, ← wires_stream hs, he.wires]

/-! ### Without a FrameDecoder -/

/-- The same for stacks without any enabled FrameDecoder: whatever the two MTUs, exactly the messages sent are delivered if and only if every read is one
message; so each of them has to fit the receiver's MTU. -/
theorem c109_bare (ws wr : World) (k : Nat) (hs : Carrier ws k) (hr : Carrier wr k) (hak : Akin ws wr)
    (hcodec : (wr.procs k).kind = .bytesCodec ∨ (wr.procs k).kind = .stringCodec)
    (hnone : ∀ j, k < j → j < wr.n → ¬ Frames (wr.procs j)) (hfull : ((wire wr k 0 []).length : Int) = wr.overhead)
    (xs : List Item) (hx : ∀ x ∈ xs, Message ws k x.v x.b x.s ∧ findEndPoint wr.served x.s = some x.ep)
    (cr : ConnId) (hr1 : (wr.conns cr).useRef = false) (fuel : Nat) (hf : wr.n + 2 < fuel)
    (bss : List (List Byte)) (hb : ∀ bs ∈ bss, bs ≠ [] ∧ (bs.length : Int) ≤ wr.mtu) (hcut : bss.flatten = wires ws k xs) :
    arrivals (receiveAll fuel cr bss wr).2.trace = arrivals wr.trace ++ rxs cr xs ↔ bss = xs.map fun x => wire ws k x.s x.b := by
  have hwire : ∀ s b, wire wr k s b = wire ws k s b := fun s b => hak.wire hs.pos s b
  have hpos := hr.pos
  have hcod : wr.procs k = ⟨true, .bytesCodec⟩ ∨ wr.procs k = ⟨true, .stringCodec⟩ := by
    have := hr.codecOn
    generalize wr.procs k = p at hcodec this ⊢
    obtain ⟨en, kd⟩ := p
    simp only at this hcodec
    subst this
    rcases hcodec with h | h <;> rw [h] <;> simp
  have hlone : Lone cr k wr.n wr := ⟨hpos, Nat.le_refl _, hr.quiet, hcod, hr.opens, hnone, hr1⟩
  have hsame : (xs.map fun x => wire wr k x.s x.b) = xs.map fun x => wire ws k x.s x.b := List.map_congr_left fun x _ => hwire _ _
  rw [wires, ← hsame] at hcut
  rw [← hsame]
  constructor
  · intro h
    obtain ⟨os, b1, b2⟩ := bare_reads (k := k) (f := fuel) bss wr hlone (fun b h => (hb b h).1) (fun b h => (hb b h).2)
    rw [b1] at h
    have h := List.append_cancel_left h
    subst h
    have hl : (rxs cr xs).map (need wr k (wr.n - (k + 1))) = (xs.map fun x => wire wr k x.s x.b).map List.length := by
      simp only [rxs, List.map_map]
      refine List.map_congr_left fun x hxm => ?_
      have h1 := (hx x hxm).1.codec.same (hak.same k hs.pos).2
      have h2 : (wire wr k x.s x.b).length = hlens (seg wr (k + 1) (wr.n - (k + 1))) + x.b.length := wrap_weight _ _ _
      have h3 : bulk (.rx x.ep (some cr) x.v) = x.b.length := by
        obtain ⟨v, b, s, e⟩ := x
        simp only at h1 ⊢
        rcases hcodec with e | e <;> rw [e] at h1 <;> cases h1 <;> rfl
      simp only [Function.comp_apply, h2, need, h3]
      omega
    obtain ⟨_, e2⟩ := b2.exact_bare fun b h => (hb b h).1
    rw [hl] at e2
    exact flatten_inj (e2 (by rw [hcut, List.length_flatten]; exact Nat.le_refl _)) hcut
  · intro h
    have hm : ∀ x ∈ xs, Message wr k x.v x.b x.s ∧ ((wire wr k x.s x.b).length : Int) ≤ wr.mtu := by
      intro x hxm
      have hl := (hb (wire wr k x.s x.b) (by rw [h]; exact List.mem_map.2 ⟨x, hxm, rfl⟩)).2
      have hm := (hx x hxm).1
      refine ⟨⟨?_, hm.ne, ?_, hm.lo, hm.hi, ?_⟩, hl⟩
      · have h2 := hm.codec.same (hak.same k hs.pos).2
        obtain ⟨v, b, s, e'⟩ := x
        simp only at h2 ⊢
        rcases hcodec with e | e <;> rw [e] at h2 ⊢ <;> cases h2 <;> constructor
      · simp only [wire, wrap_weight, List.length_nil] at hl hfull
        omega
      · rcases hm.session with ⟨j, j1, j2, j3⟩ | h'
        · exact .inl ⟨j, j1, by rw [hak.n]; exact j2, (hak.same j j2).resolves j3⟩
        · exact .inr h'
    obtain ⟨wr', b1, b2, _⟩ := receiveAll_groups k cr fuel 1 (xs.map fun x => [x]) wr hr
      (by
        intro g hg
        obtain ⟨x, hxm, rfl⟩ := List.mem_map.mp hg
        refine ⟨by simp, by simp, ?_, fun y hy => ?_⟩
        · simpa [wires] using (hm x hxm).2
        · simp only [List.mem_cons, List.not_mem_nil, or_false] at hy
          subst hy
          exact ⟨(hm y hxm).1, (hx y hxm).2⟩)
      (.inl (by intro g hg; obtain ⟨x, _, rfl⟩ := List.mem_map.mp hg; rfl)) hr1 (by omega)
    have hmap : (xs.map fun x => [x]).map (wires wr k) = xs.map fun x => wire wr k x.s x.b := by
      rw [List.map_map]
      exact List.map_congr_left fun x _ => by simp [wires]
    rw [hmap, ← h] at b1
    rw [flatten_single] at b2
    rw [b1, b2.trace, arrivals_append, arrivals_rxs]

/-- And a message longer than the receiver's MTU is lost, however the stream is cut. -/
theorem c109_bare_lost (ws wr : World) (k : Nat) (hs : Carrier ws k) (hr : Carrier wr k) (hak : Akin ws wr)
    (hcodec : (wr.procs k).kind = .bytesCodec ∨ (wr.procs k).kind = .stringCodec)
    (hnone : ∀ j, k < j → j < wr.n → ¬ Frames (wr.procs j)) (hfull : ((wire wr k 0 []).length : Int) = wr.overhead)
    (xs : List Item) (hx : ∀ x ∈ xs, Message ws k x.v x.b x.s ∧ findEndPoint wr.served x.s = some x.ep)
    (cr : ConnId) (hr1 : (wr.conns cr).useRef = false) (fuel : Nat) (hf : wr.n + 2 < fuel)
    (bss : List (List Byte)) (hb : ∀ bs ∈ bss, bs ≠ [] ∧ (bs.length : Int) ≤ wr.mtu) (hcut : bss.flatten = wires ws k xs)
    (hbig : ∃ x ∈ xs, wr.mtu < (wire ws k x.s x.b).length) :
    arrivals (receiveAll fuel cr bss wr).2.trace ≠ arrivals wr.trace ++ rxs cr xs := by
  intro h
  have h := (c109_bare ws wr k hs hr hak hcodec hnone hfull xs hx cr hr1 fuel hf bss hb hcut).1 h
  obtain ⟨x, h1, h2⟩ := hbig
  have := (hb (wire ws k x.s x.b) (by rw [h]; exact List.mem_map.2 ⟨x, h1, rfl⟩)).2
  omega

/-! ### Example: an MTU of 64 and one of 32 -/

def five32 : World := { five with mtu := 32 }

theorem five32_carrier : Carrier five32 0 :=
  ⟨five_carrier.pos, five_carrier.quiet, five_carrier.codecOn, five_carrier.opens, five_carrier.idle, five_carrier.built, by decide⟩

theorem five_ends (a b : World) (ha : a = five ∨ a = five32) (hb : b = five ∨ b = five32) : Ends2 a b 0 0 := by
  have hs := five_sole
  have hc := five_carrier
  have hc' := five32_carrier
  refine ⟨by rcases ha with rfl | rfl <;> assumption, by rcases hb with rfl | rfl <;> assumption,
    ⟨by rcases ha with rfl | rfl <;> rcases hb with rfl | rfl <;> rfl, fun j _ => by rcases ha with rfl | rfl <;> rcases hb with rfl | rfl <;> exact .refl _⟩,
    ?_, ?_, ?_, ?_, ?_⟩
  · rcases hb with rfl | rfl <;> decide
  · rcases hb with rfl | rfl <;> exact .inl rfl
  · rcases hb with rfl | rfl <;> exact ⟨⟨_, rfl⟩, rfl⟩
  · rcases hb with rfl | rfl <;> exact hs.only
  · rcases hb with rfl | rfl <;> rfl

/-- A message of 23 bytes and its ten bytes of headers. -/
def longItem : Item := ⟨.bytes (List.replicate 23 1), List.replicate 23 1, 3, 7⟩

theorem longItem_message : Message five 0 longItem.v longItem.b longItem.s := five_message _ (by decide) (by decide)

/-- C109 is violated: the stack with the larger MTU sends the message, and the other one cannot receive it. -/
theorem c109_violated : ∃ (ws wr : World) (k : Nat) (cr : ConnId) (x : Item), Ends2 ws wr k cr ∧ Message ws k x.v x.b x.s ∧
    findEndPoint wr.served x.s = some x.ep ∧ ∀ (bss : List (List Byte)) (fuel : Nat), (∀ bs ∈ bss, bs ≠ [] ∧ (bs.length : Int) ≤ wr.mtu) →
      bss.flatten = wires ws k [x] → 3 < fuel → arrivals (receiveAll fuel cr bss wr).2.trace ≠ arrivals wr.trace ++ rxs cr [x] :=
  ⟨five, five32, 0, 0, longItem, five_ends _ _ (.inl rfl) (.inr rfl), longItem_message, rfl, fun bss fuel h1 h2 h3 =>
    c109_lost five five32 0 0 (five_ends _ _ (.inl rfl) (.inr rfl)) [longItem] (fun x h => by cases h with | head => exact longItem_message | tail _ h => cases h)
      bss h1 h2 fuel h3 ⟨longItem, by simp, by decide⟩⟩

/-- The other way round everything arrives. -/
example : ∃ ws' t, sendAll 20 0 fiveItems five32 = (.ok (), ws') ∧ ws'.trace = five32.trace ++ t ∧
    ((∃ bss : List (List Byte), (∀ bs ∈ bss, bs ≠ [] ∧ (bs.length : Int) ≤ five.mtu) ∧ bss.flatten = sentBytes 0 t ∧
      arrivals (receiveAll 20 0 bss five).2.trace = arrivals five.trace ++ rxs 0 fiveItems) ↔ ∀ x ∈ fiveItems, ((wire five32 0 x.s x.b).length : Int) ≤ five.mtu) :=
  c109_iff five32 five 0 0 (five_ends _ _ (.inr rfl) (.inl rfl)) (by decide) fiveItems
    (fun x h => ⟨by
      obtain ⟨h1, _⟩ := fiveItems_ok x h
      simp only [fiveItems, List.mem_cons, List.not_mem_nil, or_false] at h
      have hb : x.b.length ≤ 2 := by rcases h with rfl | rfl <;> decide
      refine ⟨?_, h1.ne, by show (10 : Int) + _ ≤ 32; omega, h1.lo, h1.hi, h1.session⟩
      rcases h with rfl | rfl <;> exact .bytes _, (fiveItems_ok x h).2⟩) 0 rfl rfl (fun t p => ⟨rfl, by simp [five32, five, quiet]⟩) 20 (by decide)

/-- Without the FrameDecoder: the long message is lost as well. -/
example (bss : List (List Byte)) (hb : ∀ bs ∈ bss, bs ≠ [] ∧ (bs.length : Int) ≤ 28) (hcut : bss.flatten = wires { five with n := 4, overhead := 6 } 0 [longItem]) :
    arrivals (receiveAll 20 0 bss { five with n := 4, overhead := 6, mtu := 28 }).2.trace ≠ arrivals five.trace ++ rxs 0 [longItem] :=
  c109_bare_lost { five with n := 4, overhead := 6 } { five with n := 4, overhead := 6, mtu := 28 } 0 four_carrier
    ⟨four_carrier.pos, four_carrier.quiet, four_carrier.codecOn, four_carrier.opens, four_carrier.idle, four_carrier.built, by decide⟩
    ⟨rfl, fun _ _ => .refl _⟩ (.inl rfl)
    (fun j h1 h2 h3 => by
      match j, h1, h2, h3 with
      | 1, _, _, ⟨⟨c, h⟩, _⟩ => cases h
      | 2, _, _, ⟨⟨c, h⟩, _⟩ => cases h
      | 3, _, _, ⟨⟨c, h⟩, _⟩ => cases h) (by decide) [longItem]
    (fun x h => by
      cases h with
      | head => exact ⟨⟨.bytes _, by decide, by decide, by decide, by decide, .inl ⟨1, by decide, by decide, rfl, rfl⟩⟩, rfl⟩
      | tail _ h => cases h) 0 rfl 20 (by decide) bss hb hcut ⟨longItem, by simp, by decide⟩

end Verif.Stack
