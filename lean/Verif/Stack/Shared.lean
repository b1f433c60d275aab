import Verif.Stack.Split

/-!
# C73: one FrameDecoder, many connections

The FrameDecoder has one cache for all connections (proc_frame_decoder.go:18).
-/

namespace Verif.Stack
open GoM UBuf

/-! ## Specification -/

/-- The contexts of reads on several connections. -/
def ReadsOf (ctxs : List Ctx) (rs : List (ConnId × List Byte)) : Prop :=
  ctxs.length = rs.length ∧ ∀ x ∈ ctxs.zip rs, x.1.conn = some x.2.1 ∧ Carries x.1 x.2.2

/-- An enabled decoder at position `i`; all these connections carry bytes. -/
structure AtAll (i : Nat) (w : World) (rs : List (ConnId × List Byte)) : Prop where
  enable : (w.procs i).enable = true
  bytes : ∀ x ∈ rs, (w.conns x.1).useRef = false

/-! ## One read -/

/-- The cache is empty or stuck. -/
def Settled (d : Deque) : Prop := d.content = [] ∨ Full d

/-- The bytes of an incomplete frame. -/
def Incomplete (bs : List Byte) : Prop := bs.length < 4 ∨ bs.length < decBE (bs.take 4)

theorem readFrom_settled {c src : Deque} (hc : c.content = []) (hs : Incomplete src.content) :
    Settled (Deque.readFromDeque c src).2.2.1 := by
  simp only [Deque.readFromDeque]
  split
  · exact .inl hc
  · rename_i ht
    split
    · exact .inl hc
    · split
      · exact .inl hc
      · rename_i hlt
        right
        have hcont : (c.push (src.content.take c.tail)).content = src.content.take c.tail := by simp [Deque.push, hc]
        have hl : (src.content.take c.tail).length = c.tail := by rw [List.length_take]; omega
        refine ⟨?_, ?_, fun f => ?_⟩
        · rw [hcont]; intro h; rw [h] at hl; simp at hl; omega
        · have h1 : c.tail = c.cap - c.head := by simp [Deque.tail, hc]
          have h2 : (c.push (src.content.take c.tail)).tail = c.cap - c.head - (c.push (src.content.take c.tail)).content.length := rfl
          rw [h2, hcont, hl]; omega
        · simp only [decodeCached, hcont, hl]
          rw [if_neg (by intro h; rw [h] at hl; simp at hl; omega)]
          by_cases h4 : c.tail < 4
          · rw [if_pos h4]
          · rw [if_neg h4, List.take_take, Nat.min_eq_left (by omega)]
            rcases hs with hs | hs
            · omega
            · rw [if_pos (by omega)]

/-- The loop over a read: whatever it hands up is a piece of the read, and the cache is empty or stuck. -/
theorem decodeCurrent_own (fuel : Nat) : ∀ (c src : Deque), c.content = [] → src.content.length < 2 ^ 32 →
    (∀ p ∈ (decodeCurrent fuel c src).out, p <:+: src.content) ∧ Settled (decodeCurrent fuel c src).cache := by
  induction fuel with
  | zero => intro c src hc _; exact ⟨by simp [decodeCurrent], .inl hc⟩
  | succ fuel ih =>
    intro c src hc hl
    simp only [decodeCurrent, toU32_of_nat _ hl]
    split
    · rename_i h4
      exact ⟨by simp, readFrom_settled hc (.inl h4)⟩
    · split
      · rename_i hgt
        exact ⟨by simp, readFrom_settled hc (.inr hgt)⟩
      · split
        · exact ⟨fun p hp => by simp only [List.mem_singleton] at hp; subst hp; exact (List.drop_suffix _ _).isInfix, .inl hc⟩
        · split
          · exact ⟨by simp, .inl hc⟩
          · split
            · exact ⟨by simp, .inl rfl⟩
            · obtain ⟨h1, h2⟩ := ih c ((src.pop 4).pop (decBE (src.content.take 4))) hc (by
                rw [pop_pop_content]; simp; omega)
              refine ⟨fun p hp => ?_, h2⟩
              simp only [List.mem_cons] at hp
              rcases hp with rfl | hp
              · exact (List.take_prefix _ _).isInfix.trans (List.drop_suffix _ _).isInfix
              · refine (h1 p hp).trans ?_
                rw [pop_pop_content]
                exact (List.drop_suffix _ _).isInfix.trans (List.drop_suffix _ _).isInfix

theorem decodeRead_own (fuel : Nat) {c src : Deque} (hc : Settled c) (hl : src.content.length < 2 ^ 32) :
    (∀ p ∈ (decodeRead (fuel + 1) c src).out, p <:+: src.content) ∧ Settled (decodeRead (fuel + 1) c src).cache := by
  rcases hc with hc | hc
  · obtain ⟨h1, h2⟩ := decodeCurrent_own (fuel + 1) c src hc hl
    simp only [decodeRead, hc, ne_eq, not_true, if_false]
    generalize decodeCurrent (fuel + 1) c src = a at h1 h2
    rcases hr : a.res with u | _ | _
    · simp only
      rcases h2 with h2 | h2
      · have : decodeCached (fuel + 1) a.cache = ⟨[], .ok (), Deque.clear a.cache⟩ := by simp [decodeCached, h2]
        rw [this]
        exact ⟨by simpa using h1, .inl rfl⟩
      · rw [h2.waits]
        exact ⟨by simpa using h1, .inr h2⟩
    · exact ⟨h1, h2⟩
    · exact ⟨h1, h2⟩
  · have : (Deque.readFromDeque c src).2.2.1 = c := by simp only [Deque.readFromDeque]; rw [if_pos hc.full]
    simp only [decodeRead, if_pos hc.some, this, hc.waits fuel, List.nil_append]
    exact ⟨by simp, .inr hc⟩

/-! ## Reads on many connections -/

theorem onLower_other {fuel i : Nat} {c : ConnId} {w : World} {d : Deque} {ctx : Ctx} {bs : List Byte}
    (hat : At i c w) (hd : Caches i w d) (hc : ctx.conn = some c) (hb : Carries ctx bs) :
    (onLower fuel i (w.procs i) recorder ctx w).2.conns = w.conns := by
  obtain ⟨cache, hk, hcb⟩ := hd
  obtain ⟨ub, ds, h1, h2, h3⟩ := hb.buf
  have := frameLower_feeds (nb := recorder) (i := i) (.always fun _ _ => rfl) fuel trivial ⟨c, hc, hat.bytes⟩ h1 hk hcb h2
  obtain ⟨g1, g2, _⟩ := this.1.recorded
  have : w.procs i = ⟨true, .frame (some cache)⟩ := by rw [← hk, ← hat.enable]
  rw [this]
  exact g2

/-- Nothing of one connection's bytes is ever handed up for another: every payload received for a connection is a
piece of one read on that connection, for any reads of any bytes on any connections. -/
theorem c73_own_bytes (i fuel : Nat) (rs : List (ConnId × List Byte)) : ∀ (ctxs : List Ctx) (w : World) (d : Deque),
    AtAll i w rs → Caches i w d → Settled d → (∀ x ∈ rs, x.2.length < 2 ^ 32) → ReadsOf ctxs rs →
    ∃ t, (reads (fuel + 1) i recorder ctxs w).2.trace = w.trace ++ t ∧
      ∀ o ∈ t, ∃ x ∈ rs, ∃ p, o = .rx 0 (some x.1) (.bytes p) ∧ p <:+: x.2 := by
  induction rs with
  | nil =>
    intro ctxs w d _ _ _ _ hr
    have : ctxs = [] := List.eq_nil_of_length_eq_zero hr.1
    subst this
    exact ⟨[], by simp [reads, pure_apply], by simp⟩
  | cons x rs ih =>
    obtain ⟨c, bs⟩ := x
    intro ctxs w d hat hd hset hlen hr
    obtain ⟨h1, h2⟩ := hr
    cases ctxs with
    | nil => simp at h1
    | cons ctx ctxs =>
      obtain ⟨e1, e2⟩ := h2 (ctx, (c, bs)) (by simp)
      have hatc : At i c w := ⟨hat.enable, hat.bytes (c, bs) (by simp)⟩
      obtain ⟨ds, r, w1, k1, k2, k3, k4, k5, k6, k7⟩ := onLower_recorded (fuel := fuel + 1) hatc hd e1 e2
      have hconns := onLower_other (fuel := fuel + 1) hatc hd e1 e2
      rw [k2] at hconns
      simp only at k1 k2 hconns
      obtain ⟨o1, o2⟩ := decodeRead_own fuel hset (src := ds) (by rw [k1]; exact hlen (c, bs) (by simp))
      rw [k1] at o1
      have hown : ∀ o ∈ received (some c) (decodeRead (fuel + 1) d ds).out,
          ∃ x ∈ (c, bs) :: rs, ∃ p, o = .rx 0 (some x.1) (.bytes p) ∧ p <:+: x.2 := by
        intro o ho
        simp only [received, List.mem_map] at ho
        obtain ⟨p, hp, rfl⟩ := ho
        exact ⟨(c, bs), by simp, p, rfl, o1 p hp⟩
      cases r with
      | ok y =>
        obtain ⟨t, l1, l2⟩ := ih ctxs w1 _ ⟨k4.enable, fun z hz => by rw [hconns]; exact hat.bytes z (by simp [hz])⟩
          (k7 y rfl) o2 (fun z hz => hlen z (by simp [hz])) ⟨by simpa using h1, fun z hz => h2 z (by simp [hz])⟩
        rw [reads_cons k2]
        refine ⟨received (some c) (decodeRead (fuel + 1) d ds).out ++ t, by rw [l1, k3, List.append_assoc], fun o ho => ?_⟩
        rcases List.mem_append.mp ho with ho | ho
        · exact hown o ho
        · obtain ⟨z, hz, p, hp⟩ := l2 o ho
          exact ⟨z, by simp [hz], p, hp⟩
      | panic => rw [reads_panic k2]; exact ⟨_, k3, hown⟩
      | running => rw [reads_running k2]; exact ⟨_, k3, hown⟩

/-- If every read ends at a frame boundary, the connections do not disturb each other: all payloads of all
connections arrive, each for its connection, in the order of the reads.  Missing from the full claim: reads that
end inside a frame (`c73_violated`). -/
theorem c73_aligned_partial (i fuel : Nat) (rs : List (ConnId × List (List Byte))) : ∀ (ctxs : List Ctx) (w : World),
    (∀ x ∈ rs, ∀ p ∈ x.2, p ≠ []) → (∀ x ∈ rs, (stream x.2).length < 2 ^ 32 ∧ x.2.length < fuel) →
    AtAll i w (rs.map fun x => (x.1, stream x.2)) → Idle i w → ReadsOf ctxs (rs.map fun x => (x.1, stream x.2)) →
    ∃ w', reads fuel i recorder ctxs w = (.ok (), w') ∧
      w'.trace = w.trace ++ (rs.map fun x => received (some x.1) x.2).flatten ∧ Idle i w' := by
  induction rs with
  | nil =>
    intro ctxs w _ _ _ hi hr
    have : ctxs = [] := List.eq_nil_of_length_eq_zero hr.1
    subst this
    exact ⟨w, rfl, by simp, hi⟩
  | cons x rs ih =>
    obtain ⟨c, ps⟩ := x
    intro ctxs w hne hl hat hi hr
    obtain ⟨h1, h2⟩ := hr
    cases ctxs with
    | nil => simp at h1
    | cons ctx ctxs =>
      obtain ⟨e1, e2⟩ := h2 (ctx, (c, stream ps)) (by simp)
      obtain ⟨d, hd, hd0⟩ := hi.caches
      have hatc : At i c w := ⟨hat.enable, hat.bytes (c, stream ps) (by simp)⟩
      obtain ⟨ds, r, w1, k1, k2, k3, k4, k5, k6, k7⟩ := onLower_recorded (fuel := fuel) hatc hd e1 e2
      have hconns := onLower_other (fuel := fuel) hatc hd e1 e2
      rw [k2] at hconns
      simp only at k1 k2 hconns
      rw [decodeRead_stream (hne (c, ps) (by simp)) hd0 k1 (hl (c, ps) (by simp)).1 (hl (c, ps) (by simp)).2] at k3 k5 k6 k7
      obtain ⟨y, hy⟩ : ∃ y, r = .ok y := by
        cases r with
        | ok y => exact ⟨y, rfl⟩
        | panic => simp at k5
        | running => simp at k6
      subst hy
      obtain ⟨w', l1, l2, l3⟩ := ih ctxs w1 (fun q hq => hne q (by simp [hq])) (fun q hq => hl q (by simp [hq]))
        ⟨k4.enable, fun z hz => by rw [hconns]; exact hat.bytes z (by simp only [List.map_cons, List.mem_cons]; exact .inr hz)⟩
        ((k7 y rfl).idle rfl) ⟨by simpa using h1, fun z hz => h2 z (by simp only [List.map_cons, List.zip_cons_cons, List.mem_cons]; exact .inr hz)⟩
      refine ⟨w', ?_, ?_, l3⟩
      · rw [reads_cons k2]; exact l1
      · rw [l2, k3]
        simp

/-- With a stuck cache nothing is handed up any more, for any connection. -/
theorem reads_stuck (i fuel : Nat) (rs : List (ConnId × List Byte)) : ∀ (ctxs : List Ctx) (w : World) (d : Deque),
    AtAll i w rs → Caches i w d → Full d → ReadsOf ctxs rs → (reads (fuel + 1) i recorder ctxs w).2.trace = w.trace := by
  induction rs with
  | nil =>
    intro ctxs w d _ _ _ hr
    have : ctxs = [] := List.eq_nil_of_length_eq_zero hr.1
    subst this
    rfl
  | cons x rs ih =>
    obtain ⟨c, bs⟩ := x
    intro ctxs w d hat hd hfull hr
    obtain ⟨h1, h2⟩ := hr
    cases ctxs with
    | nil => simp at h1
    | cons ctx ctxs =>
      obtain ⟨e1, e2⟩ := h2 (ctx, (c, bs)) (by simp)
      have hatc : At i c w := ⟨hat.enable, hat.bytes (c, bs) (by simp)⟩
      obtain ⟨ds, r, w1, k1, k2, k3, k4, k5, k6, k7⟩ := onLower_recorded (fuel := fuel + 1) hatc hd e1 e2
      have hconns := onLower_other (fuel := fuel + 1) hatc hd e1 e2
      rw [k2] at hconns
      simp only at k1 k2 hconns
      have hdec : decodeRead (fuel + 1) d ds = ⟨[], .ok (), d⟩ := by
        have : (Deque.readFromDeque d ds).2.2.1 = d := by simp only [Deque.readFromDeque]; rw [if_pos hfull.full]
        simp only [decodeRead, if_pos hfull.some, this, hfull.waits fuel, List.nil_append]
      rw [hdec] at k3 k5 k6 k7
      cases r with
      | ok y =>
        rw [reads_cons k2, ih ctxs w1 d ⟨k4.enable, fun z hz => by rw [hconns]; exact hat.bytes z (by simp [hz])⟩ (k7 y rfl) hfull
          ⟨by simpa using h1, fun z hz => h2 z (by simp [hz])⟩, k3]
        simp [received]
      | panic => simp at k5
      | running => simp at k6

/-- One connection can silence all the others for ever: a read that is the beginning of a frame longer than the
free space of the cache, and not shorter than that space, fills the cache; from then on nothing is handed up for any connection,
whatever is read, whole frames included. -/
theorem c73_violated (i fuel : Nat) (c : ConnId) (w : World) (d : Deque) (hd : Caches i w d) (h0 : d.content = [])
    (hroom : 0 < d.tail) (p : List Byte) (n : Nat) (hn : d.tail ≤ n) (hp : n < p.length) (hp32 : p.length < 2 ^ 32)
    (rs : List (ConnId × List Byte)) (hat : AtAll i w ((c, (frameOf p).take n) :: rs)) (ctxs : List Ctx)
    (hr : ReadsOf ctxs ((c, (frameOf p).take n) :: rs)) :
    (reads (fuel + 1) i recorder ctxs w).2.trace = w.trace := by
  obtain ⟨h1, h2⟩ := hr
  cases ctxs with
  | nil => simp at h1
  | cons ctx ctxs =>
    obtain ⟨e1, e2⟩ := h2 (ctx, (c, (frameOf p).take n)) (by simp)
    have hatc : At i c w := ⟨hat.enable, hat.bytes (c, (frameOf p).take n) (by simp)⟩
    obtain ⟨ds, r, w1, k1, k2, k3, k4, k5, k6, k7⟩ := onLower_recorded (fuel := fuel + 1) hatc hd e1 e2
    have hconns := onLower_other (fuel := fuel + 1) hatc hd e1 e2
    rw [k2] at hconns
    simp only at k1 k2 hconns
    have hlen : ds.content.length = n := by rw [k1, List.length_take, frameOf_length]; omega
    have hhead : 4 ≤ n → decBE (ds.content.take 4) = p.length := by
      intro h4
      rw [k1, List.take_take, Nat.min_eq_left h4, frameOf, List.take_left' (length_encBE _ _), decBE_encBE_mod]
      exact Nat.mod_eq_of_lt (by simpa using hp32)
    have hinc : Incomplete ds.content := by
      by_cases h4 : 4 ≤ n
      · right; rw [hlen, hhead h4]; exact hp
      · left; omega
    have hfull : Full (Deque.readFromDeque d ds).2.2.1 := by
      rcases readFrom_settled h0 hinc with h | h
      · exfalso
        simp only [Deque.readFromDeque] at h
        rw [if_neg (by omega), if_neg (by intro e; rw [e] at hlen; simp at hlen; omega), if_neg (by omega)] at h
        have := congrArg List.length h
        simp [Deque.push, h0] at this
        rcases this with h | h
        · omega
        · rw [h] at hlen; simp at hlen; omega
      · exact h
    have hdec : decodeRead (fuel + 1) d ds = ⟨[], .ok (), (Deque.readFromDeque d ds).2.2.1⟩ := by
      have : decodeCurrent (fuel + 1) d ds = ⟨[], .ok (), (Deque.readFromDeque d ds).2.2.1⟩ := by
        simp only [decodeCurrent]
        by_cases h4 : ds.content.length < 4
        · rw [if_pos h4]
        · rw [if_neg h4, hhead (by omega), hlen, toU32_of_nat _ (by omega), if_pos (by omega)]
      simp only [decodeRead, h0, ne_eq, not_true, if_false, this, hfull.waits fuel, List.nil_append]
    rw [hdec] at k3 k5 k6 k7
    cases r with
    | ok y =>
      rw [reads_cons k2, reads_stuck i fuel rs ctxs w1 _ ⟨k4.enable, fun z hz => by rw [hconns]; exact hat.bytes z (by simp [hz])⟩
        (k7 y rfl) hfull ⟨by simpa using h1, fun z hz => h2 z (by simp [hz])⟩, k3]
      simp [received]
    | panic => simp at k5
    | running => simp at k6

/-! ## Examples -/

/-- A read on a connection. -/
def rxOn (c : ConnId) (bs : List Byte) : Ctx := { demoRx bs with conn := some c }

theorem rxOn_reads (rs : List (ConnId × List Byte)) (h : ∀ x ∈ rs, x.2 ≠ [] ∧ x.2.length ≤ 16) :
    ReadsOf (rs.map fun x => rxOn x.1 x.2) rs := by
  refine ⟨by simp, ?_⟩
  induction rs with
  | nil => simp
  | cons y rs ih =>
    intro x hx
    simp only [List.map_cons, List.zip_cons_cons, List.mem_cons] at hx
    rcases hx with rfl | hx
    · exact ⟨rfl, demoRx_carries (h y (by simp)).1 (h y (by simp)).2⟩
    · exact ih (fun b hb => h b (by simp [hb])) x hx

/-- two connections taking turns -/
example : ∃ w', reads 9 0 recorder [rxOn 0 [0, 0, 0, 1, 9], rxOn 1 [0, 0, 0, 2, 7, 7], rxOn 0 [0, 0, 0, 1, 5]] framing = (.ok (), w') ∧
    w'.trace = [.rx 0 (some 0) (.bytes [9]), .rx 0 (some 1) (.bytes [7, 7]), .rx 0 (some 0) (.bytes [5])] ∧ Idle 0 w' :=
  c73_aligned_partial 0 9 [(0, [[9]]), (1, [[7, 7]]), (0, [[5]])] _ framing (by decide) (by decide)
    ⟨rfl, fun _ _ => rfl⟩ framing_idle (rxOn_reads [(0, [0, 0, 0, 1, 9]), (1, [0, 0, 0, 2, 7, 7]), (0, [0, 0, 0, 1, 5])] (by decide))

/-- connection 0 sends the first 8 bytes of a frame of 9, connection 1 gets nothing any more -/
example : (reads 9 0 recorder [rxOn 0 [0, 0, 0, 9, 1, 2, 3, 4], rxOn 1 [0, 0, 0, 2, 7, 7], rxOn 1 [0, 0, 0, 1, 5]] framing).2.trace = [] :=
  c73_violated 0 8 0 framing _ framing_caches rfl (by decide) [1, 2, 3, 4, 5, 6, 7, 8, 9] 8 (by decide) (by decide) (by decide)
    [(1, [0, 0, 0, 2, 7, 7]), (1, [0, 0, 0, 1, 5])] ⟨rfl, fun _ _ => rfl⟩ _
    (rxOn_reads [(0, [0, 0, 0, 9, 1, 2, 3, 4]), (1, [0, 0, 0, 2, 7, 7]), (1, [0, 0, 0, 1, 5])] (by decide))

/-- any bytes: `c73_own_bytes` applies -/
example : ∃ t, (reads 9 0 recorder [rxOn 0 [0, 0, 0, 5, 1, 2], rxOn 1 [0, 0, 0, 2, 7, 7, 0]] framing).2.trace = framing.trace ++ t ∧
    ∀ o ∈ t, ∃ x ∈ [(0, [0, 0, 0, 5, 1, 2]), (1, [0, 0, 0, 2, 7, 7, 0])], ∃ p, o = .rx 0 (some x.1) (.bytes p) ∧ p <:+: x.2 :=
  c73_own_bytes 0 8 _ _ _ _ ⟨rfl, fun _ _ => rfl⟩ framing_caches (.inl rfl) (by decide)
    (rxOn_reads [(0, [0, 0, 0, 5, 1, 2]), (1, [0, 0, 0, 2, 7, 7, 0])] (by decide))

end Verif.Stack
