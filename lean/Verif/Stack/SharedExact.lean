import Verif.Stack.Shared

/-!
# C73, exactly: which reads disturb the other connections
-/

namespace Verif.Stack
open GoM UBuf

/-- A read that ends in the beginning of a frame, of at least `T` bytes: some whole frames, then fewer than four
bytes or fewer bytes than the length they announce. -/
inductive Chokes (T : Nat) : List Byte → Prop
  | here {bs : List Byte} : Incomplete bs → T ≤ bs.length → Chokes T bs
  | next {p bs : List Byte} : p ≠ [] → Chokes T bs → Chokes T (frameOf p ++ bs)

/-- An empty cache with room for `T` bytes, before and after `Reset`. -/
structure Vacant (T : Nat) (d : Deque) : Prop where
  empty : d.content = []
  room : d.cap - d.head = T
  again : d.cap - d.reserved = T

theorem Vacant.clear {T : Nat} {d : Deque} (h : Vacant T d) : Vacant T (Deque.clear d) := ⟨rfl, h.again, h.again⟩

theorem Vacant.tail {T : Nat} {d : Deque} (h : Vacant T d) : d.tail = T := by
  simp [Deque.tail, h.empty, h.room]

/-- Putting an incomplete frame into the empty cache: it does not fit and is lost, or it fills the cache. -/
theorem readFrom_vacant {T : Nat} {c src : Deque} (hc : Vacant T c) (hT : 0 < T) (hs : Incomplete src.content) :
    (src.content.length < T ∧ Vacant T (Deque.readFromDeque c src).2.2.1) ∨
    (T ≤ src.content.length ∧ Full (Deque.readFromDeque c src).2.2.1) := by
  have ht := hc.tail
  by_cases hl : src.content.length < T
  · left
    refine ⟨hl, ?_⟩
    simp only [Deque.readFromDeque, ht]
    rw [if_neg (by omega)]
    split
    · exact hc
    · exact hc
  · right
    refine ⟨by omega, ?_⟩
    rcases readFrom_settled hc.empty hs with h | h
    · exfalso
      simp only [Deque.readFromDeque, ht] at h
      rw [if_neg (by omega), if_neg (by intro e; rw [e] at hl; simp at hl; omega), if_neg hl] at h
      have := congrArg List.length h
      simp [Deque.push, hc.empty] at this
      rcases this with h | h
      · omega
      · rw [h] at hl; simp at hl; omega
    · exact h

/-- Only one way to read the beginning of a stream. -/
theorem Chokes.incomplete {T : Nat} {bs : List Byte} (h : Chokes T bs) (hl : bs.length < 2 ^ 32) :
    (Incomplete bs ∧ T ≤ bs.length) ∨
    (∃ l, decBE (bs.take 4) = l ∧ 0 < l ∧ 4 + l ≤ bs.length ∧ Chokes T ((bs.drop 4).drop l)) := by
  cases h with
  | here h1 h2 => exact .inl ⟨h1, h2⟩
  | @next p rest hp hr =>
    right
    simp only [List.length_append, frameOf_length] at hl
    refine ⟨p.length, ?_, List.length_pos_iff.2 hp, ?_, ?_⟩
    · rw [frameOf, List.append_assoc, List.take_left' (length_encBE _ _), decBE_encBE_mod]
      exact Nat.mod_eq_of_lt (by simpa using (by omega : p.length < 2 ^ 32))
    · simp only [List.length_append, frameOf_length]; omega
    · rw [frameOf, List.append_assoc, List.drop_left' (length_encBE _ _), List.drop_left' rfl]
      exact hr

theorem chokes_next {T : Nat} {bs : List Byte} (h4 : ¬ bs.length < 4) (h0 : decBE (bs.take 4) ≠ 0)
    (hl : ¬ (bs.drop 4).length < decBE (bs.take 4)) (h : Chokes T ((bs.drop 4).drop (decBE (bs.take 4)))) : Chokes T bs := by
  have e : bs = frameOf ((bs.drop 4).take (decBE (bs.take 4))) ++ (bs.drop 4).drop (decBE (bs.take 4)) := by
    rw [frameOf, List.append_assoc, List.take_append_drop]
    have hl4 : (bs.take 4).length = 4 := by rw [List.length_take]; omega
    have : encBE 4 ((bs.drop 4).take (decBE (bs.take 4))).length = bs.take 4 := by
      rw [List.length_take, Nat.min_eq_left (by omega)]
      conv => rhs; rw [← encBE_decBE (bs.take 4)]
      rw [hl4]
    rw [this, List.take_append_drop]
  rw [e]
  refine .next ?_ h
  intro hn
  have := congrArg List.length hn
  rw [List.length_take, List.length_nil] at this
  omega

/-- The loop over a read with an empty cache. -/
theorem decodeCurrent_vacant {T : Nat} (hT : 0 < T) (fuel : Nat) : ∀ (c src : Deque), Vacant T c → src.content.length < 2 ^ 32 →
    (decodeCurrent fuel c src).res = .ok () →
    (¬ Chokes T src.content ∧ Vacant T (decodeCurrent fuel c src).cache) ∨
    (Chokes T src.content ∧ Full (decodeCurrent fuel c src).cache) := by
  induction fuel with
  | zero => intro c src _ _ h; simp [decodeCurrent] at h
  | succ fuel ih =>
    intro c src hc hl hok
    have hinc : Incomplete src.content → (¬ Chokes T src.content ∧ Vacant T (Deque.readFromDeque c src).2.2.1) ∨
        (Chokes T src.content ∧ Full (Deque.readFromDeque c src).2.2.1) := by
      intro hi
      rcases readFrom_vacant hc hT hi with ⟨h1, h2⟩ | ⟨h1, h2⟩
      · refine .inl ⟨fun hch => ?_, h2⟩
        rcases hch.incomplete hl with ⟨_, h⟩ | ⟨l, e, h3, h4, _⟩
        · omega
        · rcases hi with hi | hi <;> omega
      · exact .inr ⟨.here hi h1, h2⟩
    simp only [decodeCurrent, toU32_of_nat _ hl] at hok ⊢
    by_cases h4 : src.content.length < 4
    · rw [if_pos h4]; exact hinc (.inl h4)
    rw [if_neg h4] at hok ⊢
    by_cases hgt : decBE (src.content.take 4) > src.content.length
    · rw [if_pos hgt]; exact hinc (.inr hgt)
    rw [if_neg hgt] at hok ⊢
    have hno : (src.content.drop 4).length < decBE (src.content.take 4) → ¬ Chokes T src.content := by
      intro hlt hch
      rw [List.length_drop] at hlt
      rcases hch.incomplete hl with ⟨hi, _⟩ | ⟨l, e, h3, h5, _⟩
      · rcases hi with hi | hi <;> omega
      · omega
    by_cases heq : decBE (src.content.take 4) = src.content.length
    · rw [if_pos heq]
      exact .inl ⟨hno (by rw [List.length_drop]; omega), hc⟩
    rw [if_neg heq] at hok ⊢
    by_cases h0 : decBE (src.content.take 4) = 0
    · rw [if_pos h0] at hok; simp at hok
    rw [if_neg h0] at hok ⊢
    by_cases hlt : (src.content.drop 4).length < decBE (src.content.take 4)
    · rw [if_pos hlt]
      exact .inl ⟨hno hlt, hc.clear⟩
    rw [if_neg hlt] at hok ⊢
    simp only at hok ⊢
    rcases ih c ((src.pop 4).pop (decBE (src.content.take 4))) hc (by rw [pop_pop_content]; simp; omega) hok with ⟨h1, h2⟩ | ⟨h1, h2⟩
    · refine .inl ⟨fun hch => h1 ?_, h2⟩
      rw [pop_pop_content]
      rcases hch.incomplete hl with ⟨hi, _⟩ | ⟨l, e, h3, h5, h6⟩
      · rw [List.length_drop] at hlt
        rcases hi with hi | hi <;> omega
      · rw [e]; exact h6
    · rw [pop_pop_content] at h1
      exact .inr ⟨chokes_next h4 h0 hlt h1, h2⟩

theorem decodeRead_vacant {T : Nat} (hT : 0 < T) (fuel : Nat) {c src : Deque} (hc : Vacant T c) (hl : src.content.length < 2 ^ 32)
    (hok : (decodeRead (fuel + 1) c src).res = .ok ()) :
    (¬ Chokes T src.content ∧ Vacant T (decodeRead (fuel + 1) c src).cache) ∨
    (Chokes T src.content ∧ Full (decodeRead (fuel + 1) c src).cache) := by
  have h := decodeCurrent_vacant hT (fuel + 1) c src hc hl
  simp only [decodeRead, hc.empty, ne_eq, not_true, if_false] at hok ⊢
  generalize decodeCurrent (fuel + 1) c src = a at h hok
  rcases hr : a.res with u | _ | _
  · rw [hr] at h
    simp only [hr] at hok ⊢
    rcases h rfl with ⟨h1, h2⟩ | ⟨h1, h2⟩
    · have : decodeCached (fuel + 1) a.cache = ⟨[], .ok (), Deque.clear a.cache⟩ := by simp [decodeCached, h2.empty]
      rw [this]
      exact .inl ⟨h1, h2.clear⟩
    · rw [h2.waits]
      exact .inr ⟨h1, h2⟩
  · rw [hr] at hok; simp [hr] at hok
  · rw [hr] at hok; simp [hr] at hok

/-- The cache after any reads on any connections that returned. -/
theorem reads_vacant {T : Nat} (hT : 0 < T) (i fuel : Nat) (rs : List (ConnId × List Byte)) : ∀ (ctxs : List Ctx) (w w' : World) (d : Deque),
    AtAll i w rs → Caches i w d → (Vacant T d ∨ Full d) → (∀ x ∈ rs, x.2.length < 2 ^ 32) → ReadsOf ctxs rs →
    reads (fuel + 1) i recorder ctxs w = (.ok (), w') →
    (w'.procs i).enable = true ∧ w'.conns = w.conns ∧ ∃ d', Caches i w' d' ∧
      ((Vacant T d' ∧ Vacant T d ∧ ∀ x ∈ rs, ¬ Chokes T x.2) ∨ (Full d' ∧ (Full d ∨ ∃ x ∈ rs, Chokes T x.2))) := by
  induction rs with
  | nil =>
    intro ctxs w w' d hat hd hset _ hr hok
    have : ctxs = [] := List.eq_nil_of_length_eq_zero hr.1
    subst this
    injection hok with _ hw
    subst hw
    refine ⟨hat.enable, rfl, d, hd, ?_⟩
    rcases hset with h | h
    · exact .inl ⟨h, h, by simp⟩
    · exact .inr ⟨h, .inl h⟩
  | cons x rs ih =>
    obtain ⟨c, bs⟩ := x
    intro ctxs w w' d hat hd hset hlen hr hok
    obtain ⟨h1, h2⟩ := hr
    cases ctxs with
    | nil => simp at h1
    | cons ctx ctxs =>
      obtain ⟨e1, e2⟩ := h2 (ctx, (c, bs)) (by simp)
      have hatc : At i c w := ⟨hat.enable, hat.bytes (c, bs) (by simp)⟩
      obtain ⟨ds, r, w1, k1, k2, k3, k4, k5, k6, k7⟩ := onLower_recorded (fuel := fuel + 1) hatc hd e1 e2
      have hconns := onLower_other (fuel := fuel + 1) hatc hd e1 e2
      rw [k2] at hconns
      simp only at k1 k2 hconns
      cases r with
      | ok y =>
        rw [reads_cons k2] at hok
        have hres : (decodeRead (fuel + 1) d ds).res = .ok () := by
          cases hr : (decodeRead (fuel + 1) d ds).res with
          | ok u => rfl
          | panic => exact absurd (k5.2 hr) (by simp)
          | running => exact absurd (k6.2 hr) (by simp)
        have hone : (Vacant T (decodeRead (fuel + 1) d ds).cache ∧ Vacant T d ∧ ¬ Chokes T bs) ∨
            (Full (decodeRead (fuel + 1) d ds).cache ∧ (Full d ∨ Chokes T bs)) := by
          rcases hset with hv | hf
          · rcases decodeRead_vacant hT fuel hv (by rw [k1]; exact hlen (c, bs) (by simp)) hres with ⟨a, b⟩ | ⟨a, b⟩
            · rw [k1] at a; exact .inl ⟨b, hv, a⟩
            · rw [k1] at a; exact .inr ⟨b, .inr a⟩
          · have hdec : decodeRead (fuel + 1) d ds = ⟨[], .ok (), d⟩ := by
              have : (Deque.readFromDeque d ds).2.2.1 = d := by simp only [Deque.readFromDeque]; rw [if_pos hf.full]
              simp only [decodeRead, if_pos hf.some, this, hf.waits fuel, List.nil_append]
            rw [hdec]
            exact .inr ⟨hf, .inl hf⟩
        obtain ⟨g1, g2, d', g3, g4⟩ := ih ctxs w1 w' _ ⟨k4.enable, fun z hz => by rw [hconns]; exact hat.bytes z (by simp [hz])⟩
          (k7 y rfl) (by rcases hone with h | h; exact .inl h.1; exact .inr h.1) (fun z hz => hlen z (by simp [hz]))
          ⟨by simpa using h1, fun z hz => h2 z (by simp [hz])⟩ hok
        refine ⟨g1, g2.trans hconns, d', g3, ?_⟩
        rcases g4 with ⟨a1, a2, a3⟩ | ⟨a1, a2⟩
        · rcases hone with ⟨_, b2, b3⟩ | ⟨b1, _⟩
          · refine .inl ⟨a1, b2, fun z hz => ?_⟩
            rcases List.mem_cons.1 hz with rfl | hz
            · exact b3
            · exact a3 z hz
          · exact absurd a2.empty b1.some
        · refine .inr ⟨a1, ?_⟩
          rcases a2 with a2 | ⟨z, hz, a2⟩
          · rcases hone with ⟨b1, _⟩ | ⟨_, b2 | b2⟩
            · exact absurd b1.empty a2.some
            · exact .inl b2
            · exact .inr ⟨(c, bs), by simp, b2⟩
          · exact .inr ⟨z, by simp [hz], a2⟩
      | panic => rw [reads_panic k2] at hok; simp at hok
      | running => rw [reads_running k2] at hok; simp at hok

/-- C73, exactly.  After any reads of any bytes on any connections, a whole frame read on a connection is handed up
for it if and only if no earlier read, on whichever connection, ended in the beginning of a frame at least as long as
the room in the cache. -/
theorem c73_exact (T i fuel : Nat) (hT : 0 < T) (rs : List (ConnId × List Byte)) (ctxs : List Ctx) (w w' : World) (d : Deque)
    (hat : AtAll i w rs) (hd : Caches i w d) (hv : Vacant T d) (hlen : ∀ x ∈ rs, x.2.length < 2 ^ 32) (hr : ReadsOf ctxs rs)
    (hok : reads (fuel + 2) i recorder ctxs w = (.ok (), w'))
    (c : ConnId) (hc : (w.conns c).useRef = false) (p : List Byte) (hp : p ≠ []) (hpl : (frameOf p).length < 2 ^ 32)
    (ctx : Ctx) (hctx : ctx.conn = some c) (hcar : Carries ctx (frameOf p)) :
    (onLower (fuel + 2) i (w'.procs i) recorder ctx w').2.trace = w'.trace ++ [.rx 0 (some c) (.bytes p)] ↔
    ∀ x ∈ rs, ¬ Chokes T x.2 := by
  obtain ⟨g1, g2, d', g3, g4⟩ := reads_vacant hT i (fuel + 1) rs ctxs w w' d hat hd (.inl hv) hlen hr hok
  obtain ⟨ds, r, w1, k1, k2, k3, k4, k5, k6, k7⟩ := onLower_recorded (fuel := fuel + 2) (bs := frameOf p) ⟨g1, by rw [g2]; exact hc⟩ g3 hctx hcar
  rw [k2]
  simp only
  rw [k3]
  have hst : stream [p] = frameOf p := by simp [stream]
  rcases g4 with ⟨a1, _, a3⟩ | ⟨a1, a2⟩
  · rw [decodeRead_stream (ps := [p]) (by simpa using hp) a1.empty (by rw [k1, hst]) (by rw [hst]; exact hpl) (by simp)]
    simp only [received, List.map_cons, List.map_nil, true_iff]
    exact a3
  · have hdec : decodeRead (fuel + 2) d' ds = ⟨[], .ok (), d'⟩ := by
      have : (Deque.readFromDeque d' ds).2.2.1 = d' := by simp only [Deque.readFromDeque]; rw [if_pos a1.full]
      simp only [decodeRead, if_pos a1.some, this, a1.waits (fuel + 1), List.nil_append]
    rw [hdec]
    constructor
    · intro h
      simp [received] at h
    · intro h
      rcases a2 with a2 | ⟨x, hx, a2⟩
      · exact absurd hv.empty a2.some
      · exact absurd a2 (h x hx)

/-! ## Examples -/

theorem framing_vacant : Vacant 8 (Deque.fresh 16 8) := ⟨rfl, rfl, rfl⟩

/-- A whole frame with three bytes of the next does not choke a cache of eight bytes. -/
theorem calm_two : ¬ Chokes 8 [0, 0, 0, 1, 9, 0, 0, 0] := fun h => by
  rcases h.incomplete (by decide) with h | ⟨l, e, _, _, h⟩
  · exact absurd h.1 (by unfold Incomplete; decide)
  · subst e
    rcases h.incomplete (by decide) with h | ⟨l, e, _, h, _⟩
    · exact absurd h.2 (by decide)
    · exact absurd h (by simp [decBE]; omega)

/-- three bytes of connection 0's next frame are dropped; connection 1 does not notice -/
example (w' : World) (hok : reads 9 0 recorder [rxOn 0 [0, 0, 0, 1, 9, 0, 0, 0]] framing = (.ok (), w')) :
    (onLower 9 0 (w'.procs 0) recorder (rxOn 1 [0, 0, 0, 2, 7, 7]) w').2.trace = w'.trace ++ [.rx 0 (some 1) (.bytes [7, 7])] :=
  (c73_exact 8 0 7 (by omega) [(0, [0, 0, 0, 1, 9, 0, 0, 0])] _ framing w' _ ⟨rfl, fun _ _ => rfl⟩ framing_caches framing_vacant (by decide)
    (rxOn_reads [(0, [0, 0, 0, 1, 9, 0, 0, 0])] (by decide)) hok 1 rfl [7, 7] (by decide) (by decide)
    (rxOn 1 [0, 0, 0, 2, 7, 7]) rfl (demoRx_carries (by decide) (by decide))).2 (by intro x hx; simp at hx; subst hx; exact calm_two)

/-- eight bytes of a frame of nine, behind a whole frame: connection 1 gets nothing -/
example (w' : World) (hok : reads 9 0 recorder [rxOn 0 [0, 0, 0, 1, 9, 0, 0, 0, 9, 1, 2, 3, 4]] framing = (.ok (), w')) :
    ¬ (onLower 9 0 (w'.procs 0) recorder (rxOn 1 [0, 0, 0, 2, 7, 7]) w').2.trace = w'.trace ++ [.rx 0 (some 1) (.bytes [7, 7])] :=
  fun h => (c73_exact 8 0 7 (by omega) [(0, [0, 0, 0, 1, 9, 0, 0, 0, 9, 1, 2, 3, 4])] _ framing w' _ ⟨rfl, fun _ _ => rfl⟩ framing_caches
    framing_vacant (by decide) (rxOn_reads [(0, [0, 0, 0, 1, 9, 0, 0, 0, 9, 1, 2, 3, 4])] (by decide)) hok 1 rfl [7, 7] (by decide) (by decide)
    (rxOn 1 [0, 0, 0, 2, 7, 7]) rfl (demoRx_carries (by decide) (by decide))).1 h (0, [0, 0, 0, 1, 9, 0, 0, 0, 9, 1, 2, 3, 4]) (by simp)
    (Chokes.next (p := [9]) (bs := [0, 0, 0, 9, 1, 2, 3, 4]) (by decide) (.here (.inr (by decide)) (by decide)))

end Verif.Stack
