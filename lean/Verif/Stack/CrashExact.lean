import Verif.Stack.SharedExact

/-!
# C24, exactly: which reads crash the FrameDecoder
-/

namespace Verif.Stack
open GoM UBuf

/-- A read that crashes an idle decoder: some whole frames, then four zero bytes, then anything. -/
def Deadly (bs : List Byte) : Prop := ∃ ps rest, (∀ p ∈ ps, p ≠ []) ∧ bs = stream ps ++ ([0, 0, 0, 0] ++ rest)

theorem Deadly.split {bs : List Byte} (h : Deadly bs) (hl : bs.length < 2 ^ 32) :
    4 ≤ bs.length ∧ (decBE (bs.take 4) = 0 ∨
      (0 < decBE (bs.take 4) ∧ 8 + decBE (bs.take 4) ≤ bs.length ∧ Deadly ((bs.drop 4).drop (decBE (bs.take 4))))) := by
  obtain ⟨ps, rest, hne, rfl⟩ := h
  cases ps with
  | nil => exact ⟨by simp [stream], .inl (by simp [stream, decBE])⟩
  | cons p ps =>
    have hp : 0 < p.length := List.length_pos_iff.2 (hne p (by simp))
    rw [stream_cons, List.append_assoc, List.append_assoc] at hl ⊢
    have hh : decBE ((encBE 4 p.length ++ (p ++ (stream ps ++ ([0, 0, 0, 0] ++ rest)))).take 4) = p.length := by
      apply decode_header
      simp only [List.length_append] at hl
      omega
    rw [hh]
    refine ⟨by simp [length_encBE], .inr ⟨hp, by simp [length_encBE]; omega, ps, rest, fun q hq => hne q (by simp [hq]), ?_⟩⟩
    rw [List.drop_left' (length_encBE _ _), List.drop_left' rfl]

theorem deadly_zero {bs : List Byte} (h4 : ¬ bs.length < 4) (h : decBE (bs.take 4) = 0) : Deadly bs := by
  refine ⟨[], bs.drop 4, by simp, ?_⟩
  have h1 := encBE_decBE (bs.take 4)
  rw [h, List.length_take, Nat.min_eq_left (by omega)] at h1
  have h2 : (encBE 4 0 : List Byte) = [0, 0, 0, 0] := by decide
  simp only [stream, List.map_nil, List.flatten_nil, List.nil_append]
  rw [← h2, h1, List.take_append_drop]

theorem deadly_next {bs : List Byte} (h4 : ¬ bs.length < 4) (h0 : decBE (bs.take 4) ≠ 0)
    (hl : ¬ (bs.drop 4).length < decBE (bs.take 4)) (h : Deadly ((bs.drop 4).drop (decBE (bs.take 4)))) : Deadly bs := by
  obtain ⟨ps, rest, hne, he⟩ := h
  have hlen : ((bs.drop 4).take (decBE (bs.take 4))).length = decBE (bs.take 4) := by
    rw [List.length_take]; omega
  refine ⟨(bs.drop 4).take (decBE (bs.take 4)) :: ps, rest, fun q hq => ?_, ?_⟩
  · rcases List.mem_cons.1 hq with rfl | hq
    · intro hn; rw [hn] at hlen; exact h0 hlen.symm
    · exact hne q hq
  · rw [stream_cons, hlen, List.append_assoc, List.append_assoc, ← he, List.take_append_drop]
    have hl4 : (bs.take 4).length = 4 := by rw [List.length_take]; omega
    have : encBE 4 (decBE (bs.take 4)) = bs.take 4 := by
      conv => rhs; rw [← encBE_decBE (bs.take 4)]
      rw [hl4]
    rw [this, List.take_append_drop]

/-- The loop over a read with an empty cache. -/
theorem decodeCurrent_deadly (fuel : Nat) : ∀ (c src : Deque), src.content.length < 2 ^ 32 → src.content.length < fuel →
    ((decodeCurrent fuel c src).res = .panic ↔ Deadly src.content) := by
  induction fuel with
  | zero => intro c src _ hf; omega
  | succ fuel ih =>
    intro c src hl hf
    simp only [decodeCurrent, toU32_of_nat _ hl]
    by_cases h4 : src.content.length < 4
    · rw [if_pos h4]
      simp only [reduceCtorEq, false_iff]
      intro h
      have := (h.split hl).1
      omega
    rw [if_neg h4]
    have hno : src.content.length < 8 + decBE (src.content.take 4) → decBE (src.content.take 4) ≠ 0 → ¬ Deadly src.content := by
      intro hlt h0 h
      rcases (h.split hl).2 with h | ⟨_, h, _⟩
      · exact h0 h
      · omega
    by_cases hgt : decBE (src.content.take 4) > src.content.length
    · rw [if_pos hgt]
      simp only [reduceCtorEq, false_iff]
      exact hno (by omega) (by omega)
    rw [if_neg hgt]
    by_cases heq : decBE (src.content.take 4) = src.content.length
    · rw [if_pos heq]
      simp only [reduceCtorEq, false_iff]
      exact hno (by omega) (by omega)
    rw [if_neg heq]
    by_cases h0 : decBE (src.content.take 4) = 0
    · rw [if_pos h0]
      simp only [true_iff]
      exact deadly_zero h4 h0
    rw [if_neg h0]
    by_cases hlt : (src.content.drop 4).length < decBE (src.content.take 4)
    · rw [if_pos hlt]
      simp only [reduceCtorEq, false_iff]
      rw [List.length_drop] at hlt
      exact hno (by omega) h0
    rw [if_neg hlt]
    simp only
    rw [ih c ((src.pop 4).pop (decBE (src.content.take 4))) (by rw [pop_pop_content]; simp; omega) (by rw [pop_pop_content]; simp; omega),
      pop_pop_content]
    constructor
    · exact deadly_next h4 h0 hlt
    · intro h
      rcases (h.split hl).2 with h | ⟨_, _, h⟩
      · exact absurd h h0
      · exact h

theorem decodeRead_deadly {T : Nat} (hT : 0 < T) {fuel : Nat} {c src : Deque} (hc : Vacant T c) (hl : src.content.length < 2 ^ 32)
    (hf : src.content.length < fuel + 1) : (decodeRead (fuel + 1) c src).res = .panic ↔ Deadly src.content := by
  rw [← decodeCurrent_deadly (fuel + 1) c src hl hf]
  have h := decodeCurrent_vacant hT (fuel + 1) c src hc hl
  simp only [decodeRead, hc.empty, ne_eq, not_true, if_false]
  generalize decodeCurrent (fuel + 1) c src = a at h
  rcases hr : a.res with u | _ | _
  · rw [hr] at h
    simp only [reduceCtorEq, iff_false]
    rcases h rfl with ⟨_, h2⟩ | ⟨_, h2⟩
    · simp [decodeCached, h2.empty]
    · rw [h2.waits]; simp
  · simp [hr]
  · simp [hr]

/-- **C24, exactly.**  Whatever is read, on whichever connections: the decoder crashes if and only if some read consists of whole frames followed
by four zero bytes (and anything), and no earlier read has jammed the cache. -/
theorem c24_exact (T i fuel : Nat) (hT : 0 < T) (rs : List (ConnId × List Byte)) : ∀ (ctxs : List Ctx) (w : World) (d : Deque),
    AtAll i w rs → Caches i w d → Vacant T d → (∀ x ∈ rs, x.2.length < 2 ^ 32 ∧ x.2.length < fuel) → ReadsOf ctxs rs →
    ((reads fuel i recorder ctxs w).1 = .panic ↔
      ∃ pre x post, rs = pre ++ x :: post ∧ (∀ y ∈ pre, ¬ Chokes T y.2) ∧ Deadly x.2) := by
  suffices hmain : ∀ (ctxs : List Ctx) (w : World) (d : Deque),
      AtAll i w rs → Caches i w d → (∀ x ∈ rs, x.2.length < 2 ^ 32 ∧ x.2.length < fuel) → ReadsOf ctxs rs →
      (Full d → (reads fuel i recorder ctxs w).1 ≠ .panic) ∧
      (Vacant T d → ((reads fuel i recorder ctxs w).1 = .panic ↔
        ∃ pre x post, rs = pre ++ x :: post ∧ (∀ y ∈ pre, ¬ Chokes T y.2) ∧ Deadly x.2)) from
    fun ctxs w d h1 h2 h3 h4 h5 => (hmain ctxs w d h1 h2 h4 h5).2 h3
  induction rs with
  | nil =>
    intro ctxs w d _ _ _ hr
    have : ctxs = [] := List.eq_nil_of_length_eq_zero hr.1
    subst this
    simp [reads, pure_apply]
  | cons x rs ih =>
    obtain ⟨c, bs⟩ := x
    intro ctxs w d hat hd hlen hr
    obtain ⟨h1, h2⟩ := hr
    cases ctxs with
    | nil => simp at h1
    | cons ctx ctxs =>
      obtain ⟨e1, e2⟩ := h2 (ctx, (c, bs)) (by simp)
      have hatc : At i c w := ⟨hat.enable, hat.bytes (c, bs) (by simp)⟩
      have hl := hlen (c, bs) (by simp)
      obtain ⟨f, rfl⟩ : ∃ f, fuel = f + 1 := ⟨fuel - 1, by omega⟩
      obtain ⟨ds, r, w1, k1, k2, k3, k4, k5, k6, k7⟩ := onLower_recorded (fuel := f + 1) hatc hd e1 e2
      have hconns := onLower_other (fuel := f + 1) hatc hd e1 e2
      rw [k2] at hconns
      simp only at k1 k2 hconns hl
      have hih := fun (y : Ctx) (hy : r = .ok y) => ih ctxs w1 _ ⟨k4.enable, fun z hz => by rw [hconns]; exact hat.bytes z (by simp [hz])⟩
        (k7 y hy) (fun z hz => hlen z (by simp [hz])) ⟨by simpa using h1, fun z hz => h2 z (by simp [hz])⟩
      constructor
      · intro hf
        have hdec : decodeRead (f + 1) d ds = ⟨[], .ok (), d⟩ := by
          have : (Deque.readFromDeque d ds).2.2.1 = d := by simp only [Deque.readFromDeque]; rw [if_pos hf.full]
          simp only [decodeRead, if_pos hf.some, this, hf.waits f, List.nil_append]
        rw [hdec] at k5 k6 hih
        cases r with
        | ok y => rw [reads_cons k2]; exact (hih y rfl).1 hf
        | panic => simp at k5
        | running => simp at k6
      · intro hv
        have hdl := decodeRead_deadly hT (fuel := f) hv (src := ds) (by rw [k1]; exact hl.1) (by rw [k1]; exact hl.2)
        rw [k1] at hdl
        have hrun : r ≠ .running := fun h => (honest_read (f + 1) d ds).ends (by rw [hv.empty, k1]; exact hl.2) (k6.1 h)
        cases r with
        | ok y =>
          rw [reads_cons k2]
          have hnd : ¬ Deadly bs := fun h => by have := k5.2 (hdl.2 h); simp at this
          have hres : (decodeRead (f + 1) d ds).res = .ok () := by
            cases hr : (decodeRead (f + 1) d ds).res with
            | ok u => rfl
            | panic => exact absurd (k5.2 hr) (by simp)
            | running => exact absurd (k6.2 hr) (by simp)
          rcases decodeRead_vacant hT f hv (by rw [k1]; exact hl.1) hres with ⟨a, b⟩ | ⟨a, b⟩
          · rw [k1] at a
            rw [(hih y rfl).2 b]
            constructor
            · rintro ⟨pre, x, post, rfl, hp, hx⟩
              refine ⟨(c, bs) :: pre, x, post, rfl, fun z hz => ?_, hx⟩
              rcases List.mem_cons.1 hz with rfl | hz
              · exact a
              · exact hp z hz
            · rintro ⟨pre, x, post, he, hp, hx⟩
              cases pre with
              | nil => injection he with e _; subst e; exact absurd hx hnd
              | cons z pre =>
                injection he with _ e
                exact ⟨pre, x, post, e, fun q hq => hp q (by simp [hq]), hx⟩
          · rw [k1] at a
            refine ⟨fun h => absurd h ((hih y rfl).1 b), ?_⟩
            rintro ⟨pre, x, post, he, hp, hx⟩
            cases pre with
            | nil => injection he with e _; subst e; exact absurd hx hnd
            | cons z pre =>
              injection he with e _
              exact absurd a (by have := hp z (by simp); rw [← e] at this; exact this)
        | panic =>
          rw [reads_panic k2]
          simp only [true_iff]
          exact ⟨[], (c, bs), rs, rfl, by simp, hdl.1 (k5.1 rfl)⟩
        | running => exact absurd rfl hrun

/-! ## Examples -/

/-- a good frame on connection 0, then on connection 1 a good frame followed by an empty one: crash -/
example : (reads 14 0 recorder [rxOn 0 [0, 0, 0, 1, 9], rxOn 1 [0, 0, 0, 1, 9, 0, 0, 0, 0]] framing).1 = .panic :=
  (c24_exact 8 0 14 (by omega) [(0, [0, 0, 0, 1, 9]), (1, [0, 0, 0, 1, 9, 0, 0, 0, 0])] _ framing _ ⟨rfl, fun _ _ => rfl⟩ framing_caches
    framing_vacant (by decide) (rxOn_reads [(0, [0, 0, 0, 1, 9]), (1, [0, 0, 0, 1, 9, 0, 0, 0, 0])] (by decide))).2
    ⟨[(0, [0, 0, 0, 1, 9])], (1, [0, 0, 0, 1, 9, 0, 0, 0, 0]), [], rfl, fun y hy => by
      rw [List.mem_singleton] at hy; subst hy
      intro h
      rcases h.incomplete (by decide) with h | ⟨l, e, _, _, h⟩
      · exact absurd h.1 (by unfold Incomplete; decide)
      · subst e
        rcases h.incomplete (by decide) with h | ⟨l, e, _, h, _⟩
        · exact absurd h.2 (by decide)
        · exact absurd h (by simp [decBE]), ⟨[[9]], [], by simp, by decide⟩⟩

/-- four zero bytes inside a payload do not crash it -/
example : (reads 14 0 recorder [rxOn 0 [0, 0, 0, 4, 0, 0, 0, 0]] framing).1 ≠ .panic := by
  intro h
  obtain ⟨pre, x, post, he, _, hx⟩ := (c24_exact 8 0 14 (by omega) [(0, [0, 0, 0, 4, 0, 0, 0, 0])] _ framing _ ⟨rfl, fun _ _ => rfl⟩
    framing_caches framing_vacant (by decide) (rxOn_reads [(0, [0, 0, 0, 4, 0, 0, 0, 0])] (by decide))).1 h
  have : x = (0, [0, 0, 0, 4, 0, 0, 0, 0]) := by
    have : x ∈ [((0 : ConnId), ([0, 0, 0, 4, 0, 0, 0, 0] : List Byte))] := by rw [he]; simp
    simpa using this
  subst this
  rcases (hx.split (by decide)).2 with h | ⟨_, h, _⟩
  · exact absurd h (by decide)
  · exact absurd h (by decide)

end Verif.Stack
