import Verif.Stack.FrameProps

/-!
# C23, exactly: which cuts of a byte stream the FrameDecoder survives

The payloads of a stream of frames arrive complete, each once and in order, if and only if every read ends at a frame boundary.  The cache for incomplete
frames (proc_frame_decoder.go:59-62, 68-71, 83-86) never helps: `ReadFrom` (ubuf.go:467-482) keeps nothing of a short read, and a cache it could
fill up completely has no room for the rest of the frame.
-/

namespace Verif.Stack
open GoM UBuf

/-! ## Specification -/

/-- Every read ends at the end of a frame (or at the start of the stream). -/
def AtBoundaries (ps : List (List Byte)) (bss : List (List Byte)) : Prop :=
  ∀ k, ∃ j, (bss.take k).flatten = stream (ps.take j)

/-! ## Streams and their prefixes -/

theorem stream_append (ps qs : List (List Byte)) : stream (ps ++ qs) = stream ps ++ stream qs := by
  simp [stream]

theorem stream_split (ps : List (List Byte)) (j : Nat) : stream ps = stream (ps.take j) ++ stream (ps.drop j) := by
  rw [← stream_append, List.take_append_drop]

theorem stream_cons' (p : List Byte) (ps : List (List Byte)) : stream (p :: ps) = frameOf p ++ stream ps := by
  simp [stream]

theorem stream_length_cons (p : List Byte) (ps : List (List Byte)) : (stream (p :: ps)).length = p.length + 4 + (stream ps).length := by
  rw [stream_cons', List.length_append, frameOf_length]

theorem stream_take_mono (ps : List (List Byte)) : ∀ {j k : Nat}, j ≤ k → (stream (ps.take j)).length ≤ (stream (ps.take k)).length := by
  intro j k h
  have : ps.take j = (ps.take k).take j := by rw [List.take_take, Nat.min_eq_left h]
  rw [this]
  have := congrArg List.length (stream_split (ps.take k) j)
  rw [List.length_append] at this; omega

theorem stream_take_succ (ps : List (List Byte)) (j : Nat) (h : j < ps.length) :
    (stream (ps.take (j + 1))).length = (stream (ps.take j)).length + (ps[j].length + 4) := by
  rw [List.take_succ_eq_append_getElem h, stream_append, List.length_append, stream_length_cons]
  simp [stream]

/-- A prefix of a stream: some whole frames, and then nothing or a proper part of the next frame. -/
theorem prefix_cases (ps : List (List Byte)) : ∀ (bs rest : List Byte), bs ++ rest = stream ps →
    (∃ j, j ≤ ps.length ∧ bs = stream (ps.take j) ∧ rest = stream (ps.drop j)) ∨
    (∃ qs p qs' r, ps = qs ++ p :: qs' ∧ bs = stream qs ++ r ∧ r ≠ [] ∧ r.length < p.length + 4 ∧ r = (frameOf p).take r.length) := by
  induction ps with
  | nil =>
    intro bs rest h
    have h : bs ++ rest = [] := h
    rw [List.append_eq_nil_iff] at h
    exact .inl ⟨0, by simp, by simp [h.1, stream], by simp [h.2, stream]⟩
  | cons p ps ih =>
    intro bs rest h
    rw [stream_cons'] at h
    by_cases hb : bs = []
    · subst hb
      exact .inl ⟨0, by simp, by simp [stream], by rw [List.drop_zero, stream_cons']; simpa using h⟩
    by_cases hl : bs.length < p.length + 4
    · refine .inr ⟨[], p, ps, bs, by simp, by simp [stream], hb, hl, ?_⟩
      have := congrArg (List.take bs.length) h
      rw [List.take_left, List.take_append_of_le_length (by rw [frameOf_length]; omega)] at this
      exact this
    · have hf := frameOf_length p
      have h1 : bs.take (frameOf p).length = frameOf p := by
        have := congrArg (List.take (frameOf p).length) h
        rw [List.take_left, List.take_append_of_le_length (by omega)] at this
        exact this
      have h2 : bs = frameOf p ++ bs.drop (frameOf p).length := by
        rw [← h1, List.length_take, Nat.min_eq_left (by omega), List.take_append_drop]
      have h3 : bs.drop (frameOf p).length ++ rest = stream ps := by
        rw [h2, List.append_assoc] at h
        exact List.append_cancel_left h
      rcases ih _ _ h3 with ⟨j, e1, e2, e3⟩ | ⟨qs, q, qs', r, e1, e2, e3, e4, e5⟩
      · refine .inl ⟨j + 1, by simp; omega, ?_, by simpa using e3⟩
        rw [h2, e2, List.take_succ_cons, stream_cons']
      · refine .inr ⟨p :: qs, q, qs', r, by rw [e1]; rfl, ?_, e3, e4, e5⟩
        rw [h2, e2, stream_cons', List.append_assoc]

/-- Whole frames and a proper part of the next one: not a boundary. -/
theorem not_boundary {qs qs' : List (List Byte)} {p r : List Byte} (hr : r ≠ []) (hl : r.length < p.length + 4) (j : Nat) :
    stream qs ++ r ≠ stream ((qs ++ p :: qs').take j) := by
  intro h
  have h := congrArg List.length h
  have hr := List.length_pos_iff.mpr hr
  rw [List.length_append] at h
  have e1 : (qs ++ p :: qs').take qs.length = qs := by simp
  have hq : qs.length < (qs ++ p :: qs').length := by simp
  have e2 := stream_take_succ (qs ++ p :: qs') qs.length hq
  rw [e1] at e2
  have e3 : (qs ++ p :: qs')[qs.length] = p := by simp
  rw [e3] at e2
  by_cases hj : j ≤ qs.length
  · have := stream_take_mono (qs ++ p :: qs') hj
    rw [e1] at this; omega
  · have := stream_take_mono (qs ++ p :: qs') (show qs.length + 1 ≤ j by omega)
    omega

/-! ## One read that ends inside a frame -/

/-- The loop over the received bytes, on whole frames followed by anything. -/
theorem decodeCurrent_append (ps : List (List Byte)) : ∀ (fuel : Nat) (c src : Deque) (r : List Byte), (∀ p ∈ ps, p ≠ []) →
    src.content = stream ps ++ r → (stream ps ++ r).length < 2 ^ 32 → ps.length < fuel → r ≠ [] →
    ∃ fuel' src', src'.content = r ∧ fuel' + ps.length = fuel ∧
      decodeCurrent fuel c src = ⟨ps ++ (decodeCurrent fuel' c src').out, (decodeCurrent fuel' c src').res, (decodeCurrent fuel' c src').cache⟩ := by
  induction ps with
  | nil => intro fuel c src r _ hs _ _ _; exact ⟨fuel, src, by simpa [stream] using hs, by simp, by simp⟩
  | cons p ps ih =>
    intro fuel c src r hne hs hl hf hr
    obtain ⟨f, rfl⟩ : ∃ f, fuel = f + 1 := ⟨fuel - 1, by simp at hf; omega⟩
    have hp : 0 < p.length := List.length_pos_iff.mpr (hne p (by simp))
    have hrl := List.length_pos_iff.mpr hr
    rw [stream_cons, List.append_assoc, List.append_assoc] at hs hl
    have hlen : src.content.length = 4 + (p.length + ((stream ps).length + r.length)) := by rw [hs]; simp [length_encBE]
    have hl2 : src.content.length < 2 ^ 32 := by rw [hs]; exact hl
    have hh : decBE (src.content.take 4) = p.length := by rw [hs]; exact decode_header (by omega) _
    have hd4 : src.content.drop 4 = p ++ (stream ps ++ r) := by rw [hs, List.drop_left' (length_encBE _ _)]
    obtain ⟨f', src', e1, e2, e3⟩ := ih f c ((src.pop 4).pop p.length) r (fun q hq => hne q (by simp [hq]))
      (by rw [pop_pop_content, hd4]; simp) (by rw [List.length_append]; omega) (by simp at hf; omega) hr
    refine ⟨f', src', e1, by simp; omega, ?_⟩
    simp only [decodeCurrent, hh, toU32_of_nat _ hl2, hd4, e3]
    rw [if_neg (by omega), if_neg (by omega), if_neg (by omega), if_neg (by omega), if_neg (by simp)]
    simp

/-- What is left of the cache if it waits for the rest of a frame that does not fit. -/
structure Full (d : Deque) : Prop where
  some : d.content ≠ []
  full : d.tail = 0
  waits : ∀ fuel, decodeCached (fuel + 1) d = ⟨[], .ok (), d⟩

/-- The last, incomplete frame of a read, with an empty cache: (part of) it is lost, or it fills the cache completely, or it is handed up truncated. -/
theorem decodeCurrent_piece (p r : List Byte) (hp : p.length < 2 ^ 32) (hr : r ≠ []) (hl : r.length < p.length + 4) (hr32 : r.length < 2 ^ 32)
    (hrp : r = (frameOf p).take r.length) (hp0 : p ≠ []) (fuel : Nat) (c src : Deque) (hc : c.content = []) (hs : src.content = r) :
    (decodeCurrent (fuel + 1) c src).res = .ok () ∧
    ((decodeCurrent (fuel + 1) c src).out = [] ∧ (decodeCurrent (fuel + 1) c src).cache.content.length < r.length ∨
      (decodeCurrent (fuel + 1) c src).out = [] ∧ Full (decodeCurrent (fuel + 1) c src).cache ∨
      ∃ q, (decodeCurrent (fuel + 1) c src).out = [q] ∧ q.length < p.length) := by
  have hrl := List.length_pos_iff.mpr hr
  have hpl := List.length_pos_iff.mpr hp0
  have hdec : 4 ≤ r.length → decBE (r.take 4) = p.length := by
    intro h4
    have h1 : r.take 4 = encBE 4 p.length := by
      rw [hrp, List.take_take, Nat.min_eq_left h4, frameOf, List.take_left' (length_encBE _ _)]
    rw [h1, decBE_encBE_mod]
    exact Nat.mod_eq_of_lt (by simpa using hp)
  -- the frame is cached
  have keep : (r.length < 4 ∨ (4 ≤ r.length ∧ r.length < p.length)) →
      (Deque.readFromDeque c src).2.2.1.content.length < r.length ∨ Full (Deque.readFromDeque c src).2.2.1 := by
    intro hwait
    simp only [Deque.readFromDeque, hs, if_neg hr]
    split
    · left; simpa [hc] using hrl
    · split
      · left; simpa [hc] using hrl
      · rename_i ht hlt
        by_cases he : r.length = c.tail
        · right
          have hcont : (c.push (r.take c.tail)).content = r := by
            simp [Deque.push, hc, ← he]
          refine ⟨by rw [hcont]; exact hr, ?_, ?_⟩
          · have h1 : c.tail = c.cap - c.head := by simp [Deque.tail, hc]
            have h2 : (c.push (r.take c.tail)).tail = c.cap - c.head - (c.push (r.take c.tail)).content.length := rfl
            rw [h2, hcont]; omega
          · intro f
            simp only [decodeCached, hcont]
            rw [if_neg hr]
            rcases hwait with h | ⟨h4, h⟩
            · rw [if_pos h]
            · rw [if_neg (by omega), hdec h4, if_pos h]
        · left
          simp [Deque.push, hc]; omega
  by_cases h4 : r.length < 4
  · have : decodeCurrent (fuel + 1) c src = ⟨[], .ok (), (Deque.readFromDeque c src).2.2.1⟩ := by
      simp only [decodeCurrent, hs, if_pos h4]
    rw [this]
    rcases keep (.inl h4) with h | h
    · exact ⟨rfl, .inl ⟨rfl, h⟩⟩
    · exact ⟨rfl, .inr (.inl ⟨rfl, h⟩)⟩
  · have h4' : 4 ≤ r.length := by omega
    by_cases hgt : r.length < p.length
    · have : decodeCurrent (fuel + 1) c src = ⟨[], .ok (), (Deque.readFromDeque c src).2.2.1⟩ := by
        simp only [decodeCurrent, hs, if_neg h4, hdec h4', toU32_of_nat _ hr32]
        rw [if_pos (by omega)]
      rw [this]
      rcases keep (.inr ⟨h4', hgt⟩) with h | h
      · exact ⟨rfl, .inl ⟨rfl, h⟩⟩
      · exact ⟨rfl, .inr (.inl ⟨rfl, h⟩)⟩
    · by_cases heq : r.length = p.length
      · have : decodeCurrent (fuel + 1) c src = ⟨[r.drop 4], .ok (), c⟩ := by
          simp only [decodeCurrent, hs, if_neg h4, hdec h4', toU32_of_nat _ hr32]
          rw [if_neg (by omega), if_pos heq.symm]
        rw [this]
        refine ⟨rfl, .inr (.inr ⟨_, rfl, ?_⟩)⟩
        rw [List.length_drop]; omega
      · have : decodeCurrent (fuel + 1) c src = ⟨[], .ok (), Deque.clear c⟩ := by
          simp only [decodeCurrent, hs, if_neg h4, hdec h4', toU32_of_nat _ hr32]
          rw [if_neg (by omega), if_neg (by omega), if_neg (by omega), if_pos (by rw [List.length_drop]; omega)]
        rw [this]
        exact ⟨rfl, .inl ⟨rfl, by simpa [Deque.clear] using hrl⟩⟩

/-- One read that ends inside the frame of `p`: bytes are lost, or the cache is stuck, or a wrong payload is handed up in place of `p`. -/
theorem decodeRead_piece (qs : List (List Byte)) (p r : List Byte) (hqs : ∀ q ∈ qs, q ≠ []) (hp0 : p ≠ []) (hp : p.length < 2 ^ 32) (hr : r ≠ []) (hl : r.length < p.length + 4)
    (hl32 : (stream qs ++ r).length < 2 ^ 32) (hrp : r = (frameOf p).take r.length) (fuel : Nat) (hf : qs.length < fuel) (c src : Deque)
    (hc : c.content = []) (hs : src.content = stream qs ++ r) :
    framed (decodeRead fuel c src).out + (decodeRead fuel c src).cache.content.length < (stream qs ++ r).length ∨
    ((decodeRead fuel c src).out = qs ∧ Full (decodeRead fuel c src).cache) ∨
    ∃ q more, (decodeRead fuel c src).out = qs ++ q :: more ∧ q.length < p.length := by
  obtain ⟨f', src', e1, e2, e3⟩ := decodeCurrent_append qs fuel c src r hqs hs hl32 hf hr
  obtain ⟨g, rfl⟩ : ∃ g, f' = g + 1 := ⟨f' - 1, by omega⟩
  obtain ⟨g2, rfl⟩ : ∃ g, fuel = g + 1 := ⟨fuel - 1, by omega⟩
  rw [List.length_append] at hl32
  obtain ⟨h1, h2⟩ := decodeCurrent_piece p r hp hr hl (by omega) hrp hp0 g c src' hc e1
  simp only [decodeRead, hc, ne_eq, not_true, if_false, e3, h1]
  generalize decodeCurrent (g + 1) c src' = a at h1 h2
  rcases h2 with ⟨o, h⟩ | ⟨o, h⟩ | ⟨q, o, h⟩
  · left
    have := (honest_cached (g2 + 1) a.cache).count
    rw [o, framed_append, framed_append, framed_eq_stream qs, List.length_append]
    simp only [framed, List.flatten_nil, List.length_nil] at this ⊢
    omega
  · right; left
    rw [h.waits g2, o]
    exact ⟨by simp, h⟩
  · right; right
    rw [o]
    exact ⟨q, _, by simp; rfl, h⟩

/-! ## Sequences of reads -/

/-- Nothing more than the bytes at hand is handed up. -/
theorem reads_count (i fuel : Nat) (c : ConnId) (bss : List (List Byte)) : ∀ (ctxs : List Ctx) (w : World) (d : Deque), At i c w → Caches i w d →
    ReadOf c ctxs bss →
    ∃ ps, (reads fuel i recorder ctxs w).2.trace = w.trace ++ received (some c) ps ∧ framed ps ≤ d.content.length + bss.flatten.length := by
  induction bss with
  | nil =>
    intro ctxs w d _ _ hr
    have : ctxs = [] := List.eq_nil_of_length_eq_zero hr.1
    subst this
    exact ⟨[], by simp [received, reads, pure_apply], by simp [framed]⟩
  | cons bs bss ih =>
    intro ctxs w d hat hd hr
    obtain ⟨h1, h2⟩ := hr
    cases ctxs with
    | nil => simp at h1
    | cons ctx ctxs =>
      obtain ⟨e1, e2⟩ := h2 (ctx, bs) (by simp)
      obtain ⟨ds, r, w1, k1, k2, k3, k4, k5, k6, k7⟩ := onLower_recorded (fuel := fuel) hat hd e1 e2
      simp only at k1 k2
      have hh := (honest_read fuel d ds).count
      rw [k1, List.length_append] at hh
      simp only [List.flatten_cons, List.length_append]
      cases r with
      | ok x =>
        obtain ⟨ps, l1, l2⟩ := ih ctxs w1 _ k4 (k7 x rfl) ⟨by simpa using h1, fun y hy => h2 y (by simp [hy])⟩
        rw [reads_cons k2]
        exact ⟨(decodeRead fuel d ds).out ++ ps, by rw [l1, k3]; simp [received], by rw [framed_append]; omega⟩
      | panic => rw [reads_panic k2]; exact ⟨_, k3, by omega⟩
      | running => rw [reads_running k2]; exact ⟨_, k3, by omega⟩

/-- With a full cache nothing is handed up any more. -/
theorem reads_full (i fuel : Nat) (c : ConnId) (bss : List (List Byte)) : ∀ (ctxs : List Ctx) (w : World) (d : Deque), At i c w → Caches i w d → Full d →
    ReadOf c ctxs bss → (reads (fuel + 1) i recorder ctxs w).2.trace = w.trace := by
  induction bss with
  | nil =>
    intro ctxs w d _ _ _ hr
    have : ctxs = [] := List.eq_nil_of_length_eq_zero hr.1
    subst this
    rfl
  | cons bs bss ih =>
    intro ctxs w d hat hd hfull hr
    obtain ⟨h1, h2⟩ := hr
    cases ctxs with
    | nil => simp at h1
    | cons ctx ctxs =>
      obtain ⟨e1, e2⟩ := h2 (ctx, bs) (by simp)
      obtain ⟨ds, r, w1, k1, k2, k3, k4, k5, k6, k7⟩ := onLower_recorded (fuel := fuel + 1) hat hd e1 e2
      have hdec : decodeRead (fuel + 1) d ds = ⟨[], .ok (), d⟩ := by
        have : (Deque.readFromDeque d ds).2.2.1 = d := by simp only [Deque.readFromDeque]; rw [if_pos hfull.full]
        simp only [decodeRead, if_pos hfull.some, this, hfull.waits fuel, List.nil_append]
      rw [hdec] at k3 k5 k6 k7
      cases r with
      | ok x =>
        rw [reads_cons k2, ih ctxs w1 d k4 (k7 x rfl) hfull ⟨by simpa using h1, fun y hy => h2 y (by simp [hy])⟩, k3]
        simp [received]
      | panic => simp at k5
      | running => simp at k6

theorem received_inj {c : Option ConnId} : ∀ {xs ys : List (List Byte)}, received c xs = received c ys → xs = ys := by
  intro xs
  induction xs with
  | nil => intro ys h; cases ys <;> simp [received] at h ⊢
  | cons x xs ih =>
    intro ys h
    cases ys with
    | nil => simp [received] at h
    | cons y ys => simp [received] at h; rw [h.1, ih (by simpa [received] using h.2)]

theorem received_append (c : Option ConnId) (xs ys : List (List Byte)) : received c (xs ++ ys) = received c xs ++ received c ys := by simp [received]

/-- C23, exactly: however the stream of any list of messages is cut into reads, with whatever capacity of the cache, the messages arrive complete,
each once and in order, if and only if every read ends at a frame boundary. -/
theorem c23_iff (i fuel : Nat) (c : ConnId) (bss : List (List Byte)) : ∀ (ps : List (List Byte)) (ctxs : List Ctx) (w : World), (∀ p ∈ ps, p ≠ []) →
    (stream ps).length < 2 ^ 32 → ps.length < fuel → At i c w → Idle i w → ReadOf c ctxs bss → bss.flatten = stream ps →
    ((reads fuel i recorder ctxs w).2.trace = w.trace ++ received (some c) ps ↔ AtBoundaries ps bss) := by
  induction bss with
  | nil =>
    intro ps ctxs w hne _ _ _ _ hr hcut
    have : ctxs = [] := List.eq_nil_of_length_eq_zero hr.1
    subst this
    have hps : ps = [] := by
      cases ps with
      | nil => rfl
      | cons p ps => have := congrArg List.length hcut; rw [stream_length_cons, List.flatten_nil, List.length_nil] at this; omega
    subst hps
    exact ⟨fun _ k => ⟨0, by simp [stream]⟩, fun _ => by simp [received, reads, pure_apply]⟩
  | cons bs bss ih =>
    intro ps ctxs w hne hl hf hat hi hr hcut
    obtain ⟨h1, h2⟩ := hr
    cases ctxs with
    | nil => simp at h1
    | cons ctx ctxs =>
      obtain ⟨e1, e2⟩ := h2 (ctx, bs) (by simp)
      have hr' : ReadOf c ctxs bss := ⟨by simpa using h1, fun y hy => h2 y (by simp [hy])⟩
      obtain ⟨d, hd, hd0⟩ := hi.caches
      obtain ⟨ds, r, w1, k1, k2, k3, k4, k5, k6, k7⟩ := onLower_recorded (fuel := fuel) hat hd e1 e2
      simp only at k1 k2
      rw [List.flatten_cons] at hcut
      rcases prefix_cases ps bs bss.flatten hcut with ⟨j, hj, hbs, hrest⟩ | ⟨qs, p, qs', rr, hps, hbs, hrr, hrl, hrp⟩
      · -- a read that ends at a boundary
        have hsplit := congrArg List.length (stream_split ps j)
        rw [List.length_append] at hsplit
        rw [decodeRead_stream (fun p hp => hne p (List.mem_of_mem_take hp)) hd0 (by rw [k1, hbs]) (by omega) (by rw [List.length_take]; omega)] at k3 k5 k6 k7
        obtain ⟨x, hx⟩ : ∃ x, r = .ok x := by
          cases r with
          | ok x => exact ⟨x, rfl⟩
          | panic => simp at k5
          | running => simp at k6
        subst hx
        have := ih (ps.drop j) ctxs w1 (fun p hp => hne p (List.mem_of_mem_drop hp)) (by omega) (by rw [List.length_drop]; omega) k4 ((k7 x rfl).idle rfl) hr' hrest
        rw [reads_cons k2]
        rw [k3] at this
        have hrec : received (some c) ps = received (some c) (ps.take j) ++ received (some c) (ps.drop j) := by
          rw [← received_append, List.take_append_drop]
        rw [hrec, ← List.append_assoc, this]
        constructor
        · intro h k
          cases k with
          | zero => exact ⟨0, by simp [stream]⟩
          | succ k =>
            obtain ⟨j', hj'⟩ := h k
            refine ⟨j + j', ?_⟩
            rw [List.take_succ_cons, List.flatten_cons, hj', hbs, List.take_add, stream_append]
        · intro h k
          obtain ⟨j', hj'⟩ := h (k + 1)
          rw [List.take_succ_cons, List.flatten_cons, hbs] at hj'
          by_cases hjj : j ≤ j'
          · refine ⟨j' - j, ?_⟩
            have h5 : ps.take j' = ps.take j ++ (ps.drop j).take (j' - j) := by
              rw [← List.take_add]; congr 1; omega
            rw [h5, stream_append] at hj'
            exact List.append_cancel_left hj'
          · refine ⟨0, ?_⟩
            have h5 := congrArg List.length hj'
            have h6 := stream_take_mono ps (show j' ≤ j by omega)
            rw [List.length_append] at h5
            have h7 : (bss.take k).flatten.length = 0 := by omega
            rw [List.eq_nil_of_length_eq_zero h7]; simp [stream]
      · -- a read that ends inside the frame of `p`
        have hno : ¬ AtBoundaries ps (bs :: bss) := by
          intro h
          obtain ⟨j, hj⟩ := h 1
          rw [List.take_succ_cons, List.take_zero, List.flatten_cons, List.flatten_nil, List.append_nil, hbs, hps] at hj
          exact not_boundary hrr hrl j hj
        refine ⟨fun h => absurd h ?_, fun h => absurd h hno⟩
        have hp32 : p.length < 2 ^ 32 := by
          rw [hps, stream_append, List.length_append, stream_length_cons] at hl; omega
        have htot := congrArg List.length hcut
        rw [List.length_append] at htot
        obtain ⟨g, rfl⟩ : ∃ g, fuel = g + 1 := ⟨fuel - 1, by omega⟩
        have hpiece := decodeRead_piece qs p rr (fun q hq => hne q (by rw [hps]; simp [hq])) (hne p (by rw [hps]; simp)) hp32 hrr hrl
          (by rw [← hbs]; omega) hrp (g + 1) (by rw [hps] at hf; simp at hf; omega) d ds hd0 (by rw [k1, hbs])
        rw [← hbs] at hpiece
        -- all that is handed up in the end
        have hall : ∃ more, (reads (g + 1) i recorder (ctx :: ctxs) w).2.trace = w.trace ++ received (some c) ((decodeRead (g + 1) d ds).out ++ more) ∧
            framed more ≤ (decodeRead (g + 1) d ds).cache.content.length + bss.flatten.length ∧ (Full (decodeRead (g + 1) d ds).cache → more = []) := by
          cases r with
          | ok x =>
            rw [reads_cons k2]
            obtain ⟨more, m1, m2⟩ := reads_count i (g + 1) c bss ctxs w1 _ k4 (k7 x rfl) hr'
            refine ⟨more, by rw [m1, k3, received_append]; simp, m2, fun hfull => ?_⟩
            rw [reads_full i g c bss ctxs w1 _ k4 (k7 x rfl) hfull hr'] at m1
            have := List.append_cancel_left (as := w1.trace) (bs := []) (cs := received (some c) more) (by simpa using m1)
            exact (received_inj (c := some c) (xs := []) (by simpa [received] using this)).symm
          | panic => rw [reads_panic k2]; exact ⟨[], by simpa using k3, by simp [framed], fun _ => rfl⟩
          | running => rw [reads_running k2]; exact ⟨[], by simpa using k3, by simp [framed], fun _ => rfl⟩
        obtain ⟨more, m1, m2, m3⟩ := hall
        rw [m1]
        intro h
        have h := received_inj (List.append_cancel_left h)
        rcases hpiece with hlost | ⟨hout, hfull⟩ | ⟨q, more', hout, hq⟩
        · have h5 := congrArg framed h
          rw [framed_append, framed_eq_stream ps] at h5
          omega
        · rw [m3 hfull, hout, hps, List.append_nil] at h
          have := congrArg List.length h
          simp at this
        · rw [hout, hps, List.append_assoc] at h
          have := List.append_cancel_left h
          simp only [List.cons_append, List.cons.injEq] at this
          rw [this.1] at hq
          omega

/-- Two frames, cut inside the second one: something is lost. -/
example : (reads 9 0 recorder ([[0, 0, 0, 1, 9, 0, 0, 0, 2, 7], [7]].map demoRx) framing).2.trace ≠ framing.trace ++ received (some 0) [[9], [7, 7]] := by
  intro h
  have := (c23_iff 0 9 0 [[0, 0, 0, 1, 9, 0, 0, 0, 2, 7], [7]] [[9], [7, 7]] _ framing (by decide) (by decide) (by decide) framing_at framing_idle
    (demo_readOf _ (by decide)) (by decide)).mp h
  obtain ⟨j, hj⟩ := this 1
  exact not_boundary (qs := [[9]]) (p := [7, 7]) (r := [0, 0, 0, 2, 7]) (qs' := []) (by decide) (by decide) j hj

/-- The same stream cut at the boundary. -/
example : (reads 9 0 recorder ([[0, 0, 0, 1, 9], [0, 0, 0, 2, 7, 7]].map demoRx) framing).2.trace = framing.trace ++ received (some 0) [[9], [7, 7]] := by
  refine (c23_iff 0 9 0 [[0, 0, 0, 1, 9], [0, 0, 0, 2, 7, 7]] [[9], [7, 7]] _ framing (by decide) (by decide) (by decide) framing_at framing_idle
    (demo_readOf _ (by decide)) (by decide)).mpr ?_
  intro k
  match k with
  | 0 => exact ⟨0, by decide⟩
  | 1 => exact ⟨1, by decide⟩
  | k + 2 => exact ⟨2, by simp; decide⟩

end Verif.Stack
