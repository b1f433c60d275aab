import Verif.Stack.Frame

/-!
# C22, C23, C24: what the FrameDecoder makes of a byte stream
-/

namespace Verif.Stack
open GoM UBuf

/-! ## The frame format (specification) -/

/-- A frame: the payload's length in 4 big-endian bytes, then the payload. -/
def frameOf (p : List Byte) : List Byte := encBE 4 p.length ++ p

/-- The byte stream of a list of messages. -/
def stream (ps : List (List Byte)) : List Byte := (ps.map frameOf).flatten

theorem frameOf_length (p : List Byte) : (frameOf p).length = p.length + 4 := by
  simp [frameOf, length_encBE]; omega

theorem stream_cons (p : List Byte) (ps : List (List Byte)) : stream (p :: ps) = encBE 4 p.length ++ (p ++ stream ps) := by
  simp [stream, frameOf]

theorem stream_count (ps : List (List Byte)) : ps.length ≤ (stream ps).length := by
  induction ps with
  | nil => simp
  | cons p ps ih => rw [stream_cons]; simp [length_encBE]; omega

/-- The decoder sits at position `i`, enabled or not, with this cache content. -/
def Caches (i : Nat) (w : World) (d : Deque) : Prop := ∃ cache, (w.procs i).kind = .frame (some cache) ∧ Buf cache d

/-- The decoder has no cached bytes. -/
def Idle (i : Nat) (w : World) : Prop := ∃ cache, (w.procs i).kind = .frame (some cache) ∧ Good cache ∧ data cache = []

theorem Caches.idle {i : Nat} {w : World} {d : Deque} (h : Caches i w d) (hd : d.content = []) : Idle i w := by
  obtain ⟨c, h1, h2⟩ := h
  exact ⟨c, h1, h2.1, by rw [h2.data, hd]⟩

theorem Idle.caches {i : Nat} {w : World} (h : Idle i w) : ∃ d, Caches i w d ∧ d.content = [] := by
  obtain ⟨c, h1, h2, h3⟩ := h
  exact ⟨view c, ⟨c, h1, .of_good h2⟩, h3⟩

/-- A demo stack: an enabled FrameDecoder with an empty cache. -/
def framing : World := { quiet with procs := fun _ => ⟨true, .frame (some UBuf.demo)⟩ }

theorem demo_buf : Buf UBuf.demo (Deque.fresh 16 8) := by
  obtain ⟨s, hs, hb⟩ := alloc_buf 16 8 Heap.empty (by decide) (by decide) (by decide)
  rw [demo_alloc] at hs
  cases hs
  exact hb

theorem framing_caches : Caches 0 framing (Deque.fresh 16 8) := ⟨UBuf.demo, rfl, demo_buf⟩

theorem framing_idle : Idle 0 framing := framing_caches.idle rfl

/-! ## The decoder on whole frames -/

theorem decode_header {p : List Byte} (hp : p.length < 2 ^ 32) (bs : List Byte) :
    decBE ((encBE 4 p.length ++ bs).take 4) = p.length := by
  rw [List.take_left' (length_encBE _ _), decBE_encBE_mod]
  exact Nat.mod_eq_of_lt (by simpa using hp)

theorem decodeCurrent_stream (ps : List (List Byte)) : ∀ (fuel : Nat) (c src : Deque), (∀ p ∈ ps, p ≠ []) →
    src.content = stream ps → (stream ps).length < 2 ^ 32 → ps.length < fuel →
    decodeCurrent fuel c src = ⟨ps, .ok (), c⟩ := by
  induction ps with
  | nil =>
    intro fuel c src _ hs _ hf
    obtain ⟨f, rfl⟩ : ∃ f, fuel = f + 1 := ⟨fuel - 1, by simp at hf; omega⟩
    have hs' : src.content = [] := hs
    simp only [decodeCurrent, hs', List.length_nil, Nat.zero_lt_succ, if_true, Deque.readFromDeque]
    split <;> rfl
  | cons p ps ih =>
    intro fuel c src hne hs hl hf
    obtain ⟨f, rfl⟩ : ∃ f, fuel = f + 1 := ⟨fuel - 1, by simp at hf; omega⟩
    have hp : 0 < p.length := List.length_pos_iff.mpr (hne p (by simp))
    rw [stream_cons] at hs hl
    have hlen : src.content.length = 4 + (p.length + (stream ps).length) := by rw [hs]; simp [length_encBE]
    have hl2 : src.content.length < 2 ^ 32 := by rw [hs]; exact hl
    have hh : decBE (src.content.take 4) = p.length := by
      rw [hs]; exact decode_header (by omega) _
    have hd4 : src.content.drop 4 = p ++ stream ps := by rw [hs, List.drop_left' (length_encBE _ _)]
    have hrest := ih f c ((src.pop 4).pop p.length) (fun q hq => hne q (by simp [hq]))
      (by rw [pop_pop_content, hd4]; simp) (by omega) (by simp at hf; omega)
    simp only [decodeCurrent, hh, toU32_of_nat _ hl2, hd4, hrest]
    rw [if_neg (by omega), if_neg (by omega), if_neg (by omega), if_neg (by omega), if_neg (by simp)]
    simp

theorem decodeRead_stream {ps : List (List Byte)} {fuel : Nat} {c src : Deque} (hne : ∀ p ∈ ps, p ≠ [])
    (hc : c.content = []) (hs : src.content = stream ps) (hl : (stream ps).length < 2 ^ 32) (hf : ps.length < fuel) :
    decodeRead fuel c src = ⟨ps, .ok (), Deque.clear c⟩ := by
  obtain ⟨f, rfl⟩ : ∃ f, fuel = f + 1 := ⟨fuel - 1, by omega⟩
  simp [decodeRead, hc, decodeCurrent_stream ps _ c src hne hs hl hf, decodeCached]

/-! ## Nothing is made up -/

/-- The size of a list of frames on the wire. -/
def framed (ps : List (List Byte)) : Nat := ps.flatten.length + 4 * ps.length

theorem framed_cons (p : List Byte) (ps : List (List Byte)) : framed (p :: ps) = p.length + 4 + framed ps := by
  simp [framed]; omega

theorem framed_append (ps qs : List (List Byte)) : framed (ps ++ qs) = framed ps + framed qs := by
  simp [framed]; omega

theorem framed_eq_stream (ps : List (List Byte)) : framed ps = (stream ps).length := by
  induction ps with
  | nil => rfl
  | cons p ps ih => rw [framed_cons, ih, stream_cons]; simp [length_encBE]; omega

theorem readFromDeque_dst (c src : Deque) : (Deque.readFromDeque c src).2.2.1 = c ∨
    (Deque.readFromDeque c src).2.2.1.content = c.content ++ src.content.take c.tail := by
  simp only [Deque.readFromDeque]
  split
  · exact .inl rfl
  · split
    · exact .inl rfl
    · split
      · exact .inl rfl
      · exact .inr rfl

theorem readFromDeque_sub (c src : Deque) :
    List.Sublist (Deque.readFromDeque c src).2.2.1.content (c.content ++ src.content) := by
  rcases readFromDeque_dst c src with h | h
  · rw [h]; exact List.sublist_append_left _ _
  · rw [h]; exact List.Sublist.append (List.Sublist.refl _) (List.take_sublist _ _)

theorem zeros_of_dec {bs : List Byte} (h4 : 4 ≤ bs.length) (h : decBE (bs.take 4) = 0) :
    List.Sublist [0, 0, 0, 0] bs := by
  have h1 := encBE_decBE (bs.take 4)
  rw [h, List.length_take, Nat.min_eq_left h4] at h1
  have h2 : (encBE 4 0 : List Byte) = [0, 0, 0, 0] := by decide
  rw [← h2, h1]
  exact List.take_sublist _ _

/-- What a decoding step may not do: hand up or keep anything that was not there, spend fewer than four extra
bytes per payload, panic without having seen four zero bytes, or run for ever. -/
structure Honest (fuel : Nat) (bs : List Byte) (d : Dec) : Prop where
  sub : List.Sublist (d.out.flatten ++ d.cache.content) bs
  count : framed d.out + d.cache.content.length ≤ bs.length
  zero : d.res = .panic → List.Sublist [0, 0, 0, 0] bs
  ends : bs.length < fuel → d.res ≠ .running

theorem Honest.nothing {fuel : Nat} {bs : List Byte} {c : Deque} {e : Res Unit} (hs : List.Sublist c.content bs)
    (hz : e = .panic → List.Sublist [0, 0, 0, 0] bs) (he : bs.length < fuel → e ≠ .running) : Honest fuel bs ⟨[], e, c⟩ :=
  ⟨by simpa using hs, by simpa [framed] using hs.length_le, hz, he⟩

theorem Honest.cons {fuel : Nat} {bs : List Byte} {l : Nat} {d : Dec} (hl : 4 + l ≤ bs.length)
    (h : Honest fuel ((bs.drop 4).drop l) d) : Honest (fuel + 1) bs ⟨(bs.drop 4).take l :: d.out, d.res, d.cache⟩ := by
  have hsub : List.Sublist ((bs.drop 4).drop l) bs := (List.drop_sublist _ _).trans (List.drop_sublist _ _)
  refine ⟨?_, ?_, fun hp => (h.zero hp).trans hsub, fun hf => h.ends (by simp; omega)⟩
  · have h1 : List.Sublist ((bs.drop 4).take l ++ (bs.drop 4).drop l) bs := by
      rw [List.take_append_drop]; exact List.drop_sublist _ _
    simp only [List.flatten_cons, List.append_assoc]
    exact (List.Sublist.append (List.Sublist.refl _) h.sub).trans h1
  · have := h.count
    rw [framed_cons]
    simp only [List.length_drop, List.length_take] at this ⊢
    omega

theorem honest_current (fuel : Nat) : ∀ (c src : Deque), c.content = [] → Honest fuel src.content (decodeCurrent fuel c src) := by
  induction fuel with
  | zero => intro c src hc; exact .nothing (by simp [hc]) (by simp) (by omega)
  | succ fuel ih =>
    intro c src hc
    have hleft : ∀ n, Honest n src.content ⟨[], .ok (), (Deque.readFromDeque c src).2.2.1⟩ := fun n =>
      .nothing (by have := readFromDeque_sub c src; rwa [hc, List.nil_append] at this) (by simp) (by simp)
    simp only [decodeCurrent]
    by_cases h4 : src.content.length < 4
    · rw [if_pos h4]; exact hleft _
    · rw [if_neg h4]
      split
      · exact hleft _
      · split
        · have := Honest.cons (fuel := fuel) (bs := src.content) (l := (src.content.drop 4).length) (d := ⟨[], .ok (), c⟩)
            (by simp; omega) (.nothing (by simp [hc]) (by simp) (by simp))
          rwa [List.take_length] at this
        · split
          · rename_i hz
            exact .nothing (by simp [hc]) (fun _ => zeros_of_dec (by omega) hz) (by simp)
          · split
            · exact .nothing (by simp [Deque.clear]) (by simp) (by simp)
            · rename_i hlt
              exact Honest.cons (by simp at hlt; omega) (ih c ((src.pop 4).pop _) hc)

theorem honest_cached (fuel : Nat) : ∀ c : Deque, Honest fuel c.content (decodeCached fuel c) := by
  induction fuel with
  | zero => intro c; exact .nothing (.refl _) (by simp) (by omega)
  | succ fuel ih =>
    intro c
    simp only [decodeCached]
    split
    · exact .nothing (by simp [Deque.clear]) (by simp) (by simp)
    · split
      · exact .nothing (.refl _) (by simp) (by simp)
      · split
        · exact .nothing (.refl _) (by simp) (by simp)
        · split
          · rename_i hz
            exact .nothing (.refl _) (fun _ => zeros_of_dec (by omega) hz) (by simp)
          · split
            · exact .nothing (by simp [Deque.clear]) (by simp) (by simp)
            · rename_i hlt
              exact Honest.cons (by simp at hlt; omega) (ih ((c.pop 4).pop _))

theorem honest_read (fuel : Nat) (c src : Deque) : Honest fuel (c.content ++ src.content) (decodeRead fuel c src) := by
  simp only [decodeRead]
  have h1 : Honest fuel (c.content ++ src.content)
      (if c.content ≠ [] then ⟨[], .ok (), (Deque.readFromDeque c src).2.2.1⟩ else decodeCurrent fuel c src) := by
    by_cases hc : c.content = []
    · rw [if_neg (by simp [hc]), hc, List.nil_append]; exact honest_current fuel c src hc
    · rw [if_pos hc]; exact .nothing (readFromDeque_sub c src) (by simp) (by simp)
  generalize (if c.content ≠ [] then (⟨[], .ok (), (Deque.readFromDeque c src).2.2.1⟩ : Dec)
    else decodeCurrent fuel c src) = a at h1 ⊢
  rcases hr : a.res with u | _ | _
  · have h2 := honest_cached fuel a.cache
    have hcs : List.Sublist a.cache.content (c.content ++ src.content) := (List.sublist_append_right _ _).trans h1.sub
    refine ⟨?_, ?_, fun hp => (h2.zero hp).trans hcs, fun hf => h2.ends (by have := hcs.length_le; omega)⟩
    · simp only [List.flatten_append, List.append_assoc]
      exact (List.Sublist.append (.refl _) h2.sub).trans h1.sub
    · have := h1.count; have := h2.count
      simp only [framed_append]
      omega
  · exact h1
  · exact h1

/-! ## C22 -/

/-- Any number of complete frames in one read: each payload is handed up once, in order, and nothing else;
afterwards the decoder is idle again.  This holds for any layer above that does not reach into the decoder. -/
theorem c22_coalesced (i fuel : Nat) (nb : Nb) (Inv : World → Prop) (hup : Calm Inv i nb.upLower)
    (ctx : Ctx) (w : World) (hI : Inv w) (ps : List (List Byte)) (hne : ∀ p ∈ ps, p ≠ []) (hb : OnBytes ctx w)
    (hcar : Carries ctx (stream ps)) (hl : (stream ps).length < 2 ^ 32) (hidle : Idle i w) (hf : ps.length < fuel) :
    ∃ r w', onLower fuel i ⟨true, (w.procs i).kind⟩ nb ctx w = (r, w') ∧
      Feeds nb.upLower i (.ok ()) ps ctx w r w' ∧ (∀ c, r = .ok c → Inv w' ∧ Idle i w') := by
  obtain ⟨d, ⟨cache, hk, hc⟩, hd⟩ := hidle.caches
  obtain ⟨ub, ds, h1, h2, h3⟩ := hcar.buf
  have := frameLower_feeds hup fuel hI hb h1 hk hc h2
  rw [decodeRead_stream hne hd h3 hl hf] at this
  refine ⟨_, _, rfl, ?_⟩
  rw [hk]
  exact ⟨this.1, fun c hr => ⟨(this.2 c hr).1, Caches.idle (this.2 c hr).2 rfl⟩⟩

/-- two frames in one read -/
example : ∃ r w', onLower 9 0 ⟨true, (framing.procs 0).kind⟩ probe (demoRx [0, 0, 0, 1, 9, 0, 0, 0, 2, 7, 7]) framing = (r, w') ∧
    Feeds probe.upLower 0 (.ok ()) [[9], [7, 7]] (demoRx [0, 0, 0, 1, 9, 0, 0, 0, 2, 7, 7]) framing r w' ∧ (∀ c, r = .ok c → True ∧ Idle 0 w') :=
  c22_coalesced 0 9 probe _ (.always fun _ _ => rfl) _ _ trivial [[9], [7, 7]] (by decide) ⟨0, rfl, rfl⟩
    (demoRx_carries (by decide) (by decide)) (by decide) framing_idle (by decide)

/-! ## A recording layer above -/

/-- The layer above records the bytes it is handed. -/
def recorder : Nb :=
  { upLower := fun ctx w => (.ok ctx, { w with trace := w.trace ++ [.rx 0 ctx.conn (.bytes (match ctx.buf with | some s => data s | none => []))] })
    downUpper := fun ctx w => (.ok ctx, w)
    upUpper := fun ctx w => (.ok ctx, w) }

/-- The trace of a list of payloads received on a connection. -/
def received (c : Option ConnId) (ps : List (List Byte)) : List Obs := ps.map fun p => .rx 0 c (.bytes p)

theorem Feeds.recorded {i : Nat} {e : Res Unit} {ps : List (List Byte)} {ctx : Ctx} {w w' : World} {r : Res Ctx}
    (h : Feeds recorder.upLower i e ps ctx w r w') :
    w'.trace = w.trace ++ received ctx.conn ps ∧ w'.conns = w.conns ∧ (∀ j, j ≠ i → w'.procs j = w.procs j) ∧
      (w'.procs i).enable = (w.procs i).enable ∧
      (∀ u, e = .ok u → ∃ c, r = .ok c) ∧ (e = .panic → r = .panic) ∧ (e = .running → r = .running) := by
  have hset : ∀ (w : World) (k : Kind) (j : Nat), j ≠ i → (w.setKind i k).procs j = w.procs j := by
    intro w k j hj; simp [World.setKind, hj]
  induction h with
  | done ctx w b c he => subst he; simp [World.setKind, received]; intro j hj; simp [hj]
  | panic ctx w c he => subst he; simp [World.setKind, received]; intro j hj; simp [hj]
  | running ctx w c he => subst he; simp [World.setKind, received]; intro j hj; simp [hj]
  | @step p ps ctx w s c ctx1 w1 r w2 h1 h2 h3 h4 ih =>
    simp only [recorder, Prod.mk.injEq, Res.ok.injEq] at h3
    obtain ⟨h5, h6⟩ := h3
    subst h5 h6
    obtain ⟨a1, a2, a3, a4, a5⟩ := ih
    refine ⟨?_, ?_, ?_, ?_, a5⟩
    · rw [a1]; simp [World.setKind, received, h2]
    · rw [a2]; rfl
    · intro j hj; rw [a3 j hj]; exact hset w _ j hj
    · rw [a4]; show ((w.setKind i _).procs i).enable = _; rw [setKind_self]
  | stepPanic h1 h2 h3 => simp [recorder] at h3
  | stepRunning h1 h2 h3 => simp [recorder] at h3

/-- One read after the other. -/
def reads (fuel i : Nat) (nb : Nb) : List Ctx → GoM World Unit
  | [] => Pure.pure ()
  | ctx :: rest => do
    let p := (← GoM.get).procs i
    let _ ← onLower fuel i p nb ctx
    reads fuel i nb rest

theorem reads_cons {fuel i : Nat} {nb : Nb} {ctx x : Ctx} {rest : List Ctx} {w w1 : World}
    (h : onLower fuel i (w.procs i) nb ctx w = (.ok x, w1)) : reads fuel i nb (ctx :: rest) w = reads fuel i nb rest w1 := by
  simp only [reads, bind_apply, get_apply, h]

theorem reads_panic {fuel i : Nat} {nb : Nb} {ctx : Ctx} {rest : List Ctx} {w w1 : World}
    (h : onLower fuel i (w.procs i) nb ctx w = (.panic, w1)) : reads fuel i nb (ctx :: rest) w = (.panic, w1) := by
  simp only [reads, bind_apply, get_apply, h]

theorem reads_running {fuel i : Nat} {nb : Nb} {ctx : Ctx} {rest : List Ctx} {w w1 : World}
    (h : onLower fuel i (w.procs i) nb ctx w = (.running, w1)) : reads fuel i nb (ctx :: rest) w = (.running, w1) := by
  simp only [reads, bind_apply, get_apply, h]

/-- The decoder at `i` with the given cache, on a stack whose connection `c` carries bytes. -/
structure At (i : Nat) (c : ConnId) (w : World) : Prop where
  enable : (w.procs i).enable = true
  bytes : (w.conns c).useRef = false

/-- The contexts of a sequence of reads on connection `c`. -/
def ReadOf (c : ConnId) (ctxs : List Ctx) (bss : List (List Byte)) : Prop :=
  ctxs.length = bss.length ∧ ∀ x ∈ ctxs.zip bss, x.1.conn = some c ∧ Carries x.1 x.2

theorem onLower_recorded {fuel i : Nat} {c : ConnId} {w : World} {d : Deque} {ctx : Ctx} {bs : List Byte}
    (hat : At i c w) (hd : Caches i w d) (hc : ctx.conn = some c) (hb : Carries ctx bs) :
    ∃ ds r w', ds.content = bs ∧ onLower fuel i (w.procs i) recorder ctx w = (r, w') ∧
      w'.trace = w.trace ++ received (some c) (decodeRead fuel d ds).out ∧ At i c w' ∧
      (r = .panic ↔ (decodeRead fuel d ds).res = .panic) ∧ (r = .running ↔ (decodeRead fuel d ds).res = .running) ∧
      (∀ x, r = .ok x → Caches i w' (decodeRead fuel d ds).cache) := by
  obtain ⟨cache, hk, hcb⟩ := hd
  obtain ⟨ub, ds, h1, h2, h3⟩ := hb.buf
  have := frameLower_feeds (nb := recorder) (i := i) (.always fun _ _ => rfl) fuel trivial ⟨c, hc, hat.bytes⟩ h1 hk hcb h2
  obtain ⟨f1, f2⟩ := this
  obtain ⟨g1, g2, g3, g4, g5, g6, g7⟩ := f1.recorded
  refine ⟨ds, (frameLower fuel i true recorder ctx w).1, (frameLower fuel i true recorder ctx w).2, h3, ?_, ?_,
    ⟨by rw [g4, hat.enable], by rw [g2, hat.bytes]⟩, ⟨?_, g6⟩, ⟨?_, g7⟩, fun x hx => (f2 x hx).2⟩
  · have : w.procs i = ⟨true, .frame (some cache)⟩ := by
      rw [← hk, ← hat.enable]
    rw [this]
    rfl
  · rw [g1, hc]
  · intro hr
    rcases he : (decodeRead fuel d ds).res with u | _ | _
    · obtain ⟨x, hx⟩ := g5 u he; rw [hr] at hx; cases hx
    · rfl
    · have := g7 he; rw [hr] at this; cases this
  · intro hr
    rcases he : (decodeRead fuel d ds).res with u | _ | _
    · obtain ⟨x, hx⟩ := g5 u he; rw [hr] at hx; cases hx
    · have := g6 he; rw [hr] at this; cases this
    · rfl

theorem framing_at : At 0 0 framing := ⟨rfl, rfl⟩

theorem demo_readOf (bss : List (List Byte)) (h : ∀ bs ∈ bss, bs ≠ [] ∧ bs.length ≤ 16) : ReadOf 0 (bss.map demoRx) bss := by
  refine ⟨by simp, ?_⟩
  induction bss with
  | nil => simp
  | cons bs bss ih =>
    intro x hx
    simp only [List.map_cons, List.zip_cons_cons, List.mem_cons] at hx
    rcases hx with rfl | hx
    · exact ⟨rfl, demoRx_carries (h bs (by simp)).1 (h bs (by simp)).2⟩
    · exact ih (fun b hb => h b (by simp [hb])) x hx

/-! ## C23 -/

/-- As long as every read ends at a frame boundary, the payloads arrive complete and in order, whatever the
number of reads and however many frames each contains.  Missing from the property: reads that end inside a
frame, see `c23_violated` and `c23_truncates`. -/
theorem c23_aligned_partial (i fuel : Nat) (c : ConnId) (reqs : List (List (List Byte))) :
    ∀ (ctxs : List Ctx) (w : World), (∀ ps ∈ reqs, ∀ p ∈ ps, p ≠ []) → (∀ ps ∈ reqs, (stream ps).length < 2 ^ 32 ∧ ps.length < fuel) →
    At i c w → Idle i w → ReadOf c ctxs (reqs.map stream) →
    ∃ w', reads fuel i recorder ctxs w = (.ok (), w') ∧ w'.trace = w.trace ++ received (some c) reqs.flatten ∧ Idle i w' := by
  induction reqs with
  | nil =>
    intro ctxs w _ _ _ hi hr
    have : ctxs = [] := List.eq_nil_of_length_eq_zero hr.1
    subst this
    exact ⟨w, rfl, by simp [received], hi⟩
  | cons ps reqs ih =>
    intro ctxs w hne hl hat hi hr
    obtain ⟨h1, h2⟩ := hr
    cases ctxs with
    | nil => simp at h1
    | cons ctx ctxs =>
      obtain ⟨e1, e2⟩ := h2 (ctx, stream ps) (by simp)
      obtain ⟨d, hd, hd0⟩ := hi.caches
      obtain ⟨ds, r, w1, k1, k2, k3, k4, k5, k6, k7⟩ := onLower_recorded (fuel := fuel) hat hd e1 e2
      rw [decodeRead_stream (hne ps (by simp)) hd0 k1 (hl ps (by simp)).1 (hl ps (by simp)).2] at k3 k5 k6 k7
      obtain ⟨x, hx⟩ : ∃ x, r = .ok x := by
        cases r with
        | ok x => exact ⟨x, rfl⟩
        | panic => simp at k5
        | running => simp at k6
      subst hx
      obtain ⟨w', l1, l2, l3⟩ := ih ctxs w1 (fun q hq => hne q (by simp [hq])) (fun q hq => hl q (by simp [hq])) k4
        ((k7 x rfl).idle rfl) ⟨by simpa using h1, fun y hy => h2 y (by simp [hy])⟩
      refine ⟨w', ?_, ?_, l3⟩
      · rw [reads_cons k2]; exact l1
      · rw [l2, k3]
        simp [received]

example : ∃ w', reads 9 0 recorder ([[0, 0, 0, 1, 9, 0, 0, 0, 2, 7, 7], [0, 0, 0, 1, 5]].map demoRx) framing = (.ok (), w') ∧
    w'.trace = framing.trace ++ received (some 0) [[[9], [7, 7]], [[5]]].flatten ∧ Idle 0 w' :=
  c23_aligned_partial 0 9 0 [[[9], [7, 7]], [[5]]] _ framing (by decide) (by decide) framing_at framing_idle
    (demo_readOf _ (by decide))

/-- The property fails: cut one frame inside its header, and its payload is not delivered, whatever it is, if
the cache is larger than the first piece (by default it is twice the MTU). -/
theorem c23_violated (i fuel k : Nat) (c : ConnId) (p : List Byte) (hk : 1 ≤ k) (hk4 : k ≤ 3)
    (w : World) (hat : At i c w) (d : Deque) (hd : Caches i w d) (h0 : d.content = []) (hroom : k < d.tail)
    (ctx1 ctx2 : Ctx) (hr : ReadOf c [ctx1, ctx2] [(frameOf p).take k, (frameOf p).drop k]) :
    (reads (fuel + 1) i recorder [ctx1, ctx2] w).2.trace ≠ w.trace ++ received (some c) [p] := by
  obtain ⟨_, hr⟩ := hr
  obtain ⟨a1, a2⟩ := hr (ctx1, (frameOf p).take k) (by simp)
  obtain ⟨b1, b2⟩ := hr (ctx2, (frameOf p).drop k) (by simp)
  have hl := frameOf_length p
  obtain ⟨ds, r, w1, k1, k2, k3, k4, k5, k6, k7⟩ := onLower_recorded (fuel := fuel + 1) hat hd a1 a2
  have hlen : ds.content.length = k := by rw [k1, List.length_take]; omega
  have hdec : decodeRead (fuel + 1) d ds = ⟨[], .ok (), Deque.clear d⟩ := by
    have h4 : (Deque.readFromDeque d ds).2.2.1 = d := by
      simp only [Deque.readFromDeque]
      rw [if_neg (by omega)]
      split
      · rfl
      · rw [if_pos (by omega)]
    simp [decodeRead, h0, decodeCurrent, hlen, h4, decodeCached, show k < 4 by omega]
  rw [hdec] at k3 k5 k6 k7
  obtain ⟨x, hx⟩ : ∃ x, r = .ok x := by
    cases r with
    | ok x => exact ⟨x, rfl⟩
    | panic => simp at k5
    | running => simp at k6
  subst hx
  obtain ⟨ds2, r2, w2, l1, l2, l3, _⟩ := onLower_recorded (fuel := fuel + 1) k4 (k7 x rfl) b1 b2
  have hw2 : (reads (fuel + 1) i recorder [ctx1, ctx2] w).2 = w2 := by
    rw [reads_cons k2]
    cases r2 with
    | ok y => rw [reads_cons l2]; rfl
    | panic => rw [reads_panic l2]
    | running => rw [reads_running l2]
  rw [hw2, l3, k3]
  simp only [received, List.map_nil, List.append_nil]
  intro h
  have h5 := List.append_cancel_left h
  have h6 : (decodeRead (fuel + 1) (Deque.clear d) ds2).out = [p] := by
    have hinj : ∀ (xs ys : List (List Byte)), xs.map (fun p => Obs.rx 0 (some c) (Val.bytes p)) =
        ys.map (fun p => Obs.rx 0 (some c) (Val.bytes p)) → xs = ys := by
      intro xs
      induction xs with
      | nil => intro ys h; cases ys <;> simp at h ⊢
      | cons x xs ih =>
        intro ys h
        cases ys with
        | nil => simp at h
        | cons y ys => simp at h; rw [h.1, ih ys (by simpa using h.2)]
    exact hinj _ _ h5
  have h7 := (honest_read (fuel + 1) (Deque.clear d) ds2).count
  rw [h6, framed_cons] at h7
  simp [Deque.clear, l1, hl] at h7
  omega

example : (reads 9 0 recorder ([[0, 0, 0], [2, 7, 7]].map demoRx) framing).2.trace ≠ framing.trace ++ received (some 0) [[7, 7]] :=
  c23_violated 0 8 3 0 [7, 7] (by decide) (by decide) framing framing_at _ framing_caches rfl (by decide) _ _
    (demo_readOf [[0, 0, 0], [2, 7, 7]] (by decide))

/-- Also by truncation: if a read ends exactly `|p|` bytes into the frame of `p`, the decoder takes it for
complete and hands up all but the last four bytes. -/
theorem c23_truncates (i fuel : Nat) (c : ConnId) (p : List Byte) (h4 : 4 ≤ p.length) (hp : p.length < 2 ^ 32)
    (w : World) (hat : At i c w) (hi : Idle i w) (ctx : Ctx) (hr : ReadOf c [ctx] [(frameOf p).take p.length]) :
    ∃ w', reads (fuel + 1) i recorder [ctx] w = (.ok (), w') ∧
      w'.trace = w.trace ++ received (some c) [p.take (p.length - 4)] := by
  obtain ⟨d, hd, h0⟩ := hi.caches
  obtain ⟨_, hr⟩ := hr
  obtain ⟨a1, a2⟩ := hr (ctx, (frameOf p).take p.length) (by simp)
  obtain ⟨ds, r, w1, k1, k2, k3, k4, k5, k6, k7⟩ := onLower_recorded (fuel := fuel + 1) hat hd a1 a2
  have hlen : ds.content.length = p.length := by rw [k1, List.length_take, frameOf_length]; omega
  have ht4 : ds.content.take 4 = encBE 4 p.length := by
    rw [k1, List.take_take, Nat.min_eq_left h4, frameOf, List.take_left' (length_encBE _ _)]
  have hd4 : ds.content.drop 4 = p.take (p.length - 4) := by
    rw [k1, List.drop_take, frameOf, List.drop_left' (length_encBE _ _)]
  have hdec : decodeRead (fuel + 1) d ds = ⟨[p.take (p.length - 4)], .ok (), Deque.clear d⟩ := by
    have hh : decBE (ds.content.take 4) = p.length := by
      rw [ht4, decBE_encBE_mod]; exact Nat.mod_eq_of_lt (by simpa using hp)
    simp only [decodeRead, h0, decodeCurrent, hlen, hh, toU32_of_nat _ hp, hd4]
    simp only [ne_eq, not_true, if_false, gt_iff_lt, Nat.lt_irrefl, if_true]
    rw [if_neg (by omega)]
    simp [decodeCached, h0]
  rw [hdec] at k3 k5 k6 k7
  cases r with
  | ok x =>
    refine ⟨w1, ?_, k3⟩
    rw [reads_cons k2]; rfl
  | panic => simp at k5
  | running => simp at k6

example : ∃ w', reads 9 0 recorder ([[0, 0, 0, 6, 1, 2]].map demoRx) framing = (.ok (), w') ∧
    w'.trace = framing.trace ++ received (some 0) [[1, 2]] :=
  c23_truncates 0 8 0 [1, 2, 3, 4, 5, 6] (by decide) (by decide) framing framing_at framing_idle _
    (demo_readOf [[0, 0, 0, 6, 1, 2]] (by decide))

/-! ## C24 -/

/-- The property fails: a read that starts with four zero bytes crashes the decoder (and with it the process:
the receive goroutine has no `recover`), whatever follows and whatever is above. -/
theorem c24_violated (i fuel : Nat) (nb : Nb) (ctx : Ctx) (w : World) (rest : List Byte) (hb : OnBytes ctx w)
    (hi : Idle i w) (hcar : Carries ctx ([0, 0, 0, 0] ++ rest)) (hl : rest.length + 4 < 2 ^ 32) :
    onLower (fuel + 1) i ⟨true, (w.procs i).kind⟩ nb ctx w = (.panic, w) := by
  obtain ⟨d, ⟨cache, hk, hc⟩, h0⟩ := hi.caches
  obtain ⟨ub, ds, h1, h2, h3⟩ := hcar.buf
  obtain ⟨cid, hc1, hc2⟩ := hb
  rw [hk]
  simp only [onLower, frameLower]
  rw [hc1, bind_of_ok (useReference_some cid w), hc2]
  simp only [Bool.false_eq_true, if_false, h1, if_true]
  have hlen : ds.content.length = rest.length + 4 := by rw [h3]; simp
  have hcur : handleCurrent (fuel + 1) i nb ctx ub w = (.panic, w) := by
    simp only [handleCurrent]
    rw [bind_of_ok (a := cache) (s' := w) (by simp [frameCache, bind_apply, hk]), if_neg (by rw [hc.readable, h0]; simp)]
    simp only [currentLoop, h2.readable]
    rw [if_neg (by omega)]
    obtain ⟨ub1, p1, p2⟩ := h2.peekU .u32 .be (by simp [Width.size]; omega)
    have hz : decBE (ds.content.take 4) = 0 := by rw [h3]; rfl
    have p3 : peekU .u32 .be ub = (.ok (0, none), ub1) := by
      rw [← hz]; exact p1
    rw [bind_onBuf p3]
    simp only [Option.isSome_none, Bool.false_eq_true, if_false]
    have htu : toU32 ds.content.length = rest.length + 4 := by rw [toU32_of_nat _ (by omega), hlen]
    rw [if_neg (by omega), if_neg (by omega), bind_of_panic (allocBuf_panic _ _ w (by simp))]
  rw [bind_of_panic hcur]

example : (onLower 1 0 ⟨true, (framing.procs 0).kind⟩ probe (demoRx [0, 0, 0, 0]) framing).1 = .panic :=
  congrArg Prod.fst (c24_violated 0 0 probe _ framing [] ⟨0, rfl, rfl⟩ framing_idle (demoRx_carries (by decide) (by decide))
    (by decide))

/-- What remains true for every input and every cache content, if the layer above returns: the decoder ends; it
panics only if the cached and received bytes contain four zero bytes; what it hands up and keeps is taken, in
order, from the bytes it had, four bytes being consumed in addition for each payload. -/
theorem c24_honest_partial (i fuel : Nat) (nb : Nb) (hup : ∀ ctx w, (nb.upLower ctx w).2.procs i = w.procs i)
    (hret : ∀ ctx w, ∃ c, (nb.upLower ctx w).1 = .ok c)
    (ctx : Ctx) (w : World) (cached bs : List Byte) (cache : St) (hk : (w.procs i).kind = .frame (some cache))
    (hg : Good cache) (hcd : data cache = cached) (hb : OnBytes ctx w) (hcar : Carries ctx bs)
    (hf : cached.length + bs.length < fuel) :
    ∃ r w' ps e, onLower fuel i ⟨true, (w.procs i).kind⟩ nb ctx w = (r, w') ∧ Feeds nb.upLower i e ps ctx w r w' ∧
      List.Sublist ps.flatten (cached ++ bs) ∧ (stream ps).length ≤ cached.length + bs.length ∧
      ((∃ c, r = .ok c ∧ ∃ cache', (w'.procs i).kind = .frame (some cache') ∧ Good cache' ∧
          List.Sublist (ps.flatten ++ data cache') (cached ++ bs)) ∨
        (r = .panic ∧ List.Sublist [0, 0, 0, 0] (cached ++ bs))) := by
  obtain ⟨ub, ds, h1, h2, h3⟩ := hcar.buf
  have hcb : Buf cache (view cache) := .of_good hg
  obtain ⟨f1, f2⟩ := frameLower_feeds (.always hup) fuel trivial hb h1 hk hcb h2
  have hh := honest_read fuel (view cache) ds
  have hv : (view cache).content = cached := by rw [← hcd]; rfl
  rw [hv, h3] at hh
  refine ⟨_, _, _, _, rfl, by rw [hk]; exact f1, (List.sublist_append_left _ _).trans hh.sub, ?_, ?_⟩
  · rw [← framed_eq_stream]; have := hh.count; simp at this; omega
  · rw [hk]
    show (∃ c, (frameLower fuel i true nb ctx w).1 = .ok c ∧ _) ∨ ((frameLower fuel i true nb ctx w).1 = .panic ∧ _)
    have hfol : ∀ {ps ctx w r w'}, Feeds nb.upLower i (decodeRead fuel (view cache) ds).res ps ctx w r w' →
        (∃ c, r = .ok c) ∨ (r = .panic ∧ (decodeRead fuel (view cache) ds).res = .panic) := by
      intro ps ctx w r w' h
      induction h with
      | done => exact .inl ⟨_, rfl⟩
      | panic _ _ _ he => exact .inr ⟨rfl, he⟩
      | running _ _ _ he => exact absurd he (hh.ends (by simp; omega))
      | step _ _ _ _ ih => exact ih
      | stepPanic _ _ hp => obtain ⟨c, hc⟩ := hret _ _; rw [hp] at hc; cases hc
      | stepRunning _ _ hp => obtain ⟨c, hc⟩ := hret _ _; rw [hp] at hc; cases hc
    rcases hfol f1 with ⟨c, hc⟩ | ⟨hp, he⟩
    · obtain ⟨_, cache', g1, g2⟩ := f2 c hc
      exact .inl ⟨c, hc, cache', g1, g2.1, by rw [g2.data]; exact hh.sub⟩
    · exact .inr ⟨hp, hh.zero he⟩

example : ∃ r w' ps e, onLower 9 0 ⟨true, (framing.procs 0).kind⟩ probe (demoRx [0, 0, 0, 1, 9]) framing = (r, w') ∧
    Feeds probe.upLower 0 e ps (demoRx [0, 0, 0, 1, 9]) framing r w' ∧ (stream ps).length ≤ 5 := by
  obtain ⟨r, w', ps, e, h1, h2, _, h3, _⟩ := c24_honest_partial 0 9 probe (fun _ _ => rfl) (fun _ _ => ⟨_, rfl⟩)
    (demoRx [0, 0, 0, 1, 9]) framing [] _ UBuf.demo rfl demo_buf.1 demo_buf.data ⟨0, rfl, rfl⟩
    (demoRx_carries (by decide) (by decide)) (by decide)
  exact ⟨r, w', ps, e, h1, h2, h3⟩

/-- The same over any sequence of reads: everything handed up so far plus what is cached is a subsequence of
everything received so far, and only four zero bytes can crash the decoder. -/
theorem c24_reads_partial (i fuel : Nat) (c : ConnId) (bss : List (List Byte)) :
    ∀ (ctxs : List Ctx) (w : World) (d : Deque), At i c w → Caches i w d → ReadOf c ctxs bss →
    d.content.length + bss.flatten.length < fuel →
    ∃ ps, (reads fuel i recorder ctxs w).2.trace = w.trace ++ received (some c) ps ∧
      List.Sublist ps.flatten (d.content ++ bss.flatten) ∧
      ((reads fuel i recorder ctxs w).1 = .ok () ∨
        ((reads fuel i recorder ctxs w).1 = .panic ∧ List.Sublist [0, 0, 0, 0] (d.content ++ bss.flatten))) := by
  induction bss with
  | nil =>
    intro ctxs w d _ _ hr _
    have : ctxs = [] := List.eq_nil_of_length_eq_zero hr.1
    subst this
    exact ⟨[], by simp [received, reads, pure_apply], by simp, .inl rfl⟩
  | cons bs bss ih =>
    intro ctxs w d hat hd hr hf
    obtain ⟨h1, h2⟩ := hr
    cases ctxs with
    | nil => simp at h1
    | cons ctx ctxs =>
      obtain ⟨e1, e2⟩ := h2 (ctx, bs) (by simp)
      obtain ⟨ds, r, w1, k1, k2, k3, k4, k5, k6, k7⟩ := onLower_recorded (fuel := fuel) hat hd e1 e2
      simp only at k1 k2
      simp only [List.flatten_cons, List.length_append] at hf
      have hh := honest_read fuel d ds
      rw [k1] at hh
      have hs1 : List.Sublist (d.content ++ bs) (d.content ++ (bs :: bss).flatten) := by
        rw [List.flatten_cons]
        exact List.Sublist.append (.refl _) (List.sublist_append_left _ _)
      cases r with
      | ok x =>
        obtain ⟨ps, l1, l2, l3⟩ := ih ctxs w1 _ k4 (k7 x rfl) ⟨by simpa using h1, fun y hy => h2 y (by simp [hy])⟩
          (by have := hh.sub.length_le; simp at this; omega)
        have hs2 : List.Sublist ((decodeRead fuel d ds).out.flatten ++ ((decodeRead fuel d ds).cache.content ++ bss.flatten))
            (d.content ++ (bs :: bss).flatten) := by
          rw [List.flatten_cons, ← List.append_assoc, ← List.append_assoc]
          exact List.Sublist.append hh.sub (.refl _)
        rw [reads_cons k2]
        refine ⟨(decodeRead fuel d ds).out ++ ps, ?_, ?_, ?_⟩
        · rw [l1, k3]; simp [received]
        · rw [List.flatten_append]
          exact (List.Sublist.append (.refl _) l2).trans hs2
        · rcases l3 with l3 | ⟨l3, l4⟩
          · exact .inl l3
          · exact .inr ⟨l3, l4.trans ((List.sublist_append_right _ _).trans hs2)⟩
      | panic =>
        rw [reads_panic k2]
        exact ⟨_, k3, ((List.sublist_append_left _ _).trans hh.sub).trans hs1, .inr ⟨rfl, (hh.zero (k5.mp rfl)).trans hs1⟩⟩
      | running => exact absurd (k6.mp rfl) (hh.ends (by simp; omega))

example : ∃ ps, (reads 30 0 recorder ([[0, 0, 0, 1, 9], [0, 0, 0], [1, 2, 3, 4]].map demoRx) framing).2.trace =
    framing.trace ++ received (some 0) ps ∧ List.Sublist ps.flatten [0, 0, 0, 1, 9, 0, 0, 0, 1, 2, 3, 4] := by
  obtain ⟨ps, h1, h2, _⟩ := c24_reads_partial 0 30 0 [[0, 0, 0, 1, 9], [0, 0, 0], [1, 2, 3, 4]] _ framing _ framing_at
    framing_caches (demo_readOf _ (by decide)) (by decide)
  exact ⟨ps, h1, h2⟩

end Verif.Stack
