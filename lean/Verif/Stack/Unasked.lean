import Verif.Stack.Tame
import Verif.Stack.Net
import Verif.Stack.Split

/-!
# Nobody asks

A receive goroutine that reads whole packets never answers a statistics request: a StatCounter finds the byte 0 in front of what arrives
(proc_stat_counter.go:150-178), because that is what the StatCounter of the other side puts there (proc_stat_counter.go:128-147).  So
enabled StatCounters do not get in the way of C86 and C87.
-/

namespace Verif.Stack
open UBuf (St Err Heap WriteRes ReadRes Good view)
open GoM

/-! ## The stack while goroutines work -/

theorem Like.sameProc {w v : World} (h : Like stranger w v) (j : Nat) : SameProc (w.procs j) (v.procs j) := by
  refine ⟨(h.enable j).symm, ?_⟩
  have := h.kind j
  revert this
  cases (w.procs j).kind <;> cases (v.procs j).kind <;> simp [Kind.Sim, Kind.Same]

theorem SameProc.symm {p q : Proc} (h : SameProc p q) : SameProc q p := by
  obtain ⟨en, k⟩ := p
  obtain ⟨en', k'⟩ := q
  obtain ⟨h1, h2⟩ := h
  simp only at h1
  subst h1
  refine ⟨rfl, ?_⟩
  cases k <;> cases k' <;> simp_all [Kind.Same]

/-- The caches of enabled FrameDecoders are empty. -/
theorem rest_at {caps : Nat → Nat} {w v : World} (hl : Like stranger w v) (hr : Like (resting caps w) v v) {j : Nat} (hj : j < w.n)
    (hf : Frames (w.procs j)) : ∀ c, (v.procs j).kind = .frame c → AtRest (caps j) c := by
  intro c hk
  have hsim := hr.kind j
  obtain ⟨⟨c0, h1⟩, h2⟩ := hf
  rw [hk, show resting caps w j = .rest (caps j) by simp only [resting]; rw [if_pos ⟨hj, by rw [h1]; rfl, h2⟩]] at hsim
  exact hsim.1

/-! ## Hops -/

/-- A processor that hands data up does so in one hop. -/
theorem hop_up {i : Nat} {p : Proc} {ctx ctx' : Ctx} {w w' : World} (hk : p.kind.isFrame = false)
    (h : Up (fun nb => onLower 0 i p nb ctx w) ctx' w') : onLowerN i p ctx w = (.ok (.up ctx'), w') := by
  have h1 := h { upLower := fun c w => (.ok c, w), downUpper := fun _ w => (.panic, w), upUpper := fun _ w => (.panic, w) }
  have h2 := h { upLower := fun _ w => (.panic, w), downUpper := fun c w => (.ok c, w), upUpper := fun c w => (.ok c, w) }
  simp only [onLower_hop _ _ _ _ _ hk] at h1 h2
  rw [bind_apply] at h1 h2
  rcases hm : onLowerN i p ctx w with ⟨r, t⟩
  rw [hm] at h1 h2
  cases r with
  | panic => injection h1 with h1 _; cases h1
  | running => injection h1 with h1 _; cases h1
  | ok n =>
    cases n with
    | stop c => injection h2 with h2 _; cases h2
    | up c => injection h1 with h1 h3; injection h1 with h1; subst h1 h3; rfl
    | down c => injection h2 with h2 _; cases h2
    | upDown c => injection h2 with h2 _; cases h2

/-- One that stops, too. -/
theorem hop_stop {i : Nat} {p : Proc} {ctx ctx' : Ctx} {w w' : World} (hk : p.kind.isFrame = false)
    (h : Stops (fun nb => onLower 0 i p nb ctx w) (.ok ctx', w')) : onLowerN i p ctx w = (.ok (.stop ctx'), w') := by
  have h2 := h { upLower := fun _ w => (.panic, w), downUpper := fun _ w => (.panic, w), upUpper := fun _ w => (.panic, w) }
  simp only [onLower_hop _ _ _ _ _ hk] at h2
  rw [bind_apply] at h2
  rcases hm : onLowerN i p ctx w with ⟨r, t⟩
  rw [hm] at h2
  cases r with
  | panic => injection h2 with h2 _; cases h2
  | running => injection h2 with h2 _; cases h2
  | ok n =>
    cases n with
    | stop c => injection h2 with h2 h3; injection h2 with h2; subst h2 h3; rfl
    | up c => injection h2 with h2 _; cases h2
    | down c => injection h2 with h2 _; cases h2
    | upDown c => injection h2 with h2 _; cases h2

/-- A hop that stays on its connection and does not turn round. -/
def Next.Mild (c : Option ConnId) : Next → Prop
  | .stop x => x.conn = c
  | .up x => x.conn = c
  | _ => False

theorem quiet_hop {p : Proc} (h : Quiet p) (i : Nat) (ctx : Ctx) : Post (Next.Mild ctx.conn) (onLowerN i p ctx) := by
  obtain ⟨en, k⟩ := p
  cases k <;> simp_all [Quiet, onLowerN, bytesLowerN, stringLowerN, jsonLowerN, genericLowerN, sessionLowerN, filterLowerN, forwarderLowerN] <;>
    exact .pure rfl

theorem decodeUpN_mild {ctx : Ctx} {f : Ctx → List Byte → GoM World Next} (hf : ∀ c b, c.conn = ctx.conn → Post (Next.Mild ctx.conn) (f c b)) :
    Post (Next.Mild ctx.conn) (decodeUpN ctx f) := by
  simp only [decodeUpN]
  split
  · exact .pure rfl
  · exact .bind fun _ => .bind fun _ => .ite (.pure rfl) (hf _ _ rfl)

theorem codec_hop {free : Nat} {p : Proc} {v : Val} {b : List Byte} (h : CodedBy free p.kind v b) (i : Nat) (ctx : Ctx) :
    Post (Next.Mild ctx.conn) (onLowerN i p ctx) := by
  obtain ⟨en, k⟩ := p
  have gen : ∀ d, Post (Next.Mild ctx.conn) (genericLowerN en d ctx) := by
    intro d
    simp only [genericLowerN]
    refine .ite ?_ (.pure rfl)
    split
    · exact .pure rfl
    · split
      · exact .pure rfl
      · exact .bind fun _ => .ite (.pure rfl) (.pure rfl)
  cases h with
  | bytes => exact .ite (decodeUpN_mild fun c b h => .pure h) (.pure rfl)
  | str => exact .ite (decodeUpN_mild fun c b h => .pure h) (.pure rfl)
  | json =>
    refine .ite (decodeUpN_mild fun c b h => ?_) (.pure rfl)
    split
    · exact .pure h
    · exact .pure h
  | generic e d => exact gen (some d)
  | gob e d => exact gen (some d)

theorem CodedBy.not_frame {free : Nat} {k : Kind} {v : Val} {b : List Byte} (h : CodedBy free k v b) : k.isFrame = false := by
  cases h <;> rfl

theorem CodedBy.not_stat {free : Nat} {k : Kind} {v : Val} {b : List Byte} (h : CodedBy free k v b) (tx rx : UInt64) : k ≠ .stat tx rx := by
  cases h <;> simp

/-! ## Rounds of the FrameDecoder -/

/-- A round over whole frames: the first goes up, the others remain. -/
theorem curIter_stream {i : Nat} {first : Bool} {ctx : Ctx} {ub : St} {w w' : World} {s : Seg} {ps : List (List Byte)} (hg : Good ub)
    (hd : UBuf.data ub = stream ps) (hne : ∀ p ∈ ps, p ≠ []) (hl : (stream ps).length < 2 ^ 32)
    (h : curIter i first ctx ub w = (.ok s, w')) :
    (∃ c, s = .fin c ∧ c.conn = ctx.conn) ∨
    ∃ c rest p qs, s = .more c rest ∧ ps = p :: qs ∧ c.conn = ctx.conn ∧ Carries c p ∧ Good rest ∧ UBuf.data rest = stream qs := by
  have hs := Buf.of_good hg
  have hds : (view ub).content = stream ps := hd
  generalize view ub = ds at hs hds
  have hrl := hs.readable
  have hkeep : ∀ u : St, (if first then { ctx with buf := some u } else ctx).conn = ctx.conn := by intro u; split <;> rfl
  simp only [curIter, hrl] at h
  cases ps with
  | nil =>
    have h0 : ds.content.length = 0 := by rw [hds]; rfl
    rw [if_pos (by omega)] at h
    obtain ⟨u, t, _, h⟩ := ok_bind h
    injection h with h _; injection h with h
    exact .inl ⟨_, h.symm, hkeep u⟩
  | cons p qs =>
    rw [stream_cons] at hds
    have hlen : ds.content.length = 4 + (p.length + (stream qs).length) := by rw [hds]; simp [length_encBE]
    rw [stream_cons] at hl
    simp only [List.length_append, length_encBE] at hl
    have htake : decBE (ds.content.take 4) = p.length := by
      rw [hds, List.take_append_of_le_length (by rw [length_encBE]; omega), List.take_of_length_le (by rw [length_encBE]; omega),
        decBE_encBE_mod]
      exact Nat.mod_eq_of_lt (by omega)
    have hdrop : ds.content.drop 4 = p ++ stream qs := by
      rw [hds, List.drop_append_of_le_length (by rw [length_encBE]; omega), List.drop_of_length_le (by rw [length_encBE]; omega), List.nil_append]
    have hp := List.length_pos_iff.mpr (hne p (by simp))
    have hu32 : toU32 (ds.content.length : Int) = ds.content.length := by
      simp only [toU32]; omega
    rw [if_neg (by omega)] at h
    obtain ⟨ub1, p1, p2⟩ := hs.peekU .u32 .be (by simp [UBuf.Width.size]; omega)
    have p3 : UBuf.peekU .u32 .be ub = (.ok (decBE (ds.content.take 4), none), ub1) := p1
    rw [bind_onBuf p3] at h
    simp only [Option.isSome_none, Bool.false_eq_true, if_false, htake, hu32] at h
    rw [if_neg (by omega), if_neg (by omega)] at h
    obtain ⟨ub2, q1, q2⟩ := hs.readU .u32 .be (by simp [UBuf.Width.size]; omega)
    obtain ⟨nu, a1, a2⟩ := allocBuf_ok p.length 0 w (by omega) (by omega) (by omega)
    simp only [Int.toNat_natCast, Int.toNat_zero] at a2
    rw [bind_of_ok a1, bind_onBuf q1] at h
    obtain ⟨nu', src', c1, c2, _⟩ := copyN_ok (w := w) hp a2 q2
    have hpop : (ds.pop (UBuf.Width.size .u32)).content = p ++ stream qs := hdrop
    rw [hpop] at c1 c2
    rw [bind_of_ok c1] at h
    have hle : p.length ≤ (p ++ stream qs).length := by simp
    obtain ⟨d1, d2⟩ := c2 hle
    simp only [hle, decide_true, Bool.true_eq_false, if_false] at h
    injection h with h _; injection h with h
    refine .inr ⟨_, _, p, qs, h.symm, rfl, rfl, ⟨nu', rfl, d1.1, ?_⟩, d2.1, ?_⟩
    · rw [d1.data]; simp
    · rw [d2.data]
      show (ds.pop (UBuf.Width.size .u32)).content.drop p.length = stream qs
      rw [hpop]; simp

/-- The same for the first round, with an empty cache. -/
theorem currentN_stream {cap i : Nat} {ctx : Ctx} {ub : St} {w w' : World} {s : Seg} {ps : List (List Byte)}
    (hr : ∀ c, (w.procs i).kind = .frame c → AtRest cap c) (hg : Good ub)
    (hd : UBuf.data ub = stream ps) (hne : ∀ p ∈ ps, p ≠ []) (hl : (stream ps).length < 2 ^ 32)
    (h : currentN i ctx ub w = (.ok s, w')) :
    (∃ c, s = .fin c ∧ c.conn = ctx.conn) ∨
    ∃ c rest p qs, s = .more c rest ∧ ps = p :: qs ∧ c.conn = ctx.conn ∧ Carries c p ∧ Good rest ∧ UBuf.data rest = stream qs := by
  obtain ⟨c, t, h1, h⟩ := ok_bind h
  simp only [frameCache] at h1
  rw [bind_of_ok (get_apply w)] at h1
  cases hk : (w.procs i).kind <;> rw [hk] at h1 <;> try (injection h1 with h1; cases h1)
  rename_i c'
  obtain ⟨c2, he, hb⟩ := hr _ hk
  subst he
  injection h1 with h1 h2; injection h1 with h1; subst h1 h2
  have h0 : UBuf.readableLength c2 = 0 := by rw [hb.readable]; rfl
  rw [if_neg (by omega)] at h
  exact curIter_stream hg hd hne hl h

/-! ## What a goroutine has in hand -/

/-- A packet that the processors from `k + m` on upwards have not yet opened. -/
structure Rides (w : World) (k m : Nat) (p : Packet) : Prop where
  ok : p.Ok w w k
  beat : ∀ h, p = .beat h → h < k + 1 + m

/-- The session in its header. -/
def Packet.session : Packet → Int
  | .msg x => x.s
  | .beat _ => 0

theorem Packet.at_succ {w : World} {k m : Nat} {p : Packet} (h : Rides w k m p) :
    p.at w k (m + 1) = hdr (w.procs (k + 1 + m)) p.session (p.at w k m) ++ p.at w k m := by
  cases p with
  | msg x => simp only [Packet.at, Packet.session, seg_snoc, wrap_snoc]
  | beat x =>
    have := h.beat x rfl
    simp only [Packet.at, Packet.session]
    rw [show k + (m + 1) - x = k + m - x + 1 by omega, seg_snoc, wrap_snoc, show x + 1 + (k + m - x) = k + 1 + m by omega]

theorem Rides.ne {w : World} {k m : Nat} {p : Packet} (h : Rides w k m p) : p.at w k m ≠ [] := by
  cases p with
  | msg x => exact wrap_ne _ _ h.ok.1.ne
  | beat x => exact wrap_ne _ _ (by simp)

/-- One processor less to pass, unless the packet is the heartbeat of this processor. -/
theorem Rides.up {w : World} {k m : Nat} {p : Packet} (h : Rides w k (m + 1) p) :
    Rides w k m p ∨ (p = .beat (k + 1 + m) ∧ (w.procs (k + 1 + m)).kind = .heartbeat ∧ p.at w k (m + 1) = [0x83]) := by
  cases p with
  | msg x => exact .inl ⟨h.ok, fun _ e => by cases e⟩
  | beat x =>
    have := h.beat x rfl
    by_cases e : x = k + 1 + m
    · subst e
      refine .inr ⟨rfl, h.ok.2.2.1, ?_⟩
      simp only [Packet.at]
      rw [show k + (m + 1) - (k + 1 + m) = 0 by omega]
      rfl
    · exact .inl ⟨h.ok, fun _ e' => by injection e' with e'; subst e'; omega⟩

theorem flatten_frames {w : World} {k m : Nat} (hf : Frames (w.procs (k + 1 + m))) {ps : List Packet} (h : ∀ p ∈ ps, Rides w k (m + 1) p) :
    (∀ p ∈ ps, Rides w k m p) ∧ (ps.map (Packet.at w k (m + 1))).flatten = stream (ps.map (Packet.at w k m)) := by
  have hr : ∀ p ∈ ps, Rides w k m p := by
    intro p hp
    rcases (h p hp).up with h' | ⟨_, h', _⟩
    · exact h'
    · obtain ⟨⟨c, hc⟩, _⟩ := hf
      rw [hc] at h'; cases h'
  refine ⟨hr, ?_⟩
  rw [stream, List.map_map]
  congr 1
  refine List.map_congr_left fun p hp => ?_
  rw [Packet.at_succ (hr p hp), frames_hdr hf]
  simp [stream]

/-- A call upwards: above the codec, or with whole packets; several only for a FrameDecoder. -/
def Rising (w : World) (k pos : Nat) (ctx : Ctx) : Prop :=
  OnBytes ctx w ∧ (pos ≤ k ∨ ∃ (m : Nat) (ps : List Packet), pos = k + 1 + m ∧ pos ≤ w.n ∧ ps ≠ [] ∧ (∀ p ∈ ps, Rides w k m p) ∧
    Carries ctx (ps.map (Packet.at w k m)).flatten ∧ (ps.map (Packet.at w k m)).flatten.length < 2 ^ 32 ∧
    (ps.length = 1 ∨ ∃ m', m = m' + 1 ∧ Frames (w.procs (k + 1 + m'))))

/-- A waiting FrameDecoder has whole packets left. -/
def Whole (w : World) (k : Nat) : Nat × K → Prop
  | (_, .cached) => True
  | (pos, .cur rest) => ∃ (m : Nat) (ps : List Packet), pos = k + 1 + m + 1 ∧ pos ≤ w.n ∧ Frames (w.procs (k + 1 + m)) ∧ (∀ p ∈ ps, Rides w k m p) ∧ Good rest ∧
    UBuf.data rest = stream (ps.map (Packet.at w k m)) ∧ (stream (ps.map (Packet.at w k m))).length < 2 ^ 32

/-- What the stack can be asked to do: a read brings packets that fit the read buffer, several only to a FrameDecoder; what is sent does not matter. -/
def Job.Fair (w : World) (k : Nat) : Job → Prop
  | .recv c bs => ∃ ps, bs = packets w k ps ∧ ps ≠ [] ∧ (∀ p ∈ ps, p.Ok w w k) ∧ ((packets w k ps).length : Int) ≤ w.mtu ∧ (w.conns c).useRef = false ∧
    (ps.length = 1 ∨ (k + 1 < w.n ∧ Frames (w.procs (w.n - 1))))
  | .recvRef _ _ => False
  | _ => True

def Focus.Fair (w : World) (k : Nat) (stack : List (Nat × K)) : Focus → Prop
  | .idle => stack = []
  | .ret ctx => stack = [] ∨ OnBytes ctx w
  | .call .down _ _ => stack = []
  | .call .up pos ctx => Rising w k pos ctx

/-- A goroutine that reads whole packets, and sends. -/
structure G.Fair (w : World) (k : Nat) (g : G) : Prop where
  focus : g.focus.Fair w k g.stack
  stack : ∀ x ∈ g.stack, Whole w k x
  jobs : ∀ j ∈ g.jobs, j.Fair w k

/-- It does not ask. -/
theorem G.Fair.unasked {w v : World} {k : Nat} {g : G} (hcar : Carrier w k) (hl : Like stranger w v) (h : g.Fair w k) : ¬ Asks g v := by
  have hf := h.focus
  simp only [Asks]
  split
  · rename_i pos ctx hfo
    rw [hfo] at hf
    rintro ⟨h0, hn, ⟨tx, rx, hk⟩, hen, ub, hub, hreq⟩
    obtain ⟨_, hf⟩ := hf
    obtain ⟨tx', rx', hk'⟩ : ∃ tx rx, (w.procs (pos - 1)).kind = .stat tx rx := by
      have := (hl.kind (pos - 1)).symm
      rw [hk] at this
      exact this.stat ⟨_, _, rfl⟩
    rcases hf with hf | ⟨m, ps, hpos, hn', hne, hps, hc, hlen, hone⟩
    · have := hcar.quiet (pos - 1) (by omega)
      simp [Quiet, hk'] at this
    · cases m with
      | zero =>
        obtain ⟨p, ps', rfl⟩ := List.exists_cons_of_ne_nil hne
        have hp := hps p (by simp)
        cases p with
        | msg x =>
          have := hp.ok.1.codec
          rw [show k = pos - 1 by omega] at this
          exact this.not_stat _ _ hk'
        | beat x =>
          have h1 := hp.beat x rfl
          have h2 := hp.ok.1
          omega
      | succ m =>
        rw [show pos - 1 = k + 1 + m by omega] at hk'
        have hone' : ps.length = 1 := by
          rcases hone with h | ⟨m', h1, ⟨c, h2⟩, _⟩
          · exact h
          · have : m' = m := by omega
            subst this
            rw [hk'] at h2; cases h2
        obtain ⟨p, rfl⟩ := List.length_eq_one_iff.mp hone'
        have hp := hps p (by simp)
        simp only [List.map_cons, List.map_nil, List.flatten_cons, List.flatten_nil, List.append_nil] at hc
        rcases hp.up with h' | ⟨_, h', _⟩
        · rw [Packet.at_succ h'] at hc
          have he : hdr (w.procs (k + 1 + m)) p.session (p.at w k m) = [0] := by simp [hdr, hk']
          rw [he] at hc
          obtain ⟨s, d, hs, hb, hd⟩ := hc.buf
          rw [hub] at hs
          injection hs with hs
          subst hs
          obtain ⟨s', hr, _⟩ := hb.readByte_cons (b := 0) hd
          rw [hr] at hreq
          injection hreq with hreq
          injection hreq with hreq
          exact absurd hreq (by decide)
        · rw [hk'] at h'; cases h'
  · exact id

theorem Carrier.noLoopback {w : World} {k : Nat} (h : Carrier w k) (hk : (w.procs k).kind ≠ .loopback) : NoLoopback w := by
  intro i hi e
  rcases Nat.lt_trichotomy i k with h1 | h1 | h1
  · have := h.quiet i h1
    simp [Quiet, e] at this
  · subst h1; exact hk e
  · have := h.opens i h1 hi
    simp [Opens, e] at this

theorem OnBytes.like {w v : World} {ctx : Ctx} (hl : Like stranger w v) (h : OnBytes ctx w) : OnBytes ctx v := by
  obtain ⟨c, h1, h2⟩ := h
  exact ⟨c, h1, by rw [← hl.useRef]; exact h2⟩

theorem OnBytes.conn {w : World} {ctx ctx' : Ctx} (h : OnBytes ctx w) (he : ctx'.conn = ctx.conn) : OnBytes ctx' w := by
  obtain ⟨c, h1, h2⟩ := h
  exact ⟨c, he.trans h1, h2⟩

/-- The first call for a read. -/
theorem start_recv {c : ConnId} {bs : List Byte} {w : World} (hb : bs ≠ []) (hfit : (bs.length : Int) ≤ w.mtu) :
    ∃ s, Good s ∧ UBuf.data s = bs ∧
      (Job.recv c bs).start w = (.ok (some (.up, w.n, { Ctx.new with conn := some c, buf := some s })), w) := by
  have hl := List.length_pos_iff.mpr hb
  obtain ⟨s0, h1, h2⟩ := allocBuf_ok w.mtu 0 w (by omega) (by omega) (by omega)
  obtain ⟨s1, r, h3, h4, h5⟩ := h2.readFrom (fun m => ⟨bs.take m, min m bs.length, none⟩) (by
    intro m; simp; omega)
  have ht : (UBuf.Deque.fresh w.mtu.toNat (0 : Int).toNat).tail = w.mtu.toNat := by simp [UBuf.Deque.tail, UBuf.Deque.fresh]
  have hne : ¬ (w.mtu.toNat = 0) := by omega
  simp only [UBuf.Deque.step, ht, Nat.min_eq_right (show bs.length ≤ w.mtu.toNat by omega),
    List.take_of_length_le (show bs.length ≤ w.mtu.toNat by omega)] at h4 h5
  simp only [show ¬ (w.mtu.toNat = 0) from hne, if_false] at h4 h5
  obtain ⟨r1, r2⟩ := r
  simp only [UBuf.Out.count.injEq] at h4
  refine ⟨s1, h5.1, by rw [h5.data]; simp [UBuf.Deque.fresh, UBuf.Deque.push], ?_⟩
  simp only [Job.start]
  rw [bind_of_ok (get_apply w), bind_of_ok h1, bind_onBuf h3]
  simp only [h4.1, h4.2]
  rw [if_neg (by simp; omega)]
  rfl

/-- The head of the list, and the length of the others. -/
theorem flatten_head {x : List Byte} {xs : List (List Byte)} : x.length ≤ (x :: xs).flatten.length := by simp

/-- **A goroutine that reads whole packets and sends goes on doing so.** -/
theorem fair_step {caps : Nat → Nat} {k : Nat} {w v v' : World} {g g' : G} (hcar : Carrier w k) (hk : (w.procs k).kind ≠ .loopback)
    (hl : Like stranger w v) (hr : Like (resting caps w) v v) (ht : g.Tame v) (h : g.Fair w k) (hs : stepG g v = (.ok g', v')) : g'.Fair w k := by
  have triv : ∀ {x : G}, (Pure.pure x : GoM World G) v = (.ok g', v') → g' = x := by
    intro x h
    injection h with h1 h2; injection h1 with h1; exact h1.symm
  have one : ∀ {α : Type} {m : GoM World α} {f : α → G}, (m >>= fun x => Pure.pure (f x)) v = (.ok g', v') →
      ∃ x t, m v = (.ok x, t) ∧ g' = f x := by
    intro α m f h
    obtain ⟨x, t, hx, h⟩ := ok_bind h
    injection h with h1 h2; injection h1 with h1
    exact ⟨x, t, hx, h1.symm⟩
  have hfo := h.focus
  cases hf : g.focus with
  | idle =>
    rw [hf] at hfo
    have hst : g.stack = [] := hfo
    simp only [stepG, hf, idleStep] at hs
    cases hj : g.jobs with
    | nil => rw [hj] at hs; rw [triv hs]; exact h
    | cons j js =>
      rw [hj] at hs
      simp only at hs
      have hjs : ∀ x ∈ js, x.Fair w k := fun x hx => h.jobs x (by rw [hj]; exact List.mem_cons_of_mem _ hx)
      have hjj := h.jobs j (by rw [hj]; exact List.mem_cons_self)
      cases j with
      | send conn data session =>
        rw [bind_of_ok (show (Job.send conn data session).start v = (.ok (some (.down, 1, _)), v) from rfl)] at hs
        rw [triv hs]
        exact ⟨hst, h.stack, hjs⟩
      | recvRef c v => exact hjj.elim
      | control i c tag =>
        obtain ⟨r, t, hr', hs⟩ := ok_bind hs
        simp only [Job.start] at hr'
        rw [bind_of_ok (get_apply v)] at hr'
        obtain ⟨_, _, _, hr1⟩ := ok_bind hr'
        obtain ⟨_, _, _, hr2⟩ := ok_bind hr1
        injection hr2 with hr2 _; injection hr2 with hr2
        subst hr2
        injection hs with hs _; injection hs with hs
        subst hs
        exact ⟨hst, h.stack, hjs⟩
      | recv c bs =>
        obtain ⟨ps, rfl, hne, hok, hfit, href, hone⟩ := hjj
        have hbne : packets w k ps ≠ [] := by
          obtain ⟨p, ps', rfl⟩ := List.exists_cons_of_ne_nil hne
          intro e
          simp only [packets, List.map_cons, List.flatten_cons, List.append_eq_nil_iff] at e
          exact (hok p (by simp)).bytes_ne e.1
        obtain ⟨s, h1, h2, h3⟩ := start_recv (c := c) (w := v) hbne (by rw [← hl.mtu]; exact hfit)
        rw [bind_of_ok h3] at hs
        rw [triv hs]
        have hpos := hcar.pos
        have hmtu := hcar.mtu
        have hat : (ps.map (Packet.at w k (w.n - (k + 1)))).flatten = packets w k ps := by
          rw [packets]
          congr 1
          exact List.map_congr_left fun p hp => Packet.at_bottom hpos p (hok p hp).lt
        refine ⟨⟨⟨c, rfl, href⟩, .inr ⟨w.n - (k + 1), ps, ?_, ?_, hne, fun p hp => ⟨hok p hp, fun x e => ?_⟩, ⟨s, rfl, h1, ?_⟩, ?_, ?_⟩⟩, h.stack, hjs⟩
        · rw [← hl.n]; omega
        · rw [hl.n]; exact Nat.le_refl _
        · have := (hok p hp).lt x e; omega
        · rw [h2, hat]
        · rw [hat]; omega
        · refine hone.imp_right fun ⟨a, b⟩ => ⟨w.n - (k + 2), by omega, ?_⟩
          rw [show k + 1 + (w.n - (k + 2)) = w.n - 1 by omega]; exact b
  | ret ctx =>
    rw [hf] at hfo
    simp only [stepG, hf, retStep] at hs
    cases hst : g.stack with
    | nil => rw [hst] at hs; rw [triv hs]; exact ⟨rfl, fun x hx => (by cases hx), h.jobs⟩
    | cons x st =>
      have hby : OnBytes ctx w := by
        rcases hfo with e | e
        · rw [hst] at e; cases e
        · exact e
      obtain ⟨pos, kk⟩ := x
      rw [hst] at hs
      have hwhole := h.stack (pos, kk) (by rw [hst]; exact List.mem_cons_self)
      have hrest : ∀ y ∈ st, Whole w k y := fun y hy => h.stack y (by rw [hst]; exact List.mem_cons_of_mem _ hy)
      obtain ⟨w1, w2, w3, w4⟩ := (ht.stack (pos, kk) (by rw [hst]; exact List.mem_cons_self)).1.like hl.symm
      have hfr : Frames (w.procs (pos - 1)) := by
        refine ⟨?_, w4⟩
        cases hkk : (w.procs (pos - 1)).kind <;> rw [hkk] at w3 <;> simp [Kind.isFrame] at w3
        exact ⟨_, rfl⟩
      have hat := rest_at hl hr (j := pos - 1) (by simp only at w1 w2; omega) hfr
      cases kk with
      | cached =>
        obtain ⟨x, t, hx, rfl⟩ := one hs
        rw [cachedIter_rest hat hx]
        exact ⟨.inr hby, hrest, h.jobs⟩
      | cur rest =>
        obtain ⟨x, t, hx, rfl⟩ := one hs
        obtain ⟨m, ps, hpos, hn, hfr', hps, hg, hd, hlen⟩ := hwhole
        rcases curIter_stream hg hd (fun q hq => by
            obtain ⟨p, hp, rfl⟩ := List.mem_map.mp hq
            exact (hps p hp).ne) hlen hx with ⟨c, rfl, hc⟩ | ⟨c, rest', q, qs, rfl, hq, hc, hcar', hg', hd'⟩
        · exact ⟨.inr (hby.conn hc), hrest, h.jobs⟩
        · obtain ⟨p, ps', rfl⟩ : ∃ p ps', ps = p :: ps' := by
            cases ps with
            | nil => cases hq
            | cons p ps' => exact ⟨_, _, rfl⟩
          simp only [List.map_cons, List.cons.injEq] at hq
          obtain ⟨rfl, rfl⟩ := hq
          rw [List.map_cons, stream_length_cons] at hlen
          refine ⟨⟨hby.conn hc, .inr ⟨m, [p], by omega, by omega, by simp, ?_, by simpa using hcar', by simp; omega, .inl rfl⟩⟩, ?_, h.jobs⟩
          · intro y hy
            rw [List.mem_singleton.mp hy]
            exact hps p (by simp)
          · intro y hy
            rcases List.mem_cons.mp hy with rfl | hy
            · exact ⟨m, ps', hpos, hn, hfr', fun p hp => hps p (List.mem_cons_of_mem _ hp), hg', hd', by omega⟩
            · exact hrest y hy
  | call dir pos ctx =>
    rw [hf] at hfo
    cases dir with
    | down =>
      have hst : g.stack = [] := hfo
      simp only [stepG, hf, callStep] at hs
      rw [bind_of_ok (get_apply v)] at hs
      by_cases h0 : pos = 0
      · rw [if_pos h0] at hs
        rw [triv hs]
        exact ⟨.inl hst, h.stack, h.jobs⟩
      · rw [if_neg h0] at hs
        by_cases hn : pos > v.n
        · rw [if_pos hn] at hs
          obtain ⟨x, t, hx, rfl⟩ := one hs
          exact ⟨.inl hst, h.stack, h.jobs⟩
        · rw [if_neg hn] at hs
          obtain ⟨x, t, hx, rfl⟩ := one hs
          have := onUpperN_post (pos - 1) _ (((hcar.noLoopback hk).like hl) (pos - 1) (by omega)) ctx v x t hx
          refine ⟨?_, by rw [Next.go_stack]; exact h.stack, by rw [Next.go_jobs]; exact h.jobs⟩
          cases x with
          | stop c => exact .inl hst
          | up c => exact this.elim
          | down c => exact hst
          | upDown c => exact hst
    | up =>
      obtain ⟨hby, hpos⟩ := hfo
      obtain ⟨cid, hcid, hbyt⟩ := hby.like hl
      simp only [stepG, hf, callStep] at hs
      rw [bind_of_ok (get_apply v)] at hs
      by_cases h0 : pos = 0
      · rw [if_pos h0] at hs
        obtain ⟨x, t, hx, rfl⟩ := one hs
        exact ⟨.inr hby, h.stack, h.jobs⟩
      rw [if_neg h0] at hs
      by_cases hn : pos > v.n
      · rw [if_pos hn] at hs
        rw [triv hs]
        exact ⟨.inr hby, h.stack, h.jobs⟩
      rw [if_neg hn] at hs
      -- a hop that stays on its connection, above the codec
      have mild : ∀ x : Next, x.Mild ctx.conn → pos ≤ k + 1 → (x.go pos g).Fair w k := by
        intro x hx hle
        refine ⟨?_, by rw [Next.go_stack]; exact h.stack, by rw [Next.go_jobs]; exact h.jobs⟩
        cases x with
        | stop c => exact .inr (hby.conn hx)
        | up c => exact ⟨hby.conn hx, .inl (by omega)⟩
        | down c => exact hx.elim
        | upDown c => exact hx.elim
      rcases hpos with hpos | ⟨m, ps, hpos, hn', hne, hps, hcr, hlen, hone⟩
      · have hq := (hl.sameProc (pos - 1)).quiet (hcar.quiet (pos - 1) (by omega))
        by_cases hfr : (v.procs (pos - 1)).kind.isFrame = true
        · rw [if_pos hfr] at hs
          have hen : (v.procs (pos - 1)).enable = false := by
            cases hkk : (v.procs (pos - 1)).kind <;> rw [hkk] at hfr <;> simp [Kind.isFrame] at hfr
            simpa [Quiet, hkk] using hq
          simp only [frameStep] at hs
          rw [hcid, bind_of_ok (show useReference (some cid) v = (.ok (v.conns cid).useRef, v) from rfl), hbyt] at hs
          simp only [Bool.false_eq_true, if_false, hen] at hs
          cases hb : ctx.buf with
          | none => rw [hb] at hs; rw [triv hs]; exact ⟨.inr hby, h.stack, h.jobs⟩
          | some ub => rw [hb] at hs; rw [triv hs]; exact ⟨⟨hby, .inl (by omega)⟩, h.stack, h.jobs⟩
        · rw [if_neg hfr] at hs
          obtain ⟨x, t, hx, rfl⟩ := one hs
          exact mild x (quiet_hop hq _ _ v x t hx) (by omega)
      · cases m with
        | zero =>
          obtain ⟨p, ps', rfl⟩ := List.exists_cons_of_ne_nil hne
          have hp := hps p (by simp)
          cases p with
          | beat x =>
            have h1 := hp.beat x rfl
            have h2 := hp.ok.1
            omega
          | msg x =>
            have hcd := (hp.ok.1.codec).same (hl.sameProc k).2
            rw [show k = pos - 1 by omega] at hcd
            rw [if_neg (by rw [hcd.not_frame]; simp)] at hs
            obtain ⟨x, t, hx, rfl⟩ := one hs
            exact mild x (codec_hop hcd _ _ v x t hx) (by omega)
        | succ m =>
          have hi : pos - 1 = k + 1 + m := by omega
          rw [hi] at hs
          have hsame := hl.sameProc (k + 1 + m)
          have hop := hcar.opens (k + 1 + m) (by omega) (by omega)
          by_cases hfr : Frames (w.procs (k + 1 + m))
          · -- an enabled FrameDecoder
            have hfv := hsame.symm.frames hfr
            obtain ⟨cc, hcc⟩ := hfv.1
            rw [if_pos (by rw [hcc]; rfl)] at hs
            simp only [frameStep] at hs
            rw [hcid, bind_of_ok (show useReference (some cid) v = (.ok (v.conns cid).useRef, v) from rfl), hbyt] at hs
            obtain ⟨hps', hstr⟩ := flatten_frames hfr hps
            rw [hstr] at hcr hlen
            obtain ⟨ub, hub, hg, hd⟩ := hcr
            simp only [Bool.false_eq_true, if_false, hub, hfv.2, if_true, hi] at hs
            obtain ⟨x, t, hx, rfl⟩ := one hs
            have hwait : ∀ y ∈ (pos, K.cached) :: g.stack, Whole w k y := by
              intro y hy
              rcases List.mem_cons.mp hy with rfl | hy
              · trivial
              · exact h.stack y hy
            rcases currentN_stream (rest_at hl hr (by omega) hfr) hg hd (fun q hq => by
                obtain ⟨p, hp, rfl⟩ := List.mem_map.mp hq
                exact (hps' p hp).ne) hlen hx with ⟨c, rfl, hc⟩ | ⟨c, rest', q, qs, rfl, hq, hc, hcar', hg', hd'⟩
            · exact ⟨.inr (hby.conn hc), hwait, h.jobs⟩
            · obtain ⟨p, ps', rfl⟩ := List.exists_cons_of_ne_nil hne
              simp only [List.map_cons, List.cons.injEq] at hq
              obtain ⟨rfl, rfl⟩ := hq
              rw [List.map_cons, stream_length_cons] at hlen
              refine ⟨⟨hby.conn hc, .inr ⟨m, [p], by omega, by omega, by simp, ?_, by simpa using hcar', by simp; omega, .inl rfl⟩⟩, ?_, h.jobs⟩
              · intro y hy
                rw [List.mem_singleton.mp hy]
                exact hps' p (by simp)
              · intro y hy
                rcases List.mem_cons.mp hy with rfl | hy
                · exact ⟨m, ps', by omega, by omega, hfr, fun p hp => hps' p (List.mem_cons_of_mem _ hp), hg', hd', by omega⟩
                · exact hwait y hy
          · -- any other processor: one packet
            have hone' : ps.length = 1 := by
              rcases hone with h | ⟨m', h1, h2⟩
              · exact h
              · have : m' = m := by omega
                subst this
                exact absurd h2 hfr
            obtain ⟨p, rfl⟩ := List.length_eq_one_iff.mp hone'
            have hp := hps p (by simp)
            simp only [List.map_cons, List.map_nil, List.flatten_cons, List.flatten_nil, List.append_nil] at hcr hlen
            have hfv : ¬ Frames (v.procs (k + 1 + m)) := fun h => hfr (hsame.frames h)
            have riding : ∀ ctx', ctx'.conn = ctx.conn → Carries ctx' (p.at w k m) → Rides w k m p → (p.at w k m).length < 2 ^ 32 →
                (g.call .up (pos - 1) ctx').Fair w k := by
              intro ctx' h1 h2 h3 h4
              refine ⟨⟨hby.conn h1, .inr ⟨m, [p], by omega, by omega, by simp, ?_, by simpa using h2, by simpa using h4, .inl rfl⟩⟩, h.stack, h.jobs⟩
              intro y hy
              rw [List.mem_singleton.mp hy]
              exact h3
            by_cases hif : (v.procs (k + 1 + m)).kind.isFrame = true
            · -- a disabled FrameDecoder
              rw [if_pos hif] at hs
              have hen : (v.procs (k + 1 + m)).enable = false := by
                cases hkk : (v.procs (k + 1 + m)).kind <;> rw [hkk] at hif <;> simp [Kind.isFrame] at hif
                cases he : (v.procs (k + 1 + m)).enable
                · rfl
                · exact absurd ⟨⟨_, hkk⟩, he⟩ hfv
              obtain ⟨ub, hub, hg, hd⟩ := hcr
              simp only [frameStep] at hs
              rw [hcid, bind_of_ok (show useReference (some cid) v = (.ok (v.conns cid).useRef, v) from rfl), hbyt] at hs
              simp only [Bool.false_eq_true, if_false, hen, hub] at hs
              rw [triv hs]
              rcases hp.up with h' | ⟨_, h', _⟩
              · have hz : hdr (w.procs (k + 1 + m)) p.session (p.at w k m) = [] := by
                  rw [← hsame.hdr_eq]
                  cases hkk : (v.procs (k + 1 + m)).kind <;> rw [hkk] at hif <;> simp [Kind.isFrame] at hif
                  simp [hdr, hkk, hen]
                rw [Packet.at_succ h', hz, List.nil_append] at hd hlen
                exact riding ctx rfl ⟨ub, hub, hg, hd⟩ h' hlen
              · have := heartbeat_same hsame h'
                rw [this] at hif; cases hif
            · rw [if_neg hif] at hs
              have hif' : (v.procs (k + 1 + m)).kind.isFrame = false := by simpa using hif
              obtain ⟨x, t, hx, rfl⟩ := one hs
              rcases hp.up with h' | ⟨_, h', h83⟩
              · rw [Packet.at_succ h'] at hcr hlen
                rw [← hsame.hdr_eq] at hcr
                obtain ⟨ctx', w', _, c1, c2, _, _, _, c3⟩ := opens_up (hsame.opens hop) rfl hfv ⟨cid, hcid, hbyt⟩ hcr 0
                rw [hop_up hif' c3] at hx
                injection hx with hx _; injection hx with hx
                subst hx
                rw [List.length_append] at hlen
                exact riding ctx' c2 c1 h' (by omega)
              · have hb := heartbeat_same hsame h'
                rw [h83] at hcr
                obtain ⟨s, d, hs1, hs2, hs3⟩ := hcr.buf
                obtain ⟨s', _, hst⟩ := heartbeatLower_beat (k + 1 + m) hcid hbyt hs1 hs2 hs3
                have hstops : Stops (fun nb => onLower 0 (k + 1 + m) (v.procs (k + 1 + m)) nb ctx v)
                    (.ok { ctx with buf := some s' }, { v with trace := v.trace ++ [.beat (k + 1 + m) (some cid)] }) := by
                  intro nb
                  have := hst nb
                  simp only [onLower, hb]
                  exact this
                rw [hop_stop hif' hstops] at hx
                injection hx with hx _; injection hx with hx
                subst hx
                exact ⟨.inr (hby.conn rfl), h.stack, h.jobs⟩

/-- **Nobody asks**: goroutines that read whole packets and send never answer a statistics request. -/
theorem fair_unasked {caps : Nat → Nat} {k : Nat} {w : World} (hcar : Carrier w k) (hk : (w.procs k).kind ≠ .loopback) (hr : Roomy caps w)
    (hd : Decent w) {js : List Job} (hj : ∀ j ∈ js, j.Fair w k) :
    ∀ n g v, solo (G.new js, w) n = some (g, v) → ¬ Asks g v := by
  have key : ∀ n, (∀ j, j < n → ∀ g v, solo (G.new js, w) j = some (g, v) → ¬ Asks g v) ∧
      ∀ g v, solo (G.new js, w) n = some (g, v) → g.Fair w k := by
    intro n
    induction n with
    | zero =>
      refine ⟨fun j hj => by omega, fun g v h => ?_⟩
      injection h with h
      injection h with h1 _
      subst h1
      exact ⟨rfl, fun x hx => (by cases hx), hj⟩
    | succ n ih =>
      obtain ⟨ih1, ih2⟩ := ih
      have hall : ∀ j, j < n + 1 → ∀ g v, solo (G.new js, w) j = some (g, v) → ¬ Asks g v := by
        intro j hj g v h
        rcases Nat.lt_succ_iff_lt_or_eq.mp hj with h' | rfl
        · exact ih1 j h' g v h
        · exact (ih2 g v h).unasked hcar (solo_like h)
      refine ⟨hall, fun g v h => ?_⟩
      simp only [solo] at h
      cases hn : solo (G.new js, w) n with
      | none => rw [hn] at h; cases h
      | some t =>
        obtain ⟨g1, v1⟩ := t
        rw [hn] at h
        obtain ⟨_, hst⟩ := soloStep_some h
        obtain ⟨t1, t2, _⟩ := solo_tame_upto hr hd n ih1 g1 v1 hn
        exact fair_step hcar hk (solo_like hn) t2 t1 (ih2 g1 v1 hn) hst
  intro n g v h
  exact ((key n).2 g v h).unasked hcar (solo_like h)

end Verif.Stack
