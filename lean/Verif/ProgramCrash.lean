import Verif.Examples
import Verif.Stack.Crash

/-!
# Which inputs crash a program (C97)

`c97_exact` for the stack object of a program: the data path is read off the calls the program made (C75), the capacity of the
cache off the option "CacheCapacity" (proc_frame_decoder.go:193-205).
-/

namespace Verif.Program
open Stack Reg UBuf

/-- The capacity of the cache the lowest processor makes. -/
def Prog.cache (P : Prog) : Int :=
  match (appended P.before).getLast? with
  | some p => (optionParseInt (P.capacity p) (2 * P.mtu)).1
  | none => 0

/-- A program whose lowest processor is an enabled FrameDecoder, the only one that is enabled; above a Loopback no enabled Echo or
StatCounter (C35); user functions that return and do not panic; head room for all headers. -/
structure Prog.Decodes (P : Prog) (B : Nat) : Prop where
  plain : P.Plain
  nonempty : 0 < P.chain.length
  lowest : IsFrame P.chain[P.chain.length - 1].kind ∧ P.chain[P.chain.length - 1].enable = true
  only : ∀ j (h : j < P.chain.length), j + 1 < P.chain.length → IsFrame P.chain[j].kind → P.chain[j].enable = false
  turn : ∀ i l (hi : i < P.chain.length) (hl : l < P.chain.length), i < l → P.chain[l].kind = .loopback → ¬ Bounces P.chain[i] ∧ TameDown B P.chain[i]
  tame : ∀ p ∈ P.chain, Tame B p
  mild : ∀ p ∈ P.chain, Mild p
  mtu : 0 < P.mtu
  small : P.mtu < 2 ^ 32
  fits : P.room ≤ P.mtu
  bound : P.mtu ≤ B ∧ P.cache ≤ B

theorem overhead_nonneg (k : Kind) : 0 ≤ k.overhead := by cases k <;> simp [Kind.overhead]

theorem room_nonneg (P : Prog) : 0 ≤ P.room := by
  unfold Prog.room
  induction P.chain with
  | nil => simp
  | cons p ps ih => have := overhead_nonneg p.kind; simp only [List.map_cons, List.sum_cons]; omega

theorem same_tameDown {B : Nat} {p q : Proc} (h : p.kind.Same q.kind) (ht : TameDown B p) : TameDown B q := by
  obtain ⟨e, k⟩ := p
  obtain ⟨e', k'⟩ := q
  simp only at h
  cases k <;> cases k' <;> simp_all [Kind.Same, TameDown]

theorem same_loopback {p q : Proc} (h : p.kind.Same q.kind) (hq : q.kind = .loopback) : p.kind = .loopback := by
  obtain ⟨e, k⟩ := p
  obtain ⟨e', k'⟩ := q
  simp only at h hq ⊢
  subst hq
  cases k <;> simp_all [Kind.Same]

theorem same_bounces {p q : Proc} (h : SameProc p q) (hb : Bounces q) : Bounces p := by
  obtain ⟨e, k⟩ := p
  obtain ⟨e', k'⟩ := q
  obtain ⟨h1, h2⟩ := h
  simp only at h1 h2
  cases k <;> cases k' <;> simp_all [Kind.Same, Bounces]

/-- The stack of such a program, right after `Run`, and its cache. -/
theorem Prog.Decodes.fed {P : Prog} {B : Nat} (h : P.Decodes B) {w : World} (hw : DataPath P.stack P.obj P.capacity w)
    (hb : ∀ c, (w.conns c).useRef = false) : ∃ d, Fed B w ∧ Caches (w.n - 1) w d ∧ Vacant P.cache.toNat d ∧ 0 < P.cache := by
  obtain ⟨hn, hsame, _, _, hover, hmtu, _⟩ := c75_data_path P h.plain w hw
  obtain ⟨_, _, d', ps, hd', hb', hn', hpr, _⟩ := hw
  obtain ⟨d, hd, hlinks, _, _⟩ := c46_wiring P.session (fun p => (P.obj p).kind.overhead) P.spare P.before P.after h.plain.once.2 h.plain.distinct
  have hdd : d = d' := Option.some.inj (hd.symm.trans hd')
  subst hdd
  have hps := hb'.unique (below_of_links _ _ hlinks)
  subst hps
  have hpm : P.stack.mtu = P.mtu := c45_mtu _ _ _ _ _ h.plain.once.2
  have hlen : P.chain.length = (appended P.before).length := by simp [Prog.chain]
  have hpos := h.nonempty
  have hlast : w.n - 1 < P.chain.length := by omega
  have hs1 := hsame (w.n - 1) hlast
  have hfr : IsFrame (w.procs (w.n - 1)).kind := by
    refine (Same.frame hs1.2).mp ?_
    have := h.lowest.1
    simpa only [hn] using this
  have hen : (w.procs (w.n - 1)).enable = true := by
    rw [hs1.1]
    have := h.lowest.2
    simpa only [hn] using this
  -- the cache
  have hcap : ∃ s, (w.procs (w.n - 1)).kind = .frame (some s) ∧ Buf s (Deque.fresh P.cache.toNat 0) ∧ 0 < P.cache := by
    have hi : w.n - 1 < (appended P.before).length := by omega
    have := hpr (w.n - 1) hi
    have hc : P.cache = (optionParseInt (P.capacity (appended P.before)[w.n - 1]) (2 * P.mtu)).1 := by
      simp only [Prog.cache, List.getLast?_eq_getElem?]
      have e : (appended P.before)[(appended P.before).length - 1]? = some (appended P.before)[w.n - 1] := by
        rw [List.getElem?_eq_getElem (by omega)]
        simp only [hn']
      rw [e]
    rw [hpm] at this
    unfold runProc at this
    split at this
    · split at this
      · rename_i s hs
        injection this with this
        rw [← this]
        obtain ⟨h1, h2, h3, h4, h5⟩ := UBuf.alloc_ok hs
        refine ⟨s, rfl, ?_, by rw [hc]; exact h1⟩
        rw [← hc] at h5
        exact ⟨h4, h5⟩
      · cases this
      · cases this
    · rename_i hk
      injection this with this
      obtain ⟨c, hc⟩ := hfr
      rw [← this] at hc
      exact absurd hc (hk c)
  obtain ⟨s, hs, hbuf, hc0⟩ := hcap
  refine ⟨_, ⟨⟨⟨fun i l hil hl hk => ?_, .inl hb, fun j hj => ?_⟩, fun j hj hf he => ?_, by rw [hmtu]; exact h.bound.1⟩, ?_, by omega, hen, hb⟩, ⟨s, hs, hbuf⟩,
    ⟨rfl, by simp [Deque.fresh], by simp [Deque.fresh]⟩, hc0⟩
  · have hl' : l < P.chain.length := by omega
    have hi' : i < P.chain.length := by omega
    obtain ⟨t1, t2⟩ := h.turn i l hi' hl' hil (same_loopback (hsame l hl').2 hk)
    exact ⟨fun hb => (t1 (same_bounces (hsame i hi') hb)).elim, same_tameDown (hsame i hi').2 t2⟩
  · exact Same.tame (hsame j (by omega)).2 (h.tame _ (List.getElem_mem _))
  · by_cases hj1 : j = w.n - 1
    · subst hj1
      exact ⟨s, _, hs, hbuf, by have := h.bound.2; simp only [Deque.fresh]; omega⟩
    · have hj' : j < P.chain.length := by omega
      have := h.only j hj' (by omega) ((Same.frame (hsame j hj').2).mpr hf)
      rw [(hsame j hj').1, this] at he
      cases he
  · refine ⟨by rw [hmtu]; exact h.mtu, by rw [hover]; exact room_nonneg P, by rw [hover, hmtu]; exact h.fits, fun j hj => ?_, fun j h1 hj hf he => ?_, fun j h1 hj => ?_⟩
    · exact Same.mild (hsame j (by omega)).2 (hsame j (by omega)).1 (h.mild _ (List.getElem_mem _))
    · have hj' : j < P.chain.length := by omega
      have := h.only j hj' (by omega) ((Same.frame (hsame j hj').2).mpr hf)
      rw [(hsame j hj').1, this] at he
      cases he
    · have : j = w.n - 1 := by omega
      subst this
      rw [hs]; simp

/-- **C97 for programs, exactly**: what crashes a program whose lowest processor is the FrameDecoder. -/
theorem c97_program (P : Prog) (B : Nat) (h : P.Decodes B) (w : World) (hw : DataPath P.stack P.obj P.capacity w)
    (hb : ∀ c, (w.conns c).useRef = false) (es : List Stack.Event) (ha : ∀ e ∈ es, Addressed e) (fuel : Nat) (hf : 4 * P.chain.length + B + 4 ≤ fuel) :
    (runEvents fuel es w).1 = .panic ↔
      ∃ pre e post bs, es = pre ++ e :: post ∧ reading P.mtu e = some bs ∧ Deadly bs ∧
        ∀ e' ∈ pre, ∀ bs', reading P.mtu e' = some bs' → ¬ Chokes P.cache.toNat bs' := by
  obtain ⟨d, h1, h2, h3, h4⟩ := h.fed hw hb
  obtain ⟨hn, _, _, _, _, hmtu, _⟩ := c75_data_path P h.plain w hw
  rw [← hmtu]
  exact c97_exact w d h1 h2 h3 (by omega) (by rw [hmtu]; exact h.small) es ha fuel (by omega)

/-- If the program does not set "CacheCapacity" (or sets it to more than the MTU), every read of whole frames followed by four zero bytes
crashes it, and nothing else does. -/
theorem c97_program_default (P : Prog) (B : Nat) (h : P.Decodes B) (hc : P.mtu < P.cache) (w : World) (hw : DataPath P.stack P.obj P.capacity w)
    (hb : ∀ c, (w.conns c).useRef = false) (es : List Stack.Event) (ha : ∀ e ∈ es, Addressed e) (fuel : Nat) (hf : 4 * P.chain.length + B + 4 ≤ fuel) :
    (runEvents fuel es w).1 = .panic ↔ ∃ c bs, Stack.Event.receive c bs ∈ es ∧ Deadly (bs.take P.mtu.toNat) := by
  obtain ⟨d, h1, h2, h3, h4⟩ := h.fed hw hb
  obtain ⟨hn, _, _, _, _, hmtu, _⟩ := c75_data_path P h.plain w hw
  rw [← hmtu]
  exact c97_default w d h1 h2 h3 (by omega) (by rw [hmtu]; exact h.small) es ha fuel (by omega)

/-! ## The example programs -/

open Verif.Examples

/-- Processors without user functions that neither frame nor turn around. -/
def Ordinary : Kind → Prop
  | .bytesCodec | .stringCodec | .session | .stat _ _ | .heartbeat | .loadBalancer => True
  | _ => False

theorem decodes_prog {eps : List Int} {first : Nat} {above : List Proc} {capacity : Val} {tps : List Nat} {later : List Reg.Op}
    (hd : eps.Nodup) (hf : first ≤ eps.length) (hl : ∀ op ∈ later, Later eps.length op) (ho : ∀ p ∈ above, Ordinary p.kind)
    (hr : (above.map fun p => p.kind.overhead).sum + 4 ≤ 2048) (B : Nat) (hB : 2048 ≤ B) (hc : (optionParseInt capacity 4096).1 ≤ B) :
    (prog eps first (above ++ [on (.frame none)]) capacity tps later).Decodes B ∧
      (prog eps first (above ++ [on (.frame none)]) capacity tps later).cache = (optionParseInt capacity 4096).1 := by
  have hch : (prog eps first (above ++ [on (.frame none)]) capacity tps later).chain = above ++ [on (.frame none)] := chain_prog
  have hcache : (prog eps first (above ++ [on (.frame none)]) capacity tps later).cache = (optionParseInt capacity 4096).1 := by
    have : (appended (prog eps first (above ++ [on (.frame none)]) capacity tps later).before).getLast? = some above.length := by
      simp only [prog, appended_setup, List.length_append, List.length_singleton]
      rw [List.range_succ, List.getLast?_append]
      rfl
    rw [Prog.cache, this]
    simp only [mtu_prog]
    rfl
  have hk : ∀ p ∈ above ++ [on (.frame none)], Ordinary p.kind ∨ p = on (.frame none) := fun p hp => by
    rcases List.mem_append.1 hp with h | h
    · exact .inl (ho p h)
    · exact .inr (by simpa using h)
  have hget : ∀ j (h : j < (above ++ [on (.frame none)]).length), j + 1 < (above ++ [on (.frame none)]).length → Ordinary (above ++ [on (.frame none)])[j].kind := fun j h h1 => by
    have hj : j < above.length := by simp at h1; omega
    rw [List.getElem_append_left hj]
    exact ho _ (List.getElem_mem _)
  refine ⟨⟨plain_prog hd hf hl, by rw [hch]; simp, ?_, ?_, ?_, ?_, ?_, by rw [mtu_prog]; decide, by rw [mtu_prog]; decide, ?_, by rw [mtu_prog, hcache]; omega⟩, hcache⟩
  · simp only [hch, List.length_append, List.length_singleton, Nat.add_sub_cancel, List.getElem_concat_length]
    exact ⟨⟨none, rfl⟩, rfl⟩
  · intro j h h1 hfr
    simp only [hch] at h h1 hfr ⊢
    have := hget j h h1
    obtain ⟨c, hc⟩ := hfr
    rw [hc] at this
    exact this.elim
  · intro i l hi hlt _ hk'
    simp only [hch] at hlt hk'
    rcases hk _ (List.getElem_mem hlt) with h | h
    · rw [hk'] at h; exact h.elim
    · rw [h] at hk'; cases hk'
  · rw [hch]
    intro p hp
    rcases hk p hp with h | rfl
    · obtain ⟨e, k⟩ := p
      cases k <;> simp_all [Ordinary, Tame]
    · trivial
  · rw [hch]
    intro p hp
    rcases hk p hp with h | rfl
    · obtain ⟨e, k⟩ := p
      cases k <;> simp_all [Ordinary, Mild]
    · trivial
  · rw [room_prog, mtu_prog, List.map_append, List.sum_append]
    simpa [on, Kind.overhead] using hr

/-- The programs with default cache in `examples/`: session (both sides), dynamic_endpoint (both sides), microservices, speed and the client of
statcounter.  What crashes them is a read of whole frames and four zero bytes, and only that. -/
theorem c97_examples (P : Prog) (hP : P ∈ [sessionClient, sessionServer, dynClient, dynServer, micro, speedEnd, statClient])
    (w : World) (hw : DataPath P.stack P.obj P.capacity w) (hb : ∀ c, (w.conns c).useRef = false) (es : List Stack.Event) (ha : ∀ e ∈ es, Addressed e)
    (fuel : Nat) (hf : 4112 ≤ fuel) :
    (runEvents fuel es w).1 = .panic ↔ ∃ c bs, Stack.Event.receive c bs ∈ es ∧ Deadly (bs.take 2048) := by
  have key : P.Decodes 4096 ∧ P.cache = 4096 ∧ P.mtu = 2048 ∧ P.chain.length ≤ 3 := by
    have e1 : (optionParseInt .nil 4096).1 = 4096 := rfl
    simp only [List.mem_cons, List.not_mem_nil, or_false] at hP
    rcases hP with rfl | rfl | rfl | rfl | rfl | rfl | rfl
    · have := decodes_prog (eps := [86, 45]) (first := 2) (above := [on .bytesCodec, on .session]) (capacity := .nil) (tps := [0]) (later := [])
        (by decide) (by decide) (by simp) (by simp [on, Ordinary]) (by decide) 4096 (by decide) (by decide)
      exact ⟨this.1, this.2, mtu_prog, by rw [show sessionClient.chain = _ from chain_prog]; simp [Examples.framed]⟩
    · have := decodes_prog (eps := [86, 45]) (first := 2) (above := [on .bytesCodec, on .session]) (capacity := .nil) (tps := [0]) (later := [])
        (by decide) (by decide) (by simp) (by simp [on, Ordinary]) (by decide) 4096 (by decide) (by decide)
      exact ⟨this.1, this.2, mtu_prog, by rw [show sessionServer.chain = _ from chain_prog]; simp [Examples.framed]⟩
    · have := decodes_prog (eps := [0, 10]) (first := 1) (above := [on .bytesCodec, on .session]) (capacity := .nil) (tps := [0])
        (later := [.addEndPoint 1, .addTransport 1])
        (by decide) (by decide) (by simp [Later]) (by simp [on, Ordinary]) (by decide) 4096 (by decide) (by decide)
      exact ⟨this.1, this.2, mtu_prog, by rw [show dynClient.chain = _ from chain_prog]; simp [Examples.framed]⟩
    · have := decodes_prog (eps := [0, 10]) (first := 1) (above := [on .bytesCodec, on .session]) (capacity := .nil) (tps := [0])
        (later := [.addTransport 1, .addEndPoint 1])
        (by decide) (by decide) (by simp [Later]) (by simp [on, Ordinary]) (by decide) 4096 (by decide) (by decide)
      exact ⟨this.1, this.2, mtu_prog, by rw [show dynServer.chain = _ from chain_prog]; simp [Examples.framed]⟩
    · have := decodes_prog (eps := [0]) (first := 1) (above := [on .stringCodec, on .session]) (capacity := .nil) (tps := [0]) (later := [])
        (by decide) (by decide) (by simp) (by simp [on, Ordinary]) (by decide) 4096 (by decide) (by decide)
      exact ⟨this.1, this.2, mtu_prog, by rw [show micro.chain = _ from chain_prog]; simp [Examples.framed]⟩
    · have := decodes_prog (eps := [0]) (first := 1) (above := [on .bytesCodec]) (capacity := .nil) (tps := [0]) (later := [])
        (by decide) (by decide) (by simp) (by simp [on, Ordinary]) (by decide) 4096 (by decide) (by decide)
      exact ⟨this.1, this.2, mtu_prog, by rw [show speedEnd.chain = _ from chain_prog]; simp⟩
    · have := decodes_prog (eps := []) (first := 0) (above := [on (.stat 0 0)]) (capacity := .nil) (tps := [0, 1]) (later := [])
        (by decide) (by decide) (by simp) (by simp [on, Ordinary]) (by decide) 4096 (by decide) (by decide)
      exact ⟨this.1, this.2, mtu_prog, by rw [show statClient.chain = _ from chain_prog]; simp⟩
  obtain ⟨h1, h2, h3, h4⟩ := key
  rw [c97_program_default P 4096 h1 (by omega) w hw hb es ha fuel (by omega), h3]
  rfl

/-- examples/tcp sets "CacheCapacity" to 128: there an earlier read can protect the program, by filling the cache, which jams it for good. -/
theorem c97_tcp (w : World) (hw : DataPath tcpEnd.stack tcpEnd.obj tcpEnd.capacity w) (hb : ∀ c, (w.conns c).useRef = false)
    (es : List Stack.Event) (ha : ∀ e ∈ es, Addressed e) (fuel : Nat) (hf : 2064 ≤ fuel) :
    (runEvents fuel es w).1 = .panic ↔
      ∃ pre c bs post, es = pre ++ .receive c bs :: post ∧ Deadly (bs.take 2048) ∧
        ∀ c' bs', Stack.Event.receive c' bs' ∈ pre → ¬ Chokes 128 (bs'.take 2048) := by
  have h := decodes_prog (eps := [0]) (first := 1) (above := [on .bytesCodec, on (.stat 0 0)]) (capacity := .int 128) (tps := [0, 1]) (later := [])
    (by decide) (by decide) (by simp) (by simp [on, Ordinary]) (by decide) 2048 (by decide) (by decide)
  have h1 : tcpEnd.Decodes 2048 := h.1
  have h2 : tcpEnd.cache = 128 := h.2
  have h3 : tcpEnd.mtu = 2048 := mtu_prog
  have h4 : tcpEnd.chain.length = 3 := by rw [show tcpEnd.chain = _ from chain_prog]; simp [counted]
  rw [c97_program tcpEnd 2048 h1 w hw hb es ha fuel (by omega), h2, h3]
  constructor
  · rintro ⟨pre, e, post, bs, rfl, r1, r2, r3⟩
    cases e with
    | receive c bs' => cases r1; exact ⟨pre, c, bs', post, rfl, r2, fun c' b hm => r3 _ hm _ rfl⟩
    | _ => cases r1
  · rintro ⟨pre, c, bs, post, rfl, r1, r2⟩
    refine ⟨pre, _, post, _, rfl, rfl, r1, fun e' he' bs' hr => ?_⟩
    cases e' with
    | receive c' b' => cases hr; exact r2 c' b' he'
    | _ => cases hr

/-- The programs get through `Run`, and their connections may be byte connections. -/
example : ∃ w, DataPath tcpEnd.stack tcpEnd.obj tcpEnd.capacity w ∧ ∀ c, (w.conns c).useRef = false := by
  have hp : tcpEnd.Plain := plain_prog (by decide) (by decide) (by simp)
  obtain ⟨w, h1, h2, d, ps, h3, h4, h5, h6, h7⟩ := (c75_runs_iff tcpEnd hp).2 fun p _ _ => by
    rw [show tcpEnd.mtu = 2048 from mtu_prog]; exact (by decide : (0 : Int) < 128)
  exact ⟨{ w with conns := fun _ => ⟨false, false⟩ }, ⟨h1, h2, d, ps, h3, h4, h5, h6, h7⟩, fun _ => rfl⟩

end Verif.Program
