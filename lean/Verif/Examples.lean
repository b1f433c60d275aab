import Verif.Program
import Verif.Stack.Report

/-!
# The programs of `/repo/examples` (C76)

Each example program is written down as the calls it makes (with the addresses and the printing left out); the theorems say
that every message of the kind it sends (with any content that fits) arrives where the example's other half registered
an endpoint for it.  Processor objects are numbered in the order of appending, transports and endpoints likewise.
-/

namespace Verif.Examples
open Stack Reg Program

def on (k : Kind) : Proc := ⟨true, k⟩

/-- The calls of an example before `Run`: endpoints, processors, transports. -/
def setup (eps : List Nat) (n : Nat) (tps : List Nat) : List Op :=
  eps.map .addEndPoint ++ ((List.range n).map .appendProc ++ tps.map .addTransport)

/-- An example program: the sessions of its endpoints, of which the first `first` are added before `Run`, its processors and
their option "CacheCapacity", its transports, and the calls made later from listeners. -/
def prog (eps : List Int) (first : Nat) (chain : List Proc) (capacity : Val) (tps : List Nat) (later : List Op) : Prog where
  session := fun e => (eps[e]?).getD 0
  obj := fun p => (chain[p]?).getD default
  capacity := fun _ => capacity
  spare := fun n => n
  before := setup (List.range first) chain.length tps
  after := later

section
variable {eps : List Int} {first : Nat} {chain : List Proc} {capacity : Val} {tps : List Nat} {later : List Op}

theorem appended_append (a b : List Op) : appended (a ++ b) = appended a ++ appended b := by simp [appended, List.filterMap_append]

theorem appended_setup (eps : List Nat) (n : Nat) (tps : List Nat) : appended (setup eps n tps) = List.range n := by
  have h1 : appended (eps.map Op.addEndPoint) = [] := by
    simp only [appended, List.filterMap_map]; exact List.filterMap_eq_nil_iff.mpr fun _ _ => rfl
  have h2 : appended (tps.map Op.addTransport) = [] := by
    simp only [appended, List.filterMap_map]; exact List.filterMap_eq_nil_iff.mpr fun _ _ => rfl
  have h3 : appended ((List.range n).map Op.appendProc) = List.range n := by
    simp only [appended, List.filterMap_map]
    conv => rhs; rw [← List.filterMap_some (l := List.range n)]
    rfl
  rw [setup, appended_append, appended_append, h1, h2, h3]
  simp

theorem runs_setup (eps : List Nat) (n : Nat) (tps : List Nat) : runs (setup eps n tps) = 0 := by
  simp only [runs, setup, List.countP_eq_zero]
  intro op h
  simp only [List.mem_append, List.mem_map] at h
  rcases h with ⟨_, _, rfl⟩ | ⟨_, _, rfl⟩ | ⟨_, _, rfl⟩ <;> simp [Op.isRun]

theorem chain_prog : (prog eps first chain capacity tps later).chain = chain := by
  simp only [Prog.chain, prog, appended_setup]
  apply List.ext_getElem
  · simp
  · intro i h1 h2
    simp [List.getElem?_eq_getElem h2]

theorem mtu_setup (eps : List Nat) (n : Nat) (tps : List Nat) : optionAfter "MTU" (setup eps n tps) = .nil := by
  have : ∀ (ops : List Op) (v : Val), (∀ op ∈ ops, ∀ a b, op ≠ .setOption a b) →
      ops.foldl (fun v op => match op with | .setOption n x => if n = "MTU" then x else v | _ => v) v = v := by
    intro ops
    induction ops with
    | nil => intro v _; rfl
    | cons op ops ih =>
      intro v h
      have h1 := h op List.mem_cons_self
      rw [List.foldl_cons, ih _ fun o ho => h o (List.mem_cons_of_mem _ ho)]
      cases op <;> simp_all
  apply this
  intro op h a b
  simp only [setup, List.mem_append, List.mem_map] at h
  rcases h with ⟨_, _, rfl⟩ | ⟨_, _, rfl⟩ | ⟨_, _, rfl⟩ <;> simp

theorem mtu_prog : (prog eps first chain capacity tps later).mtu = 2048 := by
  simp [Prog.mtu, prog, mtu_setup, mtuOf]

theorem room_prog : (prog eps first chain capacity tps later).room = (chain.map fun p => p.kind.overhead).sum := by
  rw [Prog.room, chain_prog]

/-- What the listeners of the examples call: adding and deleting endpoints and transports. -/
def Later (n : Nat) : Op → Prop
  | .addEndPoint e => e < n
  | .run | .setSession _ _ => False
  | _ => True

theorem plain_prog (hd : eps.Nodup) (hf : first ≤ eps.length) (hl : ∀ op ∈ later, Later eps.length op) :
    (prog eps first chain capacity tps later).Plain where
  once := ⟨runs_setup _ _ _, by
    simp only [runs, List.countP_eq_zero, prog]
    intro op h
    have := hl op h
    cases op <;> simp_all [Later, Op.isRun]⟩
  fixed := by
    intro op h
    simp only [Prog.calls, prog, List.mem_append, List.mem_cons, setup, List.mem_map] at h
    rcases h with (⟨_, _, rfl⟩ | ⟨_, _, rfl⟩ | ⟨_, _, rfl⟩) | rfl | h
    · rfl
    · rfl
    · rfl
    · rfl
    · have := hl op h
      cases op <;> simp_all [Later, Op.isSetSession]
  distinct := by
    simp only [prog, appended_setup]
    exact List.nodup_range
  sessions := by
    have key : ∀ x, .addEndPoint x ∈ (prog eps first chain capacity tps later).calls → x < eps.length := by
      intro x h
      simp only [Prog.calls, prog, List.mem_append, List.mem_cons, setup, List.mem_map] at h
      rcases h with (⟨_, h, e⟩ | ⟨_, _, e⟩ | ⟨_, _, e⟩) | e | h
      · cases e
        have := List.mem_range.mp h
        omega
      · cases e
      · cases e
      · cases e
      · exact hl _ h
    intro x y hx hy h
    have h1 := key x hx
    have h2 := key y hy
    simp only [prog, List.getElem?_eq_getElem h1, List.getElem?_eq_getElem h2, Option.getD_some] at h
    exact (List.getElem_inj hd).mp h

end

/-! ## Two programs with the same processors -/

/-- One enabled codec at `k`, quiet processors above, processors that open what they close below. -/
structure Fit (chain : List Proc) (k : Nat) : Prop where
  pos : k < chain.length
  quiet : ∀ j (h : j < chain.length), j < k → Quiet chain[j]
  codecOn : chain[k].enable = true
  opens : ∀ j (h : j < chain.length), k < j → Opens chain[j]

theorem carries_of {P : Prog} {chain : List Proc} {k : Nat} (hc : P.chain = chain) (hm : P.mtu = 2048) (hp : P.Plain) (h : Fit chain k) : P.Carries k := by
  subst hc
  exact ⟨hp, h.pos, h.quiet, h.codecOn, h.opens, by rw [hm]; decide⟩

theorem alike_of {P Q : Prog} {chain : List Proc} (hP : P.chain = chain) (hQ : Q.chain = chain) (hm : P.mtu = 2048) (hm' : Q.mtu = 2048) : P.Alike Q := by
  refine ⟨by rw [hP, hQ], fun j h1 h2 => ?_, by rw [hm, hm']⟩
  have : P.chain[j] = Q.chain[j] := by
    have e : P.chain = Q.chain := hP.trans hQ.symm
    simp only [e]
  rw [this]
  exact .refl _

/-- Both programs get through `Run`, and what `P` then sends to session `s` on a connection to `Q` that takes all bytes arrives,
equal and once, at endpoint `e` of `Q`. -/
def Arrives (P Q : Prog) (m : Val) (s : Int) (e : Nat) : Prop :=
  (∃ w, DataPath P.stack P.obj P.capacity w) ∧ (∃ v, DataPath Q.stack Q.obj Q.capacity v) ∧
  ∀ w v, DataPath P.stack P.obj P.capacity w → DataPath Q.stack Q.obj Q.capacity v →
    ∀ c d, w.conns c = ⟨false, false⟩ → (v.conns d).useRef = false → (∀ p, w.write w.trace c p = ⟨p.length, none⟩) →
    ∀ fuel, w.n + 1 < fuel → ∃ bs w' v', send fuel (some c) m s w = (.ok (), w') ∧
      w'.trace = w.trace ++ [.wire c bs ⟨bs.length, none⟩] ∧
      receive fuel d bs v = (.ok (), v') ∧ v'.trace = v.trace ++ [.rx e (some d) m]

/-- The option "CacheCapacity" of the examples: not set, or a positive integer. -/
def CapacityOk (c : Val) : Prop := 0 < (optionParseInt c 4096).1

theorem arrives_of (eps eps' : List Int) (first first' : Nat) (chain : List Proc) (cap cap' : Val) (tps tps' : List Nat) (later later' : List Op)
    (hd : eps.Nodup) (hf : first ≤ eps.length) (hl : ∀ op ∈ later, Later eps.length op)
    (hd' : eps'.Nodup) (hf' : first' ≤ eps'.length) (hl' : ∀ op ∈ later', Later eps'.length op)
    (hcap : CapacityOk cap) (hcap' : CapacityOk cap') (k : Nat) (hk : Fit chain k)
    (m : Val) (b : List Byte) (s : Int)
    (hcode : CodedBy (2048 - (chain.map fun p => p.kind.overhead).sum).toNat (chain[k]'hk.pos).kind m b) (hne : b ≠ [])
    (hfit : (chain.map fun p => p.kind.overhead).sum + b.length ≤ 2048) (hs : 0 ≤ s ∧ s < 2 ^ 32)
    (hres : (∃ j, ∃ h : j < chain.length, k < j ∧ Resolves chain[j]) ∨ s = 0)
    (e : Nat) (he : e ∈ (prog eps' first' chain cap' tps' later').registered) (hse : (eps'[e]?).getD 0 = s) :
    Arrives (prog eps first chain cap tps later) (prog eps' first' chain cap' tps' later') m s e := by
  have hP : (prog eps first chain cap tps later).Plain := plain_prog hd hf hl
  have hQ : (prog eps' first' chain cap' tps' later').Plain := plain_prog hd' hf' hl'
  refine ⟨(c75_runs_iff _ hP).mpr fun p _ _ => by rw [mtu_prog]; exact hcap,
    (c75_runs_iff _ hQ).mpr fun p _ _ => by rw [mtu_prog]; exact hcap', fun w v hw hv c d hc hd' hwr fuel hfu => ?_⟩
  refine c75_programs_deliver_partial _ _ k (carries_of chain_prog mtu_prog hP hk) (carries_of chain_prog mtu_prog hQ hk)
    (alike_of chain_prog chain_prog mtu_prog mtu_prog) w v hw hv m b s ⟨by rw [chain_prog]; exact hk.pos, ?_, hne, ?_, hs.1, hs.2, ?_⟩ e he hse c d hc hd' hwr fuel hfu
  · rw [mtu_prog, room_prog]
    simpa only [chain_prog] using hcode
  · rw [mtu_prog, room_prog]; exact hfit
  · simpa only [chain_prog] using hres

/-! ## The examples with an endpoint on each side

In all of them the codec comes first; `room` below is the sum of the header sizes. -/

/-- Codec first, then SessionResolver and FrameDecoder (session, dynamic_endpoint, microservices). -/
def framed (codec : Kind) : List Proc := [on codec, on .session, on (.frame none)]

theorem fit_framed (codec : Kind) : Fit (framed codec) 0 where
  pos := by simp [framed]
  quiet := fun j _ h => absurd h (Nat.not_lt_zero j)
  codecOn := rfl
  opens := by
    intro j h h0
    match j, h, h0 with
    | 1, _, _ => trivial
    | 2, _, _ => trivial
    | j + 3, h, _ => exact absurd h (by simp [framed])

theorem resolves_framed (codec : Kind) : ∃ j, ∃ h : j < (framed codec).length, 0 < j ∧ Resolves (framed codec)[j] :=
  ⟨1, by simp [framed], by decide, rfl, rfl⟩

/-- A codec alone (unix, dynamic_transport, jsoncodec, gobcodec, genericcodec, discard). -/
theorem fit_alone (codec : Kind) : Fit [on codec] 0 where
  pos := by simp
  quiet := fun j _ h => absurd h (Nat.not_lt_zero j)
  codecOn := rfl
  opens := by
    intro j h h0
    match j, h, h0 with
    | j + 1, h, _ => exact absurd h (by simp)

/-- examples/session/main.go:11-58: endpoints 0 (session 86) and 1 (session 45). -/
def sessionClient : Prog := prog [86, 45] 2 (framed .bytesCodec) .nil [0] []
/-- examples/session/main.go:60-95 -/
def sessionServer : Prog := prog [86, 45] 2 (framed .bytesCodec) .nil [0] []

/-- What endpoint `i` of the client sends without naming a destination session (its own session is used,
proc_upperdeck.go:55-64) arrives at endpoint `i` of the server. -/
theorem c76_session (i : Nat) (hi : i < 2) (b : List Byte) (hne : b ≠ []) (hlen : b.length ≤ 2040) :
    Arrives sessionClient sessionServer (.bytes b) (sessionClient.session i) i := by
  have key : ∀ s : Int, s = sessionClient.session i → (s = 86 ∨ s = 45) → i ∈ sessionServer.registered →
      Arrives sessionClient sessionServer (.bytes b) s i := by
    intro s hs h hr
    refine arrives_of [86, 45] [86, 45] 2 2 (framed .bytesCodec) .nil .nil [0] [0] [] [] (by decide) (by decide) (by simp) (by decide) (by decide) (by simp)
      (by unfold CapacityOk; decide) (by unfold CapacityOk; decide) 0 (fit_framed _) (.bytes b) b s (.bytes b) hne ?_ (by omega) (.inl (resolves_framed _)) i hr hs.symm
    simp [framed, on, Kind.overhead]; omega
  match i, hi with
  | 0, _ => exact key 86 rfl (.inl rfl) (by decide)
  | 1, _ => exact key 45 rfl (.inr rfl) (by decide)

/-- examples/dynamic_endpoint/main.go:61-124 up to the second connection: endpoint 0 (session 0) before `Run`, endpoint 1
(session 10) and a second transport from the listener. -/
def dynClient : Prog := prog [0, 10] 1 (framed .bytesCodec) .nil [0] [.addEndPoint 1, .addTransport 1]
/-- examples/dynamic_endpoint/main.go:126-164 -/
def dynServer : Prog := prog [0, 10] 1 (framed .bytesCodec) .nil [0] [.addTransport 1, .addEndPoint 1]
/-- The client after it has deleted its transport and its endpoint (dynamic_endpoint/main.go:99-107). -/
def dynClientEnd : Prog :=
  prog [0, 10] 1 (framed .bytesCodec) .nil [0] [.addEndPoint 1, .addTransport 1, .deleteTransport 1, .deleteEndPoint 1]

/-- Both endpoints, the one added while the stack is running as well. -/
theorem c76_dynamic_endpoint (i : Nat) (hi : i < 2) (b : List Byte) (hne : b ≠ []) (hlen : b.length ≤ 2040) :
    Arrives dynClient dynServer (.bytes b) (dynClient.session i) i := by
  have key : ∀ s : Int, s = dynClient.session i → (s = 0 ∨ s = 10) → i ∈ dynServer.registered →
      Arrives dynClient dynServer (.bytes b) s i := by
    intro s hs h hr
    refine arrives_of [0, 10] [0, 10] 1 1 (framed .bytesCodec) .nil .nil [0] [0] [.addEndPoint 1, .addTransport 1] [.addTransport 1, .addEndPoint 1]
      (by decide) (by decide) (by simp [Later]) (by decide) (by decide) (by simp [Later])
      (by unfold CapacityOk; decide) (by unfold CapacityOk; decide) 0 (fit_framed _) (.bytes b) b s (.bytes b) hne ?_ (by omega) (.inl (resolves_framed _)) i hr hs.symm
    simp [framed, on, Kind.overhead]; omega
  match i, hi with
  | 0, _ => exact key 0 rfl (.inl rfl) (by decide)
  | 1, _ => exact key 10 rfl (.inr rfl) (by decide)

/-- After the deletions only endpoint 0 is left, and it goes on sending. -/
theorem c76_dynamic_endpoint_deleted (b : List Byte) (hne : b ≠ []) (hlen : b.length ≤ 2040) :
    dynClientEnd.registered = [0] ∧ Arrives dynClientEnd dynServer (.bytes b) 0 0 := by
  refine ⟨by decide, ?_⟩
  refine arrives_of [0, 10] [0, 10] 1 1 (framed .bytesCodec) .nil .nil [0] [0] [.addEndPoint 1, .addTransport 1, .deleteTransport 1, .deleteEndPoint 1]
    [.addTransport 1, .addEndPoint 1] (by decide) (by decide) (by simp [Later]) (by decide) (by decide) (by simp [Later])
    (by unfold CapacityOk; decide) (by unfold CapacityOk; decide) 0 (fit_framed _) (.bytes b) b 0 (.bytes b) hne ?_ (by omega) (.inl (resolves_framed _)) 0 (by decide) rfl
  simp [framed, on, Kind.overhead]; omega

/-- examples/microservices/main.go: the center server (18-58), the hello server (62-88) and the application's sessions
(100-126) are the same stack: one endpoint with session 0. -/
def micro : Prog := prog [0] 1 (framed .stringCodec) .nil [0] []

/-- Any request arrives, and so does any answer to it. -/
theorem c76_microservices (request answer : List Byte) (h1 : request ≠ []) (h2 : answer ≠ []) (l1 : request.length ≤ 2040) (l2 : answer.length ≤ 2040) :
    Arrives micro micro (.str request) 0 0 ∧ Arrives micro micro (.str answer) 0 0 := by
  have key : ∀ b : List Byte, b ≠ [] → b.length ≤ 2040 → Arrives micro micro (.str b) 0 0 := by
    intro b hne hlen
    refine arrives_of [0] [0] 1 1 (framed .stringCodec) .nil .nil [0] [0] [] [] (by decide) (by decide) (by simp) (by decide) (by decide) (by simp)
      (by unfold CapacityOk; decide) (by unfold CapacityOk; decide) 0 (fit_framed _) (.str b) b 0 (.str b) hne ?_ (by omega) (.inr rfl) 0 (by decide) rfl
    simp [framed, on, Kind.overhead]; omega
  exact ⟨key _ h1 l1, key _ h2 l2⟩

/-- BytesCodec, StatCounter, FrameDecoder with "CacheCapacity" 128 (examples/tcp/main.go:41-43, 79-81). -/
def counted : List Proc := [on .bytesCodec, on (.stat 0 0), on (.frame none)]

theorem fit_counted : Fit counted 0 where
  pos := by decide
  quiet := fun j _ h => absurd h (Nat.not_lt_zero j)
  codecOn := rfl
  opens := by
    intro j h h0
    match j, h, h0 with
    | 1, _, _ => trivial
    | 2, _, _ => trivial
    | j + 3, h, _ => exact absurd h (by simp [counted])

/-- examples/tcp/main.go:16-54; 56-91 for the server: one endpoint, a transport for data and one for the statistics. -/
def tcpEnd : Prog := prog [0] 1 counted (.int 128) [0, 1] []

/-- The requests of the client and both answers of the server. -/
theorem c76_tcp (b : List Byte) (hne : b ≠ []) (hlen : b.length ≤ 2043) : Arrives tcpEnd tcpEnd (.bytes b) 0 0 := by
  refine arrives_of [0] [0] 1 1 counted (.int 128) (.int 128) [0, 1] [0, 1] [] [] (by decide) (by decide) (by simp) (by decide) (by decide) (by simp)
    (by unfold CapacityOk; decide) (by unfold CapacityOk; decide) 0 fit_counted (.bytes b) b 0 (.bytes b) hne ?_ (by omega) (.inr rfl) 0 (by decide) rfl
  simp [counted, on, Kind.overhead]; omega

/-- examples/speedtest/main.go:32-67, 69-98 -/
def speedEnd : Prog := prog [0] 1 [on .bytesCodec, on (.frame none)] .nil [0] []

/-- Packages of any size from 1 to 2044 (the size is an argument of the program, speedtest/main.go:106-109, 112-123). -/
theorem c76_speedtest (b : List Byte) (hne : b ≠ []) (hlen : b.length ≤ 2044) : Arrives speedEnd speedEnd (.bytes b) 0 0 := by
  refine arrives_of [0] [0] 1 1 [on .bytesCodec, on (.frame none)] .nil .nil [0] [0] [] [] (by decide) (by decide) (by simp) (by decide) (by decide) (by simp)
    (by unfold CapacityOk; decide) (by unfold CapacityOk; decide) 0 ⟨by decide, fun j _ h => absurd h (Nat.not_lt_zero j), rfl, ?_⟩
    (.bytes b) b 0 (.bytes b) hne ?_ (by omega) (.inr rfl) 0 (by decide) rfl
  · intro j h h0
    match j, h, h0 with
    | 1, _, _ => trivial
    | j + 2, h, _ => exact absurd h (by simp)
  · simp [on, Kind.overhead]; omega

/-- A codec alone, one endpoint with session 0 on each side (examples/unix, jsoncodec, gobcodec, genericcodec), in
dynamic_transport with transports coming and going. -/
def bare (codec : Kind) (tps : List Nat) (later : List Op) : Prog := prog [0] 1 [on codec] .nil tps later

theorem specEps_transports (l : List Op) (h : ∀ op ∈ l, ∃ t, op = .addTransport t ∨ op = .deleteTransport t) (s : List Nat) : l.foldl specEps s = s := by
  induction l with
  | nil => rfl
  | cons op l ih =>
    have h1 : specEps s op = s := by obtain ⟨t, rfl | rfl⟩ := h op List.mem_cons_self <;> rfl
    rw [List.foldl_cons, h1]
    exact ih fun o ho => h o (List.mem_cons_of_mem _ ho)

/-- Whatever the codec encodes and decodes in one message of at most the MTU arrives; also when the stacks have transports
added and deleted while running.  One message is one write here: without a FrameDecoder two messages sent at once may come
in one read (`c76_merged`). -/
theorem c76_codec_alone (codec : Kind) (tps tps' : List Nat) (later later' : List Op) (hl : ∀ op ∈ later, ∃ t, op = .addTransport t ∨ op = .deleteTransport t)
    (hl' : ∀ op ∈ later', ∃ t, op = .addTransport t ∨ op = .deleteTransport t)
    (hov : codec.overhead = 0) (m : Val) (b : List Byte) (hcode : CodedBy 2048 codec m b) (hne : b ≠ []) (hlen : b.length ≤ 2048) :
    Arrives (bare codec tps later) (bare codec tps' later') m 0 0 := by
  have hlater : ∀ l : List Op, (∀ op ∈ l, ∃ t, op = .addTransport t ∨ op = .deleteTransport t) → ∀ op ∈ l, Later 1 op := by
    intro l h op ho
    obtain ⟨t, rfl | rfl⟩ := h op ho <;> trivial
  refine arrives_of [0] [0] 1 1 [on codec] .nil .nil tps tps' later later' (by decide) (by decide) (hlater _ hl) (by decide) (by decide) (hlater _ hl')
    (by unfold CapacityOk; decide) (by unfold CapacityOk; decide) 0 (fit_alone codec) m b 0 ?_ hne ?_ (by omega) (.inr rfl) 0 ?_ rfl
  · simp [on, hov]; exact hcode
  · simp [on, hov]; omega
  · have h1 : (tps'.map Op.addTransport).foldl specEps [0] = [0] := specEps_transports _ (by simp) _
    simp [Prog.registered, Prog.calls, prog, setup, specEps, List.foldl_append, h1, specEps_transports _ hl', List.range, List.range.loop]

/-- examples/unix/main.go and examples/dynamic_transport/main.go: BytesCodec, the second transport added on the first
connection and deleted later. -/
theorem c76_transports (b : List Byte) (hne : b ≠ []) (hlen : b.length ≤ 2048) :
    Arrives (bare .bytesCodec [0] []) (bare .bytesCodec [0] []) (.bytes b) 0 0 ∧
    Arrives (bare .bytesCodec [0] [.addTransport 1]) (bare .bytesCodec [0] [.addTransport 1]) (.bytes b) 0 0 ∧
    Arrives (bare .bytesCodec [0] [.addTransport 1, .deleteTransport 1]) (bare .bytesCodec [0] [.addTransport 1]) (.bytes b) 0 0 := by
  refine ⟨?_, ?_, ?_⟩ <;> exact c76_codec_alone .bytesCodec _ _ _ _ (by simp) (by simp) rfl _ b (.bytes b) hne hlen

/-! ## The other examples -/

theorem path_prog {eps : List Int} {first : Nat} {chain : List Proc} {capacity : Val} {tps : List Nat} {later : List Op} (hd : eps.Nodup)
    (hf : first ≤ eps.length) (hl : ∀ op ∈ later, Later eps.length op) {w : World}
    (hw : DataPath (prog eps first chain capacity tps later).stack (prog eps first chain capacity tps later).obj (prog eps first chain capacity tps later).capacity w) :
    w.n = chain.length ∧ (∀ i (hi : i < chain.length), SameProc chain[i] (w.procs i)) ∧ Built w ∧
    w.overhead = (chain.map fun p => p.kind.overhead).sum ∧ w.mtu = 2048 ∧
    ∀ s e, findEndPoint w.served s = some e ↔ e ∈ (prog eps first chain capacity tps later).registered ∧ (eps[e]?).getD 0 = s := by
  obtain ⟨h1, h2, _, h4, h5, h6, h7⟩ := c75_data_path _ (plain_prog hd hf hl) w hw
  rw [chain_prog] at h1
  rw [room_prog] at h5
  rw [mtu_prog] at h6
  exact ⟨h1, fun i hi => by have := h2 i (by rw [chain_prog]; exact hi); simpa only [chain_prog] using this, h4, h5, h6, h7⟩

/-- examples/echo/main.go:11-50: endpoints 0 (session 1) and 1 (session 2). -/
def echoClient : Prog := prog [1, 2] 2 [on .bytesCodec, on .session] .nil [0] []
/-- examples/echo/main.go:52-61: no endpoint at all. -/
def echoServer : Prog := prog [] 0 [on .echo] .nil [0] []

/-- What endpoint 0 of the client sends to session 2 is written to the server, written back by it unchanged, and arrives at
endpoint 1 of the client. -/
theorem c76_echo (b : List Byte) (hne : b ≠ []) (hlen : b.length ≤ 2044)
    (w v : World) (hw : DataPath echoClient.stack echoClient.obj echoClient.capacity w) (hv : DataPath echoServer.stack echoServer.obj echoServer.capacity v)
    (c d : Nat) (hc : w.conns c = ⟨false, false⟩) (hd : v.conns d = ⟨false, false⟩)
    (hwr : ∀ t p, w.write t c p = ⟨p.length, none⟩) (hwr' : ∀ t p, v.write t d p = ⟨p.length, none⟩) (fuel : Nat) (hfu : 8 ≤ fuel) :
    ∃ bs w' v' w'', send fuel (some c) (.bytes b) 2 w = (.ok (), w') ∧ w'.trace = w.trace ++ [.wire c bs ⟨bs.length, none⟩] ∧
      receive fuel d bs v = (.ok (), v') ∧ v'.trace = v.trace ++ [.wire d bs ⟨bs.length, none⟩] ∧
      receive fuel c bs w' = (.ok (), w'') ∧ w''.trace = w'.trace ++ [.rx 1 (some c) (.bytes b)] := by
  have hP : echoClient.Plain := plain_prog (by decide) (by decide) (by simp)
  have hfit : Fit [on .bytesCodec, on .session] 0 := by
    refine ⟨by decide, fun j _ h => absurd h (Nat.not_lt_zero j), rfl, ?_⟩
    intro j h h0
    match j, h, h0 with
    | 1, _, _ => trivial
    | j + 2, h, _ => exact absurd h (by simp)
  have hcar : Carrier w 0 := (carries_of (P := echoClient) chain_prog mtu_prog hP hfit).carrier hw
  obtain ⟨p1, p2, p3, p4, p5, p6⟩ := path_prog (by decide) (by decide) (by simp) hw
  have hov : w.overhead = 4 := by rw [p4]; rfl
  have h0 := p2 0 (by decide)
  have h1 := p2 1 (by decide)
  have k0 : (w.procs 0).kind = .bytesCodec := by
    have := h0.2
    revert this
    cases (w.procs 0).kind <;> simp [on, Kind.Same]
  have k1 : Resolves (w.procs 1) := h1.resolves ⟨rfl, rfl⟩
  have hn : w.n = 2 := p1
  have hmsg : Message w 0 (.bytes b) b 2 := by
    refine ⟨by rw [k0]; exact .bytes b, hne, by rw [hov, p5]; omega, by decide, by decide, .inl ⟨1, by decide, by omega, k1⟩⟩
  obtain ⟨w', s1, s2⟩ := c20_on_the_wire_partial w 0 hcar (.bytes b) b 2 hmsg c (by rw [hc]) (by rw [hc]) (by rw [hwr]) (by rw [hwr]; exact Nat.le_refl _) fuel (by omega)
  have hwire : (wire w 0 2 b).length = 4 + b.length := by
    have e1 : wire w 0 2 b = wrap (seg w 1 1) 2 b := by rw [wire, hn]
    obtain ⟨q1, q2⟩ := k1
    have e2 : w.procs 1 = ⟨true, .session⟩ := by
      rcases hq : w.procs 1 with ⟨en, kd⟩
      simp only [hq] at q1 q2
      rw [q1, q2]
    rw [e1]
    simp [seg, wrap, hdr, e2, length_encBE]
  obtain ⟨q1, q2, q3, q4, q5, _⟩ := path_prog (by decide) (by decide) (by simp) hv
  have hq0 := q2 0 (by decide)
  have kq : (v.procs 0).kind = .echo := by
    have := hq0.2
    revert this
    cases (v.procs 0).kind <;> simp [on, Kind.Same]
  have hvn : v.n = 1 := q1
  obtain ⟨v', r1, r2⟩ := c28_echo_partial v 0 (by omega) (by rw [hq0.1]; rfl) kq (fun j _ _ => by omega) (fun j _ _ => by omega) 0 (wire w 0 2 b)
    (by intro h; rw [h] at hwire; simp at hwire; omega) (wire w 0 2 b) (by rw [hvn]; rfl) (by rw [hwire, q5]; omega) (by rw [hwire]; omega) d (by rw [hd]) (by rw [hd])
    (by rw [hwr']) (by rw [hwr']; exact Nat.le_refl _) fuel (by omega)
  rw [hwr'] at r2
  rw [hwr] at s2
  obtain ⟨w'', t1, t2⟩ := receive_delivers w' 0 (hcar.moved s2) (.bytes b) b 2 (hmsg.moved s2) c (by rw [s2.conns, hc]) 1
    (by rw [s2.served, p6]; exact ⟨by decide, rfl⟩) fuel (by rw [s2.n]; omega)
  rw [wire_moved s2] at t1
  exact ⟨_, w', v', w'', s1, s2.trace, r1, r2.trace, t1, t2.trace⟩

/-- examples/discard/main.go:41-50 -/
def discardServer : Prog := prog [] 0 [on .discarder] .nil [0] []

/-- Whatever the server of examples/discard reads, it neither delivers anything nor writes anything. -/
theorem c76_discard (v : World) (hv : DataPath discardServer.stack discardServer.obj discardServer.capacity v) (fuel : Nat) (d : Nat) (bs : List Byte) :
    NoDelivery v (receive fuel d bs v).2 := by
  obtain ⟨q1, q2, _⟩ := path_prog (by decide) (by decide) (by simp) hv
  have hq0 := q2 0 (by decide)
  have kq : (v.procs 0).kind = .discarder := by
    have := hq0.2
    revert this
    cases (v.procs 0).kind <;> simp [on, Kind.Same]
  exact (c30_discarder 0 v (by rw [q1]; decide) (by rw [hq0.1]; rfl) kq).2.1 fuel d bs

/-- examples/loopback/main.go:11-48: a server and a client in one stack. -/
def loopStack : Prog := prog [0] 1 [on .bytesCodec, on .loopback] .nil [0, 1] []

/-- What the endpoint sends comes back to it, and nothing is written. -/
theorem c76_loopback (b : List Byte) (hne : b ≠ []) (hlen : b.length ≤ 2048)
    (w : World) (hw : DataPath loopStack.stack loopStack.obj loopStack.capacity w) (c : Nat) (hc : (w.conns c).useRef = false) (fuel : Nat) (hfu : 8 ≤ fuel) :
    ∃ w', send fuel (some c) (.bytes b) 0 w = (.ok (), w') ∧ w'.trace = w.trace ++ [.rx 0 (some c) (.bytes b)] := by
  obtain ⟨p1, p2, p3, p4, p5, p6⟩ := path_prog (by decide) (by decide) (by simp) hw
  have hn : w.n = 2 := p1
  have hov : w.overhead = 0 := by rw [p4]; rfl
  have h0 := p2 0 (by decide)
  have h1 := p2 1 (by decide)
  have k0 : (w.procs 0).kind = .bytesCodec := by
    have := h0.2
    revert this
    cases (w.procs 0).kind <;> simp [on, Kind.Same]
  have k1 : (w.procs 1).kind = .loopback := by
    have := h1.2
    revert this
    cases (w.procs 1).kind <;> simp [on, Kind.Same]
  obtain ⟨w', s1, s2⟩ := c29_loopback_partial w p3 0 0 (by omega) k1 (fun j h => absurd h (Nat.not_lt_zero j)) (by rw [h0.1]; rfl) (fun j _ _ => by omega)
    (fun j _ _ => by omega) (.bytes b) b (by rw [k0]; exact .bytes b) hne (by rw [hov, p5]; omega) (by rw [p5]; decide) 0 (fun _ => ⟨by decide, by decide⟩)
    c hc 0 ((p6 0 0).mpr ⟨by decide, rfl⟩) fuel (by omega)
  exact ⟨w', s1, s2.trace⟩

/-- examples/reference/main.go:11-40, 42-62: no processors. -/
def refEnd : Prog := prog [0] 1 [] .nil [0] []

/-- The object itself is handed over: set on the client's connection, and delivered when the server's connection gets it. -/
theorem c76_reference (m : Val) (hm : m ≠ .nil) (w v : World) (hw : DataPath refEnd.stack refEnd.obj refEnd.capacity w)
    (hv : DataPath refEnd.stack refEnd.obj refEnd.capacity v) (c d : Nat) (hc : w.conns c = ⟨true, false⟩) (hd : (v.conns d).useRef = true)
    (fuel : Nat) (hfu : 1 ≤ fuel) :
    send fuel (some c) m 0 w = (.ok (), { w with trace := w.trace ++ [.ref c m] }) ∧
    receiveRef fuel d m v = (.ok (), { v with trace := v.trace ++ [.rx 0 (some d) m] }) := by
  obtain ⟨p1, _⟩ := path_prog (by decide) (by decide) (by simp) hw
  obtain ⟨q1, _, _, _, _, q6⟩ := path_prog (by decide) (by decide) (by simp) hv
  have hn : w.n = 0 := p1
  have hvn : v.n = 0 := q1
  exact ⟨(c34_reference_partial m hm c w (by rw [hc]) fuel (by omega)).1 (fun j h => by omega) (by rw [hc]) 0,
    (c34_reference_partial m hm d v hd fuel (by omega)).2 (fun j h => by omega) 0 ((q6 0 0).mpr ⟨by decide, rfl⟩)⟩

/-- Without a FrameDecoder (unix, dynamic_transport, jsoncodec, gobcodec, genericcodec and discard) messages depend on the cuts of
the stream: two messages that come in one read arrive as one. -/
theorem c76_merged (a b : List Byte) (ha : a ≠ []) (hlen : a.length + b.length ≤ 2048) (tps : List Nat)
    (v : World) (hv : DataPath (bare .bytesCodec tps []).stack (bare .bytesCodec tps []).obj (bare .bytesCodec tps []).capacity v)
    (d : Nat) (hd : (v.conns d).useRef = false) (fuel : Nat) (hfu : 2 < fuel) :
    ∃ v', receive fuel d (a ++ b) v = (.ok (), v') ∧ v'.trace = v.trace ++ [.rx 0 (some d) (.bytes (a ++ b))] := by
  have hP : (bare .bytesCodec tps []).Plain := plain_prog (by decide) (by decide) (by simp)
  have hcar : Carrier v 0 := (carries_of (P := bare .bytesCodec tps []) chain_prog mtu_prog hP (fit_alone _)).carrier hv
  obtain ⟨p1, p2, p3, p4, p5, p6⟩ := path_prog (by decide) (by decide) (by simp) hv
  have hn : v.n = 1 := p1
  have hov : v.overhead = 0 := by rw [p4]; rfl
  have k0 : (v.procs 0).kind = .bytesCodec := by
    have := (p2 0 (by decide)).2
    revert this
    cases (v.procs 0).kind <;> simp [on, Kind.Same]
  have hreg : 0 ∈ (bare .bytesCodec tps []).registered := by
    have h1 : (tps.map Op.addTransport).foldl specEps [0] = [0] := specEps_transports _ (by simp) _
    simp [Prog.registered, Prog.calls, bare, prog, setup, specEps, List.foldl_append, h1, List.range, List.range.loop]
  obtain ⟨v', h1, h2⟩ := receive_delivers v 0 hcar (.bytes (a ++ b)) (a ++ b) 0
    ⟨by rw [k0]; exact .bytes _, by simp [ha], by rw [hov, p5]; simp; omega, by decide, by decide, .inr rfl⟩ d hd 0
    ((p6 0 0).mpr ⟨hreg, rfl⟩) fuel (by omega)
  rw [show wire v 0 0 (a ++ b) = a ++ b by rw [wire, hn]; rfl] at h1
  exact ⟨v', h1, h2.trace⟩

/-! ## Several examples running together -/

theorem session_carries : sessionClient.Carries 0 ∧ sessionServer.Carries 0 ∧ sessionClient.Alike sessionServer :=
  ⟨carries_of chain_prog mtu_prog (plain_prog (by decide) (by decide) (by simp)) (fit_framed _),
   carries_of chain_prog mtu_prog (plain_prog (by decide) (by decide) (by simp)) (fit_framed _), alike_of chain_prog chain_prog mtu_prog mtu_prog⟩

/-- The data path of a program, with its connections and the behaviour of the sockets. -/
theorem path_with {P : Prog} {w : World} (h : DataPath P.stack P.obj P.capacity w) (conns : Nat → Stack.Conn)
    (write : List Stack.Obs → Nat → List Byte → UBuf.WriteRes) (trace : List Stack.Obs) :
    DataPath P.stack P.obj P.capacity { w with conns := conns, write := write, trace := trace } :=
  ⟨h.mtu, h.overhead, h.chain⟩

/-- Any number of clients of examples/session at one server: client `i` is joined to connection `i` of the server. -/
def star (clients : Nat) : Nat → Nat → Option (Nat × Nat) := fun i c =>
  if i < clients ∧ c = 0 then some (clients, i) else if i = clients ∧ c < clients then some (c, 0) else none

theorem star_inj (clients i c i' c' : Nat) (e : Nat × Nat) (h1 : star clients i c = some e) (h2 : star clients i' c' = some e) : i = i' ∧ c = c' := by
  unfold star at h1 h2
  split at h1 <;> rename_i a
  · injection h1 with h1
    subst h1
    split at h2 <;> rename_i a'
    · injection h2 with h2
      injection h2 with _ h2
      omega
    · split at h2
      · injection h2 with h2
        injection h2 with h2 _
        omega
      · cases h2
  · split at h1
    · injection h1 with h1
      subst h1
      split at h2 <;> rename_i a'
      · injection h2 with h2
        injection h2 with h2 _
        omega
      · split at h2
        · injection h2 with h2
          injection h2 with h2 _
          omega
        · cases h2
    · cases h1

/-- Stack `i` of the star. -/
def starProg (clients i : Nat) : Prog := if i = clients then sessionServer else sessionClient

/-- Many clients: whatever the clients and the server send on their connections in whatever order, on every connection exactly the
messages sent arrive, in order, up to those on the way. -/
theorem c76_session_clients_partial (clients : Nat) (s0 : Net) (fuel : Nat)
    (hpath : ∀ i, DataPath (starProg clients i).stack (starProg clients i).obj (starProg clients i).capacity (s0.world i))
    (hconn : ∀ i c, (s0.world i).conns c = ⟨false, false⟩) (hwr : ∀ i c t p, (s0.world i).write t c p = ⟨p.length, none⟩)
    (hquiet : ∀ i, (s0.world i).trace = []) (hempty : ∀ i c, s0.stream i c = []) (hfuel : 2052 < fuel)
    (ls : List NetLabel) (hall : NetRun fuel (star clients) (fun _ => 0) s0 ls) :
    ∃ s, Trace.exec (netStep fuel (star clients)) s0 ls = some s ∧
      ∀ i c j d, star clients i c = some (j, d) → ∃ got way, putOn i c ls = got ++ way ∧
        s.stream i c = packets (s0.world i) 0 way ∧ seenOn d (s.world j).trace = got.map (Packet.arrives d) := by
  have hcar : ∀ i, (starProg clients i).Carries 0 := fun i => by
    unfold starProg; split
    · exact session_carries.2.1
    · exact session_carries.1
  have hall' : ∀ i j, (starProg clients i).Alike (starProg clients j) := by
    intro i j
    refine alike_of (chain := framed .bytesCodec) ?_ ?_ ?_ ?_ <;> unfold starProg <;> split <;> first | exact chain_prog | exact mtu_prog
  refine c75_network_partial (starProg clients) (star clients) (fun _ => 0) s0 fuel hpath (fun i c j d _ => ⟨hcar i, hcar j, rfl, hall' i j⟩)
    (fun i c i' c' e => star_inj clients i c i' c' e) (fun i c j d _ => ⟨hconn i c, hconn j d⟩) (fun i c e _ t p => hwr i c t p) hquiet hempty (fun i => ?_) ls hall
  obtain ⟨h1, _, _, _, _, h6, _⟩ := c75_data_path _ (hcar i).plain _ (hpath i)
  have hn : (starProg clients i).chain.length = 3 := by
    unfold starProg; split <;> exact congrArg List.length chain_prog
  have hm : (starProg clients i).mtu = 2048 := by
    unfold starProg; split <;> exact mtu_prog
  rw [h1, h6, hn, hm]
  exact Nat.lt_of_le_of_lt (by decide) hfuel

/-- Such networks exist, and a client may send. -/
example : ∃ s0 : Net, (∀ i, DataPath (starProg 3 i).stack (starProg 3 i).obj (starProg 3 i).capacity (s0.world i)) ∧
    (∀ i c, (s0.world i).conns c = ⟨false, false⟩) ∧ (∀ i c t p, (s0.world i).write t c p = ⟨p.length, none⟩) ∧
    (∀ i, (s0.world i).trace = []) ∧ (∀ i c, s0.stream i c = []) ∧
    NetRun 2053 (star 3) (fun _ => 0) s0 [.put 1 0 (.msg ⟨.bytes [69, 80, 49], [69, 80, 49], 86, 0⟩)] := by
  have hex : ∀ i, ∃ w, DataPath (starProg 3 i).stack (starProg 3 i).obj (starProg 3 i).capacity w := by
    intro i
    unfold starProg; split
    · exact (c76_session 0 (by decide) [1] (by simp) (by simp)).2.1
    · exact (c76_session 0 (by decide) [1] (by simp) (by simp)).1
  refine ⟨⟨fun i => { (Classical.choose (hex i)) with conns := fun _ => ⟨false, false⟩, write := fun _ _ p => ⟨p.length, none⟩, trace := [] }, fun _ _ => []⟩,
    fun i => path_with (Classical.choose_spec (hex i)) _ _ _, fun _ _ => rfl, fun _ _ _ _ => rfl, fun _ => rfl, fun _ _ => rfl, ?_⟩
  intro pre l post s e _
  obtain ⟨rfl, rfl, rfl⟩ : pre = [] ∧ l = .put 1 0 (.msg ⟨.bytes [69, 80, 49], [69, 80, 49], 86, 0⟩) ∧ post = [] := by
    cases pre with
    | nil => injection e with e1 e2; exact ⟨rfl, e1.symm, e2.symm⟩
    | cons a pre => injection e with _ e; cases pre <;> cases e
  refine ⟨3, 1, rfl, ?_, ?_⟩
  · refine Prog.Sends.message (P := starProg 3 1) ?_ session_carries.1.plain (path_with (Classical.choose_spec (hex 1)) _ _ _)
    have hc : (starProg 3 1).chain = framed .bytesCodec := chain_prog
    have hm : (starProg 3 1).mtu = 2048 := mtu_prog
    have hr : (starProg 3 1).room = 8 := by rw [show starProg 3 1 = sessionClient from rfl, sessionClient, room_prog]; rfl
    refine ⟨by rw [hc]; decide, ?_, by simp, by rw [hr, hm]; decide, by decide, by decide, .inl ?_⟩
    · have : ((starProg 3 1).chain[0]'(by rw [hc]; decide)).kind = .bytesCodec := by simp only [hc]; rfl
      rw [this]; exact .bytes _
    · simpa only [hc] using resolves_framed .bytesCodec
  · have h3 := (c75_data_path (starProg 3 3) session_carries.2.1.plain _ (path_with (Classical.choose_spec (hex 3)) (fun _ => ⟨false, false⟩) (fun _ _ p => ⟨p.length, none⟩) [])).2.2.2.2.2.2
    exact (h3 86 0).mpr ⟨by decide, rfl⟩

/-- The programs of examples/echo, discard, loopback and reference get through `Run`. -/
example : (∃ w, DataPath echoClient.stack echoClient.obj echoClient.capacity w) ∧ (∃ w, DataPath echoServer.stack echoServer.obj echoServer.capacity w) ∧
    (∃ w, DataPath discardServer.stack discardServer.obj discardServer.capacity w) ∧ (∃ w, DataPath loopStack.stack loopStack.obj loopStack.capacity w) ∧
    (∃ w, DataPath refEnd.stack refEnd.obj refEnd.capacity w) := by
  have key : ∀ (eps : List Int) first chain tps, eps.Nodup → first ≤ eps.length →
      ∃ w, DataPath (prog eps first chain .nil tps []).stack (prog eps first chain .nil tps []).obj (prog eps first chain .nil tps []).capacity w := by
    intro eps first chain tps h1 h2
    exact (c75_runs_iff _ (plain_prog h1 h2 (by simp))).mpr fun p _ _ => by rw [mtu_prog]; show 0 < (optionParseInt .nil 4096).1; decide
  exact ⟨key _ _ _ _ (by decide) (by decide), key _ _ _ _ (by decide) (by decide), key _ _ _ _ (by decide) (by decide), key _ _ _ _ (by decide) (by decide),
    key _ _ _ _ (by decide) (by decide)⟩

/-! ## examples/statcounter and examples/tcp together -/

/-- examples/statcounter/main.go:14-29: no endpoint, no codec. -/
def statClient : Prog := prog [] 0 [on (.stat 0 0), on (.frame none)] .nil [0, 1] []

/-- A processor of a running program that is not a FrameDecoder is the object that was appended. -/
theorem proc_prog {eps : List Int} {first : Nat} {chain : List Proc} {capacity : Val} {tps : List Nat} {later : List Op} (hd : eps.Nodup)
    (hf : first ≤ eps.length) (hl : ∀ op ∈ later, Later eps.length op) {w : World}
    (hw : DataPath (prog eps first chain capacity tps later).stack (prog eps first chain capacity tps later).obj (prog eps first chain capacity tps later).capacity w)
    (i : Nat) (hi : i < chain.length) (hn : ∀ c, chain[i].kind ≠ .frame c) : w.procs i = chain[i] := by
  have hP := plain_prog (first := first) (chain := chain) (capacity := capacity) (tps := tps) hd hf hl
  obtain ⟨_, _, d, ps, h1, h2, _, h4, _⟩ := hw
  obtain ⟨d', hd', hlinks, _, _⟩ := c46_wiring (prog eps first chain capacity tps later).session
    (fun p => ((prog eps first chain capacity tps later).obj p).kind.overhead) (prog eps first chain capacity tps later).spare
    (prog eps first chain capacity tps later).before (prog eps first chain capacity tps later).after hP.once.2 hP.distinct
  have hdd : d = d' := Option.some.inj (h1.symm.trans hd')
  subst hdd
  have hps : ps = appended (prog eps first chain capacity tps later).before := h2.unique (below_of_links _ _ hlinks)
  subst hps
  have hlen : (appended (prog eps first chain capacity tps later).before).length = chain.length := by
    have := congrArg List.length (chain_prog (eps := eps) (first := first) (chain := chain) (capacity := capacity) (tps := tps) (later := later))
    simpa [Prog.chain] using this
  have h5 := h4 i (by rw [hlen]; exact hi)
  have h6 : (prog eps first chain capacity tps later).obj ((appended (prog eps first chain capacity tps later).before)[i]'(by rw [hlen]; exact hi)) = chain[i] := by
    have := congrArg (fun l => l[i]?) (chain_prog (eps := eps) (first := first) (chain := chain) (capacity := capacity) (tps := tps) (later := later))
    simp only [Prog.chain, List.getElem?_map] at this
    rw [List.getElem?_eq_getElem (by rw [hlen]; exact hi), List.getElem?_eq_getElem hi] at this
    simpa using this
  rw [h6] at h5
  have hrun : ∀ (p q : Proc) (mtu : Int) (cap : Val), (∀ c, p.kind ≠ .frame c) → runProc mtu cap p = .ok q → q = p := by
    intro p q mtu cap hn h
    unfold runProc at h
    split at h
    · rename_i c hc; exact absurd hc (hn c)
    · injection h with h; exact h.symm
  exact hrun _ _ _ _ hn h5

/-- The collector of examples/statcounter, asking a stack of examples/tcp at any time (`v'` is what has become of that stack, its
StatCounter having counted `tx` and `rx`), gets and prints these counters and the name; the stack asked does not notice. -/
theorem c77_statcounter (w v v' : World) (hw : DataPath statClient.stack statClient.obj statClient.capacity w)
    (hv : DataPath tcpEnd.stack tcpEnd.obj tcpEnd.capacity v) (o : List Stack.Obs) (hm : Moved o v v') (tx rx : UInt64)
    (hcount : v'.procs 1 = ⟨true, .stat tx rx⟩)
    (c d : Nat) (hc : w.conns c = ⟨false, false⟩) (hd : v'.conns d = ⟨false, false⟩)
    (hwr : ∀ t p, w.write t c p = ⟨p.length, none⟩) (hwr' : ∀ t p, v'.write t d p = ⟨p.length, none⟩) (fuel : Nat) (hfu : 10 ≤ fuel) :
    ∃ req ans w1 v1 w2, sendControl fuel 0 c 0x10 w = (.ok (), w1) ∧ w1.trace = w.trace ++ [.wire c req ⟨req.length, none⟩] ∧
      receive fuel d req v' = (.ok (), v1) ∧ v1.trace = v'.trace ++ [.wire d ans ⟨ans.length, none⟩] ∧ v1.procs 1 = v'.procs 1 ∧
      receive fuel c ans w1 = (.ok (), w2) ∧ w2.trace = w1.trace ++ [.shown tx.toNat rx.toNat (printed v'.name)] := by
  obtain ⟨p1, p2, p3, p4, p5, _⟩ := path_prog (by decide) (by decide) (by simp) hw
  obtain ⟨q1, q2, q3, q4, q5, _⟩ := path_prog (by decide) (by decide) (by simp) hv
  have pn : w.n = 2 := p1
  have qn : v.n = 3 := q1
  have pov : w.overhead = 5 := by rw [p4]; rfl
  have qov : v.overhead = 5 := by rw [q4]; rfl
  have pf : SameProc (on (.frame none)) (w.procs 1) := p2 1 (by decide)
  have qf : SameProc (on (.frame none)) (v.procs 2) := q2 2 (by decide)
  have hr : Reports w 0 0 0 := by
    refine ⟨by omega, proc_prog (by decide) (by decide) (by simp) hw 0 (by decide) (by intro c; simp [on]), fun j h1 h2 => ?_, fun j h1 h2 h3 => ?_, p3, by rw [p5]; decide⟩
    · have : j = 1 := by omega
      subst this
      exact pf.opens trivial
    · exact (c75_data_path _ (plain_prog (by decide) (by decide) (by simp)) w hw).2.2.1 j (by rw [chain_prog]; simp; omega) h3
  have hr' : Reports v' 1 tx rx := by
    refine ⟨by rw [hm.n]; omega, hcount, fun j h1 h2 => ?_, fun j h1 h2 h3 => ?_, ?_, by rw [hm.mtu, q5]; decide⟩
    · have : j = 2 := by rw [hm.n] at h2; omega
      subst this
      exact (hm.same 2).opens (qf.opens trivial)
    · refine hm.idle j ((c75_data_path _ (plain_prog (by decide) (by decide) (by simp)) v hv).2.2.1 j ?_ ((hm.same j).frames h3))
      rw [chain_prog]; rw [hm.n] at h2; simp [counted]; omega
    · rw [Built, hm.overhead, hm.n, room_same hm.same]; exact q3
  obtain ⟨req, ans, w1, v1, w2, h1, h2, h3, h4, h5, h6, _, h8⟩ := c77_report_partial w v' 0 1 0 0 tx rx hr hr'
    ⟨by rw [hm.n, pn, qn], fun x hx => by
      have : x = 0 := by omega
      subst this
      exact (sameProc_symm pf).trans (qf.trans (hm.same 2))⟩
    (by rw [hm.mtu, p5, q5]; exact Int.le_refl _) (by rw [pov, p5]; decide) (by rw [hm.overhead, hm.mtu, qov, q5]; omega)
    c d hc hd hwr hwr' fuel (by rw [hm.n]; omega) (by omega)
  exact ⟨req, ans, w1, v1, w2, h1, h2.trace, h3, h4.trace, h8, h5, h6.trace⟩

/-- Both programs get through `Run`, and the counters start at 0. -/
example : (∃ w, DataPath statClient.stack statClient.obj statClient.capacity w) ∧
    ∃ v, DataPath tcpEnd.stack tcpEnd.obj tcpEnd.capacity v ∧ Moved [] v v ∧ v.procs 1 = ⟨true, .stat 0 0⟩ := by
  refine ⟨(c75_runs_iff _ (plain_prog (by decide) (by decide) (by simp))).mpr fun p _ _ => by rw [mtu_prog]; show 0 < (optionParseInt .nil 4096).1; decide, ?_⟩
  obtain ⟨v, hv⟩ := (c76_tcp [1] (by simp) (by simp)).1
  exact ⟨v, hv, .refl v, proc_prog (by decide) (by decide) (by simp) hv 1 (by decide) (by intro c; simp [counted, on])⟩

end Verif.Examples
