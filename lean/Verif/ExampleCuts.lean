import Verif.ExampleRuns
import Verif.Stack.Server
import Verif.Stack.NetExact

/-!
# Programs and the cuts of their streams (C75, C76)

`c75_network_partial` and `c76_clients_partial` assume that every read takes whole packets, one packet without a FrameDecoder.  For programs with one
FrameDecoder, at the bottom, or none this is exactly what it takes (`c74_exact`).
-/

namespace Verif.Program
open Stack Reg

/-- The program has the codec for byte slices or strings at `k`, and a FrameDecoder, the only one below it, at the bottom. -/
structure Prog.Framed (P : Prog) (k : Nat) : Prop where
  pos : k + 1 < P.chain.length
  codec : P.chain[k].kind = .bytesCodec ∨ P.chain[k].kind = .stringCodec
  only : ∀ j (h : j < P.chain.length), k < j → j < P.chain.length - 1 → ¬ Frames P.chain[j]
  frames : Frames P.chain[P.chain.length - 1]

/-- No StatCounter below the codec. -/
def Prog.Uncounted (P : Prog) (k : Nat) : Prop := ∀ j (h : j < P.chain.length), k < j → ∀ tx rx, P.chain[j].kind ≠ .stat tx rx

/-- The program has the codec for byte slices or strings at `k`, and no FrameDecoder below it. -/
structure Prog.Unframed (P : Prog) (k : Nat) : Prop where
  pos : k < P.chain.length
  codec : P.chain[k].kind = .bytesCodec ∨ P.chain[k].kind = .stringCodec
  unframed : ∀ j (h : j < P.chain.length), k < j → ¬ Frames P.chain[j]

theorem Prog.Carries.stand {P : Prog} {k : Nat} (hc : P.Carries k) (hpos : k < P.chain.length) (hcod : P.chain[k].kind = .bytesCodec ∨ P.chain[k].kind = .stringCodec)
    {w : World} (hw : DataPath P.stack P.obj P.capacity w) : Stand k w := by
  obtain ⟨h1, h2, _⟩ := c75_data_path P hc.plain w hw
  refine ⟨by rw [h1]; exact hpos, fun j hj => ?_, ?_, fun j h3 h4 => ?_⟩
  · exact (h2 j (by omega)).quiet (hc.quiet j (by omega) hj)
  · have e1 := (h2 k hc.pos).1
    have e2 := (h2 k hc.pos).2
    rw [hc.codecOn] at e1
    generalize w.procs k = p at e1 e2 ⊢
    obtain ⟨en, kd⟩ := p
    simp only at e1 e2
    subst e1
    rcases hcod with e | e <;> rw [e] at e2 <;> cases kd <;> simp_all [Kind.Same]
  · rw [h1] at h4
    exact (h2 j h4).opens (hc.opens j h4 h3)

theorem Prog.Framed.hall {P : Prog} {k : Nat} (h : P.Framed k) (hc : P.Carries k) {w : World} (hw : DataPath P.stack P.obj P.capacity w) : Hall k w := by
  obtain ⟨h1, h2, _⟩ := c75_data_path P hc.plain w hw
  have hpos := h.pos
  have hs := hc.stand hc.pos h.codec hw
  refine ⟨by rw [h1]; exact h.pos, hs.quiet, hs.codec, hs.opens, fun j h3 h4 hf => ?_, ?_⟩
  · rw [h1] at h4
    exact h.only j (by omega) h3 h4 ((h2 j (by omega)).frames hf)
  · simp only [h1]
    exact (h2 _ (by omega)).frames_back h.frames

theorem Prog.Unframed.bare {P : Prog} {k : Nat} (h : P.Unframed k) (hc : P.Carries k) {w : World} (hw : DataPath P.stack P.obj P.capacity w) : Stack.Unframed k w := by
  obtain ⟨h1, h2, _⟩ := c75_data_path P hc.plain w hw
  refine ⟨hc.stand h.pos h.codec hw, fun j h3 h4 hf => ?_⟩
  rw [h1] at h4
  exact h.unframed j h4 h3 ((h2 j h4).frames hf)

theorem Prog.Uncounted.statless {P : Prog} {k : Nat} (h : P.Uncounted k) (hp : P.Plain) {w : World} (hw : DataPath P.stack P.obj P.capacity w) : Statless k w := by
  obtain ⟨h1, h2, _⟩ := c75_data_path P hp w hw
  intro j h3 h4 tx rx e
  rw [h1] at h4
  have h5 := (h2 j h4).2
  rw [e] at h5
  cases hk : P.chain[j].kind <;> rw [hk] at h5 <;> simp [Kind.Same] at h5
  exact h j h4 h3 _ _ hk

/-- C75 for a network, exactly: any number of programs, joined in any way, each with one FrameDecoder, at the bottom, or none, send and read in any pieces.  If no
read is answered (always so without StatCounters) then, once nothing is on its way, everything sent has arrived, once and in order, exactly if every read took
whole packets, and by a program without FrameDecoder exactly one. -/
theorem c75_network_exact (prog : Nat → Prog) (peer : Nat → Nat → Option (Nat × Nat)) (k : Nat → Nat) (s0 : Net) (fuel : Nat)
    (hpath : ∀ i, DataPath (prog i).stack (prog i).obj (prog i).capacity (s0.world i))
    (hcar : ∀ i c j d, peer i c = some (j, d) → (prog i).Carries (k i) ∧ (prog j).Carries (k j) ∧ k j = k i ∧ (prog i).Alike (prog j))
    (hinj : ∀ i c i' c' e, peer i c = some e → peer i' c' = some e → i = i' ∧ c = c')
    (hconn : ∀ i c j d, peer i c = some (j, d) → (s0.world i).conns c = ⟨false, false⟩ ∧ (s0.world j).conns d = ⟨false, false⟩)
    (hwr : ∀ i c e, peer i c = some e → ∀ t p, (s0.world i).write t c p = ⟨p.length, none⟩)
    (hquiet : ∀ i, (s0.world i).trace = []) (hempty : ∀ i c, s0.stream i c = [])
    (hfuel : ∀ i, (s0.world i).n + (s0.world i).mtu.toNat + 1 < fuel)
    (hframed : ∀ i, (prog i).Framed (k i) ∨ (prog i).Unframed (k i)) (ls : List NetLabel) (htry : NetTry fuel peer k s0 s0 ls)
    (hu : (∀ i, (prog i).Uncounted (k i)) ∨ Unanswered fuel peer s0 ls)
    (s : Net) (hs : Trace.exec (netStep fuel peer) s0 ls = some s) (hdry : ∀ i c e, peer i c = some e → s.stream i c = []) :
    (∀ i c j d, peer i c = some (j, d) → seenOn d (s.world j).trace = (putOn i c ls).map (Packet.arrives d)) ↔ NetRun fuel peer k s0 ls := by
  have hready : NetReady fuel peer k s0 := by
    refine ⟨hquiet, hempty, hinj, ?_, ?_, ?_, hwr, hfuel⟩
    · intro i c e he
      exact (hcar i c e.1 e.2 he).1.carrier (hpath i)
    · intro i c j d he
      obtain ⟨h1, h2, h3, h4⟩ := hcar i c j d he
      exact ⟨h2.carrier (hpath j), h3, h4.matching h1.plain h2.plain (hpath i) (hpath j), by rw [(hconn i c j d he).2]⟩
    · intro i c e he
      rw [(hconn i c e.1 e.2 he).1]
      exact ⟨rfl, rfl⟩
  have hjoin : ∀ i, Joined peer i → (prog i).Carries (k i) := by
    rintro i (⟨c, e, h⟩ | ⟨i', c, d, h⟩)
    · exact (hcar i c e.1 e.2 h).1
    · exact (hcar i' c i d h).2.1
  have hn : NetSingle peer k s0 := fun i hi => (hframed i).imp (·.hall (hjoin i hi) (hpath i)) (·.bare (hjoin i hi) (hpath i))
  refine c74_exact hready hn ls htry ?_ s hs hdry
  rcases hu with hu | hu
  · exact statless_unanswered hready hn (fun i hi => (hu i).statless (hjoin i hi).plain (hpath i)) ls htry
  · exact hu

end Verif.Program

namespace Verif.Examples
open Stack Reg Program

/-- C76 for any number of clients, exactly, for the examples with the codec for byte slices or strings: however the clients and the server send and read, if no
read is answered by a StatCounter then, once nothing is on its way, everything sent has arrived, once and in order, exactly if every read took whole packets, and
in the examples without FrameDecoder exactly one. -/
theorem c76_clients_exact {client server : Prog} {k : Nat} (h : TwoSided client server k) (hframed : client.Framed k ∨ client.Unframed k) (clients : Nat) (s0 : Net) (fuel : Nat)
    (hpath : ∀ i, DataPath (starOf client server clients i).stack (starOf client server clients i).obj (starOf client server clients i).capacity (s0.world i))
    (hconn : ∀ i c, (s0.world i).conns c = ⟨false, false⟩) (hwr : ∀ i c t p, (s0.world i).write t c p = ⟨p.length, none⟩)
    (hquiet : ∀ i, (s0.world i).trace = []) (hempty : ∀ i c, s0.stream i c = []) (hfuel : client.chain.length + 2049 < fuel)
    (ls : List NetLabel) (htry : NetTry fuel (star clients) (fun _ => k) s0 s0 ls)
    (hu : client.Uncounted k ∨ Unanswered fuel (star clients) s0 ls)
    (s : Net) (hs : Trace.exec (netStep fuel (star clients)) s0 ls = some s) (hdry : ∀ i c e, star clients i c = some e → s.stream i c = []) :
    (∀ i c j d, star clients i c = some (j, d) → seenOn d (s.world j).trace = (putOn i c ls).map (Packet.arrives d)) ↔
      NetRun fuel (star clients) (fun _ => k) s0 ls := by
  obtain ⟨⟨chain, hk, hc, hs'⟩, ⟨mc, ms⟩, pc, ps⟩ := h
  have hchain : ∀ i, (starOf client server clients i).chain = chain := fun i => by unfold starOf; split <;> assumption
  have hmtu : ∀ i, (starOf client server clients i).mtu = 2048 := fun i => by unfold starOf; split <;> assumption
  have hplain : ∀ i, (starOf client server clients i).Plain := fun i => by unfold starOf; split <;> assumption
  have heq : ∀ i, (starOf client server clients i).chain = client.chain := fun i => (hchain i).trans hc.symm
  refine c75_network_exact (starOf client server clients) (star clients) (fun _ => k) s0 fuel hpath
    (fun i c j d _ => ⟨carries_of (hchain i) (hmtu i) (hplain i) hk, carries_of (hchain j) (hmtu j) (hplain j) hk, rfl,
      alike_of (hchain i) (hchain j) (hmtu i) (hmtu j)⟩)
    (fun i c i' c' e => star_inj clients i c i' c' e) (fun i c j d _ => ⟨hconn i c, hconn j d⟩) (fun i c e _ t p => hwr i c t p) hquiet hempty (fun i => ?_)
    (fun i => ?_) ls htry (hu.imp (fun hun i => ?_) id) s hs hdry
  · obtain ⟨h1, _, _, _, _, h6, _⟩ := c75_data_path _ (hplain i) _ (hpath i)
    rw [h1, h6, hchain i, hmtu i, ← hc]
    exact Nat.lt_of_le_of_lt (by simp) hfuel
  · rcases hframed with ⟨f1, f2, f3, f4⟩ | ⟨f1, f2, f3⟩
    · refine .inl ⟨by rw [heq i]; exact f1, ?_, ?_, ?_⟩
      · simp only [heq i]; exact f2
      · simp only [heq i]; exact f3
      · simp only [heq i]; exact f4
    · refine .inr ⟨by rw [heq i]; exact f1, ?_, ?_⟩
      · simp only [heq i]; exact f2
      · simp only [heq i]; exact f3
  · unfold Prog.Uncounted
    simp only [heq i]
    exact hun

/-- All examples with a FrameDecoder; only examples/tcp has a StatCounter. -/
theorem framed_examples :
    (∀ P ∈ [sessionClient, sessionServer, dynClient, dynServer, dynClientEnd, micro, speedEnd], P.Framed 0 ∧ P.Uncounted 0) ∧ tcpEnd.Framed 0 := by
  have key : ∀ (P : Prog) (chain : List Proc), P.chain = chain → (hl : 1 < chain.length) →
      (chain[0].kind = .bytesCodec ∨ chain[0].kind = .stringCodec) →
      (∀ j (h : j < chain.length), 0 < j → j < chain.length - 1 → ¬ Frames chain[j]) → Frames chain[chain.length - 1] → P.Framed 0 := by
    intro P chain e
    subst e
    exact fun a b c d => ⟨a, b, c, d⟩
  have hfr : ∀ codec, (codec = Kind.bytesCodec ∨ codec = Kind.stringCodec) → ∀ P : Prog, P.chain = framed codec → P.Framed 0 ∧ P.Uncounted 0 := by
    intro codec hcod P e
    refine ⟨key P _ e (by simp [framed]) hcod (fun j h h0 h1 hf => ?_) ⟨⟨_, rfl⟩, rfl⟩, ?_⟩
    · match j, h0, h1 with
      | 1, _, _ => obtain ⟨⟨c, hc⟩, _⟩ := hf; cases hc
      | j + 2, _, h1 => exact absurd h1 (by simp [framed])
    · unfold Prog.Uncounted
      simp only [e]
      intro j h h0 tx rx hk
      match j, h, h0, hk with
      | 1, _, _, hk => cases hk
      | 2, _, _, hk => cases hk
      | j + 3, h, _, _ => exact absurd h (by simp [framed])
  refine ⟨fun P hP => ?_, ?_⟩
  · simp only [List.mem_cons, List.not_mem_nil, or_false] at hP
    rcases hP with rfl | rfl | rfl | rfl | rfl | rfl | rfl
    · exact hfr _ (.inl rfl) _ chain_prog
    · exact hfr _ (.inl rfl) _ chain_prog
    · exact hfr _ (.inl rfl) _ chain_prog
    · exact hfr _ (.inl rfl) _ chain_prog
    · exact hfr _ (.inl rfl) _ chain_prog
    · exact hfr _ (.inr rfl) _ chain_prog
    · have e : speedEnd.chain = [on .bytesCodec, on (.frame none)] := chain_prog
      refine ⟨key _ _ e (by decide) (.inl rfl) (fun j h h0 h1 => absurd h1 (by simp; omega)) ⟨⟨_, rfl⟩, rfl⟩, ?_⟩
      unfold Prog.Uncounted
      simp only [e]
      intro j h h0 tx rx hk
      match j, h, h0, hk with
      | 1, _, _, hk => cases hk
      | j + 2, h, _, _ => exact absurd h (by simp)
  · refine key _ counted chain_prog (by decide) (.inl rfl) (fun j h h0 h1 hf => ?_) ⟨⟨_, rfl⟩, rfl⟩
    match j, h0, h1 with
    | 1, _, _ => obtain ⟨⟨c, hc⟩, _⟩ := hf; cases hc
    | j + 2, _, h1 => exact absurd h1 (by simp [counted])

/-- All examples with a codec alone that is the one for byte slices or strings (examples/unix, dynamic_transport). -/
theorem unframed_examples (codec : Kind) (hcod : codec = .bytesCodec ∨ codec = .stringCodec) (tps : List Nat) (later : List Op) :
    (bare codec tps later).Unframed 0 ∧ (bare codec tps later).Uncounted 0 := by
  have e : (bare codec tps later).chain = [on codec] := chain_prog
  refine ⟨⟨by simp [e], ?_, ?_⟩, ?_⟩
  · simp only [e]; exact hcod
  · simp only [e]
    intro j h h0
    exact absurd h (by simp; omega)
  · unfold Prog.Uncounted
    simp only [e]
    intro j h h0
    exact absurd h (by simp; omega)

/-- Any number of clients of examples/unix. -/
example (clients : Nat) (s0 : Net)
    (hpath : ∀ i, DataPath (starOf (bare .bytesCodec [1] []) (bare .bytesCodec [1] []) clients i).stack (starOf (bare .bytesCodec [1] []) (bare .bytesCodec [1] []) clients i).obj
      (starOf (bare .bytesCodec [1] []) (bare .bytesCodec [1] []) clients i).capacity (s0.world i))
    (hconn : ∀ i c, (s0.world i).conns c = ⟨false, false⟩) (hwr : ∀ i c t p, (s0.world i).write t c p = ⟨p.length, none⟩)
    (hquiet : ∀ i, (s0.world i).trace = []) (hempty : ∀ i c, s0.stream i c = [])
    (ls : List NetLabel) (htry : NetTry 2051 (star clients) (fun _ => 0) s0 s0 ls)
    (s : Net) (hs : Trace.exec (netStep 2051 (star clients)) s0 ls = some s) (hdry : ∀ i c e, star clients i c = some e → s.stream i c = []) :
    (∀ i c j d, star clients i c = some (j, d) → seenOn d (s.world j).trace = (putOn i c ls).map (Packet.arrives d)) ↔
      NetRun 2051 (star clients) (fun _ => 0) s0 ls :=
  c76_clients_exact (two_sided_examples.2.2.2.2.2.2 .bytesCodec [1] [1] [] [] (by simp) (by simp)) (.inr (unframed_examples _ (.inl rfl) [1] []).1) clients s0 2051
    hpath hconn hwr hquiet hempty (by rw [show (bare .bytesCodec [1] []).chain = [on .bytesCodec] from chain_prog]; decide) ls htry
    (.inl (unframed_examples _ (.inl rfl) [1] []).2) s hs hdry

/-- Any number of clients of examples/speedtest; `star_exists` gives such networks, and `quadGood` and `quadBad` in `Stack/NetExact` executions of both kinds. -/
example (clients : Nat) (s0 : Net)
    (hpath : ∀ i, DataPath (starOf speedEnd speedEnd clients i).stack (starOf speedEnd speedEnd clients i).obj (starOf speedEnd speedEnd clients i).capacity (s0.world i))
    (hconn : ∀ i c, (s0.world i).conns c = ⟨false, false⟩) (hwr : ∀ i c t p, (s0.world i).write t c p = ⟨p.length, none⟩)
    (hquiet : ∀ i, (s0.world i).trace = []) (hempty : ∀ i c, s0.stream i c = [])
    (ls : List NetLabel) (htry : NetTry 2052 (star clients) (fun _ => 0) s0 s0 ls)
    (s : Net) (hs : Trace.exec (netStep 2052 (star clients)) s0 ls = some s) (hdry : ∀ i c e, star clients i c = some e → s.stream i c = []) :
    (∀ i c j d, star clients i c = some (j, d) → seenOn d (s.world j).trace = (putOn i c ls).map (Packet.arrives d)) ↔
      NetRun 2052 (star clients) (fun _ => 0) s0 ls :=
  c76_clients_exact two_sided_examples.2.2.2.2.2.1 (.inl (framed_examples.1 speedEnd (by simp)).1) clients s0 2052 hpath hconn hwr hquiet hempty
    (by rw [show speedEnd.chain = [on .bytesCodec, on (.frame none)] from chain_prog]; decide) ls htry (.inl (framed_examples.1 speedEnd (by simp)).2) s hs hdry

end Verif.Examples
