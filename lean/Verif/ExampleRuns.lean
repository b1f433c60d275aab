import Verif.Examples

/-!
# Whole runs of the example programs (C76)

`Examples` follows one message through each example.  Here: any number of clients of an example at one server, all
sending, answering and reading in any order.
-/

namespace Verif.Examples
open Stack Reg Program

/-- Two example programs with the same processors (`Fit`: one codec, at position `k`, below it only processors that open
their own header), endpoints with different sessions on each side. -/
structure TwoSided (client server : Prog) (k : Nat) : Prop where
  both : ∃ chain, Fit chain k ∧ client.chain = chain ∧ server.chain = chain
  mtu : client.mtu = 2048 ∧ server.mtu = 2048
  plain : client.Plain ∧ server.Plain

theorem two_sided {eps eps' : List Int} {first first' : Nat} {chain : List Proc} {cap cap' : Val} {tps tps' : List Nat} {later later' : List Op}
    (hd : eps.Nodup) (hf : first ≤ eps.length) (hl : ∀ op ∈ later, Later eps.length op)
    (hd' : eps'.Nodup) (hf' : first' ≤ eps'.length) (hl' : ∀ op ∈ later', Later eps'.length op) {k : Nat} (hk : Fit chain k) :
    TwoSided (prog eps first chain cap tps later) (prog eps' first' chain cap' tps' later') k :=
  ⟨⟨chain, hk, chain_prog, chain_prog⟩, ⟨mtu_prog, mtu_prog⟩, plain_prog hd hf hl, plain_prog hd' hf' hl'⟩

/-- The stacks of the star: `clients` clients, and the server as number `clients`. -/
def starOf (client server : Prog) (clients i : Nat) : Prog := if i = clients then server else client

/-- Any number of clients: whatever they and the server send on their connections in whatever order, on every connection exactly the
messages sent arrive, in order, up to those on the way; no call panics.  Missing: reads that cut packets (`NetRun`). -/
theorem c76_clients_partial {client server : Prog} {k : Nat} (h : TwoSided client server k) (clients : Nat) (s0 : Net) (fuel : Nat)
    (hpath : ∀ i, DataPath (starOf client server clients i).stack (starOf client server clients i).obj (starOf client server clients i).capacity (s0.world i))
    (hconn : ∀ i c, (s0.world i).conns c = ⟨false, false⟩) (hwr : ∀ i c t p, (s0.world i).write t c p = ⟨p.length, none⟩)
    (hquiet : ∀ i, (s0.world i).trace = []) (hempty : ∀ i c, s0.stream i c = []) (hfuel : client.chain.length + 2049 < fuel)
    (ls : List NetLabel) (hall : NetRun fuel (star clients) (fun _ => k) s0 ls) :
    ∃ s, Trace.exec (netStep fuel (star clients)) s0 ls = some s ∧
      ∀ i c j d, star clients i c = some (j, d) → ∃ got way, putOn i c ls = got ++ way ∧
        s.stream i c = packets (s0.world i) k way ∧ seenOn d (s.world j).trace = got.map (Packet.arrives d) := by
  obtain ⟨⟨chain, hk, hc, hs⟩, ⟨mc, ms⟩, pc, ps⟩ := h
  have hchain : ∀ i, (starOf client server clients i).chain = chain := fun i => by unfold starOf; split <;> assumption
  have hmtu : ∀ i, (starOf client server clients i).mtu = 2048 := fun i => by unfold starOf; split <;> assumption
  have hplain : ∀ i, (starOf client server clients i).Plain := fun i => by unfold starOf; split <;> assumption
  refine c75_network_partial (starOf client server clients) (star clients) (fun _ => k) s0 fuel hpath
    (fun i c j d _ => ⟨carries_of (hchain i) (hmtu i) (hplain i) hk, carries_of (hchain j) (hmtu j) (hplain j) hk, rfl,
      alike_of (hchain i) (hchain j) (hmtu i) (hmtu j)⟩)
    (fun i c i' c' e => star_inj clients i c i' c' e) (fun i c j d _ => ⟨hconn i c, hconn j d⟩) (fun i c e _ t p => hwr i c t p) hquiet hempty (fun i => ?_) ls hall
  obtain ⟨h1, _, _, _, _, h6, _⟩ := c75_data_path _ (hplain i) _ (hpath i)
  rw [h1, h6, hchain i, hmtu i, ← hc]
  exact Nat.lt_of_le_of_lt (by simp) hfuel

/-- The examples with an endpoint on each side. -/
theorem two_sided_examples :
    TwoSided sessionClient sessionServer 0 ∧ TwoSided dynClient dynServer 0 ∧ TwoSided dynClientEnd dynServer 0 ∧ TwoSided micro micro 0 ∧
    TwoSided tcpEnd tcpEnd 0 ∧ TwoSided speedEnd speedEnd 0 ∧
    ∀ codec tps tps' later later', (∀ op ∈ later, ∃ t, op = .addTransport t ∨ op = .deleteTransport t) →
      (∀ op ∈ later', ∃ t, op = .addTransport t ∨ op = .deleteTransport t) → TwoSided (bare codec tps later) (bare codec tps' later') 0 := by
  have hlater : ∀ l : List Op, (∀ op ∈ l, ∃ t, op = .addTransport t ∨ op = .deleteTransport t) → ∀ op ∈ l, Later 1 op := by
    intro l h op ho
    obtain ⟨t, rfl | rfl⟩ := h op ho <;> trivial
  refine ⟨two_sided (by decide) (by decide) (by simp) (by decide) (by decide) (by simp) (fit_framed _),
    two_sided (by decide) (by decide) (by simp [Later]) (by decide) (by decide) (by simp [Later]) (fit_framed _),
    two_sided (by decide) (by decide) (by simp [Later]) (by decide) (by decide) (by simp [Later]) (fit_framed _),
    two_sided (by decide) (by decide) (by simp) (by decide) (by decide) (by simp) (fit_framed _),
    two_sided (by decide) (by decide) (by simp) (by decide) (by decide) (by simp) fit_counted,
    two_sided (by decide) (by decide) (by simp) (by decide) (by decide) (by simp) ⟨by decide, fun j _ h => absurd h (Nat.not_lt_zero j), rfl, ?_⟩,
    fun codec tps tps' later later' h h' => two_sided (by decide) (by decide) (hlater _ h) (by decide) (by decide) (hlater _ h') (fit_alone codec)⟩
  intro j h h0
  match j, h, h0 with
  | 1, _, _ => trivial
  | j + 2, h, _ => exact absurd h (by simp)

/-- Such networks exist if both programs get through `Run`. -/
theorem star_exists {client server : Prog} (hc : ∃ w, DataPath client.stack client.obj client.capacity w)
    (hs : ∃ w, DataPath server.stack server.obj server.capacity w) (clients : Nat) :
    ∃ s0 : Net, (∀ i, DataPath (starOf client server clients i).stack (starOf client server clients i).obj (starOf client server clients i).capacity (s0.world i)) ∧
      (∀ i c, (s0.world i).conns c = ⟨false, false⟩) ∧ (∀ i c t p, (s0.world i).write t c p = ⟨p.length, none⟩) ∧
      (∀ i, (s0.world i).trace = []) ∧ (∀ i c, s0.stream i c = []) := by
  have hex : ∀ i, ∃ w, DataPath (starOf client server clients i).stack (starOf client server clients i).obj (starOf client server clients i).capacity w := by
    intro i
    unfold starOf; split <;> assumption
  exact ⟨⟨fun i => { (Classical.choose (hex i)) with conns := fun _ => ⟨false, false⟩, write := fun _ _ p => ⟨p.length, none⟩, trace := [] }, fun _ _ => []⟩,
    fun i => path_with (Classical.choose_spec (hex i)) _ _ _, fun _ _ => rfl, fun _ _ _ _ => rfl, fun _ => rfl, fun _ _ => rfl⟩

/-- Five clients of examples/tcp; the second and then the fourth send. -/
example : ∃ s0 s : Net, Trace.exec (netStep 2053 (star 5)) s0 [.put 1 0 (.msg ⟨.bytes [1, 2], [1, 2], 0, 0⟩), .put 3 0 (.msg ⟨.bytes [3], [3], 0, 0⟩)] = some s ∧
    ∀ i c j d, star 5 i c = some (j, d) → ∃ got way,
      putOn i c [.put 1 0 (.msg ⟨.bytes [1, 2], [1, 2], 0, 0⟩), .put 3 0 (.msg ⟨.bytes [3], [3], 0, 0⟩)] = got ++ way ∧
      s.stream i c = packets (s0.world i) 0 way ∧ seenOn d (s.world j).trace = got.map (Packet.arrives d) := by
  have hw := (c76_tcp [1] (by simp) (by simp)).1
  obtain ⟨s0, h1, h2, h3, h4, h5⟩ := star_exists hw hw 5
  have htwo := two_sided_examples.2.2.2.2.1
  obtain ⟨s, a1, a2⟩ := c76_clients_partial htwo 5 s0 2053 h1 h2 h3 h4 h5
    (by rw [show tcpEnd.chain = counted from chain_prog]; decide)
    [.put 1 0 (.msg ⟨.bytes [1, 2], [1, 2], 0, 0⟩), .put 3 0 (.msg ⟨.bytes [3], [3], 0, 0⟩)] (by
      have hst : ∀ i, starOf tcpEnd tcpEnd 5 i = tcpEnd := fun i => by unfold starOf; split <;> rfl
      have hput : ∀ i, i < 5 → ∀ b : List Byte, b ≠ [] → b.length ≤ 2 → ∃ j d, star 5 i 0 = some (j, d) ∧
          (Packet.msg ⟨.bytes b, b, 0, 0⟩).Ok (s0.world i) (s0.world j) 0 := by
        intro i hi b hne hlen
        refine ⟨5, i, by simp [star, hi], ?_, ?_⟩
        · have hp := h1 i
          rw [hst] at hp
          have hc : tcpEnd.chain = counted := chain_prog
          have hm : tcpEnd.mtu = 2048 := mtu_prog
          have hr : tcpEnd.room = 5 := by rw [tcpEnd, room_prog]; rfl
          refine Prog.Sends.message (P := tcpEnd) ⟨by rw [hc]; decide, ?_, hne, by rw [hr, hm]; omega, by decide, by decide, .inr rfl⟩ htwo.plain.1 hp
          have : (tcpEnd.chain[0]'(by rw [hc]; decide)).kind = .bytesCodec := by simp only [hc]; rfl
          rw [this]; exact .bytes _
        · have hp := h1 5
          rw [hst] at hp
          exact ((c75_data_path tcpEnd htwo.plain.1 _ hp).2.2.2.2.2.2 0 0).mpr ⟨by decide, rfl⟩
      intro pre l post s e _
      have hl : l ∈ [NetLabel.put 1 0 (.msg ⟨.bytes [1, 2], [1, 2], 0, 0⟩), .put 3 0 (.msg ⟨.bytes [3], [3], 0, 0⟩)] := by rw [e]; simp
      simp only [List.mem_cons, List.not_mem_nil, or_false] at hl
      rcases hl with rfl | rfl
      · exact hput 1 (by decide) [1, 2] (by simp) (by simp)
      · exact hput 3 (by decide) [3] (by simp) (by simp))
  exact ⟨s0, s, a1, a2⟩

end Verif.Examples
