import Verif.Reg.Build

/-!
# Running again (C59), exactly
-/

namespace Verif.Reg
open Stack (Val optionParseInt)

/-- Decks not made yet serve nothing, whatever was called before. -/
structure U.Unmade (u : U) : Prop where
  fresh : ∀ d, u.nextDeck ≤ d → u.served d = []
  cur : ∀ d, u.decks = some d → d < u.nextDeck

theorem unmade_congr {u v : U} (h : u.Unmade) (h1 : v.served = u.served) (h3 : v.decks = u.decks) (h4 : v.nextDeck = u.nextDeck) : v.Unmade :=
  ⟨fun d hd => by rw [h1]; exact h.fresh d (h4 ▸ hd), fun d hd => by rw [h4]; exact h.cur d (h3 ▸ hd)⟩

theorem unmade_publish {u : U} (h : u.Unmade) (ev : Event) : (u.publish ev).Unmade := by
  obtain ⟨l, hp, _⟩ := publish_eq u ev
  rw [hp]
  refine ⟨fun d hd => ?_, h.cur⟩
  simp only [servedAfter]
  simp only at hd
  rw [if_neg (fun he => by have := h.cur d he; omega)]
  exact h.fresh d hd

theorem unmade_step {u : U} (h : u.Unmade) (op : Op) : (u.step op).Unmade := by
  cases op with
  | addEndPoint e =>
    simp only [U.step, U.addEndPoint]
    split
    · exact h
    · exact unmade_congr (unmade_publish h _) rfl rfl rfl
  | deleteEndPoint e =>
    simp only [U.step, U.deleteEndPoint]
    split
    · exact h
    · exact unmade_congr (unmade_publish h _) rfl rfl rfl
  | addTransport e =>
    simp only [U.step, U.addTransport]
    split
    · exact h
    · exact unmade_congr (unmade_publish h _) rfl rfl rfl
  | deleteTransport e =>
    simp only [U.step, U.deleteTransport]
    split
    · exact h
    · apply unmade_publish; exact unmade_congr h rfl rfl rfl
  | publish t c => exact unmade_publish h _
  | run =>
    obtain ⟨l, hp, _⟩ := run_eq u
    simp only [U.step]
    rw [hp]
    refine ⟨fun d hd => ?_, fun d hd => ?_⟩
    · simp only at hd ⊢
      rw [if_neg (by omega)]
      exact h.fresh d (by omega)
    · simp only [Option.some.injEq] at hd ⊢; omega
  | _ => exact unmade_congr h rfl rfl rfl

theorem unmade_steps (ops : List Op) (u : U) (h : u.Unmade) : (u.steps ops).Unmade := by
  induction ops generalizing u with
  | nil => exact h
  | cons op ops ih => exact ih _ (unmade_step h op)

theorem unmade_new (session : EpId → Int) (cost : ProcId → Int) (spare : Nat → Nat) : (U.new session cost spare).Unmade :=
  ⟨fun _ _ => rfl, fun d hd => by simp [U.new] at hd⟩

/-- `acceptEndpoint` only starts goroutines. -/
theorem alive_accepts (d : DeckId) (es : List EpId) (v : U) :
    ∃ new, alive (es.foldl (fun u e => u.acceptEndpoint d e) v).log = alive v.log ++ new := by
  induction es generalizing v with
  | nil => exact ⟨[], by simp⟩
  | cons e es ih =>
    obtain ⟨new, h⟩ := ih (v.acceptEndpoint d e)
    rw [List.foldl_cons, h]
    simp only [U.acceptEndpoint]
    split
    · exact ⟨new, rfl⟩
    · refine ⟨⟨d, e, v.session e⟩ :: new, ?_⟩
      simp only [U.emit]
      rw [alive_append]
      simp [aliveStep]

/-- The goroutines `Run` starts: none without endpoints, otherwise at least one for the first endpoint. -/
theorem alive_run {u : U} (h : u.Unmade) : ∃ new, alive u.run.log = alive u.log ++ new ∧
    new.head? = u.eps.head?.map fun e => ⟨u.nextDeck, e, u.session e⟩ := by
  have hv : ∀ v : U, v = u.build.emit ((List.range u.build.features).map .runFeature) →
      alive v.log = alive u.log ∧ v.eps = u.eps ∧ v.served = u.served ∧ v.session = u.session ∧ v.nextDeck = u.nextDeck + 1 := by
    intro v hv
    subst hv
    rw [build_eq]
    refine ⟨?_, rfl, rfl, rfl, rfl⟩
    simp only [U.emit]
    rw [alive_inert _ _ (by intro o ho; obtain ⟨_, _, rfl⟩ := List.mem_map.mp ho; rfl)]
  generalize hw : u.build.emit ((List.range u.build.features).map .runFeature) = v
  obtain ⟨h1, h2, h3, h4, h5⟩ := hv v hw.symm
  have hd : u.build.nextDeck - 1 = u.nextDeck := by rw [build_eq]; simp
  have hrun : alive u.run.log = alive (u.eps.foldl (fun x e => x.acceptEndpoint u.nextDeck e) v).log := by
    simp only [U.run, acceptTransports_eq, hw, hd, h2]
    simp only [U.emit]
    rw [alive_inert _ _ (by intro o ho; obtain ⟨_, _, rfl⟩ := List.mem_map.mp ho; rfl),
      alive_inert _ _ (by intro o ho; obtain ⟨_, _, rfl⟩ := List.mem_map.mp ho; rfl)]
  rw [hrun]
  cases he : u.eps with
  | nil => exact ⟨[], by simp [h1], by simp⟩
  | cons e es =>
    have ha : alive (v.acceptEndpoint u.nextDeck e).log = alive u.log ++ [⟨u.nextDeck, e, u.session e⟩] := by
      simp only [U.acceptEndpoint, U.existsEndpoint, h3, h.fresh _ (Nat.le_refl _), List.any_nil, Bool.false_eq_true, if_false, U.emit]
      rw [alive_append, h1, h4]
      rfl
    obtain ⟨new, hn⟩ := alive_accepts u.nextDeck es (v.acceptEndpoint u.nextDeck e)
    refine ⟨⟨u.nextDeck, e, u.session e⟩ :: new, by rw [List.foldl_cons, hn, ha]; simp, rfl⟩

/-- **C59, exactly**, after any history of calls with a `Run`: the next `Run` leaves overhead, MTU and the service goroutines as they
are if and only if the processors' overheads sum up to zero, the option still stands for the MTU of the last `Run`, and no endpoint is
registered. -/
theorem c59_exact (session : EpId → Int) (cost : ProcId → Int) (spare : Nat → Nat) (before after : List Op) (ha : runs after = 0) :
    let u := (U.new session cost spare).steps (before ++ .run :: after)
    (u.run.overhead = u.overhead ∧ u.run.mtu = u.mtu ∧ alive u.run.log = alive u.log) ↔
    ((appended (before ++ after)).map cost).sum = 0 ∧
      mtuOf (optionAfter "MTU" (before ++ after)) = mtuOf (optionAfter "MTU" before) ∧ u.eps = [] := by
  intro u
  have hopt : u.options "MTU" = optionAfter "MTU" (before ++ after) := by
    show ((U.new session cost spare).steps (before ++ .run :: after)).options "MTU" = _
    rw [options_steps, List.foldl_append, optionAfter, List.foldl_append]
    rfl
  have hpr : u.procs = appended (before ++ after) ∧ u.cost = cost := by
    have := procs_steps (before ++ .run :: after) (U.new session cost spare)
    refine ⟨this.1.trans ?_, this.2⟩
    simp [appended, U.new]
  have hmtu : u.mtu = mtuOf (optionAfter "MTU" before) := c45_mtu session cost spare before after ha
  rw [(run_fields u).1, (run_fields u).2.1, hopt, hmtu, hpr.1, hpr.2]
  obtain ⟨new, h1, h2⟩ := alive_run (u := u) (unmade_steps _ _ (unmade_new session cost spare))
  have hserv : alive u.run.log = alive u.log ↔ u.eps = [] := by
    rw [h1]
    rw [List.append_right_eq_self, ← List.head?_eq_none_iff, h2, Option.map_eq_none_iff, List.head?_eq_none_iff]
  rw [hserv]
  constructor
  · rintro ⟨a, b, c⟩; exact ⟨by omega, b, c⟩
  · rintro ⟨a, b, c⟩; exact ⟨by omega, b, c⟩

/-- No endpoint left and a processor without overhead: `Run` may be called again. -/
example : let u := (U.new (fun _ => 5) (fun _ => 0) (fun _ => 0)).steps ([.appendProc 1, .addEndPoint 7] ++ .run :: [.deleteEndPoint 7])
    u.run.overhead = u.overhead ∧ u.run.mtu = u.mtu ∧ alive u.run.log = alive u.log :=
  (c59_exact (fun _ => 5) (fun _ => 0) (fun _ => 0) [.appendProc 1, .addEndPoint 7] [.deleteEndPoint 7] rfl).2 ⟨rfl, rfl, rfl⟩

/-- With the endpoint it may not. -/
example : let u := (U.new (fun _ => 5) (fun _ => 0) (fun _ => 0)).steps ([.appendProc 1, .addEndPoint 7] ++ .run :: [])
    ¬ (u.run.overhead = u.overhead ∧ u.run.mtu = u.mtu ∧ alive u.run.log = alive u.log) :=
  fun h => absurd ((c59_exact (fun _ => 5) (fun _ => 0) (fun _ => 0) [.appendProc 1, .addEndPoint 7] [] rfl).1 h).2.2 (by decide)

end Verif.Reg
