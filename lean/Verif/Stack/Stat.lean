import Verif.Stack.Procs

/-!
# C26: the StatCounter
-/

namespace Verif.Stack
open GoM UBuf

/-- What happens to one StatCounter. -/
inductive StatEv where
  | enable (b : Bool)
  /-- `OnUpperData` -/
  | send (ctx : Ctx)
  /-- `OnLowerData` -/
  | recv (ctx : Ctx)

/-- One event on the StatCounter at `i`. -/
def statStep (fuel i : Nat) (nb : Nb) (w : World) : StatEv → World
  | .enable b => { w with procs := fun j => if j = i then { w.procs j with enable := b } else w.procs j }
  | .send ctx => (onUpper i (w.procs i) nb ctx w).2
  | .recv ctx => (onLower fuel i (w.procs i) nb ctx w).2

/-- An application message as the peer's StatCounter sends it: any tag but the two control tags. -/
def IsApp (ctx : Ctx) : Prop := ∃ t bs, Carries ctx (t :: bs) ∧ t ≠ 0x10 ∧ t ≠ 0x23

/-- Specification: enabled?, messages passed down, messages passed up. -/
def statSpec (st : Bool × Nat × Nat) (isApp : Ctx → Bool) : StatEv → Bool × Nat × Nat
  | .enable b => (b, st.2)
  | .send _ => (st.1, if st.1 then st.2.1 + 1 else st.2.1, st.2.2)
  | .recv ctx => (st.1, st.2.1, if st.1 ∧ isApp ctx then st.2.2 + 1 else st.2.2)

/-- The event is on a byte connection and carries a well-formed buffer (for sending with head room). -/
def EvOk (w : World) : StatEv → Prop
  | .enable _ => True
  | .send ctx => OnBytes ctx w ∧ (∃ bs, Carries ctx bs) ∧ HeadRoom ctx 1
  | .recv ctx => OnBytes ctx w ∧ ∃ bs, Carries ctx bs

/-- The neighbours do not come back to this processor and do not turn byte connections into reference
connections. -/
structure Foreign (i : Nat) (h : Handler) : Prop where
  procs : ∀ ctx w, (h ctx w).2.procs i = w.procs i
  useRef : ∀ ctx w c, ((h ctx w).2.conns c).useRef = (w.conns c).useRef

/-- The sending half: every message is handed down, and counted iff enabled. -/
theorem stat_send (fuel i : Nat) (en : Bool) (tx rx : UInt64) (ctx : Ctx) (w : World) (h : EvOk w (.send ctx)) :
    ∃ s w', (w' = if en then w.setKind i (.stat (tx + 1) rx) else w) ∧
      Down (fun nb => onUpper i ⟨en, .stat tx rx⟩ nb ctx w) { ctx with buf := some s } w' := by
  obtain ⟨⟨c, hc, hr⟩, ⟨bs, hcar⟩, hroom⟩ := h
  obtain ⟨s, d, h1, h2, h3⟩ := hcar.buf
  obtain ⟨s', h4, h5⟩ := statUpper_ok (w := w) i en tx rx hc hr h1 h2 (hroom.le h1 h2)
  exact ⟨s', _, rfl, h5⟩

/-- The receiving half while enabled: an application message is handed up and counted; anything else is
neither. -/
theorem stat_recv (fuel i : Nat) (tx rx : UInt64) (ctx : Ctx) (w : World) (h : EvOk w (.recv ctx)) :
    (IsApp ctx → ∃ s, Up (fun nb => onLower fuel i ⟨true, .stat tx rx⟩ nb ctx w) { ctx with buf := some s }
      (w.setKind i (.stat tx (rx + 1)))) ∧
    (¬ IsApp ctx → ∀ nb, Foreign i nb.downUpper →
      (∀ nb', nb'.downUpper = nb.downUpper → onLower fuel i ⟨true, .stat tx rx⟩ nb' ctx w = onLower fuel i ⟨true, .stat tx rx⟩ nb ctx w) ∧
      (onLower fuel i ⟨true, .stat tx rx⟩ nb ctx w).2.procs i = w.procs i ∧
      ∀ c, ((onLower fuel i ⟨true, .stat tx rx⟩ nb ctx w).2.conns c).useRef = (w.conns c).useRef) := by
  obtain ⟨⟨c, hc, hr⟩, ⟨bs, hcar⟩⟩ := h
  refine ⟨fun ⟨t, bs', happ, h1, h2⟩ => ?_, fun hn nb hnb => ?_⟩
  · obtain ⟨s, d, k1, k2, k3⟩ := happ.buf
    obtain ⟨s', _, k5⟩ := statLower_pass (w := w) i true tx rx hc hr k1 k2 k3 (fun _ => ⟨h1, h2⟩)
    exact ⟨s', k5⟩
  · obtain ⟨s, d, k1, k2, k3⟩ := hcar.buf
    have hrun : ∀ nb : Nb, onLower fuel i ⟨true, .stat tx rx⟩ nb ctx w =
        (onBuf s UBuf.readByte >>= fun r =>
          if r.1.2.isSome then Pure.pure { ctx with buf := some r.2 }
          else if r.1.1 = 0x10 then statResponse tx rx nb { ctx with buf := some r.2 }
          else if r.1.1 = 0x23 then statShow { ctx with buf := some r.2 }
          else (do setKind i (.stat tx (rx + 1)); nb.upLower { ctx with buf := some r.2 })) w := by
      intro nb
      simp only [onLower, statLower]
      rw [bind_of_ok (by rw [hc, useReference_some, hr])]
      simp only [Bool.false_eq_true, if_false, k1, if_true]
    cases bs with
    | nil =>
      obtain ⟨s', m1, _⟩ := k2.readByte_nil k3
      have e : ∀ nb : Nb, onLower fuel i ⟨true, .stat tx rx⟩ nb ctx w = (.ok { ctx with buf := some s' }, w) := by
        intro nb; rw [hrun, bind_onBuf m1]; rfl
      exact ⟨fun nb' _ => by rw [e, e], by rw [e], fun c => by rw [e]⟩
    | cons t bs =>
      obtain ⟨s', m1, _⟩ := k2.readByte_cons k3
      have ht : t = 0x10 ∨ t = 0x23 := by
        rcases Decidable.em (t = 0x10) with h | h
        · exact .inl h
        · rcases Decidable.em (t = 0x23) with h' | h'
          · exact .inr h'
          · exact absurd ⟨t, bs, hcar, h, h'⟩ hn
      rcases ht with rfl | rfl
      · have e : ∀ nb : Nb, onLower fuel i ⟨true, .stat tx rx⟩ nb ctx w = statResponse tx rx nb { ctx with buf := some s' } w := by
          intro nb; rw [hrun, bind_onBuf m1]; rfl
        have keep : Kp (fun a b => b.procs i = a.procs i ∧ ∀ c, (b.conns c).useRef = (a.conns c).useRef)
            (statResponse tx rx nb { ctx with buf := some s' }) := by
          have H : Allows (fun a b : World => b.procs i = a.procs i ∧ ∀ c, (b.conns c).useRef = (a.conns c).useRef)
              (fun j => j ≠ i) :=
            ⟨fun w => ⟨rfl, fun _ => rfl⟩, fun h1 h2 => ⟨h2.1.trans h1.1, fun c => (h2.2 c).trans (h1.2 c)⟩,
              fun w j k hj _ => ⟨by simp only [World.setKind]; rw [if_neg (Ne.symm hj)], fun _ => rfl⟩,
              fun w j c _ => ⟨rfl, fun _ => rfl⟩, fun w j t r n _ => ⟨rfl, fun _ => rfl⟩⟩
          exact Kp.statResponse H (fun ctx w => ⟨hnb.procs ctx w, hnb.useRef ctx w⟩) tx rx _
        refine ⟨fun nb' he => by rw [e, e]; simp [statResponse, he], ?_, ?_⟩
        · rw [e]; exact (keep w).1
        · intro c; rw [e]; exact (keep w).2 c
      · have e : ∀ nb : Nb, onLower fuel i ⟨true, .stat tx rx⟩ nb ctx w = statShow { ctx with buf := some s' } w := by
          intro nb; rw [hrun, bind_onBuf m1]; rfl
        have keep : Kp (fun a b => b.procs i = a.procs i ∧ ∀ c, (b.conns c).useRef = (a.conns c).useRef)
            (statShow { ctx with buf := some s' }) := by
          have H : Allows (fun a b : World => b.procs i = a.procs i ∧ ∀ c, (b.conns c).useRef = (a.conns c).useRef)
              (fun j => j ≠ i) :=
            ⟨fun w => ⟨rfl, fun _ => rfl⟩, fun h1 h2 => ⟨h2.1.trans h1.1, fun c => (h2.2 c).trans (h1.2 c)⟩,
              fun w j k hj _ => ⟨by simp only [World.setKind]; rw [if_neg (Ne.symm hj)], fun _ => rfl⟩,
              fun w j c _ => ⟨rfl, fun _ => rfl⟩, fun w j t r n _ => ⟨rfl, fun _ => rfl⟩⟩
          exact Kp.statShow (i := i + 1) H (by omega) _
        refine ⟨fun nb' he => by rw [e, e], ?_, ?_⟩
        · rw [e]; exact (keep w).1
        · intro c; rw [e]; exact (keep w).2 c

/-- Run a history. -/
def statRun (fuel i : Nat) (nb : Nb) (w : World) (evs : List StatEv) : World := evs.foldl (statStep fuel i nb) w

open Classical in
/-- One event on a byte connection. -/
theorem stat_one (fuel i : Nat) (nb : Nb) (hdn : Foreign i nb.downUpper) (hup : Foreign i nb.upLower) (e : StatEv) (w : World) (en : Bool)
    (tx rx : Nat) (hp : w.procs i = ⟨en, .stat (UInt64.ofNat tx) (UInt64.ofNat rx)⟩) (hok0 : EvOk w e) :
    ((statStep fuel i nb w e).procs i =
      let st := statSpec (en, tx, rx) (fun c => decide (IsApp c)) e
      ⟨st.1, .stat (UInt64.ofNat st.2.1) (UInt64.ofNat st.2.2)⟩) ∧
    ∀ c, ((statStep fuel i nb w e).conns c).useRef = (w.conns c).useRef := by
  have succ : ∀ n : Nat, UInt64.ofNat n + 1 = UInt64.ofNat (n + 1) := by
    intro n; exact (UInt64.ofNat_add n 1).symm
  cases e with
  | enable b => exact ⟨by simp [statStep, hp, statSpec], fun c => rfl⟩
  | send ctx =>
    obtain ⟨s, w', hw', hd⟩ := stat_send fuel i en (UInt64.ofNat tx) (UInt64.ofNat rx) ctx w hok0
    have hrun : statStep fuel i nb w (.send ctx) = (nb.downUpper { ctx with buf := some s } w').2 := by
      simp only [statStep, hp]; exact congrArg Prod.snd (hd nb)
    have hpr : (statStep fuel i nb w (.send ctx)).procs i = w'.procs i := by rw [hrun, hdn.procs]
    have hcn : ∀ c, ((statStep fuel i nb w (.send ctx)).conns c).useRef = (w.conns c).useRef := by
      intro c; rw [hrun, hdn.useRef, hw']; cases en <;> rfl
    refine ⟨?_, hcn⟩
    cases en with
    | true => rw [hpr, hw']; simp only [if_true]; rw [setKind_self, hp, succ]; simp [statSpec]
    | false => rw [hpr, hw']; simp [hp, statSpec]
  | recv ctx =>
    cases en with
    | true =>
      obtain ⟨h1, h2⟩ := stat_recv fuel i (UInt64.ofNat tx) (UInt64.ofNat rx) ctx w hok0
      by_cases happ : IsApp ctx
      · obtain ⟨s, hu⟩ := h1 happ
        have hrun : statStep fuel i nb w (.recv ctx) =
            (nb.upLower { ctx with buf := some s } (w.setKind i (.stat (UInt64.ofNat tx) (UInt64.ofNat rx + 1)))).2 := by
          simp only [statStep, hp]; exact congrArg Prod.snd (hu nb)
        refine ⟨?_, fun c => by rw [hrun, hup.useRef]; rfl⟩
        rw [hrun, hup.procs, setKind_self, hp, succ]
        simp [statSpec, happ]
      · obtain ⟨_, h4, h5⟩ := h2 happ nb hdn
        have hrun : statStep fuel i nb w (.recv ctx) =
            (onLower fuel i ⟨true, .stat (UInt64.ofNat tx) (UInt64.ofNat rx)⟩ nb ctx w).2 := by
          simp only [statStep, hp]
        refine ⟨?_, fun c => by rw [hrun, h5]⟩
        rw [hrun, h4, hp]
        simp [statSpec, happ]
    | false =>
      obtain ⟨⟨c, hc, hr⟩, ⟨bs, hcar⟩⟩ := hok0
      have : ∃ ctx', statStep fuel i nb w (.recv ctx) = (nb.upLower ctx' w).2 ∨ statStep fuel i nb w (.recv ctx) = w := by
        obtain ⟨s, d, k1, k2, k3⟩ := hcar.buf
        cases bs with
        | nil =>
          obtain ⟨s', m1, _⟩ := k2.readByte_nil k3
          refine ⟨ctx, .inr ?_⟩
          simp only [statStep, hp, onLower, statLower]
          rw [bind_of_ok (by rw [hc, useReference_some, hr])]
          simp only [Bool.false_eq_true, if_false, k1]
          rw [bind_onBuf m1]
          rfl
        | cons t bs =>
          obtain ⟨s', _, k5⟩ := statLower_pass (w := w) i false (UInt64.ofNat tx) (UInt64.ofNat rx) hc hr k1 k2 k3 (by simp)
          refine ⟨{ ctx with buf := some s' }, .inl ?_⟩
          simp only [statStep, hp, onLower, k5 nb]; rfl
      obtain ⟨ctx', h | h⟩ := this
      · exact ⟨by rw [h, hup.procs, hp]; simp [statSpec], fun c => by rw [h, hup.useRef]⟩
      · exact ⟨by rw [h, hp]; simp [statSpec], fun c => by rw [h]⟩

/-- Only the connections' mode matters. -/
theorem EvOk.conns {w w' : World} {e : StatEv} (h : EvOk w e) (hw : ∀ c, (w'.conns c).useRef = (w.conns c).useRef) : EvOk w' e := by
  cases e with
  | enable b => trivial
  | send ctx =>
    obtain ⟨⟨c, h1, h2⟩, h3⟩ := h
    exact ⟨⟨c, h1, by rw [hw]; exact h2⟩, h3⟩
  | recv ctx =>
    obtain ⟨⟨c, h1, h2⟩, h3⟩ := h
    exact ⟨⟨c, h1, by rw [hw]; exact h2⟩, h3⟩

open Classical in
/-- The counters after any history of sends, receives and enable switches on byte connections are the
numbers of messages handed down and up while enabled (`stat_send`, `stat_recv` say that "counted" and
"handed on" coincide), modulo 2^64.  Missing from the full claim: reference connections, where
messages pass uncounted (`c26_reference_not_counted`, `c26_history_iff`). -/
theorem c26_counters_partial (fuel i : Nat) (nb : Nb) (hdn : Foreign i nb.downUpper) (hup : Foreign i nb.upLower)
    (evs : List StatEv) : ∀ (w : World) (en : Bool) (tx rx : Nat),
    w.procs i = ⟨en, .stat (UInt64.ofNat tx) (UInt64.ofNat rx)⟩ →
    (∀ e ∈ evs, EvOk w e) →
    (statRun fuel i nb w evs).procs i =
      let st := evs.foldl (fun st e => statSpec st (fun c => decide (IsApp c)) e) (en, tx, rx)
      ⟨st.1, .stat (UInt64.ofNat st.2.1) (UInt64.ofNat st.2.2)⟩ := by
  induction evs with
  | nil => intro w en tx rx h _; exact h
  | cons e evs ih =>
    intro w en tx rx hp hok
    obtain ⟨h1, h2⟩ := stat_one fuel i nb hdn hup e w en tx rx hp (hok e List.mem_cons_self)
    exact ih (statStep fuel i nb w e) _ _ _ h1 fun e' he' => (hok e' (List.mem_cons_of_mem _ he')).conns h2

/-- The hypotheses are met by a history with all kinds of events. -/
example : ∀ e ∈ ([.send demoTx, .recv (demoRx [0, 1]), .recv (demoRx [0x10]), .enable false, .send demoTx] : List StatEv),
    EvOk quiet e := by
  intro e he
  have h1 : EvOk quiet (.send demoTx) :=
    ⟨⟨0, rfl, rfl⟩, ⟨_, demoTx_ok.1⟩, by obtain ⟨s, a, b⟩ := demoTx_ok.2; exact ⟨s, a, by omega⟩⟩
  simp only [List.mem_cons, List.not_mem_nil, or_false] at he
  rcases he with rfl | rfl | rfl | rfl | rfl
  · exact h1
  · exact ⟨demoRx_onBytes _, _, demoRx_carries (by decide) (by decide)⟩
  · exact ⟨demoRx_onBytes _, _, demoRx_carries (by decide) (by decide)⟩
  · trivial
  · exact h1

example : Foreign 0 probe.downUpper ∧ Foreign 0 probe.upLower :=
  ⟨⟨fun _ _ => rfl, fun _ _ _ => rfl⟩, ⟨fun _ _ => rfl, fun _ _ _ => rfl⟩⟩

/-- On a reference connection messages pass without being counted. -/
theorem c26_reference_not_counted (fuel i : Nat) (tx rx : UInt64) (ctx : Ctx) (w : World) (c : ConnId)
    (hc : ctx.conn = some c) (hr : (w.conns c).useRef = true) :
    Down (fun nb => onUpper i ⟨true, .stat tx rx⟩ nb ctx w) ctx w ∧
    Up (fun nb => onLower fuel i ⟨true, .stat tx rx⟩ nb ctx w) ctx w := by
  refine ⟨fun nb => ?_, fun nb => ?_⟩
  · simp only [onUpper, statUpper]
    rw [bind_of_ok (by rw [hc, useReference_some, hr])]; rfl
  · simp only [onLower, statLower]
    rw [bind_of_ok (by rw [hc, useReference_some, hr])]; rfl

/-! ### Histories on both kinds of connections -/

/-- The event is a message on a reference connection. -/
def EvRef (w : World) : StatEv → Prop
  | .enable _ => False
  | .send ctx => ∃ c, ctx.conn = some c ∧ (w.conns c).useRef = true
  | .recv ctx => ∃ c, ctx.conn = some c ∧ (w.conns c).useRef = true

theorem EvRef.conns {w w' : World} {e : StatEv} (h : EvRef w e) (hw : ∀ c, (w'.conns c).useRef = (w.conns c).useRef) : EvRef w' e := by
  cases e with
  | enable b => exact h.elim
  | send ctx => obtain ⟨c, h1, h2⟩ := h; exact ⟨c, h1, by rw [hw]; exact h2⟩
  | recv ctx => obtain ⟨c, h1, h2⟩ := h; exact ⟨c, h1, by rw [hw]; exact h2⟩

theorem EvRef.not_ok {w : World} {e : StatEv} (h : EvRef w e) : ¬ EvOk w e := by
  cases e with
  | enable b => exact h.elim
  | send ctx =>
    obtain ⟨c, h1, h2⟩ := h
    rintro ⟨⟨c', h3, h4⟩, _⟩
    rw [h1] at h3; injection h3 with h3; subst h3; rw [h2] at h4; cases h4
  | recv ctx =>
    obtain ⟨c, h1, h2⟩ := h
    rintro ⟨⟨c', h3, h4⟩, _⟩
    rw [h1] at h3; injection h3 with h3; subst h3; rw [h2] at h4; cases h4

/-- A message on a reference connection goes by the StatCounter. -/
theorem stat_ref (fuel i : Nat) (nb : Nb) (hdn : Foreign i nb.downUpper) (hup : Foreign i nb.upLower) (e : StatEv) (w : World) (en : Bool)
    (tx rx : UInt64) (hp : w.procs i = ⟨en, .stat tx rx⟩) (h : EvRef w e) :
    (statStep fuel i nb w e).procs i = w.procs i ∧ ∀ c, ((statStep fuel i nb w e).conns c).useRef = (w.conns c).useRef := by
  cases e with
  | enable b => exact h.elim
  | send ctx =>
    obtain ⟨c, h1, h2⟩ := h
    have : statStep fuel i nb w (.send ctx) = (nb.downUpper ctx w).2 := by
      simp only [statStep, hp, onUpper, statUpper]
      rw [bind_of_ok (by rw [h1, useReference_some, h2])]; rfl
    rw [this]
    exact ⟨hdn.procs _ _, hdn.useRef _ _⟩
  | recv ctx =>
    obtain ⟨c, h1, h2⟩ := h
    have : statStep fuel i nb w (.recv ctx) = (nb.upLower ctx w).2 := by
      simp only [statStep, hp, onLower, statLower]
      rw [bind_of_ok (by rw [h1, useReference_some, h2])]; rfl
    rw [this]
    exact ⟨hup.procs _ _, hup.useRef _ _⟩

open Classical in
/-- Specification: what a StatCounter on all connections would count; on a reference connection every object is an
application message. -/
noncomputable def statAll (w : World) (st : Bool × Nat × Nat) (e : StatEv) : Bool × Nat × Nat :=
  statSpec st (fun c => decide (IsApp c ∨ EvRef w (.recv c))) e

/-- Messages that pass on reference connections while the StatCounter is enabled. -/
def Unseen (w : World) : Bool → List StatEv → Prop
  | _, [] => False
  | _, .enable b :: evs => Unseen w b evs
  | en, e :: evs => (en = true ∧ EvRef w e) ∨ Unseen w en evs

open Classical in
theorem statAll_conns {w w' : World} (hw : ∀ c, (w'.conns c).useRef = (w.conns c).useRef) (st : Bool × Nat × Nat) (e : StatEv) :
    statAll w' st e = statAll w st e := by
  cases e with
  | enable b => rfl
  | send ctx => rfl
  | recv ctx =>
    have : EvRef w' (.recv ctx) ↔ EvRef w (.recv ctx) := ⟨fun h => h.conns fun c => (hw c).symm, fun h => h.conns hw⟩
    have h2 : decide (IsApp ctx ∨ EvRef w' (.recv ctx)) = decide (IsApp ctx ∨ EvRef w (.recv ctx)) := decide_eq_decide.2 (or_congr Iff.rfl this)
    show (st.1, st.2.1, if st.1 = true ∧ decide (IsApp ctx ∨ EvRef w' (.recv ctx)) = true then st.2.2 + 1 else st.2.2) =
      (st.1, st.2.1, if st.1 = true ∧ decide (IsApp ctx ∨ EvRef w (.recv ctx)) = true then st.2.2 + 1 else st.2.2)
    simp only [h2]

theorem unseen_conns {w w' : World} (hw : ∀ c, (w'.conns c).useRef = (w.conns c).useRef) (evs : List StatEv) :
    ∀ en, Unseen w' en evs ↔ Unseen w en evs := by
  have he : ∀ e, EvRef w' e ↔ EvRef w e := fun e => ⟨fun h => h.conns fun c => (hw c).symm, fun h => h.conns hw⟩
  induction evs with
  | nil => intro en; exact Iff.rfl
  | cons e evs ih => intro en; cases e <;> simp only [Unseen, ih, he]

theorem statAll_le (w : World) (evs : List StatEv) : ∀ en tx rx,
    tx ≤ (evs.foldl (statAll w) (en, tx, rx)).2.1 ∧ rx ≤ (evs.foldl (statAll w) (en, tx, rx)).2.2 ∧
    (evs.foldl (statAll w) (en, tx, rx)).2.1 + (evs.foldl (statAll w) (en, tx, rx)).2.2 ≤ tx + rx + evs.length := by
  induction evs with
  | nil => intro en tx rx; simp
  | cons e evs ih =>
    intro en tx rx
    simp only [List.foldl_cons, List.length_cons]
    cases e with
    | enable b => have := ih b tx rx; simp only [statAll, statSpec] at this ⊢; omega
    | send ctx =>
      simp only [statAll, statSpec]
      split
      · have := ih en (tx + 1) rx; omega
      · have := ih en tx rx; omega
    | recv ctx =>
      simp only [statAll, statSpec]
      split
      · have := ih en tx (rx + 1); omega
      · have := ih en tx rx; omega

/-- C26 for histories on connections of both kinds: the counters are at most the numbers of messages passed while
enabled, and both are right if and only if no message passed on a reference connection while the StatCounter was
enabled. -/
theorem c26_history_iff (fuel i : Nat) (nb : Nb) (hdn : Foreign i nb.downUpper) (hup : Foreign i nb.upLower)
    (evs : List StatEv) : ∀ (w : World) (en : Bool) (tx rx tx' rx' : Nat), tx ≤ tx' → rx ≤ rx' →
    w.procs i = ⟨en, .stat (UInt64.ofNat tx) (UInt64.ofNat rx)⟩ → (∀ e ∈ evs, EvOk w e ∨ EvRef w e) →
    ∃ a b, (statRun fuel i nb w evs).procs i = ⟨(evs.foldl (statAll w) (en, tx', rx')).1, .stat (UInt64.ofNat a) (UInt64.ofNat b)⟩ ∧
      a ≤ (evs.foldl (statAll w) (en, tx', rx')).2.1 ∧ b ≤ (evs.foldl (statAll w) (en, tx', rx')).2.2 ∧
      ((a = (evs.foldl (statAll w) (en, tx', rx')).2.1 ∧ b = (evs.foldl (statAll w) (en, tx', rx')).2.2) ↔
        tx = tx' ∧ rx = rx' ∧ ¬ Unseen w en evs) := by
  classical
  induction evs with
  | nil => intro w en tx rx tx' rx' h1 h2 hp _; exact ⟨tx, rx, hp, h1, h2, by simp [Unseen]⟩
  | cons e evs ih =>
    intro w en tx rx tx' rx' h1 h2 hp hok
    have hoks : ∀ (w' : World), (∀ c, (w'.conns c).useRef = (w.conns c).useRef) → ∀ e' ∈ evs, EvOk w' e' ∨ EvRef w' e' :=
      fun w' hw e' he' => (hok e' (List.mem_cons_of_mem _ he')).imp (·.conns hw) (·.conns hw)
    have hfold : ∀ (w' : World), (∀ c, (w'.conns c).useRef = (w.conns c).useRef) →
        ∀ st, evs.foldl (statAll w') st = evs.foldl (statAll w) st := by
      intro w' hw st
      have : statAll w' = statAll w := by funext st e; exact statAll_conns hw st e
      rw [this]
    rcases hok e List.mem_cons_self with he | he
    · obtain ⟨k1, k2⟩ := stat_one fuel i nb hdn hup e w en tx rx hp he
      have hnr : ¬ EvRef w e := fun h => h.not_ok he
      have key := fun en tx rx => ih (statStep fuel i nb w e) en tx rx
      simp only [hfold _ k2, unseen_conns k2] at key
      simp only [statRun, List.foldl_cons] at key ⊢
      cases e with
      | enable b => exact key _ _ _ tx' rx' h1 h2 k1 (hoks _ k2)
      | send ctx =>
        by_cases hen : en = true
        · subst hen
          obtain ⟨a, b, q1, q2, q3, q4⟩ := key _ _ _ (tx' + 1) rx' (by simp [statSpec]; omega) (by simpa [statSpec] using h2) k1 (hoks _ k2)
          refine ⟨a, b, by simpa [statAll, statSpec] using q1, by simpa [statAll, statSpec] using q2, by simpa [statAll, statSpec] using q3, ?_⟩
          simpa [statAll, statSpec, Unseen, hnr] using q4
        · simp only [Bool.not_eq_true] at hen
          subst hen
          obtain ⟨a, b, q1, q2, q3, q4⟩ := key _ _ _ tx' rx' (by simpa [statSpec] using h1) (by simpa [statSpec] using h2) k1 (hoks _ k2)
          refine ⟨a, b, by simpa [statAll, statSpec] using q1, by simpa [statAll, statSpec] using q2, by simpa [statAll, statSpec] using q3, ?_⟩
          simpa [statAll, statSpec, Unseen] using q4
      | recv ctx =>
        by_cases hen : en = true ∧ IsApp ctx
        · obtain ⟨rfl, happ⟩ := hen
          obtain ⟨a, b, q1, q2, q3, q4⟩ := key _ _ _ tx' (rx' + 1) (by simpa [statSpec] using h1) (by simp [statSpec, happ]; omega) k1 (hoks _ k2)
          refine ⟨a, b, by simpa [statAll, statSpec, happ] using q1, by simpa [statAll, statSpec, happ] using q2,
            by simpa [statAll, statSpec, happ] using q3, ?_⟩
          simpa [statAll, statSpec, Unseen, hnr, happ] using q4
        · obtain ⟨a, b, q1, q2, q3, q4⟩ := key _ _ _ tx' rx' (by simpa [statSpec] using h1) (by simpa [statSpec, hen] using h2) k1 (hoks _ k2)
          refine ⟨a, b, by simpa [statAll, statSpec, hen, hnr] using q1, by simpa [statAll, statSpec, hen, hnr] using q2,
            by simpa [statAll, statSpec, hen, hnr] using q3, ?_⟩
          simpa [statAll, statSpec, Unseen, hnr, hen] using q4
    · obtain ⟨k1, k2⟩ := stat_ref fuel i nb hdn hup e w en _ _ hp he
      have key := ih (statStep fuel i nb w e) en tx rx
      simp only [hfold _ k2, unseen_conns k2] at key
      simp only [statRun, List.foldl_cons] at key ⊢
      have hst : statAll w (en, tx', rx') e = (en, if en = true ∧ (∃ c, e = .send c) then tx' + 1 else tx', if en = true ∧ (∃ c, e = .recv c) then rx' + 1 else rx') := by
        cases e with
        | enable b => exact he.elim
        | send ctx => cases en <;> simp [statAll, statSpec]
        | recv ctx => cases en <;> simp [statAll, statSpec, he]
      have hun : Unseen w en (e :: evs) ↔ en = true ∨ Unseen w en evs := by
        cases e with
        | enable b => exact he.elim
        | send ctx => simp [Unseen, he]
        | recv ctx => simp [Unseen, he]
      rw [hst, hun]
      obtain ⟨a, b, q1, q2, q3, q4⟩ := key (if en = true ∧ (∃ c, e = .send c) then tx' + 1 else tx') (if en = true ∧ (∃ c, e = .recv c) then rx' + 1 else rx')
        (by split <;> omega) (by split <;> omega) (k1.trans hp) (hoks _ k2)
      refine ⟨a, b, q1, q2, q3, q4.trans ?_⟩
      cases en with
      | false => simp
      | true =>
        cases e with
        | enable b => exact he.elim
        | send ctx => simp; omega
        | recv ctx => simp; omega

/-- A counter that starts at 0 reports the numbers of messages passed while enabled, if and only if none of them passed
on a reference connection (for histories of fewer than 2^64 events; then the counters do not wrap). -/
theorem c26_iff (fuel i : Nat) (nb : Nb) (hdn : Foreign i nb.downUpper) (hup : Foreign i nb.upLower) (evs : List StatEv) (w : World)
    (hp : w.procs i = ⟨true, .stat 0 0⟩) (hok : ∀ e ∈ evs, EvOk w e ∨ EvRef w e) (hlen : evs.length < 2 ^ 64) :
    ((statRun fuel i nb w evs).procs i).kind =
        .stat (UInt64.ofNat (evs.foldl (statAll w) (true, 0, 0)).2.1) (UInt64.ofNat (evs.foldl (statAll w) (true, 0, 0)).2.2) ↔
      ¬ Unseen w true evs := by
  obtain ⟨a, b, q1, q2, q3, q4⟩ := c26_history_iff fuel i nb hdn hup evs w true 0 0 0 0 (Nat.le_refl _) (Nat.le_refl _) hp hok
  have hle := (statAll_le w evs true 0 0).2.2
  rw [q1]
  simp only [true_and] at q4
  rw [← q4]
  have inj : ∀ x y : Nat, x < 2 ^ 64 → y < 2 ^ 64 → (UInt64.ofNat x = UInt64.ofNat y ↔ x = y) := by
    intro x y hx hy
    refine ⟨fun h => ?_, fun h => by rw [h]⟩
    have := congrArg UInt64.toNat h
    rwa [UInt64.toNat_ofNat_of_lt' hx, UInt64.toNat_ofNat_of_lt' hy] at this
  simp only [Kind.stat.injEq]
  rw [inj _ _ (by omega) (by omega), inj _ _ (by omega) (by omega)]

/-- A stack with a byte connection 0 and a reference connection 1. -/
def twoModes : World := { quiet with n := 1, procs := fun _ => ⟨true, .stat 0 0⟩, conns := fun c => ⟨c == 1, false⟩ }

/-- Two messages on connection 0 and one on connection 1: the counter says 2 of 3. -/
example : ((statRun 3 0 probe twoModes [.send demoTx, .send { Ctx.new with conn := some 1 }, .send demoTx]).procs 0).kind ≠ .stat 3 0 := by
  have h1 : EvOk twoModes (.send demoTx) :=
    ⟨⟨0, rfl, rfl⟩, ⟨_, demoTx_ok.1⟩, by obtain ⟨s, a, b⟩ := demoTx_ok.2; exact ⟨s, a, by omega⟩⟩
  have h2 : EvRef twoModes (.send { Ctx.new with conn := some 1 }) := ⟨1, rfl, rfl⟩
  have hok : ∀ e ∈ ([.send demoTx, .send { Ctx.new with conn := some 1 }, .send demoTx] : List StatEv), EvOk twoModes e ∨ EvRef twoModes e := by
    intro e he
    simp only [List.mem_cons, List.not_mem_nil, or_false] at he
    rcases he with rfl | rfl | rfl
    · exact .inl h1
    · exact .inr h2
    · exact .inl h1
  have := c26_iff 3 0 probe ⟨fun _ _ => rfl, fun _ _ _ => rfl⟩ ⟨fun _ _ => rfl, fun _ _ _ => rfl⟩ _ twoModes rfl hok (by simp)
  intro he
  exact this.1 he (.inr (.inl ⟨rfl, h2⟩))

/-- A request is answered with the two counters and as much of the stack's name as there is room for, and the asking side prints exactly the
counters and the first 128 bytes of that, filled up with zero bytes. -/
theorem c26_report_exact (fuel i j : Nat) (tx rx tx' rx' : UInt64) (ctx : Ctx) (w : World) (rest : List Byte)
    (hb : OnBytes ctx w) (hreq : Carries ctx (0x10 :: rest)) (hov : 1 ≤ w.overhead) (hroom : w.overhead + 16 ≤ w.mtu) :
    ∃ s, Good s ∧
      Down (fun nb => onLower fuel i ⟨true, .stat tx rx⟩ nb ctx w) { ctx with buf := some s } w ∧
      ∀ ctx' w', OnBytes ctx' w' → Carries ctx' (data s) →
        ∃ ctx'', Stops (fun nb => onLower fuel j ⟨true, .stat tx' rx'⟩ nb ctx' w')
          (.ok ctx'', { w' with trace := w'.trace ++ [.shown tx.toNat rx.toNat
            ((w.name.take (w.mtu.toNat - w.overhead.toNat - 16)).take 128 ++
              List.replicate (128 - ((w.name.take (w.mtu.toNat - w.overhead.toNat - 16)).take 128).length) 0)] }) := by
  obtain ⟨c, hc, hr⟩ := hb
  obtain ⟨s, d, k1, k2, k3⟩ := hreq.buf
  obtain ⟨s1, m1, _⟩ := k2.readByte_cons k3
  -- the answer
  obtain ⟨a0, b0, e0⟩ := allocBuf_ok w.mtu w.overhead w (by omega) (by omega) (by omega)
  obtain ⟨a1, b1, e1⟩ := e0.writeHeadByte 0x23
  rw [prependAll_ok (by simp [Deque.fresh]; omega)] at b1 e1
  have t1 : ((Deque.fresh w.mtu.toNat w.overhead.toNat).prepend [0x23]).tail = w.mtu.toNat - w.overhead.toNat := by
    simp [Deque.tail, Deque.fresh, Deque.prepend]; omega
  obtain ⟨a2, b2, e2⟩ := e1.writeU .u64 .be tx.toNat (by rw [t1]; simp [Width.size]; omega)
  have t2 : (((Deque.fresh w.mtu.toNat w.overhead.toNat).prepend [0x23]).push (encode .u64 .be tx.toNat)).tail =
      w.mtu.toNat - w.overhead.toNat - 8 := by
    simp [Deque.tail, Deque.fresh, Deque.prepend, Deque.push, length_encode, Width.size]; omega
  obtain ⟨a3, b3, e3⟩ := e2.writeU .u64 .be rx.toNat (by rw [t2]; simp [Width.size]; omega)
  have t3 : ((((Deque.fresh w.mtu.toNat w.overhead.toNat).prepend [0x23]).push (encode .u64 .be tx.toNat)).push
      (encode .u64 .be rx.toNat)).tail = w.mtu.toNat - w.overhead.toNat - 16 := by
    simp [Deque.tail, Deque.fresh, Deque.prepend, Deque.push, length_encode, Width.size]; omega
  obtain ⟨a4, r4, b4, e4⟩ := e3.write_any w.name
  rw [t3] at e4
  generalize w.name.take (w.mtu.toNat - w.overhead.toNat - 16) = name at e4
  have hdata : data a4 = 0x23 :: (encode .u64 .be tx.toNat ++ (encode .u64 .be rx.toNat ++ name)) := by
    rw [e4.data]; simp [Deque.push, Deque.prepend, Deque.fresh]
  refine ⟨a4, e4.1, fun nb => ?_, fun ctx' w' ⟨c', hc', hr'⟩ hcar' => ?_⟩
  · simp only [onLower, statLower]
    rw [bind_of_ok (by rw [hc, useReference_some, hr])]
    simp only [Bool.false_eq_true, if_false, k1, if_true]
    rw [bind_onBuf m1]
    simp only [Option.isSome_none, Bool.false_eq_true, if_false, if_true, statResponse]
    rw [bind_of_ok (get_apply w), bind_of_ok b0, bind_onBuf b1, bind_onBuf b2, bind_onBuf b3, bind_onBuf b4]
  · obtain ⟨r, q, n1, n2, n3⟩ := hcar'.buf
    rw [hdata] at n3
    obtain ⟨r1, p1, q1⟩ := n2.readByte_cons n3
    have c1 : (q.pop 1).content = encode .u64 .be tx.toNat ++ (encode .u64 .be rx.toNat ++ name) := by
      simp [Deque.pop, n3]
    have le8 : ∀ v, (encode .u64 .be v).length = 8 := fun v => length_encode _ _ _
    obtain ⟨r2, p2, q2⟩ := q1.readU .u64 .be (by rw [c1]; simp [le8, Width.size])
    have c2 : ((q.pop 1).pop 8).content = encode .u64 .be rx.toNat ++ name := by
      simp only [Deque.pop] at c1 ⊢
      rw [c1, List.drop_append_of_le_length (by rw [le8]; omega), List.drop_of_length_le (by rw [le8]; omega), List.nil_append]
    obtain ⟨r3, p3, q3⟩ := q2.readU .u64 .be (by show 8 ≤ ((q.pop 1).pop 8).content.length; rw [c2]; simp [le8])
    have c3 : (((q.pop 1).pop 8).pop 8).content = name := by
      rw [Deque.pop]; simp only; rw [c2, List.drop_append_of_le_length (by rw [le8]; omega), List.drop_of_length_le (by rw [le8]; omega), List.nil_append]
    obtain ⟨r4, p4, _⟩ := q3.read 128
    have dec : ∀ v : UInt64, ∀ rest, decode .be ((encode .u64 .be v.toNat ++ rest).take 8) = v.toNat := by
      intro v rest
      rw [List.take_append_of_le_length (by rw [le8]; omega), List.take_of_length_le (by rw [le8]; omega)]
      simp only [encode, decode, Width.size]
      rw [decBE_encBE_mod]
      exact Nat.mod_eq_of_lt v.toNat_lt
    refine ⟨{ ctx' with buf := some r4 }, fun nb => ?_⟩
    simp only [onLower, statLower]
    rw [bind_of_ok (by rw [hc', useReference_some, hr'])]
    simp only [Bool.false_eq_true, if_false, n1, if_true]
    rw [bind_onBuf p1]
    simp only [Option.isSome_none, Bool.false_eq_true, if_false, if_true, statShow]
    rw [if_neg (by decide)]
    rw [bind_onBuf p2, bind_onBuf p3, bind_onBuf p4]
    have c1' : (q.pop 1).content.take (Width.size .u64) = (encode .u64 .be tx.toNat ++ (encode .u64 .be rx.toNat ++ name)).take 8 := by
      rw [c1]; rfl
    have c2' : ((q.pop 1).pop (Width.size .u64)).content.take (Width.size .u64) = (encode .u64 .be rx.toNat ++ name).take 8 := by
      show ((q.pop 1).pop 8).content.take 8 = _
      rw [c2]
    have c3' : (Deque.readRes (((q.pop 1).pop (Width.size .u64)).pop (Width.size .u64)) 128).1 = name.take 128 := by
      show (Deque.readRes (((q.pop 1).pop 8).pop 8) 128).1 = name.take 128
      simp only [Deque.readRes, c3]
      split
      · rename_i h; rw [h]; rfl
      · rfl
    simp only [c1', c2', c3', dec]
    rfl

/-- A request is answered with the two counters and the stack's name, and the asking side prints exactly
these, the name filled up with zero bytes (if the answer fits in a buffer and the name in the 128 bytes the reader provides). -/
theorem c26_report_partial (fuel i j : Nat) (tx rx tx' rx' : UInt64) (ctx : Ctx) (w : World) (rest : List Byte)
    (hb : OnBytes ctx w) (hreq : Carries ctx (0x10 :: rest)) (hov : 1 ≤ w.overhead)
    (hfit : w.overhead + 16 + w.name.length ≤ w.mtu) (hname : w.name.length ≤ 128) :
    ∃ s, Good s ∧
      Down (fun nb => onLower fuel i ⟨true, .stat tx rx⟩ nb ctx w) { ctx with buf := some s } w ∧
      ∀ ctx' w', OnBytes ctx' w' → Carries ctx' (data s) →
        ∃ ctx'', Stops (fun nb => onLower fuel j ⟨true, .stat tx' rx'⟩ nb ctx' w')
          (.ok ctx'', { w' with trace := w'.trace ++ [.shown tx.toNat rx.toNat (w.name ++ List.replicate (128 - w.name.length) 0)] }) := by
  have h := c26_report_exact fuel i j tx rx tx' rx' ctx w rest hb hreq hov (by omega)
  have h1 : w.name.take (w.mtu.toNat - w.overhead.toNat - 16) = w.name := List.take_of_length_le (by omega)
  rw [h1, List.take_of_length_le hname] at h
  exact h

/-- What is printed is the name, filled up, iff the name has at most 128 bytes and what of it does not fit in the answer is zero bytes
(usually: nothing). -/
theorem c26_name_iff (name : List Byte) (room : Nat) :
    (name.take room).take 128 ++ List.replicate (128 - ((name.take room).take 128).length) 0 = name ++ List.replicate (128 - name.length) 0 ↔
      name.length ≤ 128 ∧ ∀ b ∈ name.drop room, b = 0 := by
  constructor
  · intro h
    have hlen := congrArg List.length h
    simp only [List.length_append, List.length_replicate, List.length_take] at hlen
    have hle : name.length ≤ 128 := by omega
    refine ⟨hle, fun b hb => ?_⟩
    rw [List.take_of_length_le (by rw [List.length_take]; omega)] at h
    have hsplit : name ++ List.replicate (128 - name.length) 0 = name.take room ++ (name.drop room ++ List.replicate (128 - name.length) 0) := by
      rw [← List.append_assoc, List.take_append_drop]
    rw [hsplit] at h
    have h2 := List.append_cancel_left h
    have : b ∈ List.replicate (128 - (name.take room).length) (0 : Byte) := by
      rw [h2]; exact List.mem_append_left _ hb
    exact List.eq_of_mem_replicate this
  · rintro ⟨hle, hz⟩
    rw [List.take_of_length_le (by rw [List.length_take]; omega)]
    have hd : name.drop room = List.replicate (name.length - room) 0 := List.eq_replicate_iff.mpr ⟨by simp, hz⟩
    have hsplit : name ++ List.replicate (128 - name.length) 0 = name.take room ++ (name.drop room ++ List.replicate (128 - name.length) 0) := by
      rw [← List.append_assoc, List.take_append_drop]
    rw [hsplit, hd, List.replicate_append_replicate]
    congr 2
    rw [List.length_take]
    omega

/-- C26, exactly: what the asking side prints are the two counters and the name, filled up, if and only if the name
has at most 128 bytes and what of it does not fit in the answer is zero bytes. -/
theorem c26_report_iff (fuel i j : Nat) (tx rx tx' rx' : UInt64) (ctx : Ctx) (w : World) (rest : List Byte)
    (hb : OnBytes ctx w) (hreq : Carries ctx (0x10 :: rest)) (hov : 1 ≤ w.overhead) (hroom : w.overhead + 16 ≤ w.mtu) :
    ∃ s, Good s ∧
      Down (fun nb => onLower fuel i ⟨true, .stat tx rx⟩ nb ctx w) { ctx with buf := some s } w ∧
      ∀ ctx' w' nb, OnBytes ctx' w' → Carries ctx' (data s) →
        ((onLower fuel j ⟨true, .stat tx' rx'⟩ nb ctx' w').2.trace =
            w'.trace ++ [.shown tx.toNat rx.toNat (w.name ++ List.replicate (128 - w.name.length) 0)] ↔
          w.name.length ≤ 128 ∧ ∀ b ∈ w.name.drop (w.mtu.toNat - w.overhead.toNat - 16), b = 0) := by
  obtain ⟨s, h1, h2, h3⟩ := c26_report_exact fuel i j tx rx tx' rx' ctx w rest hb hreq hov hroom
  refine ⟨s, h1, h2, fun ctx' w' nb hb' hc' => ?_⟩
  obtain ⟨ctx'', h4⟩ := h3 ctx' w' hb' hc'
  rw [← c26_name_iff, show onLower fuel j ⟨true, .stat tx' rx'⟩ nb ctx' w' = _ from h4 nb]
  simp

example : ∃ w : World, OnBytes (demoRx [0x10]) w ∧ Carries (demoRx [0x10]) [0x10] ∧ 1 ≤ w.overhead ∧
    w.overhead + 16 + w.name.length ≤ w.mtu ∧ w.name ≠ [] ∧ w.overhead + 16 ≤ w.mtu :=
  ⟨{ quiet with mtu := 64 }, demoRx_onBytes _, demoRx_carries (by decide) (by decide), by decide, by decide, by decide, by decide⟩

end Verif.Stack
