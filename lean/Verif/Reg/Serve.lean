/-!
# The service goroutine of an endpoint (C41, C42)

`acceptEndpoint` / `deleteEndpoint` (proc_upperdeck.go:31-81) for one endpoint of one UpperDeck, with the goroutines
`acceptEndpoint` starts.  A step is one atomic action; a goroutine evaluates the channel operands of `select` when
it enters it (`ud.endpoints[ep]` is read again in every iteration) and then waits for one of the two channels.

Simplifications: the unsynchronised read of the map in the goroutine is atomic; other endpoints with the same session
are not present; a call of `acceptEndpoint`/`deleteEndpoint` is one step.
-/

namespace Verif.Reg.Serve

/-- `EndPointData` (endp_default.go:8-13): the data and the destination session if set. -/
structure Msg where
  data : Nat
  dest : Option Int
  deriving Repr, DecidableEq

/-- Where a service goroutine is. -/
inductive PC where
  /-- before `select` -/
  | top
  /-- in `select`, with the stop channel it found in the map (`none`: the nil channel) -/
  | sel (ch : Option Nat)
  /-- in `lower.OnUpperData` (proc_upperdeck.go:60) -/
  | sending (m : Msg)
  | done
  deriving Repr, DecidableEq

/-- A goroutine with the `session` it captured (proc_upperdeck.go:41). -/
structure G where
  session : Int
  pc : PC
  deriving Repr, DecidableEq

/-- A stop channel: `make(chan bool, 1)`. -/
structure Chan where
  full : Bool
  closed : Bool
  deriving Repr, DecidableEq

structure Sys where
  /-- `ep.GetSession()` -/
  session : Int
  /-- `ud.endpoints[ep]` -/
  mapped : Option Nat
  chans : List Chan
  /-- the transmit channel -/
  tx : List Msg
  gs : List G
  /-- calls of `lower.OnUpperData`: the data and the session option -/
  out : List (Msg × Int)
  deriving Repr, DecidableEq

inductive Label where
  /-- the user puts data on the transmit channel -/
  | push (m : Msg)
  | setSession (x : Int)
  /-- `acceptEndpoint` -/
  | add
  /-- `deleteEndpoint` -/
  | delete
  /-- goroutine `i` enters `select` -/
  | enter (i : Nat)
  /-- goroutine `i` takes the branch of the stop channel (proc_upperdeck.go:50-53) -/
  | stop (i : Nat)
  /-- goroutine `i` takes the branch of the transmit channel (proc_upperdeck.go:54) -/
  | recv (i : Nat)
  /-- goroutine `i` passes the data down (proc_upperdeck.go:55-64) -/
  | pass (i : Nat)
  deriving Repr, DecidableEq

def Sys.init (session : Int) : Sys := ⟨session, none, [], [], [], []⟩

def Sys.setPC (s : Sys) (i : Nat) (g : G) (pc : PC) : Sys := { s with gs := s.gs.set i { g with pc := pc } }

/-- One step; `none` if it cannot be taken.  The transmit channel holds 512 items (endp_default.go:100). -/
def step (s : Sys) : Label → Option Sys
  | .push m => if s.tx.length < 512 then some { s with tx := s.tx ++ [m] } else none
  | .setSession x => some { s with session := x }
  | .add =>
    match s.mapped with
    | some _ => some s
    | none => some { s with mapped := some s.chans.length, chans := s.chans ++ [⟨false, false⟩], gs := s.gs ++ [⟨s.session, .top⟩] }
  | .delete =>
    match s.mapped with
    | some c => some { s with mapped := none, chans := s.chans.set c ⟨true, true⟩ }
    | none => some s
  | .enter i =>
    match s.gs[i]? with
    | some g => if g.pc = .top then some (s.setPC i g (.sel s.mapped)) else none
    | none => none
  | .stop i =>
    match s.gs[i]? with
    | some g =>
      match g.pc with
      | .sel (some c) =>
        match s.chans[c]? with
        | some ch =>
          if ch.full then some { (s.setPC i g .done) with chans := s.chans.set c { ch with full := false } }
          else if ch.closed then some (s.setPC i g .top)
          else none
        | none => none
      | _ => none
    | none => none
  | .recv i =>
    match s.gs[i]?, s.tx with
    | some g, m :: rest =>
      match g.pc with
      | .sel _ => some { (s.setPC i g (.sending m)) with tx := rest }
      | _ => none
    | _, _ => none
  | .pass i =>
    match s.gs[i]? with
    | some g =>
      match g.pc with
      | .sending m => some { (s.setPC i g .top) with out := s.out ++ [(m, m.dest.getD g.session)] }
      | _ => none
    | none => none

def exec : Sys → List Label → Option Sys
  | s, [] => some s
  | s, l :: ls => (step s l).bind fun s => exec s ls

theorem exec_append (s : Sys) (a b : List Label) : exec s (a ++ b) = (exec s a).bind fun s => exec s b := by
  induction a generalizing s with
  | nil => rfl
  | cons l a ih =>
    simp only [List.cons_append, exec]
    cases step s l with
    | none => rfl
    | some s' => exact ih s'

/-- Induction over executions from the right end. -/
theorem exec_snoc {s s' : Sys} {ls : List Label} {l : Label} (h : exec s (ls ++ [l]) = some s') :
    ∃ m, exec s ls = some m ∧ step m l = some s' := by
  rw [exec_append] at h
  cases hm : exec s ls with
  | none => rw [hm] at h; simp at h
  | some m =>
    rw [hm] at h
    refine ⟨m, rfl, ?_⟩
    simp only [Option.bind_some, exec] at h
    cases hs : step m l with
    | none => rw [hs] at h; simp at h
    | some s'' => rw [hs] at h; simpa [exec] using h

theorem snoc_induction {P : List Label → Prop} (h0 : P []) (h1 : ∀ ls l, P ls → P (ls ++ [l])) : ∀ ls, P ls := by
  intro ls
  rw [← List.reverse_reverse ls]
  induction ls.reverse with
  | nil => exact h0
  | cons l ls ih => rw [List.reverse_cons]; exact h1 _ _ ih

/-- What the user put on the transmit channel. -/
def pushes (ls : List Label) : List Msg := ls.filterMap fun | .push m => some m | _ => none

theorem pushes_append (a b : List Label) : pushes (a ++ b) = pushes a ++ pushes b := List.filterMap_append

/-- Data taken from the channel and not passed down yet. -/
def PC.held : PC → List Msg
  | .sending m => [m]
  | _ => []

def Sys.inflight (s : Sys) : List Msg := s.gs.flatMap fun g => g.pc.held

/-- The session the endpoint had when it was accepted first. -/
def acceptedSession (session : Int) : List Label → Int
  | [] => session
  | .setSession x :: ls => acceptedSession x ls
  | .add :: _ => session
  | _ :: ls => acceptedSession session ls

/-! ## C42 -/

theorem flatMap_set_perm (gs : List G) (i : Nat) (g g' : G) (h : gs[i]? = some g) :
    ((gs.set i g').flatMap fun g => g.pc.held).Perm (g'.pc.held ++ (gs.eraseIdx i).flatMap fun g => g.pc.held) ∧
    (gs.flatMap fun g => g.pc.held).Perm (g.pc.held ++ (gs.eraseIdx i).flatMap fun g => g.pc.held) := by
  induction gs generalizing i with
  | nil => simp at h
  | cons x gs ih =>
    cases i with
    | zero =>
      simp only [List.getElem?_cons_zero, Option.some.injEq] at h
      subst h
      simp
    | succ i =>
      simp only [List.getElem?_cons_succ] at h
      obtain ⟨h1, h2⟩ := ih i h
      constructor
      · simp only [List.set_cons_succ, List.flatMap_cons, List.eraseIdx_cons_succ]
        refine (List.Perm.append_left _ h1).trans ?_
        rw [← List.append_assoc, ← List.append_assoc]
        exact List.Perm.append_right _ List.perm_append_comm
      · simp only [List.flatMap_cons, List.eraseIdx_cons_succ]
        refine (List.Perm.append_left _ h2).trans ?_
        rw [← List.append_assoc, ← List.append_assoc]
        exact List.Perm.append_right _ List.perm_append_comm

/-- C42, for any number of goroutines: nothing is lost or sent twice; what was put on the channel is what was passed down,
what a goroutine holds, and what is still on the channel. -/
theorem c42_exactly_once (session : Int) (ls : List Label) : ∀ s, exec (.init session) ls = some s →
    (s.out.map Prod.fst ++ s.inflight ++ s.tx).Perm (pushes ls) := by
  induction ls using snoc_induction with
  | h0 => intro s h; injection h with h; subst h; exact List.Perm.refl _
  | h1 ls l ih =>
    intro s h
    obtain ⟨m, hm, hs⟩ := exec_snoc h
    have ih := ih m hm
    rw [pushes_append]
    cases l with
    | push x =>
      simp only [step] at hs
      split at hs
      · injection hs with hs
        subst hs
        show (m.out.map Prod.fst ++ m.inflight ++ (m.tx ++ [x])).Perm (pushes ls ++ [x])
        rw [← List.append_assoc]
        exact ih.append_right _
      · simp at hs
    | setSession x => injection hs with hs; subst hs; simpa [pushes, Sys.inflight] using ih
    | add =>
      simp only [step] at hs
      split at hs <;> injection hs with hs <;> subst hs
      · simpa [pushes] using ih
      · simpa [pushes, Sys.inflight, PC.held] using ih
    | delete =>
      simp only [step] at hs
      split at hs <;> injection hs with hs <;> subst hs <;> simpa [pushes, Sys.inflight] using ih
    | enter i =>
      simp only [step] at hs
      split at hs
      · rename_i g hg
        split at hs
        · rename_i hp
          injection hs with hs
          subst hs
          obtain ⟨p1, p2⟩ := flatMap_set_perm m.gs i g { g with pc := .sel m.mapped } hg
          simp only [pushes, List.filterMap_cons, List.filterMap_nil, List.append_nil]
          refine List.Perm.trans ?_ ih
          refine List.Perm.append_right _ (List.Perm.append_left _ (p1.trans (p2.trans ?_).symm))
          rw [hp]; exact List.Perm.refl _
        · simp at hs
      · simp at hs
    | stop i =>
      simp only [step] at hs
      split at hs
      · rename_i g hg
        split at hs
        · rename_i c hp
          split at hs
          · rename_i ch hc
            have key : ∀ pc : PC, pc.held = [] → (m.out.map Prod.fst ++ (m.setPC i g pc).inflight ++ m.tx).Perm (pushes ls) := by
              intro pc hpc
              obtain ⟨p1, p2⟩ := flatMap_set_perm m.gs i g { g with pc := pc } hg
              refine List.Perm.trans ?_ ih
              refine List.Perm.append_right _ (List.Perm.append_left _ (p1.trans (p2.trans ?_).symm))
              rw [hp]; simp only [hpc]; exact List.Perm.refl _
            simp only [pushes, List.filterMap_cons, List.filterMap_nil, List.append_nil]
            split at hs
            · injection hs with hs; subst hs; exact key .done rfl
            · split at hs
              · injection hs with hs; subst hs; exact key .top rfl
              · simp at hs
          · simp at hs
        · simp at hs
      · simp at hs
    | recv i =>
      simp only [step] at hs
      split at hs
      · rename_i g x rest hg htx
        split at hs
        · rename_i hp
          injection hs with hs
          subst hs
          obtain ⟨p1, p2⟩ := flatMap_set_perm m.gs i g { g with pc := .sending x } hg
          simp only [pushes, List.filterMap_cons, List.filterMap_nil, List.append_nil]
          refine List.Perm.trans ?_ ih
          rw [htx]
          simp only [Sys.setPC, Sys.inflight, List.append_assoc]
          refine List.Perm.append_left _ ?_
          rw [hp] at p2
          simp only [PC.held, List.nil_append, List.cons_append] at p1 p2
          refine (List.Perm.append_right _ p1).trans ?_
          refine List.Perm.trans ?_ (List.Perm.append_right _ p2.symm)
          exact List.perm_middle.symm
        · simp at hs
      · simp at hs
    | pass i =>
      simp only [step] at hs
      split at hs
      · rename_i g hg
        split at hs
        · rename_i x hp
          injection hs with hs
          subst hs
          obtain ⟨p1, p2⟩ := flatMap_set_perm m.gs i g { g with pc := .top } hg
          simp only [pushes, List.filterMap_cons, List.filterMap_nil, List.append_nil]
          refine List.Perm.trans ?_ ih
          rw [hp] at p2
          simp only [PC.held, List.nil_append, List.cons_append] at p1 p2
          simp only [Sys.setPC, Sys.inflight, List.map_append, List.map_cons, List.map_nil, List.append_assoc]
          refine List.Perm.append_left _ ?_
          rw [← List.append_assoc]
          refine List.Perm.append_right _ ?_
          exact (List.Perm.append_left [x] p1).trans p2.symm
        · simp at hs
      · simp at hs

theorem gs_length_mono {s s' : Sys} {l : Label} (h : step s l = some s') : s.gs.length ≤ s'.gs.length := by
  cases l <;> simp only [step] at h
  all_goals repeat' split at h
  all_goals first | (injection h with h; subst h; simp [Sys.setPC]) | simp at h

theorem accepted_has (x : Int) (ls rest : List Label) (h : .add ∈ ls) : acceptedSession x (ls ++ rest) = acceptedSession x ls := by
  induction ls generalizing x with
  | nil => simp at h
  | cons l ls ih =>
    rcases List.mem_cons.mp h with h' | h'
    · subst h'; rfl
    · cases l <;> first | rfl | exact ih _ h'

theorem accepted_none (x : Int) (ls : List Label) (l : Label) (h : .add ∉ ls) :
    acceptedSession x (ls ++ [l]) = match l with | .setSession y => y | _ => acceptedSession x ls := by
  induction ls generalizing x with
  | nil => cases l <;> rfl
  | cons k ls ih =>
    rw [List.mem_cons, not_or] at h
    cases k <;> first | exact absurd rfl h.1 | exact ih _ h.2

/-- What holds while there is at most one goroutine. -/
structure One (session : Int) (ls : List Label) (s : Sys) : Prop where
  order : s.out.map Prod.fst ++ s.inflight ++ s.tx = pushes ls
  none : s.gs = [] → .add ∉ ls ∧ s.mapped = .none ∧ s.session = acceptedSession session ls ∧ s.out = []
  some : s.gs ≠ [] → .add ∈ ls
  ses : ∀ g ∈ s.gs, g.session = acceptedSession session ls
  sent : ∀ p ∈ s.out, p.2 = p.1.dest.getD (acceptedSession session ls)

theorem one_inv (session : Int) (ls : List Label) : ∀ s, exec (.init session) ls = some s → s.gs.length ≤ 1 → One session ls s := by
  induction ls using snoc_induction with
  | h0 => intro s h _; injection h with h; subst h; exact ⟨rfl, fun _ => ⟨by simp, rfl, rfl, rfl⟩, by simp [Sys.init], by simp [Sys.init], by simp [Sys.init]⟩
  | h1 ls l ih =>
    intro s h hl
    obtain ⟨m, hm, hs⟩ := exec_snoc h
    have ih := ih m hm (Nat.le_trans (gs_length_mono hs) hl)
    -- steps that leave the goroutines, the output and the session alone
    have quiet : ∀ s : Sys, s.gs = m.gs → s.out = m.out → s.session = m.session → s.mapped = m.mapped ∨ m.mapped ≠ .none →
        l ≠ .add → (∀ y, l ≠ .setSession y) → s.tx = m.tx ++ pushes [l] → One session (ls ++ [l]) s := by
      intro s hg ho hse hmp h1 h2 ht
      have hacc : acceptedSession session (ls ++ [l]) = acceptedSession session ls := by
        by_cases ha : Label.add ∈ ls
        · exact accepted_has _ _ _ ha
        · rw [accepted_none _ _ _ ha]; cases l <;> first | rfl | exact absurd rfl (h2 _)
      refine ⟨?_, ?_, ?_, ?_, ?_⟩
      · rw [pushes_append, ← ih.order, ho, ht]
        simp only [Sys.inflight, hg, List.append_assoc]
      · intro he
        rw [hg] at he
        obtain ⟨a1, a2, a3, a4⟩ := ih.none he
        refine ⟨?_, ?_, by rw [hacc, hse]; exact a3, by rw [ho]; exact a4⟩
        · rw [List.mem_append, not_or]; exact ⟨a1, by simpa using Ne.symm h1⟩
        · rcases hmp with hmp | hmp
          · rw [hmp]; exact a2
          · exact absurd a2 hmp
      · intro he; rw [hg] at he; exact List.mem_append_left _ (ih.some he)
      · rw [hacc, hg]; exact ih.ses
      · rw [hacc, ho]; exact ih.sent
    -- steps of the goroutine
    have active : ∀ (i : Nat) (g : G) (pc : PC) (s : Sys), m.gs[i]? = .some g → s.gs = m.gs.set i { g with pc := pc } →
        l ≠ .add → (∀ y, l ≠ .setSession y) → pushes [l] = [] →
        (∀ p ∈ s.out, p ∈ m.out ∨ p.2 = p.1.dest.getD g.session) →
        s.out.map Prod.fst ++ pc.held ++ s.tx = m.out.map Prod.fst ++ g.pc.held ++ m.tx → One session (ls ++ [l]) s := by
      intro i g pc s hg hgs h1 h2 hp hout ho
      have hmg : m.gs = [g] ∧ i = 0 := by
        have hlen := Nat.le_trans (gs_length_mono hs) hl
        cases hgl : m.gs with
        | nil => rw [hgl] at hg; simp at hg
        | cons a r =>
          cases r with
          | nil =>
            rw [hgl] at hg
            cases i with
            | zero => simp only [List.getElem?_cons_zero, Option.some.injEq] at hg; exact ⟨by rw [hg], rfl⟩
            | succ i => simp at hg
          | cons b r => rw [hgl] at hlen; simp at hlen
      obtain ⟨hmg, rfl⟩ := hmg
      have hadd : Label.add ∈ ls := ih.some (by simp [hmg])
      have hacc := accepted_has session ls [l] hadd
      rw [hmg] at hgs
      have hgs : s.gs = [{ g with pc := pc }] := hgs
      have hses := ih.ses g (by rw [hmg]; simp)
      refine ⟨?_, ?_, ?_, ?_, ?_⟩
      · rw [pushes_append, hp, List.append_nil, ← ih.order]
        simp only [Sys.inflight, hgs, hmg, List.flatMap_cons, List.flatMap_nil, List.append_nil]
        exact ho
      · rw [hgs]; simp
      · intro _; exact List.mem_append_left _ hadd
      · intro g' hg'
        rw [hgs, List.mem_singleton] at hg'
        subst hg'
        rw [hacc]; exact hses
      · intro p hp
        rw [hacc]
        rcases hout p hp with hp | hp
        · exact ih.sent p hp
        · rw [hp, hses]
    cases l with
    | push x =>
      simp only [step] at hs
      split at hs
      · injection hs with hs
        subst hs
        exact quiet _ rfl rfl rfl (Or.inl rfl) (by simp) (by simp) rfl
      · simp at hs
    | setSession x =>
      injection hs with hs
      subst hs
      by_cases ha : Label.add ∈ ls
      · have hacc := accepted_has session ls [.setSession x] ha
        refine ⟨?_, ?_, ?_, ?_, ?_⟩
        · rw [pushes_append, ← ih.order]; simp [pushes, Sys.inflight]
        · intro he; exact absurd ha (ih.none he).1
        · intro _; exact List.mem_append_left _ ha
        · rw [hacc]; exact ih.ses
        · rw [hacc]; exact ih.sent
      · have hacc := accepted_none session ls (.setSession x) ha
        have hg : m.gs = [] := by
          cases hgl : m.gs with
          | nil => rfl
          | cons a r => exact absurd (ih.some (by simp [hgl])) ha
        have hout : m.out = [] := (ih.none hg).2.2.2
        refine ⟨?_, ?_, ?_, ?_, ?_⟩
        · rw [pushes_append, ← ih.order]; simp [pushes, Sys.inflight]
        · intro _
          rw [hacc]
          exact ⟨by simp [ha], (ih.none hg).2.1, rfl, hout⟩
        · intro he; exact absurd hg he
        · simp [hg]
        · simp [hout]
    | add =>
      simp only [step] at hs
      split at hs
      · injection hs with hs
        subst hs
        rename_i hmp
        have hne : m.gs ≠ [] := by intro he; rw [(ih.none he).2.1] at hmp; simp at hmp
        have ha := ih.some hne
        have hacc := accepted_has session ls [.add] ha
        refine ⟨?_, fun he => absurd he hne, fun _ => List.mem_append_left _ ha, by rw [hacc]; exact ih.ses, by rw [hacc]; exact ih.sent⟩
        rw [pushes_append, ← ih.order]; simp [pushes]
      · injection hs with hs
        subst hs
        have hg : m.gs = [] := by
          cases hgl : m.gs with
          | nil => rfl
          | cons a r => rw [hgl] at hl; simp at hl
        obtain ⟨a1, a2, a3, a4⟩ := ih.none hg
        have hacc := accepted_none session ls .add a1
        refine ⟨?_, ?_, ?_, ?_, ?_⟩
        · rw [pushes_append, ← ih.order]; simp [pushes, Sys.inflight, PC.held]
        · simp
        · simp
        · simp only [hg, List.nil_append, List.mem_singleton]
          intro g hg; subst hg; rw [hacc]; exact a3
        · rw [hacc]; exact ih.sent
    | delete =>
      simp only [step] at hs
      split at hs <;> injection hs with hs <;> subst hs
      · rename_i c hmp
        exact quiet _ rfl rfl rfl (Or.inr (by simp [hmp])) (by simp) (by simp) (by simp [pushes])
      · exact quiet _ rfl rfl rfl (Or.inl rfl) (by simp) (by simp) (by simp [pushes])
    | enter i =>
      simp only [step] at hs
      split at hs
      · rename_i g hg
        split at hs
        · rename_i hp
          injection hs with hs
          subst hs
          exact active i g _ _ hg rfl (by simp) (by simp) rfl (fun p hp => Or.inl hp) (by simp [PC.held, hp, Sys.setPC])
        · simp at hs
      · simp at hs
    | stop i =>
      simp only [step] at hs
      split at hs
      · rename_i g hg
        split at hs
        · rename_i c hp
          split at hs
          · split at hs
            · injection hs with hs; subst hs
              exact active i g _ _ hg rfl (by simp) (by simp) rfl (fun p hp => Or.inl hp) (by simp [PC.held, hp, Sys.setPC])
            · split at hs
              · injection hs with hs; subst hs
                exact active i g _ _ hg rfl (by simp) (by simp) rfl (fun p hp => Or.inl hp) (by simp [PC.held, hp, Sys.setPC])
              · simp at hs
          · simp at hs
        · simp at hs
      · simp at hs
    | recv i =>
      simp only [step] at hs
      split at hs
      · rename_i g x rest hg htx
        split at hs
        · rename_i hp
          injection hs with hs
          subst hs
          exact active i g _ _ hg rfl (by simp) (by simp) rfl (fun p hp => Or.inl hp) (by simp [PC.held, hp, Sys.setPC, htx])
        · simp at hs
      · simp at hs
    | pass i =>
      simp only [step] at hs
      split at hs
      · rename_i g hg
        split at hs
        · rename_i x hp
          injection hs with hs
          subst hs
          refine active i g _ _ hg rfl (by simp) (by simp) rfl ?_ (by simp [PC.held, hp, Sys.setPC])
          intro p hp
          simp only [List.mem_append, List.mem_singleton] at hp
          rcases hp with hp | hp
          · exact Or.inl hp
          · subst hp; exact Or.inr rfl
        · simp at hs
      · simp at hs

/-- C42: while the endpoint is served by one goroutine, for every schedule: what was passed down is, in order and without
gaps or repetitions, what was put on the channel, up to what the goroutine holds and what is still on the channel; every
item went to its destination session if set, else to the session the endpoint had when it was accepted. -/
theorem c42_in_order (session : Int) (ls : List Label) (s : Sys) (h : exec (.init session) ls = some s) (h1 : s.gs.length ≤ 1) :
    s.out.map Prod.fst ++ s.inflight ++ s.tx = pushes ls ∧
    ∀ p ∈ s.out, p.2 = p.1.dest.getD (acceptedSession session ls) := by
  have := one_inv session ls s h h1
  exact ⟨this.order, this.sent⟩

/-- C42, progress: a served endpoint's goroutine can, by its own steps alone, pass down everything that is on the channel. -/
theorem c42_progress (n : Nat) : ∀ (s : Sys) (ses : Int) (pc : PC), s.tx.length = n → s.gs = [⟨ses, pc⟩] → pc ≠ .done →
    ∃ ls s', exec s ls = some s' ∧ (∀ l ∈ ls, l = .enter 0 ∨ l = .recv 0 ∨ l = .pass 0) ∧
      s'.tx = [] ∧ s'.inflight = [] ∧ s'.out.map Prod.fst = s.out.map Prod.fst ++ s.inflight ++ s.tx := by
  -- reach the place before `select` with nothing in hand
  have toTop : ∀ (s : Sys) (ses : Int) (pc : PC), s.gs = [⟨ses, pc⟩] → pc ≠ .done → (∀ c, pc ≠ .sel c) →
      ∃ ls s', exec s ls = some s' ∧ (∀ l ∈ ls, l = .enter 0 ∨ l = .recv 0 ∨ l = .pass 0) ∧ s'.gs = [⟨ses, .sel s.mapped⟩] ∧
        s'.tx = s.tx ∧ s'.mapped = s.mapped ∧ s'.out.map Prod.fst = s.out.map Prod.fst ++ s.inflight := by
    intro s ses pc hg hd hs
    cases pc with
    | top =>
      refine ⟨[.enter 0], { s with gs := [⟨ses, .sel s.mapped⟩] }, ?_, by simp, rfl, rfl, rfl, by simp [Sys.inflight, hg, PC.held]⟩
      simp [exec, step, hg, Sys.setPC]
    | sel c => exact absurd rfl (hs c)
    | done => exact absurd rfl hd
    | sending m =>
      refine ⟨[.pass 0, .enter 0], { s with gs := [⟨ses, .sel s.mapped⟩], out := s.out ++ [(m, m.dest.getD ses)] }, ?_, by simp, rfl, rfl, rfl,
        by simp [Sys.inflight, hg, PC.held]⟩
      simp [exec, step, hg, Sys.setPC]
  -- one message from inside `select`
  have fromSel : ∀ n, ∀ (s : Sys) (ses : Int) (c : Option Nat), s.tx.length = n → s.gs = [⟨ses, .sel c⟩] →
      ∃ ls s', exec s ls = some s' ∧ (∀ l ∈ ls, l = .enter 0 ∨ l = .recv 0 ∨ l = .pass 0) ∧
      s'.tx = [] ∧ s'.inflight = [] ∧ s'.out.map Prod.fst = s.out.map Prod.fst ++ s.tx := by
    intro n
    induction n with
    | zero =>
      intro s ses c hn hg
      have : s.tx = [] := List.eq_nil_of_length_eq_zero hn
      exact ⟨[], s, rfl, by simp, this, by simp [Sys.inflight, hg, PC.held], by simp [this]⟩
    | succ n ih =>
      intro s ses c hn hg
      cases htx : s.tx with
      | nil => simp [htx] at hn
      | cons m rest =>
        obtain ⟨ls1, s1, e1, l1, g1, t1, _, o1⟩ := toTop { s with gs := [⟨ses, .sending m⟩], tx := rest } ses (.sending m) rfl (by simp) (by simp)
        obtain ⟨ls2, s2, e2, l2, t2, i2, o2⟩ := ih s1 ses _ (by rw [t1]; simpa [htx] using hn) g1
        refine ⟨.recv 0 :: (ls1 ++ ls2), s2, ?_, ?_, t2, i2, ?_⟩
        · have : step s (.recv 0) = some { s with gs := [⟨ses, .sending m⟩], tx := rest } := by
            simp [step, hg, htx, Sys.setPC]
          rw [exec, this, Option.bind_some, exec_append, e1]; exact e2
        · intro l hl
          rcases List.mem_cons.mp hl with rfl | hl
          · exact Or.inr (Or.inl rfl)
          · rcases List.mem_append.mp hl with hl | hl
            · exact l1 l hl
            · exact l2 l hl
        · rw [o2, o1, t1]; simp [Sys.inflight, PC.held]
  intro s ses pc hn hg hd
  by_cases hsel : ∃ c, pc = .sel c
  · obtain ⟨c, rfl⟩ := hsel
    obtain ⟨ls, s', e, l, t, i, o⟩ := fromSel n s ses c hn hg
    exact ⟨ls, s', e, l, t, i, by rw [o]; simp [Sys.inflight, hg, PC.held]⟩
  · obtain ⟨ls1, s1, e1, l1, g1, t1, _, o1⟩ := toTop s ses pc hg hd fun c hc => hsel ⟨c, hc⟩
    obtain ⟨ls2, s2, e2, l2, t2, i2, o2⟩ := fromSel n s1 ses _ (by rw [t1]; exact hn) g1
    refine ⟨ls1 ++ ls2, s2, by rw [exec_append, e1]; exact e2, ?_, t2, i2, by rw [o2, o1, t1]⟩
    intro l hl
    rcases List.mem_append.mp hl with hl | hl
    · exact l1 l hl
    · exact l2 l hl

example : exec (.init 5) [.push ⟨1, none⟩, .add, .setSession 9, .push ⟨2, some 7⟩, .enter 0, .recv 0, .pass 0, .enter 0, .recv 0, .pass 0, .push ⟨3, none⟩]
    = some ⟨9, some 0, [⟨false, false⟩], [⟨3, none⟩], [⟨5, .top⟩], [(⟨1, none⟩, 5), (⟨2, some 7⟩, 7)]⟩ := by decide

/-- With two goroutines (deletion while the first one is sending, then adding again) the order is lost. -/
theorem c42_two_goroutines : ∃ ls s, exec (.init 5) ls = some s ∧ pushes ls = [⟨1, none⟩, ⟨2, none⟩] ∧
    s.out.map Prod.fst = [⟨2, none⟩, ⟨1, none⟩] :=
  ⟨[.add, .push ⟨1, none⟩, .enter 0, .recv 0, .delete, .add, .push ⟨2, none⟩, .enter 1, .recv 1, .pass 1, .pass 0], _, rfl, rfl, rfl⟩

/-! ## C41 -/

/-- A goroutine the deletion did not reach: the endpoint is not in the map and the goroutine does not wait on a stop
channel. -/
def Leaked (s : Sys) (i : Nat) : Prop :=
  s.mapped = none ∧ ∃ g, s.gs[i]? = some g ∧ (g.pc = .top ∨ g.pc = .sel none ∨ ∃ m, g.pc = .sending m)

theorem leaked_step {s s' : Sys} {i : Nat} {l : Label} (h : Leaked s i) (hs : step s l = some s') (hl : l ≠ .add) : Leaked s' i := by
  obtain ⟨hm, g, hg, hp⟩ := h
  -- a step of goroutine j
  have act : ∀ (j : Nat) (g' : G) (pc : PC) (s' : Sys), s.gs[j]? = some g' → s'.mapped = s.mapped → s'.gs = s.gs.set j { g' with pc := pc } →
      (j = i → pc = .top ∨ pc = .sel none ∨ ∃ m, pc = .sending m) → Leaked s' i := by
    intro j g' pc s' hj hm' hgs hpc
    refine ⟨hm'.trans hm, ?_⟩
    rw [hgs]
    have hlt : j < s.gs.length := by
      obtain ⟨h, _⟩ := List.getElem?_eq_some_iff.mp hj; exact h
    by_cases hji : j = i
    · subst hji
      exact ⟨{ g' with pc := pc }, by simp [List.getElem?_set_self hlt], hpc rfl⟩
    · exact ⟨g, by rw [List.getElem?_set_ne hji]; exact hg, hp⟩
  cases l with
  | add => exact absurd rfl hl
  | push m =>
    simp only [step] at hs
    split at hs
    · injection hs with hs; subst hs; exact ⟨hm, g, hg, hp⟩
    · simp at hs
  | setSession x => injection hs with hs; subst hs; exact ⟨hm, g, hg, hp⟩
  | delete =>
    simp only [step, hm] at hs
    injection hs with hs; subst hs; exact ⟨hm, g, hg, hp⟩
  | enter j =>
    simp only [step] at hs
    split at hs
    · rename_i g' hg'
      split at hs
      · injection hs with hs; subst hs
        exact act j g' _ _ hg' rfl rfl fun _ => Or.inr (Or.inl (by rw [hm]))
      · simp at hs
    · simp at hs
  | stop j =>
    simp only [step] at hs
    split at hs
    · rename_i g' hg'
      split at hs
      · rename_i c hpc
        have hne : j ≠ i := by
          rintro rfl
          rw [hg] at hg'
          injection hg' with hg'
          subst hg'
          rw [hpc] at hp
          simp at hp
        split at hs
        · split at hs
          · injection hs with hs; subst hs
            exact act j g' .done _ hg' rfl rfl fun h => absurd h hne
          · split at hs
            · injection hs with hs; subst hs
              exact act j g' .top _ hg' rfl rfl fun h => absurd h hne
            · simp at hs
        · simp at hs
      · simp at hs
    · simp at hs
  | recv j =>
    simp only [step] at hs
    split at hs
    · rename_i g' x rest hg' htx
      split at hs
      · injection hs with hs; subst hs
        exact act j g' _ _ hg' rfl rfl fun _ => Or.inr (Or.inr ⟨_, rfl⟩)
      · simp at hs
    · simp at hs
  | pass j =>
    simp only [step] at hs
    split at hs
    · rename_i g' hg'
      split at hs
      · injection hs with hs; subst hs
        exact act j g' _ _ hg' rfl rfl fun _ => Or.inl rfl
      · simp at hs
    · simp at hs

/-- C41 fails for good: a goroutine that was sending (or had just sent) when the endpoint was deleted never stops,
whatever happens, as long as the endpoint is not added again. -/
theorem c41_leaked_forever (i : Nat) (ls : List Label) : ∀ (s s' : Sys), Leaked s i → exec s ls = some s' → .add ∉ ls →
    Leaked s' i ∧ ∀ g, s'.gs[i]? = some g → g.pc ≠ .done := by
  induction ls with
  | nil =>
    intro s s' h he _
    injection he with he
    subst he
    refine ⟨h, ?_⟩
    obtain ⟨_, g, hg, hp⟩ := h
    intro g' hg'
    rw [hg] at hg'
    injection hg' with hg'
    subst hg'
    intro hd
    rw [hd] at hp
    simp at hp
  | cons l ls ih =>
    intro s s' h he ha
    rw [List.mem_cons, not_or] at ha
    simp only [exec] at he
    cases hs : step s l with
    | none => rw [hs] at he; simp at he
    | some m =>
      rw [hs] at he
      exact ih m s' (leaked_step h hs (Ne.symm ha.1)) he ha.2

/-- The schedule in which a deleted endpoint goes on being served. -/
def leakRounds (ms : List Msg) : List Label := ms.flatMap fun m => [.enter 0, .push m, .recv 0, .pass 0]

theorem leakRounds_exec (ms : List Msg) : ∀ (s : Sys) (ses : Int), s.gs = [⟨ses, .top⟩] → s.tx = [] →
    ∃ s', exec s (leakRounds ms) = some s' ∧ s'.out = s.out ++ ms.map fun m => (m, m.dest.getD ses) := by
  induction ms with
  | nil => intro s ses _ _; exact ⟨s, rfl, by simp⟩
  | cons m ms ih =>
    intro s ses hg ht
    obtain ⟨s', h1, h2⟩ := ih { s with out := s.out ++ [(m, m.dest.getD ses)] } ses hg ht
    refine ⟨s', ?_, by rw [h2]; simp⟩
    have : leakRounds (m :: ms) = [.enter 0, .push m, .recv 0, .pass 0] ++ leakRounds ms := rfl
    rw [this, exec_append]
    have h4 : exec s [.enter 0, .push m, .recv 0, .pass 0] = some { s with out := s.out ++ [(m, m.dest.getD ses)] } := by
      simp [exec, step, hg, ht, Sys.setPC]
    rw [h4]; exact h1

/-- C41 fails: for every list of messages there is a schedule in which all of them are put on the channel after the
deletion and all of them are sent. -/
theorem c41_violated (ms : List Msg) : ∃ before after s s', exec (.init 5) (before ++ [.delete]) = some s ∧ s.mapped = none ∧
    exec s after = some s' ∧ .add ∉ after ∧ pushes after = ms ∧ s'.out.map Prod.fst = s.out.map Prod.fst ++ ⟨0, none⟩ :: ms := by
  let s : Sys := ⟨5, none, [⟨true, true⟩], [], [⟨5, .sending ⟨0, none⟩⟩], []⟩
  obtain ⟨s', h1, h2⟩ := leakRounds_exec ms { s with gs := [⟨5, .top⟩], out := [(⟨0, none⟩, 5)] } 5 rfl rfl
  refine ⟨[.add, .push ⟨0, none⟩, .enter 0, .recv 0], .pass 0 :: leakRounds ms, s, s', by rfl, rfl, ?_, ?_, ?_, ?_⟩
  · exact h1
  · clear h1 h2
    simp only [List.mem_cons, reduceCtorEq, false_or]
    induction ms with
    | nil => simp [leakRounds]
    | cons m ms ih => simp only [leakRounds, List.flatMap_cons, List.mem_append, not_or]; exact ⟨by simp, ih⟩
  · clear h1 h2
    show pushes (leakRounds ms) = ms
    induction ms with
    | nil => rfl
    | cons m ms ih =>
      have : leakRounds (m :: ms) = [.enter 0, .push m, .recv 0, .pass 0] ++ leakRounds ms := rfl
      rw [this, pushes_append, ih]; rfl
  · rw [h2]
    simp [s, Function.comp_def]

/-- All goroutines have ended: nothing is sent. -/
theorem done_quiet (ls : List Label) : ∀ (s s' : Sys), (∀ g ∈ s.gs, g.pc = .done) → s.mapped = none → exec s ls = some s' → .add ∉ ls →
    s'.out = s.out ∧ s'.tx = s.tx ++ pushes ls ∧ s'.gs = s.gs ∧ s'.mapped = none := by
  induction ls with
  | nil => intro s s' _ hm he _; injection he with he; subst he; exact ⟨rfl, by simp [pushes], rfl, hm⟩
  | cons l ls ih =>
    intro s s' h hmp he ha
    rw [List.mem_cons, not_or] at ha
    simp only [exec] at he
    cases hs : step s l with
    | none => rw [hs] at he; simp at he
    | some m =>
      rw [hs] at he
      have hgm : ∀ (i : Nat) (g : G), s.gs[i]? = some g → g.pc = .done := fun i g hg => h g (List.mem_of_getElem? hg)
      have key : m.gs = s.gs ∧ m.mapped = none ∧ m.out = s.out ∧ m.tx = s.tx ++ pushes [l] := by
        cases l with
        | add => exact absurd rfl ha.1
        | push x =>
          simp only [step] at hs
          split at hs
          · injection hs with hs; subst hs; exact ⟨rfl, hmp, rfl, rfl⟩
          · simp at hs
        | setSession x => injection hs with hs; subst hs; exact ⟨rfl, hmp, rfl, by simp [pushes]⟩
        | delete => simp only [step, hmp] at hs; injection hs with hs; subst hs; exact ⟨rfl, hmp, rfl, by simp [pushes]⟩
        | enter i =>
          simp only [step] at hs
          split at hs
          · rename_i g hg; rw [hgm i g hg] at hs; simp at hs
          · simp at hs
        | stop i =>
          simp only [step] at hs
          split at hs
          · rename_i g hg; rw [hgm i g hg] at hs; simp at hs
          · simp at hs
        | recv i =>
          simp only [step] at hs
          split at hs
          · rename_i g _ _ hg _; rw [hgm i g hg] at hs; simp at hs
          · simp at hs
        | pass i =>
          simp only [step] at hs
          split at hs
          · rename_i g hg; rw [hgm i g hg] at hs; simp at hs
          · simp at hs
      obtain ⟨k1, k2, k3, k4⟩ := key
      obtain ⟨r1, r2, r3, r4⟩ := ih m s' (by rw [k1]; exact h) k2 he ha.2
      refine ⟨r1.trans k3, ?_, r3.trans k1, r4⟩
      rw [r2, k4, List.append_assoc, ← pushes_append]; rfl

/-- C41, part: if at the deletion the endpoint's goroutine waits in `select`, the channel is empty, and the goroutine runs before new data
is put on the channel, then nothing is sent any more, for every schedule (without adding the endpoint again).  Missing:
the other moments of deletion, for which the code fails (`c41_violated`, `c41_leaked_forever`). -/
theorem c41_partial (s s' : Sys) (c : Nat) (ses : Int) (first rest : List Label)
    (hm : s.mapped = some c) (hc : c < s.chans.length) (hg : s.gs = [⟨ses, .sel (some c)⟩]) (ht : s.tx = [])
    (he : exec s (.delete :: (first ++ .stop 0 :: rest)) = some s')
    (hf : ∀ l ∈ first, l ≠ .add ∧ ∀ m, l ≠ .push m) (hr : .add ∉ rest) :
    s'.out = s.out ∧ s'.tx = pushes rest := by
  have hd : step s .delete = some { s with mapped := none, chans := s.chans.set c ⟨true, true⟩ } := by simp [step, hm]
  rw [exec, hd, Option.bind_some, exec_append] at he
  -- nothing happens before the goroutine's step
  have wait : ∀ (ls : List Label) (t u : Sys), t.mapped = none → t.gs = [⟨ses, .sel (some c)⟩] → t.tx = [] → t.out = s.out →
      t.chans[c]? = some ⟨true, true⟩ → (∀ l ∈ ls, l ≠ .add ∧ ∀ m, l ≠ .push m) → exec t ls = some u →
      (u.mapped = none ∧ u.tx = [] ∧ u.out = s.out ∧ (u.gs = [⟨ses, .done⟩] ∨ (u.gs = [⟨ses, .sel (some c)⟩] ∧ u.chans[c]? = some ⟨true, true⟩))) := by
    intro ls
    induction ls with
    | nil => intro t u a1 a2 a3 a4 a5 _ he; injection he with he; subst he; exact ⟨a1, a3, a4, Or.inr ⟨a2, a5⟩⟩
    | cons l ls ih =>
      intro t u a1 a2 a3 a4 a5 hls he
      simp only [exec] at he
      cases hs : step t l with
      | none => rw [hs] at he; simp at he
      | some v =>
        rw [hs] at he
        have hl := hls l List.mem_cons_self
        have hls' : ∀ l ∈ ls, l ≠ .add ∧ ∀ m, l ≠ .push m := fun l h => hls l (List.mem_cons_of_mem _ h)
        have at0 : ∀ i g, t.gs[i]? = some g → i = 0 ∧ g = ⟨ses, .sel (some c)⟩ := by
          intro i g hg
          rw [a2] at hg
          cases i with
          | zero => simp only [List.getElem?_cons_zero, Option.some.injEq] at hg; exact ⟨rfl, hg.symm⟩
          | succ i => simp at hg
        cases l with
        | add => exact absurd rfl hl.1
        | push m => exact absurd rfl (hl.2 m)
        | setSession x => injection hs with hs; subst hs; exact ih { t with session := x } u a1 a2 a3 a4 a5 hls' he
        | delete => simp only [step, a1] at hs; injection hs with hs; subst hs; exact ih t u a1 a2 a3 a4 a5 hls' he
        | enter i =>
          simp only [step] at hs
          split at hs
          · rename_i g hg; rw [(at0 i g hg).2] at hs; simp at hs
          · simp at hs
        | recv i => simp only [step, a3] at hs; simp at hs
        | pass i =>
          simp only [step] at hs
          split at hs
          · rename_i g hg; rw [(at0 i g hg).2] at hs; simp at hs
          · simp at hs
        | stop i =>
          simp only [step] at hs
          split at hs
          · rename_i g hg
            obtain ⟨hi0, hg0⟩ := at0 i g hg
            subst hi0
            subst hg0
            simp only [a5, if_true] at hs
            injection hs with hs
            have hv : v.gs = [⟨ses, .done⟩] ∧ v.mapped = none ∧ v.tx = [] ∧ v.out = s.out := by
              subst hs; simp [Sys.setPC, a1, a2, a3, a4]
            have q := done_quiet ls v u (by rw [hv.1]; simp) hv.2.1 he (fun ha => (hls' _ ha).1 rfl)
            have hp : pushes ls = [] := by
              rw [pushes, List.filterMap_eq_nil_iff]
              intro l hl
              have := (hls' l hl).2
              cases l <;> first | rfl | exact absurd rfl (this _)
            exact ⟨q.2.2.2, by rw [q.2.1, hv.2.2.1, hp]; rfl, by rw [q.1, hv.2.2.2], Or.inl (by rw [q.2.2.1, hv.1])⟩
          · simp at hs
  cases hm1 : exec { s with mapped := none, chans := s.chans.set c ⟨true, true⟩ } first with
  | none => rw [hm1] at he; simp at he
  | some t =>
    rw [hm1] at he
    obtain ⟨b1, b2, b3, b4⟩ := wait first { s with mapped := none, chans := s.chans.set c ⟨true, true⟩ } t rfl hg ht rfl
      (by simp [List.getElem?_set_self hc]) hf hm1
    simp only [Option.bind_some, exec] at he
    rcases b4 with b4 | ⟨b4, b5⟩
    · simp [step, b4] at he
    · have hs : step t (.stop 0) = some { t with gs := [⟨ses, .done⟩], chans := t.chans.set c ⟨false, true⟩ } := by
        simp [step, b4, b5, Sys.setPC]
      rw [hs] at he
      have q := done_quiet rest { t with gs := [⟨ses, .done⟩], chans := t.chans.set c ⟨false, true⟩ } s' (by simp) b1 he hr
      exact ⟨q.1.trans b3, by rw [q.2.1]; simp [b2]⟩

/-- The hypotheses can be met: an endpoint served, its data sent, deleted while its goroutine waits, then written to. -/
example : ∃ s s', exec (.init 5) [.add, .enter 0, .push ⟨1, none⟩, .recv 0, .pass 0, .enter 0] = some s ∧
    s.mapped = some 0 ∧ s.gs = [⟨5, .sel (some 0)⟩] ∧ s.tx = [] ∧
    exec s (.delete :: ([.setSession 6] ++ .stop 0 :: [.push ⟨2, none⟩])) = some s' ∧ s'.out = s.out ∧ s'.tx = [⟨2, none⟩] :=
  ⟨_, _, rfl, rfl, rfl, rfl, rfl, rfl, rfl⟩

/-! ### Exactly which deletions stop the goroutine -/

/-- What holds while the endpoint is served by the first goroutine. -/
structure Sole (s : Sys) : Prop where
  eq : s.chans.length = s.gs.length
  last : ∀ c, s.mapped = some c → c + 1 = s.chans.length ∧ s.chans[c]? = some ⟨false, false⟩
  pc : ∀ g, s.gs = [g] → s.mapped ≠ none → g.pc = .top ∨ g.pc = .sel (some 0) ∨ ∃ m, g.pc = .sending m

theorem sole_step {s s' : Sys} {l : Label} (h : Sole s) (hs : step s l = some s') : Sole s' := by
  -- goroutine `i` moves to `pc`; its channels are as before
  have act : ∀ (i : Nat) (g : G) (pc : PC) (s' : Sys), s.gs[i]? = some g → s'.gs = s.gs.set i { g with pc := pc } → s'.mapped = s.mapped →
      s'.chans = s.chans → (s.gs = [g] → s.mapped ≠ none → pc = .top ∨ pc = .sel (some 0) ∨ ∃ m, pc = .sending m) → Sole s' := by
    intro i g pc s' hg hgs hm hc hpc
    refine ⟨by rw [hc, hgs, List.length_set]; exact h.eq, by rw [hm, hc]; exact h.last, ?_⟩
    intro g' hg' hm'
    rw [hm] at hm'
    have hone : s.gs = [g] ∧ i = 0 := by
      have hlen : s.gs.length = 1 := by rw [← List.length_set (i := i) (a := { g with pc := pc }), ← hgs, hg']; rfl
      obtain ⟨a, ha⟩ := List.length_eq_one_iff.mp hlen
      rw [ha] at hg
      cases i with
      | zero => simp only [List.getElem?_cons_zero, Option.some.injEq] at hg; exact ⟨by rw [ha, hg], rfl⟩
      | succ i => simp at hg
    rw [hgs, hone.1, hone.2] at hg'
    simp only [List.set_cons_zero, List.cons.injEq, and_true] at hg'
    rw [← hg']
    exact hpc hone.1 hm'
  cases l with
  | push m =>
    simp only [step] at hs
    split at hs
    · injection hs with hs; subst hs; exact ⟨h.eq, h.last, h.pc⟩
    · simp at hs
  | setSession x => injection hs with hs; subst hs; exact ⟨h.eq, h.last, h.pc⟩
  | add =>
    simp only [step] at hs
    split at hs
    · injection hs with hs; subst hs; exact h
    · rename_i hm
      injection hs with hs; subst hs
      refine ⟨by simp [h.eq], ?_, ?_⟩
      · intro c hc
        injection hc with hc
        subst hc
        simp
      · intro g hg _
        have : s.gs = [] := by
          have := congrArg List.length hg
          simp at this
          exact this
        simp only [this, List.nil_append, List.cons.injEq, and_true] at hg
        exact Or.inl (by rw [← hg])
  | delete =>
    simp only [step] at hs
    split at hs
    · injection hs with hs; subst hs
      exact ⟨by simp [h.eq], by simp, by simp⟩
    · injection hs with hs; subst hs; exact h
  | enter i =>
    simp only [step] at hs
    split at hs
    · rename_i g hg
      split at hs
      · injection hs with hs; subst hs
        refine act i g _ _ hg rfl rfl rfl ?_
        intro h1 hm
        cases hmm : s.mapped with
        | none => exact absurd hmm hm
        | some c =>
          have := (h.last c hmm).1
          rw [h.eq, h1] at this
          have : c = 0 := by simpa using this
          exact Or.inr (Or.inl (by rw [this]))
      · simp at hs
    · simp at hs
  | stop i =>
    simp only [step] at hs
    split at hs
    · rename_i g hg
      split at hs
      · rename_i c hpc
        split at hs
        · rename_i ch hch
          split at hs
          · rename_i hfull
            injection hs with hs; subst hs
            refine ⟨by simp [Sys.setPC, h.eq], ?_, ?_⟩
            · intro c' hc'
              obtain ⟨k1, k2⟩ := h.last c' hc'
              refine ⟨by simpa [Sys.setPC] using k1, ?_⟩
              have hne : c ≠ c' := by
                rintro rfl
                rw [hch] at k2
                injection k2 with k2
                rw [k2] at hfull
                simp at hfull
              simp only [Sys.setPC]
              rw [List.getElem?_set_ne hne]; exact k2
            · intro g' hg' hm'
              exfalso
              cases hmm : s.mapped with
              | none => exact hm' hmm
              | some c' =>
                obtain ⟨k1, k2⟩ := h.last c' hmm
                have hlen : s.gs.length = 1 := by
                  have := congrArg List.length hg'
                  simpa [Sys.setPC] using this
                have hc0 : c' = 0 := by rw [h.eq, hlen] at k1; omega
                obtain ⟨hlt, _⟩ := List.getElem?_eq_some_iff.mp hch
                have : c = 0 := by rw [h.eq, hlen] at hlt; omega
                rw [this] at hch
                rw [hc0, hch] at k2
                injection k2 with k2
                rw [k2] at hfull
                simp at hfull
          · split at hs
            · injection hs with hs; subst hs
              exact act i g _ _ hg rfl rfl rfl fun _ _ => Or.inl rfl
            · simp at hs
        · simp at hs
      · simp at hs
    · simp at hs
  | recv i =>
    simp only [step] at hs
    split at hs
    · rename_i g x rest hg htx
      split at hs
      · injection hs with hs; subst hs
        exact act i g _ _ hg rfl rfl rfl fun _ _ => Or.inr (Or.inr ⟨_, rfl⟩)
      · simp at hs
    · simp at hs
  | pass i =>
    simp only [step] at hs
    split at hs
    · rename_i g hg
      split at hs
      · injection hs with hs; subst hs
        exact act i g _ _ hg rfl rfl rfl fun _ _ => Or.inl rfl
      · simp at hs
    · simp at hs

theorem sole_exec (session : Int) (ls : List Label) : ∀ s, exec (.init session) ls = some s → Sole s := by
  induction ls using snoc_induction with
  | h0 => intro s h; injection h with h; subst h; exact ⟨rfl, by simp [Sys.init], by simp [Sys.init]⟩
  | h1 ls l ih =>
    intro s h
    obtain ⟨m, hm, hs⟩ := exec_snoc h
    exact sole_step (ih m hm) hs

/-- A step of goroutine 0. -/
def Label.acts : Label → Bool
  | .enter 0 | .stop 0 | .recv 0 | .pass 0 => true
  | _ => false

/-- C41, exact: an endpoint served by one goroutine is deleted at any moment; then, for every schedule in which it is not
added again, the goroutine has ended iff the first thing it did after the deletion was to take the stop signal.  In all
other cases it never ends. -/
theorem c41_iff (session : Int) (before after : List Label) (s s' : Sys) (hb : exec (.init session) before = some s)
    (h1 : s.gs.length = 1) (hm : s.mapped ≠ none) (he : exec s (.delete :: after) = some s') (ha : .add ∉ after) :
    (∃ g, s'.gs[0]? = some g ∧ g.pc = .done) ↔ after.find? Label.acts = some (.stop 0) := by
  have hsole := sole_exec session before s hb
  obtain ⟨g, hg⟩ := List.length_eq_one_iff.mp h1
  have hpc := hsole.pc g hg hm
  cases hmm : s.mapped with
  | none => exact absurd hmm hm
  | some c =>
    obtain ⟨k1, k2⟩ := hsole.last c hmm
    have hc0 : c = 0 := by rw [hsole.eq, h1] at k1; omega
    subst hc0
    obtain ⟨hlt, _⟩ := List.getElem?_eq_some_iff.mp k2
    have hd : step s .delete = some { s with mapped := none, chans := s.chans.set 0 ⟨true, true⟩ } := by simp [step, hmm]
    rw [exec, hd, Option.bind_some] at he
    -- up to the first step of the goroutine
    have key : ∀ (ls : List Label) (t t' : Sys), t.mapped = none → t.gs = [g] → t.chans[0]? = some ⟨true, true⟩ → .add ∉ ls → exec t ls = some t' →
        ((∃ g, t'.gs[0]? = some g ∧ g.pc = .done) ↔ ls.find? Label.acts = some (.stop 0)) := by
      intro ls
      induction ls with
      | nil =>
        intro t t' _ hg' _ _ he
        injection he with he; subst he
        rw [hg']
        simp only [List.getElem?_cons_zero, Option.some.injEq, exists_eq_left', List.find?_nil, reduceCtorEq, iff_false]
        intro hd
        rw [hd] at hpc
        simp at hpc
      | cons l ls ih =>
        intro t t' hm' hg' hch ha he
        rw [List.mem_cons, not_or] at ha
        simp only [exec] at he
        cases hs : step t l with
        | none => rw [hs] at he; simp at he
        | some u =>
          rw [hs, Option.bind_some] at he
          have at0 : ∀ i x, t.gs[i]? = some x → i = 0 ∧ x = g := by
            intro i x hx
            rw [hg'] at hx
            cases i with
            | zero => simp only [List.getElem?_cons_zero, Option.some.injEq] at hx; exact ⟨rfl, hx.symm⟩
            | succ i => simp at hx
          -- the goroutine did something else: it is lost
          have lost : Leaked u 0 → l.acts = true → l ≠ .stop 0 →
              ((∃ g, t'.gs[0]? = some g ∧ g.pc = .done) ↔ (l :: ls).find? Label.acts = some (.stop 0)) := by
            intro hu hl hne
            have := (c41_leaked_forever 0 ls u t' hu he ha.2).2
            rw [List.find?_cons_of_pos hl]
            simp only [Option.some.injEq]
            exact ⟨fun ⟨x, hx, hx'⟩ => absurd hx' (this x hx), fun h => absurd h hne⟩
          have skip : l.acts = false → u.mapped = none → u.gs = [g] → u.chans[0]? = some ⟨true, true⟩ →
              ((∃ g, t'.gs[0]? = some g ∧ g.pc = .done) ↔ (l :: ls).find? Label.acts = some (.stop 0)) := by
            intro hl a1 a2 a3
            rw [List.find?_cons_of_neg (by simp [hl])]
            exact ih u t' a1 a2 a3 ha.2 he
          cases l with
          | add => exact absurd rfl ha.1
          | push m =>
            simp only [step] at hs
            split at hs
            · injection hs with hs; subst hs; exact skip rfl hm' hg' hch
            · simp at hs
          | setSession x => injection hs with hs; subst hs; exact skip rfl hm' hg' hch
          | delete => simp only [step, hm'] at hs; injection hs with hs; subst hs; exact skip rfl hm' hg' hch
          | enter i =>
            simp only [step] at hs
            split at hs
            · rename_i x hx
              obtain ⟨rfl, rfl⟩ := at0 i x hx
              split at hs
              · injection hs with hs; subst hs
                exact lost ⟨hm', { x with pc := .sel t.mapped }, by simp [Sys.setPC, hg'], Or.inr (Or.inl (by simp [hm']))⟩ rfl (by simp)
              · simp at hs
            · simp at hs
          | recv i =>
            simp only [step] at hs
            split at hs
            · rename_i x y rest hx htx
              obtain ⟨rfl, rfl⟩ := at0 i x hx
              split at hs
              · injection hs with hs; subst hs
                exact lost ⟨hm', { x with pc := .sending y }, by simp [Sys.setPC, hg'], Or.inr (Or.inr ⟨y, rfl⟩)⟩ rfl (by simp)
              · simp at hs
            · simp at hs
          | pass i =>
            simp only [step] at hs
            split at hs
            · rename_i x hx
              obtain ⟨rfl, rfl⟩ := at0 i x hx
              split at hs
              · injection hs with hs; subst hs
                exact lost ⟨hm', { x with pc := .top }, by simp [Sys.setPC, hg'], Or.inl rfl⟩ rfl (by simp)
              · simp at hs
            · simp at hs
          | stop i =>
            simp only [step] at hs
            split at hs
            · rename_i x hx
              obtain ⟨rfl, rfl⟩ := at0 i x hx
              rw [List.find?_cons_of_pos rfl]
              simp only [iff_true]
              split at hs
              · rename_i c hp
                have hc : c = 0 := by
                  rw [hp] at hpc
                  simp at hpc
                  exact hpc
                subst hc
                simp only [hch, if_true] at hs
                injection hs with hs
                have hu : u.gs = [{ x with pc := .done }] ∧ u.mapped = none := by
                  subst hs; simp [Sys.setPC, hg', hm']
                have q := done_quiet ls u t' (by rw [hu.1]; simp) hu.2 he ha.2
                exact ⟨{ x with pc := .done }, by rw [q.2.2.1, hu.1]; rfl, rfl⟩
              · simp at hs
            · simp at hs
    exact key after { s with mapped := none, chans := s.chans.set 0 ⟨true, true⟩ } s' rfl hg (by simp [List.getElem?_set_self hlt]) ha he

/-- Both cases occur, for the same moment of deletion. -/
example : ∃ s s1 s2, exec (.init 5) [.add, .push ⟨1, none⟩, .enter 0] = some s ∧ s.gs.length = 1 ∧ s.mapped = some 0 ∧
    exec s (.delete :: [.setSession 6, .stop 0]) = some s1 ∧ s1.gs = [⟨5, .done⟩] ∧
    exec s (.delete :: [.recv 0, .pass 0, .enter 0]) = some s2 ∧ s2.gs = [⟨5, .sel none⟩] :=
  ⟨_, _, _, rfl, rfl, rfl, rfl, rfl, rfl, rfl⟩

end Verif.Reg.Serve
