import Verif.Reg.Serving

/-!
# When the sessions served differ (C37) and when the registered endpoints are served (C38)

The weakest conditions, for histories of calls in which the session number of an endpoint is changed only while nobody
serves it (`Tidy`): C37 holds throughout a history iff no `Run` finds a service goroutine alive; C38 iff moreover the
registered endpoints always have different session numbers and no later `Run` finds a registered endpoint.
`c37_renumbering_violated` shows that `Tidy` cannot be dropped: a change of the session number of a served endpoint can
always be continued to a violation of C37.
-/

namespace Verif.Reg
open Stack (Val optionParseInt)

/-! ## What a call does to the decks -/

/-- The endpoints served by the decks after a call. -/
def deckStep (u : U) : Op → DeckId → List EpId
  | .addEndPoint e, d => if e ∉ u.eps ∧ u.decks = some d then admit u.session (u.served d) e else u.served d
  | .deleteEndPoint e, d => if e ∈ u.eps ∧ u.decks = some d then (u.served d).erase e else u.served d
  | .run, d => if d = u.nextDeck then u.eps.foldl (admit u.session) (u.served u.nextDeck) else u.served d
  | _, d => u.served d

theorem served_step (u : U) (op : Op) : (u.step op).served = deckStep u op ∧
    (u.step op).decks = (if op.isRun then some u.nextDeck else u.decks) ∧
    (u.step op).nextDeck = u.nextDeck + runs [op] := by
  have hpub : ∀ (v : U) (ev : Event), (∀ e, ev.data ≠ .ep e) →
      (v.publish ev).served = v.served ∧ (v.publish ev).decks = v.decks ∧ (v.publish ev).nextDeck = v.nextDeck := by
    intro v ev hev
    obtain ⟨l, hp, _⟩ := publish_eq v ev
    rw [hp, servedAfter_other v ev hev]
    exact ⟨rfl, rfl, rfl⟩
  cases op with
  | addEndPoint e =>
    simp only [U.step, U.addEndPoint]
    split
    · rename_i he
      exact ⟨by funext d; simp [deckStep, he], rfl, rfl⟩
    · rename_i he
      obtain ⟨l, hp, _⟩ := publish_eq u ⟨.endpointAdded, .ep e⟩
      rw [hp]
      refine ⟨?_, rfl, rfl⟩
      funext d
      simp only [servedAfter, deckStep, deckAfter, admit, if_true, he, not_false_eq_true, true_and]
  | deleteEndPoint e =>
    simp only [U.step, U.deleteEndPoint]
    cases hx : u.eps.idxOf? e with
    | none =>
      rw [List.idxOf?_eq_none_iff] at hx
      exact ⟨by funext d; simp [deckStep, hx], rfl, rfl⟩
    | some i =>
      have he := (idxOf?_mem hx).1
      obtain ⟨l, hp, _⟩ := publish_eq u ⟨.endpointDeleted, .ep e⟩
      simp only
      rw [hp]
      refine ⟨?_, rfl, rfl⟩
      funext d
      simp [servedAfter, deckStep, deckAfter, he]
  | addTransport t =>
    simp only [U.step, U.addTransport]
    split
    · exact ⟨rfl, rfl, rfl⟩
    · exact hpub u _ (by simp)
  | deleteTransport t =>
    simp only [U.step, U.deleteTransport]
    split
    · exact ⟨rfl, rfl, rfl⟩
    · exact hpub { u with tmem := _, transports := _ } _ (by simp)
  | publish t c => exact hpub u _ (by simp)
  | run =>
    obtain ⟨l, hp, _⟩ := run_eq u
    simp only [U.step]
    rw [hp]
    exact ⟨rfl, rfl, rfl⟩
  | _ => exact ⟨rfl, rfl, rfl⟩

theorem eps_step {u : U} (h : u.Inv) (op : Op) : (u.step op).eps = specEps u.eps op :=
  congrArg View.eps (view_step u h op).1

theorem specEps_run (l : List EpId) : specEps l .run = l := rfl

/-! ## Histories -/

/-- The state after a history of calls on a new stack. -/
abbrev after (session : EpId → Int) (cost : ProcId → Int) (spare : Nat → Nat) (ops : List Op) : U :=
  (U.new session cost spare).steps ops

theorem steps_snoc (u : U) (ops : List Op) (op : Op) : u.steps (ops ++ [op]) = (u.steps ops).step op := by
  simp [U.steps]

/-- The session number of an endpoint is changed only while no service goroutine for it is alive. -/
def Tidy (session : EpId → Int) (cost : ProcId → Int) (spare : Nat → Nat) (ops : List Op) : Prop :=
  ∀ pre e s rest, ops = pre ++ .setSession e s :: rest → ∀ x ∈ alive (after session cost spare pre).log, x.ep ≠ e

/-- `Run` is called only while no service goroutine is alive. -/
def RunsIdle (session : EpId → Int) (cost : ProcId → Int) (spare : Nat → Nat) (ops : List Op) : Prop :=
  ∀ pre rest, ops = pre ++ .run :: rest → alive (after session cost spare pre).log = []

theorem tidy_pre {session cost spare} {a b : List Op} (h : Tidy session cost spare (a ++ b)) : Tidy session cost spare a :=
  fun pre e s rest he => h pre e s (rest ++ b) (by rw [he]; simp)

theorem runsIdle_pre {session cost spare} {a b : List Op} (h : RunsIdle session cost spare (a ++ b)) :
    RunsIdle session cost spare a :=
  fun pre rest he => h pre (rest ++ b) (by rw [he]; simp)

theorem ops_induction {P : List Op → Prop} (nil : P []) (snoc : ∀ ops op, P ops → P (ops ++ [op])) (ops : List Op) : P ops := by
  suffices h : ∀ n, ∀ ops : List Op, ops.length = n → P ops from h _ ops rfl
  intro n
  induction n with
  | zero => intro ops h; rw [List.eq_nil_of_length_eq_zero h]; exact nil
  | succ n ih =>
    intro ops h
    have hne : ops ≠ [] := by intro he; rw [he] at h; simp at h
    rw [← List.dropLast_concat_getLast hne]
    exact snoc _ _ (ih _ (by simp [h]))

/-- What holds in a tidy history. -/
structure U.Fit (u : U) : Prop where
  inv : u.Inv
  srv : u.Srv
  decks : u.Decks

theorem mem_served {u : U} (h : u.Srv) {d : DeckId} {e : EpId} (he : e ∈ u.served d) :
    ∃ x ∈ alive u.log, x.deck = d ∧ x.ep = e := by
  rw [← h.srv d, servedBy, List.mem_map] at he
  obtain ⟨x, hx, rfl⟩ := he
  rw [List.mem_filter] at hx
  exact ⟨x, hx.1, by simpa using hx.2, rfl⟩

theorem served_of_alive {u : U} (h : u.Srv) {x : Service} (hx : x ∈ alive u.log) : x.ep ∈ u.served x.deck := by
  rw [← h.srv x.deck]
  exact List.mem_map.mpr ⟨x, List.mem_filter.mpr ⟨hx, by simp⟩, rfl⟩

theorem fit_setSession {u : U} (h : u.Fit) (e : EpId) (s : Int) (hn : ∀ x ∈ alive u.log, x.ep ≠ e) :
    (u.step (.setSession e s)).Fit := by
  refine ⟨(view_step u h.inv _).2, ⟨h.srv.srv, ?_⟩, ⟨?_, h.decks.fresh, h.decks.cur⟩⟩
  · intro x hx
    show x.session = if x.ep = e then s else u.session x.ep
    rw [if_neg (hn x hx)]
    exact h.srv.cap x hx
  · intro d
    refine List.Pairwise.imp_of_mem ?_ (h.decks.sep d)
    intro a b ha hb hab
    obtain ⟨x, hx, _, rfl⟩ := mem_served h.srv ha
    obtain ⟨y, hy, _, rfl⟩ := mem_served h.srv hb
    show (if x.ep = e then s else u.session x.ep) ≠ if y.ep = e then s else u.session y.ep
    rw [if_neg (hn x hx), if_neg (hn y hy)]
    exact hab

theorem fit_step {u : U} (h : u.Fit) (op : Op) (hn : ∀ e s, op = .setSession e s → ∀ x ∈ alive u.log, x.ep ≠ e) :
    (u.step op).Fit := by
  by_cases hop : op.isSetSession = true
  · cases op with
    | setSession e s => exact fit_setSession h e s (hn e s rfl)
    | _ => simp [Op.isSetSession] at hop
  · rw [Bool.not_eq_true] at hop
    exact ⟨(view_step u h.inv op).2, srv_step h.srv op hop, (decks_step h.decks op hop).1⟩

theorem tidy_snoc {session cost spare} {ops : List Op} {op : Op} (h : Tidy session cost spare (ops ++ [op])) :
    ∀ e s, op = .setSession e s → ∀ x ∈ alive (after session cost spare ops).log, x.ep ≠ e := by
  intro e s he
  subst he
  exact h ops e s [] rfl

theorem fit_after {session : EpId → Int} {cost : ProcId → Int} {spare : Nat → Nat} (ops : List Op)
    (h : Tidy session cost spare ops) : (after session cost spare ops).Fit := by
  induction ops using ops_induction with
  | nil => exact ⟨U.inv_new .., srv_new .., decks_new ..⟩
  | snoc ops op ih =>
    rw [after, steps_snoc]
    exact fit_step (ih (tidy_pre h)) op (tidy_snoc h)

/-! ## Only the current deck serves, and it serves registered endpoints -/

structure U.Lone (u : U) : Prop where
  solo : ∀ d, u.decks ≠ some d → u.served d = []
  part : ∀ d, ∀ e ∈ u.served d, e ∈ u.eps

theorem lone_step {u : U} (hf : u.Fit) (h : u.Lone) (op : Op) (hr : op = .run → alive u.log = []) : (u.step op).Lone := by
  obtain ⟨h1, h2, _⟩ := served_step u op
  have h3 := eps_step hf.inv op
  cases op with
  | addEndPoint e =>
    simp only [Op.isRun, Bool.false_eq_true, if_false] at h2
    constructor
    · intro d hd
      rw [h2] at hd
      rw [h1, deckStep, if_neg (by rintro ⟨-, hx⟩; exact hd hx)]
      exact h.solo d hd
    · intro d x hx
      rw [h1, deckStep] at hx
      rw [h3, specEps]
      split at hx
      · rename_i hc
        rw [if_neg hc.1, List.mem_append, List.mem_singleton]
        rcases admit_mem hx with hx | hx
        · exact Or.inl (h.part d x hx)
        · exact Or.inr hx
      · have := h.part d x hx
        split
        · exact this
        · exact List.mem_append_left _ this
  | deleteEndPoint e =>
    simp only [Op.isRun, Bool.false_eq_true, if_false] at h2
    constructor
    · intro d hd
      rw [h2] at hd
      rw [h1, deckStep, if_neg (by rintro ⟨-, hx⟩; exact hd hx)]
      exact h.solo d hd
    · intro d x hx
      rw [h1, deckStep] at hx
      rw [h3, specEps, List.mem_filter, decide_eq_true_eq]
      split at hx
      · have hn : (u.served d).Nodup := (hf.decks.sep d).imp fun h he => h (by rw [he])
        rw [hn.mem_erase_iff] at hx
        exact ⟨h.part d x hx.2, hx.1⟩
      · rename_i hc
        have hx' := h.part d x hx
        refine ⟨hx', ?_⟩
        intro hxe
        subst hxe
        apply hc
        refine ⟨hx', Classical.byContradiction fun hd => ?_⟩
        rw [h.solo d hd] at hx
        exact List.not_mem_nil hx
  | run =>
    simp only [Op.isRun, if_true] at h2
    have hz : ∀ d, u.served d = [] := fun d => by rw [← hf.srv.srv d, hr rfl]; rfl
    constructor
    · intro d hd
      rw [h2] at hd
      rw [h1, deckStep, if_neg (by rintro rfl; exact hd rfl)]
      exact hz d
    · intro d x hx
      rw [h1, deckStep] at hx
      rw [h3]
      show x ∈ u.eps
      split at hx
      · rw [hz] at hx
        rcases admits_mem _ hx with hx | hx
        · exact absurd hx List.not_mem_nil
        · exact hx
      · rw [hz] at hx; exact absurd hx List.not_mem_nil
  | _ =>
    simp only [Op.isRun, Bool.false_eq_true, if_false] at h2
    exact ⟨fun d hd => by rw [h1]; exact h.solo d (h2 ▸ hd), fun d x hx => by rw [h3]; rw [h1] at hx; exact h.part d x hx⟩

theorem lone_after {session : EpId → Int} {cost : ProcId → Int} {spare : Nat → Nat} (ops : List Op)
    (h : Tidy session cost spare ops) (hr : RunsIdle session cost spare ops) : (after session cost spare ops).Lone := by
  induction ops using ops_induction with
  | nil => exact ⟨fun _ _ => rfl, fun d x hx => absurd hx List.not_mem_nil⟩
  | snoc ops op ih =>
    rw [after, steps_snoc]
    exact lone_step (fit_after ops (tidy_pre h)) (ih (tidy_pre h) (runsIdle_pre hr)) op
      (fun he => hr ops [] (by rw [he]))

/-! ## C37 -/

/-- C37 in a state, on the log: the live service goroutines are for different endpoints with different sessions. -/
def Apart (u : U) : Prop := (alive u.log).Pairwise fun x y => x.session ≠ y.session ∧ x.ep ≠ y.ep

theorem apart_of_lone {u : U} (hf : u.Fit) (h : u.Lone) : Apart u := by
  have hp := pairwise_of_servedBy (session := u.session) (alive u.log) (fun d => by rw [hf.srv.srv d]; exact hf.decks.sep d)
  refine List.Pairwise.imp_of_mem ?_ hp
  intro x y hx hy hxy
  have hd : x.deck = y.deck := by
    have ha : ∀ z ∈ alive u.log, u.decks = some z.deck := by
      intro z hz
      refine Classical.byContradiction fun hd => ?_
      have := served_of_alive hf.srv hz
      rw [h.solo _ hd] at this
      exact List.not_mem_nil this
    have := (ha x hx).symm.trans (ha y hy)
    injection this
  have := hxy hd
  refine ⟨by rw [hf.srv.cap x hx, hf.srv.cap y hy]; exact this, ?_⟩
  intro he
  exact this (by rw [he])

theorem pairwise_mem {R : α → α → Prop} (hsym : ∀ x y, R x y → R y x) {l : List α} (h : l.Pairwise R) {a b : α}
    (ha : a ∈ l) (hb : b ∈ l) (hne : a ≠ b) : R a b := by
  induction l with
  | nil => exact absurd ha List.not_mem_nil
  | cons x l ih =>
    rw [List.pairwise_cons] at h
    rw [List.mem_cons] at ha hb
    rcases ha with rfl | ha <;> rcases hb with rfl | hb
    · exact absurd rfl hne
    · exact h.1 b hb
    · exact hsym _ _ (h.1 a ha)
    · exact ih h.2 ha hb

theorem Apart.ne {u : U} (h : Apart u) {x y : Service} (hx : x ∈ alive u.log) (hy : y ∈ alive u.log) (hne : x ≠ y) :
    x.session ≠ y.session :=
  (pairwise_mem (fun _ _ h => ⟨h.1.symm, h.2.symm⟩) h hx hy hne).1

theorem admit_sub {session : EpId → Int} {l : List EpId} {e x : EpId} (h : x ∈ l) : x ∈ admit session l e := by
  simp only [admit]; split
  · exact h
  · exact List.mem_append_left _ h

theorem admits_sub {session : EpId → Int} (es : List EpId) {l : List EpId} {x : EpId} (h : x ∈ l) :
    x ∈ es.foldl (admit session) l := by
  induction es generalizing l with
  | nil => exact h
  | cons e es ih => exact ih (admit_sub h)

/-- Whoever knocks, somebody with that session number is served. -/
theorem admit_session (session : EpId → Int) (l : List EpId) (e : EpId) :
    ∃ x ∈ admit session l e, session x = session e := by
  simp only [admit]
  split
  · rename_i h
    obtain ⟨x, hx, he⟩ := List.any_eq_true.mp h
    rw [Bool.or_eq_true, beq_iff_eq, beq_iff_eq] at he
    rcases he with rfl | he
    · exact ⟨x, hx, rfl⟩
    · exact ⟨x, hx, he⟩
  · exact ⟨e, by simp, rfl⟩

theorem admits_session {session : EpId → Int} (es : List EpId) (l : List EpId) {e : EpId} (h : e ∈ es) :
    ∃ x ∈ es.foldl (admit session) l, session x = session e := by
  induction es generalizing l with
  | nil => exact absurd h List.not_mem_nil
  | cons a es ih =>
    rw [List.mem_cons] at h
    rcases h with rfl | h
    · obtain ⟨x, hx, he⟩ := admit_session session l e
      exact ⟨x, admits_sub es hx, he⟩
    · exact ih _ h

/-- A `Run` beside a live goroutine of a registered endpoint doubles its session. -/
theorem run_doubles {u : U} (hf : u.Fit) (h : u.Lone) (hne : alive u.log ≠ []) : ¬ Apart (u.step .run) := by
  intro ha
  have hf' := fit_step hf .run (fun e s he => by simp at he)
  obtain ⟨x, hx⟩ := List.exists_mem_of_ne_nil _ hne
  have hxs := served_of_alive hf.srv hx
  obtain ⟨h1, _, _⟩ := served_step u .run
  have hxd : x.deck ≠ u.nextDeck := by
    intro hd
    rw [hf.decks.fresh x.deck (by omega)] at hxs
    exact List.not_mem_nil hxs
  have hses : (u.step .run).session = u.session := (decks_step hf.decks .run rfl).2.2
  have hx1 : x.ep ∈ (u.step .run).served x.deck := by rw [h1, deckStep, if_neg hxd]; exact hxs
  obtain ⟨y, hy, hye⟩ := admits_session (session := u.session) u.eps (u.served u.nextDeck) (h.part _ _ hxs)
  have hy1 : y ∈ (u.step .run).served u.nextDeck := by rw [h1, deckStep, if_pos rfl]; exact hy
  obtain ⟨x', hx', hxd', hxe'⟩ := mem_served hf'.srv hx1
  obtain ⟨y', hy', hyd', hye'⟩ := mem_served hf'.srv hy1
  refine ha.ne hx' hy' (fun he => hxd (by rw [← hxd', he, hyd'])) ?_
  rw [hf'.srv.cap x' hx', hf'.srv.cap y' hy', hses, hxe', hye', hye]

/-- C37, exactly: in a tidy history the sessions served differ after every call iff every `Run` finds no service goroutine
alive. -/
theorem c37_exact (session : EpId → Int) (cost : ProcId → Int) (spare : Nat → Nat) (ops : List Op)
    (ht : Tidy session cost spare ops) :
    (∀ pre rest, ops = pre ++ rest → (alive (after session cost spare pre).log).Pairwise fun x y => x.session ≠ y.session ∧ x.ep ≠ y.ep) ↔
      ∀ pre rest, ops = pre ++ .run :: rest → alive (after session cost spare pre).log = [] := by
  constructor
  · induction ops using ops_induction with
    | nil => intro _ pre rest h; simp at h
    | snoc ops op ih =>
      intro h
      have hi := ih (tidy_pre ht) (fun pre rest he => h pre (rest ++ [op]) (by rw [he]; simp))
      intro pre rest he
      rcases List.eq_nil_or_concat rest with rfl | ⟨rest, o, rfl⟩
      · obtain ⟨rfl, ho⟩ := List.append_inj' he rfl
        injection ho with ho
        subst ho
        refine Classical.byContradiction fun hne => ?_
        have := h (ops ++ [.run]) [] (by simp)
        rw [after, steps_snoc] at this
        exact run_doubles (fit_after ops (tidy_pre ht)) (lone_after ops (tidy_pre ht) hi) hne this
      · rw [List.concat_eq_append, ← List.cons_append, ← List.append_assoc] at he
        obtain ⟨rfl, -⟩ := List.append_inj' he rfl
        exact hi pre rest rfl
  · intro h pre rest he
    subst he
    exact apart_of_lone (fit_after pre (tidy_pre ht)) (lone_after pre (tidy_pre ht) (runsIdle_pre h))

/-- `Run`, everybody deleted, `Run` again: both sides hold; with an endpoint left, neither. -/
def demo37x : List Op := [.setSession 8 3, .addEndPoint 7, .addEndPoint 8, .run, .deleteEndPoint 7, .setSession 7 4, .addEndPoint 7,
  .deleteEndPoint 8, .deleteEndPoint 7, .run, .addEndPoint 9]

theorem tidy_of_check {session cost spare} (ops : List Op)
    (h : ∀ i, i < ops.length → ∀ e s, ops[i]? = some (.setSession e s) →
      ∀ x ∈ alive (after session cost spare (ops.take i)).log, x.ep ≠ e) : Tidy session cost spare ops := by
  intro pre e s rest he
  have := h pre.length (by rw [he]; simp) e s (by rw [he]; simp)
  rwa [he, List.take_left'] at this
  rfl

example : Tidy (fun e => (e : Nat)) (fun _ => 0) (fun n => n) demo37x ∧
    alive (after (fun e => (e : Nat)) (fun _ => 0) (fun n => n) (demo37x.take 7)).log = [⟨0, 8, 3⟩, ⟨0, 7, 4⟩] ∧
    alive (after (fun e => (e : Nat)) (fun _ => 0) (fun n => n) (demo37x.take 9)).log = [] ∧
    alive (after (fun e => (e : Nat)) (fun _ => 0) (fun n => n) demo37x).log = [⟨1, 9, 9⟩] := by
  refine ⟨tidy_of_check _ ?_, rfl, rfl, rfl⟩
  intro i hi e s he
  simp only [demo37x, List.length_cons, List.length_nil] at hi
  match i, hi with
  | 0, _ => intro x hx; exact absurd hx List.not_mem_nil
  | 5, _ =>
    simp [demo37x] at he
    have : alive (after (fun e => ((e : Nat) : Int)) (fun _ => 0) (fun n => n) (demo37x.take 5)).log = [⟨0, 8, 3⟩] := rfl
    rw [this]
    simp [← he.1]
  | 1, _ | 2, _ | 3, _ | 4, _ | 6, _ | 7, _ | 8, _ | 9, _ | 10, _ => simp [demo37x] at he

/-! ## Renumbering a served endpoint -/

/-- C37 cannot be had without tidiness: whenever an endpoint is served, changing its session number and then adding a new
endpoint under the old number makes two service goroutines send under one session. -/
theorem c37_renumbering_violated (session : EpId → Int) (cost : ProcId → Int) (spare : Nat → Nat) (ops : List Op)
    (ht : Tidy session cost spare ops) (hr : RunsIdle session cost spare ops) (x : Service)
    (hx : x ∈ alive (after session cost spare ops).log) (n : Int) (hn : n ≠ x.session) (y : EpId)
    (hy : y ∉ (after session cost spare ops).eps) :
    ¬ (alive (after session cost spare (ops ++ [.setSession x.ep n, .setSession y x.session, .addEndPoint y])).log).Pairwise
      fun a b => a.session ≠ b.session ∧ a.ep ≠ b.ep := by
  have hf := fit_after ops ht
  have hl := lone_after ops ht hr
  generalize hu : after session cost spare ops = u at hx hy hf hl
  have hs : after session cost spare (ops ++ [.setSession x.ep n, .setSession y x.session, .addEndPoint y]) =
      ((u.step (.setSession x.ep n)).step (.setSession y x.session)).addEndPoint y := by
    rw [← hu, after, U.steps, List.foldl_append]; rfl
  rw [hs]
  generalize hv : (u.step (.setSession x.ep n)).step (.setSession y x.session) = v
  have hlog : v.log = u.log := by rw [← hv]; rfl
  have hserved : v.served = u.served := by rw [← hv]; rfl
  have hdecks : v.decks = u.decks := by rw [← hv]; rfl
  have heps : v.eps = u.eps := by rw [← hv]; rfl
  have hses : ∀ e, v.session e = if e = y then x.session else if e = x.ep then n else u.session e := by
    intro e; rw [← hv]; rfl
  have hxs := served_of_alive hf.srv hx
  have hd : u.decks = some x.deck := by
    refine Classical.byContradiction fun hd => ?_
    rw [hl.solo _ hd] at hxs
    exact List.not_mem_nil hxs
  have hxy : x.ep ≠ y := fun he => hy (he ▸ hl.part _ _ hxs)
  have hno : v.existsEndpoint x.deck y = false := by
    rw [U.existsEndpoint, hserved, List.any_eq_false]
    intro z hz
    have hzy : z ≠ y := fun he => hy (he ▸ hl.part _ _ hz)
    rw [Bool.or_eq_true, beq_iff_eq, beq_iff_eq, not_or]
    refine ⟨hzy, ?_⟩
    rw [hses, hses, if_neg hzy, if_pos rfl]
    split
    · exact hn
    · rename_i hzx
      rw [hf.srv.cap x hx]
      exact pairwise_mem (fun _ _ h => Ne.symm h) (hf.decks.sep x.deck) hz hxs hzx
  -- the log of the last call: notices, the new goroutine, notices
  have hal : ∃ l1 l2, (v.addEndPoint y).log = v.log ++ l1 ++ [.serve x.deck y x.session] ++ l2 ∧
      (∀ o ∈ l1, o.isService = false) ∧ ∀ o ∈ l2, o.isService = false := by
    rw [U.addEndPoint, if_neg (heps ▸ hy)]
    refine ⟨(List.range v.listeners).map (fun i => .notify (.listener i) ⟨.endpointAdded, .ep y⟩) ++
      (v.eps.map (fun e => .notify (.endpoint e) ⟨.endpointAdded, .ep y⟩) ++ [.notify (.elem (.upper x.deck)) ⟨.endpointAdded, .ep y⟩]),
      v.procs.map (fun p => .notify (.elem (.proc p)) ⟨.endpointAdded, .ep y⟩) ++
        [.notify (.elem (.lower x.deck)) ⟨.endpointAdded, .ep y⟩], ?_, ?_, ?_⟩
    · have hse : v.session y = x.session := by rw [hses, if_pos rfl]
      simp only [U.publish, U.notifyUpper, U.emit, hdecks, hd, U.upperOnEvent, U.acceptEndpoint, U.existsEndpoint, if_true]
      rw [U.existsEndpoint, hse] at hno
      simp only [hse, hno, Bool.false_eq_true, if_false, U.notifyLower, U.lowerOnEvent, U.emit, hdecks, hd]
      simp only [U.eps, List.append_assoc]
    · intro o ho
      simp only [List.mem_append, List.mem_map, List.mem_singleton] at ho
      rcases ho with ⟨_, _, rfl⟩ | ⟨_, _, rfl⟩ | rfl <;> rfl
    · intro o ho
      simp only [List.mem_append, List.mem_map, List.mem_singleton] at ho
      rcases ho with ⟨_, _, rfl⟩ | rfl <;> rfl
  obtain ⟨l1, l2, hlg, hl1, hl2⟩ := hal
  rw [hlg, alive_inert _ _ hl2, alive_append, alive_inert _ _ hl1, hlog]
  simp only [List.foldl_cons, List.foldl_nil, aliveStep]
  intro hp
  exact ((List.pairwise_append.mp hp).2.2 x hx ⟨x.deck, y, x.session⟩ (by simp)).1 rfl

example : ∃ x, x ∈ alive (after (fun e => (e : Nat)) (fun _ => 0) (fun n => n) [.addEndPoint 7, .run]).log ∧ (6 : Int) ≠ x.session ∧
    8 ∉ (after (fun e => (e : Nat)) (fun _ => 0) (fun n => n) [.addEndPoint 7, .run]).eps :=
  ⟨⟨0, 7, 7⟩, by decide, by decide, by decide⟩

/-! ## C38 -/

/-- All registered endpoints are served once the stack runs, given that they have different sessions. -/
theorem all_step {u : U} (hf : u.Fit) (op : Op) (hr : op = .run → alive u.log = [])
    (h : ∀ d, u.decks = some d → u.served d = u.eps)
    (hs : ∀ d, (u.step op).decks = some d → (u.step op).eps.Pairwise fun x y => (u.step op).session x ≠ (u.step op).session y) :
    ∀ d, (u.step op).decks = some d → (u.step op).served d = (u.step op).eps := by
  intro d hd
  have hs := hs d hd
  obtain ⟨h1, h2, _⟩ := served_step u op
  have h3 := eps_step hf.inv op
  rw [h2] at hd
  rw [h3] at hs ⊢
  rw [h1]
  cases op with
  | addEndPoint e =>
    have hses := (decks_step hf.decks (.addEndPoint e) rfl).2.2
    simp only [Op.isRun, Bool.false_eq_true, if_false] at hd
    simp only [deckStep, specEps]
    by_cases he : e ∈ u.eps
    · rw [if_neg (by rintro ⟨hn, -⟩; exact hn he), if_pos he]; exact h d hd
    · rw [if_pos ⟨he, hd⟩, if_neg he, h d hd]
      rw [hses, specEps, if_neg he] at hs
      exact admit_new fun x hx => (List.pairwise_append.mp hs).2.2 x hx e (by simp)
  | deleteEndPoint e =>
    simp only [Op.isRun, Bool.false_eq_true, if_false] at hd
    simp only [deckStep, specEps]
    by_cases he : e ∈ u.eps
    · rw [if_pos ⟨he, hd⟩, h d hd, hf.inv.enodup.erase_eq_filter]
      apply List.filter_congr
      intro x _
      by_cases hx : x = e <;> simp [hx]
    · rw [if_neg (by rintro ⟨hn, -⟩; exact he hn), filter_ne_of_not_mem he]; exact h d hd
  | run =>
    have hses := (decks_step hf.decks .run rfl).2.2
    simp only [Op.isRun, if_true] at hd
    injection hd with hd
    subst hd
    simp only [deckStep, specEps, if_true]
    rw [hses, specEps_run] at hs
    rw [show u.served u.nextDeck = [] by rw [← hf.srv.srv, hr rfl]; rfl, admits_new _ _ (by simpa using hs)]
    rfl
  | _ =>
    simp only [Op.isRun, Bool.false_eq_true, if_false] at hd
    exact h d hd

/-- C38 in a state: the endpoints served are exactly those registered. -/
def Serving (u : U) : Prop := (alive u.log).map (·.ep) = u.eps

theorem lone_serving {u : U} (hf : u.Fit) (hl : u.Lone) {d : DeckId} (hd : u.decks = some d) :
    (alive u.log).map (·.ep) = u.served d := by
  rw [← hf.srv.srv d, servedBy, List.filter_eq_self.mpr]
  intro x hx
  rw [decide_eq_true_eq]
  refine Classical.byContradiction fun hne => ?_
  have := served_of_alive hf.srv hx
  rw [hl.solo x.deck (by rw [hd]; intro he; injection he with he; exact hne he.symm)] at this
  exact List.not_mem_nil this

theorem running_iff {u : U} (h : u.Decks) : u.nextDeck ≠ 0 ↔ ∃ d, u.decks = some d := by
  rw [h.cur]
  constructor
  · intro hn; exact ⟨_, if_neg hn⟩
  · rintro ⟨d, hd⟩ hn; rw [if_pos hn] at hd; exact absurd hd (by simp)

theorem nextDeck_after (session : EpId → Int) (cost : ProcId → Int) (spare : Nat → Nat) (ops : List Op) :
    (after session cost spare ops).nextDeck = runs ops := by
  induction ops using ops_induction with
  | nil => rfl
  | snoc ops op ih =>
    rw [after, steps_snoc, (served_step _ op).2.2]
    have : runs (ops ++ [op]) = runs ops + runs [op] := by simp [runs, List.countP_append]
    rw [this, ← ih]

/-- `Run` stops nobody. -/
theorem run_alive (u : U) : ∃ l, alive (u.step .run).log = alive u.log ++ l := by
  have hfold : ∀ (es : List EpId) (d : DeckId) (v : U), ∃ l,
      alive (es.foldl (fun u e => u.acceptEndpoint d e) v).log = alive v.log ++ l := by
    intro es d
    induction es with
    | nil => intro v; exact ⟨[], by simp⟩
    | cons e es ih =>
      intro v
      obtain ⟨l, hl⟩ := ih (v.acceptEndpoint d e)
      rw [List.foldl_cons, hl]
      simp only [U.acceptEndpoint]
      split
      · exact ⟨l, rfl⟩
      · simp only [U.emit]
        rw [alive_append]
        simp only [List.foldl_cons, List.foldl_nil, aliveStep]
        exact ⟨⟨d, e, v.session e⟩ :: l, by simp⟩
  simp only [U.step, U.run, acceptTransports_eq]
  rw [build_eq]
  generalize hv : U.emit _ (List.map Obs.runFeature _) = v
  obtain ⟨l, hl⟩ := hfold v.eps (u.nextDeck + 1 - 1) v
  refine ⟨l, ?_⟩
  simp only [U.emit]
  rw [alive_inert _ _ (by intro o ho; obtain ⟨_, _, rfl⟩ := List.mem_map.mp ho; rfl),
    alive_inert _ _ (by intro o ho; obtain ⟨_, _, rfl⟩ := List.mem_map.mp ho; rfl), hl, ← hv]
  simp only [U.emit]
  rw [alive_inert _ _ (by intro o ho; obtain ⟨_, _, rfl⟩ := List.mem_map.mp ho; rfl)]

/-- C38, exactly: in a tidy history the endpoints served are those registered after every call from the first `Run` on iff
the registered endpoints have different session numbers from the first `Run` on and no later `Run` finds an endpoint
registered. -/
theorem c38_exact (session : EpId → Int) (cost : ProcId → Int) (spare : Nat → Nat) (ops : List Op)
    (ht : Tidy session cost spare ops) :
    (∀ pre rest, ops = pre ++ rest → runs pre ≠ 0 →
        (alive (after session cost spare pre).log).map (·.ep) = (after session cost spare pre).eps) ↔
      (∀ pre rest, ops = pre ++ rest → runs pre ≠ 0 →
        (after session cost spare pre).eps.Pairwise fun x y => (after session cost spare pre).session x ≠ (after session cost spare pre).session y) ∧
      (∀ pre rest, ops = pre ++ .run :: rest → runs pre ≠ 0 → (after session cost spare pre).eps = []) := by
  have hidle0 : ∀ pre, Tidy session cost spare pre → runs pre = 0 → alive (after session cost spare pre).log = [] := by
    intro pre hp h0
    have hf := fit_after pre hp
    refine Classical.byContradiction fun hne => ?_
    obtain ⟨x, hx⟩ := List.exists_mem_of_ne_nil _ hne
    have := served_of_alive hf.srv hx
    rw [hf.decks.fresh _ (by rw [nextDeck_after, h0]; exact Nat.zero_le _)] at this
    exact List.not_mem_nil this
  constructor
  · intro h
    have hlater : ∀ pre rest, ops = pre ++ .run :: rest → runs pre ≠ 0 → (after session cost spare pre).eps = [] := by
      intro pre rest he hne
      have h1 := h pre _ he hne
      have h2 := h (pre ++ [.run]) rest (by rw [he]; simp) (by simp [runs, List.countP_append, Op.isRun])
      have htp : Tidy session cost spare pre := tidy_pre (he ▸ ht)
      have hf := fit_after pre htp
      rw [after, steps_snoc] at h2
      rw [eps_step hf.inv, specEps_run, ← h1] at h2
      -- the goroutines alive stay, and the new deck starts more
      refine Classical.byContradiction fun hc => ?_
      have hf' := fit_step hf .run (fun e s he => by simp at he)
      have hold := served_step (after session cost spare pre) .run
      have hnew : (U.served ((after session cost spare pre).step .run) (after session cost spare pre).nextDeck) ≠ [] := by
        rw [hold.1, deckStep, if_pos rfl]
        obtain ⟨e, hem⟩ := List.exists_mem_of_ne_nil _ hc
        obtain ⟨x, hx, _⟩ := admits_session (session := (after session cost spare pre).session) _
          ((after session cost spare pre).served (after session cost spare pre).nextDeck) hem
        exact List.ne_nil_of_mem hx
      obtain ⟨z, hz⟩ := List.exists_mem_of_ne_nil _ hnew
      obtain ⟨l, hlog⟩ := run_alive (after session cost spare pre)
      have hlen := congrArg List.length h2
      rw [List.length_map, List.length_map, hlog, List.length_append] at hlen
      have hl0 : l = [] := List.eq_nil_of_length_eq_zero (by omega)
      rw [hl0, List.append_nil] at hlog
      obtain ⟨w, hw, hwd, _⟩ := mem_served hf'.srv hz
      rw [hlog] at hw
      have := served_of_alive hf.srv hw
      rw [hwd, hf.decks.fresh _ (Nat.le_refl _)] at this
      exact List.not_mem_nil this
    refine ⟨?_, hlater⟩
    have hri : RunsIdle session cost spare ops := by
      intro pre rest he
      by_cases h0 : runs pre = 0
      · exact hidle0 pre (tidy_pre (he ▸ ht)) h0
      · have h1 := h pre _ he h0
        rw [hlater pre rest he h0, List.map_eq_nil_iff] at h1
        exact h1
    intro pre rest he hne
    have htp : Tidy session cost spare pre := tidy_pre (he ▸ ht)
    have hf := fit_after pre htp
    have hl := lone_after pre htp (runsIdle_pre (he ▸ hri))
    obtain ⟨d, hd⟩ := (running_iff hf.decks).mp (by rw [nextDeck_after]; exact hne)
    rw [← h pre rest he hne, lone_serving hf hl hd]
    exact hf.decks.sep d
  · rintro ⟨hs, hlater⟩
    have key : ∀ pre rest, ops = pre ++ rest → RunsIdle session cost spare pre ∧
        ∀ d, (after session cost spare pre).decks = some d → (after session cost spare pre).served d = (after session cost spare pre).eps := by
      intro pre
      induction pre using ops_induction with
      | nil =>
        intro rest he
        exact ⟨fun pre rest he => by simp at he, fun d hd => by simp [U.new, U.steps] at hd⟩
      | snoc pre op ih =>
        intro rest he
        obtain ⟨hri, hall⟩ := ih (op :: rest) (by rw [he]; simp)
        have htp : Tidy session cost spare pre := tidy_pre (b := op :: rest) (by rw [← List.singleton_append, ← List.append_assoc, ← he]; exact ht)
        have hf := fit_after pre htp
        have hl := lone_after pre htp hri
        have hrun : op = .run → alive (after session cost spare pre).log = [] := by
          intro ho
          by_cases h0 : runs pre = 0
          · exact hidle0 pre htp h0
          · obtain ⟨d, hd⟩ := (running_iff hf.decks).mp (by rw [nextDeck_after]; exact h0)
            have h1 := lone_serving hf hl hd
            rw [hall d hd, hlater pre rest (by rw [he, ho]; simp) h0, List.map_eq_nil_iff] at h1
            exact h1
        constructor
        · intro p r hpr
          rcases List.eq_nil_or_concat r with rfl | ⟨r, o, rfl⟩
          · obtain ⟨rfl, ho⟩ := List.append_inj' hpr rfl
            injection ho with ho
            exact hrun ho
          · rw [List.concat_eq_append, ← List.cons_append, ← List.append_assoc] at hpr
            obtain ⟨rfl, -⟩ := List.append_inj' hpr rfl
            exact hri p r rfl
        · have := all_step hf op hrun hall
          rw [after, steps_snoc]
          refine this ?_
          intro d hd
          have hp := hs (pre ++ [op]) rest he
          have hf' : (after session cost spare (pre ++ [op])).Fit := fit_after _ (tidy_pre (he ▸ ht))
          rw [after, steps_snoc] at hp hf'
          refine hp ?_
          have := (running_iff hf'.decks).mpr ⟨d, hd⟩
          rw [← steps_snoc] at this
          rwa [← nextDeck_after session cost spare]
    intro pre rest he hne
    obtain ⟨hri, hall⟩ := key pre rest he
    have htp : Tidy session cost spare pre := tidy_pre (he ▸ ht)
    have hf := fit_after pre htp
    obtain ⟨d, hd⟩ := (running_iff hf.decks).mp (by rw [nextDeck_after]; exact hne)
    rw [lone_serving hf (lone_after pre htp hri) hd, hall d hd]

/-- In `demo37x` both sides hold. -/
example : (∀ i, i < demo37x.length → runs (demo37x.take i) ≠ 0 →
      (after (fun e => (e : Nat)) (fun _ => 0) (fun n => n) (demo37x.take i)).eps.map
        (after (fun e => (e : Nat)) (fun _ => 0) (fun n => n) (demo37x.take i)).session ∈ [[7, 3], [3], [3, 4], [4], []]) ∧
    (after (fun e => (e : Nat)) (fun _ => 0) (fun n => n) (demo37x.take 9)).eps = [] ∧
    (after (fun e => (e : Nat)) (fun _ => 0) (fun n => n) demo37x).eps = [9] := by
  refine ⟨?_, rfl, rfl⟩
  intro i hi h
  simp only [demo37x, List.length_cons, List.length_nil] at hi
  match i, hi with
  | 0, _ | 1, _ | 2, _ | 3, _ => exact absurd rfl h
  | 4, _ | 5, _ | 6, _ | 7, _ | 8, _ | 9, _ | 10, _ => decide

end Verif.Reg
