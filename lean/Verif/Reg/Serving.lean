import Verif.Reg.History

/-!
# Which endpoints are served (C37, C38), and what a second `Run` does (C59)

Stated on the observable log alone: `alive` lists the service goroutines that were started and not told to stop.
-/

namespace Verif.Reg
open Stack (Val optionParseInt)

/-! ## Services alive according to the log -/

/-- A service goroutine: of which UpperDeck, for which endpoint, with which captured session. -/
structure Service where
  deck : DeckId
  ep : EpId
  session : Int
  deriving Repr, DecidableEq

def aliveStep (a : List Service) : Obs → List Service
  | .serve d e s => a ++ [⟨d, e, s⟩]
  | .unserve d e => a.eraseP fun x => x.deck = d && x.ep = e
  | _ => a

/-- The goroutines started and not told to stop. -/
def alive (log : List Obs) : List Service := log.foldl aliveStep []

def Obs.isService : Obs → Bool
  | .serve .. => true
  | .unserve .. => true
  | _ => false

theorem alive_append (a b : List Obs) : alive (a ++ b) = b.foldl aliveStep (alive a) := List.foldl_append

theorem alive_inert (log l : List Obs) (h : ∀ o ∈ l, o.isService = false) : alive (log ++ l) = alive log := by
  rw [alive_append]
  generalize alive log = a
  induction l with
  | nil => rfl
  | cons o l ih =>
    rw [List.foldl_cons, show aliveStep a o = a by
      have := h o List.mem_cons_self
      cases o <;> simp_all [aliveStep, Obs.isService]]
    exact ih fun o ho => h o (List.mem_cons_of_mem _ ho)

/-- The endpoints served by a deck. -/
def servedBy (a : List Service) (d : DeckId) : List EpId := (a.filter (·.deck = d)).map (·.ep)

theorem servedBy_snoc (a : List Service) (s : Service) (d : DeckId) :
    servedBy (a ++ [s]) d = if d = s.deck then servedBy a d ++ [s.ep] else servedBy a d := by
  simp only [servedBy, List.filter_append, List.map_append]
  by_cases h : d = s.deck
  · rw [if_pos h]; simp [h]
  · rw [if_neg h]; simp [Ne.symm h]

theorem servedBy_erase (a : List Service) (d' d : DeckId) (e : EpId) :
    servedBy (a.eraseP fun x => x.deck = d' && x.ep = e) d = if d = d' then (servedBy a d).erase e else servedBy a d := by
  induction a with
  | nil => simp [servedBy]
  | cons s a ih =>
    rw [List.eraseP_cons]
    by_cases hs : (decide (s.deck = d') && decide (s.ep = e)) = true
    · rw [hs, cond_true]
      simp only [Bool.and_eq_true, decide_eq_true_eq] at hs
      obtain ⟨rfl, rfl⟩ := hs
      by_cases h : d = s.deck
      · subst h; rw [if_pos rfl]; simp [servedBy]
      · rw [if_neg h]; simp [servedBy, Ne.symm h]
    · rw [Bool.not_eq_true] at hs
      rw [hs, cond_false]
      simp only [servedBy] at ih ⊢
      rw [List.filter_cons, List.filter_cons]
      by_cases h1 : s.deck = d
      · simp only [h1, decide_true, if_true, List.map_cons, ih]
        by_cases h2 : d = d'
        · rw [if_pos h2, if_pos h2, List.erase_cons]
          have : ¬ (s.ep = e) := by
            intro h3; rw [h1, h2, h3] at hs; simp at hs
          simp [this]
        · rw [if_neg h2, if_neg h2]
      · simp only [h1, decide_false, Bool.false_eq_true, if_false]
        exact ih

/-! ## The map of an UpperDeck lists its live goroutines -/

structure U.Srv (u : U) : Prop where
  srv : ∀ d, servedBy (alive u.log) d = u.served d
  cap : ∀ s ∈ alive u.log, s.session = u.session s.ep

theorem srv_congr {u v : U} (h : u.Srv) (h1 : v.log = u.log) (h2 : v.served = u.served) (h3 : v.session = u.session) : v.Srv :=
  ⟨fun d => by rw [h1, h2]; exact h.srv d, fun s hs => by rw [h3]; exact h.cap s (h1 ▸ hs)⟩

theorem srv_emit {u : U} (h : u.Srv) (l : List Obs) (hl : ∀ o ∈ l, o.isService = false) : (u.emit l).Srv :=
  ⟨fun d => by rw [U.emit, alive_inert _ _ hl]; exact h.srv d,
   fun s hs => by rw [U.emit, alive_inert _ _ hl] at hs; exact h.cap s hs⟩

theorem srv_acceptEndpoint {u : U} (h : u.Srv) (d : DeckId) (e : EpId) : (u.acceptEndpoint d e).Srv := by
  simp only [U.acceptEndpoint]
  split
  · exact h
  · constructor
    · intro x
      simp only [U.emit]
      rw [alive_append]
      simp only [List.foldl_cons, List.foldl_nil, aliveStep]
      rw [servedBy_snoc, h.srv]
      by_cases hx : x = d <;> simp [hx]
    · intro s hs
      simp only [U.emit] at hs ⊢
      rw [alive_append] at hs
      simp only [List.foldl_cons, List.foldl_nil, aliveStep, List.mem_append, List.mem_singleton] at hs
      rcases hs with hs | rfl
      · exact h.cap s hs
      · rfl

theorem srv_deleteEndpoint {u : U} (h : u.Srv) (d : DeckId) (e : EpId) : (u.deleteEndpoint d e).Srv := by
  simp only [U.deleteEndpoint]
  split
  · constructor
    · intro x
      simp only [U.emit]
      rw [alive_append]
      simp only [List.foldl_cons, List.foldl_nil, aliveStep]
      rw [servedBy_erase, h.srv]
      by_cases hx : x = d <;> simp [hx]
    · intro s hs
      simp only [U.emit] at hs ⊢
      rw [alive_append] at hs
      simp only [List.foldl_cons, List.foldl_nil, aliveStep] at hs
      exact h.cap s (List.mem_of_mem_eraseP hs)
  · exact h

theorem srv_publish {u : U} (h : u.Srv) (ev : Event) : (u.publish ev).Srv := by
  have hu : ∀ v : U, v.Srv → (v.notifyUpper ev).Srv := by
    intro v hv
    simp only [U.notifyUpper]
    split
    · rename_i d _
      have hv' := srv_emit hv [.notify (.elem (.upper d)) ev] (by simp [Obs.isService])
      simp only [U.upperOnEvent]
      split
      · split
        · exact srv_acceptEndpoint hv' ..
        · split
          · exact srv_deleteEndpoint hv' ..
          · exact hv'
      · exact hv'
    · exact hv
  have hlo : ∀ v : U, v.Srv → (v.notifyLower ev).Srv := by
    intro v hv
    simp only [U.notifyLower]
    split
    · rename_i d _
      have hv' := srv_emit hv [.notify (.elem (.lower d)) ev] (by simp [Obs.isService])
      simp only [U.lowerOnEvent, U.acceptTransport]
      split
      · split
        · exact srv_emit hv' _ (by simp [Obs.isService])
        · split
          · exact srv_emit hv' _ (by simp [Obs.isService])
          · exact hv'
      · exact hv'
    · exact hv
  simp only [U.publish]
  refine hlo _ (srv_emit (hu _ (srv_emit (srv_emit h _ ?_) _ ?_)) _ ?_) <;>
  · intro o ho
    obtain ⟨_, _, rfl⟩ := List.mem_map.mp ho
    rfl

theorem srv_run {u : U} (h : u.Srv) : u.run.Srv := by
  have hb : u.build.Srv := by rw [build_eq]; exact srv_congr h rfl rfl rfl
  have hfold : ∀ (es : List EpId) (d : DeckId) (v : U), v.Srv → (es.foldl (fun u e => u.acceptEndpoint d e) v).Srv := by
    intro es d
    induction es with
    | nil => intro v hv; exact hv
    | cons e es ih => intro v hv; exact ih _ (srv_acceptEndpoint hv d e)
  have htps : ∀ (ts : List TpId) (d : DeckId) (v : U), v.Srv → (ts.foldl (fun u t => u.acceptTransport d t) v).Srv := by
    intro ts d
    induction ts with
    | nil => intro v hv; exact hv
    | cons t ts ih => intro v hv; exact ih _ (srv_emit hv _ (by simp [Obs.isService]))
  refine htps _ _ _ (srv_emit (hfold _ _ _ (srv_emit hb _ ?_)) _ ?_) <;>
  · intro o ho
    obtain ⟨_, _, rfl⟩ := List.mem_map.mp ho
    rfl

def Op.isSetSession : Op → Bool
  | .setSession .. => true
  | _ => false

def Op.isRun : Op → Bool
  | .run => true
  | _ => false

/-- How often `Run` is called. -/
def runs (ops : List Op) : Nat := ops.countP Op.isRun

theorem srv_step {u : U} (h : u.Srv) (op : Op) (hop : op.isSetSession = false) : (u.step op).Srv := by
  cases op with
  | addEndPoint e =>
    simp only [U.step, U.addEndPoint]
    split
    · exact h
    · exact srv_congr (srv_publish h _) rfl rfl rfl
  | deleteEndPoint e =>
    simp only [U.step, U.deleteEndPoint]
    split
    · exact h
    · exact srv_congr (srv_publish h _) rfl rfl rfl
  | addTransport e =>
    simp only [U.step, U.addTransport]
    split
    · exact h
    · exact srv_congr (srv_publish h _) rfl rfl rfl
  | deleteTransport e =>
    simp only [U.step, U.deleteTransport]
    split
    · exact h
    · apply srv_publish; exact srv_congr h rfl rfl rfl
  | publish t c => exact srv_publish h _
  | run => exact srv_run h
  | setSession e s => simp [Op.isSetSession] at hop
  | _ => exact srv_congr h rfl rfl rfl

/-! ## Invariant of the decks -/

structure U.Decks (u : U) : Prop where
  /-- sessions of the endpoints of one deck differ -/
  sep : ∀ d, (u.served d).Pairwise fun x y => u.session x ≠ u.session y
  /-- decks not made yet serve nothing -/
  fresh : ∀ d, u.nextDeck ≤ d → u.served d = []
  cur : u.decks = if u.nextDeck = 0 then none else some (u.nextDeck - 1)

theorem admit_sep {session : EpId → Int} {l : List EpId} (h : l.Pairwise fun x y => session x ≠ session y) (e : EpId) :
    (admit session l e).Pairwise fun x y => session x ≠ session y := by
  simp only [admit]
  split
  · exact h
  · rename_i hn
    rw [List.pairwise_append]
    refine ⟨h, List.pairwise_singleton .., ?_⟩
    intro a ha b hb
    rw [List.mem_singleton] at hb
    subst hb
    intro hab
    exact hn (List.any_eq_true.mpr ⟨a, ha, by simp [hab]⟩)

theorem admits_sep {session : EpId → Int} (es : List EpId) {l : List EpId} (h : l.Pairwise fun x y => session x ≠ session y) :
    (es.foldl (admit session) l).Pairwise fun x y => session x ≠ session y := by
  induction es generalizing l with
  | nil => exact h
  | cons e es ih => exact ih (admit_sep h e)

theorem deckAfter_sep {session : EpId → Int} {l : List EpId} (h : l.Pairwise fun x y => session x ≠ session y) (ev : Event) :
    (deckAfter session l ev).Pairwise fun x y => session x ≠ session y := by
  simp only [deckAfter]
  split
  · rename_i e _
    split
    · exact admit_sep h e
    · split
      · exact h.sublist List.erase_sublist
      · exact h
  · exact h

theorem decks_publish {u : U} (h : u.Decks) (ev : Event) : (u.publish ev).Decks := by
  obtain ⟨l, hp, _⟩ := publish_eq u ev
  rw [hp]
  refine ⟨?_, ?_, h.cur⟩
  · intro d
    simp only [servedAfter]
    split
    · exact deckAfter_sep (h.sep d) ev
    · exact h.sep d
  · intro d hd
    simp only [servedAfter]
    rw [if_neg]
    · exact h.fresh d hd
    · rw [h.cur]
      simp only at hd
      split
      · simp
      · intro he; injection he with he; omega

theorem decks_congr {u v : U} (h : u.Decks) (h1 : v.served = u.served) (h2 : v.session = u.session)
    (h3 : v.decks = u.decks) (h4 : v.nextDeck = u.nextDeck) : v.Decks :=
  ⟨fun d => by rw [h1, h2]; exact h.sep d, fun d hd => by rw [h1]; exact h.fresh d (h4 ▸ hd), by rw [h3, h4]; exact h.cur⟩

theorem decks_step {u : U} (h : u.Decks) (op : Op) (hop : op.isSetSession = false) :
    (u.step op).Decks ∧ (u.step op).nextDeck = u.nextDeck + runs [op] ∧ (u.step op).session = u.session := by
  have hpub : ∀ (v : U) ev, (v.publish ev).nextDeck = v.nextDeck ∧ (v.publish ev).session = v.session := by
    intro v ev; obtain ⟨l, hp, _⟩ := publish_eq v ev; rw [hp]; exact ⟨rfl, rfl⟩
  cases op with
  | addEndPoint e =>
    simp only [U.step, U.addEndPoint]
    split
    · exact ⟨h, rfl, rfl⟩
    · exact ⟨decks_congr (decks_publish h _) rfl rfl rfl rfl, (hpub _ _).1, (hpub _ _).2⟩
  | deleteEndPoint e =>
    simp only [U.step, U.deleteEndPoint]
    split
    · exact ⟨h, rfl, rfl⟩
    · exact ⟨decks_congr (decks_publish h _) rfl rfl rfl rfl, (hpub _ _).1, (hpub _ _).2⟩
  | addTransport e =>
    simp only [U.step, U.addTransport]
    split
    · exact ⟨h, rfl, rfl⟩
    · exact ⟨decks_congr (decks_publish h _) rfl rfl rfl rfl, (hpub _ _).1, (hpub _ _).2⟩
  | deleteTransport e =>
    simp only [U.step, U.deleteTransport]
    split
    · exact ⟨h, rfl, rfl⟩
    · refine ⟨?_, (hpub _ _).1, (hpub _ _).2⟩
      apply decks_publish; exact decks_congr h rfl rfl rfl rfl
  | publish t c => exact ⟨decks_publish h _, (hpub _ _).1, (hpub _ _).2⟩
  | run =>
    obtain ⟨l, hp, _⟩ := run_eq u
    simp only [U.step]
    rw [hp]
    refine ⟨⟨?_, ?_, by simp⟩, rfl, rfl⟩
    · intro d
      simp only
      split
      · exact admits_sep _ (h.sep _)
      · exact h.sep d
    · intro d hd
      simp only at hd ⊢
      rw [if_neg (by omega)]
      exact h.fresh d (by omega)
  | setSession e s => simp [Op.isSetSession] at hop
  | _ => exact ⟨decks_congr h rfl rfl rfl rfl, rfl, rfl⟩

theorem runs_cons (op : Op) (ops : List Op) : runs (op :: ops) = runs [op] + runs ops := by
  simp only [runs, List.countP_cons, List.countP_nil]; omega

theorem serving_steps (ops : List Op) (hops : ∀ op ∈ ops, op.isSetSession = false) (u : U) (h1 : u.Srv) (h2 : u.Decks) :
    (u.steps ops).Srv ∧ (u.steps ops).Decks ∧ (u.steps ops).nextDeck = u.nextDeck + runs ops ∧ (u.steps ops).session = u.session := by
  induction ops generalizing u with
  | nil => exact ⟨h1, h2, rfl, rfl⟩
  | cons op ops ih =>
    have hop := hops op List.mem_cons_self
    obtain ⟨h3, h4, h5⟩ := decks_step h2 op hop
    obtain ⟨h6, h7, h8, h9⟩ := ih (fun o ho => hops o (List.mem_cons_of_mem _ ho)) _ (srv_step h1 op hop) h3
    refine ⟨h6, h7, ?_, h9.trans h5⟩
    rw [runs_cons, ← Nat.add_assoc, ← h4]; exact h8

theorem srv_new (session : EpId → Int) (cost : ProcId → Int) (spare : Nat → Nat) : (U.new session cost spare).Srv :=
  ⟨fun _ => rfl, fun s hs => by simp [U.new, alive] at hs⟩

theorem decks_new (session : EpId → Int) (cost : ProcId → Int) (spare : Nat → Nat) : (U.new session cost spare).Decks :=
  ⟨fun _ => List.Pairwise.nil, fun _ _ => rfl, rfl⟩

/-! ## C37 -/

theorem pairwise_of_servedBy {session : EpId → Int} (a : List Service)
    (h : ∀ d, (servedBy a d).Pairwise fun x y => session x ≠ session y) :
    a.Pairwise fun x y => x.deck = y.deck → session x.ep ≠ session y.ep := by
  induction a with
  | nil => exact List.Pairwise.nil
  | cons s a ih =>
    rw [List.pairwise_cons]
    constructor
    · intro y hy hd
      have := h s.deck
      simp only [servedBy, List.filter_cons, decide_true, if_true, List.map_cons, List.pairwise_cons] at this
      exact this.1 y.ep (List.mem_map.mpr ⟨y, List.mem_filter.mpr ⟨hy, by simp [hd]⟩, rfl⟩)
    · apply ih
      intro d
      have := h d
      simp only [servedBy, List.filter_cons] at this ⊢
      split at this
      · exact (List.pairwise_cons.mp this).2
      · exact this

/-- C37, part: as long as no session number is changed, the live service goroutines of one deck are for different
endpoints with different sessions. -/
theorem c37_one_deck_partial (session : EpId → Int) (cost : ProcId → Int) (spare : Nat → Nat) (ops : List Op)
    (hops : ∀ op ∈ ops, op.isSetSession = false) :
    (alive ((U.new session cost spare).steps ops).log).Pairwise fun x y =>
      x.deck = y.deck → x.session ≠ y.session ∧ x.ep ≠ y.ep := by
  obtain ⟨h1, h2, _, h4⟩ := serving_steps ops hops _ (srv_new session cost spare) (decks_new session cost spare)
  have hp := pairwise_of_servedBy (session := session) (alive ((U.new session cost spare).steps ops).log)
    (fun d => by rw [h1.srv d]; have := h2.sep d; rw [h4] at this; exact this)
  have hc : ∀ s ∈ alive ((U.new session cost spare).steps ops).log, s.session = session s.ep := fun s hs => by
    have := h1.cap s hs; rw [h4] at this; exact this
  refine (List.Pairwise.imp_of_mem ?_ hp)
  intro x y hx hy hxy hd
  refine ⟨by rw [hc x hx, hc y hy]; exact hxy hd, ?_⟩
  intro he
  exact hxy hd (by rw [he])

theorem alive_deck (session : EpId → Int) (cost : ProcId → Int) (spare : Nat → Nat) (ops : List Op)
    (hops : ∀ op ∈ ops, op.isSetSession = false) (s : Service) (hs : s ∈ alive ((U.new session cost spare).steps ops).log) :
    s.deck < runs ops := by
  obtain ⟨h1, h2, h3, h4⟩ := serving_steps ops hops _ (srv_new session cost spare) (decks_new session cost spare)
  apply Nat.lt_of_not_le
  intro hle
  have hf := h2.fresh s.deck (by rw [h3]; simpa [U.new] using hle)
  rw [← h1.srv] at hf
  have : s.ep ∈ servedBy (alive ((U.new session cost spare).steps ops).log) s.deck :=
    List.mem_map.mpr ⟨s, List.mem_filter.mpr ⟨hs, by simp⟩, rfl⟩
  rw [hf] at this
  exact List.not_mem_nil this

/-- C37, part: with at most one `Run` and fixed session numbers, the live service goroutines are for different endpoints
with different sessions.  What is missing: see `c37_run_twice_violated`, `c37_setSession_violated` and `Reg/Race.lean`. -/
theorem c37_partial (session : EpId → Int) (cost : ProcId → Int) (spare : Nat → Nat) (ops : List Op)
    (hops : ∀ op ∈ ops, op.isSetSession = false) (hr : runs ops ≤ 1) :
    (alive ((U.new session cost spare).steps ops).log).Pairwise fun x y => x.session ≠ y.session ∧ x.ep ≠ y.ep := by
  refine List.Pairwise.imp_of_mem ?_ (c37_one_deck_partial session cost spare ops hops)
  intro x y hx hy h
  have h1 := alive_deck session cost spare ops hops x hx
  have h2 := alive_deck session cost spare ops hops y hy
  exact h (by omega)

def demo37 : List Op := [.addEndPoint 7, .addEndPoint 8, .run, .addEndPoint 9, .deleteEndPoint 7, .addEndPoint 7, .addEndPoint 18]

example : (∀ op ∈ demo37, op.isSetSession = false) ∧ runs demo37 ≤ 1 ∧
    alive ((U.new (fun e => (e % 10 : Nat)) (fun _ => 0) (fun n => n)).steps demo37).log = [⟨0, 8, 8⟩, ⟨0, 9, 9⟩, ⟨0, 7, 7⟩] := by
  refine ⟨by decide, by decide, rfl⟩

/-- C37 fails: a second `Run` starts a second service goroutine for every endpoint. -/
theorem c37_run_twice_violated : ∃ ops : List Op, (∀ op ∈ ops, op.isSetSession = false) ∧
    ¬ (alive ((U.new (fun _ => 5) (fun _ => 0) (fun n => n)).steps ops).log).Pairwise fun x y => x.session ≠ y.session ∧ x.ep ≠ y.ep := by
  refine ⟨[.addEndPoint 7, .run, .run], by decide, ?_⟩
  have : alive ((U.new (fun _ => 5) (fun _ => 0) (fun n => n)).steps [.addEndPoint 7, .run, .run]).log = [⟨0, 7, 5⟩, ⟨1, 7, 5⟩] := rfl
  rw [this]
  simp

/-- C37 fails: changing the session number of a served endpoint lets another one in under the number its goroutine
still sends with. -/
theorem c37_setSession_violated : ∃ ops : List Op, runs ops ≤ 1 ∧
    ¬ (alive ((U.new (fun _ => 5) (fun _ => 0) (fun n => n)).steps ops).log).Pairwise fun x y => x.session ≠ y.session ∧ x.ep ≠ y.ep := by
  refine ⟨[.addEndPoint 7, .run, .setSession 7 6, .addEndPoint 8], by decide, ?_⟩
  have : alive ((U.new (fun _ => 5) (fun _ => 0) (fun n => n)).steps [.addEndPoint 7, .run, .setSession 7 6, .addEndPoint 8]).log
      = [⟨0, 7, 5⟩, ⟨0, 8, 5⟩] := rfl
  rw [this]
  simp

/-! ## C38 -/

theorem servedAfter_other (u : U) (ev : Event) (h : ∀ e, ev.data ≠ .ep e) : servedAfter u ev = u.served := by
  funext x
  simp only [servedAfter, deckAfter]
  cases he : ev.data with
  | ep e => exact absurd he (h e)
  | _ => simp

theorem admit_mem {session : EpId → Int} {l : List EpId} {e x : EpId} (h : x ∈ admit session l e) : x ∈ l ∨ x = e := by
  simp only [admit] at h
  split at h
  · exact Or.inl h
  · simpa using h

theorem admits_mem {session : EpId → Int} (es : List EpId) {l : List EpId} {x : EpId} (h : x ∈ es.foldl (admit session) l) :
    x ∈ l ∨ x ∈ es := by
  induction es generalizing l with
  | nil => exact Or.inl h
  | cons e es ih =>
    rcases ih h with h | h
    · rcases admit_mem h with h | h
      · exact Or.inl h
      · exact Or.inr (h ▸ List.mem_cons_self)
    · exact Or.inr (List.mem_cons_of_mem _ h)

/-- Endpoints with different sessions are all admitted. -/
theorem admit_new {session : EpId → Int} {l : List EpId} {e : EpId} (h : ∀ x ∈ l, session x ≠ session e) :
    admit session l e = l ++ [e] := by
  rw [admit, if_neg]
  intro ha
  obtain ⟨x, hx, he⟩ := List.any_eq_true.mp ha
  rw [Bool.or_eq_true, beq_iff_eq, beq_iff_eq] at he
  rcases he with he | he
  · exact h x hx (by rw [he])
  · exact h x hx he

theorem admits_new {session : EpId → Int} (es l : List EpId) (h : (l ++ es).Pairwise fun x y => session x ≠ session y) :
    es.foldl (admit session) l = l ++ es := by
  induction es generalizing l with
  | nil => simp
  | cons e es ih =>
    rw [List.foldl_cons, admit_new, ih (l ++ [e]) (by simpa using h)]
    · simp
    · intro x hx
      exact (List.pairwise_append.mp h).2.2 x hx e List.mem_cons_self

/-- What the current deck serves, relative to the registered endpoints: always a part of them (`part`), and all of them
(`all`) if the endpoints satisfying `P` have different sessions and only they are added. -/
structure U.Match (P : EpId → Prop) (u : U) : Prop where
  part : ∀ d, u.decks = some d → ∀ e ∈ u.served d, e ∈ u.eps
  mem : ∀ e ∈ u.eps, P e
  all : (∀ x y, P x → P y → u.session x = u.session y → x = y) → ∀ d, u.decks = some d → u.served d = u.eps

theorem match_step {P : EpId → Prop} {u : U} (hi : u.Inv) (hd : u.Decks) (h : u.Match P) (op : Op)
    (hop : op.isSetSession = false) (hP : ∀ e, op = .addEndPoint e → P e) : (u.step op).Match P := by
  have heps := congrArg View.eps (view_step u hi op).1
  simp only [U.view, specStep] at heps
  have htp : ∀ (v : U) (ev : Event), v.Match P → (∀ e, ev.data ≠ .ep e) → (v.publish ev).Match P := by
    intro v ev hv hev
    obtain ⟨l, hp, _⟩ := publish_eq v ev
    rw [hp, servedAfter_other v ev hev]
    exact ⟨hv.part, hv.mem, hv.all⟩
  cases op with
  | addEndPoint e =>
    by_cases he : e ∈ u.eps
    · simp only [U.step, (c39_noop u).1 e he]; exact h
    · simp only [specEps, he, ↓reduceIte] at heps
      have hm : (u.step (.addEndPoint e)).served = servedAfter u ⟨.endpointAdded, .ep e⟩ ∧ (u.step (.addEndPoint e)).decks = u.decks
          ∧ (u.step (.addEndPoint e)).session = u.session := by
        obtain ⟨l, hp, _⟩ := publish_eq u ⟨.endpointAdded, .ep e⟩
        simp only [U.step, U.addEndPoint, if_neg he]
        rw [hp]; exact ⟨rfl, rfl, rfl⟩
      have hmem : ∀ x ∈ u.eps ++ [e], P x := by
        intro x hx
        rw [List.mem_append, List.mem_singleton] at hx
        rcases hx with hx | rfl
        · exact h.mem x hx
        · exact hP x rfl
      refine ⟨?_, by rw [heps]; exact hmem, ?_⟩
      · intro d hdd x hx
        rw [hm.2.1] at hdd
        rw [hm.1] at hx
        simp only [servedAfter, hdd, if_true] at hx
        rw [heps, List.mem_append, List.mem_singleton]
        rcases admit_mem hx with hx | hx
        · exact Or.inl (h.part d hdd x hx)
        · exact Or.inr hx
      · intro hI d hdd
        rw [hm.2.1] at hdd
        rw [hm.2.2] at hI
        rw [hm.1, heps]
        simp only [servedAfter, hdd, if_true]
        have hf := h.all hI d hdd
        have : admit u.session (u.served d) e = u.served d ++ [e] := by
          apply admit_new
          intro x hx hs
          rw [hf] at hx
          have := hI x e (h.mem x hx) (hP e rfl) hs
          exact he (this ▸ hx)
        rw [← hf]; exact this
  | deleteEndPoint e =>
    by_cases he : e ∈ u.eps
    · simp only [specEps] at heps
      have hm : (u.step (.deleteEndPoint e)).served = servedAfter u ⟨.endpointDeleted, .ep e⟩ ∧ (u.step (.deleteEndPoint e)).decks = u.decks
          ∧ (u.step (.deleteEndPoint e)).session = u.session := by
        obtain ⟨l, hp, _⟩ := publish_eq u ⟨.endpointDeleted, .ep e⟩
        simp only [U.step, U.deleteEndPoint]
        cases hx : u.eps.idxOf? e with
        | none => rw [List.idxOf?_eq_none_iff] at hx; exact absurd he hx
        | some i => simp only; rw [hp]; exact ⟨rfl, rfl, rfl⟩
      have hsa : ∀ d, u.decks = some d → servedAfter u ⟨.endpointDeleted, .ep e⟩ d = (u.served d).filter (· ≠ e) := by
        intro d hdd
        simp only [servedAfter, hdd, if_true, deckAfter]
        have hn : (u.served d).Nodup := (hd.sep d).imp fun h he => h (by rw [he])
        simp only [reduceCtorEq, if_false, hn.erase_eq_filter]
        apply List.filter_congr
        intro x _
        by_cases hx : x = e <;> simp [hx]
      refine ⟨?_, ?_, ?_⟩
      · intro d hdd x hx
        rw [hm.2.1] at hdd
        rw [hm.1, hsa d hdd, List.mem_filter] at hx
        rw [heps, List.mem_filter]
        exact ⟨h.part d hdd x hx.1, hx.2⟩
      · intro x hx
        rw [heps, List.mem_filter] at hx
        exact h.mem x hx.1
      · intro hI d hdd
        rw [hm.2.1] at hdd
        rw [hm.2.2] at hI
        rw [hm.1, heps, hsa d hdd, h.all hI d hdd]
    · simp only [U.step, (c39_noop u).2.1 e he]; exact h
  | addTransport t =>
    simp only [U.step, U.addTransport]
    split
    · exact h
    · have := htp u ⟨.transportAdded, .tp t⟩ h (by simp)
      exact ⟨this.part, this.mem, this.all⟩
  | deleteTransport t =>
    simp only [U.step, U.deleteTransport]
    split
    · exact h
    · exact htp { u with tmem := _, transports := _ } _ ⟨h.part, h.mem, h.all⟩ (by simp)
  | publish t c => exact htp u _ h (by simp)
  | run =>
    obtain ⟨l, hp, _⟩ := run_eq u
    simp only [U.step]
    rw [hp]
    refine ⟨?_, h.mem, ?_⟩
    · intro d hdd x hx
      injection hdd with hdd
      subst hdd
      simp only [if_true, hd.fresh _ (Nat.le_refl _)] at hx
      rcases admits_mem _ hx with hx | hx
      · exact absurd hx List.not_mem_nil
      · exact hx
    · intro hI d hdd
      injection hdd with hdd
      subst hdd
      simp only [if_true, hd.fresh _ (Nat.le_refl _)]
      rw [admits_new]
      · rfl
      · rw [List.nil_append]
        refine List.Pairwise.imp_of_mem ?_ hi.enodup
        intro a b ha hb hab hs
        exact hab (hI a b (h.mem a ha) (h.mem b hb) hs)
  | setSession e s => simp [Op.isSetSession] at hop
  | _ => exact ⟨h.part, h.mem, h.all⟩

theorem match_steps {P : EpId → Prop} (ops : List Op) (hops : ∀ op ∈ ops, op.isSetSession = false)
    (hP : ∀ e, .addEndPoint e ∈ ops → P e) (u : U) (hi : u.Inv) (hd : u.Decks) (h : u.Match P) : (u.steps ops).Match P := by
  induction ops generalizing u with
  | nil => exact h
  | cons op ops ih =>
    have hop := hops op List.mem_cons_self
    exact ih (fun o ho => hops o (List.mem_cons_of_mem _ ho)) (fun e he => hP e (List.mem_cons_of_mem _ he)) _
      (view_step u hi op).2 (decks_step hd op hop).1 (match_step hi hd h op hop fun e he => hP e (he ▸ List.mem_cons_self))

theorem match_new (P : EpId → Prop) (session : EpId → Int) (cost : ProcId → Int) (spare : Nat → Nat) :
    (U.new session cost spare).Match P :=
  ⟨by simp [U.new], by simp [U.new, U.eps, Mem.read, Slice.nil], by simp [U.new]⟩

theorem alive_one_deck (a : List Service) (h : ∀ s ∈ a, s.deck = 0) : a.map (·.ep) = servedBy a 0 := by
  rw [servedBy, List.filter_eq_self.mpr]
  intro s hs
  simp [h s hs]

/-- C38, part: with one `Run`, fixed session numbers, and different session numbers for different endpoints, the
endpoints served are exactly the registered ones. -/
theorem c38_partial (session : EpId → Int) (cost : ProcId → Int) (spare : Nat → Nat) (ops : List Op)
    (hops : ∀ op ∈ ops, op.isSetSession = false) (hr : runs ops = 1)
    (hinj : ∀ x y, .addEndPoint x ∈ ops → .addEndPoint y ∈ ops → session x = session y → x = y) :
    (alive ((U.new session cost spare).steps ops).log).map (·.ep) = ((U.new session cost spare).steps ops).eps := by
  obtain ⟨h1, h2, h3, h4⟩ := serving_steps ops hops _ (srv_new session cost spare) (decks_new session cost spare)
  have hm := match_steps (P := fun e => .addEndPoint e ∈ ops) ops hops (fun e he => he) _
    (U.inv_new session cost spare) (decks_new session cost spare) (match_new _ session cost spare)
  have hd : ((U.new session cost spare).steps ops).decks = some 0 := by
    rw [h2.cur, h3, hr]; rfl
  rw [alive_one_deck, h1.srv, hm.all (by rw [h4]; exact hinj) 0 hd]
  intro s hs
  have := alive_deck session cost spare ops hops s hs
  omega

/-- C38, part: with one `Run` and fixed session numbers, only registered endpoints are served. -/
theorem c38_only_registered_partial (session : EpId → Int) (cost : ProcId → Int) (spare : Nat → Nat) (ops : List Op)
    (hops : ∀ op ∈ ops, op.isSetSession = false) (hr : runs ops ≤ 1) :
    ∀ s ∈ alive ((U.new session cost spare).steps ops).log, s.ep ∈ ((U.new session cost spare).steps ops).eps := by
  obtain ⟨h1, h2, h3, h4⟩ := serving_steps ops hops _ (srv_new session cost spare) (decks_new session cost spare)
  have hm := match_steps (P := fun _ => True) ops hops (fun e he => trivial) _
    (U.inv_new session cost spare) (decks_new session cost spare) (match_new _ session cost spare)
  intro s hs
  have hlt := alive_deck session cost spare ops hops s hs
  have hd : ((U.new session cost spare).steps ops).decks = some 0 := by
    rw [h2.cur, h3, show runs ops = 1 by omega]; rfl
  refine hm.part 0 hd _ ?_
  rw [← h1.srv]
  exact List.mem_map.mpr ⟨s, List.mem_filter.mpr ⟨hs, by simp; omega⟩, rfl⟩

example : (∀ op ∈ demo37.dropLast, op.isSetSession = false) ∧ runs demo37.dropLast = 1 ∧
    (∀ x y, .addEndPoint x ∈ demo37.dropLast → .addEndPoint y ∈ demo37.dropLast → (fun e => ((e % 10 : Nat) : Int)) x = (fun e => ((e % 10 : Nat) : Int)) y → x = y) ∧
    ((U.new (fun e => (e % 10 : Nat)) (fun _ => 0) (fun n => n)).steps demo37.dropLast).eps = [8, 9, 7] := by
  refine ⟨by decide, by decide, ?_, rfl⟩
  intro x y hx hy
  simp [demo37] at hx hy
  rcases hx with rfl | rfl | rfl | rfl <;> rcases hy with rfl | rfl | rfl | rfl <;> decide

/-- C38 fails: of two registered endpoints with the same session only one is served, and when that one is deleted, none. -/
theorem c38_same_session_violated : ∃ ops : List Op, runs ops = 1 ∧
    (alive ((U.new (fun _ => 5) (fun _ => 0) (fun n => n)).steps ops).log) = [] ∧
    ((U.new (fun _ => 5) (fun _ => 0) (fun n => n)).steps ops).eps = [8] :=
  ⟨[.addEndPoint 7, .addEndPoint 8, .run, .deleteEndPoint 7], by decide, rfl, rfl⟩

/-- C38 fails: after a second `Run`, deleting an endpoint leaves the goroutine of the first one serving it. -/
theorem c38_run_twice_violated : ∃ ops : List Op,
    (alive ((U.new (fun e => e) (fun _ => 0) (fun n => n)).steps ops).log) = [⟨0, 7, 7⟩] ∧
    ((U.new (fun e => e) (fun _ => 0) (fun n => n)).steps ops).eps = [] :=
  ⟨[.addEndPoint 7, .run, .run, .deleteEndPoint 7], rfl, rfl⟩

end Verif.Reg
