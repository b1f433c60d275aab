import Verif.Reg.Props

/-!
# Histories of calls on the stack object: registries (C39), events (C40), overhead and MTU (C45), wiring (C46)
-/

namespace Verif.Reg
open Stack (Val optionParseInt)

/-! ## Invariant of the registries -/

structure U.Inv (u : U) : Prop where
  eok : u.emem.Ok u.endpoints
  tok : u.tmem.Ok u.transports
  enodup : u.eps.Nodup
  tnodup : u.tps.Nodup

theorem U.inv_new (session : EpId → Int) (cost : ProcId → Int) (spare : Nat → Nat) : (U.new session cost spare).Inv :=
  ⟨Mem.ok_nil, Mem.ok_nil, List.nodup_nil, List.nodup_nil⟩

/-! ## The specification: ordered sets and the events published -/

/-- What the users can see of a stack: who is registered, in which order, and what was delivered. -/
structure View where
  eps : List EpId
  tps : List TpId
  listeners : Nat
  seen : List Obs

/-- The effect of a call on ordered sets without duplicates: the event published, if any, and the sets after. -/
def specEvent (v : View) : Op → Option Event
  | .addEndPoint e => if e ∈ v.eps then none else some ⟨.endpointAdded, .ep e⟩
  | .deleteEndPoint e => if e ∈ v.eps then some ⟨.endpointDeleted, .ep e⟩ else none
  | .addTransport t => if t ∈ v.tps then none else some ⟨.transportAdded, .tp t⟩
  | .deleteTransport t => if t ∈ v.tps then some ⟨.transportDeleted, .tp t⟩ else none
  | .publish t c => some ⟨t, .conn c⟩
  | _ => none

/-- Ordered-set semantics of the endpoint calls. -/
def specEps (l : List EpId) : Op → List EpId
  | .addEndPoint e => if e ∈ l then l else l ++ [e]
  | .deleteEndPoint e => l.filter (· ≠ e)
  | _ => l

/-- Ordered-set semantics of the transport calls. -/
def specTps (l : List TpId) : Op → List TpId
  | .addTransport t => if t ∈ l then l else l ++ [t]
  | .deleteTransport t => l.filter (· ≠ t)
  | _ => l

/-- One call: every listener, then every endpoint registered before the call, gets the event. -/
def specStep (v : View) (op : Op) : View :=
  { eps := specEps v.eps op
    tps := specTps v.tps op
    listeners := match op with | .setListener => v.listeners + 1 | _ => v.listeners
    seen := v.seen ++ match specEvent v op with
      | some ev => (List.range v.listeners).map (fun i => .notify (.listener i) ev) ++ v.eps.map (fun e => .notify (.endpoint e) ev)
      | none => [] }

theorem specStep_seen (v : View) (op : Op) : (specStep v op).seen = v.seen ++ match specEvent v op with
      | some ev => (List.range v.listeners).map (fun i => .notify (.listener i) ev) ++ v.eps.map (fun e => .notify (.endpoint e) ev)
      | none => [] := rfl

def U.view (u : U) : View := ⟨u.eps, u.tps, u.listeners, u.log.filter Obs.isUser⟩

theorem view_ext {a b : View} (h1 : a.eps = b.eps) (h2 : a.tps = b.tps) (h3 : a.listeners = b.listeners) (h4 : a.seen = b.seen) : a = b := by
  cases a; cases b; simp_all

/-! ## `Run` -/

/-- An UpperDeck's map after `acceptEndpoint`. -/
def admit (session : EpId → Int) (served : List EpId) (e : EpId) : List EpId :=
  if served.any fun x => x == e || session x == session e then served else served ++ [e]

theorem acceptEndpoint_eq (u : U) (d : DeckId) (e : EpId) :
    ∃ l, u.acceptEndpoint d e =
        { u with served := fun x => if x = d then admit u.session (u.served d) e else u.served x, log := u.log ++ l } ∧
      l.filter Obs.isUser = [] := by
  obtain ⟨l, h1, h2⟩ := upperOnEvent_eq u d ⟨.endpointAdded, .ep e⟩
  exact ⟨l, h1, h2⟩

theorem accepts_eq (d : DeckId) (es : List EpId) (u : U) :
    ∃ l, es.foldl (fun u e => u.acceptEndpoint d e) u =
        { u with served := fun x => if x = d then es.foldl (admit u.session) (u.served d) else u.served x, log := u.log ++ l } ∧
      l.filter Obs.isUser = [] := by
  induction es generalizing u with
  | nil =>
    refine ⟨[], ?_, rfl⟩
    have : (fun x => if x = d then u.served d else u.served x) = u.served := by
      funext x; split
      · rename_i h; rw [h]
      · rfl
    simp [this]
  | cons e es ih =>
    obtain ⟨l1, h1, f1⟩ := acceptEndpoint_eq u d e
    obtain ⟨l2, h2, f2⟩ := ih (u.acceptEndpoint d e)
    refine ⟨l1 ++ l2, ?_, by rw [List.filter_append, f1, f2]; rfl⟩
    rw [List.foldl_cons, h2, h1]
    simp only [List.foldl_cons, if_pos, List.append_assoc]
    congr 1
    funext x
    by_cases h : x = d <;> simp [h]

theorem acceptTransports_eq (d : DeckId) (ts : List TpId) (u : U) :
    ts.foldl (fun u t => u.acceptTransport d t) u = { u with log := u.log ++ ts.map (.accept d) } := by
  induction ts generalizing u with
  | nil => simp
  | cons t ts ih => rw [List.foldl_cons, ih]; simp [U.acceptTransport, U.emit]

theorem linkChain_eq (b a : Elem) (ps : List ProcId) (u : U) :
    u.linkChain b a ps = { u with upperOf := (u.linkChain b a ps).upperOf, lowerOf := (u.linkChain b a ps).lowerOf } := by
  induction ps generalizing u a with
  | nil => rfl
  | cons p ps ih => rw [U.linkChain, ih]; rfl

theorem filter_features (n : Nat) : ((List.range n).map Obs.runFeature).filter Obs.isUser = [] := by
  rw [List.filter_eq_nil_iff]; intro o ho; obtain ⟨_, _, rfl⟩ := List.mem_map.mp ho; simp [Obs.isUser]

theorem filter_runs (ps : List ProcId) : (ps.map Obs.runProc).filter Obs.isUser = [] := by
  rw [List.filter_eq_nil_iff]; intro o ho; obtain ⟨_, _, rfl⟩ := List.mem_map.mp ho; simp [Obs.isUser]

theorem filter_accepts (d : DeckId) (ts : List TpId) : (ts.map (Obs.accept d)).filter Obs.isUser = [] := by
  rw [List.filter_eq_nil_iff]; intro o ho; obtain ⟨_, _, rfl⟩ := List.mem_map.mp ho; simp [Obs.isUser]

/-- The links `build` makes. -/
def U.wired (u : U) : U := U.linkChain { u.parseOptions with decks := some u.nextDeck, nextDeck := u.nextDeck + 1 }
  (.lower u.nextDeck) (.upper u.nextDeck) u.procs

theorem build_eq (u : U) : u.build =
    { u with
      mtu := (optionParseInt (u.options "MTU") 2048).1
      overhead := u.overhead + (u.procs.map u.cost).sum
      decks := some u.nextDeck
      nextDeck := u.nextDeck + 1
      upperOf := u.wired.upperOf
      lowerOf := u.wired.lowerOf } := by
  have hw := linkChain_eq (.lower u.nextDeck) (.upper u.nextDeck) u.procs
    { u.parseOptions with decks := some u.nextDeck, nextDeck := u.nextDeck + 1 }
  show { u.wired with overhead := u.wired.overhead + (u.wired.procs.map u.wired.cost).sum } = _
  have hw' : u.wired = _ := hw
  rw [hw']
  rfl

/-- `Run`, all fields. -/
theorem run_eq (u : U) : ∃ l, u.run =
      { u with
        mtu := (optionParseInt (u.options "MTU") 2048).1
        overhead := u.overhead + (u.procs.map u.cost).sum
        decks := some u.nextDeck
        nextDeck := u.nextDeck + 1
        upperOf := u.wired.upperOf
        lowerOf := u.wired.lowerOf
        served := fun x => if x = u.nextDeck then u.eps.foldl (admit u.session) (u.served u.nextDeck) else u.served x
        log := u.log ++ l } ∧ l.filter Obs.isUser = [] := by
  simp only [U.run, acceptTransports_eq]
  rw [build_eq]
  generalize hv : U.emit _ (List.map Obs.runFeature _) = v
  obtain ⟨l, h1, f1⟩ := accepts_eq (u.nextDeck + 1 - 1) v.eps v
  simp only
  rw [h1]
  subst hv
  refine ⟨(List.range u.features).map .runFeature ++ (l ++ (u.procs.map .runProc ++ u.tps.map (.accept u.nextDeck))), ?_, ?_⟩
  · simp only [U.emit, List.append_assoc]
    rfl
  · simp only [List.filter_append, filter_features, filter_runs, filter_accepts, f1]
    rfl

/-! ## The stack refines the specification -/

theorem idxOf?_mem {l : List Nat} {e i : Nat} (h : l.idxOf? e = some i) : e ∈ l ∧ i < l.length := by
  obtain ⟨hi, he, _⟩ := List.idxOf?_eq_some_iff.mp h
  exact ⟨he ▸ List.getElem_mem hi, hi⟩

theorem eraseIdx_filter {l : List Nat} (hn : l.Nodup) {e i : Nat} (h : l.idxOf? e = some i) :
    l.eraseIdx i = l.filter (· ≠ e) := by
  have h1 := List.erase_eq_eraseIdx l e
  rw [h] at h1
  simp only at h1
  rw [← h1, hn.erase_eq_filter]
  apply List.filter_congr
  intro x _
  by_cases hx : x = e <;> simp [hx]

theorem filter_ne_of_not_mem {l : List Nat} {e : Nat} (h : e ∉ l) : l.filter (· ≠ e) = l := by
  rw [List.filter_eq_self]
  intro x hx
  simp only [decide_eq_true_eq]
  intro hxe
  exact h (hxe ▸ hx)

theorem nodup_snoc {l : List Nat} (hn : l.Nodup) {e : Nat} (h : e ∉ l) : (l ++ [e]).Nodup := by
  rw [List.nodup_append]
  refine ⟨hn, by simp, ?_⟩
  intro a ha b hb hab
  rw [List.mem_singleton] at hb
  exact h (hb ▸ hab ▸ ha)

theorem view_addEndPoint (u : U) (h : u.Inv) (e : EpId) :
    (u.addEndPoint e).view = specStep u.view (.addEndPoint e) ∧ (u.addEndPoint e).Inv := by
  simp only [U.addEndPoint]
  by_cases he : e ∈ u.eps
  · rw [if_pos he]
    exact ⟨view_ext (by simp [specStep, specEps, U.view, he]) rfl rfl (by simp [specStep, specEvent, U.view, he]), h⟩
  · rw [if_neg he]
    obtain ⟨l, hp, hf⟩ := publish_eq u ⟨.endpointAdded, .ep e⟩
    rw [hp]
    have hr := Mem.read_append (z := 0) (spare := u.spare (u.endpoints.len + 1)) (x := e) h.eok
    refine ⟨view_ext ?_ rfl rfl ?_, ⟨Mem.ok_append h.eok, h.tok, ?_, h.tnodup⟩⟩
    · simp only [U.view, specStep, specEps, he, ↓reduceIte]; exact hr
    · simp only [U.view, specStep, specEvent, he, ↓reduceIte, List.filter_append, hf, deliveries]
    · show (Mem.read _ _).Nodup
      rw [hr]; exact nodup_snoc h.enodup he

theorem view_deleteEndPoint (u : U) (h : u.Inv) (e : EpId) :
    (u.deleteEndPoint e).view = specStep u.view (.deleteEndPoint e) ∧ (u.deleteEndPoint e).Inv := by
  simp only [U.deleteEndPoint]
  cases hi : u.eps.idxOf? e with
  | none =>
    have he : e ∉ u.eps := by rwa [List.idxOf?_eq_none_iff] at hi
    exact ⟨view_ext (by simp only [specStep, specEps, U.view]; exact (filter_ne_of_not_mem he).symm) rfl rfl
      (by simp [specStep, specEvent, U.view, he]), h⟩
  | some i =>
    obtain ⟨he, hl⟩ := idxOf?_mem hi
    obtain ⟨l, hp, hf⟩ := publish_eq u ⟨.endpointDeleted, .ep e⟩
    simp only
    rw [hp]
    have hl' : i < u.endpoints.len := by
      have := Mem.read_length h.eok
      unfold U.eps at hl
      omega
    have hr := Mem.read_deleteAt h.eok hl'
    refine ⟨view_ext ?_ rfl rfl ?_, ⟨Mem.ok_deleteAt h.eok hl', h.tok, ?_, h.tnodup⟩⟩
    · simp only [U.view, specStep, specEps]; exact hr.trans (eraseIdx_filter h.enodup hi)
    · simp only [U.view, specStep, specEvent, he, ↓reduceIte, List.filter_append, hf, deliveries]
    · show (Mem.read _ _).Nodup
      rw [hr]; exact h.enodup.eraseIdx i

theorem view_addTransport (u : U) (h : u.Inv) (t : TpId) :
    (u.addTransport t).view = specStep u.view (.addTransport t) ∧ (u.addTransport t).Inv := by
  simp only [U.addTransport]
  by_cases he : t ∈ u.tps
  · rw [if_pos he]
    exact ⟨view_ext rfl (by simp [specStep, specTps, U.view, he]) rfl (by simp [specStep, specEvent, U.view, he]), h⟩
  · rw [if_neg he]
    obtain ⟨l, hp, hf⟩ := publish_eq u ⟨.transportAdded, .tp t⟩
    rw [hp]
    have hr := Mem.read_append (z := 0) (spare := u.spare (u.transports.len + 1)) (x := t) h.tok
    refine ⟨view_ext rfl ?_ rfl ?_, ⟨h.eok, Mem.ok_append h.tok, h.enodup, ?_⟩⟩
    · simp only [U.view, specStep, specTps, he, ↓reduceIte]; exact hr
    · simp only [U.view, specStep, specEvent, he, ↓reduceIte, List.filter_append, hf, deliveries]
    · show (Mem.read _ _).Nodup
      rw [hr]; exact nodup_snoc h.tnodup he

theorem view_deleteTransport (u : U) (h : u.Inv) (t : TpId) :
    (u.deleteTransport t).view = specStep u.view (.deleteTransport t) ∧ (u.deleteTransport t).Inv := by
  simp only [U.deleteTransport]
  cases hi : u.tps.idxOf? t with
  | none =>
    have he : t ∉ u.tps := by rwa [List.idxOf?_eq_none_iff] at hi
    exact ⟨view_ext rfl (by simp only [specStep, specTps, U.view]; exact (filter_ne_of_not_mem he).symm) rfl
      (by simp [specStep, specEvent, U.view, he]), h⟩
  | some i =>
    obtain ⟨he, hl⟩ := idxOf?_mem hi
    simp only
    generalize hv : (U.mk _ _ _ _ _ _ _ _ _ _ _ _ _ _ _ _ _ _ _ : U) = v
    obtain ⟨l, hp, hf⟩ := publish_eq v ⟨.transportDeleted, .tp t⟩
    rw [hp]
    subst hv
    have hl' : i < u.transports.len := by
      have := Mem.read_length h.tok
      unfold U.tps at hl
      omega
    have hr := Mem.read_deleteAt h.tok hl'
    refine ⟨view_ext rfl ?_ rfl ?_, ⟨h.eok, Mem.ok_deleteAt h.tok hl', h.enodup, ?_⟩⟩
    · simp only [U.view, specStep, specTps]; exact hr.trans (eraseIdx_filter h.tnodup hi)
    · simp only [U.view, specStep, specEvent, he, ↓reduceIte, List.filter_append, hf, deliveries]; rfl
    · show (Mem.read _ _).Nodup
      rw [hr]; exact h.tnodup.eraseIdx i

/-- Every call refines its specification. -/
theorem view_step (u : U) (h : u.Inv) (op : Op) : (u.step op).view = specStep u.view op ∧ (u.step op).Inv := by
  cases op with
  | addEndPoint e => exact view_addEndPoint u h e
  | deleteEndPoint e => exact view_deleteEndPoint u h e
  | addTransport t => exact view_addTransport u h t
  | deleteTransport t => exact view_deleteTransport u h t
  | publish t c =>
    obtain ⟨l, hp, hf⟩ := publish_eq u ⟨t, .conn c⟩
    simp only [U.step]
    rw [hp]
    exact ⟨view_ext rfl rfl rfl (by simp only [U.view, specStep, specEvent, List.filter_append, hf, deliveries]), ⟨h.eok, h.tok, h.enodup, h.tnodup⟩⟩
  | run =>
    obtain ⟨l, hp, hf⟩ := run_eq u
    simp only [U.step]
    rw [hp]
    exact ⟨view_ext rfl rfl rfl (by simp only [U.view, specStep, specEvent, List.filter_append, hf]), ⟨h.eok, h.tok, h.enodup, h.tnodup⟩⟩
  | setListener => exact ⟨view_ext rfl rfl rfl (by simp [U.view, specStep, specEvent, U.step]), ⟨h.eok, h.tok, h.enodup, h.tnodup⟩⟩
  | appendProc p => exact ⟨view_ext rfl rfl rfl (by simp [U.view, specStep, specEvent, U.step]), ⟨h.eok, h.tok, h.enodup, h.tnodup⟩⟩
  | addFeature => exact ⟨view_ext rfl rfl rfl (by simp [U.view, specStep, specEvent, U.step]), ⟨h.eok, h.tok, h.enodup, h.tnodup⟩⟩
  | setOption n v => exact ⟨view_ext rfl rfl rfl (by simp [U.view, specStep, specEvent, U.step]), ⟨h.eok, h.tok, h.enodup, h.tnodup⟩⟩
  | setSession e s => exact ⟨view_ext rfl rfl rfl (by simp [U.view, specStep, specEvent, U.step]), ⟨h.eok, h.tok, h.enodup, h.tnodup⟩⟩

theorem view_steps (ops : List Op) (u : U) (h : u.Inv) : (u.steps ops).view = ops.foldl specStep u.view ∧ (u.steps ops).Inv := by
  induction ops generalizing u with
  | nil => exact ⟨rfl, h⟩
  | cons op ops ih =>
    obtain ⟨h1, h2⟩ := view_step u h op
    obtain ⟨h3, h4⟩ := ih (u.step op) h2
    refine ⟨?_, h4⟩
    show ((u.step op).steps ops).view = _
    rw [h3, h1]; rfl

theorem specStep_eps (ops : List Op) (v : View) : (ops.foldl specStep v).eps = ops.foldl specEps v.eps ∧
    (ops.foldl specStep v).tps = ops.foldl specTps v.tps := by
  induction ops generalizing v with
  | nil => exact ⟨rfl, rfl⟩
  | cons op ops ih => exact ih (specStep v op)

/-! ## C39 -/

/-- C39: after any history of calls the registries are what the ordered-set semantics says. -/
theorem c39_registries (session : EpId → Int) (cost : ProcId → Int) (spare : Nat → Nat) (ops : List Op) :
    ((U.new session cost spare).steps ops).eps = ops.foldl specEps [] ∧
    ((U.new session cost spare).steps ops).tps = ops.foldl specTps [] := by
  obtain ⟨h, _⟩ := view_steps ops _ (U.inv_new session cost spare)
  have h1 : ((U.new session cost spare).steps ops).eps = ((U.new session cost spare).steps ops).view.eps := rfl
  have h2 : ((U.new session cost spare).steps ops).tps = ((U.new session cost spare).steps ops).view.tps := rfl
  rw [h1, h2, h]
  exact specStep_eps ops _

/-- C39: no item is registered twice. -/
theorem c39_nodup (session : EpId → Int) (cost : ProcId → Int) (spare : Nat → Nat) (ops : List Op) :
    ((U.new session cost spare).steps ops).eps.Nodup ∧ ((U.new session cost spare).steps ops).tps.Nodup := by
  obtain ⟨_, h⟩ := view_steps ops _ (U.inv_new session cost spare)
  exact ⟨h.enodup, h.tnodup⟩

/-- C39: adding what is registered and deleting what is not changes nothing at all. -/
theorem c39_noop (u : U) :
    (∀ e ∈ u.eps, u.addEndPoint e = u) ∧ (∀ e, e ∉ u.eps → u.deleteEndPoint e = u) ∧
    (∀ t ∈ u.tps, u.addTransport t = u) ∧ (∀ t, t ∉ u.tps → u.deleteTransport t = u) := by
  refine ⟨fun e h => by rw [U.addEndPoint, if_pos h], fun e h => ?_, fun e h => by rw [U.addTransport, if_pos h], fun e h => ?_⟩
  · rw [U.deleteEndPoint, List.idxOf?_eq_none_iff.mpr h]
  · rw [U.deleteTransport, List.idxOf?_eq_none_iff.mpr h]

example : ((U.new (fun _ => 0) (fun _ => 0) (fun n => n)).steps
    [.addEndPoint 7, .addEndPoint 8, .run, .addEndPoint 9, .addEndPoint 7, .deleteEndPoint 8, .deleteEndPoint 5]).eps = [7, 9] := by
  rfl

/-! ## C40 -/

/-- C40, per call: the deliveries of one call are one event to each listener and then to each endpoint registered at that
time, or nothing if the call changes nothing. -/
theorem c40_call (session : EpId → Int) (cost : ProcId → Int) (spare : Nat → Nat) (ops : List Op) (op : Op) :
    let u := (U.new session cost spare).steps ops
    (u.step op).log.filter Obs.isUser = u.log.filter Obs.isUser ++
      match specEvent u.view op with
      | some ev => (List.range u.listeners).map (fun i => .notify (.listener i) ev) ++ u.eps.map (fun e => .notify (.endpoint e) ev)
      | none => [] := by
  intro u
  obtain ⟨_, h⟩ := view_steps ops _ (U.inv_new session cost spare)
  have := (view_step u h op).1
  exact congrArg View.seen this

/-- The events published by a history, from the ordered-set semantics alone. -/
def published : List EpId → List TpId → List Op → List Event
  | _, _, [] => []
  | es, ts, op :: ops => (specEvent ⟨es, ts, 0, []⟩ op).toList ++ published (specEps es op) (specTps ts op) ops

/-- The events published while an endpoint was registered. -/
def publishedTo (e : EpId) : List EpId → List TpId → List Op → List Event
  | _, _, [] => []
  | es, ts, op :: ops => (if e ∈ es then (specEvent ⟨es, ts, 0, []⟩ op).toList else []) ++ publishedTo e (specEps es op) (specTps ts op) ops

/-- The events a user saw. -/
def seenBy (t : Target) (log : List Obs) : List Event :=
  log.filterMap fun o => match o with | .notify t' ev => if t' = t then some ev else none | _ => none

theorem seenBy_append (t : Target) (a b : List Obs) : seenBy t (a ++ b) = seenBy t a ++ seenBy t b := List.filterMap_append ..

theorem seenBy_user (t : Target) (ht : (∃ i, t = .listener i) ∨ ∃ e, t = .endpoint e) (log : List Obs) :
    seenBy t log = seenBy t (log.filter Obs.isUser) := by
  induction log with
  | nil => rfl
  | cons o log ih =>
    rw [List.filter_cons]
    split
    · rw [seenBy, List.filterMap_cons, ← seenBy, ih, seenBy, seenBy, List.filterMap_cons]
    · rename_i hn
      rw [← ih, seenBy, List.filterMap_cons]
      cases o with
      | notify t' ev =>
        have : t' ≠ t := by
          rintro rfl
          rcases ht with ⟨i, rfl⟩ | ⟨e, rfl⟩ <;> exact hn rfl
        simp [this, seenBy]
      | _ => rfl

theorem seenBy_listener (i n : Nat) (es : List EpId) (ev : Event) :
    seenBy (.listener i) (deliveries n es ev) = if i < n then [ev] else [] := by
  rw [deliveries, seenBy_append]
  have h2 : seenBy (.listener i) (es.map fun e => Obs.notify (.endpoint e) ev) = [] := by
    simp [seenBy, List.filterMap_map]
  rw [h2, List.append_nil]
  induction n with
  | zero => rfl
  | succ n ih =>
    rw [List.range_succ, List.map_append, seenBy_append, ih]
    by_cases h : i < n
    · rw [if_pos h, if_pos (by omega)]
      have : n ≠ i := by omega
      simp [seenBy, this]
    · rw [if_neg h]
      by_cases h' : i = n
      · subst h'; simp [seenBy]
      · rw [if_neg (by omega)]
        have : n ≠ i := by omega
        simp [seenBy, this]

theorem seenBy_endpoint (e : EpId) (n : Nat) (es : List EpId) (hn : es.Nodup) (ev : Event) :
    seenBy (.endpoint e) (deliveries n es ev) = if e ∈ es then [ev] else [] := by
  rw [deliveries, seenBy_append]
  have h2 : seenBy (.endpoint e) ((List.range n).map fun e => Obs.notify (.listener e) ev) = [] := by
    simp [seenBy, List.filterMap_map]
  rw [h2, List.nil_append]
  induction es with
  | nil => rfl
  | cons x es ih =>
    have hn' := List.nodup_cons.mp hn
    rw [List.map_cons, ← List.singleton_append, seenBy_append, ih hn'.2]
    by_cases h : x = e
    · subst h
      rw [if_neg hn'.1]; simp [seenBy]
    · simp [seenBy, h, Ne.symm h]

/-- C40, per listener: once registered, a listener sees exactly the events published, each once and in order. -/
theorem c40_listener (u : U) (h : u.Inv) (i : Nat) (hi : i < u.listeners) (ops : List Op) :
    seenBy (.listener i) (u.steps ops).log = seenBy (.listener i) u.log ++ published u.eps u.tps ops := by
  induction ops generalizing u with
  | nil => simp [U.steps, published]
  | cons op ops ih =>
    obtain ⟨h1, h2⟩ := view_step u h op
    have hl : (u.step op).listeners = (specStep u.view op).listeners := congrArg View.listeners h1
    have he : (u.step op).eps = specEps u.eps op := congrArg View.eps h1
    have ht : (u.step op).tps = specTps u.tps op := congrArg View.tps h1
    have hs : (u.step op).log.filter Obs.isUser = (specStep u.view op).seen := congrArg View.seen h1
    have hi' : i < (u.step op).listeners := by
      rw [hl]; simp only [specStep, U.view]; split <;> omega
    show seenBy _ ((u.step op).steps ops).log = _
    rw [ih (u.step op) h2 hi', published, ← List.append_assoc, he, ht]
    congr 1
    rw [seenBy_user _ (Or.inl ⟨i, rfl⟩) (u.step op).log, hs, specStep_seen, seenBy_append,
      seenBy_user _ (Or.inl ⟨i, rfl⟩) u.log]
    congr 1
    have hev : specEvent u.view op = specEvent ⟨u.eps, u.tps, 0, []⟩ op := by cases op <;> rfl
    rw [hev]
    cases specEvent ⟨u.eps, u.tps, 0, []⟩ op with
    | none => rfl
    | some ev => exact (seenBy_listener i u.listeners u.eps ev).trans (if_pos hi)

/-- C40, per endpoint: an endpoint sees exactly the events published while it was registered, each once and in order:
not its own addition, but its own deletion. -/
theorem c40_endpoint (u : U) (h : u.Inv) (e : EpId) (ops : List Op) :
    seenBy (.endpoint e) (u.steps ops).log = seenBy (.endpoint e) u.log ++ publishedTo e u.eps u.tps ops := by
  induction ops generalizing u with
  | nil => simp [U.steps, publishedTo]
  | cons op ops ih =>
    obtain ⟨h1, h2⟩ := view_step u h op
    have he : (u.step op).eps = specEps u.eps op := congrArg View.eps h1
    have ht : (u.step op).tps = specTps u.tps op := congrArg View.tps h1
    have hs : (u.step op).log.filter Obs.isUser = (specStep u.view op).seen := congrArg View.seen h1
    show seenBy _ ((u.step op).steps ops).log = _
    rw [ih (u.step op) h2, publishedTo, ← List.append_assoc, he, ht]
    congr 1
    rw [seenBy_user _ (Or.inr ⟨e, rfl⟩) (u.step op).log, hs, specStep_seen, seenBy_append,
      seenBy_user _ (Or.inr ⟨e, rfl⟩) u.log]
    congr 1
    have hev : specEvent u.view op = specEvent ⟨u.eps, u.tps, 0, []⟩ op := by cases op <;> rfl
    rw [hev]
    cases specEvent ⟨u.eps, u.tps, 0, []⟩ op with
    | none => simp only [Option.toList_none]; split <;> rfl
    | some ev => exact seenBy_endpoint e u.listeners u.eps h.enodup ev

example : let u := (U.new (fun _ => 0) (fun _ => 0) (fun n => n)).steps [.setListener, .addEndPoint 7, .run, .addEndPoint 8,
    .addEndPoint 7, .addTransport 3, .deleteEndPoint 7, .deleteTransport 3]
    seenBy (.listener 0) u.log = [⟨.endpointAdded, .ep 7⟩, ⟨.endpointAdded, .ep 8⟩, ⟨.transportAdded, .tp 3⟩,
      ⟨.endpointDeleted, .ep 7⟩, ⟨.transportDeleted, .tp 3⟩] ∧
    seenBy (.endpoint 7) u.log = [⟨.endpointAdded, .ep 8⟩, ⟨.transportAdded, .tp 3⟩, ⟨.endpointDeleted, .ep 7⟩] := by
  exact ⟨rfl, rfl⟩

end Verif.Reg
