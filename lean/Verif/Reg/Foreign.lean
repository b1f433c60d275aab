import Verif.Stack.Model
import Verif.Trace

/-!
# Nil arguments and events published by the program (C102)

The calls of a program on `DefaultUStack` (ustack_default.go:93-345) take interface values, which may be nil, and `PublishEvent` is exported and
takes any event. This file models when the calls panic: a method called on a nil interface, a nil function called (`PublishEvent`,
309-326; `GetFeature`, 180-187; `build`, 120-146; `Run`, 329-345), a type assertion that fails (proc_heartbeat.go:142,
proc_stat_counter.go:154), a negative cache capacity (proc_frame_decoder.go:193-205), together with what decides about these: the registries, the
intervals and options of the processors, and the UpperDeck's map.

Simplifications: the listeners only observe; a panic ends the program (no `recover`); `2 * MTU` does not overflow and memory does not run out; the
interface values are nil or pointers to objects whose methods return (no typed nil pointers, no types that cannot be compared); `Run` of transports and
features does not panic. What the goroutines started here do is not modelled. The calls are made one after the other.
-/

namespace Verif.Reg.Foreign

open Verif Verif.Stack

/-- event.go:7-24; any other number is `other`. -/
inductive Type'
  | newConnection | connectionClosed | heartbeatLost | heartbeatRecover
  | transportAdded | transportDeleted | endpointAdded | endpointDeleted
  | other (n : Int)
  deriving DecidableEq, Repr

/-- The dynamic value of `Event.Data`. -/
inductive Data
  | nil
  | ep (e : Nat)
  | tp (t : Nat)
  | conn (c : Nat)
  | other (n : Nat)
  deriving DecidableEq, Repr

/-- event.go:26-31 without `Source`. -/
structure Event where
  type : Type'
  data : Data
  deriving DecidableEq, Repr

/-- What a processor does in `OnEvent` and `Run`. -/
inductive Kind
  /-- proc_heartbeat.go:139-171 -/
  | heartbeat
  /-- proc_stat_counter.go:146-179 -/
  | stat
  /-- proc_frame_decoder.go:193-205 -/
  | frame
  /-- the others: proc_base.go:119-125 -/
  | plain
  deriving DecidableEq, Repr

/-- What the decks do. -/
inductive Obs
  | serve (e : Nat)
  | unserve (e : Nat)
  | accept (t : Nat)
  | stop (t : Nat)
  deriving DecidableEq, Repr

/-- What is fixed: the kinds of the processors and the sessions of the endpoints. -/
structure Conf where
  kind : Nat → Kind
  session : Nat → Int

/-- The stack object; `none` in a list is a nil interface (or function). -/
structure S where
  listeners : List (Option Nat)
  features : List (Option Nat)
  eps : List (Option Nat)
  tps : List (Option Nat)
  procs : List (Option Nat)
  /-- the option "MTU" (ustack_default.go:111-117) -/
  mtuOpt : Val
  /-- the option "Collect.IntervalInSecond" or "CacheCapacity" of a processor -/
  procOpt : Nat → Val
  /-- `intervalInSecond` of the StatCounters (proc_stat_counter.go:14-19) -/
  interval : Nat → Int
  /-- the decks are made by `Run` -/
  decks : Bool
  /-- the keys of the present UpperDeck's `endpoints` -/
  served : List Nat
  log : List Obs

/-- `NewUStack` (ustack_default.go:94-108) and new processors (proc_stat_counter.go:27: the interval is 0). -/
def S.init : S :=
  { listeners := [], features := [], eps := [], tps := [], procs := [], mtuOpt := .nil, procOpt := fun _ => .nil, interval := fun _ => 0,
    decks := false, served := [], log := [] }

/-- `for _, x := range xs { x.Method(...) }`: a panic (`none`) at a nil interface. -/
def each {α σ : Type} (f : α → σ → Option σ) : List (Option α) → σ → Option σ
  | [], s => some s
  | none :: _, _ => none
  | some a :: r, s => (f a s).bind (each f r)

def S.emit (s : S) (o : Obs) : S := { s with log := s.log ++ [o] }

/-- `acceptEndpoint` with `existsEndpoint` (proc_upperdeck.go:18-68), for an endpoint that is not nil. -/
def S.acceptEndpoint (K : Conf) (s : S) (e : Nat) : S :=
  if s.served.any fun x => x == e || K.session x == K.session e then s
  else { s with served := s.served ++ [e] }.emit (.serve e)

/-- `deleteEndpoint` (proc_upperdeck.go:71-81). -/
def S.deleteEndpoint (s : S) (e : Nat) : S :=
  if e ∈ s.served then { s with served := s.served.erase e }.emit (.unserve e) else s

/-- `UpperDeck.OnEvent` (proc_upperdeck.go:123-134), if there is an UpperDeck (ustack_default.go:316-318). -/
def S.upperOnEvent (K : Conf) (ev : Event) (s : S) : S :=
  if s.decks then
    match ev.data with
    | .ep e =>
      if ev.type = .endpointAdded then s.acceptEndpoint K e
      else if ev.type = .endpointDeleted then s.deleteEndpoint e
      else s
    | _ => s
  else s

/-- `LowerDeck.OnEvent` (proc_lowerdeck.go:123-134), if there is a LowerDeck (ustack_default.go:322-324). -/
def S.lowerOnEvent (ev : Event) (s : S) : S :=
  if s.decks then
    match ev.data with
    | .tp t =>
      if ev.type = .transportAdded then s.emit (.accept t)
      else if ev.type = .transportDeleted then s.emit (.stop t)
      else s
    | _ => s
  else s

/-- `event.Data.(TransportConnection)`. -/
def Data.assertConn : Data → Option Nat
  | .conn c => some c
  | _ => none

/-- `OnEvent` of a processor (proc_heartbeat.go:139-171, proc_stat_counter.go:146-169, proc_base.go:119-120). -/
def S.procOnEvent (K : Conf) (ev : Event) (p : Nat) (s : S) : Option S :=
  match K.kind p with
  | .heartbeat =>
    if ev.type = .newConnection then ev.data.assertConn.bind fun _ => some s
    else some s
  | .stat =>
    if ev.type = .newConnection then
      if s.interval p ≤ 0 then some s
      else ev.data.assertConn.bind fun _ => some s
    else some s
  | _ => some s

/-- `PublishEvent` (ustack_default.go:309-326). -/
def S.publish (K : Conf) (ev : Event) (s : S) : Option S :=
  (each (fun _ s => some s) s.listeners s).bind fun s =>
  (each (fun _ s => some s) s.eps s).bind fun s =>
  (each (S.procOnEvent K ev) s.procs (s.upperOnEvent K ev)).bind fun s =>
  some (s.lowerOnEvent ev)

/-- The interface value `event.Data` of an endpoint (or nil). -/
def Data.ofEp : Option Nat → Data
  | none => .nil
  | some e => .ep e

def Data.ofTp : Option Nat → Data
  | none => .nil
  | some t => .tp t

/-- `AddEndPoint` (ustack_default.go:195-211). -/
def S.addEndPoint (K : Conf) (e : Option Nat) (s : S) : Option S :=
  if e ∈ s.eps then some s
  else (s.publish K ⟨.endpointAdded, Data.ofEp e⟩).bind fun s => some { s with eps := s.eps ++ [e] }

/-- `DeleteEndPoint` (ustack_default.go:214-233). -/
def S.deleteEndPoint (K : Conf) (e : Option Nat) (s : S) : Option S :=
  if e ∈ s.eps then (s.publish K ⟨.endpointDeleted, Data.ofEp e⟩).bind fun s => some { s with eps := s.eps.erase e }
  else some s

/-- `AddTransport` (ustack_default.go:257-273). -/
def S.addTransport (K : Conf) (t : Option Nat) (s : S) : Option S :=
  if t ∈ s.tps then some s
  else (s.publish K ⟨.transportAdded, Data.ofTp t⟩).bind fun s => some { s with tps := s.tps ++ [t] }

/-- `DeleteTransport` (ustack_default.go:276-295): removed before the event. -/
def S.deleteTransport (K : Conf) (t : Option Nat) (s : S) : Option S :=
  if t ∈ s.tps then { s with tps := s.tps.erase t }.publish K ⟨.transportDeleted, Data.ofTp t⟩
  else some s

/-- `GetFeature` (ustack_default.go:180-187); a feature is its name. -/
def getFeature (n : Nat) : List (Option Nat) → Option (Option Nat)
  | [] => some none
  | none :: _ => none
  | some m :: r => if m = n then some (some m) else getFeature n r

/-- `Run` of a processor (proc_stat_counter.go:172-179, proc_frame_decoder.go:193-205; ustack_default.go:111-117). -/
def S.procRun (K : Conf) (p : Nat) (s : S) : Option S :=
  match K.kind p with
  | .stat => some { s with interval := fun q => if q = p then (optionParseInt (s.procOpt p) (s.interval p)).1 else s.interval q }
  | .frame => if (optionParseInt (s.procOpt p) (2 * (optionParseInt s.mtuOpt 2048).1)).1 < 0 then none else some s
  | _ => some s

/-- `build` and `Run` (ustack_default.go:120-146, 329-345), `UpperDeck.Run` (proc_upperdeck.go:137-143: a nil endpoint panics in `GetSession`,
line 23 or 42), `LowerDeck.Run` (proc_lowerdeck.go:138-144). `build` calls methods of every processor. -/
def S.run (K : Conf) (s : S) : Option S :=
  (each (fun _ s => some s) s.procs { s with decks := true, served := [] }).bind fun s =>
  (each (fun _ s => some s) s.features s).bind fun s =>
  (each (fun e s => some (s.acceptEndpoint K e)) s.eps s).bind fun s =>
  (each (S.procRun K) s.procs s).bind fun s =>
  each (fun t s => some (s.emit (.accept t))) s.tps s

/-- The calls. -/
inductive Op
  | setListener (f : Option Nat)
  | addFeature (f : Option Nat)
  | getFeature (n : Nat)
  | addEndPoint (e : Option Nat)
  | deleteEndPoint (e : Option Nat)
  | addTransport (t : Option Nat)
  | deleteTransport (t : Option Nat)
  | append (p : Option Nat)
  /-- `SetOption("MTU", v)` -/
  | setMTU (v : Val)
  /-- `SetOption("Collect.IntervalInSecond", v)`, `SetOption("CacheCapacity", v)` of a processor -/
  | setProc (p : Nat) (v : Val)
  | publish (ev : Event)
  | run
  deriving DecidableEq

def S.step (K : Conf) (s : S) : Op → Option S
  | .setListener f => some { s with listeners := s.listeners ++ [f] }       -- ustack_default.go:303-306
  | .addFeature f => some { s with features := s.features ++ [f] }          -- ustack_default.go:174-177
  | .getFeature n => (Foreign.getFeature n s.features).bind fun _ => some s
  | .addEndPoint e => s.addEndPoint K e
  | .deleteEndPoint e => s.deleteEndPoint K e
  | .addTransport t => s.addTransport K t
  | .deleteTransport t => s.deleteTransport K t
  | .append p => some { s with procs := s.procs ++ [p] }                    -- ustack_default.go:241-244
  | .setMTU v => some { s with mtuOpt := v }                                -- ustack_default.go:160-163
  | .setProc p v => some { s with procOpt := fun q => if q = p then v else s.procOpt q }   -- proc_base.go:66-69
  | .publish ev => s.publish K ev
  | .run => s.run K

abbrev runs (K : Conf) (ops : List Op) : Option S := Trace.exec (S.step K) S.init ops

/-! ## The specification: what the calls before decide -/

/-- Added and not deleted since. -/
def Present (add delete : Option Nat → Op) (x : Option Nat) (pre : List Op) : Prop :=
  ∃ a b, pre = a ++ add x :: b ∧ delete x ∉ b

abbrev Endpoint (x : Option Nat) (pre : List Op) : Prop := Present .addEndPoint .deleteEndPoint x pre
abbrev Transp (x : Option Nat) (pre : List Op) : Prop := Present .addTransport .deleteTransport x pre

/-- The last value given to an option, from the latest call backwards. -/
def lastMTU : List Op → Val
  | [] => .nil
  | .setMTU v :: _ => v
  | _ :: r => lastMTU r

def lastProc (p : Nat) : List Op → Val
  | [] => .nil
  | .setProc q v :: r => if q = p then v else lastProc p r
  | _ :: r => lastProc p r

/-- The interval of a StatCounter, from the latest call backwards: what the last `Run` with this processor found as a number. -/
def lastInterval (p : Nat) : List Op → Int
  | [] => 0
  | .run :: r =>
    match lastProc p r with
    | .int i => if .append (some p) ∈ r then i else lastInterval p r
    | _ => lastInterval p r
  | _ :: r => lastInterval p r

/-- Publishing the event panics. -/
def BadEvent (K : Conf) (pre : List Op) (ev : Event) : Prop :=
  .setListener none ∈ pre ∨ .addEndPoint none ∈ pre ∨ .append none ∈ pre ∨
  (ev.type = .newConnection ∧ (∀ c, ev.data ≠ .conn c) ∧
    ∃ p, .append (some p) ∈ pre ∧ (K.kind p = .heartbeat ∨ K.kind p = .stat ∧ 0 < lastInterval p pre.reverse))

/-- The call panics after the calls `pre`. -/
def Bad (K : Conf) (pre : List Op) : Op → Prop
  | .getFeature n => ∃ a b, pre = a ++ .addFeature none :: b ∧ .addFeature (some n) ∉ a
  | .addEndPoint e => ¬ Endpoint e pre ∧ BadEvent K pre ⟨.endpointAdded, .nil⟩
  | .deleteEndPoint e => Endpoint e pre ∧ BadEvent K pre ⟨.endpointDeleted, .nil⟩
  | .addTransport t => ¬ Transp t pre ∧ BadEvent K pre ⟨.transportAdded, .nil⟩
  | .deleteTransport t => Transp t pre ∧ BadEvent K pre ⟨.transportDeleted, .nil⟩
  | .publish ev => BadEvent K pre ev
  | .run =>
    .append none ∈ pre ∨ .addFeature none ∈ pre ∨ .addEndPoint none ∈ pre ∨ Transp none pre ∨
    ∃ p, .append (some p) ∈ pre ∧ K.kind p = .frame ∧
      match lastProc p pre.reverse with
      | .int i => i < 0
      | _ => match lastMTU pre.reverse with
        | .int m => m < 0
        | _ => False
  | _ => False

/-! ## Loops -/

theorem each_skip {σ : Type} (l : List (Option Nat)) (s : σ) :
    each (fun _ s => some s) l s = if none ∈ l then none else some s := by
  induction l with
  | nil => rfl
  | cons x r ih =>
    cases x with
    | none => simp [each]
    | some a => simp [each, ih]

/-! ## What a call leaves -/

/-- All but the decks and what they do. -/
def S.core (s : S) : S := { s with decks := false, served := [], log := [] }

theorem accept_core (K : Conf) (s : S) (e : Nat) : (s.acceptEndpoint K e).core = s.core := by
  unfold S.acceptEndpoint; split <;> rfl

theorem upper_core (K : Conf) (ev : Event) (s : S) : (s.upperOnEvent K ev).core = s.core := by
  unfold S.upperOnEvent
  split
  · split
    · split
      · exact accept_core ..
      · split
        · unfold S.deleteEndpoint; split <;> rfl
        · rfl
    · rfl
  · rfl

theorem lower_core (ev : Event) (s : S) : (s.lowerOnEvent ev).core = s.core := by
  unfold S.lowerOnEvent
  split
  · split
    · split
      · rfl
      · split <;> rfl
    · rfl
  · rfl

/-- The event is one the processor stands. -/
def Stands (K : Conf) (interval : Nat → Int) (ev : Event) (p : Nat) : Prop :=
  ¬ (ev.type = .newConnection ∧ ev.data.assertConn = none ∧ (K.kind p = .heartbeat ∨ K.kind p = .stat ∧ 0 < interval p))

open Classical in
theorem procOnEvent_eq (K : Conf) (ev : Event) (p : Nat) (s : S) :
    s.procOnEvent K ev p = if Stands K s.interval ev p then some s else none := by
  unfold S.procOnEvent Stands
  rcases hk : K.kind p with _ | _ | _ | _ <;> simp
  · split
    · cases hd : ev.data.assertConn <;> simp_all
    · simp_all
  · split
    · split
      · have : ¬ 0 < s.interval p := by omega
        simp_all
      · have : 0 < s.interval p := by omega
        cases hd : ev.data.assertConn <;> simp_all
    · simp_all

open Classical in
theorem each_procs (K : Conf) (ev : Event) (l : List (Option Nat)) (s : S) :
    each (S.procOnEvent K ev) l s = if none ∈ l ∨ ∃ p, some p ∈ l ∧ ¬ Stands K s.interval ev p then none else some s := by
  induction l with
  | nil => rw [if_neg (by simp)]; rfl
  | cons x r ih =>
    cases x with
    | none => rw [if_pos (Or.inl List.mem_cons_self)]; rfl
    | some p =>
      simp only [each, procOnEvent_eq]
      by_cases h : Stands K s.interval ev p
      · rw [if_pos h, Option.bind_some, ih]
        have e : (none ∈ r ∨ ∃ q, some q ∈ r ∧ ¬ Stands K s.interval ev q) ↔
            (none ∈ some p :: r ∨ ∃ q, some q ∈ some p :: r ∧ ¬ Stands K s.interval ev q) := by
          constructor
          · rintro (h | ⟨q, hq, hn⟩)
            · exact Or.inl (List.mem_cons_of_mem _ h)
            · exact Or.inr ⟨q, List.mem_cons_of_mem _ hq, hn⟩
          · rintro (h | ⟨q, hq, hn⟩)
            · rcases List.mem_cons.1 h with h | h
              · exact absurd h (by simp)
              · exact Or.inl h
            · rcases List.mem_cons.1 hq with h' | h'
              · injection h' with h'; subst h'; exact absurd h hn
              · exact Or.inr ⟨q, h', hn⟩
        by_cases hc : none ∈ r ∨ ∃ q, some q ∈ r ∧ ¬ Stands K s.interval ev q
        · rw [if_pos hc, if_pos (e.1 hc)]
        · rw [if_neg hc, if_neg (fun h => hc (e.2 h))]
      · rw [if_neg h, if_pos (Or.inr ⟨p, List.mem_cons_self, h⟩)]; rfl

/-- The event cannot be published. -/
def Stuck (K : Conf) (s : S) (ev : Event) : Prop :=
  none ∈ s.listeners ∨ none ∈ s.eps ∨ none ∈ s.procs ∨ ∃ p, some p ∈ s.procs ∧ ¬ Stands K s.interval ev p

theorem upper_field (K : Conf) (ev : Event) (s : S) : (s.upperOnEvent K ev).procs = s.procs ∧ (s.upperOnEvent K ev).interval = s.interval := by
  have h := upper_core K ev s
  exact ⟨show (s.upperOnEvent K ev).core.procs = s.core.procs by rw [h], show (s.upperOnEvent K ev).core.interval = s.core.interval by rw [h]⟩

open Classical in
theorem publish_eq (K : Conf) (ev : Event) (s : S) :
    s.publish K ev = if Stuck K s ev then none else some ((s.upperOnEvent K ev).lowerOnEvent ev) := by
  unfold S.publish
  rw [each_skip]
  by_cases h1 : none ∈ s.listeners
  · rw [if_pos h1, if_pos (show Stuck K s ev from Or.inl h1)]; rfl
  · rw [if_neg h1, Option.bind_some, each_skip]
    by_cases h2 : none ∈ s.eps
    · rw [if_pos h2, if_pos (show Stuck K s ev from Or.inr (Or.inl h2))]; rfl
    · rw [if_neg h2, Option.bind_some, each_procs, (upper_field K ev s).2]
      by_cases h3 : none ∈ s.procs ∨ ∃ p, some p ∈ s.procs ∧ ¬ Stands K s.interval ev p
      · rw [if_pos h3, if_pos (show Stuck K s ev from Or.inr (Or.inr h3))]; rfl
      · rw [if_neg h3, if_neg]
        · rfl
        · rintro (h | h | h)
          · exact h1 h
          · exact h2 h
          · exact h3 h

theorem publish_none (K : Conf) (ev : Event) (s : S) : s.publish K ev = none ↔ Stuck K s ev := by
  rw [publish_eq]; split <;> simp_all

theorem publish_some {K : Conf} {ev : Event} {s s' : S} (h : s.publish K ev = some s') :
    ¬ Stuck K s ev ∧ s' = (s.upperOnEvent K ev).lowerOnEvent ev ∧ s'.core = s.core := by
  rw [publish_eq] at h
  split at h
  · exact absurd h (by simp)
  · injection h with h
    rename_i hn
    exact ⟨hn, h.symm, by rw [← h, lower_core, upper_core]⟩

/-! ## `Run` -/

theorem each_accept (K : Conf) (l : List (Option Nat)) (s : S) :
    (none ∈ l ∧ each (fun e s => some (s.acceptEndpoint K e)) l s = none) ∨
    (none ∉ l ∧ ∃ s', each (fun e s => some (s.acceptEndpoint K e)) l s = some s' ∧ s'.core = s.core ∧ s'.decks = s.decks) := by
  induction l generalizing s with
  | nil => exact Or.inr ⟨by simp, s, rfl, rfl, rfl⟩
  | cons x r ih =>
    cases x with
    | none => exact Or.inl ⟨List.mem_cons_self, rfl⟩
    | some e =>
      have hd : (s.acceptEndpoint K e).decks = s.decks := by unfold S.acceptEndpoint; split <;> rfl
      rcases ih (s.acceptEndpoint K e) with ⟨h, he⟩ | ⟨h, s', he, hc, hk⟩
      · exact Or.inl ⟨List.mem_cons_of_mem _ h, by simpa [each] using he⟩
      · exact Or.inr ⟨by simpa using h, s', by simpa [each] using he, by rw [hc, accept_core], by rw [hk, hd]⟩

theorem each_tps (l : List (Option Nat)) (s : S) :
    (none ∈ l ∧ each (fun t s => some (s.emit (.accept t))) l s = none) ∨
    (none ∉ l ∧ ∃ s', each (fun t s => some (s.emit (.accept t))) l s = some s' ∧ s'.core = s.core) := by
  induction l generalizing s with
  | nil => exact Or.inr ⟨by simp, s, rfl, rfl⟩
  | cons x r ih =>
    cases x with
    | none => exact Or.inl ⟨List.mem_cons_self, rfl⟩
    | some e =>
      rcases ih (s.emit (.accept e)) with ⟨h, he⟩ | ⟨h, s', he, hc⟩
      · exact Or.inl ⟨List.mem_cons_of_mem _ h, by simpa [each] using he⟩
      · exact Or.inr ⟨by simpa using h, s', by simpa [each] using he, by rw [hc]; rfl⟩

/-- The capacity of a FrameDecoder's cache cannot be allocated. -/
def NoCache (K : Conf) (s : S) (p : Nat) : Prop :=
  K.kind p = .frame ∧ (optionParseInt (s.procOpt p) (2 * (optionParseInt s.mtuOpt 2048).1)).1 < 0

/-- The intervals after the processors `l` have run. -/
def runIntervals (K : Conf) (opt : Nat → Val) (i : Nat → Int) (l : List (Option Nat)) : Nat → Int := fun p =>
  if K.kind p = .stat ∧ some p ∈ l then (optionParseInt (opt p) (i p)).1 else i p

theorem parse_twice (v : Val) (i : Int) : (optionParseInt v (optionParseInt v i).1).1 = (optionParseInt v i).1 := by
  cases v <;> rfl

theorem each_run (K : Conf) (l : List (Option Nat)) (s : S) :
    ((none ∈ l ∨ ∃ p, some p ∈ l ∧ NoCache K s p) ∧ each (S.procRun K) l s = none) ∨
    (¬ (none ∈ l ∨ ∃ p, some p ∈ l ∧ NoCache K s p) ∧
      each (S.procRun K) l s = some { s with interval := runIntervals K s.procOpt s.interval l }) := by
  induction l generalizing s with
  | nil =>
    refine Or.inr ⟨by simp, ?_⟩
    have : runIntervals K s.procOpt s.interval [] = s.interval := by funext p; simp [runIntervals]
    rw [this]; rfl
  | cons x r ih =>
    cases x with
    | none => exact Or.inl ⟨Or.inl List.mem_cons_self, rfl⟩
    | some p =>
      by_cases hn : NoCache K s p
      · refine Or.inl ⟨Or.inr ⟨p, List.mem_cons_self, hn⟩, ?_⟩
        simp [each, S.procRun, hn.1, hn.2]
      · have hstep : S.procRun K p s = some { s with interval := runIntervals K s.procOpt s.interval [some p] } := by
          have same : K.kind p ≠ .stat → runIntervals K s.procOpt s.interval [some p] = s.interval := by
            intro h; funext q
            simp only [runIntervals, List.mem_singleton, Option.some.injEq]
            rw [if_neg]
            rintro ⟨h1, h2⟩; subst h2; exact h h1
          unfold S.procRun
          cases hk : K.kind p with
          | heartbeat => simp only; rw [same (by simp [hk])]
          | plain => simp only; rw [same (by simp [hk])]
          | frame =>
            simp only
            rw [same (by simp [hk]), if_neg (fun h => hn ⟨hk, h⟩)]
          | stat =>
            simp only
            congr 2
            funext q
            simp only [runIntervals, List.mem_singleton, Option.some.injEq]
            by_cases hq : q = p
            · subst hq; simp [hk]
            · rw [if_neg hq, if_neg (fun h => hq h.2)]
        have hcond : (none ∈ some p :: r ∨ ∃ q, some q ∈ some p :: r ∧ NoCache K s q) ↔ (none ∈ r ∨ ∃ q, some q ∈ r ∧ NoCache K s q) := by
          constructor
          · rintro (h | ⟨q, hq, hn'⟩)
            · rcases List.mem_cons.1 h with h | h
              · exact absurd h (by simp)
              · exact Or.inl h
            · rcases List.mem_cons.1 hq with h' | h'
              · injection h' with h'; subst h'; exact absurd hn' hn
              · exact Or.inr ⟨q, h', hn'⟩
          · rintro (h | ⟨q, hq, hn⟩)
            · exact Or.inl (List.mem_cons_of_mem _ h)
            · exact Or.inr ⟨q, List.mem_cons_of_mem _ hq, hn⟩
        have he : each (S.procRun K) (some p :: r) s =
            each (S.procRun K) r { s with interval := runIntervals K s.procOpt s.interval [some p] } := by
          simp only [each, hstep, Option.bind_some]
        rw [hcond, he]
        rcases ih { s with interval := runIntervals K s.procOpt s.interval [some p] } with ⟨h, hr⟩ | ⟨h, hr⟩
        · exact Or.inl ⟨h, hr⟩
        · refine Or.inr ⟨h, ?_⟩
          rw [hr]
          simp only
          congr 2
          funext q
          simp only [runIntervals, List.mem_singleton, List.mem_cons, Option.some.injEq]
          by_cases hk : K.kind q = .stat
          · by_cases hq : q = p
            · subst hq
              by_cases hm : some q ∈ r
              · simp [hk, hm, parse_twice]
              · simp [hk, hm]
            · by_cases hm : some q ∈ r <;> simp [hk, hm, hq]
          · simp [hk]

/-- `Run` cannot be carried out. -/
def Stop' (K : Conf) (s : S) : Prop :=
  none ∈ s.procs ∨ none ∈ s.features ∨ none ∈ s.eps ∨ none ∈ s.tps ∨ ∃ p, some p ∈ s.procs ∧ NoCache K s p

theorem run_cases (K : Conf) (s : S) :
    (Stop' K s ∧ s.run K = none) ∨
    (¬ Stop' K s ∧ ∃ s', s.run K = some s' ∧ s'.core = { s.core with interval := runIntervals K s.procOpt s.interval s.procs }) := by
  unfold S.run
  rw [each_skip]
  by_cases h1 : none ∈ s.procs
  · exact Or.inl ⟨Or.inl h1, by rw [if_pos h1]; rfl⟩
  rw [if_neg h1, Option.bind_some, each_skip]
  by_cases h2 : none ∈ s.features
  · exact Or.inl ⟨Or.inr (Or.inl h2), by rw [if_pos h2]; rfl⟩
  rw [if_neg h2, Option.bind_some]
  simp only
  rcases each_accept K s.eps { s with decks := true, served := [] } with ⟨h3, he⟩ | ⟨h3, s1, he, hc, -⟩
  · exact Or.inl ⟨Or.inr (Or.inr (Or.inl h3)), by rw [he]; rfl⟩
  rw [he, Option.bind_some]
  have c1 : s1.procs = s.procs := show s1.core.procs = _ by rw [hc]; rfl
  have c2 : s1.procOpt = s.procOpt := show s1.core.procOpt = _ by rw [hc]; rfl
  have c3 : s1.mtuOpt = s.mtuOpt := show s1.core.mtuOpt = _ by rw [hc]; rfl
  have c4 : s1.tps = s.tps := show s1.core.tps = _ by rw [hc]; rfl
  have c5 : s1.interval = s.interval := show s1.core.interval = _ by rw [hc]; rfl
  have hno : ∀ p, NoCache K s1 p ↔ NoCache K s p := by
    intro p; unfold NoCache; rw [c2, c3]
  rcases each_run K s1.procs s1 with ⟨h4, hr⟩ | ⟨h4, hr⟩
  · refine Or.inl ⟨?_, by rw [hr]; rfl⟩
    rcases h4 with h4 | ⟨p, hp, hn⟩
    · rw [c1] at h4; exact absurd h4 h1
    · exact Or.inr (Or.inr (Or.inr (Or.inr ⟨p, c1 ▸ hp, (hno p).1 hn⟩)))
  rw [hr, Option.bind_some]
  simp only
  rcases each_tps s1.tps { s1 with interval := runIntervals K s1.procOpt s1.interval s1.procs } with ⟨h5, ht⟩ | ⟨h5, s2, ht, hc2⟩
  · exact Or.inl ⟨Or.inr (Or.inr (Or.inr (Or.inl (c4 ▸ h5)))), ht⟩
  · refine Or.inr ⟨?_, s2, ht, ?_⟩
    · rintro (h | h | h | h | ⟨p, hp, hn⟩)
      · exact h1 h
      · exact h2 h
      · exact h3 h
      · exact h5 (c4 ▸ h)
      · exact h4 (Or.inr ⟨p, c1 ▸ hp, (hno p).2 hn⟩)
    · rw [hc2]
      have e : ∀ i : Nat → Int, ({ s1 with interval := i } : S).core = { s1.core with interval := i } := fun _ => rfl
      rw [e, hc, c1, c2, c5]
      rfl

/-! ## The state and the calls made -/

theorem present_snoc {add delete : Option Nat → Op} {x : Option Nat} {pre : List Op} {op : Op} :
    Present add delete x (pre ++ [op]) ↔ op = add x ∨ (op ≠ delete x ∧ Present add delete x pre) := by
  constructor
  · rintro ⟨a, b, he, hb⟩
    rcases List.eq_nil_or_concat b with rfl | ⟨b', o, rfl⟩
    · have := List.append_inj' he rfl
      injection this.2 with h
      exact Or.inl h
    · rw [List.concat_eq_append] at he hb
      rw [show a ++ add x :: (b' ++ [o]) = (a ++ add x :: b') ++ [o] by simp] at he
      have := List.append_inj' he rfl
      injection this.2 with h
      subst h
      refine Or.inr ⟨?_, a, b', this.1, fun h => hb (List.mem_append_left _ h)⟩
      intro h
      exact hb (List.mem_append_right _ (by simp [h]))
  · rintro (h | ⟨h, a, b, he, hb⟩)
    · subst h; exact ⟨pre, [], rfl, by simp⟩
    · refine ⟨a, b ++ [op], by rw [he]; simp, ?_⟩
      intro hm
      rcases List.mem_append.1 hm with hm | hm
      · exact hb hm
      · exact h (List.mem_singleton.1 hm).symm

/-- The state and what the calls so far decide. -/
structure Inv (K : Conf) (pre : List Op) (s : S) : Prop where
  listeners : none ∈ s.listeners ↔ .setListener none ∈ pre
  features : s.features = pre.filterMap fun | .addFeature f => some f | _ => none
  eps : ∀ e, e ∈ s.eps ↔ Endpoint e pre
  epsNodup : s.eps.Nodup
  nilEp : none ∈ s.eps ↔ .addEndPoint none ∈ pre
  tps : ∀ t, t ∈ s.tps ↔ Transp t pre
  tpsNodup : s.tps.Nodup
  procs : ∀ p, p ∈ s.procs ↔ .append p ∈ pre
  mtu : s.mtuOpt = lastMTU pre.reverse
  opt : ∀ p, s.procOpt p = lastProc p pre.reverse
  interval : ∀ p, K.kind p = .stat → s.interval p = lastInterval p pre.reverse

theorem Inv.init (K : Conf) : Inv K [] S.init where
  listeners := by simp [S.init]
  features := rfl
  eps e := by
    simp only [S.init, List.not_mem_nil, false_iff]
    rintro ⟨a, b, h, -⟩; simp at h
  epsNodup := List.nodup_nil
  nilEp := by simp [S.init]
  tps e := by
    simp only [S.init, List.not_mem_nil, false_iff]
    rintro ⟨a, b, h, -⟩; simp at h
  tpsNodup := List.nodup_nil
  procs p := by simp [S.init]
  mtu := rfl
  opt _ := rfl
  interval _ _ := rfl

/-- The invariant speaks of the core only. -/
theorem Inv.core {K : Conf} {pre : List Op} {s s' : S} (h : Inv K pre s) (hc : s'.core = s.core) : Inv K pre s' := by
  have c1 : s'.listeners = s.listeners := show s'.core.listeners = _ by rw [hc]; rfl
  have c2 : s'.features = s.features := show s'.core.features = _ by rw [hc]; rfl
  have c3 : s'.eps = s.eps := show s'.core.eps = _ by rw [hc]; rfl
  have c4 : s'.tps = s.tps := show s'.core.tps = _ by rw [hc]; rfl
  have c5 : s'.procs = s.procs := show s'.core.procs = _ by rw [hc]; rfl
  have c6 : s'.mtuOpt = s.mtuOpt := show s'.core.mtuOpt = _ by rw [hc]; rfl
  have c7 : s'.procOpt = s.procOpt := show s'.core.procOpt = _ by rw [hc]; rfl
  have c8 : s'.interval = s.interval := show s'.core.interval = _ by rw [hc]; rfl
  exact ⟨by rw [c1]; exact h.listeners, by rw [c2]; exact h.features, by rw [c3]; exact h.eps, by rw [c3]; exact h.epsNodup,
    by rw [c3]; exact h.nilEp, by rw [c4]; exact h.tps, by rw [c4]; exact h.tpsNodup, by rw [c5]; exact h.procs, by rw [c6]; exact h.mtu,
    by rw [c7]; exact h.opt, by rw [c8]; exact h.interval⟩

theorem assertConn_none (d : Data) : d.assertConn = none ↔ ∀ c, d ≠ .conn c := by
  cases d <;> simp [Data.assertConn]

/-- Whether an event can be published is decided by the calls made. -/
theorem Inv.stuck {K : Conf} {pre : List Op} {s : S} (h : Inv K pre s) (ev : Event) : Stuck K s ev ↔ BadEvent K pre ev := by
  unfold Stuck BadEvent
  rw [h.listeners, h.nilEp, h.procs]
  refine or_congr Iff.rfl (or_congr Iff.rfl (or_congr Iff.rfl ?_))
  constructor
  · rintro ⟨p, hp, hn⟩
    have hn' := Classical.byContradiction (p := _ ∧ _) hn
    obtain ⟨h1, h2, h3⟩ := hn'
    refine ⟨h1, (assertConn_none _).1 h2, p, (h.procs _).1 hp, ?_⟩
    rcases h3 with h3 | ⟨h3, h4⟩
    · exact Or.inl h3
    · exact Or.inr ⟨h3, by rw [← h.interval p h3]; exact h4⟩
  · rintro ⟨h1, h2, p, hp, h3⟩
    refine ⟨p, (h.procs _).2 hp, fun hs => hs ⟨h1, (assertConn_none _).2 h2, ?_⟩⟩
    rcases h3 with h3 | ⟨h3, h4⟩
    · exact Or.inl h3
    · exact Or.inr ⟨h3, by rw [h.interval p h3]; exact h4⟩

theorem badEvent_data {K : Conf} {pre : List Op} {t : Type'} (ht : t ≠ .newConnection) (d d' : Data) :
    BadEvent K pre ⟨t, d⟩ ↔ BadEvent K pre ⟨t, d'⟩ := by
  simp [BadEvent, ht]

theorem getFeature_none (n : Nat) (l : List (Option Nat)) :
    getFeature n l = none ↔ ∃ a b, l = a ++ none :: b ∧ some n ∉ a := by
  induction l with
  | nil => simp [getFeature]
  | cons x r ih =>
    cases x with
    | none =>
      simp only [getFeature, true_iff]
      exact ⟨[], r, rfl, by simp⟩
    | some m =>
      simp only [getFeature]
      split
      · rename_i h
        subst h
        simp only [reduceCtorEq, false_iff]
        rintro ⟨a, b, he, hn⟩
        cases a with
        | nil => simp at he
        | cons y a =>
          simp only [List.cons_append, List.cons.injEq] at he
          exact hn (by rw [← he.1]; exact List.mem_cons_self)
      · rename_i h
        rw [ih]
        constructor
        · rintro ⟨a, b, he, hn⟩
          refine ⟨some m :: a, b, by rw [he]; rfl, ?_⟩
          simp only [List.mem_cons, Option.some.injEq, not_or]
          exact ⟨fun h' => h h'.symm, hn⟩
        · rintro ⟨a, b, he, hn⟩
          cases a with
          | nil => simp at he
          | cons y a =>
            simp only [List.cons_append, List.cons.injEq] at he
            exact ⟨a, b, he.2, fun hm => hn (List.mem_cons_of_mem _ hm)⟩

/-- Features in the order of the calls. -/
theorem features_split (n : Nat) (pre : List Op) :
    (∃ a b, (pre.filterMap fun | .addFeature f => some f | _ => none) = a ++ none :: b ∧ some n ∉ a) ↔
    ∃ a b, pre = a ++ .addFeature none :: b ∧ .addFeature (some n) ∉ a := by
  constructor
  · rintro ⟨a, b, he, hn⟩
    rw [List.filterMap_eq_append_iff] at he
    obtain ⟨l1, l2, hp, h1, h2⟩ := he
    rw [List.filterMap_eq_cons_iff] at h2
    obtain ⟨l3, o, l4, hl2, h3, h4, -⟩ := h2
    refine ⟨l1 ++ l3, l4, ?_, ?_⟩
    · rw [hp, hl2]
      cases o <;> simp_all
    · intro hm
      rcases List.mem_append.1 hm with hm | hm
      · exact hn (by rw [← h1]; exact List.mem_filterMap.2 ⟨_, hm, rfl⟩)
      · exact absurd (h3 _ hm) (by simp)
  · rintro ⟨a, b, he, hn⟩
    refine ⟨a.filterMap fun | .addFeature f => some f | _ => none, b.filterMap fun | .addFeature f => some f | _ => none, ?_, ?_⟩
    · rw [he, List.filterMap_append]; rfl
    · intro hm
      obtain ⟨o, ho, h⟩ := List.mem_filterMap.1 hm
      cases o <;> simp_all

theorem Inv.noCache {K : Conf} {pre : List Op} {s : S} (h : Inv K pre s) (p : Nat) :
    NoCache K s p ↔ (K.kind p = .frame ∧
      match lastProc p pre.reverse with
      | .int i => i < 0
      | _ => match lastMTU pre.reverse with
        | .int m => m < 0
        | _ => False) := by
  unfold NoCache
  rw [h.opt, h.mtu]
  refine and_congr Iff.rfl ?_
  cases lastProc p pre.reverse <;> simp [optionParseInt] <;> cases lastMTU pre.reverse <;> simp <;> omega

theorem Inv.nilFeature {K : Conf} {pre : List Op} {s : S} (h : Inv K pre s) : none ∈ s.features ↔ .addFeature none ∈ pre := by
  rw [h.features, List.mem_filterMap]
  constructor
  · rintro ⟨o, ho, he⟩; cases o <;> simp_all
  · intro hm; exact ⟨_, hm, rfl⟩

/-- The call panics iff the specification says so. -/
theorem Inv.bad {K : Conf} {pre : List Op} {s : S} (h : Inv K pre s) (op : Op) : s.step K op = none ↔ Bad K pre op := by
  cases op with
  | setListener f => simp [S.step, Bad]
  | addFeature f => simp [S.step, Bad]
  | append p => simp [S.step, Bad]
  | setMTU v => simp [S.step, Bad]
  | setProc p v => simp [S.step, Bad]
  | getFeature n =>
    simp only [S.step, Bad]
    rw [← features_split, ← h.features, ← getFeature_none]
    cases Foreign.getFeature n s.features <;> simp
  | addEndPoint e =>
    simp only [S.step, Bad, S.addEndPoint]
    rw [← h.eps, badEvent_data (by simp) .nil (Data.ofEp e), ← h.stuck, ← publish_none]
    split
    · rename_i hm; simp [hm]
    · rename_i hm
      simp only [hm, not_false_eq_true, true_and]
      cases s.publish K ⟨.endpointAdded, Data.ofEp e⟩ <;> simp
  | deleteEndPoint e =>
    simp only [S.step, Bad, S.deleteEndPoint]
    rw [← h.eps, badEvent_data (by simp) .nil (Data.ofEp e), ← h.stuck, ← publish_none]
    split
    · rename_i hm
      simp only [hm, true_and]
      cases s.publish K ⟨.endpointDeleted, Data.ofEp e⟩ <;> simp
    · rename_i hm; simp [hm]
  | addTransport e =>
    simp only [S.step, Bad, S.addTransport]
    rw [← h.tps, badEvent_data (by simp) .nil (Data.ofTp e), ← h.stuck, ← publish_none]
    split
    · rename_i hm; simp [hm]
    · rename_i hm
      simp only [hm, not_false_eq_true, true_and]
      cases s.publish K ⟨.transportAdded, Data.ofTp e⟩ <;> simp
  | deleteTransport e =>
    simp only [S.step, Bad, S.deleteTransport]
    rw [← h.tps, badEvent_data (by simp) .nil (Data.ofTp e), ← h.stuck]
    split
    · rename_i hm
      simp only [hm, true_and]
      rw [publish_none]; rfl
    · rename_i hm; simp [hm]
  | publish ev => simp only [S.step, Bad]; rw [publish_none, h.stuck]
  | run =>
    simp only [S.step, Bad]
    rw [← h.tps, ← h.nilEp, ← h.nilFeature]
    have e : Stop' K s ↔ _ := Iff.rfl
    have hs : s.run K = none ↔ Stop' K s := by
      rcases run_cases K s with ⟨h1, h2⟩ | ⟨h1, s', h2, -⟩
      · simp [h1, h2]
      · simp [h1, h2]
    rw [hs]
    unfold Stop'
    rw [h.procs]
    refine or_congr Iff.rfl (or_congr Iff.rfl (or_congr Iff.rfl (or_congr Iff.rfl ?_)))
    exact exists_congr fun p => and_congr (h.procs _) (h.noCache p)

theorem Inv.step {K : Conf} {pre : List Op} {s s' : S} {op : Op} (h : Inv K pre s) (hs : s.step K op = some s') :
    Inv K (pre ++ [op]) s' := by
  have keep : ∀ x, op ≠ x → (x ∈ pre ++ [op] ↔ x ∈ pre) := by
    intro x hx
    simp only [List.mem_append, List.mem_singleton]
    exact ⟨fun h => h.elim id fun h => absurd h.symm hx, Or.inl⟩
  have keepE : (∀ e, op ≠ .addEndPoint e) → (∀ e, op ≠ .deleteEndPoint e) → ∀ e, e ∈ s.eps ↔ Endpoint e (pre ++ [op]) := by
    intro h1 h2 e
    rw [Endpoint, present_snoc, h.eps]
    simp [h1 e, h2 e]
  have keepT : (∀ e, op ≠ .addTransport e) → (∀ e, op ≠ .deleteTransport e) → ∀ e, e ∈ s.tps ↔ Transp e (pre ++ [op]) := by
    intro h1 h2 e
    rw [Transp, present_snoc, h.tps]
    simp [h1 e, h2 e]
  have keepF : (∀ f, op ≠ .addFeature f) →
      s.features = (pre ++ [op]).filterMap fun | .addFeature f => some f | _ => none := by
    intro hf
    rw [List.filterMap_append, h.features]
    cases op <;> simp_all
  have rev : (pre ++ [op]).reverse = op :: pre.reverse := by simp
  cases op with
  | setListener f =>
    simp only [S.step, Option.some.injEq] at hs
    subst hs
    exact ⟨by
        simp only [List.mem_append, List.mem_singleton, Op.setListener.injEq]
        rw [h.listeners], keepF (by simp), keepE (by simp) (by simp), h.epsNodup, by rw [keep _ (by simp)]; exact h.nilEp,
      keepT (by simp) (by simp), h.tpsNodup, fun p => by rw [keep _ (by simp)]; exact h.procs p, by rw [rev]; exact h.mtu,
      fun p => by rw [rev]; exact h.opt p, fun p hp => by rw [rev]; exact h.interval p hp⟩
  | addFeature f =>
    simp only [S.step, Option.some.injEq] at hs
    subst hs
    exact ⟨by rw [keep _ (by simp)]; exact h.listeners, by rw [List.filterMap_append, ← h.features]; rfl,
      keepE (by simp) (by simp), h.epsNodup, by rw [keep _ (by simp)]; exact h.nilEp,
      keepT (by simp) (by simp), h.tpsNodup, fun p => by rw [keep _ (by simp)]; exact h.procs p, by rw [rev]; exact h.mtu,
      fun p => by rw [rev]; exact h.opt p, fun p hp => by rw [rev]; exact h.interval p hp⟩
  | getFeature n =>
    simp only [S.step] at hs
    cases hg : Foreign.getFeature n s.features with
    | none => rw [hg] at hs; simp at hs
    | some r =>
      rw [hg] at hs
      injection hs with hs
      subst hs
      exact ⟨by rw [keep _ (by simp)]; exact h.listeners, keepF (by simp), keepE (by simp) (by simp), h.epsNodup,
        by rw [keep _ (by simp)]; exact h.nilEp,
        keepT (by simp) (by simp), h.tpsNodup, fun p => by rw [keep _ (by simp)]; exact h.procs p, by rw [rev]; exact h.mtu,
        fun p => by rw [rev]; exact h.opt p, fun p hp => by rw [rev]; exact h.interval p hp⟩
  | append p =>
    simp only [S.step, Option.some.injEq] at hs
    subst hs
    exact ⟨by rw [keep _ (by simp)]; exact h.listeners, keepF (by simp), keepE (by simp) (by simp), h.epsNodup,
      by rw [keep _ (by simp)]; exact h.nilEp,
      keepT (by simp) (by simp), h.tpsNodup, fun q => by
        simp only [List.mem_append, List.mem_singleton, Op.append.injEq]
        rw [h.procs], by rw [rev]; exact h.mtu,
      fun p => by rw [rev]; exact h.opt p, fun p hp => by rw [rev]; exact h.interval p hp⟩
  | setMTU v =>
    simp only [S.step, Option.some.injEq] at hs
    subst hs
    exact ⟨by rw [keep _ (by simp)]; exact h.listeners, keepF (by simp), keepE (by simp) (by simp), h.epsNodup,
      by rw [keep _ (by simp)]; exact h.nilEp,
      keepT (by simp) (by simp), h.tpsNodup, fun p => by rw [keep _ (by simp)]; exact h.procs p, by rw [rev]; rfl,
      fun p => by rw [rev]; exact h.opt p, fun p hp => by rw [rev]; exact h.interval p hp⟩
  | setProc p v =>
    simp only [S.step, Option.some.injEq] at hs
    subst hs
    exact ⟨by rw [keep _ (by simp)]; exact h.listeners, keepF (by simp), keepE (by simp) (by simp), h.epsNodup,
      by rw [keep _ (by simp)]; exact h.nilEp,
      keepT (by simp) (by simp), h.tpsNodup, fun p => by rw [keep _ (by simp)]; exact h.procs p, by rw [rev]; exact h.mtu,
      fun q => by
        rw [rev]
        simp only [lastProc]
        by_cases hq : q = p
        · subst hq; simp
        · rw [if_neg hq, if_neg (fun h => hq h.symm)]; exact h.opt q, fun p hp => by rw [rev]; exact h.interval p hp⟩
  | publish ev =>
    simp only [S.step] at hs
    have hc := (publish_some hs).2.2
    exact Inv.core ⟨by rw [keep _ (by simp)]; exact h.listeners, keepF (by simp), keepE (by simp) (by simp), h.epsNodup,
      by rw [keep _ (by simp)]; exact h.nilEp,
      keepT (by simp) (by simp), h.tpsNodup, fun p => by rw [keep _ (by simp)]; exact h.procs p, by rw [rev]; exact h.mtu,
      fun p => by rw [rev]; exact h.opt p, fun p hp => by rw [rev]; exact h.interval p hp⟩ hc
  | addEndPoint e =>
    simp only [S.step, S.addEndPoint] at hs
    split at hs
    · rename_i hm
      injection hs with hs
      subst hs
      refine ⟨by rw [keep _ (by simp)]; exact h.listeners, keepF (by simp), fun x => ?_, h.epsNodup, ?_,
        keepT (by simp) (by simp), h.tpsNodup, fun p => by rw [keep _ (by simp)]; exact h.procs p, by rw [rev]; exact h.mtu,
        fun p => by rw [rev]; exact h.opt p, fun p hp => by rw [rev]; exact h.interval p hp⟩
      · rw [Endpoint, present_snoc, h.eps]
        simp only [Op.addEndPoint.injEq, ne_eq, reduceCtorEq, not_false_eq_true, true_and]
        exact ⟨Or.inr, fun h' => h'.elim (fun h' => h' ▸ (h.eps _).1 hm) id⟩
      · simp only [List.mem_append, List.mem_singleton, Op.addEndPoint.injEq]
        rw [← h.nilEp]
        exact ⟨Or.inl, fun h' => h'.elim id fun h' => h' ▸ hm⟩
    · rename_i hm
      cases hp : s.publish K ⟨.endpointAdded, Data.ofEp e⟩ with
      | none => rw [hp] at hs; simp at hs
      | some s1 =>
        rw [hp] at hs
        injection hs with hs
        subst hs
        have hc := (publish_some hp).2.2
        have c3 : s1.eps = s.eps := show s1.core.eps = _ by rw [hc]; rfl
        refine Inv.core (s := { s with eps := s.eps ++ [e] }) ⟨by rw [keep _ (by simp)]; exact h.listeners, keepF (by simp), fun x => ?_, ?_, ?_,
          keepT (by simp) (by simp), h.tpsNodup, fun p => by rw [keep _ (by simp)]; exact h.procs p, by rw [rev]; exact h.mtu,
          fun p => by rw [rev]; exact h.opt p, fun p hp => by rw [rev]; exact h.interval p hp⟩ ?_
        · rw [Endpoint, present_snoc]
          simp only [List.mem_append, List.mem_singleton, Op.addEndPoint.injEq, ne_eq, reduceCtorEq, not_false_eq_true, true_and]
          rw [h.eps]
          exact ⟨fun h' => h'.elim Or.inr fun h' => Or.inl h'.symm, fun h' => h'.elim (fun h' => Or.inr h'.symm) Or.inl⟩
        · simp only
          rw [List.nodup_append]
          refine ⟨h.epsNodup, by simp, ?_⟩
          intro a ha b hb hab
          rw [List.mem_singleton] at hb
          subst hb; subst hab
          exact hm ha
        · simp only [List.mem_append, List.mem_singleton, Op.addEndPoint.injEq]
          rw [h.nilEp]
        · have e1 : ∀ x : S, ∀ l, ({ x with eps := l } : S).core = { x.core with eps := l } := fun _ _ => rfl
          rw [e1 s1, hc, c3]; rfl
  | deleteEndPoint e =>
    simp only [S.step, S.deleteEndPoint] at hs
    split at hs
    · rename_i hm
      cases hp : s.publish K ⟨.endpointDeleted, Data.ofEp e⟩ with
      | none => rw [hp] at hs; simp at hs
      | some s1 =>
        rw [hp] at hs
        injection hs with hs
        subst hs
        have hc := (publish_some hp).2.2
        have hno : none ∉ s.eps := fun hn => (publish_some hp).1 (Or.inr (Or.inl hn))
        have c3 : s1.eps = s.eps := show s1.core.eps = _ by rw [hc]; rfl
        refine Inv.core (s := { s with eps := s.eps.erase e }) ⟨by rw [keep _ (by simp)]; exact h.listeners, keepF (by simp), fun x => ?_, ?_, ?_,
          keepT (by simp) (by simp), h.tpsNodup, fun p => by rw [keep _ (by simp)]; exact h.procs p, by rw [rev]; exact h.mtu,
          fun p => by rw [rev]; exact h.opt p, fun p hp => by rw [rev]; exact h.interval p hp⟩ ?_
        · rw [Endpoint, present_snoc]
          simp only [ne_eq, reduceCtorEq, false_or, Op.deleteEndPoint.injEq]
          rw [h.epsNodup.mem_erase_iff, h.eps]
          exact and_congr ⟨fun h' h'' => h' h''.symm, fun h' h'' => h' h''.symm⟩ Iff.rfl
        · exact h.epsNodup.erase _
        · rw [keep _ (by simp), ← h.nilEp]
          exact ⟨List.mem_of_mem_erase, fun hn => absurd hn hno⟩
        · have e1 : ∀ x : S, ∀ l, ({ x with eps := l } : S).core = { x.core with eps := l } := fun _ _ => rfl
          rw [e1 s1, hc, c3]; rfl
    · rename_i hm
      injection hs with hs
      subst hs
      refine ⟨by rw [keep _ (by simp)]; exact h.listeners, keepF (by simp), fun x => ?_, h.epsNodup, by rw [keep _ (by simp)]; exact h.nilEp,
        keepT (by simp) (by simp), h.tpsNodup, fun p => by rw [keep _ (by simp)]; exact h.procs p, by rw [rev]; exact h.mtu,
        fun p => by rw [rev]; exact h.opt p, fun p hp => by rw [rev]; exact h.interval p hp⟩
      rw [Endpoint, present_snoc]
      simp only [ne_eq, reduceCtorEq, false_or, Op.deleteEndPoint.injEq]
      rw [h.eps]
      exact ⟨fun h' => ⟨fun h'' => hm (h'' ▸ (h.eps _).2 h'), h'⟩, fun h' => h'.2⟩
  | addTransport e =>
    simp only [S.step, S.addTransport] at hs
    split at hs
    · rename_i hm
      injection hs with hs
      subst hs
      refine ⟨by rw [keep _ (by simp)]; exact h.listeners, keepF (by simp), keepE (by simp) (by simp), h.epsNodup,
        by rw [keep _ (by simp)]; exact h.nilEp, fun x => ?_, h.tpsNodup, fun p => by rw [keep _ (by simp)]; exact h.procs p,
        by rw [rev]; exact h.mtu, fun p => by rw [rev]; exact h.opt p, fun p hp => by rw [rev]; exact h.interval p hp⟩
      rw [Transp, present_snoc, h.tps]
      simp only [Op.addTransport.injEq, ne_eq, reduceCtorEq, not_false_eq_true, true_and]
      exact ⟨Or.inr, fun h' => h'.elim (fun h' => h' ▸ (h.tps _).1 hm) id⟩
    · rename_i hm
      cases hp : s.publish K ⟨.transportAdded, Data.ofTp e⟩ with
      | none => rw [hp] at hs; simp at hs
      | some s1 =>
        rw [hp] at hs
        injection hs with hs
        subst hs
        have hc := (publish_some hp).2.2
        have c3 : s1.tps = s.tps := show s1.core.tps = _ by rw [hc]; rfl
        refine Inv.core (s := { s with tps := s.tps ++ [e] }) ⟨by rw [keep _ (by simp)]; exact h.listeners, keepF (by simp),
          keepE (by simp) (by simp), h.epsNodup, by rw [keep _ (by simp)]; exact h.nilEp, fun x => ?_, ?_,
          fun p => by rw [keep _ (by simp)]; exact h.procs p, by rw [rev]; exact h.mtu,
          fun p => by rw [rev]; exact h.opt p, fun p hp => by rw [rev]; exact h.interval p hp⟩ ?_
        · rw [Transp, present_snoc]
          simp only [List.mem_append, List.mem_singleton, Op.addTransport.injEq, ne_eq, reduceCtorEq, not_false_eq_true, true_and]
          rw [h.tps]
          exact ⟨fun h' => h'.elim Or.inr fun h' => Or.inl h'.symm, fun h' => h'.elim (fun h' => Or.inr h'.symm) Or.inl⟩
        · simp only
          rw [List.nodup_append]
          refine ⟨h.tpsNodup, by simp, ?_⟩
          intro a ha b hb hab
          rw [List.mem_singleton] at hb
          subst hb; subst hab
          exact hm ha
        · have e1 : ∀ x : S, ∀ l, ({ x with tps := l } : S).core = { x.core with tps := l } := fun _ _ => rfl
          rw [e1 s1, hc, c3]; rfl
  | deleteTransport e =>
    simp only [S.step, S.deleteTransport] at hs
    split at hs
    · rename_i hm
      refine Inv.core (s := { s with tps := s.tps.erase e }) ⟨by rw [keep _ (by simp)]; exact h.listeners, keepF (by simp),
        keepE (by simp) (by simp), h.epsNodup, by rw [keep _ (by simp)]; exact h.nilEp, fun x => ?_, ?_,
        fun p => by rw [keep _ (by simp)]; exact h.procs p, by rw [rev]; exact h.mtu,
        fun p => by rw [rev]; exact h.opt p, fun p hp => by rw [rev]; exact h.interval p hp⟩ (publish_some hs).2.2
      · rw [Transp, present_snoc]
        simp only [ne_eq, reduceCtorEq, false_or, Op.deleteTransport.injEq]
        rw [h.tpsNodup.mem_erase_iff, h.tps]
        exact and_congr ⟨fun h' h'' => h' h''.symm, fun h' h'' => h' h''.symm⟩ Iff.rfl
      · exact h.tpsNodup.erase _
    · rename_i hm
      injection hs with hs
      subst hs
      refine ⟨by rw [keep _ (by simp)]; exact h.listeners, keepF (by simp), keepE (by simp) (by simp), h.epsNodup,
        by rw [keep _ (by simp)]; exact h.nilEp, fun x => ?_, h.tpsNodup, fun p => by rw [keep _ (by simp)]; exact h.procs p,
        by rw [rev]; exact h.mtu, fun p => by rw [rev]; exact h.opt p, fun p hp => by rw [rev]; exact h.interval p hp⟩
      rw [Transp, present_snoc]
      simp only [ne_eq, reduceCtorEq, false_or, Op.deleteTransport.injEq]
      rw [h.tps]
      exact ⟨fun h' => ⟨fun h'' => hm (h'' ▸ (h.tps _).2 h'), h'⟩, fun h' => h'.2⟩
  | run =>
    simp only [S.step] at hs
    rcases run_cases K s with ⟨-, h2⟩ | ⟨-, s1, h2, hc⟩
    · rw [h2] at hs; simp at hs
    · rw [h2] at hs
      injection hs with hs
      subst hs
      refine Inv.core (s := { s with interval := runIntervals K s.procOpt s.interval s.procs }) ⟨by rw [keep _ (by simp)]; exact h.listeners, keepF (by simp),
        keepE (by simp) (by simp), h.epsNodup, by rw [keep _ (by simp)]; exact h.nilEp, keepT (by simp) (by simp), h.tpsNodup,
        fun p => by rw [keep _ (by simp)]; exact h.procs p, by rw [rev]; exact h.mtu,
        fun p => by rw [rev]; exact h.opt p, fun p hp => ?_⟩ (by rw [hc]; rfl)
      rw [rev]
      simp only [lastInterval, runIntervals, List.mem_reverse, ← h.procs, hp, true_and]
      rw [h.opt, h.interval p hp]
      cases lastProc p pre.reverse <;> simp [optionParseInt]

theorem Inv.runs {K : Conf} {ops : List Op} {s : S} (h : runs K ops = some s) : Inv K ops s := by
  induction ops using Trace.snoc_induction generalizing s with
  | h0 => injection h with h; subst h; exact Inv.init K
  | h1 ops op ih =>
    obtain ⟨m, hm, hs⟩ := Trace.exec_snoc h
    exact (ih hm).step hs

/-- **C102**: exactly when a program's calls on a stack panic, for every sequence of calls with any arguments. -/
theorem c102_iff (K : Conf) (ops : List Op) : runs K ops = none ↔ ∃ pre op post, ops = pre ++ op :: post ∧ Bad K pre op := by
  constructor
  · induction ops using Trace.snoc_induction with
    | h0 => intro h; simp [Foreign.runs, Trace.exec] at h
    | h1 ops op ih =>
      intro h
      cases hr : Foreign.runs K ops with
      | none =>
        obtain ⟨pre, o, post, he, hb⟩ := ih hr
        exact ⟨pre, o, post ++ [op], by rw [he]; simp, hb⟩
      | some s =>
        rw [Foreign.runs, Trace.exec_append] at h
        rw [Foreign.runs] at hr
        rw [hr] at h
        simp only [Option.bind_some, Trace.exec] at h
        have : s.step K op = none := by
          cases hs : s.step K op with
          | none => rfl
          | some s' => rw [hs] at h; simp at h
        exact ⟨ops, op, [], rfl, ((Inv.runs hr).bad op).1 this⟩
  · rintro ⟨pre, op, post, rfl, hb⟩
    rw [Foreign.runs, Trace.exec_append]
    cases hr : Trace.exec (S.step K) S.init pre with
    | none => rfl
    | some s =>
      simp only [Option.bind_some, Trace.exec]
      rw [((Inv.runs hr).bad op).2 hb]
      rfl

/-! ## Which endpoints are served -/

/-- The call makes the present UpperDeck serve `e`: `Run` with `e` registered, and, after a `Run`, adding `e` or publishing an event that says so. -/
def Starts (e : Nat) (pre : List Op) : Op → Prop
  | .run => Endpoint (some e) pre
  | .addEndPoint x => x = some e ∧ ¬ Endpoint (some e) pre ∧ .run ∈ pre
  | .publish ev => ev = ⟨.endpointAdded, .ep e⟩ ∧ .run ∈ pre
  | _ => False

/-- The call ends it. -/
def Stops (e : Nat) (pre : List Op) : Op → Prop
  | .run => ¬ Endpoint (some e) pre
  | .deleteEndPoint x => x = some e ∧ Endpoint (some e) pre
  | .publish ev => ev = ⟨.endpointDeleted, .ep e⟩
  | _ => False

/-- Started and not ended since. -/
def Serving (e : Nat) (pre : List Op) : Prop :=
  ∃ a op b, pre = a ++ op :: b ∧ Starts e a op ∧ ∀ b1 o b2, b = b1 ++ o :: b2 → ¬ Stops e (a ++ op :: b1) o

theorem serving_snoc {e : Nat} {pre : List Op} {op : Op} :
    Serving e (pre ++ [op]) ↔ Starts e pre op ∨ (Serving e pre ∧ ¬ Stops e pre op) := by
  constructor
  · rintro ⟨a, o, b, he, hs, hb⟩
    rcases List.eq_nil_or_concat b with rfl | ⟨b', x, rfl⟩
    · have := List.append_inj' he rfl
      injection this.2 with h
      rw [this.1, h]
      exact Or.inl hs
    · rw [List.concat_eq_append] at he hb
      rw [show a ++ o :: (b' ++ [x]) = (a ++ o :: b') ++ [x] by simp] at he
      have := List.append_inj' he rfl
      injection this.2 with h
      rw [this.1, h]
      exact Or.inr ⟨⟨a, o, b', rfl, hs, fun b1 y b2 hy => hb b1 y (b2 ++ [x]) (by rw [hy]; simp)⟩, hb b' x [] rfl⟩
  · rintro (h | ⟨⟨a, o, b, he, hs, hb⟩, hn⟩)
    · exact ⟨pre, op, [], rfl, h, fun b1 y b2 hy => by simp at hy⟩
    · refine ⟨a, o, b ++ [op], by rw [he]; simp, hs, ?_⟩
      intro b1 y b2 hy
      rcases List.eq_nil_or_concat b2 with rfl | ⟨b', x, rfl⟩
      · have := List.append_inj' hy rfl
        injection this.2 with h
        rw [← this.1, ← h, ← he]
        exact hn
      · rw [List.concat_eq_append] at hy
        rw [show b1 ++ y :: (b' ++ [x]) = (b1 ++ y :: b') ++ [x] by simp] at hy
        have := List.append_inj' hy rfl
        exact hb b1 y b' this.1

theorem starts_run {e : Nat} {pre : List Op} {op : Op} (h : Starts e pre op) : .run ∈ pre ++ [op] := by
  cases op <;> simp_all [Starts]

theorem serving_run {e : Nat} {pre : List Op} (h : Serving e pre) : .run ∈ pre := by
  obtain ⟨a, o, b, rfl, hs, -⟩ := h
  have := starts_run hs
  rw [show a ++ o :: b = (a ++ [o]) ++ b by simp]
  exact List.mem_append_left _ this

/-- The map of the UpperDeck. -/
structure Deck (pre : List Op) (s : S) : Prop where
  decks : s.decks = true ↔ .run ∈ pre
  nodup : s.served.Nodup
  served : ∀ e, e ∈ s.served ↔ Serving e pre

theorem accept_served {K : Conf} (hi : ∀ a b, K.session a = K.session b → a = b) (s : S) (x : Nat) (hn : s.served.Nodup) :
    (s.acceptEndpoint K x).served.Nodup ∧ ∀ e, e ∈ (s.acceptEndpoint K x).served ↔ e ∈ s.served ∨ e = x := by
  unfold S.acceptEndpoint
  split
  · rename_i h
    refine ⟨hn, fun e => ⟨Or.inl, ?_⟩⟩
    rintro (h' | h')
    · exact h'
    · subst h'
      rw [List.any_eq_true] at h
      obtain ⟨y, hy, hyx⟩ := h
      simp only [Bool.or_eq_true, beq_iff_eq] at hyx
      rcases hyx with h' | h'
      · exact h' ▸ hy
      · exact (hi _ _ h') ▸ hy
  · rename_i h
    refine ⟨?_, fun e => by simp [S.emit]⟩
    show (s.served ++ [x]).Nodup
    rw [List.nodup_append]
    refine ⟨hn, by simp, ?_⟩
    intro a ha b hb hab
    rw [List.mem_singleton] at hb
    subst hb; subst hab
    exact h (List.any_eq_true.2 ⟨a, ha, by simp⟩)

theorem each_accept_served {K : Conf} (hi : ∀ a b, K.session a = K.session b → a = b) (l : List (Option Nat)) (s s' : S)
    (hn : s.served.Nodup) (h : each (fun e s => some (s.acceptEndpoint K e)) l s = some s') :
    s'.served.Nodup ∧ ∀ e, e ∈ s'.served ↔ e ∈ s.served ∨ some e ∈ l := by
  induction l generalizing s with
  | nil => injection h with h; subst h; exact ⟨hn, by simp⟩
  | cons x r ih =>
    cases x with
    | none => simp [each] at h
    | some x =>
      have h1 := accept_served hi s x hn
      have h2 := ih _ h1.1 (by simpa [each] using h)
      refine ⟨h2.1, fun e => ?_⟩
      rw [h2.2, h1.2]
      simp only [List.mem_cons, Option.some.injEq]
      exact or_assoc

theorem each_tps_deck (l : List (Option Nat)) (s s' : S) (h : each (fun t s => some (s.emit (.accept t))) l s = some s') :
    s'.served = s.served ∧ s'.decks = s.decks := by
  induction l generalizing s with
  | nil => injection h with h; subst h; exact ⟨rfl, rfl⟩
  | cons x r ih =>
    cases x with
    | none => simp [each] at h
    | some x => exact ih (s.emit (.accept x)) (by simpa [each] using h)

theorem run_deck {K : Conf} (hi : ∀ a b, K.session a = K.session b → a = b) {s s' : S} (h : s.run K = some s') :
    s'.decks = true ∧ s'.served.Nodup ∧ ∀ e, e ∈ s'.served ↔ some e ∈ s.eps := by
  unfold S.run at h
  rw [each_skip] at h
  split at h
  · simp at h
  rw [Option.bind_some, each_skip] at h
  split at h
  · simp at h
  rw [Option.bind_some] at h
  simp only at h
  rcases each_accept K s.eps { s with decks := true, served := [] } with ⟨-, he⟩ | ⟨-, s1, he, -, hd⟩
  · rw [he] at h; simp at h
  rw [he, Option.bind_some] at h
  have h1 := each_accept_served hi _ _ _ (by simp) he
  rcases each_run K s1.procs s1 with ⟨-, hr⟩ | ⟨-, hr⟩
  · rw [hr] at h; simp at h
  rw [hr, Option.bind_some] at h
  have h2 := each_tps_deck _ _ _ h
  refine ⟨by rw [h2.2]; exact hd, by rw [h2.1]; exact h1.1, fun e => ?_⟩
  rw [h2.1]
  simp only [h1.2, List.not_mem_nil, false_or]

theorem lower_deck (ev : Event) (s : S) : (s.lowerOnEvent ev).served = s.served ∧ (s.lowerOnEvent ev).decks = s.decks := by
  unfold S.lowerOnEvent
  split
  · split
    · split
      · exact ⟨rfl, rfl⟩
      · split <;> exact ⟨rfl, rfl⟩
    · exact ⟨rfl, rfl⟩
  · exact ⟨rfl, rfl⟩

/-- What an event does to the map. -/
theorem publish_deck {K : Conf} (hi : ∀ a b, K.session a = K.session b → a = b) {s s' : S} {ev : Event} (hn : s.served.Nodup)
    (h : s.publish K ev = some s') :
    s'.decks = s.decks ∧ s'.served.Nodup ∧
      ∀ e, e ∈ s'.served ↔ (ev = ⟨.endpointAdded, .ep e⟩ ∧ s.decks = true) ∨ (e ∈ s.served ∧ ¬ (ev = ⟨.endpointDeleted, .ep e⟩ ∧ s.decks = true)) := by
  obtain ⟨-, h, -⟩ := publish_some h
  have hl := lower_deck ev (s.upperOnEvent K ev)
  rw [← h] at hl
  rw [hl.1, hl.2]
  obtain ⟨t, d⟩ := ev
  unfold S.upperOnEvent
  cases hd : s.decks with
  | false => simp [hd, hn]
  | true =>
    cases d with
    | nil => simp [hd, hn]
    | tp t => simp [hd, hn]
    | conn t => simp [hd, hn]
    | other t => simp [hd, hn]
    | ep x =>
      simp only [if_true]
      split
      · rename_i ht
        subst ht
        have h1 := accept_served hi s x hn
        have hdk : (s.acceptEndpoint K x).decks = true := by unfold S.acceptEndpoint; split <;> exact hd
        refine ⟨hdk, h1.1, fun e => ?_⟩
        rw [h1.2]
        simp only [Event.mk.injEq, true_and, reduceCtorEq, false_and, not_false_eq_true, and_true, Data.ep.injEq]
        exact ⟨fun h => h.elim Or.inr fun h => Or.inl h.symm, fun h => h.elim (fun h => Or.inr h.symm) Or.inl⟩
      · rename_i ht
        split
        · rename_i ht'
          subst ht'
          unfold S.deleteEndpoint
          split
          · refine ⟨hd, hn.erase _, fun e => ?_⟩
            show e ∈ s.served.erase x ↔ _
            rw [hn.mem_erase_iff]
            simp only [Event.mk.injEq, true_and, reduceCtorEq, false_and, false_or, Data.ep.injEq, and_true]
            exact ⟨fun h => ⟨h.2, fun h' => h.1 h'.symm⟩, fun h => ⟨fun h' => h.2 h'.symm, h.1⟩⟩
          · rename_i hm
            refine ⟨hd, hn, fun e => ?_⟩
            simp only [Event.mk.injEq, true_and, reduceCtorEq, false_and, false_or, Data.ep.injEq, and_true]
            exact ⟨fun h => ⟨h, fun h' => hm (h' ▸ h)⟩, fun h => h.1⟩
        · rename_i ht'
          refine ⟨hd, hn, fun e => ?_⟩
          simp [ht, ht']

theorem Deck.step {K : Conf} (hi : ∀ a b, K.session a = K.session b → a = b) {pre : List Op} {s s' : S} {op : Op} (h : Deck pre s)
    (hv : Inv K pre s) (hs : s.step K op = some s') : Deck (pre ++ [op]) s' := by
  have keep : op ≠ .run → (.run ∈ pre ++ [op] ↔ .run ∈ pre) := by
    intro hx
    simp only [List.mem_append, List.mem_singleton]
    exact ⟨fun h => h.elim id fun h => absurd h.symm hx, Or.inl⟩
  have quiet : (∀ e, ¬ Starts e pre op) → (∀ e, e ∈ s.served → ¬ Stops e pre op) → op ≠ .run → s'.decks = s.decks → s'.served = s.served →
      Deck (pre ++ [op]) s' := by
    intro h1 h2 h3 h4 h5
    refine ⟨by rw [h4, keep h3]; exact h.decks, by rw [h5]; exact h.nodup, fun e => ?_⟩
    rw [h5, serving_snoc, ← h.served]
    exact ⟨fun he => Or.inr ⟨he, h2 e he⟩, fun he => he.elim (fun he => absurd he (h1 e)) fun he => he.1⟩
  cases op with
  | setListener f => simp only [S.step, Option.some.injEq] at hs; subst hs; exact quiet (by simp [Starts]) (by simp [Stops]) (by simp) rfl rfl
  | addFeature f => simp only [S.step, Option.some.injEq] at hs; subst hs; exact quiet (by simp [Starts]) (by simp [Stops]) (by simp) rfl rfl
  | append f => simp only [S.step, Option.some.injEq] at hs; subst hs; exact quiet (by simp [Starts]) (by simp [Stops]) (by simp) rfl rfl
  | setMTU f => simp only [S.step, Option.some.injEq] at hs; subst hs; exact quiet (by simp [Starts]) (by simp [Stops]) (by simp) rfl rfl
  | setProc p f => simp only [S.step, Option.some.injEq] at hs; subst hs; exact quiet (by simp [Starts]) (by simp [Stops]) (by simp) rfl rfl
  | getFeature n =>
    simp only [S.step] at hs
    cases hg : Foreign.getFeature n s.features with
    | none => rw [hg] at hs; simp at hs
    | some r =>
      rw [hg] at hs
      injection hs with hs
      subst hs
      exact quiet (by simp [Starts]) (by simp [Stops]) (by simp) rfl rfl
  | publish ev =>
    have hp := publish_deck hi h.nodup hs
    refine ⟨by rw [hp.1, keep (by simp)]; exact h.decks, hp.2.1, fun e => ?_⟩
    rw [hp.2.2, serving_snoc, ← h.served, h.decks]
    simp only [Starts, Stops]
    refine or_congr Iff.rfl (and_congr_right fun hm => not_congr ⟨fun h => h.1, fun h' => ⟨h', ?_⟩⟩)
    exact serving_run ((h.served e).1 hm)
  | addEndPoint x =>
    simp only [S.step, S.addEndPoint] at hs
    split at hs
    · rename_i hm
      injection hs with hs
      subst hs
      refine quiet ?_ (by simp [Stops]) (by simp) rfl rfl
      rintro e ⟨rfl, hn, -⟩
      exact hn ((hv.eps _).1 hm)
    · rename_i hm
      cases hp : s.publish K ⟨.endpointAdded, Data.ofEp x⟩ with
      | none => rw [hp] at hs; simp at hs
      | some s1 =>
        rw [hp] at hs
        injection hs with hs
        subst hs
        have hp := publish_deck hi h.nodup hp
        refine ⟨by simp only; rw [hp.1, keep (by simp)]; exact h.decks, hp.2.1, fun e => ?_⟩
        simp only
        rw [hp.2.2, serving_snoc, ← h.served, h.decks]
        simp only [Starts, Stops, not_false_eq_true, and_true, Event.mk.injEq, true_and, reduceCtorEq, false_and]
        refine or_congr ?_ Iff.rfl
        constructor
        · rintro ⟨hx, hr⟩
          have : x = some e := by cases x <;> simp_all [Data.ofEp]
          subst this
          exact ⟨rfl, fun h' => hm ((hv.eps _).2 h'), hr⟩
        · rintro ⟨rfl, -, hr⟩; exact ⟨rfl, hr⟩
  | deleteEndPoint x =>
    simp only [S.step, S.deleteEndPoint] at hs
    split at hs
    · rename_i hm
      cases hp : s.publish K ⟨.endpointDeleted, Data.ofEp x⟩ with
      | none => rw [hp] at hs; simp at hs
      | some s1 =>
        rw [hp] at hs
        injection hs with hs
        subst hs
        have hp := publish_deck hi h.nodup hp
        refine ⟨by simp only; rw [hp.1, keep (by simp)]; exact h.decks, hp.2.1, fun e => ?_⟩
        simp only
        rw [hp.2.2, serving_snoc, ← h.served, h.decks]
        simp only [Starts, Stops, Event.mk.injEq, true_and, reduceCtorEq, false_and, false_or]
        refine and_congr_right fun hs => not_congr ?_
        constructor
        · rintro ⟨hx, -⟩
          have : x = some e := by cases x <;> simp_all [Data.ofEp]
          subst this
          exact ⟨rfl, (hv.eps _).1 hm⟩
        · rintro ⟨rfl, -⟩; exact ⟨rfl, serving_run ((h.served e).1 hs)⟩
    · rename_i hm
      injection hs with hs
      subst hs
      refine quiet (by simp [Starts]) ?_ (by simp) rfl rfl
      rintro e - ⟨rfl, he⟩
      exact hm ((hv.eps _).2 he)
  | addTransport x =>
    simp only [S.step, S.addTransport] at hs
    split at hs
    · injection hs with hs
      subst hs
      exact quiet (by simp [Starts]) (by simp [Stops]) (by simp) rfl rfl
    · cases hp : s.publish K ⟨.transportAdded, Data.ofTp x⟩ with
      | none => rw [hp] at hs; simp at hs
      | some s1 =>
        rw [hp] at hs
        injection hs with hs
        subst hs
        have hp := publish_deck hi h.nodup hp
        refine ⟨by simp only; rw [hp.1, keep (by simp)]; exact h.decks, hp.2.1, fun e => ?_⟩
        simp only
        rw [hp.2.2, serving_snoc, ← h.served]
        simp [Starts, Stops]
  | deleteTransport x =>
    simp only [S.step, S.deleteTransport] at hs
    split at hs
    · have hp := publish_deck hi (s := { s with tps := s.tps.erase x }) h.nodup hs
      refine ⟨by rw [hp.1, keep (by simp)]; exact h.decks, hp.2.1, fun e => ?_⟩
      rw [hp.2.2, serving_snoc, ← h.served]
      simp [Starts, Stops]
    · injection hs with hs
      subst hs
      exact quiet (by simp [Starts]) (by simp [Stops]) (by simp) rfl rfl
  | run =>
    have hr := run_deck hi hs
    refine ⟨by simp [hr.1], hr.2.1, fun e => ?_⟩
    rw [hr.2.2, serving_snoc, hv.eps]
    simp only [Starts, Stops]
    exact ⟨Or.inl, fun h => h.elim id fun h => Classical.byContradiction h.2⟩

theorem Deck.runs {K : Conf} (hi : ∀ a b, K.session a = K.session b → a = b) {ops : List Op} {s : S} (h : runs K ops = some s) : Deck ops s := by
  induction ops using Trace.snoc_induction generalizing s with
  | h0 =>
    injection h with h
    subst h
    refine ⟨by simp [S.init], List.nodup_nil, fun e => ?_⟩
    simp only [S.init, List.not_mem_nil, false_iff]
    rintro ⟨a, o, b, he, -⟩
    simp at he
  | h1 ops op ih =>
    obtain ⟨m, hm, hs⟩ := Trace.exec_snoc h
    exact (ih hm).step hi (Inv.runs hm) hs

/-- **C102**: exactly which endpoints the present UpperDeck serves, for every sequence of calls that does not panic (endpoints with different
sessions). -/
theorem c102_served {K : Conf} (hi : ∀ a b, K.session a = K.session b → a = b) {ops : List Op} {s : S} (h : runs K ops = some s) (e : Nat) :
    e ∈ s.served ↔ Serving e ops := (Deck.runs hi h).served e

/-- The program publishes no event about endpoints itself. -/
def Own (ops : List Op) : Prop := ∀ t e, .publish ⟨t, .ep e⟩ ∈ ops → t ≠ .endpointAdded ∧ t ≠ .endpointDeleted

/-- **C102**: after `Run`, the registered endpoints are the served ones, for a program that leaves it to the stack to publish these events. -/
theorem c102_own_partial {K : Conf} (hi : ∀ a b, K.session a = K.session b → a = b) {ops : List Op} {s : S} (h : runs K ops = some s)
    (ho : Own ops) (hr : .run ∈ ops) (e : Nat) : e ∈ s.served ↔ some e ∈ s.eps := by
  rw [c102_served hi h, (Inv.runs h).eps]
  clear h
  have key : ∀ ops : List Op, Own ops → (Serving e ops ↔ .run ∈ ops ∧ Endpoint (some e) ops) := by
    intro ops
    induction ops using Trace.snoc_induction with
    | h0 =>
      intro _
      constructor
      · rintro ⟨a, o, b, he, -⟩; simp at he
      · rintro ⟨h, -⟩; simp at h
    | h1 ops op ih =>
      intro ho
      have ho' : Own ops := fun t x hx => ho t x (List.mem_append_left _ hx)
      rw [serving_snoc, ih ho', show Endpoint (some e) (ops ++ [op]) ↔ _ from present_snoc]
      cases op with
      | run =>
        simp only [Starts, Stops, List.mem_append, List.mem_singleton, or_true, true_and, reduceCtorEq, false_or, ne_eq, not_false_eq_true]
        exact ⟨fun h => h.elim id fun h => h.1.2, Or.inl⟩
      | addEndPoint x =>
        simp only [Starts, Stops, List.mem_append, List.mem_singleton, reduceCtorEq, or_false, ne_eq, not_false_eq_true, and_true, true_and,
          Op.addEndPoint.injEq]
        constructor
        · rintro (⟨h1, h2, h3⟩ | ⟨h1, h2⟩)
          · exact ⟨h3, Or.inl h1⟩
          · exact ⟨h1, Or.inr h2⟩
        · rintro ⟨h1, h2 | h2⟩
          · by_cases h3 : Endpoint (some e) ops
            · exact Or.inr ⟨h1, h3⟩
            · exact Or.inl ⟨h2, h3, h1⟩
          · exact Or.inr ⟨h1, h2⟩
      | deleteEndPoint x =>
        simp only [Starts, Stops, List.mem_append, List.mem_singleton, reduceCtorEq, or_false, false_or, ne_eq, Op.deleteEndPoint.injEq]
        constructor
        · rintro ⟨⟨h1, h2⟩, h3⟩
          exact ⟨h1, fun h => h3 ⟨h, h2⟩, h2⟩
        · rintro ⟨h1, h2, h3⟩
          exact ⟨⟨h1, h3⟩, fun h => h2 h.1⟩
      | publish ev =>
        have h1 : ev ≠ ⟨.endpointAdded, .ep e⟩ := fun h => by
          subst h; exact (ho .endpointAdded e (by simp)).1 rfl
        have h2 : ev ≠ ⟨.endpointDeleted, .ep e⟩ := fun h => by
          subst h; exact (ho .endpointDeleted e (by simp)).2 rfl
        simp [Starts, Stops, h1, h2]
      | setListener f => simp [Starts, Stops]
      | addFeature f => simp [Starts, Stops]
      | getFeature f => simp [Starts, Stops]
      | append f => simp [Starts, Stops]
      | setMTU f => simp [Starts, Stops]
      | setProc p f => simp [Starts, Stops]
      | addTransport f => simp [Starts, Stops]
      | deleteTransport f => simp [Starts, Stops]
  rw [key ops ho]
  exact ⟨fun h => h.2, fun h => ⟨hr, h⟩⟩

/-- **C102**, violated in general: an endpoint the program itself announced is served although it is not registered, and `DeleteEndPoint` does not end
it; an endpoint whose deletion it announced is registered and not served, and `AddEndPoint` does not help. For every program that has run the stack. -/
theorem c102_foreign {K : Conf} (hi : ∀ a b, K.session a = K.session b → a = b) {ops : List Op} {s : S} (h : runs K ops = some s)
    (hr : .run ∈ ops) (e : Nat) :
    (some e ∉ s.eps → ∀ s', runs K (ops ++ [.publish ⟨.endpointAdded, .ep e⟩, .deleteEndPoint (some e)]) = some s' →
      e ∈ s'.served ∧ some e ∉ s'.eps) ∧
    (some e ∈ s.eps → ∀ s', runs K (ops ++ [.publish ⟨.endpointDeleted, .ep e⟩, .addEndPoint (some e)]) = some s' →
      e ∉ s'.served ∧ some e ∈ s'.eps) := by
  have hv := Inv.runs h
  constructor
  · intro hn s' hs
    have hn' : ¬ Endpoint (some e) ops := fun h => hn ((hv.eps _).2 h)
    rw [c102_served hi hs, (Inv.runs hs).eps]
    rw [show ops ++ [Op.publish ⟨.endpointAdded, .ep e⟩, .deleteEndPoint (some e)] = (ops ++ [.publish ⟨.endpointAdded, .ep e⟩]) ++ [.deleteEndPoint (some e)] by simp]
    rw [serving_snoc, serving_snoc, Endpoint, present_snoc, present_snoc]
    refine ⟨Or.inr ⟨Or.inl ⟨rfl, hr⟩, ?_⟩, by simp⟩
    rintro ⟨-, h2⟩
    rw [Endpoint, present_snoc] at h2
    exact hn' (by simpa using h2)
  · intro hn s' hs
    have hn' : Endpoint (some e) ops := (hv.eps _).1 hn
    have hp : Endpoint (some e) (ops ++ [.publish ⟨.endpointDeleted, .ep e⟩]) := by
      rw [Endpoint, present_snoc]; exact Or.inr ⟨by simp, hn'⟩
    rw [c102_served hi hs, (Inv.runs hs).eps]
    rw [show ops ++ [Op.publish ⟨.endpointDeleted, .ep e⟩, .addEndPoint (some e)] = (ops ++ [.publish ⟨.endpointDeleted, .ep e⟩]) ++ [.addEndPoint (some e)] by simp]
    rw [serving_snoc, serving_snoc, Endpoint, present_snoc]
    refine ⟨?_, Or.inl rfl⟩
    rintro (⟨-, h2, -⟩ | ⟨⟨h2, -⟩ | ⟨-, h2⟩, -⟩)
    · exact h2 hp
    · simp at h2
    · exact h2 rfl

/-- **C102**: a nil endpoint is accepted silently and makes every later event a panic, in particular the one for its own deletion. -/
theorem c102_nil {K : Conf} {ops : List Op} (ha : .addEndPoint none ∈ ops) :
    (∀ ev, runs K (ops ++ [.publish ev]) = none) ∧ runs K (ops ++ [.run]) = none ∧
    (.deleteEndPoint none ∉ ops → runs K (ops ++ [.deleteEndPoint none]) = none) := by
  refine ⟨fun ev => ?_, ?_, fun hd => ?_⟩ <;> rw [c102_iff]
  · exact ⟨ops, _, [], rfl, Or.inr (Or.inl ha)⟩
  · exact ⟨ops, _, [], rfl, Or.inr (Or.inr (Or.inl ha))⟩
  · obtain ⟨a, b, he⟩ := List.append_of_mem ha
    exact ⟨ops, _, [], rfl, ⟨a, b, he, fun h => hd (by rw [he]; exact List.mem_append_right _ (List.mem_cons_of_mem _ h))⟩, Or.inr (Or.inl ha)⟩

/-! ## Examples -/

def demoConf : Conf := { kind := fun p => if p = 0 then .heartbeat else if p = 1 then .stat else if p = 2 then .frame else .plain, session := fun e => e }

def demoOps : List Op :=
  [.addFeature (some 3), .append (some 0), .append (some 1), .append (some 2), .setProc 1 (.int 5), .addEndPoint (some 7), .addTransport (some 1), .run,
   .publish ⟨.newConnection, .conn 4⟩, .addEndPoint (some 8), .publish ⟨.endpointAdded, .ep 9⟩, .publish ⟨.endpointDeleted, .ep 7⟩, .deleteEndPoint (some 8),
   .deleteEndPoint (some 9), .addEndPoint (some 7)]

example : (runs demoConf demoOps).map (fun s => (s.served, s.eps, s.interval 1)) = some ([9], [some 7], 5) := by decide +kernel
example : ∀ a b, demoConf.session a = demoConf.session b → a = b := by simp [demoConf]; omega
example : Own (demoOps.take 10) ∧ Op.run ∈ demoOps.take 10 := by
  refine ⟨fun t e h => ?_, by decide⟩
  simp [demoOps] at h
example : (runs demoConf (demoOps.take 10)).map (fun s => (s.served, s.eps)) = some ([7, 8], [some 7, some 8]) := by decide +kernel
-- an event with data of another type ends the program: at once with a Heartbeat, with a StatCounter only once it has an interval
example : runs demoConf (demoOps ++ [.publish ⟨.newConnection, .nil⟩]) = none := by decide +kernel
example : (runs demoConf [.append (some 1), .setProc 1 (.int 5), .publish ⟨.newConnection, .other 3⟩]).isSome = true := by decide +kernel
example : runs demoConf [.append (some 1), .setProc 1 (.int 5), .run, .publish ⟨.newConnection, .other 3⟩] = none := by decide +kernel
-- a nil transport does no harm until the next Run; a nil endpoint cannot be taken away again
example : (runs demoConf [.run, .addTransport none, .publish ⟨.other 9, .nil⟩, .deleteTransport none, .run]).isSome = true := by decide +kernel
example : runs demoConf [.run, .addTransport none, .run] = none := by decide +kernel
example : runs demoConf [.addEndPoint none, .addEndPoint none, .deleteEndPoint none] = none := by decide +kernel
example : (runs demoConf [.addEndPoint none, .addEndPoint none, .getFeature 2]).isSome = true := by decide +kernel
example : runs demoConf [.addFeature (some 1), .addFeature none, .addFeature (some 2), .getFeature 1, .getFeature 2] = none := by decide +kernel
example : runs demoConf [.append (some 2), .setMTU (.int (-1)), .run] = none := by decide +kernel

end Verif.Reg.Foreign
