import Verif.Stack.Model
import Verif.Reg.Slice

/-!
# Model of the stack object: registries, events, decks, wiring

`DefaultUStack` (ustack_default.go:78-345) with the reactions of the decks to events
(proc_upperdeck.go:18-81, 122-143, proc_lowerdeck.go:34-96, 122-144).  Everything observable is appended to
`log`.

Simplifications: event listeners and endpoint event listeners only observe (they do not call the stack);
the methods are called one after the other (concurrent calls of `acceptEndpoint` are in `Reg/Race.lean`); what the
spawned goroutines do is in `Reg/Serve.lean`; `existsEndpoint` and the insertion are one step here.
-/

namespace Verif.Reg
open Stack (Val optionParseInt)

scoped notation "EpId" => Nat
scoped notation "TpId" => Nat
scoped notation "ProcId" => Nat
scoped notation "DeckId" => Nat
scoped notation "ConnId" => Nat

/-- event.go:7-24 -/
inductive EventType where
  | newConnection | connectionClosed | heartbeatLost | heartbeatRecover
  | transportAdded | transportDeleted | endpointAdded | endpointDeleted
  deriving Repr, DecidableEq

/-- The dynamic value of `Event.Data`. -/
inductive Subject where
  | ep (e : EpId)
  | tp (t : TpId)
  | conn (c : ConnId)
  deriving Repr, DecidableEq

/-- event.go:26-31 without `Source`. -/
structure Event where
  type : EventType
  data : Subject
  deriving Repr, DecidableEq

/-- An element of the chain. -/
inductive Elem where
  | upper (d : DeckId)
  | proc (p : ProcId)
  | lower (d : DeckId)
  deriving Repr, DecidableEq

/-- Who gets an event. -/
inductive Target where
  | listener (i : Nat)
  | endpoint (e : EpId)
  | elem (x : Elem)
  deriving Repr, DecidableEq

/-- Observable effects. -/
inductive Obs where
  /-- `OnEvent` / a listener called -/
  | notify (to : Target) (e : Event)
  /-- an endpoint's service goroutine started by an UpperDeck, with the session captured -/
  | serve (d : DeckId) (e : EpId) (session : Int)
  /-- the service goroutine told to stop -/
  | unserve (d : DeckId) (e : EpId)
  /-- `tp.Run()` and an accept goroutine started by a LowerDeck -/
  | accept (d : DeckId) (t : TpId)
  /-- `tp.Stop()` -/
  | stop (t : TpId)
  /-- `Run` of a processor or feature -/
  | runProc (p : ProcId)
  | runFeature (f : Nat)
  deriving Repr, DecidableEq

/-- `DefaultUStack` (ustack_default.go:79-91) together with the objects it manages. -/
structure U where
  mtu : Int
  overhead : Int
  options : String → Val
  features : Nat
  emem : Mem EpId
  endpoints : Slice
  tmem : Mem TpId
  transports : Slice
  procs : List ProcId
  listeners : Nat
  /-- `upperDeck`, `lowerDeck`: nil before the first `Run`; every `Run` makes new ones -/
  decks : Option DeckId
  nextDeck : DeckId
  /-- the keys of an UpperDeck's `endpoints` map -/
  served : DeckId → List EpId
  /-- `ProcBase.upper`, `ProcBase.lower` -/
  upperOf : Elem → Option Elem
  lowerOf : Elem → Option Elem
  /-- `GetSession` of the endpoints -/
  session : EpId → Int
  /-- `GetOverhead` of the processors -/
  cost : ProcId → Int
  /-- extra capacity chosen by `append`, an arbitrary function of the new length -/
  spare : Nat → Nat
  log : List Obs

/-- `NewUStack` (ustack_default.go:94-108, `defaultMTU` is 2048, ustack_default.go:11). -/
def U.new (session : EpId → Int) (cost : ProcId → Int) (spare : Nat → Nat) : U :=
  { mtu := 2048, overhead := 0, options := fun _ => .nil, features := 0, emem := .init, endpoints := .nil,
    tmem := .init, transports := .nil, procs := [], listeners := 0, decks := none, nextDeck := 0,
    served := fun _ => [], upperOf := fun _ => none, lowerOf := fun _ => none, session, cost, spare, log := [] }

/-- The registered endpoints: `GetEndPoint()` as a list (ustack_default.go:236-238). -/
def U.eps (u : U) : List EpId := u.emem.read u.endpoints
/-- `GetTransport()` as a list (ustack_default.go:298-300). -/
def U.tps (u : U) : List TpId := u.tmem.read u.transports

def U.emit (u : U) (os : List Obs) : U := { u with log := u.log ++ os }

/-- `existsEndpoint` (proc_upperdeck.go:18-28). -/
def U.existsEndpoint (u : U) (d : DeckId) (e : EpId) : Bool :=
  (u.served d).any fun x => x == e || u.session x == u.session e

/-- `acceptEndpoint` (proc_upperdeck.go:31-68). -/
def U.acceptEndpoint (u : U) (d : DeckId) (e : EpId) : U :=
  if u.existsEndpoint d e then u
  else { u with served := fun x => if x = d then u.served d ++ [e] else u.served x }.emit [.serve d e (u.session e)]

/-- `deleteEndpoint` (proc_upperdeck.go:71-81). -/
def U.deleteEndpoint (u : U) (d : DeckId) (e : EpId) : U :=
  if e ∈ u.served d then
    { u with served := fun x => if x = d then (u.served d).erase e else u.served x }.emit [.unserve d e]
  else u

/-- `UpperDeck.OnEvent` (proc_upperdeck.go:123-134). -/
def U.upperOnEvent (u : U) (d : DeckId) (ev : Event) : U :=
  match ev.data with
  | .ep e =>
    if ev.type = .endpointAdded then u.acceptEndpoint d e
    else if ev.type = .endpointDeleted then u.deleteEndpoint d e
    else u
  | _ => u

/-- `acceptTransport` (proc_lowerdeck.go:35-90). -/
def U.acceptTransport (u : U) (d : DeckId) (t : TpId) : U := u.emit [.accept d t]

/-- `LowerDeck.OnEvent` (proc_lowerdeck.go:123-134). -/
def U.lowerOnEvent (u : U) (d : DeckId) (ev : Event) : U :=
  match ev.data with
  | .tp t =>
    if ev.type = .transportAdded then u.acceptTransport d t
    else if ev.type = .transportDeleted then u.emit [.stop t]
    else u
  | _ => u

/-- ustack_default.go:316-318 -/
def U.notifyUpper (u : U) (ev : Event) : U :=
  match u.decks with
  | some d => (u.emit [.notify (.elem (.upper d)) ev]).upperOnEvent d ev
  | none => u

/-- ustack_default.go:322-324 -/
def U.notifyLower (u : U) (ev : Event) : U :=
  match u.decks with
  | some d => (u.emit [.notify (.elem (.lower d)) ev]).lowerOnEvent d ev
  | none => u

/-- `PublishEvent` (ustack_default.go:309-326). -/
def U.publish (u : U) (ev : Event) : U :=
  let u := u.emit ((List.range u.listeners).map fun i => .notify (.listener i) ev)
  let u := u.emit (u.eps.map fun e => .notify (.endpoint e) ev)
  let u := u.notifyUpper ev
  let u := u.emit (u.procs.map fun p => .notify (.elem (.proc p)) ev)
  u.notifyLower ev

/-- `AddEndPoint` (ustack_default.go:195-211). -/
def U.addEndPoint (u : U) (e : EpId) : U :=
  if e ∈ u.eps then u
  else
    let u := u.publish ⟨.endpointAdded, .ep e⟩
    let r := u.emem.append 0 (u.spare (u.endpoints.len + 1)) u.endpoints e
    { u with emem := r.1, endpoints := r.2 }

/-- `DeleteEndPoint` (ustack_default.go:214-233). -/
def U.deleteEndPoint (u : U) (e : EpId) : U :=
  match u.eps.idxOf? e with
  | none => u
  | some i =>
    let u := u.publish ⟨.endpointDeleted, .ep e⟩
    let r := u.emem.deleteAt u.endpoints i
    { u with emem := r.1, endpoints := r.2 }

/-- `AddTransport` (ustack_default.go:257-273). -/
def U.addTransport (u : U) (t : TpId) : U :=
  if t ∈ u.tps then u
  else
    let u := u.publish ⟨.transportAdded, .tp t⟩
    let r := u.tmem.append 0 (u.spare (u.transports.len + 1)) u.transports t
    { u with tmem := r.1, transports := r.2 }

/-- `DeleteTransport` (ustack_default.go:276-295): removed before publishing. -/
def U.deleteTransport (u : U) (t : TpId) : U :=
  match u.tps.idxOf? t with
  | none => u
  | some i =>
    let r := u.tmem.deleteAt u.transports i
    { u with tmem := r.1, transports := r.2 }.publish ⟨.transportDeleted, .tp t⟩

/-- `parseOptions` (ustack_default.go:111-117). -/
def U.parseOptions (u : U) : U := { u with mtu := (optionParseInt (u.options "MTU") 2048).1 }

/-- `a.SetLower(b); b.SetUpper(a)`. -/
def U.link (u : U) (a b : Elem) : U :=
  { u with lowerOf := fun x => if x = a then some b else u.lowerOf x
           upperOf := fun x => if x = b then some a else u.upperOf x }

/-- The chain of links of `build` (ustack_default.go:128-140) below an element. -/
def U.linkChain (u : U) (bottom : Elem) : Elem → List ProcId → U
  | a, [] => u.link a bottom
  | a, p :: ps => (u.link a (.proc p)).linkChain bottom (.proc p) ps

/-- `build` (ustack_default.go:120-146). -/
def U.build (u : U) : U :=
  let u := u.parseOptions
  let d := u.nextDeck
  let u := { u with decks := some d, nextDeck := d + 1 }
  let u := u.linkChain (.lower d) (.upper d) u.procs
  { u with overhead := u.overhead + (u.procs.map u.cost).sum }

/-- `Run` (ustack_default.go:329-345) with `UpperDeck.Run` (proc_upperdeck.go:137-143) and `LowerDeck.Run`
(proc_lowerdeck.go:138-144). -/
def U.run (u : U) : U :=
  let u := u.build
  let d := u.nextDeck - 1
  let u := u.emit ((List.range u.features).map .runFeature)
  let u := u.eps.foldl (fun u e => u.acceptEndpoint d e) u
  let u := u.emit (u.procs.map .runProc)
  u.tps.foldl (fun u t => u.acceptTransport d t) u

/-- The calls a program makes on the stack. -/
inductive Op where
  | addEndPoint (e : EpId) | deleteEndPoint (e : EpId)
  | addTransport (t : TpId) | deleteTransport (t : TpId)
  | appendProc (p : ProcId) | addFeature
  | setListener | setOption (name : String) (v : Val)
  /-- `ep.SetSession` (endp_default.go:135-138) -/
  | setSession (e : EpId) (s : Int)
  /-- an event about a connection, published by a deck or a processor -/
  | publish (t : EventType) (c : ConnId)
  | run

def U.step (u : U) : Op → U
  | .addEndPoint e => u.addEndPoint e
  | .deleteEndPoint e => u.deleteEndPoint e
  | .addTransport t => u.addTransport t
  | .deleteTransport t => u.deleteTransport t
  | .appendProc p => { u with procs := u.procs ++ [p] }           -- ustack_default.go:241-244
  | .addFeature => { u with features := u.features + 1 }           -- ustack_default.go:174-177
  | .setListener => { u with listeners := u.listeners + 1 }        -- ustack_default.go:303-306
  | .setOption name v => { u with options := fun x => if x = name then v else u.options x }   -- ustack_default.go:160-163
  | .setSession e s => { u with session := fun x => if x = e then s else u.session x }
  | .publish t c => u.publish ⟨t, .conn c⟩
  | .run => u.run

def U.steps (u : U) (ops : List Op) : U := ops.foldl U.step u

end Verif.Reg
