import Verif.Access.Program

namespace Verif.Access

/-! ## Programs with fewer features do less -/

def Fewer (F G : Feature → Bool) : Prop := ∀ x, F x = true → G x = true

theorem Sub.feature {F G : Feature → Bool} (h : Fewer F G) (x : Feature) {c c' : C} (hc : Sub c c') : Sub (feature F x c) (feature G x c') := by
  unfold Access.feature opt
  by_cases hx : F x = true
  · rw [if_pos hx, if_pos (h x hx)]
    exact .alt hc (.refl _)
  · rw [if_neg hx]
    intro w hw
    cases hw
    by_cases hg : G x = true
    · rw [if_pos hg]; exact .right .skip
    · rw [if_neg hg]; exact .skip

theorem Sub.only (b : Bool) {c c' : C} (hc : Sub c c') : Sub (only b c) (only b c') := by
  cases b
  · exact .refl _
  · exact hc

theorem Sub.all_nil : Sub (all []) (all []) := .refl _

theorem Sub.all_cons {c c' : C} {cs cs' : List C} (h : Sub c c') (h' : Sub (all cs) (all cs')) : Sub (all (c :: cs)) (all (c' :: cs')) := .seq h h'

theorem Sub.one_nil : Sub (one []) (one []) := .refl _

theorem Sub.one_cons {c c' : C} {cs cs' : List C} (h : Sub c c') (h' : Sub (one cs) (one cs')) : Sub (one (c :: cs)) (one (c' :: cs')) := .alt h h'

theorem Sub.opt {c c' : C} (h : Sub c c') : Sub (opt c) (opt c') := .alt h (.refl _)

macro "sub_auto" h:term : tactic => `(tactic| repeat' first
  | exact Sub.refl _ | apply Sub.all_cons | apply Sub.one_cons | apply Sub.star | apply Sub.opt | apply Sub.only | apply Sub.feature $h)

variable {F G : Feature → Bool}

theorem onNewConnection_sub (h : Fewer F G) (c : Bool) : Sub (onNewConnection F c) (onNewConnection G c) := by
  unfold onNewConnection
  sub_auto h

theorem down_sub (h : Fewer F G) (c : Bool) : Sub (down F c) (down G c) := by
  unfold down
  sub_auto h

theorem up_sub (h : Fewer F G) (c : Bool) : Sub (up F c) (up G c) := by
  unfold up
  repeat' first
    | exact Sub.refl _ | exact down_sub h c | apply Sub.all_cons | apply Sub.one_cons | apply Sub.star | apply Sub.opt | apply Sub.only | apply Sub.feature h

theorem announce_sub (h : Fewer F G) (c : Bool) : Sub (announce F c) (announce G c) := by
  unfold announce publish
  repeat' first
    | exact Sub.refl _ | exact onNewConnection_sub h c | apply Sub.all_cons | apply Sub.star

theorem body_sub (h : Fewer F G) (k : Fun) : Sub (body F k) (body G k) := by
  cases k <;> simp only [body] <;> repeat' first
    | exact Sub.refl _ | exact down_sub h _ | exact up_sub h _ | exact announce_sub h _ | apply Sub.all_cons | apply Sub.one_cons | apply Sub.star

theorem runUpper_sub (h : Fewer F G) : Sub (runUpper F) (runUpper G) := by
  unfold runUpper runProcessors
  sub_auto h

theorem main_sub (h : Fewer F G) : Sub (mainFun F) (mainFun G) := by
  unfold mainFun run later
  repeat' first
    | exact Sub.refl _ | exact runUpper_sub h | apply Sub.alt | apply Sub.all_cons | apply Sub.one_cons | apply Sub.star | apply Sub.feature h

theorem RacyField.mono (h : Fewer F G) {l : Field} (hr : RacyField F l) : RacyField G l := Racy.mono (body_sub h) (main_sub h) hr

/-! ## No races -/

def funs : List Fun :=
  [.accept, .connect, .next true, .next false, .refNext, .reader true, .reader false, .service, .beat true, .beat false, .check, .ask true, .ask false, .autoReceive]

theorem mem_funs (k : Fun) : k ∈ funs := by
  cases k <;> first | decide | (rename_i b; cases b <;> decide)

/-- All features but these. -/
def without (xs : List Feature) (x : Feature) : Bool := decide (x ∉ xs)

/-- Just these features. -/
def just (xs : List Feature) (x : Feature) : Bool := decide (x ∈ xs)

def touch (F : Feature → Bool) (l : Field) : Fun → Bool := touchers (body F) l 4

def safeField (F : Feature → Bool) (p : Policy Mutex) (l : Field) : Bool := safe p l (touch F l) funs (body F) (mainFun F)

theorem safe_field {xs : List Feature} {p : Policy Mutex} {l : Field} (hs : safeField (without xs) p l = true)
    (hx : ∀ x ∈ xs, F x = false) : ¬ RacyField F l := by
  intro hr
  refine safe_sound mem_funs hs (hr.mono (G := without xs) ?_)
  intro x h
  simp only [without, decide_eq_true_eq]
  intro hm
  rw [hx x hm] at h
  cases h

/-- Why the fields are safe, in programs without these features. -/
def reasons : List (Field × List Feature × Policy Mutex) := [
  (.mtu, [], .frozen), (.overhead, [], .frozen), (.options, [], .frozen), (.transports, [], .frozen), (.decks, [], .frozen),
  (.links, [], .frozen), (.heartbeatConf, [], .frozen), (.statConf, [], .frozen),
  (.monitors, [], .guarded .heartbeat), (.isRunning, [], .guarded .transport), (.connections, [], .guarded .transport),
  (.txCounter, [.stat], .frozen), (.rxCounter, [.stat], .frozen), (.cache, [.frame], .frozen),
  (.endpoints, [.changeEndPoints], .frozen),
  (.next, [.changeTransports], .frozen), (.retry, [.changeTransports], .frozen), (.listener, [.changeTransports], .owned),
  (.refRunning, [], .frozen), (.refSize, [], .guarded .reference), (.channels, [], .guarded .channels),
  (.refConnection, [.changeTransports], .owned), (.refConnection, [.reference], .owned),
  (.listeners, [.setEventListener], .frozen), (.processors, [.appendProcessor], .frozen),
  (.enable, [.setEnable], .frozen), (.enable, [.codec, .stat, .frame], .frozen),
  (.stackName, [.setStackName], .frozen), (.stackName, [.stat], .frozen),
  (.session, [.setSession], .frozen), (.eventListener, [.setEndPointListener], .frozen),
  (.dataListener, [.setDataListenerAgain], .frozen), (.inAutoReceive, [.setDataListenerAgain], .owned)]

theorem reasons_hold : (reasons.all fun r => safeField (without r.2.1) r.2.2 r.1) = true := by decide +kernel

theorem safe_of_reason {l : Field} {xs : List Feature} {p : Policy Mutex} (hm : (l, xs, p) ∈ reasons) (hx : ∀ x ∈ xs, F x = false) : ¬ RacyField F l :=
  safe_field (List.all_eq_true.mp reasons_hold _ hm) hx

/-! ## Races -/

abbrev W := List (Act Field Mutex Fun)

def r (l : Field) : Act Field Mutex Fun := .rd l
def w (l : Field) : Act Field Mutex Fun := .wr l

/-- Goroutine `i` does this; the goroutines it starts will do these. -/
def solo (i : Nat) : W → List W → List (Nat × W)
  | [], _ => []
  | .go _ :: as, v :: vs => (i, v) :: solo i as vs
  | _ :: as, vs => (i, []) :: solo i as vs

/-- An event: what the UpperDeck, the processors and the LowerDeck do. -/
def event (upper procs lower : W) : W :=
  [r .listeners, r .endpoints, r .eventListener, r .decks] ++ upper ++ [r .processors] ++ procs ++ [r .decks] ++ lower

/-- A new endpoint is served. -/
def serve : W :=
  [.lock .upperDeck, r .served, .unlock .upperDeck, .lock .upperDeck, w .served, r .links, .go .service, .unlock .upperDeck]

/-- The transport is started, as a server or as a client. -/
def runT (k : Fun) : W :=
  [.lock .transport, r .isRunning, w .isRunning, w .retry, r .retry, w .connections, w .next, .go k, .unlock .transport, .go (.next true)]

/-- Run up to the UpperDeck's endpoints. -/
def runBegin : W := [r .options, w .mtu, w .decks, w .links, r .processors, w .links, r .decks, r .links, r .endpoints]

/-- Run: two endpoints, what the processors do, one transport. -/
def runAll (procs : W) (k : Fun) : W :=
  runBegin ++ serve ++ serve ++ [r .processors] ++ procs ++ [r .decks, r .links, r .transports] ++ runT k

/-- Two clients are accepted, then the transport is stopped. -/
def acceptTwo : W := [w .listener, r .listener, r .next, r .listener, r .next, r .listener, .lock .transport, r .isRunning, .unlock .transport]

def takeOne : W := [r .next, .lock .transport, r .connections, r .connections, w .connections, .unlock .transport]

/-- Two connections are announced, the first is `c`. -/
def announceTwo (procs : W) : W :=
  takeOne ++ [r .links] ++ event [] procs [] ++ [.go (.reader true)] ++
  takeOne ++ [r .links] ++ event [] procs [] ++ [.go (.reader false)] ++ [r .next]

/-- One read that gets this far in the chain, then the end of the connection. -/
def readOne (c : Bool) (chain : W) : W :=
  [r .links, r .mtu] ++ (if c then [r .closed] else []) ++ [r .links] ++ chain ++
    [r .links, r .mtu] ++ (if c then [r .closed, w .closed] else []) ++ [r .links] ++ event [] [] []

/-- The end of the connection at once. -/
def readEnd (c : Bool) : W := [r .links, r .mtu] ++ (if c then [r .closed, w .closed] else []) ++ [r .links] ++ event [] [] []

/-- The stack is running and two connections are announced.  Goroutines: 0 main, 1 and 2 the endpoints, 3 accepting, 4 the LowerDeck's, 5 and 6
reading.  `services`, `chain1`, `chain2`: what 1, 2, 5 and 6 will do; `later`: what main will do after Run. -/
def running (procs new : W) (service1 service2 reader1 reader2 later : W) (moves : List (Nat × W)) (i j : Nat) : Witness Field Mutex Fun where
  main := runAll procs .accept ++ later
  moves := solo 0 (runAll procs .accept) [service1, service2, acceptTwo, announceTwo new] ++ solo 3 (acceptTwo.take 5) [] ++
    solo 4 (announceTwo new).dropLast [reader1, reader2] ++ moves
  i := i
  j := j

/-- DeleteTransport up to the LowerDeck. -/
def deleteT (stop : W) : W := [r .transports, w .transports] ++ event [] [] stop

def stopOpen : W :=
  [.lock .transport, r .isRunning, r .listener, r .listener, w .listener, r .next, r .connections, w .closed, w .isRunning, .unlock .transport]

def stopNew : W := [.lock .transport, r .isRunning, r .listener, r .next, r .connections, w .isRunning, .unlock .transport]

def addT (k : Fun) : W := [r .transports] ++ event [] [] (runT k) ++ [r .transports, w .transports]

def runR (new : W) : W :=
  [.lock .reference, r .refRunning, w .refSize, .lock .channels, r .channels] ++ new ++ [w .channels, .unlock .channels, .unlock .reference, .go .refNext]

def deleteR : W := [r .transports, w .transports] ++ event [] [] [.lock .reference, r .refRunning, .unlock .reference]

/-- A connection of a reference transport is announced. -/
def refNew : W := [w .refConnection, r .refConnection, r .links] ++ event [] [] [] ++ [.go (.reader false)]

def addEp : W := [r .endpoints] ++ event [.lock .upperDeck, r .served, .unlock .upperDeck] [] [] ++ [r .endpoints, w .endpoints]

def listen : W := [w .dataListener, r .inAutoReceive, .go .autoReceive]

def statRun : W := [r .statConf, w .statConf]
def statNew : W := [r .statConf]
def frameRun : W := [r .links, r .mtu, w .cache]
def beatRun : W := [r .heartbeatConf, w .heartbeatConf, .go .check]

/-- A connection is announced to a Heartbeat. -/
def hbNew : W :=
  takeOne ++ [r .links] ++ event [] [r .heartbeatConf, .lock .heartbeat, w .monitors, .unlock .heartbeat, .go (.beat true)] [] ++ [.go (.reader true), r .next]

theorem reaches {K : Type} {body : K → Cmd Field Mutex K} [DecidableEq K] {main : Cmd Field Mutex K} (u : List (Act Field Mutex K))
    (moves : List (Nat × List (Act Field Mutex K))) (P : State Field Mutex K → Bool)
    (h : (main.accepts u && (match plays body moves ⟨[u], fun _ => none⟩ with | some s => P s | none => false)) = true) :
    ∃ s, Reach body main s ∧ P s = true := by
  rw [Bool.and_eq_true] at h
  obtain ⟨h1, h2⟩ := h
  split at h2
  · rename_i s hs
    exact ⟨s, plays_reach moves (.init (accepts_sound h1)) hs, h2⟩
  · cases h2

/-- The races, with the features they need. -/
def races : List (Field × List Feature × Witness Field Mutex Fun) := [
  -- the second endpoint is entered while the first one's goroutine looks it up
  (.served, [], { main := runAll [] .accept, i := 0, j := 1,
                  moves := solo 0 (runBegin ++ serve ++ serve.take 4) [[r .served]] }),
  -- the reader closes while an endpoint sends
  (.closed, [], running [] [] [r .served, r .closed] [] (readEnd true) (readEnd false) [] (solo 5 [r .links, r .mtu, r .closed] [] ++ solo 1 [r .served] []) 5 1),
  -- two endpoints send
  (.txCounter, [.stat], running statRun statNew [r .served, r .enable, r .txCounter, w .txCounter, r .links] [r .served, r .enable, r .txCounter, w .txCounter, r .links]
    (readEnd true) (readEnd false) [] (solo 1 [r .served, r .enable, r .txCounter] [] ++ solo 2 [r .served, r .enable] []) 1 2),
  -- two connections are read
  (.rxCounter, [.stat], running statRun statNew [] [] (readOne true [r .enable, r .rxCounter, w .rxCounter, r .links]) (readOne false [r .enable, r .rxCounter, w .rxCounter, r .links])
    [] (solo 5 [r .links, r .mtu, r .closed, r .links, r .enable, r .rxCounter] [] ++ solo 6 [r .links, r .mtu, r .links, r .enable] []) 5 6),
  (.cache, [.frame], running frameRun [] [] [] (readOne true [r .enable, r .cache, w .cache]) (readOne false [r .enable, r .cache, w .cache])
    [] (solo 5 [r .links, r .mtu, r .closed, r .links, r .enable, r .cache] [] ++ solo 6 [r .links, r .mtu, r .links, r .enable] []) 5 6),
  -- an endpoint is added while the end of a connection is published
  (.endpoints, [.changeEndPoints], running [] [] [] [] (readEnd true) (readEnd false) addEp
    (solo 5 [r .links, r .mtu, r .closed, w .closed, r .links, r .listeners] [] ++ solo 0 addEp.dropLast []) 0 5),
  -- the transport is deleted and added again before the LowerDeck's goroutine waits for the next connection
  (.next, [.changeTransports], running [] [] [] [] (readEnd true) (readEnd false) (deleteT stopOpen ++ addT .accept)
    (solo 0 (deleteT stopOpen ++ [r .transports] ++ event [] [] [] ++ (runT .accept).take 6) []) 0 4),
  -- the transport is deleted while it begins to listen
  (.listener, [.changeTransports], { main := runAll [] .accept ++ deleteT stopNew, i := 3, j := 0,
                                     moves := solo 0 (runAll [] .accept ++ [r .transports, w .transports] ++ event [] [] [] ++ stopNew.take 2) [[], [], acceptTwo, [r .next]] }),
  -- the transport is deleted and added again while it dials
  (.retry, [.changeTransports], { main := runAll [] .connect ++ deleteT stopNew ++ addT .connect, i := 0, j := 3,
                                  moves := solo 0 (runAll [] .connect ++ deleteT stopNew ++ [r .transports] ++ event [] [] [] ++ (runT .connect).take 3)
                                    [[], [], [r .retry, r .retry, r .next], [r .next]] ++ solo 3 [r .retry] [] }),
  -- a reference transport is deleted and added again while its connection is announced
  (.refConnection, [.reference, .changeTransports],
    { main := runAll [] .accept ++ runR [r .refSize, w .channels] ++ deleteR ++ [r .transports] ++ event [] [] (runR []) ++ [r .transports, w .transports], i := 5, j := 6,
      moves := solo 0 (runAll [] .accept ++ runR [r .refSize, w .channels] ++ deleteR ++ [r .transports] ++ event [] [] (runR [])) [[], [], acceptTwo, [r .next], refNew, refNew] }),
  (.listeners, [.setEventListener], running [] [] [] [] (readEnd true) (readEnd false) [r .listeners, w .listeners]
    (solo 5 [r .links, r .mtu, r .closed, w .closed, r .links] [] ++ solo 0 [r .listeners] []) 0 5),
  (.processors, [.appendProcessor], running [] [] [] [] (readEnd true) (readEnd false) [r .processors, w .processors]
    (solo 5 [r .links, r .mtu, r .closed, w .closed, r .links, r .listeners, r .endpoints, r .eventListener, r .decks] [] ++ solo 0 [r .processors] []) 0 5),
  -- a message is received while a processor is switched
  (.enable, [.setEnable, .codec], running [] [] [] [] (readOne true [r .enable, r .links]) (readEnd false) [w .enable]
    (solo 5 [r .links, r .mtu, r .closed, r .links] []) 0 5),
  (.enable, [.setEnable, .stat], running statRun statNew [] [] (readOne true [r .enable, r .links]) (readEnd false) [w .enable]
    (solo 5 [r .links, r .mtu, r .closed, r .links] []) 0 5),
  (.enable, [.setEnable, .frame], running frameRun [] [] [] (readOne true [r .enable, r .cache]) (readEnd false) [w .enable]
    (solo 5 [r .links, r .mtu, r .closed, r .links] []) 0 5),
  -- the stack is renamed while a StatCounter answers
  (.stackName, [.setStackName, .stat], running statRun statNew [] []
    (readOne true [r .enable, r .links, r .mtu, r .links, r .overhead, r .txCounter, r .rxCounter, r .links, r .stackName, r .links]) (readEnd false) [w .stackName]
    (solo 5 [r .links, r .mtu, r .closed, r .links, r .enable, r .links, r .mtu, r .links, r .overhead, r .txCounter, r .rxCounter, r .links] []) 0 5),
  -- the session is changed while a message is delivered
  (.session, [.setSession], running [] [] [] [] (readOne true [.lock .upperDeck, r .served, r .session, .unlock .upperDeck]) (readEnd false) [w .session]
    (solo 5 [r .links, r .mtu, r .closed, r .links, .lock .upperDeck, r .served] []) 0 5),
  (.eventListener, [.setEndPointListener], running [] [] [] [] (readEnd true) (readEnd false) [w .eventListener]
    (solo 5 [r .links, r .mtu, r .closed, w .closed, r .links, r .listeners, r .endpoints] []) 0 5),
  -- the data listener is changed while the endpoint receives, or begins to receive
  (.dataListener, [.setDataListenerAgain], { main := listen ++ runAll [] .accept ++ listen, i := 0, j := 1,
                                             moves := solo 0 (listen ++ runAll [] .accept) [[r .dataListener, w .inAutoReceive], [], [], acceptTwo, [r .next]] }),
  (.inAutoReceive, [.setDataListenerAgain], { main := listen ++ runAll [] .accept ++ listen, i := 1, j := 0,
                                              moves := solo 0 (listen ++ runAll [] .accept ++ [w .dataListener]) [[r .dataListener, w .inAutoReceive], [], [], acceptTwo, [r .next]] ++
                                                solo 1 [r .dataListener] [] })]

theorem races_hold : (races.all fun x => x.2.2.shows (body (just x.2.1)) (mainFun (just x.2.1)) x.1) = true := by decide +kernel

theorem racy_of {l : Field} {xs : List Feature} (hm : (l, xs) ∈ races.map fun x => (x.1, x.2.1)) (hx : ∀ x ∈ xs, F x = true) : RacyField F l := by
  obtain ⟨⟨l', xs', v⟩, hv, he⟩ := List.mem_map.mp hm
  injection he with h1 h2
  simp only at h1 h2
  subst h1 h2
  have := List.all_eq_true.mp races_hold _ hv
  refine RacyField.mono (F := just xs') (fun x h => hx x (of_decide_eq_true h)) (Witness.racy this)

/-! ## C105 -/

/-- C105.  In every execution of every program with these features, whatever its endpoints, transports and connections: two goroutines may come
to access a field at the same time, one of them writing, exactly for the fields listed in `conflicts`. -/
theorem c105_iff (F : Feature → Bool) (l : Field) : RacyField F l ↔ conflicts F l = true := by
  constructor
  · intro hr
    -- every field not listed is safe for one of the `reasons`
    have no : ∀ xs, (reasons.any fun x => decide (x.1 = l) && decide (x.2.1 = xs)) = true → (∀ x ∈ xs, F x = false) → False := by
      intro xs hm hx
      obtain ⟨⟨l', xs', p⟩, hv, he⟩ := List.any_eq_true.mp hm
      simp only [Bool.and_eq_true, decide_eq_true_eq] at he
      obtain ⟨h1, h2⟩ := he
      subst h1 h2
      exact safe_of_reason hv hx hr
    have one : ∀ x, (reasons.any fun y => decide (y.1 = l) && decide (y.2.1 = [x])) = true → F x = true := by
      intro x hm
      cases hf : F x with
      | true => rfl
      | false => exact (no [x] hm (by simpa using hf)).elim
    cases l <;> simp only [conflicts] <;> first
      | exact (no [] (by decide) (by simp)).elim
      | exact one _ (by decide)
      | skip
    case enable =>
      rw [Bool.and_eq_true]
      refine ⟨one _ (by decide), Decidable.byContradiction fun hn => no [.codec, .stat, .frame] (by decide) ?_⟩
      simpa [and_assoc] using hn
    case refConnection => rw [Bool.and_eq_true]; exact ⟨one _ (by decide), one _ (by decide)⟩
    case stackName => rw [Bool.and_eq_true]; exact ⟨one _ (by decide), one _ (by decide)⟩
  · intro h
    cases l <;> simp only [conflicts, Bool.and_eq_true, Bool.or_eq_true] at h
    all_goals first
      | (cases h; done)
      | exact racy_of (xs := []) (by decide) (by simp)
      | exact racy_of (xs := [.stat]) (by decide) (by simpa using h)
      | exact racy_of (xs := [.frame]) (by decide) (by simpa using h)
      | exact racy_of (xs := [.changeEndPoints]) (by decide) (by simpa using h)
      | exact racy_of (xs := [.changeTransports]) (by decide) (by simpa using h)
      | exact racy_of (xs := [.setEventListener]) (by decide) (by simpa using h)
      | exact racy_of (xs := [.appendProcessor]) (by decide) (by simpa using h)
      | exact racy_of (xs := [.setSession]) (by decide) (by simpa using h)
      | exact racy_of (xs := [.setEndPointListener]) (by decide) (by simpa using h)
      | exact racy_of (xs := [.setDataListenerAgain]) (by decide) (by simpa using h)
      | exact racy_of (xs := [.reference, .changeTransports]) (by decide) (by simpa using h)
      | exact racy_of (xs := [.setStackName, .stat]) (by decide) (by simpa using h)
      | (obtain ⟨h1, (h2 | h2) | h2⟩ := h
         · exact racy_of (xs := [.setEnable, .codec]) (by decide) (by simp [h1, h2])
         · exact racy_of (xs := [.setEnable, .stat]) (by decide) (by simp [h1, h2])
         · exact racy_of (xs := [.setEnable, .frame]) (by decide) (by simp [h1, h2]))

/-- The part of C105 that holds: a program that is set up, run and then only sends and receives has no two goroutines at any field, except for
the UpperDeck's map, the flag `closed` of connections, the counters of StatCounter and the cache of FrameDecoder.  Missing: these, and programs that change their set-up
later, where it is wrong (`c105_violated`, `c105_iff`). -/
theorem c105_static_partial (F : Feature → Bool)
    (h : ∀ x, F x = true → x = .heartbeat ∨ x = .stat ∨ x = .frame ∨ x = .codec ∨ x = .reference) (l : Field)
    (hl : l ≠ .served ∧ l ≠ .closed ∧ l ≠ .txCounter ∧ l ≠ .rxCounter ∧ l ≠ .cache) :
    ∀ s, Reach (body F) (mainFun F) s → ¬ Race s l := by
  intro s hs hr
  have hc := (c105_iff F l).mp ⟨s, hs, hr⟩
  have no : ∀ x, (x = .heartbeat ∨ x = .stat ∨ x = .frame ∨ x = .codec ∨ x = .reference → False) → F x = false := by
    intro x hx
    cases hf : F x with
    | false => rfl
    | true => exact (hx (h x hf)).elim
  have h1 := no .changeEndPoints (by simp)
  have h2 := no .changeTransports (by simp)
  have h3 := no .setEventListener (by simp)
  have h4 := no .appendProcessor (by simp)
  have h5 := no .setEnable (by simp)
  have h6 := no .setStackName (by simp)
  have h7 := no .setSession (by simp)
  have h8 := no .setEndPointListener (by simp)
  have h9 := no .setDataListenerAgain (by simp)
  cases l <;> simp_all [conflicts]

/-- A program with a Heartbeat and a StatCounter that is set up and run: the times of the last heartbeats are accessed by the reading goroutines, by the
one that checks them and by those that send, each with the mutex. -/
example : ∀ s, Reach (body (just [.heartbeat, .stat])) (mainFun (just [.heartbeat, .stat])) s → ¬ Race s .monitors :=
  c105_static_partial _ (fun x h => by have := of_decide_eq_true h; simp at this; rcases this with rfl | rfl <;> simp) _ (by simp)

/-- In such a program goroutines do get to these accesses: the LowerDeck's goroutine is about to write the time of a new connection while the one that
checks waits for the mutex. -/
example : ∃ s, Reach (body (just [.heartbeat])) (mainFun (just [.heartbeat])) s ∧
    (decide (s.gs[5]?.bind List.head? = some (.wr .monitors)) && decide (s.gs[3]? = some [.lock .heartbeat, .rd .monitors, .unlock .heartbeat])) = true :=
  reaches (runAll beatRun .accept)
    (solo 0 (runAll beatRun .accept) [[], [], [.lock .heartbeat, r .monitors, .unlock .heartbeat], acceptTwo, hbNew] ++
      solo 4 (acceptTwo.take 3) [] ++ solo 5 (hbNew.take 14) []) _ (by decide +kernel)

/-- C105 is violated by every program: two endpoints suffice, or one connection on which an endpoint sends while it ends. -/
theorem c105_violated (F : Feature → Bool) : RacyField F .served ∧ RacyField F .closed :=
  ⟨(c105_iff F _).mpr rfl, (c105_iff F _).mpr rfl⟩

/-- The endpoints of a running stack may be changed, at the price of a race for the stack's list of endpoints; of the stack's other fields there is none. -/
example : RacyField (just [.changeEndPoints]) .endpoints ∧ ¬ RacyField (just [.changeEndPoints]) .transports ∧ ¬ RacyField (just [.stat]) .endpoints := by
  simp only [c105_iff, conflicts]
  decide

/-- The main goroutine of a program that runs its stack again, up to the LowerDeck's part of Run. -/
def mainTwice (F : Feature → Bool) : C := .seq (mainFun F) (runUpper F)

def again (procs : W) (n : Nat) : List (Nat × W) := solo 0 ((runBegin ++ [r .processors] ++ procs).take n) []

def rerun (procs : W) : W := runBegin ++ [r .processors] ++ procs ++ [r .decks, r .links, r .transports]

/-- The races of a second Run. -/
def rerunRaces : List (Field × List Feature × Witness Field Mutex Fun) := [
  (.mtu, [], running [] [] [] [] (readEnd true) (readEnd false) (rerun []) (solo 5 [r .links] [] ++ again [] 1) 0 5),
  (.decks, [], running [] [] [] [] (readEnd true) (readEnd false) (rerun [])
    (solo 5 [r .links, r .mtu, r .closed, w .closed, r .links, r .listeners, r .endpoints, r .eventListener] [] ++ again [] 2) 0 5),
  (.links, [], running [] [] [] [] (readEnd true) (readEnd false) (rerun []) (again [] 3) 0 5),
  (.overhead, [.codec], { main := runAll [] .accept ++ [r .options, w .mtu, w .decks, w .links, r .processors, w .links, r .processors, w .links, r .overhead, w .overhead,
                            r .decks, r .links, r .endpoints, r .processors, r .decks, r .links, r .transports], i := 0, j := 1,
                          moves := solo 0 (runAll [] .accept ++ [r .options, w .mtu, w .decks, w .links, r .processors, w .links, r .processors, w .links, r .overhead])
                              [[r .served, r .enable, r .links, r .mtu, r .overhead, r .links], [], acceptTwo, [r .next]] ++ solo 1 [r .served, r .enable, r .links, r .mtu] [] }),
  (.statConf, [.stat], { main := runAll statRun .accept ++ rerun statRun, i := 0, j := 4,
                         moves := solo 0 (runAll statRun .accept) [[], [], acceptTwo, announceTwo statNew] ++ solo 3 (acceptTwo.take 5) [] ++
                           solo 4 ((announceTwo statNew).take 12) [] ++ again statRun 11 }),
  (.cache, [.frame], running frameRun [] [] [] (readOne true [r .enable, r .cache, w .cache]) (readEnd false) (rerun frameRun)
    (solo 5 [r .links, r .mtu, r .closed, r .links, r .enable] [] ++ again frameRun 12) 0 5),
  (.heartbeatConf, [.heartbeat], { main := runAll beatRun .accept ++ rerun beatRun, i := 0, j := 3,
                                   moves := solo 0 (runAll beatRun .accept)
                                       [[], [], [.lock .heartbeat, r .monitors, r .heartbeatConf, .unlock .heartbeat], acceptTwo, [r .next]] ++
                                     again beatRun 11 ++ solo 3 [.lock .heartbeat, r .monitors] [] })]

theorem rerunRaces_hold : (rerunRaces.all fun x => x.2.2.shows (body (just x.2.1)) (mainTwice (just x.2.1)) x.1) = true := by decide +kernel

theorem rerun_of {l : Field} {xs : List Feature} (hm : (l, xs) ∈ rerunRaces.map fun x => (x.1, x.2.1)) (hx : ∀ x ∈ xs, F x = true) :
    Racy (body F) (mainTwice F) l := by
  obtain ⟨⟨l', xs', v⟩, hv, he⟩ := List.mem_map.mp hm
  injection he with h1 h2
  simp only at h1 h2
  subst h1 h2
  have := List.all_eq_true.mp rerunRaces_hold _ hv
  have hf : Fewer (just xs') F := fun x h => hx x (of_decide_eq_true h)
  exact (Witness.racy this).mono (body_sub hf) (.seq (main_sub hf) (runUpper_sub hf))

/-- C105: with a second Run the stack's own fields and those of its processors conflict too, in every program: the goroutines of the first
Run go on. -/
theorem c105_rerun (F : Feature → Bool) :
    (∀ l ∈ [Field.mtu, .decks, .links], Racy (body F) (mainTwice F) l ∧ ¬ RacyField F l) ∧
    (F .codec = true → Racy (body F) (mainTwice F) .overhead ∧ ¬ RacyField F .overhead) ∧
    (F .heartbeat = true → Racy (body F) (mainTwice F) .heartbeatConf ∧ ¬ RacyField F .heartbeatConf) ∧
    (F .stat = true → Racy (body F) (mainTwice F) .statConf ∧ ¬ RacyField F .statConf) ∧
    (F .frame = true → Racy (body F) (mainTwice F) .cache) := by
  have no : ∀ l, conflicts F l = false → ¬ RacyField F l := by
    intro l h hr
    rw [(c105_iff F l).mp hr] at h
    cases h
  refine ⟨?_, ?_, ?_, ?_, ?_⟩
  · intro l hl
    simp only [List.mem_cons, List.not_mem_nil, or_false] at hl
    rcases hl with rfl | rfl | rfl <;> exact ⟨rerun_of (xs := []) (by decide) (by simp), no _ rfl⟩
  · intro h
    exact ⟨rerun_of (xs := [.codec]) (by decide) (by simpa using h), no _ rfl⟩
  · intro h
    exact ⟨rerun_of (xs := [.heartbeat]) (by decide) (by simpa using h), no _ rfl⟩
  · intro h
    exact ⟨rerun_of (xs := [.stat]) (by decide) (by simpa using h), no _ rfl⟩
  · intro h
    exact rerun_of (xs := [.frame]) (by decide) (by simpa using h)

end Verif.Access
