import Verif.Access.Deadlock

/-!
# Programs that call the library from several goroutines (C105)

As in `Exact.lean`, but after Run the program calls the library (everything in `later`) from any number of goroutines and, at any time, from its event listeners,
which are called by the goroutines of the library, and which may be called again by what they call, to any depth.

A data listener that calls the library does what a goroutine of the program does; it is not followed.  Listeners do nothing in set-up, which is the business of
one goroutine.
-/

namespace Verif.Access

variable {F G : Feature → Bool} {n : Nat}

/-- What the goroutines do. -/
def bodyC (F : Feature → Bool) (n : Nat) : Option Fun → Cmd Field Mutex (Option Fun)
  | some .autoReceive => (body F .autoReceive).subst (calling some .skip)
  | some k => (body F k).subst (calling some (user F false n))
  | none => user F false n

/-- Set-up and Run. -/
def begin (F : Feature → Bool) : C := all [setUp, opt setDataListener, setUp, run F]

def mainC (F : Feature → Bool) (n : Nat) : Cmd Field Mutex (Option Fun) := .seq ((begin F).subst (calling some .skip)) (user F false n)

/-- The fields for which two goroutines may be about to access them, one of them writing. -/
def conflictsC (F : Feature → Bool) : Field → Bool
  | .transports => F .changeTransports
  | .enable => F .setEnable
  | .stackName => F .setStackName
  | .heartbeatConf => F .heartbeat && F .changeTransports
  | .statConf => F .stat && F .changeTransports
  | l => conflicts F l

/-! ## No races -/

/-- The pieces that calls of the library are made of. -/
def pieces (F : Feature → Bool) : List C :=
  [rd .mtu, rd .overhead, rd .endpoints, rd .transports, rd .listeners, rd .eventListener, rd .decks, rd .processors,
    feature F .changeEndPoints acceptEndpoint, feature F .changeEndPoints deleteEndpoint, feature F .changeEndPoints (wr .endpoints),
    feature F .changeTransports runTransport, feature F .changeTransports (go (.next true)), feature F .changeTransports (go (.next false)),
    feature F .changeTransports stopTransport, feature F .changeTransports (wr .transports),
    feature F .changeTransports (feature F .reference runReference), feature F .changeTransports (feature F .reference (go .refNext)),
    feature F .changeTransports (feature F .reference stopReference),
    feature F .setEnable (wr .enable),
    feature F .setStackName (wr .stackName),
    feature F .setEventListener (wr .listeners),
    feature F .appendProcessor (wr .processors),
    feature F .setSession (wr .session),
    feature F .setEndPointListener (wr .eventListener),
    feature F .setDataListenerAgain (wr .dataListener), feature F .setDataListenerAgain (rd .inAutoReceive), feature F .setDataListenerAgain (go .autoReceive)]

def piece (F : Feature → Bool) : C := one (pieces F)

/-- Any of them in any order. -/
def soup (F : Feature → Bool) : Cmd Field Mutex (Option Fun) := .star (.alt (.act (.go none)) ((piece F).subst (calling some .skip)))

theorem word_star_append {L M K : Type} {a : Cmd L M K} {u v : List (Act L M K)} (hu : Word (.star a) u) (hv : Word (.star a) v) : Word (.star a) (u ++ v) := by
  generalize hc : Cmd.star a = c at hu
  induction hu with
  | done => cases hc; exact hv
  | round h1 _ _ ih2 => cases hc; rw [List.append_assoc]; exact .round h1 (ih2 rfl)
  | skip => cases hc
  | act => cases hc
  | seq => cases hc
  | left => cases hc
  | right => cases hc

/-- With listeners that do `u`, this is nothing but pieces. -/
def Into (F : Feature → Bool) (u : Cmd Field Mutex (Option Fun)) (c : C) : Prop := Sub (c.subst (calling some u)) (soup F)

section
variable {u : Cmd Field Mutex (Option Fun)}

theorem Into.skip : Into F u .skip := by intro w hw; cases hw; exact .done

theorem Into.seq {a b : C} (ha : Into F u a) (hb : Into F u b) : Into F u (.seq a b) := by
  intro w hw
  cases hw with
  | seq h1 h2 => exact word_star_append (ha _ h1) (hb _ h2)

theorem Into.alt {a b : C} (ha : Into F u a) (hb : Into F u b) : Into F u (.alt a b) := by
  intro w hw
  cases hw with
  | left h => exact ha _ h
  | right h => exact hb _ h

theorem Into.star {a : C} (ha : Into F u a) : Into F u (.star a) := by
  intro w hw
  generalize hc : (Cmd.star a).subst (calling some u) = c at hw
  induction hw with
  | done => exact .done
  | round h1 _ _ ih2 => cases hc; exact word_star_append (ha _ h1) (ih2 rfl)
  | skip => cases hc
  | act => cases hc
  | seq => cases hc
  | left => cases hc
  | right => cases hc

theorem Into.all_cons {c : C} {cs : List C} (h : Into F u c) (h' : Into F u (all cs)) : Into F u (all (c :: cs)) := h.seq h'

theorem Into.one_cons {c : C} {cs : List C} (h : Into F u c) (h' : Into F u (one cs)) : Into F u (one (c :: cs)) := h.alt h'

theorem Into.opt {c : C} (h : Into F u c) : Into F u (opt c) := h.alt .skip

theorem Into.feature {x : Feature} {c : C} (h : F x = true → Into F u c) : Into F u (feature F x c) := by
  unfold Access.feature
  split
  · rename_i hx; exact (h hx).opt
  · exact .skip

theorem Into.piece {c : C} (hu : c.subst (calling some u) = c.subst (calling some .skip)) (h : Sub c (piece F)) : Into F u c := by
  unfold Into
  rw [hu]
  intro w hw
  have := Word.round (Word.right (a := .act (.go none)) (Sub.subst (fun a => .refl _) h w hw)) Word.done
  rwa [List.append_nil] at this

/-- Where a listener may be called. -/
theorem Into.read {l : Field} (hu : Sub u (soup F)) (h : Sub (rd l) (Access.piece F)) : Into F u (rd l) := by
  have one : Word (soup F) [.rd l] := by
    have h1 : Word ((rd l).subst (calling (K' := Option Fun) some .skip)) [.rd l] := by
      simp only [rd, Cmd.subst, calling]
      split
      · exact .seq (.act _) .skip
      · exact .act _
    exact .round (.right (a := .act (.go none)) (Sub.subst (fun a => .refl _) h _ h1)) .done
  intro w hw
  simp only [rd, Cmd.subst, calling] at hw
  split at hw
  · cases hw with
    | seq h1 h2 => cases h1; exact word_star_append one (hu _ h2)
  · cases hw
    exact one
end

theorem sub_one {c : C} {cs : List C} (h : c ∈ cs) : Sub c (one cs) := by
  induction cs with
  | nil => cases h
  | cons d cs ih =>
    cases h with
    | head => exact fun w hw => .left hw
    | tail _ h => exact fun w hw => .right (ih h w hw)

theorem sub_feature {x : Feature} {c d : C} (hx : F x = true) (h : Sub c d) : Sub c (feature F x d) := by
  intro w hw
  simp only [feature, hx, if_true, opt]
  exact .left (h w hw)

theorem Sub.trans {L M K : Type} {a b c : Cmd L M K} (h : Sub a b) (h' : Sub b c) : Sub a c := fun w hw => h' w (h w hw)

theorem mem_nth {L : Type} (cs : List L) (i : Nat) {c : L} (h : cs[i]? = some c) : c ∈ cs := List.mem_of_getElem? h

theorem later_into {u : Cmd Field Mutex (Option Fun)} (hu : Sub u (soup F)) : Into F u (later F) := by
  have rdm : ∀ l, (l = .mtu ∨ l = .overhead ∨ l = .endpoints ∨ l = .transports ∨ l = .listeners ∨ l = .eventListener ∨ l = .decks ∨ l = .processors) → Into F u (rd l) := by
    intro l hl
    refine .read hu (sub_one ?_)
    rcases hl with rfl | rfl | rfl | rfl | rfl | rfl | rfl | rfl <;> simp [pieces]
  have pub : ∀ {a b c : C}, Into F u a → Into F u b → Into F u c → Into F u (publish a b c) := by
    intro a b c ha hb hc
    unfold publish
    repeat' first
      | exact ha | exact hb | exact hc | exact rdm _ (by simp) | exact Into.skip | apply Into.all_cons | apply Into.star
  have ft : ∀ {x : Feature} {c : C}, F x = true → c.subst (calling some u) = c.subst (calling some .skip) → feature F x c ∈ pieces F →
      Into F u c := fun hx he hm => .piece he ((sub_feature hx (.refl _)).trans (sub_one hm))
  have rf : ∀ {c : C}, F .changeTransports = true → F .reference = true → c.subst (calling some u) = c.subst (calling some .skip) →
      (c = runReference ∨ c = go .refNext ∨ c = stopReference) → Into F u c := by
    intro c h1 h2 he hc
    refine .piece he ((sub_feature h1 (sub_feature h2 (.refl _))).trans (sub_one (c := feature F .changeTransports (feature F .reference c)) ?_))
    rcases hc with rfl | rfl | rfl <;> simp [pieces]
  have acc : F .changeTransports = true → ∀ t, Into F u (acceptTransport t) := by
    intro hx t
    unfold acceptTransport
    cases t
    · exact .all_cons .skip (.all_cons (ft hx rfl (by simp [pieces])) .skip)
    · exact .all_cons (ft (c := runTransport) hx rfl (by simp [pieces])) (.all_cons (ft hx rfl (by simp [pieces])) .skip)
  unfold later
  refine .star ?_
  repeat' apply Into.one_cons
  · exact rdm _ (by simp)
  · exact rdm _ (by simp)
  · exact rdm _ (by simp)
  · exact rdm _ (by simp)
  · exact .feature fun hx => .all_cons (rdm _ (by simp)) (.all_cons (.opt (.all_cons (pub (ft hx rfl (by simp [pieces])) .skip .skip)
      (.all_cons (rdm _ (by simp)) (.all_cons (ft hx rfl (by simp [pieces])) .skip)))) .skip)
  · exact .feature fun hx => .all_cons (rdm _ (by simp)) (.all_cons (.opt (.all_cons (pub (ft hx rfl (by simp [pieces])) .skip .skip)
      (.all_cons (rdm _ (by simp)) (.all_cons (ft hx rfl (by simp [pieces])) .skip)))) .skip)
  · exact .feature fun hx => .all_cons (rdm _ (by simp)) (.all_cons (pub .skip .skip (acc hx _)) (.all_cons (rdm _ (by simp)) (.all_cons (ft hx rfl (by simp [pieces])) .skip)))
  · exact .feature fun hx => .all_cons (rdm _ (by simp)) (.all_cons (pub .skip .skip (acc hx _)) (.all_cons (rdm _ (by simp)) (.all_cons (ft hx rfl (by simp [pieces])) .skip)))
  · exact .feature fun hx => .all_cons (rdm _ (by simp)) (.all_cons (ft hx rfl (by simp [pieces])) (.all_cons (pub .skip .skip (.opt (ft hx rfl (by simp [pieces])))) .skip))
  · exact .feature fun hx => .feature fun hy => .all_cons (rdm _ (by simp)) (.all_cons (pub .skip .skip
      (.all_cons (rf hx hy rfl (by simp)) (.all_cons (rf hx hy rfl (by simp)) .skip))) (.all_cons (rdm _ (by simp)) (.all_cons (ft hx rfl (by simp [pieces])) .skip)))
  · exact .feature fun hx => .feature fun hy => .all_cons (rdm _ (by simp)) (.all_cons (ft hx rfl (by simp [pieces])) (.all_cons (pub .skip .skip (rf hx hy rfl (by simp))) .skip))
  · exact .feature fun hx => ft hx rfl (by simp [pieces])
  · exact .feature fun hx => ft hx rfl (by simp [pieces])
  · exact .feature fun hx => .all_cons (rdm _ (by simp)) (.all_cons (ft hx rfl (by simp [pieces])) .skip)
  · exact .feature fun hx => .all_cons (rdm _ (by simp)) (.all_cons (ft hx rfl (by simp [pieces])) .skip)
  · exact .feature fun hx => ft hx rfl (by simp [pieces])
  · exact .feature fun hx => ft hx rfl (by simp [pieces])
  · exact .feature fun hx => .all_cons (ft hx rfl (by simp [pieces])) (.all_cons (ft hx rfl (by simp [pieces])) (.all_cons (.opt (ft hx rfl (by simp [pieces]))) .skip))
  · exact .skip

theorem user_soup (F : Feature → Bool) (n : Nat) : Sub (user F false n) (soup F) := by
  induction n with
  | zero => intro w hw; cases hw; exact .done
  | succ n ih =>
    have hl : Into F (user F false n) (.alt (later F) .skip) := (later_into ih).alt .skip
    intro w hw
    generalize hc : user F false (n + 1) = c at hw
    induction hw with
    | done => exact .done
    | round h1 _ _ ih2 =>
      cases hc
      refine word_star_append ?_ (ih2 rfl)
      cases h1 with
      | left h =>
        cases h
        exact .round (.left (.act _)) .done
      | right h => exact hl _ h
    | skip => cases hc
    | act => cases hc
    | seq => cases hc
    | left => cases hc
    | right => cases hc

/-- The program with listeners and goroutines that do any pieces in any order. -/
def bodyS (F : Feature → Bool) : Option Fun → Cmd Field Mutex (Option Fun)
  | some .autoReceive => (body F .autoReceive).subst (calling some .skip)
  | some k => (body F k).subst (calling some (soup F))
  | none => soup F

def mainS (F : Feature → Bool) : Cmd Field Mutex (Option Fun) := .seq ((begin F).subst (calling some .skip)) (soup F)

theorem piece_sub (h : Fewer F G) : Sub (piece F) (piece G) := by
  unfold piece pieces
  sub_auto h

theorem soup_sub (h : Fewer F G) : Sub (soup F) (soup G) := .star (.alt (.refl _) (.subst (fun _ => .refl _) (piece_sub h)))

theorem begin_sub (h : Fewer F G) : Sub (begin F) (begin G) := by
  unfold begin run
  repeat' first
    | exact Sub.refl _ | exact runUpper_sub h | apply Sub.alt | apply Sub.all_cons | apply Sub.star | apply Sub.feature h

theorem bodyC_sub (h : Fewer F G) (k : Option Fun) : Sub (bodyC F n k) (bodyS G k) := by
  have hu : Sub (user F false n) (soup G) := (user_soup F n).trans (soup_sub h)
  cases k with
  | none => exact hu
  | some k =>
    have := Sub.subst (calling_sub (start := some) hu) (body_sub h k)
    cases k with
    | autoReceive => exact .subst (fun _ => .refl _) (body_sub h _)
    | _ => exact this

theorem mainC_sub (h : Fewer F G) : Sub (mainC F n) (mainS G) :=
  .seq (.subst (fun _ => .refl _) (begin_sub h)) ((user_soup F n).trans (soup_sub h))

def funsC : List (Option Fun) := none :: funs.map some

theorem mem_funsC (k : Option Fun) : k ∈ funsC := by
  cases k with
  | none => exact .head _
  | some k => exact .tail _ (List.mem_map.mpr ⟨k, mem_funs k, rfl⟩)

/-- The analysis `sem`, with one look at the body of a loop if that is enough. -/
def quick {L M K : Type} [DecidableEq L] [DecidableEq M] (p : Policy M) (l : L) (touch : K → Bool) : Cmd L M K → Q → Option Q
  | .skip, q => some q
  | .act a, q => delta p l touch q a
  | .seq a b, q => (quick p l touch a q).bind (quick p l touch b)
  | .alt a b, q => match quick p l touch a q, quick p l touch b q with
    | some x, some y => some (x.join y)
    | _, _ => none
  | .star a, q => match quick p l touch a q with
    | none => none
    | some x => if x.le q then some q else
      match (quick p l touch a (q.join x)).map (q.join x).join with
      | some r => match quick p l touch a r with
        | some y => if y.le r && q.le r then some r else none
        | none => none
      | none => none

theorem quick_eq {L M K : Type} [DecidableEq L] [DecidableEq M] (p : Policy M) (l : L) (touch : K → Bool) (c : Cmd L M K) : ∀ q, quick p l touch c q = sem p l touch c q := by
  induction c with
  | skip => intro q; rfl
  | act a => intro q; rfl
  | seq a b ia ib =>
    intro q
    simp only [quick, sem, ia]
    congr 1
    exact funext ib
  | alt a b ia ib =>
    intro q
    simp only [quick, sem, ia, ib]
    cases sem p l touch a q <;> cases sem p l touch b q <;> rfl
  | star a ia =>
    intro q
    simp only [quick, sem, ia]
    cases h : sem p l touch a q with
    | none => simp
    | some x =>
      simp only [Option.map_some, Option.bind_some]
      split
      · rename_i hle
        rw [Q.join_of_le hle, h]
        simp only [Option.map_some, Q.join_of_le hle, h, hle, Q.le_refl, Bool.and_self, if_true]
      · rfl

def safeQ (p : Policy Mutex) (l : Field) (touch : Option Fun → Bool) (body : Option Fun → Cmd Field Mutex (Option Fun)) (main : Cmd Field Mutex (Option Fun)) : Bool :=
  (quick p l touch main ⟨false, false⟩).isSome && funsC.all fun k =>
    if touch k then
      match p with
      | .owned => (body k).all (alone touch)
      | _ => (quick p l touch (body k) ⟨true, false⟩).isSome
    else (body k).all (clear l touch)

theorem safeQ_safe {p : Policy Mutex} {l : Field} {touch : Option Fun → Bool} {body : Option Fun → Cmd Field Mutex (Option Fun)} {main : Cmd Field Mutex (Option Fun)}
    (h : safeQ p l touch body main = true) : safe p l touch funsC body main = true := by
  simp only [safeQ, quick_eq] at h
  simp only [safe, safeGo]
  cases p <;> exact h

/-- All functions but the endpoints' own. -/
def nearly : Option Fun → Bool
  | some .autoReceive => false
  | _ => true

def none' : Option Fun → Bool := fun _ => false

def isCheck : Option Fun → Bool
  | some .check => true
  | _ => false

def isAuto : Option Fun → Bool
  | some .autoReceive => true
  | _ => false

def isRef : Option Fun → Bool
  | some .refNext => true
  | _ => false

def isConnect : Option Fun → Bool
  | some .connect => true
  | _ => false

def isDial : Option Fun → Bool
  | some .accept => true
  | some .connect => true
  | _ => false

/-- The goroutines by which new connections come. -/
def isNext : Option Fun → Bool
  | some .accept => true
  | some .connect => true
  | some (.next _) => true
  | some .refNext => true
  | _ => false

def isNextCheck : Option Fun → Bool
  | some .check => true
  | k => isNext k

def isNexT : Option Fun → Bool
  | some (.next true) => true
  | k => isDial k

/-- Why the fields are safe, in programs without these features, and which functions may access them. -/
def reasonsC : List (Field × List Feature × Policy Mutex × (Option Fun → Bool)) := [
  (.mtu, [], .frozen, nearly), (.overhead, [], .frozen, nearly), (.options, [], .frozen, none'), (.decks, [], .frozen, nearly), (.links, [], .frozen, nearly),
  (.transports, [.changeTransports], .frozen, nearly),
  (.heartbeatConf, [.heartbeat], .frozen, isCheck), (.statConf, [.stat], .frozen, none'),
  (.heartbeatConf, [.changeTransports], .frozen, isNextCheck), (.statConf, [.changeTransports], .frozen, isNext),
  (.monitors, [], .guarded .heartbeat, nearly), (.isRunning, [], .guarded .transport, nearly), (.connections, [], .guarded .transport, nearly),
  (.txCounter, [.stat], .frozen, none'), (.rxCounter, [.stat], .frozen, none'), (.cache, [.frame], .frozen, none'),
  (.endpoints, [.changeEndPoints], .frozen, nearly),
  (.next, [.changeTransports], .frozen, isNexT),
  (.retry, [.changeTransports], .frozen, isConnect), (.listener, [.changeTransports], .owned, isDial),
  (.refRunning, [], .frozen, nearly), (.refSize, [], .guarded .reference, nearly), (.channels, [], .guarded .channels, nearly),
  (.refConnection, [.changeTransports], .owned, isRef), (.refConnection, [.reference], .owned, isRef),
  (.listeners, [.setEventListener], .frozen, nearly), (.processors, [.appendProcessor], .frozen, nearly),
  (.enable, [.setEnable], .frozen, nearly), (.stackName, [.setStackName], .frozen, nearly),
  (.session, [.setSession], .frozen, nearly), (.eventListener, [.setEndPointListener], .frozen, nearly),
  (.dataListener, [.setDataListenerAgain], .frozen, isAuto), (.inAutoReceive, [.setDataListenerAgain], .owned, isAuto)]

def reasonC (r : Field × List Feature × Policy Mutex × (Option Fun → Bool)) : Bool :=
  safeQ r.2.2.1 r.1 r.2.2.2 (bodyS (without r.2.1)) (mainS (without r.2.1))

theorem reasonsC_hold : (reasonsC.all reasonC) = true := by decide +kernel

theorem safe_of_reasonC {r : Field × List Feature × Policy Mutex × (Option Fun → Bool)} (hm : r ∈ reasonsC) (hx : ∀ x ∈ r.2.1, F x = false) :
    ¬ Racy (bodyC F n) (mainC F n) r.1 := by
  intro hr
  have h := List.all_eq_true.mp reasonsC_hold _ hm
  have hf : Fewer F (without r.2.1) := by
    intro x h
    simp only [without, decide_eq_true_eq]
    intro hm
    rw [hx x hm] at h
    cases h
  exact safe_sound mem_funsC (safeQ_safe h) (hr.mono (bodyC_sub hf) (mainC_sub hf))

/-! ## Races -/

theorem user_more {F : Feature → Bool} {p : Bool} {n m : Nat} (h : n ≤ m) : Sub (user F p n) (user F p m) := by
  induction n generalizing m with
  | zero =>
    intro w hw
    cases hw
    cases m with
    | zero => exact .skip
    | succ m => exact .done
  | succ n ih =>
    cases m with
    | zero => omega
    | succ m => exact .star (.alt (.refl _) (.subst (calling_sub (ih (by omega))) (.refl _)))

theorem racyC_more {F : Feature → Bool} {l : Field} (hf : Fewer F G) (hn : 1 ≤ n) (h : Racy (bodyC F 1) (mainC F 1) l) : Racy (bodyC G n) (mainC G n) l := by
  have hu : Sub (user F false 1) (user G false n) := (user_sub hf false 1).trans (user_more hn)
  refine h.mono (fun k => ?_) (.seq (.subst (fun _ => .refl _) (begin_sub hf)) hu)
  cases k with
  | none => exact hu
  | some k =>
    have := Sub.subst (calling_sub (start := some) hu) (body_sub hf k)
    cases k with
    | autoReceive => exact .subst (fun _ => .refl _) (body_sub hf _)
    | _ => exact this

/-- The same in a program with goroutines of its own. -/
def Witness.lift (x : Witness Field Mutex Fun) : Witness Field Mutex (Option Fun) where
  main := Access.lift x.main
  moves := x.moves.map fun m => (m.1, Access.lift m.2)
  i := x.i
  j := x.j

/-- The stack is running, and the program starts two goroutines that do this; they are the goroutines 5 and 6. -/
def pair (a b : W) (moves : List (Nat × W)) : Witness Field Mutex (Option Fun) where
  main := lift (runAll [] .accept) ++ [.go none, .go none]
  moves := soloU 0 (lift (runAll [] .accept) ++ [.go none, .go none]) [[], [], lift acceptTwo, [.rd .next], lift a, lift b] ++ moves.map fun m => (m.1, lift m.2)
  i := 5
  j := 6

/-- A message was sent, before Run, on a connection of another stack that is closed: a listener of that event adds the transport. -/
def sendAdds : W := [r .served, r .links, r .listeners] ++ addT .accept ++ [r .endpoints, r .decks, r .processors, r .decks]

/-- Run up to the processors. -/
def runHalf (procs : W) : W := runBegin ++ serve ++ [r .processors] ++ procs

/-- A processor is run while the first connection of that transport is announced to it. -/
def early (procs begun new : W) : Witness Field Mutex (Option Fun) where
  main := lift (runHalf procs ++ [r .decks, r .links, r .transports])
  moves := soloU 0 (lift (runHalf begun)) [lift sendAdds] ++ soloU 1 (lift (sendAdds.take 20)) [lift acceptTwo, lift new] ++ soloU 3 (lift (new.take 12)) []
  i := 0
  j := 3

/-- The races, with the features they need. -/
def racesC : List (Field × List Feature × Witness Field Mutex (Option Fun)) :=
  races.map (fun x => (x.1, x.2.1, x.2.2.lift)) ++ [
  -- two goroutines add a transport
  (.transports, [.changeTransports], pair (deleteT []) (deleteT []) [(5, [r .transports])]),
  (.enable, [.setEnable], pair [w .enable] [w .enable] []),
  (.stackName, [.setStackName], pair [w .stackName] [w .stackName] []),
  (.heartbeatConf, [.heartbeat, .changeTransports], early beatRun [r .heartbeatConf] hbNew),
  (.statConf, [.stat, .changeTransports], early statRun [r .statConf] (announceTwo statNew))]

theorem racesC_hold : (racesC.all fun x => x.2.2.shows (bodyC (just x.2.1) 1) (mainC (just x.2.1) 1) x.1) = true := by decide +kernel

theorem racyC_of {l : Field} {xs : List Feature} (hn : 1 ≤ n) (hm : (racesC.any fun x => decide (x.1 = l) && decide (x.2.1 = xs)) = true) (hx : ∀ x ∈ xs, F x = true) :
    Racy (bodyC F n) (mainC F n) l := by
  obtain ⟨x, hv, he⟩ := List.any_eq_true.mp hm
  rw [Bool.and_eq_true, decide_eq_true_eq, decide_eq_true_eq] at he
  have h := Witness.racy (List.all_eq_true.mp racesC_hold x hv)
  rw [he.1, he.2] at h
  exact racyC_more (fun x h => hx x (of_decide_eq_true h)) hn h

/-! ## C105 -/

/-- C105 for programs that call the library from any number of goroutines and from their event listeners, to any depth of nesting `n`: two goroutines may come
to access a field at the same time, one of them writing, exactly for the fields listed in `conflictsC`. -/
theorem c105_concurrent (F : Feature → Bool) (n : Nat) (hn : 1 ≤ n) (l : Field) : Racy (bodyC F n) (mainC F n) l ↔ conflictsC F l = true := by
  constructor
  · intro hr
    have no : ∀ xs, (reasonsC.any fun x => decide (x.1 = l) && decide (x.2.1 = xs)) = true → (∀ x ∈ xs, F x = false) → False := by
      intro xs hm hx
      obtain ⟨⟨l', xs', p⟩, hv, he⟩ := List.any_eq_true.mp hm
      simp only [Bool.and_eq_true, decide_eq_true_eq] at he
      obtain ⟨h1, h2⟩ := he
      subst h1 h2
      exact safe_of_reasonC hv hx hr
    have one : ∀ x, (reasonsC.any fun y => decide (y.1 = l) && decide (y.2.1 = [x])) = true → F x = true := by
      intro x hm
      cases hf : F x with
      | true => rfl
      | false => exact (no [x] hm (by simpa using hf)).elim
    cases l <;> simp only [conflictsC, conflicts] <;> first
      | exact (no [] (by decide) (by simp)).elim
      | exact one _ (by decide)
      | (rw [Bool.and_eq_true]; exact ⟨one _ (by decide), one _ (by decide)⟩)
  · intro h
    cases l <;> simp only [conflictsC, conflicts, Bool.and_eq_true] at h
    all_goals first
      | (cases h; done)
      | exact racyC_of hn (xs := []) (by decide) (by simp)
      | exact racyC_of hn (xs := [.stat]) (by decide) (by simpa using h)
      | exact racyC_of hn (xs := [.frame]) (by decide) (by simpa using h)
      | exact racyC_of hn (xs := [.changeEndPoints]) (by decide) (by simpa using h)
      | exact racyC_of hn (xs := [.changeTransports]) (by decide) (by simpa using h)
      | exact racyC_of hn (xs := [.setEventListener]) (by decide) (by simpa using h)
      | exact racyC_of hn (xs := [.appendProcessor]) (by decide) (by simpa using h)
      | exact racyC_of hn (xs := [.setSession]) (by decide) (by simpa using h)
      | exact racyC_of hn (xs := [.setEndPointListener]) (by decide) (by simpa using h)
      | exact racyC_of hn (xs := [.setDataListenerAgain]) (by decide) (by simpa using h)
      | exact racyC_of hn (xs := [.setEnable]) (by decide) (by simpa using h)
      | exact racyC_of hn (xs := [.setStackName]) (by decide) (by simpa using h)
      | exact racyC_of hn (xs := [.reference, .changeTransports]) (by decide) (by simpa using h)
      | exact racyC_of hn (xs := [.heartbeat, .changeTransports]) (by decide) (by simpa using h)
      | exact racyC_of hn (xs := [.stat, .changeTransports]) (by decide) (by simpa using h)

/-- The endpoints may be changed by any number of goroutines: the list of endpoints conflicts, the list of transports does not. -/
example : Racy (bodyC (just [.changeEndPoints]) 3) (mainC (just [.changeEndPoints]) 3) .endpoints ∧
    ¬ Racy (bodyC (just [.changeEndPoints]) 3) (mainC (just [.changeEndPoints]) 3) .transports := by
  simp only [c105_concurrent _ 3 (by decide), conflictsC, conflicts]
  decide

/-- What calling from several goroutines adds: with a StatCounter, a transport added by a listener makes even the interval conflict. -/
example : ¬ RacyField (just [.stat, .changeTransports]) .statConf ∧
    Racy (bodyC (just [.stat, .changeTransports]) 1) (mainC (just [.stat, .changeTransports]) 1) .statConf := by
  simp only [c105_concurrent _ 1 (by decide), c105_iff, conflictsC, conflicts]
  decide

end Verif.Access
