import Verif.Reg.Model

/-!
# Registries and events (C37-C40, C44-C46, C59)
-/

namespace Verif.Reg
open Stack (Val optionParseInt)

/-! ## What publishing changes -/

/-- Observations of users: events delivered to listeners and endpoints. -/
def Obs.isUser : Obs → Bool
  | .notify (.listener _) _ => true
  | .notify (.endpoint _) _ => true
  | _ => false

/-- An UpperDeck's map after an event. -/
def deckAfter (session : EpId → Int) (served : List EpId) (ev : Event) : List EpId :=
  match ev.data with
  | .ep e =>
    if ev.type = .endpointAdded then
      if served.any fun x => x == e || session x == session e then served else served ++ [e]
    else if ev.type = .endpointDeleted then served.erase e
    else served
  | _ => served

def servedAfter (u : U) (ev : Event) : DeckId → List EpId := fun x =>
  if u.decks = some x then deckAfter u.session (u.served x) ev else u.served x

/-- The deliveries to users: all listeners in the order of registration, then all endpoints in the order of
registration. -/
def deliveries (listeners : Nat) (eps : List EpId) (ev : Event) : List Obs :=
  (List.range listeners).map (fun i => .notify (.listener i) ev) ++ eps.map (fun e => .notify (.endpoint e) ev)

theorem upperOnEvent_eq (u : U) (d : DeckId) (ev : Event) :
    ∃ l, u.upperOnEvent d ev =
        { u with served := fun x => if x = d then deckAfter u.session (u.served d) ev else u.served x, log := u.log ++ l } ∧
      l.filter Obs.isUser = [] := by
  have same : ∀ s : List EpId, s = u.served d → (fun x => if x = d then s else u.served x) = u.served := by
    intro s hs; funext x; split
    · rename_i h; rw [h, hs]
    · rfl
  simp only [U.upperOnEvent, deckAfter]
  cases ev.data with
  | ep e =>
    simp only
    split
    · by_cases hx : ((u.served d).any fun x => x == e || u.session x == u.session e) = true
      · exact ⟨[], by rw [U.acceptEndpoint, U.existsEndpoint, if_pos hx, if_pos hx, same _ rfl]; simp, rfl⟩
      · exact ⟨[.serve d e (u.session e)], by rw [U.acceptEndpoint, U.existsEndpoint, if_neg hx, if_neg hx]; rfl, rfl⟩
    · split
      · simp only [U.deleteEndpoint]
        split
        · exact ⟨[.unserve d e], rfl, rfl⟩
        · rename_i hn
          exact ⟨[], by rw [same _ (List.erase_of_not_mem hn)]; simp, rfl⟩
      · exact ⟨[], by rw [same _ rfl]; simp, rfl⟩
  | tp t => exact ⟨[], by rw [same _ rfl]; simp, rfl⟩
  | conn c => exact ⟨[], by rw [same _ rfl]; simp, rfl⟩

theorem lowerOnEvent_eq (u : U) (d : DeckId) (ev : Event) :
    ∃ l, u.lowerOnEvent d ev = { u with log := u.log ++ l } ∧ l.filter Obs.isUser = [] := by
  simp only [U.lowerOnEvent]
  cases ev.data with
  | tp t =>
    simp only
    split
    · exact ⟨[.accept d t], rfl, rfl⟩
    · split
      · exact ⟨[.stop t], rfl, rfl⟩
      · exact ⟨[], by simp, rfl⟩
  | ep e => exact ⟨[], by simp, rfl⟩
  | conn c => exact ⟨[], by simp, rfl⟩

theorem filter_procs (ps : List ProcId) (ev : Event) :
    (ps.map fun p => Obs.notify (.elem (.proc p)) ev).filter Obs.isUser = [] := by
  induction ps with
  | nil => rfl
  | cons p ps ih => simp [Obs.isUser, ih]

theorem filter_deliveries (n : Nat) (eps : List EpId) (ev : Event) :
    (deliveries n eps ev).filter Obs.isUser = deliveries n eps ev := by
  rw [List.filter_eq_self]
  intro o ho
  simp only [deliveries, List.mem_append, List.mem_map] at ho
  rcases ho with ⟨i, _, rfl⟩ | ⟨e, _, rfl⟩ <;> rfl

theorem notifyUpper_eq (u : U) (ev : Event) :
    ∃ l, u.notifyUpper ev = { u with served := servedAfter u ev, log := u.log ++ l } ∧ l.filter Obs.isUser = [] := by
  simp only [U.notifyUpper]
  cases hd : u.decks with
  | none =>
    have : servedAfter u ev = u.served := by funext x; simp [servedAfter, hd]
    exact ⟨[], by rw [this]; simp [← hd], rfl⟩
  | some d =>
    obtain ⟨l, h1, h2⟩ := upperOnEvent_eq (u.emit [.notify (.elem (.upper d)) ev]) d ev
    refine ⟨[.notify (.elem (.upper d)) ev] ++ l, ?_, by rw [List.filter_append, h2]; rfl⟩
    have : servedAfter u ev = fun x => if x = d then deckAfter u.session (u.served d) ev else u.served x := by
      funext x
      simp only [servedAfter, hd, Option.some.injEq]
      by_cases h : x = d
      · subst h; simp
      · rw [if_neg h, if_neg (Ne.symm h)]
    rw [this]
    simp only [h1]
    simp only [U.emit, List.append_assoc, hd]

theorem notifyLower_eq (u : U) (ev : Event) :
    ∃ l, u.notifyLower ev = { u with log := u.log ++ l } ∧ l.filter Obs.isUser = [] := by
  simp only [U.notifyLower]
  cases hd : u.decks with
  | none => exact ⟨[], by simp [← hd], rfl⟩
  | some d =>
    obtain ⟨l, h1, h2⟩ := lowerOnEvent_eq (u.emit [.notify (.elem (.lower d)) ev]) d ev
    refine ⟨[.notify (.elem (.lower d)) ev] ++ l, ?_, by rw [List.filter_append, h2]; rfl⟩
    simp only [h1]
    simp only [U.emit, List.append_assoc, hd]

/-- Publishing an event: only the log and the UpperDeck's map change; the users get the event once each, in order. -/
theorem publish_eq (u : U) (ev : Event) :
    ∃ l, u.publish ev = { u with served := servedAfter u ev, log := u.log ++ l } ∧
      l.filter Obs.isUser = deliveries u.listeners u.eps ev := by
  simp only [U.publish]
  generalize h1 : U.emit (U.emit u _) _ = u1
  obtain ⟨l2, h2, f2⟩ := notifyUpper_eq u1 ev
  rw [h2]
  generalize h3 : U.emit _ _ = u3
  obtain ⟨l4, h4, f4⟩ := notifyLower_eq u3 ev
  rw [h4]
  subst h3
  subst h1
  refine ⟨deliveries u.listeners u.eps ev ++ (l2 ++ (u.procs.map fun p => .notify (.elem (.proc p)) ev) ++ l4), ?_, ?_⟩
  · simp only [U.emit, deliveries, List.append_assoc]
    rfl
  · simp only [List.filter_append, filter_procs, filter_deliveries, f2, f4]
    simp

theorem publish_eps (u : U) (ev : Event) : (u.publish ev).eps = u.eps ∧ (u.publish ev).tps = u.tps := by
  obtain ⟨l, h, _⟩ := publish_eq u ev
  rw [h]; exact ⟨rfl, rfl⟩

end Verif.Reg
