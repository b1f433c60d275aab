import Verif.Access.Exact
import Verif.Access.Locks

/-!
# Nobody waits for a mutex for ever (C106)

The functions of `Program.lean`, with any number of Heartbeats and transports, each with its mutex, and with the functions of the program: its
event and data listeners are called where the library calls them, and they call the library in turn (everything in `later`), which publishes
events in turn, to any depth; the program may have any number of goroutines that do the same.

Channel operations are left out: `sm.next <-` under two mutexes is C55, a listener that waits for a message is C81, and the channel of
`deleteEndpoint` (proc_upperdeck.go:77) always has room, since it is made with room for one and used once.
-/

namespace Verif.Access

variable {L M K K' : Type}

/-! ## Substitution and words -/

/-- A word with every action replaced. -/
inductive Expand (f : Act L M K → Cmd L M K') : List (Act L M K) → List (Act L M K') → Prop where
  | nil : Expand f [] []
  | cons {a u v w} : Word (f a) u → Expand f w v → Expand f (a :: w) (u ++ v)

theorem Expand.append {f : Act L M K → Cmd L M K'} {u v : List (Act L M K)} {u' v' : List (Act L M K')} (hu : Expand f u u') (hv : Expand f v v') :
    Expand f (u ++ v) (u' ++ v') := by
  induction hu with
  | nil => exact hv
  | cons h _ ih => rw [List.append_assoc]; exact .cons h ih

theorem Expand.split {f : Act L M K → Cmd L M K'} (u : List (Act L M K)) : ∀ {v : List (Act L M K)} {w : List (Act L M K')}, Expand f (u ++ v) w →
    ∃ u' v', w = u' ++ v' ∧ Expand f u u' ∧ Expand f v v' := by
  induction u with
  | nil => intro v w h; exact ⟨[], w, rfl, .nil, h⟩
  | cons a u ih =>
    intro v w h
    cases h with
    | cons h1 h2 =>
      obtain ⟨u', v', rfl, h3, h4⟩ := ih h2
      exact ⟨_, v', (List.append_assoc ..).symm, .cons h1 h3, h4⟩

theorem Expand.mono {f g : Act L M K → Cmd L M K'} (hfg : ∀ a, Sub (f a) (g a)) {u : List (Act L M K)} {w : List (Act L M K')} (h : Expand f u w) :
    Expand g u w := by
  induction h with
  | nil => exact .nil
  | cons h1 _ ih => exact .cons (hfg _ _ h1) ih

theorem word_subst {f : Act L M K → Cmd L M K'} {c : Cmd L M K} {w : List (Act L M K')} (h : Word (c.subst f) w) : ∃ u, Word c u ∧ Expand f u w := by
  induction c generalizing w with
  | skip => cases h; exact ⟨[], .skip, .nil⟩
  | act a => exact ⟨[a], .act a, by simpa using Expand.cons (f := f) (a := a) h .nil⟩
  | seq a b ia ib =>
    cases h with
    | seq h1 h2 =>
      obtain ⟨u, hu, hu'⟩ := ia h1
      obtain ⟨v, hv, hv'⟩ := ib h2
      exact ⟨_, .seq hu hv, hu'.append hv'⟩
  | alt a b ia ib =>
    cases h with
    | left h => obtain ⟨u, hu, hu'⟩ := ia h; exact ⟨u, .left hu, hu'⟩
    | right h => obtain ⟨u, hu, hu'⟩ := ib h; exact ⟨u, .right hu, hu'⟩
  | star a ia =>
    generalize hc : (Cmd.star a).subst f = c at h
    induction h with
    | done => exact ⟨[], .done, .nil⟩
    | round h1 _ _ ih2 =>
      cases hc
      obtain ⟨u, hu, hu'⟩ := ia h1
      obtain ⟨v, hv, hv'⟩ := ih2 rfl
      exact ⟨_, .round hu hv, hu'.append hv'⟩
    | skip => cases hc
    | act => cases hc
    | seq => cases hc
    | left => cases hc
    | right => cases hc

theorem subst_word {f : Act L M K → Cmd L M K'} {c : Cmd L M K} {u : List (Act L M K)} (h : Word c u) : ∀ {w : List (Act L M K')}, Expand f u w →
    Word (c.subst f) w := by
  induction h with
  | skip => intro w h; cases h; exact .skip
  | act a =>
    intro w h
    cases h with
    | cons h1 h2 => cases h2; rw [List.append_nil]; exact h1
  | seq _ _ iu iv =>
    intro w h
    obtain ⟨u', v', rfl, h1, h2⟩ := Expand.split _ h
    exact .seq (iu h1) (iv h2)
  | left _ ih => intro w h; exact .left (ih h)
  | right _ ih => intro w h; exact .right (ih h)
  | done => intro w h; cases h; exact .done
  | round _ _ iu iv =>
    intro w h
    obtain ⟨u', v', rfl, h1, h2⟩ := Expand.split _ h
    exact .round (iu h1) (iv h2)

theorem Sub.subst {f g : Act L M K → Cmd L M K'} (hfg : ∀ a, Sub (f a) (g a)) {c c' : Cmd L M K} (h : Sub c c') : Sub (c.subst f) (c'.subst g) := by
  intro w hw
  obtain ⟨u, hu, hu'⟩ := word_subst hw
  exact subst_word (h u hu) (hu'.mono hfg)

/-! ## The program -/

/-- The listeners of the program are called here: the stack's (ustack_default.go:310-312), an endpoint's (endp_default.go:157-159, 86-90). -/
def spot : Field → Bool
  | .listeners => true
  | .eventListener => true
  | .dataListener => true
  | _ => false

/-- The library with a program whose listeners do `u`. -/
def calling (start : Fun → K') (u : Cmd Field Mutex K') : Act Field Mutex Fun → Cmd Field Mutex K'
  | .rd l => if spot l then .seq (.act (.rd l)) u else .act (.rd l)
  | .wr l => .act (.wr l)
  | .lock m => .act (.lock m)
  | .unlock m => .act (.unlock m)
  | .go k => .act (.go (start k))

/-- A NewConnection event published by the program itself, say for a connection it has made. -/
def raise (F : Feature → Bool) : C := publish .skip (.star (onNewConnection F false)) .skip

/-- What functions of the program do, if their calls are nested at most `n` times: calls of the library (`later`), `go` statements, and, with `p`, events
of their own.  `none`: a goroutine of the program. -/
def user (F : Feature → Bool) (p : Bool) : Nat → Cmd Field Mutex (Option Fun)
  | 0 => .skip
  | n + 1 => .star (.alt (.act (.go none)) ((Cmd.alt (later F) (if p then raise F else .skip)).subst (calling some (user F p n))))

/-- What the goroutines do. -/
def bodyU (F : Feature → Bool) (p : Bool) (n : Nat) : Option Fun → Cmd Field Mutex (Option Fun)
  | some k => (body F k).subst (calling some (user F p n))
  | none => user F p n

/-- The main goroutine: any number of processors and transports of each kind. -/
def mainAny (F : Feature → Bool) : C :=
  all [.star (one [setUp, setDataListener]), build, rd .decks, rd .links, rd .endpoints, .star acceptEndpoint, .star (runProcessors F),
    rd .decks, rd .links, rd .transports, .star (one [acceptTransport true, feature F .reference acceptReference]), later F]

def mainU (F : Feature → Bool) (p : Bool) (n : Nat) : Cmd Field Mutex (Option Fun) := .seq ((mainAny F).subst (calling some (user F p n))) (user F p n)

abbrev StateU := State Field (Mutex × Nat) (Option Fun)

/-- With any number of mutexes of each kind. -/
def langU (F : Feature → Bool) (p : Bool) (n : Nat) (k : Option Fun) (w : List (Act Field (Mutex × Nat) (Option Fun))) : Prop := ∃ u, Word (bodyU F p n k) u ∧ Inst [] u w

/-- The states the program may get into. -/
def ReachU (F : Feature → Bool) (p : Bool) (n : Nat) (s : StateU) : Prop :=
  ∃ u w, Word (mainU F p n) u ∧ Inst [] u w ∧ Moves (langU F p n) (fun _ => True) (State.start w) s

/-! ## The order of the mutexes -/

def rank : Mutex → Nat
  | .heartbeat => 0
  | .upperDeck => 1
  | .transport => 1
  | .reference => 1
  | .channels => 2

theorem rank_le (m : Mutex) : rank m ≤ 2 := by cases m <;> decide

/-- Listeners are called with no mutex held, or with the one of a Heartbeat. -/
def calm : List (List Mutex) := [[], [.heartbeat]]

/-- As `hold`, but listeners are called only so. -/
def holdC (a : Act Field Mutex Fun) (h : List Mutex) : Option (List Mutex) :=
  match a with
  | .rd l => if spot l && !decide (h ∈ calm) then none else some h
  | a => hold rank a h

theorem calling_flow {start : Fun → K'} {u : Cmd Field Mutex K'} (hu : ∀ h ∈ calm, flow (hold rank) u h = some h) (a : Act Field Mutex Fun) (h h' : List Mutex)
    (ha : holdC a h = some h') : flow (hold rank) (calling start u a) h = some h' := by
  cases a with
  | rd l =>
    simp only [holdC] at ha
    simp only [calling]
    split at ha
    · cases ha
    · rename_i hn
      split
      · rename_i hs
        have hm : h ∈ calm := by simpa [hs] using hn
        simp only [flow, hold, Option.bind_some, hu h hm]
        exact ha
      · simp only [flow, hold]; exact ha
  | wr l => exact ha
  | lock m => exact ha
  | unlock m => cases h <;> exact ha
  | go k => exact ha

/-- All features, but no Heartbeat if the program publishes NewConnection events. -/
def most (p : Bool) : Feature → Bool := if p then without [.heartbeat] else without []

theorem fewer_most {F : Feature → Bool} {p : Bool} (hp : p = false ∨ F .heartbeat = false) : Fewer F (most p) := by
  intro x hx
  cases p with
  | false => rfl
  | true =>
    rcases hp with hp | hp
    · cases hp
    · simp only [most, if_true, without, decide_eq_true_eq, List.mem_singleton]
      rintro rfl
      rw [hp] at hx
      cases hx

theorem later_calm (p : Bool) : (calm.all fun h => decide (flow holdC (.alt (later (most p)) (if p then raise (most p) else .skip)) h = some h)) = true := by
  cases p <;> decide +kernel

theorem funs_calm (p : Bool) : (funs.all fun k => decide (flow holdC (body (most p) k) [] = some [])) = true := by
  cases p <;> decide +kernel

theorem main_calm (p : Bool) : flow holdC (mainAny (most p)) [] = some [] := by
  cases p <;> decide +kernel

theorem user_calm (p : Bool) (n : Nat) : ∀ h ∈ calm, flow (hold rank) (user (most p) p n) h = some h := by
  induction n with
  | zero => intro h _; rfl
  | succ n ih =>
    intro h hm
    have h1 := flow_subst (calling_flow (start := some) ih) _ (of_decide_eq_true (List.all_eq_true.mp (later_calm p) h hm))
    simp only [user, flow, hold, h1, if_true]

theorem calling_sub {start : Fun → K'} {u u' : Cmd Field Mutex K'} (h : Sub u u') (a : Act Field Mutex Fun) : Sub (calling start u a) (calling start u' a) := by
  cases a with
  | rd l =>
    simp only [calling]
    split
    · exact .seq (.refl _) h
    · exact .refl _
  | _ => exact .refl _

theorem later_sub {F G : Feature → Bool} (h : Fewer F G) : Sub (later F) (later G) := by
  unfold later
  repeat' first
    | exact Sub.refl _ | apply Sub.one_cons | apply Sub.star | apply Sub.feature h

theorem raise_sub {F G : Feature → Bool} (h : Fewer F G) : Sub (raise F) (raise G) := by
  unfold raise publish
  repeat' first
    | exact Sub.refl _ | exact onNewConnection_sub h _ | apply Sub.all_cons | apply Sub.star

theorem user_sub {F G : Feature → Bool} (h : Fewer F G) (p : Bool) (n : Nat) : Sub (user F p n) (user G p n) := by
  induction n with
  | zero => exact .refl _
  | succ n ih =>
    refine .star (.alt (.refl _) (.subst (calling_sub ih) (.alt (later_sub h) ?_)))
    cases p
    · exact .refl _
    · exact raise_sub h

theorem mainAny_sub {F G : Feature → Bool} (h : Fewer F G) : Sub (mainAny F) (mainAny G) := by
  unfold mainAny runProcessors
  repeat' first
    | exact Sub.refl _ | exact later_sub h | apply Sub.all_cons | apply Sub.one_cons | apply Sub.star | apply Sub.feature h

theorem body_tidy {F : Feature → Bool} {p : Bool} (hp : p = false ∨ F .heartbeat = false) (n : Nat) (k : Option Fun) {w : List (Act Field Mutex (Option Fun))} (hw : Word (bodyU F p n k) w) : Tidy rank w := by
  cases k with
  | none => exact flow_runs (user_sub (fewer_most hp) p n w hw) (user_calm p n [] (by decide))
  | some k =>
    have hw' := Sub.subst (calling_sub (start := some) (user_sub (fewer_most hp) p n)) (body_sub (fewer_most hp) k) w hw
    exact flow_runs hw' (flow_subst (calling_flow (user_calm p n)) _ (of_decide_eq_true (List.all_eq_true.mp (funs_calm p) k (mem_funs k))))

theorem main_tidy {F : Feature → Bool} {p : Bool} (hp : p = false ∨ F .heartbeat = false) (n : Nat) {w : List (Act Field Mutex (Option Fun))} (hw : Word (mainU F p n) w) : Tidy rank w := by
  have hw' := Sub.seq (Sub.subst (calling_sub (start := some) (user_sub (fewer_most hp) p n)) (mainAny_sub (fewer_most hp)))
    (user_sub (fewer_most hp) p n) w hw
  refine flow_runs hw' ?_
  simp only [flow]
  rw [flow_subst (calling_flow (user_calm p n)) _ (main_calm p)]
  exact user_calm p n [] (by decide)

theorem lang_tidy {F : Feature → Bool} {p : Bool} (hp : p = false ∨ F .heartbeat = false) (n : Nat) (k : Option Fun) (w : List (Act Field (Mutex × Nat) (Option Fun))) (h : langU F p n k w) :
    Tidy (fun m => rank m.1) w := by
  obtain ⟨u, hu, hi⟩ := h
  exact hi.runs (body_tidy hp n k hu)

theorem lang_some {F : Feature → Bool} {p : Bool} (hp : p = false ∨ F .heartbeat = false) (n : Nat) (k : Option Fun) : ∃ w, langU F p n k w := by
  obtain ⟨u, hu⟩ := exists_word (bodyU F p n k)
  have := body_tidy hp n k hu
  obtain ⟨w, hw⟩ := exists_inst (rank := rank) u (h := []) (by rw [show List.map Prod.fst ([] : List (Mutex × Nat)) = [] from rfl, this]; rfl)
  exact ⟨w, u, hu, hw⟩

theorem reach_orderly {F : Feature → Bool} {p : Bool} (hp : p = false ∨ F .heartbeat = false) {n : Nat} {s : StateU} (h : ReachU F p n s) : ∃ held, Orderly (fun m => rank m.1) s held := by
  obtain ⟨u, w, hu, hi, hm⟩ := h
  exact orderly_of (lang_tidy hp n) hm _ (orderly_start (hi.runs (main_tidy hp n hu)))

/-! ## C106 -/

/-- C106, for programs without a Heartbeat or whose listeners do not publish NewConnection events themselves: whatever processors, endpoints, transports and goroutines a program has
and whatever its listeners call, in every state all goroutines can be brought to their end, whoever is started meanwhile, and then no mutex is
held.  Missing: listeners that do, in programs with a Heartbeat, where it is wrong (`c106_violated`). -/
theorem c106_finish_partial (F : Feature → Bool) (p : Bool) (hp : p = false ∨ F .heartbeat = false) (n : Nat) (s : StateU) (h : ReachU F p n s) :
    ∃ s', Moves (langU F p n) (· < s.gs.length) s s' ∧ (∀ i, i < s.gs.length → s'.gs[i]? = some []) ∧ ∀ m, s'.owner m = none := by
  obtain ⟨held, ho⟩ := reach_orderly hp h
  exact all_finish (lang_tidy hp n) (lang_some hp n) (fun m => rank_le m.1) s held ho ho.none (Nat.le_refl _)

/-- So no goroutines wait for each other in a circle. -/
theorem c106_circle_partial (F : Feature → Bool) (p : Bool) (hp : p = false ∨ F .heartbeat = false) (n : Nat) (s : StateU) (h : ReachU F p n s) (c : Nat → Prop) (hc : ∀ i, c i → ∃ m j, Waits s i m j ∧ c j) (i : Nat) :
    ¬ c i := by
  obtain ⟨held, ho⟩ := reach_orderly hp h
  have : ∀ d i m j, 2 - rank m.1 = d → Waits s i m j → c j → False := by
    intro d
    induction d using Nat.strongRecOn with
    | ind d ih =>
      intro i m j hd hw hj
      obtain ⟨m', j', hw', hj'⟩ := hc j hj
      have hw'' := hw'
      obtain ⟨⟨v, hv⟩, _⟩ := hw'
      have hmem := (ho.owns m j).mp hw.2
      have hr := ho.rest _ _ hv
      simp only [runs, hold] at hr
      split at hr
      · rename_i ha
        have hlt := of_decide_eq_true (List.all_eq_true.mp ha m hmem)
        have := rank_le m'.1
        exact ih (2 - rank m'.1) (by omega) j m' j' rfl hw'' hj'
      · cases hr
  intro hi
  obtain ⟨m, j, hw, hj⟩ := hc i hi
  exact this _ i m j rfl hw hj

/-! A state: a listener that is told of a lost heartbeat, with the mutex of the Heartbeat held, adds an endpoint, and waits for the mutex of the
UpperDeck, which is held by a goroutine of the program that deletes one. -/

/-- One mutex of each kind. -/
def single : Act L M K → Act L (M × Nat) K
  | .rd l => .rd l
  | .wr l => .wr l
  | .lock m => .lock (m, 0)
  | .unlock m => .unlock (m, 0)
  | .go k => .go k

def State.single (s : State L M K) : State L (M × Nat) K := ⟨s.gs.map (·.map Access.single), fun m => if m.2 = 0 then s.owner m.1 else none⟩

theorem inst_single [DecidableEq M] {rank : M → Nat} (w : List (Act L M K)) : ∀ {h : List M}, (runs rank w h).isSome → Inst (h.map fun m => (m, 0)) w (w.map single) := by
  induction w with
  | nil => intro h _; exact .nil
  | cons a w ih =>
    intro h hr
    cases a with
    | rd l => exact .rd (ih hr)
    | wr l => exact .wr (ih hr)
    | go k => exact .go (ih hr)
    | lock m =>
      simp only [runs, hold] at hr
      split at hr
      · exact .lock 0 (ih (h := m :: h) hr)
      · cases hr
    | unlock m =>
      cases h with
      | nil => cases hr
      | cons x h =>
        simp only [runs, hold] at hr
        split at hr
        · rename_i he
          subst he
          exact .unlock (ih hr)
        · cases hr

theorem single_step {F : Feature → Bool} {p : Bool} (hp : p = false ∨ F .heartbeat = false) {n : Nat} {s s' : State Field Mutex (Option Fun)} (h : Step (bodyU F p n) s s') : ∃ i, Move (langU F p n) i s.single s'.single := by
  have get : ∀ {i : Nat} {w : List (Act Field Mutex (Option Fun))}, s.gs[i]? = some w → s.single.gs[i]? = some (w.map single) := by
    intro i w h
    simp only [State.single, List.getElem?_map, h, Option.map_some]
  have set : ∀ {i : Nat} {w : List (Act Field Mutex (Option Fun))}, (s.gs.set i w).map (·.map single) = s.single.gs.set i (w.map single) := by
    intro i w
    simp only [State.single, List.map_set]
  cases h with
  | @rd i l w h => refine ⟨i, ?_⟩; have := Move.rd (lang := langU F p n) (get h); simpa only [State.single, List.map_set] using this
  | @wr i l w h => refine ⟨i, ?_⟩; have := Move.wr (lang := langU F p n) (get h); simpa only [State.single, List.map_set] using this
  | @lock i m w h ho =>
    refine ⟨i, ?_⟩
    have := Move.lock (lang := langU F p n) (get h) (by simp only [State.single, if_true]; exact ho)
    have e : ∀ m' : Mutex × Nat, (if m' = (m, 0) then some i else if m'.2 = 0 then s.owner m'.1 else none) =
        if m'.2 = 0 then (if m'.1 = m then some i else s.owner m'.1) else none := by
      rintro ⟨x, j⟩
      by_cases hj : j = 0 <;> by_cases hx : x = m <;> simp [hj, hx]
    simpa only [State.single, List.map_set, e] using this
  | @unlock i m w h ho =>
    refine ⟨i, ?_⟩
    have := Move.unlock (lang := langU F p n) (get h) (by simp only [State.single, if_true]; exact ho)
    have e : ∀ m' : Mutex × Nat, (if m' = (m, 0) then none else if m'.2 = 0 then s.owner m'.1 else none) =
        if m'.2 = 0 then (if m'.1 = m then none else s.owner m'.1) else none := by
      rintro ⟨x, j⟩
      by_cases hj : j = 0 <;> by_cases hx : x = m <;> simp [hj, hx]
    simpa only [State.single, List.map_set, e] using this
  | @go i k w v h hv =>
    refine ⟨i, ?_⟩
    have hl : langU F p n k (v.map single) := ⟨v, hv, inst_single v (h := []) (by rw [show runs rank v [] = some [] from body_tidy hp n k hv]; rfl)⟩
    have := Move.go (get h) hl
    simpa only [State.single, List.map_set, List.map_append, List.map_cons, List.map_nil] using this

theorem Moves.snoc [DecidableEq M] {lang : K → List (Act L M K) → Prop} {P : Nat → Prop} {s s' s'' : State L M K} {i : Nat} (h : Moves lang P s s') (hi : P i)
    (hm : Move lang i s' s'') : Moves lang P s s'' := by
  induction h with
  | refl => exact .step hi hm .refl
  | step h1 h2 _ ih => exact .step h1 h2 (ih hm)

theorem reach_single {F : Feature → Bool} {p : Bool} (hp : p = false ∨ F .heartbeat = false) {n : Nat} {s : State Field Mutex (Option Fun)} (h : Reach (bodyU F p n) (mainU F p n) s) : ReachU F p n s.single := by
  induction h with
  | @init w hw =>
    refine ⟨w, w.map single, hw, inst_single w (h := []) (by rw [show runs rank w [] = some [] from main_tidy hp n hw]; rfl), ?_⟩
    have : (⟨[w], fun _ => none⟩ : State Field Mutex (Option Fun)).single = State.start (w.map single) := by
      simp [State.single, State.start]
    rw [this]
    exact .refl
  | step _ hs ih =>
    obtain ⟨u, w, h1, h2, h3⟩ := ih
    obtain ⟨i, hi⟩ := single_step hp hs
    exact ⟨u, w, h1, h2, h3.snoc trivial hi⟩

def waiting [DecidableEq K] (i : Nat) (m : Mutex) (j : Nat) (s : State Field Mutex K) : Bool :=
  decide (s.gs[i]?.bind List.head? = some (.lock m)) && decide (s.owner m = some j)

theorem waits_of [DecidableEq K] {s : State Field Mutex K} {i : Nat} {m : Mutex} {j : Nat} (h : waiting i m j s = true) : Waits s i m j := by
  simp only [waiting, Bool.and_eq_true, decide_eq_true_eq] at h
  refine ⟨?_, h.2⟩
  cases e : s.gs[i]? with
  | none => rw [e] at h; cases h.1
  | some g =>
    cases g with
    | nil => rw [e] at h; cases h.1
    | cons a v =>
      rw [e] at h
      have : a = .lock m := by simpa using h.1
      exact ⟨v, by rw [this]⟩

/-- The same in a program with goroutines of its own. -/
def lift : W → List (Act Field Mutex (Option Fun)) := List.map fun
  | .rd l => .rd l
  | .wr l => .wr l
  | .lock m => .lock m
  | .unlock m => .unlock m
  | .go k => .go (some k)

def soloU (i : Nat) : List (Act Field Mutex (Option Fun)) → List (List (Act Field Mutex (Option Fun))) → List (Nat × List (Act Field Mutex (Option Fun)))
  | [], _ => []
  | .go _ :: as, v :: vs => (i, v) :: soloU i as vs
  | _ :: as, vs => (i, []) :: soloU i as vs

def lostAdds : W :=
  [.lock .heartbeat, r .monitors, r .heartbeatConf, w .monitors, r .heartbeatConf, r .links, r .listeners] ++
    ([r .endpoints] ++ event [.lock .upperDeck, r .served, .unlock .upperDeck] [] [] ++ [r .endpoints, w .endpoints]) ++
    [r .endpoints, r .decks, r .processors, r .decks, .unlock .heartbeat]

def deletes : W := [r .endpoints] ++ event [.lock .upperDeck, r .served, w .served, .unlock .upperDeck] [] [] ++ [r .endpoints, w .endpoints]

example : ∃ s, ReachU (just [.heartbeat, .changeEndPoints]) false 1 s ∧ Waits s 3 (.upperDeck, 0) 6 ∧ s.owner (.heartbeat, 0) = some 3 := by
  obtain ⟨s, h1, h2⟩ := reaches (body := bodyU (just [.heartbeat, .changeEndPoints]) false 1) (main := mainU (just [.heartbeat, .changeEndPoints]) false 1)
    (lift (runAll beatRun .accept) ++ [.go none])
    (soloU 0 (lift (runAll beatRun .accept) ++ [.go none]) [[], [], lift lostAdds, lift acceptTwo, lift [r .next], lift deletes] ++
      soloU 6 (lift deletes |>.take 6) [] ++ soloU 3 (lift lostAdds |>.take 12) [])
    (fun s => waiting 3 .upperDeck 6 s && decide (s.owner .heartbeat = some 3)) (by decide +kernel)
  rw [Bool.and_eq_true] at h2
  obtain ⟨⟨v, hv⟩, ho⟩ := waits_of h2.1
  refine ⟨s.single, reach_single (.inl rfl) h1, ⟨⟨v.map single, ?_⟩, ?_⟩, ?_⟩
  · simp only [State.single, List.getElem?_map, hv, Option.map_some, List.map_cons, single]
  · simp only [State.single, if_true]; exact ho
  · simp only [State.single, if_true]; exact of_decide_eq_true h2.2

/-! ## Listeners that publish -/

/-- The program with a listener that publishes a NewConnection event in answer to some event. -/
def bodyV (F : Feature → Bool) (k : Fun) : C := (body F k).subst (calling id (opt (raise F)))

def mainV (F : Feature → Bool) : C := (mainFun F).subst (calling id (opt (raise F)))

/-- The check declares a connection lost and calls the listeners, one of which publishes. -/
def checkLost : W :=
  [.lock .heartbeat, r .monitors, r .heartbeatConf, w .monitors, r .heartbeatConf, r .links, r .listeners] ++
    event [] [r .heartbeatConf, .lock .heartbeat, w .monitors, .unlock .heartbeat, .go (.beat false)] [] ++ [r .endpoints, r .decks, r .processors, r .decks, .unlock .heartbeat]

/-- C106 is violated if a listener publishes a NewConnection event when a heartbeat is lost: the goroutine that checks waits for ever for the mutex it holds. -/
theorem c106_violated (F : Feature → Bool) (hF : F .heartbeat = true) : ∃ s, Reach (bodyV F) (mainV F) s ∧
    ∀ s', Moves (fun k => Word (bodyV F k)) (fun _ => True) s s' → Waits s' 3 .heartbeat 3 := by
  obtain ⟨s, h1, h2⟩ := reaches (body := bodyV (just [.heartbeat])) (main := mainV (just [.heartbeat])) (runAll beatRun .accept)
    (solo 0 (runAll beatRun .accept) [[], [], checkLost, acceptTwo, hbNew] ++ solo 4 (acceptTwo.take 3) [] ++
      solo 5 hbNew [[r .closed, .lock .heartbeat, r .monitors, .unlock .heartbeat], readEnd true] ++ solo 3 (checkLost.take 13) [])
    (waiting 3 .heartbeat 3) (by decide +kernel)
  have hf : Fewer (just [.heartbeat]) F := by
    intro x hx
    have : x = .heartbeat := by simpa [just] using hx
    rw [this]; exact hF
  have hr : Sub (opt (raise (just [.heartbeat]))) (opt (raise F)) := .opt (raise_sub hf)
  refine ⟨s, h1.mono (fun k => .subst (calling_sub hr) (body_sub hf k)) (.subst (calling_sub hr) (main_sub hf)), fun s' hm => self_stuck (waits_of h2) hm⟩

end Verif.Access
