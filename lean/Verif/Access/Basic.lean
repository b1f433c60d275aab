/-!
# Goroutines that access fields and take mutexes

A small language for what C105 needs of the code: which fields a function reads and writes, which mutexes it locks, which
goroutines it starts.  Branches and the number of rounds of a loop are left open, so an execution of the code is an execution
here.  Two goroutines *race* for a field if in some reachable state both are about to access it, one of them writing.

For proofs of the absence of races there is an analysis (`safe`) with a proof that it is right for every execution, with any
number of goroutines (`safe_sound`); for their presence, words of the language are recognised by derivatives (`accepts`).
-/

namespace Verif.Access

variable {L M K : Type}

/-- `L`: fields, `M`: mutexes, `K`: functions started with `go`. -/
inductive Act (L M K : Type) where
  | rd (l : L)
  | wr (l : L)
  | lock (m : M)
  | unlock (m : M)
  | go (k : K)
  deriving Repr, DecidableEq

inductive Cmd (L M K : Type) where
  | skip
  | act (a : Act L M K)
  | seq (a b : Cmd L M K)
  | alt (a b : Cmd L M K)
  | star (a : Cmd L M K)

/-- What a command may do, from beginning to end. -/
inductive Word : Cmd L M K → List (Act L M K) → Prop where
  | skip : Word .skip []
  | act (a) : Word (.act a) [a]
  | seq {a b u v} : Word a u → Word b v → Word (.seq a b) (u ++ v)
  | left {a b u} : Word a u → Word (.alt a b) u
  | right {a b u} : Word b u → Word (.alt a b) u
  | done {a} : Word (.star a) []
  | round {a u v} : Word a u → Word (.star a) v → Word (.star a) (u ++ v)

/-- What every goroutine has still to do, and who holds which mutex. -/
structure State (L M K : Type) where
  gs : List (List (Act L M K))
  owner : M → Option Nat

/-- Goroutine `i` does its next action.  A goroutine that locks a locked mutex waits. -/
inductive Step [DecidableEq M] (body : K → Cmd L M K) : State L M K → State L M K → Prop where
  | rd {s : State L M K} {i l w} : s.gs[i]? = some (.rd l :: w) → Step body s { s with gs := s.gs.set i w }
  | wr {s : State L M K} {i l w} : s.gs[i]? = some (.wr l :: w) → Step body s { s with gs := s.gs.set i w }
  | lock {s : State L M K} {i m w} : s.gs[i]? = some (.lock m :: w) → s.owner m = none →
      Step body s { gs := s.gs.set i w, owner := fun m' => if m' = m then some i else s.owner m' }
  | unlock {s : State L M K} {i m w} : s.gs[i]? = some (.unlock m :: w) → s.owner m = some i →
      Step body s { gs := s.gs.set i w, owner := fun m' => if m' = m then none else s.owner m' }
  | go {s : State L M K} {i k w v} : s.gs[i]? = some (.go k :: w) → Word (body k) v →
      Step body s { s with gs := s.gs.set i w ++ [v] }

/-- The states a program with this main function may get into. -/
inductive Reach [DecidableEq M] (body : K → Cmd L M K) (main : Cmd L M K) : State L M K → Prop where
  | init {w} : Word main w → Reach body main ⟨[w], fun _ => none⟩
  | step {s s'} : Reach body main s → Step body s s' → Reach body main s'

/-- The next action accesses `l`; `w` says whether it writes. -/
def Next (s : State L M K) (i : Nat) (l : L) (w : Bool) : Prop :=
  ∃ r, s.gs[i]? = some ((if w then .wr l else .rd l) :: r)

def Race (s : State L M K) (l : L) : Prop := ∃ i j v, i ≠ j ∧ Next s i l true ∧ Next s j l v

def Racy [DecidableEq M] (body : K → Cmd L M K) (main : Cmd L M K) (l : L) : Prop := ∃ s, Reach body main s ∧ Race s l

/-! ## More words, more states -/

def Sub (a b : Cmd L M K) : Prop := ∀ w, Word a w → Word b w

theorem Sub.refl (a : Cmd L M K) : Sub a a := fun _ h => h

theorem Sub.seq {a b a' b' : Cmd L M K} (h : Sub a a') (h' : Sub b b') : Sub (.seq a b) (.seq a' b') := by
  intro w hw
  cases hw with
  | seq u v => exact .seq (h _ u) (h' _ v)

theorem Sub.alt {a b a' b' : Cmd L M K} (h : Sub a a') (h' : Sub b b') : Sub (.alt a b) (.alt a' b') := by
  intro w hw
  cases hw with
  | left u => exact .left (h _ u)
  | right u => exact .right (h' _ u)

theorem Sub.star {a a' : Cmd L M K} (h : Sub a a') : Sub (.star a) (.star a') := by
  intro w hw
  generalize hc : Cmd.star a = c at hw
  induction hw with
  | done => exact .done
  | round u _ _ ih => cases hc; exact .round (h _ u) (ih rfl)
  | skip => cases hc
  | act => cases hc
  | seq => cases hc
  | left => cases hc
  | right => cases hc

theorem Reach.mono [DecidableEq M] {body body' : K → Cmd L M K} {main main' : Cmd L M K} (hb : ∀ k, Sub (body k) (body' k))
    (hm : Sub main main') {s : State L M K} (h : Reach body main s) : Reach body' main' s := by
  induction h with
  | init hw => exact .init (hm _ hw)
  | step _ hs ih =>
    refine .step ih ?_
    cases hs with
    | rd h => exact .rd h
    | wr h => exact .wr h
    | lock h h' => exact .lock h h'
    | unlock h h' => exact .unlock h h'
    | go h h' => exact .go h (hb _ _ h')

theorem Racy.mono [DecidableEq M] {body body' : K → Cmd L M K} {main main' : Cmd L M K} (hb : ∀ k, Sub (body k) (body' k))
    (hm : Sub main main') {l : L} (h : Racy body main l) : Racy body' main' l := by
  obtain ⟨s, h1, h2⟩ := h
  exact ⟨s, h1.mono hb hm, h2⟩

/-! ## The analysis

A field is safe by one of three policies, each from the time on when a goroutine that may access it has been started by the
main goroutine (the field is *exposed*): nobody writes it, everybody holds a certain mutex, or there is only one such goroutine,
and the main goroutine no longer accesses the field. -/

inductive Policy (M : Type) where
  | frozen
  | guarded (m : M)
  | owned
  deriving Repr, DecidableEq

/-- Where in a function the analysis is: is the field exposed, is the mutex of the policy held. -/
structure Q where
  exposed : Bool
  held : Bool
  deriving Repr, DecidableEq

/-- Less is known of the second. -/
def Q.le (a b : Q) : Bool := (!a.exposed || b.exposed) && (a.held || !b.held)

def Q.join (a b : Q) : Q := ⟨a.exposed || b.exposed, a.held && b.held⟩

variable [DecidableEq L] [DecidableEq M]

/-- An access to the field is all right in this situation. -/
def Policy.allows (p : Policy M) (q : Q) (w : Bool) : Bool :=
  !q.exposed || match p with
    | .frozen => !w
    | .guarded _ => q.held
    | .owned => false

/-- One action of the main function; `touch` are the functions that access the field, or start one that does. -/
def delta (p : Policy M) (l : L) (touch : K → Bool) (q : Q) : Act L M K → Option Q
  | .rd l' => if l' = l ∧ p.allows q false = false then none else some q
  | .wr l' => if l' = l ∧ p.allows q true = false then none else some q
  | .lock m => some { q with held := q.held || decide (p = .guarded m) }
  | .unlock m => some { q with held := q.held && !decide (p = .guarded m) }
  | .go k => if p = .owned ∧ touch k ∧ q.exposed then none else some { q with exposed := q.exposed || touch k }

def fine (p : Policy M) (l : L) (touch : K → Bool) : Q → List (Act L M K) → Bool
  | _, [] => true
  | q, a :: w => match delta p l touch q a with
    | some q' => fine p l touch q' w
    | none => false

/-- The analysis of a command: what is known after it. -/
def sem (p : Policy M) (l : L) (touch : K → Bool) : Cmd L M K → Q → Option Q
  | .skip, q => some q
  | .act a, q => delta p l touch q a
  | .seq a b, q => (sem p l touch a q).bind (sem p l touch b)
  | .alt a b, q => match sem p l touch a q, sem p l touch b q with
    | some x, some y => some (x.join y)
    | _, _ => none
  | .star a, q =>
    let grow (q : Q) : Option Q := (sem p l touch a q).map q.join
    match (grow q).bind grow with
    | some r => match sem p l touch a r with
      | some x => if x.le r && q.le r then some r else none
      | none => none
    | none => none

theorem Q.le_refl (a : Q) : a.le a := by rcases a with ⟨a | a, b | b⟩ <;> rfl

theorem Q.le_join_left (a b : Q) : a.le (a.join b) := by
  rcases a with ⟨_ | _, _ | _⟩ <;> rcases b with ⟨_ | _, _ | _⟩ <;> rfl

theorem Q.le_join_right (a b : Q) : b.le (a.join b) := by
  rcases a with ⟨_ | _, _ | _⟩ <;> rcases b with ⟨_ | _, _ | _⟩ <;> rfl

theorem Q.join_of_le {a b : Q} (h : b.le a) : a.join b = a := by
  rcases a with ⟨_ | _, _ | _⟩ <;> rcases b with ⟨_ | _, _ | _⟩ <;> first | rfl | cases h

theorem delta_mono (p : Policy M) (l : L) (touch : K → Bool) {q r r' : Q} {a : Act L M K} (h : q.le r) (hr : delta p l touch r a = some r') :
    ∃ q', delta p l touch q a = some q' ∧ q'.le r' := by
  rcases q with ⟨e, g⟩
  rcases r with ⟨e', g'⟩
  have h1 : e = true → e' = true := by intro h'; subst h'; cases e' <;> simp_all [Q.le]
  have h2 : g' = true → g = true := by intro h'; subst h'; cases g <;> simp_all [Q.le]
  have allow : ∀ w, p.allows ⟨e', g'⟩ w = true → p.allows ⟨e, g⟩ w = true := by
    intro w
    cases e with
    | false => intro _; simp [Policy.allows]
    | true =>
      have := h1 rfl; subst this
      cases p <;> simp only [Policy.allows, Bool.not_true, Bool.false_or] <;> first | exact id | exact h2
  cases a with
  | rd l' =>
    simp only [delta] at hr ⊢
    split at hr
    · cases hr
    · rename_i hn
      injection hr with hr; subst hr
      refine ⟨⟨e, g⟩, ?_, h⟩
      rw [if_neg]
      rintro ⟨rfl, hf⟩
      refine hn ⟨rfl, ?_⟩
      cases hc : p.allows ⟨e', g'⟩ false with
      | false => rfl
      | true => rw [allow _ hc] at hf; cases hf
  | wr l' =>
    simp only [delta] at hr ⊢
    split at hr
    · cases hr
    · rename_i hn
      injection hr with hr; subst hr
      refine ⟨⟨e, g⟩, ?_, h⟩
      rw [if_neg]
      rintro ⟨rfl, hf⟩
      refine hn ⟨rfl, ?_⟩
      cases hc : p.allows ⟨e', g'⟩ true with
      | false => rfl
      | true => rw [allow _ hc] at hf; cases hf
  | lock m =>
    simp only [delta] at hr ⊢
    injection hr with hr; subst hr
    refine ⟨_, rfl, ?_⟩
    cases e <;> cases e' <;> cases g <;> cases g' <;> simp_all [Q.le]
  | unlock m =>
    simp only [delta] at hr ⊢
    injection hr with hr; subst hr
    refine ⟨_, rfl, ?_⟩
    cases e <;> cases e' <;> cases g <;> cases g' <;> simp_all [Q.le]
  | go k =>
    simp only [delta] at hr ⊢
    split at hr
    · cases hr
    · rename_i hn
      injection hr with hr; subst hr
      rw [if_neg (fun ⟨a, b, c⟩ => hn ⟨a, b, h1 c⟩)]
      refine ⟨_, rfl, ?_⟩
      cases e <;> cases e' <;> cases g <;> cases g' <;> cases touch k <;> simp_all [Q.le]

theorem fine_mono (p : Policy M) (l : L) (touch : K → Bool) (w : List (Act L M K)) : ∀ {q r : Q}, q.le r → fine p l touch r w = true →
    fine p l touch q w = true := by
  induction w with
  | nil => intros; rfl
  | cons a w ih =>
    intro q r h hr
    simp only [fine] at hr ⊢
    cases hd : delta p l touch r a with
    | none => rw [hd] at hr; cases hr
    | some r' =>
      rw [hd] at hr
      obtain ⟨q', h1, h2⟩ := delta_mono p l touch h hd
      rw [h1]
      exact ih h2 hr

/-- The analysis covers every word. -/
theorem sem_sound (p : Policy M) (l : L) (touch : K → Bool) {c : Cmd L M K} {w : List (Act L M K)} (hw : Word c w) :
    ∀ {q q' : Q}, sem p l touch c q = some q' → ∀ v, fine p l touch q' v = true → fine p l touch q (w ++ v) = true := by
  induction hw with
  | skip => intro q q' h v hv; injection h with h; subst h; exact hv
  | act a => intro q q' h v hv; simp only [sem] at h; simp only [List.singleton_append, fine, h]; exact hv
  | seq _ _ iha ihb =>
    intro q q' h v hv
    simp only [sem] at h
    obtain ⟨x, h1, h2⟩ := Option.bind_eq_some_iff.mp h
    rw [List.append_assoc]
    exact iha h1 _ (ihb h2 _ hv)
  | left _ ih =>
    intro q q' h v hv
    simp only [sem] at h
    split at h
    · rename_i x y hx hy
      injection h with h; subst h
      exact ih hx _ (fine_mono p l touch v (Q.le_join_left x y) hv)
    · cases h
  | right _ ih =>
    intro q q' h v hv
    simp only [sem] at h
    split at h
    · rename_i x y hx hy
      injection h with h; subst h
      exact ih hy _ (fine_mono p l touch v (Q.le_join_right x y) hv)
    · cases h
  | done =>
    intro q q' h v hv
    simp only [sem] at h
    split at h
    · split at h
      · split at h
        · rename_i hle
          injection h with h; subst h
          simp only [Bool.and_eq_true] at hle
          exact fine_mono p l touch v hle.2 hv
        · cases h
      · cases h
    · cases h
  | @round a u v _ _ iha ihb =>
    intro q q' h x hx
    have h0 := h
    simp only [sem] at h
    split at h
    · rename_i r hr
      split at h
      · rename_i y hy
        split at h
        · rename_i hle
          injection h with h; subst h
          simp only [Bool.and_eq_true] at hle
          have hj : r.join y = r := Q.join_of_le hle.1
          have hs : sem p l touch (.star a) r = some r := by
            simp only [sem, hy, Option.map_some, Option.bind_some, hj, hle.1, Q.le_refl, Bool.and_self, if_true]
          refine fine_mono p l touch _ hle.2 ?_
          rw [List.append_assoc]
          exact iha hy _ (fine_mono p l touch _ hle.1 (ihb hs _ hx))
        · cases h
      · cases h
    · cases h

/-! ### Functions that do not touch the field -/

/-- All actions of the command are of a certain kind. -/
def Cmd.all (f : Act L M K → Bool) : Cmd L M K → Bool
  | .skip => true
  | .act a => f a
  | .seq a b => a.all f && b.all f
  | .alt a b => a.all f && b.all f
  | .star a => a.all f

omit [DecidableEq L] [DecidableEq M] in
theorem all_sound (f : Act L M K → Bool) {c : Cmd L M K} {w : List (Act L M K)} (hw : Word c w) (h : c.all f = true) :
    ∀ a ∈ w, f a = true := by
  induction hw with
  | skip => intro a ha; cases ha
  | act a => intro b hb; rw [List.mem_singleton] at hb; subst hb; exact h
  | seq _ _ iha ihb =>
    simp only [Cmd.all, Bool.and_eq_true] at h
    intro a ha
    rcases List.mem_append.mp ha with ha | ha
    · exact iha h.1 a ha
    · exact ihb h.2 a ha
  | left _ ih => simp only [Cmd.all, Bool.and_eq_true] at h; exact ih h.1
  | right _ ih => simp only [Cmd.all, Bool.and_eq_true] at h; exact ih h.2
  | done => intro a ha; cases ha
  | round _ _ iha ihb =>
    intro a ha
    rcases List.mem_append.mp ha with ha | ha
    · exact iha h a ha
    · exact ihb h a ha

/-- Neither an access to the field nor the start of a function that may access it. -/
def clear (l : L) (touch : K → Bool) : Act L M K → Bool
  | .rd l' => decide (l' ≠ l)
  | .wr l' => decide (l' ≠ l)
  | .lock _ => true
  | .unlock _ => true
  | .go k => !touch k

/-- Not the start of a function that may access the field. -/
def alone (touch : K → Bool) : Act L M K → Bool
  | .go k => !touch k
  | _ => true

/-- The functions that access the field, or start one that does: `n` rounds of adding. -/
def touchers (body : K → Cmd L M K) (l : L) : Nat → K → Bool
  | 0, _ => false
  | n + 1, k => !(body k).all (clear l (touchers body l n))

/-- The analysis of a function started with `go`: if it may access the field, then the field is exposed, and it holds no mutex at the
beginning.  With the policy `owned` the one goroutine may do what it likes, except starting another. -/
def safeGo (p : Policy M) (l : L) (touch : K → Bool) (body : K → Cmd L M K) (k : K) : Bool :=
  if touch k then
    match p with
    | .owned => (body k).all (alone touch)
    | _ => (sem p l touch (body k) ⟨true, false⟩).isSome
  else (body k).all (clear l touch)

/-- The analysis of a program whose functions are `kinds`. -/
def safe (p : Policy M) (l : L) (touch : K → Bool) (kinds : List K) (body : K → Cmd L M K) (main : Cmd L M K) : Bool :=
  (sem p l touch main ⟨false, false⟩).isSome && kinds.all (safeGo p l touch body)

/-! ### The analysis is right -/

/-- A goroutine that thinks it holds the mutex of the policy does. -/
def Holds (p : Policy M) (s : State L M K) (i : Nat) (h : Bool) : Prop := h = true → ∃ m, p = .guarded m ∧ s.owner m = some i

/-- What holds for the rest of goroutine `i`; `q` is where the main goroutine is, `tag` says which goroutines may access the field. -/
def Good (p : Policy M) (l : L) (touch : K → Bool) (s : State L M K) (q : Q) (tag : Nat → Bool) (i : Nat) (w : List (Act L M K)) : Prop :=
  if i = 0 then fine p l touch q w = true ∧ Holds p s 0 q.held
  else if tag i then q.exposed = true ∧ (p = .owned → ∀ a ∈ w, alone touch a = true) ∧
    (p ≠ .owned → ∃ h, fine p l touch ⟨true, h⟩ w = true ∧ Holds p s i h)
  else ∀ a ∈ w, clear l touch a = true

structure Inv (p : Policy M) (l : L) (touch : K → Bool) (s : State L M K) (q : Q) (tag : Nat → Bool) : Prop where
  good : ∀ i w, s.gs[i]? = some w → Good p l touch s q tag i w
  one : p = .owned → ∀ i j, tag i = true → tag j = true → i = j
  range : ∀ i, tag i = true → 0 < i ∧ i < s.gs.length
  exposed : ∀ i, tag i = true → q.exposed = true
  ne : 0 < s.gs.length

theorem fine_nil_delta {p : Policy M} {l : L} {touch : K → Bool} {q : Q} {a : Act L M K} {w : List (Act L M K)}
    (h : fine p l touch q (a :: w) = true) : ∃ q', delta p l touch q a = some q' ∧ fine p l touch q' w = true := by
  simp only [fine] at h
  cases hd : delta p l touch q a with
  | none => rw [hd] at h; cases h
  | some q' => rw [hd] at h; exact ⟨q', rfl, h⟩

/-- No action takes back that the field is exposed. -/
theorem delta_exposed {p : Policy M} {l : L} {touch : K → Bool} {q q' : Q} {a : Act L M K} (h : delta p l touch q a = some q') :
    q.exposed = true → q'.exposed = true := by
  intro he
  cases a <;> simp only [delta] at h
  · split at h
    · cases h
    · injection h with h; subst h; exact he
  · split at h
    · cases h
    · injection h with h; subst h; exact he
  · injection h with h; subst h; exact he
  · injection h with h; subst h; exact he
  · split at h
    · cases h
    · injection h with h; subst h; simp [he]

/-- What a step does to the mutexes. -/
def after (s : State L M K) (i : Nat) : Act L M K → M → Option Nat
  | .lock m => fun m' => if m' = m then some i else s.owner m'
  | .unlock m => fun m' => if m' = m then none else s.owner m'
  | _ => s.owner

/-- When a goroutine may go on. -/
def enabled (s : State L M K) (i : Nat) : Act L M K → Prop
  | .lock m => s.owner m = none
  | .unlock m => s.owner m = some i
  | _ => True

theorem holds_self {p : Policy M} {l : L} {touch : K → Bool} {s : State L M K} {i : Nat} {q q' : Q} {a : Act L M K} {g : List (List (Act L M K))}
    (hd : delta p l touch q a = some q') (h : Holds p s i q.held) : Holds p ⟨g, after s i a⟩ i q'.held := by
  intro hh
  cases a with
  | rd l' =>
    simp only [delta] at hd
    split at hd
    · cases hd
    · injection hd with hd; subst hd; exact h hh
  | wr l' =>
    simp only [delta] at hd
    split at hd
    · cases hd
    · injection hd with hd; subst hd; exact h hh
  | lock m =>
    simp only [delta] at hd
    injection hd with hd; subst hd
    simp only [Bool.or_eq_true, decide_eq_true_eq] at hh
    rcases hh with hh | hh
    · obtain ⟨m', h1, h2⟩ := h hh
      refine ⟨m', h1, ?_⟩
      simp only [after]
      split
      · rfl
      · exact h2
    · exact ⟨m, hh, by simp [after]⟩
  | unlock m =>
    simp only [delta] at hd
    injection hd with hd; subst hd
    simp only [Bool.and_eq_true, Bool.not_eq_true', decide_eq_false_iff_not] at hh
    obtain ⟨m', h1, h2⟩ := h hh.1
    refine ⟨m', h1, ?_⟩
    simp only [after]
    rw [if_neg]
    · exact h2
    · rintro rfl; exact hh.2 h1
  | go k =>
    simp only [delta] at hd
    split at hd
    · cases hd
    · injection hd with hd; subst hd; exact h hh

omit [DecidableEq L] in
theorem holds_other {p : Policy M} {s : State L M K} {i j : Nat} {h : Bool} {a : Act L M K} {g : List (List (Act L M K))}
    (hij : j ≠ i) (he : enabled s i a) (hh : Holds p s j h) : Holds p ⟨g, after s i a⟩ j h := by
  intro h'
  obtain ⟨m, h1, h2⟩ := hh h'
  refine ⟨m, h1, ?_⟩
  cases a with
  | lock m' =>
    simp only [after, enabled] at he ⊢
    rw [if_neg]
    · exact h2
    · rintro rfl; rw [he] at h2; cases h2
  | unlock m' =>
    simp only [after, enabled] at he ⊢
    rw [if_neg]
    · exact h2
    · rintro rfl; rw [he] at h2; injection h2 with h2; exact hij h2.symm
  | rd _ => exact h2
  | wr _ => exact h2
  | go _ => exact h2

/-- The goroutine that moved: where the main goroutine is then, and the rest of it. -/
theorem Inv.self {p : Policy M} {l : L} {touch : K → Bool} {s : State L M K} {q : Q} {tag : Nat → Bool} (h : Inv p l touch s q tag)
    {i : Nat} {a : Act L M K} {w : List (Act L M K)} (hg : s.gs[i]? = some (a :: w)) (g : List (List (Act L M K))) :
    ∃ q', (q.exposed = true → q'.exposed = true) ∧ (i ≠ 0 → q' = q) ∧ (i = 0 → delta p l touch q a = some q') ∧
      Good p l touch ⟨g, after s i a⟩ q' tag i w := by
  have hgood := h.good i _ hg
  unfold Good at hgood
  by_cases hi : i = 0
  · rw [if_pos hi] at hgood
    obtain ⟨q', h1, h2⟩ := fine_nil_delta hgood.1
    refine ⟨q', delta_exposed h1, fun h => absurd hi h, fun _ => h1, ?_⟩
    unfold Good
    rw [if_pos hi]
    subst hi
    exact ⟨h2, holds_self h1 hgood.2⟩
  · rw [if_neg hi] at hgood
    refine ⟨q, id, fun _ => rfl, fun h => absurd h hi, ?_⟩
    unfold Good
    rw [if_neg hi]
    by_cases ht : tag i = true
    · rw [if_pos ht] at hgood ⊢
      refine ⟨hgood.1, fun hp b hb => hgood.2.1 hp b (List.mem_cons_of_mem _ hb), fun hp => ?_⟩
      obtain ⟨hh, h1, h2⟩ := hgood.2.2 hp
      obtain ⟨q', h3, h4⟩ := fine_nil_delta h1
      have he := delta_exposed h3 rfl
      refine ⟨q'.held, ?_, holds_self h3 h2⟩
      rcases q' with ⟨e, x⟩
      simp only at he
      subst he
      exact h4
    · rw [if_neg ht] at hgood ⊢
      exact fun b hb => hgood b (List.mem_cons_of_mem _ hb)

theorem Good.other {p : Policy M} {l : L} {touch : K → Bool} {s : State L M K} {q q' : Q} {tag tag' : Nat → Bool} {i j : Nat}
    {a : Act L M K} {w : List (Act L M K)} {g : List (List (Act L M K))} (h : Good p l touch s q tag j w) (hij : j ≠ i)
    (he : enabled s i a) (hq : q.exposed = true → q'.exposed = true) (h0 : i ≠ 0 → q' = q) (ht : tag' j = tag j) :
    Good p l touch ⟨g, after s i a⟩ q' tag' j w := by
  unfold Good at h ⊢
  by_cases hj : j = 0
  · rw [if_pos hj] at h ⊢
    have : q' = q := h0 (fun hi => hij (hj.trans hi.symm))
    subst this hj
    exact ⟨h.1, holds_other hij he h.2⟩
  · rw [if_neg hj] at h ⊢
    rw [ht]
    by_cases ht : tag j = true
    · rw [if_pos ht] at h ⊢
      refine ⟨hq h.1, h.2.1, fun hp => ?_⟩
      obtain ⟨x, h1, h2⟩ := h.2.2 hp
      exact ⟨x, h1, holds_other hij he h2⟩
    · rw [if_neg ht] at h ⊢
      exact h

/-- A step that starts no goroutine. -/
theorem Inv.move {p : Policy M} {l : L} {touch : K → Bool} {s : State L M K} {q : Q} {tag : Nat → Bool} (h : Inv p l touch s q tag)
    {i : Nat} {a : Act L M K} {w : List (Act L M K)} (hg : s.gs[i]? = some (a :: w)) (he : enabled s i a) :
    ∃ q', Inv p l touch ⟨s.gs.set i w, after s i a⟩ q' tag := by
  obtain ⟨q', h1, h2, _, h3⟩ := h.self hg (s.gs.set i w)
  have hlt : i < s.gs.length := (List.getElem?_eq_some_iff.mp hg).1
  refine ⟨q', ?_, h.one, by simpa using h.range, fun j hj => h1 (h.exposed j hj), by simpa using h.ne⟩
  intro j x hx
  simp only [List.getElem?_set] at hx
  by_cases hij : i = j
  · subst hij
    rw [if_pos rfl, if_pos hlt] at hx
    injection hx with hx; subst hx
    exact h3
  · rw [if_neg hij] at hx
    exact (h.good j x hx).other (fun h => hij h.symm) he h1 h2 rfl

theorem Inv.go {p : Policy M} {l : L} {touch : K → Bool} {s : State L M K} {q : Q} {tag : Nat → Bool} (h : Inv p l touch s q tag)
    {body : K → Cmd L M K} (hb : ∀ k, safeGo p l touch body k = true) {i : Nat} {k : K} {w v : List (Act L M K)}
    (hg : s.gs[i]? = some (.go k :: w)) (hv : Word (body k) v) :
    ∃ q' tag', Inv p l touch ⟨s.gs.set i w ++ [v], s.owner⟩ q' tag' := by
  obtain ⟨q', h1, h2, h0, h3⟩ := h.self hg (s.gs.set i w ++ [v])
  have hlt : i < s.gs.length := (List.getElem?_eq_some_iff.mp hg).1
  have hold : ∀ j, j < s.gs.length → (fun j => if j = s.gs.length then touch k else tag j) j = tag j := by
    intro j hj; simp only; rw [if_neg (Nat.ne_of_lt hj)]
  -- a goroutine that may access the field is started only once the field is exposed, and only once if there may be one only
  have hexp : touch k = true → q'.exposed = true ∧ (p = .owned → ∀ j, tag j = false) := by
    intro htk
    have hgood := h.good i _ hg
    unfold Good at hgood
    by_cases hi : i = 0
    · have hd := h0 hi
      simp only [delta] at hd
      split at hd
      · cases hd
      · rename_i hn
        injection hd with hd; subst hd
        refine ⟨by simp [htk], fun hp j => ?_⟩
        cases ht : tag j with
        | false => rfl
        | true => exact absurd ⟨hp, htk, h.exposed j ht⟩ hn
    · rw [if_neg hi] at hgood
      by_cases ht : tag i = true
      · rw [if_pos ht] at hgood
        refine ⟨h1 hgood.1, fun hp => ?_⟩
        have := hgood.2.1 hp _ List.mem_cons_self
        simp [alone, htk] at this
      · rw [if_neg ht] at hgood
        have := hgood _ List.mem_cons_self
        simp [clear, htk] at this
  refine ⟨q', fun j => if j = s.gs.length then touch k else tag j, ?_, ?_, ?_, ?_, by simp⟩
  · intro j x hx
    rcases Nat.lt_trichotomy j s.gs.length with hj | hj | hj
    · rw [List.getElem?_append_left (by simpa using hj), List.getElem?_set] at hx
      by_cases hij : i = j
      · subst hij
        rw [if_pos rfl, if_pos hlt] at hx
        injection hx with hx; subst hx
        unfold Good at h3 ⊢
        rw [hold i hlt]
        exact h3
      · rw [if_neg hij] at hx
        exact (h.good j x hx).other (a := .go k) (fun h => hij h.symm) trivial h1 h2 (hold j hj)
    · subst hj
      rw [List.getElem?_append_right (by simp)] at hx
      simp at hx
      subst hx
      have hk := hb k
      unfold Good
      rw [if_neg (Nat.ne_of_gt h.ne)]
      simp only [if_true]
      unfold safeGo at hk
      by_cases ht : touch k = true
      · rw [if_pos ht] at hk ⊢
        refine ⟨(hexp ht).1, fun hp => ?_, fun hp => ⟨false, ?_, fun h => by cases h⟩⟩
        · subst hp
          exact all_sound _ hv hk
        · have hs : (sem p l touch (body k) ⟨true, false⟩).isSome = true := by
            cases p with
            | owned => exact absurd rfl hp
            | frozen => exact hk
            | guarded m => exact hk
          obtain ⟨r, hr⟩ := Option.isSome_iff_exists.mp hs
          have := sem_sound p l touch hv hr [] rfl
          simpa using this
      · rw [if_neg ht] at hk ⊢
        exact all_sound _ hv hk
    · rw [List.getElem?_eq_none (by simp; omega)] at hx
      cases hx
  · intro hp a b ha hb
    by_cases ha' : a = s.gs.length
    · rw [if_pos ha'] at ha
      by_cases hb' : b = s.gs.length
      · rw [ha', hb']
      · rw [if_neg hb', (hexp ha).2 hp b] at hb; cases hb
    · rw [if_neg ha'] at ha
      by_cases hb' : b = s.gs.length
      · rw [if_pos hb'] at hb
        rw [(hexp hb).2 hp a] at ha; cases ha
      · rw [if_neg hb'] at hb
        exact h.one hp a b ha hb
  · intro j hj
    by_cases h' : j = s.gs.length
    · exact ⟨h' ▸ h.ne, by simp [h']⟩
    · rw [if_neg h'] at hj
      have := h.range j hj
      exact ⟨this.1, by simp; omega⟩
  · intro j hj
    by_cases h' : j = s.gs.length
    · rw [if_pos h'] at hj; exact (hexp hj).1
    · rw [if_neg h'] at hj; exact h1 (h.exposed j hj)

theorem Inv.step {p : Policy M} {l : L} {touch : K → Bool} {s s' : State L M K} {q : Q} {tag : Nat → Bool} (h : Inv p l touch s q tag)
    {body : K → Cmd L M K} (hb : ∀ k, safeGo p l touch body k = true) (hs : Step body s s') : ∃ q' tag', Inv p l touch s' q' tag' := by
  cases hs with
  | rd hg => obtain ⟨q', h'⟩ := h.move hg trivial; exact ⟨q', tag, h'⟩
  | wr hg => obtain ⟨q', h'⟩ := h.move hg trivial; exact ⟨q', tag, h'⟩
  | lock hg ho => obtain ⟨q', h'⟩ := h.move hg ho; exact ⟨q', tag, h'⟩
  | unlock hg ho => obtain ⟨q', h'⟩ := h.move hg ho; exact ⟨q', tag, h'⟩
  | go hg hv => exact h.go hb hg hv

/-- What a goroutine about to access the field knows. -/
theorem Inv.access {p : Policy M} {l : L} {touch : K → Bool} {s : State L M K} {q : Q} {tag : Nat → Bool} (h : Inv p l touch s q tag)
    {i : Nat} {v : Bool} (hn : Next s i l v) :
    (i = 0 ∧ ∃ g, p.allows ⟨q.exposed, g⟩ v = true ∧ Holds p s 0 g) ∨
      (tag i = true ∧ (p = .owned ∨ ∃ g, p.allows ⟨true, g⟩ v = true ∧ Holds p s i g)) := by
  obtain ⟨r, hr⟩ := hn
  have hgood := h.good i _ hr
  have key : ∀ q : Q, fine p l touch q ((if v then .wr l else .rd l) :: r) = true → p.allows q v = true := by
    intro q hf
    obtain ⟨q', hd, _⟩ := fine_nil_delta hf
    cases v <;> simp only [Bool.false_eq_true, if_false, if_true, delta] at hd <;> split at hd <;>
      first | (cases hd; done) | (rename_i hc; simpa using hc)
  unfold Good at hgood
  by_cases hi : i = 0
  · rw [if_pos hi] at hgood
    exact .inl ⟨hi, q.held, key q hgood.1, hgood.2⟩
  · rw [if_neg hi] at hgood
    by_cases ht : tag i = true
    · rw [if_pos ht] at hgood
      refine .inr ⟨ht, ?_⟩
      by_cases hp : p = .owned
      · exact .inl hp
      · obtain ⟨g, h1, h2⟩ := hgood.2.2 hp
        exact .inr ⟨g, key _ h1, h2⟩
    · rw [if_neg ht] at hgood
      have := hgood _ List.mem_cons_self
      cases v <;> simp [clear] at this

theorem Inv.no_race {p : Policy M} {l : L} {touch : K → Bool} {s : State L M K} {q : Q} {tag : Nat → Bool} (h : Inv p l touch s q tag) :
    ¬ Race s l := by
  rintro ⟨i, j, v, hij, hi, hj⟩
  have hi := h.access hi
  have hj := h.access hj
  -- at least one of them is not the main goroutine, so the field is exposed
  have hexp : q.exposed = true := by
    rcases hi with ⟨hi, _⟩ | ⟨hi, _⟩
    · rcases hj with ⟨hj, _⟩ | ⟨hj, _⟩
      · exact absurd (hi.trans hj.symm) hij
      · exact h.exposed j hj
    · exact h.exposed i hi
  have norm : ∀ x u, ((x = 0 ∧ ∃ g, p.allows ⟨q.exposed, g⟩ u = true ∧ Holds p s 0 g) ∨
      (tag x = true ∧ (p = .owned ∨ ∃ g, p.allows ⟨true, g⟩ u = true ∧ Holds p s x g))) →
      (p = .owned ∧ tag x = true) ∨ ∃ g, p.allows ⟨true, g⟩ u = true ∧ Holds p s x g := by
    rintro x u (⟨rfl, g, h1, h2⟩ | ⟨ht, hp | hg⟩)
    · rw [hexp] at h1; exact .inr ⟨g, h1, h2⟩
    · exact .inl ⟨hp, ht⟩
    · exact .inr hg
  have hi := norm i _ hi
  have hj := norm j _ hj
  cases p with
  | frozen =>
    rcases hi with ⟨hp, _⟩ | ⟨g, h1, _⟩
    · cases hp
    · simp [Policy.allows] at h1
  | guarded m =>
    rcases hi with ⟨hp, _⟩ | ⟨g, h1, h2⟩
    · cases hp
    · rcases hj with ⟨hp, _⟩ | ⟨g', h3, h4⟩
      · cases hp
      · simp only [Policy.allows, Bool.not_true, Bool.false_or] at h1 h3
        obtain ⟨m1, e1, o1⟩ := h2 h1
        obtain ⟨m2, e2, o2⟩ := h4 h3
        cases e1
        cases e2
        rw [o1] at o2
        injection o2 with o2
        exact hij o2
  | owned =>
    rcases hi with ⟨_, ti⟩ | ⟨g, h1, _⟩
    · rcases hj with ⟨_, tj⟩ | ⟨g', h3, _⟩
      · exact hij (h.one rfl i j ti tj)
      · simp [Policy.allows] at h3
    · simp [Policy.allows] at h1

/-- The analysis is right: no execution of a program it accepts has a race for the field. -/
theorem safe_sound {p : Policy M} {l : L} {touch : K → Bool} {kinds : List K} {body : K → Cmd L M K} {main : Cmd L M K}
    (hk : ∀ k, k ∈ kinds) (h : safe p l touch kinds body main = true) : ¬ Racy body main l := by
  rintro ⟨s, hs, hr⟩
  simp only [safe, Bool.and_eq_true, List.all_eq_true] at h
  have hb : ∀ k, safeGo p l touch body k = true := fun k => h.2 k (hk k)
  have : ∃ q tag, Inv p l touch s q tag := by
    clear hr
    induction hs with
    | @init w hw =>
      obtain ⟨r, hr⟩ := Option.isSome_iff_exists.mp h.1
      refine ⟨⟨false, false⟩, fun _ => false, ⟨?_, fun _ i j (h : false = true) _ => (by cases h), fun i (h : false = true) => (by cases h),
        fun i (h : false = true) => (by cases h), by simp⟩⟩
      intro i x hx
      match i with
      | 0 =>
        simp at hx
        subst hx
        unfold Good
        rw [if_pos rfl]
        have := sem_sound p l touch hw hr [] rfl
        exact ⟨by simpa using this, fun h => by cases h⟩
      | i + 1 => simp at hx
    | step _ hstep ih =>
      obtain ⟨q, tag, hi⟩ := ih
      exact hi.step hb hstep
  obtain ⟨q, tag, hi⟩ := this
  exact hi.no_race hr

/-! ## Recognising words -/

/-- The command may do nothing. -/
def Cmd.empty : Cmd L M K → Bool
  | .skip => true
  | .act _ => false
  | .seq a b => a.empty && b.empty
  | .alt a b => a.empty || b.empty
  | .star _ => true

variable [DecidableEq K]

/-- What is left of the command after an action, if it may begin with it. -/
def Cmd.deriv (x : Act L M K) : Cmd L M K → Option (Cmd L M K)
  | .skip => none
  | .act a => if a = x then some .skip else none
  | .seq a b =>
    match a.deriv x, (if a.empty then b.deriv x else none) with
    | some a', some b' => some (.alt (.seq a' b) b')
    | some a', none => some (.seq a' b)
    | none, r => r
  | .alt a b =>
    match a.deriv x, b.deriv x with
    | some a', some b' => some (.alt a' b')
    | some a', none => some a'
    | none, r => r
  | .star a => (a.deriv x).map fun a' => .seq a' (.star a)

def Cmd.accepts (c : Cmd L M K) : List (Act L M K) → Bool
  | [] => c.empty
  | x :: w => match c.deriv x with
    | some c' => c'.accepts w
    | none => false

omit [DecidableEq L] [DecidableEq M] [DecidableEq K] in
theorem empty_sound {c : Cmd L M K} (h : c.empty = true) : Word c [] := by
  induction c with
  | skip => exact .skip
  | act => cases h
  | seq a b iha ihb =>
    simp only [Cmd.empty, Bool.and_eq_true] at h
    exact .seq (u := []) (iha h.1) (ihb h.2)
  | alt a b iha ihb =>
    simp only [Cmd.empty, Bool.or_eq_true] at h
    rcases h with h | h
    · exact .left (iha h)
    · exact .right (ihb h)
  | star => exact .done

theorem deriv_sound {x : Act L M K} {c : Cmd L M K} : ∀ {c'}, c.deriv x = some c' → ∀ w, Word c' w → Word c (x :: w) := by
  induction c with
  | skip => intro c' h; cases h
  | act a =>
    intro c' h w hw
    simp only [Cmd.deriv] at h
    split at h
    · rename_i hx; subst hx
      injection h with h; subst h
      cases hw
      exact .act _
    · cases h
  | seq a b iha ihb =>
    intro c' h w hw
    have first : ∀ a', a.deriv x = some a' → Word (.seq a' b) w → Word (.seq a b) (x :: w) := by
      intro a' ha h'
      cases h' with
      | seq hu hv => exact .seq (iha ha _ hu) hv
    have second : ∀ b', (if a.empty then b.deriv x else none) = some b' → Word b' w → Word (.seq a b) (x :: w) := by
      intro b' hb h'
      split at hb
      · rename_i he
        exact .seq (u := []) (empty_sound he) (ihb hb _ h')
      · cases hb
    simp only [Cmd.deriv] at h
    split at h
    · rename_i a' b' ha hb
      injection h with h; subst h
      cases hw with
      | left h' => exact first _ ha h'
      | right h' => exact second _ hb h'
    · rename_i a' ha hb
      injection h with h; subst h
      exact first _ ha hw
    · exact second _ h hw
  | alt a b iha ihb =>
    intro c' h w hw
    simp only [Cmd.deriv] at h
    split at h
    · rename_i a' b' ha hb
      injection h with h; subst h
      cases hw with
      | left h' => exact .left (iha ha _ h')
      | right h' => exact .right (ihb hb _ h')
    · rename_i a' ha hb
      injection h with h; subst h
      exact .left (iha ha _ hw)
    · exact .right (ihb h _ hw)
  | star a ih =>
    intro c' h w hw
    simp only [Cmd.deriv] at h
    obtain ⟨a', ha, rfl⟩ := Option.map_eq_some_iff.mp h
    cases hw with
    | seq hu hv => exact .round (ih ha _ hu) hv

theorem accepts_sound {c : Cmd L M K} {w : List (Act L M K)} (h : c.accepts w = true) : Word c w := by
  induction w generalizing c with
  | nil => exact empty_sound h
  | cons x w ih =>
    simp only [Cmd.accepts] at h
    split at h
    · rename_i c' hc
      exact deriv_sound hc w (ih h)
    · cases h

/-! ## Executions that can be computed -/

/-- Goroutine `i` goes on; a goroutine it starts will do `v`. -/
def play (body : K → Cmd L M K) (s : State L M K) (e : Nat × List (Act L M K)) : Option (State L M K) :=
  match s.gs[e.1]? with
  | some (.rd _ :: w) => some { s with gs := s.gs.set e.1 w }
  | some (.wr _ :: w) => some { s with gs := s.gs.set e.1 w }
  | some (.lock m :: w) =>
    if s.owner m = none then some { gs := s.gs.set e.1 w, owner := fun m' => if m' = m then some e.1 else s.owner m' } else none
  | some (.unlock m :: w) =>
    if s.owner m = some e.1 then some { gs := s.gs.set e.1 w, owner := fun m' => if m' = m then none else s.owner m' } else none
  | some (.go k :: w) => if (body k).accepts e.2 then some { s with gs := s.gs.set e.1 w ++ [e.2] } else none
  | _ => none

theorem play_step {body : K → Cmd L M K} {s s' : State L M K} {e : Nat × List (Act L M K)} (h : play body s e = some s') : Step body s s' := by
  simp only [play] at h
  split at h
  · rename_i hg; injection h with h; subst h; exact .rd hg
  · rename_i hg; injection h with h; subst h; exact .wr hg
  · rename_i hg
    split at h
    · rename_i ho; injection h with h; subst h; exact .lock hg ho
    · cases h
  · rename_i hg
    split at h
    · rename_i ho; injection h with h; subst h; exact .unlock hg ho
    · cases h
  · rename_i hg
    split at h
    · rename_i ho; injection h with h; subst h; exact .go hg (accepts_sound ho)
    · cases h
  · cases h

def plays (body : K → Cmd L M K) : List (Nat × List (Act L M K)) → State L M K → Option (State L M K)
  | [], s => some s
  | e :: es, s => match play body s e with
    | some s' => plays body es s'
    | none => none

/-- Goroutine `i` is about to write, `j` to access the field. -/
def clash (l : L) (i j : Nat) (s : State L M K) : Bool :=
  decide (i ≠ j) && (match s.gs[i]? with | some (.wr l' :: _) => decide (l' = l) | _ => false) &&
    (match s.gs[j]? with | some (.wr l' :: _) => decide (l' = l) | some (.rd l' :: _) => decide (l' = l) | _ => false)

/-- An execution in which two goroutines race for a field. -/
structure Witness (L M K : Type) where
  /-- what the main goroutine does -/
  main : List (Act L M K)
  moves : List (Nat × List (Act L M K))
  i : Nat
  j : Nat

def Witness.shows (x : Witness L M K) (body : K → Cmd L M K) (main : Cmd L M K) (l : L) : Bool :=
  main.accepts x.main && (match plays body x.moves ⟨[x.main], fun _ => none⟩ with | some s => clash l x.i x.j s | none => false)

theorem plays_reach {body : K → Cmd L M K} {main : Cmd L M K} (es : List (Nat × List (Act L M K))) :
    ∀ {s s' : State L M K}, Reach body main s → plays body es s = some s' → Reach body main s' := by
  induction es with
  | nil => intro s s' h h'; injection h' with h'; exact h' ▸ h
  | cons e es ih =>
    intro s s' h h'
    simp only [plays] at h'
    split at h'
    · rename_i t ht
      exact ih (h.step (play_step ht)) h'
    · cases h'

omit [DecidableEq M] [DecidableEq K] in
theorem clash_race {l : L} {i j : Nat} {s : State L M K} (h : clash l i j s = true) : Race s l := by
  simp only [clash, Bool.and_eq_true, decide_eq_true_eq] at h
  obtain ⟨⟨h1, h2⟩, h3⟩ := h
  split at h2
  · rename_i l' r hr
    simp only [decide_eq_true_eq] at h2; subst h2
    split at h3
    · rename_i l'' r' hr'
      simp only [decide_eq_true_eq] at h3; subst h3
      exact ⟨i, j, true, h1, ⟨r, hr⟩, ⟨r', hr'⟩⟩
    · rename_i l'' r' hr'
      simp only [decide_eq_true_eq] at h3; subst h3
      exact ⟨i, j, false, h1, ⟨r, hr⟩, ⟨r', hr'⟩⟩
    · cases h3
  · cases h2

theorem Witness.racy {x : Witness L M K} {body : K → Cmd L M K} {main : Cmd L M K} {l : L} (h : x.shows body main l = true) :
    Racy body main l := by
  simp only [Witness.shows, Bool.and_eq_true] at h
  obtain ⟨h1, h2⟩ := h
  split at h2
  · rename_i s hs
    exact ⟨s, plays_reach _ (.init (accepts_sound h1)) hs, clash_race h2⟩
  · cases h2

end Verif.Access
