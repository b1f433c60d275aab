import Verif.Reg.Reentrant

/-!
# When listeners may add and delete (C68)

For all listeners: the calls they make, and the calls made inside those, all do what they should iff, whenever the listeners have been told
about an endpoint or a transport to be added, they have not registered it themselves, and whenever they have been told about an
endpoint to be deleted, it is still at the place where it was.
-/

namespace Verif.Reg.Reentrant

/-! ## Specification -/

/-- No endpoint and no transport is registered twice. -/
def State.Once (s : State) : Prop := s.eps.Nodup ∧ s.tps.Nodup

/-- From `s` to `s'`: every endpoint and every transport announced as added was added, those announced as deleted were deleted, nothing
else changed, nothing is registered twice. -/
structure Accounted (s s' : State) : Prop where
  trace : ∃ new, s'.trace = s.trace ++ new ∧
    (∀ x, s'.eps.count x + new.count (.epDeleted x) = s.eps.count x + new.count (.epAdded x)) ∧
    (∀ x, s'.tps.count x + new.count (.tpDeleted x) = s.tps.count x + new.count (.tpAdded x))
  once : s'.Once

/-- What the call is for. -/
def Achieved (s' : State) : Op → Prop
  | .addEndPoint e => e ∈ s'.eps
  | .deleteEndPoint e => e ∉ s'.eps
  | .addTransport t => t ∈ s'.tps
  -- a listener that is told may register it again
  | .deleteTransport _ => True

/-- The event has been published and the listeners are about to make the calls `ops`. -/
def start (react : List Event → Event → List Op) (s : State) : Op → Option (State × List Op)
  | .addEndPoint e => if e ∈ s.eps then none else some ({ s with trace := s.trace ++ [.epAdded e] }, react s.trace (.epAdded e))
  | .deleteEndPoint e =>
    if e ∈ s.eps then some ({ s with trace := s.trace ++ [.epDeleted e] }, react s.trace (.epDeleted e)) else none
  | .addTransport t => if t ∈ s.tps then none else some ({ s with trace := s.trace ++ [.tpAdded t] }, react s.trace (.tpAdded t))
  | .deleteTransport t =>
    if t ∈ s.tps then some ({ s with tps := s.tps.erase t, trace := s.trace ++ [.tpDeleted t] }, react s.trace (.tpDeleted t)) else none

/-- Of the calls `ops`, one after the other from `s`: `op` is called in `s'`. -/
inductive Reaches (f : State → Op → Out) : State → List Op → State → Op → Prop
  | here (s op ops) : Reaches f s (op :: ops) s op
  | later {s s1 op ops s' op'} : f s op = .ok s1 → Reaches f s1 ops s' op' → Reaches f s (op :: ops) s' op'

/-- The calls made inside a call, at any depth, and the call itself. -/
inductive Within (react : List Event → Event → List Op) : Nat → State → Op → Nat → State → Op → Prop
  | self (n s op) : Within react n s op n s op
  | inside {n s op s0 ops s1 op1 m s2 op2} : start react s op = some (s0, ops) → Reaches (call react n) s0 ops s1 op1 →
      Within react n s1 op1 m s2 op2 → Within react (n + 1) s op m s2 op2

/-- What the listeners leave behind does not interfere with the call. -/
def Undisturbed (s : State) (s1 : State) : Op → Prop
  | .addEndPoint e => e ∉ s1.eps
  | .deleteEndPoint e => s1.eps[s.eps.idxOf e]? = some e
  | .addTransport t => t ∉ s1.tps
  | .deleteTransport _ => True

/-! ## Proof -/

def finish (s : State) (op : Op) (s1 : State) : Out :=
  match op with
  | .addEndPoint e => .ok { s1 with eps := s1.eps ++ [e] }
  | .deleteEndPoint e =>
    if s.eps.idxOf e + 1 ≤ s1.eps.length then .ok { s1 with eps := s1.eps.eraseIdx (s.eps.idxOf e) } else .panic
  | .addTransport t => .ok { s1 with tps := s1.tps ++ [t] }
  | .deleteTransport _ => .ok s1

theorem idxOf_mid (pre post : List Nat) (a : Nat) (h : a ∉ pre) : (pre ++ a :: post).idxOf a = pre.length := by
  induction pre with
  | nil => simp
  | cons b pre ih =>
    have hb : ¬ b = a := fun e => h (by simp [e])
    have := ih fun e => h (by simp [e])
    have hb' : (b == a) = false := by simp [hb]
    simp [List.idxOf_cons, hb', this]

theorem idxOf?_of_mem {l : List Nat} {a : Nat} (h : a ∈ l) : l.idxOf? a = some (l.idxOf a) := by
  obtain ⟨i, hi⟩ : ∃ i, l.idxOf? a = some i := Option.isSome_iff_exists.mp (by rw [List.isSome_idxOf?]; exact h)
  rw [hi]
  obtain ⟨pre, post, rfl, h1, rfl⟩ := idxOf?_split hi
  rw [idxOf_mid _ _ _ h1]

theorem idxOf?_of_not_mem {l : List Nat} {a : Nat} (h : a ∉ l) : l.idxOf? a = none := by
  cases hi : l.idxOf? a with
  | none => rfl
  | some i =>
    have : (l.idxOf? a).isSome = true := by rw [hi]; rfl
    rw [List.isSome_idxOf?] at this
    exact absurd this h

theorem eraseIdx_idxOf {l : List Nat} {a : Nat} (h : a ∈ l) : l.eraseIdx (l.idxOf a) = l.erase a := by
  obtain ⟨pre, post, rfl, h1, _⟩ := idxOf?_split (idxOf?_of_mem h)
  rw [idxOf_mid _ _ _ h1, eraseIdx_mid, List.erase_append_right _ h1, List.erase_cons_head]

theorem call_eq (react : List Event → Event → List Op) (n : Nat) (s : State) (op : Op) :
    call react (n + 1) s op =
      match start react s op with
      | none => .ok s
      | some (s0, ops) => (runs (call react n) s0 ops).bind (finish s op) := by
  cases op with
  | addEndPoint e =>
    by_cases h : e ∈ s.eps
    · simp only [call, start, if_pos h]
    · simp only [call, start, if_neg h]; rfl
  | deleteEndPoint e =>
    by_cases h : e ∈ s.eps
    · simp only [call, start, if_pos h, idxOf?_of_mem h]; rfl
    · simp only [call, start, if_neg h, idxOf?_of_not_mem h]
  | addTransport t =>
    by_cases h : t ∈ s.tps
    · simp only [call, start, if_pos h]
    · simp only [call, start, if_neg h]; rfl
  | deleteTransport t =>
    by_cases h : t ∈ s.tps
    · simp only [call, start, if_pos h, idxOf?_of_mem h, eraseIdx_idxOf h, publish]
      cases runs (call react n) { s with tps := s.tps.erase t, trace := s.trace ++ [.tpDeleted t] } (react s.trace (.tpDeleted t)) <;> rfl
    · simp only [call, start, if_neg h, idxOf?_of_not_mem h]

theorem Accounted.refl {s : State} (h : s.Once) : Accounted s s := ⟨⟨[], by simp, by simp, by simp⟩, h⟩

theorem Accounted.trans {a b c : State} (h1 : Accounted a b) (h2 : Accounted b c) : Accounted a c := by
  obtain ⟨n1, e1, f1, g1⟩ := h1.trace
  obtain ⟨n2, e2, f2, g2⟩ := h2.trace
  refine ⟨⟨n1 ++ n2, by rw [e2, e1, List.append_assoc], fun x => ?_, fun x => ?_⟩, h2.once⟩
  · have := f1 x; have := f2 x; simp only [List.count_append]; omega
  · have := g1 x; have := g2 x; simp only [List.count_append]; omega

theorem runs_accounted {f : State → Op → Out} (ops : List Op) : ∀ s, s.Once →
    (∀ s' op, Reaches f s ops s' op → s'.Once → ∃ s2, f s' op = .ok s2 ∧ Accounted s' s2) → ∃ s1, runs f s ops = .ok s1 ∧ Accounted s s1 := by
  induction ops with
  | nil => intro s h _; exact ⟨s, rfl, .refl h⟩
  | cons op ops ih =>
    intro s h hall
    obtain ⟨s1, h1, h2⟩ := hall s op (.here s op ops) h
    obtain ⟨s2, h3, h4⟩ := ih s1 h2.once fun s' op' hr => hall s' op' (.later h1 hr)
    exact ⟨s2, by simp only [runs, h1, Out.bind_ok, h3], h2.trans h4⟩

theorem start_once {react : List Event → Event → List Op} {s s0 : State} {op : Op} {ops : List Op} (h : s.Once) (hs : start react s op = some (s0, ops)) :
    s0.Once := by
  cases op <;> simp only [start] at hs <;> split at hs <;> simp only [Option.some.injEq, Prod.mk.injEq, reduceCtorEq] at hs <;>
    obtain ⟨rfl, _⟩ := hs
  · exact h
  · exact h
  · exact h
  · exact ⟨h.1, h.2.erase _⟩

theorem nodup_snoc {l : List Nat} {a : Nat} (h : l.Nodup) (ha : a ∉ l) : (l ++ [a]).Nodup := by
  rw [List.nodup_append]
  exact ⟨h, by simp, fun x hx y hy => by rw [List.mem_singleton] at hy; subst hy; exact fun e => ha (e ▸ hx)⟩

theorem count_eraseIdx {l : List Nat} {i a : Nat} (h : l[i]? = some a) (x : Nat) : (l.eraseIdx i).count x + (if a = x then 1 else 0) = l.count x := by
  induction l generalizing i with
  | nil => simp at h
  | cons b l ih =>
    cases i with
    | zero => simp at h; subst h; simp [List.count_cons]
    | succ i =>
      simp at h
      have := ih h
      simp only [List.eraseIdx_cons_succ, List.count_cons]
      omega

/-- The call after its listeners, if they have not interfered. -/
theorem finish_ok {react : List Event → Event → List Op} {s s0 s1 : State} {op : Op} {ops : List Op} (hs : start react s op = some (s0, ops))
    (ha : Accounted s0 s1) (hu : Undisturbed s s1 op) : ∃ s', finish s op s1 = .ok s' ∧ Accounted s s' ∧ Achieved s' op := by
  obtain ⟨⟨new, e1, f1, g1⟩, o1, o2⟩ := ha
  cases op with
  | addEndPoint e =>
    simp only [start] at hs
    split at hs
    · cases hs
    · injection hs with hs
      injection hs with hs _
      subst hs
      refine ⟨_, rfl, ⟨⟨.epAdded e :: new, by simp only [e1]; simp, fun x => ?_, fun x => ?_⟩, nodup_snoc o1 hu, o2⟩, by simp [Achieved]⟩
      · have := f1 x
        simp only [List.count_append, List.count_cons, List.count_nil] at this ⊢
        by_cases hx : e = x <;> simp [hx] at this ⊢ <;> omega
      · have := g1 x
        simp only [List.count_cons] at this ⊢
        simpa using this
  | addTransport e =>
    simp only [start] at hs
    split at hs
    · cases hs
    · injection hs with hs
      injection hs with hs _
      subst hs
      refine ⟨_, rfl, ⟨⟨.tpAdded e :: new, by simp only [e1]; simp, fun x => ?_, fun x => ?_⟩, o1, nodup_snoc o2 hu⟩, by simp [Achieved]⟩
      · have := f1 x
        simp only [List.count_cons] at this ⊢
        simpa using this
      · have := g1 x
        simp only [List.count_append, List.count_cons, List.count_nil] at this ⊢
        by_cases hx : e = x <;> simp [hx] at this ⊢ <;> omega
  | deleteEndPoint e =>
    simp only [start] at hs
    split at hs
    · injection hs with hs
      injection hs with hs _
      subst hs
      simp only [Undisturbed] at hu
      have hl : s.eps.idxOf e + 1 ≤ s1.eps.length := by
        apply Classical.byContradiction
        intro hl
        rw [List.getElem?_eq_none (by omega)] at hu
        cases hu
      have hc := count_eraseIdx hu
      refine ⟨{ s1 with eps := s1.eps.eraseIdx (s.eps.idxOf e) }, by simp only [finish, if_pos hl],
        ⟨⟨.epDeleted e :: new, by simp only [e1]; simp, fun x => ?_, fun x => ?_⟩, o1.sublist (List.eraseIdx_sublist _ _), o2⟩, ?_⟩
      · have h1 := f1 x
        have h2 := hc x
        simp only [List.count_cons] at h1 ⊢
        by_cases hx : e = x <;> simp [hx] at h1 h2 ⊢ <;> omega
      · have := g1 x
        simp only [List.count_cons] at this ⊢
        simpa using this
      · simp only [Achieved]
        rw [← List.count_eq_zero]
        have h1 := hc e
        have h2 := List.nodup_iff_count.mp o1 e
        simp only [if_true] at h1
        omega
    · cases hs
  | deleteTransport e =>
    simp only [start] at hs
    split at hs
    · rename_i hmem
      injection hs with hs
      injection hs with hs _
      subst hs
      refine ⟨s1, rfl, ⟨⟨.tpDeleted e :: new, by simp only [e1]; simp, fun x => ?_, fun x => ?_⟩, o1, o2⟩, trivial⟩
      · have := f1 x
        simp only [List.count_cons] at this ⊢
        simpa using this
      · have := g1 x
        have hpos := List.count_pos_iff.mpr hmem
        simp only [List.count_cons, List.count_erase] at this ⊢
        by_cases hx : e = x
        · subst hx; simp at this ⊢; omega
        · have hx' : ¬ x = e := fun h => hx h.symm
          simp [hx, hx'] at this ⊢; omega
    · cases hs

/-- Conversely. -/
theorem finish_disturbed {react : List Event → Event → List Op} {s s0 s1 s' : State} {op : Op} {ops : List Op} (hs : start react s op = some (s0, ops))
    (ha : Accounted s0 s1) (hf : finish s op s1 = .ok s') (hb : Accounted s s') : Undisturbed s s1 op := by
  cases op with
  | addEndPoint e =>
    simp only [finish, Out.ok.injEq] at hf
    subst hf
    intro hmem
    have := (List.nodup_append.mp hb.once.1).2.2 e hmem e (by simp)
    exact this rfl
  | addTransport e =>
    simp only [finish, Out.ok.injEq] at hf
    subst hf
    intro hmem
    have := (List.nodup_append.mp hb.once.2).2.2 e hmem e (by simp)
    exact this rfl
  | deleteTransport e => trivial
  | deleteEndPoint e =>
    simp only [start] at hs
    split at hs
    · injection hs with hs
      injection hs with hs _
      subst hs
      simp only [finish] at hf
      split at hf
      · rename_i hl
        simp only [Out.ok.injEq] at hf
        subst hf
        obtain ⟨n1, e1, f1, _⟩ := ha.trace
        obtain ⟨n2, e2, f2, _⟩ := hb.trace
        simp only at e1 e2
        have hn : n2 = .epDeleted e :: n1 := by
          rw [e1, List.append_assoc] at e2
          exact (List.append_cancel_left e2).symm
        subst hn
        simp only [Undisturbed]
        obtain ⟨b, hb⟩ : ∃ b, s1.eps[s.eps.idxOf e]? = some b := ⟨_, List.getElem?_eq_getElem (by omega)⟩
        rw [hb]
        have h1 := f1 e
        have h2 := f2 e
        have h3 := count_eraseIdx hb e
        simp only [List.count_cons] at h1 h2
        by_cases hbe : b = e
        · rw [hbe]
        · simp [hbe] at h1 h2 h3
          omega
      · cases hf
    · cases hs

theorem within_inside {react : List Event → Event → List Op} {n m : Nat} {s s' s0 s1 : State} {op op' op1 : Op} {ops : List Op}
    (hw : Within react n s op (m + 1) s' op') (hs : start react s' op' = some (s0, ops)) (hr : Reaches (call react m) s0 ops s1 op1) :
    Within react n s op m s1 op1 := by
  generalize hm : m + 1 = m' at hw
  induction hw with
  | self => subst hm; exact .inside hs hr (.self ..)
  | inside hs' hr' _ ih => exact .inside hs' hr' (ih hs hm)

theorem reached_once {f : State → Op → Out} {s0 s1 : State} {ops : List Op} {op1 : Op} (hr : Reaches f s0 ops s1 op1) : s0.Once →
    (∀ s' op, Reaches f s0 ops s' op → s'.Once → ∃ s2, f s' op = .ok s2 ∧ Accounted s' s2) → s1.Once := by
  induction hr with
  | here => intro h _; exact h
  | later hf _ ih =>
    intro h hall
    obtain ⟨s2, g1, g2⟩ := hall _ _ (.here ..) h
    rw [hf] at g1
    injection g1 with g1
    subst g1
    exact ih g2.once fun s' op' hr' => hall s' op' (.later hf hr')

/-- The call is not out of depth and its listeners do not interfere. -/
def Free (react : List Event → Event → List Op) (m : Nat) (s : State) (op : Op) : Prop :=
  0 < m ∧ ∀ s0 ops s1, start react s op = some (s0, ops) → runs (call react (m - 1)) s0 ops = .ok s1 → Undisturbed s s1 op

/-- The call returns, what is announced is what happens, and it achieves what it is for. -/
def Right (react : List Event → Event → List Op) (m : Nat) (s : State) (op : Op) : Prop :=
  ∃ s', call react m s op = .ok s' ∧ Accounted s s' ∧ Achieved s' op

theorem achieved_none {react : List Event → Event → List Op} {s : State} {op : Op} (h : start react s op = none) : Achieved s op := by
  cases op <;> simp only [start] at h <;> split at h <;> first | cases h | skip
  · assumption
  · assumption
  · assumption
  · trivial

theorem right_of_free (react : List Event → Event → List Op) (n : Nat) : ∀ s op, s.Once → (∀ m s' op', Within react n s op m s' op' → Free react m s' op') →
    Right react n s op := by
  induction n with
  | zero => intro s op _ hall; exact absurd (hall _ _ _ (.self ..)).1 (by omega)
  | succ n ih =>
    intro s op h hall
    cases hs : start react s op with
    | none => exact ⟨s, by rw [call_eq, hs], .refl h, achieved_none hs⟩
    | some p =>
      obtain ⟨s0, ops⟩ := p
      obtain ⟨s1, h1, h2⟩ := runs_accounted (f := call react n) ops s0 (start_once h hs) fun s' op' hr ho => by
        obtain ⟨s2, g1, g2, _⟩ := ih s' op' ho fun m s4 op4 hw => hall m s4 op4 (.inside hs hr hw)
        exact ⟨s2, g1, g2⟩
      obtain ⟨s', g1, g2, g3⟩ := finish_ok hs h2 ((hall _ _ _ (.self ..)).2 s0 ops s1 hs h1)
      exact ⟨s', by rw [call_eq, hs]; simp only [h1, Out.bind_ok, g1], g2, g3⟩

/-- **C68, exactly**, for all listeners and a depth of calls `n`: each call, and each call made inside it at any depth by the
listeners, returns without panic, registers or removes exactly what is announced, once, and achieves what it is for — iff in each of these
calls that has not run out of depth the listeners, when they come back, have not registered what the call adds, and the endpoint it
deletes is still at the place where it was found. -/
theorem c68_exact (react : List Event → Event → List Op) (n : Nat) (s : State) (op : Op) (h : s.Once) :
    (∀ m s' op', Within react n s op m s' op' → Right react m s' op') ↔ ∀ m s' op', Within react n s op m s' op' → Free react m s' op' := by
  constructor
  · intro hall
    have honce : ∀ m s' op', Within react n s op m s' op' → s'.Once := by
      intro m s' op' hw
      induction hw with
      | self => exact h
      | inside hs hr hw ih =>
        refine ih (reached_once hr (start_once h hs) fun s' op' hr' _ => ?_) fun m s' op' hw' => hall m s' op' (.inside hs hr hw')
        obtain ⟨s2, g1, g2, _⟩ := hall _ s' op' (.inside hs hr' (.self ..))
        exact ⟨s2, g1, g2⟩
    intro m s' op' hw
    obtain ⟨s2, h1, h2, _⟩ := hall m s' op' hw
    cases m with
    | zero => simp [call] at h1
    | succ m =>
      refine ⟨by omega, fun s0 ops s1 hs hr => ?_⟩
      simp only [Nat.add_sub_cancel] at hr
      rw [call_eq, hs] at h1
      simp only [hr, Out.bind_ok] at h1
      obtain ⟨s3, g1, g2⟩ := runs_accounted (f := call react m) ops s0 (start_once (honce _ _ _ hw) hs) fun s4 op4 hr4 _ => by
        obtain ⟨s5, k1, k2, _⟩ := hall m s4 op4 (within_inside hw hs hr4)
        exact ⟨s5, k1, k2⟩
      rw [hr] at g1
      injection g1 with g1
      subst g1
      exact finish_disturbed hs g2 h1 h2
  · intro hall m s' op' hw
    induction hw with
    | self => exact right_of_free react _ _ _ h hall
    | inside hs hr hw ih =>
      refine ih (reached_once hr (start_once h hs) fun s' op' hr' ho => ?_) fun m s' op' hw' => hall m s' op' (.inside hs hr hw')
      obtain ⟨s2, g1, g2, _⟩ := right_of_free react _ s' op' ho fun m s4 op4 hw => hall m s4 op4 (.inside hs hr' hw)
      exact ⟨s2, g1, g2⟩

/-- Deleting endpoint 2 takes 1 with it: 2 is not at its place any more. -/
example : ¬ Free together 3 ⟨[1, 2, 3], [], []⟩ (.deleteEndPoint 2) := fun h => by
  have : ([2, 3] : List Nat)[([1, 2, 3] : List Nat).idxOf 2]? = some 2 := h.2 _ _ ⟨[2, 3], [], [.epDeleted 2, .epDeleted 1]⟩ rfl rfl
  exact absurd this (by decide)

/-- A listener that takes endpoint 3 away when endpoint 2 goes: fine. -/
def after : List Event → Event → List Op
  | _, .epDeleted 2 => [.deleteEndPoint 3]
  | _, _ => []

example : Free after 3 ⟨[1, 2, 3], [], []⟩ (.deleteEndPoint 2) := by
  refine ⟨by decide, fun s0 ops s1 hs hr => ?_⟩
  simp only [start] at hs
  rw [if_pos (by decide)] at hs
  injection hs with hs
  injection hs with h1 h2
  subst h1 h2
  have : runs (call after (3 - 1)) ⟨[1, 2, 3], [], [] ++ [.epDeleted 2]⟩ (after [] (.epDeleted 2)) = .ok ⟨[1, 2], [], [.epDeleted 2, .epDeleted 3]⟩ := by
    decide
  rw [this] at hr
  injection hr with hr
  subst hr
  rfl

end Verif.Reg.Reentrant
