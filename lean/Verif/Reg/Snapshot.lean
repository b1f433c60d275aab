import Verif.Reg.Build

/-!
# Which slices returned by the getters stay as they were (C44), exactly
-/

namespace Verif.Reg

/-- One of the lists begins with the other. -/
def Agree (a b : List α) : Prop := a <+: b ∨ b <+: a

/-- What a call does to a slice and the arrays: nothing, an `append` of one element, or the removal of one. -/
inductive Mem.Change (m : Mem α) (cur : Slice) : Mem α → Slice → Prop
  | same : Change m cur m cur
  | append (z x : α) (spare : Nat) : Change m cur (m.append z spare cur x).1 (m.append z spare cur x).2
  | delete (i : Nat) (h : i < cur.len) : Change m cur (m.deleteAt cur i).1 (m.deleteAt cur i).2

variable {m m' : Mem α} {cur cur' s : Slice} {cap : Nat}

theorem Mem.Change.ok (h : m.Change cur m' cur') (hk : m.Ok cur) : m'.Ok cur' := by
  cases h with
  | same => exact hk
  | append z x spare => exact Mem.ok_append hk
  | delete i hi => exact Mem.ok_deleteAt hk hi

/-- The slice `cur` is in the array of the earlier slice `s`, which has `cap` elements. -/
structure Attached (m : Mem α) (cur s : Slice) (cap : Nat) : Prop where
  ok : m.Ok cur
  arr : cur.arr = s.arr
  len : s.len ≤ cap
  cap : (m.arrs s.arr).length = cap

theorem Attached.change (h : Attached m cur s cap) (hc : m.Change cur m' cur') :
    (Attached m' cur' s cap ∧ cur'.len ≤ cap ∧ (m'.arrs s.arr).drop cur'.len = (m.arrs s.arr).drop cur'.len) ∨
    (cap < cur'.len ∧ cur'.arr ≠ s.arr ∧ s.arr < m'.next ∧ m'.read s = m.read s) := by
  have hl := h.ok.len
  have hold := h.ok.old
  rw [h.arr, h.cap] at hl
  rw [h.arr] at hold
  have hk' := hc.ok h.ok
  cases hc with
  | same => exact .inl ⟨h, hl, rfl⟩
  | append z x spare =>
    by_cases hlt : cur.len < (m.arrs cur.arr).length
    · left
      have e : m.append z spare cur x = (m.put cur.arr ((m.arrs cur.arr).set cur.len x), ⟨cur.arr, cur.len + 1⟩) := by
        simp only [Mem.append, if_pos hlt]
      rw [e] at hk' ⊢
      rw [h.arr, h.cap] at hlt
      refine ⟨⟨hk', h.arr, h.len, ?_⟩, hlt, ?_⟩
      · simp only [Mem.put, h.arr, if_pos, List.length_set]; exact h.cap
      · simp only [Mem.put, h.arr, if_pos]
        rw [List.drop_set_of_lt (by omega)]
    · right
      have e : m.append z spare cur x = ({ (m.put m.next (m.read cur ++ [x] ++ List.replicate spare z)) with next := m.next + 1 }, ⟨m.next, cur.len + 1⟩) := by
        simp only [Mem.append, if_neg hlt]
      rw [h.arr, h.cap] at hlt
      rw [e]
      refine ⟨by show cap < cur.len + 1; omega, by show m.next ≠ s.arr; omega, by show s.arr < m.next + 1; omega, ?_⟩
      simp only [Mem.read, Mem.put]
      rw [if_neg (by omega)]
  | delete i hi =>
    left
    have hlen := Mem.deleteAt_length h.ok hi
    refine ⟨⟨hk', h.arr, h.len, by rw [← h.arr, hlen, h.arr]; exact h.cap⟩, by show cur.len - 1 ≤ cap; omega, ?_⟩
    have h1 : (List.take i (m.arrs s.arr) ++ List.drop (i + 1) (List.take cur.len (m.arrs s.arr))).length = cur.len - 1 := by
      have := h.cap
      simp only [List.length_append, List.length_take, List.length_drop]; omega
    simp only [Mem.deleteAt, Mem.put, h.arr, if_pos]
    rw [List.drop_append, h1, Nat.sub_self, List.drop_zero, List.drop_of_length_le (by omega), List.nil_append]

/-- Once elsewhere, the earlier slice does not change any more. -/
theorem detached_change (ha : cur.arr ≠ s.arr) (ho : s.arr < m.next) (hk : m.Ok cur) (hc : m.Change cur m' cur') :
    cur'.arr ≠ s.arr ∧ s.arr < m'.next ∧ m'.read s = m.read s := by
  cases hc with
  | same => exact ⟨ha, ho, rfl⟩
  | append z x spare =>
    refine ⟨?_, ?_, Mem.append_other ho fun e => absurd e.symm ha⟩
    · simp only [Mem.append]; split
      · exact ha
      · show m.next ≠ s.arr; omega
    · simp only [Mem.append]; split
      · exact ho
      · show s.arr < m.next + 1; omega
  | delete i hi => exact ⟨ha, ho, Mem.deleteAt_other fun e => ha e.symm⟩

theorem read_eq_iff {l l' : List α} {k n : Nat} (hd : l'.drop n = l.drop n) (hl : l'.length = l.length) (hk : k ≤ l.length) (hn : n ≤ l.length) :
    l'.take k = l.take k ↔ Agree (l'.take n) (l.take k) := by
  constructor
  · intro h
    rw [← h]
    rcases Nat.le_total n k with hh | hh
    · exact .inl (List.take_prefix_take_left hh)
    · exact .inr (List.take_prefix_take_left hh)
  · intro h
    rcases Nat.le_total k n with hh | hh
    · have h2 : l.take k <+: l'.take n := by
        rcases h with h | h
        · have he := h.eq_of_length_le (by simp only [List.length_take]; omega)
          rw [he]; exact List.prefix_refl _
        · exact h
      have h3 := List.prefix_iff_eq_take.mp h2
      rw [List.length_take, Nat.min_eq_left hk, List.take_take, Nat.min_eq_left hh] at h3
      exact h3.symm
    · have h2 : l'.take n <+: l.take k := by
        rcases h with h | h
        · exact h
        · have he := h.eq_of_length_le (by simp only [List.length_take]; omega)
          rw [he]; exact List.prefix_refl _
      have h3 := List.prefix_iff_eq_take.mp h2
      rw [List.length_take, Nat.min_eq_left (by omega), List.take_take, Nat.min_eq_left hh] at h3
      have : l' = l := by rw [← List.take_append_drop n l', ← List.take_append_drop n l, h3, hd]
      rw [this]

/-- Histories of any system that keeps a slice and changes it this way. -/
theorem snapshot_exact {σ ο : Type} (step : σ → ο → σ) (mem : σ → Mem α) (cur : σ → Slice)
    (hch : ∀ v o, (mem v).Ok (cur v) → (mem v).Change (cur v) (mem (step v o)) (cur (step v o)))
    (s : Slice) (cap : Nat) (l0 : List α) : ∀ (ops : List ο) (v : σ), Attached (mem v) (cur v) s cap → (mem v).read s = l0 →
    ((∀ pre, pre <+: ops → (mem (pre.foldl step v)).read s = l0) ↔
      ∀ pre, pre <+: ops → (∀ p, p <+: pre → (cur (p.foldl step v)).len ≤ cap) → Agree ((mem (pre.foldl step v)).read (cur (pre.foldl step v))) l0) := by
  have away : ∀ (ops : List ο) (v : σ), (mem v).Ok (cur v) → (cur v).arr ≠ s.arr → s.arr < (mem v).next →
      (mem (ops.foldl step v)).read s = (mem v).read s := by
    intro ops
    induction ops with
    | nil => intro v _ _ _; rfl
    | cons o ops ih =>
      intro v h1 h2 h3
      obtain ⟨g1, g2, g3⟩ := detached_change h2 h3 h1 (hch v o h1)
      exact (ih (step v o) ((hch v o h1).ok h1) g1 g2).trans g3
  have now : ∀ v, Attached (mem v) (cur v) s cap → (mem v).read s = l0 → Agree ((mem v).read (cur v)) l0 := by
    intro v ha hr
    have := (read_eq_iff (l := (mem v).arrs s.arr) (k := s.len) (n := (cur v).len) rfl rfl (by rw [ha.cap]; exact ha.len)
      (by have := ha.ok.len; rw [ha.arr] at this; exact this)).mp rfl
    simp only [Mem.read] at hr ⊢
    rw [ha.arr, ← hr]
    exact this
  intro ops
  induction ops with
  | nil =>
    intro v ha hr
    constructor
    · intro _ pre hp _
      have : pre = [] := List.prefix_nil.mp hp
      subst this
      exact now v ha hr
    · intro _ pre hp
      have : pre = [] := List.prefix_nil.mp hp
      subst this
      exact hr
  | cons o ops ih =>
    intro v ha hr
    have hc := hch v o ha.ok
    have hcur : (cur v).len ≤ cap := by have := ha.ok.len; rw [ha.arr, ha.cap] at this; exact this
    rcases ha.change hc with ⟨ha', hle, hd⟩ | ⟨h1, h2, h3, h4⟩
    · have hiff := read_eq_iff (k := s.len) hd (by rw [ha'.cap, ha.cap]) (by rw [ha.cap]; exact ha.len) (by rw [ha.cap]; exact hle)
      have hread : (mem (step v o)).read s = l0 ↔ Agree ((mem (step v o)).read (cur (step v o))) l0 := by
        simp only [Mem.read] at hr ⊢
        rw [ha'.arr, ← hr]
        exact hiff
      constructor
      · intro h pre hp hcap
        cases pre with
        | nil => exact now v ha hr
        | cons a pre =>
          obtain ⟨rfl, hp'⟩ := List.cons_prefix_cons.mp hp
          have hs : (mem (step v a)).read s = l0 := h [a] (List.cons_prefix_cons.mpr ⟨rfl, List.nil_prefix⟩)
          exact (ih (step v a) ha' hs).mp (fun p hp => h (a :: p) (List.cons_prefix_cons.mpr ⟨rfl, hp⟩)) pre hp'
            (fun p hp => hcap (a :: p) (List.cons_prefix_cons.mpr ⟨rfl, hp⟩))
      · intro h pre hp
        cases pre with
        | nil => exact hr
        | cons a pre =>
          obtain ⟨rfl, hp'⟩ := List.cons_prefix_cons.mp hp
          have hstep : ∀ p, p <+: ([] : List ο) → (cur (p.foldl step (step v a))).len ≤ cap := by
            intro p hp
            have : p = [] := List.prefix_nil.mp hp
            subst this
            exact hle
          have lift : ∀ q, (∀ p, p <+: q → (cur (p.foldl step (step v a))).len ≤ cap) → ∀ p, p <+: (a :: q) → (cur (p.foldl step v)).len ≤ cap := by
            intro q hq p hp
            cases p with
            | nil => exact hcur
            | cons b p =>
              obtain ⟨rfl, hp'⟩ := List.cons_prefix_cons.mp hp
              exact hq p hp'
          have hs : (mem (step v a)).read s = l0 :=
            hread.mpr (h [a] (List.cons_prefix_cons.mpr ⟨rfl, List.nil_prefix⟩) (lift [] hstep))
          exact (ih (step v a) ha' hs).mpr
            (fun q hq hqc => h (a :: q) (List.cons_prefix_cons.mpr ⟨rfl, hq⟩) (lift q hqc)) pre hp'
    · constructor
      · intro h pre hp hcap
        cases pre with
        | nil => exact now v ha hr
        | cons a pre =>
          obtain ⟨rfl, hp'⟩ := List.cons_prefix_cons.mp hp
          have := hcap [a] (List.cons_prefix_cons.mpr ⟨rfl, List.nil_prefix⟩)
          have this : (cur (step v a)).len ≤ cap := this
          omega
      · intro _ pre hp
        cases pre with
        | nil => exact hr
        | cons a pre =>
          obtain ⟨rfl, hp'⟩ := List.cons_prefix_cons.mp hp
          exact (away pre (step v a) (hc.ok ha.ok) h2 h3).trans (h4.trans hr)

theorem echange (u : U) (op : Op) (hk : u.emem.Ok u.endpoints) :
    u.emem.Change u.endpoints (u.step op).emem (u.step op).endpoints := by
  by_cases hop : ∃ e, op = .deleteEndPoint e ∨ op = .addEndPoint e
  · obtain ⟨e, rfl | rfl⟩ := hop
    · simp only [U.step, U.deleteEndPoint]
      cases hi : u.eps.idxOf? e with
      | none => exact .same
      | some i =>
        obtain ⟨h1, h2, _⟩ := emem_publish u ⟨.endpointDeleted, .ep e⟩
        have hl := (idxOf?_mem hi).2
        have hlen := Mem.read_length hk
        simp only
        rw [h1, h2]
        exact .delete i (by unfold U.eps at hl; omega)
    · simp only [U.step, U.addEndPoint]
      split
      · exact .same
      · obtain ⟨h1, h2, _⟩ := emem_publish u ⟨.endpointAdded, .ep e⟩
        simp only
        rw [h1, h2]
        exact .append ..
  · have : (u.step op).emem = u.emem ∧ (u.step op).endpoints = u.endpoints := by
      cases op with
      | addEndPoint e => exact absurd ⟨e, .inr rfl⟩ hop
      | deleteEndPoint e => exact absurd ⟨e, .inl rfl⟩ hop
      | addTransport t =>
        simp only [U.step, U.addTransport]
        split
        · exact ⟨rfl, rfl⟩
        · obtain ⟨h1, h2, _⟩ := emem_publish u ⟨.transportAdded, .tp t⟩
          exact ⟨h1, h2⟩
      | deleteTransport t =>
        simp only [U.step, U.deleteTransport]
        split
        · exact ⟨rfl, rfl⟩
        · generalize hv : (U.mk _ _ _ _ _ _ _ _ _ _ _ _ _ _ _ _ _ _ _ : U) = v
          obtain ⟨h1, h2, _⟩ := emem_publish v ⟨.transportDeleted, .tp t⟩
          rw [h1, h2]
          subst hv
          exact ⟨rfl, rfl⟩
      | publish t c => exact ⟨(emem_publish u ⟨t, .conn c⟩).1, (emem_publish u ⟨t, .conn c⟩).2.1⟩
      | run => exact ⟨(emem_run u).1, (emem_run u).2.1⟩
      | _ => exact ⟨rfl, rfl⟩
    rw [this.1, this.2]
    exact .same

theorem tchange (u : U) (op : Op) (hk : u.tmem.Ok u.transports) :
    u.tmem.Change u.transports (u.step op).tmem (u.step op).transports := by
  by_cases hop : ∃ e, op = .deleteTransport e ∨ op = .addTransport e
  · obtain ⟨e, rfl | rfl⟩ := hop
    · simp only [U.step, U.deleteTransport]
      cases hi : u.tps.idxOf? e with
      | none => exact .same
      | some i =>
        have hl := (idxOf?_mem hi).2
        have hlen := Mem.read_length hk
        simp only
        generalize hv : (U.mk _ _ _ _ _ _ _ _ _ _ _ _ _ _ _ _ _ _ _ : U) = v
        obtain ⟨_, _, h1, h2, _⟩ := emem_publish v ⟨.transportDeleted, .tp e⟩
        rw [h1, h2]
        subst hv
        exact .delete i (by unfold U.tps at hl; omega)
    · simp only [U.step, U.addTransport]
      split
      · exact .same
      · obtain ⟨_, _, h1, h2, _⟩ := emem_publish u ⟨.transportAdded, .tp e⟩
        simp only
        rw [h1, h2]
        exact .append ..
  · have : (u.step op).tmem = u.tmem ∧ (u.step op).transports = u.transports := by
      cases op with
      | addTransport e => exact absurd ⟨e, .inr rfl⟩ hop
      | deleteTransport e => exact absurd ⟨e, .inl rfl⟩ hop
      | addEndPoint t =>
        simp only [U.step, U.addEndPoint]
        split
        · exact ⟨rfl, rfl⟩
        · obtain ⟨_, _, h1, h2, _⟩ := emem_publish u ⟨.endpointAdded, .ep t⟩
          exact ⟨h1, h2⟩
      | deleteEndPoint t =>
        simp only [U.step, U.deleteEndPoint]
        split
        · exact ⟨rfl, rfl⟩
        · obtain ⟨_, _, h1, h2, _⟩ := emem_publish u ⟨.endpointDeleted, .ep t⟩
          exact ⟨h1, h2⟩
      | publish t c => exact ⟨(emem_publish u ⟨t, .conn c⟩).2.2.1, (emem_publish u ⟨t, .conn c⟩).2.2.2.1⟩
      | run => exact ⟨(emem_run u).2.2.1, (emem_run u).2.2.2⟩
      | _ => exact ⟨rfl, rfl⟩
    rw [this.1, this.2]
    exact .same

theorem ok_steps {u : U} (h : u.Inv) (ops : List Op) : (u.steps ops).emem.Ok (u.steps ops).endpoints ∧ (u.steps ops).tmem.Ok (u.steps ops).transports := by
  have h1 := h.eok
  have h2 := h.tok
  clear h
  induction ops generalizing u with
  | nil => exact ⟨h1, h2⟩
  | cons op ops ih => exact @ih (u.step op) ((echange u op h1).ok h1) ((tchange u op h2).ok h2)

/-- C44, exactly, for whole histories.  A slice returned by `GetEndPoint` shows the same endpoints after every call of a history iff,
as long as not more endpoints are registered than the slice has capacity for, the registered endpoints begin with those of the slice
or those of the slice begin with the registered ones: no endpoint in the slice is deleted except from the end, and in the
places of those deleted only the same are added again.  Likewise for `GetTransport`. -/
theorem c44_exact (u : U) (h : u.Inv) (ops : List Op) :
    ((∀ pre, pre <+: ops → (u.steps pre).emem.read u.endpoints = u.eps) ↔
      ∀ pre, pre <+: ops → (∀ p, p <+: pre → (u.steps p).eps.length ≤ (u.emem.arrs u.endpoints.arr).length) → Agree (u.steps pre).eps u.eps) ∧
    ((∀ pre, pre <+: ops → (u.steps pre).tmem.read u.transports = u.tps) ↔
      ∀ pre, pre <+: ops → (∀ p, p <+: pre → (u.steps p).tps.length ≤ (u.tmem.arrs u.transports.arr).length) → Agree (u.steps pre).tps u.tps) := by
  have hel : ∀ p, (u.steps p).eps.length = (u.steps p).endpoints.len := fun p => Mem.read_length (ok_steps h p).1
  have htl : ∀ p, (u.steps p).tps.length = (u.steps p).transports.len := fun p => Mem.read_length (ok_steps h p).2
  simp only [hel, htl]
  exact ⟨snapshot_exact U.step U.emem U.endpoints echange u.endpoints _ u.eps ops u ⟨h.eok, rfl, h.eok.len, rfl⟩ rfl,
    snapshot_exact U.step U.tmem U.transports tchange u.transports _ u.tps ops u ⟨h.tok, rfl, h.tok.len, rfl⟩ rfl⟩

/-- Deleting the last endpoint and adding it again does not show ... -/
example : let u := (U.new (fun e => e) (fun _ => 0) (fun n => n)).steps [.addEndPoint 7, .addEndPoint 8]
    ∀ pre, pre <+: [Op.deleteEndPoint 8, .addEndPoint 8] → (u.steps pre).emem.read u.endpoints = [7, 8] := by
  intro u pre hp
  rw [List.prefix_cons_iff] at hp
  rcases hp with rfl | ⟨t, rfl, hp⟩
  · rfl
  · rw [List.prefix_cons_iff] at hp
    rcases hp with rfl | ⟨t, rfl, hp⟩
    · rfl
    · rw [List.prefix_nil] at hp
      subst hp
      rfl

/-- ... but adding another one does. -/
example : let u := (U.new (fun e => e) (fun _ => 0) (fun n => n)).steps [.addEndPoint 7, .addEndPoint 8]
    ¬ ∀ pre, pre <+: [Op.deleteEndPoint 8, .addEndPoint 9] → (u.steps pre).emem.read u.endpoints = u.eps := by
  intro u h
  have hinv : u.Inv := ⟨⟨by decide, by decide⟩, Mem.ok_nil, by decide, by decide⟩
  have := ((c44_exact u hinv _).1.mp h) [.deleteEndPoint 8, .addEndPoint 9] (List.prefix_refl _) (by
    intro p hp
    rw [List.prefix_cons_iff] at hp
    rcases hp with rfl | ⟨t, rfl, hp⟩
    · decide
    · rw [List.prefix_cons_iff] at hp
      rcases hp with rfl | ⟨t, rfl, hp⟩
      · decide
      · rw [List.prefix_nil] at hp
        subst hp
        decide)
  rcases this with h | h <;> exact absurd h (by decide)

end Verif.Reg
