import Verif.UBuf.Conc

/-!
# When a concurrent `Reset` is harmless (C14)

`c14_reset_race` shows one schedule in which the `Reset` of one goroutine damages the message of
another.  Here: the exact condition on the snapshots under which no schedule does.
-/

namespace Verif.UBuf.Conc

/-- Content of a goroutine's buffer, in terms of the block as it is now. -/
def ThOk2 (arr : List Byte) (t : Th) (g : List Byte) : Prop :=
  t.rd ≤ t.wr ∧ match t.pc with
  | .flagged | .owner => t.wr ≤ arr.length ∧ g = window arr t
  | .loaded _ | .ownerStore _ => t.wr < arr.length ∧ g = window arr t
  | .copying _ got => t.wr < arr.length ∧ g = window arr t ∧ got = (window arr t).take got.length
  | .own a => t.wr ≤ a.length ∧ g = window a t ∧ a.length = arr.length

/-- What keeps the store of an owner out of a window that is being copied. -/
def Tame (len res w : Nat) (t : Th) : Prop :=
  match t.pc with
  | .own _ => True
  | .owner | .ownerStore _ => w ≤ res → w ≤ t.wr
  | .flagged => (t.rd = t.wr ∨ (t.wr = w ∧ (len ≤ w ∨ w ≤ res))) ∧ (w ≤ res → w ≤ t.wr)
  | .loaded _ => (t.rd = t.wr ∨ (t.wr = w ∧ w ≤ res)) ∧ (w ≤ res → w ≤ t.wr)
  | .copying _ _ => t.rd = t.wr ∨ (t.wr = w ∧ w ≤ res)

structure Inv2 (n len res w : Nat) (s : Sys) (g : Nat → List Byte) : Prop where
  alen : s.arr.length = len
  rc : s.rc = holders n s.th
  own : ∀ i j, i < n → j < n → i ≠ j →
    ((s.th i).pc = .owner ∨ ∃ c, (s.th i).pc = .ownerStore c) → holds (s.th j).pc = false
  th : ∀ i, i < n → ThOk2 s.arr (s.th i) (g i)
  tame : n ≤ 1 ∨ ∀ i, i < n → Tame len res w (s.th i)

theorem Inv2.private {n len res w : Nat} {s : Sys} {g : Nat → List Byte} (h : Inv2 n len res w s g)
    (i : Nat) (hi : i < n) (t : Th) (x : List Byte) (hh : holds t.pc = holds (s.th i).pc)
    (ho : (t.pc = .owner ∨ ∃ c, t.pc = .ownerStore c) → ∀ j, j < n → j ≠ i → holds (s.th j).pc = false)
    (hx : ThOk2 s.arr t x) (ht : Tame len res w (s.th i) → Tame len res w t) :
    Inv2 n len res w (s.upd i t) (fun j => if j = i then x else g j) := by
  refine ⟨h.alen, ?_, ?_, ?_, ?_⟩
  · have := holders_upd n i hi s t
    rw [hh] at this
    have h2 := h.rc
    simp only [Sys.upd] at *
    omega
  · intro a b ha hb hab hown
    by_cases hbi : b = i
    · subst hbi
      rw [upd_other _ _ _ _ hab] at hown
      rw [upd_same, hh]
      exact h.own a b ha hb hab hown
    · rw [upd_other _ _ _ _ hbi]
      by_cases hai : a = i
      · subst hai
        rw [upd_same] at hown
        exact ho hown b hb hbi
      · rw [upd_other _ _ _ _ hai] at hown
        exact h.own a b ha hb hab hown
  · intro j hj
    by_cases hji : j = i
    · subst hji; rw [upd_same]; simpa [Sys.upd] using hx
    · rw [upd_other _ _ _ _ hji]
      simp only [hji, if_false]
      exact h.th j hj
  · rcases h.tame with hn | hta
    · exact Or.inl hn
    · refine Or.inr fun j hj => ?_
      by_cases hji : j = i
      · subst hji; rw [upd_same]; exact ht (hta j hj)
      · rw [upd_other _ _ _ _ hji]; exact hta j hj

/-- A store outside a window leaves it as it is. -/
theorem window_store (arr : List Byte) (k : Nat) (c : Byte) (t : Th) (hk : k < arr.length)
    (h : t.rd = t.wr ∨ t.wr ≤ k) : window (overwrite arr k [c]) t = window arr t := by
  rcases h with h | h
  · simp only [window]
    rw [List.drop_of_length_le (by simp; omega), List.drop_of_length_le (by simp; omega)]
  · simp only [window, overwrite]
    rw [List.append_assoc, List.take_append_of_le_length (by simp; omega), List.take_take,
      Nat.min_eq_left h]

theorem Inv2.store {n len res w : Nat} {s : Sys} {g : Nat → List Byte} (h : Inv2 n len res w s g)
    (i : Nat) (hi : i < n) (c : Byte) (hhold : (s.th i).pc = .owner ∨ ∃ c, (s.th i).pc = .ownerStore c)
    (hl : (s.th i).wr < s.arr.length)
    (hx : (s.th i).rd ≤ (s.th i).wr ∧ g i = window s.arr (s.th i)) :
    Inv2 n len res w ({ s with arr := overwrite s.arr (s.th i).wr [c] }.upd i
        { rd := (s.th i).rd, wr := (s.th i).wr + 1, pc := .owner })
      (fun j => if j = i then g i ++ [c] else g j) := by
  have ho : ∀ j, j < n → j ≠ i → holds (s.th j).pc = false :=
    fun j hj hji => h.own i j hi hj (Ne.symm hji) hhold
  have hholds : holds (s.th i).pc = true := by
    rcases hhold with e | ⟨c, e⟩ <;> rw [e] <;> rfl
  have hlen : (overwrite s.arr (s.th i).wr [c]).length = s.arr.length :=
    length_overwrite _ _ _ (by simp; omega)
  refine ⟨by simp only [Sys.upd]; rw [hlen, h.alen], ?_, ?_, ?_, ?_⟩
  · have := holders_upd n i hi s { rd := (s.th i).rd, wr := (s.th i).wr + 1, pc := .owner }
    have h2 := h.rc
    have hown : holds PC.owner = true := rfl
    simp only [hholds, hown, if_true] at this
    simp only [Sys.upd] at this ⊢
    omega
  · intro a b ha hb hab hown
    by_cases hbi : b = i
    · subst hbi
      have : holds (s.th a).pc = false := ho a ha hab
      simp only [Sys.upd, hab, if_false] at hown
      rcases hown with hown | ⟨c', hown⟩ <;> rw [hown] at this <;> cases this
    · simp only [Sys.upd, hbi, if_false]
      exact ho b hb hbi
  · intro j hj
    by_cases hji : j = i
    · subst hji
      simp only [Sys.upd, if_true]
      refine ⟨by simp; omega, by simp only [hlen]; omega, ?_⟩
      rw [hx.2]
      exact (window_push s.arr _ _ c _ _ hx.1 hl).symm
    · simp only [Sys.upd, hji, if_false]
      have hnh := ho j hj hji
      have hj2 := h.th j hj
      rcases h.tame with hn | hta
      · omega
      have tj := hta j hj
      have ti := hta i hi
      have ti' : w ≤ res → w ≤ (s.th i).wr := by
        rcases hhold with e | ⟨c, e⟩ <;> simpa only [Tame, e] using ti
      cases hpc : (s.th j).pc with
      | copying c' got =>
        simp only [ThOk2, Tame, hpc] at hj2 tj ⊢
        have e := window_store s.arr (s.th i).wr c (s.th j) hl (by
          rcases tj with tj | tj
          · exact Or.inl tj
          · exact Or.inr (by have := ti' tj.2; omega))
        rw [e, hlen]
        exact hj2
      | own a => simpa only [ThOk2, hpc, hlen] using hj2
      | _ => rw [hpc] at hnh; cases hnh
  · rcases h.tame with hn | hta
    · exact Or.inl hn
    · refine Or.inr fun j hj => ?_
      by_cases hji : j = i
      · subst hji
        have ti := hta j hj
        have ti' : w ≤ res → w ≤ (s.th j).wr := by
          rcases hhold with e | ⟨c, e⟩ <;> simpa only [Tame, e] using ti
        simp only [Sys.upd, if_true, Tame]
        intro h'; have := ti' h'; omega
      · simp only [Sys.upd, hji, if_false]
        exact hta j hj

/-- Simulation, `Reset` included. -/
theorem Inv2.step {n len res w : Nat} {s s' : Sys} {g : Nat → List Byte} {i : Nat} {a : Act}
    (h : Inv2 n len res w s g) (hres : res ≤ len) (hs : Step n res s i a s') :
    ∃ x, SpecStep (g i) a x ∧ Inv2 n len res w s' (fun j => if j = i then x else g j) := by
  have hlen := h.alen
  cases hs with
  | loadOne c hi hp hw hrc =>
    have ht := h.th i hi
    simp only [ThOk2, hp] at ht
    refine ⟨g i, rfl, h.private i hi _ _ (by simp [hp, holds]) ?_ ⟨ht.1, hw, ht.2.2⟩ ?_⟩
    · intro _ j hj hji
      have := h.rc
      exact holders_one n i j hi hj (Ne.symm hji) s (by omega) (by simp [hp, holds])
    · simp only [Tame, hp]
      exact fun e => e.2
  | loadMany c hi hp hw hrc =>
    have ht := h.th i hi
    simp only [ThOk2, hp] at ht
    refine ⟨g i, rfl, h.private i hi _ _ (by simp [hp, holds]) ?_ ⟨ht.1, hw, ht.2.2⟩ ?_⟩
    · rintro (e | ⟨c', e⟩) <;> simp at e
    · simp only [Tame, hp]
      rintro ⟨e | e, e2⟩
      · exact ⟨Or.inl e, e2⟩
      · exact ⟨Or.inr ⟨e.1, by omega⟩, e2⟩
  | dec c hi hp =>
    have ht := h.th i hi
    simp only [ThOk2, hp] at ht
    refine ⟨g i, rfl, ?_⟩
    refine ⟨h.alen, ?_, ?_, ?_, ?_⟩
    · have := holders_upd n i hi s { s.th i with pc := .copying c [] }
      have h2 := h.rc
      simp only [Sys.upd, hp, holds] at *
      simp only [if_true] at this
      simp at this
      omega
    · intro a b ha hb hab hown
      by_cases hai : a = i
      · subst hai
        simp [Sys.upd] at hown
      · simp only [Sys.upd, hai, if_false] at hown
        by_cases hbi : b = i
        · subst hbi; simp [Sys.upd, holds]
        · simp only [Sys.upd, hbi, if_false]
          exact h.own a b ha hb hab hown
    · intro j hj
      by_cases hji : j = i
      · subst hji
        simp only [Sys.upd, if_true]
        exact ⟨ht.1, ht.2.1, ht.2.2, by simp⟩
      · simp only [Sys.upd, hji, if_false]
        exact h.th j hj
    · rcases h.tame with hn | hta
      · exact Or.inl hn
      · refine Or.inr fun j hj => ?_
        by_cases hji : j = i
        · subst hji
          have := hta j hj
          simp only [Tame, hp] at this
          simp only [Sys.upd, if_true, Tame]
          exact this.1
        · simp only [Sys.upd, hji, if_false]
          exact hta j hj
  | copy c got hi hp hl =>
    have ht := h.th i hi
    simp only [ThOk2, hp] at ht
    obtain ⟨h1, h2, h3, h5⟩ := ht
    refine ⟨g i, rfl, h.private i hi _ _ (by simp [hp, holds]) ?_ ⟨h1, h2, h3, ?_⟩ ?_⟩
    · rintro (e | ⟨c', e⟩) <;> simp at e
    · have hb : s.arr.getD ((s.th i).rd + got.length) 0 = (window s.arr (s.th i)).getD got.length 0 := by
        rw [List.getD_eq_getElem?_getD, List.getD_eq_getElem?_getD]
        simp only [window]
        rw [List.getElem?_drop, List.getElem?_take, if_pos (by omega)]
      have hwl : (window s.arr (s.th i)).length = (s.th i).wr - (s.th i).rd :=
        length_window _ _ (by omega)
      rw [hb]
      simp only [List.length_append, List.length_singleton]
      have e2 : window s.arr ⟨(s.th i).rd, (s.th i).wr, .copying c (got ++ [(window s.arr (s.th i)).getD got.length 0])⟩
          = window s.arr (s.th i) := rfl
      rw [e2, List.take_succ, ← h5]
      rw [List.getD_eq_getElem?_getD, List.getElem?_eq_getElem (by omega)]
      simp
    · simp only [Tame, hp]; exact id
  | finish c got hi hp hl =>
    have ht := h.th i hi
    simp only [ThOk2, hp] at ht
    obtain ⟨h1, h2, h3, h5⟩ := ht
    have hwl : (window s.arr (s.th i)).length = (s.th i).wr - (s.th i).rd :=
        length_window _ _ (by omega)
    have hgot : got = window s.arr (s.th i) := by
      rw [h5, List.take_of_length_le (by omega)]
    refine ⟨g i ++ [c], rfl, h.private i hi _ _ (by simp [hp, holds]) ?_ ?_ (fun _ => trivial)⟩
    · rintro (e | ⟨c', e⟩) <;> simp at e
    · have hl1 : (overwrite (List.replicate s.arr.length 0) (s.th i).rd got).length = s.arr.length := by
        rw [length_overwrite] <;> simp; omega
      have hl2 : (overwrite (overwrite (List.replicate s.arr.length 0) (s.th i).rd got) (s.th i).wr [c]).length
          = s.arr.length := by
        rw [length_overwrite, hl1]
        simp; omega
      refine ⟨by simp; omega, by simp only [hl2]; omega, ?_, hl2⟩
      rw [window_push _ _ _ _ _ PC.flagged h1 (by omega)]
      congr 1
      rw [h3, hgot]
      simp only [window]
      exact (window_copy _ _ _ _ (by simp) h1 (by omega)).symm
  | storeFirst c hi hp =>
    have ht := h.th i hi
    simp only [ThOk2, hp] at ht
    exact ⟨g i ++ [c], rfl, h.store i hi c (Or.inr ⟨c, hp⟩) ht.2.1 ⟨ht.1, ht.2.2⟩⟩
  | storeShared c hi hp hw =>
    have ht := h.th i hi
    simp only [ThOk2, hp] at ht
    exact ⟨g i ++ [c], rfl, h.store i hi c (Or.inl hp) hw ⟨ht.1, ht.2.2⟩⟩
  | storeOwn c a hi hp hw =>
    have ht := h.th i hi
    simp only [ThOk2, hp] at ht
    obtain ⟨h1, h2, h3, h4⟩ := ht
    refine ⟨g i ++ [c], rfl, h.private i hi _ _ (by simp [hp, holds]) ?_ ?_ (fun _ => trivial)⟩
    · rintro (e | ⟨c', e⟩) <;> simp at e
    · have hl : (overwrite a (s.th i).wr [c]).length = a.length := length_overwrite _ _ _ (by simp; omega)
      refine ⟨by simp; omega, by simp only [hl]; omega, ?_, by rw [hl, h4]⟩
      rw [h3]
      exact (window_push a _ _ c _ _ h1 hw).symm
  | read m hi hp =>
    have ht := h.th i hi
    have key : g i = window (block s (s.th i).pc) (s.th i) ∧ (s.th i).rd ≤ (s.th i).wr ∧
        (s.th i).wr ≤ (block s (s.th i).pc).length := by
      rcases hp with hp | hp | ⟨a, hp⟩ <;> simp only [ThOk2, hp] at ht <;> simp only [hp, block]
      · exact ⟨ht.2.2, ht.1, ht.2.1⟩
      · exact ⟨ht.2.2, ht.1, ht.2.1⟩
      · exact ⟨ht.2.2.1, ht.1, ht.2.1⟩
    obtain ⟨k1, k2, k3⟩ := key
    have hwl := length_window _ _ k3
    refine ⟨(g i).drop m, ⟨by rw [k1], rfl⟩, ?_⟩
    have hdrop : ∀ (arr : List Byte) (k : Nat), k = min m (window arr (s.th i)).length →
        (window arr (s.th i)).drop m = window arr { s.th i with rd := (s.th i).rd + k } := by
      intro arr k hk
      simp only [window, List.drop_drop]
      rw [← List.drop_drop, ← List.drop_drop]
      subst hk
      by_cases hm : m ≤ (window arr (s.th i)).length
      · rw [Nat.min_eq_left hm]
      · rw [Nat.min_eq_right (by omega)]
        simp only [window] at hm ⊢
        rw [List.drop_of_length_le (by omega), List.drop_of_length_le (by omega)]
    have hlen1 : ((window (block s (s.th i).pc) (s.th i)).take m).length
        = min m (window (block s (s.th i).pc) (s.th i)).length := by simp
    have hle : (s.th i).rd + ((window (block s (s.th i).pc) (s.th i)).take m).length ≤ (s.th i).wr := by
      rw [hlen1]; omega
    refine h.private i hi _ _ rfl ?_ ?_ ?_
    · intro ho j hj hji
      exact h.own i j hi hj (Ne.symm hji) ho
    · rcases hp with hp | hp | ⟨a, hp⟩ <;> simp only [ThOk2, hp] at ht ⊢ <;>
        simp only [hp, block] at hle k1 hlen1 <;> simp only [block] <;> rw [k1]
      · refine ⟨hle, ht.2.1, ?_⟩
        rw [hdrop s.arr _ hlen1]; simp only [window]
      · refine ⟨hle, ht.2.1, ?_⟩
        rw [hdrop s.arr _ hlen1]; simp only [window]
      · refine ⟨hle, ht.2.1, ?_, ht.2.2.2⟩
        rw [hdrop a _ hlen1]; simp only [window]
    · rcases hp with hp | hp | ⟨a, hp⟩ <;> simp only [Tame, hp] <;> intro e
      · refine ⟨?_, e.2⟩
        rcases e.1 with e | e
        · left
          simp only [hp, block] at hle ⊢
          omega
        · exact Or.inr e
      · exact e
      · trivial
  | reset hi hp =>
    refine ⟨[], rfl, h.private i hi _ _ rfl ?_ ?_ ?_⟩
    · intro ho j hj hji
      exact h.own i j hi hj (Ne.symm hji) ho
    · have ht := h.th i hi
      have hw : ∀ l : List Byte, ∀ pc, [] = window l ⟨res, res, pc⟩ := by
        intro l pc
        simp only [window]
        rw [List.drop_of_length_le (by simp; omega)]
      refine ⟨Nat.le_refl _, ?_⟩
      rcases hp with hp | hp | ⟨a, hp⟩ <;> simp only [ThOk2, hp] at ht ⊢
      · exact ⟨by omega, hw _ _⟩
      · exact ⟨by omega, hw _ _⟩
      · exact ⟨by omega, hw _ _, ht.2.2.2⟩
    · rcases hp with hp | hp | ⟨a, hp⟩ <;> simp only [Tame, hp] <;> intro e
      · exact ⟨Or.inl trivial, id⟩
      · exact id
      · trivial

theorem Inv2.exec {n len res w : Nat} {s s' : Sys} {tr : List (Nat × Act)} (he : Exec n res s tr s')
    (hres : res ≤ len) (g : Nat → List Byte) (h : Inv2 n len res w s g) : SpecTrace g tr := by
  induction he generalizing g with
  | nil s => exact .nil g
  | cons hs _ ih =>
    obtain ⟨x, h1, h2⟩ := h.step hres hs
    exact .cons h1 (ih _ h2)

theorem Inv2.init (n : Nat) (arr : List Byte) (r w res : Nat) (hr : r ≤ w) (hw : w ≤ arr.length)
    (hc : n ≤ 1 ∨ r = w ∨ arr.length = w ∨ w ≤ res) :
    Inv2 n arr.length res w (Conc.init n arr r w) (fun _ => (arr.take w).drop r) := by
  refine ⟨rfl, ?_, ?_, ?_, ?_⟩
  · simp [Conc.init, holders, holds]
  · intro i j _ _ _ h
    simp [Conc.init] at h
  · intro i _
    simp [Conc.init, ThOk2, hr, hw, window]
  · rcases hc with hc | hc
    · exact Or.inl hc
    · refine Or.inr fun i _ => ?_
      simp only [Conc.init, Tame]
      refine ⟨?_, fun _ => Nat.le_refl _⟩
      rcases hc with hc | hc | hc
      · exact Or.inl hc
      · exact Or.inr ⟨trivial, Or.inl (by omega)⟩
      · exact Or.inr ⟨trivial, Or.inr hc⟩

/-! ## The race, whenever there is one -/

theorem Exec.append {n res : Nat} {s s' s'' : Sys} {t1 t2 : List (Nat × Act)} (h1 : Exec n res s t1 s')
    (h2 : Exec n res s' t2 s'') : Exec n res s (t1 ++ t2) s'' := by
  induction h1 with
  | nil => exact h2
  | cons hs _ ih => exact .cons hs (ih h2)

/-- While a goroutine does nothing visible, its queue stays. -/
theorem SpecTrace.skip {k : Nat} : ∀ {t1 t2 : List (Nat × Act)} {g : Nat → List Byte},
    SpecTrace g (t1 ++ t2) → (∀ x ∈ t1, x.1 = k → x.2 = .tau) →
    ∃ g' : Nat → List Byte, g' k = g k ∧ SpecTrace g' t2
  | [], _, g, h, _ => ⟨g, rfl, h⟩
  | (i, a) :: t1, t2, g, h, hx => by
    cases h with
    | cons hs hr =>
      obtain ⟨g', e, h'⟩ := SpecTrace.skip hr (fun x hx' => hx x (List.mem_cons_of_mem _ hx'))
      refine ⟨g', e.trans ?_, h'⟩
      by_cases hk : k = i
      · subst hk
        have : a = .tau := hx (k, a) List.mem_cons_self rfl
        subst this
        simpa [SpecStep] using hs
      · simp [hk]

/-- Goroutines that begin to write drop the count one after the other. -/
theorem exec_drop (n res : Nat) : ∀ (L : List Nat) (s : Sys), L.Nodup → (∀ i ∈ L, i < n) →
    (∀ i ∈ L, (s.th i).pc = .flagged ∧ (s.th i).wr < s.arr.length) → (L.length : Int) + 1 ≤ s.rc →
    ∃ (tr : List (Nat × Act)) (s' : Sys), Exec n res s tr s' ∧ (∀ x ∈ tr, x.2 = .tau) ∧ s'.arr = s.arr ∧
      s'.rc = s.rc - L.length ∧ (∀ i, i ∉ L → s'.th i = s.th i) ∧
      ∀ i ∈ L, s'.th i = { s.th i with pc := .copying 0 [] }
  | [], s, _, _, _, _ => ⟨[], s, .nil s, by simp, rfl, by simp, fun _ _ => rfl, by simp⟩
  | i :: L, s, hnd, hn, hf, hrc => by
    have hi := hf i List.mem_cons_self
    have hin := hn i List.mem_cons_self
    simp only [List.length_cons, Int.natCast_add, Int.natCast_one] at hrc
    have hnotin := (List.nodup_cons.1 hnd).1
    let s1 := s.upd i { s.th i with pc := .loaded 0 }
    have st1 : Step n res s i .tau s1 := .loadMany s i 0 hin hi.1 hi.2 (by omega)
    let s2 := { s1 with rc := s1.rc - 1 }.upd i { s1.th i with pc := .copying 0 [] }
    have st2 : Step n res s1 i .tau s2 := .dec s1 i 0 hin (by simp [s1, upd_same])
    have hoth : ∀ j, j ≠ i → s2.th j = s.th j := fun j hj => by simp [s2, s1, Sys.upd, hj]
    have hself : s2.th i = { s.th i with pc := .copying 0 [] } := by simp [s2, s1, Sys.upd]
    obtain ⟨tr, s', he, htau, harr, hrc', hno, hyes⟩ := exec_drop n res L s2 (List.nodup_cons.1 hnd).2
      (fun j hj => hn j (List.mem_cons_of_mem _ hj))
      (fun j hj => by
        have hji : j ≠ i := fun e => hnotin (e ▸ hj)
        rw [hoth j hji]
        exact hf j (List.mem_cons_of_mem _ hj))
      (by show (L.length : Int) + 1 ≤ s.rc - 1; omega)
    refine ⟨(i, .tau) :: (i, .tau) :: tr, s', .cons st1 (.cons st2 he), ?_, harr, ?_, ?_, ?_⟩
    · intro x hx
      rcases List.mem_cons.1 hx with e | hx
      · rw [e]
      · rcases List.mem_cons.1 hx with e | hx
        · rw [e]
        · exact htau x hx
    · have : s2.rc = s.rc - 1 := rfl
      rw [hrc', this]
      simp only [List.length_cons, Int.natCast_add, Int.natCast_one]
      omega
    · intro j hj
      have h1 : j ≠ i := fun e => hj (e ▸ List.mem_cons_self)
      rw [hno j (fun e => hj (List.mem_cons_of_mem _ e)), hoth j h1]
    · intro j hj
      by_cases hji : j = i
      · subst hji
        rw [hno j hnotin, hself]
      · have hjL : j ∈ L := by
          rcases List.mem_cons.1 hj with e | e
          · exact absurd e hji
          · exact e
        rw [hyes j hjL, hoth j hji]

/-- The owner stores the same byte again and again. -/
theorem exec_fill (n res : Nat) (j : Nat) (hj : j < n) (c : Byte) : ∀ (k : Nat) (s : Sys),
    (s.th j).pc = .owner → (s.th j).wr + k ≤ s.arr.length →
    ∃ (tr : List (Nat × Act)) (s' : Sys), Exec n res s tr s' ∧ (∀ x ∈ tr, x.1 = j) ∧
      s'.arr.length = s.arr.length ∧ (∀ i, i ≠ j → s'.th i = s.th i) ∧
      (∀ p, (s.th j).wr ≤ p → p < (s.th j).wr + k → s'.arr[p]? = some c) ∧
      (∀ p, p < (s.th j).wr → s'.arr[p]? = s.arr[p]?)
  | 0, s, _, _ => ⟨[], s, .nil s, by simp, rfl, fun _ _ => rfl, by omega, fun _ _ => rfl⟩
  | k + 1, s, hp, hw => by
    let s1 := { s with arr := overwrite s.arr (s.th j).wr [c] }.upd j
        { rd := (s.th j).rd, wr := (s.th j).wr + 1, pc := .owner }
    have st : Step n res s j (.write c) s1 := .storeShared s j c hj hp (by omega)
    have hl : s1.arr.length = s.arr.length := length_overwrite _ _ _ (by simp; omega)
    have hw1 : (s1.th j).wr = (s.th j).wr + 1 := by simp [s1, Sys.upd]
    obtain ⟨tr, s', he, htr, hlen, hoth, hin, hout⟩ := exec_fill n res j hj c k s1 (by simp [s1, Sys.upd])
      (by rw [hw1, hl]; omega)
    rw [hw1] at hin hout
    refine ⟨(j, .write c) :: tr, s', .cons st he, ?_, hlen.trans hl, ?_, ?_, ?_⟩
    · intro x hx
      rcases List.mem_cons.1 hx with e | hx
      · rw [e]
      · exact htr x hx
    · intro i hi
      rw [hoth i hi]
      simp [s1, Sys.upd, hi]
    · intro p h1 h2
      by_cases hp' : p = (s.th j).wr
      · subst hp'
        rw [hout _ (by omega)]
        show (overwrite s.arr (s.th j).wr [c])[(s.th j).wr]? = some c
        simp only [overwrite]
        rw [List.append_assoc, List.getElem?_append_right (by simp; omega)]
        simp [Nat.min_eq_left (show (s.th j).wr ≤ s.arr.length by omega)]
      · exact hin p (by omega) (by omega)
    · intro p hp'
      rw [hout p (by omega)]
      show (overwrite s.arr (s.th j).wr [c])[p]? = s.arr[p]?
      simp only [overwrite]
      rw [List.append_assoc, List.getElem?_append_left (by simp; omega), List.getElem?_take, if_pos hp']

/-- The copy of a window, undisturbed. -/
theorem exec_copy (n res : Nat) (i : Nat) (hi : i < n) (c : Byte) : ∀ (k : Nat) (s : Sys) (got : List Byte),
    (s.th i).pc = .copying c got → got = (window s.arr (s.th i)).take got.length →
    (s.th i).wr ≤ s.arr.length → got.length + k = (s.th i).wr - (s.th i).rd →
    ∃ (tr : List (Nat × Act)) (s' : Sys), Exec n res s tr s' ∧ (∀ x ∈ tr, x.2 = .tau) ∧ s'.arr = s.arr ∧
      s'.th i = { s.th i with pc := .copying c (window s.arr (s.th i)) }
  | 0, s, got, hp, hg, hw, hk => by
    have hl := length_window s.arr (s.th i) hw
    refine ⟨[], s, .nil s, by simp, rfl, ?_⟩
    have : got = window s.arr (s.th i) := by
      rw [hg, List.take_of_length_le (by omega)]
    rw [← this, ← hp]
  | k + 1, s, got, hp, hg, hw, hk => by
    have hl := length_window s.arr (s.th i) hw
    let got' := got ++ [s.arr.getD ((s.th i).rd + got.length) 0]
    let s1 := s.upd i { s.th i with pc := .copying c got' }
    have st : Step n res s i .tau s1 := .copy s i c got hi hp (by omega)
    have e1 : s1.th i = { s.th i with pc := .copying c got' } := by simp [s1, Sys.upd]
    have ew : window s1.arr (s1.th i) = window s.arr (s.th i) := by rw [e1]; rfl
    have hg' : got' = (window s.arr (s.th i)).take got'.length := by
      have hb : s.arr.getD ((s.th i).rd + got.length) 0 = (window s.arr (s.th i)).getD got.length 0 := by
        rw [List.getD_eq_getElem?_getD, List.getD_eq_getElem?_getD]
        simp only [window]
        rw [List.getElem?_drop, List.getElem?_take, if_pos (by omega)]
      simp only [got', List.length_append, List.length_singleton]
      rw [hb, List.take_succ, ← hg, List.getD_eq_getElem?_getD, List.getElem?_eq_getElem (by omega)]
      simp
    obtain ⟨tr, s', he, htau, harr, hth⟩ := exec_copy n res i hi c k s1 got' (by rw [e1])
      (by rw [ew]; exact hg') (by rw [e1]; exact hw) (by rw [e1]; simp [got']; omega)
    refine ⟨(i, .tau) :: tr, s', .cons st he, ?_, harr, ?_⟩
    · intro x hx
      rcases List.mem_cons.1 hx with e | hx
      · rw [e]
      · exact htau x hx
    · rw [hth, ew, e1]

/-- With two snapshots of a message that is not empty, room behind it, and a `Reset` that moves the
writer back before its end, some schedule shows one goroutine the bytes of the other. -/
theorem exec_race (n res : Nat) (arr : List Byte) (r w : Nat) (hn : 2 ≤ n) (hr : r < w) (hw : w < arr.length)
    (hres : res < w) : ∃ (tr : List (Nat × Act)) (s : Sys), Exec n res (init n arr r w) tr s ∧
      ¬ SpecTrace (fun _ => (arr.take w).drop r) tr := by
  -- everybody but goroutine 1 drops the count
  let L := (List.range n).erase 1
  have hmem : ∀ i, i ∈ L ↔ i ≠ 1 ∧ i < n := by
    intro i
    simp only [L]
    rw [List.Nodup.mem_erase_iff List.nodup_range, List.mem_range]
  have hL : L.length = n - 1 := by
    simp only [L]
    rw [List.length_erase_of_mem (by simp; omega), List.length_range]
  obtain ⟨t1, s1, e1, tau1, arr1, rc1, no1, yes1⟩ := exec_drop n res L (init n arr r w)
    (List.Nodup.erase 1 List.nodup_range) (fun i hi => ((hmem i).1 hi).2)
    (fun i _ => ⟨rfl, hw⟩) (by simp only [init]; omega)
  have arr1' : s1.arr = arr := arr1
  have rc1' : s1.rc = 1 := by rw [rc1]; simp only [init]; omega
  have th1 : s1.th 1 = ⟨r, w, .flagged⟩ := no1 1 (by rw [hmem]; omega)
  have th0 : s1.th 0 = ⟨r, w, .copying 0 []⟩ := yes1 0 (by rw [hmem]; omega)
  -- goroutine 1 resets and stores in place
  let c : Byte := arr.getD (w - 1) 0 + 1
  let s2 := s1.upd 1 { s1.th 1 with rd := res, wr := res }
  have st2 : Step n res s1 1 .reset s2 := .reset s1 1 (by omega) (Or.inl (by rw [th1]))
  have th2 : s2.th 1 = ⟨res, res, .flagged⟩ := by simp [s2, Sys.upd, th1]
  have arr2 : s2.arr = arr := arr1'
  have rc2 : s2.rc = 1 := rc1'
  let s3 := s2.upd 1 { s2.th 1 with pc := .ownerStore c }
  have st3 : Step n res s2 1 .tau s3 := .loadOne s2 1 c (by omega) (by rw [th2])
    (by rw [th2, arr2]; show res < arr.length; omega) rc2
  have th3 : s3.th 1 = ⟨res, res, .ownerStore c⟩ := by simp [s3, Sys.upd, th2]
  have arr3 : s3.arr = arr := arr2
  let s4 := { s3 with arr := overwrite s3.arr (s3.th 1).wr [c] }.upd 1
        { rd := (s3.th 1).rd, wr := (s3.th 1).wr + 1, pc := .owner }
  have st4 : Step n res s3 1 (.write c) s4 := .storeFirst s3 1 c (by omega) (by rw [th3])
  have th4 : s4.th 1 = ⟨res, res + 1, .owner⟩ := by simp [s4, Sys.upd, th3]
  have arr4 : s4.arr = overwrite arr res [c] := by
    show overwrite s3.arr (s3.th 1).wr [c] = _
    rw [arr3, th3]
  have len4 : s4.arr.length = arr.length := by
    rw [arr4]; exact length_overwrite _ _ _ (by simp; omega)
  have th40 : s4.th 0 = ⟨r, w, .copying 0 []⟩ := by
    rw [← th0]; rfl
  obtain ⟨t5, s5, e5, who5, len5, oth5, in5, out5⟩ := exec_fill n res 1 (by omega) c (w - 1 - res) s4
    (by rw [th4]) (by rw [th4, len4]; show res + 1 + _ ≤ _; omega)
  rw [th4] at in5 out5
  have th5 : s5.th 0 = ⟨r, w, .copying 0 []⟩ := by rw [oth5 0 (by omega), th40]
  have len5' : s5.arr.length = arr.length := len5.trans len4
  have hlast : s5.arr[w - 1]? = some c := by
    by_cases hc : res = w - 1
    · rw [out5 (w - 1) (by show w - 1 < res + 1; omega), arr4, ← hc]
      simp only [overwrite]
      rw [List.append_assoc, List.getElem?_append_right (by simp; omega)]
      simp [Nat.min_eq_left (show res ≤ arr.length by omega)]
    · exact in5 (w - 1) (by show res + 1 ≤ _; omega) (by show _ < res + 1 + _; omega)
  -- goroutine 0 copies, stores and reads
  obtain ⟨t6, s6, e6, tau6, arr6, th6⟩ := exec_copy n res 0 (by omega) 0 (w - r) s5 [] (by rw [th5]) (by simp)
    (by rw [th5, len5']; show w ≤ _; omega) (by rw [th5]; simp)
  rw [th5] at th6
  have hwin : ∀ pc, (window s5.arr ⟨r, w, pc⟩).length = w - r := fun pc =>
    length_window _ _ (by show w ≤ _; omega)
  let got := window s5.arr ⟨r, w, .copying 0 []⟩
  have hgot : got.length = w - r := hwin _
  have th6' : s6.th 0 = ⟨r, w, .copying 0 got⟩ := th6
  have len6 : s6.arr.length = arr.length := by rw [arr6, len5']
  let a := overwrite (overwrite (List.replicate s6.arr.length 0) (s6.th 0).rd got) (s6.th 0).wr [0]
  let s7 := s6.upd 0 { rd := (s6.th 0).rd, wr := (s6.th 0).wr + 1, pc := .own a }
  have st7 : Step n res s6 0 (.write 0) s7 := .finish s6 0 0 got (by omega) (by rw [th6'])
    (by rw [th6', hgot])
  have th7 : s7.th 0 = ⟨r, w + 1, .own a⟩ := by simp [s7, Sys.upd, th6']
  have st8 := Step.read (n := n) (res := res) s7 0 (w - r) (by omega) (Or.inr (Or.inr ⟨a, by rw [th7]⟩))
  have hout : window (block s7 (s7.th 0).pc) (s7.th 0) = got ++ [0] := by
    rw [th7]
    show window a ⟨r, w + 1, .own a⟩ = _
    have ha : a = overwrite (overwrite (List.replicate s6.arr.length 0) r got) w [0] := by
      simp only [a, th6']
    have hl1 : (overwrite (List.replicate s6.arr.length (0 : Byte)) r got).length = s6.arr.length := by
      rw [length_overwrite] <;> simp; omega
    have hpush := window_push (overwrite (List.replicate s6.arr.length 0) r got) r w 0 (.own a) .flagged
      (by omega) (by rw [hl1]; omega)
    rw [← ha] at hpush
    rw [hpush]
    congr 1
    exact window_copy (List.replicate s6.arr.length 0) s5.arr r w (by simp; omega) (by omega) (by omega)
  rw [hout] at st8
  refine ⟨_, _, e1.append (.cons st2 (.cons st3 (.cons st4 (e5.append (e6.append
    (.cons st7 (.cons st8 (.nil _)))))))), ?_⟩
  intro hspec
  obtain ⟨g1, hg1, hspec⟩ := hspec.skip (k := 0) (fun x hx _ => tau1 x hx)
  obtain ⟨g2, hg2, hspec⟩ := SpecTrace.skip (k := 0) (t1 := [(1, .reset), (1, .tau), (1, .write c)]) hspec
    (by intro x hx h0; simp at hx; rcases hx with e | e | e <;> subst e <;> simp at h0)
  obtain ⟨g3, hg3, hspec⟩ := hspec.skip (k := 0) (fun x hx h0 => absurd (who5 x hx) (by omega))
  obtain ⟨g4, hg4, hspec⟩ := hspec.skip (k := 0) (fun x hx _ => tau6 x hx)
  cases hspec with
  | cons h1 hspec =>
  cases hspec with
  | cons h2 hspec =>
  simp only [SpecStep] at h1 h2
  subst h1
  simp only [if_true] at h2
  rw [hg4, hg3, hg2, hg1] at h2
  have hl0 : ((arr.take w).drop r).length = w - r := by simp; omega
  have heq : got = (arr.take w).drop r := by
    have := h2.1
    rwa [List.take_append_of_le_length (by omega), List.take_append_of_le_length (by omega),
      List.take_of_length_le (by omega), List.take_of_length_le (by omega)] at this
  have hi1 : got[w - 1 - r]? = some c := by
    show ((s5.arr.take w).drop r)[w - 1 - r]? = some c
    rw [List.getElem?_drop, List.getElem?_take, if_pos (by omega), show r + (w - 1 - r) = w - 1 by omega, hlast]
  rw [heq, List.getElem?_drop, List.getElem?_take, if_pos (by omega), show r + (w - 1 - r) = w - 1 by omega,
    List.getElem?_eq_getElem (by omega)] at hi1
  have hc : c = arr[w - 1] + 1 := by
    simp only [c]
    rw [List.getD_eq_getElem?_getD, List.getElem?_eq_getElem (by omega)]
    rfl
  rw [hc] at hi1
  injection hi1 with hi1
  have := congrArg UInt8.toNat hi1
  rw [UInt8.toNat_add] at this
  have h256 := UInt8.toNat_lt arr[w - 1]
  simp at this
  omega

/-- C14, exactly: for `n` snapshots of a block with the window `[r, w)` and a `Reset` that moves the
positions to `res`, every history of every schedule is what independent copies would show if and only
if there is a single snapshot, or the message is empty, or it fills the block, or it lies before the
place `Reset` goes back to. -/
theorem c14_exact (n res : Nat) (arr : List Byte) (r w : Nat) (hr : r ≤ w) (hw : w ≤ arr.length)
    (hres : res ≤ arr.length) :
    (∀ (tr : List (Nat × Act)) (s : Sys), Exec n res (init n arr r w) tr s →
      SpecTrace (fun _ => (arr.take w).drop r) tr) ↔
    n ≤ 1 ∨ r = w ∨ arr.length = w ∨ w ≤ res := by
  constructor
  · intro h
    apply Classical.byContradiction
    intro hc
    obtain ⟨tr, s, he, hns⟩ := exec_race n res arr r w (by omega) (by omega) (by omega) (by omega)
    exact hns (h tr s he)
  · intro hc tr s he
    exact (Inv2.init n arr r w res hr hw hc).exec he hres _

/-- Three snapshots of a message `[1, 2]` with a reservation of one byte and room behind: not safe. -/
example : ¬ ∀ (tr : List (Nat × Act)) (s : Sys), Exec 3 1 (init 3 [0, 1, 2, 0] 1 3) tr s →
    SpecTrace (fun _ => [1, 2]) tr :=
  fun h => by
    have := (c14_exact 3 1 [0, 1, 2, 0] 1 3 (by omega) (by decide) (by decide)).1 h
    simp at this

/-- Three snapshots of a message that fills its block: safe, even with `Reset`. -/
example (tr : List (Nat × Act)) (s : Sys) (he : Exec 3 1 (init 3 [0, 1, 2] 1 3) tr s) :
    SpecTrace (fun _ => [1, 2]) tr :=
  (c14_exact 3 1 [0, 1, 2] 1 3 (by omega) (by decide) (by decide)).2 (by decide) tr s he

end Verif.UBuf.Conc
