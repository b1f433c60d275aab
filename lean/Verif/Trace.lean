/-!
# Labelled transition systems

`step s l = none` means the action `l` cannot be taken in `s`.
-/

namespace Verif.Trace

variable {σ L : Type}

/-- A finite execution. -/
def exec (step : σ → L → Option σ) : σ → List L → Option σ
  | s, [] => some s
  | s, l :: ls => (step s l).bind fun s => exec step s ls

variable {step : σ → L → Option σ}

theorem exec_append (s : σ) (a b : List L) : exec step s (a ++ b) = (exec step s a).bind fun s => exec step s b := by
  induction a generalizing s with
  | nil => rfl
  | cons l a ih =>
    simp only [List.cons_append, exec]
    cases step s l with
    | none => rfl
    | some s' => exact ih s'

theorem exec_cons {s s' : σ} {l : L} {ls : List L} (h : exec step s (l :: ls) = some s') :
    ∃ m, step s l = some m ∧ exec step m ls = some s' := by
  simp only [exec] at h
  cases hm : step s l with
  | none => rw [hm] at h; simp at h
  | some m => rw [hm] at h; exact ⟨m, rfl, h⟩

theorem exec_snoc {s s' : σ} {ls : List L} {l : L} (h : exec step s (ls ++ [l]) = some s') :
    ∃ m, exec step s ls = some m ∧ step m l = some s' := by
  rw [exec_append] at h
  cases hm : exec step s ls with
  | none => rw [hm] at h; simp at h
  | some m =>
    rw [hm] at h
    obtain ⟨x, hx, h⟩ := exec_cons h
    injection h with h
    subst h
    exact ⟨m, rfl, hx⟩

theorem snoc_induction {P : List L → Prop} (h0 : P []) (h1 : ∀ ls l, P ls → P (ls ++ [l])) : ∀ ls, P ls := by
  intro ls
  rw [← List.reverse_reverse ls]
  induction ls.reverse with
  | nil => exact h0
  | cons l ls ih => rw [List.reverse_cons]; exact h1 _ _ ih

/-- A property kept by every step (from a set of labels) holds after every execution. -/
theorem invariant {P : σ → Prop} {Q : L → Prop} (hstep : ∀ s l s', P s → Q l → step s l = some s' → P s') :
    ∀ (ls : List L) (s s' : σ), P s → (∀ l ∈ ls, Q l) → exec step s ls = some s' → P s' := by
  intro ls
  induction ls with
  | nil => intro s s' h _ he; injection he with he; subst he; exact h
  | cons l ls ih =>
    intro s s' h hq he
    obtain ⟨m, hm, he⟩ := exec_cons he
    exact ih m s' (hstep s l m h (hq l List.mem_cons_self) hm) (fun k hk => hq k (List.mem_cons_of_mem _ hk)) he

/-- Replacing one element of a list of threads replaces what that thread holds. -/
theorem flatMap_set_perm {α β : Type} (f : α → List β) (gs : List α) (i : Nat) (g g' : α) (h : gs[i]? = some g) :
    ((gs.set i g').flatMap f).Perm (f g' ++ (gs.eraseIdx i).flatMap f) ∧
    (gs.flatMap f).Perm (f g ++ (gs.eraseIdx i).flatMap f) := by
  induction gs generalizing i with
  | nil => simp at h
  | cons x gs ih =>
    cases i with
    | zero =>
      simp only [List.getElem?_cons_zero, Option.some.injEq] at h
      subst h
      simp
    | succ i =>
      simp only [List.getElem?_cons_succ] at h
      obtain ⟨h1, h2⟩ := ih i h
      constructor
      · simp only [List.set_cons_succ, List.flatMap_cons, List.eraseIdx_cons_succ]
        refine (List.Perm.append_left _ h1).trans ?_
        rw [← List.append_assoc, ← List.append_assoc]
        exact List.Perm.append_right _ List.perm_append_comm
      · simp only [List.flatMap_cons, List.eraseIdx_cons_succ]
        refine (List.Perm.append_left _ h2).trans ?_
        rw [← List.append_assoc, ← List.append_assoc]
        exact List.Perm.append_right _ List.perm_append_comm

end Verif.Trace
