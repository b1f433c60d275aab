import Verif.Access.Basic

/-!
# Goroutines that wait for mutexes

Functions that take their mutexes in the order of a rank and give them back in the opposite order (`flow`, `Tidy`) cannot lock each
other up: in every state that can be reached all goroutines can be brought to their end, without those started meanwhile (`all_finish`).
-/

namespace Verif.Access

variable {L M K N : Type}

/-! ## Functions that take mutexes in order -/

/-- What an action does to the mutexes held, the last one taken first; `none`: a mutex is taken out of order, or not the last one is given back. -/
def hold [DecidableEq M] (rank : M → Nat) : Act L M K → List M → Option (List M)
  | .lock m, h => if h.all (fun x => rank x < rank m) then some (m :: h) else none
  | .unlock m, x :: h => if x = m then some h else none
  | .unlock _, [] => none
  | _, h => some h

def runs [DecidableEq M] (rank : M → Nat) : List (Act L M K) → List M → Option (List M)
  | [], h => some h
  | a :: w, h => (hold rank a h).bind (runs rank w)

/-- Takes its mutexes in order and gives all of them back. -/
def Tidy [DecidableEq M] (rank : M → Nat) (w : List (Act L M K)) : Prop := runs rank w [] = some []

/-- The mutexes held after a command, if it takes and gives back the same ones in all branches and rounds. -/
def flow [DecidableEq M] (g : Act L M K → List M → Option (List M)) : Cmd L M K → List M → Option (List M)
  | .skip, h => some h
  | .act a, h => g a h
  | .seq a b, h => (flow g a h).bind (flow g b)
  | .alt a b, h => if flow g a h = flow g b h then flow g a h else none
  | .star a, h => if flow g a h = some h then some h else none

theorem runs_append [DecidableEq M] (rank : M → Nat) (u v : List (Act L M K)) (h : List M) :
    runs rank (u ++ v) h = (runs rank u h).bind (runs rank v) := by
  induction u generalizing h with
  | nil => rfl
  | cons a u ih =>
    simp only [List.cons_append, runs]
    cases hold rank a h with
    | none => rfl
    | some h' => exact ih h'

theorem flow_runs [DecidableEq M] {rank : M → Nat} {c : Cmd L M K} {w : List (Act L M K)} (hw : Word c w) :
    ∀ {h h' : List M}, flow (hold rank) c h = some h' → runs rank w h = some h' := by
  induction hw with
  | skip => intro h h' hf; exact hf
  | act a =>
    intro h h' hf
    simp only [flow] at hf
    simp only [runs, hf, Option.bind_some]
  | seq _ _ iu iv =>
    intro h h' hf
    simp only [flow] at hf
    obtain ⟨x, hx, hy⟩ := Option.bind_eq_some_iff.mp hf
    rw [runs_append, iu hx]
    exact iv hy
  | left _ ih =>
    intro h h' hf
    simp only [flow] at hf
    split at hf
    · exact ih hf
    · cases hf
  | right _ ih =>
    intro h h' hf
    simp only [flow] at hf
    split at hf
    · rename_i he; rw [he] at hf; exact ih hf
    · cases hf
  | done =>
    intro h h' hf
    simp only [flow] at hf
    split at hf
    · exact hf
    · cases hf
  | round _ _ iu iv =>
    intro h h' hf
    have hf' := hf
    simp only [flow] at hf
    split at hf
    · rename_i he
      rw [runs_append, iu he]
      exact iv hf'
    · cases hf

/-- Every command can do something. -/
theorem exists_word (c : Cmd L M K) : ∃ w, Word c w := by
  induction c with
  | skip => exact ⟨_, .skip⟩
  | act a => exact ⟨_, .act a⟩
  | seq _ _ ia ib => obtain ⟨u, hu⟩ := ia; obtain ⟨v, hv⟩ := ib; exact ⟨_, .seq hu hv⟩
  | alt _ _ ia _ => obtain ⟨u, hu⟩ := ia; exact ⟨_, .left hu⟩
  | star _ _ => exact ⟨_, .done⟩

/-! ## Functions that call others -/

/-- Every action replaced. -/
def Cmd.subst {K' : Type} (f : Act L M K → Cmd L M K') : Cmd L M K → Cmd L M K'
  | .skip => .skip
  | .act a => f a
  | .seq a b => .seq (a.subst f) (b.subst f)
  | .alt a b => .alt (a.subst f) (b.subst f)
  | .star a => .star (a.subst f)

theorem flow_subst [DecidableEq M] {K' : Type} {g : Act L M K → List M → Option (List M)} {g' : Act L M K' → List M → Option (List M)}
    {f : Act L M K → Cmd L M K'} (hf : ∀ a h h', g a h = some h' → flow g' (f a) h = some h') (c : Cmd L M K) :
    ∀ {h h' : List M}, flow g c h = some h' → flow g' (c.subst f) h = some h' := by
  induction c with
  | skip => intro h h' hh; exact hh
  | act a => intro h h' hh; exact hf a h h' hh
  | seq a b ia ib =>
    intro h h' hh
    simp only [flow] at hh
    obtain ⟨x, hx, hy⟩ := Option.bind_eq_some_iff.mp hh
    simp only [Cmd.subst, flow, ia hx, Option.bind_some]
    exact ib hy
  | alt a b ia ib =>
    intro h h' hh
    simp only [flow] at hh
    split at hh
    · rename_i he
      have h1 := ia hh
      have h2 := ib (he ▸ hh)
      simp only [Cmd.subst, flow, h1, h2, if_true]
    · cases hh
  | star a ia =>
    intro h h' hh
    simp only [flow] at hh
    split at hh
    · rename_i he
      simp only [Cmd.subst, flow, ia he, if_true]
      exact hh
    · cases hh

/-! ## Several mutexes of a kind -/

/-- The same actions with one of the mutexes of each kind: any one is taken, and the one taken is given back. -/
inductive Inst : List (M × Nat) → List (Act L M K) → List (Act L (M × Nat) K) → Prop where
  | nil {h} : Inst h [] []
  | rd {h l w w'} : Inst h w w' → Inst h (.rd l :: w) (.rd l :: w')
  | wr {h l w w'} : Inst h w w' → Inst h (.wr l :: w) (.wr l :: w')
  | go {h k w w'} : Inst h w w' → Inst h (.go k :: w) (.go k :: w')
  | lock {h m w w'} (i : Nat) : Inst ((m, i) :: h) w w' → Inst h (.lock m :: w) (.lock (m, i) :: w')
  | unlock {h m i w w'} : Inst h w w' → Inst ((m, i) :: h) (.unlock m :: w) (.unlock (m, i) :: w')

theorem Inst.runs [DecidableEq M] {rank : M → Nat} {h : List (M × Nat)} {w : List (Act L M K)} {w' : List (Act L (M × Nat) K)} (hi : Inst h w w') :
    Access.runs rank w (h.map Prod.fst) = some [] → Access.runs (fun m => rank m.1) w' h = some [] := by
  induction hi with
  | nil =>
    intro hr
    simp only [Access.runs] at hr ⊢
    injection hr with hr
    rw [List.map_eq_nil_iff.mp hr]
  | rd _ ih => intro hr; exact ih hr
  | wr _ ih => intro hr; exact ih hr
  | go _ ih => intro hr; exact ih hr
  | @lock h m w w' i _ ih =>
    intro hr
    simp only [Access.runs, hold] at hr ⊢
    split at hr
    · rename_i ha
      rw [List.all_map] at ha
      have hb : (h.all fun x => decide (rank x.1 < rank m)) = true := ha
      rw [if_pos hb]
      exact ih hr
    · cases hr
  | unlock _ ih =>
    intro hr
    simp only [Access.runs, hold, List.map_cons, if_true, Option.bind_some] at hr ⊢
    exact ih hr

theorem exists_inst [DecidableEq M] {rank : M → Nat} (w : List (Act L M K)) :
    ∀ {h : List (M × Nat)}, (runs rank w (h.map Prod.fst)).isSome → ∃ w', Inst h w w' := by
  induction w with
  | nil => intro h _; exact ⟨[], .nil⟩
  | cons a w ih =>
    intro h hr
    cases a with
    | rd l => obtain ⟨w', hw⟩ := ih (h := h) hr; exact ⟨_, .rd hw⟩
    | wr l => obtain ⟨w', hw⟩ := ih (h := h) hr; exact ⟨_, .wr hw⟩
    | go k => obtain ⟨w', hw⟩ := ih (h := h) hr; exact ⟨_, .go hw⟩
    | lock m =>
      simp only [runs, hold] at hr
      split at hr
      · obtain ⟨w', hw⟩ := ih (h := (m, 0) :: h) hr
        exact ⟨_, .lock 0 hw⟩
      · cases hr
    | unlock m =>
      cases h with
      | nil => simp only [runs, hold, List.map_nil] at hr; cases hr
      | cons x h =>
        obtain ⟨m', i⟩ := x
        simp only [runs, hold, List.map_cons] at hr
        split at hr
        · rename_i he
          subst he
          obtain ⟨w', hw⟩ := ih (h := h) hr
          exact ⟨_, .unlock hw⟩
        · cases hr

/-! ## Executions -/

/-- Goroutine `i` does its next action; `lang k`: what a goroutine started with `go k` may do. -/
inductive Move [DecidableEq M] (lang : K → List (Act L M K) → Prop) : Nat → State L M K → State L M K → Prop where
  | rd {s : State L M K} {i l w} : s.gs[i]? = some (.rd l :: w) → Move lang i s { s with gs := s.gs.set i w }
  | wr {s : State L M K} {i l w} : s.gs[i]? = some (.wr l :: w) → Move lang i s { s with gs := s.gs.set i w }
  | lock {s : State L M K} {i m w} : s.gs[i]? = some (.lock m :: w) → s.owner m = none →
      Move lang i s { gs := s.gs.set i w, owner := fun m' => if m' = m then some i else s.owner m' }
  | unlock {s : State L M K} {i m w} : s.gs[i]? = some (.unlock m :: w) → s.owner m = some i →
      Move lang i s { gs := s.gs.set i w, owner := fun m' => if m' = m then none else s.owner m' }
  | go {s : State L M K} {i k w v} : s.gs[i]? = some (.go k :: w) → lang k v → Move lang i s { s with gs := s.gs.set i w ++ [v] }

/-- Any number of moves of goroutines of which `P` holds. -/
inductive Moves [DecidableEq M] (lang : K → List (Act L M K) → Prop) (P : Nat → Prop) : State L M K → State L M K → Prop where
  | refl {s} : Moves lang P s s
  | step {s s' s'' i} : P i → Move lang i s s' → Moves lang P s' s'' → Moves lang P s s''

/-- The state in which a program begins. -/
def State.start (w : List (Act L M K)) : State L M K := ⟨[w], fun _ => none⟩

/-- Goroutine `i` waits for a mutex that another one, or it itself, holds. -/
def Waits (s : State L M K) (i : Nat) (m : M) (j : Nat) : Prop := (∃ w, s.gs[i]? = some (.lock m :: w)) ∧ s.owner m = some j

/-- Every goroutine holds some mutexes, and will give them back. -/
structure Orderly [DecidableEq M] (rank : M → Nat) (s : State L M K) (held : Nat → List M) : Prop where
  rest : ∀ i w, s.gs[i]? = some w → runs rank w (held i) = some []
  owns : ∀ m i, s.owner m = some i ↔ m ∈ held i
  none : ∀ i, s.gs.length ≤ i → held i = []
  nodup : ∀ i, (held i).Nodup

variable [DecidableEq M] {rank : M → Nat} {lang : K → List (Act L M K) → Prop}

theorem orderly_start {w : List (Act L M K)} (hw : Tidy rank w) : Orderly rank (State.start w) (fun _ => []) where
  rest := by
    intro i v h
    cases i with
    | zero => injection h with h; subst h; exact hw
    | succ i => simp [State.start] at h
  owns := by
    intro m i
    simp [State.start]
  none := fun _ _ => rfl
  nodup := fun _ => List.nodup_nil

omit [DecidableEq M] in
theorem gs_lt {s : State L M K} {i : Nat} {w : List (Act L M K)} (h : s.gs[i]? = some w) : i < s.gs.length :=
  (List.getElem?_eq_some_iff.mp h).1

omit [DecidableEq M] in
theorem get_set {gs : List (List (Act L M K))} {i : Nat} {w u v : List (Act L M K)} {j : Nat} (h : gs[i]? = some u) (hj : (gs.set i w)[j]? = some v) :
    (j = i ∧ v = w) ∨ (j ≠ i ∧ gs[j]? = some v) := by
  by_cases e : j = i
  · subst e
    rw [List.getElem?_set_self (List.getElem?_eq_some_iff.mp h).1] at hj
    injection hj with hj
    exact .inl ⟨rfl, hj.symm⟩
  · rw [List.getElem?_set_ne (Ne.symm e)] at hj
    exact .inr ⟨e, hj⟩

/-- A move keeps the order; only the goroutine that moves takes or gives back anything. -/
theorem Orderly.move {s s' : State L M K} {held : Nat → List M} {i : Nat} (ho : Orderly rank s held) (hl : ∀ k w, lang k w → Tidy rank w)
    (hm : Move lang i s s') : ∃ held', Orderly rank s' held' ∧ ∀ j, j ≠ i → held' j = held j := by
  -- an action that leaves the mutexes alone
  have plain : ∀ w, s.gs[i]? = some w → ∀ a v, w = a :: v → (∀ h, hold rank a h = some h) →
      Orderly rank { s with gs := s.gs.set i v } held := by
    intro w hw a v he ha
    subst he
    refine ⟨?_, ho.owns, ?_, ho.nodup⟩
    · intro j u hj
      rcases get_set hw hj with ⟨rfl, rfl⟩ | ⟨_, hj⟩
      · have := ho.rest _ _ hw
        simp only [runs, ha, Option.bind_some] at this
        exact this
      · exact ho.rest _ _ hj
    · intro j hj
      simp only [List.length_set] at hj
      exact ho.none j hj
  cases hm with
  | rd h => exact ⟨held, plain _ h _ _ rfl (fun _ => rfl), fun _ _ => rfl⟩
  | wr h => exact ⟨held, plain _ h _ _ rfl (fun _ => rfl), fun _ _ => rfl⟩
  | go h hv =>
    rename_i k w v
    refine ⟨held, ?_, fun _ _ => rfl⟩
    have hp := plain _ h _ _ rfl (fun _ => rfl)
    refine ⟨?_, hp.owns, ?_, ho.nodup⟩
    · intro j u hj
      simp only [List.getElem?_append] at hj
      split at hj
      · exact hp.rest j u hj
      · rename_i hlt
        have hz : held j = [] := hp.none j (Nat.le_of_not_lt hlt)
        have : u = v := by
          cases e : j - (s.gs.set i w).length with
          | zero => rw [e] at hj; injection hj with hj; exact hj.symm
          | succ n => rw [e] at hj; simp at hj
        rw [hz, this]
        exact hl k v hv
    · intro j hj
      simp only [List.length_append, List.length_set] at hj
      exact ho.none j (by omega)
  | lock h hn =>
    rename_i m w
    have hr := ho.rest _ _ h
    simp only [runs, hold] at hr
    split at hr
    · rename_i ha
      refine ⟨fun j => if j = i then m :: held i else held j, ⟨?_, ?_, ?_, ?_⟩, fun j hj => if_neg hj⟩
      · intro j u hj
        rcases get_set h hj with ⟨rfl, rfl⟩ | ⟨hne, hj⟩
        · simp only [if_true]; exact hr
        · simp only [if_neg hne]; exact ho.rest _ _ hj
      · intro x j
        simp only
        by_cases hx : x = m
        · subst hx
          rw [if_pos rfl]
          by_cases hj : j = i
          · subst hj; simp
          · rw [if_neg hj]
            constructor
            · intro e; injection e with e; exact absurd e.symm hj
            · intro hmem
              have := (ho.owns x j).mpr hmem
              rw [hn] at this; cases this
        · rw [if_neg hx]
          by_cases hj : j = i
          · subst hj
            rw [if_pos rfl, ho.owns]
            simp [hx]
          · rw [if_neg hj]; exact ho.owns x j
      · intro j hj
        simp only [List.length_set] at hj
        have : j ≠ i := by have := gs_lt h; omega
        simp only [if_neg this]
        exact ho.none j hj
      · intro j
        by_cases hj : j = i
        · simp only [if_pos hj]
          refine List.nodup_cons.mpr ⟨fun hmem => ?_, ho.nodup i⟩
          have := List.all_eq_true.mp ha m hmem
          simp at this
        · simp only [if_neg hj]; exact ho.nodup j
    · cases hr
  | unlock h hn =>
    rename_i m w
    have hr := ho.rest _ _ h
    have hmem := (ho.owns m i).mp hn
    cases he : held i with
    | nil => rw [he] at hmem; cases hmem
    | cons x t =>
      rw [he] at hr
      simp only [runs, hold] at hr
      split at hr
      · rename_i hxm
        subst hxm
        have hd := ho.nodup i
        rw [he] at hd
        obtain ⟨hx, hd⟩ := List.nodup_cons.mp hd
        refine ⟨fun j => if j = i then t else held j, ⟨?_, ?_, ?_, ?_⟩, fun j hj => if_neg hj⟩
        · intro j u hj
          rcases get_set h hj with ⟨rfl, rfl⟩ | ⟨hne, hj⟩
          · simp only [if_true]; exact hr
          · simp only [if_neg hne]; exact ho.rest _ _ hj
        · intro y j
          simp only
          by_cases hy : y = x
          · subst hy
            rw [if_pos rfl]
            constructor
            · intro e; cases e
            · intro hmem
              by_cases hj : j = i
              · rw [if_pos hj] at hmem; exact absurd hmem hx
              · rw [if_neg hj] at hmem
                have := (ho.owns y j).mpr hmem
                rw [hn] at this
                injection this with this
                exact absurd this.symm hj
          · rw [if_neg hy, ho.owns]
            by_cases hj : j = i
            · subst hj
              rw [if_pos rfl, he]
              simp [hy]
            · rw [if_neg hj]
        · intro j hj
          simp only [List.length_set] at hj
          have : j ≠ i := by have := gs_lt h; omega
          simp only [if_neg this]
          exact ho.none j hj
        · intro j
          by_cases hj : j = i
          · simp only [if_pos hj]; exact hd
          · simp only [if_neg hj]; exact ho.nodup j
      · cases hr

/-! ## Progress -/

/-- How much is left to do for the first `n` goroutines. -/
def left (n : Nat) (s : State L M K) : Nat := ((s.gs.take n).map List.length).sum

omit [DecidableEq M] in
theorem sum_set {gs : List (List (Act L M K))} {i : Nat} {a : Act L M K} {w : List (Act L M K)} (h : gs[i]? = some (a :: w)) :
    ((gs.set i w).map List.length).sum + 1 = (gs.map List.length).sum := by
  induction gs generalizing i with
  | nil => cases h
  | cons g gs ih =>
    cases i with
    | zero =>
      injection h with h
      subst h
      simp only [List.set_cons_zero, List.map_cons, List.sum_cons, List.length_cons]
      omega
    | succ i =>
      have := ih (i := i) h
      simp only [List.set_cons_succ, List.map_cons, List.sum_cons]
      omega

omit [DecidableEq M] in
theorem left_set {s : State L M K} {n i : Nat} {a : Act L M K} {w : List (Act L M K)} (hi : i < n) (h : s.gs[i]? = some (a :: w)) (x : List (List (Act L M K)))
    (hn : n ≤ s.gs.length) (o : M → Option Nat) : left n ⟨s.gs.set i w ++ x, o⟩ + 1 = left n s := by
  simp only [left]
  rw [List.take_append_of_le_length (by rw [List.length_set]; exact hn), List.take_set]
  exact sum_set (by rw [List.getElem?_take_of_lt hi]; exact h)

/-- A move does one action. -/
theorem Move.left {s s' : State L M K} {n i : Nat} (hn : n ≤ s.gs.length) (hi : i < n) (hm : Move lang i s s') :
    Access.left n s' + 1 = Access.left n s ∧ n ≤ s'.gs.length := by
  have one : ∀ (a : Act L M K) w (o : M → Option Nat), s.gs[i]? = some (a :: w) → Access.left n ⟨s.gs.set i w, o⟩ + 1 = Access.left n s ∧ n ≤ (s.gs.set i w).length := by
    intro a w o h
    have := left_set hi h [] hn o
    rw [List.append_nil] at this
    exact ⟨this, by rw [List.length_set]; exact hn⟩
  cases hm with
  | rd h => exact one _ _ _ h
  | wr h => exact one _ _ _ h
  | lock h _ => exact one _ _ _ h
  | unlock h _ => exact one _ _ _ h
  | go h _ =>
    refine ⟨left_set hi h _ hn _, ?_⟩
    simp only [List.length_append, List.length_set]
    omega

/-- If the goroutines from `n` on hold nothing, one of the first `n` can go on, unless they are done. -/
theorem Orderly.progress {s : State L M K} {held : Nat → List M} (ho : Orderly rank s held) (hex : ∀ k, ∃ w, lang k w) {R : Nat} (hR : ∀ m, rank m ≤ R)
    {n : Nat} (hz : ∀ i, n ≤ i → held i = []) {i : Nat} {a : Act L M K} {w : List (Act L M K)} (hi : i < n) (h : s.gs[i]? = some (a :: w)) :
    ∃ j s', j < n ∧ Move lang j s s' := by
  -- a goroutine that waits for a mutex: by the rank of the mutex
  have wait : ∀ d m i w, R - rank m = d → i < n → s.gs[i]? = some (.lock m :: w) → ∃ j s', j < n ∧ Move lang j s s' := by
    intro d
    induction d using Nat.strongRecOn with
    | ind d ih =>
      intro m i w hd hi h
      cases hown : s.owner m with
      | none => exact ⟨i, _, hi, .lock h hown⟩
      | some j =>
        have hmem := (ho.owns m j).mp hown
        have hj : j < n := by
          refine Nat.lt_of_not_le fun hle => ?_
          rw [hz j hle] at hmem
          cases hmem
        have hlt : j < s.gs.length := by
          refine Nat.lt_of_not_le fun hle => ?_
          rw [ho.none j hle] at hmem
          cases hmem
        have hg := List.getElem?_eq_getElem hlt
        have hr := ho.rest _ _ hg
        generalize s.gs[j] = v at hg hr
        cases v with
        | nil =>
          injection hr with hr
          rw [hr] at hmem
          cases hmem
        | cons b v =>
          cases b with
          | rd l => exact ⟨j, _, hj, .rd hg⟩
          | wr l => exact ⟨j, _, hj, .wr hg⟩
          | go k => obtain ⟨u, hu⟩ := hex k; exact ⟨j, _, hj, .go hg hu⟩
          | unlock m' =>
            cases he : held j with
            | nil => rw [he] at hmem; cases hmem
            | cons x t =>
              rw [he] at hr
              simp only [runs, hold] at hr
              split at hr
              · rename_i hx
                exact ⟨j, _, hj, .unlock hg ((ho.owns m' j).mpr (by rw [he, hx]; exact List.mem_cons_self ..))⟩
              · cases hr
          | lock m' =>
            simp only [runs, hold] at hr
            split at hr
            · rename_i ha
              have hlt := of_decide_eq_true (List.all_eq_true.mp ha m hmem)
              have := hR m'
              exact ih (R - rank m') (by omega) m' j v rfl hj hg
            · cases hr
  have hr := ho.rest _ _ h
  cases a with
  | rd l => exact ⟨i, _, hi, .rd h⟩
  | wr l => exact ⟨i, _, hi, .wr h⟩
  | go k => obtain ⟨u, hu⟩ := hex k; exact ⟨i, _, hi, .go h hu⟩
  | lock m => exact wait _ m i w rfl hi h
  | unlock m =>
    cases he : held i with
    | nil => rw [he] at hr; simp only [runs, hold] at hr; cases hr
    | cons x t =>
      rw [he] at hr
      simp only [runs, hold] at hr
      split at hr
      · rename_i hx
        exact ⟨i, _, hi, .unlock h ((ho.owns m i).mpr (by rw [he, hx]; exact List.mem_cons_self ..))⟩
      · cases hr

/-- All goroutines can be brought to their end, moving only them; then no mutex is held. -/
theorem all_finish (hl : ∀ k w, lang k w → Tidy rank w) (hex : ∀ k, ∃ w, lang k w) {R : Nat} (hR : ∀ m, rank m ≤ R) {n : Nat} :
    ∀ (s : State L M K) (held : Nat → List M), Orderly rank s held → (∀ i, n ≤ i → held i = []) → n ≤ s.gs.length →
      ∃ s', Moves lang (· < n) s s' ∧ (∀ i, i < n → s'.gs[i]? = some []) ∧ ∀ m, s'.owner m = none := by
  intro s
  induction hd : left n s using Nat.strongRecOn generalizing s with
  | ind d ih =>
    intro held ho hz hn
    by_cases hu : ∃ i a w, i < n ∧ s.gs[i]? = some (a :: w)
    · obtain ⟨i, a, w, hi, h⟩ := hu
      obtain ⟨j, s1, hj, hm⟩ := ho.progress hex hR hz hi h
      obtain ⟨hlt, hn'⟩ := hm.left hn hj
      obtain ⟨held', ho', hk⟩ := ho.move hl hm
      obtain ⟨s', h1, h2, h3⟩ := ih (left n s1) (by omega) s1 rfl held' ho' (fun i hi => by rw [hk i (by omega)]; exact hz i hi) hn'
      exact ⟨s', .step hj hm h1, h2, h3⟩
    · have fin : ∀ i, i < n → s.gs[i]? = some [] := by
        intro i hi
        have hg := List.getElem?_eq_getElem (Nat.lt_of_lt_of_le hi hn)
        cases e : s.gs[i]'(Nat.lt_of_lt_of_le hi hn) with
        | nil => rw [hg, e]
        | cons a w => exact absurd ⟨i, a, w, hi, by rw [hg, e]⟩ hu
      refine ⟨s, .refl, fin, fun m => ?_⟩
      cases hown : s.owner m with
      | none => rfl
      | some i =>
        have hmem := (ho.owns m i).mp hown
        by_cases hi : i < n
        · have := ho.rest _ _ (fin i hi)
          injection this with this
          rw [this] at hmem
          cases hmem
        · rw [hz i (Nat.le_of_not_lt hi)] at hmem
          cases hmem

/-- A state that can be reached is orderly. -/
theorem orderly_of (hl : ∀ k w, lang k w → Tidy rank w) {P : Nat → Prop} {s s' : State L M K} (hm : Moves lang P s s') :
    ∀ held, Orderly rank s held → ∃ held', Orderly rank s' held' := by
  induction hm with
  | refl => exact fun held ho => ⟨held, ho⟩
  | step _ h _ ih =>
    intro held ho
    obtain ⟨held', ho', _⟩ := ho.move hl h
    exact ih held' ho'

/-- Nobody waits for a mutex it holds itself. -/
theorem Orderly.not_self {s : State L M K} {held : Nat → List M} (ho : Orderly rank s held) {i : Nat} {m : M} : ¬ Waits s i m i := by
  rintro ⟨⟨w, h⟩, hown⟩
  have hr := ho.rest _ _ h
  have hmem := (ho.owns m i).mp hown
  simp only [runs, hold] at hr
  split at hr
  · rename_i ha
    have := of_decide_eq_true (List.all_eq_true.mp ha m hmem)
    omega
  · cases hr

theorem self_move {s s' : State L M K} {i j : Nat} {m : M} (hw : Waits s i m i) (hm : Move lang j s s') : Waits s' i m i := by
  obtain ⟨⟨w, hg⟩, hown⟩ := hw
  have keep : ∀ {a : Act L M K} {u : List (Act L M K)}, s.gs[j]? = some (a :: u) → a ≠ .lock m → (s.gs.set j u)[i]? = some (.lock m :: w) := by
    intro a u hj ha
    have : j ≠ i := by
      rintro rfl
      rw [hg] at hj
      injection hj with hj
      injection hj with hj
      exact ha hj.symm
    rw [List.getElem?_set_ne this]
    exact hg
  cases hm with
  | rd h => exact ⟨⟨w, keep h (by simp)⟩, hown⟩
  | wr h => exact ⟨⟨w, keep h (by simp)⟩, hown⟩
  | go h _ =>
    refine ⟨⟨w, ?_⟩, hown⟩
    rw [List.getElem?_append_left (by rw [List.length_set]; exact gs_lt hg)]
    exact keep h (by simp)
  | lock h hn =>
    rename_i x u
    have hx : x ≠ m := by rintro rfl; rw [hn] at hown; cases hown
    exact ⟨⟨w, keep h (by simpa using hx)⟩, by simp only; rw [if_neg (Ne.symm hx)]; exact hown⟩
  | unlock h hn =>
    rename_i x u
    have hx : m ≠ x := by
      rintro rfl
      rw [hn] at hown
      injection hown with hown
      subst hown
      rw [hg] at h
      cases h
    exact ⟨⟨w, keep h (by simp)⟩, by simp only; rw [if_neg hx]; exact hown⟩

/-- Who waits for a mutex it holds itself waits for ever. -/
theorem self_stuck {P : Nat → Prop} {s s' : State L M K} {i : Nat} {m : M} (hw : Waits s i m i) (hm : Moves lang P s s') : Waits s' i m i := by
  induction hm with
  | refl => exact hw
  | step _ h _ ih => exact ih (self_move hw h)

end Verif.Access
