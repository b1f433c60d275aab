import Verif.Access.Deadlock

/-!
# Every goroutine that waits for a mutex gets it (C106)

Infinite executions of `Locks.lean` and `Deadlock.lean`.  A goroutine that could go on again and again goes on at some time: the scheduler forgets nobody, and `sync.Mutex` lets nobody
wait for ever while others take the mutex and give it back (its starvation mode).  As in `Deadlock.lean` the loops of goroutines go round any finite number of times.
-/

namespace Verif.Access

variable {L M K : Type} [DecidableEq M] {rank : M → Nat} {lang : K → List (Act L M K) → Prop}

/-- An infinite execution; `none`: nothing happens. -/
structure Story (lang : K → List (Act L M K) → Prop) where
  state : Nat → State L M K
  who : Nat → Option Nat
  next : ∀ n, (who n = none ∧ state (n + 1) = state n) ∨ ∃ i, who n = some i ∧ Move lang i (state n) (state (n + 1))

/-- If a goroutine can go on again and again, it does so again and again. -/
def Story.Fair (t : Story lang) (i : Nat) : Prop := (∀ n, ∃ m, n ≤ m ∧ ∃ s', Move lang i (t.state m) s') → ∀ n, ∃ m, n ≤ m ∧ t.who m = some i

theorem move_other {s s' : State L M K} {i j : Nat} {v : List (Act L M K)} (hm : Move lang j s s') (hne : j ≠ i) (h : s.gs[i]? = some v) : s'.gs[i]? = some v := by
  cases hm with
  | rd => simpa [List.getElem?_set_ne hne] using h
  | wr => simpa [List.getElem?_set_ne hne] using h
  | lock => simpa [List.getElem?_set_ne hne] using h
  | unlock => simpa [List.getElem?_set_ne hne] using h
  | go => rw [List.getElem?_append_left (by rw [List.length_set]; exact gs_lt h), List.getElem?_set_ne hne]; exact h

theorem move_self {s s' : State L M K} {i : Nat} {a : Act L M K} {v : List (Act L M K)} (hm : Move lang i s s') (h : s.gs[i]? = some (a :: v)) : s'.gs[i]? = some v := by
  have hlt := gs_lt h
  cases hm with
  | rd h' => rw [h] at h'; injection h' with h'; injection h' with _ h'; subst h'; simp [hlt]
  | wr h' => rw [h] at h'; injection h' with h'; injection h' with _ h'; subst h'; simp [hlt]
  | lock h' => rw [h] at h'; injection h' with h'; injection h' with _ h'; subst h'; simp [hlt]
  | unlock h' => rw [h] at h'; injection h' with h'; injection h' with _ h'; subst h'; simp [hlt]
  | go h' =>
    rw [h] at h'; injection h' with h'; injection h' with _ h'; subst h'
    rw [List.getElem?_append_left (by rw [List.length_set]; exact hlt)]; simp [hlt]

theorem move_owner {s s' : State L M K} {i j : Nat} {m : M} (hm : Move lang j s s') (h : s.owner m = some i) : s'.owner m = some i ∨ s'.owner m = none := by
  cases hm with
  | rd => exact .inl h
  | wr => exact .inl h
  | go => exact .inl h
  | lock _ hn =>
    rename_i x _ _
    have : m ≠ x := by rintro rfl; rw [hn] at h; cases h
    exact .inl (by simp only [if_neg this]; exact h)
  | unlock =>
    simp only
    split
    · exact .inr rfl
    · exact .inl h

variable (t : Story lang)

theorem Story.orderly (hl : ∀ k w, lang k w → Tidy rank w) (h0 : ∃ held, Orderly rank (t.state 0) held) (n : Nat) : ∃ held, Orderly rank (t.state n) held := by
  induction n with
  | zero => exact h0
  | succ n ih =>
    rcases t.next n with ⟨_, e⟩ | ⟨i, _, hm⟩
    · rw [e]; exact ih
    · obtain ⟨held, ho⟩ := ih
      obtain ⟨held', ho', _⟩ := ho.move hl hm
      exact ⟨held', ho'⟩

/-- A goroutine that can go on again and again as long as it does not, goes on. -/
theorem Story.on {i n : Nat} {a : Act L M K} {v : List (Act L M K)} (hf : t.Fair i) (h : (t.state n).gs[i]? = some (a :: v))
    (he : (∀ k, n ≤ k → (t.state k).gs[i]? = some (a :: v)) → ∀ k, n ≤ k → ∃ m, k ≤ m ∧ ∃ s', Move lang i (t.state m) s') :
    ∃ m, n < m ∧ (t.state m).gs[i]? = some v := by
  refine Classical.byContradiction fun hno => ?_
  have stay : ∀ k, n ≤ k → (t.state k).gs[i]? = some (a :: v) := by
    intro k hk
    induction k with
    | zero => rw [show 0 = n by omega]; exact h
    | succ k ih =>
      by_cases e : n = k + 1
      · rw [← e]; exact h
      · have hk := ih (by omega)
        rcases t.next k with ⟨_, e⟩ | ⟨j, _, hm⟩
        · rw [e]; exact hk
        · by_cases hj : j = i
          · subst hj; exact absurd ⟨k + 1, by omega, move_self hm hk⟩ hno
          · exact move_other hm hj hk
  obtain ⟨m, hm, hw⟩ := hf (fun k => by
    obtain ⟨m, h1, h2⟩ := he stay (max k n) (Nat.le_max_right _ _)
    exact ⟨m, Nat.le_trans (Nat.le_max_left _ _) h1, h2⟩) n
  rcases t.next m with ⟨e, _⟩ | ⟨j, e, hmv⟩
  · rw [e] at hw; cases hw
  · rw [e] at hw; injection hw with hw; subst hw
    exact hno ⟨m + 1, by omega, move_self hmv (stay m hm)⟩

/-- The mutex is given back again and again. -/
def Story.Free (m : M) : Prop := ∀ n, ∃ k, n ≤ k ∧ (t.state k).owner m = none

theorem Story.goes (hl : ∀ k w, lang k w → Tidy rank w) (hex : ∀ k, ∃ w, lang k w) (h0 : ∃ held, Orderly rank (t.state 0) held) {i n : Nat} {a : Act L M K} {v : List (Act L M K)}
    (hf : t.Fair i) (h : (t.state n).gs[i]? = some (a :: v)) (hfree : ∀ m, a = .lock m → t.Free m) : ∃ m, n < m ∧ (t.state m).gs[i]? = some v := by
  refine t.on hf h fun stay k hk => ?_
  cases a with
  | rd l => exact ⟨k, Nat.le_refl _, _, .rd (stay k hk)⟩
  | wr l => exact ⟨k, Nat.le_refl _, _, .wr (stay k hk)⟩
  | go x => obtain ⟨u, hu⟩ := hex x; exact ⟨k, Nat.le_refl _, _, .go (stay k hk) hu⟩
  | lock m =>
    obtain ⟨j, h1, h2⟩ := hfree m rfl k
    exact ⟨j, h1, _, .lock (stay j (by omega)) h2⟩
  | unlock m =>
    obtain ⟨held, ho⟩ := t.orderly hl h0 k
    have hr := ho.rest _ _ (stay k hk)
    cases he : held i with
    | nil => rw [he] at hr; simp only [runs, hold] at hr; cases hr
    | cons x u =>
      rw [he] at hr
      simp only [runs, hold] at hr
      split at hr
      · rename_i hx
        exact ⟨k, Nat.le_refl _, _, .unlock (stay k hk) ((ho.owns m i).mpr (by rw [he, hx]; exact List.mem_cons_self ..))⟩
      · cases hr

theorem Story.free (hl : ∀ k w, lang k w → Tidy rank w) (hex : ∀ k, ∃ w, lang k w) {R : Nat} (hR : ∀ m, rank m ≤ R) (h0 : ∃ held, Orderly rank (t.state 0) held)
    (hf : ∀ i, t.Fair i) (m : M) : t.Free m := by
  generalize hd : R - rank m = d
  induction d using Nat.strongRecOn generalizing m with
  | ind d ih =>
    intro n
    refine Classical.byContradiction fun hno => ?_
    cases ho : (t.state n).owner m with
    | none => exact hno ⟨n, Nat.le_refl _, ho⟩
    | some i =>
      have own : ∀ k, n ≤ k → (t.state k).owner m = some i := by
        intro k hk
        induction k with
        | zero => rw [show 0 = n by omega]; exact ho
        | succ k ihk =>
          by_cases e : n = k + 1
          · rw [← e]; exact ho
          · have hk' := ihk (by omega)
            rcases t.next k with ⟨_, e⟩ | ⟨j, _, hm⟩
            · rw [e]; exact hk'
            · exact (move_owner hm hk').resolve_right fun e => hno ⟨k + 1, hk, e⟩
      have never : ∀ v k, n ≤ k → (t.state k).gs[i]? = some v → False := by
        intro v
        induction v with
        | nil =>
          intro k hk hg
          obtain ⟨held, hord⟩ := t.orderly hl h0 k
          have hr := hord.rest _ _ hg
          injection hr with hr
          have := (hord.owns m i).mp (own k hk)
          rw [hr] at this; cases this
        | cons a v ihv =>
          intro k hk hg
          obtain ⟨j, h1, h2⟩ := t.goes hl hex h0 (hf i) hg (fun m' e => by
            subst e
            obtain ⟨held, hord⟩ := t.orderly hl h0 k
            have hr := hord.rest _ _ hg
            simp only [runs, hold] at hr
            split at hr
            · rename_i ha
              have hlt := of_decide_eq_true (List.all_eq_true.mp ha m ((hord.owns m i).mp (own k hk)))
              have := hR m'
              exact ih (R - rank m') (by omega) m' rfl
            · cases hr)
          exact ihv j (by omega) h2
      obtain ⟨held, hord⟩ := t.orderly hl h0 n
      have hmem := (hord.owns m i).mp ho
      have hlt : i < (t.state n).gs.length := Nat.lt_of_not_le fun hle => by rw [hord.none i hle] at hmem; cases hmem
      exact never _ n (Nat.le_refl _) (List.getElem?_eq_getElem hlt)

theorem not_done {s s' : State L M K} {i : Nat} (hm : Move lang i s s') : s.gs[i]? ≠ some [] := by
  intro e
  cases hm with
  | rd h => rw [e] at h; cases h
  | wr h => rw [e] at h; cases h
  | lock h _ => rw [e] at h; cases h
  | unlock h _ => rw [e] at h; cases h
  | go h _ => rw [e] at h; cases h

theorem Story.done (i n : Nat) (h : (t.state n).gs[i]? = some []) (k : Nat) (hk : n ≤ k) : (t.state k).gs[i]? = some [] := by
  induction k with
  | zero => rw [show 0 = n by omega]; exact h
  | succ k ih =>
    by_cases e : n = k + 1
    · rw [← e]; exact h
    · have hk := ih (by omega)
      rcases t.next k with ⟨_, e⟩ | ⟨j, _, hm⟩
      · rw [e]; exact hk
      · refine move_other hm (fun e => ?_) hk
        subst e
        exact not_done hm hk

/-- C106 in infinite executions, for programs without a Heartbeat or whose listeners do not publish NewConnection events themselves: every mutex is given back again and again, and every
goroutine, whenever it was started, does all it has to do.  Missing: listeners that do, in programs with a Heartbeat (`c106_never`). -/
theorem c106_served_partial (F : Feature → Bool) (p : Bool) (hp : p = false ∨ F .heartbeat = false) (n : Nat) (t : Story (langU F p n)) (h0 : ReachU F p n (t.state 0))
    (hf : ∀ i, t.Fair i) :
    (∀ m, t.Free m) ∧ ∀ (a i : Nat) v, (t.state a).gs[i]? = some v → ∃ b, a ≤ b ∧ ∀ c : Nat, b ≤ c → (t.state c).gs[i]? = some [] := by
  have h0' := reach_orderly hp h0
  have free := t.free (rank := fun m => rank m.1) (lang_tidy hp n) (lang_some hp n) (fun m => rank_le m.1) h0' hf
  refine ⟨free, fun a i v => ?_⟩
  induction v generalizing a with
  | nil => exact fun h => ⟨a, Nat.le_refl _, t.done i a h⟩
  | cons x v ih =>
    intro h
    obtain ⟨b, h1, h2⟩ := t.goes (rank := fun m => rank m.1) (lang_tidy hp n) (lang_some hp n) h0' (hf i) h fun m _ => free m
    obtain ⟨c, h3, h4⟩ := ih b h2
    exact ⟨c, by omega, h4⟩

/-- A goroutine that waits for a mutex it holds itself (`c106_violated`) does so for ever, however fair the scheduler is. -/
theorem c106_never (t : Story lang) (n i : Nat) (m : M) (h : Waits (t.state n) i m i) (k : Nat) (hk : n ≤ k) : Waits (t.state k) i m i := by
  induction k with
  | zero => rw [show 0 = n by omega]; exact h
  | succ k ih =>
    by_cases e : n = k + 1
    · rw [← e]; exact h
    · rcases t.next k with ⟨_, e⟩ | ⟨j, _, hm⟩
      · rw [e]; exact ih (by omega)
      · exact self_move (ih (by omega)) hm

/-! ## Examples -/

theorem story_of {P : Nat → Prop} {s s' : State L M K} (h : Moves lang P s s') : ∃ t : Story lang, t.state 0 = s ∧ ∃ n, ∀ k, n ≤ k → t.state k = s' := by
  induction h with
  | @refl s => exact ⟨⟨fun _ => s, fun _ => none, fun _ => .inl ⟨rfl, rfl⟩⟩, rfl, 0, fun _ _ => rfl⟩
  | @step s _ _ i _ hm _ ih =>
    obtain ⟨t, h1, n, h2⟩ := ih
    refine ⟨⟨fun | 0 => s | k + 1 => t.state k, fun | 0 => some i | k + 1 => t.who k, fun k => ?_⟩, rfl, n + 1, fun k hk => ?_⟩
    · cases k with
      | zero => exact .inr ⟨i, rfl, by simpa only [h1] using hm⟩
      | succ k => exact t.next k
    · cases k with
      | zero => omega
      | succ k => exact h2 k (by omega)

theorem fair_of_done (t : Story lang) (n : Nat) (h : ∀ k, n ≤ k → ∀ (i : Nat) a v, (t.state k).gs[i]? ≠ some (a :: v)) (i : Nat) : t.Fair i := by
  intro he
  obtain ⟨m, h1, s', hm⟩ := he n
  cases hm with
  | rd e => exact absurd e (h m h1 _ _ _)
  | wr e => exact absurd e (h m h1 _ _ _)
  | lock e _ => exact absurd e (h m h1 _ _ _)
  | unlock e _ => exact absurd e (h m h1 _ _ _)
  | go e _ => exact absurd e (h m h1 _ _ _)

/-- The program of the example in `Deadlock.lean`, seven goroutines, two of which take the mutex of the UpperDeck, one of them with that of the Heartbeat held. -/
example : ∃ t : Story (langU (just [.heartbeat, .changeEndPoints]) false 1), ReachU (just [.heartbeat, .changeEndPoints]) false 1 (t.state 0) ∧ (∀ i, t.Fair i) ∧
    ∃ n, (t.state n).gs.length = 7 := by
  obtain ⟨s, h1, h2⟩ := reaches (body := bodyU (just [.heartbeat, .changeEndPoints]) false 1) (main := mainU (just [.heartbeat, .changeEndPoints]) false 1)
    (lift (runAll beatRun .accept) ++ [.go none])
    (soloU 0 (lift (runAll beatRun .accept) ++ [.go none]) [[], [], lift lostAdds, lift acceptTwo, lift [r .next], lift deletes] ++
      soloU 6 (lift deletes |>.take 6) [] ++ soloU 3 (lift lostAdds |>.take 12) [] ++ soloU 6 (lift deletes |>.drop 6) [] ++ soloU 3 (lift lostAdds |>.drop 12) [] ++
      soloU 4 (lift acceptTwo) [] ++ soloU 5 (lift [r .next]) [])
    (fun s => s.gs.all (·.isEmpty) && decide (s.gs.length = 7)) (by decide +kernel)
  rw [Bool.and_eq_true] at h2
  obtain ⟨u, w, hu, hi, hm⟩ := reach_single (.inl rfl) h1
  obtain ⟨t, e0, n, hn⟩ := story_of hm
  refine ⟨t, by rw [e0]; exact ⟨u, w, hu, hi, .refl⟩, fair_of_done t n fun k hk i a v he => ?_, n, ?_⟩
  · rw [hn k hk] at he
    simp only [State.single, List.getElem?_map, Option.map_eq_some_iff] at he
    obtain ⟨g, hg, e⟩ := he
    have := List.all_eq_true.mp h2.1 g (List.mem_of_getElem? hg)
    rw [List.isEmpty_iff.mp this] at e
    cases e
  · rw [hn n (Nat.le_refl _)]
    simpa [State.single] using h2.2

/-- `c106_never`, in the program of `c106_violated`. -/
example : ∃ t : Story fun k => Word (bodyV (just [.heartbeat]) k), Reach (bodyV (just [.heartbeat])) (mainV (just [.heartbeat])) (t.state 0) ∧
    ∀ k, Waits (t.state k) 3 .heartbeat 3 := by
  obtain ⟨s, h1, h2⟩ := c106_violated (just [.heartbeat]) rfl
  obtain ⟨t, e, _⟩ := story_of (lang := fun k => Word (bodyV (just [.heartbeat]) k)) (P := fun _ => True) (.refl (s := s))
  exact ⟨t, e ▸ h1, fun k => c106_never t 0 3 .heartbeat (by rw [e]; exact h2 s .refl) k (Nat.zero_le _)⟩

end Verif.Access
