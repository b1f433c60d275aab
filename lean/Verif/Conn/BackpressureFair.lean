import Verif.Conn.Backpressure
import Verif.Fair

/-!
# Every message is taken in the end if the users take messages (C111)

Infinite executions of the model of the receive goroutines and the receive channels of the endpoints (`Conn/Backpressure.lean`).
-/

namespace Verif.Conn.Backpressure

open Verif.Trace

theorem arrived_append (r : Nat) (a b : List Label) : arrived r (a ++ b) = arrived r a ++ arrived r b := by simp [arrived]

/-- What the receive goroutine of `r` has put into channels. -/
theorem split_step {s s' : Sys} {l : Label} (hs : step s l = some s') (r : Nat) (d : List (Nat × Nat)) :
    ∃ t, d ++ s.pend r ++ arrived r [l] = d ++ t ++ s'.pend r ∧ (l = .deliver r → t ≠ []) := by
  cases l with
  | arrive r' e v =>
    simp only [step] at hs
    injection hs with hs; subst hs
    refine ⟨[], ?_, fun e => by cases e⟩
    by_cases h : r' = r
    · subst h; simp [arrived]
    · simp [arrived, h, upd_other _ _ (Ne.symm h)]
  | deliver r' =>
    simp only [step] at hs
    split at hs
    · simp at hs
    · rename_i e v rest hp
      split at hs
      · injection hs with hs; subst hs
        by_cases h : r' = r
        · subst h
          exact ⟨[(e, v)], by simp [arrived, hp], fun _ => by simp⟩
        · exact ⟨[], by simp [arrived, upd_other _ _ (Ne.symm h)], fun he => by injection he with he; exact absurd he h⟩
      · simp at hs
  | take e =>
    simp only [step] at hs
    split at hs
    · simp at hs
    · injection hs with hs; subst hs
      exact ⟨[], by simp [arrived], fun e => by cases e⟩

/-- The messages of an endpoint in the order they got into its channel: it only grows. -/
theorem chan_step {s s' : Sys} {l : Label} (hs : step s l = some s') (e : Nat) :
    (s.taken e ++ s.rx e) <+: (s'.taken e ++ s'.rx e) ∧ (s.taken e).length ≤ (s'.taken e).length ∧ (l = .take e → (s.taken e).length < (s'.taken e).length) := by
  cases l with
  | arrive r' e' v =>
    simp only [step] at hs
    injection hs with hs; subst hs
    exact ⟨List.prefix_refl _, Nat.le_refl _, fun e => by cases e⟩
  | deliver r' =>
    simp only [step] at hs
    split at hs
    · simp at hs
    · rename_i e' v rest hp
      split at hs
      · injection hs with hs; subst hs
        refine ⟨?_, Nat.le_refl _, fun e => by cases e⟩
        by_cases h : e = e'
        · subst h; exact ⟨[(r', v)], by simp⟩
        · simp [upd_other _ _ h]
      · simp at hs
  | take e' =>
    simp only [step] at hs
    split at hs
    · simp at hs
    · rename_i m rest hx
      injection hs with hs; subst hs
      by_cases h : e = e'
      · subst h; simp [hx]
      · simp only [upd_other _ _ h]
        exact ⟨List.prefix_refl _, Nat.le_refl _, fun he => by injection he with he; exact absurd he.symm h⟩

theorem run_chan (r : Run step init) (e : Nat) {n m : Nat} (h : n ≤ m) :
    ((r.state n).taken e ++ (r.state n).rx e) <+: ((r.state m).taken e ++ (r.state m).rx e) :=
  r.keeps (fun s => ((r.state n).taken e ++ (r.state n).rx e) <+: (s.taken e ++ s.rx e)) n (List.prefix_refl _)
    (fun _ _ _ _ hp hs => hp.trans (chan_step hs e).1) m h

/-- If its user is fair, what is in a channel is taken in the end. -/
theorem run_taken (r : Run step init) (e : Nat) (hu : r.Fair (· = .take e)) (n : Nat) :
    ∃ m, n ≤ m ∧ ((r.state n).taken e ++ (r.state n).rx e) <+: (r.state m).taken e := by
  obtain ⟨m, hm, hl⟩ := r.leads (· = .take e) hu (fun s => (s.taken e).length)
    (fun m => ((r.state n).taken e ++ (r.state n).rx e).length ≤ ((r.state m).taken e).length) n
    (fun m l _ _ hs => (chan_step hs e).2)
    (by
      intro m hm hg
      refine ⟨.take e, rfl, ?_⟩
      cases hx : (r.state m).rx e with
      | nil =>
        have := (run_chan r e hm).length_le
        rw [hx, List.append_nil] at this
        exact absurd this hg
      | cons x xs => simp [step, hx])
    ((r.state n).taken e ++ (r.state n).rx e).length
  exact ⟨m, hm, List.prefix_of_prefix_length_le (run_chan r e hm) ⟨_, rfl⟩ (by rcases hl with h | h <;> exact h)⟩

/-- A full channel gets a free place. -/
theorem run_room (r : Run step init) (e : Nat) (hu : r.Fair (· = .take e)) (n : Nat) : ∃ m, n ≤ m ∧ ((r.state m).rx e).length < rxCap := by
  refine Classical.byContradiction fun hno => ?_
  have hfull : ∀ m, n ≤ m → rxCap ≤ ((r.state m).rx e).length := fun m hm => Nat.le_of_not_lt fun h => hno ⟨m, hm, h⟩
  obtain ⟨m, l, hm, hl, rfl⟩ := hu n fun m hm => ⟨.take e, rfl, by
    cases hx : (r.state m).rx e with
    | nil => have := hfull m hm; rw [hx] at this; exact absurd this (by decide)
    | cons x xs => simp [step, hx]⟩
  rcases r.next m with ⟨h2, _⟩ | ⟨l', h2, h3⟩
  · rw [h2] at hl; cases hl
  · rw [h2] at hl; injection hl with hl; subst hl
    have hb := c64_bounded (r.past m) (r.state m) (r.exec_past m) e
    have hf := hfull (m + 1) (by omega)
    simp only [step] at h3
    split at h3
    · simp at h3
    · rename_i x xs hx
      injection h3 with h3
      rw [← h3] at hf
      simp only [upd_same] at hf
      rw [hx, List.length_cons] at hb
      have : rxCap = 512 := rfl
      omega

/-- C111, receiving: if the user of every endpoint keeps taking messages and the scheduler is (strongly) fair to the receive goroutine of `r`, then every message that
arrives on `r` is taken by the user of its endpoint in the end, in order; whatever arrives, is delivered and is taken elsewhere. -/
theorem c111_taken (r : Run step init) (hu : ∀ e, r.Fair (· = .take e)) (c : Nat) (hd : r.StrongFair (· = .deliver c)) (n e : Nat) :
    ∃ m, n ≤ m ∧ forEp e (arrived c (r.past n)) <+: fromConn c ((r.state m).taken e) := by
  have hpre : ∀ k, n ≤ k → arrived c (r.past n) <+: arrived c (r.past k) := by
    intro k hk
    obtain ⟨t, ht⟩ := r.past_pre hk
    exact ⟨arrived c t, by rw [← ht, arrived_append]⟩
  have hsplit : ∀ k, ∃ d, arrived c (r.past k) = d ++ (r.state k).pend c := by
    intro k
    induction k with
    | zero => exact ⟨[], by rw [r.start]; rfl⟩
    | succ k ih =>
      obtain ⟨d, hd⟩ := ih
      rcases r.next k with ⟨h1, h2⟩ | ⟨l, h1, h2⟩
      · exact ⟨d, by rw [Run.past, h1, h2]; simpa using hd⟩
      · obtain ⟨t, ht, _⟩ := split_step h2 c d
        exact ⟨d ++ t, by rw [Run.past, h1, arrived_append, hd]; exact ht⟩
  -- all of it gets into the channels
  have stage : ∃ k, n ≤ k ∧ (arrived c (r.past n)).length + ((r.state k).pend c).length ≤ (arrived c (r.past k)).length := by
    refine Classical.byContradiction fun hno => ?_
    have hng : ∀ k, n ≤ k → (arrived c (r.past k)).length < (arrived c (r.past n)).length + ((r.state k).pend c).length :=
      fun k hk => Nat.lt_of_not_le fun h => hno ⟨k, hk, h⟩
    have hact : ∀ k, ∃ m l, k ≤ m ∧ r.label m = some l ∧ l = .deliver c := by
      refine hd fun k => ?_
      have h1 := hng (max k n) (by omega)
      have h2 := (hpre (max k n) (by omega)).length_le
      cases hp : (r.state (max k n)).pend c with
      | nil => rw [hp] at h1; simp at h1; omega
      | cons x rest =>
        obtain ⟨e', v⟩ := x
        refine Classical.byContradiction fun hnr => ?_
        have hblocked : ∀ m, max k n ≤ m → ∃ rest, (r.state m).pend c = (e', v) :: rest := by
          refine r.keeps (fun s => ∃ rest, s.pend c = (e', v) :: rest) (max k n) ⟨rest, hp⟩ ?_
          rintro m l hm hlab ⟨rest', hp'⟩ hs
          have hle : l ≠ .deliver c := fun he => hnr ⟨m, by omega, ⟨l, he, by rw [hs]; rfl⟩⟩
          cases l with
          | arrive r' e'' w =>
            simp only [step] at hs
            injection hs with hs
            rw [← hs]
            by_cases h : c = r'
            · subst h; exact ⟨rest' ++ [(e'', w)], by simp [hp']⟩
            · exact ⟨rest', by simp [upd_other _ _ h, hp']⟩
          | deliver r' =>
            have hne : c ≠ r' := fun h => hle (by rw [h])
            simp only [step] at hs
            split at hs
            · simp at hs
            · split at hs
              · injection hs with hs
                rw [← hs]
                exact ⟨rest', by simp [upd_other _ _ hne, hp']⟩
              · simp at hs
          | take e'' =>
            simp only [step] at hs
            split at hs
            · simp at hs
            · injection hs with hs
              rw [← hs]
              exact ⟨rest', hp'⟩
        obtain ⟨m, hm, hroom⟩ := run_room r e' (hu e') (max k n)
        obtain ⟨rest', hp'⟩ := hblocked m hm
        exact hnr ⟨m, by omega, .deliver c, rfl, by simp [step, hp', hroom]⟩
    -- each delivery shortens what is left of the first messages
    have fewer : ∀ j, ∃ k, n ≤ k ∧ j + ((r.state k).pend c).length ≤ (arrived c (r.past k)).length := by
      intro j
      induction j with
      | zero =>
        obtain ⟨d, hd⟩ := hsplit n
        exact ⟨n, Nat.le_refl _, by rw [hd, List.length_append]; omega⟩
      | succ j ih =>
        obtain ⟨k, hk, hj⟩ := ih
        have mono : ∀ m, k ≤ m → j + ((r.state m).pend c).length ≤ (arrived c (r.past m)).length := by
          intro m
          induction m with
          | zero => intro h; rw [show k = 0 by omega] at hj; exact hj
          | succ m ihm =>
            intro h
            rcases Nat.lt_or_ge k (m + 1) with h' | h'
            · have := ihm (by omega)
              rcases r.next m with ⟨h1, h2⟩ | ⟨l, h1, h2⟩
              · rw [Run.past, h1, h2]; simpa using this
              · obtain ⟨t, ht, _⟩ := split_step h2 c []
                have hl := congrArg List.length ht
                simp only [List.nil_append, List.length_append] at hl
                rw [Run.past, h1, arrived_append, List.length_append]
                simp only [Option.toList]
                omega
            · rw [show m + 1 = k by omega]; exact hj
        obtain ⟨m, l, hm, hlab, rfl⟩ := hact k
        refine ⟨m + 1, by omega, ?_⟩
        have := mono m hm
        rcases r.next m with ⟨h1, _⟩ | ⟨l, h1, h2⟩
        · rw [h1] at hlab; cases hlab
        · rw [h1] at hlab; injection hlab with hlab; subst hlab
          obtain ⟨t, ht, hne⟩ := split_step h2 c []
          have hl := congrArg List.length ht
          simp only [List.nil_append, List.length_append] at hl
          have := List.length_pos_iff.2 (hne rfl)
          rw [Run.past, h1, arrived_append, List.length_append]
          simp only [Option.toList]
          omega
    obtain ⟨k, hk, hj⟩ := fewer (arrived c (r.past n)).length
    exact hno ⟨k, hk, hj⟩
  obtain ⟨k, hk, hlen⟩ := stage
  obtain ⟨d, hdk⟩ := hsplit k
  have hpd : arrived c (r.past n) <+: d := by
    refine List.prefix_of_prefix_length_le (hpre k hk) ⟨_, hdk.symm⟩ ?_
    rw [hdk, List.length_append] at hlen
    omega
  have hord := c64_order (r.past k) (r.state k) (r.exec_past k) c e
  rw [hdk, forEp_append, ← fromConn_append] at hord
  have hfd : fromConn c ((r.state k).taken e ++ (r.state k).rx e) = forEp e d := List.append_cancel_right hord
  obtain ⟨m, hm, ht⟩ := run_taken r e (hu e) k
  refine ⟨m, by omega, ?_⟩
  have h1 : forEp e (arrived c (r.past n)) <+: forEp e d := by
    obtain ⟨t, ht⟩ := hpd
    exact ⟨forEp e t, by rw [← ht, forEp_append]⟩
  rw [← hfd] at h1
  refine h1.trans ?_
  obtain ⟨t, ht⟩ := ht
  exact ⟨fromConn c t, by rw [← ht, fromConn_append, fromConn_append, fromConn_append]⟩

/-! ### Example: two connections, two endpoints, and then nothing more -/

def demoLabels : List Label := [.arrive 0 1 7, .arrive 1 1 8, .deliver 1, .arrive 0 2 9, .deliver 0, .take 1, .deliver 0, .take 2, .take 1]

example : ∃ r : Run step init, (∀ e, r.Fair (· = .take e)) ∧ r.StrongFair (· = .deliver 0) ∧ forEp 1 (arrived 0 (r.past 4)) = [7] ∧
    ∃ m, 4 ≤ m ∧ [7] <+: fromConn 0 ((r.state m).taken 1) := by
  have he : ∃ s, exec init demoLabels = some s ∧ (∀ e, s.rx e = []) ∧ ∀ c, s.pend c = [] := by
    refine ⟨_, rfl, fun e => ?_, fun c => ?_⟩
    · simp only [upd, init]; split <;> (try split) <;> simp_all
    · simp only [upd, init]; split <;> (try split) <;> simp_all
  obtain ⟨s, h1, h2, h3⟩ := he
  have hu : ∀ e, (Trace.demo demoLabels s h1).Fair (· = .take e) := fun e => demo_fair _ _ _ _ (by
    rintro ⟨l, rfl, hs⟩
    simp [step, h2] at hs)
  have hd : (Trace.demo demoLabels s h1).StrongFair (· = .deliver 0) := demo_strong _ _ _ _ (by
    rintro ⟨l, rfl, hs⟩
    simp [step, h3] at hs)
  exact ⟨_, hu, hd, rfl, c111_taken _ hu 0 hd 4 1⟩

end Verif.Conn.Backpressure
