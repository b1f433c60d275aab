import Verif.Conn.Service
import Verif.Fair

/-!
# A server with an Echo answers every request in the end (C111)

Infinite executions of the second model of `Conn/Service.lean`.  Of the scheduler is asked only that the client and its receive goroutine together are not forgotten for ever; the other
clients, who may never read, do not matter.
-/

namespace Verif.Conn.Service

open Verif.Trace

/-- What client `c` and its receive goroutine do about its requests. -/
def Tends (c : Nat) (l : Nat × EchoAct) : Prop := l.1 = c ∧ ∀ v, l.2 ≠ .ask v

/-- Steps done for the requests of a line. -/
def Line.tended (x : Line) : Nat := 3 * x.got.length + 2 * x.back.length + x.hand.toList.length

theorem line_tended {cap : Nat} {x y : Line} {a : EchoAct} (h : lineStep cap x a = some y) :
    x.tended ≤ y.tended ∧ ((∀ v, a ≠ .ask v) → x.tended < y.tended) ∧ (x.back.length ≤ cap → y.back.length ≤ cap) := by
  obtain ⟨asked, hand, back, got⟩ := x
  cases a with
  | ask v => simp only [lineStep] at h; injection h with h; subst h; exact ⟨Nat.le_refl _, fun e => absurd rfl (e v), id⟩
  | read =>
    simp only [lineStep] at h
    split at h
    · injection h with h; subst h; simp [Line.tended]
    · cases h
  | write =>
    simp only [lineStep] at h
    split at h
    · split at h
      · injection h with h; subst h; simp [Line.tended]; omega
      · cases h
    · cases h
  | take =>
    simp only [lineStep] at h
    split at h
    · injection h with h; subst h; simp [Line.tended]; omega
    · cases h

theorem echo_tended {cap : Nat → Nat} {s s' : Nat → Line} {l : Nat × EchoAct} (c : Nat) (h : echoStep cap s l = some s') :
    (s c).tended ≤ (s' c).tended ∧ (Tends c l → (s c).tended < (s' c).tended) ∧ ((s c).back.length ≤ cap c → (s' c).back.length ≤ cap c) := by
  simp only [echoStep, Option.map_eq_some_iff] at h
  obtain ⟨x, hx, rfl⟩ := h
  by_cases e : l.1 = c
  · subst e
    rw [upd_same]
    obtain ⟨a, b, d⟩ := line_tended hx
    exact ⟨a, fun t => b t.2, d⟩
  · rw [upd_other _ _ (Ne.symm e)]
    exact ⟨Nat.le_refl _, fun t => absurd t.1 e, id⟩

/-- C111 for a server with an Echo: every request comes back to the client that reads, in order, whatever the others do, if the client and its receive goroutine are not forgotten. -/
theorem c111_echo (cap : Nat → Nat) (c : Nat) (hcap : 0 < cap c) (r : Run (echoStep cap) fun _ => Line.init) (hf : r.Fair (Tends c)) (n : Nat) :
    ∃ m, n ≤ m ∧ echoRequests c (r.past n) <+: (r.state m c).got := by
  have all : ∀ m, echoRequests c (r.past m) = (r.state m c).got ++ (r.state m c).way := by
    intro m
    have h1 := line_order _ _ _ (c80_echo_partial cap _ _ _ c (r.exec_past m))
    rw [mine_requests] at h1
    simp only [Line.init, Line.way, List.nil_append, List.append_nil, Option.toList_none] at h1
    exact h1.symm
  have pre : ∀ m, n ≤ m → echoRequests c (r.past n) <+: echoRequests c (r.past m) := by
    intro m hm
    obtain ⟨t, ht⟩ := r.past_pre hm
    exact ⟨echoRequests c t, by rw [← ht, echoRequests, echoRequests, echoRequests, List.filterMap_append]⟩
  have bound : ∀ m, (r.state m c).back.length ≤ cap c := fun m =>
    r.keeps (fun s => (s c).back.length ≤ cap c) 0 (by rw [r.start]; exact Nat.zero_le _) (fun _ _ _ _ hk hs => (echo_tended c hs).2.2 hk) m (Nat.zero_le _)
  obtain ⟨m, h1, h2⟩ := r.leads (Tends c) hf (fun s => (s c).tended) (fun m => (echoRequests c (r.past n)).length ≤ (r.state m c).got.length) n
    (fun m l _ _ hs => ⟨(echo_tended c hs).1, (echo_tended c hs).2.1⟩)
    (fun m hm hng => by
      have hlen := (pre m hm).length_le
      rw [all m, List.length_append] at hlen
      have hway : (r.state m c).way ≠ [] := fun e => by rw [e, List.length_nil] at hlen; omega
      have ready : ∀ a : EchoAct, (∀ v, a ≠ .ask v) → (lineStep (cap c) (r.state m c) a).isSome = true → Ready (echoStep cap) (Tends c) (r.state m) := fun a h1 h2 =>
        ⟨(c, a), ⟨rfl, h1⟩, by simpa [echoStep] using h2⟩
      cases hb : (r.state m c).back with
      | cons v b => exact ready .take (by simp) (by simp [lineStep, hb])
      | nil =>
        cases hh : (r.state m c).hand with
        | some v => exact ready .write (by simp) (by simp [lineStep, hh, hb, hcap])
        | none =>
          cases ha : (r.state m c).asked with
          | nil => exact absurd (by simp [Line.way, hb, hh, ha]) hway
          | cons v a => exact ready .read (by simp) (by simp [lineStep, hh, ha]))
    (3 * (echoRequests c (r.past n)).length + 2 * cap c + 2)
  refine ⟨m, h1, ?_⟩
  have hlen : (echoRequests c (r.past n)).length ≤ (r.state m c).got.length := by
    rcases h2 with h2 | h2
    · exact h2
    · simp only [Line.tended] at h2
      have := bound m
      have : (r.state m c).hand.toList.length ≤ 1 := by cases (r.state m c).hand <;> simp
      omega
  exact List.prefix_of_prefix_length_le (pre m h1) (by rw [all m]; exact ⟨_, rfl⟩) hlen

/-- Client 0 asks and never reads, until its receive goroutine waits for ever; client 1 gets its answer. -/
def echoRun : Run (echoStep fun _ => 1) fun _ => Line.init :=
  demo [(0, .ask 5), (0, .ask 6), (1, .ask 7), (0, .read), (0, .write), (0, .read), (1, .read), (1, .write), (1, .take)] _ rfl

example : echoRun.Fair (Tends 1) ∧ (∃ m, 3 ≤ m ∧ [7] <+: (echoRun.state m 1).got) ∧ (echoRun.state 9 0).got = [] := by
  have hf : echoRun.Fair (Tends 1) := demo_fair _ _ _ _ (by
    rintro ⟨⟨d, a⟩, ⟨h1, h2⟩, h3⟩
    simp only at h1
    subst h1
    cases a with
    | ask v => exact h2 v rfl
    | read => cases h3
    | write => cases h3
    | take => cases h3)
  exact ⟨hf, c111_echo _ 1 (by decide) echoRun hf 3, rfl⟩

end Verif.Conn.Service
