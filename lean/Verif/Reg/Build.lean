import Verif.Reg.Serving

/-!
# Slices handed out (C44), overhead and MTU (C45), wiring (C46), running again (C59)
-/

namespace Verif.Reg
open Stack (Val optionParseInt)

/-! ## C44: what a slice returned by `GetEndPoint` / `GetTransport` shows later -/

/-- A slice taken earlier and the current one: elsewhere, or a prefix. -/
def Prefix (m : Mem α) (cur s : Slice) : Prop := s.arr < m.next ∧ (s.arr = cur.arr → s.len ≤ cur.len)

theorem prefix_append {m : Mem α} {cur s : Slice} {z x : α} {spare : Nat} (h : Prefix m cur s) :
    Prefix (m.append z spare cur x).1 (m.append z spare cur x).2 s ∧ (m.append z spare cur x).1.read s = m.read s := by
  refine ⟨?_, Mem.append_other h.1 h.2⟩
  simp only [Mem.append, Prefix, Mem.put]
  split
  · exact ⟨h.1, fun he => Nat.le_succ_of_le (h.2 he)⟩
  · refine ⟨by have := h.1; simp only; omega, fun he => ?_⟩
    have h1 := h.1
    simp only at he
    omega

theorem emem_publish (u : U) (ev : Event) : (u.publish ev).emem = u.emem ∧ (u.publish ev).endpoints = u.endpoints ∧
    (u.publish ev).tmem = u.tmem ∧ (u.publish ev).transports = u.transports ∧ (u.publish ev).spare = u.spare := by
  obtain ⟨l, h, _⟩ := publish_eq u ev; rw [h]; exact ⟨rfl, rfl, rfl, rfl, rfl⟩

theorem emem_run (u : U) : u.run.emem = u.emem ∧ u.run.endpoints = u.endpoints ∧ u.run.tmem = u.tmem ∧
    u.run.transports = u.transports := by
  obtain ⟨l, h, _⟩ := run_eq u; rw [h]; exact ⟨rfl, rfl, rfl, rfl⟩

theorem eprefix_step {u : U} {s : Slice} (h : Prefix u.emem u.endpoints s) (op : Op) (hop : ∀ e, op ≠ .deleteEndPoint e) :
    Prefix (u.step op).emem (u.step op).endpoints s ∧ (u.step op).emem.read s = u.emem.read s := by
  cases op with
  | addEndPoint e =>
    simp only [U.step, U.addEndPoint]
    split
    · exact ⟨h, rfl⟩
    · obtain ⟨h1, h2, _⟩ := emem_publish u ⟨.endpointAdded, .ep e⟩
      simp only
      rw [h1, h2]
      exact prefix_append h
  | deleteEndPoint e => exact absurd rfl (hop e)
  | addTransport t =>
    simp only [U.step, U.addTransport]
    split
    · exact ⟨h, rfl⟩
    · obtain ⟨h1, h2, _⟩ := emem_publish u ⟨.transportAdded, .tp t⟩
      simp only
      rw [h1, h2]
      exact ⟨h, rfl⟩
  | deleteTransport t =>
    simp only [U.step, U.deleteTransport]
    split
    · exact ⟨h, rfl⟩
    · rename_i i _
      generalize hv : (U.mk _ _ _ _ _ _ _ _ _ _ _ _ _ _ _ _ _ _ _ : U) = v
      obtain ⟨h1, h2, _⟩ := emem_publish v ⟨.transportDeleted, .tp t⟩
      rw [h1, h2]
      subst hv
      exact ⟨h, rfl⟩
  | publish t c =>
    obtain ⟨h1, h2, _⟩ := emem_publish u ⟨t, .conn c⟩
    simp only [U.step]; rw [h1, h2]; exact ⟨h, rfl⟩
  | run =>
    obtain ⟨h1, h2, _⟩ := emem_run u
    simp only [U.step]; rw [h1, h2]; exact ⟨h, rfl⟩
  | _ => exact ⟨h, rfl⟩

theorem tprefix_step {u : U} {s : Slice} (h : Prefix u.tmem u.transports s) (op : Op) (hop : ∀ e, op ≠ .deleteTransport e) :
    Prefix (u.step op).tmem (u.step op).transports s ∧ (u.step op).tmem.read s = u.tmem.read s := by
  cases op with
  | addTransport e =>
    simp only [U.step, U.addTransport]
    split
    · exact ⟨h, rfl⟩
    · obtain ⟨_, _, h1, h2, _⟩ := emem_publish u ⟨.transportAdded, .tp e⟩
      simp only
      rw [h1, h2]
      exact prefix_append h
  | deleteTransport e => exact absurd rfl (hop e)
  | addEndPoint t =>
    simp only [U.step, U.addEndPoint]
    split
    · exact ⟨h, rfl⟩
    · obtain ⟨_, _, h1, h2, _⟩ := emem_publish u ⟨.endpointAdded, .ep t⟩
      simp only
      rw [h1, h2]
      exact ⟨h, rfl⟩
  | deleteEndPoint t =>
    simp only [U.step, U.deleteEndPoint]
    split
    · exact ⟨h, rfl⟩
    · obtain ⟨_, _, h1, h2, _⟩ := emem_publish u ⟨.endpointDeleted, .ep t⟩
      simp only
      rw [h1, h2]
      exact ⟨h, rfl⟩
  | publish t c =>
    obtain ⟨_, _, h1, h2, _⟩ := emem_publish u ⟨t, .conn c⟩
    simp only [U.step]; rw [h1, h2]; exact ⟨h, rfl⟩
  | run =>
    obtain ⟨_, _, h1, h2⟩ := emem_run u
    simp only [U.step]; rw [h1, h2]; exact ⟨h, rfl⟩
  | _ => exact ⟨h, rfl⟩

/-- C44, part: a slice returned by `GetEndPoint` keeps showing the same endpoints through any later calls other than
`DeleteEndPoint`; a slice returned by `GetTransport` through any calls other than `DeleteTransport`. -/
theorem c44_partial (u : U) (h : u.Inv) (ops : List Op) :
    ((∀ e, .deleteEndPoint e ∉ ops) → (u.steps ops).emem.read u.endpoints = u.eps) ∧
    ((∀ t, .deleteTransport t ∉ ops) → (u.steps ops).tmem.read u.transports = u.tps) := by
  constructor
  · have gen : ∀ (ops : List Op) (v : U) (s : Slice), Prefix v.emem v.endpoints s → (∀ e, .deleteEndPoint e ∉ ops) →
        (v.steps ops).emem.read s = v.emem.read s := by
      intro ops
      induction ops with
      | nil => intro v s _ _; rfl
      | cons op ops ih =>
        intro v s hs hops
        obtain ⟨h1, h2⟩ := eprefix_step hs op (fun e he => hops e (he ▸ List.mem_cons_self))
        exact (ih (v.step op) s h1 fun e he => hops e (List.mem_cons_of_mem _ he)).trans h2
    exact gen ops u u.endpoints ⟨h.eok.old, fun _ => Nat.le_refl _⟩
  · have gen : ∀ (ops : List Op) (v : U) (s : Slice), Prefix v.tmem v.transports s → (∀ e, .deleteTransport e ∉ ops) →
        (v.steps ops).tmem.read s = v.tmem.read s := by
      intro ops
      induction ops with
      | nil => intro v s _ _; rfl
      | cons op ops ih =>
        intro v s hs hops
        obtain ⟨h1, h2⟩ := tprefix_step hs op (fun e he => hops e (he ▸ List.mem_cons_self))
        exact (ih (v.step op) s h1 fun e he => hops e (List.mem_cons_of_mem _ he)).trans h2
    exact gen ops u u.transports ⟨h.tok.old, fun _ => Nat.le_refl _⟩

/-- What the slice returned before a deletion shows after it: the endpoints without the deleted one, and the last one
a second time. -/
theorem c44_delete (u : U) (h : u.Inv) (e : EpId) (he : e ∈ u.eps) :
    (u.deleteEndPoint e).emem.read u.endpoints = u.eps.filter (· ≠ e) ++ u.eps.drop (u.eps.length - 1) := by
  simp only [U.deleteEndPoint]
  cases hi : u.eps.idxOf? e with
  | none => rw [List.idxOf?_eq_none_iff] at hi; exact absurd he hi
  | some i =>
    obtain ⟨h1, h2, _⟩ := emem_publish u ⟨.endpointDeleted, .ep e⟩
    have hl := (idxOf?_mem hi).2
    have hlen := Mem.read_length h.eok
    simp only
    rw [h1, h2, Mem.deleteAt_same h.eok (by unfold U.eps at hl; omega), ← eraseIdx_filter h.enodup hi]
    unfold U.eps
    rw [hlen]

/-- C44, exactly, for a single call: a slice returned by `GetEndPoint` shows something else after it iff the call deletes an endpoint that
is registered and is not the last one. -/
theorem c44_step_iff (u : U) (h : u.Inv) (op : Op) :
    (u.step op).emem.read u.endpoints = u.eps ↔ ¬ ∃ e, op = .deleteEndPoint e ∧ e ∈ u.eps ∧ u.eps.getLast? ≠ some e := by
  by_cases hop : ∃ e, op = .deleteEndPoint e
  · obtain ⟨e, rfl⟩ := hop
    by_cases he : e ∈ u.eps
    · show (u.deleteEndPoint e).emem.read u.endpoints = u.eps ↔ _
      rw [c44_delete u h e he]
      have hnd := h.enodup
      generalize u.eps = l at he hnd ⊢
      obtain ⟨a, z, rfl⟩ : ∃ a z, l = a ++ [z] := ⟨l.dropLast, l.getLast (List.ne_nil_of_mem he), (List.dropLast_concat_getLast _).symm⟩
      have hdrop : (a ++ [z]).drop ((a ++ [z]).length - 1) = [z] := by
        rw [List.length_append, List.length_singleton, Nat.add_sub_cancel, List.drop_left]
      rw [hdrop, List.getLast?_concat, List.filter_append]
      obtain ⟨hna, _, hdis⟩ := List.nodup_append.mp hnd
      by_cases hz : z = e
      · subst hz
        have hall : a.filter (· ≠ z) = a := List.filter_eq_self.mpr fun x hx => by simpa using hdis x hx z (by simp)
        rw [hall]
        simp
      · have hea : e ∈ a := by
          rcases List.mem_append.mp he with h | h
          · exact h
          · exact absurd (List.mem_singleton.mp h).symm hz
        constructor
        · intro heq
          exfalso
          have h1 : ([z].filter (· ≠ e)) = [z] := by simp [hz]
          rw [h1] at heq
          have : e ∈ a.filter (· ≠ e) ++ [z] := by rw [List.append_cancel_right heq]; exact hea
          rcases List.mem_append.mp this with h | h
          · simp at h
          · exact hz (List.mem_singleton.mp h).symm
        · intro hno
          exact absurd ⟨e, rfl, he, fun h => hz (by injection h)⟩ hno
    · have hsame : u.step (.deleteEndPoint e) = u := by
        simp only [U.step, U.deleteEndPoint, List.idxOf?_eq_none_iff.mpr he]
      rw [hsame]
      refine ⟨fun _ => ?_, fun _ => rfl⟩
      rintro ⟨e', h1, h2, _⟩
      injection h1 with h1
      exact he (h1 ▸ h2)
  · have := (c44_partial u h [op]).1 (fun e hm => hop ⟨e, (List.mem_singleton.mp hm).symm⟩)
    refine ⟨fun _ => ?_, fun _ => this⟩
    rintro ⟨e, h1, _⟩
    exact hop ⟨e, h1⟩

/-- C44 fails: a program that keeps the slice and deletes an endpoint sees another list in the slice; and an addition
after the deletion shows up in it too. -/
theorem c44_violated : ∃ (u : U) (s : Slice), u.endpoints = s ∧ u.eps = [7, 8, 9] ∧
    (u.deleteEndPoint 7).emem.read s = [8, 9, 9] ∧
    ((u.deleteEndPoint 9).addEndPoint 6).emem.read s = [7, 8, 6] :=
  ⟨(U.new (fun e => e) (fun _ => 0) (fun n => n)).steps [.addEndPoint 7, .addEndPoint 8, .addEndPoint 9], _, rfl, rfl, rfl, rfl⟩

example : let u := (U.new (fun e => e) (fun _ => 0) (fun _ => 0)).steps [.addEndPoint 7, .addEndPoint 8]
    (u.steps [.addEndPoint 9, .run, .addEndPoint 4, .addTransport 1]).emem.read u.endpoints = [7, 8] := rfl

/-! ## C45: overhead and MTU -/

/-- The processors appended by a history. -/
def appended (ops : List Op) : List ProcId := ops.filterMap fun | .appendProc p => some p | _ => none

/-- The value of the option `MTU` after a history. -/
def optionAfter (name : String) (ops : List Op) : Val :=
  ops.foldl (fun v op => match op with | .setOption n x => if n = name then x else v | _ => v) .nil

/-- The MTU an option value stands for. -/
def mtuOf : Val → Int
  | .int i => i
  | _ => 2048

theorem step_fields (u : U) (op : Op) (hop : op.isRun = false) :
    (u.step op).overhead = u.overhead ∧ (u.step op).mtu = u.mtu ∧ (u.step op).cost = u.cost ∧
    (u.step op).procs = u.procs ++ appended [op] ∧ (u.step op).upperOf = u.upperOf ∧ (u.step op).lowerOf = u.lowerOf ∧
    (u.step op).decks = u.decks ∧
    ∀ name, (u.step op).options name = match op with | .setOption n x => if name = n then x else u.options name | _ => u.options name := by
  have hp : ∀ (v : U) ev, (v.publish ev).overhead = v.overhead ∧ (v.publish ev).mtu = v.mtu ∧ (v.publish ev).cost = v.cost ∧
      (v.publish ev).procs = v.procs ∧ (v.publish ev).options = v.options ∧ (v.publish ev).upperOf = v.upperOf ∧
      (v.publish ev).lowerOf = v.lowerOf ∧ (v.publish ev).decks = v.decks := by
    intro v ev; obtain ⟨l, h, _⟩ := publish_eq v ev; rw [h]; simp
  cases op with
  | run => simp [Op.isRun] at hop
  | addEndPoint e =>
    simp only [U.step, U.addEndPoint, appended]
    split <;> simp [hp]
  | addTransport e =>
    simp only [U.step, U.addTransport, appended]
    split <;> simp [hp]
  | deleteEndPoint e =>
    simp only [U.step, U.deleteEndPoint, appended]
    split <;> simp [hp]
  | deleteTransport e =>
    simp only [U.step, U.deleteTransport, appended]
    split <;> simp [hp]
  | publish t c => simp [U.step, appended, hp]
  | _ => simp [U.step, appended]

theorem run_fields (u : U) : u.run.overhead = u.overhead + (u.procs.map u.cost).sum ∧
    u.run.mtu = mtuOf (u.options "MTU") ∧ u.run.cost = u.cost ∧ u.run.procs = u.procs ∧ u.run.options = u.options ∧
    u.run.upperOf = u.wired.upperOf ∧ u.run.lowerOf = u.wired.lowerOf ∧ u.run.decks = some u.nextDeck ∧ u.run.nextDeck = u.nextDeck + 1 := by
  obtain ⟨l, h, _⟩ := run_eq u
  rw [h]
  refine ⟨rfl, ?_, rfl, rfl, rfl, rfl, rfl, rfl, rfl⟩
  cases u.options "MTU" <;> rfl

theorem isRun_eq {op : Op} (h : op.isRun = true) : op = .run := by cases op <;> simp [Op.isRun] at h ⊢

theorem appended_cons (op : Op) (ops : List Op) : appended (op :: ops) = appended [op] ++ appended ops := by
  simp only [appended, List.filterMap_cons, List.filterMap_nil]
  cases op <;> rfl

theorem procs_steps (ops : List Op) (u : U) : (u.steps ops).procs = u.procs ++ appended ops ∧ (u.steps ops).cost = u.cost := by
  induction ops generalizing u with
  | nil => simp [U.steps, appended]
  | cons op ops ih =>
    have h : (u.step op).procs = u.procs ++ appended [op] ∧ (u.step op).cost = u.cost := by
      cases hr : op.isRun with
      | true =>
        have hr := isRun_eq hr
        subst hr
        exact ⟨by simp [U.step, (run_fields u).2.2.2.1, appended], (run_fields u).2.2.1⟩
      | false => exact ⟨(step_fields u op hr).2.2.2.1, (step_fields u op hr).2.2.1⟩
    obtain ⟨h1, h2⟩ := ih (u.step op)
    exact ⟨by show ((u.step op).steps ops).procs = _; rw [h1, h.1, appended_cons op ops, List.append_assoc], h2.trans h.2⟩

theorem options_steps (ops : List Op) (u : U) (name : String) :
    (u.steps ops).options name = ops.foldl (fun v op => match op with | .setOption n x => if n = name then x else v | _ => v) (u.options name) := by
  induction ops generalizing u with
  | nil => rfl
  | cons op ops ih =>
    have h : (u.step op).options name = match op with | .setOption n x => if n = name then x else u.options name | _ => u.options name := by
      cases hr : op.isRun with
      | true =>
        have hr := isRun_eq hr
        subst hr
        simp [U.step, (run_fields u).2.2.2.2.1]
      | false =>
        rw [(step_fields u op hr).2.2.2.2.2.2.2 name]
        cases op <;> simp [eq_comm]
    show ((u.step op).steps ops).options name = _
    rw [ih, h]; rfl

theorem steady (ops : List Op) (hr : runs ops = 0) (u : U) :
    (u.steps ops).overhead = u.overhead ∧ (u.steps ops).mtu = u.mtu ∧ (u.steps ops).upperOf = u.upperOf ∧
    (u.steps ops).lowerOf = u.lowerOf ∧ (u.steps ops).decks = u.decks := by
  induction ops generalizing u with
  | nil => exact ⟨rfl, rfl, rfl, rfl, rfl⟩
  | cons op ops ih =>
    rw [runs_cons] at hr
    have hop : op.isRun = false := by
      cases h : op.isRun with
      | false => rfl
      | true => simp [runs, h] at hr
    obtain ⟨h1, h2, _, _, h3, h4, h5, _⟩ := step_fields u op hop
    obtain ⟨g1, g2, g3, g4, g5⟩ := ih (by omega) (u.step op)
    exact ⟨g1.trans h1, g2.trans h2, g3.trans h3, g4.trans h4, g5.trans h5⟩

theorem steps_append (u : U) (a b : List Op) : u.steps (a ++ b) = (u.steps a).steps b := List.foldl_append

/-- C45, MTU (any number of `Run` calls): it is the option as it was at the last `Run`, if that is an int, else 2048. -/
theorem c45_mtu (session : EpId → Int) (cost : ProcId → Int) (spare : Nat → Nat) (before after : List Op) (h : runs after = 0) :
    ((U.new session cost spare).steps (before ++ .run :: after)).mtu = mtuOf (optionAfter "MTU" before) := by
  rw [steps_append]
  show (((U.new session cost spare).steps before).run.steps after).mtu = _
  rw [(steady after h _).2.1, (run_fields _).2.1, options_steps]
  rfl

/-- C45, overhead after the first `Run`: the sum over the appended processors. -/
theorem c45_overhead_first_run_partial (session : EpId → Int) (cost : ProcId → Int) (spare : Nat → Nat) (before after : List Op)
    (hb : runs before = 0) (ha : runs after = 0) :
    ((U.new session cost spare).steps (before ++ .run :: after)).overhead = ((appended before).map cost).sum := by
  rw [steps_append]
  show (((U.new session cost spare).steps before).run.steps after).overhead = _
  rw [(steady after ha _).1, (run_fields _).1, (steady before hb _).1, (procs_steps before _).1, (procs_steps before _).2]
  show (0 : Int) + ((([] : List Nat) ++ appended before).map cost).sum = _
  simp

/-- Before the first `Run`: 0 and 2048. -/
theorem c45_before_run (session : EpId → Int) (cost : ProcId → Int) (spare : Nat → Nat) (ops : List Op) (h : runs ops = 0) :
    ((U.new session cost spare).steps ops).overhead = 0 ∧ ((U.new session cost spare).steps ops).mtu = 2048 :=
  ⟨(steady ops h _).1, (steady ops h _).2.1⟩

example : let ops : List Op := [.appendProc 1, .setOption "MTU" (.int 100), .appendProc 2]
    runs ops = 0 ∧ ((U.new (fun _ => 0) (fun p => p) (fun _ => 0)).steps (ops ++ [.run])).overhead = 3 ∧
    ((U.new (fun _ => 0) (fun p => p) (fun _ => 0)).steps (ops ++ [.run])).mtu = 100 := ⟨rfl, rfl, rfl⟩

/-- Every further `Run` adds the sum again. -/
theorem overhead_runs (u : U) (k : Nat) :
    (u.steps (List.replicate k .run)).overhead = u.overhead + k * (u.procs.map u.cost).sum ∧
    (u.steps (List.replicate k .run)).procs = u.procs ∧ (u.steps (List.replicate k .run)).cost = u.cost := by
  induction k generalizing u with
  | zero => simp [U.steps]
  | succ k ih =>
    obtain ⟨h1, h2, h3⟩ := ih u.run
    obtain ⟨r1, _, r3, r4, _⟩ := run_fields u
    rw [List.replicate_succ]
    show ((u.run).steps (List.replicate k .run)).overhead = _ ∧ ((u.run).steps (List.replicate k .run)).procs = _ ∧
      ((u.run).steps (List.replicate k .run)).cost = _
    refine ⟨?_, h2.trans r4, h3.trans r3⟩
    rw [h1, r1, r3, r4]
    simp only [Int.natCast_add, Int.natCast_one, Int.add_mul]
    omega

/-- C45 and C59 fail for the overhead: after `k` calls of `Run` it is `k` times the sum. -/
theorem c45_run_again_violated (session : EpId → Int) (cost : ProcId → Int) (spare : Nat → Nat) (before : List Op) (hb : runs before = 0)
    (k : Nat) : ((U.new session cost spare).steps (before ++ List.replicate k .run)).overhead = k * ((appended before).map cost).sum := by
  rw [steps_append, (overhead_runs _ k).1, (steady before hb _).1, (procs_steps before _).1, (procs_steps before _).2]
  show (0 : Int) + (k : Int) * ((([] : List Nat) ++ appended before).map cost).sum = _
  simp

/-- Exactly when the overhead is the sum over the appended processors after `k` calls of `Run`. -/
theorem c45_iff (session : EpId → Int) (cost : ProcId → Int) (spare : Nat → Nat) (before : List Op) (hb : runs before = 0) (k : Nat) :
    ((U.new session cost spare).steps (before ++ List.replicate k .run)).overhead = ((appended before).map cost).sum ↔
      k = 1 ∨ ((appended before).map cost).sum = 0 := by
  rw [c45_run_again_violated session cost spare before hb k]
  generalize ((appended before).map cost).sum = n
  constructor
  · intro h
    by_cases hn : n = 0
    · exact .inr hn
    · refine .inl ?_
      have h1 : ((k : Int) - 1) * n = 0 := by rw [Int.sub_mul, h]; omega
      rcases Int.mul_eq_zero.mp h1 with h1 | h1
      · omega
      · exact absurd h1 hn
  · rintro (rfl | rfl) <;> simp

/-! ## C46: the wiring -/

theorem linkChain_lower_other (b : Elem) (ps : List ProcId) (a x : Elem) (u : U) (h1 : x ≠ a) (h2 : ∀ p ∈ ps, x ≠ .proc p) :
    (u.linkChain b a ps).lowerOf x = u.lowerOf x := by
  induction ps generalizing a u with
  | nil => simp [U.linkChain, U.link, h1]
  | cons p ps ih =>
    rw [U.linkChain, ih _ _ (h2 p List.mem_cons_self) fun q hq => h2 q (List.mem_cons_of_mem _ hq)]
    simp [U.link, h1]

theorem linkChain_upper_other (b : Elem) (ps : List ProcId) (a x : Elem) (u : U) (h1 : x ≠ b) (h2 : ∀ p ∈ ps, x ≠ .proc p) :
    (u.linkChain b a ps).upperOf x = u.upperOf x := by
  induction ps generalizing a u with
  | nil => simp [U.linkChain, U.link, h1]
  | cons p ps ih =>
    rw [U.linkChain, ih _ _ fun q hq => h2 q (List.mem_cons_of_mem _ hq)]
    simp [U.link, h2 p List.mem_cons_self]

/-- Consecutive elements of a chain are each other's neighbours. -/
def Wired (upper lower : Elem → Option Elem) : List Elem → Prop
  | a :: b :: rest => lower a = some b ∧ upper b = some a ∧ Wired upper lower (b :: rest)
  | _ => True

theorem linkChain_wired (b : Elem) (ps : List ProcId) (a : Elem) (u : U)
    (ha : ∀ p ∈ ps, a ≠ .proc p) (hb : ∀ p ∈ ps, b ≠ .proc p) (hn : ps.Nodup) :
    Wired (u.linkChain b a ps).upperOf (u.linkChain b a ps).lowerOf (a :: (ps.map Elem.proc ++ [b])) := by
  induction ps generalizing a u with
  | nil => simp [U.linkChain, U.link, Wired]
  | cons p ps ih =>
    rw [List.nodup_cons] at hn
    have hp : ∀ q ∈ ps, (Elem.proc p) ≠ .proc q := by
      intro q hq he; injection he with he; exact hn.1 (he ▸ hq)
    rw [U.linkChain]
    refine ⟨?_, ?_, ih (.proc p) _ hp (fun q hq => hb q (List.mem_cons_of_mem _ hq)) hn.2⟩
    · rw [linkChain_lower_other _ _ _ _ _ (ha p List.mem_cons_self) fun q hq => ha q (List.mem_cons_of_mem _ hq)]
      simp [U.link]
    · rw [linkChain_upper_other _ _ _ _ _ (Ne.symm (hb p List.mem_cons_self)) hp]
      simp [U.link]

theorem wired_getElem {up lo : Elem → Option Elem} (l : List Elem) (h : Wired up lo l) (i : Nat) (hi : i + 1 < l.length) :
    lo l[i] = some l[i + 1] ∧ up l[i + 1] = some l[i] := by
  induction l generalizing i with
  | nil => simp at hi
  | cons a l ih =>
    cases l with
    | nil => simp at hi
    | cons b l =>
      cases i with
      | zero => exact ⟨h.1, h.2.1⟩
      | succ i => exact ih h.2.2 i (by simpa using hi)

/-- The neighbours outside: the UpperDecks never get an upper one, the LowerDecks never a lower one. -/
theorem wired_ends (u : U) (h : ∀ d, u.upperOf (.upper d) = none ∧ u.lowerOf (.lower d) = none) (d : DeckId) :
    u.wired.upperOf (.upper d) = none ∧ u.wired.lowerOf (.lower d) = none := by
  simp only [U.wired]
  rw [linkChain_upper_other _ _ _ _ _ (by simp) (by simp), linkChain_lower_other _ _ _ _ _ (by simp) (by simp)]
  exact h d

theorem ends_steps (ops : List Op) (u : U) (h : ∀ d, u.upperOf (.upper d) = none ∧ u.lowerOf (.lower d) = none) (d : DeckId) :
    (u.steps ops).upperOf (.upper d) = none ∧ (u.steps ops).lowerOf (.lower d) = none := by
  induction ops generalizing u with
  | nil => exact h d
  | cons op ops ih =>
    apply ih
    intro d
    cases hr : op.isRun with
    | true =>
      have hr := isRun_eq hr
      subst hr
      simp only [U.step]
      rw [(run_fields u).2.2.2.2.2.1, (run_fields u).2.2.2.2.2.2.1]
      exact wired_ends u h d
    | false => rw [(step_fields u op hr).2.2.2.2.1, (step_fields u op hr).2.2.2.2.2.1]; exact h d

/-- C46: at any time after a `Run`, if the processors appended before it are distinct, the chain from that `Run`'s
UpperDeck over the processors in the order of appending to its LowerDeck is linked both ways and ends there. -/
theorem c46_wiring (session : EpId → Int) (cost : ProcId → Int) (spare : Nat → Nat) (before after : List Op)
    (ha : runs after = 0) (hn : (appended before).Nodup) :
    ∃ d, let u := (U.new session cost spare).steps (before ++ .run :: after)
      let chain : List Elem := .upper d :: ((appended before).map .proc ++ [.lower d])
      u.decks = some d ∧
      (∀ i (hi : i + 1 < chain.length), u.lowerOf chain[i] = some chain[i + 1] ∧ u.upperOf chain[i + 1] = some chain[i]) ∧
      u.upperOf (.upper d) = none ∧ u.lowerOf (.lower d) = none := by
  refine ⟨((U.new session cost spare).steps before).nextDeck, ?_⟩
  generalize hv : (U.new session cost spare).steps before = v
  have hu : (U.new session cost spare).steps (before ++ .run :: after) = v.run.steps after := by
    rw [steps_append, hv]; rfl
  have hpr : v.procs = appended before := by rw [← hv, (procs_steps before _).1]; rfl
  have hends : ∀ d, v.upperOf (.upper d) = none ∧ v.lowerOf (.lower d) = none := by
    intro d; rw [← hv]; exact ends_steps before _ (fun _ => ⟨rfl, rfl⟩) d
  obtain ⟨s1, s2, s3, s4, s5⟩ := steady after ha v.run
  obtain ⟨_, _, _, _, _, r1, r2, r3, _⟩ := run_fields v
  intro u chain
  have e1 : u = v.run.steps after := hu
  rw [e1, s3, s4, s5, r1, r2, r3]
  refine ⟨rfl, ?_, wired_ends v hends _⟩
  intro i hi
  refine wired_getElem chain ?_ i hi
  have := linkChain_wired (.lower v.nextDeck) v.procs (.upper v.nextDeck)
    { v.parseOptions with decks := some v.nextDeck, nextDeck := v.nextDeck + 1 } (by simp) (by simp) (hpr ▸ hn)
  rw [hpr] at this
  show Wired v.wired.upperOf v.wired.lowerOf _
  rw [U.wired, hpr]
  exact this

example : let u := (U.new (fun _ => 0) (fun _ => 0) (fun _ => 0)).steps [.appendProc 3, .appendProc 1, .run]
    u.lowerOf (.upper 0) = some (.proc 3) ∧ u.lowerOf (.proc 3) = some (.proc 1) ∧ u.lowerOf (.proc 1) = some (.lower 0) ∧
    u.upperOf (.lower 0) = some (.proc 1) := ⟨rfl, rfl, rfl, rfl⟩

/-- Appending processors twice makes a loop: going up from the LowerDeck never reaches the UpperDeck. -/
theorem c46_same_twice : let u := (U.new (fun _ => 0) (fun _ => 0) (fun _ => 0)).steps [.appendProc 3, .appendProc 1, .appendProc 3, .appendProc 1, .run]
    u.upperOf (.lower 0) = some (.proc 1) ∧ u.upperOf (.proc 1) = some (.proc 3) ∧ u.upperOf (.proc 3) = some (.proc 1) :=
  ⟨rfl, rfl, rfl⟩

/-! ## C59 -/

/-- C59, part: a further `Run` keeps the MTU (if the option was not changed) and the registries. -/
theorem c59_partial (session : EpId → Int) (cost : ProcId → Int) (spare : Nat → Nat) (before after : List Op) (ha : runs after = 0)
    (hopt : optionAfter "MTU" (before ++ .run :: after) = optionAfter "MTU" before) :
    let u := (U.new session cost spare).steps (before ++ .run :: after)
    u.run.mtu = u.mtu ∧ u.run.eps = u.eps ∧ u.run.tps = u.tps ∧ u.run.procs = u.procs := by
  intro u
  obtain ⟨l, h, _⟩ := run_eq u
  refine ⟨?_, by rw [h]; rfl, by rw [h]; rfl, by rw [h]⟩
  rw [(run_fields u).2.1, c45_mtu session cost spare before after ha, options_steps]
  exact congrArg mtuOf hopt

/-- C59 fails: the second `Run` doubles the overhead and serves the endpoint a second time. -/
theorem c59_violated : ∃ before : List Op, runs before = 0 ∧
    let u := (U.new (fun _ => 5) (fun _ => 4) (fun _ => 0)).steps (before ++ [.run])
    u.overhead = 4 ∧ u.run.overhead = 8 ∧
    alive u.log = [⟨0, 7, 5⟩] ∧ alive u.run.log = [⟨0, 7, 5⟩, ⟨1, 7, 5⟩] :=
  ⟨[.appendProc 1, .addEndPoint 7], rfl, rfl, rfl, rfl, rfl⟩

end Verif.Reg
