import Verif.Trace

/-!
# C101: reusing the objects of a message

`endpoint.GetTxChannel() <- epd` puts a pointer on a channel of capacity 512 (endp_default.go:93).  The goroutine of the endpoint takes
it, reads the fields of the `EndPointData` and passes the data down, where the codec copies it (proc_upperdeck.go:46-62,
proc_codec_bytes.go:28-37).  Whatever the program writes into the `EndPointData` or into its data before the last of these reads changes the
message.

The memory is a map from addresses to values.  Reading an object is a sequence of single reads, where the values read so far decide what is read next
(`rd`), so an object may consist of any fields, slices and pointers, and a read can be torn by writes in between.  The program is a list of
writes and sends; one goroutine serves the endpoint (C42).
-/

namespace Verif.Reg.Reuse
open Verif.Trace

variable {P V A : Type} [DecidableEq A]

/-- The program: writing to memory, sending an object. -/
inductive Op (P V A : Type) where
  | set (a : A) (v : V)
  | send (p : P)

/-- The memory after a write. -/
def store (M : A → V) (a : A) (v : V) : A → V := fun x => if x = a then v else M x

/-- How objects are read: what to read next, if anything, having read some values; at most `B` of them. -/
structure Reader (P V A : Type) where
  rd : P → List V → Option A
  B : Nat
  stop : ∀ p acc, B ≤ acc.length → rd p acc = none

structure Sys (P V A : Type) where
  /-- what the program still has to do -/
  prog : List (Op P V A)
  mem : A → V
  /-- the channel of the endpoint -/
  ch : List P
  /-- the object the goroutine is reading, and what it has read -/
  cur : Option (P × List V)
  /-- the messages passed down -/
  out : List (List V)

inductive Label where
  | prog
  | take
  | read
  | pass
  deriving Repr, DecidableEq

/-- One step.  `K` is the capacity of the channel (512, endp_default.go:93). -/
def step (R : Reader P V A) (K : Nat) (s : Sys P V A) : Label → Option (Sys P V A)
  | .prog =>
    match s.prog with
    | [] => none
    | .set a v :: r => some { s with prog := r, mem := store s.mem a v }
    | .send p :: r => if s.ch.length < K then some { s with prog := r, ch := s.ch ++ [p] } else none
  | .take =>
    match s.cur, s.ch with
    | none, p :: r => some { s with cur := some (p, []), ch := r }
    | _, _ => none
  | .read =>
    match s.cur with
    | some (p, acc) => match R.rd p acc with
      | some a => some { s with cur := some (p, acc ++ [s.mem a]) }
      | none => none
    | none => none
  | .pass =>
    match s.cur with
    | some (p, acc) => match R.rd p acc with
      | some _ => none
      | none => some { s with cur := none, out := s.out ++ [acc] }
    | none => none

def init (M : A → V) (ops : List (Op P V A)) : Sys P V A := ⟨ops, M, [], none, []⟩

/-! ## Specification -/

/-- The content of an object: what is read if nothing is written meanwhile. -/
def contentFrom (R : Reader P V A) (M : A → V) (p : P) : Nat → List V → List V
  | 0, acc => acc
  | n + 1, acc => match R.rd p acc with
    | none => acc
    | some a => contentFrom R M p n (acc ++ [M a])

def content (R : Reader P V A) (M : A → V) (p : P) : List V := contentFrom R M p R.B []

/-- The memory after some operations. -/
def memAfter (M : A → V) : List (Op P V A) → A → V
  | [] => M
  | .set a v :: r => memAfter (store M a v) r
  | .send _ :: r => memAfter M r

/-- The objects sent, with their contents at that time. -/
def sent (R : Reader P V A) (M : A → V) : List (Op P V A) → List (P × List V)
  | [] => []
  | .set a v :: r => sent R (store M a v) r
  | .send p :: r => (p, content R M p) :: sent R M r

/-- The messages passed down are those handed over, as they were. -/
def Faithful (R : Reader P V A) (M : A → V) (ops : List (Op P V A)) (out : List (List V)) : Prop :=
  ∃ rest, (sent R M ops).map Prod.snd = out ++ rest

/-- After each part of the program, the last `K + 1` objects sent have the contents they had when they were sent. -/
def Untouched (R : Reader P V A) (M : A → V) (K : Nat) (ops : List (Op P V A)) : Prop :=
  ∀ pre post, ops = pre ++ post → ∀ m x, (sent R M pre)[m]? = some x → (sent R M pre).length ≤ m + K + 1 →
    content R (memAfter M pre) x.1 = x.2

/-! ## Contents -/

variable {R : Reader P V A} {M : A → V}

theorem sent_append (a b : List (Op P V A)) : ∀ M : A → V, sent R M (a ++ b) = sent R M a ++ sent R (memAfter M a) b := by
  induction a with
  | nil => intro M; rfl
  | cons o a ih => intro M; cases o <;> simp [sent, memAfter, ih]

theorem memAfter_append (a b : List (Op P V A)) : ∀ M : A → V, memAfter M (a ++ b) = memAfter (memAfter M a) b := by
  induction a with
  | nil => intro M; rfl
  | cons o a ih => intro M; cases o <;> simp [memAfter, ih]

/-- What is read from `acc` on: each value is the one of the cell to be read next, and then there is nothing to read. -/
theorem contentFrom_spec (p : P) (n : Nat) : ∀ acc, R.B ≤ acc.length + n →
    R.rd p (contentFrom R M p n acc) = none ∧ acc <+: contentFrom R M p n acc ∧
      ∀ i, acc.length ≤ i → i < (contentFrom R M p n acc).length →
        ∃ a, R.rd p ((contentFrom R M p n acc).take i) = some a ∧ (contentFrom R M p n acc)[i]? = some (M a) := by
  induction n with
  | zero =>
    intro acc hB
    refine ⟨R.stop p acc (by omega), List.prefix_refl _, fun i hi hl => ?_⟩
    simp only [contentFrom] at hl
    omega
  | succ n ih =>
    intro acc hB
    simp only [contentFrom]
    cases hx : R.rd p acc with
    | none =>
      refine ⟨hx, List.prefix_refl _, fun i hi hl => ?_⟩
      simp only at hl
      omega
    | some a0 =>
      simp only
      obtain ⟨h1, h2, h3⟩ := ih (acc ++ [M a0]) (by simp; omega)
      have h4 : acc <+: contentFrom R M p n (acc ++ [M a0]) := (List.prefix_append _ _).trans h2
      refine ⟨h1, h4, fun i hi hl => ?_⟩
      by_cases e : i = acc.length
      · subst e
        refine ⟨a0, by rw [← List.prefix_iff_eq_take.1 h4, hx], ?_⟩
        obtain ⟨t, ht⟩ := h2
        rw [← ht]
        simp
      · exact h3 i (by simp; omega) hl

theorem content_end (p : P) : R.rd p (content R M p) = none :=
  (contentFrom_spec p R.B [] (by simp)).1

/-- Before the end there is something to read, and it is the next value. -/
theorem content_at (p : P) {acc : List V} {x : V} {t : List V} (h : content R M p = acc ++ x :: t) :
    ∃ a, R.rd p acc = some a ∧ x = M a := by
  obtain ⟨a, h1, h2⟩ := (contentFrom_spec (R := R) (M := M) p R.B [] (by simp)).2.2 acc.length (by simp)
    (by rw [← content, h]; simp)
  rw [← content, h] at h1 h2
  simp at h1 h2
  exact ⟨a, h1, h2⟩

theorem content_next (p : P) {acc : List V} {a : A} (h : acc <+: content R M p) (hr : R.rd p acc = some a) :
    acc ++ [M a] <+: content R M p := by
  obtain ⟨t, ht⟩ := h
  cases t with
  | nil =>
    rw [List.append_nil] at ht
    rw [ht, content_end] at hr
    cases hr
  | cons x t =>
    obtain ⟨b, hb, hx⟩ := content_at p ht.symm
    rw [hr] at hb
    injection hb with hb
    subst hb
    subst hx
    exact ⟨t, by rw [← ht]; simp⟩

theorem content_unique (p : P) {acc : List V} (h : acc <+: content R M p) (hr : R.rd p acc = none) : acc = content R M p := by
  obtain ⟨t, ht⟩ := h
  cases t with
  | nil => simpa using ht
  | cons x t =>
    obtain ⟨b, hb, _⟩ := content_at p ht.symm
    rw [hr] at hb
    cases hb

/-! ## Sufficiency -/

/-- What holds in all states if objects are left alone long enough. -/
def Inv (R : Reader P V A) (M : A → V) (K : Nat) (ops : List (Op P V A)) (s : Sys P V A) : Prop :=
  ∃ pre done now rest, ops = pre ++ s.prog ∧ s.mem = memAfter M pre ∧ sent R M pre = done ++ now ++ rest ∧
    s.out = done.map Prod.snd ∧ s.ch = rest.map Prod.fst ∧ s.ch.length ≤ K ∧
    match s.cur with
    | none => now = []
    | some (p, acc) => ∃ c, now = [(p, c)] ∧ acc <+: c

theorem inv_step {K : Nat} {ops : List (Op P V A)} (hU : Untouched R M K ops) (s : Sys P V A) (l : Label) (s' : Sys P V A)
    (h : Inv R M K ops s) (hs : step R K s l = some s') : Inv R M K ops s' := by
  obtain ⟨prog, mem, ch, cur, out⟩ := s
  obtain ⟨pre, done, now, rest, h1, h2, h3, h4, h5, h6, h7⟩ := h
  simp only at h1 h2 h4 h5 h6 h7
  subst h2
  subst h4
  subst h5
  cases l with
  | prog =>
    cases prog with
    | nil => simp [step] at hs
    | cons o r =>
      cases o with
      | set a v =>
        simp only [step, Option.some.injEq] at hs
        subst hs
        refine ⟨pre ++ [.set a v], done, now, rest, by simp [h1], by simp [memAfter_append, memAfter], ?_, rfl, rfl, h6, h7⟩
        rw [sent_append, h3]
        simp [sent]
      | send p =>
        simp only [step] at hs
        split at hs
        · rename_i hK
          injection hs with hs
          subst hs
          refine ⟨pre ++ [.send p], done, now, rest ++ [(p, content R (memAfter M pre) p)], by simp [h1],
            by simp [memAfter_append, memAfter], ?_, rfl, by simp, ?_, h7⟩
          · rw [sent_append, h3]
            simp [sent]
          · simp at hK ⊢
            omega
        · cases hs
  | take =>
    cases cur with
    | some q => simp [step] at hs
    | none =>
      cases rest with
      | nil => simp [step] at hs
      | cons x rest =>
        obtain ⟨p, c⟩ := x
        simp only [step, List.map_cons, Option.some.injEq] at hs
        subst hs
        simp only at h7
        subst h7
        refine ⟨pre, done, [(p, c)], rest, h1, rfl, by simpa using h3, rfl, rfl, by simp at h6 ⊢; omega, c, rfl, List.nil_prefix⟩
  | read =>
    cases cur with
    | none => simp [step] at hs
    | some q =>
      obtain ⟨p, acc⟩ := q
      obtain ⟨c, h7, h8⟩ := h7
      subst h7
      have hc := hU pre prog h1 done.length (p, c) (by rw [h3]; simp) (by rw [h3]; simp at h6 ⊢; omega)
      simp only at hc
      simp only [step] at hs
      cases hr : R.rd p acc with
      | none => rw [hr] at hs; cases hs
      | some a =>
        rw [hr] at hs
        injection hs with hs
        subst hs
        refine ⟨pre, done, [(p, c)], rest, h1, rfl, h3, rfl, rfl, h6, c, rfl, ?_⟩
        rw [← hc] at h8 ⊢
        exact content_next p h8 hr
  | pass =>
    cases cur with
    | none => simp [step] at hs
    | some q =>
      obtain ⟨p, acc⟩ := q
      obtain ⟨c, h7, h8⟩ := h7
      subst h7
      have hc := hU pre prog h1 done.length (p, c) (by rw [h3]; simp) (by rw [h3]; simp at h6 ⊢; omega)
      simp only at hc
      simp only [step] at hs
      cases hr : R.rd p acc with
      | some a => rw [hr] at hs; cases hs
      | none =>
        rw [hr] at hs
        injection hs with hs
        subst hs
        rw [← hc] at h8
        have he := content_unique p h8 hr
        refine ⟨pre, done ++ [(p, c)], [], rest, h1, rfl, by simpa using h3, by simp [he, hc], rfl, h6, rfl⟩

theorem faithful_of_untouched {K : Nat} {ops : List (Op P V A)} (hU : Untouched R M K ops) {ls : List Label} {s : Sys P V A}
    (h : exec (step R K) (init M ops) ls = some s) : Faithful R M ops s.out := by
  have hi : Inv R M K ops s := invariant (Q := fun _ => True) (fun s l s' h _ hs => inv_step hU s l s' h hs) ls (init M ops) s
    ⟨[], [], [], [], rfl, rfl, rfl, rfl, rfl, by simp [init], rfl⟩ (fun _ _ => trivial) h
  obtain ⟨pre, done, now, rest, h1, h2, h3, h4, -⟩ := hi
  refine ⟨(now ++ rest ++ sent R (memAfter M pre) s.prog).map Prod.snd, ?_⟩
  rw [h1, sent_append, h3, h4]
  simp

/-! ## Necessity -/

/-- Reading an object undisturbed. -/
theorem reads {K : Nat} (p : P) (n : Nat) : ∀ (s : Sys P V A) (acc : List V), s.cur = some (p, acc) → R.B ≤ acc.length + n →
    ∃ ls, exec (step R K) s ls = some { s with cur := none, out := s.out ++ [contentFrom R s.mem p n acc] } := by
  induction n with
  | zero =>
    intro s acc hc hB
    refine ⟨[.pass], ?_⟩
    simp [exec, step, hc, R.stop p acc (by omega), contentFrom]
  | succ n ih =>
    intro s acc hc hB
    cases hr : R.rd p acc with
    | none => exact ⟨[.pass], by simp [exec, step, hc, hr, contentFrom]⟩
    | some a =>
      obtain ⟨ls, h⟩ := ih { s with cur := some (p, acc ++ [s.mem a]) } (acc ++ [s.mem a]) rfl (by simp; omega)
      refine ⟨.read :: ls, ?_⟩
      simp only [exec, step, hc, hr, Option.bind_some, contentFrom]
      exact h

theorem reads_all {K : Nat} (p : P) (s : Sys P V A) (hc : s.cur = some (p, [])) :
    ∃ ls, exec (step R K) s ls = some { s with cur := none, out := s.out ++ [content R s.mem p] } :=
  reads p R.B s [] hc (by simp)

theorem exec_trans {K : Nat} {s t u : Sys P V A} (h1 : ∃ ls, exec (step R K) s ls = some t) (h2 : ∃ ls, exec (step R K) t ls = some u) :
    ∃ ls, exec (step R K) s ls = some u := by
  obtain ⟨a, h1⟩ := h1
  obtain ⟨b, h2⟩ := h2
  exact ⟨a ++ b, by rw [exec_append, h1]; exact h2⟩

theorem exec_one {K : Nat} {s t : Sys P V A} (l : Label) (h : step R K s l = some t) : ∃ ls, exec (step R K) s ls = some t :=
  ⟨[l], by simp [exec, h]⟩

/-- The goroutine can be anywhere within the last `K` messages. -/
theorem lag {K : Nat} (hK : 0 < K) (pre : List (Op P V A)) : ∀ post o, o ≤ (sent R M pre).length → (sent R M pre).length ≤ o + K →
    ∃ out : List (List V), out.length = o ∧ ∃ ls, exec (step R K) (init M (pre ++ post)) ls =
      some ⟨post, memAfter M pre, ((sent R M pre).drop o).map Prod.fst, none, out⟩ := by
  induction pre using snoc_induction with
  | h0 => intro post o h _; exact ⟨[], by simp [sent] at h; simp [h], [], by simp [exec, init, memAfter, sent]⟩
  | h1 pre op ih =>
    intro post o h h'
    rw [sent_append] at h h' ⊢
    cases op with
    | set a v =>
      simp only [sent, List.append_nil] at h h' ⊢
      obtain ⟨out, ho, hr⟩ := ih (.set a v :: post) o h h'
      refine ⟨out, ho, ?_⟩
      rw [List.append_assoc]
      refine exec_trans hr (exec_one .prog ?_)
      simp [step, memAfter_append, memAfter]
    | send p =>
      simp only [sent, List.length_append, List.length_cons, List.length_nil] at h h' ⊢
      rw [List.append_assoc]
      by_cases e : o ≤ (sent R M pre).length
      · obtain ⟨out, ho, hr⟩ := ih (.send p :: post) o e (by omega)
        refine ⟨out, ho, exec_trans hr (exec_one .prog ?_)⟩
        have hlt : (sent R M pre).length - o < K := by omega
        simp [step, memAfter_append, memAfter, hlt, List.drop_append_of_le_length e]
      · obtain ⟨out, ho, hr⟩ := ih (.send p :: post) (sent R M pre).length (Nat.le_refl _) (by omega)
        refine ⟨out ++ [content R (memAfter M pre) p], by simp; omega, exec_trans hr ?_⟩
        refine exec_trans (t := ⟨post, memAfter M pre, [p], none, out⟩) (exec_one .prog (by simp [step, hK])) ?_
        refine exec_trans (t := ⟨post, memAfter M pre, [], some (p, []), out⟩) (exec_one .take (by simp [step])) ?_
        have hd : ((sent R M pre ++ [(p, content R (memAfter M pre) p)]).drop o).map Prod.fst = [] := by
          rw [List.drop_of_length_le (by simp; omega)]; rfl
        rw [hd]
        have := reads_all (R := R) (K := K) p ⟨post, memAfter M pre, [], some (p, []), out⟩ rfl
        simpa [memAfter_append, memAfter] using this

/-- It can have taken any of the last `K + 1` messages, and read nothing of it yet. -/
theorem late {K : Nat} (hK : 0 < K) (pre : List (Op P V A)) : ∀ post m x, (sent R M pre)[m]? = some x → (sent R M pre).length ≤ m + K + 1 →
    ∃ out : List (List V), out.length = m ∧ ∃ ls, exec (step R K) (init M (pre ++ post)) ls =
      some ⟨post, memAfter M pre, ((sent R M pre).drop (m + 1)).map Prod.fst, some (x.1, []), out⟩ := by
  induction pre using snoc_induction with
  | h0 => intro post m x h; simp [sent] at h
  | h1 pre op ih =>
    intro post m x h h'
    rw [sent_append] at h h' ⊢
    cases op with
    | set a v =>
      simp only [sent, List.append_nil] at h h' ⊢
      obtain ⟨out, ho, hr⟩ := ih (.set a v :: post) m x h h'
      refine ⟨out, ho, ?_⟩
      rw [List.append_assoc]
      refine exec_trans hr (exec_one .prog ?_)
      simp [step, memAfter_append, memAfter]
    | send p =>
      simp only [sent, List.length_append, List.length_cons, List.length_nil] at h h' ⊢
      rw [List.append_assoc]
      by_cases e : m < (sent R M pre).length
      · rw [List.getElem?_append_left e] at h
        obtain ⟨out, ho, hr⟩ := ih (.send p :: post) m x h (by omega)
        refine ⟨out, ho, exec_trans hr (exec_one .prog ?_)⟩
        have hlt : (sent R M pre).length - (m + 1) < K := by omega
        simp [step, memAfter_append, memAfter, hlt, List.drop_append_of_le_length (by omega : m + 1 ≤ (sent R M pre).length)]
      · have hm : m = (sent R M pre).length := by
          have := (List.getElem?_eq_some_iff.1 h).1
          simp at this
          omega
        subst hm
        simp at h
        subst h
        obtain ⟨out, ho, hr⟩ := lag (R := R) (M := M) hK pre (.send p :: post) (sent R M pre).length (Nat.le_refl _) (by omega)
        refine ⟨out, ho, exec_trans hr ?_⟩
        refine exec_trans (t := ⟨post, memAfter M pre, [p], none, out⟩) (exec_one .prog (by simp [step, hK])) (exec_one .take ?_)
        simp [step, memAfter_append, memAfter]

theorem untouched_of_faithful {K : Nat} (hK : 0 < K) {ops : List (Op P V A)}
    (h : ∀ ls s, exec (step R K) (init M ops) ls = some s → Faithful R M ops s.out) : Untouched R M K ops := by
  intro pre post he m x hx hl
  obtain ⟨out, ho, hr⟩ := late hK pre post m x hx hl
  obtain ⟨ls, hr⟩ := exec_trans hr (reads_all x.1 _ rfl)
  rw [← he] at hr
  obtain ⟨rest, hF⟩ := h ls _ hr
  have h1 : ((sent R M ops).map Prod.snd)[m]? = some x.2 := by
    rw [he, sent_append, List.map_append, List.getElem?_append_left (by simp; exact (List.getElem?_eq_some_iff.1 hx).1)]
    simp [hx]
  rw [hF] at h1
  simp [← ho] at h1
  exact h1

/-! ## C101 -/

/-- All messages are passed down as they were when they were handed over, in every execution, exactly if the last `K + 1` objects handed over
are unchanged at all times. -/
theorem c101_iff {K : Nat} (hK : 0 < K) (M : A → V) (ops : List (Op P V A)) :
    (∀ ls s, exec (step R K) (init M ops) ls = some s → Faithful R M ops s.out) ↔ Untouched R M K ops :=
  ⟨untouched_of_faithful hK, fun h _ _ he => faithful_of_untouched h he⟩

/-- Full statement: messages are passed down as they were handed over, whatever the program does with the objects afterwards.  The code
passes on what the objects contain when they are read: each write which changes an object handed over before can change the message. -/
theorem c101_violated {K : Nat} (hK : 0 < K) (M : A → V) (p : P) (a : A) (v : V) (h : content R (store M a v) p ≠ content R M p) :
    ∃ ls s, exec (step R K) (init M [.send p, .set a v]) ls = some s ∧ ¬ Faithful R M [.send p, .set a v] s.out := by
  apply Classical.byContradiction
  intro hn
  refine h (untouched_of_faithful hK (ops := [.send p, .set a v]) (fun ls s he => ?_) [.send p, .set a v] [] rfl 0
    (p, content R M p) rfl (by simp [sent]))
  apply Classical.byContradiction
  intro hf
  exact hn ⟨ls, s, he, hf⟩

/-- Missing: objects written again.  Objects never changed after they were handed over are passed down as they were. -/
theorem c101_partial {K : Nat} (M : A → V) (ops : List (Op P V A))
    (h : ∀ pre post, ops = pre ++ post → ∀ x ∈ sent R M pre, content R (memAfter M pre) x.1 = x.2)
    {ls : List Label} {s : Sys P V A} (he : exec (step R K) (init M ops) ls = some s) : Faithful R M ops s.out :=
  faithful_of_untouched (fun pre post e _ x hx _ => h pre post e x (List.mem_of_getElem? hx)) he

/-! ## Rings of buffers -/

/-- An object consisting of one cell. -/
def cell : Reader Nat V Nat := ⟨fun p acc => if acc.length = 0 then some p else none, 1, fun p acc h => by rw [if_neg (by omega)]⟩

/-- The program which uses `n` buffers in turn, from the `i`-th message on. -/
def ring (n : Nat) : Nat → List V → List (Op Nat V Nat)
  | _, [] => []
  | i, v :: vs => .set (i % n) v :: .send (i % n) :: ring n (i + 1) vs

theorem content_cell (M : Nat → V) (p : Nat) : content cell M p = [M p] := rfl

theorem ring_apart {i m n : Nat} (h1 : m < i) (h2 : i < m + n) : m % n ≠ i % n := by
  intro e
  have h3 := Nat.sub_mod_eq_zero_of_mod_eq e.symm
  rw [Nat.mod_eq_of_lt (by omega)] at h3
  omega

theorem ring_untouched {n K : Nat} (hn : K + 2 ≤ n) (vs : List V) : ∀ (i : Nat) (M : Nat → V) (hist : List (Nat × List V)), hist.length = i →
    (∀ m x, hist[m]? = some x → i ≤ m + K + 1 → x = (m % n, [M (m % n)])) →
    ∀ pre post, ring n i vs = pre ++ post → ∀ m x, (hist ++ sent cell M pre)[m]? = some x →
      (hist ++ sent cell M pre).length ≤ m + K + 1 → content cell (memAfter M pre) x.1 = x.2 := by
  induction vs with
  | nil =>
    intro i M hist hi hh pre post he m x hx hl
    simp only [ring] at he
    obtain ⟨rfl, rfl⟩ := List.append_eq_nil_iff.1 he.symm
    simp only [sent, List.append_nil] at hx hl
    rw [hh m x hx (by omega)]
    rfl
  | cons v vs ih =>
    intro i M hist hi hh pre post he m x hx hl
    have key : ∀ m x, hist[m]? = some x → i ≤ m + K + 1 → x = (m % n, [store M (i % n) v (m % n)]) := by
      intro m x hx hl
      have hm : m < i := by rw [← hi]; exact (List.getElem?_eq_some_iff.1 hx).1
      rw [hh m x hx hl, store, if_neg (ring_apart hm (by omega))]
    match pre, he with
    | [], _ =>
      simp only [sent, List.append_nil] at hx hl
      rw [hh m x hx (by omega)]
      rfl
    | [o], he =>
      simp only [ring, List.cons_append, List.cons.injEq] at he
      obtain ⟨rfl, -⟩ := he
      simp only [sent, List.append_nil] at hx hl
      rw [key m x hx (by omega)]
      rfl
    | o :: o' :: pre, he =>
      simp only [ring, List.cons_append, List.cons.injEq] at he
      obtain ⟨rfl, rfl, he⟩ := he
      have e : hist ++ sent cell M (.set (i % n) v :: .send (i % n) :: pre) =
          (hist ++ [(i % n, [v])]) ++ sent cell (store M (i % n) v) pre := by
        simp [sent, content_cell, store]
      rw [e] at hx hl
      refine ih (i + 1) (store M (i % n) v) (hist ++ [(i % n, [v])]) (by simp [hi]) ?_ pre post he m x hx hl
      intro m x hx hl
      by_cases hm : m < hist.length
      · rw [List.getElem?_append_left hm] at hx
        exact key m x hx (by omega)
      · have hm2 : m = i := by
          have := (List.getElem?_eq_some_iff.1 hx).1
          simp at this
          omega
        subst hm2
        subst hi
        simp at hx
        rw [← hx, store, if_pos rfl]

theorem ring_append (n : Nat) (vs ws : List V) : ∀ i, ring n i (vs ++ ws) = ring n i vs ++ ring n (i + vs.length) ws := by
  induction vs with
  | nil => intro i; rfl
  | cons v vs ih => intro i; simp [ring, ih, Nat.add_assoc, Nat.add_comm 1]

theorem ring_sent (n : Nat) (vs : List V) : ∀ i (M : Nat → V), (sent cell M (ring n i vs)).length = vs.length := by
  induction vs with
  | nil => intro i M; rfl
  | cons v vs ih => intro i M; simp [ring, sent, ih]

/-- A program which uses `n` buffers in turn has all its messages passed down as they were handed over, whatever they contain, exactly
if it has two more buffers than the channel has room for. -/
theorem c101_ring {n K : Nat} (hn : 0 < n) (hK : 0 < K) {a b : V} (hab : a ≠ b) (M : Nat → V) :
    (∀ vs ls s, exec (step cell K) (init M (ring n 0 vs)) ls = some s → s.out <+: vs.map ([·])) ↔ K + 2 ≤ n := by
  have hsnd : ∀ (vs : List V) i (M : Nat → V), (sent cell M (ring n i vs)).map Prod.snd = vs.map ([·]) := by
    intro vs
    induction vs with
    | nil => intro i M; rfl
    | cons v vs ih => intro i M; simp [ring, sent, ih, content_cell, store]
  have hF : ∀ vs (out : List (List V)), Faithful cell M (ring n 0 vs) out ↔ out <+: vs.map ([·]) := by
    intro vs out
    rw [Faithful, hsnd]
    exact ⟨fun ⟨r, h⟩ => ⟨r, h.symm⟩, fun ⟨r, h⟩ => ⟨r, h.symm⟩⟩
  constructor
  · intro h
    apply Classical.byContradiction
    intro hlt
    have hU := untouched_of_faithful (R := cell) (M := M) hK (ops := ring n 0 (a :: List.replicate (n - 1) a ++ [b]))
      (fun ls s he => (hF _ _).2 (h _ ls s he))
    have hr : ring n 0 (a :: List.replicate (n - 1) a ++ [b]) =
        (ring n 0 (a :: List.replicate (n - 1) a) ++ [.set 0 b]) ++ [.send 0] := by
      rw [ring_append]
      have : 0 + (a :: List.replicate (n - 1) a).length = n := by simp; omega
      rw [this]
      simp [ring]
    have := hU _ _ hr 0 (0, [a]) (by
      rw [sent_append, List.getElem?_append_left (by rw [ring_sent]; simp)]
      simp [ring, sent, content_cell, store]) (by
      rw [sent_append, List.length_append, ring_sent]
      simp [sent]
      omega)
    rw [memAfter_append] at this
    simp [memAfter, content_cell, store] at this
    exact hab this.symm
  · intro h vs ls s he
    rw [← hF]
    refine faithful_of_untouched (K := K) (fun pre post e m x hx hl => ?_) he
    exact ring_untouched h vs 0 M [] rfl (fun m x hx => by simp at hx) pre post e m x (by simpa using hx) (by simpa using hl)

/-! ## The data of an endpoint -/

/-- How a `DefaultEndPointData` with `[]byte` data is read (proc_upperdeck.go:52-62, endp_default.go:32-62, proc_codec_bytes.go:28-41): the flag,
if it is set the destination session, the connection, the slice (address and length), and then, for the copy into the buffer, as many bytes as
there is room for (`L`). -/
def epdNext (L : Nat) (p : Nat) : List Nat → Option Nat
  | [] => some p
  | h :: r =>
    if h ≠ 0 ∧ r = [] then some (p + 1) else
    match (if h ≠ 0 then r.drop 1 else r) with
    | [] => some (p + 2)
    | [_] => some (p + 3)
    | [_, _] => some (p + 4)
    | _ :: base :: len :: bs => if bs.length < min len L then some (base + bs.length) else none

def epdReader (L : Nat) : Reader Nat Nat Nat where
  rd := epdNext L
  B := L + 5
  stop := by
    intro p acc h
    cases acc with
    | nil => simp at h
    | cons x r =>
      simp only [epdNext]
      simp only [List.length_cons] at h
      rw [if_neg (by intro ⟨_, e⟩; subst e; simp at h)]
      have : L + 3 ≤ (if x ≠ 0 then r.drop 1 else r).length := by split <;> (try rw [List.length_drop]) <;> omega
      generalize (if x ≠ 0 then r.drop 1 else r) = r' at this
      match r', this with
      | _ :: _ :: _ :: bs, this =>
        simp only [List.length_cons] at this
        simp only
        rw [if_neg (by omega)]

/-! ## Concrete cases -/

/-- A message of three bytes at 20, described at 0, to be read into a buffer with room for 4. -/
def threeBytes : Nat → Nat := fun x => [0, 0, 7, 20, 3].getD x (if x = 20 then 97 else if x = 21 then 98 else if x = 22 then 99 else 0)

example : content (epdReader 4) threeBytes 0 = [0, 7, 20, 3, 97, 98, 99] := by decide
example : content (epdReader 2) threeBytes 0 = [0, 7, 20, 3, 97, 98] := by decide

/-- `c101_violated`: the last byte is written after the send, with the first one read already: the message passed down is one that never existed. -/
example : ∃ s, exec (step (epdReader 4) 512) (init threeBytes [.send 0, .set 20 120, .set 22 122])
    [.prog, .take, .read, .read, .read, .read, .read, .prog, .prog, .read, .read, .pass] = some s ∧
    s.out = [[0, 7, 20, 3, 97, 98, 122]] := ⟨_, rfl, by decide⟩
example : content (epdReader 4) (store threeBytes 22 122) 0 ≠ content (epdReader 4) threeBytes 0 := by decide

/-- Clearing the destination session changes the destination (endp_default.go:64-68). -/
example : content (epdReader 4) (store (store (store threeBytes 0 1) 1 5) 0 0) 0 ≠ content (epdReader 4) (store (store threeBytes 0 1) 1 5) 0 := by decide

/-- `c101_partial`: writing what belongs to no object. -/
example : ∀ pre post, [Op.send 0, Op.set 40 1] = pre ++ post → ∀ x ∈ sent (epdReader 4) threeBytes pre,
    content (epdReader 4) (memAfter threeBytes pre) x.1 = x.2 := by
  intro pre post h x hx
  match pre, h with
  | [], _ => simp [sent] at hx
  | [o], h =>
    simp only [List.cons_append, List.cons.injEq] at h
    obtain ⟨rfl, -⟩ := h
    simp [sent] at hx
    subst hx
    rfl
  | [o, o'], h =>
    simp only [List.cons_append, List.cons.injEq] at h
    obtain ⟨rfl, rfl, -⟩ := h
    simp [sent] at hx
    subst hx
    decide

/-- `c101_ring` with the channels of an endpoint: 514 buffers are needed. -/
example (n : Nat) (hn : 0 < n) (M : Nat → Nat) :
    (∀ vs ls s, exec (step cell 512) (init M (ring n 0 vs)) ls = some s → s.out <+: vs.map ([·])) ↔ 514 ≤ n :=
  c101_ring hn (by decide) (a := 0) (b := 1) (by decide) M

/-- One buffer, a channel with room for one message: the second message is passed down twice. -/
example : ∃ s, exec (step cell 1) (init (fun _ => 0) (ring 1 0 [5, 6])) [.prog, .prog, .take, .prog, .read, .pass, .prog, .take, .read, .pass] = some s ∧
    s.out = [[6], [6]] := ⟨_, rfl, by decide⟩

end Verif.Reg.Reuse
