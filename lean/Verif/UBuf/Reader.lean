import Verif.UBuf.Props

/-!
# C100, first part: standard readers on a buffer

`UBuf.Read` on an empty buffer returns `(0, nil)` (ubuf.go:446-452): no bytes and no error.  The readers of Go's standard library
loop until they have their bytes or see an error, so on an empty buffer they loop forever.  Below, `io.ReadFull` and
`io.ReadAll` are modelled as those loops over `read`; a step budget that is used up is `.running`, and "runs forever" is
"`.running` for every budget".
-/

namespace Verif.UBuf
open GoM

/-- The loop of `io.ReadAtLeast(r, buf, min)` with `len(buf) = min = n`, as called by `io.ReadFull` (Go standard library, package
io): `for n < min && err == nil { nn, err = r.Read(buf[n:]); n += nn }`, then the error is dropped if enough was read and
`io.EOF` becomes `io.ErrUnexpectedEOF` if something was read. -/
def readLoop : Nat → Nat → List Byte → GoM St (List Byte × Option Err)
  | 0, _, _ => fun s => (.running, s)
  | fuel + 1, n, got =>
    if n ≤ got.length then return (got, none)
    else do
      let r ← read (n - got.length)
      match r.2 with
      | none => readLoop fuel n (got ++ r.1)
      | some e =>
        if n ≤ (got ++ r.1).length then return (got ++ r.1, none)
        else if e = .eof ∧ got ++ r.1 ≠ [] then return (got ++ r.1, some .unexpectedEOF)
        else return (got ++ r.1, some e)

/-- `io.ReadFull(ub, buf)` with `len(buf) = n`. -/
def ioReadFull (fuel n : Nat) : GoM St (List Byte × Option Err) := readLoop fuel n []

/-- The loop of `io.ReadAll(ub)` (Go standard library, package io).  `cap k` is the capacity of the slice after growing it `k`
times; `Read` is given the free part, an error ends the loop (`io.EOF` as success), a full slice is grown. -/
def readAllLoop (cap : Nat → Nat) : Nat → Nat → List Byte → GoM St (List Byte × Option Err)
  | 0, _, _ => fun s => (.running, s)
  | fuel + 1, k, got => do
    let r ← read (cap k - got.length)
    match r.2 with
    | some e => return (got ++ r.1, if e = .eof then none else some e)
    | none => readAllLoop cap fuel (if (got ++ r.1).length = cap k then k + 1 else k) (got ++ r.1)

/-- `io.ReadAll(ub)`. -/
def ioReadAll (cap : Nat → Nat) (fuel : Nat) : GoM St (List Byte × Option Err) := readAllLoop cap fuel 0 []

/-! ## One `Read` -/

theorem read_data {s : St} (h : Good s) (n : Nat) :
    ∃ s', read n s = (.ok (if data s = [] then ([], none)
        else ((data s).take n, if (data s).length < n then some .noMoreRead else none)), s') ∧
      Good s' ∧ data s' = (data s).drop n ∧ (data s = [] → s' = s) := by
  obtain ⟨s', h1, h2, h3⟩ := read_refines n h.rel
  have hg : Good s' := ⟨by rw [h2.view_eq]; exact h2, h3.cow_false h.cow⟩
  refine ⟨s', h1, hg, ?_, fun he => ?_⟩
  · simp only [data]
    rw [h2.view_eq]
    split
    · rename_i he; rw [he]; simp
    · simp only [Deque.pop]
      by_cases hl : (view s).content.length ≤ n
      · rw [Nat.min_eq_right hl, List.drop_of_length_le hl, List.drop_of_length_le (Nat.le_refl _)]
      · rw [Nat.min_eq_left (by omega)]
  · have h0 : readableLength s ≤ 0 := by
      rw [h.rel.readable]
      simp only [data] at he
      simp [he]
    have h4 : read n s = (.ok ([], none), s) := by simp [read, bind_apply, h0]
    rw [h4] at h1
    exact (Prod.mk.inj h1).2.symm

/-! ## `io.ReadFull` -/

theorem readLoop_stalls {s : St} (h : Good s) (he : data s = []) {n : Nat} {got : List Byte} (hn : got.length < n) (fuel : Nat) :
    readLoop fuel n got s = (.running, s) := by
  induction fuel with
  | zero => rfl
  | succ fuel ih =>
    obtain ⟨s', h1, _, _, h4⟩ := read_data h (n - got.length)
    rw [if_pos he] at h1
    rw [h4 he] at h1
    rw [readLoop, if_neg (by omega), bind_of_ok h1]
    simpa using ih

/-- Nothing is asked for, or the buffer is not empty: `io.ReadFull` ends, with the bytes or with the error of `Read`. -/
theorem ioReadFull_ends {s : St} (h : Good s) {n fuel : Nat} (hf : 2 ≤ fuel) (hn : n = 0 ∨ data s ≠ []) :
    ∃ s', ioReadFull fuel n s = (.ok ((data s).take n, if (data s).length < n then some .noMoreRead else none), s') ∧
      Good s' ∧ data s' = (data s).drop n := by
  obtain ⟨f, rfl⟩ : ∃ f, fuel = f + 2 := ⟨fuel - 2, by omega⟩
  by_cases h0 : n = 0
  · subst h0
    exact ⟨s, by simp [ioReadFull, readLoop], h, by simp⟩
  · have hd : data s ≠ [] := hn.resolve_left h0
    obtain ⟨s', h1, h2, h3, _⟩ := read_data h n
    rw [if_neg hd] at h1
    refine ⟨s', ?_, h2, h3⟩
    rw [ioReadFull, readLoop, if_neg (by simpa using h0)]
    simp only [List.length_nil, Nat.sub_zero, List.nil_append]
    rw [bind_of_ok h1]
    by_cases hl : (data s).length < n
    · simp only [if_pos hl]
      rw [if_neg (by simp; omega), if_neg (by simp)]
      rfl
    · simp only [if_neg hl]
      rw [readLoop, if_pos (by simp; omega)]
      rfl

/-- C100: `io.ReadFull` on a buffer runs forever exactly if it is asked for bytes and the buffer is empty. -/
theorem c100_readFull_exact {s : St} (h : Good s) (n : Nat) :
    (∀ fuel, (ioReadFull fuel n s).1 = .running) ↔ 0 < n ∧ data s = [] := by
  constructor
  · intro hr
    refine Classical.byContradiction fun hn => ?_
    obtain ⟨s', h1, _⟩ := ioReadFull_ends h (n := n) (Nat.le_refl 2) (by
      by_cases h0 : n = 0
      · exact .inl h0
      · exact .inr fun he => hn ⟨by omega, he⟩)
    have := hr 2
    rw [h1] at this
    cases this
  · rintro ⟨hn, he⟩ fuel
    rw [ioReadFull, readLoop_stalls h he (by simpa using hn)]

/-- The integer reads of the buffer (ubuf.go:500-563) ask for no more than there is; then the loop is the single `Read` that
`readFull` in `UBuf/Model.lean` consists of. -/
theorem readFull_is_io {s : St} (h : Good s) {n fuel : Nat} (hn : 0 < n) (hl : n ≤ (data s).length) (hf : 2 ≤ fuel) :
    ioReadFull fuel n s = readFull n s := by
  have hd : data s ≠ [] := by intro e; rw [e] at hl; simp at hl; omega
  obtain ⟨f, rfl⟩ : ∃ f, fuel = f + 2 := ⟨fuel - 2, by omega⟩
  obtain ⟨s', h1, _⟩ := read_data h n
  rw [if_neg hd, if_neg (by omega)] at h1
  rw [ioReadFull, readLoop, if_neg (by simp; omega), readFull]
  simp only [List.length_nil, Nat.sub_zero, List.nil_append]
  rw [bind_of_ok h1, bind_of_ok h1]
  simp only
  rw [readLoop, if_pos (by simp; omega), if_pos (by simp; omega)]

/-! ## `io.ReadAll` -/

/-- The capacities of a growing slice. -/
structure Grows (cap : Nat → Nat) : Prop where
  pos : 0 < cap 0
  up : ∀ k, cap k < cap (k + 1)

theorem Grows.le {cap : Nat → Nat} (h : Grows cap) {i j : Nat} (hij : i ≤ j) : cap i ≤ cap j := by
  induction hij with
  | refl => exact Nat.le_refl _
  | step _ ih => exact Nat.le_trans ih (Nat.le_of_lt (h.up _))

theorem readAllLoop_stalls {cap : Nat → Nat} {s : St} (h : Good s) (he : data s = []) {k : Nat} {got : List Byte}
    (hn : got.length < cap k) (fuel : Nat) : readAllLoop cap fuel k got s = (.running, s) := by
  induction fuel with
  | zero => rfl
  | succ fuel ih =>
    obtain ⟨s', h1, _, _, h4⟩ := read_data h (cap k - got.length)
    rw [if_pos he, h4 he] at h1
    rw [readAllLoop, bind_of_ok h1]
    simp only [List.append_nil]
    rw [if_neg (by omega)]
    exact ih

/-- Starting with `got`, whose successor is the content of the buffer. -/
theorem readAllLoop_cases {cap : Nat → Nat} (hc : Grows cap) (m : Nat) : ∀ (s : St) (k : Nat) (got : List Byte), Good s →
    (data s).length ≤ m → got.length < cap k →
    ((data s = [] ∨ ∃ j, k ≤ j ∧ (got ++ data s).length = cap j) ∧ ∀ fuel, (readAllLoop cap fuel k got s).1 = .running) ∨
    ((data s ≠ [] ∧ ∀ j, k ≤ j → (got ++ data s).length ≠ cap j) ∧
      ∃ f s', ∀ fuel, f ≤ fuel → readAllLoop cap fuel k got s = (.ok (got ++ data s, some .noMoreRead), s')) := by
  induction m with
  | zero =>
    intro s k got hg hm hgot
    have he : data s = [] := List.length_eq_zero_iff.1 (by omega)
    exact .inl ⟨.inl he, fun fuel => by rw [readAllLoop_stalls hg he hgot]⟩
  | succ m ih =>
    intro s k got hg hm hgot
    by_cases he : data s = []
    · exact .inl ⟨.inl he, fun fuel => by rw [readAllLoop_stalls hg he hgot]⟩
    have hpos := List.length_pos_iff.2 he
    obtain ⟨s', h1, h2, h3, _⟩ := read_data hg (cap k - got.length)
    rw [if_neg he] at h1
    by_cases hl : (data s).length < cap k - got.length
    · refine .inr ⟨⟨he, fun j hj => ?_⟩, 1, s', fun fuel hf => ?_⟩
      · have := hc.le hj
        simp only [List.length_append]; omega
      · obtain ⟨f, rfl⟩ : ∃ f, fuel = f + 1 := ⟨fuel - 1, by omega⟩
        rw [readAllLoop, bind_of_ok h1]
        simp only [if_pos hl]
        rw [if_neg (by simp), List.take_of_length_le (by omega)]
        rfl
    · rw [if_neg hl] at h1
      have hnext : ∀ f, readAllLoop cap (f + 1) k got s = readAllLoop cap f (k + 1) (got ++ (data s).take (cap k - got.length)) s' := by
        intro f
        rw [readAllLoop, bind_of_ok h1]
        simp only
        rw [if_pos (by simp; omega)]
      have hlen : (got ++ (data s).take (cap k - got.length)).length = cap k := by simp; omega
      have hjoin : (got ++ (data s).take (cap k - got.length)) ++ data s' = got ++ data s := by
        rw [h3, List.append_assoc, List.take_append_drop]
      rcases ih s' (k + 1) (got ++ (data s).take (cap k - got.length)) h2 (by rw [h3]; simp; omega) (by rw [hlen]; exact hc.up k)
        with ⟨ha, hb⟩ | ⟨⟨ha, hb⟩, f, s2, hend⟩
      · refine .inl ⟨.inr ?_, fun fuel => ?_⟩
        · rcases ha with ha | ⟨j, hj, ha⟩
          · refine ⟨k, Nat.le_refl k, ?_⟩
            rw [← hjoin, ha, List.append_nil, hlen]
          · exact ⟨j, by omega, by rw [← hjoin, ha]⟩
        · cases fuel with
          | zero => rfl
          | succ f => rw [hnext]; exact hb f
      · refine .inr ⟨⟨he, fun j hj => ?_⟩, f + 1, s2, fun fuel hf => ?_⟩
        · rw [← hjoin]
          by_cases e : j = k
          · subst e
            have := List.length_pos_iff.2 ha
            rw [List.length_append, hlen]; omega
          · exact hb j (by omega)
        · obtain ⟨g, rfl⟩ : ∃ g, fuel = g + 1 := ⟨fuel - 1, by omega⟩
          rw [hnext, hend g (by omega), hjoin]

/-- C100: `io.ReadAll` on a buffer runs forever exactly if the buffer is empty or its content fills the slice exactly at one of its
sizes. -/
theorem c100_readAll_exact {cap : Nat → Nat} (hc : Grows cap) {s : St} (h : Good s) :
    (∀ fuel, (ioReadAll cap fuel s).1 = .running) ↔ data s = [] ∨ ∃ j, (data s).length = cap j := by
  rcases readAllLoop_cases hc (data s).length s 0 [] h (Nat.le_refl _) hc.pos with ⟨ha, hb⟩ | ⟨⟨ha, hb⟩, f, s', hend⟩
  · refine ⟨fun _ => ?_, fun _ => hb⟩
    rcases ha with ha | ⟨j, _, ha⟩
    · exact .inl ha
    · exact .inr ⟨j, ha⟩
  · constructor
    · intro hr
      have h1 := hr f
      rw [ioReadAll, hend f (Nat.le_refl f)] at h1
      cases h1
    · rintro (h1 | ⟨j, h1⟩)
      · exact absurd h1 ha
      · exact absurd h1 (hb j (Nat.zero_le j))

/-- C100: `io.ReadAll` on a buffer never succeeds. -/
theorem c100_readAll_never_succeeds {cap : Nat → Nat} (hc : Grows cap) {s : St} (h : Good s) (fuel : Nat) (bs : List Byte) :
    (ioReadAll cap fuel s).1 ≠ .ok (bs, none) := by
  intro hok
  have mono : ∀ (f k : Nat) (got : List Byte) (t : St), (readAllLoop cap f k got t).1 ≠ .running → ∀ g, f ≤ g →
      readAllLoop cap g k got t = readAllLoop cap f k got t := by
    intro f
    induction f with
    | zero => intro k got t hr; exact absurd rfl hr
    | succ f ih =>
      intro k got t hr g hg
      obtain ⟨g, rfl⟩ : ∃ x, g = x + 1 := ⟨g - 1, by omega⟩
      rw [readAllLoop, bind_apply] at hr ⊢
      rw [readAllLoop, bind_apply]
      rcases hx : read (cap k - got.length) t with ⟨x, t'⟩
      rw [hx] at hr
      cases x with
      | panic => rfl
      | running => rfl
      | ok r =>
        obtain ⟨r1, r2⟩ := r
        cases r2 with
        | some e => rfl
        | none => exact ih _ _ _ hr g (by omega)
  rcases readAllLoop_cases hc (data s).length s 0 [] h (Nat.le_refl _) hc.pos with ⟨_, hb⟩ | ⟨_, f, s', hend⟩
  · have := hb fuel
    rw [ioReadAll] at hok
    rw [this] at hok
    cases hok
  · rw [ioReadAll] at hok
    have h1 := mono fuel 0 [] s (by rw [hok]; simp) (max f fuel) (by omega)
    rw [hend _ (by omega)] at h1
    rw [← h1] at hok
    cases hok

/-- Two bytes in the buffer: reading three ends with an error and the two bytes, reading two ends well, reading one more hangs. -/
def twoBytes : St := (exec (.write [7, 9]) demo).2

theorem twoBytes_good : Good twoBytes := by
  obtain ⟨s', h1, _, h3⟩ := demo_reachable.good.step (.write [7, 9]) trivial
  simp only [twoBytes, h1]; exact h3

example : (ioReadFull 2 3 twoBytes).1 = .ok ([7, 9], some .noMoreRead) ∧ (ioReadFull 2 2 twoBytes).1 = .ok ([7, 9], none) ∧
    data twoBytes = [7, 9] := by decide +kernel
example : ∀ fuel, (ioReadFull fuel 1 demo).1 = .running := (c100_readFull_exact demo_reachable.good 1).2 ⟨by decide, rfl⟩
example : Grows (fun k => 512 + 512 * k) := ⟨by decide, fun k => by omega⟩
example : ∀ fuel, (ioReadAll (fun k => 2 + 2 * k) fuel twoBytes).1 = .running :=
  (c100_readAll_exact ⟨by decide, fun k => by omega⟩ twoBytes_good).2 (.inr ⟨0, by decide +kernel⟩)
example : (ioReadAll (fun k => 512 + 512 * k) 1 twoBytes).1 = .ok ([7, 9], some .noMoreRead) := by decide +kernel

end Verif.UBuf
