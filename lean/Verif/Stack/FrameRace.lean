import Verif.Stack.Shared
import Verif.Trace

/-!
# C85: the FrameDecoder's cache and the receive goroutines of several connections

One FrameDecoder serves every connection of a transport (proc_frame_decoder.go:15-19: one `cache` field) and
`OnLowerData` runs in the receive goroutine of the connection (proc_lowerdeck.go:59-88: one per connection),
with no lock.  Here the accesses to the cache are the atomic steps and any number of goroutines interleave.

A goroutine that has received a chunk:

| step      | source                                                                          |
|-----------|---------------------------------------------------------------------------------|
| `idle`    | the next chunk arrives; `OnLowerData`, proc_frame_decoder.go:170-183            |
| `check`   | `frm.cache.ReadableLength() > 0`, :59                                           |
| `loop`    | one round of the loop over the received buffer, :66-117 (touches no cache)      |
| `put`     | `frm.cache.ReadFrom(ub)` (:60, :69, :84): tail test, ubuf.go:468-470            |
| `slice`   | `ub.data.bytes[ub.writerIndex:]`, ubuf.go:474                                   |
| `copy`    | `r.Read(..)`: copies into the cache, fails unless it fills it, ubuf.go:446-464  |
| `load`    | `ub.writerIndex += length`, reading it, ubuf.go:479                             |
| `store`   | `ub.writerIndex += length`, writing it, ubuf.go:479                             |
| `cached`  | `frm.cache.ReadableLength()` and the tests on it, proc_frame_decoder.go:124-134 |
| `peek`    | `frm.cache.PeekU32BE()`, the test and the allocation, :136-149                  |
| `hdr`     | `frm.cache.ReadU32BE()`, :152                                                   |
| `copyN`   | `io.CopyN(newUbuf, frm.cache, ..)` and the upper layer, :155-165                |
| `reset1`  | `Reset`: the reader index, ubuf.go:196                                          |
| `reset2`  | `Reset`: the writer index, ubuf.go:197                                          |

Simplified: `ReadableLength`, `PeekU32BE`, `ReadU32BE` and `Read` on the cache are one step each (they take
several loads and stores in the source: the model has fewer interleavings; under the hypothesis of the positive
theorem the last three are never reached and the first reads two variables that never change); the memory model
is sequentially consistent; the upper layer is a list of what it was handed; the cache is allocated with
nothing reserved (proc_frame_decoder.go:202, `UBufAlloc`), is not shared copy-on-write, and its bytes are
written in one step.
-/

namespace Verif.Stack.FrameRace
open Verif.Stack Trace

/-! ## The model -/

/-- The cache: storage (as long as its capacity), reader index, writer index. -/
structure Mem where
  bytes : List Byte
  r : Nat
  w : Nat
  deriving Repr, DecidableEq

inductive PC
  | idle
  | check (bs : List Byte)
  | loop (bs : List Byte)
  | put (bs : List Byte)
  | slice (bs : List Byte)
  | copy (bs : List Byte) (off : Nat)
  | load (n : Nat)
  | store (x : Nat)
  | cached
  | peek (n : Nat)
  | hdr (l : Nat)
  | copyN (l : Nat)
  | reset1 (again : Bool)
  | reset2 (again : Bool)
  deriving Repr, DecidableEq

/-- A goroutine: the chunks still to come on its connection and where it is. -/
structure Th where
  todo : List (List Byte)
  pc : PC
  deriving Repr, DecidableEq

inductive Out
  | panic
  | ok (m : Mem) (t : Th) (up : Option (List Byte))
  deriving Repr, DecidableEq

/-- One step of a goroutine; `none`: it waits for the next chunk and there is none. -/
def tstep (m : Mem) (t : Th) : Option Out :=
  let cap := m.bytes.length
  match t.pc with
  | .idle =>
    match t.todo with
    | [] => none
    | bs :: rest => some (.ok m ⟨rest, .check bs⟩ none)
  | .check bs => some (.ok m { t with pc := if m.r < m.w then .put bs else .loop bs } none)
  | .loop bs =>
    if bs.length < 4 then some (.ok m { t with pc := .put bs } none)
    else
      let l := decBE (bs.take 4)
      if l > toU32 bs.length then some (.ok m { t with pc := .put bs } none)
      else if l = toU32 bs.length then some (.ok m { t with pc := .cached } (some (bs.drop 4)))
      else if l = 0 then some .panic
      else if (bs.drop 4).length < l then some (.ok m { t with pc := .reset1 true } none)
      else some (.ok m { t with pc := .loop ((bs.drop 4).drop l) } (some ((bs.drop 4).take l)))
  | .put bs => some (.ok m { t with pc := if cap ≤ m.w then .cached else .slice bs } none)
  | .slice bs => if cap < m.w then some .panic else some (.ok m { t with pc := .copy bs m.w } none)
  | .copy bs off =>
    if bs = [] then some (.ok m { t with pc := .load 0 } none)
    else
      let k := min bs.length (cap - off)
      let m' := { m with bytes := m.bytes.take off ++ (bs.take k ++ m.bytes.drop (off + k)) }
      some (.ok m' { t with pc := if k < cap - off then .cached else .load k } none)
  | .load n => some (.ok m { t with pc := .store (m.w + n) } none)
  | .store x => some (.ok { m with w := x } { t with pc := .cached } none)
  | .cached =>
    if m.w = m.r then some (.ok m { t with pc := .reset1 false } none)
    else if m.w < m.r + 4 then some (.ok m { t with pc := .idle } none)
    else some (.ok m { t with pc := .peek (m.w - m.r) } none)
  | .peek n =>
    if m.w < m.r + 4 then some (.ok m { t with pc := .reset1 false } none)
    else if cap < m.r + 4 then some .panic
    else
      let l := decBE ((m.bytes.drop m.r).take 4)
      if n < l then some (.ok m { t with pc := .idle } none)
      else if l = 0 then some .panic
      else some (.ok m { t with pc := .hdr l } none)
  | .hdr l =>
    if m.w < m.r + 4 then some (.ok m { t with pc := .copyN l } none)
    else if cap < m.r then some .panic
    else some (.ok { m with r := m.r + min 4 (cap - m.r) } { t with pc := .copyN l } none)
  | .copyN l =>
    if m.w ≤ m.r then some (.ok m { t with pc := .reset1 false } none)
    else if cap < m.r then some .panic
    else
      let k := min (min (m.w - m.r) l) (cap - m.r)
      let m' := { m with r := m.r + k }
      if k < l then some (.ok m' { t with pc := .reset1 false } none)
      else some (.ok m' { t with pc := .cached } (some ((m.bytes.drop m.r).take l)))
  | .reset1 again => some (.ok { m with r := 0 } { t with pc := .reset2 again } none)
  | .reset2 again => some (.ok { m with w := 0 } { t with pc := if again then .cached else .idle } none)

/-- `out`: what was handed up, with the goroutine (the connection in the context) that did it. -/
structure S where
  m : Mem
  ths : List Th
  out : List (Nat × List Byte)
  crashed : Bool
  deriving Repr, DecidableEq

/-- Goroutine `i` takes a step. -/
def step (s : S) (i : Nat) : Option S :=
  if s.crashed then none else
  match s.ths[i]? with
  | none => none
  | some t =>
    match tstep s.m t with
    | none => none
    | some .panic => some { s with crashed := true }
    | some (.ok m t' up) => some { s with m := m, ths := s.ths.set i t', out := s.out ++ (up.toList.map fun p => (i, p)) }

abbrev exec := Trace.exec step

/-- `FrameDecoder.Run` has allocated the cache (proc_frame_decoder.go:193-205); one goroutine per connection
(proc_lowerdeck.go:59-88). -/
def init (cap : Nat) (conns : List (List (List Byte))) : S :=
  ⟨⟨List.replicate cap 0, 0, 0⟩, conns.map fun c => ⟨c, .idle⟩, [], false⟩

/-! ## Specification -/

/-- How the bytes of one chunk end. -/
inductive End
  | left (bs : List Byte)
  | exact
  | zero
  | short
  deriving Repr, DecidableEq

/-- The frames of one chunk, by themselves: the payloads, and what ends them. -/
def parse (bs : List Byte) : List (List Byte) × End :=
  if bs.length < 4 then ([], .left bs)
  else if decBE (bs.take 4) > toU32 bs.length then ([], .left bs)
  else if decBE (bs.take 4) = toU32 bs.length then ([bs.drop 4], .exact)
  else if decBE (bs.take 4) = 0 then ([], .zero)
  else if (bs.drop 4).length < decBE (bs.take 4) then ([], .short)
  else
    let x := parse ((bs.drop 4).drop (decBE (bs.take 4)))
    ((bs.drop 4).take (decBE (bs.take 4)) :: x.1, x.2)
  termination_by bs.length
  decreasing_by simp only [List.length_drop]; omega

/-- The frames of a connection's chunks. -/
def frames (chunks : List (List Byte)) : List (List Byte) := chunks.flatMap fun bs => (parse bs).1

/-- The incomplete frame at the end of the chunk (if there is one) is shorter than the cache. -/
def Fits (cap : Nat) (bs : List Byte) : Prop := ∀ r, (parse bs).2 = .left r → r.length < cap

/-- No frame of length zero (C24: the decoder panics). -/
def NoZero (bs : List Byte) : Prop := (parse bs).2 ≠ .zero

/-- What was handed up for connection `i`. -/
def S.got (s : S) (i : Nat) : List (List Byte) := (s.out.filter fun x => x.1 = i).map (·.2)

def Th.done (t : Th) : Prop := t.todo = [] ∧ t.pc = .idle

/-! ## `parse` is what the decoder of the stack model does with an empty cache -/

theorem parse_short {bs : List Byte} (h : bs.length < 4) : parse bs = ([], .left bs) := by
  rw [parse, if_pos h]

theorem parse_left {bs : List Byte} (h4 : ¬ bs.length < 4) (h : decBE (bs.take 4) > toU32 bs.length) : parse bs = ([], .left bs) := by
  rw [parse, if_neg h4, if_pos h]

theorem parse_exact {bs : List Byte} (h4 : ¬ bs.length < 4) (h : ¬ decBE (bs.take 4) > toU32 bs.length)
    (h1 : decBE (bs.take 4) = toU32 bs.length) : parse bs = ([bs.drop 4], .exact) := by
  rw [parse, if_neg h4, if_neg h, if_pos h1]

theorem parse_zero {bs : List Byte} (h4 : ¬ bs.length < 4) (h : ¬ decBE (bs.take 4) > toU32 bs.length)
    (h1 : ¬ decBE (bs.take 4) = toU32 bs.length) (h2 : decBE (bs.take 4) = 0) : parse bs = ([], .zero) := by
  rw [parse, if_neg h4, if_neg h, if_neg h1, if_pos h2]

theorem parse_cut {bs : List Byte} (h4 : ¬ bs.length < 4) (h : ¬ decBE (bs.take 4) > toU32 bs.length)
    (h1 : ¬ decBE (bs.take 4) = toU32 bs.length) (h2 : ¬ decBE (bs.take 4) = 0)
    (h3 : (bs.drop 4).length < decBE (bs.take 4)) : parse bs = ([], .short) := by
  rw [parse, if_neg h4, if_neg h, if_neg h1, if_neg h2, if_pos h3]

theorem parse_more {bs : List Byte} (h4 : ¬ bs.length < 4) (h : ¬ decBE (bs.take 4) > toU32 bs.length)
    (h1 : ¬ decBE (bs.take 4) = toU32 bs.length) (h2 : ¬ decBE (bs.take 4) = 0)
    (h3 : ¬ (bs.drop 4).length < decBE (bs.take 4)) :
    parse bs = ((bs.drop 4).take (decBE (bs.take 4)) :: (parse ((bs.drop 4).drop (decBE (bs.take 4)))).1,
      (parse ((bs.drop 4).drop (decBE (bs.take 4)))).2) := by
  rw [parse, if_neg h4, if_neg h, if_neg h1, if_neg h2, if_neg h3]

/-- The link with the sequential model (`frameLower_feeds` shows the handlers of the stack compute
`decodeCurrent`): same payloads, same panics. -/
theorem decodeCurrent_parse (fuel : Nat) (c src : UBuf.Deque) (hf : src.content.length < fuel) :
    (decodeCurrent fuel c src).out = (parse src.content).1 ∧
    ((decodeCurrent fuel c src).res = .panic ↔ (parse src.content).2 = .zero) := by
  induction fuel generalizing src with
  | zero => omega
  | succ n ih =>
    simp only [decodeCurrent]
    by_cases h4 : src.content.length < 4
    · rw [if_pos h4, parse_short h4]; simp
    rw [if_neg h4]
    by_cases h : decBE (src.content.take 4) > toU32 src.content.length
    · rw [if_pos h, parse_left h4 h]; simp
    rw [if_neg h]
    by_cases h1 : decBE (src.content.take 4) = toU32 src.content.length
    · rw [if_pos h1, parse_exact h4 h h1]; simp
    rw [if_neg h1]
    by_cases h2 : decBE (src.content.take 4) = 0
    · rw [if_pos h2, parse_zero h4 h h1 h2]; simp
    rw [if_neg h2]
    by_cases h3 : (src.content.drop 4).length < decBE (src.content.take 4)
    · rw [if_pos h3, parse_cut h4 h h1 h2 h3]; simp
    rw [if_neg h3, parse_more h4 h h1 h2 h3]
    have hc : ((src.pop 4).pop (decBE (src.content.take 4))).content = (src.content.drop 4).drop (decBE (src.content.take 4)) := rfl
    have hlen : ((src.pop 4).pop (decBE (src.content.take 4))).content.length < n := by
      rw [hc]; simp only [List.length_drop]; omega
    obtain ⟨a, b⟩ := ih _ hlen
    rw [hc] at a b
    exact ⟨by simp only; rw [a], b⟩

/-- What is left over is an end of the chunk. -/
theorem left_le : ∀ (n : Nat) (bs r : List Byte), bs.length ≤ n → (parse bs).2 = .left r → r.length ≤ bs.length := by
  intro n
  induction n with
  | zero =>
    intro bs r hb h
    rw [parse_short (by omega)] at h
    injection h with h; subst h; exact Nat.le_refl _
  | succ n ih =>
    intro bs r hb h
    by_cases h4 : bs.length < 4
    · rw [parse_short h4] at h; injection h with h; subst h; exact Nat.le_refl _
    by_cases h0 : decBE (bs.take 4) > toU32 bs.length
    · rw [parse_left h4 h0] at h; injection h with h; subst h; exact Nat.le_refl _
    by_cases h1 : decBE (bs.take 4) = toU32 bs.length
    · rw [parse_exact h4 h0 h1] at h; cases h
    by_cases h2 : decBE (bs.take 4) = 0
    · rw [parse_zero h4 h0 h1 h2] at h; cases h
    by_cases h3 : (bs.drop 4).length < decBE (bs.take 4)
    · rw [parse_cut h4 h0 h1 h2 h3] at h; cases h
    rw [parse_more h4 h0 h1 h2 h3] at h
    have hl : ((bs.drop 4).drop (decBE (bs.take 4))).length ≤ bs.length - 4 := by simp only [List.length_drop]; omega
    have := ih _ r (by omega) h
    omega

theorem fits_of_length {cap : Nat} {bs : List Byte} (h : bs.length < cap) : Fits cap bs := by
  intro r hr
  have := left_le _ bs r (Nat.le_refl _) hr
  omega

/-! ## The invariant while nothing is cached -/

/-- What the goroutine still has to hand up. -/
def pend : PC → List (List Byte)
  | .check bs => (parse bs).1
  | .loop bs => (parse bs).1
  | _ => []

def Calm (cap : Nat) : PC → Prop
  | .check bs => Fits cap bs
  | .loop bs => Fits cap bs
  | .put bs => bs.length < cap
  | .slice bs => bs.length < cap
  | .copy bs off => bs.length < cap ∧ off = 0
  | .load n => n = 0
  | .store x => x = 0
  | .peek _ => False
  | .hdr _ => False
  | .copyN _ => False
  | _ => True

/-- The bound on the steps left. -/
def pcCost : PC → Nat
  | .check bs => bs.length + 10
  | .loop bs => bs.length + 9
  | .put _ => 8
  | .slice _ => 7
  | .copy _ _ => 6
  | .load _ => 5
  | .store _ => 4
  | .cached => 3
  | .peek _ => 1
  | .reset1 a => if a then 5 else 2
  | .reset2 a => if a then 4 else 1
  | _ => 0

def cost (t : Th) : Nat := pcCost t.pc + (t.todo.map fun bs => bs.length + 11).sum

def zeroAhead (t : Th) : Prop :=
  (∃ bs ∈ t.todo, ¬ NoZero bs) ∨ (∃ bs, (t.pc = .check bs ∨ t.pc = .loop bs) ∧ ¬ NoZero bs)

theorem tstep_calm {cap : Nat} {m : Mem} {t : Th} (hl : m.bytes.length = cap) (hc : 0 < cap) (hr : m.r = 0) (hw : m.w = 0)
    (hpc : Calm cap t.pc) (htd : ∀ bs ∈ t.todo, Fits cap bs) :
    (tstep m t = none ∧ t.done) ∨ (tstep m t = some .panic ∧ zeroAhead t) ∨
    ∃ m' t' up, tstep m t = some (.ok m' t' up) ∧ m'.bytes.length = cap ∧ m'.r = 0 ∧ m'.w = 0 ∧ Calm cap t'.pc ∧
      (∀ bs ∈ t'.todo, Fits cap bs) ∧ (zeroAhead t' → zeroAhead t) ∧ cost t' < cost t ∧
      pend t.pc ++ frames t.todo = up.toList ++ (pend t'.pc ++ frames t'.todo) := by
  obtain ⟨todo, pc⟩ := t
  have hz : ∀ p, (∀ bs, p ≠ PC.check bs ∧ p ≠ PC.loop bs) → zeroAhead ⟨todo, p⟩ → zeroAhead ⟨todo, pc⟩ := by
    rintro p hp (h | ⟨bs, h, _⟩)
    · exact .inl h
    · exact absurd h (by simp [hp bs])
  cases pc with
  | idle =>
    cases todo with
    | nil => exact .inl ⟨rfl, rfl, rfl⟩
    | cons bs rest =>
      refine .inr (.inr ⟨_, _, _, rfl, hl, hr, hw, htd bs (by simp), fun x hx => htd x (by simp [hx]), ?_, ?_, ?_⟩)
      · rintro (⟨x, hx, h⟩ | ⟨x, h, hn⟩)
        · exact .inl ⟨x, by simp [hx], h⟩
        · rcases h with h | h <;> cases h
          exact .inl ⟨bs, by simp, hn⟩
      · simp only [cost, pcCost, List.map_cons, List.sum_cons]; omega
      · simp [pend, frames]
  | check bs =>
    refine .inr (.inr ⟨m, ⟨todo, .loop bs⟩, none, by simp [tstep, hr, hw], hl, hr, hw, hpc, htd, ?_, ?_, rfl⟩)
    · rintro (h | ⟨x, h, hn⟩)
      · exact .inl h
      · rcases h with h | h <;> cases h
        exact .inr ⟨bs, .inl rfl, hn⟩
    · simp only [cost, pcCost]; omega
  | loop bs =>
    simp only [tstep]
    by_cases h4 : bs.length < 4
    · rw [if_pos h4]
      refine .inr (.inr ⟨_, _, _, rfl, hl, hr, hw, ?_, htd, hz _ (by simp), ?_, ?_⟩)
      · exact hpc bs (by rw [parse_short h4])
      · simp only [cost, pcCost]; omega
      · simp [pend, parse_short h4]
    rw [if_neg h4]
    by_cases h : decBE (bs.take 4) > toU32 bs.length
    · rw [if_pos h]
      refine .inr (.inr ⟨_, _, _, rfl, hl, hr, hw, ?_, htd, hz _ (by simp), ?_, ?_⟩)
      · exact hpc bs (by rw [parse_left h4 h])
      · simp only [cost, pcCost]; omega
      · simp [pend, parse_left h4 h]
    rw [if_neg h]
    by_cases h1 : decBE (bs.take 4) = toU32 bs.length
    · rw [if_pos h1]
      refine .inr (.inr ⟨_, _, _, rfl, hl, hr, hw, trivial, htd, hz _ (by simp), ?_, ?_⟩)
      · simp only [cost, pcCost]; omega
      · simp [pend, parse_exact h4 h h1]
    rw [if_neg h1]
    by_cases h2 : decBE (bs.take 4) = 0
    · rw [if_pos h2]
      refine .inr (.inl ⟨rfl, .inr ⟨bs, .inr rfl, ?_⟩⟩)
      simp [NoZero, parse_zero h4 h h1 h2]
    rw [if_neg h2]
    by_cases h3 : (bs.drop 4).length < decBE (bs.take 4)
    · rw [if_pos h3]
      refine .inr (.inr ⟨_, _, _, rfl, hl, hr, hw, trivial, htd, hz _ (by simp), ?_, ?_⟩)
      · simp only [cost, pcCost, if_true]; omega
      · simp [pend, parse_cut h4 h h1 h2 h3]
    rw [if_neg h3]
    have hp := parse_more h4 h h1 h2 h3
    refine .inr (.inr ⟨_, _, _, rfl, hl, hr, hw, ?_, htd, ?_, ?_, ?_⟩)
    · intro r e
      exact hpc r (by rw [hp]; exact e)
    · rintro (h | ⟨x, h, hn⟩)
      · exact .inl h
      · rcases h with h | h <;> cases h
        refine .inr ⟨bs, .inr rfl, fun e => hn fun e' => e ?_⟩
        rw [hp]; exact e'
    · simp only [cost, pcCost, List.length_drop]; omega
    · simp only [pend]; rw [hp]; simp
  | put bs =>
    refine .inr (.inr ⟨m, ⟨todo, .slice bs⟩, none, ?_, hl, hr, hw, hpc, htd, hz _ (by simp), ?_, rfl⟩)
    · simp only [tstep]; rw [if_neg (by omega)]
    · simp only [cost, pcCost]; omega
  | slice bs =>
    refine .inr (.inr ⟨m, ⟨todo, .copy bs m.w⟩, none, ?_, hl, hr, hw, ⟨hpc, hw⟩, htd, hz _ (by simp), ?_, rfl⟩)
    · simp only [tstep]; rw [if_neg (by omega)]
    · simp only [cost, pcCost]; omega
  | copy bs off =>
    obtain ⟨hb, rfl⟩ := hpc
    by_cases h0 : bs = []
    · refine .inr (.inr ⟨m, ⟨todo, .load 0⟩, none, ?_, hl, hr, hw, rfl, htd, hz _ (by simp), ?_, rfl⟩)
      · simp only [tstep]; rw [if_pos h0]
      · simp only [cost, pcCost]; omega
    · refine .inr (.inr ⟨{ m with bytes := bs ++ m.bytes.drop bs.length }, ⟨todo, .cached⟩, none, ?_, ?_, hr, hw, trivial, htd,
        hz _ (by simp), ?_, rfl⟩)
      · simp only [tstep]
        rw [if_neg h0, hl, Nat.min_eq_left (by omega), if_pos (by omega)]
        simp
      · simp only [List.length_append, List.length_drop]; omega
      · simp only [cost, pcCost]; omega
  | load n =>
    obtain rfl : n = 0 := hpc
    refine .inr (.inr ⟨m, ⟨todo, .store m.w⟩, none, rfl, hl, hr, hw, hw, htd, hz _ (by simp), ?_, rfl⟩)
    simp only [cost, pcCost]; omega
  | store x =>
    obtain rfl : x = 0 := hpc
    refine .inr (.inr ⟨_, _, _, rfl, hl, hr, rfl, trivial, htd, hz _ (by simp), ?_, rfl⟩)
    simp only [cost, pcCost]; omega
  | cached =>
    refine .inr (.inr ⟨m, ⟨todo, .reset1 false⟩, none, ?_, hl, hr, hw, trivial, htd, hz _ (by simp), ?_, rfl⟩)
    · simp only [tstep]; rw [if_pos (by omega)]
    · simp [cost, pcCost]
  | peek n => exact hpc.elim
  | hdr l => exact hpc.elim
  | copyN l => exact hpc.elim
  | reset1 a =>
    refine .inr (.inr ⟨_, _, _, rfl, hl, rfl, hw, trivial, htd, hz _ (by simp), ?_, rfl⟩)
    cases a <;> simp [cost, pcCost]
  | reset2 a =>
    refine .inr (.inr ⟨_, _, _, rfl, hl, hr, rfl, ?_, htd, ?_, ?_, ?_⟩)
    · cases a <;> trivial
    · cases a <;> exact hz _ (by simp)
    · cases a <;> simp [cost, pcCost]
    · cases a <;> rfl

/-- The invariant. -/
structure Inv (cap : Nat) (conns : List (List (List Byte))) (s : S) : Prop where
  len : s.m.bytes.length = cap
  r0 : s.m.r = 0
  w0 : s.m.w = 0
  num : s.ths.length = conns.length
  calm : ∀ (i : Nat) (t : Th), s.ths[i]? = some t → Calm cap t.pc ∧ ∀ bs ∈ t.todo, Fits cap bs
  ledger : ∀ (i : Nat) (t : Th) (c : List (List Byte)), s.ths[i]? = some t → conns[i]? = some c → frames c = s.got i ++ (pend t.pc ++ frames t.todo)
  zero : ∀ (i : Nat) (t : Th) (c : List (List Byte)), s.ths[i]? = some t → conns[i]? = some c → zeroAhead t → ∃ bs ∈ c, ¬ NoZero bs
  crash : s.crashed = true → ∃ c ∈ conns, ∃ bs ∈ c, ¬ NoZero bs

theorem got_snoc (o : List (Nat × List Byte)) (i j : Nat) (up : Option (List Byte)) (m ths c) :
    S.got ⟨m, ths, o ++ (up.toList.map fun p => (i, p)), c⟩ j =
      ((o.filter fun x => x.1 = j).map (·.2)) ++ (if i = j then up.toList else []) := by
  simp only [S.got, List.filter_append, List.map_append]
  congr 1
  cases up with
  | none => simp
  | some p =>
    by_cases h : i = j
    · simp [h]
    · simp [h]

theorem inv_init {cap : Nat} {conns : List (List (List Byte))} (hf : ∀ c ∈ conns, ∀ bs ∈ c, Fits cap bs) :
    Inv cap conns (init cap conns) := by
  refine ⟨by simp [init], rfl, rfl, by simp [init], ?_, ?_, ?_, by simp [init]⟩
  · intro i t h
    simp only [init, List.getElem?_map, Option.map_eq_some_iff] at h
    obtain ⟨c, hc, rfl⟩ := h
    exact ⟨trivial, hf c (List.mem_of_getElem? hc)⟩
  · intro i t c h hc
    simp only [init, List.getElem?_map, hc, Option.map_some, Option.some.injEq] at h
    subst h
    simp [init, S.got, pend]
  · intro i t c h hc
    simp only [init, List.getElem?_map, hc, Option.map_some, Option.some.injEq] at h
    subst h
    rintro (h | ⟨bs, h, _⟩)
    · exact h
    · simp at h

theorem inv_step {cap : Nat} {conns : List (List (List Byte))} (hcap : 0 < cap) {s s' : S} {i : Nat} (h : Inv cap conns s)
    (hs : step s i = some s') : Inv cap conns s' := by
  simp only [step] at hs
  split at hs
  · cases hs
  rename_i hcr
  split at hs
  · cases hs
  rename_i t ht
  have hi : i < s.ths.length := by
    rw [List.getElem?_eq_some_iff] at ht; exact ht.1
  obtain ⟨c, hc⟩ : ∃ c, conns[i]? = some c := ⟨conns[i]'(by rw [← h.num]; exact hi), by simp⟩
  obtain ⟨ha, hb⟩ := h.calm i t ht
  rcases tstep_calm h.len hcap h.r0 h.w0 ha hb with ⟨e, _⟩ | ⟨e, hz⟩ | ⟨m', t', up, e, e1, e2, e3, e4, e5, e6, e7, e8⟩
  · rw [e] at hs; cases hs
  · rw [e] at hs
    injection hs with hs; subst hs
    exact ⟨h.len, h.r0, h.w0, h.num, h.calm, h.ledger, h.zero,
      fun _ => ⟨c, List.mem_of_getElem? hc, h.zero i t c ht hc hz⟩⟩
  · rw [e] at hs
    injection hs with hs; subst hs
    refine ⟨e1, e2, e3, by simp [h.num], ?_, ?_, ?_, h.crash⟩
    · intro j u hj
      simp only [List.getElem?_set] at hj
      split at hj
      · simp only [hi, if_true, Option.some.injEq] at hj
        subst hj; exact ⟨e4, e5⟩
      · exact h.calm j u hj
    · intro j u d hj hd
      simp only [got_snoc]
      simp only [List.getElem?_set] at hj
      split at hj
      · rename_i hij
        subst hij
        simp only [hi, if_true, Option.some.injEq] at hj
        subst hj
        have := h.ledger i t d ht hd
        rw [this, e8, if_pos rfl]
        simp [S.got]
      · rename_i hij
        rw [if_neg hij]
        have := h.ledger j u d hj hd
        rw [this]
        simp [S.got]
    · intro j u d hj hd
      simp only [List.getElem?_set] at hj
      split at hj
      · rename_i hij
        subst hij
        simp only [hi, if_true, Option.some.injEq] at hj
        subst hj
        exact fun hz => h.zero i t d ht hd (e6 hz)
      · exact h.zero j u d hj hd

theorem inv_exec {cap : Nat} {conns : List (List (List Byte))} (hcap : 0 < cap) (hf : ∀ c ∈ conns, ∀ bs ∈ c, Fits cap bs)
    {ls : List Nat} {s : S} (he : exec (init cap conns) ls = some s) : Inv cap conns s :=
  Trace.invariant (step := step) (P := Inv cap conns) (Q := fun _ => True)
    (fun _ _ _ h _ hs => inv_step hcap h hs) ls _ _ (inv_init hf) (by simp) he

/-! ## C85 -/

/-- C85 (partial: the incomplete frames left at the end of a chunk are shorter than the cache).  However the
receive goroutines interleave: what is handed up for a connection is a beginning of that connection's own
frames, in order; nothing is ever cached; and nothing crashes unless some connection receives a frame of
length 0. -/
theorem c85_isolated_partial {cap : Nat} {conns : List (List (List Byte))} (hcap : 0 < cap)
    (hf : ∀ c ∈ conns, ∀ bs ∈ c, Fits cap bs) {ls : List Nat} {s : S} (he : exec (init cap conns) ls = some s) :
    (∀ i c, conns[i]? = some c → s.got i <+: frames c) ∧ s.m.r = s.m.w ∧
    (s.crashed = true → ∃ c ∈ conns, ∃ bs ∈ c, ¬ NoZero bs) := by
  have h := inv_exec hcap hf he
  refine ⟨?_, by rw [h.r0, h.w0], h.crash⟩
  intro i c hc
  have hi : i < s.ths.length := by
    rw [h.num]; rw [List.getElem?_eq_some_iff] at hc; exact hc.1
  exact ⟨_, (h.ledger i s.ths[i] c (by simp) hc).symm⟩

/-- C85 (partial, same hypothesis): and when the goroutine of a connection is through with its chunks, exactly
its own frames have been handed up for it. -/
theorem c85_complete_partial {cap : Nat} {conns : List (List (List Byte))} (hcap : 0 < cap)
    (hf : ∀ c ∈ conns, ∀ bs ∈ c, Fits cap bs) {ls : List Nat} {s : S} (he : exec (init cap conns) ls = some s)
    {i : Nat} {c : List (List Byte)} {t : Th} (hc : conns[i]? = some c) (ht : s.ths[i]? = some t) (hd : t.done) :
    s.got i = frames c := by
  have h := inv_exec hcap hf he
  rw [h.ledger i t c ht hc, hd.1, hd.2]
  simp [pend, frames]

theorem sum_set_lt {l : List Th} {i : Nat} {t t' : Th} (h : l[i]? = some t) (hlt : cost t' < cost t) :
    ((l.set i t').map cost).sum < (l.map cost).sum := by
  induction l generalizing i with
  | nil => simp at h
  | cons x l ih =>
    cases i with
    | zero =>
      simp only [List.getElem?_cons_zero, Option.some.injEq] at h
      subst h
      simp only [List.set_cons_zero, List.map_cons, List.sum_cons]; omega
    | succ i =>
      simp only [List.getElem?_cons_succ] at h
      have := ih h
      simp only [List.set_cons_succ, List.map_cons, List.sum_cons]; omega

def total (s : S) : Nat := (s.ths.map cost).sum + (if s.crashed then 0 else 1)

theorem total_step {cap : Nat} {conns : List (List (List Byte))} (hcap : 0 < cap) {s s' : S} {i : Nat} (h : Inv cap conns s)
    (hs : step s i = some s') : total s' < total s := by
  simp only [step] at hs
  split at hs
  · cases hs
  rename_i hcr
  split at hs
  · cases hs
  rename_i t ht
  obtain ⟨ha, hb⟩ := h.calm i t ht
  rcases tstep_calm h.len hcap h.r0 h.w0 ha hb with ⟨e, _⟩ | ⟨e, hz⟩ | ⟨m', t', up, e, e1, e2, e3, e4, e5, e6, e7, e8⟩
  · rw [e] at hs; cases hs
  · rw [e] at hs
    injection hs with hs; subst hs
    simp [total, hcr]
  · rw [e] at hs
    injection hs with hs; subst hs
    have := sum_set_lt ht e7
    simp only [total]
    omega

/-- C85 (partial, same hypothesis): every execution is bounded by the bytes received, and as long as nothing
crashed a goroutine that is not through with its chunks can go on, whatever the others did: none of them
blocks or starves another. -/
theorem c85_finishes_partial {cap : Nat} {conns : List (List (List Byte))} (hcap : 0 < cap)
    (hf : ∀ c ∈ conns, ∀ bs ∈ c, Fits cap bs) {ls : List Nat} {s : S} (he : exec (init cap conns) ls = some s) :
    ls.length ≤ (conns.map fun c => (c.map fun bs => bs.length + 11).sum).sum + 1 ∧
    (s.crashed = false → ∀ i t, s.ths[i]? = some t → t.done ∨ ∃ s', step s i = some s') := by
  constructor
  · have key : ∀ (ls : List Nat) (a b : S), Inv cap conns a → exec a ls = some b → ls.length + total b ≤ total a := by
      intro ls
      induction ls with
      | nil => intro a b _ h; injection h with h; subst h; simp
      | cons l ls ih =>
        intro a b ha h
        obtain ⟨x, hx, h⟩ := exec_cons h
        have h1 := total_step hcap ha hx
        have h2 := ih x b (inv_step hcap ha hx) h
        simp only [List.length_cons]; omega
    have := key ls _ _ (inv_init hf) he
    have h2 : total (init cap conns) = (conns.map fun c => (c.map fun bs => bs.length + 11).sum).sum + 1 := by
      simp only [total, init, List.map_map]
      congr 1
      congr 1
      apply List.map_congr_left
      intro c _
      simp [cost, pcCost]
    omega
  · intro hcr i t ht
    have h := inv_exec hcap hf he
    obtain ⟨ha, hb⟩ := h.calm i t ht
    rcases tstep_calm h.len hcap h.r0 h.w0 ha hb with ⟨e, hd⟩ | ⟨e, hz⟩ | ⟨m', t', up, e, _⟩
    · exact .inl hd
    · exact .inr ⟨_, by simp only [step, hcr, Bool.false_eq_true, if_false, ht, e]; rfl⟩
    · exact .inr ⟨_, by simp only [step, hcr, Bool.false_eq_true, if_false, ht, e]; rfl⟩

/-- With the default capacity (twice the MTU, proc_frame_decoder.go:193-205) and reads of at most the MTU
(proc_lowerdeck.go:73-75) the hypothesis always holds. -/
theorem c85_default {mtu : Nat} {bs : List Byte} (hm : 0 < mtu) (h : bs.length ≤ mtu) : Fits (2 * mtu) bs :=
  fits_of_length (by omega)

/-! ## Running one goroutine by itself -/

/-- A goroutine runs alone, handing up `ups`. -/
inductive TRun : Mem → Th → Mem → Th → List (List Byte) → Prop
  | refl (m t) : TRun m t m t []
  | step {m t m1 t1 up m2 t2 ups} : tstep m t = some (.ok m1 t1 up) → TRun m1 t1 m2 t2 ups → TRun m t m2 t2 (up.toList ++ ups)

theorem TRun.trans {m t m1 t1 u m2 t2 v} (h : TRun m t m1 t1 u) (h2 : TRun m1 t1 m2 t2 v) : TRun m t m2 t2 (u ++ v) := by
  induction h with
  | refl => exact h2
  | step e _ ih => rw [List.append_assoc]; exact .step e (ih h2)

theorem TRun.one {m t m1 t1 up} (h : tstep m t = some (.ok m1 t1 up)) : TRun m t m1 t1 up.toList := by
  have := TRun.step h (.refl _ _)
  simpa using this

/-- … is an execution. -/
theorem TRun.exec {m t m' t' ups} (h : TRun m t m' t' ups) (s : S) (i : Nat) (hm : s.m = m) (ht : s.ths[i]? = some t)
    (hc : s.crashed = false) :
    ∃ ls, exec s ls = some { s with m := m', ths := s.ths.set i t', out := s.out ++ ups.map fun p => (i, p) } := by
  induction h generalizing s with
  | refl m t =>
    refine ⟨[], ?_⟩
    have : s.ths.set i t = s.ths := by
      obtain ⟨hi, rfl⟩ := List.getElem?_eq_some_iff.mp ht
      simp
    rw [this, ← hm]
    simp [FrameRace.exec, Trace.exec]
  | @step m t m1 t1 up m2 t2 ups e _ ih =>
    have hi := (List.getElem?_eq_some_iff.mp ht).1
    obtain ⟨ls, hls⟩ := ih { s with m := m1, ths := s.ths.set i t1, out := s.out ++ (up.toList.map fun p => (i, p)) } rfl
      (by simp [hi]) hc
    refine ⟨i :: ls, ?_⟩
    have hstep : FrameRace.step s i =
        some { s with m := m1, ths := s.ths.set i t1, out := s.out ++ (up.toList.map fun p => (i, p)) } := by
      simp only [FrameRace.step, hc, Bool.false_eq_true, if_false, ht, hm, e]
    show (FrameRace.step s i).bind _ = _
    rw [hstep]
    show FrameRace.exec _ ls = _
    rw [hls]
    simp

/-- Chunks that come later make no difference. -/
theorem tstep_later {m : Mem} {t t' : Th} {m' : Mem} {up : Option (List Byte)} (x : List (List Byte))
    (h : tstep m t = some (.ok m' t' up)) : tstep m ⟨t.todo ++ x, t.pc⟩ = some (.ok m' ⟨t'.todo ++ x, t'.pc⟩ up) := by
  obtain ⟨todo, pc⟩ := t
  cases pc with
  | idle =>
    cases todo with
    | nil => cases h
    | cons bs rest =>
      simp only [tstep, Option.some.injEq, Out.ok.injEq] at h
      obtain ⟨rfl, rfl, rfl⟩ := h
      rfl
  | _ =>
    simp only [tstep] at h ⊢
    repeat' split at h
    all_goals (simp only [Option.some.injEq, Out.ok.injEq, reduceCtorEq] at h)
    all_goals (obtain ⟨rfl, rfl, rfl⟩ := h)
    all_goals first | rfl | (simp only [*, if_true, if_false]; done) | simp_all

/-- While nothing is cached, a goroutine works off chunks that fit. -/
theorem run_fits {cap : Nat} (hcap : 0 < cap) (x : List (List Byte)) : ∀ (n : Nat) (m : Mem) (t : Th), cost t ≤ n →
    m.bytes.length = cap → m.r = 0 → m.w = 0 → Calm cap t.pc → (∀ bs ∈ t.todo, Fits cap bs) → ¬ zeroAhead t →
    ∃ m' ups, TRun m ⟨t.todo ++ x, t.pc⟩ m' ⟨x, .idle⟩ ups ∧ m'.bytes.length = cap ∧ m'.r = 0 ∧ m'.w = 0 := by
  intro n
  induction n with
  | zero =>
    intro m t hn h1 h2 h3 h4 h5 h6
    rcases tstep_calm h1 hcap h2 h3 h4 h5 with ⟨_, hd⟩ | ⟨_, hz⟩ | ⟨m', t', up, _, _, _, _, _, _, _, e7, _⟩
    · rw [hd.1, hd.2]; exact ⟨m, [], .refl _ _, h1, h2, h3⟩
    · exact absurd hz h6
    · omega
  | succ n ih =>
    intro m t hn h1 h2 h3 h4 h5 h6
    rcases tstep_calm h1 hcap h2 h3 h4 h5 with ⟨_, hd⟩ | ⟨_, hz⟩ | ⟨m', t', up, e, e1, e2, e3, e4, e5, e6, e7, _⟩
    · rw [hd.1, hd.2]; exact ⟨m, [], .refl _ _, h1, h2, h3⟩
    · exact absurd hz h6
    · obtain ⟨m2, ups, hr, k⟩ := ih m' t' (by omega) e1 e2 e3 e4 e5 (fun hz => h6 (e6 hz))
      exact ⟨m2, _, .step (tstep_later x e) hr, k⟩

/-! ## A full cache -/

/-- The cache is full and holds the beginning of a frame that does not fit. -/
structure Full (m : Mem) : Prop where
  pos : 0 < m.bytes.length
  r : m.r = 0
  w : m.w = m.bytes.length
  big : 4 ≤ m.bytes.length → m.bytes.length < decBE (m.bytes.take 4)

def Waits (m : Mem) : PC → Prop
  | .idle => True
  | .check _ => True
  | .put _ => True
  | .cached => True
  | .peek n => n = m.bytes.length ∧ 4 ≤ m.bytes.length
  | _ => False

theorem tstep_full {m : Mem} {t : Th} (h : Full m) (hp : Waits m t.pc) :
    (tstep m t = none ∧ t.done) ∨ ∃ t', tstep m t = some (.ok m t' none) ∧ Waits m t'.pc ∧ cost t' < cost t := by
  obtain ⟨h0, hr, hw, hb⟩ := h
  obtain ⟨todo, pc⟩ := t
  cases pc with
  | idle =>
    cases todo with
    | nil => exact .inl ⟨rfl, rfl, rfl⟩
    | cons bs rest =>
      refine .inr ⟨_, rfl, trivial, ?_⟩
      simp only [cost, pcCost, List.map_cons, List.sum_cons]; omega
  | check bs =>
    refine .inr ⟨⟨todo, .put bs⟩, ?_, trivial, ?_⟩
    · simp only [tstep]; rw [if_pos (by omega)]
    · simp only [cost, pcCost]; omega
  | put bs =>
    refine .inr ⟨⟨todo, .cached⟩, ?_, trivial, ?_⟩
    · simp only [tstep]; rw [if_pos (by omega)]
    · simp only [cost, pcCost]; omega
  | cached =>
    by_cases h4 : m.bytes.length < 4
    · refine .inr ⟨⟨todo, .idle⟩, ?_, trivial, ?_⟩
      · simp only [tstep]; rw [if_neg (by omega), if_pos (by omega)]
      · simp only [cost, pcCost]; omega
    · refine .inr ⟨⟨todo, .peek (m.w - m.r)⟩, ?_, ?_, ?_⟩
      · simp only [tstep]; rw [if_neg (by omega), if_neg (by omega)]
      · exact ⟨by omega, by omega⟩
      · simp only [cost, pcCost]; omega
  | peek n =>
    obtain ⟨rfl, h4⟩ := hp
    refine .inr ⟨⟨todo, .idle⟩, ?_, trivial, ?_⟩
    · simp only [tstep]
      rw [if_neg (by omega), if_neg (by omega), hr, List.drop_zero, if_pos (hb h4)]
    · simp only [cost, pcCost]; omega
  | _ => exact hp.elim

theorem run_full {m : Mem} (h : Full m) : ∀ (n : Nat) (t : Th), cost t ≤ n → Waits m t.pc → TRun m t m ⟨[], .idle⟩ [] := by
  intro n
  induction n with
  | zero =>
    intro t hn hp
    rcases tstep_full h hp with ⟨_, hd⟩ | ⟨t', _, _, hlt⟩
    · obtain ⟨_, _⟩ := t; obtain ⟨rfl, rfl⟩ := hd; exact .refl _ _
    · omega
  | succ n ih =>
    intro t hn hp
    rcases tstep_full h hp with ⟨_, hd⟩ | ⟨t', e, hp', hlt⟩
    · obtain ⟨_, _⟩ := t; obtain ⟨rfl, rfl⟩ := hd; exact .refl _ _
    · exact .step e (ih t' (by omega) hp')

structure Jam (s : S) : Prop where
  full : Full s.m
  waits : ∀ (i : Nat) (t : Th), s.ths[i]? = some t → Waits s.m t.pc
  up : s.crashed = false

/-- Once the cache is full of the beginning of a frame too large for it and the goroutines are between two
chunks, nothing is ever handed up again, for any connection, in any interleaving. -/
theorem c85_jammed {s : S} (h : Jam s) {ls : List Nat} {s' : S} (he : exec s ls = some s') :
    s'.out = s.out ∧ s'.m = s.m ∧ s'.crashed = false := by
  have key : Jam s' ∧ s'.out = s.out ∧ s'.m = s.m := by
    refine Trace.invariant (step := step) (P := fun x => Jam x ∧ x.out = s.out ∧ x.m = s.m) (Q := fun _ => True) ?_ ls _ _
      ⟨h, rfl, rfl⟩ (by simp) he
    rintro a i b ⟨ha, ho, hm⟩ _ hs
    simp only [step, ha.up, Bool.false_eq_true, if_false] at hs
    split at hs
    · cases hs
    rename_i t ht
    have hi := (List.getElem?_eq_some_iff.mp ht).1
    rcases tstep_full ha.full (ha.waits i t ht) with ⟨e, _⟩ | ⟨t', e, hp, _⟩
    · rw [e] at hs; cases hs
    · rw [e] at hs
      injection hs with hs; subst hs
      refine ⟨⟨ha.full, ?_, rfl⟩, by simpa using ho, hm⟩
      intro j u hj
      simp only [List.getElem?_set] at hj
      split at hj
      · simp only [hi, if_true, Option.some.injEq] at hj
        subst hj; exact hp
      · exact ha.waits j u hj
  exact ⟨key.2.1, key.2.2, key.1.up⟩

/-- A chunk that leaves an incomplete frame as long as the cache, or longer, fills it. -/
theorem run_left {cap : Nat} (hcap : 0 < cap) (rest : List (List Byte)) (r : List Byte) (hr : cap ≤ r.length) :
    ∀ (n : Nat) (bs : List Byte) (m : Mem), bs.length ≤ n → bs.length < 2 ^ 32 → m.bytes.length = cap → m.r = 0 → m.w = 0 →
    (parse bs).2 = .left r →
    ∃ m', TRun m ⟨rest, .loop bs⟩ m' ⟨rest, .idle⟩ (parse bs).1 ∧ Full m' := by
  have fin : ∀ (m : Mem), m.bytes.length = cap → m.r = 0 → m.w = 0 → (4 ≤ r.length → r.length < decBE (r.take 4)) →
      ∃ m', TRun m ⟨rest, .put r⟩ m' ⟨rest, .idle⟩ [] ∧ Full m' := by
    intro m h1 h2 h3 hbig
    have hne : r ≠ [] := by rintro rfl; simp at hr; omega
    have hfull : Full ⟨r.take cap, 0, cap⟩ := by
      have hl : (r.take cap).length = cap := by rw [List.length_take]; omega
      refine ⟨by rw [hl]; exact hcap, rfl, hl.symm, fun h4 => ?_⟩
      rw [hl] at h4 ⊢
      rw [List.take_take, Nat.min_eq_left h4]
      have := hbig (by omega)
      omega
    refine ⟨⟨r.take cap, 0, cap⟩, ?_, hfull⟩
    have s1 : tstep m ⟨rest, .put r⟩ = some (.ok m ⟨rest, .slice r⟩ none) := by
      simp only [tstep]; rw [if_neg (by omega)]
    have s2 : tstep m ⟨rest, .slice r⟩ = some (.ok m ⟨rest, .copy r 0⟩ none) := by
      simp only [tstep]; rw [if_neg (by omega), h3]
    have s3 : tstep m ⟨rest, .copy r 0⟩ = some (.ok ⟨r.take cap, 0, 0⟩ ⟨rest, .load cap⟩ none) := by
      simp only [tstep]
      rw [if_neg hne, h1, Nat.sub_zero, Nat.min_eq_right hr, if_neg (Nat.lt_irrefl _), h2, h3]
      simp [h1]
    have s4 : tstep ⟨r.take cap, 0, 0⟩ ⟨rest, .load cap⟩ = some (.ok ⟨r.take cap, 0, 0⟩ ⟨rest, .store cap⟩ none) := by
      simp [tstep]
    have s5 : tstep ⟨r.take cap, 0, 0⟩ ⟨rest, .store cap⟩ = some (.ok ⟨r.take cap, 0, cap⟩ ⟨rest, .cached⟩ none) := rfl
    have e1 : TRun ⟨r.take cap, 0, cap⟩ ⟨rest, .cached⟩ ⟨r.take cap, 0, cap⟩ ⟨rest, .idle⟩ [] := by
      have hl : (r.take cap).length = cap := by rw [List.length_take]; omega
      by_cases h4 : cap < 4
      · exact .one (up := none) (by simp only [tstep]; rw [if_neg (by omega), if_pos (by omega)])
      · refine .step (up := none) (m1 := ⟨r.take cap, 0, cap⟩) (t1 := ⟨rest, .peek cap⟩) ?_ (.one (up := none) ?_)
        · simp only [tstep]; rw [if_neg (by omega), if_neg (by omega)]; rfl
        · simp only [tstep]
          have := hfull.big (by simp only [hl]; omega)
          simp only [hl] at this
          rw [if_neg (by omega), if_neg (by omega), List.drop_zero, if_pos this]
    exact .step s1 (.step s2 (.step s3 (.step s4 (.step s5 e1))))
  intro n
  induction n with
  | zero =>
    intro bs m hn _ h1 h2 h3 hp
    rw [parse_short (by omega)] at hp
    injection hp with hp; subst hp; omega
  | succ n ih =>
    intro bs m hn h32 h1 h2 h3 hp
    have hu : toU32 bs.length = bs.length := toU32_of_nat _ h32
    by_cases h4 : bs.length < 4
    · rw [parse_short h4] at hp ⊢
      injection hp with hp; subst hp
      obtain ⟨m', hr, hf⟩ := fin m h1 h2 h3 (by omega)
      exact ⟨m', .step (up := none) (by simp only [tstep]; rw [if_pos h4]) hr, hf⟩
    by_cases h0 : decBE (bs.take 4) > toU32 bs.length
    · rw [parse_left h4 h0] at hp ⊢
      injection hp with hp; subst hp
      obtain ⟨m', hr, hf⟩ := fin m h1 h2 h3 (by omega)
      exact ⟨m', .step (up := none) (by simp only [tstep]; rw [if_neg h4, if_pos h0]) hr, hf⟩
    by_cases e1 : decBE (bs.take 4) = toU32 bs.length
    · rw [parse_exact h4 h0 e1] at hp; cases hp
    by_cases e2 : decBE (bs.take 4) = 0
    · rw [parse_zero h4 h0 e1 e2] at hp; cases hp
    by_cases e3 : (bs.drop 4).length < decBE (bs.take 4)
    · rw [parse_cut h4 h0 e1 e2 e3] at hp; cases hp
    rw [parse_more h4 h0 e1 e2 e3] at hp ⊢
    have hl : ((bs.drop 4).drop (decBE (bs.take 4))).length ≤ bs.length - 4 := by simp only [List.length_drop]; omega
    obtain ⟨m', hr, hf⟩ := ih _ m (by omega) (by omega) h1 h2 h3 hp
    refine ⟨m', .step (up := some ((bs.drop 4).take (decBE (bs.take 4)))) ?_ hr, hf⟩
    simp only [tstep]; rw [if_neg h4, if_neg h0, if_neg e1, if_neg e2, if_neg e3]

/-- One connection whose chunk leaves an incomplete frame at least as long as the cache silences every other:
there is an interleaving in which another connection, whatever it received, got nothing handed up, and from
where on nothing is handed up for anybody. -/
theorem c85_silenced {cap : Nat} {conns : List (List (List Byte))} (hcap : 0 < cap) {i j : Nat} (hij : i ≠ j)
    {pre post cj : List (List Byte)} {bad r : List Byte} (hi : conns[i]? = some (pre ++ bad :: post)) (hj : conns[j]? = some cj)
    (hpre : ∀ bs ∈ pre, Fits cap bs ∧ NoZero bs) (h32 : bad.length < 2 ^ 32) (hbad : (parse bad).2 = .left r)
    (hr : cap ≤ r.length) :
    ∃ ls s, exec (init cap conns) ls = some s ∧ s.got j = [] ∧ (∃ t, s.ths[j]? = some t ∧ t.done) ∧ s.crashed = false ∧
      ∀ ls' s', exec s ls' = some s' → s'.out = s.out ∧ s'.crashed = false := by
  obtain ⟨m1, u1, r1, a1, a2, a3⟩ := run_fits hcap (bad :: post) _ ⟨List.replicate cap 0, 0, 0⟩ ⟨pre, .idle⟩ (Nat.le_refl _)
    (by simp) rfl rfl trivial (fun bs hb => (hpre bs hb).1) (by
      rintro (⟨bs, hb, hn⟩ | ⟨bs, h, _⟩)
      · exact hn (hpre bs hb).2
      · simp at h)
  obtain ⟨m2, r2, hf⟩ := run_left hcap post r hr _ bad m1 (Nat.le_refl _) h32 a1 a2 a3 hbad
  have r3 : TRun m1 ⟨bad :: post, .idle⟩ m2 ⟨post, .idle⟩ (parse bad).1 :=
    .step (up := none) (m1 := m1) (t1 := ⟨post, .check bad⟩) rfl
      (.step (up := none) (m1 := m1) (t1 := ⟨post, .loop bad⟩) (by simp [tstep, a2, a3]) r2)
  have hi' := (List.getElem?_eq_some_iff.mp hi).1
  have hj' := (List.getElem?_eq_some_iff.mp hj).1
  obtain ⟨l1, e1⟩ := (r1.trans r3).exec (init cap conns) i rfl (by simp [init, hi]) rfl
  let s1 : S := ⟨m2, (init cap conns).ths.set i ⟨post, .idle⟩, [] ++ (u1 ++ (parse bad).1).map fun p => (i, p), false⟩
  let s2 : S := ⟨m2, s1.ths.set j ⟨[], .idle⟩, s1.out ++ ([] : List (List Byte)).map fun p => (j, p), false⟩
  obtain ⟨l2, e2⟩ := (run_full hf _ ⟨cj, .idle⟩ (Nat.le_refl _) trivial).exec s1 j rfl (by simp [s1, init, hij, hj]) rfl
  have he : exec (init cap conns) (l1 ++ l2) = some s2 := by
    show Trace.exec step _ _ = _
    rw [exec_append]
    show (FrameRace.exec (init cap conns) l1).bind _ = _
    rw [e1]
    exact e2
  have hjam : Jam s2 := by
    refine ⟨hf, ?_, rfl⟩
    intro k t hk
    have : t.pc = .idle := by
      simp only [s2, s1, init, List.getElem?_set, List.length_set, List.length_map, List.getElem?_map] at hk
      split at hk
      · injection hk with hk; subst hk; rfl
      · split at hk
        · injection hk with hk; subst hk; rfl
        · simp only [Option.map_eq_some_iff] at hk
          obtain ⟨c, _, rfl⟩ := hk; rfl
    rw [this]; trivial
  refine ⟨l1 ++ l2, s2, he, ?_, ⟨⟨[], .idle⟩, by simp [s2, s1, init, hj'], rfl, rfl⟩, rfl, fun l s' h => ?_⟩
  · simp only [S.got, s2, s1, List.map_nil, List.append_nil, List.nil_append, List.map_eq_nil_iff, List.filter_eq_nil_iff]
    intro x hx
    simp only [List.mem_map] at hx
    obtain ⟨p, _, rfl⟩ := hx
    simp [hij]
  · have := c85_jammed hjam h
    exact ⟨this.1, this.2.2⟩

theorem first_bad {cap : Nat} {c : List (List Byte)} (h : ∃ bs ∈ c, ¬ Fits cap bs) :
    ∃ pre bad post, c = pre ++ bad :: post ∧ (∀ bs ∈ pre, Fits cap bs) ∧ ¬ Fits cap bad := by
  induction c with
  | nil => simp at h
  | cons x c ih =>
    by_cases hx : Fits cap x
    · obtain ⟨bs, hb, hn⟩ := h
      rcases List.mem_cons.mp hb with rfl | hb
      · exact absurd hx hn
      · obtain ⟨pre, bad, post, rfl, h1, h2⟩ := ih ⟨bs, hb, hn⟩
        exact ⟨x :: pre, bad, post, rfl, by simpa using ⟨hx, h1⟩, h2⟩
    · exact ⟨[], x, c, rfl, by simp, hx⟩

/-- C85, exactly: for two or more connections that all send at least one whole frame and none of length 0,
every connection gets its own frames in every interleaving if and only if every incomplete frame at the end of
a chunk is shorter than the cache. -/
theorem c85_iff {cap : Nat} {conns : List (List (List Byte))} (hcap : 0 < cap) (h2 : 2 ≤ conns.length)
    (hz : ∀ c ∈ conns, ∀ bs ∈ c, NoZero bs ∧ bs.length < 2 ^ 32) (hne : ∀ c ∈ conns, frames c ≠ []) :
    (∀ ls s, exec (init cap conns) ls = some s → ∀ (i : Nat) c (t : Th), conns[i]? = some c → s.ths[i]? = some t → t.done →
      s.got i = frames c) ↔ ∀ c ∈ conns, ∀ bs ∈ c, Fits cap bs := by
  constructor
  · intro h
    refine Classical.byContradiction fun hn => ?_
    simp only [Classical.not_forall] at hn
    obtain ⟨c, hc, bs, hb, hn⟩ := hn
    obtain ⟨pre, bad, post, rfl, hpre, hbad⟩ := first_bad ⟨bs, hb, hn⟩
    obtain ⟨i, hi⟩ := List.mem_iff_getElem?.mp hc
    simp only [Fits, Classical.not_forall, Nat.not_lt] at hbad
    obtain ⟨r, hr, hle⟩ := hbad
    obtain ⟨j, hj, hij⟩ : ∃ j, j < conns.length ∧ i ≠ j := by
      by_cases h0 : i = 0
      · exact ⟨1, by omega, by omega⟩
      · exact ⟨0, by omega, h0⟩
    obtain ⟨ls, s, he, hg, ⟨t, ht, hd⟩, _⟩ := c85_silenced hcap hij hi (cj := conns[j]) (by simp)
      (fun b hb' => ⟨hpre b hb', (hz _ hc b (by simp [hb'])).1⟩) (hz _ hc bad (by simp)).2 hr hle
    have := h ls s he j conns[j] t (by simp) ht hd
    rw [hg] at this
    exact hne _ (List.getElem_mem hj) this.symm
  · intro hf ls s he i c t hc ht hd
    exact c85_complete_partial hcap hf he hc ht hd

/-! ## Violations that need two goroutines at the same time -/

/-- Two connections, a cache of 12 bytes; each sends the first 12 bytes of a frame of 20. -/
def mixConns : List (List (List Byte)) :=
  [[[0, 0, 0, 20, 0, 0, 0, 1, 65, 65, 65, 65]], [[0, 0, 0, 20, 66, 66, 66, 66, 66, 66, 66, 66]]]

/-- Both find the cache empty, copy to its beginning and add their length: it holds 12 bytes and says 24. -/
def mixTrace : List Nat :=
  List.replicate 5 0 ++ List.replicate 5 1 ++ [1, 0] ++ [0, 0] ++ [1, 1] ++
  [0, 0, 0] ++   -- goroutine 0: 24 bytes, a frame of 20, drops the header …
  [1, 1, 1, 1]   -- goroutine 1: reads the payload of connection 0 as a frame of its own

/-- C85 fails, by a data race: bytes that only connection 0 sent are handed up as a message of connection 1
(with one goroutine at a time this is impossible: `c73_own_bytes`). -/
theorem c85_mixed : ∃ s, exec (init 12 mixConns) mixTrace = some s ∧ s.got 1 = [[65]] ∧
    ∀ c ∈ mixConns[1]?, ∀ bs ∈ c, (65 : Byte) ∉ bs := by
  refine ⟨((exec (init 12 mixConns) mixTrace).getD (init 0 [])), by decide +kernel, by decide +kernel, by decide⟩

/-- Three connections, a cache of 4 bytes; each sends the header of a frame of 9 bytes. -/
def crashConns : List (List (List Byte)) := [[[0, 0, 0, 9]], [[0, 0, 0, 9]], [[0, 0, 0, 9]]]

def crashTrace : List Nat :=
  List.replicate 4 2 ++ List.replicate 6 0 ++ List.replicate 6 1 ++ [0, 0, 1, 1] ++ [2]

/-- C85 fails, by a data race: the writer index is beyond the storage, the third goroutine slices with it, and
the process panics, though no connection sent a frame of length 0. -/
theorem c85_crashed : ∃ s, exec (init 4 crashConns) crashTrace = some s ∧ s.crashed = true ∧
    ∀ c ∈ crashConns, ∀ bs ∈ c, NoZero bs := by
  refine ⟨((exec (init 4 crashConns) crashTrace).getD (init 0 [])), by decide +kernel, by decide +kernel, ?_⟩
  intro c hc bs hb
  have : bs = [0, 0, 0, 9] := by
    simp only [crashConns, List.mem_cons, List.not_mem_nil, or_false] at hc
    rcases hc with rfl | rfl | rfl <;> simpa using hb
  subst this
  rw [NoZero, parse_left (by decide) (by decide)]
  simp

/-! ## Examples -/

theorem exact_ex (n : Byte) (p : List Byte) (h : n.toNat = p.length + 4) (hl : p.length < 200) :
    parse (0 :: 0 :: 0 :: n :: p) = ([p], .exact) := by
  have hd : decBE ((0 :: 0 :: 0 :: n :: p : List Byte).take 4) = n.toNat := by simp [decBE]
  have hu : toU32 ((0 :: 0 :: 0 :: n :: p : List Byte).length : Nat) = p.length + 4 :=
    toU32_of_nat _ (by simp only [List.length_cons]; omega)
  rw [parse_exact (by simp) (by rw [hd, hu]; omega) (by rw [hd, hu]; omega)]
  rfl

/-- the hypotheses of the positive theorems: two connections whose reads end with incomplete frames of 5 and 2 bytes -/
def okConns : List (List (List Byte)) := [[[0, 0, 0, 5, 7], [0, 0, 0, 9, 7]], [[0, 0, 0, 6, 8, 9], [0, 0]]]

theorem okConns_fits : ∀ c ∈ okConns, ∀ bs ∈ c, Fits 8 bs := by
  intro c hc bs hb
  refine fits_of_length ?_
  revert bs
  revert c
  decide

example {ls : List Nat} {s : S} (he : exec (init 8 okConns) ls = some s) : s.got 0 <+: [[7]] ∧ s.got 1 <+: [[8, 9]] := by
  have h := (c85_isolated_partial (by decide) okConns_fits he).1
  have e0 : frames [[0, 0, 0, 5, 7], [0, 0, 0, 9, 7]] = [[7]] := by
    simp only [frames, List.flatMap_cons, List.flatMap_nil]
    rw [exact_ex 5 [7] (by decide) (by decide), parse_left (by decide) (by decide)]; rfl
  have e1 : frames [[0, 0, 0, 6, 8, 9], [0, 0]] = [[8, 9]] := by
    simp only [frames, List.flatMap_cons, List.flatMap_nil]
    rw [exact_ex 6 [8, 9] (by decide) (by decide), parse_short (by decide)]; rfl
  have h0 := h 0 _ rfl
  have h1 := h 1 _ rfl
  rw [e0] at h0
  rw [e1] at h1
  exact ⟨h0, h1⟩

/-- a complete interleaving of both -/
def okTrace : List Nat := (List.replicate 15 [0, 1]).flatten

example : ∃ s, exec (init 8 okConns) okTrace = some s ∧ s.got 0 = [[7]] ∧ s.got 1 = [[8, 9]] ∧
    (∀ t ∈ s.ths, t = ⟨[], .idle⟩) :=
  ⟨(exec (init 8 okConns) okTrace).getD (init 0 []), by decide +kernel, by decide +kernel, by decide +kernel, by decide +kernel⟩

/-- the chunk of 8 bytes of a frame of 9: connection 1 gets nothing in some interleaving -/
example : ∃ ls s, exec (init 8 [[[0, 0, 0, 9, 1, 2, 3, 4]], [[0, 0, 0, 6, 8, 9]]]) ls = some s ∧ s.got 1 = [] ∧
    (∃ t, s.ths[1]? = some t ∧ t.done) ∧ s.crashed = false ∧
    ∀ ls' s', exec s ls' = some s' → s'.out = s.out ∧ s'.crashed = false :=
  c85_silenced (i := 0) (j := 1) (pre := []) (post := []) (bad := [0, 0, 0, 9, 1, 2, 3, 4]) (r := [0, 0, 0, 9, 1, 2, 3, 4])
    (by decide) (by decide) rfl rfl (by simp) (by decide) (by rw [parse_left (by decide) (by decide)]) (by decide)

/-- both sides of `c85_iff` on the example: the hypotheses hold -/
example : (∀ c ∈ okConns, ∀ bs ∈ c, NoZero bs ∧ bs.length < 2 ^ 32) := by
  intro c hc bs hb
  have : bs = [0, 0, 0, 5, 7] ∨ bs = [0, 0, 0, 9, 7] ∨ bs = [0, 0, 0, 6, 8, 9] ∨ bs = [0, 0] := by
    revert bs; revert c; decide
  refine ⟨?_, ?_⟩
  · rcases this with rfl | rfl | rfl | rfl
    · rw [NoZero, exact_ex 5 [7] (by decide) (by decide)]; simp
    · rw [NoZero, parse_left (by decide) (by decide)]; simp
    · rw [NoZero, exact_ex 6 [8, 9] (by decide) (by decide)]; simp
    · rw [NoZero, parse_short (by decide)]; simp
  · rcases this with rfl | rfl | rfl | rfl <;> decide

end Verif.Stack.FrameRace
