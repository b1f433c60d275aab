import Verif.UBuf.Reader

/-!
# C100, second part: the framing of `encoding/gob` on a buffer

`gob.NewDecoder(ub).Decode(v)` (proc_codec_gob.go:61).  A `UBuf` has `ReadByte`, so the decoder reads from it directly instead of
through a `bufio.Reader`.  A gob stream is a sequence of messages, each a byte count followed by that many bytes; `Decode` reads
type definitions until the first value.  Modelled is how the bytes are fetched (`decodeUintReader`, `recvMessage`,
`readMessage` and the loop of `decodeTypeSequence` in Go's encoding/gob/decoder.go and decode.go).  What is done with a complete message is an
arbitrary function `h`: it goes on to the next message or ends with a value or an error.  Not modelled: `readMessage` fetches
messages of more than 10 MB in pieces; here every message is one `io.ReadFull`.
-/

namespace Verif.UBuf
open GoM

/-- `decodeUintReader` (encoding/gob/decode.go): one byte up to 0x7f is the number itself, otherwise its negation is how many bytes
of a big-endian number follow. -/
def gobUint (N : Nat) : GoM St (Nat × Option Err) := do
  let r ← ioReadFull N 1
  match r.1 with
  | [] => return (0, r.2)
  | b :: _ =>
    if b.toNat ≤ 0x7f then return (b.toNat, none)
    else if 8 < 256 - b.toNat then return (0, some (.ext 1))
    else do
      let q ← ioReadFull N (256 - b.toNat)
      match q.2 with
      | some e => return (0, some e)
      | none => return (decBE q.1, none)

/-- `recvMessage` and `readMessage` (encoding/gob/decoder.go); `T` is `tooBig`. -/
def gobRecv (T N : Nat) : GoM St (List Byte × Option Err) := do
  let c ← gobUint N
  match c.2 with
  | some e => return ([], some e)
  | none =>
    if T ≤ c.1 then return ([], some (.ext 2))
    else ioReadFull N c.1

/-- The loop of `decodeTypeSequence` (encoding/gob/decoder.go): `h st m` is what message `m` means to a decoder in state `st`. -/
def gobLoop (T : Nat) (h : σ → List Byte → σ ⊕ (α × Option Err)) (nothing : α) (N : Nat) : Nat → σ → GoM St (α × Option Err)
  | 0, _ => fun s => (.running, s)
  | f + 1, st => do
    let m ← gobRecv T N
    match m.2 with
    | some e => return (nothing, some e)
    | none =>
      match h st m.1 with
      | .inl st' => gobLoop T h nothing N f st'
      | .inr r => return r

/-- `gob.NewDecoder(ub).Decode(v)` with a budget of `N` steps. -/
def gobDecode (T : Nat) (h : σ → List Byte → σ ⊕ (α × Option Err)) (nothing : α) (st : σ) (N : Nat) : GoM St (α × Option Err) :=
  gobLoop T h nothing N N st

/-! ## Specification on byte strings -/

/-- The two ways to write a byte count. -/
inductive Counts : List Byte → Nat → Prop
  | small (b : Byte) : b.toNat ≤ 127 → Counts [b] b.toNat
  | large (b : Byte) (ds : List Byte) : 127 < b.toNat → ds.length = 256 - b.toNat → ds.length ≤ 8 → Counts (b :: ds) (decBE ds)

/-- The bytes end where the decoder still wants a whole message, the digits of a count, or a whole message body. -/
inductive Stalls (T : Nat) (h : σ → List Byte → σ ⊕ (α × Option Err)) : σ → List Byte → Prop
  | empty (st : σ) : Stalls T h st []
  | digits (st : σ) (b : Byte) : 127 < b.toNat → 256 - b.toNat ≤ 8 → Stalls T h st [b]
  | body (st : σ) (c : List Byte) (n : Nat) : Counts c n → 0 < n → n < T → Stalls T h st c
  | more (st st' : σ) (c m rest : List Byte) : Counts c m.length → m.length < T → h st m = .inl st' → Stalls T h st' rest →
      Stalls T h st (c ++ (m ++ rest))

/-- Whole messages up to the one that the decoder ends with. -/
inductive Yields (T : Nat) (h : σ → List Byte → σ ⊕ (α × Option Err)) : σ → List Byte → α × Option Err → Prop
  | last (st : σ) (c m rest : List Byte) (r : α × Option Err) : Counts c m.length → m.length < T → h st m = .inr r →
      Yields T h st (c ++ (m ++ rest)) r
  | more (st st' : σ) (c m rest : List Byte) (r : α × Option Err) : Counts c m.length → m.length < T → h st m = .inl st' →
      Yields T h st' rest r → Yields T h st (c ++ (m ++ rest)) r

theorem Counts.pos {c : List Byte} {n : Nat} (h : Counts c n) : 0 < c.length := by cases h <;> simp

/-! ## Fetching a count -/

theorem ioReadFull_one_short {s : St} (h : Good s) {N : Nat} (hN : N < 2) : (ioReadFull N 1 s).1 = .running := by
  by_cases he : data s = []
  · rw [ioReadFull, readLoop_stalls h he (by simp)]
  · obtain ⟨s', h1, _⟩ := read_data h 1
    have hpos := List.length_pos_iff.2 he
    rw [if_neg he, if_neg (by omega)] at h1
    match N, hN with
    | 0, _ => rfl
    | 1, _ =>
      rw [ioReadFull, readLoop, if_neg (by simp)]
      simp only [List.length_nil, Nat.sub_zero, List.nil_append]
      rw [bind_of_ok h1]
      rfl

theorem bind_running {m : GoM σ α} {f : α → GoM σ β} {s : σ} (h : (m s).1 = .running) : ((m >>= f) s).1 = .running := by
  rw [bind_apply]
  rcases hm : m s with ⟨r, s'⟩
  rw [hm] at h
  simp only at h
  subst h
  rfl

/-- The first byte of a count. -/
theorem gobUint_first {s : St} (h : Good s) {b : Byte} {rest : List Byte} (hd : data s = b :: rest) {N : Nat} (hN : 2 ≤ N) :
    ∃ s', Good s' ∧ data s' = rest ∧ gobUint N s =
      (if b.toNat ≤ 0x7f then Pure.pure (b.toNat, none)
      else if 8 < 256 - b.toNat then Pure.pure (0, some (.ext 1))
      else ioReadFull N (256 - b.toNat) >>= fun q => match q.2 with
        | some e => Pure.pure (0, some e)
        | none => Pure.pure (decBE q.1, none) : GoM St (Nat × Option Err)) s' := by
  obtain ⟨s', h1, h2, h3⟩ := ioReadFull_ends h (n := 1) hN (.inr (by rw [hd]; simp))
  rw [hd] at h1 h3
  refine ⟨s', h2, by simpa using h3, ?_⟩
  rw [gobUint, bind_of_ok h1]
  rfl

theorem gobUint_empty {s : St} (h : Good s) (hd : data s = []) (N : Nat) : (gobUint N s).1 = .running :=
  bind_running (by rw [ioReadFull, readLoop_stalls h hd (by simp)])

theorem gobUint_short {s : St} (h : Good s) {N : Nat} (hN : N < 2) : (gobUint N s).1 = .running :=
  bind_running (ioReadFull_one_short h hN)

theorem gobUint_digits {s : St} (h : Good s) {b : Byte} (hd : data s = [b]) (h1 : 127 < b.toNat) (h2 : 256 - b.toNat ≤ 8) (N : Nat) :
    (gobUint N s).1 = .running := by
  by_cases hN : N < 2
  · exact gobUint_short h hN
  · obtain ⟨s', g1, g2, g3⟩ := gobUint_first h hd (N := N) (by omega)
    have hlt := b.toNat_lt
    rw [g3, if_neg (by omega), if_neg (by omega)]
    exact bind_running (by rw [ioReadFull, readLoop_stalls g1 g2 (by simp; omega)])

theorem gobUint_counts {s : St} (h : Good s) {c rest : List Byte} {n : Nat} (hc : Counts c n) (hd : data s = c ++ rest) {N : Nat} (hN : 2 ≤ N) :
    ∃ s', gobUint N s = (.ok (n, none), s') ∧ Good s' ∧ data s' = rest := by
  cases hc with
  | small b hb =>
    obtain ⟨s', g1, g2, g3⟩ := gobUint_first h (b := b) (rest := rest) hd hN
    refine ⟨s', ?_, g1, g2⟩
    rw [g3, if_pos hb]; rfl
  | large b ds h1 h2 h3 =>
    obtain ⟨s', g1, g2, g3⟩ := gobUint_first h (b := b) (rest := ds ++ rest) hd hN
    have hlt := b.toNat_lt
    have hne : ds ≠ [] := by intro e; rw [e] at h2; simp at h2; omega
    obtain ⟨s2, k1, k2, k3⟩ := ioReadFull_ends g1 (n := 256 - b.toNat) hN (.inr (by rw [g2]; simp [hne]))
    rw [g2, ← h2] at k1
    rw [if_neg (by simp), List.take_append_of_le_length (Nat.le_refl _), List.take_of_length_le (Nat.le_refl _)] at k1
    refine ⟨s2, ?_, k2, ?_⟩
    · rw [g3, if_neg (by omega), if_neg (by omega), ← h2, bind_of_ok k1]
      rfl
    · rw [k3, g2, ← h2]; simp

/-! ## Fetching a message -/

theorem gobRecv_of_running {s : St} {T N : Nat} (h : (gobUint N s).1 = .running) : (gobRecv T N s).1 = .running := bind_running h

theorem gobRecv_body {s : St} (h : Good s) {T n : Nat} {c : List Byte} (hc : Counts c n) (hd : data s = c) (h0 : 0 < n) (hT : n < T) (N : Nat) :
    (gobRecv T N s).1 = .running := by
  by_cases hN : N < 2
  · exact gobRecv_of_running (gobUint_short h hN)
  · obtain ⟨s', g1, g2, g3⟩ := gobUint_counts h hc (rest := []) (by simpa using hd) (N := N) (by omega)
    rw [gobRecv, bind_of_ok g1]
    simp only
    rw [if_neg (by omega), ioReadFull, readLoop_stalls g2 g3 (by simpa using h0)]

theorem gobRecv_message {s : St} (h : Good s) {T : Nat} {c m rest : List Byte} (hc : Counts c m.length) (hT : m.length < T)
    (hd : data s = c ++ (m ++ rest)) {N : Nat} (hN : 2 ≤ N) :
    ∃ s', gobRecv T N s = (.ok (m, none), s') ∧ Good s' ∧ data s' = rest := by
  obtain ⟨s1, g1, g2, g3⟩ := gobUint_counts h hc hd hN
  obtain ⟨s2, k1, k2, k3⟩ := ioReadFull_ends g2 (n := m.length) hN (by
    by_cases e : m = []
    · exact .inl (by simp [e])
    · exact .inr (by rw [g3]; simp [e]))
  rw [g3, if_neg (by simp), List.take_append_of_le_length (Nat.le_refl _), List.take_of_length_le (Nat.le_refl _)] at k1
  refine ⟨s2, ?_, k2, by rw [k3, g3]; simp⟩
  rw [gobRecv, bind_of_ok g1]
  simp only
  rw [if_neg (by omega)]
  exact k1

/-- What fetching a message comes to: it hangs, it is refused, or there is a whole message. -/
theorem gobRecv_cases {s : St} (h : Good s) (T : Nat) :
    (data s = [] ∨ (∃ b, data s = [b] ∧ 127 < b.toNat ∧ 256 - b.toNat ≤ 8) ∨ ∃ n, Counts (data s) n ∧ 0 < n ∧ n < T) ∨
    (∀ N, 2 ≤ N → ∃ bs e s', gobRecv T N s = (.ok (bs, some e), s') ∧ Good s' ∧ (data s').length ≤ (data s).length) ∨
    ∃ c m rest, data s = c ++ (m ++ rest) ∧ Counts c m.length ∧ m.length < T := by
  have after : ∀ (c rest : List Byte) (n : Nat), data s = c ++ rest → Counts c n →
      (∃ n, Counts (data s) n ∧ 0 < n ∧ n < T) ∨
      (∀ N, 2 ≤ N → ∃ bs e s', gobRecv T N s = (.ok (bs, some e), s') ∧ Good s' ∧ (data s').length ≤ (data s).length) ∨
      ∃ c m rest, data s = c ++ (m ++ rest) ∧ Counts c m.length ∧ m.length < T := by
    intro c rest n hd hc
    by_cases hT : T ≤ n
    · refine .inr (.inl fun N hN => ?_)
      obtain ⟨s', g1, g2, g3⟩ := gobUint_counts h hc hd hN
      refine ⟨[], .ext 2, s', ?_, g2, by rw [g3, hd]; simp⟩
      rw [gobRecv, bind_of_ok g1]
      simp only
      rw [if_pos hT]; rfl
    · by_cases hn : n ≤ rest.length
      · refine .inr (.inr ⟨c, rest.take n, rest.drop n, by rw [List.take_append_drop]; exact hd, ?_, by simp; omega⟩)
        have : (rest.take n).length = n := by simp; omega
        rw [this]; exact hc
      · by_cases hr : rest = []
        · exact .inl ⟨n, by rw [hd, hr, List.append_nil]; exact hc, by omega, by omega⟩
        · refine .inr (.inl fun N hN => ?_)
          obtain ⟨s', g1, g2, g3⟩ := gobUint_counts h hc hd hN
          obtain ⟨s2, k1, k2, k3⟩ := ioReadFull_ends g2 (n := n) hN (.inr (by rw [g3]; exact hr))
          rw [g3, if_pos (by omega)] at k1
          refine ⟨rest.take n, .noMoreRead, s2, ?_, k2, by rw [k3, g3, hd]; simp; omega⟩
          rw [gobRecv, bind_of_ok g1]
          simp only
          rw [if_neg hT, k1]
  cases hd : data s with
  | nil => exact .inl (.inl rfl)
  | cons b rest =>
    have hlt := b.toNat_lt
    by_cases h1 : b.toNat ≤ 127
    · rcases after [b] rest _ hd (.small b h1) with g | g | g
      · rw [hd] at g; exact .inl (.inr (.inr g))
      · rw [hd] at g; exact .inr (.inl g)
      · rw [hd] at g; exact .inr (.inr g)
    · by_cases h2 : 8 < 256 - b.toNat
      · refine .inr (.inl fun N hN => ?_)
        obtain ⟨s', g1, g2, g3⟩ := gobUint_first h hd hN
        rw [if_neg (by omega), if_pos h2] at g3
        refine ⟨[], .ext 1, s', ?_, g1, by rw [g2]; simp⟩
        rw [gobRecv, bind_of_ok g3]
        rfl
      · by_cases h3 : rest = []
        · exact .inl (.inr (.inl ⟨b, by rw [h3], by omega, by omega⟩))
        · by_cases h4 : rest.length < 256 - b.toNat
          · refine .inr (.inl fun N hN => ?_)
            obtain ⟨s', g1, g2, g3⟩ := gobUint_first h hd hN
            rw [if_neg (by omega), if_neg h2] at g3
            obtain ⟨s2, k1, k2, k3⟩ := ioReadFull_ends g1 (n := 256 - b.toNat) hN (.inr (by rw [g2]; exact h3))
            rw [g2, if_pos h4] at k1
            rw [bind_of_ok k1] at g3
            refine ⟨[], .noMoreRead, s2, ?_, k2, by rw [k3, g2]; simp; omega⟩
            rw [gobRecv, bind_of_ok g3]
            rfl
          · have hl : (rest.take (256 - b.toNat)).length = 256 - b.toNat := by simp; omega
            rcases after (b :: rest.take (256 - b.toNat)) (rest.drop (256 - b.toNat)) _
              (by rw [hd]; simp) (.large b _ (by omega) hl (by omega)) with g | g | g
            · rw [hd] at g; exact .inl (.inr (.inr g))
            · rw [hd] at g; exact .inr (.inl g)
            · rw [hd] at g; exact .inr (.inr g)

/-! ## Decoding -/

section
variable {σ α : Type} {T : Nat} {h : σ → List Byte → σ ⊕ (α × Option Err)} {nothing : α}

theorem gobLoop_of_running {N : Nat} {s : St} (hr : (gobRecv T N s).1 = .running) (f : Nat) (st : σ) :
    (gobLoop T h nothing N f st s).1 = .running := by
  cases f with
  | zero => rfl
  | succ f => exact bind_running hr

theorem gobLoop_stalls {st : σ} {bs : List Byte} (hs : Stalls T h st bs) : ∀ (s : St), Good s → data s = bs → ∀ N f,
    (gobLoop T h nothing N f st s).1 = .running := by
  induction hs with
  | empty st => intro s hg hd N f; exact gobLoop_of_running (gobRecv_of_running (gobUint_empty hg hd N)) f st
  | digits st b h1 h2 => intro s hg hd N f; exact gobLoop_of_running (gobRecv_of_running (gobUint_digits hg hd h1 h2 N)) f st
  | body st c n hc h0 hT => intro s hg hd N f; exact gobLoop_of_running (gobRecv_body hg hc hd h0 hT N) f st
  | more st st' c m rest hc hT hm _ ih =>
    intro s hg hd N f
    by_cases hN : N < 2
    · exact gobLoop_of_running (gobRecv_of_running (gobUint_short hg hN)) f st
    · cases f with
      | zero => rfl
      | succ f =>
        obtain ⟨s', g1, g2, g3⟩ := gobRecv_message hg hc hT hd (N := N) (by omega)
        rw [gobLoop, bind_of_ok g1]
        simp only [hm]
        exact ih s' g2 g3 N f

theorem gobLoop_ends (L : Nat) : ∀ (st : σ) (s : St), Good s → (data s).length ≤ L → ¬ Stalls T h st (data s) → ∀ N f, 2 ≤ N → L < f →
    ∃ r s', gobLoop T h nothing N f st s = (.ok r, s') ∧ Good s' ∧ (data s').length ≤ (data s).length := by
  induction L with
  | zero =>
    intro st s hg hl hn
    have : data s = [] := List.length_eq_zero_iff.1 (by omega)
    rw [this] at hn
    exact absurd (.empty st) hn
  | succ L ih =>
    intro st s hg hl hn N f hN hf
    obtain ⟨f, rfl⟩ : ∃ g, f = g + 1 := ⟨f - 1, by omega⟩
    rcases gobRecv_cases hg T with (h1 | ⟨b, h1, h2, h3⟩ | ⟨n, h1, h2, h3⟩) | h1 | ⟨c, m, rest, h1, h2, h3⟩
    · rw [h1] at hn; exact absurd (.empty st) hn
    · rw [h1] at hn; exact absurd (.digits st b h2 h3) hn
    · exact absurd (.body st _ n h1 h2 h3) hn
    · obtain ⟨bs, e, s', g1, g2, g3⟩ := h1 N hN
      refine ⟨(nothing, some e), s', ?_, g2, g3⟩
      rw [gobLoop, bind_of_ok g1]
      rfl
    · obtain ⟨s', g1, g2, g3⟩ := gobRecv_message hg h2 h3 h1 hN
      have hpos := h2.pos
      have hlen : (data s').length < (data s).length := by rw [g3, h1]; simp; omega
      rw [gobLoop, bind_of_ok g1]
      simp only
      cases hm : h st m with
      | inr r => exact ⟨r, s', rfl, g2, by omega⟩
      | inl st' =>
        simp only
        obtain ⟨r, s2, k1, k2, k3⟩ := ih st' s' g2 (by omega) (fun hs => hn (by rw [h1]; rw [g3] at hs; exact .more st st' c m rest h2 h3 hm hs)) N f hN (by omega)
        exact ⟨r, s2, k1, k2, by omega⟩

/-- C100: decoding a gob from a buffer runs forever exactly if the content ends at one of the places of `Stalls`. -/
theorem c100_gob_exact (st : σ) {s : St} (hg : Good s) :
    (∀ N, (gobDecode T h nothing st N s).1 = .running) ↔ Stalls T h st (data s) := by
  constructor
  · intro hr
    refine Classical.byContradiction fun hn => ?_
    obtain ⟨r, s', h1, _⟩ := gobLoop_ends (nothing := nothing) (data s).length st s hg (Nat.le_refl _) hn ((data s).length + 2) ((data s).length + 2) (by omega) (by omega)
    have := hr ((data s).length + 2)
    rw [gobDecode, h1] at this
    cases this
  · exact fun hs N => gobLoop_stalls hs s hg rfl N N

theorem gobLoop_yields {st : σ} {bs : List Byte} {r : α × Option Err} (hy : Yields T h st bs r) : ∀ (s : St), Good s → data s = bs →
    ∀ N f, 2 ≤ N → bs.length < f → ∃ s', gobLoop T h nothing N f st s = (.ok r, s') := by
  induction hy with
  | last st c m rest r hc hT hm =>
    intro s hg hd N f hN hf
    obtain ⟨f, rfl⟩ : ∃ g, f = g + 1 := ⟨f - 1, by omega⟩
    obtain ⟨s', g1, g2, g3⟩ := gobRecv_message hg hc hT hd hN
    exact ⟨s', by rw [gobLoop, bind_of_ok g1]; simp only [hm]; rfl⟩
  | more st st' c m rest r hc hT hm _ ih =>
    intro s hg hd N f hN hf
    obtain ⟨f, rfl⟩ : ∃ g, f = g + 1 := ⟨f - 1, by omega⟩
    obtain ⟨s', g1, g2, g3⟩ := gobRecv_message hg hc hT hd hN
    have hpos := hc.pos
    obtain ⟨s2, k1⟩ := ih s' g2 g3 N f hN (by simp at hf; omega)
    exact ⟨s2, by rw [gobLoop, bind_of_ok g1]; simp only [hm]; exact k1⟩

/-- C100: a content that begins with whole messages up to a value decodes to that value. -/
theorem c100_gob_yields {st : σ} {s : St} (hg : Good s) {r : α × Option Err} (hy : Yields T h st (data s) r) {N : Nat}
    (hN : (data s).length + 2 ≤ N) : (gobDecode T h nothing st N s).1 = .ok r := by
  obtain ⟨s', h1⟩ := gobLoop_yields (nothing := nothing) hy s hg rfl N N (by omega) (by omega)
  rw [gobDecode, h1]

end

/-- A decoder for the examples: messages that begin with 1 are type definitions, others are values. -/
def toyGob (_ : Unit) (m : List Byte) : Unit ⊕ (List Byte × Option Err) :=
  if m.head? = some 1 then .inl () else .inr (m, none)

/-- a definition of two bytes and a value of three bytes -/
example : Yields 1000 toyGob () [2, 1, 5, 3, 7, 8, 9] ([7, 8, 9], none) :=
  .more () () [2] [1, 5] [3, 7, 8, 9] _ (.small 2 (by decide)) (by decide) rfl (.last () [3] [7, 8, 9] [] _ (.small 3 (by decide)) (by decide) rfl)
/-- the same, cut off behind the definition and behind the next count -/
example : Stalls 1000 toyGob () [2, 1, 5] ∧ Stalls 1000 toyGob () [2, 1, 5, 3] :=
  ⟨.more () () [2] [1, 5] [] (.small 2 (by decide)) (by decide) rfl (.empty ()),
    .more () () [2] [1, 5] [3] (.small 2 (by decide)) (by decide) rfl (.body () [3] 3 (.small 3 (by decide)) (by decide) (by decide))⟩
/-- a count written with one digit -/
example : Counts [255, 200] 200 := .large 255 [200] (by decide) (by decide) (by decide)

end Verif.UBuf
