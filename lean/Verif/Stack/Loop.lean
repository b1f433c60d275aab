import Verif.Stack.Deliver

/-!
# The receive loop of a connection and failed writes (C48, C50)

`acceptTransport` (proc_lowerdeck.go:59-87) starts one goroutine per connection.  One iteration is `readStep` (`refStep` for
reference connections); `up` is `ld.upper.OnLowerData`.  The environment is the list of results of the underlying `Read` calls (every
one may depend on the size offered); at the end of the list the goroutine waits in `Read`.
-/

namespace Verif.Stack
open GoM UBuf

/-- `TCPTransportConnection.Read` (tran_tcp.go:39-53, same in tran_unix.go): a closed connection reports `(0, nil)`. -/
def connRead (w : World) (c : ConnId) (rd : Nat → ReadRes) : Nat → ReadRes :=
  if (w.conns c).closed then fun _ => ⟨[], 0, none⟩ else rd

/-- One iteration (proc_lowerdeck.go:73-84); `false`: the goroutine returns. -/
def readStep (up : Handler) (c : ConnId) (rd : Nat → ReadRes) : GoM World Bool := do
  let w ← GoM.get
  let ub ← allocBuf w.mtu 0
  let r ← onBuf ub (UBuf.readFrom (connRead w c rd))
  if r.1.1 = 0 ∨ r.1.2.isSome then do
    closeConnection c
    return false
  else do
    let _ ← up { Ctx.new with conn := some c, buf := some r.2 }
    return true

/-- The loop. -/
def readLoop (up : Handler) (c : ConnId) : List (Nat → ReadRes) → GoM World Bool
  | [] => return true
  | rd :: rds => do
    if (← readStep up c rd) then readLoop up c rds
    else return false

/-- One iteration on a reference connection (proc_lowerdeck.go:61-71): `none` is an error, a closed connection is one
(tran_reference.go:103-106). -/
def refStep (up : Handler) (c : ConnId) (v : Option Val) : GoM World Bool := do
  let w ← GoM.get
  match (if (w.conns c).closed then none else v) with
  | none => do
    closeConnection c
    return false
  | some v =>
    if v = .nil then do
      closeConnection c
      return false
    else do
      let _ ← up { Ctx.new with conn := some c, msg := v }
      return true

def refLoop (up : Handler) (c : ConnId) : List (Option Val) → GoM World Bool
  | [] => return true
  | v :: vs => do
    if (← refStep up c v) then refLoop up c vs
    else return false

/-! ## C48 -/

/-- Specification: the results that carry data and no error, up to the first that does not. -/
def goodReads (m : Nat) (rds : List (Nat → ReadRes)) : List ReadRes :=
  (rds.map fun rd => rd m).takeWhile fun r => decide (r.n ≠ 0) && r.err.isNone

/-- Specification: pass contexts up one after the other. -/
def passAll (up : Handler) : List Ctx → GoM World Unit
  | [] => return ()
  | ctx :: ctxs => do
    let _ ← up ctx
    passAll up ctxs

/-- `ctx` is a fresh context for a chunk received on `c`. -/
structure Chunk (c : ConnId) (m : Nat) (ctx : Ctx) (bs : List Byte) : Prop where
  conn : ctx.conn = some c
  msg : ctx.msg = .nil
  opts : ∀ x, ctx.opts x = .nil
  buf : ∃ s, ctx.buf = some s ∧ Buf s ⟨m, 0, 0, bs⟩

theorem readStep_good {up : Handler} {c : ConnId} {rd : Nat → ReadRes} {w : World} (hm : 0 < w.mtu) (ho : (w.conns c).closed = false)
    (hok : Deque.Reader.Ok rd) (hn : (rd w.mtu.toNat).n ≠ 0) (he : (rd w.mtu.toNat).err = none) :
    ∃ ctx, Chunk c w.mtu.toNat ctx ((rd w.mtu.toNat).filled.take (rd w.mtu.toNat).n) ∧
      readStep up c rd w = (up ctx >>= fun _ => (Pure.pure true : GoM World Bool)) w := by
  obtain ⟨s, h1, h2⟩ := allocBuf_ok w.mtu 0 w hm (Int.le_refl 0) (Int.le_of_lt hm)
  have htail : (Deque.fresh w.mtu.toNat (0 : Int).toNat).tail = w.mtu.toNat := by simp [Deque.fresh, Deque.tail]
  obtain ⟨s', r, g1, g2, g3⟩ := h2.readFrom rd hok
  have hne : w.mtu.toNat ≠ 0 := by omega
  simp only [Deque.step, htail, if_neg hne, he, Out.count.injEq] at g2 g3
  obtain ⟨r1, r2⟩ := r
  simp only at g2
  obtain ⟨rfl, rfl⟩ := g2
  refine ⟨{ Ctx.new with conn := some c, buf := some s' }, ⟨rfl, rfl, fun _ => rfl, s', rfl, ?_⟩, ?_⟩
  · simpa [Deque.fresh, Deque.push] using g3
  · simp only [readStep]
    rw [bind_apply, get_apply]
    simp only
    rw [bind_of_ok h1]
    simp only [connRead, ho, Bool.false_eq_true, if_false]
    rw [bind_onBuf g1]
    simp [hn]

theorem readStep_bad {up : Handler} {c : ConnId} {rd : Nat → ReadRes} {w : World} (hm : 0 < w.mtu)
    (hok : Deque.Reader.Ok rd) (hbad : (w.conns c).closed = true ∨ (rd w.mtu.toNat).n = 0 ∨ (rd w.mtu.toNat).err ≠ none) :
    readStep up c rd w = (.ok false, w.close c) := by
  obtain ⟨s, h1, h2⟩ := allocBuf_ok w.mtu 0 w hm (Int.le_refl 0) (Int.le_of_lt hm)
  have htail : (Deque.fresh w.mtu.toNat (0 : Int).toNat).tail = w.mtu.toNat := by simp [Deque.fresh, Deque.tail]
  have hne : w.mtu.toNat ≠ 0 := by omega
  have hok' : Deque.Reader.Ok (connRead w c rd) := by
    simp only [connRead]
    split
    · intro m; simp
    · exact hok
  obtain ⟨s', r, g1, g2, g3⟩ := h2.readFrom (connRead w c rd) hok'
  have hr : r.1 = 0 ∨ r.2.isSome := by
    obtain ⟨r1, r2⟩ := r
    simp only [Deque.step, htail, if_neg hne] at g2
    by_cases hcl : (w.conns c).closed = true
    · simp only [connRead, if_pos hcl, Out.count.injEq] at g2
      exact Or.inl g2.1
    · simp only [connRead, if_neg hcl] at g2
      rcases hbad.resolve_left hcl with h0 | he
      · cases hx : (rd w.mtu.toNat).err with
        | none => simp only [hx, h0, Out.count.injEq] at g2; exact Or.inl g2.1
        | some e => simp only [hx, Out.count.injEq] at g2; exact Or.inl g2.1
      · cases hx : (rd w.mtu.toNat).err with
        | none => exact absurd hx he
        | some e => simp only [hx, Out.count.injEq] at g2; exact Or.inl g2.1
  simp only [readStep]
  rw [bind_apply, get_apply]
  simp only
  rw [bind_of_ok h1]
  rw [bind_onBuf g1]
  simp only [if_pos hr]
  rfl

/-- C48, part: for every sequence of read results (within the contract of `io.Reader`) and every layer above that returns and leaves the
connection open: exactly the data of the good reads are passed up, once, in order, each in a fresh buffer; at the
first read without data or with an error the connection is closed, `ConnectionClosed` is published once, and the
goroutine returns.  Missing: data returned together with an error is not passed up (`c48_violated`). -/
theorem c48_partial (up : Handler) (c : ConnId) (m : Int) (Inv : World → Prop) (hm : 0 < m)
    (hinv : ∀ w, Inv w → w.mtu = m ∧ (w.conns c).closed = false)
    (hup : ∀ ctx w, Inv w → ∃ ctx' w', up ctx w = (.ok ctx', w') ∧ Inv w')
    (rds : List (Nat → ReadRes)) (hok : ∀ rd ∈ rds, Deque.Reader.Ok rd) :
    ∀ w, Inv w → ∃ ctxs w', ctxs.length = (goodReads m.toNat rds).length ∧
      (∀ p ∈ ctxs.zip (goodReads m.toNat rds), Chunk c m.toNat p.1 (p.2.filled.take p.2.n)) ∧
      passAll up ctxs w = (.ok (), w') ∧ Inv w' ∧
      readLoop up c rds w = if (goodReads m.toNat rds).length = rds.length then (.ok true, w') else (.ok false, w'.close c) := by
  induction rds with
  | nil => intro w hw; exact ⟨[], w, rfl, by simp, rfl, hw, rfl⟩
  | cons rd rds ih =>
    intro w hw
    obtain ⟨hmtu, hopen⟩ := hinv w hw
    have hrd := hok rd List.mem_cons_self
    by_cases hgood : (rd m.toNat).n ≠ 0 ∧ (rd m.toNat).err = none
    · have hcons : goodReads m.toNat (rd :: rds) = rd m.toNat :: goodReads m.toNat rds := by
        simp [goodReads, hgood.1, hgood.2]
      obtain ⟨ctx, k1, k2⟩ := readStep_good (up := up) (c := c) (w := w) (by omega) hopen hrd (by rw [hmtu]; exact hgood.1) (by rw [hmtu]; exact hgood.2)
      rw [hmtu] at k1
      obtain ⟨ctx', w1, u1, u2⟩ := hup ctx w hw
      obtain ⟨ctxs, w', i1, i2, i3, i4, i5⟩ := ih (fun rd hr => hok rd (List.mem_cons_of_mem _ hr)) w1 u2
      refine ⟨ctx :: ctxs, w', by rw [hcons]; simp [i1], ?_, ?_, i4, ?_⟩
      · rw [hcons]
        intro p hp
        rw [List.zip_cons_cons, List.mem_cons] at hp
        rcases hp with rfl | hp
        · exact k1
        · exact i2 p hp
      · simp only [passAll]; rw [bind_of_ok u1]; exact i3
      · simp only [readLoop]
        rw [bind_of_ok (show readStep up c rd w = (.ok true, w1) by rw [k2, bind_of_ok u1]; rfl)]
        simp only [if_true]
        rw [i5, hcons]
        simp
    · have hnil : goodReads m.toNat (rd :: rds) = [] := by
        simp only [goodReads, List.map_cons, List.takeWhile_cons]
        rw [if_neg]
        intro h
        simp only [Bool.and_eq_true, decide_eq_true_eq, Option.isNone_iff_eq_none] at h
        exact hgood h
      refine ⟨[], w, by rw [hnil]; rfl, by simp, rfl, hw, ?_⟩
      rw [hnil]
      simp only [readLoop, List.length_nil, List.length_cons]
      rw [bind_of_ok (readStep_bad (by omega) hrd (by rw [hmtu]; by_cases h0 : (rd m.toNat).n = 0
                                                      · exact Or.inr (Or.inl h0)
                                                      · exact Or.inr (Or.inr fun he => hgood ⟨h0, he⟩)))]
      simp

/-- Three reads and the end of the stream, with a layer above that records what it gets. -/
example : ∃ w', readLoop recorder.upLower 3 [fun _ => ⟨[1, 2], 2, none⟩, fun _ => ⟨[3, 9, 9], 1, none⟩, fun m => ⟨List.replicate m 4, m, none⟩,
      fun _ => ⟨[], 0, some .eof⟩, fun _ => ⟨[5], 1, none⟩] quiet = (.ok false, w') ∧
    w'.trace = [.rx 0 (some 3) (.bytes [1, 2]), .rx 0 (some 3) (.bytes [3]), .rx 0 (some 3) (.bytes (List.replicate 16 4)), .closed 3] :=
  ⟨_, rfl, by decide⟩

/-- The hypotheses about the layer above hold for it. -/
example : (∀ w : World, w.mtu = 16 ∧ (w.conns 3).closed = false → w.mtu = 16 ∧ (w.conns 3).closed = false) ∧
    (∀ ctx (w : World), w.mtu = 16 ∧ (w.conns 3).closed = false →
      ∃ ctx' w', recorder.upLower ctx w = (.ok ctx', w') ∧ w'.mtu = 16 ∧ (w'.conns 3).closed = false) :=
  ⟨fun _ h => h, fun _ _ h => ⟨_, _, rfl, h⟩⟩

/-- C48, part, reference connections: every object before the first nil or error is passed up, once and in order. -/
theorem c48_reference (up : Handler) (c : ConnId) (Inv : World → Prop)
    (hinv : ∀ w, Inv w → (w.conns c).closed = false) (hup : ∀ ctx w, Inv w → ∃ ctx' w', up ctx w = (.ok ctx', w') ∧ Inv w')
    (vs : List Val) (hv : ∀ v ∈ vs, v ≠ .nil) (rest : List (Option Val)) (hrest : rest = [] ∨ ∃ r rs, rest = r :: rs ∧ (r = none ∨ r = some .nil)) :
    ∀ w, Inv w → ∃ w', passAll up (vs.map fun v => { Ctx.new with conn := some c, msg := v }) w = (.ok (), w') ∧ Inv w' ∧
      refLoop up c (vs.map some ++ rest) w = if rest = [] then (.ok true, w') else (.ok false, w'.close c) := by
  induction vs with
  | nil =>
    intro w hw
    refine ⟨w, rfl, hw, ?_⟩
    rcases hrest with rfl | ⟨r, rs, rfl, hr⟩
    · rfl
    · have hcl := hinv w hw
      simp only [List.map_nil, List.nil_append, refLoop]
      have : refStep up c r w = (.ok false, w.close c) := by
        simp only [refStep]
        rw [bind_apply, get_apply]
        simp only [hcl, Bool.false_eq_true, if_false]
        rcases hr with rfl | rfl <;> rfl
      rw [bind_of_ok this]
      rfl
  | cons v vs ih =>
    intro w hw
    have hcl := hinv w hw
    have hvn := hv v List.mem_cons_self
    obtain ⟨ctx', w1, u1, u2⟩ := hup { Ctx.new with conn := some c, msg := v } w hw
    obtain ⟨w', i1, i2, i3⟩ := ih (fun v h => hv v (List.mem_cons_of_mem _ h)) w1 u2
    refine ⟨w', ?_, i2, ?_⟩
    · simp only [List.map_cons, passAll]; rw [bind_of_ok u1]; exact i1
    · simp only [List.map_cons, List.cons_append, refLoop]
      have : refStep up c (some v) w = (.ok true, w1) := by
        simp only [refStep]
        rw [bind_apply, get_apply]
        simp only [hcl, Bool.false_eq_true, if_false, if_neg hvn]
        rw [bind_of_ok u1]; rfl
      rw [bind_of_ok this]
      exact i3

/-- C48 fails for a read that returns data together with an error (allowed by `io.Reader`): whatever the data, the layer above is
not called at all; the connection is closed. -/
theorem c48_violated (up : Handler) (c : ConnId) (bs : List Byte) (hb : bs ≠ []) (e : Err) (rds : List (Nat → ReadRes)) (w : World) (hm : 0 < w.mtu) :
    readLoop up c ((fun m => ⟨bs.take m, min m bs.length, some e⟩) :: rds) w = (.ok false, w.close c) ∧
    ((bs.take w.mtu.toNat).length = min w.mtu.toNat bs.length ∧ 0 < min w.mtu.toNat bs.length) := by
  constructor
  · simp only [readLoop]
    rw [bind_of_ok (readStep_bad hm (by intro m; simp; omega) (Or.inr (Or.inr (by simp))))]
    rfl
  · have := List.length_pos_iff.mpr hb
    simp; omega

/-- A connection closed by somebody else: the next read ends the loop, with one event. -/
theorem c48_closed_elsewhere (up : Handler) (c : ConnId) (rd : Nat → ReadRes) (rds : List (Nat → ReadRes)) (hok : Deque.Reader.Ok rd) (w : World)
    (hm : 0 < w.mtu) (hc : (w.conns c).closed = true) : readLoop up c (rd :: rds) w = (.ok false, w.close c) := by
  simp only [readLoop]
  rw [bind_of_ok (readStep_bad hm hok (Or.inl hc))]
  rfl

/-- An MTU that is not positive makes the goroutine panic at its first read. -/
theorem c48_mtu_panics (up : Handler) (c : ConnId) (rd : Nat → ReadRes) (rds : List (Nat → ReadRes)) (w : World) (hm : w.mtu ≤ 0) :
    readLoop up c (rd :: rds) w = (.panic, w) := by
  simp only [readLoop, readStep, bind_apply, get_apply]
  rw [allocBuf_panic _ _ _ (Or.inl hm)]

/-- `receive` of the chain model is one good read. -/
theorem receive_eq_readStep (fuel : Nat) (c : ConnId) (bs : List Byte) (w : World) (ho : (w.conns c).closed = false) :
    receive fuel c bs w = (readStep (call fuel .up w.n) c (fun m => ⟨bs.take m, min m bs.length, none⟩) >>= fun _ => Pure.pure ()) w := by
  simp only [receive, readStep, connRead, bind_apply, get_apply, ho, Bool.false_eq_true, if_false]
  rcases allocBuf w.mtu 0 w with ⟨r, w1⟩
  cases r with
  | ok ub =>
    simp only
    rcases onBuf ub (UBuf.readFrom fun m => ⟨bs.take m, min m bs.length, none⟩) w1 with ⟨r, w2⟩
    cases r with
    | ok r =>
      simp only
      by_cases h : r.1.1 = 0 ∨ r.1.2.isSome = true
      · simp only [if_pos h, bind_apply]
        rcases closeConnection c w2 with ⟨r, w3⟩
        cases r <;> rfl
      · simp only [if_neg h, bind_apply]
        rcases call fuel .up w.n _ w2 with ⟨r, w3⟩
        cases r <;> rfl
    | panic => rfl
    | running => rfl
  | panic => rfl
  | running => rfl

/-! ## C50 -/

/-- C50, part: a message of at least one byte for an open byte connection is written, exactly its bytes, in one `Write`; if that reports an error the connection is
closed and `ConnectionClosed` is published, and otherwise nothing else happens.  Missing: connections already closed (`c50_violated`). -/
theorem c50_partial (ctx : Ctx) (w : World) (c : ConnId) (s : St) (hc : ctx.conn = some c) (hr : (w.conns c).useRef = false)
    (hopen : (w.conns c).closed = false) (hb : ctx.buf = some s) (hs : Good s) (hd : data s ≠ [])
    (hle : (w.write w.trace c (data s)).n ≤ (data s).length) :
    ∃ ctx' w', lowerDeckUpper ctx w = (.ok ctx', w') ∧
      w'.trace = w.trace ++ .wire c (data s) (w.write w.trace c (data s)) ::
        (if (w.write w.trace c (data s)).err = none then [] else [.closed c]) ∧
      ((w'.conns c).closed = true ↔ (w.write w.trace c (data s)).err ≠ none) := by
  have hbuf : Buf s (view s) := ⟨hs, rfl⟩
  cases he : (w.write w.trace c (data s)).err with
  | none =>
    obtain ⟨s', h⟩ := lowerDeckUpper_ok hc hr hopen hb hbuf hd he hle
    refine ⟨_, _, h, ?_, ?_⟩
    · simp [World.wrote, data]
    · simp [World.wrote, hopen]
  | some e =>
    obtain ⟨s', h⟩ := lowerDeckUpper_err hc hr hopen hb hbuf hd he hle
    refine ⟨_, _, h, ?_, ?_⟩
    · simp [World.wrote, World.close, data]
    · simp [World.wrote, World.close]

/-- A write that fails. -/
example : ∃ ctx' w', lowerDeckUpper { Ctx.new with conn := some 3, buf := some (rxBuf [1, 2]) } { quiet with write := fun _ _ _ => ⟨1, some .eof⟩ } = (.ok ctx', w') ∧
    w'.trace = [.wire 3 [1, 2] ⟨1, some .eof⟩, .closed 3] ∧ (w'.conns 3).closed = true := ⟨_, _, rfl, by decide, rfl⟩

/-- C50 fails: a message for a byte connection that is closed (by the heartbeat, by a failed write, by `Stop`) disappears without any
effect, whatever its content. -/
theorem c50_violated (ctx : Ctx) (w : World) (c : ConnId) (s : St) (hc : ctx.conn = some c) (hr : (w.conns c).useRef = false)
    (hclosed : (w.conns c).closed = true) (hb : ctx.buf = some s) (hs : Good s) :
    ∃ ctx', lowerDeckUpper ctx w = (.ok ctx', w) := by
  obtain ⟨s', h⟩ := lowerDeckUpper_closed hc hr hclosed hb ⟨hs, rfl⟩
  exact ⟨_, h⟩

/-- On a reference connection a message that cannot be set is reported, also if the connection is closed already. -/
theorem c50_reference (ctx : Ctx) (w : World) (c : ConnId) (hc : ctx.conn = some c) (hr : (w.conns c).useRef = true) :
    lowerDeckUpper ctx w = (.ok ctx, if (w.conns c).closed = true ∨ ctx.msg = .nil then w.close c
      else { w with trace := w.trace ++ [.ref c ctx.msg] }) := by
  by_cases h : (w.conns c).closed = true ∨ ctx.msg = .nil
  · rw [if_pos h]; exact lowerDeckUpper_ref_fail hc hr h
  · rw [if_neg h]
    rw [not_or] at h
    exact lowerDeckUpper_ref hc hr (by simpa using h.1) h.2

end Verif.Stack
