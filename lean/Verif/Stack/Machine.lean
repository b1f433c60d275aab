import Verif.Stack.Hop

/-!
# A goroutine that works on messages, one hop per step

`stepG` runs a goroutine up to the next call (or return) of a handler.  The control state is explicit: the handler about
to be called, or the value that has just been returned, and the FrameDecoders that wait for the return of a call
(every other handler ends with its call).  `solo_job`: a goroutine left alone does to the world what `send`, `receive`,
`receiveRef` and `sendControl` of the model do.
-/

namespace Verif.Stack
open UBuf (St Err Heap WriteRes ReadRes)

/-- What a waiting FrameDecoder does next. -/
inductive K where
  /-- the loop of `handleCurrentData` goes on with this buffer (proc_frame_decoder.go:66) -/
  | cur (rest : St)
  /-- the loop of `handleCachedData` (proc_frame_decoder.go:122) -/
  | cached

/-- Where a goroutine is. -/
inductive Focus where
  /-- about to call this entry point of the element at this position -/
  | call (dir : Dir) (pos : Nat) (ctx : Ctx)
  /-- a handler has returned; its buffer is of no interest to anyone (`currentLoop`, `handleCached` replace it) -/
  | ret (ctx : Ctx)
  /-- between two messages -/
  | idle

/-- A message to work on. -/
inductive Job where
  /-- an endpoint's goroutine (proc_upperdeck.go:54-65) -/
  | send (conn : Option ConnId) (data : Val) (session : Int)
  /-- a connection's receive goroutine (proc_lowerdeck.go:73-84) -/
  | recv (c : ConnId) (bs : List Byte)
  /-- the same for a reference connection (proc_lowerdeck.go:61-71) -/
  | recvRef (c : ConnId) (v : Val)
  /-- the periodic messages of Heartbeat and StatCounter (proc_heartbeat.go:154-163, proc_stat_counter.go:65-76) -/
  | control (i : Nat) (c : ConnId) (tag : Byte)

/-- The work of the model for a job. -/
def Job.run (fuel : Nat) : Job → GoM World Unit
  | .send conn data session => Stack.send fuel conn data session
  | .recv c bs => receive fuel c bs
  | .recvRef c v => receiveRef fuel c v
  | .control i c tag => sendControl fuel i c tag

/-- The first call made for a job, if any (same lines). -/
def Job.start : Job → GoM World (Option (Dir × Nat × Ctx))
  | .send conn data session =>
    pure (some (.down, 1, { Ctx.new with conn := conn, msg := data }.setOption "session" (.int session)))
  | .recv c bs => do
    let w ← GoM.get
    let ub ← allocBuf w.mtu 0
    let r ← onBuf ub (UBuf.readFrom fun m => ⟨bs.take m, min m bs.length, none⟩)
    if r.1.1 = 0 ∨ r.1.2.isSome then
      closeConnection c
      return none
    else return some (.up, w.n, { Ctx.new with conn := some c, buf := some r.2 })
  | .recvRef c v => do
    let w ← GoM.get
    if v = .nil then
      closeConnection c
      return none
    else return some (.up, w.n, { Ctx.new with conn := some c, msg := v })
  | .control i c tag => do
    let w ← GoM.get
    let ub ← allocBuf w.mtu w.overhead
    let r ← onBuf ub (UBuf.writeByte tag)
    return some (.down, i + 2, { Ctx.new with conn := some c, buf := some r.2 })

/-- A goroutine: where it is, the FrameDecoders waiting (innermost first), the messages still to come and what it did. -/
structure G where
  focus : Focus
  stack : List (Nat × K)
  jobs : List Job
  acts : List Act

/-- A goroutine that starts with its first message. -/
def G.new (jobs : List Job) : G := { focus := .idle, stack := [], jobs := jobs, acts := [] }

/-- Nothing left to do. -/
def G.Done (g : G) : Prop :=
  match g.focus, g.jobs with
  | .idle, [] => True
  | _, _ => False

instance (g : G) : Decidable g.Done := by
  unfold G.Done
  split <;> infer_instance

def G.ret (g : G) (ctx : Ctx) (a : Option Act) : G := { g with focus := .ret ctx.noBuf, acts := g.acts ++ a.toList }
def G.call (g : G) (dir : Dir) (pos : Nat) (ctx : Ctx) : G := { g with focus := .call dir pos ctx }

/-- After a hop of the element at `pos`. -/
def Next.go (pos : Nat) (g : G) : Next → G
  | .stop c => g.ret c none
  | .up c => g.call .up (pos - 1) c
  | .down c => g.call .down (pos + 1) c
  | .upDown c => g.call .down (pos - 1) c

/-- After a round of `handleCurrentData` of the FrameDecoder at `pos`. -/
def Seg.go (pos : Nat) (g : G) : Seg → G
  | .fin c => g.ret c none
  | .tail c => g.call .up (pos - 1) c
  | .more c rest => { g with stack := (pos, .cur rest) :: g.stack }.call .up (pos - 1) c

/-- After a round of `handleCachedData`. -/
def CSeg.go (pos : Nat) (g : G) : CSeg → G
  | .fin c => g.ret c none
  | .up c => { g with stack := (pos, .cached) :: g.stack }.call .up (pos - 1) c

/-- `FrameDecoder.OnLowerData` up to its first call (proc_frame_decoder.go:170-190). -/
def frameStep (pos : Nat) (en : Bool) (ctx : Ctx) (g : G) : GoM World G := do
  if (← useReference ctx.conn) then return g.call .up (pos - 1) ctx
  else match ctx.buf with
    | none => return g.ret ctx none
    | some ub =>
      if en then do
        let s ← currentN (pos - 1) ctx ub
        return s.go pos { g with stack := (pos, .cached) :: g.stack }
      else return g.call .up (pos - 1) ctx

/-- The call of an element (`call`). -/
def callStep (dir : Dir) (pos : Nat) (ctx : Ctx) (g : G) : GoM World G := do
  let w ← GoM.get
  if pos = 0 then
    match dir with
    | .up => do
      let a ← upperDeckN ctx
      return g.ret ctx a
    | .down => return g.ret ctx none
  else if pos > w.n then
    match dir with
    | .down => do
      let a ← lowerDeckN ctx
      return g.ret ctx a
    | .up => return g.ret ctx none
  else
    match dir with
    | .down => do
      let n ← onUpperN (pos - 1) (w.procs (pos - 1)) ctx
      return n.go pos g
    | .up =>
      if (w.procs (pos - 1)).kind.isFrame then frameStep pos (w.procs (pos - 1)).enable ctx g
      else do
        let n ← onLowerN (pos - 1) (w.procs (pos - 1)) ctx
        return n.go pos g

/-- The return to a waiting FrameDecoder, or the end of the message. -/
def retStep (ctx : Ctx) (g : G) : GoM World G :=
  match g.stack with
  | [] => pure { g with focus := .idle }
  | (pos, .cur rest) :: st => do
    let s ← curIter (pos - 1) false ctx rest
    return s.go pos { g with stack := st }
  | (pos, .cached) :: st => do
    let s ← cachedIter (pos - 1) ctx
    return s.go pos { g with stack := st }

/-- The next message. -/
def idleStep (g : G) : GoM World G :=
  match g.jobs with
  | [] => pure g
  | j :: js => do
    match ← j.start with
    | none => return { g with jobs := js }
    | some (d, p, c) => return { g with jobs := js }.call d p c

/-- One step of a goroutine. -/
def stepG (g : G) : GoM World G :=
  match g.focus with
  | .call dir pos ctx => callStep dir pos ctx g
  | .ret ctx => retStep ctx g
  | .idle => idleStep g

/-- One step of a goroutine that is alone; `none`: it is done, or it panics. -/
def soloStep (s : G × World) : Option (G × World) :=
  if s.1.Done then none
  else match stepG s.1 s.2 with
    | (.ok g, w) => some (g, w)
    | _ => none

/-- `k` steps of a goroutine that is alone. -/
def solo (s : G × World) : Nat → Option (G × World)
  | 0 => some s
  | k + 1 => (solo s k).bind soloStep

theorem solo_add (s : G × World) (a b : Nat) : solo s (a + b) = (solo s a).bind fun t => solo t b := by
  induction b with
  | zero => simp [solo]
  | succ b ih =>
    rw [← Nat.add_assoc]
    simp only [solo, ih]
    cases solo s a <;> rfl

def Reach (s t : G × World) : Prop := ∃ k, solo s k = some t

theorem Reach.refl (s : G × World) : Reach s s := ⟨0, rfl⟩

theorem Reach.trans {s t u : G × World} (h1 : Reach s t) (h2 : Reach t u) : Reach s u := by
  obtain ⟨a, ha⟩ := h1
  obtain ⟨b, hb⟩ := h2
  exact ⟨a + b, by rw [solo_add, ha]; exact hb⟩

theorem Reach.step {g g' : G} {w w' : World} (hd : ¬ g.Done) (h : stepG g w = (.ok g', w')) : Reach (g, w) (g', w') :=
  ⟨1, by simp only [solo, Option.bind_some, soloStep, if_neg hd, h]⟩

theorem not_done_call (g : G) (d : Dir) (p : Nat) (c : Ctx) : ¬ (g.call d p c).Done := by
  simp [G.Done, G.call]

theorem not_done_ret (g : G) (c : Ctx) (a : Option Act) : ¬ (g.ret c a).Done := by simp [G.Done, G.ret]

/-! ## A call of the model is a run of the goroutine -/

open GoM

/-- From the call to the return. -/
def Runs (h : Handler) (dir : Dir) (pos : Nat) : Prop :=
  ∀ ctx w c' w', h ctx w = (.ok c', w') → ∀ g : G, ∃ a, Reach (g.call dir pos ctx, w) ({ g with acts := a }.ret c' none, w')

theorem ok_bind {σ α β : Type _} {m : GoM σ α} {f : α → GoM σ β} {s s' : σ} {b : β} (h : (m >>= f) s = (.ok b, s')) :
    ∃ a t, m s = (.ok a, t) ∧ f a t = (.ok b, s') := by
  rw [bind_apply] at h
  rcases hm : m s with ⟨r, t⟩
  rw [hm] at h
  cases r with
  | ok a => exact ⟨a, t, rfl, h⟩
  | panic => simp at h
  | running => simp at h

theorem Seg.noBuf_curIter (i : Nat) (ctx : Ctx) (ub : St) :
    curIter i false ctx.noBuf ub = (curIter i false ctx ub >>= fun s => Pure.pure (match s with
      | .fin c => .fin c.noBuf
      | .tail c => .tail c
      | .more c r => .more c r)) := by
  simp only [curIter, bind_assoc', ite_bind, pure_bind', Bool.false_eq_true, if_false, Ctx.noBuf]

theorem CSeg.noBuf_cachedIter (i : Nat) (ctx : Ctx) :
    cachedIter i ctx.noBuf = (cachedIter i ctx >>= fun s => Pure.pure (match s with
      | .fin c => .fin c.noBuf
      | .up c => .up c)) := by
  simp only [cachedIter, bind_assoc', ite_bind, pure_bind', Ctx.noBuf]

theorem noBuf_noBuf (c : Ctx) : c.noBuf.noBuf = c.noBuf := rfl

/-- The rest of `handleCurrentData` after a call has returned. -/
theorem reach_current {i pos : Nat} (hi : i = pos - 1) {nb : Nb} (hu : Runs nb.upLower .up (pos - 1)) :
    ∀ (fuel : Nat) (ctx : Ctx) (ub : St) (w : World) (c' : Ctx) (w' : World),
      currentLoop i nb fuel false ctx ub w = (.ok c', w') → ∀ (g : G) (b : Option Act),
      ∃ a, Reach ({ g with stack := (pos, .cur ub) :: g.stack }.ret ctx b, w) ({ g with acts := a }.ret c' none, w') := by
  subst hi
  intro fuel
  induction fuel with
  | zero => intro ctx ub w c' w' h; simp [currentLoop] at h
  | succ fuel ih =>
    intro ctx ub w c' w' h g b
    rw [currentLoop_hop] at h
    obtain ⟨s, t, hs, h⟩ := ok_bind h
    have hc := congrFun (Seg.noBuf_curIter (pos - 1) ctx ub) w
    rw [bind_of_ok hs] at hc
    cases s with
    | fin c =>
      simp only [pure_apply] at h hc
      injection h with h1 h2
      injection h1 with h1
      subst h1 h2
      refine ⟨g.acts ++ b.toList, Reach.step (not_done_ret _ _ _) ?_⟩
      simp only [stepG, G.ret, retStep]
      rw [bind_of_ok hc]
      simp [Seg.go, G.ret, noBuf_noBuf]
    | tail c =>
      simp only [pure_apply] at h hc
      obtain ⟨a, ha⟩ := hu c t c' w' h { g with acts := g.acts ++ b.toList }
      refine ⟨a, (Reach.step (not_done_ret _ _ _) ?_).trans ha⟩
      simp only [stepG, G.ret, retStep]
      rw [bind_of_ok hc]
      rfl
    | more c rest =>
      simp only [pure_apply] at h hc
      obtain ⟨c1, t1, h1, h⟩ := ok_bind h
      obtain ⟨a, ha⟩ := hu c t c1 t1 h1 { g with acts := g.acts ++ b.toList, stack := (pos, .cur rest) :: g.stack }
      obtain ⟨a', ha'⟩ := ih c1 rest t1 c' w' h { g with acts := a } none
      refine ⟨a', (Reach.step (not_done_ret _ _ _) ?_).trans (ha.trans ha')⟩
      simp only [stepG, G.ret, retStep]
      rw [bind_of_ok hc]
      rfl

/-- The rest of `handleCachedData`. -/
theorem reach_cached {i pos : Nat} (hi : i = pos - 1) {nb : Nb} (hu : Runs nb.upLower .up (pos - 1)) :
    ∀ (fuel : Nat) (ctx : Ctx) (w : World) (c' : Ctx) (w' : World),
      handleCached i nb fuel ctx w = (.ok c', w') → ∀ (g : G) (b : Option Act),
      ∃ a, Reach ({ g with stack := (pos, .cached) :: g.stack }.ret ctx b, w) ({ g with acts := a }.ret c' none, w') := by
  subst hi
  intro fuel
  induction fuel with
  | zero => intro ctx w c' w' h; simp [handleCached] at h
  | succ fuel ih =>
    intro ctx w c' w' h g b
    rw [handleCached_hop] at h
    obtain ⟨s, t, hs, h⟩ := ok_bind h
    have hc := congrFun (CSeg.noBuf_cachedIter (pos - 1) ctx) w
    rw [bind_of_ok hs] at hc
    cases s with
    | fin c =>
      simp only [pure_apply] at h hc
      injection h with h1 h2
      injection h1 with h1
      subst h1 h2
      refine ⟨g.acts ++ b.toList, Reach.step (not_done_ret _ _ _) ?_⟩
      simp only [stepG, G.ret, retStep]
      rw [bind_of_ok hc]
      simp [CSeg.go, G.ret, noBuf_noBuf]
    | up c =>
      simp only [pure_apply] at h hc
      obtain ⟨c1, t1, h1, h⟩ := ok_bind h
      obtain ⟨a, ha⟩ := hu c t c1 t1 h1 { g with acts := g.acts ++ b.toList, stack := (pos, .cached) :: g.stack }
      obtain ⟨a', ha'⟩ := ih c1 t1 c' w' h { g with acts := a } none
      refine ⟨a', (Reach.step (not_done_ret _ _ _) ?_).trans (ha.trans ha')⟩
      simp only [stepG, G.ret, retStep]
      rw [bind_of_ok hc]
      rfl

theorem reach_frame {fuel i pos : Nat} (hi : i = pos - 1) {nb : Nb} (hu : Runs nb.upLower .up (pos - 1)) (en : Bool) (ctx : Ctx)
    (w : World) (c' : Ctx) (w' : World) (h : frameLower fuel i en nb ctx w = (.ok c', w')) (g g0 : G)
    (hd : ¬ g0.Done) (hs : stepG g0 w = frameStep pos en ctx g w) :
    ∃ a, Reach (g0, w) ({ g with acts := a }.ret c' none, w') := by
  subst hi
  simp only [frameLower] at h
  obtain ⟨r, t, hr, h⟩ := ok_bind h
  simp only [frameStep] at hs
  rw [bind_of_ok hr] at hs
  cases r with
  | true =>
    simp only [if_true] at h hs
    obtain ⟨a, ha⟩ := hu ctx t c' w' h g
    exact ⟨a, (Reach.step hd (by rw [hs]; rfl)).trans ha⟩
  | false =>
    simp only [Bool.false_eq_true, if_false] at h hs
    cases hb : ctx.buf with
    | none =>
      rw [hb] at h hs
      simp only [pure_apply] at h hs
      injection h with h1 h2
      injection h1 with h1
      subst h1 h2
      exact ⟨g.acts, Reach.step hd hs⟩
    | some ub =>
      rw [hb] at h hs
      simp only at h hs
      cases en with
      | false =>
        simp only [Bool.false_eq_true, if_false, pure_apply] at h hs
        obtain ⟨a, ha⟩ := hu ctx t c' w' h g
        exact ⟨a, (Reach.step hd hs).trans ha⟩
      | true =>
        simp only [if_true] at h hs
        obtain ⟨c1, t1, h1, h⟩ := ok_bind h
        have hcur : ∃ a, Reach (g0, w) ({ { g with acts := a } with stack := (pos, .cached) :: g.stack }.ret c1 none, t1) := by
          cases fuel with
          | zero => simp [handleCached] at h
          | succ fuel =>
            rw [handleCurrent_hop] at h1
            obtain ⟨s, t2, hcur, h1⟩ := ok_bind h1
            rw [bind_of_ok hcur] at hs
            cases s with
            | fin c =>
              simp only [pure_apply] at h1
              injection h1 with h1 h2
              injection h1 with h1
              subst h1 h2
              exact ⟨g.acts, Reach.step hd hs⟩
            | tail c =>
              obtain ⟨a, ha⟩ := hu c t2 c1 t1 h1 { g with stack := (pos, .cached) :: g.stack }
              exact ⟨a, (Reach.step hd hs).trans ha⟩
            | more c rest =>
              obtain ⟨c2, t3, h3, h1⟩ := ok_bind h1
              obtain ⟨a, ha⟩ := hu c t2 c2 t3 h3 { g with stack := (pos, .cur rest) :: (pos, .cached) :: g.stack }
              obtain ⟨a', ha'⟩ := reach_current rfl hu fuel c2 rest t3 c1 t1 h1
                { g with acts := a, stack := (pos, .cached) :: g.stack } none
              exact ⟨a', (Reach.step hd hs).trans (ha.trans ha')⟩
        obtain ⟨a, ha⟩ := hcur
        obtain ⟨a', ha'⟩ := reach_cached rfl hu fuel c1 t1 c' w' h { g with acts := a } none
        exact ⟨a', ha.trans ha'⟩

/-- A call of the model that returns: the goroutine, left alone, does the same to the world and returns. -/
theorem solo_call (fuel : Nat) : ∀ (dir : Dir) (pos : Nat), Runs (call fuel dir pos) dir pos := by
  induction fuel with
  | zero => intro dir pos ctx w c' w' h; simp [call] at h
  | succ fuel ih =>
    intro dir pos ctx w c' w' h g
    simp only [call] at h
    rw [bind_of_ok (get_apply w)] at h
    have hs : stepG (g.call dir pos ctx) w = callStep dir pos ctx (g.call dir pos ctx) w := rfl
    simp only [callStep] at hs
    rw [bind_of_ok (get_apply w)] at hs
    have hd := not_done_call g dir pos ctx
    have hgo : ∀ (n : Next) (nb : Nb) (t : World), Runs nb.upLower .up (pos - 1) → Runs nb.downUpper .down (pos + 1) →
        Runs nb.upUpper .down (pos - 1) → dispatch nb n t = (.ok c', w') →
        stepG (g.call dir pos ctx) w = (.ok (n.go pos (g.call dir pos ctx)), t) →
        ∃ a, Reach (g.call dir pos ctx, w) ({ g with acts := a }.ret c' none, w') := by
      intro n nb t h1 h2 h3 hn hst
      cases n with
      | stop c =>
        simp only [dispatch, pure_apply] at hn
        injection hn with h1 h2
        injection h1 with h1
        subst h1 h2
        exact ⟨g.acts, Reach.step hd hst⟩
      | up c =>
        obtain ⟨a, ha⟩ := h1 c t c' w' hn g
        exact ⟨a, (Reach.step hd hst).trans ha⟩
      | down c =>
        obtain ⟨a, ha⟩ := h2 c t c' w' hn g
        exact ⟨a, (Reach.step hd hst).trans ha⟩
      | upDown c =>
        obtain ⟨a, ha⟩ := h3 c t c' w' hn g
        exact ⟨a, (Reach.step hd hst).trans ha⟩
    by_cases h0 : pos = 0
    · simp only [h0, if_true] at h hs
      cases dir with
      | up =>
        simp only at h hs
        rw [upperDeck_hop] at h
        obtain ⟨a, t, ha, h⟩ := ok_bind h
        simp only [pure_apply] at h
        injection h with h1 h2
        injection h1 with h1
        subst h1 h2
        refine ⟨g.acts ++ a.toList, ?_⟩
        rw [h0]
        rw [bind_of_ok ha] at hs
        refine Reach.step (not_done_call _ _ _ _) ?_
        rw [hs]
        simp [G.ret, G.call]
      | down =>
        simp only [pure_apply] at h hs
        injection h with h1 h2
        injection h1 with h1
        subst h1 h2
        rw [h0]
        exact ⟨g.acts, Reach.step (not_done_call _ _ _ _) hs⟩
    · rw [if_neg h0] at h hs
      by_cases hn : pos > w.n
      · rw [if_pos hn] at h hs
        cases dir with
        | down =>
          simp only at h hs
          have hl := congrFun (lowerDeck_hop ctx) w
          rw [bind_of_ok h] at hl
          obtain ⟨a, t, ha, hl⟩ := ok_bind hl.symm
          simp only [pure_apply] at hl
          injection hl with h1 h2
          injection h1 with h1
          subst h2
          refine ⟨g.acts ++ a.toList, Reach.step hd ?_⟩
          rw [hs, bind_of_ok ha]
          simp [G.ret, G.call, h1]
        | up =>
          simp only [pure_apply] at h hs
          injection h with h1 h2
          injection h1 with h1
          subst h1 h2
          exact ⟨g.acts, Reach.step hd hs⟩
      · rw [if_neg hn] at h hs
        cases dir with
        | down =>
          simp only at h hs
          rw [onUpper_hop] at h
          obtain ⟨n, t, hn, h⟩ := ok_bind h
          rw [bind_of_ok hn] at hs
          exact hgo n _ t (ih _ _) (ih _ _) (ih _ _) h hs
        | up =>
          simp only at h hs
          by_cases hf : (w.procs (pos - 1)).kind.isFrame = true
          · simp only [hf, if_true] at hs
            have hfl : frameLower fuel (pos - 1) (w.procs (pos - 1)).enable
                { upLower := call fuel .up (pos - 1), downUpper := call fuel .down (pos + 1), upUpper := call fuel .down (pos - 1) }
                ctx w = (.ok c', w') := by
              rw [← h]
              cases hk : (w.procs (pos - 1)).kind <;> simp [hk, Kind.isFrame] at hf
              simp [onLower, hk]
            obtain ⟨a, ha⟩ := reach_frame rfl (ih .up (pos - 1)) _ ctx w c' w' hfl (g.call .up pos ctx) _ hd hs
            exact ⟨a, ha⟩
          · have hf' : (w.procs (pos - 1)).kind.isFrame = false := by
              cases hx : (w.procs (pos - 1)).kind.isFrame
              · rfl
              · exact absurd hx hf
            simp only [hf', Bool.false_eq_true, if_false] at hs
            rw [onLower_hop _ _ _ _ _ hf'] at h
            obtain ⟨n, t, hn, h⟩ := ok_bind h
            rw [bind_of_ok hn] at hs
            exact hgo n _ t (ih _ _) (ih _ _) (ih _ _) h hs

/-- A job of the model that returns: the goroutine, left alone, does the same to the world. -/
theorem solo_job {fuel : Nat} {j : Job} {w w' : World} (h : j.run fuel w = (.ok (), w')) (js : List Job) (a : List Act) :
    ∃ a', Reach ({ G.new (j :: js) with acts := a }, w) ({ G.new js with acts := a' }, w') := by
  have hd : ¬ ({ G.new (j :: js) with acts := a } : G).Done := by simp [G.Done, G.new]
  have fin : ∀ (d : Dir) (p : Nat) (c c' : Ctx) (t : World), call fuel d p c t = (.ok c', w') →
      stepG { G.new (j :: js) with acts := a } w = (.ok ({ G.new js with acts := a }.call d p c), t) →
      ∃ a', Reach ({ G.new (j :: js) with acts := a }, w) ({ G.new js with acts := a' }, w') := by
    intro d p c c' t hc hs
    obtain ⟨a', ha⟩ := solo_call fuel d p c t c' w' hc { G.new js with acts := a }
    refine ⟨a', ((Reach.step hd hs).trans ha).trans (Reach.step (not_done_ret _ _ _) ?_)⟩
    simp [stepG, G.ret, retStep, G.new]
  have hs : stepG { G.new (j :: js) with acts := a } w = idleStep { G.new (j :: js) with acts := a } w := rfl
  simp only [idleStep, G.new] at hs
  cases j with
  | send conn data session =>
    simp only [Job.run, Stack.send] at h
    obtain ⟨c', t, hc, h⟩ := ok_bind h
    simp only [pure_apply] at h
    injection h with _ h
    subst h
    exact fin _ _ _ _ _ hc hs
  | recv c bs =>
    simp only [Job.run, receive] at h
    simp only [Job.start] at hs
    rw [bind_of_ok (get_apply w)] at h
    obtain ⟨ub, t, hu, h⟩ := ok_bind h
    obtain ⟨r, t', hr, h⟩ := ok_bind h
    simp only [bind_assoc'] at hs
    rw [bind_of_ok (get_apply w), bind_of_ok hu, bind_of_ok hr] at hs
    by_cases hz : r.1.1 = 0 ∨ r.1.2.isSome = true
    · rw [if_pos hz] at h hs
      rw [bind_of_ok (by rw [bind_of_ok h]; rfl)] at hs
      exact ⟨a, Reach.step hd hs⟩
    · rw [if_neg hz] at h hs
      obtain ⟨c', t2, hc, h⟩ := ok_bind h
      simp only [pure_apply] at h
      injection h with _ h
      subst h
      exact fin _ _ _ _ _ hc hs
  | recvRef c v =>
    simp only [Job.run, receiveRef] at h
    simp only [Job.start] at hs
    rw [bind_of_ok (get_apply w)] at h
    simp only [bind_assoc'] at hs
    rw [bind_of_ok (get_apply w)] at hs
    by_cases hz : v = .nil
    · rw [if_pos hz] at h hs
      rw [bind_of_ok (by rw [bind_of_ok h]; rfl)] at hs
      exact ⟨a, Reach.step hd hs⟩
    · rw [if_neg hz] at h hs
      obtain ⟨c', t2, hc, h⟩ := ok_bind h
      simp only [pure_apply] at h
      injection h with _ h
      subst h
      exact fin _ _ _ _ _ hc hs
  | control i c tag =>
    simp only [Job.run, sendControl] at h
    simp only [Job.start] at hs
    rw [bind_of_ok (get_apply w)] at h
    obtain ⟨ub, t, hu, h⟩ := ok_bind h
    obtain ⟨r, t', hr, h⟩ := ok_bind h
    simp only [bind_assoc'] at hs
    rw [bind_of_ok (get_apply w), bind_of_ok hu, bind_of_ok hr] at hs
    obtain ⟨c', t2, hc, h⟩ := ok_bind h
    simp only [pure_apply] at h
    injection h with _ h
    subst h
    exact fin _ _ _ _ _ hc hs

/-- The work of the model for a list of jobs, one after the other. -/
def runJobs (fuel : Nat) : List Job → GoM World Unit
  | [] => Pure.pure ()
  | j :: js => do
    j.run fuel
    runJobs fuel js

theorem solo_jobs {fuel : Nat} {js : List Job} {w w' : World} (h : runJobs fuel js w = (.ok (), w')) :
    ∃ a, Reach (G.new js, w) ({ G.new [] with acts := a }, w') := by
  have gen : ∀ (js : List Job) (w : World) (a : List Act), runJobs fuel js w = (.ok (), w') →
      ∃ a', Reach ({ G.new js with acts := a }, w) ({ G.new [] with acts := a' }, w') := by
    intro js
    induction js with
    | nil =>
      intro w a h
      injection h with _ h
      subst h
      exact ⟨a, Reach.refl _⟩
    | cons j js ih =>
      intro w a h
      obtain ⟨_, t, h1, h2⟩ := ok_bind h
      obtain ⟨a1, r1⟩ := solo_job h1 js a
      obtain ⟨a2, r2⟩ := ih t a1 h2
      exact ⟨a2, r1.trans r2⟩
  exact gen js w [] h

/-- A goroutine that is alone ends in one way only. -/
theorem solo_unique {s t u : G × World} (h1 : Reach s t) (h2 : Reach s u) (d1 : t.1.Done) (d2 : u.1.Done) : t = u := by
  obtain ⟨a, ha⟩ := h1
  obtain ⟨b, hb⟩ := h2
  have stop : ∀ (x : G × World) (k : Nat), x.1.Done → k ≠ 0 → solo x k = none := by
    intro x k hx hk
    obtain ⟨k, rfl⟩ := Nat.exists_eq_succ_of_ne_zero hk
    rw [Nat.succ_eq_add_one, Nat.add_comm, solo_add]
    simp [solo, soloStep, hx]
  rcases Nat.lt_trichotomy a b with h | h | h
  · obtain ⟨k, rfl⟩ := Nat.exists_eq_add_of_lt h
    rw [Nat.add_assoc, solo_add, ha] at hb
    rw [Option.bind_some, stop _ _ d1 (Nat.succ_ne_zero k)] at hb
    simp at hb
  · subst h
    rw [ha] at hb
    injection hb
  · obtain ⟨k, rfl⟩ := Nat.exists_eq_add_of_lt h
    rw [Nat.add_assoc, solo_add, hb] at ha
    rw [Option.bind_some, stop _ _ d2 (Nat.succ_ne_zero k)] at ha
    simp at ha

end Verif.Stack
