import Verif.Stack.Unasked

/-!
# C87: a server and its clients

A stack whose connections each have their receive goroutine, whose endpoints send and whose Heartbeat beats, all at the same time
(`Stack.Machine`, any schedule).  Every read brings whole packets.  Then the endpoints are handed every message, once, in
the order of its connection, every message sent is one write of its bytes, and everything comes to an end.
-/

namespace Verif.Stack
open UBuf (St Err Heap WriteRes ReadRes)
open GoM

/-! ## Closed connections -/

/-- The closings so far. -/
def closings (w : World) : List Obs := w.trace.filter Obs.isClosed

/-- A step that closes a connection starts on a message or writes. -/
theorem stepG_closings {g g' : G} {w w' : World} (h : stepG g w = (.ok g', w')) : closings w' = closings w ∨
    (∃ j js r, g.focus = .idle ∧ g.jobs = j :: js ∧ j.start w = (.ok r, w')) ∨
    ∃ pos ctx a, g.focus = .call .down pos ctx ∧ pos ≠ 0 ∧ pos > w.n ∧ lowerDeckN ctx w = (.ok a, w') := by
  have loc : ∀ {i : Nat} {α : Type} {m : GoM World α} {f : α → G} (_ : (m >>= fun x => Pure.pure (f x)) w = (.ok g', w'))
      (_ : OnlyAt i w (m w).2), closings w' = closings w := by
    intro i α m f h hl
    obtain ⟨x, t, hx, h⟩ := ok_bind h
    rw [hx] at hl
    injection h with h1 h2; subst h2
    exact hl.closed.symm
  have triv : ∀ {x : G}, (Pure.pure x : GoM World G) w = (.ok g', w') → closings w' = closings w := by
    intro x h
    injection h with h1 h2; subst h2; rfl
  cases hf : g.focus with
  | idle =>
    simp only [stepG, hf, idleStep] at h
    cases hj : g.jobs with
    | nil => rw [hj] at h; exact .inl (triv h)
    | cons j js =>
      rw [hj] at h
      obtain ⟨r, t, hr, h⟩ := ok_bind h
      have : t = w' := by cases r <;> (injection h with _ h)
      subst this
      exact .inr (.inl ⟨j, js, r, rfl, rfl, hr⟩)
  | ret ctx =>
    simp only [stepG, hf, retStep] at h
    cases hs : g.stack with
    | nil => rw [hs] at h; exact .inl (triv h)
    | cons k st =>
      rw [hs] at h
      obtain ⟨pos, k⟩ := k
      cases k with
      | cur rest => exact .inl (loc h (curIter_local _ _ _ _ w))
      | cached => exact .inl (loc h (cachedIter_local _ _ w))
  | call dir pos ctx =>
    simp only [stepG, hf, callStep] at h
    rw [bind_of_ok (get_apply w)] at h
    by_cases h0 : pos = 0
    · rw [if_pos h0] at h
      cases dir with
      | up =>
        obtain ⟨a, t, ha, h⟩ := ok_bind h
        injection h with h1 h2; subst h2
        refine .inl ?_
        simp only [upperDeckN, ite_apply] at ha
        split at ha
        · injection ha with _ h2; subst h2; rfl
        · rw [bind_of_ok (get_apply w)] at ha
          cases hfe : findEndPoint w.served (optionParseInt (ctx.opts "session") 0).1 <;> simp only [hfe] at ha
          · injection ha with _ h2; subst h2; rfl
          · rw [bind_of_ok (show observe _ w = (.ok (), _) from rfl)] at ha
            injection ha with _ h2; subst h2
            simp [closings, Obs.isClosed]
      | down => exact .inl (triv h)
    · rw [if_neg h0] at h
      by_cases hn : pos > w.n
      · rw [if_pos hn] at h
        cases dir with
        | up => exact .inl (triv h)
        | down =>
          obtain ⟨a, t, ha, h⟩ := ok_bind h
          injection h with h1 h2; subst h2
          exact .inr (.inr ⟨pos, ctx, a, rfl, h0, hn, ha⟩)
      · rw [if_neg hn] at h
        cases dir with
        | down => exact .inl (loc h (onUpperN_local _ ctx w))
        | up =>
          simp only at h
          by_cases hfr : (w.procs (pos - 1)).kind.isFrame = true
          · rw [if_pos hfr] at h
            simp only [frameStep] at h
            cases hc : ctx.conn with
            | none =>
              rw [hc, bind_of_panic (show useReference none w = (.panic, w) from rfl)] at h
              injection h with h _; cases h
            | some c =>
              rw [hc, bind_of_ok (show useReference (some c) w = (.ok (w.conns c).useRef, w) from rfl)] at h
              by_cases hr : (w.conns c).useRef = true
              · rw [if_pos hr] at h; exact .inl (triv h)
              · rw [if_neg hr] at h
                cases hb : ctx.buf with
                | none => rw [hb] at h; exact .inl (triv h)
                | some ub =>
                  rw [hb] at h
                  simp only at h
                  by_cases hen : (w.procs (pos - 1)).enable = true
                  · rw [if_pos hen] at h; exact .inl (loc h (currentN_local _ _ _ w))
                  · rw [if_neg hen] at h; exact .inl (triv h)
          · rw [if_neg hfr] at h
            exact .inl (loc h (onLowerN_local _ ctx w (by simpa using hfr)))

/-- A message that cannot be started on closes its connection, any other closes nothing. -/
theorem start_closings {j : Job} {w w' : World} {r : Option (Dir × Nat × Ctx)} (h : j.start w = (.ok r, w')) :
    (r = none → closings w' ≠ []) ∧ (r ≠ none → closings w' = closings w) := by
  have close : ∀ c, closings (w.close c) ≠ [] := fun c => by simp [closings, World.close, Obs.isClosed]
  cases j with
  | send conn data session =>
    injection h with h1 h; subst h; injection h1 with h1; subst h1; exact ⟨nofun, fun _ => rfl⟩
  | recv c bs =>
    simp only [Job.start] at h
    rw [bind_of_ok (get_apply w)] at h
    obtain ⟨ub, t, hu, h0⟩ := ok_bind h
    obtain ⟨x, t', hr, h1⟩ := ok_bind h0
    clear h h0
    have e1 : w = t := by injection hu
    have e2 := onBuf_world ub (UBuf.readFrom fun m => ⟨bs.take m, min m bs.length, none⟩) t
    rw [hr] at e2
    simp only at e2
    subst e1 e2
    rw [ite_apply] at h1
    split at h1
    · rw [bind_of_ok (closeConnection_apply c _)] at h1
      injection h1 with h2 h; subst h; injection h2 with h2; subst h2; exact ⟨fun _ => close c, nofun⟩
    · injection h1 with h2 h; subst h; injection h2 with h2; subst h2; exact ⟨nofun, fun _ => rfl⟩
  | recvRef c v =>
    simp only [Job.start] at h
    rw [bind_of_ok (get_apply w), ite_apply] at h
    split at h
    · rw [bind_of_ok (closeConnection_apply c _)] at h
      injection h with h2 h; subst h; injection h2 with h2; subst h2; exact ⟨fun _ => close c, fun h => absurd rfl h⟩
    · injection h with h2 h; subst h; injection h2 with h2; subst h2; exact ⟨nofun, fun _ => rfl⟩
  | control i c tag =>
    simp only [Job.start] at h
    rw [bind_of_ok (get_apply w)] at h
    obtain ⟨ub, t, hu, h0⟩ := ok_bind h
    obtain ⟨x, t', hr, h1⟩ := ok_bind h0
    clear h h0
    have e1 : w = t := by injection hu
    have e2 := onBuf_world ub (UBuf.writeByte tag) t
    rw [hr] at e2
    simp only at e2
    subst e1 e2
    injection h1 with h2 h; subst h; injection h2 with h2; subst h2; exact ⟨nofun, fun _ => rfl⟩

/-- No write fails. -/
def SureWrites (w : World) : Prop := ∀ t c p, (w.write t c p).err = none

/-- With open connections and writes that succeed, the LowerDeck closes a connection only for a nil object. -/
theorem lowerDeckN_closings {ctx : Ctx} {w w' : World} {a : Option Act} (h : lowerDeckN ctx w = (.ok a, w')) (ho : ∀ c, (w.conns c).closed = false)
    (hs : SureWrites w) : (closings w' = closings w ∧ ∀ c, a ≠ some (.ref c .nil)) ∨ (closings w' ≠ [] ∧ ∃ c, a = some (.ref c .nil)) := by
  rw [lowerDeckN_apply] at h
  repeat' split at h
  all_goals first | (injection h with h1 h2; injection h1 with h1; subst h1 h2) | (injection h with h1 h2; cases h1)
  · exact .inl ⟨rfl, nofun⟩
  · rename_i c _ _
    simp only [World.put, ho c]
    by_cases hv : ctx.msg = .nil
    · refine .inr ⟨?_, c, by rw [hv]⟩
      rw [if_pos (.inr hv)]
      simp [closings, World.close, Obs.isClosed]
    · refine .inl ⟨?_, fun c' h => ?_⟩
      · rw [if_neg (by simp [hv])]
        simp [closings, Obs.isClosed]
      · injection h with h; injection h with _ h; exact hv h
  · exact .inl ⟨rfl, nofun⟩
  · exact .inl ⟨rfl, nofun⟩
  · refine .inl ⟨?_, nofun⟩
    simp [World.asked, ho, hs _ _ _, closings, World.wrote, Obs.isClosed]

/-- A goroutine closes a connection if and only if it does so alone. -/
theorem closings_alike {o : Nat → Mode} {g g' : G} {w v w' v' : World} (hl : Like o w v) (hw : stepG g w = (.ok g', w'))
    (hv : stepG g v = (.ok g', v')) (how : ∀ c, (w.conns c).closed = false) (hov : ∀ c, (v.conns c).closed = false) (hs : SureWrites w)
    (h0 : closings w = []) (hn : closings v' = []) : closings w' = [] := by
  have hs' : SureWrites v := fun t c p => by rw [← hl.write]; exact hs t c p
  rcases stepG_closings hw with h | ⟨j, js, r, h1, h2, h3⟩ | ⟨pos, ctx, a, h1, h2, h3, h4⟩
  · rw [h, h0]
  · have ht := Two.start (o := o) j w v hl
    rw [h3] at ht
    rcases hx : j.start v with ⟨r', t⟩
    rw [hx] at ht
    simp only at ht
    obtain ⟨rfl, _⟩ := ht
    have : t = v' := by
      simp only [stepG, h1, idleStep, h2] at hv
      rw [bind_of_ok hx] at hv
      cases r <;> (injection hv with _ hv)
    subst this
    have hne : r ≠ none := fun e => (start_closings hx).1 e hn
    rw [(start_closings h3).2 hne, h0]
  · have ht := Two.lowerDeckN (o := o) ctx w v hl
    rw [h4] at ht
    rcases hx : lowerDeckN ctx v with ⟨r', t⟩
    rw [hx] at ht
    simp only at ht
    obtain ⟨rfl, _⟩ := ht
    have : t = v' := by
      simp only [stepG, h1, callStep] at hv
      rw [bind_of_ok (get_apply v), if_neg h2, if_pos (by rw [← hl.n]; exact h3)] at hv
      rw [bind_of_ok hx] at hv
      injection hv with _ hv
    subst this
    rcases lowerDeckN_closings h4 how hs with ⟨e, _⟩ | ⟨_, c, hc⟩
    · rw [e, h0]
    · rcases lowerDeckN_closings hx hov hs' with ⟨_, e⟩ | ⟨e, _⟩
      · exact absurd hc (e c)
      · exact absurd hn e

theorem solo_closings {s t : G × World} {k : Nat} (h : solo s k = some t) : ∃ x, closings t.2 = closings s.2 ++ x := by
  induction k generalizing t with
  | zero => injection h with h; subst h; exact ⟨[], by simp⟩
  | succ k ih =>
    simp only [solo] at h
    cases hk : solo s k with
    | none => rw [hk] at h; cases h
    | some u =>
      rw [hk] at h
      obtain ⟨x, hx⟩ := ih hk
      obtain ⟨⟨a, _, he⟩, _⟩ := stepG_effect (soloStep_some (show soloStep (u.1, u.2) = some (t.1, t.2) from h)).2
      obtain ⟨y, hy⟩ := he.closed
      exact ⟨x ++ y, by rw [← List.append_assoc, ← hx]; exact hy⟩

/-- **C86, everything, with writes that succeed**: no connection is closed if none is closed in the runs one by one; so deliveries, writes and
references together are those of the runs one by one. -/
theorem c86_sure_partial {w0 : World} (h0 : w0.trace = []) (hopen : ∀ c, (w0.conns c).closed = false) (hsure : SureWrites w0)
    {jobs : List (List Job)} {m : Nat → Nat → Mode} (hm : Modes m w0)
    (apart : ∀ i js, jobs[i]? = some js → Apart (m i) js w0) {fuel : Nat} {alone : List Job → World}
    (ha : ∀ js ∈ jobs, runJobs fuel js w0 = (.ok (), alone js)) (hca : ∀ js ∈ jobs, ∀ c, Obs.closed c ∉ (alone js).trace)
    {sched : List Nat} {s : Sys} (hs : (Sys.init w0 jobs).exec sched = some s) :
    closings s.w = [] ∧ ((∀ g ∈ s.gs, g.Done) → (actsOf s.w.trace).Perm (jobs.flatMap fun js => actsOf (alone js).trace) ∧
      ∀ js ∈ jobs, (actsOf (alone js).trace).Sublist (actsOf s.w.trace)) := by
  have nil : ∀ t : List Obs, (∀ c, Obs.closed c ∉ t) → t.filter Obs.isClosed = [] := by
    intro t h
    rw [List.filter_eq_nil_iff]
    intro o ho
    cases o <;> simp [Obs.isClosed]
    exact h _ ho
  -- alone no connection is closed at any time
  have quiet : ∀ js ∈ jobs, ∀ k g v, solo (G.new js, w0) k = some (g, v) → closings v = [] := by
    intro js hjs k g v hk
    obtain ⟨a, K, hK⟩ := solo_jobs (ha js hjs)
    have hle := solo_stops hK (by simp [G.Done, G.new]) hk
    obtain ⟨d, rfl⟩ := Nat.exists_eq_add_of_le hle
    rw [solo_add, hk] at hK
    obtain ⟨x, hx⟩ := solo_closings hK
    rw [show closings (alone js) = [] from nil _ (hca js hjs)] at hx
    exact (List.append_eq_nil_iff.mp hx.symm).1
  have none' : ∀ sched s, (Sys.init w0 jobs).exec sched = some s → closings s.w = [] := by
    intro sched
    induction sched using Trace.snoc_induction with
    | h0 => intro s hs; injection hs with hs; subst hs; simp [Sys.init, closings, h0]
    | h1 sched i ih =>
      intro s hs
      obtain ⟨t, htr, hst⟩ := Trace.exec_snoc hs
      have hn := ih t htr
      have hop := ((merged_exec h0 htr).all hopen hn).2.2
      obtain ⟨ht, hlen⟩ := track_exec hm apart sched t htr
      simp only [Sys.step] at hst
      cases hg : t.gs[i]? with
      | none => rw [hg] at hst; cases hst
      | some g =>
        rw [hg] at hst
        simp only [Option.map_eq_some_iff] at hst
        obtain ⟨⟨g', w'⟩, hstep, rfl⟩ := hst
        have hi : i < jobs.length := by rw [← hlen]; exact (List.getElem?_eq_some_iff.mp hg).1
        have hji : jobs[i]? = some jobs[i] := List.getElem?_eq_getElem hi
        obtain ⟨gi, vi, hgi, hsi, hli⟩ := ht i _ hji
        rw [hg] at hgi
        injection hgi with hgi
        subst hgi
        change solo (G.new jobs[i], w0) (sched.count i) = some (g, vi) at hsi
        obtain ⟨v', hv', _⟩ := (soloStep_alike hli (apart i _ hji _ g vi hsi)).1 g' w' hstep
        have hsi' : solo (G.new jobs[i], w0) (sched.count i + 1) = some (g', v') := by rw [solo, hsi]; exact hv'
        have hq := quiet _ (List.getElem_mem hi) _ _ _ hsi
        have hov := ((solo_merged h0 _ _ hsi).all hopen hq).2.2
        refine closings_alike hli (soloStep_some hstep).2 (soloStep_some hv').2 hop hov ?_ hn (quiet _ (List.getElem_mem hi) _ _ _ hsi')
        intro x c p
        have e1 := (solo_like hsi).write
        rw [hli.write, ← e1]
        exact hsure x c p
  refine ⟨none' sched s hs, fun hdone => ?_⟩
  refine c86_all_partial h0 hopen hm apart hs hdone ha (fun c hc => ?_) hca
  have := none' sched s hs
  have hmem : Obs.closed c ∈ closings s.w := List.mem_filter.mpr ⟨hc, rfl⟩
  rw [this] at hmem
  cases hmem

/-! ## The work of the goroutines -/

/-- What a goroutine does next: a receive goroutine reads these packets, in one read; an endpoint or a Heartbeat sends one. -/
inductive Task where
  | read (c : ConnId) (ps : List Packet)
  | put (c : ConnId) (p : Packet)

/-- As a job of the machine. -/
def Task.job (w : World) (k : Nat) : Task → Job
  | .read c ps => .recv c (packets w k ps)
  | .put c (.msg x) => .send (some c) x.v x.s
  | .put c (.beat h) => .control h c 0x83

/-- What it must amount to: every message read is handed to its endpoint, every packet sent is one write. -/
def Task.acts (w : World) (k : Nat) : Task → List Act
  | .read c ps => ps.filterMap fun
    | .msg x => some (.deliver x.ep (some c) x.v)
    | .beat _ => none
  | .put c p => [.write c (p.bytes w k)]

/-- What the stack can be asked to do: a read brings packets that fit the read buffer, several only to a FrameDecoder; a packet
sent fits. -/
def Task.Ok (w : World) (k : Nat) : Task → Prop
  | .read c ps => ps ≠ [] ∧ (∀ p ∈ ps, p.Ok w w k) ∧ ((packets w k ps).length : Int) ≤ w.mtu ∧ (w.conns c).useRef = false ∧
    (ps.length = 1 ∨ (k + 1 < w.n ∧ Frames (w.procs (w.n - 1))))
  | .put c p => (∃ b, p.Ok w b k) ∧ (w.conns c).useRef = false

theorem SameProc.frames_back {p q : Proc} (h : SameProc p q) (hp : Frames p) : Frames q := by
  obtain ⟨en, k⟩ := p
  obtain ⟨en', k'⟩ := q
  obtain ⟨h1, h2⟩ := h
  simp only at h1
  subst h1
  cases k <;> cases k' <;> simp_all [Kind.Same, Frames]

theorem Task.job_moved {w w' : World} {o : List Obs} (hm : Moved o w w') (k : Nat) (t : Task) : t.job w' k = t.job w k := by
  rcases t with ⟨c, ps⟩ | ⟨c, x | h⟩
  · simp only [Task.job, packets_moved hm]
  · rfl
  · rfl

theorem Task.acts_moved {w w' : World} {o : List Obs} (hm : Moved o w w') (k : Nat) (t : Task) : t.acts w' k = t.acts w k := by
  rcases t with ⟨c, ps⟩ | ⟨c, p⟩
  · rfl
  · simp only [Task.acts, p.bytes_moved hm]

theorem Task.Ok.moved {w w' : World} {o : List Obs} {k : Nat} {t : Task} (h : t.Ok w k) (hm : Moved o w w') : t.Ok w' k := by
  rcases t with ⟨c, ps⟩ | ⟨c, p⟩
  · obtain ⟨h1, h2, h3, h4, h5⟩ := h
    refine ⟨h1, fun p hp => (h2 p hp).moved hm hm, by rw [packets_moved hm, hm.mtu]; exact h3, by rw [hm.conns]; exact h4, ?_⟩
    rw [hm.n]
    exact h5.imp_right fun h => ⟨h.1, (hm.same _).frames_back h.2⟩
  · obtain ⟨⟨b, h1⟩, h2⟩ := h
    exact ⟨⟨b, h1.moved hm (.refl b)⟩, by rw [hm.conns]; exact h2⟩

theorem Task.Ok.fair {w : World} {k : Nat} {t : Task} (h : t.Ok w k) : (t.job w k).Fair w k := by
  rcases t with ⟨c, ps⟩ | ⟨c, x | x⟩
  · exact ⟨ps, rfl, h⟩
  · trivial
  · trivial

/-- Fuel for a list of tasks. -/
def tasksFuel (w : World) (ts : List Task) : Nat :=
  w.n + 2 + (ts.map fun | .read _ ps => ps.length | .put _ _ => 0).sum

theorem Task.run_ok {w : World} {k : Nat} (hcar : Carrier w k) (hopen : ∀ c, (w.conns c).closed = false)
    (hw : ∀ t c q, (w.write t c q).err = none ∧ (w.write t c q).n ≤ q.length) {t : Task} (hok : t.Ok w k) {fuel : Nat}
    (hf : tasksFuel w [t] ≤ fuel) :
    ∃ w' o, (t.job w k).run fuel w = (.ok (), w') ∧ Moved o w w' ∧ actsOf o = t.acts w k ∧ ∀ c, Obs.closed c ∉ o := by
  rcases t with ⟨c, ps⟩ | ⟨c, p⟩
  · obtain ⟨h1, h2, h3, h4, h5⟩ := hok
    simp only [tasksFuel, List.map_cons, List.map_nil, List.sum_cons, List.sum_nil] at hf
    have hrun : ∃ w', receive fuel c (packets w k ps) w = (.ok (), w') ∧ Moved (ps.map (Packet.arrives c)) w w' := by
      rcases h5 with h5 | h5
      · match ps, h5 with
        | [p], _ =>
          simp only [packets, List.map_cons, List.map_nil, List.flatten_cons, List.flatten_nil, List.append_nil] at h3 ⊢
          exact receive_packet w k hcar p (h2 p (by simp)) c h4 h3 fuel (by simp at hf; omega)
      · exact receive_packets w k hcar h5.1 h5.2 ps h1 h2 c h4 h3 fuel (by omega)
    obtain ⟨w', r1, r2⟩ := hrun
    refine ⟨w', _, r1, r2, ?_, ?_⟩
    · simp only [actsOf, Task.acts, List.filterMap_map]
      congr 1
      funext p
      cases p <;> rfl
    · intro c' hc
      obtain ⟨p, _, hp⟩ := List.mem_map.mp hc
      cases p <;> cases hp
  · obtain ⟨⟨b, h1⟩, h2⟩ := hok
    simp only [tasksFuel, List.map_cons, List.map_nil, List.sum_cons, List.sum_nil] at hf
    obtain ⟨w', r1, r2⟩ := packet_on_the_wire w b k hcar p h1 c h2 (hopen c) (fun t q => hw t c q) fuel (by omega)
    refine ⟨w', _, ?_, r2, rfl, by simp⟩
    cases p <;> exact r1

theorem Task.runs {k : Nat} : ∀ (ts : List Task) {w : World}, Carrier w k → (∀ c, (w.conns c).closed = false) →
    (∀ t c q, (w.write t c q).err = none ∧ (w.write t c q).n ≤ q.length) → (∀ t ∈ ts, t.Ok w k) → ∀ {fuel : Nat}, tasksFuel w ts ≤ fuel →
    ∃ w' o, runJobs fuel (ts.map (Task.job w k)) w = (.ok (), w') ∧ Moved o w w' ∧ actsOf o = ts.flatMap (Task.acts w k) ∧
      ∀ c, Obs.closed c ∉ o
  | [], w, _, _, _, _, _, _ => ⟨w, [], rfl, .refl w, rfl, by simp⟩
  | t :: ts, w, hcar, hopen, hw, hok, fuel, hf => by
    have hf1 : tasksFuel w [t] ≤ fuel := by simp only [tasksFuel, List.map_cons, List.map_nil, List.sum_cons, List.sum_nil] at hf ⊢; omega
    have hf2 : tasksFuel w ts ≤ fuel := by simp only [tasksFuel, List.map_cons, List.sum_cons] at hf ⊢; omega
    obtain ⟨w1, o1, r1, m1, a1, c1⟩ := Task.run_ok hcar hopen hw (hok t (by simp)) hf1
    obtain ⟨w2, o2, r2, m2, a2, c2⟩ := Task.runs ts (hcar.moved m1) (by rw [m1.conns]; exact hopen) (by rw [m1.write]; exact hw)
      (fun t h => (hok t (List.mem_cons_of_mem _ h)).moved m1) (fuel := fuel) (by simpa only [tasksFuel, m1.n] using hf2)
    have e1 : ts.map (Task.job w1 k) = ts.map (Task.job w k) := List.map_congr_left fun t _ => t.job_moved m1 k
    have e2 : ts.flatMap (Task.acts w1 k) = ts.flatMap (Task.acts w k) := by
      rw [List.flatMap_def, List.flatMap_def]
      exact congrArg _ (List.map_congr_left fun t _ => t.acts_moved m1 k)
    rw [e1] at r2
    rw [e2] at a2
    refine ⟨w2, o1 ++ o2, ?_, m1.trans m2, ?_, ?_⟩
    · rw [List.map_cons, runJobs, bind_of_ok r1]
      exact r2
    · simp only [actsOf, List.filterMap_append, List.flatMap_cons] at a1 a2 ⊢
      rw [a1, a2]
    · intro c hc
      rcases List.mem_append.mp hc with h | h
      · exact c1 c h
      · exact c2 c h

/-! ## All together -/

/-- A stack that carries messages and may be shared: open connections on which writes succeed, FrameDecoders with more room than a read
can bring, user functions that are decent with buffers. -/
structure Serves (caps : Nat → Nat) (k : Nat) (w : World) : Prop where
  carrier : Carrier w k
  roomy : Roomy caps w
  decent : Decent w
  codec : (w.procs k).kind ≠ .loopback
  fresh : w.trace = []
  isOpen : ∀ c, (w.conns c).closed = false
  write : ∀ t c q, (w.write t c q).err = none ∧ (w.write t c q).n ≤ q.length

theorem le_sum {x : Nat} : ∀ {l : List Nat}, x ∈ l → x ≤ l.sum
  | y :: l, h => by
    rw [List.sum_cons]
    rcases List.mem_cons.mp h with rfl | h
    · omega
    · have := le_sum h; omega

/-- The goroutines of these tasks. -/
def serve (w : World) (k : Nat) (ts : List (List Task)) : Sys := Sys.init w (ts.map fun l => l.map (Task.job w k))

/-- **C87**: any number of goroutines that read and send, under any schedule: it comes to an end; nobody panics or gets stuck (who
cannot make a step has nothing left to do); no connection is closed; the endpoints have been handed every message read, each once, and
every packet sent was one write of its bytes; and all this in the order of the goroutine it belongs to. -/
theorem c87_server {caps : Nat → Nat} {k : Nat} {w : World} (h : Serves caps k w) (ts : List (List Task))
    (hok : ∀ l ∈ ts, ∀ t ∈ l, t.Ok w k) :
    ∃ B, ∀ sched s, (serve w k ts).exec sched = some s → sched.length ≤ B ∧ (∀ c, Obs.closed c ∉ s.w.trace) ∧
      ((∀ i, s.step i = none) → (∀ g ∈ s.gs, g.Done)) ∧
      ((∀ g ∈ s.gs, g.Done) → (actsOf s.w.trace).Perm (ts.flatMap fun l => l.flatMap (Task.acts w k)) ∧
        ∀ l ∈ ts, (l.flatMap (Task.acts w k)).Sublist (actsOf s.w.trace)) := by
  let job := fun l : List Task => l.map (Task.job w k)
  let fuel := (ts.map (tasksFuel w)).sum
  have hfuel : ∀ l ∈ ts, tasksFuel w l ≤ fuel := fun l hl =>
    le_sum (List.mem_map.mpr ⟨l, hl, rfl⟩)
  have hrun : ∀ l ∈ ts, runJobs fuel (job l) w = (.ok (), (runJobs fuel (job l) w).2) ∧
      actsOf (runJobs fuel (job l) w).2.trace = l.flatMap (Task.acts w k) ∧ ∀ c, Obs.closed c ∉ (runJobs fuel (job l) w).2.trace := by
    intro l hl
    obtain ⟨w', o, r, m, a, c⟩ := Task.runs l h.carrier h.isOpen h.write (hok l hl) (hfuel l hl)
    have ht : w'.trace = o := by rw [m.trace, h.fresh, List.nil_append]
    simp only [job, r, ht]
    exact ⟨trivial, a, c⟩
  have ha : ∀ js ∈ ts.map job, runJobs fuel js w = (.ok (), (runJobs fuel js w).2) := by
    intro js hjs
    obtain ⟨l, hl, rfl⟩ := List.mem_map.mp hjs
    exact (hrun l hl).1
  have hca : ∀ js ∈ ts.map job, ∀ c, Obs.closed c ∉ (runJobs fuel js w).2.trace := by
    intro js hjs
    obtain ⟨l, hl, rfl⟩ := List.mem_map.mp hjs
    exact (hrun l hl).2.2
  have hm := resting_modes h.roomy
  have apart : ∀ (i : Nat) (js : List Job), (ts.map job)[i]? = some js → Apart (resting caps w) js w := by
    intro i js hi
    obtain ⟨l, hl, rfl⟩ := List.mem_map.mp (List.mem_of_getElem? hi)
    refine apart_rest h.roomy h.decent (fair_unasked h.carrier h.codec h.roomy h.decent fun j hj => ?_)
    obtain ⟨t, ht, rfl⟩ := List.mem_map.mp hj
    exact (hok l hl t ht).fair
  obtain ⟨B, hB⟩ := c86_ends_partial hm apart ha
  refine ⟨B, fun sched s hs => ?_⟩
  obtain ⟨b1, b2⟩ := hB sched s hs
  obtain ⟨s1, s2⟩ := c86_sure_partial h.fresh h.isOpen (fun t c p => (h.write t c p).1) hm apart ha hca hs
  refine ⟨b1, fun c hc => ?_, b2, fun hd => ?_⟩
  · have hmem : Obs.closed c ∈ closings s.w := List.mem_filter.mpr ⟨hc, rfl⟩
    rw [s1] at hmem
    cases hmem
  · obtain ⟨p1, p2⟩ := s2 hd
    constructor
    · rw [List.flatMap_map] at p1
      have e : (ts.flatMap fun l => actsOf (runJobs fuel (job l) w).2.trace) = ts.flatMap fun l => l.flatMap (Task.acts w k) := by
        rw [List.flatMap_def, List.flatMap_def]
        exact congrArg _ (List.map_congr_left fun l hl => (hrun l hl).2.1)
      rw [← e]
      exact p1
    · intro l hl
      rw [← (hrun l hl).2.1]
      exact p2 _ (List.mem_map.mpr ⟨l, hl, rfl⟩)

/-! ## One connection -/

/-- What the endpoints have been handed from a connection. -/
def handed (c : ConnId) (as : List Act) : List (EpId × Val) := as.filterMap fun
  | .deliver e (some d) v => if d = c then some (e, v) else none
  | _ => none

/-- What a connection has been asked to write. -/
def written (c : ConnId) (as : List Act) : List (List Byte) := as.filterMap fun
  | .write d p => if d = c then some p else none
  | _ => none

/-- The messages among packets. -/
def messages (ps : List Packet) : List (EpId × Val) := ps.filterMap fun
  | .msg x => some (x.ep, x.v)
  | .beat _ => none

/-- The messages this task reads from a connection. -/
def Task.readOn (c : ConnId) : Task → List (EpId × Val)
  | .read d ps => if d = c then messages ps else []
  | .put _ _ => []

/-- The packets this task sends on a connection. -/
def Task.putOn (c : ConnId) : Task → List Packet
  | .read _ _ => []
  | .put d p => if d = c then [p] else []

theorem Task.handed_acts (w : World) (k : Nat) (c : ConnId) (t : Task) : handed c (t.acts w k) = t.readOn c := by
  rcases t with ⟨d, ps⟩ | ⟨d, p⟩
  · simp only [Task.acts, Task.readOn, handed, List.filterMap_filterMap, messages]
    by_cases e : d = c
    · rw [if_pos e]
      congr 1
      funext p
      cases p <;> simp [e]
    · rw [if_neg e, List.filterMap_eq_nil_iff]
      intro p _
      cases p <;> simp [e]
  · rfl

theorem Task.written_acts (w : World) (k : Nat) (c : ConnId) (t : Task) :
    written c (t.acts w k) = (t.putOn c).map (Packet.bytes w k) := by
  rcases t with ⟨d, ps⟩ | ⟨d, p⟩
  · simp only [Task.acts, Task.putOn, written, List.filterMap_filterMap, List.map_nil, List.filterMap_eq_nil_iff]
    intro p _
    cases p <;> rfl
  · simp only [Task.acts, Task.putOn, written]
    by_cases e : d = c <;> simp [e]

theorem sentBytes_written (c : ConnId) (t : List Obs) : sentBytes c t = (written c (actsOf t)).flatten := by
  induction t with
  | nil => rfl
  | cons o t ih =>
    cases o <;> simp only [sentBytes, actsOf, List.filterMap_cons, Obs.act?, written] at ih ⊢ <;> try exact ih
    split <;> simp_all

theorem filterMap_flatMap' {α β γ : Type} (g : β → Option γ) (f : α → List β) (l : List α) :
    (l.flatMap f).filterMap g = l.flatMap fun x => (f x).filterMap g := by
  induction l with
  | nil => rfl
  | cons x l ih => simp [List.flatMap_cons, List.filterMap_append, ih]

/-- What comes from one goroutine only is in its order. -/
theorem one_source {α β : Type} {as : List α} {f : List β → List α} {ts : List (List β)} (hp : as.Perm (ts.flatMap f)) {i : Nat} {l : List β}
    (hi : ts[i]? = some l) (hs : (f l).Sublist as) (ho : ∀ j l', ts[j]? = some l' → j ≠ i → f l' = []) : as = f l := by
  have hl : (ts.flatMap f).length = (f l).length := by
    clear hp hs
    induction ts generalizing i with
    | nil => simp at hi
    | cons x ts ih =>
      cases i with
      | zero =>
        simp only [List.getElem?_cons_zero, Option.some.injEq] at hi
        subst hi
        have : ts.flatMap f = [] := List.flatMap_eq_nil_iff.mpr fun l' hl' => by
          obtain ⟨j, hj⟩ := List.getElem?_of_mem hl'
          exact ho (j + 1) l' (by simpa using hj) (by omega)
        rw [List.flatMap_cons, this, List.append_nil]
      | succ i =>
        rw [List.flatMap_cons, ho 0 x rfl (by omega), List.nil_append]
        exact ih (by simpa using hi) fun j l' hj hne => ho (j + 1) l' (by simpa using hj) (by omega)
  exact (hs.eq_of_length (by rw [hp.length_eq, hl])).symm

theorem perm_map {α β : Type} {f : α → β} {l l' : List β} (h : l.Perm l') : ∀ m : List α, l' = m.map f → ∃ m' : List α, m'.Perm m ∧ l = m'.map f := by
  induction h with
  | nil => intro m hm; exact ⟨m, .refl m, hm⟩
  | cons x _ ih =>
    intro m hm
    cases m with
    | nil => cases hm
    | cons a m =>
      injection hm with h1 h2
      obtain ⟨m', p, e⟩ := ih m h2
      exact ⟨a :: m', p.cons a, by rw [h1, e]; rfl⟩
  | swap x y l =>
    intro m hm
    match m, hm with
    | a :: b :: m, hm =>
      injection hm with h1 h2
      injection h2 with h2 h3
      exact ⟨b :: a :: m, .swap a b m, by rw [h1, h2, h3]; rfl⟩
  | trans _ _ ih1 ih2 =>
    intro m hm
    obtain ⟨m2, p2, e2⟩ := ih2 m hm
    obtain ⟨m1, p1, e1⟩ := ih1 m2 e2
    exact ⟨m1, p1.trans p2, e1⟩

/-- **C87, one connection, in order**: a connection that is read by one goroutine (its receive goroutine) hands up its messages exactly as
they were read, whatever the other goroutines do. -/
theorem c87_in_order {caps : Nat → Nat} {k : Nat} {w : World} (h : Serves caps k w) {ts : List (List Task)}
    (hok : ∀ l ∈ ts, ∀ t ∈ l, t.Ok w k) {sched : List Nat} {s : Sys} (hs : (serve w k ts).exec sched = some s) (hd : ∀ g ∈ s.gs, g.Done)
    {c : ConnId} {i : Nat} {l : List Task} (hi : ts[i]? = some l)
    (hc : ∀ (j : Nat) l', ts[j]? = some l' → j ≠ i → ∀ ps, Task.read c ps ∉ l') :
    handed c (actsOf s.w.trace) = l.flatMap (Task.readOn c) := by
  obtain ⟨B, hB⟩ := c87_server h ts hok
  obtain ⟨p1, p2⟩ := (hB sched s hs).2.2.2 hd
  have e : ∀ l : List Task, handed c (l.flatMap (Task.acts w k)) = l.flatMap (Task.readOn c) := fun l => by
    rw [handed, filterMap_flatMap']
    congr 1
    funext t
    exact t.handed_acts w k c
  have q1 : (handed c (actsOf s.w.trace)).Perm (ts.flatMap fun l => l.flatMap (Task.readOn c)) := by
    have := p1.filterMap (fun | .deliver e (some d) v => if d = c then some (e, v) else none | _ => none)
    rw [filterMap_flatMap'] at this
    rw [show (ts.flatMap fun l => l.flatMap (Task.readOn c)) = ts.flatMap fun l => handed c (l.flatMap (Task.acts w k)) by
      congr 1; funext l; exact (e l).symm]
    exact this
  refine one_source q1 hi ?_ ?_
  · rw [← e l]
    exact (p2 l (List.mem_of_getElem? hi)).filterMap _
  · intro j l' hj hne
    rw [List.flatMap_eq_nil_iff]
    rintro (⟨d, ps⟩ | ⟨d, p⟩) ht
    · simp only [Task.readOn]
      split
      · rename_i e; subst e; exact absurd ht (hc j l' hj hne ps)
      · rfl
    · rfl

/-- **C87, whole packets on the wire**: however many goroutines send on a connection at the same time, its byte stream is made of
their packets, each whole and once, in some order. -/
theorem c87_whole_packets {caps : Nat → Nat} {k : Nat} {w : World} (h : Serves caps k w) {ts : List (List Task)}
    (hok : ∀ l ∈ ts, ∀ t ∈ l, t.Ok w k) {sched : List Nat} {s : Sys} (hs : (serve w k ts).exec sched = some s) (hd : ∀ g ∈ s.gs, g.Done)
    (c : ConnId) : ∃ qs, qs.Perm (ts.flatMap fun l => l.flatMap (Task.putOn c)) ∧ sentBytes c s.w.trace = packets w k qs := by
  obtain ⟨B, hB⟩ := c87_server h ts hok
  obtain ⟨p1, _⟩ := (hB sched s hs).2.2.2 hd
  have q1 : (written c (actsOf s.w.trace)).Perm ((ts.flatMap fun l => l.flatMap (Task.putOn c)).map (Packet.bytes w k)) := by
    have := p1.filterMap (fun | .write d p => if d = c then some p else none | _ => none)
    rw [filterMap_flatMap'] at this
    simp only [List.map_flatMap]
    rw [show (ts.flatMap fun l => l.flatMap fun t => (t.putOn c).map (Packet.bytes w k)) =
        ts.flatMap fun l => written c (l.flatMap (Task.acts w k)) by
      congr 1; funext l; rw [written, filterMap_flatMap']; congr 1; funext t; exact (t.written_acts w k c).symm]
    exact this
  obtain ⟨qs, p, e⟩ := perm_map q1 _ rfl
  exact ⟨qs, p, by rw [sentBytes_written, e]; rfl⟩

/-! ## Two stacks -/

/-- **C87, end to end**: any number of goroutines of stack `a` send on connection `c`; the other end of it is connection `d` of stack `b`,
whose receive goroutine reads whole packets, while any other goroutines of `b` do what they like on other connections.  Under any schedules
on both sides, the endpoints of `b` are handed every message sent, each once. -/
theorem c87_end_to_end {capsA capsB : Nat → Nat} {k : Nat} {a b : World} (ha : Serves capsA k a) (hb : Serves capsB k b) (hmat : Matching a b)
    {ts : List (List Task)} (hok : ∀ l ∈ ts, ∀ t ∈ l, t.Ok a k) {c d : ConnId} (hto : ∀ l ∈ ts, ∀ p, Task.put c p ∈ l → p.Ok a b k)
    {sched : List Nat} {s : Sys} (hs : (serve a k ts).exec sched = some s) (hd : ∀ g ∈ s.gs, g.Done)
    (hbytes : (b.conns d).useRef = false) (hk1 : k + 1 < b.n) (hfr : Frames (b.procs (b.n - 1))) :
    ∃ qs, qs.Perm (ts.flatMap fun l => l.flatMap (Task.putOn c)) ∧ sentBytes c s.w.trace = packets b k qs ∧
      ∀ pss : List (List Packet), pss.flatten = qs → (∀ ps ∈ pss, ps ≠ [] ∧ ((packets b k ps).length : Int) ≤ b.mtu) →
      ∀ rest : List (List Task), (∀ l ∈ rest, (∀ t ∈ l, t.Ok b k) ∧ ∀ ps, Task.read d ps ∉ l) →
      ∀ sched' s', (serve b k (pss.map (.read d) :: rest)).exec sched' = some s' → (∀ g ∈ s'.gs, g.Done) →
      handed d (actsOf s'.w.trace) = messages qs ∧
        (handed d (actsOf s'.w.trace)).Perm (messages (ts.flatMap fun l => l.flatMap (Task.putOn c))) := by
  obtain ⟨qs, hq, he⟩ := c87_whole_packets ha hok hs hd c
  have hqok : ∀ p ∈ qs, p.Ok a b k := by
    intro p hp
    have := hq.mem_iff.mp hp
    obtain ⟨l, hl, h1⟩ := List.mem_flatMap.mp this
    obtain ⟨t, ht, h2⟩ := List.mem_flatMap.mp h1
    rcases t with ⟨x, ps⟩ | ⟨x, q⟩
    · cases h2
    · simp only [Task.putOn] at h2
      split at h2
      · rename_i e
        subst e
        rw [List.mem_singleton] at h2
        subst h2
        exact hto l hl p ht
      · cases h2
  have hbytesEq : packets b k qs = packets a k qs := by
    simp only [packets]
    congr 1
    exact List.map_congr_left fun p hp => p.bytes_matching hmat ha.carrier.pos (hqok p hp).lt
  refine ⟨qs, hq, by rw [he, hbytesEq], fun pss hflat hpss rest hrest sched' s' hs' hd' => ?_⟩
  have hr : handed d (actsOf s'.w.trace) = messages qs := by
    rw [c87_in_order hb (c := d) (i := 0) (l := pss.map (.read d)) ?_ hs' hd' rfl ?_]
    · rw [← hflat, List.flatMap_map, messages, List.filterMap_flatten, ← List.flatMap_def]
      congr 1
      funext ps
      simp [Task.readOn, messages]
    · intro l hl
      rcases List.mem_cons.mp hl with rfl | hl
      · intro t ht
        obtain ⟨ps, hps, rfl⟩ := List.mem_map.mp ht
        refine ⟨(hpss ps hps).1, fun p hp => ?_, (hpss ps hps).2, hbytes, .inr ⟨hk1, hfr⟩⟩
        exact (hqok p (by rw [← hflat]; exact List.mem_flatten.mpr ⟨ps, hps, hp⟩)).received hmat ha.carrier hb.carrier
      · exact (hrest l hl).1
    · intro j l' hj hne ps
      cases j with
      | zero => exact absurd rfl hne
      | succ j => exact (hrest l' (List.mem_of_getElem? (by simpa using hj))).2 ps
  refine ⟨hr, ?_⟩
  rw [hr]
  exact hq.filterMap _

/-! ## Examples -/

/-- BytesCodec, SessionResolver, StatCounter, Heartbeat, FrameDecoder with a cache of 32 bytes. -/
def serverWorld : World :=
  { quiet with
    mtu := 30
    overhead := 10
    n := 5
    procs := fun j => match j with
      | 0 => ⟨true, .bytesCodec⟩
      | 1 => ⟨true, .session⟩
      | 2 => ⟨true, .stat 0 0⟩
      | 3 => ⟨true, .heartbeat⟩
      | _ => ⟨true, .frame (some emptyCache)⟩ }

theorem serverWorld_five {j : Nat} (h : j < serverWorld.n) : j = 0 ∨ j = 1 ∨ j = 2 ∨ j = 3 ∨ j = 4 := by
  have : j < 5 := h
  omega

theorem serverWorld_serves : Serves (fun _ => 32) 0 serverWorld where
  carrier := by
    refine ⟨by decide, fun j h => absurd h (by omega), rfl, fun j h1 h2 => ?_, fun j h1 h2 h3 => ?_, rfl, by decide⟩
    · rcases serverWorld_five h2 with rfl | rfl | rfl | rfl | rfl
      · exact absurd h1 (by decide)
      all_goals trivial
    · rcases serverWorld_five h2 with rfl | rfl | rfl | rfl | rfl
      · exact absurd h1 (by decide)
      · obtain ⟨⟨c, h⟩, _⟩ := h3; cases h
      · obtain ⟨⟨c, h⟩, _⟩ := h3; cases h
      · obtain ⟨⟨c, h⟩, _⟩ := h3; cases h
      · obtain ⟨s, hs, hb⟩ := emptyCache_rest
        injection hs with hs
        subst hs
        exact ⟨emptyCache, rfl, hb.1, by rw [hb.data]; rfl⟩
  roomy := by
    intro i c hi hk he
    rcases serverWorld_five hi with rfl | rfl | rfl | rfl | rfl <;> first | cases hk | skip
    exact ⟨emptyCache_rest, by decide⟩
  decent := by
    intro i hi
    rcases serverWorld_five hi with rfl | rfl | rfl | rfl | rfl <;> trivial
  codec := by simp [serverWorld]
  fresh := rfl
  isOpen := fun _ => rfl
  write := fun _ _ _ => ⟨rfl, Nat.le_refl _⟩

def mail (x : Byte) : Packet := .msg ⟨.bytes [x], [x], 3, 7⟩

theorem mail_ok (x : Byte) : (mail x).Ok serverWorld serverWorld 0 :=
  ⟨⟨.bytes _, by simp, by simp [serverWorld], by simp, by simp, .inl ⟨1, by decide, by decide, rfl, rfl⟩⟩, rfl⟩

theorem beat_ok : (Packet.beat 3).Ok serverWorld serverWorld 0 := ⟨by decide, by decide, rfl, by decide⟩

/-- Two connections are read, one of them twice; two endpoints send on connection 0; the Heartbeat beats. -/
def serverTasks : List (List Task) :=
  [[.read 0 [mail 1, .beat 3, mail 2], .read 0 [mail 3]], [.read 1 [mail 4, mail 5]], [.put 0 (mail 6), .put 1 (mail 7)], [.put 0 (mail 8)],
    [.put 0 (.beat 3)]]

theorem serverTasks_ok : ∀ l ∈ serverTasks, ∀ t ∈ l, t.Ok serverWorld 0 := by
  have rd : ∀ (c : ConnId) (ps : List Packet), ps ≠ [] → (∀ p ∈ ps, p = .beat 3 ∨ ∃ x, p = mail x) →
      ((packets serverWorld 0 ps).length : Int) ≤ serverWorld.mtu → (Task.read c ps).Ok serverWorld 0 := by
    intro c ps h1 h2 h3
    refine ⟨h1, fun p hp => ?_, h3, rfl, .inr ⟨by decide, ⟨_, rfl⟩, rfl⟩⟩
    rcases h2 p hp with rfl | ⟨x, rfl⟩
    · exact beat_ok
    · exact mail_ok x
  have pt : ∀ (c : ConnId) (x : Byte), (Task.put c (mail x)).Ok serverWorld 0 := fun c x => ⟨⟨_, mail_ok x⟩, rfl⟩
  intro l hl t ht
  simp only [serverTasks, List.mem_cons, List.not_mem_nil, or_false] at hl
  rcases hl with rfl | rfl | rfl | rfl | rfl <;> simp only [List.mem_cons, List.not_mem_nil, or_false] at ht
  · rcases ht with rfl | rfl
    · exact rd _ _ (by simp) (by simp [mail]) (by decide)
    · exact rd _ _ (by simp) (by simp [mail]) (by decide)
  · subst ht; exact rd _ _ (by simp) (by simp [mail]) (by decide)
  · rcases ht with rfl | rfl <;> exact pt _ _
  · subst ht; exact pt _ _
  · subst ht; exact ⟨⟨_, beat_ok⟩, rfl⟩

/-- Whatever the schedule, connection 0 hands up 1, 2, 3. -/
example {sched : List Nat} {s : Sys} (hs : (serve serverWorld 0 serverTasks).exec sched = some s) (hd : ∀ g ∈ s.gs, g.Done) :
    handed 0 (actsOf s.w.trace) = [(7, .bytes [1]), (7, .bytes [2]), (7, .bytes [3])] :=
  c87_in_order serverWorld_serves serverTasks_ok hs hd (i := 0) (l := [.read 0 [mail 1, .beat 3, mail 2], .read 0 [mail 3]]) rfl (by
    intro j l' hj hne ps
    match j, hj, hne with
    | 1, hj, _ => injection hj with hj; subst hj; simp
    | 2, hj, _ => injection hj with hj; subst hj; simp
    | 3, hj, _ => injection hj with hj; subst hj; simp
    | 4, hj, _ => injection hj with hj; subst hj; simp
    | j + 5, hj, _ => cases hj)

/-- A complete schedule: round robin. -/
def roundRobin (n : Nat) : Nat → List Nat
  | 0 => []
  | r + 1 => List.range n ++ roundRobin n r

/-- Steps that can be made, in this order. -/
def obey (s : Sys) : List Nat → Sys × List Nat
  | [] => (s, [])
  | i :: is =>
    match s.step i with
    | none => obey s is
    | some t => let r := obey t is; (r.1, i :: r.2)

theorem obey_exec (is : List Nat) : ∀ s : Sys, s.exec (obey s is).2 = some (obey s is).1 := by
  induction is with
  | nil => intro s; rfl
  | cons i is ih =>
    intro s
    simp only [obey]
    cases h : s.step i with
    | none => exact ih s
    | some t =>
      simp only [Sys.exec, Trace.exec, h]
      exact ih t

/-- Round robin finishes; here is what has happened. -/
theorem server_run : ∃ sched s, (serve serverWorld 0 serverTasks).exec sched = some s ∧ (∀ g ∈ s.gs, g.Done) ∧
    (actsOf s.w.trace).length = 9 := by
  refine ⟨_, _, obey_exec (roundRobin 5 60) (serve serverWorld 0 serverTasks), ?_, ?_⟩
  · decide +kernel
  · decide +kernel

theorem singles {α : Type} : ∀ l : List α, (l.map fun x => [x]).flatten = l
  | [] => rfl
  | x :: l => by rw [List.map_cons, List.flatten_cons, singles l]; rfl

/-- The packets of the three senders on connection 0 arrive at another such stack, read one by one. -/
example : ∃ sched s, (serve serverWorld 0 serverTasks).exec sched = some s ∧ ∃ qs, qs.Perm [mail 6, mail 8, .beat 3] ∧
    sentBytes 0 s.w.trace = packets serverWorld 0 qs ∧
    ∀ sched' s', (serve serverWorld 0 [qs.map fun q => .read 5 [q], [.read 1 [mail 9]]]).exec sched' = some s' → (∀ g ∈ s'.gs, g.Done) →
      (handed 5 (actsOf s'.w.trace)).Perm [(7, .bytes [6]), (7, .bytes [8])] := by
  obtain ⟨sched, s, h1, h2, _⟩ := server_run
  have hmail : ∀ l ∈ serverTasks, ∀ p, Task.put 0 p ∈ l → p.Ok serverWorld serverWorld 0 := by
    intro l hl p hp
    simp only [serverTasks, List.mem_cons, List.not_mem_nil, or_false] at hl
    rcases hl with rfl | rfl | rfl | rfl | rfl <;> simp at hp
    · subst hp; exact mail_ok _
    · subst hp; exact mail_ok _
    · subst hp; exact beat_ok
  obtain ⟨qs, q1, q2, q3⟩ := c87_end_to_end (d := 5) serverWorld_serves serverWorld_serves ⟨rfl, rfl, fun _ _ => .refl _⟩ serverTasks_ok
    hmail h1 h2 rfl (by decide) ⟨⟨_, rfl⟩, rfl⟩
  refine ⟨sched, s, h1, qs, q1, q2, fun sched' s' hs' hd' => ?_⟩
  refine (q3 (qs.map fun q => [q]) (singles qs) ?_ [[.read 1 [mail 9]]] ?_
    sched' s' (by rw [List.map_map]; exact hs') hd').2
  · intro ps hps
    obtain ⟨q, hq, rfl⟩ := List.mem_map.mp hps
    have := q1.mem_iff.mp hq
    simp only [serverTasks, List.flatMap_cons, List.flatMap_nil, Task.putOn] at this
    refine ⟨by simp, ?_⟩
    simp at this
    rcases this with rfl | rfl | rfl <;> decide
  · intro l hl
    rw [List.mem_singleton] at hl
    subst hl
    refine ⟨fun t ht => ?_, by simp⟩
    rw [List.mem_singleton] at ht
    subst ht
    refine ⟨by simp, fun p hp => ?_, by decide, rfl, .inl rfl⟩
    rw [List.mem_singleton] at hp
    subst hp
    exact mail_ok 9

end Verif.Stack
