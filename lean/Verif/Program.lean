import Verif.Stack.Net
import Verif.Reg.Build
import Verif.Reg.Serving

/-!
# From the calls a program makes to delivered messages (C75)

`Reg.Model` says what the calls on a stack object do to its registries and links, `Stack.Model` what a chain of
processors does to data.  Here the two are put together: the data path of a running stack object is read off its links,
registries and numbers, so that the delivery theorems apply to programs written as sequences of calls.
Concrete programs that meet the hypotheses are in `Verif/Examples.lean`.
-/

namespace Verif.Program
open Stack Reg

/-- `Run` of a processor as far as it matters for data: FrameDecoder makes its cache (proc_frame_decoder.go:193-205,
`UBufAlloc`, ubuf.go:87-89), which panics for a non-positive capacity.  The other `Run` methods start goroutines only. -/
def runProc (mtu : Int) (capacity : Val) (p : Proc) : Res Proc :=
  match p.kind with
  | .frame _ =>
    match UBuf.alloc (optionParseInt capacity (2 * mtu)).1 0 UBuf.Heap.empty with
    | .ok s => .ok { p with kind := .frame (some s) }
    | .panic => .panic
    | .running => .running
  | _ => .ok p

/-- Going down the links from `x` one meets the processors `ps` and then the LowerDeck `d`, and the way up is the same. -/
inductive Below (u : U) (d : Nat) : Elem → List Nat → Prop
  | bottom {x} : u.lowerOf x = some (.lower d) → u.upperOf (.lower d) = some x → Below u d x []
  | step {x p ps} : u.lowerOf x = some (.proc p) → u.upperOf (.proc p) = some x → Below u d (.proc p) ps → Below u d x (p :: ps)

/-- `w` is the data path of the running stack `u`: `obj` gives the processor objects as constructed, `capacity` their option
"CacheCapacity".  The served endpoints are the keys of a map, in any order. -/
structure DataPath (u : U) (obj : Nat → Proc) (capacity : Nat → Val) (w : World) : Prop where
  mtu : w.mtu = u.mtu
  overhead : w.overhead = u.overhead
  chain : ∃ d ps, u.decks = some d ∧ Below u d (.upper d) ps ∧ w.n = ps.length ∧
    (∀ i (h : i < ps.length), runProc u.mtu (capacity ps[i]) (obj ps[i]) = .ok (w.procs i)) ∧
    w.served.Perm ((u.served d).map fun e => (e, u.session e))

/-! ## Facts about links -/

theorem Below.unique {u : U} {d : Nat} {x : Elem} {ps qs : List Nat} (h1 : Below u d x ps) (h2 : Below u d x qs) : ps = qs := by
  induction h1 generalizing qs with
  | bottom a b =>
    cases h2 with
    | bottom => rfl
    | step a' _ _ => rw [a] at a'; simp at a'
  | step a b c ih =>
    cases h2 with
    | bottom a' _ => rw [a] at a'; simp at a'
    | step a' b' c' =>
      rw [a] at a'
      simp only [Option.some.injEq, Elem.proc.injEq] at a'
      subst a'
      rw [ih c']

theorem below_of_links {u : U} {d : Nat} (ps : List Nat) : ∀ x : Elem,
    (∀ i (hi : i + 1 < (x :: (ps.map Elem.proc ++ [.lower d])).length),
      u.lowerOf (x :: (ps.map Elem.proc ++ [.lower d]))[i] = some (x :: (ps.map Elem.proc ++ [.lower d]))[i + 1] ∧
      u.upperOf (x :: (ps.map Elem.proc ++ [.lower d]))[i + 1] = some (x :: (ps.map Elem.proc ++ [.lower d]))[i]) →
    Below u d x ps := by
  induction ps with
  | nil =>
    intro x h
    have := h 0 (by simp)
    exact .bottom this.1 this.2
  | cons p ps ih =>
    intro x h
    have h0 := h 0 (by simp)
    refine .step h0.1 h0.2 (ih _ fun i hi => ?_)
    have := h (i + 1) (by simp only [List.map_cons, List.cons_append, List.length_cons] at hi ⊢; omega)
    simpa using this

/-! ## Facts about `Run` of processors -/

theorem runProc_same {mtu : Int} {c : Val} {p q : Proc} (h : runProc mtu c p = .ok q) : SameProc p q := by
  unfold runProc at h
  split at h
  · rename_i k hk
    split at h
    · injection h with h
      subst h
      exact ⟨rfl, by simp [hk, Kind.Same]⟩
    · cases h
    · cases h
  · injection h with h
    subst h
    exact .refl _

theorem runProc_idle {mtu : Int} {c : Val} {p q : Proc} (h : runProc mtu c p = .ok q) (hf : Frames q) :
    ∃ cache, q.kind = .frame (some cache) ∧ UBuf.Good cache ∧ UBuf.data cache = [] := by
  unfold runProc at h
  split at h
  · rename_i k hk
    split at h
    · rename_i s hs
      injection h with h
      subst h
      obtain ⟨_, _, _, h4, h5⟩ := UBuf.alloc_ok hs
      exact ⟨s, rfl, h4, by rw [show UBuf.data s = (UBuf.view s).content from rfl, h5]; rfl⟩
    · cases h
    · cases h
  · rename_i hk
    injection h with h
    subst h
    obtain ⟨⟨c, h1⟩, _⟩ := hf
    exact absurd h1 (hk c)

/-- `Run` fails only for a FrameDecoder with a non-positive capacity. -/
theorem runProc_ok_iff (mtu : Int) (c : Val) (p : Proc) :
    (∃ q, runProc mtu c p = .ok q) ↔ ((∃ k, p.kind = .frame k) → 0 < (optionParseInt c (2 * mtu)).1) := by
  unfold runProc
  split
  · rename_i k hk
    constructor
    · rintro ⟨q, h⟩ _
      split at h
      · rename_i s hs
        exact (UBuf.alloc_ok hs).1
      · cases h
      · cases h
    · intro h
      obtain ⟨s, hs, _⟩ := alloc_buf (optionParseInt c (2 * mtu)).1 0 UBuf.Heap.empty (h ⟨k, hk⟩) (by omega) (by have := h ⟨k, hk⟩; omega)
      rw [hs]
      exact ⟨_, rfl⟩
  · rename_i hk
    exact ⟨fun _ ⟨k, h⟩ => absurd h (hk k), fun _ => ⟨_, rfl⟩⟩

/-! ## Programs -/

/-- A program as far as one stack is concerned: the objects it makes, the calls up to `Run`, the calls after it. -/
structure Prog where
  /-- `NewEndPoint(name, session)` -/
  session : Nat → Int
  /-- the constructed processors -/
  obj : Nat → Proc
  /-- their option "CacheCapacity" -/
  capacity : Nat → Val
  /-- the growth policy of `append` -/
  spare : Nat → Nat
  before : List Op
  after : List Op

def Prog.calls (P : Prog) : List Op := P.before ++ .run :: P.after

/-- The stack object after all calls. -/
def Prog.stack (P : Prog) : U := (U.new P.session (fun p => (P.obj p).kind.overhead) P.spare).steps P.calls

/-- The processors in the order of `AppendDataProcessor`. -/
def Prog.chain (P : Prog) : List Proc := (appended P.before).map P.obj

/-- What the option "MTU" says at `Run`. -/
def Prog.mtu (P : Prog) : Int := mtuOf (optionAfter "MTU" P.before)

/-- The head room the processors ask for. -/
def Prog.room (P : Prog) : Int := (P.chain.map fun p => p.kind.overhead).sum

/-- The endpoints added and not deleted. -/
def Prog.registered (P : Prog) : List Nat := P.calls.foldl specEps []

/-- One `Run`, different processors, endpoints with different and unchanged sessions. -/
structure Prog.Plain (P : Prog) : Prop where
  once : runs P.before = 0 ∧ runs P.after = 0
  fixed : ∀ op ∈ P.calls, op.isSetSession = false
  distinct : (appended P.before).Nodup
  sessions : ∀ x y, .addEndPoint x ∈ P.calls → .addEndPoint y ∈ P.calls → P.session x = P.session y → x = y

theorem mem_registered {ops : List Op} {e : Nat} : ∀ {l : List Nat}, e ∈ ops.foldl specEps l → e ∈ l ∨ .addEndPoint e ∈ ops := by
  induction ops with
  | nil => intro l h; exact .inl h
  | cons op ops ih =>
    intro l h
    rcases ih h with h | h
    · cases op <;> simp only [specEps] at h <;> try exact .inl h
      · split at h
        · exact .inl h
        · rcases List.mem_append.mp h with h | h
          · exact .inl h
          · simp only [List.mem_cons, List.not_mem_nil, or_false] at h
            subst h
            exact .inr List.mem_cons_self
      · exact .inl ((List.mem_filter.mp h).1)
    · exact .inr (List.mem_cons_of_mem _ h)

theorem runs_calls {P : Prog} (h : P.Plain) : runs P.calls = 1 := by
  have h1 := h.once.1
  have h2 := h.once.2
  simp only [runs] at h1 h2
  simp [runs, Prog.calls, List.countP_append, List.countP_cons, h1, h2, Op.isRun]

/-- With different sessions, looking up a session finds exactly the endpoint that has it. -/
theorem findEndPoint_iff {l : List (Nat × Int)} (h : ∀ x ∈ l, ∀ y ∈ l, x.2 = y.2 → x = y) (s : Int) (e : Nat) :
    findEndPoint l s = some e ↔ (e, s) ∈ l := by
  simp only [findEndPoint, Option.map_eq_some_iff]
  constructor
  · rintro ⟨x, h1, rfl⟩
    have h2 := List.mem_of_find?_eq_some h1
    have h3 := List.find?_some h1
    simp only [beq_iff_eq] at h3
    subst h3
    exact h2
  · intro hm
    cases hf : l.find? fun x => x.2 == s with
    | none => exact absurd (List.find?_eq_none.mp hf _ hm) (by simp)
    | some x =>
      have h2 := List.mem_of_find?_eq_some hf
      have h3 := List.find?_some hf
      simp only [beq_iff_eq] at h3
      exact ⟨x, rfl, by rw [h x h2 _ hm h3]⟩

theorem room_seg_eq (w : World) (ps : List Proc) : ∀ a, (∀ i (h : i < ps.length), (w.procs (a + i)).kind.overhead = (ps[i]).kind.overhead) →
    Stack.room (seg w a ps.length) = (ps.map fun p => p.kind.overhead).sum := by
  induction ps with
  | nil => intro a _; rfl
  | cons p ps ih =>
    intro a h
    rw [List.length_cons, seg_succ, Stack.room, ih (a + 1) fun i hi => by
      have := h (i + 1) (by simpa using hi)
      rw [show a + 1 + i = a + (i + 1) by omega, this]; rfl]
    have := h 0 (by simp)
    simp only [Nat.add_zero, List.getElem_cons_zero] at this
    simp [this]

/-- What the data path of a program's stack looks like: the processors appended before `Run` in that order, the overhead
they ask for, the MTU asked for, and every registered endpoint (also those added after `Run`) found under its session. -/
theorem c75_data_path (P : Prog) (hp : P.Plain) (w : World) (h : DataPath P.stack P.obj P.capacity w) :
    w.n = P.chain.length ∧ (∀ i (hi : i < P.chain.length), SameProc P.chain[i] (w.procs i)) ∧
    (∀ i, i < P.chain.length → Frames (w.procs i) → Idle i w) ∧
    Built w ∧ w.overhead = P.room ∧ w.mtu = P.mtu ∧
    ∀ s e, findEndPoint w.served s = some e ↔ e ∈ P.registered ∧ P.session e = s := by
  obtain ⟨hmtu, hov, d, ps, hd, hb, hn, hpr, hsv⟩ := h
  obtain ⟨d', hd', hlinks, _, _⟩ := c46_wiring P.session (fun p => (P.obj p).kind.overhead) P.spare P.before P.after hp.once.2 hp.distinct
  have hdd : d = d' := Option.some.inj (hd.symm.trans hd')
  subst hdd
  have hps : ps = appended P.before := hb.unique (below_of_links _ _ hlinks)
  subst hps
  have hlen : P.chain.length = (appended P.before).length := by simp [Prog.chain]
  have hsame : ∀ i (hi : i < P.chain.length), SameProc P.chain[i] (w.procs i) := fun i hi => by
    have := runProc_same (hpr i (by rw [← hlen]; exact hi))
    simpa [Prog.chain] using this
  have hroom : Stack.room (seg w 0 w.n) = P.room := by
    rw [hn, ← hlen]
    exact room_seg_eq w P.chain 0 fun i hi => by rw [Nat.zero_add]; exact (hsame i hi).overhead_eq
  have hover : w.overhead = P.room := by
    rw [hov]
    have := c45_overhead_first_run_partial P.session (fun p => (P.obj p).kind.overhead) P.spare P.before P.after hp.once.1 hp.once.2
    rw [Prog.stack, Prog.calls, this]
    simp [Prog.room, Prog.chain, Function.comp_def]
  refine ⟨by rw [hn, hlen], hsame, ?_, by rw [Built, hroom, hover], hover, ?_, ?_⟩
  · intro i hi hf
    exact runProc_idle (hpr i (by rw [← hlen]; exact hi)) hf
  · rw [hmtu]
    exact c45_mtu _ _ _ _ _ hp.once.2
  · intro s e
    obtain ⟨h1, h2, h3, h4⟩ := serving_steps P.calls hp.fixed _ (srv_new P.session (fun p => (P.obj p).kind.overhead) P.spare)
      (decks_new P.session (fun p => (P.obj p).kind.overhead) P.spare)
    have hm := match_steps (P := fun e => .addEndPoint e ∈ P.calls) P.calls hp.fixed (fun e he => he) _
      (U.inv_new P.session (fun p => (P.obj p).kind.overhead) P.spare) (decks_new P.session _ P.spare) (match_new _ P.session _ P.spare)
    have hserved : P.stack.served d = P.registered := by
      have := hm.all (by rw [h4]; exact hp.sessions) d hd
      rw [Prog.stack, this]
      exact (c39_registries P.session (fun p => (P.obj p).kind.overhead) P.spare P.calls).1
    have hsess : P.stack.session = P.session := h4
    rw [hserved, hsess] at hsv
    rw [findEndPoint_iff]
    · rw [hsv.mem_iff, List.mem_map]
      constructor
      · rintro ⟨x, hx, hxe⟩
        injection hxe with e1 e2
        subst e1; subst e2
        exact ⟨hx, rfl⟩
      · rintro ⟨hx, rfl⟩
        exact ⟨e, hx, rfl⟩
    · intro x hx y hy hxy
      rw [hsv.mem_iff, List.mem_map] at hx hy
      obtain ⟨a, ha, rfl⟩ := hx
      obtain ⟨b, hb', rfl⟩ := hy
      have ha' := (mem_registered ha).resolve_left (by simp)
      have hb'' := (mem_registered hb').resolve_left (by simp)
      rw [hp.sessions a b ha' hb'' hxy]

/-- `Run` gets through (there is a data path) if and only if no FrameDecoder is asked to make a cache of non-positive capacity. -/
theorem c75_runs_iff (P : Prog) (hp : P.Plain) :
    (∃ w, DataPath P.stack P.obj P.capacity w) ↔
      ∀ p ∈ appended P.before, (∃ k, (P.obj p).kind = .frame k) → 0 < (optionParseInt (P.capacity p) (2 * P.mtu)).1 := by
  obtain ⟨d, hd, hlinks, _, _⟩ := c46_wiring P.session (fun p => (P.obj p).kind.overhead) P.spare P.before P.after hp.once.2 hp.distinct
  have hb := below_of_links _ _ hlinks
  have hmtu : P.stack.mtu = P.mtu := c45_mtu _ _ _ _ _ hp.once.2
  constructor
  · rintro ⟨w, _, _, d', ps, hd', hb', _, hpr, _⟩ p hpm
    have hdd : d = d' := Option.some.inj (hd.symm.trans hd')
    subst hdd
    have hps := hb'.unique hb
    subst hps
    obtain ⟨i, hi, rfl⟩ := List.mem_iff_getElem.mp hpm
    rw [← hmtu]
    exact (runProc_ok_iff _ _ _).mp ⟨_, hpr i hi⟩
  · intro h
    have hex : ∀ i, ∃ q, ∀ hi : i < (appended P.before).length,
        runProc P.stack.mtu (P.capacity (appended P.before)[i]) (P.obj (appended P.before)[i]) = .ok q := fun i => by
      by_cases hi : i < (appended P.before).length
      · obtain ⟨q, hq⟩ := (runProc_ok_iff P.stack.mtu (P.capacity (appended P.before)[i]) (P.obj (appended P.before)[i])).mpr
          (by rw [hmtu]; exact h _ (List.getElem_mem hi))
        exact ⟨q, fun _ => hq⟩
      · exact ⟨default, fun h => absurd h hi⟩
    refine ⟨{ mtu := P.stack.mtu, overhead := P.stack.overhead, name := [], n := (appended P.before).length,
              procs := fun i => Classical.choose (hex i), served := (P.stack.served d).map fun e => (e, P.stack.session e),
              conns := fun _ => ⟨false, false⟩, write := fun _ _ p => ⟨p.length, none⟩, trace := [] }, rfl, rfl, d, _, hd, hb, rfl, ?_, .refl _⟩
    intro i hi
    exact Classical.choose_spec (hex i) hi

/-! ## Delivery between programs -/

/-- One enabled codec at position `k`, processors above it that do nothing, below it processors that open what they close. -/
structure Prog.Carries (P : Prog) (k : Nat) : Prop where
  plain : P.Plain
  pos : k < P.chain.length
  quiet : ∀ j (h : j < P.chain.length), j < k → Quiet P.chain[j]
  codecOn : P.chain[k].enable = true
  opens : ∀ j (h : j < P.chain.length), k < j → Opens P.chain[j]
  mtu : P.mtu < 2 ^ 32

/-- Two programs with the same kinds of processors and the same MTU. -/
structure Prog.Alike (P Q : Prog) : Prop where
  length : Q.chain.length = P.chain.length
  same : ∀ j (h1 : j < P.chain.length) (h2 : j < Q.chain.length), SameProc P.chain[j] Q.chain[j]
  mtu : Q.mtu = P.mtu

/-- A message a program can send to session `s`. -/
structure Prog.Sends (P : Prog) (k : Nat) (v : Val) (b : List Byte) (s : Int) : Prop where
  pos : k < P.chain.length
  codec : CodedBy (P.mtu - P.room).toNat P.chain[k].kind v b
  ne : b ≠ []
  fit : P.room + b.length ≤ P.mtu
  lo : 0 ≤ s
  hi : s < 2 ^ 32
  session : (∃ j, ∃ h : j < P.chain.length, k < j ∧ Resolves P.chain[j]) ∨ s = 0

theorem sameProc_symm {p q : Proc} (h : SameProc p q) : SameProc q p := by
  obtain ⟨en, k⟩ := p
  obtain ⟨en', k'⟩ := q
  obtain ⟨h1, h2⟩ := h
  refine ⟨h1.symm, ?_⟩
  simp only at h2 ⊢
  cases k <;> cases k' <;> simp_all [Kind.Same]

theorem CodedBy.same {free : Nat} {k k' : Kind} {v : Val} {b : List Byte} (h : CodedBy free k v b) (hs : k.Same k') : CodedBy free k' v b := by
  cases h <;> cases k' <;> simp [Kind.Same] at hs
  · exact .bytes b
  · exact .str b
  · obtain ⟨rfl, rfl⟩ := hs; exact .json _ _ _ _ ‹_› ‹_› ‹_›
  · obtain ⟨rfl, rfl⟩ := hs; exact .generic _ _ _ _ ‹_› ‹_›
  · obtain ⟨rfl, rfl⟩ := hs; exact .gob _ _ _ _ ‹_› ‹_›

theorem Prog.Carries.carrier {P : Prog} {k : Nat} (h : P.Carries k) {w : World} (hw : DataPath P.stack P.obj P.capacity w) : Carrier w k := by
  obtain ⟨h1, h2, h3, h4, _, h6, _⟩ := c75_data_path P h.plain w hw
  refine ⟨by rw [h1]; exact h.pos, fun j hj => ?_, ?_, fun j hj hn => ?_, fun j hj hn hf => h3 j (by rw [← h1]; exact hn) hf, h4, by rw [h6]; exact h.mtu⟩
  · exact (h2 j (by have := h.pos; omega)).quiet (h.quiet j (by have := h.pos; omega) hj)
  · rw [(h2 k h.pos).1]; exact h.codecOn
  · rw [h1] at hn
    exact (h2 j hn).opens (h.opens j hn hj)

theorem Prog.Alike.matching {P Q : Prog} (h : P.Alike Q) (hP : P.Plain) (hQ : Q.Plain) {w v : World}
    (hw : DataPath P.stack P.obj P.capacity w) (hv : DataPath Q.stack Q.obj Q.capacity v) : Matching w v := by
  obtain ⟨p1, p2, _, _, _, p6, _⟩ := c75_data_path P hP w hw
  obtain ⟨q1, q2, _, _, _, q6, _⟩ := c75_data_path Q hQ v hv
  refine ⟨by rw [p1, q1, h.length], by rw [p6, q6, h.mtu], fun j hj => ?_⟩
  rw [p1] at hj
  have hj' : j < Q.chain.length := by rw [h.length]; exact hj
  exact (sameProc_symm (p2 j hj)).trans ((h.same j hj hj').trans (q2 j hj'))

theorem Prog.Sends.message {P : Prog} {k : Nat} {v : Val} {b : List Byte} {s : Int} (h : P.Sends k v b s) (hP : P.Plain) {w : World}
    (hw : DataPath P.stack P.obj P.capacity w) : Message w k v b s := by
  obtain ⟨p1, p2, _, _, p5, p6, _⟩ := c75_data_path P hP w hw
  refine ⟨?_, h.ne, by rw [p5, p6]; exact h.fit, h.lo, h.hi, ?_⟩
  · rw [p5, p6]
    exact CodedBy.same h.codec (p2 k h.pos).2
  · rcases h.session with ⟨j, hj, h1, h2⟩ | h
    · exact .inl ⟨j, h1, by rw [p1]; exact hj, (p2 j hj).resolves h2⟩
    · exact .inr h

/-- C75: what one program sends to a session, the endpoint the other program registered for this session gets, whatever
other calls the two programs make. -/
theorem c75_programs_deliver_partial (P Q : Prog) (k : Nat) (hP : P.Carries k) (hQ : Q.Carries k) (hPQ : P.Alike Q)
    (w v : World) (hw : DataPath P.stack P.obj P.capacity w) (hv : DataPath Q.stack Q.obj Q.capacity v)
    (m : Val) (b : List Byte) (s : Int) (hm : P.Sends k m b s) (e : Nat) (he : e ∈ Q.registered) (hs : Q.session e = s)
    (c d : Nat) (hc : w.conns c = ⟨false, false⟩) (hd : (v.conns d).useRef = false)
    (hwr : ∀ p, w.write w.trace c p = ⟨p.length, none⟩) (fuel : Nat) (hf : w.n + 1 < fuel) :
    ∃ bs w' v', send fuel (some c) m s w = (.ok (), w') ∧ w'.trace = w.trace ++ [.wire c bs ⟨bs.length, none⟩] ∧
      receive fuel d bs v = (.ok (), v') ∧ v'.trace = v.trace ++ [.rx e (some d) m] := by
  have hfind := ((c75_data_path Q hQ.plain v hv).2.2.2.2.2.2 s e).mpr ⟨he, hs⟩
  have hcw := hP.carrier hw
  have hmsg := hm.message hP.plain hw
  obtain ⟨w', h1, h2⟩ := c20_on_the_wire_partial w k hcw m b s hmsg c (by rw [hc]) (by rw [hc]) (by rw [hwr]) (by rw [hwr]; exact Nat.le_refl _) fuel (by omega)
  have hmat := hPQ.matching hP.plain hQ.plain hw hv
  obtain ⟨v', h3, h4⟩ := receive_delivers v k (hQ.carrier hv) m b s (hmat.message hcw.pos hcw.built (hQ.carrier hv).built hmsg) d hd e hfind fuel
    (by rw [hmat.n]; exact hf)
  rw [hmat.wire hcw.pos] at h3
  rw [hwr] at h2
  exact ⟨_, w', v', h1, h2.trace, h3, h4.trace⟩

/-- C75 for a network: any number of programs, joined in any way, each connection between programs that are alike. -/
theorem c75_network_partial (prog : Nat → Prog) (peer : Nat → Nat → Option (Nat × Nat)) (k : Nat → Nat) (s0 : Net) (fuel : Nat)
    (hpath : ∀ i, DataPath (prog i).stack (prog i).obj (prog i).capacity (s0.world i))
    (hcar : ∀ i c j d, peer i c = some (j, d) → (prog i).Carries (k i) ∧ (prog j).Carries (k j) ∧ k j = k i ∧ (prog i).Alike (prog j))
    (hinj : ∀ i c i' c' e, peer i c = some e → peer i' c' = some e → i = i' ∧ c = c')
    (hconn : ∀ i c j d, peer i c = some (j, d) → (s0.world i).conns c = ⟨false, false⟩ ∧ (s0.world j).conns d = ⟨false, false⟩)
    (hwr : ∀ i c e, peer i c = some e → ∀ t p, (s0.world i).write t c p = ⟨p.length, none⟩)
    (hquiet : ∀ i, (s0.world i).trace = []) (hempty : ∀ i c, s0.stream i c = [])
    (hfuel : ∀ i, (s0.world i).n + (s0.world i).mtu.toNat + 1 < fuel)
    (ls : List NetLabel) (hall : NetRun fuel peer k s0 ls) :
    ∃ s, Trace.exec (netStep fuel peer) s0 ls = some s ∧
      ∀ i c j d, peer i c = some (j, d) → ∃ got way, putOn i c ls = got ++ way ∧
        s.stream i c = packets (s0.world i) (k i) way ∧ seenOn d (s.world j).trace = got.map (Packet.arrives d) := by
  refine c74_network_partial ⟨hquiet, hempty, hinj, ?_, ?_, ?_, hwr, hfuel⟩ ls hall
  · intro i c e he
    exact (hcar i c e.1 e.2 he).1.carrier (hpath i)
  · intro i c j d he
    obtain ⟨h1, h2, h3, h4⟩ := hcar i c j d he
    exact ⟨h2.carrier (hpath j), h3, h4.matching h1.plain h2.plain (hpath i) (hpath j), by rw [(hconn i c j d he).2]⟩
  · intro i c e he
    rw [(hconn i c e.1 e.2 he).1]
    exact ⟨rfl, rfl⟩

end Verif.Program
