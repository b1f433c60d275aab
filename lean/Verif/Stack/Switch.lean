import Verif.Stack.NetCut
import Verif.Stack.SharedExact

/-!
# Switching processors on and off while the stack runs (C90)

`SetEnable` may be called at any time.  If both ends switch while nothing is under way, every message is delivered
whatever was switched before, as long as the configuration then in force is one that delivers (`c90_switch_partial`).
If one end switches, it depends on the processor: StatCounter, Heartbeat and FlowController may differ
(`c90_one_sided`), a SessionResolver or a FrameDecoder may not (`c90_iff`): a message sent before the switch and read
after it arrives with a header in front, or without its first bytes, or the receiver panics, or nothing arrives from
then on.
-/

namespace Verif.Stack
open UBuf GoM Trace

/-- `SetEnable` (proc_base.go:81-84). -/
def setEnable (i : Nat) (b : Bool) (w : World) : World :=
  { w with procs := fun j => if j = i then { w.procs j with enable := b } else w.procs j }

theorem setEnable_kind (i : Nat) (b : Bool) (w : World) (j : Nat) : ((setEnable i b w).procs j).kind = (w.procs j).kind := by
  simp only [setEnable]; split <;> rfl

theorem setEnable_self (i : Nat) (b : Bool) (w : World) : ((setEnable i b w).procs i).enable = b := by simp [setEnable]

theorem setEnable_ne {i j : Nat} (h : j ≠ i) (b : Bool) (w : World) : (setEnable i b w).procs j = w.procs j := by simp [setEnable, h]

theorem setEnable_idle (i : Nat) (b : Bool) (w : World) (j : Nat) : Idle j (setEnable i b w) ↔ Idle j w := by
  simp only [Idle, setEnable_kind]

theorem setEnable_same {w w' : World} {j : Nat} (h : SameProc (w.procs j) (w'.procs j)) (i : Nat) (b : Bool) :
    SameProc ((setEnable i b w).procs j) ((setEnable i b w').procs j) := by
  by_cases e : j = i
  · subst e; exact ⟨by rw [setEnable_self, setEnable_self], by rw [setEnable_kind, setEnable_kind]; exact h.2⟩
  · rw [setEnable_ne e, setEnable_ne e]; exact h

theorem room_kinds {w w' : World} (m : Nat) : ∀ a, (∀ j, a ≤ j → j < a + m → (w'.procs j).kind = (w.procs j).kind) →
    room (seg w' a m) = room (seg w a m) := by
  induction m with
  | zero => intro a _; rfl
  | succ m ih =>
    intro a h
    rw [seg_succ, seg_succ, room, room, h a (by omega) (by omega), ih (a + 1) fun j h1 h2 => h j (by omega) (by omega)]

/-- The head room is reserved for disabled processors too. -/
theorem setEnable_built {w : World} (h : Built w) (i : Nat) (b : Bool) : Built (setEnable i b w) := by
  have : room (seg (setEnable i b w) 0 w.n) = room (seg w 0 w.n) := room_kinds _ _ fun j _ _ => setEnable_kind i b w j
  show w.overhead = room (seg (setEnable i b w) 0 w.n)
  rw [this]; exact h

theorem setEnable_moved {o : List Obs} {w w' : World} (h : Moved o w w') (i : Nat) (b : Bool) :
    Moved o (setEnable i b w) (setEnable i b w') :=
  ⟨h.mtu, h.overhead, h.name, h.n, h.served, h.write, h.conns, h.trace, fun j => setEnable_same (h.same j) i b,
    fun j hj => (setEnable_idle i b w' j).2 (h.idle j ((setEnable_idle i b w j).1 hj))⟩

theorem setEnable_matching {a c : World} (h : Matching a c) (i : Nat) (b : Bool) : Matching (setEnable i b a) (setEnable i b c) :=
  ⟨h.n, h.mtu, fun j hj => setEnable_same (h.same j hj) i b⟩

/-! ## Both ends switch -/

/-- Both ends switch a processor; or a message is sent and what was written for it is read in one read. -/
inductive SwAct
  | switch (i : Nat) (b : Bool)
  | say (x : Item)

def actStep (fuel : Nat) (cs cr : ConnId) (w : World × World) : SwAct → Option (World × World)
  | .switch i b => some (setEnable i b w.1, setEnable i b w.2)
  | .say x =>
    match send fuel (some cs) x.v x.s w.1 with
    | (.ok (), ws) =>
      match receive fuel cr (sentBytes cs (ws.trace.drop w.1.trace.length)) w.2 with
      | (.ok (), wr) => some (ws, wr)
      | _ => none
    | _ => none

/-- The messages of a history. -/
def said : List SwAct → List Item
  | [] => []
  | .switch _ _ :: as => said as
  | .say x :: as => x :: said as

/-- At every message the configuration then in force is one that carries it (any codec may be the one in use). -/
def Fit : World → List SwAct → Prop
  | _, [] => True
  | w, .switch i b :: as => Fit (setEnable i b w) as
  | w, .say x :: as => (∃ k, Carrier w k ∧ Message w k x.v x.b x.s ∧ findEndPoint w.served x.s = some x.ep) ∧ Fit w as

/-- The caches of all FrameDecoders are empty, also of those that are switched off. -/
def Rested (w : World) : Prop := ∀ j, j < w.n → (∃ c, (w.procs j).kind = .frame c) → Idle j w

theorem Rested.moved {o : List Obs} {w w' : World} (h : Rested w) (hm : Moved o w w') : Rested w' := by
  intro j hj ⟨c, hc⟩
  refine hm.idle j (h j (by rw [← hm.n]; exact hj) ?_)
  have := (hm.same j).2
  rw [hc] at this
  generalize (w.procs j).kind = q at this ⊢
  cases q <;> simp_all [Kind.Same]

theorem Rested.setEnable {w : World} (h : Rested w) (i : Nat) (b : Bool) : Rested (setEnable i b w) := by
  intro j hj hc
  rw [setEnable_kind] at hc
  exact (setEnable_idle i b w j).2 (h j hj hc)

theorem Fit.moved (as : List SwAct) : ∀ {w w' : World} {o : List Obs}, Fit w as → Moved o w w' → Fit w' as := by
  induction as with
  | nil => intros; trivial
  | cons a as ih =>
    intro w w' o h hm
    cases a with
    | switch i b => exact ih (w := Stack.setEnable i b w) h (setEnable_moved hm i b)
    | say x =>
      obtain ⟨⟨k, h1, h2, h3⟩, h4⟩ := h
      exact ⟨⟨k, h1.moved hm, h2.moved hm, by rw [hm.served]; exact h3⟩, ih h4 hm⟩

/-- A stack of the same processors carries what the other carries. -/
theorem Matching.carrier {a b : World} (h : Matching a b) {k : Nat} (ha : Carrier a k) (hb : Built b) (hr : Rested b) : Carrier b k := by
  have hp := ha.pos
  refine ⟨by rw [h.n]; exact hp, fun j hj => (h.same j (by omega)).quiet (ha.quiet j hj), by rw [(h.same k hp).1]; exact ha.codecOn,
    fun j h1 h2 => ?_, fun j h1 h2 h3 => hr j h2 h3.1, hb, by rw [h.mtu]; exact ha.mtu⟩
  have h2' : j < a.n := by rw [← h.n]; exact h2
  exact (h.same j h2').opens (ha.opens j h1 h2')

/-- Whatever was switched on and off before, at both ends while nothing was under way: each message that the
configuration then in force carries is delivered, once, in order, to its endpoint, and each takes one write.
Missing from the full claim: one end switching alone (`c90_iff`), messages under way while a processor is
switched (`c90_jammed`, `c90_panic`), `SetEnable` in another goroutine during a call. -/
theorem c90_switch_partial (fuel : Nat) (cs cr : ConnId) (as : List SwAct) : ∀ (ws wr : World), Fit ws as → Matching ws wr →
    Built wr → Rested wr → wr.served = ws.served → (ws.conns cs).useRef = false → (ws.conns cs).closed = false →
    (∀ t p, (ws.write t cs p).err = none ∧ (ws.write t cs p).n ≤ p.length) → (wr.conns cr).useRef = false → ws.n + 1 < fuel →
    ∃ ws' wr' ps, exec (actStep fuel cs cr) (ws, wr) as = some (ws', wr') ∧ wr'.trace = wr.trace ++ rxs cr (said as) ∧
      ws'.trace = ws.trace ++ ps ∧ ps.length = (said as).length ∧ (∀ o ∈ ps, ∃ p r, o = .wire cs p r) ∧ Matching ws' wr' ∧ Rested wr' := by
  induction as with
  | nil =>
    intro ws wr _ hm _ hr _ _ _ _ _ _
    exact ⟨ws, wr, [], rfl, by simp [said, rxs], by simp, rfl, by simp, hm, hr⟩
  | cons a as ih =>
    intro ws wr hfit hm hb hr hsv h1 h2 hw h3 hf
    cases a with
    | switch i b =>
      obtain ⟨ws', wr', ps, e1, e2, e3⟩ := ih (setEnable i b ws) (setEnable i b wr) hfit (setEnable_matching hm i b)
        (setEnable_built hb i b) (hr.setEnable i b) hsv h1 h2 hw h3 hf
      exact ⟨ws', wr', ps, e1, e2, e3⟩
    | say x =>
      obtain ⟨⟨k, hc, hmsg, hep⟩, hfit⟩ := hfit
      obtain ⟨bs, r, ws1, wr1, s1, m1, s2, m2⟩ := c21_end_to_end_partial ws wr k hc (hm.carrier hc hb hr) hm x.v x.b x.s hmsg cs h1 h2
        (hw _) cr h3 x.ep (by rw [hsv]; exact hep) fuel hf
      have hmat : Matching ws1 wr1 := by
        refine ⟨by rw [m1.n, m2.n]; exact hm.n, by rw [m1.mtu, m2.mtu]; exact hm.mtu, fun j hj => ?_⟩
        have hs := m1.same j
        have hj' : j < ws.n := by rw [← m1.n]; exact hj
        exact (SameProc.trans ⟨hs.1.symm, hs.2.symm⟩ (hm.same j hj')).trans (m2.same j)
      have hb1 : Built wr1 := by rw [Built, m2.overhead, m2.n, room_same m2.same]; exact hb
      obtain ⟨ws', wr', ps, e1, e2, e3, e4, e5, e6, e7⟩ := ih ws1 wr1 (hfit.moved as m1) hmat hb1 (hr.moved m2)
        (by rw [m1.served, m2.served]; exact hsv) (by rw [m1.conns]; exact h1) (by rw [m1.conns]; exact h2)
        (by rw [m1.write]; exact hw) (by rw [m2.conns]; exact h3) (by rw [m1.n]; exact hf)
      refine ⟨ws', wr', .wire cs bs r :: ps, ?_, ?_, ?_, by simp [said, e4], ?_, e6, e7⟩
      · have hbs : sentBytes cs (ws1.trace.drop ws.trace.length) = bs := by
          rw [m1.trace, List.drop_left' rfl]; simp [sentBytes]
        have hst : actStep fuel cs cr (ws, wr) (.say x) = some (ws1, wr1) := by simp only [actStep, s1, hbs, s2]
        rw [Trace.exec, hst]
        exact e1
      · rw [e2, m2.trace]; simp [said, rxs]
      · rw [e3, m1.trace]; simp
      · intro o ho
        rcases List.mem_cons.1 ho with rfl | ho
        · exact ⟨bs, r, rfl⟩
        · exact e5 o ho

/-! ## One end switches -/

/-- A processor whose wire format does not depend on whether it is enabled. -/
def Lenient : Kind → Prop
  | .session | .frame _ | .loadBalancer => False
  | _ => True

theorem Lenient.hdr {p q : Proc} (h : Lenient p.kind) (hs : p.kind.Same q.kind) (s : Int) (b : List Byte) : hdr q s b = hdr p s b := by
  obtain ⟨e1, k1⟩ := p
  obtain ⟨e2, k2⟩ := q
  cases k1 <;> cases k2 <;> simp_all [Lenient, Kind.Same, Stack.hdr]

theorem same_session {q : Kind} (h : q.Same .session) : q = .session := by
  cases q <;> first | rfl | exact absurd h (by simp [Kind.Same])

theorem session_same {q : Kind} (h : Kind.session.Same q) : q = .session := by
  cases q <;> first | rfl | exact absurd h (by simp [Kind.Same])

theorem frame_same {c : Option St} {q : Kind} (h : (Kind.frame c).Same q) : ∃ c', q = .frame c' := by
  cases q <;> first | exact ⟨_, rfl⟩ | exact absurd h (by simp [Kind.Same])

theorem lenient_or_not {p : Proc} {on : Bool} (h : Opens p) (ho : Opens ⟨on, p.kind⟩) (h1 : p.kind ≠ .session) (h2 : ∀ c, p.kind ≠ .frame c) :
    on = p.enable ∨ Lenient p.kind := by
  obtain ⟨e, k⟩ := p
  cases k <;> first | exact .inr trivial | exact absurd rfl h1 | exact absurd rfl (h2 _) | (left; simp only [Opens] at h ho; rw [h, ho])

theorem wrap_hdr {w w' : World} (m : Nat) : ∀ a, (∀ j, a ≤ j → j < a + m → ∀ s b, hdr (w'.procs j) s b = hdr (w.procs j) s b) →
    ∀ s b, wrap (seg w' a m) s b = wrap (seg w a m) s b := by
  induction m with
  | zero => intro a _ s b; rfl
  | succ m ih =>
    intro a h s b
    rw [seg_succ, seg_succ, wrap, wrap, h a (by omega) (by omega), ih (a + 1) fun j h1 h2 => h j (by omega) (by omega)]

theorem CodedBy.free {f1 f2 : Nat} (e : f1 = f2) {k : Kind} {v : Val} {b : List Byte} (h : CodedBy f1 k v b) : CodedBy f2 k v b := e ▸ h

/-- The two ends may differ in which of the lenient processors are enabled. -/
theorem c90_one_sided (ws wr : World) (k : Nat) (hs : Carrier ws k) (hr : Carrier wr k) (hn : wr.n = ws.n) (hmtu : wr.mtu = ws.mtu)
    (hsame : ∀ j, j < ws.n → (ws.procs j).kind.Same (wr.procs j).kind)
    (hdiff : ∀ j, k < j → j < ws.n → (wr.procs j).enable = (ws.procs j).enable ∨ Lenient (ws.procs j).kind)
    (v : Val) (b : List Byte) (s : Int) (hm : Message ws k v b s)
    (cs : ConnId) (hs1 : (ws.conns cs).useRef = false) (hs2 : (ws.conns cs).closed = false)
    (hw : ∀ p, (ws.write ws.trace cs p).err = none ∧ (ws.write ws.trace cs p).n ≤ p.length)
    (cr : ConnId) (hr1 : (wr.conns cr).useRef = false) (ep : EpId) (hep : findEndPoint wr.served s = some ep)
    (fuel : Nat) (hf : ws.n + 1 < fuel) :
    ∃ bs r ws' wr', send fuel (some cs) v s ws = (.ok (), ws') ∧ Moved [.wire cs bs r] ws ws' ∧
      receive fuel cr bs wr = (.ok (), wr') ∧ Moved [.rx ep (some cr) v] wr wr' := by
  have hwire : wire wr k s b = wire ws k s b := by
    simp only [wire]
    rw [hn]
    refine wrap_hdr _ _ (fun j j1 j2 s b => ?_) s b
    rcases hdiff j (by omega) (by omega) with h | h
    · exact SameProc.hdr_eq ⟨h, hsame j (by omega)⟩ s b
    · exact h.hdr (hsame j (by omega)) s b
  have hov : wr.overhead = ws.overhead := by
    rw [hs.built, hr.built, hn]
    have : ∀ (m a : Nat), a + m ≤ ws.n → room (seg wr a m) = room (seg ws a m) := by
      intro m
      induction m with
      | zero => intro a _; rfl
      | succ m ih =>
        intro a h
        have hk : (wr.procs a).kind.overhead = (ws.procs a).kind.overhead :=
          SameProc.overhead_eq (p := ⟨true, (ws.procs a).kind⟩) (q := ⟨true, (wr.procs a).kind⟩) ⟨rfl, hsame a (by omega)⟩
        rw [seg_succ, seg_succ, room, room, hk, ih (a + 1) (by omega)]
    exact this _ _ (by omega)
  have hm' : Message wr k v b s := by
    refine ⟨?_, hm.ne, by rw [hov, hmtu]; exact hm.fit, hm.lo, hm.hi, ?_⟩
    · exact (hm.codec.same (hsame k hs.pos)).free (by rw [hmtu, hov])
    · rcases hm.session with ⟨j, j1, j2, j3, j4⟩ | h
      · refine .inl ⟨j, j1, by rw [hn]; exact j2, ?_⟩
        have hk := hsame j j2
        rcases hdiff j j1 j2 with h | h
        · refine ⟨?_, h.trans j4⟩
          rw [j3] at hk
          generalize (wr.procs j).kind = q at hk ⊢
          cases q <;> simp_all [Kind.Same]
        · rw [j3] at h; exact h.elim
      · exact .inr h
  obtain ⟨ws', h1, h2⟩ := c20_on_the_wire_partial ws k hs v b s hm cs hs1 hs2 (hw _).1 (hw _).2 fuel (by omega)
  obtain ⟨wr', h3, h4⟩ := receive_delivers wr k hr v b s hm' cr hr1 ep hep fuel (by rw [hn]; exact hf)
  rw [hwire] at h3
  exact ⟨_, _, ws', wr', h1, h2, h3, h4⟩

theorem wire_split {w : World} {k : Nat} (h : k + 1 < w.n) (s : Int) (b : List Byte) :
    wire w k s b = wrap (seg w (k + 2) (w.n - (k + 2))) s (hdr (w.procs (k + 1)) s b ++ b) := by
  rw [wire, show w.n - (k + 1) = w.n - (k + 2) + 1 by omega, seg_succ, wrap]

/-- Every message the sender's configuration carries arrives as it was sent. -/
def Arrives (fuel : Nat) (cr : ConnId) (ws wr : World) (k : Nat) : Prop :=
  ∀ v b s ep, Message ws k v b s → findEndPoint wr.served s = some ep →
    ∃ wr', receive fuel cr (wire ws k s b) wr = (.ok (), wr') ∧ wr'.trace = wr.trace ++ [.rx ep (some cr) v]

/-- The processor right below the codec is switched at the receiver only.  All messages still arrive if and only if
the processor was in that position already, or its wire format does not depend on it. -/
theorem c90_iff (ws wr : World) (k : Nat) (hs : Carrier ws k) (hm : Matching ws wr) (hb : Built wr) (hr : Rested wr) (hk : k + 1 < ws.n)
    (hcodec : (ws.procs k).kind = .bytesCodec) (on : Bool) (hopens : Opens ⟨on, (ws.procs (k + 1)).kind⟩)
    (cr : ConnId) (hr1 : (wr.conns cr).useRef = false) (ep0 : EpId) (hep0 : findEndPoint wr.served 0 = some ep0)
    (hroom : ws.overhead + 9 ≤ ws.mtu) (fuel : Nat) (hf : ws.n + 1 < fuel) :
    Arrives fuel cr ws (setEnable (k + 1) on wr) k ↔
      (on = (ws.procs (k + 1)).enable ∨ ((ws.procs (k + 1)).kind ≠ .session ∧ ∀ c, (ws.procs (k + 1)).kind ≠ .frame c)) := by
  have hpos := hs.pos
  have hcr := hm.carrier hs hb hr
  have hov := hm.overhead hs.built hb
  have hsk := (hm.same (k + 1) hk).2
  have hcar : Carrier (setEnable (k + 1) on wr) k := by
    refine ⟨hcr.pos, fun j hj => ?_, ?_, fun j j1 j2 => ?_, fun j j1 j2 j3 => ?_, setEnable_built hb _ _, hcr.mtu⟩
    · rw [setEnable_ne (by omega)]; exact hcr.quiet j hj
    · rw [setEnable_ne (by omega)]; exact hcr.codecOn
    · by_cases e : j = k + 1
      · subst e
        refine SameProc.opens (p := ⟨on, (ws.procs (k + 1)).kind⟩) ⟨?_, ?_⟩ hopens
        · rw [setEnable_self]
        · rw [setEnable_kind]; exact hsk
      · rw [setEnable_ne e]; exact hcr.opens j j1 j2
    · exact hr.setEnable (k + 1) on j j2 j3.1
  have hcod : ((setEnable (k + 1) on wr).procs k).kind = .bytesCodec := by
    rw [setEnable_kind]
    have := (hm.same k hpos).2
    rw [hcodec] at this
    generalize (wr.procs k).kind = q at this ⊢
    cases q <;> simp_all [Kind.Same]
  have hrest : ∀ s b, wrap (seg (setEnable (k + 1) on wr) (k + 2) (ws.n - (k + 2))) s b = wrap (seg ws (k + 2) (ws.n - (k + 2))) s b :=
    wrap_same_below _ _ fun j j1 j2 => by rw [setEnable_ne (by omega)]; exact hm.same j (by omega)
  -- what the receiver makes of the bytes of a message to session 0
  have key : ∀ x y : List Byte, y ≠ [] → y.length ≤ 9 →
      hdr (ws.procs (k + 1)) 0 x ++ x = hdr ((setEnable (k + 1) on wr).procs (k + 1)) 0 y ++ y →
      ∃ wr', receive fuel cr (wire ws k 0 x) (setEnable (k + 1) on wr) = (.ok (), wr') ∧ wr'.trace = wr.trace ++ [.rx ep0 (some cr) (.bytes y)] := by
    intro x y hy hl he
    have hmsg : Message (setEnable (k + 1) on wr) k (.bytes y) y 0 := by
      refine ⟨by rw [hcod]; exact .bytes y, hy, ?_, by decide, by decide, .inr rfl⟩
      show wr.overhead + _ ≤ wr.mtu
      rw [hov, hm.mtu]
      omega
    obtain ⟨wr', h1, h2⟩ := receive_delivers (setEnable (k + 1) on wr) k hcar _ y 0 hmsg cr hr1 ep0 hep0 fuel
      (by show wr.n + 1 < fuel; rw [hm.n]; exact hf)
    have hwire : wire (setEnable (k + 1) on wr) k 0 y = wire ws k 0 x := by
      rw [wire_split (show k + 1 < (setEnable (k + 1) on wr).n by show k + 1 < wr.n; rw [hm.n]; exact hk), wire_split hk, he]
      show wrap (seg _ (k + 2) (wr.n - (k + 2))) _ _ = _
      rw [hm.n, hrest]
    rw [hwire] at h1
    exact ⟨wr', h1, h2.trace⟩
  -- a message that arrives as another one
  have no : ∀ x y : List Byte, x ≠ [] → x.length ≤ 9 → y ≠ [] → y.length ≤ 9 → x ≠ y →
      hdr (ws.procs (k + 1)) 0 x ++ x = hdr ((setEnable (k + 1) on wr).procs (k + 1)) 0 y ++ y → ¬ Arrives fuel cr ws (setEnable (k + 1) on wr) k := by
    intro x y hx hxl hy hyl hxy he ha
    obtain ⟨wr', h1, h2⟩ := ha (.bytes x) x 0 ep0 ⟨by rw [hcodec]; exact .bytes x, hx, by omega, by decide, by decide, .inr rfl⟩ hep0
    obtain ⟨wr'', h3, h4⟩ := key x y hy hyl he
    rw [h1] at h3
    injection h3 with _ h3
    subst h3
    rw [h4] at h2
    have h5 := List.append_cancel_left h2
    injection h5 with h5 _
    injection h5 with _ _ h5
    injection h5 with h5
    exact hxy h5.symm
  have henable : ((setEnable (k + 1) on wr).procs (k + 1)).enable = on := setEnable_self _ _ _
  have hkind : (ws.procs (k + 1)).kind.Same ((setEnable (k + 1) on wr).procs (k + 1)).kind := by rw [setEnable_kind]; exact hsk
  constructor
  · intro ha
    by_cases hon : on = (ws.procs (k + 1)).enable
    · exact .inl hon
    refine .inr ⟨fun hsess => ?_, fun c hfr => ?_⟩
    · revert ha
      generalize (setEnable (k + 1) on wr).procs (k + 1) = q at henable hkind no
      generalize ws.procs (k + 1) = p at hsess hkind hon no
      obtain ⟨e1, k1⟩ := p
      obtain ⟨e2, k2⟩ := q
      simp only at hsess hon henable hkind
      subst hsess henable
      have := session_same hkind
      subst this
      cases e1 <;> cases e2
      · exact absurd rfl hon
      · exact no [0, 0, 0, 0, 1] [1] (by simp) (by simp) (by simp) (by simp) (by simp) (by decide)
      · exact no [1] [0, 0, 0, 0, 1] (by simp) (by simp) (by simp) (by simp) (by simp) (by decide)
      · exact absurd rfl hon
    · revert ha
      generalize (setEnable (k + 1) on wr).procs (k + 1) = q at henable hkind no
      generalize ws.procs (k + 1) = p at hfr hkind hon no
      obtain ⟨e1, k1⟩ := p
      obtain ⟨e2, k2⟩ := q
      simp only at hfr hon henable hkind
      subst hfr henable
      obtain ⟨c', this⟩ := frame_same hkind
      subst this
      cases e1 <;> cases e2
      · exact absurd rfl hon
      · exact no [0, 0, 0, 1, 1] [1] (by simp) (by simp) (by simp) (by simp) (by simp) rfl
      · exact no [1] [0, 0, 0, 1, 1] (by simp) (by simp) (by simp) (by simp) (by simp) rfl
      · exact absurd rfl hon
  · intro hcase v b s ep hmsg hep
    have hh : ∀ b, hdr ((setEnable (k + 1) on wr).procs (k + 1)) s b = hdr (ws.procs (k + 1)) s b := by
      intro b
      rcases hcase with h | ⟨h1, h2⟩
      · exact SameProc.hdr_eq ⟨by rw [henable]; exact h, hkind⟩ s b
      · rcases lenient_or_not (hs.opens (k + 1) (by omega) hk) hopens h1 h2 with h | h
        · exact SameProc.hdr_eq ⟨by rw [henable]; exact h, hkind⟩ s b
        · exact h.hdr hkind s b
    have hmsg' : Message (setEnable (k + 1) on wr) k v b s := by
      have hmr := hm.message hpos hs.built hb hmsg
      refine ⟨?_, hmr.ne, hmr.fit, hmr.lo, hmr.hi, ?_⟩
      · rw [setEnable_kind]; exact hmr.codec
      · rcases hmr.session with ⟨j, j1, j2, j3⟩ | h
        · refine .inl ⟨j, j1, j2, ?_⟩
          by_cases e : j = k + 1
          · subst e
            rcases hcase with h | ⟨h, _⟩
            · exact ⟨by rw [setEnable_kind]; exact j3.1, by rw [henable, h, ← (hm.same (k + 1) hk).1]; exact j3.2⟩
            · rw [j3.1] at hsk
              exact absurd (same_session hsk) h
          · rw [setEnable_ne e]; exact j3
        · exact .inr h
    obtain ⟨wr', h1, h2⟩ := receive_delivers (setEnable (k + 1) on wr) k hcar v b s hmsg' cr hr1 ep hep fuel
      (by show wr.n + 1 < fuel; rw [hm.n]; exact hf)
    have hwire : wire (setEnable (k + 1) on wr) k s b = wire ws k s b := by
      rw [wire_split (show k + 1 < (setEnable (k + 1) on wr).n by show k + 1 < wr.n; rw [hm.n]; exact hk), wire_split hk, hh]
      show wrap (seg _ (k + 2) (wr.n - (k + 2))) _ _ = _
      rw [hm.n, hrest]
    rw [hwire] at h1
    exact ⟨wr', h1, h2.trace⟩

/-! ## A FrameDecoder at the bottom, switched on while bytes without frames are under way -/

/-- A read of which the decoder at the bottom hands up nothing. -/
theorem receive_kept (w : World) (i : Nat) (hn : w.n = i + 1) (hfr : Frames (w.procs i)) (d : Deque) (hd : Caches i w d)
    (bs : List Byte) (h1 : bs ≠ []) (hfit : (bs.length : Int) ≤ w.mtu) (c : ConnId) (hbytes : (w.conns c).useRef = false) (f : Nat)
    (hout : (decodeRead (f + 1) d ⟨w.mtu.toNat, 0, 0, bs⟩).out = []) :
    ∃ r q, receive (f + 2) c bs w = (r, w.setKind i (.frame q)) ∧
      ((decodeRead (f + 1) d ⟨w.mtu.toNat, 0, 0, bs⟩).res = .ok () → r = .ok () ∧
        Caches i (w.setKind i (.frame q)) (decodeRead (f + 1) d ⟨w.mtu.toNat, 0, 0, bs⟩).cache) ∧
      ((decodeRead (f + 1) d ⟨w.mtu.toNat, 0, 0, bs⟩).res = .panic → r = .panic) := by
  obtain ⟨c0, hk0⟩ := hfr.1
  have hp : w.procs i = ⟨true, (w.procs i).kind⟩ := by rw [← hfr.2]
  obtain ⟨ub, a1, a2⟩ := receive_ok (c := c) (w := w) h1 hfit
  have how : OneWay i w := ⟨⟨c0, hk0⟩, fun j h1 h2 => by omega⟩
  obtain ⟨ca, hk, hca⟩ := hd
  have := frameLower_feeds (nb := nbAt (f + 1) (i + 1)) (calm_above i (f + 1)) (f + 1) how
    (ctx := { Ctx.new with conn := some c, buf := some ub }) ⟨c, rfl, hbytes⟩ rfl hk hca a1
  generalize decodeRead (f + 1) d ⟨w.mtu.toNat, 0, 0, bs⟩ = dec at this hout ⊢
  obtain ⟨b1, b2⟩ := this
  have hon : onLower (f + 1) i ⟨true, (w.procs i).kind⟩ (nbAt (f + 1) (i + 1)) { Ctx.new with conn := some c, buf := some ub } w =
      frameLower (f + 1) i true (nbAt (f + 1) (i + 1)) { Ctx.new with conn := some c, buf := some ub } w := by rw [hk]; rfl
  rw [hout] at b1
  generalize hrun : frameLower (f + 1) i true (nbAt (f + 1) (i + 1)) { Ctx.new with conn := some c, buf := some ub } w = run at b1 b2
  obtain ⟨r, w'⟩ := run
  have hcall : ∀ r', r = r' → call (f + 1 + 1) .up w.n { Ctx.new with conn := some c, buf := some ub } w = (r', w') := by
    intro r' e
    subst e
    rw [hn, call_up (by omega), hp, hon, hrun]
  cases b1 with
  | done _ _ b c1 he =>
    refine ⟨.ok (), c1, by rw [a2, bind_of_ok (hcall _ rfl)]; rfl, fun _ => ⟨rfl, (b2 _ rfl).2⟩, fun h => by rw [he] at h; cases h⟩
  | panic _ _ c1 he =>
    refine ⟨.panic, c1, ?_, fun h => ?_, fun _ => rfl⟩
    · rw [a2, bind_apply, hcall _ rfl]; rfl
    · rw [he] at h; cases h
  | running _ _ c1 he =>
    refine ⟨.running, c1, ?_, fun h => ?_, fun h => ?_⟩
    · rw [a2, bind_apply, hcall _ rfl]; rfl
    · rw [he] at h; cases h
    · rw [he] at h; cases h

/-- A full cache stays as it is. -/
theorem decodeRead_full {d src : Deque} (h : Full d) (f : Nat) : decodeRead (f + 1) d src = ⟨[], .ok (), d⟩ := by
  have : (Deque.readFromDeque d src).2.2.1 = d := by simp only [Deque.readFromDeque]; rw [if_pos h.full]
  simp only [decodeRead, if_pos h.some, this, h.waits f, List.nil_append]

/-- A read that is an incomplete frame. -/
theorem decodeRead_incomplete {T : Nat} {d src : Deque} (hT : 0 < T) (hv : Vacant T d) (hi : Incomplete src.content)
    (hl : src.content.length < 2 ^ 32) (f : Nat) :
    (decodeRead (f + 1) d src).out = [] ∧ (decodeRead (f + 1) d src).res = .ok () ∧
      ((src.content.length < T ∧ Vacant T (decodeRead (f + 1) d src).cache) ∨ (T ≤ src.content.length ∧ Full (decodeRead (f + 1) d src).cache)) := by
  have hcur : decodeCurrent (f + 1) d src = ⟨[], .ok (), (Deque.readFromDeque d src).2.2.1⟩ := by
    simp only [decodeCurrent, toU32_of_nat _ hl]
    by_cases h4 : src.content.length < 4
    · rw [if_pos h4]
    · rw [if_neg h4, if_pos]
      rcases hi with h | h
      · exact absurd h h4
      · exact h
  simp only [decodeRead, hv.empty, ne_eq, not_true, if_false, hcur]
  rcases readFrom_vacant hv hT hi with ⟨h1, h2⟩ | ⟨h1, h2⟩
  · have : decodeCached (f + 1) (Deque.readFromDeque d src).2.2.1 = ⟨[], .ok (), Deque.clear (Deque.readFromDeque d src).2.2.1⟩ := by
      simp [decodeCached, h2.empty]
    rw [this]
    exact ⟨rfl, rfl, .inl ⟨h1, h2.clear⟩⟩
  · rw [h2.waits]
    exact ⟨rfl, rfl, .inr ⟨h1, h2⟩⟩

theorem frames_setKind {w : World} {i : Nat} (h : Frames (w.procs i)) (q : Option St) : Frames ((w.setKind i (.frame q)).procs i) := by
  rw [setKind_self]; exact ⟨⟨q, rfl⟩, h.2⟩

/-- Once the cache is full nothing is handed up any more. -/
theorem full_deaf (i f : Nat) (c : ConnId) (rs : List (List Byte)) : ∀ (w : World) (d : Deque), w.n = i + 1 → Frames (w.procs i) →
    Caches i w d → Full d → (w.conns c).useRef = false → (∀ r ∈ rs, r ≠ [] ∧ (r.length : Int) ≤ w.mtu) →
    ∃ w', receiveAll (f + 2) c rs w = (.ok (), w') ∧ w'.trace = w.trace := by
  induction rs with
  | nil => intro w d _ _ _ _ _ _; exact ⟨w, rfl, rfl⟩
  | cons r rs ih =>
    intro w d hn hfr hd hfull hby hrs
    obtain ⟨h1, h2⟩ := hrs r (by simp)
    obtain ⟨r', q, e1, e2, _⟩ := receive_kept w i hn hfr d hd r h1 h2 c hby f (by rw [decodeRead_full hfull])
    rw [decodeRead_full hfull] at e2
    obtain ⟨e2, e3⟩ := e2 rfl
    subst e2
    obtain ⟨w', g1, g2⟩ := ih (w.setKind i (.frame q)) d hn (frames_setKind hfr q) e3 hfull hby (fun r hr => hrs r (by simp [hr]))
    exact ⟨w', by simp only [receiveAll]; rw [bind_of_ok e1]; exact g1, g2⟩

/-- What is common to the three ways a switch at the bottom goes wrong: `b` is sent without a frame, and read after
the receiver switched its lowest processor, a FrameDecoder with an empty cache of `T` bytes, on. -/
structure Caught (ws wr : World) (k i T : Nat) (d : Deque) (cs cr : ConnId) (v : Val) (b : List Byte) (s : Int) : Prop where
  sender : Carrier ws k
  message : Message ws k v b s
  matching : Matching ws wr
  n : ws.n = i + 1
  decoder : ∃ c, (wr.procs i).kind = .frame c
  caches : Caches i wr d
  pos : 0 < T
  vacant : Vacant T d
  sendBytes : (ws.conns cs).useRef = false
  sendOpen : (ws.conns cs).closed = false
  writes : ∀ p, (ws.write ws.trace cs p).err = none ∧ (ws.write ws.trace cs p).n ≤ p.length
  readBytes : (wr.conns cr).useRef = false

section
variable {ws wr : World} {k i T : Nat} {d : Deque} {cs cr : ConnId} {v : Val} {b : List Byte} {s : Int}

theorem Caught.sent (h : Caught ws wr k i T d cs cr v b s) (fuel : Nat) (hf : ws.n + 1 < fuel) :
    ∃ r ws', send fuel (some cs) v s ws = (.ok (), ws') ∧ Moved [.wire cs (wire ws k s b) r] ws ws' := by
  obtain ⟨ws', h1, h2⟩ := c20_on_the_wire_partial ws k h.sender v b s h.message cs h.sendBytes h.sendOpen (h.writes _).1 (h.writes _).2
    fuel (by omega)
  exact ⟨_, ws', h1, h2⟩

theorem Caught.read (h : Caught ws wr k i T d cs cr v b s) (f : Nat)
    (hout : (decodeRead (f + 1) d ⟨wr.mtu.toNat, 0, 0, wire ws k s b⟩).out = []) :
    ∃ r q, receive (f + 2) cr (wire ws k s b) (setEnable i true wr) = (r, (setEnable i true wr).setKind i (.frame q)) ∧
      ((decodeRead (f + 1) d ⟨wr.mtu.toNat, 0, 0, wire ws k s b⟩).res = .ok () → r = .ok () ∧
        Caches i ((setEnable i true wr).setKind i (.frame q)) (decodeRead (f + 1) d ⟨wr.mtu.toNat, 0, 0, wire ws k s b⟩).cache) ∧
      ((decodeRead (f + 1) d ⟨wr.mtu.toNat, 0, 0, wire ws k s b⟩).res = .panic → r = .panic) := by
  refine receive_kept (setEnable i true wr) i (h.matching.n.trans h.n) ⟨?_, setEnable_self _ _ _⟩ d ?_ (wire ws k s b)
    (wrap_ne _ s h.message.ne) ?_ cr h.readBytes f hout
  · rw [setEnable_kind]; exact h.decoder
  · obtain ⟨c, h1, h2⟩ := h.caches
    exact ⟨c, by rw [setEnable_kind]; exact h1, h2⟩
  · show _ ≤ wr.mtu
    rw [h.matching.mtu]
    exact wire_fits h.sender h.message

theorem Caught.short (h : Caught ws wr k i T d cs cr v b s) : (wire ws k s b).length < 2 ^ 32 := by
  have h1 := wire_fits h.sender h.message
  have h2 := h.sender.mtu
  omega

/-- If the bytes look like the beginning of a long frame and fill the cache: the message is lost and nothing that is
read on the connection afterwards is delivered, framed or not. -/
theorem c90_jammed (h : Caught ws wr k i T d cs cr v b s) (hi : Incomplete (wire ws k s b)) (hlong : T ≤ (wire ws k s b).length)
    (fuel : Nat) (hf : ws.n + 1 < fuel) (rs : List (List Byte)) (hrs : ∀ r ∈ rs, r ≠ [] ∧ (r.length : Int) ≤ wr.mtu) :
    ∃ r ws' wr', send fuel (some cs) v s ws = (.ok (), ws') ∧ Moved [.wire cs (wire ws k s b) r] ws ws' ∧
      receiveAll fuel cr (wire ws k s b :: rs) (setEnable i true wr) = (.ok (), wr') ∧ wr'.trace = wr.trace := by
  obtain ⟨r, ws', h1, h2⟩ := h.sent fuel hf
  obtain ⟨f, rfl⟩ : ∃ f, fuel = f + 2 := ⟨fuel - 2, by omega⟩
  obtain ⟨o1, o2, o3⟩ := decodeRead_incomplete (src := ⟨wr.mtu.toNat, 0, 0, wire ws k s b⟩) h.pos h.vacant hi h.short f
  obtain ⟨r', q, e1, e2, _⟩ := h.read f o1
  obtain ⟨e2, e3⟩ := e2 o2
  subst e2
  have hfull : Full (decodeRead (f + 1) d ⟨wr.mtu.toNat, 0, 0, wire ws k s b⟩).cache := by
    rcases o3 with ⟨x, _⟩ | ⟨_, x⟩
    · simp only at x; omega
    · exact x
  obtain ⟨w', g1, g2⟩ := full_deaf i f cr rs _ _ (show ((setEnable i true wr).setKind i (.frame q)).n = i + 1 from h.matching.n.trans h.n)
    (frames_setKind (w := setEnable i true wr) ⟨by rw [setEnable_kind]; exact h.decoder, setEnable_self _ _ _⟩ q) e3 hfull h.readBytes hrs
  exact ⟨r, ws', w', h1, h2, by simp only [receiveAll]; rw [bind_of_ok e1]; exact g1, g2⟩

/-- If the bytes look like the beginning of a long frame and are fewer than the cache has room for: the message is
lost, and the decoder is as it was. -/
theorem c90_lost (h : Caught ws wr k i T d cs cr v b s) (hi : Incomplete (wire ws k s b)) (hshort : (wire ws k s b).length < T)
    (fuel : Nat) (hf : ws.n + 1 < fuel) :
    ∃ r ws' wr' d', send fuel (some cs) v s ws = (.ok (), ws') ∧ Moved [.wire cs (wire ws k s b) r] ws ws' ∧
      receive fuel cr (wire ws k s b) (setEnable i true wr) = (.ok (), wr') ∧ Moved [] (setEnable i true wr) wr' ∧
      Caches i wr' d' ∧ Vacant T d' := by
  obtain ⟨r, ws', h1, h2⟩ := h.sent fuel hf
  obtain ⟨f, rfl⟩ : ∃ f, fuel = f + 2 := ⟨fuel - 2, by omega⟩
  obtain ⟨o1, o2, o3⟩ := decodeRead_incomplete (src := ⟨wr.mtu.toNat, 0, 0, wire ws k s b⟩) h.pos h.vacant hi h.short f
  obtain ⟨r', q, e1, e2, _⟩ := h.read f o1
  obtain ⟨e2, e3⟩ := e2 o2
  subst e2
  have hv : Vacant T (decodeRead (f + 1) d ⟨wr.mtu.toNat, 0, 0, wire ws k s b⟩).cache := by
    rcases o3 with ⟨_, x⟩ | ⟨x, _⟩
    · exact x
    · simp only at x; omega
  obtain ⟨c0, hk⟩ := h.decoder
  refine ⟨r, ws', _, _, h1, h2, e1, ?_, e3, hv⟩
  exact Moved.denorm (c1 := c0) (c2 := q) (cc := UBuf.demo) (by rw [setEnable_kind]; exact hk) (by rw [setKind_self])
    (by rw [setKind_setKind]; exact .refl _) (e3.idle hv.empty)

/-- If the bytes start with four zeros (a message to session 0 behind a SessionResolver, say), the receiver panics. -/
theorem c90_panic (h : Caught ws wr k i T d cs cr v b s) (h4 : 4 ≤ (wire ws k s b).length) (h0 : decBE ((wire ws k s b).take 4) = 0)
    (fuel : Nat) (hf : ws.n + 1 < fuel) :
    ∃ r ws', send fuel (some cs) v s ws = (.ok (), ws') ∧ Moved [.wire cs (wire ws k s b) r] ws ws' ∧
      (receive fuel cr (wire ws k s b) (setEnable i true wr)).1 = .panic := by
  obtain ⟨r, ws', h1, h2⟩ := h.sent fuel hf
  obtain ⟨f, rfl⟩ : ∃ f, fuel = f + 2 := ⟨fuel - 2, by omega⟩
  have hdec : decodeRead (f + 1) d ⟨wr.mtu.toNat, 0, 0, wire ws k s b⟩ = ⟨[], .panic, d⟩ := by
    have hs := h.short
    simp only [decodeRead, h.vacant.empty, ne_eq, not_true, if_false, decodeCurrent, toU32_of_nat _ h.short, h0]
    rw [if_neg (by omega), if_neg (by omega), if_neg (by omega), if_pos trivial]
  obtain ⟨r', q, e1, _, e3⟩ := h.read f (by rw [hdec])
  rw [e1]
  exact ⟨r, ws', h1, h2, e3 (by rw [hdec])⟩

end

/-! ## Examples -/

theorem five_rested : Rested five := by
  intro j hj h
  match j, hj, h with
  | 0, _, ⟨c, h⟩ => cases h
  | 1, _, ⟨c, h⟩ => cases h
  | 2, _, ⟨c, h⟩ => cases h
  | 3, _, ⟨c, h⟩ => cases h
  | 4, _, _ => exact ⟨UBuf.demo, rfl, demo_buf.1, demo_buf.data⟩

/-- `five` without the SessionResolver, or without the FrameDecoder, or without both. -/
theorem five_switched (a b : Bool) : Carrier (setEnable 4 b (setEnable 1 a five)) 0 := by
  have hb : Built (setEnable 4 b (setEnable 1 a five)) := setEnable_built (setEnable_built five_carrier.built 1 a) 4 b
  refine ⟨five_carrier.pos, fun j h => absurd h (by omega), rfl, fun j h1 h2 => ?_, fun j h1 h2 h3 => ?_, hb, five_carrier.mtu⟩
  · match j, h1, h2 with
    | 1, _, _ => trivial
    | 2, _, _ => trivial
    | 3, _, _ => trivial
    | 4, _, _ => trivial
  · exact ((five_rested.setEnable 1 a).setEnable 4 b) j h2 h3.1

/-- Twice a message to session 3; the SessionResolver is switched off: a message to session 0; it is switched on and
the FrameDecoder off: a message to session 3. -/
def demoActs : List SwAct :=
  [.say ⟨.bytes [9], [9], 3, 7⟩, .say ⟨.bytes [8], [8], 3, 7⟩, .switch 1 false, .switch 4 true, .say ⟨.bytes [7], [7], 0, 2⟩,
    .switch 1 true, .switch 4 false, .say ⟨.bytes [6], [6], 3, 7⟩]

/-- `five` with endpoints for sessions 0 and 3. -/
def five0 : World := { five with served := [(2, 0), (7, 3)] }

theorem five0_moved (w : World) (sv : List (EpId × Int)) (k : Nat) (h : Carrier w k) : Carrier { w with served := sv } k :=
  ⟨h.pos, h.quiet, h.codecOn, h.opens, h.idle, h.built, h.mtu⟩

theorem five0_carrier (a b : Bool) : Carrier (setEnable 4 b (setEnable 1 a five0)) 0 :=
  five0_moved (setEnable 4 b (setEnable 1 a five)) _ 0 (five_switched a b)

theorem setEnable_last (i : Nat) (a b : Bool) (w : World) : setEnable i a (setEnable i b w) = setEnable i a w := by
  simp only [setEnable]; congr 1; funext j; split <;> rfl

theorem setEnable_comm {i j : Nat} (h : i ≠ j) (a b : Bool) (w : World) : setEnable i a (setEnable j b w) = setEnable j b (setEnable i a w) := by
  simp only [setEnable]; congr 1; funext l
  by_cases h1 : l = i
  · subst h1; simp [h]
  · simp [h1]

theorem setEnable_none (i : Nat) (w : World) : setEnable i (w.procs i).enable w = w := by
  obtain ⟨_, _, _, _, procs, _, _, _, _⟩ := w
  simp only [setEnable, World.mk.injEq, true_and, and_true]
  funext j
  split
  · rename_i e; subst e; rfl
  · rfl

theorem demo_fit : Fit five0 demoActs := by
  have e0 : five0 = setEnable 4 true (setEnable 1 true five0) := by
    have h1 : setEnable 1 true five0 = five0 := setEnable_none 1 five0
    have h2 : setEnable 4 true five0 = five0 := setEnable_none 4 five0
    rw [h1, h2]
  have c0 : Carrier five0 0 := by rw [e0]; exact five0_carrier true true
  refine ⟨⟨0, c0, ?_, rfl⟩, ⟨0, c0, ?_, rfl⟩, ⟨0, five0_carrier false true, ?_, rfl⟩, ⟨0, ?_, ?_, rfl⟩, trivial⟩
  · exact ⟨.bytes _, by simp, by decide, by decide, by decide, .inl ⟨1, by decide, by decide, rfl, rfl⟩⟩
  · exact ⟨.bytes _, by simp, by decide, by decide, by decide, .inl ⟨1, by decide, by decide, rfl, rfl⟩⟩
  · exact ⟨.bytes _, by simp, by decide, by decide, by decide, .inr rfl⟩
  · have : setEnable 4 false (setEnable 1 true (setEnable 4 true (setEnable 1 false five0))) = setEnable 4 false (setEnable 1 true five0) := by
      rw [setEnable_comm (i := 1) (j := 4) (by decide), setEnable_last, setEnable_last]
    rw [this]
    exact five0_carrier true false
  · exact ⟨.bytes _, by simp, by decide, by decide, by decide, .inl ⟨1, by decide, by decide, rfl, rfl⟩⟩

example : ∃ ws' wr', exec (actStep 9 0 0) (five0, five0) demoActs = some (ws', wr') ∧
    wr'.trace = [.rx 7 (some 0) (.bytes [9]), .rx 7 (some 0) (.bytes [8]), .rx 2 (some 0) (.bytes [7]), .rx 7 (some 0) (.bytes [6])] := by
  obtain ⟨ws', wr', ps, h1, h2, _⟩ := c90_switch_partial 9 0 0 demoActs five0 five0 demo_fit ⟨rfl, rfl, fun _ _ => .refl _⟩
    five_carrier.built five_rested rfl rfl rfl (fun t p => ⟨rfl, Nat.le_refl _⟩) rfl (by decide)
  exact ⟨ws', wr', h1, h2⟩

/-- The receiver's StatCounter is off, the sender's on. -/
example (b : List Byte) (h1 : b ≠ []) (h2 : b.length ≤ 54) : ∃ bs r ws' wr', send 9 (some 0) (.bytes b) 3 five = (.ok (), ws') ∧
    Moved [.wire 0 bs r] five ws' ∧ receive 9 0 bs (setEnable 2 false five) = (.ok (), wr') ∧
    Moved [.rx 7 (some 0) (.bytes b)] (setEnable 2 false five) wr' := by
  refine c90_one_sided five (setEnable 2 false five) 0 five_carrier ?_ rfl rfl (fun j _ => ?_) (fun j j1 j2 => ?_) _ b 3 (five_message b h1 h2)
    0 rfl rfl (fun p => ⟨rfl, Nat.le_refl _⟩) 0 rfl 7 rfl 9 (by decide)
  · refine ⟨by decide, fun j h => absurd h (by omega), rfl, fun j h1 h2 => ?_, fun j h1 h2 h3 => ?_, setEnable_built five_carrier.built 2 false, by decide⟩
    · match j, h1, h2 with
      | 1, _, _ => trivial
      | 2, _, _ => trivial
      | 3, _, _ => trivial
      | 4, _, _ => trivial
    · exact (five_rested.setEnable 2 false) j h2 h3.1
  · rw [setEnable_kind]; exact .refl _
  · by_cases e : j = 2
    · subst e; exact .inr trivial
    · exact .inl (by rw [setEnable_ne e])

/-- The receiver switches its SessionResolver off: not every message arrives as it was sent. -/
example : ¬ Arrives 9 0 five0 (setEnable 1 false five0) 0 := by
  have e0 : Carrier five0 0 := five0_moved five _ 0 five_carrier
  rw [c90_iff five0 five0 0 e0 ⟨rfl, rfl, fun _ _ => .refl _⟩ five_carrier.built five_rested (by decide) rfl false trivial 0 rfl 2 rfl
    (by decide) 9 (by decide)]
  rintro (h | h)
  · exact absurd h (by decide)
  · exact h.1 rfl

/-- bytes codec, FrameDecoder (off, eight bytes of cache) -/
def plainTwo : World :=
  { quiet with mtu := 64, overhead := 4, n := 2, procs := fun j => match j with
      | 0 => ⟨true, .bytesCodec⟩
      | _ => ⟨false, .frame (some UBuf.demo)⟩ }

theorem plainTwo_carrier : Carrier plainTwo 0 := by
  refine ⟨by decide, fun j h => absurd h (by omega), rfl, fun j h1 h2 => ?_, fun j h1 h2 h3 => ?_, rfl, by decide⟩
  · match j, h1, h2 with
    | 1, _, _ => trivial
  · match j, h1, h2, h3 with
    | 1, _, _, ⟨_, h⟩ => cases h

theorem plainTwo_caught (b : List Byte) (h1 : b ≠ []) (h2 : b.length ≤ 60) :
    Caught plainTwo plainTwo 0 1 8 (Deque.fresh 16 8) 0 0 (.bytes b) b 0 :=
  ⟨plainTwo_carrier, ⟨.bytes b, h1, by simp only [plainTwo]; omega, by decide, by decide, .inr rfl⟩, ⟨rfl, rfl, fun _ _ => .refl _⟩,
    rfl, ⟨_, rfl⟩, ⟨UBuf.demo, rfl, demo_buf⟩, by decide, framing_vacant, rfl, rfl, fun p => ⟨rfl, Nat.le_refl _⟩, rfl⟩

/-- "GET /x.h" is taken for a frame of a gigabyte; later frames are read and not delivered. -/
example : ∃ wr', receiveAll 9 0 [[71, 69, 84, 32, 47, 120, 46, 104], [0, 0, 0, 1, 5], [0, 0, 0, 1, 6]] (setEnable 1 true plainTwo) = (.ok (), wr') ∧
    wr'.trace = [] := by
  obtain ⟨_, _, wr', _, _, h1, h2⟩ := c90_jammed (plainTwo_caught [71, 69, 84, 32, 47, 120, 46, 104] (by simp) (by simp)) (.inr (by decide)) (by decide)
    9 (by decide) [[0, 0, 0, 1, 5], [0, 0, 0, 1, 6]] (by simp [plainTwo])
  exact ⟨wr', h1, h2⟩

/-- "GET" is lost, and the decoder is empty again. -/
example : ∃ wr' d', receive 9 0 [71, 69, 84] (setEnable 1 true plainTwo) = (.ok (), wr') ∧ Caches 1 wr' d' ∧ Vacant 8 d' := by
  obtain ⟨_, _, wr', d', _, _, h1, _, h2, h3⟩ := c90_lost (plainTwo_caught [71, 69, 84] (by simp) (by simp)) (.inl (by decide)) (by decide) 9 (by decide)
  exact ⟨wr', d', h1, h2, h3⟩

example : (receive 9 0 [0, 0, 0, 0, 1] (setEnable 1 true plainTwo)).1 = .panic := by
  obtain ⟨_, _, _, _, h⟩ := c90_panic (plainTwo_caught [0, 0, 0, 0, 1] (by simp) (by simp)) (by decide) (by decide) 9 (by decide)
  exact h

end Verif.Stack
