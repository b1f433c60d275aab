import Verif.Stack.Together

/-!
# C86: any number of receivers behind a FrameDecoder with its default cache

`FrameDecoder.Run` makes a cache of `CacheCapacity` bytes, by default twice the MTU (proc_frame_decoder.go:193-205).  A receive goroutine never has
more than MTU bytes in hand (`tame_step`), so reading them into the empty cache fails (C06) and leaves it empty: between two
steps of any goroutine every cache is empty, whatever is received on however many connections.
-/

namespace Verif.Stack
open UBuf (St Err Heap WriteRes ReadRes)
open GoM

/-- A proper buffer of at most `M` bytes. -/
def Moderate (M : Int) (s : St) : Prop := ∃ d, Buf s d ∧ (d.cap : Int) ≤ M

/-- A function on buffers that keeps them proper and does not enlarge them; the contract for the user's encoders and decoders. -/
def Tames (m : GoM St α) : Prop := ∀ M s a s', Moderate M s → m s = (.ok a, s') → Moderate M s'

def Ctx.Tame (M : Int) (c : Ctx) : Prop := ∀ ub, c.buf = some ub → Stack.Moderate M ub

/-- The user's functions are decent with buffers. -/
def Kind.Tame : Kind → Prop
  | .genericCodec e d => (∀ f, e = some f → ∀ v, Tames (f v)) ∧ ∀ f, d = some f → Tames f
  | .gobCodec e d => (∀ v, Tames (e v)) ∧ Tames d
  | .filter fns _ _ => ∀ f, some f ∈ fns → ∀ M c up, c.Tame M → (f c up).2.Tame M
  | .forwarder fns _ _ => ∀ f, some f ∈ fns → ∀ M c up, c.Tame M → (f c up).2.Tame M
  | _ => True

theorem Kind.Tame.sim {o : Mode} {k k' : Kind} (h : k.Tame) (hs : k.Sim o k') : k'.Tame := by
  cases k <;> cases k' <;> simp_all [Kind.Sim, Kind.Tame]

/-! ## Operations on buffers -/

theorem step_cap (d : UBuf.Deque) (op : UBuf.Op) : (d.step op).2.cap = d.cap := by
  cases op <;> simp only [UBuf.Deque.step, UBuf.Deque.prependAll] <;>
    first
      | rfl
      | (repeat' split) <;> rfl

theorem tames_of {m : GoM St α} {f : α → UBuf.Out} (op : UBuf.Op) (hok : UBuf.Deque.OpOk op)
    (he : UBuf.exec op = (do let r ← m; return f r)) : Tames m := by
  intro M s a s' ⟨d, hd, hc⟩ h
  obtain ⟨t, h1, h2⟩ := hd.step op hok
  rw [he] at h1
  obtain ⟨r, h3, _⟩ := map_ok h1
  rw [h3] at h
  injection h with _ h
  subst h
  exact ⟨_, h2, by rw [step_cap]; exact hc⟩

namespace Tames
theorem write (p : List Byte) : Tames (UBuf.write p) := tames_of (.write p) trivial rfl
theorem writeHeadByte (c : Byte) : Tames (UBuf.writeHeadByte c) := tames_of (.writeHeadByte c) trivial rfl
theorem writeHeadU (w : UBuf.Width) (o : UBuf.Order) (v : Nat) : Tames (UBuf.writeHeadU w o v) := tames_of (.writeHeadU w o v) trivial rfl
theorem writeByte (c : Byte) : Tames (UBuf.writeByte c) := tames_of (.writeByte c) trivial rfl
theorem writeU (w : UBuf.Width) (o : UBuf.Order) (v : Nat) : Tames (UBuf.writeU w o v) := tames_of (.writeU w o v) trivial rfl
theorem readByte : Tames UBuf.readByte := tames_of .readByte trivial rfl
theorem read (n : Nat) : Tames (UBuf.read n) := tames_of (.read n) trivial rfl
theorem readU (w : UBuf.Width) (o : UBuf.Order) : Tames (UBuf.readU w o) := tames_of (.readU w o) trivial rfl
theorem peekU (w : UBuf.Width) (o : UBuf.Order) : Tames (UBuf.peekU w o) := tames_of (.peekU w o) trivial rfl
theorem readFrom (rd : Nat → ReadRes) (h : UBuf.Deque.Reader.Ok rd) : Tames (UBuf.readFrom rd) := tames_of (.readFrom rd) h rfl
end Tames

/-! ## Hops -/

/-- With MTU `M`, every result satisfies `Q`. -/
def Gives (M : Int) (Q : α → Prop) (m : GoM World α) : Prop := ∀ w a w', w.mtu = M → m w = (.ok a, w') → w'.mtu = M ∧ Q a

namespace Gives
variable {M : Int} {Q : α → Prop}

theorem pure {a : α} (h : Q a) : Gives M Q (Pure.pure a : GoM World α) := fun _ _ _ hm e => by
  injection e with e e'; injection e with e; subst e e'; exact ⟨hm, h⟩
theorem panic : Gives M Q (GoM.panic : GoM World α) := fun _ _ _ _ e => by injection e with e _; cases e
theorem bind {P : β → Prop} {m : GoM World β} {f : β → GoM World α} (h1 : Gives M P m) (h2 : ∀ b, P b → Gives M Q (f b)) :
    Gives M Q (m >>= f) := fun w a w' hm e => by
  obtain ⟨b, t, e1, e⟩ := ok_bind e
  obtain ⟨ht, hb⟩ := h1 w b t hm e1
  exact h2 b hb t a w' ht e
theorem ite {c : Prop} [Decidable c] {m n : GoM World α} (h1 : c → Gives M Q m) (h2 : ¬ c → Gives M Q n) : Gives M Q (if c then m else n) := by
  split
  · exact h1 ‹_›
  · exact h2 ‹_›
theorem get : Gives M (fun w => w.mtu = M) (GoM.get : GoM World World) := fun w a w' hm e => by
  injection e with e e'; injection e with e; subst e e'; exact ⟨hm, hm⟩
theorem useReference (c : Option ConnId) : Gives M (fun _ => True) (Stack.useReference c) := fun w a w' hm e => by
  cases c with
  | none => injection e with e; cases e
  | some c => injection e with e e'; subst e'; exact ⟨hm, trivial⟩
theorem setKind (i : Nat) (k : Kind) : Gives M (fun _ => True) (Stack.setKind i k) := fun w a w' hm e => by
  injection e with e e'; subst e'; exact ⟨hm, trivial⟩
theorem observe (o : Obs) : Gives M (fun _ => True) (Stack.observe o) := fun w a w' hm e => by
  injection e with e e'; subst e'; exact ⟨hm, trivial⟩
theorem closeConnection (c : ConnId) : Gives M (fun _ => True) (Stack.closeConnection c) := fun w a w' hm e => by
  injection e with e e'; subst e'; exact ⟨hm, trivial⟩
theorem check (b : Bool) : Gives M (fun _ => True) (GoM.check b : GoM World Unit) := by
  cases b
  · exact .panic
  · exact .pure trivial
theorem alloc {c : Int} (hc : c ≤ M) (r : Int) : Gives M (Moderate M) (allocBuf c r) := fun w a w' hm e => by
  injection e with e e'; subst e'
  obtain ⟨h0, _, _, h1, h2⟩ := UBuf.alloc_ok e
  refine ⟨hm, _, ⟨h1, h2⟩, ?_⟩
  simp only [UBuf.Deque.fresh]
  omega
theorem onBuf {β : Type} {m : GoM St β} (hm : Tames m) {s : St} (hs : Moderate M s) : Gives M (fun r => Moderate M r.2) (Stack.onBuf s m) :=
  fun w a w' hw e => by
  simp only [Stack.onBuf] at e
  rcases h : m s with ⟨r, s'⟩
  rw [h] at e
  cases r with
  | ok b =>
    injection e with e e'; injection e with e; subst e e'
    exact ⟨hw, hm M s b s' hs h⟩
  | panic => injection e with e; cases e
  | running => injection e with e; cases e
theorem frameCache (i : Nat) : Gives M (fun _ => True) (Stack.frameCache i) := fun w a w' hm e => by
  simp only [Stack.frameCache] at e
  rw [bind_of_ok (get_apply w)] at e
  cases hk : (w.procs i).kind <;> rw [hk] at e <;> try (injection e with e; cases e)
  rename_i c
  cases c with
  | none => injection e with e; cases e
  | some c => injection e with e e'; subst e'; exact ⟨hm, trivial⟩
theorem weak {m : GoM World α} (h : Gives M Q m) : Gives M (fun _ => True) m := fun w a w' hm e => ⟨(h w a w' hm e).1, trivial⟩

/-- The buffer that is read from stays tame, whatever the other one is. -/
theorem readFromBuf (dst : St) {src : St} (hs : Moderate M src) : Gives M (fun r => Moderate M r.2.2) (Stack.readFromBuf dst src) := fun w a w' hm e => by
  simp only [Stack.readFromBuf] at e
  rcases h : UBuf.read (dst.block.len - dst.ub.writer) src with ⟨r, s'⟩
  rw [h] at e
  cases r with
  | ok b =>
    simp only at e
    split at e
    · injection e with e e'; injection e with e; subst e e'
      refine ⟨hm, ?_⟩
      simp only
      split
      · exact hs
      · exact Tames.read _ M src b s' hs h
    · injection e with e; cases e
  | panic => injection e with e; cases e
  | running => injection e with e; cases e

theorem copyN {dst src : St} (hd : Moderate M dst) (hs : Moderate M src) (n : Nat) :
    Gives M (fun r => Moderate M r.2.1 ∧ Moderate M r.2.2) (Stack.copyN dst src n) := by
  refine .bind (P := fun r => Moderate M r.2.1 ∧ Moderate M r.2.2) (fun w a w' hm e => ?_) fun r hr => .pure hr
  obtain ⟨dd, hd, hdc⟩ := hd
  obtain ⟨ds, hs, hsc⟩ := hs
  obtain ⟨x, y, h1, h2, h3⟩ := readFromBuf_ok hd hs w
  rw [h1] at e
  injection e with e e'; injection e with e; subst e e'
  refine ⟨hm, ⟨_, h2, ?_⟩, _, h3, ?_⟩
  · simp only [Deque.readFromDeque]
    (repeat' split) <;> exact hdc
  · simp only [Deque.readFromDeque]
    (repeat' split) <;> exact hsc

theorem cacheReadFrom (i : Nat) {ub : St} (h : Moderate M ub) : Gives M (Moderate M) (Stack.cacheReadFrom i ub) :=
  .bind (.frameCache i) fun _ _ => .bind (.readFromBuf _ h) fun _ hr => .bind (.setKind _ _) fun _ _ => .pure hr

theorem cacheReset (i : Nat) : Gives M (fun _ => True) (Stack.cacheReset i) := by
  refine .bind (.frameCache i) fun c _ => .bind (P := fun _ => True) (fun w a w' hm e => ?_) fun _ _ => .setKind _ _
  simp only [Stack.onBuf] at e
  split at e
  · injection e with e e'; subst e'; exact ⟨hm, trivial⟩
  · injection e with e; cases e
  · injection e with e; cases e

theorem doFns (up : Bool) {fns : List (Option Fn)} (h : ∀ f, some f ∈ fns → ∀ M c up, c.Tame M → (f c up).2.Tame M) {ctx : Ctx} (hc : ctx.Tame M) :
    Gives M (fun r => r.2.Tame M) (Stack.doFns up fns ctx) := by
  induction fns generalizing ctx with
  | nil => exact .pure hc
  | cons f fns ih =>
    cases f with
    | none => exact .panic
    | some f =>
      have := h f (by simp) M ctx up hc
      exact .ite (fun _ => .pure this) fun _ => ih (fun f hf => h f (by simp [hf])) this
end Gives

/-- The context that goes on is tame. -/
def Next.Tame (M : Int) : Next → Prop
  | .stop _ => True
  | .up c => c.Tame M
  | .down c => c.Tame M
  | .upDown c => c.Tame M

theorem Ctx.Tame.some {M : Int} {ctx : Ctx} {ub : St} (h : Stack.Moderate M ub) : Ctx.Tame M { ctx with buf := Option.some ub } := by
  intro x hx
  injection hx with hx
  subst hx
  exact h

section Hops
variable {M : Int}

theorem encodeDownN_tame (ctx : Ctx) (b : List Byte) : Gives M (Next.Tame M) (encodeDownN ctx b) :=
  .bind .get fun _ hw => .bind (.alloc (by omega) _) fun _ hu => .bind (.onBuf (.write b) hu) fun _ hr =>
    .ite (fun _ => .pure trivial) fun _ => .pure (Ctx.Tame.some hr)

theorem genericUpperN_tame (en : Bool) {e : Option (Val → GoM St (Option Err))} (he : ∀ f, e = some f → ∀ v, Tames (f v)) {ctx : Ctx}
    (hc : ctx.Tame M) : Gives M (Next.Tame M) (genericUpperN en e ctx) := by
  refine .ite (fun _ => ?_) fun _ => .pure hc
  cases e with
  | none => exact .pure trivial
  | some e =>
    exact .ite (fun _ => .pure trivial) fun _ => .bind .get fun _ hw => .bind (.alloc (by omega) _) fun _ hu =>
      .bind (.onBuf (he e rfl _) hu) fun _ hr => .ite (fun _ => .pure trivial) fun _ => .pure (Ctx.Tame.some hr)

theorem tagDownN_tame (tag : Byte) (ctx : Ctx) {ub : St} (hu : Moderate M ub) : Gives M (Next.Tame M) (tagDownN tag ctx ub) :=
  .bind (.onBuf (.writeHeadByte tag) hu) fun _ hr => .pure (Ctx.Tame.some hr)

theorem onUpperN_tame (i : Nat) (p : Proc) (hp : p.kind.Tame) {ctx : Ctx} (hc : ctx.Tame M) : Gives M (Next.Tame M) (onUpperN i p ctx) := by
  obtain ⟨en, k⟩ := p
  cases k with
  | loopback => exact .pure hc
  | base => exact .pure trivial
  | bytesCodec =>
    refine .ite (fun _ => ?_) fun _ => .pure hc
    cases ctx.msg <;> first | exact .pure trivial | exact encodeDownN_tame _ _
  | stringCodec =>
    refine .ite (fun _ => ?_) fun _ => .pure hc
    cases ctx.msg <;> first | exact .pure trivial | exact encodeDownN_tame _ _
  | jsonCodec m u =>
    refine .ite (fun _ => .ite (fun _ => .pure trivial) fun _ => ?_) fun _ => .pure hc
    cases m ctx.msg <;> first | exact .pure trivial | exact encodeDownN_tame _ _
  | genericCodec e d => exact genericUpperN_tame _ hp.1 hc
  | gobCodec e d => exact genericUpperN_tame en (e := some e) (fun f hf v => by injection hf with hf; subst hf; exact hp.1 v) hc
  | session =>
    refine .ite (fun _ => ?_) fun _ => .pure hc
    cases hb : ctx.buf with
    | none => exact .pure trivial
    | some ub => exact .bind (.onBuf (.writeHeadU _ _ _) (hc ub hb)) fun _ hr => .ite (fun _ => .pure trivial) fun _ => .pure (Ctx.Tame.some hr)
  | frame c =>
    refine .bind (.useReference _) fun _ _ => .ite (fun _ => .pure hc) fun _ => .ite (fun _ => ?_) fun _ => .pure hc
    cases hb : ctx.buf with
    | none => exact .pure trivial
    | some ub => exact .bind (.onBuf (.writeHeadU _ _ _) (hc ub hb)) fun _ hr => .pure (Ctx.Tame.some hr)
  | stat tx rx =>
    refine .bind (.useReference _) fun _ _ => .ite (fun _ => .pure hc) fun _ => ?_
    cases hb : ctx.buf with
    | none => exact .pure trivial
    | some ub =>
      exact .ite (fun _ => .bind (.setKind _ _) fun _ _ => tagDownN_tame _ _ (hc ub hb)) fun _ => tagDownN_tame _ _ (hc ub hb)
  | heartbeat =>
    refine .bind (.useReference _) fun _ _ => .ite (fun _ => .pure hc) fun _ => ?_
    cases hb : ctx.buf with
    | none => exact .pure trivial
    | some ub => exact tagDownN_tame _ _ (hc ub hb)
  | loadBalancer =>
    refine .bind (.useReference _) fun _ _ => .ite (fun _ => .pure hc) fun _ => ?_
    cases hb : ctx.buf with
    | none => exact .pure trivial
    | some ub => exact tagDownN_tame _ _ (hc ub hb)
  | filter fns tx rx =>
    exact .ite (fun _ => .bind (.doFns _ hp hc) fun _ hr => .ite (fun _ => .bind (.setKind _ _) fun _ _ => .pure trivial) fun _ => .pure hr)
      fun _ => .pure hc
  | forwarder fns tx rx =>
    exact .ite (fun _ => .bind (.doFns _ hp hc) fun _ hr => .ite (fun _ => .bind (.setKind _ _) fun _ _ => .pure trivial) fun _ => .pure hr)
      fun _ => .pure hc
  | echo => exact .pure hc
  | discarder => exact .pure hc
  | flow => exact .pure hc

theorem decodeUpN_tame {ctx : Ctx} (hc : ctx.Tame M) {k : Ctx → List Byte → GoM World Next}
    (hk : ∀ c b, c.Tame M → Gives M (Next.Tame M) (k c b)) : Gives M (Next.Tame M) (decodeUpN ctx k) := by
  simp only [decodeUpN]
  cases hb : ctx.buf with
  | none => exact .pure trivial
  | some ub =>
    exact .bind (.check _) fun _ _ => .bind (.onBuf (.read _) (hc ub hb)) fun _ hr =>
      .ite (fun _ => .pure trivial) fun _ => hk _ _ (Ctx.Tame.some hr)

theorem genericLowerN_tame (en : Bool) {d : Option (GoM St (Val × Option Err))} (hd : ∀ f, d = some f → Tames f) {ctx : Ctx} (hc : ctx.Tame M) :
    Gives M (Next.Tame M) (genericLowerN en d ctx) := by
  refine .ite (fun _ => ?_) fun _ => .pure hc
  cases d with
  | none => exact .pure trivial
  | some d =>
    simp only
    cases hb : ctx.buf with
    | none => exact .pure trivial
    | some ub =>
      exact .bind (.onBuf (hd d rfl) (hc ub hb)) fun r hr => .ite (fun _ => .pure trivial) fun _ =>
        .pure (Ctx.Tame.some (ctx := { ctx with msg := r.1.1 }) hr)

theorem statResponseN_tame (tx rx : UInt64) (ctx : Ctx) : Gives M (Next.Tame M) (statResponseN tx rx ctx) :=
  .bind .get fun _ hw => .bind (.alloc (by omega) _) fun _ hu => .bind (.onBuf (.writeHeadByte _) hu) fun _ h1 =>
    .bind (.onBuf (.writeU _ _ _) h1) fun _ h2 => .bind (.onBuf (.writeU _ _ _) h2) fun _ h3 =>
      .bind (.onBuf (.write _) h3) fun _ h4 => .pure (Ctx.Tame.some h4)

theorem statShowN_tame {ctx : Ctx} (hc : ctx.Tame M) : Gives M (Next.Tame M) (statShowN ctx) := by
  simp only [statShowN]
  cases hb : ctx.buf with
  | none => exact .panic
  | some ub =>
    exact .bind (.onBuf (.readU _ _) (hc ub hb)) fun _ h1 => .bind (.onBuf (.readU _ _) h1) fun _ h2 => .bind (.onBuf (.read _) h2) fun _ h3 =>
      .bind (.observe _) fun _ _ => .pure trivial

theorem onLowerN_tame (i : Nat) (p : Proc) (hp : p.kind.Tame) {ctx : Ctx} (hc : ctx.Tame M) : Gives M (Next.Tame M) (onLowerN i p ctx) := by
  obtain ⟨en, k⟩ := p
  cases k with
  | loopback => exact .pure trivial
  | base => exact .pure trivial
  | bytesCodec => exact .ite (fun _ => decodeUpN_tame hc fun _ _ h => .pure h) fun _ => .pure hc
  | stringCodec => exact .ite (fun _ => decodeUpN_tame hc fun _ _ h => .pure h) fun _ => .pure hc
  | jsonCodec m u =>
    refine .ite (fun _ => decodeUpN_tame hc fun _ b h => ?_) fun _ => .pure hc
    cases u b <;> exact .pure (by first | trivial | exact h)
  | genericCodec e d => exact genericLowerN_tame _ hp.2 hc
  | gobCodec e d => exact genericLowerN_tame en (d := some d) (fun f hf => by injection hf with hf; subst hf; exact hp.2) hc
  | session =>
    refine .ite (fun _ => ?_) fun _ => .pure hc
    cases hb : ctx.buf with
    | none => exact .pure trivial
    | some ub =>
      exact .bind (.onBuf (.readU _ _) (hc ub hb)) fun r hr => .ite (fun _ => .pure trivial) fun _ =>
        .pure (Ctx.Tame.some (ctx := ctx.setOption "session" (.int r.1.1)) hr)
  | frame c => exact .pure trivial
  | stat tx rx =>
    refine .bind (.useReference _) fun _ _ => .ite (fun _ => .pure hc) fun _ => ?_
    cases hb : ctx.buf with
    | none => exact .pure trivial
    | some ub =>
      exact .bind (.onBuf .readByte (hc ub hb)) fun _ hr => .ite (fun _ => .pure trivial) fun _ => .ite
        (fun _ => .ite (fun _ => statResponseN_tame _ _ _) fun _ => .ite (fun _ => statShowN_tame (Ctx.Tame.some hr)) fun _ =>
          .bind (.setKind _ _) fun _ _ => .pure (Ctx.Tame.some hr)) fun _ => .pure (Ctx.Tame.some hr)
  | heartbeat =>
    refine .bind (.useReference _) fun _ _ => .ite (fun _ => .pure hc) fun _ => ?_
    cases hb : ctx.buf with
    | none => exact .pure trivial
    | some ub =>
      exact .bind (.onBuf .readByte (hc ub hb)) fun _ hr => .ite (fun _ => .pure trivial) fun _ =>
        .ite (fun _ => .bind (.observe _) fun _ _ => .pure trivial) fun _ => .pure (Ctx.Tame.some hr)
  | loadBalancer =>
    refine .bind (.useReference _) fun _ _ => .ite (fun _ => .pure hc) fun _ => ?_
    cases hb : ctx.buf with
    | none => exact .pure trivial
    | some ub =>
      exact .bind (.onBuf .readByte (hc ub hb)) fun _ hr => .ite (fun _ => .pure trivial) fun _ =>
        .ite (fun _ => .pure trivial) fun _ => .pure (Ctx.Tame.some hr)
  | filter fns tx rx =>
    exact .ite (fun _ => .bind (.doFns _ hp hc) fun _ hr => .ite (fun _ => .bind (.setKind _ _) fun _ _ => .pure trivial) fun _ => .pure hr)
      fun _ => .pure hc
  | forwarder fns tx rx =>
    exact .ite (fun _ => .bind (.doFns _ hp hc) fun _ hr => .ite (fun _ => .bind (.setKind _ _) fun _ _ => .pure trivial) fun _ => .pure hr)
      fun _ => .pure hc
  | echo => exact .ite (fun _ => .pure hc) fun _ => .pure hc
  | discarder => exact .ite (fun _ => .pure trivial) fun _ => .pure hc
  | flow => exact .pure hc

/-! ## The FrameDecoder -/

def Seg.Tame (M : Int) : Seg → Prop
  | .fin _ => True
  | .tail c => c.Tame M
  | .more c rest => c.Tame M ∧ Stack.Moderate M rest

theorem Moderate.readable {M : Int} {s : St} (h : Moderate M s) : 0 ≤ UBuf.readableLength s ∧ UBuf.readableLength s ≤ M := by
  obtain ⟨d, hd, hc⟩ := h
  rw [hd.readable]
  have := hd.wf.2
  omega

theorem curIter_tame (i : Nat) (first : Bool) (ctx : Ctx) {ub : St} (hu : Moderate M ub) : Gives M (Seg.Tame M) (curIter i first ctx ub) := by
  refine .ite (fun _ => .bind (.cacheReadFrom i hu) fun _ _ => .pure trivial) fun _ =>
    .bind (.onBuf (.peekU _ _) hu) fun p _ => .ite (fun _ => .bind (.cacheReset i) fun _ _ => .pure trivial) fun _ =>
    .ite (fun _ => .bind (.cacheReadFrom i hu) fun _ _ => .pure trivial) fun h1 =>
    .ite (fun _ => .bind (.onBuf (.readU _ _) hu) fun _ hr => .pure (Ctx.Tame.some hr)) fun h2 =>
    .bind (.alloc ?_ _) fun _ hn => .bind (.onBuf (.readU _ _) hu) fun _ hr => .bind (.copyN hn hr _) fun _ hq =>
    .ite (fun _ => .bind (.cacheReset i) fun _ _ => .pure trivial) fun _ => .pure ⟨Ctx.Tame.some hq.1, hq.2⟩
  have := hu.readable
  simp only [toU32] at h1 h2
  omega

theorem currentN_tame (i : Nat) (ctx : Ctx) {ub : St} (hu : Moderate M ub) : Gives M (Seg.Tame M) (currentN i ctx ub) :=
  .bind (.frameCache i) fun _ _ => .ite (fun _ => .bind (.cacheReadFrom i hu) fun _ _ => .pure trivial) fun _ => curIter_tame i true ctx hu

/-- An empty cache has nothing to hand out. -/
theorem cachedIter_rest {cap i : Nat} {ctx : Ctx} {w w' : World} {s : CSeg} (hr : ∀ c, (w.procs i).kind = .frame c → AtRest cap c)
    (h : cachedIter i ctx w = (.ok s, w')) : s = .fin ctx := by
  obtain ⟨c, t, h1, h⟩ := ok_bind h
  simp only [frameCache] at h1
  rw [bind_of_ok (get_apply w)] at h1
  cases hk : (w.procs i).kind <;> rw [hk] at h1 <;> try (injection h1 with h1; cases h1)
  rename_i c'
  obtain ⟨c2, he, hb⟩ := hr _ hk
  subst he
  injection h1 with h1 h2; injection h1 with h1; subst h1 h2
  have h0 : UBuf.readableLength c2 = 0 := by rw [hb.readable]; rfl
  rw [if_pos h0] at h
  obtain ⟨_, _, _, h⟩ := ok_bind h
  injection h with h _; injection h with h
  exact h.symm

/-! ## Goroutines -/

def Focus.Tame (M : Int) : Focus → Prop
  | .call _ _ c => c.Tame M
  | _ => True

/-- A FrameDecoder that is enabled. -/
def Waits (w : World) (pos : Nat) : Prop :=
  pos ≠ 0 ∧ pos ≤ w.n ∧ (w.procs (pos - 1)).kind.isFrame = true ∧ (w.procs (pos - 1)).enable = true

/-- All buffers of a goroutine are tame; the FrameDecoders waiting are enabled ones. -/
structure G.Tame (w : World) (g : G) : Prop where
  focus : g.focus.Tame w.mtu
  stack : ∀ x ∈ g.stack, Waits w x.1 ∧ ∀ rest, x.2 = .cur rest → Stack.Moderate w.mtu rest

theorem Job.start_tame (j : Job) : Gives M (fun r => ∀ x, r = some x → x.2.2.Tame M) j.start := by
  cases j with
  | send conn data session =>
    refine .pure fun x hx => ?_
    injection hx with hx; subst hx
    intro ub hub
    cases hub
  | recv c bs =>
    refine .bind .get fun w hw => .bind (.alloc (by omega) _) fun ub hu => .bind (.onBuf (.readFrom _ ?_) hu) fun r hr =>
      .ite (fun _ => .bind (.closeConnection c) fun _ _ => .pure fun x hx => by cases hx) fun _ => .pure fun x hx => ?_
    · intro m; simp only [List.length_take]; omega
    · injection hx with hx; subst hx
      exact Ctx.Tame.some (ctx := { Ctx.new with conn := some c }) hr
  | recvRef c v =>
    refine .bind .get fun w hw => .ite (fun _ => .bind (.closeConnection c) fun _ _ => .pure fun x hx => by cases hx) fun _ => .pure fun x hx => ?_
    injection hx with hx; subst hx
    intro ub hub
    cases hub
  | control i c tag =>
    refine .bind .get fun w hw => .bind (.alloc (by omega) _) fun ub hu => .bind (.onBuf (.writeByte _) hu) fun r hr => .pure fun x hx => ?_
    injection hx with hx; subst hx
    exact Ctx.Tame.some (ctx := { Ctx.new with conn := some c }) hr

theorem Next.go_tame (pos : Nat) (g : G) {n : Next} (h : n.Tame M) : (n.go pos g).focus.Tame M := by
  cases n <;> first | exact h | trivial

theorem Seg.go_tame (pos : Nat) (g : G) {n : Seg} (h : n.Tame M) : (n.go pos g).focus.Tame M := by
  cases n <;> first | exact h | exact h.1 | trivial

theorem Seg.go_stack {pos : Nat} {g : G} {n : Seg} (h : n.Tame M) {P : Nat × K → Prop} (hp : ∀ x ∈ g.stack, P x)
    (hk : ∀ rest, Stack.Moderate M rest → P (pos, .cur rest)) : ∀ x ∈ (n.go pos g).stack, P x := by
  cases n with
  | fin c => exact hp
  | tail c => exact hp
  | more c rest =>
    intro x hx
    rcases List.mem_cons.mp hx with rfl | hx
    · exact hk rest h.2
    · exact hp x hx

end Hops

theorem Waits.like {o : Nat → Mode} {w v : World} {pos : Nat} (h : Waits w pos) (hl : Like o w v) : Waits v pos :=
  ⟨h.1, hl.n ▸ h.2.1, (hl.kind _).isFrame ▸ h.2.2.1, hl.enable _ ▸ h.2.2.2⟩

/-- A step keeps all buffers tame. -/
theorem tame_step {g g' : G} {w w' : World} (h : stepG g w = (.ok g', w')) (hg : g.Tame w) (hk : ∀ i, i < w.n → (w.procs i).kind.Tame)
    (hr : ∀ pos, Waits w pos → ∃ cap, ∀ c, (w.procs (pos - 1)).kind = .frame c → AtRest cap c) : g'.Tame w' := by
  have hl : Like stranger w w' := by
    obtain ⟨⟨_, _, he⟩, _⟩ := stepG_effect h
    exact he.like
  suffices hs : g'.focus.Tame w.mtu ∧ ∀ x ∈ g'.stack, Waits w x.1 ∧ ∀ rest, x.2 = .cur rest → Stack.Moderate w.mtu rest by
    refine ⟨by rw [← hl.mtu]; exact hs.1, fun x hx => ?_⟩
    obtain ⟨h1, h2⟩ := hs.2 x hx
    exact ⟨h1.like hl, by rw [← hl.mtu]; exact h2⟩
  have one : ∀ {α : Type} {m : GoM World α} {f : α → G} {Q : α → Prop}, (m >>= fun x => Pure.pure (f x)) w = (.ok g', w') → Gives w.mtu Q m →
      ∃ x, Q x ∧ g' = f x := by
    intro α m f Q h hm
    obtain ⟨x, t, e, h⟩ := ok_bind h
    injection h with h1 h2; injection h1 with h1
    exact ⟨x, (hm w x t rfl e).2, h1.symm⟩
  have triv : ∀ {x : G}, (Pure.pure x : GoM World G) w = (.ok g', w') → g' = x := by
    intro x h
    injection h with h1 h2; injection h1 with h1; exact h1.symm
  cases hf : g.focus with
  | idle =>
    simp only [stepG, hf, idleStep] at h
    cases hj : g.jobs with
    | nil =>
      rw [hj] at h
      rw [triv h]
      exact ⟨hg.focus, hg.stack⟩
    | cons j js =>
      rw [hj] at h
      obtain ⟨r, t, e, h⟩ := ok_bind h
      have ht := (j.start_tame w r t rfl e).2
      cases r with
      | none => injection h with h1 h2; injection h1 with h1; subst h1; exact ⟨trivial, hg.stack⟩
      | some x => injection h with h1 h2; injection h1 with h1; subst h1; exact ⟨ht x rfl, hg.stack⟩
  | ret ctx =>
    simp only [stepG, hf, retStep] at h
    cases hst : g.stack with
    | nil =>
      rw [hst] at h
      rw [triv h]
      exact ⟨trivial, fun x hx => by cases hx⟩
    | cons k st =>
      obtain ⟨pos, k⟩ := k
      have hall := hg.stack
      rw [hst] at h hall
      obtain ⟨h1, h2⟩ := hall _ List.mem_cons_self
      have hst' : ∀ x ∈ st, Waits w x.1 ∧ ∀ rest, x.2 = .cur rest → Stack.Moderate w.mtu rest := fun x hx => hall x (List.mem_cons_of_mem _ hx)
      cases k with
      | cur rest =>
        obtain ⟨x, hx, rfl⟩ := one h (curIter_tame (pos - 1) false ctx (h2 rest rfl))
        exact ⟨Seg.go_tame _ _ hx, Seg.go_stack hx hst' fun r hr' => ⟨h1, fun r' hr'' => by injection hr'' with e; subst e; exact hr'⟩⟩
      | cached =>
        obtain ⟨cap, hcap⟩ := hr pos h1
        obtain ⟨x, t, e, h⟩ := ok_bind h
        have := cachedIter_rest hcap e
        subst this
        injection h with h1 h2; injection h1 with h1; subst h1
        exact ⟨trivial, hst'⟩
  | call dir pos ctx =>
    have hc : ctx.Tame w.mtu := by
      have := hg.focus
      rw [hf] at this
      exact this
    simp only [stepG, hf, callStep] at h
    rw [bind_of_ok (get_apply w)] at h
    by_cases h0 : pos = 0
    · rw [if_pos h0] at h
      cases dir with
      | up =>
        obtain ⟨x, t, _, h⟩ := ok_bind h
        injection h with h1 h2; injection h1 with h1; subst h1; exact ⟨trivial, hg.stack⟩
      | down => rw [triv h]; exact ⟨trivial, hg.stack⟩
    · rw [if_neg h0] at h
      by_cases hn : pos > w.n
      · rw [if_pos hn] at h
        cases dir with
        | up => rw [triv h]; exact ⟨trivial, hg.stack⟩
        | down =>
          obtain ⟨x, t, _, h⟩ := ok_bind h
          injection h with h1 h2; injection h1 with h1; subst h1; exact ⟨trivial, hg.stack⟩
      · rw [if_neg hn] at h
        have hkk := hk (pos - 1) (by omega)
        cases dir with
        | down =>
          obtain ⟨x, hx, rfl⟩ := one h (onUpperN_tame _ _ hkk hc)
          exact ⟨Next.go_tame _ _ hx, by rw [Next.go_stack]; exact hg.stack⟩
        | up =>
          simp only at h
          by_cases hfr : (w.procs (pos - 1)).kind.isFrame = true
          · rw [if_pos hfr] at h
            simp only [frameStep] at h
            cases hcn : ctx.conn with
            | none =>
              rw [hcn, bind_of_panic (show useReference none w = (.panic, w) from rfl)] at h
              injection h with h _; cases h
            | some c =>
              rw [hcn, bind_of_ok (show useReference (some c) w = (.ok (w.conns c).useRef, w) from rfl)] at h
              by_cases hrf : (w.conns c).useRef = true
              · rw [if_pos hrf] at h; rw [triv h]; exact ⟨hc, hg.stack⟩
              · rw [if_neg hrf] at h
                cases hb : ctx.buf with
                | none => rw [hb] at h; rw [triv h]; exact ⟨trivial, hg.stack⟩
                | some ub =>
                  rw [hb] at h
                  simp only at h
                  by_cases hen : (w.procs (pos - 1)).enable = true
                  · rw [if_pos hen] at h
                    obtain ⟨x, hx, rfl⟩ := one h (currentN_tame (pos - 1) ctx (hc ub hb))
                    have hw : Waits w pos := ⟨h0, by omega, hfr, hen⟩
                    refine ⟨Seg.go_tame _ _ hx, Seg.go_stack hx (fun y hy => ?_) fun r hr' =>
                      ⟨hw, fun r' hr'' => by injection hr'' with e; subst e; exact hr'⟩⟩
                    rcases List.mem_cons.mp hy with rfl | hy
                    · exact ⟨hw, fun r hr' => by cases hr'⟩
                    · exact hg.stack y hy
                  · rw [if_neg hen] at h; rw [triv h]; exact ⟨hc, hg.stack⟩
          · rw [if_neg hfr] at h
            obtain ⟨x, hx, rfl⟩ := one h (onLowerN_tame _ _ hkk hc)
            exact ⟨Next.go_tame _ _ hx, by rw [Next.go_stack]; exact hg.stack⟩

/-! ## Stacks with roomy caches -/

/-- Every enabled FrameDecoder has an empty cache that holds more than the MTU; `caps`: the capacities. -/
def Roomy (caps : Nat → Nat) (w : World) : Prop :=
  ∀ i c, i < w.n → (w.procs i).kind = .frame c → (w.procs i).enable = true → AtRest (caps i) c ∧ w.mtu < caps i

/-- The user's functions in the chain are decent with buffers. -/
def Decent (w : World) : Prop := ∀ i, i < w.n → (w.procs i).kind.Tame

/-- How everybody stands to the caches. -/
def resting (caps : Nat → Nat) (w : World) (i : Nat) : Mode :=
  if i < w.n ∧ (w.procs i).kind.isFrame = true ∧ (w.procs i).enable = true then .rest (caps i) else .foreign

theorem resting_start {caps : Nat → Nat} {w : World} (h : Roomy caps w) (p cap : Nat) (c : Option St) (hm : resting caps w p = .rest cap)
    (hk : (w.procs p).kind = .frame c) : AtRest cap c := by
  simp only [resting] at hm
  split at hm
  · rename_i hc
    injection hm with hm
    subst hm
    exact (h p c hc.1 hk hc.2.2).1
  · cases hm

theorem resting_modes {caps : Nat → Nat} {w : World} (h : Roomy caps w) : Modes (fun _ => resting caps w) w := by
  refine ⟨fun i j p _ => ?_, fun _ => resting_start h⟩
  simp only [resting]
  split
  · exact rfl
  · trivial

theorem Decent.like {w v : World} (h : Decent w) (hl : Like stranger w v) : Decent v := fun i hi =>
  (h i (by rw [hl.n]; exact hi)).sim (hl.kind i)

theorem Moderate.small {M : Int} {cap : Nat} {s : St} (h : Moderate M s) (hc : M < cap) : Small cap s := by
  obtain ⟨d, hd, hl⟩ := h
  have := hd.wf.2
  exact ⟨d, hd, by omega⟩

/-- What a goroutine that is alone keeps: tame buffers, empty caches. -/
theorem solo_tame_upto {caps : Nat → Nat} {w0 : World} (hr : Roomy caps w0) (hd : Decent w0) {js : List Job} (k : Nat)
    (ha : ∀ j, j < k → ∀ g v, solo (G.new js, w0) j = some (g, v) → ¬ Asks g v) :
    ∀ g v, solo (G.new js, w0) k = some (g, v) → g.Tame v ∧ Like (resting caps w0) v v ∧ (Touches g v → (resting caps w0 g.spot).Fine g.hand) := by
  have fine : ∀ (g : G) v, g.Tame v → Like stranger w0 v → Touches g v → (resting caps w0 g.spot).Fine g.hand := by
    intro g v hg hl ht
    have at' : ∀ pos, Waits v pos → ∃ cap, resting caps w0 (pos - 1) = .rest cap ∧ v.mtu < cap := by
      intro pos hw
      obtain ⟨h1, h2, h3, h4⟩ := hw.like hl.symm
      refine ⟨caps (pos - 1), ?_, ?_⟩
      · simp only [resting]
        rw [if_pos ⟨by omega, h3, h4⟩]
      · cases hk : (w0.procs (pos - 1)).kind <;> rw [hk] at h3 <;> simp [Kind.isFrame] at h3
        rw [← hl.mtu]
        exact (hr (pos - 1) _ (by omega) hk h4).2
    cases hf : g.focus with
    | idle => simp [Touches, hf] at ht
    | ret c =>
      cases hs : g.stack with
      | nil => simp [Touches, hf, hs] at ht
      | cons x st =>
        obtain ⟨pos, kk⟩ := x
        obtain ⟨hw, hrest⟩ := hg.stack (pos, kk) (by rw [hs]; exact List.mem_cons_self)
        obtain ⟨cap, h1, h2⟩ := at' pos hw
        simp only [G.spot, G.hand, hf, hs, h1]
        cases kk with
        | cached => exact fun ub hub => by cases hub
        | cur rest =>
          intro ub hub
          injection hub with hub
          subst hub
          exact (hrest rest rfl).small h2
    | call dir pos ctx =>
      cases dir with
      | down => simp [Touches, hf] at ht
      | up =>
        simp only [Touches, hf] at ht
        obtain ⟨cap, h1, h2⟩ := at' pos ⟨ht.1, ht.2.1, ht.2.2.1, ht.2.2.2.1⟩
        simp only [G.spot, G.hand, hf, h1]
        intro ub hub
        have hc := hg.focus
        rw [hf] at hc
        exact (hc ub hub).small h2
  induction k with
  | zero =>
    intro g v h
    injection h with h
    injection h with h1 h2
    subst h1 h2
    have ht : (G.new js).Tame w0 := ⟨trivial, fun x hx => by cases hx⟩
    exact ⟨ht, .start (resting_start hr), fine _ _ ht (Like.refl _).weaken⟩
  | succ k ih =>
    intro g v h
    have hl' := solo_like h
    simp only [solo] at h
    cases hk : solo (G.new js, w0) k with
    | none => rw [hk] at h; cases h
    | some t =>
      obtain ⟨g1, v1⟩ := t
      rw [hk] at h
      obtain ⟨_, hst⟩ := soloStep_some h
      obtain ⟨h1, h2, h3⟩ := ih (fun j hj => ha j (by omega)) g1 v1 hk
      have hl := solo_like hk
      have hg : g.Tame v := by
        refine tame_step hst h1 (hd.like hl) fun pos hw => ?_
        obtain ⟨e1, e2, e3, e4⟩ := hw.like hl.symm
        refine ⟨caps (pos - 1), fun c hc => ?_⟩
        have hsim := h2.kind (pos - 1)
        rw [hc, show resting caps w0 (pos - 1) = .rest (caps (pos - 1)) by simp only [resting]; rw [if_pos ⟨by omega, e3, e4⟩]] at hsim
        exact hsim.1
      have h4 := (stepG_two h2 (ha k (by omega) g1 v1 hk) h3).2
      rw [hst] at h4
      exact ⟨hg, h4, fine g v hg hl'⟩

theorem solo_tame {caps : Nat → Nat} {w0 : World} (hr : Roomy caps w0) (hd : Decent w0) {js : List Job}
    (ha : ∀ k g v, solo (G.new js, w0) k = some (g, v) → ¬ Asks g v) (k : Nat) :
    ∀ g v, solo (G.new js, w0) k = some (g, v) → g.Tame v ∧ Like (resting caps w0) v v ∧ (Touches g v → (resting caps w0 g.spot).Fine g.hand) :=
  solo_tame_upto hr hd k fun j _ => ha j

theorem apart_rest {caps : Nat → Nat} {w0 : World} (hr : Roomy caps w0) (hd : Decent w0) {js : List Job}
    (ha : ∀ k g v, solo (G.new js, w0) k = some (g, v) → ¬ Asks g v) : Apart (resting caps w0) js w0 := fun k g v h =>
  ⟨ha k g v h, (solo_tame hr hd ha k g v h).2.2⟩

/-- **C86 for the default cache size, step by step**: any number of goroutines, each of which may receive, send and control; any schedule.  A
goroutine that has made `n` steps is where it would be after `n` steps alone. -/
theorem c86_receivers_alike {caps : Nat → Nat} {w0 : World} (hr : Roomy caps w0) (hd : Decent w0) {jobs : List (List Job)}
    (ha : ∀ js ∈ jobs, ∀ k g v, solo (G.new js, w0) k = some (g, v) → ¬ Asks g v)
    {sched : List Nat} {s : Sys} (hs : (Sys.init w0 jobs).exec sched = some s) {i : Nat} {js : List Job} (hi : jobs[i]? = some js) :
    ∃ g v, s.gs[i]? = some g ∧ solo (G.new js, w0) (sched.count i) = some (g, v) :=
  c86_alike_partial (resting_modes hr) (fun _ js h => apart_rest hr hd (ha js (List.mem_of_getElem? h))) hs hi

/-- **C86 for the default cache size**: when all goroutines are done, the endpoints have been handed what the goroutines one by one hand over. -/
theorem c86_receivers {caps : Nat → Nat} {w0 : World} (hr : Roomy caps w0) (hd : Decent w0) (h0 : w0.trace = []) {jobs : List (List Job)}
    (ha : ∀ js ∈ jobs, ∀ k g v, solo (G.new js, w0) k = some (g, v) → ¬ Asks g v)
    {sched : List Nat} {s : Sys} (hs : (Sys.init w0 jobs).exec sched = some s)
    (hdone : ∀ g ∈ s.gs, g.Done) {fuel : Nat} {alone : List Job → World} (hal : ∀ js ∈ jobs, runJobs fuel js w0 = (.ok (), alone js)) :
    (deliveries (actsOf s.w.trace)).Perm (jobs.flatMap fun js => deliveries (actsOf (alone js).trace)) ∧
    ∀ js ∈ jobs, (deliveries (actsOf (alone js).trace)).Sublist (deliveries (actsOf s.w.trace)) :=
  c86_deliveries_partial h0 (resting_modes hr) (fun _ js h => apart_rest hr hd (ha js (List.mem_of_getElem? h))) hs hdone hal

/-- **No bytes of one connection ever meet those of another**: whatever is received, on however many connections, every cache is empty
after every step. -/
theorem c86_caches_empty {caps : Nat → Nat} {w0 : World} (hr : Roomy caps w0) (hd : Decent w0) {jobs : List (List Job)} (hne : jobs ≠ [])
    (ha : ∀ js ∈ jobs, ∀ k g v, solo (G.new js, w0) k = some (g, v) → ¬ Asks g v)
    {sched : List Nat} {s : Sys} (hs : (Sys.init w0 jobs).exec sched = some s) {i : Nat} {c : Option St} (hi : i < w0.n)
    (he : (w0.procs i).enable = true) (hk : (s.w.procs i).kind = .frame c) : AtRest (caps i) c := by
  obtain ⟨js, js', rfl⟩ := List.exists_cons_of_ne_nil hne
  obtain ⟨ht, _⟩ := track_exec (resting_modes hr) (fun _ js h => apart_rest hr hd (ha js (List.mem_of_getElem? h))) sched s hs
  obtain ⟨g, v, _, hv, hl⟩ := ht 0 js rfl
  have hst := solo_like hv
  have hsim := hl.kind i
  have hf : (w0.procs i).kind.isFrame = true := by
    rw [(hst.kind i).isFrame, ← hsim.isFrame, hk]; rfl
  rw [hk] at hsim
  cases hvk : (v.procs i).kind <;> rw [hvk] at hsim <;> simp [Kind.Sim] at hsim
  rw [show resting caps w0 i = .rest (caps i) by simp only [resting]; rw [if_pos ⟨hi, hf, he⟩]] at hsim
  exact hsim.1

/-- Without enabled StatCounters nobody asks. -/
theorem never_asks {w0 : World} (hs : NoStats w0) (js : List Job) : ∀ k g v, solo (G.new js, w0) k = some (g, v) → ¬ Asks g v :=
  fun _ g _ h => no_asks (hs.like (solo_like h)) g

/-! ## Examples -/

/-- A cache of 32 bytes. -/
def emptyCache : St :=
  match UBuf.alloc 32 0 Heap.empty with
  | .ok s => s
  | _ => UBuf.demo

theorem emptyCache_rest : AtRest 32 (some emptyCache) := by
  obtain ⟨s, hs, hb⟩ := alloc_buf 32 0 Heap.empty (by decide) (by decide) (by decide)
  refine ⟨emptyCache, rfl, ?_⟩
  simp only [emptyCache, hs]
  exact hb

/-- bytes codec, session resolver, FrameDecoder with the default cache of twice the MTU -/
def roomyWorld : World :=
  { quiet with
    overhead := 8
    n := 3
    procs := fun j => match j with
      | 0 => ⟨true, .bytesCodec⟩
      | 1 => ⟨true, .session⟩
      | _ => ⟨true, .frame (some emptyCache)⟩ }

theorem roomyWorld_ok : Roomy (fun _ => 32) roomyWorld ∧ Decent roomyWorld ∧ NoStats roomyWorld := by
  refine ⟨?_, ?_, ?_⟩
  · intro i c hi hk he
    have : i = 0 ∨ i = 1 ∨ i = 2 := by have : i < 3 := hi; omega
    rcases this with rfl | rfl | rfl <;> first | cases hk | skip
    exact ⟨emptyCache_rest, by decide⟩
  · intro i hi
    have : i = 0 ∨ i = 1 ∨ i = 2 := by have : i < 3 := hi; omega
    rcases this with rfl | rfl | rfl <;> trivial
  · rintro i hi ⟨_, _, hk⟩
    have : i = 0 ∨ i = 1 ∨ i = 2 := by have : i < 3 := hi; omega
    rcases this with rfl | rfl | rfl <;> cases hk

/-- Two connections receive: a part of a long frame, and a complete message; an endpoint sends. -/
def roomyJobs : List (List Job) :=
  [[.recv 0 [0, 0, 0, 20, 0, 0, 0, 3, 1, 2, 3, 4, 5, 6, 7, 8]], [.recv 1 [0, 0, 0, 5, 0, 0, 0, 3, 9]], [.send (some 0) (.bytes [4]) 3]]

/-- The schedule of `c86_mixed`, with a sender: the message of connection 1 arrives. -/
example : ∃ s, (Sys.init roomyWorld roomyJobs).exec [0, 2, 0, 1, 2, 1, 2, 1, 1, 2, 0, 0, 1, 1, 1, 2, 2, 1] = some s ∧ (∀ g ∈ s.gs, g.Done) ∧
    actsOf s.w.trace = [.deliver 7 (some 1) (.bytes [9]), .write 0 [0, 0, 0, 5, 0, 0, 0, 3, 4]] ∧
    (deliveries (actsOf s.w.trace)).Perm [.deliver 7 (some 1) (.bytes [9])] := by
  obtain ⟨s, h1, h2, h3⟩ := outcome_run (show outcome roomyWorld roomyJobs [0, 2, 0, 1, 2, 1, 2, 1, 1, 2, 0, 0, 1, 1, 1, 2, 2, 1] =
    some [.deliver 7 (some 1) (.bytes [9]), .write 0 [0, 0, 0, 5, 0, 0, 0, 3, 4]] by decide +kernel)
  refine ⟨s, h1, h2, h3, ?_⟩
  have := (c86_receivers roomyWorld_ok.1 roomyWorld_ok.2.1 rfl (fun js _ => never_asks roomyWorld_ok.2.2 js) h1 h2 (fuel := 9)
    (finish_alone (by decide +kernel))).1
  rw [show (roomyJobs.flatMap fun js => deliveries (actsOf (runJobs 9 js roomyWorld).2.trace)) = [.deliver 7 (some 1) (.bytes [9])] by
    decide +kernel] at this
  exact this

end Verif.Stack
