import Verif.Stack.Procs

/-!
# The FrameDecoder as a function on byte strings

`decodeRead` computes, from the cached and the received bytes, what the decoder hands up; the handlers
of the model are shown to do exactly that whatever the layer above does (`frameLower_feeds`).
-/

namespace Verif.Stack
open GoM UBuf

/-! ## The decoder on byte strings -/

/-- Payloads handed up, how it ends, and the cache left behind. -/
structure Dec where
  out : List (List Byte)
  res : Res Unit
  cache : Deque

def Deque.clear (d : Deque) : Deque := { d with head := d.reserved, content := [] }

/-- The loop over a received buffer (`handleCurrentData`). -/
def decodeCurrent : Nat → Deque → Deque → Dec
  | 0, c, _ => ⟨[], .running, c⟩
  | fuel + 1, c, src =>
    let bs := src.content
    if bs.length < 4 then ⟨[], .ok (), (Deque.readFromDeque c src).2.2.1⟩
    else
      let l := decBE (bs.take 4)
      if l > toU32 bs.length then ⟨[], .ok (), (Deque.readFromDeque c src).2.2.1⟩
      else if l = toU32 bs.length then ⟨[bs.drop 4], .ok (), c⟩
      else if l = 0 then ⟨[], .panic, c⟩
      else if (bs.drop 4).length < l then ⟨[], .ok (), Deque.clear c⟩
      else
        let r := decodeCurrent fuel c ((src.pop 4).pop l)
        ⟨(bs.drop 4).take l :: r.out, r.res, r.cache⟩

/-- The loop over the cache (`handleCachedData`). -/
def decodeCached : Nat → Deque → Dec
  | 0, c => ⟨[], .running, c⟩
  | fuel + 1, c =>
    let bs := c.content
    if bs = [] then ⟨[], .ok (), Deque.clear c⟩
    else if bs.length < 4 then ⟨[], .ok (), c⟩
    else
      let l := decBE (bs.take 4)
      if bs.length < l then ⟨[], .ok (), c⟩
      else if l = 0 then ⟨[], .panic, c⟩
      else if (bs.drop 4).length < l then ⟨[], .ok (), Deque.clear c⟩
      else
        let r := decodeCached fuel ((c.pop 4).pop l)
        ⟨(bs.drop 4).take l :: r.out, r.res, r.cache⟩

/-- One read. -/
def decodeRead (fuel : Nat) (c src : Deque) : Dec :=
  let a : Dec := if c.content ≠ [] then ⟨[], .ok (), (Deque.readFromDeque c src).2.2.1⟩ else decodeCurrent fuel c src
  match a.res with
  | .ok () =>
    let b := decodeCached fuel a.cache
    ⟨a.out ++ b.out, b.res, b.cache⟩
  | _ => a

/-! ## What it means to hand up a list of payloads -/

/-- Calling `up` once for each payload, in order, in a fresh or reused buffer holding exactly the
payload, and touching nothing else than the decoder's own cache; `e` is how the decoder ends after the last
one.  If a call does not return, neither does the decoder. -/
inductive Feeds (up : Handler) (i : Nat) (e : Res Unit) : List (List Byte) → Ctx → World → Res Ctx → World → Prop
  | done (ctx w b c) : e = .ok () → Feeds up i e [] ctx w (.ok { ctx with buf := b }) (World.setKind w i (.frame c))
  | panic (ctx w c) : e = .panic → Feeds up i e [] ctx w .panic (World.setKind w i (.frame c))
  | running (ctx w c) : e = .running → Feeds up i e [] ctx w .running (World.setKind w i (.frame c))
  | step {p ps ctx w s c ctx1 w1 r w2} : Good s → data s = p →
      up { ctx with buf := some s } (World.setKind w i (.frame c)) = (.ok ctx1, w1) →
      Feeds up i e ps ctx1 w1 r w2 → Feeds up i e (p :: ps) ctx w r w2
  | stepPanic {p ps ctx w s c w1} : Good s → data s = p →
      up { ctx with buf := some s } (World.setKind w i (.frame c)) = (.panic, w1) → Feeds up i e (p :: ps) ctx w .panic w1
  | stepRunning {p ps ctx w s c w1} : Good s → data s = p →
      up { ctx with buf := some s } (World.setKind w i (.frame c)) = (.running, w1) →
      Feeds up i e (p :: ps) ctx w .running w1

theorem setKind_setKind (w : World) (i : Nat) (a b : Kind) : (w.setKind i a).setKind i b = w.setKind i b := by
  simp only [World.setKind]
  congr 1
  funext j
  split <;> rfl

theorem setKind_same {w : World} {i : Nat} {k : Kind} (h : (w.procs i).kind = k) : w.setKind i k = w := by
  obtain ⟨_, _, _, _, procs, _, _, _, _⟩ := w
  simp only [World.setKind, World.mk.injEq, true_and, and_true]
  funext j
  split
  · rename_i e; subst e; simp only at h; rw [← h]
  · rfl

variable {up : Handler} {i : Nat}

/-- The decoder may fiddle with its cache and the context's buffer before. -/
theorem Feeds.pre {e : Res Unit} {ps : List (List Byte)} {ctx : Ctx} {w w' : World} {r : Res Ctx} (b : Option St)
    (c : Option St) (h : Feeds up i e ps { ctx with buf := b } (w.setKind i (.frame c)) r w') : Feeds up i e ps ctx w r w' := by
  generalize hx : ({ ctx with buf := b } : Ctx) = x at h
  generalize hy : w.setKind i (.frame c) = y at h
  cases h with
  | done _ _ b' c' he => subst hx hy; rw [setKind_setKind]; exact .done _ _ _ _ he
  | panic _ _ c' he => subst hx hy; rw [setKind_setKind]; exact .panic _ _ _ he
  | running _ _ c' he => subst hx hy; rw [setKind_setKind]; exact .running _ _ _ he
  | step h1 h2 h3 h4 => subst hx hy; rw [setKind_setKind] at h3; exact .step h1 h2 h3 h4
  | stepPanic h1 h2 h3 => subst hx hy; rw [setKind_setKind] at h3; exact .stepPanic h1 h2 h3
  | stepRunning h1 h2 h3 => subst hx hy; rw [setKind_setKind] at h3; exact .stepRunning h1 h2 h3

theorem Feeds.append {e : Res Unit} {ps qs : List (List Byte)} {ctx c1 : Ctx} {w w1 w2 : World} {r : Res Ctx}
    (h1 : Feeds up i (.ok ()) ps ctx w (.ok c1) w1) (h2 : Feeds up i e qs c1 w1 r w2) :
    Feeds up i e (ps ++ qs) ctx w r w2 := by
  generalize hx : (Res.ok c1 : Res Ctx) = x at h1
  induction h1 with
  | done ctx w b c => cases hx; exact h2.pre _ _
  | panic => cases hx
  | running => cases hx
  | step a b c d ih => exact .step a b c (ih h2 hx)
  | stepPanic => cases hx
  | stepRunning => cases hx

/-- If the layer above does not return, the later payloads do not matter. -/
theorem Feeds.stuck {e : Res Unit} {ps qs : List (List Byte)} {ctx : Ctx} {w w1 : World} {r : Res Ctx}
    (h1 : Feeds up i (.ok ()) ps ctx w r w1) (hr : ∀ c, r ≠ .ok c) : Feeds up i e (ps ++ qs) ctx w r w1 := by
  induction h1 with
  | done ctx w b c => exact absurd rfl (hr _)
  | panic _ _ _ he => cases he
  | running _ _ _ he => cases he
  | step a b c d ih => exact .step a b c (ih hr)
  | stepPanic a b c => exact .stepPanic a b c
  | stepRunning a b c => exact .stepRunning a b c

/-- It returns normally only if the decoder did. -/
theorem Feeds.ok_ok {e : Res Unit} {ps : List (List Byte)} {ctx c1 : Ctx} {w w1 : World}
    (h : Feeds up i e ps ctx w (.ok c1) w1) : e = .ok () := by
  generalize hx : (Res.ok c1 : Res Ctx) = x at h
  induction h with
  | done _ _ _ _ he => exact he
  | panic => cases hx
  | running => cases hx
  | step a b c d ih => exact ih hx
  | stepPanic => cases hx
  | stepRunning => cases hx

/-! ## Refinement -/

theorem cacheReadFrom_ok {w : World} {cache ub : St} {dc ds : Deque} (hk : (w.procs i).kind = .frame (some cache))
    (hc : Buf cache dc) (hs : Buf ub ds) :
    ∃ cache' ub', cacheReadFrom i ub w = (.ok ub', w.setKind i (.frame (some cache'))) ∧
      Buf cache' (Deque.readFromDeque dc ds).2.2.1 ∧ Buf ub' (Deque.readFromDeque dc ds).2.2.2 := by
  obtain ⟨c', u', h1, h2, h3⟩ := readFromBuf_ok hc hs w
  refine ⟨c', u', ?_, h2, h3⟩
  simp only [cacheReadFrom]
  rw [bind_of_ok (a := cache) (s' := w) (by simp [frameCache, bind_apply, hk]), bind_of_ok h1]
  rfl

theorem cacheReset_ok {w : World} {cache : St} {dc : Deque} (hk : (w.procs i).kind = .frame (some cache))
    (hc : Buf cache dc) :
    ∃ cache', cacheReset i w = (.ok (), w.setKind i (.frame (some cache'))) ∧ Buf cache' (Deque.clear dc) := by
  obtain ⟨c', h1, h2⟩ := hc.reset
  refine ⟨c', ?_, h2⟩
  simp only [cacheReset]
  rw [bind_of_ok (a := cache) (s' := w) (by simp [frameCache, bind_apply, hk]), bind_onBuf h1]
  rfl

/-- `io.CopyN` of `l > 0` bytes into a fresh buffer. -/
theorem copyN_ok {w : World} {nu src : St} {ds : Deque} {l : Nat} (hl : 0 < l) (hn : Buf nu (Deque.fresh l 0))
    (hs : Buf src ds) :
    ∃ nu' src', copyN nu src l w = (.ok (decide (l ≤ ds.content.length), nu', src'), w) ∧
      (l ≤ ds.content.length → Buf nu' ⟨l, 0, 0, ds.content.take l⟩ ∧ Buf src' (ds.pop l)) ∧
      ∃ ds', Buf src' ds' ∧ Deque.clear ds' = Deque.clear ds := by
  obtain ⟨nu', src', h1, h2, h3⟩ := readFromBuf_ok hn hs w
  have ht : (Deque.fresh l 0).tail = l := by simp [Deque.tail, Deque.fresh]
  have hrf : Deque.readFromDeque (Deque.fresh l 0) ds =
      if ds.content = [] then (0, none, Deque.fresh l 0, ds)
      else if ds.content.length < l then (0, some .noMoreRead, Deque.fresh l 0, ds.pop ds.content.length)
      else (l, none, ⟨l, 0, 0, ds.content.take l⟩, ds.pop l) := by
    rw [Deque.readFromDeque, if_neg (by omega), ht]
    simp [Deque.push, Deque.fresh]
  rw [hrf] at h1 h2 h3
  refine ⟨nu', src', ?_, ?_, _, h3, ?_⟩
  · simp only [copyN]
    rw [bind_of_ok h1]
    by_cases he : ds.content = []
    · simp [he, pure_apply]; omega
    · by_cases hlt : ds.content.length < l
      · simp [he, hlt, pure_apply]
      · simp [he, hlt, pure_apply]; omega
  · intro hle
    have he : ds.content ≠ [] := by intro h; rw [h] at hle; simp at hle; omega
    have hlt : ¬ ds.content.length < l := by omega
    rw [if_neg he, if_neg hlt] at h2 h3
    exact ⟨h2, h3⟩
  · split
    · rfl
    · split <;> rfl

/-- The layer above, started in a world satisfying `Inv`, keeps `Inv` and does not reach into the decoder. -/
structure Calm (Inv : World → Prop) (i : Nat) (up : Handler) : Prop where
  call : ∀ ctx w, Inv w → Inv (up ctx w).2 ∧ (up ctx w).2.procs i = w.procs i
  cache : ∀ w c c', (w.procs i).kind = .frame c → Inv w → Inv (World.setKind w i (.frame c'))

theorem Calm.always (h : ∀ ctx w, (up ctx w).2.procs i = w.procs i) : Calm (fun _ => True) i up :=
  ⟨fun ctx w _ => ⟨trivial, h ctx w⟩, fun _ _ _ _ _ => trivial⟩

/-- The result of a model run refines a pure result. -/
def Refines (Inv : World → Prop) (up : Handler) (i : Nat) (d : Dec) (ctx : Ctx) (w : World) (run : Res Ctx × World) : Prop :=
  Feeds up i d.res d.out ctx w run.1 run.2 ∧
  (∀ c, run.1 = .ok c → Inv run.2 ∧ ∃ cache, (run.2.procs i).kind = .frame (some cache) ∧ Buf cache d.cache)

variable {Inv : World → Prop}

theorem Refines.cons {d : Dec} {p : List Byte} {ctx : Ctx} {w : World} {s : St} {c : Option St} {f : Ctx → GoM World Ctx}
    (hs : Good s) (hp : data s = p)
    (hf : ∀ c1 w1, up { ctx with buf := some s } (w.setKind i (.frame c)) = (.ok c1, w1) → Refines Inv up i d c1 w1 (f c1 w1)) :
    Refines Inv up i ⟨p :: d.out, d.res, d.cache⟩ ctx w ((up { ctx with buf := some s } >>= f) (w.setKind i (.frame c))) := by
  rw [bind_apply]
  rcases hu : up { ctx with buf := some s } (w.setKind i (.frame c)) with ⟨r, w1⟩
  cases r with
  | ok c1 =>
    obtain ⟨h1, h2⟩ := hf c1 w1 hu
    exact ⟨.step hs hp hu h1, h2⟩
  | panic => exact ⟨.stepPanic hs hp hu, fun c h => by cases h⟩
  | running => exact ⟨.stepRunning hs hp hu, fun c h => by cases h⟩

theorem pop_pop_content (d : Deque) (l : Nat) : ((d.pop 4).pop l).content = (d.content.drop 4).drop l := rfl

theorem currentLoop_refines {nb : Nb} (hup : Calm Inv i nb.upLower) (fuel : Nat) :
    ∀ (first : Bool) (ctx : Ctx) (ub : St) (w : World) (cache : St) (dc ds : Deque),
      Inv w → (w.procs i).kind = .frame (some cache) → Buf cache dc → Buf ub ds →
      Refines Inv nb.upLower i (decodeCurrent fuel dc ds) ctx w (currentLoop i nb fuel first ctx ub w) := by
  induction fuel with
  | zero =>
    intro first ctx ub w cache dc ds hI hk hc hs
    refine ⟨?_, fun c h => by cases h⟩
    have := Feeds.running (up := nb.upLower) (i := i) ctx w (some cache) rfl
    rwa [setKind_same hk] at this
  | succ fuel ih =>
    intro first ctx ub w cache dc ds hI hk hc hs
    have hrl := hs.readable
    -- leftover goes to the cache
    have leftover : Refines Inv nb.upLower i ⟨[], .ok (), (Deque.readFromDeque dc ds).2.2.1⟩ ctx w
        ((do let ub ← cacheReadFrom i ub
             return (if first then { ctx with buf := some ub } else ctx)) w) := by
      obtain ⟨c', u', h1, h2, h3⟩ := cacheReadFrom_ok hk hc hs
      rw [bind_of_ok h1]
      refine ⟨?_, fun c _ => ⟨hup.cache _ _ _ hk hI, c', ?_, h2⟩⟩
      · cases first with
        | true => exact .done ctx w (some u') (some c') rfl
        | false => exact .done ctx w ctx.buf (some c') rfl
      · show ((w.setKind i _).procs i).kind = _
        rw [setKind_self]
    simp only [currentLoop, decodeCurrent, hrl]
    by_cases h4 : ds.content.length < 4
    · simp only [if_pos h4, if_pos (show (ds.content.length : Int) < 4 by omega)]
      exact leftover
    · simp only [if_neg h4, if_neg (show ¬ (ds.content.length : Int) < 4 by omega)]
      obtain ⟨ub1, p1, p2⟩ := hs.peekU .u32 .be (by simp [Width.size]; omega)
      have p3 : peekU .u32 .be ub = (.ok (decBE (ds.content.take 4), none), ub1) := p1
      rw [bind_onBuf p3]
      simp only [Option.isSome_none, Bool.false_eq_true, if_false]
      by_cases hgt : decBE (ds.content.take 4) > toU32 ds.content.length
      · rw [if_pos hgt, if_pos hgt]
        exact leftover
      · rw [if_neg hgt, if_neg hgt]
        obtain ⟨ub2, q1, q2⟩ := hs.readU .u32 .be (by simp [Width.size]; omega)
        by_cases heq : decBE (ds.content.take 4) = toU32 ds.content.length
        · rw [if_pos heq, if_pos heq, bind_onBuf q1]
          have := Refines.cons (up := nb.upLower) (i := i) (d := ⟨[], .ok (), dc⟩) (p := ds.content.drop 4) (ctx := ctx)
            (w := w) (s := ub2) (c := some cache) (f := fun c => Pure.pure c) q2.1 (by rw [q2.data]; rfl) (by
              intro c1 w1 hu
              have hpr : Inv w1 ∧ w1.procs i = w.procs i := by
                have := hup.call { ctx with buf := some ub2 } (w.setKind i (.frame (some cache))) (by rwa [setKind_same hk])
                rw [hu, setKind_same hk] at this; exact this
              obtain ⟨hI1, hpr⟩ := hpr
              refine ⟨?_, fun c _ => ⟨hI1, cache, by rw [← hk, ← hpr]; rfl, hc⟩⟩
              have := Feeds.done (up := nb.upLower) (i := i) c1 w1 c1.buf (some cache) rfl
              rwa [setKind_same (by rw [hpr, hk])] at this)
          rw [setKind_same hk] at this
          have hb : ∀ (m : GoM World Ctx), (m >>= fun c => Pure.pure c) w = m w := by
            intro m; rw [bind_apply]; rcases m w with ⟨r, w'⟩; cases r <;> rfl
          rw [hb] at this
          exact this
        · rw [if_neg heq, if_neg heq]
          by_cases h0 : decBE (ds.content.take 4) = 0
          · rw [if_pos h0, h0, bind_of_panic (allocBuf_panic _ _ w (by omega))]
            refine ⟨?_, fun c h => by cases h⟩
            have := Feeds.panic (up := nb.upLower) (i := i) ctx w (some cache) rfl
            rwa [setKind_same hk] at this
          · rw [if_neg h0]
            obtain ⟨nu, a1, a2⟩ := allocBuf_ok (decBE (ds.content.take 4)) 0 w (by omega) (by omega) (by omega)
            simp only [Int.toNat_natCast, Int.toNat_zero] at a2
            rw [bind_of_ok a1, bind_onBuf q1]
            obtain ⟨nu', src', c1, c2, ds', c3, c4⟩ := copyN_ok (w := w) (by omega) a2 q2
            have hpop : (ds.pop (Width.size .u32)).content = ds.content.drop 4 := rfl
            rw [hpop] at c1 c2
            rw [bind_of_ok c1]
            by_cases hle : decBE (ds.content.take 4) ≤ (ds.content.drop 4).length
            · rw [if_neg (by omega)]
              obtain ⟨d1, d2⟩ := c2 hle
              simp only [hle, decide_true, Bool.true_eq_false, if_false]
              have := Refines.cons (up := nb.upLower) (i := i)
                (d := decodeCurrent fuel dc ((ds.pop 4).pop (decBE (ds.content.take 4))))
                (p := (ds.content.drop 4).take (decBE (ds.content.take 4))) (ctx := ctx) (w := w) (s := nu') (c := some cache)
                (f := fun c => currentLoop i nb fuel false c src') d1.1 d1.data (by
                  intro c1 w1 hu
                  have hpr : Inv w1 ∧ w1.procs i = w.procs i := by
                    have := hup.call { ctx with buf := some nu' } (w.setKind i (.frame (some cache))) (by rwa [setKind_same hk])
                    rw [hu, setKind_same hk] at this; exact this
                  exact ih false c1 src' w1 cache dc _ hpr.1 (by rw [hpr.2, hk]) hc d2)
              rw [setKind_same hk] at this
              exact this
            · rw [if_pos (by omega)]
              simp only [hle, decide_false, if_true]
              obtain ⟨c', e1, e2⟩ := cacheReset_ok hk hc
              rw [bind_of_ok e1]
              refine ⟨?_, fun c _ => ⟨hup.cache _ _ _ hk hI, c', ?_, e2⟩⟩
              · cases first with
                | true => exact .done ctx w (some src') (some c') rfl
                | false => exact .done ctx w ctx.buf (some c') rfl
              · show ((w.setKind i _).procs i).kind = _
                rw [setKind_self]

theorem handleCached_refines {nb : Nb} (hup : Calm Inv i nb.upLower) (fuel : Nat) :
    ∀ (ctx : Ctx) (w : World) (cache : St) (dc : Deque), Inv w → (w.procs i).kind = .frame (some cache) → Buf cache dc →
      Refines Inv nb.upLower i (decodeCached fuel dc) ctx w (handleCached i nb fuel ctx w) := by
  induction fuel with
  | zero =>
    intro ctx w cache dc hI hk hc
    refine ⟨?_, fun c h => by cases h⟩
    have := Feeds.running (up := nb.upLower) (i := i) ctx w (some cache) rfl
    rwa [setKind_same hk] at this
  | succ fuel ih =>
    intro ctx w cache dc hI hk hc
    have hrl := hc.readable
    have same : Refines Inv nb.upLower i ⟨[], .ok (), dc⟩ ctx w (.ok ctx, w) := by
      refine ⟨?_, fun c _ => ⟨hI, cache, hk, hc⟩⟩
      have := Feeds.done (up := nb.upLower) (i := i) ctx w ctx.buf (some cache) rfl
      rwa [setKind_same hk] at this
    simp only [handleCached, decodeCached]
    rw [bind_of_ok (a := cache) (s' := w) (by simp [frameCache, bind_apply, hk])]
    by_cases he : dc.content = []
    · obtain ⟨c', e1, e2⟩ := cacheReset_ok hk hc
      rw [if_pos he, if_pos (by rw [hrl, he]; rfl), bind_of_ok e1]
      refine ⟨.done ctx w ctx.buf (some c') rfl, fun c _ => ⟨hup.cache _ _ _ hk hI, c', ?_, e2⟩⟩
      show ((w.setKind i _).procs i).kind = _
      rw [setKind_self]
    · have hne : 0 < dc.content.length := List.length_pos_iff.mpr he
      rw [if_neg he, if_neg (show ¬ readableLength cache = 0 by omega)]
      by_cases h4 : dc.content.length < 4
      · rw [if_pos h4, if_pos (show readableLength cache < 4 by omega)]; exact same
      · rw [if_neg h4, if_neg (show ¬ readableLength cache < 4 by omega)]
        obtain ⟨c1, p1, p2⟩ := hc.peekU .u32 .be (by simp [Width.size]; omega)
        have p3 : peekU .u32 .be cache = (.ok (decBE (dc.content.take 4), none), c1) := p1
        rw [bind_onBuf p3]
        simp only [Option.isSome_none, Bool.false_eq_true, if_false]
        by_cases hlt : dc.content.length < decBE (dc.content.take 4)
        · rw [if_pos hlt, if_pos (show readableLength cache < (decBE (dc.content.take 4) : Int) by omega)]; exact same
        · rw [if_neg hlt, if_neg (show ¬ readableLength cache < (decBE (dc.content.take 4) : Int) by omega)]
          by_cases h0 : decBE (dc.content.take 4) = 0
          · rw [if_pos h0, h0, bind_of_panic (allocBuf_panic _ _ w (by omega))]
            refine ⟨?_, fun c h => by cases h⟩
            have := Feeds.panic (up := nb.upLower) (i := i) ctx w (some cache) rfl
            rwa [setKind_same hk] at this
          · rw [if_neg h0]
            obtain ⟨nu, a1, a2⟩ := allocBuf_ok (decBE (dc.content.take 4)) 0 w (by omega) (by omega) (by omega)
            simp only [Int.toNat_natCast, Int.toNat_zero] at a2
            obtain ⟨ub2, q1, q2⟩ := hc.readU .u32 .be (by simp [Width.size]; omega)
            rw [bind_of_ok a1, bind_onBuf q1]
            obtain ⟨nu', src', c1, c2, ds', c3, c4⟩ := copyN_ok (w := w) (by omega) a2 q2
            have hpop : (dc.pop (Width.size .u32)).content = dc.content.drop 4 := rfl
            rw [hpop] at c1 c2
            rw [bind_of_ok c1, bind_of_ok (setKind_apply i _ w)]
            have hk' : ((w.setKind i (.frame (some src'))).procs i).kind = .frame (some src') := by rw [setKind_self]
            by_cases hle : decBE (dc.content.take 4) ≤ (dc.content.drop 4).length
            · rw [if_neg (by omega)]
              obtain ⟨d1, d2⟩ := c2 hle
              simp only [hle, decide_true, Bool.true_eq_false, if_false]
              exact Refines.cons (up := nb.upLower) (i := i)
                (d := decodeCached fuel ((dc.pop 4).pop (decBE (dc.content.take 4))))
                (p := (dc.content.drop 4).take (decBE (dc.content.take 4))) (ctx := ctx) (w := w) (s := nu') (c := some src')
                (f := fun c => handleCached i nb fuel c) d1.1 d1.data (by
                  intro c1 w1 hu
                  have hpr : Inv w1 ∧ (w1.procs i).kind = .frame (some src') := by
                    have := hup.call { ctx with buf := some nu' } (w.setKind i (.frame (some src'))) (hup.cache _ _ _ hk hI)
                    rw [hu] at this
                    simp only at this
                    rw [this.2, hk']
                    exact ⟨this.1, rfl⟩
                  exact ih c1 w1 src' _ hpr.1 hpr.2 d2)
            · rw [if_pos (by omega)]
              simp only [hle, decide_false, if_true]
              obtain ⟨c', e1, e2⟩ := cacheReset_ok hk' c3
              rw [bind_of_ok e1, setKind_setKind]
              refine ⟨.done ctx w ctx.buf (some c') rfl, fun c _ => ⟨hup.cache _ _ _ hk hI, c', ?_, ?_⟩⟩
              · show ((w.setKind i _).procs i).kind = _
                rw [setKind_self]
              · have h5 : Deque.clear ds' = Deque.clear dc := c4
                rw [← h5]; exact e2

/-- One read: whatever the layer above does, the decoder hands up exactly the payloads that `decodeRead`
computes, in order. -/
theorem frameLower_feeds {nb : Nb} (hup : Calm Inv i nb.upLower) (fuel : Nat)
    {ctx : Ctx} {w : World} {cache ub : St} {dc ds : Deque} (hI : Inv w) (hb : OnBytes ctx w) (hbuf : ctx.buf = some ub)
    (hk : (w.procs i).kind = .frame (some cache)) (hc : Buf cache dc) (hs : Buf ub ds) :
    Refines Inv nb.upLower i (decodeRead fuel dc ds) ctx w (frameLower fuel i true nb ctx w) := by
  obtain ⟨cid, h1, h2⟩ := hb
  simp only [frameLower]
  rw [h1, bind_of_ok (useReference_some cid w), h2]
  simp only [Bool.false_eq_true, if_false, hbuf, if_true]
  have first : Refines Inv nb.upLower i
      (if dc.content ≠ [] then ⟨[], .ok (), (Deque.readFromDeque dc ds).2.2.1⟩ else decodeCurrent fuel dc ds) ctx w
      (handleCurrent fuel i nb ctx ub w) := by
    simp only [handleCurrent]
    rw [bind_of_ok (a := cache) (s' := w) (by simp [frameCache, bind_apply, hk])]
    by_cases he : dc.content = []
    · rw [if_neg (by simp [he]), if_neg (by rw [hc.readable, he]; simp)]
      exact currentLoop_refines hup fuel true ctx ub w cache dc ds hI hk hc hs
    · have hne : 0 < dc.content.length := List.length_pos_iff.mpr he
      rw [if_pos he, if_pos (by rw [hc.readable]; omega)]
      obtain ⟨c', u', h1, h2, h3⟩ := cacheReadFrom_ok hk hc hs
      rw [bind_of_ok h1]
      refine ⟨.done ctx w (some u') (some c') rfl, fun c _ => ⟨hup.cache _ _ _ hk hI, c', ?_, h2⟩⟩
      show ((w.setKind i _).procs i).kind = _
      rw [setKind_self]
  simp only [decodeRead]
  generalize (if dc.content ≠ [] then (⟨[], .ok (), (Deque.readFromDeque dc ds).2.2.1⟩ : Dec)
    else decodeCurrent fuel dc ds) = a at first ⊢
  obtain ⟨f1, f2⟩ := first
  rw [bind_apply]
  rcases hr : handleCurrent fuel i nb ctx ub w with ⟨r, w1⟩
  rw [hr] at f1 f2
  cases r with
  | ok c1 =>
    obtain ⟨g0, cache1, g2, g3⟩ := f2 c1 rfl
    obtain ⟨h1, h2⟩ := handleCached_refines hup fuel c1 w1 cache1 a.cache g0 g2 g3
    have g1 := f1.ok_ok
    rw [g1] at f1 ⊢
    exact ⟨f1.append h1, h2⟩
  | panic =>
    refine ⟨?_, fun c h => by cases h⟩
    rcases hres : a.res with u | _ | _
    · rw [hres] at f1
      exact f1.stuck (by intro c h; cases h)
    · exact f1
    · exact f1
  | running =>
    refine ⟨?_, fun c h => by cases h⟩
    rcases hres : a.res with u | _ | _
    · rw [hres] at f1
      exact f1.stuck (by intro c h; cases h)
    · exact f1
    · exact f1

end Verif.Stack
