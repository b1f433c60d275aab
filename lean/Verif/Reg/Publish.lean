import Verif.Reg.Slice

/-!
# Publishing while endpoints come and go (C70)

`PublishEvent` (ustack_default.go:309-326) runs over `u.endpoints` with `range`: the slice (array and length) is evaluated once, the elements are
read from the array one by one.  An endpoint's event listener (endp_default.go:156-160) may call `AddEndPoint` and `DeleteEndPoint`, in the same
goroutine; `DeleteEndPoint` moves the elements down in the same array (`append(u.endpoints[:i], u.endpoints[i+1:]...)`, 227).

Simplifications: one event is followed; the events the additions and deletions publish cause no further changes (see `Reg.Reentrant` for
that).
-/

namespace Verif.Reg.Publish

inductive Op where
  /-- `spare`: the extra capacity if the array has to be replaced -/
  | add (e : Nat) (spare : Nat)
  | delete (e : Nat)
  deriving Repr, DecidableEq

structure St where
  mem : Mem Nat
  eps : Slice
  /-- the endpoints whose `OnEvent` was called, in order -/
  seen : List Nat

def St.list (s : St) : List Nat := s.mem.read s.eps

/-- ustack_default.go:195-233. -/
def op (s : St) : Op → St
  | .add e spare =>
    if e ∈ s.list then s else { s with mem := (s.mem.append 0 spare s.eps e).1, eps := (s.mem.append 0 spare s.eps e).2 }
  | .delete e =>
    match s.list.idxOf? e with
    | none => s
    | some i => { s with mem := (s.mem.deleteAt s.eps i).1, eps := (s.mem.deleteAt s.eps i).2 }

/-- The `range` loop over `cap` from index `i`, `n` elements to go. -/
def loop (react : Nat → List Op) (cap : Slice) : Nat → Nat → St → St
  | 0, _, s => s
  | n + 1, i, s =>
    match (s.mem.read cap)[i]? with
    | none => s
    | some e => loop react cap n (i + 1) ((react e).foldl op { s with seen := s.seen ++ [e] })

/-- ustack_default.go:313-315. -/
def publish (react : Nat → List Op) (s : St) : St := loop react s.eps s.eps.len 0 s

theorem foldl_seen (ops : List Op) : ∀ s : St, (ops.foldl op s).seen = s.seen := by
  induction ops with
  | nil => intro s; rfl
  | cons o ops ih =>
    intro s
    rw [List.foldl_cons, ih]
    cases o with
    | add e spare => simp only [op]; split <;> rfl
    | delete e => simp only [op]; split <;> rfl

/-- Additions leave what `cap` shows alone. -/
structure Kept (cap : Slice) (l : List Nat) (s : St) : Prop where
  read : s.mem.read cap = l
  ok : s.mem.Ok s.eps
  old : cap.arr < s.mem.next
  short : cap.arr = s.eps.arr → cap.len ≤ s.eps.len

theorem kept_add {cap : Slice} {l : List Nat} {s : St} (h : Kept cap l s) (e spare : Nat) : Kept cap l (op s (.add e spare)) := by
  simp only [op]
  split
  · exact h
  · refine ⟨?_, Mem.ok_append h.ok, ?_, ?_⟩
    · show (s.mem.append 0 spare s.eps e).1.read cap = l
      rw [Mem.append_other h.old h.short]; exact h.read
    · show cap.arr < (s.mem.append 0 spare s.eps e).1.next
      simp only [Mem.append]; have := h.old
      split
      · exact this
      · show cap.arr < s.mem.next + 1; omega
    · show cap.arr = (s.mem.append 0 spare s.eps e).2.arr → cap.len ≤ (s.mem.append 0 spare s.eps e).2.len
      simp only [Mem.append]
      split
      · intro he; have := h.short he; show cap.len ≤ s.eps.len + 1; omega
      · intro he; have := h.old; simp only at he; omega

theorem kept_adds {cap : Slice} {l : List Nat} (ops : List Op) (hops : ∀ o ∈ ops, ∃ e spare, o = .add e spare) : ∀ s : St, Kept cap l s → Kept cap l (ops.foldl op s) := by
  induction ops with
  | nil => intro s h; exact h
  | cons o ops ih =>
    intro s h
    obtain ⟨e, spare, rfl⟩ := hops o List.mem_cons_self
    exact ih (fun o h => hops o (List.mem_cons_of_mem _ h)) _ (kept_add h e spare)

theorem loop_kept (react : Nat → List Op) (cap : Slice) (l : List Nat) (n : Nat) : ∀ (i : Nat) (s : St), Kept cap l s → i + n = l.length →
    (∀ e ∈ l.drop i, ∀ o ∈ react e, ∃ e' spare, o = .add e' spare) → (loop react cap n i s).seen = s.seen ++ l.drop i := by
  induction n with
  | zero => intro i s _ hi _; rw [List.drop_of_length_le (by omega)]; simp [loop]
  | succ n ih =>
    intro i s h hi hr
    have hlt : i < l.length := by omega
    have hget : (s.mem.read cap)[i]? = some l[i] := by rw [h.read, List.getElem?_eq_getElem hlt]
    simp only [loop, hget]
    have hdrop : l.drop i = l[i] :: l.drop (i + 1) := (List.getElem_cons_drop hlt).symm
    have hk : Kept cap l ((react l[i]).foldl op { s with seen := s.seen ++ [l[i]] }) :=
      kept_adds _ (hr l[i] (by rw [hdrop]; exact List.mem_cons_self)) _ ⟨h.read, h.ok, h.old, h.short⟩
    rw [ih (i + 1) _ hk (by omega) (fun e he => hr e (by rw [hdrop]; exact List.mem_cons_of_mem _ he)), foldl_seen, hdrop]
    simp

/-- C70, restricted to listeners that delete nothing: every endpoint registered when the event is published gets it once, in order; endpoints
added meanwhile do not get it. -/
theorem c70_add_partial (react : Nat → List Op) (s : St) (h : s.mem.Ok s.eps) (hr : ∀ e ∈ s.list, ∀ o ∈ react e, ∃ e' spare, o = .add e' spare) :
    (publish react s).seen = s.seen ++ s.list := by
  have hlen := Mem.read_length h
  have := loop_kept react s.eps s.list s.eps.len 0 s ⟨rfl, h, h.old, fun _ => Nat.le_refl _⟩ (by rw [St.list, hlen]; omega) (by simpa using hr)
  simpa [publish] using this

/-- One listener, that of `e`, deletes one endpoint, `x`. -/
def deletes (e x : Nat) : Nat → List Op := fun a => if a = e then [.delete x] else []

theorem loop_quiet (react : Nat → List Op) (cap : Slice) (l : List Nat) (n : Nat) : ∀ (i : Nat) (s : St), s.mem.read cap = l → i + n ≤ l.length →
    (∀ a ∈ (l.drop i).take n, react a = []) → ∀ k, loop react cap (n + k) i s = loop react cap k (i + n) { s with seen := s.seen ++ (l.drop i).take n } := by
  induction n with
  | zero => intro i s _ _ _ k; simp
  | succ n ih =>
    intro i s h hi hr k
    have hlt : i < l.length := by omega
    have hdrop : l.drop i = l[i] :: l.drop (i + 1) := (List.getElem_cons_drop hlt).symm
    have hget : (s.mem.read cap)[i]? = some l[i] := by rw [h, List.getElem?_eq_getElem hlt]
    rw [show n + 1 + k = (n + k) + 1 by omega]
    simp only [loop, hget]
    rw [hr l[i] (by rw [hdrop, List.take_succ_cons]; exact List.mem_cons_self), List.foldl_nil]
    rw [ih (i + 1) { s with seen := s.seen ++ [l[i]] } h (by omega) (fun a ha => hr a (by rw [hdrop, List.take_succ_cons]; exact List.mem_cons_of_mem _ ha)) k, hdrop]
    rw [List.take_succ_cons, show i + 1 + n = i + (n + 1) by omega]
    simp

/-- Nothing happens any more once `x` is gone. -/
theorem loop_gone (e x : Nat) (cap : Slice) (l : List Nat) (n : Nat) : ∀ (i : Nat) (s : St), s.mem.read cap = l → x ∉ s.list → i + n = l.length →
    (loop (deletes e x) cap n i s).seen = s.seen ++ l.drop i ∧ (loop (deletes e x) cap n i s).list = s.list := by
  induction n with
  | zero => intro i s _ _ hi; rw [List.drop_of_length_le (by omega)]; simp [loop]
  | succ n ih =>
    intro i s h hx hi
    have hlt : i < l.length := by omega
    have hdrop : l.drop i = l[i] :: l.drop (i + 1) := (List.getElem_cons_drop hlt).symm
    have hget : (s.mem.read cap)[i]? = some l[i] := by rw [h, List.getElem?_eq_getElem hlt]
    have hop : op { s with seen := s.seen ++ [l[i]] } (.delete x) = { s with seen := s.seen ++ [l[i]] } := by
      have : ({ s with seen := s.seen ++ [l[i]] } : St).list.idxOf? x = none := List.idxOf?_eq_none_iff.mpr hx
      simp only [op, this]
    have hfold : (deletes e x l[i]).foldl op { s with seen := s.seen ++ [l[i]] } = { s with seen := s.seen ++ [l[i]] } := by
      simp only [deletes]
      split
      · simp only [List.foldl_cons, List.foldl_nil, hop]
      · rfl
    simp only [loop, hget, hfold]
    obtain ⟨h1, h2⟩ := ih (i + 1) { s with seen := s.seen ++ [l[i]] } h hx (by omega)
    refine ⟨?_, h2⟩
    rw [h1, hdrop]; simp

/-- C70, exactly, for one deletion: the endpoint at index `i` deletes the one at index `k` (any, itself included) when it gets the event.  The
rest of the loop runs over the list with `k` removed and the last element doubled. -/
theorem c70_delete (s : St) (h : s.mem.Ok s.eps) (hn : s.list.Nodup) (i k : Nat) (hi : i < s.list.length) (hk : k < s.list.length) :
    (publish (deletes s.list[i] s.list[k]) s).seen =
      s.seen ++ s.list.take (i + 1) ++ (s.list.eraseIdx k ++ s.list.drop (s.list.length - 1)).drop (i + 1) ∧
    (publish (deletes s.list[i] s.list[k]) s).list = s.list.eraseIdx k := by
  have hlen : s.list.length = s.eps.len := Mem.read_length h
  have hinj : ∀ (a b : Nat) (ha : a < s.list.length) (hb : b < s.list.length), s.list[a] = s.list[b] → a = b := by
    intro a b ha hb he
    have h1 := hn.idxOf_getElem a ha
    have h2 := hn.idxOf_getElem b hb
    rw [he] at h1; omega
  have hother : ∀ a ∈ s.list.take i, deletes s.list[i] s.list[k] a = [] := by
    intro a ha
    simp only [deletes]
    rw [if_neg]
    intro he
    obtain ⟨j, hj, hje⟩ := List.getElem_of_mem ha
    rw [List.getElem_take] at hje
    rw [List.length_take] at hj
    have := hinj j i (by omega) hi (by rw [hje, he])
    omega
  have hidx : s.list.idxOf? s.list[k] = some k := by
    rw [List.idxOf?_eq_some_iff]
    refine ⟨hk, rfl, ?_⟩
    intro j hj he
    have := hinj j k (by omega) hk he
    omega
  rw [publish, ← hlen]
  have e1 := loop_quiet (deletes s.list[i] s.list[k]) s.eps s.list i 0 s rfl (by omega) (by simpa using hother) (s.list.length - i)
  rw [show i + (s.list.length - i) = s.list.length by omega] at e1
  rw [e1, show s.list.length - i = (s.list.length - i - 1) + 1 by omega]
  have hget : (s.mem.read s.eps)[i]? = some s.list[i] := by
    show s.list[i]? = _; rw [List.getElem?_eq_getElem hi]
  simp only [loop, Nat.zero_add, List.drop_zero, hget]
  have hre : (deletes s.list[i] s.list[k] s.list[i]) = [.delete s.list[k]] := by simp [deletes]
  rw [hre, List.foldl_cons, List.foldl_nil]
  have hop : op ⟨s.mem, s.eps, s.seen ++ s.list.take i ++ [s.list[i]]⟩ (.delete s.list[k]) =
      ⟨(s.mem.deleteAt s.eps k).1, (s.mem.deleteAt s.eps k).2, s.seen ++ s.list.take i ++ [s.list[i]]⟩ := by
    have : (⟨s.mem, s.eps, s.seen ++ s.list.take i ++ [s.list[i]]⟩ : St).list = s.list := rfl
    simp only [op, this, hidx]
  rw [hop]
  have hlist : (⟨(s.mem.deleteAt s.eps k).1, (s.mem.deleteAt s.eps k).2, s.seen ++ s.list.take i ++ [s.list[i]]⟩ : St).list = s.list.eraseIdx k :=
    Mem.read_deleteAt h (by omega)
  have hsame : (s.mem.deleteAt s.eps k).1.read s.eps = s.list.eraseIdx k ++ s.list.drop (s.list.length - 1) := by
    rw [Mem.deleteAt_same h (by omega), hlen]; rfl
  have hgone : s.list[k] ∉ s.list.eraseIdx k := by
    intro hm
    rw [List.mem_eraseIdx_iff_getElem] at hm
    obtain ⟨j, hj, hne, he⟩ := hm
    exact hne (hinj j k hj hk he)
  obtain ⟨h1, h2⟩ := loop_gone s.list[i] s.list[k] s.eps (s.list.eraseIdx k ++ s.list.drop (s.list.length - 1)) (s.list.length - i - 1) (i + 1)
    ⟨(s.mem.deleteAt s.eps k).1, (s.mem.deleteAt s.eps k).2, s.seen ++ s.list.take i ++ [s.list[i]]⟩ hsame (by rw [hlist]; exact hgone)
    (by rw [List.length_append, List.length_eraseIdx_of_lt hk, List.length_drop]; omega)
  refine ⟨?_, by rw [h2, hlist]⟩
  rw [h1]
  have : s.list.take (i + 1) = s.list.take i ++ [s.list[i]] := by rw [List.take_succ_eq_append_getElem hi]
  rw [this]; simp

/-- **C70, exactly, for one deletion**: every endpoint that is registered and not deleted before its turn gets the event once, in order, iff the
deleted one had got the event already (or is the one deleting) and at most one endpoint is still to come. -/
theorem c70_delete_iff (s : St) (h : s.mem.Ok s.eps) (hn : s.list.Nodup) (i k : Nat) (hi : i < s.list.length) (hk : k < s.list.length) :
    (publish (deletes s.list[i] s.list[k]) s).seen = s.seen ++ (s.list.take (i + 1) ++ (s.list.drop (i + 1)).filter (· ≠ s.list[k])) ↔
      k ≤ i ∧ s.list.length ≤ i + 2 := by
  rw [(c70_delete s h hn i k hi hk).1, List.append_assoc, List.append_cancel_left_eq, List.append_cancel_left_eq]
  have hinj : ∀ (a b : Nat) (ha : a < s.list.length) (hb : b < s.list.length), s.list[a] = s.list[b] → a = b := by
    intro a b ha hb he
    have h1 := hn.idxOf_getElem a ha
    have h2 := hn.idxOf_getElem b hb
    rw [he] at h1; omega
  generalize s.list = l at *
  have hlen : ((l.eraseIdx k ++ l.drop (l.length - 1)).drop (i + 1)).length = l.length - (i + 1) := by
    rw [List.length_drop, List.length_append, List.length_eraseIdx_of_lt hk, List.length_drop]; omega
  by_cases hki : k ≤ i
  · have hall : (l.drop (i + 1)).filter (· ≠ l[k]) = l.drop (i + 1) := by
      refine List.filter_eq_self.mpr fun x hx => ?_
      obtain ⟨j, hj, rfl⟩ := List.getElem_of_mem hx
      rw [List.getElem_drop]
      rw [List.length_drop] at hj
      have : l[i + 1 + j] ≠ l[k] := fun he => by have := hinj _ _ (by omega) hk he; omega
      simpa using this
    rw [hall]
    constructor
    · intro he
      refine ⟨hki, ?_⟩
      apply Classical.byContradiction
      intro hlt
      have hlt : i + 2 < l.length := by omega
      have h0 : ((l.eraseIdx k ++ l.drop (l.length - 1)).drop (i + 1))[0]? = l[i + 2]? := by
        rw [List.getElem?_drop, List.getElem?_append_left (by rw [List.length_eraseIdx_of_lt hk]; omega), List.getElem?_eraseIdx]
        rw [if_neg (by omega)]
      rw [he, List.getElem?_drop, Nat.add_zero, List.getElem?_eq_getElem (by omega), List.getElem?_eq_getElem hlt] at h0
      injection h0 with h0
      have := hinj _ _ (by omega) hlt h0
      omega
    · rintro ⟨_, hle⟩
      by_cases hlast : l.length = i + 1
      · rw [List.drop_of_length_le (by rw [List.length_append, List.length_eraseIdx_of_lt hk, List.length_drop]; omega),
          List.drop_of_length_le (by omega)]
      · rw [List.drop_append, List.drop_of_length_le (by rw [List.length_eraseIdx_of_lt hk]; omega), List.length_eraseIdx_of_lt hk,
          show i + 1 - (l.length - 1) = 0 by omega, show l.length - 1 = i + 1 by omega]
        rfl
  · refine ⟨fun he => ?_, fun h => absurd h.1 hki⟩
    exfalso
    have hmem : l[k] ∈ l.drop (i + 1) := by
      refine List.mem_iff_getElem.mpr ⟨k - (i + 1), by rw [List.length_drop]; omega, ?_⟩
      rw [List.getElem_drop]
      congr 1
      omega
    have hlt : ((l.drop (i + 1)).filter (· ≠ l[k])).length < (l.drop (i + 1)).length := by
      apply Nat.lt_of_le_of_ne (List.length_filter_le _ _)
      intro heq
      have := List.length_filter_eq_length_iff.mp heq l[k] hmem
      simp at this
    rw [← he, hlen, List.length_drop] at hlt
    omega

/-- C70 does not hold: an endpoint `e` that deletes itself, with at least two endpoints behind it.  The next one, `x`, does not get the event
at all, the last one, `z`, gets it twice. -/
theorem c70_violated (s : St) (h : s.mem.Ok s.eps) (hn : s.list.Nodup) (pre mid : List Nat) (e x z : Nat) (hl : s.list = pre ++ e :: x :: mid ++ [z]) :
    (publish (deletes e e) s).seen = s.seen ++ pre ++ e :: mid ++ [z, z] ∧ (publish (deletes e e) s).list = pre ++ x :: mid ++ [z] := by
  have hi : pre.length < s.list.length := by rw [hl]; simp
  have he : s.list[pre.length] = e := by simp [hl]
  have := c70_delete s h hn pre.length pre.length hi hi
  rw [he] at this
  rw [this.1, this.2, hl]
  have e1 : (pre ++ e :: x :: mid ++ [z]).eraseIdx pre.length = pre ++ x :: mid ++ [z] := by
    rw [List.append_assoc, List.eraseIdx_append_of_length_le (Nat.le_refl _)]; simp
  have e2 : (pre ++ e :: x :: mid ++ [z]).take (pre.length + 1) = pre ++ [e] := by
    rw [List.append_assoc, List.take_append, List.take_of_length_le (by omega)]; simp
  have e3 : (pre ++ e :: x :: mid ++ [z]).drop ((pre ++ e :: x :: mid ++ [z]).length - 1) = [z] := by
    rw [List.length_append, List.length_singleton, Nat.add_sub_cancel, List.drop_left]
  rw [e1, e2, e3]
  refine ⟨?_, rfl⟩
  have e4 : (pre ++ x :: mid ++ [z] ++ [z]).drop (pre.length + 1) = mid ++ [z, z] := by
    rw [List.append_assoc, List.append_assoc, List.drop_append, List.drop_of_length_le (by omega)]
    simp
  rw [e4]; simp

/-- Three endpoints with one array; 1 deletes itself: 2 does not get the event, 3 gets it twice. -/
def demo : St := ⟨⟨fun a => if a = 1 then [1, 2, 3, 0] else [], 2⟩, ⟨1, 3⟩, []⟩

example : demo.mem.Ok demo.eps ∧ demo.list = [] ++ 1 :: 2 :: [] ++ [3] ∧ demo.list.Nodup ∧ (publish (deletes 1 1) demo).seen = [1, 3, 3] ∧
    (publish (fun e => if e = 1 then [.add 7 0, .add 8 5] else []) demo).seen = [1, 2, 3] :=
  ⟨⟨by decide, by decide⟩, by decide, by decide, by decide, by decide⟩

end Verif.Reg.Publish
