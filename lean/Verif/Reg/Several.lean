import Verif.Reg.Model

/-!
# C107: several stacks, with processors that are appended more than once or to more than one stack

A processor has one `upper`, one `lower` and one `ustack` field (proc_base.go:10-19); `build` (ustack_default.go:120-146) of every stack it was
appended to writes them.  Modelled: any number of stacks, `AppendDataProcessor` (ustack_default.go:241-244) and `Run` of any of them in any order,
the fields of the processors and of the decks.  Not modelled here: options, overhead, endpoints and transports (Reg.Model), what the processors
do with a message (Stack.Model); two `Run`s at the same time (C105).
-/

namespace Verif.Reg.Several

/-- The fields `lower` and `upper` of all processors and decks (proc_base.go:17-18). -/
structure Links where
  lowerOf : Elem → Option Elem
  upperOf : Elem → Option Elem

/-- `a.SetLower(b)`, `b.SetUpper(a)` (proc_base.go:99-108, called at ustack_default.go:129-140). -/
def Links.link (k : Links) (a b : Elem) : Links :=
  { lowerOf := fun x => if x = a then some b else k.lowerOf x
    upperOf := fun x => if x = b then some a else k.upperOf x }

/-- The links `build` writes from an element over the processors to the LowerDeck, in this order (ustack_default.go:128-140). -/
def Links.chain (k : Links) (bottom : Elem) : Elem → List ProcId → Links
  | a, [] => k.link a bottom
  | a, p :: ps => (k.link a (.proc p)).chain bottom (.proc p) ps

abbrev StackId := Nat

structure W where
  /-- `processors` of the stacks (ustack_default.go:87) -/
  procs : StackId → List ProcId
  links : Links
  /-- the field `ustack` of the processors and decks (proc_base.go:14) -/
  home : Elem → Option StackId
  /-- the decks of the last `Run` of a stack (ustack_default.go:86, 89), `none` before it -/
  decks : StackId → Option DeckId
  /-- the next `NewUpperDeck()`, `NewLowerDeck()` -/
  next : DeckId

/-- The stacks after `NewUStack` (ustack_default.go:94-108) and the processors after their constructors (proc_base.go:22-33). -/
def W.new : W := ⟨fun _ => [], ⟨fun _ => none, fun _ => none⟩, fun _ => none, fun _ => none, 0⟩

/-- `AppendDataProcessor` (ustack_default.go:241-244). -/
def W.append (w : W) (s : StackId) (p : ProcId) : W :=
  { w with procs := fun t => if t = s then w.procs t ++ [p] else w.procs t }

/-- `Run` (ustack_default.go:329-345): `build` (ustack_default.go:120-146) makes decks that belong to the stack (123-124), writes the links
(126-140), and `SetUStack` of all processors (142-143). -/
def W.run (w : W) (s : StackId) : W :=
  { w with
    decks := fun t => if t = s then some w.next else w.decks t
    next := w.next + 1
    links := w.links.chain (.lower w.next) (.upper w.next) (w.procs s)
    home := fun x =>
      if x = .upper w.next ∨ x = .lower w.next ∨ x ∈ (w.procs s).map Elem.proc then some s else w.home x }

inductive Op where
  | append (s : StackId) (p : ProcId)
  | run (s : StackId)
  deriving Repr, DecidableEq

def W.step (w : W) : Op → W
  | .append s p => w.append s p
  | .run s => w.run s

def W.steps (w : W) (ops : List Op) : W := ops.foldl W.step w

/-! ## What is claimed -/

/-- The whole way along a field from an element, without the element itself: it ends where the field is nil. -/
def Way (next : Elem → Option Elem) : Elem → List Elem → Prop
  | a, [] => next a = none
  | a, b :: l => next a = some b ∧ Way next b l

/-- The processors a history appended to a stack. -/
def listed (s : StackId) : List Op → List ProcId
  | [] => []
  | .append t p :: ops => if t = s then p :: listed s ops else listed s ops
  | .run _ :: ops => listed s ops

/-- No stack that is run after the last `Run` of `s` has one of the processors `s` had then. -/
def Apart (before : List Op) (s : StackId) (after : List Op) : Prop :=
  ∀ a t b, after = a ++ .run t :: b → ∀ p ∈ listed s before, p ∉ listed t (before ++ .run s :: a)

/-! ## Ways -/

theorem Way.unique {next : Elem → Option Elem} {a : Elem} {l l' : List Elem} (h : Way next a l) (h' : Way next a l') : l = l' := by
  induction l generalizing a l' with
  | nil =>
    cases l' with
    | nil => rfl
    | cons b l' => simp only [Way] at h h'; rw [h] at h'; cases h'.1
  | cons b l ih =>
    cases l' with
    | nil => simp only [Way] at h h'; rw [h'] at h; cases h.1
    | cons b' l' =>
      simp only [Way] at h h'
      have : b = b' := by have := h.1.symm.trans h'.1; injection this
      subst this
      rw [ih h.2 h'.2]

theorem Way.after {next : Elem → Option Elem} {a b : Elem} {u v : List Elem} (h : Way next a (u ++ b :: v)) : Way next b v := by
  induction u generalizing a with
  | nil => exact h.2
  | cons c u ih => exact ih h.2

theorem Way.nodup {next : Elem → Option Elem} {a : Elem} {l : List Elem} (h : Way next a l) : (a :: l).Nodup := by
  induction l generalizing a with
  | nil => simp
  | cons b l ih =>
    rw [List.nodup_cons]
    refine ⟨fun hm => ?_, ih h.2⟩
    obtain ⟨u, v, he⟩ := List.append_of_mem hm
    have h1 : Way next a v := Way.after (he ▸ h)
    have h2 := congrArg List.length (h1.unique h)
    rw [he] at h2
    simp at h2
    omega

theorem Way.congr {next next' : Elem → Option Elem} {a : Elem} {l : List Elem} (h : Way next a l)
    (he : ∀ x ∈ a :: l, next' x = next x) : Way next' a l := by
  induction l generalizing a with
  | nil => simpa [Way, he a] using h
  | cons b l ih =>
    exact ⟨(he a (by simp)).trans h.1, ih h.2 fun x hx => he x (List.mem_cons_of_mem _ hx)⟩

/-- A way from inside a closed set stays there. -/
theorem Way.inside {next : Elem → Option Elem} {A : Elem → Prop} (hA : ∀ x y, A x → next x = some y → A y) {a : Elem} {l : List Elem}
    (ha : A a) (h : Way next a l) : ∀ x ∈ l, A x := by
  induction l generalizing a with
  | nil => simp
  | cons b l ih =>
    have hb := hA _ _ ha h.1
    intro x hx
    rcases List.mem_cons.mp hx with rfl | hx
    · exact hb
    · exact ih hb h.2 x hx

theorem no_way {next : Elem → Option Elem} {A : Elem → Prop} (hA : ∀ x, A x → ∃ y, next x = some y ∧ A y) (l : List Elem) (a : Elem)
    (ha : A a) : ¬ Way next a l := by
  induction l generalizing a with
  | nil => intro h; obtain ⟨y, hy, _⟩ := hA a ha; simp only [Way] at h; rw [h] at hy; cases hy
  | cons b l ih =>
    intro h
    obtain ⟨y, hy, hy'⟩ := hA a ha
    have : b = y := by have := h.1.symm.trans hy; injection this
    exact ih b (this ▸ hy') h.2

/-! ## The links of one `Run` -/

theorem chain_lower_other (b x : Elem) (ps : List ProcId) (a : Elem) (k : Links) (h1 : x ≠ a) (h2 : x ∉ ps.map Elem.proc) :
    (k.chain b a ps).lowerOf x = k.lowerOf x := by
  induction ps generalizing a k with
  | nil => simp [Links.chain, Links.link, h1]
  | cons p ps ih =>
    simp only [List.map_cons, List.mem_cons, not_or] at h2
    rw [Links.chain, ih _ _ h2.1 h2.2]
    simp [Links.link, h1]

theorem chain_upper_other (b x : Elem) (ps : List ProcId) (a : Elem) (k : Links) (h1 : x ≠ b) (h2 : x ∉ ps.map Elem.proc) :
    (k.chain b a ps).upperOf x = k.upperOf x := by
  induction ps generalizing a k with
  | nil => simp [Links.chain, Links.link, h1]
  | cons p ps ih =>
    simp only [List.map_cons, List.mem_cons, not_or] at h2
    rw [Links.chain, ih _ _ h2.2]
    simp [Links.link, h2.1]

theorem chain_lower_in (b x : Elem) (ps : List ProcId) (a : Elem) (k : Links) (h : x = a ∨ x ∈ ps.map Elem.proc) :
    ∃ y, (k.chain b a ps).lowerOf x = some y ∧ (y = b ∨ y ∈ ps.map Elem.proc) := by
  induction ps generalizing a k with
  | nil =>
    rcases h with rfl | h
    · exact ⟨b, by simp [Links.chain, Links.link], .inl rfl⟩
    · simp at h
  | cons p ps ih =>
    rw [Links.chain]
    by_cases hx : x = .proc p ∨ x ∈ ps.map Elem.proc
    · obtain ⟨y, h1, h2⟩ := ih (.proc p) (k.link a (.proc p)) hx
      exact ⟨y, h1, h2.imp_right fun h => List.mem_cons_of_mem _ h⟩
    · rw [not_or] at hx
      have ha : x = a := by
        rcases h with h | h
        · exact h
        · rcases List.mem_cons.mp h with h | h
          · exact absurd h hx.1
          · exact absurd h hx.2
      refine ⟨.proc p, ?_, .inr (by simp)⟩
      rw [chain_lower_other _ _ _ _ _ hx.1 hx.2]
      simp [Links.link, ha]

theorem chain_upper_in (b x : Elem) (ps : List ProcId) (a : Elem) (k : Links) (h : x = b ∨ x ∈ ps.map Elem.proc) :
    ∃ y, (k.chain b a ps).upperOf x = some y ∧ (y = a ∨ y ∈ ps.map Elem.proc) := by
  induction ps generalizing a k with
  | nil =>
    rcases h with rfl | h
    · exact ⟨a, by simp [Links.chain, Links.link], .inl rfl⟩
    · simp at h
  | cons p ps ih =>
    rw [Links.chain]
    by_cases hx : x = b ∨ x ∈ ps.map Elem.proc
    · obtain ⟨y, h1, h2⟩ := ih (.proc p) (k.link a (.proc p)) hx
      refine ⟨y, h1, .inr ?_⟩
      rcases h2 with rfl | h2
      · simp
      · exact List.mem_cons_of_mem _ h2
    · rw [not_or] at hx
      have ha : x = .proc p := by
        rcases h with h | h
        · exact absurd h hx.1
        · rcases List.mem_cons.mp h with h | h
          · exact h
          · exact absurd h hx.2
      refine ⟨a, ?_, .inl rfl⟩
      rw [chain_upper_other _ _ _ _ _ hx.1 hx.2]
      simp [Links.link, ha]

theorem chain_split (b : Elem) (pre : List ProcId) (p : ProcId) (mid : List ProcId) (a : Elem) (k : Links) :
    k.chain b a (pre ++ p :: mid) = (k.chain (.proc p) a pre).chain b (.proc p) mid := by
  induction pre generalizing a k with
  | nil => rfl
  | cons q pre ih => exact ih _ _

theorem mem_proc {p : ProcId} {ps : List ProcId} : Elem.proc p ∈ ps.map Elem.proc ↔ p ∈ ps := by simp

/-- Distinct processors: the way down. -/
theorem chain_down (b : Elem) (ps : List ProcId) (a : Elem) (k : Links) (hab : b ≠ a) (ha : a ∉ ps.map Elem.proc) (hb : b ∉ ps.map Elem.proc)
    (hn : ps.Nodup) (hk : k.lowerOf b = none) : Way (k.chain b a ps).lowerOf a (ps.map Elem.proc ++ [b]) := by
  induction ps generalizing a k with
  | nil => simp [Links.chain, Links.link, Way, hab, hk]
  | cons p ps ih =>
    simp only [List.map_cons, List.mem_cons, not_or] at ha hb
    rw [List.nodup_cons] at hn
    refine ⟨?_, ih (.proc p) (k.link a (.proc p)) hb.1 (by rw [mem_proc]; exact hn.1) hb.2 hn.2 (by simp [Links.link, hab, hk])⟩
    rw [Links.chain, chain_lower_other _ _ _ _ _ ha.1 ha.2]
    simp [Links.link]

/-- Distinct processors: the way up. -/
theorem chain_up (b : Elem) (ps : List ProcId) (a : Elem) (k : Links) (hab : a ≠ b) (ha : a ∉ ps.map Elem.proc) (hb : b ∉ ps.map Elem.proc)
    (hn : ps.Nodup) (l : List Elem) (hl : ∀ x ∈ a :: l, x ≠ b ∧ x ∉ ps.map Elem.proc) (hk : Way k.upperOf a l) :
    Way (k.chain b a ps).upperOf b ((ps.map Elem.proc).reverse ++ a :: l) := by
  induction ps generalizing a k l with
  | nil =>
    refine ⟨by simp [Links.chain, Links.link], hk.congr fun x hx => ?_⟩
    simp [Links.chain, Links.link, (hl x hx).1]
  | cons p ps ih =>
    simp only [List.map_cons, List.mem_cons, not_or] at ha hb
    rw [List.nodup_cons] at hn
    rw [List.map_cons, List.reverse_cons, List.append_assoc, Links.chain]
    have hpa : ∀ x ∈ a :: l, x ≠ .proc p := fun x hx h => (hl x hx).2 (by rw [h]; simp)
    refine ih (.proc p) (k.link a (.proc p)) (Ne.symm hb.1) (by rw [mem_proc]; exact hn.1) hb.2 hn.2 (a :: l) ?_ ?_
    · intro x hx
      rcases List.mem_cons.mp hx with rfl | hx
      · exact ⟨Ne.symm hb.1, by rw [mem_proc]; exact hn.1⟩
      · exact ⟨(hl x hx).1, fun h => (hl x hx).2 (by rw [List.map_cons]; exact List.mem_cons_of_mem _ h)⟩
    · refine ⟨by simp [Links.link], hk.congr fun x hx => ?_⟩
      simp [Links.link, hpa x hx]

/-- Any processors: the way down from each of them ends at the bottom. -/
theorem chain_ends (b : Elem) (ps : List ProcId) (a : Elem) (k : Links) (hab : b ≠ a) (hb : b ∉ ps.map Elem.proc) (hk : k.lowerOf b = none)
    (x : Elem) (hx : x = a ∨ x ∈ ps.map Elem.proc) : ∃ l, Way (k.chain b a ps).lowerOf x (l ++ [b]) := by
  induction ps generalizing a k x with
  | nil =>
    rcases hx with rfl | hx
    · exact ⟨[], by simp [Links.chain, Links.link, Way, hab, hk]⟩
    · simp at hx
  | cons p ps ih =>
    simp only [List.map_cons, List.mem_cons, not_or] at hb
    have ih := ih (.proc p) (k.link a (.proc p)) hb.1 hb.2 (by simp [Links.link, hab, hk])
    rw [Links.chain]
    by_cases h : x = .proc p ∨ x ∈ ps.map Elem.proc
    · exact ih x h
    · rw [not_or] at h
      have hxa : x = a := by
        rcases hx with hx | hx
        · exact hx
        · rcases List.mem_cons.mp hx with hx | hx
          · exact absurd hx h.1
          · exact absurd hx h.2
      obtain ⟨l, hl⟩ := ih (.proc p) (.inl rfl)
      refine ⟨.proc p :: l, ?_, hl⟩
      rw [chain_lower_other _ _ _ _ _ h.1 h.2]
      simp [Links.link, hxa]

theorem not_nodup {ps : List ProcId} (h : ¬ ps.Nodup) : ∃ pre p mid, ps = pre ++ p :: mid ∧ p ∈ mid := by
  induction ps with
  | nil => simp at h
  | cons q ps ih =>
    by_cases hq : q ∈ ps
    · exact ⟨[], q, ps, rfl, hq⟩
    · obtain ⟨pre, p, mid, rfl, hp⟩ := ih fun hn => h (List.nodup_cons.mpr ⟨hq, hn⟩)
      exact ⟨q :: pre, p, mid, rfl, hp⟩

/-- A repeated processor: no way up from the bottom has an end. -/
theorem chain_loops (b : Elem) (ps : List ProcId) (a : Elem) (k k' : Links) (hn : ¬ ps.Nodup)
    (hk : ∀ x, x = b ∨ x ∈ ps.map Elem.proc → k'.upperOf x = (k.chain b a ps).upperOf x) (l : List Elem) : ¬ Way k'.upperOf b l := by
  obtain ⟨pre, p, mid, rfl, hp⟩ := not_nodup hn
  refine no_way (A := fun x => x = b ∨ x ∈ mid.map Elem.proc) (fun x hx => ?_) l b (.inl rfl)
  rw [hk x (hx.imp_right fun h => by rw [List.map_append, List.map_cons]; simp only [List.mem_append, List.mem_cons]; exact .inr (.inr h)),
    chain_split]
  obtain ⟨y, h1, h2⟩ := chain_upper_in b x mid (.proc p) (k.chain (.proc p) a pre) hx
  refine ⟨y, h1, .inr ?_⟩
  rcases h2 with rfl | h2
  · exact mem_proc.mpr hp
  · exact h2

/-! ## Histories -/

theorem steps_cons (w : W) (op : Op) (ops : List Op) : w.steps (op :: ops) = (w.step op).steps ops := rfl

theorem steps_append (w : W) (a b : List Op) : w.steps (a ++ b) = (w.steps a).steps b := List.foldl_append

theorem listed_append (s : StackId) (a b : List Op) : listed s (a ++ b) = listed s a ++ listed s b := by
  induction a with
  | nil => rfl
  | cons op a ih =>
    cases op with
    | append t p => simp only [List.cons_append, listed]; split <;> simp [ih]
    | run t => simpa [listed] using ih

theorem procs_steps (ops : List Op) (w : W) (s : StackId) : (w.steps ops).procs s = w.procs s ++ listed s ops := by
  induction ops generalizing w with
  | nil => simp [W.steps, listed]
  | cons op ops ih =>
    rw [steps_cons, ih]
    cases op with
    | append t p =>
      simp only [W.step, W.append, listed]
      by_cases h : s = t
      · subst h; simp
      · simp [h, Ne.symm h]
    | run t => rfl

/-- The decks that do not exist yet have no links, no LowerDeck has a lower and no UpperDeck an upper element. -/
structure Fresh (w : W) : Prop where
  old : ∀ s d, w.decks s = some d → d < w.next
  top : ∀ d, w.links.upperOf (.upper d) = none
  bottom : ∀ d, w.links.lowerOf (.lower d) = none

theorem Fresh.step {w : W} (h : Fresh w) (op : Op) : Fresh (w.step op) := by
  cases op with
  | append s p => exact ⟨h.old, h.top, h.bottom⟩
  | run s =>
    refine ⟨fun t d hd => ?_, fun d => ?_, fun d => ?_⟩
    · simp only [W.step, W.run] at hd ⊢
      split at hd
      · injection hd with hd; omega
      · have := h.old t d hd; omega
    · simp only [W.step, W.run]
      rw [chain_upper_other _ _ _ _ _ (by simp) (by simp)]
      exact h.top d
    · simp only [W.step, W.run]
      rw [chain_lower_other _ _ _ _ _ (by simp) (by simp)]
      exact h.bottom d

theorem Fresh.steps {w : W} (h : Fresh w) (ops : List Op) : Fresh (w.steps ops) := by
  induction ops generalizing w with
  | nil => exact h
  | cons op ops ih => exact ih (h.step op)

theorem fresh_new : Fresh W.new := ⟨by simp [W.new], fun _ => rfl, fun _ => rfl⟩

/-- The elements of the chain a stack had at its last `Run`. -/
def Own (d : DeckId) (ps : List ProcId) (x : Elem) : Prop := x = .upper d ∨ x = .lower d ∨ x ∈ ps.map Elem.proc

/-- `Run`s of stacks without a common processor leave the chain alone. -/
theorem kept (s : StackId) (d : DeckId) (ps : List ProcId) (after : List Op) (w : W) (hs : .run s ∉ after) (hd : d < w.next)
    (hap : ∀ a t b, after = a ++ .run t :: b → ∀ p ∈ ps, p ∉ w.procs t ++ listed t a) :
    (w.steps after).decks s = w.decks s ∧ ∀ x, Own d ps x →
      (w.steps after).links.lowerOf x = w.links.lowerOf x ∧ (w.steps after).links.upperOf x = w.links.upperOf x ∧
      (w.steps after).home x = w.home x := by
  induction after generalizing w with
  | nil => exact ⟨rfl, fun _ _ => ⟨rfl, rfl, rfl⟩⟩
  | cons op after ih =>
    have hs' : .run s ∉ after := fun h => hs (List.mem_cons_of_mem _ h)
    rw [steps_cons]
    cases op with
    | append t p =>
      refine ih (w.append t p) hs' hd fun a u b he q hq => ?_
      have := hap (.append t p :: a) u b (by rw [he]; rfl) q hq
      simp only [W.append, listed] at this ⊢
      by_cases h : u = t
      · subst h; simpa using this
      · simpa [h, Ne.symm h] using this
    | run t =>
      have hts : s ≠ t := fun h => hs (by rw [h]; simp)
      have h0 : ∀ p ∈ ps, p ∉ w.procs t := by simpa [listed] using hap [] t after rfl
      obtain ⟨h1, h2⟩ := ih (w.run t) hs' (by simp only [W.run]; omega) fun a u b he q hq =>
        by simpa [listed, W.run] using hap (.run t :: a) u b (by rw [he]; rfl) q hq
      refine ⟨h1.trans (by simp [W.run, hts]), fun x hx => ?_⟩
      have hx3 : x ∉ (w.procs t).map Elem.proc := by
        rcases hx with rfl | rfl | hx
        · simp
        · simp
        · obtain ⟨q, hq, rfl⟩ := List.mem_map.mp hx
          rw [mem_proc]; exact h0 q hq
      have hx1 : x ≠ .upper w.next := by
        rcases hx with rfl | rfl | hx
        · intro h; injection h with h; omega
        · simp
        · obtain ⟨q, hq, rfl⟩ := List.mem_map.mp hx; simp
      have hx2 : x ≠ .lower w.next := by
        rcases hx with rfl | rfl | hx
        · simp
        · intro h; injection h with h; omega
        · obtain ⟨q, hq, rfl⟩ := List.mem_map.mp hx; simp
      obtain ⟨g1, g2, g3⟩ := h2 x hx
      refine ⟨g1.trans ?_, g2.trans ?_, g3.trans ?_⟩
      · exact chain_lower_other _ _ _ _ _ hx1 hx3
      · exact chain_upper_other _ _ _ _ _ hx2 hx3
      · simp only [W.run, hx1, hx2, hx3, or_self, if_false]

/-- Elements from where no way leads to a deck of `s`. -/
structure Astray (s : StackId) (w : W) (A : Elem → Prop) : Prop where
  down : ∀ x y, A x → w.links.lowerOf x = some y → A y
  up : ∀ x y, A x → w.links.upperOf x = some y → A y
  deck : ∀ d, A (.lower d) ∨ A (.upper d) → d < w.next ∧ ∃ t, t ≠ s ∧ w.home (.lower d) = some t ∧ w.home (.upper d) = some t
  home : ∀ p, A (.proc p) → ∃ t, t ≠ s ∧ w.home (.proc p) = some t

theorem Astray.run {s t : StackId} {w : W} {A : Elem → Prop} (h : Astray s w A) (ht : t ≠ s) (hf : Fresh w) :
    Astray s (w.run t) (fun x => A x ∨ Own w.next (w.procs t) x) := by
  refine ⟨fun x y hx hy => ?_, fun x y hx hy => ?_, fun d hd => ?_, fun p hp => ?_⟩
  · simp only [W.run] at hy
    by_cases hin : x = .upper w.next ∨ x ∈ (w.procs t).map Elem.proc
    · obtain ⟨z, h1, h2⟩ := chain_lower_in (.lower w.next) x (w.procs t) (.upper w.next) w.links hin
      rw [h1] at hy; injection hy with hy; subst hy
      exact .inr (.inr (h2.imp_right id))
    · rw [not_or] at hin
      rw [chain_lower_other _ _ _ _ _ hin.1 hin.2] at hy
      rcases hx with hx | hx | rfl | hx
      · exact .inl (h.down x y hx hy)
      · exact absurd hx hin.1
      · rw [hf.bottom] at hy; cases hy
      · exact absurd hx hin.2
  · simp only [W.run] at hy
    by_cases hin : x = .lower w.next ∨ x ∈ (w.procs t).map Elem.proc
    · obtain ⟨z, h1, h2⟩ := chain_upper_in (.lower w.next) x (w.procs t) (.upper w.next) w.links hin
      rw [h1] at hy; injection hy with hy; subst hy
      exact .inr (h2.imp_right .inr)
    · rw [not_or] at hin
      rw [chain_upper_other _ _ _ _ _ hin.1 hin.2] at hy
      rcases hx with hx | rfl | hx | hx
      · exact .inl (h.up x y hx hy)
      · rw [hf.top] at hy; cases hy
      · exact absurd hx hin.1
      · exact absurd hx hin.2
  · simp only [W.run]
    have key : d = w.next ∨ (A (.lower d) ∨ A (.upper d)) := by
      rcases hd with (hd | hd) | (hd | hd)
      · exact .inr (.inl hd)
      · rcases hd with hd | hd | hd
        · simp at hd
        · injection hd with hd; exact .inl hd
        · simp at hd
      · exact .inr (.inr hd)
      · rcases hd with hd | hd | hd
        · injection hd with hd; exact .inl hd
        · simp at hd
        · simp at hd
    rcases key with rfl | key
    · exact ⟨by omega, t, ht, by simp, by simp⟩
    · obtain ⟨h1, u, h2, h3, h4⟩ := h.deck d key
      have hne : d ≠ w.next := by omega
      exact ⟨by omega, u, h2, by simp [hne, h3], by simp [hne, h4]⟩
  · simp only [W.run]
    by_cases hin : p ∈ w.procs t
    · exact ⟨t, ht, by simp [hin]⟩
    · rcases hp with hp | hp | hp | hp
      · obtain ⟨u, h1, h2⟩ := h.home p hp
        exact ⟨u, h1, by simp [hin, h2]⟩
      · simp at hp
      · simp at hp
      · exact absurd (mem_proc.mp hp) hin

theorem Astray.steps {s : StackId} {w : W} {A : Elem → Prop} (h : Astray s w A) (hf : Fresh w) (ops : List Op) (hs : .run s ∉ ops) :
    ∃ B, Astray s (w.steps ops) B ∧ ∀ x, A x → B x := by
  induction ops generalizing w A with
  | nil => exact ⟨A, h, fun _ h => h⟩
  | cons op ops ih =>
    have hs' : .run s ∉ ops := fun h => hs (List.mem_cons_of_mem _ h)
    cases op with
    | append t p => exact ih (w := w.append t p) ⟨h.down, h.up, h.deck, h.home⟩ (hf.step (.append t p)) hs'
    | run t =>
      have ht : t ≠ s := fun h => hs (by rw [h]; simp)
      obtain ⟨B, h1, h2⟩ := ih (h.run ht hf) (hf.step (.run t)) hs'
      exact ⟨B, h1, fun x hx => h2 x (.inl hx)⟩

theorem nothing_astray (s : StackId) (w : W) : Astray s w (fun _ => False) :=
  ⟨fun _ _ h => h.elim, fun _ _ h => h.elim, fun _ h => by simp at h, fun _ h => h.elim⟩

/-- A processor of `s` that another stack, run later, has as well. -/
theorem shared_astray (before after : List Op) (s : StackId) (hs : .run s ∉ after) (p : ProcId) (a : List Op) (t : StackId) (b : List Op)
    (he : after = a ++ .run t :: b) (hp : p ∈ listed t (before ++ .run s :: a)) :
    ∃ B, Astray s (W.new.steps (before ++ .run s :: after)) B ∧ B (.proc p) := by
  have hf := fresh_new.steps (before ++ .run s :: a)
  have hpr : (W.new.steps (before ++ .run s :: a)).procs t = listed t (before ++ .run s :: a) := by
    rw [procs_steps]; rfl
  have hw : W.new.steps (before ++ .run s :: after) = ((W.new.steps (before ++ .run s :: a)).run t).steps b := by
    rw [he, ← List.cons_append, ← List.append_assoc, steps_append]; rfl
  rw [hw]
  have hts : t ≠ s := fun h => hs (by rw [he, h]; simp)
  obtain ⟨B, h1, h2⟩ := ((nothing_astray s _).run hts hf).steps (hf.step (.run t)) b (fun h => hs (by rw [he]; simp [h]))
  exact ⟨B, h1, h2 _ (.inr (.inr (.inr (by rw [hpr, mem_proc]; exact hp))))⟩

theorem not_apart {before after : List Op} {s : StackId} (h : ¬ Apart before s after) :
    ∃ a t b p, after = a ++ .run t :: b ∧ p ∈ listed s before ∧ p ∈ listed t (before ++ .run s :: a) := by
  simp only [Apart, Classical.not_forall, Classical.not_imp, Classical.not_not] at h
  obtain ⟨a, t, b, he, p, hp, hq⟩ := h
  exact ⟨a, t, b, p, he, hp, hq⟩

/-- The chain right after the `Run`, and that it is kept. -/
theorem chain_kept (before after : List Op) (s : StackId) (hs : .run s ∉ after) (hap : Apart before s after) :
    let w := W.new.steps before
    (W.new.steps (before ++ .run s :: after)).decks s = some w.next ∧ ∀ x, Own w.next (listed s before) x →
      (W.new.steps (before ++ .run s :: after)).links.lowerOf x = (w.run s).links.lowerOf x ∧
      (W.new.steps (before ++ .run s :: after)).links.upperOf x = (w.run s).links.upperOf x ∧
      (W.new.steps (before ++ .run s :: after)).home x = some s := by
  intro w
  have hpr : w.procs s = listed s before := by show (W.new.steps before).procs s = _; rw [procs_steps]; rfl
  have hw : W.new.steps (before ++ .run s :: after) = (w.run s).steps after := by rw [steps_append]; rfl
  obtain ⟨h1, h2⟩ := kept s w.next (listed s before) after (w.run s) hs (by simp only [W.run]; omega) (by
    intro a t b he p hp
    have := hap a t b he p hp
    rw [listed_append] at this
    have hpt : (w.run s).procs t = listed t before := by show (W.new.steps before).procs t = _; rw [procs_steps]; rfl
    rw [hpt]
    exact this)
  rw [hw]
  refine ⟨h1.trans (by simp [W.run]), fun x hx => ?_⟩
  obtain ⟨g1, g2, g3⟩ := h2 x hx
  refine ⟨g1, g2, g3.trans ?_⟩
  simp only [W.run, hpr]
  exact if_pos hx

theorem decks_kept (before after : List Op) (s : StackId) (hs : .run s ∉ after) :
    (W.new.steps (before ++ .run s :: after)).decks s = some (W.new.steps before).next := by
  have gen : ∀ (ops : List Op) (w : W), .run s ∉ ops → (w.steps ops).decks s = w.decks s := by
    intro ops
    induction ops with
    | nil => intros; rfl
    | cons op ops ih =>
      intro w h
      rw [steps_cons, ih _ fun hm => h (List.mem_cons_of_mem _ hm)]
      cases op with
      | append t p => rfl
      | run t =>
        have : s ≠ t := fun he => h (by rw [he]; simp)
        simp [W.step, W.run, this]
  rw [steps_append, steps_cons, gen after _ hs]
  simp [W.step, W.run]

theorem nodup_of_reverse {l : List ProcId} (h : l.reverse.Nodup) : l.Nodup := by
  rw [List.Nodup, List.pairwise_reverse] at h
  exact h.imp Ne.symm

/-- C107, exactly.  After any history of any number of stacks: the way down from the UpperDeck of a stack leads over the processors it had at its
last `Run`, in order, to its own LowerDeck, iff they are distinct and no stack run later has one of them; the same for the way up; and they all
belong to this stack iff no stack run later has one of them. -/
theorem c107_iff (before after : List Op) (s : StackId) (hs : .run s ∉ after) :
    let w := W.new.steps (before ++ .run s :: after)
    ∃ d, w.decks s = some d ∧ w.home (.upper d) = some s ∧ w.home (.lower d) = some s ∧
      (Way w.links.lowerOf (.upper d) ((listed s before).map .proc ++ [.lower d]) ↔ (listed s before).Nodup ∧ Apart before s after) ∧
      (Way w.links.upperOf (.lower d) ((listed s before).reverse.map .proc ++ [.upper d]) ↔ (listed s before).Nodup ∧ Apart before s after) ∧
      ((∀ p ∈ listed s before, w.home (.proc p) = some s) ↔ Apart before s after) := by
  intro w
  have hpr : (W.new.steps before).procs s = listed s before := by rw [procs_steps]; rfl
  have hf := fresh_new.steps before
  have hown : w.home (.upper (W.new.steps before).next) = some s ∧ w.home (.lower (W.new.steps before).next) = some s := by
    have gen := kept s (W.new.steps before).next [] after ((W.new.steps before).run s) hs (by simp only [W.run]; omega) (by simp)
    have hw : w = ((W.new.steps before).run s).steps after := by show W.new.steps _ = _; rw [steps_append]; rfl
    rw [hw]
    exact ⟨(gen.2 _ (.inl rfl)).2.2.trans (by simp [W.run]), (gen.2 _ (.inr (.inl rfl))).2.2.trans (by simp [W.run])⟩
  have hstray : ¬ Apart before s after → ∃ B p, Astray s w B ∧ p ∈ listed s before ∧ B (.proc p) := by
    intro h
    obtain ⟨a, t, b, p, he, hp, hq⟩ := not_apart h
    obtain ⟨B, h1, h2⟩ := shared_astray before after s hs p a t b he hq
    exact ⟨B, p, h1, hp, h2⟩
  have hnod : ∀ {l : List ProcId} {x : Elem}, (l.map Elem.proc ++ [x]).Nodup → l.Nodup := by
    intro l x h
    have h := (List.nodup_append.mp h).1
    rw [List.Nodup, List.pairwise_map] at h
    exact h.imp fun hne he => hne (by rw [he])
  refine ⟨(W.new.steps before).next, decks_kept before after s hs, hown.1, hown.2, ⟨fun h => ?_, fun h => ?_⟩, ⟨fun h => ?_, fun h => ?_⟩,
    fun h => ?_, fun h p hp => ?_⟩
  · refine ⟨hnod (List.nodup_cons.mp h.nodup).2, Classical.byContradiction fun hap => ?_⟩
    obtain ⟨B, p, h1, hp, h2⟩ := hstray hap
    obtain ⟨u, v, he⟩ := List.append_of_mem hp
    rw [he, List.map_append, List.map_cons, List.append_assoc, List.cons_append] at h
    have hB := (h.after).inside h1.down h2 (.lower (W.new.steps before).next) (by simp)
    obtain ⟨_, t, ht, h3, _⟩ := h1.deck _ (.inl hB)
    rw [hown.2] at h3
    injection h3 with h3
    exact ht h3.symm
  · obtain ⟨_, hk⟩ := chain_kept before after s hs h.2
    have hc := chain_down (.lower (W.new.steps before).next) (listed s before) (.upper (W.new.steps before).next) (W.new.steps before).links
      (by simp) (by simp) (by simp) h.1 (hf.bottom _)
    refine hc.congr fun x hx => ?_
    rw [(hk x (by rcases List.mem_cons.mp hx with rfl | hx
                  · exact .inl rfl
                  · rcases List.mem_append.mp hx with hx | hx
                    · exact .inr (.inr hx)
                    · exact .inr (.inl (List.mem_singleton.mp hx)))).1]
    simp only [W.run, hpr]
  · refine ⟨nodup_of_reverse (hnod (List.nodup_cons.mp h.nodup).2), Classical.byContradiction fun hap => ?_⟩
    obtain ⟨B, p, h1, hp, h2⟩ := hstray hap
    obtain ⟨u, v, he⟩ := List.append_of_mem (List.mem_reverse.mpr hp)
    rw [he, List.map_append, List.map_cons, List.append_assoc, List.cons_append] at h
    have hB := (h.after).inside h1.up h2 (.upper (W.new.steps before).next) (by simp)
    obtain ⟨_, t, ht, _, h3⟩ := h1.deck _ (.inr hB)
    rw [hown.1] at h3
    injection h3 with h3
    exact ht h3.symm
  · obtain ⟨_, hk⟩ := chain_kept before after s hs h.2
    have hc := chain_up (.lower (W.new.steps before).next) (listed s before) (.upper (W.new.steps before).next) (W.new.steps before).links
      (by simp) (by simp) (by simp) h.1 [] (by simp) (hf.top _)
    rw [← List.map_reverse] at hc
    refine hc.congr fun x hx => ?_
    rw [(hk x (by rcases List.mem_cons.mp hx with rfl | hx
                  · exact .inr (.inl rfl)
                  · rcases List.mem_append.mp hx with hx | hx
                    · exact .inr (.inr (by simpa using hx))
                    · exact .inl (List.mem_singleton.mp hx))).2.1]
    simp only [W.run, hpr]
  · refine Classical.byContradiction fun hap => ?_
    obtain ⟨B, p, h1, hp, h2⟩ := hstray hap
    obtain ⟨t, ht, h3⟩ := h1.home p h2
    rw [h p hp] at h3
    injection h3 with h3
    exact ht h3.symm
  · exact ((chain_kept before after s hs h).2 _ (.inr (.inr (mem_proc.mpr hp)))).2.2

/-- C107, part: stacks whose processors are all distinct, also from those of the other stacks. -/
theorem c107_separate_partial (before after : List Op) (s : StackId) (hs : .run s ∉ after) (hn : (listed s before).Nodup)
    (hdis : ∀ t, t ≠ s → ∀ p ∈ listed s before, p ∉ listed t (before ++ after)) :
    let w := W.new.steps (before ++ .run s :: after)
    ∃ d, w.decks s = some d ∧ Way w.links.lowerOf (.upper d) ((listed s before).map .proc ++ [.lower d]) ∧
      Way w.links.upperOf (.lower d) ((listed s before).reverse.map .proc ++ [.upper d]) ∧
      ∀ p ∈ listed s before, w.home (.proc p) = some s := by
  have hap : Apart before s after := by
    intro a t b he p hp hm
    have ht : t ≠ s := fun h => hs (by rw [he, h]; simp)
    refine hdis t ht p hp ?_
    rw [listed_append] at hm ⊢
    rw [he, listed_append]
    rcases List.mem_append.mp hm with hm | hm
    · exact List.mem_append_left _ hm
    · exact List.mem_append_right _ (List.mem_append_left _ hm)
  obtain ⟨d, h1, _, _, h2, h3, h4⟩ := c107_iff before after s hs
  exact ⟨d, h1, h2.mpr ⟨hn, hap⟩, h3.mpr ⟨hn, hap⟩, h4.mpr hap⟩

/-- Along the links of any history the way down comes to a LowerDeck. -/
def Ends (w : W) : Prop := ∀ x, w.links.lowerOf x ≠ none →
  ∃ l d, Way w.links.lowerOf x (l ++ [.lower d]) ∧ d < w.next ∧ ∃ t, w.home (.lower d) = some t

theorem Ends.run {w : W} (h : Ends w) (hf : Fresh w) (s : StackId) : Ends (w.run s) := by
  have hin : ∀ x, x = .upper w.next ∨ x ∈ (w.procs s).map Elem.proc → ∃ l d, Way (w.run s).links.lowerOf x (l ++ [.lower d]) ∧
      d < (w.run s).next ∧ ∃ t, (w.run s).home (.lower d) = some t := by
    intro x hx
    obtain ⟨l, hl⟩ := chain_ends (.lower w.next) (w.procs s) (.upper w.next) w.links (by simp) (by simp) (hf.bottom _) x hx
    exact ⟨l, w.next, hl, by simp [W.run], s, by simp [W.run]⟩
  have gen : ∀ (l : List Elem) (x : Elem) (d : DeckId), Way w.links.lowerOf x (l ++ [.lower d]) → d < w.next → (∃ t, w.home (.lower d) = some t) →
      ∃ l' d', Way (w.run s).links.lowerOf x (l' ++ [.lower d']) ∧ d' < (w.run s).next ∧ ∃ t, (w.run s).home (.lower d') = some t := by
    intro l
    induction l with
    | nil =>
      intro x d hx hd ht
      by_cases hx' : x = .upper w.next ∨ x ∈ (w.procs s).map Elem.proc
      · exact hin x hx'
      · rw [not_or] at hx'
        obtain ⟨t, ht⟩ := ht
        have hne : d ≠ w.next := by omega
        refine ⟨[], d, ⟨?_, ((hf.step (.run s)).bottom d)⟩, by simp only [W.run]; omega, t, by simp [W.run, hne, ht]⟩
        exact (chain_lower_other _ _ _ _ _ hx'.1 hx'.2).trans hx.1
    | cons y l ih =>
      intro x d hx hd ht
      by_cases hx' : x = .upper w.next ∨ x ∈ (w.procs s).map Elem.proc
      · exact hin x hx'
      · rw [not_or] at hx'
        obtain ⟨l', d', hl, hr⟩ := ih y d hx.2 hd ht
        exact ⟨y :: l', d', ⟨(chain_lower_other _ _ _ _ _ hx'.1 hx'.2).trans hx.1, hl⟩, hr⟩
  intro x hx
  by_cases hx' : x = .upper w.next ∨ x ∈ (w.procs s).map Elem.proc
  · exact hin x hx'
  · rw [not_or] at hx'
    have hl : (w.run s).links.lowerOf x = w.links.lowerOf x := chain_lower_other _ _ _ _ _ hx'.1 hx'.2
    rw [hl] at hx
    obtain ⟨l, d, hw, hd, ht⟩ := h x hx
    exact gen l x d hw hd ht

theorem Ends.steps {w : W} (h : Ends w) (hf : Fresh w) (ops : List Op) : Ends (w.steps ops) := by
  induction ops generalizing w with
  | nil => exact h
  | cons op ops ih =>
    cases op with
    | append s p => exact ih (w := w.append s p) h (hf.step (.append s p))
    | run s => exact ih (h.run hf s) (hf.step (.run s))

theorem ends_new : Ends W.new := fun x hx => absurd rfl hx

/-- What later `Run`s of other stacks wrote is astray, the rest is as it was. -/
theorem later (s : StackId) (ops : List Op) (w : W) (A : Elem → Prop) (h : Astray s w A) (hf : Fresh w) (hs : .run s ∉ ops) :
    ∃ B, Astray s (w.steps ops) B ∧ (∀ x, A x → B x) ∧ (∀ x, ¬ B x → (w.steps ops).links.lowerOf x = w.links.lowerOf x) ∧
      ∀ a t b, ops = a ++ .run t :: b → ∀ p ∈ w.procs t ++ listed t a, B (.proc p) := by
  induction ops generalizing w A with
  | nil => exact ⟨A, h, fun _ h => h, fun _ _ => rfl, by simp⟩
  | cons op ops ih =>
    have hs' : .run s ∉ ops := fun h => hs (List.mem_cons_of_mem _ h)
    cases op with
    | append t p =>
      obtain ⟨B, h1, h2, h3, h4⟩ := ih (w.append t p) A ⟨h.down, h.up, h.deck, h.home⟩ (hf.step (.append t p)) hs'
      refine ⟨B, h1, h2, h3, fun a u b he q hq => ?_⟩
      cases a with
      | nil => simp at he
      | cons o a =>
        rw [List.cons_append] at he
        injection he with he1 he2
        subst he1
        refine h4 a u b he2 q ?_
        simp only [W.append, listed] at hq ⊢
        by_cases hu : u = t
        · subst hu; simpa using hq
        · simpa [hu, Ne.symm hu] using hq
    | run t =>
      have ht : t ≠ s := fun h => hs (by rw [h]; simp)
      obtain ⟨B, h1, h2, h3, h4⟩ := ih (w.run t) _ (h.run ht hf) (hf.step (.run t)) hs'
      refine ⟨B, h1, fun x hx => h2 x (.inl hx), fun x hx => ?_, fun a u b he q hq => ?_⟩
      · have hno : ¬ Own w.next (w.procs t) x := fun ho => hx (h2 x (.inr ho))
        simp only [Own, not_or] at hno
        exact (h3 x hx).trans (chain_lower_other _ _ _ _ _ hno.1 hno.2.2)
      · cases a with
        | nil =>
          injection he with he1 he2
          injection he1 with he1
          subst he1
          exact h2 _ (.inr (.inr (.inr (mem_proc.mpr (by simpa [listed] using hq)))))
        | cons o a =>
          rw [List.cons_append] at he
          injection he with he1 he2
          subst he1
          exact h4 a u b he2 q hq

/-- A way whose elements are astray or linked as before, one of them astray, ends astray. -/
theorem ends_astray {next next' : Elem → Option Elem} {B : Elem → Prop} (hB : ∀ x y, B x → next' x = some y → B y)
    (hk : ∀ x, ¬ B x → next' x = next x) (c : List Elem) (x : Elem) (hc : Way next x c) (hx : ∃ y ∈ x :: c, B y) (l : List Elem) (e : Elem)
    (hl : Way next' x (l ++ [e])) : B e := by
  induction c generalizing x l with
  | nil =>
    obtain ⟨y, hy, hy'⟩ := hx
    rw [List.mem_singleton] at hy
    subst hy
    exact hl.inside hB hy' e (by simp)
  | cons z c ih =>
    by_cases hbx : B x
    · exact hl.inside hB hbx e (by simp)
    · have hnx := (hk x hbx).trans hc.1
      have hy : ∃ y ∈ z :: c, B y := by
        obtain ⟨y, hy, hy'⟩ := hx
        rcases List.mem_cons.mp hy with rfl | hy
        · exact absurd hy' hbx
        · exact ⟨y, hy, hy'⟩
      cases l with
      | nil =>
        have hez : e = z := by have := hl.1.symm.trans hnx; injection this
        subst hez
        obtain ⟨y, hy, hy'⟩ := hy
        by_cases hbe : B e
        · exact hbe
        · have hnil : next e = none := (hk e hbe).symm.trans hl.2
          cases c with
          | nil => rw [List.mem_singleton] at hy; subst hy; exact hy'
          | cons z' c => have := hc.2.1; rw [hnil] at this; cases this
      | cons z' l =>
        have hzz : z' = z := by have := hl.1.symm.trans hnx; injection this
        subst hzz
        exact ih z' hc.2 hy l hl.2

/-- C107, going down: whatever was appended to whatever, also repeatedly, the way down from the UpperDeck of a stack comes to an end, at the
LowerDeck of one of the stacks: of this stack, if no stack run later has one of its processors, and of another one, if the processors are
distinct and a stack run later has one of them. -/
theorem c107_down_ends (before after : List Op) (s : StackId) (hs : .run s ∉ after) :
    let w := W.new.steps (before ++ .run s :: after)
    ∃ d l d' t, w.decks s = some d ∧ Way w.links.lowerOf (.upper d) (l ++ [.lower d']) ∧ w.home (.lower d') = some t ∧
      (Apart before s after → t = s ∧ d' = d) ∧ ((listed s before).Nodup → ¬ Apart before s after → t ≠ s) := by
  intro w
  have hpr : (W.new.steps before).procs s = listed s before := by rw [procs_steps]; rfl
  have hf := fresh_new.steps before
  have hw : w = ((W.new.steps before).run s).steps after := by show W.new.steps _ = _; rw [steps_append]; rfl
  by_cases hap : Apart before s after
  · obtain ⟨h1, hk⟩ := chain_kept before after s hs hap
    obtain ⟨l, hl⟩ := chain_ends (.lower (W.new.steps before).next) (listed s before) (.upper (W.new.steps before).next)
      (W.new.steps before).links (by simp) (by simp) (hf.bottom _) _ (.inl rfl)
    have hin := hl.inside (A := Own (W.new.steps before).next (listed s before)) (by
      intro x y hx hy
      rcases hx with hx | rfl | hx
      · obtain ⟨z, g1, g2⟩ := chain_lower_in (.lower (W.new.steps before).next) x (listed s before) (.upper (W.new.steps before).next)
          (W.new.steps before).links (.inl hx)
        rw [g1] at hy; injection hy with hy; subst hy; exact .inr g2
      · rw [chain_lower_other _ _ _ _ _ (by simp) (by simp), hf.bottom] at hy; cases hy
      · obtain ⟨z, g1, g2⟩ := chain_lower_in (.lower (W.new.steps before).next) x (listed s before) (.upper (W.new.steps before).next)
          (W.new.steps before).links (.inr hx)
        rw [g1] at hy; injection hy with hy; subst hy; exact .inr g2) (.inl rfl)
    refine ⟨_, l, _, s, h1, hl.congr fun x hx => ?_, (hk _ (.inr (.inl rfl))).2.2, fun _ => ⟨rfl, rfl⟩, fun _ h => absurd hap h⟩
    rw [(hk x (by rcases List.mem_cons.mp hx with rfl | hx
                  · exact .inl rfl
                  · exact hin x hx)).1]
    simp only [W.run, hpr]
  · have hne : w.links.lowerOf (.upper (W.new.steps before).next) ≠ none := by
      have gen := kept s (W.new.steps before).next [] after ((W.new.steps before).run s) hs (by simp only [W.run]; omega) (by simp)
      rw [hw, (gen.2 _ (.inl rfl)).1]
      obtain ⟨z, g1, _⟩ := chain_lower_in (.lower (W.new.steps before).next) _ ((W.new.steps before).procs s) (.upper (W.new.steps before).next)
          (W.new.steps before).links (.inl rfl)
      simp only [W.run]
      rw [g1]; simp
    obtain ⟨l, d', h1, h2, t, h3⟩ := (ends_new.steps fresh_new (before ++ .run s :: after)) _ hne
    refine ⟨_, l, d', t, decks_kept before after s hs, h1, h3, fun h => absurd h hap, fun hn _ => ?_⟩
    obtain ⟨B, b1, _, b2, b3⟩ := later s after ((W.new.steps before).run s) _ (nothing_astray s _) (hf.step (.run s)) hs
    obtain ⟨a, u, b, p, he, hp, hq⟩ := not_apart hap
    have hbp : B (.proc p) := by
      refine b3 a u b he p ?_
      rw [listed_append] at hq
      have hpu : ((W.new.steps before).run s).procs u = listed u before := by
        show (W.new.steps before).procs u = _; rw [procs_steps]; rfl
      rw [hpu]
      exact hq
    have hc := chain_down (.lower (W.new.steps before).next) (listed s before) (.upper (W.new.steps before).next) (W.new.steps before).links
      (by simp) (by simp) (by simp) hn (hf.bottom _)
    rw [← hw] at b1 b2
    have hB := ends_astray b1.down (fun x hx => (b2 x hx).trans (by simp only [W.run, hpr])) _ _ hc
      ⟨.proc p, List.mem_cons_of_mem _ (List.mem_append_left _ (mem_proc.mpr hp)), hbp⟩ l _ h1
    obtain ⟨_, t', ht', h4, _⟩ := b1.deck d' (.inl hB)
    rw [h3] at h4
    injection h4 with h4
    exact h4 ▸ ht'

/-- C107, going up: if no stack run later has one of the processors, the way up from the LowerDeck of a stack comes to an end iff its processors
are distinct. -/
theorem c107_up_ends_iff (before after : List Op) (s : StackId) (hs : .run s ∉ after) (hap : Apart before s after) :
    let w := W.new.steps (before ++ .run s :: after)
    ∃ d, w.decks s = some d ∧ ((∃ l, Way w.links.upperOf (.lower d) l) ↔ (listed s before).Nodup) := by
  intro w
  have hpr : (W.new.steps before).procs s = listed s before := by rw [procs_steps]; rfl
  obtain ⟨h1, hk⟩ := chain_kept before after s hs hap
  refine ⟨_, h1, fun ⟨l, hl⟩ => Classical.byContradiction fun hn => ?_, fun hn => ?_⟩
  · refine chain_loops (.lower (W.new.steps before).next) (listed s before) (.upper (W.new.steps before).next) (W.new.steps before).links w.links
      hn (fun x hx => ?_) l hl
    rw [(hk x (.inr hx)).2.1]
    simp only [W.run, hpr]
  · obtain ⟨d, h2, _, _, _, h3, _⟩ := c107_iff before after s hs
    have hd : d = (W.new.steps before).next := by
      have h1' := h1.symm.trans h2
      injection h1' with h1'
      exact h1'.symm
    exact ⟨_, hd ▸ h3.mpr ⟨hn, hap⟩⟩

/-- C107 fails.  A codec (processor 5) appended to two stacks: what stack 0 sends leaves through the LowerDeck of stack 1, what it receives is
handed to the UpperDeck of stack 1, its own UpperDeck is never reached.  A processor appended twice to a stack: received messages go round for
ever. -/
theorem c107_violated :
    (let w := W.new.steps [.append 0 5, .append 0 6, .append 1 5, .run 0, .run 1]
     w.decks 0 = some 0 ∧ Way w.links.lowerOf (.upper 0) [.proc 5, .lower 1] ∧
     Way w.links.upperOf (.lower 0) [.proc 6, .proc 5, .upper 1] ∧ w.home (.proc 5) = some 1 ∧ w.home (.proc 6) = some 0) ∧
    (let w := W.new.steps [.append 0 5, .append 0 6, .append 0 5, .run 0]
     w.decks 0 = some 0 ∧ Way w.links.lowerOf (.upper 0) [.proc 5, .lower 0] ∧ ¬ ∃ l, Way w.links.upperOf (.lower 0) l) := by
  refine ⟨⟨rfl, ⟨rfl, rfl, rfl⟩, ⟨rfl, rfl, rfl, rfl⟩, rfl, rfl⟩, rfl, ⟨rfl, rfl, rfl⟩, ?_⟩
  intro h
  obtain ⟨d, h1, h2⟩ := c107_up_ends_iff [.append 0 5, .append 0 6, .append 0 5] [] 0 (by simp) (by intro a t b he; simp at he)
  have hd : (0 : Nat) = d := by injection h1
  subst hd
  exact absurd (h2.mp h) (by decide)

/-- Two stacks, one run again while the other runs; nothing shared. -/
example : let before : List Op := [.append 0 5, .append 1 7, .run 0, .append 0 6, .run 1]
    let after : List Op := [.append 1 8, .run 1, .append 0 9]
    .run 0 ∉ after ∧ (listed 0 before).Nodup ∧ Apart before 0 after ∧
    Way (W.new.steps (before ++ .run 0 :: after)).links.lowerOf (.upper 2) [.proc 5, .proc 6, .lower 2] ∧
    Way (W.new.steps (before ++ .run 0 :: after)).links.upperOf (.lower 2) [.proc 6, .proc 5, .upper 2] := by
  refine ⟨by decide, by decide, ?_, ⟨rfl, rfl, rfl, rfl⟩, ⟨rfl, rfl, rfl, rfl⟩⟩
  intro a t b he
  rcases a with _ | ⟨o, _ | ⟨o2, _ | ⟨o3, a⟩⟩⟩
  · simp at he
  · simp only [List.cons_append, List.nil_append, List.cons.injEq, Op.run.injEq] at he
    obtain ⟨rfl, rfl, _⟩ := he
    simp [listed]
  · simp at he
  · simp at he

end Verif.Reg.Several
