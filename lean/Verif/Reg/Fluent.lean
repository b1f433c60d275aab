import Verif.Reg.Options

/-!
# Chained setters (C69)

`NewProcBaseInstance` (proc_base.go:22-33) and `NewFeatBaseInstance` (feat_base.go:15-24) set `base.where = &base` and return `base` by value:
the caller gets a copy whose `where` is the address of the local variable, not of the copy.  `SetName`, `SetOption`, `SetEnable`,
`ForServer` (proc_base.go:48-51, 66-69, 81-90; feat_base.go:33-47) return `base.where`.  The constructors of the processors (for example
proc_echo.go:15-20) call `SetWhere` (proc_base.go:42-45) with the new processor; `NewProcBase` (36-39) and `NewFeatBase` (feat_base.go:27-30)
do not, and a feature has no `SetWhere`.

Simplifications: a processor and the `ProcBase` embedded in it are one object; `SetUStack`, `SetUpper`, `SetLower`, which `build` calls
without using the result, are left out.
-/

namespace Verif.Reg.Fluent

open Verif.Reg.Options

structure Obj where
  name : String
  enable : Bool
  forServer : Bool
  /-- the address `where` points to -/
  self : Nat
  /-- which option map (a Go map is a reference: copies of the object share it) -/
  opts : Nat
  deriving Repr, DecidableEq

structure Heap where
  objs : List Obj
  maps : List Map
  deriving Repr

/-- proc_base.go:22-33, feat_base.go:15-24: the local variable escapes to the heap; the result is a copy of it. -/
def newInstance (h : Heap) (name : String) : Heap × Obj :=
  let base : Obj := ⟨name, true, true, h.objs.length, h.maps.length⟩
  (⟨h.objs ++ [base], h.maps ++ [[]]⟩, base)

/-- proc_base.go:36-39, feat_base.go:27-30: the address of the copy. -/
def newBase (h : Heap) (name : String) : Heap × Nat :=
  let (h, base) := newInstance h name
  (⟨h.objs ++ [base], h.maps⟩, h.objs.length)

/-- A processor's constructor, for example proc_echo.go:15-20. -/
def newProcessor (h : Heap) (name : String) : Heap × Nat :=
  let (h, base) := newInstance h name
  (⟨h.objs ++ [{ base with self := h.objs.length }], h.maps⟩, h.objs.length)

inductive Setter where
  | name (s : String)
  | enable (b : Bool)
  | forServer (b : Bool)
  | option (k : String) (v : Any)
  deriving Repr, DecidableEq

/-- One setter called on the object at `a`: the new heap and the result. -/
def call (h : Heap) (a : Nat) : Setter → Option (Heap × Nat)
  | .name s => h.objs[a]?.map fun o => (⟨h.objs.set a { o with name := s }, h.maps⟩, o.self)
  | .enable b => h.objs[a]?.map fun o => (⟨h.objs.set a { o with enable := b }, h.maps⟩, o.self)
  | .forServer b => h.objs[a]?.map fun o => (⟨h.objs.set a { o with forServer := b }, h.maps⟩, o.self)
  | .option k v => h.objs[a]?.bind fun o => h.maps[o.opts]?.map fun m => (⟨h.objs, h.maps.set o.opts (setOption m k v)⟩, o.self)

/-- `x.SetA(…).SetB(…)…` -/
def chain (h : Heap) (a : Nat) : List Setter → Option (Heap × Nat)
  | [] => some (h, a)
  | s :: ss => (call h a s).bind fun r => chain r.1 r.2 ss

/-! ## What is wanted -/

/-- What the getters of one object return. -/
structure Settings where
  name : String
  enable : Bool
  forServer : Bool
  option : String → Any

/-- The settings of the object at `a`. -/
def view (h : Heap) (a : Nat) : Option Settings :=
  h.objs[a]?.bind fun o => h.maps[o.opts]?.map fun m => ⟨o.name, o.enable, o.forServer, getOption m⟩

def fresh (name : String) : Settings := ⟨name, true, true, fun _ => .nil⟩

def Settings.apply (s : Settings) : Setter → Settings
  | .name n => { s with name := n }
  | .enable b => { s with enable := b }
  | .forServer b => { s with forServer := b }
  | .option k v => { s with option := fun k' => if k' = k then v else s.option k' }

def Settings.applyAll (s : Settings) (ss : List Setter) : Settings := ss.foldl Settings.apply s

/-! ## Proofs -/

theorem setOption_get (m : Map) (k : String) (v : Any) : getOption (setOption m k v) = fun k' => if k' = k then v else getOption m k' := by
  funext k'
  simp only [getOption, setOption, get_put]
  by_cases h : k = k'
  · subst h; simp
  · simp [h, Ne.symm h]

/-- A heap that ends with the local variable `x` of the constructor and the copy `y`, which share the option map `m`. -/
def two (objs : List Obj) (maps : List Map) (x y : Obj) (m : Map) : Heap := ⟨objs ++ [x, y], maps ++ [m]⟩

/-- What a setter does to the fields of its object. -/
def Obj.upd (o : Obj) : Setter → Obj
  | .name s => { o with name := s }
  | .enable b => { o with enable := b }
  | .forServer b => { o with forServer := b }
  | .option _ _ => o

/-- What a setter does to the option map. -/
def mapUpd (m : Map) : Setter → Map
  | .option k v => setOption m k v
  | _ => m

def Obj.settings (o : Obj) (m : Map) : Settings := ⟨o.name, o.enable, o.forServer, getOption m⟩

theorem settings_upd (o : Obj) (m : Map) (s : Setter) : (o.upd s).settings (mapUpd m s) = (o.settings m).apply s := by
  cases s <;> simp [Obj.upd, Obj.settings, mapUpd, Settings.apply, setOption_get]

@[simp] theorem upd_self (o : Obj) (s : Setter) : (o.upd s).self = o.self := by cases s <;> rfl
@[simp] theorem upd_opts (o : Obj) (s : Setter) : (o.upd s).opts = o.opts := by cases s <;> rfl

theorem get_x (objs : List Obj) (x y : Obj) : (objs ++ [x, y])[objs.length]? = some x := by simp
theorem get_y (objs : List Obj) (x y : Obj) : (objs ++ [x, y])[objs.length + 1]? = some y := by
  rw [List.getElem?_append_right (by omega), show objs.length + 1 - objs.length = 1 by omega]; rfl
theorem set_x (objs : List Obj) (x y z : Obj) : (objs ++ [x, y]).set objs.length z = objs ++ [z, y] := by simp
theorem set_y (objs : List Obj) (x y z : Obj) : (objs ++ [x, y]).set (objs.length + 1) z = objs ++ [x, z] := by
  rw [List.set_append_right _ _ (by omega), show objs.length + 1 - objs.length = 1 by omega]; rfl

theorem call_x (objs : List Obj) (maps : List Map) (x y : Obj) (m : Map) (hx : x.opts = maps.length) (s : Setter) :
    call (two objs maps x y m) objs.length s = some (two objs maps (x.upd s) y (mapUpd m s), x.self) := by
  cases s <;> simp [call, two, Obj.upd, mapUpd, hx]

theorem call_y (objs : List Obj) (maps : List Map) (x y : Obj) (m : Map) (hy : y.opts = maps.length) (s : Setter) :
    call (two objs maps x y m) (objs.length + 1) s = some (two objs maps x (y.upd s) (mapUpd m s), y.self) := by
  cases s <;> simp [call, two, Obj.upd, mapUpd, hy, get_y, set_y]

theorem view_x (objs : List Obj) (maps : List Map) (x y : Obj) (m : Map) (hx : x.opts = maps.length) :
    view (two objs maps x y m) objs.length = some (x.settings m) := by simp [view, two, hx, Obj.settings]

theorem view_y (objs : List Obj) (maps : List Map) (x y : Obj) (m : Map) (hy : y.opts = maps.length) :
    view (two objs maps x y m) (objs.length + 1) = some (y.settings m) := by simp [view, two, hy, get_y, Obj.settings]

/-- Setters whose object returns itself all apply to it. -/
theorem chain_y (objs : List Obj) (maps : List Map) (x : Obj) (ss : List Setter) : ∀ (y : Obj) (m : Map), y.opts = maps.length → y.self = objs.length + 1 →
    chain (two objs maps x y m) (objs.length + 1) ss =
      some (two objs maps x (ss.foldl Obj.upd y) (ss.foldl mapUpd m), objs.length + 1) := by
  induction ss with
  | nil => intro y m _ _; rfl
  | cons s ss ih =>
    intro y m ho hs
    simp only [chain, call_y objs maps x y m ho s, Option.bind_some, hs, List.foldl_cons]
    exact ih _ _ (by simp [ho]) (by simp [hs])

theorem chain_x (objs : List Obj) (maps : List Map) (y : Obj) (ss : List Setter) : ∀ (x : Obj) (m : Map), x.opts = maps.length → x.self = objs.length →
    chain (two objs maps x y m) objs.length ss =
      some (two objs maps (ss.foldl Obj.upd x) y (ss.foldl mapUpd m), objs.length) := by
  induction ss with
  | nil => intro x m _ _; rfl
  | cons s ss ih =>
    intro x m ho hs
    simp only [chain, call_x objs maps x y m ho s, Option.bind_some, hs, List.foldl_cons]
    exact ih _ _ (by simp [ho]) (by simp [hs])

theorem foldl_settings (ss : List Setter) : ∀ (o : Obj) (m : Map), (ss.foldl Obj.upd o).settings (ss.foldl mapUpd m) = (o.settings m).applyAll ss := by
  induction ss with
  | nil => intro o m; rfl
  | cons s ss ih => intro o m; rw [List.foldl_cons, List.foldl_cons, ih, settings_upd]; rfl

theorem foldl_opts (ss : List Setter) : ∀ o : Obj, (ss.foldl Obj.upd o).opts = o.opts := by
  induction ss with
  | nil => intro o; rfl
  | cons s ss ih => intro o; rw [List.foldl_cons, ih]; simp

/-- Only the option setters. -/
def options (ss : List Setter) : List Setter := ss.filter fun | .option _ _ => true | _ => false

theorem foldl_mapUpd (ss : List Setter) : ∀ m : Map, ss.foldl mapUpd m = (options ss).foldl mapUpd m := by
  induction ss with
  | nil => intro m; rfl
  | cons s ss ih =>
    intro m
    cases s <;> simp only [List.foldl_cons, options, List.filter_cons, mapUpd] <;> first | exact ih m | (simp only [if_true, List.foldl_cons, mapUpd]; exact ih _)

theorem foldl_upd_options (ss : List Setter) : ∀ o : Obj, (options ss).foldl Obj.upd o = o := by
  induction ss with
  | nil => intro o; rfl
  | cons s ss ih =>
    intro o
    cases s <;> simp only [options, List.filter_cons] <;> first | exact ih o | (simp only [if_true, List.foldl_cons, Obj.upd]; exact ih _)

theorem settings_options (o : Obj) (m : Map) (ss : List Setter) : o.settings (ss.foldl mapUpd m) = (o.settings m).applyAll (options ss) := by
  rw [← foldl_settings, foldl_upd_options, ← foldl_mapUpd]

/-- C69 for processors: a chain of setters on a new processor returns that processor, and all the settings, in order, are its settings. -/
theorem c69_processor_partial (h : Heap) (name : String) (ss : List Setter) :
    ∃ h', chain (newProcessor h name).1 (newProcessor h name).2 ss = some (h', (newProcessor h name).2) ∧
      view h' (newProcessor h name).2 = some ((fresh name).applyAll ss) := by
  have h1 : newProcessor h name = (two h.objs h.maps ⟨name, true, true, h.objs.length, h.maps.length⟩ ⟨name, true, true, h.objs.length + 1, h.maps.length⟩ [], h.objs.length + 1) := by
    simp [newProcessor, newInstance, two]
  rw [h1]
  refine ⟨_, chain_y _ _ _ ss _ _ rfl rfl, ?_⟩
  simp only
  rw [view_y _ _ _ _ _ (by rw [foldl_opts]), foldl_settings]
  rfl

/-- C69 for `NewFeatBase` and `NewProcBase`, exactly: after a chain of at least one setter the caller holds another object than the one
created.  The created one has the first setting and the options; the other one has all settings but the first (options included). -/
theorem c69_base_violated (h : Heap) (name : String) (s : Setter) (ss : List Setter) :
    ∃ h' hidden, chain (newBase h name).1 (newBase h name).2 (s :: ss) = some (h', hidden) ∧ hidden ≠ (newBase h name).2 ∧
      view h' (newBase h name).2 = some ((fresh name).applyAll (s :: options ss)) ∧
      view h' hidden = some ((fresh name).applyAll (options [s] ++ ss)) := by
  have h1 : newBase h name = (two h.objs h.maps ⟨name, true, true, h.objs.length, h.maps.length⟩ ⟨name, true, true, h.objs.length, h.maps.length⟩ [], h.objs.length + 1) := by
    simp [newBase, newInstance, two]
  rw [h1]
  refine ⟨two h.objs h.maps (ss.foldl Obj.upd ⟨name, true, true, h.objs.length, h.maps.length⟩) (Obj.upd ⟨name, true, true, h.objs.length, h.maps.length⟩ s)
      (ss.foldl mapUpd (mapUpd [] s)), h.objs.length, ?_, by simp, ?_, ?_⟩
  · simp only [chain]
    rw [call_y _ _ _ _ _ rfl, Option.bind_some]
    exact chain_x _ _ _ ss _ _ rfl rfl
  · rw [view_y _ _ _ _ _ (by simp), settings_options, settings_upd]
    rfl
  · rw [view_x _ _ _ _ _ (by rw [foldl_opts]), foldl_settings]
    have : Obj.settings ⟨name, true, true, h.objs.length, h.maps.length⟩ (mapUpd [] s) = (fresh name).applyAll (options [s]) := by
      exact settings_options _ [] [s]
    rw [this, Settings.applyAll, Settings.applyAll, Settings.applyAll, List.foldl_append]

/-- C69 for `NewFeatBase` and `NewProcBase`: a chain configures the object it starts from and returns it iff it is empty. -/
theorem c69_base_exact (h : Heap) (name : String) (ss : List Setter) :
    (∃ h', chain (newBase h name).1 (newBase h name).2 ss = some (h', (newBase h name).2) ∧
      view h' (newBase h name).2 = some ((fresh name).applyAll ss)) ↔ ss = [] := by
  constructor
  · rintro ⟨h', h1, _⟩
    cases ss with
    | nil => rfl
    | cons s ss =>
      obtain ⟨h2, hidden, h3, h4, _⟩ := c69_base_violated h name s ss
      rw [h1] at h3
      injection h3 with h3
      injection h3 with _ h3
      exact absurd h3.symm h4
  · rintro rfl
    have h1 : newBase h name = (two h.objs h.maps ⟨name, true, true, h.objs.length, h.maps.length⟩ ⟨name, true, true, h.objs.length, h.maps.length⟩ [], h.objs.length + 1) := by
      simp [newBase, newInstance, two]
    rw [h1]
    refine ⟨_, rfl, ?_⟩
    rw [view_y _ _ _ _ _ rfl]
    rfl

/-- `GetFeature` (ustack_default.go:180-187): the first feature of that name. -/
def getFeature (h : Heap) (features : List Nat) (name : String) : Option Nat := features.find? fun a => h.objs[a]?.map (·.name) = some name

/-- C69 does not hold: `u.AddFeature(NewFeatBase().SetName(n))` adds a feature that `u.GetFeature(n)` does not find. -/
theorem c69_feature_violated (h : Heap) (n : String) (hn : n ≠ "FeatBase") :
    ∃ h' a, chain (newBase h "FeatBase").1 (newBase h "FeatBase").2 [.name n] = some (h', a) ∧ getFeature h' [a] n = none ∧ getFeature h' [a] "FeatBase" = some a := by
  have h1 : newBase h "FeatBase" = (two h.objs h.maps ⟨"FeatBase", true, true, h.objs.length, h.maps.length⟩ ⟨"FeatBase", true, true, h.objs.length, h.maps.length⟩ [], h.objs.length + 1) := by
    simp [newBase, newInstance, two]
  rw [h1]
  refine ⟨_, _, by simp only [chain]; rw [call_y _ _ _ _ _ rfl, Option.bind_some], ?_, ?_⟩
  · simp [getFeature, two, Ne.symm hn]
  · simp [getFeature, two]

example : ∃ h' , chain (newProcessor ⟨[], []⟩ "Echo").1 1 [.enable false, .name "e", .option "k" (.int 3), .name "f"] = some (h', 1) ∧
    (h'.objs.map (·.name) = ["Echo", "f"]) ∧ h'.maps = [[("k", .int 3)]] := ⟨_, rfl, rfl, rfl⟩

end Verif.Reg.Fluent
