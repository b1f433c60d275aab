/-!
# Options and endpoint data (C47, C58)

`SetOption`/`GetOption` (the same code in ustack_default.go:43-54, 160-171, proc_base.go:66-78, feat_base.go:44-55, tran_tcp.go:221-232,
tran_unix.go:229-240, tran_reference.go:196-207), the option parsers (utils.go:7-45), what `Run` does with the options, and
`DefaultEndPointData` (endp_default.go:8-69).
-/

namespace Verif.Reg.Options

/-- A value of type `interface{}`: nil, or a value with its dynamic type.  `other` stands for every other type (named types like
`time.Duration` are types of their own). -/
inductive Any where
  | nil
  | int (v : Int)
  | byte (v : UInt8)
  | bool (v : Bool)
  | bytes (v : List UInt8)
  | other (type : String) (v : Nat)
  deriving Repr, DecidableEq

/-- A Go map from names: pairs with different names. -/
abbrev Map := List (String × Any)

/-- `m[name] = value` -/
def Map.put (m : Map) (name : String) (value : Any) : Map :=
  match m with
  | [] => [(name, value)]
  | (k, v) :: m => if k = name then (k, value) :: m else (k, v) :: Map.put m name value

/-- `value, ok := m[name]` -/
def Map.get (m : Map) (name : String) : Option Any :=
  match m with
  | [] => none
  | (k, v) :: m => if k = name then some v else Map.get m name

/-- `SetOption` -/
def setOption (m : Map) (name : String) (value : Any) : Map := m.put name value

/-- `GetOption` -/
def getOption (m : Map) (name : String) : Any :=
  match m.get name with
  | some v => v
  | none => .nil

/-- `OptionParseByte` (utils.go:7-15): the value and `exits`. -/
def parseByte (o : Any) (dflt : UInt8) : UInt8 × Bool :=
  match o with
  | .nil => (dflt, false)
  | o => match o with
    | .byte v => (v, true)
    | _ => (dflt, false)

/-- `OptionParseInt` (utils.go:17-25) -/
def parseInt (o : Any) (dflt : Int) : Int × Bool :=
  match o with
  | .nil => (dflt, false)
  | o => match o with
    | .int v => (v, true)
    | _ => (dflt, false)

/-- `OptionParseBool` (utils.go:27-35) -/
def parseBool (o : Any) (dflt : Bool) : Bool × Bool :=
  match o with
  | .nil => (dflt, false)
  | o => match o with
    | .bool v => (v, true)
    | _ => (dflt, false)

/-- `OptionParseByteSlice` (utils.go:37-45); the empty list also stands for the nil slice. -/
def parseBytes (o : Any) : List UInt8 × Bool :=
  match o with
  | .nil => ([], false)
  | o => match o with
    | .bytes v => (v, true)
    | _ => ([], false)

/-! ## C47 -/

/-- Specification: the value of the last entry for the name. -/
def lastSet (h : List (String × Any)) (name : String) : Option Any := (h.reverse.find? fun p => p.1 = name).map Prod.snd

def setAll (m : Map) (h : List (String × Any)) : Map := h.foldl (fun m p => setOption m p.1 p.2) m

theorem get_put (m : Map) (a b : String) (v : Any) : (m.put a v).get b = if a = b then some v else m.get b := by
  induction m with
  | nil => simp [Map.put, Map.get]
  | cons p m ih =>
    obtain ⟨k, w⟩ := p
    by_cases hka : k = a
    · subst hka
      simp only [Map.put, ↓reduceIte, Map.get]
      split <;> rfl
    · simp only [Map.put, if_neg hka, Map.get]
      by_cases hkb : k = b
      · subst hkb
        rw [if_pos rfl, if_pos rfl, if_neg (Ne.symm hka)]
      · rw [if_neg hkb, if_neg hkb, ih]

/-- C47: after every history of `SetOption` calls, `GetOption` returns the value set last for the name, and nil for names never set. -/
theorem c47_last_write (h : List (String × Any)) (name : String) : getOption (setAll [] h) name = (lastSet h name).getD .nil := by
  have key : ∀ (h : List (String × Any)), (setAll [] h).get name = lastSet h name := by
    intro h
    rw [← List.reverse_reverse h]
    induction h.reverse with
    | nil => rfl
    | cons p r ih =>
      rw [List.reverse_cons, setAll, List.foldl_append]
      simp only [List.foldl_cons, List.foldl_nil, setOption, get_put]
      rw [lastSet, List.reverse_append]
      simp only [List.reverse_cons, List.reverse_nil, List.nil_append, List.cons_append]
      by_cases hp : p.1 = name
      · simp [hp]
      · rw [if_neg hp, List.find?_cons_of_neg (by simpa using hp)]
        exact ih
  rw [getOption, key]
  cases lastSet h name <;> rfl

/-- C47: the parsers return the value and true iff the option has exactly the expected dynamic type, else the default and false. -/
theorem c47_typed (o : Any) (d : Int) (b : UInt8) (c : Bool) :
    (∀ v, parseInt o d = (v, true) ↔ o = .int v) ∧ ((∀ v, o ≠ .int v) → parseInt o d = (d, false)) ∧
    (∀ v, parseByte o b = (v, true) ↔ o = .byte v) ∧ ((∀ v, o ≠ .byte v) → parseByte o b = (b, false)) ∧
    (∀ v, parseBool o c = (v, true) ↔ o = .bool v) ∧ ((∀ v, o ≠ .bool v) → parseBool o c = (c, false)) ∧
    (∀ v, parseBytes o = (v, true) ↔ o = .bytes v) ∧ ((∀ v, o ≠ .bytes v) → parseBytes o = ([], false)) := by
  cases o <;> simp [parseInt, parseByte, parseBool, parseBytes]

example : parseInt (getOption (setAll [] [("MTU", .int 4), ("x", .nil), ("MTU", .byte 3), ("MTU", .int 9)]) "MTU") 2048 = (9, true) ∧
    parseInt (getOption (setAll [] [("MTU", .int 4), ("MTU", .byte 3)]) "MTU") 2048 = (2048, false) := by decide

/-! ## What `Run` makes of an integer option

`u.mtu`, `maxRetryCount`, `retryIntervalInSecond`, `queueSize`: the default of the parser is a constant (ustack_default.go:112-113,
tran_tcp.go:121-128, tran_unix.go:122-129, tran_reference.go:177-178).  `intervalInSecond`, `timeoutInSecond` of Heartbeat and
StatCounter: the default is the field itself (proc_heartbeat.go:175-182, proc_stat_counter.go:173-174). -/

inductive Op where
  | set (name : String) (value : Any)
  | run
  deriving Repr, DecidableEq

structure Conf where
  options : Map
  field : Int
  deriving Repr

/-- `fixed`: the default is the constant `dflt`, otherwise the field. -/
def opStep (fixed : Bool) (opt : String) (dflt : Int) (c : Conf) : Op → Conf
  | .set n v => { c with options := setOption c.options n v }
  | .run => { c with field := (parseInt (getOption c.options opt) (if fixed then dflt else c.field)).1 }

def conf (fixed : Bool) (opt : String) (dflt : Int) (ops : List Op) : Conf := ops.foldl (opStep fixed opt dflt) ⟨[], dflt⟩

def sets (ops : List Op) : List (String × Any) := ops.filterMap fun | .set n v => some (n, v) | .run => none

theorem conf_snoc (fixed : Bool) (opt : String) (dflt : Int) (ops : List Op) (o : Op) :
    conf fixed opt dflt (ops ++ [o]) = opStep fixed opt dflt (conf fixed opt dflt ops) o := by
  simp [conf]

theorem conf_options (fixed : Bool) (opt : String) (dflt : Int) (ops : List Op) : (conf fixed opt dflt ops).options = setAll [] (sets ops) := by
  rw [← List.reverse_reverse ops]
  induction ops.reverse with
  | nil => rfl
  | cons o r ih =>
    rw [List.reverse_cons, conf_snoc]
    cases o with
    | run => simp only [opStep, sets, List.filterMap_append]; rw [ih]; simp [sets]
    | set n v => simp only [opStep]; rw [ih]; simp [sets, setAll]

/-- C47 at work, options with a constant default: a `Run` takes the last value set if it is an `int`, else the default, whatever
happened before; afterwards the field stays until the next `Run`. -/
theorem c47_run_fixed (opt : String) (dflt : Int) (ops later : List Op) (hl : .run ∉ later) :
    (conf true opt dflt (ops ++ [.run] ++ later)).field =
      match lastSet (sets ops) opt with
      | some (.int v) => v
      | _ => dflt := by
  have hlater : ∀ (later : List Op) (c : Conf), .run ∉ later → (later.foldl (opStep true opt dflt) c).field = c.field := by
    intro later
    induction later with
    | nil => intro c _; rfl
    | cons o later ih =>
      intro c h
      rw [List.mem_cons, not_or] at h
      rw [List.foldl_cons, ih _ h.2]
      cases o with
      | run => exact absurd rfl h.1
      | set n v => rfl
  rw [conf, List.foldl_append]
  show (later.foldl _ (conf true opt dflt (ops ++ [.run]))).field = _
  rw [hlater _ _ hl, conf_snoc]
  simp only [opStep, if_true]
  rw [conf_options, c47_last_write]
  cases h : lastSet (sets ops) opt with
  | none => rfl
  | some v => cases v <;> rfl

/-- Options whose default is the field: the value is that of the latest `Run` that found an `int`; a `Run` that finds none keeps the old one. -/
theorem c47_run_sticky (opt : String) (dflt : Int) (ops : List Op) :
    (conf false opt dflt (ops ++ [.run])).field =
      match lastSet (sets ops) opt with
      | some (.int v) => v
      | _ => (conf false opt dflt ops).field := by
  rw [conf_snoc]
  simp only [opStep]
  rw [conf_options, c47_last_write]
  cases h : lastSet (sets ops) opt with
  | none => rfl
  | some v => cases v <;> rfl

example : (conf true "MTU" 2048 [.set "MTU" (.int 100), .run, .set "MTU" .nil, .run]).field = 2048 ∧
    (conf false "TimeoutInSecond" 30 [.set "TimeoutInSecond" (.int 100), .run, .set "TimeoutInSecond" .nil, .run]).field = 100 := by decide

/-! ## C58 -/

/-- `DefaultEndPointData` (endp_default.go:8-13); connection and data are numbers, `none` is nil. -/
structure Epd where
  connection : Option Nat
  data : Option Nat
  has : Bool
  dest : Int
  deriving Repr, DecidableEq

/-- `NewEndPointData` (endp_default.go:16-23) -/
def Epd.new : Epd := ⟨none, none, false, 0⟩

inductive Setter where
  | connection (c : Option Nat)
  | data (d : Option Nat)
  | dest (s : Int)
  | clear
  deriving Repr, DecidableEq

/-- endp_default.go:26-69 -/
def Epd.apply (e : Epd) : Setter → Epd
  | .connection c => { e with connection := c }
  | .data d => { e with data := d }
  | .dest s => { e with dest := s, has := true }
  | .clear => { e with has := false }

def Epd.after (ops : List Setter) : Epd := ops.foldl Epd.apply .new

theorem after_snoc (ops : List Setter) (o : Setter) : Epd.after (ops ++ [o]) = (Epd.after ops).apply o := by simp [Epd.after]

/-- The last element some function is defined on. -/
def lastSome {α : Type} (f : Setter → Option α) (ops : List Setter) : Option α := ops.reverse.findSome? f

theorem snoc_rec {P : List Setter → Prop} (h0 : P []) (h1 : ∀ ops o, P ops → P (ops ++ [o])) : ∀ ops, P ops := by
  intro ops
  rw [← List.reverse_reverse ops]
  induction ops.reverse with
  | nil => exact h0
  | cons o r ih => rw [List.reverse_cons]; exact h1 _ _ ih

/-- C58: `HasDestinationSession` is true exactly when a destination was set after the last clear. -/
theorem c58_has (ops : List Setter) : (Epd.after ops).has = true ↔ ∃ before s rest, ops = before ++ .dest s :: rest ∧ .clear ∉ rest := by
  induction ops using snoc_rec with
  | h0 => simp [Epd.after, Epd.new]
  | h1 ops o ih =>
    rw [after_snoc]
    have ext : ∀ o : Setter, (∀ s, o ≠ .dest s) → o ≠ .clear →
        ((∃ before s rest, ops ++ [o] = before ++ .dest s :: rest ∧ .clear ∉ rest) ↔ ∃ before s rest, ops = before ++ .dest s :: rest ∧ .clear ∉ rest) := by
      intro o hd hc
      constructor
      · rintro ⟨before, s, rest, h, hr⟩
        rcases List.eq_nil_or_concat rest with rfl | ⟨r, x, rfl⟩
        · have := List.append_inj_right' (t₁ := [o]) (t₂ := [Setter.dest s]) h rfl
          exact absurd (by simpa using this) (hd s)
        · rw [List.concat_eq_append] at h hr
          rw [← List.cons_append, ← List.append_assoc] at h
          exact ⟨before, s, r, List.append_inj_left' h rfl, fun hm => hr (List.mem_append.mpr (Or.inl hm))⟩
      · rintro ⟨before, s, rest, h, hr⟩
        refine ⟨before, s, rest ++ [o], by rw [h]; simp, ?_⟩
        simp only [List.mem_append, List.mem_singleton, not_or]
        exact ⟨hr, Ne.symm hc⟩
    cases o with
    | connection c => rw [ext _ (by simp) (by simp)]; exact ih
    | data d => rw [ext _ (by simp) (by simp)]; exact ih
    | dest s => exact ⟨fun _ => ⟨ops, s, [], rfl, by simp⟩, fun _ => rfl⟩
    | clear =>
      constructor
      · intro h; exact absurd h (by simp [Epd.apply])
      · rintro ⟨before, s, rest, h, hr⟩
        rcases List.eq_nil_or_concat rest with rfl | ⟨r, x, rfl⟩
        · have := List.append_inj_right' (t₁ := [Setter.clear]) (t₂ := [Setter.dest s]) h rfl
          simp at this
        · rw [List.concat_eq_append] at h hr
          rw [← List.cons_append, ← List.append_assoc] at h
          have := List.append_inj_right' (t₁ := [Setter.clear]) (t₂ := [x]) h rfl
          simp only [List.cons.injEq, and_true] at this
          subst this
          simp at hr

/-- C58: the getters return what was set last (the destination also after a clear), else the initial value. -/
theorem c58_last (ops : List Setter) :
    (Epd.after ops).dest = (lastSome (fun | .dest s => some s | _ => none) ops).getD 0 ∧
    (Epd.after ops).connection = (lastSome (fun | .connection c => some c | _ => none) ops).getD none ∧
    (Epd.after ops).data = (lastSome (fun | .data d => some d | _ => none) ops).getD none := by
  induction ops using snoc_rec with
  | h0 => exact ⟨rfl, rfl, rfl⟩
  | h1 ops o ih =>
    obtain ⟨i1, i2, i3⟩ := ih
    rw [after_snoc]
    simp only [lastSome, List.reverse_append, List.reverse_cons, List.reverse_nil, List.nil_append, List.cons_append, List.findSome?_cons] at *
    cases o <;> simp [Epd.apply, i1, i2, i3]

example : Epd.after [.dest 5, .data (some 1), .clear, .dest 7, .connection (some 3), .data (some 2)] = ⟨some 3, some 2, true, 7⟩ ∧
    Epd.after [.dest 5, .clear] = ⟨none, none, false, 5⟩ := by decide

end Verif.Reg.Options
