/-!
# The fragment of Go's run-time semantics the model needs

A Go method that mutates a state `σ` and returns an `α` is a `GoM σ α`: a function from the state to
a result and the new state.  The state is kept even when the call panics, because a panic that is
recovered by a caller leaves the half-updated objects behind.
-/

namespace Verif

/-- `[]byte` elements (Go's `byte` = `uint8`). -/
abbrev Byte := UInt8

/-- Outcome of running a piece of Go code: it returns, it panics, or (only for the recursive chain
interpreter, which carries a step budget) it is still running when the budget is used up. -/
inductive Res (α : Type u) where
  | ok (a : α)
  | panic
  | running
  deriving Repr, DecidableEq

/-- A Go computation over a mutable state. -/
def GoM (σ : Type u) (α : Type v) := σ → Res α × σ

namespace GoM

@[inline] def pure (a : α) : GoM σ α := fun s => (.ok a, s)

@[inline] def bind (m : GoM σ α) (f : α → GoM σ β) : GoM σ β := fun s =>
  match m s with
  | (.ok a, s') => f a s'
  | (.panic, s') => (.panic, s')
  | (.running, s') => (.running, s')

instance : Monad (GoM σ) where
  pure := GoM.pure
  bind := GoM.bind

/-- A run-time panic (index out of range, nil call, `log.Panicf`, ...). -/
def panic : GoM σ α := fun s => (.panic, s)

/-- Read the whole state. -/
def get : GoM σ σ := fun s => (.ok s, s)

/-- Overwrite the whole state. -/
def set (s : σ) : GoM σ Unit := fun _ => (.ok (), s)

/-- Update the state. -/
def modify (f : σ → σ) : GoM σ Unit := fun s => (.ok (), f s)

/-- Run-time check: panic unless `c`. -/
def check (c : Bool) : GoM σ Unit := if c then pure () else panic

@[simp] theorem pure_apply (a : α) (s : σ) : (Pure.pure a : GoM σ α) s = (.ok a, s) := rfl

theorem bind_apply (m : GoM σ α) (f : α → GoM σ β) (s : σ) :
    (m >>= f) s = match m s with
      | (.ok a, s') => f a s'
      | (.panic, s') => (.panic, s')
      | (.running, s') => (.running, s') := rfl

@[simp] theorem get_apply (s : σ) : (GoM.get : GoM σ σ) s = (.ok s, s) := rfl
@[simp] theorem set_apply (s t : σ) : (GoM.set t : GoM σ Unit) s = (.ok (), t) := rfl
@[simp] theorem modify_apply (f : σ → σ) (s : σ) : (GoM.modify f) s = (.ok (), f s) := rfl
@[simp] theorem panic_apply (s : σ) : (GoM.panic : GoM σ α) s = (.panic, s) := rfl
@[simp] theorem check_apply (c : Bool) (s : σ) :
    (GoM.check c : GoM σ Unit) s = if c then (.ok (), s) else (.panic, s) := by
  cases c <;> rfl

theorem ite_apply (c : Prop) [Decidable c] (f g : GoM σ α) (s : σ) :
    (if c then f else g) s = if c then f s else g s := by split <;> rfl

/-- Sequencing after a call that returned. -/
theorem bind_of_ok {m : GoM σ α} {f : α → GoM σ β} {s s' : σ} {a : α}
    (h : m s = (.ok a, s')) : (m >>= f) s = f a s' := by
  simp [bind_apply, h]

theorem bind_of_panic {m : GoM σ α} {f : α → GoM σ β} {s s' : σ}
    (h : m s = (.panic, s')) : (m >>= f) s = (.panic, s') := by
  simp [bind_apply, h]

end GoM

/-- `copy(dst[at:], bs)` when `bs` fits: the array after overwriting positions `at ..`. -/
def overwrite (arr : List Byte) (i : Nat) (bs : List Byte) : List Byte :=
  arr.take i ++ bs ++ arr.drop (i + bs.length)

/-- Big-endian bytes of `v` (low `8*k` bits), most significant first: `binary.BigEndian.PutUintN`. -/
def encBE (k v : Nat) : List Byte :=
  match k with
  | 0 => []
  | k + 1 => UInt8.ofNat (v / 256 ^ k) :: encBE k v

/-- Little-endian bytes of `v`: `binary.LittleEndian.PutUintN`. -/
def encLE (k v : Nat) : List Byte :=
  match k with
  | 0 => []
  | k + 1 => UInt8.ofNat v :: encLE k (v / 256)

/-- `binary.BigEndian.UintN` (the `|` of disjoint shifted bytes is their sum). -/
def decBE (bs : List Byte) : Nat := bs.foldl (fun acc b => acc * 256 + b.toNat) 0

/-- `binary.LittleEndian.UintN`. -/
def decLE : List Byte → Nat
  | [] => 0
  | b :: bs => b.toNat + 256 * decLE bs

theorem length_encBE (k v : Nat) : (encBE k v).length = k := by
  induction k with
  | zero => rfl
  | succ k ih => simp [encBE, ih]

theorem length_encLE (k v : Nat) : (encLE k v).length = k := by
  induction k generalizing v with
  | zero => rfl
  | succ k ih => simp [encLE, ih]

theorem foldl_be (bs : List Byte) (a : Nat) :
    bs.foldl (fun acc b => acc * 256 + b.toNat) a = a * 256 ^ bs.length + decBE bs := by
  induction bs generalizing a with
  | nil => simp [decBE]
  | cons b bs ih =>
    simp only [decBE, List.foldl_cons, List.length_cons]
    rw [ih, ih (0 * 256 + b.toNat)]
    have : 256 ^ (bs.length + 1) = 256 * 256 ^ bs.length := by rw [Nat.pow_succ, Nat.mul_comm]
    rw [this, Nat.add_mul, Nat.add_mul, Nat.mul_assoc]
    omega

theorem decBE_cons (b : Byte) (bs : List Byte) :
    decBE (b :: bs) = b.toNat * 256 ^ bs.length + decBE bs := by
  have := foldl_be bs b.toNat
  simpa [decBE] using this

/-- Decoding the big-endian bytes of `v` yields `v` modulo `2^(8k)`. -/
theorem decBE_encBE_mod (k v : Nat) : decBE (encBE k v) = v % 256 ^ k := by
  induction k with
  | zero => simp [encBE, decBE, Nat.mod_one]
  | succ k ih =>
    rw [encBE, decBE_cons, ih, length_encBE]
    have h1 : (UInt8.ofNat (v / 256 ^ k)).toNat = v / 256 ^ k % 256 := by simp
    rw [h1, Nat.pow_succ, Nat.mod_mul, Nat.mul_comm, Nat.add_comm]

theorem decLE_encLE_mod (k v : Nat) : decLE (encLE k v) = v % 256 ^ k := by
  induction k generalizing v with
  | zero => simp [encLE, decLE, Nat.mod_one]
  | succ k ih =>
    have h1 : (UInt8.ofNat v).toNat = v % 256 := by simp
    rw [encLE, decLE, ih, h1, Nat.pow_succ, Nat.mul_comm (256 ^ k) 256, Nat.mod_mul]

theorem length_overwrite (arr bs : List Byte) (i : Nat) (h : i + bs.length ≤ arr.length) :
    (overwrite arr i bs).length = arr.length := by
  simp [overwrite]; omega

theorem encLE_decLE (bs : List Byte) : encLE bs.length (decLE bs) = bs := by
  induction bs with
  | nil => rfl
  | cons b bs ih =>
    have hb := b.toNat_lt
    simp only [List.length_cons, encLE, decLE]
    have h1 : (b.toNat + 256 * decLE bs) / 256 = decLE bs := by omega
    rw [h1, ih]
    congr 1
    apply UInt8.toNat_inj.1
    simp

theorem decBE_lt (bs : List Byte) : decBE bs < 256 ^ bs.length := by
  induction bs with
  | nil => simp [decBE]
  | cons b bs ih =>
    rw [decBE_cons, List.length_cons, Nat.pow_succ]
    have hb : b.toNat + 1 ≤ 256 := b.toNat_lt
    calc b.toNat * 256 ^ bs.length + decBE bs < b.toNat * 256 ^ bs.length + 256 ^ bs.length := by omega
      _ = (b.toNat + 1) * 256 ^ bs.length := by rw [Nat.add_mul, Nat.one_mul]
      _ ≤ 256 * 256 ^ bs.length := Nat.mul_le_mul_right _ hb
      _ = 256 ^ bs.length * 256 := Nat.mul_comm _ _

theorem encBE_add (k v c : Nat) : encBE k (v + c * 256 ^ k) = encBE k v := by
  induction k generalizing c with
  | zero => rfl
  | succ k ih =>
    have e : v + c * 256 ^ (k + 1) = v + (c * 256) * 256 ^ k := by
      rw [Nat.pow_succ, Nat.mul_comm (256 ^ k), ← Nat.mul_assoc]
    simp only [encBE]
    rw [e, ih, Nat.add_mul_div_right _ _ (Nat.pow_pos (by omega))]
    congr 1
    apply UInt8.toNat_inj.1
    simp

theorem encBE_decBE (bs : List Byte) : encBE bs.length (decBE bs) = bs := by
  induction bs with
  | nil => rfl
  | cons b bs ih =>
    have hlt := decBE_lt bs
    simp only [List.length_cons, encBE]
    rw [decBE_cons]
    have h1 : (b.toNat * 256 ^ bs.length + decBE bs) / 256 ^ bs.length = b.toNat := by
      rw [Nat.add_comm, Nat.add_mul_div_right _ _ (Nat.pow_pos (by omega)), Nat.div_eq_of_lt hlt,
        Nat.zero_add]
    rw [h1, Nat.add_comm, encBE_add, ih]
    congr 1
    apply UInt8.toNat_inj.1
    simp

end Verif
