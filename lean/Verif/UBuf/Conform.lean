import Verif.UBuf.Snapshot

/-!
# The model against the test suite of the repository

`ubuf_test.go` is the only statement of intended results in the repository that does not come from
reading the implementation.  Its test functions are transcribed here as scripts, a call and the
check made of its result, and the model is evaluated on them.  These are tests of the *model* (none
of the properties rests on them): a model that answered one call differently from what the Go tests
demand would not compile.
-/

namespace Verif.UBuf.Conform

/-- The result carries no error. -/
def ok : Out → Bool
  | .err e | .num _ e | .data _ e | .count _ e | .sent _ _ e => e.isNone
  | _ => true
/-- The result carries an error. -/
def bad : Out → Bool
  | .err e | .num _ e | .data _ e | .count _ e | .sent _ _ e => e.isSome
  | _ => false
def is (v : Nat) : Out → Bool
  | .num w e => e.isNone && w == v
  | .int i => i == v
  | .count n e => e.isNone && n == v
  | .sent _ n e => e.isNone && n == v
  | _ => false
/-- `n` bytes and an error. -/
def cut (n : Nat) : Out → Bool
  | .count m e => e.isSome && m == n
  | .data bs e => e.isSome && bs.length == n
  | _ => false
def got (bs : List Byte) : Out → Bool
  | .data cs e => e.isNone && cs == bs
  | .sent (some cs) _ e => e.isNone && cs == bs
  | _ => false
def any : Out → Bool := fun _ => true

/-- A script on one family of buffers: each call with the check of its result. -/
def check (w : W) : List (WOp × (Out → Bool)) → Bool
  | [] => true
  | (op, p) :: rest =>
    match wexec op w with
    | (.ok (.out o), w') => p o && check w' rest
    | (.ok (.made _), w') => check w' rest
    | _ => false

def on (i : Nat) (l : List (Op × (Out → Bool))) : List (WOp × (Out → Bool)) :=
  l.map fun x => (.call i x.1, x.2)

/-- One buffer. -/
def test (cap res : Int) (l : List (Op × (Out → Bool))) : Bool :=
  check W.init ((.alloc cap res, any) :: on 0 l)

/-- The bytes `0 .. n-1`. -/
def ramp (n : Nat) : List Byte := (List.range n).map UInt8.ofNat

/-- `DummyReaderWriter` (ubuf_test.go:248-256). -/
def dummyR : Nat → ReadRes := fun _ => ⟨[], 0, some (.ext 0)⟩
def dummyW : List Byte → WriteRes := fun _ => ⟨0, some (.ext 0)⟩
/-- `bytes.Reader` holding `bs`; `bytes.Buffer`. -/
def bytesR (bs : List Byte) : Nat → ReadRes := fun n => ⟨bs.take n, min n bs.length, none⟩
def bufferW : List Byte → WriteRes := fun p => ⟨p.length, none⟩

/-- TestUBufAlloc (ubuf_test.go:14-31). -/
example : test 64 0 [(.capacity, is 64), (.readableLength, is 0), (.headWritableLength, is 0),
    (.tailWritableLength, is 64)] = true := rfl

/-- TestUBufAllocWithHeadReserved (ubuf_test.go:33-50). -/
example : test 64 8 [(.capacity, is 64), (.readableLength, is 0), (.headWritableLength, is 8),
    (.tailWritableLength, is 56)] = true := rfl

/-- TestBadUBufAllocInvalidCapacity, TestBadUBufAllocInvalidReserved (ubuf_test.go:52-70). -/
example : alloc (-1) 0 Heap.empty = .panic ∧ alloc 4 5 Heap.empty = .panic := ⟨rfl, rfl⟩

/-- The slice `[]byte{1, 2, 3, 4}`. -/
def four : Slice := ⟨[1, 2, 3, 4], 4, by decide⟩

/-- TestUBufFrom (ubuf_test.go:72-110). -/
example : fromSlice none 0 Heap.empty = none ∧ fromSlice (some four) (-1) Heap.empty = none ∧
    fromSlice (some four) 5 Heap.empty = none ∧
    (fromSlice (some four) 0 Heap.empty).map (fun s => (s.ub.reader, s.ub.writer, s.ub.reserved, capacity s))
      = some (0, 0, 0, 4) ∧
    (fromSlice (some four) 2 Heap.empty).map (fun s => (s.ub.reader, s.ub.writer, s.ub.reserved, capacity s))
      = some (2, 2, 2, 4) := ⟨rfl, rfl, rfl, rfl, rfl⟩

/-- TestReadWriteByte (ubuf_test.go:112-158). -/
example : test 64 8 (
    ((List.range 56).map fun i => [(Op.writeByte 1, ok), (.tailWritableLength, is (56 - i - 1))]).flatten ++
    [(.writeByte 1, bad)] ++
    ((List.range 56).map fun i => [(Op.readByte, is 1), (.readableLength, is (56 - i - 1))]).flatten ++
    [(.tailWritableLength, is 0), (.readableLength, is 0), (.readByte, bad)]) = true := by decide +kernel

/-- TestReadWrite (ubuf_test.go:160-246). -/
example : test 64 8 [(.read 56, ok), (.write (ramp 56 ++ [0]), cut 56), (.tailWritableLength, is 0),
    (.readableLength, is 56), (.read 56, got (ramp 56)), (.tailWritableLength, is 0),
    (.readableLength, is 0), (.reset, any), (.write (ramp 56 ++ [0]), bad), (.write (ramp 56 ++ [0]), bad),
    (.read 128, cut 56), (.reset, any), (.tailWritableLength, is 56), (.readableLength, is 0)] = true := by
  decide +kernel

/-- TestReadFrom (ubuf_test.go:258-313). -/
example : test 64 8 [(.readFrom dummyR, bad), (.readFrom (bytesR (ramp 56)), is 56),
    (.tailWritableLength, is 0), (.readableLength, is 56), (.readFrom (bytesR []), ok),
    (.read 56, got (ramp 56))] = true := by decide +kernel

/-- TestWriteTo (ubuf_test.go:315-361). -/
example : test 64 8 [(.writeTo dummyW, ok), (.write (ramp 56), is 56), (.writeTo dummyW, bad),
    (.writeTo bufferW, fun o => is 56 o && got (ramp 56) o)] = true := by decide +kernel

/-- All widths and the orders the three suffixes stand for. -/
def nine : List (Width × Order) :=
  [Suffix.none, .be, .le].flatMap fun sf => [Width.u16, .u32, .u64].map fun w => (w, sf.order)

/-- TestReadWriteUxx (ubuf_test.go:363-497). -/
example : test 64 8 ([(.writeByte 1, ok), (.writeU .u16 Suffix.none.order 0x2345, ok),
    (.writeU .u32 Suffix.none.order 0x6789abcd, ok), (.writeU .u64 Suffix.none.order 0x1357246875318642, ok),
    (.readByte, is 1), (.readU .u16 Suffix.none.order, is 0x2345), (.readU .u32 Suffix.none.order, is 0x6789abcd),
    (.readU .u64 Suffix.none.order, is 0x1357246875318642), (.reset, any)] ++
    nine.map fun x => (.readU x.1 x.2, bad)) = true := by decide +kernel
example : test 64 64 (nine.map fun x => (.writeU x.1 x.2 1, bad)) = true := by decide +kernel

/-- TestReadWriteUxxBE, TestReadWriteUxxLE (ubuf_test.go:499-589). -/
example (sf : Suffix) : test 64 8 [(.writeU .u16 sf.order 0x2345, ok), (.writeU .u32 sf.order 0x6789abcd, ok),
    (.writeU .u64 sf.order 0x1357246875318642, ok), (.readU .u16 sf.order, is 0x2345),
    (.readU .u32 sf.order, is 0x6789abcd), (.readU .u64 sf.order, is 0x1357246875318642)] = true := by
  cases sf <;> decide +kernel

/-- TestReadWriteHeadUxxNoSpace (ubuf_test.go:591-634). -/
example : test 64 0 ((.writeHeadByte 1, bad) :: nine.map fun x => (.writeHeadU x.1 x.2 1, bad)) = true := by
  decide +kernel

/-- TestReadWriteHeadBytes (ubuf_test.go:636-659). -/
example : test 64 64 [(.writeHeadBytes [1, 2], ok), (.read 2, got [1, 2])] = true := by decide +kernel

/-- TestReadWriteHeadUxx, ...BE, ...LE (ubuf_test.go:661-811). -/
example (sf : Suffix) : test 64 64 [(.writeHeadByte 1, ok), (.writeHeadU .u16 sf.order 0x2345, ok),
    (.writeHeadU .u32 sf.order 0x6789abcd, ok), (.writeHeadU .u64 sf.order 0x1357246875318642, ok),
    (.readU .u64 sf.order, is 0x1357246875318642), (.readU .u32 sf.order, is 0x6789abcd),
    (.readU .u16 sf.order, is 0x2345), (.readByte, is 1)] = true := by
  cases sf <;> decide +kernel

/-- TestPeekBytes (ubuf_test.go:813-858). -/
example : test 64 8 [(.peekByte, bad), (.peek 2, bad), (.write [1, 2, 3], ok), (.peek 4, bad),
    (.peekByte, is 1), (.peek 2, got [1, 2])] = true := by decide +kernel

/-- TestPeekUxx, ...BE, ...LE (ubuf_test.go:860-1053). -/
example (sf : Suffix) : test 64 8 [(.peekU .u16 sf.order, bad), (.writeU .u16 sf.order 0x2345, ok),
    (.peekU .u16 sf.order, is 0x2345), (.reset, any), (.peekU .u32 sf.order, bad),
    (.writeU .u32 sf.order 0x6789abcd, ok), (.peekU .u32 sf.order, is 0x6789abcd), (.reset, any),
    (.peekU .u64 sf.order, bad), (.writeU .u64 sf.order 0x1357246875318642, ok),
    (.peekU .u64 sf.order, is 0x1357246875318642)] = true := by
  cases sf <;> decide +kernel

/-- The block of buffer `i`. -/
def blockOf (i : Nat) (ops : List WOp) : Option Nat := ((wrun W.init ops).2.bufs[i]?).map (·.data)

/-- TestSnapshotReference (ubuf_test.go:1055-1084). -/
example : (wexec (.snap 0 .other) (wrun W.init [.alloc 64 8, .call 0 (.writeU .u16 .be 0x1234)]).2).1 = .ok .nil ∧
    check W.init ((.alloc 64 8, any) :: on 0 [(.writeU .u16 .be 0x1234, ok)] ++ [(.snap 0 .reference, any)] ++
      on 1 [(.readU .u16 .be, is 0x1234)] ++ on 0 [(.writeU .u16 .be 0x5678, ok)] ++
      on 1 [(.readU .u16 .be, bad)]) = true := ⟨by decide +kernel, by decide +kernel⟩

/-- TestSnapshotCopyOnWrite, TestSnapshotCopyDriectly (ubuf_test.go:1086-1194): the reads ... -/
example (t : SnapType) (ht : t = .copyOnWrite ∨ t = .copyDirectly) :
    check W.init ((.alloc 64 8, any) :: on 0 [(.writeU .u16 .be 0x1234, ok)] ++ [(.snap 0 t, any)] ++
      on 1 [(.writeU .u16 .be 0x5678, ok)] ++ on 0 [(.writeU .u16 .be 0x8765, ok)] ++
      on 1 [(.readU .u16 .be, is 0x1234), (.readU .u16 .be, is 0x5678)] ++
      on 0 [(.readU .u16 .be, is 0x1234), (.readU .u16 .be, is 0x8765)]) = true := by
  rcases ht with h | h <;> subst h <;> decide +kernel

/-- ... and the sharing: copy-on-write shares until the first write, a direct copy never. -/
example :
    let pre (t : SnapType) : List WOp := [.alloc 64 8, .call 0 (.writeU .u16 .be 0x1234), .snap 0 t]
    let post (t : SnapType) : List WOp := pre t ++ [.call 1 (.writeU .u16 .be 0x5678), .call 0 (.writeU .u16 .be 0x8765)]
    blockOf 0 (pre .copyOnWrite) = blockOf 1 (pre .copyOnWrite) ∧
    blockOf 0 (post .copyOnWrite) ≠ blockOf 1 (post .copyOnWrite) ∧
    blockOf 0 (pre .copyDirectly) ≠ blockOf 1 (pre .copyDirectly) ∧
    blockOf 0 (post .copyDirectly) ≠ blockOf 1 (post .copyDirectly) := by decide +kernel

end Verif.UBuf.Conform
