import Verif.Go

/-!
# Model of `/repo/ubuf.go`

A `UBuf` value holds a pointer (`data`, an index into the heap) to a `uBufData` block.  Several
`UBuf`s may point to the same block (snapshots).  Every method is a `GoM St _` where `St` is the
receiver together with the heap.  Go's bounds checks are explicit (`GoM.check`).
-/

namespace Verif.UBuf

/-- Error values: each `errors.New` of ubuf.go plus errors coming from outside. -/
inductive Err where
  | notEnoughPeek   -- "UBuf is not enough value to peek"   ubuf.go:224,243,266,...
  | noMorePeek      -- "UBuf has not more data to peek"      ubuf.go:234
  | full            -- "UBuf is full"                        ubuf.go:314,329
  | partialWrite    -- "UBuf is wrote partial data"          ubuf.go:342
  | noFree          -- "UBuf: no more free data space"       ubuf.go:382,391,...
  | empty           -- "UBuf is empty"                       ubuf.go:436
  | noMoreRead      -- "UBuf has not more data to read"      ubuf.go:460
  | noMoreData      -- "UBuf: no more data"                  ubuf.go:502,513,...
  | headRoom        -- "UBuf Head room is not enouth"        ubuf.go:568
  | eof             -- io.EOF
  | unexpectedEOF   -- io.ErrUnexpectedEOF
  | ext (n : Nat)   -- any error produced by an io.Reader / io.Writer argument
  deriving Repr, DecidableEq

/-- `uBufData` (ubuf.go:51-54).  `arr` is the whole backing array of the slice `bytes`
(`arr.length = cap(bytes)`), `len = len(bytes)`.  `refCount` is an unbounded integer
(simplification: int32 overflow needs 2^31 live snapshots). -/
structure Block where
  refCount : Int
  arr : List Byte
  len : Nat
  deriving Repr, DecidableEq, Inhabited

/-- The garbage-collected heap of blocks: addresses below `next` are allocated. -/
structure Heap where
  blk : Nat → Block
  next : Nat

/-- Store a block at an address. -/
def Heap.put (h : Heap) (a : Nat) (b : Block) : Heap :=
  { h with blk := fun x => if x = a then b else h.blk x }

/-- `&uBufData{...}`: allocate a fresh block. -/
def Heap.alloc (h : Heap) (b : Block) : Heap :=
  { blk := fun x => if x = h.next then b else h.blk x, next := h.next + 1 }

def Heap.empty : Heap := { blk := fun _ => default, next := 0 }

/-- `UBuf` (ubuf.go:57-63). Indices are bounded by the capacity, hence `Nat`. -/
structure UBuf where
  reserved : Nat
  reader : Nat
  writer : Nat
  data : Nat
  cow : Bool
  deriving Repr, DecidableEq

/-- The receiver of a method together with the heap. -/
structure St where
  ub : UBuf
  heap : Heap

namespace St
/-- `ub.data` dereferenced. -/
def block (s : St) : Block := s.heap.blk s.ub.data
/-- `cap(ub.data.bytes)`. -/
def cap (s : St) : Nat := s.block.arr.length
/-- Replace the block `ub.data` points to. -/
def putBlock (s : St) (b : Block) : St := { s with heap := s.heap.put s.ub.data b }
end St

/-- `UBufAllocWithHeadReserved` (ubuf.go:68-83): panics (`log.Panicf`) on bad input.  The new buffer
lives in the heap given. -/
def alloc (capacity reserved : Int) (h : Heap) : Res St :=
  if capacity ≤ 0 ∨ reserved < 0 ∨ reserved > capacity then .panic
  else .ok {
    ub := { reserved := reserved.toNat, reader := reserved.toNat, writer := reserved.toNat,
            data := h.next, cow := false }
    heap := h.alloc { refCount := 1, arr := List.replicate capacity.toNat 0, len := capacity.toNat } }

/-- A Go `[]byte` argument: its backing array from the slice's start to its capacity, and its
length; `nil` is `none`. -/
structure Slice where
  arr : List Byte
  len : Nat
  le : len ≤ arr.length

/-- `UBufFromWithHeadReserved` (ubuf.go:92-112): `none` is the `nil` result. -/
def fromSlice (data : Option Slice) (reserved : Int) (h : Heap) : Option St :=
  match data with
  | none => none
  | some d =>
    let capacity : Int := d.arr.length
    if capacity ≤ 0 ∨ reserved < 0 ∨ reserved > capacity then none
    else some {
      ub := { reserved := reserved.toNat, reader := reserved.toNat, writer := reserved.toNat,
              data := h.next, cow := false }
      heap := h.alloc { refCount := 1, arr := d.arr, len := d.len } }

/-- The three snapshot types (ubuf.go:39-49); any other value yields `nil` (ubuf.go:158). -/
inductive SnapType where
  | reference | copyOnWrite | copyDirectly | other
  deriving Repr, DecidableEq

/-- `UBufMakeSnapshot` (ubuf.go:121-159) on a non-nil `ub`: the returned buffer (if any); the state
is the source buffer and the heap. -/
def makeSnapshot (t : SnapType) : GoM St (Option UBuf) := fun s =>
  let newub : UBuf := { s.ub with cow := false }
  match t with
  | .reference => (.ok (some newub), s)
  | .copyOnWrite =>
    let b := s.block
    let s := s.putBlock { b with refCount := b.refCount + 1 }
    (.ok (some { newub with cow := true }), { s with ub := { s.ub with cow := true } })
  | .copyDirectly =>
    -- copy(newub.data.bytes[r:w], ub.data.bytes[r:w]): both slice expressions check r <= w <= cap
    if s.ub.reader ≤ s.ub.writer ∧ s.ub.writer ≤ s.cap then
      let bs := (s.block.arr.take s.ub.writer).drop s.ub.reader
      let arr := overwrite (List.replicate s.cap 0) s.ub.reader bs
      (.ok (some { newub with data := s.heap.next }),
       { s with heap := s.heap.alloc { refCount := 1, arr := arr, len := s.cap } })
    else (.panic, s)
  | .other => (.ok none, s)

/-- `resolveCopyOnWriteIfNeed` (ubuf.go:162-192).  In the panicking branch the flag has been cleared
and the count decremented already. -/
def resolveCow : GoM St Unit := fun s =>
  if s.ub.cow = false then (.ok (), s)
  else
    let s := { s with ub := { s.ub with cow := false } }
    let b := s.block
    if b.refCount = 1 then (.ok (), s)
    else
      let s := s.putBlock { b with refCount := b.refCount - 1 }
      if s.ub.reader ≤ s.ub.writer ∧ s.ub.writer ≤ s.cap then
        let bs := (s.block.arr.take s.ub.writer).drop s.ub.reader
        let arr := overwrite (List.replicate s.cap 0) s.ub.reader bs
        (.ok (), { ub := { s.ub with data := s.heap.next },
                   heap := s.heap.alloc { refCount := 1, arr := arr, len := s.cap } })
      else (.panic, s)

/-- `Reset` (ubuf.go:195-198). -/
def reset : GoM St Unit :=
  GoM.modify fun s => { s with ub := { s.ub with reader := s.ub.reserved, writer := s.ub.reserved } }

/-- `Capacity` (ubuf.go:201-203). -/
def capacity (s : St) : Int := s.cap
/-- `ReadableLength` (ubuf.go:206-208). -/
def readableLength (s : St) : Int := (s.ub.writer : Int) - s.ub.reader
/-- `HeadWritableLength` (ubuf.go:211-213). -/
def headWritableLength (s : St) : Int := s.ub.reader
/-- `TailWritableLength` (ubuf.go:216-218). -/
def tailWritableLength (s : St) : Int := (s.cap : Int) - s.ub.writer

/-- The slice expression `ub.data.bytes[i:]` as a value: panics unless `i <= len`. -/
def bytesFrom (i : Nat) : GoM St (List Byte) := fun s =>
  if i ≤ s.block.len then (.ok ((s.block.arr.take s.block.len).drop i), s) else (.panic, s)

/-- The slice expression `ub.data.bytes[i:j]` as a value: panics unless `i <= j <= cap`. -/
def bytesRange (i j : Nat) : GoM St (List Byte) := fun s =>
  if i ≤ j ∧ j ≤ s.cap then (.ok ((s.block.arr.take j).drop i), s) else (.panic, s)

/-- The index expression `ub.data.bytes[i]` as a value: panics unless `i < len`. -/
def byteAt (i : Nat) : GoM St Byte := fun s =>
  if i < s.block.len then (.ok (s.block.arr.getD i 0), s) else (.panic, s)

/-- Overwrite `ub.data.bytes[i ..]` with `bs`. -/
def storeAt (i : Nat) (bs : List Byte) : GoM St Unit :=
  GoM.modify fun s => s.putBlock { s.block with arr := overwrite s.block.arr i bs }

/-- `Peek` (ubuf.go:221-238).  The argument is `len(p)`; the result is the filled prefix of `p`
(its length is the returned count) and the error. -/
def peek (n : Nat) : GoM St (List Byte × Option Err) := do
  let s ← GoM.get
  let toPeek := readableLength s
  if toPeek ≤ 0 then return ([], some .notEnoughPeek)
  let toPeek : Nat := min toPeek.toNat n
  let src ← bytesFrom s.ub.reader
  let got := src.take toPeek
  if got.length < n then return (got, some .noMorePeek)
  return (got, none)

/-- `PeekByte` (ubuf.go:241-246). -/
def peekByte : GoM St (Byte × Option Err) := do
  let s ← GoM.get
  if readableLength s < 1 then return (0, some .notEnoughPeek)
  let b ← byteAt s.ub.reader
  return (b, none)

/-- Integer widths of the `Uxx` methods. -/
inductive Width where
  | u16 | u32 | u64
  deriving Repr, DecidableEq

/-- Size in bytes. -/
def Width.size : Width → Nat
  | .u16 => 2
  | .u32 => 4
  | .u64 => 8

/-- Byte orders. -/
inductive Order where
  | be | le
  deriving Repr, DecidableEq

/-- The suffix of a method name: `U32`, `U32BE`, `U32LE`. -/
inductive Suffix where
  | none | be | le
  deriving Repr, DecidableEq

/-- The byte order a method uses: the ones without suffix call the BE ones (ubuf.go:249-261,
365-377, 485-497, 600-612). -/
def Suffix.order : Suffix → Order
  | .none => .be
  | .be => .be
  | .le => .le

def encode (w : Width) (o : Order) (v : Nat) : List Byte :=
  match o with
  | .be => encBE w.size v
  | .le => encLE w.size v

def decode (o : Order) (bs : List Byte) : Nat :=
  match o with
  | .be => decBE bs
  | .le => decLE bs

/-- `PeekU16BE` ... `PeekU64LE` (ubuf.go:264-309). -/
def peekU (w : Width) (o : Order) : GoM St (Nat × Option Err) := do
  let s ← GoM.get
  if readableLength s < w.size then return (0, some .notEnoughPeek)
  let bs ← bytesRange s.ub.reader (s.ub.reader + w.size)
  return (decode o bs, none)

/-- `WriteByte` (ubuf.go:312-323). -/
def writeByte (c : Byte) : GoM St (Option Err) := do
  let s ← GoM.get
  if tailWritableLength s ≤ 0 then return some .full
  resolveCow
  let s ← GoM.get
  GoM.check (decide (s.ub.writer < s.block.len))   -- index expression bytes[writerIndex]
  storeAt s.ub.writer [c]
  GoM.modify fun s => { s with ub := { s.ub with writer := s.ub.writer + 1 } }
  return none

/-- `Write` (ubuf.go:326-346). -/
def write (p : List Byte) : GoM St (Nat × Option Err) := do
  let s ← GoM.get
  let toWrite := tailWritableLength s
  if toWrite ≤ 0 then return (0, some .full)
  resolveCow
  let toWrite : Nat := min toWrite.toNat p.length
  let s ← GoM.get
  let dst ← bytesFrom s.ub.writer
  let n := min dst.length toWrite                 -- copy(bytes[w:], p[:toWrite])
  storeAt s.ub.writer (p.take n)
  GoM.modify fun s => { s with ub := { s.ub with writer := s.ub.writer + n } }
  if n < p.length then return (n, some .partialWrite)
  return (n, none)

/-- Result of an `io.Writer.Write(p)`: the count claimed and the error. -/
structure WriteRes where
  n : Nat
  err : Option Err
  deriving Repr, DecidableEq

/-- `WriteTo` (ubuf.go:349-362).  Result: the slice handed to the writer (`none` if it is not
called), the count and the error. -/
def writeTo (wr : List Byte → WriteRes) : GoM St (Option (List Byte) × Nat × Option Err) := do
  let s ← GoM.get
  if readableLength s ≤ 0 then return (none, 0, none)
  let p ← bytesRange s.ub.reader s.ub.writer
  let r := wr p
  if r.err.isSome then return (some p, r.n, r.err)
  GoM.modify fun s => { s with ub := { s.ub with reader := s.ub.reader + r.n } }
  return (some p, r.n, none)

/-- `WriteU16BE` ... `WriteU64LE` (ubuf.go:380-431); `binary.Write` of a fixed-size integer is one
`Write` of its bytes and returns that call's error. -/
def writeU (w : Width) (o : Order) (v : Nat) : GoM St (Option Err) := do
  let s ← GoM.get
  if tailWritableLength s < w.size then return some .noFree
  let r ← write (encode w o v)
  return r.2

/-- `ReadByte` (ubuf.go:434-443). -/
def readByte : GoM St (Byte × Option Err) := do
  let s ← GoM.get
  if readableLength s ≤ 0 then return (0, some .empty)
  let b ← byteAt s.ub.reader
  GoM.modify fun s => { s with ub := { s.ub with reader := s.ub.reader + 1 } }
  return (b, none)

/-- `Read` (ubuf.go:446-464): argument `len(p)`, result the filled prefix of `p` and the error. -/
def read (n : Nat) : GoM St (List Byte × Option Err) := do
  let s ← GoM.get
  let toRead := readableLength s
  if toRead ≤ 0 then return ([], none)
  let toRead : Nat := min toRead.toNat n
  let src ← bytesFrom s.ub.reader
  let got := src.take toRead
  GoM.modify fun s => { s with ub := { s.ub with reader := s.ub.reader + got.length } }
  if got.length < n then return (got, some .noMoreRead)
  return (got, none)

/-- Result of an `io.Reader.Read(p)`: the prefix of `p` that was overwritten (a reader may use all
of `p` as scratch space), the count claimed and the error. -/
structure ReadRes where
  filled : List Byte
  n : Nat
  err : Option Err
  deriving Repr, DecidableEq

/-- `ReadFrom` (ubuf.go:467-482): a single `Read` of the argument into the free space. -/
def readFrom (rd : Nat → ReadRes) : GoM St (Nat × Option Err) := do
  let s ← GoM.get
  if tailWritableLength s ≤ 0 then return (0, none)
  resolveCow
  let s ← GoM.get
  let dst ← bytesFrom s.ub.writer
  let r := rd dst.length
  storeAt s.ub.writer (r.filled.take dst.length)
  if r.err.isSome then return (0, r.err)
  GoM.modify fun s => { s with ub := { s.ub with writer := s.ub.writer + r.n } }
  return (r.n, none)

/-- `io.ReadFull(ub, buf)` with `len(buf) = n`: at most two `Read` calls can matter (a `Read` that is
short returns an error, an empty buffer returns `(0, nil)` forever).  Only called with
`ReadableLength >= n`, where one call suffices; the other branch is not reachable. -/
def readFull (n : Nat) : GoM St (List Byte × Option Err) := do
  let r ← read n
  if r.1.length ≥ n then return (r.1, none)
  return (r.1, some .unexpectedEOF)

/-- `ReadU16BE` ... `ReadU64LE` (ubuf.go:500-563); `binary.Read` of a fixed-size integer is one
`io.ReadFull`. -/
def readU (w : Width) (o : Order) : GoM St (Nat × Option Err) := do
  let s ← GoM.get
  if readableLength s < w.size then return (0, some .noMoreData)
  let r ← readFull w.size
  match r.2 with
  | none => return (decode o r.1, none)
  | some e => return (0, some e)

/-- `writeHead` (ubuf.go:566-587). -/
def writeHead (dataSize : Nat) (fn : GoM St (Option Err)) : GoM St (Option Err) := do
  let s ← GoM.get
  if s.ub.reader < dataSize then return some .headRoom
  let oldWriterIndex := s.ub.writer
  GoM.modify fun s => { s with ub := { s.ub with writer := s.ub.reader - dataSize } }
  let err ← fn
  if err = none then
    GoM.modify fun s => { s with ub := { s.ub with reader := s.ub.reader - dataSize } }
  GoM.modify fun s => { s with ub := { s.ub with writer := oldWriterIndex } }
  return err

/-- `WriteHeadByte` (ubuf.go:590-592). -/
def writeHeadByte (c : Byte) : GoM St (Option Err) := writeHead 1 (writeByte c)

/-- `WriteHeadBytes` (ubuf.go:595-597). -/
def writeHeadBytes (p : List Byte) : GoM St (Option Err) :=
  writeHead p.length (do let r ← write p; return r.2)

/-- `WriteHeadU16BE` ... `WriteHeadU64LE` (ubuf.go:615-642). -/
def writeHeadU (w : Width) (o : Order) (v : Nat) : GoM St (Option Err) :=
  writeHead w.size (writeU w o v)

/-! ## All methods as operations of one step function -/

/-- The method calls a user can make on a buffer. -/
inductive Op where
  | reset
  | capacity | readableLength | headWritableLength | tailWritableLength
  | peek (n : Nat) | peekByte | peekU (w : Width) (o : Order)
  | writeByte (c : Byte) | write (p : List Byte) | writeU (w : Width) (o : Order) (v : Nat)
  | writeHeadByte (c : Byte) | writeHeadBytes (p : List Byte)
  | writeHeadU (w : Width) (o : Order) (v : Nat)
  | readByte | read (n : Nat) | readU (w : Width) (o : Order)
  | readFrom (rd : Nat → ReadRes) | writeTo (wr : List Byte → WriteRes)

/-- What a method call returns. -/
inductive Out where
  | unit
  | int (i : Int)
  | err (e : Option Err)
  | num (v : Nat) (e : Option Err)
  | data (bs : List Byte) (e : Option Err)
  | count (n : Nat) (e : Option Err)
  | sent (p : Option (List Byte)) (n : Nat) (e : Option Err)
  deriving Repr, DecidableEq

/-- Dispatch of a method call. -/
def exec : Op → GoM St Out
  | .reset => do reset; return .unit
  | .capacity => do let s ← GoM.get; return .int (capacity s)
  | .readableLength => do let s ← GoM.get; return .int (readableLength s)
  | .headWritableLength => do let s ← GoM.get; return .int (headWritableLength s)
  | .tailWritableLength => do let s ← GoM.get; return .int (tailWritableLength s)
  | .peek n => do let r ← peek n; return .data r.1 r.2
  | .peekByte => do let r ← peekByte; return .num r.1.toNat r.2
  | .peekU w o => do let r ← peekU w o; return .num r.1 r.2
  | .writeByte c => do let r ← writeByte c; return .err r
  | .write p => do let r ← write p; return .count r.1 r.2
  | .writeU w o v => do let r ← writeU w o v; return .err r
  | .writeHeadByte c => do let r ← writeHeadByte c; return .err r
  | .writeHeadBytes p => do let r ← writeHeadBytes p; return .err r
  | .writeHeadU w o v => do let r ← writeHeadU w o v; return .err r
  | .readByte => do let r ← readByte; return .num r.1.toNat r.2
  | .read n => do let r ← read n; return .data r.1 r.2
  | .readU w o => do let r ← readU w o; return .num r.1 r.2
  | .readFrom rd => do let r ← readFrom rd; return .count r.1 r.2
  | .writeTo wr => do let r ← writeTo wr; return .sent r.1 r.2.1 r.2.2

end Verif.UBuf
