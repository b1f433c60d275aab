import Verif.UBuf.Model

/-!
# Specification: a bounded byte deque

Written without reference to the model's state: a deque has a capacity, the head room in front of
the readable data, and the readable data.  `Op`, `Out`, `Err` are just the names of the API calls,
their results and the error values.
-/

namespace Verif.UBuf

/-- The abstract buffer. `tail` (free room behind the data) is what is left of the capacity. -/
structure Deque where
  cap : Nat
  reserved : Nat
  head : Nat
  content : List Byte
  deriving Repr, DecidableEq

namespace Deque

def tail (d : Deque) : Nat := d.cap - d.head - d.content.length

/-- A freshly allocated buffer. -/
def fresh (cap reserved : Nat) : Deque := ⟨cap, reserved, reserved, []⟩

/-- Everything fits in the capacity. -/
def WF (d : Deque) : Prop := d.reserved ≤ d.cap ∧ d.head + d.content.length ≤ d.cap

/-- Append at the tail. -/
def push (d : Deque) (bs : List Byte) : Deque := { d with content := d.content ++ bs }

/-- Prepend at the head. -/
def prepend (d : Deque) (bs : List Byte) : Deque :=
  { d with head := d.head - bs.length, content := bs ++ d.content }

/-- Drop from the front. -/
def pop (d : Deque) (n : Nat) : Deque :=
  { d with head := d.head + n, content := d.content.drop n }

/-- All-or-nothing prepend. -/
def prependAll (d : Deque) (bs : List Byte) : Option Err × Deque :=
  if d.head < bs.length then (some .headRoom, d) else (none, d.prepend bs)

/-- The contract of `io.Reader`: at most `len(p)` bytes of `p` are touched and the count covers only
bytes that were filled. -/
def Reader.Ok (rd : Nat → ReadRes) : Prop :=
  ∀ m, (rd m).n ≤ (rd m).filled.length ∧ (rd m).filled.length ≤ m

/-- The contract of `io.Writer`: at most `len(p)` bytes are consumed. -/
def Writer.Ok (wr : List Byte → WriteRes) : Prop := ∀ p, (wr p).n ≤ p.length

/-- The intended behaviour of every method. -/
def step (d : Deque) : Op → Out × Deque
  | .reset => (.unit, { d with head := d.reserved, content := [] })
  | .capacity => (.int d.cap, d)
  | .readableLength => (.int d.content.length, d)
  | .headWritableLength => (.int d.head, d)
  | .tailWritableLength => (.int d.tail, d)
  -- look at the front
  | .peek n =>
    if d.content = [] then (.data [] (some .notEnoughPeek), d)
    else (.data (d.content.take n) (if d.content.length < n then some .noMorePeek else none), d)
  | .peekByte =>
    match d.content with
    | [] => (.num 0 (some .notEnoughPeek), d)
    | b :: _ => (.num b.toNat none, d)
  | .peekU w o =>
    if d.content.length < w.size then (.num 0 (some .notEnoughPeek), d)
    else (.num (decode o (d.content.take w.size)) none, d)
  -- append
  | .writeByte c => if d.tail = 0 then (.err (some .full), d) else (.err none, d.push [c])
  | .write p =>
    if d.tail = 0 then (.count 0 (some .full), d)
    else (.count (min d.tail p.length) (if d.tail < p.length then some .partialWrite else none),
          d.push (p.take d.tail))
  | .writeU w o v =>
    if d.tail < w.size then (.err (some .noFree), d) else (.err none, d.push (encode w o v))
  -- prepend
  | .writeHeadByte c => let r := d.prependAll [c]; (.err r.1, r.2)
  | .writeHeadBytes p =>
    -- an empty prepend is refused when the data starts at the very end of the buffer
    if p = [] ∧ d.head = d.cap then (.err (some .full), d)
    else let r := d.prependAll p; (.err r.1, r.2)
  | .writeHeadU w o v => let r := d.prependAll (encode w o v); (.err r.1, r.2)
  -- consume
  | .readByte =>
    match d.content with
    | [] => (.num 0 (some .empty), d)
    | b :: _ => (.num b.toNat none, d.pop 1)
  | .read n =>
    if d.content = [] then (.data [] none, d)
    else (.data (d.content.take n) (if d.content.length < n then some .noMoreRead else none),
          d.pop (min n d.content.length))
  | .readU w o =>
    if d.content.length < w.size then (.num 0 (some .noMoreData), d)
    else (.num (decode o (d.content.take w.size)) none, d.pop w.size)
  -- one Read of the argument; nothing becomes readable if it reports an error
  | .readFrom rd =>
    if d.tail = 0 then (.count 0 none, d)
    else match (rd d.tail).err with
      | some e => (.count 0 (some e), d)
      | none => (.count (rd d.tail).n none, d.push ((rd d.tail).filled.take (rd d.tail).n))
  -- one Write to the argument; nothing is consumed if it reports an error
  | .writeTo wr =>
    if d.content = [] then (.sent none 0 none, d)
    else match (wr d.content).err with
      | some e => (.sent (some d.content) (wr d.content).n (some e), d)
      | none => (.sent (some d.content) (wr d.content).n none, d.pop (wr d.content).n)

/-- The io arguments of an operation respect their contracts. -/
def OpOk : Op → Prop
  | .readFrom rd => Reader.Ok rd
  | .writeTo wr => Writer.Ok wr
  | _ => True

/-- A whole history. -/
def run (d : Deque) : List Op → List Out × Deque
  | [] => ([], d)
  | op :: ops => ((d.step op).1 :: (run (d.step op).2 ops).1, (run (d.step op).2 ops).2)

end Deque

/-- A history on the model: stops at the first panic. -/
def run (s : St) : List Op → Res (List Out) × St
  | [] => (.ok [], s)
  | op :: ops =>
    match exec op s with
    | (.ok o, s') =>
      match run s' ops with
      | (.ok os, s'') => (.ok (o :: os), s'')
      | (r, s'') => (r, s'')
    | (.panic, s') => (.panic, s')
    | (.running, s') => (.running, s')

end Verif.UBuf
