/-
Go byte slices and `bytes.Buffer` (Go standard library, used by protocol/genout.go and
protocol/server.go).  Trusted: this file is a reading of the documented behaviour of the standard
library, not of code in /repo.
-/

namespace Ninep

/-- A Go `byte`. -/
abbrev Byte := UInt8

/-- The contents of a Go `[]byte`. -/
abbrev Bytes := List UInt8

/-- A Go `string`: an arbitrary sequence of bytes. -/
abbrev GoString := List UInt8

/-- A `bytes.Buffer`.  Its backing array is `pre ++ unread ++ spare`: `pre` has been read already
(`buf[:off]`), `unread` is `buf[off:len]` (what `b.Bytes()` returns), `spare` is what lies between
`len` and `cap` of the array.  `spare` is visible to the program because Go allows `b.Bytes()[:l]`
for `l` up to the capacity. -/
structure Buffer where
  pre : Bytes := []
  unread : Bytes := []
  spare : Bytes := []
deriving Repr, DecidableEq

namespace Buffer

/-- `b.Bytes()` -/
def bytes (b : Buffer) : Bytes := b.unread

/-- `b.Len()` -/
def len (b : Buffer) : Nat := b.unread.length

/-- The whole backing array of the buffer. -/
def backing (b : Buffer) : Bytes := b.pre ++ b.unread ++ b.spare

/-- `bytes.NewBuffer(p)` where the slice `p` has `spare` behind it. -/
def ofBytes (p : Bytes) (spare : Bytes := []) : Buffer := { pre := [], unread := p, spare := spare }

/-- `b.Reset()`: empties the buffer and keeps the array. -/
def reset (b : Buffer) : Buffer :=
  { pre := [], unread := [], spare := b.pre ++ b.unread ++ b.spare }

/-- `b.Write(p)`: appends, overwriting spare array space; when the array is too small it grows.
Simplification: the capacity after growing is taken to be exactly what is needed. -/
def write (b : Buffer) (p : Bytes) : Buffer :=
  { b with unread := b.unread ++ p, spare := b.spare.drop p.length }

/-- `copy(b.Bytes(), p)`: overwrites the first `min (len p) (b.Len())` unread bytes. -/
def copyIn (b : Buffer) (p : Bytes) : Buffer :=
  { b with unread := p.take b.unread.length ++ b.unread.drop p.length }

/-- `b.Read(p)` for a `p` of length `n > 0`.  `none` is `io.EOF`, returned (after a `Reset`) only if
nothing is unread; otherwise up to `n` bytes are delivered **without** an error even if fewer than
`n` were available. -/
def read (b : Buffer) (n : Nat) : Option Bytes × Buffer :=
  if b.unread.isEmpty then (none, b.reset)
  else (some (b.unread.take n),
        { b with pre := b.pre ++ b.unread.take n, unread := b.unread.drop n })

/-- `b.Next(n)` with the returned slice dropped: skips `min n (b.Len())` bytes. -/
def next (b : Buffer) (n : Nat) : Buffer :=
  { b with pre := b.pre ++ b.unread.take n, unread := b.unread.drop n }

/-- `b.Bytes()[:l]`.  Go checks `l` against the *capacity* of the slice: `none` is the run-time
panic "slice bounds out of range". -/
def sliceTo (b : Buffer) (l : Nat) : Option Bytes :=
  if l ≤ (b.unread ++ b.spare).length then some ((b.unread ++ b.spare).take l) else none

end Buffer
end Ninep
