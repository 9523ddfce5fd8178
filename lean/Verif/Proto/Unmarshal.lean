import Verif.Proto.Types
/-
The `Unmarshal*` functions of protocol/genout.go, one definition each.

A generated decoder has local variables `u [8]uint8`, `l uint64`, its named results and the buffer.
It assigns the results one after the other, returns early with `err` set when a `b.Read` reports EOF
or a string does not fit, and sets `err` at the end if bytes are left over.  All named results keep
the values they had at that moment; they are returned together with the error.
-/

namespace Ninep

/-- The errors a decoder can return (texts of the `fmt.Errorf` calls).  In the "pkt too short" errors
for integers the reported `b.Len()` is always 0, because `b.Read` fails only on an empty buffer. -/
inductive DecErr where
  /-- "pkt too short for Tag; need 2, have 0" -/
  | shortTag
  /-- "pkt too short for uint`bits`: need `bits/8`, have 0" -/
  | shortInt (bits : Nat)
  /-- "pkt too short for string: need `need`, have `have_`" -/
  | shortString (need have_ : Nat)
  /-- "Packet too long: `left` bytes left over after decode" -/
  | tooLong (left : Nat)
deriving DecidableEq, Repr

/-- The local state of a decoder: the buffer, the scratch array `u`, the results `t` and `r`. -/
structure DSt (R : Type) where
  b : Buffer
  u : Fin 8 → Byte
  t : Tag
  r : R

/-- What a decoder statement does: continue, `return` with an error, or panic. -/
inductive DRes (R α : Type) where
  | ok (a : α) (s : DSt R)
  | ret (e : DecErr) (s : DSt R)
  | panic

/-- A statement (or block) of a generated decoder. -/
def Dec (R α : Type) := DSt R → DRes R α

namespace Dec
variable {R α β : Type}

protected def pure (a : α) : Dec R α := fun s => .ok a s

protected def bind (m : Dec R α) (f : α → Dec R β) : Dec R β := fun s =>
  match m s with
  | .ok a s' => f a s'
  | .ret e s' => .ret e s'
  | .panic => .panic

instance : Monad (Dec R) where
  pure := Dec.pure
  bind := Dec.bind

/-- assignment to a named result -/
def setR (f : R → R) : Dec R Unit := fun s => .ok () { s with r := f s.r }

/-- assignment to the named result `t` -/
def setT (t : Tag) : Dec R Unit := fun s => .ok () { s with t := t }

/-- `if _, err = b.Read(u[:n]); err != nil { err = …; return }` (e.g. genout.go:80-83).  The number of
bytes read is ignored: bytes of `u` that were not overwritten keep their old value. -/
def readU (n : Nat) (e : DecErr) : Dec R (Fin 8 → Byte) := fun s =>
  match s.b.read n with
  | (none, b) => .ret e { s with b := b }
  | (some p, b) =>
    let u : Fin 8 → Byte := fun i => p.getD i.val (s.u i)
    .ok u { s with b := b, u := u }

/-- `uint64(u[0]) | uint64(u[1])<<8` and its narrower variants -/
def asm16 (u : Fin 8 → Byte) : UInt16 := (u 0).toUInt16 ||| (u 1).toUInt16 <<< 8

def asm32 (u : Fin 8 → Byte) : UInt32 :=
  (u 0).toUInt32 ||| (u 1).toUInt32 <<< 8 ||| (u 2).toUInt32 <<< 16 ||| (u 3).toUInt32 <<< 24

def asm64 (u : Fin 8 → Byte) : UInt64 :=
  (u 0).toUInt64 ||| (u 1).toUInt64 <<< 8 ||| (u 2).toUInt64 <<< 16 ||| (u 3).toUInt64 <<< 24
  ||| (u 4).toUInt64 <<< 32 ||| (u 5).toUInt64 <<< 40 ||| (u 6).toUInt64 <<< 48
  ||| (u 7).toUInt64 <<< 56

/-- `Count(u[0]) | Count(u[1])<<8 | …` in `int32` arithmetic (genout.go:1546-1549). -/
def asmCount (u : Fin 8 → Byte) : Int32 :=
  (u 0).toUInt32.toInt32 ||| (u 1).toUInt32.toInt32 <<< 8 ||| (u 2).toUInt32.toInt32 <<< 16
  ||| (u 3).toUInt32.toInt32 <<< 24

/-- `l = uint64(u[0]); l |= uint64(u[1])<<8` -/
def asmLen16 (u : Fin 8 → Byte) : UInt64 := (u 0).toUInt64 ||| (u 1).toUInt64 <<< 8

/-- `l = uint64(u[0]); l |= uint64(u[1])<<8; l |= uint64(u[2])<<16; l |= uint64(u[3])<<24` -/
def asmLen32 (u : Fin 8 → Byte) : UInt64 :=
  (u 0).toUInt64 ||| (u 1).toUInt64 <<< 8 ||| (u 2).toUInt64 <<< 16 ||| (u 3).toUInt64 <<< 24

/-- The first statement of every packet decoder: read the tag (e.g. genout.go:27-32). -/
def getTag : Dec R Unit := do
  let u ← readU 2 .shortTag
  -- l = uint64(u[0]) | uint64(u[1])<<8; t = Tag(l)
  setT (asmLen16 u).toUInt16

/-- decode a uint8 field and assign it with `set` (e.g. genout.go:229-233) -/
def getU8 (set : UInt8 → R → R) : Dec R Unit := do
  let u ← readU 1 (.shortInt 8)
  setR (set (u 0))

/-- decode a uint16 field (e.g. genout.go:428-433) -/
def getU16 (set : UInt16 → R → R) : Dec R Unit := do
  let u ← readU 2 (.shortInt 16)
  setR (set (asm16 u))

/-- decode a uint32 field (e.g. genout.go:80-87) -/
def getU32 (set : UInt32 → R → R) : Dec R Unit := do
  let u ← readU 4 (.shortInt 32)
  setR (set (asm32 u))

/-- decode a uint64 field (e.g. genout.go:242-253) -/
def getU64 (set : UInt64 → R → R) : Dec R Unit := do
  let u ← readU 8 (.shortInt 64)
  setR (set (asm64 u))

/-- decode a Count field (genout.go:1542-1549) -/
def getCount (set : Int32 → R → R) : Dec R Unit := do
  let u ← readU 4 (.shortInt 32)
  setR (set (asmCount u))

/-- `if b.Len() < int(l) { err = …; return }; X = string(b.Bytes()[:l]); _ = b.Next(int(l))`
(e.g. genout.go:38-43) -/
def takeString (l : Nat) (set : GoString → R → R) : Dec R Unit := fun s =>
  if s.b.len < l then .ret (.shortString l s.b.len) s
  else .ok () { s with r := set (s.b.bytes.take l) s.r, b := s.b.next l }

/-- decode a string field (e.g. genout.go:33-44) -/
def getString (set : GoString → R → R) : Dec R Unit := do
  let u ← readU 2 (.shortInt 16)
  takeString (asmLen16 u).toNat set

/-- `X = b.Bytes()[:l]; _ = b.Next(int(l))`, the body of the two counted payload decoders; note that
`l` is not checked against `b.Len()` (genout.go:1041-1042, 1475-1476). -/
def takeData (l : Nat) (set : Bytes → R → R) : Dec R Unit := fun s =>
  match s.b.sliceTo l with
  | none => .panic
  | some p => .ok () { s with r := set p s.r, b := s.b.next l }

/-- decode a payload with a 16 bit count (genout.go:1035-1042) -/
def getData16 (set : Bytes → R → R) : Dec R Unit := do
  let u ← readU 2 (.shortInt 16)
  takeData (asmLen16 u).toNat set

/-- decode a payload with a 32 bit count (genout.go:1467-1476) -/
def getData32 (set : Bytes → R → R) : Dec R Unit := do
  let u ← readU 4 (.shortInt 32)
  takeData (asmLen32 u).toNat set

/-- decode the three fields of a QID (e.g. genout.go:229-253) -/
def getQID (upd : (QID → QID) → R → R) : Dec R Unit := do
  getU8 fun v => upd fun q => { q with Typ := v }
  getU32 fun v => upd fun q => { q with Version := v }
  getU64 fun v => upd fun q => { q with Path := v }

/-- run `body i` for `i = i0, …, i0+k-1` (`for i := range X`) -/
def forRange (body : Nat → Dec R Unit) : (k i : Nat) → Dec R Unit
  | 0, _ => pure ()
  | k + 1, i => do
    body i
    forRange body k (i + 1)

/-- decode a `[]string`: allocate `l` empty strings, fill them one by one (genout.go:607-627) -/
def getStrings (upd : (List GoString → List GoString) → R → R) : Dec R Unit := do
  let u ← readU 2 (.shortInt 16)
  let l := (asmLen16 u).toNat
  setR (upd fun _ => List.replicate l [])
  forRange (fun i => getString fun v => upd fun xs => xs.set i v) l 0

/-- decode a `[]QID`: allocate `l` zero QIDs, fill them one by one (genout.go:513-546) -/
def getQIDs (upd : (List QID → List QID) → R → R) : Dec R Unit := do
  let u ← readU 2 (.shortInt 16)
  let l := (asmLen16 u).toNat
  setR (upd fun _ => List.replicate l {})
  forRange (fun i => getQID fun f => upd fun xs => xs.modify i f) l 0

/-- `if b.Len() > 0 { err = "Packet too long" }; return`, the end of every packet decoder
(e.g. genout.go:46-49) -/
def finish : Dec R Unit := fun s =>
  if s.b.len > 0 then .ret (.tooLong s.b.len) s else .ok () s

end Dec

/-- What a call of a generated decoder does: panic, or return all results and the error. -/
inductive Unm (R : Type) where
  | panic
  | done (r : R) (t : Tag) (err : Option DecErr) (b : Buffer)
deriving DecidableEq

/-- Run a decoder body: `u`, `t` and the results start as zero values. -/
def Dec.run {R : Type} (m : Dec R Unit) (zero : R) (b : Buffer) : Unm R :=
  match m { b := b, u := fun _ => 0, t := 0, r := zero } with
  | .ok _ s => .done s.r s.t none s.b
  | .ret e s => .done s.r s.t (some e) s.b
  | .panic => .panic

open Dec

/-- genout.go:24-50 -/
def unmarshalRerror (b : Buffer) : Unm RerrorPkt :=
  Dec.run (zero := {}) (b := b) do
    getTag
    getString fun v r => { r with Error := v }
    finish

/-- genout.go:71-105 -/
def unmarshalRversion (b : Buffer) : Unm RversionPkt :=
  Dec.run (zero := {}) (b := b) do
    getTag
    getU32 fun v r => { r with RMsize := v }
    getString fun v r => { r with RVersion := v }
    finish

/-- genout.go:126-160 -/
def unmarshalTversion (b : Buffer) : Unm TversionPkt :=
  Dec.run (zero := {}) (b := b) do
    getTag
    getU32 fun v r => { r with TMsize := v }
    getString fun v r => { r with TVersion := v }
    finish

/-- genout.go:220-259 -/
def unmarshalRattach (b : Buffer) : Unm RattachPkt :=
  Dec.run (zero := {}) (b := b) do
    getTag
    getQID fun f r => { r with QID := f r.QID }
    finish

/-- genout.go:287-341 -/
def unmarshalTattach (b : Buffer) : Unm TattachPkt :=
  Dec.run (zero := {}) (b := b) do
    getTag
    getU32 fun v r => { r with SFID := v }
    getU32 fun v r => { r with AFID := v }
    getString fun v r => { r with Uname := v }
    getString fun v r => { r with Aname := v }
    finish

/-- genout.go:388-402 -/
def unmarshalRflush (b : Buffer) : Unm RflushPkt :=
  Dec.run (zero := {}) (b := b) do
    getTag
    finish

/-- genout.go:419-439 -/
def unmarshalTflush (b : Buffer) : Unm TflushPkt :=
  Dec.run (zero := {}) (b := b) do
    getTag
    getU16 fun v r => { r with OTag := v }
    finish

/-- genout.go:504-552 -/
def unmarshalRwalk (b : Buffer) : Unm RwalkPkt :=
  Dec.run (zero := {}) (b := b) do
    getTag
    getQIDs fun f r => { r with QIDs := f r.QIDs }
    finish

/-- genout.go:582-633 -/
def unmarshalTwalk (b : Buffer) : Unm TwalkPkt :=
  Dec.run (zero := {}) (b := b) do
    getTag
    getU32 fun v r => { r with SFID := v }
    getU32 fun v r => { r with NewFID := v }
    getStrings fun f r => { r with Paths := f r.Paths }
    finish

/-- genout.go:697-744 -/
def unmarshalRopen (b : Buffer) : Unm RopenPkt :=
  Dec.run (zero := {}) (b := b) do
    getTag
    getQID fun f r => { r with OQID := f r.OQID }
    getU32 fun v r => { r with IOUnit := v }
    finish

/-- genout.go:764-791 -/
def unmarshalTopen (b : Buffer) : Unm TopenPkt :=
  Dec.run (zero := {}) (b := b) do
    getTag
    getU32 fun v r => { r with OFID := v }
    getU8 fun v r => { r with Omode := v }
    finish

/-- genout.go:855-902 -/
def unmarshalRcreate (b : Buffer) : Unm RcreatePkt :=
  Dec.run (zero := {}) (b := b) do
    getTag
    getQID fun f r => { r with OQID := f r.OQID }
    getU32 fun v r => { r with IOUnit := v }
    finish

/-- genout.go:929-976 -/
def unmarshalTcreate (b : Buffer) : Unm TcreatePkt :=
  Dec.run (zero := {}) (b := b) do
    getTag
    getU32 fun v r => { r with OFID := v }
    getString fun v r => { r with Name := v }
    getU32 fun v r => { r with CreatePerm := v }
    getU8 fun v r => { r with Omode := v }
    finish

/-- genout.go:1026-1048 -/
def unmarshalRstat (b : Buffer) : Unm RstatPkt :=
  Dec.run (zero := {}) (b := b) do
    getTag
    getData16 fun v r => { r with B := v }
    finish

/-- genout.go:1067-1089 -/
def unmarshalTstat (b : Buffer) : Unm TstatPkt :=
  Dec.run (zero := {}) (b := b) do
    getTag
    getU32 fun v r => { r with OFID := v }
    finish

/-- genout.go:1136-1150 -/
def unmarshalRwstat (b : Buffer) : Unm RwstatPkt :=
  Dec.run (zero := {}) (b := b) do
    getTag
    finish

/-- genout.go:1172-1202 -/
def unmarshalTwstat (b : Buffer) : Unm TwstatPkt :=
  Dec.run (zero := {}) (b := b) do
    getTag
    getU32 fun v r => { r with OFID := v }
    getData16 fun v r => { r with B := v }
    finish

/-- genout.go:1249-1263 -/
def unmarshalRclunk (b : Buffer) : Unm RclunkPkt :=
  Dec.run (zero := {}) (b := b) do
    getTag
    finish

/-- genout.go:1282-1304 -/
def unmarshalTclunk (b : Buffer) : Unm TclunkPkt :=
  Dec.run (zero := {}) (b := b) do
    getTag
    getU32 fun v r => { r with OFID := v }
    finish

/-- genout.go:1351-1365 -/
def unmarshalRremove (b : Buffer) : Unm RremovePkt :=
  Dec.run (zero := {}) (b := b) do
    getTag
    finish

/-- genout.go:1384-1406 -/
def unmarshalTremove (b : Buffer) : Unm TremovePkt :=
  Dec.run (zero := {}) (b := b) do
    getTag
    getU32 fun v r => { r with OFID := v }
    finish

/-- genout.go:1458-1482 -/
def unmarshalRread (b : Buffer) : Unm RreadPkt :=
  Dec.run (zero := {}) (b := b) do
    getTag
    getData32 fun v r => { r with Data := v }
    finish

/-- genout.go:1513-1555 -/
def unmarshalTread (b : Buffer) : Unm TreadPkt :=
  Dec.run (zero := {}) (b := b) do
    getTag
    getU32 fun v r => { r with OFID := v }
    getU64 fun v r => { r with Off := v }
    getCount fun v r => { r with Len := v }
    finish

/-- genout.go:1606-1628 -/
def unmarshalRwrite (b : Buffer) : Unm RwritePkt :=
  Dec.run (zero := {}) (b := b) do
    getTag
    getCount fun v r => { r with RLen := v }
    finish

/-- genout.go:1660-1704 -/
def unmarshalTwrite (b : Buffer) : Unm TwritePkt :=
  Dec.run (zero := {}) (b := b) do
    getTag
    getU32 fun v r => { r with OFID := v }
    getU64 fun v r => { r with Off := v }
    getData32 fun v r => { r with Data := v }
    finish

/-- genout.go:1806-1935.  The stat decoder skips the 2 byte length without looking at it, has no tag,
and does not complain about bytes left over. -/
def unmarshaldir (b : Buffer) : Unm Dir :=
  Dec.run (zero := {}) (b := b.next 2) do
    getU16 fun v r => { r with Typ := v }
    getU32 fun v r => { r with Dev := v }
    getQID fun f r => { r with QID := f r.QID }
    getU32 fun v r => { r with Mode := v }
    getU32 fun v r => { r with Atime := v }
    getU32 fun v r => { r with Mtime := v }
    getU64 fun v r => { r with Length := v }
    getString fun v r => { r with Name := v }
    getString fun v r => { r with User := v }
    getString fun v r => { r with Group := v }
    getString fun v r => { r with ModUser := v }

end Ninep
