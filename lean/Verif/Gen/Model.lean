import Verif.Proto.Codec
/-
The generator protocol/gen.go, which writes protocol/genout.go.

A packet is described by the types of its fields, as `reflect` shows them to the generator.  The generator
writes text; modelled is what that text means:
 * The text of an encoder is a flat sequence of tokens, written with the help of the flag `inBWrite`.
   `parse` groups the tokens into statements, as the Go compiler does; it fails if a `b.Write([]byte{` or a
   loop is not closed properly.
 * The text of a decoder is a sequence of the statements of Proto/Unmarshal.lean.
A name `n` in the text is modelled by what it refers to: in an encoder by the function that reads it off the
parameters (and the loop variable `i`), in a decoder by the function that changes it in the results.  Names,
parameter lists and the stubs made from the templates `sfunc` and `cfunc` are in Gen/Stubs.lean.
-/

namespace Ninep.Gen

mutual
/-- a type as seen by `reflect` in `genEncodeData`, gen.go:355-380, and `genEncodeSlice`, gen.go:272-318 -/
inductive Ty where
  | uint8 | uint16 | uint32 | int32 | uint64 | string
  | struct (fs : Fields)
  /-- `[]string` -/
  | strings
  /-- `[]QID` -/
  | qids
  /-- `[]byte` -/
  | bytes
  /-- `[]DataCnt16` -/
  | dataCnt16
  /-- anything else; stands for `bool`, `int`, `[]uint32` and so on -/
  | other
/-- the types of the fields of a struct, in order -/
inductive Fields where
  | nil
  | cons (t : Ty) (fs : Fields)
end

/-- protocol.go:134-138 -/
def qidTy : Ty := .struct (.cons .uint8 (.cons .uint32 (.cons .uint64 .nil)))

/-- a QID as a tuple -/
abbrev QidVal := UInt8 × UInt32 × UInt64 × Unit

mutual
/-- the values of a type -/
def Ty.Val : Ty → Type
  | .uint8 => UInt8
  | .uint16 => UInt16
  | .uint32 => UInt32
  | .int32 => Int32
  | .uint64 => UInt64
  | .string => GoString
  | .struct fs => fs.Val
  | .strings => List GoString
  | .qids => List QidVal
  | .bytes => Bytes
  | .dataCnt16 => Bytes
  | .other => Bool
def Fields.Val : Fields → Type
  | .nil => Unit
  | .cons t fs => t.Val × fs.Val
end

mutual
/-- zero values -/
def Ty.zero : (t : Ty) → t.Val
  | .uint8 => (0 : UInt8)
  | .uint16 => (0 : UInt16)
  | .uint32 => (0 : UInt32)
  | .int32 => (0 : Int32)
  | .uint64 => (0 : UInt64)
  | .string => ([] : GoString)
  | .struct fs => fs.zero
  | .strings => ([] : List GoString)
  | .qids => ([] : List QidVal)
  | .bytes => ([] : Bytes)
  | .dataCnt16 => ([] : Bytes)
  | .other => false
def Fields.zero : (fs : Fields) → fs.Val
  | .nil => ()
  | .cons t fs => (t.zero, fs.zero)
end

/-! ### encoders -/

/-- A piece of encoder text.  `ρ` is the type of the parameters; expressions can also use `i`. -/
inductive Tok (ρ : Type) where
  /-- `b.Write([]byte{` -/
  | open_
  /-- one element `uint8(…),` -/
  | byte (e : ρ → Nat → Byte)
  /-- `})` -/
  | close
  /-- `b.Write(…)` -/
  | write (e : ρ → Nat → Bytes)
  /-- `for i := range … {`, where the range has this length -/
  | forRange (n : ρ → Nat)
  /-- `}` -/
  | endFor

/-- `MCode` and `inBWrite` of an `emitter`, gen.go:49-65 -/
structure Em (ρ : Type) where
  code : List (Tok ρ) := []
  inBWrite : Bool

section
variable {ρ : Type}

/-- `e.MCode.WriteString` -/
def Em.put (e : Em ρ) (t : Tok ρ) : Em ρ := { e with code := e.code ++ [t] }

/-- `if !e.inBWrite { … }`, gen.go:209-212, 229-232 -/
def Em.begin (e : Em ρ) : Em ρ := if e.inBWrite then e else { e.put .open_ with inBWrite := true }

/-- `if e.inBWrite { … }`, e.g. gen.go:278-281 -/
def Em.end_ (e : Em ρ) : Em ρ := if e.inBWrite then { e.put .close with inBWrite := false } else e

/-- The loop of gen.go:208-214 from `i` on, `k` more times; `n r j i` is `uint8(n>>(8*i))`. -/
def emitBytes (n : ρ → Nat → Nat → Byte) : (k i : Nat) → Em ρ → Em ρ
  | 0, _, e => e
  | k + 1, i, e => emitBytes n k (i + 1) (e.begin.put (.byte fun r j => n r j i))

/-- gen.go:206-215 -/
def emitEncodeInt (n : ρ → Nat → Nat → Byte) (l : Nat) (e : Em ρ) : Em ρ := emitBytes n l 0 e

/-- `uint8(len(n)>>(8*i))` -/
def lenByte (n : ρ → Nat → Nat) : ρ → Nat → Nat → Byte := fun r j i => UInt8.ofNat (n r j >>> (8 * i))

/-- gen.go:228-237 -/
def emitEncodeString (n : ρ → Nat → GoString) (e : Em ρ) : Em ρ :=
  let e := e.begin
  let e := e.put (.byte fun r j => lenByte (fun r j => (n r j).length) r j 0)
  let e := e.put (.byte fun r j => lenByte (fun r j => (n r j).length) r j 1)
  let e := { e.put .close with inBWrite := false }
  e.put (.write n)

/-- `uint8(n>>(8*i))` for each kind of integer -/
def shr8 (n : ρ → Nat → UInt8) : ρ → Nat → Nat → Byte := fun r j i => n r j >>> UInt8.ofNat (8 * i)
def shr16 (n : ρ → Nat → UInt16) : ρ → Nat → Nat → Byte := fun r j i => (n r j >>> UInt16.ofNat (8 * i)).toUInt8
def shr32 (n : ρ → Nat → UInt32) : ρ → Nat → Nat → Byte := fun r j i => (n r j >>> UInt32.ofNat (8 * i)).toUInt8
def shrI32 (n : ρ → Nat → Int32) : ρ → Nat → Nat → Byte := fun r j i => (n r j >>> Int32.ofNat (8 * i)).toUInt32.toUInt8
def shr64 (n : ρ → Nat → UInt64) : ρ → Nat → Nat → Byte := fun r j i => (n r j >>> UInt64.ofNat (8 * i)).toUInt8

/-- `n[i]` -/
def elem {α : Type} (d : α) (n : ρ → Nat → List α) : ρ → Nat → α := fun r j => (n r j).getD j d

/-- `genEncodeStruct`, gen.go:247-257, for the three fields of a QID (see `encodeQID_eq`) -/
def encodeQID (n : ρ → Nat → QidVal) (e : Em ρ) : Em ρ :=
  let e := emitEncodeInt (shr8 fun r j => (n r j).1) 1 e
  let e := emitEncodeInt (shr32 fun r j => (n r j).2.1) 4 e
  emitEncodeInt (shr64 fun r j => (n r j).2.2.1) 8 e

/-- gen.go:275-285 -/
def genEncodeStrings (n : ρ → Nat → List GoString) (e : Em ρ) : Em ρ :=
  let e := emitEncodeInt (lenByte fun r j => (n r j).length) 2 e
  let e := e.end_
  let e := e.put (.forRange fun r => (n r 0).length)
  let e := emitEncodeString (elem [] n) e
  e.put .endFor

/-- gen.go:286-297 -/
def genEncodeQIDs (n : ρ → Nat → List QidVal) (e : Em ρ) : Em ρ :=
  let e := emitEncodeInt (lenByte fun r j => (n r j).length) 2 e
  let e := e.end_
  let e := e.put (.forRange fun r => (n r 0).length)
  let e := encodeQID (elem (0, 0, 0, ()) n) e
  let e := { e.put .close with inBWrite := false }
  e.put .endFor

/-- gen.go:298-305 (`k` = 4) and 306-313 (`k` = 2) -/
def genEncodeBytes (k : Nat) (n : ρ → Nat → Bytes) (e : Em ρ) : Em ρ :=
  let e := emitEncodeInt (lenByte fun r j => (n r j).length) k e
  let e := e.end_
  e.put (.write n)

end

mutual
/-- gen.go:355-380 with `genEncodeSlice`, gen.go:272-318.  An unknown type is only logged: nothing is written. -/
def genEncodeData {ρ : Type} : (t : Ty) → (n : ρ → Nat → t.Val) → Em ρ → Em ρ
  | .uint8, n, e => emitEncodeInt (shr8 n) 1 e
  | .uint16, n, e => emitEncodeInt (shr16 n) 2 e
  | .uint32, n, e => emitEncodeInt (shr32 n) 4 e
  | .int32, n, e => emitEncodeInt (shrI32 n) 4 e
  | .uint64, n, e => emitEncodeInt (shr64 n) 8 e
  | .string, n, e => emitEncodeString n e
  | .struct fs, n, e => genEncodeStruct fs n e
  | .strings, n, e => genEncodeStrings n e
  | .qids, n, e => genEncodeQIDs n e
  | .bytes, n, e => genEncodeBytes 4 n e
  | .dataCnt16, n, e => genEncodeBytes 2 n e
  | .other, _, e => e
/-- gen.go:247-257 -/
def genEncodeStruct {ρ : Type} : (fs : Fields) → (n : ρ → Nat → fs.Val) → Em ρ → Em ρ
  | .nil, _, e => e
  | .cons t fs, n, e => genEncodeStruct fs (fun r j => (n r j).2) (genEncodeData t (fun r j => (n r j).1) e)
end

/-- a statement of an encoder without loops -/
inductive Simple (ρ : Type) where
  /-- `b.Write([]byte{…})` -/
  | lit (es : List (ρ → Nat → Byte))
  /-- `b.Write(…)` -/
  | all (e : ρ → Nat → Bytes)

inductive Stmt (ρ : Type) where
  | simple (s : Simple ρ)
  | forRange (n : ρ → Nat) (body : List (Simple ρ))

/-- What has been read of an encoder: the statements before, the elements of the `b.Write([]byte{` and the
statements of the loop that are not closed yet. -/
structure PSt (ρ : Type) where
  done : List (Stmt ρ) := []
  w : Option (List (ρ → Nat → Byte)) := none
  f : Option ((ρ → Nat) × List (Simple ρ)) := none

section
variable {ρ : Type}

/-- a complete statement -/
def PSt.add (st : PSt ρ) (s : Simple ρ) : PSt ρ :=
  match st.f with
  | none => { st with done := st.done ++ [.simple s], w := none }
  | some (n, ss) => { st with f := some (n, ss ++ [s]), w := none }

/-- read one token; `none` is a syntax error -/
def pstep (st : PSt ρ) : Tok ρ → Option (PSt ρ)
  | .open_ => match st.w with
    | none => some { st with w := some [] }
    | some _ => none
  | .byte e => match st.w with
    | none => none
    | some es => some { st with w := some (es ++ [e]) }
  | .close => match st.w with
    | none => none
    | some es => some (st.add (.lit es))
  | .write e => match st.w with
    | none => some (st.add (.all e))
    | some _ => none
  | .forRange n => match st.w, st.f with
    | none, none => some { st with f := some (n, []) }
    | _, _ => none
  | .endFor => match st.w, st.f with
    | none, some (n, ss) => some { st with done := st.done ++ [.forRange n ss], f := none }
    | _, _ => none

def psteps (st : PSt ρ) (code : List (Tok ρ)) : Option (PSt ρ) := code.foldlM pstep st

/-- the statements of a text -/
def parse (code : List (Tok ρ)) : Option (List (Stmt ρ)) :=
  match psteps {} code with
  | some st => match st.w, st.f with
    | none, none => some st.done
    | _, _ => none
  | none => none

/-- run a statement with the loop variable `j` -/
def Simple.exec (r : ρ) (j : Nat) (s : Simple ρ) (b : Buffer) : Buffer :=
  match s with
  | .lit es => b.write (es.map fun e => e r j)
  | .all e => b.write (e r j)

def execBody (r : ρ) (j : Nat) : List (Simple ρ) → Buffer → Buffer
  | [], b => b
  | s :: ss, b => execBody r j ss (s.exec r j b)

/-- `for i := range n { … }` from `j` on, `k` more times -/
def execLoop (r : ρ) (body : List (Simple ρ)) : (k j : Nat) → Buffer → Buffer
  | 0, _, b => b
  | k + 1, j, b => execLoop r body k (j + 1) (execBody r j body b)

def Stmt.exec (r : ρ) (s : Stmt ρ) (b : Buffer) : Buffer :=
  match s with
  | .simple s => s.exec r 0 b
  | .forRange n body => execLoop r body (n r) 0 b

def execAll (r : ρ) : List (Stmt ρ) → Buffer → Buffer
  | [], b => b
  | s :: ss, b => execAll r ss (s.exec r b)

end

/-- The text of `Marshal…Pkt` between `b.Reset()` and the patching of the size: the template `mfunc`,
gen.go:129-142, whose first `b.Write([]byte{` is left open, then the fields, then gen.go:464-467, 475-478.
The parameters are the tag and the fields. -/
def packetCode (ty : MType) (fs : Fields) : List (Tok (Tag × fs.Val)) :=
  let pro : List (Tok (Tag × fs.Val)) := [.open_, .byte fun _ _ => 0, .byte fun _ _ => 0, .byte fun _ _ => 0,
    .byte fun _ _ => 0, .byte fun _ _ => ty, .byte fun r _ => r.1.toUInt8, .byte fun r _ => (r.1 >>> 8).toUInt8]
  let e : Em (Tag × fs.Val) := genEncodeStruct fs (fun r _ => r.2) { inBWrite := true }
  pro ++ e.end_.code

/-- The encoder generated for a packet with these fields; `none` if its text is not a Go program. -/
def genMarshal (ty : MType) (fs : Fields) (b : Buffer) (t : Tag) (v : fs.Val) : Option Buffer :=
  match parse (packetCode ty fs) with
  | none => none
  | some ss => some (patchSize (execAll (t, v) ss b.reset))

/-- The text of `Marshaldir`: the template `msfunc`, gen.go:110-119, with gen.go:534-537.  Nothing closes
an open `b.Write([]byte{`. -/
def dirCode (fs : Fields) : List (Tok fs.Val) :=
  let pro : List (Tok fs.Val) := [.open_, .byte fun _ _ => 0, .byte fun _ _ => 0, .close]
  let e : Em fs.Val := genEncodeStruct fs (fun r _ => r) { inBWrite := false }
  pro ++ e.code

def genMarshaldir (fs : Fields) (b : Buffer) (v : fs.Val) : Option Buffer :=
  match parse (dirCode fs) with
  | none => none
  | some ss =>
    let b := execAll v ss b.reset
    some (b.copyIn (putLen16 (b.len - 2)))

/-! ### decoders -/

open Dec

/-- `genDecodeStruct`, gen.go:259-269, for the three fields of a QID (see `decodeQID_eq`) -/
def decodeQID {R : Type} (n : (QidVal → QidVal) → R → R) : Dec R Unit := do
  getU8 fun v => n fun q => (v, q.2)
  getU32 fun v => n fun q => (q.1, v, q.2.2)
  getU64 fun v => n fun q => (q.1, q.2.1, v, q.2.2.2)
  pure ()

mutual
/-- gen.go:382-408 with `genDecodeSlice`, gen.go:320-353, and `emitDecodeInt`, `emitDecodeString`,
gen.go:217-225, 239-245.  `n f` applies `f` to the variable named `n`.  An unknown type is only logged. -/
def genDecodeData {R : Type} : (t : Ty) → (n : (t.Val → t.Val) → R → R) → Dec R Unit
  | .uint8, n => getU8 fun v => n fun _ => v
  | .uint16, n => getU16 fun v => n fun _ => v
  | .uint32, n => getU32 fun v => n fun _ => v
  | .int32, n => getCount fun v => n fun _ => v
  | .uint64, n => getU64 fun v => n fun _ => v
  | .string, n => getString fun v => n fun _ => v
  | .struct fs, n => genDecodeStruct fs n
  | .strings, n => do
    let u ← readU 2 (.shortInt 16)
    setR (n fun _ => List.replicate (asmLen16 u).toNat [])
    forRange (fun i => getString fun v => n fun (xs : List GoString) => xs.set i v) (asmLen16 u).toNat 0
  | .qids, n => do
    let u ← readU 2 (.shortInt 16)
    setR (n fun _ => List.replicate (asmLen16 u).toNat (0, 0, 0, ()))
    forRange (fun i => decodeQID fun f => n fun (xs : List QidVal) => xs.modify i f) (asmLen16 u).toNat 0
  | .bytes, n => getData32 fun v => n fun _ => v
  | .dataCnt16, n => getData16 fun v => n fun _ => v
  | .other, _ => pure ()
/-- gen.go:259-269 -/
def genDecodeStruct {R : Type} : (fs : Fields) → (n : (fs.Val → fs.Val) → R → R) → Dec R Unit
  | .nil, _ => pure ()
  | .cons t fs, n => do
    genDecodeData t fun f => n fun v => (f v.1, v.2)
    genDecodeStruct fs fun f => n fun v => (v.1, f v.2)
end

/-- The body of `Unmarshal…Pkt`: the template `ufunc`, gen.go:143-158. -/
def genUnmarshalBody {R : Type} (fs : Fields) (n : (fs.Val → fs.Val) → R → R) : Dec R Unit := do
  getTag
  genDecodeStruct fs n
  finish

/-- the decoder generated for a packet with these fields -/
def genUnmarshal (fs : Fields) (b : Buffer) : Unm fs.Val :=
  Dec.run (genUnmarshalBody fs fun f => f) fs.zero b

/-- `Unmarshaldir`: the template `usfunc`, gen.go:120-128 -/
def genUnmarshaldir (fs : Fields) (b : Buffer) : Unm fs.Val :=
  Dec.run (genDecodeStruct fs fun f => f) fs.zero (b.next 2)

/-- the treatment of QIDs inside slices is that of structs -/
theorem encodeQID_eq {ρ : Type} (n : ρ → Nat → QidVal) (e : Em ρ) : encodeQID n e = genEncodeData qidTy n e := rfl

theorem decodeQID_eq {R : Type} (n : (QidVal → QidVal) → R → R) : decodeQID n = genDecodeData qidTy n := rfl

end Ninep.Gen
