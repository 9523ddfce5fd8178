import Verif.Gen.Model
import Verif.Spec.Wire
/-
The wire format of a packet with arbitrary fields: the rules of intro(5) by type.  Nothing here refers to
what the generator does.
-/

namespace Ninep.Gen
open Spec

mutual
/-- the bytes of a value -/
def wire : (t : Ty) → t.Val → Bytes
  | .uint8, (v : UInt8) => le 1 v.toNat
  | .uint16, (v : UInt16) => le 2 v.toNat
  | .uint32, (v : UInt32) => le 4 v.toNat
  | .int32, (v : Int32) => le 4 v.toUInt32.toNat
  | .uint64, (v : UInt64) => le 8 v.toNat
  | .string, (v : GoString) => str v
  | .struct fs, v => wireFields fs v
  | .strings, (v : List GoString) => le 2 v.length ++ (v.map str).flatten
  | .qids, (v : List QidVal) =>
    le 2 v.length ++ (v.map fun q => le 1 q.1.toNat ++ le 4 q.2.1.toNat ++ le 8 q.2.2.1.toNat).flatten
  | .bytes, (v : Bytes) => le 4 v.length ++ v
  | .dataCnt16, (v : Bytes) => le 2 v.length ++ v
  | .other, _ => []
def wireFields : (fs : Fields) → fs.Val → Bytes
  | .nil, _ => []
  | .cons t fs, v => wire t v.1 ++ wireFields fs v.2
end

mutual
/-- the types that 9P has a format for -/
def Ty.Supported : Ty → Prop
  | .struct fs => fs.Supported
  | .other => False
  | _ => True
def Fields.Supported : Fields → Prop
  | .nil => True
  | .cons t fs => t.Supported ∧ fs.Supported
end

mutual
/-- the values whose counts fit -/
def Ty.Fits : (t : Ty) → t.Val → Prop
  | .string, (v : GoString) => v.length < 2 ^ 16
  | .struct fs, v => fs.Fits v
  | .strings, (v : List GoString) => v.length < 2 ^ 16 ∧ ∀ s ∈ v, s.length < 2 ^ 16
  | .qids, (v : List QidVal) => v.length < 2 ^ 16
  | .bytes, (v : Bytes) => v.length < 2 ^ 32
  | .dataCnt16, (v : Bytes) => v.length < 2 ^ 16
  | .uint8, _ => True
  | .uint16, _ => True
  | .uint32, _ => True
  | .int32, _ => True
  | .uint64, _ => True
  | .other, _ => True
def Fields.Fits : (fs : Fields) → fs.Val → Prop
  | .nil, _ => True
  | .cons t fs, v => t.Fits v.1 ∧ fs.Fits v.2
end

mutual
/-- Is the last thing in the format a number?  (`d`: if the type has no contents.) -/
def Ty.endsInNumber : Ty → (d : Bool) → Bool
  | .uint8, _ => true
  | .uint16, _ => true
  | .uint32, _ => true
  | .int32, _ => true
  | .uint64, _ => true
  | .string, _ => false
  | .struct fs, d => fs.endsInNumber d
  | .strings, _ => false
  | .qids, _ => false
  | .bytes, _ => false
  | .dataCnt16, _ => false
  | .other, d => d
def Fields.endsInNumber : Fields → (d : Bool) → Bool
  | .nil, d => d
  | .cons t fs, d => fs.endsInNumber (t.endsInNumber d)
end

end Ninep.Gen
