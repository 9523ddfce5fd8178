import Verif.Gen.Model
/-
The packets that the generator is run on, as `reflect` shows them: protocol/protocol.go:109-153, 165-281 and the
list `packages` of gen.go:95-109.
-/

namespace Ninep.Gen
open Spec

/-- fields in order -/
def fields : List Ty → Fields
  | [] => .nil
  | t :: ts => .cons t (fields ts)

/-- protocol.go:141-153 -/
def dirTy : Ty := .struct (fields [.uint16, .uint32, qidTy, .uint32, .uint32, .uint32, .uint64, .string, .string, .string,
  .string])

/-- the fields of a T-packet, protocol.go:165-265 -/
def schemaT : TMsg → Fields
  | .version _ => fields [.uint32, .string]
  | .attach _ => fields [.uint32, .uint32, .string, .string]
  | .flush _ => fields [.uint16]
  | .walk _ => fields [.uint32, .uint32, .strings]
  | .open_ _ => fields [.uint32, .uint8]
  | .create _ => fields [.uint32, .string, .uint32, .uint8]
  | .stat _ => fields [.uint32]
  | .wstat _ => fields [.uint32, .dataCnt16]
  | .clunk _ => fields [.uint32]
  | .remove _ => fields [.uint32]
  | .read _ => fields [.uint32, .uint64, .int32]
  | .write _ => fields [.uint32, .uint64, .bytes]

/-- the fields of an R-packet, protocol.go:170-277 -/
def schemaR : RMsg → Fields
  | .error _ => fields [.string]
  | .version _ => fields [.uint32, .string]
  | .attach _ => fields [qidTy]
  | .flush _ => fields []
  | .walk _ => fields [.qids]
  | .open_ _ => fields [qidTy, .uint32]
  | .create _ => fields [qidTy, .uint32]
  | .stat _ => fields [.dataCnt16]
  | .wstat _ => fields []
  | .clunk _ => fields []
  | .remove _ => fields []
  | .read _ => fields [.bytes]
  | .write _ => fields [.int32]

/-- a QID as the tuple of its fields -/
def qidVal (q : QID) : QidVal := (q.Typ, q.Version, q.Path, ())
def ofQidVal (v : QidVal) : QID := ⟨v.1, v.2.1, v.2.2.1⟩

/-- the fields of a request as a tuple -/
def valT : (m : TMsg) → (schemaT m).Val
  | .version p => (p.TMsize, p.TVersion, ())
  | .attach p => (p.SFID, p.AFID, p.Uname, p.Aname, ())
  | .flush p => (p.OTag, ())
  | .walk p => (p.SFID, p.NewFID, p.Paths, ())
  | .open_ p => (p.OFID, p.Omode, ())
  | .create p => (p.OFID, p.Name, p.CreatePerm, p.Omode, ())
  | .stat p => (p.OFID, ())
  | .wstat p => (p.OFID, p.B, ())
  | .clunk p => (p.OFID, ())
  | .remove p => (p.OFID, ())
  | .read p => (p.OFID, p.Off, p.Len, ())
  | .write p => (p.OFID, p.Off, p.Data, ())

/-- the request of the same kind with these fields -/
def ofValT : (m : TMsg) → (schemaT m).Val → TMsg
  | .version _ => fun (v : UInt32 × GoString × Unit) => .version ⟨v.1, v.2.1⟩
  | .attach _ => fun (v : UInt32 × UInt32 × GoString × GoString × Unit) => .attach ⟨v.1, v.2.1, v.2.2.1, v.2.2.2.1⟩
  | .flush _ => fun (v : UInt16 × Unit) => .flush ⟨v.1⟩
  | .walk _ => fun (v : UInt32 × UInt32 × List GoString × Unit) => .walk ⟨v.1, v.2.1, v.2.2.1⟩
  | .open_ _ => fun (v : UInt32 × UInt8 × Unit) => .open_ ⟨v.1, v.2.1⟩
  | .create _ => fun (v : UInt32 × GoString × UInt32 × UInt8 × Unit) => .create ⟨v.1, v.2.1, v.2.2.1, v.2.2.2.1⟩
  | .stat _ => fun (v : UInt32 × Unit) => .stat ⟨v.1⟩
  | .wstat _ => fun (v : UInt32 × Bytes × Unit) => .wstat ⟨v.1, v.2.1⟩
  | .clunk _ => fun (v : UInt32 × Unit) => .clunk ⟨v.1⟩
  | .remove _ => fun (v : UInt32 × Unit) => .remove ⟨v.1⟩
  | .read _ => fun (v : UInt32 × UInt64 × Int32 × Unit) => .read ⟨v.1, v.2.1, v.2.2.1⟩
  | .write _ => fun (v : UInt32 × UInt64 × Bytes × Unit) => .write ⟨v.1, v.2.1, v.2.2.1⟩

/-- the fields of a reply as a tuple -/
def valR : (m : RMsg) → (schemaR m).Val
  | .error p => (p.Error, ())
  | .version p => (p.RMsize, p.RVersion, ())
  | .attach p => (qidVal p.QID, ())
  | .flush _ => ()
  | .walk p => (p.QIDs.map qidVal, ())
  | .open_ p => (qidVal p.OQID, p.IOUnit, ())
  | .create p => (qidVal p.OQID, p.IOUnit, ())
  | .stat p => (p.B, ())
  | .wstat _ => ()
  | .clunk _ => ()
  | .remove _ => ()
  | .read p => (p.Data, ())
  | .write p => (p.RLen, ())

/-- the reply of the same kind with these fields -/
def ofValR : (m : RMsg) → (schemaR m).Val → RMsg
  | .error _ => fun (v : GoString × Unit) => .error ⟨v.1⟩
  | .version _ => fun (v : UInt32 × GoString × Unit) => .version ⟨v.1, v.2.1⟩
  | .attach _ => fun (v : QidVal × Unit) => .attach ⟨ofQidVal v.1⟩
  | .flush _ => fun _ => .flush {}
  | .walk _ => fun (v : List QidVal × Unit) => .walk ⟨v.1.map ofQidVal⟩
  | .open_ _ => fun (v : QidVal × UInt32 × Unit) => .open_ ⟨ofQidVal v.1, v.2.1⟩
  | .create _ => fun (v : QidVal × UInt32 × Unit) => .create ⟨ofQidVal v.1, v.2.1⟩
  | .stat _ => fun (v : Bytes × Unit) => .stat ⟨v.1⟩
  | .wstat _ => fun _ => .wstat {}
  | .clunk _ => fun _ => .clunk {}
  | .remove _ => fun _ => .remove {}
  | .read _ => fun (v : Bytes × Unit) => .read ⟨v.1⟩
  | .write _ => fun (v : Int32 × Unit) => .write ⟨v.1⟩

/-- the fields of a `DirPkt`, protocol.go:279-281 -/
def schemaDir : Fields := fields [dirTy]

abbrev DirVal := UInt16 × UInt32 × QidVal × UInt32 × UInt32 × UInt32 × UInt64 × GoString × GoString × GoString × GoString × Unit

def valDir (d : Dir) : schemaDir.Val :=
  ((d.Typ, d.Dev, qidVal d.QID, d.Mode, d.Atime, d.Mtime, d.Length, d.Name, d.User, d.Group, d.ModUser, ()), ())

def ofValDir : schemaDir.Val → Dir := fun (v : DirVal × Unit) =>
  ⟨v.1.1, v.1.2.1, ofQidVal v.1.2.2.1, v.1.2.2.2.1, v.1.2.2.2.2.1, v.1.2.2.2.2.2.1, v.1.2.2.2.2.2.2.1,
   v.1.2.2.2.2.2.2.2.1, v.1.2.2.2.2.2.2.2.2.1, v.1.2.2.2.2.2.2.2.2.2.1, v.1.2.2.2.2.2.2.2.2.2.2.1⟩

/-- nothing is lost between structs and tuples -/
theorem ofValT_valT (m : TMsg) : ofValT m (valT m) = m := by cases m <;> rfl

theorem ofValR_valR (m : RMsg) : ofValR m (valR m) = m := by
  cases m with
  | walk p =>
    show RMsg.walk ⟨(p.QIDs.map qidVal).map ofQidVal⟩ = _
    rw [List.map_map]
    have : ofQidVal ∘ qidVal = id := rfl
    rw [this, List.map_id]
  | _ => rfl

theorem ofValDir_valDir (d : Dir) : ofValDir (valDir d) = d := rfl

end Ninep.Gen
