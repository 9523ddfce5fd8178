import Verif.Go.Bytes
/-
Types and constants of protocol/protocol.go.
-/

namespace Ninep

-- protocol/protocol.go:110-126
abbrev MType := UInt8
abbrev Mode := UInt8
abbrev Tag := UInt16
abbrev FID := UInt32
abbrev MaxSize := UInt32
/-- `Count` is a *signed* 32 bit integer (protocol/protocol.go:117). -/
abbrev Count := Int32
abbrev Perm := UInt32
abbrev Offset := UInt64

/-! 9P2000 message types, protocol/protocol.go:10-40 (`100 + iota`). -/
namespace MT
def Tversion : MType := 100
def Rversion : MType := 101
def Tauth : MType := 102
def Rauth : MType := 103
def Tattach : MType := 104
def Rattach : MType := 105
def Terror : MType := 106
def Rerror : MType := 107
def Tflush : MType := 108
def Rflush : MType := 109
def Twalk : MType := 110
def Rwalk : MType := 111
def Topen : MType := 112
def Ropen : MType := 113
def Tcreate : MType := 114
def Rcreate : MType := 115
def Tread : MType := 116
def Rread : MType := 117
def Twrite : MType := 118
def Rwrite : MType := 119
def Tclunk : MType := 120
def Rclunk : MType := 121
def Tremove : MType := 122
def Rremove : MType := 123
def Tstat : MType := 124
def Rstat : MType := 125
def Twstat : MType := 126
def Rwstat : MType := 127
def Tlast : MType := 128
end MT

/-! protocol/protocol.go:50-61, 64-74, 77-87, 89-96 -/
def QTDIR : UInt8 := 0x80
def QTSYMLINK : UInt8 := 0x02
def OREAD : UInt8 := 0x0
def OWRITE : UInt8 := 0x1
def ORDWR : UInt8 := 0x2
def OEXEC : UInt8 := 0x3
def OTRUNC : UInt8 := 0x10
def DMDIR : UInt32 := 0x80000000
def NOTAG : Tag := 0xFFFF
def NOFID : FID := 0xFFFFFFFF
/-- `NumTags = 1<<16 - 2` -/
def NumTags : Nat := 65534

/-- protocol/protocol.go:134-138 -/
structure QID where
  /-- `Type` in Go (a keyword here) -/
  Typ : UInt8 := 0
  Version : UInt32 := 0
  Path : UInt64 := 0
deriving DecidableEq, Repr

/-- protocol/protocol.go:141-153 -/
structure Dir where
  /-- `Type` in Go -/
  Typ : UInt16 := 0
  Dev : UInt32 := 0
  QID : Ninep.QID := {}
  Mode : UInt32 := 0
  Atime : UInt32 := 0
  Mtime : UInt32 := 0
  Length : UInt64 := 0
  Name : GoString := []
  User : GoString := []
  Group : GoString := []
  ModUser : GoString := []
deriving DecidableEq, Repr

/-! Packets, protocol/protocol.go:165-281.  The defaults are Go's zero values. -/

structure TversionPkt where
  TMsize : MaxSize := 0
  TVersion : GoString := []
deriving DecidableEq, Repr

structure RversionPkt where
  RMsize : MaxSize := 0
  RVersion : GoString := []
deriving DecidableEq, Repr

structure TattachPkt where
  SFID : FID := 0
  AFID : FID := 0
  Uname : GoString := []
  Aname : GoString := []
deriving DecidableEq, Repr

structure RattachPkt where
  QID : Ninep.QID := {}
deriving DecidableEq, Repr

structure TflushPkt where
  OTag : Tag := 0
deriving DecidableEq, Repr

structure RflushPkt where
deriving DecidableEq, Repr

structure TwalkPkt where
  SFID : FID := 0
  NewFID : FID := 0
  Paths : List GoString := []
deriving DecidableEq, Repr

structure RwalkPkt where
  QIDs : List QID := []
deriving DecidableEq, Repr

structure TopenPkt where
  OFID : FID := 0
  Omode : Mode := 0
deriving DecidableEq, Repr

structure RopenPkt where
  OQID : QID := {}
  IOUnit : MaxSize := 0
deriving DecidableEq, Repr

structure TcreatePkt where
  OFID : FID := 0
  Name : GoString := []
  CreatePerm : Perm := 0
  Omode : Mode := 0
deriving DecidableEq, Repr

structure RcreatePkt where
  OQID : QID := {}
  IOUnit : MaxSize := 0
deriving DecidableEq, Repr

structure TclunkPkt where
  OFID : FID := 0
deriving DecidableEq, Repr

structure RclunkPkt where
deriving DecidableEq, Repr

structure TremovePkt where
  OFID : FID := 0
deriving DecidableEq, Repr

structure RremovePkt where
deriving DecidableEq, Repr

structure TstatPkt where
  OFID : FID := 0
deriving DecidableEq, Repr

structure RstatPkt where
  B : Bytes := []
deriving DecidableEq, Repr

structure TwstatPkt where
  OFID : FID := 0
  B : Bytes := []
deriving DecidableEq, Repr

structure RwstatPkt where
deriving DecidableEq, Repr

structure TreadPkt where
  OFID : FID := 0
  Off : Offset := 0
  Len : Count := 0
deriving DecidableEq, Repr

structure RreadPkt where
  Data : Bytes := []
deriving DecidableEq, Repr

structure TwritePkt where
  OFID : FID := 0
  Off : Offset := 0
  Data : Bytes := []
deriving DecidableEq, Repr

structure RwritePkt where
  RLen : Count := 0
deriving DecidableEq, Repr

structure RerrorPkt where
  Error : GoString := []
deriving DecidableEq, Repr

structure DirPkt where
  D : Dir := {}
deriving DecidableEq, Repr

end Ninep
