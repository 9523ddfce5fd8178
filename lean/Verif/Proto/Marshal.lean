import Verif.Proto.Types
/-
The `Marshal*` functions of protocol/genout.go, one definition each.

Every generated function has the shape
    b.Reset(); b.Write(header and fields) ...; copy(b.Bytes(), 4 size bytes)
The parameters of the Go functions are passed as the packet struct of protocol/protocol.go that the
generator made them from.
-/

namespace Ninep

/-- `uint8(x>>0), uint8(x>>8)`; also `byte(t), byte(t>>8)` (e.g. genout.go:13, 409-410). -/
def put16 (x : UInt16) : Bytes := [x.toUInt8, (x >>> 8).toUInt8]

/-- `uint8(x>>0)` for a `uint8` (e.g. genout.go:199, 756). -/
def put8 (x : UInt8) : Bytes := [x >>> 0]

/-- `uint8(x>>0), …, uint8(x>>24)` (e.g. genout.go:57-60). -/
def put32 (x : UInt32) : Bytes :=
  [(x >>> 0).toUInt8, (x >>> 8).toUInt8, (x >>> 16).toUInt8, (x >>> 24).toUInt8]

/-- `uint8(x>>0), …, uint8(x>>56)` (e.g. genout.go:204-211). -/
def put64 (x : UInt64) : Bytes :=
  [(x >>> 0).toUInt8, (x >>> 8).toUInt8, (x >>> 16).toUInt8, (x >>> 24).toUInt8,
   (x >>> 32).toUInt8, (x >>> 40).toUInt8, (x >>> 48).toUInt8, (x >>> 56).toUInt8]

/-- `uint8(Len>>0), …, uint8(Len>>24)` for the signed `Count` (genout.go:1501-1504, 1594-1597);
`>>` on a signed integer is the arithmetic shift. -/
def putCount (x : Int32) : Bytes :=
  [(x >>> 0).toUInt32.toUInt8, (x >>> 8).toUInt32.toUInt8,
   (x >>> 16).toUInt32.toUInt8, (x >>> 24).toUInt32.toUInt8]

/-- `uint8(len(s)), uint8(len(s)>>8)` (e.g. genout.go:14). -/
def putLen16 (n : Nat) : Bytes := [UInt8.ofNat n, UInt8.ofNat (n >>> 8)]

/-- `uint8(len(Data)>>0), …, uint8(len(Data)>>24)` (genout.go:1445-1448), and the size patch
`uint8(l), …, uint8(l>>24)` (genout.go:20). -/
def putLen32 (n : Nat) : Bytes :=
  [UInt8.ofNat n, UInt8.ofNat (n >>> 8), UInt8.ofNat (n >>> 16), UInt8.ofNat (n >>> 24)]

/-- The three fields of a QID, written in order (e.g. genout.go:199-211). -/
def putQID (q : QID) : Bytes := put8 q.Typ ++ put32 q.Version ++ put64 q.Path

/-- The beginning of the first `b.Write` of every packet: `0,0,0,0, uint8(kind), byte(t), byte(t>>8)`
(e.g. genout.go:11-13). -/
def hdr (ty : MType) (t : Tag) : Bytes := [0, 0, 0, 0, ty] ++ put16 t

/-- `l = uint64(b.Len()); copy(b.Bytes(), []byte{uint8(l), …})` (e.g. genout.go:18-21). -/
def patchSize (b : Buffer) : Buffer := b.copyIn (putLen32 b.len)

/-- genout.go:8-23 -/
def marshalRerror (b : Buffer) (t : Tag) (p : RerrorPkt) : Buffer :=
  let b := b.reset
  let b := b.write (hdr MT.Rerror t ++ putLen16 p.Error.length)
  let b := b.write p.Error
  patchSize b

/-- genout.go:51-70 -/
def marshalRversion (b : Buffer) (t : Tag) (p : RversionPkt) : Buffer :=
  let b := b.reset
  let b := b.write (hdr MT.Rversion t ++ put32 p.RMsize ++ putLen16 p.RVersion.length)
  let b := b.write p.RVersion
  patchSize b

/-- genout.go:106-125 -/
def marshalTversion (b : Buffer) (t : Tag) (p : TversionPkt) : Buffer :=
  let b := b.reset
  let b := b.write (hdr MT.Tversion t ++ put32 p.TMsize ++ putLen16 p.TVersion.length)
  let b := b.write p.TVersion
  patchSize b

/-- genout.go:193-219 -/
def marshalRattach (b : Buffer) (t : Tag) (p : RattachPkt) : Buffer :=
  let b := b.reset
  let b := b.write (hdr MT.Rattach t ++ putQID p.QID)
  patchSize b

/-- genout.go:260-286 -/
def marshalTattach (b : Buffer) (t : Tag) (p : TattachPkt) : Buffer :=
  let b := b.reset
  let b := b.write (hdr MT.Tattach t ++ put32 p.SFID ++ put32 p.AFID ++ putLen16 p.Uname.length)
  let b := b.write p.Uname
  let b := b.write (putLen16 p.Aname.length)
  let b := b.write p.Aname
  patchSize b

/-- genout.go:374-387 -/
def marshalRflush (b : Buffer) (t : Tag) (_ : RflushPkt) : Buffer :=
  let b := b.reset
  let b := b.write (hdr MT.Rflush t)
  patchSize b

/-- genout.go:403-418 -/
def marshalTflush (b : Buffer) (t : Tag) (p : TflushPkt) : Buffer :=
  let b := b.reset
  let b := b.write (hdr MT.Tflush t ++ put16 p.OTag)
  patchSize b

/-- `for i := range QIDs { b.Write(…) }`, genout.go:481-496 -/
def writeQIDs (b : Buffer) : List QID → Buffer
  | [] => b
  | q :: qs => writeQIDs (b.write (putQID q)) qs

/-- genout.go:472-503 -/
def marshalRwalk (b : Buffer) (t : Tag) (p : RwalkPkt) : Buffer :=
  let b := b.reset
  let b := b.write (hdr MT.Rwalk t ++ putLen16 p.QIDs.length)
  let b := writeQIDs b p.QIDs
  patchSize b

/-- `for i := range Paths { b.Write(len); b.Write(Paths[i]) }`, genout.go:570-574 -/
def writePaths (b : Buffer) : List GoString → Buffer
  | [] => b
  | s :: ss => writePaths ((b.write (putLen16 s.length)).write s) ss

/-- genout.go:553-581 -/
def marshalTwalk (b : Buffer) (t : Tag) (p : TwalkPkt) : Buffer :=
  let b := b.reset
  let b := b.write (hdr MT.Twalk t ++ put32 p.SFID ++ put32 p.NewFID ++ putLen16 p.Paths.length)
  let b := writePaths b p.Paths
  patchSize b

/-- genout.go:666-696 -/
def marshalRopen (b : Buffer) (t : Tag) (p : RopenPkt) : Buffer :=
  let b := b.reset
  let b := b.write (hdr MT.Ropen t ++ putQID p.OQID ++ put32 p.IOUnit)
  patchSize b

/-- genout.go:745-763 -/
def marshalTopen (b : Buffer) (t : Tag) (p : TopenPkt) : Buffer :=
  let b := b.reset
  let b := b.write (hdr MT.Topen t ++ put32 p.OFID ++ put8 p.Omode)
  patchSize b

/-- genout.go:824-854 -/
def marshalRcreate (b : Buffer) (t : Tag) (p : RcreatePkt) : Buffer :=
  let b := b.reset
  let b := b.write (hdr MT.Rcreate t ++ putQID p.OQID ++ put32 p.IOUnit)
  patchSize b

/-- genout.go:903-928 -/
def marshalTcreate (b : Buffer) (t : Tag) (p : TcreatePkt) : Buffer :=
  let b := b.reset
  let b := b.write (hdr MT.Tcreate t ++ put32 p.OFID ++ putLen16 p.Name.length)
  let b := b.write p.Name
  let b := b.write (put32 p.CreatePerm ++ put8 p.Omode)
  patchSize b

/-- genout.go:1009-1025 -/
def marshalRstat (b : Buffer) (t : Tag) (p : RstatPkt) : Buffer :=
  let b := b.reset
  let b := b.write (hdr MT.Rstat t ++ putLen16 p.B.length)
  let b := b.write p.B
  patchSize b

/-- genout.go:1049-1066 -/
def marshalTstat (b : Buffer) (t : Tag) (p : TstatPkt) : Buffer :=
  let b := b.reset
  let b := b.write (hdr MT.Tstat t ++ put32 p.OFID)
  patchSize b

/-- genout.go:1122-1135 -/
def marshalRwstat (b : Buffer) (t : Tag) (_ : RwstatPkt) : Buffer :=
  let b := b.reset
  let b := b.write (hdr MT.Rwstat t)
  patchSize b

/-- genout.go:1151-1171 -/
def marshalTwstat (b : Buffer) (t : Tag) (p : TwstatPkt) : Buffer :=
  let b := b.reset
  let b := b.write (hdr MT.Twstat t ++ put32 p.OFID ++ putLen16 p.B.length)
  let b := b.write p.B
  patchSize b

/-- genout.go:1235-1248 -/
def marshalRclunk (b : Buffer) (t : Tag) (_ : RclunkPkt) : Buffer :=
  let b := b.reset
  let b := b.write (hdr MT.Rclunk t)
  patchSize b

/-- genout.go:1264-1281 -/
def marshalTclunk (b : Buffer) (t : Tag) (p : TclunkPkt) : Buffer :=
  let b := b.reset
  let b := b.write (hdr MT.Tclunk t ++ put32 p.OFID)
  patchSize b

/-- genout.go:1337-1350 -/
def marshalRremove (b : Buffer) (t : Tag) (_ : RremovePkt) : Buffer :=
  let b := b.reset
  let b := b.write (hdr MT.Rremove t)
  patchSize b

/-- genout.go:1366-1383 -/
def marshalTremove (b : Buffer) (t : Tag) (p : TremovePkt) : Buffer :=
  let b := b.reset
  let b := b.write (hdr MT.Tremove t ++ put32 p.OFID)
  patchSize b

/-- genout.go:1439-1457 -/
def marshalRread (b : Buffer) (t : Tag) (p : RreadPkt) : Buffer :=
  let b := b.reset
  let b := b.write (hdr MT.Rread t ++ putLen32 p.Data.length)
  let b := b.write p.Data
  patchSize b

/-- genout.go:1483-1512 -/
def marshalTread (b : Buffer) (t : Tag) (p : TreadPkt) : Buffer :=
  let b := b.reset
  let b := b.write (hdr MT.Tread t ++ put32 p.OFID ++ put64 p.Off ++ putCount p.Len)
  patchSize b

/-- genout.go:1588-1605 -/
def marshalRwrite (b : Buffer) (t : Tag) (p : RwritePkt) : Buffer :=
  let b := b.reset
  let b := b.write (hdr MT.Rwrite t ++ putCount p.RLen)
  patchSize b

/-- genout.go:1629-1659 -/
def marshalTwrite (b : Buffer) (t : Tag) (p : TwritePkt) : Buffer :=
  let b := b.reset
  let b := b.write (hdr MT.Twrite t ++ put32 p.OFID ++ put64 p.Off ++ putLen32 p.Data.length)
  let b := b.write p.Data
  patchSize b

/-- genout.go:1746-1805 -/
def marshaldir (b : Buffer) (d : Dir) : Buffer :=
  let b := b.reset
  let b := b.write [0, 0]
  let b := b.write (put16 d.Typ ++ put32 d.Dev ++ putQID d.QID ++ put32 d.Mode ++ put32 d.Atime
    ++ put32 d.Mtime ++ put64 d.Length ++ putLen16 d.Name.length)
  let b := b.write d.Name
  let b := b.write (putLen16 d.User.length)
  let b := b.write d.User
  let b := b.write (putLen16 d.Group.length)
  let b := b.write d.Group
  let b := b.write (putLen16 d.ModUser.length)
  let b := b.write d.ModUser
  -- l = uint64(b.Len()) - 2; copy(b.Bytes(), []byte{uint8(l), uint8(l>>8)})
  b.copyIn (putLen16 (b.len - 2))

end Ninep
