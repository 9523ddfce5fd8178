import Verif.Proto.Types
/-
An independent description of the 9P2000 wire format, as intro(5) gives it:
    size[4] type[1] tag[2] field...
with little endian integers, strings as s[2] count + bytes, `nwname[2] nwname*(wname[s])`,
`nwqid[2] nwqid*(wqid[13])`, `count[4] data[count]` and `stat[n]` as n[2] + bytes.
Nothing here refers to the encoders or decoders.
-/

namespace Ninep.Spec

/-- `n`-byte little endian representation of the number `x` (modulo `256^n`). -/
def le : (n : Nat) → (x : Nat) → Bytes
  | 0, _ => []
  | n + 1, x => UInt8.ofNat (x % 256) :: le n (x / 256)

/-- the number a little endian byte string stands for -/
def leVal : Bytes → Nat
  | [] => 0
  | b :: bs => b.toNat + 256 * leVal bs

/-- string: `len[2]` and the bytes -/
def str (s : GoString) : Bytes := le 2 s.length ++ s

/-- `qid[13] = type[1] version[4] path[8]` -/
def qid (q : QID) : Bytes := le 1 q.Typ.toNat ++ le 4 q.Version.toNat ++ le 8 q.Path.toNat

/-- a request: the union of the T-packets -/
inductive TMsg where
  | version (p : TversionPkt)
  | attach (p : TattachPkt)
  | flush (p : TflushPkt)
  | walk (p : TwalkPkt)
  | open_ (p : TopenPkt)
  | create (p : TcreatePkt)
  | stat (p : TstatPkt)
  | wstat (p : TwstatPkt)
  | clunk (p : TclunkPkt)
  | remove (p : TremovePkt)
  | read (p : TreadPkt)
  | write (p : TwritePkt)
deriving DecidableEq, Repr

/-- a reply: the union of the R-packets -/
inductive RMsg where
  | error (p : RerrorPkt)
  | version (p : RversionPkt)
  | attach (p : RattachPkt)
  | flush (p : RflushPkt)
  | walk (p : RwalkPkt)
  | open_ (p : RopenPkt)
  | create (p : RcreatePkt)
  | stat (p : RstatPkt)
  | wstat (p : RwstatPkt)
  | clunk (p : RclunkPkt)
  | remove (p : RremovePkt)
  | read (p : RreadPkt)
  | write (p : RwritePkt)
deriving DecidableEq, Repr

/-- 9P2000 message numbers -/
def TMsg.type : TMsg → Nat
  | .version _ => 100 | .attach _ => 104 | .flush _ => 108 | .walk _ => 110 | .open_ _ => 112
  | .create _ => 114 | .read _ => 116 | .write _ => 118 | .clunk _ => 120 | .remove _ => 122
  | .stat _ => 124 | .wstat _ => 126

def RMsg.type : RMsg → Nat
  | .error _ => 107 | .version _ => 101 | .attach _ => 105 | .flush _ => 109 | .walk _ => 111
  | .open_ _ => 113 | .create _ => 115 | .read _ => 117 | .write _ => 119 | .clunk _ => 121
  | .remove _ => 123 | .stat _ => 125 | .wstat _ => 127

/-- the fields of a request, in wire order -/
def TMsg.fields : TMsg → Bytes
  | .version p => le 4 p.TMsize.toNat ++ str p.TVersion
  | .attach p => le 4 p.SFID.toNat ++ le 4 p.AFID.toNat ++ str p.Uname ++ str p.Aname
  | .flush p => le 2 p.OTag.toNat
  | .walk p => le 4 p.SFID.toNat ++ le 4 p.NewFID.toNat ++ le 2 p.Paths.length
      ++ (p.Paths.map str).flatten
  | .open_ p => le 4 p.OFID.toNat ++ le 1 p.Omode.toNat
  | .create p => le 4 p.OFID.toNat ++ str p.Name ++ le 4 p.CreatePerm.toNat ++ le 1 p.Omode.toNat
  | .read p => le 4 p.OFID.toNat ++ le 8 p.Off.toNat ++ le 4 p.Len.toUInt32.toNat
  | .write p => le 4 p.OFID.toNat ++ le 8 p.Off.toNat ++ le 4 p.Data.length ++ p.Data
  | .clunk p => le 4 p.OFID.toNat
  | .remove p => le 4 p.OFID.toNat
  | .stat p => le 4 p.OFID.toNat
  | .wstat p => le 4 p.OFID.toNat ++ le 2 p.B.length ++ p.B

/-- the fields of a reply, in wire order -/
def RMsg.fields : RMsg → Bytes
  | .error p => str p.Error
  | .version p => le 4 p.RMsize.toNat ++ str p.RVersion
  | .attach p => qid p.QID
  | .flush _ => []
  | .walk p => le 2 p.QIDs.length ++ (p.QIDs.map qid).flatten
  | .open_ p => qid p.OQID ++ le 4 p.IOUnit.toNat
  | .create p => qid p.OQID ++ le 4 p.IOUnit.toNat
  | .read p => le 4 p.Data.length ++ p.Data
  | .write p => le 4 p.RLen.toUInt32.toNat
  | .clunk _ => []
  | .remove _ => []
  | .stat p => le 2 p.B.length ++ p.B
  | .wstat _ => []

/-- what follows the size and the type: tag and fields -/
def TMsg.body (t : Tag) (m : TMsg) : Bytes := le 2 t.toNat ++ m.fields
def RMsg.body (t : Tag) (m : RMsg) : Bytes := le 2 t.toNat ++ m.fields

/-- a packet: `size[4] type[1] body`; the size counts the whole packet -/
def packet (type : Nat) (body : Bytes) : Bytes := le 4 (4 + 1 + body.length) ++ le 1 type ++ body

/-- the packet of a request / a reply -/
def TMsg.packet (t : Tag) (m : TMsg) : Bytes := Spec.packet m.type (m.body t)
def RMsg.packet (t : Tag) (m : RMsg) : Bytes := Spec.packet m.type (m.body t)

/-- the stat record: `size[2] type[2] dev[4] qid[13] mode[4] atime[4] mtime[4] length[8] name[s]
uid[s] gid[s] muid[s]`; the size does not count itself -/
def dirFields (d : Dir) : Bytes :=
  le 2 d.Typ.toNat ++ le 4 d.Dev.toNat ++ qid d.QID ++ le 4 d.Mode.toNat ++ le 4 d.Atime.toNat
  ++ le 4 d.Mtime.toNat ++ le 8 d.Length.toNat ++ str d.Name ++ str d.User ++ str d.Group
  ++ str d.ModUser

def dir (d : Dir) : Bytes := le 2 (dirFields d).length ++ dirFields d

/-- The values that the wire format can carry: counts must fit their fields. -/
def TMsg.Fits : TMsg → Prop
  | .version p => p.TVersion.length < 2^16
  | .attach p => p.Uname.length < 2^16 ∧ p.Aname.length < 2^16
  | .walk p => p.Paths.length < 2^16 ∧ ∀ s ∈ p.Paths, s.length < 2^16
  | .create p => p.Name.length < 2^16
  | .write p => p.Data.length < 2^32
  | .wstat p => p.B.length < 2^16
  | _ => True

def RMsg.Fits : RMsg → Prop
  | .error p => p.Error.length < 2^16
  | .version p => p.RVersion.length < 2^16
  | .walk p => p.QIDs.length < 2^16
  | .read p => p.Data.length < 2^32
  | .stat p => p.B.length < 2^16
  | _ => True

def DirFits (d : Dir) : Prop :=
  d.Name.length < 2^16 ∧ d.User.length < 2^16 ∧ d.Group.length < 2^16 ∧ d.ModUser.length < 2^16

end Ninep.Spec
