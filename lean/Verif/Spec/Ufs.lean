import Verif.Spec.Wire
import Verif.Spec.Path
/-
Notions for stating the properties of the file server.  Refers to nothing in Verif/Ufs.
-/

namespace Ninep.Spec

/-- the fids a request names -/
def fids : TMsg → List FID
  | .version _ => []
  | .attach p => [p.SFID]
  | .flush _ => []
  | .walk p => [p.SFID, p.NewFID]
  | .open_ p => [p.OFID]
  | .create p => [p.OFID]
  | .stat p => [p.OFID]
  | .wstat p => [p.OFID]
  | .clunk p => [p.OFID]
  | .remove p => [p.OFID]
  | .read p => [p.OFID]
  | .write p => [p.OFID]

/-- the fid that has to be in use already -/
def workFid : TMsg → Option FID
  | .version _ => none
  | .attach _ => none
  | .flush _ => none
  | .walk p => some p.SFID
  | .open_ p => some p.OFID
  | .create p => some p.OFID
  | .stat p => some p.OFID
  | .wstat p => some p.OFID
  | .clunk p => some p.OFID
  | .remove p => some p.OFID
  | .read p => some p.OFID
  | .write p => some p.OFID

/-- an answered request -/
structure Event where
  req : TMsg
  rep : Except GoString RMsg

/-- the answered request put `i` into use: a successful attach of it, or a successful and complete walk
to it (a clone is a complete walk of no elements) -/
def Event.starts (e : Event) (i : FID) : Prop :=
  match e.req, e.rep with
  | .attach p, .ok _ => p.SFID = i
  | .walk p, .ok (.walk r) => p.NewFID = i ∧ r.QIDs.length = p.Paths.length
  | _, _ => False

/-- a clunk or remove of `i`, whatever the answer -/
def Event.ends (e : Event) (i : FID) : Prop :=
  match e.req with
  | .clunk p => p.OFID = i
  | .remove p => p.OFID = i
  | _ => False

/-- `i` was put into use and not clunked or removed since -/
def inUse (h : List Event) (i : FID) : Prop :=
  ∃ a e b, h = a ++ e :: b ∧ e.starts i ∧ ∀ x ∈ b, ¬ x.ends i

/-- what a client knows about a fid -/
structure Known where
  qid : QID
  isOpen : Bool
deriving DecidableEq

/-- What a client learns from an answered request, given what it knew before.  An attach, a walk to the end
and a create tell the QID; a clone is known as well as its source; open and create of a plain file open the
fid, an open that fails leaves it closed. -/
def Event.learn (e : Event) (k : FID → Option Known) (i : FID) : Option Known :=
  match e.req, e.rep with
  | .attach p, .ok (.attach r) => if i = p.SFID then some ⟨r.QID, false⟩ else k i
  | .walk p, .ok (.walk r) =>
    if i = p.NewFID ∧ r.QIDs.length = p.Paths.length then
      match r.QIDs.getLast? with
      | some q => some ⟨q, false⟩
      | none => k p.SFID
    else k i
  | .open_ p, .ok _ => if i = p.OFID then (k i).map fun x => { x with isOpen := true } else k i
  | .open_ p, .error _ => if i = p.OFID then (k i).map fun x => { x with isOpen := false } else k i
  | .create p, .ok (.create r) => if i = p.OFID then some ⟨r.OQID, decide (p.CreatePerm.toNat < 2 ^ 31)⟩ else k i
  | .clunk p, _ => if i = p.OFID then none else k i
  | .remove p, _ => if i = p.OFID then none else k i
  | _, _ => k i

/-- what a client knows after a history that began with a new connection -/
def known (h : List Event) : FID → Option Known := h.foldl (fun k e => e.learn k) fun _ => none

/-- the QIDs in a reply -/
def qidsTold : RMsg → List QID
  | .attach p => [p.QID]
  | .walk p => p.QIDs
  | .open_ p => [p.OQID]
  | .create p => [p.OQID]
  | _ => []

/-- the host's open flags for a 9P mode: the low two bits select the access, 0x10 is truncation
(open(5) and the Linux values of O_WRONLY, O_RDWR, O_TRUNC) -/
def openFlags (mode : Mode) : Nat :=
  [0, 1, 2, 0].getD (mode.toNat % 4) 0 + (if mode.toNat / 16 % 2 = 1 then 512 else 0)

/-- bytes `off`, …, `off + n - 1` of `c`, as far as there are so many -/
def slice (c : Bytes) (off n : Nat) : Bytes := (c.drop off).take n

/-- `c` with `b` written at `off`; a gap is filled with zeros; writing nothing changes nothing -/
def overlay (c : Bytes) (off : Nat) (b : Bytes) : Bytes :=
  if b = [] then c
  else c.take off ++ List.replicate (off - c.length) 0 ++ b ++ c.drop (off + b.length)

/-- a name without "..", possibly with slashes -/
def NoUp (n : Bytes) : Prop := [46, 46] ∉ elems n

/-- the directory entry of a wstat asks for nothing to be changed -/
def Untouched (d : Dir) : Prop :=
  d.Mode = 0xFFFFFFFF ∧ d.Atime = 0xFFFFFFFF ∧ d.Mtime = 0xFFFFFFFF ∧ d.Length = 0xFFFFFFFFFFFFFFFF ∧
  d.Name = [] ∧ d.User = [] ∧ d.Group = []

end Ninep.Spec
