import Verif.Server.Serve
import Verif.Client.Calls
import Verif.Client.New
import Verif.Client.Model
import Verif.Ufs.Model
import Verif.Ufs.Mem

/-
The tests of the project, run on the model: protocol/protocol_test.go and filesystem/filesystem_test.go.

This is a check of the model, not a proof of a property: where the tests of the project say what the code does, the model does the same.
Everything here is an `example` about concrete packets and calls.
-/

namespace Ninep.Tests
open Client Spec

/-! ### TestEncode, protocol_test.go:46-175 -/

/-- the two tests that are run, protocol_test.go:55-64 -/
example : (encodeT {} 0xaa55 (.version { TMsize := 8192, TVersion := lit "9P2000" })).bytes =
    [19, 0, 0, 0, 100, 0x55, 0xaa, 0, 32, 0, 0, 6, 0, 57, 80, 50, 48, 48, 48] := by decide +kernel
example : (encodeR {} 0x55aa (.version { RMsize := 8192, RVersion := lit "9P2000" })).bytes =
    [19, 0, 0, 0, 101, 0xaa, 0x55, 0, 32, 0, 0, 6, 0, 57, 80, 50, 48, 48, 48] := by decide +kernel

/-! The ones that are commented out, protocol_test.go:65-172: traces of 9P servers and clients, with the replies that the comments quote.  `Tauth`
is left out, which the code does not have. -/
example : (encodeT {} 0x55aa (.walk { SFID := 0, NewFID := 1, Paths := [lit "null"] })).bytes =
    [23, 0, 0, 0, 110, 0xaa, 0x55, 0, 0, 0, 0, 1, 0, 0, 0, 1, 0, 4, 0, 110, 117, 108, 108] := by decide +kernel
example : (encodeT {} 1 (.flush { OTag := 2 })).bytes = [9, 0, 0, 0, 108, 1, 0, 2, 0] := by decide +kernel
example : (encodeT {} 0 (.attach { SFID := 0, AFID := NOFID, Uname := lit "rminnich", Aname := lit "/" })).bytes =
    [28, 0, 0, 0, 104, 0, 0, 0, 0, 0, 0, 255, 255, 255, 255, 8, 0, 114, 109, 105, 110, 110, 105, 99, 104, 1, 0, 47] := by decide +kernel
example : (encodeT {} 1 (.attach { SFID := 48, AFID := NOFID, Uname := lit "rminnich", Aname := lit "" })).bytes =
    [27, 0, 0, 0, 104, 1, 0, 48, 0, 0, 0, 255, 255, 255, 255, 8, 0, 114, 109, 105, 110, 110, 105, 99, 104, 0, 0] := by decide +kernel
example : (encodeR {} 1 (.attach { QID := { Typ := 0x80, Version := 0x912ccf63, Path := 0x60dd73 } })).bytes =
    [20, 0, 0, 0, 105, 1, 0, 128, 99, 207, 44, 145, 115, 221, 96, 0, 0, 0, 0, 0] := by decide +kernel
example : (encodeT {} 0 (.open_ { OFID := 1, Omode := 2 })).bytes = [12, 0, 0, 0, 112, 0, 0, 1, 0, 0, 0, 2] := by decide +kernel
example : (encodeT {} 0 (.read { OFID := 1, Off := 0, Len := 8192 })).bytes =
    [23, 0, 0, 0, 116, 0, 0, 1, 0, 0, 0, 0, 0, 0, 0, 0, 0, 0, 0, 0, 32, 0, 0] := by decide +kernel
example : (encodeT {} 1 (.stat { OFID := 49 })).bytes = [11, 0, 0, 0, 124, 1, 0, 49, 0, 0, 0] := by decide +kernel
example : (encodeT {} 3 (.write { OFID := 139, Off := 0, Data := lit "hi\n" })).bytes =
    [26, 0, 0, 0, 118, 3, 0, 139, 0, 0, 0, 0, 0, 0, 0, 0, 0, 0, 0, 3, 0, 0, 0, 104, 105, 10] := by decide +kernel
example : (encodeR {} 3 (.write { RLen := 3 })).bytes = [11, 0, 0, 0, 119, 3, 0, 3, 0, 0, 0] := by decide +kernel
example : (encodeT {} 1 (.clunk { OFID := 49 })).bytes = [11, 0, 0, 0, 120, 1, 0, 49, 0, 0, 0] := by decide +kernel
example : (encodeR {} 1 (.clunk {})).bytes = [7, 0, 0, 0, 121, 1, 0] := by decide +kernel
example : (encodeT {} 1 (.remove { OFID := 49 })).bytes = [11, 0, 0, 0, 122, 1, 0, 49, 0, 0, 0] := by decide +kernel
example : (encodeT {} 3 (.create { OFID := 74, Name := lit "y", CreatePerm := 0o666, Omode := 0 })).bytes =
    [19, 0, 0, 0, 114, 3, 0, 74, 0, 0, 0, 1, 0, 121, 182, 1, 0, 0, 0] := by decide +kernel
example : (encodeR {} 3 (.create { OQID := { Typ := 0, Version := 0xac47c8e2, Path := 0x62a62d }, IOUnit := 0 })).bytes =
    [24, 0, 0, 0, 115, 3, 0, 0, 226, 200, 71, 172, 45, 166, 98, 0, 0, 0, 0, 0, 0, 0, 0, 0] := by decide +kernel
/-- protocol_test.go:96-97, an error of another server -/
example : (marshalRerror {} 1 { Error := lit "no authentication required: 22" }).bytes =
    [39, 0, 0, 0, 107, 1, 0, 30, 0, 110, 111, 32, 97, 117, 116, 104, 101, 110, 116, 105, 99, 97, 116, 105, 111, 110, 32, 114, 101, 113, 117, 105,
      114, 101, 100, 58, 32, 50, 50] := by decide +kernel

/-- protocol_test.go:146-163, a stat record in which nothing but the time of modification is to be changed -/
def wstatDir : Dir where
  Typ := 0xffff
  Dev := 0xffffffff
  QID := { Typ := 0xff, Version := 0xffffffff, Path := 0xffffffffffffffff }
  Mode := 0xffffffff
  Atime := 0xffffffff
  Mtime := 1445968327
  Length := 0xffffffffffffffff
example : (encodeT {} 3 (.wstat { OFID := 49, B := (marshaldir {} wstatDir).bytes })).bytes =
    [62, 0, 0, 0, 126, 3, 0, 49, 0, 0, 0, 49, 0, 47, 0, 255, 255, 255, 255, 255, 255, 255, 255, 255, 255, 255, 255, 255, 255, 255, 255, 255, 255, 255,
      255, 255, 255, 255, 255, 255, 255, 255, 199, 185, 47, 86, 255, 255, 255, 255, 255, 255, 255, 255, 0, 0, 0, 0, 0, 0, 0, 0] := by decide +kernel

/-- protocol_test.go:123-127, the stat record of a directory "harvey" -/
def harvey : Dir where
  QID := { Typ := 0x80, Version := 0x912ccf63, Path := 0x60dd73 }
  Mode := 0x80000000 ||| 0o775
  Atime := 1445968237
  Mtime := 1445544644
  Length := 4096
  Name := lit "harvey"
  User := lit "rminnich"
  Group := lit "rminnich"
  ModUser := lit "none"
def harveyPkt : Bytes :=
  [84, 0, 0, 0, 125, 1, 0, 75, 0, 73, 0, 0, 0, 0, 0, 0, 0, 128, 99, 207, 44, 145, 115, 221, 96, 0, 0, 0, 0, 0, 253, 1, 0, 128, 109, 185, 47, 86,
    196, 66, 41, 86, 0, 16, 0, 0, 0, 0, 0, 0, 6, 0, 104, 97, 114, 118, 101, 121, 8, 0, 114, 109, 105, 110, 110, 105, 99, 104, 8, 0, 114, 109, 105, 110,
    110, 105, 99, 104, 4, 0, 110, 111, 110, 101]
example : (encodeR {} 1 (.stat { B := (marshaldir {} harvey).bytes })).bytes = harveyPkt := by decide +kernel
example : callTstat [] harveyPkt = .ret { B := (marshaldir {} harvey).bytes } none := by decide +kernel

/-! ### TestTags, protocol_test.go:203-212

TestTManyRPCs (protocol_test.go:315-352), that calls do not fail however many there are, is proved for all numbers in C27 and C29. -/

example : (init.tags.drop 1).length = NumTags - 1 := by simp [init, NumTags, NOTAG]

/-! ### a client and a server -/

/-- a call: the client sends the request, the server answers it, and the client returns what it makes of the answer -/
def rpc {σ : Type} (ns : NineServer σ) (s : Server σ) (t : Tag) (m : TMsg) : Option (Server σ × CallRes RMsg) :=
  let r := serve ns (fun _ => []) (fun _ => false) .eof 0 s [(encodeT {} t m).bytes]
  match r.out with
  | [b] => some (r.srv, callT m [] b)
  | _ => none

/-- a line of a test -/
inductive Item (σ : Type) where
  | call (m : TMsg) (want : CallRes RMsg → Bool)
  /-- the test looks at the state itself -/
  | look (want : σ → Bool)

def passes {σ : Type} (ns : NineServer σ) : Server σ → Tag → List (Item σ) → Bool
  | _, _, [] => true
  | s, t, .look want :: rest => want s.ns && passes ns s t rest
  | s, t, .call m want :: rest =>
    match rpc ns s t m with
    | some (s', r) => want r && passes ns s' (t + 1) rest
    | none => false

/-- no error -/
def ok : CallRes RMsg → Bool
  | .ret _ none => true
  | _ => false
/-- an error -/
def bad : CallRes RMsg → Bool
  | .ret _ (some _) => true
  | _ => false
def ret (m : RMsg) : CallRes RMsg → Bool := fun r => decide (r = .ret m none)
def err (e : String) : CallRes RMsg → Bool
  | .ret _ (some (.remote x)) => decide (x = lit e)
  | _ => false

/-- protocol_test.go:214-314; the state is `removedFID2` -/
def echo : NineServer Bool where
  Rversion msize version s := if version ≠ lit "9P2000" then .err s (version ++ lit " not supported; only 9P2000") else .ok s (msize, version)
  Rattach _ _ _ _ s := .ok s {}
  Rflush o s := if o = 3 then .ok s () else .err s (lit "Rflush: bad Tag " ++ lit (toString o.toNat))
  Rwalk _ _ paths s :=
    if 1 < paths.length then .ok s []
    else match paths with
      | [] => .panic
      | p :: _ => if p = lit "null" then .ok s [{ Path := 0xaa55 }] else .ok s []
  Ropen _ _ s := .ok s ({}, 4000)
  Rcreate _ _ _ _ s := .ok s ({}, 5000)
  Rclunk f s := if f = 2 ∧ s = false then .ok s () else .err s (lit "Clunk: bad FID " ++ lit (toString f.toNat))
  Rstat f s := if f = 2 then .ok s [] else .err s (lit "Stat: bad FID " ++ lit (toString f.toNat))
  Rwstat f _ s := if f = 2 then .ok s () else .err s (lit "Wstat: bad FID " ++ lit (toString f.toNat))
  Rremove f s := if f = 2 then .ok true () else .err s (lit "Remove: bad FID " ++ lit (toString f.toNat))
  Rread f _ _ s := if f = 2 then .ok s (lit "HI") else .err s (lit "Read: bad FID " ++ lit (toString f.toNat))
  Rwrite f _ b s := if f = 2 then .ok s (Int32.ofNat b.length) else .err s (lit "Write: bad FID " ++ lit (toString f.toNat))

/-- TestTMessages, protocol_test.go:354-502, with what the calls return -/
def messages : List (Item Bool) :=
  [.call (.attach {}) (err "Dispatch: Tattach not allowed before Tversion"),
   .call (.version { TMsize := 8000, TVersion := lit "9p3000" }) (err "9p3000 not supported; only 9P2000"),
   .call (.version { TMsize := 8000, TVersion := lit "9P2000" }) (ret (.version { RMsize := 8000, RVersion := lit "9P2000" })),
   .call (.attach {}) (ret (.attach {})),
   .call (.walk { SFID := 0, NewFID := 1, Paths := [lit "hi", lit "there"] }) (ret (.walk { QIDs := [] })),
   .call (.walk { SFID := 0, NewFID := 1, Paths := [lit "null"] }) (ret (.walk { QIDs := [{ Path := 0xaa55 }] })),
   .call (.open_ { OFID := 1, Omode := 1 }) (ret (.open_ { OQID := {}, IOUnit := 4000 })),
   .call (.read { OFID := 2, Off := 0, Len := 5 }) (ret (.read { Data := lit "HI" })),
   .call (.write { OFID := 2, Off := 0, Data := lit "HI" }) (ret (.write { RLen := 2 })),
   .call (.clunk { OFID := 2 }) ok,
   .call (.remove { OFID := 1 }) (err "Remove: bad FID 1"),
   .call (.remove { OFID := 2 }) ok,
   .call (.clunk { OFID := 2 }) (err "Clunk: bad FID 2"),
   .call (.remove { OFID := 1 }) (err "Remove: bad FID 1"),
   .call (.stat { OFID := 2 }) (ret (.stat { B := [] })),
   .call (.stat { OFID := 1 }) (err "Stat: bad FID 1"),
   .call (.wstat { OFID := 2, B := [] }) ok,
   .call (.wstat { OFID := 1, B := [] }) (err "Wstat: bad FID 1"),
   .call (.flush { OTag := 3 }) ok,
   .call (.flush { OTag := 2 }) (err "Rflush: bad Tag 2")]

set_option maxRecDepth 10000 in
example : passes echo ⟨false, false⟩ 1 messages = true := by decide +kernel

/-! ### TestMount, filesystem_test.go:53-317 -/

open Ufs in
/-- the host in memory with permissions: the owner's bits of the mode of a file, and the mode in which it was opened -/
def host : Host Mem.World (Nat × Nat) where
  lstat := Mem.host.lstat
  stat := Mem.host.stat
  openFile p flags perm w :=
    match Mem.find p w with
    | some i =>
      if flags % 4 ≠ 1 ∧ (w.nodes i).perm &&& 0o400 = 0 ∨ flags % 4 ≠ 0 ∧ (w.nodes i).perm &&& 0o200 = 0 then (w, .error (lit "permission denied"))
      else
        match Mem.host.openFile p flags perm w with
        | (w, .ok h) => (w, .ok (h, flags % 4))
        | (w, .error e) => (w, .error e)
    | none =>
      match Mem.host.openFile p flags perm w with
      | (w, .ok h) => (w, .ok (h, flags % 4))
      | (w, .error e) => (w, .error e)
  mkdir := Mem.host.mkdir
  chmod := Mem.host.chmod
  rename := Mem.host.rename
  truncate := Mem.host.truncate
  chtimes := Mem.host.chtimes
  remove := Mem.host.remove
  close h := Mem.host.close h.1
  sync h := Mem.host.sync h.1
  seek0 h := Mem.host.seek0 h.1
  readdir1 h := Mem.host.readdir1 h.1
  readAt h n off w := if h.2 = 1 then (w, [], .fail (lit "bad file descriptor")) else Mem.host.readAt h.1 n off w
  writeAt h b off w := if h.2 = 0 then (w, 0, some (lit "bad file descriptor")) else Mem.host.writeAt h.1 b off w

open Ufs in
/-- filesystem_test.go:27-64, with "/tmp/hi.dir1" for the name of the temporary directory -/
def tmpWorld : Mem.World where
  names := [(lit "/", 0), (lit "/tmp", 1), (lit "/tmp/hi.dir1", 2), (lit "/tmp/hi.dir1/ro", 3), (lit "/tmp/hi.dir1/rw", 4), (lit "/tmp/hi.dir1/wo", 5)]
  nodes := fun i =>
    if i = 3 then { perm := 0o444, data := lit "hi" }
    else if i = 4 then { perm := 0o644, data := lit "hi" }
    else if i = 5 then { perm := 0o200, data := lit "hi" }
    else { dir := true, perm := 0o755 }
  next := 6
  opened := []

/-- `strings.Split(path.Join(tmpdir, n), "/")` -/
def inTmp (n : String) : List GoString := [lit "", lit "tmp", lit "hi.dir1", lit n]
def tmp : List GoString := [lit "", lit "tmp", lit "hi.dir1"]

open Ufs in
/-- `os.Stat` -/
def exists_ (p : String) (s : Ufs.State Mem.World (Nat × Nat)) : Bool := (Mem.find (lit p) s.world).isSome
open Ufs in
def isDirectory (p : String) (s : Ufs.State Mem.World (Nat × Nat)) : Bool :=
  match Mem.find (lit p) s.world with
  | some i => (s.world.nodes i).dir
  | none => false
open Ufs in
def content (p : String) (s : Ufs.State Mem.World (Nat × Nat)) : Option Bytes := (Mem.find (lit p) s.world).map fun i => (s.world.nodes i).data

/-- the answer is one whole entry of a directory, for a file of this name -/
def entry (n : String) : CallRes RMsg → Bool
  | .ret (.read r) none =>
    match unmarshaldir { unread := r.Data } with
    | .done d _ none b => decide (d.Name = lit n ∧ r.Data.length = 63) && b.unread.isEmpty
    | _ => false
  | _ => false

open Ufs in
/-- TestMount, filesystem_test.go:93-317, with what the calls return; 63 is the length of the entries -/
def mount : List (Item (Ufs.State Mem.World (Nat × Nat))) :=
  [.call (.version { TMsize := 8000, TVersion := lit "9P2000" }) (ret (.version { RMsize := 8000, RVersion := lit "9P2000" })),
   .call (.attach { SFID := 0, AFID := NOFID, Uname := lit "/", Aname := [] }) ok,
   .call (.walk { SFID := 0, NewFID := 1, Paths := [lit "hi", lit "there"] }) (err "file does not exist"),
   .call (.walk { SFID := 0, NewFID := 1, Paths := inTmp "ro" }) ok,
   .call (.open_ { OFID := 22, Omode := 0 }) (err "does not exist"),
   .call (.open_ { OFID := 1, Omode := 1 }) (err "permission denied"),
   .call (.open_ { OFID := 1, Omode := 0 }) ok,
   .call (.read { OFID := 22, Off := 0, Len := 0 }) (err "does not exist"),
   .call (.read { OFID := 1, Off := 1, Len := 1 }) (ret (.read { Data := lit "i" })),
   .call (.write { OFID := 1, Off := 0, Data := lit "i" }) (err "bad file descriptor"),
   .call (.stat { OFID := 1 }) ok,
   .call (.stat { OFID := 22 }) (err "does not exist"),
   .call (.clunk { OFID := 22 }) (err "does not exist"),
   .call (.clunk { OFID := 1 }) ok,
   .call (.read { OFID := 1, Off := 1, Len := 22 }) (err "does not exist"),
   .call (.stat { OFID := 1 }) (err "does not exist"),
   -- fun with write
   .call (.walk { SFID := 0, NewFID := 1, Paths := inTmp "rw" }) ok,
   .call (.open_ { OFID := 1, Omode := 0 }) ok,
   .call (.clunk { OFID := 1 }) ok,
   .call (.walk { SFID := 0, NewFID := 1, Paths := inTmp "rw" }) ok,
   .call (.open_ { OFID := 1, Omode := 1 }) ok,
   .call (.write { OFID := 1, Off := 1, Data := lit "there" }) (ret (.write { RLen := 5 })),
   .look (fun s => content "/tmp/hi.dir1/rw" s = some (lit "hthere")),
   .call (.write { OFID := 22, Off := 1, Data := lit "there" }) (err "does not exist"),
   -- readdir test
   .call (.walk { SFID := 0, NewFID := 2, Paths := tmp }) ok,
   .call (.open_ { OFID := 2, Omode := 1 }) (err "is a directory"),
   .call (.open_ { OFID := 2, Omode := 2 }) (err "is a directory"),
   .call (.open_ { OFID := 2, Omode := 0 }) ok,
   .call (.read { OFID := 2, Off := 0, Len := 256 }) (entry "ro"),
   .call (.read { OFID := 2, Off := 63, Len := 256 }) (entry "rw"),
   .call (.read { OFID := 2, Off := 126, Len := 256 }) (entry "wo"),
   .call (.read { OFID := 2, Off := 189, Len := 256 }) (ret (.read { Data := [] })),
   .call (.clunk { OFID := 2 }) ok,
   -- create tests
   .call (.walk { SFID := 0, NewFID := 3, Paths := [] }) (ret (.walk { QIDs := [] })),
   .call (.walk { SFID := 3, NewFID := 3, Paths := tmp }) ok,
   .call (.create { OFID := 3, Name := lit "xxx", CreatePerm := 0o77, Omode := 0 }) ok,
   .look (exists_ "/tmp/hi.dir1/xxx"),
   -- test mkdir
   .call (.walk { SFID := 0, NewFID := 4, Paths := tmp }) ok,
   .call (.create { OFID := 4, Name := lit "yyy", CreatePerm := DMDIR ||| 0o777, Omode := 0 }) ok,
   .look (isDirectory "/tmp/hi.dir1/yyy"),
   -- test remove
   .call (.remove { OFID := 3 }) ok,
   .call (.clunk { OFID := 3 }) (err "does not exist"),
   .look (fun s => !exists_ "/tmp/hi.dir1/xxx" s),
   .call (.remove { OFID := 4 }) ok,
   .look (fun s => !exists_ "/tmp/hi.dir1/yyy" s)]

set_option maxRecDepth 100000 in
example : passes (Ufs.ufs host (lit "harvey")) ⟨Ufs.newFS (lit "/") tmpWorld, false⟩ 1 mount = true := by decide +kernel

end Ninep.Tests
