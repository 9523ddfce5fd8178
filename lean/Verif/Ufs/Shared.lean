import Verif.Ufs.Prog
import Verif.Spec.Server
/-
The file server a third time: one `FileServer` object that several goroutines use at once, with its mutex, its table of
pointers and the structures they point to (filesystem/filesystem.go).

Every access to memory that goroutines share is a step of its own: to the table `e.files`, to the fields of a `file`, to
`e.Versioned` and `e.root`.  `rootPath` and `IOunit` are never changed after the object is made (filesystem.go:452-454) and are
parameters.  Ufs/Prog.lean and Ufs/Model.lean have the table hold the structures themselves, and nothing in between two host calls;
Props/Shared.lean proves that this is the same for a goroutine that has the object for itself.

Simplified: accesses are atomic and in program order (the Go memory model says so for programs without data races; which
programs these are is said in Props/Shared.lean); pointers are numbered by the goroutine that allocates and the number of its
allocations (nothing compares pointers); logging is left out but for what it reads.
-/

namespace Ninep.Ufs.Shared
open Spec

section
variable {ω H : Type}

/-- an address: the goroutine that has allocated it, and the number of the allocation -/
abbrev Ptr := Nat × Nat

/-- the fields of a `file`, filesystem.go:23-31 -/
inductive Fld where
  | qid
  | name
  | file
  | oflow
deriving DecidableEq

@[reducible] def Fld.Ty (H : Type) : Fld → Type
  | .qid => QID
  | .name => GoString
  | .file => Option H
  | .oflow => Bytes

/-- `f.x` -/
def getFld (f : File H) : (x : Fld) → x.Ty H
  | .qid => f.qid
  | .name => f.fullName
  | .file => f.file
  | .oflow => f.oflow

/-- `f.x = v` -/
def setFld (f : File H) : (x : Fld) → x.Ty H → File H
  | .qid, v => { f with qid := v }
  | .name, v => { f with fullName := v }
  | .file, v => { f with file := v }
  | .oflow, v => { f with oflow := v }

/-- an operation on shared memory -/
inductive MOp (H : Type) where
  /-- `e.mu.Lock()` -/
  | lock
  /-- `e.mu.Unlock()` -/
  | unlock
  /-- `e.Versioned = true` -/
  | setVersioned
  /-- `e.root = p` -/
  | setRoot (p : Ptr)
  /-- `e.files[fid]` -/
  | lookup (fid : FID)
  /-- `e.files[fid] = p` -/
  | assign (fid : FID) (p : Ptr)
  /-- `delete(e.files, fid)` -/
  | delete (fid : FID)
  /-- `&file{…}` -/
  | alloc (f : File H)
  /-- `p.x` -/
  | load (p : Ptr) (x : Fld)
  /-- `p.x = v` -/
  | store (p : Ptr) (x : Fld) (v : x.Ty H)

/-- what an operation yields -/
@[reducible] def MOp.Ans : MOp H → Type
  | .lookup _ => Option Ptr
  | .alloc _ => Ptr
  | .load _ x => x.Ty H
  | _ => Unit

/-- a program of a goroutine -/
inductive MProg (H α : Type) where
  | ret (a : α)
  | panic
  | op (c : MOp H) (k : c.Ans → MProg H α)
  | host (c : HCall H) (k : c.Ans → MProg H α)

/-- one program after the other -/
def MProg.bind {α β : Type} : MProg H α → (α → MProg H β) → MProg H β
  | .ret a, f => f a
  | .panic, _ => .panic
  | .op c k, f => .op c fun a => (k a).bind f
  | .host c k, f => .host c fun a => (k a).bind f

/-- a program that touches no shared memory -/
def MProg.ofProg {α : Type} : Prog H α → MProg H α
  | .ret a => .ret a
  | .panic => .panic
  | .call c k => .host c fun a => ofProg (k a)

/-- what a method returns -/
abbrev MMet (H α : Type) := MProg H (Except GoString α)

/-- the method returns values -/
def mOk {α : Type} (a : α) : MMet H α := .ret (.ok a)
/-- the method returns an error -/
def mErr {α : Type} (e : GoString) : MMet H α := .ret (.error e)

/-- what the methods of a nil `*os.File` return: `os.ErrInvalid` -/
def errInvalid : GoString := lit "invalid argument"

variable (user rootPath : GoString) (iounit : MaxSize)

/-- filesystem.go:63-69 -/
def mversion (msize : MaxSize) (version : GoString) : MMet H (MaxSize × GoString) :=
  if version ≠ lit "9P2000" then mErr (version ++ lit " not supported; only 9P2000")
  else .op .setVersioned fun _ => mOk (msize, version)

/-- `getFile`, filesystem.go:71-80; the same is written out in filesystem.go:105-110 and 165-170 -/
def withFile {α : Type} (fid : FID) (k : Ptr → MMet H α) : MMet H α :=
  .op .lock fun _ =>
  .op (.lookup fid) fun r =>
  .op .unlock fun _ =>
  match r with
  | none => mErr (lit "does not exist")
  | some p => k p

/-- filesystem.go:82-98: without `mu` -/
def mattach (fid afid : FID) (_uname aname : GoString) : MMet H QID :=
  if afid ≠ NOFID then mErr (lit "We don't do auth attach")
  else
    let aname := pathJoin rootPath (pathJoin [slash] aname)
    .host (.stat aname) fun r =>
    match r with
    | .error e => mErr e
    | .ok st =>
      .op (.alloc { fullName := aname, qid := fileInfoToQID st }) fun p =>
      .op (.assign fid p) fun _ =>
      .op (.setRoot p) fun _ =>
      .op (.load p .qid) fun q =>
      mOk q

/-- filesystem.go:100-102 -/
def mflush (_o : Tag) : MMet H Unit := mOk ()

/-- filesystem.go:104-162; the loop touches no shared memory -/
def mwalk (fid newfid : FID) (paths : List GoString) : MMet H (List QID) :=
  withFile fid fun p =>
  if paths = [] then
    .op .lock fun _ =>
    .op (.lookup newfid) fun r =>
    match r with
    | some _ =>
      .op .unlock fun _ =>
      mErr (lit "FID in use: clone walk, fid " ++ dec fid.toNat ++ lit " newfid " ++ dec newfid.toNat)
    | none =>
      -- nf := *f
      .op (.load p .qid) fun q =>
      .op (.load p .name) fun n =>
      .op (.load p .file) fun h =>
      .op (.load p .oflow) fun b =>
      .op (.alloc { qid := q, fullName := n, file := h, oflow := b }) fun p' =>
      .op (.assign newfid p') fun _ =>
      .op .unlock fun _ =>
      mOk []
  else
    .op (.load p .name) fun n =>
    (MProg.ofProg (pwalkLoop n paths)).bind fun r =>
    match r with
    | (q, none) => if q = [] then mErr (lit "file does not exist") else mOk q
    | (q, some path) =>
      let set : MMet H (List QID) :=
        .op (.alloc { fullName := path, qid := q.getLastD {} }) fun p' =>
        .op (.assign newfid p') fun _ =>
        .op .unlock fun _ =>
        mOk q
      .op .lock fun _ =>
      if fid ≠ newfid then
        .op (.lookup newfid) fun r =>
        match r with
        | some _ =>
          .op .unlock fun _ =>
          mErr (lit "FID in use: walk to " ++ fmtStrings paths ++ lit ", fid " ++ dec fid.toNat ++
            lit ", newfid " ++ dec newfid.toNat)
        | none => set
      else set

/-- filesystem.go:164-179 -/
def mopen (fid : FID) (mode : Mode) : MMet H (QID × MaxSize) :=
  withFile fid fun p =>
  .op (.load p .name) fun n =>
  .host (.openFile n (modeToUnixFlags mode) 0) fun r =>
  match r with
  | .error e => .op (.store p .file none) fun _ => mErr e
  | .ok h =>
    .op (.store p .file (some h)) fun _ =>
    .op (.load p .qid) fun q =>
    mOk (q, iounit)

/-- filesystem.go:180-215 with `stat`, filesystem.go:49-61 -/
def mcreate (fid : FID) (name : GoString) (perm : Perm) (mode : Mode) : MMet H (QID × MaxSize) :=
  withFile fid fun p =>
  .op (.load p .file) fun h =>
  match h with
  | some _ => mErr (lit "FID already open")
  | none =>
    .op (.load p .name) fun n =>
    let n := pathJoin n name
    if perm &&& DMDIR ≠ 0 then
      .host (.mkdir n (perm &&& 0o777)) fun _ =>
      .host (.lstat n) fun r =>
      match r with
      | .error _ => mErr (lit "does not exist")
      | .ok st =>
        .op (.store p .name n) fun _ =>
        .op (.store p .qid (fileInfoToQID st)) fun _ =>
        mOk (fileInfoToQID st, 8000)
    else
      .host (.openFile n (modeToUnixFlags mode ||| O_CREATE ||| O_TRUNC) (perm &&& 0o777)) fun r =>
      match r with
      | .error e => mErr e
      | .ok h =>
        .host (.lstat n) fun r =>
        match r with
        | .error _ => mErr (lit "does not exist")
        | .ok st =>
          .op (.store p .name n) fun _ =>
          .op (.store p .qid (fileInfoToQID st)) fun _ =>
          .op (.store p .file (some h)) fun _ =>
          mOk (fileInfoToQID st, 8000)

/-- filesystem.go:336-352; the pointer is returned.  If the file cannot be closed, the log line has its name. -/
def mclunkFile (fid : FID) : MMet H Ptr :=
  .op .lock fun _ =>
  .op (.lookup fid) fun r =>
  match r with
  | none => .op .unlock fun _ => mErr (lit "does not exist")
  | some p =>
    .op (.delete fid) fun _ =>
    .op (.load p .file) fun h =>
    match h with
    | none => .op .unlock fun _ => mOk p
    | some _ =>
      .op (.load p .file) fun h =>
      match h with
      | none =>
        .op (.load p .name) fun _ =>
        .op .unlock fun _ =>
        mOk p
      | some h =>
        .host (.close h) fun e =>
        match e with
        | none => .op .unlock fun _ => mOk p
        | some _ =>
          .op (.load p .name) fun _ =>
          .op .unlock fun _ =>
          mOk p

/-- filesystem.go:216-219 -/
def mclunk (fid : FID) : MMet H Unit :=
  (mclunkFile fid).bind fun r =>
  match r with
  | .error e => mErr e
  | .ok _ => mOk ()

/-- filesystem.go:356-362 -/
def mremove (fid : FID) : MMet H Unit :=
  (mclunkFile fid).bind fun r =>
  match r with
  | .error e => mErr e
  | .ok p =>
    .op (.load p .name) fun n =>
    .host (.remove n) fun r =>
    match r with
    | none => mOk ()
    | some e => mErr e

/-- filesystem.go:221-237 -/
def mstat (fid : FID) : MMet H Bytes :=
  withFile fid fun p =>
  .op (.load p .name) fun n =>
  .host (.lstat n) fun r =>
  match r with
  | .error _ => mErr (lit "ENOENT")
  | .ok st => mOk (marshaldir {} (dirTo9p2000Dir user st)).bytes

/-- go on unless there was an error -/
def mAndThen (r : MProg H (Option GoString)) (k : MProg H (Option GoString)) : MProg H (Option GoString) :=
  r.bind fun r =>
  match r with
  | some e => .ret (some e)
  | none => k

/-- filesystem.go:248-254 -/
def mwstatMode (p : Ptr) (dir : Dir) : MProg H (Option GoString) :=
  if dir.Mode ≠ 0xFFFFFFFF then
    .op (.load p .name) fun n =>
    .host (.chmod n (dir.Mode &&& 0o777)) fun e =>
    .ret e
  else .ret none

/-- filesystem.go:257-260 -/
def mwstatUser (dir : Dir) : MProg H (Option GoString) :=
  if dir.User ≠ [] ∨ dir.Group ≠ [] then .ret (some (lit "Permission denied")) else .ret none

/-- filesystem.go:273-299 -/
def mwstatName (p : Ptr) (dir : Dir) : MProg H (Option GoString) :=
  if dir.Name ≠ [] then
    .op (.load p .name) fun n =>
    let newname := renameTo rootPath n dir.Name
    .host (.stat newname) fun r =>
    if isDirAns r then .ret (some (lit "is a directory"))
    else
      .op (.load p .name) fun n =>
      .host (.rename n newname) fun r =>
      match r with
      | some e => .ret (some e)
      | none => .op (.store p .name newname) fun _ => .ret none
  else .ret none

/-- filesystem.go:301-306 -/
def mwstatLength (p : Ptr) (dir : Dir) : MProg H (Option GoString) :=
  if dir.Length ≠ 0xFFFFFFFFFFFFFFFF then
    .op (.load p .name) fun n =>
    .host (.truncate n dir.Length.toInt64) fun e =>
    .ret e
  else .ret none

/-- filesystem.go:310-328 -/
def mwstatTimes (p : Ptr) (dir : Dir) : MProg H (Option GoString) :=
  if dir.Mtime ≠ 0xFFFFFFFF ∨ dir.Atime ≠ 0xFFFFFFFF then
    if dir.Mtime = 0xFFFFFFFF ∨ dir.Atime = 0xFFFFFFFF then
      .op (.load p .name) fun n =>
      .host (.stat n) fun r =>
      match r with
      | .error e => .ret (some e)
      | .ok st =>
        .op (.load p .name) fun n =>
        .host (.chtimes n (unixTime dir.Atime) (if dir.Mtime = 0xFFFFFFFF then FileInfo.modTime st else unixTime dir.Mtime)) fun e =>
        .ret e
    else
      .op (.load p .name) fun n =>
      .host (.chtimes n (unixTime dir.Atime) (unixTime dir.Mtime)) fun e =>
      .ret e
  else .ret none

/-- filesystem.go:330-332; the error of `Sync` is dropped -/
def mwstatSync (p : Ptr) (dir : Dir) : MProg H (Option GoString) :=
  if wstatChanges dir then .ret none
  else
    .op (.load p .file) fun h =>
    match h with
    | none => .ret none
    | some _ =>
      .op (.load p .file) fun h =>
      match h with
      | none => .ret none
      | some h => .host (.sync h) fun _ => .ret none

/-- filesystem.go:238-334 -/
def mwstat (fid : FID) (b : Bytes) : MMet H Unit :=
  withFile fid fun p =>
  match unmarshaldir (Buffer.ofBytes b) with
  | .panic => .panic
  | .done _ _ (some e) _ => mErr (decErrText e)
  | .done dir _ none _ =>
    (mAndThen (mwstatMode p dir) <|
      mAndThen (mwstatUser dir) <|
      mAndThen (mwstatName rootPath p dir) <|
      mAndThen (mwstatLength p dir) <|
      mAndThen (mwstatTimes p dir) <|
      mwstatSync p dir).bind fun r =>
    match r with
    | none => mOk ()
    | some e => mErr e

/-- filesystem.go:389-417 -/
def mreadDirFrom (p : Ptr) (c : Count) (b : Bytes) : MMet H Bytes :=
  if (b.length : Int) > c.toInt then
    .op (.store p .oflow b) fun _ =>
    mOk []
  else
    .op (.load p .file) fun h =>
    match h with
    | none => mErr errInvalid
    | some h =>
      .host (.readdir1 h) fun r =>
      match r with
      | .eof => mOk b
      | .fail e => mErr e
      | .entry st =>
        let b := (marshaldir (Buffer.ofBytes b) (dirTo9p2000Dir user st)).bytes
        if (b.length : Int) > c.toInt then mOk [] else mOk b

/-- filesystem.go:385-417 -/
def mreadDir (p : Ptr) (c : Count) : MMet H Bytes :=
  .op (.load p .oflow) fun b =>
  .op (.store p .oflow []) fun _ =>
  mreadDirFrom user p c b

/-- filesystem.go:372-430 for the QID `q`, with `resetDir`, filesystem_unix.go:15-18 -/
def mreadAs (p : Ptr) (off : Offset) (c : Count) (q : QID) : MMet H Bytes :=
  if q.Typ &&& QTDIR ≠ 0 then
    if off = 0 then
      .op (.store p .oflow []) fun _ =>
      .op (.load p .file) fun h =>
      match h with
      | none => mErr errInvalid
      | some h =>
        .host (.seek0 h) fun r =>
        match r with
        | some e => mErr e
        | none => mreadDir user p c
    else mreadDir user p c
  else if c.toInt < 0 then .panic
  else
    .op (.load p .file) fun h =>
    match h with
    | none => mErr errInvalid
    | some h =>
      .host (.readAt h c.toInt.toNat off.toInt64) fun r =>
      match r with
      | (_, .fail e) => mErr e
      | (d, .none) => mOk (d.take c.toInt.toNat)
      | (d, .eof) => mOk (d.take c.toInt.toNat)

/-- filesystem.go:364-430 -/
def mread (fid : FID) (off : Offset) (c : Count) : MMet H Bytes :=
  withFile fid fun p =>
  .op (.load p .file) fun h =>
  match h with
  | none => mErr (lit "FID not open")
  | some _ =>
    .op (.load p .qid) fun q =>
    mreadAs user p off c q

/-- filesystem.go:432-447 -/
def mwrite (fid : FID) (off : Offset) (b : Bytes) : MMet H Count :=
  withFile fid fun p =>
  .op (.load p .file) fun h =>
  match h with
  | none => mErr (lit "FID not open")
  | some _ =>
    .op (.load p .file) fun h =>
    match h with
    | none => mErr errInvalid
    | some h =>
      .host (.writeAt h b off.toInt64) fun r =>
      match r with
      | (n, none) => mOk (Int32.ofNat n)
      | (_, some e) => mErr e

/-- the results of a method as a reply -/
def mAsReply {α : Type} (f : α → RMsg) (p : MMet H α) : MMet H RMsg :=
  p.bind fun r => match r with
    | .ok a => .ret (.ok (f a))
    | .error e => .ret (.error e)

/-- the program of the method that a request asks for, see `Spec.call` -/
def mcall : TMsg → MMet H RMsg
  | .version p => mAsReply (fun q => .version ⟨q.1, q.2⟩) (mversion p.TMsize p.TVersion)
  | .attach p => mAsReply (fun q => .attach ⟨q⟩) (mattach rootPath p.SFID p.AFID p.Uname p.Aname)
  | .flush p => mAsReply (fun _ => .flush ⟨⟩) (mflush p.OTag)
  | .walk p => mAsReply (fun q => .walk ⟨q⟩) (mwalk p.SFID p.NewFID p.Paths)
  | .open_ p => mAsReply (fun q => .open_ ⟨q.1, q.2⟩) (mopen iounit p.OFID p.Omode)
  | .create p => mAsReply (fun q => .create ⟨q.1, q.2⟩) (mcreate p.OFID p.Name p.CreatePerm p.Omode)
  | .stat p => mAsReply (fun q => .stat ⟨q⟩) (mstat user p.OFID)
  | .wstat p => mAsReply (fun _ => .wstat ⟨⟩) (mwstat rootPath p.OFID p.B)
  | .clunk p => mAsReply (fun _ => .clunk ⟨⟩) (mclunk p.OFID)
  | .remove p => mAsReply (fun _ => .remove ⟨⟩) (mremove p.OFID)
  | .read p => mAsReply (fun q => .read ⟨q⟩) (mread user p.OFID p.Off p.Len)
  | .write p => mAsReply (fun q => .write ⟨q⟩) (mwrite p.OFID p.Off p.Data)

/-- the memory of the object, filesystem.go:33-42 -/
structure SMem (H : Type) where
  Versioned : Bool := false
  root : Option Ptr := none
  /-- the goroutine that holds `mu` -/
  mu : Option Nat := none
  files : FID → Option Ptr := fun _ => none
  heap : Ptr → File H := fun _ => { qid := {}, fullName := [] }
  /-- how many allocations a goroutine has made -/
  next : Nat → Nat := fun _ => 0

/-- Goroutine `g` performs an operation; `none`: it cannot (yet). -/
def SMem.act (g : Nat) (s : SMem H) : (c : MOp H) → Option (SMem H × c.Ans)
  | .lock => if s.mu = none then some ({ s with mu := some g }, ()) else none
  | .unlock => if s.mu = some g then some ({ s with mu := none }, ()) else none
  | .setVersioned => some ({ s with Versioned := true }, ())
  | .setRoot p => some ({ s with root := some p }, ())
  | .lookup fid => some (s, s.files fid)
  | .assign fid p => some ({ s with files := fun i => if i = fid then some p else s.files i }, ())
  | .delete fid => some ({ s with files := fun i => if i = fid then none else s.files i }, ())
  | .alloc f => some ({ s with
      heap := fun p => if p = (g, s.next g) then f else s.heap p
      next := fun i => if i = g then s.next g + 1 else s.next i }, (g, s.next g))
  | .load p x => some (s, getFld (s.heap p) x)
  | .store p x v => some ({ s with heap := fun q => if q = p then setFld (s.heap p) x v else s.heap q }, ())

/-- the object, the world, and the calls that goroutines are making -/
structure SSys (ω H : Type) where
  world : ω
  mem : SMem H := {}
  run : Nat → Option (TMsg × MMet H RMsg) := fun _ => none

/-- what may happen next -/
inductive Choice (ω : Type) where
  /-- goroutine `g` calls a method -/
  | begin (g : Nat) (m : TMsg)
  /-- goroutine `g` goes on -/
  | step (g : Nat)
  /-- another process changes the world -/
  | other (w : ω)

/-- what has happened -/
inductive SLabel (ω H : Type) where
  | begin (g : Nat) (m : TMsg)
  | op (g : Nat) (c : MOp H)
  | call (g : Nat) (e : (c : HCall H) × c.Ans)
  | done (g : Nat) (r : Except GoString RMsg)
  | other (w : ω)

def SSys.setRun (s : SSys ω H) (g : Nat) (r : Option (TMsg × MMet H RMsg)) : SSys ω H :=
  { s with run := fun i => if i = g then r else s.run i }

/-- One step; `none` if it is not possible. -/
def SSys.step (host : Host ω H) (s : SSys ω H) : Choice ω → Option (SSys ω H × SLabel ω H)
  | .begin g m =>
    match s.run g with
    | some _ => none
    | none => some (s.setRun g (some (m, mcall user rootPath iounit m)), .begin g m)
  | .step g =>
    match s.run g with
    | none => none
    | some (_, .panic) => none
    | some (_, .ret r) => some (s.setRun g none, .done g r)
    | some (m, .op c k) =>
      match s.mem.act g c with
      | none => none
      | some (mem, a) => some ({ s with mem := mem }.setRun g (some (m, k a)), .op g c)
    | some (m, .host c k) =>
      some ({ s with world := (host.exec c s.world).1 }.setRun g (some (m, k (host.exec c s.world).2)),
        .call g ⟨c, (host.exec c s.world).2⟩)
  | .other w => some ({ s with world := w }, .other w)

/-- the executions of goroutines that share a new object -/
inductive SRun (host : Host ω H) (w0 : ω) : List (SLabel ω H) → SSys ω H → Prop
  | init : SRun host w0 [] { world := w0 }
  | step {ls s s' l} (c : Choice ω) : SRun host w0 ls s → s.step user rootPath iounit host c = some (s', l) →
      SRun host w0 (ls ++ [l]) s'

end
end Ninep.Ufs.Shared
