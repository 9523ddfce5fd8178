import Verif.Ufs.Host
import Verif.Go.Path
/-
The file server filesystem/filesystem.go with filesystem/ninep.go, ninep_unix.go and filesystem_unix.go.

One `FileServer` belongs to one connection, whose requests are worked on one after the other, so the
mutex `mu` plays no role.  Every entry of `files` is a pointer to a `file` of its own (filesystem.go:92,
118, 160 allocate or copy), so the table is modelled as holding the structures themselves.  The field
`root` (filesystem.go:96) is never read and left out.  Logging is left out.
-/

namespace Ninep.Ufs

/-- filesystem.go:23-31 -/
structure File (H : Type) where
  qid : QID
  fullName : GoString
  file : Option H := none
  oflow : Bytes := []

/-- filesystem.go:33-42, and the world -/
structure State (ω H : Type) where
  rootPath : GoString
  Versioned : Bool := false
  IOunit : MaxSize
  files : FID → Option (File H)
  world : ω

section
variable {ω H : Type}

/-- `e.files[fid] = f`, resp. an assignment to a field of `*f` -/
def State.set (s : State ω H) (fid : FID) (f : File H) : State ω H :=
  { s with files := fun i => if i = fid then some f else s.files i }

/-- `delete(e.files, fid)` -/
def State.del (s : State ω H) (fid : FID) : State ω H :=
  { s with files := fun i => if i = fid then none else s.files i }

/-! ### ninep.go, ninep_unix.go -/

/-- ninep.go:20-45 -/
def modeToUnixFlags (mode : Mode) : Nat :=
  let ret :=
    if mode &&& 3 = OREAD then O_RDONLY
    else if mode &&& 3 = ORDWR then O_RDWR
    else if mode &&& 3 = OWRITE then O_WRONLY
    else if mode &&& 3 = OEXEC then O_RDONLY
    else 0
  if mode &&& OTRUNC ≠ 0 then ret ||| O_TRUNC else ret

/-- ninep.go:47-58 -/
def dirToQIDType (d : FileInfo) : UInt8 :=
  let ret : UInt8 := 0
  let ret := if d.isDir then ret ||| QTDIR else ret
  if d.mode &&& ModeSymlink ≠ 0 then ret ||| QTSYMLINK else ret

/-- ninep.go:60-66 -/
def dirTo9p2000Mode (d : FileInfo) : UInt32 :=
  let ret := d.mode &&& 0o777
  if d.isDir then ret ||| DMDIR else ret

/-- ninep_unix.go:18-34 -/
def fileInfoToQID (d : FileInfo) : QID :=
  { Path := match d.sys with
      | some ino => ino
      | none => d.modTime.unixNano.toUInt64
    Version := (d.modTime.unixNano / 1000000).toUInt64.toUInt32
    Typ := dirToQIDType d }

/-- ninep.go:68-81; the error is always nil.  `user` is the flag of ninep.go:16-18. -/
def dirTo9p2000Dir (user : GoString) (fi : FileInfo) : Dir :=
  { QID := fileInfoToQID fi
    Mode := dirTo9p2000Mode fi
    Atime := (Int64.ofInt fi.modTime.sec).toUInt64.toUInt32
    Mtime := (Int64.ofInt fi.modTime.sec).toUInt64.toUInt32
    Length := fi.size.toUInt64
    Name := fi.name
    User := user
    Group := user }

/-- `%d` -/
def dec (n : Nat) : GoString := lit (toString n)

/-- `%v` of a `[]string` -/
def fmtStrings : List GoString → GoString
  | [] => lit "[]"
  | s :: ss => lit "[" ++ s ++ ss.flatMap (fun t => lit " " ++ t) ++ lit "]"

variable (host : Host ω H) (user : GoString)

/-! ### filesystem.go -/

/-- filesystem.go:63-69 -/
def rversion (msize : MaxSize) (version : GoString) (s : State ω H) : NRes (State ω H) (MaxSize × GoString) :=
  if version ≠ lit "9P2000" then .err s (version ++ lit " not supported; only 9P2000")
  else .ok { s with Versioned := true } (msize, version)

/-- filesystem.go:82-98 -/
def rattach (fid afid : FID) (_uname aname : GoString) (s : State ω H) : NRes (State ω H) QID :=
  if afid ≠ NOFID then .err s (lit "We don't do auth attach")
  else
    let aname := pathJoin [slash] aname
    let aname := pathJoin s.rootPath aname
    match host.stat aname s.world with
    | (w, .error e) => .err { s with world := w } e
    | (w, .ok st) =>
      let r : File H := { fullName := aname, qid := fileInfoToQID st }
      .ok ({ s with world := w }.set fid r) r.qid

/-- filesystem.go:100-102 -/
def rflush (_o : Tag) (s : State ω H) : NRes (State ω H) Unit := .ok s ()

/-- The loop of filesystem.go:121-151: the world, the QIDs found, and the path reached if all names were
there.  The QIDs are returned as `q[:i]` resp. `q`. -/
def walkLoop (p : GoString) (w : ω) : List GoString → ω × List QID × Option GoString
  | [] => (w, [], some p)
  | n :: ns =>
    let p := pathJoin p n
    match host.lstat p w with
    | (w, .error _) => (w, [], none)
    | (w, .ok st) =>
      let r := walkLoop p w ns
      (r.1, fileInfoToQID st :: r.2.1, r.2.2)

/-- filesystem.go:104-162 -/
def rwalk (fid newfid : FID) (paths : List GoString) (s : State ω H) : NRes (State ω H) (List QID) :=
  match s.files fid with
  | none => .err s (lit "does not exist")
  | some f =>
    if paths = [] then
      match s.files newfid with
      | some _ => .err s (lit "FID in use: clone walk, fid " ++ dec fid.toNat ++ lit " newfid " ++ dec newfid.toNat)
      | none => .ok (s.set newfid f) []
    else
      match walkLoop host f.fullName s.world paths with
      | (w, q, none) =>
        if q = [] then .err { s with world := w } (lit "file does not exist") else .ok { s with world := w } q
      | (w, q, some p) =>
        let s := { s with world := w }
        if fid ≠ newfid ∧ (s.files newfid).isSome then
          .err s (lit "FID in use: walk to " ++ fmtStrings paths ++ lit ", fid " ++ dec fid.toNat ++
            lit ", newfid " ++ dec newfid.toNat)
        else .ok (s.set newfid { fullName := p, qid := q.getLastD {} }) q

/-- filesystem.go:164-179.  `f.file, err = os.OpenFile(…)` sets `f.file` to nil if it fails. -/
def ropen (fid : FID) (mode : Mode) (s : State ω H) : NRes (State ω H) (QID × MaxSize) :=
  match s.files fid with
  | none => .err s (lit "does not exist")
  | some f =>
    match host.openFile f.fullName (modeToUnixFlags mode) 0 s.world with
    | (w, .error e) => .err ({ s with world := w }.set fid { f with file := none }) e
    | (w, .ok h) => .ok ({ s with world := w }.set fid { f with file := some h }) (f.qid, s.IOunit)

/-- filesystem.go:180-215 with `stat`, filesystem.go:49-61 -/
def rcreate (fid : FID) (name : GoString) (perm : Perm) (mode : Mode) (s : State ω H) :
    NRes (State ω H) (QID × MaxSize) :=
  match s.files fid with
  | none => .err s (lit "does not exist")
  | some f =>
    if f.file.isSome then .err s (lit "FID already open")
    else
      let n := pathJoin f.fullName name
      if perm &&& DMDIR ≠ 0 then
        -- err := os.Mkdir(n, p); _, q, err := stat(n): the first error is overwritten
        let s := { s with world := (host.mkdir n (perm &&& 0o777) s.world).1 }
        match host.lstat n s.world with
        | (w, .error _) => .err { s with world := w } (lit "does not exist")
        | (w, .ok st) =>
          .ok ({ s with world := w }.set fid { f with fullName := n, qid := fileInfoToQID st }) (fileInfoToQID st, 8000)
      else
        match host.openFile n (modeToUnixFlags mode ||| O_CREATE ||| O_TRUNC) (perm &&& 0o777) s.world with
        | (w, .error e) => .err { s with world := w } e
        | (w, .ok h) =>
          match host.lstat n w with
          | (w, .error _) => .err { s with world := w } (lit "does not exist")
          | (w, .ok st) =>
            .ok ({ s with world := w }.set fid { f with fullName := n, qid := fileInfoToQID st, file := some h }) (fileInfoToQID st, 8000)

/-- filesystem.go:336-352; `none` if the fid is not in use -/
def clunk (fid : FID) (s : State ω H) : Option (State ω H × File H) :=
  match s.files fid with
  | none => none
  | some f =>
    let s := s.del fid
    match f.file with
    | none => some (s, f)
    | some h => some ({ s with world := (host.close h s.world).1 }, f)

/-- filesystem.go:216-219 -/
def rclunk (fid : FID) (s : State ω H) : NRes (State ω H) Unit :=
  match clunk host fid s with
  | none => .err s (lit "does not exist")
  | some (s, _) => .ok s ()

/-- filesystem.go:221-237 -/
def rstat (fid : FID) (s : State ω H) : NRes (State ω H) Bytes :=
  match s.files fid with
  | none => .err s (lit "does not exist")
  | some f =>
    match host.lstat f.fullName s.world with
    | (w, .error _) => .err { s with world := w } (lit "ENOENT")
    | (w, .ok st) => .ok { s with world := w } (marshaldir {} (dirTo9p2000Dir user st)).bytes

/-- run `k` unless there was an error -/
def andThen (r : State ω H × Option GoString) (k : State ω H → State ω H × Option GoString) :
    State ω H × Option GoString :=
  match r with
  | (s, some e) => (s, some e)
  | (s, none) => k s

/-- a host function that returns only an error -/
def onWorld (f : ω → ω × Option GoString) (s : State ω H) : State ω H × Option GoString :=
  ({ s with world := (f s.world).1 }, (f s.world).2)

/-- filesystem.go:278-286: the new path for a name -/
def renameTo (rootPath fullName name : GoString) : GoString :=
  if isAbs name then pathJoin rootPath name
  else pathJoin (pathDir fullName) (pathJoin [slash] name)

/-- filesystem.go:248-254 -/
def wstatMode (f : File H) (dir : Dir) (s : State ω H) : State ω H × Option GoString :=
  if dir.Mode ≠ 0xFFFFFFFF then onWorld (host.chmod f.fullName (dir.Mode &&& 0o777)) s else (s, none)

/-- filesystem.go:257-260 -/
def wstatUser (dir : Dir) (s : State ω H) : State ω H × Option GoString :=
  if dir.User ≠ [] ∨ dir.Group ≠ [] then (s, some (lit "Permission denied")) else (s, none)

/-- `st, err := os.Stat(newname); err == nil && st.IsDir()`, filesystem.go:291-292 -/
def isDirNow (p : GoString) (w : ω) : ω × Bool :=
  match host.stat p w with
  | (w, .ok st) => (w, st.isDir)
  | (w, .error _) => (w, false)

/-- filesystem.go:273-299 -/
def wstatName (fid : FID) (f : File H) (dir : Dir) (s : State ω H) : State ω H × Option GoString :=
  if dir.Name ≠ [] then
    let newname := renameTo s.rootPath f.fullName dir.Name
    let t := isDirNow host newname s.world
    let s := { s with world := t.1 }
    if t.2 then (s, some (lit "is a directory"))
    else
      andThen (onWorld (host.rename f.fullName newname) s) fun s =>
        (s.set fid { f with fullName := newname }, none)
  else (s, none)

/-- the value of `f.fullName` after filesystem.go:273-299 -/
def wstatPath (f : File H) (dir : Dir) (s : State ω H) : GoString :=
  if dir.Name ≠ [] then renameTo s.rootPath f.fullName dir.Name else f.fullName

/-- filesystem.go:301-306 -/
def wstatLength (path : GoString) (dir : Dir) (s : State ω H) : State ω H × Option GoString :=
  if dir.Length ≠ 0xFFFFFFFFFFFFFFFF then onWorld (host.truncate path dir.Length.toInt64) s else (s, none)

/-- filesystem.go:310-328 -/
def wstatTimes (path : GoString) (dir : Dir) (s : State ω H) : State ω H × Option GoString :=
  if dir.Mtime ≠ 0xFFFFFFFF ∨ dir.Atime ≠ 0xFFFFFFFF then
    let mt := unixTime dir.Mtime
    let at_ := unixTime dir.Atime
    if dir.Mtime = 0xFFFFFFFF ∨ dir.Atime = 0xFFFFFFFF then
      match host.stat path s.world with
      | (w, .error e) => ({ s with world := w }, some e)
      | (w, .ok st) =>
        let s := { s with world := w }
        -- switch cmt { case true: mt = st.ModTime(); default: }
        let mt := if dir.Mtime = 0xFFFFFFFF then st.modTime else mt
        onWorld (host.chtimes path at_ mt) s
    else onWorld (host.chtimes path at_ mt) s
  else (s, none)

/-- `changed`, filesystem.go:249, 274, 302, 311 -/
def wstatChanges (dir : Dir) : Bool :=
  dir.Mode ≠ 0xFFFFFFFF ∨ dir.Name ≠ [] ∨ dir.Length ≠ 0xFFFFFFFFFFFFFFFF ∨
    dir.Mtime ≠ 0xFFFFFFFF ∨ dir.Atime ≠ 0xFFFFFFFF

/-- filesystem.go:330-332: `f.file.Sync()`, whose error is dropped -/
def wstatSync (f : File H) (dir : Dir) (s : State ω H) : State ω H × Option GoString :=
  match f.file with
  | some h => if wstatChanges dir then (s, none) else ({ s with world := (host.sync h s.world).1 }, none)
  | none => (s, none)

/-- the text of a decoding error -/
def decErrText : DecErr → GoString
  | .shortTag => lit "pkt too short for Tag; need 2, have 0"
  | .shortInt bits => lit "pkt too short for uint" ++ dec bits ++ lit ": need " ++ dec (bits / 8) ++ lit ", have 0"
  | .shortString need have_ => lit "pkt too short for string: need " ++ dec need ++ lit ", have " ++ dec have_
  | .tooLong left => lit "Packet too long: " ++ dec left ++ lit " bytes left over after decode"

/-- filesystem.go:238-334 -/
def rwstat (fid : FID) (b : Bytes) (s : State ω H) : NRes (State ω H) Unit :=
  match s.files fid with
  | none => .err s (lit "does not exist")
  | some f =>
    match unmarshaldir (Buffer.ofBytes b) with
    | .panic => .panic
    | .done _ _ (some e) _ => .err s (decErrText e)
    | .done dir _ none _ =>
      let path := wstatPath f dir s
      let r := andThen (wstatMode host f dir s) fun s =>
        andThen (wstatUser dir s) fun s =>
        andThen (wstatName host fid f dir s) fun s =>
        andThen (wstatLength host path dir s) fun s =>
        andThen (wstatTimes host path dir s) fun s =>
        wstatSync host f dir s
      match r with
      | (s, none) => .ok s ()
      | (s, some e) => .err s e

/-- filesystem.go:356-362 -/
def rremove (fid : FID) (s : State ω H) : NRes (State ω H) Unit :=
  match clunk host fid s with
  | none => .err s (lit "does not exist")
  | some (s, f) =>
    match host.remove f.fullName s.world with
    | (w, none) => .ok { s with world := w } ()
    | (w, some e) => .err { s with world := w } e

/-- The directory branch from `b := bytes.NewBuffer(f.oflow)` on, filesystem.go:385-417.  Every path
through the body of the `for` ends in a return. -/
def readDir (fid : FID) (f : File H) (h : H) (c : Count) (s : State ω H) : NRes (State ω H) Bytes :=
  let b := f.oflow
  let s := s.set fid { f with oflow := [] }
  if (b.length : Int) > c.toInt then .ok (s.set fid { f with oflow := b }) []
  else
    match host.readdir1 h s.world with
    | (w, .eof) => .ok { s with world := w } b
    | (w, .fail e) => .err { s with world := w } e
    | (w, .entry st) =>
      -- Marshaldir resets the buffer first
      let b := (marshaldir (Buffer.ofBytes b) (dirTo9p2000Dir user st)).bytes
      if (b.length : Int) > c.toInt then .ok { s with world := w } [] else .ok { s with world := w } b

/-- filesystem.go:364-430 with `resetDir`, filesystem_unix.go:15-18.  `make([]byte, c)` panics for a
negative `c`; `ReadAt` cannot return more bytes than the buffer has. -/
def rread (fid : FID) (o : Offset) (c : Count) (s : State ω H) : NRes (State ω H) Bytes :=
  match s.files fid with
  | none => .err s (lit "does not exist")
  | some f =>
    match f.file with
    | none => .err s (lit "FID not open")
    | some h =>
      if f.qid.Typ &&& QTDIR ≠ 0 then
        if o = 0 then
          let f := { f with oflow := [] }
          let s := s.set fid f
          match host.seek0 h s.world with
          | (w, some e) => .err { s with world := w } e
          | (w, none) => readDir host user fid f h c { s with world := w }
        else readDir host user fid f h c s
      else if c.toInt < 0 then .panic
      else
        match host.readAt h c.toInt.toNat o.toInt64 s.world with
        | (w, _, .fail e) => .err { s with world := w } e
        | (w, d, .none) => .ok { s with world := w } (d.take c.toInt.toNat)
        | (w, d, .eof) => .ok { s with world := w } (d.take c.toInt.toNat)

/-- filesystem.go:432-447 -/
def rwrite (fid : FID) (o : Offset) (b : Bytes) (s : State ω H) : NRes (State ω H) Count :=
  match s.files fid with
  | none => .err s (lit "does not exist")
  | some f =>
    match f.file with
    | none => .err s (lit "FID not open")
    | some h =>
      match host.writeAt h b o.toInt64 s.world with
      | (w, n, none) => .ok { s with world := w } (Int32.ofNat n)
      | (w, _, some e) => .err { s with world := w } e

/-- the file server as a `NineServer` -/
def ufs : NineServer (State ω H) where
  Rversion := rversion
  Rattach := rattach host
  Rwalk := rwalk host
  Ropen := ropen host
  Rcreate := rcreate host
  Rstat := rstat host user
  Rwstat := rwstat host
  Rclunk := rclunk host
  Rremove := rremove host
  Rread := rread host user
  Rwrite := rwrite host
  Rflush := rflush

/-- filesystem.go:449-458: the file server of a new connection -/
def newFS (rootPath : GoString) (w : ω) : State ω H :=
  { rootPath := rootPath, IOunit := 8192, files := fun _ => none, world := w }

end
end Ninep.Ufs
