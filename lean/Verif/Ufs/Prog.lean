import Verif.Ufs.Model
/-
The file server once more, as programs that say which host calls they make and what they do with the
answers (filesystem/filesystem.go, protocol/server.go:251-295).  `Ufs/Model.lean` has the same functions with the
host called in place; Lemmas/Prog.lean proves both equal.  A program can be stopped between two host calls, so
that other goroutines run in between (Ufs/Threads.lean).
-/

namespace Ninep.Ufs

section
variable {ω H : Type}

/-- a call of package os (Ufs/Host.lean) -/
inductive HCall (H : Type) where
  | lstat (p : GoString)
  | stat (p : GoString)
  | openFile (p : GoString) (flags : Nat) (perm : UInt32)
  | mkdir (p : GoString) (perm : UInt32)
  | chmod (p : GoString) (perm : UInt32)
  | rename (old new : GoString)
  | truncate (p : GoString) (size : Int64)
  | chtimes (p : GoString) (atime mtime : Time)
  | remove (p : GoString)
  | close (h : H)
  | sync (h : H)
  | seek0 (h : H)
  | readdir1 (h : H)
  | readAt (h : H) (n : Nat) (off : Int64)
  | writeAt (h : H) (b : Bytes) (off : Int64)

/-- what a call returns -/
@[reducible] def HCall.Ans : HCall H → Type
  | .lstat _ => Except GoString FileInfo
  | .stat _ => Except GoString FileInfo
  | .openFile _ _ _ => Except GoString H
  | .readdir1 _ => DirRes
  | .readAt _ _ _ => Bytes × ReadErr
  | .writeAt _ _ _ => Nat × Option GoString
  | _ => Option GoString

/-- the host makes a call -/
def Host.exec (host : Host ω H) : (c : HCall H) → ω → ω × c.Ans
  | .lstat p, w => host.lstat p w
  | .stat p, w => host.stat p w
  | .openFile p f m, w => host.openFile p f m w
  | .mkdir p m, w => host.mkdir p m w
  | .chmod p m, w => host.chmod p m w
  | .rename p q, w => host.rename p q w
  | .truncate p n, w => host.truncate p n w
  | .chtimes p a m, w => host.chtimes p a m w
  | .remove p, w => host.remove p w
  | .close h, w => host.close h w
  | .sync h, w => host.sync h w
  | .seek0 h, w => host.seek0 h w
  | .readdir1 h, w => host.readdir1 h w
  | .readAt h n o, w => host.readAt h n o w
  | .writeAt h b o, w => host.writeAt h b o w

/-- a program that makes host calls -/
inductive Prog (H α : Type) where
  | ret (a : α)
  | panic
  | call (c : HCall H) (k : c.Ans → Prog H α)

/-- one program after the other -/
def Prog.bind {α β : Type} : Prog H α → (α → Prog H β) → Prog H β
  | .ret a, f => f a
  | .panic, _ => .panic
  | .call c k, f => .call c fun a => (k a).bind f

/-- the program run without interruption; `none` is a panic -/
def Prog.run (host : Host ω H) {α : Type} : Prog H α → ω → Option (ω × α)
  | .ret a, w => some (w, a)
  | .panic, _ => none
  | .call c k, w => (k (host.exec c w).2).run host (host.exec c w).1

/-- a `FileServer` object: the state of a file server without the world -/
abbrev Obj (H : Type) := State Unit H

/-- the object alone -/
def State.obj (s : State ω H) : Obj H := { s with world := () }

/-- the object in a world -/
def State.into (o : Obj H) (w : ω) : State ω H := { o with world := w }

/-- what a method of the file server leaves and returns -/
abbrev Met (H α : Type) := Prog H (Obj H × Except GoString α)

/-- the method returns values -/
def retOk {α : Type} (o : Obj H) (a : α) : Met H α := .ret (o, .ok a)
/-- the method returns an error -/
def retErr {α : Type} (o : Obj H) (e : GoString) : Met H α := .ret (o, .error e)

variable (user : GoString)

/-- filesystem.go:63-69 -/
def pversion (msize : MaxSize) (version : GoString) (o : Obj H) : Met H (MaxSize × GoString) :=
  if version ≠ lit "9P2000" then retErr o (version ++ lit " not supported; only 9P2000")
  else retOk { o with Versioned := true } (msize, version)

/-- filesystem.go:82-98 -/
def pattach (fid afid : FID) (_uname aname : GoString) (o : Obj H) : Met H QID :=
  if afid ≠ NOFID then retErr o (lit "We don't do auth attach")
  else
    let aname := pathJoin o.rootPath (pathJoin [slash] aname)
    .call (.stat aname) fun r =>
    match r with
    | .error e => retErr o e
    | .ok st => retOk (o.set fid { fullName := aname, qid := fileInfoToQID st }) (fileInfoToQID st)

/-- filesystem.go:100-102 -/
def pflush (_o : Tag) (o : Obj H) : Met H Unit := retOk o ()

/-- filesystem.go:121-151 -/
def pwalkLoop (p : GoString) : List GoString → Prog H (List QID × Option GoString)
  | [] => .ret ([], some p)
  | n :: ns =>
    let p := pathJoin p n
    .call (.lstat p) fun r =>
    match r with
    | .error _ => .ret ([], none)
    | .ok st =>
      (pwalkLoop p ns).bind fun r =>
      .ret (fileInfoToQID st :: r.1, r.2)

/-- filesystem.go:104-162 -/
def pwalk (fid newfid : FID) (paths : List GoString) (o : Obj H) : Met H (List QID) :=
  match o.files fid with
  | none => retErr o (lit "does not exist")
  | some f =>
    if paths = [] then
      match o.files newfid with
      | some _ => retErr o (lit "FID in use: clone walk, fid " ++ dec fid.toNat ++ lit " newfid " ++ dec newfid.toNat)
      | none => retOk (o.set newfid f) []
    else
      (pwalkLoop f.fullName paths).bind fun r =>
      match r with
      | (q, none) => if q = [] then retErr o (lit "file does not exist") else retOk o q
      | (q, some p) =>
        if fid ≠ newfid ∧ (o.files newfid).isSome then
          retErr o (lit "FID in use: walk to " ++ fmtStrings paths ++ lit ", fid " ++ dec fid.toNat ++
            lit ", newfid " ++ dec newfid.toNat)
        else retOk (o.set newfid { fullName := p, qid := q.getLastD {} }) q

/-- filesystem.go:164-179 -/
def popen (fid : FID) (mode : Mode) (o : Obj H) : Met H (QID × MaxSize) :=
  match o.files fid with
  | none => retErr o (lit "does not exist")
  | some f =>
    .call (.openFile f.fullName (modeToUnixFlags mode) 0) fun r =>
    match r with
    | .error e => retErr (o.set fid { f with file := none }) e
    | .ok h => retOk (o.set fid { f with file := some h }) (f.qid, o.IOunit)

/-- filesystem.go:180-215 with `stat`, filesystem.go:49-61 -/
def pcreate (fid : FID) (name : GoString) (perm : Perm) (mode : Mode) (o : Obj H) : Met H (QID × MaxSize) :=
  match o.files fid with
  | none => retErr o (lit "does not exist")
  | some f =>
    if f.file.isSome then retErr o (lit "FID already open")
    else
      let n := pathJoin f.fullName name
      if perm &&& DMDIR ≠ 0 then
        .call (.mkdir n (perm &&& 0o777)) fun _ =>
        .call (.lstat n) fun r =>
        match r with
        | .error _ => retErr o (lit "does not exist")
        | .ok st => retOk (o.set fid { f with fullName := n, qid := fileInfoToQID st }) (fileInfoToQID st, 8000)
      else
        .call (.openFile n (modeToUnixFlags mode ||| O_CREATE ||| O_TRUNC) (perm &&& 0o777)) fun r =>
        match r with
        | .error e => retErr o e
        | .ok h =>
          .call (.lstat n) fun r =>
          match r with
          | .error _ => retErr o (lit "does not exist")
          | .ok st =>
            retOk (o.set fid { f with fullName := n, qid := fileInfoToQID st, file := some h }) (fileInfoToQID st, 8000)

/-- filesystem.go:336-352 -/
def pclunkFile (fid : FID) (o : Obj H) (f : File H) : Prog H (Obj H) :=
  match f.file with
  | none => .ret (o.del fid)
  | some h =>
    .call (.close h) fun _ =>
    .ret (o.del fid)

/-- filesystem.go:216-219 -/
def pclunk (fid : FID) (o : Obj H) : Met H Unit :=
  match o.files fid with
  | none => retErr o (lit "does not exist")
  | some f =>
    (pclunkFile fid o f).bind fun o =>
    retOk o ()

/-- filesystem.go:356-362 -/
def premove (fid : FID) (o : Obj H) : Met H Unit :=
  match o.files fid with
  | none => retErr o (lit "does not exist")
  | some f =>
    (pclunkFile fid o f).bind fun o =>
    .call (.remove f.fullName) fun r =>
    match r with
    | none => retOk o ()
    | some e => retErr o e

/-- filesystem.go:221-237 -/
def pstat (fid : FID) (o : Obj H) : Met H Bytes :=
  match o.files fid with
  | none => retErr o (lit "does not exist")
  | some f =>
    .call (.lstat f.fullName) fun r =>
    match r with
    | .error _ => retErr o (lit "ENOENT")
    | .ok st => retOk o (marshaldir {} (dirTo9p2000Dir user st)).bytes

/-- run `k` unless there was an error -/
def pAndThen (r : Prog H (Obj H × Option GoString)) (k : Obj H → Prog H (Obj H × Option GoString)) :
    Prog H (Obj H × Option GoString) :=
  r.bind fun r =>
  match r with
  | (o, some e) => .ret (o, some e)
  | (o, none) => k o

/-- filesystem.go:248-254 -/
def pwstatMode (f : File H) (dir : Dir) (o : Obj H) : Prog H (Obj H × Option GoString) :=
  if dir.Mode ≠ 0xFFFFFFFF then
    .call (.chmod f.fullName (dir.Mode &&& 0o777)) fun e =>
    .ret (o, e)
  else .ret (o, none)

/-- filesystem.go:257-260 -/
def pwstatUser (dir : Dir) (o : Obj H) : Prog H (Obj H × Option GoString) :=
  if dir.User ≠ [] ∨ dir.Group ≠ [] then .ret (o, some (lit "Permission denied")) else .ret (o, none)

/-- `err == nil && st.IsDir()`, filesystem.go:292 -/
def isDirAns : Except GoString FileInfo → Bool
  | .ok st => st.isDir
  | .error _ => false

/-- filesystem.go:273-299 -/
def pwstatName (fid : FID) (f : File H) (dir : Dir) (o : Obj H) : Prog H (Obj H × Option GoString) :=
  if dir.Name ≠ [] then
    let newname := renameTo o.rootPath f.fullName dir.Name
    .call (.stat newname) fun r =>
    if isDirAns r then .ret (o, some (lit "is a directory"))
    else
      .call (.rename f.fullName newname) fun r =>
      match r with
      | some e => .ret (o, some e)
      | none => .ret (o.set fid { f with fullName := newname }, none)
  else .ret (o, none)

/-- filesystem.go:301-306 -/
def pwstatLength (path : GoString) (dir : Dir) (o : Obj H) : Prog H (Obj H × Option GoString) :=
  if dir.Length ≠ 0xFFFFFFFFFFFFFFFF then
    .call (.truncate path dir.Length.toInt64) fun e =>
    .ret (o, e)
  else .ret (o, none)

/-- filesystem.go:310-328 -/
def pwstatTimes (path : GoString) (dir : Dir) (o : Obj H) : Prog H (Obj H × Option GoString) :=
  if dir.Mtime ≠ 0xFFFFFFFF ∨ dir.Atime ≠ 0xFFFFFFFF then
    if dir.Mtime = 0xFFFFFFFF ∨ dir.Atime = 0xFFFFFFFF then
      .call (.stat path) fun r =>
      match r with
      | .error e => .ret (o, some e)
      | .ok st =>
        .call (.chtimes path (unixTime dir.Atime) (if dir.Mtime = 0xFFFFFFFF then FileInfo.modTime st else unixTime dir.Mtime)) fun e =>
        .ret (o, e)
    else
      .call (.chtimes path (unixTime dir.Atime) (unixTime dir.Mtime)) fun e =>
      .ret (o, e)
  else .ret (o, none)

/-- filesystem.go:330-332 -/
def pwstatSync (f : File H) (dir : Dir) (o : Obj H) : Prog H (Obj H × Option GoString) :=
  match f.file with
  | some h =>
    if wstatChanges dir then .ret (o, none)
    else
      .call (.sync h) fun _ =>
      .ret (o, none)
  | none => .ret (o, none)

/-- filesystem.go:238-334 -/
def pwstat (fid : FID) (b : Bytes) (o : Obj H) : Met H Unit :=
  match o.files fid with
  | none => retErr o (lit "does not exist")
  | some f =>
    match unmarshaldir (Buffer.ofBytes b) with
    | .panic => .panic
    | .done _ _ (some e) _ => retErr o (decErrText e)
    | .done dir _ none _ =>
      let path := wstatPath f dir o
      let r := pAndThen (pwstatMode f dir o) fun o =>
        pAndThen (pwstatUser dir o) fun o =>
        pAndThen (pwstatName fid f dir o) fun o =>
        pAndThen (pwstatLength path dir o) fun o =>
        pAndThen (pwstatTimes path dir o) fun o =>
        pwstatSync f dir o
      r.bind fun r =>
      match r with
      | (o, none) => retOk o ()
      | (o, some e) => retErr o e

/-- filesystem.go:385-417 -/
def preadDir (fid : FID) (f : File H) (h : H) (c : Count) (o : Obj H) : Met H Bytes :=
  let b := f.oflow
  let o := o.set fid { f with oflow := [] }
  if (b.length : Int) > c.toInt then retOk (o.set fid { f with oflow := b }) []
  else
    .call (.readdir1 h) fun r =>
    match r with
    | .eof => retOk o b
    | .fail e => retErr o e
    | .entry st =>
      let b := (marshaldir (Buffer.ofBytes b) (dirTo9p2000Dir user st)).bytes
      if (b.length : Int) > c.toInt then retOk o [] else retOk o b

/-- filesystem.go:364-430 with `resetDir`, filesystem_unix.go:15-18 -/
def pread (fid : FID) (off : Offset) (c : Count) (o : Obj H) : Met H Bytes :=
  match o.files fid with
  | none => retErr o (lit "does not exist")
  | some f =>
    match f.file with
    | none => retErr o (lit "FID not open")
    | some h =>
      if f.qid.Typ &&& QTDIR ≠ 0 then
        if off = 0 then
          let f := { f with oflow := [] }
          let o := o.set fid f
          .call (.seek0 h) fun r =>
          match r with
          | some e => retErr o e
          | none => preadDir user fid f h c o
        else preadDir user fid f h c o
      else if c.toInt < 0 then .panic
      else
        .call (.readAt h c.toInt.toNat off.toInt64) fun r =>
        match r with
        | (_, .fail e) => retErr o e
        | (d, .none) => retOk o (d.take c.toInt.toNat)
        | (d, .eof) => retOk o (d.take c.toInt.toNat)

/-- filesystem.go:432-447 -/
def pwrite (fid : FID) (off : Offset) (b : Bytes) (o : Obj H) : Met H Count :=
  match o.files fid with
  | none => retErr o (lit "does not exist")
  | some f =>
    match f.file with
    | none => retErr o (lit "FID not open")
    | some h =>
      .call (.writeAt h b off.toInt64) fun r =>
      match r with
      | (n, none) => retOk o (Int32.ofNat n)
      | (_, some e) => retErr o e

/-! ### the stubs of protocol/genout.go and `Dispatch` -/

/-- what `Dispatch` leaves: the object, `server.Versioned` and the buffer -/
abbrev Served (H : Type) := Obj H × Bool × Buffer

/-- the common shape of the stubs, see `srvCall` -/
def psrv {P Q : Type} (dec : Buffer → Unm P) (met : P → Obj H → Met H Q) (enc : Buffer → Tag → Q → Buffer)
    (o : Obj H) (v : Bool) (b : Buffer) : Prog H (Served H) :=
  match dec b with
  | .panic => .panic
  | .done p t _ b =>
    (met p o).bind fun r =>
    match r with
    | (o, .error e) => .ret (o, v, marshalRerror b t { Error := e })
    | (o, .ok q) => .ret (o, v, enc b t q)

/-- protocol/server.go:267-294 with the stubs of genout.go, see `dispatchTable` -/
def pdispatchTable (o : Obj H) (v : Bool) (b : Buffer) (t : MType) : Prog H (Served H) :=
  if t = MT.Tversion then
    psrv unmarshalTversion (fun p => pversion p.TMsize p.TVersion) (fun b t q => marshalRversion b t { RMsize := q.1, RVersion := q.2 }) o v b
  else if t = MT.Tattach then
    psrv unmarshalTattach (fun p => pattach p.SFID p.AFID p.Uname p.Aname) (fun b t q => marshalRattach b t { QID := q }) o v b
  else if t = MT.Tflush then
    psrv unmarshalTflush (fun p => pflush p.OTag) (fun b t _ => marshalRflush b t {}) o v b
  else if t = MT.Twalk then
    psrv unmarshalTwalk (fun p => pwalk p.SFID p.NewFID p.Paths) (fun b t q => marshalRwalk b t { QIDs := q }) o v b
  else if t = MT.Topen then
    psrv unmarshalTopen (fun p => popen p.OFID p.Omode) (fun b t q => marshalRopen b t { OQID := q.1, IOUnit := q.2 }) o v b
  else if t = MT.Tcreate then
    psrv unmarshalTcreate (fun p => pcreate p.OFID p.Name p.CreatePerm p.Omode)
      (fun b t q => marshalRcreate b t { OQID := q.1, IOUnit := q.2 }) o v b
  else if t = MT.Tclunk then psrv unmarshalTclunk (fun p => pclunk p.OFID) (fun b t _ => marshalRclunk b t {}) o v b
  else if t = MT.Tstat then psrv unmarshalTstat (fun p => pstat user p.OFID) (fun b t q => marshalRstat b t { B := q }) o v b
  else if t = MT.Twstat then psrv unmarshalTwstat (fun p => pwstat p.OFID p.B) (fun b t _ => marshalRwstat b t {}) o v b
  else if t = MT.Tremove then psrv unmarshalTremove (fun p => premove p.OFID) (fun b t _ => marshalRremove b t {}) o v b
  else if t = MT.Tread then
    psrv unmarshalTread (fun p => pread user p.OFID p.Off p.Len) (fun b t q => marshalRread b t { Data := q }) o v b
  else if t = MT.Twrite then
    psrv unmarshalTwrite (fun p => pwrite p.OFID p.Off p.Data) (fun b t q => marshalRwrite b t { RLen := q }) o v b
  else .ret (o, v, serverError b (lit "Dispatch: " ++ rpcName t ++ lit " not supported"))

/-- protocol/server.go:251-295, see `dispatch` -/
def pdispatch (o : Obj H) (v : Bool) (b : Buffer) (t : MType) : Prog H (Served H) :=
  if t = MT.Tversion then pdispatchTable user o true b t
  else if v = false then
    match b.bytes with
    | d0 :: d1 :: _ =>
      .ret (o, v, marshalRerror b (d0.toUInt16 ||| d1.toUInt16 <<< 8)
        { Error := lit "Dispatch: " ++ rpcName t ++ lit " not allowed before Tversion" })
    | _ => .panic
  else pdispatchTable user o v b t

end
end Ninep.Ufs
