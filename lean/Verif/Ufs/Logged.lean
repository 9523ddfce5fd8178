import Verif.Ufs.Process
import Verif.Server.Debug
/-
The program ufs with the flag `debug` set (filesystem/filesystem.go:457-459): every connection has a wrapper of
pkg/debugfs/debug.go around its file server, and all goroutines write to the one log of the process.  The rest is
Ufs/Process.lean, with one more step: a line is written to the log.  Package log writes a line at a time (it has a
mutex), but lines of other goroutines may come between the two lines of a request.

Other lines of the log (server.go writes to the tracer of the listener) are left out; so is how a line is formatted.
In front of each line stands the number of the connection that has written it, which is not in the log of the program.
-/

namespace Ninep.Ufs
open Debugfs (Line Arg)
variable {ω H : Type}

/-- a program that makes host calls and writes lines to the log -/
inductive LProg (H α : Type) where
  | ret (a : α)
  | panic
  | call (c : HCall H) (k : c.Ans → LProg H α)
  | log (l : Line) (k : LProg H α)

/-- one program after the other -/
def LProg.bind {α β : Type} : LProg H α → (α → LProg H β) → LProg H β
  | .ret a, f => f a
  | .panic, _ => .panic
  | .call c k, f => .call c fun a => (k a).bind f
  | .log l k, f => .log l (k.bind f)

/-- a program that writes nothing -/
def Prog.quiet {α : Type} : Prog H α → LProg H α
  | .ret a => .ret a
  | .panic => .panic
  | .call c k => .call c fun a => (k a).quiet

/-- what a method of the wrapper leaves and returns -/
abbrev LMet (H α : Type) := LProg H (Obj H × Except GoString α)

/-- The part common to the methods of debug.go: print the request, call the file server, print the reply or the error. -/
def laround {α : Type} (fmt : String) (args : List Arg) (m : Met H α) (rfmt : String) (rargs : α → List Arg) : LMet H α :=
  .log ⟨fmt, args⟩ <| m.quiet.bind fun r =>
  match r with
  | (o, .ok a) => .log ⟨rfmt, rargs a⟩ (.ret (o, .ok a))
  | (o, .error e) => .log ⟨"<<< Error %v\n", [.str e]⟩ (.ret (o, .error e))

variable (user : GoString)

/-- debug.go:18-27 -/
def lversion (msize : MaxSize) (version : GoString) (o : Obj H) : LMet H (MaxSize × GoString) :=
  laround ">>> Tversion %v %v\n" [.num msize.toNat, .str version] (pversion msize version o)
    "<<< Rversion %v %v\n" fun q => [.num q.1.toNat, .str q.2]

/-- debug.go:29-39 -/
def lattach (fid afid : FID) (uname aname : GoString) (o : Obj H) : LMet H QID :=
  laround ">>> Tattach fid %v,  afid %v, uname %v, aname %v\n" [.num fid.toNat, .num afid.toNat, .str uname, .str aname]
    (pattach fid afid uname aname o) "<<< Rattach %v\n" fun q => [.qid q]

/-- debug.go:41-50 -/
def lflush (t : Tag) (o : Obj H) : LMet H Unit :=
  laround ">>> Tflush tag %v\n" [.num t.toNat] (pflush t o) "<<< Rflush\n" fun _ => []

/-- debug.go:52-61 -/
def lwalk (fid newfid : FID) (paths : List GoString) (o : Obj H) : LMet H (List QID) :=
  laround ">>> Twalk fid %v, newfid %v, paths %v\n" [.num fid.toNat, .num newfid.toNat, .strs paths]
    (pwalk fid newfid paths o) "<<< Rwalk %v\n" fun q => [.qids q]

/-- debug.go:63-72 -/
def lopen (fid : FID) (mode : Mode) (o : Obj H) : LMet H (QID × MaxSize) :=
  laround ">>> Topen fid %v, mode %v\n" [.num fid.toNat, .num mode.toNat] (popen fid mode o)
    "<<< Ropen %v %v\n" fun q => [.qid q.1, .num q.2.toNat]

/-- debug.go:74-84 -/
def lcreate (fid : FID) (name : GoString) (perm : Perm) (mode : Mode) (o : Obj H) : LMet H (QID × MaxSize) :=
  laround ">>> Tcreate fid %v, name %v, perm %v, mode %v\n" [.num fid.toNat, .str name, .num perm.toNat, .num mode.toNat]
    (pcreate fid name perm mode o) "<<< Rcreate %v %v\n" fun q => [.qid q.1, .num q.2.toNat]

/-- debug.go:86-95 -/
def lclunk (fid : FID) (o : Obj H) : LMet H Unit :=
  laround ">>> Tclunk fid %v\n" [.num fid.toNat] (pclunk fid o) "<<< Rclunk\n" fun _ => []

/-- debug.go:97-107 -/
def lstat (fid : FID) (o : Obj H) : LMet H Bytes :=
  .log ⟨">>> Tstat fid %v\n", [.num fid.toNat]⟩ <| (pstat user fid o).quiet.bind fun r =>
  match r with
  | (o, .error e) => .log ⟨"<<< Error %v\n", [.str e]⟩ (.ret (o, .error e))
  | (o, .ok b) =>
    match unmarshaldir (Buffer.ofBytes b) with
    | .panic => .panic
    | .done dir _ _ _ => .log ⟨"<<< Rstat %v\n", [.dir dir]⟩ (.ret (o, .ok b))

/-- debug.go:109-119 -/
def lwstat (fid : FID) (b : Bytes) (o : Obj H) : LMet H Unit :=
  match unmarshaldir (Buffer.ofBytes b) with
  | .panic => .panic
  | .done dir _ _ _ =>
    laround ">>> Twstat fid %v, %v\n" [.num fid.toNat, .dir dir] (pwstat fid b o) "<<< Rwstat\n" fun _ => []

/-- debug.go:121-130 -/
def lremove (fid : FID) (o : Obj H) : LMet H Unit :=
  laround ">>> Tremove fid %v\n" [.num fid.toNat] (premove fid o) "<<< Rremove\n" fun _ => []

/-- debug.go:132-141 -/
def lread (fid : FID) (off : Offset) (c : Count) (o : Obj H) : LMet H Bytes :=
  laround ">>> Tread fid %v, off %v, count %v\n" [.num fid.toNat, .num off.toNat, .num c.toInt] (pread user fid off c o)
    "<<< Rread %v\n" fun b => [.num b.length]

/-- debug.go:143-152 -/
def lwrite (fid : FID) (off : Offset) (b : Bytes) (o : Obj H) : LMet H Count :=
  laround ">>> Twrite fid %v, off %v, count %v\n" [.num fid.toNat, .num off.toNat, .num b.length] (pwrite fid off b o)
    "<<< Rwrite %v\n" fun c => [.num c.toInt]

/-- the common shape of the stubs, see `psrv` -/
def lsrv {P Q : Type} (dec : Buffer → Unm P) (met : P → Obj H → LMet H Q) (enc : Buffer → Tag → Q → Buffer)
    (o : Obj H) (v : Bool) (b : Buffer) : LProg H (Served H) :=
  match dec b with
  | .panic => .panic
  | .done p t _ b =>
    (met p o).bind fun r =>
    match r with
    | (o, .error e) => .ret (o, v, marshalRerror b t { Error := e })
    | (o, .ok q) => .ret (o, v, enc b t q)

/-- protocol/server.go:267-294 with the stubs of genout.go, see `pdispatchTable` -/
def ldispatchTable (o : Obj H) (v : Bool) (b : Buffer) (t : MType) : LProg H (Served H) :=
  if t = MT.Tversion then
    lsrv unmarshalTversion (fun p => lversion p.TMsize p.TVersion) (fun b t q => marshalRversion b t { RMsize := q.1, RVersion := q.2 }) o v b
  else if t = MT.Tattach then
    lsrv unmarshalTattach (fun p => lattach p.SFID p.AFID p.Uname p.Aname) (fun b t q => marshalRattach b t { QID := q }) o v b
  else if t = MT.Tflush then
    lsrv unmarshalTflush (fun p => lflush p.OTag) (fun b t _ => marshalRflush b t {}) o v b
  else if t = MT.Twalk then
    lsrv unmarshalTwalk (fun p => lwalk p.SFID p.NewFID p.Paths) (fun b t q => marshalRwalk b t { QIDs := q }) o v b
  else if t = MT.Topen then
    lsrv unmarshalTopen (fun p => lopen p.OFID p.Omode) (fun b t q => marshalRopen b t { OQID := q.1, IOUnit := q.2 }) o v b
  else if t = MT.Tcreate then
    lsrv unmarshalTcreate (fun p => lcreate p.OFID p.Name p.CreatePerm p.Omode)
      (fun b t q => marshalRcreate b t { OQID := q.1, IOUnit := q.2 }) o v b
  else if t = MT.Tclunk then lsrv unmarshalTclunk (fun p => lclunk p.OFID) (fun b t _ => marshalRclunk b t {}) o v b
  else if t = MT.Tstat then lsrv unmarshalTstat (fun p => lstat user p.OFID) (fun b t q => marshalRstat b t { B := q }) o v b
  else if t = MT.Twstat then lsrv unmarshalTwstat (fun p => lwstat p.OFID p.B) (fun b t _ => marshalRwstat b t {}) o v b
  else if t = MT.Tremove then lsrv unmarshalTremove (fun p => lremove p.OFID) (fun b t _ => marshalRremove b t {}) o v b
  else if t = MT.Tread then
    lsrv unmarshalTread (fun p => lread user p.OFID p.Off p.Len) (fun b t q => marshalRread b t { Data := q }) o v b
  else if t = MT.Twrite then
    lsrv unmarshalTwrite (fun p => lwrite p.OFID p.Off p.Data) (fun b t q => marshalRwrite b t { RLen := q }) o v b
  else .ret (o, v, serverError b (lit "Dispatch: " ++ rpcName t ++ lit " not supported"))

/-- protocol/server.go:251-295, see `pdispatch` -/
def ldispatch (o : Obj H) (v : Bool) (b : Buffer) (t : MType) : LProg H (Served H) :=
  if t = MT.Tversion then ldispatchTable user o true b t
  else if v = false then
    match b.bytes with
    | d0 :: d1 :: _ =>
      .ret (o, v, marshalRerror b (d0.toUInt16 ||| d1.toUInt16 <<< 8)
        { Error := lit "Dispatch: " ++ rpcName t ++ lit " not allowed before Tversion" })
    | _ => .panic
  else ldispatchTable user o v b t

/-! ### the process -/

/-- a goroutine, see `Thr` -/
structure LThr (H : Type) where
  obj : Obj H
  Versioned : Bool := false
  dead : Bool := false
  out : List Bytes := []
  running : Option (LProg H (Served H)) := none

/-- a connection, see `PConn` -/
structure LConn (H : Type) where
  all : Bytes := []
  up : Bytes := []
  fin : Option StreamEnd := none
  rd : Client.Rd := .hdr
  thr : LThr H

/-- the process, see `Daemon` -/
structure LDaemon (ω H : Type) where
  lst : Listen.Sys
  conns : List (LConn H) := []
  world : ω
  exit : Option Exit := none
  /-- the lines of the log and who has written them -/
  log : List (Nat × Line) := []

/-- server.go:233-243, see `Thr.replied` -/
def LThr.replied (c : LThr H) (o : Obj H) (v : Bool) (b : Buffer) (written : Bool) : LThr H :=
  if written then { obj := o, Versioned := v, dead := c.dead, out := c.out ++ [b.bytes] }
  else { obj := o, Versioned := v, dead := true, out := c.out }

/-- see `PConn.reading` -/
def LConn.reading (c : LConn H) : Prop := c.thr.running = none ∧ c.thr.dead = false

inductive LLabel (ω H : Type) where
  /-- what the program does without the flag, too -/
  | step (l : DLabel ω H)
  /-- the goroutine of connection `i` writes a line -/
  | log (i : Nat) (l : Line)

variable (host : Host ω H) (rootPath : GoString)

/-- see `DStep`; `log` is `log.Printf` in debug.go -/
inductive LStep : LDaemon ω H → LLabel ω H → LDaemon ω H → Prop
  | listener {d : LDaemon ω H} (l' : Listen.Sys) (cs : List Listen.NetConn) : Listen.Step d.lst l' → l'.calls.length = d.lst.calls.length →
      l'.results = d.lst.results → l'.conns = d.lst.conns ++ cs →
      LStep d (.step (.listener cs.length)) { d with lst := l', conns := d.conns ++ cs.map fun _ => { thr := { obj := newObj rootPath } } }
  | arrive {d : LDaemon ω H} {i c} (x : Bytes) : d.conns[i]? = some c → c.fin = none →
      LStep d (.step (.arrive i x)) { d with conns := d.conns.set i { c with all := c.all ++ x, up := c.up ++ x } }
  | fin {d : LDaemon ω H} {i c} (e : StreamEnd) : d.conns[i]? = some c → c.fin = none →
      LStep d (.step (.fin i e)) { d with conns := d.conns.set i { c with fin := some e } }
  | hdr {d : LDaemon ω H} {i c} (x r : Bytes) : d.conns[i]? = some c → c.reading → c.rd = .hdr → c.up = x ++ r → x.length = 7 →
      LStep d (.step (.read i)) { d with conns := d.conns.set i { c with up := r, rd := .body x (hdrSize x - 7) } }
  | short {d : LDaemon ω H} {i c} (x r : Bytes) : d.conns[i]? = some c → c.reading → c.rd = .hdr → c.up = x ++ r → 0 < x.length → x.length < 7 →
      LStep d (.step (.hangup i)) { d with conns := d.conns.set i { c with up := r, rd := .stopped, thr := { c.thr with dead := true } } }
  | ends {d : LDaemon ω H} {i c} : d.conns[i]? = some c → c.reading → c.rd = .hdr → c.up = [] → c.fin ≠ none →
      LStep d (.step (.hangup i)) { d with conns := d.conns.set i { c with rd := .stopped, thr := { c.thr with dead := true } } }
  | body {d : LDaemon ω H} {i c} (got x r : Bytes) (n : Nat) : d.conns[i]? = some c → c.reading → c.rd = .body got n → c.up = x ++ r →
      0 < x.length → x.length ≤ n →
      LStep d (.step (.read i)) { d with conns := d.conns.set i { c with up := r, rd := .body (got ++ x) (n - x.length) } }
  | bodyErr {d : LDaemon ω H} {i c} (got : Bytes) (n : Nat) : d.conns[i]? = some c → c.reading → c.rd = .body got (n + 1) → c.up = [] →
      c.fin = some .error →
      LStep d (.step (.hangup i)) { d with conns := d.conns.set i { c with rd := .stopped, thr := { c.thr with dead := true } } }
  | bodyEOF {d : LDaemon ω H} {i c} (got : Bytes) (n : Nat) : d.conns[i]? = some c → c.reading → c.rd = .body got (n + 1) → c.up = [] →
      c.fin = some .eof →
      LStep d (.step (.read i)) { d with conns := d.conns.set i { c with rd := .body got 0 } }
  | start {d : LDaemon ω H} {i c} (got spare : Bytes) : d.conns[i]? = some c → c.reading → c.rd = .body got 0 →
      LStep d (.step (.start i got spare)) { d with conns := d.conns.set i { c with
        rd := .hdr
        thr := { c.thr with running := some (ldispatch user c.thr.obj c.thr.Versioned ⟨[], got.drop 5, spare⟩ (got.getD 4 0)) } } }
  | call {d : LDaemon ω H} {i c x k} : d.conns[i]? = some c → c.thr.running = some (.call x k) →
      LStep d (.step (.call i ⟨x, (host.exec x d.world).2⟩)) { d with
        conns := d.conns.set i { c with thr := { c.thr with running := some (k (host.exec x d.world).2) } }
        world := (host.exec x d.world).1 }
  | log {d : LDaemon ω H} {i c l k} : d.conns[i]? = some c → c.thr.running = some (.log l k) →
      LStep d (.log i l) { d with
        conns := d.conns.set i { c with thr := { c.thr with running := some k } }
        log := d.log ++ [(i, l)] }
  | reply {d : LDaemon ω H} {i c o v b} (written : Bool) : d.conns[i]? = some c → c.thr.running = some (.ret (o, v, b)) →
      LStep d (.step (.reply i written)) { d with conns := d.conns.set i { c with
        rd := if written then .hdr else .stopped
        thr := c.thr.replied o v b written } }
  | panic {d : LDaemon ω H} {i c} : d.conns[i]? = some c → c.thr.running = some .panic →
      LStep d (.step (.panic i)) { d with exit := some (.panic i) }
  | fatal {d : LDaemon ω H} {c e} : d.lst.calls[0]? = some c → c.pc = .returned e →
      LStep d (.step .fatal) { d with exit := some (.served e) }
  | other {d : LDaemon ω H} (w : ω) : LStep d (.step (.other w)) { d with world := w }

/-- `Serve` has been called -/
def LDaemon.start (w : ω) : LDaemon ω H := { lst := { calls := [{ ln := 0, pc := .entered }] }, world := w }

/-- the runs of the program with the flag `debug`, see `DRun` -/
inductive LRun (w0 : ω) : List (LLabel ω H) → LDaemon ω H → Prop
  | fails (e : GoString) : LRun w0 [] { lst := {}, world := w0, exit := some (.listen e) }
  | init : LRun w0 [] (.start w0)
  | step {ls d l d'} : LRun w0 ls d → d.exit = none → LStep user host rootPath d l d' → LRun w0 (ls ++ [l]) d'

end Ninep.Ufs
