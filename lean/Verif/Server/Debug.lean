import Verif.Server.Dispatch
/-
The debugging wrapper pkg/debugfs/debug.go.

The log of the process is part of the state: a list of the formats and arguments given to `log.Printf`.
How the arguments are turned into text is left out (no type printed here has a `String` or `Error` method
with side effects, and package fmt catches panics of such methods).
-/

namespace Ninep.Debugfs

/-- an argument of `log.Printf` -/
inductive Arg where
  | num (n : Int)
  | str (s : GoString)
  | strs (l : List GoString)
  | qid (q : QID)
  | qids (q : List QID)
  | dir (d : Dir)

/-- one call of `log.Printf` -/
structure Line where
  fmt : String
  args : List Arg

section
variable {σ : Type}

/-- `log.Printf` -/
def printf (fmt : String) (args : List Arg) (log : List Line) : List Line := log ++ [⟨fmt, args⟩]

/-- The part common to all methods: print the request, call the wrapped server, print the reply or the
error, return what the wrapped server returned. -/
def around {α : Type} (fmt : String) (args : List Arg) (f : σ → NRes σ α) (rfmt : String) (rargs : α → List Arg)
    (s : σ × List Line) : NRes (σ × List Line) α :=
  let log := printf fmt args s.2
  match f s.1 with
  | .panic => .panic
  | .ok s' a => .ok (s', printf rfmt (rargs a) log) a
  | .err s' e => .err (s', printf "<<< Error %v\n" [.str e] log) e

/-- debug.go:18-27 -/
def rversion (ns : NineServer σ) (msize : MaxSize) (version : GoString) :=
  around ">>> Tversion %v %v\n" [.num msize.toNat, .str version] (ns.Rversion msize version)
    "<<< Rversion %v %v\n" fun q => [.num q.1.toNat, .str q.2]

/-- debug.go:29-39 -/
def rattach (ns : NineServer σ) (fid afid : FID) (uname aname : GoString) :=
  around ">>> Tattach fid %v,  afid %v, uname %v, aname %v\n" [.num fid.toNat, .num afid.toNat, .str uname, .str aname]
    (ns.Rattach fid afid uname aname) "<<< Rattach %v\n" fun q => [.qid q]

/-- debug.go:41-50 -/
def rflush (ns : NineServer σ) (o : Tag) :=
  around ">>> Tflush tag %v\n" [.num o.toNat] (ns.Rflush o) "<<< Rflush\n" fun _ => []

/-- debug.go:52-61 -/
def rwalk (ns : NineServer σ) (fid newfid : FID) (paths : List GoString) :=
  around ">>> Twalk fid %v, newfid %v, paths %v\n" [.num fid.toNat, .num newfid.toNat, .strs paths]
    (ns.Rwalk fid newfid paths) "<<< Rwalk %v\n" fun q => [.qids q]

/-- debug.go:63-72 -/
def ropen (ns : NineServer σ) (fid : FID) (mode : Mode) :=
  around ">>> Topen fid %v, mode %v\n" [.num fid.toNat, .num mode.toNat] (ns.Ropen fid mode)
    "<<< Ropen %v %v\n" fun q => [.qid q.1, .num q.2.toNat]

/-- debug.go:74-84 -/
def rcreate (ns : NineServer σ) (fid : FID) (name : GoString) (perm : Perm) (mode : Mode) :=
  around ">>> Tcreate fid %v, name %v, perm %v, mode %v\n" [.num fid.toNat, .str name, .num perm.toNat, .num mode.toNat]
    (ns.Rcreate fid name perm mode) "<<< Rcreate %v %v\n" fun q => [.qid q.1, .num q.2.toNat]

/-- debug.go:86-95 -/
def rclunk (ns : NineServer σ) (fid : FID) :=
  around ">>> Tclunk fid %v\n" [.num fid.toNat] (ns.Rclunk fid) "<<< Rclunk\n" fun _ => []

/-- debug.go:97-107: the record is decoded to be printed; the error of the decoder is dropped -/
def rstat (ns : NineServer σ) (fid : FID) (s : σ × List Line) : NRes (σ × List Line) Bytes :=
  let log := printf ">>> Tstat fid %v\n" [.num fid.toNat] s.2
  match ns.Rstat fid s.1 with
  | .panic => .panic
  | .err s' e => .err (s', printf "<<< Error %v\n" [.str e] log) e
  | .ok s' b =>
    match unmarshaldir (Buffer.ofBytes b) with
    | .panic => .panic
    | .done dir _ _ _ => .ok (s', printf "<<< Rstat %v\n" [.dir dir] log) b

/-- debug.go:109-119: the record is decoded to be printed before the wrapped server is called -/
def rwstat (ns : NineServer σ) (fid : FID) (b : Bytes) (s : σ × List Line) : NRes (σ × List Line) Unit :=
  match unmarshaldir (Buffer.ofBytes b) with
  | .panic => .panic
  | .done dir _ _ _ =>
    around ">>> Twstat fid %v, %v\n" [.num fid.toNat, .dir dir] (ns.Rwstat fid b) "<<< Rwstat\n" (fun _ => []) s

/-- debug.go:121-130 -/
def rremove (ns : NineServer σ) (fid : FID) :=
  around ">>> Tremove fid %v\n" [.num fid.toNat] (ns.Rremove fid) "<<< Rremove\n" fun _ => []

/-- debug.go:132-141 -/
def rread (ns : NineServer σ) (fid : FID) (o : Offset) (c : Count) :=
  around ">>> Tread fid %v, off %v, count %v\n" [.num fid.toNat, .num o.toNat, .num c.toInt] (ns.Rread fid o c)
    "<<< Rread %v\n" fun b => [.num b.length]

/-- debug.go:143-152 -/
def rwrite (ns : NineServer σ) (fid : FID) (o : Offset) (b : Bytes) :=
  around ">>> Twrite fid %v, off %v, count %v\n" [.num fid.toNat, .num o.toNat, .num b.length] (ns.Rwrite fid o b)
    "<<< Rwrite %v\n" fun c => [.num c.toInt]

/-- debug.go:14-16, as a file server whose state is that of the wrapped one and the log -/
def debugServer (ns : NineServer σ) : NineServer (σ × List Line) where
  Rversion := rversion ns
  Rattach := rattach ns
  Rwalk := rwalk ns
  Ropen := ropen ns
  Rcreate := rcreate ns
  Rstat := rstat ns
  Rwstat := rwstat ns
  Rclunk := rclunk ns
  Rremove := rremove ns
  Rread := rread ns
  Rwrite := rwrite ns
  Rflush := rflush ns

end
end Ninep.Debugfs
