import Verif.Ufs.Conns
/-
Many connections to one Unix file server whose requests overlap in time: every connection has a goroutine of
its own (protocol/server.go:162-170, `go c.serve()`), and between any two calls of the operating system the
others may run.  A step is one call of the operating system, or what a goroutine does between taking a packet
and its first call, resp. after the last call up to the reply.

Ufs/Conns.lean has the same with one step per request, and the pointers by which a connection finds its
`FileServer` object.  No two connections have the same pointer (`run_separate`), so here each connection simply
has an object, and it does not matter that the changes of the object become visible only with the reply.
-/

namespace Ninep.Ufs

variable {ω H : Type}

/-- a connection with its `FileServer` object and its goroutine (server.go:40-65, 205-243) -/
structure Thr (H : Type) where
  obj : Obj H
  Versioned : Bool := false
  dead : Bool := false
  /-- the replies written so far -/
  out : List Bytes := []
  /-- what is left to do of the request being worked on -/
  running : Option (Prog H (Served H)) := none

structure TProc (ω H : Type) where
  world : ω
  thr : List (Thr H) := []

/-- a host call and its answer -/
abbrev Ev (H : Type) := (c : HCall H) × c.Ans

/-- the steps of the process -/
inductive Label (ω H : Type) where
  /-- a connection is accepted -/
  | accept
  /-- connection `i` takes a packet: its type and what follows the type -/
  | start (i : Nat) (t : MType) (body spare : Bytes)
  /-- the request of connection `i` makes a host call -/
  | call (i : Nat) (e : Ev H)
  /-- the request of connection `i` is done; `written`: the reply could be written -/
  | reply (i : Nat) (written : Bool)
  /-- connection `i` breaks down while it waits for a packet -/
  | hangup (i : Nat)
  /-- another process changes the world -/
  | other (w : ω)

/-- server.go:233-243: the reply is written, or the connection is given up -/
def Thr.replied (c : Thr H) (o : Obj H) (v : Bool) (b : Buffer) (written : Bool) : Thr H :=
  if written then { obj := o, Versioned := v, dead := c.dead, out := c.out ++ [b.bytes] }
  else { obj := o, Versioned := v, dead := true, out := c.out }

variable (host : Host ω H) (user rootPath : GoString)

/-- server.go:81-93 and 162-170 (accept), 212-232 (start), filesystem.go (call), server.go:233-243 (reply) -/
inductive TStep : TProc ω H → Label ω H → TProc ω H → Prop
  | accept {p} : TStep p .accept { p with thr := p.thr ++ [{ obj := newObj rootPath }] }
  | start {p i c} (t : MType) (body spare : Bytes) : p.thr[i]? = some c → c.dead = false → c.running = none →
      TStep p (.start i t body spare)
        { p with thr := p.thr.set i { c with running := some (pdispatch user c.obj c.Versioned ⟨[], body, spare⟩ t) } }
  | call {p i c x k} : p.thr[i]? = some c → c.running = some (.call x k) →
      TStep p (.call i ⟨x, (host.exec x p.world).2⟩)
        { world := (host.exec x p.world).1, thr := p.thr.set i { c with running := some (k (host.exec x p.world).2) } }
  | reply {p i c o v b} (written : Bool) : p.thr[i]? = some c → c.running = some (.ret (o, v, b)) →
      TStep p (.reply i written)
        { p with thr := p.thr.set i (c.replied o v b written) }
  | hangup {p i c} : p.thr[i]? = some c → c.running = none →
      TStep p (.hangup i) { p with thr := p.thr.set i { c with dead := true } }
  | other {p} (w : ω) : TStep p (.other w) { p with world := w }

/-- the steps of a process that starts with a new listener -/
inductive TRun (w0 : ω) : List (Label ω H) → TProc ω H → Prop
  | init : TRun w0 [] { world := w0 }
  | step {ls p l p'} : TRun w0 ls p → TStep host user rootPath p l p' → TRun w0 (ls ++ [l]) p'

end Ninep.Ufs
