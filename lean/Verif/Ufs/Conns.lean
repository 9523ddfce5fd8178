import Verif.Ufs.Prog
import Verif.Server.Debug
/-
Many connections to one Unix file server: protocol/server.go:81-93 (`newConn`), 162-170 (`Accept`), one
round of the loop 212-243 for one of the connections, and filesystem/filesystem.go:449-468 (`NewUFS`).

`FileServer` objects lie in a common memory and connections hold pointers to them.  The world and the log
are common to all.  The requests of different connections are interleaved; one request is worked on in one
step (its effect on the `FileServer` object could not be seen by another goroutine anyway, its effects on
the world could).  How packets are cut out of the byte stream is in Server/Serve.lean.
-/

namespace Ninep.Ufs
open Debugfs

variable {ω H : Type}

/-- filesystem.go:451-454: what `nsCreator` allocates -/
def newObj (rootPath : GoString) : Obj H := newFS rootPath ()

/-- server.go:40-65, of one connection: the pointer `server.NS` (the wrapper of filesystem.go:457-459 has
nothing but a pointer to the same object), `server.Versioned`, `dead`, and the replies written so far -/
structure Conn where
  ns : Nat
  Versioned : Bool := false
  dead : Bool := false
  out : List Bytes := []

structure Proc (ω H : Type) where
  world : ω
  log : List Line := []
  /-- `FileServer` objects; a pointer is a position in this list -/
  heap : List (Obj H) := []
  conns : List Conn := []

/-- server.go:81-93 with filesystem.go:450-461 -/
def newConn (rootPath : GoString) (p : Proc ω H) : Proc ω H :=
  { p with heap := p.heap ++ [newObj rootPath], conns := p.conns ++ [{ ns := p.heap.length }] }

/-- `c.server.D(c.server, b, t)` (server.go:232) in the world of all connections.  `debug` is the flag of
filesystem.go:457.  `none` is a panic. -/
def dispatchIn (host : Host ω H) (user : GoString) (debug : Bool) (w : ω) (log : List Line) (o : Obj H) (versioned : Bool)
    (b : Buffer) (t : MType) : Option (ω × List Line × Obj H × Bool × Buffer) :=
  if debug then
    match dispatch (debugServer (ufs host user)) ⟨(o.into w, log), versioned⟩ b t with
    | .panic => none
    | .done s b => some (s.ns.1.world, s.ns.2, s.ns.1.obj, s.Versioned, b)
  else
    match dispatch (ufs host user) ⟨o.into w, versioned⟩ b t with
    | .panic => none
    | .done s b => some (s.ns.world, log, s.ns.obj, s.Versioned, b)

/-- One step of the process. -/
inductive Act where
  /-- a connection is accepted -/
  | accept
  /-- a packet of type `t` arrives on connection `i`; `body` is what follows the type and has at least
  two bytes; `written`: the reply could be written -/
  | packet (i : Nat) (t : MType) (body spare : Bytes) (written : Bool)
  /-- connection `i` breaks down -/
  | hangup (i : Nat)

/-- the process after an action; `none` if it panics -/
def act (host : Host ω H) (user rootPath : GoString) (debug : Bool) (p : Proc ω H) : Act → Option (Proc ω H)
  | .accept => some (newConn rootPath p)
  | .hangup i =>
    match p.conns[i]? with
    | none => some p
    | some c => some { p with conns := p.conns.set i { c with dead := true } }
  | .packet i t body spare written =>
    match p.conns[i]? with
    | none => some p
    | some c =>
      if c.dead then some p
      else
        match p.heap[c.ns]? with
        | none => none -- a nil pointer; does not happen
        | some o =>
          match dispatchIn host user debug p.world p.log o c.Versioned ⟨[], body, spare⟩ t with
          | none => none
          | some (w, log, o, v, b) =>
            some { world := w
                   log := log
                   heap := p.heap.set c.ns o
                   conns := p.conns.set i
                    (if written then { c with Versioned := v, out := c.out ++ [b.bytes] }
                     else { c with Versioned := v, dead := true }) }

end Ninep.Ufs
