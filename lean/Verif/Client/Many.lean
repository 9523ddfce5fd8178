import Verif.Client.Remote
import Verif.Ufs.Conns
/-
Many clients (with tracers), each joined by a connection to one process that serves the Unix file server:
Client/Remote.lean for each client, with a `FileServer` object of its own for each connection
(protocol/server.go:81-93, 162-170, filesystem/filesystem.go:449-468) and one world for all.

Each connection has passed the Tversion exchange.  A request is worked on in one step; requests that overlap are
the subject of Ufs/Threads.lean.  Other processes may change the world between the steps.
-/

namespace Ninep.Client
open Spec Ufs
variable {ω H : Type}

structure Net (ω H : Type) where
  /-- the clients -/
  cl : Nat → State
  /-- the `FileServer` objects of the connections -/
  obj : Nat → Obj H
  world : ω

/-- who makes a step: client `i` or its callers (`client i l`), the server for client `i`, another process, which makes
the world be `w` -/
inductive NetLabel (ω : Type) where
  | client (i : Nat) (l : Label)
  | serve (i : Nat)
  | other (w : ω)

inductive NetStep (ns : NineServer (Ufs.State ω H)) : NetLabel ω → Net ω H → Net ω H → Prop
  /-- a caller of client `i` or one of the goroutines of the client goes on -/
  | client (n : Net ω H) (i : Nat) (l : Label) (cl' : State) : ClientSide l → Alive (n.cl i) → Step true l (n.cl i) cl' →
      NetStep ns (.client i l) n { n with cl := upd n.cl i cl' }
  /-- server.go:214-241 for the connection of client `i`: the packet is read, dispatched and answered; `spare` is
  what lies behind the packet in the buffer's array -/
  | serve (n : Net ω H) (i : Nat) (c : Nat) (q : Bytes) (y : List (Nat × Bytes)) (spare : Bytes) (srv : Server (Ufs.State ω H)) (b : Buffer) :
      (n.cl i).wire = (c, q) :: y → dispatch ns ⟨(n.obj i).into n.world, true⟩ ⟨[], q.drop 5, spare⟩ (q.getD 4 0) = .done srv b →
      NetStep ns (.serve i) n
        { cl := upd n.cl i { n.cl i with
            wire := y
            fromNet := (n.cl i).fromNet ++ [{ owner := some c, bytes := b.bytes }]
            replied := (n.cl i).replied ++ [(c, q, b.bytes)] }
          obj := upd n.obj i srv.ns.obj
          world := srv.ns.world }
  | other (n : Net ω H) (w : ω) : NetStep ns (.other w) n { n with world := w }

inductive NetExec (ns : NineServer (Ufs.State ω H)) : Net ω H → List (NetLabel ω) → Net ω H → Prop
  | refl (n : Net ω H) : NetExec ns n [] n
  | step (n n' n'' : Net ω H) (ls : List (NetLabel ω)) (l : NetLabel ω) : NetExec ns n ls n' → NetStep ns l n' n'' → NetExec ns n (ls ++ [l]) n''

/-- all clients are new, and so are their connections -/
def Net.start (root : GoString) (w : ω) : Net ω H := ⟨fun _ => init, fun _ => newObj root, w⟩

end Ninep.Client
