import Verif.Client.Model
import Verif.Client.Calls
import Verif.Spec.Server
/-
A client (with a tracer) and a server joined by a connection.  The server takes the requests in the order
in which they were written, one at a time, and its replies arrive in the order in which they are sent
(`conn.serve`, protocol/server.go:212-243, whose reading of packets is the subject of C19–C22; here each
`Write` of the client is one packet for the server and the other way round).
-/

namespace Ninep.Client
open Spec
variable {σ : Type}

structure Sys (σ : Type) where
  cl : State
  srv : Server σ

/-- the steps of callers and of the client's goroutines -/
def ClientSide : Label → Prop
  | .call => True
  | .getTag => True
  | .client => True
  | _ => False

inductive SysStep (ns : NineServer σ) : Label → Sys σ → Sys σ → Prop
  | client (l : Label) (cl cl' : State) (srv : Server σ) : ClientSide l → Step true l cl cl' →
      SysStep ns l ⟨cl, srv⟩ ⟨cl', srv⟩
  /-- server.go:214-241: the packet is read, dispatched and answered; `spare` is what lies behind the
  packet in the buffer's array -/
  | serve (cl : State) (srv srv' : Server σ) (c : Nat) (q : Bytes) (y : List (Nat × Bytes)) (spare : Bytes) (b : Buffer) :
      cl.wire = (c, q) :: y → dispatch ns srv ⟨[], q.drop 5, spare⟩ (q.getD 4 0) = .done srv' b →
      SysStep ns .reply ⟨cl, srv⟩ ⟨{ cl with
        wire := y
        fromNet := cl.fromNet ++ [{ owner := some c, bytes := b.bytes }]
        replied := cl.replied ++ [(c, q, b.bytes)] }, srv'⟩

inductive SysExec (ns : NineServer σ) (L : Label → Prop) : Sys σ → Sys σ → Prop
  | refl (s : Sys σ) : SysExec ns L s s
  | step (s s' s'' : Sys σ) (l : Label) : SysExec ns L s s' → L l → Alive s'.cl → SysStep ns l s' s'' →
      SysExec ns L s s''

end Ninep.Client
