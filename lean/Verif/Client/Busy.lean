import Verif.Client.Remote
import Verif.Ufs.Threads
/-
Many clients (with tracers), each joined by a connection to one process that serves the Unix file server, with
requests that overlap: Client/Many.lean with the goroutines of Ufs/Threads.lean.  Every connection has a goroutine
(protocol/server.go:162-170, 205-243) that works on one request at a time; between any two calls of the operating
system the other goroutines, the clients and other processes may run.

Each connection has passed the Tversion exchange.  A packet arrives as one unit (Client/Model.lean).  A program that
has come to `panic` makes no further step; the process would be gone.  That no program gets there is proved
(`C93_returns`), under the same condition under which no method panics.
-/

namespace Ninep.Client
open Spec Ufs
variable {ω H : Type}

/-- the goroutine of a connection with its `FileServer` object; `running`: what is left to do of the request that it
works on, which is the first one in `wire` of the client -/
structure Con (H : Type) where
  obj : Obj H
  running : Option (Prog H (Ufs.Served H)) := none

structure Busy (ω H : Type) where
  /-- the clients -/
  cl : Nat → State
  /-- the connections -/
  con : Nat → Con H
  world : ω

/-- who makes a step -/
inductive BLabel (ω H : Type) where
  /-- client `i`, or one of its callers -/
  | client (i : Nat) (l : Label)
  /-- the goroutine of connection `i` takes a packet -/
  | start (i : Nat)
  /-- it makes a call of the operating system -/
  | call (i : Nat) (e : Ev H)
  /-- it writes the reply -/
  | reply (i : Nat)
  /-- another process changes the world -/
  | other (w : ω)

/-- the client after its first unanswered request was answered with `p` -/
def answeredWith (s : State) (c : Nat) (q : Bytes) (y : List (Nat × Bytes)) (p : Bytes) : State :=
  { s with
    wire := y
    fromNet := s.fromNet ++ [{ owner := some c, bytes := p }]
    replied := s.replied ++ [(c, q, p)] }

inductive BStep (host : Host ω H) (user : GoString) : BLabel ω H → Busy ω H → Busy ω H → Prop
  | client (n : Busy ω H) (i : Nat) (l : Label) (cl' : State) : ClientSide l → Alive (n.cl i) → Step true l (n.cl i) cl' →
      BStep host user (.client i l) n { n with cl := upd n.cl i cl' }
  /-- server.go:214-232: the packet is read; `spare` is what lies behind it in the buffer's array -/
  | start (n : Busy ω H) (i : Nat) (c : Nat) (q : Bytes) (y : List (Nat × Bytes)) (spare : Bytes) :
      (n.cl i).wire = (c, q) :: y → (n.con i).running = none →
      BStep host user (.start i) n
        { n with con := upd n.con i { n.con i with
            running := some (pdispatch user (n.con i).obj true ⟨[], q.drop 5, spare⟩ (q.getD 4 0)) } }
  /-- filesystem.go: one call of package os -/
  | call (n : Busy ω H) (i : Nat) (x : HCall H) (k : x.Ans → Prog H (Ufs.Served H)) : (n.con i).running = some (.call x k) →
      BStep host user (.call i ⟨x, (host.exec x n.world).2⟩) n
        { n with
          con := upd n.con i { n.con i with running := some (k (host.exec x n.world).2) }
          world := (host.exec x n.world).1 }
  /-- server.go:236-241: the reply is written -/
  | reply (n : Busy ω H) (i : Nat) (c : Nat) (q : Bytes) (y : List (Nat × Bytes)) (o : Obj H) (v : Bool) (b : Buffer) :
      (n.cl i).wire = (c, q) :: y → (n.con i).running = some (.ret (o, v, b)) →
      BStep host user (.reply i) n
        { n with
          cl := upd n.cl i (answeredWith (n.cl i) c q y b.bytes)
          con := upd n.con i { obj := o } }
  | other (n : Busy ω H) (w : ω) : BStep host user (.other w) n { n with world := w }

/-- the executions, with all their steps -/
inductive BExec (host : Host ω H) (user : GoString) : Busy ω H → List (BLabel ω H) → Busy ω H → Prop
  | refl (n : Busy ω H) : BExec host user n [] n
  | step {n n' n'' : Busy ω H} {ls : List (BLabel ω H)} {l : BLabel ω H} : BExec host user n ls n' → BStep host user l n' n'' →
      BExec host user n (ls ++ [l]) n''

/-- all clients are new, and so are their connections -/
def Busy.start (root : GoString) (w : ω) : Busy ω H := ⟨fun _ => init, fun _ => { obj := newObj root }, w⟩

end Ninep.Client
