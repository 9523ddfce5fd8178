import Verif.Client.Bytes
import Verif.Client.Busy
/-
The whole of it: any number of clients, each joined by two byte streams (Client/Bytes.lean) to a goroutine of one
process of ufs (cmd/ufs/ufs.go), the goroutines of which call the operating system in any order (Client/Busy.lean).
Connections may break at any time, a goroutine of the server may panic, and the process may end.

The listener does not show up: a connection that has not been accepted yet is one whose goroutine has not moved yet.
The flag `debug` is 0, and all clients have a tracer.
-/

namespace Ninep.Client
open Spec Ufs
variable {ω H : Type}

/-- A client, its connection, and the goroutine of the server for it.  `w.srv` is the `FileServer` object of the
connection and the flag `Versioned`; `running`: what is left to do of the request that the goroutine works on. -/
structure Link (H : Type) where
  w : Wired (Obj H)
  running : Option (Prog H (Ufs.Served H)) := none

structure Site (ω H : Type) where
  link : Nat → Link H
  world : ω
  /-- the process has ended -/
  exit : Bool := false

inductive SiteLabel (ω H : Type) where
  /-- a step of client `i` or of one of its callers, of its connection, or of the loop that reads requests from it -/
  | link (i : Nat) (l : WLabel)
  /-- the goroutine for client `i` starts to work on a request -/
  | start (i : Nat)
  /-- it makes a call of the operating system -/
  | call (i : Nat) (e : Ev H)
  /-- it writes the reply, all of it or not -/
  | reply (i : Nat) (written : Bool)
  /-- it panics -/
  | panic (i : Nat)
  /-- `Serve` returns -/
  | fatal
  /-- another process changes the world -/
  | other (w : ω)

/-- a request that has been read is left alone -/
def Waits {σ : Type} (w w' : Wired σ) : Prop := ∀ got, w.srvRd = .body got 0 → w'.srvRd = .body got 0

/-- the link with another client and connection -/
def Site.setLink (n : Site ω H) (i : Nat) (l : Link H) : Site ω H := { n with link := upd n.link i l }

inductive SiteStep (host : Host ω H) (user : GoString) : SiteLabel ω H → Site ω H → Site ω H → Prop
  /-- client.go, server.go:214-228 and the network.  These steps dispatch nothing (`Waits`), so it does not matter which
  file server `ns` is.  When the process has ended nothing is read by it. -/
  | link (n : Site ω H) (i : Nat) (ns : NineServer (Obj H)) (l : WLabel) (w' : Wired (Obj H)) : WStep ns l (n.link i).w w' →
      Waits (n.link i).w w' → (n.exit = true → w'.srvRd = (n.link i).w.srvRd) →
      SiteStep host user (.link i l) n (n.setLink i { n.link i with w := w' })
  /-- server.go:229-232: `spare` is what lies behind the packet in the buffer's array -/
  | start (n : Site ω H) (i : Nat) (got spare : Bytes) : n.exit = false → (n.link i).running = none → (n.link i).w.srvRd = .body got 0 →
      SiteStep host user (.start i) n (n.setLink i { n.link i with
        running := some (pdispatch user (n.link i).w.srv.ns (n.link i).w.srv.Versioned ⟨[], got.drop 5, spare⟩ (got.getD 4 0)) })
  /-- filesystem.go: one call of package os -/
  | call (n : Site ω H) (i : Nat) (x : HCall H) (k : x.Ans → Prog H (Ufs.Served H)) : n.exit = false → (n.link i).running = some (.call x k) →
      SiteStep host user (.call i ⟨x, (host.exec x n.world).2⟩) n
        { n.setLink i { n.link i with running := some (k (host.exec x n.world).2) } with world := (host.exec x n.world).1 }
  /-- server.go:233-236: the reply is written, which does not tell whether anybody will read it -/
  | reply (n : Site ω H) (i : Nat) (o : Obj H) (v : Bool) (b : Buffer) : n.exit = false → (n.link i).running = some (.ret (o, v, b)) →
      SiteStep host user (.reply i true) n (n.setLink i { w := { (n.link i).w with
        cl := answered (n.link i).w.cl b.bytes
        srv := ⟨o, v⟩
        srvRd := .hdr
        down := if (n.link i).w.downClosed then (n.link i).w.down else (n.link i).w.down ++ b.bytes } })
  /-- server.go:233-241: the same with a write that fails after some of the bytes -/
  | replyFails (n : Site ω H) (i : Nat) (o : Obj H) (v : Bool) (b : Buffer) (x : Bytes) : n.exit = false →
      (n.link i).running = some (.ret (o, v, b)) → x <+: b.bytes →
      SiteStep host user (.reply i false) n (n.setLink i { w := { (n.link i).w with
        cl := answered (n.link i).w.cl b.bytes
        srv := ⟨o, v⟩
        srvRd := .stopped
        down := if (n.link i).w.downClosed then (n.link i).w.down else (n.link i).w.down ++ x
        downClosed := true } })
  /-- a panic of any goroutine ends the process -/
  | panic (n : Site ω H) (i : Nat) : n.exit = false → (n.link i).running = some .panic →
      SiteStep host user (.panic i) n { n with exit := true }
  /-- cmd/ufs/ufs.go:34-36 -/
  | fatal (n : Site ω H) : SiteStep host user .fatal n { n with exit := true }
  | other (n : Site ω H) (w : ω) : SiteStep host user (.other w) n { n with world := w }

inductive SiteExec (host : Host ω H) (user : GoString) : Site ω H → List (SiteLabel ω H) → Site ω H → Prop
  | refl (n : Site ω H) : SiteExec host user n [] n
  | step {n n' n'' : Site ω H} {ls : List (SiteLabel ω H)} {l : SiteLabel ω H} : SiteExec host user n ls n' → SiteStep host user l n' n'' →
      SiteExec host user n (ls ++ [l]) n''

/-- New clients.  Each has connected, and no version has been negotiated on any connection. -/
def Site.start (root : GoString) (w : ω) : Site ω H := ⟨fun _ => { w := { cl := init, srv := { ns := newObj root } } }, w, false⟩

end Ninep.Client
