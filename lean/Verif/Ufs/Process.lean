import Verif.Ufs.Threads
import Verif.Server.Listener
import Verif.Client.Bytes
/-
The program ufs as a whole (cmd/ufs/ufs.go): the accept loop of Server/Listener.lean, a byte stream for every
connection, the loop of `conn.serve` that cuts it into packets, and the goroutines of Ufs/Threads.lean.  The flag
`debug` is 0 here; Ufs/Logged.lean has the other case.  Clients are arbitrary: any bytes may arrive on a connection, in any pieces, at any time.

A panic in any goroutine, and a return of `Serve` (`log.Fatal`, cmd/ufs/ufs.go:34-36), end the program.
-/

namespace Ninep.Ufs

variable {ω H : Type}

/-- a connection and its goroutine (server.go:46-65, 201-244) -/
structure PConn (H : Type) where
  /-- all bytes that have arrived -/
  all : Bytes := []
  /-- those of them that have not been read -/
  up : Bytes := []
  /-- how the stream ends, if it has ended -/
  fin : Option StreamEnd := none
  /-- where the loop is when it does not work on a request -/
  rd : Client.Rd := .hdr
  thr : Thr H

/-- why the program has ended -/
inductive Exit where
  /-- cmd/ufs/ufs.go:24-27 -/
  | listen (e : GoString)
  /-- cmd/ufs/ufs.go:34-36 -/
  | served (e : GoString)
  /-- a run-time panic in the goroutine of connection `i` -/
  | panic (i : Nat)

structure Daemon (ω H : Type) where
  /-- the listener and the one call of `Serve` -/
  lst : Listen.Sys
  conns : List (PConn H) := []
  world : ω
  exit : Option Exit := none

/-- what happens -/
inductive DLabel (ω H : Type) where
  /-- a step of the accept loop, with the number of connections it has accepted -/
  | listener (n : Nat)
  /-- bytes arrive on connection `i` -/
  | arrive (i : Nat) (x : Bytes)
  /-- the stream of connection `i` ends -/
  | fin (i : Nat) (e : StreamEnd)
  /-- the goroutine of connection `i` reads -/
  | read (i : Nat)
  /-- it finds the end of the stream, an error, or less than a header, and stops -/
  | hangup (i : Nat)
  /-- it starts to work on a packet -/
  | start (i : Nat) (got spare : Bytes)
  | call (i : Nat) (e : Ev H)
  | reply (i : Nat) (written : Bool)
  | panic (i : Nat)
  /-- `log.Fatal` in main -/
  | fatal
  | other (w : ω)

/-- connection `i` waits for bytes: its goroutine is in the loop and works on no request -/
def PConn.reading (c : PConn H) : Prop := c.thr.running = none ∧ c.thr.dead = false

variable (host : Host ω H) (user rootPath : GoString)

inductive DStep : Daemon ω H → DLabel ω H → Daemon ω H → Prop
  /-- server.go:123-170; `Serve` is called once and `Shutdown` never -/
  | listener {d : Daemon ω H} (l' : Listen.Sys) (cs : List Listen.NetConn) : Listen.Step d.lst l' → l'.calls.length = d.lst.calls.length →
      l'.results = d.lst.results → l'.conns = d.lst.conns ++ cs →
      DStep d (.listener cs.length) { d with lst := l', conns := d.conns ++ cs.map fun _ => { thr := { obj := newObj rootPath } } }
  | arrive {d : Daemon ω H} {i c} (x : Bytes) : d.conns[i]? = some c → c.fin = none →
      DStep d (.arrive i x) { d with conns := d.conns.set i { c with all := c.all ++ x, up := c.up ++ x } }
  | fin {d : Daemon ω H} {i c} (e : StreamEnd) : d.conns[i]? = some c → c.fin = none →
      DStep d (.fin i e) { d with conns := d.conns.set i { c with fin := some e } }
  /-- server.go:215, a whole header -/
  | hdr {d : Daemon ω H} {i c} (x r : Bytes) : d.conns[i]? = some c → c.reading → c.rd = .hdr → c.up = x ++ r → x.length = 7 →
      DStep d (.read i) { d with conns := d.conns.set i { c with up := r, rd := .body x (hdrSize x - 7) } }
  /-- server.go:215-219, less than a header -/
  | short {d : Daemon ω H} {i c} (x r : Bytes) : d.conns[i]? = some c → c.reading → c.rd = .hdr → c.up = x ++ r → 0 < x.length → x.length < 7 →
      DStep d (.hangup i) { d with conns := d.conns.set i { c with up := r, rd := .stopped, thr := { c.thr with dead := true } } }
  /-- server.go:215-219, end of file or an error -/
  | ends {d : Daemon ω H} {i c} : d.conns[i]? = some c → c.reading → c.rd = .hdr → c.up = [] → c.fin ≠ none →
      DStep d (.hangup i) { d with conns := d.conns.set i { c with rd := .stopped, thr := { c.thr with dead := true } } }
  /-- server.go:224, a `Read` of `io.Copy` -/
  | body {d : Daemon ω H} {i c} (got x r : Bytes) (n : Nat) : d.conns[i]? = some c → c.reading → c.rd = .body got n → c.up = x ++ r →
      0 < x.length → x.length ≤ n →
      DStep d (.read i) { d with conns := d.conns.set i { c with up := r, rd := .body (got ++ x) (n - x.length) } }
  /-- server.go:224-228, an error -/
  | bodyErr {d : Daemon ω H} {i c} (got : Bytes) (n : Nat) : d.conns[i]? = some c → c.reading → c.rd = .body got (n + 1) → c.up = [] →
      c.fin = some .error →
      DStep d (.hangup i) { d with conns := d.conns.set i { c with rd := .stopped, thr := { c.thr with dead := true } } }
  /-- server.go:224, end of file: `io.Copy` returns no error -/
  | bodyEOF {d : Daemon ω H} {i c} (got : Bytes) (n : Nat) : d.conns[i]? = some c → c.reading → c.rd = .body got (n + 1) → c.up = [] →
      c.fin = some .eof →
      DStep d (.read i) { d with conns := d.conns.set i { c with rd := .body got 0 } }
  /-- server.go:229-232 -/
  | start {d : Daemon ω H} {i c} (got spare : Bytes) : d.conns[i]? = some c → c.reading → c.rd = .body got 0 →
      DStep d (.start i got spare) { d with conns := d.conns.set i { c with
        rd := .hdr
        thr := { c.thr with running := some (pdispatch user c.thr.obj c.thr.Versioned ⟨[], got.drop 5, spare⟩ (got.getD 4 0)) } } }
  /-- one call of package os (filesystem.go) -/
  | call {d : Daemon ω H} {i c x k} : d.conns[i]? = some c → c.thr.running = some (.call x k) →
      DStep d (.call i ⟨x, (host.exec x d.world).2⟩) { d with
        conns := d.conns.set i { c with thr := { c.thr with running := some (k (host.exec x d.world).2) } }
        world := (host.exec x d.world).1 }
  /-- server.go:233-243 -/
  | reply {d : Daemon ω H} {i c o v b} (written : Bool) : d.conns[i]? = some c → c.thr.running = some (.ret (o, v, b)) →
      DStep d (.reply i written) { d with conns := d.conns.set i { c with
        rd := if written then .hdr else .stopped
        thr := c.thr.replied o v b written } }
  /-- a run-time panic -/
  | panic {d : Daemon ω H} {i c} : d.conns[i]? = some c → c.thr.running = some .panic →
      DStep d (.panic i) { d with exit := some (.panic i) }
  /-- cmd/ufs/ufs.go:34-36 -/
  | fatal {d : Daemon ω H} {c e} : d.lst.calls[0]? = some c → c.pc = .returned e →
      DStep d .fatal { d with exit := some (.served e) }
  | other {d : Daemon ω H} (w : ω) : DStep d (.other w) { d with world := w }

/-- `Serve` has been called (cmd/ufs/ufs.go:34) -/
def Daemon.start (w : ω) : Daemon ω H := { lst := { calls := [{ ln := 0, pc := .entered }] }, world := w }

/-- the runs of the program -/
inductive DRun (w0 : ω) : List (DLabel ω H) → Daemon ω H → Prop
  /-- cmd/ufs/ufs.go:24-27: `net.Listen` fails -/
  | fails (e : GoString) : DRun w0 [] { lst := {}, world := w0, exit := some (.listen e) }
  | init : DRun w0 [] (.start w0)
  | step {ls d l d'} : DRun w0 ls d → d.exit = none → DStep host user rootPath d l d' → DRun w0 (ls ++ [l]) d'

end Ninep.Ufs
