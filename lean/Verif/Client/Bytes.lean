import Verif.Client.Remote
import Verif.Server.Serve
/-
A client (with a tracer) and a server joined by two byte streams.  `Client.Sys` moves whole packets from
one side to the other; here the network carries bytes.  What one side writes is appended to the bytes
under way, and what the other side's `Read` returns is any non-empty piece of the front of them.  The
connection may break at any time and lose what is under way.

The lists `wire`, `fromNet` and `replied` of `cl` (cf. Client/Model.lean) are history here: no step depends on
them, except that a packet is noted as belonging to the call whose turn it is.
-/

namespace Ninep.Client
open Spec
variable {σ : Type}

/-- where a reader of packets is: before the header, in the body of a packet of which it has `got` some
bytes and still wants `n`, or stopped (client.go:90-115, server.go:213-228) -/
inductive Rd where
  | hdr
  | body (got : Bytes) (n : Nat)
  | stopped
deriving DecidableEq

/-- the bytes of the unfinished packet -/
def Rd.got : Rd → Bytes
  | .body x _ => x
  | _ => []

structure Wired (σ : Type) where
  cl : State
  srv : Server σ
  /-- bytes written by the client and not yet read by the server -/
  up : Bytes := []
  /-- nothing more gets into `up` -/
  upClosed : Bool := false
  /-- the loop of `conn.serve` -/
  srvRd : Rd := .hdr
  down : Bytes := []
  downClosed : Bool := false
  /-- the loop of `readNetPackets`, as long as `cl.reader` is idle -/
  clRd : Rd := .hdr
  /-- the client's process has ended with `log.Fatalf`, client.go:140-144 -/
  exited : Bool := false

/-- the client's process is there -/
def Wired.Running (s : Wired σ) : Prop := Alive s.cl ∧ s.exited = false

inductive WLabel where
  /-- a step of a caller, of a goroutine of the client or of the server -/
  | step (l : Label)
  /-- some bytes are read -/
  | io
  /-- a `Read` of a header returns less than 7 bytes -/
  | short
  /-- the connection breaks, or its end is noticed between two packets or by an error -/
  | cut
  /-- the connection ends with an end of file inside of a reply -/
  | trunc
  /-- the connection ends with an end of file inside of a request -/
  | truncReq

/-- history: the oldest request on its way has been answered with `b` -/
def answered (cl : State) (b : Bytes) : State :=
  match cl.wire with
  | [] => cl
  | (c, q) :: y => { cl with
      wire := y
      fromNet := cl.fromNet ++ [{ owner := some c, bytes := b }]
      replied := cl.replied ++ [(c, q, b)] }

/-- history: a request has been written -/
def sentOff (cl : State) (c : Nat) : State :=
  { cl with
    sender := .idle
    wire := cl.wire ++ [(c, cl.buf c)]
    written := cl.written ++ [(c, cl.buf c)] }

/-- the reader of the client hands over the bytes `b`; the owner is history -/
def received (cl : State) (b : Bytes) : State :=
  { cl with
    reader := .holding { owner := cl.fromNet.head?.bind Reply.owner, bytes := b }
    fromNet := cl.fromNet.tail }

inductive WStep (ns : NineServer σ) : WLabel → Wired σ → Wired σ → Prop
  /-- callers and goroutines of the client, except for reading from and writing to the connection -/
  | client (s : Wired σ) (l : Label) (cl' : State) : s.Running → ClientSide l → Step true l s.cl cl' →
      cl'.wire = s.cl.wire → cl'.fromNet = s.cl.fromNet → WStep ns (.step l) s { s with cl := cl' }
  /-- client.go:140, a successful write; it does not tell whether anybody will read the bytes -/
  | write (s : Wired σ) (c : Nat) (t : Tag) : s.Running → s.cl.sender = .stored c t →
      WStep ns (.step .client) s { s with
        cl := sentOff s.cl c
        up := if s.upClosed then s.up else s.up ++ s.cl.buf c }
  /-- client.go:140-144, a write that fails after some of the bytes: `log.Fatalf` -/
  | writeFails (s : Wired σ) (c : Nat) (t : Tag) (x : Bytes) : s.Running → s.cl.sender = .stored c t → x <+: s.cl.buf c →
      WStep ns .cut s { s with
        cl := sentOff s.cl c
        up := if s.upClosed then s.up else s.up ++ x
        upClosed := true
        exited := true }
  /-- server.go:215, a whole header -/
  | srvHdr (s : Wired σ) (x r : Bytes) : s.srvRd = .hdr → s.up = x ++ r → x.length = 7 →
      WStep ns .io s { s with up := r, srvRd := .body x (hdrSize x - 7) }
  /-- server.go:215-219, less than a header: the connection is closed (line 209) -/
  | srvShort (s : Wired σ) (x r : Bytes) : s.srvRd = .hdr → s.up = x ++ r → 0 < x.length → x.length < 7 →
      WStep ns .short s { s with up := r, srvRd := .stopped, downClosed := true }
  /-- server.go:215-219, end of file or an error -/
  | srvEnd (s : Wired σ) : s.srvRd = .hdr → s.up = [] → s.upClosed = true →
      WStep ns .cut s { s with srvRd := .stopped, downClosed := true }
  /-- server.go:224, a `Read` of `io.Copy` -/
  | srvBody (s : Wired σ) (got x r : Bytes) (n : Nat) : s.srvRd = .body got n → s.up = x ++ r → 0 < x.length → x.length ≤ n →
      WStep ns .io s { s with up := r, srvRd := .body (got ++ x) (n - x.length) }
  /-- server.go:224-228, an error -/
  | srvBodyErr (s : Wired σ) (got : Bytes) (n : Nat) : s.srvRd = .body got (n + 1) → s.up = [] → s.upClosed = true →
      WStep ns .cut s { s with srvRd := .stopped, downClosed := true }
  /-- server.go:224, end of file: `io.Copy` returns no error -/
  | srvBodyEOF (s : Wired σ) (got : Bytes) (n : Nat) : s.srvRd = .body got (n + 1) → s.up = [] → s.upClosed = true →
      WStep ns .truncReq s { s with srvRd := .body got 0 }
  /-- server.go:232-236: the request is dispatched and the reply written (which does not tell whether anybody
  will read it) -/
  | serve (s : Wired σ) (got spare : Bytes) (srv' : Server σ) (b : Buffer) : s.srvRd = .body got 0 →
      dispatch ns s.srv ⟨[], got.drop 5, spare⟩ (got.getD 4 0) = .done srv' b →
      WStep ns (.step .reply) s { s with
        cl := answered s.cl b.bytes
        srv := srv'
        srvRd := .hdr
        down := if s.downClosed then s.down else s.down ++ b.bytes }
  /-- server.go:232-241: the same with a write that fails after some of the bytes -/
  | serveFails (s : Wired σ) (got spare : Bytes) (srv' : Server σ) (b : Buffer) (x : Bytes) : s.srvRd = .body got 0 →
      dispatch ns s.srv ⟨[], got.drop 5, spare⟩ (got.getD 4 0) = .done srv' b → x <+: b.bytes →
      WStep ns .cut s { s with
        cl := answered s.cl b.bytes
        srv := srv'
        srvRd := .stopped
        down := if s.downClosed then s.down else s.down ++ x
        downClosed := true }
  /-- the network loses what comes after `x` -/
  | cutUp (s : Wired σ) (x y : Bytes) : s.up = x ++ y → WStep ns .cut s { s with up := x, upClosed := true }
  | cutDown (s : Wired σ) (x y : Bytes) : s.down = x ++ y → WStep ns .cut s { s with down := x, downClosed := true }
  /-- client.go:96, a whole header -/
  | clHdr (s : Wired σ) (x r : Bytes) : s.Running → s.cl.reader = .idle → s.clRd = .hdr → s.down = x ++ r → x.length = 7 →
      WStep ns .io s { s with down := r, clRd := .body x (hdrSize x - 7) }
  /-- client.go:96-100, less than a header -/
  | clShort (s : Wired σ) (x r : Bytes) : s.Running → s.cl.reader = .idle → s.clRd = .hdr → s.down = x ++ r → 0 < x.length →
      x.length < 7 → WStep ns .short s { s with down := r, cl := { s.cl with reader := .stopped } }
  /-- client.go:96-100, end of file or an error -/
  | clEnd (s : Wired σ) : s.Running → s.cl.reader = .idle → s.clRd = .hdr → s.down = [] → s.downClosed = true →
      WStep ns .cut s { s with cl := { s.cl with reader := .stopped } }
  /-- client.go:107, a `Read` of `io.Copy` -/
  | clBody (s : Wired σ) (got x r : Bytes) (n : Nat) : s.Running → s.cl.reader = .idle → s.clRd = .body got n → s.down = x ++ r →
      0 < x.length → x.length ≤ n → WStep ns .io s { s with down := r, clRd := .body (got ++ x) (n - x.length) }
  /-- client.go:107-111, an error -/
  | clBodyErr (s : Wired σ) (got : Bytes) (n : Nat) : s.Running → s.cl.reader = .idle → s.clRd = .body got (n + 1) → s.down = [] →
      s.downClosed = true → WStep ns .cut s { s with cl := { s.cl with reader := .stopped } }
  /-- client.go:107, end of file: `io.Copy` returns no error -/
  | clBodyEOF (s : Wired σ) (got : Bytes) (n : Nat) : s.Running → s.cl.reader = .idle → s.clRd = .body got (n + 1) → s.down = [] →
      s.downClosed = true → WStep ns .trunc s { s with clRd := .body got 0 }
  /-- client.go:115 -/
  | clDone (s : Wired σ) (got : Bytes) : s.Running → s.cl.reader = .idle → s.clRd = .body got 0 →
      WStep ns (.step .client) s { s with cl := received s.cl got, clRd := .hdr }

inductive WExec (ns : NineServer σ) (L : WLabel → Prop) : Wired σ → Wired σ → Prop
  | refl (s : Wired σ) : WExec ns L s s
  | step (s s' s'' : Wired σ) (l : WLabel) : WExec ns L s s' → L l → WStep ns l s' s'' → WExec ns L s s''

/-- a new client and a server after the version negotiation, cf. `SysExec` in the theorems of C36 -/
def Wired.start (x0 : σ) : Wired σ := { cl := init, srv := ⟨x0, true⟩ }

end Ninep.Client
