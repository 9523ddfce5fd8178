import Verif.Server.Serve
/-
The trace of a connection: `Listener.logf`, `conn.logf` (protocol/server.go:186-199) and their calls in
`conn.serve` (server.go:201-244).

A tracer is any function on any state of its own; it gets a format and arguments.  How these become text is
left to the tracer (a `*bytes.Buffer` is given by what it holds; a tracer that changes the buffer it is given
is left out).  The rest of the connection is that of `serve`; `serve` leaves the trace out, and
`Trace.C112_transparent` shows that nothing is lost by it.
-/

set_option linter.unusedVariables false

namespace Ninep.Trace

/-- the `err` of a read or write as far as the loop can tell -/
inductive IOErr where
  /-- no error: `Read` returned less than 7 bytes -/
  | none
  | eof
  | error
deriving DecidableEq

/-- an argument of a line -/
inductive Arg where
  | text (s : GoString)
  | num (n : Nat)
  | err (e : IOErr)
  | packet (b : Bytes)
deriving DecidableEq

/-- one call of the tracer -/
structure Line where
  fmt : String
  args : List Arg
deriving DecidableEq

/-- protocol/protocol.go:295: a tracer with a state of type τ; `none` is the nil tracer -/
abbrev Tracer (τ : Type) := Option (Line → τ → τ)

section
variable {σ τ : Type}

/-- server.go:186-190 -/
def listenerLogf (tr : Tracer τ) (fmt : String) (args : List Arg) (w : τ) : τ :=
  match tr with
  | none => w
  | some f => f ⟨fmt, args⟩ w

/-- server.go:196-199 -/
def connLogf (tr : Tracer τ) (addr : GoString) (fmt : String) (args : List Arg) (w : τ) : τ :=
  listenerLogf tr ("[%v] " ++ fmt) (.text addr :: args) w

/-- the error a `Read` on the connection reports when nothing is left -/
def endErr : StreamEnd → IOErr
  | .eof => .eof
  | .error => .error

/-- the `err` of `c.rwc.Read(l)` when it fails or is short (server.go:215) -/
def hdrErr (fin : StreamEnd) : List Bytes → IOErr
  | [] => endErr fin
  | _ :: _ => .none

/-- the error `Dispatch` returns: that of server.go:261; the `SrvR*` functions return nil (genout.go, e.g. 170)
and so does the end of `Dispatch` (server.go:294) -/
def dispatchErr (s : Server σ) (t : MType) : Option GoString :=
  if t = MT.Tversion then none
  else if s.Versioned = false then some (lit "Dispatch: " ++ rpcName t ++ lit " not allowed before Tversion")
  else none

/-- server.go:232-234, after the call -/
def logErr (tr : Tracer τ) (addr : GoString) (t : MType) (e : Option GoString) (w : τ) : τ :=
  match e with
  | some e => connLogf tr addr "%v: %v" [.text (rpcName t), .text e] w
  | none => w

/-- The loop of server.go:212-243 with the tracer; `w` is the state of the tracer. -/
def loop (tr : Tracer τ) (addr : GoString) (ns : NineServer σ) (spare : Nat → Bytes) (wfail : Nat → Bool) (fin : StreamEnd)
    (k : Nat) (s : Server σ) (w : τ) (segs : List Bytes) : Served σ × τ :=
  match hh : readHdr segs with
  | none =>
    ({ execd := [], out := [], srv := s, stop := .header },
      connLogf tr addr "readNetPackets: short read: %v" [.err (hdrErr fin segs)] w)
  | some (l, rest) =>
    match hb : readBody (hdrSize l - 7) rest with
    | (body, rest', complete) =>
      if complete = false ∧ fin = .error then
        ({ execd := [], out := [], srv := s, stop := .body },
          connLogf tr addr "readNetPackets: short read: %v" [.err .error] w)
      else
        let b : Buffer := { unread := l.drop 5 ++ body, spare := spare k }
        let t : MType := l.getD 4 0
        let w := connLogf tr addr "readNetPackets: got %v, len %d, sending to IO" [.text (rpcName t), .num b.unread.length] w
        match dispatch ns s b t with
        | .panic => ({ execd := [(t, b.unread)], out := [], srv := s, stop := .panic }, w)
        | .done s' b' =>
          let w := logErr tr addr t (dispatchErr s t) w
          let w := connLogf tr addr "readNetPackets: Write %v back" [.packet b'.bytes] w
          if wfail k then
            ({ execd := [(t, b.unread)], out := [], srv := s', stop := .write },
              connLogf tr addr "readNetPackets: write error: %v" [.err .error] w)
          else
            -- a Write without an error has written all of the buffer
            let w := connLogf tr addr "Returned %v amt %v" [.packet b'.bytes, .num b'.bytes.length] w
            let r := loop tr addr ns spare wfail fin (k + 1) s' w rest'
            ({ r.1 with execd := (t, b.unread) :: r.1.execd, out := b'.bytes :: r.1.out }, r.2)
termination_by total segs
decreasing_by
  have h1 := readHdr_total hh
  have h2 := readBody_total (hdrSize l - 7) rest
  rw [hb] at h2
  simp at h2
  omega

/-- server.go:201-244 with the tracer -/
def serve (tr : Tracer τ) (addr : GoString) (ns : NineServer σ) (spare : Nat → Bytes) (wfail : Nat → Bool) (fin : StreamEnd)
    (s : Server σ) (w : τ) (segs : List Bytes) : Served σ × τ :=
  loop tr addr ns spare wfail fin 0 s (connLogf tr addr "Starting readNetPackets" [] w) segs

end
end Ninep.Trace
