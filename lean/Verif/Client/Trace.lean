import Verif.Client.Model
/-
The trace of a client: the calls of `c.Trace` in client.go:77-170 of a client that has a tracer and both ends of
a connection.

The three goroutines call the tracer between the steps of `Step`; which lines a step brings can be told from the
states before and after it.  A line that comes after a step and before the next step of the same goroutine is
counted to the step, but for "Write …", which comes before `c.ToNet.Write` and is counted to the step before.
What `%v` makes of the arguments is left to the tracer; of the entry of `c.RPC` only the number of the call is kept.
Left out: "c.FromNet is nil, marking dead" (client.go:80, no connection) and "Client %v is all done"
(client.go:118, reached only if `c.Dead` is set while `readNetPackets` works, that is never before the process
ends, see `Step`).
-/

set_option linter.unusedVariables false

namespace Ninep.Client
open Spec

/-- one call of `c.Trace` -/
inductive TLine where
  /-- "Starting readNetPackets", client.go:88 -/
  | starting
  /-- "Before read", client.go:93 -/
  | beforeRead
  /-- "Server reads %v", client.go:102 -/
  | header (l : Bytes)
  /-- "readNetPackets: got %v, len %d, sending to IO", client.go:113; the type and the length of the packet -/
  | got (ty : UInt8) (len : Nat)
  /-- "Tag for request is %v", client.go:129, 134 -/
  | tagReq (t : Tag)
  /-- "Write %v to ToNet", client.go:138 -/
  | write (b : Bytes)
  /-- "Read %v FromServer", client.go:151 -/
  | read (b : Bytes)
  /-- "Tag for reply is %v", client.go:155 -/
  | tagReply (t : Tag)
  /-- "RPC %v ", client.go:163 -/
  | rpc (c : Option Nat)
  /-- "rrr %v ", client.go:165 -/
  | rrr (c : Option Nat)
deriving DecidableEq

/-- client.go:128-139: what the sender goroutine says between two places -/
def senderSays (a b : Sender) (buf : Nat → Bytes) : List TLine :=
  match a, b with
  | .haveReq _, .haveTag _ t => [.tagReq t]
  | .haveTag _ _, .tagged _ t => [.tagReq t]
  | .tagged _ _, .stored c _ => [.write (buf c)]
  | _, _ => []

/-- client.go:92-114 -/
def readerSays (a b : Reader) : List TLine :=
  match a, b with
  | .idle, .holding r => [.header (r.bytes.take 7), .got (r.bytes.getD 4 0) r.bytes.length]
  | .holding _, .idle => [.beforeRead]
  | _, _ => []

/-- client.go:150-165: the lines before and after the checks of the tag -/
def recvSays (a b : Recv) (rpc : Nat → Option Nat) : List TLine :=
  match a, b with
  | .got _, .got _ => []
  | .got r, _ =>
    let t := pktTag r.bytes
    [.read r.bytes, .tagReply t] ++
      if t < 1 ∨ t.toNat - 1 ≥ NumTags then [] else [.rpc (rpc (t.toNat - 1)), .rrr (rpc (t.toNat - 1))]
  | _, _ => []

/-- the lines of a step -/
def says (s s' : State) : List TLine :=
  senderSays s.sender s'.sender s'.buf ++ readerSays s.reader s'.reader ++ recvSays s.recv s'.recv s.rpc

/-- the packets a step brings to the client -/
def arrivals (s s' : State) : List Bytes := (s'.fromNet.drop s.fromNet.length).map (·.bytes)

/-- the executions of a client with a tracer, with the lines the tracer has got and the packets that have arrived -/
inductive TExec (L : Label → Prop) : State → List TLine → List Bytes → Prop
  | init : TExec L init [.starting, .beforeRead] []
  | step {s s' : State} {tr : List TLine} {arr : List Bytes} {l : Label} : TExec L s tr arr → L l → Alive s → Step true l s s' →
      TExec L s' (tr ++ says s s') (arr ++ arrivals s s')

end Ninep.Client
