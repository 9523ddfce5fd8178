import Verif.Proto.Codec
import Verif.Server.Serve
import Verif.Spec.Server
/-
The client (protocol/client.go) as a labelled transition system: the callers of the `CallT*` functions,
the sender and the receiver goroutine of `IO`, `readNetPackets`, the network and the peer.

One step is one communication or one access to shared memory, so that all interleavings of the goroutines
are executions.  Simplifications:
 * a packet is written by one `Write` and arrives as one unit (what `readNetPackets` makes of an arbitrary
   segmentation of the incoming bytes is `clientReads` below);
 * `ToNet.Write` does not fail (if it does, `log.Fatalf` ends the process, client.go:140-144);
 * the packets that the peer has not answered are kept together with the number of the call that they come
   from, and replies with the number of the call they answer.  These numbers, `taken`, `msg`, `replied` and
   `written` are history variables: no step of the client looks at them.
-/

set_option linter.unusedVariables false

namespace Ninep.Client
open Spec

/-- where a call of a `CallT*` function is -/
inductive Phase where
  /-- not started -/
  | idle
  /-- the request is encoded; the caller is at `c.FromClient <- &RPCCall{…}` -/
  | sending
  /-- the caller is at `bb := <-r` -/
  | waiting
  /-- the caller has received `bb` -/
  | done (bb : Bytes)

/-- where the sender goroutine is, client.go:124-146 -/
inductive Sender where
  /-- at `r := <-c.FromClient` -/
  | idle
  /-- at `t := <-c.Tags` -/
  | haveReq (c : Nat)
  /-- at `r.b[5] = uint8(t)` -/
  | haveTag (c : Nat) (t : Tag)
  /-- at `c.RPC[int(t)-1] = r` -/
  | tagged (c : Nat) (t : Tag)
  /-- at `c.ToNet.Write(r.b)` -/
  | stored (c : Nat) (t : Tag)

/-- a packet from the peer and (as history) the call that it answers -/
structure Reply where
  owner : Option Nat
  bytes : Bytes

/-- where `readNetPackets` is, client.go:77-121 -/
inductive Reader where
  /-- at `c.FromNet.Read(l)` -/
  | idle
  /-- at `c.FromServer <- &RPCReply{…}` -/
  | holding (r : Reply)
  /-- returned; `FromServer` is closed -/
  | stopped
  /-- returned at once because `FromNet` is nil; `FromServer` is not closed, client.go:78-84 -/
  | off

/-- where the receiver goroutine is, client.go:148-168 -/
inductive Recv where
  /-- at `r := <-c.FromServer` -/
  | idle
  /-- before the lookup in `c.RPC` -/
  | got (r : Reply)
  /-- at `rrr.Reply <- r.b` -/
  | found (c : Nat) (t : Tag) (b : Bytes)
  /-- at `c.Tags <- t` -/
  | retag (t : Tag)
  /-- a run-time panic: the process dies -/
  | panicked

structure State where
  /-- `c.Tags` -/
  tags : List Tag
  /-- `c.RPC`: the call an entry points to; all other entries are nil -/
  rpc : Nat → Option Nat
  /-- `c.FromClient` -/
  fromClient : List Nat
  /-- `RPCCall.b` of a call -/
  buf : Nat → Bytes
  phase : Nat → Phase
  sender : Sender
  reader : Reader
  recv : Recv
  /-- requests on their way to the peer or being worked on -/
  wire : List (Nat × Bytes)
  /-- packets on their way from the peer -/
  fromNet : List Reply
  /-- the peer has closed the connection -/
  closed : Bool
  /-- the calls that are at `c.FromClient <- …` -/
  sending : List Nat
  /-- history: the tags that `GetTag` has returned -/
  taken : List Tag
  /-- history: the request of a call -/
  msg : Nat → Option TMsg
  /-- history: the answers of the peer, in order: the call, its request, the reply -/
  replied : List (Nat × Bytes × Bytes)
  /-- history: all requests written to the network, in order -/
  written : List (Nat × Bytes)

/-- `NewClient`, client.go:38-57, with `FromNet` set -/
def init : State where
  -- for i := 1; i < int(NOTAG); i++ { c.Tags <- Tag(i) }
  tags := (List.range (NOTAG.toNat - 1)).map fun i => UInt16.ofNat (i + 1)
  rpc := fun _ => none
  fromClient := []
  buf := fun _ => []
  phase := fun _ => .idle
  sender := .idle
  reader := .idle
  recv := .idle
  wire := []
  fromNet := []
  closed := false
  sending := []
  taken := []
  msg := fun _ => none
  replied := []
  written := []

/-- `NewClient` without an option that sets `FromNet`: `readNetPackets` marks the client dead and returns,
client.go:78-84 -/
def initNoNet : State := { init with reader := .off }

/-- `c.Dead`, which `readNetPackets` sets before it returns, client.go:82, 98, 109 -/
def Dead (s : State) : Prop := s.reader = .stopped ∨ s.reader = .off

/-- `f[k] = v` -/
def upd {α : Type} (f : Nat → α) (k : Nat) (v : α) : Nat → α := fun i => if i = k then v else f i

/-- `b[5], b[6] = byte(t), byte(t>>8)`, client.go:131-132 -/
def setTag (p : Bytes) (t : Tag) : Bytes := (p.set 5 t.toUInt8).set 6 (t >>> 8).toUInt8

/-- `t := Tag(r.b[5]) | Tag(r.b[6])<<8`, client.go:153 -/
def pktTag (b : Bytes) : Tag := (b.getD 5 0).toUInt16 ||| (b.getD 6 0).toUInt16 <<< 8

/-- Between `r := <-c.FromServer` and `rrr.Reply <- r.b`, client.go:153-166: the checks of the tag, the
unconditional calls of `c.Trace` (`trace` says whether one is set; a nil function panics) and the lookup
in `c.RPC`, whose nil entries make `rrr.Reply` panic. -/
def lookup (trace : Bool) (rpc : Nat → Option Nat) (b : Bytes) : Recv :=
  let t := pktTag b
  if t < 1 then .panicked
  else if t.toNat - 1 ≥ NumTags then .panicked
  else if trace = false then .panicked
  else
    match rpc (t.toNat - 1) with
    | none => .panicked
    | some c => .found c t b

/-- who makes a step -/
inductive Label where
  /-- the user starts a call -/
  | call
  /-- the user calls `GetTag` -/
  | getTag
  /-- one of the goroutines of the client, or a caller inside `CallT*`, goes on -/
  | client
  /-- the peer answers an outstanding request -/
  | reply
  /-- the peer sends some other packet -/
  | junk
  /-- the peer closes the connection -/
  | close

/-- What `readNetPackets` can get: at least the 7 bytes of a header. -/
def IsPacket (b : Bytes) : Prop := 7 ≤ b.length

inductive Step (trace : Bool) : Label → State → State → Prop
  /-- `CallT*` up to the send, e.g. genout.go:173-180; all requests are encoded with tag 0 -/
  | call (s : State) (c : Nat) (m : TMsg) : s.phase c = .idle →
      Step trace .call s { s with
        phase := upd s.phase c .sending
        sending := c :: s.sending
        msg := upd s.msg c (some m)
        buf := upd s.buf c (encodeT {} 0 m).bytes }
  /-- client.go:60-68 -/
  | getTag (s : State) (t : Tag) (ts : List Tag) : s.tags = t :: ts →
      Step trace .getTag s { s with tags := ts, taken := t :: s.taken }
  /-- `c.FromClient <- &RPCCall{b: b.Bytes(), Reply: r}`; the channel has room for `NumTags` calls -/
  | enqueue (s : State) (a b : List Nat) (c : Nat) : s.sending = a ++ c :: b → s.fromClient.length < NumTags →
      Step trace .client s { s with
        phase := upd s.phase c .waiting
        sending := a ++ b
        fromClient := s.fromClient ++ [c] }
  /-- client.go:126 -/
  | takeReq (s : State) (c : Nat) (cs : List Nat) : s.sender = .idle → s.fromClient = c :: cs →
      Step trace .client s { s with sender := .haveReq c, fromClient := cs }
  /-- client.go:127 -/
  | takeTag (s : State) (c : Nat) (t : Tag) (ts : List Tag) : s.sender = .haveReq c → s.tags = t :: ts →
      Step trace .client s { s with sender := .haveTag c t, tags := ts }
  /-- client.go:131-132 -/
  | putTag (s : State) (c : Nat) (t : Tag) : s.sender = .haveTag c t →
      Step trace .client s { s with sender := .tagged c t, buf := upd s.buf c (setTag (s.buf c) t) }
  /-- client.go:136 -/
  | store (s : State) (c : Nat) (t : Tag) : s.sender = .tagged c t →
      Step trace .client s { s with sender := .stored c t, rpc := upd s.rpc (t.toNat - 1) (some c) }
  /-- client.go:140 -/
  | write (s : State) (c : Nat) (t : Tag) : s.sender = .stored c t →
      Step trace .client s { s with
        sender := .idle
        wire := s.wire ++ [(c, s.buf c)]
        written := s.written ++ [(c, s.buf c)] }
  /-- the peer answers one of the requests it has got: a packet with the right size and tag -/
  | reply (s : State) (x y : List (Nat × Bytes)) (c : Nat) (q p : Bytes) : s.wire = x ++ (c, q) :: y →
      p.length = pktLen p → tagField p = tagField q → s.closed = false →
      Step trace .reply s { s with
        wire := x ++ y
        fromNet := s.fromNet ++ [{ owner := some c, bytes := p }]
        replied := s.replied ++ [(c, q, p)] }
  /-- the peer sends anything -/
  | junk (s : State) (p : Bytes) : IsPacket p → s.closed = false →
      Step trace .junk s { s with fromNet := s.fromNet ++ [{ owner := none, bytes := p }] }
  | close (s : State) : Step trace .close s { s with closed := true }
  /-- client.go:90-114 -/
  | read (s : State) (r : Reply) (rs : List Reply) : s.reader = .idle → s.fromNet = r :: rs →
      Step trace .client s { s with reader := .holding r, fromNet := rs }
  /-- end of file: `c.Dead = true; return` and the deferred `close(c.FromServer)`, client.go:86, 96-100 -/
  | readEOF (s : State) : s.reader = .idle → s.fromNet = [] → s.closed = true →
      Step trace .client s { s with reader := .stopped }
  /-- client.go:115 meets client.go:149 -/
  | handOver (s : State) (r : Reply) : s.reader = .holding r → s.recv = .idle →
      Step trace .client s { s with reader := .idle, recv := .got r }
  /-- client.go:149 on the closed channel: `r` is nil and `r.b` panics, client.go:151, 153 -/
  | handOverNil (s : State) : s.reader = .stopped → s.recv = .idle →
      Step trace .client s { s with recv := .panicked }
  /-- client.go:153-165 -/
  | lookup (s : State) (r : Reply) : s.recv = .got r →
      Step trace .client s { s with recv := lookup trace s.rpc r.bytes }
  /-- client.go:166 meets `bb := <-r` in `CallT*` -/
  | deliver (s : State) (c : Nat) (t : Tag) (b : Bytes) : s.recv = .found c t b → s.phase c = .waiting →
      Step trace .client s { s with recv := .retag t, phase := upd s.phase c (.done b) }
  /-- client.go:167; blocks while the channel is full -/
  | retag (s : State) (t : Tag) : s.recv = .retag t → s.tags.length < NumTags →
      Step trace .client s { s with recv := .idle, tags := s.tags ++ [t] }

/-- After a panic nothing runs any more. -/
def Alive (s : State) : Prop := s.recv ≠ .panicked

/-- the executions in which only steps with a label in `L` occur -/
inductive Exec (trace : Bool) (L : Label → Prop) : State → State → Prop
  | refl (s : State) : Exec trace L s s
  | step (s s' s'' : State) (l : Label) : Exec trace L s s' → L l → Alive s' → Step trace l s' s'' → Exec trace L s s''

/-- `GetFID`, client.go:73-75: `FID(atomic.AddUint64(&c.FID, 1))` on the counter, which `NewClient` sets
to 1 (client.go:45).  The result and the new counter. -/
def getFID (fid : UInt64) : FID × UInt64 := ((fid + 1).toUInt32, fid + 1)

/-- the results of `n` calls of `GetFID` -/
def getFIDs : Nat → UInt64 → List FID
  | 0, _ => []
  | n + 1, fid => (getFID fid).1 :: getFIDs n (getFID fid).2

/-- The packets that `readNetPackets` makes of the incoming segments (client.go:90-115); cf. `serve` for
how the network is modelled.  The buffer starts as the 7 bytes of the header. -/
def clientReads (fin : StreamEnd) (segs : List Bytes) : List Bytes :=
  match hh : readHdr segs with
  | none => []
  | some (l, rest) =>
    match hb : readBody (hdrSize l - 7) rest with
    | (body, rest', complete) =>
      if complete = false ∧ fin = .error then []
      else (l ++ body) :: clientReads fin rest'
termination_by total segs
decreasing_by
  have h1 := readHdr_total hh
  have h2 := readBody_total (hdrSize l - 7) rest
  rw [hb] at h2
  simp at h2
  omega

end Ninep.Client
