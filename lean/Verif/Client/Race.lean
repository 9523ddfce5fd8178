import Verif.Client.Model

/-
The memory that the goroutines of a client share, and what the Go memory model says about the order of their accesses
(protocol/client.go, protocol/genout.go).

The steps are those of `Step` with a tracer.  Beside the state there is a record of the accesses to shared memory: the
entries of `c.RPC`, the `RPCCall` of a call, the bytes of its request, the bytes of a reply, `c.FID` and `c.Dead`.  With each access
goes what was known to the goroutine at that time: the accesses that *happened before* in the sense of the Go memory
model.  A goroutine knows its own accesses; a message on a channel carries what its sender knew to the receiver; and a reply
carries what was known when its request was written to the network, because no peer can answer a request earlier
(package syscall orders `Write` and `Read` in this way for the race detector).

Simplified: the other edges that the memory model has (from a receive to the completion of a send on a channel without a buffer,
and to a later send on a channel with a full one) are left out, so fewer accesses are ordered here than in fact.  The fields that
are set by `NewClient` before its goroutines start and never after are left out.  So is `c.Dead = true` in front
of `log.Fatalf` (client.go:141): the process ends there.
-/

namespace Ninep.Client

open Ninep.Spec

/-- the goroutines: those that use the client, the two of `IO` and that of `readNetPackets` -/
inductive Gor where
  | user (g : Nat)
  | sender
  | receiver
  | reader
deriving DecidableEq

/-- shared memory -/
inductive Loc where
  /-- `c.RPC[i]` -/
  | slot (i : Nat)
  /-- the `RPCCall` of call `c` -/
  | call (c : Nat)
  /-- the bytes of the request of call `c` -/
  | req (c : Nat)
  /-- the bytes of the packet number `n` that `readNetPackets` has read, with its `RPCReply` -/
  | rep (n : Nat)
  /-- `c.FID` -/
  | fid
  /-- `c.Dead` -/
  | dead
deriving DecidableEq

/-- a set of accesses, by their numbers in the record -/
abbrev Past := Nat → Prop

/-- an access, with the accesses that happened before -/
structure Access where
  who : Gor
  loc : Loc
  write : Bool
  past : Past

/-- what is recorded beside the state -/
structure Ghost where
  log : List Access := []
  /-- what a goroutine knows -/
  know : Gor → Past := fun _ _ => False
  /-- what goes with a tag in `c.Tags` -/
  tagPast : Tag → Past := fun _ _ => False
  /-- what goes with a call in `c.FromClient` -/
  reqPast : Nat → Past := fun _ _ => False
  /-- what goes with the request of a call on the network, and with its answer -/
  netPast : Nat → Past := fun _ _ => False
  /-- the goroutine that has made a call -/
  maker : Nat → Option Nat := fun _ => none
  /-- the number of packets that `readNetPackets` has read -/
  nread : Nat := 0
  /-- the number of the packet that the receiver has got -/
  recvId : Nat := 0
  /-- the number of the packet that a call has got -/
  got : Nat → Nat := fun _ => 0

/-- a goroutine makes an access -/
def Ghost.access (G : Ghost) (g : Gor) (l : Loc) (w : Bool) : Ghost :=
  { G with
    log := G.log ++ [⟨g, l, w, G.know g⟩]
    know := fun g' => if g' = g then fun i => G.know g i ∨ i = G.log.length else G.know g' }

/-- a goroutine gets a message -/
def Ghost.learn (G : Ghost) (g : Gor) (p : Past) : Ghost :=
  { G with know := fun g' => if g' = g then fun i => G.know g i ∨ p i else G.know g' }

/-- what goes with a packet from the network -/
def Ghost.answer (G : Ghost) (r : Reply) : Past :=
  match r.owner with
  | some c => G.netPast c
  | none => fun _ => False

/-- The accesses of the receiver from `r := <-c.FromServer` to the lookup: the bytes of the packet; if the tag passes the
checks, the entry of the table; and what it points to, which `c.Trace("RPC %v ", …)` prints, client.go:150-165. -/
def Ghost.lookup (G : Ghost) (rpc : Nat → Option Nat) (b : Bytes) : Ghost :=
  let G := G.access .receiver (.rep G.recvId) false
  let t := pktTag b
  if t < 1 ∨ t.toNat - 1 ≥ NumTags then G
  else
    let G := G.access .receiver (.slot (t.toNat - 1)) false
    match rpc (t.toNat - 1) with
    | none => G
    | some d => (G.access .receiver (.call d) false).access .receiver (.req d) false

/-- one step of the client, its users or the peer, with its accesses to shared memory -/
inductive RStep : Label → State × Ghost → State × Ghost → Prop
  /-- `CallT*` up to the send, e.g. genout.go:173-180: `c.FID` is read for the tracer, the request is encoded and the `RPCCall`
  is made.  The goroutine has returned from the calls it made before. -/
  | call (s : State) (G : Ghost) (g c : Nat) (m : TMsg) : s.phase c = .idle →
      (∀ d, G.maker d = some g → ∃ b, s.phase d = .done b) →
      RStep .call (s, G) ({ s with
        phase := upd s.phase c .sending
        sending := c :: s.sending
        msg := upd s.msg c (some m)
        buf := upd s.buf c (encodeT {} 0 m).bytes },
        { ((G.access (.user g) .fid false).access (.user g) (.req c) true).access (.user g) (.call c) true with
          maker := upd G.maker c (some g) })
  /-- client.go:60-68 -/
  | getTag (s : State) (G : Ghost) (g : Nat) (t : Tag) (ts : List Tag) : s.tags = t :: ts →
      RStep .getTag (s, G) ({ s with tags := ts, taken := t :: s.taken }, G.learn (.user g) (G.tagPast t))
  /-- `c.FromClient <- &RPCCall{b: b.Bytes(), Reply: r}` -/
  | enqueue (s : State) (G : Ghost) (a b : List Nat) (c g : Nat) : s.sending = a ++ c :: b → s.fromClient.length < NumTags →
      G.maker c = some g →
      RStep .client (s, G) ({ s with
        phase := upd s.phase c .waiting
        sending := a ++ b
        fromClient := s.fromClient ++ [c] },
        { G with reqPast := upd G.reqPast c (G.know (.user g)) })
  /-- client.go:126 -/
  | takeReq (s : State) (G : Ghost) (c : Nat) (cs : List Nat) : s.sender = .idle → s.fromClient = c :: cs →
      RStep .client (s, G) ({ s with sender := .haveReq c, fromClient := cs }, G.learn .sender (G.reqPast c))
  /-- client.go:127 -/
  | takeTag (s : State) (G : Ghost) (c : Nat) (t : Tag) (ts : List Tag) : s.sender = .haveReq c → s.tags = t :: ts →
      RStep .client (s, G) ({ s with sender := .haveTag c t, tags := ts }, G.learn .sender (G.tagPast t))
  /-- client.go:131-132: `r.b` is read and its bytes are written -/
  | putTag (s : State) (G : Ghost) (c : Nat) (t : Tag) : s.sender = .haveTag c t →
      RStep .client (s, G) ({ s with sender := .tagged c t, buf := upd s.buf c (setTag (s.buf c) t) },
        (G.access .sender (.call c) false).access .sender (.req c) true)
  /-- client.go:136 -/
  | store (s : State) (G : Ghost) (c : Nat) (t : Tag) : s.sender = .tagged c t →
      RStep .client (s, G) ({ s with sender := .stored c t, rpc := upd s.rpc (t.toNat - 1) (some c) },
        G.access .sender (.slot (t.toNat - 1)) true)
  /-- client.go:137-140: `r.b` and its bytes are read -/
  | write (s : State) (G : Ghost) (c : Nat) (t : Tag) : s.sender = .stored c t →
      RStep .client (s, G) ({ s with
        sender := .idle
        wire := s.wire ++ [(c, s.buf c)]
        written := s.written ++ [(c, s.buf c)] },
        let G := (G.access .sender (.call c) false).access .sender (.req c) false
        { G with netPast := upd G.netPast c (G.know .sender) })
  | reply (s : State) (G : Ghost) (x y : List (Nat × Bytes)) (c : Nat) (q p : Bytes) : s.wire = x ++ (c, q) :: y →
      p.length = pktLen p → tagField p = tagField q → s.closed = false →
      RStep .reply (s, G) ({ s with
        wire := x ++ y
        fromNet := s.fromNet ++ [{ owner := some c, bytes := p }]
        replied := s.replied ++ [(c, q, p)] }, G)
  | junk (s : State) (G : Ghost) (p : Bytes) : IsPacket p → s.closed = false →
      RStep .junk (s, G) ({ s with fromNet := s.fromNet ++ [{ owner := none, bytes := p }] }, G)
  | close (s : State) (G : Ghost) : RStep .close (s, G) ({ s with closed := true }, G)
  /-- client.go:90-114: `c.Dead` is read, the bytes of the packet are written -/
  | read (s : State) (G : Ghost) (r : Reply) (rs : List Reply) : s.reader = .idle → s.fromNet = r :: rs →
      RStep .client (s, G) ({ s with reader := .holding r, fromNet := rs },
        let G := ((G.access .reader .dead false).learn .reader (G.answer r)).access .reader (.rep G.nread) true
        { G with nread := G.nread + 1 })
  /-- client.go:90, 96-100 -/
  | readEOF (s : State) (G : Ghost) : s.reader = .idle → s.fromNet = [] → s.closed = true →
      RStep .client (s, G) ({ s with reader := .stopped }, (G.access .reader .dead false).access .reader .dead true)
  /-- client.go:115 meets client.go:149 -/
  | handOver (s : State) (G : Ghost) (r : Reply) : s.reader = .holding r → s.recv = .idle →
      RStep .client (s, G) ({ s with reader := .idle, recv := .got r },
        { G.learn .receiver (G.know .reader) with recvId := G.nread - 1 })
  | handOverNil (s : State) (G : Ghost) : s.reader = .stopped → s.recv = .idle →
      RStep .client (s, G) ({ s with recv := .panicked }, G)
  /-- client.go:150-165 -/
  | lookup (s : State) (G : Ghost) (r : Reply) : s.recv = .got r →
      RStep .client (s, G) ({ s with recv := Client.lookup true s.rpc r.bytes }, G.lookup s.rpc r.bytes)
  /-- client.go:166, which reads `rrr.Reply` and `r.b`, meets `bb := <-r` in `CallT*` -/
  | deliver (s : State) (G : Ghost) (c g : Nat) (t : Tag) (b : Bytes) : s.recv = .found c t b → s.phase c = .waiting →
      G.maker c = some g →
      RStep .client (s, G) ({ s with recv := .retag t, phase := upd s.phase c (.done b) },
        let G := (G.access .receiver (.call c) false).access .receiver (.rep G.recvId) false
        { G.learn (.user g) (G.know .receiver) with got := upd G.got c G.recvId })
  /-- client.go:167 -/
  | retag (s : State) (G : Ghost) (t : Tag) : s.recv = .retag t → s.tags.length < NumTags →
      RStep .client (s, G) ({ s with recv := .idle, tags := s.tags ++ [t] },
        { G with tagPast := fun t' => if t' = t then G.know .receiver else G.tagPast t' })
  /-- the rest of `CallT*` decodes the bytes of the reply, e.g. genout.go:182-191 -/
  | decode (s : State) (G : Ghost) (c g : Nat) (b : Bytes) : s.phase c = .done b → G.maker c = some g →
      RStep .client (s, G) (s, G.access (.user g) (.rep (G.got c)) false)
  /-- `GetFID`, client.go:73-75.  The addition is atomic, so for accesses that are atomic, too, it would not count as a write. -/
  | getFID (s : State) (G : Ghost) (g : Nat) : RStep .client (s, G) (s, G.access (.user g) .fid true)
  /-- `String`, client.go:171-175 -/
  | string (s : State) (G : Ghost) (g : Nat) : RStep .client (s, G) (s, G.access (.user g) .dead false)

/-- the executions in which only steps with a label in `L` occur -/
inductive RExec (L : Label → Prop) : State × Ghost → State × Ghost → Prop
  | refl (x : State × Ghost) : RExec L x x
  | step (x y z : State × Ghost) (l : Label) : RExec L x y → L l → Alive y.1 → RStep l y z → RExec L x z

end Ninep.Client
