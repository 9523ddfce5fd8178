import Verif.Proto.Codec
/-
The request side of the server: `NineServer`, the `SrvR*` stubs and `Dispatch`
(protocol/protocol.go:297-310, protocol/genout.go, protocol/server.go:251-295).
-/

namespace Ninep

/-- a Go string literal -/
def lit (s : String) : GoString := s.toUTF8.data.toList

/-- What a call of a file server method does: panic, or change the state and return either values or an
error.  Only the text of an error matters (`fmt.Sprintf("%v", err)`); values returned next to an error
are dropped by the callers. -/
inductive NRes (σ α : Type) where
  | panic
  | ok (s : σ) (a : α)
  | err (s : σ) (e : GoString)

/-- protocol/protocol.go:297-310: a file server as functions on an arbitrary state. -/
structure NineServer (σ : Type) where
  Rversion : MaxSize → GoString → σ → NRes σ (MaxSize × GoString)
  Rattach : FID → FID → GoString → GoString → σ → NRes σ QID
  Rwalk : FID → FID → List GoString → σ → NRes σ (List QID)
  Ropen : FID → Mode → σ → NRes σ (QID × MaxSize)
  Rcreate : FID → GoString → Perm → Mode → σ → NRes σ (QID × MaxSize)
  Rstat : FID → σ → NRes σ Bytes
  Rwstat : FID → Bytes → σ → NRes σ Unit
  Rclunk : FID → σ → NRes σ Unit
  Rremove : FID → σ → NRes σ Unit
  Rread : FID → Offset → Count → σ → NRes σ Bytes
  Rwrite : FID → Offset → Bytes → σ → NRes σ Count
  Rflush : Tag → σ → NRes σ Unit

/-- protocol/server.go:40-46 (`D` is always `Dispatch`, server.go:83). -/
structure Server (σ : Type) where
  ns : σ
  Versioned : Bool := false

/-- What a call of `Dispatch` does: panic, or leave a server state and a buffer. -/
inductive DispRes (σ : Type) where
  | panic
  | done (s : Server σ) (b : Buffer)

/-- RPCNames, protocol/protocol.go:313-342; a missing key gives the empty string. -/
def rpcName (t : MType) : GoString :=
  match ["Tversion", "Rversion", "Tauth", "Rauth", "Tattach", "Rattach", "Terror", "Rerror", "Tflush",
    "Rflush", "Twalk", "Rwalk", "Topen", "Ropen", "Tcreate", "Rcreate", "Tread", "Rread", "Twrite",
    "Rwrite", "Tclunk", "Rclunk", "Tremove", "Rremove", "Tstat", "Rstat", "Twstat", "Rwstat"][t.toNat - 100]? with
  | some s => if 100 ≤ t.toNat then lit s else []
  | none => []

section
variable {σ : Type}

/-- The common shape of the generated stubs: decode, call the method with whatever the decoder returned
(its error is assigned to `err` and never looked at), encode the reply into the same buffer. -/
def srvCall {P Q : Type} (dec : Buffer → Unm P) (call : P → σ → NRes σ Q) (enc : Buffer → Tag → Q → Buffer)
    (s : Server σ) (b : Buffer) : DispRes σ :=
  match dec b with
  | .panic => .panic
  | .done p t _ b =>
    match call p s.ns with
    | .panic => .panic
    | .err ns e => .done { s with ns := ns } (marshalRerror b t { Error := e })
    | .ok ns q => .done { s with ns := ns } (enc b t q)

/-- genout.go:161-171 -/
def srvRversion (ns : NineServer σ) : Server σ → Buffer → DispRes σ :=
  srvCall unmarshalTversion (fun p => ns.Rversion p.TMsize p.TVersion)
    (fun b t q => marshalRversion b t { RMsize := q.1, RVersion := q.2 })

/-- genout.go:342-352 -/
def srvRattach (ns : NineServer σ) : Server σ → Buffer → DispRes σ :=
  srvCall unmarshalTattach (fun p => ns.Rattach p.SFID p.AFID p.Uname p.Aname)
    (fun b t q => marshalRattach b t { QID := q })

/-- genout.go:440-450 -/
def srvRflush (ns : NineServer σ) : Server σ → Buffer → DispRes σ :=
  srvCall unmarshalTflush (fun p => ns.Rflush p.OTag) (fun b t _ => marshalRflush b t {})

/-- genout.go:634-644 -/
def srvRwalk (ns : NineServer σ) : Server σ → Buffer → DispRes σ :=
  srvCall unmarshalTwalk (fun p => ns.Rwalk p.SFID p.NewFID p.Paths)
    (fun b t q => marshalRwalk b t { QIDs := q })

/-- genout.go:792-802 -/
def srvRopen (ns : NineServer σ) : Server σ → Buffer → DispRes σ :=
  srvCall unmarshalTopen (fun p => ns.Ropen p.OFID p.Omode)
    (fun b t q => marshalRopen b t { OQID := q.1, IOUnit := q.2 })

/-- genout.go:977-987 -/
def srvRcreate (ns : NineServer σ) : Server σ → Buffer → DispRes σ :=
  srvCall unmarshalTcreate (fun p => ns.Rcreate p.OFID p.Name p.CreatePerm p.Omode)
    (fun b t q => marshalRcreate b t { OQID := q.1, IOUnit := q.2 })

/-- genout.go:1090-1100 -/
def srvRstat (ns : NineServer σ) : Server σ → Buffer → DispRes σ :=
  srvCall unmarshalTstat (fun p => ns.Rstat p.OFID) (fun b t q => marshalRstat b t { B := q })

/-- genout.go:1203-1213 -/
def srvRwstat (ns : NineServer σ) : Server σ → Buffer → DispRes σ :=
  srvCall unmarshalTwstat (fun p => ns.Rwstat p.OFID p.B) (fun b t _ => marshalRwstat b t {})

/-- genout.go:1305-1315 -/
def srvRclunk (ns : NineServer σ) : Server σ → Buffer → DispRes σ :=
  srvCall unmarshalTclunk (fun p => ns.Rclunk p.OFID) (fun b t _ => marshalRclunk b t {})

/-- genout.go:1407-1417 -/
def srvRremove (ns : NineServer σ) : Server σ → Buffer → DispRes σ :=
  srvCall unmarshalTremove (fun p => ns.Rremove p.OFID) (fun b t _ => marshalRremove b t {})

/-- genout.go:1556-1566 -/
def srvRread (ns : NineServer σ) : Server σ → Buffer → DispRes σ :=
  srvCall unmarshalTread (fun p => ns.Rread p.OFID p.Off p.Len) (fun b t q => marshalRread b t { Data := q })

/-- genout.go:1705-1715 -/
def srvRwrite (ns : NineServer σ) : Server σ → Buffer → DispRes σ :=
  srvCall unmarshalTwrite (fun p => ns.Rwrite p.OFID p.Off p.Data)
    (fun b t q => marshalRwrite b t { RLen := q })

/-- genout.go:1737-1745.  The read of the tag fails only on an empty buffer; then nothing is written. -/
def serverError (b : Buffer) (e : GoString) : Buffer :=
  match b.read 2 with
  | (none, b) => b
  | (some p, b) =>
    -- t := Tag(uint16(u[0])|uint16(u[1])<<8)
    let t : Tag := (p.getD 0 0).toUInt16 ||| (p.getD 1 0).toUInt16 <<< 8
    marshalRerror b t { Error := e }

/-- the second `switch` of `Dispatch`, protocol/server.go:267-294 -/
def dispatchTable (ns : NineServer σ) (s : Server σ) (b : Buffer) (t : MType) : DispRes σ :=
  if t = MT.Tversion then srvRversion ns s b
  else if t = MT.Tattach then srvRattach ns s b
  else if t = MT.Tflush then srvRflush ns s b
  else if t = MT.Twalk then srvRwalk ns s b
  else if t = MT.Topen then srvRopen ns s b
  else if t = MT.Tcreate then srvRcreate ns s b
  else if t = MT.Tclunk then srvRclunk ns s b
  else if t = MT.Tstat then srvRstat ns s b
  else if t = MT.Twstat then srvRwstat ns s b
  else if t = MT.Tremove then srvRremove ns s b
  else if t = MT.Tread then srvRread ns s b
  else if t = MT.Twrite then srvRwrite ns s b
  else .done s (serverError b (lit "Dispatch: " ++ rpcName t ++ lit " not supported"))

/-- protocol/server.go:251-295.  `d[0]`, `d[1]` panic if the buffer has less than two bytes.  The error
that `Dispatch` returns is only logged. -/
def dispatch (ns : NineServer σ) (s : Server σ) (b : Buffer) (t : MType) : DispRes σ :=
  if t = MT.Tversion then dispatchTable ns { s with Versioned := true } b t
  else if s.Versioned = false then
    match b.bytes with
    | d0 :: d1 :: _ =>
      .done s (marshalRerror b (d0.toUInt16 ||| d1.toUInt16 <<< 8)
        { Error := lit "Dispatch: " ++ rpcName t ++ lit " not allowed before Tversion" })
    | _ => .panic
  else dispatchTable ns s b t

end
end Ninep
