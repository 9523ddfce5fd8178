import Verif.Proto.Marshal
import Verif.Proto.Unmarshal
import Verif.Spec.Wire
/-
The encoders and decoders collected by message kind.  `encodeT`/`encodeR` call the encoder of
protocol/genout.go for the kind of the message; `decodeT`/`decodeR` select the decoder for a message
type byte (the same table as the `switch` of `Dispatch`, server.go:267-294, and of the `CallT*`
functions, which call the decoder of the reply type they expect).
-/

namespace Ninep
open Spec

/-- change the type of the decoded value -/
def Unm.map {α β : Type} (f : α → β) : Unm α → Unm β
  | .panic => .panic
  | .done r t e b => .done (f r) t e b

/-- `MarshalT*Pkt` by message kind -/
def encodeT (b : Buffer) (t : Tag) : TMsg → Buffer
  | .version p => marshalTversion b t p
  | .attach p => marshalTattach b t p
  | .flush p => marshalTflush b t p
  | .walk p => marshalTwalk b t p
  | .open_ p => marshalTopen b t p
  | .create p => marshalTcreate b t p
  | .stat p => marshalTstat b t p
  | .wstat p => marshalTwstat b t p
  | .clunk p => marshalTclunk b t p
  | .remove p => marshalTremove b t p
  | .read p => marshalTread b t p
  | .write p => marshalTwrite b t p

/-- `MarshalR*Pkt` by message kind -/
def encodeR (b : Buffer) (t : Tag) : RMsg → Buffer
  | .error p => marshalRerror b t p
  | .version p => marshalRversion b t p
  | .attach p => marshalRattach b t p
  | .flush p => marshalRflush b t p
  | .walk p => marshalRwalk b t p
  | .open_ p => marshalRopen b t p
  | .create p => marshalRcreate b t p
  | .stat p => marshalRstat b t p
  | .wstat p => marshalRwstat b t p
  | .clunk p => marshalRclunk b t p
  | .remove p => marshalRremove b t p
  | .read p => marshalRread b t p
  | .write p => marshalRwrite b t p

/-- `UnmarshalT*Pkt` by message type -/
def decodeT (ty : MType) : Option (Buffer → Unm TMsg) :=
  if ty = MT.Tversion then some fun b => (unmarshalTversion b).map .version
  else if ty = MT.Tattach then some fun b => (unmarshalTattach b).map .attach
  else if ty = MT.Tflush then some fun b => (unmarshalTflush b).map .flush
  else if ty = MT.Twalk then some fun b => (unmarshalTwalk b).map .walk
  else if ty = MT.Topen then some fun b => (unmarshalTopen b).map .open_
  else if ty = MT.Tcreate then some fun b => (unmarshalTcreate b).map .create
  else if ty = MT.Tclunk then some fun b => (unmarshalTclunk b).map .clunk
  else if ty = MT.Tstat then some fun b => (unmarshalTstat b).map .stat
  else if ty = MT.Twstat then some fun b => (unmarshalTwstat b).map .wstat
  else if ty = MT.Tremove then some fun b => (unmarshalTremove b).map .remove
  else if ty = MT.Tread then some fun b => (unmarshalTread b).map .read
  else if ty = MT.Twrite then some fun b => (unmarshalTwrite b).map .write
  else none

/-- `UnmarshalR*Pkt` by message type -/
def decodeR (ty : MType) : Option (Buffer → Unm RMsg) :=
  if ty = MT.Rerror then some fun b => (unmarshalRerror b).map .error
  else if ty = MT.Rversion then some fun b => (unmarshalRversion b).map .version
  else if ty = MT.Rattach then some fun b => (unmarshalRattach b).map .attach
  else if ty = MT.Rflush then some fun b => (unmarshalRflush b).map .flush
  else if ty = MT.Rwalk then some fun b => (unmarshalRwalk b).map .walk
  else if ty = MT.Ropen then some fun b => (unmarshalRopen b).map .open_
  else if ty = MT.Rcreate then some fun b => (unmarshalRcreate b).map .create
  else if ty = MT.Rclunk then some fun b => (unmarshalRclunk b).map .clunk
  else if ty = MT.Rstat then some fun b => (unmarshalRstat b).map .stat
  else if ty = MT.Rwstat then some fun b => (unmarshalRwstat b).map .wstat
  else if ty = MT.Rremove then some fun b => (unmarshalRremove b).map .remove
  else if ty = MT.Rread then some fun b => (unmarshalRread b).map .read
  else if ty = MT.Rwrite then some fun b => (unmarshalRwrite b).map .write
  else none

/-- the message type byte of a request -/
def Spec.TMsg.ty (m : TMsg) : MType := UInt8.ofNat m.type
/-- the message type byte of a reply -/
def Spec.RMsg.ty (m : RMsg) : MType := UInt8.ofNat m.type

end Ninep
