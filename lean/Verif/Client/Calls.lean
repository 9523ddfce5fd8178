import Verif.Proto.Codec
/-
What the generated `CallT*` functions make of the packet `bb` they receive (protocol/genout.go).
-/

namespace Ninep.Client
open Spec

/-- the error of a `CallT*` function -/
inductive CallErr where
  /-- `fmt.Errorf("%v", s)` with the text of an Rerror -/
  | remote (text : GoString)
  /-- the error of the decoder -/
  | decode (e : DecErr)
deriving DecidableEq

/-- A `CallT*` function panics or returns values and an error (or nil). -/
inductive CallRes (P : Type) where
  | panic
  | ret (p : P) (err : Option CallErr)
deriving DecidableEq

/-- The common part, e.g. genout.go:182-191: `dec` is the decoder of the expected reply; `spare` is the
rest of the array behind `bb`.  Results that are not assigned have their zero value. -/
def callRes {P : Type} (dec : Buffer → Unm P) (zero : P) (spare : Bytes) (bb : Bytes) : CallRes P :=
  if bb.length < 5 then .panic  -- bb[4]
  else if bb.getD 4 0 = MT.Rerror then
    match unmarshalRerror ⟨[], bb.drop 5, spare⟩ with
    | .panic => .panic
    | .done _ _ (some e) _ => .ret zero (some (.decode e))
    | .done s _ none _ => .ret zero (some (.remote s.Error))
  else
    match dec ⟨[], bb.drop 5, spare⟩ with
    | .panic => .panic
    | .done p _ e _ => .ret p (e.map .decode)

/-- genout.go:173-192 -/
def callTversion : Bytes → Bytes → CallRes RversionPkt := callRes unmarshalRversion {}
/-- genout.go:354-373 -/
def callTattach : Bytes → Bytes → CallRes RattachPkt := callRes unmarshalRattach {}
/-- genout.go:452-471 -/
def callTflush : Bytes → Bytes → CallRes RflushPkt := callRes unmarshalRflush {}
/-- genout.go:646-665 -/
def callTwalk : Bytes → Bytes → CallRes RwalkPkt := callRes unmarshalRwalk {}
/-- genout.go:804-823 -/
def callTopen : Bytes → Bytes → CallRes RopenPkt := callRes unmarshalRopen {}
/-- genout.go:989-1008 -/
def callTcreate : Bytes → Bytes → CallRes RcreatePkt := callRes unmarshalRcreate {}
/-- genout.go:1102-1121 -/
def callTstat : Bytes → Bytes → CallRes RstatPkt := callRes unmarshalRstat {}
/-- genout.go:1215-1234 -/
def callTwstat : Bytes → Bytes → CallRes RwstatPkt := callRes unmarshalRwstat {}
/-- genout.go:1317-1336 -/
def callTclunk : Bytes → Bytes → CallRes RclunkPkt := callRes unmarshalRclunk {}
/-- genout.go:1419-1438 -/
def callTremove : Bytes → Bytes → CallRes RremovePkt := callRes unmarshalRremove {}
/-- genout.go:1568-1587 -/
def callTread : Bytes → Bytes → CallRes RreadPkt := callRes unmarshalRread {}
/-- genout.go:1717-1736 -/
def callTwrite : Bytes → Bytes → CallRes RwritePkt := callRes unmarshalRwrite {}

def CallRes.map {P Q : Type} (f : P → Q) : CallRes P → CallRes Q
  | .panic => .panic
  | .ret p e => .ret (f p) e

/-- the `CallT*` functions by request kind -/
def callT (m : TMsg) (spare bb : Bytes) : CallRes RMsg :=
  match m with
  | .version _ => (callTversion spare bb).map .version
  | .attach _ => (callTattach spare bb).map .attach
  | .flush _ => (callTflush spare bb).map .flush
  | .walk _ => (callTwalk spare bb).map .walk
  | .open_ _ => (callTopen spare bb).map .open_
  | .create _ => (callTcreate spare bb).map .create
  | .stat _ => (callTstat spare bb).map .stat
  | .wstat _ => (callTwstat spare bb).map .wstat
  | .clunk _ => (callTclunk spare bb).map .clunk
  | .remove _ => (callTremove spare bb).map .remove
  | .read _ => (callTread spare bb).map .read
  | .write _ => (callTwrite spare bb).map .write

/-- an empty reply of the kind that belongs to a request: the zero values of the results -/
def zeroR : TMsg → RMsg
  | .version _ => .version {}
  | .attach _ => .attach {}
  | .flush _ => .flush {}
  | .walk _ => .walk {}
  | .open_ _ => .open_ {}
  | .create _ => .create {}
  | .stat _ => .stat {}
  | .wstat _ => .wstat {}
  | .clunk _ => .clunk {}
  | .remove _ => .remove {}
  | .read _ => .read {}
  | .write _ => .write {}

end Ninep.Client
