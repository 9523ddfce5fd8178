import Verif.Client.Model
import Verif.Ufs.Conns

/-
How clients, listeners and file servers are made: protocol/client.go:24-57, protocol/server.go:18-34 and 67-79,
filesystem/filesystem.go:449-468, cmd/ufs/ufs.go:21-37.
-/

namespace Ninep.Make
open Spec

/-- a buffered channel from which nobody receives yet -/
structure Chan (T : Type) where
  cap : Nat
  queue : List T := []

/-- `c <- x`; `none`: the channel is full, and the sender waits for ever -/
def Chan.send {T : Type} (c : Chan T) (x : T) : Option (Chan T) :=
  if c.queue.length < c.cap then some { c with queue := c.queue ++ [x] } else none

/-- client.go:25-36.  `ν` are network connections, `τ` trace functions.  The elements of `RPC` are pointers, and none of them is set by
`NewClient`. -/
structure Client (ν τ : Type) where
  Tags : Option (Chan Tag) := none
  FID : UInt64 := 0
  RPC : List (Option Nat) := []
  ToNet : Option ν := none
  FromNet : Option ν := none
  /-- the capacity of the channel, if there is one -/
  FromClient : Option Nat := none
  FromServer : Option Nat := none
  Msize : UInt32 := 0
  Dead : Bool := false
  Trace : Option τ := none

/-- protocol.go:293-294, `ClientOpt` and `ListenerOpt`: a function that changes what is pointed to and may return an error -/
abbrev Opt (σ : Type) : Type := σ → σ × Option GoString

/-- client.go:47-51, server.go:72-76: the options one after the other until one fails -/
def applyOpts {σ : Type} : List (Opt σ) → σ → Except GoString σ
  | [], c => .ok c
  | o :: os, c =>
    match o c with
    | (_, some e) => .error e
    | (c', none) => applyOpts os c'

/-- client.go:41-44 -/
def fillTags : Option (Chan Tag) :=
  (List.range' 1 (NOTAG.toNat - 1)).foldlM (fun c i => c.send (UInt16.ofNat i)) { cap := NumTags }

/-- what a constructor returns, and the number of goroutines that it has started -/
structure Result (σ : Type) where
  ret : Except GoString σ
  goroutines : Nat

/-- client.go:47-56 -/
def finish {ν τ : Type} : Except GoString (Client ν τ) → Result (Client ν τ)
  | .error e => ⟨.error e, 0⟩
  | .ok c => ⟨.ok { c with FromClient := some NumTags, FromServer := some 0 }, 2⟩

/-- client.go:38-57.  `none`: it does not return. -/
def newClient {ν τ : Type} (opts : List (Opt (Client ν τ))) : Option (Result (Client ν τ)) :=
  fillTags.map fun tags => finish (applyOpts opts { Tags := some tags, FID := 1, RPC := List.replicate NumTags none })

/-- server.go:20-34, without the mutex -/
structure Listener (ns τ : Type) where
  nsCreator : Unit → ns
  Addr : GoString := []
  Trace : Option τ := none
  listeners : List Nat := []

/-- server.go:67-79 -/
def newListener {ns τ : Type} (nsCreator : Unit → ns) (opts : List (Opt (Listener ns τ))) : Result (Listener ns τ) :=
  ⟨applyOpts opts { nsCreator := nsCreator }, 0⟩

/-- filesystem.go:450-461: a file server, or one in the wrapper of package debugfs -/
inductive Created (H : Type) where
  | plain (f : Ufs.Obj H)
  | debug (f : Ufs.Obj H)

/-- filesystem.go:450-461, with the values of the flags (filesystem.go:44-47) -/
def nsCreator {H : Type} (root : GoString) (debug : Int) : Unit → Created H := fun _ =>
  if debug ≠ 0 then .debug (Ufs.newObj root) else .plain (Ufs.newObj root)

/-- filesystem.go:449-468 -/
def newUFS {H τ : Type} (root : GoString) (debug : Int) (opts : List (Opt (Listener (Created H) τ))) : Result (Listener (Created H) τ) :=
  newListener (nsCreator root debug) opts

/-- how the start of the program comes out -/
inductive Start (L : Type) where
  /-- ufs.go:25-27 -/
  | fatal
  /-- ufs.go:34: `Serve` is called with a nil pointer -/
  | nilServe
  /-- ufs.go:34 -/
  | serve (l : L)

/-- ufs.go:22-34; the error of `NewUFS` is overwritten -/
def start {H τ : Type} (root : GoString) (debug : Int) (listenFails : Bool) : Start (Listener (Created H) τ) :=
  if listenFails then .fatal
  else match (newUFS root debug [fun l => ({ l with Trace := none }, none)]).ret with
    | .error _ => .nilServe
    | .ok l => .serve l

end Ninep.Make
