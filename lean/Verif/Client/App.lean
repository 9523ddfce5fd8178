import Verif.Client.Model
/-
A program with any number of clients (protocol/client.go), each with its own connection.  In addition to the steps of
Client/Model.lean a `Write` to the network can fail; `log.Fatalf` then ends the program (client.go:140-144).  A panic in
one goroutine ends the program, too.
-/

namespace Ninep.Client

structure App where
  /-- the clients -/
  cl : Nat → State
  /-- the program has ended -/
  exited : Bool

/-- the receiver goroutine has panicked -/
def Recv.isPanic : Recv → Bool
  | .panicked => true
  | _ => false

/-- who makes a step -/
inductive AppLabel where
  /-- client `i`, its callers or its server -/
  | client (i : Nat) (l : Label)
  /-- `ToNet.Write` of client `i` fails -/
  | writeFails (i : Nat)

/-- `trace i`: client `i` has a tracer -/
inductive AppStep (trace : Nat → Bool) : AppLabel → App → App → Prop
  | client (p : App) (i : Nat) (l : Label) (s' : State) : p.exited = false → Step (trace i) l (p.cl i) s' →
      AppStep trace (.client i l) p ⟨upd p.cl i s', s'.recv.isPanic⟩
  /-- client.go:140-144 -/
  | writeFails (p : App) (i c : Nat) (t : Tag) : p.exited = false → (p.cl i).sender = .stored c t →
      AppStep trace (.writeFails i) p { p with exited := true }

inductive AppExec (trace : Nat → Bool) (L : AppLabel → Prop) : App → App → Prop
  | refl (p : App) : AppExec trace L p p
  | step (p p' p'' : App) (l : AppLabel) : AppExec trace L p p' → L l → AppStep trace l p' p'' → AppExec trace L p p''

/-- all clients are new -/
def App.start : App := ⟨fun _ => init, false⟩

end Ninep.Client
