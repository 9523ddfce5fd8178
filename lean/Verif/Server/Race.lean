import Verif.Server.Listener

/-
The memory that the goroutines of a server share, and what the Go memory model says about the order of their accesses
(protocol/server.go, filesystem/filesystem.go:449-468).

The steps are those of `Step` in Server/Listener.lean; the goroutines of the connections (server.go:205-243) are added, and direct calls of
`Accept`.  Beside the state there is a record of the accesses to shared memory, each with the accesses that *happened before* in the
sense of the Go memory model, cf. Client/Race.lean.  A goroutine knows its own accesses; a `go` statement and every other way to pass the
listener to another goroutine carry what the one knows to the other; and so do the unlocking and the next locking of `mu`.

Simplified: a section guarded by `mu` is one step.  What the calls of `ln.Accept`, `ln.Close` and of package os order among each other is left out,
so fewer accesses are ordered here than in fact.
-/

namespace Ninep.Listen

/-- the goroutines: those that use the listener, and the one of `c.serve()` for the connection number `k` -/
inductive LGor where
  | user (g : Nat)
  | conn (k : Nat)
deriving DecidableEq

/-- shared memory -/
inductive LLoc where
  /-- the fields of the `Listener` that its options set (server.go:21-27), and the flags (filesystem.go:44-47) -/
  | config
  /-- `l.listeners` -/
  | listeners
  /-- the `conn`, its `Server` and its `FileServer` (server.go:36-65) -/
  | conn (k : Nat)
deriving DecidableEq

/-- a set of accesses, by their numbers in the record -/
abbrev LPast := Nat → Prop

/-- an access, with the accesses that happened before -/
structure LAccess where
  who : LGor
  loc : LLoc
  write : Bool
  past : LPast

/-- what is recorded beside the state -/
structure LGhost where
  log : List LAccess
  /-- what a goroutine knows -/
  know : LGor → LPast
  /-- the goroutines that have got the listener -/
  has : Nat → Prop
  /-- what was known when `mu` was last unlocked -/
  mu : LPast
  /-- the goroutine of a call of `Serve` -/
  by_ : List Nat
  /-- the number of connections -/
  nconn : Nat

/-- a goroutine makes an access -/
def LGhost.access (G : LGhost) (g : LGor) (l : LLoc) (w : Bool) : LGhost :=
  { G with
    log := G.log ++ [⟨g, l, w, G.know g⟩]
    know := fun g' => if g' = g then fun i => G.know g i ∨ i = G.log.length else G.know g' }

/-- a goroutine gets to know what is known elsewhere -/
def LGhost.learn (G : LGhost) (g : LGor) (p : LPast) : LGhost :=
  { G with know := fun g' => if g' = g then fun i => G.know g i ∨ p i else G.know g' }

/-- `l.mu.Lock()`, an access to `l.listeners`, `l.mu.Unlock()` -/
def LGhost.locked (G : LGhost) (g : LGor) : LGhost :=
  let G := (G.learn g G.mu).access g .listeners true
  { G with mu := G.know g }

/-- `NewListener` in goroutine 0 after the flags have been parsed -/
def LGhost.start : LGhost where
  log := [⟨.user 0, .config, true, fun _ => False⟩]
  know := fun g => if g = .user 0 then fun i => i = 0 else fun _ => False
  has := fun g => g = 0
  mu := fun _ => False
  by_ := []
  nconn := 0

/-- `newConn` and `go c.serve()`, server.go:81-93, 162-170 -/
def LGhost.accepted (G : LGhost) (g : Nat) : LGhost :=
  let G := (G.access (.user g) .config false).access (.user g) (.conn G.nconn) true
  { G.learn (.conn G.nconn) (G.know (.user g)) with nconn := G.nconn + 1 }

/-- what `Serve` touches when `ln.Accept()` returns, server.go:135-156; `logf` reads `l.Trace` -/
def LGhost.acceptReturns (G : LGhost) (g : Nat) : Accepted → LGhost
  | .conn _ => G.accepted g
  | .temporary _ => G.access (.user g) .config false
  | .permanent _ => G

/-- one step of the process, with its accesses to shared memory -/
inductive LRStep : Sys × LGhost → Sys × LGhost → Prop
  /-- a goroutine that has the listener passes it to another one, by a `go` statement, a channel or the like -/
  | pass (s : Sys) (G : LGhost) (g g' : Nat) : G.has g →
      LRStep (s, G) (s, { G.learn (.user g') (G.know (.user g)) with has := fun h => h = g' ∨ G.has h })
  /-- a goroutine, none of whose calls of `Serve` goes on, calls it -/
  | call (s : Sys) (G : LGhost) (g : Nat) (ln : Ln) : G.has g →
      (∀ (i : Nat) (c : Serving), G.by_[i]? = some g → s.calls[i]? = some c → ∃ e, c.pc = .returned e) →
      LRStep (s, G) ({ s with calls := s.calls ++ [{ ln := ln, pc := .entered }] }, { G with by_ := G.by_ ++ [g] })
  | track (s : Sys) (G : LGhost) (i g : Nat) (c : Serving) : s.calls[i]? = some c → c.pc = .entered → G.by_[i]? = some g →
      LRStep (s, G) ({ s.upd i { c with pc := .accepting 0 } with listeners := trackListener s.listeners c.ln true }, G.locked (.user g))
  | accept (s : Sys) (G : LGhost) (i g : Nat) (c : Serving) (d : Nat) (a : Accepted) : s.calls[i]? = some c → c.pc = .accepting d →
      G.by_[i]? = some g →
      LRStep (s, G) ({ s.upd i { c with pc := (Listen.acceptReturns d a).1, seen := c.seen ++ [a], slept := c.slept ++ (Listen.acceptReturns d a).2.1 } with
        conns := s.conns ++ (Listen.acceptReturns d a).2.2 }, G.acceptReturns g a)
  | wake (s : Sys) (G : LGhost) (i : Nat) (c : Serving) (d : Nat) : s.calls[i]? = some c → c.pc = .sleeping d →
      LRStep (s, G) (s.upd i { c with pc := .accepting d }, G)
  | untrack (s : Sys) (G : LGhost) (i g : Nat) (c : Serving) (e : GoString) : s.calls[i]? = some c → c.pc = .untracking e → G.by_[i]? = some g →
      LRStep (s, G) ({ s.upd i { c with pc := .closing e } with listeners := trackListener s.listeners c.ln false }, G.locked (.user g))
  | close (s : Sys) (G : LGhost) (i : Nat) (c : Serving) (e : GoString) : s.calls[i]? = some c → c.pc = .closing e →
      LRStep (s, G) ({ s.upd i { c with pc := .returned e } with closes := s.closes ++ [(c.ln, .serve i)] }, G)
  /-- a goroutine, none of whose calls of `Serve` goes on, calls `Shutdown` -/
  | shutdown (s : Sys) (G : LGhost) (g : Nat) (close : Ln → Option GoString) (order : List Ln) : order.Perm s.listeners → G.has g →
      (∀ (i : Nat) (c : Serving), G.by_[i]? = some g → s.calls[i]? = some c → ∃ e, c.pc = .returned e) →
      LRStep (s, G) ({ s with
        listeners := (closeListenersLocked close order s.listeners).2.1
        closes := s.closes ++ (closeListenersLocked close order s.listeners).2.2.map (·, .shutdown)
        results := s.results ++ [(closeListenersLocked close order s.listeners).1] }, G.locked (.user g))
  /-- a goroutine, none of whose calls of `Serve` goes on, calls `Accept` with a connection it has got from elsewhere, server.go:160-170 -/
  | direct (s : Sys) (G : LGhost) (g : Nat) : G.has g →
      (∀ (i : Nat) (c : Serving), G.by_[i]? = some g → s.calls[i]? = some c → ∃ e, c.pc = .returned e) →
      LRStep (s, G) (s, G.accepted g)
  /-- `c.serve()` and what it calls read the options and use the connection, its `Server` and its `FileServer`, server.go:205-295 -/
  | serve (s : Sys) (G : LGhost) (k : Nat) (w : Bool) : k < G.nconn →
      LRStep (s, G) (s, (G.access (.conn k) .config false).access (.conn k) (.conn k) w)

/-- the executions of a process that starts with a new `Listener` -/
inductive LRExec : Sys × LGhost → Prop
  | init : LRExec ({}, .start)
  | step {x y} : LRExec x → LRStep x y → LRExec y

end Ninep.Listen
