import Verif.Proto.Types
/-
The bookkeeping of a `Listener` and the accept loop (protocol/server.go:95-179), with any number of
concurrent calls of `Serve` and `Shutdown`.

A `net.Listener` is a number.  `Accept`, `Close` and the order in which `range` visits a map are up to the
environment.  Durations are in nanoseconds.  One step is what happens between two points at which another
goroutine can be seen: a section guarded by `mu`, one `Accept`, one `Close`, one `Sleep`.  Logging and what
happens on an accepted connection are left out; `newConn` (server.go:81-93) returns no error, so `Accept`
(server.go:162-170) does not either.
-/

namespace Ninep.Listen

/-- a `net.Listener` -/
abbrev Ln := Nat
/-- a `net.Conn` -/
abbrev NetConn := Nat

/-- what `ln.Accept()` returns -/
inductive Accepted where
  | conn (c : NetConn)
  /-- a `net.Error` with `Temporary()` -/
  | temporary (e : GoString)
  | permanent (e : GoString)

/-- the next thing a call of `Serve` will do -/
inductive At where
  /-- `l.trackListener(ln, true)` -/
  | entered
  /-- `ln.Accept()`, with the value of `tempDelay` -/
  | accepting (tempDelay : Nat)
  /-- `time.Sleep(tempDelay)` -/
  | sleeping (tempDelay : Nat)
  /-- the deferred `l.trackListener(ln, false)`, then return `e` -/
  | untracking (e : GoString)
  /-- the deferred `ln.Close()`, then return `e` -/
  | closing (e : GoString)
  | returned (e : GoString)

/-- A call of `Serve`, with a record of what `Accept` returned and how long it slept. -/
structure Serving where
  ln : Ln
  pc : At
  seen : List Accepted := []
  slept : List Nat := []

/-- who called `ln.Close()` -/
inductive Closer where
  | shutdown
  | serve (i : Nat)
deriving DecidableEq

/-- The field `listeners` (a map used as a set; nil and empty do not differ), all calls of `Serve` that were
ever made, the record of all calls of `ln.Close()`, the connections handed to `go c.serve()` and the
results of `Shutdown`. -/
structure Sys where
  listeners : List Ln := []
  calls : List Serving := []
  closes : List (Ln × Closer) := []
  conns : List NetConn := []
  results : List (Option GoString) := []

/-- server.go:96-109 -/
def trackListener (listeners : List Ln) (ln : Ln) (add : Bool) : List Ln :=
  if add then (if ln ∈ listeners then listeners else ln :: listeners)
  else listeners.filter (· ≠ ln)

/-- The loop of server.go:114-119: `order` is what is still to be visited, `close` what `ln.Close()`
returns.  Returns the error, the listeners left and the calls of `Close`. -/
def closeLoop (close : Ln → Option GoString) : List Ln → Option GoString → List Ln → List Ln → Option GoString × List Ln × List Ln
  | [], err, listeners, closed => (err, listeners, closed)
  | ln :: order, err, listeners, closed =>
    let err := match close ln, err with
      | some cerr, none => some cerr
      | _, err => err
    closeLoop close order err (listeners.filter (· ≠ ln)) (closed ++ [ln])

/-- server.go:112-121 -/
def closeListenersLocked (close : Ln → Option GoString) (order : List Ln) (listeners : List Ln) :
    Option GoString × List Ln × List Ln := closeLoop close order none listeners []

/-- server.go:138-145 -/
def backoff (tempDelay : Nat) : Nat :=
  let tempDelay := if tempDelay = 0 then 5 * 1000000 else tempDelay * 2
  let max := 1 * 1000000000
  if tempDelay > max then max else tempDelay

/-- change the i-th call -/
def Sys.upd (s : Sys) (i : Nat) (c : Serving) : Sys := { s with calls := s.calls.set i c }

/-- server.go:135-156: what `Serve` does when `ln.Accept()` returns -/
def acceptReturns (tempDelay : Nat) (a : Accepted) : At × List Nat × List NetConn :=
  match a with
  | .temporary _ => (.sleeping (backoff tempDelay), [backoff tempDelay], [])
  | .permanent e => (.untracking e, [], [])
  | .conn c => (.accepting 0, [], [c])

/-- One step of the process. -/
inductive Step : Sys → Sys → Prop
  /-- somebody calls `Serve(ln)` (server.go:125-128) -/
  | call (s : Sys) (ln : Ln) : Step s { s with calls := s.calls ++ [{ ln := ln, pc := .entered }] }
  /-- server.go:130 -/
  | track (s : Sys) (i : Nat) (c : Serving) : s.calls[i]? = some c → c.pc = .entered →
      Step s { s.upd i { c with pc := .accepting 0 } with listeners := trackListener s.listeners c.ln true }
  /-- server.go:135-156 -/
  | accept (s : Sys) (i : Nat) (c : Serving) (d : Nat) (a : Accepted) : s.calls[i]? = some c → c.pc = .accepting d →
      Step s { s.upd i { c with pc := (acceptReturns d a).1, seen := c.seen ++ [a], slept := c.slept ++ (acceptReturns d a).2.1 } with
        conns := s.conns ++ (acceptReturns d a).2.2 }
  /-- server.go:147-148 -/
  | wake (s : Sys) (i : Nat) (c : Serving) (d : Nat) : s.calls[i]? = some c → c.pc = .sleeping d →
      Step s (s.upd i { c with pc := .accepting d })
  /-- server.go:131, deferred -/
  | untrack (s : Sys) (i : Nat) (c : Serving) (e : GoString) : s.calls[i]? = some c → c.pc = .untracking e →
      Step s { s.upd i { c with pc := .closing e } with listeners := trackListener s.listeners c.ln false }
  /-- server.go:126, deferred; its result is dropped -/
  | close (s : Sys) (i : Nat) (c : Serving) (e : GoString) : s.calls[i]? = some c → c.pc = .closing e →
      Step s { s.upd i { c with pc := .returned e } with closes := s.closes ++ [(c.ln, .serve i)] }
  /-- somebody calls `Shutdown` (server.go:174-179) -/
  | shutdown (s : Sys) (close : Ln → Option GoString) (order : List Ln) : order.Perm s.listeners →
      Step s { s with
        listeners := (closeListenersLocked close order s.listeners).2.1
        closes := s.closes ++ (closeListenersLocked close order s.listeners).2.2.map (·, .shutdown)
        results := s.results ++ [(closeListenersLocked close order s.listeners).1] }

/-- the states of a process that starts with a new `Listener` (server.go:67-79) -/
inductive Reachable : Sys → Prop
  | init : Reachable {}
  | step {s s'} : Reachable s → Step s s' → Reachable s'

end Ninep.Listen
