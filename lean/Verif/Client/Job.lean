import Verif.Client.Site
import Verif.Client.Calls
/-
Programs that use a client: the code of a user of the package, which calls the `CallT*` functions of
protocol/genout.go one after the other and goes on with what they return.  Each client of Client/Site.lean has
one such program.  It makes one call at a time; the calls of different clients overlap.
-/

namespace Ninep.Client
open Spec Ufs
variable {ω H α : Type}

/-- A program that makes calls and returns a value of type `α`.  What comes after a call depends on what it returned. -/
inductive Job (α : Type) where
  | ret (a : α)
  | call (m : TMsg) (k : CallRes RMsg → Job α)

/-- where the program of a client is -/
inductive JobAt (α : Type) where
  /-- this is what is left to do -/
  | next (j : Job α)
  /-- it waits for call number `c` to return -/
  | waits (c : Nat) (m : TMsg) (k : CallRes RMsg → Job α)

/-- clients with their programs -/
structure Shop (ω H α : Type) where
  site : Site ω H
  stage : Nat → JobAt α

inductive JobLabel (ω H : Type) where
  /-- a step in which no call is made -/
  | site (l : SiteLabel ω H)
  /-- the program of client `i` makes a call -/
  | make (i : Nat)
  /-- a call of the program of client `i` returns -/
  | get (i : Nat)

inductive JobStep (host : Host ω H) (user : GoString) : JobLabel ω H → Shop ω H α → Shop ω H α → Prop
  | site (n : Shop ω H α) (l : SiteLabel ω H) (s' : Site ω H) : (∀ i, l ≠ .link i (.step .call)) → SiteStep host user l n.site s' →
      JobStep host user (.site l) n { n with site := s' }
  /-- the start of a `CallT*` function, e.g. genout.go:173-180; `c` is a new number for the call -/
  | make (n : Shop ω H α) (i c : Nat) (m : TMsg) (k : CallRes RMsg → Job α) (s' : Site ω H) : n.stage i = .next (.call m k) →
      (n.site.link i).w.cl.phase c = .idle → SiteStep host user (.link i (.step .call)) n.site s' → (s'.link i).w.cl.msg c = some m →
      JobStep host user (.make i) n { site := s', stage := upd n.stage i (.waits c m k) }
  /-- the end of a `CallT*` function, e.g. genout.go:181-192; `spare` is what lies behind the packet in its array -/
  | get (n : Shop ω H α) (i c : Nat) (m : TMsg) (k : CallRes RMsg → Job α) (b spare : Bytes) : n.stage i = .waits c m k →
      (n.site.link i).w.Running → (n.site.link i).w.cl.phase c = .done b →
      JobStep host user (.get i) n { n with stage := upd n.stage i (.next (k (callT m spare b))) }

inductive JobExec (host : Host ω H) (user : GoString) : Shop ω H α → List (JobLabel ω H) → Shop ω H α → Prop
  | refl (n : Shop ω H α) : JobExec host user n [] n
  | step {n n' n'' : Shop ω H α} {ls : List (JobLabel ω H)} {l : JobLabel ω H} : JobExec host user n ls n' → JobStep host user l n' n'' →
      JobExec host user n (ls ++ [l]) n''

/-- new clients with the programs `jobs` -/
def Shop.start (root : GoString) (w : ω) (jobs : Nat → Job α) : Shop ω H α := ⟨Site.start root w, fun i => .next (jobs i)⟩

end Ninep.Client
