import Verif.Server.Debug
import Verif.Lemmas.Sim
import Verif.Props.CodecPanic
import Verif.Props.UfsPaths
/-
The debugging wrapper is transparent (C61).
-/

namespace Ninep.Debugfs
open Spec
variable {σ : Type}

/-- the states of a wrapped and of a plain server that belong together -/
def Below (s : σ × List Line) (t : σ) : Prop := s.1 = t

theorem around_rel {α β : Type} (fmt : String) (args : List Arg) (f : σ → NRes σ α) (rfmt : String) (rargs : α → List Arg)
    (g : α → β) {s : σ × List Line} {t : σ} (h : Below s t) :
    ResRel Below (mapRes g (around fmt args f rfmt rargs s)) (mapRes g (f t)) := by
  obtain ⟨s, log⟩ := s
  cases h
  unfold around
  dsimp only
  cases f s <;> simp [mapRes, ResRel, Below]

/-- C61: whatever is asked of it, the wrapper returns what the wrapped server returns, leaves the wrapped
server in the state the call leaves it in, and panics only if the wrapped server does. -/
theorem C61_transparent (ns : NineServer σ) : Same Below (debugServer ns) ns := by
  intro m s t h
  cases m with
  | stat p =>
    obtain ⟨s, log⟩ := s
    cases h
    simp only [call, debugServer, rstat]
    cases ns.Rstat p.OFID s with
    | panic => trivial
    | err s' e => exact ⟨rfl, rfl⟩
    | ok s' b =>
      dsimp only
      cases hu : unmarshaldir (Buffer.ofBytes b) with
      | panic => exact absurd hu (unmarshaldir_safe _)
      | done => exact ⟨rfl, rfl⟩
  | wstat p =>
    simp only [call, debugServer, rwstat]
    cases hu : unmarshaldir (Buffer.ofBytes p.B) with
    | panic => exact absurd hu (unmarshaldir_safe _)
    | done => exact around_rel _ _ _ _ _ _ h
  | _ => exact around_rel _ _ _ _ _ _ h

/-- C61, seen from the network: on every input the connection executes the same requests, writes the same
bytes and ends for the same reason, and the file server ends in the same state. -/
theorem C61_same_connection (ns : NineServer σ) (spare : Nat → Bytes) (wfail : Nat → Bool) (fin : StreamEnd) (s : σ)
    (log : List Line) (segs : List Bytes) :
    let a := serve (debugServer ns) spare wfail fin 0 ⟨(s, log), false⟩ segs
    let b := serve ns spare wfail fin 0 ⟨s, false⟩ segs
    a.execd = b.execd ∧ a.out = b.out ∧ a.stop = b.stop ∧ a.srv.Versioned = b.srv.Versioned ∧ a.srv.ns.1 = b.srv.ns :=
  let ⟨h1, h2, h3, h4, h5⟩ := serve_sim (C61_transparent ns) spare wfail fin 0
    (s := ⟨(s, log), false⟩) (t := ⟨s, false⟩) ⟨rfl, rfl⟩ segs
  ⟨h1, h2, h3, h4, h5⟩

theorem around_log {α : Type} (fmt : String) (args : List Arg) (f : σ → NRes σ α) (rfmt : String) (rargs : α → List Arg)
    (s : σ × List Line) :
    match around fmt args f rfmt rargs s with
    | .panic => True
    | .ok s' a => s'.2 = s.2 ++ [⟨fmt, args⟩, ⟨rfmt, rargs a⟩]
    | .err s' e => s'.2 = s.2 ++ [⟨fmt, args⟩, ⟨"<<< Error %v\n", [.str e]⟩] := by
  unfold around
  dsimp only
  cases f s.1 <;> simp [printf]

/-- two lines were added to the log, and for an error the second one tells the error -/
def TwoLines {α : Type} (s : σ × List Line) : NRes (σ × List Line) α → Prop
  | .panic => True
  | .ok s' _ => ∃ a b, s'.2 = s.2 ++ [a, b]
  | .err s' e => ∃ a, s'.2 = s.2 ++ [a, ⟨"<<< Error %v\n", [.str e]⟩]

/-- every answered request adds two lines to the log -/
theorem log_grows (ns : NineServer σ) (m : TMsg) (s : σ × List Line) : TwoLines s (call (debugServer ns) m s) := by
  have key : ∀ {α β : Type} (g : α → β) (fmt args) (f : σ → NRes σ α) (rfmt) (rargs : α → List Arg),
      TwoLines s (mapRes g (around fmt args f rfmt rargs s)) := by
    intro α β g fmt args f rfmt rargs
    have := around_log fmt args f rfmt rargs s
    generalize around fmt args f rfmt rargs s = r at this
    cases r
    · trivial
    · exact ⟨_, _, this⟩
    · exact ⟨_, this⟩
  cases m with
  | stat p =>
    simp only [call, debugServer, rstat]
    cases ns.Rstat p.OFID s.1 with
    | panic => trivial
    | err s' e => exact ⟨_, by simp [printf]; rfl⟩
    | ok s' b =>
      dsimp only
      cases hu : unmarshaldir (Buffer.ofBytes b) with
      | panic => trivial
      | done => exact ⟨_, _, by simp [printf]; exact ⟨rfl, rfl⟩⟩
  | wstat p =>
    simp only [call, debugServer, rwstat]
    cases hu : unmarshaldir (Buffer.ofBytes p.B) with
    | panic => trivial
    | done => exact key _ _ _ _ _ _
  | _ => exact key _ _ _ _ _ _

/-- the wrapper at work: a file server whose stat returns garbage -/
def garbage : NineServer Nat where
  Rversion m v s := .ok s (m, v)
  Rattach _ _ _ _ s := .ok (s + 1) {}
  Rwalk _ _ _ s := .err s (lit "no")
  Ropen _ _ s := .ok s ({}, 0)
  Rcreate _ _ _ _ s := .ok s ({}, 0)
  Rstat _ s := .ok s [1, 2, 3]
  Rwstat _ _ s := .ok s ()
  Rclunk _ s := .ok s ()
  Rremove _ s := .ok s ()
  Rread _ _ _ s := .ok s []
  Rwrite _ _ _ s := .ok s 0
  Rflush _ s := .ok s ()

/-- a failing walk -/
example : call (debugServer garbage) (.walk { SFID := 1, NewFID := 2, Paths := [[97]] }) (5, []) =
    .err (5, [⟨">>> Twalk fid %v, newfid %v, paths %v\n", [.num 1, .num 2, .strs [[97]]]⟩, ⟨"<<< Error %v\n", [.str (lit "no")]⟩])
      (lit "no") := rfl

/-- a stat whose record cannot be decoded is passed on as it is -/
example : ∃ log, call (debugServer garbage) (.stat { OFID := 1 }) (5, []) = .ok (5, log) (.stat ⟨[1, 2, 3]⟩) := by
  have := C61_transparent garbage (.stat { OFID := 1 }) (5, []) 5 rfl
  cases h : call (debugServer garbage) (.stat { OFID := 1 }) (5, []) with
  | panic => rw [h] at this; exact this.elim
  | err s e => rw [h] at this; exact this.elim
  | ok s r =>
    rw [h] at this
    obtain ⟨s, log⟩ := s
    obtain ⟨h1, rfl⟩ := this
    cases h1
    exact ⟨log, rfl⟩

end Ninep.Debugfs
