import Verif.Ufs.Logged
import Verif.Lemmas.Prog
import Verif.Lemmas.Threads
import Verif.Props.Debug
/-
The programs of Ufs/Logged.lean: without their lines they are those of Ufs/Prog.lean, and run without interruption
they do what the wrapper of Server/Debug.lean does.
-/

set_option linter.unusedSimpArgs false

namespace Ninep.Ufs
open Debugfs (Line Arg around debugServer printf)

section
variable {ω H : Type} (host : Host ω H) (user : GoString)

/-- the program without its lines -/
def LProg.erase {α : Type} : LProg H α → Prog H α
  | .ret a => .ret a
  | .panic => .panic
  | .call c k => .call c fun a => (k a).erase
  | .log _ k => k.erase

theorem LProg.erase_bind {α β : Type} (p : LProg H α) (f : α → LProg H β) : (p.bind f).erase = p.erase.bind fun a => (f a).erase := by
  induction p with
  | ret a => rfl
  | panic => rfl
  | call c k ih => simp only [LProg.bind, LProg.erase, Prog.bind, ih]
  | log l k ih => exact ih

theorem Prog.erase_quiet {α : Type} (p : Prog H α) : p.quiet.erase = p := by
  induction p with
  | ret a => rfl
  | panic => rfl
  | call c k ih => simp only [Prog.quiet, LProg.erase, ih]

theorem Prog.bind_self {α : Type} (p : Prog H α) {f : α → Prog H α} (h : ∀ a, f a = .ret a) : p.bind f = p := by
  induction p with
  | ret a => exact h a
  | panic => rfl
  | call c k ih => simp only [Prog.bind, ih]

theorem laround_erase {α : Type} (fmt : String) (args : List Arg) (m : Met H α) (rfmt : String) (rargs : α → List Arg) :
    (laround fmt args m rfmt rargs).erase = m := by
  unfold laround
  simp only [LProg.erase]
  rw [LProg.erase_bind, Prog.erase_quiet]
  refine Prog.bind_self _ fun a => ?_
  obtain ⟨o, a⟩ := a
  cases a <;> rfl

theorem lstat_erase (fid : FID) (o : Obj H) : (lstat user fid o).erase = pstat user fid o := by
  unfold lstat
  simp only [LProg.erase]
  rw [LProg.erase_bind, Prog.erase_quiet]
  refine Prog.bind_self _ fun a => ?_
  obtain ⟨o, a⟩ := a
  cases a with
  | error e => rfl
  | ok b =>
    dsimp only
    cases hu : unmarshaldir (Buffer.ofBytes b) with
    | panic => exact absurd hu (unmarshaldir_safe _)
    | done => rfl

theorem lwstat_erase (fid : FID) (b : Bytes) (o : Obj H) : (lwstat fid b o).erase = pwstat fid b o := by
  unfold lwstat
  cases hu : unmarshaldir (Buffer.ofBytes b) with
  | panic => exact absurd hu (unmarshaldir_safe _)
  | done => exact laround_erase _ _ _ _ _

theorem lsrv_erase {P Q : Type} (dec : Buffer → Unm P) {lm : P → Obj H → LMet H Q} {met : P → Obj H → Met H Q}
    (enc : Buffer → Tag → Q → Buffer) (h : ∀ p o, (lm p o).erase = met p o) (o : Obj H) (v : Bool) (b : Buffer) :
    (lsrv dec lm enc o v b).erase = psrv dec met enc o v b := by
  unfold lsrv psrv
  cases dec b with
  | panic => rfl
  | done p t e b =>
    dsimp only
    rw [LProg.erase_bind, h]
    congr 1
    funext ⟨o, r⟩
    cases r <;> rfl

theorem ldispatchTable_erase (o : Obj H) (v : Bool) (b : Buffer) (t : MType) :
    (ldispatchTable user o v b t).erase = pdispatchTable user o v b t := by
  unfold ldispatchTable pdispatchTable
  by_cases h : t = MT.Tversion
  · rw [if_pos h, if_pos h]; exact lsrv_erase _ _ (by intro p s; exact laround_erase _ _ _ _ _) o v b
  rw [if_neg h, if_neg h]; clear h
  by_cases h : t = MT.Tattach
  · rw [if_pos h, if_pos h]; exact lsrv_erase _ _ (by intro p s; exact laround_erase _ _ _ _ _) o v b
  rw [if_neg h, if_neg h]; clear h
  by_cases h : t = MT.Tflush
  · rw [if_pos h, if_pos h]; exact lsrv_erase _ _ (by intro p s; exact laround_erase _ _ _ _ _) o v b
  rw [if_neg h, if_neg h]; clear h
  by_cases h : t = MT.Twalk
  · rw [if_pos h, if_pos h]; exact lsrv_erase _ _ (by intro p s; exact laround_erase _ _ _ _ _) o v b
  rw [if_neg h, if_neg h]; clear h
  by_cases h : t = MT.Topen
  · rw [if_pos h, if_pos h]; exact lsrv_erase _ _ (by intro p s; exact laround_erase _ _ _ _ _) o v b
  rw [if_neg h, if_neg h]; clear h
  by_cases h : t = MT.Tcreate
  · rw [if_pos h, if_pos h]; exact lsrv_erase _ _ (by intro p s; exact laround_erase _ _ _ _ _) o v b
  rw [if_neg h, if_neg h]; clear h
  by_cases h : t = MT.Tclunk
  · rw [if_pos h, if_pos h]; exact lsrv_erase _ _ (by intro p s; exact laround_erase _ _ _ _ _) o v b
  rw [if_neg h, if_neg h]; clear h
  by_cases h : t = MT.Tstat
  · rw [if_pos h, if_pos h]; exact lsrv_erase _ _ (by intro p s; exact lstat_erase _ _ _) o v b
  rw [if_neg h, if_neg h]; clear h
  by_cases h : t = MT.Twstat
  · rw [if_pos h, if_pos h]; exact lsrv_erase _ _ (by intro p s; exact lwstat_erase _ _ _) o v b
  rw [if_neg h, if_neg h]; clear h
  by_cases h : t = MT.Tremove
  · rw [if_pos h, if_pos h]; exact lsrv_erase _ _ (by intro p s; exact laround_erase _ _ _ _ _) o v b
  rw [if_neg h, if_neg h]; clear h
  by_cases h : t = MT.Tread
  · rw [if_pos h, if_pos h]; exact lsrv_erase _ _ (by intro p s; exact laround_erase _ _ _ _ _) o v b
  rw [if_neg h, if_neg h]; clear h
  by_cases h : t = MT.Twrite
  · rw [if_pos h, if_pos h]; exact lsrv_erase _ _ (by intro p s; exact laround_erase _ _ _ _ _) o v b
  rw [if_neg h, if_neg h]; clear h
  rfl

theorem ldispatch_erase (o : Obj H) (v : Bool) (b : Buffer) (t : MType) : (ldispatch user o v b t).erase = pdispatch user o v b t := by
  unfold ldispatch pdispatch
  split
  · exact ldispatchTable_erase user o true b t
  · split
    · cases b.bytes with
      | nil => rfl
      | cons d0 r => cases r <;> rfl
    · exact ldispatchTable_erase user o v b t

/-! ### run without interruption -/

/-- the program run without interruption; the lines are added to the log -/
def LProg.run {α : Type} : LProg H α → ω → List Line → Option (ω × List Line × α)
  | .ret a, w, ls => some (w, ls, a)
  | .panic, _, _ => none
  | .call c k, w, ls => (k (host.exec c w).2).run (host.exec c w).1 ls
  | .log l k, w, ls => k.run w (ls ++ [l])

theorem LProg.run_bind {α β : Type} (p : LProg H α) (f : α → LProg H β) (w : ω) (log : List Line) :
    (p.bind f).run host w log = (p.run host w log).bind fun r => (f r.2.2).run host r.1 r.2.1 := by
  induction p generalizing w log with
  | ret a => rfl
  | panic => rfl
  | call c k ih => exact ih _ _ _
  | log l k ih => exact ih _ _

theorem Prog.run_quiet {α : Type} (p : Prog H α) (w : ω) (log : List Line) :
    p.quiet.run host w log = (p.run host w).map fun r => (r.1, log, r.2) := by
  induction p generalizing w with
  | ret a => rfl
  | panic => rfl
  | call c k ih => exact ih _ _

/-- what a method of the wrapper run without interruption comes to -/
def ltoRes {α : Type} : Option (ω × List Line × Obj H × Except GoString α) → NRes (State ω H × List Line) α
  | none => .panic
  | some (w, log, o, .ok a) => .ok (o.into w, log) a
  | some (w, log, o, .error e) => .err (o.into w, log) e

theorem run_laround {α : Type} (fmt : String) (args : List Arg) (m : Met H α) (rfmt : String) (rargs : α → List Arg)
    (f : State ω H → NRes (State ω H) α) (s : State ω H) (log : List Line) (h : f s = toRes (m.run host s.world)) :
    around fmt args f rfmt rargs (s, log) = ltoRes ((laround fmt args m rfmt rargs).run host s.world log) := by
  unfold around laround
  simp only [LProg.run, LProg.run_bind, Prog.run_quiet]
  rw [h]
  cases m.run host s.world with
  | none => rfl
  | some r =>
    obtain ⟨w, o, r⟩ := r
    cases r <;> rfl

theorem run_lstat (fid : FID) (s : State ω H) (log : List Line) :
    Debugfs.rstat (ufs host user) fid (s, log) = ltoRes ((lstat user fid s.obj).run host s.world log) := by
  unfold Debugfs.rstat lstat
  simp only [LProg.run, LProg.run_bind, Prog.run_quiet]
  rw [show (ufs host user).Rstat fid s = rstat host user fid s from rfl, run_stat]
  cases (pstat user fid s.obj).run host s.world with
  | none => rfl
  | some r =>
    obtain ⟨w, o, r⟩ := r
    cases r with
    | error e => rfl
    | ok b =>
      simp only [toRes, Option.map_some, Option.bind_some]
      cases unmarshaldir (Buffer.ofBytes b) <;> rfl

theorem run_lwstat (fid : FID) (b : Bytes) (s : State ω H) (log : List Line) :
    Debugfs.rwstat (ufs host user) fid b (s, log) = ltoRes ((lwstat fid b s.obj).run host s.world log) := by
  unfold Debugfs.rwstat lwstat
  cases unmarshaldir (Buffer.ofBytes b) with
  | panic => rfl
  | done => exact run_laround _ _ _ _ _ _ _ _ _ (run_wstat host _ _ s)

/-- what the body of `Dispatch` run without interruption comes to -/
def ltoDisp : Option (ω × List Line × Served H) → DispRes (State ω H × List Line)
  | none => .panic
  | some (w, log, o, v, b) => .done ⟨(o.into w, log), v⟩ b

theorem run_lsrv {P Q : Type} (dec : Buffer → Unm P) {call : P → State ω H × List Line → NRes (State ω H × List Line) Q} {met : P → Obj H → LMet H Q}
    (enc : Buffer → Tag → Q → Buffer) (h : ∀ p s log, call p (s, log) = ltoRes ((met p s.obj).run host s.world log))
    (s : State ω H) (log : List Line) (v : Bool) (b : Buffer) :
    srvCall dec call enc ⟨(s, log), v⟩ b = ltoDisp ((lsrv dec met enc s.obj v b).run host s.world log) := by
  unfold srvCall lsrv
  cases dec b with
  | panic => rfl
  | done p t e b =>
    dsimp only
    rw [h, LProg.run_bind]
    cases (met p s.obj).run host s.world log with
    | none => rfl
    | some r =>
      obtain ⟨w, log, o, r⟩ := r
      cases r <;> rfl

theorem run_ldispatchTable (s : State ω H) (log : List Line) (v : Bool) (b : Buffer) (t : MType) :
    dispatchTable (debugServer (ufs host user)) ⟨(s, log), v⟩ b t = ltoDisp ((ldispatchTable user s.obj v b t).run host s.world log) := by
  unfold dispatchTable ldispatchTable
  by_cases h : t = MT.Tversion
  · rw [if_pos h, if_pos h]; exact run_lsrv host _ _ (by intro p s log; exact run_laround _ _ _ _ _ _ _ _ _ (run_version host _ _ s)) s log v b
  rw [if_neg h, if_neg h]; clear h
  by_cases h : t = MT.Tattach
  · rw [if_pos h, if_pos h]; exact run_lsrv host _ _ (by intro p s log; exact run_laround _ _ _ _ _ _ _ _ _ (run_attach host _ _ _ _ s)) s log v b
  rw [if_neg h, if_neg h]; clear h
  by_cases h : t = MT.Tflush
  · rw [if_pos h, if_pos h]; exact run_lsrv host _ _ (by intro p s log; exact run_laround host ">>> Tflush tag %v\n" [.num p.OTag.toNat] (pflush p.OTag s.obj) "<<< Rflush\n" (fun _ => []) (rflush p.OTag) s log (run_flush host p.OTag s)) s log v b
  rw [if_neg h, if_neg h]; clear h
  by_cases h : t = MT.Twalk
  · rw [if_pos h, if_pos h]; exact run_lsrv host _ _ (by intro p s log; exact run_laround _ _ _ _ _ _ _ _ _ (run_walk host _ _ _ s)) s log v b
  rw [if_neg h, if_neg h]; clear h
  by_cases h : t = MT.Topen
  · rw [if_pos h, if_pos h]; exact run_lsrv host _ _ (by intro p s log; exact run_laround _ _ _ _ _ _ _ _ _ (run_open host _ _ s)) s log v b
  rw [if_neg h, if_neg h]; clear h
  by_cases h : t = MT.Tcreate
  · rw [if_pos h, if_pos h]; exact run_lsrv host _ _ (by intro p s log; exact run_laround _ _ _ _ _ _ _ _ _ (run_create host _ _ _ _ s)) s log v b
  rw [if_neg h, if_neg h]; clear h
  by_cases h : t = MT.Tclunk
  · rw [if_pos h, if_pos h]; exact run_lsrv host _ _ (by intro p s log; exact run_laround _ _ _ _ _ _ _ _ _ (run_clunk host _ s)) s log v b
  rw [if_neg h, if_neg h]; clear h
  by_cases h : t = MT.Tstat
  · rw [if_pos h, if_pos h]; exact run_lsrv host _ _ (by intro p s log; exact run_lstat host user _ s log) s log v b
  rw [if_neg h, if_neg h]; clear h
  by_cases h : t = MT.Twstat
  · rw [if_pos h, if_pos h]; exact run_lsrv host _ _ (by intro p s log; exact run_lwstat host user _ _ s log) s log v b
  rw [if_neg h, if_neg h]; clear h
  by_cases h : t = MT.Tremove
  · rw [if_pos h, if_pos h]; exact run_lsrv host _ _ (by intro p s log; exact run_laround _ _ _ _ _ _ _ _ _ (run_remove host _ s)) s log v b
  rw [if_neg h, if_neg h]; clear h
  by_cases h : t = MT.Tread
  · rw [if_pos h, if_pos h]; exact run_lsrv host _ _ (by intro p s log; exact run_laround _ _ _ _ _ _ _ _ _ (run_read host user _ _ _ s)) s log v b
  rw [if_neg h, if_neg h]; clear h
  by_cases h : t = MT.Twrite
  · rw [if_pos h, if_pos h]; exact run_lsrv host _ _ (by intro p s log; exact run_laround _ _ _ _ _ _ _ _ _ (run_write host _ _ _ s)) s log v b
  rw [if_neg h, if_neg h]; clear h
  rfl

/-- `Dispatch` with the wrapper as a program does what it does as a function. -/
theorem run_ldispatch (s : State ω H) (log : List Line) (v : Bool) (b : Buffer) (t : MType) :
    dispatch (debugServer (ufs host user)) ⟨(s, log), v⟩ b t = ltoDisp ((ldispatch user s.obj v b t).run host s.world log) := by
  unfold dispatch ldispatch
  split
  · exact run_ldispatchTable host user s log true b t
  · dsimp only
    split
    · cases b.bytes with
      | nil => rfl
      | cons d0 r => cases r <;> rfl
    · exact run_ldispatchTable host user s log v b t

/-! ### step by step -/

/-- `q` is left of `p` when it has made the calls `evs` and written the lines `ls` -/
inductive LProg.Path {α : Type} : LProg H α → List (Ev H) → List Line → LProg H α → Prop
  | nil {p} : Path p [] [] p
  | call {c k a tr ls q} : Path (k a) tr ls q → Path (.call c k) (⟨c, a⟩ :: tr) ls q
  | log {l k tr ls q} : Path k tr ls q → Path (.log l k) tr (l :: ls) q

theorem LProg.Path.snoc_call {α : Type} {p : LProg H α} {tr : List (Ev H)} {ls : List Line} {c : HCall H} {k : c.Ans → LProg H α}
    (h : p.Path tr ls (.call c k)) (a : c.Ans) : p.Path (tr ++ [⟨c, a⟩]) ls (k a) := by
  generalize hq : LProg.call c k = q at h
  induction h with
  | nil => subst hq; exact .call .nil
  | call _ ih => exact .call (ih hq)
  | log _ ih => exact .log (ih hq)

theorem LProg.Path.snoc_log {α : Type} {p : LProg H α} {tr : List (Ev H)} {ls : List Line} {l : Line} {k : LProg H α}
    (h : p.Path tr ls (.log l k)) : p.Path tr (ls ++ [l]) k := by
  generalize hq : LProg.log l k = q at h
  induction h with
  | nil => subst hq; exact .log .nil
  | call _ ih => exact .call (ih hq)
  | log _ ih => exact .log (ih hq)

theorem LProg.Path.replay {α : Type} {p : LProg H α} {tr : List (Ev H)} {ls : List Line} {q : LProg H α} (h : p.Path tr ls q)
    {r : α} (hq : q = .ret r) (rest done : List (Ev H)) (log : List Line) :
    p.run (scripted H) ⟨tr ++ rest, done⟩ log = some (⟨rest, done ++ tr⟩, log ++ ls, r) := by
  induction h generalizing done log with
  | nil => subst hq; simp [LProg.run]
  | @call c k a tr ls q _ ih =>
    simp only [LProg.run, List.cons_append, scripted_exec]
    rw [show Script.ans c ⟨⟨c, a⟩ :: (tr ++ rest), done⟩ = (⟨tr ++ rest, done ++ [⟨c, a⟩]⟩, a) from Script.ans_next ⟨c, a⟩ _ _]
    dsimp only
    rw [ih hq]
    simp
  | log _ ih =>
    simp only [LProg.run]
    rw [ih hq]
    simp

end
end Ninep.Ufs
