import Verif.Props.Stack
import Verif.Lemmas.Threads
/-
The methods of the file server as programs, and a scripted host with short answers only.
-/

set_option linter.unusedVariables false

namespace Ninep.Ufs
open Spec
variable {ω H : Type}

/-! ### short answers -/

/-- the answer of the host is short, see `Host.Short` -/
def HCall.Terse : (c : HCall H) → c.Ans → Prop
  | .lstat _, a => ∀ fi, a = .ok fi → fi.name.length < 2 ^ 15
  | .stat _, a => ∀ e, a = .error e → e.length < 2 ^ 16
  | .openFile _ _ _, a => ∀ e, a = .error e → e.length < 2 ^ 16
  | .readdir1 _, a => ∀ e, a = .fail e → e.length < 2 ^ 16
  | .readAt _ _ _, a => ∀ d e, a = (d, .fail e) → e.length < 2 ^ 16
  | .writeAt _ _ _, a => ∀ n e, a = (n, some e) → e.length < 2 ^ 16
  | .mkdir _ _, _ => True
  | .close _, _ => True
  | .sync _, _ => True
  | .chmod _ _, a => ∀ e, a = some e → e.length < 2 ^ 16
  | .rename _ _, a => ∀ e, a = some e → e.length < 2 ^ 16
  | .truncate _ _, a => ∀ e, a = some e → e.length < 2 ^ 16
  | .chtimes _ _ _, a => ∀ e, a = some e → e.length < 2 ^ 16
  | .remove _, a => ∀ e, a = some e → e.length < 2 ^ 16
  | .seek0 _, a => ∀ e, a = some e → e.length < 2 ^ 16

theorem Host.Short.exec {host : Host ω H} (hh : host.Short) (c : HCall H) (w : ω) : c.Terse (host.exec c w).2 := by
  cases c with
  | lstat p => exact fun fi h => hh.names p w _ fi (Prod.ext rfl h)
  | stat p => exact fun e h => hh.stat p w _ e (Prod.ext rfl h)
  | openFile p f m => exact fun e h => hh.openFile p f m w _ e (Prod.ext rfl h)
  | readdir1 x => exact fun e h => hh.readdir1 x w _ e (Prod.ext rfl h)
  | readAt x n o => exact fun d e h => hh.readAt x n o w _ d e (Prod.ext rfl h)
  | writeAt x b o => exact fun n e h => hh.writeAt x b o w _ n e (Prod.ext rfl h)
  | mkdir p m => trivial
  | close x => trivial
  | sync x => trivial
  | chmod p m => exact fun e h => hh.chmod p m w e h
  | rename p q => exact fun e h => hh.rename p q w e h
  | truncate p n => exact fun e h => hh.truncate p n w e h
  | chtimes p a m => exact fun e h => hh.chtimes p a m w e h
  | remove p => exact fun e h => hh.remove p w _ e (Prod.ext rfl h)
  | seek0 x => exact fun e h => hh.seek0 x w _ e (Prod.ext rfl h)

theorem HCall.terse_noAns (c : HCall H) : c.Terse c.noAns := by
  cases c <;> simp [HCall.Terse, HCall.noAns]

open Classical in
/-- an answer that is short -/
noncomputable def HCall.tame (c : HCall H) (a : c.Ans) : c.Ans := if c.Terse a then a else c.noAns

theorem HCall.tame_terse (c : HCall H) (a : c.Ans) : c.Terse (c.tame a) := by
  unfold HCall.tame
  split
  · assumption
  · exact c.terse_noAns

noncomputable def Script.tame (c : HCall H) (w : Script H) : Script H × c.Ans := ((Script.ans c w).1, c.tame (Script.ans c w).2)

/-- the scripted host, but with short answers only -/
noncomputable def tamed (H : Type) : Host (Script H) H where
  lstat p := Script.tame (.lstat p)
  stat p := Script.tame (.stat p)
  openFile p f m := Script.tame (.openFile p f m)
  mkdir p m := Script.tame (.mkdir p m)
  chmod p m := Script.tame (.chmod p m)
  rename p q := Script.tame (.rename p q)
  truncate p n := Script.tame (.truncate p n)
  chtimes p a m := Script.tame (.chtimes p a m)
  remove p := Script.tame (.remove p)
  close h := Script.tame (.close h)
  sync h := Script.tame (.sync h)
  seek0 h := Script.tame (.seek0 h)
  readdir1 h := Script.tame (.readdir1 h)
  readAt h n o := Script.tame (.readAt h n o)
  writeAt h b o := Script.tame (.writeAt h b o)

theorem tamed_exec (c : HCall H) (w : Script H) : (tamed H).exec c w = Script.tame c w := by cases c <;> rfl

theorem tamed_short (H : Type) : (tamed H).Short where
  names p w w' fi h := (HCall.tame_terse (.lstat p) _) fi (congrArg Prod.snd h)
  stat p w w' e h := (HCall.tame_terse (.stat p) _) e (congrArg Prod.snd h)
  openFile p f m w w' e h := (HCall.tame_terse (.openFile p f m) _) e (congrArg Prod.snd h)
  chmod p m w e h := (HCall.tame_terse (.chmod p m) _) e h
  rename p q w e h := (HCall.tame_terse (.rename p q) _) e h
  truncate p n w e h := (HCall.tame_terse (.truncate p n) _) e h
  chtimes p a m w e h := (HCall.tame_terse (.chtimes p a m) _) e h
  remove p w w' e h := (HCall.tame_terse (.remove p) _) e (congrArg Prod.snd h)
  seek0 x w w' e h := (HCall.tame_terse (.seek0 x) _) e (congrArg Prod.snd h)
  readdir1 x w w' e h := (HCall.tame_terse (.readdir1 x) _) e (congrArg Prod.snd h)
  readAt x n o w w' d e h := (HCall.tame_terse (.readAt x n o) _) d e (congrArg Prod.snd h)
  writeAt x b o w w' n e h := (HCall.tame_terse (.writeAt x b o) _) n e (congrArg Prod.snd h)

theorem script_terse (c : HCall H) (w : Script H) (hw : ∀ e ∈ w.todo, e.1.Terse e.2) :
    c.Terse (Script.ans c w).2 ∧ ∀ e ∈ (Script.ans c w).1.todo, e.1.Terse e.2 := by
  unfold Script.ans
  split
  · exact ⟨c.terse_noAns, by simp⟩
  · rename_i e rest h
    rw [h] at hw
    split
    · rename_i hc
      subst hc
      exact ⟨hw e (by simp), fun e he => hw e (by simp [he])⟩
    · refine ⟨c.terse_noAns, ?_⟩
      rw [h]; exact hw

/-- on a script of short answers both hosts do the same -/
theorem tamed_run {α : Type} (p : Prog H α) (w : Script H) (hw : ∀ e ∈ w.todo, e.1.Terse e.2) : p.run (tamed H) w = p.run (scripted H) w := by
  induction p generalizing w with
  | ret a => rfl
  | panic => rfl
  | call c k ih =>
    obtain ⟨h1, h2⟩ := script_terse c w hw
    simp only [Prog.run, tamed_exec, scripted_exec]
    have : Script.tame c w = Script.ans c w := by
      unfold Script.tame HCall.tame
      rw [if_pos h1]
    rw [this]
    exact ih _ _ h2

/-! ### the methods as programs -/

/-- the program of a method, its results as a reply -/
def asReply {α : Type} (f : α → RMsg) (p : Met H α) : Met H RMsg :=
  p.bind fun r => match r with
    | (o, .ok a) => .ret (o, .ok (f a))
    | (o, .error e) => .ret (o, .error e)

theorem run_asReply {α : Type} (host : Host ω H) (f : α → RMsg) (p : Met H α) (w : ω) :
    toRes ((asReply f p).run host w) = Spec.mapRes f (toRes (p.run host w)) := by
  unfold asReply
  rw [Prog.run_bind]
  cases p.run host w with
  | none => rfl
  | some r =>
    obtain ⟨w', o, r⟩ := r
    cases r <;> rfl

/-- the program of the method that a request asks for, see `Spec.call` -/
def pcall (user : GoString) : TMsg → Obj H → Met H RMsg
  | .version p, o => asReply (fun q => .version ⟨q.1, q.2⟩) (pversion p.TMsize p.TVersion o)
  | .attach p, o => asReply (fun q => .attach ⟨q⟩) (pattach p.SFID p.AFID p.Uname p.Aname o)
  | .flush p, o => asReply (fun _ => .flush ⟨⟩) (pflush p.OTag o)
  | .walk p, o => asReply (fun q => .walk ⟨q⟩) (pwalk p.SFID p.NewFID p.Paths o)
  | .open_ p, o => asReply (fun q => .open_ ⟨q.1, q.2⟩) (popen p.OFID p.Omode o)
  | .create p, o => asReply (fun q => .create ⟨q.1, q.2⟩) (pcreate p.OFID p.Name p.CreatePerm p.Omode o)
  | .stat p, o => asReply (fun q => .stat ⟨q⟩) (pstat user p.OFID o)
  | .wstat p, o => asReply (fun _ => .wstat ⟨⟩) (pwstat p.OFID p.B o)
  | .clunk p, o => asReply (fun _ => .clunk ⟨⟩) (pclunk p.OFID o)
  | .remove p, o => asReply (fun _ => .remove ⟨⟩) (premove p.OFID o)
  | .read p, o => asReply (fun q => .read ⟨q⟩) (pread user p.OFID p.Off p.Len o)
  | .write p, o => asReply (fun q => .write ⟨q⟩) (pwrite p.OFID p.Off p.Data o)

theorem run_call (host : Host ω H) (user : GoString) (m : TMsg) (s : State ω H) :
    Spec.call (ufs host user) m s = toRes ((pcall user m s.obj).run host s.world) := by
  cases m <;> simp only [pcall, Spec.call, run_asReply] <;> congr 1
  · exact run_version host _ _ s
  · exact run_attach host _ _ _ _ s
  · exact run_walk host _ _ _ s
  · exact run_open host _ _ s
  · exact run_create host _ _ _ _ s
  · exact run_stat host user _ s
  · exact run_wstat host _ _ s
  · exact run_clunk host _ s
  · exact run_remove host _ s
  · exact run_read host user _ _ _ s
  · exact run_write host _ _ _ s

theorem call_tamed (user : GoString) (m : TMsg) (o : Obj H) (w : Script H) (hw : ∀ e ∈ w.todo, e.1.Terse e.2) :
    Spec.call (ufs (tamed H) user) m (o.into w) = Spec.call (ufs (scripted H) user) m (o.into w) := by
  rw [run_call, run_call]
  show toRes ((pcall user m o).run (tamed H) w) = toRes ((pcall user m o).run (scripted H) w)
  rw [tamed_run _ _ hw]

end Ninep.Ufs
