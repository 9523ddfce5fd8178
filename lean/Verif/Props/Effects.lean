import Verif.Props.Moments
/-
However calls of goroutines that share a `FileServer` overlap: a call has set or released its fid before it returns.
-/

namespace Ninep.Ufs.Shared
open Spec

section
variable {ω H : Type} {user rootPath : GoString} {iounit : MaxSize} {host : Host ω H} {w0 : ω}

/-! ### Programs -/

/-- what a step of a goroutine makes of the table: a fid, and if it is there afterwards -/
def makes : MOp H → List (FID × Bool)
  | .assign f _ => [(f, true)]
  | .delete f => [(f, false)]
  | _ => []

/-- the result of a program has `Q` with all that the program has seen or made of the table -/
def MProg.Makes {α : Type} (Q : List (FID × Bool) → α → Prop) : List (FID × Bool) → MProg H α → Prop
  | l, .ret a => Q l a
  | _, .panic => True
  | l, .op c k => ∀ a, (k a).Makes Q (l ++ (looks c a ++ makes c))
  | l, .host _ k => ∀ a, (k a).Makes Q l

theorem MProg.Makes.bind {α β : Type} {Q : List (FID × Bool) → α → Prop} {R : List (FID × Bool) → β → Prop} {p : MProg H α} {f : α → MProg H β}
    {l : List (FID × Bool)} (hp : p.Makes Q l) (hf : ∀ l a, Q l a → (f a).Makes R l) : (p.bind f).Makes R l := by
  induction p generalizing l with
  | ret a => exact hf l a hp
  | panic => trivial
  | op c k ih => exact fun a => ih a (hp a)
  | host c k ih => exact fun a => ih a (hp a)

/-- whatever it does -/
theorem MProg.Makes.any {α : Type} {Q : List (FID × Bool) → α → Prop} (p : MProg H α) {l : List (FID × Bool)}
    (h : ∀ l' a, Q (l ++ l') a) : p.Makes Q l := by
  induction p generalizing l with
  | ret a =>
    have := h [] a
    rwa [List.append_nil] at this
  | panic => trivial
  | op c k ih => exact fun a => ih a fun l' b => by rw [List.append_assoc]; exact h _ b
  | host c k ih => exact fun a => ih a h

/-- the fid is free -/
def Frees {α : Type} (f : FID) (l : List (FID × Bool)) (_ : α) : Prop := (f, false) ∈ l

theorem frees_any {α : Type} {f : FID} {l : List (FID × Bool)} (h : (f, false) ∈ l) (p : MProg H α) : p.Makes (Frees f) l :=
  .any p fun _ _ => List.mem_append_left _ h

theorem frees_clunkFile {f : FID} : (mclunkFile f : MMet H Ptr).Makes (Frees f) [] := by
  intro _ r
  cases r with
  | none => exact fun _ => frees_any (by simp [looks, makes]) (mErr _)
  | some p => exact fun _ => frees_any (by simp [looks, makes]) _

theorem frees_clunk (q : TclunkPkt) : (mcall user rootPath iounit (.clunk q) : MMet H RMsg).Makes (Frees q.OFID) [] :=
  (frees_clunkFile.bind fun _ _ h => frees_any h _ : (mclunk q.OFID : MMet H Unit).Makes (Frees q.OFID) []).bind fun _ _ h => frees_any h _

theorem frees_remove (q : TremovePkt) : (mcall user rootPath iounit (.remove q) : MMet H RMsg).Makes (Frees q.OFID) [] :=
  (frees_clunkFile.bind fun _ _ h => frees_any h _ : (mremove q.OFID : MMet H Unit).Makes (Frees q.OFID) []).bind fun _ _ h => frees_any h _

/-- if it succeeds, the fid is used -/
def Sets {α : Type} (f : FID) (l : List (FID × Bool)) : Except GoString α → Prop
  | .ok _ => (f, true) ∈ l
  | .error _ => True

theorem sets_attach (q : TattachPkt) : (mcall user rootPath iounit (.attach q) : MMet H RMsg).Makes (Sets q.SFID) [] := by
  refine MProg.Makes.bind (Q := Sets q.SFID) ?_ fun l a h => by cases a <;> exact h
  unfold mattach
  split
  · trivial
  · intro a
    cases a with
    | error e => trivial
    | ok st => exact fun p _ _ _ => show (q.SFID, true) ∈ _ by simp [looks, makes]

/-- if a walk gets to its end, the new fid is used -/
def SetsNew (q : TwalkPkt) (l : List (FID × Bool)) : Except GoString RMsg → Prop
  | .ok (.walk r) => r.QIDs.length = q.Paths.length → (q.NewFID, true) ∈ l
  | _ => True

theorem makes_walkLoop {names : List GoString} : ∀ {p : GoString} {l : List (FID × Bool)},
    (MProg.ofProg (pwalkLoop p names) : MProg H _).Makes (fun _ r => r.2 = none → r.1.length < names.length) l := by
  induction names with
  | nil => exact fun {p l} => nofun
  | cons n ns ih =>
    intro p l a
    cases a with
    | error e => exact fun _ => Nat.succ_pos _
    | ok st =>
      show (MProg.ofProg ((pwalkLoop (pathJoin p n) ns).bind fun r => .ret (fileInfoToQID st :: r.1, r.2))).Makes _ _
      rw [ofProg_bind _ fun r : List QID × Option GoString => (fileInfoToQID st :: r.1, r.2)]
      exact (ih (p := pathJoin p n)).bind fun l' r hr h => Nat.succ_lt_succ (hr h)

theorem sets_walk (q : TwalkPkt) : (mcall user rootPath iounit (.walk q) : MMet H RMsg).Makes (SetsNew q) [] := by
  refine MProg.Makes.bind (Q := fun l (r : Except GoString (List QID)) => SetsNew q l (match r with | .ok a => .ok (.walk ⟨a⟩) | .error e => .error e)) ?_
    fun l a h => by cases a <;> exact h
  intro _ r _
  cases r with
  | none => trivial
  | some p =>
    dsimp only
    split
    · intro _ r
      cases r with
      | some _ => exact fun _ => trivial
      | none => exact fun _ _ _ _ _ _ _ _ => by simp [makes]
    · refine fun n => makes_walkLoop.bind fun l r hr => ?_
      obtain ⟨qs, o⟩ := r
      cases o with
      | none =>
        dsimp only
        split
        · trivial
        · exact fun h => absurd h (Nat.ne_of_lt (hr rfl))
      | some path =>
        intro _
        split
        · intro r
          cases r with
          | some _ => exact fun _ => trivial
          | none => exact fun _ _ _ _ => by simp [makes]
        · exact fun _ _ _ _ => by simp [makes]

/-! ### Executions -/

theorem making {m : TMsg} {Q : List (FID × Bool) → Except GoString RMsg → Prop} (hQ : (mcall user rootPath iounit m : MMet H RMsg).Makes Q [])
    {ls : List (SLabel ω H)} {s : SSys ω H} (hr : SRun user rootPath iounit host w0 ls s) {g : Nat} {p : MMet H RMsg}
    (hp : s.run g = some (m, p)) : ∃ l, p.Makes Q l ∧ WasSo user rootPath iounit host w0 g ls l := by
  induction hr generalizing g p with
  | init => cases hp
  | @step ls s s' l c hr hs ih =>
    have hr' := SRun.step _ hr hs
    rcases step_cases hs with ⟨g', m', rfl, hrun, rfl⟩ | ⟨g', m', r, rfl, hrun, rfl⟩ | ⟨g', m', c, k, mem, a, rfl, hrun, ha, rfl⟩ |
      ⟨g', m', c, k, rfl, hrun, rfl⟩ | ⟨w, rfl, rfl⟩
    · simp only [SSys.setRun] at hp
      split at hp
      · cases hp
        exact ⟨[], hQ, nofun⟩
      · rename_i e
        obtain ⟨l, h1, h2⟩ := ih hp
        exact ⟨l, h1, h2.snoc fun m h => e (by cases h; rfl)⟩
    · simp only [SSys.setRun] at hp
      split at hp
      · cases hp
      · obtain ⟨l, h1, h2⟩ := ih hp
        exact ⟨l, h1, h2.snoc nofun⟩
    · simp only [SSys.setRun] at hp
      split at hp
      · rename_i e
        cases hp
        subst e
        obtain ⟨l, h1, h2⟩ := ih hrun
        refine ⟨_, h1 a, fun f b hf => ?_⟩
        rcases List.mem_append.1 hf with hf | hf
        · exact (h2 f b hf).snoc nofun
        rcases List.mem_append.1 hf with hf | hf
        · refine ⟨ls, [.op _ c], s, rfl, hr, by simp, ?_⟩
          cases c <;> simp only [looks, List.mem_singleton, List.not_mem_nil] at hf
          cases hf
          simp only [SMem.act] at ha
          cases ha
          rfl
        · refine ⟨_, [], _, (List.append_nil _).symm, hr', by simp, ?_⟩
          cases c <;> simp only [makes, List.mem_singleton, List.not_mem_nil] at hf <;> cases hf <;> simp only [SMem.act] at ha <;> cases ha <;>
            simp [SSys.setRun]
      · obtain ⟨l, h1, h2⟩ := ih hp
        exact ⟨l, h1, h2.snoc nofun⟩
    · simp only [SSys.setRun] at hp
      split at hp
      · rename_i e
        cases hp
        subst e
        obtain ⟨l, h1, h2⟩ := ih hrun
        exact ⟨l, h1 _, h2.snoc nofun⟩
      · obtain ⟨l, h1, h2⟩ := ih hp
        exact ⟨l, h1, h2.snoc nofun⟩
    · obtain ⟨l, h1, h2⟩ := ih hp
      exact ⟨l, h1, h2.snoc nofun⟩

theorem made {m : TMsg} {Q : List (FID × Bool) → Except GoString RMsg → Prop} (hQ : (mcall user rootPath iounit m : MMet H RMsg).Makes Q [])
    {ls1 ls2 : List (SLabel ω H)} {s : SSys ω H} {g : Nat} {r : Except GoString RMsg}
    (hr : SRun user rootPath iounit host w0 (ls1 ++ .done g r :: ls2) s) (hm : current g ls1 = some m) :
    ∃ l, Q l r ∧ WasSo user rootPath iounit host w0 g ls1 l := by
  obtain ⟨s1, s2, c, h1, h2⟩ := run_cut hr
  rcases step_cases h2 with ⟨_, _, h, _, _⟩ | ⟨g', m, _, h, hrun, _⟩ | ⟨_, _, _, _, _, _, h, _, _, _⟩ | ⟨_, _, _, _, h, _, _⟩ | ⟨_, h, _⟩ <;> cases h
  cases (doing h1 hrun).1.symm.trans hm
  exact making hQ h1 hrun

/-- C132: However calls overlap, a clunk or a remove returns, with an error or without, only after its fid was free at a moment of the call. -/
theorem C132_released {ls1 ls2 : List (SLabel ω H)} {s : SSys ω H} {g : Nat} {f : FID} {r : Except GoString RMsg}
    (hr : SRun user rootPath iounit host w0 (ls1 ++ .done g r :: ls2) s)
    (hm : current g ls1 = some (.clunk { OFID := f }) ∨ current g ls1 = some (.remove { OFID := f })) :
    Once user rootPath iounit host w0 g ls1 (Unused f) := by
  rcases hm with hm | hm
  · obtain ⟨l, h, hl⟩ := made (frees_clunk _) hr hm
    exact once_unused hl h
  · obtain ⟨l, h, hl⟩ := made (frees_remove _) hr hm
    exact once_unused hl h

/-- C132: An attach that succeeds returns only after its fid was used at a moment of the call. -/
theorem C132_attached {ls1 ls2 : List (SLabel ω H)} {s : SSys ω H} {g : Nat} {q : TattachPkt} {r : RMsg}
    (hr : SRun user rootPath iounit host w0 (ls1 ++ .done g (.ok r) :: ls2) s) (hm : current g ls1 = some (.attach q)) :
    Once user rootPath iounit host w0 g ls1 (Used q.SFID) := by
  obtain ⟨l, h, hl⟩ := made (sets_attach q) hr hm
  exact once_used hl h

/-- C132: A walk that gets to its end, or a clone, that succeeds returns only after the new fid was used at a moment of the call. -/
theorem C132_walked {ls1 ls2 : List (SLabel ω H)} {s : SSys ω H} {g : Nat} {q : TwalkPkt} {r : RwalkPkt}
    (hr : SRun user rootPath iounit host w0 (ls1 ++ .done g (.ok (.walk r)) :: ls2) s) (hm : current g ls1 = some (.walk q))
    (hl : r.QIDs.length = q.Paths.length) : Once user rootPath iounit host w0 g ls1 (Used q.NewFID) := by
  obtain ⟨l, h, hw⟩ := made (sets_walk q) hr hm
  exact once_used hw (h hl)

end

/-! ### The hypotheses can be met -/

open Mem

/-- The hypotheses of `C132_released`: a remove that fails. -/
example : ∃ ls1 ls2 s, SRun [103] [47, 120] 8192 host world0 (ls1 ++ .done 1 (.error (lit "no such file or directory")) :: ls2) s ∧
    current 1 ls1 = some (.remove { OFID := 10 }) ∧ (shared (before ++ whole 1 (.walk { SFID := 0, NewFID := 10, Paths := [[102]] }))).2.mem.files 10 ≠ none := by
  have h := shared_run removeTwice
  rw [ends_error (ls := (shared removeTwice).1) (g := 1) (e := lit "no such file or directory") (by decide +kernel)] at h
  exact ⟨_, [], _, h, by decide +kernel⟩

/-- goroutine 0 attaches, and goroutine 1 clunks the fid before the attach returns -/
def attachClunk : List (Choice World) := .begin 0 (attachTo 0) :: go 0 4 ++ whole 1 (.clunk { OFID := 0 }) ++ go 0 10

def okReply : SLabel World Nat → Option (Nat × RMsg)
  | .done g (.ok r) => some (g, r)
  | _ => none

theorem ends_ok {ls : List (SLabel World Nat)} {g : Nat} {r : RMsg} (h : ls.getLast?.bind okReply = some (g, r)) :
    ls = ls.dropLast ++ [.done g (.ok r)] := by
  rcases List.eq_nil_or_concat ls with rfl | ⟨x, l, rfl⟩
  · cases h
  · rw [List.concat_eq_append] at h ⊢
    rw [List.getLast?_concat] at h
    rw [List.dropLast_concat]
    change okReply l = _ at h
    unfold okReply at h
    split at h
    · cases h; rfl
    · cases h

/-- The hypotheses of `C132_attached`; the fid is not used any more when the attach returns. -/
example : ∃ ls1 ls2 s q r, SRun [103] [47, 120] 8192 host world0 (ls1 ++ .done 0 (.ok r) :: ls2) s ∧ current 0 ls1 = some (.attach q) ∧
    s.mem.files q.SFID = none := by
  have h := shared_run attachClunk
  rw [ends_ok (ls := (shared attachClunk).1) (g := 0) (r := (((shared attachClunk).1.getLast?.bind okReply).getD (9, .flush ⟨⟩)).2)
    (by decide +kernel)] at h
  exact ⟨_, [], _, { SFID := 0, AFID := 0xFFFFFFFF }, _, h, by decide +kernel⟩

/-- The hypotheses of `C132_walked`; the new fid was free before. -/
example : ∃ ls1 ls2 s r q, SRun [103] [47, 120] 8192 host world0 (ls1 ++ .done 0 (.ok (.walk r)) :: ls2) s ∧ current 0 ls1 = some (.walk q) ∧
    r.QIDs.length = q.Paths.length ∧ (shared (whole 0 (attachTo 0))).2.mem.files q.NewFID = none := by
  have h := shared_run before
  rw [ends_walk (ls := (shared before).1) (g := 0) (r := (((shared before).1.getLast?.bind walkReply).getD (9, {})).2) (by decide +kernel)] at h
  exact ⟨_, [], _, _, { SFID := 0, NewFID := 1, Paths := [[102]] }, h, by decide +kernel⟩

end Ninep.Ufs.Shared
