import Verif.Props.Reasons
import Verif.Spec.Ufs
/-
However calls of goroutines that share a `FileServer` overlap: what an answer says of a fid was so at a moment between the beginning and the
end of the call.
-/

namespace Ninep.Ufs.Shared
open Spec

section
variable {ω H : Type} {user rootPath : GoString} {iounit : MaxSize} {host : Host ω H} {w0 : ω}

/-! ### The statement -/

/-- At a moment after the last call of goroutine `g` began the table of fids had `P`. -/
def Once (user rootPath : GoString) (iounit : MaxSize) (host : Host ω H) (w0 : ω) (g : Nat) (ls : List (SLabel ω H))
    (P : (FID → Option Ptr) → Prop) : Prop :=
  ∃ ls1 ls2 s, ls = ls1 ++ ls2 ∧ SRun user rootPath iounit host w0 ls1 s ∧ (∀ m, SLabel.begin g m ∉ ls2) ∧ P s.mem.files

/-- a fid is used -/
def Used (f : FID) (files : FID → Option Ptr) : Prop := files f ≠ none

/-- a fid is free -/
def Unused (f : FID) (files : FID → Option Ptr) : Prop := files f = none

/-! ### Programs -/

/-- what a step of a goroutine tells it of the table: a fid, and if it is there -/
def looks : (c : MOp H) → c.Ans → List (FID × Bool)
  | .lookup f, a => [(f, a.isSome)]
  | _, _ => []

/-- the result of a program has `Q` with all that the program has seen of the table -/
def MProg.Looks {α : Type} (Q : List (FID × Bool) → α → Prop) : List (FID × Bool) → MProg H α → Prop
  | l, .ret a => Q l a
  | _, .panic => True
  | l, .op c k => ∀ a, (k a).Looks Q (l ++ looks c a)
  | l, .host _ k => ∀ a, (k a).Looks Q l

theorem MProg.Looks.bind {α β : Type} {Q : List (FID × Bool) → α → Prop} {R : List (FID × Bool) → β → Prop} {p : MProg H α} {f : α → MProg H β}
    {l : List (FID × Bool)} (hp : p.Looks Q l) (hf : ∀ l a, Q l a → (f a).Looks R l) : (p.bind f).Looks R l := by
  induction p generalizing l with
  | ret a => exact hf l a hp
  | panic => trivial
  | op c k ih => exact fun a => ih a (hp a)
  | host c k ih => exact fun a => ih a (hp a)

/-- whatever it does -/
theorem MProg.Looks.any {α : Type} {Q : List (FID × Bool) → α → Prop} (p : MProg H α) {l : List (FID × Bool)}
    (h : ∀ l' a, Q (l ++ l') a) : p.Looks Q l := by
  induction p generalizing l with
  | ret a =>
    have := h [] a
    rwa [List.append_nil] at this
  | panic => trivial
  | op c k ih => exact fun a => ih a fun l' b => by rw [List.append_assoc]; exact h _ b
  | host c k ih => exact fun a => ih a h

/-- what the answer to a request says of the fid that it is about -/
def Mentions {α : Type} (f : FID) (l : List (FID × Bool)) : Except GoString α → Prop
  | .ok _ => (f, true) ∈ l
  | .error e => ((f, false) ∈ l ∧ e = lit "does not exist") ∨ (f, true) ∈ l

theorem mentions_any {α : Type} {f : FID} {l : List (FID × Bool)} (h : (f, true) ∈ l) (p : MMet H α) : p.Looks (Mentions f) l :=
  .any p fun l' a => by
    have : (f, true) ∈ l ++ l' := List.mem_append_left _ h
    cases a with
    | ok a => exact this
    | error e => exact .inr this

theorem looks_asReply {α : Type} {g : α → RMsg} {f : FID} {p : MMet H α} {l : List (FID × Bool)} (hp : p.Looks (Mentions f) l) :
    (mAsReply g p).Looks (Mentions f) l :=
  hp.bind fun l a h => by cases a <;> exact h

theorem looks_withFile {α : Type} {f : FID} {k : Ptr → MMet H α} : (withFile f k).Looks (Mentions f) [] := by
  intro _ r _
  cases r with
  | none => exact .inl ⟨by simp [looks], rfl⟩
  | some p => exact mentions_any (by simp [looks]) _

theorem looks_clunkFile {f : FID} : (mclunkFile f : MMet H Ptr).Looks (Mentions f) [] := by
  intro _ r
  cases r with
  | none => exact fun _ => .inl ⟨by simp [looks], rfl⟩
  | some p => exact mentions_any (by simp [looks]) _

theorem looks_call {m : TMsg} {f : FID} (hf : workFid m = some f) :
    (mcall user rootPath iounit m : MMet H RMsg).Looks (Mentions f) [] := by
  cases m with
  | version q => cases hf
  | attach q => cases hf
  | flush q => cases hf
  | walk q => cases hf; exact looks_asReply looks_withFile
  | open_ q => cases hf; exact looks_asReply looks_withFile
  | create q => cases hf; exact looks_asReply looks_withFile
  | stat q => cases hf; exact looks_asReply looks_withFile
  | wstat q => cases hf; exact looks_asReply looks_withFile
  | clunk q =>
    cases hf
    exact looks_asReply (looks_clunkFile.bind fun l r h => by cases r <;> exact h)
  | remove q =>
    cases hf
    refine looks_asReply (looks_clunkFile.bind fun l r h => ?_)
    cases r with
    | error e => exact h
    | ok p => exact mentions_any h _
  | read q => cases hf; exact looks_asReply looks_withFile
  | write q => cases hf; exact looks_asReply looks_withFile

/-- what the answer to a walk says of the new fid -/
def MentionsNew (q : TwalkPkt) (l : List (FID × Bool)) : Except GoString RMsg → Prop
  | .ok (.walk r) => r.QIDs.length = q.Paths.length → (q.NewFID, false) ∈ l ∨ (q.SFID = q.NewFID ∧ q.Paths ≠ [])
  | .ok _ => True
  | .error e => lit "FID in use" <+: e → (q.NewFID, true) ∈ l

theorem looks_walkLoop {names : List GoString} : ∀ {p : GoString} {l : List (FID × Bool)},
    (MProg.ofProg (pwalkLoop p names) : MProg H _).Looks (fun l' r => l' = l ∧ (r.2 = none → r.1.length < names.length)) l := by
  induction names with
  | nil => exact fun {p l} => ⟨rfl, nofun⟩
  | cons n ns ih =>
    intro p l a
    cases a with
    | error e => exact ⟨rfl, fun _ => Nat.succ_pos _⟩
    | ok st =>
      show (MProg.ofProg ((pwalkLoop (pathJoin p n) ns).bind fun r => .ret (fileInfoToQID st :: r.1, r.2))).Looks _ _
      rw [ofProg_bind _ fun r : List QID × Option GoString => (fileInfoToQID st :: r.1, r.2)]
      exact (ih (p := pathJoin p n)).bind fun l' r hr => ⟨hr.1, fun h => Nat.succ_lt_succ (hr.2 h)⟩

theorem looks_walk (q : TwalkPkt) : (mcall user rootPath iounit (.walk q) : MMet H RMsg).Looks (MentionsNew q) [] := by
  refine MProg.Looks.bind (Q := fun l (r : Except GoString (List QID)) => MentionsNew q l (match r with | .ok a => .ok (.walk ⟨a⟩) | .error e => .error e)) ?_
    fun l a h => by cases a <;> exact h
  intro _ r _
  cases r with
  | none => exact fun h => absurd h (by decide)
  | some p =>
    dsimp only
    split
    · intro _ r
      cases r with
      | some _ => exact fun _ _ => by simp [looks]
      | none => exact fun _ _ _ _ _ _ _ _ => .inl (by simp [looks])
    · rename_i hp
      refine fun n => looks_walkLoop.bind fun l r hr => ?_
      obtain ⟨qs, o⟩ := r
      cases o with
      | none =>
        dsimp only
        split
        · exact fun h => absurd h (by decide)
        · exact fun h => absurd h (Nat.ne_of_lt (hr.2 rfl))
      | some path =>
        intro _
        split
        · intro r
          cases r with
          | some _ => exact fun _ _ => by simp [looks]
          | none => exact fun _ _ _ _ => .inl (by simp [looks])
        · rename_i he
          exact fun _ _ _ _ => .inr ⟨Decidable.not_not.1 he, hp⟩

/-! ### Executions -/

theorem Once.snoc {g : Nat} {ls : List (SLabel ω H)} {l : SLabel ω H} {P : (FID → Option Ptr) → Prop} (h : Once user rootPath iounit host w0 g ls P)
    (hl : ∀ m, l ≠ .begin g m) : Once user rootPath iounit host w0 g (ls ++ [l]) P := by
  obtain ⟨ls1, ls2, s, rfl, hr, hb, hP⟩ := h
  refine ⟨ls1, ls2 ++ [l], s, List.append_assoc _ _ _, hr, fun m hm => ?_, hP⟩
  rcases List.mem_append.1 hm with hm | hm
  · exact hb m hm
  · exact hl m (List.mem_singleton.1 hm).symm

/-- what a goroutine has seen of the table was so at a moment of its call -/
def WasSo (user rootPath : GoString) (iounit : MaxSize) (host : Host ω H) (w0 : ω) (g : Nat) (ls : List (SLabel ω H)) (l : List (FID × Bool)) : Prop :=
  ∀ f b, (f, b) ∈ l → Once user rootPath iounit host w0 g ls fun files => (files f).isSome = b

theorem WasSo.snoc {g : Nat} {ls : List (SLabel ω H)} {x : SLabel ω H} {l : List (FID × Bool)} (h : WasSo user rootPath iounit host w0 g ls l)
    (hl : ∀ m, x ≠ .begin g m) : WasSo user rootPath iounit host w0 g (ls ++ [x]) l := fun f b hf => (h f b hf).snoc hl

theorem looking {m : TMsg} {Q : List (FID × Bool) → Except GoString RMsg → Prop} (hQ : (mcall user rootPath iounit m : MMet H RMsg).Looks Q [])
    {ls : List (SLabel ω H)} {s : SSys ω H} (hr : SRun user rootPath iounit host w0 ls s) {g : Nat} {p : MMet H RMsg}
    (hp : s.run g = some (m, p)) : ∃ l, p.Looks Q l ∧ WasSo user rootPath iounit host w0 g ls l := by
  induction hr generalizing g p with
  | init => cases hp
  | @step ls s s' l c hr hs ih =>
    rcases step_cases hs with ⟨g', m', rfl, hrun, rfl⟩ | ⟨g', m', r, rfl, hrun, rfl⟩ | ⟨g', m', c, k, mem, a, rfl, hrun, ha, rfl⟩ |
      ⟨g', m', c, k, rfl, hrun, rfl⟩ | ⟨w, rfl, rfl⟩
    · simp only [SSys.setRun] at hp
      split at hp
      · cases hp
        exact ⟨[], hQ, nofun⟩
      · rename_i e
        obtain ⟨l, h1, h2⟩ := ih hp
        exact ⟨l, h1, h2.snoc fun m h => e (by cases h; rfl)⟩
    · simp only [SSys.setRun] at hp
      split at hp
      · cases hp
      · obtain ⟨l, h1, h2⟩ := ih hp
        exact ⟨l, h1, h2.snoc nofun⟩
    · simp only [SSys.setRun] at hp
      split at hp
      · rename_i e
        cases hp
        subst e
        obtain ⟨l, h1, h2⟩ := ih hrun
        refine ⟨_, h1 a, fun f b hf => ?_⟩
        rcases List.mem_append.1 hf with hf | hf
        · exact (h2 f b hf).snoc nofun
        · refine ⟨ls, [.op _ c], s, rfl, hr, by simp, ?_⟩
          cases c <;> simp only [looks, List.mem_singleton, List.not_mem_nil] at hf
          cases hf
          simp only [SMem.act] at ha
          cases ha
          rfl
      · obtain ⟨l, h1, h2⟩ := ih hp
        exact ⟨l, h1, h2.snoc nofun⟩
    · simp only [SSys.setRun] at hp
      split at hp
      · rename_i e
        cases hp
        subst e
        obtain ⟨l, h1, h2⟩ := ih hrun
        exact ⟨l, h1 _, h2.snoc nofun⟩
      · obtain ⟨l, h1, h2⟩ := ih hp
        exact ⟨l, h1, h2.snoc nofun⟩
    · obtain ⟨l, h1, h2⟩ := ih hp
      exact ⟨l, h1, h2.snoc nofun⟩

theorem once_used {g : Nat} {ls : List (SLabel ω H)} {l : List (FID × Bool)} (h : WasSo user rootPath iounit host w0 g ls l) {f : FID}
    (hf : (f, true) ∈ l) : Once user rootPath iounit host w0 g ls (Used f) := by
  obtain ⟨ls1, ls2, s, h1, h2, h3, h4⟩ := h f _ hf
  exact ⟨ls1, ls2, s, h1, h2, h3, fun h => by rw [h] at h4; cases h4⟩

theorem once_unused {g : Nat} {ls : List (SLabel ω H)} {l : List (FID × Bool)} (h : WasSo user rootPath iounit host w0 g ls l) {f : FID}
    (hf : (f, false) ∈ l) : Once user rootPath iounit host w0 g ls (Unused f) := by
  obtain ⟨ls1, ls2, s, h1, h2, h3, h4⟩ := h f _ hf
  exact ⟨ls1, ls2, s, h1, h2, h3, Option.isNone_iff_eq_none.1 (by simpa using h4)⟩

theorem looked {m : TMsg} {Q : List (FID × Bool) → Except GoString RMsg → Prop} (hQ : (mcall user rootPath iounit m : MMet H RMsg).Looks Q [])
    {ls1 ls2 : List (SLabel ω H)} {s : SSys ω H} {g : Nat} {r : Except GoString RMsg}
    (hr : SRun user rootPath iounit host w0 (ls1 ++ .done g r :: ls2) s) (hm : current g ls1 = some m) :
    ∃ l, Q l r ∧ WasSo user rootPath iounit host w0 g ls1 l := by
  obtain ⟨s1, s2, c, h1, h2⟩ := run_cut hr
  rcases step_cases h2 with ⟨_, _, h, _, _⟩ | ⟨g', m, _, h, hrun, _⟩ | ⟨_, _, _, _, _, _, h, _, _, _⟩ | ⟨_, _, _, _, h, _, _⟩ | ⟨_, h, _⟩ <;> cases h
  cases (doing h1 hrun).1.symm.trans hm
  exact looking hQ h1 hrun

/-- C131: However calls overlap, a request that succeeds was about a fid that was used at a moment of the call. -/
theorem C131_used {ls1 ls2 : List (SLabel ω H)} {s : SSys ω H} {g : Nat} {m : TMsg} {f : FID} {r : RMsg}
    (hr : SRun user rootPath iounit host w0 (ls1 ++ .done g (.ok r) :: ls2) s) (hm : current g ls1 = some m) (hf : workFid m = some f) :
    Once user rootPath iounit host w0 g ls1 (Used f) := by
  obtain ⟨l, h, hl⟩ := looked (looks_call hf) hr hm
  exact once_used hl h

/-- C131: A request that fails is told that its fid does not exist, and the fid was free at a moment of the call; or the fid was used at a moment
of the call. -/
theorem C131_unused {ls1 ls2 : List (SLabel ω H)} {s : SSys ω H} {g : Nat} {m : TMsg} {f : FID} {e : GoString}
    (hr : SRun user rootPath iounit host w0 (ls1 ++ .done g (.error e) :: ls2) s) (hm : current g ls1 = some m) (hf : workFid m = some f) :
    (e = lit "does not exist" ∧ Once user rootPath iounit host w0 g ls1 (Unused f)) ∨ Once user rootPath iounit host w0 g ls1 (Used f) := by
  obtain ⟨l, h | h, hl⟩ := looked (looks_call hf) hr hm
  · exact .inl ⟨h.2, once_unused hl h.1⟩
  · exact .inr (once_used hl h)

/-- C131: A walk that is told that its new fid is in use: the fid was used at a moment of the call. -/
theorem C131_in_use {ls1 ls2 : List (SLabel ω H)} {s : SSys ω H} {g : Nat} {q : TwalkPkt} {e : GoString}
    (hr : SRun user rootPath iounit host w0 (ls1 ++ .done g (.error e) :: ls2) s) (hm : current g ls1 = some (.walk q))
    (he : lit "FID in use" <+: e) : Once user rootPath iounit host w0 g ls1 (Used q.NewFID) := by
  obtain ⟨l, h, hl⟩ := looked (looks_walk q) hr hm
  exact once_used hl (h he)

/-- C131: A walk that gets to its end with a fid other than its own: the new fid was free at a moment of the call. A clone is a walk without names. -/
theorem C131_free {ls1 ls2 : List (SLabel ω H)} {s : SSys ω H} {g : Nat} {q : TwalkPkt} {r : RwalkPkt}
    (hr : SRun user rootPath iounit host w0 (ls1 ++ .done g (.ok (.walk r)) :: ls2) s) (hm : current g ls1 = some (.walk q))
    (hl : r.QIDs.length = q.Paths.length) (hq : q.SFID ≠ q.NewFID ∨ q.Paths = []) : Once user rootPath iounit host w0 g ls1 (Unused q.NewFID) := by
  obtain ⟨l, h, hw⟩ := looked (looks_walk q) hr hm
  rcases h hl with h | h
  · exact once_unused hw h
  · exact absurd h fun h => hq.elim (fun h' => h' h.1) (fun h' => h.2 h')

end

/-! ### The hypotheses can be met -/

open Mem

/-- the reply to a walk, and the request: the hypotheses of `C131_used` and `C131_free`; when the reply is given the fid is used -/
example : ∃ ls1 ls2 s r q, SRun [103] [47, 120] 8192 host world0 (ls1 ++ .done 0 (.ok (.walk r)) :: ls2) s ∧ current 0 ls1 = some (.walk q) ∧
    r.QIDs.length = q.Paths.length ∧ q.SFID ≠ q.NewFID ∧ s.mem.files q.NewFID ≠ none := by
  have h := shared_run before
  rw [ends_walk (ls := (shared before).1) (g := 0) (r := (((shared before).1.getLast?.bind walkReply).getD (9, {})).2) (by decide +kernel)] at h
  exact ⟨_, [], _, _, { SFID := 0, NewFID := 1, Paths := [[102]] }, h, by decide +kernel⟩

/-- two goroutines clunk the same fid at the same time -/
def clunkTwice : List (Choice World) := before ++ ([.begin 0 (.clunk { OFID := 1 }), .begin 1 (.clunk { OFID := 1 })] ++ inTurn 0 1 20)

/-- The hypotheses of `C131_unused`: the second one is told that the fid does not exist, though it was used when both calls began. -/
example : ∃ ls1 ls2 s, SRun [103] [47, 120] 8192 host world0 (ls1 ++ .done 1 (.error (lit "does not exist")) :: ls2) s ∧
    current 1 ls1 = some (.clunk { OFID := 1 }) ∧ (shared before).2.mem.files 1 ≠ none := by
  have h := shared_run clunkTwice
  rw [ends_error (ls := (shared clunkTwice).1) (g := 1) (e := lit "does not exist") (by decide +kernel)] at h
  exact ⟨_, [], _, h, by decide +kernel⟩

/-- The hypotheses of `C131_in_use`: goroutine 1 loses; the new fid was free when both calls began. -/
example : ∃ ls1 ls2 s q, SRun [103] [47, 120] 8192 host world0
      (ls1 ++ .done 1 (.error (lit "FID in use: walk to [f], fid 0, newfid 5")) :: ls2) s ∧
    current 1 ls1 = some (.walk q) ∧ (lit "FID in use" <+: lit "FID in use: walk to [f], fid 0, newfid 5") ∧
    (shared before).2.mem.files q.NewFID = none := by
  have h := shared_run walkTwice
  rw [ends_error (ls := (shared walkTwice).1) (g := 1) (e := lit "FID in use: walk to [f], fid 0, newfid 5") (by decide +kernel)] at h
  exact ⟨_, [], _, { SFID := 0, NewFID := 5, Paths := [[102]] }, h, by decide +kernel⟩

end Ninep.Ufs.Shared
