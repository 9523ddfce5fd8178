import Verif.Lemmas.Safe
import Verif.Props.Threads
/-
What the host calls of overlapping requests have in common: they stay below the root (C39), and a rename is
preceded by a look at its target (C81).
-/

namespace Ninep.Ufs
open Spec

section
variable {ω H : Type} (host : Host ω H) (user rootPath : GoString)

/-- the steps of a process in which every packet taken by a connection satisfies `P`, which may depend on the
object of the connection -/
inductive TRunIf (P : Obj H → MType → Bytes → Bytes → Prop) (w0 : ω) : List (Label ω H) → TProc ω H → Prop
  | init : TRunIf P w0 [] { world := w0 }
  | step {ls p l p'} : TRunIf P w0 ls p → TStep host user rootPath p l p' →
      (∀ i t body spare c, l = .start i t body spare → p.thr[i]? = some c → P c.obj t body spare) → TRunIf P w0 (ls ++ [l]) p'

theorem TRunIf.run {P : Obj H → MType → Bytes → Bytes → Prop} {w0 : ω} {ls : List (Label ω H)} {p : TProc ω H}
    (h : TRunIf host user rootPath P w0 ls p) : TRun host user rootPath w0 ls p := by
  induction h with
  | init => exact .init
  | step _ hs _ ih => exact ih.step hs

/-- a packet with names that do not lead up, see `Tame` -/
def TamePacket (o : Obj H) (t : MType) (body spare : Bytes) : Prop := ∀ m, PacketAsks t ⟨[], body, spare⟩ m → Tame o m

theorem stays_inv {P : Obj H → MType → Bytes → Bytes → Prop}
    (hlead : ∀ o t body spare m, Inside o → P o t body spare → PacketAsks t ⟨[], body, spare⟩ m → Leads o m)
    {w0 : ω} {ls : List (Label ω H)} {p : TProc ω H} (hr : TRunIf host user rootPath P w0 ls p) :
    (∀ i e, Label.call i e ∈ ls → ∀ x ∈ e.1.paths, Below (rootOf rootPath) x) ∧
    ∀ (i : Nat) (c : Thr H), p.thr[i]? = some c → Within rootPath c.obj ∧
      ∀ q, c.running = some q → ∃ prev, q.Safe (Stays (rootOf rootPath)) (fun r => Within rootPath r.1) prev := by
  induction hr with
  | init => exact ⟨fun i e h => by (cases h), fun i c h => by simp at h⟩
  | @step ls p l p' _ hs hP ih =>
    obtain ⟨h1, h2⟩ := ih
    have calls : (∀ i e, l ≠ .call i e) → ∀ i e, Label.call i e ∈ ls ++ [l] → ∀ x ∈ e.1.paths, Below (rootOf rootPath) x := by
      intro hl i e he
      rcases List.mem_append.1 he with h | h
      · exact h1 i e h
      · exact absurd (List.mem_singleton.1 h).symm (hl i e)
    have upd : ∀ {j : Nat} {d d' : Thr H}, p.thr[j]? = some d →
        (Within rootPath d'.obj ∧ ∀ q, d'.running = some q → ∃ prev, q.Safe (Stays (rootOf rootPath)) (fun r => Within rootPath r.1) prev) →
        ∀ (i : Nat) (c : Thr H), (p.thr.set j d')[i]? = some c → Within rootPath c.obj ∧
          ∀ q, c.running = some q → ∃ prev, q.Safe (Stays (rootOf rootPath)) (fun r => Within rootPath r.1) prev := by
      intro j d d' hd hd' i c hc
      by_cases hji : j = i
      · subst hji
        rw [List.getElem?_set_self (List.getElem?_eq_some_iff.1 hd).1] at hc
        cases hc
        exact hd'
      · rw [List.getElem?_set_ne hji] at hc
        exact h2 i c hc
    cases hs with
    | accept =>
      refine ⟨calls (by intros; simp), fun i c hc => ?_⟩
      rw [List.getElem?_append] at hc
      split at hc
      · exact h2 i c hc
      · have hm := List.mem_of_getElem? hc
        rw [List.mem_singleton] at hm
        subst hm
        exact ⟨⟨rfl, fun i f hf => by simp [newObj, newFS] at hf⟩, fun q hq => by cases hq⟩
    | @start j d t body spare hd hdead hrun =>
      refine ⟨calls (by intros; simp), upd hd ⟨(h2 j d hd).1, fun q hq => ?_⟩⟩
      cases hq
      refine ⟨none, fine_dispatch user (h2 j d hd).1 _ none fun m hm => ?_⟩
      exact hlead _ _ _ _ m (h2 j d hd).1.inside (hP j t body spare d rfl hd) hm
    | @call j d x k hd hrun =>
      obtain ⟨prev, hx⟩ := (h2 j d hd).2 _ hrun
      refine ⟨fun i e he => ?_, upd hd ⟨(h2 j d hd).1, fun q hq => ?_⟩⟩
      · rcases List.mem_append.1 he with h | h
        · exact h1 i e h
        · rw [List.mem_singleton] at h
          cases h
          exact hx.1
      · cases hq
        exact ⟨_, hx.2 _⟩
    | @reply j d o v b written hd hrun =>
      obtain ⟨prev, hx⟩ := (h2 j d hd).2 _ hrun
      refine ⟨calls (by intros; simp), upd hd ?_⟩
      unfold Thr.replied
      cases written
      · exact ⟨hx, fun q hq => by cases hq⟩
      · exact ⟨hx, fun q hq => by cases hq⟩
    | @hangup j d hd hrun =>
      refine ⟨calls (by intros; simp), upd hd ⟨(h2 j d hd).1, fun q hq => ?_⟩⟩
      rw [show ({ d with dead := true } : Thr H).running = d.running from rfl, hrun] at hq
      cases hq
    | other w => exact ⟨calls (by intros; simp), h2⟩

/-- C39 (not true as stated, see `C39_counterexample`): however many connections there are and however their
requests overlap, as long as the names in them do not lead up, the file server hands only paths at or below the
export root to the operating system.  Missing: names with ".." in them. -/
theorem C39_calls_partial {w0 : ω} {ls : List (Label ω H)} {p : TProc ω H} (hr : TRunIf host user rootPath TamePacket w0 ls p)
    {i : Nat} {e : Ev H} (he : Label.call i e ∈ ls) {x : GoString} (hx : x ∈ e.1.paths) : Below (rootOf rootPath) x :=
  (stays_inv host user rootPath (fun _ _ _ _ m hi h ha => (h m ha).leads hi) hr).1 i e he x hx

/-! ### C81 -/

/-- every rename comes right after a stat of its target that found no directory -/
def RenamesChecked (tr : List (Ev H)) : Prop :=
  ∀ pre old new a post, tr = pre ++ ⟨.rename old new, a⟩ :: post →
    ∃ r : Except GoString FileInfo, isDirAns r = false ∧ pre.getLast? = some ⟨.stat new, r⟩

theorem checked_inv {w0 : ω} {ls : List (Label ω H)} {p : TProc ω H} (hr : TRun host user rootPath w0 ls p) (i : Nat) :
    RenamesChecked (callsOf i ls) ∧
    ∀ c, p.thr[i]? = some c → ∀ q, c.running = some q →
      ∃ prev, (prev = none ∨ prev = (callsOf i ls).getLast?) ∧ CheckedAll prev q := by
  induction hr with
  | init => exact ⟨fun pre old new a post h => by simp [callsOf] at h, fun c h => by simp at h⟩
  | @step ls p l p' _ hs ih =>
    obtain ⟨h1, h2⟩ := ih
    have frame : callsOf i [l] = [] → (∀ c, p'.thr[i]? = some c → ∀ q, c.running = some q →
          ∃ prev, (prev = none ∨ prev = (callsOf i ls).getLast?) ∧ CheckedAll prev q) →
        RenamesChecked (callsOf i (ls ++ [l])) ∧ ∀ c, p'.thr[i]? = some c → ∀ q, c.running = some q →
          ∃ prev, (prev = none ∨ prev = (callsOf i (ls ++ [l])).getLast?) ∧ CheckedAll prev q := by
      intro h3 h4
      rw [callsOf_append, h3, List.append_nil]
      exact ⟨h1, h4⟩
    cases hs with
    | accept =>
      refine frame rfl fun c hc => ?_
      rw [List.getElem?_append] at hc
      split at hc
      · exact h2 c hc
      · have hm := List.mem_of_getElem? hc
        rw [List.mem_singleton] at hm
        subst hm
        exact fun q hq => by cases hq
    | @start j d t body spare hd hdead hrun =>
      refine frame rfl fun c hc q hq => ?_
      by_cases hji : j = i
      · subst hji
        rw [List.getElem?_set_self (List.getElem?_eq_some_iff.1 hd).1] at hc
        cases hc
        cases hq
        exact ⟨none, .inl rfl, checked_dispatch _ _ _ _ _⟩
      · rw [List.getElem?_set_ne hji] at hc
        exact h2 c hc q hq
    | @call j d x k hd hrun =>
      by_cases hji : j = i
      · subst hji
        obtain ⟨prev, hp, hx⟩ := h2 d hd _ hrun
        rw [callsOf_append, show callsOf j [Label.call (ω := ω) j ⟨x, (host.exec x p.world).2⟩] = [⟨x, (host.exec x p.world).2⟩] from by simp [callsOf]]
        refine ⟨?_, fun c hc q hq => ?_⟩
        · intro pre old new a post h
          rcases List.eq_nil_or_concat post with rfl | ⟨post, e, rfl⟩
          · obtain ⟨h8, h9⟩ := List.append_inj' h rfl
            have h10 := (List.cons.inj h9).1
            subst h8
            obtain ⟨r, hr1, hr2⟩ : Checked prev (HCall.rename old new : HCall H) := by
              have := congrArg Sigma.fst h10
              dsimp only at this
              rw [← this]
              exact hx.1
            rcases hp with rfl | rfl
            · cases hr2
            · exact ⟨r, hr1, hr2⟩
          · rw [List.concat_eq_append, ← List.cons_append, ← List.append_assoc] at h
            obtain ⟨h, _⟩ := List.append_inj' h rfl
            exact h1 pre old new a post h
        · rw [List.getElem?_set_self (List.getElem?_eq_some_iff.1 hd).1] at hc
          cases hc
          cases hq
          exact ⟨_, .inr (by simp), hx.2 _⟩
      · refine frame (by simp [callsOf, hji]) fun c hc => ?_
        rw [List.getElem?_set_ne hji] at hc
        exact h2 c hc
    | @reply j d o v b written hd hrun =>
      refine frame rfl fun c hc q hq => ?_
      by_cases hji : j = i
      · subst hji
        rw [List.getElem?_set_self (List.getElem?_eq_some_iff.1 hd).1] at hc
        cases hc
        unfold Thr.replied at hq
        cases written <;> cases hq
      · rw [List.getElem?_set_ne hji] at hc
        exact h2 c hc q hq
    | @hangup j d hd hrun =>
      refine frame rfl fun c hc q hq => ?_
      by_cases hji : j = i
      · subst hji
        rw [List.getElem?_set_self (List.getElem?_eq_some_iff.1 hd).1] at hc
        cases hc
        exact h2 d hd q hq
      · rw [List.getElem?_set_ne hji] at hc
        exact h2 c hc q hq
    | other w => exact frame rfl h2

/-- C81 (not true as stated, see `C81_counterexample`): the last call that a connection makes before a rename is a
stat of the new name, and the answer was not a directory. -/
theorem C81_checked_partial {w0 : ω} {ls : List (Label ω H)} {p : TProc ω H} (hr : TRun host user rootPath w0 ls p) {i : Nat}
    {pre post : List (Ev H)} {old new : GoString} {a : Option GoString} (hc : callsOf i ls = pre ++ ⟨.rename old new, a⟩ :: post) :
    ∃ r : Except GoString FileInfo, pre.getLast? = some ⟨.stat new, r⟩ ∧ ∀ st, r = .ok st → st.isDir = false := by
  obtain ⟨r, h1, h2⟩ := (checked_inv host user rootPath hr i).1 pre old new a post hc
  exact ⟨r, h2, fun st h => by subst h; exact h1⟩

theorem Executed.split {w0 w : ω} {as bs : List (Label ω H)} (h : Executed host w0 (as ++ bs) w) :
    ∃ w1, Executed host w0 as w1 ∧ Executed host w1 bs w := by
  induction as generalizing w0 with
  | nil => exact ⟨w0, .nil, h⟩
  | cons l as ih =>
    rw [List.cons_append] at h
    cases h with
    | call h => obtain ⟨w1, h1, h2⟩ := ih h; exact ⟨w1, .call h1, h2⟩
    | other h => obtain ⟨w1, h1, h2⟩ := ih h; exact ⟨w1, .other h1, h2⟩
    | skip h3 h4 h => obtain ⟨w1, h1, h2⟩ := ih h; exact ⟨w1, .skip h3 h4 h1, h2⟩

theorem Executed.call_inv {w w' : ω} {i : Nat} {e : Ev H} {ls : List (Label ω H)} (h : Executed host w (.call i e :: ls) w') :
    e.2 = (host.exec e.1 w).2 ∧ Executed host (host.exec e.1 w).1 ls w' := by
  cases h with
  | call h => exact ⟨rfl, h⟩
  | skip h => exact absurd rfl (h _ _)

/-- C81, the case that holds: if the rename is the next thing that happens after the look at its target, and
looking changes nothing, then the target is not a directory. -/
theorem C81_alone_partial (hq : host.Quiet) {w0 : ω} {ls1 ls2 : List (Label ω H)} {p : TProc ω H} {i : Nat} {e : Ev H}
    {old new : GoString} {a : Option GoString}
    (hr : TRun host user rootPath w0 (ls1 ++ .call i e :: .call i ⟨.rename old new, a⟩ :: ls2) p) :
    ∃ w, Executed host w0 ls1 w ∧ a = (host.rename old new w).2 ∧ ∀ st, (host.stat new w).2 = .ok st → st.isDir = false := by
  obtain ⟨r, h1, h2⟩ := C81_checked_partial host user rootPath hr (i := i) (pre := callsOf i (ls1 ++ [.call i e])) (old := old) (new := new) (a := a)
    (post := callsOf i ls2) (by simp [callsOf_append, callsOf])
  obtain ⟨w, h3, h4⟩ := (C79_world host user rootPath hr).split host
  obtain ⟨h5, h6⟩ := h4.call_inv host
  obtain ⟨h7, -⟩ := h6.call_inv host
  simp only [callsOf_append, callsOf, if_true, List.getLast?_append, List.getLast?_singleton, Option.some_or, Option.some.injEq] at h1
  subst h1
  dsimp only [Host.exec] at h5 h7
  rw [hq.stat] at h7
  exact ⟨w, h3, h7, fun st hs => h2 st (h5.trans hs)⟩

end

/-! ### examples -/

open Mem

/-- connection 0 renames the directory "/x/d" to "e"; after it has seen that there is nothing of that name,
connection 1 makes a directory "/x/e" and is told so; then connection 0 goes on -/
def renameRace : List (Choice Mem.World) :=
  both ++ whole 0 (.walk { SFID := 0, NewFID := 1, Paths := [[100]] }) 1 ++
  [.start 0 (.wstat { OFID := 1, B := Spec.dir (renameDir [101]) }), .go 0] ++
  whole 1 (.create { OFID := 0, Name := [101], CreatePerm := 0x800001ed, Omode := 0 }) 2

/-- the rename of "/x/d" to "/x/e", with success -/
def theRename : Label Mem.World Nat → Bool
  | .call 0 ⟨.rename old new, none⟩ => old = [47, 120, 47, 100] ∧ new = [47, 120, 47, 101]
  | _ => false

theorem theRename_eq {l : Label Mem.World Nat} (h : theRename l = true) :
    l = .call 0 ⟨.rename [47, 120, 47, 100] [47, 120, 47, 101], none⟩ := by
  unfold theRename at h
  split at h
  · rename_i old new
    have h := of_decide_eq_true h
    rw [h.1, h.2]
  · cases h

/-- C81 does not hold: a directory that another connection makes between the look and the rename is replaced, and
both clients are told that their requests succeeded -/
theorem C81_counterexample : ∃ ls w st p, Executed Mem.host world0 ls w ∧ (Mem.host.stat [47, 120, 47, 101] w).2 = .ok st ∧ st.isDir = true ∧
    TRun Mem.host [103] [47, 120] world0 (ls ++ [.call 0 ⟨.rename [47, 120, 47, 100] [47, 120, 47, 101], none⟩, .reply 0 true]) p ∧
    p.world.names.map (·.2) = [0, 1, 3, 4, 2] ∧
    p.thr.map (fun c => c.out.getLast?) = [some [7, 0, 0, 0, 127, 7, 0],
      some [24, 0, 0, 0, 115, 7, 0, 128, 64, 66, 15, 0, 5, 0, 0, 0, 0, 0, 0, 0, 64, 31, 0, 0]] := by
  have h1 : ((sched renameRace).bind fun r => match (Mem.host.stat [47, 120, 47, 101] r.2.world).2 with | .ok st => some st.isDir | .error _ => none) = some true := by
    decide +kernel
  have h2 : ((sched renameRace).bind fun r => (choose Mem.host [103] [47, 120] r.2 (.go 0)).map fun r2 => theRename r2.1) = some true := by
    decide +kernel
  have h3 : ((sched renameRace).bind fun r => (choose Mem.host [103] [47, 120] r.2 (.go 0)).bind fun r2 =>
      (choose Mem.host [103] [47, 120] r2.2 (.go 0)).map fun r3 => (match r3.1 with | .reply 0 true => true | _ => false, r3.2.world.names.map (·.2),
        r3.2.thr.map fun c => c.out.getLast?)) = some (true, [0, 1, 3, 4, 2], [some [7, 0, 0, 0, 127, 7, 0],
      some [24, 0, 0, 0, 115, 7, 0, 128, 64, 66, 15, 0, 5, 0, 0, 0, 0, 0, 0, 0, 64, 31, 0, 0]]) := by
    decide +kernel
  cases hs : sched renameRace with
  | none => rw [hs] at h1; cases h1
  | some r =>
    obtain ⟨ls, p1⟩ := r
    rw [hs] at h1 h2 h3
    simp only [Option.bind_some] at h1 h2 h3
    have hr := schedule_run Mem.host [103] [47, 120] hs
    cases hc : choose Mem.host [103] [47, 120] p1 (.go 0) with
    | none => rw [hc] at h2; cases h2
    | some r2 =>
      obtain ⟨l2, p2⟩ := r2
      rw [hc] at h2 h3
      simp only [Option.map_some, Option.some.injEq] at h2
      simp only [Option.bind_some] at h3
      have h4 := theRename_eq h2
      subst h4
      have hr2 := hr.step (choose_sound _ _ _ hc)
      cases hd : choose Mem.host [103] [47, 120] p2 (.go 0) with
      | none => rw [hd] at h3; cases h3
      | some r3 =>
        obtain ⟨l3, p3⟩ := r3
        rw [hd] at h3
        simp only [Option.map_some, Option.some.injEq, Prod.mk.injEq] at h3
        obtain ⟨h5, h6, h7⟩ := h3
        split at h5
        · have hr3 := hr2.step (choose_sound _ _ _ hd)
          rw [List.append_assoc] at hr3
          split at h1
          · rename_i st hst
            exact ⟨ls, p1.world, st, p3, C79_world _ _ _ hr, hst, Option.some.inj h1, hr3, h6, h7⟩
          · cases h1
        · cases h5

/-- the hypotheses of `C81_alone_partial`: without the interruption, the rename is right behind the stat -/
example : (sched (both ++ whole 0 (.walk { SFID := 0, NewFID := 1, Paths := [[100]] }) 1 ++
    whole 0 (.wstat { OFID := 1, B := Spec.dir (renameDir [101]) }) 2)).map (fun r => (r.1.reverse.take 3).map fun l =>
      match l with | .call 0 ⟨.stat _, _⟩ => 1 | .call 0 ⟨.rename _ _, none⟩ => 2 | .reply 0 true => 3 | _ => 0) =
    some [3, 2, 1] := by decide +kernel

/-- a well-formed packet asks for its message -/
theorem asks_body {m m' : TMsg} (hm : m.Fits) {tag : Tag} {spare : Bytes} (h : PacketAsks m.ty ⟨[], m.body tag, spare⟩ m') : m' = m := by
  obtain ⟨m0, tg, e, b', h0, h1⟩ := h
  have h2 := decodeT_ty m0
  rw [h0, decodeT_ty m] at h2
  rw [← Option.some.inj h2, (lawsT m).fwd hm [] spare tag] at h1
  cases h1
  rfl

theorem schedule_if {ω H : Type} (host : Host ω H) (user rootPath : GoString) {w0 : ω} {ls0 ls : List (Label ω H)} {p p' : TProc ω H}
    {chs : List (Choice ω)} (h0 : TRunIf host user rootPath TamePacket w0 ls0 p)
    (hm : ∀ i m, Choice.start i m ∈ chs → m.Fits ∧ ∀ o : Obj H, Tame o m) (h : schedule host user rootPath p chs = some (ls, p')) :
    TRunIf host user rootPath TamePacket w0 (ls0 ++ ls) p' := by
  induction chs generalizing p ls ls0 with
  | nil => cases h; simpa using h0
  | cons ch chs ih =>
    unfold schedule at h
    split at h
    · cases h
    · rename_i l p1 h1
      split at h
      · cases h
      · rename_i ls1 p2 h2
        cases h
        have := ih (h0.step (choose_sound host user rootPath h1) ?_) (fun i m hi => hm i m (.tail _ hi)) h2
        · simpa using this
        · intro i t body spare c hl hc m' ha
          cases ch with
          | start j m =>
            unfold choose at h1
            dsimp only at h1
            split at h1
            · cases h1
              cases hl
              have := hm i m (.head _)
              rw [asks_body this.1 ha]
              exact this.2 _
            · cases h1
          | go j =>
            unfold choose at h1
            dsimp only at h1
            split at h1 <;> cases h1 <;> cases hl
          | hangup j =>
            unfold choose at h1
            dsimp only at h1
            split at h1 <;> cases h1
            cases hl
          | accept => cases h1; cases hl
          | other w => cases h1; cases hl

/-- C39: the hypotheses of `C39_calls_partial`, with overlapping walks -/
example : ∃ ls p, TRunIf Mem.host [103] [47, 120] TamePacket world0 ls p ∧ (callsOf 0 ls).length = 2 ∧ (callsOf 1 ls).length = 2 := by
  have h : (sched overlap).map (fun r => ((callsOf 0 r.1).length, (callsOf 1 r.1).length)) = some (2, 2) := by decide +kernel
  cases hs : sched overlap with
  | none => rw [hs] at h; cases h
  | some r =>
    obtain ⟨ls, p⟩ := r
    rw [hs] at h
    simp only [Option.map_some, Option.some.injEq, Prod.mk.injEq] at h
    have := schedule_if Mem.host [103] [47, 120] .init (by
      have hw : walk1.Fits ∧ ∀ o : Obj Nat, Tame o walk1 := by
        refine ⟨by simp [walk1, TMsg.Fits], fun o n hn => ?_⟩
        simp only [List.mem_singleton] at hn
        subst hn
        exact noUp_elem (by simp) (by decide) (by decide)
      have ha : attach0.Fits ∧ ∀ o : Obj Nat, Tame o attach0 := ⟨by simp [attach0, TMsg.Fits], fun o => trivial⟩
      have hv : version0.Fits ∧ ∀ o : Obj Nat, Tame o version0 := ⟨by simp [version0, TMsg.Fits, lit]; decide, fun o => trivial⟩
      intro i m hi
      simp [overlap, both, whole, List.replicate] at hi
      rcases hi with ⟨-, rfl⟩ | ⟨-, rfl⟩ | ⟨-, rfl⟩ | ⟨-, rfl⟩ | ⟨-, rfl⟩ | ⟨-, rfl⟩ <;> assumption) hs
    exact ⟨ls, p, by simpa using this, h⟩

end Ninep.Ufs
