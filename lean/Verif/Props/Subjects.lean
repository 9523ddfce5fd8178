import Verif.Props.Effects
/-
However calls of goroutines that share a `FileServer` overlap: a call of the operating system is about the file that the fid of the request
stood for at a moment of the call.
-/

namespace Ninep.Ufs.Shared
open Spec

section
variable {ω H : Type} {user rootPath : GoString} {iounit : MaxSize} {host : Host ω H} {w0 : ω}

/-! ### The statement -/

/-- At a moment after the last call of goroutine `g` began the memory had `P`. -/
def OnceMem (user rootPath : GoString) (iounit : MaxSize) (host : Host ω H) (w0 : ω) (g : Nat) (ls : List (SLabel ω H))
    (P : SMem H → Prop) : Prop :=
  ∃ ls1 ls2 s, ls = ls1 ++ ls2 ∧ SRun user rootPath iounit host w0 ls1 s ∧ (∀ m, SLabel.begin g m ∉ ls2) ∧ P s.mem

/-- At a moment of the call the fid had a structure, and at a moment of the call the structure had this path. -/
def WasNamed (user rootPath : GoString) (iounit : MaxSize) (host : Host ω H) (w0 : ω) (g : Nat) (ls : List (SLabel ω H)) (f : FID) (n : GoString) : Prop :=
  ∃ p, OnceMem user rootPath iounit host w0 g ls (fun m => m.files f = some p) ∧
    OnceMem user rootPath iounit host w0 g ls (fun m => (m.heap p).fullName = n)

/-- At a moment of the call the fid had a structure, and at a moment of the call the structure had this open file. -/
def WasOpen (user rootPath : GoString) (iounit : MaxSize) (host : Host ω H) (w0 : ω) (g : Nat) (ls : List (SLabel ω H)) (f : FID) (h : H) : Prop :=
  ∃ p, OnceMem user rootPath iounit host w0 g ls (fun m => m.files f = some p) ∧
    OnceMem user rootPath iounit host w0 g ls (fun m => (m.heap p).file = some h)

/-- What the calls for a request are about, if its fid has these paths and these open files. -/
def On (rootPath : GoString) (named : GoString → Prop) (opened : H → Prop) : TMsg → HCall H → Prop
  | .walk q, .lstat n => ∃ b k, named b ∧ 0 < k ∧ k ≤ q.Paths.length ∧ n = (q.Paths.take k).foldl pathJoin b
  | .open_ _, .openFile n _ _ => named n
  | .create q, .openFile n _ _ => ∃ b, named b ∧ n = pathJoin b q.Name
  | .create q, .mkdir n _ => ∃ b, named b ∧ n = pathJoin b q.Name
  | .create q, .lstat n => ∃ b, named b ∧ n = pathJoin b q.Name
  | .stat _, .lstat n => named n
  | .wstat _, .chmod n _ => named n
  | .wstat q, .stat n => named n ∨ ∃ b dir, named b ∧ Wants q dir ∧ n = renameTo rootPath b dir.Name
  | .wstat q, .rename n n' => named n ∧ ∃ b dir, named b ∧ Wants q dir ∧ n' = renameTo rootPath b dir.Name
  | .wstat _, .truncate n _ => named n
  | .wstat _, .chtimes n _ _ => named n
  | .wstat _, .sync h => opened h
  | .clunk _, .close h => opened h
  | .remove _, .close h => opened h
  | .remove _, .remove n => named n
  | .read _, .seek0 h => opened h
  | .read _, .readdir1 h => opened h
  | .read _, .readAt h _ _ => opened h
  | .write _, .writeAt h _ _ => opened h
  | _, _ => False

/-! ### Programs -/

/-- what a goroutine knows of the memory -/
inductive Fact (H : Type) where
  | points (f : FID) (p : Ptr)
  | name (p : Ptr) (n : GoString)
  | file (p : Ptr) (h : H)

/-- what a step of a goroutine tells it of the memory -/
def learns : (c : MOp H) → c.Ans → List (Fact H)
  | .lookup f, some p => [.points f p]
  | .load p .name, n => [.name p n]
  | .load p .file, some h => [.file p h]
  | _, _ => []

/-- the calls have `S` with what the program knows when they are made, and the result has `Q` -/
def MProg.Knows {α : Type} (S : List (Fact H) → HCall H → Prop) (Q : List (Fact H) → α → Prop) : List (Fact H) → MProg H α → Prop
  | l, .ret a => Q l a
  | _, .panic => True
  | l, .op c k => ∀ a, (k a).Knows S Q (l ++ learns c a)
  | l, .host c k => S l c ∧ ∀ a, (k a).Knows S Q l

theorem MProg.Knows.bind {α β : Type} {S : List (Fact H) → HCall H → Prop} {Q : List (Fact H) → α → Prop} {R : List (Fact H) → β → Prop}
    {p : MProg H α} {f : α → MProg H β} {l : List (Fact H)} (hp : p.Knows S Q l) (hf : ∀ l a, Q l a → (f a).Knows S R l) :
    (p.bind f).Knows S R l := by
  induction p generalizing l with
  | ret a => exact hf l a hp
  | panic => trivial
  | op c k ih => exact fun a => ih a (hp a)
  | host c k ih => exact ⟨hp.1, fun a => ih a (hp.2 a)⟩

def NameOf (f : FID) (l : List (Fact H)) (n : GoString) : Prop := ∃ p, Fact.points f p ∈ l ∧ Fact.name p n ∈ l
def FileOf (f : FID) (l : List (Fact H)) (h : H) : Prop := ∃ p, Fact.points f p ∈ l ∧ Fact.file p h ∈ l

/-- what the calls for a request with the fid `f` are about -/
abbrev About (rootPath : GoString) (f : FID) (m : TMsg) (l : List (Fact H)) (c : HCall H) : Prop := On rootPath (NameOf f l) (FileOf f l) m c

/-- the structure is known -/
abbrev Has {α : Type} (f : FID) (p : Ptr) (l : List (Fact H)) (_ : α) : Prop := Fact.points f p ∈ l

abbrev Done {α : Type} (_ : List (Fact H)) (_ : α) : Prop := True

section
variable {f : FID} {p : Ptr} {l : List (Fact H)}

theorem keep (h : Fact.points f p ∈ l) (l' : List (Fact H)) : Fact.points f p ∈ l ++ l' := List.mem_append_left _ h

theorem name_known (h : Fact.points f p ∈ l) (n : GoString) : NameOf f (l ++ [.name p n]) n := ⟨p, keep h _, by simp⟩

theorem file_known (h : Fact.points f p ∈ l) (x : H) : FileOf f (l ++ [.file p x]) x := ⟨p, keep h _, by simp⟩

theorem NameOf.keep {n : GoString} (h : NameOf f l n) (l' : List (Fact H)) : NameOf f (l ++ l') n :=
  h.elim fun p h => ⟨p, List.mem_append_left _ h.1, List.mem_append_left _ h.2⟩

end

theorem knows_asReply {α : Type} {g : α → RMsg} {S : List (Fact H) → HCall H → Prop} {p : MMet H α} {l : List (Fact H)} (hp : p.Knows S Done l) :
    (mAsReply g p).Knows S Done l :=
  hp.bind fun l a h => by cases a <;> trivial

theorem knows_withFile {α : Type} {f : FID} {S : List (Fact H) → HCall H → Prop} {k : Ptr → MMet H α}
    (hk : ∀ p l, Fact.points f p ∈ l → (k p).Knows S Done l) : (withFile f k).Knows S Done [] := by
  intro _ r _
  cases r with
  | none => trivial
  | some p => exact hk p _ (by simp [learns])

theorem knows_walkLoop {f : FID} {q : TwalkPkt} {b : GoString} : ∀ (done names : List GoString) {l : List (Fact H)}, done ++ names = q.Paths →
    NameOf f l b → (MProg.ofProg (pwalkLoop (done.foldl pathJoin b) names)).Knows (About rootPath f (.walk q)) Done l := by
  intro done names
  induction names generalizing done with
  | nil => exact fun _ _ => trivial
  | cons n ns ih =>
    intro l hq hb
    have e : pathJoin (done.foldl pathJoin b) n = (done ++ [n]).foldl pathJoin b := by simp
    refine ⟨⟨b, done.length + 1, hb, Nat.succ_pos _, by rw [← hq]; simp, ?_⟩, fun a => ?_⟩
    · rw [← hq, e]
      congr 1
      rw [show done ++ n :: ns = (done ++ [n]) ++ ns by simp, List.take_left' (by simp)]
    · cases a with
      | error _ => trivial
      | ok st =>
        show (MProg.ofProg ((pwalkLoop (pathJoin (done.foldl pathJoin b) n) ns).bind fun r => .ret (fileInfoToQID st :: r.1, r.2))).Knows _ _ _
        rw [ofProg_bind _ fun r : List QID × Option GoString => (fileInfoToQID st :: r.1, r.2), e]
        exact (ih (done ++ [n]) (by simpa using hq) hb).bind fun _ _ _ => trivial

theorem knows_clunkFile {f : FID} {m : TMsg} (hS : ∀ (l : List (Fact H)) h, FileOf f l h → About rootPath f m l (.close h)) :
    (mclunkFile f : MMet H Ptr).Knows (About rootPath f m) (fun l r => ∀ p, r = .ok p → Fact.points f p ∈ l) [] := by
  intro _ r
  cases r with
  | none => exact fun _ => nofun
  | some p =>
    have h0 : ∀ l' : List (Fact H), Fact.points f p ∈ ([] ++ learns (H := H) .lock () ++ learns (H := H) (.lookup f) (some p)) ++ l' :=
      fun l' => by simp [learns]
    intro _ x
    cases x with
    | none => exact fun _ p' hp => by cases hp; simp [learns]
    | some _ =>
      intro x
      cases x with
      | none => exact fun _ _ p' hp => by cases hp; simp [learns]
      | some h =>
        refine ⟨hS _ h ⟨p, by simp [learns], by simp [learns]⟩, fun a => ?_⟩
        cases a with
        | none => exact fun _ p' hp => by cases hp; simp [learns]
        | some _ => exact fun _ _ p' hp => by cases hp; simp [learns]

theorem knows_andThen {f : FID} {p : Ptr} {S : List (Fact H) → HCall H → Prop} {l : List (Fact H)} {r k : MProg H (Option GoString)}
    (hr : r.Knows S (Has f p) l) (hk : ∀ l, Fact.points f p ∈ l → k.Knows S (Has f p) l) : (mAndThen r k).Knows S (Has f p) l :=
  hr.bind fun l o h => by
    cases o with
    | some e => exact h
    | none => exact hk l h

theorem knows_wstat (q : TwstatPkt) : (mwstat rootPath q.OFID q.B : MMet H Unit).Knows (About rootPath q.OFID (.wstat q)) Done [] := by
  refine knows_withFile fun p l hl => ?_
  split
  · trivial
  · trivial
  · rename_i dir t b hd
    have hw : Wants q dir := ⟨t, b, hd⟩
    refine MProg.Knows.bind (Q := Has q.OFID p) ?_ fun l o h => by cases o <;> trivial
    refine knows_andThen ?_ fun l hl => knows_andThen ?_ fun l hl => knows_andThen ?_ fun l hl => knows_andThen ?_ fun l hl =>
      knows_andThen ?_ fun l hl => ?_
    · unfold mwstatMode
      split
      · exact fun n => ⟨name_known hl n, fun _ => keep hl _⟩
      · exact hl
    · unfold mwstatUser
      split <;> exact hl
    · unfold mwstatName
      split
      · refine fun n => ⟨.inr ⟨n, dir, name_known hl n, hw, rfl⟩, fun a => ?_⟩
        dsimp only
        split
        · exact keep hl _
        · refine fun n' => ⟨⟨name_known (keep hl _) n', n, dir, (name_known hl n).keep _, hw, rfl⟩, fun a => ?_⟩
          cases a with
          | some _ => exact keep (keep hl _) _
          | none => exact fun _ => keep (keep (keep hl _) _) _
      · exact hl
    · unfold mwstatLength
      split
      · exact fun n => ⟨name_known hl n, fun _ => keep hl _⟩
      · exact hl
    · unfold mwstatTimes
      split
      · split
        · refine fun n => ⟨.inl (name_known hl n), fun a => ?_⟩
          cases a with
          | error _ => exact keep hl _
          | ok st => exact fun n' => ⟨name_known (keep hl _) n', fun _ => keep (keep hl _) _⟩
        · exact fun n => ⟨name_known hl n, fun _ => keep hl _⟩
      · exact hl
    · unfold mwstatSync
      split
      · exact hl
      · intro x
        cases x with
        | none => exact keep hl _
        | some _ =>
          intro x
          cases x with
          | none => exact keep (keep hl _) _
          | some h => exact ⟨file_known (keep hl _) h, fun _ => keep (keep hl _) _⟩

theorem knows_readDir {q : TreadPkt} {p : Ptr} {l : List (Fact H)} (hl : Fact.points q.OFID p ∈ l) :
    (mreadDir user p q.Len : MMet H Bytes).Knows (About rootPath q.OFID (.read q)) Done l := by
  intro b _
  unfold mreadDirFrom
  split
  · exact fun _ => trivial
  · intro x
    cases x with
    | none => trivial
    | some h =>
      refine ⟨file_known (keep (keep hl _) _) h, fun a => ?_⟩
      cases a with
      | eof => trivial
      | fail e => trivial
      | entry st => dsimp only; split <;> trivial

theorem knows_call {m : TMsg} {f : FID} (hf : workFid m = some f) :
    (mcall user rootPath iounit m : MMet H RMsg).Knows (About rootPath f m) Done [] := by
  cases m with
  | version q => cases hf
  | attach q => cases hf
  | flush q => cases hf
  | walk q =>
    cases hf
    refine knows_asReply (knows_withFile fun p l hl => ?_)
    split
    · intro _ r
      cases r with
      | some _ => exact fun _ => trivial
      | none => exact fun _ _ _ _ _ _ _ => trivial
    · refine fun n => (knows_walkLoop [] q.Paths rfl (name_known hl n)).bind fun l r _ => ?_
      obtain ⟨qs, o⟩ := r
      cases o with
      | none => dsimp only; split <;> trivial
      | some path =>
        intro _
        split
        · intro r
          cases r with
          | some _ => exact fun _ => trivial
          | none => exact fun _ _ _ => trivial
        · exact fun _ _ _ => trivial
  | open_ q =>
    cases hf
    refine knows_asReply (knows_withFile fun p l hl n => ⟨name_known hl n, fun a => ?_⟩)
    cases a with
    | error e => exact fun _ => trivial
    | ok h => exact fun _ _ => trivial
  | create q =>
    cases hf
    refine knows_asReply (knows_withFile fun p l hl x => ?_)
    cases x with
    | some _ => trivial
    | none =>
      intro n
      have hn := name_known (keep hl (learns (H := H) (.load p .file) none)) n
      dsimp only
      split
      · refine ⟨⟨n, hn, rfl⟩, fun _ => ⟨⟨n, hn, rfl⟩, fun a => ?_⟩⟩
        cases a with
        | error e => trivial
        | ok st => exact fun _ _ => trivial
      · refine ⟨⟨n, hn, rfl⟩, fun a => ?_⟩
        cases a with
        | error e => trivial
        | ok h =>
          refine ⟨⟨n, hn, rfl⟩, fun a => ?_⟩
          cases a with
          | error e => trivial
          | ok st => exact fun _ _ _ => trivial
  | stat q =>
    cases hf
    refine knows_asReply (knows_withFile fun p l hl n => ⟨name_known hl n, fun a => ?_⟩)
    cases a <;> trivial
  | wstat q => cases hf; exact knows_asReply (knows_wstat q)
  | clunk q =>
    cases hf
    exact knows_asReply ((knows_clunkFile (m := .clunk q) fun _ _ h => h).bind fun _ r _ => by cases r <;> trivial)
  | remove q =>
    cases hf
    refine knows_asReply ((knows_clunkFile (m := .remove q) fun _ _ h => h).bind fun l r h => ?_)
    cases r with
    | error e => trivial
    | ok p =>
      refine fun n => ⟨name_known (h p rfl) n, fun a => ?_⟩
      cases a <;> trivial
  | read q =>
    cases hf
    refine knows_asReply (knows_withFile fun p l hl x => ?_)
    cases x with
    | none => trivial
    | some _ =>
      intro qid
      dsimp only
      unfold mreadAs
      split
      · split
        · intro _ x
          cases x with
          | none => trivial
          | some h =>
            refine ⟨file_known (keep (keep (keep hl _) _) _) h, fun a => ?_⟩
            cases a with
            | some e => trivial
            | none => exact knows_readDir (keep (keep (keep (keep hl _) _) _) _)
        · exact knows_readDir (keep (keep hl _) _)
      · split
        · trivial
        · intro x
          cases x with
          | none => trivial
          | some h =>
            refine ⟨file_known (keep (keep hl _) _) h, fun a => ?_⟩
            obtain ⟨d, e⟩ := a
            cases e <;> trivial
  | write q =>
    cases hf
    refine knows_asReply (knows_withFile fun p l hl x => ?_)
    cases x with
    | none => trivial
    | some _ =>
      intro x
      cases x with
      | none => trivial
      | some h =>
        refine ⟨file_known (keep hl _) h, fun a => ?_⟩
        obtain ⟨n, e⟩ := a
        cases e <;> trivial

/-! ### Executions -/

/-- a fact holds in a memory -/
def Fact.Holds (m : SMem H) : Fact H → Prop
  | .points f p => m.files f = some p
  | .name p n => (m.heap p).fullName = n
  | .file p h => (m.heap p).file = some h

/-- the facts that a goroutine knows held at moments of its call -/
def Knew (user rootPath : GoString) (iounit : MaxSize) (host : Host ω H) (w0 : ω) (g : Nat) (ls : List (SLabel ω H)) (l : List (Fact H)) : Prop :=
  ∀ x ∈ l, OnceMem user rootPath iounit host w0 g ls fun m => x.Holds m

theorem Knew.snoc {g : Nat} {ls : List (SLabel ω H)} {x : SLabel ω H} {l : List (Fact H)} (h : Knew user rootPath iounit host w0 g ls l)
    (hl : ∀ m, x ≠ .begin g m) : Knew user rootPath iounit host w0 g (ls ++ [x]) l := by
  intro y hy
  obtain ⟨ls1, ls2, s, rfl, hr, hb, hP⟩ := h y hy
  refine ⟨ls1, ls2 ++ [x], s, List.append_assoc _ _ _, hr, fun m hm => ?_, hP⟩
  rcases List.mem_append.1 hm with hm | hm
  · exact hb m hm
  · exact hl m (List.mem_singleton.1 hm).symm

theorem learns_holds {g : Nat} {m m' : SMem H} {c : MOp H} {a : c.Ans} (h : m.act g c = some (m', a)) : ∀ x ∈ learns c a, x.Holds m := by
  intro x hx
  cases c with
  | lookup f =>
    simp only [SMem.act] at h
    cases a with
    | none => cases hx
    | some p =>
      rw [List.mem_singleton.1 hx]
      injection h with h
      exact congrArg Prod.snd h
  | load p fl =>
    simp only [SMem.act] at h
    cases fl with
    | name => rw [List.mem_singleton.1 hx]; cases h; rfl
    | file =>
      cases a with
      | none => cases hx
      | some y =>
        rw [List.mem_singleton.1 hx]
        injection h with h
        exact congrArg Prod.snd h
    | qid => cases hx
    | oflow => cases hx
  | _ => cases hx

theorem knowing {m : TMsg} {S : List (Fact H) → HCall H → Prop} (hQ : (mcall user rootPath iounit m : MMet H RMsg).Knows S Done [])
    {ls : List (SLabel ω H)} {s : SSys ω H} (hr : SRun user rootPath iounit host w0 ls s) {g : Nat} {p : MMet H RMsg}
    (hp : s.run g = some (m, p)) : ∃ l, p.Knows S Done l ∧ Knew user rootPath iounit host w0 g ls l := by
  induction hr generalizing g p with
  | init => cases hp
  | @step ls s s' l c hr hs ih =>
    rcases step_cases hs with ⟨g', m', rfl, hrun, rfl⟩ | ⟨g', m', r, rfl, hrun, rfl⟩ | ⟨g', m', c, k, mem, a, rfl, hrun, ha, rfl⟩ |
      ⟨g', m', c, k, rfl, hrun, rfl⟩ | ⟨w, rfl, rfl⟩
    · simp only [SSys.setRun] at hp
      split at hp
      · cases hp
        exact ⟨[], hQ, nofun⟩
      · rename_i e
        obtain ⟨l, h1, h2⟩ := ih hp
        exact ⟨l, h1, h2.snoc fun m h => e (by cases h; rfl)⟩
    · simp only [SSys.setRun] at hp
      split at hp
      · cases hp
      · obtain ⟨l, h1, h2⟩ := ih hp
        exact ⟨l, h1, h2.snoc nofun⟩
    · simp only [SSys.setRun] at hp
      split at hp
      · rename_i e
        cases hp
        subst e
        obtain ⟨l, h1, h2⟩ := ih hrun
        refine ⟨_, h1 a, fun x hx => ?_⟩
        rcases List.mem_append.1 hx with hx | hx
        · exact (h2.snoc (x := .op _ c) nofun) x hx
        · exact ⟨ls, [.op _ c], s, rfl, hr, by simp, learns_holds ha x hx⟩
      · obtain ⟨l, h1, h2⟩ := ih hp
        exact ⟨l, h1, h2.snoc nofun⟩
    · simp only [SSys.setRun] at hp
      split at hp
      · rename_i e
        cases hp
        subst e
        obtain ⟨l, h1, h2⟩ := ih hrun
        exact ⟨l, h1.2 _, h2.snoc nofun⟩
      · obtain ⟨l, h1, h2⟩ := ih hp
        exact ⟨l, h1, h2.snoc nofun⟩
    · obtain ⟨l, h1, h2⟩ := ih hp
      exact ⟨l, h1, h2.snoc nofun⟩

theorem On.mono {N N' : GoString → Prop} {O O' : H → Prop} (hN : ∀ n, N n → N' n) (hO : ∀ h, O h → O' h) {m : TMsg} {c : HCall H}
    (h : On rootPath N O m c) : On rootPath N' O' m c := by
  cases m <;> cases c <;> first
    | exact h
    | exact hN _ h
    | exact hO _ h
    | exact h.imp fun b hb => ⟨hN _ hb.1, hb.2⟩
    | exact h.imp fun b hb => hb.imp fun k hk => ⟨hN _ hk.1, hk.2⟩
    | exact h.imp (hN _) fun h => h.imp fun b hb => hb.imp fun k hk => ⟨hN _ hk.1, hk.2⟩
    | exact ⟨hN _ h.1, h.2.imp fun b hb => hb.imp fun k hk => ⟨hN _ hk.1, hk.2⟩⟩

/-- C133: However calls overlap, a call of the operating system for a request with a fid is about a path, or an open file, that the fid had at a
moment of the call, or about the path that the request makes of such a path. -/
theorem C133_on {ls1 ls2 : List (SLabel ω H)} {s : SSys ω H} {g : Nat} {e : Ev H} {m : TMsg} {f : FID}
    (hr : SRun user rootPath iounit host w0 (ls1 ++ .call g e :: ls2) s) (hm : current g ls1 = some m) (hf : workFid m = some f) :
    On rootPath (WasNamed user rootPath iounit host w0 g ls1 f) (WasOpen user rootPath iounit host w0 g ls1 f) m e.1 := by
  obtain ⟨s1, s2, c, h1, h2⟩ := run_cut hr
  rcases step_cases h2 with ⟨_, _, h, _, _⟩ | ⟨_, _, _, h, _, _⟩ | ⟨_, _, _, _, _, _, h, _, _, _⟩ | ⟨g', m', c, k, h, hrun, _⟩ | ⟨_, h, _⟩ <;> cases h
  cases (doing h1 hrun).1.symm.trans hm
  obtain ⟨l, h, hl⟩ := knowing (knows_call hf) h1 hrun
  exact h.1.mono (fun n ⟨p, h1, h2⟩ => ⟨p, hl _ h1, hl _ h2⟩) (fun n ⟨p, h1, h2⟩ => ⟨p, hl _ h1, hl _ h2⟩)

end

/-! ### The hypotheses can be met -/

open Mem

/-- goroutine 0 asks for the entry of a fid; after it has looked up the fid goroutine 1 creates a file with it -/
def statCreate : List (Choice World) :=
  before ++ [.begin 0 (.stat { OFID := 0 })] ++ go 0 3 ++ whole 1 (.create { OFID := 0, Name := [97] }) ++ go 0 2

/-- goroutine 0 reads from a file that it has opened; after it has looked up the fid goroutine 1 opens the file again with the same fid -/
def readOpen : List (Choice World) :=
  before ++ whole 0 (.open_ { OFID := 1, Omode := 0 }) ++ [.begin 0 (.read { OFID := 1, Off := 0, Len := 2 })] ++ go 0 5 ++
  whole 1 (.open_ { OFID := 1, Omode := 0 }) ++ go 0 2

/-- the path of a call to look at a file, or the file of a call to read from it -/
def subject : SLabel World Nat → Option (Nat × (GoString ⊕ Nat))
  | .call g ⟨.lstat n, _⟩ => some (g, .inl n)
  | .call g ⟨.readAt h _ _, _⟩ => some (g, .inr h)
  | _ => none

theorem ends_lstat {ls : List (SLabel World Nat)} {g : Nat} {n : GoString} (h : ls.getLast?.bind subject = some (g, .inl n)) :
    ∃ a, ls = ls.dropLast ++ [.call g ⟨.lstat n, a⟩] := by
  rcases List.eq_nil_or_concat ls with rfl | ⟨x, l, rfl⟩
  · cases h
  · rw [List.concat_eq_append] at h ⊢
    rw [List.getLast?_concat] at h
    rw [List.dropLast_concat]
    change subject l = _ at h
    unfold subject at h
    split at h
    · cases h; exact ⟨_, rfl⟩
    · cases h
    · cases h

theorem ends_readAt {ls : List (SLabel World Nat)} {g : Nat} {x : Nat} (h : ls.getLast?.bind subject = some (g, .inr x)) :
    ∃ n off a, ls = ls.dropLast ++ [.call g ⟨.readAt x n off, a⟩] := by
  rcases List.eq_nil_or_concat ls with rfl | ⟨y, l, rfl⟩
  · cases h
  · rw [List.concat_eq_append] at h ⊢
    rw [List.getLast?_concat] at h
    rw [List.dropLast_concat]
    change subject l = _ at h
    unfold subject at h
    split at h
    · cases h
    · cases h; exact ⟨_, _, _, rfl⟩
    · cases h

/-- The hypotheses of `C133_on`: the path is not that which the fid had when the call began. -/
example : ∃ ls1 ls2 s a, SRun [103] [47, 120] 8192 host world0 (ls1 ++ .call 0 ⟨.lstat [47, 120, 47, 97], a⟩ :: ls2) s ∧
    current 0 ls1 = some (.stat { OFID := 0 }) ∧
    ((shared before).2.mem.files 0).map (fun p => ((shared before).2.mem.heap p).fullName) = some [47, 120] := by
  have h := shared_run statCreate
  obtain ⟨a, e⟩ := ends_lstat (ls := (shared statCreate).1) (g := 0) (n := [47, 120, 47, 97]) (by decide +kernel)
  rw [e] at h
  exact ⟨_, [], _, a, h, by decide +kernel⟩

/-- … and the open file is not that which the fid had. -/
example : ∃ ls1 ls2 s n off a, SRun [103] [47, 120] 8192 host world0 (ls1 ++ .call 0 ⟨.readAt 1 n off, a⟩ :: ls2) s ∧
    current 0 ls1 = some (.read { OFID := 1, Off := 0, Len := 2 }) ∧
    ((shared (before ++ whole 0 (.open_ { OFID := 1, Omode := 0 }))).2.mem.files 1).map (fun p =>
      ((shared (before ++ whole 0 (.open_ { OFID := 1, Omode := 0 }))).2.mem.heap p).file) = some (some 0) := by
  have h := shared_run readOpen
  obtain ⟨n, off, a, e⟩ := ends_readAt (ls := (shared readOpen).1) (g := 0) (x := 1) (by decide +kernel)
  rw [e] at h
  exact ⟨_, [], _, n, off, a, h, by decide +kernel⟩

end Ninep.Ufs.Shared
