import Verif.Props.Bounds
import Verif.Props.Means
/-
However calls of goroutines that share a `FileServer` overlap: every call of the operating system belongs to the request that its goroutine is
working on, and is one that this request stands for; and the reply to a request tells what its own call of the operating system returned, not
that of another goroutine.
-/

namespace Ninep.Ufs.Shared
open Spec

section
variable {ω H : Type} {user rootPath : GoString} {iounit : MaxSize} {host : Host ω H} {w0 : ω}

/-! ### The statement -/

/-- The calls of the operating system that a request stands for, but for their paths (see `C128_below`) and open files. -/
def Stands (rootPath : GoString) : TMsg → HCall H → Prop
  | .attach _, .stat p => Below (rootOf rootPath) p
  | .walk q, .lstat _ => q.Paths ≠ []
  | .open_ q, .openFile _ flags perm => perm = 0 ∧ flags &&& O_CREATE = 0 ∧ (q.Omode &&& OTRUNC = 0 → flags &&& O_TRUNC = 0) ∧
      (q.Omode &&& 3 = OREAD ∨ q.Omode &&& 3 = OEXEC → flags &&& 3 = O_RDONLY)
  | .create q, .mkdir _ perm => q.CreatePerm &&& DMDIR ≠ 0 ∧ perm = q.CreatePerm &&& 0o777
  | .create q, .openFile _ flags perm => q.CreatePerm &&& DMDIR = 0 ∧ perm = q.CreatePerm &&& 0o777 ∧ flags = modeToUnixFlags q.Omode ||| O_CREATE ||| O_TRUNC
  | .create _, .lstat _ => True
  | .clunk _, .close _ => True
  | .remove _, .close _ => True
  | .remove _, .remove _ => True
  | .stat _, .lstat _ => True
  | .wstat q, .chmod _ perm => ∃ dir, Wants q dir ∧ dir.Mode ≠ 0xFFFFFFFF ∧ perm = dir.Mode &&& 0o777
  | .wstat q, .rename _ _ => ∃ dir, Wants q dir ∧ Ufs.Owned dir ∧ dir.Name ≠ []
  | .wstat q, .stat _ => ∃ dir, Wants q dir ∧ Ufs.Owned dir
  | .wstat q, .truncate _ size => ∃ dir, Wants q dir ∧ Ufs.Owned dir ∧ dir.Length ≠ 0xFFFFFFFFFFFFFFFF ∧ size = dir.Length.toInt64
  | .wstat q, .chtimes _ atime mtime => ∃ dir, Wants q dir ∧ Ufs.Owned dir ∧ (dir.Mtime ≠ 0xFFFFFFFF ∨ dir.Atime ≠ 0xFFFFFFFF) ∧
      atime = ⟨dir.Atime.toNat, 0⟩ ∧ (dir.Mtime ≠ 0xFFFFFFFF → mtime = ⟨dir.Mtime.toNat, 0⟩)
  | .wstat q, .sync _ => ∃ dir, Wants q dir ∧ dir.Mode = 0xFFFFFFFF ∧ dir.Name = [] ∧ dir.Length = 0xFFFFFFFFFFFFFFFF ∧
      dir.Mtime = 0xFFFFFFFF ∧ dir.Atime = 0xFFFFFFFF
  | .read q, .seek0 _ => q.Off = 0
  | .read _, .readdir1 _ => True
  | .read q, .readAt _ n off => (n : Int) = q.Len.toInt ∧ off = q.Off.toInt64
  | .write q, .writeAt _ b off => b = q.Data ∧ off = q.Off.toInt64
  | _, _ => False

/-- the last call of the operating system that goroutine `g` has made for its request -/
def lastCall (g : Nat) (ls : List (SLabel ω H)) : Option (Ev H) :=
  ls.foldl (fun acc l => match l with
    | .begin g' _ => if g' = g then none else acc
    | .call g' e => if g' = g then some e else acc
    | _ => acc) none

/-- the call has failed; closing and syncing do not count -/
def Failed : Ev H → Prop
  | ⟨.chmod _ _, e⟩ => e ≠ none
  | ⟨.rename _ _, e⟩ => e ≠ none
  | ⟨.truncate _ _, e⟩ => e ≠ none
  | ⟨.chtimes _ _ _, e⟩ => e ≠ none
  | ⟨.stat _, .error _⟩ => True
  | _ => False

/-- What a reply that is not an error tells of the last call of the operating system that was made for the request. -/
def Answers (user : GoString) : TMsg → Option (Ev H) → RMsg → Prop
  | .version q, last, .version r => last = none ∧ q.TVersion = lit "9P2000" ∧ r = ⟨q.TMsize, q.TVersion⟩
  | .attach _, last, .attach _ => ∃ p st, last = some ⟨.stat p, .ok st⟩
  | .flush _, last, .flush _ => last = none
  | .walk q, last, .walk r => (q.Paths = [] → last = none ∧ r.QIDs = []) ∧ (q.Paths ≠ [] → r.QIDs ≠ [] ∧ r.QIDs.length ≤ q.Paths.length)
  | .open_ _, last, .open_ _ => ∃ p flags perm h, last = some ⟨.openFile p flags perm, .ok h⟩
  | .create _, last, .create r => ∃ p st, last = some ⟨.lstat p, .ok st⟩ ∧ r.OQID = fileInfoToQID st
  | .stat _, last, .stat r => ∃ p st, last = some ⟨.lstat p, .ok st⟩ ∧ r.B = Spec.dir (dirTo9p2000Dir user st)
  | .wstat _, last, .wstat _ => ∀ e, last = some e → ¬ Failed e
  | .clunk _, last, .clunk _ => ∀ e, last = some e → ∃ h a, e = ⟨.close h, a⟩
  | .remove _, last, .remove _ => ∃ p, last = some ⟨.remove p, none⟩
  | .read q, last, .read r => ∀ h n off d e, last = some ⟨.readAt h n off, (d, e)⟩ → (∀ t, e ≠ .fail t) ∧ r.Data = d.take q.Len.toInt.toNat
  | .write _, last, .write r => ∃ h b off n, last = some ⟨.writeAt h b off, (n, none)⟩ ∧ r.RLen = Int32.ofNat n
  | _, _, _ => False

/-- the calls of the operating system that goroutine `g` has made for its request -/
def ownCalls (g : Nat) (ls : List (SLabel ω H)) : List (Ev H) :=
  ls.foldl (fun acc l => match l with
    | .begin g' _ => if g' = g then [] else acc
    | .call g' e => if g' = g then acc ++ [e] else acc
    | _ => acc) []

/-- the QIDs of the files that were found -/
def found (es : List (Ev H)) : List QID := es.filterMap fun e => match e with | ⟨.lstat _, .ok st⟩ => some (fileInfoToQID st) | _ => none

/-- The calls look up the names one after the other, from one path on. -/
def Along (base : GoString) (names : List GoString) (es : List (Ev H)) : Prop :=
  es.map (·.1) = (List.range es.length).map fun k => HCall.lstat (reach base names (k + 1))

/-! ### Programs -/

/-- All calls of a program have `S`, and the result has `Q` with the last of them. -/
def MProg.Doing {α : Type} (S : HCall H → Prop) (Q : Option (Ev H) → α → Prop) : Option (Ev H) → MProg H α → Prop
  | last, .ret a => Q last a
  | _, .panic => True
  | last, .op _ k => ∀ a, (k a).Doing S Q last
  | _, .host c k => S c ∧ ∀ a, (k a).Doing S Q (some ⟨c, a⟩)

/-- a result that is not an error has `Q` -/
def Fine {α : Type} (Q : Option (Ev H) → α → Prop) : Option (Ev H) → Except GoString α → Prop
  | last, .ok a => Q last a
  | _, .error _ => True

section
variable {S : HCall H → Prop} {last : Option (Ev H)}

theorem MProg.Doing.bind {α β : Type} {Q : Option (Ev H) → α → Prop} {R : Option (Ev H) → β → Prop} {p : MProg H α} {f : α → MProg H β}
    (hp : p.Doing S Q last) (hf : ∀ last a, Q last a → (f a).Doing S R last) : (p.bind f).Doing S R last := by
  induction p generalizing last with
  | ret a => exact hf last a hp
  | panic => trivial
  | op c k ih => exact fun a => ih a (hp a)
  | host c k ih => exact ⟨hp.1, fun a => ih a (hp.2 a)⟩

theorem doing_asReply {α : Type} {f : α → RMsg} {p : MMet H α} {Q : Option (Ev H) → RMsg → Prop}
    (hp : p.Doing S (Fine fun last a => Q last (f a)) last) : (mAsReply f p).Doing S (Fine Q) last :=
  hp.bind fun last a h => by cases a <;> exact h

theorem doing_withFile {α : Type} {fid : FID} {k : Ptr → MMet H α} {Q : Option (Ev H) → α → Prop}
    (hk : ∀ p, (k p).Doing S (Fine Q) last) : (withFile fid k).Doing S (Fine Q) last := by
  intro _ r _
  cases r with
  | none => trivial
  | some p => exact hk p

theorem ofProg_bind {α β : Type} (q : Prog H α) (f : α → β) :
    MProg.ofProg (q.bind fun r => .ret (f r)) = (MProg.ofProg q).bind fun r => .ret (f r) := by
  induction q with
  | ret a => rfl
  | panic => rfl
  | call c k ih => simp only [Prog.bind, MProg.ofProg, MProg.bind, ih]

theorem doing_walkLoop (hS : ∀ p, S (.lstat p)) {names : List GoString} : ∀ {p : GoString} {last : Option (Ev H)},
    (MProg.ofProg (pwalkLoop p names)).Doing S (fun _ r => r.1.length ≤ names.length ∧ (r.2.isSome → r.1.length = names.length)) last := by
  induction names with
  | nil => exact fun {p last} => ⟨Nat.le_refl _, fun _ => rfl⟩
  | cons n ns ih =>
    intro p last
    refine ⟨hS _, fun a => ?_⟩
    cases a with
    | error e => exact ⟨Nat.zero_le _, nofun⟩
    | ok st =>
      show (MProg.ofProg ((pwalkLoop (pathJoin p n) ns).bind fun r => .ret (fileInfoToQID st :: r.1, r.2))).Doing S _ _
      rw [ofProg_bind _ fun r : List QID × Option GoString => (fileInfoToQID st :: r.1, r.2)]
      exact ih.bind fun last r hr => ⟨Nat.succ_le_succ hr.1, fun h => congrArg Nat.succ (hr.2 h)⟩

theorem doing_clunkFile (hS : ∀ h, S (.close h)) {fid : FID} :
    (mclunkFile fid : MMet H Ptr).Doing S (Fine fun last _ => ∀ e, last = some e → ∃ h a, e = ⟨.close h, a⟩) none := by
  intro _ r
  cases r with
  | none => exact fun _ => trivial
  | some p =>
    intro _ f
    cases f with
    | none => exact fun _ => nofun
    | some _ =>
      intro f
      cases f with
      | none => exact fun _ _ => nofun
      | some h =>
        refine ⟨hS h, fun a => ?_⟩
        cases a with
        | none => exact fun _ e he => ⟨h, _, (Option.some.inj he).symm⟩
        | some _ => exact fun _ _ e he => ⟨h, _, (Option.some.inj he).symm⟩

/-- what holds of the steps of a wstat -/
def Calm (last : Option (Ev H)) (r : Option GoString) : Prop := r = none → ∀ e, last = some e → ¬ Failed e

theorem doing_andThen {r k : MProg H (Option GoString)} (hr : r.Doing S Calm last)
    (hk : ∀ last, Calm last none → k.Doing S Calm last) : (mAndThen r k).Doing S Calm last := by
  refine hr.bind fun last o h => ?_
  cases o with
  | some e => exact nofun
  | none => exact hk last h

end

theorem doing_wstat (q : TwstatPkt) : (mwstat rootPath q.OFID q.B : MMet H Unit).Doing (Stands rootPath (.wstat q))
    (Fine fun last _ => ∀ e, last = some e → ¬ Failed e) none := by
  refine doing_withFile fun p => ?_
  split
  · trivial
  · trivial
  · rename_i dir t b hd
    have hw : Wants q dir := ⟨t, b, hd⟩
    refine MProg.Doing.bind (Q := Calm) ?_ fun last o h => by
      cases o with
      | none => exact h rfl
      | some e => trivial
    refine doing_andThen ?_ fun last hl => ?_
    · unfold mwstatMode
      split
      · rename_i h
        refine fun n => ⟨⟨dir, hw, h, rfl⟩, fun a ha e he => ?_⟩
        cases he
        exact fun h => h ha
      · exact fun _ => nofun
    · by_cases ho : Ufs.Owned dir
      · refine doing_andThen (by unfold mwstatUser; rw [if_neg (by simp [ho.1, ho.2])]; exact hl) fun last hl => ?_
        refine doing_andThen ?_ fun last hl => doing_andThen ?_ fun last hl => doing_andThen ?_ fun last hl => ?_
        · unfold mwstatName
          split
          · rename_i hn
            refine fun n => ⟨⟨dir, hw, ho⟩, fun a => ?_⟩
            dsimp only
            split
            · exact nofun
            · refine fun n' => ⟨⟨dir, hw, ho, hn⟩, fun a => ?_⟩
              cases a with
              | some e => exact nofun
              | none =>
                intro _ _ e he
                cases he
                exact fun h => h rfl
          · exact hl
        · unfold mwstatLength
          split
          · rename_i h
            refine fun n => ⟨⟨dir, hw, ho, h, rfl⟩, fun a ha e he => ?_⟩
            cases he
            exact fun h => h ha
          · exact hl
        · unfold mwstatTimes
          split
          · rename_i h
            split
            · refine fun n => ⟨⟨dir, hw, ho⟩, fun a => ?_⟩
              cases a with
              | error e => exact nofun
              | ok st =>
                refine fun n => ⟨⟨dir, hw, ho, h, rfl, fun hm => by rw [if_neg hm]; rfl⟩, fun a ha e he => ?_⟩
                cases he
                exact fun h => h ha
            · refine fun n => ⟨⟨dir, hw, ho, h, rfl, fun _ => rfl⟩, fun a ha e he => ?_⟩
              cases he
              exact fun h => h ha
          · exact hl
        · unfold mwstatSync
          split
          · exact hl
          · rename_i hc
            have hc : dir.Mode = 0xFFFFFFFF ∧ dir.Name = [] ∧ dir.Length = 0xFFFFFFFFFFFFFFFF ∧ dir.Mtime = 0xFFFFFFFF ∧ dir.Atime = 0xFFFFFFFF := by
              simp [wstatChanges] at hc
              exact hc
            intro f
            cases f with
            | none => exact hl
            | some _ =>
              intro f
              cases f with
              | none => exact hl
              | some h =>
                refine ⟨⟨dir, hw, hc⟩, fun a _ e he => ?_⟩
                cases he
                exact fun h => h
      · unfold mAndThen mwstatUser
        rw [if_pos (by unfold Ufs.Owned at ho; by_cases h : dir.User = [] <;> simp_all)]
        exact nofun

theorem doing_readDir {q : TreadPkt} {p : Ptr} {last : Option (Ev H)} (hl : ∀ h n off d e, last ≠ some ⟨.readAt h n off, (d, e)⟩) :
    (mreadDir user p q.Len : MMet H Bytes).Doing (Stands rootPath (.read q))
    (Fine fun last r => ∀ h n off d e, last = some ⟨.readAt h n off, (d, e)⟩ → (∀ t, e ≠ .fail t) ∧ r = d.take q.Len.toInt.toNat) last := by
  intro b _
  unfold mreadDirFrom
  split
  · exact fun _ h n off d e he => absurd he (hl h n off d e)
  · intro f
    cases f with
    | none => trivial
    | some h =>
      refine ⟨trivial, fun a => ?_⟩
      cases a with
      | eof => exact fun h n off d e he => by cases he
      | fail e => trivial
      | entry st => dsimp only; split <;> exact fun h n off d e he => by cases he

theorem doing_call (m : TMsg) : (mcall user rootPath iounit m : MMet H RMsg).Doing (Stands rootPath m) (Fine (Answers user m)) none := by
  cases m with
  | version q =>
    refine doing_asReply ?_
    unfold mversion
    split
    · trivial
    · rename_i h
      exact fun _ => ⟨rfl, Decidable.not_not.1 h, rfl⟩
  | attach q =>
    refine doing_asReply ?_
    unfold mattach
    split
    · trivial
    · refine ⟨⟨place [] (elems q.Aname), noRoot_proper _, attach_path _ q.Aname⟩, fun a => ?_⟩
      cases a with
      | error e => trivial
      | ok st => exact fun _ _ _ _ => ⟨_, st, rfl⟩
  | flush q => exact doing_asReply rfl
  | walk q =>
    refine doing_asReply (doing_withFile fun p => ?_)
    split
    · rename_i hp
      intro _ r
      cases r with
      | some _ => exact fun _ => trivial
      | none => exact fun _ _ _ _ _ _ _ => ⟨fun _ => ⟨rfl, rfl⟩, fun h => absurd hp h⟩
    · rename_i hp
      refine fun n => (doing_walkLoop (fun _ => hp)).bind fun last r hr => ?_
      obtain ⟨l, o⟩ := r
      cases o with
      | none =>
        dsimp only
        split
        · trivial
        · rename_i hl
          exact ⟨fun h => absurd h hp, fun _ => ⟨hl, hr.1⟩⟩
      | some path =>
        have hl : l ≠ [] := by
          rintro rfl
          exact hp (List.length_eq_zero_iff.1 (hr.2 rfl).symm)
        have hset : ∀ last, Fine (fun last a => Answers user (.walk q) last (.walk ⟨a⟩)) last (.ok l : Except GoString (List QID)) :=
          fun (last : Option (Ev H)) => ⟨fun h => absurd h hp, fun _ => ⟨hl, hr.1⟩⟩
        intro _
        split
        · intro r
          cases r with
          | some _ => exact fun _ => trivial
          | none => exact fun _ _ _ => hset _
        · exact fun _ _ _ => hset _
  | open_ q =>
    refine doing_asReply (doing_withFile fun p n => ⟨⟨rfl, flags_create _, flags_trunc _, flags_read _⟩, fun a => ?_⟩)
    cases a with
    | error e => exact fun _ => trivial
    | ok h => exact fun _ _ => ⟨_, _, _, h, rfl⟩
  | create q =>
    refine doing_asReply (doing_withFile fun p f => ?_)
    cases f with
    | some _ => trivial
    | none =>
      intro n
      dsimp only
      split
      · rename_i hd
        refine ⟨⟨hd, rfl⟩, fun _ => ⟨trivial, fun a => ?_⟩⟩
        cases a with
        | error e => trivial
        | ok st => exact fun _ _ => ⟨_, st, rfl, rfl⟩
      · rename_i hd
        refine ⟨⟨Decidable.not_not.1 hd, rfl, rfl⟩, fun a => ?_⟩
        cases a with
        | error e => trivial
        | ok h =>
          refine ⟨trivial, fun a => ?_⟩
          cases a with
          | error e => trivial
          | ok st => exact fun _ _ _ => ⟨_, st, rfl, rfl⟩
  | stat q =>
    refine doing_asReply (doing_withFile fun p n => ⟨trivial, fun a => ?_⟩)
    cases a with
    | error e => trivial
    | ok st => exact ⟨_, st, rfl, by rw [marshaldir_eq]; rfl⟩
  | wstat q => exact doing_asReply (doing_wstat q)
  | clunk q => exact doing_asReply ((doing_clunkFile fun _ => trivial).bind fun last r h => by cases r <;> exact h)
  | remove q =>
    refine doing_asReply ((doing_clunkFile fun _ => trivial).bind fun last r h => ?_)
    cases r with
    | error e => trivial
    | ok p =>
      refine fun n => ⟨trivial, fun a => ?_⟩
      cases a with
      | none => exact ⟨n, rfl⟩
      | some e => trivial
  | read q =>
    refine doing_asReply (doing_withFile fun p f => ?_)
    cases f with
    | none => trivial
    | some _ =>
      intro qid
      dsimp only
      unfold mreadAs
      split
      · split
        · rename_i h0
          intro _ f
          cases f with
          | none => trivial
          | some h =>
            refine ⟨h0, fun a => ?_⟩
            cases a with
            | some e => trivial
            | none => exact doing_readDir fun h n off d e he => by cases he
        · exact doing_readDir nofun
      · split
        · trivial
        · rename_i hneg
          intro f
          cases f with
          | none => trivial
          | some h =>
            refine ⟨⟨Int.toNat_of_nonneg (Int.not_lt.1 hneg), rfl⟩, fun a => ?_⟩
            obtain ⟨d, e⟩ := a
            cases e with
            | fail e => trivial
            | none =>
              intro h' n' off' d' e' he
              cases he
              exact ⟨nofun, rfl⟩
            | eof =>
              intro h' n' off' d' e' he
              cases he
              exact ⟨nofun, rfl⟩
  | write q =>
    refine doing_asReply (doing_withFile fun p f => ?_)
    cases f with
    | none => trivial
    | some _ =>
      intro f
      cases f with
      | none => trivial
      | some h =>
        refine ⟨⟨rfl, rfl⟩, fun a => ?_⟩
        obtain ⟨n, e⟩ := a
        cases e with
        | none => exact ⟨h, _, _, n, rfl, rfl⟩
        | some e => trivial

/-! ### Executions -/

theorem lastCall_snoc (g : Nat) (ls : List (SLabel ω H)) (l : SLabel ω H) : lastCall g (ls ++ [l]) =
    match l with
    | .begin g' _ => if g' = g then none else lastCall g ls
    | .call g' e => if g' = g then some e else lastCall g ls
    | _ => lastCall g ls := by
  simp only [lastCall, List.foldl_append, List.foldl_cons, List.foldl_nil]

theorem doing {ls : List (SLabel ω H)} {s : SSys ω H} (hr : SRun user rootPath iounit host w0 ls s) {g : Nat} {m : TMsg} {p : MMet H RMsg}
    (hp : s.run g = some (m, p)) : current g ls = some m ∧ p.Doing (Stands rootPath m) (Fine (Answers user m)) (lastCall g ls) := by
  induction hr generalizing g m p with
  | init => cases hp
  | @step ls s s' l c _ hs ih =>
    rcases step_cases hs with ⟨g', m', rfl, hrun, rfl⟩ | ⟨g', m', r, rfl, hrun, rfl⟩ | ⟨g', m', c, k, mem, a, rfl, hrun, ha, rfl⟩ |
      ⟨g', m', c, k, rfl, hrun, rfl⟩ | ⟨w, rfl, rfl⟩
    · simp only [SSys.setRun] at hp
      rw [current_snoc, lastCall_snoc]
      split at hp
      · rename_i e
        cases hp
        subst e
        simpa using doing_call _
      · rename_i e
        dsimp only
        rw [if_neg (Ne.symm e), if_neg (Ne.symm e)]
        exact ih hp
    · simp only [SSys.setRun] at hp
      rw [current_snoc, lastCall_snoc]
      split at hp
      · cases hp
      · exact ih hp
    · simp only [SSys.setRun] at hp
      rw [current_snoc, lastCall_snoc]
      split at hp
      · rename_i e
        cases hp
        subst e
        exact ⟨(ih hrun).1, (ih hrun).2 a⟩
      · exact ih hp
    · simp only [SSys.setRun] at hp
      rw [current_snoc, lastCall_snoc]
      split at hp
      · rename_i e
        cases hp
        subst e
        dsimp only
        rw [if_pos rfl]
        exact ⟨(ih hrun).1, (ih hrun).2.2 _⟩
      · rename_i e
        dsimp only
        rw [if_neg (Ne.symm e)]
        exact ih hp
    · rw [current_snoc, lastCall_snoc]
      exact ih hp

/-- an execution up to a step -/
theorem run_cut {ls1 ls2 : List (SLabel ω H)} {l : SLabel ω H} {s : SSys ω H} (hr : SRun user rootPath iounit host w0 (ls1 ++ l :: ls2) s) :
    ∃ s1 s2 c, SRun user rootPath iounit host w0 ls1 s1 ∧ s1.step user rootPath iounit host c = some (s2, l) := by
  generalize e : ls1 ++ l :: ls2 = ls at hr
  induction hr generalizing ls2 with
  | init => simp at e
  | @step ls s s' l' c hr hs ih =>
    rcases List.eq_nil_or_concat ls2 with rfl | ⟨x, y, rfl⟩
    · obtain ⟨rfl, h⟩ := List.append_inj' e rfl
      cases h
      exact ⟨s, s', c, hr, hs⟩
    · rw [List.concat_eq_append, show ls1 ++ l :: (x ++ [y]) = (ls1 ++ l :: x) ++ [y] by simp] at e
      exact ih (List.append_inj' e rfl).1

/-- C129: However calls overlap, every call of the operating system is made by a goroutine that is working on a request that stands for it. -/
theorem C129_stands {ls1 ls2 : List (SLabel ω H)} {s : SSys ω H} {g : Nat} {e : Ev H}
    (hr : SRun user rootPath iounit host w0 (ls1 ++ .call g e :: ls2) s) : ∃ m, current g ls1 = some m ∧ Stands rootPath m e.1 := by
  obtain ⟨s1, s2, c, h1, h2⟩ := run_cut hr
  rcases step_cases h2 with ⟨_, _, h, _, _⟩ | ⟨_, _, _, h, _, _⟩ | ⟨_, _, _, _, _, _, h, _, _, _⟩ | ⟨g', m, c, k, h, hrun, _⟩ | ⟨_, h, _⟩ <;> cases h
  exact ⟨m, (doing h1 hrun).1, (doing h1 hrun).2.1⟩

/-- C129: However calls overlap, a reply that is not an error tells what the last call of the operating system that was made for the same
request returned. -/
theorem C129_answers {ls1 ls2 : List (SLabel ω H)} {s : SSys ω H} {g : Nat} {r : RMsg}
    (hr : SRun user rootPath iounit host w0 (ls1 ++ .done g (.ok r) :: ls2) s) : ∃ m, current g ls1 = some m ∧ Answers user m (lastCall g ls1) r := by
  obtain ⟨s1, s2, c, h1, h2⟩ := run_cut hr
  rcases step_cases h2 with ⟨_, _, h, _, _⟩ | ⟨g', m, _, h, hrun, _⟩ | ⟨_, _, _, _, _, _, h, _, _, _⟩ | ⟨_, _, _, _, h, _, _⟩ | ⟨_, h, _⟩ <;> cases h
  exact ⟨m, doing h1 hrun⟩

/-! ### Walks -/

/-- the result of a program has `Q` with all calls that have been made -/
def MProg.Traced {α : Type} (Q : List (Ev H) → α → Prop) : List (Ev H) → MProg H α → Prop
  | es, .ret a => Q es a
  | _, .panic => True
  | es, .op _ k => ∀ a, (k a).Traced Q es
  | es, .host c k => ∀ a, (k a).Traced Q (es ++ [⟨c, a⟩])

theorem MProg.Traced.bind {α β : Type} {Q : List (Ev H) → α → Prop} {R : List (Ev H) → β → Prop} {p : MProg H α} {f : α → MProg H β}
    {es : List (Ev H)} (hp : p.Traced Q es) (hf : ∀ es a, Q es a → (f a).Traced R es) : (p.bind f).Traced R es := by
  induction p generalizing es with
  | ret a => exact hf es a hp
  | panic => trivial
  | op c k ih => exact fun a => ih a (hp a)
  | host c k ih => exact fun a => ih a (hp a)

theorem Along.snoc {base : GoString} {names : List GoString} {es : List (Ev H)} (h : Along base names es) {p : GoString}
    (hp : p = reach base names (es.length + 1)) (a : (HCall.lstat (H := H) p).Ans) : Along base names (es ++ [⟨.lstat p, a⟩]) := by
  subst hp
  unfold Along at h ⊢
  rw [List.map_append, h, List.length_append, List.length_singleton, List.range_succ, List.map_append]
  rfl

theorem traced_walkLoop {base : GoString} {all names : List GoString} : ∀ {es : List (Ev H)} {p : GoString}, Along base all es →
    p = reach base all es.length → all.drop es.length = names →
    (MProg.ofProg (pwalkLoop p names)).Traced (fun es' r => Along base all es' ∧ found es' = found es ++ r.1) es := by
  induction names with
  | nil => exact fun h _ _ => ⟨h, (List.append_nil _).symm⟩
  | cons n ns ih =>
    intro es p h hp hd
    have hr : pathJoin p n = reach base all (es.length + 1) := by
      rw [hp]
      unfold reach
      have : all.take (es.length + 1) = all.take es.length ++ [n] := by
        rw [List.take_add, hd]
        rfl
      rw [this, List.foldl_append]
      rfl
    intro a
    have hs := h.snoc hr a
    cases a with
    | error e => exact ⟨hs, by simp [found, List.filterMap_append]⟩
    | ok st =>
      show (MProg.ofProg ((pwalkLoop (pathJoin p n) ns).bind fun r => .ret (fileInfoToQID st :: r.1, r.2))).Traced _ _
      rw [ofProg_bind _ fun r : List QID × Option GoString => (fileInfoToQID st :: r.1, r.2)]
      have := ih (p := pathJoin p n) hs (by simpa using hr)
        (by rw [List.length_append, List.length_singleton, ← List.drop_drop, hd]; simp)
      refine this.bind fun es' r hr => ?_
      refine ⟨hr.1, ?_⟩
      rw [hr.2]
      simp [found, List.filterMap_append]

theorem traced_walk (q : TwalkPkt) : (mcall user rootPath iounit (.walk q) : MMet H RMsg).Traced
    (fun es r => ∀ a, r = .ok (.walk a) → (∃ base, Along base q.Paths es) ∧ a.QIDs = found es) [] := by
  have reply : ∀ {p : MMet H (List QID)} {es : List (Ev H)}, p.Traced (fun es r => ∀ l, r = .ok l → (∃ base, Along base q.Paths es) ∧ l = found es) es →
      (mAsReply (fun l => RMsg.walk ⟨l⟩) p).Traced (fun es r => ∀ a, r = .ok (.walk a) → (∃ base, Along base q.Paths es) ∧ a.QIDs = found es) es :=
    fun h => h.bind fun es r hr => by
      cases r with
      | error e => exact nofun
      | ok l => intro a ha; cases ha; exact hr l rfl
  refine reply ?_
  intro _ r _
  cases r with
  | none => exact nofun
  | some p =>
    dsimp only
    split
    · intro _ r
      cases r with
      | some _ => exact fun _ => nofun
      | none => exact fun _ _ _ _ _ _ _ l hl => by cases hl; exact ⟨⟨[], rfl⟩, rfl⟩
    · intro n
      refine MProg.Traced.bind (traced_walkLoop (base := n) (all := q.Paths) (es := []) rfl rfl rfl) fun es r hr => ?_
      obtain ⟨l, o⟩ := r
      have hok : ∀ l', (.ok l : Except GoString (List QID)) = .ok l' → (∃ base, Along base q.Paths es) ∧ l' = found es := by
        intro l' hl
        cases hl
        exact ⟨⟨n, hr.1⟩, hr.2.symm⟩
      cases o with
      | none =>
        dsimp only
        split
        · exact nofun
        · exact hok
      | some path =>
        intro _
        split
        · intro r
          cases r with
          | some _ => exact fun _ => nofun
          | none => exact fun _ _ _ => hok
        · exact fun _ _ _ => hok

theorem ownCalls_snoc (g : Nat) (ls : List (SLabel ω H)) (l : SLabel ω H) : ownCalls g (ls ++ [l]) =
    match l with
    | .begin g' _ => if g' = g then [] else ownCalls g ls
    | .call g' e => if g' = g then ownCalls g ls ++ [e] else ownCalls g ls
    | _ => ownCalls g ls := by
  simp only [ownCalls, List.foldl_append, List.foldl_cons, List.foldl_nil]

theorem tracing {m : TMsg} {Q : List (Ev H) → Except GoString RMsg → Prop} (hQ : (mcall user rootPath iounit m : MMet H RMsg).Traced Q [])
    {ls : List (SLabel ω H)} {s : SSys ω H} (hr : SRun user rootPath iounit host w0 ls s) {g : Nat} {p : MMet H RMsg}
    (hp : s.run g = some (m, p)) : p.Traced Q (ownCalls g ls) := by
  induction hr generalizing g p with
  | init => cases hp
  | @step ls s s' l c _ hs ih =>
    rcases step_cases hs with ⟨g', m', rfl, hrun, rfl⟩ | ⟨g', m', r, rfl, hrun, rfl⟩ | ⟨g', m', c, k, mem, a, rfl, hrun, ha, rfl⟩ |
      ⟨g', m', c, k, rfl, hrun, rfl⟩ | ⟨w, rfl, rfl⟩
    · simp only [SSys.setRun] at hp
      rw [ownCalls_snoc]
      split at hp
      · rename_i e
        cases hp
        subst e
        simpa using hQ
      · rename_i e
        dsimp only
        rw [if_neg (Ne.symm e)]
        exact ih hp
    · simp only [SSys.setRun] at hp
      rw [ownCalls_snoc]
      split at hp
      · cases hp
      · exact ih hp
    · simp only [SSys.setRun] at hp
      rw [ownCalls_snoc]
      split at hp
      · rename_i e
        cases hp
        subst e
        exact ih hrun a
      · exact ih hp
    · simp only [SSys.setRun] at hp
      rw [ownCalls_snoc]
      split at hp
      · rename_i e
        cases hp
        subst e
        dsimp only
        rw [if_pos rfl]
        exact ih hrun _
      · rename_i e
        dsimp only
        rw [if_neg (Ne.symm e)]
        exact ih hp
    · rw [ownCalls_snoc]
      exact ih hp

/-- C129: However calls overlap, a walk looks up its names one after the other from one path on, and returns the QIDs of the files that it has found
itself. -/
theorem C129_walk {ls1 ls2 : List (SLabel ω H)} {s : SSys ω H} {g : Nat} {q : TwalkPkt} {r : RwalkPkt}
    (hr : SRun user rootPath iounit host w0 (ls1 ++ .done g (.ok (.walk r)) :: ls2) s) (hq : current g ls1 = some (.walk q)) :
    (∃ base, Along base q.Paths (ownCalls g ls1)) ∧ r.QIDs = found (ownCalls g ls1) := by
  obtain ⟨s1, s2, c, h1, h2⟩ := run_cut hr
  rcases step_cases h2 with ⟨_, _, h, _, _⟩ | ⟨g', m, _, h, hrun, _⟩ | ⟨_, _, _, _, _, _, h, _, _, _⟩ | ⟨_, _, _, _, h, _, _⟩ | ⟨_, h, _⟩ <;> cases h
  cases (doing h1 hrun).1.symm.trans hq
  exact tracing (traced_walk q) h1 hrun r rfl

theorem current_mem {g : Nat} {ls : List (SLabel ω H)} {m : TMsg} (h : current g ls = some m) : SLabel.begin g m ∈ ls := by
  have : ∀ (ls : List (SLabel ω H)) (acc : Option TMsg),
      ls.foldl (fun acc l => match l with | .begin g' m => if g' = g then some m else acc | _ => acc) acc = some m →
      acc = some m ∨ SLabel.begin g m ∈ ls := by
    intro ls
    induction ls with
    | nil => exact fun acc h => .inl h
    | cons l ls ih =>
      intro acc h
      rcases ih _ h with h | h
      · cases l with
        | begin g' m' =>
          dsimp only at h
          split at h
          · rename_i e
            cases h
            subst e
            exact .inr (by simp)
          · exact .inl h
        | _ => exact .inl h
      · exact .inr (List.mem_cons_of_mem _ h)
  exact (this ls none h).resolve_left nofun

/-- C129: If all requests only look, nothing is changed, however they overlap. -/
theorem C129_read_only {ls : List (SLabel ω H)} {s : SSys ω H} (hr : SRun user rootPath iounit host w0 ls s)
    (hro : ∀ g m, SLabel.begin g m ∈ ls → ReadOnly m) {g : Nat} {e : Ev H} (he : SLabel.call g e ∈ ls) : ¬ e.1.Modifies := by
  obtain ⟨ls1, ls2, rfl⟩ := List.append_of_mem he
  obtain ⟨m, h1, h2⟩ := C129_stands hr
  have h3 := hro g m (List.mem_append_left _ (current_mem h1))
  intro hm
  obtain ⟨c, a⟩ := e
  cases m <;> cases c <;> first | exact h3 | exact hm | exact h2 | skip
  rcases hm with hm | hm
  · exact hm h2.2.1
  · exact hm (h2.2.2.1 h3)

end

/-! ### Executions that meet the hypotheses -/

open Mem

/-- two goroutines open the file "/x/f" with fids of their own at the same time, and then both read, at different places, at the same time -/
def readTwice : List (Choice World) :=
  before ++ whole 1 (.walk { SFID := 0, NewFID := 2, Paths := [[102]] }) ++
  [.begin 0 (.open_ { OFID := 1, Omode := 0 }), .begin 1 (.open_ { OFID := 2, Omode := 0 })] ++ inTurn 0 1 20 ++
  [.begin 0 (.read { OFID := 1, Off := 0, Len := 2 }), .begin 1 (.read { OFID := 2, Off := 2, Len := 2 })] ++ inTurn 0 1 20

/-- a check for the requests -/
def looksOnly : TMsg → Bool
  | .attach _ => true
  | .walk _ => true
  | .open_ q => q.Omode &&& OTRUNC = 0
  | .read _ => true
  | _ => false

theorem looksOnly_readOnly {m : TMsg} (h : looksOnly m = true) : ReadOnly m := by
  cases m with
  | open_ q => exact of_decide_eq_true (p := q.Omode &&& OTRUNC = 0) h
  | _ => first | trivial | cases h

/-- the replies of goroutine `g` to reads -/
def readReplies (g : Nat) (ls : List (SLabel World Nat)) : List Bytes :=
  ls.filterMap fun l => match l with | .done g' (.ok (.read r)) => if g' = g then some r.Data else none | _ => none

/-- The hypotheses of `C129_read_only`; and both goroutines get what they asked for. -/
example : ∃ ls s, SRun [103] [47, 120] 8192 host world0 ls s ∧ (∀ g m, SLabel.begin g m ∈ ls → ReadOnly m) ∧
    readReplies 0 ls = [[1, 2]] ∧ readReplies 1 ls = [[3, 4]] := by
  refine ⟨_, _, shared_run readTwice, fun g m hm => ?_, by decide +kernel⟩
  have h : (requests (shared readTwice).1).all looksOnly = true := by decide +kernel
  exact looksOnly_readOnly (List.all_eq_true.1 h m (mem_requests hm))

/-- the steps of `readTwice` before goroutine 1 gets its reply to the read -/
def untilReply : List (SLabel World Nat) := (shared readTwice).1.take ((shared readTwice).1.length - 1)

/-- what `C129_answers` says of the last step of `readTwice`: the last calls of the two goroutines differ -/
example : ((shared readTwice).1.getLast?.map fun l => match l with | .done g (.ok (.read r)) => (g, r.Data) | _ => (9, [])) = some (1, [3, 4]) ∧
    ((lastCall 0 untilReply).map fun e => match e with | ⟨.readAt h n off, (d, _)⟩ => (h, n, off, d) | _ => (9, 9, 9, [])) = some (0, 2, 0, [1, 2]) ∧
    ((lastCall 1 untilReply).map fun e => match e with | ⟨.readAt h n off, (d, _)⟩ => (h, n, off, d) | _ => (9, 9, 9, [])) = some (1, 2, 2, [3, 4]) := by
  decide +kernel

/-- goroutine 0 attaches, and before it reads the QID for its reply goroutine 1 creates a file with the fid -/
def attachCreate : List (Choice World) :=
  .begin 0 (attachTo 0) :: go 0 3 ++ whole 1 (.create { OFID := 0, Name := [97] }) ++ go 0 10

/-- the QIDs that goroutine 0 is told of by attaches -/
def attachReplies (ls : List (SLabel World Nat)) : List QID :=
  ls.filterMap fun l => match l with | .done 0 (.ok (.attach r)) => some r.QID | _ => none

/-- the QIDs of the files that goroutine 0 has looked at -/
def statAnswers (ls : List (SLabel World Nat)) : List QID :=
  ls.filterMap fun l => match l with | .call 0 ⟨.stat _, .ok st⟩ => some (fileInfoToQID st) | _ => none

/-- `Answers` cannot speak of the QID in the reply to an attach: it may be that of a file that another goroutine has created meanwhile. -/
theorem C129_attach_counterexample : ∃ ls s, SRun [103] [47, 120] 8192 host world0 ls s ∧ ∃ q q', attachReplies ls = [q] ∧ statAnswers ls = [q'] ∧
    q.Typ &&& QTDIR = 0 ∧ q'.Typ &&& QTDIR ≠ 0 :=
  ⟨_, _, shared_run attachCreate, (attachReplies (shared attachCreate).1).headD {}, (statAnswers (shared attachCreate).1).headD {}, by decide +kernel⟩

/-- goroutine 0 walks down to "d", and meanwhile goroutine 1 creates a file with the fid that the walk starts from -/
def walkCreate : List (Choice World) :=
  before ++ [.begin 0 (.walk { SFID := 0, NewFID := 2, Paths := [[46], [100], [101]] })] ++ go 0 5 ++
  whole 1 (.create { OFID := 0, Name := [97] }) ++ go 0 10

/-- the reply to a walk -/
def walkReply : SLabel World Nat → Option (Nat × RwalkPkt)
  | .done g (.ok (.walk r)) => some (g, r)
  | _ => none

theorem ends_walk {ls : List (SLabel World Nat)} {g : Nat} {r : RwalkPkt} (h : ls.getLast?.bind walkReply = some (g, r)) :
    ls = ls.dropLast ++ [.done g (.ok (.walk r))] := by
  rcases List.eq_nil_or_concat ls with rfl | ⟨x, l, rfl⟩
  · cases h
  · rw [List.concat_eq_append] at h ⊢
    rw [List.getLast?_concat] at h
    rw [List.dropLast_concat]
    change walkReply l = _ at h
    unfold walkReply at h
    split at h
    · cases h; rfl
    · cases h

/-- The hypotheses of `C129_walk`: two of three names are found, and the fid stands for another file before the second is looked up. -/
example : ∃ ls1 ls2 s r q, SRun [103] [47, 120] 8192 host world0 (ls1 ++ .done 0 (.ok (.walk r)) :: ls2) s ∧ current 0 ls1 = some (.walk q) ∧
    q.Paths.length = 3 ∧ r.QIDs.length = 2 ∧ (ownCalls 0 ls1).length = 3 ∧ named [47, 120, 47, 97] ls1 := by
  have h := shared_run walkCreate
  rw [ends_walk (ls := (shared walkCreate).1) (g := 0) (r := (((shared walkCreate).1.getLast?.bind walkReply).getD (9, {})).2) (by decide +kernel)] at h
  exact ⟨_, [], _, _, { SFID := 0, NewFID := 2, Paths := [[46], [100], [101]] }, h, by decide +kernel⟩

end Ninep.Ufs.Shared
