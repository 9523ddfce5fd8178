import Verif.Props.OwnCalls
/-
However calls of goroutines that share a `FileServer` overlap: an error that a call returns has its reason in the same call, in the request,
in the table of fids or in what the operating system has answered to it, not in the call of another goroutine.
-/

namespace Ninep.Ufs.Shared
open Spec

section
variable {ω H : Type} {user rootPath : GoString} {iounit : MaxSize} {host : Host ω H} {w0 : ω}

/-! ### The statement -/

/-- the error in the answer to a call of the operating system -/
def failure : Ev H → Option GoString
  | ⟨.lstat _, .error e⟩ => some e
  | ⟨.stat _, .error e⟩ => some e
  | ⟨.openFile _ _ _, .error e⟩ => some e
  | ⟨.chmod _ _, e⟩ => e
  | ⟨.rename _ _, e⟩ => e
  | ⟨.truncate _ _, e⟩ => e
  | ⟨.chtimes _ _ _, e⟩ => e
  | ⟨.remove _, e⟩ => e
  | ⟨.seek0 _, e⟩ => e
  | ⟨.readdir1 _, .fail e⟩ => some e
  | ⟨.readAt _ _ _, (_, .fail e)⟩ => some e
  | ⟨.writeAt _ _ _, (_, e)⟩ => e
  | _ => none

/-- the last call of the operating system has failed with this error -/
def Told (last : Option (Ev H)) (e : GoString) : Prop := ∃ c, last = some c ∧ failure c = some e

/-- the last call was to look at a file, and it was not there -/
def Missed (last : Option (Ev H)) : Prop := ∃ p t, last = some ⟨.lstat p, .error t⟩

/-- Why a request may fail, and with which error, if this is the last call of the operating system that was made for it. -/
def Reason : TMsg → Option (Ev H) → GoString → Prop
  | .version q, last, e => last = none ∧ q.TVersion ≠ lit "9P2000" ∧ e = q.TVersion ++ lit " not supported; only 9P2000"
  | .attach q, last, e => (last = none ∧ q.AFID ≠ NOFID ∧ e = lit "We don't do auth attach") ∨ Told last e
  | .flush _, _, _ => False
  | .walk q, last, e => (last = none ∧ e = lit "does not exist") ∨ (Missed last ∧ e = lit "file does not exist") ∨
      (q.Paths = [] ∧ last = none ∧ e = lit "FID in use: clone walk, fid " ++ dec q.SFID.toNat ++ lit " newfid " ++ dec q.NewFID.toNat) ∨
      (q.Paths ≠ [] ∧ q.SFID ≠ q.NewFID ∧ (∃ p st, last = some ⟨.lstat p, .ok st⟩) ∧
        e = lit "FID in use: walk to " ++ fmtStrings q.Paths ++ lit ", fid " ++ dec q.SFID.toNat ++ lit ", newfid " ++ dec q.NewFID.toNat)
  | .open_ _, last, e => (last = none ∧ e = lit "does not exist") ∨ Told last e
  | .create _, last, e => (last = none ∧ (e = lit "does not exist" ∨ e = lit "FID already open")) ∨ Told last e ∨
      (Missed last ∧ e = lit "does not exist")
  | .stat _, last, e => (last = none ∧ e = lit "does not exist") ∨ (Missed last ∧ e = lit "ENOENT")
  | .wstat q, last, e => (last = none ∧ e = lit "does not exist") ∨
      (last = none ∧ ∃ d t b x, unmarshaldir (Buffer.ofBytes q.B) = .done d t (some x) b ∧ e = decErrText x) ∨
      (e = lit "Permission denied" ∧ ∃ dir, Wants q dir ∧ ¬ Ufs.Owned dir) ∨
      (e = lit "is a directory" ∧ ∃ dir p st, Wants q dir ∧ dir.Name ≠ [] ∧ last = some ⟨.stat p, .ok st⟩ ∧ st.isDir = true) ∨ Told last e
  | .clunk _, last, e => last = none ∧ e = lit "does not exist"
  | .remove _, last, e => (last = none ∧ e = lit "does not exist") ∨ Told last e
  | .read _, last, e => (last = none ∧ (e = lit "does not exist" ∨ e = lit "FID not open")) ∨
      (e = lit "invalid argument" ∧ (last = none ∨ ∃ h, last = some ⟨.seek0 h, none⟩)) ∨ Told last e
  | .write _, last, e => (last = none ∧ (e = lit "does not exist" ∨ e = lit "FID not open" ∨ e = lit "invalid argument")) ∨ Told last e

/-! ### Programs -/

/-- an error has `E` -/
def Amiss {α : Type} (E : Option (Ev H) → GoString → Prop) : Option (Ev H) → Except GoString α → Prop
  | _, .ok _ => True
  | last, .error e => E last e

abbrev NoMatter : HCall H → Prop := fun _ => True

section
variable {last : Option (Ev H)} {E : Option (Ev H) → GoString → Prop}

theorem amiss_asReply {α : Type} {f : α → RMsg} {p : MMet H α} (hp : p.Doing NoMatter (Amiss E) last) :
    (mAsReply f p).Doing NoMatter (Amiss E) last :=
  hp.bind fun last a h => by cases a <;> exact h

theorem amiss_withFile {α : Type} {fid : FID} {k : Ptr → MMet H α} (h0 : E last (lit "does not exist"))
    (hk : ∀ p, (k p).Doing NoMatter (Amiss E) last) : (withFile fid k).Doing NoMatter (Amiss E) last := by
  intro _ r _
  cases r with
  | none => exact h0
  | some p => exact hk p

/-- how the loop of a walk ends: at a name that is not there, or with a file that was found -/
theorem ends_walkLoop {names : List GoString} : ∀ {p : GoString} {last : Option (Ev H)},
    (MProg.ofProg (pwalkLoop p names)).Doing NoMatter (fun last' r => (r.2 = none → Missed last') ∧
      (r.2 ≠ none → names ≠ [] → ∃ p st, last' = some ⟨.lstat p, .ok st⟩) ∧ (names = [] → last' = last)) last := by
  induction names with
  | nil => exact fun {p last} => ⟨nofun, fun _ h => absurd rfl h, fun _ => rfl⟩
  | cons n ns ih =>
    intro p last
    refine ⟨trivial, fun a => ?_⟩
    cases a with
    | error e => exact ⟨fun _ => ⟨_, e, rfl⟩, fun h => absurd rfl h, nofun⟩
    | ok st =>
      show (MProg.ofProg ((pwalkLoop (pathJoin p n) ns).bind fun r => .ret (fileInfoToQID st :: r.1, r.2))).Doing _ _ _
      rw [ofProg_bind _ fun r : List QID × Option GoString => (fileInfoToQID st :: r.1, r.2)]
      refine (ih (p := pathJoin p n)).bind fun last' r hr => ⟨hr.1, fun h _ => ?_, nofun⟩
      by_cases hns : ns = []
      · exact ⟨_, st, hr.2.2 hns⟩
      · exact hr.2.1 h hns

theorem amiss_clunkFile {fid : FID} (h : E none (lit "does not exist")) :
    (mclunkFile fid : MMet H Ptr).Doing NoMatter (Amiss E) none := by
  intro _ r
  cases r with
  | none => exact fun _ => h
  | some p =>
    intro _ f
    cases f with
    | none => exact fun _ => trivial
    | some _ =>
      intro f
      cases f with
      | none => exact fun _ _ => trivial
      | some h =>
        refine ⟨trivial, fun a => ?_⟩
        cases a with
        | none => exact fun _ => trivial
        | some _ => exact fun _ _ => trivial

/-- the steps of a wstat -/
def Step (E : Option (Ev H) → GoString → Prop) (last : Option (Ev H)) (r : Option GoString) : Prop := ∀ e, r = some e → E last e

theorem step_andThen {r k : MProg H (Option GoString)} (hr : r.Doing NoMatter (Step E) last)
    (hk : ∀ last, k.Doing NoMatter (Step E) last) : (mAndThen r k).Doing NoMatter (Step E) last := by
  refine hr.bind fun last o h => ?_
  cases o with
  | some e => exact h
  | none => exact hk last

end

theorem amiss_wstat (q : TwstatPkt) : (mwstat rootPath q.OFID q.B : MMet H Unit).Doing NoMatter (Amiss (Reason (.wstat q))) none := by
  refine amiss_withFile (.inl ⟨rfl, rfl⟩) fun p => ?_
  split
  · trivial
  · rename_i d t x b hd
    exact .inr (.inl ⟨rfl, d, t, b, x, hd, rfl⟩)
  · rename_i dir t b hd
    have hw : Wants q dir := ⟨t, b, hd⟩
    have told : ∀ {last : Option (Ev H)} {e : GoString}, Told last e → Reason (.wstat q) last e := fun h => .inr (.inr (.inr (.inr h)))
    refine MProg.Doing.bind (Q := Step (Reason (.wstat q))) ?_ fun last o h => by
      cases o with
      | none => trivial
      | some e => exact h e rfl
    refine step_andThen ?_ fun last => step_andThen ?_ fun last => step_andThen ?_ fun last => step_andThen ?_ fun last => step_andThen ?_ fun last => ?_
    · unfold mwstatMode
      split
      · exact fun n => ⟨trivial, fun a e he => told ⟨_, rfl, he⟩⟩
      · exact nofun
    · unfold mwstatUser
      split
      · rename_i h
        intro e he
        cases he
        refine .inr (.inr (.inl ⟨rfl, dir, hw, fun ho => ?_⟩))
        exact h.elim (fun h => h ho.1) (fun h => h ho.2)
      · exact nofun
    · unfold mwstatName
      split
      · rename_i hn
        refine fun n => ⟨trivial, fun a => ?_⟩
        dsimp only
        split
        · rename_i hdir
          intro e he
          cases he
          cases a with
          | error e => cases hdir
          | ok st => exact .inr (.inr (.inr (.inl ⟨rfl, dir, _, st, hw, hn, rfl, hdir⟩)))
        · refine fun n' => ⟨trivial, fun a => ?_⟩
          cases a with
          | some e => exact fun e' he => told ⟨_, rfl, he⟩
          | none => exact fun _ => nofun
      · exact nofun
    · unfold mwstatLength
      split
      · exact fun n => ⟨trivial, fun a e he => told ⟨_, rfl, he⟩⟩
      · exact nofun
    · unfold mwstatTimes
      split
      · split
        · refine fun n => ⟨trivial, fun a => ?_⟩
          cases a with
          | error e => exact fun e' he => told ⟨_, rfl, he⟩
          | ok st => exact fun n => ⟨trivial, fun a e he => told ⟨_, rfl, he⟩⟩
        · exact fun n => ⟨trivial, fun a e he => told ⟨_, rfl, he⟩⟩
      · exact nofun
    · unfold mwstatSync
      split
      · exact nofun
      · intro f
        cases f with
        | none => exact nofun
        | some _ =>
          intro f
          cases f with
          | none => exact nofun
          | some h => exact ⟨trivial, fun a => nofun⟩

theorem amiss_readDir {q : TreadPkt} {p : Ptr} {last : Option (Ev H)} (hl : last = none ∨ ∃ h, last = some ⟨.seek0 h, none⟩) :
    (mreadDir user p q.Len : MMet H Bytes).Doing NoMatter (Amiss (Reason (.read q))) last := by
  intro b _
  unfold mreadDirFrom
  split
  · exact fun _ => trivial
  · intro f
    cases f with
    | none => exact .inr (.inl ⟨rfl, hl⟩)
    | some h =>
      refine ⟨trivial, fun a => ?_⟩
      cases a with
      | eof => trivial
      | fail e => exact .inr (.inr ⟨_, rfl, rfl⟩)
      | entry st => dsimp only; split <;> trivial

theorem amiss_call (m : TMsg) : (mcall user rootPath iounit m : MMet H RMsg).Doing NoMatter (Amiss (Reason m)) none := by
  cases m with
  | version q =>
    refine amiss_asReply ?_
    unfold mversion
    split
    · rename_i h
      exact ⟨rfl, h, rfl⟩
    · exact fun _ => trivial
  | attach q =>
    refine amiss_asReply ?_
    unfold mattach
    split
    · rename_i h
      exact .inl ⟨rfl, h, rfl⟩
    · refine ⟨trivial, fun a => ?_⟩
      cases a with
      | error e => exact .inr ⟨_, rfl, rfl⟩
      | ok st => exact fun _ _ _ _ => trivial
  | flush q => exact amiss_asReply trivial
  | walk q =>
    refine amiss_asReply (amiss_withFile (.inl ⟨rfl, rfl⟩) fun p => ?_)
    split
    · rename_i hp
      intro _ r
      cases r with
      | some _ => exact fun _ => .inr (.inr (.inl ⟨hp, rfl, rfl⟩))
      | none => exact fun _ _ _ _ _ _ _ => trivial
    · rename_i hp
      refine fun n => ends_walkLoop.bind fun last r hr => ?_
      obtain ⟨l, o⟩ := r
      cases o with
      | none =>
        dsimp only
        split
        · exact .inr (.inl ⟨hr.1 rfl, rfl⟩)
        · trivial
      | some path =>
        intro _
        split
        · rename_i hne
          intro r
          cases r with
          | some _ => exact fun _ => .inr (.inr (.inr ⟨hp, hne, hr.2.1 nofun hp, rfl⟩))
          | none => exact fun _ _ _ => trivial
        · exact fun _ _ _ => trivial
  | open_ q =>
    refine amiss_asReply (amiss_withFile (.inl ⟨rfl, rfl⟩) fun p n => ⟨trivial, fun a => ?_⟩)
    cases a with
    | error e => exact fun _ => .inr ⟨_, rfl, rfl⟩
    | ok h => exact fun _ _ => trivial
  | create q =>
    refine amiss_asReply (amiss_withFile (.inl ⟨rfl, .inl rfl⟩) fun p f => ?_)
    cases f with
    | some _ => exact .inl ⟨rfl, .inr rfl⟩
    | none =>
      intro n
      dsimp only
      split
      · refine ⟨trivial, fun _ => ⟨trivial, fun a => ?_⟩⟩
        cases a with
        | error e => exact .inr (.inr ⟨⟨_, e, rfl⟩, rfl⟩)
        | ok st => exact fun _ _ => trivial
      · refine ⟨trivial, fun a => ?_⟩
        cases a with
        | error e => exact .inr (.inl ⟨_, rfl, rfl⟩)
        | ok h =>
          refine ⟨trivial, fun a => ?_⟩
          cases a with
          | error e => exact .inr (.inr ⟨⟨_, e, rfl⟩, rfl⟩)
          | ok st => exact fun _ _ _ => trivial
  | stat q =>
    refine amiss_asReply (amiss_withFile (.inl ⟨rfl, rfl⟩) fun p n => ⟨trivial, fun a => ?_⟩)
    cases a with
    | error e => exact .inr ⟨⟨_, e, rfl⟩, rfl⟩
    | ok st => trivial
  | wstat q => exact amiss_asReply (amiss_wstat q)
  | clunk q => exact amiss_asReply ((amiss_clunkFile (E := Reason (.clunk q)) ⟨rfl, rfl⟩).bind fun last r h => by cases r <;> exact h)
  | remove q =>
    refine amiss_asReply ((amiss_clunkFile (E := Reason (.remove q)) (.inl ⟨rfl, rfl⟩)).bind fun last r h => ?_)
    cases r with
    | error e => exact h
    | ok p =>
      refine fun n => ⟨trivial, fun a => ?_⟩
      cases a with
      | none => trivial
      | some e => exact .inr ⟨_, rfl, rfl⟩
  | read q =>
    refine amiss_asReply (amiss_withFile (.inl ⟨rfl, .inl rfl⟩) fun p f => ?_)
    cases f with
    | none => exact .inl ⟨rfl, .inr rfl⟩
    | some _ =>
      intro qid
      dsimp only
      unfold mreadAs
      split
      · split
        · intro _ f
          cases f with
          | none => exact .inr (.inl ⟨rfl, .inl rfl⟩)
          | some h =>
            refine ⟨trivial, fun a => ?_⟩
            cases a with
            | some e => exact .inr (.inr ⟨_, rfl, rfl⟩)
            | none => exact amiss_readDir (.inr ⟨h, rfl⟩)
        · exact amiss_readDir (.inl rfl)
      · split
        · trivial
        · intro f
          cases f with
          | none => exact .inr (.inl ⟨rfl, .inl rfl⟩)
          | some h =>
            refine ⟨trivial, fun a => ?_⟩
            obtain ⟨d, e⟩ := a
            cases e with
            | fail e => exact .inr (.inr ⟨_, rfl, rfl⟩)
            | none => trivial
            | eof => trivial
  | write q =>
    refine amiss_asReply (amiss_withFile (.inl ⟨rfl, .inl rfl⟩) fun p f => ?_)
    cases f with
    | none => exact .inl ⟨rfl, .inr (.inl rfl)⟩
    | some _ =>
      intro f
      cases f with
      | none => exact .inl ⟨rfl, .inr (.inr rfl)⟩
      | some h =>
        refine ⟨trivial, fun a => ?_⟩
        obtain ⟨n, e⟩ := a
        cases e with
        | none => trivial
        | some e => exact .inr ⟨_, rfl, rfl⟩

/-- the last call is the last one of all -/
theorem MProg.Doing.traced {α : Type} {S : HCall H → Prop} {Q : Option (Ev H) → α → Prop} {p : MProg H α} {es : List (Ev H)}
    (h : p.Doing S Q es.getLast?) : p.Traced (fun es a => Q es.getLast? a) es := by
  induction p generalizing es with
  | ret a => exact h
  | panic => trivial
  | op c k ih => exact fun a => ih a (h a)
  | host c k ih =>
    refine fun a => ih a ?_
    rw [List.getLast?_concat]
    exact h.2 a

/-- C130: However calls overlap, an error that is returned to a goroutine has its reason in the same call: it is the error in the answer to the
last call of the operating system that was made for the request, or one of the errors of the server that go with that request and that answer. -/
theorem C130_reason {ls1 ls2 : List (SLabel ω H)} {s : SSys ω H} {g : Nat} {e : GoString}
    (hr : SRun user rootPath iounit host w0 (ls1 ++ .done g (.error e) :: ls2) s) :
    ∃ m, current g ls1 = some m ∧ Reason m (ownCalls g ls1).getLast? e := by
  obtain ⟨s1, s2, c, h1, h2⟩ := run_cut hr
  rcases step_cases h2 with ⟨_, _, h, _, _⟩ | ⟨g', m, _, h, hrun, _⟩ | ⟨_, _, _, _, _, _, h, _, _, _⟩ | ⟨_, _, _, _, h, _, _⟩ | ⟨_, h, _⟩ <;> cases h
  exact ⟨m, (doing h1 hrun).1, tracing (MProg.Doing.traced (es := []) (amiss_call m)) h1 hrun⟩

/-- C130: A call that has not failed at the operating system is not told an error of the operating system: the error is one of the texts of the
server. -/
theorem C130_own_texts {ls1 ls2 : List (SLabel ω H)} {s : SSys ω H} {g : Nat} {e : GoString}
    (hr : SRun user rootPath iounit host w0 (ls1 ++ .done g (.error e) :: ls2) s) (hok : ∀ c ∈ ownCalls g ls1, failure c = none) :
    ∃ m, current g ls1 = some m ∧ Reason m (ownCalls g ls1).getLast? e ∧ ¬ Told (ownCalls g ls1).getLast? e := by
  obtain ⟨m, hm, h⟩ := C130_reason hr
  refine ⟨m, hm, h, fun ⟨c, hc, hf⟩ => ?_⟩
  rw [hok c (List.mem_of_getLast? hc)] at hf
  cases hf

end

/-! ### The hypotheses can be met -/

open Mem

/-- two goroutines have walked to the same file with fids of their own, and both remove it at the same time -/
def removeTwice : List (Choice World) :=
  before ++ whole 1 (.walk { SFID := 0, NewFID := 10, Paths := [[102]] }) ++
  ([.begin 0 (.remove { OFID := 1 }), .begin 1 (.remove { OFID := 10 })] ++ inTurn 0 1 20)

/-- two goroutines walk to the same file with the same new fid at the same time -/
def walkTwice : List (Choice World) :=
  before ++ ([.begin 0 (.walk { SFID := 0, NewFID := 5, Paths := [[102]] }), .begin 1 (.walk { SFID := 0, NewFID := 5, Paths := [[102]] })] ++
  inTurn 0 1 20)

/-- the error of a call -/
def errReply : SLabel World Nat → Option (Nat × GoString)
  | .done g (.error e) => some (g, e)
  | _ => none

theorem ends_error {ls : List (SLabel World Nat)} {g : Nat} {e : GoString} (h : ls.getLast?.bind errReply = some (g, e)) :
    ls = ls.dropLast ++ [.done g (.error e)] := by
  rcases List.eq_nil_or_concat ls with rfl | ⟨x, l, rfl⟩
  · cases h
  · rw [List.concat_eq_append] at h ⊢
    rw [List.getLast?_concat] at h
    rw [List.dropLast_concat]
    change errReply l = _ at h
    unfold errReply at h
    split at h
    · cases h; rfl
    · cases h

/-- The hypotheses of `C130_reason`: goroutine 1 loses, and is told the error of its own call of the operating system. -/
example : ∃ ls1 ls2 s, SRun [103] [47, 120] 8192 host world0 (ls1 ++ .done 1 (.error (lit "no such file or directory")) :: ls2) s ∧
    ((ownCalls 1 ls1).getLast?.bind failure) = some (lit "no such file or directory") ∧ ((ownCalls 0 ls1).getLast?.bind failure) = none := by
  have h := shared_run removeTwice
  rw [ends_error (ls := (shared removeTwice).1) (g := 1) (e := lit "no such file or directory") (by decide +kernel)] at h
  exact ⟨_, [], _, h, by decide +kernel⟩

/-- The hypotheses of `C130_own_texts`: goroutine 1 finds the file but the new fid is taken. -/
example : ∃ ls1 ls2 s, SRun [103] [47, 120] 8192 host world0
      (ls1 ++ .done 1 (.error (lit "FID in use: walk to [f], fid 0, newfid 5")) :: ls2) s ∧
    (∀ c ∈ ownCalls 1 ls1, failure c = none) ∧ (ownCalls 1 ls1).length = 1 := by
  have h := shared_run walkTwice
  rw [ends_error (ls := (shared walkTwice).1) (g := 1) (e := lit "FID in use: walk to [f], fid 0, newfid 5") (by decide +kernel)] at h
  have h' : (ownCalls 1 (shared walkTwice).1.dropLast).all (fun c => (failure c).isNone) = true := by decide +kernel
  exact ⟨_, [], _, h, fun c hc => by simpa using List.all_eq_true.1 h' c hc, by decide +kernel⟩

end Ninep.Ufs.Shared
