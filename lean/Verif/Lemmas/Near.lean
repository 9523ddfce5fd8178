import Verif.Props.Own
import Verif.Props.Transfer

set_option linter.unusedSimpArgs false
set_option linter.unusedVariables false

/-!
# Clients that do not disturb each other (C102)
-/

namespace Ninep.Ufs
open Spec
variable {ω H : Type}

/-! ### the paths that a request makes fids stand for -/

/-- a request gives the fid `i` the path `q` -/
def Coined (o : Obj H) (m : TMsg) (i : FID) (q : GoString) : Prop :=
  match m with
  | .attach p => i = p.SFID ∧ q = pathJoin o.rootPath (pathJoin [slash] p.Aname)
  | .walk p => i = p.NewFID ∧ ∃ f, o.files p.SFID = some f ∧ q = p.Paths.foldl pathJoin f.fullName
  | .create p => i = p.OFID ∧ ∃ f, o.files p.OFID = some f ∧ q = pathJoin f.fullName p.Name
  | .wstat p => i = p.OFID ∧ ∃ f dir, o.files p.OFID = some f ∧ Wants p dir ∧ dir.Name ≠ [] ∧ q = renameTo o.rootPath f.fullName dir.Name
  | _ => False

/-- every fid stands for the path that it has stood for before, or for one of `C` -/
def NamedBy (o : Obj H) (C : FID → GoString → Prop) (o' : Obj H) : Prop :=
  o'.rootPath = o.rootPath ∧ ∀ i f, o'.files i = some f → (∃ g, o.files i = some g ∧ f.fullName = g.fullName) ∨ C i f.fullName

section
variable {o : Obj H} {C : FID → GoString → Prop}

theorem NamedBy.refl : NamedBy o C o := ⟨rfl, fun i f hf => .inl ⟨f, hf, rfl⟩⟩

theorem NamedBy.set {o' : Obj H} (h : NamedBy o C o') (i : FID) {f : File H}
    (hf : (∃ g, o.files i = some g ∧ f.fullName = g.fullName) ∨ C i f.fullName) : NamedBy o C (o'.set i f) := by
  refine ⟨h.1, fun j g hg => ?_⟩
  by_cases hj : j = i
  · subst hj; rw [set_same, Option.some.injEq] at hg; subst hg; exact hf
  · rw [set_other _ _ hj] at hg; exact h.2 j g hg

theorem NamedBy.del {o' : Obj H} (h : NamedBy o C o') (i : FID) : NamedBy o C (o'.del i) := by
  refine ⟨h.1, fun j g hg => ?_⟩
  by_cases hj : j = i
  · subst hj; simp [State.del] at hg
  · simp only [State.del, if_neg hj] at hg; exact h.2 j g hg

end

/-- what a program does to the paths of the fids, whatever the calls -/
abbrev NamesAll {α : Type} (o : Obj H) (m : TMsg) (prev : Option (Ev H)) (p : Prog H (Obj H × α)) : Prop :=
  p.Safe (fun _ _ => True) (fun r => NamedBy o (Coined o m) r.1) prev

section
variable {o : Obj H} (prev : Option (Ev H))

theorem named_walkLoop (names : List GoString) (p : GoString) :
    (pwalkLoop (H := H) p names).Safe (fun _ _ => True) (fun r => ∀ q, r.2 = some q → q = names.foldl pathJoin p) prev := by
  induction names generalizing p prev with
  | nil => intro q hq; cases hq; rfl
  | cons n ns ih =>
    refine ⟨trivial, fun r => ?_⟩
    cases r with
    | error e => intro q hq; cases hq
    | ok st => exact (ih _ _).bind fun _ r hr => hr

theorem named_attach (p : TattachPkt) : NamesAll o (.attach p) prev (pattach p.SFID p.AFID p.Uname p.Aname o) := by
  unfold pattach
  split
  · exact NamedBy.refl
  · refine ⟨trivial, fun r => ?_⟩
    cases r with
    | error e => exact NamedBy.refl
    | ok st => exact NamedBy.refl.set _ (.inr ⟨rfl, rfl⟩)

theorem named_walk (p : TwalkPkt) : NamesAll o (.walk p) prev (pwalk p.SFID p.NewFID p.Paths o) := by
  unfold pwalk
  split
  · exact NamedBy.refl
  · rename_i f hf
    split
    · split
      · exact NamedBy.refl
      · rename_i hnil x hx
        exact NamedBy.refl.set _ (.inr ⟨rfl, f, hf, by rw [hnil]; rfl⟩)
    · refine (named_walkLoop _ _ _).bind fun _ r hr => ?_
      obtain ⟨q, r⟩ := r
      cases r with
      | none => dsimp only; split <;> exact NamedBy.refl
      | some p' => dsimp only; split
                   · exact NamedBy.refl
                   · exact NamedBy.refl.set _ (.inr ⟨rfl, f, hf, hr p' rfl⟩)

theorem named_open (p : TopenPkt) : NamesAll o (.open_ p) prev (popen p.OFID p.Omode o) := by
  unfold popen
  split
  · exact NamedBy.refl
  · rename_i f hf
    refine ⟨trivial, fun r => ?_⟩
    cases r <;> exact NamedBy.refl.set _ (.inl ⟨f, hf, rfl⟩)

theorem named_create (p : TcreatePkt) : NamesAll o (.create p) prev (pcreate p.OFID p.Name p.CreatePerm p.Omode o) := by
  unfold pcreate
  split
  · exact NamedBy.refl
  · rename_i f hf
    split
    · exact NamedBy.refl
    · dsimp only
      split
      · refine ⟨trivial, fun _ => ⟨trivial, fun r => ?_⟩⟩
        cases r with
        | error e => exact NamedBy.refl
        | ok st => exact NamedBy.refl.set _ (.inr ⟨rfl, f, hf, rfl⟩)
      · refine ⟨trivial, fun r => ?_⟩
        cases r with
        | error e => exact NamedBy.refl
        | ok h =>
          refine ⟨trivial, fun r => ?_⟩
          cases r with
          | error e => exact NamedBy.refl
          | ok st => exact NamedBy.refl.set _ (.inr ⟨rfl, f, hf, rfl⟩)

theorem named_clunkFile (C : FID → GoString → Prop) (i) (f : File H) : (pclunkFile i o f).Safe (fun _ _ => True) (fun r => NamedBy o C r) prev := by
  unfold pclunkFile
  split
  · exact NamedBy.refl.del _
  · exact ⟨trivial, fun _ => NamedBy.refl.del _⟩

theorem named_clunk (p : TclunkPkt) : NamesAll o (.clunk p) prev (pclunk p.OFID o) := by
  unfold pclunk
  split
  · exact NamedBy.refl
  · exact (named_clunkFile _ _ _ _).bind fun _ _ h => h

theorem named_remove (p : TremovePkt) : NamesAll o (.remove p) prev (premove p.OFID o) := by
  unfold premove
  split
  · exact NamedBy.refl
  · refine (named_clunkFile _ (Coined o (.remove p)) _ _).bind fun _ _ h => ⟨trivial, fun r => ?_⟩
    cases r <;> exact h

theorem named_stat (user) (p : TstatPkt) : NamesAll o (.stat p) prev (pstat user p.OFID o) := by
  unfold pstat
  split
  · exact NamedBy.refl
  · refine ⟨trivial, fun r => ?_⟩
    cases r <;> exact NamedBy.refl

theorem named_andThen {C : FID → GoString → Prop} {p : Prog H (Obj H × Option GoString)} {k : Obj H → Prog H (Obj H × Option GoString)}
    (hp : p.Safe (fun _ _ => True) (fun r => NamedBy o C r.1) prev)
    (hk : ∀ prev o', NamedBy o C o' → (k o').Safe (fun _ _ => True) (fun r => NamedBy o C r.1) prev) :
    (pAndThen p k).Safe (fun _ _ => True) (fun r => NamedBy o C r.1) prev := by
  refine hp.bind fun prev' r hr => ?_
  obtain ⟨o, e⟩ := r
  cases e with
  | none => exact hk _ _ hr
  | some e => exact hr

theorem named_wstat (p : TwstatPkt) : NamesAll o (.wstat p) prev (pwstat p.OFID p.B o) := by
  unfold pwstat
  split
  · exact NamedBy.refl
  · rename_i f hf
    split
    · trivial
    · exact NamedBy.refl
    · rename_i dir t b hd
      dsimp only
      have hw : Wants p dir := ⟨_, _, hd⟩
      generalize wstatPath f dir o = path
      refine Prog.Safe.bind (Q := fun r => NamedBy o (Coined o (.wstat p)) r.1) ?_ fun _ r hr => ?_
      · refine named_andThen _ ?_ fun prev o1 h1 => named_andThen _ ?_ fun prev o1 h1 => named_andThen _ ?_ fun prev o1 h1 =>
          named_andThen _ ?_ fun prev o1 h1 => named_andThen _ ?_ fun prev o1 h1 => ?_
        · unfold pwstatMode
          split
          · exact ⟨trivial, fun _ => NamedBy.refl⟩
          · exact NamedBy.refl
        · unfold pwstatUser
          split <;> exact h1
        · unfold pwstatName
          split
          · rename_i hn
            refine ⟨trivial, fun r => ?_⟩
            dsimp only
            split
            · exact h1
            · refine ⟨trivial, fun r => ?_⟩
              cases r with
              | none => exact h1.set _ (.inr ⟨rfl, f, dir, hf, hw, hn, by rw [h1.1]⟩)
              | some e => exact h1
          · exact h1
        · unfold pwstatLength
          split
          · exact ⟨trivial, fun _ => h1⟩
          · exact h1
        · unfold pwstatTimes
          split
          · split
            · refine ⟨trivial, fun r => ?_⟩
              cases r with
              | error e => exact h1
              | ok st => exact ⟨trivial, fun _ => h1⟩
            · exact ⟨trivial, fun _ => h1⟩
          · exact h1
        · unfold pwstatSync
          split
          · split
            · exact h1
            · exact ⟨trivial, fun _ => h1⟩
          · exact h1
      · obtain ⟨o, e⟩ := r
        cases e <;> exact hr

theorem named_readDir {C : FID → GoString → Prop} (user i) (o' : Obj H) (h0 : NamedBy o C o') (f : File H)
    (hf : ∃ g, o.files i = some g ∧ f.fullName = g.fullName) (x c) :
    (preadDir user i f x c o').Safe (fun _ _ => True) (fun r => NamedBy o C r.1) prev := by
  unfold preadDir
  dsimp only
  split
  · exact (h0.set _ (by exact .inl hf)).set _ (by exact .inl hf)
  · refine ⟨trivial, fun r => ?_⟩
    cases r with
    | eof => exact h0.set _ (.inl hf)
    | fail e => exact h0.set _ (.inl hf)
    | entry st => dsimp only; split <;> exact h0.set _ (.inl hf)

theorem named_read (user) (p : TreadPkt) : NamesAll o (.read p) prev (pread user p.OFID p.Off p.Len o) := by
  unfold pread
  split
  · exact NamedBy.refl
  · rename_i f hf
    split
    · exact NamedBy.refl
    · split
      · split
        · refine ⟨trivial, fun r => ?_⟩
          cases r with
          | some e => exact NamedBy.refl.set _ (.inl ⟨f, hf, rfl⟩)
          | none => exact named_readDir _ _ _ _ (NamedBy.refl.set _ (f := { f with oflow := [] }) (.inl ⟨f, hf, rfl⟩)) { f with oflow := [] } ⟨f, hf, rfl⟩ _ _
        · exact named_readDir _ _ _ _ NamedBy.refl f ⟨f, hf, rfl⟩ _ _
      · split
        · trivial
        · refine ⟨trivial, fun r => ?_⟩
          obtain ⟨d, e⟩ := r
          cases e <;> exact NamedBy.refl

theorem named_write (p : TwritePkt) : NamesAll o (.write p) prev (pwrite p.OFID p.Off p.Data o) := by
  unfold pwrite
  split
  · exact NamedBy.refl
  · split
    · exact NamedBy.refl
    · refine ⟨trivial, fun r => ?_⟩
      obtain ⟨n, e⟩ := r
      cases e <;> exact NamedBy.refl

theorem named_dispatch (user) (v : Bool) (b : Buffer) (t : MType) :
    (pdispatch user o v b t).Safe (fun _ _ => True) (fun r => NamedBy o (fun i q => ∃ m, PacketAsks t b m ∧ Coined o m i q) r.1) prev := by
  have up : ∀ {m : TMsg} {α : Type} {p : Prog H (Obj H × α)}, PacketAsks t b m → NamesAll o m prev p →
      p.Safe (fun _ _ => True) (fun r => NamedBy o (fun i q => ∃ m, PacketAsks t b m ∧ Coined o m i q) r.1) prev :=
    fun ha hp => hp.mono (fun _ _ h => h) fun r h => ⟨h.1, fun i f hf => (h.2 i f hf).imp id fun h => ⟨_, ha, h⟩⟩
  have h0 : NamedBy o (fun i q => ∃ m, PacketAsks t b m ∧ Coined o m i q) o := NamedBy.refl
  refine safe_dispatch (W := fun o' => NamedBy o (fun i q => ∃ m, PacketAsks t b m ∧ Coined o m i q) o') user v NamedBy.refl prev (fun p _ => ?_)
    (fun p h => up h (named_attach _ _)) (fun _ _ => h0)
    (fun p h => up h (named_walk _ _)) (fun p h => up h (named_open _ _)) (fun p h => up h (named_create _ _)) (fun p h => up h (named_clunk _ _))
    (fun p h => up h (named_stat _ user _)) (fun p h => up h (named_wstat _ _)) (fun p h => up h (named_remove _ _))
    (fun p h => up h (named_read _ user _)) (fun p h => up h (named_write _ _))
  unfold pversion
  split
  · exact h0
  · exact ⟨rfl, fun i f hf => .inl ⟨f, hf, rfl⟩⟩

end

/-! ### the open files of some of the fids -/

/-- the result has `Q` with `S`, to which the open files are added that calls return, if `b` -/
def Prog.Yields {α : Type} (b : Prop) (Q : (H → Prop) → α → Prop) : (H → Prop) → Prog H α → Prop
  | S, .ret a => Q S a
  | _, .panic => True
  | S, .call c k => ∀ a, (k a).Yields b Q fun h => S h ∨ (b ∧ Ev.gives ⟨c, a⟩ = some h)

theorem Prog.Yields.bind {α β : Type} {b : Prop} {Q : (H → Prop) → α → Prop} {R : (H → Prop) → β → Prop} {S : H → Prop} {p : Prog H α}
    {f : α → Prog H β} (hp : p.Yields b Q S) (hf : ∀ S a, Q S a → (f a).Yields b R S) : (p.bind f).Yields b R S := by
  induction p generalizing S with
  | ret a => exact hf _ _ hp
  | panic => trivial
  | call c k ih => exact fun a => ih a (hp a)

theorem Prog.Yields.mono {α : Type} {b b' : Prop} {Q : (H → Prop) → α → Prop} {S S' : H → Prop} {p : Prog H α} (hb : b → b') (hS : ∀ h, S h → S' h)
    (hQ : ∀ S S' a, (∀ h, S h → S' h) → Q S a → Q S' a) (hp : p.Yields b Q S) : p.Yields b' Q S' := by
  induction p generalizing S S' with
  | ret a => exact hQ _ _ _ hS hp
  | panic => trivial
  | call c k ih => exact fun a => ih a (fun h hh => hh.imp (hS h) fun hh => ⟨hb hh.1, hh.2⟩) (hp a)

/-- the files that the fids `W` have open are in `S` -/
def HeldBy (W : FID → Prop) (S : H → Prop) (o : Obj H) : Prop := ∀ i f h, W i → o.files i = some f → f.file = some h → S h

theorem HeldBy.mono {W : FID → Prop} {S S' : H → Prop} {o : Obj H} (h : HeldBy W S o) (hS : ∀ h, S h → S' h) : HeldBy W S' o :=
  fun i f x hi hf hx => hS x (h i f x hi hf hx)

theorem HeldBy.set {W : FID → Prop} {S : H → Prop} {o : Obj H} (ho : HeldBy W S o) (i : FID) {f : File H} (hf : W i → ∀ h, f.file = some h → S h) :
    HeldBy W S (o.set i f) := by
  intro j g h hw hg hh
  by_cases hj : j = i
  · subst hj; rw [set_same, Option.some.injEq] at hg; subst hg; exact hf hw h hh
  · rw [set_other _ _ hj] at hg; exact ho j g h hw hg hh

theorem HeldBy.del {W : FID → Prop} {S : H → Prop} {o : Obj H} (ho : HeldBy W S o) (i : FID) : HeldBy W S (o.del i) := by
  intro j g h hw hg hh
  by_cases hj : j = i
  · subst hj; simp [State.del] at hg
  · simp only [State.del, if_neg hj] at hg; exact ho j g h hw hg hh

/-- the request opens a file for a fid of `W` -/
def OpensFor (W : FID → Prop) : TMsg → Prop
  | .open_ p => W p.OFID
  | .create p => W p.OFID
  | _ => False

/-- a fid of `W` does not get a file that another fid has open -/
def SharesFor (W : FID → Prop) : TMsg → Prop
  | .walk p => p.Paths = [] → W p.NewFID → W p.SFID
  | _ => True

section
variable {W : FID → Prop} {b : Prop} {S : H → Prop} {o : Obj H} (ho : HeldBy W S o)
include ho

abbrev YieldsTo (W : FID → Prop) (b : Prop) (S : H → Prop) {α : Type} (p : Prog H (Obj H × α)) : Prop := p.Yields b (fun S r => HeldBy W S r.1) S

theorem HeldBy.or {S' : H → Prop} : HeldBy W (fun h => S h ∨ S' h) o := ho.mono fun _ => .inl

theorem yields_version (m v) : YieldsTo W b S (pversion m v o) := by
  unfold pversion; split <;> exact ho

theorem yields_attach (x y c d) : YieldsTo W b S (pattach x y c d o) := by
  unfold pattach
  split
  · exact ho
  · intro r
    cases r with
    | error e => exact ho.or
    | ok st => exact ho.or.set _ fun _ => nofun

omit ho in
theorem yields_walkLoop (p : GoString) (names : List GoString) (h0 : HeldBy W S o) :
    (pwalkLoop (H := H) p names).Yields b (fun S _ => HeldBy W S o) S := by
  induction names generalizing p S with
  | nil => exact h0
  | cons n ns ih =>
    intro r
    cases r with
    | error e => exact h0.or
    | ok st => exact (ih _ h0.or).bind fun _ r hr => hr

theorem yields_walk (i j names) (hw : names = [] → W j → W i) : YieldsTo W b S (pwalk i j names o) := by
  unfold pwalk
  split
  · exact ho
  · rename_i f hf
    split
    · rename_i hnil
      split
      · exact ho
      · exact ho.set _ fun hj h hh => ho _ _ _ (hw hnil hj) hf hh
    · refine (yields_walkLoop _ _ ho).bind fun S' r hr => ?_
      obtain ⟨q, r⟩ := r
      cases r with
      | none => dsimp only; split <;> exact hr
      | some p' => dsimp only; split
                   · exact hr
                   · exact hr.set _ fun _ => nofun

theorem yields_open (i m) (hb : W i → b) : YieldsTo W b S (popen i m o) := by
  unfold popen
  split
  · exact ho
  · rename_i f hf
    intro r
    cases r with
    | error e => exact ho.or.set _ fun _ => nofun
    | ok h => exact ho.or.set _ fun hi h' hh => .inr ⟨hb hi, hh⟩

theorem yields_create (i n pm md) (hb : W i → b) : YieldsTo W b S (pcreate i n pm md o) := by
  unfold pcreate
  split
  · exact ho
  · rename_i f hf
    split
    · exact ho
    · dsimp only
      split
      · refine fun _ r => ?_
        cases r with
        | error e => exact ho.or.or
        | ok st => exact ho.or.or.set _ fun hi h hh => .inl (.inl (ho _ _ _ hi hf hh))
      · intro r
        cases r with
        | error e => exact ho.or
        | ok h =>
          intro r
          cases r with
          | error e => exact ho.or.or
          | ok st => exact ho.or.or.set _ fun hi h hh => .inl (.inr ⟨hb hi, hh⟩)

theorem yields_clunkFile (i) (f : File H) : (pclunkFile i o f).Yields b (fun S r => HeldBy W S r) S := by
  unfold pclunkFile
  split
  · exact ho.del _
  · exact fun _ => ho.or.del _

theorem yields_clunk (i) : YieldsTo W b S (pclunk i o) := by
  unfold pclunk
  split
  · exact ho
  · exact (yields_clunkFile ho i _).bind fun _ _ h => h

theorem yields_remove (i) : YieldsTo W b S (premove i o) := by
  unfold premove
  split
  · exact ho
  · refine (yields_clunkFile ho i _).bind fun _ o' h r => ?_
    cases r <;> exact h.or

theorem yields_stat (user i) : YieldsTo W b S (pstat user i o) := by
  unfold pstat
  split
  · exact ho
  · intro r
    cases r <;> exact ho.or

omit ho in
theorem yields_andThen {p : Prog H (Obj H × Option GoString)} {k : Obj H → Prog H (Obj H × Option GoString)} {P : (H → Prop) → Prop}
    (hp : p.Yields b (fun S r => HeldBy W S r.1 ∧ P S) S)
    (hk : ∀ S o, HeldBy W S o → P S → (k o).Yields b (fun S r => HeldBy W S r.1 ∧ P S) S) :
    (pAndThen p k).Yields b (fun S r => HeldBy W S r.1 ∧ P S) S := by
  refine hp.bind fun S' r hr => ?_
  obtain ⟨o, e⟩ := r
  cases e with
  | none => exact hk _ _ hr.1 hr.2
  | some e => exact hr

theorem yields_wstat (i c) : YieldsTo W b S (pwstat i c o) := by
  unfold pwstat
  split
  · exact ho
  · rename_i f hf
    have hff : W i → ∀ h, f.file = some h → S h := fun hi h hh => ho _ _ _ hi hf hh
    split
    · trivial
    · exact ho
    · rename_i dir t b' hd
      dsimp only
      generalize hpath : wstatPath f dir o = path
      refine Prog.Yields.bind (Q := fun S r => HeldBy W S r.1 ∧ (W i → ∀ h, f.file = some h → S h)) ?_ fun _ r hr => ?_
      · have up : ∀ {S S' : H → Prop} {o : Obj H}, HeldBy W S o → (W i → ∀ h, f.file = some h → S h) →
            HeldBy W (fun h => S h ∨ S' h) o ∧ (W i → ∀ h, f.file = some h → S h ∨ S' h) :=
          fun h1 h2 => ⟨h1.or, fun hi h hh => .inl (h2 hi h hh)⟩
        refine yields_andThen (P := fun S => W i → ∀ h, f.file = some h → S h) ?_ fun S o ho hff => yields_andThen (P := fun S => W i → ∀ h, f.file = some h → S h) ?_ fun S o ho hff =>
          yields_andThen (P := fun S => W i → ∀ h, f.file = some h → S h) ?_ fun S o ho hff =>
          yields_andThen (P := fun S => W i → ∀ h, f.file = some h → S h) ?_ fun S o ho hff => yields_andThen (P := fun S => W i → ∀ h, f.file = some h → S h) ?_ fun S o ho hff => ?_
        · unfold pwstatMode
          split
          · exact fun _ => up ho hff
          · exact ⟨ho, hff⟩
        · unfold pwstatUser
          split <;> exact ⟨ho, hff⟩
        · unfold pwstatName
          split
          · intro r
            dsimp only
            split
            · exact up ho hff
            · intro r
              cases r with
              | none => exact ⟨ho.or.or.set _ fun hi h hh => .inl (.inl (hff hi h hh)), fun hi h hh => .inl (.inl (hff hi h hh))⟩
              | some e => exact up ho.or fun hi h hh => .inl (hff hi h hh)
          · exact ⟨ho, hff⟩
        · unfold pwstatLength
          split
          · exact fun _ => up ho hff
          · exact ⟨ho, hff⟩
        · unfold pwstatTimes
          split
          · split
            · intro r
              cases r with
              | error e => exact up ho hff
              | ok st => exact fun _ => up ho.or fun hi h hh => .inl (hff hi h hh)
            · exact fun _ => up ho hff
          · exact ⟨ho, hff⟩
        · unfold pwstatSync
          split
          · split
            · exact ⟨ho, hff⟩
            · exact fun _ => up ho hff
          · exact ⟨ho, hff⟩
      · obtain ⟨o, e⟩ := r
        cases e <;> exact hr.1

theorem yields_readDir (user i) (f : File H) (hf : W i → ∀ h, f.file = some h → S h) (x c) : YieldsTo W b S (preadDir user i f x c o) := by
  unfold preadDir
  dsimp only
  split
  · exact (ho.set _ (by exact hf)).set _ (by exact hf)
  · intro r
    have h1 : ∀ {S' : H → Prop}, HeldBy W (fun h => S h ∨ S' h) (o.set i { f with oflow := [] }) :=
      fun {_} => HeldBy.or (ho.set _ (by exact hf))
    cases r with
    | eof => exact h1
    | fail e => exact h1
    | entry st => dsimp only; split <;> exact h1

theorem yields_read (user i off c) : YieldsTo W b S (pread user i off c o) := by
  unfold pread
  split
  · exact ho
  · rename_i f hf
    have hff : W i → ∀ h, f.file = some h → S h := fun hi h hh => ho _ _ _ hi hf hh
    split
    · exact ho
    · split
      · split
        · intro r
          have h1 : ∀ {S' : H → Prop}, HeldBy W (fun h => S h ∨ S' h) (o.set i { f with oflow := [] }) :=
            fun {_} => HeldBy.or (ho.set _ (by exact hff))
          cases r with
          | some e => exact h1
          | none => exact yields_readDir h1 _ _ { f with oflow := [] } (fun hi h hh => .inl (hff hi h hh)) _ _
        · exact yields_readDir ho _ _ _ hff _ _
      · split
        · trivial
        · intro r
          obtain ⟨d, e⟩ := r
          cases e <;> exact ho.or

theorem yields_write (i off d) : YieldsTo W b S (pwrite i off d o) := by
  unfold pwrite
  split
  · exact ho
  · split
    · exact ho
    · intro r
      obtain ⟨n, e⟩ := r
      cases e <;> exact ho.or

omit ho in
theorem yields_srv {Pk Q : Type} {dec : Buffer → Unm Pk} {met : Pk → Obj H → Met H Q} {enc : Buffer → Tag → Q → Buffer}
    {v : Bool} {bf : Buffer} (h : ∀ p t e b', dec bf = .done p t e b' → YieldsTo W b S (met p o)) : YieldsTo W b S (psrv dec met enc o v bf) := by
  unfold psrv
  cases hd : dec bf with
  | panic => trivial
  | done p t e b' =>
    refine (h p t e b' hd).bind fun _ r hr => ?_
    obtain ⟨o, r⟩ := r
    cases r <;> exact hr

theorem yields_dispatch (user v bf t) (hs : ∀ m, PacketAsks t bf m → SharesFor W m ∧ (OpensFor W m → b)) : YieldsTo W b S (pdispatch user o v bf t) := by
  have key : ∀ v, YieldsTo W b S (pdispatchTable user o v bf t) := by
    intro v
    unfold pdispatchTable
    by_cases h : t = MT.Tversion
    · rw [if_pos h]; exact yields_srv fun p _ _ _ _ => yields_version ho _ _
    rw [if_neg h]; clear h
    by_cases h : t = MT.Tattach
    · rw [if_pos h]; exact yields_srv fun p _ _ _ _ => yields_attach ho _ _ _ _
    rw [if_neg h]; clear h
    by_cases h : t = MT.Tflush
    · rw [if_pos h]; exact yields_srv fun p _ _ _ _ => ho
    rw [if_neg h]; clear h
    by_cases h : t = MT.Twalk
    · rw [if_pos h]
      exact yields_srv fun p tg e b' hd => yields_walk ho _ _ _ (hs (.walk p) ⟨.walk p, tg, e, b', h.symm, by unfold decT Unm.map; rw [hd]⟩).1
    rw [if_neg h]; clear h
    by_cases h : t = MT.Topen
    · rw [if_pos h]
      exact yields_srv fun p tg e b' hd => yields_open ho _ _ (hs (.open_ p) ⟨.open_ p, tg, e, b', h.symm, by unfold decT Unm.map; rw [hd]⟩).2
    rw [if_neg h]; clear h
    by_cases h : t = MT.Tcreate
    · rw [if_pos h]
      exact yields_srv fun p tg e b' hd => yields_create ho _ _ _ _ (hs (.create p) ⟨.create p, tg, e, b', h.symm, by unfold decT Unm.map; rw [hd]⟩).2
    rw [if_neg h]; clear h
    by_cases h : t = MT.Tclunk
    · rw [if_pos h]; exact yields_srv fun p _ _ _ _ => yields_clunk ho _
    rw [if_neg h]; clear h
    by_cases h : t = MT.Tstat
    · rw [if_pos h]; exact yields_srv fun p _ _ _ _ => yields_stat ho _ _
    rw [if_neg h]; clear h
    by_cases h : t = MT.Twstat
    · rw [if_pos h]; exact yields_srv fun p _ _ _ _ => yields_wstat ho _ _
    rw [if_neg h]; clear h
    by_cases h : t = MT.Tremove
    · rw [if_pos h]; exact yields_srv fun p _ _ _ _ => yields_remove ho _
    rw [if_neg h]; clear h
    by_cases h : t = MT.Tread
    · rw [if_pos h]; exact yields_srv fun p _ _ _ _ => yields_read ho _ _ _ _
    rw [if_neg h]; clear h
    by_cases h : t = MT.Twrite
    · rw [if_pos h]; exact yields_srv fun p _ _ _ _ => yields_write ho _ _ _
    rw [if_neg h]; clear h
    exact ho
  unfold pdispatch
  split
  · exact key _
  · split
    · split
      · exact ho
      · trivial
    · exact key _

end
end Ninep.Ufs
