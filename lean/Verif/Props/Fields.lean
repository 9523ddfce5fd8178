import Verif.Props.Ignored
/-
Exactly which fields of the requests the file server does not look at (C114, the other direction): every field but
the ones of Ignored.lean makes a difference that a client can see.
-/

namespace Ninep.Ufs
open Spec

/-- The fields of the requests, those of the record in a wstat among them. -/
inductive ReqField where
  | versionSize | versionName
  | attachFid | attachAfid | attachUser | attachName
  | flushTag
  | walkFid | walkNewFid | walkNames
  | openFid | openMode
  | createFid | createName | createPerm | createMode
  | clunkFid | removeFid | statFid
  | readFid | readOffset | readCount
  | writeFid | writeOffset | writeData
  | wstatFid | wstatType | wstatDev | wstatQid | wstatMode | wstatModeHigh | wstatAtime | wstatMtime | wstatLength
  | wstatName | wstatUser | wstatGroup | wstatModUser
deriving DecidableEq

/-- Two requests that differ at most in one field.  `wstatModeHigh` stands for the bits of a mode above the nine
permission bits, where the mode is not all ones (which means that it is to be kept). -/
inductive Differ : ReqField → TMsg → TMsg → Prop
  | versionSize (p : TversionPkt) (x : MaxSize) : Differ .versionSize (.version p) (.version { p with TMsize := x })
  | versionName (p : TversionPkt) (x : GoString) : Differ .versionName (.version p) (.version { p with TVersion := x })
  | attachFid (p : TattachPkt) (x : FID) : Differ .attachFid (.attach p) (.attach { p with SFID := x })
  | attachAfid (p : TattachPkt) (x : FID) : Differ .attachAfid (.attach p) (.attach { p with AFID := x })
  | attachUser (p : TattachPkt) (x : GoString) : Differ .attachUser (.attach p) (.attach { p with Uname := x })
  | attachName (p : TattachPkt) (x : GoString) : Differ .attachName (.attach p) (.attach { p with Aname := x })
  | flushTag (p : TflushPkt) (x : Tag) : Differ .flushTag (.flush p) (.flush { p with OTag := x })
  | walkFid (p : TwalkPkt) (x : FID) : Differ .walkFid (.walk p) (.walk { p with SFID := x })
  | walkNewFid (p : TwalkPkt) (x : FID) : Differ .walkNewFid (.walk p) (.walk { p with NewFID := x })
  | walkNames (p : TwalkPkt) (x : List GoString) : Differ .walkNames (.walk p) (.walk { p with Paths := x })
  | openFid (p : TopenPkt) (x : FID) : Differ .openFid (.open_ p) (.open_ { p with OFID := x })
  | openMode (p : TopenPkt) (x : Mode) : Differ .openMode (.open_ p) (.open_ { p with Omode := x })
  | createFid (p : TcreatePkt) (x : FID) : Differ .createFid (.create p) (.create { p with OFID := x })
  | createName (p : TcreatePkt) (x : GoString) : Differ .createName (.create p) (.create { p with Name := x })
  | createPerm (p : TcreatePkt) (x : Perm) : Differ .createPerm (.create p) (.create { p with CreatePerm := x })
  | createMode (p : TcreatePkt) (x : Mode) : Differ .createMode (.create p) (.create { p with Omode := x })
  | clunkFid (p : TclunkPkt) (x : FID) : Differ .clunkFid (.clunk p) (.clunk { p with OFID := x })
  | removeFid (p : TremovePkt) (x : FID) : Differ .removeFid (.remove p) (.remove { p with OFID := x })
  | statFid (p : TstatPkt) (x : FID) : Differ .statFid (.stat p) (.stat { p with OFID := x })
  | readFid (p : TreadPkt) (x : FID) : Differ .readFid (.read p) (.read { p with OFID := x })
  | readOffset (p : TreadPkt) (x : Offset) : Differ .readOffset (.read p) (.read { p with Off := x })
  | readCount (p : TreadPkt) (x : Count) : Differ .readCount (.read p) (.read { p with Len := x })
  | writeFid (p : TwritePkt) (x : FID) : Differ .writeFid (.write p) (.write { p with OFID := x })
  | writeOffset (p : TwritePkt) (x : Offset) : Differ .writeOffset (.write p) (.write { p with Off := x })
  | writeData (p : TwritePkt) (x : Bytes) : Differ .writeData (.write p) (.write { p with Data := x })
  | wstatFid (p : TwstatPkt) (x : FID) : Differ .wstatFid (.wstat p) (.wstat { p with OFID := x })
  | wstatType (fid : FID) (d : Dir) (x : UInt16) (h : DirFits d) : Differ .wstatType (.wstat ⟨fid, Spec.dir d⟩)
      (.wstat ⟨fid, Spec.dir { d with Typ := x }⟩)
  | wstatDev (fid : FID) (d : Dir) (x : UInt32) (h : DirFits d) : Differ .wstatDev (.wstat ⟨fid, Spec.dir d⟩)
      (.wstat ⟨fid, Spec.dir { d with Dev := x }⟩)
  | wstatQid (fid : FID) (d : Dir) (x : QID) (h : DirFits d) : Differ .wstatQid (.wstat ⟨fid, Spec.dir d⟩)
      (.wstat ⟨fid, Spec.dir { d with QID := x }⟩)
  | wstatMode (fid : FID) (d : Dir) (x : UInt32) (h : DirFits d) : Differ .wstatMode (.wstat ⟨fid, Spec.dir d⟩)
      (.wstat ⟨fid, Spec.dir { d with Mode := x }⟩)
  | wstatModeHigh (fid : FID) (d : Dir) (x : UInt32) (h : DirFits d) (h1 : d.Mode.toNat ≠ 2 ^ 32 - 1)
      (h2 : x.toNat ≠ 2 ^ 32 - 1) (h3 : x.toNat % 512 = d.Mode.toNat % 512) :
      Differ .wstatModeHigh (.wstat ⟨fid, Spec.dir d⟩) (.wstat ⟨fid, Spec.dir { d with Mode := x }⟩)
  | wstatAtime (fid : FID) (d : Dir) (x : UInt32) (h : DirFits d) : Differ .wstatAtime (.wstat ⟨fid, Spec.dir d⟩)
      (.wstat ⟨fid, Spec.dir { d with Atime := x }⟩)
  | wstatMtime (fid : FID) (d : Dir) (x : UInt32) (h : DirFits d) : Differ .wstatMtime (.wstat ⟨fid, Spec.dir d⟩)
      (.wstat ⟨fid, Spec.dir { d with Mtime := x }⟩)
  | wstatLength (fid : FID) (d : Dir) (x : UInt64) (h : DirFits d) : Differ .wstatLength (.wstat ⟨fid, Spec.dir d⟩)
      (.wstat ⟨fid, Spec.dir { d with Length := x }⟩)
  | wstatName (fid : FID) (d : Dir) (x : GoString) (h : DirFits d) (hx : DirFits { d with Name := x }) :
      Differ .wstatName (.wstat ⟨fid, Spec.dir d⟩) (.wstat ⟨fid, Spec.dir { d with Name := x }⟩)
  | wstatUser (fid : FID) (d : Dir) (x : GoString) (h : DirFits d) (hx : DirFits { d with User := x }) :
      Differ .wstatUser (.wstat ⟨fid, Spec.dir d⟩) (.wstat ⟨fid, Spec.dir { d with User := x }⟩)
  | wstatGroup (fid : FID) (d : Dir) (x : GoString) (h : DirFits d) (hx : DirFits { d with Group := x }) :
      Differ .wstatGroup (.wstat ⟨fid, Spec.dir d⟩) (.wstat ⟨fid, Spec.dir { d with Group := x }⟩)
  | wstatModUser (fid : FID) (d : Dir) (x : GoString) (h : DirFits d) (hx : DirFits { d with ModUser := x }) :
      Differ .wstatModUser (.wstat ⟨fid, Spec.dir d⟩) (.wstat ⟨fid, Spec.dir { d with ModUser := x }⟩)

/-- what a client is told: nothing if the server panics, an error, or a reply -/
abbrev Told := Option (Except GoString RMsg)

/-- what a client is told when it sends requests one after the other -/
def toldAll {ω H : Type} (host : Host ω H) (user : GoString) : List TMsg → State ω H → List Told
  | [], _ => []
  | m :: ms, s =>
    match call (ufs host user) m s with
    | .panic => [none]
    | .ok s' r => some (.ok r) :: toldAll host user ms s'
    | .err s' e => some (.error e) :: toldAll host user ms s'

/-- the same but for the size in a version reply -/
inductive SameTold : Told → Told → Prop
  | same (x : Told) : SameTold x x
  | echo (r r' : RMsg) (h : Echo r r') : SameTold (some (.ok r)) (some (.ok r'))

/-- A field makes no difference: whatever the host, the root, the requests before and those after, requests that
differ in it only are answered in the same way, as are all that follow. -/
def NoDifference (f : ReqField) : Prop :=
  ∀ (ω H : Type) (host : Host ω H) (user rootPath : GoString) (w : ω) (before after : List TMsg) (m m' : TMsg),
    Differ f m m' → Pairs SameTold (toldAll host user (before ++ m :: after) (newFS rootPath w))
      (toldAll host user (before ++ m' :: after) (newFS rootPath w))

theorem pairs_refl {α : Type} {R : α → α → Prop} (h : ∀ a, R a a) (as : List α) : Pairs R as as := by
  induction as with
  | nil => exact .nil
  | cons a as ih => exact .cons (h a) ih

theorem told_alike {ω H : Type} (host : Host ω H) (user : GoString) (before after : List TMsg) (m m' : TMsg)
    (h : Alike m m') (s : State ω H) :
    Pairs SameTold (toldAll host user (before ++ m :: after) s) (toldAll host user (before ++ m' :: after) s) := by
  induction before generalizing s with
  | nil =>
    have hc := C114_call_partial (host := host) (user := user) m m' h s
    simp only [List.nil_append, toldAll]
    generalize call (ufs host user) m s = x at hc ⊢
    generalize call (ufs host user) m' s = y at hc ⊢
    cases hc with
    | panic => exact .cons (.same _) .nil
    | err s e => exact .cons (.same _) (pairs_refl .same _)
    | ok s r r' he => exact .cons (.echo _ _ he) (pairs_refl .same _)
  | cons b bs ih =>
    simp only [List.cons_append, toldAll]
    cases call (ufs host user) b s with
    | panic => exact .cons (.same _) .nil
    | ok s' r => exact .cons (.same _) (ih s')
    | err s' e => exact .cons (.same _) (ih s')

/-- without the size in a version reply -/
def strip : Told → Told
  | some (.ok (.version p)) => some (.ok (.version { p with RMsize := 0 }))
  | x => x

theorem sameTold_strip {x y : Told} (h : SameTold x y) : strip x = strip y := by
  cases h with
  | same => rfl
  | echo r r' h => cases h <;> rfl

theorem pairs_strip {xs ys : List Told} (h : Pairs SameTold xs ys) : xs.map strip = ys.map strip := by
  induction h with
  | nil => rfl
  | cons h _ ih => rw [List.map_cons, List.map_cons, sameTold_strip h, ih]

/-- The fields that make no difference. -/
def ignored : List ReqField :=
  [.versionSize, .attachUser, .flushTag, .wstatType, .wstatDev, .wstatQid, .wstatModeHigh, .wstatModUser]

theorem ignored_alike (f : ReqField) (hf : f ∈ ignored) (m m' : TMsg) (h : Differ f m m') : Alike m m' := by
  have hw : ∀ d d' : Dir, d'.Name = d.Name → d'.User = d.User → d'.Group = d.Group → d'.Length = d.Length →
      d'.Atime = d.Atime → d'.Mtime = d.Mtime → d'.Mode = d.Mode → SameWish d d' := fun d d' a b c e f g i =>
    ⟨a, e, f, g, b, c, by rw [i], by rw [i]⟩
  cases h with
  | versionSize p x => exact .version _ _ _
  | attachUser p x => exact .attach _ _ _ _ _
  | flushTag p x => exact .flush _ _
  | wstatType fid d x h => exact .wstat _ _ _ h h (hw _ _ rfl rfl rfl rfl rfl rfl rfl)
  | wstatDev fid d x h => exact .wstat _ _ _ h h (hw _ _ rfl rfl rfl rfl rfl rfl rfl)
  | wstatQid fid d x h => exact .wstat _ _ _ h h (hw _ _ rfl rfl rfl rfl rfl rfl rfl)
  | wstatModUser fid d x h hx => exact .wstat _ _ _ h hx (hw _ _ rfl rfl rfl rfl rfl rfl rfl)
  | wstatModeHigh fid d x h h1 h2 h3 =>
    refine .wstat _ _ _ h h ⟨rfl, rfl, rfl, rfl, rfl, rfl, ?_, h3⟩
    exact ⟨fun e => absurd e h2, fun e => absurd e h1⟩
  | _ => exact absurd hf (by decide)

namespace Mem

/-- a record of a wstat that asks for nothing -/
def noWish : Dir where
  Mode := 0xFFFFFFFF
  Atime := 0xFFFFFFFF
  Mtime := 0xFFFFFFFF
  Length := 0xFFFFFFFFFFFFFFFF

theorem fits_short (d : Dir) (h1 : d.Name.length < 9) (h2 : d.User.length < 9) (h3 : d.Group.length < 9)
    (h4 : d.ModUser.length < 9) : DirFits d := by
  refine ⟨?_, ?_, ?_, ?_⟩ <;> omega

/-- A field makes a difference if two requests that differ in it only lead to different answers on the example host. -/
theorem difference (f : ReqField) (before after : List TMsg) (m m' : TMsg) (h : Differ f m m')
    (hne : ((toldAll host [103] (before ++ m :: after) demo).map strip ≠
      (toldAll host [103] (before ++ m' :: after) demo).map strip)) : ¬ NoDifference f :=
  fun hn => hne (pairs_strip (hn _ _ host [103] [47, 120] world0 before after m m' h))

end Mem

open Mem in
theorem others_matter (f : ReqField) (hf : f ∉ ignored) : ¬ NoDifference f := by
  cases f with
  | versionSize => exact absurd (by decide) hf
  | attachUser => exact absurd (by decide) hf
  | flushTag => exact absurd (by decide) hf
  | wstatType => exact absurd (by decide) hf
  | wstatDev => exact absurd (by decide) hf
  | wstatQid => exact absurd (by decide) hf
  | wstatModeHigh => exact absurd (by decide) hf
  | wstatModUser => exact absurd (by decide) hf
  | versionName => exact difference _ [] [] _ _ (.versionName {} (lit "9P2000")) (by decide +kernel)
  | attachFid => exact difference _ [] [.stat ⟨1⟩] _ _ (.attachFid { AFID := NOFID } 1) (by decide +kernel)
  | attachAfid => exact difference _ [] [] _ _ (.attachAfid { AFID := NOFID } 1) (by decide +kernel)
  | attachName => exact difference _ [] [] _ _ (.attachName { AFID := NOFID } [102]) (by decide +kernel)
  | walkFid => exact difference _ [attach0] [] _ _ (.walkFid { SFID := 0, NewFID := 1, Paths := [[102]] } 2) (by decide +kernel)
  | walkNewFid => exact difference _ [attach0] [.stat ⟨2⟩] _ _ (.walkNewFid { SFID := 0, NewFID := 1, Paths := [[102]] } 2) (by decide +kernel)
  | walkNames => exact difference _ [attach0] [] _ _ (.walkNames { SFID := 0, NewFID := 1, Paths := [[102]] } [[100]]) (by decide +kernel)
  | openFid => exact difference _ [attach0, walk1] [] _ _ (.openFid { OFID := 0 } 1) (by decide +kernel)
  | openMode => exact difference _ [attach0] [] _ _ (.openMode { OFID := 0 } 1) (by decide +kernel)
  | createFid => exact difference _ [attach0] [] _ _ (.createFid { OFID := 0, Name := [97] } 1) (by decide +kernel)
  | createName => exact difference _ [attach0] [.stat ⟨0⟩] _ _ (.createName { OFID := 0, Name := [97] } [98]) (by decide +kernel)
  | createPerm => exact difference _ [attach0] [.stat ⟨0⟩] _ _ (.createPerm { OFID := 0, Name := [97], CreatePerm := 0o600 } 0o644) (by decide +kernel)
  | createMode => exact difference _ [attach0] [] _ _ (.createMode { OFID := 0, Name := [100] } 1) (by decide +kernel)
  | clunkFid => exact difference _ [attach0] [] _ _ (.clunkFid { OFID := 0 } 1) (by decide +kernel)
  | removeFid => exact difference _ [attach0] [] _ _ (.removeFid { OFID := 0 } 1) (by decide +kernel)
  | statFid => exact difference _ [attach0, walk1] [] _ _ (.statFid { OFID := 0 } 1) (by decide +kernel)
  | readFid => exact difference _ [attach0, walk1, open1] [] _ _ (.readFid { OFID := 1, Len := 2 } 0) (by decide +kernel)
  | readOffset => exact difference _ [attach0, walk1, open1] [] _ _ (.readOffset { OFID := 1, Len := 2 } 1) (by decide +kernel)
  | readCount => exact difference _ [attach0, walk1, open1] [] _ _ (.readCount { OFID := 1, Len := 2 } 1) (by decide +kernel)
  | writeFid => exact difference _ [attach0, walk1, open1] [] _ _ (.writeFid { OFID := 1, Data := [7] } 0) (by decide +kernel)
  | writeOffset => exact difference _ [attach0, walk1, open1] [.read { OFID := 1, Len := 4 }] _ _ (.writeOffset { OFID := 1, Data := [7] } 1) (by decide +kernel)
  | writeData => exact difference _ [attach0, walk1, open1] [.read { OFID := 1, Len := 4 }] _ _ (.writeData { OFID := 1, Data := [7] } [8]) (by decide +kernel)
  | wstatFid => exact difference _ [attach0] [] _ _ (.wstatFid { OFID := 0, B := Spec.dir noWish } 1) (by decide +kernel)
  | wstatMode => exact difference _ [attach0] [.stat ⟨0⟩] _ _ (.wstatMode 0 noWish 0o600 (fits_short _ (by decide) (by decide) (by decide) (by decide))) (by decide +kernel)
  | wstatAtime =>
    exact difference _ [attach0, walk1, .walk { SFID := 0, NewFID := 2, Paths := [[102]] }, .remove ⟨2⟩] [] _ _
      (.wstatAtime 1 noWish 5 (fits_short _ (by decide) (by decide) (by decide) (by decide))) (by decide +kernel)
  | wstatMtime => exact difference _ [attach0] [.stat ⟨0⟩] _ _ (.wstatMtime 0 noWish 5 (fits_short _ (by decide) (by decide) (by decide) (by decide))) (by decide +kernel)
  | wstatLength => exact difference _ [attach0, walk1] [.stat ⟨1⟩] _ _ (.wstatLength 1 noWish 5 (fits_short _ (by decide) (by decide) (by decide) (by decide))) (by decide +kernel)
  | wstatName =>
    exact difference _ [attach0, walk1] [.stat ⟨1⟩] _ _ (.wstatName 1 noWish [97] (fits_short _ (by decide) (by decide) (by decide) (by decide))
      (fits_short _ (by decide) (by decide) (by decide) (by decide))) (by decide +kernel)
  | wstatUser =>
    exact difference _ [attach0, walk1] [] _ _ (.wstatUser 1 noWish [97] (fits_short _ (by decide) (by decide) (by decide) (by decide))
      (fits_short _ (by decide) (by decide) (by decide) (by decide))) (by decide +kernel)
  | wstatGroup =>
    exact difference _ [attach0, walk1] [] _ _ (.wstatGroup 1 noWish [97] (fits_short _ (by decide) (by decide) (by decide) (by decide))
      (fits_short _ (by decide) (by decide) (by decide) (by decide))) (by decide +kernel)

/-- **C114, partial** A field makes no difference, to the answer and to all later answers, for whatever host and in
whatever history, if and only if it is the size of a version, the user name of an attach, the tag of a flush or, in
a wstat, the type, the device, the qid, the last modifier or the upper bits of the mode. -/
theorem C114_exact_partial (f : ReqField) : NoDifference f ↔ f ∈ ignored := by
  constructor
  · intro h
    exact Classical.byContradiction fun hf => others_matter f hf h
  · intro hf ω H host user rootPath w before after m m' h
    exact told_alike host user before after m m' (ignored_alike f hf m m' h) _

/-- C114: there are requests that differ in a field that makes no difference, and others -/
example : Differ .attachUser (.attach { AFID := NOFID }) (.attach { AFID := NOFID, Uname := [114] }) ∧
    Differ .readCount (.read { OFID := 1, Len := 2 }) (.read { OFID := 1, Len := 1 }) :=
  ⟨.attachUser { AFID := NOFID } [114], .readCount { OFID := 1, Len := 2 } 1⟩

end Ninep.Ufs
