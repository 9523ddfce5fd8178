import Verif.Props.Listing

set_option linter.unusedSimpArgs false
set_option linter.unusedVariables false

/-!
# Files that are made, removed and renamed through a client (C105)
-/

namespace Ninep.Client
open Spec Ufs
variable {ω H α : Type}

/-! ### the programs -/

/-- negotiate the version, attach and walk; fid 1 stands for what has been found -/
def goTo (path : List GoString) (k : Job Got) : Job Got :=
  Job.ok (.version ⟨8192, lit "9P2000"⟩) fun _ =>
  Job.ok (.attach ⟨0, NOFID, [], []⟩) fun _ =>
  Job.ok (.walk ⟨0, 1, path⟩) fun r =>
  match r with
  | .walk q => if q.QIDs.length = path.length then k else .ret .failed
  | _ => .ret .failed

/-- make a plain file in a directory and write the pieces `bs` -/
def maker (dir : List GoString) (name : GoString) (perm : Perm) (bs : List Bytes) : Job Got :=
  goTo dir (Job.ok (.create ⟨1, name, perm, 1⟩) fun _ => writeAll 1 bs 0 [])

/-- remove a file -/
def eraser (path : List GoString) : Job Got := goTo path (Job.ok (.remove ⟨1⟩) fun _ => .ret (.whole []))

/-- a stat record that asks for another name and nothing else -/
def nameOnly (name : GoString) : Dir :=
  { Typ := 0xFFFF, Dev := 0xFFFFFFFF, QID := ⟨0xFF, 0xFFFFFFFF, 0xFFFFFFFFFFFFFFFF⟩, Mode := 0xFFFFFFFF, Atime := 0xFFFFFFFF,
    Mtime := 0xFFFFFFFF, Length := 0xFFFFFFFFFFFFFFFF, Name := name }

/-- give a file another name -/
def mover (path : List GoString) (name : GoString) : Job Got :=
  goTo path (Job.ok (.wstat ⟨1, (marshaldir {} (nameOnly name)).bytes⟩) fun _ => Job.ok (.clunk ⟨1⟩) fun _ => .ret (.whole []))

theorem goTo_proper {path : List GoString} (hp : GoodPath path) {k : Job Got} (hk : k.All Sendable) : (goTo path k).Proper := by
  unfold GoodPath at hp
  have e1 : (lit "9P2000").length = 6 := by decide
  refine ⟨⟨_, rfl⟩, ?_⟩
  refine Job.ok_all ⟨by simp [Ordinary, e1], by simp [TMsg.Fits, e1], short_packet (by decide)⟩ fun _ => ?_
  refine Job.ok_all ⟨trivial, by simp [TMsg.Fits], short_packet (by decide)⟩ fun _ => ?_
  refine Job.ok_all ⟨show (path.map List.length).sum + path.length ≤ 65000 by omega, ⟨by dsimp only; omega, fun s (hs : s ∈ path) => ?_⟩, fun t => ?_⟩ fun r => ?_
  · have := mem_le_sum (List.mem_map_of_mem (f := List.length) hs)
    omega
  · have hlen : ∀ l : List GoString, (l.map fun s => (Spec.str s).length).sum = (l.map List.length).sum + 2 * l.length := by
      intro l
      induction l with
      | nil => rfl
      | cons a l ih => rw [List.map_cons, List.sum_cons, ih]; simp [Spec.str]; omega
    have := hlen path
    simp only [TMsg.packet, Spec.packet, TMsg.body, TMsg.fields, List.length_append, List.length_flatten, List.map_map, Function.comp_def, le_length]
    omega
  · cases r <;> first | trivial | skip
    dsimp only
    split
    · exact hk
    · trivial

theorem maker_proper {dir : List GoString} (hp : GoodPath dir) {name : GoString} (hn : name.length < 2 ^ 16) (perm : Perm) {bs : List Bytes}
    (hb : ∀ b ∈ bs, b.length < 2 ^ 31) : (maker dir name perm bs).Proper := by
  refine goTo_proper hp (Job.ok_all ⟨trivial, hn, fun t => ?_⟩ fun _ => writeAll_all _ hb _ _)
  simp [TMsg.packet, Spec.packet, TMsg.body, TMsg.fields, Spec.str]
  omega

theorem eraser_proper {path : List GoString} (hp : GoodPath path) : (eraser path).Proper :=
  goTo_proper hp (Job.ok_all ⟨trivial, trivial, short_packet (by simp [TMsg.fields])⟩ fun _ => trivial)

theorem nameOnly_length (name : GoString) : (marshaldir {} (nameOnly name)).bytes.length = 49 + name.length := by
  rw [marshaldir_eq]
  simp [encoded, Buffer.bytes, Spec.dir, Spec.dirFields, Spec.qid, Spec.str, nameOnly]
  omega

theorem mover_proper {path : List GoString} (hp : GoodPath path) {name : GoString} (hn : name.length < 2 ^ 15) : (mover path name).Proper := by
  have := nameOnly_length name
  refine goTo_proper hp (Job.ok_all ⟨trivial, ?_, fun t => ?_⟩ fun _ =>
    Job.ok_all ⟨trivial, trivial, short_packet (by simp [TMsg.fields])⟩ fun _ => trivial)
  · show List.length (marshaldir {} (nameOnly name)).bytes < _
    omega
  · simp [TMsg.packet, Spec.packet, TMsg.body, TMsg.fields]
    omega

/-! ### what they come to -/

/-- The rule for `goTo`.  `I` is kept by the others and by the calls of the walk; `B` says that a call may fail. -/
theorem sure_goTo {host : Host ω H} {R : ω → ω → Prop} (rf : ∀ a, R a a) (tr : ∀ {a b c}, R a b → R b c → R a c) {user root : GoString}
    {Q : Got → ω → Prop} {path : List GoString} {k : Job Got} {I : ω → Prop} {B : Prop}
    (hR : ∀ {w w'}, R w w' → I w → I w') (hB : B → ∀ w, I w → Q .failed w)
    (hs : ∀ w w' r, I w → host.stat (placeOf root []) w = (w', r) → I w' ∧ ∀ e, r = .error e → B)
    (hl : ∀ ms w w' r, ms ≠ [] → ms <+: path → I w → host.lstat (placeOf root ms) w = (w', r) → I w' ∧ ∀ e, r = .error e → B)
    (hk : ∀ o f w, o.files 1 = some f → f.fullName = placeOf root path → f.file = none → o.rootPath = root → I w →
      Sure host R (fun x w => Q x.2 w) (k.prog user o) w)
    {w : ω} (hw : I w) : Sure host R (fun x w => Q x.2 w) ((goTo path k).prog user (newObj root)) w := by
  unfold goTo
  refine sure_ok rf @tr _ _ rfl ?_
  unfold pversion
  rw [if_neg (by simp)]
  intro w1 h1
  have i1 := hR h1 hw
  refine sure_ok rf @tr _ _ rfl ?_
  unfold pattach
  rw [if_neg (by simp)]
  refine sure_call fun w2 h2 w3 r hx => ?_
  obtain ⟨i2, b1⟩ := hs w2 w3 r (hR h2 i1) hx
  cases r with
  | error e => exact fun w4 h4 w5 h5 => hB (b1 e rfl) _ (hR h5 (hR h4 i2))
  | ok st =>
  intro w4 h4
  have i3 := hR h4 i2
  refine sure_ok rf @tr _ _ rfl ?_
  have walked {o : Obj H} {q : List QID} {w : ω} (hw : I w) (hb : q.length ≠ path.length → B)
      (h : q.length = path.length → o.rootPath = root ∧ ∃ f, o.files 1 = some f ∧ f.fullName = placeOf root path ∧ f.file = none) :
      Sure host R (fun x w => Q x.2 w) (Job.prog user (if q.length = path.length then k else .ret .failed) o) w := by
    split
    · rename_i hq
      obtain ⟨f0, f, f1, f2, f3⟩ := h hq
      exact hk o f w f1 f2 f3 f0 hw
    · rename_i hq
      exact fun w1 h1 => hB (hb hq) _ (hR h1 hw)
  have hset : ∀ (o : Obj H) (i : FID) (f : File H), (o.set i f).files i = some f := fun o i f => by simp [State.set]
  unfold pwalk
  dsimp only
  rw [hset]
  dsimp only
  by_cases hp : path = []
  · rw [if_pos hp]
    split
    · rename_i h
      simp [State.set, newObj, newFS] at h
    · intro w5 h5
      refine walked (hR h5 i3) (fun h => absurd (by simp [hp]) h) fun _ => ⟨rfl, _, hset _ _ _, ?_, rfl⟩
      rw [hp]; rfl
  · rw [if_neg hp]
    refine Sure.bind rf ((sure_walkLoop (good := fun _ => true) (B := B) rf @hR path _ (fun ms w w' r a b c d => ⟨(hl ms w w' r a b c d).1, (hl ms w w' r a b c d).2, fun _ _ _ => .inl rfl⟩) [] path rfl i3).imp fun x w hx => ?_)
    obtain ⟨q, r⟩ := x
    obtain ⟨x1, x2, x3⟩ := hx
    cases r with
    | none =>
      obtain ⟨y1, y2⟩ := x2 rfl
      dsimp only
      split
      · exact fun w4 h4 w5 h5 => hB y2 _ (hR h5 (hR h4 x1))
      · refine fun w4 h4 => walked (hR h4 x1) (fun _ => y2) fun h => ?_
        dsimp only at y1
        omega
    | some p =>
      obtain ⟨y1, y2, y3⟩ := x3 _ rfl
      dsimp only
      split
      · rename_i h
        simp [State.set, newObj, newFS] at h
      · exact fun w4 h4 => walked (hR h4 x1) (fun h => absurd y1 h) fun h => ⟨rfl, _, hset _ _ _, y2, rfl⟩

section
variable {ν : Type} {host : Host ω H} {user : GoString} (V : FileView host ν) (N : NameView host ν)

/-- How making, removing and renaming change what is at a path (open(2), unlink(2), rename(2)); nothing can be opened where
nothing is. -/
structure Changes : Prop where
  made : ∀ {p fl m w w' h}, fl / 64 % 2 = 1 → fl / 512 % 2 = 1 → host.openFile p fl m w = (w', .ok h) →
    ∃ v, N.node p w' = some v ∧ V.node h w' = some v ∧ V.content v w' = []
  removed : ∀ {p w w'}, host.remove p w = (w', none) → N.node p w' = none
  moved : ∀ {p q w w' v}, p ≠ q → N.node p w = some v → host.rename p q w = (w', none) → N.node p w' = none
  absent : ∀ {p fl m w}, fl / 64 % 2 = 0 → N.node p w = none → ∃ e, (host.openFile p fl m w).2 = .error e
  stats : ∀ {p q w}, N.node p w = none → N.node p (host.stat q w).1 = none
  lstats : ∀ {p q w}, N.node p w = none → N.node p (host.lstat q w).1 = none

/-- if something is at the path `p`, it is left alone -/
def Spared (p : GoString) (w w' : ω) : Prop := ∀ v, N.node p w = some v → Leaves V N v p w w'

/-- if nothing is at the path `p`, nothing comes there -/
def Vacant (p : GoString) (w w' : ω) : Prop := N.node p w = none → N.node p w' = none

variable {V N}

theorem Spared.refl {p : GoString} (w : ω) : Spared V N p w w := fun v _ => Leaves.refl w

theorem Spared.trans {p : GoString} {a b c : ω} (h : Spared V N p a b) (h' : Spared V N p b c) : Spared V N p a c :=
  fun v hv => (h v hv).trans (h' v ((h v hv).2 hv))

/-- the path of an entry of a directory -/
theorem placeOf_entry (root : GoString) (dir : List GoString) (name : GoString) :
    placeOf root (dir ++ [name]) = pathJoin (placeOf root dir) name := by
  simp [placeOf]

/-- the open flags of `maker` -/
def makeFlags : Nat := modeToUnixFlags 1 ||| O_CREATE ||| O_TRUNC

theorem makeFlags_bits : makeFlags / 64 % 2 = 1 ∧ makeFlags / 512 % 2 = 1 := by decide

/-- In the worlds `J`, a file can be made in this directory and written. -/
structure CanMake (V : FileView host ν) (root : GoString) (dir : List GoString) (name : GoString) (perm : Perm) (J : ω → Prop) (M : H → ω → Prop) : Prop where
  attach : ∀ w w' r, J w → host.stat (placeOf root []) w = (w', r) → J w' ∧ ∃ st, r = .ok st
  walk : ∀ ms w w' r, ms ≠ [] → ms <+: dir → J w → host.lstat (placeOf root ms) w = (w', r) → J w' ∧ ∃ st, r = .ok st
  makes : ∀ w w' r, J w → host.openFile (placeOf root (dir ++ [name])) makeFlags (perm &&& 0o777) w = (w', r) → J w' ∧ ∃ h, r = .ok h ∧ M h w'
  looks : ∀ h w w' r, J w → M h w → host.lstat (placeOf root (dir ++ [name])) w = (w', r) → J w' ∧ M h w' ∧ ∃ st, r = .ok st
  writes : ∀ h b off w w' k e, J w → M h w → host.writeAt h b off w = (w', k, e) → J w' ∧ M h w' ∧ (0 ≤ off.toInt → e = none)

/-- what comes of `maker` -/
def MadeAt (V : FileView host ν) (N : NameView host ν) (p : GoString) (d : Bytes) : Got → ω → Prop
  | .whole x, w => x = d ∧ ∃ v, Lies V N v p d w
  | .part, _ => False
  | .failed, _ => True

theorem sure_maker (hC : Changes V N) {root : GoString} {dir : List GoString} {name : GoString} {perm : Perm} (hp : perm &&& DMDIR = 0)
    {bs : List Bytes} (hb : ∀ b ∈ bs, b.length < 2 ^ 31)
    {R : ω → ω → Prop} (rf : ∀ a, R a a) (tr : ∀ {a b c}, R a b → R b c → R a c) {J : ω → Prop} {M : H → ω → Prop} {B : Prop}
    (hL : ∀ {a b}, R a b → Spared V N (placeOf root (dir ++ [name])) a b) (hJ : ∀ {a b}, R a b → J a → J b) (hM : ∀ {a b}, R a b → ∀ h, M h a → M h b)
    (hcan : CanMake V root dir name perm J M ∨ (B ∧ (∀ w, J w) ∧ ∀ h w, M h w)) (hsz : bs.flatten.length < 2 ^ 63 ∨ B) {w : ω} (hj : J w) :
    Sure host R (fun x w => MadeAt V N (placeOf root (dir ++ [name])) bs.flatten x.2 w ∧ (x.2 = .failed → B))
      ((maker dir name perm bs).prog user (newObj root)) w := by
  refine sure_goTo rf @tr (I := J) (B := B) (Q := fun a w => MadeAt V N (placeOf root (dir ++ [name])) bs.flatten a w ∧ (a = .failed → B))
    (fun h h' => hJ h h') (fun hb _ h => ⟨trivial, fun _ => hb⟩) ?_ ?_ ?_ hj
  · intro w w' r h hx
    rcases hcan with hcan | ⟨hb, hj, hm⟩
    · obtain ⟨j1, st, rfl⟩ := hcan.attach w w' r h hx
      exact ⟨j1, nofun⟩
    · exact ⟨hj _, fun _ _ => hb⟩
  · intro ms w w' r h1 h2 h hx
    rcases hcan with hcan | ⟨hb, hj, hm⟩
    · obtain ⟨j1, st, rfl⟩ := hcan.walk ms w w' r h1 h2 h hx
      exact ⟨j1, nofun⟩
    · exact ⟨hj _, fun _ _ => hb⟩
  · intro o f w f1 f2 f3 f4 hj
    refine sure_ok (Q := fun a w => MadeAt V N (placeOf root (dir ++ [name])) bs.flatten a w ∧ (a = .failed → B)) rf @tr _ _ rfl ?_
    unfold pcreate
    dsimp only
    rw [f1]
    dsimp only
    rw [if_neg (by simp [f3]), if_neg (by simpa using hp), f2, ← placeOf_entry]
    refine sure_call fun w1 g1 w2 r hx => ?_
    have hx : host.openFile (placeOf root (dir ++ [name])) makeFlags (perm &&& 0o777) w1 = (w2, r) := hx
    have h4 : J w2 ∧ (∀ e, r = .error e → B) ∧ ∀ y, r = .ok y → M y w2 := by
      rcases hcan with hcan | ⟨hb, hj, hm⟩
      · obtain ⟨j1, y, rfl, j2⟩ := hcan.makes w1 w2 r (hJ g1 hj) hx
        exact ⟨j1, nofun, fun z hz => by cases hz; exact j2⟩
      · exact ⟨hj _, fun _ _ => hb, fun _ _ => hm _ _⟩
    cases r with
    | error e => exact fun w4 _ w5 _ => ⟨trivial, fun _ => h4.2.1 e rfl⟩
    | ok y =>
      obtain ⟨v, v1, v2, v3⟩ := hC.made makeFlags_bits.1 makeFlags_bits.2 hx
      refine sure_call fun w3 g3 w4 r hy => ?_
      have hy : host.lstat (placeOf root (dir ++ [name])) w3 = (w4, r) := hy
      have l3 := hL g3 v v1
      have k1 : N.node (placeOf root (dir ++ [name])) (host.lstat (placeOf root (dir ++ [name])) w3).1 = some v :=
        N.keeps (c := .lstat (placeOf root (dir ++ [name]))) (by simp [Disturbs]) (l3.2 v1)
      have k2 := V.lstat_calm (placeOf root (dir ++ [name])) w3
      rw [hy] at k1 k2
      have k3 : Lies V N v (placeOf root (dir ++ [name])) [] w4 := ⟨k1, ((k2.2 v).trans l3.1.2).trans v3⟩
      have k4 : V.node y w4 = some v := k2.1 _ _ (l3.1.1 _ _ v2)
      have h5 : J w4 ∧ M y w4 ∧ ∀ e, r = .error e → B := by
        rcases hcan with hcan | ⟨hb, hj, hm⟩
        · obtain ⟨j1, j2, st, rfl⟩ := hcan.looks y w3 w4 r (hJ g3 h4.1) (hM g3 _ (h4.2.2 y rfl)) hy
          exact ⟨j1, j2, nofun⟩
        · exact ⟨hj _, hm _ _, fun _ _ => hb⟩
      cases r with
      | error e => exact fun w4 _ w5 _ => ⟨trivial, fun _ => h5.2.2 e rfl⟩
      | ok st =>
        intro w5 g5
        refine (sure_writeAll (V := V) (N := N) (v := v) (p := placeOf root (dir ++ [name])) (h := y) (B := B) (J := fun w => J w ∧ M y w)
          (f := { f with fullName := placeOf root (dir ++ [name]), qid := fileInfoToQID st, file := some y })
          (Q := fun a w => MadeAt V N (placeOf root (dir ++ [name])) bs.flatten a w ∧ (a = .failed → B)) rf @tr (fun h hv => hL h v hv)
          (fun hr hjm => ⟨hJ hr hjm.1, hM hr y hjm.2⟩) ?_ (by simp [State.set]) rfl bs hb
          (fun hb w hw => ⟨trivial, fun _ => hb⟩) [] (by simpa using hsz) (fun w hw => ⟨⟨rfl, v, hw⟩, nofun⟩) 0 rfl k3 k4 ⟨h5.1, h5.2.1⟩).later @tr g5
        intro b off w w' k e hj hn hx
        rcases hcan with hcan | ⟨hb, hj, hm⟩
        · obtain ⟨j1, j2, j3⟩ := hcan.writes y b off w w' k e hj.1 hj.2 hx
          exact ⟨⟨j1, j2⟩, fun ho y hy => by rw [j3 ho] at hy; cases hy⟩
        · exact ⟨⟨hj _, hm _ _⟩, fun _ _ _ => hb⟩

/-- In the worlds `J`, the file can be reached and removed. -/
structure CanErase (host : Host ω H) (root : GoString) (path : List GoString) (J : ω → Prop) : Prop where
  attach : ∀ w w' r, J w → host.stat (placeOf root []) w = (w', r) → J w' ∧ ∃ st, r = .ok st
  walk : ∀ ms w w' r, ms ≠ [] → ms <+: path → J w → host.lstat (placeOf root ms) w = (w', r) → J w' ∧ ∃ st, r = .ok st
  removes : ∀ w, J w → (host.remove (placeOf root path) w).2 = none

theorem sure_eraser (hC : Changes V N) {root : GoString} {path : List GoString}
    {R : ω → ω → Prop} (rf : ∀ a, R a a) (tr : ∀ {a b c}, R a b → R b c → R a c) {J : ω → Prop} {B : Prop}
    (hL : ∀ {a b}, R a b → Vacant N (placeOf root path) a b) (hJ : ∀ {a b}, R a b → J a → J b)
    (hcan : CanErase host root path J ∨ (B ∧ ∀ w, J w)) {w : ω} (hj : J w) :
    Sure host R (fun x w => (x.2 ≠ .failed → N.node (placeOf root path) w = none) ∧ (x.2 = .failed → B))
      ((eraser path).prog user (newObj root)) w := by
  refine sure_goTo rf @tr (I := J) (B := B) (Q := fun a w => (a ≠ .failed → N.node (placeOf root path) w = none) ∧ (a = .failed → B))
    (fun h h' => hJ h h') (fun hb _ h => ⟨fun h => absurd rfl h, fun _ => hb⟩) ?_ ?_ ?_ hj
  · intro w w' r h hx
    rcases hcan with hcan | ⟨hb, hj⟩
    · obtain ⟨j1, st, rfl⟩ := hcan.attach w w' r h hx
      exact ⟨j1, nofun⟩
    · exact ⟨hj _, fun _ _ => hb⟩
  · intro ms w w' r h1 h2 h hx
    rcases hcan with hcan | ⟨hb, hj⟩
    · obtain ⟨j1, st, rfl⟩ := hcan.walk ms w w' r h1 h2 h hx
      exact ⟨j1, nofun⟩
    · exact ⟨hj _, fun _ _ => hb⟩
  · intro o f w f1 f2 f3 f4 hj
    refine sure_ok (Q := fun a w => (a ≠ .failed → N.node (placeOf root path) w = none) ∧ (a = .failed → B)) rf @tr _ _ rfl ?_
    unfold premove
    dsimp only
    rw [f1]
    dsimp only
    unfold pclunkFile
    rw [f3]
    dsimp only [Prog.bind]
    rw [f2]
    refine sure_call fun w1 g1 w2 r hx => ?_
    have hx : host.remove (placeOf root path) w1 = (w2, r) := hx
    cases r with
    | none => exact fun w3 g3 w4 g4 => ⟨fun _ => hL g4 (hL g3 (hC.removed hx)), nofun⟩
    | some e =>
      refine fun w3 g3 w4 g4 => ⟨fun h => absurd rfl h, fun _ => ?_⟩
      rcases hcan with hcan | ⟨hb, hj⟩
      · have := hcan.removes w1 (hJ g1 hj)
        rw [hx] at this
        cases this
      · exact hb

/-- a program that reads a file where nothing is fails -/
theorem sure_absent (hC : Changes V N) {root : GoString} {path : List GoString} {c : Count} (n : Nat)
    {R : ω → ω → Prop} (rf : ∀ a, R a a) (tr : ∀ {a b c}, R a b → R b c → R a c) (hL : ∀ {a b}, R a b → Vacant N (placeOf root path) a b)
    {w : ω} (hw : N.node (placeOf root path) w = none) :
    Sure host R (fun x _ => x.2 = .failed) ((fetch path c n).prog user (newObj root)) w := by
  refine sure_openAt rf @tr (I := fun w => N.node (placeOf root path) w = none) (K := fun _ _ => False) (B := True) (Q := fun a _ => a = .failed)
    (fun h h' => hL h h') (fun _ _ _ => rfl) ?_ ?_ ?_ (fun _ _ _ _ _ _ _ h => h.elim) hw
  · intro w w' r h hx
    have := hC.stats (q := placeOf root []) h
    rw [hx] at this
    exact ⟨this, fun _ _ => trivial, fun _ _ _ => .inr trivial⟩
  · intro ms w w' r _ _ h hx
    have := hC.lstats (q := placeOf root ms) h
    rw [hx] at this
    exact ⟨this, fun _ _ => trivial, fun _ _ _ => .inr trivial⟩
  · intro w w' r h hx
    obtain ⟨e, he⟩ := hC.absent (m := 0) flags_read.2 h
    rw [hx] at he
    have he : r = .error e := he
    exact ⟨fun _ _ _ => rfl, fun _ _ => trivial, fun y hy => by rw [hy] at he; cases he⟩

/-! ### another name -/

/-- names that lead nowhere else -/
theorem placeOf_under (root : GoString) {path : List GoString} (hp : ∀ n ∈ path, Proper n) : placeOf root path = (rootOf root).under path := by
  have h0 : placeOf root [] = (rootOf root).under [] := by
    show pathJoin root (pathJoin [47] []) = _
    rw [show pathJoin [47] ([] : Bytes) = absPath [] from by decide]
    exact rootOf_join_abs root nofun
  have key : ∀ (names done : List GoString), (∀ n ∈ names, Proper n) → (∀ n ∈ done, Proper n) →
      names.foldl pathJoin ((rootOf root).under done) = (rootOf root).under (done ++ names) := by
    intro names
    induction names with
    | nil => intro done _ _; simp
    | cons n names ih =>
      intro done h1 h2
      have hn := h1 n (by simp)
      rw [List.foldl_cons]
      have e : pathJoin ((rootOf root).under done) n = (rootOf root).under (done ++ [n]) := by
        have h3 : elems n = [n] := by
          have := elems_elem_append (Proper.elem hn) [] (.inl rfl)
          simpa [elems_nil] using this
        have hr := rootOf_proper root
        cases h : rootOf root with
        | abs es =>
          rw [h] at hr
          show pathJoin (absPath (es ++ done)) n = absPath (es ++ (done ++ [n]))
          rw [pathJoin_place (below_proper hr h2), h3, place_of_proper (by simpa using hn), List.append_assoc]
        | rel p =>
          rw [h] at hr
          show pathJoin (RelPlace.path { p with names := p.names ++ done }) n = RelPlace.path { p with names := p.names ++ (done ++ [n]) }
          rw [pathJoin_relPlace (below_proper hr h2), h3, RelPlace.place_of_proper _ (by simpa using hn), List.append_assoc]
      rw [e, ih (done ++ [n]) (fun x hx => h1 x (by simp [hx])) (by
        intro x hx
        rcases List.mem_append.1 hx with h | h
        · exact h2 x h
        · simp at h; subst h; exact hn)]
      simp
  have := key path [] hp nofun
  unfold placeOf at h0 ⊢
  rw [show pathJoin root (pathJoin [47] []) = (rootOf root).under [] from h0, this]
  rfl

/-- a wstat with another name asks for the path where the file would be found under this name -/
theorem rename_place (root : GoString) {dir : List GoString} (hd : ∀ n ∈ dir, Proper n) {old name : GoString} (ho : Proper old) (hn : Proper name) :
    renameTo root (placeOf root (dir ++ [old])) name = placeOf root (dir ++ [name]) := by
  have all (x : GoString) (hx : Proper x) : ∀ n ∈ dir ++ [x], Proper n := by
    intro n h
    rcases List.mem_append.1 h with h | h
    · exact hd n h
    · simp at h; subst h; exact hx
  have hr := rootOf_proper root
  unfold renameTo
  rw [if_neg (by
    unfold isAbs
    cases name with
    | nil => exact fun _ => hn.1 rfl
    | cons a t =>
      simp only [List.head?_cons, Option.some.injEq, decide_eq_true_eq]
      rintro rfl
      exact hn.2.1 (by simp [slash])),
    placeOf_under root (all old ho), placeOf_under root (all name hn), under_dir hr (all old ho) (by simp), pathJoin_slash]
  have h3 : elems name = [name] := by
    have := elems_elem_append (Proper.elem hn) [] (.inl rfl)
    simpa [elems_nil] using this
  rw [h3, place_of_proper (by simpa using hn)]
  simp only [List.dropLast_concat, List.nil_append]
  exact under_join_abs hr hd (by simpa using hn)

theorem under_inj {root : Root} (hr : root.Proper) {a b : List Bytes} (ha : ∀ n ∈ a, Proper n) (hb : ∀ n ∈ b, Proper n)
    (h : root.under a = root.under b) : a = b := by
  cases root with
  | abs es =>
    have h : absPath (es ++ a) = absPath (es ++ b) := h
    have h2 := congrArg elems h
    rw [elems_absPath' fun e he => Proper.elem (below_proper hr ha e he), elems_absPath' fun e he => Proper.elem (below_proper hr hb e he)] at h2
    exact List.append_cancel_left h2
  | rel p =>
    have h : RelPlace.path { p with names := p.names ++ a } = RelPlace.path { p with names := p.names ++ b } := h
    have h1 := RelPlace.place_path { p with names := p.names ++ a } (below_proper hr ha)
    have h2 := RelPlace.place_path { p with names := p.names ++ b } (below_proper hr hb)
    rw [h, h2] at h1
    exact (List.append_cancel_left (congrArg RelPlace.names h1)).symm

theorem placeOf_ne (root : GoString) {dir : List GoString} (hd : ∀ n ∈ dir, Proper n) {old name : GoString} (ho : Proper old) (hn : Proper name)
    (hne : old ≠ name) : placeOf root (dir ++ [old]) ≠ placeOf root (dir ++ [name]) := by
  have all (x : GoString) (hx : Proper x) : ∀ n ∈ dir ++ [x], Proper n := by
    intro n h
    rcases List.mem_append.1 h with h | h
    · exact hd n h
    · simp at h; subst h; exact hx
  intro h
  rw [placeOf_under root (all old ho), placeOf_under root (all name hn)] at h
  have := List.append_cancel_left (under_inj (rootOf_proper root) (all old ho) (all name hn) h)
  simp at this
  exact hne this

theorem pwstat_renames {o : Obj H} {f : File H} (hf : o.files 1 = some f) (hn : f.file = none) {b : Bytes} {d : Dir} {t : Tag} {x : Buffer}
    (hu : unmarshaldir (Buffer.ofBytes b) = .done d t none x) (h1 : d.Mode = 0xFFFFFFFF) (h2 : d.User = [] ∧ d.Group = []) {name : GoString} (hN : d.Name = name) (h3 : name ≠ [])
    (h4 : d.Length = 0xFFFFFFFFFFFFFFFF) (h5 : d.Mtime = 0xFFFFFFFF) (h6 : d.Atime = 0xFFFFFFFF) :
    pwstat 1 b o = .call (.stat (renameTo o.rootPath f.fullName name)) fun r =>
      if isDirAns r then retErr o (lit "is a directory")
      else .call (.rename f.fullName (renameTo o.rootPath f.fullName name)) fun r =>
        match r with
        | some e => retErr o e
        | none => retOk (o.set 1 { f with fullName := renameTo o.rootPath f.fullName name }) () := by
  subst hN
  unfold pwstat
  rw [hf, hu]
  dsimp only
  rw [show pwstatMode f d o = .ret (o, none) from if_neg (fun h => h h1)]
  dsimp only [pAndThen, Prog.bind]
  rw [show pwstatUser d o = .ret (o, none) from if_neg (fun h => h.elim (fun h => h h2.1) fun h => h h2.2)]
  dsimp only [Prog.bind]
  unfold pwstatName
  rw [if_pos h3]
  dsimp only [Prog.bind]
  congr 1
  funext r
  by_cases hr : isDirAns r = true
  · rw [if_pos hr, if_pos hr]; rfl
  · rw [if_neg hr, if_neg hr]
    dsimp only [Prog.bind]
    congr 1
    funext e
    cases e with
    | some e => rfl
    | none =>
      dsimp only [Prog.bind]
      rw [show ∀ q, pwstatLength q d (o.set 1 { f with fullName := renameTo o.rootPath f.fullName d.Name }) = .ret (_, none) from fun q => if_neg (fun h => h h4)]
      dsimp only [Prog.bind]
      rw [show ∀ q, pwstatTimes q d (o.set 1 { f with fullName := renameTo o.rootPath f.fullName d.Name }) = .ret (_, none) from
        fun q => if_neg (fun h => h.elim (fun h => h h5) fun h => h h6)]
      dsimp only [Prog.bind]
      unfold pwstatSync
      rw [hn]
      rfl

theorem nameOnly_read {name : GoString} (hl : name.length < 2 ^ 16) :
    ∃ x, unmarshaldir (Buffer.ofBytes (marshaldir {} (nameOnly name)).bytes) = .done (nameOnly name) 0 none x := by
  have hd : DirFits (nameOnly name) := ⟨hl, by simp [nameOnly], by simp [nameOnly], by simp [nameOnly]⟩
  have := C03_dir_round_trip (nameOnly name) hd {} [] [] []
  rw [List.append_nil] at this
  exact ⟨_, this⟩

theorem pwstat_name {o : Obj H} {f : File H} (hf : o.files 1 = some f) (hn : f.file = none) {name : GoString} (hl : name.length < 2 ^ 16) (hne : name ≠ []) :
    pwstat 1 (marshaldir {} (nameOnly name)).bytes o = .call (.stat (renameTo o.rootPath f.fullName name)) fun r =>
      if isDirAns r then retErr o (lit "is a directory")
      else .call (.rename f.fullName (renameTo o.rootPath f.fullName name)) fun r =>
        match r with
        | some e => retErr o e
        | none => retOk (o.set 1 { f with fullName := renameTo o.rootPath f.fullName name }) () := by
  obtain ⟨x, hx⟩ := nameOnly_read hl
  exact pwstat_renames hf hn hx rfl ⟨rfl, rfl⟩ rfl hne rfl rfl rfl

/-- In the worlds `J`, the file can be reached and gets the other name. -/
structure CanMove (host : Host ω H) (root : GoString) (path path' : List GoString) (J : ω → Prop) : Prop where
  attach : ∀ w w' r, J w → host.stat (placeOf root []) w = (w', r) → J w' ∧ ∃ st, r = .ok st
  walk : ∀ ms w w' r, ms ≠ [] → ms <+: path → J w → host.lstat (placeOf root ms) w = (w', r) → J w' ∧ ∃ st, r = .ok st
  free : ∀ w w' r, J w → host.stat (placeOf root path') w = (w', r) → J w' ∧ ∀ st, r = .ok st → st.isDir = false
  renames : ∀ w, J w → (host.rename (placeOf root path) (placeOf root path') w).2 = none

/-- what comes of `mover` -/
def Renamed (V : FileView host ν) (N : NameView host ν) (v : ν) (p q : GoString) (d : Bytes) : Got → ω → Prop
  | .whole _, w => Lies V N v q d w ∧ (p ≠ q → N.node p w = none)
  | .part, _ => False
  | .failed, _ => True

theorem sure_mover (hC : Changes V N) {root : GoString} {dir : List GoString} {old name : GoString} (hd : ∀ n ∈ dir, Proper n) (ho : Proper old) (hn : Proper name)
    (hl : name.length < 2 ^ 16) {v : ν} {d : Bytes}
    {R : ω → ω → Prop} (rf : ∀ a, R a a) (tr : ∀ {a b c}, R a b → R b c → R a c) {J : ω → Prop} {B : Prop}
    (hL : ∀ {a b}, R a b → Spared V N (placeOf root (dir ++ [old])) a b ∧ Vacant N (placeOf root (dir ++ [old])) a b ∧ Spared V N (placeOf root (dir ++ [name])) a b)
    (hJ : ∀ {a b}, R a b → J a → J b) (hcan : CanMove host root (dir ++ [old]) (dir ++ [name]) J ∨ (B ∧ ∀ w, J w)) {w : ω} (hj : J w)
    (hw : Lies V N v (placeOf root (dir ++ [old])) d w) :
    Sure host R (fun x w => Renamed V N v (placeOf root (dir ++ [old])) (placeOf root (dir ++ [name])) d x.2 w ∧ (x.2 = .failed → B))
      ((mover (dir ++ [old]) name).prog user (newObj root)) w := by
  refine sure_goTo rf @tr (I := fun w => Lies V N v (placeOf root (dir ++ [old])) d w ∧ J w) (B := B)
    (Q := fun a w => Renamed V N v (placeOf root (dir ++ [old])) (placeOf root (dir ++ [name])) d a w ∧ (a = .failed → B))
    (fun h h' => ⟨((hL h).1 v h'.1.1).lies h'.1, hJ h h'.2⟩) (fun hb _ h => ⟨trivial, fun _ => hb⟩) ?_ ?_ ?_ ⟨hw, hj⟩
  · intro w w' r h hx
    have h1 := N.keeps (c := .stat (placeOf root [])) (by simp [Disturbs]) h.1.1
    have h2 := ((V.stat_calm (placeOf root []) w).2 v).trans h.1.2
    rw [show host.exec (.stat (placeOf root [])) w = (w', r) from hx] at h1
    rw [hx] at h2
    rcases hcan with hcan | ⟨hb, hj⟩
    · obtain ⟨j1, st, rfl⟩ := hcan.attach w w' r h.2 hx
      exact ⟨⟨⟨h1, h2⟩, j1⟩, nofun⟩
    · exact ⟨⟨⟨h1, h2⟩, hj _⟩, fun _ _ => hb⟩
  · intro ms w w' r hne hpre h hx
    have h1 := N.keeps (c := .lstat (placeOf root ms)) (by simp [Disturbs]) h.1.1
    have h2 := ((V.lstat_calm (placeOf root ms) w).2 v).trans h.1.2
    rw [show host.exec (.lstat (placeOf root ms)) w = (w', r) from hx] at h1
    rw [hx] at h2
    rcases hcan with hcan | ⟨hb, hj⟩
    · obtain ⟨j1, st, rfl⟩ := hcan.walk ms w w' r hne hpre h.2 hx
      exact ⟨⟨⟨h1, h2⟩, j1⟩, nofun⟩
    · exact ⟨⟨⟨h1, h2⟩, hj _⟩, fun _ _ => hb⟩
  · intro o f w f1 f2 f3 f4 hw
    refine sure_ok (Q := fun a w => Renamed V N v (placeOf root (dir ++ [old])) (placeOf root (dir ++ [name])) d a w ∧ (a = .failed → B)) rf @tr _ _ rfl ?_
    dsimp only
    rw [pwstat_name f1 f3 hl hn.1, f2, f4, rename_place root hd ho hn]
    refine sure_call fun w1 g1 w2 r hx => ?_
    have hx : host.stat (placeOf root (dir ++ [name])) w1 = (w2, r) := hx
    have l1 := ((hL g1).1 v hw.1.1).lies hw.1
    have h1 := N.keeps (c := .stat (placeOf root (dir ++ [name]))) (by simp [Disturbs]) l1.1
    have h2 := ((V.stat_calm (placeOf root (dir ++ [name])) w1).2 v).trans l1.2
    rw [show host.exec (.stat (placeOf root (dir ++ [name]))) w1 = (w2, r) from hx] at h1
    rw [hx] at h2
    have h3 : J w2 ∧ (isDirAns r = true → B) := by
      rcases hcan with hcan | ⟨hb, hj⟩
      · obtain ⟨j1, j2⟩ := hcan.free w1 w2 r (hJ g1 hw.2) hx
        refine ⟨j1, fun h => ?_⟩
        cases r with
        | error e => cases h
        | ok st => have h : st.isDir = true := h; rw [j2 st rfl] at h; cases h
      · exact ⟨hj _, fun _ => hb⟩
    by_cases hr : isDirAns r = true
    · rw [if_pos hr]
      exact fun w3 _ w4 _ => ⟨trivial, fun _ => h3.2 hr⟩
    · rw [if_neg hr]
      refine sure_call fun w3 g3 w4 e hy => ?_
      have hy : host.rename (placeOf root (dir ++ [old])) (placeOf root (dir ++ [name])) w3 = (w4, e) := hy
      have l3 := ((hL g3).1 v h1).lies ⟨h1, h2⟩
      cases e with
      | some e =>
        refine fun w5 _ w6 _ => ⟨trivial, fun _ => ?_⟩
        rcases hcan with hcan | ⟨hb, hj⟩
        · have := hcan.renames w3 (hJ g3 h3.1)
          rw [hy] at this
          cases this
        · exact hb
      | none =>
        have c4 := (V.rename_calm (placeOf root (dir ++ [old])) (placeOf root (dir ++ [name])) w3).2 v
        rw [hy] at c4
        have k4 : Lies V N v (placeOf root (dir ++ [name])) d w4 := ⟨N.rename_ok hy l3.1, c4.trans l3.2⟩
        have k5 : placeOf root (dir ++ [old]) ≠ placeOf root (dir ++ [name]) → N.node (placeOf root (dir ++ [old])) w4 = none :=
          fun h => hC.moved h l3.1 hy
        intro w5 g5
        have k6 : ∀ {a b}, R a b → Renamed V N v (placeOf root (dir ++ [old])) (placeOf root (dir ++ [name])) d (.whole []) a →
            Renamed V N v (placeOf root (dir ++ [old])) (placeOf root (dir ++ [name])) d (.whole []) b :=
          fun hr h => ⟨((hL hr).2.2 v h.1.1).lies h.1, fun hne => (hL hr).2.1 (h.2 hne)⟩
        have k7 := k6 g5 ⟨k4, k5⟩
        refine sure_ok (Q := fun a w => Renamed V N v (placeOf root (dir ++ [old])) (placeOf root (dir ++ [name])) d a w ∧ (a = .failed → B)) rf @tr _ _ rfl ?_
        unfold pclunk
        dsimp only
        rw [show (State.set o 1 { f with fullName := placeOf root (dir ++ [name]) }).files 1 = some { f with fullName := placeOf root (dir ++ [name]) } from by simp [State.set]]
        dsimp only
        unfold pclunkFile
        rw [show ({ f with fullName := placeOf root (dir ++ [name]) } : File H).file = none from f3]
        dsimp only [Prog.bind]
        exact fun w6 g6 w7 g7 => ⟨k6 g7 (k6 g6 k7), nofun⟩

theorem plain_perm {perm : Perm} (h : perm.toNat < 2 ^ 31) : perm &&& DMDIR = 0 := by
  apply UInt32.toNat.inj
  rw [UInt32.toNat_and]
  have : DMDIR.toNat = 2 ^ 31 := by decide
  rw [this, nat_and_two_pow, Nat.testBit_lt_two_pow h]
  rfl

/-- **C105** Client `i` makes a file and has made no calls before `n`; from `n` on the others leave alone what is at the path of
the file, but do anything else.  If the program returns with success, there is a file where a walk to the directory and on to the
name leads, and it has the contents that were to be written and nothing else. -/
theorem C105_make (hC : Changes V N) (hh : host.Short) (hu : user.length < 2 ^ 13) (root : GoString) (w : ω) (jobs : Nat → Job Got)
    (hj : ∀ i, (jobs i).Proper) (n n' : Shop ω H Got) (ls ls' : List (JobLabel ω H)) (he : JobExec host user (Shop.start root w jobs) ls n)
    (i : Nat) (dir : List GoString) (name : GoString) (perm : Perm) (hp : perm.toNat < 2 ^ 31) (bs : List Bytes) (hb : ∀ b ∈ bs, b.length < 2 ^ 31)
    (hi : jobs i = maker dir name perm bs) (hid : ∀ x, (n.site.link i).w.cl.phase x = .idle)
    (he' : GentleExec host user i (Spared V N (placeOf root (dir ++ [name]))) n ls' n') (hl : ∀ l ∈ ls ++ ls', l.Clean)
    (a : Got) (ha : n'.stage i = .next (.ret a)) :
    (∀ d, a = .whole d → d = bs.flatten ∧ ∃ v, N.node (placeOf root (dir ++ [name])) n'.site.world = some v ∧ V.content v n'.site.world = bs.flatten) ∧
      a ≠ .part := by
  have h := job_sure hh hu hj he Spared.refl Spared.trans he' hl hid ha (Q := fun a w => MadeAt V N (placeOf root (dir ++ [name])) bs.flatten a w ∧ (a = .failed → True))
    (by rw [hi]; exact sure_maker (J := fun _ => True) (M := fun _ _ => True) hC (plain_perm hp) hb Spared.refl Spared.trans id (fun _ => id) (fun _ _ => id) (.inr ⟨trivial, fun _ => trivial, fun _ _ => trivial⟩) (.inr trivial) trivial)
  have h := h.1
  cases a with
  | whole d => exact ⟨fun _ hd => by cases hd; exact ⟨h.1, h.2⟩, nofun⟩
  | part => exact h.elim
  | failed => exact ⟨nofun, nofun⟩

/-- the others leave alone what is at the path `p`, keep to `J` and do not close the files `M` -/
def SparedIn (V : FileView host ν) (N : NameView host ν) (p : GoString) (J : ω → Prop) (M : H → ω → Prop) (w w' : ω) : Prop :=
  Spared V N p w w' ∧ (J w → J w') ∧ ∀ h, M h w → M h w'

theorem SparedIn.refl {p : GoString} {J : ω → Prop} {M : H → ω → Prop} (w : ω) : SparedIn V N p J M w w := ⟨Spared.refl w, id, fun _ => id⟩

theorem SparedIn.trans {p : GoString} {J : ω → Prop} {M : H → ω → Prop} {a b c : ω} (h : SparedIn V N p J M a b) (h' : SparedIn V N p J M b c) :
    SparedIn V N p J M a c :=
  ⟨h.1.trans h'.1, fun hj => h'.2.1 (h.2.1 hj), fun x hx => h'.2.2 x (h.2.2 x hx)⟩

/-- **C105** If the file can be made and written, client `i` makes it: its program ends with success. -/
theorem C105_made (hC : Changes V N) (hh : host.Short) (hu : user.length < 2 ^ 13) (root : GoString) (w : ω) (jobs : Nat → Job Got)
    (hj : ∀ i, (jobs i).Proper) (n n' : Shop ω H Got) (ls ls' : List (JobLabel ω H)) (he : JobExec host user (Shop.start root w jobs) ls n)
    (i : Nat) (dir : List GoString) (name : GoString) (perm : Perm) (hp : perm.toNat < 2 ^ 31) (bs : List Bytes) (hb : ∀ b ∈ bs, b.length < 2 ^ 31)
    (hi : jobs i = maker dir name perm bs) (hid : ∀ x, (n.site.link i).w.cl.phase x = .idle)
    (J : ω → Prop) (M : H → ω → Prop) (hcan : CanMake V root dir name perm J M) (hJ : J n.site.world) (hsz : bs.flatten.length < 2 ^ 63)
    (he' : GentleExec host user i (SparedIn V N (placeOf root (dir ++ [name])) J M) n ls' n') (hl : ∀ l ∈ ls ++ ls', l.Clean)
    (a : Got) (ha : n'.stage i = .next (.ret a)) :
    a = .whole bs.flatten ∧ ∃ v, N.node (placeOf root (dir ++ [name])) n'.site.world = some v ∧ V.content v n'.site.world = bs.flatten := by
  have h := job_sure hh hu hj he SparedIn.refl SparedIn.trans he' hl hid ha (Q := fun a w => MadeAt V N (placeOf root (dir ++ [name])) bs.flatten a w ∧ (a = .failed → False))
    (by rw [hi]; exact sure_maker hC (plain_perm hp) hb SparedIn.refl SparedIn.trans (fun h => h.1) (fun h => h.2.1) (fun h => h.2.2) (.inl hcan) (.inl hsz) hJ)
  cases a with
  | whole d => exact ⟨by rw [h.1.1], h.1.2⟩
  | part => exact h.1.elim
  | failed => exact (h.2 rfl).elim

/-- **C105** What one client has made another client finds: client `i` makes the file between `n` and `n1`, and client `j`, which
has made no calls before `n1`, walks to it and reads it between `n1` and `n2`. -/
theorem C105_found (hO : Opens V N) (hC : Changes V N) (hh : host.Short) (hu : user.length < 2 ^ 13) (root : GoString) (w : ω) (jobs : Nat → Job Got)
    (hj : ∀ i, (jobs i).Proper) (n n1 n2 : Shop ω H Got) (ls ls1 ls2 : List (JobLabel ω H)) (he : JobExec host user (Shop.start root w jobs) ls n)
    (i j : Nat) (dir : List GoString) (name : GoString) (perm : Perm) (hp : perm.toNat < 2 ^ 31) (bs : List Bytes) (hb : ∀ b ∈ bs, b.length < 2 ^ 31)
    (c : Count) (hc : 0 < c.toInt) (k : Nat) (hi : jobs i = maker dir name perm bs) (hjf : jobs j = fetch (dir ++ [name]) c k)
    (hid : ∀ x, (n.site.link i).w.cl.phase x = .idle) (he1 : GentleExec host user i (Spared V N (placeOf root (dir ++ [name]))) n ls1 n1)
    (hjd : ∀ x, (n1.site.link j).w.cl.phase x = .idle) (he2 : GentleExec host user j (Spared V N (placeOf root (dir ++ [name]))) n1 ls2 n2)
    (hl : ∀ l ∈ ls ++ ls1 ++ ls2, l.Clean) (x : Bytes) (hx : n1.stage i = .next (.ret (.whole x))) (b : Got) (hy : n2.stage j = .next (.ret b)) :
    (∀ y, b = .whole y → y = bs.flatten) ∧ (bs.flatten.length < k → b ≠ .part) := by
  obtain ⟨h1, -⟩ := C105_make hC hh hu root w jobs hj n n1 ls ls1 he i dir name perm hp bs hb hi hid he1 (fun l h => hl l (List.mem_append_left _ h)) _ hx
  obtain ⟨-, v, h2, h3⟩ := h1 x rfl
  have h := job_sure hh hu hj (he.trans he1.exec) Spared.refl Spared.trans he2 hl hjd hy
    (Q := fun a w => Fetched V N v (placeOf root (dir ++ [name])) bs.flatten k a w ∧ (a = .failed → True))
    (by rw [hjf]; exact sure_fetch (J := fun _ => True) (M := fun _ _ => True) hO hc k Spared.refl Spared.trans (fun h hv => h v hv) (fun _ => id) (fun _ _ => id) (.inr ⟨trivial, fun _ => trivial, fun _ _ => trivial⟩) (.inr trivial) ⟨h2, h3⟩ trivial)
  have h := h.1
  cases b with
  | whole y => exact ⟨fun _ hd => by cases hd; exact h.1, nofun⟩
  | part => exact ⟨nofun, fun hlt => absurd h.1 (by omega)⟩
  | failed => exact ⟨nofun, nofun⟩

theorem Vacant.refl {p : GoString} (w : ω) : Vacant N p w w := id

theorem Vacant.trans {p : GoString} {a b c : ω} (h : Vacant N p a b) (h' : Vacant N p b c) : Vacant N p a c := fun x => h' (h x)

/-- **C105** Client `i` removes a file; the others put nothing in its place.  If the program returns with success, nothing is
there. -/
theorem C105_remove (hC : Changes V N) (hh : host.Short) (hu : user.length < 2 ^ 13) (root : GoString) (w : ω) (jobs : Nat → Job Got)
    (hj : ∀ i, (jobs i).Proper) (n n' : Shop ω H Got) (ls ls' : List (JobLabel ω H)) (he : JobExec host user (Shop.start root w jobs) ls n)
    (i : Nat) (path : List GoString) (hi : jobs i = eraser path) (hid : ∀ x, (n.site.link i).w.cl.phase x = .idle)
    (he' : GentleExec host user i (Vacant N (placeOf root path)) n ls' n') (hl : ∀ l ∈ ls ++ ls', l.Clean)
    (a : Got) (ha : n'.stage i = .next (.ret a)) (hs : a ≠ .failed) : N.node (placeOf root path) n'.site.world = none :=
  (job_sure hh hu hj he Vacant.refl Vacant.trans he' hl hid ha
    (Q := fun a w => (a ≠ .failed → N.node (placeOf root path) w = none) ∧ (a = .failed → True))
    (by rw [hi]; exact sure_eraser (J := fun _ => True) hC Vacant.refl Vacant.trans id (fun _ => id) (.inr ⟨trivial, fun _ => trivial⟩) trivial)).1 hs

/-- **C105** If the file can be reached and removed, the program ends with success. -/
theorem C105_removed (hC : Changes V N) (hh : host.Short) (hu : user.length < 2 ^ 13) (root : GoString) (w : ω) (jobs : Nat → Job Got)
    (hj : ∀ i, (jobs i).Proper) (n n' : Shop ω H Got) (ls ls' : List (JobLabel ω H)) (he : JobExec host user (Shop.start root w jobs) ls n)
    (i : Nat) (path : List GoString) (hi : jobs i = eraser path) (hid : ∀ x, (n.site.link i).w.cl.phase x = .idle)
    (J : ω → Prop) (hcan : CanErase host root path J) (hJ : J n.site.world)
    (he' : GentleExec host user i (fun w w' => Vacant N (placeOf root path) w w' ∧ (J w → J w')) n ls' n') (hl : ∀ l ∈ ls ++ ls', l.Clean)
    (a : Got) (ha : n'.stage i = .next (.ret a)) : a ≠ .failed ∧ N.node (placeOf root path) n'.site.world = none := by
  have h := job_sure hh hu hj he (fun w => ⟨id, id⟩) (fun h h' => ⟨fun x => h'.1 (h.1 x), fun x => h'.2 (h.2 x)⟩) he' hl hid ha
    (Q := fun a w => (a ≠ .failed → N.node (placeOf root path) w = none) ∧ (a = .failed → False))
    (by rw [hi]; exact sure_eraser hC (fun w => ⟨id, id⟩) (fun h h' => ⟨fun x => h'.1 (h.1 x), fun x => h'.2 (h.2 x)⟩) (fun h => h.1) (fun h => h.2) (.inl hcan) hJ)
  exact ⟨h.2, h.1 h.2⟩

/-- **C105** Where nothing is, nothing is read: client `j`, which has made no calls before `n`, wants to read a file where nothing
is and where the others put nothing.  It is told that it failed. -/
theorem C105_gone (hC : Changes V N) (hh : host.Short) (hu : user.length < 2 ^ 13) (root : GoString) (w : ω) (jobs : Nat → Job Got)
    (hj : ∀ i, (jobs i).Proper) (n n' : Shop ω H Got) (ls ls' : List (JobLabel ω H)) (he : JobExec host user (Shop.start root w jobs) ls n)
    (j : Nat) (path : List GoString) (c : Count) (k : Nat) (hjf : jobs j = fetch path c k) (hid : ∀ x, (n.site.link j).w.cl.phase x = .idle)
    (hv : N.node (placeOf root path) n.site.world = none)
    (he' : GentleExec host user j (Vacant N (placeOf root path)) n ls' n') (hl : ∀ l ∈ ls ++ ls', l.Clean)
    (b : Got) (hb : n'.stage j = .next (.ret b)) : b = .failed :=
  job_sure hh hu hj he Vacant.refl Vacant.trans he' hl hid hb (Q := fun a _ => a = .failed)
    (by rw [hjf]; exact sure_absent hC k Vacant.refl Vacant.trans id hv)

/-- the others leave alone what is at the paths `p` and `q`, and put nothing at `p` if nothing is there -/
def Stands (V : FileView host ν) (N : NameView host ν) (p q : GoString) (w w' : ω) : Prop := Spared V N p w w' ∧ Vacant N p w w' ∧ Spared V N q w w'

theorem Stands.refl {p q : GoString} (w : ω) : Stands V N p q w w := ⟨Spared.refl w, Vacant.refl w, Spared.refl w⟩

theorem Stands.trans {p q : GoString} {a b c : ω} (h : Stands V N p q a b) (h' : Stands V N p q b c) : Stands V N p q a c :=
  ⟨h.1.trans h'.1, h.2.1.trans h'.2.1, h.2.2.trans h'.2.2⟩

/-- **C105** Client `i` gives the file `v` another name in its directory.  If the program returns with success, the file is where a
walk to the new name leads, with its contents, and nothing is left at its old place. -/
theorem C105_rename (hC : Changes V N) (hh : host.Short) (hu : user.length < 2 ^ 13) (root : GoString) (w : ω) (jobs : Nat → Job Got)
    (hj : ∀ i, (jobs i).Proper) (n n' : Shop ω H Got) (ls ls' : List (JobLabel ω H)) (he : JobExec host user (Shop.start root w jobs) ls n)
    (i : Nat) (dir : List GoString) (old name : GoString) (hd : ∀ x ∈ dir, Proper x) (ho : Proper old) (hn : Proper name) (hlen : name.length < 2 ^ 16)
    (hi : jobs i = mover (dir ++ [old]) name) (hid : ∀ x, (n.site.link i).w.cl.phase x = .idle)
    (v : ν) (hv : N.node (placeOf root (dir ++ [old])) n.site.world = some v)
    (he' : GentleExec host user i (Stands V N (placeOf root (dir ++ [old])) (placeOf root (dir ++ [name]))) n ls' n') (hl : ∀ l ∈ ls ++ ls', l.Clean)
    (a : Got) (ha : n'.stage i = .next (.ret a)) (hs : a ≠ .failed) :
    N.node (placeOf root (dir ++ [name])) n'.site.world = some v ∧ V.content v n'.site.world = V.content v n.site.world ∧
      (old ≠ name → N.node (placeOf root (dir ++ [old])) n'.site.world = none) := by
  have h := (job_sure hh hu hj he Stands.refl Stands.trans he' hl hid ha
    (Q := fun a w => Renamed V N v (placeOf root (dir ++ [old])) (placeOf root (dir ++ [name])) (V.content v n.site.world) a w ∧ (a = .failed → True))
    (by rw [hi]; exact sure_mover (J := fun _ => True) hC hd ho hn hlen Stands.refl Stands.trans id (fun _ => id) (.inr ⟨trivial, fun _ => trivial⟩) trivial ⟨hv, rfl⟩)).1
  cases a with
  | whole d => exact ⟨h.1.1, h.1.2, fun hne => h.2 (placeOf_ne root hd ho hn hne)⟩
  | part => exact h.elim
  | failed => exact absurd rfl hs

/-- **C105** If the file can be reached, no directory has the new name and the host renames it, the program ends with success. -/
theorem C105_renamed (hC : Changes V N) (hh : host.Short) (hu : user.length < 2 ^ 13) (root : GoString) (w : ω) (jobs : Nat → Job Got)
    (hj : ∀ i, (jobs i).Proper) (n n' : Shop ω H Got) (ls ls' : List (JobLabel ω H)) (he : JobExec host user (Shop.start root w jobs) ls n)
    (i : Nat) (dir : List GoString) (old name : GoString) (hd : ∀ x ∈ dir, Proper x) (ho : Proper old) (hn : Proper name) (hlen : name.length < 2 ^ 16)
    (hi : jobs i = mover (dir ++ [old]) name) (hid : ∀ x, (n.site.link i).w.cl.phase x = .idle)
    (v : ν) (hv : N.node (placeOf root (dir ++ [old])) n.site.world = some v)
    (J : ω → Prop) (hcan : CanMove host root (dir ++ [old]) (dir ++ [name]) J) (hJ : J n.site.world)
    (he' : GentleExec host user i (fun w w' => Stands V N (placeOf root (dir ++ [old])) (placeOf root (dir ++ [name])) w w' ∧ (J w → J w')) n ls' n')
    (hl : ∀ l ∈ ls ++ ls', l.Clean) (a : Got) (ha : n'.stage i = .next (.ret a)) :
    a ≠ .failed ∧ N.node (placeOf root (dir ++ [name])) n'.site.world = some v := by
  have h := job_sure hh hu hj he (fun w => ⟨Stands.refl w, id⟩) (fun h h' => ⟨h.1.trans h'.1, fun x => h'.2 (h.2 x)⟩) he' hl hid ha
    (Q := fun a w => Renamed V N v (placeOf root (dir ++ [old])) (placeOf root (dir ++ [name])) (V.content v n.site.world) a w ∧ (a = .failed → False))
    (by rw [hi]; exact sure_mover hC hd ho hn hlen (fun w => ⟨Stands.refl w, id⟩) (fun h h' => ⟨h.1.trans h'.1, fun x => h'.2 (h.2 x)⟩) (fun h => h.1) (fun h => h.2) (.inl hcan) hJ ⟨hv, rfl⟩)
  cases a with
  | whole d => exact ⟨nofun, h.1.1.1⟩
  | part => exact h.1.elim
  | failed => exact (h.2 rfl).elim

end

section
open Mem

/-! ### an instance -/

/-- the example host, except that no name without a file is opened -/
def tidyHost : Host World Nat :=
  { shortHost with openFile := fun p fl m w => if ∃ i, find p w = some i ∧ w.next ≤ i then (w, .error noent) else Mem.openFile p fl m w }

theorem tidyHost_short : tidyHost.Short :=
  { shortHost_short with
    openFile := by
      intro p fl m w w' e h
      simp only [tidyHost] at h
      split at h
      · cases h; decide
      · exact shortHost_short.openFile p fl m w w' e h }

theorem tidy_open {p : GoString} {fl : Nat} {m : UInt32} {w w' : World} {h : Nat} (ho : tidyHost.openFile p fl m w = (w', .ok h)) :
    Mem.openFile p fl m w = (w', .ok h) ∧ ∀ i, find p w = some i → i < w.next := by
  simp only [tidyHost] at ho
  split at ho
  · cases ho
  · rename_i hn
    exact ⟨ho, fun i hi => Nat.not_le.1 fun hle => hn ⟨i, hi, hle⟩⟩

def tidyFiles : FileView tidyHost Nat :=
  { shortFiles with
    open_calm := by
      intro p fl m w h1 h2
      simp only [tidyHost]
      split
      · exact Calm.refl w
      · exact memFiles.open_calm p fl m w h1 h2 }

def tidyNames : NameView tidyHost Nat where
  node := memAt
  keeps := by
    intro c r w v hd hv
    cases c with
    | openFile p f m =>
      show memAt r (tidyHost.openFile p f m w).1 = some v
      simp only [tidyHost]
      split
      · exact hv
      · exact shortNames.keeps (c := .openFile p f m) hd hv
    | lstat p => exact shortNames.keeps (c := .lstat p) hd hv
    | stat p => exact shortNames.keeps (c := .stat p) hd hv
    | mkdir p m => exact shortNames.keeps (c := .mkdir p m) hd hv
    | chmod p m => exact shortNames.keeps (c := .chmod p m) hd hv
    | rename p q => exact shortNames.keeps (c := .rename p q) hd hv
    | truncate p n => exact shortNames.keeps (c := .truncate p n) hd hv
    | chtimes p a m => exact shortNames.keeps (c := .chtimes p a m) hd hv
    | remove p => exact shortNames.keeps (c := .remove p) hd hv
    | close h => exact shortNames.keeps (c := .close h) hd hv
    | sync h => exact shortNames.keeps (c := .sync h) hd hv
    | seek0 h => exact shortNames.keeps (c := .seek0 h) hd hv
    | readdir1 h => exact shortNames.keeps (c := .readdir1 h) hd hv
    | readAt h n off => exact shortNames.keeps (c := .readAt h n off) hd hv
    | writeAt h b off => exact shortNames.keeps (c := .writeAt h b off) hd hv
  rename_ok := shortNames.rename_ok
  rename_fails := shortNames.rename_fails

theorem tidy_opens : Opens tidyFiles tidyNames :=
  ⟨fun hn ho => short_opens.opened hn (tidy_open ho).1, fun ht hn ho => short_opens.emptied ht hn (tidy_open ho).1⟩

theorem find_dropped {l : List (GoString × Nat)} {P : GoString → Bool} {p : GoString} (h : P p = false) : (l.filter fun x => P x.1).lookup p = none := by
  rw [List.lookup_eq_none_iff]
  intro x hx
  have := (List.mem_filter.1 hx).2
  cases hb : p == x.1 with
  | false => simp [bne, hb]
  | true =>
    rw [← eq_of_beq hb, h] at this
    cases this

theorem memAt_none {r : GoString} {w : World} (h : find r w = none) : memAt r w = none := by unfold memAt; rw [h]; rfl

theorem tidy_changes : Changes tidyFiles tidyNames where
  made {p fl m w w' h} hc ht ho := by
    obtain ⟨h1, h2⟩ := tidy_open ho
    show ∃ v, memAt p w' = some v ∧ memNode h w' = some v ∧ memContent v w' = []
    unfold Mem.openFile at h1
    cases hf : find p w with
    | some i =>
      rw [hf] at h1
      dsimp only at h1
      split at h1
      · cases h1
      · cases h1
        refine ⟨i, memAt_some.2 ⟨hf, h2 i hf⟩, memNode_some.2 ⟨_, List.getElem?_concat_length, rfl, h2 i hf⟩, ?_⟩
        simp [memContent, setNode]
    | none =>
      rw [hf] at h1
      dsimp only at h1
      rw [if_pos hc] at h1
      cases h1
      refine ⟨w.next, memAt_some.2 ⟨?_, Nat.lt_succ_self _⟩, memNode_some.2 ⟨_, List.getElem?_concat_length, rfl, Nat.lt_succ_self _⟩, ?_⟩
      · unfold find at hf ⊢
        show (w.names ++ [(p, w.next)]).lookup p = _
        rw [List.lookup_append, hf]
        simp
      · simp [memContent, addNode]
  removed {p w w'} h := by
    have h : Mem.remove p w = (w', none) := h
    unfold Mem.remove at h
    split at h <;> cases h
    exact memAt_none (find_dropped (P := fun x => decide (x ≠ p)) (by simp))
  moved {p q w w' v} hpq hv h := by
    have h : Mem.rename p q w = (w', none) := h
    unfold Mem.rename at h
    split at h <;> cases h
    refine memAt_none ?_
    show ((w.names.filter fun x : GoString × Nat => decide (x.1 ≠ p ∧ x.1 ≠ q)) ++ [(q, _)]).lookup p = none
    rw [List.lookup_append, find_dropped (P := fun x => decide (x ≠ p ∧ x ≠ q)) (by simp)]
    simp [hpq]
  absent {p fl m w} hc hn := by
    have hn : memAt p w = none := hn
    simp only [tidyHost]
    split
    · exact ⟨_, rfl⟩
    · rename_i hx
      unfold Mem.openFile
      cases hf : find p w with
      | some i =>
        refine absurd ⟨i, hf, Nat.not_lt.1 fun hlt => ?_⟩ hx
        rw [memAt_some.2 ⟨hf, hlt⟩] at hn
        cases hn
      | none =>
        dsimp only
        rw [if_neg (by omega)]
        exact ⟨_, rfl⟩
  stats {p q w} h := by rw [show (tidyHost.stat q w).1 = w from short_world (.stat q) w]; exact h
  lstats {p q w} h := by rw [show (tidyHost.lstat q w).1 = w from short_world (.lstat q) w]; exact h

/-- a file that is there has a status -/
theorem tidy_stat {p : GoString} {i : Nat} {w : World} (hp : (base p).length ≤ 255) (hi : find p w = some i) :
    tidyHost.stat p w = (w, .ok (info p i w)) ∧ tidyHost.lstat p w = (w, .ok (info p i w)) := by
  constructor <;> simp only [tidyHost, shortHost, if_pos hp, Mem.host, Mem.stat, hi]

/-- Two clients one after the other, each for itself. -/
theorem pair_instance (jobs : Nat → Job Got) (hj : ∀ i, (jobs i).Proper) {i j : Nat} (hij : j ≠ i) (x y : Got)
    (hx : ((jobs i).onSpot (ufs tidyHost (lit "harvey")) ((newObj [47, 120]).into world0)).map Prod.snd = some x)
    (hy : (((jobs i).onSpot (ufs tidyHost (lit "harvey")) ((newObj [47, 120]).into world0)).bind fun z =>
      ((jobs j).onSpot (ufs tidyHost (lit "harvey")) ((newObj [47, 120]).into z.1.world)).map Prod.snd) = some y) :
    ∃ (n1 n2 : Shop World Nat Got) (ls1 ls2 : List (JobLabel World Nat)),
      JobExec tidyHost (lit "harvey") (Shop.start [47, 120] world0 jobs) ls1 n1 ∧ JobExec tidyHost (lit "harvey") n1 ls2 n2 ∧
        (∀ l ∈ ls1, l.Own i) ∧ (∀ l ∈ ls2, l.Own j) ∧ (∀ l ∈ [] ++ ls1 ++ ls2, l.Clean) ∧ (∀ c, (n1.site.link j).w.cl.phase c = .idle) ∧
        n1.stage i = .next (.ret x) ∧ n2.stage j = .next (.ret y) := by
  have hu : (lit "harvey").length < 2 ^ 13 := by decide
  obtain ⟨ls1, n1, a, a1, a2, a3⟩ := C98_completes tidyHost_short hu [47, 120] world0 _ hj _ [] (.refl _) nofun i nofun rfl
    (show (0 : Nat) < 65534 by decide)
  obtain ⟨-, b1, b2⟩ := own_exec (R := fun _ _ => True) (fun _ => trivial) a1 a2
  have b3 := b1 j hij
  have c1 : ∀ l ∈ ls1, l.Clean := fun l hl => (a2 l hl).fine.1
  obtain ⟨ls2, n2, a', d1, d2, d3⟩ := C98_completes tidyHost_short hu [47, 120] world0 _ hj _ ls1 a1 c1 j
    (fun l hl => own_other hij (a2 l hl)) b2 (by rw [b3.1]; exact (show (0 : Nat) < 65534 by decide))
  have alone {i : Nat} {ls : List (JobLabel World Nat)} (h : ∀ l ∈ ls, l.Own i) : ∀ x ∈ ls.flatMap JobLabel.outside, ∃ e, x = BLabel.call i e := by
    intro x hx
    obtain ⟨l, a1, a2⟩ := List.mem_flatMap.1 hx
    exact (h l a1).fine.2.2.2 x a2
  have clean : ∀ l ∈ ls1 ++ ls2, l.Clean := by
    intro l hl
    rcases List.mem_append.1 hl with h | h
    · exact c1 l h
    · exact (d2 l h).fine.1
  have e1 := C98_alone tidyHost_short hu [47, 120] world0 _ hj n1 ls1 a1 c1 i a a3 (alone a2)
  have e2 := C98_between tidyHost_short hu [47, 120] world0 _ hj n1 n2 ls1 ls2 a1 d1 clean j (jobs j) (.ret a') b3.2 d3 (alone d2)
  rw [b3.1] at e2
  rw [e1] at hx hy
  have e3 : some a = some x := hx
  have e5 : ((jobs j).onSpot (ufs tidyHost (lit "harvey")) ((newObj [47, 120]).into n1.site.world)).map Prod.snd = some y := hy
  rw [show (jobs j).onSpot (ufs tidyHost (lit "harvey")) ((newObj [47, 120]).into n1.site.world) = some (_, a') from e2] at e5
  have e6 : some a' = some y := e5
  rw [Option.some.inj e3] at a3
  rw [Option.some.inj e6] at d3
  exact ⟨n1, n2, ls1, ls2, a1, d1, a2, d2, clean, fun c => by rw [b3.1]; rfl, a3, d3⟩

/-- client 0 makes a file, client 2 removes one, client 4 renames one; the clients 1, 3 and 5 read -/
def changeJobs : Nat → Job Got
  | 0 => maker [] (lit "g") 0o644 [[7, 8], [9]]
  | 1 => fetch [lit "g"] 2 10
  | 2 => eraser [lit "f"]
  | 3 => fetch [lit "f"] 2 10
  | 4 => mover [lit "f"] (lit "g")
  | _ => .ret .failed

theorem change_proper (i : Nat) : (changeJobs i).Proper := by
  have f : GoodPath [lit "f"] := by unfold GoodPath; decide
  have g : GoodPath [lit "g"] := by unfold GoodPath; decide
  match i with
  | 0 => exact maker_proper (dir := []) (by unfold GoodPath; decide) (name := lit "g") (by decide) _ (by decide)
  | 1 => exact fetch_proper g (by decide) 10
  | 2 => exact eraser_proper f
  | 3 => exact fetch_proper f (by decide) 10
  | 4 => exact mover_proper f (by decide)
  | _ + 5 => exact ⟨trivial, trivial⟩

/-- C105: the hypotheses of `C105_make` and `C105_found` are met by the clients 0 and 1 of the example -/
example : ∃ (n1 n2 : Shop World Nat Got) (ls1 ls2 : List (JobLabel World Nat)),
    JobExec tidyHost (lit "harvey") (Shop.start [47, 120] world0 changeJobs) [] (Shop.start [47, 120] world0 changeJobs) ∧
    GentleExec tidyHost (lit "harvey") 0 (Spared tidyFiles tidyNames (placeOf [47, 120] [lit "g"])) (Shop.start [47, 120] world0 changeJobs) ls1 n1 ∧
    (∀ c, (n1.site.link 1).w.cl.phase c = .idle) ∧
    GentleExec tidyHost (lit "harvey") 1 (Spared tidyFiles tidyNames (placeOf [47, 120] [lit "g"])) n1 ls2 n2 ∧
    (∀ l ∈ [] ++ ls1 ++ ls2, l.Clean) ∧ n1.stage 0 = .next (.ret (.whole [7, 8, 9])) ∧ n2.stage 1 = .next (.ret (.whole [7, 8, 9])) := by
  obtain ⟨n1, n2, ls1, ls2, a1, a2, a3, a4, a5, a6, a7, a8⟩ := pair_instance changeJobs change_proper (i := 0) (j := 1) (by decide)
    (.whole [7, 8, 9]) (.whole [7, 8, 9]) (by decide +kernel) (by decide +kernel)
  exact ⟨n1, n2, ls1, ls2, .refl _, (own_exec Spared.refl a1 a3).1, a6, (own_exec Spared.refl a2 a4).1, a5, a7, a8⟩

/-- C105: the hypotheses of `C105_remove` and `C105_gone` are met by the clients 2 and 3 of the example -/
example : ∃ (n1 n2 : Shop World Nat Got) (ls1 ls2 : List (JobLabel World Nat)),
    tidyNames.node (placeOf [47, 120] [lit "f"]) world0 = some 3 ∧
    GentleExec tidyHost (lit "harvey") 2 (Vacant tidyNames (placeOf [47, 120] [lit "f"])) (Shop.start [47, 120] world0 changeJobs) ls1 n1 ∧
    tidyNames.node (placeOf [47, 120] [lit "f"]) n1.site.world = none ∧ (∀ c, (n1.site.link 3).w.cl.phase c = .idle) ∧
    GentleExec tidyHost (lit "harvey") 3 (Vacant tidyNames (placeOf [47, 120] [lit "f"])) n1 ls2 n2 ∧
    (∀ l ∈ [] ++ ls1 ++ ls2, l.Clean) ∧ n1.stage 2 = .next (.ret (.whole [])) ∧ n2.stage 3 = .next (.ret .failed) := by
  obtain ⟨n1, n2, ls1, ls2, a1, a2, a3, a4, a5, a6, a7, a8⟩ := pair_instance changeJobs change_proper (i := 2) (j := 3) (by decide)
    (.whole []) .failed (by decide +kernel) (by decide +kernel)
  have g1 := (own_exec (R := Vacant tidyNames (placeOf [47, 120] [lit "f"])) Vacant.refl a1 a3).1
  have g2 := C105_remove tidy_changes tidyHost_short (by decide) [47, 120] world0 changeJobs change_proper _ n1 [] ls1 (.refl _) 2 [lit "f"] rfl (fun _ => rfl) g1
    (fun l h => a5 l (List.mem_append_left _ h)) _ a7 nofun
  exact ⟨n1, n2, ls1, ls2, by decide +kernel, g1, g2, a6, (own_exec Vacant.refl a2 a4).1, a5, a7, a8⟩

/-- C105: the hypotheses of `C105_rename` are met by client 4 of the example; client 1 then finds what was called f -/
example : ∃ (n1 n2 : Shop World Nat Got) (ls1 ls2 : List (JobLabel World Nat)),
    tidyNames.node (placeOf [47, 120] [lit "f"]) world0 = some 3 ∧
    GentleExec tidyHost (lit "harvey") 4 (Stands tidyFiles tidyNames (placeOf [47, 120] [lit "f"]) (placeOf [47, 120] [lit "g"]))
      (Shop.start [47, 120] world0 changeJobs) ls1 n1 ∧
    (∀ l ∈ [] ++ ls1 ++ ls2, l.Clean) ∧ n1.stage 4 = .next (.ret (.whole [])) ∧ n2.stage 1 = .next (.ret (.whole [1, 2, 3, 4])) := by
  obtain ⟨n1, n2, ls1, ls2, a1, a2, a3, a4, a5, a6, a7, a8⟩ := pair_instance changeJobs change_proper (i := 4) (j := 1) (by decide)
    (.whole []) (.whole [1, 2, 3, 4]) (by decide +kernel) (by decide +kernel)
  exact ⟨n1, n2, ls1, ls2, by decide +kernel, (own_exec Stands.refl a1 a3).1, a5, a7, a8⟩

/-- a prefix of a path of one name -/
theorem prefix_one {a : GoString} {ms : List GoString} (h : ms ≠ []) (hp : ms <+: [a]) : ms = [a] := by
  obtain ⟨t, ht⟩ := hp
  match ms, h with
  | [b], _ => cases t with
    | nil => simpa using ht
    | cons => simp at ht
  | b :: c :: l, _ => simp at ht

/-- the directory is there, and what is called g, if anything, is a plain file -/
def canMakeG (w : World) : Prop :=
  (∃ i, find (placeOf [47, 120] []) w = some i) ∧ ∀ i, find (placeOf [47, 120] [lit "g"]) w = some i → i < w.next ∧ (w.nodes i).dir = false

theorem tidy_canMake : CanMake tidyFiles [47, 120] [] (lit "g") 0o644 canMakeG
    (fun h w => memOpen h w ∧ ∃ i, find (placeOf [47, 120] [lit "g"]) w = some i) where
  attach w w' r hw h := by
    obtain ⟨i, hi⟩ := hw.1
    rw [(tidy_stat (by decide +kernel) hi).1] at h
    cases h
    exact ⟨hw, _, rfl⟩
  walk ms w w' r hne hp := by cases List.prefix_nil.1 hp; exact absurd rfl hne
  makes w w' r hw h := by
    have h : tidyHost.openFile (placeOf [47, 120] [lit "g"]) makeFlags (0o644 &&& 0o777) w = (w', r) := h
    simp only [tidyHost] at h
    rw [if_neg (by rintro ⟨i, hi, hle⟩; exact absurd (hw.2 i hi).1 (Nat.not_lt.2 hle))] at h
    unfold Mem.openFile at h
    cases hf : find (placeOf [47, 120] [lit "g"]) w with
    | some i =>
      rw [hf] at h
      dsimp only at h
      rw [if_neg (by simp [(hw.2 i hf).2]), if_pos makeFlags_bits.2] at h
      cases h
      refine ⟨⟨hw.1, fun k hk => ⟨(hw.2 k hk).1, ?_⟩⟩, _, rfl, ⟨_, List.getElem?_concat_length, rfl⟩, i, hf⟩
      have := (hw.2 k hk).2
      simp only [setNode, addHandle]
      split
      · rename_i hki; cases hki; exact this
      · exact this
    | none =>
      rw [hf] at h
      dsimp only at h
      rw [if_pos makeFlags_bits.1] at h
      cases h
      have h1 : find (placeOf [47, 120] [lit "g"]) (addNode (placeOf [47, 120] [lit "g"]) { perm := 0o644 &&& 0o777 } w) = some w.next := by
        unfold find at hf ⊢
        show (w.names ++ [(_, w.next)]).lookup _ = _
        rw [List.lookup_append, hf]
        simp
      refine ⟨⟨?_, fun k hk => ?_⟩, _, rfl, ⟨_, List.getElem?_concat_length, rfl⟩, w.next, h1⟩
      · obtain ⟨i, hi⟩ := hw.1
        exact ⟨i, lookup_append_some hi⟩
      · cases Option.some.inj (h1.symm.trans hk)
        exact ⟨Nat.lt_succ_self _, by simp [addHandle, addNode]⟩
  looks h w w' r hw hm hx := by
    obtain ⟨i, hi⟩ := hm.2
    rw [show ([] ++ [lit "g"] : List GoString) = [lit "g"] from rfl, (tidy_stat (by decide +kernel) hi).2] at hx
    cases hx
    exact ⟨hw, hm, _, rfl⟩
  writes h b off w w' k e hw hm hx := by
    obtain ⟨⟨o, h1, h2⟩, h3⟩ := hm
    have hx : Mem.host.writeAt h b off w = (w', k, e) := hx
    simp only [Mem.host, onHandle, h1, h2, if_true] at hx
    split at hx
    · rename_i hlt
      cases hx
      exact ⟨hw, ⟨⟨o, h1, h2⟩, h3⟩, fun h => by omega⟩
    · cases hx
      refine ⟨⟨hw.1, fun i hi => ⟨(hw.2 i hi).1, ?_⟩⟩, ⟨⟨o, h1, h2⟩, h3⟩, fun _ => rfl⟩
      have := (hw.2 i hi).2
      simp only [setNode]
      split
      · rename_i hi; cases hi; exact this
      · exact this

/-- the directory and the file f are there, and g is not -/
def onlyF (w : World) : Prop :=
  (∃ i, find (placeOf [47, 120] []) w = some i) ∧ (∃ i, find (placeOf [47, 120] [lit "f"]) w = some i) ∧ find (placeOf [47, 120] [lit "g"]) w = none

theorem tidy_canErase : CanErase tidyHost [47, 120] [lit "f"] onlyF where
  attach w w' r hw h := by
    obtain ⟨i, hi⟩ := hw.1
    rw [(tidy_stat (by decide +kernel) hi).1] at h
    cases h
    exact ⟨hw, _, rfl⟩
  walk ms w w' r hne hp hw h := by
    cases prefix_one hne hp
    obtain ⟨i, hi⟩ := hw.2.1
    rw [(tidy_stat (by decide +kernel) hi).2] at h
    cases h
    exact ⟨hw, _, rfl⟩
  removes w hw := by
    obtain ⟨i, hi⟩ := hw.2.1
    show (Mem.remove _ w).2 = none
    unfold Mem.remove
    rw [hi]

theorem tidy_canMove : CanMove tidyHost [47, 120] [lit "f"] [lit "g"] onlyF where
  attach := tidy_canErase.attach
  walk := tidy_canErase.walk
  free w w' r hw h := by
    have h1 : tidyHost.stat (placeOf [47, 120] [lit "g"]) w = (w, .error noent) := by
      simp only [tidyHost, shortHost]
      rw [if_pos (by decide +kernel)]
      simp only [Mem.host, Mem.stat, hw.2.2]
    rw [h1] at h
    cases h
    exact ⟨hw, nofun⟩
  renames w hw := by
    obtain ⟨i, hi⟩ := hw.2.1
    show (Mem.rename _ _ w).2 = none
    unfold Mem.rename
    rw [hi]

theorem world0_f : onlyF world0 := ⟨⟨1, by decide +kernel⟩, ⟨3, by decide +kernel⟩, by decide +kernel⟩

/-- C105: the hypotheses of `C105_made`, `C105_removed` and `C105_renamed` are met by the clients 0, 2 and 4 of the example -/
example : ∃ (n0 n2 n4 : Shop World Nat Got) (ls0 ls2 ls4 : List (JobLabel World Nat)),
    canMakeG world0 ∧ onlyF world0 ∧
    GentleExec tidyHost (lit "harvey") 0 (SparedIn tidyFiles tidyNames (placeOf [47, 120] [lit "g"]) canMakeG
      (fun h w => memOpen h w ∧ ∃ i, find (placeOf [47, 120] [lit "g"]) w = some i)) (Shop.start [47, 120] world0 changeJobs) ls0 n0 ∧
    GentleExec tidyHost (lit "harvey") 2 (fun w w' => Vacant tidyNames (placeOf [47, 120] [lit "f"]) w w' ∧ (onlyF w → onlyF w'))
      (Shop.start [47, 120] world0 changeJobs) ls2 n2 ∧
    GentleExec tidyHost (lit "harvey") 4 (fun w w' => Stands tidyFiles tidyNames (placeOf [47, 120] [lit "f"]) (placeOf [47, 120] [lit "g"]) w w' ∧ (onlyF w → onlyF w'))
      (Shop.start [47, 120] world0 changeJobs) ls4 n4 ∧
    (∀ l ∈ ls0 ++ ls2 ++ ls4, l.Clean) ∧ n0.stage 0 = .next (.ret (.whole [7, 8, 9])) ∧ n2.stage 2 = .next (.ret (.whole [])) ∧
      n4.stage 4 = .next (.ret (.whole [])) := by
  obtain ⟨n0, -, ls0, -, a1, -, a3, -, -, -, a7, -⟩ := pair_instance changeJobs change_proper (i := 0) (j := 1) (by decide)
    (.whole [7, 8, 9]) (.whole [7, 8, 9]) (by decide +kernel) (by decide +kernel)
  obtain ⟨n2, -, ls2, -, b1, -, b3, -, -, -, b7, -⟩ := pair_instance changeJobs change_proper (i := 2) (j := 3) (by decide)
    (.whole []) .failed (by decide +kernel) (by decide +kernel)
  obtain ⟨n4, -, ls4, -, c1, -, c3, -, -, -, c7, -⟩ := pair_instance changeJobs change_proper (i := 4) (j := 1) (by decide)
    (.whole []) (.whole [1, 2, 3, 4]) (by decide +kernel) (by decide +kernel)
  refine ⟨n0, n2, n4, ls0, ls2, ls4, ⟨world0_f.1, fun i hi => by rw [world0_f.2.2] at hi; cases hi⟩, world0_f, (own_exec SparedIn.refl a1 a3).1,
    (own_exec (fun w => ⟨Vacant.refl w, id⟩) b1 b3).1, (own_exec (fun w => ⟨Stands.refl w, id⟩) c1 c3).1, fun l hl => ?_, a7, b7, c7⟩
  rcases List.mem_append.1 hl with hl | hl
  · rcases List.mem_append.1 hl with hl | hl
    · exact (a3 l hl).fine.1
    · exact (b3 l hl).fine.1
  · exact (c3 l hl).fine.1

end
end Ninep.Client
