import Verif.Props.Transfer

set_option linter.unusedSimpArgs false
set_option linter.unusedVariables false

/-!
# Directories that are listed by a program (C100)
-/

namespace Ninep.Client
open Spec Ufs
variable {ω H α : Type}

/-- a directory -/
def isDirectory (q : QID) : Bool := !isPlain q

/-- list a directory, `c` bytes at a time and with at most `n` reads -/
def lister (path : List GoString) (c : Count) (n : Nat) : Job Got := openAt path 0 isDirectory (readAll 1 c n 0 [])

theorem lister_proper {path : List GoString} (hp : GoodPath path) {c : Count} (hc : 0 ≤ c.toInt) (n : Nat) : (lister path c n).Proper :=
  openAt_proper hp _ _ (readAll_all _ hc _ _ _)

section
variable {host : Host ω H} {user : GoString}

/-- How paths and open directories belong together: `E` is what a directory at a path contains.  What has been opened,
without truncation or creation, is listed as it is then, and looking around changes nothing. -/
structure OpensDirs (D : DirView host) (E : GoString → ω → Option (List FileInfo)) : Prop where
  opened : ∀ {p fl m w w' h l}, fl / 512 % 2 = 0 → fl / 64 % 2 = 0 → E p w = some l → host.openFile p fl m w = (w', .ok h) → D.listing h w' = some l
  stat : ∀ p q w l, E p w = some l → E p (host.stat q w).1 = some l
  lstat : ∀ p q w l, E p w = some l → E p (host.lstat q w).1 = some l

/-- the others leave the directory at `p` alone, and open directories too; they keep to `J` and do not close the files `M` -/
structure LeavesDir (D : DirView host) (E : GoString → ω → Option (List FileInfo)) (p : GoString) (J : ω → Prop) (M : H → ω → Prop) (w w' : ω) : Prop where
  entries : E p w' = E p w
  listed : ∀ h l, D.listing h w = some l → D.listing h w' = some l ∧ D.rest h w' = D.rest h w
  inv : J w → J w'
  mine : ∀ h, M h w → M h w'

variable {D : DirView host} {E : GoString → ω → Option (List FileInfo)}

theorem LeavesDir.refl {p : GoString} {J : ω → Prop} {M : H → ω → Prop} (w : ω) : LeavesDir D E p J M w w := ⟨rfl, fun _ _ h => ⟨h, rfl⟩, id, fun _ => id⟩

theorem LeavesDir.trans {p : GoString} {J : ω → Prop} {M : H → ω → Prop} {a b c : ω} (h : LeavesDir D E p J M a b) (h' : LeavesDir D E p J M b c) :
    LeavesDir D E p J M a c :=
  ⟨h'.entries.trans h.entries, fun x l hl => ⟨(h'.listed x l (h.listed x l hl).1).1, (h'.listed x l (h.listed x l hl).1).2.trans (h.listed x l hl).2⟩,
    fun hj => h'.inv (h.inv hj), fun x hx => h'.mine x (h.mine x hx)⟩

/-- In the worlds `J`, the directory at this place can be listed. -/
structure CanList (D : DirView host) (root : GoString) (path : List GoString) (J : ω → Prop) (M : H → ω → Prop) : Prop where
  reach : CanReach host root path 0 isDirectory J M
  seeks : ∀ h w w' r, J w → M h w → host.seek0 h w = (w', r) → J w' ∧ M h w' ∧ r = none
  reads : ∀ h w w' r l, J w → M h w → D.listing h w = some l → host.readdir1 h w = (w', r) → J w' ∧ M h w' ∧ ∀ e, r ≠ .fail e

/-- what comes of `lister` if the directory contains the entries `l` -/
def ListedAs (user : GoString) (l : List FileInfo) (n : Nat) : Got → Prop
  | .whole d => d = (l.map (record user)).flatten
  | .part => n ≤ l.length
  | .failed => True

/-- what one read of an open directory comes to if the entries `todo` are still to come -/
def ReadOne (D : DirView host) (user : GoString) (fid : FID) (f : File H) (h : H) (l todo : List FileInfo) (J : ω → Prop) (M : H → ω → Prop) (B : Prop) :
    Obj H × Except GoString Bytes → ω → Prop
  | (o, .ok b), w => o.files fid = some f ∧ D.listing h w = some l ∧ D.rest h w = todo.tail ∧ J w ∧ M h w ∧
      b = (todo.head?.map (record user)).getD []
  | (_, .error _), _ => B

section
variable {p root : GoString} {path : List GoString} {J : ω → Prop} {M : H → ω → Prop} {B : Prop}

theorem ReadOne.later {fid : FID} {f : File H} {h : H} {l todo : List FileInfo} {x : Obj H × Except GoString Bytes} {w w' : ω}
    (hr : ReadOne D user fid f h l todo J M B x w) (hl : LeavesDir D E p J M w w') : ReadOne D user fid f h l todo J M B x w' := by
  obtain ⟨o, r⟩ := x
  cases r with
  | error e => exact hr
  | ok b =>
    obtain ⟨h1, h2, h3, h4, h5, h6⟩ := hr
    obtain ⟨g1, g2⟩ := hl.listed h l h2
    exact ⟨h1, g1, g2.trans h3, hl.inv h4, hl.mine h h5, h6⟩

theorem sure_readDir (hcan : CanList D root path J M ∨ (B ∧ (∀ w, J w) ∧ ∀ h w, M h w))
    {fid : FID} {f : File H} {h : H} {c : Count} {o : Obj H} {w : ω} {l todo : List FileInfo} (hfl : f.oflow = []) (hc : 0 ≤ c.toInt)
    (hfit : ∀ fi ∈ todo, ((record user fi).length : Int) ≤ c.toInt)
    (hl : D.listing h w = some l) (hr : D.rest h w = todo) (hj : J w) (hm : M h w) :
    Sure host (LeavesDir D E p J M) (ReadOne D user fid f h l todo J M B) (preadDir user fid f h c o) w := by
  unfold preadDir
  dsimp only
  rw [hfl, if_neg (by simpa using hc)]
  refine sure_call fun w1 h1 w2 r hx => ?_
  have hx : host.readdir1 h w1 = (w2, r) := hx
  obtain ⟨l1, r1⟩ := h1.listed h l hl
  rw [hr] at r1
  have hset : (o.set fid { f with oflow := [] }).files fid = some f := by
    simp only [State.set, if_true, ← hfl]
  have j2 : J w2 ∧ M h w2 ∧ ∀ e, r = .fail e → B := by
    rcases hcan with hcan | ⟨hb, hj, hm⟩
    · obtain ⟨a, b, c⟩ := hcan.reads h w1 w2 r l (h1.inv hj) (h1.mine h hm) l1 hx
      exact ⟨a, b, fun e he => absurd he (c e)⟩
    · exact ⟨hj _, hm _ _, fun _ _ => hb⟩
  cases r with
  | fail e => exact fun w3 h3 => j2.2.2 e rfl
  | eof =>
    have : todo = [] := by
      cases todo with
      | nil => rfl
      | cons fi t => exact absurd (D.next_cons l1 r1 hx (by simp)).1 (by simp)
    subst this
    obtain ⟨-, g1, g2⟩ := D.next_nil l1 r1 hx (by simp)
    exact fun w3 h3 => ReadOne.later (E := E) (p := p) ⟨hset, g1, g2, j2.1, j2.2.1, rfl⟩ h3
  | entry st =>
    cases todo with
    | nil => exact absurd (D.next_nil l1 r1 hx (by simp)).1 (by simp)
    | cons fi t =>
      obtain ⟨g0, g1, g2⟩ := D.next_cons l1 r1 hx (by simp)
      cases g0
      have hb : (marshaldir (Buffer.ofBytes []) (dirTo9p2000Dir user st)).bytes = record user st := by rw [marshaldir_eq]; rfl
      dsimp only
      rw [hb, if_neg (by have := hfit st (by simp); omega)]
      exact fun w3 h3 => ReadOne.later (E := E) (p := p) ⟨hset, g1, g2, j2.1, j2.2.1, rfl⟩ h3

theorem sure_read (hcan : CanList D root path J M ∨ (B ∧ (∀ w, J w) ∧ ∀ h w, M h w))
    {fid : FID} {f : File H} {h : H} {c : Count} {o : Obj H} {w : ω} {off : Offset} {l todo : List FileInfo} (hc : 0 ≤ c.toInt)
    (hf : o.files fid = some f) (hh : f.file = some h) (hd : isDirectory f.qid = true)
    (hfit : ∀ fi ∈ l, ((record user fi).length : Int) ≤ c.toInt)
    (hl : D.listing h w = some l) (hoff : (off = 0 ∧ todo = l) ∨ (off ≠ 0 ∧ f.oflow = [] ∧ D.rest h w = todo ∧ todo <:+ l)) (hj : J w) (hm : M h w) :
    Sure host (LeavesDir D E p J M) (ReadOne D user fid { f with oflow := [] } h l todo J M B) (pread user fid off c o) w := by
  unfold pread
  rw [hf]
  dsimp only
  rw [hh]
  dsimp only
  rw [if_pos (by simpa [isDirectory, isPlain] using hd)]
  rcases hoff with ⟨h0, rfl⟩ | ⟨h0, h1, h2, h3⟩
  · rw [if_pos h0]
    refine sure_call fun w1 h1 w2 r hx => ?_
    have hx : host.seek0 h w1 = (w2, r) := hx
    obtain ⟨l1, r1⟩ := h1.listed h _ hl
    have j2 : J w2 ∧ M h w2 ∧ ∀ e, r = some e → B := by
      rcases hcan with hcan | ⟨hb, hj, hm⟩
      · obtain ⟨a, b, c⟩ := hcan.seeks h w1 w2 r (h1.inv hj) (h1.mine h hm) hx
        exact ⟨a, b, fun e he => by rw [c] at he; cases he⟩
      · exact ⟨hj _, hm _ _, fun _ _ => hb⟩
    cases r with
    | some e => exact fun w3 h3 => j2.2.2 e rfl
    | none =>
      obtain ⟨g1, g2⟩ := D.seek l1 hx
      exact sure_readDir hcan rfl hc hfit g1 g2 j2.1 j2.2.1
  · rw [if_neg h0]
    have : ({ f with oflow := [], file := some h } : File H) = f := by rw [← h1, ← hh]
    rw [this]
    exact sure_readDir hcan h1 hc (fun fi hfi => hfit fi (h3.subset hfi)) hl h2 hj hm

theorem sure_listAll (hcan : CanList D root path J M ∨ (B ∧ (∀ w, J w) ∧ ∀ h w, M h w)) {h : H} {fid : FID} {c : Count} {l : List FileInfo}
    (hc : 0 ≤ c.toInt) (hfit : ∀ fi ∈ l, ((record user fi).length : Int) ≤ c.toInt) (hsum : (l.map (record user)).flatten.length < 2 ^ 64)
    (n k : Nat) (done todo : List FileInfo) (hdone : done ++ todo = l) (hk : k ≤ done.length + n) {o : Obj H} {f : File H} {w : ω}
    (hf : o.files fid = some f) (hh : f.file = some h) (hd : isDirectory f.qid = true)
    (hl : D.listing h w = some l) (hoff : done = [] ∨ (f.oflow = [] ∧ D.rest h w = todo)) (hj : J w) (hm : M h w) :
    Sure host (LeavesDir D E p J M) (fun x _ => ListedAs user l k x.2 ∧ (x.2 = .failed → B))
      ((readAll fid c n (UInt64.ofNat (done.map (record user)).flatten.length) (done.map (record user)).flatten).prog user o) w := by
  induction n generalizing done todo o f w with
  | zero =>
    refine fun w1 h1 => ⟨?_, nofun⟩
    have := congrArg List.length hdone
    simp at this
    show k ≤ l.length
    omega
  | succ n ih =>
    have hlen : (done.map (record user)).flatten.length + (todo.map (record user)).flatten.length < 2 ^ 64 := by
      rw [← hdone] at hsum
      simpa using hsum
    have hpos : done ≠ [] → 0 < (done.map (record user)).flatten.length := by
      intro hne
      cases done with
      | nil => exact absurd rfl hne
      | cons a t =>
        have := List.length_pos_iff.2 (record_ne_nil user a)
        simp; omega
    have hnat : (UInt64.ofNat (done.map (record user)).flatten.length).toNat = (done.map (record user)).flatten.length :=
      UInt64.toNat_ofNat_of_lt' (by have : UInt64.size = 2 ^ 64 := rfl; omega)
    refine sure_ok (Q := fun a _ => ListedAs user l k a ∧ (a = .failed → B)) LeavesDir.refl LeavesDir.trans _ _ rfl ?_
    refine (sure_read hcan (todo := todo) hc hf hh hd hfit hl ?_ hj hm).imp fun x w hx => ?_
    · cases done with
      | nil => exact .inl ⟨rfl, hdone⟩
      | cons a t =>
        obtain ⟨h1, h2⟩ := hoff.resolve_left (by simp)
        refine .inr ⟨fun h0 => ?_, h1, h2, ⟨_, hdone⟩⟩
        have h0 : UInt64.ofNat ((a :: t).map (record user)).flatten.length = 0 := h0
        rw [h0] at hnat
        have := hpos (by simp)
        simp only [UInt64.toNat_zero] at hnat
        omega
    · obtain ⟨o', r⟩ := x
      cases r with
      | error e => exact fun _ _ => ⟨trivial, fun _ => hx⟩
      | ok b =>
        obtain ⟨h1, h2, h3, h4, h5, h6⟩ := hx
        dsimp only
        cases todo with
        | nil =>
          have h6 : b = [] := h6
          rw [if_pos h6]
          rw [List.append_nil] at hdone
          subst hdone
          exact sure_clunk (a := .whole (done.map (record user)).flatten) (Q := fun a _ => ListedAs user done k a ∧ (a = .failed → B)) LeavesDir.refl LeavesDir.trans (I := fun _ => True) (fun _ => id)
            (fun _ _ => trivial) h1 hh (fun _ _ => ⟨rfl, nofun⟩) trivial
        | cons fi t =>
          have h6 : b = record user fi := h6
          rw [if_neg (by rw [h6]; exact record_ne_nil user fi), h6]
          have e1 : (done.map (record user)).flatten ++ record user fi = ((done ++ [fi]).map (record user)).flatten := by simp
          have e2 : UInt64.ofNat (done.map (record user)).flatten.length + UInt64.ofNat (record user fi).length =
              UInt64.ofNat ((done ++ [fi]).map (record user)).flatten.length := by
            rw [← e1, List.length_append, UInt64.ofNat_add]
          rw [e2, e1]
          exact ih (done ++ [fi]) t (by simpa using hdone) (by simp; omega) h1 hh hd h2 (.inr ⟨rfl, h3⟩) h4 h5

theorem sure_lister (hO : OpensDirs D E) (hcan : CanList D root path J M ∨ (B ∧ (∀ w, J w) ∧ ∀ h w, M h w)) {c : Count} {l : List FileInfo}
    (hc : 0 ≤ c.toInt) (hfit : ∀ fi ∈ l, ((record user fi).length : Int) ≤ c.toInt) (hsum : (l.map (record user)).flatten.length < 2 ^ 64) (n : Nat) {w : ω}
    (hw : E (placeOf root path) w = some l) (hj : J w) :
    Sure host (LeavesDir D E (placeOf root path) J M) (fun x _ => ListedAs user l n x.2 ∧ (x.2 = .failed → B)) ((lister path c n).prog user (newObj root)) w := by
  refine sure_openAt (Q := fun a _ => ListedAs user l n a ∧ (a = .failed → B)) LeavesDir.refl LeavesDir.trans
    (I := fun w => E (placeOf root path) w = some l ∧ J w) (K := fun h w => D.listing h w = some l ∧ J w ∧ M h w) (B := B)
    (fun h h' => ⟨h.entries.trans h'.1, h.inv h'.2⟩) (fun hb _ _ => ⟨trivial, fun _ => hb⟩) ?_ ?_ ?_ ?_ ⟨hw, hj⟩
  · intro w w' r h hx
    have h1 := hO.stat _ (placeOf root []) w l h.1
    rw [hx] at h1
    rcases hcan with hcan | ⟨hb, hj, hm⟩
    · obtain ⟨j1, st, rfl, j2⟩ := hcan.reach.attach w w' r h.2 hx
      exact ⟨⟨h1, j1⟩, nofun, fun st hst hp => by cases hst; exact .inl (j2 hp)⟩
    · exact ⟨⟨h1, hj _⟩, fun _ _ => hb, fun _ _ _ => .inr hb⟩
  · intro ms w w' r hne hpre h hx
    have h1 := hO.lstat _ (placeOf root ms) w l h.1
    rw [hx] at h1
    rcases hcan with hcan | ⟨hb, hj, hm⟩
    · obtain ⟨j1, st, rfl, j2⟩ := hcan.reach.walk ms w w' r hne hpre h.2 hx
      exact ⟨⟨h1, j1⟩, nofun, fun st hst hp => by cases hst; exact .inl (j2 hp)⟩
    · exact ⟨⟨h1, hj _⟩, fun _ _ => hb, fun _ _ _ => .inr hb⟩
  · intro w w' r h hx
    refine ⟨fun hb _ _ => ⟨trivial, fun _ => hb⟩, ?_⟩
    rcases hcan with hcan | ⟨hb, hj, hm⟩
    · obtain ⟨j1, y, rfl, j2⟩ := hcan.reach.opens w w' r h.2 hx
      exact ⟨nofun, fun z hz => by cases hz; exact ⟨hO.opened flags_read.1 flags_read.2 h.1 hx, j1, j2⟩⟩
    · exact ⟨fun _ _ => hb, fun z hz => ⟨hO.opened flags_read.1 flags_read.2 h.1 (by rw [hx, hz]), hj _, hm _ _⟩⟩
  · intro o f h w h1 h2 h3 h4
    exact sure_listAll hcan hc hfit hsum n n [] l rfl (by simp) h1 h2 h3 h4.1 (.inl rfl) h4.2.1 h4.2.2

end

/-- **C100** Client `i` lists a directory and has made no calls before `n`; from `n` on the others leave the directory alone,
but do anything else.  Every entry fits into a reply.  If the program comes to the end of the directory, what it has got are the
stat records of the entries, one after the other, each once and in the order of the host, and they can be decoded.  If
the program is ready to read more often than there are entries, it does not stop early. -/
theorem C100_list (hO : OpensDirs D E) (hh : host.Short) (hu : user.length < 2 ^ 13) (root : GoString) (w : ω) (jobs : Nat → Job Got)
    (hj : ∀ i, (jobs i).Proper) (n n' : Shop ω H Got) (ls ls' : List (JobLabel ω H)) (he : JobExec host user (Shop.start root w jobs) ls n)
    (i : Nat) (path : List GoString) (c : Count) (hc : 0 ≤ c.toInt) (k : Nat) (hi : jobs i = lister path c k)
    (hid : ∀ x, (n.site.link i).w.cl.phase x = .idle) (l : List FileInfo) (hl : E (placeOf root path) n.site.world = some l)
    (hfit : ∀ fi ∈ l, ((record user fi).length : Int) ≤ c.toInt) (hname : ∀ fi ∈ l, fi.name.length < 2 ^ 16)
    (hsum : (l.map (record user)).flatten.length < 2 ^ 64)
    (he' : GentleExec host user i (LeavesDir D E (placeOf root path) (fun _ => True) (fun _ _ => True)) n ls' n') (hc' : ∀ l ∈ ls ++ ls', l.Clean)
    (a : Got) (ha : n'.stage i = .next (.ret a)) :
    (∀ d, a = .whole d → d = (l.map (record user)).flatten ∧
      ∀ spare, ∃ b, readEntries l.length ⟨[], d, spare⟩ = some (l.map (dirTo9p2000Dir user), b)) ∧ (l.length < k → a ≠ .part) := by
  have h := job_sure hh hu hj he LeavesDir.refl LeavesDir.trans he' hc' hid ha (Q := fun a _ => ListedAs user l k a ∧ (a = .failed → True))
    (by rw [hi]; exact sure_lister hO (.inr ⟨trivial, fun _ => trivial, fun _ _ => trivial⟩) hc hfit hsum k hl trivial)
  refine ⟨fun d hd => ?_, fun hlt hp => ?_⟩
  · subst hd
    have h : d = (l.map (record user)).flatten := h.1
    subst h
    refine ⟨rfl, fun spare => ?_⟩
    have := C03_dir_list (l.map (dirTo9p2000Dir user)) (fun d hd => by
      obtain ⟨fi, h1, rfl⟩ := List.mem_map.1 hd
      exact ⟨hname fi h1, by simp [dirTo9p2000Dir]; omega, by simp [dirTo9p2000Dir]; omega, by simp [dirTo9p2000Dir]⟩) (Buffer.ofBytes []) [] [] spare
    simp only [List.length_map, List.map_map, Function.comp_def, marshaldir_eq, List.append_nil] at this
    exact ⟨_, this⟩
  · subst hp
    have h : k ≤ l.length := h.1
    omega

/-- **C100** If the directory can be listed, client `i` lists it. -/
theorem C100_listed (hO : OpensDirs D E) (hh : host.Short) (hu : user.length < 2 ^ 13) (root : GoString) (w : ω) (jobs : Nat → Job Got)
    (hj : ∀ i, (jobs i).Proper) (n n' : Shop ω H Got) (ls ls' : List (JobLabel ω H)) (he : JobExec host user (Shop.start root w jobs) ls n)
    (i : Nat) (path : List GoString) (c : Count) (hc : 0 ≤ c.toInt) (k : Nat) (hi : jobs i = lister path c k)
    (hid : ∀ x, (n.site.link i).w.cl.phase x = .idle) (l : List FileInfo) (hl : E (placeOf root path) n.site.world = some l)
    (J : ω → Prop) (M : H → ω → Prop) (hcan : CanList D root path J M) (hJ : J n.site.world)
    (hfit : ∀ fi ∈ l, ((record user fi).length : Int) ≤ c.toInt) (hsum : (l.map (record user)).flatten.length < 2 ^ 64) (hk : l.length < k)
    (he' : GentleExec host user i (LeavesDir D E (placeOf root path) J M) n ls' n') (hc' : ∀ l ∈ ls ++ ls', l.Clean)
    (a : Got) (ha : n'.stage i = .next (.ret a)) : a = .whole (l.map (record user)).flatten := by
  have h := job_sure hh hu hj he LeavesDir.refl LeavesDir.trans he' hc' hid ha (Q := fun a _ => ListedAs user l k a ∧ (a = .failed → False))
    (by rw [hi]; exact sure_lister hO (.inl hcan) hc hfit hsum k hl hJ)
  cases a with
  | whole d => rw [show d = (l.map (record user)).flatten from h.1]
  | part => exact absurd (show k ≤ l.length from h.1) (by omega)
  | failed => exact (h.2 rfl).elim

end

/-! ### an example -/

section
open Mem

def shortDirs : DirView shortHost where
  listing := memListing
  rest := memRest
  seek := memDirs.seek
  next_nil := memDirs.next_nil
  next_cons := memDirs.next_cons

/-- the entries of a directory of the example host -/
def memEntries (p : GoString) (w : World) : Option (List FileInfo) := (find p w).map fun _ => list p w

theorem short_opensDirs : OpensDirs shortDirs memEntries where
  opened {p fl m w w' h l} h1 h2 he ho := by
    have ho : Mem.openFile p fl m w = (w', .ok h) := ho
    unfold memEntries at he
    unfold Mem.openFile at ho
    cases hf : find p w with
    | none => rw [hf] at he; cases he
    | some i =>
      rw [hf] at he ho
      cases he
      dsimp only at ho
      split at ho
      · cases ho
      · rw [if_neg (by omega)] at ho
        cases ho
        show memListing _ _ = _
        unfold memListing
        simp [addHandle]
  stat p q w l h := by rw [show (shortHost.stat q w).1 = w from short_world (.stat q) w]; exact h
  lstat p q w l h := by rw [show (shortHost.lstat q w).1 = w from short_world (.lstat q) w]; exact h

theorem mem_canList : CanList shortDirs [47, 120] [] sameNames memOpen where
  reach := {
    attach := fun w w' r hw h => by
      obtain ⟨st, h1, -, h2⟩ := short_stat (p := placeOf [47, 120] []) (i := 1) (by decide +kernel) hw (by decide +kernel)
      rw [h1] at h
      cases h
      exact ⟨hw, st, rfl, fun _ => by unfold isDirectory; rw [qid_kind h2]; decide +kernel⟩
    walk := fun ms w w' r hne hpre => absurd (List.prefix_nil.1 hpre) hne
    opens := fun w w' r hw h => by
      have h1 : find (placeOf [47, 120] []) w = some 1 := by
        unfold find
        rw [hw.1]
        decide +kernel
      have h : Mem.openFile (placeOf [47, 120] []) (modeToUnixFlags 0) 0 w = (w', r) := h
      unfold Mem.openFile at h
      rw [h1] at h
      dsimp only at h
      rw [if_neg (fun h => absurd h.2 (by decide)), if_neg (by decide)] at h
      cases h
      exact ⟨hw, _, rfl, _, List.getElem?_concat_length, rfl⟩ }
  seeks h w w' r hw ho hx := by
    obtain ⟨o, h1, h2⟩ := ho
    have hx : Mem.host.seek0 h w = (w', r) := hx
    simp only [Mem.host, onHandle, h1, h2, if_true] at hx
    cases hx
    exact ⟨hw, ⟨{ o with rest := o.listing }, by simp [setOpened, (List.getElem?_eq_some_iff.1 h1).1, h2], h2⟩, rfl⟩
  reads h w w' r l hw ho hl hx := by
    obtain ⟨o, h1, h2⟩ := ho
    have hx : Mem.host.readdir1 h w = (w', r) := hx
    simp only [Mem.host, onHandle, h1, h2, if_true] at hx
    split at hx
    · cases hx
      exact ⟨hw, ⟨o, h1, h2⟩, nofun⟩
    · rename_i fi r _
      cases hx
      exact ⟨hw, ⟨{ o with rest := r }, by simp [setOpened, (List.getElem?_eq_some_iff.1 h1).1, h2], h2⟩, nofun⟩

/-- client 0 lists the directory that is served -/
def listJobs : Nat → Job Got
  | 0 => lister [] 1000 10
  | _ => .ret .failed

theorem list_proper (i : Nat) : (listJobs i).Proper := by
  match i with
  | 0 => exact lister_proper (by unfold GoodPath; decide) (by decide) 10
  | _ + 1 => exact ⟨trivial, trivial⟩

/-- C100: the hypotheses are met by the client of the example, which lists a directory with two entries -/
example : ∃ (n : Shop World Nat Got) (ls : List (JobLabel World Nat)) (a : Got) (l : List FileInfo),
    memEntries (placeOf [47, 120] []) world0 = some l ∧ l.length = 2 ∧ (∀ fi ∈ l, ((record (lit "harvey") fi).length : Int) ≤ (1000 : Int32).toInt) ∧
    (∀ fi ∈ l, fi.name.length < 2 ^ 16) ∧ (l.map (record (lit "harvey"))).flatten.length < 2 ^ 64 ∧
    CanList shortDirs [47, 120] [] sameNames memOpen ∧ sameNames world0 ∧
    GentleExec shortHost (lit "harvey") 0 (LeavesDir shortDirs memEntries (placeOf [47, 120] []) sameNames memOpen) (Shop.start [47, 120] world0 listJobs) ls n ∧
    GentleExec shortHost (lit "harvey") 0 (LeavesDir shortDirs memEntries (placeOf [47, 120] []) (fun _ => True) (fun _ _ => True))
      (Shop.start [47, 120] world0 listJobs) ls n ∧
    (∀ l ∈ ls, l.Clean) ∧ n.stage 0 = .next (.ret a) := by
  have hu : (lit "harvey").length < 2 ^ 13 := by decide
  obtain ⟨ls, n, a, a1, a2, a3⟩ := C98_completes shortHost_short hu [47, 120] world0 _ list_proper _ [] (.refl _) nofun 0 nofun rfl
    (show (0 : Nat) < 65534 by decide)
  refine ⟨n, ls, a, _, show memEntries (placeOf [47, 120] []) world0 = some (list [47, 120] world0) from by decide +kernel, by decide +kernel, by decide +kernel, by decide +kernel, by decide +kernel,
    mem_canList, ⟨rfl, fun _ => ⟨rfl, rfl⟩⟩, (own_exec LeavesDir.refl a1 a2).1, (own_exec LeavesDir.refl a1 a2).1, fun l hl => (a2 l hl).fine.1, a3⟩

end

end Ninep.Client
