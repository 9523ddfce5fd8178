import Verif.Props.UfsWstat
import Verif.Props.Create

set_option linter.unusedSimpArgs false
set_option linter.unusedVariables false

/-
What a wstat sets, the next stat reports (C115).
-/

namespace Ninep.Spec

/-- the name a path without ".." leads to: its last element that is not "." -/
def named (p : Bytes) : Option Bytes := ((elems p).filter (· ≠ [46])).getLast?

/-- `new` is the stat record `old` with what `asked` asks for: fields of `asked` that are all ones or empty
ask for nothing.  Only the permission bits of the mode can be asked for.  A new length may bring a new
modification time. -/
structure Applied (old asked new : Dir) : Prop where
  name : asked.Name = [] → new.Name = old.Name
  renamed : asked.Name ≠ [] → named asked.Name = some new.Name
  length : new.Length = if asked.Length = 0xFFFFFFFFFFFFFFFF then old.Length else asked.Length
  perm : new.Mode.toNat % 512 = if asked.Mode = 0xFFFFFFFF then old.Mode.toNat % 512 else asked.Mode.toNat % 512
  kind : new.Mode.toNat / 512 = old.Mode.toNat / 512 ∧ new.QID.Typ = old.QID.Typ
  mtime : asked.Mtime ≠ 0xFFFFFFFF → new.Mtime = asked.Mtime
  older : asked.Mtime = 0xFFFFFFFF → asked.Length = 0xFFFFFFFFFFFFFFFF →
    new.Mtime = old.Mtime ∧ new.QID.Version = old.QID.Version
  file : new.QID.Path = old.QID.Path
  owner : new.User = old.User ∧ new.Group = old.Group ∧ new.ModUser = old.ModUser

end Ninep.Spec

namespace Ninep.Ufs
open Spec

/-- `n` is what follows the last slash of `q` -/
def EndsIn (q n : GoString) : Prop := 47 ∉ n ∧ (q = n ∨ ∃ a, q = a ++ 47 :: n)

/-- What is assumed of the host: the attributes of what is not a symbolic link are those that were set last.
Setting the permissions may change other bits of the mode (the set-uid bit, say), but not those that tell
directories and links.  A new length may bring a new modification time. -/
structure KeepsAttrs {ω H : Type} (host : Host ω H) : Prop where
  quiet : host.Quiet
  inode : ∀ p w fi, (host.lstat p w).2 = .ok fi → fi.sys ≠ none
  stat : ∀ p w fi, (host.lstat p w).2 = .ok fi → fi.mode &&& ModeSymlink = 0 → (host.stat p w).2 = .ok fi
  chmod : ∀ p m w fi, (host.lstat p w).2 = .ok fi → fi.mode &&& ModeSymlink = 0 → (host.chmod p m w).2 = none →
    ∃ m', (host.lstat p (host.chmod p m w).1).2 = .ok { fi with mode := m' } ∧ m' &&& 0o777 = m &&& 0o777 ∧
      m' &&& ModeDir = fi.mode &&& ModeDir ∧ m' &&& ModeSymlink = fi.mode &&& ModeSymlink
  truncate : ∀ p n w fi, (host.lstat p w).2 = .ok fi → fi.mode &&& ModeSymlink = 0 → (host.truncate p n w).2 = none →
    ∃ t, (host.lstat p (host.truncate p n w).1).2 = .ok { fi with size := n, modTime := t }
  chtimes : ∀ p a m w fi, (host.lstat p w).2 = .ok fi → fi.mode &&& ModeSymlink = 0 → (host.chtimes p a m w).2 = none →
    (host.lstat p (host.chtimes p a m w).1).2 = .ok { fi with modTime := m }
  rename : ∀ p q w fi n, (host.lstat p w).2 = .ok fi → (host.rename p q w).2 = none → EndsIn q n →
    (host.lstat q (host.rename p q w).1).2 = .ok { fi with name := n }
  sync : ∀ p h w, (host.lstat p (host.sync h w).1).2 = (host.lstat p w).2

/-! ### names -/

theorem place_dots {es l : List Bytes} (h : [46, 46] ∉ l) : place es l = es ++ l.filter (· ≠ [46]) := by
  induction l generalizing es with
  | nil => simp [place]
  | cons e l ih =>
    have h2 : e ≠ [46, 46] := by rintro rfl; exact h (by simp)
    rw [place_cons, ih fun x => h (List.mem_cons_of_mem _ x)]
    unfold follow
    by_cases h1 : e = [46]
    · subst h1; simp
    · rw [if_neg h1, if_neg h2]; simp [h1]

theorem elems_length (p : Bytes) : ∀ n ∈ elems p, n.length ≤ p.length := by
  intro n h
  generalize hk : p.length = k
  induction k using Nat.strongRecOn generalizing p with
  | _ k ih =>
    unfold elems at h
    split at h
    · cases h
    · rename_i x rest
      simp only [List.length_cons] at hk
      split at h
      · have := ih rest.length (by omega) rest h rfl
        omega
      · rcases List.mem_cons.1 h with rfl | h
        · have := (List.takeWhile_prefix (l := rest) (· ≠ 47)).length_le
          simp only [List.length_cons]
          omega
        · have hl := (List.dropWhile_suffix (l := rest) (· ≠ 47)).length_le
          have := ih (rest.dropWhile (· ≠ 47)).length (by omega) _ h rfl
          omega

theorem slashed_last (l : List Bytes) {n : Bytes} (hn : 47 ∉ n) : EndsIn (slashed (l ++ [n])) n := by
  refine ⟨hn, ?_⟩
  cases l with
  | nil => exact .inl (by simp [slashed])
  | cons a l => exact .inr ⟨a ++ l.flatMap (47 :: ·), by simp [slashed]⟩

theorem under_last (root : Root) (l : List Bytes) {n : Bytes} (hn : 47 ∉ n) : EndsIn (root.under (l ++ [n])) n := by
  cases root with
  | abs es =>
    refine ⟨hn, .inr ⟨(es ++ l).flatMap (47 :: ·), ?_⟩⟩
    show absPath (es ++ (l ++ [n])) = _
    unfold absPath
    split
    · rename_i h; simp at h
    · simp
  | rel p =>
    show EndsIn (RelPlace.path ⟨p.ups, p.names ++ (l ++ [n])⟩) n
    have e : RelPlace.elems ⟨p.ups, p.names ++ (l ++ [n])⟩ = (List.replicate p.ups [46, 46] ++ p.names ++ l) ++ [n] := by
      simp [RelPlace.elems]
    unfold RelPlace.path
    rw [e, if_neg (by simp)]
    exact slashed_last _ hn

/-- the name a file has after a rename to a path without ".." -/
theorem renameTo_ends (root full : GoString) {name n : GoString} (hu : [46, 46] ∉ elems name) (hn : named name = some n) :
    EndsIn (renameTo root full name) n := by
  unfold named at hn
  have hmem : n ∈ elems name := (List.mem_filter.1 (List.mem_of_getLast? hn)).1
  have hs : 47 ∉ n := (elems_elem name n hmem).2
  obtain ⟨l, hl⟩ := List.getLast?_eq_some_iff.1 hn
  unfold renameTo
  split
  · rename_i ha
    rw [pathJoin_rootOf root (by unfold isAbs slash at ha; exact of_decide_eq_true ha)]
    cases rootOf root with
    | abs es =>
      dsimp only
      rw [place_dots hu, hl]
      exact under_last (.abs es) l hs
    | rel p =>
      dsimp only
      rw [rel_noUp p hu, place_dots hu, hl]
      exact under_last (.rel p) l hs
  · rw [pathJoin_slash, place_dots hu, hl, List.nil_append]
    have hp : ∀ e ∈ l ++ [n], Proper e := by
      intro e he
      rw [← hl] at he
      obtain ⟨h1, h2⟩ := List.mem_filter.1 he
      have := elems_elem name e h1
      exact ⟨this.1, this.2, by simpa using h2, by rintro rfl; exact hu h1⟩
    rw [rootOf_join_abs _ hp]
    exact under_last _ l hs

/-! ### the parts of a wstat -/

variable {ω H : Type} {host : Host ω H} {user : GoString}

theorem andThen_ok {r : State ω H × Option GoString} {k : State ω H → State ω H × Option GoString} {s' : State ω H}
    (h : andThen r k = (s', none)) : ∃ s1, r = (s1, none) ∧ k s1 = (s', none) := by
  obtain ⟨s1, e⟩ := r
  cases e with
  | none => exact ⟨s1, rfl, h⟩
  | some e => cases h

theorem onWorld_ok {g : ω → ω × Option GoString} {s s' : State ω H} (h : onWorld g s = (s', none)) :
    s' = { s with world := (g s.world).1 } ∧ (g s.world).2 = none := by
  unfold onWorld at h
  injection h with h1 h2
  exact ⟨h1.symm, h2⟩

section
variable (K : KeepsAttrs host)
include K

theorem mode_kept {f : File H} {d : Dir} {s s' : State ω H} {fi : FileInfo} (hl : (host.lstat f.fullName s.world).2 = .ok fi)
    (hns : fi.mode &&& ModeSymlink = 0) (h : wstatMode host f d s = (s', none)) :
    s'.files = s.files ∧ s'.rootPath = s.rootPath ∧
    ∃ m', (host.lstat f.fullName s'.world).2 = .ok { fi with mode := m' } ∧
      m' &&& 0o777 = (if d.Mode = 0xFFFFFFFF then fi.mode &&& 0o777 else d.Mode &&& 0o777) ∧
      m' &&& ModeDir = fi.mode &&& ModeDir ∧ m' &&& ModeSymlink = 0 := by
  unfold wstatMode at h
  split at h
  · rename_i hm
    obtain ⟨rfl, h2⟩ := onWorld_ok h
    obtain ⟨m', a, b, c, e⟩ := K.chmod _ _ _ _ hl hns h2
    refine ⟨rfl, rfl, m', a, ?_, c, e.trans hns⟩
    rw [if_neg hm, b, UInt32.and_assoc, UInt32.and_self]
  · rename_i hm
    cases h
    exact ⟨rfl, rfl, fi.mode, hl, by rw [if_pos (by simpa using hm)], rfl, hns⟩

theorem name_kept {fid : FID} {f : File H} {d : Dir} {s s' : State ω H} {fi : FileInfo} (hf : s.files fid = some f)
    (hl : (host.lstat f.fullName s.world).2 = .ok fi)
    (hu : [46, 46] ∉ elems d.Name) (hn : d.Name ≠ [] → named d.Name ≠ none)
    (h : wstatName host fid f d s = (s', none)) :
    ∃ n f', s'.files fid = some f' ∧ f'.fullName = wstatPath f d s ∧ f'.file = f.file ∧
      (host.lstat (wstatPath f d s) s'.world).2 = .ok { fi with name := n } ∧
      (d.Name = [] → n = fi.name) ∧ (d.Name ≠ [] → named d.Name = some n) := by
  unfold wstatName at h
  unfold wstatPath
  split at h
  · rename_i hne
    rw [if_pos hne]
    dsimp only at h
    split at h
    · cases h
    · rw [isDirNow_world, K.quiet.stat] at h
      obtain ⟨s1, h1, h2⟩ := andThen_ok h
      obtain ⟨rfl, hr⟩ := onWorld_ok h1
      cases h2
      cases hN : named d.Name with
      | none => exact absurd hN (hn hne)
      | some n =>
        refine ⟨n, { f with fullName := renameTo s.rootPath f.fullName d.Name }, by simp [State.set], rfl, rfl, ?_, fun e => absurd e hne, fun _ => rfl⟩
        exact K.rename _ _ _ _ n hl hr (renameTo_ends _ _ hu hN)
  · rename_i hne
    cases h
    rw [if_neg hne]
    have : d.Name = [] := by simpa using hne
    exact ⟨fi.name, f, hf, rfl, rfl, hl, fun _ => rfl, fun e => absurd this e⟩

theorem length_kept {path : GoString} {d : Dir} {s s' : State ω H} {fi : FileInfo} (hl : (host.lstat path s.world).2 = .ok fi)
    (hns : fi.mode &&& ModeSymlink = 0) (h : wstatLength host path d s = (s', none)) :
    s'.files = s.files ∧
    ∃ t, (host.lstat path s'.world).2 =
        .ok { fi with size := (if d.Length = 0xFFFFFFFFFFFFFFFF then fi.size else d.Length.toInt64), modTime := t } ∧
      (d.Length = 0xFFFFFFFFFFFFFFFF → t = fi.modTime) := by
  unfold wstatLength at h
  split at h
  · rename_i hm
    obtain ⟨rfl, h2⟩ := onWorld_ok h
    obtain ⟨t, a⟩ := K.truncate _ _ _ _ hl hns h2
    exact ⟨rfl, t, by rw [if_neg hm]; exact a, fun e => absurd e hm⟩
  · rename_i hm
    cases h
    have : d.Length = 0xFFFFFFFFFFFFFFFF := by simpa using hm
    exact ⟨rfl, fi.modTime, by rw [if_pos this]; exact hl, fun _ => rfl⟩

theorem times_kept {path : GoString} {d : Dir} {s s' : State ω H} {fi : FileInfo} (hl : (host.lstat path s.world).2 = .ok fi)
    (hns : fi.mode &&& ModeSymlink = 0) (h : wstatTimes host path d s = (s', none)) :
    s'.files = s.files ∧
    (host.lstat path s'.world).2 =
        .ok { fi with modTime := if d.Mtime = 0xFFFFFFFF then fi.modTime else unixTime d.Mtime } := by
  unfold wstatTimes at h
  split at h
  · dsimp only at h
    split at h
    · have hst := K.stat _ _ _ hl hns
      have hw := K.quiet.stat path s.world
      generalize host.stat path s.world = x at h hst hw
      obtain ⟨w, x⟩ := x
      dsimp only at hst hw
      subst hst
      subst hw
      dsimp only at h
      obtain ⟨rfl, h2⟩ := onWorld_ok h
      exact ⟨rfl, K.chtimes _ _ _ _ _ hl hns h2⟩
    · rename_i h1
      obtain ⟨rfl, h2⟩ := onWorld_ok h
      refine ⟨rfl, ?_⟩
      rw [if_neg fun e => h1 (.inl e)]
      exact K.chtimes _ _ _ _ _ hl hns h2
  · rename_i h1
    cases h
    refine ⟨rfl, ?_⟩
    have : d.Mtime = 0xFFFFFFFF := by
      by_cases e : d.Mtime = 0xFFFFFFFF
      · exact e
      · exact absurd (.inl e) h1
    rw [if_pos this]
    exact hl

theorem sync_kept {f : File H} {d : Dir} {s s' : State ω H} (h : wstatSync host f d s = (s', none)) (p : GoString) :
    s'.files = s.files ∧ (host.lstat p s'.world).2 = (host.lstat p s.world).2 := by
  unfold wstatSync at h
  split at h
  · split at h
    · cases h; exact ⟨rfl, rfl⟩
    · cases h; exact ⟨rfl, K.sync _ _ _⟩
  · cases h; exact ⟨rfl, rfl⟩

/-- the file a fid stands for after a wstat that succeeded -/
theorem wstat_info {fid : FID} {f : File H} {d : Dir} {s s' : State ω H} {fi : FileInfo} (hf : s.files fid = some f)
    (hl : (host.lstat f.fullName s.world).2 = .ok fi) (hns : fi.mode &&& ModeSymlink = 0)
    (hu : [46, 46] ∉ elems d.Name) (hn : d.Name ≠ [] → named d.Name ≠ none)
    (h : wstatRun host fid f d s = (s', none)) :
    ∃ f' n m t, s'.files fid = some f' ∧
      (host.lstat f'.fullName s'.world).2 = .ok
        { name := n, size := (if d.Length = 0xFFFFFFFFFFFFFFFF then fi.size else d.Length.toInt64),
          mode := m, modTime := t, sys := fi.sys } ∧
      (d.Name = [] → n = fi.name) ∧ (d.Name ≠ [] → named d.Name = some n) ∧
      m &&& 0o777 = (if d.Mode = 0xFFFFFFFF then fi.mode &&& 0o777 else d.Mode &&& 0o777) ∧
      m &&& ModeDir = fi.mode &&& ModeDir ∧ m &&& ModeSymlink = 0 ∧
      (d.Mtime ≠ 0xFFFFFFFF → t = unixTime d.Mtime) ∧
      (d.Mtime = 0xFFFFFFFF → d.Length = 0xFFFFFFFFFFFFFFFF → t = fi.modTime) := by
  rw [wstatRun_parts] at h
  simp only [parts, runParts] at h
  obtain ⟨s6, h, h6⟩ := andThen_ok h
  obtain ⟨s1, h1, h⟩ := andThen_ok h
  obtain ⟨s2, h2, h⟩ := andThen_ok h
  obtain ⟨s3, h3, h⟩ := andThen_ok h
  obtain ⟨s4, h4, h⟩ := andThen_ok h
  obtain ⟨s5, h5, h⟩ := andThen_ok h
  cases h
  obtain ⟨f1, r1, m, l1, p1, d1, k1⟩ := mode_kept K hl hns h1
  have e2 : s2 = s1 := by
    unfold wstatUser at h2
    split at h2
    · cases h2
    · cases h2; rfl
  subst e2
  have hp : wstatPath f d s2 = wstatPath f d s := by unfold wstatPath; rw [r1]
  obtain ⟨n, f', f3, nm3, _, l3, n0, n1⟩ := name_kept K (fid := fid) (f1 ▸ hf) l1 hu hn h3
  rw [hp] at nm3 l3
  obtain ⟨f4, t4, l4, t0⟩ := length_kept K l3 k1 h4
  obtain ⟨f5, l5⟩ := times_kept K l4 k1 h5
  obtain ⟨f6, l6⟩ := sync_kept K h6 (wstatPath f d s)
  refine ⟨f', n, m, _, ?_, by rw [nm3, l6, l5], n0, n1, p1, d1, k1, ?_, ?_⟩
  · rw [f6, f5, f4, f3]
  · intro e; exact if_neg e
  · intro e e'
    show (if d.Mtime = 0xFFFFFFFF then t4 else _) = _
    rw [if_pos e, t0 e']

end

/-! ### records -/

theorem rstat_record {fid : FID} {s : State ω H} {f : File H} {fi : FileInfo} (hf : s.files fid = some f)
    (hl : (host.lstat f.fullName s.world).2 = .ok fi) :
    (ufs host user).Rstat fid s = .ok { s with world := (host.lstat f.fullName s.world).1 } (Spec.dir (dirTo9p2000Dir user fi)) := by
  show rstat host user fid s = _
  unfold rstat
  rw [hf]
  dsimp only
  revert hl
  generalize host.lstat f.fullName s.world = x
  obtain ⟨w, x⟩ := x
  rintro rfl
  dsimp only
  rw [marshaldir_eq]
  rfl

theorem mode_of_bits {fi fi' : FileInfo} {p : UInt32} (hp : fi'.mode &&& 0o777 = p &&& 0o777)
    (hd : fi'.mode &&& ModeDir = fi.mode &&& ModeDir) :
    (dirTo9p2000Mode fi').toNat % 512 = p.toNat % 512 ∧
    (dirTo9p2000Mode fi').toNat / 512 = (dirTo9p2000Mode fi).toNat / 512 := by
  have hdir : fi'.isDir = fi.isDir := by unfold FileInfo.isDir; rw [hd]
  have lt (x : UInt32) : x.toNat % 512 < 512 := Nat.mod_lt _ (by decide)
  have e (x : UInt32) : (x &&& 0o777).toNat = x.toNat % 512 := by
    rw [u32_and_511, UInt32.toNat_ofNat_of_lt' (Nat.lt_trans (lt x) (by decide))]
  have key (x : UInt32) : (x &&& 0o777 ||| DMDIR).toNat = x.toNat % 512 + 2 ^ 31 := by
    rw [UInt32.toNat_or, e, show DMDIR.toNat = 2 ^ 31 * 1 by decide, Nat.or_comm, ← Nat.two_pow_add_eq_or_of_lt (Nat.lt_trans (lt x) (by decide))]
    omega
  have hp' : fi'.mode.toNat % 512 = p.toNat % 512 := by rw [← e, hp, e]
  unfold dirTo9p2000Mode
  rw [hdir]
  have a := lt p
  have b := lt fi.mode
  cases fi.isDir
  · simp only [Bool.false_eq_true, if_false]
    rw [e, e, hp']
    omega
  · simp only [if_true]
    rw [key, key, hp']
    omega

theorem secs (m : UInt32) : (Int64.ofInt (unixTime m).sec).toUInt64.toUInt32 = m := by
  show (Int64.ofInt (m.toNat : Int)).toUInt64.toUInt32 = m
  have : (Int64.ofInt (m.toNat : Int)).toUInt64 = UInt64.ofNat m.toNat := by
    apply UInt64.toBitVec_inj.1
    simp [Int64.ofInt, UInt64.ofNat, BitVec.ofInt_natCast]
  rw [this]
  apply UInt32.toNat.inj
  have := m.toNat_lt
  rw [UInt64.toNat_toUInt32, UInt64.toNat_ofNat_of_lt' (Nat.lt_trans this (by decide))]
  omega

/-- C115: a wstat that succeeds, of something that is not a symbolic link, to a name without "..": what the
stat of the fid then reports is what it reported before, with what was asked for.  (The full statement is also
about symbolic links and about the access time; see below.) -/
theorem C115_wstat_stat_partial (K : KeepsAttrs host) {fid : FID} {s s' : State ω H} {f : File H} {fi : FileInfo} {d : Dir} {rest : Bytes}
    (hf : s.files fid = some f) (hl : (host.lstat f.fullName s.world).2 = .ok fi) (hns : fi.mode &&& ModeSymlink = 0)
    (hlen : fi.name.length < 2 ^ 16) (huser : user.length < 2 ^ 16) (hd : DirFits d)
    (hu : [46, 46] ∉ elems d.Name) (hn : d.Name ≠ [] → named d.Name ≠ none)
    (h : (ufs host user).Rwstat fid (Spec.dir d ++ rest) s = .ok s' ()) :
    ∃ old new s1, (ufs host user).Rstat fid s = .ok s (Spec.dir old) ∧ DirFits old ∧
      (ufs host user).Rstat fid s' = .ok s1 (Spec.dir new) ∧ DirFits new ∧ Applied old d new := by
  obtain ⟨b', hb⟩ := record_decodes hd rest
  have h : rwstat host fid (Spec.dir d ++ rest) s = .ok s' () := h
  rw [rwstat_run host hf hb] at h
  have hrun : wstatRun host fid f d s = (s', none) := by
    split at h
    · rename_i e; cases h; exact e
    · cases h
  obtain ⟨f', n, m, t, hf', hl', n0, n1, p1, d1, k1, t1, t2⟩ := wstat_info K hf hl hns hu hn hrun
  have hnlen : n.length < 2 ^ 16 := by
    by_cases e : d.Name = []
    · rw [n0 e]; exact hlen
    · have := n1 e
      unfold named at this
      have hm := (List.mem_filter.1 (List.mem_of_getLast? this)).1
      exact Nat.lt_of_le_of_lt (elems_length _ _ hm) hd.1
  have hs : { s with world := (host.lstat f.fullName s.world).1 } = s := world_eta s (K.quiet.lstat _ _)
  refine ⟨_, _, _, (rstat_record hf hl).trans (by rw [hs]), ⟨hlen, huser, huser, by simp [dirTo9p2000Dir]⟩, rstat_record hf' hl',
    ⟨hnlen, huser, huser, by simp [dirTo9p2000Dir]⟩, ?_⟩
  generalize hfi : FileInfo.mk n (if d.Length = 0xFFFFFFFFFFFFFFFF then fi.size else d.Length.toInt64) m t fi.sys = fi'
  have hm := mode_of_bits (fi := fi) (fi' := fi') (p := if d.Mode = 0xFFFFFFFF then fi.mode else d.Mode)
    (by
      rw [show (if d.Mode = 0xFFFFFFFF then fi.mode else d.Mode) &&& 0o777 = _ from apply_ite (· &&& 0o777) _ _ _, ← hfi]
      exact p1) (by rw [← hfi]; exact d1)
  subst hfi
  have hm0 := (mode_bits fi).1
  constructor
  · exact n0
  · exact n1
  · show (if d.Length = 0xFFFFFFFFFFFFFFFF then fi.size else d.Length.toInt64).toUInt64 = if d.Length = 0xFFFFFFFFFFFFFFFF then fi.size.toUInt64 else d.Length
    split <;> simp
  · refine hm.1.trans ?_
    show _ = if d.Mode = 0xFFFFFFFF then (dirTo9p2000Mode fi).toNat % 512 else _
    rw [hm0]
    split <;> rfl
  · refine ⟨hm.2, ?_⟩
    show dirToQIDType _ = dirToQIDType fi
    unfold dirToQIDType FileInfo.isDir
    rw [d1, k1, hns]
  · intro e
    show (Int64.ofInt t.sec).toUInt64.toUInt32 = d.Mtime
    rw [t1 e, secs]
  · intro e e'
    have := t2 e e'
    subst this
    exact ⟨rfl, rfl⟩
  · show (match fi.sys with | some ino => ino | none => _) = (match fi.sys with | some ino => ino | none => _)
    cases hsys : fi.sys with
    | none => exact absurd hsys (K.inode _ _ _ hl)
    | some i => rfl
  · exact ⟨rfl, rfl, rfl⟩

/-! ### Examples and counterexamples -/

open Mem

theorem base_ends {q n : GoString} (h : EndsIn q n) : Mem.base q = n := by
  obtain ⟨h0, h⟩ := h
  have hr : n.reverse.takeWhile (· ≠ 47) = n.reverse := by
    have := List.takeWhile_append_of_pos (p := (· ≠ 47)) (l₁ := n.reverse) (l₂ := []) (fun x hx => by
      have : x ∈ n := List.mem_reverse.1 hx
      simp only [decide_eq_true_eq]
      rintro rfl
      exact h0 this)
    simpa using this
  unfold Mem.base
  rcases h with rfl | ⟨a, rfl⟩
  · rw [hr, List.reverse_reverse]
  · rw [List.reverse_append, List.reverse_cons, List.append_assoc, List.takeWhile_append_of_pos (fun x hx => by
      have : x ∈ n := List.mem_reverse.1 hx
      simp only [decide_eq_true_eq]
      rintro rfl
      exact h0 this)]
    simp

theorem mem_onNode {p : GoString} {g : Node → Node} {w : World} {fi : FileInfo} (hl : Mem.stat p w = .ok fi) :
    ∃ i, find p w = some i ∧ fi = info p i w ∧ Mem.stat p (onNode p g w).1 = .ok (info p i (setNode i g w)) := by
  unfold Mem.stat at hl
  cases hf : find p w with
  | none => rw [hf] at hl; cases hl
  | some i =>
    rw [hf] at hl
    cases hl
    refine ⟨i, rfl, rfl, ?_⟩
    unfold onNode
    rw [hf]
    dsimp only
    unfold Mem.stat
    rw [show find p (setNode i g w) = some i from hf]

theorem bits_or_dir (x : UInt32) (b : Bool) :
    ((x &&& 0o777) ||| (if b then ModeDir else 0)) &&& 0o777 = x &&& 0o777 ∧
    ((x &&& 0o777) ||| (if b then ModeDir else 0)) &&& ModeDir = (if b then ModeDir else 0) ∧
    ((x &&& 0o777) ||| (if b then ModeDir else 0)) &&& ModeSymlink = 0 := by
  have e (y : UInt32) : (x &&& 0o777) &&& y = x &&& (0o777 &&& y) := UInt32.and_assoc ..
  have d (y z : UInt32) : ((x &&& 0o777) ||| z) &&& y = (x &&& (0o777 &&& y)) ||| (z &&& y) := by
    rw [← e]; exact UInt32.toBitVec_inj.1 (by simp [BitVec.and_or_distrib_right])
  rw [d, d, d]
  refine ⟨?_, ?_, ?_⟩
  · cases b
    · rw [show (0o777 : UInt32) &&& 0o777 = 0o777 by decide]; simp
    · rw [show (0o777 : UInt32) &&& 0o777 = 0o777 by decide, if_pos rfl, show ModeDir &&& 0o777 = 0 by decide]; simp
  · rw [show (0o777 : UInt32) &&& ModeDir = 0 by decide]
    cases b <;> simp
  · rw [show (0o777 : UInt32) &&& ModeSymlink = 0 by decide]
    cases b
    · simp
    · simp; decide

/-- the host of the examples keeps attributes -/
theorem mem_keepsAttrs : KeepsAttrs Mem.host where
  quiet := Mem.quiet
  inode := by
    intro p w fi h
    have h : Mem.stat p w = .ok fi := h
    unfold Mem.stat at h
    split at h
    · cases h
    · cases h; exact fun h => by cases h
  stat := fun p w fi h _ => h
  chmod := by
    intro p m w fi hl _ _
    obtain ⟨i, _, rfl, h⟩ := mem_onNode (g := fun n => { n with perm := m }) hl
    refine ⟨(m &&& 0o777) ||| (if (w.nodes i).dir then ModeDir else 0), ?_, (bits_or_dir m _).1, ?_, ?_⟩
    · show Mem.stat p (onNode p _ w).1 = _
      rw [h]
      simp [info, setNode]
    · exact (bits_or_dir m _).2.1.trans (bits_or_dir (w.nodes i).perm _).2.1.symm
    · exact (bits_or_dir m _).2.2.trans (bits_or_dir (w.nodes i).perm _).2.2.symm
  truncate := by
    intro p n w fi hl _ hok
    have hok : (if n.toInt < 0 then (w, some (lit "invalid argument")) else onNode p _ w : World × Option GoString).2 = none := hok
    by_cases hn : n.toInt < 0
    · rw [if_pos hn] at hok; cases hok
    · obtain ⟨i, _, rfl, h⟩ := mem_onNode (g := fun nd => { nd with data := resize n.toInt.toNat nd.data }) hl
      refine ⟨(w.nodes i).mtime, ?_⟩
      show Mem.stat p (if n.toInt < 0 then (w, some (lit "invalid argument")) else onNode p _ w : World × Option GoString).1 = _
      rw [if_neg hn, h]
      have hlen (d : Bytes) : (resize n.toInt.toNat d).length = n.toInt.toNat := by
        unfold resize
        simp
        omega
      have : Int64.ofNat n.toInt.toNat = n := by
        have h0 : (n.toInt.toNat : Int) = n.toInt := Int.toNat_of_nonneg (by omega)
        rw [← Int64.ofInt_eq_ofNat, h0, Int64.ofInt_toInt]
      simp only [info, setNode, if_true, hlen, this]
  chtimes := by
    intro p a m w fi hl _ _
    obtain ⟨i, _, rfl, h⟩ := mem_onNode (g := fun n => { n with atime := a, mtime := m }) hl
    show Mem.stat p (onNode p _ w).1 = _
    rw [h]
    simp [info, setNode]
  rename := by
    intro p q w fi n hl _ he
    have hl : Mem.stat p w = .ok fi := hl
    show Mem.stat q (Mem.rename p q w).1 = _
    unfold Mem.stat at hl
    unfold Mem.rename
    cases hf : find p w with
    | none => rw [hf] at hl; cases hl
    | some i =>
      rw [hf] at hl
      cases hl
      dsimp only
      unfold Mem.stat
      have : find q { w with names := (w.names.filter fun x => x.1 ≠ p ∧ x.1 ≠ q) ++ [(q, i)] } = some i := by
        unfold find
        rw [List.lookup_append]
        have : (w.names.filter fun x => x.1 ≠ p ∧ x.1 ≠ q).lookup q = none := by
          rw [List.lookup_eq_none_iff]
          intro x hx
          simp only [List.mem_filter, decide_eq_true_eq] at hx
          exact bne_iff_ne.2 fun e => hx.2.2 e.symm
        rw [this]
        simp
      rw [this]
      simp [info, base_ends he]
  sync := by
    intro p h w
    show Mem.stat p (onHandle h w (some closed) fun _ => (w, none)).1 = Mem.stat p w
    unfold onHandle
    split
    · split <;> rfl
    · rfl

/-- a record that asks for a mode, a name, a length and a modification time -/
def asked4 : Dir := { wdir with Mode := 0o600, Name := [103], Length := 3, Mtime := 7 }

/-- C115: the mode, the name, the length and the modification time of a file are set at once -/
example : (∃ f fi, (runAll [attach0, walk1] demo).2.files 1 = some f ∧
      (Mem.host.lstat f.fullName (runAll [attach0, walk1] demo).2.world).2 = .ok fi ∧ fi.mode &&& ModeSymlink = 0 ∧
      fi.name.length < 2 ^ 16) ∧ DirFits asked4 ∧ [46, 46] ∉ elems asked4.Name ∧ named asked4.Name = some [103] ∧
      ∃ s', rwstat Mem.host 1 (Spec.dir asked4 ++ []) (runAll [attach0, walk1] demo).2 = .ok s' () := by
  refine ⟨⟨_, _, rfl, rfl, rfl, by decide +kernel⟩, by unfold DirFits; decide, by decide +kernel, by decide +kernel, ?_⟩
  rw [List.append_nil, rwstat_dir Mem.host (d := asked4) (by decide) rfl]
  exact ⟨_, rfl⟩

/-- a host with a symbolic link: what is said of "/x/l" is done to "/x/f" (chmod(2)), but lstat(2) tells of the link -/
def linkHost : Host World Nat :=
  { Mem.host with
    lstat := fun p w =>
      if p = [47, 120, 47, 108] then
        (w, .ok { name := [108], size := 1, mode := ModeSymlink ||| 0o777, modTime := ⟨1000, 0⟩, sys := some 9 })
      else Mem.host.lstat p w
    stat := fun p => Mem.host.stat (if p = [47, 120, 47, 108] then [47, 120, 47, 102] else p)
    chmod := fun p => Mem.host.chmod (if p = [47, 120, 47, 108] then [47, 120, 47, 102] else p) }

/-- fid 1 is a symbolic link -/
def onLink : State World Nat :=
  { (runAll [attach0] demo).2 with
    files := fun i => if i = 1 then some { fullName := [47, 120, 47, 108], qid := { Typ := 2, Version := 0, Path := 9 } } else none }

/-- C115 does not hold for symbolic links: the wstat succeeds, and stat tells the mode it told before -/
theorem C115_counterexample_link :
    ∃ s', rwstat linkHost 1 (Spec.dir { wdir with Mode := 0o600 }) onLink = .ok s' () ∧
      ∃ s0 s1 old, rstat linkHost [117] 1 onLink = .ok s0 old ∧ rstat linkHost [117] 1 s' = .ok s1 old ∧
      old = Spec.dir { Mode := 0o777, Atime := 1000, Mtime := 1000, Length := 1, Name := [108], User := [117], Group := [117],
                       QID := { Typ := 2, Version := 1000000, Path := 9 } } := by
  rw [rwstat_dir linkHost (d := { wdir with Mode := 0o600 }) (by decide) rfl]
  exact ⟨_, rfl, _, _, _, rfl, rfl, by decide +kernel⟩

/-- C115 does not hold for the access time: it is set, and stat goes on to tell the modification time instead -/
theorem C115_counterexample_atime :
    ∃ s', rwstat Mem.host 1 (Spec.dir { wdir with Atime := 5 }) (runAll [attach0, walk1] demo).2 = .ok s' () ∧
      (s'.world.nodes 3).atime = ⟨5, 0⟩ ∧
      ∃ s0 s1 old, rstat Mem.host [117] 1 (runAll [attach0, walk1] demo).2 = .ok s0 (Spec.dir old) ∧
        rstat Mem.host [117] 1 s' = .ok s1 (Spec.dir old) ∧ old.Atime = 1000 := by
  rw [rwstat_dir Mem.host (d := { wdir with Atime := 5 }) (by decide) rfl]
  exact ⟨_, rfl, rfl, _, _, dirTo9p2000Dir [117] { name := [102], size := Int64.ofNat (demo.world.nodes 3).data.length, mode := 0o644, modTime := ⟨1000, 0⟩, sys := some 3 },
    rfl, rfl, rfl⟩

end Ninep.Ufs
