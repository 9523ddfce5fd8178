import Verif.Props.UfsPaths

set_option linter.unusedSimpArgs false
set_option linter.unusedVariables false

/-
Reading and writing plain files (C50, C51) and reading directories (C53, C54).

What the host does with its files is stated as laws (`FileView`, `DirView`); the example host obeys them.
-/

namespace Ninep.Ufs
open Spec

section
variable {ω H : Type}

/-- nothing happened to contents, and open files stay what they are -/
def Calm {ν : Type} (node : H → ω → Option ν) (content : ν → ω → Bytes) (w w' : ω) : Prop :=
  (∀ h v, node h w = some v → node h w' = some v) ∧ ∀ v, content v w' = content v w

/-- How a host treats plain files: an open file belongs to a node, which has contents.  `read_at` and
`write_at` are the manual pages of pread(2) and pwrite(2) as package os uses them (complete unless there is
an error; a negative offset is an error); the rest says what does not change contents. -/
structure FileView (host : Host ω H) (ν : Type) where
  node : H → ω → Option ν
  content : ν → ω → Bytes
  read_at : ∀ {h n off w w' d e v}, node h w = some v → host.readAt h n off w = (w', d, e) →
    (∀ x, e ≠ .fail x) → 0 ≤ off.toInt ∧ d = slice (content v w) off.toInt.toNat n
  read_calm : ∀ h n off w, Calm node content w (host.readAt h n off w).1
  write_at : ∀ {h b off w w' n v}, node h w = some v → host.writeAt h b off w = (w', n, none) →
    0 ≤ off.toInt ∧ n = b.length ∧ content v w' = overlay (content v w) off.toInt.toNat b
  /-- even if it fails, a write touches only the file written to -/
  write_calm : ∀ h b off w, (∀ h' v, node h' w = some v → node h' (host.writeAt h b off w).1 = some v) ∧
    ∀ v, node h w ≠ some v → content v (host.writeAt h b off w).1 = content v w
  close_calm : ∀ h w, Calm node content w (host.close h w).1
  sync_calm : ∀ h w, Calm node content w (host.sync h w).1
  seek_calm : ∀ h w, Calm node content w (host.seek0 h w).1
  readdir_calm : ∀ h w, Calm node content w (host.readdir1 h w).1
  lstat_calm : ∀ p w, Calm node content w (host.lstat p w).1
  stat_calm : ∀ p w, Calm node content w (host.stat p w).1
  /-- opening without truncation or creation -/
  open_calm : ∀ p fl perm w, fl / 512 % 2 = 0 → fl / 64 % 2 = 0 → Calm node content w (host.openFile p fl perm w).1
  mkdir_calm : ∀ p m w, Calm node content w (host.mkdir p m w).1
  chmod_calm : ∀ p m w, Calm node content w (host.chmod p m w).1
  rename_calm : ∀ p q w, Calm node content w (host.rename p q w).1
  chtimes_calm : ∀ p a m w, Calm node content w (host.chtimes p a m w).1
  remove_calm : ∀ p w, Calm node content w (host.remove p w).1

variable (host : Host ω H) (user : GoString) {ν : Type}

theorem Calm.refl {node : H → ω → Option ν} {content : ν → ω → Bytes} (w : ω) : Calm node content w w :=
  ⟨fun _ _ h => h, fun _ => rfl⟩

theorem Calm.trans {node : H → ω → Option ν} {content : ν → ω → Bytes} {a b c : ω} (h : Calm node content a b)
    (h' : Calm node content b c) : Calm node content a c :=
  ⟨fun x v hx => h'.1 x v (h.1 x v hx), fun v => (h'.2 v).trans (h.2 v)⟩

theorem toInt64_nonneg {o : UInt64} (h : 0 ≤ o.toInt64.toInt) : o.toInt64.toInt.toNat = o.toNat := by
  have hlt := o.toNat_lt
  have e : o.toInt64.toInt = (o.toNat : Int).bmod (2 ^ 64) := by
    simp [UInt64.toInt64, Int64.toInt, BitVec.toInt_eq_toNat_bmod]
    rfl
  rw [e] at h ⊢
  rw [Int.bmod_def] at h ⊢
  omega

/-- C50: a read of an open plain file with a non-negative count.  Unless the host fails, the result is the
part of the contents from the offset on, as many bytes as asked for or up to the end; at the end of the file
it is an empty success.  A failure of the host is reported.  Nothing is changed. -/
theorem C50_read (V : FileView host ν) {fid : FID} {o : Offset} {c : Count} {s : State ω H} {f : File H} {h : H} {v : ν}
    (hf : s.files fid = some f) (hh : f.file = some h) (hq : f.qid.Typ &&& QTDIR = 0) (hc : 0 ≤ c.toInt)
    (hv : V.node h s.world = some v) :
    (∀ w' d e, host.readAt h c.toInt.toNat o.toInt64 s.world = (w', d, e) → (∀ x, e ≠ .fail x) →
      ∃ s', (ufs host user).Rread fid o c s = .ok s' (slice (V.content v s.world) o.toNat c.toInt.toNat) ∧
        (slice (V.content v s.world) o.toNat c.toInt.toNat).length ≤ c.toInt.toNat ∧
        ((V.content v s.world).length ≤ o.toNat → slice (V.content v s.world) o.toNat c.toInt.toNat = [])) ∧
    (∀ w' d e, host.readAt h c.toInt.toNat o.toInt64 s.world = (w', d, .fail e) →
      ∃ s', (ufs host user).Rread fid o c s = .err s' e) ∧
    (∀ s', ((ufs host user).Rread fid o c s).state? = some s' → s'.files = s.files ∧ ∀ u, V.content u s'.world = V.content u s.world) := by
  have hr : (ufs host user).Rread fid o c s = match host.readAt h c.toInt.toNat o.toInt64 s.world with
        | (w, _, .fail e) => .err { s with world := w } e
        | (w, d, .none) => .ok { s with world := w } (d.take c.toInt.toNat)
        | (w, d, .eof) => .ok { s with world := w } (d.take c.toInt.toNat) := by
    show rread host user fid o c s = _
    unfold rread
    rw [hf]
    dsimp only
    rw [hh]
    dsimp only
    rw [if_neg (by simp [hq]), if_neg (by omega)]
    generalize host.readAt h c.toInt.toNat o.toInt64 s.world = r
    obtain ⟨w, d, e⟩ := r
    cases e <;> rfl
  have htake : ∀ (x : Bytes) a n, (slice x a n).take n = slice x a n := by
    intro x a n
    exact List.take_of_length_le (by simp [slice]; omega)
  refine ⟨?_, ?_, ?_⟩
  · intro w' d e he hne
    obtain ⟨h0, hd⟩ := V.read_at hv he hne
    rw [toInt64_nonneg h0] at hd
    rw [he] at hr
    refine ⟨{ s with world := w' }, ?_, by simp [slice]; omega, ?_⟩
    · rw [hr]
      cases e with
      | none => dsimp only; rw [hd, htake]
      | eof => dsimp only; rw [hd, htake]
      | fail x => exact absurd rfl (hne x)
    · intro hl
      unfold slice
      rw [List.drop_eq_nil_of_le hl, List.take_nil]
  · intro w' d e he
    rw [he] at hr
    exact ⟨_, hr⟩
  · intro s' hs
    have hcalm := V.read_calm h c.toInt.toNat o.toInt64 s.world
    rw [hr] at hs
    generalize host.readAt h c.toInt.toNat o.toInt64 s.world = r at hs hcalm
    obtain ⟨w, d, e⟩ := r
    cases e <;>
    · have hs := Option.some.inj hs
      subst hs
      exact ⟨rfl, hcalm.2⟩

/-- requests that cannot change the contents of `v`: anything but truncating opens, creation of plain files,
changes of length, and writes to `v` itself -/
def Harmless (V : FileView host ν) (v : ν) (s : State ω H) (m : TMsg) : Prop :=
  match m with
  | .open_ p => p.Omode.toNat / 16 % 2 = 0
  | .create p => 2 ^ 31 ≤ p.CreatePerm.toNat
  | .wstat p => ∀ d t b, unmarshaldir (Buffer.ofBytes p.B) = .done d t none b → d.Length = 0xFFFFFFFFFFFFFFFF
  | .write p => ∀ f h, s.files p.OFID = some f → f.file = some h → V.node h s.world ≠ some v
  | _ => True

/-- like `Calm`, but only the node `v` is looked at -/
def CalmAt (V : FileView host ν) (v : ν) (w w' : ω) : Prop :=
  (∀ h u, V.node h w = some u → V.node h w' = some u) ∧ V.content v w' = V.content v w

theorem Calm.at {V : FileView host ν} {w w' : ω} (h : Calm V.node V.content w w') (v : ν) : CalmAt host V v w w' :=
  ⟨h.1, h.2 v⟩

theorem calm_wstat (V : FileView host ν) {fid : FID} {f : File H} {dir : Dir} (hl : dir.Length = 0xFFFFFFFFFFFFFFFF)
    (s : State ω H) : Calm V.node V.content s.world (wstatRun host fid f dir s).1.world := by
  unfold wstatRun
  refine andThen_inv (P := fun s' : State ω H => Calm V.node V.content s.world s'.world) ?_
    fun s1 h1 => andThen_inv (P := fun s' : State ω H => Calm V.node V.content s.world s'.world) ?_
    fun s2 h2 => andThen_inv (P := fun s' : State ω H => Calm V.node V.content s.world s'.world) ?_
    fun s3 h3 => andThen_inv (P := fun s' : State ω H => Calm V.node V.content s.world s'.world) ?_
    fun s4 h4 => andThen_inv (P := fun s' : State ω H => Calm V.node V.content s.world s'.world) ?_
    fun s5 h5 => ?_
  · unfold wstatMode
    split
    · exact V.chmod_calm _ _ _
    · exact Calm.refl _
  · unfold wstatUser
    split <;> exact h1
  · unfold wstatName
    split
    · dsimp only
      have hd := V.stat_calm (renameTo s2.rootPath f.fullName dir.Name) s2.world
      rw [← isDirNow_world] at hd
      split
      · exact h2.trans hd
      · exact andThen_inv (P := fun s' : State ω H => Calm V.node V.content s.world s'.world)
          ((h2.trans hd).trans (V.rename_calm _ _ _)) fun s h => h
    · exact h2
  · unfold wstatLength
    rw [if_neg (by simp [hl])]
    exact h3
  · unfold wstatTimes
    split
    · dsimp only
      split
      · have hd := V.stat_calm (wstatPath f dir s) s4.world
        generalize host.stat (wstatPath f dir s) s4.world = x at hd
        obtain ⟨w, x⟩ := x
        cases x with
        | error e => exact h4.trans hd
        | ok st => exact (h4.trans hd).trans (V.chtimes_calm _ _ _ _)
      · exact h4.trans (V.chtimes_calm _ _ _ _)
    · exact h4
  · unfold wstatSync
    split
    · split
      · exact h5
      · exact h5.trans (V.sync_calm _ _)
    · exact h5

theorem calm_readDir (V : FileView host ν) {fid : FID} {f : File H} {h : H} {c : Count} {s s' : State ω H}
    (hs : (readDir host user fid f h c s).state? = some s') : Calm V.node V.content s.world s'.world := by
  unfold readDir at hs
  dsimp only at hs
  split at hs
  · simp only [NRes.state?, Option.some.injEq] at hs
    subst hs
    exact Calm.refl _
  · simp only [set_world] at hs
    have hc := V.readdir_calm h s.world
    generalize host.readdir1 h s.world = r at hs hc
    obtain ⟨w, r⟩ := r
    cases r with
    | eof => cases (Option.some.inj hs); exact hc
    | fail e => cases (Option.some.inj hs); exact hc
    | entry fi =>
      dsimp only at hs
      split at hs <;> (cases (Option.some.inj hs); exact hc)

theorem calm_clunk (V : FileView host ν) (f : Option H) (w : ω) : Calm V.node V.content w (closeIn host f w) := by
  cases f with
  | none => exact Calm.refl _
  | some h => exact V.close_calm h w

/-- one harmless request -/
theorem harmless_step (V : FileView host ν) {v : ν} {m : TMsg} {s s' : State ω H} (hm : Harmless host V v s m)
    (h : (call (ufs host user) m s).state? = some s') : CalmAt host V v s.world s'.world := by
  have rf : CalmAt host V v s.world s.world := ⟨fun _ _ h => h, rfl⟩
  cases m with
  | version p =>
    simp only [call, state?_mapRes, ufs] at h
    unfold rversion at h
    split at h <;> (simp only [NRes.state?, Option.some.injEq] at h; subst h; exact rf)
  | flush p =>
    simp only [call, state?_mapRes, ufs] at h
    unfold rflush at h
    simp only [NRes.state?, Option.some.injEq] at h
    subst h; exact rf
  | attach p =>
    simp only [call, state?_mapRes, ufs] at h
    exact Calm.at host (rattach_rel host (R := Calm V.node V.content) Calm.refl V.stat_calm h) v
  | walk p =>
    simp only [call, state?_mapRes, ufs] at h
    exact Calm.at host (rwalk_rel host (R := Calm V.node V.content) Calm.refl Calm.trans V.lstat_calm h) v
  | open_ p =>
    have hm : p.Omode.toNat / 16 % 2 = 0 := hm
    simp only [call, state?_mapRes, ufs] at h
    unfold ropen at h
    split at h
    · simp only [NRes.state?, Option.some.injEq] at h
      subst h; exact rf
    · rename_i f hf
      have hfl : modeToUnixFlags p.Omode / 512 % 2 = 0 ∧ modeToUnixFlags p.Omode / 64 % 2 = 0 := by
        rw [modeToUnixFlags_spec]
        unfold openFlags
        rw [if_neg (by omega)]
        have : p.Omode.toNat % 4 < 4 := Nat.mod_lt _ (by decide)
        generalize p.Omode.toNat % 4 = k at this
        revert k
        decide
      have hc := V.open_calm f.fullName (modeToUnixFlags p.Omode) 0 s.world hfl.1 hfl.2
      generalize host.openFile f.fullName (modeToUnixFlags p.Omode) 0 s.world = r at h hc
      obtain ⟨w, r⟩ := r
      cases r <;> (cases (Option.some.inj h); exact hc.at host v)
  | create p =>
    have hm : 2 ^ 31 ≤ p.CreatePerm.toNat := hm
    simp only [call, state?_mapRes, ufs] at h
    unfold rcreate at h
    split at h
    · simp only [NRes.state?, Option.some.injEq] at h
      subst h; exact rf
    · split at h
      · simp only [NRes.state?, Option.some.injEq] at h
        subst h; exact rf
      · dsimp only at h
        have hd : p.CreatePerm &&& DMDIR ≠ 0 := by
          intro h0
          have := congrArg UInt32.toNat h0
          rw [UInt32.toNat_and, show DMDIR.toNat = 2 ^ 31 by decide, nat_and_two_pow] at this
          have hlt := p.CreatePerm.toNat_lt
          have : p.CreatePerm.toNat.testBit 31 = true := by
            rw [Nat.testBit_eq_decide_div_mod_eq]
            simp
            omega
          simp_all
        rw [if_pos hd] at h
        rename_i f hf _
        have h1 := V.mkdir_calm (pathJoin f.fullName p.Name) (p.CreatePerm &&& 0o777) s.world
        generalize (host.mkdir (pathJoin f.fullName p.Name) (p.CreatePerm &&& 0o777) s.world).1 = w at h h1
        have h2 := V.lstat_calm (pathJoin f.fullName p.Name) w
        generalize host.lstat (pathJoin f.fullName p.Name) w = x at h h2
        obtain ⟨w', x⟩ := x
        cases x <;>
        · simp only [NRes.state?, Option.some.injEq] at h
          subst h
          exact (h1.trans h2).at host v
  | stat p =>
    simp only [call, state?_mapRes, ufs] at h
    exact Calm.at host (rstat_rel host user (R := Calm V.node V.content) Calm.refl V.lstat_calm h) v
  | wstat p =>
    simp only [call, state?_mapRes, ufs] at h
    cases hf : s.files p.OFID with
    | none =>
      rw [rwstat_none _ hf] at h
      simp only [NRes.state?, Option.some.injEq] at h
      subst h; exact rf
    | some f =>
      rcases rwstat_cases host (b := p.B) hf with ⟨e, he⟩ | ⟨dir, t, b', hd, ⟨_, he⟩ | ⟨e, _, he⟩⟩
      · rw [he] at h
        simp only [NRes.state?, Option.some.injEq] at h
        subst h; exact rf
      all_goals
        rw [he] at h
        simp only [NRes.state?, Option.some.injEq] at h
        subst h
        exact (calm_wstat host V (hm dir t b' hd) s).at host v
  | clunk p =>
    simp only [call, state?_mapRes, ufs] at h
    unfold rclunk at h
    cases hf : s.files p.OFID with
    | none =>
      rw [clunk_none _ hf] at h
      simp only [NRes.state?, Option.some.injEq] at h
      subst h; exact rf
    | some f =>
      obtain ⟨w, hc, hw⟩ := clunk_some host hf
      rw [hc] at h
      simp only [NRes.state?, Option.some.injEq] at h
      subst h
      subst hw
      exact (calm_clunk host V _ _).at host v
  | remove p =>
    simp only [call, state?_mapRes, ufs] at h
    unfold rremove at h
    cases hf : s.files p.OFID with
    | none =>
      rw [clunk_none _ hf] at h
      simp only [NRes.state?, Option.some.injEq] at h
      subst h; exact rf
    | some f =>
      obtain ⟨w, hc, hw⟩ := clunk_some host hf
      rw [hc] at h
      dsimp only at h
      subst hw
      have hr := V.remove_calm f.fullName (closeIn host f.file s.world)
      generalize host.remove f.fullName (closeIn host f.file s.world) = r at h hr
      obtain ⟨w, r⟩ := r
      cases r <;> (cases (Option.some.inj h); exact ((calm_clunk host V _ _).trans hr).at host v)
  | read p =>
    simp only [call, state?_mapRes, ufs] at h
    unfold rread at h
    split at h
    · simp only [NRes.state?, Option.some.injEq] at h
      subst h; exact rf
    · rename_i f hf
      split at h
      · simp only [NRes.state?, Option.some.injEq] at h
        subst h; exact rf
      · rename_i x hx
        split at h
        · split at h
          · dsimp only [set_world] at h
            have hc := V.seek_calm x s.world
            generalize host.seek0 x s.world = r at h hc
            obtain ⟨w, r⟩ := r
            cases r with
            | some e => cases (Option.some.inj h); exact hc.at host v
            | none => exact (hc.trans (calm_readDir host user V h)).at host v
          · exact (calm_readDir host user V h).at host v
        · split at h
          · cases h
          · have hc := V.read_calm x p.Len.toInt.toNat p.Off.toInt64 s.world
            generalize host.readAt x p.Len.toInt.toNat p.Off.toInt64 s.world = r at h hc
            obtain ⟨w, d, e⟩ := r
            cases e <;> (cases (Option.some.inj h); exact hc.at host v)
  | write p =>
    simp only [call, state?_mapRes, ufs] at h
    unfold rwrite at h
    split at h
    · simp only [NRes.state?, Option.some.injEq] at h
      subst h; exact rf
    · rename_i f hf
      split at h
      · simp only [NRes.state?, Option.some.injEq] at h
        subst h; exact rf
      · rename_i x hx
        have hc := V.write_calm x p.Data p.Off.toInt64 s.world
        have hne := hm f x hf hx
        generalize host.writeAt x p.Data p.Off.toInt64 s.world = r at h hc
        obtain ⟨w, d, e⟩ := r
        cases e <;> (cases (Option.some.inj h); exact ⟨hc.1, hc.2 v hne⟩)

/-- C51: after a successful write and any history of harmless requests (other processes leaving contents
alone) a successful read through any fid open on that file returns the requested part of the old contents
overlaid with the data written.  All the data was written. -/
theorem C51_write_read (V : FileView host ν) {fid : FID} {o : Offset} {b : Bytes} {s s1 s2 s3 : State ω H} {n : Count}
    {f : File H} {x : H} {v : ν} (hf : s.files fid = some f) (hx : f.file = some x) (hv : V.node x s.world = some v)
    (hw : (ufs host user).Rwrite fid o b s = .ok s1 n) {h : List Event}
    (hh : Hist host user (Harmless host V v) (CalmAt host V v) s1 h s2)
    {fid' : FID} {o' : Offset} {c : Count} {f' : File H} {x' : H} (hf' : s2.files fid' = some f') (hx' : f'.file = some x')
    (hq' : f'.qid.Typ &&& QTDIR = 0) (hv' : V.node x' s2.world = some v) {d : Bytes}
    (hr : (ufs host user).Rread fid' o' c s2 = .ok s3 d) :
    n = Int32.ofNat b.length ∧
    d = slice (overlay (V.content v s.world) o.toNat b) o'.toNat c.toInt.toNat := by
  have hw : rwrite host fid o b s = .ok s1 n := hw
  unfold rwrite at hw
  rw [hf] at hw
  dsimp only at hw
  rw [hx] at hw
  dsimp only at hw
  have hval : n = Int32.ofNat b.length ∧ V.content v s1.world = overlay (V.content v s.world) o.toNat b := by
    have hwa := @V.write_at x b o.toInt64 s.world
    generalize host.writeAt x b o.toInt64 s.world = r at hw hwa
    obtain ⟨w, k, e⟩ := r
    cases e with
    | some e => cases hw
    | none =>
      obtain ⟨h0, h1, h2⟩ := hwa hv rfl
      cases hw
      rw [toInt64_nonneg h0] at h2
      exact ⟨by rw [h1], h2⟩
  refine ⟨hval.1, ?_⟩
  have hcon : V.content v s2.world = V.content v s1.world := by
    refine Hist.invariant host user (I := fun s => V.content v s.world = V.content v s1.world) ?_ ?_ hh rfl
    · intro s t ht hi
      exact ht.2.trans hi
    · exact fun s m s' hp hi hc => (harmless_step host user V hp hc).2.trans hi
  have hc0 : 0 ≤ c.toInt := by
    refine Int.not_lt.1 fun hneg => ?_
    have hr : rread host user fid' o' c s2 = .ok s3 d := hr
    unfold rread at hr
    rw [hf'] at hr
    dsimp only at hr
    rw [hx'] at hr
    dsimp only at hr
    rw [if_neg (by simp [hq']), if_pos hneg] at hr
    cases hr
  obtain ⟨g1, g2, _⟩ := C50_read host user V (o := o') hf' hx' hq' hc0 hv'
  rw [← hval.2, ← hcon]
  generalize hra : host.readAt x' c.toInt.toNat o'.toInt64 s2.world = r at g1 g2
  obtain ⟨w, y, e⟩ := r
  cases e with
  | fail e =>
    obtain ⟨s', h'⟩ := g2 w y e rfl
    rw [h'] at hr; cases hr
  | none =>
    obtain ⟨s', h', _⟩ := g1 w y _ rfl (by simp)
    rw [h'] at hr; cases hr; rfl
  | eof =>
    obtain ⟨s', h', _⟩ := g1 w y _ rfl (by simp)
    rw [h'] at hr; cases hr; rfl

/-! ### Directories -/

/-- How a host lists directories: an open directory has a listing and the part of it still to come; one
entry is delivered at a time, and seeking to the start begins again. -/
structure DirView (host : Host ω H) where
  listing : H → ω → Option (List FileInfo)
  rest : H → ω → List FileInfo
  seek : ∀ {h w w' l}, listing h w = some l → host.seek0 h w = (w', none) → listing h w' = some l ∧ rest h w' = l
  next_nil : ∀ {h w w' r l}, listing h w = some l → rest h w = [] → host.readdir1 h w = (w', r) →
    (∀ e, r ≠ .fail e) → r = .eof ∧ listing h w' = some l ∧ rest h w' = []
  next_cons : ∀ {h w w' r l fi t}, listing h w = some l → rest h w = fi :: t → host.readdir1 h w = (w', r) →
    (∀ e, r ≠ .fail e) → r = .entry fi ∧ listing h w' = some l ∧ rest h w' = t

/-- the stat record of a directory entry -/
def record (fi : FileInfo) : Bytes := Spec.dir (dirTo9p2000Dir user fi)

theorem record_ne_nil (fi : FileInfo) : record user fi ≠ [] := by
  unfold record Spec.dir
  simp [le]

/-- what a read of the given count returns if these entries are still to come -/
def nextRecord (c : Count) : List FileInfo → Bytes
  | [] => []
  | fi :: _ => if ((record user fi).length : Int) ≤ c.toInt then record user fi else []

theorem readDir_ok (V : DirView host) {fid : FID} {f : File H} {h : H} {c : Count} {s s' : State ω H} {l : List FileInfo} {d : Bytes}
    (hl : V.listing h s.world = some l) (ho : f.oflow = []) (hc : 0 ≤ c.toInt)
    (hr : readDir host user fid f h c s = .ok s' d) :
    d = nextRecord user c (V.rest h s.world) ∧ V.listing h s'.world = some l ∧
      V.rest h s'.world = (V.rest h s.world).tail ∧ s'.files fid = some f := by
  unfold readDir at hr
  dsimp only at hr
  rw [ho] at hr
  have hf : (s.set fid { f with oflow := [] }).files fid = some f := by
    rw [set_same, ← ho]
  rw [if_neg (by simpa using hc)] at hr
  simp only [set_world] at hr
  have h1 := @V.next_nil h s.world
  have h2 := @V.next_cons h s.world
  generalize host.readdir1 h s.world = r at hr h1 h2
  obtain ⟨w, r⟩ := r
  cases hrest : V.rest h s.world with
  | nil =>
    have h1 := fun hne => h1 hl hrest rfl hne
    cases r with
    | fail e => cases hr
    | entry fi => exact absurd (h1 (by simp)).1 (by simp)
    | eof =>
      obtain ⟨_, a, b⟩ := h1 (by simp)
      cases hr
      exact ⟨rfl, a, b, hf⟩
  | cons fi t =>
    have h2 := fun hne => h2 hl hrest rfl hne
    cases r with
    | fail e => cases hr
    | eof => exact absurd (h2 (by simp)).1 (by simp)
    | entry fi' =>
      obtain ⟨he, a, b⟩ := h2 (by simp)
      cases he
      dsimp only at hr
      have hm : (marshaldir (Buffer.ofBytes []) (dirTo9p2000Dir user fi)).bytes = record user fi := by
        rw [marshaldir_eq]; rfl
      rw [hm] at hr
      by_cases hle : ((record user fi).length : Int) ≤ c.toInt
      · rw [if_neg (by omega)] at hr
        cases hr
        exact ⟨by simp [nextRecord, hle], a, b, hf⟩
      · rw [if_pos (by omega)] at hr
        cases hr
        exact ⟨by simp [nextRecord, hle], a, b, hf⟩

/-- C54: a read at offset 0 starts the listing again, whatever happened before: the result is the first
entry of the directory (if it fits), and the entries after it are still to come. -/
theorem C54_restart (V : DirView host) {fid : FID} {c : Count} {s s' : State ω H} {f : File H} {h : H}
    {l : List FileInfo} {d : Bytes} (hf : s.files fid = some f) (hh : f.file = some h) (hq : f.qid.Typ &&& QTDIR ≠ 0)
    (hl : V.listing h s.world = some l) (hc : 0 ≤ c.toInt) (hr : (ufs host user).Rread fid 0 c s = .ok s' d) :
    d = nextRecord user c l ∧ V.listing h s'.world = some l ∧ V.rest h s'.world = l.tail ∧
      s'.files fid = some { f with oflow := [] } := by
  have hr : rread host user fid 0 c s = .ok s' d := hr
  unfold rread at hr
  rw [hf] at hr
  dsimp only at hr
  rw [hh] at hr
  dsimp only at hr
  rw [if_pos hq, if_pos rfl] at hr
  simp only [set_world] at hr
  have hs := @V.seek h s.world
  generalize host.seek0 h s.world = r at hr hs
  obtain ⟨w, r⟩ := r
  cases r with
  | some e => cases hr
  | none =>
    obtain ⟨a, b⟩ := hs hl rfl
    obtain ⟨g1, g2, g3, g4⟩ := readDir_ok host user V (f := { f with file := some h, oflow := [] })
      (s := { s.set fid { f with file := some h, oflow := [] } with world := w }) a rfl hc hr
    have hb : V.rest h w = l := b
    simp only [hb] at g1 g3
    exact ⟨g1, g2, g3, by rw [g4, hh]⟩

/-- C53: a read at another offset delivers the next entry (if it fits), and consumes exactly that one -/
theorem C53_next (V : DirView host) {fid : FID} {o : Offset} {c : Count} {s s' : State ω H} {f : File H} {h : H}
    {l : List FileInfo} {d : Bytes} (hf : s.files fid = some f) (hh : f.file = some h) (hq : f.qid.Typ &&& QTDIR ≠ 0)
    (hfl : f.oflow = []) (ho : o ≠ 0) (hl : V.listing h s.world = some l) (hc : 0 ≤ c.toInt)
    (hr : (ufs host user).Rread fid o c s = .ok s' d) :
    d = nextRecord user c (V.rest h s.world) ∧ V.listing h s'.world = some l ∧
      V.rest h s'.world = (V.rest h s.world).tail ∧ s'.files fid = some f := by
  have hr : rread host user fid o c s = .ok s' d := hr
  unfold rread at hr
  rw [hf] at hr
  dsimp only at hr
  rw [hh] at hr
  dsimp only at hr
  rw [if_pos hq, if_neg ho] at hr
  exact readDir_ok host user V hl hfl hc hr

def NoOverflow (s : State ω H) : Prop := ∀ i f, s.files i = some f → f.oflow = []

theorem NoOverflow.set {s : State ω H} (h : NoOverflow s) {w : ω} {fid : FID} {f : File H} (hf : f.oflow = []) :
    NoOverflow ({ s with world := w }.set fid f) := by
  intro i g hg
  by_cases hi : i = fid
  · subst hi
    rw [set_same] at hg
    cases hg
    exact hf
  · rw [set_other _ _ hi] at hg
    exact h i g hg

theorem NoOverflow.del {s : State ω H} (h : NoOverflow s) {w : ω} {fid : FID} :
    NoOverflow { s.del fid with world := w } := by
  intro i g hg
  by_cases hi : i = fid
  · subst hi
    have hg : (s.del i).files i = some g := hg
    rw [del_same] at hg
    cases hg
  · have hg : (s.del fid).files i = some g := hg
    rw [del_other _ hi] at hg
    exact h i g hg

theorem NoOverflow.step {m : TMsg} {s s' : State ω H} (hi : NoOverflow s) (h : (call (ufs host user) m s).state? = some s') :
    NoOverflow s' := by
  cases m with
  | version p =>
    simp only [call, state?_mapRes, ufs] at h
    unfold rversion at h
    split at h <;> (simp only [NRes.state?, Option.some.injEq] at h; subst h; exact hi)
  | flush p =>
    simp only [call, state?_mapRes, ufs] at h
    unfold rflush at h
    simp only [NRes.state?, Option.some.injEq] at h
    subst h; exact hi
  | attach p =>
    simp only [call, state?_mapRes, ufs] at h
    rcases rattach_cases host p.SFID p.AFID p.Uname p.Aname s with ⟨w, e, he⟩ | ⟨w, f, _, hf, _, he⟩ <;>
    · rw [he] at h
      simp only [NRes.state?, Option.some.injEq] at h
      subst h
      first | exact hi | exact hi.set hf
  | walk p =>
    simp only [call, state?_mapRes, ufs] at h
    rcases rwalk_cases host p.SFID p.NewFID p.Paths s with
      ⟨w, e, he⟩ | ⟨w, q, he, hq⟩ | ⟨f, hf, hn, hnew, he⟩ | ⟨w, f, q, x, hf, hq, hp, hu, he⟩ <;>
      rw [he] at h <;> simp only [NRes.state?, Option.some.injEq] at h <;> subst h
    · exact hi
    · exact hi
    · exact hi.set (w := s.world) (show f.oflow = [] from hi _ _ hf)
    · exact hi.set rfl
  | open_ p =>
    simp only [call, state?_mapRes, ufs] at h
    unfold ropen at h
    split at h
    · simp only [NRes.state?, Option.some.injEq] at h
      subst h; exact hi
    · rename_i f hf
      split at h <;>
      · simp only [NRes.state?, Option.some.injEq] at h
        subst h; exact hi.set (show f.oflow = [] from hi _ _ hf)
  | create p =>
    simp only [call, state?_mapRes, ufs] at h
    unfold rcreate at h
    split at h
    · simp only [NRes.state?, Option.some.injEq] at h
      subst h; exact hi
    · rename_i f hf
      split at h
      · simp only [NRes.state?, Option.some.injEq] at h
        subst h; exact hi
      · dsimp only at h
        split at h
        · split at h
          · simp only [NRes.state?, Option.some.injEq] at h
            subst h; exact hi
          · simp only [NRes.state?, Option.some.injEq] at h
            subst h; exact hi.set (show f.oflow = [] from hi _ _ hf)
        · split at h
          · simp only [NRes.state?, Option.some.injEq] at h
            subst h; exact hi
          · split at h
            · simp only [NRes.state?, Option.some.injEq] at h
              subst h; exact hi
            · simp only [NRes.state?, Option.some.injEq] at h
              subst h; exact hi.set (show f.oflow = [] from hi _ _ hf)
  | stat p =>
    simp only [call, state?_mapRes, ufs] at h
    unfold rstat at h
    split at h
    · simp only [NRes.state?, Option.some.injEq] at h
      subst h; exact hi
    · split at h <;>
      · simp only [NRes.state?, Option.some.injEq] at h
        subst h; exact hi
  | wstat p =>
    simp only [call, state?_mapRes, ufs] at h
    cases hf : s.files p.OFID with
    | none =>
      rw [rwstat_none _ hf] at h
      simp only [NRes.state?, Option.some.injEq] at h
      subst h; exact hi
    | some f =>
      rcases rwstat_cases host (b := p.B) hf with ⟨e, he⟩ | ⟨dir, t, b', hd, ⟨_, he⟩ | ⟨e, _, he⟩⟩
      · rw [he] at h
        simp only [NRes.state?, Option.some.injEq] at h
        subst h; exact hi
      all_goals
        rw [he] at h
        simp only [NRes.state?, Option.some.injEq] at h
        subst h
        obtain ⟨h1, h2⟩ := wstatRun_renamed host (dir := dir) hf
        intro i g hg
        by_cases hip : i = p.OFID
        · subst hip
          rcases h2 with h2 | h2 <;> (rw [h2] at hg; cases hg; exact hi p.OFID f hf)
        · rw [h1.2.2 i (by simp [hip])] at hg
          exact hi i g hg
  | clunk p =>
    simp only [call, state?_mapRes, ufs] at h
    unfold rclunk at h
    cases hf : s.files p.OFID with
    | none =>
      rw [clunk_none _ hf] at h
      simp only [NRes.state?, Option.some.injEq] at h
      subst h; exact hi
    | some f =>
      obtain ⟨w, hc, hw⟩ := clunk_some host hf
      rw [hc] at h
      simp only [NRes.state?, Option.some.injEq] at h
      subst h
      exact hi.del
  | remove p =>
    simp only [call, state?_mapRes, ufs] at h
    unfold rremove at h
    cases hf : s.files p.OFID with
    | none =>
      rw [clunk_none _ hf] at h
      simp only [NRes.state?, Option.some.injEq] at h
      subst h; exact hi
    | some f =>
      obtain ⟨w, hc, hw⟩ := clunk_some host hf
      rw [hc] at h
      dsimp only at h
      split at h <;>
      · simp only [NRes.state?, Option.some.injEq] at h
        subst h
        exact hi.del
  | read p =>
    simp only [call, state?_mapRes, ufs] at h
    cases hf : s.files p.OFID with
    | none =>
      unfold rread at h
      simp only [hf, NRes.state?, Option.some.injEq] at h
      subst h; exact hi
    | some f =>
      obtain ⟨w, rfl | ⟨x, rfl, hx⟩⟩ := rread_state host user hf h
      · exact hi
      · refine hi.set ?_
        rcases hx with rfl | rfl
        · rfl
        · exact hi _ _ hf
  | write p =>
    simp only [call, state?_mapRes, ufs] at h
    unfold rwrite at h
    split at h
    · simp only [NRes.state?, Option.some.injEq] at h
      subst h; exact hi
    · split at h
      · simp only [NRes.state?, Option.some.injEq] at h
        subst h; exact hi
      · split at h <;>
        · simp only [NRes.state?, Option.some.injEq] at h
          subst h; exact hi

/-- the overflow field is always empty -/
theorem C53_no_overflow {P : State ω H → TMsg → Prop} {R : ω → ω → Prop} {root : GoString} {w : ω} {s' : State ω H}
    {hist : List Event} (hh : Hist host user P R (newFS root w) hist s') {i : FID} {f : File H} (hf : s'.files i = some f) :
    f.oflow = [] := by
  exact Hist.invariant host user (I := NoOverflow) (fun s w _ h => h) (fun s m s' _ hi hc => hi.step host user hc) hh
    (fun i f h => by cases h) i f hf

/-- a client that lists a directory: it reads from offset 0 on, always at the end of what it has got, with
the same count, until it gets nothing; `none` if a read fails or after `fuel` reads -/
def listDir (fid : FID) (c : Count) : Nat → Offset → State ω H → Option (List Bytes)
  | 0, _, _ => none
  | fuel + 1, o, s =>
    match (ufs host user).Rread fid o c s with
    | .ok s' d => if d = [] then some [] else (listDir fid c fuel (o + UInt64.ofNat d.length) s').map (d :: ·)
    | .err _ _ => none
    | .panic => none

theorem listDir_rest (V : DirView host) {fid : FID} {c : Count} {f : File H} {h : H} {l : List FileInfo}
    (hh : f.file = some h) (hq : f.qid.Typ &&& QTDIR ≠ 0) (hfl : f.oflow = []) (hc : 0 ≤ c.toInt) :
    ∀ (fuel : Nat) (o : Offset) (s : State ω H) (ds : List Bytes), s.files fid = some f → V.listing h s.world = some l →
    o ≠ 0 → (∀ fi ∈ V.rest h s.world, ((record user fi).length : Int) ≤ c.toInt) →
    o.toNat + ((V.rest h s.world).map fun fi => (record user fi).length).sum < 2 ^ 64 →
    listDir host user fid c fuel o s = some ds → ds = (V.rest h s.world).map (record user) := by
  intro fuel
  induction fuel with
  | zero => intro o s ds _ _ _ _ _ h; cases h
  | succ fuel ih =>
    intro o s ds hf hl ho hfit hsum hd
    unfold listDir at hd
    cases hr : (ufs host user).Rread fid o c s with
    | panic => rw [hr] at hd; cases hd
    | err s' e => rw [hr] at hd; cases hd
    | ok s' d =>
      rw [hr] at hd
      obtain ⟨h1, h2, h3, h4⟩ := C53_next host user V hf hh hq hfl ho hl hc hr
      dsimp only at hd
      cases hrest : V.rest h s.world with
      | nil =>
        rw [hrest] at h1
        have : d = [] := h1
        rw [if_pos this] at hd
        exact (Option.some.inj hd).symm
      | cons fi t =>
        rw [hrest] at h1 h3 hfit hsum
        have hle := hfit fi (by simp)
        have h1 : d = record user fi := by rw [h1]; simp [nextRecord, hle]
        subst h1
        rw [if_neg (record_ne_nil user fi)] at hd
        simp only [Option.map_eq_some_iff] at hd
        obtain ⟨ds', hds', rfl⟩ := hd
        simp only [List.map_cons, List.sum_cons] at hsum
        have hlen : 0 < (record user fi).length := List.length_pos_iff.2 (record_ne_nil user fi)
        have hadd : (o + UInt64.ofNat (record user fi).length).toNat = o.toNat + (record user fi).length := by
          rw [UInt64.toNat_add, UInt64.toNat_ofNat_of_lt' (by have : UInt64.size = 2 ^ 64 := rfl; omega), Nat.mod_eq_of_lt (by omega)]
        have := ih (o + UInt64.ofNat (record user fi).length) s' ds' h4 h2
          (by intro h0; rw [h0] at hadd; simp at hadd; omega)
          (by rw [h3]; exact fun x hx => hfit x (.tail _ hx))
          (by rw [h3, hadd]; simp only [List.tail_cons]; omega) hds'
        rw [this, h3]
        rfl

/-- C53: if every entry fits into the count, listing a directory yields each entry exactly once, in the
order of the host.  (The full statement lacks the condition on the count; see the counterexample below.) -/
theorem C53_listing_partial (V : DirView host) {fid : FID} {c : Count} {s : State ω H} {f : File H} {h : H}
    {l : List FileInfo} {fuel : Nat} {ds : List Bytes} (hf : s.files fid = some f) (hh : f.file = some h)
    (hq : f.qid.Typ &&& QTDIR ≠ 0) (hl : V.listing h s.world = some l) (hc : 0 ≤ c.toInt)
    (hfit : ∀ fi ∈ l, ((record user fi).length : Int) ≤ c.toInt)
    (hsum : (l.map fun fi => (record user fi).length).sum < 2 ^ 64)
    (hd : listDir host user fid c fuel 0 s = some ds) :
    ds = l.map (record user) := by
  cases fuel with
  | zero => cases hd
  | succ fuel =>
    unfold listDir at hd
    cases hr : (ufs host user).Rread fid 0 c s with
    | panic => rw [hr] at hd; cases hd
    | err s' e => rw [hr] at hd; cases hd
    | ok s' d =>
      rw [hr] at hd
      obtain ⟨h1, h2, h3, h4⟩ := C54_restart host user V hf hh hq hl hc hr
      dsimp only at hd
      cases l with
      | nil =>
        have : d = [] := h1
        rw [if_pos this] at hd
        exact (Option.some.inj hd).symm
      | cons fi t =>
        have hle := hfit fi (by simp)
        have h1 : d = record user fi := by rw [h1]; simp [nextRecord, hle]
        subst h1
        rw [if_neg (record_ne_nil user fi)] at hd
        simp only [Option.map_eq_some_iff] at hd
        obtain ⟨ds', hds', rfl⟩ := hd
        simp only [List.map_cons, List.sum_cons] at hsum
        have hlen : 0 < (record user fi).length := List.length_pos_iff.2 (record_ne_nil user fi)
        have hadd : ((0 : UInt64) + UInt64.ofNat (record user fi).length).toNat = (record user fi).length := by
          rw [UInt64.toNat_add, UInt64.toNat_ofNat_of_lt' (by have : UInt64.size = 2 ^ 64 := rfl; omega)]
          simp; omega
        have := listDir_rest host user V (f := { f with oflow := [] }) (l := fi :: t) hh hq rfl hc fuel _ s' ds' h4 h2
          (by intro h0; rw [h0] at hadd; simp at hadd; omega)
          (by rw [h3]; exact fun x hx => hfit x (.tail _ hx))
          (by rw [h3, hadd]; simp only [List.tail_cons]; omega) hds'
        rw [this, h3]
        rfl

/-- a host that never fails to read directories -/
def ReadsDirs (V : DirView host) : Prop :=
  ∀ h w l, V.listing h w = some l → (host.seek0 h w).2 = none ∧ ∀ e, (host.readdir1 h w).2 ≠ .fail e

theorem readDir_succeeds (V : DirView host) (hd : ReadsDirs host V) {fid : FID} {f : File H} {h : H} {c : Count} {s : State ω H}
    {l : List FileInfo} (hl : V.listing h s.world = some l) : ∃ s' d, readDir host user fid f h c s = .ok s' d := by
  unfold readDir
  dsimp only
  split
  · exact ⟨_, _, rfl⟩
  · simp only [set_world]
    have := (hd h s.world l hl).2
    generalize host.readdir1 h s.world = r at this
    obtain ⟨w, r⟩ := r
    cases r with
    | eof => exact ⟨_, _, rfl⟩
    | fail e => exact absurd rfl (this e)
    | entry fi => dsimp only; split <;> exact ⟨_, _, rfl⟩

theorem rread_dir_succeeds (V : DirView host) (hd : ReadsDirs host V) {fid : FID} {o : Offset} {c : Count} {s : State ω H} {f : File H} {h : H}
    {l : List FileInfo} (hf : s.files fid = some f) (hh : f.file = some h) (hq : f.qid.Typ &&& QTDIR ≠ 0)
    (hl : V.listing h s.world = some l) : ∃ s' d, (ufs host user).Rread fid o c s = .ok s' d := by
  show ∃ s' d, rread host user fid o c s = .ok s' d
  unfold rread
  rw [hf]
  dsimp only
  rw [hh]
  dsimp only
  rw [if_pos hq]
  split
  · simp only [set_world]
    have hs := @V.seek h s.world
    have := (hd h s.world l hl).1
    generalize host.seek0 h s.world = r at this hs
    obtain ⟨w, r⟩ := r
    cases r with
    | some e => cases this
    | none => exact readDir_succeeds host user V hd (hs hl rfl).1
  · exact readDir_succeeds host user V hd hl

/-- C53: if the host does not fail, the listing comes to an end, one read after the last entry -/
theorem C53_terminates_partial (V : DirView host) (hd : ReadsDirs host V) {fid : FID} {c : Count} {s : State ω H} {f : File H} {h : H}
    {l : List FileInfo} (hf : s.files fid = some f) (hh : f.file = some h)
    (hq : f.qid.Typ &&& QTDIR ≠ 0) (hl : V.listing h s.world = some l) (hc : 0 ≤ c.toInt)
    (hfit : ∀ fi ∈ l, ((record user fi).length : Int) ≤ c.toInt)
    (hsum : (l.map fun fi => (record user fi).length).sum < 2 ^ 64) :
    listDir host user fid c (l.length + 1) 0 s = some (l.map (record user)) := by
  have rest : ∀ (fuel : Nat) (o : Offset) (s : State ω H) (f : File H), f.file = some h → f.qid.Typ &&& QTDIR ≠ 0 → f.oflow = [] →
      s.files fid = some f → V.listing h s.world = some l →
      o ≠ 0 → (V.rest h s.world).length < fuel →
      o.toNat + ((V.rest h s.world).map fun fi => (record user fi).length).sum < 2 ^ 64 →
      (listDir host user fid c fuel o s).isSome := by
    intro fuel
    induction fuel with
    | zero => intro _ _ _ _ _ _ _ _ _ h; exact absurd h (Nat.not_lt_zero _)
    | succ fuel ih =>
      intro o s f hh hq hfl hf hl ho hlt hsum
      obtain ⟨s', d, hr⟩ := rread_dir_succeeds host user V hd (o := o) (c := c) hf hh hq hl
      obtain ⟨h1, h2, h3, h4⟩ := C53_next host user V hf hh hq hfl ho hl hc hr
      unfold listDir
      rw [hr]
      dsimp only
      split
      · rfl
      · rename_i hne
        rw [Option.isSome_map]
        cases hrest : V.rest h s.world with
        | nil => rw [hrest] at h1; exact absurd h1 hne
        | cons fi t =>
          rw [hrest] at h1 h3 hlt hsum
          have hle : ((record user fi).length : Int) ≤ c.toInt := by
            refine Classical.not_not.1 fun hn => hne ?_
            rw [h1]
            simp [nextRecord, hn]
          have h1 : d = record user fi := by rw [h1]; simp [nextRecord, hle]
          subst h1
          simp only [List.map_cons, List.sum_cons] at hsum
          have hlen : 0 < (record user fi).length := List.length_pos_iff.2 (record_ne_nil user fi)
          have hadd : (o + UInt64.ofNat (record user fi).length).toNat = o.toNat + (record user fi).length := by
            rw [UInt64.toNat_add, UInt64.toNat_ofNat_of_lt' (by have : UInt64.size = 2 ^ 64 := rfl; omega), Nat.mod_eq_of_lt (by omega)]
          refine ih _ s' f hh hq hfl h4 h2 (by intro h0; rw [h0] at hadd; simp at hadd; omega) ?_ ?_
          · rw [h3]; simpa using hlt
          · rw [h3, hadd]; simp only [List.tail_cons]; omega
  have hsome : (listDir host user fid c (l.length + 1) 0 s).isSome := by
    obtain ⟨s', d, hr⟩ := rread_dir_succeeds host user V hd (o := 0) (c := c) hf hh hq hl
    obtain ⟨h1, h2, h3, h4⟩ := C54_restart host user V hf hh hq hl hc hr
    unfold listDir
    rw [hr]
    dsimp only
    split
    · rfl
    · rename_i hne
      rw [Option.isSome_map]
      cases l with
      | nil => exact absurd h1 hne
      | cons fi t =>
        have hle := hfit fi (by simp)
        have h1 : d = record user fi := by rw [h1]; simp [nextRecord, hle]
        subst h1
        simp only [List.map_cons, List.sum_cons] at hsum
        have hlen : 0 < (record user fi).length := List.length_pos_iff.2 (record_ne_nil user fi)
        have hadd : ((0 : UInt64) + UInt64.ofNat (record user fi).length).toNat = (record user fi).length := by
          rw [UInt64.toNat_add, UInt64.toNat_ofNat_of_lt' (by have : UInt64.size = 2 ^ 64 := rfl; omega)]
          simp; omega
        refine rest _ _ s' { f with oflow := [] } hh hq rfl h4 h2 (by intro h0; rw [h0] at hadd; simp at hadd; omega) ?_ ?_
        · rw [h3]; simp
        · rw [h3, hadd]; simp only [List.tail_cons]; omega
  obtain ⟨ds, hds⟩ := Option.isSome_iff_exists.1 hsome
  rw [hds, C53_listing_partial host user V hf hh hq hl hc hfit hsum hds]

/-- C53: the records decode to the descriptions of the entries (if names are not too long) -/
theorem C53_decodes {fi : FileInfo} (hn : fi.name.length < 2 ^ 16) (hu : user.length < 2 ^ 16) :
    ∃ t b, unmarshaldir (Buffer.ofBytes (record user fi)) = .done (dirTo9p2000Dir user fi) t none b := by
  have := unmarshaldir_fwd (dirTo9p2000Dir user fi) ⟨hn, hu, hu, by simp [dirTo9p2000Dir]⟩ [] [] []
  rw [List.append_nil] at this
  exact ⟨_, _, this⟩

end

/-! ### The example host obeys the laws -/

open Mem

theorem mem_onHandle_world {α : Type} (h : Nat) (w : World) (bad : α) (f : Opened → World × α) :
    (onHandle h w bad f).1 = w ∨ ∃ o, w.opened[h]? = some o ∧ o.isOpen = true ∧ onHandle h w bad f = f o := by
  unfold onHandle
  cases ho : w.opened[h]? with
  | none => exact .inl rfl
  | some o =>
    dsimp only
    split
    · rename_i hopen
      exact .inr ⟨o, rfl, hopen, rfl⟩
    · exact .inl rfl

def memNode (h : Nat) (w : World) : Option Nat :=
  match w.opened[h]? with
  | some o => if o.ino < w.next then some o.ino else none
  | none => none
def memContent (i : Nat) (w : World) : Bytes := if i < w.next then (w.nodes i).data else []

theorem memNode_some {h v : Nat} {w : World} : memNode h w = some v ↔ ∃ o, w.opened[h]? = some o ∧ o.ino = v ∧ v < w.next := by
  unfold memNode
  cases w.opened[h]? with
  | none => simp
  | some o =>
    dsimp only
    by_cases ho : o.ino < w.next
    · rw [if_pos ho]
      simp only [Option.some.injEq]
      constructor
      · rintro rfl; exact ⟨o, rfl, rfl, ho⟩
      · rintro ⟨_, rfl, h, _⟩; exact h
    · rw [if_neg ho]
      simp only [Option.some.injEq]
      constructor
      · intro h; cases h
      · rintro ⟨_, rfl, rfl, h⟩; exact absurd h ho

theorem memNode_set {h h' v : Nat} {w : World} {o o' : Opened} (ho : w.opened[h]? = some o) (hi : o'.ino = o.ino)
    (hv : memNode h' w = some v) : memNode h' (setOpened h o' w) = some v := by
  obtain ⟨x, hx, h1, h2⟩ := memNode_some.1 hv
  refine memNode_some.2 ?_
  unfold setOpened
  dsimp only
  rw [List.getElem?_set]
  split
  · rename_i he
    subst he
    split
    · rw [ho] at hx
      cases hx
      exact ⟨o', rfl, hi.trans h1, h2⟩
    · rename_i hlt
      rw [List.getElem?_eq_none (by omega)] at ho
      cases ho
  · exact ⟨x, hx, h1, h2⟩

theorem mem_calm_set {h : Nat} {w : World} {o o' : Opened} (ho : w.opened[h]? = some o) (hi : o'.ino = o.ino) :
    Calm memNode memContent w (setOpened h o' w) :=
  ⟨fun h' v hv => memNode_set ho hi hv, fun _ => rfl⟩

theorem mem_calm_onNode (p : GoString) (f : Node → Node) (hf : ∀ n, (f n).data = n.data) (w : World) :
    Calm memNode memContent w (onNode p f w).1 := by
  unfold onNode
  split
  · exact Calm.refl _
  · refine ⟨fun _ _ h => h, fun v => ?_⟩
    unfold memContent setNode
    dsimp only
    split
    · split
      · rename_i hv; subst hv; exact hf _
      · rfl
    · rfl

/-- the files of the example host -/
def memFiles : FileView Mem.host Nat where
  node := memNode
  content := memContent
  read_at := by
    intro h n off w w' d e v hv hr hne
    have hr : onHandle h w ([], .fail closed) (fun o =>
      if off.toInt < 0 then (w, [], .fail (lit "negative offset"))
      else (w, slice (w.nodes o.ino).data off.toInt.toNat n,
        if (slice (w.nodes o.ino).data off.toInt.toNat n).length < n then ReadErr.eof else .none)) = (w', d, e) := hr
    unfold onHandle at hr
    obtain ⟨o, ho, rfl, hlt⟩ := memNode_some.1 hv
    rw [ho] at hr
    dsimp only at hr
    split at hr
    · split at hr
      · cases hr; exact absurd rfl (hne _)
      · cases hr
        refine ⟨by omega, ?_⟩
        rw [memContent, if_pos hlt]
    · cases hr; exact absurd rfl (hne _)
  read_calm := by
    intro h n off w
    rcases mem_onHandle_world h w ([], ReadErr.fail closed) (fun o =>
      if off.toInt < 0 then (w, [], .fail (lit "negative offset"))
      else (w, slice (w.nodes o.ino).data off.toInt.toNat n,
        if (slice (w.nodes o.ino).data off.toInt.toNat n).length < n then ReadErr.eof else .none)) with he | ⟨o, ho, _, he⟩
    · show Calm _ _ w (onHandle h w _ _).1
      rw [he]; exact Calm.refl _
    · show Calm _ _ w (onHandle h w _ _).1
      rw [he]; split <;> exact Calm.refl _
  write_at := by
    intro h b off w w' n v hv hr
    have hr : onHandle h w (0, some closed) (fun o =>
      if off.toInt < 0 then (w, 0, some (lit "negative offset"))
      else (setNode o.ino (fun nd => { nd with data := overlay nd.data off.toInt.toNat b }) w, b.length, none)) = (w', n, none) := hr
    unfold onHandle at hr
    obtain ⟨o, ho, rfl, hlt⟩ := memNode_some.1 hv
    rw [ho] at hr
    dsimp only at hr
    split at hr
    · split at hr
      · cases hr
      · cases hr
        refine ⟨by omega, rfl, ?_⟩
        simp [memContent, setNode, hlt]
    · cases hr
  write_calm := by
    intro h b off w
    rcases mem_onHandle_world h w (0, some closed) (fun o =>
      if off.toInt < 0 then (w, 0, some (lit "negative offset"))
      else (setNode o.ino (fun nd => { nd with data := overlay nd.data off.toInt.toNat b }) w, b.length, none)) with he | ⟨o, ho, _, he⟩
    · show (∀ h' v, _ → memNode h' (onHandle h w _ _).1 = _) ∧ ∀ v, _ → memContent v (onHandle h w _ _).1 = _
      rw [he]; exact ⟨fun _ _ h => h, fun _ _ => rfl⟩
    · show (∀ h' v, _ → memNode h' (onHandle h w _ _).1 = _) ∧ ∀ v, _ → memContent v (onHandle h w _ _).1 = _
      rw [he]
      split
      · exact ⟨fun _ _ h => h, fun _ _ => rfl⟩
      · refine ⟨fun _ _ h => h, fun v hv => ?_⟩
        unfold memContent setNode
        dsimp only
        split
        · rename_i hlt
          rw [if_neg]
          rintro rfl
          exact hv (memNode_some.2 ⟨o, ho, rfl, hlt⟩)
        · rfl
  close_calm := by
    intro h w
    rcases mem_onHandle_world h w (some closed) (fun o => (setOpened h { o with isOpen := false } w, none)) with he | ⟨o, ho, _, he⟩
    · show Calm _ _ w (onHandle h w _ _).1
      rw [he]; exact Calm.refl _
    · show Calm _ _ w (onHandle h w _ _).1
      rw [he]; exact mem_calm_set ho rfl
  sync_calm := by
    intro h w
    rcases mem_onHandle_world h w (some closed) (fun _ => (w, none)) with he | ⟨o, ho, _, he⟩ <;>
    · show Calm _ _ w (onHandle h w _ _).1
      rw [he]; exact Calm.refl _
  seek_calm := by
    intro h w
    rcases mem_onHandle_world h w (some closed) (fun o => (setOpened h { o with rest := o.listing } w, none)) with he | ⟨o, ho, _, he⟩
    · show Calm _ _ w (onHandle h w _ _).1
      rw [he]; exact Calm.refl _
    · show Calm _ _ w (onHandle h w _ _).1
      rw [he]; exact mem_calm_set ho rfl
  readdir_calm := by
    intro h w
    show Calm _ _ w (onHandle h w _ _).1
    unfold onHandle
    split
    · rename_i o ho
      split
      · dsimp only
        cases o.rest with
        | nil => exact Calm.refl _
        | cons fi r => exact mem_calm_set ho rfl
      · exact Calm.refl _
    · exact Calm.refl _
  open_calm := by
    intro p fl perm w h1 h2
    show Calm _ _ w (openFile p fl perm w).1
    unfold openFile
    split
    · split
      · exact Calm.refl _
      · rw [if_neg (by omega)]
        refine ⟨fun h v hv => ?_, fun _ => rfl⟩
        obtain ⟨o, ho, h1, h2⟩ := memNode_some.1 hv
        refine memNode_some.2 ⟨o, ?_, h1, h2⟩
        have hlt : h < w.opened.length := by
          refine Nat.not_le.1 fun hle => ?_
          rw [List.getElem?_eq_none hle] at ho
          cases ho
        exact (List.getElem?_append_left hlt).trans ho
    · rw [if_neg (by omega)]; exact Calm.refl _
  lstat_calm _ w := Calm.refl w
  stat_calm _ w := Calm.refl w
  mkdir_calm := by
    intro p m w
    show Calm _ _ w (mkdir p m w).1
    unfold mkdir
    split
    · exact Calm.refl _
    · refine ⟨fun h v hv => ?_, fun v => ?_⟩
      · obtain ⟨o, ho, h1, h2⟩ := memNode_some.1 hv
        exact memNode_some.2 ⟨o, ho, h1, Nat.lt_succ_of_lt h2⟩
      · unfold memContent addNode
        dsimp only
        by_cases hlt : v < w.next
        · rw [if_pos hlt, if_pos (by omega), if_neg (by omega)]
        · rw [if_neg hlt]
          split
          · rw [if_pos (by omega)]
          · rfl
  chmod_calm := fun p m w => mem_calm_onNode p (fun n => { n with perm := m }) (fun _ => rfl) w
  rename_calm := by
    intro p q w
    show Calm _ _ w (rename p q w).1
    unfold rename
    split
    · exact Calm.refl _
    · exact ⟨fun _ _ h => h, fun _ => rfl⟩
  chtimes_calm := fun p a m w => mem_calm_onNode p (fun n => { n with atime := a, mtime := m }) (fun _ => rfl) w
  remove_calm := by
    intro p w
    show Calm _ _ w (remove p w).1
    unfold remove
    split
    · exact Calm.refl _
    · exact ⟨fun _ _ h => h, fun _ => rfl⟩

theorem onHandle_open {α : Type} {h : Nat} {w : World} {o : Opened} (ho : w.opened[h]? = some o) (hopen : o.isOpen = true)
    (bad : α) (f : Opened → World × α) : onHandle h w bad f = f o := by
  unfold onHandle
  rw [ho]
  dsimp only
  rw [if_pos hopen]

def memListing (h : Nat) (w : World) : Option (List FileInfo) :=
  (w.opened[h]?).bind fun o => if o.isOpen then some o.listing else none
def memRest (h : Nat) (w : World) : List FileInfo := (w.opened[h]?).elim [] (·.rest)

theorem memListing_some {h : Nat} {w : World} {l : List FileInfo} (hl : memListing h w = some l) :
    ∃ o, w.opened[h]? = some o ∧ o.isOpen = true ∧ o.listing = l ∧ memRest h w = o.rest ∧
      ∀ r, memListing h (setOpened h { o with rest := r } w) = some l ∧ memRest h (setOpened h { o with rest := r } w) = r := by
  unfold memListing at hl
  cases ho : w.opened[h]? with
  | none => rw [ho] at hl; cases hl
  | some o =>
    have hlt : h < w.opened.length := by
      refine Nat.not_le.1 fun hle => ?_
      rw [List.getElem?_eq_none hle] at ho
      cases ho
    rw [ho] at hl
    simp only [Option.bind_some] at hl
    split at hl
    · rename_i hopen
      cases hl
      refine ⟨o, rfl, hopen, rfl, by simp [memRest, ho], fun r => ?_⟩
      simp [memListing, memRest, setOpened, List.getElem?_set, hlt, hopen]
    · cases hl

theorem mem_readdir1 {h : Nat} {w : World} {o : Opened} (ho : w.opened[h]? = some o) (hopen : o.isOpen = true) :
    Mem.host.readdir1 h w = match o.rest with
      | [] => (w, .eof)
      | fi :: r => (setOpened h { o with rest := r } w, .entry fi) := by
  show onHandle h w _ _ = _
  rw [onHandle_open ho hopen]
  cases o.rest <;> rfl

/-- the directories of the example host -/
def memDirs : DirView Mem.host where
  listing := memListing
  rest := memRest
  seek := by
    intro h w w' l hl hs
    obtain ⟨o, ho, hopen, hlist, _, hset⟩ := memListing_some hl
    have hs : onHandle h w (some closed) (fun o => (setOpened h { o with rest := o.listing } w, none)) = (w', none) := hs
    rw [onHandle_open ho hopen] at hs
    cases hs
    have := hset o.listing
    exact ⟨this.1, this.2.trans hlist⟩
  next_nil := by
    intro h w w' r l hl hrest hr hne
    obtain ⟨o, ho, hopen, hlist, hrest', hset⟩ := memListing_some hl
    rw [hrest] at hrest'
    rw [mem_readdir1 ho hopen, ← hrest'] at hr
    cases hr
    exact ⟨rfl, hl, hrest⟩
  next_cons := by
    intro h w w' r l fi t hl hrest hr hne
    obtain ⟨o, ho, hopen, hlist, hrest', hset⟩ := memListing_some hl
    rw [hrest] at hrest'
    rw [mem_readdir1 ho hopen, ← hrest'] at hr
    cases hr
    exact ⟨rfl, hset t⟩

theorem mem_readsDirs : ReadsDirs Mem.host memDirs := by
  intro h w l hl
  obtain ⟨o, ho, hopen, hlist, hrest', hset⟩ := memListing_some hl
  constructor
  · show (onHandle h w _ _).2 = none
    rw [onHandle_open ho hopen]
  · intro e
    rw [mem_readdir1 ho hopen]
    cases o.rest <;> simp

/-! ### Examples and counterexamples -/

/-- fid 1 is open on "/x/f", fid 0 on the directory "/x" -/
def demoOpen : State World Nat :=
  (runAll [attach0, walk1, open1, .walk { SFID := 0, NewFID := 2, Paths := [[102]] }, .open_ { OFID := 2, Omode := 0 },
    .open_ { OFID := 0, Omode := 0 }] demo).2

/-- C50, C51: two fids are open on the same node; data written through the first is read through the
second, after a rename of the file and a read of the directory -/
example : memFiles.node 0 demoOpen.world = some 3 ∧ memFiles.node 1 demoOpen.world = some 3 ∧
    memFiles.content 3 demoOpen.world = [1, 2, 3, 4] ∧
    (demoOpen.files 1).map (·.file) = some (some 0) ∧ (demoOpen.files 2).map (·.file) = some (some 1) ∧
    (runAll [.write { OFID := 1, Off := 3, Data := [8, 9] }, .read { OFID := 0, Off := 0, Len := 1000 },
      .remove { OFID := 1 }, .read { OFID := 2, Off := 2, Len := 1000 }] demoOpen).1.getLast? =
      some (some (.ok (.read { Data := [3, 8, 9] }))) := ⟨rfl, rfl, rfl, rfl, rfl, rfl⟩

/-- the history in between is harmless -/
example : ∃ s1 h s2, (ufs host [103]).Rwrite 1 3 [8, 9] demoOpen = .ok s1 2 ∧
    Hist host [103] (Harmless host memFiles 3) (CalmAt host memFiles 3) s1 h s2 ∧ h.length = 2 ∧
    (s2.files 2).map (·.file) = some (some 1) ∧ memFiles.node 1 s2.world = some 3 :=
  ⟨_, _, _, rfl, .ok (m := .read { OFID := 0, Off := 0, Len := 1000 }) trivial rfl
    (.ok (m := .remove { OFID := 1 }) trivial rfl (.nil _)), rfl, rfl, rfl⟩

/-- C53, C54: the listing of "/x" has two entries, which fit into 100 bytes -/
example : ∃ l, memDirs.listing 2 demoOpen.world = some l ∧ l.map (·.name) = [[100], [102]] ∧
    (demoOpen.files 0).map (fun f => (f.file, f.qid.Typ &&& QTDIR)) = some (some 2, 0x80) ∧
    ∀ fi ∈ l, ((record [103] fi).length : Int) ≤ (100 : Int32).toInt :=
  ⟨_, rfl, rfl, rfl, by decide⟩

/-- C53 does not hold: with a count of 10 the listing is empty -/
theorem C53_counterexample : listDir host [103] 0 10 5 0 demoOpen = some [] ∧
    (memDirs.listing 2 demoOpen.world).map List.length = some 2 := ⟨rfl, rfl⟩

/-- C53 does not hold: an entry that does not fit is lost, even if the client asks again with more space -/
theorem C53_counterexample_lost :
    (runAll [.read { OFID := 0, Off := 0, Len := 10 }, .read { OFID := 0, Off := 1, Len := 100 },
      .read { OFID := 0, Off := 1, Len := 100 }] demoOpen).1 =
    [some (.ok (.read { Data := [] })),
     some (.ok (.read { Data := record [103] (info [47, 120, 47, 102] 3 world0) })),
     some (.ok (.read { Data := [] }))] := rfl

end Ninep.Ufs
