import Verif.Ufs.Model
import Verif.Spec.Server
import Verif.Spec.Ufs
import Verif.Lemmas.RelPath
import Verif.Props.CodecPanic

set_option linter.unusedSimpArgs false
set_option linter.unusedVariables false

/-
Facts about single requests to the file server.
-/

namespace Ninep.Ufs
open Spec

/-- the state a call leaves behind, unless it panics -/
def _root_.Ninep.NRes.state? {σ α : Type} : NRes σ α → Option σ
  | .panic => none
  | .ok s _ => some s
  | .err s _ => some s

/-- what the caller is told -/
def _root_.Ninep.NRes.reply? {σ α : Type} : NRes σ α → Option (Except GoString α)
  | .panic => none
  | .ok _ a => some (.ok a)
  | .err _ e => some (.error e)

section
variable {ω H : Type} (host : Host ω H) (user : GoString)

@[simp] theorem state?_mapRes {σ α β : Type} (f : α → β) (r : NRes σ α) : (mapRes f r).state? = r.state? := by
  cases r <;> rfl

@[simp] theorem set_same (s : State ω H) (i : FID) (f : File H) : (s.set i f).files i = some f := if_pos rfl
theorem set_other (s : State ω H) {i j : FID} (f : File H) (h : j ≠ i) : (s.set i f).files j = s.files j := if_neg h
@[simp] theorem del_same (s : State ω H) (i : FID) : (s.del i).files i = none := if_pos rfl
theorem del_other (s : State ω H) {i j : FID} (h : j ≠ i) : (s.del i).files j = s.files j := if_neg h

@[simp] theorem set_world (s : State ω H) (i : FID) (f : File H) : (s.set i f).world = s.world := rfl
@[simp] theorem del_world (s : State ω H) (i : FID) : (s.del i).world = s.world := rfl

/-- what never changes, and the table outside of the fids in `l` -/
def Frame (l : List FID) (s s' : State ω H) : Prop :=
  s'.rootPath = s.rootPath ∧ s'.IOunit = s.IOunit ∧ ∀ i, i ∉ l → s'.files i = s.files i

theorem Frame.rfl' (l : List FID) (s : State ω H) : Frame l s s := ⟨rfl, rfl, fun _ _ => rfl⟩

theorem Frame.trans {l : List FID} {a b c : State ω H} (h : Frame l a b) (h' : Frame l b c) : Frame l a c :=
  ⟨h'.1.trans h.1, h'.2.1.trans h.2.1, fun i hi => (h'.2.2 i hi).trans (h.2.2 i hi)⟩

theorem Frame.setW {l : List FID} (s : State ω H) (w : ω) : Frame l s { s with world := w } :=
  ⟨rfl, rfl, fun _ _ => rfl⟩

theorem Frame.set {l : List FID} (s : State ω H) {i : FID} (hi : i ∈ l) (f : File H) : Frame l s (s.set i f) :=
  ⟨rfl, rfl, fun j hj => set_other s f (by rintro rfl; exact hj hi)⟩

theorem Frame.del {l : List FID} (s : State ω H) {i : FID} (hi : i ∈ l) : Frame l s (s.del i) :=
  ⟨rfl, rfl, fun j hj => del_other s (by rintro rfl; exact hj hi)⟩

/-- like `set`, with the world changed before -/
theorem Frame.setW' {l : List FID} (s : State ω H) (w : ω) {i : FID} (hi : i ∈ l) (f : File H) :
    Frame l s ({ s with world := w }.set i f) := (Frame.setW s w).trans (Frame.set _ hi f)

/-! ### wstat -/

theorem andThen_inv {P : State ω H → Prop} {r : State ω H × Option GoString}
    {k : State ω H → State ω H × Option GoString} (h : P r.1) (hk : ∀ s, P s → P (k s).1) :
    P (andThen r k).1 := by
  obtain ⟨s, e⟩ := r
  cases e with
  | none => exact hk s h
  | some e => exact h

theorem onWorld_frame (l : List FID) (f : ω → ω × Option GoString) (s : State ω H) : Frame l s (onWorld f s).1 :=
  ⟨rfl, rfl, fun _ _ => rfl⟩

/-- the part of a wstat after decoding -/
def wstatRun (fid : FID) (f : File H) (dir : Dir) (s : State ω H) : State ω H × Option GoString :=
  let path := wstatPath f dir s
  andThen (wstatMode host f dir s) fun s =>
    andThen (wstatUser dir s) fun s =>
    andThen (wstatName host fid f dir s) fun s =>
    andThen (wstatLength host path dir s) fun s =>
    andThen (wstatTimes host path dir s) fun s =>
    wstatSync host f dir s

/-- the file of the fid after a wstat: as before or under the new name -/
def Renamed (fid : FID) (f : File H) (n : GoString) (s s' : State ω H) : Prop :=
  Frame [fid] s s' ∧ (s'.files fid = some f ∨ s'.files fid = some { f with fullName := n })

theorem Renamed.refl {fid : FID} {f : File H} {s : State ω H} (h : s.files fid = some f) (n : GoString) :
    Renamed fid f n s s := ⟨Frame.rfl' _ _, .inl h⟩

theorem Renamed.world {fid : FID} {f : File H} {n : GoString} {s s' : State ω H} (h : Renamed fid f n s s') (w : ω) :
    Renamed fid f n s { s' with world := w } :=
  ⟨h.1.trans (Frame.setW _ _), h.2⟩

theorem wstatRun_renamed {fid : FID} {f : File H} {dir : Dir} {s : State ω H} (hf : s.files fid = some f) :
    Renamed fid f (wstatPath f dir s) s (wstatRun host fid f dir s).1 := by
  unfold wstatRun
  refine andThen_inv ?_ fun s1 h1 => andThen_inv ?_ fun s2 h2 => andThen_inv ?_ fun s3 h3 =>
    andThen_inv ?_ fun s4 h4 => andThen_inv ?_ fun s5 h5 => ?_
  · unfold wstatMode
    split
    · exact (Renamed.refl hf _).world _
    · exact Renamed.refl hf _
  · unfold wstatUser
    split <;> exact h1
  · unfold wstatName
    split
    · rename_i hn
      dsimp only
      split
      · exact h2
      · refine andThen_inv (h2.world _) fun s h => ⟨h.1.trans (Frame.set _ (by simp) _), .inr ?_⟩
        rw [set_same]
        unfold wstatPath
        rw [if_pos hn, h2.1.1]
    · exact h2
  · unfold wstatLength
    split
    · exact h3.world _
    · exact h3
  · unfold wstatTimes
    split
    · dsimp only
      split
      · split
        · exact h4
        · exact h4.world _
      · exact h4.world _
    · exact h4
  · unfold wstatSync
    split
    · split
      · exact h5
      · exact h5.world _
    · exact h5

theorem rwstat_none {fid : FID} {b : Bytes} {s : State ω H} (h : s.files fid = none) :
    rwstat host fid b s = .err s (lit "does not exist") := by
  unfold rwstat; rw [h]

/-- a wstat is decoding and then `wstatRun` -/
theorem rwstat_cases {fid : FID} {b : Bytes} {s : State ω H} {f : File H} (h : s.files fid = some f) :
    (∃ e, rwstat host fid b s = .err s e) ∨
    ∃ dir t b', unmarshaldir (Buffer.ofBytes b) = .done dir t none b' ∧
      (((wstatRun host fid f dir s).2 = none ∧ rwstat host fid b s = .ok (wstatRun host fid f dir s).1 ()) ∨
       ∃ e, (wstatRun host fid f dir s).2 = some e ∧ rwstat host fid b s = .err (wstatRun host fid f dir s).1 e) := by
  unfold rwstat
  rw [h]
  dsimp only
  cases hu : unmarshaldir (Buffer.ofBytes b) with
  | panic => exact absurd hu (unmarshaldir_safe _)
  | done dir t err b' =>
    cases err with
    | some e => exact .inl ⟨_, rfl⟩
    | none =>
      refine .inr ⟨dir, t, b', rfl, ?_⟩
      show _ ∨ _
      dsimp only
      change ((wstatRun host fid f dir s).2 = none ∧ (match wstatRun host fid f dir s with
        | (s, none) => NRes.ok s () | (s, some e) => .err s e) = _) ∨ ∃ e, _ ∧ (match wstatRun host fid f dir s with
        | (s, none) => NRes.ok s () | (s, some e) => .err s e) = _
      obtain ⟨s', e⟩ := wstatRun host fid f dir s
      cases e with
      | none => exact .inl ⟨rfl, rfl⟩
      | some e => exact .inr ⟨e, rfl, rfl⟩

/-! ### the table after a request -/

theorem clunk_none {fid : FID} {s : State ω H} (h : s.files fid = none) : clunk host fid s = none := by
  unfold clunk; rw [h]

/-- the world after closing the file of a fid, if there is one -/
def closeIn (f : Option H) (w : ω) : ω :=
  match f with
  | none => w
  | some h => (host.close h w).1

theorem clunk_some {fid : FID} {s : State ω H} {f : File H} (h : s.files fid = some f) :
    ∃ w, clunk host fid s = some ({ s.del fid with world := w }, f) ∧
      w = closeIn host f.file s.world := by
  unfold clunk; rw [h]
  dsimp only
  cases hf : f.file with
  | none => exact ⟨s.world, rfl, rfl⟩
  | some x => exact ⟨_, rfl, rfl⟩

theorem set_set (s : State ω H) (i : FID) (f g : File H) : (s.set i f).set i g = s.set i g := by
  simp only [State.set]
  congr 1
  funext j
  by_cases h : j = i <;> simp [h]

/-- reading a directory changes the world and at most the overflow field of the fid -/
theorem readDir_state {fid : FID} {f : File H} {h : H} {c : Count} {s s' : State ω H}
    (hs : (readDir host user fid f h c s).state? = some s') :
    ∃ w o, s' = { s with world := w }.set fid { f with oflow := o } ∧ (o = [] ∨ o = f.oflow) := by
  unfold readDir at hs
  dsimp only at hs
  split at hs
  · simp only [NRes.state?, Option.some.injEq] at hs
    subst hs
    exact ⟨s.world, f.oflow, set_set _ _ _ _, .inr rfl⟩
  · simp only [set_world] at hs
    generalize host.readdir1 h s.world = r at hs
    obtain ⟨w, r⟩ := r
    cases r with
    | eof => exact ⟨w, [], (Option.some.inj hs).symm, .inl rfl⟩
    | fail e => exact ⟨w, [], (Option.some.inj hs).symm, .inl rfl⟩
    | entry fi =>
      dsimp only at hs
      split at hs
      · exact ⟨w, [], (Option.some.inj hs).symm, .inl rfl⟩
      · exact ⟨w, [], (Option.some.inj hs).symm, .inl rfl⟩

theorem readDir_safe (fid : FID) (f : File H) (h : H) (c : Count) (s : State ω H) :
    readDir host user fid f h c s ≠ .panic := by
  unfold readDir
  dsimp only
  split
  · simp
  · simp only [set_world]
    generalize host.readdir1 h s.world = r
    obtain ⟨w, r⟩ := r
    cases r with
    | eof => simp
    | fail e => simp
    | entry fi => dsimp only; split <;> simp

theorem rread_state {fid : FID} {o : Offset} {c : Count} {s s' : State ω H} {f : File H} (hf : s.files fid = some f)
    (hs : (rread host user fid o c s).state? = some s') :
    ∃ w, s' = { s with world := w } ∨
      ∃ x, s' = { s with world := w }.set fid { f with oflow := x } ∧ (x = [] ∨ x = f.oflow) := by
  unfold rread at hs
  rw [hf] at hs
  dsimp only at hs
  cases hh : f.file with
  | none =>
    simp only [hh, NRes.state?, Option.some.injEq] at hs
    exact ⟨s.world, .inl hs.symm⟩
  | some h =>
    rw [hh] at hs
    dsimp only at hs
    split at hs
    · split at hs
      · simp only [set_world] at hs
        generalize host.seek0 h s.world = r at hs
        obtain ⟨w, r⟩ := r
        cases r with
        | some e => exact ⟨w, .inr ⟨[], (Option.some.inj hs).symm, .inl rfl⟩⟩
        | none =>
          obtain ⟨w', o', rfl, ho⟩ := readDir_state host user hs
          refine ⟨w', .inr ⟨o', ?_, ?_⟩⟩
          · exact set_set { s with world := w' } fid { f with file := some h, oflow := [] } { f with file := some h, oflow := o' }
          · rcases ho with h | h <;> exact .inl h
      · obtain ⟨w', o', rfl, ho⟩ := readDir_state host user hs
        exact ⟨w', .inr ⟨o', by rw [hh], ho⟩⟩
    · split at hs
      · cases hs
      · generalize host.readAt h c.toInt.toNat o.toInt64 s.world = r at hs
        obtain ⟨w, d, e⟩ := r
        cases e <;> exact ⟨w, .inl (Option.some.inj hs).symm⟩

/-- every request leaves alone all fids it does not name -/
theorem call_frame {m : TMsg} {s s' : State ω H} (h : (call (ufs host user) m s).state? = some s') :
    Frame (fids m) s s' := by
  cases m with
  | version p =>
    simp only [call, state?_mapRes, ufs] at h
    unfold rversion at h
    split at h <;> (simp only [NRes.state?, Option.some.injEq] at h; subst h; exact ⟨rfl, rfl, fun _ _ => rfl⟩)
  | flush p =>
    simp only [call, state?_mapRes, ufs] at h
    unfold rflush at h
    simp only [NRes.state?, Option.some.injEq] at h
    subst h; exact Frame.rfl' _ _
  | attach p =>
    simp only [call, state?_mapRes, ufs] at h
    unfold rattach at h
    split at h
    · simp only [NRes.state?, Option.some.injEq] at h
      subst h; exact Frame.rfl' _ _
    · dsimp only at h
      split at h
      · simp only [NRes.state?, Option.some.injEq] at h
        subst h; exact Frame.rfl' _ _
      · simp only [NRes.state?, Option.some.injEq] at h
        subst h; exact Frame.set _ (by simp [fids]) _
  | walk p =>
    simp only [call, state?_mapRes, ufs] at h
    unfold rwalk at h
    split at h
    · simp only [NRes.state?, Option.some.injEq] at h
      subst h; exact Frame.rfl' _ _
    · split at h
      · split at h
        · simp only [NRes.state?, Option.some.injEq] at h
          subst h; exact Frame.rfl' _ _
        · simp only [NRes.state?, Option.some.injEq] at h
          subst h; exact Frame.set _ (by simp [fids]) _
      · split at h
        · split at h <;>
          · simp only [NRes.state?, Option.some.injEq] at h
            subst h; exact Frame.setW _ _
        · dsimp only at h
          split at h
          · simp only [NRes.state?, Option.some.injEq] at h
            subst h; exact Frame.setW _ _
          · simp only [NRes.state?, Option.some.injEq] at h
            subst h; exact Frame.setW' _ _ (by simp [fids]) _
  | open_ p =>
    simp only [call, state?_mapRes, ufs] at h
    unfold ropen at h
    split at h
    · simp only [NRes.state?, Option.some.injEq] at h
      subst h; exact Frame.rfl' _ _
    · split at h <;>
      · simp only [NRes.state?, Option.some.injEq] at h
        subst h; exact Frame.setW' _ _ (by simp [fids]) _
  | create p =>
    simp only [call, state?_mapRes, ufs] at h
    unfold rcreate at h
    split at h
    · simp only [NRes.state?, Option.some.injEq] at h
      subst h; exact Frame.rfl' _ _
    · split at h
      · simp only [NRes.state?, Option.some.injEq] at h
        subst h; exact Frame.rfl' _ _
      · dsimp only at h
        split at h
        · split at h
          · simp only [NRes.state?, Option.some.injEq] at h
            subst h; exact Frame.setW _ _
          · simp only [NRes.state?, Option.some.injEq] at h
            subst h; exact Frame.setW' _ _ (by simp [fids]) _
        · split at h
          · simp only [NRes.state?, Option.some.injEq] at h
            subst h; exact Frame.setW _ _
          · split at h
            · simp only [NRes.state?, Option.some.injEq] at h
              subst h; exact Frame.setW _ _
            · simp only [NRes.state?, Option.some.injEq] at h
              subst h; exact Frame.setW' _ _ (by simp [fids]) _
  | stat p =>
    simp only [call, state?_mapRes, ufs] at h
    unfold rstat at h
    split at h
    · simp only [NRes.state?, Option.some.injEq] at h
      subst h; exact Frame.rfl' _ _
    · split at h <;>
      · simp only [NRes.state?, Option.some.injEq] at h
        subst h; exact Frame.rfl' _ _
  | wstat p =>
    simp only [call, state?_mapRes, ufs] at h
    cases hf : s.files p.OFID with
    | none =>
      rw [rwstat_none host hf] at h
      simp only [NRes.state?, Option.some.injEq] at h
      subst h; exact Frame.rfl' _ _
    | some f =>
      rcases rwstat_cases host (b := p.B) hf with ⟨e, he⟩ | ⟨dir, t, b', _, ⟨_, he⟩ | ⟨e, _, he⟩⟩
      · rw [he] at h
        simp only [NRes.state?, Option.some.injEq] at h
        subst h; exact Frame.rfl' _ _
      all_goals
        rw [he] at h
        simp only [NRes.state?, Option.some.injEq] at h
        subst h
        exact (wstatRun_renamed host hf).1
  | clunk p =>
    simp only [call, state?_mapRes, ufs] at h
    unfold rclunk at h
    cases hf : s.files p.OFID with
    | none =>
      rw [clunk_none host hf] at h
      simp only [NRes.state?, Option.some.injEq] at h
      subst h; exact Frame.rfl' _ _
    | some f =>
      obtain ⟨w, hc, _⟩ := clunk_some host hf
      rw [hc] at h
      simp only [NRes.state?, Option.some.injEq] at h
      subst h; exact (Frame.del s (by simp [fids])).trans (Frame.setW _ _)
  | remove p =>
    simp only [call, state?_mapRes, ufs] at h
    unfold rremove at h
    cases hf : s.files p.OFID with
    | none =>
      rw [clunk_none host hf] at h
      simp only [NRes.state?, Option.some.injEq] at h
      subst h; exact Frame.rfl' _ _
    | some f =>
      obtain ⟨w, hc, _⟩ := clunk_some host hf
      rw [hc] at h
      dsimp only at h
      split at h <;>
      · simp only [NRes.state?, Option.some.injEq] at h
        subst h; exact ((Frame.del s (by simp [fids])).trans (Frame.setW _ _)).trans (Frame.setW _ _)
  | read p =>
    simp only [call, state?_mapRes, ufs] at h
    cases hf : s.files p.OFID with
    | none =>
      unfold rread at h
      simp only [hf, NRes.state?, Option.some.injEq] at h
      subst h; exact Frame.rfl' _ _
    | some f =>
      obtain ⟨w, rfl | ⟨x, rfl, _⟩⟩ := rread_state host user hf h
      · exact Frame.setW _ _
      · exact Frame.setW' _ _ (by simp [fids]) _
  | write p =>
    simp only [call, state?_mapRes, ufs] at h
    unfold rwrite at h
    split at h
    · simp only [NRes.state?, Option.some.injEq] at h
      subst h; exact Frame.rfl' _ _
    · split at h
      · simp only [NRes.state?, Option.some.injEq] at h
        subst h; exact Frame.rfl' _ _
      · split at h <;>
        · simp only [NRes.state?, Option.some.injEq] at h
          subst h; exact Frame.setW _ _

/-! ### mode and QID bits -/

theorem u32_and_511 (m : UInt32) : m &&& 0o777 = UInt32.ofNat (m.toNat % 512) := by
  apply UInt32.toNat.inj
  rw [UInt32.toNat_and]
  have : (0o777 : UInt32).toNat = 2 ^ 9 - 1 := by decide
  rw [this, Nat.and_two_pow_sub_one_eq_mod]
  rw [UInt32.toNat_ofNat_of_lt' (by have := Nat.mod_lt m.toNat (show 512 > 0 by decide); exact Nat.lt_trans this (by decide))]

theorem mode_bits (fi : FileInfo) :
      (dirTo9p2000Mode fi).toNat % 512 = fi.mode.toNat % 512 ∧
      (dirTo9p2000Mode fi &&& DMDIR ≠ 0 ↔ fi.isDir) ∧
      (dirTo9p2000Mode fi = UInt32.ofNat (fi.mode.toNat % 512) ∨ dirTo9p2000Mode fi = UInt32.ofNat (fi.mode.toNat % 512) ||| DMDIR) := by
  have h512 : fi.mode.toNat % 512 < 2 ^ 32 := Nat.lt_trans (Nat.mod_lt _ (by decide)) (by decide)
  have hz : fi.mode &&& 0o777 &&& DMDIR = 0 := by
    rw [UInt32.and_assoc, show (0o777 : UInt32) &&& DMDIR = 0 by decide]; simp
  unfold dirTo9p2000Mode
  cases h : fi.isDir
  · rw [if_neg (by simp)]
    refine ⟨?_, ?_, .inl (u32_and_511 _)⟩
    · rw [u32_and_511, UInt32.toNat_ofNat_of_lt' h512]; simp
    · simp [hz]
  · rw [if_pos rfl]
    refine ⟨?_, ?_, .inr (by rw [u32_and_511])⟩
    · rw [u32_and_511, UInt32.toNat_or, UInt32.toNat_ofNat_of_lt' h512]
      rw [show 512 = 2 ^ 9 by decide, Nat.or_mod_two_pow, show DMDIR.toNat % 2 ^ 9 = 0 by decide]; simp
    · have : (fi.mode &&& 0o777 ||| DMDIR) &&& DMDIR = DMDIR := by
        apply UInt32.toNat.inj
        rw [UInt32.toNat_and, UInt32.toNat_or]
        apply Nat.eq_of_testBit_eq
        intro i
        simp [Nat.testBit_and, Nat.testBit_or]
        exact fun h => .inr h
      rw [this]; simp [DMDIR]

theorem qid_bits (fi : FileInfo) :
    (dirToQIDType fi &&& QTDIR ≠ 0 ↔ fi.isDir) ∧ (dirToQIDType fi &&& QTSYMLINK ≠ 0 ↔ fi.mode &&& ModeSymlink ≠ 0) := by
  unfold dirToQIDType
  cases h : fi.isDir <;> by_cases h2 : fi.mode &&& ModeSymlink = 0
  · rw [if_neg (by simp [h2])]; simp [h2]
  · rw [if_pos h2]; simp [h2]; decide
  · rw [if_neg (by simp [h2])]; simp [h2]; decide
  · rw [if_pos h2]; simp [h2]; decide

end
end Ninep.Ufs
