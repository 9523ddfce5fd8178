import Verif.Props.UfsPaths

set_option linter.unusedSimpArgs false
set_option linter.unusedVariables false

/-
Changing metadata (C56, C57, C58) and the errors of create (C59).
-/

namespace Ninep.Ufs
open Spec

section
variable {ω H : Type} (host : Host ω H) (user : GoString)

/-- a wstat of a record that decodes to `d` -/
theorem rwstat_run {fid : FID} {b : Bytes} {s : State ω H} {f : File H} {d : Dir} {t : Tag} {b' : Buffer} (hf : s.files fid = some f)
    (hd : unmarshaldir (Buffer.ofBytes b) = .done d t none b') :
    rwstat host fid b s = match wstatRun host fid f d s with
      | (s', none) => .ok s' ()
      | (s', some e) => .err s' e := by
  unfold rwstat
  rw [hf]
  dsimp only
  rw [hd]
  rfl

/-- C56: a wstat that asks for nothing succeeds, whatever the other fields hold; no fid changes, and the host
is at most asked to sync the open file. -/
theorem C56_nothing {fid : FID} {b : Bytes} {s : State ω H} {f : File H} {d : Dir} {t : Tag} {b' : Buffer}
    (hf : s.files fid = some f) (hd : unmarshaldir (Buffer.ofBytes b) = .done d t none b') (hu : Untouched d) :
    ∃ s', (ufs host user).Rwstat fid b s = .ok s' () ∧ s'.files = s.files ∧ s'.rootPath = s.rootPath ∧
      (f.file = none → s'.world = s.world) ∧ ∀ h, f.file = some h → s'.world = (host.sync h s.world).1 := by
  obtain ⟨h1, h2, h3, h4, h5, h6, h7⟩ := hu
  have hr : wstatRun host fid f d s = wstatSync host f d s := by
    unfold wstatRun
    have e1 : ∀ s, wstatMode host f d s = (s, none) := fun s => by unfold wstatMode; rw [if_neg (by simp [h1])]
    have e2 : ∀ s : State ω H, wstatUser d s = (s, none) := fun s => by unfold wstatUser; rw [if_neg (by simp [h6, h7])]
    have e3 : ∀ s, wstatName host fid f d s = (s, none) := fun s => by unfold wstatName; rw [if_neg (by simp [h5])]
    have e4 : ∀ p s, wstatLength host p d s = (s, none) := fun p s => by unfold wstatLength; rw [if_neg (by simp [h4])]
    have e5 : ∀ p s, wstatTimes host p d s = (s, none) := fun p s => by unfold wstatTimes; rw [if_neg (by simp [h2, h3])]
    simp only [e1, e2, e3, e4, e5, andThen]
  have hw : (ufs host user).Rwstat fid b s = _ := rwstat_run host hf hd
  rw [hw, hr]
  unfold wstatSync
  cases hh : f.file with
  | none => exact ⟨s, rfl, rfl, rfl, fun _ => rfl, fun h hx => by cases hx⟩
  | some h =>
    have hc : wstatChanges d = false := by simp [wstatChanges, h1, h2, h3, h4, h5]
    rw [hc]
    exact ⟨{ s with world := (host.sync h s.world).1 }, rfl, rfl, rfl, fun hx => (by cases hx), fun x hx => by cases hx; rfl⟩

/-- the stat record the protocol prescribes decodes to what it stands for, whatever follows it -/
theorem record_decodes {d : Dir} (hd : DirFits d) (rest : Bytes) :
    ∃ b', unmarshaldir (Buffer.ofBytes (Spec.dir d ++ rest)) = .done d 0 none b' :=
  ⟨_, unmarshaldir_fwd d hd [] rest []⟩

/-- C56, for the stat records of the protocol -/
theorem C56_nothing_record {fid : FID} {s : State ω H} {f : File H} {d : Dir} {rest : Bytes}
    (hf : s.files fid = some f) (hd : DirFits d) (hu : Untouched d) :
    ∃ s', (ufs host user).Rwstat fid (Spec.dir d ++ rest) s = .ok s' () ∧ s'.files = s.files ∧ s'.rootPath = s.rootPath ∧
      (f.file = none → s'.world = s.world) ∧ ∀ h, f.file = some h → s'.world = (host.sync h s.world).1 :=
  let ⟨_, h⟩ := record_decodes hd rest
  C56_nothing host user hf h hu

/-! ### C57 -/

/-- host operations on paths that fail do nothing -/
def FailsClean (host : Host ω H) : Prop :=
  (∀ p m w, (host.chmod p m w).2 ≠ none → (host.chmod p m w).1 = w) ∧
  (∀ p q w, (host.rename p q w).2 ≠ none → (host.rename p q w).1 = w) ∧
  (∀ p n w, (host.truncate p n w).2 ≠ none → (host.truncate p n w).1 = w) ∧
  (∀ p a m w, (host.chtimes p a m w).2 ≠ none → (host.chtimes p a m w).1 = w)

/-- the things a record asks to be changed: mode, owner, name, length, times -/
def asked (d : Dir) : List Bool :=
  [d.Mode != 0xFFFFFFFF, d.User != [] || d.Group != [], d.Name != [], d.Length != 0xFFFFFFFFFFFFFFFF,
    d.Atime != 0xFFFFFFFF || d.Mtime != 0xFFFFFFFF]

theorem world_eta (s : State ω H) {w : ω} (h : w = s.world) : { s with world := w } = s := by subst h; rfl

theorem onWorld_fails {g : ω → ω × Option GoString} {s : State ω H} (hg : (g s.world).2 ≠ none → (g s.world).1 = s.world)
    (he : (onWorld g s).2 ≠ none) : (onWorld g s).1 = s := world_eta s (hg he)

/-- one part of a wstat -/
abbrev Part (ω H : Type) := State ω H → State ω H × Option GoString

/-- one part after the other, until one fails -/
def runParts : List (Part ω H) → Part ω H
  | [], s => (s, none)
  | p :: ps, s => andThen (p s) (runParts ps)

/-- a part that leaves everything as it is if it fails -/
def Clean (p : Part ω H) : Prop := ∀ s, (p s).2 ≠ none → (p s).1 = s

/-- the parts of a wstat that can fail, in order -/
def parts (fid : FID) (f : File H) (d : Dir) (path : GoString) : List (Part ω H) :=
  [wstatMode host f d, wstatUser d, wstatName host fid f d, wstatLength host path d, wstatTimes host path d]

theorem sync_ok (f : File H) (d : Dir) (s : State ω H) : (wstatSync host f d s).2 = none := by
  unfold wstatSync
  split
  · split <;> rfl
  · rfl

theorem andThen_assoc (r : State ω H × Option GoString) (k l : State ω H → State ω H × Option GoString) :
    andThen (andThen r k) l = andThen r fun s => andThen (k s) l := by
  obtain ⟨s, e⟩ := r
  cases e <;> rfl

theorem wstatRun_parts (fid : FID) (f : File H) (d : Dir) (s : State ω H) :
    wstatRun host fid f d s = andThen (runParts (parts host fid f d (wstatPath f d s)) s) (wstatSync host f d) := by
  unfold wstatRun parts
  simp only [runParts, andThen_assoc]
  rfl

theorem parts_clean (hq : host.Quiet) (hc : FailsClean host) (fid : FID) (f : File H) (d : Dir) (path : GoString) :
    ∀ p ∈ parts host fid f d path, Clean p := by
  intro p hp
  simp only [parts, List.mem_cons, List.not_mem_nil, or_false] at hp
  rcases hp with rfl | rfl | rfl | rfl | rfl
  · intro s
    unfold wstatMode
    split
    · exact onWorld_fails (hc.1 _ _ _)
    · exact fun _ => rfl
  · intro s _
    unfold wstatUser
    split <;> rfl
  · intro s
    unfold wstatName
    split
    · dsimp only
      rw [isDirNow_world, hq.stat]
      split
      · exact fun _ => rfl
      · have := onWorld_fails (g := host.rename f.fullName (renameTo s.rootPath f.fullName d.Name)) (s := s) (hc.2.1 _ _ _)
        generalize onWorld (host.rename f.fullName (renameTo s.rootPath f.fullName d.Name)) s = r at this
        obtain ⟨s1, e⟩ := r
        cases e with
        | none => exact fun h => absurd rfl h
        | some e => exact fun _ => this (by simp)
    · exact fun _ => rfl
  · intro s
    unfold wstatLength
    split
    · exact onWorld_fails (hc.2.2.1 _ _ _)
    · exact fun _ => rfl
  · intro s
    unfold wstatTimes
    split
    · dsimp only
      split
      · have hw := hq.stat path s.world
        generalize host.stat path s.world = x at hw
        obtain ⟨w, x⟩ := x
        dsimp only at hw
        subst hw
        cases x with
        | error e => exact fun _ => rfl
        | ok st => exact onWorld_fails (hc.2.2.2 _ _ _ _)
      · exact onWorld_fails (hc.2.2.2 _ _ _ _)
    · exact fun _ => rfl

/-- parts, and whether they are asked for: those that are not do nothing -/
inductive Asks : List (Part ω H) → List Bool → Prop
  | nil : Asks [] []
  | cons {p : Part ω H} {a : Bool} {ps as} : (a = false → ∀ s, p s = (s, none)) → Asks ps as → Asks (p :: ps) (a :: as)

/-- parts that are not asked for do nothing -/
theorem parts_asked (fid : FID) (f : File H) (d : Dir) (path : GoString) :
    Asks (parts host fid f d path) (asked d) := by
  unfold parts asked
  refine .cons ?_ (.cons ?_ (.cons ?_ (.cons ?_ (.cons ?_ .nil))))
  · intro h s; unfold wstatMode; rw [if_neg (by simpa using h)]
  · intro h s; unfold wstatUser; rw [if_neg (by simpa using h)]
  · intro h s; unfold wstatName; rw [if_neg (by simpa using h)]
  · intro h s; unfold wstatLength; rw [if_neg (by simpa using h)]
  · intro h s; unfold wstatTimes; rw [if_neg (by simp at h ⊢; exact ⟨h.2, h.1⟩)]

theorem runParts_none {ps : List (Part ω H)} {as : List Bool}
    (h : Asks ps as) (ha : as.count true = 0) (s : State ω H) :
    runParts ps s = (s, none) := by
  induction h generalizing s with
  | nil => rfl
  | cons hp _ ih =>
    rename_i p a ps as _
    cases a with
    | true => simp at ha
    | false =>
      unfold runParts
      rw [hp rfl]
      exact ih (by simpa using ha) s

theorem runParts_one {ps : List (Part ω H)} {as : List Bool}
    (h : Asks ps as) (hc : ∀ p ∈ ps, Clean p)
    (ha : as.count true ≤ 1) (s : State ω H) : (runParts ps s).2 ≠ none → (runParts ps s).1 = s := by
  induction h generalizing s with
  | nil => exact fun _ => rfl
  | cons hp hps ih =>
    rename_i p a ps as
    unfold runParts
    cases a with
    | false =>
      rw [hp rfl]
      exact ih (fun q hq => hc q (.tail _ hq)) (by simpa using ha) s
    | true =>
      have h0 : as.count true = 0 := by simp at ha; simpa using ha
      have := hc p (.head _) s
      generalize p s = r at this
      obtain ⟨s1, e1⟩ := r
      cases e1 with
      | none =>
        intro hx
        exact absurd (by simp [andThen, runParts_none hps h0]) hx
      | some e => exact fun _ => this (by simp)

/-- parts that fail: everything before the failing part was done, nothing after it -/
theorem runParts_fails {ps : List (Part ω H)} (hc : ∀ p ∈ ps, Clean p) {s s' : State ω H} {e : GoString}
    (h : runParts ps s = (s', some e)) :
    ∃ pre p post, ps = pre ++ p :: post ∧ runParts pre s = (s', none) ∧ p s' = (s', some e) := by
  induction ps generalizing s with
  | nil => cases h
  | cons p ps ih =>
    unfold runParts at h
    have hcl := hc p (.head _) s
    generalize hp : p s = r at h hcl
    obtain ⟨s1, e1⟩ := r
    cases e1 with
    | some e1 =>
      cases h
      have : s' = s := hcl (by simp)
      subst this
      exact ⟨[], p, ps, rfl, rfl, hp⟩
    | none =>
      obtain ⟨pre, q, post, h1, h2, h3⟩ := ih (fun q hq => hc q (.tail _ hq)) h
      refine ⟨p :: pre, q, post, by rw [h1]; rfl, ?_, h3⟩
      unfold runParts
      rw [hp]; exact h2

/-- the outcomes of a wstat -/
theorem rwstat_err {fid : FID} {b : Bytes} {s s' : State ω H} {e : GoString} (h : rwstat host fid b s = .err s' e) :
    s' = s ∨ ∃ f d t b', s.files fid = some f ∧ unmarshaldir (Buffer.ofBytes b) = .done d t none b' ∧
      runParts (parts host fid f d (wstatPath f d s)) s = (s', some e) := by
  cases hf : s.files fid with
  | none =>
    rw [rwstat_none host hf] at h
    cases h; exact .inl rfl
  | some f =>
    rw [rwstat_eq host hf] at h
    cases hu : unmarshaldir (Buffer.ofBytes b) with
    | panic => rw [hu] at h; cases h
    | done d t err b' =>
      rw [hu] at h
      cases err with
      | some x => cases h; exact .inl rfl
      | none =>
        refine .inr ⟨f, d, t, b', rfl, rfl, ?_⟩
        dsimp only at h
        rw [wstatRun_parts] at h
        generalize runParts (parts host fid f d (wstatPath f d s)) s = r at h ⊢
        obtain ⟨s1, e1⟩ := r
        cases e1 with
        | none =>
          exfalso
          dsimp only [andThen] at h
          have := sync_ok host f d s1
          generalize wstatSync host f d s1 = r at h this
          obtain ⟨s2, e2⟩ := r
          dsimp only at this
          subst this
          cases h
        | some e1 => cases h; rfl

/-- C57: a wstat that fails has changed nothing if it asks for at most one thing, or for another owner but
not for another mode — on a host whose operations do nothing when they fail, and while no other process
changes anything.  (The full statement is
about every wstat; see the counterexample below.) -/
theorem C57_all_or_nothing_partial (hq : host.Quiet) (hc : FailsClean host) {fid : FID} {b : Bytes} {s s' : State ω H} {e : GoString}
    (h1 : ∀ d t b', unmarshaldir (Buffer.ofBytes b) = .done d t none b' →
      (asked d).count true ≤ 1 ∨ (d.Mode = 0xFFFFFFFF ∧ (d.User ≠ [] ∨ d.Group ≠ [])))
    (h : (ufs host user).Rwstat fid b s = .err s' e) : s' = s := by
  rcases rwstat_err host h with h | ⟨f, d, t, b', hf, hu, hr⟩
  · exact h
  · rcases h1 d t b' hu with h1 | ⟨hM, hown⟩
    · have := runParts_one (parts_asked host fid f d (wstatPath f d s)) (parts_clean host hq hc fid f d _) h1 s
      rw [hr] at this
      exact this (by simp)
    · have e1 : wstatMode host f d s = (s, none) := by unfold wstatMode; rw [if_neg (by simp [hM])]
      have e2 : wstatUser d s = (s, some (lit "Permission denied")) := by unfold wstatUser; rw [if_pos hown]
      unfold parts at hr
      simp only [runParts, e1, e2, andThen] at hr
      cases hr
      rfl

/-- C57: in general a wstat that fails has made exactly those changes that come before the one that failed,
in the order mode, owner, name, length, times. -/
theorem C57_prefix_partial (hq : host.Quiet) (hc : FailsClean host) {fid : FID} {b : Bytes} {s s' : State ω H} {e : GoString}
    (h : (ufs host user).Rwstat fid b s = .err s' e) :
    s' = s ∨ ∃ f d t b' pre p post, s.files fid = some f ∧ unmarshaldir (Buffer.ofBytes b) = .done d t none b' ∧
      parts host fid f d (wstatPath f d s) = pre ++ p :: post ∧ runParts pre s = (s', none) ∧ p s' = (s', some e) := by
  rcases rwstat_err host h with h | ⟨f, d, t, b', hf, hu, hr⟩
  · exact .inl h
  · obtain ⟨pre, p, post, h1, h2, h3⟩ := runParts_fails (parts_clean host hq hc fid f d _) hr
    exact .inr ⟨f, d, t, b', pre, p, post, hf, hu, h1, h2, h3⟩

/-! ### C58 -/

/-- the record asks for another access time only -/
def OnlyAtime (d : Dir) : Prop :=
  d.Mode = 0xFFFFFFFF ∧ d.Mtime = 0xFFFFFFFF ∧ d.Atime ≠ 0xFFFFFFFF ∧ d.Length = 0xFFFFFFFFFFFFFFFF ∧
  d.Name = [] ∧ d.User = [] ∧ d.Group = []

/-- the record asks for another modification time only -/
def OnlyMtime (d : Dir) : Prop :=
  d.Mode = 0xFFFFFFFF ∧ d.Atime = 0xFFFFFFFF ∧ d.Mtime ≠ 0xFFFFFFFF ∧ d.Length = 0xFFFFFFFFFFFFFFFF ∧
  d.Name = [] ∧ d.User = [] ∧ d.Group = []

theorem wstatRun_times {fid : FID} {f : File H} {d : Dir} {s : State ω H} (h1 : d.Mode = 0xFFFFFFFF)
    (h2 : d.Length = 0xFFFFFFFFFFFFFFFF) (h3 : d.Name = []) (h4 : d.User = [] ∧ d.Group = []) :
    wstatRun host fid f d s = andThen (wstatTimes host f.fullName d s) (wstatSync host f d) := by
  have e0 : wstatPath f d s = f.fullName := by unfold wstatPath; rw [if_neg (by simp [h3])]
  have e1 : wstatMode host f d s = (s, none) := by unfold wstatMode; rw [if_neg (by simp [h1])]
  have e2 : wstatUser d s = (s, none) := by unfold wstatUser; rw [if_neg (by simp [h4])]
  have e3 : wstatName host fid f d s = (s, none) := by unfold wstatName; rw [if_neg (by simp [h3])]
  have e4 : wstatLength host f.fullName d s = (s, none) := by unfold wstatLength; rw [if_neg (by simp [h2])]
  rw [wstatRun_parts, e0]
  simp only [parts, runParts, e1, e2, e3, e4, andThen]
  congr 1
  generalize wstatTimes host f.fullName d s = r
  obtain ⟨s1, e⟩ := r
  cases e <;> rfl

/-- C58: a wstat that sets only the access time hands the modification time the file has back to the host.
(The full statement is also about wstats that set only the modification time; see below.) -/
theorem C58_atime_only_partial {fid : FID} {b : Bytes} {s s' : State ω H} {f : File H} {d : Dir} {t : Tag} {b' : Buffer} {st : FileInfo}
    (hf : s.files fid = some f) (hd : unmarshaldir (Buffer.ofBytes b) = .done d t none b') (ho : OnlyAtime d)
    {w1 : ω} (hst : host.stat f.fullName s.world = (w1, .ok st))
    (h : (ufs host user).Rwstat fid b s = .ok s' ()) :
    s'.world = (host.chtimes f.fullName ⟨d.Atime.toNat, 0⟩ st.modTime w1).1 ∧
    (host.chtimes f.fullName ⟨d.Atime.toNat, 0⟩ st.modTime w1).2 = none := by
  obtain ⟨h1, h2, h3, h4, h5, h6, h7⟩ := ho
  have h : rwstat host fid b s = .ok s' () := h
  rw [rwstat_run host hf hd, wstatRun_times host h1 h4 h5 ⟨h6, h7⟩] at h
  unfold wstatTimes at h
  rw [if_pos (.inr h3)] at h
  dsimp only at h
  rw [if_pos (.inl h2), hst] at h
  dsimp only at h
  rw [if_pos h2] at h
  unfold onWorld at h
  show s'.world = (host.chtimes f.fullName (unixTime d.Atime) st.modTime w1).1 ∧
    (host.chtimes f.fullName (unixTime d.Atime) st.modTime w1).2 = none
  dsimp only at h
  generalize host.chtimes f.fullName (unixTime d.Atime) st.modTime w1 = r at h
  obtain ⟨w, e⟩ := r
  cases e with
  | some e => cases h
  | none =>
    dsimp only [andThen] at h
    have hc : wstatChanges d = true := by simp [wstatChanges, h3]
    unfold wstatSync at h
    rw [hc] at h
    have : (match f.file with
      | some h => if true then ({ s with world := w }, none) else ({ s with world := (host.sync h w).1 }, none)
      | none => ({ s with world := w }, none) : State ω H × Option GoString) = ({ s with world := w }, none) := by
      cases f.file <;> rfl
    split at h
    · rename_i s1 he
      cases h
      have he := he.symm.trans this
      cases he
      exact ⟨rfl, rfl⟩
    · cases h

/-- how a host keeps times: what was set is what is found, everything else is as it was found before -/
def KeepsTimes (host : Host ω H) : Prop :=
  ∀ p a m w w1 st, host.stat p w = (w1, .ok st) → (host.chtimes p a m w1).2 = none →
    (host.stat p (host.chtimes p a m w1).1).2 = .ok { st with modTime := m }

/-- C58: setting only the access time leaves everything stat tells as it was -/
theorem C58_mtime_kept_partial (hk : KeepsTimes host) {fid : FID} {b : Bytes} {s s' : State ω H} {f : File H} {d : Dir} {t : Tag} {b' : Buffer}
    {st : FileInfo} (hf : s.files fid = some f) (hd : unmarshaldir (Buffer.ofBytes b) = .done d t none b') (ho : OnlyAtime d)
    (hst : (host.stat f.fullName s.world).2 = .ok st) (h : (ufs host user).Rwstat fid b s = .ok s' ()) :
    (host.stat f.fullName s'.world).2 = .ok st := by
  have hst : host.stat f.fullName s.world = ((host.stat f.fullName s.world).1, .ok st) := by rw [← hst]
  obtain ⟨h1, h2⟩ := C58_atime_only_partial host user hf hd ho hst h
  rw [h1, hk _ _ _ _ _ _ hst h2]

/-- C58 fails for every host, every fid and every modification time: a wstat that sets only the
modification time sets the access time to 2³²-1 -/
theorem C58_atime_overwritten {fid : FID} {b : Bytes} {s s' : State ω H} {f : File H} {d : Dir} {t : Tag} {b' : Buffer}
    (hf : s.files fid = some f) (hd : unmarshaldir (Buffer.ofBytes b) = .done d t none b') (ho : OnlyMtime d)
    (h : (ufs host user).Rwstat fid b s = .ok s' ()) :
    s'.world = (host.chtimes f.fullName ⟨0xFFFFFFFF, 0⟩ ⟨d.Mtime.toNat, 0⟩ (host.stat f.fullName s.world).1).1 := by
  obtain ⟨h1, h2, h3, h4, h5, h6, h7⟩ := ho
  have h : rwstat host fid b s = .ok s' () := h
  rw [rwstat_run host hf hd, wstatRun_times host h1 h4 h5 ⟨h6, h7⟩] at h
  unfold wstatTimes at h
  rw [if_pos (.inl h3)] at h
  dsimp only at h
  rw [if_pos (.inr h2)] at h
  split at h
  rotate_left
  · cases h
  · rename_i s1 he
    cases h
    generalize host.stat f.fullName s.world = x at he ⊢
    obtain ⟨w1, x⟩ := x
    cases x with
    | error e => cases he
    | ok st =>
      dsimp only at he ⊢
      rw [if_neg h3] at he
      unfold onWorld at he
      have hA : unixTime d.Atime = ⟨0xFFFFFFFF, 0⟩ := by rw [h2]; rfl
      rw [hA] at he
      show s'.world = (host.chtimes f.fullName ⟨0xFFFFFFFF, 0⟩ (unixTime d.Mtime) w1).1
      dsimp only at he
      generalize host.chtimes f.fullName ⟨0xFFFFFFFF, 0⟩ (unixTime d.Mtime) w1 = r at he
      obtain ⟨w, e⟩ := r
      cases e with
      | some e => cases he
      | none =>
        dsimp only [andThen] at he
        have hc : wstatChanges d = true := by simp [wstatChanges, h3]
        unfold wstatSync at he
        rw [hc] at he
        cases hff : f.file with
        | none => rw [hff] at he; cases he; rfl
        | some x => rw [hff] at he; cases he; rfl

/-- C58, for the stat records of the protocol: the access time alone -/
theorem C58_mtime_kept_record_partial (hk : KeepsTimes host) {fid : FID} {s s' : State ω H} {f : File H} {d : Dir} {rest : Bytes}
    {st : FileInfo} (hf : s.files fid = some f) (hd : DirFits d) (ho : OnlyAtime d)
    (hst : (host.stat f.fullName s.world).2 = .ok st) (h : (ufs host user).Rwstat fid (Spec.dir d ++ rest) s = .ok s' ()) :
    (host.stat f.fullName s'.world).2 = .ok st :=
  let ⟨_, hx⟩ := record_decodes hd rest
  C58_mtime_kept_partial host user hk hf hx ho hst h

/-- C58, for the stat records of the protocol: the modification time alone -/
theorem C58_atime_overwritten_record {fid : FID} {s s' : State ω H} {f : File H} {d : Dir} {rest : Bytes}
    (hf : s.files fid = some f) (hd : DirFits d) (ho : OnlyMtime d)
    (h : (ufs host user).Rwstat fid (Spec.dir d ++ rest) s = .ok s' ()) :
    s'.world = (host.chtimes f.fullName ⟨0xFFFFFFFF, 0⟩ ⟨d.Mtime.toNat, 0⟩ (host.stat f.fullName s.world).1).1 :=
  let ⟨_, hx⟩ := record_decodes hd rest
  C58_atime_overwritten host user hf hx ho h

/-! ### C59 -/

/-- C59: a refusal to open a plain file to be created is reported with the host's error.  (The full statement
is also about directories; see below.) -/
theorem C59_file_partial {fid : FID} {name : GoString} {perm : Perm} {mode : Mode} {s : State ω H} {f : File H} {w : ω} {e : GoString}
    (hf : s.files fid = some f) (hn : f.file = none) (hp : perm.toNat < 2 ^ 31)
    (ho : host.openFile (pathJoin f.fullName name) ([0, 1, 2, 0].getD (mode.toNat % 4) 0 + 0x40 + 0x200)
        (UInt32.ofNat (perm.toNat % 512)) s.world = (w, .error e)) :
    ∃ s', (ufs host user).Rcreate fid name perm mode s = .err s' e ∧ s'.files = s.files := by
  refine ⟨{ s with world := w }, ?_, rfl⟩
  show rcreate host fid name perm mode s = _
  unfold rcreate
  rw [hf]
  dsimp only
  rw [if_neg (by simp [hn])]
  have hd : ¬ perm &&& DMDIR ≠ 0 := by
    refine fun h => h ?_
    apply UInt32.toNat.inj
    rw [UInt32.toNat_and, show DMDIR.toNat = 2 ^ 31 by decide, nat_and_two_pow, Nat.testBit_lt_two_pow hp]
    rfl
  rw [if_neg hd, createFlags_spec, u32_and_511, ho]

/-- C59: a directory that was to be created and is not there afterwards is reported; and a success means
that there is something under that name. -/
theorem C59_directory_partial {fid : FID} {name : GoString} {perm : Perm} {mode : Mode} {s : State ω H} {f : File H}
    (hf : s.files fid = some f) (hn : f.file = none) (hp : 2 ^ 31 ≤ perm.toNat) :
    let r := host.lstat (pathJoin f.fullName name) (host.mkdir (pathJoin f.fullName name) (UInt32.ofNat (perm.toNat % 512)) s.world).1
    (∀ e, r.2 = .error e →
      ∃ s' e', (ufs host user).Rcreate fid name perm mode s = .err s' e' ∧ s'.files = s.files) ∧
    (∀ s' q, (ufs host user).Rcreate fid name perm mode s = .ok s' q →
      ∃ st, r.2 = .ok st ∧ q = (fileInfoToQID st, 8000) ∧ s'.world = r.1) := by
  intro r
  have hd : perm &&& DMDIR ≠ 0 := by
    intro h0
    have := congrArg UInt32.toNat h0
    rw [UInt32.toNat_and, show DMDIR.toNat = 2 ^ 31 by decide, nat_and_two_pow] at this
    have hlt := perm.toNat_lt
    have : perm.toNat.testBit 31 = true := by
      rw [Nat.testBit_eq_decide_div_mod_eq]
      simp
      omega
    simp_all
  have hr : (ufs host user).Rcreate fid name perm mode s = rcreate host fid name perm mode s := rfl
  rw [hr]
  unfold rcreate
  rw [hf]
  dsimp only
  rw [if_neg (by simp [hn]), if_pos hd, u32_and_511]
  generalize hl : host.lstat (pathJoin f.fullName name) (host.mkdir (pathJoin f.fullName name) (UInt32.ofNat (perm.toNat % 512)) s.world).1 = x
  have hr' : r = x := hl
  rw [hr']
  obtain ⟨w, x⟩ := x
  constructor
  · intro e he
    dsimp only at he
    rw [he]
    exact ⟨_, _, rfl, rfl⟩
  · intro s' q h
    cases x with
    | error e => cases h
    | ok st => cases h; exact ⟨st, rfl, rfl, rfl⟩

end

/-! ### Examples and counterexamples -/

open Mem

def wdir : Dir := { Mode := 0xFFFFFFFF, Atime := 0xFFFFFFFF, Mtime := 0xFFFFFFFF, Length := 0xFFFFFFFFFFFFFFFF }

theorem mem_failsClean : FailsClean Mem.host := by
  have on : ∀ p f w, (onNode p f w).2 ≠ none → (onNode p f w).1 = w := by
    intro p f w
    unfold onNode
    split
    · exact fun _ => rfl
    · exact fun h => absurd rfl h
  refine ⟨fun p m w => on p _ w, ?_, ?_, fun p a m w => on p _ w⟩
  · intro p q w
    show (rename p q w).2 ≠ none → (rename p q w).1 = w
    unfold rename
    split
    · exact fun _ => rfl
    · exact fun h => absurd rfl h
  · intro p n w
    show (if n.toInt < 0 then (w, some (lit "invalid argument")) else onNode p _ w : World × Option GoString).2 ≠ none → 
      (if n.toInt < 0 then (w, some (lit "invalid argument")) else onNode p _ w : World × Option GoString).1 = w
    split
    · exact fun _ => rfl
    · exact on p _ w

/-- C56: nothing is asked, and the owner of the last change is ignored -/
example : ∃ s', rwstat host 1 (Spec.dir { wdir with Typ := 7, ModUser := [1] }) (runAll [attach0, walk1, open1] demo).2 = .ok s' () ∧
    Untouched { wdir with Typ := 7, ModUser := [1] } := by
  rw [rwstat_dir host (d := { wdir with Typ := 7, ModUser := [1] }) (by decide) rfl]
  exact ⟨_, rfl, by unfold Untouched; decide⟩

/-- C57 does not hold: the mode is changed although the wstat fails because of the owner -/
theorem C57_counterexample :
    ∃ s', rwstat host 1 (Spec.dir { wdir with Mode := 0o600, User := [114] }) (runAll [attach0, walk1] demo).2 =
        .err s' (lit "Permission denied") ∧
      ((runAll [attach0, walk1] demo).2.world.nodes 3).perm = 0o644 ∧ (s'.world.nodes 3).perm = 0o600 := by
  rw [rwstat_dir host (d := { wdir with Mode := 0o600, User := [114] }) (by decide) rfl]
  exact ⟨_, rfl, rfl, rfl⟩

/-- C57: a wstat that asks for one thing (a negative length), and fails -/
example : ∃ s', rwstat host 1 (Spec.dir { wdir with Length := 0x8000000000000000 }) (runAll [attach0, walk1] demo).2 =
      .err s' (lit "invalid argument") ∧ (asked { wdir with Length := 0x8000000000000000 }).count true = 1 := by
  rw [rwstat_dir host (d := { wdir with Length := 0x8000000000000000 }) (by decide) rfl]
  exact ⟨_, rfl, by decide⟩

theorem mem_keepsTimes : KeepsTimes Mem.host := by
  intro p a m w w1 st hst hok
  have hw : w = w1 := congrArg Prod.fst hst
  subst hw
  have hst : Mem.stat p w = .ok st := congrArg Prod.snd hst
  show Mem.stat p (onNode p (fun n => { n with atime := a, mtime := m }) w).1 = _
  unfold Mem.stat at hst
  unfold onNode
  cases hf : find p w with
  | none => rw [hf] at hst; cases hst
  | some i =>
    rw [hf] at hst
    cases hst
    dsimp only
    unfold Mem.stat
    have : find p (setNode i (fun n => { n with atime := a, mtime := m }) w) = some i := hf
    rw [this]
    simp [info, setNode]

/-- C58 does not hold: only the modification time is set, and the access time becomes 2³²-1 -/
theorem C58_counterexample :
    ∃ s', rwstat host 1 (Spec.dir { wdir with Mtime := 5 }) (runAll [attach0, walk1] demo).2 = .ok s' () ∧
      ((runAll [attach0, walk1] demo).2.world.nodes 3).atime = ⟨1000, 0⟩ ∧ (s'.world.nodes 3).atime = ⟨4294967295, 0⟩ := by
  rw [rwstat_dir host (d := { wdir with Mtime := 5 }) (by decide) rfl]
  exact ⟨_, rfl, rfl, rfl⟩

/-- C58: only the access time is set -/
example : ∃ s', rwstat host 1 (Spec.dir { wdir with Atime := 5 }) (runAll [attach0, walk1] demo).2 = .ok s' () ∧
      (s'.world.nodes 3).atime = ⟨5, 0⟩ ∧ (s'.world.nodes 3).mtime = ⟨1000, 0⟩ ∧ OnlyAtime { wdir with Atime := 5 } := by
  rw [rwstat_dir host (d := { wdir with Atime := 5 }) (by decide) rfl]
  exact ⟨_, rfl, rfl, rfl, by unfold OnlyAtime; decide⟩

/-- C59 does not hold: the host refuses to make "/x/d", which is there already, and the client is told of
success -/
theorem C59_counterexample :
    (Mem.host.mkdir [47, 120, 47, 100] 0o755 (runAll [attach0] demo).2.world).2 = some (lit "file exists") ∧
    (runAll [attach0, .create { OFID := 0, Name := [100], CreatePerm := 0x80000000 + 0o755, Omode := 0 }] demo).1.getLast? =
      some (some (.ok (.create { OQID := { Typ := 128, Version := 1000000, Path := 2 }, IOUnit := 8000 }))) := ⟨rfl, rfl⟩

/-- C59: creating a plain file over a directory is refused -/
example : (runAll [attach0, .create { OFID := 0, Name := [100], CreatePerm := 0o644, Omode := 1 }] demo).1.getLast? =
    some (some (.error (lit "is a directory"))) := rfl

end Ninep.Ufs
