import Verif.Props.Means
import Verif.Props.UfsWstat

set_option linter.unusedSimpArgs false
set_option linter.unusedVariables false

/-
Fids and renames (C86): how long a fid stands for the same file.
-/

namespace Ninep.Ufs
open Spec

section
variable {ω H : Type} (host : Host ω H) (user : GoString) {ν : Type}

/-! ### The world after a request -/

theorem safe_run {α : Type} {P : HCall H → Prop} {Q : α → Prop} {R : ω → ω → Prop} (rf : ∀ w, R w w)
    (tr : ∀ {a b c}, R a b → R b c → R a c) (hR : ∀ c w, P c → R w (host.exec c w).1) {p : Prog H α} {prev : Option (Ev H)}
    (hp : p.Safe (fun _ c => P c) Q prev) {w w' : ω} {a : α} (h : p.run host w = some (w', a)) : R w w' := by
  induction p generalizing w prev with
  | ret x => cases h; exact rf _
  | panic => cases h
  | call c k ih => exact tr (hR c w hp.1) (ih _ (hp.2 _) h)

theorem toRes_state {α : Type} {r : Option (ω × Obj H × Except GoString α)} {s : State ω H} (h : (toRes r).state? = some s) :
    ∃ o x, r = some (s.world, o, x) := by
  cases r with
  | none => cases h
  | some r =>
    obtain ⟨w, o, x⟩ := r
    cases x <;> (cases h; exact ⟨_, _, rfl⟩)

/-- whatever the host calls that a message stands for do to the world, the message does -/
theorem call_world {R : ω → ω → Prop} (rf : ∀ w, R w w) (tr : ∀ {a b c}, R a b → R b c → R a c) {m : TMsg} {s s' : State ω H}
    (hR : ∀ c w, MayCall s.rootPath s.files m c → R w (host.exec c w).1)
    (h : (call (ufs host user) m s).state? = some s') : R s.world s'.world := by
  cases m
  all_goals simp only [call, state?_mapRes, ufs] at h
  case version p =>
    unfold rversion at h
    split at h <;> (cases h; exact rf _)
  case flush p => cases h; exact rf _
  case attach p =>
    rw [run_attach] at h
    obtain ⟨o, x, h⟩ := toRes_state h
    exact safe_run host rf tr hR (means_attach (o := s.obj) none p) h
  case walk p =>
    rw [run_walk] at h
    obtain ⟨o, x, h⟩ := toRes_state h
    exact safe_run host rf tr hR (means_walk (o := s.obj) none p) h
  case open_ p =>
    rw [run_open] at h
    obtain ⟨o, x, h⟩ := toRes_state h
    exact safe_run host rf tr hR (means_open (o := s.obj) none p) h
  case create p =>
    rw [run_create] at h
    obtain ⟨o, x, h⟩ := toRes_state h
    exact safe_run host rf tr hR (means_create (o := s.obj) none p) h
  case stat p =>
    rw [run_stat] at h
    obtain ⟨o, x, h⟩ := toRes_state h
    exact safe_run host rf tr hR (means_stat user (o := s.obj) none p) h
  case wstat p =>
    rw [run_wstat] at h
    obtain ⟨o, x, h⟩ := toRes_state h
    exact safe_run host rf tr hR (means_wstat (o := s.obj) none p) h
  case clunk p =>
    rw [run_clunk] at h
    obtain ⟨o, x, h⟩ := toRes_state h
    exact safe_run host rf tr hR (means_clunk (o := s.obj) none p) h
  case remove p =>
    rw [run_remove] at h
    obtain ⟨o, x, h⟩ := toRes_state h
    exact safe_run host rf tr hR (means_remove (o := s.obj) none p) h
  case read p =>
    rw [run_read] at h
    obtain ⟨o, x, h⟩ := toRes_state h
    exact safe_run host rf tr hR (means_read user (o := s.obj) none p) h
  case write p =>
    rw [run_write] at h
    obtain ⟨o, x, h⟩ := toRes_state h
    exact safe_run host rf tr hR (means_write (o := s.obj) none p) h

/-! ### Fids and files -/

/-- `r` is neither the path `p` nor a path below it -/
def Apart (r p : GoString) : Prop := r ≠ p ∧ ¬ (p ++ [47]) <+: r

/-- the calls that may move or take away what is at the path `r` -/
def Disturbs : HCall H → GoString → Prop
  | .rename p q, r => ¬ (Apart r p ∧ Apart r q)
  | .remove p, r => ¬ Apart r p
  | _, _ => False

/-- How a host (without links) treats names: a path stands for a node.  Only renaming and removing change what
is at a path, and only at this path and below; a file that is renamed is the same file; what fails changes
nothing. -/
structure NameView (host : Host ω H) (ν : Type) where
  node : GoString → ω → Option ν
  keeps : ∀ {c r w v}, ¬ Disturbs c r → node r w = some v → node r (host.exec c w).1 = some v
  rename_ok : ∀ {p q w w' v}, host.rename p q w = (w', none) → node p w = some v → node q w' = some v
  rename_fails : ∀ {p q w w' e r v}, host.rename p q w = (w', some e) → node r w = some v → node r w' = some v

/-- what is at the path `r` stays there -/
def StaysAt (N : NameView host ν) (v : ν) (r : GoString) (w w' : ω) : Prop := N.node r w = some v → N.node r w' = some v

/-- The request leaves the fid alone and what it stands for: it does not put something else in its place (attach,
walk, create), does not end it (clunk, remove), and if it removes or renames a file by another fid, then neither
that file nor the new name is on the path of this one. -/
def Spares (fid : FID) (s : State ω H) : TMsg → Prop
  | .attach p => p.SFID ≠ fid
  | .walk p => p.NewFID ≠ fid
  | .create p => p.OFID ≠ fid
  | .clunk p => p.OFID ≠ fid
  | .remove p => p.OFID ≠ fid ∧ ∀ f g, s.files fid = some f → s.files p.OFID = some g → Apart f.fullName g.fullName
  | .wstat p => p.OFID ≠ fid → ∀ f g dir, s.files fid = some f → s.files p.OFID = some g → Wants p dir → dir.Name ≠ [] →
      Apart f.fullName g.fullName ∧ Apart f.fullName (renameTo s.rootPath g.fullName dir.Name)
  | _ => True

/-- the fid stands for `v` -/
def StandsFor (N : NameView host ν) (v : ν) (fid : FID) (s : State ω H) : Prop :=
  ∃ f, s.files fid = some f ∧ N.node f.fullName s.world = some v

theorem andThen_inv2 {P Q : State ω H → Prop} {r : State ω H × Option GoString}
    {k : State ω H → State ω H × Option GoString} (h : P r.1) (hPQ : ∀ s, P s → Q s) (hk : ∀ s, P s → Q (k s).1) :
    Q (andThen r k).1 := by
  obtain ⟨s, e⟩ := r
  cases e with
  | none => exact hk s h
  | some e => exact hPQ _ h

/-- a wstat of the fid itself -/
theorem follows_wstat (N : NameView host ν) {v : ν} {fid : FID} {f : File H} {dir : Dir} {s : State ω H}
    (hf : s.files fid = some f) (hv : N.node f.fullName s.world = some v) :
    StandsFor host N v fid (wstatRun host fid f dir s).1 := by
  have kw : ∀ (c : HCall H) {r w}, (∀ r, ¬ Disturbs c r) → N.node r w = some v → N.node r (host.exec c w).1 = some v :=
    fun c r w hc h => N.keeps (hc r) h
  have here : ∀ s' : State ω H, s'.files fid = some f ∧ N.node f.fullName s'.world = some v → StandsFor host N v fid s' :=
    fun s' h => ⟨f, h.1, h.2⟩
  have later : ∀ (c : HCall H) (s' : State ω H), (∀ r, ¬ Disturbs c r) → StandsFor host N v fid s' →
      StandsFor host N v fid { s' with world := (host.exec c s'.world).1 } := by
    rintro c s' hc ⟨g, h1, h2⟩
    exact ⟨g, h1, kw c hc h2⟩
  unfold wstatRun
  refine andThen_inv2 (P := fun s' : State ω H => s'.files fid = some f ∧ N.node f.fullName s'.world = some v) ?_ here fun s1 h1 =>
    andThen_inv2 (P := fun s' : State ω H => s'.files fid = some f ∧ N.node f.fullName s'.world = some v) ?_ here fun s2 h2 =>
    andThen_inv ?_ fun s3 h3 => andThen_inv ?_ fun s4 h4 => andThen_inv ?_ fun s5 h5 => ?_
  · unfold wstatMode
    split
    · exact ⟨hf, kw (.chmod f.fullName (dir.Mode &&& 0o777)) (fun _ h => h) hv⟩
    · exact ⟨hf, hv⟩
  · unfold wstatUser
    split <;> exact h1
  · unfold wstatName
    split
    · dsimp only
      rw [isDirNow_world]
      have h3 := kw (.stat (renameTo s2.rootPath f.fullName dir.Name)) (fun _ h => h) h2.2
      dsimp only [Host.exec] at h3
      generalize (host.stat (renameTo s2.rootPath f.fullName dir.Name) s2.world).1 = w at h3
      split
      · exact ⟨f, h2.1, h3⟩
      · unfold onWorld
        dsimp only
        cases hr : host.rename f.fullName (renameTo s2.rootPath f.fullName dir.Name) w with
        | mk w' e =>
          cases e with
          | none => exact ⟨_, set_same _ _ _, N.rename_ok hr h3⟩
          | some e => exact ⟨f, h2.1, N.rename_fails hr h3⟩
    · exact here _ h2
  · unfold wstatLength
    split
    · exact later (.truncate _ _) _ (fun _ h => h) h3
    · exact h3
  · unfold wstatTimes
    split
    · dsimp only
      split
      · have h5 := later (.stat (wstatPath f dir s)) _ (fun _ h => h) h4
        dsimp only [Host.exec] at h5
        generalize host.stat (wstatPath f dir s) s4.world = r at h5
        obtain ⟨w, r⟩ := r
        cases r with
        | error e => exact h5
        | ok st => exact later (.chtimes _ _ _) _ (fun _ h => h) h5
      · exact later (.chtimes _ _ _) _ (fun _ h => h) h4
    · exact h4
  · unfold wstatSync
    split
    · split
      · exact h5
      · exact later (.sync _) _ (fun _ h => h) h5
    · exact h5

/-- what a request does to the path of a fid that it does not replace -/
theorem same_path {m : TMsg} {s s' : State ω H} {fid : FID} {f : File H} (hf : s.files fid = some f) (hm : Spares fid s m)
    (hw : ∀ p, m = .wstat p → p.OFID ≠ fid) (h : (call (ufs host user) m s).state? = some s') :
    ∃ f', s'.files fid = some f' ∧ f'.fullName = f.fullName := by
  by_cases hin : fid ∈ fids m
  · cases m with
    | version p => cases hin
    | flush p => cases hin
    | attach p => simp [fids] at hin; exact absurd hin.symm hm
    | create p => simp [fids] at hin; exact absurd hin.symm hm
    | clunk p => simp [fids] at hin; exact absurd hin.symm hm
    | remove p => simp [fids] at hin; exact absurd hin.symm hm.1
    | wstat p => simp [fids] at hin; exact absurd hin.symm (hw p rfl)
    | walk p =>
      have hm : p.NewFID ≠ fid := hm
      simp only [call, state?_mapRes, ufs] at h
      unfold rwalk at h
      have old : ∀ (s1 : State ω H) g, s1.files = s.files → (s1.set p.NewFID g).files fid = some f := by
        intro s1 g h1
        show (if fid = p.NewFID then some g else s1.files fid) = some f
        rw [if_neg (Ne.symm hm), h1]; exact hf
      split at h
      · cases h; exact ⟨f, hf, rfl⟩
      · split at h
        · split at h
          · cases h; exact ⟨f, hf, rfl⟩
          · cases h; exact ⟨f, old _ _ rfl, rfl⟩
        · split at h
          · split at h <;> (cases h; exact ⟨f, hf, rfl⟩)
          · dsimp only at h
            split at h
            · cases h; exact ⟨f, hf, rfl⟩
            · cases h; exact ⟨f, old _ _ rfl, rfl⟩
    | open_ p =>
      simp [fids] at hin
      subst hin
      simp only [call, state?_mapRes, ufs] at h
      unfold ropen at h
      rw [hf] at h
      dsimp only at h
      split at h <;> (cases h; exact ⟨_, set_same _ _ _, rfl⟩)
    | stat p =>
      simp only [call, state?_mapRes, ufs] at h
      unfold rstat at h
      split at h
      · cases h; exact ⟨f, hf, rfl⟩
      · split at h <;> (cases h; exact ⟨f, hf, rfl⟩)
    | read p =>
      simp [fids] at hin
      subst hin
      simp only [call, state?_mapRes, ufs] at h
      obtain ⟨w, rfl | ⟨x, rfl, -⟩⟩ := rread_state host user hf h
      · exact ⟨f, hf, rfl⟩
      · exact ⟨_, set_same _ _ _, rfl⟩
    | write p =>
      simp only [call, state?_mapRes, ufs] at h
      unfold rwrite at h
      split at h
      · cases h; exact ⟨f, hf, rfl⟩
      · split at h
        · cases h; exact ⟨f, hf, rfl⟩
        · split at h <;> (cases h; exact ⟨f, hf, rfl⟩)
  · exact ⟨f, ((call_frame host user h).2.2 fid hin).trans hf, rfl⟩

theorem follows_step (N : NameView host ν) {v : ν} {fid : FID} {m : TMsg} {s s' : State ω H} (hm : Spares fid s m)
    (hs : StandsFor host N v fid s) (h : (call (ufs host user) m s).state? = some s') : StandsFor host N v fid s' := by
  obtain ⟨f, hf, hv⟩ := hs
  by_cases hw : ∃ p, m = .wstat p ∧ p.OFID = fid
  · obtain ⟨p, rfl, rfl⟩ := hw
    simp only [call, state?_mapRes, ufs] at h
    rcases rwstat_cases host (b := p.B) hf with ⟨e, he⟩ | ⟨dir, t, b', hd, ⟨_, he⟩ | ⟨e, _, he⟩⟩
    · rw [he] at h
      cases h
      exact ⟨f, hf, hv⟩
    all_goals
      rw [he] at h
      cases h
      exact follows_wstat host N hf hv
  · have hw : ∀ p, m = .wstat p → p.OFID ≠ fid := fun p h1 h2 => hw ⟨p, h1, h2⟩
    obtain ⟨f', hf', hn⟩ := same_path host user hf hm hw h
    refine ⟨f', hf', ?_⟩
    rw [hn]
    refine call_world host user (R := StaysAt host N v f.fullName) (fun _ h => h) (fun h1 h2 h => h2 (h1 h)) ?_ h hv
    intro c w hc
    refine N.keeps ?_
    intro hd
    cases m <;> cases c <;> first | exact hd | exact hc | skip
    · obtain ⟨g, dir, h1, h2, -, h4, rfl, rfl⟩ := hc
      exact hd (hm (hw _ rfl) f g dir hf h1 h2 h4)
    · obtain ⟨g, h1, rfl⟩ := hc
      exact hd (hm.2 f g hf h1)

/-- **C86** (partial) A fid stands for the same file, whatever requests come, until it is clunked or removed or made
to stand for something else, also if the file is renamed by this fid.  The full statement lacks the condition
in `Spares` that no other fid removes or renames this file or a directory above it; see
`C86_counterexample`. -/
theorem C86_follows_partial (N : NameView host ν) {v : ν} {fid : FID} {s s' : State ω H} {h : List Event}
    (hh : Hist host user (Spares fid) (fun w w' => ∀ r, StaysAt host N v r w w') s h s')
    (hs : StandsFor host N v fid s) : StandsFor host N v fid s' := by
  refine Hist.invariant host user (I := StandsFor host N v fid) ?_ ?_ hh hs
  · rintro s w hw ⟨f, hf, hv⟩
    exact ⟨f, hf, hw _ hv⟩
  · exact fun s m s' hp hi hc => follows_step host user N hp hi hc

end

/-! ### Examples and counterexamples -/
open Mem

theorem lookup_filter {l : List (GoString × Nat)} {r : GoString} {P : GoString → Bool} (h : P r = true) :
    (l.filter fun x => P x.1).lookup r = l.lookup r := by
  induction l with
  | nil => rfl
  | cons x l ih =>
    obtain ⟨a, b⟩ := x
    rw [List.filter_cons]
    by_cases ha : r = a
    · subst ha
      simp [h, List.lookup]
    · have hb : (r == a) = false := by simpa using ha
      split
      · simp [List.lookup, hb, ih]
      · simp [List.lookup, hb, ih]

theorem lookup_filter_none {l : List (GoString × Nat)} {r : GoString} {P : GoString → Bool} (h : P r = false) :
    (l.filter fun x => P x.1).lookup r = none := by
  induction l with
  | nil => rfl
  | cons x l ih =>
    obtain ⟨a, b⟩ := x
    rw [List.filter_cons]
    split
    · rename_i ha
      have hb : (r == a) = false := by
        have : r ≠ a := fun e => by subst e; simp [h] at ha
        simpa using this
      simp [List.lookup, hb, ih]
    · exact ih

theorem lookup_append_some {l m : List (GoString × Nat)} {r : GoString} {v : Nat} (h : l.lookup r = some v) : (l ++ m).lookup r = some v := by
  rw [List.lookup_append, h]; rfl

theorem onHandle_names {α : Type} (h : Nat) (w : World) (bad : α) (f : Opened → World × α) (hf : ∀ o, (f o).1.names = w.names) :
    (onHandle h w bad f).1.names = w.names := by
  unfold onHandle
  split
  · split
    · exact hf _
    · rfl
  · rfl

theorem onNode_names (p : GoString) (f : Node → Node) (w : World) : (onNode p f w).1.names = w.names := by
  unfold onNode; split <;> rfl

/-- the names of the example host -/
def memNames : NameView Mem.host Nat where
  node := find
  keeps := by
    intro c r w v hd hv
    have same : ∀ w' : World, w'.names = w.names → find r w' = some v := by
      intro w' h; unfold find; rw [h]; exact hv
    cases c with
    | lstat p => exact hv
    | stat p => exact hv
    | openFile p f m =>
      show find r (Mem.openFile p f m w).1 = some v
      unfold Mem.openFile
      split
      · split
        · exact hv
        · refine same _ ?_
          show (if f / 512 % 2 = 1 then _ else w : World).names = _
          split <;> rfl
      · split
        · exact lookup_append_some hv
        · exact hv
    | mkdir p m =>
      show find r (Mem.mkdir p m w).1 = some v
      unfold Mem.mkdir
      split
      · exact hv
      · exact lookup_append_some hv
    | chmod p m => exact same _ (onNode_names _ _ _)
    | rename p q =>
      have hd : Apart r p ∧ Apart r q := Classical.not_not.1 hd
      show find r (Mem.rename p q w).1 = some v
      unfold Mem.rename
      split
      · exact hv
      · refine lookup_append_some ?_
        rw [lookup_filter (P := fun x => decide (x ≠ p ∧ x ≠ q)) (by simp [hd.1.1, hd.2.1])]
        exact hv
    | truncate p n =>
      refine same _ ?_
      show (if n.toInt < 0 then _ else _ : World × Option GoString).1.names = _
      split
      · rfl
      · exact onNode_names _ _ _
    | chtimes p a m => exact same _ (onNode_names _ _ _)
    | remove p =>
      have hd : Apart r p := Classical.not_not.1 hd
      show find r (Mem.remove p w).1 = some v
      unfold Mem.remove
      split
      · exact hv
      · show List.lookup r _ = _
        rw [lookup_filter (P := fun x => decide (x ≠ p)) (by simp [hd.1])]
        exact hv
    | close h => exact same _ (onHandle_names _ _ _ _ fun _ => rfl)
    | sync h => exact same _ (onHandle_names _ _ _ _ fun _ => rfl)
    | seek0 h => exact same _ (onHandle_names _ _ _ _ fun _ => rfl)
    | readdir1 h => exact same _ (onHandle_names _ _ _ _ fun o => by cases o.rest <;> rfl)
    | readAt h n off => exact same _ (onHandle_names _ _ _ _ fun o => by dsimp only; split <;> rfl)
    | writeAt h b off => exact same _ (onHandle_names _ _ _ _ fun o => by split <;> rfl)
  rename_ok := by
    intro p q w w' v h hv
    have h : Mem.rename p q w = (w', none) := h
    unfold Mem.rename at h
    split at h
    · cases h
    · rename_i i hi
      cases h
      rw [← hv]
      show List.lookup q (_ ++ _) = _
      rw [List.lookup_append, lookup_filter_none (P := fun x => decide (x ≠ p ∧ x ≠ q)) (by simp)]
      simp [hi, List.lookup]
  rename_fails := by
    intro p q w w' e r v h hv
    have h : Mem.rename p q w = (w', some e) := h
    unfold Mem.rename at h
    split at h
    · cases h; exact hv
    · cases h

/-- the hypotheses of C86: fid 1 stands for "/x/f" and renames it to "/x/g"; fid 2 is walked to "/x/d", which is then removed -/
example : ∃ h s', Hist host [103] (Spares 1) (fun w w' => ∀ r, StaysAt host memNames 3 r w w') (runAll [attach0, walk1] demo).2 h s' ∧
    h.length = 3 ∧ StandsFor host memNames 3 1 (runAll [attach0, walk1] demo).2 ∧
    (s'.files 1).map (·.fullName) = some [47, 120, 47, 103] := by
  refine ⟨_, _, .ok (m := .wstat { OFID := 1, B := Spec.dir (renameDir [103]) }) ?_ rfl
    (.ok (m := .walk { SFID := 0, NewFID := 2, Paths := [[100]] }) ?_ rfl
    (.ok (m := .remove { OFID := 2 }) ?_ rfl (.nil _))), rfl, ⟨_, rfl, rfl⟩, rfl⟩
  · exact fun h => absurd rfl h
  · show (2 : FID) ≠ 1
    decide
  · refine ⟨by decide, ?_⟩
    intro f g hf hg
    cases hf
    cases hg
    unfold Apart
    decide

/-- **C86** does not hold: fid 2 is a clone of fid 1, which stands for "/x/f".  After fid 1 has renamed the file to "/x/g", fid 2
stands for nothing; and after a new file "/x/f" has been made, fid 2 stands for that one, and a remove of fid 2 removes it. -/
theorem C86_counterexample :
    let s := (runAll [attach0, walk1, .walk { SFID := 1, NewFID := 2, Paths := [] }] demo).2
    let s1 := (runAll [.wstat { OFID := 1, B := Spec.dir (renameDir [103]) }] s).2
    let s2 := (runAll [.create { OFID := 0, Name := [102], CreatePerm := 0o644, Omode := 1 }] s1).2
    StandsFor host memNames 3 2 s ∧ StandsFor host memNames 3 1 s1 ∧ memNames.node [47, 120, 47, 102] s1.world = none ∧
    (s1.files 2).map (·.fullName) = some [47, 120, 47, 102] ∧
    (∃ v, v ≠ 3 ∧ StandsFor host memNames v 2 s2) ∧
    (runAll [.remove { OFID := 2 }] s2).1 = [some (.ok (.remove {}))] ∧
    memNames.node [47, 120, 47, 102] (runAll [.remove { OFID := 2 }] s2).2.world = none :=
  ⟨⟨_, rfl, rfl⟩, ⟨_, rfl, rfl⟩, rfl, rfl, ⟨5, by decide, _, rfl, rfl⟩, rfl, rfl⟩

end Ninep.Ufs
