import Verif.Lemmas.Ufs
import Verif.Ufs.Mem
import Verif.Props.Codec

set_option linter.unusedSimpArgs false
set_option linter.unusedVariables false

/-
Properties of the file server: version, attach, fid table, walk, open mode, panics, stat.
-/

namespace Ninep.Ufs
open Spec

section
variable {ω H : Type} (host : Host ω H) (user : GoString)

/-! ### C37 -/

/-- C37: exactly "9P2000" is accepted; size and version are echoed. -/
theorem C37_version (msize : MaxSize) (v : GoString) (s : State ω H) :
    (v = [57, 80, 50, 48, 48, 48] →
      ∃ s', (ufs host user).Rversion msize v s = .ok s' (msize, v) ∧ s'.files = s.files ∧ s'.world = s.world) ∧
    (v ≠ [57, 80, 50, 48, 48, 48] → ∃ e, (ufs host user).Rversion msize v s = .err s e) := by
  have hl : lit "9P2000" = [57, 80, 50, 48, 48, 48] := by decide
  constructor
  · intro hv
    refine ⟨{ s with Versioned := true }, ?_, rfl, rfl⟩
    show rversion msize v s = _
    unfold rversion
    rw [hl, if_neg (by simp [hv])]
  · intro hv
    refine ⟨v ++ lit " not supported; only 9P2000", ?_⟩
    show rversion msize v s = _
    unfold rversion
    rw [hl, if_pos hv]

/-! ### C38 -/

theorem attach_path (root aname : GoString) :
    pathJoin root (pathJoin [slash] aname) = (rootOf root).under (place [] (elems aname)) := by
  rw [pathJoin_slash, rootOf_join_abs root (noRoot_proper _)]

/-- C38: an attach looks at the host only below the root: on two hosts that agree there it does the same,
and the fid it makes lies there. -/
theorem C38_attach_below (host' : Host ω H) {s : State ω H}
    (hagree : ∀ p w, Below (rootOf s.rootPath) p → host.stat p w = host'.stat p w)
    (fid afid : FID) (uname aname : GoString) :
    rattach host fid afid uname aname s = rattach host' fid afid uname aname s ∧
    (∀ s' q, rattach host fid afid uname aname s = .ok s' q →
      ∃ f, s'.files fid = some f ∧ Below (rootOf s.rootPath) f.fullName ∧ f.qid = q ∧ f.file = none) ∧
    (afid ≠ 0xFFFFFFFF → ∃ e, rattach host fid afid uname aname s = .err s e) := by
  have hb : Below (rootOf s.rootPath) (pathJoin s.rootPath (pathJoin [slash] aname)) :=
    ⟨place [] (elems aname), noRoot_proper _, attach_path _ aname⟩
  refine ⟨?_, ?_, ?_⟩
  · unfold rattach
    dsimp only
    rw [hagree _ _ hb]
  · intro s' q h
    unfold rattach at h
    split at h
    · cases h
    · dsimp only at h
      split at h
      · cases h
      · simp only [NRes.ok.injEq] at h
        obtain ⟨rfl, rfl⟩ := h
        exact ⟨_, set_same _ _ _, hb, rfl, rfl⟩
  · intro ha
    unfold rattach
    rw [if_pos (show afid ≠ NOFID from ha)]
    exact ⟨_, rfl⟩

/-- C38: the place of the attached file is the root, absolute or relative, followed by the elements of the
attach name, ".." at the top staying there. -/
theorem C38_attach_place {s s' : State ω H} {fid afid : FID}
    {uname aname : GoString} {q : QID} (h : rattach host fid afid uname aname s = .ok s' q) :
    ∃ f st, s'.files fid = some f ∧ (host.stat f.fullName s.world).2 = .ok st ∧ q = fileInfoToQID st ∧
      f.fullName = (rootOf s.rootPath).under (place [] (elems aname)) := by
  unfold rattach at h
  split at h
  · cases h
  · dsimp only at h
    split at h
    · cases h
    · rename_i w st hst
      simp only [NRes.ok.injEq] at h
      obtain ⟨rfl, rfl⟩ := h
      exact ⟨_, st, set_same _ _ _, by rw [hst], rfl, attach_path _ aname⟩

/-! ### C41, C42, C43 -/

/-- C41: a request on a fid that is not in use is refused and changes nothing at all. -/
theorem C41_unknown_fid {m : TMsg} {fid : FID} (hm : workFid m = some fid) {s : State ω H}
    (h : s.files fid = none) : ∃ e, call (ufs host user) m s = .err s e := by
  cases m with
  | version p => cases hm
  | attach p => cases hm
  | flush p => cases hm
  | walk p =>
    simp only [workFid, Option.some.injEq] at hm; subst hm
    refine ⟨lit "does not exist", ?_⟩
    simp only [call, ufs]; unfold rwalk; rw [h]; rfl
  | open_ p =>
    simp only [workFid, Option.some.injEq] at hm; subst hm
    refine ⟨lit "does not exist", ?_⟩
    simp only [call, ufs]; unfold ropen; rw [h]; rfl
  | create p =>
    simp only [workFid, Option.some.injEq] at hm; subst hm
    refine ⟨lit "does not exist", ?_⟩
    simp only [call, ufs]; unfold rcreate; rw [h]; rfl
  | stat p =>
    simp only [workFid, Option.some.injEq] at hm; subst hm
    refine ⟨lit "does not exist", ?_⟩
    simp only [call, ufs]; unfold rstat; rw [h]; rfl
  | wstat p =>
    simp only [workFid, Option.some.injEq] at hm; subst hm
    refine ⟨lit "does not exist", ?_⟩
    simp only [call, ufs]; unfold rwstat; rw [h]; rfl
  | clunk p =>
    simp only [workFid, Option.some.injEq] at hm; subst hm
    refine ⟨lit "does not exist", ?_⟩
    simp only [call, ufs]; unfold rclunk; rw [clunk_none host h]; rfl
  | remove p =>
    simp only [workFid, Option.some.injEq] at hm; subst hm
    refine ⟨lit "does not exist", ?_⟩
    simp only [call, ufs]; unfold rremove; rw [clunk_none host h]; rfl
  | read p =>
    simp only [workFid, Option.some.injEq] at hm; subst hm
    refine ⟨lit "does not exist", ?_⟩
    simp only [call, ufs]; unfold rread; rw [h]; rfl
  | write p =>
    simp only [workFid, Option.some.injEq] at hm; subst hm
    refine ⟨lit "does not exist", ?_⟩
    simp only [call, ufs]; unfold rwrite; rw [h]; rfl

/-- C42: a request changes the table entries of the fids it names only, and never the root path or the
I/O unit of the server. -/
theorem C42_frame {m : TMsg} {s s' : State ω H} (h : (call (ufs host user) m s).state? = some s') :
    (∀ i, i ∉ fids m → s'.files i = s.files i) ∧ s'.rootPath = s.rootPath ∧ s'.IOunit = s.IOunit :=
  ⟨(call_frame host user h).2.2, (call_frame host user h).1, (call_frame host user h).2.1⟩

/-- C43: clunk and remove of a fid in use always free it; the open file is closed; remove then removes
exactly the path of the fid, after closing, and reports the host's verdict. -/
theorem C43_clunk_remove {fid : FID} {s : State ω H} {f : File H} (h : s.files fid = some f) :
    let w := closeIn host f.file s.world
    (∃ s', (ufs host user).Rclunk fid s = .ok s' () ∧ s'.files fid = none ∧ s'.world = w) ∧
    (∃ s', s'.files fid = none ∧ s'.world = (host.remove f.fullName w).1 ∧
      (ufs host user).Rremove fid s =
        match (host.remove f.fullName w).2 with | none => .ok s' () | some e => .err s' e) := by
  obtain ⟨w, hc, hw⟩ := clunk_some host h
  dsimp only
  rw [← hw]
  constructor
  · refine ⟨{ s.del fid with world := w }, ?_, by simp, rfl⟩
    show rclunk host fid s = _
    unfold rclunk
    rw [hc]
  · refine ⟨{ s.del fid with world := (host.remove f.fullName w).1 }, by simp, rfl, ?_⟩
    show rremove host fid s = _
    unfold rremove
    rw [hc]
    dsimp only
    generalize host.remove f.fullName w = r
    obtain ⟨w', e⟩ := r
    cases e <;> rfl

/-! ### C44, C45 -/

/-- the path reached by the first `k` names -/
def reach (p : GoString) (names : List GoString) (k : Nat) : GoString := (names.take k).foldl pathJoin p

/-- the world after `k` of the names have been looked up, one after the other -/
def walked (p : GoString) (names : List GoString) (w : ω) : Nat → ω
  | 0 => w
  | k + 1 => (host.lstat (reach p names (k + 1)) (walked p names w k)).1

theorem walked_cons (p n : GoString) (names : List GoString) (w : ω) (k : Nat) :
    walked host p (n :: names) w (k + 1) = walked host (pathJoin p n) names (host.lstat (pathJoin p n) w).1 k := by
  induction k with
  | zero => rfl
  | succ k ih =>
    show (host.lstat (reach p (n :: names) (k + 1 + 1)) (walked host p (n :: names) w (k + 1))).1 = _
    rw [ih]; rfl

theorem walked_quiet (hq : host.Quiet) (p : GoString) (names : List GoString) (w : ω) (k : Nat) :
    walked host p names w k = w := by
  induction k with
  | zero => rfl
  | succ k ih => exact (hq.lstat _ _).trans ih

theorem walkLoop_spec (p : GoString) (w : ω) (names : List GoString) :
    (walkLoop host p w names).2.1.length ≤ names.length ∧
    (∀ (i : Nat) (q : QID), (walkLoop host p w names).2.1[i]? = some q →
      ∃ st, (host.lstat (reach p names (i + 1)) (walked host p names w i)).2 = .ok st ∧ q = fileInfoToQID st) ∧
    ((walkLoop host p w names).2.2 = none →
      (walkLoop host p w names).2.1.length < names.length ∧
      (walkLoop host p w names).1 = walked host p names w ((walkLoop host p w names).2.1.length + 1) ∧
      ∃ e, (host.lstat (reach p names ((walkLoop host p w names).2.1.length + 1))
        (walked host p names w (walkLoop host p w names).2.1.length)).2 = .error e) ∧
    (∀ p', (walkLoop host p w names).2.2 = some p' →
      (walkLoop host p w names).2.1.length = names.length ∧ p' = reach p names names.length ∧
      (walkLoop host p w names).1 = walked host p names w names.length) := by
  induction names generalizing p w with
  | nil =>
    refine ⟨Nat.le_refl _, ?_, ?_, ?_⟩
    · intro i q h; simp [walkLoop] at h
    · intro h; simp [walkLoop] at h
    · intro p' h
      simp only [walkLoop, Option.some.injEq] at h
      exact ⟨rfl, h.symm, rfl⟩
  | cons n ns ih =>
    have hw := walked_cons host p n ns w
    unfold walkLoop
    dsimp only
    cases hl : host.lstat (pathJoin p n) w with
    | mk w' r =>
    rw [hl] at hw
    cases r with
    | error e =>
      refine ⟨by simp, by simp, ?_, by simp⟩
      intro _
      exact ⟨by simp, (hw 0).symm, e, (congrArg Prod.snd hl :)⟩
    | ok st =>
      obtain ⟨h1, h2, h3, h4⟩ := ih (pathJoin p n) w'
      refine ⟨by simpa using h1, ?_, ?_, ?_⟩
      · intro i q hq
        cases i with
        | zero =>
          simp only [List.getElem?_cons_zero, Option.some.injEq] at hq
          exact ⟨st, (congrArg Prod.snd hl :), hq.symm⟩
        | succ i =>
          simp only [List.getElem?_cons_succ] at hq
          rw [hw]
          exact h2 i q hq
      · intro hn
        obtain ⟨a, b, e, c⟩ := h3 hn
        refine ⟨by simpa using a, ?_, e, ?_⟩
        · rw [List.length_cons, hw]; exact b
        · rw [List.length_cons, hw]; exact c
      · intro p' hp
        obtain ⟨a, b, c⟩ := h4 p' hp
        refine ⟨by simpa using a, b, ?_⟩
        rw [List.length_cons, hw]; exact c

/-- C44: walking a non-empty list of names.  `k` is the number of names found before the first one that
the host does not know when it is asked.  The names are looked up one after the other, `walked … i` is the
world when the name number `i` is looked up; it is the world at the start if looking up changes nothing. -/
theorem C44_walk {fid newfid : FID} {names : List GoString} (hne : names ≠ []) {s : State ω H} {f : File H}
    (hf : s.files fid = some f) :
    ∃ (k : Nat) (qs : List QID), k ≤ names.length ∧ qs.length = k ∧
      (∀ i q, qs[i]? = some q → ∃ st,
        (host.lstat (reach f.fullName names (i + 1)) (walked host f.fullName names s.world i)).2 = .ok st ∧
        q = fileInfoToQID st) ∧
      (k < names.length → ∃ e,
        (host.lstat (reach f.fullName names (k + 1)) (walked host f.fullName names s.world k)).2 = .error e) ∧
      (k = 0 → ∃ e, (ufs host user).Rwalk fid newfid names s =
        .err { s with world := walked host f.fullName names s.world 1 } e) ∧
      (0 < k → k < names.length → (ufs host user).Rwalk fid newfid names s =
        .ok { s with world := walked host f.fullName names s.world (k + 1) } qs) ∧
      (k = names.length → newfid = fid ∨ s.files newfid = none →
        ∃ s' f', (ufs host user).Rwalk fid newfid names s = .ok s' qs ∧ s'.files newfid = some f' ∧
          f'.fullName = reach f.fullName names k ∧ qs.getLast? = some f'.qid ∧ f'.file = none ∧
          s'.world = walked host f.fullName names s.world k) := by
  obtain ⟨h1, h2, h3, h4⟩ := walkLoop_spec host f.fullName s.world names
  refine ⟨(walkLoop host f.fullName s.world names).2.1.length, (walkLoop host f.fullName s.world names).2.1, h1, rfl, h2, ?_, ?_, ?_, ?_⟩
  · intro hk
    cases hr : (walkLoop host f.fullName s.world names).2.2 with
    | none => exact (h3 hr).2.2
    | some p' => have := (h4 p' hr).1; omega
  all_goals
    show _ → _
    change _ → _
    simp only [ufs]
    unfold rwalk
    rw [hf]
    dsimp only
    rw [if_neg hne]
    revert h1 h2 h3 h4
    generalize walkLoop host f.fullName s.world names = r
    obtain ⟨w, q, r⟩ := r
    intro h1 h2 h3 h4 hk
  · have hq : q = [] := List.eq_nil_of_length_eq_zero hk
    cases r with
    | none =>
      have hw := (h3 rfl).2.1
      dsimp only at hw ⊢
      rw [if_pos hq]
      rw [hk] at hw
      exact ⟨_, by rw [hw]⟩
    | some p' =>
      have := (h4 p' rfl).1
      dsimp only at this hk
      exact absurd (List.eq_nil_of_length_eq_zero (by omega)) hne
  · intro hlt
    cases r with
    | none =>
      have hw := (h3 rfl).2.1
      dsimp only at hw ⊢
      rw [if_neg (by rintro rfl; simp at hk), hw]
    | some p' => have := (h4 p' rfl).1; dsimp only at this hlt; omega
  · intro hnew
    cases r with
    | none => have := (h3 rfl).1; dsimp only at this hk; omega
    | some p' =>
      dsimp only
      rw [if_neg (by
        rintro ⟨a, b⟩
        rcases hnew with h | h
        · exact a h.symm
        · rw [h] at b; cases b)]
      obtain ⟨_, hp, hw⟩ := h4 p' rfl
      refine ⟨_, _, rfl, set_same _ _ _, ?_, ?_, rfl, ?_⟩
      · dsimp only at hk ⊢
        rw [hk]; exact hp
      · dsimp only at hk ⊢
        cases hq : q with
        | nil => rw [hq] at hk; exact absurd (List.eq_nil_of_length_eq_zero hk.symm) hne
        | cons a l => simp [List.getLastD_cons, List.getLast?_cons]
      · dsimp only at hk hw ⊢
        rw [hk]; exact hw

/-- C44: a clone is a walk of no names: no QIDs, the new fid stands for the same file. -/
theorem C44_clone {fid newfid : FID} {s : State ω H} {f : File H}
    (hf : s.files fid = some f) (hn : s.files newfid = none) :
    ∃ s' f', (ufs host user).Rwalk fid newfid [] s = .ok s' [] ∧ s'.files newfid = some f' ∧
      f'.fullName = f.fullName ∧ f'.qid = f.qid ∧ s'.world = s.world := by
  refine ⟨s.set newfid f, f, ?_, set_same _ _ _, rfl, rfl, rfl⟩
  simp only [ufs]
  unfold rwalk
  rw [hf]
  dsimp only
  rw [if_pos rfl, hn]

/-- C45: a walk to a new fid that is in use and differs from the source fid never succeeds completely,
and never changes the table; nor the world, if looking up names does not. -/
theorem C45_no_steal {fid newfid : FID} {names : List GoString} {s : State ω H}
    (hne : newfid ≠ fid) (hu : (s.files newfid).isSome) :
    ∃ r w, (ufs host user).Rwalk fid newfid names s = r ∧ r.state? = some { s with world := w } ∧
      (host.Quiet → w = s.world) ∧
      (∀ q, r.reply? = some (.ok q) → q.length < names.length) := by
  simp only [ufs]
  unfold rwalk
  split
  · exact ⟨_, _, rfl, rfl, fun _ => rfl, by simp [NRes.reply?]⟩
  · rename_i f hf
    split
    · split
      · exact ⟨_, _, rfl, rfl, fun _ => rfl, by simp [NRes.reply?]⟩
      · rename_i h; rw [h] at hu; cases hu
    · obtain ⟨_, _, h3, h4⟩ := walkLoop_spec host f.fullName s.world names
      revert h3 h4
      generalize walkLoop host f.fullName s.world names = r
      obtain ⟨w, q, r⟩ := r
      intro h3 h4
      cases r with
      | none =>
        obtain ⟨hl, hw, _⟩ := h3 rfl
        have hw : host.Quiet → w = s.world := fun hq => hw.trans (walked_quiet host hq _ _ _ _)
        dsimp only at hl ⊢
        split
        · exact ⟨_, w, rfl, rfl, hw, by simp [NRes.reply?]⟩
        · refine ⟨_, w, rfl, rfl, hw, ?_⟩
          intro q' hq
          simp only [NRes.reply?, Option.some.injEq, Except.ok.injEq] at hq
          subst hq
          exact hl
      | some p =>
        obtain ⟨_, _, hw⟩ := h4 p rfl
        have hw : host.Quiet → w = s.world := fun hq => hw.trans (walked_quiet host hq _ _ _ _)
        dsimp only
        rw [if_pos ⟨Ne.symm hne, hu⟩]
        exact ⟨_, w, rfl, rfl, hw, by simp [NRes.reply?]⟩

/-- a clone to any fid in use, also to the source fid itself, fails -/
theorem C45_clone_in_use {fid newfid : FID} {s : State ω H} (hu : (s.files newfid).isSome) :
    ∃ e, (ufs host user).Rwalk fid newfid [] s = .err s e := by
  simp only [ufs]
  unfold rwalk
  split
  · exact ⟨_, rfl⟩
  · rw [if_pos rfl]
    split
    · exact ⟨_, rfl⟩
    · rename_i h; rw [h] at hu; cases hu

/-! ### C46 -/

/-- A history of answered requests.  Between two requests other processes may change the world, as far as
`R` allows it.  `P` is a condition on the requests (and the states in which they arrive). -/
inductive Hist (P : State ω H → TMsg → Prop) (R : ω → ω → Prop) : State ω H → List Event → State ω H → Prop
  | nil (s) : Hist P R s [] s
  | ok {s m s1 r h s'} : P s m → call (ufs host user) m s = .ok s1 r → Hist P R s1 h s' → Hist P R s (⟨m, .ok r⟩ :: h) s'
  | err {s m s1 e h s'} : P s m → call (ufs host user) m s = .err s1 e → Hist P R s1 h s' → Hist P R s (⟨m, .error e⟩ :: h) s'
  | other {s h s'} (w : ω) : R s.world w → Hist P R { s with world := w } h s' → Hist P R s h s'

/-- the requests of a history are arbitrary -/
abbrev AnyReq : State ω H → TMsg → Prop := fun _ _ => True
/-- other processes may change the world in any way -/
abbrev AnyWorld : ω → ω → Prop := fun _ _ => True

theorem Hist.invariant {P : State ω H → TMsg → Prop} {R : ω → ω → Prop} {I : State ω H → Prop}
    (hw : ∀ s w, R s.world w → I s → I { s with world := w })
    (hstep : ∀ s m s', P s m → I s → (call (ufs host user) m s).state? = some s' → I s')
    {s s' : State ω H} {h : List Event} (hh : Hist host user P R s h s') : I s → I s' := by
  induction hh with
  | nil s => exact id
  | ok hp hc _ ih => exact fun hi => ih (hstep _ _ _ hp hi (by rw [hc]; rfl))
  | err hp hc _ ih => exact fun hi => ih (hstep _ _ _ hp hi (by rw [hc]; rfl))
  | other w hr _ ih => exact fun hi => ih (hw _ w hr hi)

/-- requests other than attach, walk, clunk and remove -/
def Quiet : TMsg → Prop
  | .attach _ => False
  | .walk _ => False
  | .clunk _ => False
  | .remove _ => False
  | _ => True

/-- requests other than attach, walk, clunk and remove neither free a fid nor put one into use -/
theorem call_keeps {m : TMsg} {s s' : State ω H} (h : (call (ufs host user) m s).state? = some s')
    (hm : Quiet m)
    (i : FID) : (s'.files i).isSome = (s.files i).isSome := by
  have fr := call_frame host user h
  cases m with
  | attach p => cases hm
  | walk p => cases hm
  | clunk p => cases hm
  | remove p => cases hm
  | version p => rw [fr.2.2 i (by simp [fids])]
  | flush p => rw [fr.2.2 i (by simp [fids])]
  | open_ p =>
    by_cases hi : i = p.OFID
    · subst hi
      simp only [call, state?_mapRes, ufs] at h
      unfold ropen at h
      split at h
      · simp only [NRes.state?, Option.some.injEq] at h
        subst h; rfl
      · rename_i hf
        rw [hf]
        split at h <;>
        · simp only [NRes.state?, Option.some.injEq] at h
          subst h; simp
    · rw [fr.2.2 i (by simpa [fids] using hi)]
  | create p =>
    by_cases hi : i = p.OFID
    · subst hi
      simp only [call, state?_mapRes, ufs] at h
      unfold rcreate at h
      split at h
      · simp only [NRes.state?, Option.some.injEq] at h
        subst h; rfl
      · rename_i hf
        rw [hf]
        split at h
        · simp only [NRes.state?, Option.some.injEq] at h
          subst h; rw [hf]
        · dsimp only at h
          split at h
          · split at h
            · simp only [NRes.state?, Option.some.injEq] at h
              subst h; simp [hf]
            · simp only [NRes.state?, Option.some.injEq] at h
              subst h; simp
          · split at h
            · simp only [NRes.state?, Option.some.injEq] at h
              subst h; simp [hf]
            · split at h
              · simp only [NRes.state?, Option.some.injEq] at h
                subst h; simp [hf]
              · simp only [NRes.state?, Option.some.injEq] at h
                subst h; simp
    · rw [fr.2.2 i (by simpa [fids] using hi)]
  | stat p =>
    simp only [call, state?_mapRes, ufs] at h
    unfold rstat at h
    split at h
    · simp only [NRes.state?, Option.some.injEq] at h
      subst h; rfl
    · split at h <;>
      · simp only [NRes.state?, Option.some.injEq] at h
        subst h; rfl
  | wstat p =>
    by_cases hi : i = p.OFID
    · subst hi
      simp only [call, state?_mapRes, ufs] at h
      cases hf : s.files p.OFID with
      | none =>
        rw [rwstat_none host hf] at h
        simp only [NRes.state?, Option.some.injEq] at h
        subst h; rw [hf]
      | some f =>
        rcases rwstat_cases host (b := p.B) hf with ⟨e, he⟩ | ⟨dir, t, b', _, ⟨_, he⟩ | ⟨e, _, he⟩⟩
        · rw [he] at h
          simp only [NRes.state?, Option.some.injEq] at h
          subst h; rw [hf]
        all_goals
          rw [he] at h
          simp only [NRes.state?, Option.some.injEq] at h
          subst h
          rcases (wstatRun_renamed host (dir := dir) hf).2 with h | h <;> rw [h] <;> rfl
    · rw [fr.2.2 i (by simpa [fids] using hi)]
  | read p =>
    by_cases hi : i = p.OFID
    · subst hi
      simp only [call, state?_mapRes, ufs] at h
      cases hf : s.files p.OFID with
      | none =>
        unfold rread at h
        simp only [hf, NRes.state?, Option.some.injEq] at h
        subst h; rw [hf]
      | some f =>
        obtain ⟨w, rfl | ⟨x, rfl, _⟩⟩ := rread_state host user hf h
        · simp [hf]
        · simp
    · rw [fr.2.2 i (by simpa [fids] using hi)]
  | write p =>
    simp only [call, state?_mapRes, ufs] at h
    unfold rwrite at h
    split at h
    · simp only [NRes.state?, Option.some.injEq] at h
      subst h; rfl
    · split at h
      · simp only [NRes.state?, Option.some.injEq] at h
        subst h; rfl
      · split at h <;>
        · simp only [NRes.state?, Option.some.injEq] at h
          subst h; rfl

theorem clunk_state {fid : FID} {s s' : State ω H} (h : (rclunk host fid s).state? = some s') (i : FID) :
    (s'.files i).isSome ↔ ((s.files i).isSome ∧ ¬ fid = i) := by
  unfold rclunk at h
  cases hf : s.files fid with
  | none =>
    rw [clunk_none host hf] at h
    simp only [NRes.state?, Option.some.injEq] at h
    subst h
    refine ⟨fun x => ⟨x, ?_⟩, fun x => x.1⟩
    rintro rfl; rw [hf] at x; cases x
  | some f =>
    obtain ⟨w, hc, _⟩ := clunk_some host hf
    rw [hc] at h
    simp only [NRes.state?, Option.some.injEq] at h
    subst h
    by_cases hi : i = fid
    · subst hi; simp
    · rw [show ({ s.del fid with world := w } : State ω H).files i = s.files i from del_other s hi]
      simp [Ne.symm hi]

theorem remove_state {fid : FID} {s s' : State ω H} (h : (rremove host fid s).state? = some s') (i : FID) :
    (s'.files i).isSome ↔ ((s.files i).isSome ∧ ¬ fid = i) := by
  unfold rremove at h
  cases hf : s.files fid with
  | none =>
    rw [clunk_none host hf] at h
    simp only [NRes.state?, Option.some.injEq] at h
    subst h
    refine ⟨fun x => ⟨x, ?_⟩, fun x => x.1⟩
    rintro rfl; rw [hf] at x; cases x
  | some f =>
    obtain ⟨w, hc, _⟩ := clunk_some host hf
    rw [hc] at h
    dsimp only at h
    split at h <;>
    · simp only [NRes.state?, Option.some.injEq] at h
      subst h
      by_cases hi : i = fid
      · subst hi; simp
      · rw [show ({ s.del fid with world := _ } : State ω H).files i = s.files i from del_other s hi]
        simp [Ne.symm hi]

/-- results of a walk: the table is unchanged, or the new fid set after a complete walk -/
theorem rwalk_cases (fid newfid : FID) (names : List GoString) (s : State ω H) :
    (∃ w e, rwalk host fid newfid names s = .err { s with world := w } e) ∨
    (∃ w q, rwalk host fid newfid names s = .ok { s with world := w } q ∧ q.length < names.length) ∨
    (∃ f, s.files fid = some f ∧ names = [] ∧ s.files newfid = none ∧
      rwalk host fid newfid names s = .ok (s.set newfid f) []) ∨
    (∃ w f q x, s.files fid = some f ∧ q.length = names.length ∧ names ≠ [] ∧ (newfid = fid ∨ s.files newfid = none) ∧
      rwalk host fid newfid names s =
        .ok ({ s with world := w }.set newfid { fullName := reach f.fullName names names.length, qid := x }) q) := by
  unfold rwalk
  split
  · exact .inl ⟨_, _, rfl⟩
  · rename_i f hf
    split
    · rename_i hn
      split
      · exact .inl ⟨_, _, rfl⟩
      · rename_i hnew
        exact .inr (.inr (.inl ⟨f, hf, hn, hnew, rfl⟩))
    · rename_i hn
      obtain ⟨_, _, h3, h4⟩ := walkLoop_spec host f.fullName s.world names
      revert h3 h4
      generalize walkLoop host f.fullName s.world names = r
      obtain ⟨w, q, r⟩ := r
      intro h3 h4
      cases r with
      | none =>
        dsimp only
        split
        · exact .inl ⟨_, _, rfl⟩
        · exact .inr (.inl ⟨w, q, rfl, (h3 rfl).1⟩)
      | some p =>
        dsimp only
        split
        · exact .inl ⟨_, _, rfl⟩
        · rename_i hu
          obtain ⟨a, b, _⟩ := h4 p rfl
          subst b
          refine .inr (.inr (.inr ⟨w, f, q, q.getLastD {}, hf, a, hn, ?_, rfl⟩))
          by_cases hx : newfid = fid
          · exact .inl hx
          · refine .inr ?_
            cases hs : s.files newfid with
            | none => rfl
            | some y => exact absurd ⟨Ne.symm hx, by rw [hs]; rfl⟩ hu

theorem rattach_cases (fid afid : FID) (uname aname : GoString) (s : State ω H) :
    (∃ w e, rattach host fid afid uname aname s = .err { s with world := w } e) ∨
    (∃ (w : ω) (f : File H), f.file = none ∧ f.oflow = [] ∧ f.fullName = pathJoin s.rootPath (pathJoin [slash] aname) ∧
      rattach host fid afid uname aname s = .ok ({ s with world := w }.set fid f) f.qid) := by
  unfold rattach
  split
  · exact .inl ⟨s.world, _, rfl⟩
  · dsimp only
    split
    · exact .inl ⟨_, _, rfl⟩
    · exact .inr ⟨_, _, rfl, rfl, rfl, rfl⟩

/-- looking up names relates the worlds as far as every single lookup does -/
theorem walkLoop_rel {R : ω → ω → Prop} (rf : ∀ w, R w w) (tr : ∀ {a b c}, R a b → R b c → R a c)
    (hl : ∀ p w, R w (host.lstat p w).1) (p : GoString) (w : ω) (names : List GoString) :
    R w (walkLoop host p w names).1 := by
  induction names generalizing p w with
  | nil => exact rf w
  | cons n ns ih =>
    have h := hl (pathJoin p n) w
    unfold walkLoop
    dsimp only
    generalize host.lstat (pathJoin p n) w = x at h
    obtain ⟨w', x⟩ := x
    cases x with
    | error e => exact h
    | ok st => exact tr h (ih _ _)

theorem rwalk_rel {R : ω → ω → Prop} (rf : ∀ w, R w w) (tr : ∀ {a b c}, R a b → R b c → R a c)
    (hl : ∀ p w, R w (host.lstat p w).1) {fid newfid : FID} {names : List GoString} {s s' : State ω H}
    (h : (rwalk host fid newfid names s).state? = some s') : R s.world s'.world := by
  unfold rwalk at h
  split at h
  · cases Option.some.inj h; exact rf _
  · rename_i f hf
    split at h
    · split at h
      · cases Option.some.inj h; exact rf _
      · cases Option.some.inj h; exact rf _
    · have hw := walkLoop_rel host rf tr hl f.fullName s.world names
      generalize walkLoop host f.fullName s.world names = x at hw h
      obtain ⟨w, q, x⟩ := x
      cases x with
      | none =>
        dsimp only at h
        split at h <;> (cases Option.some.inj h; exact hw)
      | some p =>
        dsimp only at h
        split at h <;> (cases Option.some.inj h; exact hw)

theorem rattach_rel {R : ω → ω → Prop} (rf : ∀ w, R w w)
    (hl : ∀ p w, R w (host.stat p w).1) {fid afid : FID} {uname aname : GoString} {s s' : State ω H}
    (h : (rattach host fid afid uname aname s).state? = some s') : R s.world s'.world := by
  unfold rattach at h
  split at h
  · cases Option.some.inj h; exact rf _
  · dsimp only at h
    have hw := hl (pathJoin s.rootPath (pathJoin [slash] aname)) s.world
    generalize host.stat (pathJoin s.rootPath (pathJoin [slash] aname)) s.world = x at hw h
    obtain ⟨w, x⟩ := x
    cases x <;> (cases Option.some.inj h; exact hw)

theorem rstat_rel {R : ω → ω → Prop} (rf : ∀ w, R w w)
    (hl : ∀ p w, R w (host.lstat p w).1) {fid : FID} {s s' : State ω H}
    (h : (rstat host user fid s).state? = some s') : R s.world s'.world := by
  unfold rstat at h
  split at h
  · cases Option.some.inj h; exact rf _
  · rename_i f hf
    have hw := hl f.fullName s.world
    generalize host.lstat f.fullName s.world = x at hw h
    obtain ⟨w, x⟩ := x
    cases x <;> (cases Option.some.inj h; exact hw)

theorem isDirNow_world (p : GoString) (w : ω) : (isDirNow host p w).1 = (host.stat p w).1 := by
  unfold isDirNow
  generalize host.stat p w = x
  obtain ⟨w, x⟩ := x
  cases x <;> rfl

/-- one request and the fids in use -/
theorem event_inUse {m : TMsg} {s s' : State ω H} {a : Except GoString RMsg}
    (h : (call (ufs host user) m s).state? = some s') (ha : (call (ufs host user) m s).reply? = some a) (i : FID) :
    (s'.files i).isSome ↔ (Event.mk m a).starts i ∨ ((s.files i).isSome ∧ ¬ (Event.mk m a).ends i) := by
  have keep : Quiet m →
      ((s'.files i).isSome ↔ (Event.mk m a).starts i ∨ ((s.files i).isSome ∧ ¬ (Event.mk m a).ends i)) := by
    intro hm
    rw [call_keeps host user h hm i]
    have h1 : ¬ (Event.mk m a).starts i := by
      cases m <;> first | exact hm.elim | (simp [Event.starts])
    have h2 : ¬ (Event.mk m a).ends i := by
      cases m <;> first | exact hm.elim | (simp [Event.ends])
    simp [h1, h2]
  cases m with
  | version p => exact keep trivial
  | flush p => exact keep trivial
  | open_ p => exact keep trivial
  | create p => exact keep trivial
  | stat p => exact keep trivial
  | wstat p => exact keep trivial
  | read p => exact keep trivial
  | write p => exact keep trivial
  | clunk p =>
    simp only [call, state?_mapRes] at h
    exact (clunk_state host h i).trans (by simp [Event.starts, Event.ends])
  | remove p =>
    simp only [call, state?_mapRes] at h
    exact (remove_state host h i).trans (by simp [Event.starts, Event.ends])
  | attach p =>
    have e : call (ufs host user) (.attach p) s =
      mapRes (fun q => .attach ⟨q⟩) (rattach host p.SFID p.AFID p.Uname p.Aname s) := rfl
    rw [e] at h ha
    rcases rattach_cases host p.SFID p.AFID p.Uname p.Aname s with ⟨w, e, he⟩ | ⟨w, f, _, _, _, he⟩
    · rw [he] at h ha
      simp only [mapRes, NRes.state?, NRes.reply?, Option.some.injEq] at h ha
      subst h; subst ha
      simp [Event.starts, Event.ends]
    · rw [he] at h ha
      simp only [mapRes, NRes.state?, NRes.reply?, Option.some.injEq] at h ha
      subst h; subst ha
      by_cases hi : i = p.SFID
      · subst hi; simp [Event.starts]
      · rw [set_other _ _ hi]
        simp [Event.starts, Event.ends, Ne.symm hi]
  | walk p =>
    have e : call (ufs host user) (.walk p) s =
      mapRes (fun q => .walk ⟨q⟩) (rwalk host p.SFID p.NewFID p.Paths s) := rfl
    rw [e] at h ha
    rcases rwalk_cases host p.SFID p.NewFID p.Paths s with ⟨w, e, he⟩ | ⟨w, q, he, hq⟩ | ⟨f, hf, hn, _, he⟩ | ⟨w, f, q, x, hf, hq, _, _, he⟩ <;>
      rw [he] at h ha <;> simp only [mapRes, NRes.state?, NRes.reply?, Option.some.injEq] at h ha <;>
      subst h <;> subst ha
    · simp [Event.starts, Event.ends]
    · simp [Event.starts, Event.ends, Nat.ne_of_lt hq]
    · by_cases hi : i = p.NewFID
      · subst hi; simp [Event.starts, hn]
      · rw [set_other _ _ hi]
        simp [Event.starts, Event.ends, Ne.symm hi]
    · by_cases hi : i = p.NewFID
      · subst hi; simp [Event.starts, hq]
      · rw [set_other _ _ hi]
        simp [Event.starts, Event.ends, Ne.symm hi]

theorem inUse_cons {e : Event} {h : List Event} {i : FID} :
    inUse (e :: h) i ↔ inUse h i ∨ (e.starts i ∧ ∀ x ∈ h, ¬ x.ends i) := by
  constructor
  · rintro ⟨a, x, b, heq, hs, hb⟩
    cases a with
    | nil =>
      simp only [List.nil_append, List.cons.injEq] at heq
      obtain ⟨rfl, rfl⟩ := heq
      exact .inr ⟨hs, hb⟩
    | cons y a =>
      simp only [List.cons_append, List.cons.injEq] at heq
      obtain ⟨rfl, rfl⟩ := heq
      exact .inl ⟨a, x, b, rfl, hs, hb⟩
  · rintro (⟨a, x, b, rfl, hs, hb⟩ | ⟨hs, hb⟩)
    · exact ⟨e :: a, x, b, rfl, hs, hb⟩
    · exact ⟨[], e, h, rfl, hs, hb⟩

theorem hist_inUse {P : State ω H → TMsg → Prop} {R : ω → ω → Prop} {s s' : State ω H} {h : List Event}
    (hh : Hist host user P R s h s') (i : FID) :
    (s'.files i).isSome ↔ inUse h i ∨ ((s.files i).isSome ∧ ∀ x ∈ h, ¬ x.ends i) := by
  have step : ∀ {s s1 s' : State ω H} {e : Event} {h : List Event},
      ((s1.files i).isSome ↔ e.starts i ∨ ((s.files i).isSome ∧ ¬ e.ends i)) →
      ((s'.files i).isSome ↔ inUse h i ∨ ((s1.files i).isSome ∧ ∀ x ∈ h, ¬ x.ends i)) →
      ((s'.files i).isSome ↔ inUse (e :: h) i ∨ ((s.files i).isSome ∧ ∀ x ∈ e :: h, ¬ x.ends i)) := by
    intro s s1 s' e h h1 h2
    rw [h2, h1, inUse_cons]
    simp only [List.forall_mem_cons]
    constructor
    · rintro (a | ⟨b | b, c⟩)
      · exact .inl (.inl a)
      · exact .inl (.inr ⟨b, c⟩)
      · exact .inr ⟨b.1, b.2, c⟩
    · rintro ((a | a) | a)
      · exact .inl a
      · exact .inr ⟨.inl a.1, a.2⟩
      · exact .inr ⟨.inr ⟨a.1, a.2.1⟩, a.2.2⟩
  induction hh with
  | nil s =>
    have : ¬ inUse [] i := by rintro ⟨a, e, b, h, _⟩; simp at h
    simp [this]
  | ok _ hc _ ih => exact step (event_inUse host user (by rw [hc]; rfl) (by rw [hc]; rfl) i) ih
  | err _ hc _ ih => exact step (event_inUse host user (by rw [hc]; rfl) (by rw [hc]; rfl) i) ih
  | other w _ _ ih => exact ih

/-- C46: on a new connection, after any history of requests, a fid is in use exactly if it was put into use
by an attach or a complete walk and not clunked or removed since. -/
theorem C46_life_cycle {root : GoString} {w : ω} {s' : State ω H} {h : List Event}
    (hh : Hist host user AnyReq AnyWorld (newFS root w) h s') (i : FID) : (s'.files i).isSome ↔ inUse h i := by
  rw [hist_inUse host user hh i]
  simp [newFS]

/-! ### C48, C49 -/

set_option maxRecDepth 20000 in
theorem modeToUnixFlags_spec : ∀ m : Mode, modeToUnixFlags m = openFlags m := by
  intro m
  have : ∀ n : Fin 256, modeToUnixFlags (UInt8.ofFin n) = openFlags (UInt8.ofFin n) := by decide
  exact this m.toFin

set_option maxRecDepth 20000 in
theorem createFlags_spec : ∀ m : Mode, modeToUnixFlags m ||| O_CREATE ||| O_TRUNC =
    [0, 1, 2, 0].getD (m.toNat % 4) 0 + 0x40 + 0x200 := by
  intro m
  have : ∀ n : Fin 256, modeToUnixFlags (UInt8.ofFin n) ||| O_CREATE ||| O_TRUNC =
    [0, 1, 2, 0].getD ((UInt8.ofFin n).toNat % 4) 0 + 0x40 + 0x200 := by decide
  exact this m.toFin

theorem nat_and_two_pow (x n : Nat) : x &&& 2 ^ n = if x.testBit n then 2 ^ n else 0 := by
  apply Nat.eq_of_testBit_eq
  intro i
  rw [Nat.testBit_and, Nat.testBit_two_pow]
  by_cases hi : n = i
  · subst hi
    cases h : x.testBit n <;> simp [h, Nat.testBit_two_pow]
  · cases h : x.testBit n <;> simp [h, Nat.testBit_two_pow, hi]

/-- C48: open asks the host for the path of the fid with exactly the flags of the mode and permissions 0.
The host is only asked to open that one file; if it refuses, the fid stays but is not open. -/
theorem C48_open {fid : FID} {mode : Mode} {s : State ω H} {f : File H} (hf : s.files fid = some f) :
    (∀ w h, host.openFile f.fullName (openFlags mode) 0 s.world = (w, .ok h) →
      ∃ s', (ufs host user).Ropen fid mode s = .ok s' (f.qid, s.IOunit) ∧ s'.world = w ∧
        s'.files fid = some { f with file := some h }) ∧
    (∀ w e, host.openFile f.fullName (openFlags mode) 0 s.world = (w, .error e) →
      ∃ s', (ufs host user).Ropen fid mode s = .err s' e ∧ s'.world = w ∧
        s'.files fid = some { f with file := none }) := by
  constructor
  · intro w h ho
    refine ⟨{ s with world := w }.set fid { f with file := some h }, ?_, rfl, set_same _ _ _⟩
    show ropen host fid mode s = _
    unfold ropen
    rw [hf]
    dsimp only
    rw [modeToUnixFlags_spec, ho]
  · intro w e ho
    refine ⟨{ s with world := w }.set fid { f with file := none }, ?_, rfl, set_same _ _ _⟩
    show ropen host fid mode s = _
    unfold ropen
    rw [hf]
    dsimp only
    rw [modeToUnixFlags_spec, ho]

/-- C48: create of a plain file asks the host to open with the access bits of the mode and always with
create and truncate, and with the nine permission bits. -/
theorem C48_create {fid : FID} {name : GoString} {perm : Perm} {mode : Mode} {s : State ω H} {f : File H}
    (hf : s.files fid = some f) (hn : f.file = none) (hp : perm.toNat < 2 ^ 31) :
    (∀ w w' h st, host.openFile (pathJoin f.fullName name) ([0, 1, 2, 0].getD (mode.toNat % 4) 0 + 0x40 + 0x200)
        (UInt32.ofNat (perm.toNat % 512)) s.world = (w, .ok h) →
      host.lstat (pathJoin f.fullName name) w = (w', .ok st) →
      ∃ s', (ufs host user).Rcreate fid name perm mode s = .ok s' (fileInfoToQID st, 8000) ∧ s'.world = w' ∧
        s'.files fid = some { fullName := pathJoin f.fullName name, qid := fileInfoToQID st, file := some h, oflow := f.oflow }) ∧
    (∀ w e, host.openFile (pathJoin f.fullName name) ([0, 1, 2, 0].getD (mode.toNat % 4) 0 + 0x40 + 0x200)
        (UInt32.ofNat (perm.toNat % 512)) s.world = (w, .error e) →
      (ufs host user).Rcreate fid name perm mode s = .err { s with world := w } e) := by
  have h1 := u32_and_511 perm
  have h2 : ¬ (perm &&& DMDIR ≠ 0) := by
    rw [Classical.not_not]
    apply UInt32.toNat.inj
    rw [UInt32.toNat_and]
    have : DMDIR.toNat = 2 ^ 31 := by decide
    rw [this, nat_and_two_pow, Nat.testBit_lt_two_pow hp]
    rfl
  have go : (ufs host user).Rcreate fid name perm mode s =
      match host.openFile (pathJoin f.fullName name) ([0, 1, 2, 0].getD (mode.toNat % 4) 0 + 0x40 + 0x200)
        (UInt32.ofNat (perm.toNat % 512)) s.world with
      | (w, .error e) => .err { s with world := w } e
      | (w, .ok h) =>
        match host.lstat (pathJoin f.fullName name) w with
        | (w, .error _) => .err { s with world := w } (lit "does not exist")
        | (w, .ok st) =>
          .ok ({ s with world := w }.set fid { f with fullName := pathJoin f.fullName name, qid := fileInfoToQID st, file := some h }) (fileInfoToQID st, 8000) := by
    show rcreate host fid name perm mode s = _
    unfold rcreate
    rw [hf]
    dsimp only
    rw [hn, if_neg (by simp), if_neg h2, createFlags_spec, h1]
    rfl
  constructor
  · intro w w' h st ho hl
    rw [go, ho]
    dsimp only
    rw [hl]
    exact ⟨_, rfl, rfl, set_same _ _ _⟩
  · intro w e ho
    rw [go, ho]

/-- C49: read and write on a fid that is not open are refused and change nothing, create on an open fid
likewise. -/
theorem C49_needs_open {fid : FID} {s : State ω H} {f : File H} (hf : s.files fid = some f) :
    (f.file = none →
      (∀ o c, ∃ e, (ufs host user).Rread fid o c s = .err s e) ∧
      (∀ o b, ∃ e, (ufs host user).Rwrite fid o b s = .err s e)) ∧
    (f.file ≠ none → ∀ n p m, ∃ e, (ufs host user).Rcreate fid n p m s = .err s e) := by
  refine ⟨fun hn => ⟨fun o c => ⟨lit "FID not open", ?_⟩, fun o b => ⟨lit "FID not open", ?_⟩⟩, fun ho n p m => ⟨lit "FID already open", ?_⟩⟩
  · show rread host user fid o c s = _
    unfold rread; rw [hf]; dsimp only; rw [hn]
  · show rwrite host fid o b s = _
    unfold rwrite; rw [hf]; dsimp only; rw [hn]
  · show rcreate host fid n p m s = _
    unfold rcreate; rw [hf]; dsimp only
    rw [if_pos (by cases h : f.file with | none => exact absurd h ho | some x => rfl)]

/-- C49: after a successful open, a write goes to the file the host opened for the path of the fid, and so
does a read of a plain file. -/
theorem C49_reaches_file {fid : FID} {mode : Mode} {s s1 : State ω H} {q : QID × MaxSize} {f : File H}
    (hf : s.files fid = some f) (ho : (ufs host user).Ropen fid mode s = .ok s1 q) :
    ∃ h, host.openFile f.fullName (openFlags mode) 0 s.world = (s1.world, .ok h) ∧
      (∀ o b, ∃ s2, s2.files = s1.files ∧ s2.world = (host.writeAt h b o.toInt64 s1.world).1 ∧
        (ufs host user).Rwrite fid o b s1 =
          match (host.writeAt h b o.toInt64 s1.world).2 with
          | (n, none) => .ok s2 (Int32.ofNat n)
          | (_, some e) => .err s2 e) ∧
      (f.qid.Typ &&& QTDIR = 0 → ∀ o c, 0 ≤ c.toInt → ∃ s2, s2.files = s1.files ∧
        s2.world = (host.readAt h c.toInt.toNat o.toInt64 s1.world).1 ∧
        (ufs host user).Rread fid o c s1 =
          match (host.readAt h c.toInt.toNat o.toInt64 s1.world).2 with
          | (_, .fail e) => .err s2 e
          | (d, _) => .ok s2 (d.take c.toInt.toNat)) := by
  have ho' : ropen host fid mode s = .ok s1 q := ho
  unfold ropen at ho'
  rw [hf] at ho'
  dsimp only at ho'
  rw [modeToUnixFlags_spec] at ho'
  revert ho'
  generalize hx : host.openFile f.fullName (openFlags mode) 0 s.world = x
  obtain ⟨w, x⟩ := x
  cases x with
  | error e => intro h; cases h
  | ok h =>
    intro h'
    simp only [NRes.ok.injEq] at h'
    obtain ⟨rfl, rfl⟩ := h'
    refine ⟨h, rfl, ?_, ?_⟩
    · intro o b
      refine ⟨{ { s with world := w }.set fid { f with file := some h } with world := (host.writeAt h b o.toInt64 w).1 }, rfl, rfl, ?_⟩
      show rwrite host fid o b _ = _
      unfold rwrite
      rw [set_same]
      dsimp only [set_world]
      generalize host.writeAt h b o.toInt64 w = y
      obtain ⟨w', n, e⟩ := y
      cases e <;> rfl
    · intro hq o c hc
      refine ⟨{ { s with world := w }.set fid { f with file := some h } with world := (host.readAt h c.toInt.toNat o.toInt64 w).1 }, rfl, rfl, ?_⟩
      show rread host user fid o c _ = _
      unfold rread
      rw [set_same]
      dsimp only [set_world]
      rw [if_neg (by simp [hq]), if_neg (by omega)]
      generalize host.readAt h c.toInt.toNat o.toInt64 w = y
      obtain ⟨w', d, e⟩ := y
      cases e <;> rfl

/-! ### C52 -/

/-- C52 (not true as stated, see `C52_counterexample`): the only request that makes the file server panic is
a read with a negative count on an open fid that is not a directory. -/
theorem C52_panic_partial (m : TMsg) (s : State ω H) :
    call (ufs host user) m s = .panic ↔
      ∃ p f, m = .read p ∧ s.files p.OFID = some f ∧ f.file ≠ none ∧ f.qid.Typ &&& QTDIR = 0 ∧ p.Len.toInt < 0 := by
  have mp : ∀ {α β : Type} {g : α → β} {r : NRes (State ω H) α}, mapRes g r = .panic ↔ r = .panic := by
    intro α β g r; cases r <;> simp [mapRes]
  cases m with
  | read p =>
    simp only [call, mp, ufs]
    unfold rread
    cases hf : s.files p.OFID with
    | none => simp [hf]
    | some f =>
      dsimp only
      cases hh : f.file with
      | none => simp [hf, hh]
      | some h =>
        dsimp only
        by_cases hq : f.qid.Typ &&& QTDIR = 0
        · rw [if_neg (by simp [hq])]
          by_cases hc : p.Len.toInt < 0
          · rw [if_pos hc]
            simp [hf, hh, hq, hc]
          · rw [if_neg hc]
            constructor
            · generalize host.readAt h p.Len.toInt.toNat p.Off.toInt64 s.world = y
              obtain ⟨w', d, e⟩ := y
              cases e <;> simp
            · rintro ⟨p', f', hp, hf', _, _, hl⟩
              simp only [TMsg.read.injEq] at hp
              subst hp
              exact absurd hl hc
        · rw [if_pos hq]
          constructor
          · split
            · generalize host.seek0 h _ = y
              obtain ⟨w', e⟩ := y
              cases e with
              | none => exact fun x => (readDir_safe _ _ _ _ _ _ _ x).elim
              | some e => simp
            · exact fun x => (readDir_safe _ _ _ _ _ _ _ x).elim
          · rintro ⟨p', f', hp, hf', _, hq', _⟩
            simp only [TMsg.read.injEq] at hp
            subst hp
            rw [hf, Option.some.injEq] at hf'
            subst hf'
            exact absurd hq' hq
  | version p =>
    simp only [call, mp, ufs]; unfold rversion
    split <;> simp
  | flush p => simp only [call, mp, ufs]; unfold rflush; simp
  | attach p =>
    simp only [call, mp, ufs]
    rcases rattach_cases host p.SFID p.AFID p.Uname p.Aname s with ⟨w, e, he⟩ | ⟨w, f, _, _, _, he⟩ <;> simp [he]
  | walk p =>
    simp only [call, mp, ufs]
    rcases rwalk_cases host p.SFID p.NewFID p.Paths s with ⟨w, e, he⟩ | ⟨w, q, he, hq⟩ | ⟨f, hf, hn, _, he⟩ | ⟨w, f, q, x, hf, hq, _, _, he⟩ <;>
      simp [he]
  | open_ p =>
    simp only [call, mp, ufs]; unfold ropen
    split
    · simp
    · split <;> simp
  | create p =>
    simp only [call, mp, ufs]; unfold rcreate
    split
    · simp
    · split
      · simp
      · dsimp only
        split
        · split <;> simp
        · split
          · simp
          · split <;> simp
  | stat p =>
    simp only [call, mp, ufs]; unfold rstat
    split
    · simp
    · split <;> simp
  | wstat p =>
    simp only [call, mp, ufs]
    cases hf : s.files p.OFID with
    | none => rw [rwstat_none host hf]; simp
    | some f =>
      rcases rwstat_cases host (b := p.B) hf with ⟨e, he⟩ | ⟨dir, t, b', _, ⟨_, he⟩ | ⟨e, _, he⟩⟩ <;> rw [he] <;> simp
  | clunk p =>
    simp only [call, mp, ufs]; unfold rclunk
    split <;> simp
  | remove p =>
    simp only [call, mp, ufs]; unfold rremove
    split
    · simp
    · split <;> simp
  | write p =>
    simp only [call, mp, ufs]; unfold rwrite
    split
    · simp
    · split
      · simp
      · split <;> simp

/-! ### C55 -/

/-- C55: the stat of a fid is one stat record that decodes (whatever follows it) to the name, length,
modification time and permission bits of the file, the user name, and the QID that walk and attach give. -/
theorem C55_stat {fid : FID} {s : State ω H} {f : File H} {fi : FileInfo} (hf : s.files fid = some f)
    (hl : (host.lstat f.fullName s.world).2 = .ok fi) (hu : user.length < 2 ^ 16) (hn : fi.name.length < 2 ^ 16) :
    ∃ b d, (ufs host user).Rstat fid s = .ok { s with world := (host.lstat f.fullName s.world).1 } b ∧
      (∀ pre rest spare, unmarshaldir ⟨pre, b ++ rest, spare⟩ = .done d 0 none ⟨pre ++ b, rest, spare⟩) ∧
      d.Name = fi.name ∧ d.Length = fi.size.toUInt64 ∧
      d.User = user ∧ d.Group = user ∧ d.ModUser = [] ∧
      d.QID = fileInfoToQID fi ∧
      (0 ≤ fi.modTime.sec → fi.modTime.sec < 2 ^ 32 → (d.Mtime.toNat : Int) = fi.modTime.sec) ∧ d.Atime = d.Mtime ∧
      d.Mode.toNat % 512 = fi.mode.toNat % 512 ∧
      (d.Mode &&& DMDIR ≠ 0 ↔ fi.isDir) ∧ (d.QID.Typ &&& QTDIR ≠ 0 ↔ fi.isDir) ∧
      (d.QID.Typ &&& QTSYMLINK ≠ 0 ↔ fi.mode &&& ModeSymlink ≠ 0) ∧
      (d.Mode = UInt32.ofNat (fi.mode.toNat % 512) ∨ d.Mode = UInt32.ofNat (fi.mode.toNat % 512) ||| DMDIR) := by
  refine ⟨(marshaldir {} (dirTo9p2000Dir user fi)).bytes, dirTo9p2000Dir user fi, ?_, ?_, rfl, rfl, rfl, rfl, rfl, rfl, ?_, rfl, ?_⟩
  · show rstat host user fid s = _
    unfold rstat
    rw [hf]
    dsimp only
    revert hl
    generalize host.lstat f.fullName s.world = x
    obtain ⟨w, x⟩ := x
    rintro rfl
    rfl
  · intro pre rest spare
    exact C03_dir_round_trip _ ⟨hn, hu, hu, by simp [dirTo9p2000Dir]⟩ _ _ _ _
  · intro h0 h1
    show (((Int64.ofInt fi.modTime.sec).toUInt64.toUInt32.toNat : Nat) : Int) = _
    have e1 : (Int64.ofInt fi.modTime.sec).toUInt64.toNat = fi.modTime.sec.toNat := by
      obtain ⟨n, hn⟩ := Int.eq_ofNat_of_zero_le h0
      rw [hn]
      have : (Int64.ofInt (n : Int)).toUInt64 = UInt64.ofNat n := by
        apply UInt64.toBitVec_inj.1
        simp [Int64.ofInt, UInt64.ofNat, BitVec.ofInt_natCast]
      rw [this, UInt64.toNat_ofNat_of_lt' (by rw [hn] at h1; exact Nat.lt_trans (Int.ofNat_lt.1 h1) (by decide))]
      simp
    rw [UInt64.toNat_toUInt32, e1, Nat.mod_eq_of_lt (by omega)]
    omega
  · obtain ⟨a, b, c⟩ := mode_bits fi
    obtain ⟨d, e⟩ := qid_bits fi
    exact ⟨a, b, d, e, c⟩

end

/-! ### Examples -/

open Mem

/-- "/x" is exported -/
def demo : State World Nat := newFS [47, 120] world0

/-- results on the example host -/
def runAll : List TMsg → State World Nat → List (Option (Except GoString RMsg)) × State World Nat
  | [], s => ([], s)
  | m :: ms, s =>
    match call (ufs host [103]) m s with
    | .panic => ([none], s)
    | .ok s' r => let x := runAll ms s'; (some (.ok r) :: x.1, x.2)
    | .err s' e => let x := runAll ms s'; (some (.error e) :: x.1, x.2)

def attach0 : TMsg := .attach { SFID := 0, AFID := 0xFFFFFFFF, Aname := [47, 46, 46] }
def walk1 : TMsg := .walk { SFID := 0, NewFID := 1, Paths := [[102]] }
def open1 : TMsg := .open_ { OFID := 1, Omode := 2 }

/-- C52 does not hold: attach, walk to a plain file, open it, read with count -1 -/
theorem C52_counterexample :
    (runAll [attach0, walk1, open1, .read { OFID := 1, Off := 0, Len := -1 }] demo).1.getLast? = some none := by
  rfl

/-- C37 -/
example : (runAll [.version { TMsize := 100, TVersion := [57, 80, 50, 48, 48, 48] },
    .version { TMsize := 100, TVersion := [57, 80, 50, 48, 48, 49] }] demo).1 =
    [some (.ok (.version { RMsize := 100, RVersion := [57, 80, 50, 48, 48, 48] })),
     some (.error ([57, 80, 50, 48, 48, 49] ++ lit " not supported; only 9P2000"))] := rfl

/-- C38: attaching to "/.." gives the root, attaching to "../d" with the relative root "../x/." "../x/d" -/
example : ((runAll [attach0] demo).2.files 0).map (·.fullName) = some [47, 120] ∧
    pathJoin [46, 46, 47, 120, 47, 46] (pathJoin [slash] [46, 46, 47, 100]) = [46, 46, 47, 120, 47, 100] := ⟨rfl, rfl⟩

/-- C41, C43: a clunked fid is unknown -/
example : (runAll [attach0, .clunk { OFID := 0 }] demo).2.files 0 = none ∧
    (runAll [attach0, .clunk { OFID := 0 }, .clunk { OFID := 0 }] demo).1.getLast? =
      some (some (.error (lit "does not exist"))) ∧
    workFid (.clunk { OFID := 0 }) = some 0 := ⟨rfl, rfl, rfl⟩

/-- C43: a remove that succeeds and one that the host refuses -/
example : (runAll [attach0, walk1, .remove { OFID := 1 }, walk1] demo).1.drop 2 =
    [some (.ok (.remove {})), some (.error (lit "file does not exist"))] ∧
    (runAll [attach0, walk1, .walk { SFID := 1, NewFID := 2 }, .remove { OFID := 1 }, .remove { OFID := 2 }] demo).1.drop 3 =
    [some (.ok (.remove {})), some (.error (lit "no such file or directory"))] := ⟨rfl, rfl⟩

/-- C44: "d" is there, "q" is not; C45: fid 1 is taken -/
example : ((runAll [attach0, .walk { SFID := 0, NewFID := 1, Paths := [[100], [113]] }] demo).1.drop 1).map
      (fun r => match r with | some (.ok (.walk w)) => w.QIDs.length | _ => 99) = [1] ∧
    ((runAll [attach0, .walk { SFID := 0, NewFID := 1, Paths := [[100], [113]] }] demo).2.files 1).isNone ∧
    ((runAll [attach0, walk1, .walk { SFID := 0, NewFID := 1, Paths := [[100]] }] demo).1.drop 2).map
      (fun r => match r with | some (.error e) => e.length | _ => 0) ≠ [0] := ⟨rfl, rfl, by decide⟩

/-- C46: a history with a clunk in it and a change of the world in between -/
example : ∃ s', Hist host [103] AnyReq AnyWorld demo
    [⟨attach0, .ok (.attach { QID := { Typ := 128, Version := 1000000, Path := 1 } })⟩,
     ⟨walk1, .ok (.walk { QIDs := [{ Typ := 0, Version := 1000000, Path := 3 }] })⟩,
     ⟨.clunk { OFID := 0 }, .ok (.clunk {})⟩, ⟨.clunk { OFID := 0 }, .error (lit "does not exist")⟩] s' ∧
    (s'.files 0).isSome = false ∧ (s'.files 1).isSome = true :=
  ⟨_, .ok trivial rfl (.ok trivial rfl (.other world0 trivial (.ok trivial rfl (.err trivial rfl (.nil _))))), rfl, rfl⟩

/-- C48, C49: an open file is read and written; before, it is refused -/
example : (runAll [attach0, walk1, .write { OFID := 1, Off := 1, Data := [7, 8] }, open1,
      .write { OFID := 1, Off := 1, Data := [7, 8] }, .read { OFID := 1, Off := 0, Len := 100 }] demo).1.drop 2 =
    [some (.error (lit "FID not open")), some (.ok (.open_ { OQID := { Typ := 0, Version := 1000000, Path := 3 }, IOUnit := 8192 })),
     some (.ok (.write { RLen := 2 })), some (.ok (.read { Data := [1, 7, 8, 4] }))] := rfl

/-- C55 -/
example : ∃ f fi, (runAll [attach0, walk1] demo).2.files 1 = some f ∧
    (host.lstat f.fullName (runAll [attach0, walk1] demo).2.world).2 = .ok fi ∧ fi.name = [102] ∧ fi.size = 4 :=
  ⟨_, _, rfl, rfl, rfl, rfl⟩

end Ninep.Ufs
