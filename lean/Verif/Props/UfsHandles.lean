import Verif.Props.Ufs

set_option linter.unusedSimpArgs false
set_option linter.unusedVariables false

/-
Which host files are open, and who holds them (C47, C60).  Open files are numbered by a wrapper around the
host, which also keeps a list of the ones that were closed.
-/

namespace Ninep.Ufs
open Spec

/-- a world with a record of the files opened (numbered 0, 1, …) and closed -/
structure Tr (ω : Type) where
  w : ω
  opened : Nat := 0
  closed : List Nat := []

/-- the host with open files numbered -/
def traced {ω H : Type} (host : Host ω H) : Host (Tr ω) (Nat × H) where
  lstat p t := ({ t with w := (host.lstat p t.w).1 }, (host.lstat p t.w).2)
  stat p t := ({ t with w := (host.stat p t.w).1 }, (host.stat p t.w).2)
  openFile p fl perm t :=
    match host.openFile p fl perm t.w with
    | (w, .error e) => ({ t with w := w }, .error e)
    | (w, .ok h) => ({ t with w := w, opened := t.opened + 1 }, .ok (t.opened, h))
  mkdir p m t := ({ t with w := (host.mkdir p m t.w).1 }, (host.mkdir p m t.w).2)
  chmod p m t := ({ t with w := (host.chmod p m t.w).1 }, (host.chmod p m t.w).2)
  rename p q t := ({ t with w := (host.rename p q t.w).1 }, (host.rename p q t.w).2)
  truncate p n t := ({ t with w := (host.truncate p n t.w).1 }, (host.truncate p n t.w).2)
  chtimes p a m t := ({ t with w := (host.chtimes p a m t.w).1 }, (host.chtimes p a m t.w).2)
  remove p t := ({ t with w := (host.remove p t.w).1 }, (host.remove p t.w).2)
  close h t := ({ t with w := (host.close h.2 t.w).1, closed := h.1 :: t.closed }, (host.close h.2 t.w).2)
  sync h t := ({ t with w := (host.sync h.2 t.w).1 }, (host.sync h.2 t.w).2)
  seek0 h t := ({ t with w := (host.seek0 h.2 t.w).1 }, (host.seek0 h.2 t.w).2)
  readdir1 h t := ({ t with w := (host.readdir1 h.2 t.w).1 }, (host.readdir1 h.2 t.w).2)
  readAt h n off t := ({ t with w := (host.readAt h.2 n off t.w).1 }, (host.readAt h.2 n off t.w).2)
  writeAt h b off t := ({ t with w := (host.writeAt h.2 b off t.w).1 }, (host.writeAt h.2 b off t.w).2)

section
variable {ω H : Type} (host : Host ω H) (user : GoString)

/-- other processes do not open or close files of the server -/
def Elsewhere (t t' : Tr ω) : Prop := t'.opened = t.opened ∧ t'.closed = t.closed

/-- who holds what -/
@[ext] structure Held where
  hnd : FID → Option Nat
  opened : Nat
  closed : List Nat

/-- the number of the host file a fid holds -/
def held (s : State (Tr ω) (Nat × H)) : Held where
  hnd i := (s.files i).bind fun f => f.file.map (·.1)
  opened := s.world.opened
  closed := s.world.closed

def Held.put (a : Held) (i : FID) (n : Option Nat) : Held := { a with hnd := fun j => if j = i then n else a.hnd j }

theorem held_set (s : State (Tr ω) (Nat × H)) (i : FID) (f : File (Nat × H)) :
    held (s.set i f) = (held s).put i (f.file.map (·.1)) := by
  unfold held Held.put State.set
  congr 1
  funext j
  by_cases h : j = i <;> simp [h]

theorem held_del (s : State (Tr ω) (Nat × H)) (i : FID) : held (s.del i) = (held s).put i none := by
  unfold held Held.put State.del
  congr 1
  funext j
  by_cases h : j = i <;> simp [h]

theorem put_same {a : Held} {i : FID} : a.put i (a.hnd i) = a := by
  unfold Held.put
  cases a
  congr 1
  funext j
  by_cases h : j = i <;> simp [h]

theorem held_world (s : State (Tr ω) (Nat × H)) (t : Tr ω) :
    held { s with world := t } = { held s with opened := t.opened, closed := t.closed } := rfl

theorem held_elsewhere (s : State (Tr ω) (Nat × H)) (w : ω) :
    held { s with world := { s.world with w := w } } = held s := rfl

theorem Elsewhere.refl (t : Tr ω) : Elsewhere t t := ⟨rfl, rfl⟩

theorem Elsewhere.trans {a b c : Tr ω} (h : Elsewhere a b) (h' : Elsewhere b c) : Elsewhere a c :=
  ⟨h'.1.trans h.1, h'.2.trans h.2⟩

theorem held_other {s : State (Tr ω) (Nat × H)} {t : Tr ω} (h : Elsewhere s.world t) :
    held { s with world := t } = held s := by
  rw [held_world, h.1, h.2]; rfl

theorem traced_lstat (p : GoString) (t : Tr ω) : Elsewhere t ((traced host).lstat p t).1 := ⟨rfl, rfl⟩

theorem traced_stat (p : GoString) (t : Tr ω) : Elsewhere t ((traced host).stat p t).1 := ⟨rfl, rfl⟩

/-- the host lets a file be opened and does not find it afterwards -/
def Vanishes (host : Host ω H) : Prop :=
  ∃ p fl perm w w' h e, host.openFile p fl perm w = (w', .ok h) ∧ (host.lstat p w').2 = .error e

/-- requests after which a fid no longer holds the file it may have held -/
def Forgets (m : TMsg) (i : FID) : Prop :=
  match m with
  | .attach p => p.SFID = i
  | .walk p => p.Paths ≠ [] ∧ p.SFID = i ∧ p.NewFID = i
  | .open_ p => p.OFID = i
  | _ => False

/-- what one request can do to the open files -/
inductive Step (m : TMsg) (a : Held) : Held → Prop
  | same : Step m a a
  | forget (i : FID) : Forgets m i → Step m a (a.put i none)
  | share (i j : FID) : (∃ p, m = .walk p ∧ p.Paths = [] ∧ p.SFID = i ∧ p.NewFID = j) →
      a.hnd j = none → Step m a (a.put j (a.hnd i))
  | opens (i : FID) : (∃ p, m = .open_ p ∧ p.OFID = i) ∨ a.hnd i = none →
      Step m a { a.put i (some a.opened) with opened := a.opened + 1 }
  | lost : Vanishes host → Step m a { a with opened := a.opened + 1 }
  | closes (i : FID) (n : Nat) : (m = .clunk ⟨i⟩ ∨ m = .remove ⟨i⟩) → a.hnd i = some n → Step m a { a.put i none with closed := n :: a.closed }

theorem Step.of_eq {m : TMsg} {a b b' : Held} (h : Step host m a b) (e : b' = b) : Step host m a b' := e ▸ h

theorem held_none {s : State (Tr ω) (Nat × H)} {i : FID} {f : File (Nat × H)} (hf : s.files i = some f) :
    (held s).hnd i = f.file.map (·.1) := by
  simp [held, hf]

theorem held_put_same {s : State (Tr ω) (Nat × H)} {i : FID} {f g : File (Nat × H)} (hf : s.files i = some f)
    (hg : g.file = f.file) (w : ω) : held ({ s with world := { s.world with w := w } }.set i g) = held s := by
  rw [held_set, held_elsewhere, hg, ← held_none hf, put_same]

theorem closeIn_traced (f : Option (Nat × H)) (t : Tr ω) :
    closeIn (traced host) f t = { closeIn (traced host) f t with opened := t.opened, closed := (f.map (·.1)).toList ++ t.closed } := by
  cases f <;> rfl

/-- nothing was opened or closed -/
def SameTr (s s' : State (Tr ω) (Nat × H)) : Prop :=
  s'.world.opened = s.world.opened ∧ s'.world.closed = s.world.closed

/-- a wstat opens and closes nothing -/
theorem held_wstat {fid : FID} {f : File (Nat × H)} {dir : Dir} {s : State (Tr ω) (Nat × H)} (hf : s.files fid = some f) :
    held (wstatRun (traced host) fid f dir s).1 = held s := by
  have key : ∀ s' : State (Tr ω) (Nat × H), Renamed fid f (wstatPath f dir s) s s' ∧ s'.world.opened = s.world.opened ∧ s'.world.closed = s.world.closed →
      held s' = held s := by
    rintro s' ⟨⟨⟨_, _, h1⟩, h2⟩, h3, h4⟩
    unfold held
    rw [h3, h4]
    congr 1
    funext i
    by_cases hi : i = fid
    · subst hi
      rcases h2 with h2 | h2 <;> simp [h2, hf]
    · rw [h1 i (by simp [hi])]
  refine key _ ⟨wstatRun_renamed (traced host) hf, ?_⟩
  show SameTr s _
  unfold wstatRun
  refine andThen_inv (P := SameTr s) ?_
    fun s1 h1 => andThen_inv ?_ fun s2 h2 => andThen_inv ?_ fun s3 h3 =>
    andThen_inv ?_ fun s4 h4 => andThen_inv ?_ fun s5 h5 => ?_
  · unfold wstatMode
    split
    · exact ⟨rfl, rfl⟩
    · exact ⟨rfl, rfl⟩
  · unfold wstatUser
    split <;> exact h1
  · unfold wstatName
    split
    · dsimp only
      have hd := traced_stat host (renameTo s2.rootPath f.fullName dir.Name) s2.world
      rw [← isDirNow_world] at hd
      have h2' := Elsewhere.trans h2 hd
      split
      · exact h2'
      · exact andThen_inv (P := SameTr s) h2' fun s h => h
    · exact h2
  · unfold wstatLength
    split
    · exact h3
    · exact h3
  · unfold wstatTimes
    split
    · dsimp only
      split
      · have h4' := Elsewhere.trans h4 (traced_stat host (wstatPath f dir s) s4.world)
        generalize (traced host).stat (wstatPath f dir s) s4.world = x at h4'
        obtain ⟨w, x⟩ := x
        cases x with
        | error e => exact h4'
        | ok st => exact h4'
      · exact h4
    · exact h4
  · unfold wstatSync
    split
    · split
      · exact h5
      · exact h5
    · exact h5

theorem held_readDir {fid : FID} {f : File (Nat × H)} {h : Nat × H} {c : Count} {s s' : State (Tr ω) (Nat × H)}
    (hf : ∃ g, s.files fid = some g ∧ g.file = f.file)
    (hs : (readDir (traced host) user fid f h c s).state? = some s') : held s' = held s := by
  obtain ⟨g, hg, hgf⟩ := hf
  have e0 : ∀ (w : ω) (o : Bytes), held ({ s with world := { s.world with w := w } }.set fid { f with oflow := o }) = held s :=
    fun w o => held_put_same hg (by exact hgf.symm) w
  unfold readDir at hs
  dsimp only at hs
  split at hs
  · simp only [NRes.state?, Option.some.injEq] at hs
    subst hs
    rw [set_set]
    exact e0 _ _
  · simp only [set_world, traced] at hs
    generalize host.readdir1 h.2 s.world.w = r at hs
    obtain ⟨w, r⟩ := r
    cases r with
    | eof => cases (Option.some.inj hs); exact e0 _ _
    | fail e => cases (Option.some.inj hs); exact e0 _ _
    | entry fi =>
      dsimp only at hs
      split at hs
      · cases (Option.some.inj hs); exact e0 _ _
      · cases (Option.some.inj hs); exact e0 _ _

theorem traced_seek0 (h : Nat × H) (t : Tr ω) : (traced host).seek0 h t =
    ({ t with w := (host.seek0 h.2 t.w).1 }, (host.seek0 h.2 t.w).2) := rfl

theorem step_held {m : TMsg} {s s' : State (Tr ω) (Nat × H)} (h : (call (ufs (traced host) user) m s).state? = some s') :
    Step host m (held s) (held s') := by
  cases m with
  | version p =>
    simp only [call, state?_mapRes, ufs] at h
    unfold rversion at h
    split at h <;> (simp only [NRes.state?, Option.some.injEq] at h; subst h; exact .same)
  | flush p =>
    simp only [call, state?_mapRes, ufs] at h
    unfold rflush at h
    simp only [NRes.state?, Option.some.injEq] at h
    subst h; exact .same
  | attach p =>
    simp only [call, state?_mapRes, ufs] at h
    have hE := rattach_rel (traced host) (R := Elsewhere) Elsewhere.refl (traced_stat host) h
    rcases rattach_cases (traced host) p.SFID p.AFID p.Uname p.Aname s with ⟨w, e, he⟩ | ⟨w, f, hf, _, _, he⟩
    · rw [he] at h
      simp only [NRes.state?, Option.some.injEq] at h
      subst h; exact Step.same.of_eq _ (held_other hE)
    · rw [he] at h
      simp only [NRes.state?, Option.some.injEq] at h
      subst h
      exact (Step.forget (m := .attach p) p.SFID rfl).of_eq _ (by rw [held_set, hf, held_other (t := w) hE]; rfl)
  | walk p =>
    simp only [call, state?_mapRes, ufs] at h
    have hE := rwalk_rel (traced host) (R := Elsewhere) Elsewhere.refl Elsewhere.trans (traced_lstat host) h
    rcases rwalk_cases (traced host) p.SFID p.NewFID p.Paths s with
      ⟨w, e, he⟩ | ⟨w, q, he, hq⟩ | ⟨f, hf, hn, hnew, he⟩ | ⟨w, f, q, x, hf, hq, hp, hu, he⟩ <;>
      rw [he] at h <;> simp only [NRes.state?, Option.some.injEq] at h <;> subst h
    · exact Step.same.of_eq _ (held_other hE)
    · exact Step.same.of_eq _ (held_other hE)
    · exact (Step.share p.SFID p.NewFID ⟨p, rfl, hn, rfl, rfl⟩ (by simp [held, hnew])).of_eq _ (by rw [held_set, held_none hf])
    · rcases hu with hu | hu
      · exact (Step.forget (m := .walk p) p.NewFID ⟨hp, hu.symm, rfl⟩).of_eq _ (by rw [held_set, held_other (t := w) hE]; rfl)
      · refine Step.same.of_eq _ ?_
        rw [held_set, held_other (t := w) hE]
        have : (held s).hnd p.NewFID = none := by simp [held, hu]
        exact (congrArg ((held s).put p.NewFID) this.symm).trans put_same
  | open_ p =>
    simp only [call, state?_mapRes, ufs] at h
    unfold ropen at h
    split at h
    · simp only [NRes.state?, Option.some.injEq] at h
      subst h; exact .same
    · rename_i f hf
      simp only [traced] at h
      generalize host.openFile f.fullName (modeToUnixFlags p.Omode) 0 s.world.w = r at h
      obtain ⟨w, r⟩ := r
      cases r with
      | error e =>
        cases (Option.some.inj h)
        exact (Step.forget (m := .open_ p) p.OFID rfl).of_eq _ (by rw [held_set]; rfl)
      | ok x =>
        cases (Option.some.inj h)
        exact (Step.opens p.OFID (.inl ⟨p, rfl, rfl⟩)).of_eq _ (by rw [held_set]; rfl)
  | create p =>
    simp only [call, state?_mapRes, ufs] at h
    unfold rcreate at h
    split at h
    · simp only [NRes.state?, Option.some.injEq] at h
      subst h; exact .same
    · rename_i f hf
      split at h
      · simp only [NRes.state?, Option.some.injEq] at h
        subst h; exact .same
      · rename_i hn
        have hn : f.file = none := by simpa using hn
        dsimp only at h
        split at h
        · simp only [traced] at h
          generalize (host.mkdir (pathJoin f.fullName p.Name) _ s.world.w).1 = w at h
          generalize host.lstat (pathJoin f.fullName p.Name) w = r at h
          obtain ⟨w', r⟩ := r
          cases r with
          | error e => cases (Option.some.inj h); exact .same
          | ok st =>
            cases (Option.some.inj h)
            exact Step.same.of_eq _ (held_put_same hf (by rfl) _)
        · simp only [traced] at h
          generalize ho : host.openFile (pathJoin f.fullName p.Name) _ _ s.world.w = r at h
          obtain ⟨w, r⟩ := r
          cases r with
          | error e => cases (Option.some.inj h); exact .same
          | ok x =>
            dsimp only at h
            generalize hl : host.lstat (pathJoin f.fullName p.Name) w = r at h
            obtain ⟨w', r⟩ := r
            cases r with
            | error e =>
              cases (Option.some.inj h)
              exact .lost ⟨_, _, _, _, _, _, _, ho, congrArg Prod.snd hl⟩
            | ok st =>
              cases (Option.some.inj h)
              refine (Step.opens p.OFID (.inr ?_)).of_eq _ (by rw [held_set]; rfl)
              rw [held_none hf, hn]; rfl
  | stat p =>
    simp only [call, state?_mapRes, ufs] at h
    unfold rstat at h
    split at h
    · simp only [NRes.state?, Option.some.injEq] at h
      subst h; exact .same
    · simp only [traced] at h
      split at h <;>
      · rename_i hl
        simp only [NRes.state?, Option.some.injEq] at h
        subst h
        refine Step.same.of_eq _ (held_other ?_)
        have := congrArg Prod.fst hl
        dsimp only at this
        rw [← this]; exact ⟨rfl, rfl⟩
  | wstat p =>
    simp only [call, state?_mapRes, ufs] at h
    cases hf : s.files p.OFID with
    | none =>
      rw [rwstat_none _ hf] at h
      simp only [NRes.state?, Option.some.injEq] at h
      subst h; exact .same
    | some f =>
      rcases rwstat_cases (traced host) (b := p.B) hf with ⟨e, he⟩ | ⟨dir, t, b', _, ⟨_, he⟩ | ⟨e, _, he⟩⟩
      · rw [he] at h
        simp only [NRes.state?, Option.some.injEq] at h
        subst h; exact .same
      all_goals
        rw [he] at h
        simp only [NRes.state?, Option.some.injEq] at h
        subst h
        exact Step.same.of_eq _ (held_wstat host hf)
  | clunk p =>
    simp only [call, state?_mapRes, ufs] at h
    unfold rclunk at h
    cases hf : s.files p.OFID with
    | none =>
      rw [clunk_none _ hf] at h
      simp only [NRes.state?, Option.some.injEq] at h
      subst h; exact .same
    | some f =>
      obtain ⟨w, hc, hw⟩ := clunk_some (traced host) hf
      rw [hc] at h
      simp only [NRes.state?, Option.some.injEq] at h
      subst h
      subst hw
      rw [held_world (s.del p.OFID), held_del]
      cases hh : f.file with
      | none =>
        refine Step.same.of_eq _ ?_
        have : (held s).hnd p.OFID = none := by rw [held_none hf, hh]; rfl
        exact (congrArg ((held s).put p.OFID) this.symm).trans put_same
      | some x =>
        exact (Step.closes p.OFID x.1 (.inl rfl) (by rw [held_none hf, hh]; rfl)).of_eq _ rfl
  | remove p =>
    simp only [call, state?_mapRes, ufs] at h
    unfold rremove at h
    cases hf : s.files p.OFID with
    | none =>
      rw [clunk_none _ hf] at h
      simp only [NRes.state?, Option.some.injEq] at h
      subst h; exact .same
    | some f =>
      obtain ⟨w, hc, hw⟩ := clunk_some (traced host) hf
      rw [hc] at h
      simp only [traced] at h
      subst hw
      have key : ∀ v : ω, Step host (.remove p) (held s)
          (held { s.del p.OFID with world := { closeIn (traced host) f.file s.world with w := v } }) := by
        intro v
        rw [held_world (s.del p.OFID), held_del]
        cases hh : f.file with
        | none =>
          refine Step.same.of_eq _ ?_
          have : (held s).hnd p.OFID = none := by rw [held_none hf, hh]; rfl
          exact (congrArg ((held s).put p.OFID) this.symm).trans put_same
        | some x =>
          exact (Step.closes p.OFID x.1 (.inr rfl) (by rw [held_none hf, hh]; rfl)).of_eq _ rfl
      split at h <;>
      · rename_i hr
        simp only [NRes.state?, Option.some.injEq] at h
        subst h
        have := congrArg Prod.fst hr
        dsimp only at this
        rw [← this]
        exact key _
  | read p =>
    simp only [call, state?_mapRes, ufs] at h
    unfold rread at h
    split at h
    · simp only [NRes.state?, Option.some.injEq] at h
      subst h; exact .same
    · rename_i f hf
      split at h
      · simp only [NRes.state?, Option.some.injEq] at h
        subst h; exact .same
      · rename_i x hx
        split at h
        · split at h
          · dsimp only at h
            rw [traced_seek0] at h
            dsimp only [set_world] at h
            generalize host.seek0 x.2 s.world.w = r at h
            obtain ⟨w, r⟩ := r
            cases r with
            | some e =>
              cases (Option.some.inj h)
              exact Step.same.of_eq _ (held_put_same hf (by rfl) _)
            | none =>
              refine Step.same.of_eq _ ((held_readDir host user ⟨_, set_same _ _ _, rfl⟩ h).trans (held_put_same hf (by rfl) _))
          · exact Step.same.of_eq _ (held_readDir host user ⟨f, hf, rfl⟩ h)
        · split at h
          · cases h
          · simp only [traced] at h
            generalize host.readAt x.2 p.Len.toInt.toNat p.Off.toInt64 s.world.w = r at h
            obtain ⟨w, d, e⟩ := r
            cases e <;> (cases (Option.some.inj h); exact .same)
  | write p =>
    simp only [call, state?_mapRes, ufs] at h
    unfold rwrite at h
    split at h
    · simp only [NRes.state?, Option.some.injEq] at h
      subst h; exact .same
    · split at h
      · simp only [NRes.state?, Option.some.injEq] at h
        subst h; exact .same
      · rename_i x hx
        simp only [traced] at h
        generalize host.writeAt x.2 p.Data p.Off.toInt64 s.world.w = r at h
        obtain ⟨w, d, e⟩ := r
        cases e <;> (cases (Option.some.inj h); exact .same)

/-! ### C47 -/

/-- no clone of a fid that is open -/
def NoOpenClone (s : State (Tr ω) (Nat × H)) (m : TMsg) : Prop :=
  match m with
  | .walk p => p.Paths = [] → ∀ f, s.files p.SFID = some f → f.file = none
  | _ => True

/-- fids hold different files, none of which is closed; no file was closed twice -/
structure Sound (a : Held) : Prop where
  fresh : ∀ i n, a.hnd i = some n → n < a.opened
  live : ∀ i n, a.hnd i = some n → n ∉ a.closed
  apart : ∀ i j n, a.hnd i = some n → a.hnd j = some n → i = j
  once : a.closed.Nodup
  past : ∀ n ∈ a.closed, n < a.opened

theorem put_eq_some {a : Held} {i j : FID} {x : Option Nat} {n : Nat} (h : (a.put i x).hnd j = some n) :
    (j = i ∧ x = some n) ∨ (j ≠ i ∧ a.hnd j = some n) := by
  unfold Held.put at h
  dsimp only at h
  by_cases hj : j = i
  · rw [if_pos hj] at h; exact .inl ⟨hj, h⟩
  · rw [if_neg hj] at h; exact .inr ⟨hj, h⟩

theorem Sound.forget {a : Held} (h : Sound a) (i : FID) : Sound (a.put i none) := by
  have k : ∀ {j n}, (a.put i none).hnd j = some n → a.hnd j = some n := by
    intro j n hj
    rcases put_eq_some hj with ⟨_, h⟩ | ⟨_, h⟩
    · cases h
    · exact h
  exact ⟨fun i n hi => h.fresh i n (k hi), fun i n hi => h.live i n (k hi),
    fun i j n hi hj => h.apart i j n (k hi) (k hj), h.once, h.past⟩

theorem Sound.opens {a : Held} (h : Sound a) (i : FID) :
    Sound { a.put i (some a.opened) with opened := a.opened + 1 } := by
  have k : ∀ {j n}, (a.put i (some a.opened)).hnd j = some n → (j = i ∧ n = a.opened) ∨ (j ≠ i ∧ a.hnd j = some n) := by
    intro j n hj
    rcases put_eq_some hj with ⟨h1, h⟩ | h
    · exact .inl ⟨h1, (Option.some.inj h).symm⟩
    · exact .inr h
  refine ⟨?_, ?_, ?_, h.once, fun n hn => Nat.lt_succ_of_lt (h.past n hn)⟩
  · intro j n hj
    rcases k hj with ⟨_, rfl⟩ | ⟨_, hj⟩
    · exact Nat.lt_succ_self _
    · exact Nat.lt_succ_of_lt (h.fresh j n hj)
  · intro j n hj
    rcases k hj with ⟨_, rfl⟩ | ⟨_, hj⟩
    · exact fun hc => Nat.lt_irrefl _ (h.past _ hc)
    · exact h.live j n hj
  · intro j l n hj hl
    rcases k hj with ⟨rfl, rfl⟩ | ⟨_, hj'⟩ <;> rcases k hl with ⟨rfl, hn⟩ | ⟨_, hl'⟩
    · rfl
    · exact absurd (h.fresh _ _ hl') (Nat.lt_irrefl _)
    · subst hn; exact absurd (h.fresh _ _ hj') (Nat.lt_irrefl _)
    · exact h.apart j l n hj' hl'

theorem Sound.closes {a : Held} (h : Sound a) {i : FID} {n : Nat} (hi : a.hnd i = some n) :
    Sound { a.put i none with closed := n :: a.closed } := by
  have k : ∀ {j n}, (a.put i none).hnd j = some n → j ≠ i ∧ a.hnd j = some n := by
    intro j n hj
    rcases put_eq_some hj with ⟨_, h⟩ | h
    · cases h
    · exact h
  refine ⟨fun j n hj => h.fresh j n (k hj).2, ?_, fun i j n hi hj => h.apart i j n (k hi).2 (k hj).2,
    List.nodup_cons.2 ⟨h.live i n hi, h.once⟩, ?_⟩
  · intro j l hj hc
    rcases List.mem_cons.1 hc with rfl | hc
    · exact (k hj).1 (h.apart j i l (k hj).2 hi)
    · exact h.live j l (k hj).2 hc
  · intro l hl
    rcases List.mem_cons.1 hl with rfl | hl
    · exact h.fresh i l hi
    · exact h.past l hl

theorem Sound.step {m : TMsg} {s s' : State (Tr ω) (Nat × H)} (hp : NoOpenClone s m) (h : Sound (held s))
    (hc : (call (ufs (traced host) user) m s).state? = some s') : Sound (held s') := by
  have hs := step_held host user hc
  generalize held s' = b at hs
  cases hs with
  | same => exact h
  | forget i _ => exact h.forget i
  | share i j hx hnew =>
    obtain ⟨p, rfl, h1, h2, h3⟩ := hx
    have : (held s).hnd i = none := by
      unfold held
      dsimp only
      cases hf : s.files i with
      | none => rfl
      | some f => subst h2; simp [hp h1 f hf]
    rw [this]
    exact h.forget j
  | opens i _ => exact h.opens i
  | lost _ =>
    exact ⟨fun i n hi => Nat.lt_succ_of_lt (h.fresh i n hi), h.live, h.apart, h.once,
      fun n hn => Nat.lt_succ_of_lt (h.past n hn)⟩
  | closes i n _ hi => exact h.closes hi

theorem sound_new (root : GoString) (w : ω) : Sound (held (newFS (H := Nat × H) root { w := w })) :=
  ⟨by simp [held, newFS], by simp [held, newFS], by simp [held, newFS], by simp [held, newFS], by simp [held, newFS]⟩

/-- C47, C60.  On a new connection whose client does not clone open fids, after any history: two fids never
hold the same host file, a file a fid holds has not been closed, and no file has been closed twice.  (The
full statements lack the condition on clones; see the counterexample below.) -/
theorem C47_independent_partial {root : GoString} {w : ω} {s' : State (Tr ω) (Nat × H)} {h : List Event}
    (hh : Hist (traced host) user NoOpenClone Elsewhere (newFS root { w := w }) h s') :
    (∀ i j f g x y, s'.files i = some f → s'.files j = some g → f.file = some x → g.file = some y → i ≠ j → x.1 ≠ y.1) ∧
    (∀ i f x, s'.files i = some f → f.file = some x → x.1 ∉ s'.world.closed) ∧
    s'.world.closed.Nodup := by
  have hs : Sound (held s') := by
    refine Hist.invariant (traced host) user (I := fun s => Sound (held s)) ?_ ?_ hh (sound_new root w)
    · intro s t ht hi
      have : held { s with world := t } = held s := by
        rw [held_world, ht.1, ht.2]; rfl
      rw [this]; exact hi
    · exact fun s m s' hp hi hc => hi.step host user hp hc
  refine ⟨?_, ?_, hs.once⟩
  · intro i j f g x y hi hj hx hy hne he
    exact hne (hs.apart i j x.1 (by rw [held_none hi, hx]; rfl) (by rw [held_none hj, hy, he]; rfl))
  · intro i f x hi hx
    exact hs.live i x.1 (by rw [held_none hi, hx]; rfl)

/-! ### C60 -/

/-- requests that do not make an open fid forget its file -/
def Tidy (s : State (Tr ω) (Nat × H)) (m : TMsg) : Prop :=
  NoOpenClone s m ∧ ∀ i, Forgets m i → ∀ f, s.files i = some f → f.file = none

theorem held_eq_none {s : State (Tr ω) (Nat × H)} {i : FID} (h : ∀ f, s.files i = some f → f.file = none) :
    (held s).hnd i = none := by
  unfold held
  dsimp only
  cases hf : s.files i with
  | none => rfl
  | some f => simp [h f hf]

/-- every file opened was closed or is held by a fid -/
def Kept (a : Held) : Prop := ∀ n < a.opened, n ∈ a.closed ∨ ∃ i, a.hnd i = some n

theorem Kept.step {m : TMsg} {s s' : State (Tr ω) (Nat × H)} (hv : ¬ Vanishes host) (hp : Tidy s m) (h : Kept (held s))
    (hc : (call (ufs (traced host) user) m s).state? = some s') : Kept (held s') := by
  have hs := step_held host user hc
  generalize held s' = b at hs
  have same : ∀ i, (held s).hnd i = none → (held s).put i none = held s := fun i hi =>
    (congrArg ((held s).put i) hi.symm).trans put_same
  cases hs with
  | same => exact h
  | forget i hf => rw [same i (held_eq_none (hp.2 i hf))]; exact h
  | share i j hx hnew =>
    obtain ⟨p, rfl, h1, h2, h3⟩ := hx
    have : (held s).hnd i = none := held_eq_none (by subst h2; exact hp.1 h1)
    rw [this, same j hnew]
    exact h
  | opens i hx =>
    have hi : (held s).hnd i = none := by
      rcases hx with ⟨p, rfl, hi⟩ | hi
      · exact held_eq_none (hp.2 i hi)
      · exact hi
    intro n hn
    by_cases hno : n = (held s).opened
    · exact .inr ⟨i, by simp [Held.put, hno]⟩
    · rcases h n (by simp at hn; omega) with h | ⟨l, hl⟩
      · exact .inl h
      · refine .inr ⟨l, ?_⟩
        show (if l = i then some (held s).opened else (held s).hnd l) = some n
        rw [if_neg (by rintro rfl; rw [hi] at hl; cases hl)]; exact hl
  | lost hl => exact absurd hl hv
  | closes i n _ hi =>
    intro l hl
    by_cases hln : l = n
    · exact .inl (by simp [hln])
    · rcases h l hl with h | ⟨j, hj⟩
      · exact .inl (by simp [h])
      · refine .inr ⟨j, ?_⟩
        show (if j = i then none else (held s).hnd j) = some l
        rw [if_neg (by rintro rfl; rw [hi] at hj; exact hln (Option.some.inj hj).symm)]; exact hj

/-- C60.  On a host that can find the files it has opened, and with a client that clones no open fid, opens
none twice, and neither attaches nor walks an open fid over itself: after any history every file that was
opened was closed exactly once or is held by exactly one fid.  (The full statement lacks the conditions; see
the counterexamples below.) -/
theorem C60_closed_partial (hv : ¬ Vanishes host) {root : GoString} {w : ω} {s' : State (Tr ω) (Nat × H)} {h : List Event}
    (hh : Hist (traced host) user Tidy Elsewhere (newFS root { w := w }) h s') :
    (∀ n < s'.world.opened,
      (n ∈ s'.world.closed ∧ ∀ i f x, s'.files i = some f → f.file = some x → x.1 ≠ n) ∨
      (n ∉ s'.world.closed ∧ ∃ i f x, s'.files i = some f ∧ f.file = some x ∧ x.1 = n ∧
        ∀ j g y, s'.files j = some g → g.file = some y → y.1 = n → j = i)) ∧
    s'.world.closed.Nodup ∧ (∀ n ∈ s'.world.closed, n < s'.world.opened) := by
  have hs : Sound (held s') ∧ Kept (held s') := by
    refine Hist.invariant (traced host) user (I := fun s => Sound (held s) ∧ Kept (held s)) ?_ ?_ hh
      ⟨sound_new root w, fun n hn => absurd hn (Nat.not_lt_zero _)⟩
    · intro s t ht hi
      have : held { s with world := t } = held s := by
        rw [held_world, ht.1, ht.2]; rfl
      rw [this]; exact hi
    · exact fun s m s' hp hi hc => ⟨hi.1.step host user hp.1 hc, hi.2.step host user hv hp hc⟩
  obtain ⟨hs, hk⟩ := hs
  refine ⟨?_, hs.once, hs.past⟩
  intro n hn
  by_cases hc : n ∈ s'.world.closed
  · refine .inl ⟨hc, ?_⟩
    rintro i f x hi hx rfl
    exact hs.live i x.1 (by rw [held_none hi, hx]; rfl) hc
  · refine .inr ⟨hc, ?_⟩
    rcases hk n hn with h | ⟨i, hi⟩
    · exact absurd h hc
    · have hi' := hi
      unfold held at hi'
      simp only [Option.bind_eq_some_iff, Option.map_eq_some_iff] at hi'
      obtain ⟨f, hf, x, hx, hxn⟩ := hi'
      refine ⟨i, f, x, hf, hx, hxn, ?_⟩
      intro j g y hj hy hyn
      exact hs.apart j i n (by rw [held_none hj, hy, ← hyn]; rfl) hi

/-- C60: when no fid is in use any more, all files that were opened have been closed -/
theorem C60_all_closed_partial (hv : ¬ Vanishes host) {root : GoString} {w : ω} {s' : State (Tr ω) (Nat × H)} {h : List Event}
    (hh : Hist (traced host) user Tidy Elsewhere (newFS root { w := w }) h s') (he : ∀ i, ¬ inUse h i) :
    ∀ n < s'.world.opened, n ∈ s'.world.closed := by
  intro n hn
  rcases (C60_closed_partial host user hv hh).1 n hn with ⟨h, _⟩ | ⟨_, i, f, x, hf, _⟩
  · exact h
  · have := (hist_inUse (traced host) user hh i).1 (by rw [hf]; rfl)
    simp [newFS, he] at this

/-- C60: whatever happened before, clunk and remove of an open fid close its file -/
theorem C60_clunk_closes {fid : FID} {s s' : State (Tr ω) (Nat × H)} {f : File (Nat × H)} {x : Nat × H} {m : TMsg}
    (hm : m = .clunk ⟨fid⟩ ∨ m = .remove ⟨fid⟩) (hf : s.files fid = some f) (hx : f.file = some x)
    (h : (call (ufs (traced host) user) m s).state? = some s') :
    s'.world.closed = x.1 :: s.world.closed := by
  obtain ⟨w, hc, hw⟩ := clunk_some (traced host) hf
  rw [hx] at hw
  rcases hm with rfl | rfl
  · simp only [call, state?_mapRes, ufs] at h
    unfold rclunk at h
    rw [hc] at h
    simp only [NRes.state?, Option.some.injEq] at h
    subst h; subst hw; rfl
  · simp only [call, state?_mapRes, ufs] at h
    unfold rremove at h
    rw [hc] at h
    subst hw
    dsimp only at h
    split at h <;>
    · rename_i hr
      have := congrArg Prod.fst hr
      simp only [NRes.state?, Option.some.injEq] at h
      subst h
      dsimp only at this ⊢
      rw [← this]; rfl

/-! ### the numbers are only an observation -/

/-- without the numbers -/
def bareFile (f : File (Nat × H)) : File H := { qid := f.qid, fullName := f.fullName, file := f.file.map (·.2), oflow := f.oflow }
def bare (s : State (Tr ω) (Nat × H)) : State ω H where
  rootPath := s.rootPath
  Versioned := s.Versioned
  IOunit := s.IOunit
  files i := (s.files i).map bareFile
  world := s.world.w

def _root_.Ninep.NRes.mapS {σ τ α : Type} (f : σ → τ) : NRes σ α → NRes τ α
  | .panic => .panic
  | .ok s a => .ok (f s) a
  | .err s e => .err (f s) e

theorem bare_set (s : State (Tr ω) (Nat × H)) (i : FID) (f : File (Nat × H)) : bare (s.set i f) = (bare s).set i (bareFile f) := by
  unfold bare State.set
  congr 1
  funext j
  by_cases h : j = i <;> simp [h]

theorem bare_del (s : State (Tr ω) (Nat × H)) (i : FID) : bare (s.del i) = (bare s).del i := by
  unfold bare State.del
  congr 1
  funext j
  by_cases h : j = i <;> simp [h]

theorem mapS_mapRes {σ τ α β : Type} (f : σ → τ) (g : α → β) (r : NRes σ α) :
    (mapRes g r).mapS f = mapRes g (r.mapS f) := by cases r <;> rfl

theorem bare_walkLoop (p : GoString) (t : Tr ω) (names : List GoString) :
    walkLoop (traced host) p t names =
      ({ t with w := (walkLoop host p t.w names).1 }, (walkLoop host p t.w names).2) := by
  induction names generalizing p t with
  | nil => rfl
  | cons n ns ih =>
    unfold walkLoop
    simp only [traced]
    generalize host.lstat (pathJoin p n) t.w = r
    obtain ⟨w', r⟩ := r
    cases r with
    | error e => rfl
    | ok st =>
      dsimp only
      exact congrArg (fun x : Tr ω × List QID × Option GoString => (x.1, fileInfoToQID st :: x.2.1, x.2.2)) (ih _ _)

theorem bare_readDir (fid : FID) (f : File (Nat × H)) (h : Nat × H) (c : Count) (s : State (Tr ω) (Nat × H)) :
    (readDir (traced host) user fid f h c s).mapS bare = readDir host user fid (bareFile f) h.2 c (bare s) := by
  unfold readDir
  simp only [traced, set_world]
  have e0 : (bareFile f).oflow = f.oflow := rfl
  have e1 : (bare s).world = s.world.w := rfl
  have e2 : ∀ (w : ω) (o : Bytes), bare { s.set fid { f with oflow := o } with world := { s.world with w := w } } =
    { (bare s).set fid { bareFile f with oflow := o } with world := w } := by
    intro w o
    exact bare_set { s with world := { s.world with w := w } } fid { f with oflow := o }
  rw [e0, e1]
  split
  · simp only [NRes.mapS, bare_set]
    rfl
  · generalize host.readdir1 h.2 s.world.w = r
    obtain ⟨w, r⟩ := r
    cases r with
    | eof => exact congrArg (NRes.ok · _) (e2 _ _)
    | fail e => exact congrArg (NRes.err · _) (e2 _ _)
    | entry fi =>
      dsimp only
      split
      · exact congrArg (NRes.ok · _) (e2 _ _)
      · exact congrArg (NRes.ok · _) (e2 _ _)

/-- the results of a part of wstat correspond -/
def Same (r : State (Tr ω) (Nat × H) × Option GoString) (r' : State ω H × Option GoString) : Prop :=
  bare r.1 = r'.1 ∧ r.2 = r'.2

theorem Same.andThen {r : State (Tr ω) (Nat × H) × Option GoString} {r' : State ω H × Option GoString}
    {k : State (Tr ω) (Nat × H) → State (Tr ω) (Nat × H) × Option GoString} {k' : State ω H → State ω H × Option GoString}
    (h : Same r r') (hk : ∀ s, Same (k s) (k' (bare s))) : Same (andThen r k) (andThen r' k') := by
  obtain ⟨s, e⟩ := r
  obtain ⟨s', e'⟩ := r'
  obtain ⟨h1, h2⟩ := h
  dsimp only at h1 h2
  subst h1; subst h2
  cases e with
  | none => exact hk s
  | some e => exact ⟨rfl, rfl⟩

theorem bare_wstat (fid : FID) (f : File (Nat × H)) (dir : Dir) (s : State (Tr ω) (Nat × H)) :
    Same (wstatRun (traced host) fid f dir s) (wstatRun host fid (bareFile f) dir (bare s)) := by
  unfold wstatRun
  refine Same.andThen ?_ fun s1 => Same.andThen ?_ fun s2 => Same.andThen ?_ fun s3 =>
    Same.andThen ?_ fun s4 => Same.andThen ?_ fun s5 => ?_
  · unfold wstatMode
    split
    · exact ⟨rfl, rfl⟩
    · exact ⟨rfl, rfl⟩
  · unfold wstatUser
    split
    · exact ⟨rfl, rfl⟩
    · exact ⟨rfl, rfl⟩
  · unfold wstatName
    split
    · have hd : ∀ q, isDirNow (traced host) q s2.world =
          ({ s2.world with w := (isDirNow host q s2.world.w).1 }, (isDirNow host q s2.world.w).2) := by
        intro q
        unfold isDirNow
        simp only [traced]
        generalize host.stat q s2.world.w = r
        obtain ⟨w', r⟩ := r
        cases r <;> rfl
      dsimp only
      rw [hd]
      have e1 : renameTo (bare s2).rootPath (bareFile f).fullName dir.Name = renameTo s2.rootPath f.fullName dir.Name := rfl
      have e2 : (bare s2).world = s2.world.w := rfl
      rw [e1, e2]
      split
      · exact ⟨rfl, rfl⟩
      · refine Same.andThen ⟨rfl, rfl⟩ fun s => ⟨bare_set _ _ _, rfl⟩
    · exact ⟨rfl, rfl⟩
  · unfold wstatLength
    split
    · exact ⟨rfl, rfl⟩
    · exact ⟨rfl, rfl⟩
  · unfold wstatTimes
    have e1 : wstatPath (bareFile f) dir (bare s) = wstatPath f dir s := rfl
    rw [e1]
    split
    · dsimp only
      split
      · simp only [traced]
        have e2 : (bare s4).world = s4.world.w := rfl
        rw [e2]
        generalize host.stat (wstatPath f dir s) s4.world.w = r
        obtain ⟨w', r⟩ := r
        cases r with
        | error e => exact ⟨rfl, rfl⟩
        | ok st => exact ⟨rfl, rfl⟩
      · exact ⟨rfl, rfl⟩
    · exact ⟨rfl, rfl⟩
  · unfold wstatSync
    have e1 : (bareFile f).file = f.file.map (·.2) := rfl
    rw [e1]
    cases f.file with
    | none => exact ⟨rfl, rfl⟩
    | some h =>
      dsimp only [Option.map]
      split
      · exact ⟨rfl, rfl⟩
      · exact ⟨rfl, rfl⟩

theorem bare_files {s : State (Tr ω) (Nat × H)} {i : FID} {o : Option (File (Nat × H))} (h : s.files i = o) :
    (bare s).files i = o.map bareFile := by
  show (s.files i).map bareFile = _
  rw [h]

theorem bare_set' {s : State (Tr ω) (Nat × H)} {t : State ω H} {i : FID} {f : File (Nat × H)} {g : File H}
    (ht : t = bare s) (hg : g = bareFile f) : t.set i g = bare (s.set i f) := by
  rw [ht, hg, bare_set]

theorem bare_set_world {s : State (Tr ω) (Nat × H)} {i : FID} {f : File (Nat × H)} {g : File H} {w : Tr ω} {w' : ω}
    (hw : w' = w.w) (hg : g = bareFile f) : { (bare s).set i g with world := w' } = bare { s.set i f with world := w } := by
  rw [hw, hg]
  exact (bare_set { s with world := w } i f).symm

theorem bare_del_world {s : State (Tr ω) (Nat × H)} {i : FID} {w : Tr ω} {w' : ω} (hw : w' = w.w) :
    { (bare s).del i with world := w' } = bare { s.del i with world := w } := by
  rw [hw]
  exact (bare_del { s with world := w } i).symm

/-- The numbered host behaves like the host: every request gets the same answer and has the same effect. -/
theorem traced_same (m : TMsg) (s : State (Tr ω) (Nat × H)) :
    call (ufs host user) m (bare s) = (call (ufs (traced host) user) m s).mapS bare := by
  cases m with
  | version p =>
    simp only [call, mapS_mapRes, ufs]
    unfold rversion
    split <;> rfl
  | flush p => rfl
  | attach p =>
    simp only [call, mapS_mapRes, ufs]
    congr 1
    unfold rattach
    split
    · rfl
    · dsimp only
      have : (traced host).stat (pathJoin s.rootPath (pathJoin [slash] p.Aname)) s.world =
        ({ s.world with w := (host.stat (pathJoin s.rootPath (pathJoin [slash] p.Aname)) s.world.w).1 },
          (host.stat (pathJoin s.rootPath (pathJoin [slash] p.Aname)) s.world.w).2) := rfl
      rw [this]
      show (match host.stat (pathJoin s.rootPath (pathJoin [slash] p.Aname)) s.world.w with
        | (w, .error e) => NRes.err { bare s with world := w } e
        | (w, .ok st) => _) = _
      generalize host.stat (pathJoin s.rootPath (pathJoin [slash] p.Aname)) s.world.w = x
      obtain ⟨w, x⟩ := x
      cases x with
      | error e => rfl
      | ok st => exact congrArg (NRes.ok · _) (bare_set' rfl rfl)
  | walk p =>
    simp only [call, mapS_mapRes, ufs]
    congr 1
    unfold rwalk
    cases hf : s.files p.SFID with
    | none => rw [bare_files hf]; rfl
    | some f =>
      rw [bare_files hf]
      dsimp only [Option.map]
      split
      · cases hn : s.files p.NewFID with
        | none => rw [bare_files hn]; exact congrArg (NRes.ok · _) (bare_set' rfl rfl)
        | some g => rw [bare_files hn]; rfl
      · rw [bare_walkLoop]
        show (match walkLoop host f.fullName s.world.w p.Paths with
          | (w, q, none) => _
          | (w, q, some p) => _) = _
        generalize walkLoop host f.fullName s.world.w p.Paths = r
        obtain ⟨w, q, r⟩ := r
        cases r with
        | none =>
          dsimp only
          split <;> rfl
        | some x =>
          dsimp only
          have : ((bare s).files p.NewFID).isSome = (s.files p.NewFID).isSome := by
            show ((s.files p.NewFID).map bareFile).isSome = _
            cases s.files p.NewFID <;> rfl
          rw [this]
          split
          · rfl
          · exact congrArg (NRes.ok · _) (bare_set' rfl rfl)
  | open_ p =>
    simp only [call, mapS_mapRes, ufs]
    congr 1
    unfold ropen
    cases hf : s.files p.OFID with
    | none => rw [bare_files hf]; rfl
    | some f =>
      rw [bare_files hf]
      dsimp only [Option.map]
      show (match host.openFile f.fullName (modeToUnixFlags p.Omode) 0 s.world.w with
        | (w, .error e) => _
        | (w, .ok h) => _) = _
      have : (traced host).openFile f.fullName (modeToUnixFlags p.Omode) 0 s.world =
        match host.openFile f.fullName (modeToUnixFlags p.Omode) 0 s.world.w with
        | (w, .error e) => ({ s.world with w := w }, .error e)
        | (w, .ok h) => ({ s.world with w := w, opened := s.world.opened + 1 }, .ok (s.world.opened, h)) := rfl
      rw [this]
      generalize host.openFile f.fullName (modeToUnixFlags p.Omode) 0 s.world.w = r
      obtain ⟨w, r⟩ := r
      cases r with
      | error e => exact congrArg (NRes.err · _) (bare_set' rfl rfl)
      | ok h => exact congrArg (NRes.ok · _) (bare_set' rfl rfl)
  | create p =>
    simp only [call, mapS_mapRes, ufs]
    congr 1
    unfold rcreate
    cases hf : s.files p.OFID with
    | none => rw [bare_files hf]; rfl
    | some f =>
      rw [bare_files hf]
      dsimp only [Option.map]
      have h0 : (bareFile f).file.isSome = f.file.isSome := by
        show (f.file.map (·.2)).isSome = _
        cases f.file <;> rfl
      rw [h0]
      split
      · rfl
      · have hn : (bareFile f).fullName = f.fullName := rfl
        rw [hn]
        split
        · simp only [traced]
          have e1 : (bare s).world = s.world.w := rfl
          rw [e1]
          generalize (host.mkdir (pathJoin f.fullName p.Name) (p.CreatePerm &&& 0o777) s.world.w).1 = w
          generalize host.lstat (pathJoin f.fullName p.Name) w = r
          obtain ⟨w', r⟩ := r
          cases r with
          | error e => rfl
          | ok st => exact congrArg (NRes.ok · _) (bare_set' rfl rfl)
        · generalize modeToUnixFlags p.Omode ||| O_CREATE ||| O_TRUNC = fl
          generalize p.CreatePerm &&& 0o777 = pm
          have : (traced host).openFile (pathJoin f.fullName p.Name) fl pm s.world =
            match host.openFile (pathJoin f.fullName p.Name) fl pm s.world.w with
            | (w, .error e) => ({ s.world with w := w }, .error e)
            | (w, .ok h) => ({ s.world with w := w, opened := s.world.opened + 1 }, .ok (s.world.opened, h)) := rfl
          rw [this]
          have e1 : (bare s).world = s.world.w := rfl
          rw [e1]
          generalize host.openFile (pathJoin f.fullName p.Name) fl pm s.world.w = r
          obtain ⟨w, r⟩ := r
          cases r with
          | error e => rfl
          | ok h =>
            simp only [traced]
            generalize host.lstat (pathJoin f.fullName p.Name) w = r
            obtain ⟨w', r⟩ := r
            cases r with
            | error e => rfl
            | ok st => exact congrArg (NRes.ok · _) (bare_set' rfl rfl)
  | stat p =>
    simp only [call, mapS_mapRes, ufs]
    congr 1
    unfold rstat
    cases hf : s.files p.OFID with
    | none => rw [bare_files hf]; rfl
    | some f =>
      rw [bare_files hf]
      dsimp only [Option.map]
      simp only [traced]
      have e1 : (bare s).world = s.world.w := rfl
      have e2 : (bareFile f).fullName = f.fullName := rfl
      rw [e1, e2]
      generalize host.lstat f.fullName s.world.w = r
      obtain ⟨w', r⟩ := r
      cases r <;> rfl
  | wstat p =>
    simp only [call, mapS_mapRes, ufs]
    congr 1
    cases hf : s.files p.OFID with
    | none => rw [rwstat_none _ hf, rwstat_none _ (by rw [bare_files hf]; rfl)]; rfl
    | some f =>
      unfold rwstat
      rw [bare_files hf, hf]
      dsimp only [Option.map]
      cases hu : unmarshaldir (Buffer.ofBytes p.B) with
      | panic => rfl
      | done dir t err b' =>
        cases err with
        | some e => rfl
        | none =>
          have := bare_wstat host p.OFID f dir s
          unfold wstatRun at this
          dsimp only at this ⊢
          generalize andThen (wstatMode (traced host) f dir s) _ = r at this ⊢
          generalize andThen (wstatMode host (bareFile f) dir (bare s)) _ = r' at this ⊢
          obtain ⟨s1, e1⟩ := r
          obtain ⟨s2, e2⟩ := r'
          obtain ⟨h1, h2⟩ := this
          dsimp only at h1 h2
          subst h1; subst h2
          cases e1 <;> rfl
  | clunk p =>
    simp only [call, mapS_mapRes, ufs]
    congr 1
    unfold rclunk clunk
    cases hf : s.files p.OFID with
    | none => rw [bare_files hf]; rfl
    | some f =>
      rw [bare_files hf]
      dsimp only [Option.map]
      have e1 : (bareFile f).file = f.file.map (·.2) := rfl
      rw [e1]
      cases f.file with
      | none => exact congrArg (NRes.ok · _) (bare_del _ _).symm
      | some h => exact congrArg (NRes.ok · _) (bare_del_world rfl)
  | remove p =>
    simp only [call, mapS_mapRes, ufs]
    congr 1
    unfold rremove clunk
    cases hf : s.files p.OFID with
    | none => rw [bare_files hf]; rfl
    | some f =>
      rw [bare_files hf]
      dsimp only [Option.map]
      have e1 : (bareFile f).file = f.file.map (·.2) := rfl
      rw [e1]
      cases f.file with
      | none =>
        show (match host.remove f.fullName s.world.w with
          | (w, none) => _
          | (w, some e) => _) = _
        have : (traced host).remove f.fullName s.world =
          ({ s.world with w := (host.remove f.fullName s.world.w).1 }, (host.remove f.fullName s.world.w).2) := rfl
        dsimp only [del_world]
        rw [this]
        generalize host.remove f.fullName s.world.w = r
        obtain ⟨w, r⟩ := r
        cases r with
        | none => exact congrArg (NRes.ok · _) (bare_del_world rfl)
        | some e => exact congrArg (NRes.err · _) (bare_del_world rfl)
      | some h =>
        show (match host.remove f.fullName (host.close h.2 s.world.w).1 with
          | (w, none) => _
          | (w, some e) => _) = _
        have : (traced host).remove f.fullName ((traced host).close h s.world).1 =
          ({ s.world with closed := h.1 :: s.world.closed, w := (host.remove f.fullName (host.close h.2 s.world.w).1).1 },
            (host.remove f.fullName (host.close h.2 s.world.w).1).2) := rfl
        dsimp only [del_world]
        rw [this]
        generalize host.remove f.fullName (host.close h.2 s.world.w).1 = r
        obtain ⟨w, r⟩ := r
        cases r with
        | none => exact congrArg (NRes.ok · _) (bare_del_world rfl)
        | some e => exact congrArg (NRes.err · _) (bare_del_world rfl)
  | read p =>
    simp only [call, mapS_mapRes, ufs]
    congr 1
    unfold rread
    cases hf : s.files p.OFID with
    | none => rw [bare_files hf]; rfl
    | some f =>
      rw [bare_files hf]
      dsimp only [Option.map]
      have e1 : (bareFile f).file = f.file.map (·.2) := rfl
      rw [e1]
      cases hh : f.file with
      | none => rfl
      | some h =>
        dsimp only [Option.map]
        have e2 : (bareFile f).qid = f.qid := rfl
        rw [e2]
        split
        · split
          · rw [traced_seek0]
            show (match host.seek0 h.2 s.world.w with
              | (w, some e) => _
              | (w, none) => _) = _
            dsimp only [set_world]
            generalize host.seek0 h.2 s.world.w = r
            obtain ⟨w, r⟩ := r
            cases r with
            | some e => exact congrArg (NRes.err · _) (bare_set_world rfl rfl)
            | none =>
              refine Eq.trans ?_ (bare_readDir host user _ _ _ _ _).symm
              exact congrArg (readDir host user _ _ _ _) (bare_set_world rfl rfl)
          · exact (bare_readDir host user _ _ _ _ _).symm
        · split
          · rfl
          · show (match host.readAt h.2 p.Len.toInt.toNat p.Off.toInt64 s.world.w with
              | (w, _, .fail e) => _
              | (w, d, .none) => _
              | (w, d, .eof) => _) = _
            have : (traced host).readAt h p.Len.toInt.toNat p.Off.toInt64 s.world =
              ({ s.world with w := (host.readAt h.2 p.Len.toInt.toNat p.Off.toInt64 s.world.w).1 },
                (host.readAt h.2 p.Len.toInt.toNat p.Off.toInt64 s.world.w).2) := rfl
            rw [this]
            generalize host.readAt h.2 p.Len.toInt.toNat p.Off.toInt64 s.world.w = r
            obtain ⟨w, d, e⟩ := r
            cases e <;> rfl
  | write p =>
    simp only [call, mapS_mapRes, ufs]
    congr 1
    unfold rwrite
    cases hf : s.files p.OFID with
    | none => rw [bare_files hf]; rfl
    | some f =>
      rw [bare_files hf]
      dsimp only [Option.map]
      have e1 : (bareFile f).file = f.file.map (·.2) := rfl
      rw [e1]
      cases hh : f.file with
      | none => rfl
      | some h =>
        show (match host.writeAt h.2 p.Data p.Off.toInt64 s.world.w with
          | (w, n, none) => _
          | (w, _, some e) => _) = _
        have : (traced host).writeAt h p.Data p.Off.toInt64 s.world =
          ({ s.world with w := (host.writeAt h.2 p.Data p.Off.toInt64 s.world.w).1 },
            (host.writeAt h.2 p.Data p.Off.toInt64 s.world.w).2) := rfl
        dsimp only
        rw [this]
        generalize host.writeAt h.2 p.Data p.Off.toInt64 s.world.w = r
        obtain ⟨w, d, e⟩ := r
        cases e <;> rfl

end

/-! ### Examples and counterexamples -/

open Mem

/-- results on the example host with numbers -/
def runTr : List TMsg → State (Tr World) (Nat × Nat) → List (Option (Except GoString RMsg)) × State (Tr World) (Nat × Nat)
  | [], s => ([], s)
  | m :: ms, s =>
    match call (ufs (traced host) [103]) m s with
    | .panic => ([none], s)
    | .ok s' r => let x := runTr ms s'; (some (.ok r) :: x.1, x.2)
    | .err s' e => let x := runTr ms s'; (some (.error e) :: x.1, x.2)

def demoTr : State (Tr World) (Nat × Nat) := newFS [47, 120] { w := world0 }

def read1 : TMsg := .read { OFID := 1, Off := 0, Len := 2 }

/-- C47 does not hold: fid 1 is open, fid 2 is a clone of it; after clunking fid 2 a read of fid 1 fails -/
theorem C47_counterexample :
    (runAll [attach0, walk1, open1, .walk { SFID := 1, NewFID := 2 }, read1, .clunk { OFID := 2 }, read1] demo).1.drop 4 =
      [some (.ok (.read { Data := [1, 2] })), some (.ok (.clunk {})), some (.error (lit "file already closed"))] := rfl

/-- C60 does not hold: clone an open fid and clunk both, and the file is closed twice -/
theorem C60_counterexample_twice :
    (runTr [attach0, walk1, open1, .walk { SFID := 1, NewFID := 2 }, .clunk { OFID := 2 }, .clunk { OFID := 1 }] demoTr).2.world.closed =
      [0, 0] := rfl

/-- C60 does not hold: after a second open the first file is never closed, and likewise after attaching over
an open fid and after walking an open fid on to itself -/
theorem C60_counterexample_leak :
    ∀ l ∈ [[open1, open1, .clunk { OFID := 1 }],
        [open1, .attach { SFID := 1, AFID := 0xFFFFFFFF }, .clunk { OFID := 1 }],
        [open1, .walk { SFID := 1, NewFID := 1, Paths := [[46, 46]] }, .clunk { OFID := 1 }]],
      let s := (runTr (attach0 :: walk1 :: l ++ [.clunk { OFID := 0 }]) demoTr).2
      s.files 0 = none ∧ s.files 1 = none ∧ 0 < s.world.opened ∧ 0 ∉ s.world.closed := by
  intro l hl
  simp only [List.mem_cons, List.not_mem_nil, or_false] at hl
  rcases hl with rfl | rfl | rfl
  · exact ⟨rfl, rfl, by decide, by decide⟩
  · exact ⟨rfl, rfl, by decide, by decide⟩
  · exact ⟨rfl, rfl, by decide, by decide⟩

theorem lookup_append_self {p : GoString} {n : Nat} (l : List (GoString × Nat)) : ((l ++ [(p, n)]).lookup p).isSome := by
  induction l with
  | nil => simp [List.lookup]
  | cons x l ih =>
    rw [List.cons_append, List.lookup_cons]
    split
    · rfl
    · exact ih

/-- the example host finds the files it has opened -/
theorem mem_not_vanishes : ¬ Vanishes Mem.host := by
  rintro ⟨p, fl, perm, w, w', h, e, ho, hl⟩
  have ho : openFile p fl perm w = (w', .ok h) := ho
  have hl : Mem.stat p w' = .error e := hl
  have key : (find p w').isSome := by
    unfold openFile at ho
    cases hf : find p w with
    | some i =>
      rw [hf] at ho
      dsimp only at ho
      split at ho
      · cases ho
      · unfold addHandle at ho
        cases ho
        split
        · exact Option.isSome_iff_exists.2 ⟨i, hf⟩
        · exact Option.isSome_iff_exists.2 ⟨i, hf⟩
    | none =>
      rw [hf] at ho
      dsimp only at ho
      split at ho
      · unfold addHandle at ho
        cases ho
        exact lookup_append_self _
      · cases ho
  unfold Mem.stat at hl
  obtain ⟨i, hi⟩ := Option.isSome_iff_exists.1 key
  rw [hi] at hl
  cases hl

/-- C47, C60: a tidy history in which a file is opened, read and closed -/
example : ∃ h s', Hist (traced host) [103] Tidy Elsewhere demoTr h s' ∧ h.length = 6 ∧
    s'.world.opened = 1 ∧ s'.world.closed = [0] := by
  have a0 : ∀ f, (demoTr.files 0) = some f → f.file = none := fun f h => by cases h
  refine ⟨_, (runTr [attach0, walk1, open1, read1, .clunk { OFID := 1 }, .clunk { OFID := 0 }] demoTr).2,
    .ok (m := attach0) ⟨trivial, ?_⟩ rfl (.ok (m := walk1) ⟨?_, ?_⟩ rfl (.ok (m := open1) ⟨trivial, ?_⟩ rfl
    (.ok (m := read1) ⟨trivial, ?_⟩ rfl (.ok (m := .clunk { OFID := 1 }) ⟨trivial, ?_⟩ rfl
    (.ok (m := .clunk { OFID := 0 }) ⟨trivial, ?_⟩ rfl (.nil _)))))), rfl, rfl, rfl⟩
  · intro i hi f hf; cases hf
  · intro h; cases h
  · rintro i ⟨_, h1, h2⟩
    exact absurd (h1.trans h2.symm) (by decide)
  · intro i hi f hf
    have : i = 1 := hi.symm
    subst this
    have hf : some _ = some f := hf
    cases hf
    rfl
  · exact fun i hi => hi.elim
  · exact fun i hi => hi.elim
  · exact fun i hi => hi.elim

end Ninep.Ufs
