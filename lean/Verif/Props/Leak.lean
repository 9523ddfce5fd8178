import Verif.Props.UfsHandles

set_option linter.unusedSimpArgs false
set_option linter.unusedVariables false

/-
C60 without conditions on the client: which open files are lost, and by which requests.
-/

namespace Ninep.Ufs
open Spec

variable {ω H : Type} (host : Host ω H) (user : GoString)

/-- the file with the number `n` was opened, has not been closed, and no fid holds it -/
def Leaked (s : State (Tr ω) (Nat × H)) (n : Nat) : Prop :=
  n < s.world.opened ∧ n ∉ s.world.closed ∧ ∀ i f x, s.files i = some f → f.file = some x → x.1 ≠ n

/-- fid `i` holds the file with the number `n` -/
def Holds (s : State (Tr ω) (Nat × H)) (i : FID) (n : Nat) : Prop := ∃ f x, s.files i = some f ∧ f.file = some x ∧ x.1 = n

theorem held_holds (s : State (Tr ω) (Nat × H)) (i : FID) (n : Nat) : (held s).hnd i = some n ↔ Holds s i n := by
  unfold held Holds
  simp only [Option.bind_eq_some_iff, Option.map_eq_some_iff]
  constructor
  · rintro ⟨f, hf, x, hx, hn⟩; exact ⟨f, x, hf, hx, hn⟩
  · rintro ⟨f, x, hf, hx, hn⟩; exact ⟨f, hf, x, hx, hn⟩

/-- `Leaked` of the observation -/
def Held.Leaked (a : Held) (n : Nat) : Prop := n < a.opened ∧ n ∉ a.closed ∧ ∀ i, a.hnd i ≠ some n

theorem leaked_iff (s : State (Tr ω) (Nat × H)) (n : Nat) : Leaked s n ↔ (held s).Leaked n := by
  refine and_congr Iff.rfl (and_congr Iff.rfl ⟨fun h i hi => ?_, fun h i f x hf hx hn => ?_⟩)
  · obtain ⟨f, x, hf, hx, hn⟩ := (held_holds s i n).1 hi
    exact h i f x hf hx hn
  · exact h i ((held_holds s i n).2 ⟨f, x, hf, hx, hn⟩)

theorem leaked_step {m : TMsg} {a b : Held} (hs : Step host m a b) {n : Nat} (h : a.Leaked n) : b.Leaked n := by
  obtain ⟨h1, h2, h3⟩ := h
  have put (i : FID) (x : Option Nat) (hx : x ≠ some n) (j : FID) : (a.put i x).hnd j ≠ some n := fun hj => by
    rcases put_eq_some hj with ⟨_, h⟩ | ⟨_, h⟩
    · exact hx h
    · exact h3 j h
  cases hs with
  | same => exact ⟨h1, h2, h3⟩
  | forget i _ => exact ⟨h1, h2, put i none (by simp)⟩
  | share i j _ _ => exact ⟨h1, h2, put j _ (h3 i)⟩
  | opens i _ => exact ⟨Nat.lt_succ_of_lt h1, h2, put i _ (by simp; omega)⟩
  | lost _ => exact ⟨Nat.lt_succ_of_lt h1, h2, h3⟩
  | closes i k _ hi =>
    refine ⟨h1, fun hc => ?_, put i none (by simp)⟩
    rcases List.mem_cons.1 hc with rfl | hc
    · exact h3 i hi
    · exact h2 hc

/-- C60: a file that is lost stays open as long as the process lives: no request can close it any more. -/
theorem C60_leaked_stays {s s' : State (Tr ω) (Nat × H)} {h : List Event} (hh : Hist (traced host) user AnyReq Elsewhere s h s')
    {n : Nat} (hl : Leaked s n) : Leaked s' n := by
  refine Hist.invariant (traced host) user (I := fun s => Leaked s n) ?_ ?_ hh hl
  · intro s t ht hi
    rw [leaked_iff] at hi ⊢
    have : held { s with world := t } = held s := by
      rw [held_world, ht.1, ht.2]; rfl
    rw [this]; exact hi
  · intro s m s' _ hi hc
    rw [leaked_iff] at hi ⊢
    exact leaked_step host (step_held host user hc) hi

/-- C60: a file is lost only by an attach, an open or a walk of the one fid that holds it to itself, or when the
operating system does not find a file that it has just opened. -/
theorem C60_leak_cause {m : TMsg} {s s' : State (Tr ω) (Nat × H)} (hc : (call (ufs (traced host) user) m s).state? = some s') {n : Nat}
    (h0 : ¬ Leaked s n) (h1 : Leaked s' n) :
    (∃ i, Forgets m i ∧ Holds s i n ∧ ∀ j, Holds s j n → j = i) ∨ (n = s.world.opened ∧ Vanishes host) := by
  rw [leaked_iff] at h0 h1
  simp only [← held_holds]
  show _ ∨ (n = (held s).opened ∧ _)
  have hs := step_held host user hc
  generalize held s' = b at hs h1
  generalize held s = a at hs h0
  obtain ⟨h1, h2, h3⟩ := h1
  have none (i : FID) (x : Option Nat) (hlt : n < a.opened) (hcl : n ∉ a.closed) (hn : ∀ j, (a.put i x).hnd j ≠ some n) :
      a.hnd i = some n ∧ ∀ j, a.hnd j = some n → j = i := by
    have key : ∀ j, a.hnd j = some n → j = i := fun j hj => Classical.byContradiction fun hne => hn j (by simp [Held.put, hne, hj])
    refine ⟨Classical.byContradiction fun hi => h0 ⟨hlt, hcl, fun j hj => ?_⟩, key⟩
    have := key j hj
    subst this
    exact hi hj
  cases hs with
  | same => exact absurd ⟨h1, h2, h3⟩ h0
  | forget i hf => exact .inl ⟨i, hf, none i _ h1 h2 h3⟩
  | share i j _ hj =>
    have := none j _ h1 h2 h3
    rw [hj] at this
    cases this.1
  | opens i hx =>
    by_cases hn : n = a.opened
    · exact absurd (by simp [Held.put, hn]) (h3 i)
    · have := none i _ (by simp at h1; omega) h2 h3
      rcases hx with ⟨p, rfl, hi⟩ | hx
      · exact .inl ⟨i, hi, this⟩
      · rw [hx] at this; cases this.1
  | lost hv =>
    by_cases hn : n = a.opened
    · exact .inr ⟨hn, hv⟩
    · exact absurd ⟨by simp at h1; omega, h2, h3⟩ h0
  | closes i k _ hi =>
    have h2' : n ≠ k ∧ n ∉ a.closed := by simpa using h2
    have := none i _ h1 h2'.2 h3
    rw [hi] at this
    exact absurd (Option.some.inj this.1).symm h2'.1

/-- requests that do make fid `i` forget its file: an attach that succeeds, any open, and a walk to itself that
succeeds in all its elements -/
def Drops (m : TMsg) (s s' : State (Tr ω) (Nat × H)) (i : FID) : Prop :=
  match m with
  | .attach p => p.SFID = i ∧ ∃ r, call (ufs (traced host) user) m s = .ok s' r
  | .open_ p => p.OFID = i ∧ (call (ufs (traced host) user) m s).state? = some s'
  | .walk p => p.Paths ≠ [] ∧ p.SFID = i ∧ p.NewFID = i ∧
      ∃ q, call (ufs (traced host) user) m s = .ok s' (.walk ⟨q⟩) ∧ q.length = p.Paths.length
  | _ => False

theorem leak_of {s s' : State (Tr ω) (Nat × H)} {i : FID} {n : Nat} (hn : n < s.world.opened) (hcl : n ∉ s.world.closed)
    (hi : ∀ j, Holds s j n → j = i) (h1 : s'.world.closed = s.world.closed) (h2 : s.world.opened ≤ s'.world.opened)
    (h3 : ∀ j, j ≠ i → s'.files j = s.files j) (h4 : ∀ f x, s'.files i = some f → f.file = some x → x.1 = s.world.opened) :
    Leaked s' n := by
  refine ⟨by omega, by rw [h1]; exact hcl, fun j f x hf hx hxn => ?_⟩
  by_cases hj : j = i
  · subst hj
    have := h4 f x hf hx
    omega
  · rw [h3 j hj] at hf
    exact hj (hi j ⟨f, x, hf, hx, hxn⟩)

/-- C60: these requests do lose the file: it stays open and no fid holds it. -/
theorem C60_leaks {m : TMsg} {s s' : State (Tr ω) (Nat × H)} {i : FID} {n : Nat} (hd : Drops host user m s s' i)
    (hn : n < s.world.opened) (hcl : n ∉ s.world.closed) (hh : Holds s i n) (hi : ∀ j, Holds s j n → j = i) : Leaked s' n := by
  cases m with
  | attach p =>
    obtain ⟨rfl, r, hc⟩ := hd
    simp only [call, ufs] at hc
    unfold rattach at hc
    split at hc
    · cases hc
    · dsimp only [traced] at hc
      cases hst : (host.stat (pathJoin s.rootPath (pathJoin [slash] p.Aname)) s.world.w).2 with
      | error e => rw [hst] at hc; cases hc
      | ok st =>
        rw [hst] at hc
        cases hc
        exact leak_of hn hcl hi rfl (Nat.le_refl _) (fun j hj => by simp [State.set, hj]) (fun f x hf hx => by
          simp [State.set] at hf
          subst hf
          cases hx)
  | open_ p =>
    obtain ⟨rfl, hc⟩ := hd
    obtain ⟨f, x, hf, hx, -⟩ := hh
    simp only [call, ufs, state?_mapRes] at hc
    unfold ropen at hc
    rw [hf] at hc
    dsimp only [traced] at hc
    cases ho : host.openFile f.fullName (modeToUnixFlags p.Omode) 0 s.world.w with
    | mk w r =>
      rw [ho] at hc
      cases r with
      | error e =>
        simp only [NRes.state?, Option.some.injEq] at hc
        subst hc
        exact leak_of hn hcl hi rfl (Nat.le_refl _) (fun j hj => by simp [State.set, hj]) (fun f x hf hx => by
          simp [State.set] at hf
          subst hf
          cases hx)
      | ok h =>
        simp only [NRes.state?, Option.some.injEq] at hc
        subst hc
        exact leak_of hn hcl hi rfl (Nat.le_succ _) (fun j hj => by simp [State.set, hj]) (fun f x hf hx => by
          simp [State.set] at hf
          subst hf
          simp at hx
          rw [← hx])
  | walk p =>
    obtain ⟨hp, rfl, hnew, q, hc, hq⟩ := hd
    obtain ⟨f, x, hf, hx, -⟩ := hh
    simp only [call, ufs] at hc
    unfold rwalk at hc
    rw [hf, hnew] at hc
    dsimp only at hc
    rw [if_neg hp] at hc
    have hsp := walkLoop_spec (traced host) f.fullName s.world p.Paths
    have hel : Elsewhere s.world (walkLoop (traced host) f.fullName s.world p.Paths).1 :=
      walkLoop_rel (traced host) (R := Elsewhere) Elsewhere.refl Elsewhere.trans (traced_lstat host) _ _ _
    generalize walkLoop (traced host) f.fullName s.world p.Paths = r at *
    obtain ⟨w, q', o⟩ := r
    cases o with
    | none =>
      dsimp only at hc
      have := (hsp.2.2.1 rfl).1
      dsimp only at this
      split at hc
      · cases hc
      · cases hc
        omega
    | some pth =>
      simp only [ne_eq, not_true_eq_false, false_and, if_false] at hc
      cases hc
      exact leak_of hn hcl hi hel.2 (Nat.le_of_eq hel.1.symm)
        (fun j hj => by simp [State.set, hj]) (fun f x hf hx => by
          simp [State.set] at hf
          subst hf
          cases hx)
  | _ => exact hd.elim

/-! ### files closed under a fid (C47) -/

/-- C60: files are closed only by a clunk or remove of a fid that holds them, one at a time. -/
theorem C60_closes {m : TMsg} {s s' : State (Tr ω) (Nat × H)} (hc : (call (ufs (traced host) user) m s).state? = some s')
    (h : s'.world.closed ≠ s.world.closed) :
    ∃ i n, s'.world.closed = n :: s.world.closed ∧ (m = .clunk ⟨i⟩ ∨ m = .remove ⟨i⟩) ∧ Holds s i n := by
  have hs := step_held host user hc
  simp only [← held_holds]
  change (held s').closed ≠ (held s).closed at h
  show ∃ i n, (held s').closed = n :: (held s).closed ∧ _
  generalize held s' = b at hs h
  generalize held s = a at hs h
  cases hs with
  | closes i n hm hi => exact ⟨i, n, rfl, hm, hi⟩
  | _ => exact absurd rfl h

/-- fid `j` holds the file with the number `n`, and the file has been closed -/
def Stale (s : State (Tr ω) (Nat × H)) (j : FID) (n : Nat) : Prop := Holds s j n ∧ n ∈ s.world.closed

/-- what was closed or is held was opened -/
theorem hist_past {root : GoString} {w : ω} {s : State (Tr ω) (Nat × H)} {h : List Event}
    (hh : Hist (traced host) user AnyReq Elsewhere (newFS root { w := w }) h s) :
    (∀ n ∈ s.world.closed, n < s.world.opened) ∧ ∀ i n, Holds s i n → n < s.world.opened := by
  have : (∀ n ∈ (held s).closed, n < (held s).opened) ∧ ∀ i n, (held s).hnd i = some n → n < (held s).opened := by
    refine Hist.invariant (traced host) user (I := fun s => (∀ n ∈ (held s).closed, n < (held s).opened) ∧
      ∀ i n, (held s).hnd i = some n → n < (held s).opened) ?_ ?_ hh ⟨by simp [held, newFS], by simp [held, newFS]⟩
    · intro s t ht hi
      have : held { s with world := t } = held s := by
        rw [held_world, ht.1, ht.2]; rfl
      rw [this]; exact hi
    · intro s m s' _ hi hc
      have hs := step_held host user hc
      generalize held s' = b at hs
      generalize held s = a at hs hi
      obtain ⟨h1, h2⟩ := hi
      have put {i : FID} {x : Option Nat} {k : Nat} (hx : ∀ n, x = some n → n < k) (hk : a.opened ≤ k) (j : FID) (n : Nat)
          (hj : (a.put i x).hnd j = some n) : n < k := by
        rcases put_eq_some hj with ⟨_, h⟩ | ⟨_, h⟩
        · exact hx n h
        · exact Nat.lt_of_lt_of_le (h2 j n h) hk
      cases hs with
      | same => exact ⟨h1, h2⟩
      | forget i _ => exact ⟨h1, put (by simp) (Nat.le_refl _)⟩
      | share i j _ _ => exact ⟨h1, put (h2 i) (Nat.le_refl _)⟩
      | opens i _ => exact ⟨fun n hn => Nat.lt_succ_of_lt (h1 n hn), put (by simp) (Nat.le_succ _)⟩
      | lost _ => exact ⟨fun n hn => Nat.lt_succ_of_lt (h1 n hn), fun i n hi => Nat.lt_succ_of_lt (h2 i n hi)⟩
      | closes i k _ hi =>
        refine ⟨fun n hn => ?_, put (by simp) (Nat.le_refl _)⟩
        rcases List.mem_cons.1 hn with rfl | hn
        · exact h2 i n hi
        · exact h1 n hn
  exact ⟨this.1, fun i n hi => this.2 i n ((held_holds s i n).2 hi)⟩

/-- C47: a fid finds its file closed only because another fid with the same file was clunked or removed, or because
it was made as a clone of such a fid. -/
theorem C47_stale_cause {root : GoString} {w : ω} {s s' : State (Tr ω) (Nat × H)} {h : List Event}
    (hh : Hist (traced host) user AnyReq Elsewhere (newFS root { w := w }) h s) {m : TMsg}
    (hc : (call (ufs (traced host) user) m s).state? = some s') {j : FID} {n : Nat} (h0 : ¬ Stale s j n) (h1 : Stale s' j n) :
    (∃ i, i ≠ j ∧ (m = .clunk ⟨i⟩ ∨ m = .remove ⟨i⟩) ∧ Holds s i n ∧ Holds s j n) ∨
    (∃ p, m = .walk p ∧ p.Paths = [] ∧ p.NewFID = j ∧ Stale s p.SFID n) := by
  obtain ⟨hp, -⟩ := hist_past host user hh
  unfold Stale at *
  have hs := step_held host user hc
  simp only [← held_holds] at *
  change ∀ n ∈ (held s).closed, n < (held s).opened at hp
  change ¬ ((held s).hnd j = some n ∧ n ∈ (held s).closed) at h0
  change (held s').hnd j = some n ∧ n ∈ (held s').closed at h1
  show _ ∨ (∃ p, m = .walk p ∧ p.Paths = [] ∧ p.NewFID = j ∧ (held s).hnd p.SFID = some n ∧ n ∈ (held s).closed)
  generalize held s' = b at hs h1
  generalize held s = a at hs h0 hp
  obtain ⟨h1, h2⟩ := h1
  cases hs with
  | same => exact absurd ⟨h1, h2⟩ h0
  | forget i _ =>
    rcases put_eq_some h1 with ⟨_, h⟩ | ⟨_, h⟩
    · cases h
    · exact absurd ⟨h, h2⟩ h0
  | share i k hx _ =>
    rcases put_eq_some h1 with ⟨rfl, h⟩ | ⟨_, h⟩
    · obtain ⟨p, rfl, e1, rfl, rfl⟩ := hx
      exact .inr ⟨p, rfl, e1, rfl, h, h2⟩
    · exact absurd ⟨h, h2⟩ h0
  | opens i _ =>
    rcases put_eq_some h1 with ⟨_, h⟩ | ⟨_, h⟩
    · have := hp n h2
      simp at h
      omega
    · exact absurd ⟨h, h2⟩ h0
  | lost _ => exact absurd ⟨h1, h2⟩ h0
  | closes i k hm hi =>
    rcases put_eq_some h1 with ⟨_, h⟩ | ⟨hne, h⟩
    · cases h
    · rcases List.mem_cons.1 h2 with rfl | h2
      · exact .inl ⟨i, Ne.symm hne, hm, hi, h⟩
      · exact absurd ⟨h, h2⟩ h0

/-- C47: and it always does: a clunk or remove of a fid closes the file under every other fid that holds it. -/
theorem C47_stale {m : TMsg} {s s' : State (Tr ω) (Nat × H)} (hc : (call (ufs (traced host) user) m s).state? = some s')
    {i j : FID} {n : Nat} (hm : m = .clunk ⟨i⟩ ∨ m = .remove ⟨i⟩) (hne : i ≠ j) (hi : Holds s i n) (hj : Holds s j n) : Stale s' j n := by
  obtain ⟨f, x, hf, hx, rfl⟩ := hi
  have h1 := C60_clunk_closes host user hm hf hx hc
  have hs := step_held host user hc
  refine ⟨?_, by rw [h1]; simp⟩
  rw [← held_holds] at hj ⊢
  change (held s').closed = x.1 :: (held s).closed at h1
  have hfi : (held s).hnd i = some x.1 := (held_holds s i x.1).2 ⟨f, x, hf, hx, rfl⟩
  generalize held s' = b at hs h1 ⊢
  generalize held s = a at hs h1 hj hfi
  cases hs with
  | closes k l hm' hk =>
    have : k = i := by
      rcases hm with rfl | rfl <;> rcases hm' with e | e <;> cases e <;> rfl
    subst this
    simpa [Held.put, Ne.symm hne] using hj
  | _ => exact absurd h1 (by intro e; have := congrArg List.length e; simp [Held.put] at this)

/-- the hypotheses can be met: fid 2 is a clone of the open fid 1 -/
example : let s := (runTr [attach0, walk1, open1, .walk { SFID := 1, NewFID := 2 }] demoTr).2
    ∃ s', (call (ufs (traced Mem.host) [103]) (.clunk ⟨2⟩) s).state? = some s' ∧ Holds s 1 0 ∧ Holds s 2 0 ∧ Stale s' 1 0 :=
  ⟨_, rfl, ⟨_, _, rfl, rfl, rfl⟩, ⟨_, _, rfl, rfl, rfl⟩, ⟨_, _, rfl, rfl, rfl⟩, by decide⟩

/-- the hypotheses can be met: fid 1 is open and opened again -/
example : let s := (runTr [attach0, walk1, open1] demoTr).2
    ∃ s', Drops Mem.host [103] open1 s s' 1 ∧ 0 < s.world.opened ∧ 0 ∉ s.world.closed ∧ Holds s 1 0 :=
  ⟨_, ⟨rfl, rfl⟩, by decide, by decide, _, _, rfl, rfl, rfl⟩

end Ninep.Ufs
