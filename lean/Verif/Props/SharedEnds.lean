import Verif.Props.Shared
/-
Calls of goroutines that share one `FileServer` (Ufs/Shared.lean) end.
-/

namespace Ninep.Ufs.Shared
open Spec

section
variable {ω H : Type} {user rootPath : GoString} {iounit : MaxSize} {host : Host ω H} {w0 : ω}

/-- the program takes at most `n` steps -/
inductive Within {α : Type} : Nat → MProg H α → Prop
  | ret {n a} : Within n (.ret a)
  | panic {n} : Within n .panic
  | op {n c k} : (∀ a, Within n (k a)) → Within (n + 1) (.op c k)
  | host {n c k} : (∀ a, Within n (k a)) → Within (n + 1) (.host c k)

variable {α β : Type}

theorem within_mono {n n' : Nat} {p : MProg H α} (h : Within n p) (hn : n ≤ n') : Within n' p := by
  induction h generalizing n' with
  | ret => exact .ret
  | panic => exact .panic
  | op _ ih =>
    obtain ⟨k, rfl⟩ : ∃ k, n' = k + 1 := ⟨n' - 1, by omega⟩
    exact .op fun a => ih a (by omega)
  | host _ ih =>
    obtain ⟨k, rfl⟩ : ∃ k, n' = k + 1 := ⟨n' - 1, by omega⟩
    exact .host fun a => ih a (by omega)

theorem within_bind {n n' : Nat} {p : MProg H α} {f : α → MProg H β} (h : Within n p) (hf : ∀ a, Within n' (f a)) :
    Within (n + n') (p.bind f) := by
  induction h with
  | ret => exact within_mono (hf _) (by omega)
  | panic => exact .panic
  | op _ ih => rw [Nat.add_right_comm]; exact .op ih
  | host _ ih => rw [Nat.add_right_comm]; exact .host ih

theorem within_reply {n : Nat} {f : α → RMsg} {p : MMet H α} (h : Within n p) : Within n (mAsReply f p) := by
  refine within_bind (n' := 0) h fun r => ?_
  cases r <;> exact .ret

theorem within_ofBind {n : Nat} {p : Prog H α} {f : α → β} (h : Within n (MProg.ofProg p)) :
    Within n (MProg.ofProg (p.bind fun a => .ret (f a))) := by
  induction p generalizing n with
  | ret a => exact .ret
  | panic => exact .panic
  | call c k ih => cases h with | host h => exact .host fun a => ih a (h a)

theorem within_walkLoop (names : List GoString) : ∀ path : GoString, Within names.length (MProg.ofProg (H := H) (pwalkLoop path names)) := by
  induction names with
  | nil => exact fun _ => .ret
  | cons n ns ih =>
    refine fun path => .host fun r => ?_
    cases r with
    | error e => exact .ret
    | ok st => exact within_ofBind (ih _)

theorem within_file {n : Nat} {fid : FID} {k : Ptr → MMet H α} (h : ∀ p, Within n (k p)) : Within (n + 3) (withFile fid k) := by
  refine .op fun _ => .op fun r => .op fun _ => ?_
  cases r with
  | none => exact .ret
  | some p => exact h p

theorem within_andThen {n n' : Nat} {r k : MProg H (Option GoString)} (h : Within n r) (hk : Within n' k) : Within (n + n') (mAndThen r k) := by
  refine within_bind h fun r => ?_
  cases r with
  | none => exact hk
  | some e => exact .ret

/-- through a program without loops -/
local macro "steps" : tactic => `(tactic|
  repeat' (first | exact Within.ret | exact Within.panic | (refine Within.op fun _ => ?_; try dsimp only) |
    (refine Within.host fun _ => ?_; try dsimp only) | split))

theorem within_clunkFile (fid : FID) : Within 8 (mclunkFile (H := H) fid) := by
  unfold mclunkFile
  steps

theorem within_readDir (p : Ptr) (c : Count) : Within 4 (mreadDir (H := H) user p c) := by
  unfold mreadDir mreadDirFrom
  steps

theorem within_wstat (fid : FID) (b : Bytes) : Within 19 (mwstat (H := H) rootPath fid b) := by
  refine within_file (n := 16) fun p => ?_
  split
  · exact .panic
  · exact .ret
  · rename_i dir _ _ _
    refine within_bind (n := 16) (n' := 0) ?_ fun r => by cases r <;> exact .ret
    refine within_andThen (n := 2) (n' := 14) (by unfold mwstatMode; steps) ?_
    refine within_andThen (n := 0) (n' := 14) (by unfold mwstatUser; steps) ?_
    refine within_andThen (n := 5) (n' := 9) (by unfold mwstatName; steps) ?_
    refine within_andThen (n := 2) (n' := 7) (by unfold mwstatLength; steps) ?_
    exact within_andThen (n := 4) (n' := 3) (by unfold mwstatTimes; steps) (by unfold mwstatSync; steps)

theorem within_read (fid : FID) (off : Offset) (c : Count) : Within 12 (mread (H := H) user fid off c) := by
  refine within_file (n := 9) fun p => ?_
  refine .op fun h => ?_
  split
  · exact .ret
  · refine .op fun q => ?_
    have hd := within_readDir (H := H) (user := user) p c
    unfold mreadAs
    split
    · split
      · refine .op fun _ => .op fun h => ?_
        split
        · exact .ret
        · refine .host fun r => ?_
          split
          · exact .ret
          · exact hd
      · exact within_mono hd (by omega)
    · steps

theorem within_walk (fid newfid : FID) (paths : List GoString) : Within (paths.length + 12) (mwalk (H := H) fid newfid paths) := by
  refine within_file (n := paths.length + 9) fun p => ?_
  split
  · steps
  · refine .op fun n => ?_
    refine within_bind (n := paths.length) (n' := 8) (within_walkLoop paths n) fun r => ?_
    steps

/-- the steps of a call: at most twenty, and one for each name of a walk -/
def stepsOf : TMsg → Nat
  | .walk p => 20 + p.Paths.length
  | _ => 20

theorem within_call (m : TMsg) : Within (stepsOf m - 1) (mcall (H := H) user rootPath iounit m) := by
  cases m with
  | version p => refine within_reply ?_; unfold mversion; show Within 19 _; steps
  | attach p => refine within_reply ?_; unfold mattach; show Within 19 _; steps
  | flush p => exact within_reply .ret
  | walk p => exact within_reply (within_mono (within_walk p.SFID p.NewFID p.Paths) (by simp only [stepsOf]; omega))
  | open_ p => refine within_reply (within_file (n := 16) fun p => ?_); steps
  | create p => refine within_reply (within_file (n := 16) fun p => ?_); steps
  | stat p => refine within_reply (within_file (n := 16) fun p => ?_); steps
  | wstat p => exact within_reply (within_wstat p.OFID p.B)
  | clunk p =>
    refine within_reply (within_bind (n := 8) (n' := 11) (within_clunkFile p.OFID) fun r => ?_)
    steps
  | remove p =>
    refine within_reply (within_bind (n := 8) (n' := 11) (within_clunkFile p.OFID) fun r => ?_)
    steps
  | read p => exact within_reply (within_mono (within_read p.OFID p.Off p.Len) (by simp [stepsOf]))
  | write p => refine within_reply (within_file (n := 16) fun p => ?_); steps

/-- `l` is a step of goroutine `g` in a call -/
def SLabel.isStep (g : Nat) : SLabel ω H → Bool
  | .op g' _ => g' == g
  | .call g' _ => g' == g
  | .done g' _ => g' == g
  | _ => false

/-- the steps that the call that begins may take -/
def SLabel.allows (g : Nat) : SLabel ω H → Nat
  | .begin g' m => if g' = g then stepsOf m else 0
  | _ => 0

theorem spent {ls : List (SLabel ω H)} {s : SSys ω H} (h : SRun user rootPath iounit host w0 ls s) (g : Nat) :
    ls.countP (SLabel.isStep g) ≤ (ls.map (SLabel.allows g)).sum ∧
    ∀ m p, s.run g = some (m, p) → ∃ n, Within n p ∧ ls.countP (SLabel.isStep g) + n + 1 ≤ (ls.map (SLabel.allows g)).sum := by
  induction h with
  | init => simp
  | @step ls s s' l c h hs ih =>
    obtain ⟨ih1, ih2⟩ := ih
    simp only [List.countP_append, List.countP_singleton, List.map_append, List.map_cons, List.map_nil, List.sum_append,
      List.sum_cons, List.sum_nil, Nat.add_zero]
    rcases step_cases hs with ⟨i, m, rfl, h1, rfl⟩ | ⟨i, m, r, rfl, h1, rfl⟩ | ⟨i, m, c, k, mem, a, rfl, h1, h2, rfl⟩ |
      ⟨i, m, c, k, rfl, h1, rfl⟩ | ⟨w, rfl, rfl⟩
    · have hl : (SLabel.begin i m : SLabel ω H).isStep g = false := rfl
      simp only [hl, Bool.false_eq_true, if_false, Nat.add_zero]
      refine ⟨by omega, fun m' p hr => ?_⟩
      simp only [SSys.setRun] at hr
      split at hr
      · rename_i e
        subst e
        cases hr
        refine ⟨_, within_call m, ?_⟩
        have : 1 ≤ stepsOf m := by cases m <;> simp only [stepsOf] <;> omega
        simp only [SLabel.allows, if_true]
        omega
      · obtain ⟨n, h1, h2⟩ := ih2 m' p hr
        exact ⟨n, h1, by omega⟩
    · have hl : (SLabel.done i r : SLabel ω H).allows g = 0 := rfl
      simp only [hl, SLabel.isStep, beq_iff_eq]
      by_cases e : g = i
      · subst e
        obtain ⟨n, _, h2⟩ := ih2 m _ h1
        refine ⟨by simp only [if_true]; omega, fun m' p hr => ?_⟩
        simp [SSys.setRun] at hr
      · rw [if_neg (Ne.symm e)]
        refine ⟨ih1, fun m' p hr => ?_⟩
        simp only [SSys.setRun, if_neg e] at hr
        exact ih2 m' p hr
    · have hl : (SLabel.op i c : SLabel ω H).allows g = 0 := rfl
      simp only [hl, SLabel.isStep, beq_iff_eq]
      by_cases e : g = i
      · subst e
        obtain ⟨n, hn, h3⟩ := ih2 m _ h1
        cases hn with
        | @op n _ _ hk =>
          refine ⟨by simp only [if_true]; omega, fun m' p hr => ?_⟩
          simp only [SSys.setRun, if_true] at hr
          cases hr
          exact ⟨n, hk a, by simp only [if_true]; omega⟩
      · rw [if_neg (Ne.symm e)]
        refine ⟨ih1, fun m' p hr => ?_⟩
        simp only [SSys.setRun, if_neg e] at hr
        exact ih2 m' p hr
    · have hl : (SLabel.call i ⟨c, (host.exec c s.world).2⟩ : SLabel ω H).allows g = 0 := rfl
      simp only [hl, SLabel.isStep, beq_iff_eq]
      by_cases e : g = i
      · subst e
        obtain ⟨n, hn, h3⟩ := ih2 m _ h1
        cases hn with
        | @host n _ _ hk =>
          refine ⟨by simp only [if_true]; omega, fun m' p hr => ?_⟩
          simp only [SSys.setRun, if_true] at hr
          cases hr
          exact ⟨n, hk _, by simp only [if_true]; omega⟩
      · rw [if_neg (Ne.symm e)]
        refine ⟨ih1, fun m' p hr => ?_⟩
        simp only [SSys.setRun, if_neg e] at hr
        exact ih2 m' p hr
    · exact ⟨ih1, ih2⟩

/-- Goroutine `g` takes, in its calls, no more steps than twenty for each call and one for each name of its walks, whatever the
others do in between and whatever the operating system answers. -/
theorem C123_bounded {ls : List (SLabel ω H)} {s : SSys ω H} (h : SRun user rootPath iounit host w0 ls s) (g : Nat) :
    ls.countP (SLabel.isStep g) ≤ (ls.map (SLabel.allows g)).sum := (spent h g).1

/-- When no goroutine can go on, then every call has returned, or has panicked. -/
theorem C123_stuck {ls : List (SLabel ω H)} {s : SSys ω H} (h : SRun user rootPath iounit host w0 ls s)
    (hs : ∀ g, s.step user rootPath iounit host (.step g) = none) (g : Nat) :
    s.run g = none ∨ ∃ m, s.run g = some (m, .panic) := by
  cases hr : s.run g with
  | none => exact .inl rfl
  | some y =>
    obtain ⟨m, p⟩ := y
    rcases C122_no_deadlock h hr with rfl | h1 | ⟨g', _, _, h1⟩
    · exact .inr ⟨m, rfl⟩
    · rw [hs] at h1; cases h1
    · rw [hs] at h1; cases h1

/-- a goroutine chosen by `pick` goes on, as long as `pick` chooses one -/
def schedule (user rootPath : GoString) (iounit : MaxSize) (host : Host ω H) (pick : SSys ω H → Option Nat) :
    Nat → List (SLabel ω H) × SSys ω H → List (SLabel ω H) × SSys ω H
  | 0, r => r
  | n + 1, r =>
    match pick r.2 with
    | none => r
    | some g =>
      match r.2.step user rootPath iounit host (.step g) with
      | none => r
      | some (s, l) => schedule user rootPath iounit host pick n (r.1 ++ [l], s)

theorem step_label {s s' : SSys ω H} {l : SLabel ω H} {g : Nat} (h : s.step user rootPath iounit host (.step g) = some (s', l)) :
    l.isStep g = true ∧ (∀ g', g' ≠ g → l.isStep g' = false) ∧ ∀ g', l.allows g' = 0 := by
  simp only [SSys.step] at h
  cases hr : s.run g with
  | none => rw [hr] at h; cases h
  | some x =>
    obtain ⟨m, p⟩ := x
    rw [hr] at h
    cases p with
    | panic => cases h
    | ret r => cases h; exact ⟨by simp [SLabel.isStep], fun g' e => by simp [SLabel.isStep, Ne.symm e], fun _ => rfl⟩
    | host c k => cases h; exact ⟨by simp [SLabel.isStep], fun g' e => by simp [SLabel.isStep, Ne.symm e], fun _ => rfl⟩
    | op c k =>
      dsimp only at h
      cases ha : s.mem.act g c with
      | none => rw [ha] at h; cases h
      | some y =>
        rw [ha] at h
        cases h
        exact ⟨by simp [SLabel.isStep], fun g' e => by simp [SLabel.isStep, Ne.symm e], fun _ => rfl⟩

/-- the steps that goroutines below `k` may still take -/
def left (k : Nat) (ls : List (SLabel ω H)) : Nat :=
  ((List.range k).map fun g => (ls.map (SLabel.allows g)).sum - ls.countP (SLabel.isStep g)).sum

theorem sum_lt {f f' : Nat → Nat} (hle : ∀ g, f' g ≤ f g) {g : Nat} (hlt : f' g < f g) : ∀ {k : Nat}, g < k →
    ((List.range k).map f').sum < ((List.range k).map f).sum
  | 0, h => by omega
  | k + 1, h => by
    rw [List.range_succ, List.map_append, List.map_append, List.sum_append, List.sum_append]
    have hw : ((List.range k).map f').sum ≤ ((List.range k).map f).sum := by
      clear h
      induction k with
      | zero => simp
      | succ k ih =>
        rw [List.range_succ, List.map_append, List.map_append, List.sum_append, List.sum_append]
        have := hle k
        simp only [List.map_cons, List.map_nil, List.sum_cons, List.sum_nil]
        omega
    simp only [List.map_cons, List.map_nil, List.sum_cons, List.sum_nil]
    by_cases e : g = k
    · subst e; omega
    · have := sum_lt hle hlt (k := k) (by omega)
      have := hle k
      omega

/-- Whichever goroutine goes on at each moment, as long as one can: after boundedly many steps all calls have returned, or have
panicked.  `pick` is any scheduler that chooses one that can go on, if there is one. -/
theorem C123_ends {ls : List (SLabel ω H)} {s : SSys ω H} (h : SRun user rootPath iounit host w0 ls s) (pick : SSys ω H → Option Nat)
    (hpick : ∀ s g, pick s = some g → (s.step user rootPath iounit host (.step g)).isSome)
    (hall : ∀ s, pick s = none → ∀ g, s.step user rootPath iounit host (.step g) = none) {k : Nat} (hk : ∀ g m, .begin g m ∈ ls → g < k) :
    SRun user rootPath iounit host w0 (schedule user rootPath iounit host pick (left k ls) (ls, s)).1
      (schedule user rootPath iounit host pick (left k ls) (ls, s)).2 ∧
    ∀ g, (schedule user rootPath iounit host pick (left k ls) (ls, s)).2.run g = none ∨
      ∃ m, (schedule user rootPath iounit host pick (left k ls) (ls, s)).2.run g = some (m, .panic) := by
  have main : ∀ n {ls : List (SLabel ω H)} {s : SSys ω H}, SRun user rootPath iounit host w0 ls s → (∀ g m, .begin g m ∈ ls → g < k) →
      left k ls ≤ n → SRun user rootPath iounit host w0 (schedule user rootPath iounit host pick n (ls, s)).1
        (schedule user rootPath iounit host pick n (ls, s)).2 ∧
      ∀ g, (schedule user rootPath iounit host pick n (ls, s)).2.run g = none ∨
        ∃ m, (schedule user rootPath iounit host pick n (ls, s)).2.run g = some (m, .panic) := by
    intro n
    induction n with
    | zero =>
      intro ls s h hk hn
      refine ⟨h, fun g => ?_⟩
      cases hr : s.run g with
      | none => exact .inl hr
      | some y =>
        exfalso
        obtain ⟨m, p⟩ := y
        have hg : g < k := hk g m (begun (running h hr))
        obtain ⟨j, _, hj⟩ := (spent h g).2 m p hr
        have := sum_lt (f := fun g => (ls.map (SLabel.allows g)).sum - ls.countP (SLabel.isStep g)) (f' := fun _ => 0)
          (fun _ => Nat.zero_le _) (g := g) (by show 0 < _; omega) hg
        have hn' : left k ls = 0 := by omega
        rw [left] at hn'
        omega
    | succ n ih =>
      intro ls s h hk hn
      simp only [schedule]
      cases hp : pick s with
      | none => exact ⟨h, C123_stuck h (hall s hp)⟩
      | some g =>
        dsimp only
        have hs := hpick s g hp
        cases hst : s.step user rootPath iounit host (.step g) with
        | none => rw [hst] at hs; cases hs
        | some y =>
          obtain ⟨s', l⟩ := y
          obtain ⟨l1, l2, l3⟩ := step_label hst
          have h' := SRun.step (.step g) h hst
          have hk' : ∀ g' m, SLabel.begin g' m ∈ ls ++ [l] → g' < k := by
            intro g' m hm
            rcases List.mem_append.1 hm with hm | hm
            · exact hk g' m hm
            · rw [← List.mem_singleton.1 hm] at l1
              cases l1
          refine ih h' hk' ?_
          have hg : g < k := by
            cases hr : s.run g with
            | none => simp [SSys.step, hr] at hst
            | some y => exact hk g y.1 (begun (running h hr))
          have hb := C123_bounded h' g
          have : left k (ls ++ [l]) < left k ls := by
            refine sum_lt (fun g' => ?_) (g := g) ?_ hg <;>
              simp only [List.countP_append, List.countP_singleton, List.map_append, List.map_cons, List.map_nil, List.sum_append,
                List.sum_cons, List.sum_nil, l3, Nat.add_zero] at hb ⊢
            · omega
            · rw [if_pos l1] at hb ⊢
              omega
          omega
  exact main _ h hk (Nat.le_refl _)

/-! ### Goroutines that do not race -/

/-- Two goroutines that do not attach, do not both negotiate a version, and make no two calls that name a common fid and of which one
changes a field of its structure — an open, a create, a wstat or a read: none of their accesses race.  So any number of them may
walk from, stat and write to the same fid. -/
theorem C124_free {ls : List (SLabel ω H)} {s : SSys ω H} (h : SRun user rootPath iounit host w0 ls s) {g g' : Nat}
    (hfid : ∀ m m', .begin g m ∈ ls → .begin g' m' ∈ ls → ∀ f ∈ Spec.fids m, f ∈ Spec.fids m' →
      ∀ y, ¬ Changes m y ∧ ¬ Changes m' y)
    (hatt : ∀ q, .begin g (.attach q) ∉ ls ∧ .begin g' (.attach q) ∉ ls)
    (hver : ∀ q q', .begin g (.version q) ∈ ls → .begin g' (.version q') ∉ ls) (i j : Nat) (x : Place) : ¬ Race ls i j g g' x := by
  intro hr
  obtain ⟨m, m', hm, hm', hx⟩ := C122_races h hr
  have b := List.mem_of_mem_take (begun hm)
  have b' := List.mem_of_mem_take (begun hm')
  cases x with
  | table =>
    rcases hx with ⟨q, rfl⟩ | ⟨q, rfl⟩
    · exact (hatt q).1 b
    · exact (hatt q).2 b'
  | root =>
    obtain ⟨⟨q, rfl⟩, _⟩ := hx
    exact (hatt q).1 b
  | versioned =>
    obtain ⟨⟨q, rfl⟩, ⟨q', rfl⟩⟩ := hx
    exact hver q q' b b'
  | field p y =>
    obtain ⟨⟨f, hf, hf'⟩, hy⟩ := hx
    have := hfid m m' b b' f hf hf' y
    exact hy.elim this.1 this.2

/-- schedulers as in `C123_ends` exist -/
example : ∃ pick : SSys ω H → Option Nat, (∀ s g, pick s = some g → (s.step user rootPath iounit host (.step g)).isSome) ∧
    ∀ s, pick s = none → ∀ g, s.step user rootPath iounit host (.step g) = none := by
  classical
  refine ⟨fun s => if h : ∃ g, (s.step user rootPath iounit host (.step g)).isSome then some h.choose else none, fun s g h => ?_, fun s h g => ?_⟩
  · dsimp only at h
    split at h
    · rename_i hx
      cases h
      exact hx.choose_spec
    · cases h
  · dsimp only at h
    split at h
    · cases h
    · rename_i hx
      cases hst : s.step user rootPath iounit host (.step g) with
      | none => rfl
      | some y => exact absurd ⟨g, by rw [hst]; rfl⟩ hx

end

open Mem

/-- two goroutines in the middle of calls, one waits for the mutex; what the first may do is 20 for each of its two calls and one for
the name it walks to, and it has done 13 -/
example : ∃ ls s, SRun [103] [47, 120] 8192 host world0 ls s ∧ (s.run 0).isSome ∧ (s.run 1).isSome ∧
    (s.step [103] [47, 120] 8192 host (.step 1)).isNone ∧
    ls.countP (SLabel.isStep 0) = 13 ∧ (ls.map (SLabel.allows 0)).sum = 41 ∧ left 2 ls = 48 :=
  ⟨_, _, shared_run (whole 0 (attachTo 0) ++ [.begin 0 (.walk { SFID := 0, NewFID := 5, Paths := [[102]] }),
    .begin 1 (.clunk { OFID := 2 })] ++ go 0 7), by decide +kernel⟩

/-- `C123_stuck` with a panic -/
example : ∃ ls s, SRun [103] [47, 120] 8192 host world0 ls s ∧
    ((s.run 0).map fun r => match r.2 with | .panic => true | _ => false) = some true ∧
    (s.step [103] [47, 120] 8192 host (.step 0)).isNone ∧ (s.run 1).isNone :=
  ⟨_, _, shared_run (apart ++ whole 0 (.read { OFID := 1, Len := -1 })), by decide +kernel⟩

/-- goroutine 2 attaches to fid 0 and opens fid 1 for the others; goroutine 0 and goroutine 1 walk from the first, and write to and stat
the second, at the same time -/
def given : List (Choice World) :=
  whole 2 (attachTo 0) ++ whole 2 (.walk { SFID := 0, NewFID := 1, Paths := [[102]] }) ++ whole 2 (.open_ { OFID := 1, Omode := 2 }) ++
  [.begin 0 (.walk { SFID := 0, NewFID := 5, Paths := [[102]] }),
    .begin 1 (.walk { SFID := 0, NewFID := 15, Paths := [[102]] })] ++ go 0 5 ++ go 1 7 ++ go 0 1 ++ go 1 40 ++ go 0 40 ++
  [.begin 0 (.write { OFID := 1, Data := [7] }), .begin 1 (.stat { OFID := 1 })] ++ go 0 4 ++ go 1 40 ++ go 0 40

/-- the request changes a field of the structure of its fid -/
def changing : TMsg → Bool
  | .open_ _ | .create _ | .wstat _ | .read _ => true
  | _ => false

theorem changing_changes {m : TMsg} {y : Fld} (h : Changes m y) : changing m = true := by
  cases m <;> first | rfl | cases h

/-- the hypotheses of `C124_free` for the requests of an execution -/
def freeOf (g g' : Nat) (ls : List (SLabel World Nat)) : Bool :=
  ls.all fun l => match l with
    | .begin i m => ((i != g && i != g') || match m with | .attach _ => false | .version _ => false | _ => true) &&
      ls.all fun l' => match l' with
        | .begin i' m' => i ≠ g || i' ≠ g' || (!changing m && !changing m') || (Spec.fids m).all fun f => (Spec.fids m').all (f ≠ ·)
        | _ => true
    | _ => true

example : ∃ ls s, SRun [103] [47, 120] 8192 host world0 ls s ∧ freeOf 0 1 ls = true ∧ (s.run 0).isNone ∧ (s.run 1).isNone ∧
    outcomes (seenBy 0 ls) = [some [], some []] ∧ outcomes (seenBy 1 ls) = [some [], some []] ∧
    ∀ i j x, ¬ Race ls i j 0 1 x := by
  have hf : freeOf 0 1 (shared given).1 = true := by decide +kernel
  refine ⟨_, _, shared_run given, hf, by decide +kernel, by decide +kernel, by decide +kernel, by decide +kernel, ?_⟩
  have hf' := fun l hl => List.all_eq_true.1 hf l hl
  have key : ∀ i, i = 0 ∨ i = 1 → ∀ m, SLabel.begin i m ∈ (shared given).1 → (∀ q, m ≠ .attach q) ∧ ∀ q, m ≠ .version q := by
    intro i hi m hm
    have := hf' _ hm
    simp only [Bool.and_eq_true, Bool.or_eq_true] at this
    rcases this.1 with h | h
    · rcases hi with rfl | rfl <;> simp at h
    · constructor <;> rintro q rfl <;> cases h
  intro i j x
  refine C124_free (shared_run given) ?_ ?_ ?_ i j x
  · intro m m' h1 h2 f hm hm' y
    have := hf' _ h1
    simp only [Bool.and_eq_true] at this
    have := List.all_eq_true.1 this.2 _ h2
    simp only [ne_eq, not_true_eq_false, decide_false, Bool.false_or, Bool.or_eq_true, List.all_eq_true, Bool.and_eq_true,
      Bool.not_eq_true'] at this
    rcases this with h | h
    · constructor <;> intro hc <;> have := changing_changes hc <;> simp_all
    · have := h f hm f hm'
      simp at this
  · exact fun q => ⟨fun hm => (key 0 (.inl rfl) _ hm).1 q rfl, fun hm => (key 1 (.inr rfl) _ hm).1 q rfl⟩
  · exact fun q q' hm _ => (key 0 (.inl rfl) _ hm).2 q rfl

end Ninep.Ufs.Shared
