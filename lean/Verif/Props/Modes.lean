import Verif.Props.Ufs
/-
Which bits of the modes and permissions of open and create have a meaning (C113).

open(5) asks a server to remove a file that was opened with ORCLOSE when it is clunked, to put every write to a file
made with DMAPPEND at its end, and to let only one fid at a time open a file made with DMEXCL.  This server does
none of it, and does not refuse such requests either.  The theorems say exactly which bits it looks at.
-/

namespace Ninep.Ufs
open Spec

/-- the access that a mode asks for: read, write, both; execute counts as read -/
def access (m : Mode) : Nat := [0, 1, 2, 0].getD (m.toNat % 4) 0

/-- OTRUNC is set -/
def trunc (m : Mode) : Bool := m.toNat.testBit 4

/-- DMDIR is set -/
def wantsDir (p : Perm) : Bool := p.toNat.testBit 31

theorem openFlags_access (m : Mode) : openFlags m = access m + if trunc m then 512 else 0 := by
  unfold openFlags access trunc
  have : (m.toNat / 16 % 2 = 1) ↔ m.toNat.testBit 4 = true := by
    rw [Nat.testBit_eq_decide_div_mod_eq]
    simp
  simp only [this]

theorem access_lt (m : Mode) : access m < 3 := by
  unfold access
  have : m.toNat % 4 < 4 := Nat.mod_lt _ (by decide)
  generalize m.toNat % 4 = k at this
  have : k = 0 ∨ k = 1 ∨ k = 2 ∨ k = 3 := by omega
  rcases this with rfl | rfl | rfl | rfl <;> decide

theorem wantsDir_spec (p : Perm) : (p &&& DMDIR ≠ 0) ↔ wantsDir p = true := by
  unfold wantsDir
  rw [ne_eq, ← UInt32.toNat_inj, UInt32.toNat_and]
  have : DMDIR.toNat = 2 ^ 31 := by decide
  rw [this, nat_and_two_pow]
  cases p.toNat.testBit 31 <;> simp

theorem perm_spec (p : Perm) : p &&& 0o777 = UInt32.ofNat (p.toNat % 512) := u32_and_511 p

/-- a host that remembers with which arguments it was last asked to make or open a file -/
def askedHost : Host (Nat × UInt32 × Bool) Unit where
  lstat _ w := (w, .ok ⟨[], 0, 0, ⟨0, 0⟩, none⟩)
  stat _ w := (w, .error [])
  openFile _ f p _ := ((f, p, false), .ok ())
  mkdir _ p _ := ((0, p, true), none)
  chmod _ _ w := (w, none)
  rename _ _ w := (w, none)
  truncate _ _ w := (w, none)
  chtimes _ _ _ w := (w, none)
  remove _ w := (w, none)
  close _ w := (w, none)
  sync _ w := (w, none)
  seek0 _ w := (w, none)
  readdir1 _ w := (w, .eof)
  readAt _ _ _ w := (w, [], .eof)
  writeAt _ _ _ w := (w, 0, none)

def askedState : State (Nat × UInt32 × Bool) Unit :=
  { (newFS [47] (0, 0, false) : State (Nat × UInt32 × Bool) Unit) with files := fun i => if i = 0 then some { fullName := [47], qid := {}, file := none } else none }

/-- the world after a request -/
def NRes.world? {ω H α : Type} : NRes (State ω H) α → Option ω
  | .panic => none
  | .ok s _ => some s.world
  | .err s _ => some s.world

/-- C113: of the mode of an open only the access and OTRUNC have an effect; every other bit is accepted and
ignored. -/
theorem C113_open_partial (m m' : Mode) :
    (∀ (ω H : Type) (host : Host ω H) (user : GoString) (fid : FID) (s : State ω H),
      (ufs host user).Ropen fid m s = (ufs host user).Ropen fid m' s) ↔
    access m = access m' ∧ trunc m = trunc m' := by
  constructor
  · intro h
    have := congrArg NRes.world? (h _ _ askedHost [] 0 askedState)
    have hw : ∀ m, NRes.world? ((ufs askedHost []).Ropen 0 m askedState) = some (openFlags m, 0, false) := by
      intro m
      rw [← modeToUnixFlags_spec]
      rfl
    rw [hw, hw, openFlags_access, openFlags_access] at this
    have h1 := access_lt m
    have h2 := access_lt m'
    simp only [Option.some.injEq, Prod.mk.injEq, and_true] at this
    cases ht : trunc m <;> cases ht' : trunc m' <;> simp only [ht, ht'] at this <;> simp at this ⊢ <;> omega
  · rintro ⟨h1, h2⟩ ω H host user fid s
    show ropen host fid m s = ropen host fid m' s
    unfold ropen
    rw [modeToUnixFlags_spec, modeToUnixFlags_spec, openFlags_access, openFlags_access, h1, h2]

/-- C113: of the permissions of a create only DMDIR and the nine permission bits have an effect, and of the mode only
the access, and that only if no directory is made. -/
theorem C113_create_partial (p p' : Perm) (m m' : Mode) :
    (∀ (ω H : Type) (host : Host ω H) (user : GoString) (fid : FID) (name : GoString) (s : State ω H),
      (ufs host user).Rcreate fid name p m s = (ufs host user).Rcreate fid name p' m' s) ↔
    wantsDir p = wantsDir p' ∧ p.toNat % 512 = p'.toNat % 512 ∧ (wantsDir p = false → access m = access m') := by
  constructor
  · intro h
    have := congrArg NRes.world? (h _ _ askedHost [] 0 [] askedState)
    have hw : ∀ p m, NRes.world? ((ufs askedHost []).Rcreate 0 [] p m askedState) =
        some (if wantsDir p then (0, UInt32.ofNat (p.toNat % 512), true)
          else (access m + 0x40 + 0x200, UInt32.ofNat (p.toNat % 512), false)) := by
      intro p m
      have hc := createFlags_spec m
      rw [← perm_spec]
      show NRes.world? (rcreate askedHost 0 [] p m askedState) = _
      unfold rcreate access
      rw [← hc]
      by_cases hd : p &&& DMDIR ≠ 0
      · rw [if_pos ((wantsDir_spec p).1 hd)]
        simp only [askedState, if_pos, Option.isSome_none]
        simp [hd, askedHost, NRes.world?, State.set]
      · rw [if_neg (fun h => hd ((wantsDir_spec p).2 h))]
        simp only [askedState, if_pos, Option.isSome_none]
        simp only [if_neg hd]
        simp [askedHost, NRes.world?, State.set]
    rw [hw, hw] at this
    have hmod : ∀ x : UInt32, (UInt32.ofNat (x.toNat % 512)).toNat = x.toNat % 512 := by
      intro x
      rw [UInt32.toNat_ofNat']
      have : x.toNat % 512 < 512 := Nat.mod_lt _ (by decide)
      omega
    have h512 : UInt32.ofNat (p.toNat % 512) = UInt32.ofNat (p'.toNat % 512) → p.toNat % 512 = p'.toNat % 512 := by
      intro h
      rw [← hmod p, h, hmod p']
    cases hd : wantsDir p <;> cases hd' : wantsDir p' <;> simp only [hd, hd'] at this <;> simp at this ⊢
    · exact ⟨h512 this.2, this.1⟩
    · exact h512 this
  · rintro ⟨h1, h2, h3⟩ ω H host user fid name s
    show rcreate host fid name p m s = rcreate host fid name p' m' s
    unfold rcreate
    rw [perm_spec, perm_spec, h2, createFlags_spec, createFlags_spec]
    cases hd : wantsDir p
    · have hp : ¬ (p &&& DMDIR ≠ 0) := fun h => by rw [wantsDir_spec, hd] at h; cases h
      have hp' : ¬ (p' &&& DMDIR ≠ 0) := fun h => by rw [wantsDir_spec, ← h1, hd] at h; cases h
      have ha : [0, 1, 2, 0].getD (m.toNat % 4) 0 = [0, 1, 2, 0].getD (m'.toNat % 4) 0 := h3 hd
      simp only [if_neg hp, if_neg hp', ha]
    · have hp : p &&& DMDIR ≠ 0 := (wantsDir_spec p).2 hd
      have hp' : p' &&& DMDIR ≠ 0 := (wantsDir_spec p').2 (by rw [← h1]; exact hd)
      simp only [if_pos hp, if_pos hp']

open Mem

/-- C113 does not hold: a file opened with ORCLOSE is still there after the clunk -/
theorem C113_counterexample_rclose :
    (runAll [attach0, walk1, .open_ { OFID := 1, Omode := 0x42 }, .clunk { OFID := 1 }, walk1] demo).1.drop 2 =
    [some (.ok (.open_ { OQID := { Typ := 0, Version := 1000000, Path := 3 }, IOUnit := 8192 })),
     some (.ok (.clunk {})), some (.ok (.walk { QIDs := [{ Typ := 0, Version := 1000000, Path := 3 }] }))] := rfl

/-- C113 does not hold: a write to a file made with DMAPPEND replaces what is there -/
theorem C113_counterexample_append :
    (runAll [attach0, .create { OFID := 0, Name := [113], CreatePerm := 0x40000000 ||| 0o644, Omode := 2 },
      .write { OFID := 0, Off := 0, Data := [1, 2, 3] }, .write { OFID := 0, Off := 0, Data := [9] },
      .read { OFID := 0, Off := 0, Len := 100 }] demo).1.drop 2 =
    [some (.ok (.write { RLen := 3 })), some (.ok (.write { RLen := 1 })), some (.ok (.read { Data := [9, 2, 3] }))] := rfl

/-- C113 does not hold: a file made with DMEXCL can be opened again while it is open -/
theorem C113_counterexample_excl :
    let x := runAll [attach0, .walk { SFID := 0, NewFID := 1, Paths := [] },
      .create { OFID := 0, Name := [113], CreatePerm := 0x20000000 ||| 0o644, Omode := 2 },
      .walk { SFID := 1, NewFID := 2, Paths := [[113]] }, .open_ { OFID := 2, Omode := 2 }] demo
    (∃ a b c d e, x.1 = [some (.ok a), some (.ok b), some (.ok c), some (.ok d), some (.ok e)]) ∧
      (∃ f h, x.2.files 0 = some f ∧ f.file = some h) ∧ ∃ f h, x.2.files 2 = some f ∧ f.file = some h :=
  ⟨⟨_, _, _, _, _, rfl⟩, ⟨_, _, rfl, rfl⟩, _, _, rfl, rfl⟩

/-- a mode with ORCLOSE and one without: the same to this server -/
example : access 0x42 = access 2 ∧ trunc 0x42 = trunc 2 ∧ (0x42 : Mode) ≠ 2 := by decide

/-- permissions with DMAPPEND and without: the same to this server -/
example : wantsDir (0x40000000 ||| 0o644) = wantsDir 0o644 ∧
    (0x40000000 ||| 0o644 : Perm).toNat % 512 = (0o644 : Perm).toNat % 512 ∧ (0x40000000 ||| 0o644 : Perm) ≠ 0o644 := by decide

end Ninep.Ufs
