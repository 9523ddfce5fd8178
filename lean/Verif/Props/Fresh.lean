import Verif.Props.Create
import Verif.Props.UfsWstat

set_option linter.unusedSimpArgs false
set_option linter.unusedVariables false

/-!
# What create does to a name that is in use, and what the fid is afterwards (C106)

Wanted (open(5): "An attempt to create a file in a directory where the given name already exists will be rejected", and the fid
is then open): a create succeeds only if nothing had the name, and afterwards the fid is open on what has been made.
Both halves are false; the theorems say exactly what happens instead.
-/

namespace Ninep.Ufs
open Spec Client
variable {ω H ν : Type} (host : Host ω H) (user : GoString)

/-- the flags of open for a create with this mode: read, write or both as the mode says, O_CREAT and O_TRUNC -/
def createFlags (mode : Mode) : Nat := [0, 1, 2, 0].getD (mode.toNat % 4) 0 + 0x40 + 0x200

theorem plain_dmdir {perm : Perm} (hp : perm.toNat < 2 ^ 31) : ¬ perm &&& DMDIR ≠ 0 := fun h => h (plain_perm hp)

theorem dir_dmdir {perm : Perm} (hp : 2 ^ 31 ≤ perm.toNat) : perm &&& DMDIR ≠ 0 := by
  intro h0
  have := congrArg UInt32.toNat h0
  rw [UInt32.toNat_and, show DMDIR.toNat = 2 ^ 31 by decide, nat_and_two_pow] at this
  have hlt := perm.toNat_lt
  have : perm.toNat.testBit 31 = true := by
    rw [Nat.testBit_eq_decide_div_mod_eq]
    simp
    omega
  simp_all

/-- **C106** (partial: "only if nothing had the name" is false.)  A create of a plain file succeeds if and only if the host opens the
file, with O_CREAT and O_TRUNC but without O_EXCL, and can tell its status; the fid is then open on what the host opened.  Nothing
in this depends on whether the name was in use. -/
theorem C106_exact_partial {fid : FID} {name : GoString} {perm : Perm} {mode : Mode} {s s' : State ω H} {q : QID} {io : MaxSize} {f : File H}
    (hf : s.files fid = some f) (hp : perm.toNat < 2 ^ 31) :
    (ufs host user).Rcreate fid name perm mode s = .ok s' (q, io) ↔
      f.file = none ∧ ∃ w h st, host.openFile (pathJoin f.fullName name) (createFlags mode) (UInt32.ofNat (perm.toNat % 512)) s.world = (w, .ok h) ∧
        host.lstat (pathJoin f.fullName name) w = (s'.world, .ok st) ∧ q = fileInfoToQID st ∧ io = 8000 ∧
        s' = { s with world := s'.world }.set fid { f with fullName := pathJoin f.fullName name, qid := fileInfoToQID st, file := some h } := by
  show rcreate host fid name perm mode s = _ ↔ _
  unfold rcreate createFlags
  rw [hf]
  dsimp only
  cases hn : f.file with
  | some x => simp
  | none =>
    rw [if_neg (by simp), if_neg (plain_dmdir hp), createFlags_spec, u32_and_511]
    cases ho : host.openFile (pathJoin f.fullName name) ([0, 1, 2, 0].getD (mode.toNat % 4) 0 + 0x40 + 0x200) (UInt32.ofNat (perm.toNat % 512)) s.world with
    | mk w r =>
      cases r with
      | error e => constructor <;> intro h
                   · cases h
                   · obtain ⟨-, w, x, st, h, -⟩ := h; cases h
      | ok x =>
        dsimp only
        cases hl : host.lstat (pathJoin f.fullName name) w with
        | mk w2 r2 =>
          cases r2 with
          | error e =>
            constructor <;> intro h
            · cases h
            · obtain ⟨-, w, x, st, h, h2, -⟩ := h; cases h; rw [hl] at h2; cases h2
          | ok st =>
            constructor <;> intro h
            · cases h
              exact ⟨rfl, w, x, st, rfl, hl, rfl, rfl, rfl⟩
            · obtain ⟨-, w, x, st, h, h2, h3, h4, h5⟩ := h
              cases h
              rw [hl] at h2
              have h6 : w2 = s'.world := congrArg Prod.fst h2
              cases (Prod.mk.inj h2).2
              rw [h3, h4, h5, h6]

/-- **C106** (partial) A create of a plain file that succeeds leaves an empty file under the name and the fid open on it; if a file
had the name before, it is that file, and its contents are gone. -/
theorem C106_emptied_partial {V : FileView host ν} {N : NameView host ν} (hO : Opens V N) (hC : Changes V N)
    {fid : FID} {name : GoString} {perm : Perm} {mode : Mode} {s s' : State ω H} {q : QID × MaxSize} {f : File H}
    (hf : s.files fid = some f) (hp : perm.toNat < 2 ^ 31) (hs : (ufs host user).Rcreate fid name perm mode s = .ok s' q) :
    ∃ v f' h, N.node (pathJoin f.fullName name) s'.world = some v ∧ V.content v s'.world = [] ∧ s'.files fid = some f' ∧
      f'.fullName = pathJoin f.fullName name ∧ f'.file = some h ∧ V.node h s'.world = some v ∧
      ∀ u, N.node (pathJoin f.fullName name) s.world = some u → v = u := by
  obtain ⟨q, io⟩ := q
  obtain ⟨-, w, h, st, h1, h2, -, -, h5⟩ := (C106_exact_partial host user hf hp).1 hs
  have fl : createFlags mode / 64 % 2 = 1 ∧ createFlags mode / 512 % 2 = 1 := by
    have : mode.toNat % 4 < 4 := Nat.mod_lt _ (by decide)
    unfold createFlags
    generalize mode.toNat % 4 = k at this
    match k, this with
    | 0, _ => decide
    | 1, _ => decide
    | 2, _ => decide
    | 3, _ => decide
  obtain ⟨v, a1, a2, a3⟩ := hC.made fl.1 fl.2 h1
  have b1 := V.lstat_calm (pathJoin f.fullName name) w
  have b2 := N.keeps (c := .lstat (pathJoin f.fullName name)) (r := pathJoin f.fullName name) (w := w) (v := v) (by simp [Disturbs]) a1
  have b3 : (host.exec (.lstat (pathJoin f.fullName name)) w).1 = s'.world := congrArg Prod.fst h2
  rw [h2] at b1
  rw [b3] at b2
  refine ⟨v, { f with fullName := pathJoin f.fullName name, qid := fileInfoToQID st, file := some h }, h, b2, (b1.2 v).trans a3, ?_, rfl, rfl, b1.1 h v a2, fun u hu => ?_⟩
  · rw [h5]; simp [State.set, upd]
  · have := hO.opened hu h1
    rw [a2] at this
    exact Option.some.inj this

/-- **C106** (partial: afterwards the fid is not open.)  A create of a directory succeeds if and only if something has the name after
the attempt to make a directory, which may have failed.  The fid then stands for whatever it is and is not open: reads and writes are
refused, nothing is changed by them. -/
theorem C106_directory_partial {fid : FID} {name : GoString} {perm : Perm} {mode : Mode} {s s' : State ω H} {q : QID} {io : MaxSize} {f : File H}
    (hf : s.files fid = some f) (hp : 2 ^ 31 ≤ perm.toNat) :
    ((ufs host user).Rcreate fid name perm mode s = .ok s' (q, io) ↔
      f.file = none ∧ ∃ st, host.lstat (pathJoin f.fullName name) (host.mkdir (pathJoin f.fullName name) (UInt32.ofNat (perm.toNat % 512)) s.world).1 = (s'.world, .ok st) ∧
        q = fileInfoToQID st ∧ io = 8000 ∧
        s' = { s with world := s'.world }.set fid { fullName := pathJoin f.fullName name, qid := fileInfoToQID st, file := none, oflow := f.oflow }) ∧
    ((ufs host user).Rcreate fid name perm mode s = .ok s' (q, io) →
      (∀ o c, ∃ e, (ufs host user).Rread fid o c s' = .err s' e) ∧ ∀ o b, ∃ e, (ufs host user).Rwrite fid o b s' = .err s' e) := by
  have key : (ufs host user).Rcreate fid name perm mode s = .ok s' (q, io) ↔
      f.file = none ∧ ∃ st, host.lstat (pathJoin f.fullName name) (host.mkdir (pathJoin f.fullName name) (UInt32.ofNat (perm.toNat % 512)) s.world).1 = (s'.world, .ok st) ∧
        q = fileInfoToQID st ∧ io = 8000 ∧
        s' = { s with world := s'.world }.set fid { fullName := pathJoin f.fullName name, qid := fileInfoToQID st, file := none, oflow := f.oflow } := by
    show rcreate host fid name perm mode s = _ ↔ _
    unfold rcreate
    rw [hf]
    dsimp only
    cases hn : f.file with
    | some x => simp
    | none =>
      rw [if_neg (by simp), if_pos (dir_dmdir hp), u32_and_511]
      cases hl : host.lstat (pathJoin f.fullName name) (host.mkdir (pathJoin f.fullName name) (UInt32.ofNat (perm.toNat % 512)) s.world).1 with
      | mk w2 r2 =>
        cases r2 with
        | error e =>
          constructor <;> intro h
          · cases h
          · obtain ⟨-, st, h2, -⟩ := h; cases h2
        | ok st =>
          constructor <;> intro h
          · cases h
            exact ⟨rfl, st, rfl, rfl, rfl, by simp [State.set, hn]⟩
          · obtain ⟨-, st, h2, h3, h4, h5⟩ := h
            have h6 : w2 = s'.world := congrArg Prod.fst h2
            cases (Prod.mk.inj h2).2
            rw [h3, h4, h5, h6]
  refine ⟨key, fun h => ?_⟩
  obtain ⟨-, st, -, -, -, h5⟩ := key.1 h
  have h6 : s'.files fid = some { fullName := pathJoin f.fullName name, qid := fileInfoToQID st, file := none, oflow := f.oflow } := by
    rw [h5]; simp [State.set, upd]
  exact (C49_needs_open host user h6).1 rfl

section
open Mem

/-- create f in the root -/
def createF (perm : Perm) : TMsg := .create { OFID := 0, Name := [102], CreatePerm := perm, Omode := 1 }

/-- C106 does not hold: the file f exists, with contents; a create of f succeeds, and the contents are gone. -/
theorem C106_counterexample :
    (∃ d, d ≠ [] ∧ memNames.node [47, 120, 47, 102] world0 = some 3 ∧ memFiles.content 3 world0 = d) ∧
    (runAll [attach0, createF 0o644] demo).1.getLast? =
      some (some (.ok (.create { OQID := { Typ := 0, Version := 1000000, Path := 3 }, IOUnit := 8000 }))) ∧
    memFiles.content 3 (runAll [attach0, createF 0o644] demo).2.world = [] := ⟨⟨[1, 2, 3, 4], by decide, rfl, rfl⟩, rfl, rfl⟩

/-- C106 does not hold: a create of a directory f succeeds although f is a plain file, the QID of which is returned, and afterwards
the fid is not open. -/
theorem C106_counterexample_directory :
    (runAll [attach0, createF (0x80000000 + 0o755)] demo).1.getLast? =
      some (some (.ok (.create { OQID := { Typ := 0, Version := 1000000, Path := 3 }, IOUnit := 8000 }))) ∧
    (runAll [attach0, createF (0x80000000 + 0o755), .read { OFID := 0, Off := 0, Len := 10 }] demo).1.getLast? =
      some (some (.error (lit "FID not open"))) := ⟨rfl, rfl⟩

/-- C106: a new file g: the hypotheses of the theorems are met -/
example : ∃ s f s' q, s.files 0 = some f ∧ f.file = none ∧ tidyNames.node (pathJoin f.fullName [103]) s.world = none ∧
    (ufs tidyHost [103]).Rcreate 0 [103] 0o644 1 s = .ok s' q ∧ tidyNames.node (pathJoin f.fullName [103]) s'.world = some 5 := by
  refine ⟨(runAll [attach0] demo).2, { fullName := [47, 120], qid := _, file := none, oflow := _ }, _, _, rfl, rfl, rfl, rfl, rfl⟩

/-- C106: a new directory g: the hypotheses of the theorem are met -/
example : ∃ s f s' q io, s.files 0 = some f ∧ f.file = none ∧ 2 ^ 31 ≤ (0x80000000 + 0o755 : Perm).toNat ∧
    (ufs tidyHost [103]).Rcreate 0 [103] (0x80000000 + 0o755) 0 s = .ok s' (q, io) ∧ q.Typ = 128 := by
  refine ⟨(runAll [attach0] demo).2, { fullName := [47, 120], qid := _, file := none, oflow := _ }, _, _, _, rfl, rfl, by decide, rfl, rfl⟩

end

end Ninep.Ufs
