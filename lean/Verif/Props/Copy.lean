import Verif.Props.UfsData

set_option linter.unusedSimpArgs false
set_option linter.unusedVariables false

/-
Copying files piece by piece (C84): what a client gets that reads a file until nothing comes any more, and
what a client leaves that writes a file piece after piece.
-/

namespace Ninep.Ufs
open Spec

section
variable {ω H : Type} (host : Host ω H) (user : GoString) {ν : Type}

/-- the fid is open on the plain file `v` -/
def OpenOn (V : FileView host ν) (v : ν) (s : State ω H) (fid : FID) : Prop :=
  ∃ f h, s.files fid = some f ∧ f.file = some h ∧ f.qid.Typ &&& QTDIR = 0 ∧ V.node h s.world = some v

/-- A client reads `v` to the end: each read asks for at least one byte at the end of what has come so far,
until nothing comes.  The fids and counts may change from read to read; in between come harmless requests
and other processes that leave the contents of `v` alone. -/
inductive Reads (V : FileView host ν) (v : ν) : Offset → State ω H → List Bytes → State ω H → Prop
  | done {o s h s1 s2 fid c} : Hist host user (Harmless host V v) (CalmAt host V v) s h s1 → OpenOn host V v s1 fid →
      c ≠ 0 → (ufs host user).Rread fid o c s1 = .ok s2 [] → Reads V v o s [] s2
  | more {o s h s1 s2 s3 fid c d ds} : Hist host user (Harmless host V v) (CalmAt host V v) s h s1 → OpenOn host V v s1 fid →
      (ufs host user).Rread fid o c s1 = .ok s2 d → d ≠ [] → Reads V v (o + UInt64.ofNat d.length) s2 ds s3 →
      Reads V v o s (d :: ds) s3

/-- A client writes `v` piece by piece, each at the end of the one before. -/
inductive Writes (V : FileView host ν) (v : ν) : Offset → State ω H → List Bytes → State ω H → Prop
  | done {o s h s1} : Hist host user (Harmless host V v) (CalmAt host V v) s h s1 → Writes V v o s [] s1
  | more {o s h s1 s2 s3 fid b n bs} : Hist host user (Harmless host V v) (CalmAt host V v) s h s1 → OpenOn host V v s1 fid →
      (ufs host user).Rwrite fid o b s1 = .ok s2 n → Writes V v (o + UInt64.ofNat b.length) s2 bs s3 →
      Writes V v o s (b :: bs) s3

variable {host user}

theorem hist_content {V : FileView host ν} {v : ν} {s s' : State ω H} {h : List Event}
    (hh : Hist host user (Harmless host V v) (CalmAt host V v) s h s') : V.content v s'.world = V.content v s.world := by
  refine Hist.invariant host user (I := fun t => V.content v t.world = V.content v s.world) ?_ ?_ hh rfl
  · exact fun s t ht hi => ht.2.trans hi
  · exact fun s m s' hp hi hc => (harmless_step host user V hp hc).2.trans hi

theorem read_piece {V : FileView host ν} {v : ν} {s s' : State ω H} {fid : FID} {o : Offset} {c : Count} {d : Bytes}
    (ho : OpenOn host V v s fid) (hr : (ufs host user).Rread fid o c s = .ok s' d) :
    0 ≤ c.toInt ∧ d = slice (V.content v s.world) o.toNat c.toInt.toNat ∧ V.content v s'.world = V.content v s.world := by
  obtain ⟨f, x, hf, hx, hq, hv⟩ := ho
  have hc0 : 0 ≤ c.toInt := by
    refine Int.not_lt.1 fun hneg => ?_
    have hr : rread host user fid o c s = .ok s' d := hr
    unfold rread at hr
    rw [hf] at hr
    dsimp only at hr
    rw [hx] at hr
    dsimp only at hr
    rw [if_neg (by simp [hq]), if_pos hneg] at hr
    cases hr
  obtain ⟨g1, g2, g3⟩ := C50_read host user V (o := o) hf hx hq hc0 hv
  refine ⟨hc0, ?_, (g3 s' (by rw [hr]; rfl)).2 v⟩
  generalize hra : host.readAt x c.toInt.toNat o.toInt64 s.world = r at g1 g2
  obtain ⟨w, y, e⟩ := r
  cases e with
  | fail e =>
    obtain ⟨s', h'⟩ := g2 w y e rfl
    rw [h'] at hr; cases hr
  | none =>
    obtain ⟨s', h', _⟩ := g1 w y _ rfl (by simp)
    rw [h'] at hr; cases hr; rfl
  | eof =>
    obtain ⟨s', h', _⟩ := g1 w y _ rfl (by simp)
    rw [h'] at hr; cases hr; rfl

theorem write_piece {V : FileView host ν} {v : ν} {s s' : State ω H} {fid : FID} {o : Offset} {b : Bytes} {n : Count}
    (ho : OpenOn host V v s fid) (hw : (ufs host user).Rwrite fid o b s = .ok s' n) :
    n = Int32.ofNat b.length ∧ V.content v s'.world = overlay (V.content v s.world) o.toNat b := by
  obtain ⟨f, x, hf, hx, hq, hv⟩ := ho
  have hw : rwrite host fid o b s = .ok s' n := hw
  unfold rwrite at hw
  rw [hf] at hw
  dsimp only at hw
  rw [hx] at hw
  dsimp only at hw
  have hwa := @V.write_at x b o.toInt64 s.world
  generalize host.writeAt x b o.toInt64 s.world = r at hw hwa
  obtain ⟨w, k, e⟩ := r
  cases e with
  | some e => cases hw
  | none =>
    obtain ⟨h0, h1, h2⟩ := hwa hv rfl
    cases hw
    rw [toInt64_nonneg h0] at h2
    exact ⟨by rw [h1], h2⟩

theorem add_toNat {o : Offset} {k : Nat} (h : o.toNat + k < 2 ^ 64) : (o + UInt64.ofNat k).toNat = o.toNat + k := by
  rw [UInt64.toNat_add, UInt64.toNat_ofNat_of_lt' (by have : UInt64.size = 2 ^ 64 := rfl; omega), Nat.mod_eq_of_lt (by omega)]

theorem overlay_append (c : Bytes) (o : Nat) (a b : Bytes) :
    overlay (overlay c o a) (o + a.length) b = overlay c o (a ++ b) := by
  unfold overlay
  by_cases hb : b = []
  · simp [hb]
  by_cases ha : a = []
  · simp [ha]
  have hab : a ++ b ≠ [] := by simp [ha]
  rw [if_neg hb, if_neg ha, if_neg hab]
  have hl : (c.take o ++ List.replicate (o - c.length) (0 : UInt8) ++ a).length = o + a.length := by
    simp; omega
  rw [List.take_append_of_le_length (by omega), List.take_of_length_le (by omega),
    show o + a.length - (c.take o ++ List.replicate (o - c.length) (0 : UInt8) ++ a ++ c.drop (o + a.length)).length = 0 by
      simp only [List.length_append] at hl ⊢; omega]
  have hd : (c.take o ++ List.replicate (o - c.length) (0 : UInt8) ++ a ++ c.drop (o + a.length)).drop (o + a.length + b.length) =
      c.drop (o + (a ++ b).length) := by
    rw [List.drop_append, List.drop_eq_nil_of_le (by omega), hl, List.nil_append, List.drop_drop, List.length_append]
    congr 1; omega
  rw [hd]
  simp [List.append_assoc]

/-- what a sequence of writes leaves -/
theorem writes_content {V : FileView host ν} {v : ν} {o : Offset} {s s' : State ω H} {bs : List Bytes}
    (h : Writes host user V v o s bs s') (hn : o.toNat + bs.flatten.length < 2 ^ 64) :
    V.content v s'.world = overlay (V.content v s.world) o.toNat bs.flatten := by
  induction h with
  | done hh => rw [hist_content hh]; simp [overlay]
  | @more o s h s1 s2 s3 fid b n bs hh ho hw _ ih =>
    rw [List.flatten_cons, List.length_append] at hn
    have ha : (o + UInt64.ofNat b.length).toNat = o.toNat + b.length := add_toNat (by omega)
    rw [ih (by rw [ha]; omega), ha, (write_piece ho hw).2, hist_content hh, overlay_append, List.flatten_cons]

theorem slice_nil {c : Bytes} {o n : Nat} (h : slice c o n = []) (hn : n ≠ 0) : c.drop o = [] := by
  unfold slice at h
  rcases List.take_eq_nil_iff.1 h with h | h
  · exact absurd h hn
  · exact h

/-- what a sequence of reads yields -/
theorem reads_content {V : FileView host ν} {v : ν} {o : Offset} {s s' : State ω H} {ds : List Bytes}
    (h : Reads host user V v o s ds s') (hn : (V.content v s.world).length < 2 ^ 64) :
    ds.flatten = (V.content v s.world).drop o.toNat ∧ V.content v s'.world = V.content v s.world := by
  induction h with
  | @done o s h s1 s2 fid c hh ho hc hr =>
    obtain ⟨h0, h1, h2⟩ := read_piece ho hr
    rw [hist_content hh] at h1 h2
    refine ⟨?_, h2⟩
    have hz : c.toInt ≠ 0 := fun h => hc (Int32.toInt_inj.1 h)
    exact (slice_nil h1.symm (by omega)).symm
  | @more o s h s1 s2 s3 fid c d ds hh ho hr hne _ ih =>
    obtain ⟨h0, h1, h2⟩ := read_piece ho hr
    rw [hist_content hh] at h1 h2
    have hlen : o.toNat + d.length ≤ (V.content v s.world).length := by
      rw [h1]
      unfold slice
      simp only [List.length_take, List.length_drop]
      have : 0 < ((V.content v s.world).drop o.toNat).length := List.length_pos_iff.2 fun h => hne (by rw [h1, slice, h, List.take_nil])
      rw [List.length_drop] at this
      omega
    have ha : (o + UInt64.ofNat d.length).toNat = o.toNat + d.length := add_toNat (by omega)
    obtain ⟨i1, i2⟩ := ih (by rw [h2]; exact hn)
    refine ⟨?_, i2.trans h2⟩
    rw [List.flatten_cons, i1, ha, h2, ← List.drop_drop]
    generalize hc : (V.content v s.world).drop o.toNat = x at *
    have h1 : d = x.take c.toInt.toNat := by rw [h1, slice, hc]
    have : d = x.take d.length := by
      have hle : d.length ≤ c.toInt.toNat := by rw [h1, List.length_take]; omega
      have h2 : x.take d.length = (x.take c.toInt.toNat).take d.length := by rw [List.take_take, Nat.min_eq_left hle]
      rw [h2, ← h1, List.take_of_length_le (Nat.le_refl _)]
    conv => lhs; lhs; rw [this]
    exact List.take_append_drop _ _

/-- **C84** A file that is read piece by piece until nothing comes is read completely and in order, however the
pieces are cut and whatever harmless requests come in between. -/
theorem C84_read {V : FileView host ν} {v : ν} {s s' : State ω H} {ds : List Bytes}
    (h : Reads host user V v 0 s ds s') (hn : (V.content v s.world).length < 2 ^ 64) : ds.flatten = V.content v s.world :=
  (reads_content h hn).1

/-- **C84** A file that is written piece by piece and then read piece by piece comes back the same, however the
pieces are cut: the reader gets what was written, followed by what an older and longer version of the file
had behind it. -/
theorem C84_copy {V : FileView host ν} {v : ν} {s s1 s2 : State ω H} {bs ds : List Bytes}
    (hw : Writes host user V v 0 s bs s1) (hr : Reads host user V v 0 s1 ds s2)
    (hb : bs.flatten.length < 2 ^ 64) (hn : (V.content v s.world).length < 2 ^ 64) :
    ds.flatten = bs.flatten ++ (V.content v s.world).drop bs.flatten.length := by
  have hc := writes_content hw (by simpa using hb)
  have h0 : (0 : UInt64).toNat = 0 := rfl
  have hc : V.content v s1.world = bs.flatten ++ (V.content v s.world).drop bs.flatten.length := by
    rw [hc, h0]
    unfold overlay
    split
    · rename_i h; simp [h]
    · simp
  rw [C84_read hr (by rw [hc, List.length_append, List.length_drop]; omega), hc]

/-- **C84** Reading to the end ends: as long as the host can read the file (`Good`), a client that asks for `c > 0` bytes at a time
gets the whole file after at most one read more than the file has bytes. -/
theorem C84_ends {V : FileView host ν} {v : ν} {s : State ω H} {fid : FID} {c : Count} {f : File H} {x : H}
    (hf : s.files fid = some f) (hx : f.file = some x) (hq : f.qid.Typ &&& QTDIR = 0) (hv : V.node x s.world = some v)
    (hc : 0 < c.toInt)
    (Good : ω → Prop) (h0 : Good s.world)
    (hgood : ∀ n o w, Good w → 0 ≤ o.toInt → (∀ e, (host.readAt x n o w).2.2 ≠ .fail e) ∧ Good (host.readAt x n o w).1)
    (hsize : (V.content v s.world).length < 2 ^ 63) :
    ∃ ds, listDir host user fid c ((V.content v s.world).length + 1) 0 s = some ds ∧ ds.flatten = V.content v s.world := by
  suffices H : ∀ (k : Nat) (o : Offset) (s : State ω H), s.files fid = some f → V.node x s.world = some v → Good s.world →
      (V.content v s.world).length < 2 ^ 63 → o.toNat ≤ (V.content v s.world).length →
      (V.content v s.world).length - o.toNat < k →
      ∃ ds, listDir host user fid c k o s = some ds ∧ ds.flatten = (V.content v s.world).drop o.toNat by
    exact H _ 0 s hf hv h0 hsize (by simp) (by simp)
  intro k
  induction k with
  | zero => intro o s _ _ _ _ _ h; omega
  | succ k ih =>
    intro o s hf hv hG hs ho hk
    obtain ⟨g1, g2, g3⟩ := C50_read host user V (o := o) (c := c) hf hx hq (by omega) hv
    have hoi : 0 ≤ o.toInt64.toInt := by
      have e : o.toInt64.toInt = (o.toNat : Int).bmod (2 ^ 64) := by
        simp [UInt64.toInt64, Int64.toInt, BitVec.toInt_eq_toNat_bmod]
        rfl
      rw [e, Int.bmod_def]
      omega
    have hgo := hgood c.toInt.toNat o.toInt64 s.world hG hoi
    have hr0 : rread host user fid o c s = match host.readAt x c.toInt.toNat o.toInt64 s.world with
        | (w, _, .fail e) => .err { s with world := w } e
        | (w, d, .none) => .ok { s with world := w } (d.take c.toInt.toNat)
        | (w, d, .eof) => .ok { s with world := w } (d.take c.toInt.toNat) := by
      unfold rread
      rw [hf]
      dsimp only
      rw [hx]
      dsimp only
      rw [if_neg (by simp [hq]), if_neg (by omega)]
      generalize host.readAt x c.toInt.toNat o.toInt64 s.world = r
      obtain ⟨w, d, e⟩ := r
      cases e <;> rfl
    generalize hra : host.readAt x c.toInt.toNat o.toInt64 s.world = r at g1 g2 hgo hr0
    obtain ⟨w, y, e⟩ := r
    have hne : ∀ x, e ≠ .fail x := hgo.1
    obtain ⟨s', hr, hle, -⟩ := g1 w y e rfl hne
    have hw : s'.world = w := by
      rw [show rread host user fid o c s = _ from hr] at hr0
      cases e with
      | fail x => exact absurd rfl (hne x)
      | none => exact congrArg State.world (NRes.ok.inj hr0).1
      | eof => exact congrArg State.world (NRes.ok.inj hr0).1
    obtain ⟨k1, k2⟩ := g3 s' (by rw [hr]; rfl)
    have hcalm : CalmAt host V v s.world s'.world :=
      harmless_step host user V (m := .read { OFID := fid, Off := o, Len := c }) trivial (by simp only [call, hr]; rfl)
    unfold listDir
    rw [hr]
    dsimp only
    generalize hcs : V.content v s.world = cs at *
    by_cases hd : slice cs o.toNat c.toInt.toNat = []
    · rw [if_pos hd]
      exact ⟨[], rfl, (slice_nil hd (by omega)).symm⟩
    · rw [if_neg hd]
      have hlen : (slice cs o.toNat c.toInt.toNat).length = min c.toInt.toNat (cs.length - o.toNat) := by simp [slice]
      have hpos := List.length_pos_iff.2 hd
      have hadd : (o + UInt64.ofNat (slice cs o.toNat c.toInt.toNat).length).toNat = o.toNat + (slice cs o.toNat c.toInt.toNat).length :=
        add_toNat (by omega)
      have k2 := (k2 v).trans hcs
      obtain ⟨ds, h1, h2⟩ := ih (o + UInt64.ofNat (slice cs o.toNat c.toInt.toNat).length) s' (by rw [k1]; exact hf) (hcalm.1 x v hv)
        (by rw [hw]; exact hgo.2)
        (by rw [k2]; exact hs) (by rw [hadd, k2]; omega) (by rw [hadd, k2]; omega)
      rw [h1]
      refine ⟨_, rfl, ?_⟩
      rw [List.flatten_cons, h2, k2, hadd, ← List.drop_drop]
      have : (slice cs o.toNat c.toInt.toNat) = (cs.drop o.toNat).take (slice cs o.toNat c.toInt.toNat).length := by
        rw [hlen, slice, ← List.length_drop, ← List.take_take, List.take_of_length_le (Nat.le_refl _)]
        
      conv => lhs; lhs; rw [this]
      exact List.take_append_drop _ _

end

/-! ### Examples -/
open Mem

/-- the hypotheses of `C84_copy`: "/x/f", which contains 1 2 3 4, is written through fid 1 in two pieces, with a
stat in between, and read through fid 2 in pieces of different sizes -/
example : ∃ s1 s2, Writes host [103] memFiles 3 0 demoOpen [[8], [9, 9]] s1 ∧
    Reads host [103] memFiles 3 0 s1 [[8, 9], [9, 4]] s2 ∧ memFiles.content 3 demoOpen.world = [1, 2, 3, 4] :=
  ⟨_, _,
    .more (fid := 1) (.nil _) ⟨_, _, rfl, rfl, by decide, rfl⟩ rfl
      (.more (fid := 1) (.ok (m := .stat { OFID := 1 }) trivial rfl (.nil _)) ⟨_, _, rfl, rfl, by decide, rfl⟩ rfl (.done (.nil _))),
    .more (fid := 2) (c := 2) (.nil _) ⟨_, _, rfl, rfl, by decide, rfl⟩ rfl (by decide)
      (.more (fid := 2) (c := 100) (.nil _) ⟨_, _, rfl, rfl, by decide, rfl⟩ rfl (by decide)
        (.done (fid := 1) (c := 1) (.nil _) ⟨_, _, rfl, rfl, by decide, rfl⟩ (by decide) rfl)), rfl⟩

/-- the hypotheses of `C84_ends` -/
example : ∃ f, demoOpen.files 1 = some f ∧ f.file = some 0 ∧ f.qid.Typ &&& QTDIR = 0 ∧ memFiles.node 0 demoOpen.world = some 3 ∧
    ∀ n o w, w = demoOpen.world → 0 ≤ o.toInt → (∀ e, (host.readAt 0 n o w).2.2 ≠ .fail e) ∧ (host.readAt 0 n o w).1 = demoOpen.world := by
  refine ⟨_, rfl, rfl, by decide, rfl, ?_⟩
  rintro n o w rfl ho
  have h : host.readAt 0 n o demoOpen.world = (demoOpen.world, slice [1, 2, 3, 4] o.toInt.toNat n,
      if (slice [1, 2, 3, 4] o.toInt.toNat n).length < n then .eof else .none) := by
    show (if o.toInt < 0 then (demoOpen.world, [], ReadErr.fail (lit "negative offset")) else _) = _
    rw [if_neg (by omega)]
    rfl
  rw [h]
  refine ⟨fun e => ?_, rfl⟩
  dsimp only
  split <;> simp

example : listDir host [103] 1 3 5 0 demoOpen = some [[1, 2, 3], [4]] := rfl

end Ninep.Ufs
