import Verif.Props.UfsData
import Verif.Props.StatCut
/-
What the reply to a write says (C120).

The count of a write reply is a signed 32-bit number in Go (protocol.go:117) and four bytes on the wire, the count of bytes
written is an int.
-/

namespace Ninep.Ufs
open Spec

variable {ω H : Type} {host : Host ω H} {user : GoString} {ν : Type}

theorem ofNat32_toInt (n : Nat) (h : n < 2 ^ 32) :
    (Int32.ofNat n).toInt = if n < 2 ^ 31 then (n : Int) else (n : Int) - 2 ^ 32 := by
  have e : (Int32.ofNat n).toInt = (n : Int).bmod (2 ^ 32) := by
    simp [Int32.toInt_ofNat']
  rw [e, Int.bmod_def]
  split <;> split <;> omega

theorem ofNat32_wire (n : Nat) : (Int32.ofNat n).toUInt32.toNat = n % 2 ^ 32 := by
  show (BitVec.ofInt 32 (n : Int)).toNat = n % 2 ^ 32
  simp

/-- **C120, partial** A write that succeeds has written all of its data, and the four bytes of the reply are the number
of bytes.  To the caller this is the number of bytes if and only if there are less than 2^31 of them, otherwise it is
negative. -/
theorem C120_exact_partial (V : FileView host ν) {p : TwritePkt} {s s' : State ω H} {r : RMsg} {f : File H} {h : H} {v : ν}
    (hf : s.files p.OFID = some f) (hh : f.file = some h) (hv : V.node h s.world = some v) (hl : p.Data.length < 2 ^ 32)
    (hc : call (ufs host user) (.write p) s = .ok s' r) :
    V.content v s'.world = overlay (V.content v s.world) p.Off.toNat p.Data ∧
    ∃ k, r = .write ⟨k⟩ ∧ r.fields = le 4 p.Data.length ∧
      (k.toInt = p.Data.length ↔ p.Data.length < 2 ^ 31) ∧ (k.toInt < 0 ↔ 2 ^ 31 ≤ p.Data.length) := by
  have hw : mapRes (fun q => RMsg.write ⟨q⟩) (rwrite host p.OFID p.Off p.Data s) = .ok s' r := hc
  unfold rwrite at hw
  rw [hf] at hw
  dsimp only at hw
  rw [hh] at hw
  dsimp only at hw
  have hwa := @V.write_at h p.Data p.Off.toInt64 s.world
  generalize host.writeAt h p.Data p.Off.toInt64 s.world = x at hw hwa
  obtain ⟨w, n, e⟩ := x
  cases e with
  | some e => cases hw
  | none =>
    obtain ⟨h0, h1, h2⟩ := hwa hv rfl
    rw [toInt64_nonneg h0] at h2
    cases hw
    subst h1
    refine ⟨h2, _, rfl, ?_, ?_, ?_⟩
    · simp only [RMsg.fields, ofNat32_wire, Nat.mod_eq_of_lt hl]
    · rw [ofNat32_toInt _ hl]
      split <;> omega
    · rw [ofNat32_toInt _ hl]
      split <;> omega

theorem big_offset {o : UInt64} (h : 2 ^ 63 ≤ o.toNat) : o.toInt64.toInt < 0 := by
  refine Int.not_le.1 fun h0 => ?_
  have h1 := toInt64_nonneg h0
  have h2 := Int64.toInt_lt o.toInt64
  omega

/-- **C120, partial** No offset is wrapped around: reads of plain files and writes at an offset of 2^63 or more are
refused. -/
theorem C120_offset_partial (V : FileView host ν) {fid : FID} {o : Offset} {s : State ω H} {f : File H} {h : H} {v : ν}
    (hf : s.files fid = some f) (hh : f.file = some h) (hv : V.node h s.world = some v) (ho : 2 ^ 63 ≤ o.toNat) :
    (∀ b, ∃ s' e, call (ufs host user) (.write ⟨fid, o, b⟩) s = .err s' e) ∧
    (f.qid.Typ &&& QTDIR = 0 → ∀ c : Count, 0 ≤ c.toInt → ∃ s' e, call (ufs host user) (.read ⟨fid, o, c⟩) s = .err s' e) := by
  have hneg := big_offset ho
  constructor
  · intro b
    simp only [call, ufs, rwrite, hf, hh]
    have hwa := @V.write_at h b o.toInt64 s.world
    generalize host.writeAt h b o.toInt64 s.world = x at hwa
    obtain ⟨w, n, e⟩ := x
    cases e with
    | some e => exact ⟨_, _, rfl⟩
    | none => exact absurd (hwa hv rfl).1 (by omega)
  · intro hq c hc
    simp only [call, ufs, rread, hf, hh]
    rw [if_neg (by simp [hq]), if_neg (by omega)]
    have hra := @V.read_at h c.toInt.toNat o.toInt64 s.world
    generalize host.readAt h c.toInt.toNat o.toInt64 s.world = x at hra
    obtain ⟨w, d, e⟩ := x
    cases e with
    | fail e => exact ⟨_, _, rfl⟩
    | none => exact absurd (hra hv rfl (by intro x hx; cases hx)).1 (by omega)
    | eof => exact absurd (hra hv rfl (by intro x hx; cases hx)).1 (by omega)

/-- **C120, partial** Nor is a length: on a host that does not truncate files to a negative length a wstat to a length of
2^63 or more (but for 2^64 - 1, which says to keep the length) is refused. -/
theorem C120_length_partial (ht : ∀ p (n : Int64) w, n.toInt < 0 → (host.truncate p n w).2 ≠ none) {fid : FID} {d : Dir}
    (hd : DirFits d) (hl : 2 ^ 63 ≤ d.Length.toNat) (hk : d.Length.toNat ≠ 2 ^ 64 - 1) (s : State ω H) :
    ∃ s' e, call (ufs host user) (.wstat ⟨fid, Spec.dir d⟩) s = .err s' e := by
  obtain ⟨t, b, e1⟩ := (C97_accepted (Spec.dir d) d).2 ⟨hd, .inl ⟨[], by simp [Spec.dir, le]⟩⟩
  have hne : d.Length ≠ 0xFFFFFFFFFFFFFFFF := fun h => hk (by rw [h]; rfl)
  have hbad : ∀ (r : State ω H × Option GoString) (k : State ω H → State ω H × Option GoString),
      (∀ s, (k s).2 ≠ none) → (andThen r k).2 ≠ none := by
    intro r k hk'
    obtain ⟨s, e⟩ := r
    cases e with
    | none => exact hk' s
    | some e => intro h; cases h
  have hfirst : ∀ (r : State ω H × Option GoString) (k : State ω H → State ω H × Option GoString),
      r.2 ≠ none → (andThen r k).2 ≠ none := by
    intro r k hr
    obtain ⟨s, e⟩ := r
    cases e with
    | none => exact absurd rfl hr
    | some e => exact hr
  simp only [call, ufs]
  unfold rwstat
  cases s.files fid with
  | none => exact ⟨_, _, rfl⟩
  | some f =>
    simp only [e1]
    generalize hr : andThen (wstatMode host f d s) _ = r
    have h2 : r.2 ≠ none := by
      rw [← hr]
      refine hbad _ _ fun s => hbad _ _ fun s => hbad _ _ fun s => ?_
      refine hfirst _ _ ?_
      unfold wstatLength
      rw [if_pos hne]
      exact ht _ _ _ (big_offset hl)
    obtain ⟨s', e⟩ := r
    cases e with
    | none => exact absurd rfl h2
    | some e => exact ⟨_, _, rfl⟩

namespace Mem

/-- the example host is such a host, and there are such records -/
example : (∀ p (n : Int64) w, n.toInt < 0 → (Mem.host.truncate p n w).2 ≠ none) ∧
    DirFits { Length := 0x8000000000000000 } := by
  refine ⟨fun p n w hn => ?_, by decide, by decide, by decide, by decide⟩
  simp [Mem.host, hn]

/-- the hypotheses are met: fid 1 is open on the file with the node 3, and a write of two bytes is answered with 2 -/
example : memFiles.node 0 demoOpen.world = some 3 ∧ (demoOpen.files 1).map (·.file) = some (some 0) ∧
    (demoOpen.files 1).map (fun f => f.qid.Typ &&& QTDIR) = some 0 ∧
    (runAll [.write { OFID := 1, Off := 3, Data := [8, 9] }] demoOpen).1 = [some (.ok (.write ⟨2⟩))] ∧
    (runAll [.write { OFID := 1, Off := 0x8000000000000003, Data := [8, 9] }] demoOpen).1 =
      [some (.error (lit "negative offset"))] := ⟨rfl, rfl, rfl, rfl, rfl⟩

/-- **C120 is false**: every write of 2^31 bytes or more to an open file succeeds and is answered with a negative count. -/
theorem C120_counterexample (d : Bytes) (h : 2 ^ 31 ≤ d.length) (h' : d.length < 2 ^ 32) :
    ∃ k : Count, (runAll [attach0, walk1, open1, .write { OFID := 1, Off := 0, Data := d }] demo).1.getLast? =
      some (some (.ok (.write ⟨k⟩))) ∧ k.toInt < 0 := by
  refine ⟨Int32.ofNat d.length, rfl, ?_⟩
  rw [ofNat32_toInt _ h']
  split <;> omega

end Mem

end Ninep.Ufs
