import Verif.Proto.Marshal
import Verif.Proto.Unmarshal
import Verif.Spec.Wire
/-
Integers: the byte shuffling of the generated code is base 256 notation.
-/

namespace Ninep
open Spec

@[simp] theorem le_length (n x : Nat) : (le n x).length = n := by
  induction n generalizing x with
  | zero => rfl
  | succ n ih => simp [le, ih]

theorem leVal_le (n x : Nat) : leVal (le n x) = x % 256 ^ n := by
  induction n generalizing x with
  | zero => simp [le, leVal, Nat.mod_one]
  | succ n ih =>
    simp only [le, leVal, ih]
    have h1 : (UInt8.ofNat (x % 256)).toNat = x % 256 := by simp
    rw [h1, Nat.pow_succ, Nat.mul_comm (256 ^ n) 256, Nat.mod_mul]

theorem leVal_lt (bs : Bytes) : leVal bs < 256 ^ bs.length := by
  induction bs with
  | nil => simp [leVal]
  | cons b bs ih =>
    simp only [leVal, List.length_cons, Nat.pow_succ]
    have := b.toNat_lt
    omega

theorem le_leVal (bs : Bytes) : le bs.length (leVal bs) = bs := by
  induction bs with
  | nil => rfl
  | cons b bs ih =>
    simp only [leVal, List.length_cons, le]
    have hb := b.toNat_lt
    have h1 : (b.toNat + 256 * leVal bs) % 256 = b.toNat := by omega
    have h2 : (b.toNat + 256 * leVal bs) / 256 = leVal bs := by omega
    rw [h1, h2, ih]; simp

theorem le_inj {n x y : Nat} (hx : x < 256 ^ n) (hy : y < 256 ^ n) (h : le n x = le n y) : x = y := by
  have := congrArg leVal h
  rwa [leVal_le, leVal_le, Nat.mod_eq_of_lt hx, Nat.mod_eq_of_lt hy] at this

theorem u8_ofNat_mod (n : Nat) : UInt8.ofNat (n % 256) = UInt8.ofNat n := by
  apply UInt8.toNat_inj.1; simp

theorem put8_eq (x : UInt8) : put8 x = le 1 x.toNat := by
  have := x.toNat_lt
  simp [put8, le]

theorem put16_eq (x : UInt16) : put16 x = le 2 x.toNat := by
  simp only [put16, le, List.cons.injEq, and_true]
  constructor <;> apply UInt8.toNat_inj.1 <;> simp [Nat.shiftRight_eq_div_pow]

theorem put32_eq (x : UInt32) : put32 x = le 4 x.toNat := by
  simp only [put32, le, List.cons.injEq, and_true]
  refine ⟨?_, ?_, ?_, ?_⟩ <;> apply UInt8.toNat_inj.1 <;>
    simp [Nat.shiftRight_eq_div_pow, Nat.div_div_eq_div_mul]

theorem put64_eq (x : UInt64) : put64 x = le 8 x.toNat := by
  simp only [put64, le, List.cons.injEq, and_true]
  refine ⟨?_, ?_, ?_, ?_, ?_, ?_, ?_, ?_⟩ <;> apply UInt8.toNat_inj.1 <;>
    simp [Nat.shiftRight_eq_div_pow, Nat.div_div_eq_div_mul]

theorem putLen16_eq (n : Nat) : putLen16 n = le 2 n := by
  simp only [putLen16, le, List.cons.injEq, and_true]
  constructor <;> apply UInt8.toNat_inj.1 <;> simp [Nat.shiftRight_eq_div_pow]

theorem putLen32_eq (n : Nat) : putLen32 n = le 4 n := by
  simp only [putLen32, le, List.cons.injEq, and_true]
  refine ⟨?_, ?_, ?_, ?_⟩ <;> apply UInt8.toNat_inj.1 <;>
    simp [Nat.shiftRight_eq_div_pow, Nat.div_div_eq_div_mul]

theorem sshr_byte (v : BitVec 32) (k : Nat) (hk : k ≤ 24) :
    (v.sshiftRight k).setWidth 8 = (v >>> k).setWidth 8 := by
  apply BitVec.eq_of_getLsbD_eq
  intro i hi
  simp only [BitVec.getLsbD_setWidth, BitVec.getLsbD_sshiftRight, BitVec.getLsbD_ushiftRight]
  have h1 : ¬ 32 ≤ i := by omega
  have h2 : k + i < 32 := by omega
  simp [h1, h2]

theorem putCount_eq (x : Int32) : putCount x = le 4 x.toUInt32.toNat := by
  rw [← put32_eq]
  simp only [putCount, put32, List.cons.injEq, and_true]
  refine ⟨?_, ?_, ?_, ?_⟩ <;> apply UInt8.toBitVec_inj.1
  · exact sshr_byte x.toBitVec 0 (by omega)
  · exact sshr_byte x.toBitVec 8 (by omega)
  · exact sshr_byte x.toBitVec 16 (by omega)
  · exact sshr_byte x.toBitVec 24 (by omega)

theorem or_shl_toNat (a b k : Nat) (ha : a < 2 ^ k) : a ||| b <<< k = a + b * 2 ^ k := by
  rw [Nat.or_comm, ← Nat.shiftLeft_add_eq_or_of_lt ha, Nat.shiftLeft_eq]; omega

theorem asm16_toNat (u : Fin 8 → Byte) : (Dec.asm16 u).toNat = leVal [u 0, u 1] := by
  have h0 := (u 0).toNat_lt; have h1 := (u 1).toNat_lt
  simp only [Dec.asm16, leVal, UInt16.toNat_or, UInt16.toNat_shiftLeft, UInt8.toNat_toUInt16]
  have e : (u 1).toNat <<< ((8:UInt16).toNat % 16) % 2^16 = (u 1).toNat <<< 8 := by
    apply Nat.mod_eq_of_lt; simp [Nat.shiftLeft_eq]; omega
  rw [e, or_shl_toNat _ _ 8 (by omega)]; omega

theorem asm32_toNat (u : Fin 8 → Byte) : (Dec.asm32 u).toNat = leVal [u 0, u 1, u 2, u 3] := by
  have h0 := (u 0).toNat_lt; have h1 := (u 1).toNat_lt
  have h2 := (u 2).toNat_lt; have h3 := (u 3).toNat_lt
  simp only [Dec.asm32, leVal, UInt32.toNat_or, UInt32.toNat_shiftLeft, UInt8.toNat_toUInt32]
  have e1 : (u 1).toNat <<< ((8:UInt32).toNat % 32) % 2^32 = (u 1).toNat <<< 8 := by
    apply Nat.mod_eq_of_lt; simp [Nat.shiftLeft_eq]; omega
  have e2 : (u 2).toNat <<< ((16:UInt32).toNat % 32) % 2^32 = (u 2).toNat <<< 16 := by
    apply Nat.mod_eq_of_lt; simp [Nat.shiftLeft_eq]; omega
  have e3 : (u 3).toNat <<< ((24:UInt32).toNat % 32) % 2^32 = (u 3).toNat <<< 24 := by
    apply Nat.mod_eq_of_lt; simp [Nat.shiftLeft_eq]; omega
  rw [e1, e2, e3, or_shl_toNat _ _ 8 (by omega), or_shl_toNat _ _ 16 (by omega),
    or_shl_toNat _ _ 24 (by omega)]
  omega

theorem asm64_toNat (u : Fin 8 → Byte) :
    (Dec.asm64 u).toNat = leVal [u 0, u 1, u 2, u 3, u 4, u 5, u 6, u 7] := by
  have h0 := (u 0).toNat_lt; have h1 := (u 1).toNat_lt
  have h2 := (u 2).toNat_lt; have h3 := (u 3).toNat_lt
  have h4 := (u 4).toNat_lt; have h5 := (u 5).toNat_lt
  have h6 := (u 6).toNat_lt; have h7 := (u 7).toNat_lt
  simp only [Dec.asm64, leVal, UInt64.toNat_or, UInt64.toNat_shiftLeft, UInt8.toNat_toUInt64]
  have e (b k : Nat) (hb : b < 256) (hk : k ≤ 56) : b <<< k % 2^64 = b <<< k := by
    apply Nat.mod_eq_of_lt
    rw [Nat.shiftLeft_eq]
    calc b * 2^k < 256 * 2^k := Nat.mul_lt_mul_of_pos_right hb (Nat.two_pow_pos _)
      _ = 2 ^ (8 + k) := by rw [Nat.pow_add]
      _ ≤ 2 ^ 64 := Nat.pow_le_pow_right (by omega) (by omega)
  have k1 : ((8:UInt64).toNat % 64) = 8 := rfl
  have k2 : ((16:UInt64).toNat % 64) = 16 := rfl
  have k3 : ((24:UInt64).toNat % 64) = 24 := rfl
  have k4 : ((32:UInt64).toNat % 64) = 32 := rfl
  have k5 : ((40:UInt64).toNat % 64) = 40 := rfl
  have k6 : ((48:UInt64).toNat % 64) = 48 := rfl
  have k7 : ((56:UInt64).toNat % 64) = 56 := rfl
  rw [k1, k2, k3, k4, k5, k6, k7, e _ 8 h1 (by omega), e _ 16 h2 (by omega), e _ 24 h3 (by omega),
    e _ 32 h4 (by omega), e _ 40 h5 (by omega), e _ 48 h6 (by omega), e _ 56 h7 (by omega),
    or_shl_toNat _ _ 8 (by omega), or_shl_toNat _ _ 16 (by omega),
    or_shl_toNat _ _ 24 (by omega), or_shl_toNat _ _ 32 (by omega),
    or_shl_toNat _ _ 40 (by omega), or_shl_toNat _ _ 48 (by omega), or_shl_toNat _ _ 56 (by omega)]
  omega

theorem asmLen16_toNat (u : Fin 8 → Byte) : (Dec.asmLen16 u).toNat = leVal [u 0, u 1] := by
  have h0 := (u 0).toNat_lt; have h1 := (u 1).toNat_lt
  simp only [Dec.asmLen16, leVal, UInt64.toNat_or, UInt64.toNat_shiftLeft, UInt8.toNat_toUInt64]
  have e : (u 1).toNat <<< ((8:UInt64).toNat % 64) % 2^64 = (u 1).toNat <<< 8 := by
    apply Nat.mod_eq_of_lt; simp [Nat.shiftLeft_eq]; omega
  rw [e, or_shl_toNat _ _ 8 (by omega)]; omega

theorem asmLen32_toNat (u : Fin 8 → Byte) :
    (Dec.asmLen32 u).toNat = leVal [u 0, u 1, u 2, u 3] := by
  have h0 := (u 0).toNat_lt; have h1 := (u 1).toNat_lt
  have h2 := (u 2).toNat_lt; have h3 := (u 3).toNat_lt
  simp only [Dec.asmLen32, leVal, UInt64.toNat_or, UInt64.toNat_shiftLeft, UInt8.toNat_toUInt64]
  have e1 : (u 1).toNat <<< ((8:UInt64).toNat % 64) % 2^64 = (u 1).toNat <<< 8 := by
    apply Nat.mod_eq_of_lt; simp [Nat.shiftLeft_eq]; omega
  have e2 : (u 2).toNat <<< ((16:UInt64).toNat % 64) % 2^64 = (u 2).toNat <<< 16 := by
    apply Nat.mod_eq_of_lt; simp [Nat.shiftLeft_eq]; omega
  have e3 : (u 3).toNat <<< ((24:UInt64).toNat % 64) % 2^64 = (u 3).toNat <<< 24 := by
    apply Nat.mod_eq_of_lt; simp [Nat.shiftLeft_eq]; omega
  rw [e1, e2, e3, or_shl_toNat _ _ 8 (by omega), or_shl_toNat _ _ 16 (by omega),
    or_shl_toNat _ _ 24 (by omega)]
  omega

theorem asmCount_eq (u : Fin 8 → Byte) : (Dec.asmCount u).toUInt32 = Dec.asm32 u := by
  rfl

end Ninep
