import Verif.Model.Csprng
import Mathlib.Tactic.Ring
import Mathlib.Data.Finset.Card
import Mathlib.Data.Finset.Range
import Mathlib.Data.Finset.Image

/-!
# C75: the bits of the ziggurat sampler
-/

namespace Ringo

open Finset

theorem zigBits_toNat (r : UInt64) : (zigBits r).1.toNat = r.toNat / 2 ^ 63 ∧
    (zigBits r).2.1.toNat = r.toNat % 2 ^ 7 ∧ (zigBits r).2.2.toNat = r.toNat / 2 ^ 7 % 2 ^ 52 := by
  unfold zigBits
  refine ⟨?_, ?_, ?_⟩
  · simp only [UInt64.toNat_shiftRight, Nat.shiftRight_eq_div_pow]; rfl
  · simp only; rw [UInt64.toNat_mod]; rfl
  · simp only; rw [UInt64.toNat_mod, UInt64.toNat_shiftRight, Nat.shiftRight_eq_div_pow]; rfl

/-- **C75, sign.**  The value passed to `float64` is `j` or `-j` according to the sign bit, and its
absolute value is below `2^53`. -/
theorem C75_sign (r : UInt64) :
    (zigSigned (zigBits r).1 (zigBits r).2.2).toInt =
      (if r.toNat / 2 ^ 63 = 0 then 1 else -1) * ((r.toNat / 2 ^ 7 % 2 ^ 52 : Nat) : Int) ∧
    |(zigSigned (zigBits r).1 (zigBits r).2.2).toInt| < 2 ^ 53 := by
  obtain ⟨h1, -, h3⟩ := zigBits_toNat r
  have hr := r.toNat_lt
  generalize (zigBits r).1 = b at *
  generalize (zigBits r).2.2 = j at *
  have hj : j.toNat < 2 ^ 52 := by rw [h3]; exact Nat.mod_lt _ (by norm_num)
  have hv : (zigSigned b j).toInt = (if r.toNat / 2 ^ 63 = 0 then 1 else -1) * ((j.toNat : Nat) : Int) := by
    rcases (by omega : r.toNat / 2 ^ 63 = 0 ∨ r.toNat / 2 ^ 63 = 1) with h | h
    · have hb : b = 0 := UInt64.toNat_inj.1 (by rw [h1, h]; rfl)
      subst hb
      rw [if_pos h]
      have : zigSigned 0 j = j.toInt64 := by
        unfold zigSigned; simp
      rw [this]
      have : j.toInt64.toInt = (j.toBitVec).toInt := rfl
      rw [this, BitVec.toInt_eq_toNat_of_lt (by change 2 * j.toNat < 2 ^ 64; omega)]
      change (j.toNat : Int) = _
      ring
    · have hb : b = 1 := UInt64.toNat_inj.1 (by rw [h1, h]; rfl)
      subst hb
      rw [if_neg (by omega)]
      have : (zigSigned 1 j).toInt = (-j.toBitVec).toInt := by
        have h2 : (zigSigned 1 j).toBitVec = -j.toBitVec := by
          rw [BitVec.neg_eq_not_add, ← BitVec.xor_allOnes]; rfl
        rw [← h2]; rfl
      rw [this, BitVec.toInt_neg_of_ne_intMin, BitVec.toInt_eq_toNat_of_lt (by change 2 * j.toNat < 2 ^ 64; omega)]
      · change -(j.toNat : Int) = _; ring
      · intro h
        have := congrArg BitVec.toNat h
        rw [BitVec.toNat_intMin] at this
        change j.toNat = _ at this
        norm_num at this
        omega
  refine ⟨by rw [hv, h3], ?_⟩
  rw [hv]
  split_ifs <;> simp <;> omega

/-- **C75, independence.**  Every triple of a sign, a layer and a mantissa is drawn from exactly 16 of
the `2^64` words. -/
theorem C75_uniform (b i j : Nat) (hb : b < 2) (hi : i < blockSize) (hj : j < 2 ^ floatPrec) :
    ((range (2 ^ 64)).filter (fun w => (zigBits (UInt64.ofNat w)).1.toNat = b ∧
      (zigBits (UInt64.ofNat w)).2.1.toNat = i ∧ (zigBits (UInt64.ofNat w)).2.2.toNat = j)).card = 16 := by
  unfold blockSize at hi
  unfold floatPrec at hj
  have : (range (2 ^ 64)).filter (fun w => (zigBits (UInt64.ofNat w)).1.toNat = b ∧
      (zigBits (UInt64.ofNat w)).2.1.toNat = i ∧ (zigBits (UInt64.ofNat w)).2.2.toNat = j) =
      (range 16).image (fun m => b * 2 ^ 63 + m * 2 ^ 59 + j * 2 ^ 7 + i) := by
    ext w
    simp only [mem_filter, mem_range, mem_image]
    constructor
    · rintro ⟨hw, h1, h2, h3⟩
      obtain ⟨e1, e2, e3⟩ := zigBits_toNat (UInt64.ofNat w)
      rw [UInt64.toNat_ofNat_of_lt' (by simpa [UInt64.size] using hw)] at e1 e2 e3
      refine ⟨w / 2 ^ 59 % 16, by omega, by omega⟩
    · rintro ⟨m, hm, rfl⟩
      have hw : b * 2 ^ 63 + m * 2 ^ 59 + j * 2 ^ 7 + i < 2 ^ 64 := by omega
      obtain ⟨e1, e2, e3⟩ := zigBits_toNat (UInt64.ofNat (b * 2 ^ 63 + m * 2 ^ 59 + j * 2 ^ 7 + i))
      rw [UInt64.toNat_ofNat_of_lt' (by simpa [UInt64.size] using hw)] at e1 e2 e3
      exact ⟨hw, by omega, by omega, by omega⟩
  rw [this, card_image_of_injective _ (by intro a b h; simp only at h; omega), card_range]

/-- The word `2^63 + 5·2^7 + 3`: sign 1, layer 3, mantissa 5, value -5. -/
example : zigBits 0x8000000000000283 = (1, 3, 5) ∧ zigSigned 1 5 = -5 := by decide

end Ringo
