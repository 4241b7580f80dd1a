import Verif.Model.FieldSqrt
import Verif.Proof.FieldBytes
import Verif.Proof.FieldMem
import Verif.Proof.FieldInvLoop
import Mathlib.NumberTheory.LegendreSymbol.Basic

/-! # `Sqrt` computes square roots -/

namespace Ringo

/-- What the constants of `Sqrt` must satisfy. -/
structure FieldPkg.SqrtGood (P : FieldPkg) (S : SqrtConsts) : Prop where
  small : S.r < 2 ^ 63
  pos : 0 < S.r
  split : P.p = 2 ^ S.r * (2 * S.exponent + 1) + 1
  exponent : 0 < S.exponent
  g : ∃ γ : ZMod P.p, MontForm P.p P.n S.g γ ∧ γ ^ 2 ^ (S.r - 1) = -1

namespace FieldPkg

variable {P : FieldPkg}

theorem mont_squares (h : P.Good) : ∀ (k : Nat) {t : List Nat} {a : ZMod P.p}, MontForm P.p P.n t a →
    MontForm P.p P.n (P.squares k t) (a ^ 2 ^ k)
  | 0, t, a, ht => by simpa [squares] using ht
  | k + 1, t, a, ht => by
    have := mont_squares h k (mont_mul' h ht ht)
    rw [← sq, ← pow_mul, ← pow_succ'] at this
    exact this

theorem equal_one (h : P.Good) {t : List Nat} {a : ZMod P.p} (ht : MontForm P.p P.n t a) :
    equal t P.one = true ↔ a = 1 := by
  rw [equal_iff (by rw [ht.len, h.one_len])]
  exact MontForm_inj h ht (mont_one h)

theorem sqrtOrder_spec (h : P.Good) : ∀ (fuel : Nat) {t : List Nat} {a : ZMod P.p} (m : Nat), MontForm P.p P.n t a →
    a ^ 2 ^ fuel = 1 → ∃ k ≤ fuel, P.sqrtOrder fuel t m = some (m + k) ∧ a ^ 2 ^ k = 1 ∧ ∀ i < k, a ^ 2 ^ i ≠ 1
  | 0, t, a, m, ht, h1 => by
    refine ⟨0, le_rfl, ?_, h1, by simp⟩
    rw [pow_zero, pow_one] at h1
    rw [sqrtOrder, if_pos ((equal_one h ht).2 h1), Nat.add_zero]
  | fuel + 1, t, a, m, ht, h1 => by
    by_cases ha : a = 1
    · refine ⟨0, Nat.zero_le _, ?_, by rw [ha, one_pow], by simp⟩
      rw [sqrtOrder, if_pos ((equal_one h ht).2 ha), Nat.add_zero]
    · have h2 : (a * a) ^ 2 ^ fuel = 1 := by rw [← sq, ← pow_mul, ← pow_succ', h1]
      obtain ⟨k, hk, e, h3, h4⟩ := sqrtOrder_spec h fuel (m + 1) (mont_mul' h ht ht) h2
      refine ⟨k + 1, by omega, ?_, ?_, ?_⟩
      · rw [sqrtOrder, if_neg (fun hc => ha ((equal_one h ht).1 hc)), e]
        congr 1; omega
      · rw [← h3, ← sq, ← pow_mul, ← pow_succ']
      · intro i hi
        rcases i with _ | i
        · simpa using ha
        · have := h4 i (by omega)
          rwa [← sq, ← pow_mul, ← pow_succ'] at this

theorem sqrtGe_eq {r m : Nat} (hm : m < r) (hr : r < 2 ^ 63) : (sqrtGe r m).toNat = r - m - 1 := by
  unfold sqrtGe
  have e : BitVec.ofNat 64 r - BitVec.ofNat 64 m - 1 = BitVec.ofNat 64 (r - m - 1) := by
    apply BitVec.eq_of_toNat_eq
    have h1 : (1 : BitVec 64).toNat = 1 := rfl
    simp only [BitVec.toNat_sub, BitVec.toNat_ofNat, h1]
    omega
  rw [e, BitVec.toInt_eq_toNat_of_lt (by rw [BitVec.toNat_ofNat]; omega), BitVec.toNat_ofNat]
  omega

theorem sqrtLoop_spec (h : P.Good) {a : ZMod P.p} : ∀ (r fuel : Nat) {y b g : List Nat} {cy cb cg : ZMod P.p},
    r ≤ fuel → 0 < r → r < 2 ^ 63 → MontForm P.p P.n y cy → MontForm P.p P.n b cb → MontForm P.p P.n g cg →
    cy * cy = a * cb → cb ^ 2 ^ (r - 1) = 1 → cg ^ 2 ^ (r - 1) = -1 →
    ∃ w c, P.sqrtLoop fuel y b g r = some w ∧ MontForm P.p P.n w c ∧ c * c = a := by
  intro r
  induction r using Nat.strong_induction_on with
  | _ r ih =>
  intro fuel y b g cy cb cg hf hr hr2 hy hb hg h1 h2 h3
  have := Fact.mk h.prime
  obtain ⟨fuel, rfl⟩ : ∃ f, fuel = f + 1 := ⟨fuel - 1, by omega⟩
  have h2' : cb ^ 2 ^ (fuel + 1) = 1 := by
    rw [show fuel + 1 = r - 1 + (fuel + 1 - (r - 1)) by omega, pow_add, pow_mul, h2, one_pow]
  obtain ⟨m, hm, e, h4, h5⟩ := sqrtOrder_spec h (fuel + 1) 0 hb h2'
  rw [Nat.zero_add] at e
  have hmr : m ≤ r - 1 := by
    by_contra hc
    exact h5 (r - 1) (by omega) h2
  rw [sqrtLoop, e]
  simp only
  by_cases hm0 : m = 0
  · rw [if_pos hm0]
    rw [hm0, pow_zero, pow_one] at h4
    exact ⟨y, cy, rfl, hy, by rw [h1, h4, mul_one]⟩
  · rw [if_neg hm0, sqrtGe_eq (by omega) hr2]
    have ht := mont_squares h (r - m - 1) hg
    have hg' := mont_mul' h ht ht
    have hsq : cg ^ 2 ^ (r - m - 1) * cg ^ 2 ^ (r - m - 1) = cg ^ 2 ^ (r - m) := by
      rw [← sq, ← pow_mul, ← pow_succ, show r - m - 1 + 1 = r - m by omega]
    rw [hsq] at hg'
    have hgm : (cg ^ 2 ^ (r - m)) ^ 2 ^ (m - 1) = -1 := by
      rw [← pow_mul, ← pow_add, show r - m + (m - 1) = r - 1 by omega, h3]
    refine ih m (by omega) fuel (by omega) (by omega) (by omega) (mont_mul' h hy ht) (mont_mul' h hb hg') hg' ?_ ?_ hgm
    · rw [mul_mul_mul_comm, h1, hsq]; ring
    · rw [mul_pow, hgm]
      have h6 : cb ^ 2 ^ (m - 1) * cb ^ 2 ^ (m - 1) = 1 := by
        rw [← sq, ← pow_mul, ← pow_succ, show m - 1 + 1 = m by omega, h4]
      rcases mul_self_eq_one_iff.1 h6 with h7 | h7
      · exact absurd h7 (h5 (m - 1) (by omega))
      · rw [h7]; ring

theorem mont_sqrt (h : P.Good) {S : SqrtConsts} (hS : P.SqrtGood S) {fuel : Nat} (hf : S.r ≤ fuel) {x : List Nat}
    {a : ZMod P.p} (hx : MontForm P.p P.n x a) :
    (IsSquare a → ∃ w c, P.sqrt S fuel x = some (some w) ∧ MontForm P.p P.n w c ∧ c * c = a) ∧
      (¬ IsSquare a → P.sqrt S fuel x = some none) := by
  have := Fact.mk h.prime
  obtain ⟨γ, hg, hg1⟩ := hS.g
  have hw := mont_expBits h hx hS.exponent
  have hy := mont_mul' h hx hw
  have hb := mont_mul' h hw hy
  have ht := mont_squares h (S.r - 1) hb
  have hbs : a ^ S.exponent * (a * a ^ S.exponent) = a ^ (2 * S.exponent + 1) := by ring
  rw [hbs] at hb ht
  have hpos := hS.pos
  have hhalf : P.p / 2 = (2 * S.exponent + 1) * 2 ^ (S.r - 1) := by
    rw [hS.split]
    obtain ⟨r, hr⟩ : ∃ r, S.r = r + 1 := ⟨S.r - 1, by omega⟩
    rw [hr, pow_succ, Nat.add_sub_cancel]
    have : 2 ^ r * 2 * (2 * S.exponent + 1) = 2 * ((2 * S.exponent + 1) * 2 ^ r) := by ring
    omega
  have htv : (a ^ (2 * S.exponent + 1)) ^ 2 ^ (S.r - 1) = a ^ (P.p / 2) := by rw [← pow_mul, hhalf]
  have hp2 : 0 < P.p / 2 := by
    have := h.prime.two_le
    omega
  rw [htv] at ht
  unfold sqrt
  simp only
  by_cases ha : a = 0
  · have hz : isZero (P.squares (S.r - 1) (P.mul (P.expBits x S.exponent) (P.mul x (P.expBits x S.exponent)))) = true := by
      rw [isZero_mont h ht, ha, zero_pow (by omega)]
    rw [if_pos hz]
    refine ⟨fun _ => ⟨_, 0, rfl, mont_zero h, by rw [ha, mul_zero]⟩, fun hn => absurd ?_ hn⟩
    rw [ha]; exact IsSquare.zero
  · have hz : ¬ isZero (P.squares (S.r - 1) (P.mul (P.expBits x S.exponent) (P.mul x (P.expBits x S.exponent)))) = true := by
      rw [isZero_mont h ht]; exact pow_ne_zero _ ha
    rw [if_neg hz]
    have heuler := ZMod.euler_criterion P.p ha
    by_cases hsq : IsSquare a
    · have h1 := heuler.1 hsq
      refine ⟨fun _ => ?_, fun hn => absurd hsq hn⟩
      rw [if_neg (by rw [(equal_one h ht).2 h1]; decide)]
      obtain ⟨w, c, e, hwc, hc⟩ := sqrtLoop_spec h (a := a) S.r fuel hf hpos hS.small hy hb hg (by ring)
        (by rw [htv, h1]) hg1
      exact ⟨w, c, by rw [e]; rfl, hwc, hc⟩
    · refine ⟨fun hn => absurd hn hsq, fun _ => ?_⟩
      have h1 : ¬ a ^ (P.p / 2) = 1 := fun hc => hsq (heuler.2 hc)
      have : equal (P.squares (S.r - 1) (P.mul (P.expBits x S.exponent) (P.mul x (P.expBits x S.exponent)))) P.one = false := by
        rw [← Bool.not_eq_true, equal_one h ht]; exact h1
      rw [if_pos (by rw [this]; decide)]

/-- Repeated squaring of numbers. -/
def sqMod (p : Nat) (k x : Nat) : Nat := Nat.iterate (fun t => t * t % p) k x

theorem cast_sqMod (p : Nat) : ∀ k x : Nat, ((sqMod p k x : Nat) : ZMod p) = (x : ZMod p) ^ 2 ^ k
  | 0, x => by simp [sqMod]
  | k + 1, x => by
    have := cast_sqMod p k (x * x % p)
    rw [ZMod.natCast_mod, Nat.cast_mul, ← sq (x : ZMod p), ← pow_mul, ← pow_succ'] at this
    exact this

theorem sqrt_g (h : P.Good) {g : List Nat} {k : Nat} (h1 : g.length = P.n) (h2 : ∀ w ∈ g, w < 2 ^ 64)
    (h3 : wv g < P.p) (h4 : (sqMod P.p k (wv g) + sqMod P.p k ((2 ^ 64) ^ P.n)) % P.p = 0) :
    ∃ γ : ZMod P.p, MontForm P.p P.n g γ ∧ γ ^ 2 ^ k = -1 := by
  have := Fact.mk h.prime
  obtain ⟨γ, hγ⟩ := mont_exists h h1 h2 h3
  refine ⟨γ, hγ, ?_⟩
  have h5 : ((sqMod P.p k (wv g) + sqMod P.p k ((2 ^ 64) ^ P.n) : Nat) : ZMod P.p) = 0 :=
    (ZMod.natCast_eq_zero_iff _ _).2 (Nat.dvd_of_mod_eq_zero h4)
  rw [Nat.cast_add, cast_sqMod, cast_sqMod, cast_R] at h5
  have h6 : ((wv g : Nat) : ZMod P.p) = γ * P.R := hγ.val
  rw [h6, mul_pow] at h5
  have h7 : (P.R ^ 2 ^ k : ZMod P.p) ≠ 0 := pow_ne_zero _ (R_ne h)
  have h8 : (γ ^ 2 ^ k + 1) * P.R ^ 2 ^ k = 0 := by rw [← h5]; ring
  rcases mul_eq_zero.1 h8 with h9 | h9
  · exact eq_neg_of_add_eq_zero_left h9
  · exact absurd h9 h7

end FieldPkg

end Ringo
