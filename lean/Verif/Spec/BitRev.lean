/-!
# Specification: bit reversal
-/

namespace Ringo

/-- `rev K i`: the number whose `K`-bit binary expansion is that of `i` read backwards. -/
def rev : Nat → Nat → Nat
  | 0, _ => 0
  | K + 1, i => (i % 2) * 2 ^ K + rev K (i / 2)

/-- Bit `b` of `rev K i` is bit `K-1-b` of `i`: this pins `rev` down. -/
theorem testBit_rev (K i b : Nat) : (rev K i).testBit b = (decide (b < K) && i.testBit (K - 1 - b)) := by
  induction K generalizing i b with
  | zero => simp [rev]
  | succ K ih =>
    have hlt : ∀ K i, rev K i < 2 ^ K := by
      intro K; induction K with
      | zero => intro i; simp [rev]
      | succ K ih => intro i; have := ih (i / 2); simp only [rev, Nat.pow_succ]; have : i % 2 < 2 := Nat.mod_lt _ (by decide); rcases Nat.mod_two_eq_zero_or_one i with h | h <;> rw [h] <;> omega
    rw [rev, Nat.mul_comm, Nat.testBit_two_pow_mul_add _ (hlt K _)]
    by_cases hb : b < K
    · simp only [hb, if_true, ih]
      rw [show K + 1 - 1 - b = (K - 1 - b) + 1 by omega, Nat.testBit_succ]
      simp [show b < K + 1 by omega]
    · simp only [hb, if_false]
      by_cases hb2 : b = K
      · subst hb2
        simp [Nat.testBit_zero]
      · rw [Nat.testBit_lt_two_pow]
        · simp [show ¬ b < K + 1 by omega]
        · have : i % 2 < 2 := Nat.mod_lt _ (by decide)
          have : 2 ^ 1 ≤ 2 ^ (b - K) := Nat.pow_le_pow_right (by decide) (by omega)
          omega

end Ringo
