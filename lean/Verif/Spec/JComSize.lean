import Verif.Spec.JSearch
import Verif.Spec.JParams

/-!
# Specification: the bits of a commitment
-/

namespace Ringo

open Real

/-- The number of coefficients in a batch of outer commitments. -/
noncomputable def RParams.comCoeffs (P : RParams) : ℝ := P.shape.batch * P.outRank * P.deg

/-- The bits of one coefficient: it lies modulo the product of the `Q'`, and its lowest `outCut` bits are removed. -/
noncomputable def RParams.coeffBits (P : RParams) (Q' : List Nat) : ℝ := logb 2 (Q'.prod / 2 ^ P.outCut)

/-- The primes asked for with `bits` bits have at most `bits + 1`. -/
def GenLe (gen : ℤ → ℤ → Option (List Nat)) : Prop :=
  ∀ bits limbs l, gen bits limbs = some l → ∀ q ∈ l, q ≤ 2 ^ (bits.toNat + 1)

end Ringo
