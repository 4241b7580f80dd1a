import Verif.Go
import Verif.Spec.Gauss
import Mathlib.Probability.Distributions.Uniform

/-!
# Uniform words
-/

namespace Ringo

open MeasureTheory

/-- A uniform 64-bit word. -/
noncomputable def word64 : Measure ℕ :=
  (PMF.uniformOfFinset (Finset.range (2 ^ 64)) (Finset.nonempty_range_iff.mpr (by norm_num))).toMeasure

instance : IsProbabilityMeasure word64 := by unfold word64; infer_instance

/-- What is left of a stream after the first `k` draws. -/
def dropN {Ω : Type} (k : ℕ) (ω : ℕ → Ω) : ℕ → Ω := fun i => ω (k + i)

/-- `c` reads words from a position of a stream, and returns a result and the next position.  On a stream
of independent uniform words it returns each element of `S` with probability `1/n`, independently of the words
it leaves; it returns nothing else, and returns almost surely. -/
structure Draws {α : Type} (c : (ℕ → ℕ) → ℕ → Go (α × ℕ)) (S : Set α) (n : ℕ) : Prop where
  /-- Only the words from the position on matter. -/
  shift : ∀ w pos, c w pos = (c (dropN pos w) 0).map fun (r : α × ℕ) => (r.1, pos + r.2)
  ran : ∀ w pos r, c w pos = .ok r → r.1 ∈ S
  ends : ∀ᵐ ω ∂stream word64, ∃ r, c ω 0 = .ok r
  meas : ∀ a ∈ S, ∀ B, MeasurableSet B → MeasurableSet {ω | ∃ k, c ω 0 = .ok (a, k) ∧ dropN k ω ∈ B}
  law : ∀ a ∈ S, ∀ B, MeasurableSet B →
    stream word64 {ω | ∃ k, c ω 0 = .ok (a, k) ∧ dropN k ω ∈ B} = (n : ENNReal)⁻¹ * stream word64 B

end Ringo
