import Mathlib.Analysis.SpecialFunctions.Exp
import Mathlib.Analysis.SpecialFunctions.Trigonometric.Basic
import Mathlib.Analysis.Real.Sqrt
import Mathlib.Algebra.BigOperators.Group.Finset.Basic
import Mathlib.Data.Int.Interval
import Mathlib.Order.Interval.Finset.Basic
import Mathlib.Probability.ProductMeasure
import Mathlib.Probability.Distributions.Gaussian.Real

/-!
# Specification of Gaussian distributions over the integers
-/

namespace Ringo

open Real Finset

/-- The density of the normal distribution with mean `c` and standard deviation `σ`. -/
noncomputable def gaussPdf (σ c x : ℝ) : ℝ := exp (-(x - c) ^ 2 / (2 * σ ^ 2)) / (σ * √(2 * π))

/-- The Gaussian mass of the integers up to `x`, over a window that starts `⌈9σ⌉` below the integer part of
the center. -/
noncomputable def gaussCdf (σ c : ℝ) (x : ℤ) : ℝ := ∑ y ∈ Icc (⌊c⌋ - ⌈9 * σ⌉) x, gaussPdf σ c y

/-- The mass of the whole window, from `⌈9σ⌉` below to `⌈9σ⌉` above the integer part of the center. -/
noncomputable def gaussMass (σ c : ℝ) : ℝ := gaussCdf σ c (⌊c⌋ + ⌈9 * σ⌉)

/-- `x` is the quantile of the discrete Gaussian for the probability `p`: the cumulative mass passes `p`
at `x`. -/
def IsQuantile (σ c p : ℝ) (x : ℤ) : Prop := gaussCdf σ c (x - 1) ≤ p ∧ p < gaussCdf σ c x

/-- The center rounded down to a multiple of `1/128`. -/
noncomputable def gridDown (c : ℝ) : ℝ := ⌊128 * c⌋ / 128

/-! ## Random draws -/

open MeasureTheory

/-- The uniform distribution on `[0, 1)`. -/
noncomputable def unif01 : Measure ℝ := volume.restrict (Set.Ico 0 1)

/-- A fair coin. -/
noncomputable def coin : Measure Bool := (2⁻¹ : ENNReal) • (Measure.dirac false + Measure.dirac true)

/-- The standard normal distribution. -/
noncomputable def stdNormal : Measure ℝ := ProbabilityTheory.gaussianReal 0 1

/-- A stream of independent draws. -/
noncomputable def stream {Ω : Type} [MeasurableSpace Ω] (μ : Measure Ω) [IsProbabilityMeasure μ] : Measure (ℕ → Ω) :=
  Measure.infinitePi fun _ => μ

instance : IsProbabilityMeasure unif01 := ⟨by simp [unif01]⟩

instance : IsProbabilityMeasure coin := ⟨by
  simp only [coin, Measure.smul_apply, Measure.add_apply, measure_univ, smul_eq_mul]
  rw [one_add_one_eq_two, ENNReal.inv_mul_cancel (by norm_num) (by norm_num)]⟩

instance : IsProbabilityMeasure stdNormal := by unfold stdNormal; infer_instance

instance {Ω : Type} [MeasurableSpace Ω] (μ : Measure Ω) [IsProbabilityMeasure μ] : IsProbabilityMeasure (stream μ) := by
  unfold stream; infer_instance

/-- What the COSAC sampler draws: a uniform float, then rounds of a normal number, a bit and a uniform
float. -/
noncomputable def cosacDraws : Measure (ℝ × (ℕ → ℝ × Bool × ℝ)) :=
  unif01.prod (stream (stdNormal.prod (coin.prod unif01)))

/-- A uniform layer of the ziggurat. -/
noncomputable def unifLayer : Measure (Fin 128) := (128⁻¹ : ENNReal) • Measure.count

instance : IsProbabilityMeasure unifLayer := ⟨by
  simp only [unifLayer, Measure.smul_apply, smul_eq_mul, Measure.count_univ, ENat.card_eq_coe_fintype_card,
    Fintype.card_fin]
  exact ENNReal.inv_mul_cancel (by norm_num) (by norm_num)⟩

/-- What a round of `normFloat` draws: a sign, a layer, a mantissa, a float, and pairs of floats for the tail. -/
noncomputable def zigDraws : Measure (Bool × Fin 128 × ℝ × ℝ × (ℕ → ℝ × ℝ)) :=
  coin.prod (unifLayer.prod (unif01.prod (unif01.prod (stream (unif01.prod unif01)))))

instance : IsProbabilityMeasure zigDraws := by unfold zigDraws; infer_instance

end Ringo
