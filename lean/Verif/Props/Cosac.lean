import Verif.Proof.Cosac
import Mathlib.Analysis.Real.Pi.Bounds

/-!
# C94: the COSAC sampler

`Sample(center, stdDev)` should return `x` with a probability proportional to the Gaussian density at `x`.  It
does so for all integers but the one nearest to the center, which comes out too often: `sampleRound` compares
the rounded value instead of the normal number, and returns the nearest integer although `Sample` has dealt
with it before.

`normFloat` is replaced by a draw from the normal distribution, and the words by uniform real numbers.
-/

namespace Ringo

open MeasureTheory Real

theorem measurableSet_cosac_none (c σ : ℝ) : MeasurableSet {d | cosacBody c σ d = none} := by
  have : {d | cosacBody c σ d = none} = (⋃ z : ℤ, {d | cosacBody c σ d = some z})ᶜ := by
    ext d
    simp only [Set.mem_ofPred_eq, Set.mem_compl_iff, Set.mem_iUnion]
    rcases cosacBody c σ d with _ | z <;> simp
  rw [this]
  exact (MeasurableSet.iUnion fun z => measurableSet_cosac c σ z).compl

/-- The law of `sampleRound`. -/
theorem cosacSampleRound_law (c σ : ℝ) (z : ℤ) :
    stream roundDraws {ω | cosacSampleRound c σ ω = some z} =
      roundDraws {d | cosacBody c σ d = some z} / roundDraws {d | cosacBody c σ d ≠ none} := by
  have := untilSome_law roundDraws (cosacBody c σ) {z} (by simpa using measurableSet_cosac c σ z)
    (measurableSet_cosac_none c σ)
  simpa [cosacSampleRound] using this

theorem cosac_frac (center : ℝ) : |(roundAway center : ℝ) - center| ≤ 1 / 2 := by
  rw [abs_le]
  have := roundAway_dist center
  constructor <;> linarith

/-- The probability of line 54 is the Gaussian density at the nearest integer. -/
theorem cosac_p0 (center σ : ℝ) :
    exp (-(((roundAway center : ℝ) - center) * ((roundAway center : ℝ) - center)) / (2 * σ * σ)) / (√(2 * π) * σ) =
      gaussPdf σ center (roundAway center) := by
  unfold gaussPdf
  rw [mul_comm (√(2 * π)) σ]
  congr 2
  ring

theorem cosacSample_ne (center σ : ℝ) {x : ℤ} (hx : x ≠ roundAway center) :
    cosacDraws {d | cosacSample center σ d = some x} =
      unif01 {r | ¬ r < gaussPdf σ center (roundAway center)} *
        stream roundDraws {ω | cosacSampleRound ((roundAway center : ℝ) - center) σ ω = some (x - roundAway center)} := by
  have : {d | cosacSample center σ d = some x} = {r | ¬ r < gaussPdf σ center (roundAway center)} ×ˢ
      {ω | cosacSampleRound ((roundAway center : ℝ) - center) σ ω = some (x - roundAway center)} := by
    ext ⟨r, ω⟩
    simp only [Set.mem_ofPred_eq, Set.mem_prod, cosacSample, cosac_p0]
    by_cases h : r < gaussPdf σ center (roundAway center)
    · simp only [h, if_true, not_true_eq_false, false_and, iff_false, Option.some.injEq]
      exact fun h => hx h.symm
    · simp only [h, if_false, not_false_eq_true, true_and]
      rcases cosacSampleRound ((roundAway center : ℝ) - center) σ ω with _ | z
      · simp
      · simp only [Option.map_some, Option.some.injEq]
        omega
  rw [this, cosacDraws, Measure.prod_prod]

theorem cosacSample_ge (center σ : ℝ) :
    unif01 {r | ¬ r < gaussPdf σ center (roundAway center)} *
        stream roundDraws {ω | cosacSampleRound ((roundAway center : ℝ) - center) σ ω = some 0} ≤
      cosacDraws {d | cosacSample center σ d = some (roundAway center)} := by
  rw [cosacDraws, ← Measure.prod_prod]
  apply measure_mono
  rintro ⟨r, ω⟩ ⟨h1, h2⟩
  simp only [Set.mem_ofPred_eq, cosacSample, cosac_p0] at h1 h2 ⊢
  rw [if_neg h1, h2]
  simp

theorem gaussPdf_rel (σ center : ℝ) (x : ℤ) :
    gaussPdf σ 0 (((x - roundAway center : ℤ) : ℝ) + ((roundAway center : ℝ) - center)) = gaussPdf σ center x := by
  rw [← gaussPdf_shift σ 0 _ center]
  push_cast
  congr 1 <;> ring

/-- The probability of an integer that is not the nearest one. -/
theorem cosacSample_law {σ : ℝ} (hσ : 0 < σ) (center : ℝ) {x : ℤ} (hx : x ≠ roundAway center) :
    cosacDraws {d | cosacSample center σ d = some x} =
      unif01 {r | ¬ r < gaussPdf σ center (roundAway center)} * (2⁻¹ * ENNReal.ofReal (gaussPdf σ center x) /
        roundDraws {d | cosacBody ((roundAway center : ℝ) - center) σ d ≠ none}) := by
  rw [cosacSample_ne center σ hx, cosacSampleRound_law, cosac_round_ne hσ (cosac_frac center) (by omega),
    gaussPdf_rel]

theorem cosac_round_pos {σ : ℝ} (hσ : 0 < σ) {c : ℝ} (hc : |c| ≤ 1 / 2) :
    roundDraws {d | cosacBody c σ d ≠ none} ≠ 0 := by
  have h1 : roundDraws {d | cosacBody c σ d = some 1} ≤ roundDraws {d | cosacBody c σ d ≠ none} := by
    apply measure_mono
    intro d hd
    rw [Set.mem_ofPred_eq] at hd ⊢
    rw [hd]
    simp
  rw [cosac_round_ne hσ hc one_ne_zero] at h1
  intro h
  rw [h] at h1
  have := gaussPdf_pos hσ 0 (((1 : ℤ) : ℝ) + c)
  simp only [nonpos_iff_eq_zero, mul_eq_zero, ENNReal.inv_eq_zero, ENNReal.ofReal_eq_zero] at h1
  rcases h1 with h1 | h1
  · exact absurd h1 (by norm_num)
  · linarith

/-- **C94, ending.**  `Sample` returns with probability one. -/
theorem C94_ends (center σ : ℝ) (hσ : 0 < σ) : cosacDraws {d | cosacSample center σ d = none} = 0 := by
  set c := (roundAway center : ℝ) - center with hc
  have hsub : {d | cosacSample center σ d = none} ⊆ Set.univ ×ˢ {ω | cosacSampleRound c σ ω = none} := by
    rintro ⟨r, ω⟩ h
    simp only [Set.mem_ofPred_eq, cosacSample, ← hc] at h
    split at h
    · cases h
    · simpa using h
  have hlaw := untilSome_law roundDraws (cosacBody c σ) Set.univ (by
      have : {x | ∃ a ∈ (Set.univ : Set ℤ), cosacBody c σ x = some a} = {d | cosacBody c σ d = none}ᶜ := by
        ext d
        simp only [Set.mem_univ, true_and, Set.mem_ofPred_eq, Set.mem_compl_iff]
        rcases cosacBody c σ d with _ | z <;> simp
      rw [this]
      exact (measurableSet_cosac_none c σ).compl) (measurableSet_cosac_none c σ)
  have e1 : {x | ∃ a ∈ (Set.univ : Set ℤ), cosacBody c σ x = some a} = {d | cosacBody c σ d ≠ none} := by
    ext d
    simp only [Set.mem_univ, true_and, Set.mem_ofPred_eq]
    rcases cosacBody c σ d with _ | z <;> simp
  rw [e1, ENNReal.div_self (cosac_round_pos hσ (cosac_frac center)) (measure_ne_top _ _)] at hlaw
  have hms : MeasurableSet {ω | ∃ a ∈ (Set.univ : Set ℤ), untilSome (cosacBody c σ) ω = some a} := by
    have : {ω | ∃ a ∈ (Set.univ : Set ℤ), untilSome (cosacBody c σ) ω = some a} =
        ⋃ n, returnsAt (cosacBody c σ) Set.univ n := by
      ext ω
      rw [Set.mem_ofPred_eq, untilSome_mem_iff, Set.mem_iUnion]
    rw [this]
    refine MeasurableSet.iUnion fun n => MeasurableSet.pi (Finset.countable_toSet _) fun i _ => ?_
    split
    · rw [e1]; exact (measurableSet_cosac_none c σ).compl
    · exact measurableSet_cosac_none c σ
  have hz : stream roundDraws {ω | cosacSampleRound c σ ω = none} = 0 := by
    have hcompl : {ω | cosacSampleRound c σ ω = none} =
        {ω | ∃ a ∈ (Set.univ : Set ℤ), untilSome (cosacBody c σ) ω = some a}ᶜ := by
      ext ω
      simp only [Set.mem_univ, true_and, Set.mem_ofPred_eq, Set.mem_compl_iff, cosacSampleRound]
      rcases untilSome (cosacBody c σ) ω with _ | z <;> simp
    rw [hcompl, prob_compl_eq_zero_iff hms]
    exact hlaw
  refine measure_mono_null hsub ?_
  rw [cosacDraws, Measure.prod_prod, hz, mul_zero]

/-- **C94, all integers but the nearest one.**  Two integers different from the one nearest to the center are
returned in proportion to their Gaussian densities.  (Partial: the claim is for all integers.) -/
theorem C94_partial (center σ : ℝ) (hσ : 0 < σ) (x y : ℤ) (hx : x ≠ roundAway center) (hy : y ≠ roundAway center) :
    cosacDraws {d | cosacSample center σ d = some x} * ENNReal.ofReal (gaussPdf σ center y) =
      cosacDraws {d | cosacSample center σ d = some y} * ENNReal.ofReal (gaussPdf σ center x) := by
  rw [cosacSample_law hσ center hx, cosacSample_law hσ center hy]
  simp only [div_eq_mul_inv]
  ring

/-- **C94 is false.**  Compared with any other integer `x`, the integer nearest to the center is returned at
least 1.8 times as often as the ratio of the densities, for every center and every standard deviation of four or
more; and `x` is returned with positive probability. -/
theorem C94_refuted (center σ : ℝ) (hσ : 4 ≤ σ) (x : ℤ) (hx : x ≠ roundAway center) :
    ENNReal.ofReal 1.8 * (cosacDraws {d | cosacSample center σ d = some x} *
        ENNReal.ofReal (gaussPdf σ center (roundAway center))) ≤
      cosacDraws {d | cosacSample center σ d = some (roundAway center)} * ENNReal.ofReal (gaussPdf σ center x) ∧
    0 < cosacDraws {d | cosacSample center σ d = some x} := by
  have hσ0 : 0 < σ := by linarith
  have hs : (2.5 : ℝ) ≤ √(2 * π) := by
    apply Real.le_sqrt_of_sq_le
    nlinarith [Real.pi_gt_d2]
  have hn : 0 < σ * √(2 * π) := by positivity
  have hρ0 : gaussPdf σ center (roundAway center) ≤ 1 / (σ * √(2 * π)) := by
    unfold gaussPdf
    gcongr
    rw [exp_le_one_iff]
    apply div_nonpos_of_nonpos_of_nonneg
    · nlinarith [sq_nonneg ((roundAway center : ℝ) - center)]
    · positivity
  have hρ0' : gaussPdf σ center (roundAway center) ≤ 1 / 10 := by
    refine hρ0.trans ?_
    apply one_div_le_one_div_of_le (by norm_num)
    nlinarith
  have h32 : (0.9 : ℝ) / (σ * √(2 * π)) ≤ gaussPdf σ 0 (3 / 2) := by
    unfold gaussPdf
    gcongr
    have h1 : (9 : ℝ) / (8 * σ ^ 2) ≤ 0.1 := by
      rw [div_le_iff₀ (by positivity)]
      nlinarith
    have h2 := Real.add_one_le_exp (-(3 / 2 - 0 : ℝ) ^ 2 / (2 * σ ^ 2))
    have h3 : -(3 / 2 - 0 : ℝ) ^ 2 / (2 * σ ^ 2) = -(9 / (8 * σ ^ 2)) := by field_simp; ring
    rw [h3] at h2 ⊢
    linarith
  constructor
  · refine le_trans ?_ (mul_le_mul_left (cosacSample_ge center σ) _)
    rw [cosacSample_law hσ0 center hx, cosacSampleRound_law, cosac_round_zero hσ0 (cosac_frac center)]
    set q := unif01 {r | ¬ r < gaussPdf σ center (roundAway center)}
    set W := roundDraws {d | cosacBody ((roundAway center : ℝ) - center) σ d ≠ none}
    set X := ENNReal.ofReal (gaussPdf σ center x)
    have hkey : ENNReal.ofReal 1.8 * ENNReal.ofReal (gaussPdf σ center (roundAway center)) ≤
        stdNormal {g | roundAway (σ * g) = 1} + stdNormal {g | roundAway (σ * g) = -1} := by
      refine le_trans ?_ (add_le_add (normal_round_ge hσ0 (Or.inl rfl)) (normal_round_ge hσ0 (Or.inr rfl)))
      rw [← ENNReal.ofReal_mul (by norm_num), ← ENNReal.ofReal_add (gaussPdf_pos hσ0 _ _).le (gaussPdf_pos hσ0 _ _).le]
      apply ENNReal.ofReal_le_ofReal
      have : (0.9 : ℝ) / (σ * √(2 * π)) = 0.9 * (1 / (σ * √(2 * π))) := by ring
      rw [this] at h32
      linarith
    calc ENNReal.ofReal 1.8 * (q * (2⁻¹ * X / W) * ENNReal.ofReal (gaussPdf σ center (roundAway center)))
        = (ENNReal.ofReal 1.8 * ENNReal.ofReal (gaussPdf σ center (roundAway center))) * (q * (2⁻¹ * X / W)) := by ring
      _ ≤ (stdNormal {g | roundAway (σ * g) = 1} + stdNormal {g | roundAway (σ * g) = -1}) * (q * (2⁻¹ * X / W)) := by
          gcongr
      _ = _ := by simp only [div_eq_mul_inv]; ring
  · rw [cosacSample_law hσ0 center hx]
    apply ENNReal.mul_pos
    · have hlt : unif01 {r | r < gaussPdf σ center (roundAway center)} =
          ENNReal.ofReal (gaussPdf σ center (roundAway center)) := unif01_lt (by linarith)
      have hcompl : {r | ¬ r < gaussPdf σ center (roundAway center)} =
          {r | r < gaussPdf σ center (roundAway center)}ᶜ := rfl
      rw [hcompl, prob_compl_eq_one_sub (by exact measurableSet_Iio), hlt]
      rw [Ne, tsub_eq_zero_iff_le, not_le, ← ENNReal.ofReal_one]
      exact (ENNReal.ofReal_lt_ofReal_iff one_pos).2 (by linarith)
    · rw [Ne, ENNReal.div_eq_zero_iff, not_or]
      refine ⟨?_, measure_ne_top _ _⟩
      rw [mul_eq_zero, not_or, ENNReal.ofReal_eq_zero, not_le]
      exact ⟨by norm_num, gaussPdf_pos hσ0 _ _⟩

/-- Non-vacuity: around the center `0.3`, zero is the nearest integer and comes out too often compared with five. -/
example : ENNReal.ofReal 1.8 * (cosacDraws {d | cosacSample 0.3 10 d = some 5} *
        ENNReal.ofReal (gaussPdf 10 0.3 0)) ≤
      cosacDraws {d | cosacSample 0.3 10 d = some 0} * ENNReal.ofReal (gaussPdf 10 0.3 5) ∧
    cosacDraws {d | cosacSample 0.3 10 d = some 5} * ENNReal.ofReal (gaussPdf 10 0.3 (-7)) =
      cosacDraws {d | cosacSample 0.3 10 d = some (-7)} * ENNReal.ofReal (gaussPdf 10 0.3 5) := by
  have h0 : roundAway 0.3 = 0 := roundAway_of_Ioo (by norm_num) (by norm_num)
  have h1 := (C94_refuted 0.3 10 (by norm_num) 5 (by rw [h0]; norm_num)).1
  have h2 := C94_partial 0.3 10 (by norm_num) 5 (-7) (by rw [h0]; norm_num) (by rw [h0]; norm_num)
  rw [h0] at h1
  push_cast at h1 h2
  exact ⟨h1, h2⟩

end Ringo
