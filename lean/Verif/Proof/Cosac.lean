import Verif.Proof.Reject
import Verif.Proof.Gauss
import Mathlib.MeasureTheory.Constructions.BorelSpace.Order
import Mathlib.MeasureTheory.Function.Floor
import Mathlib.MeasureTheory.Measure.Lebesgue.Basic

/-!
# One round of the COSAC sampler
-/

namespace Ringo

open MeasureTheory Real

theorem measurable_roundAway : Measurable roundAway := by
  unfold roundAway
  apply Measurable.ite measurableSet_Ici
  · exact Int.measurable_floor.comp (measurable_id.add_const _)
  · exact Int.measurable_ceil.comp (measurable_id.sub_const _)

/-- Rounding moves by at most a half. -/
theorem roundAway_dist (y : ℝ) : (roundAway y : ℝ) - 1 / 2 ≤ y ∧ y ≤ roundAway y + 1 / 2 := by
  unfold roundAway
  split
  · have h1 := Int.floor_le (y + 1 / 2)
    have h2 := Int.lt_floor_add_one (y + 1 / 2)
    constructor <;> linarith
  · have h1 := Int.le_ceil (y - 1 / 2)
    have h2 := Int.ceil_lt_add_one (y - 1 / 2)
    constructor <;> linarith

theorem roundAway_of_Ioo {y : ℝ} {m : ℤ} (h1 : (m : ℝ) - 1 / 2 < y) (h2 : y < m + 1 / 2) : roundAway y = m := by
  unfold roundAway
  split
  · rw [Int.floor_eq_iff]; constructor <;> linarith
  · rw [Int.ceil_eq_iff]; constructor <;> linarith

theorem volume_round {σ : ℝ} (hσ : 0 < σ) (m : ℤ) :
    volume {g : ℝ | roundAway (σ * g) = m} = ENNReal.ofReal (1 / σ) := by
  apply le_antisymm
  · calc volume {g : ℝ | roundAway (σ * g) = m} ≤ volume (Set.Icc (((m : ℝ) - 1 / 2) / σ) ((m + 1 / 2) / σ)) := by
          apply measure_mono
          intro g hg
          have := roundAway_dist (σ * g)
          rw [Set.mem_ofPred_eq] at hg
          rw [hg] at this
          rw [Set.mem_Icc, div_le_iff₀ hσ, le_div_iff₀ hσ, mul_comm g]
          exact this
      _ = _ := by rw [Real.volume_Icc]; congr 1; field_simp; ring
  · calc ENNReal.ofReal (1 / σ) = volume (Set.Ioo (((m : ℝ) - 1 / 2) / σ) ((m + 1 / 2) / σ)) := by
          rw [Real.volume_Ioo]; congr 1; field_simp; ring
      _ ≤ _ := by
          apply measure_mono
          intro g hg
          rw [Set.mem_Ioo, div_lt_iff₀ hσ, lt_div_iff₀ hσ, mul_comm g] at hg
          exact roundAway_of_Ioo hg.1 hg.2

theorem unif01_lt {t : ℝ} (h1 : t ≤ 1) : unif01 {r | r < t} = ENNReal.ofReal t := by
  unfold unif01
  change volume.restrict (Set.Ico 0 1) (Set.Iio t) = _
  rw [Measure.restrict_apply measurableSet_Iio]
  have : Set.Iio t ∩ Set.Ico 0 1 = Set.Ico 0 t := by
    ext r
    simp only [Set.mem_inter_iff, Set.mem_Iio, Set.mem_Ico]
    constructor
    · rintro ⟨a, b, c⟩; exact ⟨b, a⟩
    · rintro ⟨a, b⟩; exact ⟨b, a, by linarith⟩
  rw [this, Real.volume_Ico, sub_zero]

theorem unif01_lt_of_one_le {t : ℝ} (h1 : 1 ≤ t) : unif01 {r | r < t} = 1 := by
  unfold unif01
  change volume.restrict (Set.Ico 0 1) (Set.Iio t) = _
  rw [Measure.restrict_apply measurableSet_Iio]
  have : Set.Iio t ∩ Set.Ico 0 1 = Set.Ico 0 1 := by
    ext r
    simp only [Set.mem_inter_iff, Set.mem_Iio, Set.mem_Ico]
    constructor
    · rintro ⟨a, b⟩; exact b
    · rintro b; exact ⟨by linarith, b⟩
  rw [this, Real.volume_Ico, sub_zero, ENNReal.ofReal_one]

/-- The draws of one round. -/
noncomputable abbrev roundDraws : Measure (ℝ × Bool × ℝ) := stdNormal.prod (coin.prod unif01)

/-- The coin of a round split into its two sides. -/
theorem roundDraws_apply {S : Set (ℝ × Bool × ℝ)} (hS : MeasurableSet S) :
    roundDraws S = 2⁻¹ * (∫⁻ g, unif01 {r | (g, false, r) ∈ S} ∂stdNormal + ∫⁻ g, unif01 {r | (g, true, r) ∈ S} ∂stdNormal) := by
  have hb : ∀ b : Bool, Measurable fun g : ℝ => unif01 {r | (g, b, r) ∈ S} := by
    intro b
    have : MeasurableSet {p : ℝ × ℝ | (p.1, b, p.2) ∈ S} := by
      apply hS.preimage (f := fun p : ℝ × ℝ => (p.1, b, p.2))
      fun_prop
    exact measurable_measure_prodMk_left this
  rw [roundDraws, Measure.prod_apply hS]
  have : ∀ g : ℝ, (coin.prod unif01) (Prod.mk g ⁻¹' S) =
      2⁻¹ * (unif01 {r | (g, false, r) ∈ S} + unif01 {r | (g, true, r) ∈ S}) := by
    intro g
    rw [Measure.prod_apply (hS.preimage measurable_prodMk_left)]
    unfold coin
    rw [lintegral_smul_measure, lintegral_add_measure, lintegral_dirac, lintegral_dirac]
    rfl
  simp_rw [this]
  have hsum : Measurable fun g => unif01 {r | (g, false, r) ∈ S} + unif01 {r | (g, true, r) ∈ S} :=
    Measurable.add (hb false) (hb true)
  rw [lintegral_const_mul _ hsum, lintegral_add_left (hb false)]

/-- The draws on which one side of the coin rounds to `m` and accepts `z`. -/
noncomputable def acceptProb (c σ : ℝ) (m z : ℤ) : ENNReal :=
  ∫⁻ g, unif01 {r | roundAway (σ * g) = m ∧
    r < exp (-(((z : ℝ) + c) * ((z : ℝ) + c) - (σ * g) * (σ * g)) / (2 * σ * σ))} ∂stdNormal

theorem lintegral_stdNormal (F : ℝ → ENNReal) (hF : Measurable F) :
    ∫⁻ g, F g ∂stdNormal = ∫⁻ g, ENNReal.ofReal (gaussPdf 1 0 g) * F g := by
  unfold stdNormal
  rw [ProbabilityTheory.gaussianReal_of_var_ne_zero _ one_ne_zero,
    lintegral_withDensity_eq_lintegral_mul _ (ProbabilityTheory.measurable_gaussianPDF 0 1) hF]
  apply lintegral_congr
  intro g
  rw [Pi.mul_apply]
  congr 1
  unfold ProbabilityTheory.gaussianPDF ProbabilityTheory.gaussianPDFReal gaussPdf
  congr 1
  rw [NNReal.coe_one, mul_one, mul_one, one_pow, mul_one, one_mul, div_eq_inv_mul, div_eq_inv_mul]

theorem acceptSet (c σ : ℝ) (m z : ℤ) (g : ℝ) : unif01 {r | roundAway (σ * g) = m ∧
      r < exp (-(((z : ℝ) + c) * ((z : ℝ) + c) - (σ * g) * (σ * g)) / (2 * σ * σ))} =
    Set.indicator {g : ℝ | roundAway (σ * g) = m}
      (fun g => unif01 {r | r < exp (-(((z : ℝ) + c) * ((z : ℝ) + c) - (σ * g) * (σ * g)) / (2 * σ * σ))}) g := by
  by_cases h : roundAway (σ * g) = m
  · rw [Set.indicator_of_mem (by exact h)]
    simp [h]
  · rw [Set.indicator_of_notMem (by exact h)]
    simp [h]

theorem measurableSet_round (σ : ℝ) (m : ℤ) : MeasurableSet {g : ℝ | roundAway (σ * g) = m} :=
  (measurable_roundAway.comp (measurable_const_mul σ)) (measurableSet_singleton m)

theorem exp_round_meas (c σ : ℝ) (z : ℤ) :
    Measurable fun g : ℝ => exp (-(((z : ℝ) + c) * ((z : ℝ) + c) - (σ * g) * (σ * g)) / (2 * σ * σ)) := by
  fun_prop

/-- If the value is at least as far from the center as all that rounds to `m`, it is accepted with its Gaussian
weight. -/
theorem acceptProb_far {σ : ℝ} (hσ : 0 < σ) (c : ℝ) (m z : ℤ)
    (h : ∀ y, roundAway y = m → y * y ≤ ((z : ℝ) + c) * ((z : ℝ) + c)) :
    acceptProb c σ m z = ENNReal.ofReal (gaussPdf σ 0 ((z : ℝ) + c)) := by
  unfold acceptProb
  simp_rw [acceptSet]
  have hfun : Set.indicator {g : ℝ | roundAway (σ * g) = m}
      (fun g => unif01 {r | r < exp (-(((z : ℝ) + c) * ((z : ℝ) + c) - (σ * g) * (σ * g)) / (2 * σ * σ))}) =
      Set.indicator {g : ℝ | roundAway (σ * g) = m}
      (fun g => ENNReal.ofReal (exp (-(((z : ℝ) + c) * ((z : ℝ) + c) - (σ * g) * (σ * g)) / (2 * σ * σ)))) := by
    apply Set.indicator_congr
    intro g hg
    apply unif01_lt
    rw [exp_le_one_iff]
    apply div_nonpos_of_nonpos_of_nonneg
    · linarith [h _ hg]
    · positivity
  rw [hfun, lintegral_stdNormal]
  · have : ∀ g : ℝ, ENNReal.ofReal (gaussPdf 1 0 g) * Set.indicator {g : ℝ | roundAway (σ * g) = m}
        (fun g => ENNReal.ofReal (exp (-(((z : ℝ) + c) * ((z : ℝ) + c) - (σ * g) * (σ * g)) / (2 * σ * σ)))) g =
        Set.indicator {g : ℝ | roundAway (σ * g) = m} (fun _ => ENNReal.ofReal (σ * gaussPdf σ 0 ((z : ℝ) + c))) g := by
      intro g
      by_cases hg : g ∈ {g : ℝ | roundAway (σ * g) = m}
      · rw [Set.indicator_of_mem hg, Set.indicator_of_mem hg, ← ENNReal.ofReal_mul (gaussPdf_pos one_pos _ _).le]
        congr 1
        unfold gaussPdf
        rw [div_mul_eq_mul_div, ← Real.exp_add, ← mul_div_assoc, one_mul,
          mul_div_mul_left _ _ hσ.ne']
        congr 2
        field_simp
        ring
      · rw [Set.indicator_of_notMem hg, Set.indicator_of_notMem hg, mul_zero]
    simp_rw [this]
    rw [lintegral_indicator (measurableSet_round σ m), lintegral_const, Measure.restrict_apply_univ, volume_round hσ,
      ← ENNReal.ofReal_mul (by have := gaussPdf_pos hσ 0 ((z : ℝ) + c); positivity)]
    congr 1
    field_simp
  · exact Measurable.indicator (exp_round_meas c σ z).ennreal_ofReal (measurableSet_round σ m)

/-- If the value is nearer to the center than all that rounds to `m`, it is always accepted. -/
theorem acceptProb_near {σ : ℝ} (hσ : 0 < σ) (c : ℝ) (m z : ℤ)
    (h : ∀ y, roundAway y = m → ((z : ℝ) + c) * ((z : ℝ) + c) ≤ y * y) :
    acceptProb c σ m z = stdNormal {g | roundAway (σ * g) = m} := by
  unfold acceptProb
  simp_rw [acceptSet]
  have hfun : Set.indicator {g : ℝ | roundAway (σ * g) = m}
      (fun g => unif01 {r | r < exp (-(((z : ℝ) + c) * ((z : ℝ) + c) - (σ * g) * (σ * g)) / (2 * σ * σ))}) =
      Set.indicator {g : ℝ | roundAway (σ * g) = m} 1 := by
    apply Set.indicator_congr
    intro g hg
    apply unif01_lt_of_one_le
    rw [one_le_exp_iff]
    apply div_nonneg
    · linarith [h _ hg]
    · positivity
  rw [hfun, lintegral_indicator_one (measurableSet_round σ m)]

/-- Being accepted, spelled out. -/
theorem cosacBody_some (c σ : ℝ) (g : ℝ) (b : Bool) (r : ℝ) (z : ℤ) :
    cosacBody c σ (g, b, r) = some z ↔
      (if b = false then (z : ℝ) ≤ 0.5 else (z : ℝ) ≥ -0.5) ∧
      roundAway (σ * g) = (if b = false then z + 1 else z - 1) ∧
      r < exp (-(((z : ℝ) + c) * ((z : ℝ) + c) - (σ * g) * (σ * g)) / (2 * σ * σ)) := by
  unfold cosacBody
  cases b
  · simp only [if_true]
    constructor
    · intro h
      split at h
      · split at h
        · rename_i h1 h2
          cases h
          exact ⟨h1, by ring, h2⟩
        · cases h
      · cases h
    · rintro ⟨h1, h2, h3⟩
      have hz : roundAway (σ * g) - 1 = z := by omega
      rw [hz, if_pos h1, if_pos h3]
  · simp only [Bool.true_eq_false, if_false]
    constructor
    · intro h
      split at h
      · split at h
        · rename_i h1 h2
          cases h
          exact ⟨h1, by ring, h2⟩
        · cases h
      · cases h
    · rintro ⟨h1, h2, h3⟩
      have hz : roundAway (σ * g) + 1 = z := by omega
      rw [hz, if_pos h1, if_pos h3]

theorem measurableSet_cosac (c σ : ℝ) (z : ℤ) : MeasurableSet {d | cosacBody c σ d = some z} := by
  have : {d : ℝ × Bool × ℝ | cosacBody c σ d = some z} =
      {d | if d.2.1 = false then (z : ℝ) ≤ 0.5 else (z : ℝ) ≥ -0.5} ∩
      ({d | roundAway (σ * d.1) = (if d.2.1 = false then z + 1 else z - 1)} ∩
      {d | d.2.2 < exp (-(((z : ℝ) + c) * ((z : ℝ) + c) - (σ * d.1) * (σ * d.1)) / (2 * σ * σ))}) := by
    ext ⟨g, b, r⟩
    exact cosacBody_some c σ g b r z
  rw [this]
  have hb : Measurable fun d : ℝ × Bool × ℝ => d.2.1 := by fun_prop
  refine MeasurableSet.inter ?_ (MeasurableSet.inter ?_ ?_)
  · exact hb (MeasurableSet.of_discrete (s := {b : Bool | if b = false then (z : ℝ) ≤ 0.5 else (z : ℝ) ≥ -0.5}))
  · apply measurableSet_eq_fun
    · exact measurable_roundAway.comp (by fun_prop)
    · exact (measurable_of_finite fun b : Bool => if b = false then z + 1 else z - 1).comp hb
  · apply measurableSet_lt (by fun_prop)
    fun_prop

/-- The probability that a round returns `z`. -/
theorem cosac_round (c σ : ℝ) (z : ℤ) :
    roundDraws {d | cosacBody c σ d = some z} =
      2⁻¹ * ((if z ≤ 0 then acceptProb c σ (z + 1) z else 0) + (if 0 ≤ z then acceptProb c σ (z - 1) z else 0)) := by
  rw [roundDraws_apply (measurableSet_cosac c σ z)]
  have h1 : ((z : ℝ) ≤ 0.5) ↔ z ≤ 0 := by
    constructor
    · intro h
      by_contra hz
      have : (1 : ℝ) ≤ z := by exact_mod_cast (by omega : 1 ≤ z)
      linarith
    · intro h
      have : (z : ℝ) ≤ 0 := by exact_mod_cast h
      linarith
  have h2 : ((z : ℝ) ≥ -0.5) ↔ 0 ≤ z := by
    constructor
    · intro h
      by_contra hz
      have : (z : ℝ) ≤ -1 := by exact_mod_cast (by omega : z ≤ -1)
      linarith
    · intro h
      have : (0 : ℝ) ≤ z := by exact_mod_cast h
      linarith
  congr 2
  · by_cases hz : z ≤ 0
    · rw [if_pos hz]
      unfold acceptProb
      apply lintegral_congr
      intro g
      congr 1
      ext r
      simp only [Set.mem_ofPred_eq, cosacBody_some, if_true, h1, hz, true_and]
    · rw [if_neg hz]
      have : ∀ g, {r | (g, false, r) ∈ {d | cosacBody c σ d = some z}} = (∅ : Set ℝ) := by
        intro g
        ext r
        simp only [Set.mem_ofPred_eq, cosacBody_some, if_true, h1, hz, false_and, Set.mem_empty_iff_false]
      simp_rw [this]
      simp
  · by_cases hz : 0 ≤ z
    · rw [if_pos hz]
      unfold acceptProb
      apply lintegral_congr
      intro g
      congr 1
      ext r
      simp only [Set.mem_ofPred_eq, cosacBody_some, Bool.true_eq_false, if_false, h2, hz, true_and]
    · rw [if_neg hz]
      have : ∀ g, {r | (g, true, r) ∈ {d | cosacBody c σ d = some z}} = (∅ : Set ℝ) := by
        intro g
        ext r
        simp only [Set.mem_ofPred_eq, cosacBody_some, Bool.true_eq_false, if_false, h2, hz, false_and,
          Set.mem_empty_iff_false]
      simp_rw [this]
      simp

/-- Away from zero a round returns `z` with half its Gaussian weight. -/
theorem cosac_round_ne {σ : ℝ} (hσ : 0 < σ) {c : ℝ} (hc : |c| ≤ 1 / 2) {z : ℤ} (hz : z ≠ 0) :
    roundDraws {d | cosacBody c σ d = some z} = 2⁻¹ * ENNReal.ofReal (gaussPdf σ 0 ((z : ℝ) + c)) := by
  rw [cosac_round]
  rw [abs_le] at hc
  congr 1
  rcases lt_or_gt_of_ne hz with h | h
  · have hz' : (z : ℝ) ≤ -1 := by exact_mod_cast (by omega : z ≤ -1)
    rw [if_pos (by omega), if_neg (by omega), add_zero]
    apply acceptProb_far hσ
    intro y hy
    have := roundAway_dist y
    rw [hy] at this
    push_cast at this
    by_cases hy0 : 0 ≤ y <;> nlinarith
  · have hz' : (1 : ℝ) ≤ z := by exact_mod_cast (by omega : 1 ≤ z)
    rw [if_neg (by omega), if_pos (by omega), zero_add]
    apply acceptProb_far hσ
    intro y hy
    have := roundAway_dist y
    rw [hy] at this
    push_cast at this
    by_cases hy0 : 0 ≤ y <;> nlinarith

/-- A round returns zero whenever the normal number rounds to the coin's side of zero. -/
theorem cosac_round_zero {σ : ℝ} (hσ : 0 < σ) {c : ℝ} (hc : |c| ≤ 1 / 2) :
    roundDraws {d | cosacBody c σ d = some 0} =
      2⁻¹ * (stdNormal {g | roundAway (σ * g) = 1} + stdNormal {g | roundAway (σ * g) = -1}) := by
  rw [cosac_round, if_pos le_rfl, if_pos le_rfl]
  rw [abs_le] at hc
  congr 2
  · apply acceptProb_near hσ
    intro y hy
    have := roundAway_dist y
    rw [hy] at this
    push_cast at this ⊢
    nlinarith
  · apply acceptProb_near hσ
    intro y hy
    have := roundAway_dist y
    rw [hy] at this
    push_cast at this ⊢
    nlinarith

/-- What rounds to one of the neighbours of zero has at least the density at `3/2`. -/
theorem normal_round_ge {σ : ℝ} (hσ : 0 < σ) {m : ℤ} (hm : m = 1 ∨ m = -1) :
    ENNReal.ofReal (gaussPdf σ 0 (3 / 2)) ≤ stdNormal {g | roundAway (σ * g) = m} := by
  have h1 := lintegral_indicator_one (μ := stdNormal) (measurableSet_round σ m)
  rw [← h1, lintegral_stdNormal _ (measurable_one.indicator (measurableSet_round σ m))]
  calc ENNReal.ofReal (gaussPdf σ 0 (3 / 2)) = ENNReal.ofReal (σ * gaussPdf σ 0 (3 / 2)) * ENNReal.ofReal (1 / σ) := by
        rw [← ENNReal.ofReal_mul (by have := gaussPdf_pos hσ 0 (3 / 2); positivity)]
        congr 1
        field_simp
    _ = ∫⁻ g, Set.indicator {g : ℝ | roundAway (σ * g) = m} (fun _ => ENNReal.ofReal (σ * gaussPdf σ 0 (3 / 2))) g := by
        rw [lintegral_indicator (measurableSet_round σ m), lintegral_const, Measure.restrict_apply_univ, volume_round hσ]
    _ ≤ _ := by
        apply lintegral_mono
        intro g
        simp only
        by_cases hg : g ∈ {g : ℝ | roundAway (σ * g) = m}
        · rw [Set.indicator_of_mem hg, Set.indicator_of_mem hg, Pi.one_apply, mul_one]
          apply ENNReal.ofReal_le_ofReal
          have : σ * gaussPdf σ 0 (3 / 2) = gaussPdf 1 0 (3 / 2 / σ) := by
            unfold gaussPdf
            rw [← mul_div_assoc, mul_div_mul_left _ _ hσ.ne', one_mul]
            congr 2
            field_simp
            ring
          rw [this]
          apply gaussPdf_mono one_pos
          have hd := roundAway_dist (σ * g)
          rw [Set.mem_ofPred_eq] at hg
          rw [hg] at hd
          have hsq : (σ * g) ^ 2 ≤ (3 / 2) ^ 2 := by
            rcases hm with rfl | rfl
            · push_cast at hd; nlinarith
            · push_cast at hd; nlinarith
          rw [sub_zero, sub_zero, div_pow, le_div_iff₀ (by positivity)]
          calc g ^ 2 * σ ^ 2 = (σ * g) ^ 2 := by ring
            _ ≤ _ := hsq
        · rw [Set.indicator_of_notMem hg, Set.indicator_of_notMem hg, mul_zero]

end Ringo
