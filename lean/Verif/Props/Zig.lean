import Verif.Proof.Zig

/-!
# C95: the ziggurat

`normFloat` should return a standard normal number.  `init` does not set `fn[0]`, which should be `normal(0)`,
so that the slow test of the innermost layer always succeeds: the density is constant there.  Outside of that
layer it is right.

The words are replaced by uniform real numbers, a sign bit and a layer (`zigDraws`), the tables are not
rounded.
-/

namespace Ringo

open MeasureTheory Real

/-- The probability that `normFloat` returns a number in `A`. -/
noncomputable def normFloatIn (A : Set ℝ) : ENNReal := stream zigDraws {ω | ∃ a ∈ A, normFloat ω = some a}

theorem zigHit_univ : {d | zigBody d ≠ none} = zigHit Set.univ := by
  ext d
  unfold zigHit
  simp only [Set.mem_ofPred_eq, Set.mem_univ, true_and]
  rcases zigBody d with _ | z <;> simp

theorem measurableSet_zig_none : MeasurableSet {d | zigBody d = none} := by
  have : {d | zigBody d = none} = (zigHit Set.univ)ᶜ := by
    rw [← zigHit_univ]
    ext d
    simp
  rw [this]
  exact (measurableSet_hit MeasurableSet.univ).compl

theorem zig_factor : (2⁻¹ : ENNReal) * (128⁻¹ * ENNReal.ofReal zigV⁻¹) ≠ 0 ∧
    (2⁻¹ : ENNReal) * (128⁻¹ * ENNReal.ofReal zigV⁻¹) ≠ ⊤ := by
  have hv := inv_pos.2 zigV_pos
  have h0 : ENNReal.ofReal zigV⁻¹ ≠ 0 := by rw [Ne, ENNReal.ofReal_eq_zero, not_le]; exact hv
  constructor
  · refine mul_ne_zero (by simp) (mul_ne_zero (by simp) h0)
  · exact ENNReal.mul_ne_top (by simp) (ENNReal.mul_ne_top (by simp) ENNReal.ofReal_ne_top)

theorem zig_total : ∫⁻ x, zigDensity x ≠ 0 ∧ ∫⁻ x, zigDensity x ≠ ⊤ := by
  have h := zig_round MeasurableSet.univ
  rw [Measure.restrict_univ] at h
  obtain ⟨c0, c1⟩ := zig_factor
  constructor
  · intro h0
    rw [lintegral_eq_zero_iff measurable_zigDensity] at h0
    have hpos : ∀ x, zigDensity x ≠ 0 := by
      intro x hx
      unfold zigDensity at hx
      rw [add_eq_zero, ENNReal.ofReal_eq_zero] at hx
      exact absurd hx.1 (not_le.2 (lt_min (zigNormal_pos _) (zigNormal_pos _)))
    have : ∀ᵐ x : ℝ, False := h0.mono fun x hx => hpos x hx
    rw [Filter.eventually_false_iff_eq_bot, ae_eq_bot] at this
    have h1 : (volume : Measure ℝ) (Set.Ico 0 1) = 0 := by rw [this]; rfl
    rw [Real.volume_Ico] at h1
    simp at h1
  · intro htop
    rw [htop, ENNReal.mul_top c0] at h
    exact measure_ne_top _ _ h

/-- The law of `normFloat`. -/
theorem normFloat_law {A : Set ℝ} (hA : MeasurableSet A) :
    normFloatIn A = (∫⁻ x in A, zigDensity x) / ∫⁻ x, zigDensity x := by
  have h := untilSome_law zigDraws zigBody A (measurableSet_hit hA) measurableSet_zig_none
  unfold normFloatIn normFloat
  rw [h, zigHit_univ]
  change zigDraws (zigHit A) / _ = _
  rw [zig_round hA, zig_round MeasurableSet.univ, Measure.restrict_univ,
    ENNReal.mul_div_mul_left _ _ zig_factor.1 zig_factor.2]

/-- **C95, ending.**  `normFloat` returns with probability one. -/
theorem C95_ends : stream zigDraws {ω | normFloat ω = none} = 0 := by
  have h := normFloat_law MeasurableSet.univ
  rw [Measure.restrict_univ, ENNReal.div_self zig_total.1 zig_total.2] at h
  have hms : MeasurableSet {ω | ∃ a ∈ (Set.univ : Set ℝ), normFloat ω = some a} := by
    have : {ω | ∃ a ∈ (Set.univ : Set ℝ), normFloat ω = some a} = ⋃ n, returnsAt zigBody Set.univ n := by
      ext ω
      rw [Set.mem_iUnion, ← untilSome_mem_iff]
      rfl
    rw [this]
    refine MeasurableSet.iUnion fun n => MeasurableSet.pi (Finset.countable_toSet _) fun i _ => ?_
    split
    · exact measurableSet_hit MeasurableSet.univ
    · exact measurableSet_zig_none
  have hcompl : {ω | normFloat ω = none} = {ω | ∃ a ∈ (Set.univ : Set ℝ), normFloat ω = some a}ᶜ := by
    ext ω
    simp only [Set.mem_ofPred_eq, Set.mem_compl_iff, Set.mem_univ, true_and]
    rcases normFloat ω with _ | z <;> simp
  rw [hcompl, prob_compl_eq_zero_iff hms]
  exact h

/-- The density in the innermost layer and outside. -/
theorem zigDensity_eq (x : ℝ) : zigDensity x =
    if |x| < zigX 1 then ENNReal.ofReal (zigNormal (zigX 1) + zigV / zigX 1) else ENNReal.ofReal (zigNormal x) := by
  have hp := zigX_pos (i := 1) le_rfl
  have habs : zigNormal x = zigNormal |x| := by rw [zigNormal_eq, zigNormal_eq, sq_abs]
  unfold zigDensity
  by_cases h : |x| < zigX 1
  · rw [if_pos h, if_pos h, habs, min_eq_left (zigNormal_anti (abs_nonneg _) h.le),
      ← ENNReal.ofReal_add (zigNormal_pos _).le (div_pos zigV_pos hp).le]
  · rw [if_neg h, if_neg h, habs, min_eq_right (zigNormal_anti hp.le (not_lt.1 h)), add_zero]

theorem stdNormal_apply {A : Set ℝ} (hA : MeasurableSet A) :
    stdNormal A = ENNReal.ofReal (√(2 * π))⁻¹ * ∫⁻ x in A, ENNReal.ofReal (zigNormal x) := by
  rw [← lintegral_indicator_one hA, lintegral_stdNormal _ (measurable_one.indicator hA),
    ← lintegral_const_mul _ measurable_zigNormal.ennreal_ofReal, ← lintegral_indicator hA]
  apply lintegral_congr
  intro x
  by_cases h : x ∈ A
  · rw [Set.indicator_of_mem h, Set.indicator_of_mem h, Pi.one_apply, mul_one, ← ENNReal.ofReal_mul (by positivity)]
    congr 1
    rw [zigNormal_eq]
    unfold gaussPdf
    rw [one_mul, div_eq_inv_mul]
    congr 2
    ring
  · rw [Set.indicator_of_notMem h, Set.indicator_of_notMem h, mul_zero]

/-- **C95, outside of the innermost layer.**  There is an `a` below `0.29` such that for sets of numbers of absolute
value `a` or more, the probabilities of `normFloat` are in the proportion of the standard normal distribution.
(Partial: the claim is that the probabilities are those of the normal distribution, for all sets.) -/
theorem C95_partial : ∃ a : ℝ, a < 0.29 ∧ ∀ A B : Set ℝ, MeasurableSet A → MeasurableSet B →
    (∀ x ∈ A, a ≤ |x|) → (∀ x ∈ B, a ≤ |x|) →
    stream zigDraws {ω | ∃ x ∈ A, normFloat ω = some x} * stdNormal B =
      stream zigDraws {ω | ∃ x ∈ B, normFloat ω = some x} * stdNormal A := by
  refine ⟨zigX 1, zigX_one_lt, fun A B hA hB hAa hBa => ?_⟩
  change normFloatIn A * _ = normFloatIn B * _
  have key : ∀ S : Set ℝ, MeasurableSet S → (∀ x ∈ S, zigX 1 ≤ |x|) →
      ∫⁻ x in S, zigDensity x = ∫⁻ x in S, ENNReal.ofReal (zigNormal x) := by
    intro S hS h
    apply setLIntegral_congr_fun hS
    intro x hx
    dsimp only
    rw [zigDensity_eq, if_neg (not_lt.2 (h x hx))]
  rw [normFloat_law hA, normFloat_law hB, key A hA hAa, key B hB hBa, stdNormal_apply hA, stdNormal_apply hB]
  simp only [div_eq_mul_inv]
  ring

/-- **C95 is false.**  There is an `a` above `0.16` such that between `-a` and `a` the distribution of `normFloat` is
uniform. -/
theorem C95_refuted : ∃ a : ℝ, 0.16 < a ∧ ∀ A B : Set ℝ, MeasurableSet A → MeasurableSet B →
    A ⊆ Set.Ioo (-a) a → B ⊆ Set.Ioo (-a) a → volume A = volume B →
    stream zigDraws {ω | ∃ x ∈ A, normFloat ω = some x} = stream zigDraws {ω | ∃ x ∈ B, normFloat ω = some x} := by
  refine ⟨zigX 1, zigX_one, fun A B hA hB hAa hBa hvol => ?_⟩
  change normFloatIn A = normFloatIn B
  have key : ∀ S : Set ℝ, MeasurableSet S → S ⊆ Set.Ioo (-zigX 1) (zigX 1) →
      ∫⁻ x in S, zigDensity x = ENNReal.ofReal (zigNormal (zigX 1) + zigV / zigX 1) * volume S := by
    intro S hS h
    rw [← setLIntegral_const]
    apply setLIntegral_congr_fun hS
    intro x hx
    dsimp only
    rw [zigDensity_eq, if_pos (abs_lt.2 (h hx))]
  rw [normFloat_law hA, normFloat_law hB, key A hA hAa, key B hB hBa, hvol]

/-- The normal distribution is not uniform there. -/
theorem stdNormal_strict {a : ℝ} (ha : 0 < a) : stdNormal (Set.Ico a (2 * a)) < stdNormal (Set.Ico 0 a) := by
  have hp : 0 < (√(2 * π))⁻¹ := by positivity
  rw [stdNormal_apply measurableSet_Ico, stdNormal_apply measurableSet_Ico]
  rw [ENNReal.mul_lt_mul_iff_right (by rw [Ne, ENNReal.ofReal_eq_zero, not_le]; exact hp) ENNReal.ofReal_ne_top]
  have hm : zigNormal a < zigNormal (a / 2) := zigNormal_anti_strict (by positivity) (by linarith)
  have hu : ∫⁻ x in Set.Ico a (2 * a), ENNReal.ofReal (zigNormal x) ≤ ENNReal.ofReal (zigNormal a * a) := by
    calc ∫⁻ x in Set.Ico a (2 * a), ENNReal.ofReal (zigNormal x) ≤ ∫⁻ _ in Set.Ico a (2 * a), ENNReal.ofReal (zigNormal a) := by
          apply setLIntegral_mono measurable_const
          intro x hx
          exact ENNReal.ofReal_le_ofReal (zigNormal_anti ha.le hx.1)
      _ = _ := by
          rw [setLIntegral_const, Real.volume_Ico, ← ENNReal.ofReal_mul (zigNormal_pos _).le]
          congr 2
          ring
  have hl : ENNReal.ofReal ((zigNormal (a / 2) + zigNormal a) * (a / 2)) ≤
      ∫⁻ x in Set.Ico 0 a, ENNReal.ofReal (zigNormal x) := by
    have hd : Disjoint (Set.Ico 0 (a / 2)) (Set.Ico (a / 2) a) := by
      rw [Set.disjoint_left]
      intro x h1 h2
      exact absurd h1.2 (not_lt.2 h2.1)
    have hun : Set.Ico 0 a = Set.Ico 0 (a / 2) ∪ Set.Ico (a / 2) a :=
      (Set.Ico_union_Ico_eq_Ico (by positivity) (by linarith)).symm
    rw [hun, lintegral_union measurableSet_Ico hd, add_mul, ENNReal.ofReal_add
      (mul_nonneg (zigNormal_pos _).le (by positivity)) (mul_nonneg (zigNormal_pos _).le (by positivity))]
    refine add_le_add ?_ ?_
    · calc ENNReal.ofReal (zigNormal (a / 2) * (a / 2)) = ∫⁻ _ in Set.Ico 0 (a / 2), ENNReal.ofReal (zigNormal (a / 2)) := by
            rw [setLIntegral_const, Real.volume_Ico, ← ENNReal.ofReal_mul (zigNormal_pos _).le, sub_zero]
        _ ≤ _ := by
            apply setLIntegral_mono measurable_zigNormal.ennreal_ofReal
            intro x hx
            exact ENNReal.ofReal_le_ofReal (zigNormal_anti hx.1 hx.2.le)
    · calc ENNReal.ofReal (zigNormal a * (a / 2)) = ∫⁻ _ in Set.Ico (a / 2) a, ENNReal.ofReal (zigNormal a) := by
            rw [setLIntegral_const, Real.volume_Ico, ← ENNReal.ofReal_mul (zigNormal_pos _).le]
            congr 2
            ring
        _ ≤ _ := by
            apply setLIntegral_mono measurable_zigNormal.ennreal_ofReal
            intro x hx
            exact ENNReal.ofReal_le_ofReal (zigNormal_anti (by linarith [hx.1]) hx.2.le)
  refine lt_of_le_of_lt hu (lt_of_lt_of_le ?_ hl)
  have := zigNormal_pos a
  have := zigNormal_pos (a / 2)
  rw [ENNReal.ofReal_lt_ofReal_iff (by positivity)]
  nlinarith

/-- So `normFloat` is not standard normal: it returns numbers from `[0, 0.08)` and from `[0.08, 0.16)` equally often, a
normal number is found in the first interval more often. -/
theorem case95 :
    stream zigDraws {ω | ∃ x ∈ Set.Ico (0 : ℝ) 0.08, normFloat ω = some x} =
      stream zigDraws {ω | ∃ x ∈ Set.Ico (0.08 : ℝ) (2 * 0.08), normFloat ω = some x} ∧
    stdNormal (Set.Ico 0.08 (2 * 0.08)) < stdNormal (Set.Ico 0 0.08) := by
  obtain ⟨a, ha, h⟩ := C95_refuted
  refine ⟨h _ _ measurableSet_Ico measurableSet_Ico ?_ ?_ ?_, stdNormal_strict (by norm_num)⟩
  · intro x hx
    rw [Set.mem_Ico] at hx
    exact ⟨by linarith [hx.1], by linarith [hx.2]⟩
  · intro x hx
    rw [Set.mem_Ico] at hx
    exact ⟨by linarith [hx.1], by linarith [hx.2]⟩
  · rw [Real.volume_Ico, Real.volume_Ico]
    congr 1
    norm_num

/-- Non-vacuity of `C95_partial`: the numbers above one and above two are in the right proportion. -/
example : stream zigDraws {ω | ∃ x ∈ Set.Ioi (1 : ℝ), normFloat ω = some x} * stdNormal (Set.Ioi 2) =
    stream zigDraws {ω | ∃ x ∈ Set.Ioi (2 : ℝ), normFloat ω = some x} * stdNormal (Set.Ioi 1) := by
  obtain ⟨a, ha, h⟩ := C95_partial
  apply h _ _ measurableSet_Ioi measurableSet_Ioi
  · intro x hx
    rw [Set.mem_Ioi] at hx
    rw [abs_of_pos (by linarith)]
    linarith
  · intro x hx
    rw [Set.mem_Ioi] at hx
    rw [abs_of_pos (by linarith)]
    linarith

/-! ## Rounded Gaussians -/

/-- `RoundedGaussianSampler.Sample` panics if the deviation is not positive, and otherwise returns with probability
one. -/
theorem C95_rounded_ends (center σ : ℝ) : (σ ≤ 0 → ∀ ω, roundedSample center σ ω = goPanic) ∧
    (0 < σ → (∀ ω, roundedSample center σ ω ≠ goPanic) ∧ stream zigDraws {ω | roundedSample center σ ω = .ok none} = 0) := by
  constructor
  · intro h ω
    unfold roundedSample
    rw [if_pos h]
  · intro h
    constructor
    · intro ω
      unfold roundedSample goPanic
      rw [if_neg (not_le.2 h)]
      intro hc
      cases hc
    · refine measure_mono_null ?_ C95_ends
      intro ω hω
      unfold roundedSample at hω
      rw [Set.mem_ofPred_eq, if_neg (not_le.2 h)] at hω
      have := Except.ok.inj hω
      rw [Set.mem_ofPred_eq]
      simpa using this

/-- **C95 for `RoundedGaussianSampler.Sample`.**  Integers that are further than `0.29 σ + 1/2` from the center are returned
in the proportion in which a normal number with that center and deviation rounds to them. -/
theorem C95_rounded_partial (center σ : ℝ) (hσ : 0 < σ) (x y : ℤ) (hx : 0.29 * σ + 1 / 2 ≤ |(x : ℝ) - center|)
    (hy : 0.29 * σ + 1 / 2 ≤ |(y : ℝ) - center|) :
    stream zigDraws {ω | roundedSample center σ ω = .ok (some x)} * stdNormal {g | roundAway (center + g * σ) = y} =
      stream zigDraws {ω | roundedSample center σ ω = .ok (some y)} * stdNormal {g | roundAway (center + g * σ) = x} := by
  obtain ⟨a, ha, h⟩ := C95_partial
  have hm : ∀ z : ℤ, MeasurableSet {g : ℝ | roundAway (center + g * σ) = z} := by
    intro z
    have : Measurable fun g : ℝ => roundAway (center + g * σ) := measurable_roundAway.comp (by fun_prop)
    exact this (measurableSet_singleton z)
  have hset : ∀ z : ℤ, {ω | roundedSample center σ ω = .ok (some z)} =
      {ω | ∃ g ∈ {g : ℝ | roundAway (center + g * σ) = z}, normFloat ω = some g} := by
    intro z
    ext ω
    unfold roundedSample
    simp only [Set.mem_ofPred_eq, if_neg (not_le.2 hσ)]
    constructor
    · intro hz
      have hz := Except.ok.inj hz
      rw [Option.map_eq_some_iff] at hz
      obtain ⟨g, h1, h2⟩ := hz
      exact ⟨g, h2, h1⟩
    · rintro ⟨g, h1, h2⟩
      rw [h2, Option.map_some, h1]
      rfl
  have hfar : ∀ z : ℤ, 0.29 * σ + 1 / 2 ≤ |(z : ℝ) - center| → ∀ g ∈ {g : ℝ | roundAway (center + g * σ) = z}, a ≤ |g| := by
    intro z hz g hg
    rw [Set.mem_ofPred_eq] at hg
    obtain ⟨h1, h2⟩ := roundAway_dist (center + g * σ)
    rw [hg] at h1 h2
    have h3 : 0.29 * σ ≤ |g * σ| := by
      have h4 : |(z : ℝ) - center| ≤ |g * σ| + 1 / 2 := by
        rw [abs_le]
        have := abs_le.1 (le_refl |g * σ|)
        constructor <;> linarith [this.1, this.2]
      linarith
    rw [abs_mul, abs_of_pos hσ] at h3
    have := le_of_mul_le_mul_right h3 hσ
    linarith
  rw [hset, hset]
  exact h _ _ (hm x) (hm y) (hfar x hx) (hfar y hy)

/-- Non-vacuity: center zero, deviation ten, the integers 5 and -7. -/
example : stream zigDraws {ω | roundedSample 0 10 ω = .ok (some 5)} * stdNormal {g | roundAway (0 + g * 10) = -7} =
    stream zigDraws {ω | roundedSample 0 10 ω = .ok (some (-7))} * stdNormal {g | roundAway (0 + g * 10) = 5} :=
  C95_rounded_partial 0 10 (by norm_num) 5 (-7) (by norm_num [abs_of_pos]) (by norm_num)

end Ringo
