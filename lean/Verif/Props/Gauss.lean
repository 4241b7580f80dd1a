import Verif.Proof.Gauss
import Mathlib.Analysis.Real.Pi.Bounds
import Mathlib.Analysis.SumIntegralComparisons
import Mathlib.Probability.Distributions.Gaussian.Real
import Mathlib.Analysis.SpecialFunctions.Exponential
import Mathlib.Analysis.Complex.ExponentialBounds

/-!
# C93: the TwinCDT sampler

`Sample(center)` should return the quantile of the discrete Gaussian around `center` for the drawn word.  It
returns the quantile of the discrete Gaussian around the center rounded down to a multiple of `1/128`: the
sum that decides between the two tables runs to the table index instead of the sampled value.
-/

namespace Ringo

open Real Finset

theorem grid_facts (c : ℝ) : gridDown c = (⌊128 * Int.fract c⌋ : ℝ) / 128 + ⌊c⌋ ∧
    0 ≤ (⌊128 * Int.fract c⌋ : ℝ) / 128 ∧ (⌊128 * Int.fract c⌋ : ℝ) / 128 ≤ Int.fract c ∧ Int.fract c < 1 := by
  have h0 := Int.fract_nonneg c
  have h1 := Int.fract_lt_one c
  have hf : (0 : ℝ) ≤ (⌊128 * Int.fract c⌋ : ℝ) := by
    exact_mod_cast Int.floor_nonneg.2 (by linarith : 0 ≤ 128 * Int.fract c)
  refine ⟨?_, by positivity, ?_, h1⟩
  · unfold gridDown
    have : (128 : ℝ) * c = 128 * Int.fract c + ((128 * ⌊c⌋ : ℤ) : ℝ) := by
      push_cast
      rw [← mul_add, Int.fract_add_floor]
    rw [this, Int.floor_add_intCast]
    push_cast
    ring
  · have := Int.floor_le (128 * Int.fract c)
    linarith

/-- One step to the right outweighs a shift of the center, on the left of zero. -/
theorem gaussCdf_step {σ : ℝ} (hσ : 0 < σ) {c f : ℝ} (h0 : 0 ≤ c) (hcf : c ≤ f) (h1 : f < 1) {x : ℤ} (hx : x ≤ -1) :
    gaussCdf σ c x ≤ gaussCdf σ f (x + 1) := by
  unfold gaussCdf
  rw [Int.floor_eq_zero_iff.2 ⟨h0, by linarith⟩, Int.floor_eq_zero_iff.2 ⟨by linarith, h1⟩, zero_sub]
  calc ∑ y ∈ Icc (-⌈9 * σ⌉) x, gaussPdf σ c y
      ≤ ∑ y ∈ Icc (-⌈9 * σ⌉) x, gaussPdf σ f ((y + 1 : ℤ) : ℝ) := by
        apply sum_le_sum
        intro y hy
        rw [mem_Icc] at hy
        have hy' : (y : ℝ) ≤ -1 := by exact_mod_cast hy.2.trans hx
        apply gaussPdf_mono hσ
        push_cast
        nlinarith
    _ = ∑ y ∈ (Icc (-⌈9 * σ⌉) x).image (fun y : ℤ => y + 1), gaussPdf σ f y := by
        rw [sum_image (by intro a _ b _ h; simpa using h)]
    _ ≤ _ := by
        apply sum_le_sum_of_subset_of_nonneg
        · intro y hy
          rw [mem_image] at hy
          obtain ⟨z, hz, rfl⟩ := hy
          rw [mem_Icc] at hz ⊢
          omega
        · intro y _ _
          exact (gaussPdf_pos hσ f y).le

theorem twinBelow_eq {σ : ℝ} (f : ℚ) (h0 : 0 ≤ (f : ℝ)) (h1 : (f : ℝ) < 1) (v0 : ℤ) (hv : -cdtTail σ - 1 ≤ v0) (u : ℕ) :
    twinBelow σ f v0 u = true ↔ (u : ℝ) / 2 ^ 64 < gaussCdf σ f v0 := by
  unfold twinBelow
  simp only [decide_eq_true_eq]
  rw [foldl_add_eq_sum (fun i => cdtRho f σ (-cdtTail σ + i)), sum_range_eq_Icc (fun y => cdtRho f σ y)]
  have e : -cdtTail σ + ((v0 - -cdtTail σ + 1).toNat : ℤ) - 1 = v0 := by omega
  rw [e]
  unfold gaussCdf
  rw [Int.floor_eq_zero_iff.2 ⟨h0, h1⟩, zero_sub]
  rw [sum_congr rfl fun y _ => cdtRho_eq (f : ℝ) σ y]
  rfl

/-- The words that are entries of the table of the center `c`. -/
noncomputable def cdtBad (σ c : ℝ) : Finset ℕ :=
  (range (2 * cdtTail σ + 1).toNat).image fun i : ℕ => cdtEntry (gaussCdf σ c (i - cdtTail σ))

/-- `Sample` returns the value found in the table of the center rounded down, if the comparison says so. -/
theorem twin_value {σ : ℝ} (hσ : 0 < σ) (center : ℚ) (hc1 : -2 ^ 62 ≤ center) (hc2 : center ≤ 2 ^ 62)
    (u : ℕ) (hbad : u ∉ cdtBad σ ((⌊128 * Int.fract (center : ℝ)⌋ : ℝ) / 128)) :
    ∃ r : ℕ, r ≤ (2 * cdtTail σ + 1).toNat ∧
      (∀ k : ℕ, k < r → cdtEntry (gaussCdf σ ((⌊128 * Int.fract (center : ℝ)⌋ : ℝ) / 128) (k - cdtTail σ)) < u) ∧
      (∀ k : ℕ, r ≤ k → k < (2 * cdtTail σ + 1).toNat →
        u < cdtEntry (gaussCdf σ ((⌊128 * Int.fract (center : ℝ)⌋ : ℝ) / 128) (k - cdtTail σ))) ∧
      (twinBelow σ (center - ⌊center⌋) r u = true → twinSample σ center u = .ok (r - cdtTail σ + ⌊center⌋)) := by
  have hfr : Int.fract (center : ℝ) = ((center - ⌊center⌋ : ℚ) : ℝ) := by
    rw [Int.fract, Rat.floor_cast]; push_cast; rfl
  have hF : (⌊128 * Int.fract (center : ℝ)⌋ : ℤ) = ⌊128 * (center - ⌊center⌋)⌋ := by
    rw [hfr, ← Rat.floor_cast (α := ℝ) (128 * (center - ⌊center⌋))]; push_cast; rfl
  obtain ⟨-, g0, g1, g2⟩ := grid_facts (center : ℝ)
  rw [hF] at hbad g0 g1 ⊢
  set f := center - ⌊center⌋ with hf
  have f0 : 0 ≤ f := by rw [hf]; exact sub_nonneg.2 (Int.floor_le center)
  have f1 : f < 1 := by rw [hf]; linarith [Int.lt_floor_add_one center]
  set m := ⌊128 * f⌋ with hm
  have m0 : 0 ≤ m := Int.floor_nonneg.2 (by linarith)
  have m1 : m < 128 := by rw [hm]; apply Int.floor_lt.2; push_cast; linarith
  have c0 : 0 ≤ ⌈128 * f⌉ := Int.ceil_nonneg (by linarith)
  have c1 : ⌈128 * f⌉ ≤ 128 := Int.ceil_le.2 (by push_cast; linarith)
  have hmono : Monotone (fun k : ℕ => cdtEntry (gaussCdf σ ((m : ℝ) / 128) ((k : ℤ) - cdtTail σ))) := by
    intro a b hab
    apply cdtEntry_mono (gaussCdf_nonneg hσ _ _)
    apply gaussCdf_mono hσ
    have : (a : ℤ) ≤ b := by exact_mod_cast hab
    omega
  obtain ⟨r, e0, r1, r2, r3⟩ := binarySearch_sorted _ hmono (2 * cdtTail σ + 1).toNat u (by
    intro k hk h
    exact hbad (mem_image.2 ⟨k, mem_range.2 hk, h⟩))
  refine ⟨r, r1, r2, r3, ?_⟩
  intro hb
  have fl1 : -2 ^ 62 ≤ ⌊center⌋ := Int.le_floor.2 (by exact_mod_cast hc1)
  have fl2 : ⌊center⌋ ≤ 2 ^ 62 := by
    have : (⌊center⌋ : ℚ) ≤ 2 ^ 62 := le_trans (Int.floor_le _) hc2
    exact_mod_cast this
  have htb : ∀ i : ℕ, (hi : i < 128) → idx (newTwinCDT σ).tables i = .ok (computeCDT ((i : ℝ) / 128) σ) := by
    intro i hi
    have hl : i < (newTwinCDT σ).tables.length := by simpa [newTwinCDT, blockSize] using hi
    rw [idx_ok hl]
    simp [newTwinCDT, blockSize]
  have hb128 : ((blockSize : ℕ) : ℤ) = 128 := rfl
  have hb128' : ((blockSize : ℕ) : ℚ) = 128 := by norm_num [blockSize]
  have t1 : toInt64 m = .ok m := by unfold toInt64; rw [if_pos ⟨by omega, by omega⟩]; rfl
  have t2 : toInt64 ⌈128 * f⌉ = .ok ⌈128 * f⌉ := by
    unfold toInt64; rw [if_pos ⟨by omega, by omega⟩]; rfl
  have t3 : toInt64 ⌊center⌋ = .ok ⌊center⌋ := by unfold toInt64; rw [if_pos ⟨by omega, by omega⟩]; rfl
  have q0 : m.tmod (blockSize : ℕ) = m := by
    rw [hb128, Int.tmod_eq_emod_of_nonneg m0, Int.emod_eq_of_lt m0 m1]
  have q1 : 0 ≤ (⌈128 * f⌉).tmod (blockSize : ℕ) ∧ ((⌈128 * f⌉).tmod (blockSize : ℕ)).toNat < 128 := by
    rw [hb128, Int.tmod_eq_emod_of_nonneg c0]
    omega
  obtain ⟨r', o', e1, -⟩ := binarySearch_spec
    (computeCDT ((((⌈128 * f⌉).tmod (blockSize : ℕ)).toNat : ℝ) / 128) σ) u
  have e0' : binarySearch (computeCDT ((m.toNat : ℝ) / 128) σ) u = .ok (r, false) := by
    have hmc : ((m.toNat : ℕ) : ℝ) = (m : ℝ) := by
      have : ((m.toNat : ℕ) : ℤ) = m := Int.toNat_of_nonneg m0
      exact_mod_cast this
    rw [hmc, computeCDT_eq _ _ g0 (by linarith)]
    exact e0
  unfold twinSample TwinCDT.sample
  simp only [id_eq, ← hf, hb128', ← hm, t1, t2, t3, go_bind_ok, q0]
  rw [if_neg (by omega), htb _ (by omega), go_bind_ok, e0', go_bind_ok, htb _ q1.2, go_bind_ok, e1, go_bind_ok]
  simp only [Bool.false_eq_true, if_false, go_pure]
  have hlo : (newTwinCDT σ).tailLo = -cdtTail σ := rfl
  rw [hlo]
  by_cases hvv : (r : ℤ) = if o' = true then (r' : ℤ) - 1 else r'
  · rw [if_pos hvv]; congr 1; ring
  · rw [if_neg hvv, if_pos hb, sub_eq_add_neg]

/-- **C93, what the sampler computes.**  Except for the at most `2⌈9σ⌉ + 1` words that are table entries,
`Sample(center)` is the quantile of the discrete Gaussian around the center rounded down to a multiple of
`1/128`, for all words below the masses of the two windows.  In particular it is right for every center that
is a multiple of `1/128`.  (Partial: the claim is for all centers.) -/
theorem C93_grid_partial (σ : ℝ) (hσ : 0 < σ) (center : ℚ) (hc1 : -2 ^ 62 ≤ center) (hc2 : center ≤ 2 ^ 62) :
    ∃ bad : Finset ℕ, (bad.card : ℤ) ≤ 2 * ⌈9 * σ⌉ + 1 ∧ ∀ u < 2 ^ 64, u ∉ bad →
      (u : ℝ) / 2 ^ 64 < gaussMass σ center → (u : ℝ) / 2 ^ 64 < gaussMass σ (gridDown center) →
      ∃ x, twinSample σ center u = .ok x ∧ IsQuantile σ (gridDown center) ((u : ℝ) / 2 ^ 64) x := by
  have hT := cdtTail_pos hσ
  refine ⟨cdtBad σ ((⌊128 * Int.fract (center : ℝ)⌋ : ℝ) / 128), ?_, ?_⟩
  · have h1 : (cdtBad σ ((⌊128 * Int.fract (center : ℝ)⌋ : ℝ) / 128)).card ≤ (2 * cdtTail σ + 1).toNat := by
      unfold cdtBad
      exact card_image_le.trans (card_range _).le
    have : (2 * ⌈9 * σ⌉ + 1 : ℤ) = 2 * cdtTail σ + 1 := rfl
    omega
  · intro u hu hbad hm1 hm2
    obtain ⟨hg, g0, g1, g2⟩ := grid_facts (center : ℝ)
    obtain ⟨r, r1, r2, r3, hs⟩ := twin_value hσ center hc1 hc2 u hbad
    set c := (⌊128 * Int.fract (center : ℝ)⌋ : ℝ) / 128 with hc
    set p := (u : ℝ) / 2 ^ 64 with hp
    have hfr : Int.fract (center : ℝ) = ((center - ⌊center⌋ : ℚ) : ℝ) := by
      rw [Int.fract, Rat.floor_cast]; push_cast; rfl
    have hflc : ⌊(center : ℝ)⌋ = ⌊center⌋ := Rat.floor_cast center
    have hgx : ∀ x : ℤ, gaussCdf σ (gridDown center) (x + ⌊(center : ℝ)⌋) = gaussCdf σ c x := by
      intro x; rw [hg, gaussCdf_shift]
    have hfx : ∀ x : ℤ, gaussCdf σ center (x + ⌊(center : ℝ)⌋) = gaussCdf σ (Int.fract (center : ℝ)) x := by
      intro x
      rw [← gaussCdf_shift σ (Int.fract (center : ℝ)) ⌊(center : ℝ)⌋ x, Int.fract_add_floor]
    have hflg : ⌊gridDown (center : ℝ)⌋ = ⌊(center : ℝ)⌋ := by
      rw [hg, Int.floor_add_intCast, Int.floor_eq_zero_iff.2 ⟨g0, by linarith⟩, zero_add]
    have hm1' : p < gaussCdf σ (Int.fract (center : ℝ)) (cdtTail σ) := by
      rw [← hfx]
      have := hm1
      unfold gaussMass at this
      rwa [add_comm] at this
    have hm2' : p < gaussCdf σ c (cdtTail σ) := by
      rw [← hgx]
      have := hm2
      unfold gaussMass at this
      rwa [hflg, add_comm] at this
    have hrn : r < (2 * cdtTail σ + 1).toNat := by
      by_contra hcon
      have hr : r = (2 * cdtTail σ + 1).toNat := by omega
      have hk := r2 (r - 1) (by omega)
      have := (cdtEntry_spec (gaussCdf_nonneg hσ _ _) u hu).2 hk
      rw [show (((r - 1 : ℕ) : ℤ)) - cdtTail σ = cdtTail σ by omega] at this
      linarith
    have hup : p < gaussCdf σ c (r - cdtTail σ) := (cdtEntry_spec (gaussCdf_nonneg hσ _ _) u hu).1 (r3 r le_rfl hrn)
    have hlow : gaussCdf σ c (r - cdtTail σ - 1) ≤ p := by
      rcases Nat.eq_zero_or_pos r with h0 | h0
      · have : gaussCdf σ c (r - cdtTail σ - 1) = 0 := by
          unfold gaussCdf
          rw [Int.floor_eq_zero_iff.2 ⟨g0, by linarith⟩, h0]
          rw [Icc_eq_empty (by unfold cdtTail; push_cast; omega), sum_empty]
        rw [this]; positivity
      · have := (cdtEntry_spec (gaussCdf_nonneg hσ _ _) u hu).2 (r2 (r - 1) (by omega))
        rw [show (((r - 1 : ℕ) : ℤ)) - cdtTail σ = r - cdtTail σ - 1 by omega] at this
        exact this.le
    have hbelow : twinBelow σ (center - ⌊center⌋) r u = true := by
      rw [twinBelow_eq _ (by rw [← hfr]; exact Int.fract_nonneg _) (by rw [← hfr]; exact g2) _ (by omega), ← hfr, ← hp]
      by_cases hr : (r : ℤ) < cdtTail σ
      · calc p < gaussCdf σ c (r - cdtTail σ) := hup
          _ ≤ gaussCdf σ (Int.fract (center : ℝ)) (r - cdtTail σ + 1) := gaussCdf_step hσ g0 g1 g2 (by omega)
          _ ≤ _ := gaussCdf_mono hσ _ (by omega)
      · exact lt_of_lt_of_le hm1' (gaussCdf_mono hσ _ (by omega))
    refine ⟨_, hs hbelow, ?_, ?_⟩
    · rw [← hflc, show (r : ℤ) - cdtTail σ + ⌊(center : ℝ)⌋ - 1 = (r - cdtTail σ - 1) + ⌊(center : ℝ)⌋ by ring, hgx]
      exact hlow
    · rw [← hflc, hgx]
      exact hup

/-- At most one integer is the quantile. -/
theorem IsQuantile.unique {σ : ℝ} (hσ : 0 < σ) {c p : ℝ} {x y : ℤ} (hx : IsQuantile σ c p x) (hy : IsQuantile σ c p y) :
    x = y := by
  rcases lt_trichotomy x y with h | h | h
  · have := gaussCdf_mono hσ c (show x ≤ y - 1 by omega)
    linarith [hx.2, hy.1]
  · exact h
  · have := gaussCdf_mono hσ c (show y ≤ x - 1 by omega)
    linarith [hy.2, hx.1]

/-- Integers in a half-open interval of the unit interval scaled by `2^64`. -/
theorem card_words (a b : ℝ) (ha : 0 ≤ a) (hb : b ≤ 1) :
    (b - a) * 2 ^ 64 - 1 ≤ (((range (2 ^ 64)).filter fun u : ℕ => a ≤ (u : ℝ) / 2 ^ 64 ∧ (u : ℝ) / 2 ^ 64 < b).card : ℝ) := by
  have hsub : Ico ⌈a * 2 ^ 64⌉₊ ⌈b * 2 ^ 64⌉₊ ⊆
      (range (2 ^ 64)).filter fun u : ℕ => a ≤ (u : ℝ) / 2 ^ 64 ∧ (u : ℝ) / 2 ^ 64 < b := by
    intro u hu
    rw [mem_Ico] at hu
    have h1 : a * 2 ^ 64 ≤ u := Nat.ceil_le.1 hu.1
    have h2 : (u : ℝ) < b * 2 ^ 64 := Nat.lt_ceil.1 hu.2
    rw [mem_filter, mem_range]
    refine ⟨?_, ?_, ?_⟩
    · have : (u : ℝ) < ((2 ^ 64 : ℕ) : ℝ) := by
        push_cast
        nlinarith
      exact_mod_cast this
    · rw [le_div_iff₀ (by positivity)]; exact h1
    · rw [div_lt_iff₀ (by positivity)]; exact h2
  have hc := card_le_card hsub
  rw [Nat.card_Ico] at hc
  have h1 : (⌈a * 2 ^ 64⌉₊ : ℝ) < a * 2 ^ 64 + 1 := Nat.ceil_lt_add_one (by positivity)
  have h2 : b * 2 ^ 64 ≤ (⌈b * 2 ^ 64⌉₊ : ℝ) := Nat.le_ceil _
  have h3 : (⌈b * 2 ^ 64⌉₊ : ℝ) - ⌈a * 2 ^ 64⌉₊ ≤ ((⌈b * 2 ^ 64⌉₊ - ⌈a * 2 ^ 64⌉₊ : ℕ) : ℝ) := by
    rw [sub_le_iff_le_add]
    have : ⌈b * 2 ^ 64⌉₊ ≤ (⌈b * 2 ^ 64⌉₊ - ⌈a * 2 ^ 64⌉₊) + ⌈a * 2 ^ 64⌉₊ := by omega
    exact_mod_cast this
  have h4 : ((⌈b * 2 ^ 64⌉₊ - ⌈a * 2 ^ 64⌉₊ : ℕ) : ℝ) ≤ _ := Nat.cast_le.2 hc
  refine le_trans ?_ h4
  linarith

theorem gaussPdf_eq (σ : ℝ) (hσ : 0 < σ) (c : ℝ) :
    gaussPdf σ c = ProbabilityTheory.gaussianPDFReal c (Real.toNNReal (σ ^ 2)) := by
  funext x
  unfold gaussPdf ProbabilityTheory.gaussianPDFReal
  rw [Real.coe_toNNReal _ (sq_nonneg σ)]
  rw [Real.sqrt_mul (by positivity : (0 : ℝ) ≤ 2 * π), Real.sqrt_sq hσ.le, div_eq_inv_mul, mul_comm σ]

/-- The mass below the integer part of the center is at most one. -/
theorem gaussCdf_left {σ : ℝ} (hσ : 0 < σ) (c : ℝ) : gaussCdf σ c (⌊c⌋ - 1) ≤ 1 := by
  have hT := cdtTail_pos hσ
  have hmono : MonotoneOn (gaussPdf σ c) (Set.Icc ((⌊c⌋ - cdtTail σ : ℤ) : ℝ)
      (((⌊c⌋ - cdtTail σ : ℤ) : ℝ) + ((cdtTail σ).toNat : ℝ))) := by
    intro x hx y hy hxy
    have hy2 := hy.2
    have : (((cdtTail σ).toNat : ℕ) : ℝ) = ((cdtTail σ : ℤ) : ℝ) := by
      have : (((cdtTail σ).toNat : ℕ) : ℤ) = cdtTail σ := Int.toNat_of_nonneg (by omega)
      exact_mod_cast this
    rw [this] at hy2
    push_cast at hy2
    have := Int.floor_le c
    apply gaussPdf_mono hσ
    nlinarith
  have h := hmono.sum_le_integral
  have hint := ProbabilityTheory.integral_gaussianPDFReal_eq_one c (v := (Real.toNNReal (σ ^ 2)))
    (by rw [Ne, Real.toNNReal_eq_zero, not_le]; positivity)
  have hI := ProbabilityTheory.integrable_gaussianPDFReal c (Real.toNNReal (σ ^ 2))
  rw [← gaussPdf_eq σ hσ] at hint hI
  have hle : ∫ x in ((⌊c⌋ - cdtTail σ : ℤ) : ℝ)..(((⌊c⌋ - cdtTail σ : ℤ) : ℝ) + ((cdtTail σ).toNat : ℝ)),
      gaussPdf σ c x ≤ 1 := by
    rw [intervalIntegral.integral_of_le (by linarith [(Nat.cast_nonneg (cdtTail σ).toNat : (0 : ℝ) ≤ _)]), ← hint]
    exact MeasureTheory.setIntegral_le_integral hI (Filter.Eventually.of_forall fun x => (gaussPdf_pos hσ c x).le)
  refine le_trans (le_of_eq ?_) (h.trans hle)
  have := sum_range_eq_Icc (fun y : ℤ => gaussPdf σ c y) (⌊c⌋ - cdtTail σ) (cdtTail σ).toNat
  unfold gaussCdf
  rw [show ⌊c⌋ - ⌈9 * σ⌉ = ⌊c⌋ - cdtTail σ from rfl]
  rw [show ⌊c⌋ - cdtTail σ + ((cdtTail σ).toNat : ℤ) - 1 = ⌊c⌋ - 1 by omega] at this
  rw [← this]
  apply sum_congr rfl
  intro k _
  push_cast
  rfl

/-- **C93 is false.**  For every center that is not a multiple of `1/128`, `Sample(center)` is not the
quantile for at least the stated number of the `2^64` words. -/
theorem C93_refuted (σ : ℝ) (hσ : 0 < σ) (center : ℚ) (hc1 : -2 ^ 62 ≤ center) (hc2 : center ≤ 2 ^ 62) :
    open Classical in
    (gaussPdf σ (gridDown center) (⌊(center : ℝ)⌋ - 1) - gaussPdf σ center (⌊(center : ℝ)⌋ - 1)) * 2 ^ 64 -
        (2 * ⌈9 * σ⌉ + 2) ≤
      (((range (2 ^ 64)).filter fun u : ℕ => ∃ x, twinSample σ center u = .ok x ∧
        ¬ IsQuantile σ center ((u : ℝ) / 2 ^ 64) x).card : ℝ) := by
  classical
  have hT := cdtTail_pos hσ
  obtain ⟨hg, g0, g1, g2⟩ := grid_facts (center : ℝ)
  obtain ⟨bad, hb, hlaw⟩ := C93_grid_partial σ hσ center hc1 hc2
  set F := ⌊(center : ℝ)⌋ with hF
  set f := Int.fract (center : ℝ) with hf
  set c := (⌊128 * f⌋ : ℝ) / 128 with hc
  have hgx : ∀ x : ℤ, gaussCdf σ (gridDown center) (x + F) = gaussCdf σ c x := by
    intro x; rw [hg, gaussCdf_shift]
  have hfx : ∀ x : ℤ, gaussCdf σ center (x + F) = gaussCdf σ f x := by
    intro x
    rw [← gaussCdf_shift σ f F x, hf, hF, Int.fract_add_floor]
  have hflg : ⌊gridDown (center : ℝ)⌋ = F := by
    rw [hg, Int.floor_add_intCast, Int.floor_eq_zero_iff.2 ⟨g0, by linarith⟩, zero_add]
  have hFm : (F : ℤ) - 1 = -1 + F := by ring
  have hab : gaussPdf σ (gridDown center) (F - 1) - gaussPdf σ center (F - 1) ≤
      gaussCdf σ (gridDown center) (F - 1) - gaussCdf σ center (F - 1) := by
    have e1 : gaussPdf σ (gridDown center) (F - 1) = gaussPdf σ c ((-1 : ℤ) : ℝ) := by
      rw [hg, ← gaussPdf_shift σ c ((-1 : ℤ) : ℝ) F]; push_cast; congr 1; ring
    have e2 : gaussPdf σ center (F - 1) = gaussPdf σ f ((-1 : ℤ) : ℝ) := by
      rw [← gaussPdf_shift σ f ((-1 : ℤ) : ℝ) F, hf, hF, Int.fract_add_floor]; push_cast; congr 1; ring
    rw [e1, e2, hFm, hgx, hfx]
    unfold gaussCdf
    rw [Int.floor_eq_zero_iff.2 ⟨g0, by linarith⟩, Int.floor_eq_zero_iff.2 ⟨by linarith, g2⟩, ← sum_sub_distrib]
    refine single_le_sum (f := fun y : ℤ => gaussPdf σ c y - gaussPdf σ f y) ?_ ?_
    · intro y hy
      rw [mem_Icc] at hy
      have hy' : (y : ℝ) ≤ -1 := by exact_mod_cast hy.2
      rw [sub_nonneg]
      apply gaussPdf_mono hσ
      nlinarith
    · rw [mem_Icc]
      unfold cdtTail at hT
      omega
  have hcard := card_words (gaussCdf σ center (F - 1)) (gaussCdf σ (gridDown center) (F - 1))
    (gaussCdf_nonneg hσ _ _) (by rw [← hflg]; exact gaussCdf_left hσ _)
  set W := (range (2 ^ 64)).filter fun u : ℕ => gaussCdf σ center (F - 1) ≤ (u : ℝ) / 2 ^ 64 ∧
    (u : ℝ) / 2 ^ 64 < gaussCdf σ (gridDown center) (F - 1) with hW
  have hsub : W \ bad ⊆ (range (2 ^ 64)).filter fun u : ℕ => ∃ x, twinSample σ center u = .ok x ∧
      ¬ IsQuantile σ center ((u : ℝ) / 2 ^ 64) x := by
    intro u hu
    rw [mem_sdiff, hW, mem_filter, mem_range] at hu
    obtain ⟨⟨hu, h1, h2⟩, hbad⟩ := hu
    rw [mem_filter, mem_range]
    refine ⟨hu, ?_⟩
    have hstep : gaussCdf σ (gridDown center) (F - 1) ≤ gaussCdf σ center F := by
      have := gaussCdf_step hσ g0 g1 g2 (x := -1) le_rfl
      rw [← hgx, ← hfx, show (-1 : ℤ) + 1 + F = F by ring, ← hFm] at this
      exact this
    have hstep2 : gaussCdf σ (gridDown center) (F - 1 - 1) ≤ gaussCdf σ center (F - 1) := by
      have := gaussCdf_step hσ g0 g1 g2 (x := -2) (by norm_num)
      rw [← hgx, ← hfx, show (-2 : ℤ) + 1 + F = F - 1 by ring, show (-2 : ℤ) + F = F - 1 - 1 by ring] at this
      exact this
    obtain ⟨x, hx, hq⟩ := hlaw u hu hbad
      (lt_of_lt_of_le h2 (hstep.trans (gaussCdf_mono hσ _ (by unfold cdtTail at hT; omega))))
      (lt_of_lt_of_le h2 (gaussCdf_mono hσ _ (by rw [hflg]; unfold cdtTail at hT; omega)))
    refine ⟨x, hx, ?_⟩
    have : x = F - 1 := hq.unique hσ ⟨hstep2.trans h1, h2⟩
    rw [this]
    intro hcon
    exact absurd hcon.2 (not_lt.2 h1)
  have h1 := card_le_card hsub
  have h2 : W.card ≤ (W \ bad).card + bad.card := card_le_card_sdiff_add_card
  have h3 : (W.card : ℝ) ≤ ((W \ bad).card : ℝ) + bad.card := by exact_mod_cast h2
  have h4 : ((W \ bad).card : ℝ) ≤ _ := Nat.cast_le.2 h1
  have h5 : (bad.card : ℝ) ≤ 2 * ⌈9 * σ⌉ + 1 := by exact_mod_cast hb
  have h6 : (gaussPdf σ (gridDown center) (F - 1) - gaussPdf σ center (F - 1)) * 2 ^ 64 ≤
      (gaussCdf σ (gridDown center) (F - 1) - gaussCdf σ center (F - 1)) * 2 ^ 64 := by gcongr
  linarith

/-- The number in `C93_refuted` is the Gaussian mass lost by moving the center; it is positive unless the
center is a multiple of `1/128`. -/
theorem C93_refuted_pos (σ : ℝ) (hσ : 0 < σ) (center : ℝ) (hgrid : gridDown center ≠ center) :
    0 < gaussPdf σ (gridDown center) (⌊center⌋ - 1) - gaussPdf σ center (⌊center⌋ - 1) := by
  obtain ⟨hg, g0, g1, g2⟩ := grid_facts center
  have hlt : gridDown center < center := by
    refine lt_of_le_of_ne ?_ hgrid
    rw [hg]
    have := Int.fract_add_floor center
    linarith
  have h1 : (⌊center⌋ : ℝ) ≤ gridDown center := by rw [hg]; linarith
  rw [sub_pos]
  apply gaussPdf_strict hσ
  nlinarith

/-- For standard deviation one and the center `1/256`, more than `2^52` words give a wrong sample. -/
theorem case93 : open Classical in
    (2 : ℝ) ^ 52 ≤ (((range (2 ^ 64)).filter fun u : ℕ => ∃ x, twinSample 1 (1 / 256) u = .ok x ∧
        ¬ IsQuantile 1 ((1 / 256 : ℚ) : ℝ) ((u : ℝ) / 2 ^ 64) x).card : ℝ) := by
  have hfl : ⌊((1 / 256 : ℚ) : ℝ)⌋ = 0 := Int.floor_eq_zero_iff.2 ⟨by norm_num, by norm_num⟩
  have hgr : gridDown ((1 / 256 : ℚ) : ℝ) = 0 := by
    unfold gridDown
    have : ⌊(128 : ℝ) * ((1 / 256 : ℚ) : ℝ)⌋ = 0 := Int.floor_eq_zero_iff.2 ⟨by norm_num, by norm_num⟩
    rw [this]; norm_num
  have hceil : ⌈(9 : ℝ) * 1⌉ = 9 := by norm_num
  have hs1 : (2.5 : ℝ) ≤ √(2 * π) := by
    apply Real.le_sqrt_of_sq_le
    nlinarith [Real.pi_gt_d2]
  have hs2 : √(2 * π) ≤ 2.6 := by
    rw [Real.sqrt_le_left (by norm_num)]
    nlinarith [Real.pi_lt_d2]
  have := C93_refuted 1 one_pos (1 / 256) (by norm_num) (by norm_num)
  refine le_trans ?_ this
  rw [hgr, hfl, hceil]
  have h0 : (1 : ℝ) / 2 ≤ exp (-(1 / 2)) := by
    have := Real.add_one_le_exp (-(1 / 2 : ℝ))
    linarith
  have h1 : exp (-(1 / 257 : ℝ)) ≤ 1 - 1 / 300 := by
    have h2 := Real.add_one_le_exp (1 / 257 : ℝ)
    rw [Real.exp_neg]
    calc (exp (1 / 257 : ℝ))⁻¹ ≤ (1 / 257 + 1 : ℝ)⁻¹ := by gcongr
      _ ≤ _ := by norm_num
  have hd : (6 / 10000 : ℝ) * (1 - 1 / 300) ≤ gaussPdf 1 0 (0 - 1) - gaussPdf 1 ((1 / 256 : ℚ) : ℝ) (0 - 1) := by
    unfold gaussPdf
    rw [← sub_div, one_mul, le_div_iff₀ (by linarith)]
    have e1 : exp (-((0 : ℝ) - 1 - 0) ^ 2 / (2 * 1 ^ 2)) = exp (-(1 / 2)) := by norm_num
    have e2 : exp (-((0 : ℝ) - 1 - ((1 / 256 : ℚ) : ℝ)) ^ 2 / (2 * 1 ^ 2)) ≤ exp (-(1 / 2)) * exp (-(1 / 257)) := by
      rw [← Real.exp_add]
      apply Real.exp_le_exp.2
      norm_num
    rw [e1]
    nlinarith
  push_cast at hd ⊢
  nlinarith

/-- Non-vacuity of `C93_grid_partial`: the masses of both windows exceed `1/16`, so that the theorem applies
to the word `2^60` (unless it is a table entry). -/
example : ((2 ^ 60 : ℕ) : ℝ) / 2 ^ 64 < gaussMass 1 ((1 / 256 : ℚ) : ℝ) ∧
    ((2 ^ 60 : ℕ) : ℝ) / 2 ^ 64 < gaussMass 1 (gridDown ((1 / 256 : ℚ) : ℝ)) := by
  have key : ∀ c : ℝ, 0 ≤ c → c < 1 / 2 → ((2 ^ 60 : ℕ) : ℝ) / 2 ^ 64 < gaussMass 1 c := by
    intro c h0 h1
    have hfl : ⌊c⌋ = 0 := Int.floor_eq_zero_iff.2 ⟨h0, by linarith⟩
    have hs : √(2 * π) < 3 := by
      rw [Real.sqrt_lt' (by norm_num)]
      nlinarith [Real.pi_lt_d2]
    have hp : (1 : ℝ) / 4 ≤ gaussPdf 1 c ((0 : ℤ) : ℝ) := by
      unfold gaussPdf
      have e := Real.add_one_le_exp (-(((0 : ℤ) : ℝ) - c) ^ 2 / (2 * 1 ^ 2))
      rw [div_le_div_iff₀ (by norm_num) (by positivity)]
      push_cast at e ⊢
      nlinarith
    have hm : gaussPdf 1 c ((0 : ℤ) : ℝ) ≤ gaussMass 1 c := by
      unfold gaussMass gaussCdf
      rw [hfl]
      refine single_le_sum (f := fun y : ℤ => gaussPdf 1 c y) (fun y _ => (gaussPdf_pos one_pos c y).le) ?_
      have : 0 ≤ ⌈(9 * 1 : ℝ)⌉ := Int.ceil_nonneg (by norm_num)
      rw [mem_Icc]
      omega
    refine lt_of_lt_of_le ?_ (hp.trans hm)
    norm_num
  refine ⟨key _ (by norm_num) (by norm_num), ?_⟩
  obtain ⟨h, g0, g1, -⟩ := grid_facts ((1 / 256 : ℚ) : ℝ)
  have hfl : ⌊((1 / 256 : ℚ) : ℝ)⌋ = 0 := Int.floor_eq_zero_iff.2 ⟨by norm_num, by norm_num⟩
  have hfr : Int.fract ((1 / 256 : ℚ) : ℝ) = 1 / 256 := by
    rw [Int.fract, hfl]; norm_num
  rw [hfl] at h
  rw [hfr] at h g0 g1
  apply key
  · rw [h]; push_cast; linarith
  · rw [h]; push_cast; linarith

end Ringo
