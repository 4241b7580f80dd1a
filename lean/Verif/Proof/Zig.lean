import Verif.Proof.ZigTab
import Verif.Proof.Reject
import Verif.Proof.Cosac
import Mathlib.MeasureTheory.Function.Jacobian
import Mathlib.MeasureTheory.Constructions.BorelSpace.Order

/-!
# The law of the ziggurat: one round
-/

namespace Ringo

open MeasureTheory Real

theorem measurable_zigNormal : Measurable zigNormal := by
  unfold zigNormal
  fun_prop

/-- The draws of a round without the sign and the layer. -/
noncomputable abbrev magDraws : Measure (ℝ × ℝ × (ℕ → ℝ × ℝ)) :=
  unif01.prod (unif01.prod (stream (unif01.prod unif01)))

/-- The absolute value that a round gives in layer `i`. -/
noncomputable def zigMag (i : ℕ) (d : ℝ × ℝ × (ℕ → ℝ × ℝ)) : Option ℝ :=
  open Classical in
  if d.1 < zigK i then some (d.1 * zigW i)
  else if i = 0 then (untilSome zigTailBody d.2.2).map fun u => u + zigR
  else if d.2.1 * (zigF (i - 1) - zigF i) < zigNormal (d.1 * zigW i) - zigF i then some (d.1 * zigW i) else none

theorem zigBody_eq (b : Bool) (i : Fin 128) (d : ℝ × ℝ × (ℕ → ℝ × ℝ)) :
    zigBody (b, i, d) = (zigMag i d).map fun x => if b then -x else x := by
  have hsq : ∀ x : ℝ, exp (-0.5 * ((if b then -d.1 else d.1) * x) * ((if b then -d.1 else d.1) * x)) =
      zigNormal (d.1 * x) := by
    intro x
    unfold zigNormal
    congr 1
    cases b <;> simp
  have hx : ∀ x : ℝ, (if b then -d.1 else d.1) * x = if b then -(d.1 * x) else d.1 * x := by
    intro x; cases b <;> simp
  unfold zigBody zigMag
  simp only [hsq]
  split
  · rw [Option.map_some, hx]
  · split
    · rw [Option.map_map]; rfl
    · split
      · rw [Option.map_some, hx]
      · rfl

/-- The draws on which layer `i` gives an absolute value in `B`. -/
def magSet (i : ℕ) (B : Set ℝ) : Set (ℝ × ℝ × (ℕ → ℝ × ℝ)) := {d | ∃ a ∈ B, zigMag i d = some a}

/-! ## Uniform numbers -/

/-- A scaled uniform number. -/
theorem unif01_scale {w : ℝ} (hw : 0 < w) {F : ℝ → ENNReal} (hF : Measurable F) :
    ∫⁻ t, F (t * w) ∂unif01 = ENNReal.ofReal w⁻¹ * ∫⁻ x in Set.Ico 0 w, F x := by
  unfold unif01
  rw [← lintegral_indicator measurableSet_Ico, ← lintegral_indicator measurableSet_Ico]
  have h1 : ∀ t, (Set.Ico (0 : ℝ) 1).indicator (fun t => F (t * w)) t = ((Set.Ico 0 w).indicator F) (t * w) := by
    intro t
    by_cases h : t ∈ Set.Ico (0 : ℝ) 1
    · rw [Set.indicator_of_mem h, Set.indicator_of_mem]
      obtain ⟨h0, h1⟩ := h
      exact ⟨by positivity, by nlinarith⟩
    · rw [Set.indicator_of_notMem h, Set.indicator_of_notMem]
      rintro ⟨h0, h1⟩
      refine h ⟨?_, ?_⟩
      · by_contra hc; nlinarith
      · by_contra hc; nlinarith
  simp_rw [h1]
  have h2 := lintegral_map (μ := volume) (hF.indicator (measurableSet_Ico (a := (0 : ℝ)) (b := w)))
    (measurable_mul_const w)
  rw [← h2, Real.map_volume_mul_right hw.ne', lintegral_smul_measure, abs_of_pos (inv_pos.2 hw), smul_eq_mul]

theorem unif01_mem : ∀ᵐ t ∂unif01, t ∈ Set.Ico (0 : ℝ) 1 := by
  unfold unif01
  exact ae_restrict_mem measurableSet_Ico

/-! ## The inner layers -/

theorem zigX_mono_le {i : ℕ} (h1 : 2 ≤ i) (h2 : i ≤ 127) : zigX (i - 1) ≤ zigX i := (zigX_lt h1 h2).le

/-- In a layer from the second on, the two tests together accept exactly below the curve. -/
theorem zigMag_layer {i : ℕ} (h1 : 2 ≤ i) (h2 : i ≤ 127) {d : ℝ × ℝ × (ℕ → ℝ × ℝ)} (ht0 : 0 ≤ d.1)
    (hr1 : d.2.1 < 1) (B : Set ℝ) :
    d ∈ magSet i B ↔ d.1 * zigX i ∈ B ∧
      d.2.1 * (zigNormal (zigX (i - 1)) - zigNormal (zigX i)) < zigNormal (d.1 * zigX i) - zigNormal (zigX i) := by
  have hp := zigX_pos (i := i) (by omega)
  have hp1 := zigX_pos (i := i - 1) (by omega)
  have hl := zigNormal_layer h1 h2
  have eW : zigW i = zigX i := by unfold zigW; rw [if_neg (by omega)]
  have eK : zigK i = zigX (i - 1) / zigX i := by unfold zigK; rw [if_neg (by omega)]
  have eF : zigF i = zigNormal (zigX i) := by unfold zigF; rw [if_neg (by omega)]
  have eF1 : zigF (i - 1) = zigNormal (zigX (i - 1)) := by unfold zigF; rw [if_neg (by omega)]
  unfold magSet zigMag
  rw [Set.mem_ofPred_eq, eW, eK, eF, eF1]
  by_cases hk : d.1 < zigX (i - 1) / zigX i
  · rw [if_pos hk]
    rw [lt_div_iff₀ hp] at hk
    have := zigNormal_anti (by positivity) hk.le
    have h3 : d.2.1 * (zigNormal (zigX (i - 1)) - zigNormal (zigX i)) < zigNormal (d.1 * zigX i) - zigNormal (zigX i) := by
      nlinarith
    simp [h3]
  · rw [if_neg hk, if_neg (by omega)]
    by_cases hc : d.2.1 * (zigNormal (zigX (i - 1)) - zigNormal (zigX i)) < zigNormal (d.1 * zigX i) - zigNormal (zigX i)
    · simp [hc]
    · simp [hc]

theorem prod3_fst (T : Set (ℝ × ℝ)) :
    magDraws {d | (d.1, d.2.1) ∈ T} = (unif01.prod unif01) T := by
  have : {d : ℝ × ℝ × (ℕ → ℝ × ℝ) | (d.1, d.2.1) ∈ T} = (MeasurableEquiv.prodAssoc.symm) ⁻¹' (T ×ˢ Set.univ) := by
    ext ⟨a, b, c⟩
    change (a, b) ∈ T ↔ (a, b) ∈ T ∧ c ∈ Set.univ
    simp
  rw [this]
  have hmp := (measurePreserving_prodAssoc unif01 unif01 (stream (unif01.prod unif01))).symm
  rw [hmp.measure_preimage_equiv, Measure.prod_prod, measure_univ, mul_one]

/-- The law of a layer from the second on, times the area of a layer. -/
theorem mag_layer {i : ℕ} (h1 : 2 ≤ i) (h2 : i ≤ 127) {B : Set ℝ} (hB : MeasurableSet B) :
    magDraws (magSet i B) = ENNReal.ofReal zigV⁻¹ * ∫⁻ x in Set.Ico 0 (zigX i) ∩ B,
      ENNReal.ofReal (min (zigNormal (zigX (i - 1))) (zigNormal x) - zigNormal (zigX i)) := by
  have hp := zigX_pos (i := i) (by omega)
  have hl := zigNormal_layer h1 h2
  set D := zigNormal (zigX (i - 1)) - zigNormal (zigX i) with hD
  have hD0 : 0 < D := by linarith
  have hae : magSet i B =ᵐ[magDraws] {d | (d.1, d.2.1) ∈ {p : ℝ × ℝ | p.1 * zigX i ∈ B ∧
      p.2 < (zigNormal (p.1 * zigX i) - zigNormal (zigX i)) / D}} := by
    have e1 : ∀ᵐ d ∂magDraws, d.1 ∈ Set.Ico (0 : ℝ) 1 :=
      Measure.quasiMeasurePreserving_fst.ae unif01_mem
    have e2 : ∀ᵐ d ∂magDraws, d.2.1 ∈ Set.Ico (0 : ℝ) 1 :=
      (Measure.quasiMeasurePreserving_fst.comp Measure.quasiMeasurePreserving_snd).ae unif01_mem
    filter_upwards [e1, e2] with d hd1 hd2
    apply propext
    have := zigMag_layer h1 h2 hd1.1 hd2.2 B
    refine this.trans ?_
    change _ ↔ d.1 * zigX i ∈ B ∧ d.2.1 < (zigNormal (d.1 * zigX i) - zigNormal (zigX i)) / D
    rw [lt_div_iff₀ hD0]
  rw [measure_congr hae, prod3_fst]
  have hm : MeasurableSet {p : ℝ × ℝ | p.1 * zigX i ∈ B ∧
      p.2 < (zigNormal (p.1 * zigX i) - zigNormal (zigX i)) / D} := by
    have hm1 : Measurable fun p : ℝ × ℝ => p.1 * zigX i := by fun_prop
    have hm2 : Measurable fun p : ℝ × ℝ => (zigNormal (p.1 * zigX i) - zigNormal (zigX i)) / D :=
      ((measurable_zigNormal.comp hm1).sub_const _).div_const _
    exact (hm1 hB).inter (measurableSet_lt measurable_snd hm2)
  rw [Measure.prod_apply hm]
  have hpt : ∀ t : ℝ, unif01 (Prod.mk t ⁻¹' {p : ℝ × ℝ | p.1 * zigX i ∈ B ∧
      p.2 < (zigNormal (p.1 * zigX i) - zigNormal (zigX i)) / D}) =
      B.indicator (fun x => ENNReal.ofReal D⁻¹ *
        ENNReal.ofReal (min (zigNormal (zigX (i - 1))) (zigNormal x) - zigNormal (zigX i))) (t * zigX i) := by
    intro t
    by_cases hb : t * zigX i ∈ B
    · rw [Set.indicator_of_mem hb]
      have : Prod.mk t ⁻¹' {p : ℝ × ℝ | p.1 * zigX i ∈ B ∧ p.2 < (zigNormal (p.1 * zigX i) - zigNormal (zigX i)) / D} =
          {r | r < (zigNormal (t * zigX i) - zigNormal (zigX i)) / D} := by
        ext r
        simp [hb]
      rw [this, ← ENNReal.ofReal_mul (by positivity)]
      rcases le_total (zigNormal (t * zigX i)) (zigNormal (zigX (i - 1))) with hle | hle
      · rw [min_eq_right hle, unif01_lt (by rw [div_le_one hD0]; linarith), div_eq_inv_mul]
      · rw [min_eq_left hle, unif01_lt_of_one_le (by rw [one_le_div hD0]; linarith), ← hD, inv_mul_cancel₀ hD0.ne',
          ENNReal.ofReal_one]
    · rw [Set.indicator_of_notMem hb]
      have : Prod.mk t ⁻¹' {p : ℝ × ℝ | p.1 * zigX i ∈ B ∧ p.2 < (zigNormal (p.1 * zigX i) - zigNormal (zigX i)) / D} =
          ∅ := by
        ext r
        simp [hb]
      rw [this, measure_empty]
  simp_rw [hpt]
  have hmF : Measurable fun x => ENNReal.ofReal (min (zigNormal (zigX (i - 1))) (zigNormal x) - zigNormal (zigX i)) :=
    ((measurable_const.min measurable_zigNormal).sub_const _).ennreal_ofReal
  rw [unif01_scale hp ((hmF.const_mul _).indicator hB), lintegral_indicator hB, Measure.restrict_restrict hB,
    lintegral_const_mul _ hmF, ← mul_assoc, ← ENNReal.ofReal_mul (by positivity), Set.inter_comm]
  congr 2
  rw [← mul_inv, ← zigX_area h1 h2]

/-! ## The innermost layer -/

/-- The innermost layer accepts everything. -/
theorem mag_one {B : Set ℝ} (hB : MeasurableSet B) :
    magDraws (magSet 1 B) = ENNReal.ofReal (zigX 1)⁻¹ * volume (Set.Ico 0 (zigX 1) ∩ B) := by
  have hp := zigX_pos (i := 1) le_rfl
  have hae : magSet 1 B =ᵐ[magDraws] {d | d.1 * zigX 1 ∈ B} := by
    have e1 : ∀ᵐ d ∂magDraws, d.1 ∈ Set.Ico (0 : ℝ) 1 :=
      Measure.quasiMeasurePreserving_fst.ae unif01_mem
    have e2 : ∀ᵐ d ∂magDraws, d.2.1 ∈ Set.Ico (0 : ℝ) 1 :=
      (Measure.quasiMeasurePreserving_fst.comp Measure.quasiMeasurePreserving_snd).ae unif01_mem
    filter_upwards [e1, e2] with d hd1 hd2
    apply propext
    change (∃ a ∈ B, zigMag 1 d = some a) ↔ d.1 * zigX 1 ∈ B
    have eW : zigW 1 = zigX 1 := by unfold zigW; rw [if_neg (by omega)]
    have eK : zigK 1 = 0 := by unfold zigK; rw [if_neg (by omega)]; unfold zigX; simp
    have eF : zigF 1 = zigNormal (zigX 1) := by unfold zigF; rw [if_neg (by omega)]
    have eF0 : zigF (1 - 1) = 0 := by unfold zigF; rw [if_pos rfl]
    unfold zigMag
    rw [eW, eK, eF, eF0, if_neg (not_lt.2 hd1.1), if_neg one_ne_zero, if_pos]
    · simp
    · have h1 : d.1 * zigX 1 < zigX 1 := by nlinarith [hd1.2]
      have := zigNormal_anti_strict (mul_nonneg hd1.1 hp.le) h1
      have := zigNormal_pos (zigX 1)
      nlinarith [hd2.1]
  rw [measure_congr hae]
  have hprod : {d : ℝ × ℝ × (ℕ → ℝ × ℝ) | d.1 * zigX 1 ∈ B} = {t | t * zigX 1 ∈ B} ×ˢ Set.univ := by
    ext d; simp
  rw [hprod, Measure.prod_prod, measure_univ, mul_one]
  have hset : MeasurableSet {t : ℝ | t * zigX 1 ∈ B} := measurable_mul_const _ hB
  rw [← lintegral_indicator_one hset]
  have : ∀ t, {t : ℝ | t * zigX 1 ∈ B}.indicator (1 : ℝ → ENNReal) t = B.indicator 1 (t * zigX 1) := by
    intro t; rfl
  simp_rw [this]
  rw [unif01_scale hp (measurable_one.indicator hB), lintegral_indicator_one hB, Measure.restrict_apply hB,
    Set.inter_comm]

/-! ## The tail -/

theorem zigTail_some (U V u : ℝ) : zigTailBody (U, V) = some u ↔ u = -log U * (1.0 / zigR) ∧ -log V + -log V ≥ u * u := by
  unfold zigTailBody
  dsimp only
  split
  · rename_i h
    rw [Option.some.injEq]
    constructor
    · rintro rfl; exact ⟨rfl, h⟩
    · rintro ⟨rfl, -⟩; rfl
  · rename_i h
    constructor
    · intro h; cases h
    · rintro ⟨rfl, h'⟩; exact absurd h' h

theorem measurableSet_tail {C : Set ℝ} (hC : MeasurableSet C) : MeasurableSet {d | ∃ u ∈ C, zigTailBody d = some u} := by
  have : {d | ∃ u ∈ C, zigTailBody d = some u} = {d : ℝ × ℝ | -log d.1 * (1.0 / zigR) ∈ C} ∩
      {d : ℝ × ℝ | (-log d.1 * (1.0 / zigR)) * (-log d.1 * (1.0 / zigR)) ≤ -log d.2 + -log d.2} := by
    ext ⟨U, V⟩
    simp only [Set.mem_ofPred_eq, zigTail_some, Set.mem_inter_iff]
    constructor
    · rintro ⟨u, h, rfl, h2⟩; exact ⟨h, h2⟩
    · rintro ⟨h, h2⟩; exact ⟨_, h, rfl, h2⟩
  rw [this]
  have m1 : Measurable fun d : ℝ × ℝ => -log d.1 * (1.0 / zigR) := by fun_prop
  have m2 : Measurable fun d : ℝ × ℝ => -log d.2 + -log d.2 := by fun_prop
  exact (m1 hC).inter (measurableSet_le (m1.mul m1) m2)

theorem measurableSet_tail_none : MeasurableSet {d | zigTailBody d = none} := by
  have : {d | zigTailBody d = none} = {d | ∃ u ∈ Set.univ, zigTailBody d = some u}ᶜ := by
    ext d
    simp only [Set.mem_ofPred_eq, Set.mem_compl_iff, Set.mem_univ, true_and]
    rcases zigTailBody d with _ | z <;> simp
  rw [this]
  exact (measurableSet_tail MeasurableSet.univ).compl

/-- One round of the loop for the tail. -/
theorem tail_round {C : Set ℝ} (hC : MeasurableSet C) :
    (unif01.prod unif01) {d | ∃ u ∈ C, zigTailBody d = some u} =
      ENNReal.ofReal (zigR * exp (zigR ^ 2 / 2)) * ∫⁻ u in Set.Ioi 0 ∩ C, ENNReal.ofReal (zigNormal (u + zigR)) := by
  have hr := zigR_pos
  rw [Measure.prod_apply (measurableSet_tail hC)]
  have hinj : Set.InjOn (fun u : ℝ => exp (-(zigR * u))) (Set.Ioi 0) := by
    intro a _ b _ h
    have := exp_injective h
    have : zigR * a = zigR * b := by linarith
    exact mul_left_cancel₀ hr.ne' this
  have himg : (fun u : ℝ => exp (-(zigR * u))) '' Set.Ioi 0 = Set.Ioo 0 1 := by
    ext U
    constructor
    · rintro ⟨u, hu, rfl⟩
      refine ⟨exp_pos _, ?_⟩
      rw [Set.mem_Ioi] at hu
      rw [exp_lt_one_iff]
      have : 0 < zigR * u := by positivity
      linarith
    · rintro ⟨h0, h1⟩
      refine ⟨-log U / zigR, ?_, ?_⟩
      · have := log_neg h0 h1
        rw [Set.mem_Ioi]
        apply div_pos (by linarith) hr
      · dsimp only
        rw [mul_div_cancel₀ _ hr.ne', neg_neg, exp_log h0]
  have hder : ∀ u ∈ Set.Ioi (0 : ℝ), HasDerivWithinAt (fun u : ℝ => exp (-(zigR * u))) (-zigR * exp (-(zigR * u))) (Set.Ioi 0) u := by
    intro u _
    have h1 : HasDerivAt (fun u : ℝ => -(zigR * u)) (-zigR) u := by
      have := ((hasDerivAt_id u).const_mul (-zigR))
      simpa using this
    have := h1.exp
    rw [mul_comm] at this
    exact this.hasDerivWithinAt
  have hchange := lintegral_image_eq_lintegral_abs_deriv_mul measurableSet_Ioi hder hinj
    (fun U => unif01 (Prod.mk U ⁻¹' {d | ∃ u ∈ C, zigTailBody d = some u}))
  rw [himg] at hchange
  have h01 : ∫⁻ U, unif01 (Prod.mk U ⁻¹' {d | ∃ u ∈ C, zigTailBody d = some u}) ∂unif01 =
      ∫⁻ U in Set.Ioo 0 1, unif01 (Prod.mk U ⁻¹' {d | ∃ u ∈ C, zigTailBody d = some u}) := by
    conv_lhs => rw [unif01]
    exact setLIntegral_congr Ioo_ae_eq_Ico.symm
  rw [h01, hchange]
  have hmC : Measurable fun u => ENNReal.ofReal (zigNormal (u + zigR)) :=
    (measurable_zigNormal.comp (measurable_add_const _)).ennreal_ofReal
  rw [← lintegral_const_mul _ hmC, Set.inter_comm, ← Measure.restrict_restrict hC, ← lintegral_indicator hC]
  apply setLIntegral_congr_fun measurableSet_Ioi
  intro u hu
  rw [Set.mem_Ioi] at hu
  dsimp only
  have hu' : -log (exp (-(zigR * u))) * (1.0 / zigR) = u := by
    rw [log_exp]
    have : (1.0 : ℝ) = 1 := by norm_num
    rw [this]
    field_simp
  by_cases hc : u ∈ C
  · rw [Set.indicator_of_mem hc]
    have hset : Prod.mk (exp (-(zigR * u))) ⁻¹' {d | ∃ u ∈ C, zigTailBody d = some u} = {V | -log V + -log V ≥ u * u} := by
      ext V
      simp only [Set.mem_preimage, Set.mem_ofPred_eq, zigTail_some, hu']
      constructor
      · rintro ⟨_, -, rfl, h⟩; exact h
      · intro h; exact ⟨u, hc, rfl, h⟩
    have hV : unif01 {V | -log V + -log V ≥ u * u} = ENNReal.ofReal (zigNormal u) := by
      have hlt1 : zigNormal u ≤ 1 := by
        rw [zigNormal_eq, exp_le_one_iff]
        nlinarith
      rw [← unif01_lt hlt1]
      apply measure_congr
      have e0 : ∀ᵐ V ∂unif01, V ≠ 0 := by
        unfold unif01
        exact ae_restrict_of_ae (Measure.ae_ne volume 0)
      have e1 : ∀ᵐ V ∂unif01, V ≠ zigNormal u := by
        unfold unif01
        exact ae_restrict_of_ae (Measure.ae_ne volume _)
      filter_upwards [unif01_mem, e0, e1] with V h h0 h1
      apply propext
      change (-log V + -log V ≥ u * u) ↔ V < zigNormal u
      have hV0 : 0 < V := lt_of_le_of_ne h.1 (Ne.symm h0)
      rw [lt_iff_le_and_ne, and_iff_left h1, zigNormal_eq, ← log_le_iff_le_exp hV0]
      constructor <;> intro h <;> nlinarith
    rw [hset, hV, ← ENNReal.ofReal_mul (by positivity), ← ENNReal.ofReal_mul (by positivity)]
    congr 1
    rw [abs_mul, abs_neg, abs_of_pos hr, abs_of_pos (exp_pos _), mul_assoc, mul_assoc, zigNormal_eq, zigNormal_eq,
      ← exp_add, ← exp_add]
    congr 2
    ring
  · rw [Set.indicator_of_notMem hc]
    have hset : Prod.mk (exp (-(zigR * u))) ⁻¹' {d | ∃ u ∈ C, zigTailBody d = some u} = ∅ := by
      ext V
      simp only [Set.mem_preimage, Set.mem_ofPred_eq, zigTail_some, hu', Set.mem_empty_iff_false, iff_false]
      rintro ⟨_, h, rfl, -⟩
      exact hc h
    rw [hset, measure_empty, mul_zero]

/-- The integral of the tail. -/
theorem tail_lintegral (C : Set ℝ) (hC : MeasurableSet C) :
    ∫⁻ u in Set.Ioi 0 ∩ (fun u => u + zigR) ⁻¹' C, ENNReal.ofReal (zigNormal (u + zigR)) =
      ∫⁻ x in Set.Ioi zigR ∩ C, ENNReal.ofReal (zigNormal x) := by
  have hm : Measurable fun u : ℝ => u + zigR := measurable_add_const _
  rw [← lintegral_indicator (measurableSet_Ioi.inter (hm hC)), ← lintegral_indicator (measurableSet_Ioi.inter hC)]
  rw [← lintegral_add_right_eq_self ((Set.Ioi zigR ∩ C).indicator fun x => ENNReal.ofReal (zigNormal x)) zigR]
  apply lintegral_congr
  intro u
  have : u ∈ Set.Ioi 0 ∩ (fun u => u + zigR) ⁻¹' C ↔ u + zigR ∈ Set.Ioi zigR ∩ C := by
    simp [Set.mem_inter_iff]
  by_cases h : u ∈ Set.Ioi 0 ∩ (fun u => u + zigR) ⁻¹' C
  · rw [Set.indicator_of_mem h, Set.indicator_of_mem (this.1 h)]
  · rw [Set.indicator_of_notMem h, Set.indicator_of_notMem (fun h' => h (this.2 h'))]

theorem tail_total : ∫⁻ x in Set.Ioi zigR, ENNReal.ofReal (zigNormal x) = ENNReal.ofReal (zigNormalIntegral zigR) := by
  rw [zigNormalIntegral_eq, ofReal_integral_eq_lintegral_ofReal zigNormal_integrable.integrableOn
    (Filter.Eventually.of_forall fun x => (zigNormal_pos x).le)]

theorem tail_total_pos : 0 < zigNormalIntegral zigR := by
  rw [← ENNReal.ofReal_pos, ← tail_total]
  rw [lintegral_pos_iff_support measurable_zigNormal.ennreal_ofReal]
  have : Function.support (fun x => ENNReal.ofReal (zigNormal x)) = Set.univ := by
    ext x
    simp [zigNormal_pos x]
  rw [this, Measure.restrict_apply MeasurableSet.univ, Set.univ_inter, Real.volume_Ioi]
  simp

/-- The law of the loop for the tail. -/
theorem tail_law {B : Set ℝ} (hB : MeasurableSet B) :
    stream (unif01.prod unif01) {w | ∃ a ∈ B, ((untilSome zigTailBody w).map fun u => u + zigR) = some a} =
      (∫⁻ x in Set.Ioi zigR ∩ B, ENNReal.ofReal (zigNormal x)) / ENNReal.ofReal (zigNormalIntegral zigR) := by
  have hm : Measurable fun u : ℝ => u + zigR := measurable_add_const _
  have hset : {w | ∃ a ∈ B, ((untilSome zigTailBody w).map fun u => u + zigR) = some a} =
      {w | ∃ a ∈ (fun u => u + zigR) ⁻¹' B, untilSome zigTailBody w = some a} := by
    ext w
    simp only [Set.mem_ofPred_eq, Set.mem_preimage]
    rcases untilSome zigTailBody w with _ | u <;> simp
  rw [hset, untilSome_law _ _ _ (measurableSet_tail (hm hB)) measurableSet_tail_none, tail_round (hm hB),
    tail_lintegral B hB]
  have huniv : {x | zigTailBody x ≠ none} = {d | ∃ u ∈ (fun u => u + zigR) ⁻¹' Set.univ, zigTailBody d = some u} := by
    ext d
    simp only [Set.mem_ofPred_eq, Set.preimage_univ, Set.mem_univ, true_and]
    rcases zigTailBody d with _ | z <;> simp
  rw [huniv, tail_round (hm MeasurableSet.univ), tail_lintegral _ MeasurableSet.univ, Set.inter_univ, tail_total]
  have hr := zigR_pos
  rw [ENNReal.mul_div_mul_left _ _ _ ENNReal.ofReal_ne_top]
  rw [Ne, ENNReal.ofReal_eq_zero, not_le]
  positivity

theorem measurableSet_tail_loop {B : Set ℝ} (hB : MeasurableSet B) :
    MeasurableSet {w | ∃ a ∈ B, ((untilSome zigTailBody w).map fun u => u + zigR) = some a} := by
  have hm : Measurable fun u : ℝ => u + zigR := measurable_add_const _
  have hset : {w | ∃ a ∈ B, ((untilSome zigTailBody w).map fun u => u + zigR) = some a} =
      ⋃ n, returnsAt zigTailBody ((fun u => u + zigR) ⁻¹' B) n := by
    ext w
    rw [Set.mem_iUnion, ← untilSome_mem_iff]
    simp only [Set.mem_ofPred_eq, Set.mem_preimage]
    rcases untilSome zigTailBody w with _ | u <;> simp
  rw [hset]
  refine MeasurableSet.iUnion fun n => MeasurableSet.pi (Finset.countable_toSet _) fun i _ => ?_
  split
  · exact measurableSet_tail (hm hB)
  · exact measurableSet_tail_none

/-- The law of the outermost layer, times the area of a layer. -/
theorem mag_zero {B : Set ℝ} (hB : MeasurableSet B) :
    magDraws (magSet 0 B) = ENNReal.ofReal zigV⁻¹ *
      ∫⁻ x in Set.Ici 0 ∩ B, ENNReal.ofReal (min (zigNormal zigR) (zigNormal x)) := by
  have hr := zigR_pos
  have hv := zigV_pos
  have hf := zigNormal_pos zigR
  have hI := tail_total_pos
  have eK : zigK 0 = zigR * zigNormal zigR / zigV := by unfold zigK; rw [if_pos rfl]
  have eW : zigW 0 = zigV / zigNormal zigR := by unfold zigW; rw [if_pos rfl]
  have hW : 0 < zigW 0 := by rw [eW]; positivity
  have hKW : zigK 0 * zigW 0 = zigR := by rw [eK, eW]; field_simp
  have hK1 : zigK 0 ≤ 1 := by
    rw [eK, div_le_one hv]
    unfold zigV
    linarith
  have hset : magSet 0 B = ({t | t < zigK 0 ∧ t * zigW 0 ∈ B} ×ˢ Set.univ) ∪
      ({t | ¬ t < zigK 0} ×ˢ (Set.univ ×ˢ
        {w | ∃ a ∈ B, ((untilSome zigTailBody w).map fun u => u + zigR) = some a})) := by
    ext ⟨t, r, w⟩
    unfold magSet zigMag
    by_cases ht : t < zigK 0
    · simp [ht]
    · simp only [Set.mem_ofPred_eq, ht, if_false, if_true, Set.mem_union, Set.mem_prod, false_and, not_false_eq_true,
        Set.mem_univ, true_and, false_or]
  have hmt : MeasurableSet {t : ℝ | t < zigK 0} := measurableSet_Iio
  have hmB : MeasurableSet {t : ℝ | t * zigW 0 ∈ B} := measurable_mul_const _ hB
  rw [hset, measure_union]
  · rw [Measure.prod_prod, Measure.prod_prod, Measure.prod_prod, measure_univ, measure_univ, mul_one, one_mul, tail_law hB]
    have hcompl : {t | ¬ t < zigK 0} = {t | t < zigK 0}ᶜ := rfl
    rw [hcompl, prob_compl_eq_one_sub hmt, unif01_lt hK1, ← ENNReal.ofReal_one, ← ENNReal.ofReal_sub _ (by
      rw [eK]; positivity)]
    have h1 : 1 - zigK 0 = zigV⁻¹ * zigNormalIntegral zigR := by
      rw [eK]
      field_simp
      unfold zigV
      ring
    rw [h1, ENNReal.ofReal_mul (by positivity), mul_assoc, ENNReal.mul_div_cancel (by
      rw [Ne, ENNReal.ofReal_eq_zero, not_le]; exact hI) ENNReal.ofReal_ne_top]
    have hmin : Measurable fun x => ENNReal.ofReal (min (zigNormal zigR) (zigNormal x)) :=
      (measurable_const.min measurable_zigNormal).ennreal_ofReal
    have hsplit : ∫⁻ x in Set.Ici 0 ∩ B, ENNReal.ofReal (min (zigNormal zigR) (zigNormal x)) =
        (∫⁻ x in Set.Ico 0 zigR ∩ B, ENNReal.ofReal (min (zigNormal zigR) (zigNormal x))) +
          ∫⁻ x in Set.Ici zigR ∩ B, ENNReal.ofReal (min (zigNormal zigR) (zigNormal x)) := by
      rw [← lintegral_union (measurableSet_Ici.inter hB)]
      · rw [← Set.union_inter_distrib_right, Set.Ico_union_Ici_eq_Ici hr.le]
      · rw [Set.disjoint_left]
        rintro x ⟨hx, -⟩ ⟨hx', -⟩
        exact absurd hx.2 (not_lt.2 hx')
    rw [hsplit, mul_add]
    congr 1
    · -- the rectangle
      have h2 : ∀ t, ({t : ℝ | t < zigK 0 ∧ t * zigW 0 ∈ B}).indicator (1 : ℝ → ENNReal) t =
          (Set.Iio zigR ∩ B).indicator 1 (t * zigW 0) := by
        intro t
        have : t ∈ {t : ℝ | t < zigK 0 ∧ t * zigW 0 ∈ B} ↔ t * zigW 0 ∈ Set.Iio zigR ∩ B := by
          rw [Set.mem_ofPred_eq, Set.mem_inter_iff, Set.mem_Iio, ← hKW, mul_lt_mul_iff_left₀ hW]
        by_cases h : t ∈ {t : ℝ | t < zigK 0 ∧ t * zigW 0 ∈ B}
        · rw [Set.indicator_of_mem h, Set.indicator_of_mem (this.1 h)]; rfl
        · rw [Set.indicator_of_notMem h, Set.indicator_of_notMem (fun h' => h (this.2 h'))]
      rw [← lintegral_indicator_one (by exact hmt.inter hmB)]
      simp_rw [h2]
      rw [unif01_scale hW (measurable_one.indicator (measurableSet_Iio.inter hB)),
        lintegral_indicator_one (measurableSet_Iio.inter hB), Measure.restrict_apply (measurableSet_Iio.inter hB)]
      have hrW : zigR ≤ zigW 0 := by rw [← hKW]; nlinarith
      have h3 : Set.Iio zigR ∩ B ∩ Set.Ico 0 (zigW 0) = Set.Ico 0 zigR ∩ B := by
        ext x
        simp only [Set.mem_inter_iff, Set.mem_Iio, Set.mem_Ico]
        constructor
        · rintro ⟨⟨a, b⟩, c, -⟩; exact ⟨⟨c, a⟩, b⟩
        · rintro ⟨⟨c, a⟩, b⟩; exact ⟨⟨a, b⟩, c, by linarith⟩
      rw [h3]
      have h4 : ∫⁻ x in Set.Ico 0 zigR ∩ B, ENNReal.ofReal (min (zigNormal zigR) (zigNormal x)) =
          ∫⁻ _ in Set.Ico 0 zigR ∩ B, ENNReal.ofReal (zigNormal zigR) := by
        apply setLIntegral_congr_fun (measurableSet_Ico.inter hB)
        rintro x ⟨hx, -⟩
        dsimp only
        rw [min_eq_left (zigNormal_anti hx.1 hx.2.le)]
      rw [h4, setLIntegral_const, ← mul_assoc, ← ENNReal.ofReal_mul (by positivity), eW, inv_div, div_eq_inv_mul]
    · -- the tail
      congr 1
      have h5 : ∫⁻ x in Set.Ici zigR ∩ B, ENNReal.ofReal (min (zigNormal zigR) (zigNormal x)) =
          ∫⁻ x in Set.Ici zigR ∩ B, ENNReal.ofReal (zigNormal x) := by
        apply setLIntegral_congr_fun (measurableSet_Ici.inter hB)
        rintro x ⟨hx, -⟩
        dsimp only
        rw [min_eq_right (zigNormal_anti hr.le hx)]
      rw [h5]
      exact setLIntegral_congr (Ioi_ae_eq_Ici.inter (Filter.EventuallyEq.refl _ _))
  · rw [Set.disjoint_left]
    rintro ⟨t, p⟩ ⟨h1, -⟩ ⟨h2, -⟩
    exact h2 h1.1
  · exact (hmt.compl).prod (MeasurableSet.univ.prod (measurableSet_tail_loop hB))

/-! ## All layers -/

/-- The area of the layers `i + 1, ..., 127` and `0` over `B`. -/
noncomputable def zigArea (i : ℕ) (B : Set ℝ) : ENNReal :=
  ∫⁻ x in Set.Ici 0 ∩ B, ENNReal.ofReal (min (zigNormal (zigX i)) (zigNormal x))

theorem mag_step {i : ℕ} (h1 : 2 ≤ i) (h2 : i ≤ 127) {B : Set ℝ} (hB : MeasurableSet B) :
    magDraws (magSet i B) + ENNReal.ofReal zigV⁻¹ * zigArea i B = ENNReal.ofReal zigV⁻¹ * zigArea (i - 1) B := by
  have hp := zigX_pos (i := i) (by omega)
  have hl := zigNormal_layer h1 h2
  rw [mag_layer h1 h2 hB, ← mul_add]
  congr 1
  unfold zigArea
  have hm1 : Measurable fun x => ENNReal.ofReal (min (zigNormal (zigX (i - 1))) (zigNormal x) - zigNormal (zigX i)) :=
    ((measurable_const.min measurable_zigNormal).sub_const _).ennreal_ofReal
  have hm2 : Measurable fun x => ENNReal.ofReal (min (zigNormal (zigX i)) (zigNormal x)) :=
    (measurable_const.min measurable_zigNormal).ennreal_ofReal
  have hext : ∫⁻ x in Set.Ico 0 (zigX i) ∩ B,
      ENNReal.ofReal (min (zigNormal (zigX (i - 1))) (zigNormal x) - zigNormal (zigX i)) =
      ∫⁻ x in Set.Ici 0 ∩ B,
        ENNReal.ofReal (min (zigNormal (zigX (i - 1))) (zigNormal x) - zigNormal (zigX i)) := by
    rw [← lintegral_indicator (measurableSet_Ico.inter hB), ← lintegral_indicator (measurableSet_Ici.inter hB)]
    apply lintegral_congr
    intro x
    by_cases h : x ∈ Set.Ico 0 (zigX i) ∩ B
    · rw [Set.indicator_of_mem h, Set.indicator_of_mem (s := Set.Ici 0 ∩ B) (Set.mem_inter h.1.1 h.2)]
    · rw [Set.indicator_of_notMem h]
      by_cases h' : x ∈ Set.Ici 0 ∩ B
      · rw [Set.indicator_of_mem h']
        have hx : zigX i ≤ x := by
          by_contra hc
          exact h ⟨⟨h'.1, not_le.1 hc⟩, h'.2⟩
        have := zigNormal_anti hp.le hx
        symm
        rw [ENNReal.ofReal_eq_zero, sub_nonpos]
        exact (min_le_right _ _).trans this
      · rw [Set.indicator_of_notMem h']
  rw [hext, ← lintegral_add_left hm1]
  apply setLIntegral_congr_fun (measurableSet_Ici.inter hB)
  rintro x ⟨hx, -⟩
  dsimp only
  have hpos : 0 ≤ min (zigNormal (zigX i)) (zigNormal x) := le_min (zigNormal_pos _).le (zigNormal_pos _).le
  rcases le_total (zigNormal x) (zigNormal (zigX i)) with hle | hle
  · rw [min_eq_right hle, min_eq_right (hle.trans hl.le)]
    rw [ENNReal.ofReal_of_nonpos (by linarith), zero_add]
  · rw [min_eq_left hle, ← ENNReal.ofReal_add]
    · congr 1; ring
    · rw [sub_nonneg]; exact le_min hl.le hle
    · exact (zigNormal_pos _).le

theorem mag_sum_aux {B : Set ℝ} (hB : MeasurableSet B) (k : ℕ) (hk : k ≤ 126) :
    magDraws (magSet 0 B) + ∑ j ∈ Finset.range k, magDraws (magSet (127 - j) B) =
      ENNReal.ofReal zigV⁻¹ * zigArea (127 - k) B := by
  induction k with
  | zero =>
    rw [Finset.range_zero, Finset.sum_empty, add_zero, mag_zero hB]
    rfl
  | succ k ih =>
    rw [Finset.sum_range_succ, ← add_assoc, ih (by omega), add_comm, mag_step (by omega) (by omega) hB]
    congr 2

/-- The density of the absolute value, up to a constant: too large by `v / x_1 - (e(x) - e(x_1))` in the
innermost layer. -/
noncomputable def zigDensity (x : ℝ) : ENNReal :=
  ENNReal.ofReal (min (zigNormal (zigX 1)) (zigNormal x)) + (if |x| < zigX 1 then ENNReal.ofReal (zigV / zigX 1) else 0)

theorem measurable_zigDensity : Measurable zigDensity := by
  unfold zigDensity
  refine Measurable.add (measurable_const.min measurable_zigNormal).ennreal_ofReal ?_
  refine Measurable.ite ?_ measurable_const measurable_const
  exact measurableSet_lt measurable_norm measurable_const

theorem mag_sum {B : Set ℝ} (hB : MeasurableSet B) :
    ∑ i : Fin 128, magDraws (magSet i B) = ENNReal.ofReal zigV⁻¹ * ∫⁻ x in Set.Ici 0 ∩ B, zigDensity x := by
  have hp := zigX_pos (i := 1) le_rfl
  have hv := zigV_pos
  have h1 := mag_sum_aux hB 126 le_rfl
  have hsum : ∑ i : Fin 128, magDraws (magSet i B) =
      (magDraws (magSet 0 B) + ∑ j ∈ Finset.range 126, magDraws (magSet (127 - j) B)) + magDraws (magSet 1 B) := by
    rw [Fin.sum_univ_eq_sum_range (fun i => magDraws (magSet i B)) 128, Finset.sum_range_succ', add_comm _ (magDraws (magSet 0 B)),
      ← Finset.sum_range_reflect, Finset.sum_range_succ, ← add_assoc]
    congr 2
  rw [hsum, h1, mag_one hB]
  unfold zigDensity zigArea
  rw [lintegral_add_left (measurable_const.min measurable_zigNormal).ennreal_ofReal, mul_add]
  congr 1
  have : ∫⁻ x in Set.Ici 0 ∩ B, (if |x| < zigX 1 then ENNReal.ofReal (zigV / zigX 1) else 0) =
      ENNReal.ofReal (zigV / zigX 1) * volume (Set.Ico 0 (zigX 1) ∩ B) := by
    rw [← setLIntegral_const, ← lintegral_indicator (measurableSet_Ici.inter hB),
      ← lintegral_indicator (measurableSet_Ico.inter hB)]
    apply lintegral_congr
    intro x
    by_cases h : x ∈ Set.Ico 0 (zigX 1) ∩ B
    · rw [Set.indicator_of_mem h, Set.indicator_of_mem (s := Set.Ici 0 ∩ B) (Set.mem_inter h.1.1 h.2), if_pos (by rw [abs_of_nonneg h.1.1]; exact h.1.2)]
    · rw [Set.indicator_of_notMem h]
      by_cases h' : x ∈ Set.Ici 0 ∩ B
      · rw [Set.indicator_of_mem h', if_neg]
        intro hx
        rw [abs_of_nonneg h'.1] at hx
        exact h ⟨⟨h'.1, hx⟩, h'.2⟩
      · rw [Set.indicator_of_notMem h']
  rw [this, ← mul_assoc, ← ENNReal.ofReal_mul (by positivity)]
  congr 2
  field_simp

/-! ## One round -/

theorem measurableSet_mag (i : ℕ) {B : Set ℝ} (hB : MeasurableSet B) : MeasurableSet (magSet i B) := by
  have m1 : Measurable fun d : ℝ × ℝ × (ℕ → ℝ × ℝ) => d.1 * zigW i := by fun_prop
  have m2 : MeasurableSet {d : ℝ × ℝ × (ℕ → ℝ × ℝ) | d.1 < zigK i} := measurableSet_lt measurable_fst measurable_const
  have m3 : MeasurableSet {d : ℝ × ℝ × (ℕ → ℝ × ℝ) |
      d.2.1 * (zigF (i - 1) - zigF i) < zigNormal (d.1 * zigW i) - zigF i} := by
    apply measurableSet_lt
    · fun_prop
    · exact (measurable_zigNormal.comp m1).sub_const _
  have m4 : MeasurableSet {d : ℝ × ℝ × (ℕ → ℝ × ℝ) |
      ∃ a ∈ B, ((untilSome zigTailBody d.2.2).map fun u => u + zigR) = some a} :=
    (measurable_snd.comp measurable_snd) (measurableSet_tail_loop hB)
  have : magSet i B = ({d | d.1 < zigK i} ∩ {d | d.1 * zigW i ∈ B}) ∪ ({d | d.1 < zigK i}ᶜ ∩
      (if i = 0 then {d | ∃ a ∈ B, ((untilSome zigTailBody d.2.2).map fun u => u + zigR) = some a} else
        {d | d.2.1 * (zigF (i - 1) - zigF i) < zigNormal (d.1 * zigW i) - zigF i} ∩ {d | d.1 * zigW i ∈ B})) := by
    ext d
    unfold magSet zigMag
    by_cases hk : d.1 < zigK i
    · simp [hk]
    · by_cases hi : i = 0
      · subst hi; simp [hk]
      · by_cases hc : d.2.1 * (zigF (i - 1) - zigF i) < zigNormal (d.1 * zigW i) - zigF i
        · simp [hk, hi, hc]
        · simp [hk, hi, hc]
  rw [this]
  refine (m2.inter (m1 hB)).union (m2.compl.inter ?_)
  split
  · exact m4
  · exact m3.inter (m1 hB)

/-- The draws on which a round returns a number in `A`. -/
def zigHit (A : Set ℝ) : Set (Bool × Fin 128 × ℝ × ℝ × (ℕ → ℝ × ℝ)) := {d | ∃ a ∈ A, zigBody d = some a}

theorem zigHit_mem (A : Set ℝ) (b : Bool) (i : Fin 128) (d : ℝ × ℝ × (ℕ → ℝ × ℝ)) :
    (b, i, d) ∈ zigHit A ↔ d ∈ magSet i ((fun x => if b then -x else x) ⁻¹' A) := by
  unfold zigHit magSet
  rw [Set.mem_ofPred_eq, Set.mem_ofPred_eq, zigBody_eq]
  rcases zigMag i d with _ | x <;> simp

theorem measurable_sign (b : Bool) : Measurable fun x : ℝ => if b then -x else x := by
  cases b
  · exact measurable_id
  · simpa using measurable_neg

theorem measurableSet_hit {A : Set ℝ} (hA : MeasurableSet A) : MeasurableSet (zigHit A) := by
  have : zigHit A = ⋃ b : Bool, ⋃ i : Fin 128, ({b} ×ˢ ({i} ×ˢ magSet i ((fun x => if b then -x else x) ⁻¹' A))) := by
    ext ⟨b, i, d⟩
    rw [zigHit_mem]
    simp only [Set.mem_iUnion, Set.mem_prod, Set.mem_singleton_iff]
    constructor
    · intro h; exact ⟨b, i, rfl, rfl, h⟩
    · rintro ⟨b, i, rfl, rfl, h⟩; exact h
  rw [this]
  refine MeasurableSet.iUnion fun b => MeasurableSet.iUnion fun i => ?_
  exact (measurableSet_singleton b).prod ((measurableSet_singleton i).prod (measurableSet_mag i (measurable_sign b hA)))

/-- The law of a round. -/
theorem zig_round {A : Set ℝ} (hA : MeasurableSet A) :
    zigDraws (zigHit A) = 2⁻¹ * (128⁻¹ * ENNReal.ofReal zigV⁻¹) * ∫⁻ x in A, zigDensity x := by
  have hS := measurableSet_hit hA
  have hlayer : ∀ b : Bool, (unifLayer.prod magDraws) (Prod.mk b ⁻¹' zigHit A) =
      128⁻¹ * (ENNReal.ofReal zigV⁻¹ * ∫⁻ x in Set.Ici 0 ∩ (fun x => if b then -x else x) ⁻¹' A, zigDensity x) := by
    intro b
    rw [Measure.prod_apply (hS.preimage measurable_prodMk_left)]
    unfold unifLayer
    rw [lintegral_smul_measure, lintegral_count, tsum_fintype, smul_eq_mul, ← mag_sum (measurable_sign b hA)]
    congr 1
    apply Finset.sum_congr rfl
    intro i _
    congr 1
    ext d
    exact zigHit_mem A b i d
  unfold zigDraws
  rw [Measure.prod_apply hS]
  have h2 : ∀ b : Bool, (unifLayer.prod (unif01.prod (unif01.prod (stream (unif01.prod unif01)))))
      (Prod.mk b ⁻¹' zigHit A) = _ := hlayer
  simp_rw [h2]
  unfold coin
  rw [lintegral_smul_measure, lintegral_add_measure, lintegral_dirac, lintegral_dirac, smul_eq_mul]
  rw [← mul_add, ← mul_add, mul_assoc, mul_assoc]
  congr 3
  simp only [Bool.false_eq_true, if_false, if_true]
  have hneg : ∫⁻ x in Set.Ici 0 ∩ (fun x => -x) ⁻¹' A, zigDensity x = ∫⁻ x in Set.Iic 0 ∩ A, zigDensity x := by
    rw [← lintegral_indicator (measurableSet_Ici.inter (measurable_neg hA)), ← lintegral_indicator (measurableSet_Iic.inter hA),
      ← lintegral_neg_eq_self]
    apply lintegral_congr
    intro x
    have he : zigDensity (-x) = zigDensity x := by
      unfold zigDensity
      rw [abs_neg, zigNormal_eq (-x), zigNormal_eq x, neg_sq]
    have : -x ∈ Set.Ici 0 ∩ (fun x => -x) ⁻¹' A ↔ x ∈ Set.Iic 0 ∩ A := by simp
    by_cases h : x ∈ Set.Iic 0 ∩ A
    · rw [Set.indicator_of_mem h, Set.indicator_of_mem (this.2 h), he]
    · rw [Set.indicator_of_notMem h, Set.indicator_of_notMem (fun h' => h (this.1 h'))]
  have hid : (fun x : ℝ => x) ⁻¹' A = A := rfl
  rw [hneg, hid]
  have hio : ∫⁻ x in Set.Ici 0 ∩ A, zigDensity x = ∫⁻ x in Set.Ioi 0 ∩ A, zigDensity x :=
    (setLIntegral_congr (Ioi_ae_eq_Ici.inter (Filter.EventuallyEq.refl _ _))).symm
  rw [hio, ← lintegral_union (measurableSet_Iic.inter hA)]
  · rw [← Set.union_inter_distrib_right, Set.union_comm, Set.Iic_union_Ioi, Set.univ_inter]
  · rw [Set.disjoint_left]
    rintro x ⟨hx, -⟩ ⟨hx', -⟩
    exact absurd (show (0 : ℝ) < x from hx) (not_lt.2 hx')

end Ringo
