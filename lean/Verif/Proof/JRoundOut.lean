import Verif.Proof.JRoundLog
import Verif.Props.JParams
import Mathlib.Analysis.Convex.SpecificFunctions.Basic

/-! # Rounding errors of `NewParameters`: one iteration -/

namespace Ringo

open Real

namespace NPVars
variable {V : NPVars}

theorem inCutOffInf_ge' (h : V.Ok) {mu : Nat} (hmu : 1 ≤ mu) : 84 ≤ V.inCutOffInf mu := by
  unfold inCutOffInf
  rw [scaleDown_eq]
  have hf := batchFac_ge h
  have hc := cOne_ge h
  have hd := h.d
  have hmu' : (1 : ℝ) ≤ mu := by exact_mod_cast hmu
  have hn : 1 ≤ √V.n := by rw [Real.one_le_sqrt]; exact h.n
  have hn1 : 1 ≤ √(V.n + 1) := by rw [Real.one_le_sqrt]; linarith [h.n]
  have hs : 0 < √(mu * V.d) := Real.sqrt_pos.mpr (by positivity)
  rw [le_div_iff₀ (by linarith), le_div_iff₀ (by positivity)]
  refine le_trans ?_ (resTwo_ge_mlwe V mu)
  rw [resMLWEInf_eq]
  have h1 : √(mu * V.d) ≤ √(V.d * (mu + V.nu)) := by
    apply Real.sqrt_le_sqrt; have := h.nu; nlinarith
  have h2 : (84 : ℝ) ≤ 60 * √2 := by
    have : (1.4 : ℝ) ≤ √2 := by rw [Real.le_sqrt' (by norm_num)]; norm_num
    linarith
  have h3 : 1 + √V.n * V.cOne ≤ V.cOne * (√V.n + √(V.n + 1)) := by nlinarith
  calc 84 * V.batchFac * ((1 + √V.n * V.cOne) * √(mu * V.d))
      = √(mu * V.d) * (84 * (1 + √V.n * V.cOne) * V.batchFac) := by ring
    _ ≤ √(V.d * (mu + V.nu)) * (60 * √2 * (V.cOne * (√V.n + √(V.n + 1))) * V.batchFac) := by
      gcongr
    _ = _ := by ring

/-- The bound for decompositions, for a given inner modulus. -/
noncomputable def dcmpTwoOf (V : NPVars) (q : ℝ) (mu : Nat) : ℝ :=
  √((V.n + 1) * mu * V.d) * V.scaleUp (q / V.inCutOffInf mu)

/-- The outer norm bound, for a given inner modulus. -/
noncomputable def outBetaOf (V : NPVars) (q : ℝ) (mu : Nat) : ℝ :=
  2 * V.dExtOne * (2 * (V.dcmpTwoOf q mu + V.dcmpTwoOf q mu))

/-- The outer cut-off, for a given inner modulus. -/
noncomputable def outCutOf (V : NPVars) (q : ℝ) (mu : Nat) (r : ℤ) : ℝ :=
  V.scaleDown (V.dcmpTwoOf q mu / √(r * V.d))

theorem dExtOne_ge (hV : V.Ok) : 1 ≤ V.dExtOne := by
  have hc := cOne_ge hV
  unfold dExtOne; split <;> linarith

theorem dcmpTwoOf_facts (hV : V.Ok) {mu : Nat} (h1 : 1 ≤ mu) {q : ℝ}
    (hq : V.inMSISBeta mu ≤ q * (1 + 1 / 2 ^ 40)) :
    √V.d * (15 * V.batchFac) ≤ V.dcmpTwoOf q mu ∧ 240 ≤ V.dcmpTwoOf q mu ∧
    8 * V.dcmpTwoOf q mu ≤ 2 * V.outBetaOf q mu ∧ 4 * (V.dcmpTwoOf q mu + V.dcmpTwoOf q mu) ≤ V.outBetaOf q mu := by
  have hmu : (1 : ℝ) ≤ mu := by exact_mod_cast h1
  have hc := cOne_ge hV
  have hf := batchFac_ge hV
  have hd := hV.d
  have hn := hV.n
  have hcut1 := inCutOffInf_ge' hV h1
  have hcut2 := inCutOffInf_le hV h1
  have hqcut : 15 * V.inCutOffInf mu ≤ q := by
    have h2 : 16 * V.inCutOffInf mu ≤ q * (1 + 1 / 2 ^ 40) := by
      refine le_trans ?_ hq
      rw [inMSISBeta_eq]
      have := inFac_ge hV
      nlinarith
    by_contra hc
    push Not at hc
    nlinarith
  have hdinf : 15 * V.batchFac ≤ V.scaleUp (q / V.inCutOffInf mu) := by
    rw [scaleUp_eq]
    have : 15 ≤ q / V.inCutOffInf mu := by
      rw [le_div_iff₀ (by linarith)]; exact hqcut
    nlinarith
  have hsq : √V.d ≤ √((V.n + 1) * mu * V.d) := by
    apply Real.sqrt_le_sqrt
    have : 1 ≤ (V.n + 1) * mu := by nlinarith
    nlinarith
  have hsd : 16 ≤ √V.d := by rw [Real.le_sqrt' (by norm_num)]; linarith
  have hdtwo : √V.d * (15 * V.batchFac) ≤ V.dcmpTwoOf q mu := by
    unfold dcmpTwoOf
    have := Real.sqrt_nonneg V.d
    have : 0 ≤ 15 * V.batchFac := by linarith
    gcongr
  have hdpos : 240 ≤ V.dcmpTwoOf q mu := by
    refine le_trans ?_ hdtwo; nlinarith
  have hdx := dExtOne_ge hV
  refine ⟨hdtwo, hdpos, ?_, ?_⟩ <;> (unfold outBetaOf; nlinarith)

end NPVars

/-! ## Logarithms -/

theorem logb_add_le {x y : ℝ} (hx : 0 < x) (hy : y ≤ x * (1 + 1 / 2 ^ 40)) (hy0 : 0 < y) :
    logb 2 y ≤ logb 2 x + 2 / 2 ^ 40 := by
  have hl2 := Real.log_two_gt_d9
  have h1 : logb 2 y ≤ logb 2 (x * (1 + 1 / 2 ^ 40)) := Real.logb_le_logb_of_le (by norm_num) hy0 hy
  rw [Real.logb_mul hx.ne' (by norm_num)] at h1
  have h2 : logb 2 (1 + 1 / 2 ^ 40) ≤ 2 / 2 ^ 40 := by
    rw [Real.logb, div_le_iff₀ (by linarith)]
    have := Real.log_le_sub_one_of_pos (show (0 : ℝ) < 1 + 1 / 2 ^ 40 by norm_num)
    nlinarith
  linarith

theorem logDelta_tol : logb 2 1.005 * (1 + 1 / 2 ^ 40) ^ 3 ≤ logb 2 1.00500001 := by
  have hl2 := Real.log_two_gt_d9
  have hl2' := Real.log_two_lt_d9
  have h1 : logb 2 (1.00500001 : ℝ) = logb 2 1.005 + logb 2 (1.00500001 / 1.005) := by
    rw [← Real.logb_mul (by norm_num) (by norm_num)]; norm_num
  have h2 : 1 / 2 ^ 30 ≤ logb 2 (1.00500001 / 1.005) := by
    rw [Real.logb, le_div_iff₀ (by linarith)]
    have := Real.one_sub_inv_le_log_of_pos (show (0 : ℝ) < 1.00500001 / 1.005 by norm_num)
    refine le_trans ?_ this
    have h3 : (1 : ℝ) / 2 ^ 30 * Real.log 2 ≤ 1 / 2 ^ 30 := by nlinarith
    refine h3.trans ?_
    norm_num
  have h3 : logb 2 (1.005 : ℝ) ≤ 1 := by
    rw [Real.logb_le_iff_le_rpow (by norm_num) (by norm_num), Real.rpow_one]; norm_num
  have h4 : (1 + 1 / 2 ^ 40 : ℝ) ^ 3 ≤ 1 + 4 / 2 ^ 40 := by norm_num
  have h5 := logDelta_ge
  rw [h1]
  calc logb 2 1.005 * (1 + 1 / 2 ^ 40) ^ 3 ≤ logb 2 1.005 * (1 + 4 / 2 ^ 40) := by gcongr
    _ ≤ logb 2 1.005 + 1 / 2 ^ 30 := by nlinarith
    _ ≤ _ := by linarith

theorem msisHardTol_of {d q b beta : ℝ} {M r : ℤ} (hd : 0 < d) (hr : 1 ≤ r) (hM : 1 ≤ M) (hq : q = 2 ^ (M : ℝ))
    (hb : 64 ≤ b) (hbeta : 1 < beta) (hle : beta ≤ b * (1 + 1 / 2 ^ 40))
    (h : logb 2 b ^ 2 ≤ 4 * d * M * logb 2 1.005 * r * (1 + 1 / 2 ^ 40)) :
    RParams.MSISHardTol d q r beta := by
  have hr' : (1 : ℝ) ≤ r := by exact_mod_cast hr
  have hM' : (1 : ℝ) ≤ M := by exact_mod_cast hM
  have h6 : 6 ≤ logb 2 b := by
    rw [Real.le_logb_iff_rpow_le (by norm_num) (by linarith)]
    refine le_trans (le_of_eq ?_) hb
    norm_num
  have h7 := logb_add_le (by linarith) hle (by linarith)
  have h8 : 0 < logb 2 beta := Real.logb_pos (by norm_num) hbeta
  have h9 : logb 2 beta ≤ logb 2 b * (1 + 1 / 2 ^ 40) := by nlinarith
  have h10 : logb 2 beta ^ 2 ≤ 4 * d * M * logb 2 1.00500001 * r := by
    have := logDelta_tol
    calc logb 2 beta ^ 2 ≤ (logb 2 b * (1 + 1 / 2 ^ 40)) ^ 2 := by gcongr
      _ = logb 2 b ^ 2 * (1 + 1 / 2 ^ 40) ^ 2 := by ring
      _ ≤ (4 * d * M * logb 2 1.005 * r * (1 + 1 / 2 ^ 40)) * (1 + 1 / 2 ^ 40) ^ 2 := by gcongr
      _ = 4 * d * M * r * (logb 2 1.005 * (1 + 1 / 2 ^ 40) ^ 3) := by ring
      _ ≤ 4 * d * M * r * logb 2 1.00500001 := by gcongr
      _ = _ := by ring
  unfold RParams.MSISHardTol
  have hlq : logb 2 q = M := by rw [hq, NPVars.logb_two_rpow]
  rw [hlq]
  calc beta = 2 ^ logb 2 beta := (Real.rpow_logb (by norm_num) (by norm_num) (by linarith)).symm
    _ ≤ _ := by
      apply Real.rpow_le_rpow_of_exponent_le (by norm_num)
      have : logb 2 beta / 2 ≤ √(r * d * M * logb 2 1.00500001) := by
        apply Real.le_sqrt_of_sq_le
        nlinarith
      linarith

theorem two_rpow_small {y : ℝ} (h0 : 0 ≤ y) (h1 : y ≤ 1 / 2 ^ 40) : (2 : ℝ) ^ y ≤ 1 + 1 / 2 ^ 40 := by
  have := _root_.rpow_one_add_le_one_add_mul_self (s := 1) (by norm_num) h0 (h1.trans (by norm_num))
  rw [show (1 : ℝ) + 1 = 2 by norm_num] at this
  linarith

section
variable {F : Flt} (hF : F.Ok)
include hF

/-- The logarithm, rounded down. -/
theorem floor_log2 {x : ℝ} (hx : 1 ≤ x) (hx' : x ≤ 2 ^ (250 : ℝ)) :
    (2 : ℝ) ^ ⌊F.log2 x⌋ ≤ x * (1 + 1 / 2 ^ 40) ∧ x ≤ 2 * 2 ^ ⌊F.log2 x⌋ * (1 + 1 / 2 ^ 40) := by
  have h0 : 0 ≤ logb 2 x := Real.logb_nonneg (by norm_num) hx
  have h1 : logb 2 x ≤ 250 := by
    rw [Real.logb_le_iff_le_rpow (by norm_num) (by linarith)]; exact hx'
  have h := hF.log2_err x (by linarith)
  rw [abs_of_nonneg h0, abs_le] at h
  have hsm : (1 + logb 2 x) / 2 ^ 50 ≤ 1 / 2 ^ 40 := by
    rw [div_le_div_iff₀ (by norm_num) (by norm_num)]
    nlinarith
  have hnn : 0 ≤ (1 + logb 2 x) / 2 ^ 50 := by positivity
  have hsmall := two_rpow_small hnn hsm
  have hxx : (2 : ℝ) ^ logb 2 x = x := Real.rpow_logb (by norm_num) (by norm_num) (by linarith)
  constructor
  · rw [← Real.rpow_intCast]
    calc (2 : ℝ) ^ ((⌊F.log2 x⌋ : ℤ) : ℝ) ≤ 2 ^ (logb 2 x + (1 + logb 2 x) / 2 ^ 50) := by
          apply Real.rpow_le_rpow_of_exponent_le (by norm_num)
          have := Int.floor_le (F.log2 x)
          linarith
      _ = x * 2 ^ ((1 + logb 2 x) / 2 ^ 50) := by rw [Real.rpow_add (by norm_num), hxx]
      _ ≤ _ := by gcongr
  · calc x = 2 ^ logb 2 x := hxx.symm
      _ ≤ 2 ^ ((1 + (⌊F.log2 x⌋ : ℝ)) + (1 + logb 2 x) / 2 ^ 50) := by
          apply Real.rpow_le_rpow_of_exponent_le (by norm_num)
          have := Int.lt_floor_add_one (F.log2 x)
          linarith
      _ = 2 * 2 ^ ⌊F.log2 x⌋ * 2 ^ ((1 + logb 2 x) / 2 ^ 50) := by
          rw [Real.rpow_add (by norm_num), Real.rpow_add (by norm_num), Real.rpow_one, Real.rpow_intCast]
      _ ≤ _ := by gcongr

theorem one_le_ceil_flog {x : ℝ} (hx : 2 ≤ x) : 1 ≤ ⌈F.log2 x⌉ := by
  rw [Int.one_le_ceil_iff]
  exact (log2_near hF hx).xpos

omit hF in
theorem floop_inv {W : NPVars} {mu : Nat} (h : F.inLoop W = .ok mu) :
    1 ≤ mu ∧ F.log2 (F.inQ W mu) ≤ 240 ∧ F.findMSISRank W.d (F.inQ W mu) (F.inMSISBeta W mu) = .ok mu := by
  obtain ⟨i, h1, h2, -⟩ := forever_ok_inv h
  dsimp only at h2
  split at h2
  · cases h2
  rename_i h3
  obtain ⟨r, h4, h5⟩ := bind_ok_inv h2
  split at h5
  · rename_i h6
    injection h5 with h5
    injection h5 with h5
    subst h5
    push Not at h3
    exact ⟨h1, h3, by rw [h4, h6]⟩
  · cases h5

end

/-- A modulus chosen by the code. -/
structure ModOk (F : Flt) (q : ℝ) (L M : ℤ) : Prop where
  pos' : 1 ≤ L
  eq : M = bitsOf L * limbsOf L
  val : q = 2 ^ (M : ℝ)
  pos : 1 ≤ M
  le : M ≤ 240
  log : F.log2 q = M

section
variable {F : Flt} (hF : F.Ok) {W V : NPVars} (hV : V.Ok) (hW : VarsNear W V) {mu : Nat}
include hF hV hW

theorem finBeta_ge (hmu : 1 ≤ mu) : 64 ≤ F.inMSISBeta W mu := by
  have h1 := (inMSISBeta_near hF hV hW hmu).lower (by norm_num)
  have h2 := NPVars.inCutOffInf_ge' hV hmu
  have h3 := NPVars.inCutOffInf_le hV hmu
  rw [NPVars.inMSISBeta_eq] at h1
  have h4 := NPVars.inFac_ge hV
  nlinarith

/-- What the inner search establishes. -/
theorem finner (hin : F.inLoop W = .ok mu) :
    1 ≤ mu ∧ mu ≤ 33 ∧ ∃ L M, ModOk F (F.inQ W mu) L M ∧ F.inMSISBeta W mu ≤ F.inQ W mu ∧
      logb 2 (F.inMSISBeta W mu) ^ 2 ≤ 4 * V.d * M * logb 2 1.005 * mu * (1 + 1 / 2 ^ 40) := by
  obtain ⟨h1, h2, h3⟩ := floop_inv hin
  have hb := finBeta_ge hF hV hW h1
  have hL := one_le_ceil_flog hF (show 2 ≤ F.inMSISBeta W mu by linarith)
  obtain ⟨m1, m2, m3, m4⟩ := modulus_ok hF hL (q := F.inQ W mu) rfl h2
  rw [hW.d] at h3
  obtain ⟨k1, k2, k3, k4⟩ := frank_ok hF hV.d hb m1 m2 m3 h3
  exact ⟨h1, by exact_mod_cast k3, _, _, ⟨hL, rfl, m1, m4, m2, m3⟩, k1, by exact_mod_cast k4⟩

theorem finDcmpTwo_near (hmu : 1 ≤ mu) (hq : 0 < F.inQ W mu) :
    Near 220 (F.inDcmpTwo W mu) (V.dcmpTwoOf (F.inQ W mu) mu) := by
  unfold Flt.inDcmpTwo Flt.inDcmpInf NPVars.dcmpTwoOf
  have hmu' : (0 : ℝ) < mu := by exact_mod_cast hmu
  have h1 := scaleUp_near hF hV hW ((Near.refl hq).fdiv hF (inCutOffInf_near hF hV hW hmu))
  have h2 : Near 6 (F.sqrt (F.mul (F.mul (F.add W.n 1) (F.round mu)) W.d)) (√((V.n + 1) * mu * V.d)) := by
    rw [hW.n, hW.d]
    exact ((((((Near.refl (by linarith [hV.n])).fadd hF (Near.refl one_pos)).fmul hF (Near.round hF hmu')).fmul hF
      (Near.refl (by linarith [hV.d]))).fsqrt hF)).mono (by norm_num)
  exact (h2.fmul hF h1).mono (by norm_num)

theorem foutBeta_near (hmu : 1 ≤ mu) (hq : 0 < F.inQ W mu) :
    Near 240 (F.outMSISBeta W mu) (V.outBetaOf (F.inQ W mu) mu) := by
  unfold Flt.outMSISBeta NPVars.outBetaOf
  have h1 := finDcmpTwo_near hF hV hW hmu hq
  exact (((Near.refl two_pos).fmul hF (dExtOne_near hF hV hW)).fmul hF
    ((Near.refl two_pos).fmul hF (h1.fadd hF h1))).mono (by norm_num)

theorem foutCut_near (hmu : 1 ≤ mu) (hq : 0 < F.inQ W mu) {r : ℤ} (hr : 1 ≤ r) :
    Near 240 (F.outCutOffInf W mu r) (V.outCutOf (F.inQ W mu) mu r) := by
  unfold Flt.outCutOffInf NPVars.outCutOf
  have hr' : (0 : ℝ) < r := by exact_mod_cast hr
  have h1 := finDcmpTwo_near hF hV hW hmu hq
  refine (scaleDown_near hF hV hW (k := 225) ?_).mono (by norm_num)
  rw [hW.d]
  exact (h1.fdiv hF (((Near.round hF hr').fmul hF (Near.refl (by linarith [hV.d]))).fsqrt hF)).mono (by norm_num)

/-- What the outer search establishes. -/
theorem fouter (hmu : 1 ≤ mu) {L M : ℤ} (hm : ModOk F (F.inQ W mu) L M)
    (hle : F.inMSISBeta W mu ≤ F.inQ W mu) (hout : F.log2 (F.outQ W mu) ≤ 240) {r : ℤ}
    (hrk : F.findMSISRank W.d (F.outQ W mu) (F.outMSISBeta W mu) = .ok r) :
    V.inMSISBeta mu ≤ F.inQ W mu * (1 + 1 / 2 ^ 40) ∧ 64 ≤ F.outMSISBeta W mu ∧
    1 ≤ r ∧ r ≤ 33 ∧ ∃ L' M', ModOk F (F.outQ W mu) L' M' ∧ F.outMSISBeta W mu ≤ F.outQ W mu ∧
      logb 2 (F.outMSISBeta W mu) ^ 2 ≤ 4 * V.d * M' * logb 2 1.005 * r * (1 + 1 / 2 ^ 40) := by
  have hq : 0 < F.inQ W mu := by rw [hm.val]; positivity
  have h1 : V.inMSISBeta mu ≤ F.inQ W mu * (1 + 1 / 2 ^ 40) :=
    ((inMSISBeta_near hF hV hW hmu).lower (by norm_num)).trans (by gcongr)
  obtain ⟨-, d2, -, d4⟩ := NPVars.dcmpTwoOf_facts hV hmu h1
  have hb : 64 ≤ F.outMSISBeta W mu := by
    have := (foutBeta_near hF hV hW hmu hq).lower (by norm_num)
    nlinarith
  have hL := one_le_ceil_flog hF (show 2 ≤ F.outMSISBeta W mu by linarith)
  obtain ⟨m1, m2, m3, m4⟩ := modulus_ok hF hL (q := F.outQ W mu) rfl hout
  rw [hW.d] at hrk
  obtain ⟨k1, k2, k3, k4⟩ := frank_ok hF hV.d hb m1 m2 m3 hrk
  exact ⟨h1, hb, k2, k3, _, _, ⟨hL, rfl, m1, m4, m2, m3⟩, k1, k4⟩

theorem finCut (hmu : 1 ≤ mu) {L M : ℤ} (hm : ModOk F (F.inQ W mu) L M)
    (h1 : V.inMSISBeta mu ≤ F.inQ W mu * (1 + 1 / 2 ^ 40)) :
    6 ≤ ⌊F.log2 (F.inCutOffInf W mu)⌋ ∧
    (1 + √V.n * V.cOne) * √(mu * V.d) * V.batchFac * 2 ^ ⌊F.log2 (F.inCutOffInf W mu)⌋ ≤
      V.resTwo mu * (1 + 1 / 2 ^ 40) ^ 2 ∧
    √((V.n + 1) * mu * V.d) * V.batchFac * (F.inQ W mu / 2 / 2 ^ ⌊F.log2 (F.inCutOffInf W mu)⌋) ≤
      V.dcmpTwoOf (F.inQ W mu) mu * (1 + 1 / 2 ^ 40) ^ 2 := by
  have hmu' : (1 : ℝ) ≤ mu := by exact_mod_cast hmu
  have hc := NPVars.cOne_ge hV
  have hf := NPVars.batchFac_ge hV
  have hd := hV.d
  have hn := hV.n
  have hcut1 := NPVars.inCutOffInf_ge' hV hmu
  have hcut2 := NPVars.inCutOffInf_le hV hmu
  have hnear := inCutOffInf_near hF hV hW hmu
  have u1 := hnear.lower (by norm_num)
  have u2 := hnear.upper (by norm_num)
  have hx : 80 ≤ F.inCutOffInf W mu := by nlinarith
  have hq : F.inQ W mu ≤ 2 ^ (240 : ℝ) := by
    rw [hm.val]
    exact Real.rpow_le_rpow_of_exponent_le (by norm_num) (by exact_mod_cast hm.le)
  have hq0 : 0 < F.inQ W mu := by rw [hm.val]; positivity
  have hx' : F.inCutOffInf W mu ≤ 2 ^ (250 : ℝ) := by
    have hfac := NPVars.inFac_ge hV
    have h2 : 16 * V.inCutOffInf mu ≤ V.inMSISBeta mu := by
      rw [NPVars.inMSISBeta_eq]; nlinarith
    have h3 : F.inCutOffInf W mu ≤ F.inQ W mu := by nlinarith
    exact (h3.trans hq).trans (Real.rpow_le_rpow_of_exponent_le (by norm_num) (by norm_num))
  obtain ⟨f1, f2⟩ := floor_log2 hF (by linarith) hx'
  have hs : 0 < √(mu * V.d) := Real.sqrt_pos.mpr (by nlinarith)
  have hsn := Real.sqrt_nonneg V.n
  have hp : (0 : ℝ) < 2 ^ ⌊F.log2 (F.inCutOffInf W mu)⌋ := by positivity
  refine ⟨?_, ?_, ?_⟩
  · rw [Int.le_floor]
    have h2 : 6.1 ≤ logb 2 (F.inCutOffInf W mu) := by
      have hl2 := Real.log_two_gt_d9
      have hl2' := Real.log_two_lt_d9
      have e1 : logb 2 (F.inCutOffInf W mu) = 6 + logb 2 (F.inCutOffInf W mu / 64) := by
        rw [Real.logb_div (by linarith) (by norm_num), show (64 : ℝ) = 2 ^ (6 : ℝ) by norm_num,
          NPVars.logb_two_rpow]
        ring
      have e2 : 0.1 ≤ logb 2 (F.inCutOffInf W mu / 64) := by
        rw [Real.logb, le_div_iff₀ (by linarith)]
        have e3 := Real.one_sub_inv_le_log_of_pos (show 0 < F.inCutOffInf W mu / 64 by linarith)
        refine le_trans ?_ e3
        have e4 : (F.inCutOffInf W mu / 64)⁻¹ ≤ 0.8 := by
          rw [inv_div, div_le_iff₀ (by linarith)]; linarith
        linarith
      linarith
    have h3 := (log2_near hF (show 2 ≤ F.inCutOffInf W mu by linarith)).lower (by norm_num)
    push_cast
    nlinarith
  · have hxe : V.inCutOffInf mu * ((1 + √V.n * V.cOne) * √(mu * V.d) * V.batchFac) = V.resTwo mu := by
      unfold NPVars.inCutOffInf
      rw [NPVars.scaleDown_eq, div_div, div_mul_cancel₀]
      positivity
    have h0 : 0 ≤ (1 + √V.n * V.cOne) * √(mu * V.d) * V.batchFac := by positivity
    calc _ ≤ ((1 + √V.n * V.cOne) * √(mu * V.d) * V.batchFac) *
          (V.inCutOffInf mu * (1 + 1 / 2 ^ 40) * (1 + 1 / 2 ^ 40)) := by
          gcongr
          exact f1.trans (by gcongr)
      _ = (V.inCutOffInf mu * ((1 + √V.n * V.cOne) * √(mu * V.d) * V.batchFac)) * (1 + 1 / 2 ^ 40) ^ 2 := by ring
      _ = _ := by rw [hxe]
  · unfold NPVars.dcmpTwoOf
    rw [NPVars.scaleUp_eq]
    have h2 : V.inCutOffInf mu ≤ 2 * 2 ^ ⌊F.log2 (F.inCutOffInf W mu)⌋ * (1 + 1 / 2 ^ 40) ^ 2 := by
      calc V.inCutOffInf mu ≤ F.inCutOffInf W mu * (1 + 1 / 2 ^ 40) := u1
        _ ≤ 2 * 2 ^ ⌊F.log2 (F.inCutOffInf W mu)⌋ * (1 + 1 / 2 ^ 40) * (1 + 1 / 2 ^ 40) := by gcongr
        _ = _ := by ring
    have h3 : F.inQ W mu / 2 / 2 ^ ⌊F.log2 (F.inCutOffInf W mu)⌋ ≤
        F.inQ W mu / V.inCutOffInf mu * (1 + 1 / 2 ^ 40) ^ 2 := by
      rw [div_div, div_mul_eq_mul_div, div_le_div_iff₀ (by positivity) (by linarith)]
      calc F.inQ W mu * V.inCutOffInf mu ≤
            F.inQ W mu * (2 * 2 ^ ⌊F.log2 (F.inCutOffInf W mu)⌋ * (1 + 1 / 2 ^ 40) ^ 2) := by gcongr
        _ = _ := by ring
    calc √((V.n + 1) * mu * V.d) * V.batchFac * (F.inQ W mu / 2 / 2 ^ ⌊F.log2 (F.inCutOffInf W mu)⌋) ≤
          √((V.n + 1) * mu * V.d) * V.batchFac * (F.inQ W mu / V.inCutOffInf mu * (1 + 1 / 2 ^ 40) ^ 2) := by
          gcongr
      _ = _ := by ring

theorem foutCut (hmu : 1 ≤ mu) {L M : ℤ} (hm : ModOk F (F.inQ W mu) L M)
    (h1 : V.inMSISBeta mu ≤ F.inQ W mu * (1 + 1 / 2 ^ 40)) {r : ℤ} (l2 : 1 ≤ r) (l3 : r ≤ 33)
    {L' M' : ℤ} (hm' : ModOk F (F.outQ W mu) L' M') (hle' : F.outMSISBeta W mu ≤ F.outQ W mu) :
    0 ≤ ⌊F.log2 (F.outCutOffInf W mu r)⌋ ∧
    √(r * V.d) * V.batchFac * 2 ^ ⌊F.log2 (F.outCutOffInf W mu r)⌋ ≤
      V.dcmpTwoOf (F.inQ W mu) mu * (1 + 1 / 2 ^ 40) ^ 2 := by
  obtain ⟨hdtwo, d2, -, d4⟩ := NPVars.dcmpTwoOf_facts hV hmu h1
  have hq0 : 0 < F.inQ W mu := by rw [hm.val]; positivity
  have hf := NPVars.batchFac_ge hV
  have hd := hV.d
  have l2' : (1 : ℝ) ≤ r := by exact_mod_cast l2
  have l3' : (r : ℝ) ≤ 33 := by exact_mod_cast l3
  have hso : 1 ≤ √(r * V.d) := by rw [Real.one_le_sqrt]; nlinarith
  have hsd : 1 ≤ √V.d := by rw [Real.one_le_sqrt]; linarith
  have hxe : V.outCutOf (F.inQ W mu) mu r * (√(r * V.d) * V.batchFac) = V.dcmpTwoOf (F.inQ W mu) mu := by
    unfold NPVars.outCutOf
    rw [NPVars.scaleDown_eq, div_div, div_mul_cancel₀]
    positivity
  have hge : 2.5 ≤ V.outCutOf (F.inQ W mu) mu r := by
    unfold NPVars.outCutOf
    rw [NPVars.scaleDown_eq, div_div, le_div_iff₀ (by positivity)]
    refine le_trans ?_ hdtwo
    have : √(r * V.d) ≤ 6 * √V.d := by
      rw [show (6 : ℝ) = √(6 ^ 2) by rw [Real.sqrt_sq]; norm_num, ← Real.sqrt_mul (by norm_num)]
      apply Real.sqrt_le_sqrt; nlinarith
    nlinarith
  have hleD : V.outCutOf (F.inQ W mu) mu r ≤ V.dcmpTwoOf (F.inQ W mu) mu := by
    unfold NPVars.outCutOf
    rw [NPVars.scaleDown_eq, div_div]
    exact div_le_self (by linarith) (one_le_mul_of_one_le_of_one_le hso hf)
  have hnear := foutCut_near hF hV hW hmu hq0 l2
  have u1 := hnear.lower (by norm_num)
  have u2 := hnear.upper (by norm_num)
  have hx : 2 ≤ F.outCutOffInf W mu r := by nlinarith
  have hq : F.outQ W mu ≤ 2 ^ (240 : ℝ) := by
    rw [hm'.val]
    exact Real.rpow_le_rpow_of_exponent_le (by norm_num) (by exact_mod_cast hm'.le)
  have hx' : F.outCutOffInf W mu r ≤ 2 ^ (250 : ℝ) := by
    have h3 := (foutBeta_near hF hV hW hmu hq0).lower (by norm_num)
    have h4 : F.outCutOffInf W mu r ≤ F.outQ W mu := by nlinarith
    exact (h4.trans hq).trans (Real.rpow_le_rpow_of_exponent_le (by norm_num) (by norm_num))
  obtain ⟨f1, f2⟩ := floor_log2 hF (by linarith) hx'
  refine ⟨?_, ?_⟩
  · rw [Int.floor_nonneg]
    exact (log2_near hF hx).xpos.le
  · calc _ ≤ (√(r * V.d) * V.batchFac) *
          (V.outCutOf (F.inQ W mu) mu r * (1 + 1 / 2 ^ 40) * (1 + 1 / 2 ^ 40)) := by
          gcongr
          exact f1.trans (by gcongr)
      _ = (V.outCutOf (F.inQ W mu) mu r * (√(r * V.d) * V.batchFac)) * (1 + 1 / 2 ^ 40) ^ 2 := by ring
      _ = _ := by rw [hxe]

end

end Ringo
