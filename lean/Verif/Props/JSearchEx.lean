import Verif.Props.JSearch

/-!
# C126: a search with two candidates

32 coefficients over the field of order 65537: one column of 32 coefficients or two of 16.
-/

namespace Ringo

open Real

section
variable {F : Flt} (hF : F.Ok) {W V : NPVars} (hV : V.Ok) (hW : VarsNear W V) (hd : V.d = 256)

include hF hV hW hd

/-- The inner modulus and rank, if the norm lies strictly between two powers of two. -/
theorem search_inner {j : ℤ} (hj : j = 25 ∨ j = 26) {mu : Nat} (h1 : 1 ≤ mu)
    (b1 : (2 : ℝ) ^ j * 1.003 ≤ V.inMSISBeta mu) (b2 : V.inMSISBeta mu ≤ 2 ^ (j + 1) * 0.997) :
    F.inQ W mu = 2 ^ (j + 1) ∧ F.findMSISRank W.d (F.inQ W mu) (F.inMSISBeta W mu) = .ok 4 := by
  have hn := inMSISBeta_near hF hV hW h1
  have n1 := hn.lower (by norm_num)
  have n2 := hn.upper (by norm_num)
  set beta := F.inMSISBeta W mu with hbeta
  have hp : (2 : ℝ) ^ 25 ≤ 2 ^ j := by
    rcases hj with rfl | rfl <;> norm_num
  have hj1 : (1 : ℤ) ≤ j := by omega
  have c1 : (2 : ℝ) ^ j * 1.001 ≤ beta := by
    have : 0 < (2 : ℝ) ^ j := by positivity
    norm_num at n1 ⊢
    linarith
  have c2 : beta ≤ 2 ^ (j + 1) * 0.999 := by
    have : 0 < (2 : ℝ) ^ (j + 1) := by positivity
    refine n2.trans ?_
    nlinarith
  have hceil : ⌈F.log2 beta⌉ = j + 1 := ceil_flog hF hj1 (by omega) c1 c2
  have hlm := flogModulus hF (by omega) (by omega) hceil
  have hq : F.inQ W mu = 2 ^ (j + 1) := by
    unfold Flt.inQ
    rw [← hbeta, hlm, round_int hF (by rcases hj with rfl | rfl <;> norm_num), hF.exp2_int]
  refine ⟨hq, ?_⟩
  have hbpos : 2 ≤ beta := by nlinarith
  rw [hq, hW.d, hd]
  unfold Flt.findMSISRank
  rw [if_neg (by push Not; have : 0 < (2 : ℝ) ^ (j + 1) := by positivity
                 nlinarith)]
  have hlogq : F.log2 (2 ^ (j + 1)) = ((j + 1 : ℤ) : ℝ) := hF.log2_pow (j + 1)
  set L : ℝ := ((j + 1 : ℤ) : ℝ) with hL
  have hL1 : 26 ≤ L := by rw [hL]; exact_mod_cast (show (26 : ℤ) ≤ j + 1 by omega)
  have hL2 : L = 26 ∨ L = 27 := by
    rcases hj with h | h
    · exact .inl (by rw [hL, h]; norm_num)
    · exact .inr (by rw [hL, h]; norm_num)
  have hnear : Near 400 (F.div (F.mul (F.log2 beta) (F.log2 beta))
      (F.mul (F.mul (F.mul 4 256) (F.log2 (2 ^ (j + 1)))) (F.log2 (F.round 1.005))))
      (logb 2 beta * logb 2 beta / (4 * 256 * L * logb 2 1.005)) := by
    have hx := log2_near hF hbpos
    rw [hlogq]
    exact ((hx.fmul hF hx).fdiv hF ((((Near.refl (by norm_num)).fmul hF (Near.refl (by norm_num))).fmul hF
      (Near.refl (by linarith))).fmul hF (logDelta_near hF))).mono (by norm_num)
  have g1 : L - 1 ≤ logb 2 beta := by
    have : L - 1 = (j : ℝ) := by rw [hL]; push_cast; ring
    rw [this, Real.le_logb_iff_rpow_le (by norm_num) (by linarith), Real.rpow_intCast]
    nlinarith
  have g2 : logb 2 beta ≤ L := by
    rw [Real.logb_le_iff_le_rpow (by norm_num) (by linarith), hL, Real.rpow_intCast]
    have : 0 < (2 : ℝ) ^ (j + 1) := by positivity
    nlinarith
  have d1 := logDelta_ge
  have d2 : logb 2 (1.005 : ℝ) ≤ 0.00722 := by
    have hl2 := Real.log_two_gt_d9
    rw [Real.logb, div_le_iff₀ (by linarith)]
    have := Real.log_le_sub_one_of_pos (show (0 : ℝ) < 1.005 by norm_num)
    nlinarith
  have hden : 0 < 4 * 256 * L * logb 2 (1.005 : ℝ) := by positivity
  have u := hnear.upper (by norm_num)
  have l := hnear.lower (by norm_num)
  have q1 : 3.2 ≤ logb 2 beta * logb 2 beta / (4 * 256 * L * logb 2 1.005) := by
    rw [le_div_iff₀ hden]
    have : (L - 1) * (L - 1) ≤ logb 2 beta * logb 2 beta := by gcongr <;> linarith
    refine le_trans ?_ this
    rcases hL2 with h | h <;> rw [h] <;> linarith
  have q2 : logb 2 beta * logb 2 beta / (4 * 256 * L * logb 2 1.005) ≤ 3.7 := by
    rw [div_le_iff₀ hden]
    have : logb 2 beta * logb 2 beta ≤ L * L := by
      have : 0 ≤ logb 2 beta := by linarith
      gcongr
    refine this.trans ?_
    rcases hL2 with h | h <;> rw [h] <;> linarith
  refine congrArg Except.ok ?_
  show ⌈F.div (F.mul (F.log2 beta) (F.log2 beta))
      (F.mul (F.mul (F.mul 4 256) (F.log2 (2 ^ (j + 1)))) (F.log2 (F.round 1.005)))⌉ = 4
  generalize logb 2 beta * logb 2 beta / (4 * 256 * L * logb 2 1.005) = Z at *
  rw [Int.ceil_eq_iff]
  push_cast
  clear g1 g2 d1 d2 hden b1 b2 n1 n2 c1 c2
  constructor <;> nlinarith

theorem search_loop {j : ℤ} (hj : j = 25 ∨ j = 26)
    (hb : ∀ mu : Nat, 1 ≤ mu → mu ≤ 4 → (2 : ℝ) ^ j * 1.003 ≤ V.inMSISBeta mu ∧ V.inMSISBeta mu ≤ 2 ^ (j + 1) * 0.997) :
    F.inLoop W = .ok 4 := by
  have hlogq : F.log2 (2 ^ (j + 1)) = ((j + 1 : ℤ) : ℝ) := hF.log2_pow (j + 1)
  have hbody : ∀ mu : Nat, 1 ≤ mu → mu ≤ 4 →
      (do
        let q := F.inQ W mu
        if F.log2 q > 240 then pure none
        else
          let r ← F.findMSISRank W.d q (F.inMSISBeta W mu)
          if r = mu then pure (some mu) else pure none : Go (Option Nat)) =
      if (4 : ℤ) = mu then .ok (some mu) else .ok none := by
    intro mu h1 h2
    obtain ⟨hq, hr⟩ := search_inner hF hV hW hd hj h1 (hb mu h1 h2).1 (hb mu h1 h2).2
    dsimp only
    rw [hr, hq, hlogq, if_neg (by rcases hj with rfl | rfl <;> norm_num), go_bind_ok]
    rfl
  refine forever_ok (i := 4) (by norm_num) ?_ ?_
  · rw [hbody 4 (by norm_num) le_rfl]; simp
  · intro i h1 h2
    rw [hbody i h1 (by omega), if_neg (by omega)]

omit hd in
theorem search_outer {q : ℝ} (hq : F.inQ W 4 = q) (hq0 : 0 < q) {j : ℤ} (hj1 : 1 ≤ j) (hj2 : j ≤ 50)
    (b1 : (2 : ℝ) ^ j * 1.003 ≤ V.outBetaOf q 4) (b2 : V.outBetaOf q 4 ≤ 2 ^ (j + 1) * 0.997) :
    F.log2 (F.outQ W 4) ≤ 240 ∧ ∃ r, F.findMSISRank W.d (F.outQ W 4) (F.outMSISBeta W 4) = .ok r := by
  have hn := foutBeta_near hF hV hW (show 1 ≤ 4 by norm_num) (by rw [hq]; exact hq0)
  rw [hq] at hn
  have n1 := hn.lower (by norm_num)
  have n2 := hn.upper (by norm_num)
  set beta := F.outMSISBeta W 4 with hbeta
  have hp : 0 < (2 : ℝ) ^ j := by positivity
  have hp' : 0 < (2 : ℝ) ^ (j + 1) := by positivity
  have c1 : (2 : ℝ) ^ j * 1.001 ≤ beta := by
    norm_num at n1 ⊢
    linarith
  have c2 : beta ≤ 2 ^ (j + 1) * 0.999 := by
    refine n2.trans ?_
    nlinarith
  have hceil : ⌈F.log2 beta⌉ = j + 1 := ceil_flog hF hj1 (by omega) c1 c2
  have hlm := flogModulus hF (by omega) (by omega) hceil
  have hq' : F.outQ W 4 = 2 ^ (j + 1) := by
    unfold Flt.outQ
    rw [← hbeta, hlm, round_int hF (by rw [abs_le]; constructor <;> omega), hF.exp2_int]
  have hlogq : F.log2 (2 ^ (j + 1)) = ((j + 1 : ℤ) : ℝ) := hF.log2_pow (j + 1)
  rw [hq', hlogq]
  refine ⟨by exact_mod_cast (show j + 1 ≤ 240 by omega), ?_⟩
  unfold Flt.findMSISRank
  rw [if_neg (by push Not; nlinarith)]
  exact ⟨_, rfl⟩

end

/-! ### One column of two rows, two columns of one -/

theorem vars_one : npVars 32 1 ⟨2, 16⟩ 1 = ⟨1, 2, 16, 256, 32, 1, 2⟩ := by
  unfold npVars ceilDiv
  norm_num

theorem vars_two : npVars 32 1 ⟨2, 16⟩ 2 = ⟨1, 2, 16, 256, 32, 2, 1⟩ := by
  unfold npVars ceilDiv
  norm_num

theorem one_cOne : (⟨1, 2, 16, 256, 32, 1, 2⟩ : NPVars).cOne = 4 := case_bounds.2.2

theorem pair_cOne : (⟨1, 2, 16, 256, 32, 2, 1⟩ : NPVars).cOne = 4 := case_bounds.2.2

theorem one_resTwo {mu : Nat} (h2 : mu ≤ 4) :
    1031000 ≤ (⟨1, 2, 16, 256, 32, 1, 2⟩ : NPVars).resTwo mu ∧
    (⟨1, 2, 16, 256, 32, 1, 2⟩ : NPVars).resTwo mu ≤ 1045000 := by
  have h16 : √(16 : ℝ) = 4 := by
    rw [show (16 : ℝ) = 4 ^ 2 by norm_num, Real.sqrt_sq (by norm_num)]
  have h4 : √(4 : ℝ) = 2 := by
    rw [show (4 : ℝ) = 2 ^ 2 by norm_num, Real.sqrt_sq (by norm_num)]
  have hc := one_cOne
  have a2 : √2 ≤ (1.4143 : ℝ) := by rw [Real.sqrt_le_left (by norm_num)]; norm_num
  have a3 : (1.732 : ℝ) ≤ √3 := by rw [Real.le_sqrt' (by norm_num)]; norm_num
  have a4 : √3 ≤ (1.7321 : ℝ) := by rw [Real.sqrt_le_left (by norm_num)]; norm_num
  have hs : √(2 : ℝ) * √2 = 2 := Real.mul_self_sqrt (by norm_num)
  have h0 : (⟨1, 2, 16, 256, 32, 1, 2⟩ : NPVars).resEcd0Inf = 17280 * √3 + 34560 := by
    simp only [NPVars.resEcd0Inf, NPVars.scaleUp, hc, NPVars.f0jInf, NPVars.f0nInf, NPVars.ecdBlindStdDev,
      NPVars.maskBlindStdDev, NPVars.xOne, h16, Real.sqrt_one]
    norm_num
    rw [h4]
    ring
  have h1' : (⟨1, 2, 16, 256, 32, 1, 2⟩ : NPVars).resEcdiInf = 2160 + 2160 * √2 := by
    simp only [NPVars.resEcdiInf, NPVars.scaleUp, hc, NPVars.fijInf, NPVars.finInf, NPVars.ecdStdDev,
      NPVars.maskStdDev, Real.sqrt_one]
    norm_num
    ring
  have h2' : (⟨1, 2, 16, 256, 32, 1, 2⟩ : NPVars).resMLWEInf = 240 * √2 + 480 := by
    simp only [NPVars.resMLWEInf, NPVars.scaleUp, hc, NPVars.mlweStdDev, NPVars.maskMLWEStdDev, Real.sqrt_one]
    norm_num
    nlinarith
  have h3 : (⟨1, 2, 16, 256, 32, 1, 2⟩ : NPVars).resEcdTwo * (⟨1, 2, 16, 256, 32, 1, 2⟩ : NPVars).resEcdTwo =
      256 * (2 * ((2160 + 2160 * √2) * (2160 + 2160 * √2)) +
        (17280 * √3 + 34560) * (17280 * √3 + 34560)) := by
    unfold NPVars.resEcdTwo
    simp only [h0, h1']
    rw [Real.mul_self_sqrt]
    · ring
    · positivity
  have hmu2 : (mu : ℝ) ≤ 4 := by exact_mod_cast h2
  have u1 : 2160 + 2160 * √2 ≤ 5215 := by linarith
  have u2 : 17280 * √3 + 34560 ≤ 64491 := by linarith
  have l2 : 64480 ≤ 17280 * √3 + 34560 := by linarith
  have u3 : 240 * √2 + 480 ≤ 820 := by linarith
  have p1 : 0 ≤ √2 := Real.sqrt_nonneg 2
  have p2 : 0 ≤ √3 := Real.sqrt_nonneg 3
  constructor
  · refine le_trans ?_ (NPVars.resTwo_ge_ecd _ mu)
    apply le_of_sq_le_sq _ (Real.sqrt_nonneg _)
    rw [sq _, sq _]
    change _ ≤ (⟨1, 2, 16, 256, 32, 1, 2⟩ : NPVars).resEcdTwo * (⟨1, 2, 16, 256, 32, 1, 2⟩ : NPVars).resEcdTwo
    rw [h3]
    have : (64480 : ℝ) * 64480 ≤ (17280 * √3 + 34560) * (17280 * √3 + 34560) := by gcongr
    nlinarith [mul_self_nonneg (2160 + 2160 * √2)]
  · unfold NPVars.resTwo
    simp only [h2']
    rw [h3, Real.sqrt_le_left (by norm_num)]
    have h4 : √((256 : ℝ) * (mu + 32)) * √((256 : ℝ) * (mu + 32)) = 256 * (mu + 32) :=
      Real.mul_self_sqrt (by positivity)
    have h5 : √((256 : ℝ) * (mu + 32)) * (240 * √2 + 480) * (√((256 : ℝ) * (mu + 32)) * (240 * √2 + 480)) =
        256 * (mu + 32) * ((240 * √2 + 480) * (240 * √2 + 480)) := by
      rw [mul_mul_mul_comm, h4]
    rw [h5]
    have g1 : (2160 + 2160 * √2) * (2160 + 2160 * √2) ≤ 5215 * 5215 := by gcongr
    have g2 : (17280 * √3 + 34560) * (17280 * √3 + 34560) ≤ 64491 * 64491 := by gcongr
    have g3 : 256 * ((mu : ℝ) + 32) * ((240 * √2 + 480) * (240 * √2 + 480)) ≤ 256 * (4 + 32) * (820 * 820) := by
      gcongr
    norm_num at g1 g2 g3 ⊢
    linarith

theorem pair_resTwo {mu : Nat} (h2 : mu ≤ 4) :
    1171000 ≤ (⟨1, 2, 16, 256, 32, 2, 1⟩ : NPVars).resTwo mu ∧
    (⟨1, 2, 16, 256, 32, 2, 1⟩ : NPVars).resTwo mu ≤ 1182000 := by
  have h16 : √(16 : ℝ) = 4 := by
    rw [show (16 : ℝ) = 4 ^ 2 by norm_num, Real.sqrt_sq (by norm_num)]
  have hc := pair_cOne
  have a2 : √2 ≤ (1.4143 : ℝ) := by rw [Real.sqrt_le_left (by norm_num)]; norm_num
  have a4 : √3 ≤ (1.7321 : ℝ) := by rw [Real.sqrt_le_left (by norm_num)]; norm_num
  have a5 : (2.236 : ℝ) ≤ √5 := by rw [Real.le_sqrt' (by norm_num)]; norm_num
  have a6 : √5 ≤ (2.2361 : ℝ) := by rw [Real.sqrt_le_left (by norm_num)]; norm_num
  have hs : √(2 : ℝ) * √2 = 2 := Real.mul_self_sqrt (by norm_num)
  have p1 : 0 ≤ √2 := Real.sqrt_nonneg 2
  have p2 : 0 ≤ √3 := Real.sqrt_nonneg 3
  have p3 : 0 ≤ √5 := Real.sqrt_nonneg 5
  have h0 : (⟨1, 2, 16, 256, 32, 2, 1⟩ : NPVars).resEcd0Inf = 34560 + 17280 * √5 := by
    simp only [NPVars.resEcd0Inf, NPVars.scaleUp, hc, NPVars.f0jInf, NPVars.f0nInf, NPVars.ecdBlindStdDev,
      NPVars.maskBlindStdDev, NPVars.xOne, h16]
    norm_num
    nlinarith
  have h1' : (⟨1, 2, 16, 256, 32, 2, 1⟩ : NPVars).resEcdiInf = 2160 * √2 + 2160 * √3 := by
    simp only [NPVars.resEcdiInf, NPVars.scaleUp, hc, NPVars.fijInf, NPVars.finInf, NPVars.ecdStdDev,
      NPVars.maskStdDev]
    norm_num
    ring
  have h2' : (⟨1, 2, 16, 256, 32, 2, 1⟩ : NPVars).resMLWEInf = 480 + 240 * (√2 * √3) := by
    simp only [NPVars.resMLWEInf, NPVars.scaleUp, hc, NPVars.mlweStdDev, NPVars.maskMLWEStdDev]
    norm_num
    nlinarith
  have h3 : (⟨1, 2, 16, 256, 32, 2, 1⟩ : NPVars).resEcdTwo * (⟨1, 2, 16, 256, 32, 2, 1⟩ : NPVars).resEcdTwo =
      256 * ((2160 * √2 + 2160 * √3) * (2160 * √2 + 2160 * √3) +
        (34560 + 17280 * √5) * (34560 + 17280 * √5)) := by
    unfold NPVars.resEcdTwo
    simp only [h0, h1']
    rw [Real.mul_self_sqrt]
    · ring
    · positivity
  have hmu2 : (mu : ℝ) ≤ 4 := by exact_mod_cast h2
  have u1 : 2160 * √2 + 2160 * √3 ≤ 6797 := by linarith
  have u2 : 34560 + 17280 * √5 ≤ 73200 := by linarith
  have l2 : 73190 ≤ 34560 + 17280 * √5 := by linarith
  have u3 : 480 + 240 * (√2 * √3) ≤ 1068 := by
    have : √2 * √3 ≤ 1.4143 * 1.7321 := by gcongr
    linarith
  constructor
  · refine le_trans ?_ (NPVars.resTwo_ge_ecd _ mu)
    apply le_of_sq_le_sq _ (Real.sqrt_nonneg _)
    rw [sq _, sq _]
    change _ ≤ (⟨1, 2, 16, 256, 32, 2, 1⟩ : NPVars).resEcdTwo * (⟨1, 2, 16, 256, 32, 2, 1⟩ : NPVars).resEcdTwo
    rw [h3]
    have : (73190 : ℝ) * 73190 ≤ (34560 + 17280 * √5) * (34560 + 17280 * √5) := by gcongr
    nlinarith [mul_self_nonneg (2160 * √2 + 2160 * √3)]
  · unfold NPVars.resTwo
    simp only [h2']
    rw [h3, Real.sqrt_le_left (by norm_num)]
    have h4 : √((256 : ℝ) * (mu + 32)) * √((256 : ℝ) * (mu + 32)) = 256 * (mu + 32) :=
      Real.mul_self_sqrt (by positivity)
    have h5 : √((256 : ℝ) * (mu + 32)) * (480 + 240 * (√2 * √3)) *
          (√((256 : ℝ) * (mu + 32)) * (480 + 240 * (√2 * √3))) =
        256 * (mu + 32) * ((480 + 240 * (√2 * √3)) * (480 + 240 * (√2 * √3))) := by
      rw [mul_mul_mul_comm, h4]
    rw [h5]
    have g1 : (2160 * √2 + 2160 * √3) * (2160 * √2 + 2160 * √3) ≤ 6797 * 6797 := by gcongr
    have g2 : (34560 + 17280 * √5) * (34560 + 17280 * √5) ≤ 73200 * 73200 := by gcongr
    have g3 : 256 * ((mu : ℝ) + 32) * ((480 + 240 * (√2 * √3)) * (480 + 240 * (√2 * √3))) ≤
        256 * (4 + 32) * (1068 * 1068) := by
      gcongr
    norm_num at g1 g2 g3 ⊢
    linarith

theorem one_beta (mu : Nat) : (⟨1, 2, 16, 256, 32, 1, 2⟩ : NPVars).inMSISBeta mu =
    64 * (⟨1, 2, 16, 256, 32, 1, 2⟩ : NPVars).resTwo mu := by
  rw [NPVars.inMSISBeta_eq, NPVars.inFac, if_pos rfl, one_cOne]; ring

theorem pair_beta (mu : Nat) : (⟨1, 2, 16, 256, 32, 2, 1⟩ : NPVars).inMSISBeta mu =
    64 * (⟨1, 2, 16, 256, 32, 2, 1⟩ : NPVars).resTwo mu := by
  rw [NPVars.inMSISBeta_eq, NPVars.inFac, if_pos rfl, pair_cOne]; ring

theorem one_out : (⟨1, 2, 16, 256, 32, 1, 2⟩ : NPVars).outBetaOf (2 ^ 26) 4 =
    8 * (√2048 * (2 ^ 26 / ((⟨1, 2, 16, 256, 32, 1, 2⟩ : NPVars).resTwo 4 / 160))) := by
  have hcut : (⟨1, 2, 16, 256, 32, 1, 2⟩ : NPVars).inCutOffInf 4 =
      (⟨1, 2, 16, 256, 32, 1, 2⟩ : NPVars).resTwo 4 / 160 := by
    unfold NPVars.inCutOffInf NPVars.scaleDown
    rw [one_cOne]
    simp only [Real.sqrt_one]
    rw [show √(((4 : ℕ) : ℝ) * 256) = 32 by
      rw [show (((4 : ℕ) : ℝ) * 256) = 32 ^ 2 by norm_num, Real.sqrt_sq (by norm_num)]]
    norm_num
  unfold NPVars.outBetaOf NPVars.dcmpTwoOf NPVars.scaleUp NPVars.dExtOne
  rw [hcut]
  norm_num
  ring

theorem pair_out : (⟨1, 2, 16, 256, 32, 2, 1⟩ : NPVars).outBetaOf (2 ^ 27) 4 =
    8 * (√3072 * (2 ^ 27 / ((⟨1, 2, 16, 256, 32, 2, 1⟩ : NPVars).resTwo 4 / ((1 + √2 * 4) * 32)))) := by
  have hcut : (⟨1, 2, 16, 256, 32, 2, 1⟩ : NPVars).inCutOffInf 4 =
      (⟨1, 2, 16, 256, 32, 2, 1⟩ : NPVars).resTwo 4 / ((1 + √2 * 4) * 32) := by
    unfold NPVars.inCutOffInf NPVars.scaleDown
    rw [pair_cOne]
    rw [show √(((4 : ℕ) : ℝ) * 256) = 32 by
      rw [show (((4 : ℕ) : ℝ) * 256) = 32 ^ 2 by norm_num, Real.sqrt_sq (by norm_num)]]
    norm_num
  unfold NPVars.outBetaOf NPVars.dcmpTwoOf NPVars.scaleUp NPVars.dExtOne
  rw [hcut]
  norm_num
  ring

section
variable {F : Flt} (hF : F.Ok)
include hF

theorem one_step (gen : ℤ → ℤ → Option (List Nat)) : F.inLoop (F.npVars 32 1 ⟨2, 16⟩ 1) = .ok 4 ∧
    F.log2 (F.outQ (F.npVars 32 1 ⟨2, 16⟩ 1) 4) ≤ 240 ∧
    ∃ s, F.npStep gen 32 1 ⟨2, 16⟩ (RParams.zero, none) 1 = .ok s := by
  have hV : (⟨1, 2, 16, 256, 32, 1, 2⟩ : NPVars).Ok := ⟨by norm_num, by norm_num, by norm_num, by norm_num,
    by norm_num, by norm_num, by norm_num⟩
  have hW : VarsNear (F.npVars 32 1 ⟨2, 16⟩ 1) ⟨1, 2, 16, 256, 32, 1, 2⟩ := by
    rw [← vars_one]
    exact (fvars hF ⟨4, rfl⟩ (by norm_num) (by norm_num) (by norm_num) (by norm_num) le_rfl
      (by rw [show ceilDiv 32 (max (EcdParams.mk 2 16).exp 256 / (EcdParams.mk 2 16).exp) = 2 from rfl]; norm_num)).1
  have hb : ∀ mu : Nat, 1 ≤ mu → mu ≤ 4 →
      (2 : ℝ) ^ (25 : ℤ) * 1.003 ≤ (⟨1, 2, 16, 256, 32, 1, 2⟩ : NPVars).inMSISBeta mu ∧
      (⟨1, 2, 16, 256, 32, 1, 2⟩ : NPVars).inMSISBeta mu ≤ 2 ^ (25 + 1 : ℤ) * 0.997 := by
    intro mu _ h2
    obtain ⟨r1, r2⟩ := one_resTwo h2
    rw [one_beta]
    norm_num
    constructor <;> linarith
  have hl := search_loop hF hV hW rfl (.inl rfl) hb
  obtain ⟨hq, -⟩ := search_inner hF hV hW rfl (.inl rfl) (mu := 4) (by norm_num) (hb 4 (by norm_num) le_rfl).1
    (hb 4 (by norm_num) le_rfl).2
  have hq : F.inQ (F.npVars 32 1 ⟨2, 16⟩ 1) 4 = 2 ^ 26 := by rw [hq]; norm_num
  obtain ⟨r1, r2⟩ := one_resTwo (mu := 4) le_rfl
  have s1 : (45.2 : ℝ) ≤ √2048 := by rw [Real.le_sqrt' (by norm_num)]; norm_num
  have s2 : √2048 ≤ (45.3 : ℝ) := by rw [Real.sqrt_le_left (by norm_num)]; norm_num
  have ho := one_out
  generalize (⟨1, 2, 16, 256, 32, 1, 2⟩ : NPVars).resTwo 4 = R at *
  have x1 : (10270 : ℝ) ≤ 2 ^ 26 / (R / 160) := by
    rw [le_div_iff₀ (by positivity)]; norm_num; linarith
  have x2 : (2 : ℝ) ^ 26 / (R / 160) ≤ 10420 := by
    rw [div_le_iff₀ (by positivity)]; norm_num; linarith
  have y1 : 45.2 * 10270 ≤ √2048 * (2 ^ 26 / (R / 160)) := by gcongr
  have y2 : √2048 * (2 ^ 26 / (R / 160)) ≤ 45.3 * 10420 := by gcongr
  obtain ⟨hq', r, hr⟩ := search_outer hF hV hW hq (by norm_num) (j := 21) (by norm_num) (by norm_num)
    (by rw [ho]; norm_num at y1 y2 ⊢; linarith) (by rw [ho]; norm_num at y1 y2 ⊢; linarith)
  refine ⟨hl, hq', F.npAssign (F.npVars 32 1 ⟨2, 16⟩ 1) gen 1 ⟨2, 16⟩ 1 4 r (RParams.zero, none), ?_⟩
  unfold Flt.npStep
  dsimp only
  rw [hl, go_bind_ok, hr, if_neg (by linarith)]
  rfl

theorem pair_step (gen : ℤ → ℤ → Option (List Nat)) : F.inLoop (F.npVars 32 1 ⟨2, 16⟩ 2) = .ok 4 ∧
    F.log2 (F.outQ (F.npVars 32 1 ⟨2, 16⟩ 2) 4) ≤ 240 ∧
    ∃ s, F.npStep gen 32 1 ⟨2, 16⟩ (RParams.zero, none) 2 = .ok s := by
  have hV : (⟨1, 2, 16, 256, 32, 2, 1⟩ : NPVars).Ok := ⟨by norm_num, by norm_num, by norm_num, by norm_num,
    by norm_num, by norm_num, by norm_num⟩
  have hW : VarsNear (F.npVars 32 1 ⟨2, 16⟩ 2) ⟨1, 2, 16, 256, 32, 2, 1⟩ := by
    rw [← vars_two]
    exact (fvars hF ⟨4, rfl⟩ (by norm_num) (by norm_num) (by norm_num) (by norm_num) (by norm_num)
      (by rw [show ceilDiv 32 (max (EcdParams.mk 2 16).exp 256 / (EcdParams.mk 2 16).exp) = 2 from rfl])).1
  have hb : ∀ mu : Nat, 1 ≤ mu → mu ≤ 4 →
      (2 : ℝ) ^ (26 : ℤ) * 1.003 ≤ (⟨1, 2, 16, 256, 32, 2, 1⟩ : NPVars).inMSISBeta mu ∧
      (⟨1, 2, 16, 256, 32, 2, 1⟩ : NPVars).inMSISBeta mu ≤ 2 ^ (26 + 1 : ℤ) * 0.997 := by
    intro mu _ h2
    obtain ⟨r1, r2⟩ := pair_resTwo h2
    rw [pair_beta]
    norm_num
    constructor <;> linarith
  have hl := search_loop hF hV hW rfl (.inr rfl) hb
  obtain ⟨hq, -⟩ := search_inner hF hV hW rfl (.inr rfl) (mu := 4) (by norm_num) (hb 4 (by norm_num) le_rfl).1
    (hb 4 (by norm_num) le_rfl).2
  have hq : F.inQ (F.npVars 32 1 ⟨2, 16⟩ 2) 4 = 2 ^ 27 := by rw [hq]; norm_num
  obtain ⟨r1, r2⟩ := pair_resTwo (mu := 4) le_rfl
  have s1 : (55.4 : ℝ) ≤ √3072 := by rw [Real.le_sqrt' (by norm_num)]; norm_num
  have s2 : √3072 ≤ (55.5 : ℝ) := by rw [Real.sqrt_le_left (by norm_num)]; norm_num
  have a1 : (1.414 : ℝ) ≤ √2 := by rw [Real.le_sqrt' (by norm_num)]; norm_num
  have a2 : √2 ≤ (1.415 : ℝ) := by rw [Real.sqrt_le_left (by norm_num)]; norm_num
  have ho := pair_out
  generalize (⟨1, 2, 16, 256, 32, 2, 1⟩ : NPVars).resTwo 4 = R at *
  have x1 : (24000 : ℝ) ≤ 2 ^ 27 / (R / ((1 + √2 * 4) * 32)) := by
    rw [le_div_iff₀ (by positivity), ← mul_div_assoc, div_le_iff₀ (by positivity)]; norm_num; linarith
  have x2 : (2 : ℝ) ^ 27 / (R / ((1 + √2 * 4) * 32)) ≤ 25000 := by
    rw [div_le_iff₀ (by positivity), ← mul_div_assoc, le_div_iff₀ (by positivity)]; norm_num; linarith
  have y1 : 55.4 * 24000 ≤ √3072 * (2 ^ 27 / (R / ((1 + √2 * 4) * 32))) := by gcongr
  have y2 : √3072 * (2 ^ 27 / (R / ((1 + √2 * 4) * 32))) ≤ 55.5 * 25000 := by gcongr
  generalize √3072 * (2 ^ 27 / (R / ((1 + √2 * 4) * 32))) = Y at *
  obtain ⟨hq', r, hr⟩ := search_outer hF hV hW hq (by norm_num) (j := 23) (by norm_num) (by norm_num)
    (by rw [ho]; norm_num at y1 y2 ⊢; linarith) (by rw [ho]; norm_num at y1 y2 ⊢; linarith)
  refine ⟨hl, hq', F.npAssign (F.npVars 32 1 ⟨2, 16⟩ 2) gen 1 ⟨2, 16⟩ 2 4 r (RParams.zero, none), ?_⟩
  unfold Flt.npStep
  dsimp only
  rw [hl, go_bind_ok, hr, if_neg (by linarith)]
  rfl

/-- **Second case for C126**: 32 coefficients over the field of order 65537.  One column and two columns are tried, and
both are candidates; the one returned is one of the two and no larger than the other, for every floating-point unit
and every generator of primes. -/
theorem C126_case_two {gen : ℤ → ℤ → Option (List Nat)} (hg : GenOk gen) :
    (∀ nn, Tried 32 65537 nn ↔ nn = 1 ∨ nn = 2) ∧ ∃ C1 C2 P, F.Candidate gen 32 1 65537 1 C1 ∧
      F.Candidate gen 32 1 65537 2 C2 ∧ C1.shape.cols = 1 ∧ C2.shape.cols = 2 ∧ F.newParameters gen 32 1 65537 = .ok P ∧
      ((P = C1 ∧ F.sizeOf C1 ≤ F.sizeOf C2) ∨ (P = C2 ∧ F.sizeOf C2 < F.sizeOf C1)) := by
  have key : ∀ nn, 1 ≤ nn → nn ≤ 2 → F.inLoop (F.npVars 32 1 ⟨2, 16⟩ nn) = .ok 4 →
      F.log2 (F.outQ (F.npVars 32 1 ⟨2, 16⟩ nn) 4) ≤ 240 →
      (∃ s, F.npStep gen 32 1 ⟨2, 16⟩ (RParams.zero, none) nn = .ok s) →
      ∃ C : RParams, C.shape.cols = nn ∧ ∀ t, F.npStep gen 32 1 ⟨2, 16⟩ t nn = .ok (keep C (F.sizeOf C) t) := by
    rintro nn h1 h2 hl hq ⟨s, hs⟩
    have hnn : nn ≤ ceilDiv 32 (max (EcdParams.mk 2 16).exp 256 / (EcdParams.mk 2 16).exp) := by
      rw [show ceilDiv 32 (max (EcdParams.mk 2 16).exp 256 / (EcdParams.mk 2 16).exp) = 2 from rfl]; exact h2
    rcases fstep_keep hF hg ⟨4, rfl⟩ (by norm_num) (by norm_num) le_rfl (by norm_num) (by norm_num) h1 hnn hs with h | h
    · exfalso
      rcases fstep_sound hF hg (p := 65537) (by norm_num) ⟨4, rfl⟩ (by norm_num) (by norm_num) le_rfl (by norm_num)
        (by norm_num) h1 hnn hs with ⟨-, h'⟩ | ⟨h', -⟩
      · exact absurd (h' rfl 4 hl) (by linarith)
      · have := (h (RParams.zero, none)).symm.trans hs
        injection this with this
        rw [← this] at h'
        exact absurd h'.inRank (by simp [RParams.zero])
    · exact h
  obtain ⟨l1, q1, e1⟩ := one_step hF gen
  obtain ⟨l2, q2, e2⟩ := pair_step hF gen
  obtain ⟨C1, c1, k1⟩ := key 1 le_rfl (by norm_num) l1 q1 e1
  obtain ⟨C2, c2, k2⟩ := key 2 (by norm_num) le_rfl l2 q2 e2
  have hret : F.newParameters gen 32 1 65537 =
      .ok (keep C2 (F.sizeOf C2) (keep C1 (F.sizeOf C1) (RParams.zero, none))).1 := by
    unfold Flt.newParameters
    rw [if_neg (by norm_num), if_neg (by norm_num), encPars_65537, go_bind_ok]
    dsimp only
    rw [fmaxCols hF (targetN := 32) (k := 16) ⟨4, rfl⟩ (by norm_num) (by norm_num),
      show ceilDiv 32 (max 16 256 / 16) = 2 from rfl, show doublings 1 2 = [1, 2] by simp [doublings],
      List.foldlM_cons, k1]
    show (do let s ← (do let s ← F.npStep gen 32 1 ⟨2, 16⟩ (keep C1 (F.sizeOf C1) (RParams.zero, none)) 2
                         List.foldlM (F.npStep gen 32 1 ⟨2, 16⟩) s [])
             pure s.1 : Go RParams) = _
    rw [k2]
    rfl
  refine ⟨fun nn => ⟨?_, ?_⟩, C1, C2, _, ⟨⟨2, 16⟩, F.sizeOf C1, encPars_65537, k1 _⟩,
    ⟨⟨2, 16⟩, F.sizeOf C2, encPars_65537, k2 _⟩, c1, c2, hret, ?_⟩
  · rintro ⟨e, j, he, rfl, h⟩
    rw [encPars_65537] at he
    injection he with he
    subst he
    have h : (2 ^ j - 1) * 16 < 32 := h
    have := Nat.two_pow_pos j
    omega
  · rintro (rfl | rfl)
    · exact ⟨⟨2, 16⟩, 0, encPars_65537, rfl, by norm_num⟩
    · exact ⟨⟨2, 16⟩, 1, encPars_65537, rfl, by norm_num⟩
  · have hk : keep C1 (F.sizeOf C1) (RParams.zero, none) = (C1, some (F.sizeOf C1)) := rfl
    rw [hk]
    unfold keep
    dsimp only
    by_cases hlt : F.sizeOf C2 < F.sizeOf C1
    · rw [if_pos (by simpa using hlt)]
      exact .inr ⟨rfl, hlt⟩
    · rw [if_neg (by simpa using hlt)]
      exact .inl ⟨rfl, not_lt.1 hlt⟩

end

end Ringo
