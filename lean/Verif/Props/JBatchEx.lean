import Verif.Props.JTypicalEx

/-! # The parameters for two polynomials over the field of order 65537 -/

namespace Ringo

open Finset Real

/-- The variables of the only iteration. -/
theorem npVars_two : npVars 9 2 ⟨2, 16⟩ 1 = ⟨2, 2, 16, 256, 32, 1, 1⟩ := by
  unfold npVars ceilDiv
  norm_num

theorem two_cOne : (⟨2, 2, 16, 256, 32, 1, 1⟩ : NPVars).cOne = 4 := case_bounds.2.2

theorem two_resTwo {mu : Nat} (h1 : 1 ≤ mu) (h2 : mu ≤ 5) :
    840000 * (√2 * 4) ≤ (⟨2, 2, 16, 256, 32, 1, 1⟩ : NPVars).resTwo mu ∧
    (⟨2, 2, 16, 256, 32, 1, 1⟩ : NPVars).resTwo mu ≤ 880000 * (√2 * 4) := by
  have h16 : √(16 : ℝ) = 4 := by
    rw [show (16 : ℝ) = 4 ^ 2 by norm_num, Real.sqrt_sq (by norm_num)]
  have hc := two_cOne
  have a1 : (1.414 : ℝ) ≤ √2 := by rw [Real.le_sqrt' (by norm_num)]; norm_num
  have a2 : √2 ≤ (1.415 : ℝ) := by rw [Real.sqrt_le_left (by norm_num)]; norm_num
  have a3 : (1.732 : ℝ) ≤ √3 := by rw [Real.le_sqrt' (by norm_num)]; norm_num
  have a4 : √3 ≤ (1.733 : ℝ) := by rw [Real.sqrt_le_left (by norm_num)]; norm_num
  have hs : √(2 : ℝ) * √2 = 2 := Real.mul_self_sqrt (by norm_num)
  have h0 : (⟨2, 2, 16, 256, 32, 1, 1⟩ : NPVars).resEcd0Inf = (17280 * √2 + 17280 * √3) * (√2 * 4) := by
    simp only [NPVars.resEcd0Inf, NPVars.scaleUp, hc, NPVars.f0jInf, NPVars.f0nInf, NPVars.ecdBlindStdDev,
      NPVars.maskBlindStdDev, NPVars.xOne, h16, Real.sqrt_one]
    norm_num
    ring
  have h1' : (⟨2, 2, 16, 256, 32, 1, 1⟩ : NPVars).resEcdiInf = (2160 + 2160 * √2) * (√2 * 4) := by
    simp only [NPVars.resEcdiInf, NPVars.scaleUp, hc, NPVars.fijInf, NPVars.finInf, NPVars.ecdStdDev,
      NPVars.maskStdDev, Real.sqrt_one]
    norm_num
    ring
  have h2' : (⟨2, 2, 16, 256, 32, 1, 1⟩ : NPVars).resMLWEInf = (240 * √2 + 480) * (√2 * 4) := by
    simp only [NPVars.resMLWEInf, NPVars.scaleUp, hc, NPVars.mlweStdDev, NPVars.maskMLWEStdDev, Real.sqrt_one]
    norm_num
    nlinarith
  have h3 : (⟨2, 2, 16, 256, 32, 1, 1⟩ : NPVars).resEcdTwo * (⟨2, 2, 16, 256, 32, 1, 1⟩ : NPVars).resEcdTwo =
      256 * ((2160 + 2160 * √2) * (2160 + 2160 * √2) +
        (17280 * √2 + 17280 * √3) * (17280 * √2 + 17280 * √3)) * 32 := by
    unfold NPVars.resEcdTwo
    simp only [h0, h1']
    rw [Real.mul_self_sqrt (by positivity)]
    have : ∀ x y : ℝ, 256 * (1 * (x * (√2 * 4)) * (x * (√2 * 4)) + y * (√2 * 4) * (y * (√2 * 4))) =
        256 * (x * x + y * y) * 16 * (√2 * √2) := fun x y => by ring
    rw [this, hs]
    ring
  have hmu1 : (1 : ℝ) ≤ mu := by exact_mod_cast h1
  have hmu2 : (mu : ℝ) ≤ 5 := by exact_mod_cast h2
  have u1 : 2160 + 2160 * √2 ≤ 5217 := by linarith
  have u2 : 17280 * √2 + 17280 * √3 ≤ 54400 := by linarith
  have l2 : 54300 ≤ 17280 * √2 + 17280 * √3 := by linarith
  have u3 : 240 * √2 + 480 ≤ 820 := by linarith
  have p1 : 0 ≤ √2 := Real.sqrt_nonneg 2
  have p2 : 0 ≤ √3 := Real.sqrt_nonneg 3
  have sq2 : ∀ c : ℝ, (c * (√2 * 4)) * (c * (√2 * 4)) = c * c * 32 := fun c => by
    have : c * (√2 * 4) * (c * (√2 * 4)) = c * c * 16 * (√2 * √2) := by ring
    rw [this, hs]; ring
  constructor
  · refine le_trans ?_ (NPVars.resTwo_ge_ecd _ mu)
    apply le_of_sq_le_sq _ (Real.sqrt_nonneg _)
    rw [sq _, sq _]
    change _ ≤ (⟨2, 2, 16, 256, 32, 1, 1⟩ : NPVars).resEcdTwo * (⟨2, 2, 16, 256, 32, 1, 1⟩ : NPVars).resEcdTwo
    rw [h3, sq2]
    have : (54300 : ℝ) * 54300 ≤ (17280 * √2 + 17280 * √3) * (17280 * √2 + 17280 * √3) := by gcongr
    nlinarith [mul_self_nonneg (2160 + 2160 * √2)]
  · unfold NPVars.resTwo
    simp only [h2']
    rw [h3, Real.sqrt_le_left (by positivity), sq, sq2]
    have h4 : √((256 : ℝ) * (mu + 32)) * √((256 : ℝ) * (mu + 32)) = 256 * (mu + 32) :=
      Real.mul_self_sqrt (by positivity)
    have h5 : √((256 : ℝ) * (mu + 32)) * ((240 * √2 + 480) * (√2 * 4)) * (√((256 : ℝ) * (mu + 32)) * ((240 * √2 + 480) * (√2 * 4))) =
        256 * (mu + 32) * ((240 * √2 + 480) * (240 * √2 + 480)) * 32 := by
      rw [mul_mul_mul_comm, h4, sq2]; ring
    rw [h5]
    have g1 : (2160 + 2160 * √2) * (2160 + 2160 * √2) ≤ 5217 * 5217 := by gcongr
    have g2 : (17280 * √2 + 17280 * √3) * (17280 * √2 + 17280 * √3) ≤ 54400 * 54400 := by gcongr
    have g3 : 256 * ((mu : ℝ) + 32) * ((240 * √2 + 480) * (240 * √2 + 480)) ≤ 256 * (5 + 32) * (820 * 820) := by
      gcongr
    norm_num at g1 g2 g3 ⊢
    linarith

theorem logDelta_ge' : (0.00719 : ℝ) ≤ logb 2 1.005 := by
  rw [Real.logb, le_div_iff₀ (Real.log_pos (by norm_num))]
  have h1 := Real.le_log_one_add_of_nonneg (x := 0.005) (by norm_num)
  have h2 := Real.log_two_lt_d9
  norm_num at h1 ⊢
  nlinarith

section
variable {F : Flt} (hF : F.Ok)
include hF

theorem two_near : VarsNear (F.npVars 9 2 ⟨2, 16⟩ 1) ⟨2, 2, 16, 256, 32, 1, 1⟩ := by
  rw [← npVars_two]
  exact (fvars hF ⟨4, rfl⟩ (by norm_num) (by norm_num) (by norm_num) (by norm_num) le_rfl
    (by rw [show ceilDiv 9 (max (EcdParams.mk 2 16).exp 256 / (EcdParams.mk 2 16).exp) = 1 from rfl])).1

theorem two_inner {mu : Nat} (h1 : 1 ≤ mu) (h2 : mu ≤ 5) :
    F.inQ (F.npVars 9 2 ⟨2, 16⟩ 1) mu = 2 ^ 38 ∧
    F.findMSISRank (F.npVars 9 2 ⟨2, 16⟩ 1).d (F.inQ (F.npVars 9 2 ⟨2, 16⟩ 1) mu)
      (F.inMSISBeta (F.npVars 9 2 ⟨2, 16⟩ 1) mu) = .ok 5 := by
  have hW := two_near hF
  have hV : (⟨2, 2, 16, 256, 32, 1, 1⟩ : NPVars).Ok := ⟨by norm_num, by norm_num, by norm_num, by norm_num,
    by norm_num, by norm_num, by norm_num⟩
  obtain ⟨r1, r2⟩ := two_resTwo h1 h2
  have hb : (⟨2, 2, 16, 256, 32, 1, 1⟩ : NPVars).inMSISBeta mu =
      32768 * (⟨2, 2, 16, 256, 32, 1, 1⟩ : NPVars).resTwo mu := by
    unfold NPVars.inMSISBeta NPVars.dExtOne
    rw [two_cOne]
    norm_num
    ring
  have hn := inMSISBeta_near hF hV hW h1
  rw [hb] at hn
  have n1 := hn.lower (by norm_num)
  have n2 := hn.upper (by norm_num)
  have a1 : (1.414 : ℝ) ≤ √2 := by rw [Real.le_sqrt' (by norm_num)]; norm_num
  have a2 : √2 ≤ (1.415 : ℝ) := by rw [Real.sqrt_le_left (by norm_num)]; norm_num
  generalize (⟨2, 2, 16, 256, 32, 1, 1⟩ : NPVars).resTwo mu = R at *
  have r3 : 4750000 ≤ R := by linarith
  have r4 : R ≤ 4981000 := by linarith
  clear r1 r2
  set beta := F.inMSISBeta (F.npVars 9 2 ⟨2, 16⟩ 1) mu with hbeta
  have b1 : 155000000000 ≤ beta := by nlinarith
  have b2 : beta ≤ 164000000000 := by nlinarith
  have hceil : ⌈F.log2 beta⌉ = 38 := ceil_flog hF (j := 37) (by norm_num) (by norm_num)
    (by norm_num; linarith) (by norm_num; linarith)
  have hlm := flogModulus hF (by norm_num) (by norm_num) hceil
  have hq : F.inQ (F.npVars 9 2 ⟨2, 16⟩ 1) mu = 2 ^ 38 := by
    unfold Flt.inQ
    rw [← hbeta, hlm, round_int hF (by norm_num), hF.exp2_int]
    norm_num
  refine ⟨hq, ?_⟩
  rw [hq, hW.d]
  unfold Flt.findMSISRank
  rw [if_neg (by push Not; norm_num; linarith)]
  have hlogq : F.log2 (2 ^ 38) = 38 := by
    have := hF.log2_pow 38
    exact_mod_cast this
  have hnear : Near 400 (F.div (F.mul (F.log2 beta) (F.log2 beta))
      (F.mul (F.mul (F.mul 4 256) (F.log2 (2 ^ 38))) (F.log2 (F.round 1.005))))
      (logb 2 beta * logb 2 beta / (4 * 256 * 38 * logb 2 1.005)) := by
    have hx := log2_near hF (show 2 ≤ beta by linarith)
    rw [hlogq]
    exact ((hx.fmul hF hx).fdiv hF ((((Near.refl (by norm_num)).fmul hF (Near.refl (by norm_num))).fmul hF
      (Near.refl (by norm_num))).fmul hF (logDelta_near hF))).mono (by norm_num)
  have g1 : 37 ≤ logb 2 beta := by
    rw [Real.le_logb_iff_rpow_le (by norm_num) (by linarith)]; norm_num; linarith
  have g2 : logb 2 beta ≤ 37.375 := by
    have h8 : 8 * logb 2 beta ≤ 299 := by
      have e : 8 * logb 2 beta = logb 2 (beta ^ 8) := by rw [Real.logb_pow]; norm_num
      rw [e, Real.logb_le_iff_le_rpow (by norm_num) (by positivity)]
      calc beta ^ 8 ≤ 164000000000 ^ 8 := by gcongr
        _ ≤ (2 : ℝ) ^ (150 : ℕ) * 2 ^ (149 : ℕ) := by norm_num
        _ = (2 : ℝ) ^ (299 : ℕ) := by rw [← pow_add]
        _ = (2 : ℝ) ^ (299 : ℝ) := by rw [← Real.rpow_natCast]; norm_num
    linarith
  have d1 := logDelta_ge'
  have d2 : logb 2 (1.005 : ℝ) ≤ 0.00722 := by
    have hl2 := Real.log_two_gt_d9
    rw [Real.logb, div_le_iff₀ (by linarith)]
    have := Real.log_le_sub_one_of_pos (show (0 : ℝ) < 1.005 by norm_num)
    nlinarith
  have hden : 0 < 4 * 256 * 38 * logb 2 (1.005 : ℝ) := by positivity
  have u := hnear.upper (by norm_num)
  have l := hnear.lower (by norm_num)
  have q1 : 4.5 ≤ logb 2 beta * logb 2 beta / (4 * 256 * 38 * logb 2 1.005) := by
    rw [le_div_iff₀ hden]; nlinarith
  have q2 : logb 2 beta * logb 2 beta / (4 * 256 * 38 * logb 2 1.005) ≤ 4.995 := by
    rw [div_le_iff₀ hden]; nlinarith
  refine congrArg Except.ok ?_
  show ⌈F.div (F.mul (F.log2 beta) (F.log2 beta))
      (F.mul (F.mul (F.mul 4 256) (F.log2 (2 ^ 38))) (F.log2 (F.round 1.005)))⌉ = 5
  generalize logb 2 beta * logb 2 beta / (4 * 256 * 38 * logb 2 1.005) = Z at *
  rw [Int.ceil_eq_iff]
  push_cast
  clear g1 g2 d1 d2 hden b1 b2 n1 n2
  constructor <;> nlinarith

theorem two_loop : F.inLoop (F.npVars 9 2 ⟨2, 16⟩ 1) = .ok 5 := by
  have hlogq : F.log2 (2 ^ 38) = 38 := by
    have := hF.log2_pow 38
    exact_mod_cast this
  have hbody : ∀ mu : Nat, 1 ≤ mu → mu ≤ 5 →
      (do
        let q := F.inQ (F.npVars 9 2 ⟨2, 16⟩ 1) mu
        if F.log2 q > 240 then pure none
        else
          let r ← F.findMSISRank (F.npVars 9 2 ⟨2, 16⟩ 1).d q (F.inMSISBeta (F.npVars 9 2 ⟨2, 16⟩ 1) mu)
          if r = mu then pure (some mu) else pure none : Go (Option Nat)) =
      if (5 : ℤ) = mu then .ok (some mu) else .ok none := by
    intro mu h1 h2
    obtain ⟨hq, hr⟩ := two_inner hF h1 h2
    dsimp only
    rw [hr, hq, hlogq, if_neg (by norm_num), go_bind_ok]
    rfl
  refine forever_ok (i := 5) (by norm_num) ?_ ?_
  · rw [hbody 5 (by norm_num) le_rfl]; simp
  · intro j h1 h2
    rw [hbody j h1 (by omega), if_neg (by omega)]

omit hF in
/-- The outer norm. -/
theorem two_outBeta : (⟨2, 2, 16, 256, 32, 1, 1⟩ : NPVars).outBetaOf (2 ^ 38) 5 =
      2 ^ 38 * (13107200 * √2 / (⟨2, 2, 16, 256, 32, 1, 1⟩ : NPVars).resTwo 5) := by
    obtain ⟨r1, r2⟩ := two_resTwo (mu := 5) (by norm_num) le_rfl
    have hs : √(2 : ℝ) * √2 = 2 := Real.mul_self_sqrt (by norm_num)
    have p1 : 0 < √(2 : ℝ) := Real.sqrt_pos.mpr (by norm_num)
    have p5 : 0 < √(5 : ℝ) := Real.sqrt_pos.mpr (by norm_num)
    have h5 : √(5 : ℝ) * √5 = 5 := Real.mul_self_sqrt (by norm_num)
    have e1 : √(((5 : ℕ) : ℝ) * 256) = √5 * 16 := by
      rw [Real.sqrt_mul (by norm_num), show √(256 : ℝ) = 16 by
        rw [show (256 : ℝ) = 16 ^ 2 by norm_num, Real.sqrt_sq (by norm_num)]]
      norm_num
    have e2 : √((1 + 1) * ((5 : ℕ) : ℝ) * 256) = √2 * (√5 * 16) := by
      rw [mul_assoc, Real.sqrt_mul (by norm_num), e1]
      norm_num
    have hR : (⟨2, 2, 16, 256, 32, 1, 1⟩ : NPVars).resTwo 5 ≠ 0 := by
      have : 0 < 840000 * (√(2 : ℝ) * 4) := by positivity
      linarith
    have hcut : (⟨2, 2, 16, 256, 32, 1, 1⟩ : NPVars).inCutOffInf 5 =
        (⟨2, 2, 16, 256, 32, 1, 1⟩ : NPVars).resTwo 5 / (5 * (√5 * 16)) / (√2 * 4) := by
      unfold NPVars.inCutOffInf NPVars.scaleDown
      rw [two_cOne]
      simp only [Real.sqrt_one]
      rw [e1]
      norm_num
    unfold NPVars.outBetaOf NPVars.dcmpTwoOf NPVars.scaleUp NPVars.dExtOne
    rw [hcut, two_cOne]
    simp only [e2]
    generalize (⟨2, 2, 16, 256, 32, 1, 1⟩ : NPVars).resTwo 5 = R at *
    norm_num
    field_simp
    have t5 : √(5 : ℝ) ^ 2 = 5 := by rw [sq]; exact h5
    have t2 : √(2 : ℝ) ^ 2 = 2 := by rw [sq]; exact hs
    rw [t5, t2]
    norm_num

theorem two_outer : F.outQ (F.npVars 9 2 ⟨2, 16⟩ 1) 5 = 2 ^ 40 ∧
    ∃ r, F.findMSISRank (F.npVars 9 2 ⟨2, 16⟩ 1).d (F.outQ (F.npVars 9 2 ⟨2, 16⟩ 1) 5)
      (F.outMSISBeta (F.npVars 9 2 ⟨2, 16⟩ 1) 5) = .ok r := by
  have hW := two_near hF
  have hV : (⟨2, 2, 16, 256, 32, 1, 1⟩ : NPVars).Ok := ⟨by norm_num, by norm_num, by norm_num, by norm_num,
    by norm_num, by norm_num, by norm_num⟩
  obtain ⟨hq, -⟩ := two_inner hF (show 1 ≤ 5 by norm_num) le_rfl
  obtain ⟨r1, r2⟩ := two_resTwo (mu := 5) (by norm_num) le_rfl
  have p1 : 0 < √(2 : ℝ) := Real.sqrt_pos.mpr (by norm_num)
  have hD := two_outBeta
  have hn := foutBeta_near hF hV hW (show 1 ≤ 5 by norm_num) (by rw [hq]; norm_num)
  rw [hq, hD] at hn
  have n1 := hn.lower (by norm_num)
  have n2 := hn.upper (by norm_num)
  set R := (⟨2, 2, 16, 256, 32, 1, 1⟩ : NPVars).resTwo 5 with hR
  have hR0 : 0 < R := lt_of_lt_of_le (by positivity) r1
  have x1 : (3.7 : ℝ) ≤ 13107200 * √2 / R := by
    rw [le_div_iff₀ hR0]; nlinarith
  have x2 : 13107200 * √2 / R ≤ (3.92 : ℝ) := by
    rw [div_le_iff₀ hR0]; nlinarith
  generalize 13107200 * √2 / R = Y at *
  set beta := F.outMSISBeta (F.npVars 9 2 ⟨2, 16⟩ 1) 5 with hbeta
  have b1 : 2 ^ 38 * 3.6 ≤ beta := by norm_num at n1 ⊢; linarith
  have b2 : beta ≤ 2 ^ 38 * 3.93 := by norm_num at n2 ⊢; nlinarith
  have hceil : ⌈F.log2 beta⌉ = 40 := ceil_flog hF (j := 39) (by norm_num) (by norm_num)
    (by norm_num at b1 ⊢; linarith) (by norm_num at b2 ⊢; linarith)
  have hlm := flogModulus hF (by norm_num) (by norm_num) hceil
  have hq' : F.outQ (F.npVars 9 2 ⟨2, 16⟩ 1) 5 = 2 ^ 40 := by
    unfold Flt.outQ
    rw [← hbeta, hlm, round_int hF (by norm_num), hF.exp2_int]
    norm_num
  have hlogq : F.log2 (2 ^ 40) = 40 := by
    have := hF.log2_pow 40
    exact_mod_cast this
  refine ⟨hq', ?_⟩
  have hr : ∃ r, F.findMSISRank (F.npVars 9 2 ⟨2, 16⟩ 1).d (F.outQ (F.npVars 9 2 ⟨2, 16⟩ 1) 5) beta =
      .ok r := by
    unfold Flt.findMSISRank
    rw [hq', if_neg (by push Not; norm_num at b2 ⊢; linarith)]
    exact ⟨_, rfl⟩
  exact hr

/-- The parameters for two polynomials of 9 coefficients, for every generator of primes. -/
theorem two_sound_gen {gen : ℤ → ℤ → Option (List Nat)} (hg : GenOk gen) :
    ∃ P, F.newParameters gen 9 2 65537 = .ok P ∧ P.SoundTol := by
  have hloop := two_loop hF
  obtain ⟨hq', r, hr⟩ := two_outer hF
  have hlogq : F.log2 (2 ^ 40) = 40 := by
    have := hF.log2_pow 40
    exact_mod_cast this
  have hstep : F.npStep gen 9 2 ⟨2, 16⟩
      (RParams.zero, none) 1 = .ok (F.npAssign (F.npVars 9 2 ⟨2, 16⟩ 1)
      gen 2 ⟨2, 16⟩ 1 5 r
      (RParams.zero, none)) := by
    unfold Flt.npStep
    dsimp only
    rw [hloop, go_bind_ok, hr, hq', hlogq, if_neg (by norm_num)]
    rfl
  obtain ⟨f1, f2, f3, f4, f5⟩ := fslots hF (k := 16) ⟨4, rfl⟩
  have hret : F.newParameters gen 9 2 65537 =
      .ok (F.npAssign (F.npVars 9 2 ⟨2, 16⟩ 1)
      gen 2 ⟨2, 16⟩ 1 5 r
      (RParams.zero, none)).1 := by
    unfold Flt.newParameters
    rw [if_neg (by norm_num), if_neg (by norm_num), encPars_65537, go_bind_ok]
    dsimp only
    have hmax : ⌈F.div (F.round ((9 : ℕ) : ℝ)) (F.div (max (F.round ((16 : ℕ) : ℝ)) 256) (F.round ((16 : ℕ) : ℝ)))⌉₊ = 1 := by
      rw [f1, f2, f4, round_nat hF (by norm_num)]
      have hd : F.div ((9 : ℕ) : ℝ) ((max 16 256 / 16 : ℕ) : ℝ) = 9 / 16 := by
        unfold Flt.div
        have : ((9 : ℕ) : ℝ) / ((max 16 256 / 16 : ℕ) : ℝ) = 9 / 16 := by norm_num
        rw [this]
        have := hF.round_exact 9 (-4) (by norm_num)
        norm_num at this ⊢
        exact this
      rw [hd, Nat.ceil_eq_iff (by norm_num)]
      norm_num
    rw [hmax, show doublings 1 1 = [1] by simp [doublings], List.foldlM_cons, hstep]
    rfl
  refine ⟨_, hret, ?_⟩
  rcases fstep_sound hF hg (p := 65537) (by norm_num) ⟨4, rfl⟩ (by norm_num) (by norm_num) (by norm_num) (by norm_num)
    (by norm_num) le_rfl (by rw [show ceilDiv 9 (max (EcdParams.mk 2 16).exp 256 / (EcdParams.mk 2 16).exp) = 1 from rfl])
    hstep with ⟨-, h⟩ | ⟨h, -⟩
  · have := h rfl 5 hloop
    rw [hq', hlogq] at this
    norm_num at this
  · exact h

end

/-- The prover and the verifier for two polynomials of 9 coefficients, IEEE arithmetic, any oracle, any generator
of coprime odd numbers. -/
theorem two_env (fused : Bool) {gen : ℤ → ℤ → Option (List Nat)} (hg : GenOk gen)
    (hch : ∀ bits limbs Q, gen bits limbs = some Q → 64 ≤ Q.prod → Chain Q ∧ ∀ q ∈ Q, 1 ≤ q ∧ q ≤ 2 ^ 63) :
    ∃ (P : RParams) (Q Q' : List Nat),
    (ieee fused).newParameters gen 9 2 65537 = .ok P ∧ P ≠ RParams.zero ∧
    P.shape = ⟨2, 16, 2, 1, 2, 16, 16, some 1, some 1⟩ ∧ P.qs = some Q ∧ gen 38 1 = some Q ∧ P.SoundTol ∧
    ∀ xof : List (JMsg (RQ Q 256) (RQ Q' 256) (ZMod 65537)) → Nat → List (BitVec 8),
      (∀ ms i, (xof ms i).length = 16) → ∃ E : JEnv 65537 (RQ Q 256) (RQ Q' 256), E.xof = xof ∧ E.From P ∧
        Nonempty E.ringQ.Lawful ∧ Nonempty E.ringQ'.Lawful := by
  have hF := ieee_ok fused
  obtain ⟨P, hP, hS⟩ := two_sound_gen hF hg
  have hne : P ≠ RParams.zero := by
    rintro rfl
    have := hS.inRank.1
    simp [RParams.zero] at this
  obtain ⟨ht1, hb1, e, he, nn, mu, r, Q, Q', hit, hfin⟩ := newParameters_from hF hg (by norm_num) (by norm_num)
    (by norm_num) hP hne
  rw [encPars_65537] at he
  injection he with he
  subst he
  have hnn : nn = 1 := by
    have h1 := hit.one
    have h2 := hit.le
    rw [show ceilDiv 9 (max (EcdParams.mk 2 16).exp 256 / (EcdParams.mk 2 16).exp) = 1 from rfl] at h2
    omega
  subst hnn
  have hmu : mu = 5 := by
    have h1 := hit.inn
    rw [two_loop hF] at h1
    exact (Except.ok.inj h1).symm
  subst hmu
  have hgen := primes_gen hF (M := 38) (by norm_num) (by norm_num)
    (by exact_mod_cast (two_inner hF (by norm_num) le_rfl).1) hit.pr
  have hsh : P.shape = ⟨2, 16, 2, 1, 2, 16, 16, some 1, some 1⟩ := by
    rw [hfin]
    show ({ (ieee fused).shapeOf ((ieee fused).npVars 9 2 ⟨2, 16⟩ 1) 2 ⟨2, 16⟩ with
      ringQ := some 1, ringQOut := some 1 } : JParams) = _
    rw [fshape hF ⟨4, rfl⟩ (by rw [npVars_two]; exact two_near hF)]
    rfl
  obtain ⟨R, R', q1, q2, hE⟩ := from_exists hg hch (by norm_num) (by norm_num) (by norm_num) hP hne (by rw [hsh]; norm_num)
  have q3 : P.qs = some Q := by rw [hfin]; rfl
  rw [q1] at q3
  injection q3 with q3
  subst q3
  exact ⟨P, R, R', hP, hne, hsh, q1, hgen, hS, hE⟩

/-- The modulus `2^b + 1` is near. -/
theorem exNear_single {b : Nat} (h4 : 4 ≤ b) (h62 : b < 62) : NearPrimes exNear [2 ^ b + 1] := by
  intro bits limbs h a ha
  rw [List.mem_singleton.mp ha]
  unfold exNear at h
  split at h
  · injection h with h
    have h1 : 2 ^ min bits.toNat 62 = 2 ^ b := by
      have := List.head_eq_of_cons_eq h
      omega
    have h2 : min bits.toNat 62 = b := Nat.pow_right_injective le_rfl h1
    rw [show bits.toNat = b by omega]
    have : 2 ^ 4 ≤ 2 ^ b := Nat.pow_le_pow_right (by norm_num) h4
    omega
  · unfold exGen at h
    injection h with h
    have h2 : 2 ^ b + 1 ∈ exFour.take limbs.toNat := by rw [h]; simp
    rename_i hl
    have : exFour.length = 4 := rfl
    have h1 := congrArg List.length h
    rw [List.length_take, this] at h1
    simp at h1
    omega

/-- For this field and two polynomials all challenges are zero, hence all responses. -/
theorem two_typical {T T' : Type} [AddCommGroup T] [AddCommGroup T'] {P : RParams}
    (hsh : P.shape = ⟨2, 16, 2, 1, 2, 16, 16, some 1, some 1⟩) (hS : P.SoundTol) {E : JEnv 65537 T T'}
    (hE : E.From P) (hgood : E.Good) {x : ZMod 65537}
    {coms : List (List T')} {I : Nat → JInts} {pf : JProof T T'} {W : JWit}
    (hW : E.Honest x coms pf I W) : E.Typical P W := by
  obtain ⟨limbs, resNm, dcmpNm, -, -, -, hpar⟩ := hE.par
  have hbatch : E.par.batch = 2 := by rw [hpar]; show P.shape.batch = 2; rw [hsh]
  have hcols : E.par.mat.cols = 1 := by rw [hpar]; show P.shape.cols = 1; rw [hsh]
  have hrows : E.par.mat.rows = 2 := by rw [hpar]; show P.shape.rows = 2; rw [hsh]
  have hdcmp : E.par.dcmpLen = (E.par.mat.cols + 1) * E.par.inRank := hgood.dcmp
  have hbase : E.par.enc.ecd.base = 2 := by rw [hpar]; show P.shape.base = 2; rw [hsh]
  have hexp : E.par.enc.ecd.exp = 16 := by rw [hpar]; show P.shape.exp = 16; rw [hsh]
  have hN1 := JEnv.encN_pos hgood
  have hch : challengeBound E.par.enc.ecd = 1 := by
    unfold challengeBound
    rw [hbase, hexp]
    rfl
  have hbet : ∀ i, toZ E.par.enc.N (E.betInt x coms i) = 0 := by
    intro i
    unfold JEnv.betInt
    rw [if_pos (by omega)]
    unfold chalInt
    rw [toZ_range]
    apply Finset.sum_eq_zero
    intro i _
    rw [hch]
    split <;> simp [centred, Nat.mod_one]
  have hchal : 0 ≤ P.chal := by unfold RParams.chal; positivity
  have hgr : 0 ≤ P.batchGrowth := by
    unfold RParams.batchGrowth; split <;> positivity
  have dev : ∀ {a b : ℝ}, 0 ≤ b → WithinTol a b → 0 ≤ a := fun hb h =>
    le_trans (by positivity) (withinTol_lower hb h)
  have hw : 0 < √(2 * π) := Real.sqrt_pos.mpr (by positivity)
  have real : ∀ {z : List Int} {b : ℝ}, z.length = E.par.enc.N → toZ E.par.enc.N z = 0 →
      0 ≤ b → ∀ c ∈ z, ((|c| : ℤ) : ℝ) ≤ b := by
    intro z b h1 h2 h3 c hc'
    have hb : Bnd E.par.enc.N (toZ E.par.enc.N z) 0 := by rw [h2]; exact Bnd.zero _
    have := hb.coeffs hN1 h1 c hc'
    have h4 : |c| ≤ (0 : ℤ) := by rw [Int.abs_eq_natAbs]; exact_mod_cast this
    refine le_trans ?_ h3
    exact_mod_cast h4
  have e1 : 0 ≤ P.ecdStdDev := by
    have h := hS.ecdDev
    rw [hsh] at h
    have := dev (by norm_num) h
    generalize √(2 * π) = w at *
    norm_num at this
    exact nonneg_of_mul_nonneg_left this hw
  have e2 : 0 ≤ P.ecdBlindStdDev := dev (by positivity) hS.blindDev
  have e3 : 0 ≤ P.maskStdDev := dev (by positivity) hS.maskDev
  have e4 : 0 ≤ P.maskBlindStdDev := dev (by positivity) hS.maskBlindDev
  have e5 : 0 ≤ P.mlweStdDev := nonneg_of_mul_nonneg_left (dev (by positivity) hS.mlweDev) hw
  have e6 : 0 ≤ P.maskMLWEStdDev := dev (by positivity) hS.maskMLWEDev
  have f1 : 0 ≤ P.resRow := by unfold RParams.resRow RParams.tail; positivity
  have f2 : 0 ≤ P.resBlind := by unfold RParams.resBlind RParams.tail; positivity
  have f3 : 0 ≤ P.resMLWE := by unfold RParams.resMLWE RParams.tail; positivity
  have f4 : 0 ≤ P.partBound := by unfold RParams.partBound RParams.tail; positivity
  have zero : ∀ (n : Nat) (g : Nat → _), ∑ i ∈ range n, toZ E.par.enc.N (E.betInt x coms i) * g i = 0 := by
    intro n g
    simp only [hbet, zero_mul, Finset.sum_const_zero]
  refine ⟨?_, ?_, ?_, ?_, ?_, ?_, ?_⟩
  · exact real (hW.e 0 (by omega)).1 ((hW.e 0 (by omega)).2.trans (zero _ _)) f2
  · exact fun k _ hk => real (hW.e k hk).1 ((hW.e k hk).2.trans (zero _ _)) f1
  · exact fun k hk => real (hW.m k hk).1 ((hW.m k hk).2.trans (zero _ _)) f3
  · exact fun k hk => real (hW.u k hk).1 ((hW.u k hk).2.trans (by rw [zero, neg_zero])) (by positivity)
  · exact fun j hj => real (hW.f j hj).1 ((hW.f j hj).2.trans (by simp only [zero, mul_zero, Finset.sum_const_zero])) f4
  · intro _ l hl
    have hr : 0 < E.par.inRank := by
      rcases Nat.eq_zero_or_pos E.par.inRank with h | h
      · rw [hdcmp, h, mul_zero] at hl; omega
      · exact h
    have hk : l % E.par.inRank < E.par.inRank := Nat.mod_lt _ hr
    have hj : l / E.par.inRank ≤ E.par.mat.cols := by
      have := (Nat.div_lt_iff_lt_mul hr).mpr (hdcmp ▸ hl)
      omega
    have ht := hW.t _ hj _ hk
    rw [show l / E.par.inRank * E.par.inRank + l % E.par.inRank = l by rw [mul_comm]; exact Nat.div_add_mod _ _] at ht
    exact real ht.1 (ht.2.trans (zero _ _)) (by positivity)
  · exact fun _ k hk => real (hW.s k hk).1 ((hW.s k hk).2.trans (by rw [zero, neg_zero])) (by positivity)

end Ringo
