import Verif.Props.JParams

/-!
# C92: a rank that is skipped

`NewParameters` looks for the first `mu` with `findMSISRank = mu`.  The modulus grows with `mu` in steps of one
bit, and the rank falls when it does, so that the equation may have no solution.
-/

namespace Ringo

open Real

/-- The variables of the iteration with 128 columns for `NewParameters(2981888, 4)` over the field of order 3. -/
noncomputable def skipVars : NPVars := ⟨4, 2, 1, 256, 32, 128, 91⟩

theorem npVars_skip : npVars 2981888 4 ⟨2, 1⟩ 128 = skipVars := by
  unfold npVars ceilDiv skipVars
  norm_num

theorem skip_ok : skipVars.Ok := by
  unfold skipVars
  exact ⟨by norm_num, by norm_num, by norm_num, by norm_num, by norm_num, by norm_num, by norm_num⟩

theorem skip_c : skipVars.cOne = 1 := by
  unfold NPVars.cOne skipVars
  simp only
  rw [Real.sqrt_one, min_eq_left]
  · norm_num
  · calc (2 : ℝ) = 2 ^ (1 : ℝ) := (Real.rpow_one 2).symm
      _ ≤ 2 ^ ((120 : ℝ) / 1) := Real.rpow_le_rpow_of_exponent_le (by norm_num) (by norm_num)

theorem skip_fac (x : ℝ) : skipVars.scaleUp x = 2 * x := by
  have h4 : √(4 : ℝ) = 2 := by
    rw [show (4 : ℝ) = 2 ^ 2 by norm_num, Real.sqrt_sq (by norm_num)]
  rw [NPVars.scaleUp_eq, NPVars.batchFac, skip_c]
  simp only [skipVars, h4]
  norm_num
  ring

/-- The square of the norm, up to the factor 256. -/
theorem skip_sq (mu : Nat) : skipVars.resTwo mu ^ 2 =
    256 * (91 * 1166400 * (257 + 2 * √16512) + 4665600 * (23553 + 2 * √138685952) +
      (mu + 32) * 28800 * (257 + 2 * √16512)) := by
  have hS : (√128 + √129) * (√128 + √129) = 257 + 2 * √(16512 : ℝ) := by
    have h1 : √128 * √129 = √(16512 : ℝ) := by rw [← Real.sqrt_mul (by norm_num)]; norm_num
    have h2 : √(128 : ℝ) * √128 = 128 := Real.mul_self_sqrt (by norm_num)
    have h3 : √(129 : ℝ) * √129 = 129 := Real.mul_self_sqrt (by norm_num)
    linear_combination h2 + h3 + 2 * h1
  have hT : (√128 * √92 + √11777) * (√128 * √92 + √11777) = 23553 + 2 * √(138685952 : ℝ) := by
    have h0 : √128 * √92 = √(11776 : ℝ) := by rw [← Real.sqrt_mul (by norm_num)]; norm_num
    have h1 : √11776 * √11777 = √(138685952 : ℝ) := by rw [← Real.sqrt_mul (by norm_num)]; norm_num
    have h2 : √(11776 : ℝ) * √11776 = 11776 := Real.mul_self_sqrt (by norm_num)
    have h3 : √(11777 : ℝ) * √11777 = 11777 := Real.mul_self_sqrt (by norm_num)
    rw [h0]
    linear_combination h2 + h3 + 2 * h1
  have h2 : √(2 : ℝ) * √2 = 2 := Real.mul_self_sqrt (by norm_num)
  have hi : skipVars.resEcdiInf = 1080 * (√128 + √129) := by
    rw [NPVars.resEcdiInf, skip_fac, skip_c]
    simp only [NPVars.fijInf, NPVars.finInf, NPVars.ecdStdDev, NPVars.maskStdDev, skip_c]
    simp only [skipVars]
    norm_num
    ring
  have h0 : skipVars.resEcd0Inf = 2160 * (√128 * √92 + √11777) := by
    rw [NPVars.resEcd0Inf, skip_fac, skip_c]
    simp only [NPVars.f0jInf, NPVars.f0nInf, NPVars.ecdBlindStdDev, NPVars.maskBlindStdDev, NPVars.xOne, skip_c]
    simp only [skipVars, Real.sqrt_one]
    norm_num
    ring
  have hm : skipVars.resMLWEInf = 120 * √2 * (√128 + √129) := by
    rw [NPVars.resMLWEInf]
    simp only [skip_fac, skip_c, NPVars.mlweStdDev, NPVars.maskMLWEStdDev]
    simp only [skipVars]
    norm_num
    ring
  have he : skipVars.resEcdTwo * skipVars.resEcdTwo =
      256 * (91 * 1166400 * (257 + 2 * √16512) + 4665600 * (23553 + 2 * √138685952)) := by
    have h256 : skipVars.d = 256 := rfl
    have h91 : skipVars.m = 91 := rfl
    rw [NPVars.resEcdTwo, hi, h0, h256, h91, Real.mul_self_sqrt (by positivity)]
    linear_combination 256 * 91 * 1166400 * hS + 256 * 4665600 * hT
  have hd : √((256 : ℝ) * (mu + 32)) * √((256 : ℝ) * (mu + 32)) = 256 * (mu + 32) :=
    Real.mul_self_sqrt (by positivity)
  rw [NPVars.resTwo, Real.sq_sqrt (add_nonneg (mul_self_nonneg _) (mul_self_nonneg _)), he, hm]
  simp only [skipVars]
  have h5 : √((256 : ℝ) * (mu + 32)) * (120 * √2 * (√128 + √129)) * (√((256 : ℝ) * (mu + 32)) * (120 * √2 * (√128 + √129)))
      = (√((256 : ℝ) * (mu + 32)) * √((256 : ℝ) * (mu + 32))) * (14400 * (√2 * √2) * ((√128 + √129) * (√128 + √129))) := by
    ring
  rw [h5, hd, h2, hS]
  ring

theorem skip_beta (mu : Nat) : skipVars.inMSISBeta mu = 128 * skipVars.resTwo mu := by
  rw [NPVars.inMSISBeta_eq, NPVars.inFac, skip_c]
  simp only [skipVars]
  norm_num
  ring

theorem skip_roots : 128.499 < √(16512 : ℝ) ∧ √(16512 : ℝ) < 128.4991 ∧ 11776.4999 < √(138685952 : ℝ) ∧
    √(138685952 : ℝ) < 11776.5 := by
  refine ⟨?_, ?_, ?_, ?_⟩
  · rw [Real.lt_sqrt (by norm_num)]; norm_num
  · rw [Real.sqrt_lt' (by norm_num)]; norm_num
  · rw [Real.lt_sqrt (by norm_num)]; norm_num
  · rw [Real.sqrt_lt' (by norm_num)]; norm_num

theorem logDelta_le : logb 2 1.005 ≤ (0.00722 : ℝ) := by
  rw [Real.logb, div_le_iff₀ (Real.log_pos (by norm_num))]
  have h1 : Real.log 1.005 ≤ (1.005 : ℝ) - 1 := Real.log_le_sub_one_of_pos (by norm_num)
  have h2 := Real.log_two_gt_d9
  nlinarith

theorem skip_bounds : (2 : ℝ) ^ 29 * 1.99 < skipVars.inMSISBeta 1 ∧ skipVars.inMSISBeta 4 ≤ 2 ^ 30 ∧
    2 ^ 30 < skipVars.inMSISBeta 5 ∧ skipVars.inMSISBeta 5 < 2 ^ 30 * 1.01 := by
  obtain ⟨a1, a2, a3, a4⟩ := skip_roots
  have hp : ∀ mu, 0 ≤ skipVars.inMSISBeta mu := fun mu => (NPVars.inMSISBeta_pos skip_ok mu).le
  have hsq : ∀ mu, skipVars.inMSISBeta mu ^ 2 = 16384 * skipVars.resTwo mu ^ 2 := fun mu => by
    rw [skip_beta]; ring
  refine ⟨?_, ?_, ?_, ?_⟩
  · apply lt_of_pow_lt_pow_left₀ 2 (hp _)
    rw [hsq, skip_sq]; push_cast; linarith
  · rw [← pow_le_pow_iff_left₀ (hp _) (by norm_num) (two_ne_zero)]
    rw [hsq, skip_sq]; push_cast; linarith
  · apply lt_of_pow_lt_pow_left₀ 2 (hp _)
    rw [hsq, skip_sq]; push_cast; linarith
  · apply lt_of_pow_lt_pow_left₀ 2 (by norm_num)
    rw [hsq, skip_sq]; push_cast; linarith

/-- Doubling the bound at most every step. -/
theorem skip_growth (j : Nat) : skipVars.inMSISBeta (5 + j) ≤ 2 ^ j * skipVars.inMSISBeta 5 := by
  induction j with
  | zero => simp
  | succ j ih =>
    have h : skipVars.inMSISBeta (5 + (j + 1)) ≤ 2 * skipVars.inMSISBeta (5 + j) := by
      obtain ⟨a1, a2, a3, a4⟩ := skip_roots
      rw [skip_beta, skip_beta]
      have h1 := skip_sq (5 + (j + 1))
      have h2 := skip_sq (5 + j)
      have h3 : skipVars.resTwo (5 + (j + 1)) ≤ 2 * skipVars.resTwo (5 + j) := by
        rw [← pow_le_pow_iff_left₀ (NPVars.resTwo_pos skip_ok _).le
          (by have := (NPVars.resTwo_pos skip_ok (5 + j)).le; linarith) two_ne_zero, mul_pow, h1, h2]
        push_cast
        have : (0 : ℝ) ≤ j := Nat.cast_nonneg j
        nlinarith
      linarith
    rw [pow_succ]
    linarith

theorem skip_rank_lt {mu : Nat} (h : 5 ≤ mu) : rankAt skipVars mu < mu := by
  obtain ⟨b1, b2, b3, b4⟩ := skip_bounds
  obtain ⟨j, rfl⟩ : ∃ j, mu = 5 + j := ⟨mu - 5, by omega⟩
  have hgr := skip_growth j
  set B := skipVars.inMSISBeta (5 + j) with hB
  have hB0 : 0 < B := NPVars.inMSISBeta_pos skip_ok _
  have hB5 : 2 ^ 30 < B := lt_of_lt_of_le b3 (NPVars.inMSISBeta_mono skip_ok (by omega))
  have hl0 : 30 < logb 2 B := by
    rw [Real.lt_logb_iff_rpow_lt (by norm_num) hB0]
    exact_mod_cast hB5
  have hlog : logb 2 B ≤ 30.05 + j := by
    have h1 : logb 2 B ≤ logb 2 (2 ^ (30 + j) * 1.01) := by
      apply Real.logb_le_logb_of_le (by norm_num) hB0
      rw [pow_add]
      have : (0 : ℝ) < 2 ^ j := by positivity
      nlinarith
    have h2 : logb 2 ((2 : ℝ) ^ (30 + j) * 1.01) = 30 + j + logb 2 1.01 := by
      rw [Real.logb_mul (by positivity) (by norm_num), Real.logb_pow, Real.logb_self_eq_one (by norm_num)]
      push_cast; ring
    have h3 : logb 2 1.01 ≤ 0.05 := by
      rw [Real.logb, div_le_iff₀ (Real.log_pos (by norm_num))]
      have h1 : Real.log 1.01 ≤ (1.01 : ℝ) - 1 := Real.log_le_sub_one_of_pos (by norm_num)
      have h2 := Real.log_two_gt_d9
      nlinarith
    linarith
  have hQ : logb 2 B ≤ skipVars.inLogQ (5 + j) ∧ 31 ≤ skipVars.inLogQ (5 + j) := by
    have h1 := le_bits_limbs (NPVars.one_le_ceil_log (NPVars.one_lt_inBeta skip_ok (mu := 5 + j) (by omega)))
    rw [← hB] at h1
    have h2 : ⌈logb 2 B⌉ ≤ skipVars.inLogQ (5 + j) := h1
    have h3 : 31 ≤ ⌈logb 2 B⌉ := by
      rw [Int.le_ceil_iff]; push_cast; linarith
    exact ⟨(Int.le_ceil _).trans (by exact_mod_cast h2), h3.trans h2⟩
  obtain ⟨q1, q2⟩ := hQ
  have q3 : (31 : ℝ) ≤ skipVars.inLogQ (5 + j) := by exact_mod_cast q2
  have hD := logDelta_ge
  have hd : skipVars.d = 256 := rfl
  have hx : logb 2 B * logb 2 B / (4 * 256 * skipVars.inLogQ (5 + j) * logb 2 1.005) ≤ 4 + j := by
    rw [div_le_iff₀ (by positivity)]
    have h1 : (7.342 : ℝ) * skipVars.inLogQ (5 + j) ≤ 4 * 256 * skipVars.inLogQ (5 + j) * logb 2 1.005 := by
      nlinarith
    have h2 : (0 : ℝ) ≤ j := Nat.cast_nonneg j
    refine le_trans ?_ (mul_le_mul_of_nonneg_left h1 (by linarith))
    rcases Nat.eq_zero_or_pos j with h0 | h0
    · subst h0
      norm_num at hlog ⊢
      nlinarith
    · have h3 : (1 : ℝ) ≤ j := by exact_mod_cast h0
      calc logb 2 B * logb 2 B ≤ (7.342 * (4 + j)) * skipVars.inLogQ (5 + j) :=
            mul_le_mul (by linarith) q1 (by linarith) (by linarith)
        _ = _ := by ring
  rw [rankAt, ← hB, hd]
  have : ⌈logb 2 B * logb 2 B / (4 * 256 * skipVars.inLogQ (5 + j) * logb 2 1.005)⌉ ≤ (4 + j : ℤ) := by
    rw [Int.ceil_le]; push_cast; exact hx
  push_cast
  omega

theorem skip_log {mu : Nat} (h1 : 1 ≤ mu) : 29.9 < logb 2 (skipVars.inMSISBeta mu) := by
  obtain ⟨b1, -, -, -⟩ := skip_bounds
  have hlo := NPVars.inMSISBeta_mono skip_ok h1
  have h1 : logb 2 ((2 : ℝ) ^ 30 * 0.995) ≤ logb 2 (skipVars.inMSISBeta mu) :=
    Real.logb_le_logb_of_le (by norm_num) (by norm_num) (le_trans (by norm_num) (b1.le.trans hlo))
  have h2 : logb 2 ((2 : ℝ) ^ 30 * 0.995) = 30 + logb 2 0.995 := by
    rw [Real.logb_mul (by positivity) (by norm_num), Real.logb_pow, Real.logb_self_eq_one (by norm_num)]
    norm_num
  have h3 : -0.05 < logb 2 0.995 := by
    rw [Real.logb, lt_div_iff₀ (Real.log_pos (by norm_num))]
    have h1 : 1 - (0.995 : ℝ)⁻¹ ≤ Real.log 0.995 := Real.one_sub_inv_le_log_of_pos (by norm_num)
    have h2 := Real.log_two_gt_d9
    have h3 : -0.006 ≤ 1 - (0.995 : ℝ)⁻¹ := by norm_num
    nlinarith
  linarith

theorem skip_rank_gt {mu : Nat} (h1 : 1 ≤ mu) (h4 : mu ≤ 4) : (mu : ℤ) < rankAt skipVars mu := by
  obtain ⟨b1, b2, b3, b4⟩ := skip_bounds
  have hlo := NPVars.inMSISBeta_mono skip_ok h1
  have hhi := NPVars.inMSISBeta_mono skip_ok h4
  have hB0 : 0 < skipVars.inMSISBeta mu := NPVars.inMSISBeta_pos skip_ok _
  have hl := skip_log h1
  have hc : ⌈logb 2 (skipVars.inMSISBeta mu)⌉ = 30 := by
    rw [Int.ceil_eq_iff]
    constructor
    · push_cast; linarith
    · rw [Real.logb_le_iff_le_rpow (by norm_num) hB0]
      exact_mod_cast hhi.trans b2
  have hQ : skipVars.inLogQ mu = 30 := by
    unfold NPVars.inLogQ bitsOf limbsOf
    simp only [hc]
    norm_num
  have hD := logDelta_le
  have hD' := logDelta_ge
  have hd : skipVars.d = 256 := rfl
  rw [rankAt, hQ, hd, Int.lt_ceil, lt_div_iff₀ (by positivity)]
  have : ((mu : ℤ) : ℝ) ≤ 4 := by exact_mod_cast h4
  push_cast at this ⊢
  nlinarith

/-- No `mu` is the rank for itself. -/
theorem skip_hang : skipVars.inLoop = .error .hang := by
  apply forever_hang
  intro mu hmu
  dsimp only
  split
  · rfl
  · rw [findMSISRank_at skip_ok hmu, go_bind_ok, if_neg]
    · rfl
    · rcases Nat.lt_or_ge mu 5 with h | h
      · exact (skip_rank_gt hmu (by omega)).ne'
      · exact (skip_rank_lt h).ne

theorem mem_doublings {lo hi n j : Nat} (hlo : 1 ≤ lo) (hn : n = lo * 2 ^ j) (h : n ≤ hi) : n ∈ doublings lo hi := by
  induction j generalizing lo with
  | zero =>
    rw [doublings, if_pos ⟨hlo, by omega⟩, hn]
    simp
  | succ j ih =>
    have h1 : 1 ≤ 2 ^ (j + 1) := Nat.one_le_two_pow
    have h2 : lo ≤ hi := by
      calc lo = lo * 1 := (mul_one lo).symm
        _ ≤ lo * 2 ^ (j + 1) := Nat.mul_le_mul_left _ h1
        _ ≤ hi := by omega
    rw [doublings, if_pos ⟨hlo, h2⟩]
    refine List.mem_cons_of_mem _ (ih (by omega) ?_)
    rw [hn, pow_succ]; ring

theorem newParametersR_hang_at {gen : ℤ → ℤ → Option (List Nat)} {targetN batch p n : Nat} {e : EcdParams}
    (hp : 3 ≤ p) (ht : 1 ≤ targetN) (hb : 1 ≤ batch) (he : newEncodeParameters p = .ok e)
    (hn : n ∈ doublings 1 (ceilDiv targetN (max e.exp 256 / e.exp)))
    (h : (npVars targetN batch e n).inLoop = .error .hang) :
    newParametersR gen targetN batch p = .error .hang := by
  rcases C92_no_panic_partial gen hp ht hb he with ⟨P, hP⟩ | hP
  · exfalso
    unfold newParametersR at hP
    rw [if_neg (by omega), if_neg (by omega), he, go_bind_ok] at hP
    dsimp only at hP
    obtain ⟨s, hs, -⟩ := bind_ok_inv hP
    have key : ∀ (L : List Nat) (s0 s1 : RParams × Option ℝ), n ∈ L →
        L.foldlM (npStepR gen targetN batch e) s0 ≠ .ok s1 := by
      intro L
      induction L with
      | nil => intro _ _ h; simp at h
      | cons a L ih =>
        intro s0 s1 hm hf
        rw [List.foldlM_cons] at hf
        obtain ⟨s', h1, h2⟩ := bind_ok_inv hf
        rcases List.mem_cons.mp hm with rfl | hm
        · unfold npStepR at h1
          dsimp only at h1
          rw [h] at h1
          cases h1
        · exact ih _ _ hm h2
    exact key _ _ _ hn hs
  · exact hP

/-- **C92, refuted in a second way.** The bound is far below 240 bits, and `NewParameters` does not return
either: for the field of order 3, 2981888 coefficients and a batch of four, the iteration with 128 columns goes
on for ever, because the bound passes a power of two between `mu = 4`, whose rank is 5, and `mu = 5`, whose rank
is 4. -/
theorem C92_hang_skip (gen : ℤ → ℤ → Option (List Nat)) :
    newParametersR gen 2981888 4 3 = .error .hang ∧
    rankAt (npVars 2981888 4 ⟨2, 1⟩ 128) 4 = 5 ∧ rankAt (npVars 2981888 4 ⟨2, 1⟩ 128) 5 = 4 ∧
    (npVars 2981888 4 ⟨2, 1⟩ 128).inLogQ 4 = 30 ∧ (npVars 2981888 4 ⟨2, 1⟩ 128).inLogQ 5 = 31 := by
  have he : newEncodeParameters 3 = .ok ⟨2, 1⟩ :=
    encPars_one (b := 2) (not_square_between (a := 1) (by norm_num) (by norm_num)) (by norm_num)
  obtain ⟨b1, b2, b3, b4⟩ := skip_bounds
  have p4 : 0 < skipVars.inMSISBeta 4 := NPVars.inMSISBeta_pos skip_ok _
  have p5 : 0 < skipVars.inMSISBeta 5 := NPVars.inMSISBeta_pos skip_ok _
  have l4 := skip_log (mu := 4) (by norm_num)
  have u4 : logb 2 (skipVars.inMSISBeta 4) ≤ 30 := by
    rw [Real.logb_le_iff_le_rpow (by norm_num) p4]; exact_mod_cast b2
  have l5 : 30 < logb 2 (skipVars.inMSISBeta 5) := by
    rw [Real.lt_logb_iff_rpow_lt (by norm_num) p5]; exact_mod_cast b3
  have u5 : logb 2 (skipVars.inMSISBeta 5) ≤ 31 := by
    rw [Real.logb_le_iff_le_rpow (by norm_num) p5]
    refine b4.le.trans ?_
    norm_num
  have q4 : skipVars.inLogQ 4 = 30 := by
    have hc : ⌈logb 2 (skipVars.inMSISBeta 4)⌉ = 30 := by
      rw [Int.ceil_eq_iff]; push_cast; exact ⟨by linarith, u4⟩
    unfold NPVars.inLogQ bitsOf limbsOf
    simp only [hc]
    norm_num
  have q5 : skipVars.inLogQ 5 = 31 := by
    have hc : ⌈logb 2 (skipVars.inMSISBeta 5)⌉ = 31 := by
      rw [Int.ceil_eq_iff]; push_cast; exact ⟨by linarith, u5⟩
    unfold NPVars.inLogQ bitsOf limbsOf
    simp only [hc]
    norm_num
  have hD := logDelta_le
  have hD' := logDelta_ge
  have hd : skipVars.d = 256 := rfl
  refine ⟨newParametersR_hang_at (n := 128) le_rfl (by norm_num) (by norm_num) he
    (mem_doublings (j := 7) le_rfl (by norm_num) (by unfold ceilDiv; norm_num)) ?_, ?_, ?_, ?_, ?_⟩
  · rw [npVars_skip]; exact skip_hang
  · rw [npVars_skip]
    apply le_antisymm
    · rw [rankAt, q4, hd, Int.ceil_le, div_le_iff₀ (by positivity)]
      push_cast
      nlinarith
    · exact skip_rank_gt (mu := 4) (by norm_num) le_rfl
  · rw [npVars_skip]
    apply le_antisymm
    · have := skip_rank_lt (mu := 5) le_rfl
      push_cast at this
      omega
    · rw [rankAt, q5, hd, Int.le_ceil_iff, lt_div_iff₀ (by positivity)]
      push_cast
      nlinarith
  · rw [npVars_skip]; exact q4
  · rw [npVars_skip]; exact q5

end Ringo
