import Verif.Proof.JFloat
import Verif.Spec.JParams

/-! # `NewParameters`: the parameters fit each other; when it ends -/

namespace Ringo

open Real

/-! ## C91 -/

theorem npVars_ok {targetN batch : Nat} {e : EcdParams} {nn : Nat} (ht : 1 ≤ targetN) (hb : 1 ≤ batch)
    (hbase : 2 ≤ e.base) (hexp : 1 ≤ e.exp) (hnn : 1 ≤ nn) : (npVars targetN batch e nn).Ok := by
  have hsp : 1 ≤ max e.exp 256 / e.exp := by
    rw [Nat.le_div_iff_mul_le hexp]; simp
  refine ⟨?_, ?_, ?_, ?_, ?_, ?_, ?_⟩
  · show (1 : ℝ) ≤ batch; exact_mod_cast hb
  · show (2 : ℝ) ≤ e.base; exact_mod_cast hbase
  · show (1 : ℝ) ≤ e.exp; exact_mod_cast hexp
  · show (256 : ℝ) ≤ (max e.exp 256 : ℕ); exact_mod_cast le_max_right _ _
  · show (0 : ℝ) < 2 ^ 13 / (max e.exp 256 : ℕ)
    have : (0 : ℝ) < (max e.exp 256 : ℕ) := by
      have := le_max_right e.exp 256
      exact_mod_cast (by omega : 0 < max e.exp 256)
    positivity
  · show (1 : ℝ) ≤ nn; exact_mod_cast hnn
  · show (1 : ℝ) ≤ (ceilDiv targetN (nn * (max e.exp 256 / e.exp)) : ℕ)
    have h1 := ceilDiv_mul targetN (nn * (max e.exp 256 / e.exp)) (Nat.mul_pos hnn hsp)
    have : 1 ≤ ceilDiv targetN (nn * (max e.exp 256 / e.exp)) := by
      by_contra h
      rw [show ceilDiv targetN (nn * (max e.exp 256 / e.exp)) = 0 by omega] at h1
      omega
    exact_mod_cast this

theorem inLoop_inv {V : NPVars} {mu : Nat} (h : V.inLoop = .ok mu) :
    1 ≤ mu ∧ V.inLogQ mu ≤ 240 ∧ findMSISRank V.d (2 ^ (V.inLogQ mu : ℝ)) (V.inMSISBeta mu) = .ok mu := by
  obtain ⟨i, h1, h2, -⟩ := forever_ok_inv h
  dsimp only at h2
  split at h2
  · cases h2
  rename_i h3
  obtain ⟨r, h4, h5⟩ := bind_ok_inv h2
  split at h5
  · rename_i h6
    injection h5 with h5
    injection h5 with h5
    subst h5
    rw [NPVars.logb_two_rpow] at h3
    refine ⟨h1, ?_, by rw [h4, h6]⟩
    push Not at h3
    exact_mod_cast h3
  · cases h5

theorem msisHard_of {d q beta : ℝ} {r : ℤ} (hb : 1 < beta)
    (h : logb 2 beta ^ 2 ≤ 4 * d * logb 2 q * logb 2 1.005 * r) : RParams.MSISHard d q r beta := by
  unfold RParams.MSISHard
  have h1 : 0 < logb 2 beta := Real.logb_pos (by norm_num) hb
  calc beta = 2 ^ logb 2 beta := (Real.rpow_logb (by norm_num) (by norm_num) (by linarith)).symm
    _ ≤ _ := by
      apply Real.rpow_le_rpow_of_exponent_le (by norm_num)
      have : logb 2 beta / 2 ≤ √(r * d * logb 2 q * logb 2 1.005) := by
        apply Real.le_sqrt_of_sq_le
        nlinarith
      linarith

theorem two_zpow_floor_le {x : ℝ} (hx : 0 < x) : (2 : ℝ) ^ ⌊logb 2 x⌋ ≤ x := by
  rw [← Real.rpow_intCast]
  calc (2 : ℝ) ^ ((⌊logb 2 x⌋ : ℤ) : ℝ) ≤ 2 ^ logb 2 x :=
        Real.rpow_le_rpow_of_exponent_le (by norm_num) (Int.floor_le _)
    _ = x := Real.rpow_logb (by norm_num) (by norm_num) hx

/-- The primes for a modulus of `bits * limbs` bits. -/
theorem primesFor_ok {gen : ℤ → ℤ → Option (List Nat)} (hg : GenOk gen) {L : ℤ} (hL : 1 ≤ L)
    (h240 : bitsOf L * limbsOf L ≤ 240) :
    ∃ Q, primesFor gen (logb 2 (2 ^ ((bitsOf L * limbsOf L : ℤ) : ℝ))) = some Q ∧
      (2 : ℝ) ^ ((bitsOf L * limbsOf L : ℤ) : ℝ) ≤ Q.prod := by
  have h1 := limbs_pos hL
  have h2 := bits_pos hL
  have h3 : L ≤ 240 := (le_bits_limbs hL).trans h240
  obtain ⟨Q, hQ, hlen, hq⟩ := hg _ _ h2 (bits_le hL) h1 (limbs_le h3)
  refine ⟨Q, ?_, ?_⟩
  · rw [NPVars.logb_two_rpow]
    show gen (bitsOf ((bitsOf L * limbsOf L : ℤ) : ℝ)) (limbsOf ((bitsOf L * limbsOf L : ℤ) : ℝ)) = _
    rw [limbs_again hL, bits_again hL, hQ]
  · have h4 : (2 ^ (bitsOf L).toNat) ^ Q.length ≤ Q.prod := by
      apply List.pow_card_le_prod
      intro q hq'
      have := hq q hq'
      exact_mod_cast this.le
    have h5 : ((bitsOf L * limbsOf L : ℤ) : ℝ) = ((bitsOf L).toNat * Q.length : ℕ) := by
      have : (bitsOf L * limbsOf L : ℤ) = ((bitsOf L).toNat * Q.length : ℕ) := by
        push_cast; rw [hlen, Int.toNat_of_nonneg (by omega)]
      exact_mod_cast this
    rw [h5, Real.rpow_natCast, pow_mul]
    exact_mod_cast h4

/-- What the fields are set to by an iteration. -/
noncomputable def npFinal (targetN batch : Nat) (e : EcdParams) (nn mu : Nat) (outRank : ℤ) (Q Q' : List Nat) :
    RParams :=
  let V := npVars targetN batch e nn
  { shape := ⟨batch, nn * ceilDiv targetN (nn * (max e.exp 256 / e.exp)) * (max e.exp 256 / e.exp),
      ceilDiv targetN (nn * (max e.exp 256 / e.exp)) + 1, nn, e.base, e.exp, max e.exp 256 / e.exp,
      some nn, some nn⟩
    inRank := mu
    outRank := outRank
    mlweRank := ⌊V.nu⌋
    inCut := ⌊logb 2 (V.inCutOffInf mu)⌋
    outCut := ⌊logb 2 (V.outCutOffInf mu outRank)⌋
    dcmpLen := ⌊(V.n + 1) * mu⌋
    qs := some Q
    qs' := some Q'
    ecdStdDev := V.ecdStdDev / √(2 * π)
    ecdBlindStdDev := V.ecdBlindStdDev / √(2 * π)
    maskStdDev := V.maskStdDev / √(2 * π)
    maskBlindStdDev := V.maskBlindStdDev / √(2 * π)
    mlweStdDev := NPVars.mlweStdDev / √(2 * π)
    maskMLWEStdDev := V.maskMLWEStdDev / √(2 * π)
    resTwoNm := V.resTwo mu + V.resTwo mu
    inComDcmpTwoNm := V.inDcmpTwo mu + V.inDcmpTwo mu
    comSize := V.comSize mu outRank
    pfSize := V.pfSize mu }

theorem npAssignR_eq {gen : ℤ → ℤ → Option (List Nat)} {targetN batch : Nat} {e : EcdParams} {nn mu : Nat}
    {outRank : ℤ} {Q Q' : List Nat}
    (hQ : primesFor gen (logb 2 (2 ^ ((npVars targetN batch e nn).inLogQ mu : ℝ))) = some Q)
    (hQ' : primesFor gen (logb 2 (2 ^ ((npVars targetN batch e nn).outLogQ mu : ℝ))) = some Q')
    (s : RParams × Option ℝ) :
    (s.2 ≠ none ∧ npAssignR gen targetN batch e nn mu outRank s = s) ∨
      ∃ x, npAssignR gen targetN batch e nn mu outRank s =
        (npFinal targetN batch e nn mu outRank Q Q', some x) := by
  unfold npAssignR npAssign
  simp only [hQ, hQ', Option.isSome_some, Bool.not_true, Bool.false_eq_true, if_false]
  rcases s with ⟨P, _ | y⟩
  · exact .inr ⟨_, rfl⟩
  · by_cases h : (npVars targetN batch e nn).comSize mu outRank + (npVars targetN batch e nn).pfSize mu < y
    · right
      simp only [h, decide_true, if_true]
      exact ⟨_, rfl⟩
    · left
      simp only [h, decide_false, Bool.false_eq_true, if_false]
      exact ⟨by simp, trivial⟩

theorem zp240 {x : ℝ} (hx : x ≤ 240) : (2 : ℝ) ^ x ≤ 2 ^ 240 := by
  calc (2 : ℝ) ^ x ≤ 2 ^ (240 : ℝ) := Real.rpow_le_rpow_of_exponent_le (by norm_num) hx
    _ = 2 ^ 240 := by norm_cast

section
variable {V : NPVars} {mu : Nat}

theorem inner_facts (hV : V.Ok) (hin : V.inLoop = .ok mu) :
    1 ≤ mu ∧ mu ≤ 33 ∧ (V.inLogQ mu : ℝ) ≤ 240 ∧ V.inMSISBeta mu ≤ 2 ^ (V.inLogQ mu : ℝ) ∧
    RParams.MSISHard V.d (2 ^ (V.inLogQ mu : ℝ)) mu (V.inMSISBeta mu) ∧
    8 * (V.resTwo mu + V.resTwo mu) ≤ 2 ^ (V.inLogQ mu : ℝ) := by
  obtain ⟨h1, h2, h3⟩ := inLoop_inv hin
  have hbin := NPVars.one_lt_inBeta hV h1
  have h2' : (V.inLogQ mu : ℝ) ≤ 240 := by exact_mod_cast h2
  obtain ⟨k1, k2, k3, k4⟩ := findMSISRank_ok hV.d hbin (by rw [NPVars.logb_two_rpow]; exact h2') h3
  refine ⟨h1, by exact_mod_cast k3, h2', k1, msisHard_of hbin (by exact_mod_cast k4), le_trans ?_ k1⟩
  rw [NPVars.inMSISBeta_eq]
  have := NPVars.inFac_ge hV
  have hr := NPVars.resTwo_pos hV mu
  nlinarith

theorem inCut_facts (hV : V.Ok) (h1 : 1 ≤ mu) :
    6 ≤ ⌊logb 2 (V.inCutOffInf mu)⌋ ∧
    (1 + √V.n * V.cOne) * √(mu * V.d) * V.batchFac * 2 ^ ⌊logb 2 (V.inCutOffInf mu)⌋ ≤
      (V.resTwo mu + V.resTwo mu) / 2 := by
  have hmu : (1 : ℝ) ≤ mu := by exact_mod_cast h1
  have hc := NPVars.cOne_ge hV
  have hf := NPVars.batchFac_ge hV
  have hd := hV.d
  have hcut1 := NPVars.inCutOffInf_ge hV h1
  have hfl := two_zpow_floor_le (x := V.inCutOffInf mu) (by linarith)
  have hs : 0 < √(mu * V.d) := Real.sqrt_pos.mpr (by nlinarith)
  have hsn := Real.sqrt_nonneg V.n
  refine ⟨?_, ?_⟩
  · rw [Int.le_floor, Real.le_logb_iff_rpow_le (by norm_num) (by linarith)]
    norm_num
    exact_mod_cast hcut1
  · have hx : V.inCutOffInf mu * ((1 + √V.n * V.cOne) * √(mu * V.d) * V.batchFac) = V.resTwo mu := by
      unfold NPVars.inCutOffInf
      rw [NPVars.scaleDown_eq, div_div, div_mul_cancel₀]
      positivity
    have h0 : 0 ≤ (1 + √V.n * V.cOne) * √(mu * V.d) * V.batchFac := by positivity
    calc _ ≤ ((1 + √V.n * V.cOne) * √(mu * V.d) * V.batchFac) * V.inCutOffInf mu := by gcongr
      _ = _ := by rw [mul_comm, hx]; ring

/-- What remains of a balanced number modulo `q` after the cut. -/
theorem dcmp_budget (hV : V.Ok) (h1 : 1 ≤ mu) :
    √((V.n + 1) * mu * V.d) * V.batchFac *
      (2 ^ (V.inLogQ mu : ℝ) / 2 / 2 ^ ⌊logb 2 (V.inCutOffInf mu)⌋) ≤ V.inDcmpTwo mu := by
  have hf := NPVars.batchFac_ge hV
  have hcut1 := NPVars.inCutOffInf_ge hV h1
  have h2 : V.inCutOffInf mu ≤ 2 * 2 ^ ⌊logb 2 (V.inCutOffInf mu)⌋ := by
    calc V.inCutOffInf mu = 2 ^ logb 2 (V.inCutOffInf mu) :=
          (Real.rpow_logb (by norm_num) (by norm_num) (by linarith)).symm
      _ ≤ 2 ^ ((⌊logb 2 (V.inCutOffInf mu)⌋ : ℝ) + 1) :=
          Real.rpow_le_rpow_of_exponent_le (by norm_num) (Int.lt_floor_add_one _).le
      _ = _ := by rw [Real.rpow_add_one (by norm_num), Real.rpow_intCast]; ring
  unfold NPVars.inDcmpTwo NPVars.inDcmpInf
  rw [NPVars.scaleUp_eq, mul_assoc]
  apply mul_le_mul_of_nonneg_left _ (Real.sqrt_nonneg _)
  rw [mul_comm]
  apply mul_le_mul_of_nonneg_right _ (by linarith)
  rw [div_div]
  apply div_le_div_of_nonneg_left (by positivity) (by linarith) h2

theorem inDcmp_facts (hV : V.Ok) (h1 : 1 ≤ mu) (hq : V.inMSISBeta mu ≤ 2 ^ (V.inLogQ mu : ℝ)) :
    √V.d * (16 * V.batchFac) ≤ V.inDcmpTwo mu ∧ 16 ≤ V.inDcmpTwo mu ∧
    8 * V.inDcmpTwo mu ≤ V.outMSISBeta mu := by
  have hmu : (1 : ℝ) ≤ mu := by exact_mod_cast h1
  have hc := NPVars.cOne_ge hV
  have hf := NPVars.batchFac_ge hV
  have hd := hV.d
  have hn := hV.n
  have hcut1 := NPVars.inCutOffInf_ge hV h1
  have hcut2 := NPVars.inCutOffInf_le hV h1
  have hqcut : 16 * V.inCutOffInf mu ≤ 2 ^ (V.inLogQ mu : ℝ) := by
    refine le_trans ?_ hq
    rw [NPVars.inMSISBeta_eq]
    have := NPVars.inFac_ge hV
    nlinarith
  have hdinf : 16 * V.batchFac ≤ V.inDcmpInf mu := by
    unfold NPVars.inDcmpInf
    rw [NPVars.scaleUp_eq]
    have : 16 ≤ 2 ^ (V.inLogQ mu : ℝ) / V.inCutOffInf mu := by
      rw [le_div_iff₀ (by linarith)]; exact hqcut
    nlinarith
  have hsq : √V.d ≤ √((V.n + 1) * mu * V.d) := by
    apply Real.sqrt_le_sqrt
    have : 1 ≤ (V.n + 1) * mu := by nlinarith
    nlinarith
  have hsd : 1 ≤ √V.d := by rw [Real.one_le_sqrt]; linarith
  have hdtwo : √V.d * (16 * V.batchFac) ≤ V.inDcmpTwo mu := by
    unfold NPVars.inDcmpTwo
    have := Real.sqrt_nonneg V.d
    have : 0 ≤ 16 * V.batchFac := by linarith
    gcongr
  have hdpos : 16 ≤ V.inDcmpTwo mu := by
    refine le_trans ?_ hdtwo; nlinarith
  have hdx : 1 ≤ V.dExtOne := by
    unfold NPVars.dExtOne; split <;> linarith
  refine ⟨hdtwo, hdpos, ?_⟩
  unfold NPVars.outMSISBeta; nlinarith

theorem outer_facts {outRank : ℤ} (hV : V.Ok) (h1 : 1 ≤ mu)
    (hq : V.inMSISBeta mu ≤ 2 ^ (V.inLogQ mu : ℝ)) (hout : V.outLogQ mu ≤ 240)
    (hrk : findMSISRank V.d (2 ^ (V.outLogQ mu : ℝ)) (V.outMSISBeta mu) = .ok outRank) :
    1 ≤ outRank ∧ outRank ≤ 33 ∧ V.outMSISBeta mu ≤ 2 ^ (V.outLogQ mu : ℝ) ∧
    RParams.MSISHard V.d (2 ^ (V.outLogQ mu : ℝ)) outRank (V.outMSISBeta mu) := by
  obtain ⟨-, h2, h3⟩ := inDcmp_facts hV h1 hq
  have hbout : 1 < V.outMSISBeta mu := by linarith
  have hout' : (V.outLogQ mu : ℝ) ≤ 240 := by exact_mod_cast hout
  obtain ⟨l1, l2, l3, l4⟩ := findMSISRank_ok hV.d hbout (by rw [NPVars.logb_two_rpow]; exact hout') hrk
  exact ⟨l2, l3, l1, msisHard_of hbout l4⟩

theorem outCut_facts {outRank : ℤ} (hV : V.Ok) (h1 : 1 ≤ mu)
    (hq : V.inMSISBeta mu ≤ 2 ^ (V.inLogQ mu : ℝ)) (l2 : 1 ≤ outRank) (l3 : outRank ≤ 33) :
    0 ≤ ⌊logb 2 (V.outCutOffInf mu outRank)⌋ ∧
    √(outRank * V.d) * V.batchFac * 2 ^ ⌊logb 2 (V.outCutOffInf mu outRank)⌋ ≤
      (V.inDcmpTwo mu + V.inDcmpTwo mu) / 2 := by
  obtain ⟨hdtwo, h2, h3⟩ := inDcmp_facts hV h1 hq
  have hf := NPVars.batchFac_ge hV
  have hd := hV.d
  have l2' : (1 : ℝ) ≤ outRank := by exact_mod_cast l2
  have l3' : (outRank : ℝ) ≤ 33 := by exact_mod_cast l3
  have hso : 0 < √(outRank * V.d) := Real.sqrt_pos.mpr (by nlinarith)
  have hocut : 1 ≤ V.outCutOffInf mu outRank := by
    unfold NPVars.outCutOffInf
    rw [NPVars.scaleDown_eq, div_div, le_div_iff₀ (by positivity), one_mul]
    refine le_trans ?_ hdtwo
    have : √(outRank * V.d) ≤ 16 * √V.d := by
      rw [show (16 : ℝ) = √(16 ^ 2) by rw [Real.sqrt_sq]; norm_num, ← Real.sqrt_mul (by norm_num)]
      apply Real.sqrt_le_sqrt; nlinarith
    nlinarith
  have hfl := two_zpow_floor_le (x := V.outCutOffInf mu outRank) (by linarith)
  refine ⟨?_, ?_⟩
  · rw [Int.floor_nonneg]
    exact Real.logb_nonneg (by norm_num) hocut
  · have hx : V.outCutOffInf mu outRank * (√(outRank * V.d) * V.batchFac) = V.inDcmpTwo mu := by
      unfold NPVars.outCutOffInf
      rw [NPVars.scaleDown_eq, div_div, div_mul_cancel₀]
      positivity
    have h0 : 0 ≤ √(outRank * V.d) * V.batchFac := by positivity
    calc _ ≤ (√(outRank * V.d) * V.batchFac) * V.outCutOffInf mu outRank := by gcongr
      _ = _ := by rw [mul_comm, hx]; ring

end

section
variable {targetN batch : Nat} {e : EcdParams} {nn mu : Nat} {outRank : ℤ} {Q Q' : List Nat}

theorem npFinal_inBeta : (npFinal targetN batch e nn mu outRank Q Q').inBeta =
    (npVars targetN batch e nn).inMSISBeta mu := by
  have hb1 : (batch = 1) ↔ (npVars targetN batch e nn).t = 1 := by
    show batch = 1 ↔ (batch : ℝ) = 1
    exact Nat.cast_eq_one.symm
  unfold RParams.inBeta
  rw [NPVars.inMSISBeta_eq, NPVars.inFac]
  show (if batch = 1 then _ else _) * _ = _
  simp only [hb1]; rfl

theorem npFinal_outBeta : (npFinal targetN batch e nn mu outRank Q Q').outBeta =
    (npVars targetN batch e nn).outMSISBeta mu := by
  have hb1 : (batch = 1) ↔ (npVars targetN batch e nn).t = 1 := by
    show batch = 1 ↔ (batch : ℝ) = 1
    exact Nat.cast_eq_one.symm
  unfold RParams.outBeta NPVars.outMSISBeta NPVars.dExtOne
  rw [show (npFinal targetN batch e nn mu outRank Q Q').chal = (npVars targetN batch e nn).cOne from rfl]
  show (if batch = 1 then _ else _) * (_ + _) = _
  simp only [hb1]
  split <;> ring

theorem npFinal_growth : (npFinal targetN batch e nn mu outRank Q Q').batchGrowth =
    (npVars targetN batch e nn).batchFac := by
  unfold RParams.batchGrowth NPVars.batchFac
  rw [show (npFinal targetN batch e nn mu outRank Q Q').chal = (npVars targetN batch e nn).cOne from rfl]
  show (if batch > 1 then √(batch : ℝ) * _ else 1) = if (batch : ℝ) > 1 then √(batch : ℝ) * _ else 1
  simp only [gt_iff_lt, Nat.one_lt_cast]

theorem npFinal_deg : (npFinal targetN batch e nn mu outRank Q Q').deg = (npVars targetN batch e nn).d := by
  show ((max (e.exp : ℝ) 256)) = ((max e.exp 256 : ℕ) : ℝ)
  push_cast; rfl

theorem sqrt_two_pi_pos : 0 < √(2 * π) := Real.sqrt_pos.mpr (by positivity)

theorem npFinal_response (hV : (npVars targetN batch e nn).Ok) :
    ((npFinal targetN batch e nn mu outRank Q Q').resTwoNm / 2) ^ 2 =
      (npFinal targetN batch e nn mu outRank Q Q').deg *
        (((npFinal targetN batch e nn mu outRank Q Q').shape.rows - 1) *
          (npFinal targetN batch e nn mu outRank Q Q').resRow ^ 2 +
          (npFinal targetN batch e nn mu outRank Q Q').resBlind ^ 2 +
          ((npFinal targetN batch e nn mu outRank Q Q').inRank +
            2 ^ 13 / (npFinal targetN batch e nn mu outRank Q Q').deg) *
          (npFinal targetN batch e nn mu outRank Q Q').resMLWE ^ 2) := by
  have hpi := sqrt_two_pi_pos
  have e1 : (npFinal targetN batch e nn mu outRank Q Q').resRow = (npVars targetN batch e nn).resEcdiInf := by
    unfold RParams.resRow RParams.tail
    rw [npFinal_growth, NPVars.resEcdiInf, NPVars.scaleUp_eq, NPVars.fijInf, NPVars.finInf]
    show _ * _ * ((e.base : ℝ) + 1) * (√nn * (npVars targetN batch e nn).cOne *
      ((npVars targetN batch e nn).ecdStdDev / √(2 * π)) + √((nn : ℝ) + 1) *
      ((npVars targetN batch e nn).maskStdDev / √(2 * π))) = (√nn * (npVars targetN batch e nn).cOne *
      (5 * ((e.base : ℝ) + 1) * (npVars targetN batch e nn).ecdStdDev) + 5 * ((e.base : ℝ) + 1) * √((nn : ℝ) + 1) *
      (npVars targetN batch e nn).maskStdDev) * _
    field_simp
  have e2 : (npFinal targetN batch e nn mu outRank Q Q').resBlind = (npVars targetN batch e nn).resEcd0Inf := by
    unfold RParams.resBlind RParams.tail
    rw [npFinal_growth, NPVars.resEcd0Inf, NPVars.scaleUp_eq, NPVars.f0jInf, NPVars.f0nInf]
    show _ * _ * ((e.base : ℝ) + 1) * (√nn * (npVars targetN batch e nn).cOne *
      (√(((ceilDiv targetN (nn * (max e.exp 256 / e.exp)) + 1 : ℕ) : ℝ)) *
        ((npVars targetN batch e nn).ecdBlindStdDev / √(2 * π))) +
      √(((ceilDiv targetN (nn * (max e.exp 256 / e.exp)) + 1 : ℕ) : ℝ) * (nn : ℝ) + 1) *
      ((npVars targetN batch e nn).maskBlindStdDev / √(2 * π))) = (√nn * (npVars targetN batch e nn).cOne *
      (5 * ((e.base : ℝ) + 1) * √(((ceilDiv targetN (nn * (max e.exp 256 / e.exp)) : ℕ) : ℝ) + 1) *
        (npVars targetN batch e nn).ecdBlindStdDev) + 5 * ((e.base : ℝ) + 1) *
      √((((ceilDiv targetN (nn * (max e.exp 256 / e.exp)) : ℕ) : ℝ) + 1) * (nn : ℝ) + 1) *
      (npVars targetN batch e nn).maskBlindStdDev) * _
    push_cast
    field_simp
  have e3 : (npFinal targetN batch e nn mu outRank Q Q').resMLWE = (npVars targetN batch e nn).resMLWEInf := by
    unfold RParams.resMLWE RParams.tail
    rw [npFinal_growth]
    unfold NPVars.resMLWEInf
    rw [NPVars.scaleUp_eq]
    show _ * _ * (√nn * (npVars targetN batch e nn).cOne *
      (NPVars.mlweStdDev / √(2 * π)) + √((nn : ℝ) + 1) *
      ((npVars targetN batch e nn).maskMLWEStdDev / √(2 * π))) = (√nn * (npVars targetN batch e nn).cOne *
      (5 * NPVars.mlweStdDev) + 5 * √((nn : ℝ) + 1) * (npVars targetN batch e nn).maskMLWEStdDev) * _
    field_simp
  rw [e1, e2, e3, npFinal_deg]
  show (((npVars targetN batch e nn).resTwo mu + (npVars targetN batch e nn).resTwo mu) / 2) ^ 2 =
    (npVars targetN batch e nn).d * ((((ceilDiv targetN (nn * (max e.exp 256 / e.exp)) + 1 : ℕ) : ℝ) - 1) *
      _ + _ + (((mu : ℤ) : ℝ) + (npVars targetN batch e nn).nu) * _)
  rw [show ((ceilDiv targetN (nn * (max e.exp 256 / e.exp)) + 1 : ℕ) : ℝ) - 1 = (npVars targetN batch e nn).m by
    show _ = ((ceilDiv targetN (nn * (max e.exp 256 / e.exp)) : ℕ) : ℝ); push_cast; ring]
  have hd := hV.d; have hm := hV.m; have hnu := hV.nu
  set V := npVars targetN batch e nn
  have h1 : V.resEcdTwo * V.resEcdTwo = V.d * (V.m * V.resEcdiInf * V.resEcdiInf + V.resEcd0Inf * V.resEcd0Inf) := by
    unfold NPVars.resEcdTwo
    apply Real.mul_self_sqrt
    have := mul_self_nonneg V.resEcd0Inf
    have : 0 ≤ V.m * V.resEcdiInf * V.resEcdiInf := by
      rw [mul_assoc]; exact mul_nonneg (by linarith) (mul_self_nonneg _)
    positivity
  have h2 : √(V.d * (mu + V.nu)) * √(V.d * (mu + V.nu)) = V.d * (mu + V.nu) :=
    Real.mul_self_sqrt (by positivity)
  have h3 : V.resTwo mu * V.resTwo mu = V.resEcdTwo * V.resEcdTwo +
      √(V.d * (mu + V.nu)) * V.resMLWEInf * (√(V.d * (mu + V.nu)) * V.resMLWEInf) := by
    unfold NPVars.resTwo
    exact Real.mul_self_sqrt (add_nonneg (mul_self_nonneg _) (mul_self_nonneg _))
  calc ((V.resTwo mu + V.resTwo mu) / 2) ^ 2 = V.resTwo mu * V.resTwo mu := by ring
    _ = V.d * (V.m * V.resEcdiInf * V.resEcdiInf + V.resEcd0Inf * V.resEcd0Inf) +
        (√(V.d * (mu + V.nu)) * √(V.d * (mu + V.nu))) * (V.resMLWEInf * V.resMLWEInf) := by
      rw [h3, h1]; ring
    _ = _ := by rw [h2]; push_cast; ring

theorem npFinal_sound (hV : (npVars targetN batch e nn).Ok)
    (hin : (npVars targetN batch e nn).inLoop = .ok mu)
    (hout : (npVars targetN batch e nn).outLogQ mu ≤ 240)
    (hrk : findMSISRank (npVars targetN batch e nn).d (2 ^ ((npVars targetN batch e nn).outLogQ mu : ℝ))
      ((npVars targetN batch e nn).outMSISBeta mu) = .ok outRank)
    (hQ : (2 : ℝ) ^ ((npVars targetN batch e nn).inLogQ mu : ℝ) ≤ Q.prod)
    (hQ' : (2 : ℝ) ^ ((npVars targetN batch e nn).outLogQ mu : ℝ) ≤ Q'.prod) :
    (npFinal targetN batch e nn mu outRank Q Q').Sound := by
  obtain ⟨h1, h2, h3, h4, h5, h6⟩ := inner_facts hV hin
  obtain ⟨l1, l2, l3, l4⟩ := outer_facts hV h1 h4 hout hrk
  obtain ⟨-, d2, d3⟩ := inDcmp_facts hV h1 h4
  have hr := NPVars.resTwo_pos hV mu
  have hpi := sqrt_two_pi_pos
  have hdl : (npFinal targetN batch e nn mu outRank Q Q').dcmpLen = ((nn : ℤ) + 1) * mu := by
    show ⌊((nn : ℝ) + 1) * mu⌋ = ((nn : ℤ) + 1) * mu
    rw [show ((nn : ℝ) + 1) * mu = (((nn + 1) * mu : ℤ) : ℝ) by push_cast; ring, Int.floor_intCast]
  constructor
  · exact ⟨Int.ofNat_le.mpr h1, Int.ofNat_le.mpr h2⟩
  · exact ⟨l1, l2⟩
  · exact hdl
  · rw [npFinal_deg]; rfl
  · have hb : (npVars targetN batch e nn).b - 1 ≠ 0 := by linarith [hV.b]
    show (npVars targetN batch e nn).ecdStdDev / √(2 * π) * √(2 * π) * ((npVars targetN batch e nn).b - 1) =
      2 * 6 * ((npVars targetN batch e nn).b + 1)
    rw [NPVars.ecdStdDev]
    field_simp
  · show NPVars.mlweStdDev / √(2 * π) * √(2 * π) = _
    rw [div_mul_cancel₀ _ hpi.ne']; rfl
  · show (npVars targetN batch e nn).maskStdDev / √(2 * π) =
      (npVars targetN batch e nn).cOne * ((npVars targetN batch e nn).ecdStdDev / √(2 * π))
    rw [NPVars.maskStdDev, NPVars.ecdStdDev]; ring
  · show (npVars targetN batch e nn).ecdBlindStdDev / √(2 * π) =
      (npVars targetN batch e nn).xOne * ((npVars targetN batch e nn).ecdStdDev / √(2 * π))
    rw [NPVars.ecdBlindStdDev, NPVars.ecdStdDev]; ring
  · show (npVars targetN batch e nn).maskBlindStdDev / √(2 * π) =
      (npVars targetN batch e nn).cOne * ((npVars targetN batch e nn).ecdBlindStdDev / √(2 * π))
    rw [NPVars.maskBlindStdDev, NPVars.ecdBlindStdDev]; ring
  · show (npVars targetN batch e nn).maskMLWEStdDev / √(2 * π) =
      (npVars targetN batch e nn).cOne * (NPVars.mlweStdDev / √(2 * π))
    rw [NPVars.maskMLWEStdDev, NPVars.mlweStdDev]; ring
  · exact npFinal_response hV
  · refine ⟨Q, Q', _, _, rfl, rfl, hQ, hQ', zp240 h3, zp240 (by exact_mod_cast hout), ?_, ?_, ?_, ?_, ?_,
      ?_, ?_, ?_, ?_⟩
    · rw [npFinal_inBeta]; exact h4
    · rw [npFinal_inBeta, npFinal_deg]; exact h5
    · rw [npFinal_outBeta]; exact l3
    · rw [npFinal_outBeta, npFinal_deg]; exact l4
    · exact add_pos hr hr
    · exact h6.trans hQ
    · exact add_pos (by linarith) (by linarith)
    · refine le_trans ?_ (l3.trans hQ')
      refine le_trans (le_of_eq ?_) d3
      show 4 * (_ + _) = _
      ring
    · rw [npFinal_growth, npFinal_deg, hdl]
      refine le_trans (le_trans (le_of_eq ?_) (dcmp_budget hV h1)) (le_of_eq ?_)
      · push_cast; rfl
      · show _ = (_ + _) / 2
        ring
  · rw [npFinal_growth, npFinal_deg]
    exact inCut_facts hV h1
  · rw [npFinal_growth, npFinal_deg]
    exact outCut_facts hV h1 h4 l1 l2

end

theorem mem_doublings_pos {lo hi n : Nat} (h : n ∈ doublings lo hi) : 1 ≤ n := by
  induction lo using doublings.induct hi with
  | case1 lo hc ih =>
    rw [doublings, if_pos hc, List.mem_cons] at h
    rcases h with rfl | h
    · exact hc.1
    · exact ih h
  | case2 lo hc => rw [doublings, if_neg hc] at h; cases h

theorem doublings_le {lo hi n : Nat} (h : n ∈ doublings lo hi) : n ≤ hi := by
  induction lo using doublings.induct hi with
  | case1 lo hc ih =>
    rw [doublings, if_pos hc, List.mem_cons] at h
    rcases h with rfl | h
    · exact hc.2
    · exact ih h
  | case2 lo hc => rw [doublings, if_neg hc] at h; cases h

theorem ecd_base_exp {p : Nat} (hp : 3 ≤ p) {e : EcdParams} (he : newEncodeParameters p = .ok e) :
    2 ≤ e.base ∧ 1 ≤ e.exp := by
  obtain ⟨h1, ⟨l, h2⟩, h3, -⟩ := C61_result p hp e he
  refine ⟨?_, by rw [h2]; exact Nat.two_pow_pos l⟩
  by_contra h
  have : e.base = 0 ∨ e.base = 1 := by omega
  rcases this with h | h
  · exact h3 (by rw [h]; exact ⟨0, rfl⟩)
  · exact h3 (by rw [h]; exact ⟨1, rfl⟩)

/-- The candidates in the sense of `newParameters`. -/
noncomputable def candR (gen : ℤ → ℤ → Option (List Nat)) (targetN batch : Nat) (e : EcdParams) (nn : Nat) :
    Go (Cand ℝ) := do
  let V := npVars targetN batch e nn
  let mu ← V.inLoop
  if logb 2 (2 ^ (V.outLogQ mu : ℝ)) > 240 then pure ⟨true, 0, false, false⟩
  else
    let outRank ← findMSISRank V.d (2 ^ (V.outLogQ mu : ℝ)) (V.outMSISBeta mu)
    pure ⟨false, V.comSize mu outRank + V.pfSize mu, (primesFor gen (logb 2 (2 ^ (V.inLogQ mu : ℝ)))).isSome,
      (primesFor gen (logb 2 (2 ^ (V.outLogQ mu : ℝ)))).isSome⟩

theorem npAssignR_shape (gen : ℤ → ℤ → Option (List Nat)) (targetN batch : Nat) (e : EcdParams) (nn mu : Nat)
    (outRank : ℤ) (s : RParams × Option ℝ) :
    ((npAssignR gen targetN batch e nn mu outRank s).1.shape, (npAssignR gen targetN batch e nn mu outRank s).2) =
      npAssign targetN batch e nn
        ⟨false, (npVars targetN batch e nn).comSize mu outRank + (npVars targetN batch e nn).pfSize mu,
        (primesFor gen (logb 2 (2 ^ ((npVars targetN batch e nn).inLogQ mu : ℝ)))).isSome,
        (primesFor gen (logb 2 (2 ^ ((npVars targetN batch e nn).outLogQ mu : ℝ)))).isSome⟩
        (s.1.shape, s.2) := by
  unfold npAssignR
  dsimp only
  rcases s with ⟨P, _ | y⟩
  · dsimp only
    rw [if_pos rfl]
    split
    · rfl
    · split <;> rfl
  · dsimp only
    by_cases h : (npVars targetN batch e nn).comSize mu outRank + (npVars targetN batch e nn).pfSize mu < y
    · rw [if_pos (decide_eq_true h)]
      split
      · rfl
      · split <;> rfl
    · rw [if_neg (by simpa using h)]
      unfold npAssign
      dsimp only
      rw [if_neg (by simpa using h)]

theorem npStepR_shape (gen : ℤ → ℤ → Option (List Nat)) (targetN batch : Nat) (e : EcdParams) (nn : Nat)
    (s s' : RParams × Option ℝ) (h : npStepR gen targetN batch e s nn = .ok s') :
    npStep targetN batch e (candR gen targetN batch e) (s.1.shape, s.2) nn = .ok (s'.1.shape, s'.2) := by
  unfold npStepR at h
  obtain ⟨mu, h1, h⟩ := bind_ok_inv h
  unfold npStep candR
  dsimp only at h ⊢
  rw [h1, go_bind_ok]
  split at h
  · rename_i h2
    injection h with h
    rw [if_pos h2, ← h]; rfl
  · rename_i h2
    obtain ⟨r, h3, h⟩ := bind_ok_inv h
    injection h with h
    rw [if_neg h2, h3, go_bind_ok, ← h]
    exact congrArg Except.ok (npAssignR_shape gen targetN batch e nn mu r s).symm

/-- **C91.** The model of all of `NewParameters` refines the one of which `C65` speaks. -/
theorem newParametersR_shape {gen : ℤ → ℤ → Option (List Nat)} {targetN batch p : Nat} {P : RParams}
    (h : newParametersR gen targetN batch p = .ok P) :
    ∃ cand : Nat → Go (Cand ℝ), newParameters targetN batch p cand = .ok P.shape := by
  unfold newParametersR at h
  split at h
  · cases h
  rename_i ht
  split at h
  · cases h
  rename_i hb
  obtain ⟨e, he, h⟩ := bind_ok_inv h
  obtain ⟨s, hs, h⟩ := bind_ok_inv h
  injection h with h
  subst h
  refine ⟨candR gen targetN batch e, ?_⟩
  unfold newParameters
  rw [if_neg ht, if_neg hb, he, go_bind_ok]
  have key : ∀ (L : List Nat) (s0 s1 : RParams × Option ℝ),
      L.foldlM (npStepR gen targetN batch e) s0 = .ok s1 →
      L.foldlM (npStep targetN batch e (candR gen targetN batch e)) (s0.1.shape, s0.2) =
        .ok (s1.1.shape, s1.2) := by
    intro L
    induction L with
    | nil => intro s0 s1 h; injection h with h; rw [h]; rfl
    | cons n L ih =>
      intro s0 s1 h
      rw [List.foldlM_cons] at h ⊢
      obtain ⟨s', h3, h4⟩ := bind_ok_inv h
      rw [npStepR_shape gen targetN batch e n s0 s' h3, go_bind_ok]
      exact ih s' s1 h4
  have := key _ _ _ hs
  show (do
    let s ← (doublings 1 (ceilDiv targetN (max e.exp 256 / e.exp))).foldlM _ (JParams.zero, none)
    pure s.1 : Go JParams) = _
  rw [show ((JParams.zero, none) : JParams × Option ℝ) = ((RParams.zero, none) : RParams × Option ℝ).map
    RParams.shape id from rfl]
  show (do
    let s ← (doublings 1 (ceilDiv targetN (max e.exp 256 / e.exp))).foldlM _
      ((RParams.zero, (none : Option ℝ)).1.shape, (none : Option ℝ))
    pure s.1 : Go JParams) = _
  rw [this]; rfl

theorem log_facts_in {V : NPVars} (hV : V.Ok) {mu : Nat} (h : 1 ≤ mu) :
    1 ≤ ⌈logb 2 (V.inMSISBeta mu)⌉ := NPVars.one_le_ceil_log (NPVars.one_lt_inBeta hV h)

/-- One iteration keeps the parameters zero or sound. -/
theorem npStepR_sound {gen : ℤ → ℤ → Option (List Nat)} (hg : GenOk gen) {targetN batch : Nat} {e : EcdParams}
    {nn : Nat} (hV : (npVars targetN batch e nn).Ok) {s s' : RParams × Option ℝ}
    (h : npStepR gen targetN batch e s nn = .ok s') : s' = s ∨ (s'.1.Sound ∧ s'.1.shape ≠ JParams.zero) := by
  unfold npStepR at h
  obtain ⟨mu, h1, h⟩ := bind_ok_inv h
  dsimp only at h
  split at h
  · injection h with h; exact .inl h.symm
  · rename_i h2
    rw [NPVars.logb_two_rpow] at h2
    push Not at h2
    have h2' : (npVars targetN batch e nn).outLogQ mu ≤ 240 := by exact_mod_cast h2
    obtain ⟨r, h3, h⟩ := bind_ok_inv h
    injection h with h
    obtain ⟨a1, a2, a3, a4, -⟩ := inner_facts hV h1
    obtain ⟨-, d2, d3⟩ := inDcmp_facts hV a1 a4
    obtain ⟨Q, hQ, hQp⟩ := primesFor_ok hg (log_facts_in hV a1)
      (show bitsOf _ * limbsOf _ ≤ 240 from by exact_mod_cast a3)
    obtain ⟨Q', hQ', hQp'⟩ := primesFor_ok hg
      (NPVars.one_le_ceil_log (show 1 < (npVars targetN batch e nn).outMSISBeta mu by linarith))
      (show bitsOf _ * limbsOf _ ≤ 240 from h2')
    rcases npAssignR_eq (outRank := r) hQ hQ' s with ⟨-, h4⟩ | ⟨x, h4⟩
    · rw [h4] at h; exact .inl h.symm
    · rw [h4] at h
      right
      rw [← h]
      refine ⟨npFinal_sound hV h1 h2' h3 hQp hQp', fun hz => ?_⟩
      have := congrArg JParams.rows hz
      simp [npFinal, JParams.zero] at this

/-- **C91.** `NewParameters` over the real numbers, with a generator that finds its primes: if it returns,
then it returns the zero value (if all numbers of columns need too large a modulus), or parameters that fit
each other: small positive ranks; rings whose moduli exceed the norms for which the commitments have to be
binding, at ranks for which these are out of reach; what is cut off from the commitments uses at most half of
the norm bounds; and a matrix that holds `targetN` coefficients. -/
theorem C91_sound {gen : ℤ → ℤ → Option (List Nat)} (hg : GenOk gen) {targetN batch p : Nat} (hp : 3 ≤ p)
    {P : RParams} (h : newParametersR gen targetN batch p = .ok P) :
    P = RParams.zero ∨
      (P.Sound ∧ P.shape.batch = batch ∧ P.shape.base ^ P.shape.exp = p - 1 ∧ 2 ≤ P.shape.rows ∧
        P.shape.rank = P.shape.cols * (P.shape.rows - 1) * P.shape.slots ∧ targetN ≤ P.shape.rank) := by
  obtain ⟨cand, hc⟩ := newParametersR_shape h
  have hsh := C65_shape targetN batch p hp cand P.shape hc
  unfold newParametersR at h
  split at h
  · cases h
  rename_i ht
  split at h
  · cases h
  rename_i hb
  obtain ⟨e, he, h⟩ := bind_ok_inv h
  obtain ⟨s, hs, h⟩ := bind_ok_inv h
  injection h with h
  subst h
  obtain ⟨hb2, he2⟩ := ecd_base_exp hp he
  have key : ∀ (L : List Nat), (∀ n ∈ L, 1 ≤ n) → ∀ (s0 s1 : RParams × Option ℝ),
      (s0.1 = RParams.zero ∨ (s0.1.Sound ∧ s0.1.shape ≠ JParams.zero)) →
      L.foldlM (npStepR gen targetN batch e) s0 = .ok s1 →
      (s1.1 = RParams.zero ∨ (s1.1.Sound ∧ s1.1.shape ≠ JParams.zero)) := by
    intro L
    induction L with
    | nil => intro _ s0 s1 h0 h; injection h with h; rw [← h]; exact h0
    | cons n L ih =>
      intro hL s0 s1 h0 h
      rw [List.foldlM_cons] at h
      obtain ⟨s', h3, h4⟩ := bind_ok_inv h
      refine ih (fun x hx => hL x (by simp [hx])) s' s1 ?_ h4
      rcases npStepR_sound hg (npVars_ok (by omega) (by omega) hb2 he2 (hL n (by simp))) h3 with h5 | h5
      · rw [h5]; exact h0
      · exact .inr h5
  rcases key _ (fun n hn => mem_doublings_pos hn) _ s (.inl rfl) hs with h5 | ⟨h5, h0⟩
  · exact .inl h5
  · refine .inr ⟨h5, ?_⟩
    rcases hsh with h6 | ⟨h6, h7, -, h9, -, h11, h12⟩
    · exact absurd h6 h0
    · exact ⟨h6, h7, h9, h11, h12⟩

/-! ## C92 -/

theorem inLoop_hang {V : NPVars} (hV : V.Ok) (h : 2 ^ 240 < V.inMSISBeta 1) : V.inLoop = .error .hang := by
  apply forever_hang
  intro mu hmu
  dsimp only
  rw [if_pos]
  · rfl
  rw [NPVars.logb_two_rpow]
  have h1 := NPVars.le_two_pow_ceil (NPVars.one_lt_inBeta hV hmu)
  have h2 := NPVars.inMSISBeta_mono hV hmu
  have h3 : (2 : ℝ) ^ (240 : ℝ) < 2 ^ (V.inLogQ mu : ℝ) := by
    refine lt_of_lt_of_le ?_ h1
    calc (2 : ℝ) ^ (240 : ℝ) = 2 ^ 240 := by norm_cast
      _ < _ := lt_of_lt_of_le h h2
  exact (Real.rpow_lt_rpow_left_iff (by norm_num)).mp h3

theorem ceilDiv_pos {a l : Nat} (ha : 1 ≤ a) (hl : 1 ≤ l) : 1 ≤ ceilDiv a l := by
  have := ceilDiv_mul a l hl
  by_contra h
  rw [show ceilDiv a l = 0 by omega] at this
  omega

theorem slots_pos {k : Nat} (hk : 1 ≤ k) : 1 ≤ max k 256 / k := by
  rw [Nat.le_div_iff_mul_le hk]; simp

theorem newParametersR_hang {gen : ℤ → ℤ → Option (List Nat)} {targetN batch p : Nat} {e : EcdParams}
    (ht : 1 ≤ targetN) (hb : 1 ≤ batch) (he : newEncodeParameters p = .ok e) (hexp : 1 ≤ e.exp)
    (h : (npVars targetN batch e 1).inLoop = .error .hang) :
    newParametersR gen targetN batch p = .error .hang := by
  unfold newParametersR
  rw [if_neg (by omega), if_neg (by omega), he, go_bind_ok]
  dsimp only
  rw [doublings, if_pos ⟨le_rfl, ceilDiv_pos ht (slots_pos hexp)⟩, List.foldlM_cons]
  have : npStepR gen targetN batch e (RParams.zero, none) 1 = .error .hang := by
    unfold npStepR
    dsimp only
    rw [h]; rfl
  rw [this]; rfl

theorem encPars_one {b : Nat} (hsq : ¬ IsSquare b) (h64 : b < 2 ^ 64) :
    newEncodeParameters (b + 1) = .ok ⟨b, 1⟩ := by
  have h1 : Nat.sqrt b * Nat.sqrt b ≠ b := fun h => hsq ⟨_, h.symm⟩
  unfold newEncodeParameters
  rw [Nat.add_sub_cancel, ecdLoop, if_pos h1, go_pure, go_bind_ok, if_pos h64]
  rfl

/-- A lower bound for a field whose order minus one is no square. -/
theorem inBeta_one {targetN batch b : Nat} (ht : 1 ≤ targetN) (hb : 1 ≤ batch) (hb2 : 2 ≤ b) (h64 : b < 2 ^ 64) :
    let V := npVars targetN batch ⟨b, 1⟩ 1
    V.cOne = b / 2 ∧ 960 * (b : ℝ) ^ 3 * V.batchFac ≤ V.resTwo 1 := by
  intro V
  have hV : V.Ok := npVars_ok ht hb hb2 le_rfl le_rfl
  have hVb : V.b = b := rfl
  have hVk : V.k = 1 := by show ((1 : ℕ) : ℝ) = 1; simp
  have hVd : V.d = 256 := by show ((max 1 256 : ℕ) : ℝ) = 256; norm_num
  have hVn : V.n = 1 := by show ((1 : ℕ) : ℝ) = 1; simp
  have hb2' : (2 : ℝ) ≤ b := by exact_mod_cast hb2
  have h64' : (b : ℝ) ≤ 2 ^ 120 := by
    have : b ≤ 2 ^ 120 := by
      have : (2 : ℕ) ^ 64 ≤ 2 ^ 120 := Nat.pow_le_pow_right (by norm_num) (by norm_num)
      omega
    exact_mod_cast this
  have hc : V.cOne = b / 2 := by
    unfold NPVars.cOne
    rw [hVk, hVb, Real.sqrt_one, div_one, one_mul, min_eq_left]
    calc (b : ℝ) ≤ 2 ^ 120 := h64'
      _ = 2 ^ (120 : ℝ) := by norm_cast
  refine ⟨hc, ?_⟩
  have hx : V.xOne = b := by unfold NPVars.xOne; rw [hVk, hVb, Real.sqrt_one, one_mul]
  have hm := hV.m
  have hf := NPVars.batchFac_ge hV
  have hfrac : 1 ≤ ((b : ℝ) + 1) / (b - 1) := by
    rw [le_div_iff₀ (by linarith)]; linarith
  have hs1 : 1 ≤ √(V.m + 1) := by rw [Real.one_le_sqrt]; linarith
  have hs2 : 1 ≤ √((V.m + 1) * V.n + 1) := by rw [Real.one_le_sqrt, hVn]; linarith
  have h1 : 60 * (b : ℝ) ^ 2 ≤ V.f0jInf := by
    unfold NPVars.f0jInf NPVars.ecdBlindStdDev
    rw [hVb, hx]
    calc 60 * (b : ℝ) ^ 2 = 5 * b * 1 * (2 * b * 1 * 6) := by ring
      _ ≤ 5 * (b + 1) * √(V.m + 1) * (2 * b * ((b + 1) / (b - 1)) * 6) := by gcongr; linarith
      _ = _ := by ring
  have h2 : 30 * (b : ℝ) ^ 3 ≤ V.f0nInf := by
    unfold NPVars.f0nInf NPVars.maskBlindStdDev
    rw [hVb, hx, hc]
    calc 30 * (b : ℝ) ^ 3 = 5 * b * 1 * (2 * (b / 2) * b * 1 * 6) := by ring
      _ ≤ 5 * (b + 1) * √((V.m + 1) * V.n + 1) * (2 * (b / 2) * b * ((b + 1) / (b - 1)) * 6) := by
        gcongr; linarith
      _ = _ := by ring
  have h3 : 60 * (b : ℝ) ^ 3 * V.batchFac ≤ V.resEcd0Inf := by
    unfold NPVars.resEcd0Inf
    rw [NPVars.scaleUp_eq, hVn, Real.sqrt_one, one_mul, hc]
    have : 60 * (b : ℝ) ^ 3 ≤ b / 2 * V.f0jInf + V.f0nInf := by
      have : (b : ℝ) / 2 * (60 * b ^ 2) ≤ b / 2 * V.f0jInf := by gcongr
      nlinarith
    gcongr
  refine le_trans ?_ (NPVars.resTwo_ge_ecd V 1)
  unfold NPVars.resEcdTwo
  apply Real.le_sqrt_of_sq_le
  rw [hVd]
  have h4 : 0 ≤ 60 * (b : ℝ) ^ 3 * V.batchFac := by positivity
  have h5 : 0 ≤ V.m * V.resEcdiInf * V.resEcdiInf := by
    rw [mul_assoc]; exact mul_nonneg (by linarith) (mul_self_nonneg _)
  have h6 : (60 * (b : ℝ) ^ 3 * V.batchFac) * (60 * (b : ℝ) ^ 3 * V.batchFac) ≤
      V.resEcd0Inf * V.resEcd0Inf := mul_self_le_mul_self h4 h3
  nlinarith

/-- One column needs more than 240 bits, with a margin. -/
theorem inBeta_big {targetN batch b : Nat} (ht : 1 ≤ targetN) (hb : 1 ≤ batch)
    (h64 : b < 2 ^ 64) (hbig : 2 ^ 57 ≤ b ∨ (2 ^ 29 ≤ b ∧ 2 ≤ batch)) :
    2 ^ 240 * 1.5 < (npVars targetN batch ⟨b, 1⟩ 1).inMSISBeta 1 := by
  have hb2 : 2 ≤ b := by rcases hbig with h | ⟨h, -⟩ <;> omega
  have hb29 : (2 : ℝ) ^ 29 ≤ b := by
    have : 2 ^ 29 ≤ b := by rcases hbig with h | ⟨h, -⟩ <;> omega
    exact_mod_cast this
  obtain ⟨hc, hr⟩ := inBeta_one ht hb hb2 h64
  set V := npVars targetN batch ⟨b, 1⟩ 1 with hVdef
  have hVt : V.t = batch := rfl
  rw [NPVars.inMSISBeta_eq, NPVars.inFac, hc]
  unfold NPVars.batchFac at hr
  rw [hc] at hr
  by_cases h1 : batch = 1
  · have h57 : (2 : ℝ) ^ 57 ≤ b := by
      have : 2 ^ 57 ≤ b := by rcases hbig with h | ⟨-, h⟩ <;> omega
      exact_mod_cast this
    have ht1 : V.t = 1 := by rw [hVt, h1]; simp
    rw [if_pos ht1]
    rw [ht1, if_neg (by norm_num), mul_one] at hr
    have h4 : ((2 : ℝ) ^ 57) ^ 4 ≤ b ^ 4 := by gcongr
    calc (2 : ℝ) ^ 240 * 1.5 < 7680 * ((2 : ℝ) ^ 57) ^ 4 := by norm_num
      _ ≤ 7680 * (b : ℝ) ^ 4 := by gcongr
      _ = 8 * ((b : ℝ) / 2) * (960 * b ^ 3 + 960 * b ^ 3) := by ring
      _ ≤ _ := by gcongr
  · have ht2 : (2 : ℝ) ≤ V.t := by rw [hVt]; exact_mod_cast (by omega : 2 ≤ batch)
    rw [if_neg (by linarith)]
    rw [if_pos (by linarith)] at hr
    have hs : 1 ≤ √V.t := by rw [Real.one_le_sqrt]; linarith
    have h8 : ((2 : ℝ) ^ 29) ^ 8 ≤ b ^ 8 := by gcongr
    have hr2 : 960 * (b : ℝ) ^ 3 * (1 * (b / 2)) ≤ V.resTwo 1 := by
      refine le_trans ?_ hr
      gcongr
    calc (2 : ℝ) ^ 240 * 1.5 < 3840 * ((2 : ℝ) ^ 29) ^ 8 := by norm_num
      _ ≤ 3840 * (b : ℝ) ^ 8 := by gcongr
      _ = 64 * ((b : ℝ) / 2) ^ 4 * (960 * b ^ 3 * (1 * (b / 2)) + 960 * b ^ 3 * (1 * (b / 2))) := by ring
      _ ≤ _ := by gcongr

/-- **C92, refuted.** `NewParameters` does not return for a field of order `b + 1` if `b` is no square and at
least `2^57`, or at least `2^29` with a batch of two or more: already for one column the modulus would need
more than 240 bits, and the loop over `mu` only makes it larger. -/
theorem C92_hang (gen : ℤ → ℤ → Option (List Nat)) {targetN batch b : Nat} (ht : 1 ≤ targetN) (hb : 1 ≤ batch)
    (hsq : ¬ IsSquare b) (h64 : b < 2 ^ 64) (hbig : 2 ^ 57 ≤ b ∨ (2 ^ 29 ≤ b ∧ 2 ≤ batch)) :
    newParametersR gen targetN batch (b + 1) = .error .hang := by
  have hb2 : 2 ≤ b := by rcases hbig with h | ⟨h, -⟩ <;> omega
  refine newParametersR_hang (e := ⟨b, 1⟩) ht hb (encPars_one hsq h64) le_rfl ?_
  apply inLoop_hang (npVars_ok ht hb hb2 le_rfl le_rfl)
  exact lt_trans (by norm_num) (inBeta_big ht hb h64 hbig)

theorem not_square_between {a n : Nat} (h1 : a * a < n) (h2 : n < (a + 1) * (a + 1)) : ¬ IsSquare n := by
  rintro ⟨r, rfl⟩
  have : a < r := Nat.mul_self_lt_mul_self_iff.mp h1
  have : r < a + 1 := Nat.mul_self_lt_mul_self_iff.mp h2
  omega

/-- The field of order `2^64 - 2^32 + 1`, and for batches the field of order `15 * 2^27 + 1`. -/
example (gen : ℤ → ℤ → Option (List Nat)) :
    newParametersR gen 1024 1 (2 ^ 64 - 2 ^ 32 + 1) = .error .hang ∧
    newParametersR gen 1024 2 (15 * 2 ^ 27 + 1) = .error .hang :=
  ⟨C92_hang gen (b := 2 ^ 64 - 2 ^ 32) (by norm_num) (by norm_num)
      (not_square_between (a := 2 ^ 32 - 1) (by norm_num) (by norm_num)) (by norm_num) (.inl (by norm_num)),
    C92_hang gen (b := 15 * 2 ^ 27) (by norm_num) (by norm_num)
      (not_square_between (a := 44869) (by norm_num) (by norm_num)) (by norm_num) (.inr (by norm_num))⟩

/-- The value of `findMSISRank` in iteration `mu`. -/
noncomputable def rankAt (V : NPVars) (mu : Nat) : ℤ :=
  ⌈logb 2 (V.inMSISBeta mu) * logb 2 (V.inMSISBeta mu) / (4 * V.d * V.inLogQ mu * logb 2 1.005)⌉

theorem findMSISRank_at {V : NPVars} (hV : V.Ok) {mu : Nat} (h : 1 ≤ mu) :
    findMSISRank V.d (2 ^ (V.inLogQ mu : ℝ)) (V.inMSISBeta mu) = .ok (rankAt V mu) := by
  have hle : V.inMSISBeta mu ≤ 2 ^ (V.inLogQ mu : ℝ) := NPVars.le_two_pow_ceil (NPVars.one_lt_inBeta hV h)
  rw [findMSISRank_total hle, NPVars.logb_two_rpow]
  rfl

/-- If the size of the modulus does not depend on `mu ≤ 33`, the loop ends. -/
theorem inLoop_ends {V : NPVars} (hV : V.Ok)
    (hconst : ⌈logb 2 (V.inMSISBeta 1)⌉ = ⌈logb 2 (V.inMSISBeta 33)⌉)
    (h240 : ⌈logb 2 (V.inMSISBeta 1)⌉ ≤ 240) : ∃ mu, V.inLoop = .ok mu := by
  have hlogmono : ∀ {a b : Nat}, 1 ≤ a → a ≤ b → logb 2 (V.inMSISBeta a) ≤ logb 2 (V.inMSISBeta b) :=
    fun ha hab => Real.logb_le_logb_of_le (by norm_num) (NPVars.inMSISBeta_pos hV _)
      (NPVars.inMSISBeta_mono hV hab)
  have hL : ∀ mu, 1 ≤ mu → mu ≤ 33 → V.inLogQ mu = V.inLogQ 1 := by
    intro mu h1 h2
    have : ⌈logb 2 (V.inMSISBeta mu)⌉ = ⌈logb 2 (V.inMSISBeta 1)⌉ := by
      apply le_antisymm
      · rw [hconst]; exact Int.ceil_le_ceil (hlogmono h1 h2)
      · exact Int.ceil_le_ceil (hlogmono le_rfl h1)
    unfold NPVars.inLogQ
    rw [this]
  have hQ : V.inLogQ 1 ≤ 240 := bits_limbs_le (NPVars.one_le_ceil_log (NPVars.one_lt_inBeta hV le_rfl)) h240
  have hQ' : (V.inLogQ 1 : ℝ) ≤ 240 := by exact_mod_cast hQ
  have hr : ∀ mu, 1 ≤ mu → mu ≤ 33 → 1 ≤ rankAt V mu ∧ rankAt V mu ≤ 33 := fun mu h1 h2 => by
    obtain ⟨-, k1, k2, -⟩ := findMSISRank_ok hV.d (NPVars.one_lt_inBeta hV h1)
      (by rw [NPVars.logb_two_rpow, hL mu h1 h2]; exact hQ') (findMSISRank_at hV h1)
    exact ⟨k1, k2⟩
  have hmono : ∀ mu, 1 ≤ mu → mu + 1 ≤ 33 → rankAt V mu ≤ rankAt V (mu + 1) := fun mu h1 h2 => by
    unfold rankAt
    rw [hL mu h1 (by omega), hL (mu + 1) (by omega) h2]
    apply Int.ceil_le_ceil
    have h3 := hlogmono h1 (Nat.le_succ mu)
    have h4 : 0 < logb 2 (V.inMSISBeta mu) := Real.logb_pos (by norm_num) (NPVars.one_lt_inBeta hV h1)
    have h5 : 0 < (V.inLogQ 1 : ℝ) := by
      have h6 := le_bits_limbs (NPVars.one_le_ceil_log (NPVars.one_lt_inBeta hV (le_refl 1)))
      have h7 := NPVars.one_le_ceil_log (NPVars.one_lt_inBeta hV (le_refl 1))
      have : 0 < V.inLogQ 1 := lt_of_lt_of_le (by omega) h6
      exact_mod_cast this
    have := hV.d
    have := logDelta_ge
    have h8 : 0 < 4 * V.d * V.inLogQ 1 * logb 2 1.005 := by positivity
    gcongr ?_ / _
    exact mul_le_mul h3 h3 h4.le (h4.le.trans h3)
  classical
  have hex : ∃ mu, 1 ≤ mu ∧ rankAt V mu ≤ mu := ⟨33, by norm_num, (hr 33 (by norm_num) le_rfl).2⟩
  obtain ⟨m1, m2⟩ := Nat.find_spec hex
  have hmin : ∀ j, 1 ≤ j → j < Nat.find hex → (j : ℤ) < rankAt V j := fun j h1 h2 => by
    have := Nat.find_min hex h2
    push Not at this
    exact this h1
  have h33 : Nat.find hex ≤ 33 := Nat.find_min' hex ⟨by norm_num, (hr 33 (by norm_num) le_rfl).2⟩
  set mu := Nat.find hex with hmu
  have heq : rankAt V mu = mu := by
    apply le_antisymm m2
    by_cases h1 : mu = 1
    · rw [h1]; exact (hr 1 le_rfl (by norm_num)).1
    · obtain ⟨j, hj⟩ : ∃ j, mu = j + 1 := ⟨mu - 1, by omega⟩
      have h2 := hmin j (by omega) (by omega)
      have h3 := hmono j (by omega) (by omega)
      rw [hj]
      push_cast
      omega
  refine ⟨mu, forever_ok m1 ?_ ?_⟩
  · dsimp only
    rw [NPVars.logb_two_rpow, hL mu m1 h33, if_neg (by linarith), ← hL mu m1 h33, findMSISRank_at hV m1, go_bind_ok,
      if_pos heq]
    rfl
  · intro j h1 h2
    dsimp only
    rw [NPVars.logb_two_rpow, hL j h1 (by omega), if_neg (by linarith), ← hL j h1 (by omega),
      findMSISRank_at hV h1, go_bind_ok, if_neg (hmin j h1 h2).ne']
    rfl

theorem inLoop_no_panic {V : NPVars} (hV : V.Ok) : (∃ mu, V.inLoop = .ok mu) ∨ V.inLoop = .error .hang := by
  cases h : V.inLoop with
  | ok mu => exact .inl ⟨mu, rfl⟩
  | error f =>
    right
    rcases forever_error_inv h with rfl | ⟨i, h1, h2⟩
    · rfl
    · exfalso
      dsimp only at h2
      split at h2
      · cases h2
      · rw [findMSISRank_at hV h1, go_bind_ok] at h2
        split at h2 <;> cases h2

/-- Once the inner loop has ended, so does the iteration. -/
theorem npStepR_ends {gen : ℤ → ℤ → Option (List Nat)} {targetN batch : Nat} {e : EcdParams} {nn mu : Nat}
    (hV : (npVars targetN batch e nn).Ok) (hin : (npVars targetN batch e nn).inLoop = .ok mu)
    (s : RParams × Option ℝ) : ∃ s', npStepR gen targetN batch e s nn = .ok s' := by
  obtain ⟨a1, a2, a3, a4, -⟩ := inner_facts hV hin
  obtain ⟨-, d2, d3⟩ := inDcmp_facts hV a1 a4
  have hle : (npVars targetN batch e nn).outMSISBeta mu ≤ 2 ^ ((npVars targetN batch e nn).outLogQ mu : ℝ) :=
    NPVars.le_two_pow_ceil (by linarith)
  unfold npStepR
  dsimp only
  rw [hin, go_bind_ok]
  split
  · exact ⟨_, rfl⟩
  · rw [findMSISRank_total hle, go_bind_ok]
    exact ⟨_, rfl⟩

/-- **C92, partial.** `NewParameters` never panics once its arguments and the field have been accepted: it
returns, or the loop over `mu` does not end. -/
theorem C92_no_panic_partial (gen : ℤ → ℤ → Option (List Nat)) {targetN batch p : Nat} (hp : 3 ≤ p)
    (ht : 1 ≤ targetN) (hb : 1 ≤ batch) {e : EcdParams} (he : newEncodeParameters p = .ok e) :
    (∃ P, newParametersR gen targetN batch p = .ok P) ∨ newParametersR gen targetN batch p = .error .hang := by
  obtain ⟨hb2, he2⟩ := ecd_base_exp hp he
  unfold newParametersR
  rw [if_neg (by omega), if_neg (by omega), he, go_bind_ok]
  dsimp only
  have key : ∀ (L : List Nat), (∀ n ∈ L, 1 ≤ n) → ∀ s0 : RParams × Option ℝ,
      (∃ s1, L.foldlM (npStepR gen targetN batch e) s0 = .ok s1) ∨
      L.foldlM (npStepR gen targetN batch e) s0 = .error .hang := by
    intro L
    induction L with
    | nil => intro _ s0; exact .inl ⟨_, rfl⟩
    | cons n L ih =>
      intro hL s0
      rw [List.foldlM_cons]
      have hV := npVars_ok (e := e) (targetN := targetN) (batch := batch) ht hb hb2 he2 (hL n (by simp))
      rcases inLoop_no_panic hV with ⟨mu, h1⟩ | h1
      · obtain ⟨s', h2⟩ := npStepR_ends (gen := gen) hV h1 s0
        rw [h2, go_bind_ok]
        exact ih (fun x hx => hL x (by simp [hx])) s'
      · right
        have : npStepR gen targetN batch e s0 n = .error .hang := by
          unfold npStepR
          dsimp only
          rw [h1]; rfl
        rw [this]; rfl
  rcases key _ (fun n hn => mem_doublings_pos hn) (RParams.zero, none) with ⟨s1, h1⟩ | h1
  · rw [h1]; exact .inl ⟨_, rfl⟩
  · rw [h1]; exact .inr rfl

/-- **C92, partial.** `NewParameters` returns if, for every number of columns it tries, the bit length of the
bound for the inner commitment is at most 240 and the same for ranks 1 and 33. -/
theorem C92_ends_partial (gen : ℤ → ℤ → Option (List Nat)) {targetN batch p : Nat} (hp : 3 ≤ p)
    (ht : 1 ≤ targetN) (hb : 1 ≤ batch) {e : EcdParams} (he : newEncodeParameters p = .ok e)
    (h : ∀ nn, 1 ≤ nn → nn ≤ ceilDiv targetN (max e.exp 256 / e.exp) →
      ⌈logb 2 ((npVars targetN batch e nn).inMSISBeta 1)⌉ = ⌈logb 2 ((npVars targetN batch e nn).inMSISBeta 33)⌉ ∧
      ⌈logb 2 ((npVars targetN batch e nn).inMSISBeta 1)⌉ ≤ 240) :
    ∃ P, newParametersR gen targetN batch p = .ok P := by
  obtain ⟨hb2, he2⟩ := ecd_base_exp hp he
  unfold newParametersR
  rw [if_neg (by omega), if_neg (by omega), he, go_bind_ok]
  dsimp only
  have key : ∀ (L : List Nat), (∀ n ∈ L, 1 ≤ n ∧ n ≤ ceilDiv targetN (max e.exp 256 / e.exp)) →
      ∀ s0 : RParams × Option ℝ, ∃ s1, L.foldlM (npStepR gen targetN batch e) s0 = .ok s1 := by
    intro L
    induction L with
    | nil => intro _ s0; exact ⟨_, rfl⟩
    | cons n L ih =>
      intro hL s0
      rw [List.foldlM_cons]
      obtain ⟨n1, n2⟩ := hL n (by simp)
      have hV := npVars_ok (e := e) (targetN := targetN) (batch := batch) ht hb hb2 he2 n1
      obtain ⟨h1, h2⟩ := h n n1 n2
      obtain ⟨mu, h3⟩ := inLoop_ends hV h1 h2
      obtain ⟨s', h4⟩ := npStepR_ends (gen := gen) hV h3 s0
      rw [h4, go_bind_ok]
      exact ih (fun x hx => hL x (by simp [hx])) s'
  obtain ⟨s1, h1⟩ := key (doublings 1 (ceilDiv targetN (max e.exp 256 / e.exp)))
    (fun n hn => ⟨mem_doublings_pos hn, doublings_le hn⟩) (RParams.zero, none)
  rw [h1]; exact ⟨_, rfl⟩

/-! ### A case: the field of order 65537, 16 coefficients, no batch -/

/-- The variables of the only iteration. -/
theorem npVars_case : npVars 16 1 ⟨2, 16⟩ 1 = ⟨1, 2, 16, 256, 32, 1, 1⟩ := by
  unfold npVars ceilDiv
  norm_num

theorem case_bounds : 2 ^ 19 < (⟨1, 2, 16, 256, 32, 1, 1⟩ : NPVars).resTwo 1 ∧
    (⟨1, 2, 16, 256, 32, 1, 1⟩ : NPVars).resTwo 33 ≤ 2 ^ 20 ∧ (⟨1, 2, 16, 256, 32, 1, 1⟩ : NPVars).cOne = 4 := by
  have h16 : √(16 : ℝ) = 4 := by
    rw [show (16 : ℝ) = 4 ^ 2 by norm_num, Real.sqrt_sq (by norm_num)]
  have hc : (⟨1, 2, 16, 256, 32, 1, 1⟩ : NPVars).cOne = 4 := by
    unfold NPVars.cOne
    simp only
    rw [h16, min_eq_left]
    · norm_num
    · calc (2 : ℝ) = 2 ^ (1 : ℝ) := (Real.rpow_one 2).symm
        _ ≤ 2 ^ ((120 : ℝ) / 16) := Real.rpow_le_rpow_of_exponent_le (by norm_num) (by norm_num)
  have a1 : (1.4 : ℝ) ≤ √2 := by rw [Real.le_sqrt' (by norm_num)]; norm_num
  have a2 : √2 ≤ (1.5 : ℝ) := by rw [Real.sqrt_le_left (by norm_num)]; norm_num
  have a3 : (1.7 : ℝ) ≤ √3 := by rw [Real.le_sqrt' (by norm_num)]; norm_num
  have a4 : √3 ≤ (1.8 : ℝ) := by rw [Real.sqrt_le_left (by norm_num)]; norm_num
  have hs : √(2 : ℝ) * √2 = 2 := Real.mul_self_sqrt (by norm_num)
  have h0 : (⟨1, 2, 16, 256, 32, 1, 1⟩ : NPVars).resEcd0Inf = 17280 * √2 + 17280 * √3 := by
    simp only [NPVars.resEcd0Inf, NPVars.scaleUp, hc, NPVars.f0jInf, NPVars.f0nInf, NPVars.ecdBlindStdDev,
      NPVars.maskBlindStdDev, NPVars.xOne, h16, Real.sqrt_one]
    norm_num
    ring
  have h1 : (⟨1, 2, 16, 256, 32, 1, 1⟩ : NPVars).resEcdiInf = 2160 + 2160 * √2 := by
    simp only [NPVars.resEcdiInf, NPVars.scaleUp, hc, NPVars.fijInf, NPVars.finInf, NPVars.ecdStdDev,
      NPVars.maskStdDev, Real.sqrt_one]
    norm_num
    ring
  have h2 : (⟨1, 2, 16, 256, 32, 1, 1⟩ : NPVars).resMLWEInf = 240 * √2 + 480 := by
    simp only [NPVars.resMLWEInf, NPVars.scaleUp, hc, NPVars.mlweStdDev, NPVars.maskMLWEStdDev, Real.sqrt_one]
    norm_num
    nlinarith
  have h3 : (⟨1, 2, 16, 256, 32, 1, 1⟩ : NPVars).resEcdTwo * (⟨1, 2, 16, 256, 32, 1, 1⟩ : NPVars).resEcdTwo =
      256 * ((2160 + 2160 * √2) * (2160 + 2160 * √2) +
        (17280 * √2 + 17280 * √3) * (17280 * √2 + 17280 * √3)) := by
    unfold NPVars.resEcdTwo
    simp only [h0, h1]
    rw [Real.mul_self_sqrt]
    · ring
    · positivity
  refine ⟨?_, ?_, hc⟩
  · refine lt_of_lt_of_le ?_ (NPVars.resTwo_ge_ecd _ 1)
    apply lt_of_pow_lt_pow_left₀ 2 (Real.sqrt_nonneg _)
    rw [sq _, sq _]
    change _ < (⟨1, 2, 16, 256, 32, 1, 1⟩ : NPVars).resEcdTwo * (⟨1, 2, 16, 256, 32, 1, 1⟩ : NPVars).resEcdTwo
    rw [h3]
    nlinarith
  · unfold NPVars.resTwo
    simp only [h2]
    rw [h3, Real.sqrt_le_left (by norm_num)]
    have h4 : √((256 : ℝ) * ((33 : ℕ) + 32)) * √((256 : ℝ) * ((33 : ℕ) + 32)) = 16640 := by
      rw [Real.mul_self_sqrt (by positivity)]; norm_num
    have h5 : √((256 : ℝ) * ((33 : ℕ) + 32)) * (240 * √2 + 480) * (√((256 : ℝ) * ((33 : ℕ) + 32)) * (240 * √2 + 480)) =
        16640 * ((240 * √2 + 480) * (240 * √2 + 480)) := by
      rw [← h4]; ring
    rw [h5]
    nlinarith

theorem case_logs : ⌈logb 2 ((⟨1, 2, 16, 256, 32, 1, 1⟩ : NPVars).inMSISBeta 1)⌉ = 26 ∧
    ⌈logb 2 ((⟨1, 2, 16, 256, 32, 1, 1⟩ : NPVars).inMSISBeta 33)⌉ = 26 := by
  obtain ⟨h1, h2, hc⟩ := case_bounds
  have hV : (⟨1, 2, 16, 256, 32, 1, 1⟩ : NPVars).Ok := ⟨by norm_num, by norm_num, by norm_num, by norm_num,
    by norm_num, by norm_num, by norm_num⟩
  have hm := NPVars.resTwo_mono hV (show 1 ≤ 33 by norm_num)
  have key : ∀ mu, 2 ^ 19 < (⟨1, 2, 16, 256, 32, 1, 1⟩ : NPVars).resTwo mu →
      (⟨1, 2, 16, 256, 32, 1, 1⟩ : NPVars).resTwo mu ≤ 2 ^ 20 →
      ⌈logb 2 ((⟨1, 2, 16, 256, 32, 1, 1⟩ : NPVars).inMSISBeta mu)⌉ = 26 := by
    intro mu g1 g2
    have hb : (⟨1, 2, 16, 256, 32, 1, 1⟩ : NPVars).inMSISBeta mu =
        64 * (⟨1, 2, 16, 256, 32, 1, 1⟩ : NPVars).resTwo mu := by
      rw [NPVars.inMSISBeta_eq, NPVars.inFac, if_pos rfl, hc]; ring
    rw [hb, Int.ceil_eq_iff]
    constructor
    · rw [Real.lt_logb_iff_rpow_lt (by norm_num) (by linarith)]
      norm_num
      norm_num at g1
      linarith
    · rw [Real.logb_le_iff_le_rpow (by norm_num) (by linarith)]
      norm_num
      norm_num at g2
      linarith
  exact ⟨key 1 h1 (hm.trans h2), key 33 (lt_of_lt_of_le h1 hm) h2⟩

theorem case_returns (gen : ℤ → ℤ → Option (List Nat)) : ∃ P, newParametersR gen 16 1 65537 = .ok P := by
  refine C92_ends_partial gen (by norm_num) (by norm_num) (by norm_num) encPars_65537 fun nn h1 h2 => ?_
  have : nn = 1 := by
    have : ceilDiv 16 (max (EcdParams.mk 2 16).exp 256 / (EcdParams.mk 2 16).exp) = 1 := rfl
    omega
  subst this
  rw [npVars_case, case_logs.1, case_logs.2]
  norm_num

/-- The case meets the hypotheses of `C91_sound` and `C92_ends_partial`, and the parameters returned are not the
zero value. -/
theorem case_sound : ∃ gen, GenOk gen ∧ ∃ P, newParametersR gen 16 1 65537 = .ok P ∧ P.Sound := by
  have hg : GenOk fun bits limbs => some (List.replicate limbs.toNat (2 ^ bits.toNat + 1)) := by
    intro bits limbs h1 h2 h3 h4
    refine ⟨_, rfl, by rw [List.length_replicate, Int.toNat_of_nonneg (by omega)], fun q hq => ?_⟩
    rw [List.eq_of_mem_replicate hq]
    push_cast
    omega
  refine ⟨_, hg, ?_⟩
  · obtain ⟨P, hP⟩ := case_returns fun bits limbs => some (List.replicate limbs.toNat (2 ^ bits.toNat + 1))
    refine ⟨P, hP, ?_⟩
    rcases C91_sound hg (by norm_num) hP with h | h
    swap
    · exact h.1
    exfalso
    -- the only iteration sets the parameters
    unfold newParametersR at hP
    rw [if_neg (by norm_num), if_neg (by norm_num), encPars_65537, go_bind_ok] at hP
    dsimp only at hP
    rw [show ceilDiv 16 (max 16 256 / 16) = 1 from rfl, show doublings 1 1 = [1] by simp [doublings]] at hP
    obtain ⟨s, hs, hP⟩ := bind_ok_inv hP
    injection hP with hP
    rw [List.foldlM_cons] at hs
    obtain ⟨s', h1, h2⟩ := bind_ok_inv hs
    injection h2 with h2
    subst h2
    have hV : (npVars 16 1 ⟨2, 16⟩ 1).Ok := npVars_ok (by norm_num) (by norm_num) (by norm_num) (by norm_num) le_rfl
    unfold npStepR at h1
    obtain ⟨mu, h3, h1⟩ := bind_ok_inv h1
    obtain ⟨a1, a2, a3, a4, -⟩ := inner_facts hV h3
    obtain ⟨-, d2, d3⟩ := inDcmp_facts hV a1 a4
    have hlog : (npVars 16 1 ⟨2, 16⟩ 1).inLogQ mu = 26 := by
      have e1 : ⌈logb 2 ((npVars 16 1 ⟨2, 16⟩ 1).inMSISBeta mu)⌉ = 26 := by
        obtain ⟨l1, l2⟩ := case_logs
        rw [← npVars_case] at l1 l2
        apply le_antisymm
        · rw [← l2]
          exact Int.ceil_le_ceil (Real.logb_le_logb_of_le (by norm_num) (NPVars.inMSISBeta_pos hV _)
            (NPVars.inMSISBeta_mono hV a2))
        · rw [← l1]
          exact Int.ceil_le_ceil (Real.logb_le_logb_of_le (by norm_num) (NPVars.inMSISBeta_pos hV _)
            (NPVars.inMSISBeta_mono hV a1))
      have e2 : limbsOf ((26 : ℤ) : ℝ) = 1 := by
        unfold limbsOf; rw [Int.ceil_eq_iff]; norm_num
      unfold NPVars.inLogQ
      rw [e1]
      have e3 : bitsOf ((26 : ℤ) : ℝ) = 26 := by
        unfold bitsOf; rw [e2]; norm_num
      dsimp only
      rw [e2, e3]; rfl
    have hout : (npVars 16 1 ⟨2, 16⟩ 1).outLogQ mu ≤ 240 := by
      refine bits_limbs_le (NPVars.one_le_ceil_log (by linarith)) ?_
      rw [Int.ceil_le, Real.logb_le_iff_le_rpow (by norm_num) (by linarith)]
      have hc := NPVars.inCutOffInf_ge hV a1
      have g1 : (npVars 16 1 ⟨2, 16⟩ 1).inDcmpInf mu ≤ 2 ^ 26 := by
        unfold NPVars.inDcmpInf NPVars.scaleUp
        rw [if_neg (by rw [npVars_case]; norm_num), hlog]
        rw [div_le_iff₀ (by linarith)]
        norm_num
        linarith
      have g0 : 0 ≤ (npVars 16 1 ⟨2, 16⟩ 1).inDcmpInf mu := by
        unfold NPVars.inDcmpInf NPVars.scaleUp
        rw [if_neg (by rw [npVars_case]; norm_num)]
        positivity
      have g2 : √(((npVars 16 1 ⟨2, 16⟩ 1).n + 1) * mu * (npVars 16 1 ⟨2, 16⟩ 1).d) ≤ 2 ^ 8 := by
        rw [Real.sqrt_le_left (by norm_num), npVars_case]
        have : (mu : ℝ) ≤ 33 := by exact_mod_cast a2
        norm_num
        linarith
      have g3 : (npVars 16 1 ⟨2, 16⟩ 1).inDcmpTwo mu ≤ 2 ^ 8 * 2 ^ 26 := by
        unfold NPVars.inDcmpTwo
        gcongr
      have g4 : (npVars 16 1 ⟨2, 16⟩ 1).dExtOne = 1 := by
        unfold NPVars.dExtOne; rw [if_pos (by rw [npVars_case])]
      unfold NPVars.outMSISBeta
      rw [g4]
      have g5 : (2 : ℝ) ^ 37 ≤ 2 ^ (((240 : ℤ) : ℝ)) := by
        rw [← Real.rpow_natCast]
        exact Real.rpow_le_rpow_of_exponent_le (by norm_num) (by norm_num)
      refine le_trans ?_ g5
      norm_num at g3 ⊢
      linarith
    dsimp only at h1
    rw [NPVars.logb_two_rpow, if_neg (by push Not; exact_mod_cast hout)] at h1
    obtain ⟨r, h5, h1⟩ := bind_ok_inv h1
    injection h1 with h1
    obtain ⟨Q, hQ, -⟩ := primesFor_ok hg (log_facts_in hV a1)
      (show bitsOf _ * limbsOf _ ≤ 240 from by exact_mod_cast a3)
    obtain ⟨Q', hQ', -⟩ := primesFor_ok hg
      (NPVars.one_le_ceil_log (show 1 < (npVars 16 1 ⟨2, 16⟩ 1).outMSISBeta mu by linarith))
      (show bitsOf _ * limbsOf _ ≤ 240 from hout)
    rcases npAssignR_eq (outRank := r) hQ hQ' (RParams.zero, none) with ⟨g, -⟩ | ⟨x, g⟩
    · exact g rfl
    · rw [g] at h1
      rw [← h1] at hP
      rw [← hP] at h
      have := congrArg (fun P : RParams => P.shape.rows) h
      simp [npFinal, RParams.zero, JParams.zero] at this

end Ringo
