import Verif.Proof.JLimbs
import Verif.Props.JSkip
import Verif.Props.JDiv
import Mathlib.Tactic.NormNum.Prime

/-!
# C96: the objects of `entities.go` and `Commit`
-/

namespace Ringo

open Real

/-! ## A field for which the outer modulus has more primes than the inner one -/

/-- The variables of the only iteration of `NewParameters(1, 2)` over the field of order `28^4 + 1`. -/
noncomputable def limbVars : NPVars := ⟨2, 28, 4, 256, 32, 1, 1⟩

theorem npVars_limb : npVars 1 2 ⟨28, 4⟩ 1 = limbVars := by
  unfold npVars ceilDiv limbVars
  norm_num

theorem limb_ok : limbVars.Ok := by
  unfold limbVars
  exact ⟨by norm_num, by norm_num, by norm_num, by norm_num, by norm_num, by norm_num, by norm_num⟩

theorem sqrt_four : √(4 : ℝ) = 2 := by
  rw [show (4 : ℝ) = 2 ^ 2 by norm_num, Real.sqrt_sq (by norm_num)]

theorem limb_c : limbVars.cOne = 28 := by
  unfold NPVars.cOne limbVars
  simp only
  rw [sqrt_four, min_eq_left]
  · norm_num
  · calc (28 : ℝ) ≤ 2 ^ (5 : ℝ) := by norm_num
      _ ≤ 2 ^ ((120 : ℝ) / 4) := Real.rpow_le_rpow_of_exponent_le (by norm_num) (by norm_num)

theorem limb_fac : limbVars.batchFac = 28 * √2 := by
  rw [NPVars.batchFac, limb_c]
  simp only [limbVars]
  norm_num
  ring

/-- The square of the norm. -/
theorem limb_sq (mu : Nat) : limbVars.resTwo mu ^ 2 =
    512 * (13186880 / 9) ^ 2 * (3 + 2 * √2 + 3136 * (5 + 2 * √6)) +
      256 * (mu + 32) * (94080 ^ 2 * (3 + 2 * √2)) := by
  have h2 : √(2 : ℝ) * √2 = 2 := Real.mul_self_sqrt (by norm_num)
  have h3 : √(3 : ℝ) * √3 = 3 := Real.mul_self_sqrt (by norm_num)
  have h6 : √2 * √3 = √(6 : ℝ) := by rw [← Real.sqrt_mul (by norm_num)]; norm_num
  have hi : limbVars.resEcdiInf = 13186880 / 9 * √2 * (1 + √2) := by
    rw [NPVars.resEcdiInf, NPVars.scaleUp_eq, limb_fac, limb_c]
    simp only [NPVars.fijInf, NPVars.finInf, NPVars.ecdStdDev, NPVars.maskStdDev, limb_c]
    simp only [limbVars, Real.sqrt_one]
    norm_num
    ring
  have h0 : limbVars.resEcd0Inf = 56 * (13186880 / 9) * √2 * (√2 + √3) := by
    rw [NPVars.resEcd0Inf, NPVars.scaleUp_eq, limb_fac, limb_c]
    simp only [NPVars.f0jInf, NPVars.f0nInf, NPVars.ecdBlindStdDev, NPVars.maskBlindStdDev, NPVars.xOne, limb_c]
    simp only [limbVars, Real.sqrt_one, sqrt_four]
    norm_num
    ring
  have hm : limbVars.resMLWEInf = 94080 * (1 + √2) := by
    rw [NPVars.resMLWEInf_eq, limb_fac, limb_c]
    simp only [limbVars, Real.sqrt_one]
    norm_num
    linear_combination (47040 * (1 + √2)) * h2
  have he : limbVars.resEcdTwo * limbVars.resEcdTwo =
      512 * (13186880 / 9) ^ 2 * (3 + 2 * √2 + 3136 * (5 + 2 * √6)) := by
    have h256 : limbVars.d = 256 := rfl
    have h91 : limbVars.m = 1 := rfl
    rw [NPVars.resEcdTwo, hi, h0, h256, h91, Real.mul_self_sqrt (by positivity)]
    have e1 : (1 + √2) * (1 + √2) = 3 + 2 * √2 := by linear_combination h2
    have e2 : (√2 + √3) * (√2 + √3) = 5 + 2 * √6 := by linear_combination h2 + h3 + 2 * h6
    calc (256 : ℝ) * (1 * (13186880 / 9 * √2 * (1 + √2)) * (13186880 / 9 * √2 * (1 + √2)) +
          56 * (13186880 / 9) * √2 * (√2 + √3) * (56 * (13186880 / 9) * √2 * (√2 + √3)))
        = 256 * (13186880 / 9) ^ 2 * (√2 * √2) * ((1 + √2) * (1 + √2) + 3136 * ((√2 + √3) * (√2 + √3))) := by ring
      _ = _ := by rw [h2, e1, e2]; ring
  have hd : √((256 : ℝ) * (mu + 32)) * √((256 : ℝ) * (mu + 32)) = 256 * (mu + 32) :=
    Real.mul_self_sqrt (by positivity)
  rw [NPVars.resTwo, Real.sq_sqrt (add_nonneg (mul_self_nonneg _) (mul_self_nonneg _)), he, hm]
  simp only [limbVars]
  have e1 : (1 + √2) * (1 + √2) = 3 + 2 * √2 := by linear_combination h2
  calc _ = 512 * (13186880 / 9) ^ 2 * (3 + 2 * √2 + 3136 * (5 + 2 * √6)) +
        (√((256 : ℝ) * (mu + 32)) * √((256 : ℝ) * (mu + 32))) * (94080 ^ 2 * ((1 + √2) * (1 + √2))) := by ring
    _ = _ := by rw [hd, e1]

theorem limb_roots : 1.41 < √(2 : ℝ) ∧ √(2 : ℝ) < 1.42 ∧ 2.4 < √(6 : ℝ) ∧ √(6 : ℝ) < 2.5 := by
  refine ⟨?_, ?_, ?_, ?_⟩
  · rw [Real.lt_sqrt (by norm_num)]; norm_num
  · rw [Real.sqrt_lt' (by norm_num)]; norm_num
  · rw [Real.lt_sqrt (by norm_num)]; norm_num
  · rw [Real.sqrt_lt' (by norm_num)]; norm_num

theorem limb_bounds {mu : Nat} (h : mu ≤ 8) :
    (2 : ℝ) ^ 32 < limbVars.resTwo mu ∧ limbVars.resTwo mu < 2 ^ 32 * 1.5 := by
  obtain ⟨a1, a2, a3, a4⟩ := limb_roots
  have hp := (NPVars.resTwo_pos limb_ok mu).le
  have h0 : (0 : ℝ) ≤ mu := Nat.cast_nonneg mu
  have h8 : (mu : ℝ) ≤ 8 := by exact_mod_cast h
  have hX : (0 : ℝ) ≤ 256 * (mu + 32) * (94080 ^ 2 * (3 + 2 * √2)) := by positivity
  have hY : 256 * (mu + 32) * (94080 ^ 2 * (3 + 2 * √2)) ≤ 256 * (40 : ℝ) * (94080 ^ 2 * (3 + 2 * 1.42)) := by
    gcongr
    linarith
  constructor
  · apply lt_of_pow_lt_pow_left₀ 2 hp
    rw [limb_sq]; linarith
  · apply lt_of_pow_lt_pow_left₀ 2 (by norm_num)
    rw [limb_sq]; linarith

theorem limb_beta (mu : Nat) : limbVars.inMSISBeta mu = 78675968 * limbVars.resTwo mu := by
  rw [NPVars.inMSISBeta_eq, NPVars.inFac, limb_c]
  simp only [limbVars]
  norm_num
  ring

theorem limb_log {mu : Nat} (h : mu ≤ 8) :
    58 < logb 2 (limbVars.inMSISBeta mu) ∧ logb 2 (limbVars.inMSISBeta mu) < 58.86 := by
  obtain ⟨b1, b2⟩ := limb_bounds h
  have hp : 0 < limbVars.inMSISBeta mu := NPVars.inMSISBeta_pos limb_ok mu
  constructor
  · rw [Real.lt_logb_iff_rpow_lt (by norm_num) hp, limb_beta]
    norm_num at b1 ⊢
    linarith
  · have h1 : logb 2 (limbVars.inMSISBeta mu) ≤ logb 2 ((2 : ℝ) ^ 58 * 1.76) := by
      apply Real.logb_le_logb_of_le (by norm_num) hp
      rw [limb_beta]
      norm_num at b2 ⊢
      linarith
    have h2 : logb 2 ((2 : ℝ) ^ 58 * 1.76) = 58 + logb 2 1.76 := by
      rw [Real.logb_mul (by positivity) (by norm_num), Real.logb_pow, Real.logb_self_eq_one (by norm_num)]
      norm_num
    have h3 : logb 2 (1.76 : ℝ) ≤ 0.85 := by
      have h4 : logb 2 ((1.76 : ℝ) ^ 20) ≤ logb 2 ((2 : ℝ) ^ 17) :=
        Real.logb_le_logb_of_le (by norm_num) (by norm_num) (by norm_num)
      rw [Real.logb_pow, Real.logb_pow, Real.logb_self_eq_one (by norm_num)] at h4
      norm_num at h4 ⊢
      linarith
    linarith

theorem limb_logQ {mu : Nat} (h : mu ≤ 8) : limbVars.inLogQ mu = 59 ∧ ⌈logb 2 (limbVars.inMSISBeta mu)⌉ = 59 := by
  obtain ⟨l1, l2⟩ := limb_log h
  have hc : ⌈logb 2 (limbVars.inMSISBeta mu)⌉ = 59 := by
    rw [Int.ceil_eq_iff]
    push_cast
    exact ⟨by linarith, by linarith⟩
  refine ⟨?_, hc⟩
  unfold NPVars.inLogQ bitsOf limbsOf
  simp only [hc]
  norm_num

theorem limb_rank {mu : Nat} (h : mu ≤ 8) : rankAt limbVars mu = 8 := by
  obtain ⟨l1, l2⟩ := limb_log h
  have hD := logDelta_le
  have hD' := logDelta_ge
  have hd : limbVars.d = 256 := rfl
  rw [rankAt, (limb_logQ h).1, hd, Int.ceil_eq_iff]
  push_cast
  constructor
  · rw [lt_div_iff₀ (by positivity)]
    nlinarith
  · rw [div_le_iff₀ (by positivity)]
    nlinarith

theorem limb_loop : limbVars.inLoop = .ok 8 := by
  have h240 : ∀ mu, mu ≤ 8 → ¬ (logb 2 ((2 : ℝ) ^ (limbVars.inLogQ mu : ℝ)) > 240) := by
    intro mu h
    rw [NPVars.logb_two_rpow, (limb_logQ h).1]
    norm_num
  refine forever_ok (i := 8) (by norm_num) ?_ ?_
  · dsimp only
    rw [if_neg (h240 8 le_rfl), findMSISRank_at limb_ok (by norm_num), go_bind_ok, limb_rank le_rfl]
    rfl
  · intro j h1 h2
    dsimp only
    rw [if_neg (h240 j (by omega)), findMSISRank_at limb_ok h1, go_bind_ok, limb_rank (by omega), if_neg (by omega)]
    rfl

theorem limb_out : 2 ^ 60 < limbVars.outMSISBeta 8 ∧ limbVars.outMSISBeta 8 ≤ 2 ^ 120 := by
  obtain ⟨b1, b2⟩ := limb_bounds (mu := 8) le_rfl
  obtain ⟨a1, a2, -, -⟩ := limb_roots
  have hp := NPVars.resTwo_pos limb_ok 8
  have h2 : √(2 : ℝ) * √2 = 2 := Real.mul_self_sqrt (by norm_num)
  have e1 : √((8 : ℝ) * 256) = 32 * √2 := by
    rw [show (8 : ℝ) * 256 = 32 ^ 2 * 2 by norm_num, Real.sqrt_mul (by norm_num), Real.sqrt_sq (by norm_num)]
  have e2 : √((2 : ℝ) * 8 * 256) = 64 := by
    rw [show (2 : ℝ) * 8 * 256 = 64 ^ 2 by norm_num, Real.sqrt_sq (by norm_num)]
  have hcut : limbVars.inCutOffInf 8 = limbVars.resTwo 8 / (29 * (32 * √2)) / (28 * √2) := by
    rw [NPVars.inCutOffInf, NPVars.scaleDown_eq, limb_fac, limb_c]
    simp only [limbVars, Real.sqrt_one]
    push_cast
    rw [e1]
    norm_num
  have hd : limbVars.inDcmpInf 8 = 2 ^ 59 * (29 * 32 * 28 * 28 * 2) * √2 / limbVars.resTwo 8 := by
    rw [NPVars.inDcmpInf, NPVars.scaleUp_eq, limb_fac, (limb_logQ le_rfl).1, hcut]
    have : (2 : ℝ) ^ ((59 : ℤ) : ℝ) = 2 ^ 59 := by norm_cast
    rw [this]
    field_simp
    linear_combination h2
  have hD : limbVars.inDcmpTwo 8 = 64 * (2 ^ 59 * (29 * 32 * 28 * 28 * 2) * √2 / limbVars.resTwo 8) := by
    rw [NPVars.inDcmpTwo, hd]
    simp only [limbVars]
    push_cast
    rw [show ((1 : ℝ) + 1) = 2 by norm_num, e2]
  have hB : limbVars.outMSISBeta 8 =
      448 * 64 * 2 ^ 59 * (29 * 32 * 28 * 28 * 2) * √2 / limbVars.resTwo 8 := by
    rw [NPVars.outMSISBeta, NPVars.dExtOne, limb_c, hD]
    simp only [limbVars]
    norm_num
    ring
  rw [hB]
  constructor
  · rw [lt_div_iff₀ hp]
    norm_num at b2 ⊢
    nlinarith
  · rw [div_le_iff₀ hp]
    norm_num at b1 ⊢
    nlinarith

theorem limb_outLog : 61 ≤ ⌈logb 2 (limbVars.outMSISBeta 8)⌉ ∧ ⌈logb 2 (limbVars.outMSISBeta 8)⌉ ≤ 120 := by
  obtain ⟨h1, h2⟩ := limb_out
  have hp : 0 < limbVars.outMSISBeta 8 := by linarith [show (0 : ℝ) < 2 ^ 60 by norm_num]
  constructor
  · rw [Int.le_ceil_iff]
    push_cast
    rw [Real.lt_logb_iff_rpow_lt (by norm_num) hp]
    norm_num at h1 ⊢
    linarith
  · rw [Int.ceil_le]
    push_cast
    rw [Real.logb_le_iff_le_rpow (by norm_num) hp]
    norm_num at h2 ⊢
    linarith

theorem limb_two {L : ℤ} (h1 : 61 ≤ L) (h2 : L ≤ 120) : limbsOf L = 2 := by
  have h1' : (61 : ℝ) ≤ L := by exact_mod_cast h1
  have h2' : (L : ℝ) ≤ 120 := by exact_mod_cast h2
  unfold limbsOf
  rw [Int.ceil_eq_iff]
  push_cast
  constructor <;> linarith

theorem encPars_614657 : newEncodeParameters 614657 = .ok ⟨28, 4⟩ := by
  have e1 : Nat.sqrt 614656 = 784 := by rw [show (614656:Nat) = 784 * 784 from rfl, Nat.sqrt_eq]
  have e2 : Nat.sqrt 784 = 28 := by rw [show (784:Nat) = 28 * 28 from rfl, Nat.sqrt_eq]
  have e3 : Nat.sqrt 28 = 5 := (Nat.eq_sqrt.mpr (by decide)).symm
  unfold newEncodeParameters
  rw [show 614657 - 1 = 614656 from rfl]
  rw [ecdLoop, e1, if_neg (by decide), if_neg (by decide),
    ecdLoop, e2, if_neg (by decide), if_neg (by decide),
    ecdLoop, e3, if_pos (by decide)]
  rfl

/-- How many primes there are for a modulus of `bits * limbs` bits. -/
theorem primesFor_len {gen : ℤ → ℤ → Option (List Nat)} (hg : GenOk gen) {L : ℤ} (hL : 1 ≤ L)
    (h3 : L ≤ 240) :
    ∃ Q, primesFor gen (logb 2 (2 ^ ((bitsOf L * limbsOf L : ℤ) : ℝ))) = some Q ∧ (Q.length : ℤ) = limbsOf L := by
  obtain ⟨Q, hQ, hlen, -⟩ := hg _ _ (bits_pos hL) (bits_le hL) (limbs_pos hL) (limbs_le h3)
  refine ⟨Q, ?_, hlen⟩
  rw [NPVars.logb_two_rpow]
  show gen (bitsOf ((bitsOf L * limbsOf L : ℤ) : ℝ)) (limbsOf ((bitsOf L * limbsOf L : ℤ) : ℝ)) = _
  rw [limbs_again hL, bits_again hL, hQ]

/-- What `NewParameters(1, 2)` returns over the field of order `28^4 + 1`. -/
theorem limb_params {gen : ℤ → ℤ → Option (List Nat)} (hg : GenOk gen) :
    ∃ Q Q' r, newParametersR gen 1 2 614657 = .ok (npFinal 1 2 ⟨28, 4⟩ 1 8 r Q Q') ∧ Q.length = 1 ∧
      Q'.length = 2 ∧ 1 ≤ r := by
  obtain ⟨o1, o2⟩ := limb_outLog
  obtain ⟨Q, hQ, hl⟩ := primesFor_len hg (L := ⌈logb 2 (limbVars.inMSISBeta 8)⌉)
    (by rw [(limb_logQ le_rfl).2]; norm_num) (by rw [(limb_logQ le_rfl).2]; norm_num)
  obtain ⟨Q', hQ', hl'⟩ := primesFor_len hg (L := ⌈logb 2 (limbVars.outMSISBeta 8)⌉) (by omega) (by omega)
  have hle : limbVars.outMSISBeta 8 ≤ 2 ^ (limbVars.outLogQ 8 : ℝ) :=
    NPVars.le_two_pow_ceil (by have := limb_out.1; linarith [show (1 : ℝ) < 2 ^ 60 by norm_num])
  have h240 : (limbVars.outLogQ 8 : ℝ) ≤ 240 := by
    have : limbVars.outLogQ 8 ≤ 240 := bits_limbs_le (by omega) (by omega)
    exact_mod_cast this
  obtain ⟨r, hr⟩ : ∃ r, findMSISRank limbVars.d (2 ^ (limbVars.outLogQ 8 : ℝ)) (limbVars.outMSISBeta 8) = .ok r :=
    ⟨_, findMSISRank_total hle⟩
  obtain ⟨-, r1, -, -⟩ := findMSISRank_ok limb_ok.d
    (by have := limb_out.1; linarith [show (1 : ℝ) < 2 ^ 60 by norm_num])
    (by rw [NPVars.logb_two_rpow]; exact h240) hr
  refine ⟨Q, Q', r, ?_, ?_, ?_, r1⟩
  · unfold newParametersR
    rw [if_neg (by omega), if_neg (by omega), encPars_614657, go_bind_ok]
    dsimp only
    have hd : doublings 1 (ceilDiv 1 (max 4 256 / 4)) = [1] := by
      rw [show ceilDiv 1 (max 4 256 / 4) = 1 from rfl, doublings, if_pos (by omega), doublings, if_neg (by omega)]
    have hst : npStepR gen 1 2 ⟨28, 4⟩ (RParams.zero, none) 1 =
        .ok (npAssignR gen 1 2 ⟨28, 4⟩ 1 8 r (RParams.zero, none)) := by
      unfold npStepR
      dsimp only
      rw [npVars_limb, limb_loop, go_bind_ok, if_neg (by rw [NPVars.logb_two_rpow]; linarith), hr, go_bind_ok]
      rfl
    rw [hd, List.foldlM_cons, hst, go_bind_ok]
    rcases npAssignR_eq (outRank := r) (targetN := 1) (batch := 2) (e := ⟨28, 4⟩) (nn := 1) (mu := 8)
      (by rw [npVars_limb]; exact hQ) (by rw [npVars_limb]; exact hQ') (RParams.zero, none) with ⟨h, -⟩ | ⟨x, h⟩
    · exact absurd rfl h
    · rw [h]; rfl
  · have : limbsOf ((59 : ℤ) : ℝ) = 1 := by unfold limbsOf; norm_num
    rw [(limb_logQ le_rfl).2, this] at hl
    exact_mod_cast hl
  · rw [limb_two o1 o2] at hl'
    exact_mod_cast hl'

/-! ## The theorems -/

/-- **C96**, keys.  `NewCommitKey` returns a key of the dimensions of the parameters, all residues reduced, if
words below `2^63` keep coming from the generator. -/
theorem C96_key {P : LimbPar} (hP : P.ringQOut.n = P.ringQ.n)
    (hq : ∀ q ∈ P.ringQ.moduli ++ P.ringQOut.moduli, 1 ≤ q ∧ q ≤ 2 ^ 63)
    {w : List (BitVec 8) → Nat → Nat} {crs : List (BitVec 8)} (hw : ∀ pos, ∃ i, pos ≤ i ∧ w crs i < 2 ^ 63) :
    ∃ K, newCommitKey P w crs = .ok K ∧ K.crs = crs ∧ K.Fits P ∧
      MatOf P.inRank P.rows P.ringQ.Reduced K.inn ∧ MatOf P.inRank P.mlweRank P.ringQ.Reduced K.mlwe ∧
      MatOf P.outRank P.dcmpLen P.ringQOut.Reduced K.out := by
  have hq1 : ∀ q ∈ P.ringQ.moduli, 1 ≤ q ∧ q ≤ 2 ^ 63 := fun q h => hq q (List.mem_append_left _ h)
  have hq2 : ∀ q ∈ P.ringQOut.moduli, 1 ≤ q ∧ q ≤ 2 ^ 63 := fun q h => hq q (List.mem_append_right _ h)
  obtain ⟨s1, h1, k1⟩ := keyMat_ok hw hq1 P.inRank P.rows 0
  obtain ⟨s2, h2, k2⟩ := keyMat_ok hw hq1 P.inRank P.mlweRank s1.2
  obtain ⟨s3, h3, k3⟩ := keyMat_ok hw hq2 P.outRank P.dcmpLen s2.2
  have weak : ∀ {R : LimbRing} {a b : Nat} {M : List (List LimbPoly)}, MatOf a b R.Reduced M →
      MatOf a b (HasShape R.moduli.length R.n) M := fun h =>
    ⟨h.len, fun x hx => ⟨(h.all x hx).len, fun y hy => ((h.all x hx).all y hy).1⟩⟩
  refine ⟨⟨crs, s1.1, s2.1, s3.1⟩, ?_, rfl, ⟨weak k1, weak k2, weak k3⟩, k1, k2, k3⟩
  unfold newCommitKey
  rw [hP, h1, go_bind_ok]
  obtain ⟨a1, b1⟩ := s1
  obtain ⟨a2, b2⟩ := s2
  dsimp only at h2 h3 ⊢
  rw [h2, go_bind_ok]
  dsimp only
  rw [← hP, h3, go_bind_ok]
  rfl

/-- **C96**, `Commit`.  On a vector that fits, `Commit` returns if and only if the outer modulus has no more
primes than the inner one; otherwise it panics.  `NewCommitment` makes the polynomials of the commitment for
the inner ring, and `outerCommitTo` computes in the outer one. -/
theorem C96_commit {P : LimbPar} (hP : P.Ok) (hin : 1 ≤ P.inRank) {F : ComFns} (hF : F.Keep P.ringQ.n)
    {K : LimbKey} (hK : K.Fits P) {len : Nat} (h1 : 1 ≤ len) (h2 : len ≤ P.rank) :
    ((∃ r, limbCommit P F K len = .ok r) ↔ P.ringQOut.moduli.length ≤ P.ringQ.moduli.length) ∧
    (P.ringQ.moduli.length < P.ringQOut.moduli.length → limbCommit P F K len = .error .panic) := by
  obtain ⟨op, ho, hf⟩ := forRange_inv (f := fun op i => limbCol P F K len i op) (P.cols + 1) (fun op => op.Fits P)
    (newOpening P) (newOpening_fits P) fun i op hi hop => limbCol_ok hP hF hK hi hop
  have hcs : ¬ P.cols * P.slots = 0 := (Nat.mul_pos hP.cols hP.slots).ne'
  have hpanic : P.ringQ.moduli.length < P.ringQOut.moduli.length → limbCommit P F K len = .error .panic := by
    intro h
    unfold limbCommit
    rw [if_neg (by omega), if_neg hcs, if_neg (by omega), ho, go_bind_ok, limbOuter_panic hP hin hF hK h hf]
    rfl
  refine ⟨⟨fun ⟨r, hr⟩ => ?_, fun h => ?_⟩, hpanic⟩
  · by_contra hn
    rw [hpanic (by omega)] at hr
    cases hr
  · obtain ⟨com, hc, -⟩ := limbOuter_ok hP hF hK h hf
    refine ⟨(com, op), ?_⟩
    unfold limbCommit
    rw [if_neg (by omega), if_neg hcs, if_neg (by omega), ho, go_bind_ok, hc]
    rfl

/-- **C96, refuted.**  For the field of order 614657 `NewParameters(1, 2)` returns parameters with which every
`Commit` panics, whatever the key, the vector and the randomness. -/
theorem C96_refuted {gen : ℤ → ℤ → Option (List Nat)} (hg : GenOk gen) :
    Nat.Prime 614657 ∧ ∃ P, newParametersR gen 1 2 614657 = .ok P ∧ P.Sound ∧ P.limbPar.Ok ∧
      P.limbPar.rank = 64 ∧ ∀ F K, F.Keep P.limbPar.ringQ.n → K.Fits P.limbPar → ∀ len,
        limbCommit P.limbPar F K len = .error .panic := by
  refine ⟨by norm_num, ?_⟩
  obtain ⟨Q, Q', r, h1, h2, h3, h4⟩ := limb_params hg
  have hd : (npFinal 1 2 ⟨28, 4⟩ 1 8 r Q Q').dcmpLen = 16 := by
    show ⌊((npVars 1 2 ⟨28, 4⟩ 1).n + 1) * (8 : ℕ)⌋ = 16
    rw [npVars_limb]
    simp only [limbVars]
    norm_num
  have hok : (npFinal 1 2 ⟨28, 4⟩ 1 8 r Q Q').limbPar.Ok := by
    refine ⟨?_, ?_, ?_, ?_, ?_, ?_, ?_, rfl⟩
    · show 2 ≤ ceilDiv 1 (1 * (max 4 256 / 4)) + 1
      decide
    · show 1 ≤ 1
      exact le_rfl
    · show 1 ≤ max 4 256 / 4
      decide
    · show 1 ≤ r.toNat
      omega
    · show Int.toNat _ = _
      rw [hd]; rfl
    · show 1 ≤ Q.length
      omega
    · show 1 ≤ Q'.length
      omega
  refine ⟨_, h1, ?_, hok, rfl, fun F K hF hK len => ?_⟩
  · rcases C91_sound hg (by norm_num) h1 with h | h
    · exfalso
      have := congrArg (fun P : RParams => P.shape.rows) h
      simp [npFinal, RParams.zero, JParams.zero] at this
    · exact h.1
  · by_cases hl : len > (npFinal 1 2 ⟨28, 4⟩ 1 8 r Q Q').limbPar.rank
    · unfold limbCommit
      rw [if_pos hl]; rfl
    by_cases h0 : len = 0
    · have hcs : ¬ (npFinal 1 2 ⟨28, 4⟩ 1 8 r Q Q').limbPar.cols * (npFinal 1 2 ⟨28, 4⟩ 1 8 r Q Q').limbPar.slots = 0 :=
        (Nat.mul_pos hok.cols hok.slots).ne'
      unfold limbCommit
      rw [if_neg hl, if_neg hcs, if_pos h0]; rfl
    · refine (C96_commit hok ?_ hF hK (by omega) (by omega)).2 ?_
      · show 1 ≤ (8 : ℤ).toNat
        decide
      · show Q.length < Q'.length
        omega

/-- Dimensions for which the theorems speak of something: one prime inside, `l` outside. -/
def exLimb (l : Nat) : LimbPar := ⟨4, 2, 2, 2, 1, 1, 1, 3, ⟨[12289], 4⟩, ⟨List.replicate l 40961, 4⟩⟩

def exRows : RowFns := ⟨fun _ _ r => r, fun _ _ r => r, fun _ _ r => r, fun _ _ r => r⟩

def exFns : ComFns := ⟨fun _ _ _ _ r => r, fun _ _ _ _ r => r, exRows, exRows, 3, 3⟩

/-- The same key works for one and for two primes; `Commit` returns in the first case and panics in the
second. -/
theorem case96 : (∃ K, newCommitKey (exLimb 1) (fun _ i => i % 7) [5] = .ok K ∧
      ∃ r, limbCommit (exLimb 1) exFns K 3 = .ok r) ∧
    (∃ K, newCommitKey (exLimb 2) (fun _ i => i % 7) [5] = .ok K ∧
      limbCommit (exLimb 2) exFns K 3 = .error .panic) := by
  have hok : ∀ l, 1 ≤ l → (exLimb l).Ok := fun l hl =>
    ⟨by norm_num [exLimb], by norm_num [exLimb], by norm_num [exLimb], by norm_num [exLimb], rfl,
      by norm_num [exLimb], by simp [exLimb]; omega, rfl⟩
  have hr : exRows.Keep 4 := ⟨fun _ _ _ h => h, fun _ _ _ h => h, fun _ _ _ h => h, fun _ _ _ h => h⟩
  have hF : ∀ l, exFns.Keep (exLimb l).ringQ.n := fun l => ⟨fun _ _ _ _ _ h => h, fun _ _ _ _ _ h => h, hr, hr⟩
  have hw : ∀ pos, ∃ i, pos ≤ i ∧ (fun (_ : List (BitVec 8)) (i : Nat) => i % 7) [5] i < 2 ^ 63 := fun pos =>
    ⟨pos, le_rfl, lt_trans (Nat.mod_lt _ (by norm_num)) (by norm_num)⟩
  have hq : ∀ l, ∀ q ∈ (exLimb l).ringQ.moduli ++ (exLimb l).ringQOut.moduli, 1 ≤ q ∧ q ≤ 2 ^ 63 := by
    intro l q hq
    rcases List.mem_append.mp hq with h | h
    · have : q = 12289 := by simpa [exLimb] using h
      subst this; norm_num
    · have : q = 40961 := List.eq_of_mem_replicate h
      subst this; norm_num
  obtain ⟨K1, h1, -, f1, -⟩ := C96_key (P := exLimb 1) (w := fun _ i => i % 7) (crs := [5]) rfl (hq 1) hw
  obtain ⟨K2, h2, -, f2, -⟩ := C96_key (P := exLimb 2) (w := fun _ i => i % 7) (crs := [5]) rfl (hq 2) hw
  exact ⟨⟨K1, h1, (C96_commit (hok 1 le_rfl) le_rfl (hF 1) f1 (by norm_num) (by decide)).1.2 (by decide)⟩,
    ⟨K2, h2, (C96_commit (hok 2 (by norm_num)) le_rfl (hF 2) f2 (by norm_num) (by decide)).2 (by decide)⟩⟩

end Ringo
