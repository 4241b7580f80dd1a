import Verif.Spec.JComSize
import Verif.Props.JSearch

/-!
# C128: `CommitmentSize` and the bits of a commitment
-/

namespace Ringo

open Real

theorem logb_mul_le {x y : ℝ} (hy : 0 < y) (hx : 0 < x) (h : x ≤ y * (1 + 1 / 2 ^ 40)) :
    logb 2 x ≤ logb 2 y + 1 / 2 ^ 38 := by
  have h1 : logb 2 x ≤ logb 2 (y * (1 + 1 / 2 ^ 40)) := Real.logb_le_logb_of_le (by norm_num) hx h
  rw [Real.logb_mul hy.ne' (by norm_num)] at h1
  have h2 : logb 2 (1 + 1 / 2 ^ 40 : ℝ) ≤ 1 / 2 ^ 38 := by
    have hl2 := Real.log_two_gt_d9
    rw [Real.logb, div_le_iff₀ (by linarith)]
    have := Real.log_le_sub_one_of_pos (show (0 : ℝ) < 1 + 1 / 2 ^ 40 by norm_num)
    norm_num at this ⊢
    linarith
  linarith

section
variable {F : Flt} (hF : F.Ok) {W V : NPVars} (hV : V.Ok) (hW : VarsNear W V) {mu : Nat}
include hF hV hW

/-- The bound on what is cut off an outer commitment. -/
theorem foutCut_range (hmu : 1 ≤ mu) {L M : ℤ} (hm : ModOk F (F.inQ W mu) L M)
    (h1 : V.inMSISBeta mu ≤ F.inQ W mu * (1 + 1 / 2 ^ 40)) {r : ℤ} (l2 : 1 ≤ r) (l3 : r ≤ 33)
    (hle' : F.outMSISBeta W mu ≤ F.outQ W mu) :
    2 ≤ F.outCutOffInf W mu r ∧ 4 * F.outCutOffInf W mu r ≤ F.outQ W mu := by
  obtain ⟨hdtwo, d2, -, d4⟩ := NPVars.dcmpTwoOf_facts hV hmu h1
  have hq0 : 0 < F.inQ W mu := by rw [hm.val]; positivity
  have hf := NPVars.batchFac_ge hV
  have hd := hV.d
  have l2' : (1 : ℝ) ≤ r := by exact_mod_cast l2
  have l3' : (r : ℝ) ≤ 33 := by exact_mod_cast l3
  have hso : 1 ≤ √(r * V.d) := by rw [Real.one_le_sqrt]; nlinarith
  have hge : 2.5 ≤ V.outCutOf (F.inQ W mu) mu r := by
    unfold NPVars.outCutOf
    rw [NPVars.scaleDown_eq, div_div, le_div_iff₀ (by positivity)]
    refine le_trans ?_ hdtwo
    have : √(r * V.d) ≤ 6 * √V.d := by
      rw [show (6 : ℝ) = √(6 ^ 2) by rw [Real.sqrt_sq]; norm_num, ← Real.sqrt_mul (by norm_num)]
      apply Real.sqrt_le_sqrt; nlinarith
    nlinarith
  have hleD : V.outCutOf (F.inQ W mu) mu r ≤ V.dcmpTwoOf (F.inQ W mu) mu := by
    unfold NPVars.outCutOf
    rw [NPVars.scaleDown_eq, div_div]
    exact div_le_self (by linarith) (one_le_mul_of_one_le_of_one_le hso hf)
  have hnear := foutCut_near hF hV hW hmu hq0 l2
  have u1 := hnear.lower (by norm_num)
  have u2 := hnear.upper (by norm_num)
  have h3 := (foutBeta_near hF hV hW hmu hq0).lower (by norm_num)
  constructor
  · nlinarith
  · nlinarith

/-- `CommitmentSize` divided by the number of coefficients, if the modulus is `2 ^ M`. -/
theorem fcomSize_log (hmu : 1 ≤ mu) {L M : ℤ} (hm : ModOk F (F.inQ W mu) L M)
    (h1 : V.inMSISBeta mu ≤ F.inQ W mu * (1 + 1 / 2 ^ 40)) {r : ℤ} (l2 : 1 ≤ r) (l3 : r ≤ 33)
    {L' M' : ℤ} (hm' : ModOk F (F.outQ W mu) L' M') (hle' : F.outMSISBeta W mu ≤ F.outQ W mu) :
    F.comSize W mu r ≤ V.t * r * V.d * (M' - logb 2 (F.outCutOffInf W mu r) + 1 / 2 ^ 29) ∧
    V.t * r * V.d * (M' - logb 2 (F.outCutOffInf W mu r) - 1 / 2 ^ 29) ≤ F.comSize W mu r := by
  obtain ⟨x1, x2⟩ := foutCut_range hF hV hW hmu hm h1 l2 l3 hle'
  have l2' : (1 : ℝ) ≤ r := by exact_mod_cast l2
  have hd := hV.d
  have htp : 0 < V.t := by have := hV.t; linarith
  have hM : (M' : ℝ) ≤ 240 := by exact_mod_cast hm'.le
  have hq0 : 0 < F.outQ W mu := by rw [hm'.val]; positivity
  have hql : logb 2 (F.outQ W mu) = M' := by rw [hm'.val, Real.logb_rpow (by norm_num) (by norm_num)]
  set x := F.outCutOffInf W mu r with hx
  have hlx : logb 2 (F.outQ W mu / x) = M' - logb 2 x := by
    rw [Real.logb_div hq0.ne' (by linarith), hql]
  have hx1 : 1 ≤ logb 2 x := by
    rw [Real.le_logb_iff_rpow_le (by norm_num) (by linarith), Real.rpow_one]; exact x1
  -- the quotient
  have hz4 : 4 ≤ F.outQ W mu / x := by rw [le_div_iff₀ (by linarith)]; exact x2
  have hz := (Near.refl hq0).fdiv hF (Near.refl (show 0 < x by linarith))
  have z1 := hz.lower (by norm_num)
  have z2 := hz.upper (by norm_num)
  set z := F.div (F.outQ W mu) x with hzd
  have hz2 : 2 ≤ z := by nlinarith
  have y1 := logb_mul_le (by linarith) (by linarith) z1
  have y2 := logb_mul_le (by linarith) (by linarith) z2
  rw [hlx] at y1 y2
  have hn : Near 100 (F.comSize W mu r) (V.t * r * V.d * logb 2 z) := by
    unfold Flt.comSize
    rw [← hx, ← hzd, hW.t, hW.d]
    exact (((((Near.refl htp).fmul hF (Near.round hF (by linarith))).fmul hF (Near.refl (by linarith))).fmul hF
      (log2_near hF hz2))).mono (by norm_num)
  have n1 := hn.lower (by norm_num)
  have n2 := hn.upper (by norm_num)
  have hB : 0 < V.t * r * V.d := by positivity
  set B := V.t * r * V.d with hBd
  set l := logb 2 z with hl
  constructor
  · refine n2.trans ?_
    rw [mul_assoc]
    refine mul_le_mul_of_nonneg_left ?_ hB.le
    norm_num at *
    linarith
  · have h5 : B * (M' - logb 2 x - 1 / 2 ^ 29) * (1 + 1 / 2 ^ 40) ≤ B * l := by
      rw [mul_assoc]
      refine mul_le_mul_of_nonneg_left ?_ hB.le
      norm_num at *
      linarith
    have h6 := h5.trans n1
    exact le_of_mul_le_mul_right h6 (by norm_num)

/-- The same with the number of bits that are cut off. -/
theorem fcomSize (hmu : 1 ≤ mu) {L M : ℤ} (hm : ModOk F (F.inQ W mu) L M)
    (h1 : V.inMSISBeta mu ≤ F.inQ W mu * (1 + 1 / 2 ^ 40)) {r : ℤ} (l2 : 1 ≤ r) (l3 : r ≤ 33)
    {L' M' : ℤ} (hm' : ModOk F (F.outQ W mu) L' M') (hle' : F.outMSISBeta W mu ≤ F.outQ W mu) :
    F.comSize W mu r ≤ V.t * r * V.d * (M' - ⌊F.log2 (F.outCutOffInf W mu r)⌋ + 1 / 2 ^ 28) ∧
    V.t * r * V.d * (M' - ⌊F.log2 (F.outCutOffInf W mu r)⌋ - 1 - 1 / 2 ^ 28) ≤ F.comSize W mu r := by
  obtain ⟨x1, x2⟩ := foutCut_range hF hV hW hmu hm h1 l2 l3 hle'
  obtain ⟨k1, k2⟩ := fcomSize_log hF hV hW hmu hm h1 l2 l3 hm' hle'
  have l2' : (1 : ℝ) ≤ r := by exact_mod_cast l2
  have hd := hV.d
  have htp : 0 < V.t := by have := hV.t; linarith
  have hM : (M' : ℝ) ≤ 240 := by exact_mod_cast hm'.le
  set x := F.outCutOffInf W mu r with hx
  have hq : F.outQ W mu ≤ 2 ^ (240 : ℝ) := by
    rw [hm'.val]
    exact Real.rpow_le_rpow_of_exponent_le (by norm_num) hM
  obtain ⟨f1, f2⟩ := floor_log2 hF (x := x) (by linarith) ((show x ≤ F.outQ W mu by linarith).trans
    (hq.trans (Real.rpow_le_rpow_of_exponent_le (by norm_num) (by norm_num))))
  set c := ⌊F.log2 x⌋ with hc
  have hlc : logb 2 ((2 : ℝ) ^ c) = c := by
    rw [← Real.rpow_intCast, Real.logb_rpow (by norm_num) (by norm_num)]
  have g1 : (c : ℝ) ≤ logb 2 x + 1 / 2 ^ 38 := by
    rw [← hlc]; exact logb_mul_le (by linarith) (by positivity) f1
  have g2 : logb 2 x ≤ 1 + c + 1 / 2 ^ 38 := by
    have := logb_mul_le (by positivity) (by linarith) f2
    rwa [Real.logb_mul (by norm_num) (by positivity), hlc, Real.logb_self_eq_one (by norm_num)] at this
  have hB : 0 ≤ V.t * r * V.d := by positivity
  have e1 : (1 : ℝ) / 2 ^ 29 + 1 / 2 ^ 38 ≤ 1 / 2 ^ 28 := by norm_num
  exact ⟨k1.trans (mul_le_mul_of_nonneg_left (by linarith) hB),
    le_trans (mul_le_mul_of_nonneg_left (by linarith) hB) k2⟩

end

/-- The product of the primes. -/
theorem primes_range {gen : ℤ → ℤ → Option (List Nat)} (hg : GenOk gen) (hg' : GenLe gen) {L : ℤ} (hL : 1 ≤ L)
    (h240 : bitsOf L * limbsOf L ≤ 240) {Q : List Nat}
    (hQ : primesFor gen (logb 2 (2 ^ ((bitsOf L * limbsOf L : ℤ) : ℝ))) = some Q) :
    (Q.prod : ℝ) ≤ 2 ^ ((bitsOf L * limbsOf L : ℤ) : ℝ) * 2 ^ Q.length := by
  have h1 := limbs_pos hL
  have h2 := bits_pos hL
  have h3 : L ≤ 240 := (le_bits_limbs hL).trans h240
  rw [NPVars.logb_two_rpow] at hQ
  replace hQ : gen (bitsOf ((bitsOf L * limbsOf L : ℤ) : ℝ)) (limbsOf ((bitsOf L * limbsOf L : ℤ) : ℝ)) = _ := hQ
  rw [limbs_again hL, bits_again hL] at hQ
  obtain ⟨Q1, hQ1, hlen, -⟩ := hg _ _ h2 (bits_le hL) h1 (limbs_le h3)
  rw [hQ] at hQ1
  injection hQ1 with hQ1
  subst hQ1
  have hq := hg' _ _ _ hQ
  have h4 : Q.prod ≤ (2 ^ ((bitsOf L).toNat + 1)) ^ Q.length := by
    apply List.prod_le_pow_card
    intro q hq'
    have := hq q hq'
    exact_mod_cast this
  have h5 : ((bitsOf L * limbsOf L : ℤ) : ℝ) = ((bitsOf L).toNat * Q.length : ℕ) := by
    have : (bitsOf L * limbsOf L : ℤ) = ((bitsOf L).toNat * Q.length : ℕ) := by
      push_cast; rw [hlen, Int.toNat_of_nonneg (by omega)]
    exact_mod_cast this
  rw [h5, Real.rpow_natCast, ← pow_add, show (bitsOf L).toNat * Q.length + Q.length =
    ((bitsOf L).toNat + 1) * Q.length by ring, pow_mul]
  exact_mod_cast h4

/-- What a candidate consists of. -/
theorem candidate_final {F : Flt} (hF : F.Ok) {gen : ℤ → ℤ → Option (List Nat)} (hg : GenOk gen)
    {targetN batch : Nat} {e : EcdParams} {nn : Nat}
    (hk : ∃ i, e.exp = 2 ^ i) (ht : 1 ≤ targetN) (ht' : targetN ≤ 2 ^ 47) (hb : 1 ≤ batch)
    (hb' : batch ≤ 2 ^ 53) (hbase : 2 ≤ e.base) (hnn : 1 ≤ nn)
    (hnn' : nn ≤ ceilDiv targetN (max e.exp 256 / e.exp)) {P : RParams} {x : ℝ}
    (h : F.npStep gen targetN batch e (RParams.zero, none) nn = .ok (P, some x)) :
    ∃ (mu : Nat) (r L' M' : ℤ) (Q Q' : List Nat), P = F.final targetN batch e nn mu r Q Q' ∧
      F.inLoop (F.npVars targetN batch e nn) = .ok mu ∧
      F.findMSISRank (F.npVars targetN batch e nn).d (F.outQ (F.npVars targetN batch e nn) mu)
        (F.outMSISBeta (F.npVars targetN batch e nn) mu) = .ok r ∧ 1 ≤ r ∧ r ≤ 33 ∧
      ModOk F (F.outQ (F.npVars targetN batch e nn) mu) L' M' ∧
      primesFor gen (logb 2 (2 ^ ((bitsOf L' * limbsOf L' : ℤ) : ℝ))) = some Q' ∧ (2 : ℝ) ^ (M' : ℝ) ≤ Q'.prod ∧
      F.comSize (F.npVars targetN batch e nn) mu r ≤ batch * r * (npVars targetN batch e nn).d *
        (M' - ⌊F.log2 (F.outCutOffInf (F.npVars targetN batch e nn) mu r)⌋ + 1 / 2 ^ 28) ∧
      batch * r * (npVars targetN batch e nn).d *
        (M' - ⌊F.log2 (F.outCutOffInf (F.npVars targetN batch e nn) mu r)⌋ - 1 - 1 / 2 ^ 28) ≤
        F.comSize (F.npVars targetN batch e nn) mu r := by
  have hexp : 1 ≤ e.exp := by obtain ⟨i, hi⟩ := hk; rw [hi]; exact Nat.two_pow_pos i
  have hV : (npVars targetN batch e nn).Ok := npVars_ok ht hb hbase hexp hnn
  obtain ⟨hW, -⟩ := fvars hF hk ht ht' hb' hbase hnn hnn'
  unfold Flt.npStep at h
  obtain ⟨mu, h1, h⟩ := bind_ok_inv h
  split at h
  · cases h
  · rename_i h2
    push Not at h2
    obtain ⟨r, h3, h⟩ := bind_ok_inv h
    injection h with h
    obtain ⟨a1, a2, L, M, hm, hle, -⟩ := finner hF hV hW h1
    obtain ⟨hbq, -, r1, r2, L', M', hm', hle', -⟩ := fouter hF hV hW a1 hm hle h2 h3
    obtain ⟨Q, hQ, hQp⟩ := primesFor_ok hg hm.pos' (by rw [← hm.eq]; exact hm.le)
    obtain ⟨Q', hQ', hQp'⟩ := primesFor_ok hg hm'.pos' (by rw [← hm'.eq]; exact hm'.le)
    have hQ0 := hQ'
    rw [← hm.eq] at hQ hQp
    rw [← hm'.eq] at hQ' hQp'
    rw [← fprimes_eq hF gen hm.pos hm.le hm.log] at hQ
    rw [← fprimes_eq hF gen hm'.pos hm'.le hm'.log] at hQ'
    rw [npAssign_keep F hQ hQ'] at h
    obtain ⟨k1, k2⟩ := fcomSize hF hV hW a1 hm hbq r1 r2 hm' hle'
    exact ⟨mu, r, L', M', Q, Q', (congrArg Prod.fst h).symm, h1, h3, r1, r2, hm', hQ0, hQp', k1, k2⟩

/-- **C128.** `CommitmentSize` and the bits of a batch of outer commitments, with floating-point rounding.  It is never
more than the bits of all coefficients, and per coefficient it is short of them by at most one bit for the rounding of
the cut, and one for every prime. -/
theorem C128_comSize {F : Flt} (hF : F.Ok) {gen : ℤ → ℤ → Option (List Nat)} (hg : GenOk gen) (hg' : GenLe gen)
    {targetN batch p : Nat} (hp : 3 ≤ p) (ht : targetN ≤ 2 ^ 47) (hb : batch ≤ 2 ^ 53)
    {P : RParams} (h : F.newParameters gen targetN batch p = .ok P) :
    P = RParams.zero ∨ ∃ Q', P.qs' = some Q' ∧ 0 < P.comCoeffs ∧
      P.comSize ≤ P.comCoeffs * (P.coeffBits Q' + 1 / 2 ^ 28) ∧
      P.comCoeffs * (P.coeffBits Q' - (1 + Q'.length) - 1 / 2 ^ 28) ≤ P.comSize := by
  have h0 := h
  rcases C126_smallest hF hg hp ht hb h with ⟨h, -⟩ | ⟨htr, ⟨e, x, he, hs⟩, -⟩
  · exact .inl h
  right
  obtain ⟨e', j, he', hj, hlt⟩ := htr
  rw [he] at he'
  injection he' with he'
  subst he'
  set nn := P.shape.cols with hnnd
  unfold Flt.newParameters at h0
  split at h0
  · cases h0
  rename_i ht1
  split at h0
  · cases h0
  rename_i hb1
  clear h0
  obtain ⟨hb2, he2⟩ := ecd_base_exp hp he
  obtain ⟨c1, c2, -⟩ := C61_result p hp e he
  have hnn : 1 ≤ nn := by rw [hj]; exact Nat.two_pow_pos j
  have hnn' := (lt_iff_le_ceilDiv (slots_pos he2) hnn).1 hlt
  obtain ⟨hW, -⟩ := fvars hF c2 (by omega) ht hb hb2 hnn hnn'
  obtain ⟨mu, r, L', M', Q, Q', hP, -, -, r1, r2, hm', hQ, hQp, k1, k2⟩ :=
    candidate_final hF hg c2 (by omega) ht (by omega) hb hb2 hnn hnn' hs
  have hQu := primes_range hg hg' hm'.pos' (by rw [← hm'.eq]; exact hm'.le) hQ
  rw [← hm'.eq] at hQu
  have hsh : P.shape = { F.shapeOf (F.npVars targetN batch e nn) batch e with
      ringQ := some nn, ringQOut := some nn } := by rw [hP]; rfl
  rw [fshape hF c2 hW] at hsh
  have hdeg : P.deg = (npVars targetN batch e nn).d := by
    rw [← npFinal_deg (mu := mu) (outRank := r) (Q := Q) (Q' := Q')]; unfold RParams.deg; rw [hsh]; rfl
  have hrk : P.outRank = r := by
    have : P.outRank = ⌊F.round (r : ℝ)⌋ := by rw [hP]; rfl
    rw [this, round_int hF (by rw [abs_of_pos (by omega)]; omega), Int.floor_intCast]
  have hcut : P.outCut = ⌊F.log2 (F.outCutOffInf (F.npVars targetN batch e nn) mu r)⌋ := by rw [hP]; rfl
  have hcom : P.comSize = F.comSize (F.npVars targetN batch e nn) mu r := by rw [hP]; rfl
  have hB : P.comCoeffs = batch * r * (npVars targetN batch e nn).d := by
    unfold RParams.comCoeffs; rw [hdeg, hrk, hsh]
  have hd : 0 < (npVars targetN batch e nn).d := by
    have := (npVars_ok (by omega : 1 ≤ targetN) (by omega : 1 ≤ batch) hb2 he2 hnn).d; linarith
  have hB0 : 0 < P.comCoeffs := by
    rw [hB]
    have : (0 : ℝ) < batch := by exact_mod_cast (show 0 < batch by omega)
    have : (0 : ℝ) < r := by exact_mod_cast (show 0 < r by omega)
    positivity
  have hQ0 : 0 < (Q'.prod : ℝ) := lt_of_lt_of_le (by positivity) hQp
  have hbits : P.coeffBits Q' = logb 2 Q'.prod - P.outCut := by
    unfold RParams.coeffBits
    rw [Real.logb_div hQ0.ne' (by positivity), ← Real.rpow_intCast, Real.logb_rpow (by norm_num) (by norm_num)]
  have q1 : (M' : ℝ) ≤ logb 2 Q'.prod := by
    rw [Real.le_logb_iff_rpow_le (by norm_num) hQ0]; exact hQp
  have q2 : logb 2 Q'.prod ≤ M' + Q'.length := by
    rw [Real.logb_le_iff_le_rpow (by norm_num) hQ0, Real.rpow_add (by norm_num), Real.rpow_natCast]; exact hQu
  refine ⟨Q', by rw [hP]; rfl, hB0, ?_, ?_⟩
  · rw [hcom]
    refine k1.trans ?_
    rw [← hB, ← hcut, hbits]
    exact mul_le_mul_of_nonneg_left (by linarith) hB0.le
  · rw [hcom]
    refine le_trans ?_ k2
    rw [← hB, ← hcut, hbits]
    exact mul_le_mul_of_nonneg_left (by linarith) hB0.le

theorem case_quot {D S : ℝ} (y1 : 45.2 * 11670 ≤ D) (y2 : D ≤ 45.3 * 12800) (w1 : 27.7 ≤ S) (w2 : S ≤ 27.72) :
    19020 ≤ D / S ∧ D / S ≤ 20940 := by
  have hS : 0 < S := by linarith
  rw [le_div_iff₀ hS, div_le_iff₀ hS]
  constructor <;> linarith

theorem case_cut_near {X E : ℝ} (v1 : 19020 ≤ E) (v2 : E ≤ 20940) (m1 : E ≤ X * (1 + 1 / 2 ^ 40))
    (m2 : X ≤ E * (1 + 1 / 2 ^ 40)) : 19000 ≤ X ∧ X ≤ 21000 := by
  constructor
  · nlinarith
  · nlinarith

set_option maxHeartbeats 800000 in
/-- **C128, as the comment on `CommitmentSize` has it, refuted.**  16 coefficients over the field of order 65537: the
commitment has 768 coefficients of at least 9 bits, and `CommitmentSize` is at least 150 bits less than that, for every
floating-point unit and every generator of primes. -/
theorem C128_refuted {F : Flt} (hF : F.Ok) {gen : ℤ → ℤ → Option (List Nat)} (hg : GenOk gen) :
    ∃ P Q', F.newParameters gen 16 1 65537 = .ok P ∧ P.qs' = some Q' ∧ P.comCoeffs = 768 ∧ P.outCut = 14 ∧
      9 ≤ P.coeffBits Q' ∧ P.comSize + 150 ≤ P.comCoeffs * P.coeffBits Q' := by
  obtain ⟨P, h0, -, ⟨e, x, he, hs⟩, -⟩ := C126_case hF hg
  rw [encPars_65537] at he
  injection he with he
  subst he
  have hc1 : 1 ≤ ceilDiv 16 (max (EcdParams.mk 2 16).exp 256 / (EcdParams.mk 2 16).exp) := by
    rw [show ceilDiv 16 (max (EcdParams.mk 2 16).exp 256 / (EcdParams.mk 2 16).exp) = 1 from rfl]
  obtain ⟨mu, r, L', M', Q, Q', hP, hl, hr, r1, r2, hm', hQ, hQp, -, -⟩ :=
    candidate_final hF hg ⟨4, rfl⟩ (by norm_num) (by norm_num) le_rfl (by norm_num) (by norm_num) le_rfl hc1 hs
  have hloop := case_loop hF
  rw [hloop] at hl
  injection hl with hl
  subst hl
  have hW := case_near hF
  have hV : (⟨1, 2, 16, 256, 32, 1, 1⟩ : NPVars).Ok := ⟨by norm_num, by norm_num, by norm_num, by norm_num,
    by norm_num, by norm_num, by norm_num⟩
  obtain ⟨hq, -⟩ := case_inner hF (show 1 ≤ 4 by norm_num) le_rfl
  obtain ⟨t1, t2⟩ := case_resTwo (mu := 4) (by norm_num) le_rfl
  obtain ⟨a1, a2, L, M, hm, hle, -⟩ := finner hF hV hW hloop
  -- the norms
  have hcut : (⟨1, 2, 16, 256, 32, 1, 1⟩ : NPVars).inCutOffInf 4 =
      (⟨1, 2, 16, 256, 32, 1, 1⟩ : NPVars).resTwo 4 / 160 := by
    unfold NPVars.inCutOffInf NPVars.scaleDown
    rw [case_bounds.2.2]
    simp only [Real.sqrt_one]
    rw [show √(((4 : ℕ) : ℝ) * 256) = 32 by
      rw [show (((4 : ℕ) : ℝ) * 256) = 32 ^ 2 by norm_num, Real.sqrt_sq (by norm_num)]]
    norm_num
  have hT : (⟨1, 2, 16, 256, 32, 1, 1⟩ : NPVars).dcmpTwoOf (2 ^ 26) 4 =
      √2048 * (2 ^ 26 / ((⟨1, 2, 16, 256, 32, 1, 1⟩ : NPVars).resTwo 4 / 160)) := by
    unfold NPVars.dcmpTwoOf NPVars.scaleUp
    rw [hcut]
    norm_num
  have hD : (⟨1, 2, 16, 256, 32, 1, 1⟩ : NPVars).outBetaOf (2 ^ 26) 4 =
      8 * (⟨1, 2, 16, 256, 32, 1, 1⟩ : NPVars).dcmpTwoOf (2 ^ 26) 4 := by
    unfold NPVars.outBetaOf NPVars.dExtOne
    norm_num
    ring
  have s1 : (45.2 : ℝ) ≤ √2048 := by rw [Real.le_sqrt' (by norm_num)]; norm_num
  have s2 : √2048 ≤ (45.3 : ℝ) := by rw [Real.sqrt_le_left (by norm_num)]; norm_num
  have hn := foutBeta_near hF hV hW (show 1 ≤ 4 by norm_num) (by rw [hq]; norm_num)
  rw [hq, hD] at hn
  have n1 := hn.lower (by norm_num)
  have n2 := hn.upper (by norm_num)
  have hcn := foutCut_near hF hV hW (show 1 ≤ 4 by norm_num) (by rw [hq]; norm_num) r1
  rw [hq] at hcn
  have m1 := hcn.lower (by norm_num)
  have m2 := hcn.upper (by norm_num)
  have hO : (⟨1, 2, 16, 256, 32, 1, 1⟩ : NPVars).outCutOf (2 ^ 26) 4 r =
      (⟨1, 2, 16, 256, 32, 1, 1⟩ : NPVars).dcmpTwoOf (2 ^ 26) 4 / √(r * 256) := by
    unfold NPVars.outCutOf NPVars.scaleDown
    norm_num
  rw [hO] at m1 m2
  rw [hT] at n1 n2 m1 m2
  set R := (⟨1, 2, 16, 256, 32, 1, 1⟩ : NPVars).resTwo 4 with hR
  have x1 : (11670 : ℝ) ≤ 2 ^ 26 / (R / 160) := by
    rw [le_div_iff₀ (by positivity)]; norm_num; linarith
  have x2 : (2 : ℝ) ^ 26 / (R / 160) ≤ 12800 := by
    rw [div_le_iff₀ (by positivity)]; norm_num; linarith
  have y1 : 45.2 * 11670 ≤ √2048 * (2 ^ 26 / (R / 160)) := by gcongr
  have y2 : √2048 * (2 ^ 26 / (R / 160)) ≤ 45.3 * 12800 := by gcongr
  generalize √2048 * (2 ^ 26 / (R / 160)) = D at *
  set beta := F.outMSISBeta (F.npVars 16 1 ⟨2, 16⟩ 1) 4 with hbeta
  have b1 : 4200000 ≤ beta := by nlinarith
  have b2 : beta ≤ 4700000 := by nlinarith
  have hceil : ⌈F.log2 beta⌉ = 23 := ceil_flog hF (j := 22) (by norm_num) (by norm_num)
    (by norm_num; linarith) (by norm_num; linarith)
  have hlm := flogModulus hF (by norm_num) (by norm_num) hceil
  have hq' : F.outQ (F.npVars 16 1 ⟨2, 16⟩ 1) 4 = 2 ^ 23 := by
    unfold Flt.outQ
    rw [← hbeta, hlm, round_int hF (by norm_num), hF.exp2_int]
    norm_num
  have hlogq : F.log2 (2 ^ 23) = 23 := by
    have := hF.log2_pow 23
    exact_mod_cast this
  have hM : M' = 23 := by
    have := hm'.log
    rw [hq', hlogq] at this
    exact_mod_cast this.symm
  obtain ⟨hbq, -, -, -, L1, M1, hm1, hle1, -⟩ := fouter hF hV hW a1 hm hle (by rw [hq', hlogq]; norm_num) hr
  -- the rank
  have hr3 : r = 3 := by
    rw [hq', hW.d] at hr
    unfold Flt.findMSISRank at hr
    rw [if_neg (by push Not; norm_num; linarith), hlogq] at hr
    have hnear : Near 400 (F.div (F.mul (F.log2 beta) (F.log2 beta))
        (F.mul (F.mul (F.mul 4 256) 23) (F.log2 (F.round 1.005))))
        (logb 2 beta * logb 2 beta / (4 * 256 * 23 * logb 2 1.005)) := by
      have hx := log2_near hF (show 2 ≤ beta by linarith)
      exact ((hx.fmul hF hx).fdiv hF ((((Near.refl (by norm_num)).fmul hF (Near.refl (by norm_num))).fmul hF
        (Near.refl (by norm_num))).fmul hF (logDelta_near hF))).mono (by norm_num)
    have g1 : 22 ≤ logb 2 beta := by
      rw [Real.le_logb_iff_rpow_le (by norm_num) (by linarith)]
      norm_num
      linarith
    have g2 : logb 2 beta ≤ 22.5 := by
      have : logb 2 (beta ^ 2) ≤ 45 := by
        rw [Real.logb_le_iff_le_rpow (by norm_num) (by positivity)]
        norm_num
        nlinarith
      rw [Real.logb_pow] at this
      push_cast at this
      linarith
    have d1 := logDelta_ge
    have d2 : logb 2 (1.005 : ℝ) ≤ 0.00722 := by
      have hl2 := Real.log_two_gt_d9
      rw [Real.logb, div_le_iff₀ (by linarith)]
      have := Real.log_le_sub_one_of_pos (show (0 : ℝ) < 1.005 by norm_num)
      nlinarith
    have hden : 0 < 4 * 256 * 23 * logb 2 (1.005 : ℝ) := by positivity
    have u := hnear.upper (by norm_num)
    have l := hnear.lower (by norm_num)
    have q1 : 2.2 ≤ logb 2 beta * logb 2 beta / (4 * 256 * 23 * logb 2 1.005) := by
      rw [le_div_iff₀ hden]; nlinarith
    have q2 : logb 2 beta * logb 2 beta / (4 * 256 * 23 * logb 2 1.005) ≤ 2.999 := by
      rw [div_le_iff₀ hden]; nlinarith
    injection hr with hr
    rw [← hr]
    show ⌈F.div (F.mul (F.log2 beta) (F.log2 beta))
      (F.mul (F.mul (F.mul 4 256) 23) (F.log2 (F.round 1.005)))⌉ = 3
    generalize logb 2 beta * logb 2 beta / (4 * 256 * 23 * logb 2 1.005) = Z at *
    rw [Int.ceil_eq_iff]
    push_cast
    clear g1 g2 d1 d2 hden n1 n2 b1 b2 m1 m2
    constructor <;> nlinarith
  subst hr3
  subst hM
  -- the cut
  have w1 : (27.7 : ℝ) ≤ √(((3 : ℤ) : ℝ) * 256) := by rw [Real.le_sqrt' (by norm_num)]; norm_num
  have w2 : √(((3 : ℤ) : ℝ) * 256) ≤ (27.72 : ℝ) := by rw [Real.sqrt_le_left (by norm_num)]; norm_num
  obtain ⟨v1, v2⟩ := case_quot y1 y2 w1 w2
  obtain ⟨k1, -⟩ := fcomSize_log hF hV hW a1 hm hbq r1 r2 hm' hle1
  have hcutP : P.outCut = ⌊F.log2 (F.outCutOffInf (F.npVars 16 1 ⟨2, 16⟩ 1) 4 3)⌋ := by rw [hP]; rfl
  have hcom : P.comSize = F.comSize (F.npVars 16 1 ⟨2, 16⟩ 1) 4 3 := by rw [hP]; rfl
  set X := F.outCutOffInf (F.npVars 16 1 ⟨2, 16⟩ 1) 4 3 with hX
  obtain ⟨X1, X2⟩ := case_cut_near v1 v2 m1 m2
  clear v1 v2 m1 m2 w1 w2 n1 n2 y1 y2 x1 x2 s1 s2
  have hcut14 : P.outCut = 14 := by
    rw [hcutP, Int.floor_eq_iff]
    have hc := ceil_flog hF (x := X) (j := 14) (by norm_num) (by norm_num) (by norm_num; linarith)
      (by norm_num; linarith)
    rw [Int.ceil_eq_iff] at hc
    push_cast at hc ⊢
    obtain ⟨f1, f2⟩ := floor_log2 hF (x := X) (by linarith) (X2.trans (by
      rw [show (250 : ℝ) = ((250 : ℕ) : ℝ) by norm_num, Real.rpow_natCast]; norm_num))
    have h15 : ⌊F.log2 X⌋ < 15 := by
      by_contra hcon
      push Not at hcon
      have : (2 : ℝ) ^ (15 : ℤ) ≤ 2 ^ ⌊F.log2 X⌋ := zpow_le_zpow_right₀ (by norm_num) hcon
      norm_num at this f1
      linarith
    have := Int.lt_floor_add_one (F.log2 X)
    have h15' : ((⌊F.log2 X⌋ : ℤ) : ℝ) + 1 ≤ 15 := by exact_mod_cast h15
    constructor <;> linarith [hc.1]
  have hX5 : 14.2 ≤ logb 2 X := by
    have : 71 ≤ logb 2 (X ^ 5) := by
      rw [Real.le_logb_iff_rpow_le (by norm_num) (by positivity)]
      have : (19000 : ℝ) ^ 5 ≤ X ^ 5 := by gcongr
      norm_num at this ⊢
      linarith
    rw [Real.logb_pow] at this
    push_cast at this
    linarith
  have hsh : P.shape = { F.shapeOf (F.npVars 16 1 ⟨2, 16⟩ 1) 1 ⟨2, 16⟩ with
      ringQ := some 1, ringQOut := some 1 } := by rw [hP]; rfl
  rw [fshape hF ⟨4, rfl⟩ (by rw [npVars_case]; exact hW)] at hsh
  have hdeg : P.deg = 256 := by
    unfold RParams.deg; rw [hsh]; norm_num
  have hrk : P.outRank = 3 := by
    have : P.outRank = ⌊F.round (((3 : ℤ) : ℝ))⌋ := by rw [hP]; rfl
    rw [this, round_int hF (by norm_num), Int.floor_intCast]
  have hB : P.comCoeffs = 768 := by
    unfold RParams.comCoeffs; rw [hdeg, hrk, hsh]; norm_num
  have hQ0 : 0 < (Q'.prod : ℝ) := lt_of_lt_of_le (by positivity) hQp
  have hbits : 9 ≤ P.coeffBits Q' := by
    unfold RParams.coeffBits
    rw [hcut14, Real.le_logb_iff_rpow_le (by norm_num) (by positivity), le_div_iff₀ (by positivity)]
    refine le_trans ?_ hQp
    norm_num
  refine ⟨P, Q', h0, by rw [hP]; rfl, hB, hcut14, hbits, ?_⟩
  rw [hB, hcom]
  norm_num at k1
  linarith

/-- **Case for C128**: there is a generator that meets both hypotheses, and the parameters that it gives for 16
coefficients over the field of order 65537 are not the zero value. -/
theorem C128_case {F : Flt} (hF : F.Ok) : ∃ gen, GenOk gen ∧ GenLe gen ∧ ∃ P, F.newParameters gen 16 1 65537 = .ok P ∧
    P ≠ RParams.zero := by
  have hg : GenOk fun bits limbs => some (List.replicate limbs.toNat (2 ^ bits.toNat + 1)) := by
    intro bits limbs h1 h2 h3 h4
    refine ⟨_, rfl, by rw [List.length_replicate, Int.toNat_of_nonneg (by omega)], fun q hq => ?_⟩
    rw [List.eq_of_mem_replicate hq]
    push_cast
    omega
  refine ⟨_, hg, fun bits limbs l hl q hq => ?_, ?_⟩
  · injection hl with hl
    rw [← hl] at hq
    rw [List.eq_of_mem_replicate hq, pow_succ]
    have := Nat.one_le_two_pow (n := bits.toNat)
    omega
  · obtain ⟨P, Q', h, -, hc, -⟩ := C128_refuted hF hg
    refine ⟨P, h, fun h0 => ?_⟩
    rw [h0] at hc
    simp [RParams.comCoeffs, RParams.zero] at hc

/-- **C128, what `coeffBits` counts**: shifting `Q` consecutive integers right by `k` leaves at least `Q / 2^k` values,
and fewer than `Q / 2^k + 2`. -/
theorem C128_values (a : ℤ) (Q k : Nat) (hQ : 1 ≤ Q) :
    Q ≤ ((Finset.Ico a (a + Q)).image fun c : ℤ => c >>> k).card * 2 ^ k ∧
      ((Finset.Ico a (a + Q)).image fun c : ℤ => c >>> k).card * 2 ^ k < Q + 2 * 2 ^ k := by
  have hp : (0 : ℤ) < 2 ^ k := by positivity
  have hsh : ∀ c : ℤ, c >>> k = c / 2 ^ k := fun c => by rw [Int.shiftRight_eq_div_pow]; push_cast; rfl
  simp only [hsh]
  constructor
  · have h1 := Finset.card_le_mul_card_image (f := fun c : ℤ => c / 2 ^ k) (Finset.Ico a (a + Q)) (2 ^ k) ?_
    · rw [Int.card_Ico, mul_comm] at h1
      simpa using h1
    · intro b _
      calc _ ≤ (Finset.Ico (b * 2 ^ k) (b * 2 ^ k + 2 ^ k)).card := by
            apply Finset.card_le_card
            intro c hc
            simp only [Finset.mem_filter] at hc
            rw [Finset.mem_Ico]
            have := Int.emod_add_mul_ediv c (2 ^ k)
            have h2 := Int.emod_nonneg c hp.ne'
            have h3 := Int.emod_lt_of_pos c hp
            rw [hc.2] at this
            constructor <;> linarith
        _ = 2 ^ k := by
            rw [Int.card_Ico, add_sub_cancel_left]
            exact_mod_cast Int.toNat_natCast (2 ^ k)
  · have h1 : (Finset.Ico a (a + Q)).image (fun c : ℤ => c / 2 ^ k) ⊆
        Finset.Icc (a / 2 ^ k) ((a + Q - 1) / 2 ^ k) := by
      intro b hb
      rw [Finset.mem_image] at hb
      obtain ⟨c, hc, rfl⟩ := hb
      rw [Finset.mem_Ico] at hc
      rw [Finset.mem_Icc]
      exact ⟨Int.ediv_le_ediv hp hc.1, Int.ediv_le_ediv hp (by omega)⟩
    have h2 := Finset.card_le_card h1
    rw [Int.card_Icc] at h2
    have e1 := Int.emod_add_mul_ediv a (2 ^ k)
    have e2 := Int.emod_add_mul_ediv (a + Q - 1) (2 ^ k)
    have m1 := Int.emod_lt_of_pos a hp
    have m2 := Int.emod_nonneg (a + Q - 1) hp.ne'
    have hle := Int.ediv_le_ediv hp (show a ≤ a + Q - 1 by omega)
    have h3 : ((((Finset.Ico a (a + Q)).image fun c : ℤ => c / 2 ^ k).card : ℕ) : ℤ) ≤
        (a + Q - 1) / 2 ^ k + 1 - a / 2 ^ k := by
      rw [← Int.toNat_of_nonneg (show 0 ≤ (a + Q - 1) / 2 ^ k + 1 - a / 2 ^ k by omega)]
      exact_mod_cast h2
    have h4 := mul_le_mul_of_nonneg_right h3 hp.le
    have h5 : ((a + Q - 1) / 2 ^ k + 1 - a / 2 ^ k) * 2 ^ k < Q + 2 * 2 ^ k := by nlinarith
    exact_mod_cast h4.trans_lt h5

end Ringo
