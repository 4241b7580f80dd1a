import Verif.Proof.JRound

/-! # Rounding errors of `NewParameters`: logarithms, moduli and ranks -/

namespace Ringo

open Real

/-! ## Many units -/

theorem rho_pow_mul (n : Nat) : rho ^ n * (1 - n / 2 ^ 50) ≤ 1 := by
  induction n with
  | zero => simp
  | succ n ih =>
    refine le_trans ?_ ih
    rw [pow_succ, mul_assoc]
    have := pow_pos rho_pos n
    gcongr
    unfold rho
    push_cast
    have : (0 : ℝ) ≤ n := by positivity
    nlinarith

theorem rho_pow_le : rho ^ 1000 ≤ 1 + 1 / 2 ^ 40 := by
  have h4 := rho_pow_mul 1000
  have h5 : (1 : ℝ) ≤ (1 + 1 / 2 ^ 40) * (1 - (1000 : ℕ) / 2 ^ 50) := by norm_num
  have h6 : (0 : ℝ) < 1 - (1000 : ℕ) / 2 ^ 50 := by norm_num
  exact le_of_mul_le_mul_right (h4.trans h5) h6

theorem Near.upper {x y : ℝ} {k : Nat} (h : Near k x y) (hk : k ≤ 1000) : x ≤ y * (1 + 1 / 2 ^ 40) := by
  have h1 := (h.mono hk).le
  have := h.pos
  exact h1.trans (by gcongr; exact rho_pow_le)

theorem Near.lower {x y : ℝ} {k : Nat} (h : Near k x y) (hk : k ≤ 1000) : y ≤ x * (1 + 1 / 2 ^ 40) :=
  h.symm.upper hk

theorem Near.within {x y : ℝ} {k : Nat} (h : Near k x y) (hk : k ≤ 1000) : WithinTol x y := by
  have h1 := h.upper hk
  have h2 := h.lower hk
  have h3 := h.pos
  have h4 := h.xpos
  unfold WithinTol tol
  rw [abs_le]
  constructor <;> nlinarith

/-! ## Exactness -/

section
variable {F : Flt} (hF : F.Ok)
include hF

theorem round_int {a : ℤ} (h : |a| ≤ 2 ^ 53) : F.round a = a := by
  have := hF.round_exact a 0 h
  simpa using this

theorem round_nat {a : Nat} (h : a ≤ 2 ^ 53) : F.round a = a := by
  have := round_int hF (a := a) (by rw [abs_of_nonneg (by positivity)]; exact_mod_cast h)
  simpa using this

theorem round_two_pow (l : Nat) : F.round (2 ^ l) = 2 ^ l := by
  have := hF.round_exact 1 l (by norm_num)
  simpa using this

theorem round_pos {x : ℝ} (hx : 0 < x) : 0 < F.round x := (Near.round hF hx).xpos

/-- A quotient of integers is rounded to the right side of the integers. -/
theorem ceil_round_div {a b : ℤ} (ha : 0 < a) (ha' : a < 2 ^ 53) (hb : 0 < b) :
    ⌈F.round ((a : ℝ) / b)⌉ = ⌈(a : ℝ) / b⌉ := by
  have ha0 : (0 : ℝ) < a := by exact_mod_cast ha
  have ha1 : (a : ℝ) < 2 ^ 53 := by exact_mod_cast ha'
  have hb0 : (0 : ℝ) < b := by exact_mod_cast hb
  have herr := hF.round_err ((a : ℝ) / b)
  rw [abs_of_pos (show (0 : ℝ) < (a : ℝ) / b by positivity), abs_le] at herr
  have hsmall : (a : ℝ) / b / 2 ^ 53 < 1 / b := by
    rw [div_div, div_lt_div_iff₀ (by positivity) hb0]
    nlinarith
  set c := ⌈(a : ℝ) / b⌉ with hc
  have h1 : (c : ℝ) - 1 < (a : ℝ) / b := by
    have := Int.ceil_lt_add_one ((a : ℝ) / b); linarith
  have h2 : (a : ℝ) / b ≤ c := Int.le_ceil _
  rw [lt_div_iff₀ hb0] at h1
  rw [div_le_iff₀ hb0] at h2
  have h1' : (c - 1) * b + 1 ≤ a := by
    have : (c - 1) * b < a := by exact_mod_cast h1
    omega
  have h2' : a ≤ c * b := by exact_mod_cast h2
  rw [Int.ceil_eq_iff]
  constructor
  · have : (c : ℝ) - 1 + 1 / b ≤ (a : ℝ) / b := by
      rw [le_div_iff₀ hb0, add_mul, one_div_mul_cancel hb0.ne']
      exact_mod_cast h1'
    linarith
  · rcases eq_or_lt_of_le h2' with h | h
    · have : (a : ℝ) / b = c := by
        rw [div_eq_iff hb0.ne']; exact_mod_cast h
      rw [this, round_int hF]
      have hc0 : 0 < c := Int.ceil_pos.mpr (by positivity)
      rw [abs_of_pos hc0]
      nlinarith
    · have : (a : ℝ) / b ≤ c - 1 / b := by
        rw [div_le_iff₀ hb0, sub_mul, one_div_mul_cancel hb0.ne']
        have : a ≤ c * b - 1 := by omega
        exact_mod_cast this
      linarith

/-! ## Moduli -/

theorem flimbs_pos {L : ℤ} (hL : 1 ≤ L) : 1 ≤ F.limbsOf L := by
  unfold Flt.limbsOf Flt.div
  rw [Int.one_le_ceil_iff]
  have : (1 : ℝ) ≤ L := by exact_mod_cast hL
  exact round_pos hF (by positivity)

theorem flimbs_eq {L : ℤ} (hL : 1 ≤ L) (hL' : L < 2 ^ 53) : F.limbsOf L = limbsOf L := by
  unfold Flt.limbsOf Flt.div limbsOf
  have := ceil_round_div hF (a := L) (b := 60) (by omega) hL' (by norm_num)
  simpa using this

theorem fbits_pos {L : ℤ} (hL : 1 ≤ L) : 1 ≤ F.bitsOf L := by
  unfold Flt.bitsOf Flt.div
  rw [Int.one_le_ceil_iff]
  have : (1 : ℝ) ≤ L := by exact_mod_cast hL
  have h1 : (1 : ℝ) ≤ F.limbsOf L := by exact_mod_cast flimbs_pos hF hL
  have := round_pos hF (show (0 : ℝ) < F.limbsOf L by linarith)
  exact round_pos hF (by positivity)

theorem fbits_eq {L : ℤ} (hL : 1 ≤ L) (hL' : L < 2 ^ 53) : F.bitsOf L = bitsOf L := by
  have h1 := flimbs_eq hF hL hL'
  have h2 := limbs_pos hL
  have h3 : limbsOf L ≤ L := by
    unfold limbsOf
    rw [Int.ceil_le]
    have : (1 : ℝ) ≤ L := by exact_mod_cast hL
    linarith
  unfold Flt.bitsOf Flt.div bitsOf
  rw [h1, round_int hF (by rw [abs_of_pos (by omega)]; omega)]
  exact ceil_round_div hF (by omega) hL' (by omega)

/-- `math.Log2` of a number of at least 2 is off by a few units. -/
theorem log2_near {x : ℝ} (hx : 2 ≤ x) : Near 3 (F.log2 x) (logb 2 x) := by
  have h1 : 1 ≤ logb 2 x := by
    rw [Real.le_logb_iff_rpow_le (by norm_num) (by linarith), Real.rpow_one]; exact hx
  have h := hF.log2_err x (by linarith)
  rw [abs_of_pos (show 0 < logb 2 x by linarith), abs_le] at h
  refine ⟨by linarith, ?_, ?_⟩
  · have : F.log2 x ≤ logb 2 x * (1 + 2 / 2 ^ 50) := by linarith
    refine this.trans ?_
    gcongr
    unfold rho; norm_num
  · have : logb 2 x * (1 - 2 / 2 ^ 50) ≤ F.log2 x := by linarith
    have h2 : (1 : ℝ) ≤ (1 - 2 / 2 ^ 50) * rho ^ 3 := by unfold rho; norm_num
    have : 0 < F.log2 x := by nlinarith
    nlinarith [pow_pos rho_pos 3]

/-- If the modulus has at most 240 bits then it is the one without rounding. -/
theorem modulus_ok {L : ℤ} (hL : 1 ≤ L) {q : ℝ} (hq : q = F.exp2 (F.round ((F.bitsOf L * F.limbsOf L : ℤ) : ℝ)))
    (h : F.log2 q ≤ 240) :
    q = 2 ^ ((bitsOf L * limbsOf L : ℤ) : ℝ) ∧ bitsOf L * limbsOf L ≤ 240 ∧
      F.log2 q = ((bitsOf L * limbsOf L : ℤ) : ℝ) ∧ 1 ≤ bitsOf L * limbsOf L := by
  have hl := flimbs_pos hF hL
  have hb := fbits_pos hF hL
  set M := F.bitsOf L * F.limbsOf L with hM
  have hM1 : 1 ≤ M := by nlinarith
  have hM1' : (1 : ℝ) ≤ M := by exact_mod_cast hM1
  have hMs : M ≤ 2 ^ 53 := by
    by_contra hc
    push Not at hc
    have hc' : (2 ^ 53 : ℝ) < M := by exact_mod_cast hc
    have h1 := (Near.round hF (show (0 : ℝ) < M by linarith)).lower (by norm_num)
    have h2 : (2 : ℝ) ^ 52 ≤ F.round M := by
      have : (2 : ℝ) ^ 52 * (1 + 1 / 2 ^ 40) ≤ 2 ^ 53 := by norm_num
      nlinarith
    have h3 := (exp2_near hF (F.round M)).lower (by norm_num)
    have h4 : (2 : ℝ) ^ (300 : ℝ) * (1 + 1 / 2 ^ 40) ≤ 2 ^ F.round M := by
      calc (2 : ℝ) ^ (300 : ℝ) * (1 + 1 / 2 ^ 40) ≤ 2 ^ (300 : ℝ) * 2 ^ (1 : ℝ) := by
            gcongr; norm_num
        _ = 2 ^ (301 : ℝ) := by rw [← Real.rpow_add (by norm_num)]; norm_num
        _ ≤ _ := Real.rpow_le_rpow_of_exponent_le (by norm_num) (by linarith)
    have h5 : (2 : ℝ) ^ (300 : ℝ) ≤ q := by
      rw [hq]
      have : (0 : ℝ) < 1 + 1 / 2 ^ 40 := by norm_num
      exact le_of_mul_le_mul_right (h4.trans h3) this
    have h6 : 300 ≤ logb 2 q := by
      rw [Real.le_logb_iff_rpow_le (by norm_num) (lt_of_lt_of_le (by positivity) h5)]; exact h5
    have h7 : (2 : ℝ) ≤ q := by
      refine le_trans ?_ h5
      calc (2 : ℝ) = 2 ^ (1 : ℝ) := (Real.rpow_one 2).symm
        _ ≤ _ := Real.rpow_le_rpow_of_exponent_le (by norm_num) (by norm_num)
    have h8 := (log2_near hF h7).lower (by norm_num)
    nlinarith
  have hex : F.round (M : ℝ) = M := round_int hF (by rw [abs_of_pos (by omega)]; exact hMs)
  have hq2 : q = 2 ^ M := by rw [hq, hex, hF.exp2_int]
  have hlog : F.log2 q = M := by rw [hq2, hF.log2_pow]
  have hM240 : M ≤ 240 := by
    rw [hlog] at h; exact_mod_cast h
  have hLs : L < 2 ^ 53 := by
    have h1 : (F.round ((L : ℝ) / 60)) ≤ F.limbsOf L := Int.le_ceil _
    have hL0 : (0 : ℝ) < L / 60 := by
      have : (1 : ℝ) ≤ L := by exact_mod_cast hL
      positivity
    have h2 := (Near.round hF hL0).lower (by norm_num)
    have h3 : F.limbsOf L ≤ 240 := by nlinarith
    have h4 : (F.limbsOf L : ℝ) ≤ 240 := by exact_mod_cast h3
    have : (L : ℝ) < 2 ^ 53 := by
      have : (L : ℝ) / 60 ≤ 240 * (1 + 1 / 2 ^ 40) := by nlinarith
      rw [div_le_iff₀ (by norm_num)] at this
      refine this.trans_lt ?_
      norm_num
    exact_mod_cast this
  have hMeq : M = bitsOf L * limbsOf L := by rw [hM, flimbs_eq hF hL hLs, fbits_eq hF hL hLs]
  rw [← hMeq]
  refine ⟨by rw [hq2, Real.rpow_intCast], hM240, hlog, hM1⟩

theorem fprimes_eq (gen : ℤ → ℤ → Option (List Nat)) {q : ℝ} {M : ℤ} (hM : 1 ≤ M) (hM' : M ≤ 240)
    (hq : F.log2 q = (M : ℝ)) : F.primesFor gen q = primesFor gen (logb 2 (2 ^ (M : ℝ))) := by
  unfold Flt.primesFor
  rw [NPVars.logb_two_rpow, hq, fbits_eq hF hM (by omega), flimbs_eq hF hM (by omega)]
  rfl

/-! ## Ranks -/

theorem logDelta_near : Near 300 (F.log2 (F.round 1.005)) (logb 2 1.005) := by
  have h0 := logDelta_ge
  have hl2 := Real.log_two_gt_d9
  have hl2' := Real.log_two_lt_d9
  have hr := hF.round_err 1.005
  rw [abs_of_pos (show (0 : ℝ) < 1.005 by norm_num), abs_le] at hr
  set y := F.round 1.005 with hy
  have hy0 : (1 : ℝ) < y := by
    have : (1.005 : ℝ) / 2 ^ 53 ≤ 0.001 := by norm_num
    linarith
  -- the logarithm of the rounded constant
  have hup : Real.log y - Real.log 1.005 ≤ 1 / 2 ^ 53 := by
    rw [← Real.log_div (by linarith) (by norm_num)]
    refine (Real.log_le_sub_one_of_pos (by positivity)).trans ?_
    rw [div_sub_one (by norm_num), div_le_iff₀ (by norm_num)]
    linarith
  have hdn : Real.log 1.005 - Real.log y ≤ 2 / 2 ^ 53 := by
    rw [← Real.log_div (by norm_num) (by linarith)]
    refine (Real.log_le_sub_one_of_pos (by positivity)).trans ?_
    rw [div_sub_one (by linarith), div_le_iff₀ (by linarith)]
    nlinarith
  have hup' : logb 2 y - logb 2 1.005 ≤ 2 / 2 ^ 53 := by
    rw [Real.logb, Real.logb, ← sub_div, div_le_iff₀ (by linarith)]
    nlinarith
  have hdn' : logb 2 1.005 - logb 2 y ≤ 4 / 2 ^ 53 := by
    rw [Real.logb, Real.logb, ← sub_div, div_le_iff₀ (by linarith)]
    nlinarith
  have he := hF.log2_err y (by linarith)
  have hly : 0 < logb 2 y := Real.logb_pos (by norm_num) hy0
  rw [abs_of_pos hly, abs_le] at he
  have hle1 : logb 2 1.005 ≤ 1 := by
    rw [Real.logb_le_iff_le_rpow (by norm_num) (by norm_num), Real.rpow_one]; norm_num
  have b1 : F.log2 y ≤ logb 2 1.005 * (1 + 290 / 2 ^ 50) := by nlinarith
  have b2 : logb 2 1.005 * (1 - 290 / 2 ^ 50) ≤ F.log2 y := by nlinarith
  have c1 : (1 + 290 / 2 ^ 50 : ℝ) ≤ rho ^ 300 := by
    have := one_add_mul_le_pow (a := (1 / 2 ^ 50 : ℝ)) (by norm_num) 300
    refine le_trans ?_ this
    norm_num
  have c2 : (1 : ℝ) ≤ (1 - 290 / 2 ^ 50) * rho ^ 300 := by
    have := one_add_mul_le_pow (a := (1 / 2 ^ 50 : ℝ)) (by norm_num) 300
    have h3 : (1 : ℝ) ≤ (1 - 290 / 2 ^ 50) * (1 + (300 : ℕ) * (1 / 2 ^ 50)) := by norm_num
    refine h3.trans ?_
    have : (0 : ℝ) < 1 - 290 / 2 ^ 50 := by norm_num
    unfold rho
    gcongr
  refine ⟨by linarith, b1.trans (by gcongr), ?_⟩
  have : 0 < logb 2 1.005 := by linarith
  have := pow_pos rho_pos 300
  calc logb 2 1.005 ≤ logb 2 1.005 * ((1 - 290 / 2 ^ 50) * rho ^ 300) := by
        nlinarith
    _ = logb 2 1.005 * (1 - 290 / 2 ^ 50) * rho ^ 300 := by ring
    _ ≤ _ := by gcongr

/-- What the result of `findMSISRank` says. -/
theorem frank_ok {d q beta : ℝ} {M : ℤ} {r : ℤ} (hd : 256 ≤ d) (hb : 64 ≤ beta) (hq : q = 2 ^ (M : ℝ))
    (hM : M ≤ 240) (hlog : F.log2 q = M) (h : F.findMSISRank d q beta = .ok r) :
    beta ≤ q ∧ 1 ≤ r ∧ r ≤ 33 ∧
      logb 2 beta ^ 2 ≤ 4 * d * M * logb 2 1.005 * r * (1 + 1 / 2 ^ 40) := by
  unfold Flt.findMSISRank at h
  split at h
  · cases h
  rename_i hbq
  push Not at hbq
  injection h with h
  have hl := logDelta_ge
  have h6 : 6 ≤ logb 2 beta := by
    rw [Real.le_logb_iff_rpow_le (by norm_num) (by linarith)]
    refine le_trans (le_of_eq ?_) hb
    norm_num
  have hlq : logb 2 q = M := by rw [hq, NPVars.logb_two_rpow]
  have h2 : logb 2 beta ≤ M := by
    rw [← hlq]; exact Real.logb_le_logb_of_le (by norm_num) (by linarith) hbq
  have hM' : (M : ℝ) ≤ 240 := by exact_mod_cast hM
  have hMp : (0 : ℝ) < M := by linarith
  have hnear : Near 400 (F.div (F.mul (F.log2 beta) (F.log2 beta))
      (F.mul (F.mul (F.mul 4 d) (F.log2 q)) (F.log2 (F.round 1.005))))
      (logb 2 beta * logb 2 beta / (4 * d * M * logb 2 1.005)) := by
    have hx := log2_near hF (show 2 ≤ beta by linarith)
    rw [hlog]
    exact ((hx.fmul hF hx).fdiv hF ((((Near.refl (by norm_num)).fmul hF (Near.refl (by linarith))).fmul hF
      (Near.refl hMp)).fmul hF (logDelta_near hF))).mono (by norm_num)
  set E := F.div (F.mul (F.log2 beta) (F.log2 beta))
      (F.mul (F.mul (F.mul 4 d) (F.log2 q)) (F.log2 (F.round 1.005))) with hE
  have hden : 0 < 4 * d * M * logb 2 1.005 := by positivity
  refine ⟨hbq, ?_, ?_, ?_⟩
  · rw [← h, Int.one_le_ceil_iff]; exact hnear.xpos
  · rw [← h, Int.ceil_le]
    refine (hnear.upper (by norm_num)).trans ?_
    have h3 : logb 2 beta * logb 2 beta / (4 * d * M * logb 2 1.005) ≤ 32.7 := by
      rw [div_le_iff₀ hden]
      calc logb 2 beta * logb 2 beta ≤ M * 240 := by nlinarith
        _ ≤ M * (32.7 * (4 * 256 * 0.00717)) := by nlinarith
        _ ≤ M * (32.7 * (4 * d * logb 2 1.005)) := by gcongr
        _ = _ := by ring
    push_cast
    nlinarith
  · have h3 := hnear.lower (by norm_num)
    have h4 : E ≤ r := by rw [← h]; exact Int.le_ceil _
    have h5 : logb 2 beta * logb 2 beta / (4 * d * M * logb 2 1.005) ≤ r * (1 + 1 / 2 ^ 40) := by
      refine h3.trans ?_
      gcongr
    rw [div_le_iff₀ hden] at h5
    rw [sq]; linarith

end

end Ringo
