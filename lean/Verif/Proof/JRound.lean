import Verif.Spec.JRound
import Verif.Props.JParams

/-! # Rounding errors of `NewParameters` -/

namespace Ringo

open Real

/-- One unit of error. -/
noncomputable def rho : ℝ := 1 + 1 / 2 ^ 50

theorem one_le_rho : 1 ≤ rho := by unfold rho; norm_num

theorem rho_pos : 0 < rho := lt_of_lt_of_le one_pos one_le_rho

/-- Positive numbers that differ by at most `k` units. -/
structure Near (k : Nat) (x y : ℝ) : Prop where
  pos : 0 < y
  le : x ≤ y * rho ^ k
  ge : y ≤ x * rho ^ k

namespace Near
variable {k k' : Nat} {x y z x' y' : ℝ}

theorem xpos (h : Near k x y) : 0 < x := by
  have h1 := h.pos.trans_le h.ge
  have := pow_pos rho_pos k
  exact pos_of_mul_pos_left h1 this.le

theorem refl (h : 0 < x) : Near 0 x x := ⟨h, by simp, by simp⟩

theorem mono (h : Near k x y) (hk : k ≤ k') : Near k' x y := by
  have h1 : rho ^ k ≤ rho ^ k' := pow_le_pow_right₀ one_le_rho hk
  have h2 := h.xpos
  have h3 := h.pos
  exact ⟨h3, h.le.trans (by gcongr), h.ge.trans (by gcongr)⟩

theorem symm (h : Near k x y) : Near k y x := ⟨h.xpos, h.ge, h.le⟩

theorem trans (h : Near k x y) (h' : Near k' y z) : Near (k + k') x z := by
  have := pow_pos rho_pos k
  have := pow_pos rho_pos k'
  refine ⟨h'.pos, h.le.trans ?_, h'.ge.trans ?_⟩
  · rw [pow_add, mul_comm (rho ^ k), ← mul_assoc]
    gcongr
    exact h'.le
  · rw [pow_add, ← mul_assoc]
    gcongr
    exact h.ge

theorem mul (h : Near k x y) (h' : Near k' x' y') : Near (k + k') (x * x') (y * y') := by
  have a1 := h.pos; have a2 := h.xpos; have a3 := h'.pos; have a4 := h'.xpos
  have := pow_pos rho_pos k
  have := pow_pos rho_pos k'
  refine ⟨by positivity, ?_, ?_⟩
  · calc x * x' ≤ (y * rho ^ k) * (y' * rho ^ k') := mul_le_mul h.le h'.le a4.le (by positivity)
      _ = _ := by rw [pow_add]; ring
  · calc y * y' ≤ (x * rho ^ k) * (x' * rho ^ k') := mul_le_mul h.ge h'.ge a3.le (by positivity)
      _ = _ := by rw [pow_add]; ring

theorem inv (h : Near k x y) : Near k x⁻¹ y⁻¹ := by
  have a1 := h.pos; have a2 := h.xpos
  have := pow_pos rho_pos k
  refine ⟨by positivity, ?_, ?_⟩
  · rw [inv_mul_eq_div, inv_eq_one_div, div_le_div_iff₀ a2 a1]
    linarith [h.ge]
  · rw [inv_mul_eq_div, inv_eq_one_div, div_le_div_iff₀ a1 a2]
    linarith [h.le]

theorem div (h : Near k x y) (h' : Near k' x' y') : Near (k + k') (x / x') (y / y') := by
  rw [div_eq_mul_inv, div_eq_mul_inv]; exact h.mul h'.inv

theorem add (h : Near k x y) (h' : Near k' x' y') : Near (max k k') (x + x') (y + y') := by
  have g := h.mono (le_max_left k k')
  have g' := h'.mono (le_max_right k k')
  exact ⟨add_pos h.pos h'.pos, by linarith [g.le, g'.le], by linarith [g.ge, g'.ge]⟩

theorem min (h : Near k x y) (h' : Near k' x' y') : Near (max k k') (min x x') (min y y') := by
  have g := h.mono (le_max_left k k')
  have g' := h'.mono (le_max_right k k')
  have := pow_pos rho_pos (max k k')
  refine ⟨lt_min h.pos h'.pos, ?_, ?_⟩
  · rw [min_mul_of_nonneg _ _ this.le]
    exact min_le_min g.le g'.le
  · rw [min_mul_of_nonneg _ _ this.le]
    exact min_le_min g.ge g'.ge

theorem sqrt (h : Near k x y) : Near k (√x) (√y) := by
  have a1 := h.pos; have a2 := h.xpos
  have h0 : 1 ≤ rho ^ k := one_le_pow₀ one_le_rho
  have key : ∀ a b : ℝ, 0 ≤ b → a ≤ b * rho ^ k → √a ≤ √b * rho ^ k := by
    intro a b hb hab
    rw [Real.sqrt_le_left (by positivity), mul_pow, Real.sq_sqrt hb]
    refine hab.trans ?_
    gcongr
    nlinarith
  exact ⟨Real.sqrt_pos.mpr a1, key _ _ a1.le h.le, key _ _ a2.le h.ge⟩

theorem pow_two (h : Near k x y) : Near (2 * k) (x ^ 2) (y ^ 2) := by
  rw [sq, sq, two_mul]; exact h.mul h

end Near

section
variable {F : Flt} (hF : F.Ok)
include hF

theorem Near.round {y : ℝ} (hy : 0 < y) : Near 1 (F.round y) y := by
  have h := hF.round_err y
  rw [abs_of_pos hy, abs_le] at h
  refine ⟨hy, ?_, ?_⟩
  · rw [pow_one, rho]; nlinarith
  · rw [pow_one, rho]
    have : y * (1 - 1 / 2 ^ 53) ≤ F.round y := by linarith
    nlinarith

variable {k k' k'' : Nat} {x y z x' y' z' : ℝ}

theorem Near.rnd (h : Near k x y) : Near (k + 1) (F.round x) y := by
  rw [add_comm]; exact (Near.round hF h.xpos).trans h

theorem Near.fmul (h : Near k x y) (h' : Near k' x' y') : Near (k + k' + 1) (F.mul x x') (y * y') :=
  (h.mul h').rnd hF

theorem Near.fdiv (h : Near k x y) (h' : Near k' x' y') : Near (k + k' + 1) (F.div x x') (y / y') :=
  (h.div h').rnd hF

theorem Near.fadd (h : Near k x y) (h' : Near k' x' y') : Near (max k k' + 1) (F.add x x') (y + y') :=
  (h.add h').rnd hF

theorem Near.fsqrt (h : Near k x y) : Near (k + 1) (F.sqrt x) (√y) := h.sqrt.rnd hF

theorem Near.fma (h : Near k x y) (h' : Near k' x' y') (h'' : Near k'' z z') :
    Near (max (k + k' + 1) k'' + 1) (F.mulAdd x x' z) (y * y' + z') := by
  unfold Flt.mulAdd
  split
  · exact ((h.mul h').add h'').rnd hF |>.mono (by omega)
  · exact (h.fmul hF h').fadd hF h''

end

/-! ## The quantities -/

/-- The rounded variables of an iteration: only `b` is inexact. -/
structure VarsNear (W V : NPVars) : Prop where
  t : W.t = V.t
  k : W.k = V.k
  d : W.d = V.d
  nu : W.nu = V.nu
  n : W.n = V.n
  m : W.m = V.m
  b : Near 1 W.b V.b
  kpow : ∃ l : Nat, V.k = 2 ^ l

theorem near_sub_one {x y : ℝ} (hy : 2 ≤ y) (h : Near 1 x y) : Near 3 (x - 1) (y - 1) := by
  have h1 := h.le; have h2 := h.ge
  rw [pow_one] at h1 h2
  have hr := one_le_rho
  have hr2 : rho ≤ 2 := by unfold rho; norm_num
  have hr3 : rho * 3 ≤ 4 := by unfold rho; norm_num
  have hx : 3 / 2 ≤ x := by nlinarith
  refine ⟨by linarith, ?_, ?_⟩
  · have : x - 1 ≤ (y - 1) * (2 * rho - 1) := by nlinarith
    refine this.trans ?_
    gcongr
    · linarith
    · nlinarith [mul_nonneg (sub_nonneg.mpr hr) (sub_nonneg.mpr hr), mul_pos rho_pos rho_pos]
  · have : y - 1 ≤ (x - 1) * (3 * rho - 2) := by nlinarith
    refine this.trans ?_
    gcongr
    · linarith
    · nlinarith [mul_nonneg (sub_nonneg.mpr hr) (sub_nonneg.mpr hr), mul_pos rho_pos rho_pos]

theorem exp2_near {F : Flt} (hF : F.Ok) (x : ℝ) : Near 2 (F.exp2 x) (2 ^ x) := by
  have h := hF.exp2_err x
  have hp : (0 : ℝ) < 2 ^ x := Real.rpow_pos_of_pos (by norm_num) x
  rw [abs_le] at h
  refine ⟨hp, ?_, ?_⟩
  · have : F.exp2 x ≤ 2 ^ x * rho := by rw [rho]; linarith
    refine this.trans ?_
    gcongr
    nlinarith [one_le_rho]
  · have : 2 ^ x * (1 - 1 / 2 ^ 50) ≤ F.exp2 x := by linarith
    rw [rho]; nlinarith

section
variable {F : Flt} (hF : F.Ok) {W V : NPVars} (hV : V.Ok) (hW : VarsNear W V)
include hF hV hW

theorem xOne_near : Near 3 (F.xOne W) V.xOne := by
  unfold Flt.xOne NPVars.xOne
  rw [hW.k]
  exact ((Near.refl (by linarith [hV.k])).fsqrt hF).fmul hF hW.b

theorem cOne_near : Near 5 (F.cOne W) V.cOne := by
  unfold Flt.cOne NPVars.cOne
  obtain ⟨l, hl⟩ := hW.kpow
  have h1 : F.div 120 W.k = 120 / V.k := by
    have := hF.round_exact 120 (-l) (by norm_num)
    rw [zpow_neg, zpow_natCast] at this
    rw [hW.k, hl]
    exact_mod_cast this
  rw [h1, hW.k]
  exact ((((Near.refl (by linarith [hV.k])).fsqrt hF).fmul hF (hW.b.min (exp2_near hF _))).fdiv hF
    (Near.refl two_pos)).mono (by norm_num)

theorem sub_near : Near 4 (F.sub W.b 1) (V.b - 1) := (near_sub_one hV.b hW.b).rnd hF

omit hV in
theorem addb_near : Near 2 (F.add W.b 1) (V.b + 1) := hW.b.fadd hF (Near.refl one_pos)

theorem ecdStdDev_near : Near 9 (F.ecdStdDev W) V.ecdStdDev :=
  ((((Near.refl two_pos).fdiv hF (sub_near hF hV hW)).fmul hF (addb_near hF hW)).fmul hF
    (Near.refl (by norm_num))).mono (by norm_num)

theorem ecdBlindStdDev_near : Near 14 (F.ecdBlindStdDev W) V.ecdBlindStdDev :=
  (((((Near.refl two_pos).fmul hF (xOne_near hF hV hW)).fdiv hF (sub_near hF hV hW)).fmul hF
    (addb_near hF hW)).fmul hF (Near.refl (by norm_num))).mono (by norm_num)

theorem maskStdDev_near : Near 16 (F.maskStdDev W) V.maskStdDev :=
  (((((Near.refl two_pos).fmul hF (cOne_near hF hV hW)).fdiv hF (sub_near hF hV hW)).fmul hF
    (addb_near hF hW)).fmul hF (Near.refl (by norm_num))).mono (by norm_num)

theorem maskBlindStdDev_near : Near 20 (F.maskBlindStdDev W) V.maskBlindStdDev :=
  ((((((Near.refl two_pos).fmul hF (cOne_near hF hV hW)).fmul hF (xOne_near hF hV hW)).fdiv hF
    (sub_near hF hV hW)).fmul hF (addb_near hF hW)).fmul hF (Near.refl (by norm_num))).mono (by norm_num)

omit hV hW in
theorem mlweStdDev_near : Near 1 F.mlweStdDev NPVars.mlweStdDev :=
  Near.round hF (by positivity)

theorem maskMLWEStdDev_near : Near 10 (F.maskMLWEStdDev W) V.maskMLWEStdDev :=
  ((((Near.refl two_pos).fmul hF (cOne_near hF hV hW)).fmul hF
    (Near.round hF (show (0 : ℝ) < √2 by positivity))).fmul hF (Near.refl (by norm_num))).mono (by norm_num)

theorem fijInf_near : Near 13 (F.fijInf W) V.fijInf :=
  (((Near.refl (by norm_num)).fmul hF (addb_near hF hW)).fmul hF (ecdStdDev_near hF hV hW)).mono (by norm_num)

theorem sqrtm1_near : Near 2 (F.sqrt (F.add W.m 1)) (√(V.m + 1)) := by
  rw [hW.m]
  exact ((Near.refl (by linarith [hV.m])).fadd hF (Near.refl one_pos)).fsqrt hF

theorem sqrtn1_near : Near 2 (F.sqrt (F.add W.n 1)) (√(V.n + 1)) := by
  rw [hW.n]
  exact ((Near.refl (by linarith [hV.n])).fadd hF (Near.refl one_pos)).fsqrt hF

theorem f0jInf_near : Near 21 (F.f0jInf W) V.f0jInf :=
  ((((Near.refl (by norm_num)).fmul hF (addb_near hF hW)).fmul hF (sqrtm1_near hF hV hW)).fmul hF
    (ecdBlindStdDev_near hF hV hW)).mono (by norm_num)

theorem finInf_near : Near 23 (F.finInf W) V.finInf :=
  ((((Near.refl (by norm_num)).fmul hF (addb_near hF hW)).fmul hF (sqrtn1_near hF hV hW)).fmul hF
    (maskStdDev_near hF hV hW)).mono (by norm_num)

theorem f0nInf_near : Near 29 (F.f0nInf W) V.f0nInf := by
  have h1 : Near 4 (F.sqrt (F.mulAdd (F.add W.m 1) W.n 1)) (√((V.m + 1) * V.n + 1)) := by
    rw [hW.m, hW.n]
    exact ((((Near.refl (by linarith [hV.m])).fadd hF (Near.refl one_pos)).fma hF
      (Near.refl (by linarith [hV.n])) (Near.refl one_pos)).fsqrt hF).mono (by norm_num)
  exact ((((Near.refl (by norm_num)).fmul hF (addb_near hF hW)).fmul hF h1).fmul hF
    (maskBlindStdDev_near hF hV hW)).mono (by norm_num)

theorem batch_near (h : V.t > 1) : Near 7 (F.mul (F.sqrt W.t) (F.cOne W)) (√V.t * V.cOne) := by
  rw [hW.t]
  exact (((Near.refl (by linarith)).fsqrt hF).fmul hF (cOne_near hF hV hW)).mono (by norm_num)

theorem scaleUp_near {k : Nat} {x y : ℝ} (h : Near k x y) : Near (k + 8) (F.scaleUp W x) (V.scaleUp y) := by
  unfold Flt.scaleUp NPVars.scaleUp
  rw [hW.t]
  split
  · rename_i ht
    have := batch_near hF hV hW ht
    rw [hW.t] at this
    exact (h.fmul hF this).mono (by omega)
  · exact h.mono (by omega)

theorem scaleDown_near {k : Nat} {x y : ℝ} (h : Near k x y) : Near (k + 8) (F.scaleDown W x) (V.scaleDown y) := by
  unfold Flt.scaleDown NPVars.scaleDown
  rw [hW.t]
  split
  · rename_i ht
    have := batch_near hF hV hW ht
    rw [hW.t] at this
    exact (h.fdiv hF this).mono (by omega)
  · exact h.mono (by omega)

theorem nc_near : Near 7 (F.mul (F.sqrt W.n) (F.cOne W)) (√V.n * V.cOne) := by
  rw [hW.n]
  exact (((Near.refl (by linarith [hV.n])).fsqrt hF).fmul hF (cOne_near hF hV hW)).mono (by norm_num)

theorem resEcdiInf_near : Near 32 (F.resEcdiInf W) V.resEcdiInf :=
  (scaleUp_near hF hV hW (((nc_near hF hV hW).fma hF (fijInf_near hF hV hW) (finInf_near hF hV hW)).mono
    (by norm_num : _ ≤ 24))).mono (by norm_num)

theorem resEcd0Inf_near : Near 38 (F.resEcd0Inf W) V.resEcd0Inf :=
  (scaleUp_near hF hV hW (((nc_near hF hV hW).fma hF (f0jInf_near hF hV hW) (f0nInf_near hF hV hW)).mono
    (by norm_num : _ ≤ 30))).mono (by norm_num)

theorem resEcdTwo_near : Near 80 (F.resEcdTwo W) V.resEcdTwo := by
  unfold Flt.resEcdTwo NPVars.resEcdTwo
  rw [hW.d, hW.m]
  have h1 := resEcdiInf_near hF hV hW
  have h2 := resEcd0Inf_near hF hV hW
  exact (((Near.refl (by linarith [hV.d])).fmul hF
    ((((Near.refl (by linarith [hV.m])).fmul hF h1).fma hF h1 (h2.fmul hF h2)))).fsqrt hF).mono (by norm_num)

theorem resMLWEInf_near : Near 23 (F.resMLWEInf W) V.resMLWEInf := by
  unfold Flt.resMLWEInf NPVars.resMLWEInf
  refine (scaleUp_near hF hV hW (k := 15) ?_).mono (by norm_num)
  exact ((nc_near hF hV hW).fma hF ((Near.refl (by norm_num)).fmul hF (mlweStdDev_near hF))
    (((Near.refl (by norm_num)).fmul hF (sqrtn1_near hF hV hW)).fmul hF (maskMLWEStdDev_near hF hV hW))).mono
    (by norm_num)

theorem resTwo_near {mu : Nat} (hmu : 1 ≤ mu) : Near 165 (F.resTwo W mu) (V.resTwo mu) := by
  unfold Flt.resTwo NPVars.resTwo
  dsimp only
  rw [hW.d, hW.nu]
  have hmu' : (0 : ℝ) < mu := by exact_mod_cast hmu
  have h1 := resEcdTwo_near hF hV hW
  have h2 : Near 28 (F.mul (F.sqrt (F.mul V.d (F.add (F.round mu) V.nu))) (F.resMLWEInf W))
      (√(V.d * (mu + V.nu)) * V.resMLWEInf) :=
    ((((Near.refl (by linarith [hV.d])).fmul hF ((Near.round hF hmu').fadd hF (Near.refl hV.nu))).fsqrt hF).fmul hF
      (resMLWEInf_near hF hV hW)).mono (by norm_num)
  exact ((h1.fma hF h1 (h2.fmul hF h2)).fsqrt hF).mono (by norm_num)

theorem two_cOne_near : Near 6 (F.mul 2 (F.cOne W)) (2 * V.cOne) :=
  ((Near.refl two_pos).fmul hF (cOne_near hF hV hW)).mono (by norm_num)

theorem dExtOne_near : Near 6 (F.dExtOne W) V.dExtOne := by
  unfold Flt.dExtOne NPVars.dExtOne
  rw [hW.t]
  split
  · exact (Near.refl one_pos).mono (by norm_num)
  · exact two_cOne_near hF hV hW

theorem inMSISBeta_near {mu : Nat} (hmu : 1 ≤ mu) : Near 200 (F.inMSISBeta W mu) (V.inMSISBeta mu) := by
  unfold Flt.inMSISBeta NPVars.inMSISBeta
  dsimp only
  have h1 := resTwo_near hF hV hW hmu
  have h2 := h1.fadd hF h1
  have h3 := two_cOne_near hF hV hW
  refine ((((Near.refl two_pos).fmul hF (dExtOne_near hF hV hW)).fmul hF (k' := 13) ?_).fmul hF
    (k' := 175) ?_).mono (by norm_num)
  · rw [hW.t]
    split
    · exact h3.mono (by norm_num)
    · exact h3.fmul hF h3
  · rw [hW.t]
    split
    · exact ((Near.refl two_pos).fmul hF h2).mono (by norm_num)
    · exact (((Near.refl two_pos).fmul hF h3).fmul hF h2).mono (by norm_num)

theorem inCutOffInf_near {mu : Nat} (hmu : 1 ≤ mu) : Near 200 (F.inCutOffInf W mu) (V.inCutOffInf mu) := by
  unfold Flt.inCutOffInf NPVars.inCutOffInf
  have hmu' : (0 : ℝ) < mu := by exact_mod_cast hmu
  refine (scaleDown_near hF hV hW (k := 190) ?_).mono (by norm_num)
  refine ((resTwo_near hF hV hW hmu).fdiv hF (k' := 20) ?_).mono (by norm_num)
  rw [hW.d, hW.n, add_comm 1]
  exact (((((Near.refl (by linarith [hV.n])).fsqrt hF).fma hF (cOne_near hF hV hW) (Near.refl one_pos))).fmul hF
    (((Near.round hF hmu').fmul hF (Near.refl (by linarith [hV.d]))).fsqrt hF)).mono (by norm_num)

end

end Ringo
