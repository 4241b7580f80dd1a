import Verif.Model.JFloat
import Verif.Props.JMatrix
import Mathlib.Analysis.SpecialFunctions.Log.Basic
import Mathlib.Analysis.Complex.ExponentialBounds

/-! # Facts about the floating-point computations of `NewParameters` -/

namespace Ringo

open Real

/-! ## The loop -/

theorem forever_hang {α : Type} {start : Nat} {body : Nat → Go (Option α)}
    (h : ∀ i, start ≤ i → body i = .ok none) : forever start body = .error .hang := by
  classical
  unfold forever
  rw [dif_neg]
  rintro ⟨i, h1, h2⟩
  exact h2 (h i h1)

theorem forever_ok_inv {α : Type} {start : Nat} {body : Nat → Go (Option α)} {a : α}
    (h : forever start body = .ok a) :
    ∃ i, start ≤ i ∧ body i = .ok (some a) ∧ ∀ j, start ≤ j → j < i → body j = .ok none := by
  classical
  unfold forever at h
  split at h
  · rename_i hex
    refine ⟨Nat.find hex, (Nat.find_spec hex).1, ?_, fun j h1 h2 => ?_⟩
    · split at h
      · rename_i b hb; injection h with h; rw [hb, h]
      · cases h
      · cases h
    · have := Nat.find_min hex h2
      by_contra h3
      exact this ⟨h1, h3⟩
  · cases h

theorem forever_ok {α : Type} {start i : Nat} {body : Nat → Go (Option α)} {a : α} (h1 : start ≤ i)
    (h2 : body i = .ok (some a)) (h3 : ∀ j, start ≤ j → j < i → body j = .ok none) :
    forever start body = .ok a := by
  classical
  unfold forever
  have hex : ∃ i, start ≤ i ∧ body i ≠ .ok none := ⟨i, h1, by rw [h2]; simp⟩
  rw [dif_pos hex]
  have : Nat.find hex = i := by
    rw [Nat.find_eq_iff]
    refine ⟨⟨h1, by rw [h2]; simp⟩, fun j hj hh => hh.2 (h3 j hh.1 hj)⟩
  rw [this, h2]

theorem forever_error_inv {α : Type} {start : Nat} {body : Nat → Go (Option α)} {f : Fault}
    (h : forever start body = .error f) : f = .hang ∨ ∃ i, start ≤ i ∧ body i = .error f := by
  classical
  unfold forever at h
  split at h
  · rename_i hex
    split at h
    · cases h
    · injection h with h; exact .inl h.symm
    · rename_i e he
      injection h with h
      exact .inr ⟨_, (Nat.find_spec hex).1, by rw [he, h]⟩
  · injection h with h; exact .inl h.symm

/-! ## Limbs -/

section
variable {L : ℤ}

theorem limbs_pos (hL : 1 ≤ L) : 1 ≤ limbsOf L := by
  unfold limbsOf
  rw [Int.one_le_ceil_iff]
  have : (1 : ℝ) ≤ L := by exact_mod_cast hL
  positivity

theorem bits_pos (hL : 1 ≤ L) : 1 ≤ bitsOf L := by
  unfold bitsOf
  rw [Int.one_le_ceil_iff]
  have : (1 : ℝ) ≤ L := by exact_mod_cast hL
  have : (1 : ℝ) ≤ limbsOf L := by exact_mod_cast limbs_pos hL
  positivity

theorem le_bits_limbs (hL : 1 ≤ L) : L ≤ bitsOf L * limbsOf L := by
  have h1 : (0 : ℝ) < limbsOf L := by exact_mod_cast limbs_pos hL
  have h2 : (L : ℝ) / limbsOf L ≤ bitsOf L := Int.le_ceil _
  rw [div_le_iff₀ h1] at h2
  exact_mod_cast h2

theorem bits_le (hL : 1 ≤ L) : bitsOf L ≤ 60 := by
  unfold bitsOf
  rw [Int.ceil_le]
  have h1 : (0 : ℝ) < limbsOf L := by exact_mod_cast limbs_pos hL
  have h2 : (L : ℝ) / 60 ≤ limbsOf L := Int.le_ceil _
  rw [div_le_iff₀ h1]
  push_cast
  linarith

theorem limbs_le (h : L ≤ 240) : limbsOf L ≤ 4 := by
  unfold limbsOf
  rw [Int.ceil_le]
  have : (L : ℝ) ≤ 240 := by exact_mod_cast h
  push_cast
  linarith

theorem limbs_again (hL : 1 ≤ L) : limbsOf ((bitsOf L * limbsOf L : ℤ) : ℝ) = limbsOf L := by
  have h1 : (0 : ℝ) < limbsOf L := by exact_mod_cast limbs_pos hL
  apply le_antisymm
  · conv_lhs => unfold limbsOf
    rw [Int.ceil_le]
    have : (bitsOf L : ℝ) ≤ 60 := by exact_mod_cast bits_le hL
    push_cast
    rw [div_le_iff₀ (by norm_num)]
    change (bitsOf L : ℝ) * limbsOf L ≤ limbsOf L * 60
    nlinarith
  · have : (L : ℝ) ≤ ((bitsOf L * limbsOf L : ℤ) : ℝ) := by exact_mod_cast le_bits_limbs hL
    exact Int.ceil_le_ceil (by linarith)

theorem bits_again (hL : 1 ≤ L) : bitsOf ((bitsOf L * limbsOf L : ℤ) : ℝ) = bitsOf L := by
  have h1 : (0 : ℝ) < limbsOf L := by exact_mod_cast limbs_pos hL
  change ⌈((bitsOf L * limbsOf L : ℤ) : ℝ) / limbsOf ((bitsOf L * limbsOf L : ℤ) : ℝ)⌉ = _
  rw [limbs_again hL]
  push_cast
  rw [mul_div_assoc, div_self h1.ne', mul_one]
  exact Int.ceil_intCast _

theorem bits_limbs_le (hL : 1 ≤ L) (h : L ≤ 240) : bitsOf L * limbsOf L ≤ 240 := by
  have := bits_le hL; have := limbs_le h; have := limbs_pos hL; have := bits_pos hL
  nlinarith

end

/-! ## The quantities -/

/-- What holds of the variables of an iteration. -/
structure NPVars.Ok (V : NPVars) : Prop where
  t : 1 ≤ V.t
  b : 2 ≤ V.b
  k : 1 ≤ V.k
  d : 256 ≤ V.d
  nu : 0 < V.nu
  n : 1 ≤ V.n
  m : 1 ≤ V.m

namespace NPVars
variable {V : NPVars}

theorem cOne_ge (h : V.Ok) : 1 ≤ V.cOne := by
  unfold cOne
  have hb := h.b
  have hk := h.k
  by_cases hk2 : V.k ≤ 120
  · have h1 : (2 : ℝ) ≤ 2 ^ (120 / V.k) := by
      calc (2 : ℝ) = 2 ^ (1 : ℝ) := (Real.rpow_one 2).symm
        _ ≤ 2 ^ (120 / V.k) := by
          apply Real.rpow_le_rpow_of_exponent_le (by norm_num)
          rw [le_div_iff₀ (by linarith)]; linarith
    have h2 : 2 ≤ min V.b (2 ^ (120 / V.k)) := le_min hb h1
    have h3 : 1 ≤ √V.k := by rw [Real.one_le_sqrt]; exact hk
    nlinarith
  · have h1 : (1 : ℝ) ≤ 2 ^ (120 / V.k) := Real.one_le_rpow (by norm_num) (by positivity)
    have h2 : 1 ≤ min V.b (2 ^ (120 / V.k)) := le_min (by linarith) h1
    have h3 : 2 ≤ √V.k := by
      rw [Real.le_sqrt' (by norm_num)]; push Not at hk2; norm_num; linarith
    nlinarith

/-- The factor of a batch. -/
noncomputable def batchFac (V : NPVars) : ℝ := if V.t > 1 then √V.t * V.cOne else 1

theorem scaleUp_eq (V : NPVars) (x : ℝ) : V.scaleUp x = x * V.batchFac := by
  unfold scaleUp batchFac; split <;> ring

theorem scaleDown_eq (V : NPVars) (x : ℝ) : V.scaleDown x = x / V.batchFac := by
  unfold scaleDown batchFac; split <;> simp

theorem batchFac_ge (h : V.Ok) : 1 ≤ V.batchFac := by
  unfold batchFac
  have := cOne_ge h
  split
  · have : 1 ≤ √V.t := by rw [Real.one_le_sqrt]; exact h.t
    nlinarith
  · exact le_rfl

theorem resMLWEInf_eq (V : NPVars) : V.resMLWEInf =
    60 * √2 * V.cOne * (√V.n + √(V.n + 1)) * V.batchFac := by
  unfold resMLWEInf maskMLWEStdDev mlweStdDev
  simp only
  rw [scaleUp_eq]; ring

theorem resMLWEInf_pos (h : V.Ok) : 0 < V.resMLWEInf := by
  rw [resMLWEInf_eq]
  have := cOne_ge h; have := batchFac_ge h; have := h.n
  have : 0 < √V.n := Real.sqrt_pos.mpr (by linarith)
  positivity

theorem resTwo_ge_mlwe (V : NPVars) (mu : Nat) : √(V.d * (mu + V.nu)) * V.resMLWEInf ≤ V.resTwo mu := by
  unfold resTwo
  simp only
  apply Real.le_sqrt_of_sq_le
  have := mul_self_nonneg V.resEcdTwo
  nlinarith

theorem resTwo_ge_ecd (V : NPVars) (mu : Nat) : V.resEcdTwo ≤ V.resTwo mu := by
  unfold resTwo
  simp only
  apply Real.le_sqrt_of_sq_le
  have := mul_self_nonneg (√(V.d * (mu + V.nu)) * V.resMLWEInf)
  nlinarith

theorem resTwo_pos (h : V.Ok) (mu : Nat) : 0 < V.resTwo mu := by
  refine lt_of_lt_of_le ?_ (resTwo_ge_mlwe V mu)
  have := resMLWEInf_pos h
  have := h.d; have := h.nu
  have : 0 < √(V.d * (mu + V.nu)) := Real.sqrt_pos.mpr (by positivity)
  positivity

theorem resTwo_mono (h : V.Ok) {a b : Nat} (hab : a ≤ b) : V.resTwo a ≤ V.resTwo b := by
  unfold resTwo
  simp only
  apply Real.sqrt_le_sqrt
  have h1 : √(V.d * (a + V.nu)) ≤ √(V.d * (b + V.nu)) := by
    apply Real.sqrt_le_sqrt
    have : (a : ℝ) ≤ b := by exact_mod_cast hab
    have := h.d
    nlinarith
  have h2 := Real.sqrt_nonneg (V.d * (a + V.nu))
  have h3 := resMLWEInf_pos h
  have h4 : √(V.d * (a + V.nu)) * V.resMLWEInf ≤ √(V.d * (b + V.nu)) * V.resMLWEInf := by
    nlinarith
  have h5 : 0 ≤ √(V.d * (a + V.nu)) * V.resMLWEInf := by positivity
  nlinarith

/-- The factor of the inner bound. -/
noncomputable def inFac (V : NPVars) : ℝ := if V.t = 1 then 8 * V.cOne else 64 * V.cOne ^ 4

theorem inMSISBeta_eq (V : NPVars) (mu : Nat) :
    V.inMSISBeta mu = V.inFac * (V.resTwo mu + V.resTwo mu) := by
  unfold inMSISBeta inFac dExtOne
  simp only
  split <;> ring

theorem inFac_ge (h : V.Ok) : 8 ≤ V.inFac := by
  unfold inFac
  have h1 := cOne_ge h
  split
  · linarith
  · have : 1 ≤ V.cOne ^ 4 := one_le_pow₀ h1
    linarith

theorem inMSISBeta_pos (h : V.Ok) (mu : Nat) : 0 < V.inMSISBeta mu := by
  rw [inMSISBeta_eq]
  have := inFac_ge h; have := resTwo_pos h mu
  positivity

theorem inMSISBeta_mono (h : V.Ok) {a b : Nat} (hab : a ≤ b) : V.inMSISBeta a ≤ V.inMSISBeta b := by
  rw [inMSISBeta_eq, inMSISBeta_eq]
  have := inFac_ge h; have := resTwo_mono h hab
  nlinarith

/-- The cut-off is at least `60 sqrt 2`. -/
theorem inCutOffInf_ge (h : V.Ok) {mu : Nat} (hmu : 1 ≤ mu) : 64 ≤ V.inCutOffInf mu := by
  unfold inCutOffInf
  rw [scaleDown_eq]
  have hf := batchFac_ge h
  have hc := cOne_ge h
  have hd := h.d
  have hmu' : (1 : ℝ) ≤ mu := by exact_mod_cast hmu
  have hn : 1 ≤ √V.n := by rw [Real.one_le_sqrt]; exact h.n
  have hn1 : 1 ≤ √(V.n + 1) := by rw [Real.one_le_sqrt]; linarith [h.n]
  have hs : 0 < √(mu * V.d) := Real.sqrt_pos.mpr (by positivity)
  rw [le_div_iff₀ (by linarith), le_div_iff₀ (by positivity)]
  refine le_trans ?_ (resTwo_ge_mlwe V mu)
  rw [resMLWEInf_eq]
  have h1 : √(mu * V.d) ≤ √(V.d * (mu + V.nu)) := by
    apply Real.sqrt_le_sqrt; have := h.nu; nlinarith
  have h2 : (64 : ℝ) ≤ 60 * √2 := by
    have : (1.4 : ℝ) ≤ √2 := by rw [Real.le_sqrt' (by norm_num)]; norm_num
    linarith
  have h3 : 1 + √V.n * V.cOne ≤ V.cOne * (√V.n + √(V.n + 1)) := by nlinarith
  calc 64 * V.batchFac * ((1 + √V.n * V.cOne) * √(mu * V.d))
      = √(mu * V.d) * (64 * (1 + √V.n * V.cOne) * V.batchFac) := by ring
    _ ≤ √(V.d * (mu + V.nu)) * (60 * √2 * (V.cOne * (√V.n + √(V.n + 1))) * V.batchFac) := by
      gcongr
    _ = _ := by ring

theorem inCutOffInf_le (h : V.Ok) {mu : Nat} (hmu : 1 ≤ mu) : V.inCutOffInf mu ≤ V.resTwo mu := by
  unfold inCutOffInf
  rw [scaleDown_eq]
  have hf := batchFac_ge h
  have hc := cOne_ge h
  have hd := h.d
  have hmu' : (1 : ℝ) ≤ mu := by exact_mod_cast hmu
  have hn : 1 ≤ √V.n := by rw [Real.one_le_sqrt]; exact h.n
  have hs : 1 ≤ √(mu * V.d) := by rw [Real.one_le_sqrt]; nlinarith
  have hr := resTwo_pos h mu
  rw [div_div]
  apply div_le_self hr.le
  have : 1 ≤ (1 + √V.n * V.cOne) := by nlinarith
  have : 1 ≤ (1 + √V.n * V.cOne) * √(mu * V.d) := one_le_mul_of_one_le_of_one_le this hs
  exact one_le_mul_of_one_le_of_one_le this hf

/-! ## The two searches -/

theorem one_lt_inBeta (h : V.Ok) {mu : Nat} (hmu : 1 ≤ mu) : 1 < V.inMSISBeta mu := by
  rw [inMSISBeta_eq]
  have := inFac_ge h; have := inCutOffInf_ge h hmu; have := inCutOffInf_le h hmu
  nlinarith

theorem one_le_ceil_log {x : ℝ} (hx : 1 < x) : 1 ≤ ⌈logb 2 x⌉ := by
  rw [Int.one_le_ceil_iff]
  exact Real.logb_pos (by norm_num) hx

theorem le_two_pow_ceil {x : ℝ} (hx : 1 < x) :
    x ≤ 2 ^ ((bitsOf (⌈logb 2 x⌉ : ℤ) * limbsOf (⌈logb 2 x⌉ : ℤ) : ℤ) : ℝ) := by
  have h1 : (⌈logb 2 x⌉ : ℝ) ≤ ((bitsOf (⌈logb 2 x⌉ : ℤ) * limbsOf (⌈logb 2 x⌉ : ℤ) : ℤ) : ℝ) := by
    exact_mod_cast le_bits_limbs (one_le_ceil_log hx)
  calc x = 2 ^ logb 2 x := (Real.rpow_logb (by norm_num) (by norm_num) (by linarith)).symm
    _ ≤ _ := Real.rpow_le_rpow_of_exponent_le (by norm_num) (le_trans (Int.le_ceil _) h1)

theorem logb_two_rpow (x : ℝ) : logb 2 ((2 : ℝ) ^ x) = x :=
  Real.logb_rpow (by norm_num) (by norm_num)

end NPVars

theorem logDelta_ge : (0.00717 : ℝ) ≤ logb 2 1.005 := by
  rw [Real.logb, le_div_iff₀ (Real.log_pos (by norm_num))]
  have h1 : 1 - (1.005 : ℝ)⁻¹ ≤ Real.log 1.005 := Real.one_sub_inv_le_log_of_pos (by norm_num)
  have h2 := Real.log_two_lt_d9
  have h3 : (0.00497 : ℝ) ≤ 1 - (1.005 : ℝ)⁻¹ := by norm_num
  nlinarith

/-- What the result of `findMSISRank` says. -/
theorem findMSISRank_ok {d q beta : ℝ} {r : ℤ} (hd : 256 ≤ d) (hb : 1 < beta) (hq : logb 2 q ≤ 240)
    (h : findMSISRank d q beta = .ok r) :
    beta ≤ q ∧ 1 ≤ r ∧ r ≤ 33 ∧ logb 2 beta ^ 2 ≤ 4 * d * logb 2 q * logb 2 1.005 * r := by
  unfold findMSISRank at h
  split at h
  · cases h
  rename_i hbq
  push Not at hbq
  injection h with h
  have hl := logDelta_ge
  have h1 : 0 < logb 2 beta := Real.logb_pos (by norm_num) hb
  have h2 : logb 2 beta ≤ logb 2 q := Real.logb_le_logb_of_le (by norm_num) (by linarith) hbq
  have hden : 0 < 4 * d * logb 2 q * logb 2 1.005 := by
    have : 0 < logb 2 q := by linarith
    positivity
  refine ⟨hbq, ?_, ?_, ?_⟩
  · rw [← h, Int.one_le_ceil_iff]; positivity
  · rw [← h, Int.ceil_le, div_le_iff₀ hden]
    push_cast
    calc logb 2 beta * logb 2 beta ≤ logb 2 q * 240 := by nlinarith
      _ ≤ logb 2 q * (33 * (4 * 256 * 0.00717)) := by nlinarith
      _ ≤ logb 2 q * (33 * (4 * d * logb 2 1.005)) := by
        gcongr
        all_goals linarith
      _ = _ := by ring
  · have h3 : logb 2 beta * logb 2 beta / (4 * d * logb 2 q * logb 2 1.005) ≤ r := by
      rw [← h]; exact Int.le_ceil _
    rw [div_le_iff₀ hden] at h3
    rw [sq]; linarith

theorem findMSISRank_total {d q beta : ℝ} (h : beta ≤ q) :
    findMSISRank d q beta = .ok ⌈logb 2 beta * logb 2 beta / (4 * d * logb 2 q * logb 2 1.005)⌉ := by
  unfold findMSISRank
  rw [if_neg (by linarith)]; rfl

end Ringo
