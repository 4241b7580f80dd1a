import Verif.Props.JEnvOfEx
import Verif.Props.JTypical

/-! # A protocol run that meets the hypotheses of C108 -/

namespace Ringo

open Finset Real

/-- One modulus just above the power of two, or the moduli of `exGen`. -/
def exNear (bits limbs : ℤ) : Option (List Nat) :=
  if limbs = 1 then some [2 ^ min bits.toNat 62 + 1] else exGen bits limbs

theorem exNear_ok : GenOk exNear := by
  intro bits limbs h1 h2 h3 h4
  unfold exNear
  split
  · rename_i h
    refine ⟨_, rfl, by simp [h], ?_⟩
    intro q hq
    rw [List.mem_singleton.mp hq, Nat.min_eq_left (by omega)]
    push_cast
    omega
  · exact exGen_ok bits limbs h1 h2 h3 h4

theorem exNear_chain (bits limbs : ℤ) (Q : List Nat) (h : exNear bits limbs = some Q) (hne : 64 ≤ Q.prod) :
    Chain Q ∧ ∀ q ∈ Q, 1 ≤ q ∧ q ≤ 2 ^ 63 := by
  unfold exNear at h
  split at h
  · injection h with h
    subst h
    rw [List.prod_singleton] at hne
    have hb : 1 ≤ min bits.toNat 62 := by
      by_contra h0
      rw [show min bits.toNat 62 = 0 by omega] at hne
      norm_num at hne
    have h62 : 2 ^ min bits.toNat 62 ≤ 2 ^ 62 := Nat.pow_le_pow_right (by norm_num) (by omega)
    have hodd : (2 ^ min bits.toNat 62 + 1) % 2 = 1 := by
      obtain ⟨n, hn⟩ : ∃ n, min bits.toNat 62 = n + 1 := ⟨min bits.toNat 62 - 1, by omega⟩
      rw [hn, pow_succ]; omega
    generalize 2 ^ min bits.toNat 62 = c at *
    refine ⟨⟨by simp, ?_, ?_, by simp⟩, ?_⟩ <;> intro q hq <;> rw [List.mem_singleton.mp hq]
    · omega
    · exact hodd
    · omega
  · exact exGen_chain h hne

theorem exNear_near : NearPrimes exNear [2 ^ 26 + 1] := by
  intro bits limbs h a ha
  rw [List.mem_singleton.mp ha]
  unfold exNear at h
  split at h
  · injection h with h
    have h1 : 2 ^ min bits.toNat 62 = 2 ^ 26 := by
      have := List.head_eq_of_cons_eq h
      omega
    have h2 : min bits.toNat 62 = 26 := Nat.pow_right_injective le_rfl h1
    rw [show bits.toNat = 26 by omega]
    norm_num
  · rename_i hl
    unfold exGen at h
    injection h with h
    have : exFour.length = 4 := rfl
    have h1 := congrArg List.length h
    rw [List.length_take, this] at h1
    simp at h1
    omega

/-! ## Bounds for the field of order 65537 -/

theorem withinTol_lower {x y : ℝ} (hy : 0 ≤ y) (h : WithinTol x y) : 0.99 * y ≤ x := by
  have h1 := (abs_le.mp h).1
  have h2 : tol ≤ 0.01 := by unfold tol; norm_num
  nlinarith

section
variable {P : RParams} (hsh : P.shape = ⟨1, 16, 2, 1, 2, 16, 16, some 1, some 1⟩) (hS : P.SoundTol)
include hsh hS

theorem case_typical_bounds : (8 : ℝ) ≤ P.resRow ∧ (8 : ℝ) ≤ P.resBlind ∧ (500 : ℝ) ≤ P.resMLWE ∧
    (8192 : ℝ) ≤ P.partBound ∧ (1 : ℝ) ≤ (1 + √P.shape.cols * P.chal) * P.batchGrowth := by
  have hchal : P.chal = 4 := by
    unfold RParams.chal
    rw [hsh]
    dsimp only
    rw [min_eq_left, show √((16 : ℕ) : ℝ) = 4 by
      rw [show ((16 : ℕ) : ℝ) = 4 ^ 2 by norm_num, Real.sqrt_sq (by norm_num)]]
    · norm_num
    · calc (((2 : ℕ)) : ℝ) = (2 : ℝ) ^ (1 : ℝ) := by norm_num
        _ ≤ _ := Real.rpow_le_rpow_of_exponent_le (by norm_num) (by norm_num)
  have hg : P.batchGrowth = 1 := by unfold RParams.batchGrowth; rw [hsh]; simp
  have hs : 0 < √(2 * π) := Real.sqrt_pos.mpr (by positivity)
  have h16 : √((16 : ℕ) : ℝ) = 4 := by
    rw [show ((16 : ℕ) : ℝ) = 4 ^ 2 by norm_num, Real.sqrt_sq (by norm_num)]
  have h1 := hS.ecdDev
  have h2 := hS.blindDev
  have h3 := hS.maskDev
  have h4 := hS.maskBlindDev
  have h5 := hS.mlweDev
  have h6 := hS.maskMLWEDev
  unfold RParams.resRow RParams.resBlind RParams.resMLWE RParams.partBound RParams.tail
  generalize √(2 * π) = w at *
  rw [hsh] at h1 h2
  rw [hchal] at h3 h4 h6
  dsimp only at h1 h2
  rw [h16] at h2
  norm_num at h1 h2
  have d1 := withinTol_lower (by norm_num) h1
  have hs2 : (1.41 : ℝ) ≤ √2 := by rw [Real.le_sqrt' (by norm_num)]; norm_num
  have d5 := withinTol_lower (by positivity) h5
  rw [hg, hchal, hsh]
  dsimp only
  rw [h16]
  norm_num
  generalize P.ecdStdDev = e at *
  generalize P.mlweStdDev = m at *
  have he : 0 < e := by
    by_contra h
    nlinarith
  have hm : 0 < m := by
    by_contra h
    nlinarith
  have d2 := withinTol_lower (by positivity) h2
  have d3 := withinTol_lower (by positivity) h3
  have d6 := withinTol_lower (by positivity) h6
  generalize P.maskStdDev = me at *
  generalize P.maskMLWEStdDev = mm at *
  generalize P.ecdBlindStdDev = be at *
  have hbe : 0 < be := by linarith
  have d4 := withinTol_lower (by positivity) h4
  generalize P.maskBlindStdDev = mb at *
  have hwe : 35.64 ≤ w * e := by linarith
  have hwm : 16.7 ≤ w * m := by nlinarith
  have b1 : 7.92 * (w * e) ≤ w * be := by nlinarith
  have b2 : 0 ≤ √2 * (w * me) := by
    have : 0 < me := by linarith
    positivity
  have b3 : 0 ≤ √2 * (w * mm) := by
    have : 0 < mm := by linarith
    positivity
  have b4 : 0 ≤ √3 * (w * mb) := by
    have : 0 < mb := by linarith
    positivity
  have b5 : 1.41 * (w * mm) ≤ √2 * (w * mm) := by
    have : 0 < mm := by linarith
    exact mul_le_mul_of_nonneg_right hs2 (by positivity)
  have b6 : 3.96 * (w * m) ≤ w * mm := by nlinarith
  have b7 : 1.41 * (w * be) ≤ √2 * (w * be) := mul_le_mul_of_nonneg_right hs2 (by positivity)
  refine ⟨?_, ?_, ?_, ?_⟩ <;> nlinarith

end

/-- For one polynomial and this field the challenges are zero and the response is the mask column. -/
theorem case_typical {T T' : Type} [AddCommGroup T] [AddCommGroup T'] {P : RParams}
    (hsh : P.shape = ⟨1, 16, 2, 1, 2, 16, 16, some 1, some 1⟩) (hS : P.SoundTol) {E : JEnv 65537 T T'}
    (hE : E.From P) (hgood : E.Good) {A : E.ringQ.Lawful} {A' : E.ringQ'.Lawful} {x : ZMod 65537}
    {coms : List (List T')} {v com o} {I : Nat → JInts} {pf : JProof T T'} {W : JWit} {r : ComRand 65537}
    (hO : E.Opens A A' v com o (I 0)) (hs : E.Sampled r (I 0)) (hW : E.Honest x coms pf I W)
    (hc : ∀ j k i, ((r.col j).cell k i).natAbs ≤ 2) (hm : ∀ j k i, ((r.col j).mlwe k i).natAbs ≤ 500) :
    E.Typical P W := by
  obtain ⟨limbs, resNm, dcmpNm, -, -, -, hpar⟩ := hE.par
  obtain ⟨c1, c2, c3, c4, c5⟩ := case_typical_bounds hsh hS
  have hbatch : E.par.batch = 1 := by rw [hpar]; show P.shape.batch = 1; rw [hsh]
  have hrows : E.par.mat.rows = 2 := by rw [hpar]; show P.shape.rows = 2; rw [hsh]
  have hcols : E.par.mat.cols = 1 := by rw [hpar]; show P.shape.cols = 1; rw [hsh]
  have hbase : E.par.enc.ecd.base = 2 := by rw [hpar]; show P.shape.base = 2; rw [hsh]
  have hexp : E.par.enc.ecd.exp = 16 := by rw [hpar]; show P.shape.exp = 16; rw [hsh]
  have hN : E.par.enc.N = 256 := by rw [hpar]; show max P.shape.exp 256 = 256; rw [hsh]; rfl
  have hN1 := JEnv.encN_pos hgood
  have hch : challengeBound E.par.enc.ecd = 1 := by
    unfold challengeBound
    rw [hbase, hexp]
    rfl
  have hbet : ∀ i, toZ E.par.enc.N (E.betInt x coms i) = 1 := by
    intro i
    unfold JEnv.betInt
    rw [if_neg (by omega), toZ_one]
  have hgam : ∀ b, toZ E.par.enc.N (chalInt E.par.enc b) = 0 := by
    intro b
    unfold chalInt
    rw [toZ_range]
    apply Finset.sum_eq_zero
    intro i _
    rw [hch]
    split <;> simp [centred, Nat.mod_one]
  have he : ∀ j ≤ E.par.mat.cols, ∀ k < E.par.mat.rows, Bnd E.par.enc.N (toZ E.par.enc.N ((I 0).e j k)) 8 := by
    intro j hj k hk
    have := (hs.e j hj k hk).bnd hgood (hc j k)
    unfold JEnv.encSize at this
    rw [hbase] at this
    exact this
  have real : ∀ {z : List Int} {B : Nat} {b : ℝ}, z.length = E.par.enc.N → Bnd E.par.enc.N (toZ E.par.enc.N z) B →
      (B : ℝ) ≤ b → ∀ c ∈ z, ((|c| : ℤ) : ℝ) ≤ b := by
    intro z B b h1 h2 h3 c hc'
    refine le_trans ?_ h3
    have := h2.coeffs hN1 h1 c hc'
    have h4 : |c| ≤ (B : ℤ) := by rw [Int.abs_eq_natAbs]; exact_mod_cast this
    exact_mod_cast h4
  have hWe : ∀ k < E.par.mat.rows, Bnd E.par.enc.N (toZ E.par.enc.N (W.e k)) 8 := by
    intro k hk
    rw [(hW.e k hk).2, hbatch, hcols]
    simp only [Finset.sum_range_one, hbet, one_mul, JEnv.gamInt, hgam, zero_mul, add_zero]
    exact hcols ▸ he _ le_rfl k hk
  refine ⟨?_, ?_, ?_, ?_, ?_, ?_, ?_⟩
  · exact real (hW.e 0 (by omega)).1 (hWe 0 (by omega)) (by exact_mod_cast c2)
  · intro k _ hk
    exact real (hW.e k hk).1 (hWe k hk) (by exact_mod_cast c1)
  · intro k hk
    refine real (hW.m k hk).1 (B := 500) ?_ (by exact_mod_cast c3)
    rw [(hW.m k hk).2, hbatch, hcols]
    simp only [Finset.sum_range_one, hbet, one_mul, JEnv.gamInt, hgam, zero_mul, add_zero]
    refine Bnd.of_list (hcols ▸ (hO.mlwe _ le_rfl k hk).1) ?_
    intro c hc'
    rw [hs.m 1 (by omega) k hk] at hc'
    obtain ⟨i, -, rfl⟩ := List.mem_map.mp hc'
    exact hm _ _ _
  · intro k hk
    have hr := hO.innerRem E.par.mat.cols le_rfl k hk
    refine real (hW.u k hk).1 (B := 2 ^ E.par.inCut) ?_ ?_
    · rw [(hW.u k hk).2, hbatch, hcols]
      simp only [Finset.sum_range_one, hbet, one_mul, JEnv.gamInt, hgam, zero_mul, add_zero]
      rw [hcols] at hr
      refine (Bnd.of_list hr.1 ?_).neg
      intro c hc'
      have := hr.2 c hc'
      have h2 : ((2 ^ E.par.inCut : ℕ) : ℤ) = 2 ^ E.par.inCut := by push_cast; rfl
      omega
    · have hic : ((2 : ℝ) ^ P.inCut) = 2 ^ E.par.inCut := by
        rw [hpar]
        show _ = (2 : ℝ) ^ P.inCut.toNat
        rw [← zpow_natCast, Int.toNat_of_nonneg (by have := hS.inCut.1; omega)]
      rw [hic]
      push_cast
      exact le_mul_of_one_le_left (by positivity) c5
  · intro j hj
    refine real (hW.f j hj).1 (B := 8192) ?_ (by exact_mod_cast c4)
    rw [(hW.f j hj).2, hbatch]
    simp only [Finset.sum_range_one, hbet, one_mul]
    have := Bnd.sum (N := E.par.enc.N) E.par.mat.rows (fun k => toZ E.par.enc.N (E.leftInt x k) *
      toZ E.par.enc.N ((I 0).e j k)) _ fun k hk => (JEnv.leftInt_bnd hgood x k).mul (he j hj.le k hk)
    rw [hbase, hrows] at this
    rw [hrows]
    exact this.mono (by rw [hN])
  · intro h; omega
  · intro h; omega

/-- **Case for C108**: the field of order 65537, up to 16 coefficients, any oracle, any point, and all samples
within small bounds. -/
theorem C108_case (fused : Bool) : ∃ (P : RParams) (Q Q' : List Nat),
    (ieee fused).newParameters exNear 16 1 65537 = .ok P ∧
    ∀ xof : List (JMsg (RQ Q 256) (RQ Q' 256) (ZMod 65537)) → Nat → List (BitVec 8),
      (∀ ms i, (xof ms i).length = 16) → ∃ E : JEnv 65537 (RQ Q 256) (RQ Q' 256), E.xof = xof ∧ E.From P ∧
        ∀ (x : ZMod 65537) (v : List (ZMod 65537)) (r : ComRand 65537), v ≠ [] → v.length ≤ 16 →
          (∀ j k i, ((r.col j).cell k i).natAbs ≤ 2) → (∀ j k i, ((r.col j).mlwe k i).natAbs ≤ 500) →
          ∃ com op pf, E.commit v r = .ok (com, op) ∧
            E.evaluate x [v] [com] [op] = .ok ([∑ i ∈ range v.length, v.getD i 0 * x ^ i], pf) ∧
            E.verify x [com] [∑ i ∈ range v.length, v.getD i 0 * x ^ i] pf = .ok true := by
  classical
  obtain ⟨P, Q, Q', hP, hne, hsh, hQ, hQ26, hS, hE⟩ := C107_env fused exNear_ok exNear_chain
  refine ⟨P, Q, Q', hP, fun xof hx => ?_⟩
  obtain ⟨E, hxof, hF, ⟨A⟩, ⟨A'⟩⟩ := hE xof hx
  refine ⟨E, hxof, hF, ?_⟩
  intro x v r hv hl hc hm
  have hqs : E.ringQ.qs = [2 ^ 26 + 1] := by
    have h1 := hF.qs
    rw [hQ] at h1
    have h2 : exNear 26 1 = some [2 ^ 26 + 1] := rfl
    rw [h2] at hQ26
    rw [← Option.some.inj h1, ← Option.some.inj hQ26]
  have hexp : P.shape.exp = 16 := by rw [hsh]
  have hgood := (C107_good (ieee_ok fused) exNear_ok (by norm_num) (by norm_num) (by norm_num) hP hne (by omega)
    (by omega) E hF).1
  obtain ⟨coms, opens, I, pf, g1, g2, g3, g4, ⟨W, g5⟩, g6⟩ := C108_complete (ieee_ok fused) exNear_ok (by norm_num)
    (by norm_num) (by norm_num) hP hne (by omega) (by omega) E hF (by rw [hqs]; exact exNear_near) A A' x [v] rfl
    (by rw [hsh]; simpa using ⟨hv, hl⟩) (fun _ => r)
  obtain ⟨a1, a2, a3⟩ := g1 0 Nat.one_pos
  obtain ⟨com, rfl⟩ := List.length_eq_one_iff.mp g2
  obtain ⟨op, rfl⟩ := List.length_eq_one_iff.mp g3
  refine ⟨com, op, pf, a1, g4, g6 W g5 (case_typical hsh hS hF hgood a2 a3 g5 hc hm)⟩

end Ringo
