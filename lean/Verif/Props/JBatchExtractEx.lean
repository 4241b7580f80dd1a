import Verif.Props.JBatchExtract
import Verif.Props.JBatchSoundEx

/-!
# Case for C124: a batch of two
-/

namespace Ringo

open Finset Polynomial

set_option linter.unusedSectionVars false

/-- Moduli with room for C124. -/
def exQs124 : List Nat := [2 ^ 130 + 1]

/-- The modulus of the outer commitments. -/
def exQ124 : Nat := 2 ^ 225 * 2 ^ 225 + 1

theorem exQs124_chain : Chain exQs124 := ⟨by simp [exQs124], by norm_num [exQs124], by norm_num [exQs124], by simp [exQs124]⟩

/-- `exPar 2` without truncation of the inner commitments, with a larger bound on them. -/
def exPar124 : JPar := { exPar 2 with inCut := 0, resNm := 2 ^ 19, dcmpNm := 2 ^ 140 }

theorem exEnv124 (xof : List (JMsg (RQ exQs124 4) (RQ [exQ124] 4) (ZMod 257)) → Nat → List (BitVec 8))
    (hx : ∀ ms i, (xof ms i).length = 16) :
    ∃ (E : JEnv 257 (RQ exQs124 4) (RQ [exQ124] 4)) (A : E.ringQ.Lawful) (A' : E.ringQ'.Lawful), E.par = exPar124 ∧
      E.xof = xof ∧ E.toFloat = (fun n : Nat => (n : ℚ)) ∧ E.ringQ.qs = exQs124 ∧ E.ringQ'.qs = [exQ124] ∧ E.Good ∧
      E.BindsIn A (2 ^ 38) ∧ E.BindsOut A' (2 ^ 146) := by
  have hq : Chain [exQ124] := ⟨by simp, by norm_num [exQ124], by norm_num [exQ124], by simp⟩
  obtain ⟨E, h1, h2, h3, h4, h5, h6, ⟨A⟩, ⟨A'⟩⟩ : ∃ E : JEnv 257 (RQ exQs124 4) (RQ [exQ124] 4), E.par = exPar124 ∧
      E.xof = xof ∧ E.toFloat = (fun n : Nat => (n : ℚ)) ∧ E.ringQ.qs = exQs124 ∧ E.ringQ'.qs = [exQ124] ∧
      E.Good ∧ Nonempty E.ringQ.Lawful ∧ Nonempty E.ringQ'.Lawful := by
    apply env_exists exPar124 exQs124 exQ124 exQs124_chain hq
    · constructor <;> norm_num [exPar124, exPar]
    · constructor <;> norm_num [exPar124, exPar]
    · rfl
    · exact (show 1 ≤ challengeBound ⟨16, 2⟩ by decide)
    · have h : challengeBound exPar124.enc.ecd = 8 := (show challengeBound ⟨16, 2⟩ = 8 by decide)
      rw [h]; simp [exQs124, exQ124]
    · simp [exPar124, exPar]
    · simp [exPar124, exPar]
    · simp [exPar124, exPar]
    · simp [exPar124, exPar]
    · norm_num [exPar124, exPar, exQs124]
    · norm_num [exPar124, exPar, exQ124]
    · exact hx
  have hN : E.ringQ.N = 4 := by rw [h6.deg, h1]; rfl
  have hN' : E.ringQ'.N = 4 := by rw [h6.deg', h1]; rfl
  let K : JKey (RQ exQs124 4) (RQ [exQ124] 4) := ⟨[1, 2, 3],
    [[A.val.symm ((2 ^ 40 : Nat) : RQ E.ringQ.qs E.ringQ.N), A.val.symm ((2 ^ 80 : Nat) : RQ E.ringQ.qs E.ringQ.N)]],
    [[A.val.symm 1]],
    [[A'.val.symm ((2 ^ 147 : Nat) : RQ E.ringQ'.qs E.ringQ'.N),
      A'.val.symm ((2 ^ 147 * 2 ^ 147 : Nat) : RQ E.ringQ'.qs E.ringQ'.N)]]⟩
  refine ⟨{ E with key := K }, A, A', h1, h2, h3, h4, h5, ?_, ?_, ?_⟩
  · refine { h6 with inn := ?_, inn2 := ?_, mlwe := ?_, mlwe2 := ?_, out := ?_, out2 := ?_ } <;> dsimp only <;> rw [h1] <;>
      simp [K, exPar124, exPar]
  · intro e m u he hm hu h0 k hk
    dsimp only at he hm hu h0 hk
    have h0 := h0 0 (by rw [h1]; simp [exPar124, exPar])
    rw [h1] at he hm hu h0 hk
    simp only [exPar124, exPar, at2, K, List.getD_cons_zero, List.getD_cons_succ, sum_range_succ, sum_range_zero, zero_add,
      AddEquiv.apply_symm_apply, one_mul, add_zero] at he hm hu h0 hk
    have m0 := hm 0 (by omega)
    have m1 := hm 1 (by omega)
    have u0 := hu 0 (by omega)
    have := gap (qs := E.ringQ.qs) A.chain A.pos (fun i => (m 0).getD i 0 + (m 1).getD i 0 + (u 0).getD i 0)
      (C := 3 * 2 ^ 38) (he 0 (by omega)) (he 1 (by omega)) (by
        intro i
        have := m0.getD i
        have := m1.getD i
        have := u0.getD i
        omega) (2 ^ 40) (2 ^ 80) (by norm_num) (by norm_num) (by rw [h4]; norm_num [exQs124]) (by
        rw [← h0, toR_range]
        rw [add_assoc, add_assoc, add_assoc, add_assoc]
        conv_rhs => rw [coeffs_eq_range m0.1, coeffs_eq_range m1.1, coeffs_eq_range u0.1]
        simp only [toR_range, ← sum_add_distrib]
        congr 2
        apply sum_congr rfl
        intro i _
        push_cast
        ring)
    obtain rfl | rfl : k = 0 ∨ k = 1 := by omega
    · exact this.1
    · exact this.2
  · intro t s ht hs h0 k hk
    dsimp only at ht hs h0 hk
    have h0 := h0 0 (by rw [h1]; simp [exPar124, exPar])
    rw [h1] at ht hs h0 hk
    simp only [exPar124, exPar, at2, K, List.getD_cons_zero, List.getD_cons_succ, sum_range_succ, sum_range_zero, zero_add,
      AddEquiv.apply_symm_apply] at ht hs h0 hk
    have s0 := hs 0 (by omega)
    have := gap (qs := E.ringQ'.qs) A'.chain A'.pos (fun i => (s 0).getD i 0)
      (C := 2 ^ 146) (ht 0 (by omega)) (ht 1 (by omega)) (fun i => s0.getD i) (2 ^ 147) (2 ^ 147 * 2 ^ 147) (by norm_num)
      (by norm_num) (by rw [h5]; norm_num [exQ124]) (by
        rw [← h0]
        conv_rhs => rw [coeffs_eq_range s0.1])
    obtain rfl | rfl : k = 0 ∨ k = 1 := by omega
    · exact this.1
    · exact this.2

/-- All hypotheses of C124 hold together. -/
theorem exEnv124_hyps (xof : List (JMsg (RQ exQs124 4) (RQ [exQ124] 4) (ZMod 257)) → Nat → List (BitVec 8))
    (hx : ∀ ms i, (xof ms i).length = 16) :
    ∃ (E : JEnv 257 (RQ exQs124 4) (RQ [exQ124] 4)) (A : E.ringQ.Lawful) (A' : E.ringQ'.Lawful), E.par = exPar124 ∧
      E.xof = xof ∧ E.Good ∧ challengeBound E.par.enc.ecd = 8 ∧ E.Room (2 ^ 19) (2 ^ 140) 548864 ∧
      E.BindsOut A' (2 * (E.par.enc.ecd.exp * (challengeBound E.par.enc.ecd * (2 * 2 ^ 140)))) ∧
      E.BindsIn A (2 * (E.par.enc.ecd.exp * (challengeBound E.par.enc.ecd * (E.par.enc.ecd.exp *
        (challengeBound E.par.enc.ecd * (E.par.enc.ecd.exp * (challengeBound E.par.enc.ecd * (2 * (E.par.enc.ecd.exp *
        (challengeBound E.par.enc.ecd * (2 * 2 ^ 19))))))))))) ∧
      E.par.mat.rows * (E.par.enc.N * (E.par.enc.ecd.base * JEnv.batchGrow E (JEnv.encSize E 3))) ≤ 548864 ∧
      E.toFloat (Nat.sqrt
        (E.par.dcmpLen * (E.par.enc.N * JEnv.batchGrow E (JEnv.truncMax E) ^ 2) +
          E.par.outRank * (E.par.enc.N * JEnv.batchGrow E (2 ^ E.par.outCut) ^ 2))) < E.par.dcmpNm ∧
      E.toFloat (Nat.sqrt
        (E.par.mat.rows * (E.par.enc.N * JEnv.combGrow E (JEnv.encSize E 3) ^ 2) +
          (E.par.mlweRank + E.par.inRank) * (E.par.enc.N * JEnv.combGrow E 3 ^ 2) +
          E.par.inRank * (E.par.enc.N * JEnv.combGrow E (2 ^ E.par.inCut) ^ 2))) < E.par.resNm := by
  have h8 : challengeBound ⟨16, 2⟩ = 8 := by decide
  obtain ⟨E, A, A', h1, h2, h3, h4, h5, h6, hi, ho⟩ := exEnv124 xof hx
  have hcb : challengeBound E.par.enc.ecd = 8 := by rw [h1]; exact h8
  have hexp : E.par.enc.ecd.exp = 2 := by rw [h1]; rfl
  have hs : ∀ n m : Nat, n < m * m → ((Nat.sqrt n : Nat) : ℚ) < (m : ℚ) := by
    intro n m h
    exact_mod_cast Nat.sqrt_lt.mpr h
  refine ⟨E, A, A', h1, h2, h6, hcb, ?_, ?_, ?_, ?_, ?_, ?_⟩
  · constructor
    · intro n hn
      rw [h3, h1] at hn
      have hn : (n : ℚ) < 2 ^ 19 := hn
      have : n < 2 ^ 19 := by exact_mod_cast hn
      exact this.le
    · intro n hn
      rw [h3, h1] at hn
      have hn : (n : ℚ) < 2 ^ 140 := hn
      have : n < 2 ^ 140 := by exact_mod_cast hn
      exact this.le
    · rw [h4]; norm_num [exQs124]
    · rw [hcb, h1, h4]; norm_num [exQs124, exPar124, exPar]
  · rw [hcb, hexp]; exact ho
  · rw [hcb, hexp]; exact hi
  · unfold JEnv.batchGrow JEnv.chalGrow JEnv.encSize
    rw [hcb, h1]
    simp [exPar124, exPar]
  · rw [h3]
    have := hs (E.par.dcmpLen * (E.par.enc.N * JEnv.batchGrow E (JEnv.truncMax E) ^ 2) +
      E.par.outRank * (E.par.enc.N * JEnv.batchGrow E (2 ^ E.par.outCut) ^ 2)) (2 ^ 140) (by
        unfold JEnv.batchGrow JEnv.chalGrow JEnv.truncMax
        rw [hcb, h1, h4]
        norm_num [exPar124, exPar, exQs124])
    rw [h1] at this ⊢
    refine lt_of_lt_of_eq this ?_
    norm_num [exPar124]
  · rw [h3]
    have := hs (E.par.mat.rows * (E.par.enc.N * JEnv.combGrow E (JEnv.encSize E 3) ^ 2) +
      (E.par.mlweRank + E.par.inRank) * (E.par.enc.N * JEnv.combGrow E 3 ^ 2) +
      E.par.inRank * (E.par.enc.N * JEnv.combGrow E (2 ^ E.par.inCut) ^ 2)) (2 ^ 19) (by
        unfold JEnv.combGrow JEnv.batchGrow JEnv.chalGrow JEnv.encSize
        rw [hcb, h1]
        norm_num [exPar124, exPar])
    rw [h1] at this ⊢
    refine lt_of_lt_of_eq this ?_
    norm_num [exPar124]

/-- **Case for C124**: every commitment has a polynomial of degree at most 2 such that values other than those of the
polynomials of two commitments, chosen first, can be proved for few bytes only; for commitments to `5 + 7X` and `11`
made by `Commit` these are the polynomials. -/
theorem C124_case (xof : List (JMsg (RQ exQs124 4) (RQ [exQ124] 4) (ZMod 257)) → Nat → List (BitVec 8))
    (hx : ∀ ms i, (xof ms i).length = 16) :
    ∃ (E : JEnv 257 (RQ exQs124 4) (RQ [exQ124] 4)) (A : E.ringQ.Lawful), Nonempty E.ringQ'.Lawful ∧ E.Good ∧
      E.xof = xof ∧ E.par.batch = 2 ∧
      ∃ P : List (RQ [exQ124] 4) → (ZMod 257)[X], (∀ cm, (P cm).natDegree ≤ 2) ∧
      (∀ (c₀ c₁ : List (RQ [exQ124] 4)) (x y₀ y₁ : ZMod 257), (y₀ ≠ (P c₀).eval x ∨ y₁ ≠ (P c₁).eval x) →
        {b : Fin E.par.batch → Fin 16 → BitVec 8 | ¬ ∀ parts pm, E.ShortParts A 548864 parts →
          {c : ColBytes E | (E.answer (E.firstMsgs x [c₀, c₁]) (bytesOf b)).Convinces x [c₀, c₁] [y₀, y₁] parts pm
            (bytesOf c)}.ncard ≤ 2 ^ 128 / 64 + 1}.ncard ≤ (2 ^ 128 / 64 + 1) * 2 ^ 128) ∧
      ∃ c₀ c₁ opens, E.CommitsAll [[5, 7], [11]] exRand [c₀, c₁] opens ∧
        ∀ x, (P c₀).eval x = 5 + 7 * x ∧ (P c₁).eval x = 11 := by
  have : Fact (Nat.Prime 257) := ⟨by norm_num⟩
  obtain ⟨E, A, A', h1, h2, h6, hcb, hR, ho, hi, hF, b1, b2⟩ := exEnv124_hyps xof hx
  have hexp : E.par.enc.ecd.exp = 2 := by rw [h1]; rfl
  have hcols : E.par.mat.cols = 1 := by rw [h1]; rfl
  have hbat : E.par.batch = 2 := by rw [h1]; rfl
  have hrank : E.par.mat.rank = 2 := by rw [h1]; rfl
  have hv : ∀ v ∈ ([[5, 7], [11]] : List (List (ZMod 257))), v ≠ [] ∧ v.length ≤ E.par.mat.rank := by
    rw [hrank]; simp
  have hpow : (2 ^ 128) ^ (E.par.mat.cols - 1) = 1 := by rw [hcols]; rfl
  have hpow2 : (2 ^ 128) ^ (E.par.batch - 1) = 2 ^ 128 := by rw [hbat, pow_one]
  have h64 : challengeBound E.par.enc.ecd ^ E.par.enc.ecd.exp = 64 := by rw [hcb, hexp]; norm_num
  obtain ⟨P, d1, d2⟩ := C124 E h6 A A' (by rw [hbat]) _ _ _ hR ho hi
  obtain ⟨coms, opens, c1, c2⟩ := C124_honest E h6 A A' (by rw [hbat]) (by rw [hcb]; omega) _ _ _ 3 hR ho hi hF
    [[5, 7], [11]] (by rw [hbat]; rfl) hv exRand (fun i => exRand_le i) b1 b2
  have e := c2 P (d2 coms)
  rw [hpow, hpow2, h64, Nat.mul_one] at d2
  have hlen := c1.1
  rw [hbat] at hlen
  obtain ⟨c₀, c₁, rfl⟩ := List.length_eq_two.1 hlen
  refine ⟨E, A, ⟨A'⟩, h6, h2, hbat, P, fun cm => hrank ▸ (d1 cm).1, ?_, c₀, c₁, opens, c1, fun x => ⟨?_, ?_⟩⟩
  · rintro c₀ c₁ x y₀ y₁ (hy | hy)
    · exact d2 [c₀, c₁] x [y₀, y₁] 0 (by omega) hy
    · exact d2 [c₀, c₁] x [y₀, y₁] 1 (by omega) hy
  · have := e x 0 (by omega)
    simpa [sum_range_succ] using this
  · have := e x 1 (by omega)
    simpa using this

end Ringo
