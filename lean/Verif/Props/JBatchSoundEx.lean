import Verif.Props.JBatchRom

/-!
# Cases for C123: a batch of two
-/

namespace Ringo

open Finset

set_option linter.unusedSectionVars false

/-- `exPar 2` without truncation of the inner commitments. -/
def exPar123 : JPar := { exPar 2 with inCut := 0, resNm := 2 ^ 19, dcmpNm := 2 ^ 99 }

theorem exEnv123 (xof : List (JMsg (RQ exQs 4) (RQ [exQ99] 4) (ZMod 257)) → Nat → List (BitVec 8))
    (hx : ∀ ms i, (xof ms i).length = 16) :
    ∃ (E : JEnv 257 (RQ exQs 4) (RQ [exQ99] 4)) (A : E.ringQ.Lawful) (A' : E.ringQ'.Lawful), E.par = exPar123 ∧
      E.xof = xof ∧ E.toFloat = (fun n : Nat => (n : ℚ)) ∧ E.ringQ.qs = exQs ∧ E.ringQ'.qs = [exQ99] ∧ E.Good ∧
      E.BindsIn A (2 ^ 25) ∧ E.BindsOut A' (2 ^ 100) := by
  have hq : Chain [exQ99] := ⟨by simp, by norm_num [exQ99], by norm_num [exQ99], by simp⟩
  obtain ⟨E, h1, h2, h3, h4, h5, h6, ⟨A⟩, ⟨A'⟩⟩ : ∃ E : JEnv 257 (RQ exQs 4) (RQ [exQ99] 4), E.par = exPar123 ∧
      E.xof = xof ∧ E.toFloat = (fun n : Nat => (n : ℚ)) ∧ E.ringQ.qs = exQs ∧ E.ringQ'.qs = [exQ99] ∧
      E.Good ∧ Nonempty E.ringQ.Lawful ∧ Nonempty E.ringQ'.Lawful := by
    apply env_exists exPar123 exQs exQ99 exQs_chain hq
    · constructor <;> norm_num [exPar123, exPar]
    · constructor <;> norm_num [exPar123, exPar]
    · rfl
    · exact (show 1 ≤ challengeBound ⟨16, 2⟩ by decide)
    · have h : challengeBound exPar123.enc.ecd = 8 := (show challengeBound ⟨16, 2⟩ = 8 by decide)
      rw [h]; simp [exQs, exQ99]
    · simp [exPar123, exPar]
    · simp [exPar123, exPar]
    · simp [exPar123, exPar]
    · simp [exPar123, exPar]
    · norm_num [exPar123, exPar, exQs]
    · norm_num [exPar123, exPar, exQ99]
    · exact hx
  have hN : E.ringQ.N = 4 := by rw [h6.deg, h1]; rfl
  have hN' : E.ringQ'.N = 4 := by rw [h6.deg', h1]; rfl
  let K : JKey (RQ exQs 4) (RQ [exQ99] 4) := ⟨[1, 2, 3],
    [[A.val.symm ((2 ^ 27 : Nat) : RQ E.ringQ.qs E.ringQ.N), A.val.symm ((2 ^ 53 : Nat) : RQ E.ringQ.qs E.ringQ.N)]],
    [[A.val.symm 1]],
    [[A'.val.symm ((2 ^ 101 : Nat) : RQ E.ringQ'.qs E.ringQ'.N),
      A'.val.symm ((2 ^ 202 : Nat) : RQ E.ringQ'.qs E.ringQ'.N)]]⟩
  refine ⟨{ E with key := K }, A, A', h1, h2, h3, h4, h5, ?_, ?_, ?_⟩
  · refine { h6 with inn := ?_, inn2 := ?_, mlwe := ?_, mlwe2 := ?_, out := ?_, out2 := ?_ } <;> dsimp only <;> rw [h1] <;>
      simp [K, exPar123, exPar]
  · intro e m u he hm hu h0 k hk
    dsimp only at he hm hu h0 hk
    have h0 := h0 0 (by rw [h1]; simp [exPar123, exPar])
    rw [h1] at he hm hu h0 hk
    simp only [exPar123, exPar, at2, K, List.getD_cons_zero, List.getD_cons_succ, sum_range_succ, sum_range_zero, zero_add,
      AddEquiv.apply_symm_apply, one_mul, add_zero] at he hm hu h0 hk
    have m0 := hm 0 (by omega)
    have m1 := hm 1 (by omega)
    have u0 := hu 0 (by omega)
    have := gap (qs := E.ringQ.qs) A.chain A.pos (fun i => (m 0).getD i 0 + (m 1).getD i 0 + (u 0).getD i 0)
      (C := 3 * 2 ^ 25) (he 0 (by omega)) (he 1 (by omega)) (by
        intro i
        have := m0.getD i
        have := m1.getD i
        have := u0.getD i
        omega) (2 ^ 27) (2 ^ 53) (by norm_num) (by norm_num) (by rw [h4]; norm_num [exQs]) (by
        rw [← h0, toR_range]
        rw [add_assoc, add_assoc, add_assoc, add_assoc]
        conv_rhs => rw [coeffs_eq_range m0.1, coeffs_eq_range m1.1, coeffs_eq_range u0.1]
        simp only [toR_range, ← sum_add_distrib]
        congr 2
        apply sum_congr rfl
        intro i _
        push_cast
        ring)
    obtain rfl | rfl : k = 0 ∨ k = 1 := by omega
    · exact this.1
    · exact this.2
  · intro t s ht hs h0 k hk
    dsimp only at ht hs h0 hk
    have h0 := h0 0 (by rw [h1]; simp [exPar123, exPar])
    rw [h1] at ht hs h0 hk
    simp only [exPar123, exPar, at2, K, List.getD_cons_zero, List.getD_cons_succ, sum_range_succ, sum_range_zero, zero_add,
      AddEquiv.apply_symm_apply] at ht hs h0 hk
    have s0 := hs 0 (by omega)
    have := gap (qs := E.ringQ'.qs) A'.chain A'.pos (fun i => (s 0).getD i 0)
      (C := 2 ^ 100) (ht 0 (by omega)) (ht 1 (by omega)) (fun i => s0.getD i) (2 ^ 101) (2 ^ 202) (by norm_num)
      (by norm_num) (by rw [h5]; norm_num [exQ99]) (by
        rw [← h0]
        conv_rhs => rw [coeffs_eq_range s0.1])
    obtain rfl | rfl : k = 0 ∨ k = 1 := by omega
    · exact this.1
    · exact this.2

/-- All hypotheses of C123 hold together. -/
theorem exEnv123_hyps (xof : List (JMsg (RQ exQs 4) (RQ [exQ99] 4) (ZMod 257)) → Nat → List (BitVec 8))
    (hx : ∀ ms i, (xof ms i).length = 16) :
    ∃ (E : JEnv 257 (RQ exQs 4) (RQ [exQ99] 4)) (A : E.ringQ.Lawful) (A' : E.ringQ'.Lawful), E.par = exPar123 ∧
      E.xof = xof ∧ E.Good ∧ challengeBound E.par.enc.ecd = 8 ∧ E.Room (2 ^ 19) (2 ^ 99) 548864 ∧
      E.BindsOut A' (2 * 2 ^ 99) ∧
      E.BindsIn A (2 * (E.par.enc.ecd.exp * (challengeBound E.par.enc.ecd * (2 * 2 ^ 19)))) ∧
      E.par.mat.rows * (E.par.enc.N * (E.par.enc.ecd.base * JEnv.batchGrow E (JEnv.encSize E 3))) ≤ 548864 ∧
      E.toFloat (Nat.sqrt
        (E.par.dcmpLen * (E.par.enc.N * JEnv.batchGrow E (JEnv.truncMax E) ^ 2) +
          E.par.outRank * (E.par.enc.N * JEnv.batchGrow E (2 ^ E.par.outCut) ^ 2))) < E.par.dcmpNm ∧
      E.toFloat (Nat.sqrt
        (E.par.mat.rows * (E.par.enc.N * JEnv.combGrow E (JEnv.encSize E 3) ^ 2) +
          (E.par.mlweRank + E.par.inRank) * (E.par.enc.N * JEnv.combGrow E 3 ^ 2) +
          E.par.inRank * (E.par.enc.N * JEnv.combGrow E (2 ^ E.par.inCut) ^ 2))) < E.par.resNm := by
  have h8 : challengeBound ⟨16, 2⟩ = 8 := by decide
  obtain ⟨E, A, A', h1, h2, h3, h4, h5, h6, hi, ho⟩ := exEnv123 xof hx
  have hcb : challengeBound E.par.enc.ecd = 8 := by rw [h1]; exact h8
  have hexp : E.par.enc.ecd.exp = 2 := by rw [h1]; rfl
  have hs : ∀ n m : Nat, n < m * m → ((Nat.sqrt n : Nat) : ℚ) < (m : ℚ) := by
    intro n m h
    exact_mod_cast Nat.sqrt_lt.mpr h
  refine ⟨E, A, A', h1, h2, h6, hcb, ?_, ?_, ?_, ?_, ?_, ?_⟩
  · constructor
    · intro n hn
      rw [h3, h1] at hn
      have hn : (n : ℚ) < 2 ^ 19 := hn
      have : n < 2 ^ 19 := by exact_mod_cast hn
      exact this.le
    · intro n hn
      rw [h3, h1] at hn
      have hn : (n : ℚ) < 2 ^ 99 := hn
      have : n < 2 ^ 99 := by exact_mod_cast hn
      exact this.le
    · rw [h4]; norm_num [exQs]
    · rw [hcb, h1, h4]; norm_num [exQs, exPar123, exPar]
  · exact ho
  · rw [hcb, hexp]; exact hi
  · unfold JEnv.batchGrow JEnv.chalGrow JEnv.encSize
    rw [hcb, h1]
    simp [exPar123, exPar]
  · rw [h3]
    have := hs (E.par.dcmpLen * (E.par.enc.N * JEnv.batchGrow E (JEnv.truncMax E) ^ 2) +
      E.par.outRank * (E.par.enc.N * JEnv.batchGrow E (2 ^ E.par.outCut) ^ 2)) (2 ^ 99) (by
        unfold JEnv.batchGrow JEnv.chalGrow JEnv.truncMax
        rw [hcb, h1, h4]
        norm_num [exPar123, exPar, exQs])
    rw [h1] at this ⊢
    refine lt_of_lt_of_eq this ?_
    norm_num [exPar123]
  · rw [h3]
    have := hs (E.par.mat.rows * (E.par.enc.N * JEnv.combGrow E (JEnv.encSize E 3) ^ 2) +
      (E.par.mlweRank + E.par.inRank) * (E.par.enc.N * JEnv.combGrow E 3 ^ 2) +
      E.par.inRank * (E.par.enc.N * JEnv.combGrow E (2 ^ E.par.inCut) ^ 2)) (2 ^ 19) (by
        unfold JEnv.combGrow JEnv.batchGrow JEnv.chalGrow JEnv.encSize
        rw [hcb, h1]
        norm_num [exPar123, exPar])
    rw [h1] at this ⊢
    refine lt_of_lt_of_eq this ?_
    norm_num [exPar123]

theorem values_ex : valuesAt ([[5, 7], [11]] : List (List (ZMod 257))) 3 = [26, 11] := by
  simp [valuesAt, sum_range_succ]
  norm_num

/-- **Case for C123**: commitments to `5 + 7X` and `11`, whose values at `3` are `26` and `11`.  The honest prover's
first message can be answered for all bytes.  Values with another combination can be proved for one in 64 only, up to
rounding; values other than `26` and `11` that are chosen first, for all but one in 64 of the bytes of the batching
challenges. -/
theorem C123_case (xof : List (JMsg (RQ exQs 4) (RQ [exQ99] 4) (ZMod 257)) → Nat → List (BitVec 8))
    (hx : ∀ ms i, (xof ms i).length = 16) :
    ∃ (E : JEnv 257 (RQ exQs 4) (RQ [exQ99] 4)) (A : E.ringQ.Lawful), Nonempty E.ringQ'.Lawful ∧ E.Good ∧ E.xof = xof ∧
      E.par.batch = 2 ∧ ∃ coms opens, E.CommitsAll [[5, 7], [11]] exRand coms opens ∧
      (∀ (y : List (ZMod 257)) parts pm, E.ShortParts A 548864 parts →
        E.combined 3 coms y ≠ E.combined 3 coms [26, 11] →
        {b : ColBytes E | E.Convinces 3 coms y parts pm (bytesOf b)}.ncard ≤ 2 ^ 128 / 64 + 1) ∧
      (∃ pf, E.evaluate 3 [[5, 7], [11]] coms opens = .ok ([26, 11], pf) ∧ E.ShortParts A 548864 pf.parts ∧
        ∀ s : Nat → List (BitVec 8), (∀ i, (s i).length = 16) →
          E.Convinces 3 coms [26, 11] pf.parts pf.partMask s) ∧
      ∀ y : List (ZMod 257), y.length = 2 → y ≠ [26, 11] →
        {b : Fin E.par.batch → Fin 16 → BitVec 8 | ¬ ∀ parts pm, E.ShortParts A 548864 parts →
          {c : ColBytes E | (E.answer (E.firstMsgs 3 coms) (bytesOf b)).Convinces 3 coms y parts pm (bytesOf c)}.ncard ≤
            2 ^ 128 / 64 + 1}.ncard ≤ (2 ^ 128 / 64 + 1) * 2 ^ 128 := by
  have : Fact (Nat.Prime 257) := ⟨by norm_num⟩
  obtain ⟨E, A, A', h1, h2, h6, hcb, hR, ho, hi, hF, b1, b2⟩ := exEnv123_hyps xof hx
  have hexp : E.par.enc.ecd.exp = 2 := by rw [h1]; rfl
  have hcols : E.par.mat.cols = 1 := by rw [h1]; rfl
  have hbat : E.par.batch = 2 := by rw [h1]; rfl
  have hrank : E.par.mat.rank = 2 := by rw [h1]; rfl
  have hv : ∀ v ∈ ([[5, 7], [11]] : List (List (ZMod 257))), v ≠ [] ∧ v.length ≤ E.par.mat.rank := by
    rw [hrank]; simp
  obtain ⟨coms, opens, c1, c2⟩ := C123_honest E h6 A A' (by rw [hcb]; omega) _ _ _ 3 hR ho hi hF [[5, 7], [11]]
    (by rw [hbat]; rfl) hv exRand (fun i => exRand_le i) b1 b2
  obtain ⟨coms', opens', d1, d2⟩ := C123_first E h6 A A' (by rw [hbat]) (by rw [hcb]; omega) _ _ _ 3 hR ho hi hF
    [[5, 7], [11]] (by rw [hbat]; rfl) hv exRand (fun i => exRand_le i) b1 b2
  obtain ⟨rfl, rfl⟩ := commitsAll_unique E c1 d1
  obtain ⟨c3, c4⟩ := c2 3
  have hpow : (2 ^ 128) ^ (E.par.mat.cols - 1) = 1 := by rw [hcols]; rfl
  have hpow2 : (2 ^ 128) ^ (E.par.batch - 1) = 2 ^ 128 := by rw [hbat, pow_one]
  have h64 : challengeBound E.par.enc.ecd ^ E.par.enc.ecd.exp = 64 := by rw [hcb, hexp]; norm_num
  rw [values_ex] at c3 c4
  rw [hpow, h64, Nat.mul_one] at c3
  refine ⟨E, A, ⟨A'⟩, h6, h2, hbat, coms, opens, c1, c3, c4, fun y hy hne => ?_⟩
  have := d2 3 y (hy.trans hbat.symm) (by rwa [values_ex])
  rwa [hpow, hpow2, h64, Nat.mul_one] at this

open Classical in
/-- **Case for C123, random oracle**: the same commitments, and a program with `Q` calls. -/
theorem C123_rom_case (xof : List (JMsg (RQ exQs 4) (RQ [exQ99] 4) (ZMod 257)) → Nat → List (BitVec 8))
    (hx : ∀ ms i, (xof ms i).length = 16) :
    ∃ (E : JEnv 257 (RQ exQs 4) (RQ [exQ99] 4)) (A : E.ringQ.Lawful), Nonempty E.ringQ'.Lawful ∧ E.Good ∧ E.xof = xof ∧
      E.par.batch = 2 ∧ ∃ coms opens, E.CommitsAll [[5, 7], [11]] exRand coms opens ∧
      ∀ (M : Finset (List (JMsg (RQ exQs 4) (RQ [exQ99] 4) (ZMod 257)))), (∀ x com, jindoFirst E x com ∉ M) →
      ∀ (Q : Nat) (B : Asker M (ColBytes E) (JClaims 257 (RQ exQs 4) (RQ [exQ99] 4))), B.AtMost Q →
        Nat.card {o : M → ColBytes E //
            let c := B.run o
            jindoSecond E c.point coms c.proof ∈ M ∧ c.coms = coms ∧
              (E.withXof M o).verify c.point coms c.values c.proof = .ok true ∧
              E.ShortParts A 548864 c.proof.parts ∧
              E.combined c.point coms c.values ≠ E.combined c.point coms [5 + 7 * c.point, 11]} * 2 ^ 128 ≤
          (Q + 1) * (2 ^ 128 / 64 + 1) * Nat.card (M → ColBytes E) := by
  have : Fact (Nat.Prime 257) := ⟨by norm_num⟩
  obtain ⟨E, A, A', h1, h2, h6, hcb, hR, ho, hi, hF, b1, b2⟩ := exEnv123_hyps xof hx
  have hexp : E.par.enc.ecd.exp = 2 := by rw [h1]; rfl
  have hcols : E.par.mat.cols = 1 := by rw [h1]; rfl
  have hbat : E.par.batch = 2 := by rw [h1]; rfl
  have hrank : E.par.mat.rank = 2 := by rw [h1]; rfl
  have hv : ∀ v ∈ ([[5, 7], [11]] : List (List (ZMod 257))), v ≠ [] ∧ v.length ≤ E.par.mat.rank := by
    rw [hrank]; simp
  obtain ⟨coms, opens, c1, c2⟩ := C123_randomOracle_honest E h6 A A' (by rw [hcb]; omega) _ _ _ 3 hR ho hi hF
    [[5, 7], [11]] (by rw [hbat]; rfl) hv exRand (fun i => exRand_le i) b1 b2
  refine ⟨E, A, ⟨A'⟩, h6, h2, hbat, coms, opens, c1, fun M hM Q B hQ => ?_⟩
  have := c2 M hM Q B hQ
  have h64 : challengeBound E.par.enc.ecd ^ E.par.enc.ecd.exp = 64 := by rw [hcb, hexp]; norm_num
  have hval : ∀ x : ZMod 257, valuesAt ([[5, 7], [11]] : List (List (ZMod 257))) x = [5 + 7 * x, 11] := by
    intro x
    simp [valuesAt, sum_range_succ]
  simp only [hval] at this
  rw [h64, show (2 ^ 128) ^ E.par.mat.cols = 2 ^ 128 by rw [hcols, pow_one],
    show (2 ^ 128) ^ (E.par.mat.cols - 1) = 1 by rw [hcols]; rfl, Nat.mul_one] at this
  exact this

end Ringo
