import Verif.Props.JRom

/-!
# A case for C122
-/

namespace Ringo

open Finset

open Classical in
/-- **Case for C122**: there are 64 challenges and one column.  Of all functions on the inputs in `M`, at most a
`(Q + 1) / 64` part, up to rounding, lets a program with `Q` calls open a commitment to `5 + 7X` to a wrong value, with
partial evaluations below 274432. -/
theorem C122_case (xof : List (JMsg (RQ exQs 4) (RQ [exQ99] 4) (ZMod 257)) → Nat → List (BitVec 8))
    (hx : ∀ ms i, (xof ms i).length = 16) :
    ∃ (E : JEnv 257 (RQ exQs 4) (RQ [exQ99] 4)) (A : E.ringQ.Lawful), Nonempty E.ringQ'.Lawful ∧ E.Good ∧ E.xof = xof ∧
      ∃ com o, E.commit [5, 7] (exRand 0) = .ok (com, o) ∧
      ∀ (M : Finset (List (JMsg (RQ exQs 4) (RQ [exQ99] 4) (ZMod 257)))) (Q : Nat)
        (B : Asker M (ColBytes E) (JClaim 257 (RQ exQs 4) (RQ [exQ99] 4))), B.AtMost Q →
        Nat.card {o : M → ColBytes E //
            let c := B.run o
            jindoSecond E c.point [c.com] c.proof ∈ M ∧
              (E.withXof M o).verify c.point [c.com] [c.value] c.proof = .ok true ∧
              E.ShortParts A 274432 c.proof.parts ∧ c.com = com ∧ c.value ≠ 5 + 7 * c.point} * 2 ^ 128 ≤
          (Q + 1) * (2 ^ 128 / 64 + 1) * Nat.card (M → ColBytes E) := by
  have : Fact (Nat.Prime 257) := ⟨by norm_num⟩
  have h8 : challengeBound ⟨16, 2⟩ = 8 := by decide
  obtain ⟨E, A, A', h1, h2, h3, h4, h5, h6, hi, ho⟩ := exEnv99 xof hx
  have hcb : challengeBound E.par.enc.ecd = 8 := by rw [h1]; exact h8
  have hexp : E.par.enc.ecd.exp = 2 := by rw [h1]; rfl
  have hs : ∀ n m : Nat, n < m * m → ((Nat.sqrt n : Nat) : ℚ) < (m : ℚ) := by
    intro n m h
    exact_mod_cast Nat.sqrt_lt.mpr h
  refine ⟨E, A, ⟨A'⟩, h6, h2, ?_⟩
  obtain ⟨com, o, c1, c2⟩ := C122_honest E h6 A A' (by rw [h1]; rfl) (by rw [hcb]; omega) (2 ^ 18) (2 ^ 98) 274432 3
    (by
      constructor
      · intro n hn
        rw [h3, h1] at hn
        have hn : (n : ℚ) < 2 ^ 18 := hn
        have : n < 2 ^ 18 := by exact_mod_cast hn
        exact this.le
      · intro n hn
        rw [h3, h1] at hn
        have hn : (n : ℚ) < 2 ^ 98 := hn
        have : n < 2 ^ 98 := by exact_mod_cast hn
        exact this.le
      · rw [h4]; norm_num [exQs]
      · rw [hcb, h1, h4]; norm_num [exQs, exPar99, exPar])
    ho (by rw [hcb, hexp]; exact hi)
    (by
      unfold JEnv.batchGrow JEnv.chalGrow JEnv.encSize
      rw [hcb, h1]
      simp [exPar99, exPar])
    [5, 7] (by simp) (by rw [h1]; simp [exPar99, exPar]) (exRand 0) (exRand_le 0)
    (by
      rw [h3]
      have := hs (E.par.dcmpLen * (E.par.enc.N * JEnv.batchGrow E (JEnv.truncMax E) ^ 2) +
        E.par.outRank * (E.par.enc.N * JEnv.batchGrow E (2 ^ E.par.outCut) ^ 2)) (2 ^ 98) (by
          unfold JEnv.batchGrow JEnv.chalGrow JEnv.truncMax
          rw [hcb, h1, h4]
          norm_num [exPar99, exPar, exQs])
      rw [h1] at this ⊢
      refine lt_of_lt_of_eq this ?_
      norm_num [exPar99])
    (by
      rw [h3]
      have := hs (E.par.mat.rows * (E.par.enc.N * JEnv.combGrow E (JEnv.encSize E 3) ^ 2) +
        (E.par.mlweRank + E.par.inRank) * (E.par.enc.N * JEnv.combGrow E 3 ^ 2) +
        E.par.inRank * (E.par.enc.N * JEnv.combGrow E (2 ^ E.par.inCut) ^ 2)) (2 ^ 18) (by
          unfold JEnv.combGrow JEnv.batchGrow JEnv.chalGrow JEnv.encSize
          rw [hcb, h1]
          norm_num [exPar99, exPar])
      rw [h1] at this ⊢
      refine lt_of_lt_of_eq this ?_
      norm_num [exPar99])
  refine ⟨com, o, c1, fun M Q B hQ => ?_⟩
  have := c2 M Q B hQ
  have hcols : E.par.mat.cols = 1 := by rw [h1]; rfl
  have hval : ∀ x : ZMod 257, ∑ i ∈ range ([5, 7] : List (ZMod 257)).length, ([5, 7] : List (ZMod 257)).getD i 0 * x ^ i =
      5 + 7 * x := by
    intro x
    simp [sum_range_succ]
  simp only [hval] at this
  rw [hcb, hexp, show (2 ^ 128) ^ E.par.mat.cols = 2 ^ 128 by rw [hcols, pow_one],
    show (2 ^ 128) ^ (E.par.mat.cols - 1) = 1 by rw [hcols]; rfl, Nat.mul_one] at this
  exact this

end Ringo
