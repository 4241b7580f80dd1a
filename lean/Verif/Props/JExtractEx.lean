import Verif.Props.JExtract
import Verif.Props.JProtoEx

/-!
# An environment that meets the hypotheses of C99
-/

namespace Ringo

open Finset Polynomial

set_option linter.unusedSectionVars false

theorem toR_range (qs : List Nat) (N : Nat) (f : Nat → Int) : toR qs N ((List.range N).map f) =
    ∑ j ∈ range N, (f j : RQ qs N) * (redR qs N (AdjoinRoot.root _)) ^ j := by
  rw [← redR_toZ, toZ_range, map_sum]
  apply sum_congr rfl
  intro j _
  rw [map_mul, map_pow, map_intCast]

/-- Short vectors are not in the kernel of a key whose entries are far apart. -/
theorem gap {qs : List Nat} (hc : Chain qs) {N : Nat} (hN : 1 ≤ N) {a b : List Int} (w : Nat → Int) {B C : Nat}
    (ha : Short N B a) (hb : Short N B b) (hw : ∀ i, (w i).natAbs ≤ C) (M M2 : Nat) (h1 : C < M)
    (h2 : M * B + C < M2) (h3 : M * B + M2 * B + C < qs.prod)
    (h : (M : RQ qs N) * toR qs N a + (M2 : RQ qs N) * toR qs N b + toR qs N ((List.range N).map w) = 0) :
    (∀ c ∈ a, c = 0) ∧ ∀ c ∈ b, c = 0 := by
  have hz : toR qs N ((List.range N).map fun i => M * a.getD i 0 + M2 * b.getD i 0 + w i) = 0 := by
    rw [← h]
    conv_rhs => rw [coeffs_eq_range ha.1, coeffs_eq_range hb.1]
    simp only [toR_range, mul_sum, ← sum_add_distrib]
    apply sum_congr rfl
    intro i _
    push_cast
    ring
  have h0 : toR qs N ((List.range N).map fun _ => (0 : Int)) = 0 := by
    rw [toR_range]; simp
  have hd := toR_inj hc hN (by simp) (by simp) (hz.trans h0.symm)
  have key : ∀ i < N, a.getD i 0 = 0 ∧ b.getD i 0 = 0 := by
    intro i hi
    have h4 := (List.forall₂_iff_get.1 hd).2 i (by simpa using hi) (by simpa using hi)
    simp only [List.get_eq_getElem, List.getElem_map, List.getElem_range, sub_zero] at h4
    have ha := ha.getD i
    have hb := hb.getD i
    have hw := hw i
    generalize a.getD i 0 = u at *
    generalize b.getD i 0 = v at *
    generalize w i = t at *
    have hMu : ((M : Int) * u).natAbs ≤ M * B := by
      rw [Int.natAbs_mul, Int.natAbs_natCast]; exact Nat.mul_le_mul_left _ ha
    have hMv : ((M2 : Int) * v).natAbs ≤ M2 * B := by
      rw [Int.natAbs_mul, Int.natAbs_natCast]; exact Nat.mul_le_mul_left _ hb
    have h5 : (M : Int) * u + M2 * v + t = 0 := by
      apply Int.eq_zero_of_abs_lt_dvd h4
      rw [Int.abs_eq_natAbs]
      have : ((M : Int) * u + M2 * v + t).natAbs < qs.prod := by omega
      exact_mod_cast this
    have hv : v = 0 := by
      by_contra hv
      have : M2 ≤ ((M2 : Int) * v).natAbs := by
        rw [Int.natAbs_mul, Int.natAbs_natCast]
        exact Nat.le_mul_of_pos_right _ (by omega)
      omega
    subst hv
    refine ⟨?_, rfl⟩
    by_contra hu
    have : M ≤ ((M : Int) * u).natAbs := by
      rw [Int.natAbs_mul, Int.natAbs_natCast]
      exact Nat.le_mul_of_pos_right _ (by omega)
    omega
  constructor
  · intro c hc
    obtain ⟨i, hi, rfl⟩ := List.mem_iff_getElem.1 hc
    have := (key i (by rw [← ha.1]; exact hi)).1
    rwa [List.getD_eq_getElem _ _ hi] at this
  · intro c hc
    obtain ⟨i, hi, rfl⟩ := List.mem_iff_getElem.1 hc
    have := (key i (by rw [← hb.1]; exact hi)).2
    rwa [List.getD_eq_getElem _ _ hi] at this

/-- `exPar 1` without truncation of the inner commitments. -/
def exPar99 : JPar := { exPar 1 with inCut := 0, resNm := 2 ^ 18, dcmpNm := 2 ^ 98 }

/-- The modulus of the outer commitments. -/
def exQ99 : Nat := 2 ^ 160 * 2 ^ 160 + 1

theorem exEnv99 (xof : List (JMsg (RQ exQs 4) (RQ [exQ99] 4) (ZMod 257)) → Nat → List (BitVec 8))
    (hx : ∀ ms i, (xof ms i).length = 16) :
    ∃ (E : JEnv 257 (RQ exQs 4) (RQ [exQ99] 4)) (A : E.ringQ.Lawful) (A' : E.ringQ'.Lawful), E.par = exPar99 ∧
      E.xof = xof ∧ E.toFloat = (fun n : Nat => (n : ℚ)) ∧ E.ringQ.qs = exQs ∧ E.ringQ'.qs = [exQ99] ∧ E.Good ∧
      E.BindsIn A (2 ^ 24) ∧ E.BindsOut A' (2 ^ 99) := by
  have hq : Chain [exQ99] := ⟨by simp, by norm_num [exQ99], by norm_num [exQ99], by simp⟩
  obtain ⟨E, h1, h2, h3, h4, h5, h6, ⟨A⟩, ⟨A'⟩⟩ : ∃ E : JEnv 257 (RQ exQs 4) (RQ [exQ99] 4), E.par = exPar99 ∧
      E.xof = xof ∧ E.toFloat = (fun n : Nat => (n : ℚ)) ∧ E.ringQ.qs = exQs ∧ E.ringQ'.qs = [exQ99] ∧
      E.Good ∧ Nonempty E.ringQ.Lawful ∧ Nonempty E.ringQ'.Lawful := by
    apply env_exists exPar99 exQs exQ99 exQs_chain hq
    · constructor <;> norm_num [exPar99, exPar]
    · constructor <;> norm_num [exPar99, exPar]
    · rfl
    · exact (show 1 ≤ challengeBound ⟨16, 2⟩ by decide)
    · have h : challengeBound exPar99.enc.ecd = 8 := (show challengeBound ⟨16, 2⟩ = 8 by decide)
      rw [h]; simp [exQs, exQ99]
    · simp [exPar99, exPar]
    · simp [exPar99, exPar]
    · simp [exPar99, exPar]
    · simp [exPar99, exPar]
    · norm_num [exPar99, exPar, exQs]
    · norm_num [exPar99, exPar, exQ99]
    · exact hx
  have hN : E.ringQ.N = 4 := by rw [h6.deg, h1]; rfl
  have hN' : E.ringQ'.N = 4 := by rw [h6.deg', h1]; rfl
  let K : JKey (RQ exQs 4) (RQ [exQ99] 4) := ⟨[1, 2, 3],
    [[A.val.symm ((2 ^ 26 : Nat) : RQ E.ringQ.qs E.ringQ.N), A.val.symm ((2 ^ 51 : Nat) : RQ E.ringQ.qs E.ringQ.N)]],
    [[A.val.symm 1]],
    [[A'.val.symm ((2 ^ 100 : Nat) : RQ E.ringQ'.qs E.ringQ'.N),
      A'.val.symm ((2 ^ 200 : Nat) : RQ E.ringQ'.qs E.ringQ'.N)]]⟩
  refine ⟨{ E with key := K }, A, A', h1, h2, h3, h4, h5, ?_, ?_, ?_⟩
  · refine { h6 with inn := ?_, inn2 := ?_, mlwe := ?_, mlwe2 := ?_, out := ?_, out2 := ?_ } <;> dsimp only <;> rw [h1] <;>
      simp [K, exPar99, exPar]
  · intro e m u he hm hu h0 k hk
    dsimp only at he hm hu h0 hk
    have h0 := h0 0 (by rw [h1]; simp [exPar99, exPar])
    rw [h1] at he hm hu h0 hk
    simp only [exPar99, exPar, at2, K, List.getD_cons_zero, List.getD_cons_succ, sum_range_succ, sum_range_zero, zero_add,
      AddEquiv.apply_symm_apply, one_mul, add_zero] at he hm hu h0 hk
    have m0 := hm 0 (by omega)
    have m1 := hm 1 (by omega)
    have u0 := hu 0 (by omega)
    have := gap (qs := E.ringQ.qs) A.chain A.pos (fun i => (m 0).getD i 0 + (m 1).getD i 0 + (u 0).getD i 0)
      (C := 3 * 2 ^ 24) (he 0 (by omega)) (he 1 (by omega)) (by
        intro i
        have := m0.getD i
        have := m1.getD i
        have := u0.getD i
        omega) (2 ^ 26) (2 ^ 51) (by norm_num) (by norm_num) (by rw [h4]; norm_num [exQs]) (by
        rw [← h0, toR_range]
        rw [add_assoc, add_assoc, add_assoc, add_assoc]
        conv_rhs => rw [coeffs_eq_range m0.1, coeffs_eq_range m1.1, coeffs_eq_range u0.1]
        simp only [toR_range, ← sum_add_distrib]
        congr 2
        apply sum_congr rfl
        intro i _
        push_cast
        ring)
    obtain rfl | rfl : k = 0 ∨ k = 1 := by omega
    · exact this.1
    · exact this.2
  · intro t s ht hs h0 k hk
    dsimp only at ht hs h0 hk
    have h0 := h0 0 (by rw [h1]; simp [exPar99, exPar])
    rw [h1] at ht hs h0 hk
    simp only [exPar99, exPar, at2, K, List.getD_cons_zero, List.getD_cons_succ, sum_range_succ, sum_range_zero, zero_add,
      AddEquiv.apply_symm_apply] at ht hs h0 hk
    have s0 := hs 0 (by omega)
    have := gap (qs := E.ringQ'.qs) A'.chain A'.pos (fun i => (s 0).getD i 0)
      (C := 2 ^ 99) (ht 0 (by omega)) (ht 1 (by omega)) (fun i => s0.getD i) (2 ^ 100) (2 ^ 200) (by norm_num)
      (by norm_num) (by rw [h5]; norm_num [exQ99]) (by
        rw [← h0]
        conv_rhs => rw [coeffs_eq_range s0.1])
    obtain rfl | rfl : k = 0 ∨ k = 1 := by omega
    · exact this.1
    · exact this.2

open Classical in
/-- **Case for C99**: there are 64 challenges, and for a commitment to `5 + 7X` a wrong value at `3` with partial
evaluations below 274432 is accepted for at most one in 64, up to rounding. -/
theorem C99_case (xof : List (JMsg (RQ exQs 4) (RQ [exQ99] 4) (ZMod 257)) → Nat → List (BitVec 8))
    (hx : ∀ ms i, (xof ms i).length = 16) :
    ∃ (E : JEnv 257 (RQ exQs 4) (RQ [exQ99] 4)) (A : E.ringQ.Lawful), Nonempty E.ringQ'.Lawful ∧ E.Good ∧ E.xof = xof ∧
      E.par.mat.cols = 1 ∧ ∃ com o, E.commit [5, 7] (exRand 0) = .ok (com, o) ∧
      (∀ (y : ZMod 257) parts pm, E.ShortParts A 274432 parts → y ≠ 26 →
        {b : Fin E.par.mat.cols → Fin 16 → BitVec 8 | E.Convinces 3 [com] [y] parts pm (bytesOf b)}.ncard ≤
          2 ^ 128 / 64 + 1) ∧
      ∃ pf, E.evaluate 3 [[5, 7]] [com] [o] = .ok ([26], pf) ∧ E.ShortParts A 274432 pf.parts ∧
        ∀ s : Nat → List (BitVec 8), (∀ i, (s i).length = 16) → E.Convinces 3 [com] [26] pf.parts pf.partMask s := by
  have : Fact (Nat.Prime 257) := ⟨by norm_num⟩
  have h8 : challengeBound ⟨16, 2⟩ = 8 := by decide
  obtain ⟨E, A, A', h1, h2, h3, h4, h5, h6, hi, ho⟩ := exEnv99 xof hx
  have hcb : challengeBound E.par.enc.ecd = 8 := by rw [h1]; exact h8
  have hexp : E.par.enc.ecd.exp = 2 := by rw [h1]; rfl
  have hs : ∀ n m : Nat, n < m * m → ((Nat.sqrt n : Nat) : ℚ) < (m : ℚ) := by
    intro n m h
    exact_mod_cast Nat.sqrt_lt.mpr h
  refine ⟨E, A, ⟨A'⟩, h6, h2, by rw [h1]; rfl, ?_⟩
  obtain ⟨com, o, c1, c2⟩ := C99_honest E h6 A A' (by rw [h1]; rfl) (by rw [hcb]; omega) (2 ^ 18) (2 ^ 98) 274432 3
    (by
      constructor
      · intro n hn
        rw [h3, h1] at hn
        have hn : (n : ℚ) < 2 ^ 18 := hn
        have : n < 2 ^ 18 := by exact_mod_cast hn
        exact this.le
      · intro n hn
        rw [h3, h1] at hn
        have hn : (n : ℚ) < 2 ^ 98 := hn
        have : n < 2 ^ 98 := by exact_mod_cast hn
        exact this.le
      · rw [h4]; norm_num [exQs]
      · rw [hcb, h1, h4]; norm_num [exQs, exPar99, exPar])
    ho (by rw [hcb, hexp]; exact hi)
    (by
      unfold JEnv.batchGrow JEnv.chalGrow JEnv.encSize
      rw [hcb, h1]
      simp [exPar99, exPar])
    [5, 7] (by simp) (by rw [h1]; simp [exPar99, exPar]) (exRand 0) (exRand_le 0)
    (by
      rw [h3]
      have := hs (E.par.dcmpLen * (E.par.enc.N * JEnv.batchGrow E (JEnv.truncMax E) ^ 2) +
        E.par.outRank * (E.par.enc.N * JEnv.batchGrow E (2 ^ E.par.outCut) ^ 2)) (2 ^ 98) (by
          unfold JEnv.batchGrow JEnv.chalGrow JEnv.truncMax
          rw [hcb, h1, h4]
          norm_num [exPar99, exPar, exQs])
      rw [h1] at this ⊢
      refine lt_of_lt_of_eq this ?_
      norm_num [exPar99])
    (by
      rw [h3]
      have := hs (E.par.mat.rows * (E.par.enc.N * JEnv.combGrow E (JEnv.encSize E 3) ^ 2) +
        (E.par.mlweRank + E.par.inRank) * (E.par.enc.N * JEnv.combGrow E 3 ^ 2) +
        E.par.inRank * (E.par.enc.N * JEnv.combGrow E (2 ^ E.par.inCut) ^ 2)) (2 ^ 18) (by
          unfold JEnv.combGrow JEnv.batchGrow JEnv.chalGrow JEnv.encSize
          rw [hcb, h1]
          norm_num [exPar99, exPar])
      rw [h1] at this ⊢
      refine lt_of_lt_of_eq this ?_
      norm_num [exPar99])
  obtain ⟨c3, c4⟩ := c2 3
  have hval : ∑ i ∈ range ([5, 7] : List (ZMod 257)).length, ([5, 7] : List (ZMod 257)).getD i 0 * 3 ^ i = 26 := by
    simp [sum_range_succ]
    norm_num
  rw [hval] at c3 c4
  refine ⟨com, o, c1, ?_, c4⟩
  intro y parts pm hp hy
  have := c3 y parts pm hp hy
  rw [hcb, hexp, h1] at this
  rw [h1]
  simpa [exPar99, exPar] using this

end Ringo
