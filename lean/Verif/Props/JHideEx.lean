import Verif.Props.JHide
import Verif.Props.JProtoEx

/-!
# Cases for C114
-/

namespace Ringo

open Finset

/-- **Case for `C114_hiding`**: `5 + 7X` and `26 + 0X` have the same value at `3`; `17 + 2X` and
`23 + 0X` too.  Whatever the batching challenges and the hash function are, proofs decode to the
same values with the same probability. -/
theorem C114_hiding_case (bet : Fin 2 → ZMod 257)
    (gam : (Fin (exPar 2).mat.cols → Fin (exPar 2).mat.slots → ZMod 257) →
      (Fin (exPar 2).mat.slots → ZMod 257) → Nat → ZMod 257) (w : JSeen (ZMod 257) (exPar 2).mat) :
    haveI : NeZero 257 := ⟨by decide⟩
    Fintype.card {c // jSeen (exPar 2).mat 3 bet gam ![[5, 7], [17, 2]] c = w} =
      Fintype.card {c // jSeen (exPar 2).mat 3 bet gam ![[26, 0], [23, 0]] c = w} := by
  have : NeZero 257 := ⟨by decide⟩
  apply C114_hiding
  · constructor <;> norm_num [exPar]
  · intro t; fin_cases t <;> rfl
  · intro t; fin_cases t <;> simp [exPar]
  · intro t
    fin_cases t
    · simp [sum_range_succ]
      norm_num
    · simp [sum_range_succ]
      norm_num

/-- **Case for `C114_view`**: two polynomials, any hash function. -/
theorem C114_view_case
    (xof : List (JMsg (RQ exQs 4) (RQ [2305843009213693951] 4) (ZMod 257)) → Nat → List (BitVec 8))
    (hx : ∀ ms i, (xof ms i).length = 16) :
    ∃ E : JEnv 257 (RQ exQs 4) (RQ [2305843009213693951] 4), E.Good ∧ E.xof = xof ∧
      ∃ com opens y pf, E.evaluate 3 [[5, 7], [11]] com opens = .ok (y, pf) ∧
        ∃ bet : Fin E.par.batch → ZMod 257, ∃ l,
          E.decodePoly (E.ringQ.unload (pf.parts.getD 0 0)) = .ok l ∧ ∀ s < E.par.mat.slots,
            l.getD s 0 = jPart E.par.mat 3 bet (fun t => (exRand t).row)
              (fun t => ((exRand t).col E.par.mat.cols).mask)
              (fun t => [[5, 7], [11]].getD t []) 0 s := by
  obtain ⟨E, h1, h2, h3, h4, h5, h6, ⟨A⟩, ⟨A'⟩⟩ := exEnv 2 (by omega) xof hx
  refine ⟨E, h6, h2, ?_⟩
  obtain ⟨-, -, b3⟩ := ex_bounds 2 (Or.inr rfl) E h1 h3 h4
  have h8 : challengeBound ⟨16, 2⟩ = 8 := by decide
  have b4 : 2 * JEnv.combGrow E (JEnv.encSize E 3) + 1 < E.ringQ.qs.prod := by
    unfold JEnv.combGrow JEnv.batchGrow JEnv.chalGrow JEnv.encSize
    rw [h1, h4]
    simp only [exPar, h8]
    norm_num [exQs]
  obtain ⟨coms, opens, pf, -, -, -, e1, bet, gam, -, -, e2, -⟩ := C114_view E h6 A A' 3
    [[5, 7], [11]] (by rw [h1]; rfl) (by rw [h1]; simp [exPar]) exRand 3
    (fun i j k t => (exRand_le i j k t).1) b3 b4
  exact ⟨coms, opens, _, pf, e1, bet, e2 0 (by rw [h1]; simp [exPar])⟩

/-- **Case for `C114_reuse`**: with the challenges one and two, the responses of `5 + 7X` are not
those of `26 + 0X`, whatever the coins are. -/
theorem C114_reuse_case (row row' : Nat → ZMod 257) (mask mask' : Nat → Nat → ZMod 257) :
    ¬ ((∀ i < 2, ∀ s < 2, jResp (exPar 1).mat (fun _ : Fin 1 => 1) (fun _ => 1) (fun _ => row)
          (fun _ => mask) (fun _ => [5, 7]) i s =
        jResp (exPar 1).mat (fun _ : Fin 1 => 1) (fun _ => 1) (fun _ => row')
          (fun _ => mask') (fun _ => [26, 0]) i s) ∧
      ∀ i < 2, ∀ s < 2, jResp (exPar 1).mat (fun _ : Fin 1 => 1) (fun _ => 2) (fun _ => row)
          (fun _ => mask) (fun _ => [5, 7]) i s =
        jResp (exPar 1).mat (fun _ : Fin 1 => 1) (fun _ => 2) (fun _ => row')
          (fun _ => mask') (fun _ => [26, 0]) i s) := by
  rintro ⟨h1, h2⟩
  have n1 : (1 : ZMod 257) ≠ 2 := by decide
  have n2 : ([5, 7] : List (ZMod 257)) ≠ [26, 0] := by decide
  have : Fact (Nat.Prime 257) := ⟨by norm_num⟩
  exact n2 (C114_reuse (K := ZMod 257) (M := (exPar 1).mat) (by constructor <;> norm_num [exPar])
    rfl (fun _ => 1) (fun _ => 2) n1 row row' mask mask' [5, 7] [26, 0] rfl
    (by simp [exPar]) h1 h2)

end Ringo
