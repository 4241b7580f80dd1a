import Verif.Model.BEncoder
import Verif.Proof.Linear

/-!
# Lemmas about the Buckler encoder
-/

namespace Ringo

open Finset Polynomial

section
variable {F : Type} [Field F] {K : Nat} {g : F} {ecd : BEncoder F}

/-- What the proofs need to know about an encoder. -/
structure GoodEcd (K : Nat) (g : F) (ecd : BEncoder F) : Prop where
  hK : 3 ≤ K
  prim : IsPrimitiveRoot g (2 ^ K)
  good : ∃ z, GoodT K ecd.ntt z ∧ ∀ i < 2 ^ K, z (2 ^ K + i) = g ^ rev K i

theorem GoodEcd.rank (h : GoodEcd K g ecd) : ecd.ntt.rank = 2 ^ K := h.good.choose_spec.1.rank

theorem GoodEcd.encodeTo_spec (h : GoodEcd K g ecd) (pOut : Poly F) (v : List F)
    (ho : 2 ^ K ≤ pOut.coeffs.length) (hv : 2 ^ K ≤ v.length) :
    ∃ w, ecd.encodeTo pOut v = .ok ⟨w, false⟩ ∧ w.length = pOut.coeffs.length ∧
      (∀ i, 2 ^ K ≤ i → w.getD i 0 = 0) ∧
      (∀ i < 2 ^ K, evalAt (2 ^ K) w (g ^ rev K i) = v.getD i 0) := by
  obtain ⟨z, hz, hpt⟩ := h.good
  have hr := hz.rank
  have hlo : (pOut.coeffs.take (2 ^ K)).length = 2 ^ K := by simp [ho]
  have hvl : (v.take (2 ^ K)).length = 2 ^ K := by simp [hv]
  obtain ⟨lo, l1, l2, -⟩ := inv_spec h.hK hz (pOut.coeffs.take (2 ^ K)) (v.take (2 ^ K)) hlo hvl
  have hfi := fwd_inv h.hK hz (pOut.coeffs.take (2 ^ K)) lo (v.take (2 ^ K)) hlo l2 hvl
  rw [l1, go_bind_ok] at hfi
  obtain ⟨u, u1, u2, -, u3⟩ := fwd_spec h.hK hz lo lo l2 l2
  rw [hfi] at u1; cases u1
  have hol : (lo ++ pOut.coeffs.drop (2 ^ K)).length = pOut.coeffs.length := by
    rw [List.length_append, l2, List.length_drop]; omega
  obtain ⟨w, w1, w2, w3⟩ := zero_loop (2 ^ K) (lo ++ pOut.coeffs.drop (2 ^ K)).length (by omega)
    (lo ++ pOut.coeffs.drop (2 ^ K)) le_rfl
  have hwlo : ∀ j < 2 ^ K, w.getD j 0 = lo.getD j 0 := by
    intro j hj
    rw [w3, if_neg (by omega), List.getD_eq_getElem?_getD, List.getElem?_append_left (by omega),
      ← List.getD_eq_getElem?_getD]
  refine ⟨w, ?_, by omega, fun i hi => ?_, fun i hi => ?_⟩
  · unfold BEncoder.encodeTo
    rw [if_neg (by omega), if_neg (by omega)]
    simp only [hr]
    rw [l1, go_bind_ok, w1]
    rfl
  · by_cases hc : i < w.length
    · rw [w3, if_pos (by omega)]
    · exact getD_ge (by omega)
  · have e1 : evalAt (2 ^ K) w (g ^ rev K i) = evalAt (2 ^ K) lo (g ^ rev K i) := by
      unfold evalAt
      apply sum_congr rfl
      intro j hj
      rw [mem_range] at hj
      rw [hwlo j hj]
    rw [e1, ← hpt i hi, ← u3 i hi, List.getD_eq_getElem?_getD, List.getElem?_take, if_pos hi,
      ← List.getD_eq_getElem?_getD]

theorem GoodEcd.randEncodeTo_spec (h : GoodEcd K g ecd) (pOut : Poly F) (v : List F) (r : F)
    (ho : 2 ^ K < pOut.coeffs.length) (hv : 2 ^ K ≤ v.length) :
    ∃ w e, ecd.randEncodeTo pOut v r = .ok ⟨w, false⟩ ∧ ecd.encodeTo pOut v = .ok ⟨e, false⟩ ∧
      w.length = pOut.coeffs.length ∧ e.length = pOut.coeffs.length ∧
      listPoly w = listPoly e + C r * (X ^ 2 ^ K - 1) := by
  have hN := Nat.two_pow_pos K
  obtain ⟨e, e1, e2, e3, e4⟩ := h.encodeTo_spec pOut v (by omega) hv
  have hc1 : 2 ^ K < e.length := by omega
  have hl : (e.set (2 ^ K) r).length = e.length := by simp
  have h0 : 0 < (e.set (2 ^ K) r).length := by omega
  have hk : 2 ^ K < (e.set (2 ^ K) r).length := by omega
  refine ⟨(e.set (2 ^ K) r).set 0 ((e.set (2 ^ K) r)[0] - (e.set (2 ^ K) r)[2 ^ K]), e, ?_, e1,
    by simp [e2], e2, ?_⟩
  · unfold BEncoder.randEncodeTo
    rw [e1, go_bind_ok, h.rank]
    simp only
    rw [setIdx_ok hc1, go_bind_ok, idx_ok h0, go_bind_ok, idx_ok hk, go_bind_ok, setIdx_ok h0]
    rfl
  · ext n
    rw [listPoly_coeff, coeff_add, listPoly_coeff, coeff_C_mul, coeff_sub, coeff_X_pow, coeff_one,
      getD_set _ _ _ _ h0, getD_eq h0, getD_eq hk, getD_set _ _ _ _ hc1, getD_set _ _ _ _ hc1,
      getD_set _ _ _ _ hc1, if_pos rfl, if_neg (show ¬ 0 = 2 ^ K by omega)]
    by_cases hn0 : n = 0
    · subst hn0
      rw [if_pos rfl, if_neg (show ¬ 0 = 2 ^ K by omega), if_pos rfl]; ring
    · rw [if_neg hn0, if_neg hn0]
      by_cases hnk : n = 2 ^ K
      · rw [if_pos hnk, if_pos hnk, e3 n (by omega)]; ring
      · rw [if_neg hnk, if_neg hnk]; ring

theorem newBEncoder_good (p : Nat) [Fact p.Prime] (K : Nat) (hK : 3 ≤ K) (embRank : Nat)
    (ecd : BEncoder (ZMod p)) (he : newBEncoder p (2 ^ K) embRank = .ok ecd) :
    ecd.embedRank = embRank ∧ ∃ g, GoodEcd K g ecd := by
  unfold newBEncoder at he
  cases hT : newCyclicTransformer p (2 ^ K) with
  | error e => rw [hT] at he; cases he
  | ok T =>
    rw [hT] at he; cases he
    obtain ⟨g, g1, g2⟩ := cyclicEv_good p K hK ⟨2 ^ K, T⟩ (by unfold newCyclicEvaluator; rw [hT]; rfl)
    exact ⟨rfl, g, hK, g1, g2.good⟩

end

end Ringo
