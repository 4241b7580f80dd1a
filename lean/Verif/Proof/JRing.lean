import Verif.Proof.JEncoder
import Verif.Proof.PolyAlg
import Mathlib.RingTheory.AdjoinRoot

/-!
# Polynomials modulo `X^N + 1`, and decoding as a ring homomorphism
-/

namespace Ringo

open Polynomial Finset

section general
variable {A : Type} [CommRing A]

theorem listPoly_degree_lt (v : List A) (n : Nat) (h : v.length ≤ n) : (listPoly v).degree < n := by
  rw [degree_lt_iff_coeff_zero]
  intro m hm
  rw [listPoly_coeff, List.getD_eq_default _ _ (by omega)]

theorem listPoly_range (f : Nat → A) (n : Nat) :
    listPoly ((List.range n).map f) = ∑ j ∈ range n, C (f j) * X ^ j := by
  unfold listPoly
  simp only [List.length_map, List.length_range]
  apply sum_congr rfl
  intro j hj
  have := mem_range.mp hj
  rw [List.getD_eq_getElem _ _ (by simpa using this)]
  simp

theorem listPoly_map {B : Type} [CommRing B] (f : A →+* B) (v : List A) :
    (listPoly v).map f = listPoly (v.map f) := by
  ext i
  rw [coeff_map, listPoly_coeff, listPoly_coeff, List.getD_eq_getElem?_getD,
    List.getD_eq_getElem?_getD, List.getElem?_map]
  cases v[i]? <;> simp

/-- Polynomials of small degree are determined by their classes. -/
theorem listPoly_mk_inj [Nontrivial A] {M : A[X]} (hM : M.Monic) {n : Nat} (hn : M.natDegree = n)
    {u w : List A} (hu : u.length = n) (hw : w.length = n)
    (h : AdjoinRoot.mk M (listPoly u) = AdjoinRoot.mk M (listPoly w)) : u = w := by
  rw [AdjoinRoot.mk_eq_mk] at h
  have h1 : listPoly u - listPoly w = 0 := by
    by_contra h2
    have h4 : (listPoly u - listPoly w).degree < M.degree := by
      rw [degree_eq_natDegree hM.ne_zero, hn]
      exact (degree_sub_le _ _).trans_lt
        (max_lt (listPoly_degree_lt u n hu.le) (listPoly_degree_lt w n hw.le))
    exact hM.not_dvd_of_degree_lt h2 h4 h
  apply List.ext_getElem (by omega)
  intro i hi1 hi2
  have h2 := congrArg (fun f => f.coeff i) (sub_eq_zero.mp h1)
  simp only [listPoly_coeff] at h2
  rwa [List.getD_eq_getElem _ _ hi1, List.getD_eq_getElem _ _ hi2] at h2

/-- `X^N + 1`. -/
noncomputable abbrev cyclo (A : Type) [CommRing A] (N : Nat) : A[X] := X ^ N + 1

theorem cyclo_monic [Nontrivial A] {N : Nat} (hN : 1 ≤ N) : (cyclo A N).Monic := by
  have := monic_X_pow_add_C (1 : A) (n := N) (by omega)
  simpa [cyclo] using this

theorem cyclo_natDegree [Nontrivial A] {N : Nat} : (cyclo A N).natDegree = N := by
  have := natDegree_X_pow_add_C (R := A) (n := N) (r := 1)
  simpa [cyclo] using this

/-- Multiplication by `X^s` modulo `X^N + 1` shifts the coefficients, changing the sign of those
that wrap around. -/
theorem shift_dvd (N s : Nat) (hs : s ≤ N) (f : Nat → A) :
    cyclo A N ∣ (∑ t ∈ range N, C (if t < s then -f (N - s + t) else f (t - s)) * X ^ t) -
      X ^ s * ∑ t ∈ range N, C (f t) * X ^ t := by
  refine ⟨-∑ u ∈ range s, C (f (N - s + u)) * X ^ u, ?_⟩
  obtain ⟨m, rfl⟩ : ∃ m, N = s + m := ⟨N - s, by omega⟩
  have hm : s + m - s = m := by omega
  rw [sum_range_add]
  conv_lhs => rw [Nat.add_comm s m, sum_range_add, Nat.add_comm m s]
  have h1 : ∑ t ∈ range s, C (if t < s then -f (s + m - s + t) else f (t - s)) * X ^ t =
      -∑ u ∈ range s, C (f (m + u)) * X ^ u := by
    rw [← sum_neg_distrib]
    apply sum_congr rfl
    intro t ht
    rw [if_pos (mem_range.mp ht), hm, C_neg, neg_mul]
  have h2 : ∑ t ∈ range m, C (if s + t < s then -f (s + m - s + (s + t)) else f (s + t - s)) *
      X ^ (s + t) = X ^ s * ∑ t ∈ range m, C (f t) * X ^ t := by
    rw [mul_sum]
    apply sum_congr rfl
    intro t _
    rw [if_neg (by omega), show s + t - s = t by omega, pow_add]
    ring
  have h3 : ∑ t ∈ range s, C (f (m + t)) * X ^ (m + t) =
      X ^ m * ∑ u ∈ range s, C (f (m + u)) * X ^ u := by
    rw [mul_sum]
    apply sum_congr rfl
    intro t _
    rw [pow_add]; ring
  rw [h1, h2, h3, hm]
  unfold cyclo
  rw [pow_add]
  ring

end general

variable {p : Nat}

/-- Decoding takes place modulo `X^slots - base`. -/
noncomputable abbrev decMod (p : Nat) (P : EncParams) : (ZMod p)[X] := X ^ P.slots - C (P.ecd.base : ZMod p)

/-- An integer polynomial modulo `p` and `X^slots - base`. -/
noncomputable def decHom (p : Nat) (P : EncParams) : ℤ[X] →+* AdjoinRoot (decMod p P) :=
  (AdjoinRoot.mk (decMod p P)).comp (mapRingHom (Int.castRingHom (ZMod p)))

theorem decHom_X_slots (P : EncParams) :
    decHom p P (X ^ P.slots) = AdjoinRoot.mk _ (C (P.ecd.base : ZMod p)) := by
  unfold decHom
  simp only [RingHom.comp_apply, coe_mapRingHom, Polynomial.map_pow, map_X]
  rw [AdjoinRoot.mk_eq_mk]

theorem decHom_cyclo {P : EncParams} (h : P.Good p) : decHom p P (cyclo ℤ P.N) = 0 := by
  unfold cyclo
  rw [map_add, map_one, h.deg, pow_mul, map_pow, decHom_X_slots, ← map_pow, ← C_pow, ← map_one
    (AdjoinRoot.mk (decMod p P)), ← map_add, ← C_1, ← C_add]
  have h1 : ((P.ecd.base ^ P.ecd.exp + 1 : Nat) : ZMod p) = 0 := by
    rw [← h.mod]; exact ZMod.natCast_self p
  push_cast at h1
  rw [h1]; simp

theorem sum_slots {M : Type} [AddCommMonoid M] (s e : Nat) (f : Nat → M) :
    ∑ t ∈ range (s * e), f t = ∑ i ∈ range s, ∑ j ∈ range e, f (j * s + i) := by
  rw [sum_comm]
  induction e with
  | zero => simp
  | succ e ih =>
    rw [Nat.mul_succ, sum_range_add, ih, sum_range_succ, Nat.mul_comm s e]

/-- What `DecodeTo` computes. -/
noncomputable def decoded (p : Nat) (P : EncParams) (z : List Int) : List (ZMod p) :=
  (List.range P.slots).map fun i => ∑ j ∈ range P.ecd.exp,
    (z.getD (j * P.slots + i) 0 : ZMod p) * (P.ecd.base : ZMod p) ^ j

theorem decHom_listPoly {P : EncParams} (z : List Int)
    (hz : z.length = P.slots * P.ecd.exp) :
    decHom p P (listPoly z) = AdjoinRoot.mk _ (listPoly (decoded p P z)) := by
  unfold decoded
  rw [listPoly_range]
  unfold listPoly
  rw [hz, map_sum, sum_slots, map_sum]
  apply sum_congr rfl
  intro i _
  rw [map_sum C, sum_mul, map_sum]
  apply sum_congr rfl
  intro j _
  rw [map_mul, pow_add, map_mul, Nat.mul_comm j, pow_mul, map_pow, decHom_X_slots]
  unfold decHom
  simp only [RingHom.comp_apply, coe_mapRingHom, map_X, map_mul, map_pow, eq_intCast]
  rw [Polynomial.map_intCast]
  simp only [map_intCast]
  ring

theorem decMod_monic {P : EncParams} (h : P.Good p) [Nontrivial (ZMod p)] : (decMod p P).Monic :=
  monic_X_pow_sub_C _ (by have := h.slots_pos; omega)

theorem Good_nontrivial {P : EncParams} (h : P.Good p) : Nontrivial (ZMod p) := by
  have : Fact (1 < p) := ⟨by
    rw [h.mod]; have := Nat.pow_pos (n := P.ecd.exp) (show 0 < P.ecd.base from h.base_pos); omega⟩
  infer_instance

theorem decoded_eq {P : EncParams} (h : P.Good p) (z : List Int) (u : List (ZMod p))
    (hz : z.length = P.N) (hu : u.length = P.slots)
    (he : decHom p P (listPoly z) = AdjoinRoot.mk _ (listPoly u)) : decoded p P z = u := by
  have := Good_nontrivial h
  refine listPoly_mk_inj (decMod_monic h) (n := P.slots) natDegree_X_pow_sub_C (by simp [decoded]) hu ?_
  rw [← he, decHom_listPoly z (by rw [hz, h.deg])]

/-- Congruent integer polynomials have the same image. -/
theorem decHom_congr {P : EncParams} (h : P.Good p) {f g : ℤ[X]} (hfg : cyclo ℤ P.N ∣ f - g) :
    decHom p P f = decHom p P g := by
  obtain ⟨k, hk⟩ := hfg
  rw [← sub_eq_zero, ← map_sub, hk, map_mul, decHom_cyclo h, zero_mul]

/-- The integer polynomial of a randomised encoding. -/
theorem randCoeff_dvd (P : EncParams) (hs : P.slots ≤ P.N) (row : List Nat) (s : List Int)
    (hr : row.length = P.N) (hsl : s.length = P.N) :
    cyclo ℤ P.N ∣ listPoly ((List.range P.N).map (randCoeff P row s)) -
      (listPoly (row.map (fun n : Nat => (n : Int))) +
        (X ^ P.slots - C (P.ecd.base : Int)) * listPoly s) := by
  have h := shift_dvd (A := ℤ) P.N P.slots hs (fun t => s.getD t 0)
  rw [listPoly_range]
  unfold listPoly
  rw [List.length_map, hr, hsl]
  convert h using 1
  unfold randCoeff
  rw [sub_mul, mul_sum (a := C (P.ecd.base : ℤ))]
  have e : ∀ (a b c d : ℤ[X]), a = b + (c - d) → ∀ x, a - (b + (x - d)) = c - x := by
    intro a b c d h x; rw [h]; ring
  apply e
  rw [← sum_sub_distrib, ← sum_add_distrib]
  apply sum_congr rfl
  intro t ht
  have ht' := mem_range.mp ht
  rw [show (row.map (fun n : Nat => (n : Int))).getD t 0 = (row.getD t 0 : Int) by
    rw [List.getD_eq_getElem _ _ (by simpa [hr] using ht'), List.getD_eq_getElem _ _ (by omega)]
    simp]
  simp only [C_add, C_sub, C_mul]
  ring

end Ringo
