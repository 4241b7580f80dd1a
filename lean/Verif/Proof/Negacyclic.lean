import Verif.Proof.JRing

/-! # Sizes of products modulo `X^N + 1` -/

namespace Ringo

open Polynomial Finset

theorem listPoly_cons {A : Type} [CommRing A] (a : A) (v : List A) : listPoly (a :: v) = C a + X * listPoly v := by
  ext i
  rw [listPoly_coeff, coeff_add]
  cases i with
  | zero => simp
  | succ i => simp [coeff_X_mul, coeff_C_succ, listPoly_coeff]

theorem listPoly_append_one {A : Type} [CommRing A] (v : List A) (a : A) :
    listPoly (v ++ [a]) = listPoly v + C a * X ^ v.length := by
  induction v with
  | nil => simp [listPoly]
  | cons b v ih =>
    rw [List.cons_append, listPoly_cons, ih, listPoly_cons, List.length_cons, pow_succ]
    ring

/-- `f` is congruent to a polynomial of degree below `N` with coefficients of size at most `α`. -/
def RedTo (N : Nat) (α : Int) (f : ℤ[X]) : Prop :=
  ∃ v : List Int, v.length = N ∧ (∀ i, |v.getD i 0| ≤ α) ∧ cyclo ℤ N ∣ f - listPoly v

theorem RedTo.list {N : Nat} {α : Int} {v : List Int} (hl : v.length = N) (h : ∀ i, |v.getD i 0| ≤ α) :
    RedTo N α (listPoly v) := ⟨v, hl, h, by simp⟩

theorem RedTo.X_mul {N : Nat} (hN : 1 ≤ N) {α : Int} {f : ℤ[X]} (h : RedTo N α f) : RedTo N α (X * f) := by
  obtain ⟨v, hl, hv, hd⟩ := h
  obtain ⟨u, a, rfl⟩ : ∃ u a, v = u ++ [a] := by
    have : v ≠ [] := by rintro rfl; simp at hl; omega
    exact ⟨v.dropLast, v.getLast this, (List.dropLast_append_getLast this).symm⟩
  have hu : u.length + 1 = N := by simpa using hl
  refine ⟨-a :: u, by simpa using hu, ?_, ?_⟩
  · intro i
    cases i with
    | zero =>
      have := hv u.length
      rw [List.getD_cons_zero, abs_neg]
      simpa using this
    | succ i =>
      have := hv i
      rw [List.getD_cons_succ]
      by_cases hi : i < u.length
      · rwa [List.getD_append _ _ _ _ hi] at this
      · rw [List.getD_eq_default _ _ (by omega)]
        simpa using (abs_nonneg _).trans this
  · have e : X * f - listPoly (-a :: u) = X * (f - listPoly (u ++ [a])) + C a * cyclo ℤ N := by
      rw [listPoly_cons, listPoly_append_one, ← hu, C_neg]
      unfold cyclo
      ring
    rw [e]
    exact dvd_add (Dvd.dvd.mul_left hd _) (Dvd.intro_left _ rfl)

theorem RedTo.mono {N : Nat} {α β : Int} {f : ℤ[X]} (h : RedTo N α f) (hab : α ≤ β) : RedTo N β f := by
  obtain ⟨v, hl, hv, hd⟩ := h
  exact ⟨v, hl, fun i => (hv i).trans hab, hd⟩

theorem RedTo.congr {N : Nat} {α : Int} {f g : ℤ[X]} (h : RedTo N α f) (hg : cyclo ℤ N ∣ g - f) : RedTo N α g := by
  obtain ⟨v, hl, hv, hd⟩ := h
  refine ⟨v, hl, hv, ?_⟩
  have : g - listPoly v = (g - f) + (f - listPoly v) := by ring
  rw [this]
  exact dvd_add hg hd

theorem RedTo.add {N : Nat} {α β : Int} {f g : ℤ[X]} (h : RedTo N α f) (h' : RedTo N β g) : RedTo N (α + β) (f + g) := by
  obtain ⟨v, hl, hv, hd⟩ := h
  obtain ⟨w, hl', hw, hd'⟩ := h'
  refine ⟨List.zipWith (· + ·) v w, by simp [hl, hl'], fun i => ?_, ?_⟩
  · rw [getD_zipWith (· + ·) v w (by rw [hl, hl']) i (by simp)]
    exact (abs_add_le _ _).trans (add_le_add (hv i) (hw i))
  · rw [listPoly_add v w (by rw [hl, hl'])]
    have : f + g - (listPoly v + listPoly w) = (f - listPoly v) + (g - listPoly w) := by ring
    rw [this]
    exact dvd_add hd hd'

theorem RedTo.smul {N : Nat} {α : Int} {f : ℤ[X]} (h : RedTo N α f) (c : Int) : RedTo N (|c| * α) (C c * f) := by
  obtain ⟨v, hl, hv, hd⟩ := h
  refine ⟨v.map (· * c), by simp [hl], fun i => ?_, ?_⟩
  · have : (v.map (· * c)).getD i 0 = v.getD i 0 * c := by
      rw [List.getD_eq_getElem?_getD, List.getD_eq_getElem?_getD, List.getElem?_map]
      cases v[i]? <;> simp
    rw [this, abs_mul, mul_comm]
    exact mul_le_mul_of_nonneg_left (hv i) (abs_nonneg _)
  · rw [listPoly_smul, ← mul_sub]
    exact Dvd.dvd.mul_left hd _

theorem RedTo.zero (N : Nat) : RedTo N 0 0 := by
  refine ⟨List.replicate N 0, by simp, fun i => ?_, ?_⟩
  · rw [List.getD_eq_getElem?_getD, List.getElem?_replicate]; split_ifs <;> simp
  · have : listPoly (List.replicate N (0 : Int)) = 0 := by
      ext i
      rw [listPoly_coeff, List.getD_eq_getElem?_getD, List.getElem?_replicate]; split_ifs <;> simp
    rw [this]; simp

/-- The product with a polynomial of given coefficients. -/
theorem RedTo.mul {N : Nat} (hN : 1 ≤ N) {α : Int} (s : List Int) : ∀ {f : ℤ[X]}, RedTo N α f →
    RedTo N ((s.map (|·|)).sum * α) (f * listPoly s) := by
  induction s with
  | nil =>
    intro f _
    have : listPoly ([] : List Int) = 0 := by simp [listPoly]
    rw [this, mul_zero]
    simpa using RedTo.zero N
  | cons a s ih =>
    intro f h
    have h1 := h.smul a
    have h2 := ih (h.X_mul hN)
    have h3 := h1.add h2
    rw [listPoly_cons, List.map_cons, List.sum_cons, add_mul]
    rw [show f * (C a + X * listPoly s) = C a * f + X * f * listPoly s by ring]
    exact h3

theorem cyclo_dvd_list {N : Nat} (hN : 1 ≤ N) {v w : List Int} (hv : v.length = N) (hw : w.length = N)
    (h : cyclo ℤ N ∣ listPoly v - listPoly w) : v = w := by
  have hm : (cyclo ℤ N).Monic := cyclo_monic hN
  refine listPoly_mk_inj hm (n := N) ?_ hv hw ?_
  · unfold cyclo
    rw [show (1 : ℤ[X]) = C 1 from rfl]
    exact natDegree_X_pow_add_C
  · rw [AdjoinRoot.mk_eq_mk]; exact h

theorem redTo_exists {N : Nat} (hN : 1 ≤ N) (f : ℤ[X]) : ∃ v : List Int, v.length = N ∧ cyclo ℤ N ∣ f - listPoly v := by
  have hm : (cyclo ℤ N).Monic := cyclo_monic hN
  have hdeg : (cyclo ℤ N).degree = N := by
    unfold cyclo
    rw [show (1 : ℤ[X]) = C 1 from rfl]
    exact degree_X_pow_add_C hN _
  refine ⟨(List.range N).map (f %ₘ cyclo ℤ N).coeff, by simp, ?_⟩
  have : listPoly ((List.range N).map (f %ₘ cyclo ℤ N).coeff) = f %ₘ cyclo ℤ N := by
    ext i
    rw [listPoly_coeff, List.getD_eq_getElem?_getD]
    by_cases hi : i < N
    · rw [List.getElem?_eq_getElem (by simpa using hi)]; simp
    · rw [List.getElem?_eq_none (by simp; omega)]
      symm
      apply coeff_eq_zero_of_degree_lt
      refine (degree_modByMonic_lt f hm).trans_le ?_
      rw [hdeg]
      exact_mod_cast (not_lt.1 hi)
  rw [this]
  exact ⟨f /ₘ cyclo ℤ N, by rw [sub_eq_iff_eq_add, add_comm]; exact (modByMonic_add_div f (cyclo ℤ N)).symm⟩

/-- If `Q f` is congruent to a small polynomial modulo `p Q`, then `f` is congruent to one modulo `p`. -/
theorem RedTo.div {N : Nat} (hN : 1 ≤ N) {α Q p : Int} (hQ : 0 < Q) {f k g : ℤ[X]}
    (hf : cyclo ℤ N ∣ C Q * f - (g + C (p * Q) * k)) (hg : RedTo N α g) :
    ∃ w : List Int, w.length = N ∧ (∀ i, Q * |w.getD i 0| ≤ α) ∧ ∃ k', cyclo ℤ N ∣ f - (listPoly w + C p * k') := by
  obtain ⟨v, v1, v2, v3⟩ := hg
  obtain ⟨F, f1, f2⟩ := redTo_exists hN f
  obtain ⟨κ, k1, k2⟩ := redTo_exists hN k
  have hall : cyclo ℤ N ∣ listPoly (F.map (· * Q)) - listPoly (List.zipWith (· + ·) v (κ.map (· * (p * Q)))) := by
    rw [listPoly_smul, listPoly_add _ _ (by simp [v1, k1]), listPoly_smul]
    have : C Q * listPoly F - (listPoly v + C (p * Q) * listPoly κ) =
        (C Q * f - (g + C (p * Q) * k)) - C Q * (f - listPoly F) + (g - listPoly v) +
          C (p * Q) * (k - listPoly κ) := by ring
    rw [this]
    exact dvd_add (dvd_add (dvd_sub hf (Dvd.dvd.mul_left f2 _)) v3) (Dvd.dvd.mul_left k2 _)
  have heq := cyclo_dvd_list hN (by simp [f1]) (by simp [v1, k1]) hall
  have hmap : ∀ (l : List Int) (c : Int) (i : Nat), (l.map (· * c)).getD i 0 = l.getD i 0 * c := by
    intro l c i
    rw [List.getD_eq_getElem?_getD, List.getD_eq_getElem?_getD, List.getElem?_map]
    cases l[i]? <;> simp
  have hco : ∀ i, F.getD i 0 * Q = v.getD i 0 + κ.getD i 0 * (p * Q) := by
    intro i
    rw [← hmap, heq, getD_zipWith (· + ·) _ _ (by simp [v1, k1]) i (by simp), hmap]
  refine ⟨List.zipWith (· - ·) F (κ.map (· * p)), by simp [f1, k1], fun i => ?_, listPoly κ, ?_⟩
  · rw [getD_zipWith (· - ·) _ _ (by simp [f1, k1]) i (by simp), hmap]
    have h1 : v.getD i 0 = Q * (F.getD i 0 - κ.getD i 0 * p) := by linear_combination - hco i
    have h2 := v2 i
    rwa [h1, abs_mul, abs_of_pos hQ] at h2
  · rw [listPoly_sub _ _ (by simp [f1, k1]), listPoly_smul]
    have : f - (listPoly F - C p * listPoly κ + C p * listPoly κ) = f - listPoly F := by ring
    rw [this]; exact f2

end Ringo
