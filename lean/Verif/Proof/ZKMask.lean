import Verif.Proof.Complete2

/-!
# Masks and their effect on quotient and remainder
-/

namespace Ringo

open Finset Polynomial

set_option linter.unusedSectionVars false

section
variable {p : Nat} [Fact p.Prime] {cp : Compilation (ZMod p)} {K Ke : Nat} {g ge : ZMod p}

/-- The mask with coefficients `r`: a remainder of degree below `N` and a multiple of `X ^ N - 1`. -/
noncomputable def maskPoly (N maskRank : Nat) (r : Nat → ZMod p) : (ZMod p)[X] :=
  rPoly r N + (∑ j ∈ range (maskRank - N), C (r (N + j)) * X ^ j) * (X ^ N - 1)

theorem GoodCp.sumCheckMask_poly (h : GoodCp K Ke g ge cp) (maskRank : Nat) (h1 : 2 ^ K ≤ maskRank)
    (h2 : maskRank ≤ 2 ^ Ke) (r : Nat → ZMod p) :
    ∃ mask, Ringo.sumCheckMask cp.ev (2 ^ K) maskRank r = .ok (⟨mask, false⟩, r 0) ∧
      mask.length = 2 ^ Ke ∧ (∀ i, maskRank ≤ i → mask.getD i 0 = 0) ∧
      listPoly mask = maskPoly (2 ^ K) maskRank r := by
  have hN := Nat.two_pow_pos K
  have hl := h.lt
  obtain ⟨m1, a1, a2, a3, a4⟩ := forRange_spec
    (f := fun (mask : List (ZMod p)) i => setIdx mask i (r i)) 0 (2 ^ K) (Nat.zero_le _)
    (fun i m => m.length = 2 ^ Ke ∧ (∀ j < i, m.getD j 0 = r j) ∧ (∀ j, i ≤ j → m.getD j 0 = 0))
    (List.replicate (2 ^ Ke) 0) ⟨by simp, by simp, by
      intro j _; rw [List.getD_eq_getElem?_getD, List.getElem?_replicate]; split <;> rfl⟩ (by
      rintro i m _ hi ⟨b1, b2, b3⟩
      have hil : i < m.length := by omega
      refine ⟨m.set i (r i), setIdx_ok hil, by simpa using b1, ?_, ?_⟩
      · intro j hj
        rw [getD_set _ _ _ _ hil]
        split
        · subst_vars; rfl
        · exact b2 j (by omega)
      · intro j hj
        rw [getD_set _ _ _ _ hil, if_neg (by omega)]
        exact b3 j (by omega))
  have hm0 : 0 < m1.length := by omega
  have hlow : listPoly m1 = rPoly r (2 ^ K) := by
    ext k
    rw [listPoly_coeff, rPoly, finsetSum_coeff]
    simp only [coeff_C_mul, coeff_X_pow]
    by_cases hk : k < 2 ^ K
    · rw [a3 k hk, Finset.sum_eq_single k]
      · simp
      · intro b _ hb; rw [if_neg (Ne.symm hb), mul_zero]
      · intro hb; exact absurd (mem_range.2 hk) hb
    · rw [a4 k (by omega), Finset.sum_eq_zero]
      intro b hb
      rw [if_neg (by have := mem_range.1 hb; omega), mul_zero]
  obtain ⟨m2, b1, b2, b3, b5⟩ := forRange_spec
    (f := fun (mask : List (ZMod p)) i => (do
      let mask ← setIdx mask i (r i)
      let a ← idx mask (i - 2 ^ K)
      let b ← idx mask i
      setIdx mask (i - 2 ^ K) (a - b) : Go (List (ZMod p)))) (2 ^ K) maskRank h1
    (fun i m => m.length = 2 ^ Ke ∧ (∀ j, i ≤ j → m.getD j 0 = 0) ∧
      listPoly m = listPoly m1 + (∑ j ∈ range (i - 2 ^ K), C (r (2 ^ K + j)) * X ^ j) * (X ^ 2 ^ K - 1))
    m1 ⟨a2, a4, by simp⟩ (by
      rintro i m hi hi' ⟨c1, c2, c3⟩
      have hil : i < m.length := by omega
      have hl1 : (m.set i (r i)).length = m.length := by simp
      have hik : i - 2 ^ K < (m.set i (r i)).length := by omega
      have hii : i < (m.set i (r i)).length := by omega
      refine ⟨(m.set i (r i)).set (i - 2 ^ K) ((m.set i (r i))[i - 2 ^ K] - (m.set i (r i))[i]),
        ?_, by simp [c1], ?_, ?_⟩
      · rw [setIdx_ok hil, go_bind_ok, idx_ok hik, go_bind_ok, idx_ok hii, go_bind_ok, setIdx_ok hik]
      · intro j hj
        rw [getD_set _ _ _ _ hik, if_neg (by omega), getD_set _ _ _ _ hil, if_neg (by omega)]
        exact c2 j (by omega)
      · rw [show i + 1 - 2 ^ K = (i - 2 ^ K) + 1 by omega, sum_range_succ, add_mul, ← add_assoc, ← c3,
          show 2 ^ K + (i - 2 ^ K) = i by omega,
          listPoly_set _ _ _ hik, listPoly_set _ _ _ hil, getD_eq hik, getD_eq hii]
        simp only [getD_set _ _ _ _ hil]
        rw [c2 i le_rfl, if_pos trivial]
        have e : (X : (ZMod p)[X]) ^ i = X ^ (i - 2 ^ K) * X ^ 2 ^ K := by
          rw [← pow_add]; congr 1; omega
        rw [e]
        simp only [sub_zero, C_sub]
        ring)
  refine ⟨m2, ?_, b2, b3, ?_⟩
  · unfold Ringo.sumCheckMask
    simp only [newPoly, h.ev.rank]
    rw [a1, go_bind_ok, idx_ok hm0, go_bind_ok, b1, go_bind_ok, getD_eq hm0, a3 0 hN]
    rfl
  · rw [b5, hlow]; rfl

/-- Changing coefficients `N` and `1` of the mask. -/
theorem maskPoly_shift {N maskRank : Nat} (hN : 1 < N) (hm : N < maskRank) (r r' : Nat → ZMod p)
    (α β : ZMod p)
    (h : ∀ j < maskRank, r' j = r j + (if j = N then α else if j = 1 then β else 0)) :
    maskPoly N maskRank r' = maskPoly N maskRank r + C α * (X ^ N - 1) + C β * X := by
  unfold maskPoly rPoly
  have e1 : ∑ i ∈ range N, C (r' i) * (X : (ZMod p)[X]) ^ i = (∑ i ∈ range N, C (r i) * X ^ i) + C β * X := by
    have : ∀ i ∈ range N, C (r' i) * (X : (ZMod p)[X]) ^ i = C (r i) * X ^ i + (if i = 1 then C β * X else 0) := by
      intro i hi
      have hi := mem_range.1 hi
      rw [h i (by omega), if_neg (by omega)]
      split
      · subst_vars; rw [C_add]; ring
      · simp
    rw [sum_congr rfl this, sum_add_distrib, sum_ite_eq' (range N) 1, if_pos (mem_range.2 hN)]
  have e2 : ∑ j ∈ range (maskRank - N), C (r' (N + j)) * (X : (ZMod p)[X]) ^ j =
      (∑ j ∈ range (maskRank - N), C (r (N + j)) * X ^ j) + C α := by
    have : ∀ i ∈ range (maskRank - N), C (r' (N + i)) * (X : (ZMod p)[X]) ^ i =
        C (r (N + i)) * X ^ i + (if i = 0 then C α else 0) := by
      intro i hi
      have hi := mem_range.1 hi
      rw [h (N + i) (by omega)]
      by_cases h0 : i = 0
      · subst h0; simp
      · rw [if_neg (by omega), if_neg (by omega), if_neg h0]; simp
    rw [sum_congr rfl this, sum_add_distrib, sum_ite_eq' (range _) 0, if_pos (mem_range.2 (by omega))]
  rw [e1, e2]; ring

/-! ## Quotient and remainder -/

/-- The quotient by `X ^ N - 1`. -/
noncomputable def quoV (N : Nat) (f : (ZMod p)[X]) : (ZMod p)[X] := f /ₘ (X ^ N - 1)

/-- The remainder without its constant term, divided by `X`. -/
noncomputable def remV (N : Nat) (f : (ZMod p)[X]) : (ZMod p)[X] := divX (f %ₘ (X ^ N - 1))

theorem quoRem_unique {N : Nat} (hN : 0 < N) (f q r : (ZMod p)[X]) (hr : r.degree < (N : WithBot ℕ))
    (h : f = q * (X ^ N - 1) + r) : quoV N f = q ∧ f %ₘ (X ^ N - 1) = r := by
  have := div_modByMonic_unique q r (X_pow_sub_one_monic N hN.ne') (f := f)
    ⟨by rw [h]; ring, by rw [X_pow_sub_one_degree N hN]; exact hr⟩
  exact this

theorem divByMonic_add' {q : (ZMod p)[X]} (hq : q.Monic) (f f' : (ZMod p)[X]) :
    (f + f') /ₘ q = f /ₘ q + f' /ₘ q := by
  have h := div_modByMonic_unique (f /ₘ q + f' /ₘ q) (f %ₘ q + f' %ₘ q) hq (f := f + f')
    ⟨by
      have h1 := modByMonic_add_div f q
      have h2 := modByMonic_add_div f' q
      calc _ = (f %ₘ q + q * (f /ₘ q)) + (f' %ₘ q + q * (f' /ₘ q)) := by ring
        _ = _ := by rw [h1, h2],
     lt_of_le_of_lt (degree_add_le _ _) (max_lt (degree_modByMonic_lt _ hq) (degree_modByMonic_lt _ hq))⟩
  exact h.1

theorem quoV_add {N : Nat} (hN : 0 < N) (f f' : (ZMod p)[X]) : quoV N (f + f') = quoV N f + quoV N f' :=
  divByMonic_add' (X_pow_sub_one_monic N hN.ne') f f'

theorem remV_add {N : Nat} (f f' : (ZMod p)[X]) : remV N (f + f') = remV N f + remV N f' := by
  unfold remV; rw [add_modByMonic, divX_add]

theorem quoV_shift {N : Nat} (hN : 1 < N) (α β : ZMod p) :
    quoV N (C α * (X ^ N - 1) + C β * X) = C α ∧ remV N (C α * (X ^ N - 1) + C β * X) = C β := by
  have hd : (C β * X : (ZMod p)[X]).degree < (N : WithBot ℕ) := by
    refine lt_of_le_of_lt (degree_C_mul_X_le β) ?_
    exact_mod_cast hN
  obtain ⟨h1, h2⟩ := quoRem_unique (by omega) _ _ _ hd (rfl : C α * (X ^ N - 1) + C β * X = _)
  refine ⟨h1, ?_⟩
  unfold remV
  rw [h2]
  ext k
  rw [coeff_divX, coeff_C_mul, coeff_X, coeff_C]
  by_cases hk : k = 0
  · subst hk; simp
  · rw [if_neg (by omega), if_neg hk, mul_zero]

/-- What the provers' identities say about the two polynomials. -/
theorem quoRem_of_split {N : Nat} (hN : 0 < N) {f q lo : (ZMod p)[X]} {c : ZMod p}
    (hlo : lo.degree < ((N - 1 : Nat) : WithBot ℕ)) (h : f = q * (X ^ N - 1) + X * lo + C c) :
    q = quoV N f ∧ lo = remV N f := by
  have hd : (X * lo + C c).degree < (N : WithBot ℕ) := by
    rw [degree_lt_iff_coeff_zero]
    intro m hm
    have hm : N ≤ m := by exact_mod_cast hm
    obtain ⟨m, rfl⟩ : ∃ m', m = m' + 1 := ⟨m - 1, by omega⟩
    rw [coeff_add, coeff_X_mul, coeff_C_succ, add_zero]
    refine coeff_eq_zero_of_degree_lt (lt_of_lt_of_le hlo ?_)
    exact_mod_cast (by omega : N - 1 ≤ m)
  obtain ⟨h1, h2⟩ := quoRem_unique hN f q (X * lo + C c) hd (by rw [h]; ring)
  refine ⟨h1.symm, ?_⟩
  unfold remV
  rw [h2]
  ext k
  rw [coeff_divX, coeff_add, coeff_X_mul, coeff_C_succ, add_zero]

end

end Ringo
