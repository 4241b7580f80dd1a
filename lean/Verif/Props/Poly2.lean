import Verif.Proof.PolyAlg

/-!
# C19 - C22: division by the vanishing polynomial, evaluation, modulus switching, marshalling
-/

namespace Ringo

open Polynomial

theorem listPoly_set {F : Type} [CommRing F] (v : List F) (i : Nat) (x : F) (hi : i < v.length) :
    listPoly (v.set i x) = listPoly v + C (x - v.getD i 0) * X ^ i := by
  ext n
  rw [listPoly_coeff, coeff_add, listPoly_coeff, coeff_C_mul_X_pow, List.getD_eq_getElem?_getD,
    List.getElem?_set]
  by_cases h : i = n
  · subst h; rw [if_pos rfl, if_pos hi, if_pos rfl]; simp
  · rw [if_neg h, if_neg (Ne.symm h), add_zero, List.getD_eq_getElem?_getD]

/-! ## C19 -/

/-- **C19**.  For every rank divisible by eight (see C15 for the others), every `N ≥ 1` and every
`p` in coefficient form, `QuoRemByVanishing` returns the quotient and the remainder of the
Euclidean division of `p` by `X^N - 1`, both in coefficient form. -/
theorem C19_quoRem {F : Type} [Field F] (ev : Evaluator F) (h8 : ev.rank % 8 = 0) (N : Nat)
    (hN : 1 ≤ N) (v : List F) (hv : v.length = ev.rank) :
    ∃ quo rem, ev.quoRemByVanishing ⟨v, false⟩ N = .ok (⟨quo, false⟩, ⟨rem, false⟩) ∧
      quo.length = ev.rank ∧ rem.length = ev.rank ∧
      listPoly quo = listPoly v /ₘ (X ^ N - 1) ∧ listPoly rem = listPoly v %ₘ (X ^ N - 1) ∧
      (∀ j, N ≤ j → j < ev.rank → rem[j]? = some 0) := by
  have hmonic : (X ^ N - 1 : F[X]).Monic := by
    have := monic_X_pow_sub_C (1 : F) (n := N) (by omega); rwa [C_1] at this
  have hdeg : (X ^ N - 1 : F[X]).degree = (N : WithBot ℕ) := by
    have := degree_X_pow_sub_C (n := N) (by omega) (1 : F); rwa [C_1] at this
  set I : Nat → List F × List F → Prop := fun i s => s.1.length = ev.rank ∧ s.2.length = ev.rank ∧
    listPoly v = listPoly s.1 * (X ^ N - 1) + listPoly s.2 ∧ ∀ j, i ≤ j → s.2.getD j 0 = 0 with hI
  have h0 : I ev.rank (List.replicate ev.rank 0, v) := by
    refine ⟨by simp, hv, ?_, ?_⟩
    · have : listPoly (List.replicate ev.rank (0 : F)) = 0 := by
        ext n; rw [listPoly_coeff, List.getD_eq_getElem?_getD, List.getElem?_replicate]
        split <;> simp
      rw [this, zero_mul, zero_add]
    · intro j hj
      simp only
      rw [List.getD_eq_getElem?_getD, List.getElem?_eq_none (by omega)]; rfl
  have key : ∃ s, forDown ev.rank N (List.replicate ev.rank (0 : F), v) (fun (s : List F × List F) i => do
      let q ← idx s.1 (i - N)
      let r ← idx s.2 i
      let quo ← setIdx s.1 (i - N) (q + r)
      let r0 ← idx s.2 (i - N)
      let r ← idx s.2 i
      let rem ← setIdx s.2 (i - N) (r0 + r)
      let rem ← setIdx rem i 0
      pure (quo, rem)) = .ok s ∧ I N s := by
    by_cases hle : N ≤ ev.rank
    · apply forDown_spec _ _ hle I _ h0
      rintro i ⟨a, b⟩ hi1 hi2 ⟨s1, s2, s3, s4⟩
      simp only at s1 s2 s3 s4
      have e1 : i - N < a.length := by omega
      have e2 : i < b.length := by omega
      have e3 : i - N < b.length := by omega
      simp only [idx_ok e1, idx_ok e2, idx_ok e3, go_bind_ok, setIdx_ok e1, setIdx_ok e3]
      rw [setIdx_ok (by simpa using e2)]
      have hbi : b[i] = b.getD i 0 := by simp [e2]
      have hbn : b[i - N] = b.getD (i - N) 0 := by simp [e3]
      have han : a[i - N] = a.getD (i - N) 0 := by simp [e1]
      refine ⟨_, rfl, by simpa using s1, by simpa using s2, ?_, ?_⟩
      · simp only
        rw [listPoly_set _ i _ (by simpa using e2), listPoly_set b _ _ e3, listPoly_set a _ _ e1,
          s3]
        have hne : (b.set (i - N) (b[i - N] + b[i])).getD i 0 = b.getD i 0 := by
          rw [List.getD_eq_getElem?_getD, List.getElem?_set_ne (by omega), List.getD_eq_getElem?_getD]
        rw [hne, han, hbn, hbi]
        have hX : (X : F[X]) ^ i = X ^ (i - N) * X ^ N := by rw [← pow_add]; congr 1; omega
        rw [hX]
        simp only [add_sub_cancel_left, zero_sub, C_neg]
        ring
      · intro j hj
        simp only
        rw [List.getD_eq_getElem?_getD, List.getElem?_set]
        by_cases hji : i = j
        · rw [if_pos hji]; split <;> simp
        · rw [if_neg hji, List.getElem?_set_ne (by omega), ← List.getD_eq_getElem?_getD]
          exact s4 j (by omega)
    · refine ⟨_, ?_, h0.1, h0.2.1, h0.2.2.1, fun j hj => h0.2.2.2 j (by omega)⟩
      unfold forDown
      rw [Nat.sub_eq_zero_of_le (by omega)]; rfl
  obtain ⟨⟨a, b⟩, k1, k2, k3, k4, k5⟩ := key
  simp only at k2 k3 k4 k5
  have hu : (listPoly v /ₘ (X ^ N - 1) = listPoly a) ∧ listPoly v %ₘ (X ^ N - 1) = listPoly b := by
    apply div_modByMonic_unique _ _ hmonic
    refine ⟨?_, ?_⟩
    · rw [k4]; ring
    · rw [hdeg, degree_lt_iff_coeff_zero]
      intro m hm
      rw [listPoly_coeff]; exact k5 m hm
  refine ⟨a, b, ?_, k2, k3, hu.1.symm, hu.2.symm, ?_⟩
  · unfold Evaluator.quoRemByVanishing
    rw [if_neg (by simpa using hv), if_neg (by simp)]
    unfold Poly.copyFrom newPoly
    rw [copy8_eq _ _ (by simpa using h8) (by simpa using hv)]
    simp only [go_bind_ok, go_pure]
    simp only [go_pure] at k1
    rw [k1]; rfl
  · intro j h1 h2
    exact (getElem?_of_getD (by omega)).2 (k5 j h1)

/-- Non-vacuity: `X^5 = X * (X^4 - 1) + X`. -/
example : ∃ quo rem, (⟨8, ⟨8, [], [], 0⟩⟩ : Evaluator ℚ).quoRemByVanishing
    ⟨[0, 0, 0, 0, 0, 1, 0, 0], false⟩ 4 = .ok (⟨quo, false⟩, ⟨rem, false⟩) ∧ rem[4]? = some 0 := by
  obtain ⟨q, r, h1, -, -, -, -, h2⟩ := C19_quoRem (⟨8, ⟨8, [], [], 0⟩⟩ : Evaluator ℚ) rfl 4
    (by norm_num) [0, 0, 0, 0, 0, 1, 0, 0] rfl
  exact ⟨q, r, h1, h2 4 le_rfl (by norm_num)⟩

/-! ## C20 -/

/-- **C20**.  In coefficient form `Evaluate` returns `Σ p_i x^i`; in NTT form it panics. -/
theorem C20_evaluate {F : Type} [CommRing F] (v : List F) (x : F) :
    (⟨v, false⟩ : Poly F).evaluate x = .ok (∑ i ∈ Finset.range v.length, v.getD i 0 * x ^ i) ∧
    (⟨v, true⟩ : Poly F).evaluate x = .error .panic := by
  refine ⟨?_, rfl⟩
  have key := forDown_spec (f := fun (z : F) i => (do
    let z := z * x
    let c ← idx v i
    pure (z + c) : Go F)) v.length 0 (by omega)
    (fun i z => z * x ^ i = ∑ j ∈ Finset.Ico i v.length, v.getD j 0 * x ^ j) 0 (by simp) (by
      intro i z _ hi hz
      refine ⟨z * x + v[i], by simp only [idx_ok hi, go_bind_ok]; rfl, ?_⟩
      have hvi : v[i] = v.getD i 0 := by simp [hi]
      rw [Finset.sum_eq_sum_Ico_succ_bot hi, ← hz, hvi]
      ring)
  obtain ⟨z, h1, h2⟩ := key
  unfold Poly.evaluate
  rw [if_neg (by simp)]
  rw [pow_zero, mul_one] at h2
  rw [h1, h2, Finset.range_eq_Ico]

/-- Non-vacuity: `1 + 2*10 + 3*100`. -/
example : (⟨[1, 2, 3], false⟩ : Poly ℤ).evaluate 10 = .ok 321 := by
  rw [(C20_evaluate _ _).1]; decide +kernel

/-! ## C21 -/

theorem modSwitch_round (Q q c : Int) (hQ : 0 < Q) :
    ∃ n : Int, modSwitchCoeff Q q c = n % q ∧ 2 * |n * Q - c * q| ≤ Q ∧
      (Q ∣ 2 * (c * q) - Q → n * Q ≤ c * q) := by
  unfold modSwitchCoeff
  have h1 := Int.emod_nonneg (c * q) (b := Q) (by omega)
  have h2 := Int.emod_lt_of_pos (c * q) hQ
  have h3 := Int.emod_def (c * q) Q
  by_cases hh : (c * q).emod Q > Q / 2
  · refine ⟨c * q / Q + 1, ?_, ?_, ?_⟩
    · simp only [hh, if_true]
      have e : (c * q - ((c * q).emod Q - Q)) = (c * q / Q + 1) * Q := by
        have : (c * q).emod Q = c * q - Q * (c * q / Q) := h3
        rw [this]; ring
      rw [e, Int.mul_ediv_cancel _ (by omega)]; rfl
    · have hh' : c * q % Q > Q / 2 := hh
      have e : (c * q / Q + 1) * Q - c * q = Q - c * q % Q := by rw [h3]; ring
      rw [e, abs_of_nonneg (by omega)]; omega
    · have hh' : c * q % Q > Q / 2 := hh
      rintro ⟨k, hk⟩
      exfalso
      have e : 2 * (c * q % Q) = Q * (k + 1 - 2 * (c * q / Q)) := by rw [h3]; linarith
      set m := k + 1 - 2 * (c * q / Q) with hm
      have m1 : 1 < m := by
        by_contra hc
        have : Q * m ≤ Q * 1 := Int.mul_le_mul_of_nonneg_left (by omega) (by omega)
        omega
      have : Q * 2 ≤ Q * m := Int.mul_le_mul_of_nonneg_left (by omega) (by omega)
      omega
  · refine ⟨c * q / Q, ?_, ?_, ?_⟩
    · simp only [hh, if_false]
      have e : (c * q - (c * q).emod Q) = (c * q / Q) * Q := by
        have : (c * q).emod Q = c * q - Q * (c * q / Q) := h3
        rw [this]; ring
      rw [e, Int.mul_ediv_cancel _ (by omega)]; rfl
    · have hh' : ¬ c * q % Q > Q / 2 := hh
      have e : (c * q / Q) * Q - c * q = -(c * q % Q) := by rw [h3]; ring
      rw [e, abs_neg, abs_of_nonneg h1]; omega
    · intro _
      have e : (c * q / Q) * Q - c * q = -(c * q % Q) := by rw [h3]; ring
      omega

/-- **C21**.  For every modulus `Q ≥ 1` and any integers, `ModSwitchTo` succeeds, returns a
coefficient-form polynomial, and entry `i` is the residue of an integer `n` with
`|n - c_i q / Q| ≤ 1/2` (ties rounded down). -/
theorem C21_modSwitch (q rank : Nat) (Q : Int) (hQ : 0 < Q) (pOut : Poly (ZMod q))
    (ho : pOut.coeffs.length = rank) (cs : List Int) (hc : cs.length = rank) :
    ∃ w, modSwitchTo rank q pOut cs Q = .ok ⟨w, false⟩ ∧ w.length = rank ∧
      ∀ (i : Nat) (c : Int), cs[i]? = some c → ∃ n : Int, w[i]? = some (n : ZMod q) ∧ 2 * |n * Q - c * q| ≤ Q ∧
        (Q ∣ 2 * (c * q) - Q → n * Q ≤ c * q) := by
  have key := forRange_spec (f := fun (out : List (ZMod q)) i => (do
      let c ← idx cs i
      if Q = 0 then goPanic
      else setIdx out i ((modSwitchCoeff Q q c : Int) : ZMod q) : Go (List (ZMod q)))) 0 rank
    (by omega) (fun i o => o.length = rank ∧ ∀ j < i, ∀ c, cs[j]? = some c →
      o[j]? = some ((modSwitchCoeff Q q c : Int) : ZMod q)) pOut.coeffs ⟨ho, fun j h => by omega⟩ (by
      rintro i o - hi ⟨h1, h2⟩
      have hic : i < cs.length := by omega
      refine ⟨o.set i ((modSwitchCoeff Q q cs[i] : Int) : ZMod q), ?_, by simpa using h1, ?_⟩
      · simp only [idx_ok hic, go_bind_ok]
        rw [if_neg (by omega), setIdx_ok (by omega)]
      · intro j hj c hcj
        rw [List.getElem?_set]
        by_cases hij : i = j
        · subst hij
          rw [if_pos rfl, if_pos (by omega)]
          rw [List.getElem?_eq_getElem hic] at hcj
          cases hcj; rfl
        · rw [if_neg hij]; exact h2 j (by omega) c hcj)
  obtain ⟨w, h1, h2, h3⟩ := key
  refine ⟨w, ?_, h2, ?_⟩
  · unfold modSwitchTo
    rw [if_neg (by simpa using hc), h1]; rfl
  · intro i c hi
    have hlt : i < rank := by
      rw [← hc]; exact (List.getElem?_eq_some_iff.1 hi).1
    obtain ⟨n, n1, n2, n3⟩ := modSwitch_round Q q c hQ
    refine ⟨n, ?_, n2, n3⟩
    rw [h3 i hlt c hi, n1]
    congr 1
    exact (ZMod.intCast_mod n q)

/-- **C21**: the result only depends on the coefficient modulo `Q`. -/
theorem C21_modSwitch_congr (Q q c d : Int) (hQ : 0 < Q) (h : c % Q = d % Q) :
    modSwitchCoeff Q q c = modSwitchCoeff Q q d := by
  obtain ⟨k, hk⟩ : Q ∣ c - d := Int.ModEq.dvd (n := Q) (show d % Q = c % Q from h.symm)
  have hc : c = d + Q * k := by omega
  subst hc
  unfold modSwitchCoeff
  have e : ((d + Q * k) * q).emod Q = (d * q).emod Q := by
    have : (d + Q * k) * q = d * q + Q * (k * q) := by ring
    rw [this]; exact Int.add_mul_emod_self_left _ _ _
  simp only [e]
  set r := if (d * q).emod Q > Q / 2 then (d * q).emod Q - Q else (d * q).emod Q
  have e2 : ((d + Q * k) * q - r) = d * q - r + Q * (k * q) := by ring
  rw [e2, Int.add_mul_ediv_left _ _ (by omega)]
  exact Int.add_mul_emod_self_right _ _ _

/-- Non-vacuity: from modulus 10 to 7, `-3` goes to the residue of `-2` and `5` (a tie at 3.5)
to 3. -/
example : modSwitchCoeff 10 7 (-3) = (-2) % 7 ∧ modSwitchCoeff 10 7 5 = 3 ∧
    modSwitchCoeff 10 7 7 = (-2) % 7 := by decide

/-! ## C22 -/

/-- **C22**.  With a fixed-width injective element encoding, two polynomials have equal
`Marshal` output exactly if they have equal coefficients. -/
theorem C22_marshal {F B : Type} (enc : F → List B) (L : Nat) (hL : ∀ x, (enc x).length = L)
    (hinj : Function.Injective enc) (p q : Poly F) (hr : p.coeffs.length = q.coeffs.length) :
    p.marshal enc = q.marshal enc ↔ p.coeffs = q.coeffs := by
  constructor
  · unfold Poly.marshal
    generalize p.coeffs = a at *
    generalize q.coeffs = b at *
    intro h
    induction a generalizing b with
    | nil => cases b with
      | nil => rfl
      | cons y b => simp at hr
    | cons x a ih => cases b with
      | nil => simp at hr
      | cons y b =>
        rw [List.flatMap_cons, List.flatMap_cons] at h
        obtain ⟨h1, h2⟩ := List.append_inj h (by rw [hL, hL])
        rw [hinj h1, ih b (by simpa using hr) h2]
  · intro h; unfold Poly.marshal; rw [h]

/-- Non-vacuity: one-byte elements. -/
example : Poly.marshal (fun n : Fin 256 => [n]) ⟨[1, 2], false⟩ ≠
    Poly.marshal (fun n : Fin 256 => [n]) ⟨[2, 1], false⟩ := by
  intro h
  have := (C22_marshal (fun n : Fin 256 => [n]) 1 (fun _ => rfl)
    (by intro a b h; simpa using h) ⟨[1, 2], false⟩ ⟨[2, 1], false⟩ rfl).1 h
  revert this; decide

end Ringo
