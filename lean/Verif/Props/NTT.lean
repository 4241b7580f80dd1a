import Verif.Proof.NTTFinal
import Verif.Model.Poly
import Mathlib.Tactic.NormNum.Prime

/-!
# C09 - C13, C15: the number-theoretic transforms
-/

namespace Ringo

/-! ## C09: construction -/

/-- **C09**, refusals: a rank that is not a power of two, or with `2*rank` not dividing `p-1`,
is refused by both constructors, and rank 1 by the cyclic one. -/
theorem C09_refused (p : Nat) [Fact p.Prime] (rank : Nat) :
    ((¬ ∃ K, rank = 2 ^ K) ∨ ¬ 2 * rank ∣ p - 1 →
      newCyclicTransformer p rank = .error .panic ∧
      newCyclotomicTransformer p rank = .error .panic) ∧
    newCyclicTransformer p 1 = .error .panic := by
  have h0 : ∀ rank, ((¬ ∃ K, rank = 2 ^ K) ∨ ¬ 2 * rank ∣ p - 1 →
      newCyclicTransformer p rank = .error .panic ∧
      newCyclotomicTransformer p rank = .error .panic) := by
    intro rank h
    unfold newCyclicTransformer newCyclotomicTransformer
    by_cases hp : isPowerOfTwo rank = true
    · rcases h with h | h
      · exact absurd ((isPowerOfTwo_iff rank).1 hp) h
      · have : (p - 1) % (2 * rank) ≠ 0 := fun he => h (Nat.dvd_of_mod_eq_zero he)
        simp [hp, this, goPanic]
    · simp [hp, goPanic]
  refine ⟨h0 rank, ?_⟩
  by_cases h : 2 * 1 ∣ p - 1
  · unfold newCyclicTransformer
    rw [if_neg (by decide), if_neg (by rw [not_not]; exact Nat.mod_eq_zero_of_dvd h)]
    simp only [show (1 : Nat) / 2 = 0 from rfl, powersOf_zero]
    rfl
  · exact (h0 1 (Or.inr h)).1

/-- **C09** (cyclic): otherwise the tables hold powers of a primitive `rank`-th root `g`; entry
`2^k + i` is `g` to the bit reversal of `i`. -/
theorem C09_cyclic (p : Nat) [hp : Fact p.Prime] (K : Nat) (hK : 1 ≤ K) (hd : 2 * 2 ^ K ∣ p - 1) :
    ∃ T g, newCyclicTransformer p (2 ^ K) = .ok T ∧ IsPrimitiveRoot g (2 ^ K) ∧ T.rank = 2 ^ K ∧
      T.rankInv * (2 ^ K : Nat) = 1 ∧
      (∀ k i, k < K → i < 2 ^ k → T.tw[2 ^ k + i]? = some (g ^ rev (K - 1) i)) ∧
      (∀ k i, k < K → i < 2 ^ k → T.twInv[2 ^ k + i]? = some ((g ^ rev (K - 1) i)⁻¹)) := by
  obtain ⟨T, g, h1, h2, h3, h4, h5, h6, h7, h8⟩ := newCyclic_spec p K hK hd
  have hprim := isPrimitiveRoot_of_neg_one (neg_one_ne_one p K hd) g (K - 1) h2
  rw [show K - 1 + 1 = K by omega] at hprim
  have hlen : ∀ k i, k < K → i < 2 ^ k → 2 ^ k + i < 2 ^ K := by
    intro k i hk hi
    have : 2 ^ (k + 1) ≤ 2 ^ K := Nat.pow_le_pow_right (by decide) hk
    rw [Nat.pow_succ] at this; omega
  refine ⟨T, g, h1, hprim, h3, ?_, ?_, ?_⟩
  · rw [h6]
    exact inv_mul_cancel₀ (by push_cast; exact two_pow_ne_zero_zmod p K hd)
  · intro k i hk hi
    have := h7 k i hk hi
    have hl := hlen k i hk hi
    rw [List.getD_eq_getElem?_getD, List.getElem?_eq_getElem (by omega), Option.getD_some] at this
    rw [List.getElem?_eq_getElem (by omega), this]
  · intro k i hk hi
    have := h8 k i hk hi
    have hl := hlen k i hk hi
    rw [List.getD_eq_getElem?_getD, List.getElem?_eq_getElem (by omega), Option.getD_some] at this
    rw [List.getElem?_eq_getElem (by omega), this, inv_pow]

/-- **C09** (cyclotomic): the tables hold powers of a primitive `2*rank`-th root. -/
theorem C09_cyclotomic (p : Nat) [hp : Fact p.Prime] (K : Nat) (hd : 2 * 2 ^ K ∣ p - 1) :
    ∃ T g, newCyclotomicTransformer p (2 ^ K) = .ok T ∧ IsPrimitiveRoot g (2 * 2 ^ K) ∧
      T.rank = 2 ^ K ∧ T.rankInv * (2 ^ K : Nat) = 1 ∧
      (∀ i < 2 ^ K, T.tw[i]? = some (g ^ rev K i)) ∧
      (∀ i < 2 ^ K, T.twInv[i]? = some ((g ^ rev K i)⁻¹)) := by
  obtain ⟨T, g, h1, h2, h3, h4, h5, h6, h7, h8⟩ := newCyclotomic_spec p K hd
  have hprim := isPrimitiveRoot_of_neg_one (neg_one_ne_one p K hd) g K h2
  rw [Nat.pow_succ'] at hprim
  refine ⟨T, g, h1, hprim, h3, ?_, ?_, ?_⟩
  · rw [h6]
    exact inv_mul_cancel₀ (by push_cast; exact two_pow_ne_zero_zmod p K hd)
  · intro i hi
    have := h7 i hi
    rw [List.getD_eq_getElem?_getD, List.getElem?_eq_getElem (by omega), Option.getD_some] at this
    rw [List.getElem?_eq_getElem (by omega), this]
  · intro i hi
    have := h8 i hi
    rw [List.getD_eq_getElem?_getD, List.getElem?_eq_getElem (by omega), Option.getD_some] at this
    rw [List.getElem?_eq_getElem (by omega), this, inv_pow]

/-- Non-vacuity: `p = 97`, rank 16 (`32 ∣ 96`). -/
example : ∃ T g, @newCyclotomicTransformer 97 ⟨by norm_num⟩ 16 = .ok T ∧
    IsPrimitiveRoot (g : ZMod 97) 32 := by
  obtain ⟨T, g, h1, h2, -⟩ := @C09_cyclotomic 97 ⟨by norm_num⟩ 4 (by norm_num)
  exact ⟨T, g, h1, h2⟩

/-! ## C10, C11: forward transforms -/

/-- **C10**.  Any transformer the cyclic constructor returns for rank `2^K ≥ 8` comes with one
primitive `2^K`-th root `g` such that `FwdNTTTo` writes at position `i` the value of the input
polynomial at `g^(rev i)`. -/
theorem C10_cyclicForward (p : Nat) [hp : Fact p.Prime] (K : Nat) (hK : 3 ≤ K)
    (T : Transformer (ZMod p)) (hT : newCyclicTransformer p (2 ^ K) = .ok T) :
    ∃ g : ZMod p, IsPrimitiveRoot g (2 ^ K) ∧
      ∀ out v : List (ZMod p), out.length = 2 ^ K → v.length = 2 ^ K →
        ∃ w, T.fwdNTTTo out v = .ok w ∧ w.length = 2 ^ K ∧
          ∀ i < 2 ^ K, w[i]? = some (evalAt (2 ^ K) v (g ^ rev K i)) := by
  by_cases hd : 2 * 2 ^ K ∣ p - 1
  · obtain ⟨T', g, h1, h2, h3⟩ := cyclic_good p K (by omega) hd
    rw [hT] at h1; injection h1 with h1; subst h1
    have hprim := isPrimitiveRoot_of_neg_one (neg_one_ne_one p K hd) g (K - 1) h2
    rw [show K - 1 + 1 = K by omega] at hprim
    refine ⟨g, hprim, fun out v ho hv => ?_⟩
    obtain ⟨w, w1, w2, -, w3⟩ := fwd_spec hK h3 out v ho hv
    refine ⟨w, w1, w2, fun i hi => ?_⟩
    have := w3 i hi
    rw [cycZ_eq _ _ _ _ hi] at this
    rw [← this, List.getD_eq_getElem?_getD, List.getElem?_eq_getElem (by omega), Option.getD_some]
  · rw [((C09_refused p (2 ^ K)).1 (Or.inr hd)).1] at hT
    cases hT

/-- **C11**.  Any transformer the cyclotomic constructor returns for rank `2^K ≥ 8` comes with
one primitive `2*2^K`-th root `psi` such that `FwdNTTTo` writes at position `i` the value of
the input polynomial at `psi^(2*rev(i)+1)`. -/
theorem C11_cyclotomicForward (p : Nat) [hp : Fact p.Prime] (K : Nat) (hK : 3 ≤ K)
    (T : Transformer (ZMod p)) (hT : newCyclotomicTransformer p (2 ^ K) = .ok T) :
    ∃ psi : ZMod p, IsPrimitiveRoot psi (2 * 2 ^ K) ∧
      ∀ out v : List (ZMod p), out.length = 2 ^ K → v.length = 2 ^ K →
        ∃ w, T.fwdNTTTo out v = .ok w ∧ w.length = 2 ^ K ∧
          ∀ i < 2 ^ K, w[i]? = some (evalAt (2 ^ K) v (psi ^ (2 * rev K i + 1))) := by
  by_cases hd : 2 * 2 ^ K ∣ p - 1
  · obtain ⟨T', g, h1, h2, h3⟩ := cyclotomic_good p K hd
    rw [hT] at h1; injection h1 with h1; subst h1
    have hprim := isPrimitiveRoot_of_neg_one (neg_one_ne_one p K hd) g K h2
    rw [Nat.pow_succ'] at hprim
    refine ⟨g, hprim, fun out v ho hv => ?_⟩
    obtain ⟨w, w1, w2, -, w3⟩ := fwd_spec hK h3 out v ho hv
    refine ⟨w, w1, w2, fun i hi => ?_⟩
    have := w3 i hi
    rw [(rev_add_pow K i hi).2] at this
    rw [← this, List.getD_eq_getElem?_getD, List.getElem?_eq_getElem (by omega), Option.getD_some]
  · rw [((C09_refused p (2 ^ K)).1 (Or.inr hd)).2] at hT
    cases hT

/-- Non-vacuity: rank 8 over the field of 17 elements is accepted. -/
example : ∃ T, @newCyclotomicTransformer 17 ⟨by norm_num⟩ (2 ^ 3) = .ok T ∧
    ∃ w, T.fwdNTTTo (List.replicate 8 0) [1, 2, 3, 4, 5, 6, 7, 8] = .ok w ∧ w.length = 8 := by
  have : Fact (Nat.Prime 17) := ⟨by norm_num⟩
  obtain ⟨T, -, h1, -⟩ := C09_cyclotomic 17 3 (by norm_num)
  obtain ⟨psi, -, h3⟩ := C11_cyclotomicForward 17 3 le_rfl T h1
  obtain ⟨w, h4, h5, -⟩ := h3 (List.replicate 8 0) [1, 2, 3, 4, 5, 6, 7, 8] rfl rfl
  exact ⟨T, h1, w, h4, h5⟩

/-! ## C12: inverse -/

/-- **C12** (cyclic). -/
theorem C12_cyclicInverse (p : Nat) [hp : Fact p.Prime] (K : Nat) (hK : 3 ≤ K)
    (T : Transformer (ZMod p)) (hT : newCyclicTransformer p (2 ^ K) = .ok T)
    (out out' v : List (ZMod p)) (ho : out.length = 2 ^ K) (ho' : out'.length = 2 ^ K)
    (hv : v.length = 2 ^ K) :
    (T.fwdNTTTo out v >>= fun w => T.invNTTTo out' w) = .ok v ∧
    (T.invNTTTo out v >>= fun w => T.fwdNTTTo out' w) = .ok v := by
  by_cases hd : 2 * 2 ^ K ∣ p - 1
  · obtain ⟨T', g, h1, h2, h3⟩ := cyclic_good p K (by omega) hd
    rw [hT] at h1; injection h1 with h1; subst h1
    exact ⟨inv_fwd hK h3 out out' v ho ho' hv, fwd_inv hK h3 out out' v ho ho' hv⟩
  · rw [((C09_refused p (2 ^ K)).1 (Or.inr hd)).1] at hT
    cases hT

/-- **C12** (cyclotomic). -/
theorem C12_cyclotomicInverse (p : Nat) [hp : Fact p.Prime] (K : Nat) (hK : 3 ≤ K)
    (T : Transformer (ZMod p)) (hT : newCyclotomicTransformer p (2 ^ K) = .ok T)
    (out out' v : List (ZMod p)) (ho : out.length = 2 ^ K) (ho' : out'.length = 2 ^ K)
    (hv : v.length = 2 ^ K) :
    (T.fwdNTTTo out v >>= fun w => T.invNTTTo out' w) = .ok v ∧
    (T.invNTTTo out v >>= fun w => T.fwdNTTTo out' w) = .ok v := by
  by_cases hd : 2 * 2 ^ K ∣ p - 1
  · obtain ⟨T', g, h1, h2, h3⟩ := cyclotomic_good p K hd
    rw [hT] at h1; injection h1 with h1; subst h1
    exact ⟨inv_fwd hK h3 out out' v ho ho' hv, fwd_inv hK h3 out out' v ho ho' hv⟩
  · rw [((C09_refused p (2 ^ K)).1 (Or.inr hd)).2] at hT
    cases hT

/-! ## C13: unrolled kernels -/

/-- **C13**.  For every length `2^K ≥ 32` and every twiddle table at least that long, the
unrolled kernels succeed (in particular no unsafe access leaves the slice) and return what the
simple loops return. -/
theorem C13_unrolled {F : Type} [CommRing F] (K : Nat) (hK : 5 ≤ K) (p tw : List F)
    (hp : p.length = 2 ^ K) (htw : 2 ^ K ≤ tw.length) :
    (∃ w, nttInPlaceUnroll p tw = .ok w ∧ nttInPlaceRef p tw = .ok w) ∧
    (∃ w, inttInPlaceUnroll p tw = .ok w ∧ inttInPlaceRef p tw = .ok w) := by
  constructor
  · obtain ⟨w, h, -⟩ := layers_spec K butterfly tw p (List.range K) 0
      (fun k hk => by simpa using hk) hp htw
    exact ⟨w, by rw [nttUnroll_eq K hK p tw hp, h], by rw [nttRef_eq K p tw hp, h]⟩
  · obtain ⟨w, h, -⟩ := layers_spec K invButterfly tw p (List.range K).reverse 0
      (fun k hk => by simpa using hk) hp htw
    exact ⟨w, by rw [inttUnroll_eq K hK p tw hp, h], by rw [inttRef_eq K p tw hp, h]⟩

/-- Non-vacuity: length 32. -/
example : ∃ w, nttInPlaceUnroll ((List.range 32).map (fun n => (n : ℤ))) (List.replicate 32 3) = .ok w ∧
    nttInPlaceRef ((List.range 32).map (fun n => (n : ℤ))) (List.replicate 32 3) = .ok w :=
  (C13_unrolled 5 le_rfl _ _ (by simp) (by simp)).1

/-! ## C15: copies -/

/-- **C15**, the part that holds: for lengths divisible by eight (every rank `2^K ≥ 8`) a copy
stays inside both slices and makes the destination equal to the source.  Missing: ranks 1, 2
and 4, see `C15_refuted`. -/
theorem C15_partial {F : Type} (p p0 : Poly F) (h8 : p.coeffs.length % 8 = 0)
    (hl : p0.coeffs.length = p.coeffs.length) : p.copyFrom p0 = .ok p0 := by
  unfold Poly.copyFrom
  rw [copy8_eq _ _ h8 hl]; rfl

/-- **C15** fails for every other length: `CopyFrom` and both transforms access memory outside
the slices.  Ranks 2 and 4 (and 1 for the cyclotomic ring) are accepted by the constructors. -/
theorem C15_refuted {F : Type} [CommRing F] :
    (∀ p p0 : Poly F, p.coeffs.length % 8 ≠ 0 → p0.coeffs.length = p.coeffs.length →
      p.copyFrom p0 = .error .ub) ∧
    (∀ (T : Transformer F) (out v : List F), out.length % 8 ≠ 0 → v.length = out.length →
      T.fwdNTTTo out v = .error .ub ∧ T.invNTTTo out v = .error .ub) ∧
    (∀ K ∈ [1, 2], ∃ T, @newCyclicTransformer 17 ⟨by norm_num⟩ (2 ^ K) = .ok T ∧
      T.fwdNTTTo (List.replicate (2 ^ K) 0) (List.replicate (2 ^ K) 0) = .error .ub) := by
  have h2 : ∀ {F : Type} [CommRing F] (T : Transformer F) (out v : List F), out.length % 8 ≠ 0 →
      v.length = out.length → T.fwdNTTTo out v = .error .ub ∧ T.invNTTTo out v = .error .ub := by
    intro F _ T out v h8 hl
    unfold Transformer.fwdNTTTo Transformer.invNTTTo
    rw [copy8_ub _ _ h8 hl]
    exact ⟨rfl, rfl⟩
  refine ⟨?_, h2, ?_⟩
  · intro p p0 h8 hl
    unfold Poly.copyFrom
    rw [copy8_ub _ _ h8 hl]; rfl
  · intro K hK
    have : Fact (Nat.Prime 17) := ⟨by norm_num⟩
    have hK' : K = 1 ∨ K = 2 := by simpa using hK
    obtain ⟨T, g, h1, -⟩ := C09_cyclic 17 K (by omega) (by rcases hK' with rfl | rfl <;> norm_num)
    refine ⟨T, h1, (h2 T _ _ ?_ rfl).1⟩
    rcases hK' with rfl | rfl <;> simp

end Ringo
