import Verif.Spec.JTypical
import Verif.Proof.JBound
import Verif.Props.JEnvOf

/-!
# Norms of responses within the bounds
-/

namespace Ringo

open Real

/-- The norm of `n` polynomials with bounded coefficients. -/
theorem jSqSum_range_le {n N : Nat} {z : Nat → List Int} {B : ℝ} (hl : ∀ k < n, (z k).length = N)
    (h : ∀ k < n, ∀ c ∈ z k, ((|c| : ℤ) : ℝ) ≤ B) :
    (jSqSum ((List.range n).map z) : ℝ) ≤ n * (N * B ^ 2) := by
  induction n with
  | zero => simp [jSqSum]
  | succ n ih =>
    have h1 := ih (fun k hk => hl k (by omega)) (fun k hk => h k (by omega))
    rw [List.range_succ, List.map_append, jSqSum_append]
    have h2 : (jSqSum ([n].map z) : ℝ) ≤ N * B ^ 2 := by
      have e : jSqSum ([n].map z) = ((z n).map fun c => c.natAbs ^ 2).sum := by simp [jSqSum]
      rw [e, ← hl n (by omega)]
      have hn := h n (by omega)
      generalize z n = w at hn
      induction w with
      | nil => simp
      | cons c w ihw =>
        have h3 := ihw (fun c' hc' => hn c' (by simp [hc']))
        have h4 := hn c (by simp)
        have h5 : ((c.natAbs : ℕ) : ℝ) = ((|c| : ℤ) : ℝ) := by
          rw [Int.abs_eq_natAbs]; simp
        have h6 : (0 : ℝ) ≤ (c.natAbs : ℕ) := Nat.cast_nonneg _
        rw [← h5] at h4
        have h7 : ((c.natAbs : ℕ) : ℝ) ^ 2 ≤ B ^ 2 := by gcongr
        simp only [List.map_cons, List.sum_cons, List.length_cons]
        push_cast at *
        linarith
    push_cast
    linarith

/-- The same with a different bound for the first. -/
theorem jSqSum_range_le' {n N : Nat} {z : Nat → List Int} {B C : ℝ} (hl : ∀ k < n + 1, (z k).length = N)
    (h0 : ∀ c ∈ z 0, ((|c| : ℤ) : ℝ) ≤ C) (h : ∀ k, 1 ≤ k → k < n + 1 → ∀ c ∈ z k, ((|c| : ℤ) : ℝ) ≤ B) :
    (jSqSum ((List.range (n + 1)).map z) : ℝ) ≤ N * C ^ 2 + n * (N * B ^ 2) := by
  rw [List.range_succ_eq_map, List.map_cons, List.map_map, ← List.singleton_append, jSqSum_append]
  have h1 := jSqSum_range_le (n := 1) (N := N) (z := z) (B := C) (fun k hk => hl k (by omega))
    (fun k hk => by obtain rfl : k = 0 := by omega
                    exact h0)
  have h2 := jSqSum_range_le (n := n) (N := N) (z := z ∘ Nat.succ) (B := B) (fun k hk => hl _ (by omega))
    (fun k hk => h _ (by omega) (by omega))
  simp only [List.range_one, List.map_cons, List.map_nil, Nat.cast_one, one_mul] at h1
  push_cast
  linarith

/-- Norms below 0.9 of the bound stay below it after rounding. -/
theorem toFloat_lt {f : ℚ} {n : Nat} {R : ℝ} {r : ℚ} (hr : (r : ℝ) = R) (hR : 0 < R)
    (hn : (n : ℝ) ≤ 81 / 100 * R ^ 2) (hf : |f - (Nat.sqrt n : ℕ)| ≤ (Nat.sqrt n : ℕ) / 2 ^ 53) : f < r := by
  have h1 : ((Nat.sqrt n : ℕ) : ℝ) ^ 2 ≤ (9 / 10 * R) ^ 2 := by
    have : ((Nat.sqrt n) ^ 2 : ℕ) ≤ n := Nat.sqrt_le' n
    have : (((Nat.sqrt n) ^ 2 : ℕ) : ℝ) ≤ n := by exact_mod_cast this
    push_cast at this
    linarith
  have h2 : ((Nat.sqrt n : ℕ) : ℝ) ≤ 9 / 10 * R := by
    have := abs_le_of_sq_le_sq h1 (by positivity)
    exact (le_abs_self _).trans this
  have h3 : f ≤ (Nat.sqrt n : ℕ) + (Nat.sqrt n : ℕ) / 2 ^ 53 := by
    have := (abs_le.mp hf).2
    linarith
  have h4 : (f : ℝ) ≤ (Nat.sqrt n : ℕ) + (Nat.sqrt n : ℕ) / 2 ^ 53 := by
    have := (Rat.cast_le (K := ℝ)).mpr h3
    simpa using this
  have h5 : (f : ℝ) < r := by
    rw [hr]
    norm_num at h4
    linarith
  exact_mod_cast h5

/-- The two halves of the norm of the response. -/
theorem response_le {S R d m a b ir nu ml U : ℝ} (hd : 0 < d) (hir : 0 ≤ ir)
    (hX : WithinTol ((R / 2) ^ 2) (d * (m * a ^ 2 + b ^ 2 + (ir + 2 ^ 13 / d) * ml ^ 2)))
    (hU : U * √(ir * d) ≤ (1 + tol) * (R / 2)) (hU0 : 0 ≤ U) (hnu : nu ≤ 2 ^ 13 / d)
    (hS : S ≤ (d * b ^ 2 + m * (d * a ^ 2)) + (nu + ir) * (d * ml ^ 2) + ir * (d * U ^ 2)) :
    S ≤ 81 / 100 * R ^ 2 := by
  have h1 : ir * (d * U ^ 2) ≤ ((1 + tol) * (R / 2)) ^ 2 := by
    calc ir * (d * U ^ 2) = (U * √(ir * d)) ^ 2 := by rw [mul_pow, Real.sq_sqrt (by positivity)]; ring
      _ ≤ _ := by gcongr
  have h2 : (nu + ir) * (d * ml ^ 2) ≤ (2 ^ 13 / d + ir) * (d * ml ^ 2) := by gcongr
  have h3 := (abs_le.mp hX).1
  set X := d * (m * a ^ 2 + b ^ 2 + (ir + 2 ^ 13 / d) * ml ^ 2) with hXd
  have h4 : (d * b ^ 2 + m * (d * a ^ 2)) + (2 ^ 13 / d + ir) * (d * ml ^ 2) = X := by rw [hXd]; ring
  have h5 : S ≤ X + ((1 + tol) * (R / 2)) ^ 2 := by linarith
  unfold tol at *
  nlinarith [sq_nonneg R]

/-- The two halves of the norm of the inner commitments. -/
theorem dcmp_le {S D L d G q Qp c o V : ℝ} (hL : 0 ≤ L) (hd : 0 < d) (hG : 0 ≤ G) (ho : 0 ≤ o)
    (hV : 0 ≤ V) (hc : 0 < c) (hq : √(L * d) * G * (q / 2 / c) ≤ (1 + tol) * (D / 2)) (hQ : Qp ≤ 1.275 * q)
    (hbig : 200 ≤ Qp / 2 / c) (ho' : √(o * d) * G * V ≤ (1 + tol) * (D / 2))
    (hS : S ≤ L * (d * (G * (Qp / 2 / c + 2)) ^ 2) + o * (d * (G * V) ^ 2)) : S ≤ 81 / 100 * D ^ 2 := by
  have h1 : Qp / 2 / c + 2 ≤ 1.288 * (q / 2 / c) := by
    have : Qp / 2 / c ≤ 1.275 * (q / 2 / c) := by
      calc Qp / 2 / c ≤ 1.275 * q / 2 / c := by gcongr
        _ = _ := by ring
    linarith
  have h2 : √(L * d) * (G * (Qp / 2 / c + 2)) ≤ 1.288 * ((1 + tol) * (D / 2)) := by
    calc √(L * d) * (G * (Qp / 2 / c + 2)) ≤ √(L * d) * (G * (1.288 * (q / 2 / c))) := by gcongr
      _ = 1.288 * (√(L * d) * G * (q / 2 / c)) := by ring
      _ ≤ _ := by gcongr
  have h3 : L * (d * (G * (Qp / 2 / c + 2)) ^ 2) ≤ (1.288 * ((1 + tol) * (D / 2))) ^ 2 := by
    calc L * (d * (G * (Qp / 2 / c + 2)) ^ 2) = (√(L * d) * (G * (Qp / 2 / c + 2))) ^ 2 := by
          rw [mul_pow √(L * d), Real.sq_sqrt (by positivity)]; ring
      _ ≤ _ := by gcongr
  have h4 : o * (d * (G * V) ^ 2) ≤ ((1 + tol) * (D / 2)) ^ 2 := by
    calc o * (d * (G * V) ^ 2) = (√(o * d) * G * V) ^ 2 := by
          rw [mul_assoc, mul_pow √(o * d), Real.sq_sqrt (by positivity)]; ring
      _ ≤ _ := by gcongr
  unfold tol at *
  nlinarith [sq_nonneg D]

/-- Up to four primes near a power of two. -/
theorem primes_prod_le {gen : ℤ → ℤ → Option (List Nat)} (hg : GenOk gen) {L : ℤ} (hL : 1 ≤ L)
    (h240 : bitsOf L * limbsOf L ≤ 240) {Q : List Nat}
    (hQ : primesFor gen (logb 2 (2 ^ ((bitsOf L * limbsOf L : ℤ) : ℝ))) = some Q) (hn : NearPrimes gen Q) :
    (Q.prod : ℝ) ≤ 1.275 * 2 ^ ((bitsOf L * limbsOf L : ℤ) : ℝ) := by
  have h1 := limbs_pos hL
  have h2 := bits_pos hL
  have h3 : L ≤ 240 := (le_bits_limbs hL).trans h240
  have h3' := limbs_le h3
  obtain ⟨Q', hQ', hlen, hq⟩ := hg _ _ h2 (bits_le hL) h1 h3'
  rw [NPVars.logb_two_rpow] at hQ
  have e : gen (bitsOf ((bitsOf L * limbsOf L : ℤ) : ℝ)) (limbsOf ((bitsOf L * limbsOf L : ℤ) : ℝ)) = some Q := hQ
  rw [limbs_again hL, bits_again hL, hQ'] at e
  injection e with e
  subst e
  have hb := hn _ _ hQ'
  have h5 : ((bitsOf L * limbsOf L : ℤ) : ℝ) = ((bitsOf L).toNat * Q'.length : ℕ) := by
    have : (bitsOf L * limbsOf L : ℤ) = ((bitsOf L).toNat * Q'.length : ℕ) := by
      push_cast; rw [hlen, Int.toNat_of_nonneg (by omega)]
    exact_mod_cast this
  rw [h5, Real.rpow_natCast, pow_mul]
  have h6 : 16 ^ Q'.length * Q'.prod ≤ 17 ^ Q'.length * (2 ^ (bitsOf L).toNat) ^ Q'.length := by
    clear * - hb
    induction Q' with
    | nil => simp
    | cons a Q ih =>
      have i1 := ih (fun x hx => hb x (by simp [hx]))
      have i2 := hb a (by simp)
      rw [List.length_cons, List.prod_cons, pow_succ, pow_succ, pow_succ]
      calc 16 ^ Q.length * 16 * (a * Q.prod) = (16 * a) * (16 ^ Q.length * Q.prod) := by ring
        _ ≤ (17 * 2 ^ (bitsOf L).toNat) * (17 ^ Q.length * (2 ^ (bitsOf L).toNat) ^ Q.length) :=
          Nat.mul_le_mul i2 i1
        _ = _ := by ring
  have h7 : (16 : ℝ) ^ Q'.length * Q'.prod ≤ 17 ^ Q'.length * (2 ^ (bitsOf L).toNat) ^ Q'.length := by
    exact_mod_cast h6
  have h8 : (17 : ℝ) ^ Q'.length ≤ 1.275 * 16 ^ Q'.length := by
    have : Q'.length ≤ 4 := by omega
    interval_cases Q'.length <;> norm_num
  have h9 : (0 : ℝ) < 16 ^ Q'.length := by positivity
  have h10 : (0 : ℝ) ≤ (2 ^ (bitsOf L).toNat) ^ Q'.length := by positivity
  have h11 : (16 : ℝ) ^ Q'.length * Q'.prod ≤ 16 ^ Q'.length * (1.275 * (2 ^ (bitsOf L).toNat) ^ Q'.length) := by
    calc _ ≤ _ := h7
      _ ≤ 1.275 * 16 ^ Q'.length * (2 ^ (bitsOf L).toNat) ^ Q'.length := by gcongr
      _ = _ := by ring
  exact le_of_mul_le_mul_left h11 h9

end Ringo
