import Verif.Proof.NTTFn
import Mathlib.Algebra.BigOperators.Ring.Finset
import Mathlib.Algebra.BigOperators.Intervals
import Mathlib.Tactic.LinearCombination

/-!
# The layers compute evaluations, and the inverse layers undo them
-/

namespace Ringo

open Finset

variable {F : Type}

theorem pair_lo {i t : Nat} (h : i % (2 * t) < t) :
    (i + t) % (2 * t) = i % (2 * t) + t ∧ (i + t) / (2 * t) = i / (2 * t) := by
  have h2t : 0 < 2 * t := by omega
  have hd := Nat.div_add_mod i (2 * t)
  have e : i + t = 2 * t * (i / (2 * t)) + (i % (2 * t) + t) := by omega
  constructor
  · rw [e, Nat.mul_add_mod, Nat.mod_eq_of_lt (by omega)]
  · rw [e, Nat.mul_add_div h2t, Nat.div_eq_of_lt (a := i % (2 * t) + t) (by omega)]; rfl

theorem pair_hi {i t : Nat} (ht : 0 < t) (h : ¬ i % (2 * t) < t) :
    t ≤ i ∧ (i - t) % (2 * t) = i % (2 * t) - t ∧ (i - t) / (2 * t) = i / (2 * t) := by
  have h2t : 0 < 2 * t := by omega
  have hd := Nat.div_add_mod i (2 * t)
  have hm : i % (2 * t) < 2 * t := Nat.mod_lt _ h2t
  have e : i - t = 2 * t * (i / (2 * t)) + (i % (2 * t) - t) := by omega
  refine ⟨by omega, ?_, ?_⟩
  · rw [e, Nat.mul_add_mod, Nat.mod_eq_of_lt (by omega)]
  · rw [e, Nat.mul_add_div h2t, Nat.div_eq_of_lt (a := i % (2 * t) - t) (by omega)]; rfl

section CommRing
variable [CommRing F]

theorem butterfly_eq (u v w : F) : butterfly u v w = (u + v * w, u - v * w) := by
  simp only [butterfly, Prod.mk.injEq, true_and]; ring

theorem invButterfly_eq (u v w : F) : invButterfly u v w = (u + v, (u - v) * w) := by
  simp only [invButterfly, Prod.mk.injEq, true_and]; ring

/-- `z` lists, level by level, the values `x^(block size)` takes on each block. -/
structure TwTree (K : Nat) (tw z : Nat → F) : Prop where
  even : ∀ n, 1 ≤ n → n < 2 ^ K → z (2 * n) = tw n
  odd : ∀ n, 1 ≤ n → n < 2 ^ K → z (2 * n + 1) = - tw n
  sq : ∀ n, 1 ≤ n → n < 2 ^ K → tw n * tw n = z n

theorem sum_split (f : Nat → F) (t : Nat) (x : F) :
    ∑ j ∈ range (2 * t), f j * x ^ j = ∑ j ∈ range t, (f j + f (j + t) * x ^ t) * x ^ j := by
  rw [two_mul, sum_range_add, ← sum_add_distrib]
  apply sum_congr rfl
  intro j _
  rw [Nat.add_comm t j, pow_add]; ring

theorem fwd_blocks (K : Nat) (tw z f : Nat → F) (hz : TwTree K tw z) (k : Nat) (hk : k ≤ K) :
    ∀ i < 2 ^ k, ∀ x : F, x ^ (2 ^ (K - k)) = z (2 ^ k + i) →
      ∑ j ∈ range (2 ^ K), f j * x ^ j =
        ∑ j ∈ range (2 ^ (K - k)),
          layersFn K butterfly tw (List.range k) f (i * 2 ^ (K - k) + j) * x ^ j := by
  induction k with
  | zero =>
    intro i hi x _
    have : i = 0 := by simpa using hi
    subst this
    simp [layersFn]
  | succ k ih =>
    intro i hi x hx
    have ih := ih (by omega) (i / 2) (by rw [Nat.pow_succ] at hi; omega) x
    set t := 2 ^ (K - (k + 1)) with ht
    have htpos : 0 < t := Nat.two_pow_pos _
    have h2t : 2 ^ (K - k) = 2 * t := by
      rw [ht, ← Nat.pow_succ']; congr 1; omega
    have hlay : layersFn K butterfly tw (List.range (k + 1)) f =
        layerFn butterfly tw (2 ^ k) t (layersFn K butterfly tw (List.range k) f) := by
      rw [layersFn, List.range_succ, List.foldl_append, List.foldl_cons, List.foldl_nil, ht,
        show K - (k + 1) = K - 1 - k by omega]
      rfl
    set g := layersFn K butterfly tw (List.range k) f with hg
    have hn1 : 1 ≤ 2 ^ k + i / 2 := by have := Nat.two_pow_pos k; omega
    have hn2 : 2 ^ k + i / 2 < 2 ^ K := by
      have : 2 ^ (k + 1) ≤ 2 ^ K := Nat.pow_le_pow_right (by decide) hk
      rw [Nat.pow_succ] at this hi
      omega
    have hsq := hz.sq _ hn1 hn2
    rw [hlay]
    rw [h2t] at ih
    rcases Nat.even_or_odd' i with ⟨a, ha | ha⟩
    · have hi2 : i / 2 = a := by omega
      rw [hi2] at ih hn1 hn2 hsq
      have hw : x ^ t = tw (2 ^ k + a) := by
        rw [hx, ← hz.even _ hn1 hn2]; congr 1; rw [Nat.pow_succ]; omega
      rw [ih (by rw [two_mul, pow_add, hw, hsq]), sum_split]
      apply sum_congr rfl
      intro j hj
      rw [mem_range] at hj
      congr 1
      have e1 : (i * t + j) = 2 * t * a + j := by rw [ha]; ring
      unfold layerFn
      rw [e1, Nat.mul_add_mod, Nat.mod_eq_of_lt (by omega), if_pos hj, Nat.mul_add_div (by omega),
        Nat.div_eq_of_lt (by omega), butterfly_eq, hw]
      simp only [Nat.add_zero]
      rw [show a * (2 * t) + j = 2 * t * a + j by ring,
        show a * (2 * t) + (j + t) = 2 * t * a + j + t by ring]
    · have hi2 : i / 2 = a := by omega
      rw [hi2] at ih hn1 hn2 hsq
      have hw : x ^ t = - tw (2 ^ k + a) := by
        rw [hx, ← hz.odd _ hn1 hn2]; congr 1; rw [Nat.pow_succ]; omega
      rw [ih (by rw [two_mul, pow_add, hw, neg_mul_neg, hsq]), sum_split]
      apply sum_congr rfl
      intro j hj
      rw [mem_range] at hj
      congr 1
      have e1 : (i * t + j) = 2 * t * a + (t + j) := by rw [ha]; ring
      unfold layerFn
      rw [e1, Nat.mul_add_mod, Nat.mod_eq_of_lt (by omega), if_neg (by omega), Nat.mul_add_div (by omega),
        Nat.div_eq_of_lt (by omega), butterfly_eq, hw]
      simp only [Nat.add_zero]
      rw [show a * (2 * t) + j = 2 * t * a + j by ring,
        show a * (2 * t) + (j + t) = 2 * t * a + (t + j) by ring,
        show 2 * t * a + (t + j) - t = 2 * t * a + j by omega]
      ring

/-- Output `i` of the forward layers is the value of the input polynomial at `z (N + i)`. -/
theorem fwd_eval (K : Nat) (tw z f : Nat → F) (hz : TwTree K tw z) (i : Nat) (hi : i < 2 ^ K) :
    layersFn K butterfly tw (List.range K) f i =
      ∑ j ∈ range (2 ^ K), f j * z (2 ^ K + i) ^ j := by
  have := fwd_blocks K tw z f hz K le_rfl i hi (z (2 ^ K + i)) (by simp)
  rw [this]
  simp

theorem layer_inv_fwd (tw twInv : Nat → F) (m t : Nat) (ht : 0 < t) (f : Nat → F) (i : Nat)
    (hw : twInv (m + i / (2 * t)) * tw (m + i / (2 * t)) = 1) :
    layerFn invButterfly twInv m t (layerFn butterfly tw m t f) i = 2 * f i := by
  rw [layerFn]
  split
  · next h =>
    obtain ⟨h1, h2⟩ := pair_lo h
    rw [invButterfly_eq]
    simp only [layerFn, if_pos h, h1, h2, if_neg (show ¬ i % (2 * t) + t < t by omega),
      Nat.add_sub_cancel, butterfly_eq]
    ring
  · next h =>
    obtain ⟨h0, h1, h2⟩ := pair_hi ht h
    have hm : i % (2 * t) < 2 * t := Nat.mod_lt _ (by omega)
    rw [invButterfly_eq]
    simp only [layerFn, if_neg h, h1, h2, if_pos (show i % (2 * t) - t < t by omega),
      Nat.sub_add_cancel h0, butterfly_eq]
    linear_combination (2 * f i) * hw

theorem layer_fwd_inv (tw twInv : Nat → F) (m t : Nat) (ht : 0 < t) (f : Nat → F) (i : Nat)
    (hw : twInv (m + i / (2 * t)) * tw (m + i / (2 * t)) = 1) :
    layerFn butterfly tw m t (layerFn invButterfly twInv m t f) i = 2 * f i := by
  rw [layerFn]
  split
  · next h =>
    obtain ⟨h1, h2⟩ := pair_lo h
    rw [butterfly_eq]
    simp only [layerFn, if_pos h, h1, h2, if_neg (show ¬ i % (2 * t) + t < t by omega),
      Nat.add_sub_cancel, invButterfly_eq]
    linear_combination (f i - f (i + t)) * hw
  · next h =>
    obtain ⟨h0, h1, h2⟩ := pair_hi ht h
    have hm : i % (2 * t) < 2 * t := Nat.mod_lt _ (by omega)
    rw [butterfly_eq]
    simp only [layerFn, if_neg h, h1, h2, if_pos (show i % (2 * t) - t < t by omega),
      Nat.sub_add_cancel h0, invButterfly_eq]
    linear_combination -(f (i - t) - f i) * hw

theorem layerFn_smul_fwd (tw : Nat → F) (m t : Nat) (c : F) (f : Nat → F) :
    layerFn butterfly tw m t (fun i => c * f i) = fun i => c * layerFn butterfly tw m t f i := by
  funext i
  unfold layerFn
  split <;> simp only [butterfly_eq] <;> ring

theorem layerFn_smul_inv (tw : Nat → F) (m t : Nat) (c : F) (f : Nat → F) :
    layerFn invButterfly tw m t (fun i => c * f i) = fun i => c * layerFn invButterfly tw m t f i := by
  funext i
  unfold layerFn
  split <;> simp only [invButterfly_eq] <;> ring

theorem layersFn_smul_inv (K : Nat) (tw : Nat → F) (L : List Nat) (c : F) (f : Nat → F) :
    layersFn K invButterfly tw L (fun i => c * f i) = fun i => c * layersFn K invButterfly tw L f i := by
  induction L generalizing f with
  | nil => rfl
  | cons k L ih =>
    simp only [layersFn, List.foldl_cons] at ih ⊢
    rw [layerFn_smul_inv, ih]

theorem tw_index (K k i : Nat) (hk : k < K) (hi : i < 2 ^ K) :
    1 ≤ 2 ^ k + i / (2 * 2 ^ (K - 1 - k)) ∧ 2 ^ k + i / (2 * 2 ^ (K - 1 - k)) < 2 ^ K := by
  have hs := layer_size K k hk
  have h1 : i / (2 * 2 ^ (K - 1 - k)) < 2 ^ k := by
    rw [Nat.div_lt_iff_lt_mul (by have := Nat.two_pow_pos (K - 1 - k); omega)]; omega
  have h2 : 2 ^ (k + 1) ≤ 2 ^ K := Nat.pow_le_pow_right (by decide) hk
  have := Nat.two_pow_pos k
  rw [Nat.pow_succ] at h2
  generalize i / (2 * 2 ^ (K - 1 - k)) = a at *
  constructor <;> omega

theorem layers_inv_fwd (K : Nat) (tw twInv : Nat → F)
    (hw : ∀ n, 1 ≤ n → n < 2 ^ K → twInv n * tw n = 1) (n : Nat) (hn : n ≤ K) (f : Nat → F) :
    ∀ i < 2 ^ K, layersFn K invButterfly twInv (List.range n).reverse
      (layersFn K butterfly tw (List.range n) f) i = 2 ^ n * f i := by
  induction n generalizing f with
  | zero => intro i _; simp [layersFn]
  | succ n ih =>
    intro i hi
    have e1 : layersFn K butterfly tw (List.range (n + 1)) f =
        layerFn butterfly tw (2 ^ n) (2 ^ (K - 1 - n)) (layersFn K butterfly tw (List.range n) f) := by
      rw [layersFn, List.range_succ, List.foldl_append]; rfl
    have e2 : ∀ g, layersFn K invButterfly twInv (List.range (n + 1)).reverse g =
        layersFn K invButterfly twInv (List.range n).reverse
          (layerFn invButterfly twInv (2 ^ n) (2 ^ (K - 1 - n)) g) := by
      intro g
      rw [layersFn, List.range_succ, List.reverse_append]; rfl
    rw [e1, e2, layersFn_congr K invButterfly twInv _ (fun k hk => by
        rw [List.mem_reverse, List.mem_range] at hk; omega)
      (g := fun i => 2 * layersFn K butterfly tw (List.range n) f i) (fun j hj => by
        obtain ⟨h1, h2⟩ := tw_index K n j (by omega) hj
        exact layer_inv_fwd tw twInv _ _ (Nat.two_pow_pos _) _ j (hw _ h1 h2)) i hi]
    rw [layersFn_smul_inv]
    simp only
    rw [ih (by omega) f i hi]
    ring

theorem layers_fwd_inv (K : Nat) (tw twInv : Nat → F)
    (hw : ∀ n, 1 ≤ n → n < 2 ^ K → twInv n * tw n = 1) (n : Nat) (hn : n ≤ K) (f : Nat → F) :
    ∀ i < 2 ^ K, layersFn K butterfly tw (List.range n)
      (layersFn K invButterfly twInv (List.range n).reverse f) i = 2 ^ n * f i := by
  induction n generalizing f with
  | zero => intro i _; simp [layersFn]
  | succ n ih =>
    intro i hi
    have e1 : ∀ g, layersFn K butterfly tw (List.range (n + 1)) g =
        layerFn butterfly tw (2 ^ n) (2 ^ (K - 1 - n)) (layersFn K butterfly tw (List.range n) g) := by
      intro g
      rw [layersFn, List.range_succ, List.foldl_append]; rfl
    have e2 : layersFn K invButterfly twInv (List.range (n + 1)).reverse f =
        layersFn K invButterfly twInv (List.range n).reverse
          (layerFn invButterfly twInv (2 ^ n) (2 ^ (K - 1 - n)) f) := by
      rw [layersFn, List.range_succ, List.reverse_append]; rfl
    have hs := layer_size K n (by omega)
    rw [e1, e2, layerFn_congr butterfly tw _ _ (Nat.two_pow_pos _)
      (fun j hj => ih (by omega) _ j (by omega)) i (by omega)]
    rw [layerFn_smul_fwd]
    obtain ⟨h1, h2⟩ := tw_index K n i (by omega) hi
    simp only
    rw [layer_fwd_inv tw twInv _ _ (Nat.two_pow_pos _) _ i (hw _ h1 h2)]
    ring

end CommRing

end Ringo
