import Verif.Model.Gauss
import Verif.Spec.Gauss
import Verif.Props.Csprng
import Mathlib.Algebra.BigOperators.Intervals
import Mathlib.Tactic.Linarith
import Mathlib.Tactic.Positivity
import Mathlib.Tactic.FieldSimp

/-!
# Lemmas about the TwinCDT tables
-/

namespace Ringo

open Real Finset

theorem cdtRho_eq (c σ : ℝ) (x : ℤ) : cdtRho c σ x = gaussPdf σ c x := by
  unfold cdtRho gaussPdf
  rw [mul_comm (√(2 * π)) σ]
  congr 2
  ring

theorem gaussPdf_pos {σ : ℝ} (hσ : 0 < σ) (c x : ℝ) : 0 < gaussPdf σ c x := by
  unfold gaussPdf
  positivity

/-- Nearer to the center is heavier. -/
theorem gaussPdf_mono {σ : ℝ} (hσ : 0 < σ) {c x d y : ℝ} (h : (y - d) ^ 2 ≤ (x - c) ^ 2) :
    gaussPdf σ c x ≤ gaussPdf σ d y := by
  unfold gaussPdf
  gcongr

theorem gaussPdf_strict {σ : ℝ} (hσ : 0 < σ) {c x d y : ℝ} (h : (y - d) ^ 2 < (x - c) ^ 2) :
    gaussPdf σ c x < gaussPdf σ d y := by
  unfold gaussPdf
  gcongr

theorem gaussPdf_shift (σ c x : ℝ) (k : ℝ) : gaussPdf σ (c + k) (x + k) = gaussPdf σ c x := by
  unfold gaussPdf
  congr 4
  ring

theorem gaussCdf_shift (σ c : ℝ) (k x : ℤ) : gaussCdf σ (c + k) (x + k) = gaussCdf σ c x := by
  unfold gaussCdf
  rw [Int.floor_add_intCast]
  symm
  apply sum_bij (fun y _ => y + k)
  · intro y hy; rw [mem_Icc] at hy ⊢; omega
  · intro a _ b _ h; simpa using h
  · intro y hy; rw [mem_Icc] at hy; exact ⟨y - k, by rw [mem_Icc]; omega, by ring⟩
  · intro y _; rw [Int.cast_add, gaussPdf_shift]

/-- A loop adding the terms from `lo` on is a sum over integers. -/
theorem sum_range_eq_Icc (f : ℤ → ℝ) (lo : ℤ) (n : ℕ) :
    ∑ k ∈ range n, f (lo + k) = ∑ y ∈ Icc lo (lo + n - 1), f y := by
  apply sum_bij (fun (k : ℕ) _ => lo + (k : ℤ))
  · intro k hk; rw [mem_range] at hk; rw [mem_Icc]; omega
  · intro a _ b _ h; simpa using h
  · intro y hy; rw [mem_Icc] at hy; exact ⟨(y - lo).toNat, by rw [mem_range]; omega, by omega⟩
  · intro k _; rfl

theorem foldl_add_eq_sum (f : ℕ → ℝ) (n : ℕ) :
    (List.range n).foldl (fun cdf i => cdf + f i) 0 = ∑ k ∈ range n, f k := by
  induction n with
  | zero => simp
  | succ n ih => rw [List.range_succ, List.foldl_append, ih, sum_range_succ]; rfl

theorem cdt_foldl (f : ℕ → ℝ) (e : ℝ → ℕ) (n : ℕ) :
    (List.range n).foldl (fun (st : ℝ × List ℕ) i => (st.1 + f i, st.2 ++ [e (st.1 + f i)])) (0, []) =
      (∑ k ∈ range n, f k, (List.range n).map fun i => e (∑ k ∈ range (i + 1), f k)) := by
  induction n with
  | zero => simp
  | succ n ih =>
    rw [List.range_succ, List.foldl_append, ih, List.map_append]
    simp only [List.foldl_cons, List.foldl_nil, List.map_cons, List.map_nil, sum_range_succ]

theorem cdtTail_pos {σ : ℝ} (hσ : 0 < σ) : 1 ≤ cdtTail σ := by
  unfold cdtTail
  exact Int.one_le_ceil_iff.2 (by linarith)

/-- The entries of a table for a center in `[0, 1)`. -/
theorem computeCDT_eq (c σ : ℝ) (h0 : 0 ≤ c) (h1 : c < 1) :
    computeCDT c σ = (List.range (2 * cdtTail σ + 1).toNat).map fun (i : ℕ) =>
      cdtEntry (gaussCdf σ c (i - cdtTail σ)) := by
  unfold computeCDT
  simp only
  rw [cdt_foldl (fun i => cdtRho c σ (-cdtTail σ + i)) cdtEntry]
  rw [show cdtTail σ - -cdtTail σ + 1 = 2 * cdtTail σ + 1 by ring]
  apply List.map_congr_left
  intro i _
  congr 1
  rw [sum_range_eq_Icc (fun y => cdtRho c σ y)]
  unfold gaussCdf
  rw [Int.floor_eq_zero_iff.2 ⟨h0, h1⟩]
  have : -cdtTail σ + ((i + 1 : ℕ) : ℤ) - 1 = i - cdtTail σ := by push_cast; ring
  rw [this, zero_sub]
  exact sum_congr rfl fun y _ => cdtRho_eq c σ y

theorem gaussCdf_mono {σ : ℝ} (hσ : 0 < σ) (c : ℝ) {x y : ℤ} (h : x ≤ y) : gaussCdf σ c x ≤ gaussCdf σ c y := by
  unfold gaussCdf
  exact sum_le_sum_of_subset_of_nonneg (Icc_subset_Icc_right h) fun z _ _ => (gaussPdf_pos hσ c z).le

theorem gaussCdf_nonneg {σ : ℝ} (hσ : 0 < σ) (c : ℝ) (x : ℤ) : 0 ≤ gaussCdf σ c x :=
  sum_nonneg fun z _ => (gaussPdf_pos hσ c z).le

/-! ## Entries -/

theorem roundAway_nonneg {x : ℝ} (h : 0 ≤ x) : 0 ≤ roundAway x ∧ (roundAway x : ℝ) ≤ x + 1 / 2 ∧
    x - 1 / 2 < roundAway x := by
  unfold roundAway
  rw [if_pos h]
  exact ⟨Int.floor_nonneg.2 (by linarith), Int.floor_le _, by linarith [Int.lt_floor_add_one (x + 1 / 2)]⟩

/-- A word below an entry is below the cumulative mass, a word above it is above. -/
theorem cdtEntry_spec {cdf : ℝ} (h : 0 ≤ cdf) (u : ℕ) (hu : u < 2 ^ 64) :
    (u < cdtEntry cdf → (u : ℝ) / 2 ^ 64 < cdf) ∧ (cdtEntry cdf < u → cdf < (u : ℝ) / 2 ^ 64) := by
  have hu' : (u : ℝ) ≤ 2 ^ 64 - 1 := by
    have : u + 1 ≤ 2 ^ 64 := hu
    have : ((u + 1 : ℕ) : ℝ) ≤ ((2 ^ 64 : ℕ) : ℝ) := Nat.cast_le.2 this
    push_cast at this
    linarith
  unfold cdtEntry
  by_cases h1 : cdf > 1
  · rw [if_pos h1]
    refine ⟨fun _ => ?_, fun hh => by omega⟩
    rw [div_lt_iff₀ (by positivity)]
    nlinarith
  · rw [if_neg h1]
    obtain ⟨r0, r1, r2⟩ := roundAway_nonneg (x := cdf * 2 ^ 64) (by positivity)
    obtain ⟨m, hm⟩ := Int.eq_ofNat_of_zero_le r0
    rw [hm] at r1 r2 ⊢
    simp only [Int.cast_natCast] at r1 r2
    unfold satUint64
    simp only [Int.toNat_natCast]
    constructor
    · intro hh
      have : u + 1 ≤ m := by omega
      have : ((u + 1 : ℕ) : ℝ) ≤ m := Nat.cast_le.2 this
      push_cast at this
      rw [div_lt_iff₀ (by positivity)]
      linarith
    · intro hh
      have : m + 1 ≤ u := by omega
      have : ((m + 1 : ℕ) : ℝ) ≤ u := Nat.cast_le.2 this
      push_cast at this
      rw [lt_div_iff₀ (by positivity)]
      linarith

theorem cdtEntry_mono {a b : ℝ} (ha : 0 ≤ a) (h : a ≤ b) : cdtEntry a ≤ cdtEntry b := by
  unfold cdtEntry
  by_cases h1 : b > 1
  · rw [if_pos h1]
    split
    · exact le_rfl
    · exact min_le_right _ _
  · rw [if_neg h1, if_neg (by linarith)]
    unfold satUint64
    apply min_le_min_right
    apply Int.toNat_le_toNat
    unfold roundAway
    rw [if_pos (by positivity), if_pos (by have := ha.trans h; positivity)]
    exact Int.floor_mono (by gcongr)

/-! ## Search -/

theorem bsearchLoop_sorted (f : ℕ → ℕ) (hf : Monotone f) (n u i j : ℕ) (hij : i ≤ j) (hj : j ≤ n)
    (hlo : ∀ k < i, f k < u) (hhi : ∀ k, j ≤ k → k < n → u ≤ f k) :
    ∃ r, bsearchLoop ((List.range n).map f) u i j = .ok r ∧ r ≤ n ∧ (∀ k < r, f k < u) ∧
      ∀ k, r ≤ k → k < n → u ≤ f k := by
  induction hn : j - i using Nat.strong_induction_on generalizing i j with
  | _ d ih =>
    rw [bsearchLoop]
    by_cases h : i < j
    · rw [if_pos h]
      have hh : (i + j) / 2 < ((List.range n).map f).length := by simp; omega
      simp only [idx_ok hh, go_bind_ok, List.getElem_map, List.getElem_range]
      split
      · rename_i hx
        exact ih (j - ((i + j) / 2 + 1)) (by omega) ((i + j) / 2 + 1) j (by omega) hj
          (fun k hk => lt_of_le_of_lt (hf (by omega)) hx) hhi rfl
      · rename_i hx
        exact ih ((i + j) / 2 - i) (by omega) i ((i + j) / 2) (by omega) (by omega) hlo
          (fun k hk _ => le_trans (by omega) (hf hk)) rfl
    · rw [if_neg h]
      exact ⟨i, rfl, by omega, hlo, fun k hk => hhi k (by omega)⟩

/-- `slices.BinarySearch` on a sorted table that does not contain the word. -/
theorem binarySearch_sorted (f : ℕ → ℕ) (hf : Monotone f) (n u : ℕ) (hu : ∀ k < n, f k ≠ u) :
    ∃ r, binarySearch ((List.range n).map f) u = .ok (r, false) ∧ r ≤ n ∧ (∀ k < r, f k < u) ∧
      ∀ k, r ≤ k → k < n → u < f k := by
  obtain ⟨r, h1, h2, h3, h4⟩ := bsearchLoop_sorted f hf n u 0 n (by omega) le_rfl (by omega) (by omega)
  refine ⟨r, ?_, h2, h3, fun k hk hk' => lt_of_le_of_ne (h4 k hk hk') (hu k hk').symm⟩
  unfold binarySearch
  rw [List.length_map, List.length_range, h1, go_bind_ok]
  have : decide (((List.range n).map f)[r]? = some u) = false := by
    rw [decide_eq_false_iff_not]
    intro h
    rw [List.getElem?_eq_some_iff] at h
    obtain ⟨hr, h⟩ := h
    simp only [List.getElem_map, List.getElem_range] at h
    exact hu r (by simpa using hr) h
  rw [this]
  rfl

end Ringo
