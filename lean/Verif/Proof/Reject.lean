import Verif.Model.Gauss
import Verif.Spec.Gauss
import Mathlib.Analysis.SpecificLimits.Basic

/-!
# The law of a loop that draws until it returns
-/

namespace Ringo

open MeasureTheory

/-- The streams on which the loop returns in round `n` with a value in `A`. -/
def returnsAt {Ω α : Type} (body : Ω → Option α) (A : Set α) (n : ℕ) : Set (ℕ → Ω) :=
  Set.pi (Finset.range (n + 1)) fun i => if i = n then {x | ∃ a ∈ A, body x = some a} else {x | body x = none}

theorem untilSome_mem_iff {Ω α : Type} (body : Ω → Option α) (A : Set α) (ω : ℕ → Ω) :
    (∃ a ∈ A, untilSome body ω = some a) ↔ ∃ n, ω ∈ returnsAt body A n := by
  classical
  unfold untilSome returnsAt
  constructor
  · rintro ⟨a, ha, h⟩
    split at h
    · rename_i hex
      refine ⟨Nat.find hex, ?_⟩
      rw [Set.mem_pi]
      intro i hi
      rw [Finset.mem_coe, Finset.mem_range] at hi
      by_cases hin : i = Nat.find hex
      · rw [if_pos hin, hin]; exact ⟨a, ha, h⟩
      · rw [if_neg hin]
        have := Nat.find_min hex (by omega : i < Nat.find hex)
        simpa using this
    · exact absurd h (by simp)
  · rintro ⟨n, hn⟩
    rw [Set.mem_pi] at hn
    have h1 := hn n (by simp)
    rw [if_pos rfl] at h1
    obtain ⟨a, ha, h1⟩ := h1
    have hex : ∃ n, body (ω n) ≠ none := ⟨n, by rw [h1]; simp⟩
    rw [dif_pos hex]
    have : Nat.find hex = n := by
      rw [Nat.find_eq_iff]
      refine ⟨by rw [h1]; simp, fun m hm => ?_⟩
      have := hn m (by simp; omega)
      rw [if_neg (by omega)] at this
      simpa using this
    rw [this]
    exact ⟨a, ha, h1⟩

theorem returnsAt_disjoint {Ω α : Type} (body : Ω → Option α) (A : Set α) :
    Pairwise (Function.onFun Disjoint (returnsAt body A)) := by
  have key : ∀ m n, m < n → Disjoint (returnsAt body A m) (returnsAt body A n) := by
    intro m n hmn
    rw [Set.disjoint_left]
    intro ω h1 h2
    unfold returnsAt at h1 h2
    rw [Set.mem_pi] at h1 h2
    have e1 := h1 m (by simp)
    have e2 := h2 m (by simp; omega)
    rw [if_pos rfl] at e1
    rw [if_neg (by omega)] at e2
    obtain ⟨a, -, e1⟩ := e1
    rw [Set.mem_ofPred_eq, e1] at e2
    cases e2
  intro m n hmn
  rcases lt_or_gt_of_ne hmn with h | h
  · exact key m n h
  · exact (key n m h).symm

/-- **Law of the loop.**  The probability of returning a value in `A` is the probability of `A` in one
round, divided by the probability that a round returns. -/
theorem untilSome_law {Ω α : Type} [MeasurableSpace Ω] (μ : Measure Ω) [IsProbabilityMeasure μ]
    (body : Ω → Option α) (A : Set α) (hA : MeasurableSet {x | ∃ a ∈ A, body x = some a})
    (hnone : MeasurableSet {x | body x = none}) :
    stream μ {ω | ∃ a ∈ A, untilSome body ω = some a} =
      μ {x | ∃ a ∈ A, body x = some a} / μ {x | body x ≠ none} := by
  have hset : {ω | ∃ a ∈ A, untilSome body ω = some a} = ⋃ n, returnsAt body A n := by
    ext ω
    rw [Set.mem_ofPred_eq, untilSome_mem_iff, Set.mem_iUnion]
  have hmeas : ∀ n i : ℕ, MeasurableSet (if i = n then {x | ∃ a ∈ A, body x = some a} else {x | body x = none}) := by
    intro n i; split
    · exact hA
    · exact hnone
  rw [hset, measure_iUnion (returnsAt_disjoint body A)]
  · have hterm : ∀ n, stream μ (returnsAt body A n) =
        μ {x | ∃ a ∈ A, body x = some a} * μ {x | body x = none} ^ n := by
      intro n
      unfold stream returnsAt
      rw [Measure.infinitePi_pi _ (fun i _ => hmeas n i), Finset.prod_range_succ, if_pos rfl, mul_comm]
      congr 1
      rw [Finset.prod_congr rfl (g := fun _ => μ {x | body x = none})]
      · simp
      · intro i hi
        rw [Finset.mem_range] at hi
        rw [if_neg (by omega)]
    simp_rw [hterm]
    rw [ENNReal.tsum_mul_left, ENNReal.tsum_geometric, ENNReal.div_eq_inv_mul, mul_comm]
    congr 2
    have hc : {x | body x ≠ none} = {x | body x = none}ᶜ := rfl
    rw [hc, measure_compl hnone (measure_ne_top _ _), measure_univ]
  · intro n
    unfold returnsAt
    exact MeasurableSet.pi (Finset.countable_toSet _) fun i _ => hmeas n i

end Ringo
