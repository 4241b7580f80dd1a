import Verif.Proof.JProto

/-!
# The representatives that `reconstructTo` returns
-/

namespace Ringo

/-- The integers that reconstruction can return: with one modulus those below `Q/2` in absolute value, with several
those from `-(Q+1)/2` to `(Q-3)/2`. -/
def RepRange (qs : List Nat) (c : Int) : Prop :=
  if qs.length = 1 then 2 * |c| < (qs.prod : Int) else -(qs.prod + 1 : Int) ≤ 2 * c ∧ 2 * c < (qs.prod : Int) - 1

theorem RepRange.of_lt {qs : List Nat} {c : Int} (h1 : -(qs.prod : Int) < 2 * c)
    (h2 : 2 * c < (qs.prod : Int) - 1) : RepRange qs c := by
  unfold RepRange
  split
  · rw [show (2 : Int) * |c| = |2 * c| by rw [abs_mul]; rfl, abs_lt]
    constructor <;> omega
  · constructor <;> omega

theorem RepRange.abs_le {qs : List Nat} {c : Int} (h : RepRange qs c) : 2 * |c| ≤ qs.prod + 1 := by
  unfold RepRange at h
  split at h
  · omega
  · rw [show (2 : Int) * |c| = |2 * c| by rw [abs_mul]; rfl, _root_.abs_le]
    constructor <;> omega

/-- Two of them differ by less than `Q`. -/
theorem RepRange.sub_lt {qs : List Nat} {a b : Int} (ha : RepRange qs a) (hb : RepRange qs b) :
    |a - b| < qs.prod := by
  unfold RepRange at ha hb
  rw [abs_lt]
  by_cases hl : qs.length = 1
  · rw [if_pos hl, show ∀ c : Int, (2 : Int) * |c| = |2 * c| from fun c => by rw [abs_mul]; rfl, abs_lt] at ha hb
    constructor <;> omega
  · rw [if_neg hl] at ha hb
    constructor <;> omega

/-- Every class has one. -/
theorem RepRange.exists {qs : List Nat} (h : Chain qs) (z : Int) :
    ∃ w, RepRange qs w ∧ (qs.prod : Int) ∣ w - z := by
  have hodd := prod_odd h.odd
  have hpos := prod_pos' h.one
  set Q := qs.prod with hQ
  have hdiv : ∀ t : Int, (Q : Int) ∣ (z + t) % Q - t - z := fun t => by
    refine ⟨-((z + t) / Q), ?_⟩
    have := Int.emod_add_mul_ediv (z + t) Q
    linear_combination this
  by_cases h1 : qs.length = 1
  · refine ⟨(z + (Q - 1) / 2) % Q - (Q - 1) / 2, ?_, hdiv _⟩
    unfold RepRange
    rw [if_pos h1, ← hQ, show ∀ c : Int, (2 : Int) * |c| = |2 * c| from fun c => by rw [abs_mul]; rfl, abs_lt]
    have h2 := Int.emod_nonneg (z + (Q - 1) / 2) (show (Q : Int) ≠ 0 by omega)
    have h3 := Int.emod_lt_of_pos (z + (Q - 1) / 2) (show (0 : Int) < Q by omega)
    constructor <;> omega
  · refine ⟨(z + (Q + 1) / 2) % Q - (Q + 1) / 2, ?_, hdiv _⟩
    unfold RepRange
    rw [if_neg h1, ← hQ]
    have h2 := Int.emod_nonneg (z + (Q + 1) / 2) (show (Q : Int) ≠ 0 by omega)
    have h3 := Int.emod_lt_of_pos (z + (Q + 1) / 2) (show (0 : Int) < Q by omega)
    constructor <;> omega

/-- They are found again. -/
theorem reconstruct1_rep {qs : List Nat} (h : Chain qs) {z : Int} (hz : RepRange qs z) :
    reconstruct1 (qs.map fun q => (bigResidue z q, q)) = .ok z := by
  by_cases h1 : -(qs.prod : Int) < 2 * z ∧ 2 * z < (qs.prod : Int) - 1
  · exact C58_partial qs h z h1.1 h1.2
  unfold RepRange at hz
  have hodd := prod_odd h.odd
  split at hz
  · next hl =>
    obtain ⟨q, rfl⟩ := List.length_eq_one_iff.1 hl
    have hq1 := h.one q (by simp)
    have hq2 := h.odd q (by simp)
    obtain ⟨w, w1, w2, w3⟩ := C58_single q (bigResidue z q) hq2 (bigResidue_lt z (by omega))
    rw [List.map_singleton, w1]
    have h3 := (C59_big z q (by omega)).2
    have h4 : (q : Int) ∣ w - z := by
      have := dvd_add w2 h3
      rwa [sub_add_sub_cancel] at this
    obtain ⟨k, hk⟩ := h4
    rw [List.prod_singleton] at hz
    rw [show ∀ c : Int, (2 : Int) * |c| = |2 * c| from fun c => by rw [abs_mul]; rfl, abs_lt] at hz w3
    have hk0 : k = 0 := by
      have hb1 : (q : Int) * k < q * 1 := by omega
      have hb2 : (q : Int) * (-1) < q * k := by omega
      have := lt_of_mul_lt_mul_left hb1 (by omega)
      have := lt_of_mul_lt_mul_left hb2 (by omega)
      omega
    rw [hk0] at hk
    congr 1; omega
  · next hl =>
    obtain ⟨q0, q1, qs', rfl⟩ : ∃ q0 q1 qs', qs = q0 :: q1 :: qs' := by
      match qs, hl, h.ne with
      | [], _, hn => exact absurd rfl hn
      | [_], hl, _ => exact absurd rfl hl
      | a :: b :: c, _, _ => exact ⟨a, b, c, rfl⟩
    have h3 := C58_refuted q0 q1 qs' h
    simp only at h3
    set Q := (q0 :: q1 :: qs').prod with hQ
    have hz2 : z = -((Q + 1) / 2 : Nat) := by omega
    rw [← hz2] at h3
    rw [← h3]
    congr 1
    apply List.map_congr_left
    intro q hq
    rw [bigResidue_congr (qs := q0 :: q1 :: qs') hq]
    rw [← hQ]
    exact ⟨-1, by omega⟩

theorem reconstructTo_rep {qs : List Nat} (hc : Chain qs) (z : List Int) (hz : ∀ c ∈ z, RepRange qs c) :
    reconstructTo qs (z.map fun c => qs.map (bigResidue c)) = .ok z := by
  unfold reconstructTo
  rw [List.mapM_map]
  induction z with
  | nil => rfl
  | cons c z ih =>
    rw [List.mapM_cons]
    simp only [Function.comp_apply, zip_residues]
    rw [reconstruct1_rep hc (hz c (by simp)), go_bind_ok]
    rw [ih (fun d hd => hz d (by simp [hd]))]; rfl

section
variable {T : Type} [AddCommGroup T] {L : LRing T} (A : L.Lawful)

theorem LRing.Lawful.reconstruct_rep {t : T} {z : List Int} (hz : z.length = L.N)
    (h : A.val t = toR L.qs L.N z) (hr : ∀ c ∈ z, RepRange L.qs c) :
    reconstructTo L.qs (L.unload t) = .ok z := by
  rw [A.unload_eq t z hz h]
  exact reconstructTo_rep A.chain z hr

/-- Every element has exactly one list of representatives, and reconstruction finds it. -/
theorem LRing.Lawful.exists_reps (t : T) :
    ∃ z : List Int, z.length = L.N ∧ A.val t = toR L.qs L.N z ∧ ∀ c ∈ z, RepRange L.qs c := by
  obtain ⟨u, h1, h2⟩ := A.exists_rep t
  choose r hr1 hr2 using RepRange.exists A.chain
  refine ⟨u.map r, by simpa using h1, ?_, ?_⟩
  · rw [h2]
    apply toR_congr
    rw [List.forall₂_map_right_iff, List.forall₂_same]
    intro c _
    rw [← dvd_neg, neg_sub]
    exact hr2 c
  · intro c hc
    obtain ⟨d, -, rfl⟩ := List.mem_map.1 hc
    exact hr1 d

end

end Ringo
