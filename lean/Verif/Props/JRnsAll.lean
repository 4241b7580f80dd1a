import Verif.Props.JRns
import Mathlib.Data.Nat.ChineseRemainder

namespace Ringo

/-- **C58, partial.** Every vector of reduced residues is reconstructed to an integer with these
residues; it lies in `[-(Q+1)/2, Q/2)`, so it is the balanced representative unless the balanced
representative is `(Q-1)/2`. -/
theorem C58_every_partial (qs : List Nat) (h : Chain qs) (rs : List Nat)
    (hr : List.Forall₂ (fun r q => r < q) rs qs) :
    ∃ z : Int, reconstruct1 (rs.zip qs) = .ok z ∧
      (∀ c ∈ rs.zip qs, (c.2 : Int) ∣ z - c.1) ∧
      -(qs.prod : Int) - 1 ≤ 2 * z ∧ 2 * z < qs.prod := by
  have hlen := hr.length_eq
  have hodd := prod_odd h.odd
  have hpos := prod_pos' h.one
  have hsnd : (rs.zip qs).map Prod.snd = qs := List.map_snd_zip (by omega)
  have hco : (rs.zip qs).Pairwise (Function.onFun Nat.Coprime Prod.snd) := by
    have := h.coprime
    rw [← hsnd, List.pairwise_map] at this
    exact this
  obtain ⟨k, hk⟩ := Nat.chineseRemainderOfList Prod.fst Prod.snd (rs.zip qs) hco
  -- the balanced representative
  obtain ⟨z, hz1, hz2, hzk⟩ : ∃ z : Int, -(qs.prod : Int) < 2 * z ∧ 2 * z < qs.prod ∧
      (qs.prod : Int) ∣ z - k := by
    have h1 := Int.emod_nonneg (k : Int) (b := (qs.prod : Int)) (by omega)
    have h2 := Int.emod_lt_of_pos (k : Int) (b := (qs.prod : Int)) (by omega)
    have h3 := Int.mul_ediv_add_emod (k : Int) (qs.prod : Int)
    by_cases hlt : 2 * ((k : Int) % qs.prod) < qs.prod
    · exact ⟨(k : Int) % qs.prod, by omega, hlt, -((k : Int) / qs.prod), by linarith⟩
    · exact ⟨(k : Int) % qs.prod - qs.prod, by omega, by omega, -((k : Int) / qs.prod) - 1, by linarith⟩
  have hres : ∀ c ∈ rs.zip qs, (c.2 : Int) ∣ z - c.1 := by
    intro c hc
    have h1 : (c.2 : Int) ∣ z - k :=
      (Int.natCast_dvd_natCast.2 (List.dvd_prod (hsnd ▸ List.mem_map_of_mem hc))).trans hzk
    have h2 : (c.2 : Int) ∣ k - c.1 := (Int.natCast_modEq_iff.2 (hk c hc)).symm.dvd
    have := dvd_add h1 h2
    rwa [sub_add_sub_cancel] at this
  have hlt : ∀ c ∈ rs.zip qs, c.1 < c.2 := fun c hc => (List.forall₂_iff_zip.1 hr).2 hc
  have hzip : rs.zip qs = qs.map fun q => (bigResidue z q, q) := by
    have : (qs.map fun q => (bigResidue z q, q)) =
        (rs.zip qs).map fun c => (bigResidue z c.2, c.2) := by
      conv_lhs => rw [← hsnd, List.map_map]
      rfl
    rw [this]
    conv_lhs => rw [← List.map_id (rs.zip qs)]
    refine List.map_congr_left fun c hc => ?_
    have h0 := hlt c hc
    have h1 := bigResidue_lt z (q := c.2) (by omega)
    have h2 := bigResidue_cast z (q := c.2) (by omega)
    have h3 := Int.emod_emod_of_dvd z (dvd_refl (c.2 : Int))
    have h4 : z % c.2 = c.1 := by
      have h5 := (Int.emod_emod_of_dvd z (dvd_refl (c.2 : Int)))
      have h6 := Int.emod_eq_emod_iff_emod_sub_eq_zero.2 (Int.emod_eq_zero_of_dvd (hres c hc))
      rw [h6]
      exact Int.emod_eq_of_lt (by omega) (by omega)
    refine Prod.ext ?_ rfl
    simp only [id]
    omega
  by_cases hlast : 2 * z < (qs.prod : Int) - 1
  · exact ⟨z, hzip ▸ C58_partial qs h z hz1 hlast, hres, by omega, hz2⟩
  have hz : z = ((qs.prod - 1) / 2 : Nat) := by omega
  match qs, h, hzip with
  | [], h, _ => exact absurd rfl h.ne
  | [q], h, hzip =>
    obtain ⟨y, hy1, hy2, hy3⟩ := C58_single q (bigResidue z q) (h.odd q (by simp))
      (bigResidue_lt z (by have := h.one q (by simp); omega))
    rw [List.prod_singleton]
    have := abs_lt.1 (show |2 * y| < q by rw [abs_mul]; exact hy3)
    refine ⟨y, by rw [hzip]; exact hy1, ?_, by omega, by omega⟩
    intro c hc
    rw [hzip] at hc
    simp only [List.map_cons, List.map_nil, List.mem_singleton] at hc
    subst hc
    exact hy2
  | q0 :: q1 :: qs, h, hzip =>
    have hf := C58_refuted q0 q1 qs h
    rw [hzip, hz]
    refine ⟨_, hf, ?_, by omega, by omega⟩
    intro c hc
    rw [← hz, ← hzip] at hc
    have h1 := hres c hc
    have h2 : (c.2 : Int) ∣ ((q0 :: q1 :: qs).prod : Int) :=
      Int.natCast_dvd_natCast.2 (List.dvd_prod (hsnd ▸ List.mem_map_of_mem hc))
    have h3 := dvd_sub h1 h2
    have e : z - c.1 - ((q0 :: q1 :: qs).prod : Int) =
        -(((q0 :: q1 :: qs).prod + 1) / 2 : Nat) - c.1 := by omega
    rwa [e] at h3


/-- A concrete case: the residues 2 mod 3 and 3 mod 5 are those of -7. -/
theorem C58_case : Chain [3, 5] ∧ List.Forall₂ (fun r q => r < q) [2, 3] [3, 5] ∧
    reconstruct1 ([2, 3].zip [3, 5]) = .ok (-7) := by
  have h : Chain [3, 5] := ⟨by decide, by decide, by decide, by decide⟩
  have h7 := C58_partial [3, 5] h (-7) (by decide) (by decide)
  have e : ([3, 5].map fun q => (bigResidue (-7) q, q)) = [2, 3].zip [3, 5] := by decide
  rw [e] at h7
  exact ⟨h, by decide, h7⟩

end Ringo
