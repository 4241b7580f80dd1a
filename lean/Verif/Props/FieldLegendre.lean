import Verif.Proof.FieldLegLoop
import Verif.Props.FieldSqrt

/-!
# C105: `Legendre`

The six packages with the binary GCD, and `examples/mult/zp` with an exponentiation.
-/

namespace Ringo

open FieldPkg

/-- The packages whose `Legendre` is a binary GCD. -/
def legendrePkgs : List FieldPkg := [bfvPkg, jindoPkg, zp110Pkg, zp220Pkg, zp440Pkg, zp880Pkg]

theorem legendrePkgs_good {P : FieldPkg} (hP : P ∈ legendrePkgs) : P.Good := by
  simp only [legendrePkgs, List.mem_cons, List.not_mem_nil, or_false] at hP
  rcases hP with rfl | rfl | rfl | rfl | rfl | rfl
  · exact C79_bfv.1
  · exact C79_jindo.1
  · exact C79_zp110.1
  · exact C79_zp220.1
  · exact C79_zp440.1
  · exact C79_zp880.1

/-- **C105.**  `z.Legendre()` ends, after a number of passes bounded for the package, and is 0 for zero, 1 for
the other squares and -1 for the rest. -/
theorem C105 {P : FieldPkg} (hP : P ∈ legendrePkgs) : ∃ N, ∀ fuel, N ≤ fuel → ∀ (z : List Nat) (a : ZMod P.p),
    MontForm P.p P.n z a →
      ∃ v, P.legendre fuel z = some v ∧ (a = 0 → v = 0) ∧ (a ≠ 0 → IsSquare a → v = 1) ∧
        (¬ IsSquare a → v = -1) := by
  have h := legendrePkgs_good hP
  exact ⟨P.gcdFuel, fun fuel hf z a hz => ⟨_, legendre_jacobi h hz.len hz.words hf, jacobi_value h hz⟩⟩

/-- **C105**, `examples/mult/zp`. -/
theorem C105_mult {z : List Nat} {a : ZMod multPkg.p} (hz : MontForm multPkg.p multPkg.n z a) :
    (a = 0 → multPkg.legendreExp multLegendre z = 0) ∧
      (a ≠ 0 → IsSquare a → multPkg.legendreExp multLegendre z = 1) ∧
      (¬ IsSquare a → multPkg.legendreExp multLegendre z = -1) :=
  mont_legendreExp C79_mult.1 (by decide +kernel) hz

/-- **C105** and **C103** agree: `Sqrt` returns `nil` exactly if `Legendre` is -1. -/
theorem C105_sqrt {P : FieldPkg} {S : SqrtConsts} {half : List Nat} (hP : (P, S, half) ∈ sqrtPkgs)
    (hL : P ∈ legendrePkgs) : ∃ N, ∀ fuel, N ≤ fuel → ∀ (m : Mem) (z x : Nat) (a : ZMod P.p),
      MontForm P.p P.n (m x) a →
        (P.legendre fuel (m x) = some (-1) ↔ P.sqrtAt S fuel m z x = some (m, false)) := by
  obtain ⟨N, hN⟩ := C105 hL
  refine ⟨max N 96, fun fuel hf m z x a hx => ?_⟩
  obtain ⟨v, hv, h0, h1, h2⟩ := hN fuel (le_of_max_le_left hf) _ a hx
  by_cases hs : IsSquare a
  · obtain ⟨m', c, e, -⟩ := C103_square hP (le_of_max_le_right hf) m z x hx hs
    rw [hv, e]
    constructor
    · intro hc
      have hc : v = -1 := Option.some.inj hc
      by_cases ha : a = 0
      · rw [h0 ha] at hc; exact absurd hc (by norm_num)
      · rw [h1 ha hs] at hc; exact absurd hc (by norm_num)
    · intro hc
      have := congrArg Prod.snd (Option.some.inj hc)
      exact absurd this (by simp)
  · rw [hv, C103_nonsquare hP (le_of_max_le_right hf) m z x hx hs, h2 hs]
    simp

/-- A case for each value, in every package: 0, 4 and the `g` of `Sqrt`. -/
theorem C105_case {P : FieldPkg} {S : SqrtConsts} {half : List Nat} (hP : (P, S, half) ∈ sqrtPkgs)
    (hL : P ∈ legendrePkgs) : ∃ fuel, P.legendre fuel (List.replicate P.n 0) = some 0 ∧
      P.legendre fuel (P.setUint64 4) = some 1 ∧ P.legendre fuel S.g = some (-1) := by
  have h := legendrePkgs_good hL
  have := Fact.mk h.prime
  obtain ⟨N, hN⟩ := C105 hL
  obtain ⟨h4, hs4, γ, hg, hgs⟩ := C103_case hP
  refine ⟨N, ?_, ?_, ?_⟩
  · obtain ⟨v, hv, h0, -, -⟩ := hN N le_rfl _ 0 (mont_zero h)
    rw [hv, h0 rfl]
  · obtain ⟨v, hv, -, h1, -⟩ := hN N le_rfl _ _ h4
    rw [hv, h1 _ hs4]
    intro hc
    rw [show ((4 : Nat) : ZMod P.p) = ((2 ^ 2 : Nat) : ZMod P.p) by norm_num, ZMod.natCast_eq_zero_iff] at hc
    have := (Nat.prime_dvd_prime_iff_eq h.prime Nat.prime_two).1 (h.prime.dvd_of_dvd_pow hc)
    exact h.odd this
  · obtain ⟨v, hv, -, -, h1⟩ := hN N le_rfl _ _ hg
    rw [hv, h1 hgs]

end Ringo
