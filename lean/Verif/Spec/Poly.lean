import Mathlib.Algebra.Polynomial.Eval.Defs
import Mathlib.Algebra.BigOperators.Ring.Finset

/-!
# Specification: what a coefficient list stands for
-/

namespace Ringo

open Finset Polynomial

/-- `v[0] + v[1] x + v[2] x^2 + ...` for the first `N` entries of `v`. -/
def evalAt {F : Type} [CommRing F] (N : Nat) (v : List F) (x : F) : F :=
  ∑ j ∈ range N, v.getD j 0 * x ^ j

/-- The polynomial with coefficient list `v`. -/
noncomputable def listPoly {F : Type} [CommRing F] (v : List F) : F[X] :=
  ∑ j ∈ range v.length, C (v.getD j 0) * X ^ j

end Ringo
