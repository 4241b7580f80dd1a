import Verif.Model.Linear
import Mathlib.Algebra.BigOperators.Ring.Finset

/-!
# Specification: inner products and adjoint pairs of linear maps
-/

namespace Ringo

open Finset

/-- `⟨u, v⟩` for vectors of length `N`. -/
def inner {F : Type} [CommRing F] (N : Nat) (u v : List F) : F :=
  ∑ i ∈ range N, u.getD i 0 * v.getD i 0

/-- The contract of the `LinearChecker` interface: on vectors of length `N` both methods
succeed, whatever the output slice held before, and `⟨TransformTo(v), u⟩ = ⟨v, TransposeTo(u)⟩`. -/
def Adjoint {F : Type} [CommRing F] (N : Nat) (L : LinearChecker F) : Prop :=
  ∀ out out' u v : List F, out.length = N → out'.length = N → u.length = N → v.length = N →
    ∃ a b, L.transformTo out v = .ok a ∧ L.transposeTo out' u = .ok b ∧
      a.length = N ∧ b.length = N ∧ inner N a u = inner N v b

end Ringo
